import Verif.Infer
import Verif.Props.AllowNull
import Verif.Props.PipelineValid

/-!
# C38, C39: schemas inferred from values

`Faithful` is the class of values for which C38 holds: floats are finite, and no key of a `serialize_map`
is rewritten to the text of another key.
-/

namespace Verif
open Spec Serde

section
variable (odd : Val → Option (List Char))

/-- No key of the map becomes the text of a different key when `SerializeMap` rewrites it. -/
def Spec.KeysApart (l : List (Val × Val)) : Prop :=
  ∀ e ∈ l, ∀ f ∈ l, ∀ t s s' u, toText odd e.1 = some t → keyText e.1 = some s → keyText f.1 = some s' →
    toText odd f.1 = some u → trimQuotes t = s' → s = s' ∧ trimQuotes u = s'

mutual
/-- Floats are finite and keys stay apart, outside the parts that are not looked at. -/
def Spec.Faithful : Val → Prop
  | .float q _ => q.isSome = true
  | .some v => Spec.Faithful v
  | .newtypeStruct _ v => Spec.Faithful v
  | .seq l => Spec.FaithfulAll l
  | .tuple _ l => Spec.FaithfulAll l
  | .map l => Spec.KeysApart odd l ∧ Spec.FaithfulEntries l
  | .struct _ l => Spec.FaithfulFields l
  | .collectMap l => Spec.FaithfulEntries l
  | _ => True
@[inherit_doc Spec.Faithful] def Spec.FaithfulAll : List Val → Prop
  | [] => True
  | v :: l => Spec.Faithful v ∧ Spec.FaithfulAll l
@[inherit_doc Spec.Faithful] def Spec.FaithfulEntries : List (Val × Val) → Prop
  | [] => True
  | (_, v) :: l => Spec.Faithful v ∧ Spec.FaithfulEntries l
@[inherit_doc Spec.Faithful] def Spec.FaithfulFields : List (String × Val) → Prop
  | [] => True
  | (_, v) :: l => Spec.Faithful v ∧ Spec.FaithfulFields l
end

end

variable {odd : Val → Option (List Char)} {D : Dialect} {env : Env}

/-! ## C39: the shape of inferred schemas -/

/-- The type `t`, or `t` and null. -/
def Spec.TypeIs (t : String) (ty : Json) : Prop :=
  ty = .str t ∨ (t ≠ "null" ∧ ty = .arr [.str t, .str "null"])

/-- The title of a value: the name of its type, or else of what it wraps. -/
def Spec.valTitle : Val → Option String
  | .newtypeStruct name v => if name = "" then Spec.valTitle v else some name
  | .tuple name _ | .struct name _ => if name = "" then none else some name
  | _ => none

mutual
/-- The schemas that inference gives, with or without a title: anything, or a type with what belongs to the type.
What is inside has no title. -/
inductive Spec.Inferred : Option String → Json → Prop
  | any : Spec.Inferred none (.bool true)
  | anyTitled (n : String) : Spec.Inferred (some n) (.obj [("title", .str n)])
  | typed {n : Option String} {m r : List (String × Json)} {t : String} {ty : Json} : Obj.Sorted m → Obj.get m "type" = some ty →
      Spec.TypeIs t ty → Obj.get m "title" = n.map .str →
      (∀ k, k ≠ "type" → k ≠ "title" → Obj.get m k = Obj.get r k) → Spec.InferredRest t r →
      Spec.Inferred n (.obj m)
/-- The keywords that belong to a type. -/
inductive Spec.InferredRest : String → List (String × Json) → Prop
  | scalar {t : String} : t ∈ ["null", "boolean", "integer", "number", "string"] → Spec.InferredRest t []
  | char : Spec.InferredRest "string" [("minLength", .num (.int 1)), ("maxLength", .num (.int 1))]
  | bytes : Spec.InferredRest "array" [("items", .obj [("format", .str "uint8"), ("maximum", .num (.int 255)),
      ("minimum", .num (.int 0)), ("type", .str "integer")])]
  /-- a sequence with one item schema -/
  | seq {s : Json} : Spec.Inferred none s → Spec.InferredRest "array" [("items", s)]
  /-- a sequence with several item schemas, pairwise distinct -/
  | seqAny {l : List Json} : 2 ≤ l.length → l.Nodup → (∀ s ∈ l, Spec.Inferred none s) →
      Spec.InferredRest "array" [("items", .obj [("anyOf", .arr l)])]
  /-- a tuple, with a fixed length -/
  | tuple {l : List Json} : (∀ s ∈ l, Spec.Inferred none s) →
      Spec.InferredRest "array" [("maxItems", .num (.int l.length)), ("minItems", .num (.int l.length)),
        ("prefixItems", .arr l)]
  /-- an object with known keys -/
  | props {p : List (String × Json)} : Obj.Sorted p → (∀ e ∈ p, Spec.Inferred none e.2) →
      Spec.InferredRest "object" [("properties", .obj p)]
  /-- a map, with one value schema -/
  | map {s : Json} : Spec.Inferred none s → Spec.InferredRest "object" [("additionalProperties", s)]
end

theorem inferred_mkObj {t : String} {r : List (String × Json)} (hr : InferredRest t r)
    (hn : (Obj.keys r).Nodup) (ht : "type" ∉ Obj.keys r) (htitle : "title" ∉ Obj.keys r) :
    Inferred none (mkObj (("type", .str t) :: r)) := by
  have hn' : (Obj.keys (("type", Json.str t) :: r)).Nodup := by
    simp only [Obj.keys, List.map_cons, List.nodup_cons]; exact ⟨ht, hn⟩
  refine .typed (r := r) (Obj.sorted_ofList _) (by rw [get_ofList hn']; rfl) (.inl rfl) ?_ ?_ hr
  · rw [get_ofList hn']
    exact (Obj.get_cons _ _ _ _).trans (by rw [if_neg (by decide)]; exact Obj.get_eq_none.2 htitle)
  · intro k h1 _
    rw [get_ofList hn', Obj.get_cons, if_neg (Ne.symm h1)]

theorem restKeys {t : String} {r : List (String × Json)} (h : InferredRest t r) : ∀ k ∈ Obj.keys r,
    k ∈ ["minLength", "maxLength", "items", "maxItems", "minItems", "prefixItems", "properties",
      "additionalProperties"] := by
  cases h <;> simp [Obj.keys]

theorem rest_none {t : String} {r : List (String × Json)} (h : InferredRest t r) {k : String}
    (hk : k ∉ ["minLength", "maxLength", "items", "maxItems", "minItems", "prefixItems", "properties",
      "additionalProperties"]) : Obj.get r k = none := by
  rw [Obj.get_eq_none]; exact fun hm => hk (restKeys h k hm)

theorem inferred_withTitle {o : Option String} {s : Json} (h : Inferred o s) (n : String) :
    Inferred (if n = "" then o else some n) (withTitle n s) := by
  unfold withTitle
  split
  · exact h
  · cases h with
    | any => exact .anyTitled n
    | anyTitled k =>
      have : Schema.put (.obj [("title", .str k)]) "title" (.str n) = .obj [("title", .str n)] := by
        rw [put_obj]; simp [Obj.insert]
      rw [this]; exact .anyTitled n
    | @typed _ m r t ty hs hty ht htitle hr hrest =>
      rw [put_obj]
      refine .typed (r := r) (Obj.sorted_insert hs _ _) (by rw [Obj.get_insert_ne _ _ (by decide)]; exact hty) ht ?_ ?_ hrest
      · rw [Obj.get_insert_self]; rfl
      · intro k h1 h2
        rw [Obj.get_insert_ne _ _ (Ne.symm h2)]; exact hr k h1 h2

theorem inferred_allowNull {o : Option String} {s : Json} (h : Inferred o s) : Inferred o (allowNull s) := by
  cases h with
  | any => exact .any
  | anyTitled n =>
    have : allowNull (.obj [("title", .str n)]) = .obj [("title", .str n)] := by
      simp [allowNull, allowsNullAlready, Obj.get, containsImmediate, Obj.has, allowNullConst, Obj.modify]
    rw [this]; exact .anyTitled n
  | @typed _ m r t ty hs hty ht htitle hr hrest =>
    have hnone : ∀ k ∈ ["anyOf", "if", "allOf", "oneOf", "$ref", "const", "enum"], Obj.get m k = none := by
      intro k hk
      have h1 : k ≠ "type" ∧ k ≠ "title" ∧ k ∉ ["minLength", "maxLength", "items", "maxItems", "minItems",
          "prefixItems", "properties", "additionalProperties"] := by
        revert hk k; decide
      rw [hr k h1.1 h1.2.1]; exact rest_none hrest h1.2.2
    have e1 : allowsNullAlready m = false := by simp [allowsNullAlready, hnone "anyOf" (by decide)]
    have e2 : containsImmediate m = false := by
      simp [containsImmediate, Obj.has, hnone]
    have e3 : allowNullConst (Obj.modify m "type" allowNullType) = Obj.modify m "type" allowNullType := by
      have c : Obj.get (Obj.modify m "type" allowNullType) "const" = none := by
        rw [Obj.get_modify]; simp [hnone]
      have d : Obj.get (Obj.modify m "type" allowNullType) "enum" = none := by
        rw [Obj.get_modify]; simp [hnone]
      unfold allowNullConst
      rw [c]
      simp only
      refine Obj.ext_sorted (Obj.sorted_modify (Obj.sorted_modify hs _ _) _ _) (Obj.sorted_modify hs _ _) fun k => ?_
      rw [Obj.get_modify (Obj.modify m "type" allowNullType)]
      split
      · next h => subst h; rw [d]; rfl
      · rfl
    simp only [allowNull, e1, e2, e3, if_false, Bool.false_eq_true]
    refine .typed (r := r) (t := t) (ty := allowNullType ty) (Obj.sorted_modify hs _ _)
      (by rw [Obj.get_modify, if_pos rfl, hty]; rfl) ?_ ?_ ?_ hrest
    · rcases ht with rfl | ⟨h1, rfl⟩
      · by_cases hn : t = "null"
        · subst hn; exact .inl (by simp [allowNullType])
        · exact .inr ⟨hn, by simp [allowNullType, hn]⟩
      · exact .inr ⟨h1, by simp [allowNullType]⟩
    · rw [Obj.get_modify]; simpa using htitle
    · intro k h1 h2
      rw [Obj.get_modify, if_neg (Ne.symm h1)]; exact hr k h1 h2

theorem seqStep_spec {items : List Json} {s : Json} (hn : items.Nodup) (hi : ∀ x ∈ items, Inferred none x) (hs : Inferred none s) :
    (seqStep items s).Nodup ∧ ∀ x ∈ seqStep items s, Inferred none x := by
  unfold seqStep
  split
  · exact ⟨by simp, by simpa using hs⟩
  · split
    · exact ⟨hn, hi⟩
    · next h =>
      have : s ∉ items := by simpa using h
      refine ⟨?_, ?_⟩
      · rw [List.nodup_append]
        refine ⟨hn, by simp, ?_⟩
        intro a ha b hb
        simp only [List.mem_singleton] at hb
        subst hb
        exact fun e => this (e ▸ ha)
      · intro x hx
        rcases List.mem_append.1 hx with h | h
        · exact hi x h
        · simp only [List.mem_singleton] at h; subst h; exact hs

theorem inferred_seqItems {items : List Json} (hn : items.Nodup) (hi : ∀ x ∈ items, Inferred none x) :
    Inferred none (seqSchema (seqItems items)) := by
  have k : ∀ x : Json, (Obj.keys [("items", x)]).Nodup ∧ "type" ∉ Obj.keys [("items", x)] ∧
      "title" ∉ Obj.keys [("items", x)] := by simp [Obj.keys]
  unfold seqSchema
  match items with
  | [] => exact inferred_mkObj (.seq .any) (k _).1 (k _).2.1 (k _).2.2
  | [s] => exact inferred_mkObj (.seq (hi s (by simp))) (k _).1 (k _).2.1 (k _).2.2
  | a :: b :: l => exact inferred_mkObj (.seqAny (by simp) hn hi) (k _).1 (k _).2.1 (k _).2.2

theorem untitled {b : Bool} {v : Val} {s : Json} (hv : valTitle v = none) (h : Inferred none s) :
    Inferred (if b = true then valTitle v else none) s := by rw [hv, ite_self]; exact h

theorem titled {b : Bool} {n : String} {s : Json} (h : Inferred none s) :
    Inferred (if b = true then if n = "" then none else some n else none) (withTitle (if b = true then n else "") s) := by
  have := inferred_withTitle h (if b = true then n else "")
  cases b
  · exact h
  · exact this

mutual
/-- C39: every inferred schema has the shape `Inferred`. -/
theorem C39_shape : ∀ (v : Val) (b : Bool) (s : Json), infer odd b v = some s →
    Inferred (if b = true then valTitle v else none) s
  | .bool _, b, s, h => by
    simp only [infer, Option.some.injEq] at h; subst h
    exact untitled rfl (inferred_mkObj (.scalar (by simp)) (by simp [Obj.keys]) (by simp [Obj.keys]) (by simp [Obj.keys]))
  | .int _, b, s, h => by
    simp only [infer, Option.some.injEq] at h; subst h
    exact untitled rfl (inferred_mkObj (.scalar (by simp)) (by simp [Obj.keys]) (by simp [Obj.keys]) (by simp [Obj.keys]))
  | .float _ _, b, s, h => by
    simp only [infer, Option.some.injEq] at h; subst h
    exact untitled rfl (inferred_mkObj (.scalar (by simp)) (by simp [Obj.keys]) (by simp [Obj.keys]) (by simp [Obj.keys]))
  | .char _, b, s, h => by
    simp only [infer, Option.some.injEq] at h; subst h
    exact untitled rfl (inferred_mkObj .char (by simp [Obj.keys]) (by simp [Obj.keys]) (by simp [Obj.keys]))
  | .str _, b, s, h => by
    simp only [infer, Option.some.injEq] at h; subst h
    exact untitled rfl (inferred_mkObj (.scalar (by simp)) (by simp [Obj.keys]) (by simp [Obj.keys]) (by simp [Obj.keys]))
  | .bytes _, b, s, h => by
    simp only [infer, Option.some.injEq] at h; subst h
    exact untitled rfl (inferred_mkObj .bytes (by simp [Obj.keys]) (by simp [Obj.keys]) (by simp [Obj.keys]))
  | .none, b, s, h => by simp only [infer, Option.some.injEq] at h; subst h; exact untitled rfl .any
  | .some v, b, s, h => by
    simp only [infer, Option.map_eq_some_iff] at h
    obtain ⟨s', h, rfl⟩ := h
    exact untitled rfl (inferred_allowNull (C39_shape v false _ h))
  | .unit, b, s, h => by simp only [infer, Option.some.injEq] at h; subst h; exact untitled rfl .any
  | .unitStruct _, b, s, h => by
    simp only [infer, Option.some.injEq] at h; subst h
    exact untitled rfl (inferred_mkObj (.scalar (by simp)) (by simp [Obj.keys]) (by simp [Obj.keys]) (by simp [Obj.keys]))
  | .unitVariant _, b, s, h => by simp only [infer, Option.some.injEq] at h; subst h; exact untitled rfl .any
  | .newtypeStruct n v, b, s, h => by
    simp only [infer, Option.map_eq_some_iff] at h
    obtain ⟨s', h, rfl⟩ := h
    have := inferred_withTitle (C39_shape v _ _ h) (if b = true then n else "")
    cases b <;> simpa [valTitle] using this
  | .newtypeVariant _ _, b, s, h => by simp only [infer, Option.some.injEq] at h; subst h; exact untitled rfl .any
  | .seq l, b, s, h => by
    simp only [infer, Option.map_eq_some_iff] at h
    obtain ⟨items, h, rfl⟩ := h
    have := C39_seq l [] items h (by simp) (by simp)
    exact untitled rfl (inferred_seqItems this.1 this.2)
  | .tuple n l, b, s, h => by
    simp only [infer, Option.map_eq_some_iff] at h
    obtain ⟨items, h, rfl⟩ := h
    refine titled ?_
    refine .typed (r := [("maxItems", .num (.int items.length)), ("minItems", .num (.int items.length)),
        ("prefixItems", .arr items)]) (t := "array") (Obj.sorted_ofList _) (by simp [Obj.ofList, Obj.extend, Obj.get_insert])
      (.inl rfl) (by simp [Obj.ofList, Obj.extend, Obj.get_insert]) ?_ (.tuple (C39_tuple l items h))
    intro k h1 h2
    rw [get_ofList (by simp [Obj.keys])]
    simp only [Obj.get_cons, if_neg (Ne.symm h1), Obj.get_nil]
    by_cases a : "prefixItems" = k
    · subst a; simp
    · by_cases b : "maxItems" = k
      · subst b; simp
      · simp [a, b]
  | .tupleVariant _ _, b, s, h => by simp only [infer, Option.some.injEq] at h; subst h; exact untitled rfl .any
  | .map l, b, s, h => by
    simp only [infer, Option.map_eq_some_iff] at h
    obtain ⟨p, h, rfl⟩ := h
    have := C39_map l [] p h Obj.sorted_nil (by simp)
    exact untitled rfl (inferred_mkObj (.props this.1 this.2) (by simp [Obj.keys]) (by simp [Obj.keys]) (by simp [Obj.keys]))
  | .struct n l, b, s, h => by
    simp only [infer, Option.map_eq_some_iff] at h
    obtain ⟨p, h, rfl⟩ := h
    have := C39_struct l [] p h Obj.sorted_nil (by simp)
    exact titled
      (inferred_mkObj (.props this.1 this.2) (by simp [Obj.keys]) (by simp [Obj.keys]) (by simp [Obj.keys]))
  | .structVariant _ _, b, s, h => by simp only [infer, Option.some.injEq] at h; subst h; exact untitled rfl .any
  | .collectStr _, b, s, h => by
    simp only [infer, Option.some.injEq] at h; subst h
    exact untitled rfl (inferred_mkObj (.scalar (by simp)) (by simp [Obj.keys]) (by simp [Obj.keys]) (by simp [Obj.keys]))
  | .collectMap l, b, s, h => by
    simp only [infer, Option.map_eq_some_iff] at h
    obtain ⟨acc, h, rfl⟩ := h
    have := C39_vals l none acc h (by simp)
    refine untitled rfl (inferred_mkObj (.map ?_) (by simp [Obj.keys]) (by simp [Obj.keys]) (by simp [Obj.keys]))
    cases acc with
    | none => exact .any
    | some s => exact this s rfl
  | .fail, b, s, h => by simp [infer] at h
theorem C39_seq : ∀ (l : List Val) (items r : List Json), inferSeq odd items l = some r → items.Nodup →
    (∀ x ∈ items, Inferred none x) → r.Nodup ∧ ∀ x ∈ r, Inferred none x
  | [], items, r, h, hn, hi => by simp only [inferSeq, Option.some.injEq] at h; subst h; exact ⟨hn, hi⟩
  | v :: l, items, r, h, hn, hi => by
    simp only [inferSeq] at h
    split at h
    · exact C39_seq l items r h hn hi
    · simp only [Option.bind_eq_some_iff] at h
      obtain ⟨s, h1, h2⟩ := h
      have := seqStep_spec hn hi (C39_shape v _ _ h1)
      exact C39_seq l _ r h2 this.1 this.2
theorem C39_tuple : ∀ (l : List Val) (r : List Json), inferTuple odd l = some r → ∀ x ∈ r, Inferred none x
  | [], r, h => by simp only [inferTuple, Option.some.injEq] at h; subst h; simp
  | v :: l, r, h => by
    simp only [inferTuple, Option.bind_eq_some_iff, Option.map_eq_some_iff] at h
    obtain ⟨s, h1, t, h2, rfl⟩ := h
    intro x hx
    rcases List.mem_cons.1 hx with rfl | hx
    · exact C39_shape v _ _ h1
    · exact C39_tuple l t h2 x hx
theorem C39_map : ∀ (l : List (Val × Val)) (props r : List (String × Json)), inferMap odd props l = some r →
    Obj.Sorted props → (∀ e ∈ props, Inferred none e.2) → Obj.Sorted r ∧ ∀ e ∈ r, Inferred none e.2
  | [], props, r, h, hs, hi => by simp only [inferMap, Option.some.injEq] at h; subst h; exact ⟨hs, hi⟩
  | (k, v) :: l, props, r, h, hs, hi => by
    simp only [inferMap, Option.bind_eq_some_iff] at h
    obtain ⟨t, _, s, h1, h2⟩ := h
    refine C39_map l _ r h2 (Obj.sorted_insert hs _ _) fun e he => ?_
    rcases Obj.mem_insert he with rfl | he
    · exact C39_shape v _ _ h1
    · exact hi e he
theorem C39_struct : ∀ (l : List (String × Val)) (props r : List (String × Json)), inferStruct odd props l = some r →
    Obj.Sorted props → (∀ e ∈ props, Inferred none e.2) → Obj.Sorted r ∧ ∀ e ∈ r, Inferred none e.2
  | [], props, r, h, hs, hi => by simp only [inferStruct, Option.some.injEq] at h; subst h; exact ⟨hs, hi⟩
  | (k, v) :: l, props, r, h, hs, hi => by
    simp only [inferStruct, Option.bind_eq_some_iff] at h
    obtain ⟨s, h1, h2⟩ := h
    refine C39_struct l _ r h2 (Obj.sorted_insert hs _ _) fun e he => ?_
    rcases Obj.mem_insert he with rfl | he
    · exact C39_shape v _ _ h1
    · exact hi e he
theorem C39_vals : ∀ (l : List (Val × Val)) (acc r : Option Json), inferVals odd acc l = some r →
    (∀ s, acc = some s → Inferred none s) → ∀ s, r = some s → Inferred none s
  | [], acc, r, h, hi => by simp only [inferVals, Option.some.injEq] at h; subst h; exact hi
  | (_, v) :: l, acc, r, h, hi => by
    simp only [inferVals] at h
    split at h
    · exact C39_vals l acc r h hi
    · simp only [Option.bind_eq_some_iff] at h
      obtain ⟨s, h1, h2⟩ := h
      refine C39_vals l _ r h2 fun x hx => ?_
      unfold mapStep at hx
      cases acc with
      | none => simp only [Option.some.injEq] at hx; subst hx; exact C39_shape v _ _ h1
      | some a =>
        simp only at hx
        split at hx
        · cases hx; exact .any
        · cases hx; exact hi _ rfl
end

/-- An inferred schema, or one of the two kinds of objects directly inside. -/
inductive InferredPart : Option String → Json → Prop
  | self {n : Option String} {s : Json} : Inferred n s → InferredPart n s
  | byte : InferredPart none (.obj [("format", .str "uint8"), ("maximum", .num (.int 255)),
      ("minimum", .num (.int 0)), ("type", .str "integer")])
  | any {l : List Json} : (∀ s ∈ l, Inferred none s) → InferredPart none (.obj [("anyOf", .arr l)])

theorem inferredPart_sub {n : Option String} {s x : Json} (h : InferredPart n s) (hd : DirectSub standard s x) :
    InferredPart none x := by
  cases h with
  | self h =>
    cases h with
    | any => cases hd
    | anyTitled n =>
      cases hd with
      | one hm hk _ => simp only [List.mem_singleton, Prod.mk.injEq] at hm; rw [hm.1] at hk; exact absurd hk (by decide)
      | list hm _ _ _ => simp at hm
      | map hm _ _ _ => simp at hm
    | @typed _ m r t ty hs hty ht htitle hr hrest =>
      have key : ∀ {k v}, (k, v) ∈ m → k ∉ ["type", "title"] → Obj.get r k = some v := by
        intro k v hm hk
        simp only [List.mem_cons, List.not_mem_nil, or_false, not_or] at hk
        rw [← hr k hk.1 hk.2]
        exact Obj.get_of_mem_sorted hs hm
      cases hd with
      | @one _ k x hm hk hx =>
        have h1 := Obj.get_mem (key hm ((by decide : ∀ k ∈ standard.one, k ∉ ["type", "title"]) k hk))
        cases hrest with
        | scalar _ => simp at h1
        | char => simp at h1; rcases h1 with ⟨_, rfl⟩ | ⟨_, rfl⟩ <;> cases hx
        | bytes => simp at h1; rw [h1.2]; exact .byte
        | seq h => simp at h1; rw [h1.2]; exact .self h
        | seqAny _ _ h => simp at h1; rw [h1.2]; exact .any h
        | tuple h => simp at h1; rcases h1 with ⟨_, rfl⟩ | ⟨_, rfl⟩ | ⟨_, rfl⟩ <;> cases hx
        | props _ _ => simp at h1; rw [h1.1] at hk; exact absurd hk (by decide)
        | map h => simp at h1; rw [h1.2]; exact .self h
      | @list _ k l x hm hk hl hx =>
        have h1 := Obj.get_mem (key hm ((by decide : ∀ k ∈ standard.list, k ∉ ["type", "title"]) k hk))
        cases hrest with
        | scalar _ => simp at h1
        | char => simp at h1
        | bytes => simp at h1
        | seq h => simp at h1; obtain ⟨_, rfl⟩ := h1; cases h
        | seqAny _ _ h => simp at h1
        | tuple h => simp at h1; rw [h1.2] at hl; exact .self (h x hl)
        | props _ _ => simp at h1
        | map h => simp at h1; obtain ⟨_, rfl⟩ := h1; cases h
      | @map _ k n q x hm hk hn hx =>
        have h1 := Obj.get_mem (key hm ((by decide : ∀ k ∈ standard.map, k ∉ ["type", "title"]) k hk))
        cases hrest with
        | scalar _ => simp at h1
        | char => simp at h1
        | bytes => simp at h1; rw [h1.1] at hk; exact absurd hk (by decide)
        | seq h => simp at h1; rw [h1.1] at hk; exact absurd hk (by decide)
        | seqAny _ _ h => simp at h1; rw [h1.1] at hk; exact absurd hk (by decide)
        | tuple h => simp at h1
        | props _ h => simp at h1; rw [h1.2] at hn; exact .self (h _ hn)
        | map h => simp at h1; rw [h1.1] at hk; exact absurd hk (by decide)
  | byte =>
    cases hd with
    | one hm _ hx => simp at hm; rcases hm with ⟨_, rfl⟩ | ⟨_, rfl⟩ | ⟨_, rfl⟩ | ⟨_, rfl⟩ <;> cases hx
    | list hm _ _ _ => simp at hm
    | map hm _ _ _ => simp at hm
  | @any l h =>
    cases hd with
    | one hm _ hx => simp at hm; rw [hm.2] at hx; cases hx
    | list hm _ hl _ => simp at hm; rw [hm.2] at hl; exact .self (h _ hl)
    | map hm _ _ _ => simp at hm

theorem inferredPart_reach {n : Option String} {s x : Json} (h : InferredPart n s) (hr : Reach standard s x) :
    ∃ n, InferredPart n x := by
  induction hr generalizing n with
  | self => exact ⟨n, h⟩
  | step hd _ ih => exact ih (inferredPart_sub h hd)

theorem inferredPart_untitled {s x : Json} (h : InferredPart none s) (hr : Reach standard s x) : InferredPart none x := by
  induction hr with
  | self => exact h
  | step hd _ ih => exact ih (inferredPart_sub h hd)

theorem inferredPart_title {n : Option String} {m : List (String × Json)} (h : InferredPart n (.obj m)) :
    Obj.get m "title" = n.map .str := by
  cases h with
  | self h =>
    cases h with
    | anyTitled n => rfl
    | typed _ _ _ ht _ _ => exact ht
  | byte => rfl
  | any h => rfl

theorem inferredPart_none {n : Option String} {m : List (String × Json)} (h : InferredPart n (.obj m)) {k : String}
    (hk : k ∉ ["type", "title", "minLength", "maxLength", "items", "maxItems", "minItems", "prefixItems",
      "properties", "additionalProperties", "format", "maximum", "minimum", "anyOf"]) : Obj.get m k = none := by
  cases h with
  | self h =>
    cases h with
    | anyTitled n =>
      simp only [List.mem_cons, not_or] at hk
      simp [Obj.get, Ne.symm hk.2.1]
    | @typed _ _ r t ty hs hty ht htitle hr hrest =>
      simp only [List.mem_cons, List.not_mem_nil, or_false, not_or] at hk
      rw [hr k hk.1 hk.2.1]
      exact rest_none hrest (by simp [hk])
  | byte =>
    simp only [List.mem_cons, List.not_mem_nil, or_false, not_or] at hk
    simp [Obj.get_cons, Ne.symm hk.1, Ne.symm hk.2.2.2.2.2.2.2.2.2.2.1, Ne.symm hk.2.2.2.2.2.2.2.2.2.2.2.1,
      Ne.symm hk.2.2.2.2.2.2.2.2.2.2.2.2.1]
  | any h =>
    simp only [List.mem_cons, List.not_mem_nil, or_false, not_or] at hk
    simp [Obj.get_cons, Ne.symm hk.2.2.2.2.2.2.2.2.2.2.2.2.2]

/-- C39: inference never emits a `$ref`, at any depth. -/
theorem C39_noRef {v : Val} {b : Bool} {s : Json} (h : infer odd b v = some s) :
    Everywhere standard (fun x => ¬ HasKey "$ref" x) s := by
  intro x hx
  obtain ⟨_, hp⟩ := inferredPart_reach (.self (C39_shape v b s h)) hx
  rintro ⟨m, r, rfl, hm⟩
  exact absurd (Obj.mem_keys.1 (List.mem_map_of_mem hm)) (by simp [inferredPart_none hp])

/-- C39: the schema that is inferred for a value has the title of the value, if titles are asked for. No schema inside has
a title. -/
theorem C39_titles {v : Val} {b : Bool} {s : Json} (h : infer odd b v = some s) :
    (∀ m, s = .obj m → Obj.get m "title" = if b = true then (valTitle v).map .str else none) ∧
    (b = true → (valTitle v).isSome = true → ∃ m, s = .obj m) ∧
    ∀ x, DirectSub standard s x → Everywhere standard (fun y => ¬ HasKey "title" y) x := by
  have hi := C39_shape v b s h
  refine ⟨?_, ?_, ?_⟩
  · rintro m rfl
    rw [inferredPart_title (.self hi)]
    cases b <;> rfl
  · rintro rfl ht
    rw [if_pos rfl] at hi
    cases hv : valTitle v with
    | none => rw [hv] at ht; cases ht
    | some n =>
      rw [hv] at hi
      cases hi with
      | anyTitled => exact ⟨_, rfl⟩
      | typed _ _ _ _ _ _ => exact ⟨_, rfl⟩
  · rintro x hx y hy ⟨m, r, rfl, hm⟩
    have := inferredPart_title (inferredPart_untitled (inferredPart_sub (.self hi) hx) hy)
    exact absurd (Obj.mem_keys.1 (List.mem_map_of_mem hm)) (by simp [this])

/-- `struct P { inner: Q }` with `struct Q { x: u8 }`: only `P` is in the schema. -/
example : (infer (fun _ => none) true (.struct "P" [("inner", .struct "Q" [("x", .int 1)])])).bind Schema.ensureObject =
    some (Obj.ofList [("title", .str "P"), ("type", .str "object"), ("properties", .obj [("inner",
      mkObj [("type", .str "object"), ("properties", .obj [("x", typeOnly "integer")])])])]) := by decide +kernel

theorem mem_seqStep {items : List Json} {s x : Json} :
    x ∈ seqStep items s ↔ if s = .bool true then x = .bool true else x ∈ items ∨ x = s := by
  unfold seqStep
  split
  · next h => simp [h]
  · split
    · next h =>
      have : s ∈ items := by simpa using h
      exact ⟨.inl, fun h => h.elim id fun e => e ▸ this⟩
    · simp

/-- C39, sequences: the item schemas are exactly the schemas of the elements, unless there is an element
about which nothing is known. -/
theorem C39_seqItems : ∀ (l : List Val) (items r : List Json), inferSeq odd items l = some r →
    (.bool true ∈ items → items = [.bool true]) →
    (.bool true ∈ r → r = [.bool true]) ∧
    (.bool true ∉ r → ∀ x, x ∈ r ↔ x ∈ items ∨ ∃ v ∈ l, infer odd false v = some x)
  | [], items, r, h, hi => by
    simp only [inferSeq, Option.some.injEq] at h; subst h
    exact ⟨hi, by simp⟩
  | v :: l, items, r, h, hi => by
    simp only [inferSeq] at h
    split at h
    · next hhead =>
      have hmem : .bool true ∈ items := List.mem_of_mem_head? hhead
      obtain ⟨h1, h2⟩ := C39_seqItems l items r h hi
      refine ⟨h1, fun hn => ?_⟩
      exact absurd ((h2 hn (.bool true)).2 (.inl hmem)) hn
    · next hhead =>
      simp only [Option.bind_eq_some_iff] at h
      obtain ⟨s, hs, h⟩ := h
      have hnot : .bool true ∉ items := by
        intro hm
        rw [hi hm] at hhead
        exact hhead rfl
      have hi' : .bool true ∈ seqStep items s → seqStep items s = [.bool true] := by
        intro hm
        rw [mem_seqStep] at hm
        split at hm
        · next e => simp [seqStep, e]
        · next e =>
          rcases hm with hm | hm
          · exact absurd hm hnot
          · exact absurd hm.symm e
      obtain ⟨h1, h2⟩ := C39_seqItems l _ r h hi'
      refine ⟨h1, fun hn x => ?_⟩
      have hs' : s ≠ .bool true := by
        rintro rfl
        exact hn ((h2 hn _).2 (.inl (mem_seqStep.2 (by simp))))
      rw [h2 hn x, mem_seqStep, if_neg hs']
      simp only [List.mem_cons, exists_eq_or_imp, hs, Option.some.injEq, or_assoc]
      constructor
      · rintro (h | h | h)
        · exact .inl h
        · exact .inr (.inl h.symm)
        · exact .inr (.inr h)
      · rintro (h | h | h)
        · exact .inl h
        · exact .inr (.inl h.symm)
        · exact .inr (.inr h)

/-- C39, maps: the value schema is the schema of all values, or `true`. -/
theorem C39_mapValues : ∀ (l : List (Val × Val)) (acc : Option Json) (s : Json),
    inferVals odd acc l = some (some s) → s ≠ .bool true →
    (∀ a, acc = some a → a = s) ∧ ∀ e ∈ l, infer odd false e.2 = some s
  | [], acc, s, h, hs => by
    simp only [inferVals, Option.some.injEq] at h
    subst h
    exact ⟨fun a h => (Option.some.inj h).symm, by simp⟩
  | (k, v) :: l, acc, s, h, hs => by
    simp only [inferVals] at h
    split at h
    · next e =>
      have := (C39_mapValues l acc s h hs).1 _ e
      exact absurd this.symm hs
    · next hacc =>
      simp only [Option.bind_eq_some_iff] at h
      obtain ⟨s', hs', h⟩ := h
      obtain ⟨h1, h2⟩ := C39_mapValues l _ s h hs
      have e : s' = s ∧ ∀ a, acc = some a → a = s := by
        cases acc with
        | none => exact ⟨h1 _ rfl, by simp⟩
        | some a =>
          by_cases ha : a = s'
          · subst ha
            have := h1 a (by simp [mapStep])
            exact ⟨this, fun b hb => by cases hb; exact this⟩
          · have := h1 (.bool true) (by simp [mapStep, ha])
            exact absurd this.symm hs
      refine ⟨e.2, fun x hx => ?_⟩
      rcases List.mem_cons.1 hx with rfl | hx
      · rw [hs', e.1]
      · exact h2 x hx

/-! ## C38: the value is valid -/

theorem valid_true (j : Json) : Valid D env (.bool true) j := by simp [Valid, den, R.pass]

theorem inferred_topSorted {n : Option String} {s : Json} (h : Inferred n s) : ∀ m, s = .obj m → Obj.Sorted m := by
  intro m hm
  subst hm
  cases h with
  | anyTitled n => exact List.pairwise_singleton ..
  | typed hs => exact hs

theorem inferred_noRef {n : Option String} {m : List (String × Json)} (h : Inferred n (.obj m)) : Obj.get m "$ref" = none :=
  inferredPart_none (.self h) (by decide)

theorem valid_typeOnly {t : String} {j : Json} (h : typeName t j = true) : Valid D env (typeOnly t) j := by
  unfold typeOnly
  rw [valid_mkObj (by simp [Obj.keys]) (.inr rfl)]
  simp [EntryOk, typeMatch, h]

theorem valid_withTitle {o : Option String} {s j : Json} (hi : Inferred o s) (n : String) (h : Valid D env s j) :
    Valid D env (withTitle n s) j := by
  unfold withTitle
  split
  · exact h
  · cases hi with
    | any =>
      show Valid D env (.obj [("title", .str n)]) j
      rw [valid_entries (.inr rfl) (by simp [Obj.keys])]
      simp only [List.mem_singleton, forall_eq]
      exact entryOk_annotation (by decide) _
    | anyTitled k =>
      rw [put_obj, valid_insert_annotation (by decide) (List.pairwise_singleton ..) (.inr rfl)]
      exact h
    | @typed _ m r t ty hs hty ht htitle hr hrest =>
      rw [put_obj, valid_insert_annotation (by decide) hs
        (.inr (inferred_noRef (.typed hs hty ht htitle hr hrest)))]
      exact h

theorem valid_seqSchema {s : Json} {l : List Json} (h : ∀ x ∈ l, Valid D env s x) (hs : ∀ a, s ≠ .arr a) :
    Valid D env (seqSchema s) (.arr l) := by
  unfold seqSchema
  rw [valid_mkObj (by simp [Obj.keys]) (.inr rfl)]
  simp only [List.mem_cons, List.not_mem_nil, or_false, forall_eq_or_imp, forall_eq]
  refine ⟨.inl (by simp [typeMatch, typeName]), ?_⟩
  simp only [EntryOk]
  split
  · intro x hx
    exact h x (List.mem_of_mem_drop hx)
  · exact h

theorem valid_anyOf {l : List Json} {j : Json} (h : ∃ s ∈ l, Valid D env s j) :
    Valid D env (mkObj [("anyOf", .arr l)]) j := by
  rw [valid_mkObj (by simp [Obj.keys]) (.inr rfl)]
  simpa [EntryOk] using h

theorem valid_seqItems {items : List Json} {j : Json} (h : ∃ s ∈ items, Valid D env s j) :
    Valid D env (seqItems items) j := by
  match items with
  | [] => exact valid_true j
  | [s] => obtain ⟨s', hs, hv⟩ := h; simp only [List.mem_singleton] at hs; subst hs; exact hv
  | a :: b :: l => exact valid_anyOf h

theorem inferSeq_keep : ∀ (l : List Val) (items r : List Json), inferSeq odd items l = some r →
    ∀ x ∈ items, x ∈ r ∨ .bool true ∈ r
  | [], items, r, h => by simp only [inferSeq, Option.some.injEq] at h; subst h; exact fun x hx => .inl hx
  | v :: l, items, r, h => by
    simp only [inferSeq] at h
    split at h
    · exact inferSeq_keep l items r h
    · simp only [Option.bind_eq_some_iff] at h
      obtain ⟨s, _, h⟩ := h
      intro x hx
      by_cases hs : s = .bool true
      · have := inferSeq_keep l _ r h (.bool true) (mem_seqStep.2 (by simp [hs]))
        exact .inr (this.elim id id)
      · exact inferSeq_keep l _ r h x (mem_seqStep.2 (by simp [hs, hx]))

theorem inferVals_keep : ∀ (l : List (Val × Val)) (acc : Option Json) (r : Option Json), inferVals odd acc l = some r →
    ∀ a, acc = some a → r = some a ∨ r = some (.bool true)
  | [], acc, r, h => by simp only [inferVals, Option.some.injEq] at h; subst h; exact fun a ha => .inl ha
  | (_, v) :: l, acc, r, h => by
    simp only [inferVals] at h
    split at h
    · exact inferVals_keep l acc r h
    · simp only [Option.bind_eq_some_iff] at h
      obtain ⟨s, _, h⟩ := h
      rintro a rfl
      by_cases ha : a = s
      · subst ha
        exact inferVals_keep l _ r h a (by simp [mapStep])
      · have := inferVals_keep l _ r h (.bool true) (by simp [mapStep, ha])
        exact .inr (this.elim id id)

theorem valid_objectSchema {p m : List (String × Json)}
    (h : ∀ x s v, Obj.get p x = some s → (x, v) ∈ m → Valid D env s v) :
    Valid D env (objectSchema p) (.obj m) := by
  unfold objectSchema
  rw [valid_mkObj (by simp [Obj.keys]) (.inr rfl)]
  simp only [List.mem_cons, List.not_mem_nil, or_false, forall_eq_or_imp, forall_eq]
  refine ⟨.inl (by simp [typeMatch, typeName]), ?_⟩
  simp only [EntryOk, members]
  exact fun e he s hs => h e.1 s e.2 hs he

theorem valid_tupleSchema {ss l : List Json} (hl : ss.length = l.length)
    (h : ∀ (n : Nat) s x, ss[n]? = some s → l[n]? = some x → Valid D env s x) :
    Valid D env (tupleSchema ss) (.arr l) := by
  unfold tupleSchema
  rw [valid_mkObj (by simp [Obj.keys]) (.inr rfl)]
  simp only [List.mem_cons, List.not_mem_nil, or_false, forall_eq_or_imp, forall_eq]
  refine ⟨.inl (by simp [typeMatch, typeName]), ?_, ?_, ?_⟩
  · simp only [EntryOk, elems]
    exact fun _ => h
  · rw [entryOk_simple (by decide)]
    simp only [simple, onLen, arrLen, hl, JNum.val]
    exact decide_eq_true (by rw [Rat.intCast_natCast]; exact Rat.le_refl)
  · rw [entryOk_simple (by decide)]
    simp only [simple, onLen, arrLen, hl, JNum.val]
    exact decide_eq_true (by rw [Rat.intCast_natCast]; exact Rat.le_refl)

theorem toValues_length : ∀ (l : List Val) (js : List Json), toValues l = some js → js.length = l.length
  | [], js, h => by simp only [toValues, Option.some.injEq] at h; subst h; rfl
  | v :: l, js, h => by
    simp only [toValues, Option.bind_eq_some_iff, Option.map_eq_some_iff] at h
    obtain ⟨j, _, t, ht, rfl⟩ := h
    simp [toValues_length l t ht]

theorem inferTuple_length : ∀ (l : List Val) (r : List Json), inferTuple odd l = some r → r.length = l.length
  | [], r, h => by simp only [inferTuple, Option.some.injEq] at h; subst h; rfl
  | v :: l, r, h => by
    simp only [inferTuple, Option.bind_eq_some_iff, Option.map_eq_some_iff] at h
    obtain ⟨j, _, t, ht, rfl⟩ := h
    simp [inferTuple_length l t ht]

mutual
/-- C38, before the root schema is completed: the schema inferred from a faithful value accepts its JSON,
in all dialects. -/
theorem C38_infer_partial : ∀ (v : Val) (b : Bool) (s j : Json), Faithful odd v → infer odd b v = some s →
    toValue v = some j → Valid D env s j
  | .bool b, _, s, j, _, h, hj => by
    simp only [infer, toValue, Option.some.injEq] at h hj; subst h hj
    exact valid_typeOnly rfl
  | .int i, _, s, j, _, h, hj => by
    simp only [infer, toValue, Option.some.injEq] at h hj; subst h
    split at hj
    · simp only [Option.some.injEq] at hj; subst hj
      exact valid_typeOnly (by simp [typeName, JNum.val])
    · cases hj
  | .float q t, _, s, j, hf, h, hj => by
    simp only [infer, Option.some.injEq] at h; subst h
    cases q with
    | none => simp [Faithful] at hf
    | some q =>
      simp only [toValue, Option.some.injEq] at hj; subst hj
      exact valid_typeOnly rfl
  | .char c, _, s, j, _, h, hj => by
    simp only [infer, toValue, Option.some.injEq] at h hj; subst h hj
    unfold charSchema
    rw [valid_mkObj (by simp [Obj.keys]) (.inr rfl)]
    simp only [List.mem_cons, List.not_mem_nil, or_false, forall_eq_or_imp, forall_eq]
    refine ⟨.inl rfl, ?_, ?_⟩ <;> rw [entryOk_simple (by decide)] <;> simp [simple, onLen, strLen, JNum.val]
  | .str t, _, s, j, _, h, hj => by
    simp only [infer, toValue, Option.some.injEq] at h hj; subst h hj
    exact valid_typeOnly rfl
  | .bytes l, _, s, j, _, h, hj => by
    simp only [infer, toValue, Option.some.injEq] at h hj; subst h hj
    refine valid_seqSchema ?_ (by simp [u8Schema, mkObj])
    intro x hx
    simp only [List.mem_map] at hx
    obtain ⟨n, _, rfl⟩ := hx
    unfold u8Schema
    rw [valid_mkObj (by simp [Obj.keys]) (.inr rfl)]
    simp only [List.mem_cons, List.not_mem_nil, or_false, forall_eq_or_imp, forall_eq]
    have h1 : ((0 : Int) : Rat) ≤ ((n.toNat : Int) : Rat) := Rat.intCast_le_intCast.2 (by omega)
    have h2 : ((n.toNat : Int) : Rat) ≤ ((255 : Int) : Rat) :=
      Rat.intCast_le_intCast.2 (by have := n.toNat_lt; omega)
    refine ⟨.inl (by simp [typeMatch, typeName, JNum.val]), entryOk_annotation (by decide) _, ?_, ?_⟩ <;>
      rw [entryOk_simple (by decide)]
    · simp only [simple, onNum, JNum.val]; exact decide_eq_true h1
    · simp only [simple, onNum, JNum.val]; exact decide_eq_true h2
  | .none, _, s, j, _, h, _ => by
    simp only [infer, Option.some.injEq] at h; subst h; exact valid_true j
  | .some v, _, s, j, hf, h, hj => by
    simp only [infer, Option.map_eq_some_iff] at h
    obtain ⟨s', h, rfl⟩ := h
    simp only [toValue] at hj
    simp only [Faithful] at hf
    exact C41_mono (inferred_topSorted (C39_shape v _ _ h)) (C38_infer_partial v _ s' j hf h hj)
  | .unit, _, s, j, _, h, _ => by
    simp only [infer, Option.some.injEq] at h; subst h; exact valid_true j
  | .unitStruct _, _, s, j, _, h, hj => by
    simp only [infer, toValue, Option.some.injEq] at h hj; subst h hj
    exact valid_typeOnly rfl
  | .unitVariant _, _, s, j, _, h, _ => by
    simp only [infer, Option.some.injEq] at h; subst h; exact valid_true j
  | .newtypeStruct n v, b, s, j, hf, h, hj => by
    simp only [infer, Option.map_eq_some_iff] at h
    obtain ⟨s', h, rfl⟩ := h
    simp only [toValue] at hj
    simp only [Faithful] at hf
    exact valid_withTitle (C39_shape v _ _ h) _ (C38_infer_partial v _ s' j hf h hj)
  | .newtypeVariant _ _, _, s, j, _, h, _ => by
    simp only [infer, Option.some.injEq] at h; subst h; exact valid_true j
  | .seq l, _, s, j, hf, h, hj => by
    simp only [infer, Option.map_eq_some_iff] at h
    obtain ⟨items, h, rfl⟩ := h
    simp only [toValue, Option.map_eq_some_iff] at hj
    obtain ⟨js, hj, rfl⟩ := hj
    simp only [Faithful] at hf
    have := C39_seq l [] items h (by simp) (by simp)
    refine valid_seqSchema (fun x hx => valid_seqItems (C38_seq l [] items js hf h hj x hx)) ?_
    intro a ha
    match items with
    | [] => cases ha
    | [s] => exact absurd (this.2 s (by simp)) (by rw [show s = .arr a from ha]; intro h; cases h)
    | a :: b :: l => cases ha
  | .tuple n l, b, s, j, hf, h, hj => by
    simp only [infer, Option.map_eq_some_iff] at h
    obtain ⟨items, h, rfl⟩ := h
    simp only [toValue, Option.map_eq_some_iff] at hj
    obtain ⟨js, hj, rfl⟩ := hj
    simp only [Faithful] at hf
    have hi := C39_shape (odd := odd) (.tuple "" l) false _ (by simp only [infer, h, Option.map_some]; rfl)
    refine valid_withTitle (o := none) ?_ _ (valid_tupleSchema (by rw [inferTuple_length l _ h, toValues_length l _ hj])
      (C38_tuple l items js hf h hj))
    simpa [withTitle] using hi
  | .tupleVariant _ _, _, s, j, _, h, _ => by
    simp only [infer, Option.some.injEq] at h; subst h; exact valid_true j
  | .map l, _, s, j, hf, h, hj => by
    simp only [infer, Option.map_eq_some_iff] at h
    obtain ⟨p, h, rfl⟩ := h
    simp only [toValue, Option.map_eq_some_iff] at hj
    obtain ⟨es, hj, rfl⟩ := hj
    simp only [Faithful] at hf
    refine valid_objectSchema fun x s v hx hv => ?_
    exact C38_map l l hf.1 (fun _ h => h) [] p [] es hf.2 h hj (by simp) (by simp) (by simp) x s v hx
      (Obj.get_of_mem_sorted (Obj.sorted_ofList es) hv)
  | .struct n l, b, s, j, hf, h, hj => by
    simp only [infer, Option.map_eq_some_iff] at h
    obtain ⟨p, h, rfl⟩ := h
    simp only [toValue, Option.map_eq_some_iff] at hj
    obtain ⟨es, hj, rfl⟩ := hj
    simp only [Faithful] at hf
    have hi := C39_shape (odd := odd) (.struct "" l) false _ (by simp only [infer, h, Option.map_some]; rfl)
    refine valid_withTitle (by simpa [withTitle] using hi) _ (valid_objectSchema fun x s v hx hv => ?_)
    exact C38_struct l [] p [] es hf h hj (by simp) x s v hx (Obj.get_of_mem_sorted (Obj.sorted_ofList es) hv)
  | .structVariant _ _, _, s, j, _, h, _ => by
    simp only [infer, Option.some.injEq] at h; subst h; exact valid_true j
  | .collectStr _, _, s, j, _, h, hj => by
    simp only [infer, toValue, Option.some.injEq] at h hj; subst h hj
    exact valid_typeOnly rfl
  | .collectMap l, _, s, j, hf, h, hj => by
    simp only [infer, Option.map_eq_some_iff] at h
    obtain ⟨acc, h, rfl⟩ := h
    simp only [toValue, Option.map_eq_some_iff] at hj
    obtain ⟨es, hj, rfl⟩ := hj
    simp only [Faithful] at hf
    rw [valid_mkObj (by simp [Obj.keys]) (.inr rfl)]
    simp only [List.mem_cons, List.not_mem_nil, or_false, forall_eq_or_imp, forall_eq]
    refine ⟨.inl rfl, ?_⟩
    simp only [EntryOk, members]
    intro e he _
    exact C38_vals l none acc [] es hf h hj (by simp) e.1 e.2 (Obj.get_of_mem_sorted (Obj.sorted_ofList es) he)
  | .fail, _, s, j, _, h, _ => by simp [infer] at h
theorem C38_seq : ∀ (l : List Val) (items r js : List Json), FaithfulAll odd l → inferSeq odd items l = some r →
    toValues l = some js → ∀ x ∈ js, ∃ s ∈ r, Valid D env s x
  | [], _, _, js, _, _, hj => by
    simp only [toValues, Option.some.injEq] at hj; subst hj; simp
  | v :: l, items, r, js, hf, h, hj => by
    simp only [FaithfulAll] at hf
    simp only [toValues, Option.bind_eq_some_iff, Option.map_eq_some_iff] at hj
    obtain ⟨j, hj1, t, hj2, rfl⟩ := hj
    simp only [inferSeq] at h
    split at h
    · next hhead =>
      intro x hx
      rcases List.mem_cons.1 hx with rfl | hx
      · have := inferSeq_keep l items r h (.bool true) (List.mem_of_mem_head? hhead)
        exact ⟨.bool true, this.elim id id, valid_true _⟩
      · exact C38_seq l items r t hf.2 h hj2 x hx
    · simp only [Option.bind_eq_some_iff] at h
      obtain ⟨s, hs, h⟩ := h
      intro x hx
      rcases List.mem_cons.1 hx with rfl | hx
      · have hm : s ∈ seqStep items s := by rw [mem_seqStep]; split <;> simp_all
        rcases inferSeq_keep l _ r h s hm with h' | h'
        · exact ⟨s, h', C38_infer_partial v _ s _ hf.1 hs hj1⟩
        · exact ⟨.bool true, h', valid_true _⟩
      · exact C38_seq l _ r t hf.2 h hj2 x hx
theorem C38_tuple : ∀ (l : List Val) (r js : List Json), FaithfulAll odd l → inferTuple odd l = some r →
    toValues l = some js → ∀ (n : Nat) s x, r[n]? = some s → js[n]? = some x → Valid D env s x
  | [], r, js, _, h, _ => by
    simp only [inferTuple, Option.some.injEq] at h; subst h; simp
  | v :: l, r, js, hf, h, hj => by
    simp only [FaithfulAll] at hf
    simp only [toValues, Option.bind_eq_some_iff, Option.map_eq_some_iff] at hj
    obtain ⟨j, hj1, t, hj2, rfl⟩ := hj
    simp only [inferTuple, Option.bind_eq_some_iff, Option.map_eq_some_iff] at h
    obtain ⟨s, hs, r', h, rfl⟩ := h
    intro n s' x hs' hx
    cases n with
    | zero =>
      simp only [List.getElem?_cons_zero, Option.some.injEq] at hs' hx; subst hs' hx
      exact C38_infer_partial v _ s j hf.1 hs hj1
    | succ n =>
      simp only [List.getElem?_cons_succ] at hs' hx
      exact C38_tuple l r' t hf.2 h hj2 n s' x hs' hx
theorem C38_map : ∀ (all l : List (Val × Val)), KeysApart odd all → (∀ e ∈ l, e ∈ all) →
    ∀ (props p acc es : List (String × Json)), FaithfulEntries odd l → inferMap odd props l = some p →
    toEntries l = some es →
    (∀ x s v, Obj.get props x = some s → Obj.get acc x = some v → Valid D env s v) →
    (∀ x s, Obj.get props x = some s → ∃ e ∈ all, ∃ t k, toText odd e.1 = some t ∧ keyText e.1 = some k ∧
      trimQuotes t = x) →
    (∀ x v, Obj.get acc x = some v → ∃ e ∈ all, ∃ t, toText odd e.1 = some t ∧ keyText e.1 = some x) →
    ∀ x s v, Obj.get p x = some s → Obj.get (Obj.extend acc es) x = some v → Valid D env s v
  | all, [], _, _, props, p, acc, es, _, h, hj, h1, _, _ => by
    simp only [inferMap, Option.some.injEq] at h
    simp only [toEntries, Option.some.injEq] at hj
    subst h hj
    exact h1
  | all, (k, v) :: l, hk, hl, props, p, acc, es, hf, h, hj, h1, h2, h3 => by
    simp only [FaithfulEntries] at hf
    simp only [inferMap, Option.bind_eq_some_iff] at h
    obtain ⟨t, ht, s, hs, h⟩ := h
    simp only [toEntries, Option.bind_eq_some_iff, Option.map_eq_some_iff] at hj
    obtain ⟨q, hq, j, hj1, es', hj2, rfl⟩ := hj
    have hmem := hl (k, v) (by simp)
    refine C38_map all l hk (fun e he => hl e (by simp [he])) _ p (Obj.insert acc q j) es' hf.2 h hj2 ?_ ?_ ?_
    · intro x s' v' hx hv
      rw [Obj.get_insert] at hx hv
      by_cases hxt : trimQuotes t = x <;> by_cases hxq : q = x
      · rw [if_pos hxt] at hx; rw [if_pos hxq] at hv
        cases hx; cases hv
        exact C38_infer_partial v _ _ _ hf.1 hs hj1
      · rw [if_pos hxt] at hx; rw [if_neg hxq] at hv
        obtain ⟨f, hfm, u, hu, hfk⟩ := h3 x v' hv
        exact absurd (hk _ hmem f hfm t q x u ht hq hfk hu hxt).1 hxq
      · rw [if_neg hxt] at hx; rw [if_pos hxq] at hv
        obtain ⟨e, hem, u, k', hu, hek, hue⟩ := h2 x s' hx
        exact absurd (hk e hem _ hmem u k' x t hu hek (hxq ▸ hq) ht hue).2 hxt
      · rw [if_neg hxt] at hx; rw [if_neg hxq] at hv
        exact h1 x s' v' hx hv
    · intro x s' hx
      rw [Obj.get_insert] at hx
      by_cases hxt : trimQuotes t = x
      · exact ⟨_, hmem, t, q, ht, hq, hxt⟩
      · rw [if_neg hxt] at hx; exact h2 x s' hx
    · intro x v' hv
      rw [Obj.get_insert] at hv
      by_cases hxq : q = x
      · exact ⟨_, hmem, t, ht, hxq ▸ hq⟩
      · rw [if_neg hxq] at hv; exact h3 x v' hv
theorem C38_struct : ∀ (l : List (String × Val)) (props p acc es : List (String × Json)), FaithfulFields odd l →
    inferStruct odd props l = some p → toFields l = some es →
    (∀ x s v, Obj.get props x = some s → Obj.get acc x = some v → Valid D env s v) →
    ∀ x s v, Obj.get p x = some s → Obj.get (Obj.extend acc es) x = some v → Valid D env s v
  | [], props, p, acc, es, _, h, hj, h1 => by
    simp only [inferStruct, Option.some.injEq] at h
    simp only [toFields, Option.some.injEq] at hj
    subst h hj
    exact h1
  | (k, v) :: l, props, p, acc, es, hf, h, hj, h1 => by
    simp only [FaithfulFields] at hf
    simp only [inferStruct, Option.bind_eq_some_iff] at h
    obtain ⟨s, hs, h⟩ := h
    simp only [toFields, Option.bind_eq_some_iff, Option.map_eq_some_iff] at hj
    obtain ⟨j, hj1, es', hj2, rfl⟩ := hj
    refine C38_struct l _ p (Obj.insert acc k j) es' hf.2 h hj2 ?_
    intro x s' v' hx hv
    rw [Obj.get_insert] at hx hv
    by_cases hxk : k = x
    · rw [if_pos hxk] at hx hv
      cases hx; cases hv
      exact C38_infer_partial v _ _ _ hf.1 hs hj1
    · rw [if_neg hxk] at hx hv
      exact h1 x s' v' hx hv
theorem C38_vals : ∀ (l : List (Val × Val)) (acc r : Option Json) (m es : List (String × Json)),
    FaithfulEntries odd l → inferVals odd acc l = some r → toEntries l = some es →
    (∀ x v, Obj.get m x = some v → ∃ a, acc = some a ∧ Valid D env a v) →
    ∀ x v, Obj.get (Obj.extend m es) x = some v → Valid D env (r.getD (.bool true)) v
  | [], acc, r, m, es, _, h, hj, h1 => by
    simp only [inferVals, Option.some.injEq] at h
    simp only [toEntries, Option.some.injEq] at hj
    subst h hj
    intro x v hv
    obtain ⟨a, ha, hv⟩ := h1 x v hv
    rw [ha]; exact hv
  | (k, v) :: l, acc, r, m, es, hf, h, hj, h1 => by
    simp only [FaithfulEntries] at hf
    simp only [toEntries, Option.bind_eq_some_iff, Option.map_eq_some_iff] at hj
    obtain ⟨q, hq, j, hj1, es', hj2, rfl⟩ := hj
    simp only [inferVals] at h
    split at h
    · next e =>
      refine C38_vals l acc r (Obj.insert m q j) es' hf.2 h hj2 ?_
      intro x v' _
      exact ⟨_, e, valid_true _⟩
    · simp only [Option.bind_eq_some_iff] at h
      obtain ⟨s, hs, h⟩ := h
      refine C38_vals l _ r (Obj.insert m q j) es' hf.2 h hj2 ?_
      intro x v' hv
      have hval := C38_infer_partial v _ _ _ hf.1 hs hj1
      rw [Obj.get_insert] at hv
      split at hv
      · cases hv
        cases acc with
        | none => exact ⟨s, rfl, hval⟩
        | some a =>
          by_cases ha : a = s
          · subst ha; exact ⟨a, by simp [mapStep], hval⟩
          · exact ⟨.bool true, by simp [mapStep, ha], valid_true _⟩
      · obtain ⟨a, rfl, ha⟩ := h1 x v' hv
        by_cases e : a = s
        · subst e; exact ⟨a, by simp [mapStep], ha⟩
        · exact ⟨.bool true, by simp [mapStep, e], valid_true _⟩
end

/-! ### The root schema -/

theorem tame_inferredPart {n : Option String} {m : List (String × Json)} (h : InferredPart n (.obj m)) : Tame m := by
  have hn : ∀ k ∈ ["unevaluatedProperties", "dependentSchemas", "additionalItems", "$ref", "allOf", "nullable",
      "const", "enum"], Obj.get m k = none := by
    intro k hk
    exact inferredPart_none h (by revert hk k; decide)
  refine ⟨⟨hn _ (by decide), hn _ (by decide), ?_, ?_, hn _ (by decide)⟩,
    ⟨by rw [hn _ (by decide)]; simp, by rw [hn _ (by decide)]; simp⟩,
    ⟨by rw [hn _ (by decide)]; simp, ?_, fun _ _ _ => ⟨hn _ (by decide), hn _ (by decide)⟩⟩, plainConst_of (.inl (hn _ (by decide)))⟩
  · intro l hl
    cases h with
    | self h =>
      cases h with
      | anyTitled n => simp [Obj.get] at hl
      | typed hs hty ht htitle hr hrest =>
        rw [hr _ (by decide) (by decide)] at hl
        cases hrest with
        | seq h => simp [Obj.get] at hl; subst hl; cases h
        | _ => simp [Obj.get] at hl
    | _ => simp [Obj.get] at hl
  · intro q hq
    cases h with
    | self h =>
      cases h with
      | anyTitled n => simp [Obj.get] at hq
      | typed hs hty ht htitle hr hrest =>
        rw [hr _ (by decide) (by decide)] at hq
        cases hrest with
        | tuple h => simp [Obj.get] at hq; exact ⟨_, hq.symm⟩
        | _ => simp [Obj.get] at hq
    | _ => simp [Obj.get] at hq
  · intro l hl
    cases h with
    | self h =>
      cases h with
      | anyTitled n => simp [Obj.get] at hl
      | typed hs hty ht htitle hr hrest =>
        rw [hty] at hl
        cases hl
        rcases ht with h | ⟨_, h⟩
        · cases h
        · cases h; simp
    | _ => simp [Obj.get] at hl

theorem reach_standard {s x : Json} (h : Reach visited s x) : Reach standard s x := by
  induction h with
  | self => exact .self _
  | step hd _ ih =>
    refine .step ?_ ih
    cases hd with
    | one hm hk hx => exact .one hm (List.mem_append_left _ hk) hx
    | list hm hk hl hx => exact .list hm hk hl hx
    | map hm hk hn hx => exact .map hm (List.mem_append_left _ hk) hn hx

theorem tame_inferred {n : Option String} {s : Json} (h : InferredPart n s) : Everywhere visited (OnObj Tame) s := by
  intro x hx m hm
  subst hm
  obtain ⟨_, hp⟩ := inferredPart_reach h (reach_standard hx)
  exact tame_inferredPart hp

/-- The object that `ensure_object` gives for an inferred schema. -/
theorem inferred_ensureObject {o : Option String} {s : Json} {m : List (String × Json)} (h : Inferred o s)
    (hm : Schema.ensureObject s = some m) : (s = .bool true ∧ m = []) ∨ (s = .obj m) := by
  cases h with
  | any => simp [Schema.ensureObject] at hm; exact .inl ⟨rfl, hm⟩
  | anyTitled n => simp [Schema.ensureObject] at hm; exact .inr (by rw [hm])
  | typed => simp [Schema.ensureObject] at hm; exact .inr (by rw [hm])

theorem valueObject_get (ex : Option Json) (ms : Option String) (m : List (String × Json)) {k : String}
    (hk : k ∉ ["examples", "$schema"]) : Obj.get (valueObject ex ms m) k = Obj.get m k := by
  simp only [List.mem_cons, List.not_mem_nil, or_false, not_or] at hk
  unfold valueObject
  cases ex <;> cases ms <;> simp [Obj.get_insert, Ne.symm hk.1, Ne.symm hk.2]

theorem valueObject_sorted (ex : Option Json) (ms : Option String) {m : List (String × Json)} (h : Obj.Sorted m) :
    Obj.Sorted (valueObject ex ms m) := by
  unfold valueObject
  cases ex <;> cases ms <;> simp [h, Obj.sorted_insert]

theorem valueObject_valid (ex : Option Json) (ms : Option String) {m : List (String × Json)} (h : Obj.Sorted m)
    (hr : Obj.get m "$ref" = none) (j : Json) :
    Valid D env (.obj (valueObject ex ms m)) j ↔ Valid D env (.obj m) j := by
  have hr' : ∀ x, Obj.get (Obj.insert m "examples" x) "$ref" = none := by
    intro x; rw [Obj.get_insert_ne _ _ (by decide)]; exact hr
  unfold valueObject
  cases ex <;> cases ms
  · exact Iff.rfl
  · exact valid_insert_annotation (by decide) h (.inr hr) _
  · exact valid_insert_annotation (by decide) h (.inr hr) _
  · exact (valid_insert_annotation (by decide) (Obj.sorted_insert h _ _) (.inr (hr' _)) _).trans
      (valid_insert_annotation (by decide) h (.inr hr) _)

/-- Adding definitions to an object that has none at the path: one member is added. -/
theorem addDefinitions_fresh {p k : String} (hp : (p, k) ∈ [("/$defs", "$defs"), ("/definitions", "definitions")])
    (m defs : List (String × Json)) (h : Obj.get m k = none) :
    addDefinitions p.toList m defs = if defs = [] then m else Obj.insert m k (.obj (Obj.ofList defs)) := by
  unfold addDefinitions
  by_cases hd : defs = []
  · rw [if_pos hd, if_pos hd]
  · rw [if_neg hd, if_neg hd]
    have hs : ptrMutSegments (definitionsPathStripped p.toList) = some [k] := by
      revert hp; simp only [List.mem_cons, List.not_mem_nil, or_false, Prod.mk.injEq]
      rintro (⟨rfl, rfl⟩ | ⟨rfl, rfl⟩) <;> decide
    simp [jsonPointerMut, hs, objAtMut, h, Obj.ofList]

theorem addDefinitions_components (m defs : List (String × Json)) (h : Obj.get m "components" = none) :
    addDefinitions "/components/schemas".toList m defs = if defs = [] then m else
      Obj.insert m "components" (.obj [("schemas", .obj (Obj.ofList defs))]) := by
  unfold addDefinitions
  by_cases hd : defs = []
  · rw [if_pos hd, if_pos hd]
  · rw [if_neg hd, if_neg hd]
    have hs : ptrMutSegments (definitionsPathStripped "/components/schemas".toList) = some ["components", "schemas"] := by
      decide
    rw [jsonPointerMut, hs]
    simp [objAtMut, h, Obj.ofList, Obj.get, Obj.insert]

theorem everywhere_insert {P : Json → Prop} {m : List (String × Json)} {k : String} {x : Json}
    (h : Everywhere visited P (.obj m)) (hp : P (.obj (Obj.insert m k x)))
    (hx : ∀ y, DirectSub visited (.obj [(k, x)]) y → Everywhere visited P y) :
    Everywhere visited P (.obj (Obj.insert m k x)) := by
  have key : ∀ y, DirectSub visited (.obj (Obj.insert m k x)) y →
      DirectSub visited (.obj [(k, x)]) y ∨ DirectSub visited (.obj m) y := by
    intro y hy
    cases hy with
    | one hm hk hs =>
      rcases Obj.mem_insert hm with h | h
      · exact .inl (.one (by simp [h]) hk hs)
      · exact .inr (.one h hk hs)
    | list hm hk hl hs =>
      rcases Obj.mem_insert hm with h | h
      · exact .inl (.list (by rw [h]; exact List.mem_singleton_self _) hk hl hs)
      · exact .inr (.list h hk hl hs)
    | map hm hk hn hs =>
      rcases Obj.mem_insert hm with h | h
      · exact .inl (.map (by rw [h]; exact List.mem_singleton_self _) hk hn hs)
      · exact .inr (.map h hk hn hs)
  intro y hy
  cases hy with
  | self => exact hp
  | step hd hr =>
    rcases key _ hd with h1 | h1
    · exact hx _ h1 _ hr
    · exact h _ (.step h1 hr)

theorem noSub_single {k : String} {x y : Json} (hk : k ∉ visited.one ++ visited.list ++ visited.map) :
    ¬ DirectSub visited (.obj [(k, x)]) y := by
  simp only [List.mem_append, not_or] at hk
  intro h
  cases h with
  | one hm h1 => simp only [List.mem_singleton, Prod.mk.injEq] at hm; exact hk.1.1 (hm.1 ▸ h1)
  | list hm h1 => simp only [List.mem_singleton, Prod.mk.injEq] at hm; exact hk.1.2 (hm.1 ▸ h1)
  | map hm h1 => simp only [List.mem_singleton, Prod.mk.injEq] at hm; exact hk.2 (hm.1 ▸ h1)

theorem tame_insert {m : List (String × Json)} {k : String} {x : Json}
    (h : Everywhere visited (OnObj Tame) (.obj m)) (hk : ∀ c ∈ tameKeys, k ≠ c)
    (hx : ∀ y, DirectSub visited (.obj [(k, x)]) y → Everywhere visited (OnObj Tame) y) :
    Everywhere visited (OnObj Tame) (.obj (Obj.insert m k x)) := by
  refine everywhere_insert h ?_ hx
  intro n hn
  cases hn
  exact (h _ (.self _) m rfl).congr fun c hc => Obj.get_insert_ne _ _ (hk c hc)

/-- What is known of the root object made from an inferred schema, before definitions are added. -/
structure RootObj (odd : Val → Option (List Char)) (v : Val) (m : List (String × Json)) : Prop where
  sorted : Obj.Sorted m
  absent : ∀ k ∈ ["$ref", "$defs", "definitions", "components"], Obj.get m k = none
  tame : Everywhere visited (OnObj Tame) (.obj m)
  valid : ∀ (D : Dialect) (env : Env) j, Faithful odd v → toValue v = some j → Valid D env (.obj m) j

theorem rootObj {odd : Val → Option (List Char)} {v : Val} {b : Bool} {s : Json} {m : List (String × Json)}
    (h : infer odd b v = some s) (hm : Schema.ensureObject s = some m) (ex : Option Json) (ms : Option String) :
    RootObj odd v (valueObject ex ms m) := by
  have hi := C39_shape v b s h
  have h0 : RootObj odd v m := by
    rcases inferred_ensureObject hi hm with ⟨rfl, rfl⟩ | rfl
    · refine ⟨Obj.sorted_nil, fun _ _ => rfl, ?_, fun D env j _ _ => by rw [Valid, den_empty]; rfl⟩
      intro x hx
      cases hx with
      | self =>
        rintro n ⟨⟩
        exact (tame_inferredPart (.self (.anyTitled ""))).congr (by decide)
      | step hd _ => cases hd with
        | one h => cases h
        | list h => cases h
        | map h => cases h
    · refine ⟨?_, fun k hk => inferredPart_none (.self hi) (by revert hk k; decide), tame_inferred (.self hi),
        fun D env j hf hj => C38_infer_partial v b _ j hf h hj⟩
      generalize (if b = true then valTitle v else none) = o at hi
      cases hi with
      | anyTitled n => unfold Obj.Sorted; simp
      | typed hs => exact hs
  have hr := h0.absent "$ref" (by decide)
  refine ⟨valueObject_sorted ex ms h0.sorted, fun k hk => ?_, ?_, fun D env j hf hj =>
    (valueObject_valid ex ms h0.sorted hr j).2 (h0.valid D env j hf hj)⟩
  · rw [valueObject_get ex ms m (by revert hk k; decide)]; exact h0.absent k hk
  · have e1 : ∀ {n : List (String × Json)} {x}, Everywhere visited (OnObj Tame) (.obj n) →
        Everywhere visited (OnObj Tame) (.obj (Obj.insert n "examples" x)) := fun hn =>
      tame_insert hn (by decide) fun y hy => absurd hy (noSub_single (by decide))
    have e2 : ∀ {n : List (String × Json)} {x}, Everywhere visited (OnObj Tame) (.obj n) →
        Everywhere visited (OnObj Tame) (.obj (Obj.insert n "$schema" x)) := fun hn =>
      tame_insert hn (by decide) fun y hy => absurd hy (noSub_single (by decide))
    unfold valueObject
    cases ex <;> cases ms
    · exact h0.tame
    · exact e2 h0.tame
    · exact e1 h0.tame
    · exact e2 (e1 h0.tame)

section
variable {τ : Type}

/-- The root schema before the transforms accepts the value, when the definitions are put at a place that
says nothing about instances; and the transforms are tame on it when they are tame on the definitions. -/
theorem C38_root {odd : Val → Option (List Char)} {g : Gen τ} {v : Val} {s : Json}
    (h : rootSchemaForValue odd g v = some s) :
    ∃ m, RootObj odd v m ∧ s = applyTransforms g.settings.transforms
      (.obj (addDefinitions g.settings.definitionsPath.toList m g.defs)) := by
  simp only [rootSchemaForValue, Option.bind_eq_some_iff, Option.map_eq_some_iff] at h
  obtain ⟨s0, h1, m, h2, rfl⟩ := h
  exact ⟨_, rootObj h1 h2 _ _, rfl⟩

/-- The generator's own definitions do not change what the root schema accepts, and they are the only new
subschemas. -/
theorem RootObj.addDefs {odd : Val → Option (List Char)} {v : Val} {m : List (String × Json)} (h : RootObj odd v m)
    {p k : String} (hp : (p, k) ∈ [("/$defs", "$defs"), ("/definitions", "definitions")])
    (defs : List (String × Json)) (hf : Faithful odd v) {j : Json} (hj : toValue v = some j) :
    Valid D env (.obj (addDefinitions p.toList m defs)) j ∧
    ((∀ e ∈ defs, Everywhere visited (OnObj Tame) e.2) →
      Everywhere visited (OnObj Tame) (.obj (addDefinitions p.toList m defs))) := by
  have hk : k ∈ ["$ref", "$defs", "definitions", "components"] ∧ k ∈ annotations ∧ ∀ c ∈ tameKeys, k ≠ c := by
    revert hp; simp only [List.mem_cons, List.not_mem_nil, or_false, Prod.mk.injEq]
    rintro (⟨rfl, rfl⟩ | ⟨rfl, rfl⟩) <;> decide
  rw [addDefinitions_fresh hp m defs (h.absent k hk.1)]
  by_cases hd : defs = []
  · rw [if_pos hd]
    exact ⟨h.valid D env j hf hj, fun _ => h.tame⟩
  · rw [if_neg hd]
    refine ⟨(valid_insert_annotation hk.2.1 h.sorted (.inr (h.absent "$ref" (by decide))) _).2
      (h.valid D env j hf hj), fun ht => tame_insert h.tame hk.2.2 fun y hy => ?_⟩
    cases hy with
    | one hm h1 =>
      simp only [List.mem_singleton, Prod.mk.injEq] at hm
      obtain ⟨rfl, -⟩ := hm
      revert hp; simp only [List.mem_cons, List.not_mem_nil, or_false, Prod.mk.injEq]
      rintro (⟨rfl, rfl⟩ | ⟨rfl, rfl⟩) <;> exact absurd h1 (by decide)
    | list hm h1 =>
      simp only [List.mem_singleton, Prod.mk.injEq, reduceCtorEq, and_false] at hm
    | map hm h1 hn =>
      simp only [List.mem_singleton, Prod.mk.injEq, Json.obj.injEq] at hm
      obtain ⟨-, rfl⟩ := hm
      exact ht _ (mem_of_mem_ofList hn)

/-- C38 for draft 2020-12 settings, whatever is already in the generator. -/
theorem C38_draft2020_partial {odd : Val → Option (List Char)} {g : Gen τ} (hg : g.settings = Settings.draft2020) {v : Val}
    {s j : Json} (hf : Faithful odd v) (h : rootSchemaForValue odd g v = some s) (hj : toValue v = some j) :
    Valid Spec.draft2020 env s j := by
  obtain ⟨m, hm, rfl⟩ := C38_root h
  rw [hg]
  exact (hm.addDefs (k := "$defs") (by decide) g.defs hf hj).1

/-- C38 for draft 2019-09 settings, in the dialect of that draft. -/
theorem C38_draft2019_partial {odd : Val → Option (List Char)} {g : Gen τ} (hg : g.settings = Settings.draft2019)
    (hd : ∀ e ∈ g.defs, Everywhere visited (OnObj Tame) e.2) {v : Val}
    {s j : Json} (hf : Faithful odd v) (h : rootSchemaForValue odd g v = some s) (hj : toValue v = some j) :
    Valid Spec.draft2019 env s j := by
  obtain ⟨m, hm, rfl⟩ := C38_root h
  rw [hg]
  have := hm.addDefs (D := Spec.draft2020) (env := env) (p := "/$defs") (k := "$defs") (by decide) g.defs hf hj
  show (den _ _ (applyTransforms draft2019Transforms (.obj (addDefinitions "/$defs".toList m g.defs))) j).ok = true
  rw [C58_draft2019_partial env (.obj _) (Everywhere.imp (this.2 hd) fun _ hx m hm => (hx m hm).tuples)]
  exact this.1

/-- C38 for draft-07 settings, in the dialect of that draft. -/
theorem C38_draft07_partial {odd : Val → Option (List Char)} {g : Gen τ} (hg : g.settings = Settings.draft07)
    (hd : ∀ e ∈ g.defs, Everywhere visited (OnObj Tame) e.2) {v : Val}
    {s j : Json} (hf : Faithful odd v) (h : rootSchemaForValue odd g v = some s) (hj : toValue v = some j) :
    Valid Spec.draft07 env s j := by
  obtain ⟨m, hm, rfl⟩ := C38_root h
  rw [hg]
  have := hm.addDefs (D := Spec.draft2020) (env := env) (p := "/definitions") (k := "definitions") (by decide)
    g.defs hf hj
  show (den _ _ (applyTransforms draft07Transforms (.obj (addDefinitions "/definitions".toList m g.defs))) j).ok = true
  rw [C58_draft07_partial env (.obj _) (Everywhere.imp (this.2 hd) fun _ hx m hm => (hx m hm).tuples)
    (Everywhere.imp (this.2 hd) fun _ hx m hm => (hx m hm).refs)]
  exact this.1

/-- C38 for OpenAPI 3.0 settings, in that dialect. The definitions go below `components`, which is no
keyword: a validator that knows it must accept it. -/
theorem C38_openapi3_partial {odd : Val → Option (List Char)} {g : Gen τ} (hg : g.settings = Settings.openapi3) {v : Val}
    {s j : Json} (hf : Faithful odd v) (h : rootSchemaForValue odd g v = some s) (hj : toValue v = some j)
    (hkw : ∀ x, env.kw "components" x j = true) : Valid Spec.openapi30 env s j := by
  obtain ⟨m, hm, rfl⟩ := C38_root h
  rw [hg]
  have hc := addDefinitions_components m g.defs (hm.absent "components" (by decide))
  have ht : Everywhere visited (OnObj Tame) (.obj (addDefinitions "/components/schemas".toList m g.defs)) := by
    rw [hc]
    split
    · exact hm.tame
    · exact tame_insert hm.tame (by decide) fun y hy => absurd hy (noSub_single (by decide))
  show (den _ _ (applyTransforms openapi3Transforms _) j).ok = true
  refine Eq.trans (congrArg (fun f => (f j).ok) (C58_openapi3_partial env (.obj _) ht)) ?_
  show Valid _ _ _ _
  rw [hc]
  split
  · exact hm.valid _ _ j hf hj
  · rw [valid_insert (by decide) hm.sorted (.inr (hm.absent "$ref" (by decide))),
      Obj.remove_of_get_none (hm.absent "components" (by decide))]
    exact ⟨hm.valid _ _ j hf hj, fun h => absurd h (by decide), fun _ => hkw _⟩

/-- The value is the only example in the root schema. -/
theorem C38_examples {odd : Val → Option (List Char)} {g : Gen τ} (hg : g.settings = Settings.draft2020) {v : Val}
    {s j : Json} (h : rootSchemaForValue odd g v = some s) (hj : toValue v = some j) :
    Schema.get s "examples" = some (.arr [j]) := by
  simp only [rootSchemaForValue, Option.bind_eq_some_iff, Option.map_eq_some_iff] at h
  obtain ⟨s0, h1, m, h2, rfl⟩ := h
  have hm := rootObj h1 h2 (toValue v) g.settings.metaSchema
  rw [hg] at hm ⊢
  show Schema.get (.obj (addDefinitions "/$defs".toList _ g.defs)) _ = _
  rw [addDefinitions_fresh (k := "$defs") (by decide) _ _ (hm.absent "$defs" (by decide)), hj]
  have he : Obj.get (valueObject (some j) Settings.draft2020.metaSchema m) "examples" = some (.arr [j]) := by
    show Obj.get (Obj.insert (Obj.insert m "examples" (.arr [j])) "$schema" _) "examples" = _
    rw [Obj.get_insert_ne _ _ (by decide), Obj.get_insert_self]
  split
  · exact he
  · exact (Obj.get_insert_ne _ _ (by decide)).trans he

/-- The consuming variant returns the same schema. -/
theorem C38_into (odd : Val → Option (List Char)) (g : Gen τ) (v : Val) :
    intoRootSchemaForValue odd g v = rootSchemaForValue odd g v := rfl

end

/-! ### The full claim, and why it fails -/

/-- C38, full claim, for draft 2020-12 settings. It fails: see `C38_nan_false` and `C38_key_false`. -/
def C38_Full : Prop := ∀ (τ : Type) (odd : Val → Option (List Char)) (g : Gen τ) (env : Env) (v : Val) (s j : Json),
  g.settings = Settings.draft2020 → rootSchemaForValue odd g v = some s → toValue v = some j →
  Valid Spec.draft2020 env s j

/-- NaN is `null` in JSON, the schema asks for a number. -/
theorem C38_nan_false : ¬ C38_Full := by
  intro h
  have := h Unit (fun _ => none) (Gen.new Settings.draft2020) trivialEnv (.float none "NaN") _ _ rfl rfl rfl
  revert this; unfold Valid; decide

/-- A map with the keys `a"b` and `a\"b`: the first key is written as `a\"b` in the schema, so its schema
meets the value of the second. -/
def keyClash : Val := .map [(.str "a\\\"b", .str "x"), (.str "a\"b", .int 1)]

theorem C38_key_false : ¬ C38_Full := by
  intro h
  have := h Unit (fun _ => none) (Gen.new Settings.draft2020) trivialEnv keyClash _ _ rfl rfl rfl
  revert this; unfold Valid; decide

/-! ### Keys that need no escapes -/

/-- The characters that JSON texts do not escape. -/
def Spec.PlainText (s : String) : Prop := ∀ c ∈ s.toList, c ≠ '"' ∧ c ≠ '\\' ∧ 32 ≤ c.toNat

/-- Keys that are strings without characters to escape. -/
def Spec.PlainKey : Val → Prop
  | .str s => PlainText s
  | .collectStr s => PlainText s
  | .unitVariant s => PlainText s
  | .char c => PlainText (String.singleton c)
  | .newtypeStruct _ v => Spec.PlainKey v
  | .some v => Spec.PlainKey v
  | _ => False

theorem escapeChar_plain {c : Char} (h : c ≠ '"' ∧ c ≠ '\\' ∧ 32 ≤ c.toNat) : escapeChar c = [c] := by
  have hn : ∀ n < 32, c ≠ Char.ofNat n := by
    intro n hn he
    have h1 : ∀ n < 32, (Char.ofNat n).toNat < 32 := by decide
    have := h1 n hn
    rw [← he] at this
    omega
  unfold escapeChar
  rw [if_neg h.1, if_neg h.2.1, if_neg (hn 8 (by decide)), if_neg (hn 9 (by decide)), if_neg (hn 10 (by decide)),
    if_neg (hn 12 (by decide)), if_neg (hn 13 (by decide)), if_neg (by omega)]

theorem quote_plain {s : String} (h : PlainText s) : quote s = '"' :: (s.toList ++ ['"']) := by
  have : ∀ l : List Char, (∀ c ∈ l, c ≠ '"' ∧ c ≠ '\\' ∧ 32 ≤ c.toNat) → l.flatMap escapeChar = l := by
    intro l hl
    induction l with
    | nil => rfl
    | cons c l ih =>
      rw [List.flatMap_cons, escapeChar_plain (hl c (by simp)), ih fun x hx => hl x (by simp [hx])]; rfl
  unfold quote
  rw [this _ h]

theorem dropWhile_none {p : Char → Bool} {l : List Char} (h : ∀ c ∈ l, p c = false) : l.dropWhile p = l := by
  cases l with
  | nil => rfl
  | cons c l => rw [List.dropWhile_cons, h c (by simp)]; rfl

theorem trimQuotes_plain {s : String} (h : PlainText s) : trimQuotes ('"' :: (s.toList ++ ['"'])) = s := by
  have hq : ∀ c ∈ s.toList, (c == '"') = false := fun c hc => by simpa using (h c hc).1
  have hr : ∀ c ∈ s.toList.reverse, (c == '"') = false := fun c hc => hq c (List.mem_reverse.1 hc)
  unfold trimQuotes
  rw [List.dropWhile_cons_of_pos (by decide)]
  cases hs : s.toList with
  | nil =>
    have : s = "" := by rw [← String.ofList_toList (s := s), hs]
    subst this; decide
  | cons c l =>
    have h1 : (c :: l ++ ['"']).dropWhile (· == '"') = c :: l ++ ['"'] := by
      rw [List.cons_append, List.dropWhile_cons, hq c (by simp [hs])]; rfl
    rw [h1, ← hs, List.reverse_append, List.reverse_singleton, List.singleton_append,
      List.dropWhile_cons_of_pos (by decide), dropWhile_none hr, List.reverse_reverse, String.ofList_toList]

theorem plainKey_text : ∀ v : Val, PlainKey v → ∃ s, keyText v = some s ∧ ∃ t, toText odd v = some t ∧ trimQuotes t = s
  | .str s, h => ⟨s, rfl, _, rfl, by rw [quote_plain h]; exact trimQuotes_plain h⟩
  | .collectStr s, h => ⟨s, rfl, _, rfl, by rw [quote_plain h]; exact trimQuotes_plain h⟩
  | .unitVariant s, h => ⟨s, rfl, _, rfl, by rw [quote_plain h]; exact trimQuotes_plain h⟩
  | .char c, h => ⟨_, rfl, _, rfl, by rw [quote_plain h]; exact trimQuotes_plain h⟩
  | .newtypeStruct _ v, h => by
    obtain ⟨s, h1, t, h2, h3⟩ := plainKey_text v h
    exact ⟨s, h1, t, h2, h3⟩
  | .some v, h => by
    obtain ⟨s, h1, t, h2, h3⟩ := plainKey_text v h
    exact ⟨s, h1, t, h2, h3⟩

/-- Plain keys are kept as they are, so they stay apart. -/
theorem C38_plainKeys {l : List (Val × Val)} (h : ∀ e ∈ l, PlainKey e.1) : KeysApart odd l := by
  intro e he f hf t s s' u ht hs hs' hu hts
  obtain ⟨x, h1, y, h2, h3⟩ := plainKey_text (odd := odd) e.1 (h e he)
  obtain ⟨x', h1', y', h2', h3'⟩ := plainKey_text (odd := odd) f.1 (h f hf)
  simp only [h1, h2, h1', h2', Option.some.injEq] at ht hs hs' hu
  subst ht hs hs' hu
  exact ⟨h3.symm.trans hts, h3'⟩

/-! ### Examples -/

/-- A struct with a sequence of mixed values, an optional member, a map, a tuple and an enum value. -/
def sample38 : Val := .struct "Sample" [("list", .seq [.int 1, .str "x", .int 2]), ("opt", .some (.bool true)),
  ("map", .map [(.str "k", .float (some (1 / 2)) "0.5"), (.str "l", .none)]), ("pair", .tuple "" [.int 1, .char 'c']),
  ("other", .collectMap [(.int 1, .int 2)]), ("unit", .unitStruct "U"), ("variant", .newtypeVariant "V" .fail)]

theorem sample38_faithful : Faithful odd sample38 := by
  simp only [sample38, Faithful, FaithfulFields, FaithfulAll, FaithfulEntries, and_true, true_and]
  refine ⟨C38_plainKeys ?_, rfl⟩
  simp [PlainKey, PlainText]

example : (infer (fun _ => none) true sample38).isSome = true ∧ toValue sample38 = none := by decide

/-- The same without the failing variant, which inference does not look at. -/
def sample39 : Val := .struct "Sample" [("list", .seq [.int 1, .str "x", .int 2]), ("opt", .some (.bool true)),
  ("map", .map [(.str "k", .float (some (1 / 2)) "0.5"), (.str "l", .none)]), ("pair", .tuple "" [.int 1, .char 'c']),
  ("other", .collectMap [(.int 1, .int 2)]), ("unit", .unitStruct "U")]

theorem sample39_faithful : Faithful odd sample39 := by
  simp only [sample39, Faithful, FaithfulFields, FaithfulAll, FaithfulEntries, and_true, true_and]
  refine ⟨C38_plainKeys ?_, rfl⟩
  simp [PlainKey, PlainText]

example : (rootSchemaForValue (τ := Unit) (fun _ => none) (Gen.new Settings.draft07) sample39).isSome = true ∧
    (rootSchemaForValue (τ := Unit) (fun _ => none) (Gen.new Settings.openapi3) sample39).isSome = true ∧
    (toValue sample39).isSome = true := by decide

end Verif
