import Verif.Lemmas.Pointer

/-!
# C06, C07, C08, C10: the `Schema` API
-/

namespace Verif
open Spec

/-! ## C07 -/

/-- C07: the conversions succeed exactly on objects and bools, and return the value unchanged. -/
theorem C07_tryFrom (v s : Json) :
    Schema.tryFrom v = some s ↔ s = v ∧ ((∃ m, v = .obj m) ∨ ∃ b, v = .bool b) := by
  cases v <;> simp [Schema.tryFrom, Schema.validate, eq_comm]

example : Schema.tryFrom (.obj [("type", .str "string")]) = some (.obj [("type", .str "string")]) := by
  decide
example : Schema.tryFrom (.arr []) = none := by decide

/-! ## C08 -/

/-- C08: on a bool or object schema, `insert` does not panic, gives a schema whose `get` returns the
inserted value, leaves the other keys of the coerced object alone, and returns the previous value.
The coerced object of `true` has no keys and that of `false` has only `not`. -/
theorem C08_insert (s : Json) (hs : isSchema s = true) (k : String) (v : Json) :
    ∃ s' prev, Schema.insert s k v = some (s', prev) ∧
      Schema.get s' k = some v ∧
      (∀ q, q ≠ k → s ≠ .bool false → Schema.get s' q = Schema.get s q) ∧
      (s = .bool false → ∀ q, q ≠ k → Schema.get s' q = if q = "not" then some (.obj []) else none) ∧
      (s ≠ .bool false → prev = Schema.get s k) ∧
      (s = .bool false → prev = if k = "not" then some (.obj []) else none) := by
  cases s with
  | bool b =>
    cases b with
    | true =>
      refine ⟨_, _, rfl, by simp [Schema.get], ?_, by simp, ?_, by simp⟩
      · intro q hq _; simp [Schema.get, Obj.get_insert, Ne.symm hq]
      · intro _; rfl
    | false =>
      refine ⟨_, _, rfl, by simp [Schema.get], by simp, ?_, by simp, ?_⟩
      · intro _ q hq
        simp [Schema.get, Obj.get_insert, Ne.symm hq, eq_comm]
      · intro _; simp [Obj.get_insert, eq_comm]
  | obj m =>
    refine ⟨_, _, rfl, by simp [Schema.get], ?_, by simp, by simp [Schema.get], by simp⟩
    intro q hq _; simp [Schema.get, Obj.get_insert, Ne.symm hq]
  | _ => simp [isSchema] at hs

/-- C08: `remove` returns the value `get` would return, after it the key is absent and every other key is
unchanged; a bool schema is not modified. -/
theorem C08_remove (s : Json) (k : String) :
    (Schema.remove s k).2 = Schema.get s k ∧
    Schema.get (Schema.remove s k).1 k = none ∧
    (∀ q, q ≠ k → Schema.get (Schema.remove s k).1 q = Schema.get s q) ∧
    (∀ b, s = .bool b → (Schema.remove s k).1 = s) := by
  cases s with
  | obj m =>
    refine ⟨rfl, by simp [Schema.remove, Schema.get], ?_, by simp⟩
    intro q hq; simp [Schema.remove, Schema.get, Obj.get_remove, Ne.symm hq]
  | _ => exact ⟨rfl, rfl, fun _ _ => rfl, fun _ _ => rfl⟩

/-- C08: bool schemas have no keys. -/
theorem C08_bool_get (b : Bool) (k : String) : Schema.get (.bool b) k = none := rfl

/-- C08: writing through `get_mut` changes that key only, and adds no key. -/
theorem C08_getMut (s : Json) (k q : String) (f : Json → Json) :
    Schema.get (Schema.getMut s k f) q =
      if q = k then (Schema.get s k).map f else Schema.get s q := by
  cases s with
  | obj m =>
    simp only [Schema.getMut, Schema.get, Obj.get_modify]
    by_cases h : q = k
    · subst h; simp
    · simp [h, Ne.symm h]
  | _ => simp [Schema.getMut, Schema.get]

example : isSchema (.bool false) = true := rfl
example : Schema.insert (.bool false) "type" (.str "null") =
    some (.obj [("not", .obj []), ("type", .str "null")], none) := by decide

/-! ## C10 -/

theorem renderPointer_head (toks : List String) : (renderPointer toks).head? ≠ some '#' := by
  cases toks with
  | nil => simp [renderPointer]
  | cons t ts => rw [renderPointer_cons]; simp

theorem stripPrefix_render (toks : List String) : stripPrefix '#' (renderPointer toks) = none := by
  have hp := renderPointer_head toks
  cases hr : renderPointer toks with
  | nil => rfl
  | cons c t =>
    have : c ≠ '#' := by rintro rfl; rw [hr] at hp; exact hp rfl
    simp [stripPrefix, this]

/-- C10: `pointer` on a plain pointer text follows RFC 6901. -/
theorem C10_pointer (s : Json) (toks : List String) (w : Json) :
    Schema.pointer s (String.ofList (renderPointer toks)) = some w ↔ At s toks w := by
  simp only [Schema.pointer, Schema.pointerText, String.toList_ofList, stripPrefix_render,
    Option.bind_some, valuePointer_render]

/-- C10: a text that neither is empty nor starts with `/` or `#` is never found. -/
theorem C10_pointer_bad (s : Json) (c : Char) (t : List Char) (h1 : c ≠ '/') (h2 : c ≠ '#') :
    Schema.pointer s (String.ofList (c :: t)) = none := by
  simp [Schema.pointer, Schema.pointerText, stripPrefix, h2, valuePointer, pointerToks, h1]

/-- C10: with a leading `#` the rest is percent-decoded first (RFC 3986 octets), then followed. -/
theorem C10_pointer_fragment (s : Json) (enc : List Char) (toks : List String) (w : Json)
    (hplus : NoPlus enc) (henc : pctOctets enc = utf8 (renderPointer toks)) :
    Schema.pointer s (String.ofList ('#' :: enc)) = some w ↔ At s toks w := by
  have h1 : percentDecodeChars enc = some (renderPointer toks) := by
    rw [percentDecodeChars_eq, loopBytes_eq_pctOctets _ hplus, henc, fromUtf8_utf8]
  simp [Schema.pointer, Schema.pointerText, stripPrefix, h1, valuePointer_render]

/-- C10: when the percent-decoded octets are not UTF-8 the result is `None`. -/
theorem C10_pointer_bad_utf8 (s : Json) (enc : List Char) (hplus : NoPlus enc)
    (henc : ∀ t, pctOctets enc ≠ utf8 t) : Schema.pointer s (String.ofList ('#' :: enc)) = none := by
  have h1 : percentDecodeChars enc = none := by
    rw [percentDecodeChars_eq, loopBytes_eq_pctOctets _ hplus, fromUtf8_eq_none]; exact henc
  simp [Schema.pointer, Schema.pointerText, stripPrefix, h1]

example : pctOctets "/%24defs/a%F0%9F%9A%80".toList = utf8 (renderPointer ["$defs", "a🚀"]) := by decide
example : NoPlus "/%24defs/a%F0%9F%9A%80".toList := by
  intro d r _ h
  have : '+' ∈ "/%24defs/a%F0%9F%9A%80".toList := h.subset (by simp)
  exact absurd this (by decide)

/-- C10: `pointer_mut` finds a location iff `pointer` does. -/
theorem C10_pointerMut_isSome (s : Json) (p : String) (f : Json → Json) :
    (Schema.pointerMut s p f).isSome = (Schema.pointer s p).isSome := by
  simp only [Schema.pointerMut, Schema.pointer]
  cases Schema.pointerText p with
  | none => rfl
  | some t =>
    simp only [Option.bind_some, valuePointerMut, valuePointer]
    cases pointerToks t with
    | none => rfl
    | some ts => simp

/-- C10: reading back after writing through `pointer_mut` gives the written value. -/
theorem C10_pointerMut_read (s s' v : Json) (p : String) (f : Json → Json)
    (h : Schema.pointer s p = some v) (h' : Schema.pointerMut s p f = some s') :
    Schema.pointer s' p = some (f v) := by
  simp only [Schema.pointerMut, Schema.pointer] at *
  cases ht : Schema.pointerText p with
  | none => rw [ht] at h; cases h
  | some t =>
    simp only [ht, Option.bind_some, valuePointerMut, valuePointer] at *
    cases hts : pointerToks t with
    | none => rw [hts] at h; cases h
    | some ts =>
      simp only [hts, Option.bind_some, Option.map_eq_some_iff] at *
      obtain ⟨_, _, rfl⟩ := h'
      have e : ts = (ts.map String.ofList).map String.toList := by
        simp [Function.comp_def]
      rw [e] at h ⊢
      rw [walkToks_iff_At] at h ⊢
      exact modifyToks_self h

/-- C10: writing through `pointer_mut` changes nothing at locations that are neither inside nor around
the written one. -/
theorem C10_pointerMut_frame (s s' : Json) (toks q : List String) (f : Json → Json)
    (h' : Schema.pointerMut s (String.ofList (renderPointer toks)) f = some s')
    (h1 : ¬ toks <+: q) (h2 : ¬ q <+: toks) (v : Json) : At s' q v ↔ At s q v := by
  simp only [Schema.pointerMut, Schema.pointerText, String.toList_ofList, stripPrefix_render, Option.bind_some,
    valuePointerMut, pointerToks_render, Option.map_eq_some_iff] at h'
  obtain ⟨_, _, rfl⟩ := h'
  exact modifyToks_frame h1 h2 v

example : ¬ (["$defs", "A"] <+: ["$defs", "B"]) ∧ ¬ (["$defs", "B"] <+: ["$defs", "A"]) := by decide

/-- C10, documented for both methods: "This always returns `None` for bool schemas". -/
def C10_BoolNone : Prop := ∀ (b : Bool) (p : String), Schema.pointer (.bool b) p = none

/-- The bool clause of C10 is false: the empty pointer returns the bool itself. -/
theorem C10_bool_refuted : ¬ C10_BoolNone := by
  intro h; exact absurd (h true "") (by decide)

/-- The bool clause of C10 holds for every pointer text other than the (decoded) empty one. -/
theorem C10_bool_partial (b : Bool) (p : String) (h : Schema.pointerText p ≠ some []) :
    Schema.pointer (.bool b) p = none := by
  simp only [Schema.pointer]
  cases ht : Schema.pointerText p with
  | none => rfl
  | some t =>
    rw [ht] at h
    have hne : t ≠ [] := fun e => h (by rw [e])
    simp only [Option.bind_some, valuePointer]
    cases t with
    | nil => exact absurd rfl hne
    | cons c t =>
      simp only [pointerToks]
      split
      · have hs := splitChar_ne_nil '/' (c :: t)
        next hc =>
        subst hc
        rw [splitChar_cons_self]
        obtain ⟨a, r, ha, _⟩ := splitChar_eq (c := '/') t
        simp [ha, walkToks, stepTok]
      · rfl

example : Schema.pointerText "/properties" ≠ some [] := by decide

/-! ## C06 -/

/-- A call on a schema. Writes through mutable references are arbitrary functions. -/
inductive ApiOp where
  | insert (k : String) (v : Json)
  | remove (k : String)
  | getMut (k : String) (f : Json → Json)
  | ensureObject (f : List (String × Json) → List (String × Json))
  | asObjectMut (f : List (String × Json) → List (String × Json))
  | pointerMut (p : String) (f : Json → Json)
  | assignTryFrom (v : Json)

/-- The schema after a call; `none` is a panic. -/
def ApiOp.run (s : Json) : ApiOp → Option Json
  | .insert k v => (Schema.insert s k v).map Prod.fst
  | .remove k => some (Schema.remove s k).1
  | .getMut k f => some (Schema.getMut s k f)
  | .ensureObject f => (Schema.ensureObject s).map fun m => .obj (f m)
  | .asObjectMut f => some (Schema.asObjectMut s f)
  | .pointerMut p f => some ((Schema.pointerMut s p f).getD s)
  | .assignTryFrom v => some ((Schema.tryFrom v).getD s)

/-- A history of calls. -/
def runOps (s : Json) : List ApiOp → Option Json
  | [] => some s
  | o :: os => (o.run s).bind fun s' => runOps s' os

/-- C06, full statement: no history panics, and every state is an object or a bool. -/
def C06_Full : Prop :=
  ∀ (s : Json) (ops : List ApiOp), isSchema s = true → ∃ s', runOps s ops = some s' ∧ isSchema s' = true

/-- C06 is false: writing `null` through `pointer_mut("")` leaves a "schema" that is neither, and the
next `insert` panics. -/
theorem C06_refuted : ¬ C06_Full := by
  intro h
  obtain ⟨s', h1, _⟩ := h (.bool true) [.pointerMut "" (fun _ => .null), .insert "a" .null] rfl
  have : runOps (.bool true) [.pointerMut "" (fun _ => .null), .insert "a" .null] = none := by decide
  rw [this] at h1; cases h1

/-- The calls that do not hand out the root value itself. -/
def ApiOp.NotRoot : ApiOp → Prop
  | .pointerMut p _ => Schema.pointerText p ≠ some []
  | _ => True

theorem isSchema_modifyTok (j : Json) (t : List Char) (f : Json → Json) :
    isSchema (modifyTok j t f) = isSchema j := by
  cases j with
  | arr l => simp only [modifyTok]; split <;> rfl
  | _ => rfl

/-- C06 for every history without a `pointer_mut` call on the root location: nothing panics and the
value stays an object or a bool. Missing: `pointer_mut("")`/`pointer_mut("#")`, for which it is false
(`C06_refuted`). -/
theorem C06_invariant_partial (s : Json) (ops : List ApiOp) (hs : isSchema s = true)
    (hops : ∀ o ∈ ops, o.NotRoot) : ∃ s', runOps s ops = some s' ∧ isSchema s' = true := by
  induction ops generalizing s with
  | nil => exact ⟨s, rfl, hs⟩
  | cons o os ih =>
    have step : ∃ s', o.run s = some s' ∧ isSchema s' = true := by
      cases o with
      | insert k v =>
        obtain ⟨s', prev, h, _⟩ := C08_insert s hs k v
        refine ⟨s', by simp [ApiOp.run, h], ?_⟩
        simp only [Schema.insert, Option.map_eq_some_iff, Prod.mk.injEq] at h
        obtain ⟨m, _, rfl, _⟩ := h
        rfl
      | remove k => refine ⟨_, rfl, ?_⟩; cases s <;> simp_all [Schema.remove, isSchema]
      | getMut k f => refine ⟨_, rfl, ?_⟩; cases s <;> simp_all [Schema.getMut, isSchema]
      | ensureObject f =>
        have : ∃ m, Schema.ensureObject s = some m := by
          cases s with
          | bool b => cases b <;> exact ⟨_, rfl⟩
          | obj m => exact ⟨_, rfl⟩
          | _ => simp [isSchema] at hs
        obtain ⟨m, hm⟩ := this
        exact ⟨.obj (f m), by simp [ApiOp.run, hm], rfl⟩
      | asObjectMut f => refine ⟨_, rfl, ?_⟩; cases s <;> simp_all [Schema.asObjectMut, isSchema]
      | pointerMut p f =>
        refine ⟨_, rfl, ?_⟩
        have hp : Schema.pointerText p ≠ some [] := hops _ List.mem_cons_self
        cases hr : Schema.pointerMut s p f with
        | none => exact hs
        | some s' =>
          simp only [Option.getD_some]
          simp only [Schema.pointerMut, Option.bind_eq_some_iff] at hr
          obtain ⟨t, ht, hr⟩ := hr
          have hne : t ≠ [] := fun e => hp (by rw [ht, e])
          simp only [valuePointerMut] at hr
          cases hts : pointerToks t with
          | none => rw [hts] at hr; cases hr
          | some ts =>
            rw [hts] at hr
            simp only [Option.map_eq_some_iff] at hr
            obtain ⟨_, _, rfl⟩ := hr
            have : ts ≠ [] := by
              rintro rfl
              cases t with
              | nil => exact hne rfl
              | cons c t =>
                simp only [pointerToks] at hts
                split_ifs at hts with hc
                subst hc
                rw [splitChar_cons_self] at hts
                simp [splitChar_ne_nil] at hts
            cases ts with
            | nil => exact absurd rfl this
            | cons a ts => simp only [modifyToks, isSchema_modifyTok]; exact hs
      | assignTryFrom v =>
        refine ⟨_, rfl, ?_⟩
        cases hv : Schema.tryFrom v with
        | none => exact hs
        | some s' =>
          have := (C07_tryFrom v s').1 hv
          obtain ⟨rfl, (⟨m, rfl⟩ | ⟨b, rfl⟩)⟩ := this <;> rfl
    obtain ⟨s', h1, h2⟩ := step
    obtain ⟨s'', h3, h4⟩ := ih s' h2 (fun o ho => hops o (by simp [ho]))
    exact ⟨s'', by simp [runOps, h1, h3], h4⟩

/-- C06: every constructor of the API gives an object or a bool. -/
theorem C06_constructors (r : String) (m : List (String × Json)) (b : Bool) :
    isSchema (Schema.newRef r) = true ∧ isSchema (Schema.ofMap m) = true ∧
    isSchema (Schema.ofBool b) = true ∧ isSchema Schema.default = true := ⟨rfl, rfl, rfl, rfl⟩

example : ∀ o ∈ [ApiOp.insert "a" .null, .pointerMut "/a" (fun _ => .bool true), .remove "a"],
    o.NotRoot := by
  intro o ho
  simp only [List.mem_cons, List.not_mem_nil, or_false] at ho
  rcases ho with rfl | rfl | rfl
  · trivial
  · show Schema.pointerText "/a" ≠ some []; decide
  · trivial

end Verif
