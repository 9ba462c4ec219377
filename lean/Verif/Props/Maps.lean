import Verif.Props.Impls

/-!
# C43: maps
-/

namespace Verif
open Spec

/-! ## Specification -/

/-- The value of a map key as serde serializes it on its own, and its text as a key of an object. -/
inductive Spec.KeyOf : Json → String → Prop where
  | str (k : String) : KeyOf (.str k) k
  | int (n : Int) : KeyOf (.num (.int n)) (toString n)
  | true : KeyOf (.bool true) "true"
  | false : KeyOf (.bool false) "false"

/-- Decimal digits, at least one. -/
def Spec.Digits (l : List Char) : Prop := l ≠ [] ∧ ∀ c ∈ l, '0' ≤ c ∧ c ≤ '9'

/-- Decimal digits, maybe after a minus sign. -/
def Spec.SignedDigits (l : List Char) : Prop := Digits l ∨ ∃ t, l = '-' :: t ∧ Digits t

/-- What the two regular expressions for integer keys mean. -/
structure Spec.DigitRx (env : Env) : Prop where
  unsigned : ∀ k, env.rx "^\\d+$" k = true ↔ Digits k.toList
  signed : ∀ k, env.rx "^-?\\d+$" k = true ↔ SignedDigits k.toList

/-- References to definitions are resolved in this map of definitions. -/
def Spec.RefsTo (D : Dialect) (env : Env) (path : List Char) (defs : List (String × Json)) : Prop :=
  ∀ n d, Obj.get defs n = some d → env.ref (refFor path n) = den D env d

theorem digits_repr (n : Nat) : Digits (Nat.repr n).toList := by
  unfold Nat.repr
  rw [String.toList_ofList]
  refine ⟨Nat.toDigits_ne_nil, fun c hc => ?_⟩
  have := Char.isDigit_iff_toNat.1 (Nat.isDigit_of_mem_toDigits (by decide) (by decide) hc)
  exact this

theorem signedDigits_int (n : Int) : SignedDigits (toString n).toList := by
  cases n with
  | ofNat n => exact .inl (digits_repr n)
  | negSucc n =>
    refine .inr ⟨(Nat.repr (n + 1)).toList, ?_, digits_repr _⟩
    show ("-" ++ Nat.repr (n + 1)).toList = _
    rw [String.toList_append]; rfl

theorem digits_nonneg {n : Int} (h : 0 ≤ n) : Digits (toString n).toList := by
  cases n with
  | ofNat n => exact digits_repr n
  | negSucc n => exact absurd h (by omega)

/-! ## The schema -/

section
variable {D : Dialect} {env : Env} {i : Json}

/-- The key is covered by one of the alternatives. -/
def Covered (env : Env) (uses : List KeyUse) (k : String) : Prop :=
  .any ∈ uses ∨ (∃ p, .pattern p ∈ uses ∧ env.rx p k = true) ∨ (∃ l, .names l ∈ uses ∧ k ∈ l) ∨
    ∃ p ∈ intPatterns uses, env.rx p k = true

theorem get_sameFor_aux (names : List String) (v : Json) (m : List (String × Json)) (k : String) :
    Obj.get (names.foldl (fun m n => Obj.insert m n v) m) k = if k ∈ names then some v else Obj.get m k := by
  induction names generalizing m with
  | nil => simp
  | cons n names ih =>
    rw [List.foldl_cons, ih]
    by_cases h : k ∈ names
    · simp [h]
    · by_cases hk : n = k
      · subst hk; simp [h, Obj.get_insert_self]
      · have hk' : k ≠ n := fun e => hk e.symm
        simp [h, hk', Obj.get_insert_ne _ _ hk]

theorem get_sameFor (names : List String) (v : Json) (k : String) :
    Obj.get (sameFor names v) k = if k ∈ names then some v else none := get_sameFor_aux names v [] k

theorem sorted_sameFor (names : List String) (v : Json) : Obj.Sorted (sameFor names v) := by
  unfold sameFor
  have : ∀ (m : List (String × Json)), Obj.Sorted m →
      Obj.Sorted (names.foldl (fun m n => Obj.insert m n v) m) := by
    induction names with
    | nil => exact fun _ h => h
    | cons n names ih => exact fun m h => ih _ (Obj.sorted_insert h _ _)
  exact this [] Obj.sorted_nil

theorem mem_sameFor {names : List String} {v : Json} {e : String × Json} :
    e ∈ sameFor names v ↔ e.1 ∈ names ∧ e.2 = v := by
  constructor
  · intro h
    have := Obj.get_of_mem_sorted (sorted_sameFor names v) (q := e.1) (v := e.2) h
    rw [get_sameFor] at this
    by_cases hk : e.1 ∈ names
    · rw [if_pos hk] at this; exact ⟨hk, (Option.some.inj this).symm⟩
    · rw [if_neg hk] at this; cases this
  · rintro ⟨hk, rfl⟩
    exact Obj.get_mem (by rw [get_sameFor, if_pos hk])

/-- Patterns of a list of alternatives. -/
def usePatterns (uses : List KeyUse) : List String :=
  uses.filterMap (fun | .pattern p => some p | _ => none) ++ intPatterns uses
/-- Names of a list of alternatives. -/
def useNames (uses : List KeyUse) : List String := uses.flatMap (fun | .names l => l | _ => [])

theorem mem_usePatterns {uses : List KeyUse} {p : String} :
    p ∈ usePatterns uses ↔ .pattern p ∈ uses ∨ p ∈ intPatterns uses := by
  unfold usePatterns
  rw [List.mem_append, List.mem_filterMap]
  refine or_congr_left ⟨?_, fun h => ⟨_, h, rfl⟩⟩
  rintro ⟨u, hu, hp⟩
  cases u <;> simp at hp
  subst hp; exact hu

theorem mem_useNames {uses : List KeyUse} {k : String} :
    k ∈ useNames uses ↔ ∃ l, .names l ∈ uses ∧ k ∈ l := by
  unfold useNames
  rw [List.mem_flatMap]
  constructor
  · rintro ⟨u, hu, hk⟩
    cases u <;> simp at hk
    exact ⟨_, hu, hk⟩
  · rintro ⟨l, hl, hk⟩; exact ⟨_, hl, hk⟩

/-- The entries of the schema of a map. -/
def mapEntries (uses : List KeyUse) (v : Json) : List (String × Json) :=
  let m := [("additionalProperties", if uses.contains .any then v else .bool false), ("type", Json.str "object")]
  let m := if usePatterns uses = [] then m else Obj.insert m "patternProperties" (.obj (sameFor (usePatterns uses) v))
  if useNames uses = [] then m else Obj.insert m "properties" (.obj (sameFor (useNames uses) v))

theorem mapFrom_eq (uses : List KeyUse) (v : Json) : mapFrom uses v = .obj (mapEntries uses v) := rfl

theorem sorted_mapEntries (uses : List KeyUse) (v : Json) : Obj.Sorted (mapEntries uses v) := by
  have h : ∀ x y : Json, Obj.Sorted [("additionalProperties", x), ("type", y)] := by
    intro x y
    simp [Obj.Sorted]
  unfold mapEntries
  simp only
  split <;> split <;> first | exact h _ _ | exact Obj.sorted_insert (h _ _) _ _ |
    exact Obj.sorted_insert (Obj.sorted_insert (h _ _) _ _) _ _

theorem get_optInsert (c : Prop) [Decidable c] (m : List (String × Json)) (k : String) (x : Json) (q : String) :
    Obj.get (if c then m else Obj.insert m k x) q = if k = q ∧ ¬ c then some x else Obj.get m q := by
  by_cases h : c
  · simp only [h, if_true, not_true, and_false, if_false]
  · simp only [h, if_false, not_false_eq_true, and_true, Obj.get_insert]

theorem get_mapEntries (uses : List KeyUse) (v : Json) (k : String) : Obj.get (mapEntries uses v) k =
    if "properties" = k ∧ useNames uses ≠ [] then some (.obj (sameFor (useNames uses) v))
    else if "patternProperties" = k ∧ usePatterns uses ≠ [] then some (.obj (sameFor (usePatterns uses) v))
    else if "additionalProperties" = k then some (if uses.contains .any then v else .bool false)
    else if "type" = k then some (.str "object") else none := by
  unfold mapEntries
  simp only
  rw [get_optInsert, get_optInsert, Obj.get_cons, Obj.get_cons, Obj.get_nil]

/-- The key is named by the schema. -/
theorem named_mapEntries (uses : List KeyUse) (v : Json) (k : String) : Named env (mapEntries uses v) k ↔
    k ∈ useNames uses ∨ ∃ p ∈ usePatterns uses, env.rx p k = true := by
  have h1 : memb (mapEntries uses v) "properties" = sameFor (useNames uses) v := by
    unfold memb
    rw [get_mapEntries]
    by_cases h : useNames uses = []
    · simp [h, sameFor]
    · simp [h, members]
  have h2 : memb (mapEntries uses v) "patternProperties" = sameFor (usePatterns uses) v := by
    unfold memb
    rw [get_mapEntries]
    by_cases h : usePatterns uses = []
    · simp [h, sameFor]
    · simp [h, members]
  unfold Named
  rw [h1, h2]
  unfold Obj.has
  rw [get_sameFor]
  refine or_congr ?_ ⟨?_, ?_⟩
  · by_cases h : k ∈ useNames uses <;> simp [h]
  · rintro ⟨e, he, hx⟩; exact ⟨e.1, (mem_sameFor.1 he).1, hx⟩
  · rintro ⟨p, hp, hx⟩; exact ⟨(p, v), mem_sameFor.2 ⟨hp, rfl⟩, hx⟩

theorem covered_iff (uses : List KeyUse) (k : String) : Covered env uses k ↔
    .any ∈ uses ∨ k ∈ useNames uses ∨ ∃ p ∈ usePatterns uses, env.rx p k = true := by
  unfold Covered
  simp only [mem_useNames, mem_usePatterns, or_and_right, exists_or]
  constructor
  · rintro (h | h | h | h)
    exacts [.inl h, .inr (.inr (.inl h)), .inr (.inl h), .inr (.inr (.inr h))]
  · rintro (h | h | h | h)
    exacts [.inl h, .inr (.inr (.inl h)), .inr (.inl h), .inr (.inr (.inr h))]

/-- What the schema of a map accepts. -/
theorem valid_mapFrom (uses : List KeyUse) (v : Json) : Valid D env (mapFrom uses v) i ↔
    ∃ o, i = .obj o ∧ ∀ e ∈ o, Covered env uses e.1 ∧ Valid D env v e.2 := by
  have hs := sorted_mapEntries uses v
  rw [mapFrom_eq, valid_entries (.inr (by rw [get_mapEntries]; simp)) (Obj.sorted_nodup hs)]
  have hmem : ∀ k x, (k, x) ∈ mapEntries uses v ↔ Obj.get (mapEntries uses v) k = some x :=
    fun k x => ⟨Obj.get_of_mem_sorted hs, Obj.get_mem⟩
  have hnull : Obj.get (mapEntries uses v) "nullable" = none := by rw [get_mapEntries]; simp
  constructor
  · intro h
    have ht := h ("type", .str "object") ((hmem _ _).2 (by rw [get_mapEntries]; simp))
    rw [entryOk_type hnull, typeMatch_object] at ht
    obtain ⟨o, rfl⟩ := ht
    refine ⟨o, rfl, fun e he => ?_⟩
    have ha : ¬ Named env (mapEntries uses v) e.1 → Valid D env (if uses.contains .any then v else .bool false) e.2 :=
      (h ("additionalProperties", if uses.contains .any then v else .bool false)
        ((hmem _ _).2 (by rw [get_mapEntries]; simp)) :) e he
    rw [covered_iff]
    by_cases hn : Named env (mapEntries uses v) e.1
    · rw [named_mapEntries] at hn
      refine ⟨.inr hn, ?_⟩
      rcases hn with hn | ⟨p, hp, hx⟩
      · have : EntryOk D env (mapEntries uses v) (.obj o) "properties" (.obj (sameFor (useNames uses) v)) :=
          h ("properties", _) ((hmem _ _).2 (by
            rw [get_mapEntries, if_pos ⟨rfl, List.ne_nil_of_mem hn⟩]))
        rw [entryOk_properties] at this
        exact this e he v (by rw [get_sameFor, if_pos hn])
      · have : EntryOk D env (mapEntries uses v) (.obj o) "patternProperties" (.obj (sameFor (usePatterns uses) v)) :=
          h ("patternProperties", _) ((hmem _ _).2 (by
            rw [get_mapEntries, if_neg (by simp), if_pos ⟨rfl, List.ne_nil_of_mem hp⟩]))
        exact this e he (p, v) (mem_sameFor.2 ⟨hp, rfl⟩) hx
    · have := ha hn
      by_cases hu : uses.contains .any = true
      · rw [if_pos hu] at this
        exact ⟨.inl (by simpa using hu), this⟩
      · rw [if_neg hu] at this
        simp [Valid, den, R.fail] at this
  · rintro ⟨o, rfl, h⟩ ⟨k, x⟩ he
    rw [hmem, get_mapEntries] at he
    by_cases h1 : "properties" = k ∧ useNames uses ≠ []
    · rw [if_pos h1] at he
      cases he; obtain ⟨rfl, -⟩ := h1
      show EntryOk _ _ _ _ "properties" (.obj _)
      rw [entryOk_properties]
      intro e he s hs
      rw [get_sameFor] at hs
      by_cases hk : e.1 ∈ useNames uses
      · rw [if_pos hk] at hs; cases hs; exact (h e he).2
      · rw [if_neg hk] at hs; cases hs
    rw [if_neg h1] at he
    by_cases h2 : "patternProperties" = k ∧ usePatterns uses ≠ []
    · rw [if_pos h2] at he
      cases he; obtain ⟨rfl, -⟩ := h2
      intro e he p hp _
      rw [(mem_sameFor.1 hp).2]
      exact (h e he).2
    rw [if_neg h2] at he
    by_cases h3 : "additionalProperties" = k 
    · rw [if_pos h3] at he
      cases he; subst h3
      intro e he hn
      rw [named_mapEntries] at hn
      have hc := (covered_iff uses e.1).1 (h e he).1
      rcases hc with hc | hc
      · simp only [List.contains_iff_mem, hc, if_true]; exact (h e he).2
      · exact absurd hc hn
    rw [if_neg h3] at he
    by_cases h4 : "type" = k
    · rw [if_pos h4] at he
      cases he; subst h4
      show EntryOk _ _ _ _ "type" (.str "object")
      rw [entryOk_type hnull, typeMatch_object]
      exact ⟨o, rfl⟩
    · rw [if_neg h4] at he; cases he

theorem mapSchema_none {path : List Char} {defs : List (String × Json)} {key v : Json} (h : keyOptions key = none) :
    mapSchema path defs key v = mapFrom [.any] v := by
  have h1 : usePatterns [.any] = [] := by decide
  have h2 : useNames [.any] = [] := by decide
  unfold mapSchema
  rw [h, mapFrom_eq]
  unfold mapEntries
  simp only [h1, h2, if_true, List.contains_cons, BEq.rfl, Bool.true_or]
  simp [mkObj, Obj.ofList, Obj.extend, Obj.insert]

theorem mapSchema_some {path : List Char} {defs : List (String × Json)} {key v : Json}
    {os : List (List (String × Json))} (h : keyOptions key = some os) :
    mapSchema path defs key v = mapFrom (os.map fun o => keyUse (followKeyRef path defs o)) v := by
  unfold mapSchema
  rw [h]

theorem mem_allObjects {a : List Json} {os : List (List (String × Json))} (h : allObjects a = some os) {s : Json}
    (hs : s ∈ a) : ∃ o ∈ os, s = .obj o := by
  induction a generalizing os with
  | nil => cases hs
  | cons j a ih =>
    cases j with
    | obj m =>
      obtain ⟨t, ht, rfl⟩ := Option.map_eq_some_iff.1 h
      rcases List.mem_cons.1 hs with rfl | hs
      · exact ⟨m, by simp, rfl⟩
      · obtain ⟨o, ho, e⟩ := ih ht hs
        exact ⟨o, List.mem_cons_of_mem _ ho, e⟩
    | _ => simp [allObjects] at h

/-- Some alternative accepts what the key schema accepts. -/
theorem keyOptions_valid (hD : D.refSiblings = true) {key x : Json} {os : List (List (String × Json))}
    (h : keyOptions key = some os) (hv : Valid D env key x) : ∃ o ∈ os, Valid D env (.obj o) x := by
  cases key with
  | obj m =>
    unfold keyOptions at h
    simp only at h
    split at h
    · rename_i a ha
      cases hao : allObjects a with
      | none =>
        rw [hao] at h; cases h
        exact ⟨m, by simp, hv⟩
      | some os' =>
        rw [hao] at h; cases h
        obtain ⟨s, hs, hsv⟩ := ((valid_objOk (.inl hD)).1 hv).anyOf _ ha
        obtain ⟨o, ho, rfl⟩ := mem_allObjects hao hs
        exact ⟨o, ho, hsv⟩
    · cases h
      exact ⟨m, by simp, hv⟩
  | _ => cases h

theorem stripList_eq {p s t : List Char} (h : stripList p s = some t) : s = p ++ t := by
  induction p generalizing s with
  | nil => exact Option.some.inj h
  | cons c p ih =>
    cases s with
    | nil => cases h
    | cons x s =>
      unfold stripList at h
      by_cases hx : x = c
      · rw [if_pos hx] at h; rw [hx, ih h]; rfl
      · rw [if_neg hx] at h; cases h

/-- A reference to a definition with its name as it is. -/
def rawRef (path : List Char) (name : String) : String :=
  String.ofList ('#' :: definitionsPathStripped path ++ '/' :: name.toList)

theorem rawRef_plain (path : List Char) {n : String} (h : encodeRefName n = n) : rawRef path n = refFor path n := by
  have h2 : encodeRefChars n.toList = n.toList := by
    have := congrArg String.toList h
    simpa [encodeRefName] using this
  unfold rawRef refFor
  rw [h2]

/-- Following a reference keeps what is accepted. -/
theorem followKeyRef_valid (hD : D.refSiblings = true) {path : List Char} {defs : List (String × Json)}
    (hd : ∀ n d, Obj.get defs n = some (.obj d) → env.ref (rawRef path n) = den D env (.obj d))
    {o : List (String × Json)} {x : Json}
    (hv : Valid D env (.obj o) x) : Valid D env (.obj (followKeyRef path defs o)) x := by
  unfold followKeyRef
  split
  · rename_i r hr
    split
    · rename_i name hn
      split
      · rename_i d hdef
        have href := ((valid_objOk (.inl hD)).1 hv).ref r hr
        have hr' : r = rawRef path (String.ofList name) := by
          have h1 := stripList_eq hn
          unfold rawRef
          rw [String.toList_ofList, ← String.ofList_toList (s := r), h1]
          simp
        rw [hr', hd _ _ hdef] at href
        exact href
      · exact hv
    · exact hv
  · exact hv

theorem allStrings_eq {a : List Json} {l : List String} (h : allStrings a = some l) : a = l.map .str := by
  induction a generalizing l with
  | nil => cases h; rfl
  | cons j a ih =>
    cases j with
    | str s =>
      obtain ⟨t, ht, rfl⟩ := Option.map_eq_some_iff.1 h
      rw [ih ht]; rfl
    | _ => simp [allStrings] at h

/-- An alternative that accepts a key covers its text. -/
theorem keyUse_covers (hD : D.refSiblings = true) (hrx : DigitRx env) {o : List (String × Json)} {x : Json}
    {k : String} (hk : KeyOf x k) (hv : Valid D env (.obj o) x) {uses : List KeyUse} (hu : keyUse o ∈ uses) :
    Covered env uses k := by
  have ho := (valid_objOk (.inl hD)).1 hv
  have hnull : x ≠ .null := by cases hk <;> simp
  unfold Covered
  unfold keyUse at hu
  simp only at hu
  by_cases hs : (Obj.get o "type").bind Json.asStr? = some "string"
  · rw [if_pos hs] at hu
    obtain ⟨ty, hty, hts⟩ := Option.bind_eq_some_iff.1 hs
    have hxs : ∃ s, x = .str s := by
      rcases ho.type ty hty with h | h
      · cases ty <;> simp [Json.asStr?] at hts
        subst hts
        exact typeMatch_string.1 h
      · exact absurd h.2.2 hnull
    obtain ⟨s, rfl⟩ := hxs
    cases hk
    split at hu
    · rename_i p hpat
      obtain ⟨pv, hpv, hps⟩ := Option.bind_eq_some_iff.1 hpat
      cases pv <;> simp [Json.asStr?] at hps
      subst hps
      exact .inr (.inl ⟨_, hu, by simpa [simple] using ho.simple "pattern" (by decide) _ hpv⟩)
    · rename_i l hpat hnames
      refine .inr (.inr (.inl ⟨l, hu, ?_⟩))
      split at hnames
      · rename_i a ha
        have := ho.simple "enum" (by decide) _ ha
        rw [allStrings_eq hnames] at this
        simp only [simple, List.any_eq_true, List.mem_map] at this
        obtain ⟨_, ⟨n, hn, rfl⟩, hj⟩ := this
        simp only [jeq, canon, beq_iff_eq, Json.str.injEq] at hj
        exact hj ▸ hn
      · cases hnames
    · exact .inl hu
  · rw [if_neg hs] at hu
    by_cases hi : (Obj.get o "type").bind Json.asStr? = some "integer"
    · rw [if_pos hi] at hu
      obtain ⟨ty, hty, hts⟩ := Option.bind_eq_some_iff.1 hi
      have hxs : ∃ y : JNum, ∃ n : Int, x = .num y ∧ y.val = n := by
        rcases ho.type ty hty with h | h
        · cases ty <;> simp [Json.asStr?] at hts
          subst hts
          exact typeMatch_integer.1 h
        · exact absurd h.2.2 hnull
      obtain ⟨y, n, rfl, hn⟩ := hxs
      cases hk with
      | int n' =>
        refine .inr (.inr (.inr ?_))
        unfold intPatterns
        by_cases hc : uses.contains .signed = true
        · rw [if_pos hc]
          exact ⟨_, List.mem_singleton.2 rfl, (hrx.signed _).2 (signedDigits_int n')⟩
        · rw [if_neg hc]
          by_cases hm : (Obj.get o "minimum").bind asU64? = some 0
          · rw [if_pos hm] at hu
            rw [if_pos (by simpa using hu)]
            refine ⟨_, List.mem_singleton.2 rfl, (hrx.unsigned _).2 (digits_nonneg ?_)⟩
            obtain ⟨mv, hmv, hm0⟩ := Option.bind_eq_some_iff.1 hm
            have h0 : mv = .num (.int 0) := by
              unfold asU64? at hm0
              split at hm0
              · split at hm0
                · cases hm0; rfl
                · cases hm0
              · cases hm0
            subst h0
            have := ho.simple "minimum" (by decide) _ hmv
            have h2 : ((0 : Int) : Rat) ≤ ((n' : Int) : Rat) := of_decide_eq_true this
            exact Rat.intCast_le_intCast.1 h2
          · rw [if_neg hm] at hu
            exact absurd (by simpa using hu) hc
    · rw [if_neg hi] at hu
      exact .inl hu

/-- C43, with conditions only on the definitions that are objects (a definition that is being generated is `false`
for the time being). -/
theorem C43_accepts_during (hD : D.refSiblings = true) (hrx : DigitRx env) {path : List Char}
    {defs : List (String × Json)}
    (hd : ∀ n d, Obj.get defs n = some (.obj d) → env.ref (rawRef path n) = den D env (.obj d))
    (ks vs : Json) (o : List (String × Json))
    (h : ∀ e ∈ o, (∃ x, KeyOf x e.1 ∧ Valid D env ks x) ∧ Valid D env vs e.2) :
    Valid D env (mapSchema path defs ks vs) (.obj o) := by
  cases hk : keyOptions ks with
  | none =>
    rw [mapSchema_none hk, valid_mapFrom]
    exact ⟨o, rfl, fun e he => ⟨.inl (by simp), (h e he).2⟩⟩
  | some os =>
    rw [mapSchema_some hk, valid_mapFrom]
    refine ⟨o, rfl, fun e he => ⟨?_, (h e he).2⟩⟩
    obtain ⟨x, hx, hv⟩ := (h e he).1
    obtain ⟨op, hop, hov⟩ := keyOptions_valid hD hk hv
    exact keyUse_covers hD hrx hx (followKeyRef_valid hD hd hov) (List.mem_map.2 ⟨op, hop, rfl⟩)

/-- C43 (`_partial`: definition names that need no escaping, see `C43_Full`): whatever the key schema is, the
schema of a map accepts every object whose keys are texts of values accepted by the key schema and whose
values are accepted by the value schema. -/
theorem C43_accepts_partial (hD : D.refSiblings = true) (hrx : DigitRx env) {path : List Char}
    {defs : List (String × Json)} (hd : RefsTo D env path defs) (hp : ∀ e ∈ defs, encodeRefName e.1 = e.1)
    (ks vs : Json) (o : List (String × Json))
    (h : ∀ e ∈ o, (∃ x, KeyOf x e.1 ∧ Valid D env ks x) ∧ Valid D env vs e.2) :
    Valid D env (mapSchema path defs ks vs) (.obj o) :=
  C43_accepts_during hD hrx (fun n d hn => by rw [rawRef_plain path (hp (n, .obj d) (Obj.get_mem hn))]; exact hd n (.obj d) hn) ks vs o h

/-- The references in the key schema, itself or among its alternatives, are references to definitions. -/
def Spec.KeyRefs (path : List Char) (defs : List (String × Json)) (ks : Json) : Prop :=
  ∀ m, ks = .obj m → ∀ o r, (o = m ∨ ∃ l, Obj.get m "anyOf" = some (.arr l) ∧ .obj o ∈ l) →
    Obj.get o "$ref" = some (.str r) → ∃ n d, Obj.get defs n = some d ∧ r = refFor path n

theorem mem_of_allObjects {a : List Json} {os : List (List (String × Json))} (h : allObjects a = some os)
    {o : List (String × Json)} (ho : o ∈ os) : .obj o ∈ a := by
  induction a generalizing os with
  | nil => cases h; cases ho
  | cons x a ih =>
    cases x with
    | obj m =>
      obtain ⟨os', h', rfl⟩ := Option.map_eq_some_iff.1 h
      rcases List.mem_cons.1 ho with rfl | ho
      · exact .head _
      · exact .tail _ (ih h' ho)
    | _ => cases h

/-- C43 for any definition names (`_partial`: unless the text of one of them is what another is escaped to): if the
references in the key schema are those of definitions, the schema of a map accepts every object whose keys are texts
of values accepted by the key schema and whose values are accepted by the value schema. -/
theorem C43_names_partial (hD : D.refSiblings = true) (hrx : DigitRx env) {path : List Char}
    {defs : List (String × Json)} (hd : RefsTo D env path defs)
    (hp : ∀ n ∈ Obj.keys defs, encodeRefName n ∈ Obj.keys defs → encodeRefName n = n) {ks : Json}
    (hks : KeyRefs path defs ks) (vs : Json) (o : List (String × Json))
    (h : ∀ e ∈ o, (∃ x, KeyOf x e.1 ∧ Valid D env ks x) ∧ Valid D env vs e.2) :
    Valid D env (mapSchema path defs ks vs) (.obj o) := by
  have keep : ∀ n, Obj.get (defs.filter fun e => encodeRefName e.1 == e.1) n =
      if encodeRefName n == n then Obj.get defs n else none := get_filter (p := fun n => encodeRefName n == n)
  have same : mapSchema path defs ks vs = mapSchema path (defs.filter fun e => encodeRefName e.1 == e.1) ks vs := by
    unfold mapSchema
    cases hk : keyOptions ks with
    | none => rfl
    | some os =>
      simp only
      congr 1
      refine List.map_congr_left fun o ho => ?_
      congr 1
      unfold followKeyRef
      split
      · rename_i r hr
        split
        · rename_i name hn
          have hm : ∃ m, ks = .obj m ∧ (o = m ∨ ∃ l, Obj.get m "anyOf" = some (.arr l) ∧ .obj o ∈ l) := by
            unfold keyOptions at hk
            split at hk
            · rename_i m
              refine ⟨m, rfl, ?_⟩
              split at hk
              · rename_i a ha
                cases Option.some.inj hk
                cases hao : allObjects a with
                | none => rw [hao] at ho; exact .inl (List.mem_singleton.1 ho)
                | some l => rw [hao] at ho; exact .inr ⟨a, ha, mem_of_allObjects hao ho⟩
              · cases Option.some.inj hk
                exact .inl (List.mem_singleton.1 ho)
            · cases hk
          obtain ⟨m, hm, ho⟩ := hm
          obtain ⟨n, d, hnd, rfl⟩ := hks m hm o r ho hr
          have hname : String.ofList name = encodeRefName n := by
            have := stripList_eq hn
            unfold refFor at this
            rw [String.toList_ofList] at this
            unfold encodeRefName
            simp only [List.cons_append, List.append_assoc, List.cons.injEq, List.append_cancel_left_eq, true_and,
              List.nil_append] at this
            rw [← this]
          have hlook : Obj.get (defs.filter fun e => encodeRefName e.1 == e.1) (String.ofList name) =
              Obj.get defs (String.ofList name) := by
            rw [hname, keep]
            by_cases hin : encodeRefName n ∈ Obj.keys defs
            · have := hp n (Obj.mem_keys.2 ⟨d, hnd⟩) hin
              rw [if_pos (by rw [this, this]; exact beq_self_eq_true _)]
            · rw [Obj.get_eq_none.2 hin, ite_self]
          rw [hlook]
        · rfl
      · rfl
  rw [same]
  refine C43_accepts_partial hD hrx (fun n d hn => ?_) (fun e he => ?_) ks vs o h
  · rw [keep] at hn
    split at hn
    · exact hd n d hn
    · cases hn
  · simpa using (List.mem_filter.1 he).2

/-! ## Keys of particular types -/

/-- A key schema that is used as it is: no alternatives and no reference. -/
def Spec.LoneKey (m : List (String × Json)) : Prop := Obj.get m "anyOf" = none ∧ Obj.get m "$ref" = none

theorem mapSchema_plain {path : List Char} {defs m : List (String × Json)} (h : LoneKey m) (v : Json) :
    mapSchema path defs (.obj m) v = mapFrom [keyUse m] v := by
  rw [mapSchema_some (os := [m]) (by unfold keyOptions; simp only [h.1])]
  have : followKeyRef path defs m = m := by unfold followKeyRef; simp only [h.2]
  simp only [List.map_cons, List.map_nil, this]

/-- The key schema is a reference to a definition, which is used instead. -/
theorem mapSchema_ref {path : List Char} {defs d : List (String × Json)} {n : String}
    (hn : encodeRefName n = n) (hd : Obj.get defs n = some (.obj d)) (h : LoneKey d) (v : Json) :
    mapSchema path defs (Schema.newRef (refFor path n)) v = mapSchema path defs (.obj d) v := by
  have key : followKeyRef path defs [("$ref", .str (refFor path n))] = d := by
    have h2 : encodeRefChars n.toList = n.toList := by
      have := congrArg String.toList hn
      simpa [encodeRefName] using this
    have h3 : ∀ p s : List Char, stripList p (p ++ s) = some s := by
      intro p s
      induction p with
      | nil => rfl
      | cons c p ih => unfold stripList; simpa using ih
    have h4 : (refFor path n).toList = ('#' :: definitionsPathStripped path ++ ['/']) ++ n.toList := by
      unfold refFor; rw [String.toList_ofList, h2]; simp
    unfold followKeyRef
    simp only [Obj.get_cons, if_true]
    rw [h4, h3]
    simp only [String.ofList_toList, hd]
  rw [mapSchema_plain h, show Schema.newRef (refFor path n) = .obj [("$ref", .str (refFor path n))] from rfl,
    mapSchema_some (os := [[("$ref", .str (refFor path n))]]) rfl]
  simp only [List.map_cons, List.map_nil, key]

/-- C43: keys of a unit-only enum (`{"type": "string", "enum": [...]}`, whatever the annotations): exactly
the names. -/
theorem C43_enum {path : List Char} {defs m : List (String × Json)} (h : LoneKey m) (l : List String) (vs : Json)
    (ht : Obj.get m "type" = some (.str "string")) (he : Obj.get m "enum" = some (.arr (l.map .str)))
    (hp : Obj.get m "pattern" = none) :
    Valid D env (mapSchema path defs (.obj m) vs) i ↔
      ∃ o, i = .obj o ∧ ∀ e ∈ o, e.1 ∈ l ∧ Valid D env vs e.2 := by
  have hl : allStrings (l.map .str) = some l := by
    clear he
    induction l with
    | nil => rfl
    | cons s l ih => simp [allStrings, ih]
  have hu : keyUse m = .names l := by
    unfold keyUse
    simp [ht, he, hp, hl, Json.asStr?]
  rw [mapSchema_plain h, hu, valid_mapFrom]
  simp [Covered, intPatterns]

/-- C43: keys of an integer type: exactly the decimal texts, without a sign when the minimum is 0. -/
theorem C43_integer (hrx : DigitRx env) {path : List Char} {defs m : List (String × Json)} (h : LoneKey m) (vs : Json)
    (ht : Obj.get m "type" = some (.str "integer")) :
    Valid D env (mapSchema path defs (.obj m) vs) i ↔
      ∃ o, i = .obj o ∧ ∀ e ∈ o, (if Obj.get m "minimum" = some (.num (.int 0)) then Digits e.1.toList
        else SignedDigits e.1.toList) ∧ Valid D env vs e.2 := by
  have hm : (Obj.get m "minimum").bind asU64? = some 0 ↔ Obj.get m "minimum" = some (.num (.int 0)) := by
    constructor
    · intro hm
      obtain ⟨mv, hmv, hm0⟩ := Option.bind_eq_some_iff.1 hm
      rw [hmv]
      unfold asU64? at hm0
      split at hm0
      · split at hm0
        · cases hm0; rfl
        · cases hm0
      · cases hm0
    · intro hm; rw [hm]; rfl
  rw [mapSchema_plain h, valid_mapFrom]
  have hu : keyUse m = if Obj.get m "minimum" = some (.num (.int 0)) then .unsigned else .signed := by
    unfold keyUse
    simp [ht, Json.asStr?, hm]
  rw [hu]
  refine exists_congr fun o => and_congr_right fun _ => forall_congr' fun e => imp_congr_right fun _ =>
    and_congr_left fun _ => ?_
  by_cases h0 : Obj.get m "minimum" = some (.num (.int 0))
  · simp only [h0, if_true]
    rw [← hrx.unsigned]
    simp [Covered, intPatterns]
  · simp only [h0, if_false]
    rw [← hrx.signed]
    simp [Covered, intPatterns]

/-- C43: keys with a `pattern`: exactly the matching texts. -/
theorem C43_pattern {path : List Char} {defs m : List (String × Json)} (h : LoneKey m) (p : String) (vs : Json)
    (ht : Obj.get m "type" = some (.str "string")) (hp : Obj.get m "pattern" = some (.str p)) :
    Valid D env (mapSchema path defs (.obj m) vs) i ↔
      ∃ o, i = .obj o ∧ ∀ e ∈ o, env.rx p e.1 = true ∧ Valid D env vs e.2 := by
  have hu : keyUse m = .pattern p := by
    unfold keyUse
    simp [ht, hp, Json.asStr?]
  rw [mapSchema_plain h, hu, valid_mapFrom]
  simp [Covered, intPatterns]

/-- C43: keys that are any other string: every key is allowed. -/
theorem C43_string {path : List Char} {defs m : List (String × Json)} (h : LoneKey m) (vs : Json)
    (ht : Obj.get m "type" = some (.str "string")) (he : Obj.get m "enum" = none) (hp : Obj.get m "pattern" = none) :
    Valid D env (mapSchema path defs (.obj m) vs) i ↔
      ∃ o, i = .obj o ∧ ∀ e ∈ o, Valid D env vs e.2 := by
  have hu : keyUse m = .any := by
    unfold keyUse
    simp [ht, he, hp, Json.asStr?]
  rw [mapSchema_plain h, hu, valid_mapFrom]
  simp [Covered]

/-- C43: a key type whose schema is a reference to its definition is treated like the definition (for a
definition name that needs no escaping). -/
theorem C43_ref {path : List Char} {defs d : List (String × Json)} {n : String}
    (hn : encodeRefName n = n) (hd : Obj.get defs n = some (.obj d)) (h : LoneKey d) (vs : Json) :
    Valid D env (mapSchema path defs (Schema.newRef (refFor path n)) vs) i ↔
      Valid D env (mapSchema path defs (.obj d) vs) i := by
  rw [mapSchema_ref hn hd h]

end

/-- The full claim: `C43_accepts_partial` for any definition names. -/
def C43_Full : Prop := ∀ (D : Dialect) (env : Env), D.refSiblings = true → DigitRx env →
  ∀ (path : List Char) (defs : List (String × Json)), RefsTo D env path defs →
  ∀ (ks vs : Json) (o : List (String × Json)),
    (∀ e ∈ o, (∃ x, KeyOf x e.1 ∧ Valid D env ks x) ∧ Valid D env vs e.2) →
    Valid D env (mapSchema path defs ks vs) (.obj o)


section Witness
open Classical

/-- The definition that is found by mistake. -/
def badKey : Json := .obj [("enum", .arr [.str "y"]), ("type", .str "string")]

/-- `a b` is the name of a type that accepts anything, and `a%20b` (escaped: `a%2520b`) is the name of an enum. -/
def badDefs : List (String × Json) := [("a b", .bool true), ("a%20b", badKey)]

/-- The meaning of the two integer patterns. -/
noncomputable def digitRx (p k : String) : Bool :=
  if p = "^\\d+$" then decide (Digits k.toList) else decide (SignedDigits k.toList)

/-- Resolves the two references. -/
noncomputable def badEnv : Env :=
  { ref := fun r => if r = "#/$defs/a%20b" then fun _ => R.pass else
      den draft2020 ⟨fun _ _ => R.pass, digitRx, fun _ _ _ => true⟩ badKey
    rx := digitRx
    kw := fun _ _ _ => true }

theorem badEnv_refs : RefsTo draft2020 badEnv "/$defs".toList badDefs := by
  have h1 : refFor "/$defs".toList "a b" = "#/$defs/a%20b" := by decide
  have h2 : ¬ refFor "/$defs".toList "a%20b" = "#/$defs/a%20b" := by decide
  intro n d hd
  unfold badDefs at hd
  rw [Obj.get_cons, Obj.get_cons, Obj.get_nil] at hd
  by_cases hn : "a b" = n
  · rw [if_pos hn] at hd; subst hn; cases hd
    unfold badEnv
    simp only [h1, if_true]
    rfl
  · rw [if_neg hn] at hd
    by_cases hn' : "a%20b" = n
    · rw [if_pos hn'] at hd; subst hn'; cases hd
      unfold badEnv
      simp only [h2, if_false]
      rfl
    · rw [if_neg hn'] at hd; cases hd

/-- C43 is false: the definition is looked up by the escaped text of the reference
(schemars/src/json_schema_impls/maps.rs:58-69), so another type's definition may be found. -/
theorem C43_Full_false : ¬ C43_Full := by
  intro h
  have hrx : DigitRx badEnv := by
    constructor
    · intro k; simp [badEnv, digitRx]
    · intro k
      simp only [badEnv, digitRx]
      rw [if_neg (by decide)]
      exact decide_eq_true_iff
  have := h draft2020 badEnv rfl hrx "/$defs".toList badDefs badEnv_refs (Schema.newRef "#/$defs/a%20b") (.bool true)
    [("x", .null)] (by
      intro e he
      obtain rfl : e = ("x", .null) := by simpa using he
      refine ⟨⟨_, .str "x", ?_⟩, rfl⟩
      show Valid draft2020 badEnv (mkObj [("$ref", .str "#/$defs/a%20b")]) _
      rw [valid_mkObj (by simp [Obj.keys]) (.inl rfl)]
      simp only [List.mem_cons, List.not_mem_nil, or_false, forall_eq]
      show (badEnv.ref "#/$defs/a%20b" _).ok = true
      unfold badEnv
      simp [R.pass])
  have e : mapSchema "/$defs".toList badDefs (Schema.newRef "#/$defs/a%20b") (.bool true) =
      mapSchema "/$defs".toList badDefs badKey (.bool true) := by decide
  rw [e] at this
  have := (C43_enum ⟨rfl, rfl⟩ ["y"] (.bool true) rfl rfl rfl).1 this
  obtain ⟨o, ho, hall⟩ := this
  cases ho
  simpa using (hall ("x", .null) (by simp)).1

end Witness

/-- A key type whose definition name is escaped is not looked up: any key is accepted. -/
theorem C43_escaped_ignored : mapSchema "/$defs".toList [("a b", badKey)]
    (Schema.newRef (refFor "/$defs".toList "a b")) (.bool true) =
    mkObj [("additionalProperties", .bool true), ("type", .str "object")] := by decide

/-- The hypotheses of `C43_enum` for a type in the definitions, of `C43_integer`, and their results. -/
example : LoneKey [("enum", .arr [.str "y"]), ("type", .str "string")] := ⟨rfl, rfl⟩
example : encodeRefName "Key" = "Key" := by decide
example : mapSchema "/$defs".toList [("Key", badKey)] (Schema.newRef "#/$defs/Key") (.bool true) =
    mkObj [("additionalProperties", .bool false), ("type", .str "object"),
      ("properties", mkObj [("y", .bool true)])] := by decide
example : ∃ m, intSchema .u16 = .obj m ∧ LoneKey m ∧ Obj.get m "type" = some (.str "integer") ∧
    Obj.get m "minimum" = some (.num (.int 0)) := ⟨_, rfl, ⟨rfl, rfl⟩, by decide, by decide⟩
/-- A map from `bool`s or floats allows any key. -/
example : mapSchema [] [] (typeOnly "boolean") (intSchema .u8) =
    mkObj [("additionalProperties", intSchema .u8), ("type", .str "object")] := by decide

/-- The hypotheses of `C43_names_partial` for a name that is escaped. -/
example : encodeRefName "a b" ≠ "a b" ∧
    (∀ n ∈ Obj.keys [("a b", badKey)], encodeRefName n ∈ Obj.keys [("a b", badKey)] → encodeRefName n = n) ∧
    KeyRefs "/$defs".toList [("a b", badKey)] (Schema.newRef (refFor "/$defs".toList "a b")) := by
  refine ⟨by decide, by decide, fun m hm o r ho hr => ?_⟩
  cases hm
  rcases ho with rfl | ⟨l, hl, -⟩
  · cases hr
    exact ⟨"a b", badKey, rfl, rfl⟩
  · cases hl

end Verif
