import Verif.Spec.Refs
import Verif.Lemmas.SemAgree
import Verif.Lemmas.AddDefs
import Verif.Lemmas.Pointer
import Verif.Lemmas.Text

/-!
# There is a way to follow the references of a document

`Resolves D env doc` asks that `env.ref` satisfies an equation that is recursive when the references are. If no
reference leads back to itself without going to a part of the instance (as in `{"$ref": "#"}`), there is such an
`env`: `resolves_exists`.
-/

namespace Verif
open Spec

namespace Spec

/-- The keywords whose subschemas apply to the same instance, all of them. -/
def here : Vocab := ⟨["not", "if", "then", "else"], ["allOf", "anyOf", "oneOf"], ["dependentSchemas"]⟩

/-- The reference occurs in the schema and applies to the same instance. -/
def InPlaceRef (s : Json) (r : String) : Prop := ∃ m, Reach here s (.obj m) ∧ Obj.get m "$ref" = some (.str r)

/-- The same, with other results for references. -/
def Env.withRef (env : Env) (f : String → Json → R) : Env := { env with ref := f }

end Spec

/-! ### Sizes of instances -/

mutual
/-- The number of arrays, objects and their entries in an instance. -/
def isize : Json → Nat
  | .arr l => isizeList l + 1
  | .obj m => isizeMembers m + 1
  | _ => 0
@[inherit_doc isize] def isizeList : List Json → Nat
  | [] => 0
  | j :: l => isize j + isizeList l
@[inherit_doc isize] def isizeMembers : List (String × Json) → Nat
  | [] => 0
  | (_, v) :: l => isize v + isizeMembers l
end

theorem isize_elem {i x : Json} (h : x ∈ elems i) : isize x < isize i := by
  cases i with
  | arr l =>
    have h : x ∈ l := h
    rw [isize]
    induction l with
    | nil => cases h
    | cons a l ih =>
      rw [isizeList]
      rcases List.mem_cons.1 h with rfl | h
      · omega
      · have := ih h h; omega
  | _ => cases h

theorem isize_member {i : Json} {e : String × Json} (h : e ∈ members i) : isize e.2 < isize i := by
  cases i with
  | obj m =>
    have h : e ∈ m := h
    rw [isize]
    induction m with
    | nil => cases h
    | cons a m ih =>
      obtain ⟨k, v⟩ := a
      rw [isizeMembers]
      rcases List.mem_cons.1 h with rfl | h
      · simp only; omega
      · have := ih h h; omega
  | _ => cases h

theorem isize_name {i : Json} {e : String × Json} (h : e ∈ members i) : isize (.str e.1) < isize i := by
  have := isize_member h
  have h0 : isize (.str e.1) = 0 := by simp [isize]
  omega

/-! ### The instances that a schema looks at -/

/-- The keyword applies to the same instance. -/
def isHere (k : String) : Bool :=
  ["not", "if", "then", "else", "allOf", "anyOf", "oneOf", "dependentSchemas"].contains k

open Classical in
/-- The results for the instances that a keyword looks at. -/
noncomputable def restr (i : Json) (k : String) (f : Json → R) : Json → R :=
  fun x => if (isHere k = true ∧ x = i) ∨ (isHere k = false ∧ isize x < isize i) then f x else R.fail

/-- The view with the results for these instances only. -/
noncomputable def mask (i : Json) (v : View) : View := fun k => (v k).map fun w =>
  { raw := w.raw, sch := w.sch.map (restr i k), lst := w.lst.map (List.map (restr i k)),
    mp := w.mp.map (List.map fun e => (e.1, restr i k e.2)) }

section
variable {D : Dialect} {env : Env} {v : View} {i x : Json} {k : String} {f : Json → R}

theorem restr_here (hk : isHere k = true) : restr i k f i = f i := by
  unfold restr; rw [if_pos (.inl ⟨hk, rfl⟩)]

theorem restr_below (hk : isHere k = false) (hx : isize x < isize i) : restr i k f x = f x := by
  unfold restr; rw [if_pos (.inr ⟨hk, hx⟩)]

theorem mask_raw : (mask i v).raw k = v.raw k := by
  unfold View.raw mask; cases v k <;> rfl

theorem mask_sch : (mask i v).sch k = (v.sch k).map (restr i k) := by
  unfold View.sch mask; cases v k <;> rfl

theorem mask_lst : (mask i v).lst k = (v.lst k).map (List.map (restr i k)) := by
  unfold View.lst mask; cases v k <;> rfl

theorem mask_mp : (mask i v).mp k = (v.mp k).map fun e => (e.1, restr i k e.2) := by
  unfold View.mp mask
  cases v k with
  | none => rfl
  | some w => cases h : w.mp <;> simp [h]

theorem mask_refResult : refResult env (mask i v) i = refResult env v i := by
  unfold refResult; rw [mask_raw]

theorem mask_typeOk : typeOk D (mask i v) i = typeOk D v i := by
  unfold typeOk; rw [mask_raw, mask_raw]

theorem mask_simpleOk : simpleOk env (mask i v) i = simpleOk env v i := by
  unfold simpleOk; simp only [mask_raw]

theorem mask_listResults (hk : isHere k = true) : listResults (mask i v) i k = listResults v i k := by
  unfold listResults
  rw [mask_lst]
  cases v.lst k with
  | none => rfl
  | some l => simp [restr_here hk]

theorem mask_notOk : notOk (mask i v) i = notOk v i := by
  unfold notOk
  rw [mask_sch]
  cases v.sch "not" with
  | none => rfl
  | some s => simp only [Option.map_some]; rw [restr_here rfl]

theorem mask_ifResults : ifResults (mask i v) i = ifResults v i := by
  unfold ifResults
  rw [mask_sch, mask_sch, mask_sch]
  cases v.sch "if" with
  | none => rfl
  | some s =>
    simp only [Option.map_some]
    rw [restr_here rfl]
    cases (s i).ok with
    | true =>
      simp only [if_true]
      cases v.sch "then" with
      | none => rfl
      | some s => simp only [Option.map_some]; rw [restr_here rfl]
    | false =>
      simp only [Bool.false_eq_true, if_false]
      cases v.sch "else" with
      | none => rfl
      | some s => simp only [Option.map_some]; rw [restr_here rfl]

theorem mask_dependentResults : dependentResults (mask i v) i = dependentResults v i := by
  unfold dependentResults
  rw [mask_mp, List.filter_map, List.map_map]
  apply List.map_congr_left
  intro e _
  simp only [Function.comp_apply]
  rw [restr_here rfl]

theorem mask_inPlaceResults : inPlaceResults env (mask i v) i = inPlaceResults env v i := by
  unfold inPlaceResults
  rw [mask_refResult, mask_listResults rfl, mask_listResults rfl, mask_listResults rfl, mask_ifResults,
    mask_dependentResults]

theorem get_mask {m : List (String × (Json → R))} (q : String) :
    Obj.get (m.map fun e => (e.1, restr i k e.2)) q = (Obj.get m q).map (restr i k) :=
  Obj.get_map m (fun _ x => restr i k x) q

theorem mask_ownEvaluated (q : String) : ownEvaluated env (mask i v) q = ownEvaluated env v q := by
  unfold ownEvaluated inProperties inPatterns
  rw [mask_mp, mask_mp, mask_sch, Option.isSome_map, List.any_map]
  unfold Obj.has
  rw [get_mask, Option.isSome_map]
  rfl

theorem mask_evaluated (q : String) : evaluated env (mask i v) i q = evaluated env v i q := by
  unfold evaluated; rw [mask_ownEvaluated, mask_inPlaceResults]

theorem mask_optOk (hk : isHere k = false) {s : Option (Json → R)} (hx : isize x < isize i) :
    optOk (s.map (restr i k)) x = optOk s x := by
  cases s with
  | none => rfl
  | some s => simp only [optOk, Option.map_some]; rw [restr_below hk hx]

theorem mask_memberOk {e : String × Json} (he : e ∈ members i) : memberOk D env (mask i v) i e = memberOk D env v i e := by
  have h1 := isize_member he
  have h2 := isize_name he
  unfold memberOk
  rw [mask_evaluated]
  unfold inProperties inPatterns
  rw [mask_mp, mask_mp, mask_sch, mask_sch, mask_sch, get_mask, mask_optOk rfl h1, mask_optOk rfl h1, mask_optOk rfl h2,
    mask_optOk rfl h1, List.any_map, List.all_map]
  unfold Obj.has
  rw [get_mask, Option.isSome_map]
  congr 5
  funext p
  simp only [Function.comp_apply]
  rw [restr_below rfl h1]

theorem mask_tupleOk {k q : String} (hk : isHere k = false) (hq : isHere q = false) {ss : List (Json → R)}
    {rest : Option (Json → R)} {l : List Json} (hl : ∀ x ∈ l, isize x < isize i) :
    tupleOk (ss.map (restr i k)) (rest.map (restr i q)) l = tupleOk ss rest l := by
  induction l generalizing ss with
  | nil => cases ss <;> rfl
  | cons x l ih =>
    have h1 := hl x (List.mem_cons_self ..)
    have h2 := fun ss => @ih ss fun y hy => hl y (List.mem_cons_of_mem _ hy)
    cases ss with
    | nil =>
      simp only [List.map_nil, tupleOk]
      rw [mask_optOk hq h1]
      exact congrArg _ (h2 [])
    | cons s ss =>
      simp only [List.map_cons, tupleOk]
      rw [restr_below hk h1, h2]

theorem mask_itemsOk : itemsOk D (mask i v) i = itemsOk D v i := by
  have hl : ∀ x ∈ elems i, isize x < isize i := fun x => isize_elem
  unfold itemsOk
  rw [mask_lst, mask_lst, mask_sch, mask_sch]
  split
  · have : ((v.lst "prefixItems").map (List.map (restr i "prefixItems"))).getD [] =
        ((v.lst "prefixItems").getD []).map (restr i "prefixItems") := by cases v.lst "prefixItems" <;> rfl
    rw [this, mask_tupleOk rfl rfl hl]
  · cases v.lst "items" with
    | none => simp only [Option.map_none]; exact mask_tupleOk (k := "items") (ss := []) rfl rfl hl
    | some ss => simp only [Option.map_some]; exact mask_tupleOk rfl rfl hl

theorem mask_containsOk : containsOk (mask i v) i = containsOk v i := by
  unfold containsOk
  rw [mask_sch, mask_raw, mask_raw]
  cases v.sch "contains" with
  | none => rfl
  | some s =>
    cases hi : i with
    | arr l =>
      simp only [Option.map_some]
      have : (l.countP fun x => (restr (.arr l) "contains" s x).ok) = l.countP fun x => (s x).ok := by
        apply List.countP_congr
        intro x hx
        rw [restr_below rfl (isize_elem (i := .arr l) hx)]
      rw [this]
    | _ => rfl

theorem mask_combine (o : List (String × Json)) : combine D env (mask i v) i o = combine D env v i o := by
  have hall : (members i).all (memberOk D env (mask i v) i) = (members i).all (memberOk D env v i) := by
    rw [Bool.eq_iff_iff, List.all_eq_true, List.all_eq_true]
    constructor <;> intro h e he <;> have := h e he
    · rwa [mask_memberOk he] at this
    · rwa [mask_memberOk he]
  have hany : (v.lst "anyOf").isNone = ((mask i v).lst "anyOf").isNone := by rw [mask_lst]; cases v.lst "anyOf" <;> rfl
  have hone : (v.lst "oneOf").isNone = ((mask i v).lst "oneOf").isNone := by rw [mask_lst]; cases v.lst "oneOf" <;> rfl
  have hev : evAfter D env (mask i v) i = evAfter D env v i := by
    funext q
    unfold evAfter
    rw [mask_evaluated, mask_sch, Option.isSome_map]
  unfold combine
  rw [mask_refResult, hev]
  unfold allOk allOfOk anyOfOk oneOfOk
  rw [mask_refResult, mask_typeOk, mask_simpleOk, mask_listResults rfl, mask_listResults rfl, mask_listResults rfl,
    mask_notOk, mask_ifResults, mask_dependentResults, hall, mask_itemsOk, mask_containsOk, ← hany, ← hone]

end

/-! ### Results depend on the references at the same instance and at smaller ones -/

theorem den_local {D : Dialect} {env : Env} : ∀ (n : Nat) (s : Json), sizeOf s < n → ∀ (i : Json) (f g : String → Json → R),
    (∀ r, InPlaceRef s r → f r i = g r i) → (∀ r x, isize x < isize i → f r x = g r x) →
    den D (env.withRef f) s i = den D (env.withRef g) s i := by
  intro n
  induction n with
  | zero => intro s hs; omega
  | succ n ih =>
    intro s hs i f g ha hb
    cases s with
    | bool b => cases b <;> rfl
    | obj m =>
      rw [den_obj, den_obj, ← mask_combine, ← mask_combine (v := viewOf D (env.withRef g) m)]
      have hview : mask i (viewOf D (env.withRef f) m) = mask i (viewOf D (env.withRef g) m) := by
        funext k
        unfold mask viewOf
        cases hg : Obj.get m k with
        | none => rfl
        | some v =>
          have hmem := Obj.get_mem hg
          have key : ∀ y, DirectSub applied (.obj m) y → (isHere k = true → DirectSub here (.obj m) y) →
              restr i k (den D (env.withRef f) y) = restr i k (den D (env.withRef g) y) := by
            intro y hy hh
            have hsz : sizeOf y < n := by have := sizeOf_directSub hy; omega
            funext x
            unfold restr
            split
            · next hx =>
              rcases hx with ⟨h1, rfl⟩ | ⟨-, h1⟩
              · refine ih y hsz x f g (fun r hr => ha r ?_) hb
                obtain ⟨m', h2, h3⟩ := hr
                exact ⟨m', .step (hh h1) h2, h3⟩
              · exact ih y hsz x f g (fun r _ => hb r x h1) fun r z hz => hb r z (Nat.lt_trans hz h1)
            · rfl
          have key' : ∀ y, (IsSchema y → DirectSub applied (.obj m) y) →
              (isHere k = true → IsSchema y → DirectSub here (.obj m) y) →
              restr i k (den D (env.withRef f) y) = restr i k (den D (env.withRef g) y) := by
            intro y h1 h2
            by_cases hy : isSchema y = true
            · exact key y (h1 (isSchema_iff.1 hy)) fun h => h2 h (isSchema_iff.1 hy)
            · congr 1
              funext i
              rw [den_not_schema (by simpa using hy), den_not_schema (by simpa using hy)]
          simp only [Option.map_some]
          congr 1
          unfold kwOf
          simp only [KW.mk.injEq, true_and]
          refine ⟨?_, ?_, ?_⟩
          · by_cases hk : (oneKeys.contains k && schemaLike v) = true
            · rw [if_pos hk, if_pos hk]
              rw [Bool.and_eq_true] at hk
              have hs := isSchema_iff.1 (by rw [← schemaLike_eq]; exact hk.2)
              have hk1 : k ∈ oneKeys := by simpa using hk.1
              simp only [Option.map_some]
              rw [key v (.one hmem hk1 hs) fun h => .one hmem
                ((by decide : ∀ k ∈ oneKeys, isHere k = true → k ∈ here.one) k hk1 h) hs]
            · rw [if_neg hk, if_neg hk]
          · by_cases hk : listKeys.contains k = true
            · rw [if_pos hk, if_pos hk]
              have hk1 : k ∈ listKeys := by simpa using hk
              cases v with
              | arr l =>
                simp only [denArr, denList_eq, Option.map_some, List.map_map]
                congr 1
                apply List.map_congr_left
                intro y hy
                exact key' y (.list hmem hk1 hy) fun h => .list hmem
                  ((by decide : ∀ k ∈ listKeys, isHere k = true → k ∈ here.list) k hk1 h) hy
              | _ => rfl
            · rw [if_neg hk, if_neg hk]
          · by_cases hk : mapKeys.contains k = true
            · rw [if_pos hk, if_pos hk]
              have hk1 : k ∈ mapKeys := by simpa using hk
              cases v with
              | obj l =>
                simp only [denObj, denVals_eq, Option.map_some, List.map_map]
                congr 1
                apply List.map_congr_left
                intro y hy
                simp only [Function.comp_apply]
                rw [key' y.2 (.map hmem hk1 hy) fun h => .map hmem
                  ((by decide : ∀ k ∈ mapKeys, isHere k = true → k ∈ here.map) k hk1 h) hy]
              | _ => rfl
            · rw [if_neg hk, if_neg hk]
      rw [hview]
      have href : refResult (env.withRef f) (mask i (viewOf D (env.withRef g) m)) i =
          refResult (env.withRef g) (mask i (viewOf D (env.withRef g) m)) i := by
        unfold refResult
        rw [mask_raw, raw_viewOf D _ _ (by decide)]
        split
        · next r hr =>
          have := ha r ⟨m, .self _, hr⟩
          simp only [Env.withRef, this]
        · rfl
      generalize mask i (viewOf D (env.withRef g) m) = v at href ⊢
      have hin : inPlaceResults (env.withRef f) v i = inPlaceResults (env.withRef g) v i := by
        unfold inPlaceResults; rw [href]
      have hev : ∀ q, evaluated (env.withRef f) v i q = evaluated (env.withRef g) v i q := by
        intro q; unfold evaluated; rw [hin]; rfl
      have hmo : memberOk D (env.withRef f) v i = memberOk D (env.withRef g) v i := by
        funext e; unfold memberOk; rw [hev]; rfl
      have hall : allOk D (env.withRef f) v i (others m) = allOk D (env.withRef g) v i (others m) := by
        unfold allOk; rw [href, hmo]; rfl
      have hea : evAfter D (env.withRef f) v i = evAfter D (env.withRef g) v i := by
        funext q; unfold evAfter; rw [hev]
      unfold combine
      rw [href, hall, hea]
    | _ => rfl

/-! ### Following the references -/

theorem refersTo_unique {doc : Json} {ref : String} {v w : Json} (hv : RefersTo doc ref v) (hw : RefersTo doc ref w) :
    v = w := by
  obtain ⟨t1, f1, h1, h2, h3⟩ := hv
  obtain ⟨t2, f2, h4, h5, h6⟩ := hw
  obtain rfl : f1 = f2 := by rw [h2] at h5; exact (List.cons.inj h5).2
  have h7 := utf8_injective (h3.symm.trans h6)
  have h8 := (valuePointer_render doc t1 v).2 h1
  rw [h7] at h8
  exact Option.some.inj (h8.symm.trans ((valuePointer_render doc t2 w).2 h4))

section
variable (D : Dialect) (env : Env) (doc : Json)

open Classical in
/-- The target of a reference. -/
noncomputable def targetOf (r : String) : Option Json := if h : ∃ v, RefersTo doc r v then some h.choose else none

theorem targetOf_iff {r : String} {v : Json} : targetOf doc r = some v ↔ RefersTo doc r v := by
  unfold targetOf
  constructor
  · intro h
    split at h
    · next hx => cases h; exact hx.choose_spec
    · cases h
  · intro h
    rw [dif_pos ⟨v, h⟩]
    exact congrArg some (refersTo_unique (Exists.choose_spec (⟨v, h⟩ : ∃ v, RefersTo doc r v)) h)

/-- Following references up to a depth. -/
noncomputable def follow : Nat → String → Json → R
  | 0, _, _ => R.pass
  | n + 1, r, i => match targetOf doc r with
    | some v => den D (env.withRef (follow n)) v i
    | none => R.pass

variable {D env doc} {rank : Json → Nat} {B : Nat}

theorem follow_none {n : Nat} {r : String} {i : Json} (h : targetOf doc r = none) : follow D env doc n r i = R.pass := by
  cases n with
  | zero => rfl
  | succ n => rw [follow, h]

/-- A depth that suffices for a reference and an instance. -/
noncomputable def depth (rank : Json → Nat) (B : Nat) (doc : Json) (r : String) (i : Json) : Nat :=
  isize i * B + ((targetOf doc r).map rank).getD 0

theorem depth_lt (hB : ∀ v, rank v < B) {r r' : String} {i x : Json} (h : isize x < isize i) :
    depth rank B doc r' x < depth rank B doc r i := by
  unfold depth
  have h1 : ((targetOf doc r').map rank).getD 0 < B := by
    cases targetOf doc r' with
    | none => exact Nat.lt_of_le_of_lt (Nat.zero_le _) (hB .null)
    | some v => exact hB v
  have h2 : (isize x + 1) * B ≤ isize i * B := Nat.mul_le_mul_right _ h
  rw [Nat.succ_mul] at h2
  omega

variable (hB : ∀ v, rank v < B)
  (hrank : ∀ ref v r v', RefersTo doc ref v → InPlaceRef v r → RefersTo doc r v' → rank v' < rank v)

include hB hrank

theorem follow_succ : ∀ (n : Nat) (r : String) (i : Json), (targetOf doc r = none ∨ depth rank B doc r i < n) →
    follow D env doc n r i = follow D env doc (n + 1) r i := by
  intro n
  induction n with
  | zero =>
    rintro r i (h | h)
    · rw [follow_none h, follow_none h]
    · omega
  | succ n ih =>
    rintro r i h
    cases hv : targetOf doc r with
    | none => rw [follow_none hv, follow_none hv]
    | some v =>
      rw [hv] at h
      have h : depth rank B doc r i < n + 1 := h.resolve_left (fun h => by cases h)
      rw [follow, follow, hv]
      refine den_local _ v (Nat.lt_succ_self _) i _ _ (fun r' hr' => ?_) (fun r' x hx => ?_)
      · apply ih
        cases hv' : targetOf doc r' with
        | none => exact .inl rfl
        | some v' =>
          refine .inr ?_
          have h1 := hrank r v r' v' ((targetOf_iff _).1 hv) hr' ((targetOf_iff _).1 hv')
          unfold depth at h ⊢
          simp only [hv, hv', Option.map_some, Option.getD_some] at h ⊢
          omega
      · refine ih r' x (.inr ?_)
        have := depth_lt (doc := doc) (r := r) (r' := r') hB hx
        omega

theorem follow_stable {r : String} {i : Json} {n : Nat} (h : targetOf doc r = none ∨ depth rank B doc r i < n) :
    follow D env doc n r i = follow D env doc (depth rank B doc r i + 1) r i := by
  rcases h with h | h
  · rw [follow_none h, follow_none h]
  · obtain ⟨k, rfl⟩ : ∃ k, n = depth rank B doc r i + 1 + k := ⟨n - (depth rank B doc r i + 1), by omega⟩
    clear h
    induction k with
    | zero => rfl
    | succ k ih => rw [← ih, ← Nat.add_assoc, ← follow_succ hB hrank _ r i (.inr (by omega))]

/-- **References can be followed** when none leads back to itself at the same instance: `rank` decreases along the
references that apply to the same instance. -/
theorem resolves_exists : ∃ f, Resolves D (env.withRef f) doc := by
  refine ⟨fun r i => follow D env doc (depth rank B doc r i + 1) r i, fun r v hv => ?_⟩
  have hv' := (targetOf_iff doc).2 hv
  funext i
  show follow D env doc (depth rank B doc r i + 1) r i = _
  rw [follow, hv']
  refine den_local _ v (Nat.lt_succ_self _) i _ _ (fun r' hr' => ?_) (fun r' x hx => ?_)
  · apply follow_stable hB hrank
    cases hw : targetOf doc r' with
    | none => exact .inl rfl
    | some w =>
      refine .inr ?_
      have h1 := hrank r v r' w hv hr' ((targetOf_iff _).1 hw)
      unfold depth
      simp only [hv', hw, Option.map_some, Option.getD_some]
      omega
  · exact follow_stable hB hrank (.inr (depth_lt hB hx))

end

/-! ### Computing the references at the same instance and the values in a document -/

mutual
/-- The references in a schema that apply to the same instance. -/
def refsHere : Json → List String
  | .obj m => refsHereMembers m
  | _ => []
@[inherit_doc refsHere] def refsHereMembers : List (String × Json) → List String
  | [] => []
  | (k, v) :: l =>
    (if k = "$ref" then (v.asStr?).toList else []) ++ (if k ∈ here.one then refsHere v else []) ++
      (if k ∈ here.list then refsHereArr v else []) ++ (if k ∈ here.map then refsHereObj v else []) ++ refsHereMembers l
@[inherit_doc refsHere] def refsHereArr : Json → List String
  | .arr l => refsHereList l
  | _ => []
@[inherit_doc refsHere] def refsHereList : List Json → List String
  | [] => []
  | j :: l => refsHere j ++ refsHereList l
@[inherit_doc refsHere] def refsHereObj : Json → List String
  | .obj l => refsHereVals l
  | _ => []
@[inherit_doc refsHere] def refsHereVals : List (String × Json) → List String
  | [] => []
  | (_, v) :: l => refsHere v ++ refsHereVals l
end

mutual
/-- The values in a document. -/
def valuesIn : Json → List Json
  | .arr l => .arr l :: valuesInList l
  | .obj m => .obj m :: valuesInMembers m
  | j => [j]
@[inherit_doc valuesIn] def valuesInList : List Json → List Json
  | [] => []
  | j :: l => valuesIn j ++ valuesInList l
@[inherit_doc valuesIn] def valuesInMembers : List (String × Json) → List Json
  | [] => []
  | (_, v) :: l => valuesIn v ++ valuesInMembers l
end

theorem valuesInList_mem {l : List Json} {v w : Json} (h : v ∈ l) (hw : w ∈ valuesIn v) : w ∈ valuesInList l := by
  induction l with
  | nil => cases h
  | cons a l ih =>
    rw [valuesInList, List.mem_append]
    rcases List.mem_cons.1 h with rfl | h
    · exact .inl hw
    · exact .inr (ih h)

theorem valuesInMembers_mem {m : List (String × Json)} {e : String × Json} {w : Json} (h : e ∈ m) (hw : w ∈ valuesIn e.2) :
    w ∈ valuesInMembers m := by
  induction m with
  | nil => cases h
  | cons a m ih =>
    obtain ⟨k, v⟩ := a
    rw [valuesInMembers, List.mem_append]
    rcases List.mem_cons.1 h with rfl | h
    · exact .inl hw
    · exact .inr (ih h)

theorem valuesIn_self (j : Json) : j ∈ valuesIn j := by
  cases j <;> simp [valuesIn]

theorem at_valuesIn {j v : Json} {p : List String} (h : At j p v) : v ∈ valuesIn j := by
  induction h with
  | here j => exact valuesIn_self j
  | member h _ ih =>
    rw [valuesIn]
    exact List.mem_cons_of_mem _ (valuesInMembers_mem (Obj.get_mem h) ih)
  | elem i h _ ih =>
    rw [valuesIn]
    exact List.mem_cons_of_mem _ (valuesInList_mem (List.mem_of_getElem? h) ih)

theorem refsHereList_mem {l : List Json} {v : Json} {r : String} (h : v ∈ l) (hr : r ∈ refsHere v) :
    r ∈ refsHereList l := by
  induction l with
  | nil => cases h
  | cons a l ih =>
    rw [refsHereList, List.mem_append]
    rcases List.mem_cons.1 h with rfl | h
    · exact .inl hr
    · exact .inr (ih h)

theorem refsHereVals_mem {m : List (String × Json)} {e : String × Json} {r : String} (h : e ∈ m) (hr : r ∈ refsHere e.2) :
    r ∈ refsHereVals m := by
  induction m with
  | nil => cases h
  | cons a m ih =>
    obtain ⟨k, v⟩ := a
    rw [refsHereVals, List.mem_append]
    rcases List.mem_cons.1 h with rfl | h
    · exact .inl hr
    · exact .inr (ih h)

theorem refsHereMembers_mem {m : List (String × Json)} {k : String} {v : Json} {r : String} (h : (k, v) ∈ m)
    (hr : r ∈ (if k = "$ref" then (v.asStr?).toList else []) ++ (if k ∈ here.one then refsHere v else []) ++
      (if k ∈ here.list then refsHereArr v else []) ++ (if k ∈ here.map then refsHereObj v else [])) :
    r ∈ refsHereMembers m := by
  induction m with
  | nil => cases h
  | cons a m ih =>
    obtain ⟨k', v'⟩ := a
    rw [refsHereMembers, List.mem_append]
    rcases List.mem_cons.1 h with h | h
    · cases h; exact .inl hr
    · exact .inr (ih h)

theorem refsHere_sub {s y : Json} {r : String} (h : DirectSub here s y) (hr : r ∈ refsHere y) : r ∈ refsHere s := by
  cases h with
  | one hm hk _ =>
    rw [refsHere]
    refine refsHereMembers_mem hm ?_
    simp only [List.mem_append]
    exact .inl (.inl (.inr (by rw [if_pos hk]; exact hr)))
  | list hm hk hl _ =>
    rw [refsHere]
    refine refsHereMembers_mem hm ?_
    simp only [List.mem_append]
    exact .inl (.inr (by rw [if_pos hk, refsHereArr]; exact refsHereList_mem hl hr))
  | map hm hk hl _ =>
    rw [refsHere]
    refine refsHereMembers_mem hm ?_
    simp only [List.mem_append]
    exact .inr (by rw [if_pos hk, refsHereObj]; exact refsHereVals_mem hl hr)

theorem inPlaceRef_mem {s : Json} {r : String} (h : InPlaceRef s r) : r ∈ refsHere s := by
  obtain ⟨m, h1, h2⟩ := h
  generalize hy : Json.obj m = y at h1
  induction h1 with
  | self s =>
    subst hy
    rw [refsHere]
    refine refsHereMembers_mem (Obj.get_mem h2) ?_
    simp [Json.asStr?]
  | step h _ ih => exact refsHere_sub h (ih hy)

/-- The criterion, on the values in the document. -/
theorem resolves_exists' {D : Dialect} {env : Env} {doc : Json} (rank : Json → Nat) (B : Nat) (hB : ∀ v, rank v < B)
    (hrank : ∀ v ∈ valuesIn doc, ∀ r ∈ refsHere v, ∀ v', RefersTo doc r v' → rank v' < rank v) :
    ∃ f, Resolves D (env.withRef f) doc :=
  resolves_exists hB fun _ v r v' ⟨_, _, hv, _⟩ hr hv' => hrank v (at_valuesIn hv) r (inPlaceRef_mem hr) v' hv'

end Verif
