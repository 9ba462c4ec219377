import Verif.Lemmas.Steps
import Verif.Lemmas.SerOrder

/-!
# C13, C14: traversal of subschemas
-/

namespace Verif
open Spec

/-! ## C13 -/

/-- C13: every direct subschema is replaced by its image. -/
theorem C13_applied (t : Json → Json) {s x : Json} {st : Step} (h : StepTo visited s st x) (hx : IsSchema x) :
    StepTo visited (tsub subSlot t s) st (t x) := tsub_step h hx

/-- C13: nothing but direct subschemas changes. -/
theorem C13_frame (t : Json → Json) (s : Json) : Frame visited s (tsub subSlot t s) := tsub_frame t s

/-- C13: in particular the value of a keyword that holds no subschemas is untouched. -/
theorem C13_data (t : Json → Json) (m : List (String × Json)) (k : String) (v : Json)
    (hk : k ∈ ["const", "enum", "default", "examples", "type", "required", "$ref", "format"])
    (h : Obj.get m k = some v) :
    ∃ m', tsub subSlot t (.obj m) = .obj m' ∧ Obj.get m' k = some v := by
  refine ⟨_, rfl, ?_⟩
  rw [get_entryMap_skip m, h]
  clear h; revert k; decide

/-- C13: each direct subschema is visited exactly once. For a transform with state, the final state is the
one reached by visiting the direct subschemas one after the other; no step is visited twice or missed. -/
theorem C13_once {σ : Type} (t : Json → StateM σ Json) (m : List (String × Json)) (h : NodupKeys (.obj m)) :
    ∃ visits : List (Step × Json),
      (visits.map Prod.fst).Nodup ∧
      (∀ st x, (st, x) ∈ visits ↔ (StepTo visited (.obj m) st x ∧ IsSchema x)) ∧
      ∀ state, (tsubM subSlot t (.obj m) state).2 = visits.foldl (fun state v => (t v.2 state).2) state := by
  have hm : (Obj.keys m).Nodup ∧ ∀ e ∈ m, NodupKeys e.2 := by cases h; exact ⟨by assumption, by assumption⟩
  have hn : ∀ e ∈ m, ∀ n, e.2 = .obj n → (Obj.keys n).Nodup := by
    intro e he n hen
    have := hm.2 e he
    rw [hen] at this; cases this; assumption
  refine ⟨stepsOf subSlot (.obj m), stepsOf_nodup hm.1 hn, fun st x => mem_stepsOf_iff hm.1 hn, fun state => ?_⟩
  rw [tsubM_state, ← stepsOf_snd, List.foldl_map]

/-- C13: a transform without state acts as the pure traversal. -/
theorem C13_pure (t : Json → Json) (s : Json) : tsubM (m := Id) subSlot t s = tsub subSlot t s := tsubM_id _ t s

private def s13 : Json := .obj [("allOf", .arr [.bool true, .num (.int 1)]), ("const", .obj [("not", .bool true)]),
  ("properties", .obj [("a", .obj [])])]

example : tsub subSlot (fun _ => .str "t") s13 =
    .obj [("allOf", .arr [.str "t", .num (.int 1)]), ("const", .obj [("not", .bool true)]),
      ("properties", .obj [("a", .str "t")])] := by decide

example : StepTo visited s13 (.idx "allOf" 0) (.bool true) ∧ IsSchema (.bool true) :=
  ⟨.idx (l := [.bool true, .num (.int 1)]) (by decide) (by decide) (by decide), .bool true⟩

/-! ## C14 -/

/-- The schemas that `f` is applied to: the schema itself and, recursively, the direct subschemas of the
result of applying `f`. -/
inductive Spec.Visit (f : Json → Json) : Json → List Step → Json → Prop
  | here (s) : Visit f s [] s
  | step {s st x p y} : StepTo visited (f s) st x → IsSchema x → Visit f x p y → Visit f s (st :: p) y

theorem recT_preserves {f : Json → Json} (hf : ∀ s, IsSchema s → IsSchema (f s)) {n : Nat} {s r : Json}
    (hs : IsSchema s) (h : recursiveTransform f n s = some r) : IsSchema r := by
  cases n with
  | zero => cases h
  | succ n =>
    rw [(tsubM_some (slot := subSlot) (t := recursiveTransform f n) h).2]
    exact tsub_isSchema (hf s hs)

theorem recT_step {f : Json → Json} (hf : ∀ s, IsSchema s → IsSchema (f s)) {n : Nat} {s r : Json}
    (h : recursiveTransform f (n + 1) s = some r) :
    ∃ g : Json → Json, Preserves g ∧ r = tsub subSlot g (f s) ∧
      ∀ st x, StepTo visited (f s) st x → IsSchema x → recursiveTransform f n x = some (g x) := by
  obtain ⟨h1, h2⟩ := tsubM_some (slot := subSlot) (t := recursiveTransform f n) h
  refine ⟨fun x => (recursiveTransform f n x).getD x, ?_, h2, ?_⟩
  · intro x hx
    simp only
    cases hr : recursiveTransform f n x with
    | none => exact hx
    | some y => exact recT_preserves hf hx hr
  · intro st x hst hx
    have : x ∈ subs subSlot (f s) := by
      rw [mem_subs_iff]; exact hst.direct hx
    obtain ⟨y, hy⟩ := h1 x this
    simp only [hy, Option.getD_some]

/-- C14: every subschema of the output, at every depth, is an image of `f`: it is `f x` for the schema `x`
found there, apart from its own direct subschemas (which are again images). -/
theorem C14_images {f : Json → Json} (hf : ∀ s, IsSchema s → IsSchema (f s)) {n : Nat} {s r y : Json}
    {p : List Step} (h : recursiveTransform f n s = some r)
    (hy : Locate visited r p y) : ∃ x, Visit f s p x ∧ Frame visited (f x) y := by
  induction p generalizing n s r with
  | nil =>
    cases hy with
    | here _ =>
      cases n with
      | zero => cases h
      | succ n =>
        obtain ⟨g, _, rfl, _⟩ := recT_step hf h
        exact ⟨s, .here s, tsub_frame g (f s)⟩
  | cons st p ih =>
    cases hy with
    | step hst hx hloc =>
      cases n with
      | zero => cases h
      | succ n =>
        obtain ⟨g, hg, rfl, hrec⟩ := recT_step hf h
        obtain ⟨x0, h1, h2, rfl⟩ := tsub_step_inv hg hst hx
        obtain ⟨x, hv, hfr⟩ := ih (hrec st x0 h1 h2) hloc
        exact ⟨x, .step h1 h2 hv, hfr⟩

/-- C14: nothing is missed: `f` has been applied at every location. -/
theorem C14_reaches {f : Json → Json} (hf : ∀ s, IsSchema s → IsSchema (f s)) {n : Nat} {s r x : Json}
    {p : List Step} (hs : IsSchema s) (h : recursiveTransform f n s = some r) (hx : Visit f s p x) :
    ∃ y, Locate visited r p y ∧ Frame visited (f x) y := by
  induction hx generalizing n r with
  | here s =>
    cases n with
    | zero => cases h
    | succ n =>
      obtain ⟨g, _, rfl, _⟩ := recT_step hf h
      exact ⟨_, .here (tsub_isSchema (hf s hs)), tsub_frame g (f s)⟩
  | step hst hx0 hv ih =>
    cases n with
    | zero => cases h
    | succ n =>
      obtain ⟨g, hg, rfl, hrec⟩ := recT_step hf h
      obtain ⟨y, h1, h2⟩ := ih hx0 (hrec _ _ hst hx0)
      exact ⟨y, .step (tsub_step hst hx0) (hg _ hx0) h1, h2⟩

/-- C14: if `f` does not make subschemas deeper (for some measure), the recursion ends, with one result
for every sufficient amount of fuel. -/
theorem C14_terminates {f : Json → Json} (μ : Json → Nat)
    (hμ : ∀ s x, IsSchema s → DirectSub visited (f s) x → μ x < μ s) (s : Json) (hs : IsSchema s) :
    ∃ r, ∀ n, μ s < n → recursiveTransform f n s = some r := by
  suffices ∀ k s, IsSchema s → μ s < k → ∃ r, ∀ n, μ s < n → recursiveTransform f n s = some r from
    this _ s hs (Nat.lt_succ_self _)
  intro k
  induction k with
  | zero => intro s _ h; omega
  | succ k ih =>
    intro s hs hk
    have hall : ∀ x ∈ subs subSlot (f s), ∃ y, ∀ n, μ x < n → recursiveTransform f n x = some y := by
      intro x hx
      have := hμ s x hs (mem_subs_iff.1 hx)
      exact ih x (subs_isSchema hx) (by omega)
    classical
    let g : Json → Json := fun x => if hx : x ∈ subs subSlot (f s) then (hall x hx).choose else x
    refine ⟨tsub subSlot g (f s), fun n hn => ?_⟩
    cases n with
    | zero => omega
    | succ n =>
      refine tsubM_of_some (slot := subSlot) (fun x hx => ?_)
      have h1 : g x = (hall x hx).choose := by simp only [g, hx, dif_pos]
      rw [h1]
      have := hμ s x hs (mem_subs_iff.1 hx)
      exact (hall x hx).choose_spec n (by omega)

/-- C14: an `f` that keeps the set of direct subschemas gives a terminating recursive transform. -/
theorem C14_terminates_keep {f : Json → Json}
    (h : ∀ s x, IsSchema s → DirectSub visited (f s) x → DirectSub visited s x) (s : Json) (hs : IsSchema s) :
    ∃ r n, recursiveTransform f n s = some r := by
  obtain ⟨r, hr⟩ := C14_terminates sizeOf
    (fun s x hs hx => sizeOf_subs (mem_subs_iff.2 (h s x hs hx))) s hs
  exact ⟨r, _, hr _ (Nat.lt_succ_self _)⟩

/-- C14: without such a condition the recursion need not end: a transform that adds a subschema to every
schema never returns (in Rust it overflows the stack). -/
theorem C14_diverges (s : Json) (hs : IsSchema s) (n : Nat) :
    recursiveTransform (fun s => Schema.put s "not" (.obj [])) n s = none := by
  induction n generalizing s with
  | zero => rfl
  | succ n ih =>
    refine tsubM_none (slot := subSlot) (x := .obj []) ?_ (ih _ (.obj _))
    have : ∃ m, Schema.ensureObject s = some m := by
      cases hs with
      | obj m => exact ⟨m, rfl⟩
      | bool b => cases b <;> exact ⟨_, rfl⟩
    obtain ⟨m, hm⟩ := this
    simp only [Schema.put, hm]
    exact subs_mem (Obj.get_mem (Obj.get_insert_self m "not" _)) (by decide)

private def mark (s : Json) : Json := Schema.put s "x" (.str "y")

example : recursiveTransform mark 3 (.obj [("items", .obj [])]) =
    some (.obj [("items", .obj [("x", .str "y")]), ("x", .str "y")]) := by decide

example : ∀ s x, IsSchema s → DirectSub visited (mark s) x → DirectSub visited s x ∨ s = .bool false := by
  intro s x hs hx
  cases hs with
  | obj m =>
    rw [← mem_subs_iff] at hx
    exact .inl (mem_subs_iff.1 (subs_insert_skip (by decide) hx))
  | bool b =>
    cases b
    · exact .inr rfl
    · rw [← mem_subs_iff] at hx; revert hx; simp [mark, Schema.put, Schema.ensureObject, subs, Obj.insert,
        slotSubs, subSlot]

end Verif
