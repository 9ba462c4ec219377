import Verif.Spec.Outcome
import Verif.Lemmas.World
import Verif.Props.Accepts
import Verif.Props.Termination

/-!
# C73: schemas and definitions depend on the types only

The definitions of a generator are the schemas of the types that are needed, whatever the order of the calls.
-/

namespace Verif
open Spec

variable {τ : Type} {Γ : τ → TypeDef τ} {st : Settings} {top : Option String}

/-! ### Outcomes -/

theorem Outcome.unique {p : Prog τ} {s s' : Json} {l l' : List τ} (h : Outcome Γ st top p s l)
    (h' : Outcome Γ st top p s' l') : s = s' ∧ l = l' := by
  induction h generalizing s' l' with
  | ret s => cases h'; exact ⟨rfl, rfl⟩
  | ref hi ht _ ih =>
    cases h' with
    | ref _ _ h' => obtain ⟨rfl, rfl⟩ := ih h'; exact ⟨rfl, rfl⟩
    | self _ ht' _ => exact absurd ht' ht
    | inlined hi' _ _ => rw [hi] at hi'; cases hi'
  | self hi ht _ ih =>
    cases h' with
    | ref _ ht' _ => exact absurd ht ht'
    | self _ _ h' => exact ih h'
    | inlined hi' _ _ => rw [hi] at hi'; cases hi'
  | inlined hi _ _ ih1 ih2 =>
    cases h' with
    | ref hi' _ _ => rw [hi] at hi'; cases hi'
    | self hi' _ _ => rw [hi] at hi'; cases hi'
    | inlined _ h1 h2 =>
      obtain ⟨rfl, rfl⟩ := ih1 h1
      obtain ⟨rfl, rfl⟩ := ih2 h2
      exact ⟨rfl, rfl⟩
  | direct _ _ ih1 ih2 =>
    cases h' with
    | direct h1 h2 =>
      obtain ⟨rfl, rfl⟩ := ih1 h1
      obtain ⟨rfl, rfl⟩ := ih2 h2
      exact ⟨rfl, rfl⟩
  | settings _ ih => cases h' with | settings h' => exact ih h'
  | defs _ ih => cases h' with | defs h' => exact ih [] (h' [])

/-- The types that the types of `A` need, and they themselves. -/
inductive NeededBy (Γ : τ → TypeDef τ) (st : Settings) (top : Option String) (A : List τ) : τ → Prop
  | asked {u} : u ∈ A → NeededBy Γ st top A u
  | used {t s l u} : NeededBy Γ st top A t → Outcome Γ st top (Γ t).body s l → u ∈ l → NeededBy Γ st top A u

theorem NeededBy.mono {A B : List τ} (h : ∀ u ∈ A, NeededBy Γ st top B u) {u : τ} (hu : NeededBy Γ st top A u) :
    NeededBy Γ st top B u := by
  induction hu with
  | asked hm => exact h _ hm
  | used _ ho hm ih => exact .used ih ho hm

theorem needed_iff {p : Prog τ} {s : Json} {l : List τ} (h : Outcome Γ st top p s l) {u : τ} :
    Needed Γ st top p u ↔ NeededBy Γ st top l u := by
  refine ⟨fun hn => ?_, fun hn => ?_⟩
  · induction hn with
    | asked ho hm => exact .asked ((Outcome.unique h ho).2 ▸ hm)
    | used _ ho hm ih => exact .used ih ho hm
  · induction hn with
    | asked hm => exact .asked h hm
    | used _ ho hm ih => exact .used ih ho hm

/-! ### Running a body -/

/-- The names of a generator are the types' own. -/
def OwnNames (Γ : τ → TypeDef τ) (c : Contract) (names : List (Uid × String)) (used : List String) : Prop :=
  (∀ u n, (u, n) ∈ names → ∃ t, u = ((Γ t).schemaId, c) ∧ n = (Γ t).schemaName) ∧ ∀ n ∈ used, ∃ u, (u, n) ∈ names

/-- The state in which bodies are run. -/
structure Fresh (Γ : τ → TypeDef τ) (st : Settings) (top : Option String) (g : Gen τ) : Prop where
  settings : g.settings = st
  top : g.rootStack.head? = top.map (·, st.contract)
  names : OwnNames Γ st.contract g.names g.used

/-- What a piece of a run that refers to the types `A` does to the definitions. -/
structure Tracks (Γ : τ → TypeDef τ) (st : Settings) (top : Option String) (A : List τ) (g g' : Gen τ) : Prop where
  new : ∀ n v, Obj.get g'.defs n = some v → Obj.get g.defs n = none → ∃ t l, NeededBy Γ st top A t ∧
    n = (Γ t).schemaName ∧ Outcome Γ st top (Γ t).body v l ∧ ∀ u ∈ l, (Obj.get g'.defs (Γ u).schemaName).isSome
  has : ∀ u ∈ A, (Obj.get g'.defs (Γ u).schemaName).isSome

theorem Kept.isSome {g g' : Gen τ} (h : Kept g g') {n : String} (hn : (Obj.get g.defs n).isSome) :
    (Obj.get g'.defs n).isSome := by
  obtain ⟨v, hv⟩ := Option.isSome_iff_exists.1 hn
  rw [h.defs _ _ hv]; rfl

theorem Tracks.refl (g : Gen τ) : Tracks Γ st top [] g g :=
  ⟨fun n v h h' => (by rw [h] at h'; cases h'), fun _ h => by cases h⟩

theorem Tracks.trans {A B : List τ} {g g1 g2 : Gen τ} (hk : Kept g1 g2) (h1 : Tracks Γ st top A g g1)
    (h2 : Tracks Γ st top B g1 g2) : Tracks Γ st top (A ++ B) g g2 := by
  refine ⟨fun n v hv hn => ?_, fun u hu => ?_⟩
  · cases h : Obj.get g1.defs n with
    | some w =>
      have := hk.defs _ _ h
      rw [hv] at this
      cases this
      obtain ⟨t, l, ht, rfl, ho, hl⟩ := h1.new n v h hn
      exact ⟨t, l, ht.mono fun u hu => .asked (List.mem_append_left _ hu), rfl, ho, fun u hu => hk.isSome (hl u hu)⟩
    | none =>
      obtain ⟨t, l, ht, rfl, ho, hl⟩ := h2.new n v hv h
      exact ⟨t, l, ht.mono fun u hu => .asked (List.mem_append_right _ hu), rfl, ho, hl⟩
  · rcases List.mem_append.1 hu with hu | hu
    · exact hk.isSome (h1.has u hu)
    · exact h2.has u hu

/-- A runner of bodies that agrees with the outcomes. -/
def Agrees (Γ : τ → TypeDef τ) (st : Settings) (top : Option String) (R : τ → Gen τ → Option (Json × Gen τ)) : Prop :=
  ∀ t g s g' r l, Fresh Γ st top g → Outcome Γ st top (Γ t).body r l →
    (∀ u, NeededBy Γ st top l u → ∃ s l, Outcome Γ st top (Γ u).body s l) → R t g = some (s, g') →
    s = r ∧ Tracks Γ st top l g g'

variable {R : τ → Gen τ → Option (Json × Gen τ)}

theorem Kept.fresh {g g' : Gen τ} (hk : Kept g g') (h : Fresh Γ st top g) (hn : OwnNames Γ st.contract g'.names g'.used) :
    Fresh Γ st top g' :=
  ⟨hk.settings.trans h.settings, by rw [hk.rootStack]; exact h.top, hn⟩

theorem internal_agrees (hR : Agrees Γ st top R) {t : τ} {u : Uid} {g g' : Gen τ} {s r : Json} {l : List τ}
    (hg : Fresh Γ st top g) (ho : Outcome Γ st top (Γ t).body r l)
    (hall : ∀ u, NeededBy Γ st top l u → ∃ s l, Outcome Γ st top (Γ u).body s l)
    (h : jsonSchemaInternal R t u g = some (s, g')) : s = r ∧ Tracks Γ st top l g g' := by
  unfold jsonSchemaInternal at h
  obtain ⟨⟨s1, g2⟩, hr, he⟩ := Option.map_eq_some_iff.1 h
  simp only [Prod.mk.injEq] at he
  obtain ⟨rfl, rfl⟩ := he
  obtain ⟨rfl, ht⟩ := hR _ _ _ _ _ _ (by exact ⟨hg.settings, hg.top, hg.names⟩) ho hall hr
  exact ⟨rfl, ht.new, ht.has⟩

theorem nameFor_own (ha : Apart Γ st top) {t : τ} {g : Gen τ} (hg : Fresh Γ st top g) :
    (nameFor Γ t g).1 = (Γ t).schemaName ∧ OwnNames Γ st.contract (nameFor Γ t g).2.names (nameFor Γ t g).2.used := by
  have hq := nameFor_fact (ownName_fact ha.names st.contract) (t := t) (by rw [hg.settings]) hg.names
  refine ⟨?_, hq⟩
  obtain ⟨t', hu, hn⟩ := hq.1 _ _ (lookupName_mem (nameFor_kept (Γ := Γ) t g).2)
  rw [hn]
  exact ((ha.ids t t' (congrArg Prod.fst hu)).1).symm

theorem sub_agrees (ha : Apart Γ st top) (hin : st.inlineSubschemas = false) (hK : Keeps R) (hR : Agrees Γ st top R)
    {t : τ} {g g' : Gen τ} {s : Json} (hg : Fresh Γ st top g) (hi : (Γ t).inlineSchema = false)
    (ht : top ≠ some (Γ t).schemaId)
    (hall : ∀ u, NeededBy Γ st top [t] u → ∃ s l, Outcome Γ st top (Γ u).body s l)
    (h : subschemaFor Γ R t g = some (s, g')) :
    s = Schema.newRef (refFor st.definitionsPath.toList (Γ t).schemaName) ∧ Tracks Γ st top [t] g g' := by
  have hr : ReturnsRef Γ g t := ⟨hi, fun h => by rw [hg.settings, hin] at h; cases h⟩
  have hroot : g.rootStack.head? ≠ some (uidOf Γ g t) := by
    rw [hg.top, uidOf, hg.settings]
    cases top with
    | none => simp
    | some i => simpa using ht
  obtain ⟨hn, hq⟩ := nameFor_own ha (t := t) hg
  have hs : refSchema g (nameFor Γ t g).1 = Schema.newRef (refFor st.definitionsPath.toList (Γ t).schemaName) := by
    rw [refSchema, hn, hg.settings]
  by_cases hd : Obj.has g.defs (nameFor Γ t g).1 = true
  · rw [subschemaFor_known hr hroot hd] at h
    simp only [Option.some.injEq, Prod.mk.injEq] at h
    obtain ⟨rfl, rfl⟩ := h
    have hdef : (afterName Γ t g).defs = g.defs := nameFor_defs t g
    refine ⟨hs, fun n v h h' => ?_, fun u hu => ?_⟩
    · rw [hdef, h'] at h; cases h
    · rw [List.mem_singleton.1 hu, hdef, ← hn]; exact hd
  · rw [subschemaFor_new hr hroot hd] at h
    obtain ⟨g4, hins, he⟩ := Option.map_eq_some_iff.1 h
    simp only [Prod.mk.injEq] at he
    obtain ⟨rfl, rfl⟩ := he
    have hdef : (afterName Γ t g).defs = g.defs := nameFor_defs t g
    have hnone : Obj.get (afterName Γ t g).defs (nameFor Γ t g).1 = none := by
      rw [hdef]; simpa [Obj.has] using hd
    obtain ⟨hk, s1, g1, hint, rfl⟩ := insertNew_kept hK hnone hins
    obtain ⟨r, l, ho⟩ := hall t (.asked (List.mem_singleton_self _))
    have hl : ∀ u ∈ l, NeededBy Γ st top [t] u := fun u hu => .used (.asked (List.mem_singleton_self _)) ho hu
    obtain ⟨rfl, htr⟩ := internal_agrees hR (g := { afterName Γ t g with defs := _ })
      ⟨(nameFor_settings t g).trans hg.settings, by
        show (nameFor Γ t g).2.rootStack.head? = _
        rw [(nameFor_kept (Γ := Γ) t g).1.rootStack]; exact hg.top, hq⟩ ho
      (fun u hu => hall u (hu.mono hl)) hint
    rw [hn] at hk htr ⊢
    have hmono : ∀ n, (Obj.get g1.defs n).isSome → (Obj.get (Obj.insert g1.defs (Γ t).schemaName s1) n).isSome := by
      intro n h
      rw [Obj.get_insert]
      split <;> simp_all
    refine ⟨by rw [← hs, hn], fun n v h h' => ?_, fun u hu => ?_⟩
    · by_cases he : (Γ t).schemaName = n
      · subst he
        rw [Obj.get_insert_self] at h
        cases h
        exact ⟨t, l, .asked (List.mem_singleton_self _), rfl, ho, fun u hu => hmono _ (htr.has u hu)⟩
      · rw [Obj.get_insert_ne _ _ he] at h
        obtain ⟨t', l', h1, h2, h3, h4⟩ := htr.new n v h (by
          show Obj.get (Obj.insert (afterName Γ t g).defs _ _) n = none
          rw [hdef, Obj.get_insert_ne _ _ he, h'])
        exact ⟨t', l', h1.mono hl, h2, h3, fun u hu => hmono _ (h4 u hu)⟩
    · rw [List.mem_singleton.1 hu, Obj.get_insert_self]; rfl

theorem exec_agrees (ha : Apart Γ st top) (hin : st.inlineSubschemas = false) (hK : Keeps R)
    (hQ : KeepsFact st.contract (OwnNames Γ st.contract) R) (hR : Agrees Γ st top R) {p : Prog τ} {r : Json} {l : List τ}
    (ho : Outcome Γ st top p r l) : ∀ {g g' : Gen τ} {s : Json}, Fresh Γ st top g →
    (∀ u, NeededBy Γ st top l u → ∃ s l, Outcome Γ st top (Γ u).body s l) → exec Γ R p g = some (s, g') →
    s = r ∧ Tracks Γ st top l g g' := by
  have hF := ownName_fact (Γ := Γ) ha.names st.contract
  induction ho with
  | ret s =>
    intro g g' s' _ _ h
    simp only [exec, Option.some.injEq, Prod.mk.injEq] at h
    obtain ⟨rfl, rfl⟩ := h
    exact ⟨rfl, .refl g⟩
  | @ref t k s l hi ht _ ih =>
    intro g g' s' hg hall h
    obtain ⟨⟨s1, g1⟩, h1, h2⟩ := Option.bind_eq_some_iff.1 h
    obtain ⟨rfl, ht1⟩ := sub_agrees ha hin hK hR hg hi ht (fun u hu => hall u (hu.mono fun v hv => .asked (by
      rw [List.mem_singleton.1 hv]; exact List.mem_cons_self ..))) h1
    have hr : Fresh Γ st top g1 := (subschemaFor_kept hK h1).fresh hg
      (subschemaFor_fact hF hQ (by rw [hg.settings]) hg.names h1)
    obtain ⟨rfl, ht2⟩ := ih hr (fun u hu => hall u (hu.mono fun v hv => .asked (List.mem_cons_of_mem _ hv))) h2
    exact ⟨rfl, .trans (exec_kept hK _ h2) ht1 ht2⟩
  | @self t k s l hi ht _ ih =>
    intro g g' s' hg hall h
    obtain ⟨⟨s1, g1⟩, h1, h2⟩ := Option.bind_eq_some_iff.1 h
    have hroot : g.rootStack.head? = some (uidOf Γ g t) := by
      rw [hg.top, uidOf, hg.settings, ht]; rfl
    rw [subschemaFor_root ⟨hi, fun h => by rw [hg.settings, hin] at h; cases h⟩ hroot] at h1
    simp only [Option.some.injEq, Prod.mk.injEq] at h1
    obtain ⟨rfl, rfl⟩ := h1
    obtain ⟨rfl, ht2⟩ := ih (by exact ⟨hg.settings, hg.top, hg.names⟩) hall h2
    exact ⟨rfl, ht2.new, ht2.has⟩
  | @inlined t k r a s l hi hb _ _ ih =>
    intro g g' s' hg hall h
    obtain ⟨⟨s1, g1⟩, h1, h2⟩ := Option.bind_eq_some_iff.1 h
    have hr : Fresh Γ st top g1 := (subschemaFor_kept hK h1).fresh hg
      (subschemaFor_fact hF hQ (by rw [hg.settings]) hg.names h1)
    rw [subschemaFor_inline (by simp [hi])] at h1
    obtain ⟨rfl, ht1⟩ := internal_agrees hR hg hb
      (fun u hu => hall u (hu.mono fun v hv => .asked (List.mem_append_left _ hv))) h1
    obtain ⟨rfl, ht2⟩ := ih hr (fun u hu => hall u (hu.mono fun v hv => .asked (List.mem_append_right _ hv))) h2
    exact ⟨rfl, .trans (exec_kept hK _ h2) ht1 ht2⟩
  | @direct t k r a s l hb _ _ ih =>
    intro g g' s' hg hall h
    obtain ⟨⟨s1, g1⟩, h1, h2⟩ := Option.bind_eq_some_iff.1 h
    have hr : Fresh Γ st top g1 := (hK _ _ _ _ h1).fresh hg (hQ _ _ _ _ (by rw [hg.settings]) hg.names h1)
    obtain ⟨rfl, ht1⟩ := hR _ _ _ _ _ _ hg hb
      (fun u hu => hall u (hu.mono fun v hv => .asked (List.mem_append_left _ hv))) h1
    obtain ⟨rfl, ht2⟩ := ih hr (fun u hu => hall u (hu.mono fun v hv => .asked (List.mem_append_right _ hv))) h2
    exact ⟨rfl, .trans (exec_kept hK _ h2) ht1 ht2⟩
  | settings _ ih =>
    intro g g' s' hg hall h
    refine ih hg hall ?_
    rw [← hg.settings]; exact h
  | defs _ ih =>
    intro g g' s' hg hall h
    exact ih _ hg hall h

theorem run_agrees (ha : Apart Γ st top) (hin : st.inlineSubschemas = false) (n : Nat) : Agrees Γ st top (run Γ n) := by
  induction n with
  | zero => intro t g s g' r l _ _ _ h; cases h
  | succ n ih =>
    intro t g s g' r l hg ho hall h
    exact exec_agrees ha hin (run_keeps Γ n) (run_fact (ownName_fact ha.names _) n) ih ho hg hall h

/-! ### The definitions -/

/-- The definitions that a run adds to none: one for each type that is needed, with its schema. -/
theorem Tracks.exact (ha : Apart Γ st top) {A : List τ} {g g' : Gen τ} (h : Tracks Γ st top A g g') (hd : g.defs = [])
    {n : String} {v : Json} : Obj.get g'.defs n = some v ↔
      ∃ u l, NeededBy Γ st top A u ∧ n = (Γ u).schemaName ∧ Outcome Γ st top (Γ u).body v l := by
  have hnew : ∀ n v, Obj.get g'.defs n = some v → ∃ t l, NeededBy Γ st top A t ∧ n = (Γ t).schemaName ∧
      Outcome Γ st top (Γ t).body v l ∧ ∀ u ∈ l, (Obj.get g'.defs (Γ u).schemaName).isSome :=
    fun n v hv => h.new n v hv (by rw [hd]; rfl)
  have same : ∀ t u v l, (Γ t).schemaName = (Γ u).schemaName → Outcome Γ st top (Γ t).body v l →
      Outcome Γ st top (Γ u).body v l := fun t u v l hn ho => (ha.ids t u (ha.names t u hn)).2 v l ho
  refine ⟨fun hv => ?_, ?_⟩
  · obtain ⟨t, l, ht, hn, ho, -⟩ := hnew n v hv
    exact ⟨t, l, ht, hn, ho⟩
  · rintro ⟨u, l, hu, rfl, ho⟩
    have hsome : (Obj.get g'.defs (Γ u).schemaName).isSome := by
      clear ho
      induction hu with
      | asked hm => exact h.has _ hm
      | @used t s l u _ ho hm ih =>
        obtain ⟨w, hw⟩ := Option.isSome_iff_exists.1 ih
        obtain ⟨t', l', -, hn, ho', hl⟩ := hnew _ _ hw
        rw [(Outcome.unique ho (same _ _ _ _ hn.symm ho')).2] at hm
        exact hl _ hm
    obtain ⟨w, hw⟩ := Option.isSome_iff_exists.1 hsome
    obtain ⟨t', l', -, hn, ho', -⟩ := hnew _ _ hw
    rw [hw, (Outcome.unique ho (same _ _ _ _ hn.symm ho')).1]

/-- What is asked of the types: each of them has an outcome, and each type they need. -/
def Spec.Known (Γ : τ → TypeDef τ) (st : Settings) (top : Option String) (p : Prog τ) : Prop :=
  (∃ s l, Outcome Γ st top p s l) ∧ ∀ u, Needed Γ st top p u → ∃ s l, Outcome Γ st top (Γ u).body s l

theorem subschemaFor_agrees (ha : Apart Γ st top) (hin : st.inlineSubschemas = false) {n : Nat} {t : τ} {g g' : Gen τ}
    {s r : Json} {l : List τ} (hg : Fresh Γ st top g) (ho : Outcome Γ st top (.sub t .ret) r l)
    (hall : ∀ u, Needed Γ st top (.sub t .ret) u → ∃ s l, Outcome Γ st top (Γ u).body s l)
    (h : subschemaFor Γ (run Γ n) t g = some (s, g')) : s = r ∧ Tracks Γ st top l g g' ∧ Fresh Γ st top g' := by
  have hF := ownName_fact (Γ := Γ) ha.names st.contract
  obtain ⟨rfl, ht⟩ := exec_agrees ha hin (run_keeps Γ n) (run_fact hF n) (run_agrees ha hin n) ho hg
    (fun u hu => hall u ((needed_iff ho).2 hu)) (s := s) (g' := g') (by simp [exec, h])
  exact ⟨rfl, ht, (subschemaFor_kept (run_keeps Γ n) h).fresh hg
    (subschemaFor_fact hF (run_fact hF n) (by rw [hg.settings]) hg.names h)⟩

theorem Fresh.new : Fresh Γ st none (Gen.new st) := ⟨rfl, rfl, ⟨fun _ _ h => (by cases h), fun _ h => by cases h⟩⟩

theorem askedFor_tracks (ha : Apart Γ st none) (hin : st.inlineSubschemas = false) {ts : List τ} {g : Gen τ}
    (h : AskedFor Γ st ts g) (hall : ∀ t ∈ ts, Known Γ st none (.sub t .ret)) :
    Fresh Γ st none g ∧ Obj.Sorted g.defs ∧ ∃ A, Tracks Γ st none A (Gen.new st) g ∧
      ∀ u, NeededBy Γ st none A u ↔ ∃ t ∈ ts, Needed Γ st none (.sub t .ret) u := by
  induction h with
  | new =>
    refine ⟨.new, Obj.sorted_nil, [], .refl _, fun u => ⟨fun h => ?_, fun ⟨_, h, _⟩ => by cases h⟩⟩
    induction h with
    | asked h => cases h
    | used _ _ _ ih => exact absurd ih (by simp)
  | @call ts g n t s g' _ h ih =>
    obtain ⟨hg, hsort, A, htr, hA⟩ := ih fun t ht => hall t (List.mem_cons_of_mem _ ht)
    obtain ⟨⟨r, l, ho⟩, hn⟩ := hall t (List.mem_cons_self ..)
    obtain ⟨rfl, htr', hg'⟩ := subschemaFor_agrees ha hin hg ho hn h
    have hk := subschemaFor_kept (run_keeps Γ n) h
    refine ⟨hg', hk.sorted hsort, A ++ l, .trans hk htr htr', fun u => ⟨fun hu => ?_, ?_⟩⟩
    · induction hu with
      | asked hm =>
        rcases List.mem_append.1 hm with hm | hm
        · obtain ⟨t', ht', h⟩ := (hA _).1 (.asked hm)
          exact ⟨t', List.mem_cons_of_mem _ ht', h⟩
        · exact ⟨t, List.mem_cons_self .., .asked ho hm⟩
      | used _ ho' hm ih =>
        obtain ⟨t', ht', h⟩ := ih
        exact ⟨t', ht', .used h ho' hm⟩
    · rintro ⟨t', ht', hu⟩
      rcases List.mem_cons.1 ht' with rfl | ht'
      · exact ((needed_iff ho).1 hu).mono fun v hv => .asked (List.mem_append_right _ hv)
      · exact ((hA _).2 ⟨t', ht', hu⟩).mono fun v hv => .asked (List.mem_append_left _ hv)

/-- The statement in full: whatever the types, the definitions of a generator that was asked for some types are the same
for every order. -/
def C73_Full : Prop :=
  ∀ (τ : Type) (Γ : τ → TypeDef τ) (st : Settings) (ts ts' : List τ) (g g' : Gen τ), st.inlineSubschemas = false →
    AskedFor Γ st ts g → AskedFor Γ st ts' g' → (∀ t, t ∈ ts ↔ t ∈ ts') → g.defs = g'.defs

/-- C73: if names and ids tell the types apart, then the definitions of a generator that was asked for some types are the
schemas of the types that they need, each under its own name, and nothing else. -/
theorem C73_definitions_partial (ha : Apart Γ st none) (hin : st.inlineSubschemas = false) {ts : List τ} {g : Gen τ}
    (hall : ∀ t ∈ ts, Known Γ st none (.sub t .ret)) (h : AskedFor Γ st ts g) {n : String} {v : Json} :
    Obj.get g.defs n = some v ↔ ∃ t ∈ ts, ∃ u l, Needed Γ st none (.sub t .ret) u ∧ n = (Γ u).schemaName ∧
      Outcome Γ st none (Γ u).body v l := by
  obtain ⟨-, -, A, htr, hA⟩ := askedFor_tracks ha hin h hall
  rw [htr.exact ha rfl]
  refine ⟨fun ⟨u, l, hu, hn, ho⟩ => ?_, fun ⟨t, ht, u, l, hu, hn, ho⟩ => ⟨u, l, (hA u).2 ⟨t, ht, hu⟩, hn, ho⟩⟩
  obtain ⟨t, ht, hu⟩ := (hA u).1 hu
  exact ⟨t, ht, u, l, hu, hn, ho⟩

/-- C73: what `subschema_for` returns does not depend on what the generator was asked for before. -/
theorem C73_returned_partial (ha : Apart Γ st none) (hin : st.inlineSubschemas = false) {ts : List τ} {g g' : Gen τ}
    (hall : ∀ t ∈ ts, Known Γ st none (.sub t .ret)) (h : AskedFor Γ st ts g) {n : Nat} {t : τ} {s : Json}
    (ht : Known Γ st none (.sub t .ret)) (hs : subschemaFor Γ (run Γ n) t g = some (s, g')) :
    ∃ l, Outcome Γ st none (.sub t .ret) s l := by
  obtain ⟨hg, -⟩ := askedFor_tracks ha hin h hall
  obtain ⟨⟨r, l, ho⟩, hn⟩ := ht
  obtain ⟨rfl, -⟩ := subschemaFor_agrees ha hin hg ho hn hs
  exact ⟨l, ho⟩

/-- C73: the definitions do not depend on the order of the calls, nor on how often they were made. -/
theorem C73_order_partial (ha : Apart Γ st none) (hin : st.inlineSubschemas = false) {ts ts' : List τ} {g g' : Gen τ}
    (hall : ∀ t ∈ ts, Known Γ st none (.sub t .ret)) (h : AskedFor Γ st ts g) (h' : AskedFor Γ st ts' g')
    (hts : ∀ t, t ∈ ts ↔ t ∈ ts') : g.defs = g'.defs := by
  have hall' : ∀ t ∈ ts', Known Γ st none (.sub t .ret) := fun t ht => hall t ((hts t).2 ht)
  refine Obj.ext_sorted (askedFor_tracks ha hin h hall).2.1 (askedFor_tracks ha hin h' hall').2.1 fun n => ?_
  refine Option.ext fun v => ?_
  rw [C73_definitions_partial ha hin hall h, C73_definitions_partial ha hin hall' h']
  simp only [hts]

/-- C73: the root schema is the schema of the type, with the definitions of the types it needs. -/
theorem C73_root_partial {t : τ} (ha : Apart Γ st (some (Γ t).schemaId)) (hin : st.inlineSubschemas = false) {n : Nat}
    {r : Json} {g' : Gen τ} (hk : Known Γ st (some (Γ t).schemaId) (Γ t).body)
    (h : rootSchemaFor Γ (run Γ n) t (Gen.new st) = some (r, g')) :
    ∃ s l m ds, Outcome Γ st (some (Γ t).schemaId) (Γ t).body s l ∧ Schema.ensureObject s = some m ∧ Obj.Sorted ds ∧
      (∀ n v, Obj.get ds n = some v ↔ ∃ u l, Needed Γ st (some (Γ t).schemaId) (Γ t).body u ∧ n = (Γ u).schemaName ∧
        Outcome Γ st (some (Γ t).schemaId) (Γ u).body v l) ∧
      r = applyTransforms st.transforms (.obj (addDefinitions st.definitionsPath.toList (rootObject Γ t st.metaSchema m) ds)) := by
  unfold rootSchemaFor at h
  obtain ⟨⟨s1, g1⟩, hint, h⟩ := Option.bind_eq_some_iff.1 h
  obtain ⟨m, hm, he⟩ := Option.map_eq_some_iff.1 h
  simp only [Prod.mk.injEq] at he
  obtain ⟨rfl, rfl⟩ := he
  obtain ⟨⟨s, l, ho⟩, hn⟩ := hk
  have hkept := internal_kept (run_keeps Γ n) hint
  obtain ⟨rfl, htr⟩ := internal_agrees (run_agrees ha hin n) (by
    exact ⟨rfl, rfl, ⟨fun _ _ h => (by cases h), fun _ h => by cases h⟩⟩) ho (fun u hu => hn u ((needed_iff ho).2 hu)) hint
  have hst : g1.settings = st := hkept.settings
  refine ⟨s1, l, m, g1.defs, ho, hm, hkept.sorted Obj.sorted_nil, fun n v => ?_, by rw [hst]⟩
  rw [htr.exact ha rfl]
  simp only [needed_iff ho]

/-! ### Which types have outcomes -/

/-- The program does not ask for root schemas, and what it does does not depend on the definitions. -/
def Spec.Steady (Γ : τ → TypeDef τ) (st : Settings) (top : Option String) : Prog τ → Prop
  | .ret _ => True
  | .sub t k => ∀ r, ((Γ t).inlineSchema = true → ∃ l, Outcome Γ st top (Γ t).body r l) → Steady Γ st top (k r)
  | .direct t k => ∀ r l, Outcome Γ st top (Γ t).body r l → Steady Γ st top (k r)
  | .root _ _ => False
  | .askSettings k => Steady Γ st top (k st)
  | .askDefs k => (∀ d, k d = k []) ∧ Steady Γ st top (k [])

theorem Calm.steady {p : Prog τ} (h : Calm p) : Steady Γ st top p := by
  induction p with
  | ret s => trivial
  | sub t f ih => exact fun r _ => ih r (h r)
  | direct t f ih => exact fun r _ _ => ih r (h r)
  | root t f ih => exact h.elim
  | askSettings f ih => exact ih st (h st)
  | askDefs f ih => exact h.elim

theorem steady_outcome {p : Prog τ} (hs : Steady Γ st top p)
    (hu : ∀ t, Uses Γ p t → ∃ s l, Outcome Γ st top (Γ t).body s l) : ∃ s l, Outcome Γ st top p s l := by
  induction p with
  | ret s => exact ⟨s, [], .ret s⟩
  | sub t f ih =>
    cases hi : (Γ t).inlineSchema with
    | true =>
      obtain ⟨r, a, hr⟩ := hu t (.sub hi)
      obtain ⟨s, l, h⟩ := ih r (hs r fun _ => ⟨a, hr⟩) fun t' h => hu t' (.afterSub h)
      exact ⟨s, a ++ l, .inlined hi hr h⟩
    | false =>
      by_cases ht : top = some (Γ t).schemaId
      · obtain ⟨s, l, h⟩ := ih _ (hs _ fun h => by rw [hi] at h; cases h) fun t' h => hu t' (.afterSub h)
        exact ⟨s, l, .self hi ht h⟩
      · obtain ⟨s, l, h⟩ := ih _ (hs _ fun h => by rw [hi] at h; cases h) fun t' h => hu t' (.afterSub h)
        exact ⟨s, t :: l, .ref hi ht h⟩
  | direct t f ih =>
    obtain ⟨r, a, hr⟩ := hu t .direct
    obtain ⟨s, l, h⟩ := ih r (hs r a hr) fun t' h => hu t' (.afterDirect h)
    exact ⟨s, a ++ l, .direct hr h⟩
  | root t f ih => exact hs.elim
  | askSettings f ih =>
    obtain ⟨s, l, h⟩ := ih st hs fun t' h => hu t' (.afterSettings h)
    exact ⟨s, l, .settings h⟩
  | askDefs f ih =>
    obtain ⟨s, l, h⟩ := ih [] hs.2 fun t' h => hu t' (.afterDefs h)
    exact ⟨s, l, .defs fun d => by rw [hs.1 d]; exact h⟩

/-- In a finite set of types in which every cycle passes through a type that is not inlined, every type has an
outcome. -/
theorem outcome_exists [Finite τ] (hg : Guarded Γ) (hs : ∀ t, Steady Γ st top (Γ t).body) (t : τ) :
    ∃ s l, Outcome Γ st top (Γ t).body s l := by
  induction hr : Term.rank Γ t using Nat.strong_induction_on generalizing t with
  | _ r ih =>
    subst hr
    exact steady_outcome (hs t) fun t' h => ih _ (Term.rank_lt hg h) t' rfl

theorem known_body [Finite τ] (hg : Guarded Γ) (hs : ∀ t, Steady Γ st top (Γ t).body) (t : τ) :
    Known Γ st top (Γ t).body := ⟨outcome_exists hg hs t, fun u _ => outcome_exists hg hs u⟩

theorem known_sub [Finite τ] (hg : Guarded Γ) (hs : ∀ t, Steady Γ st top (Γ t).body) (t : τ) :
    Known Γ st top (.sub t .ret) :=
  ⟨steady_outcome (fun _ _ => trivial) fun t' _ => outcome_exists hg hs t', fun u _ => outcome_exists hg hs u⟩

/-- The schema of the key type of a map refers to no definition. -/
def Spec.PlainKeys (Γ : τ → TypeDef τ) (st : Settings) (top : Option String) (decl : τ → Decl τ) : Prop :=
  ∀ t k v, decl t = .std (.map k v) → ∀ r l, Outcome Γ st top (Γ k).body r l → ∀ os, keyOptions r = some os →
    ∀ o ∈ os, Obj.get o "$ref" = none

theorem mapSchema_steady {path : List Char} {ks vs : Json}
    (h : ∀ os, keyOptions ks = some os → ∀ o ∈ os, Obj.get o "$ref" = none) (d d' : List (String × Json)) :
    mapSchema path d ks vs = mapSchema path d' ks vs := by
  unfold mapSchema
  cases hk : keyOptions ks with
  | none => rfl
  | some os =>
    simp only
    congr 1
    refine List.map_congr_left fun o ho => ?_
    simp only [followKeyRef, h os hk o ho]

theorem Spec.Declared.steady {decl : τ → Decl τ} {I : TypeInfo τ} (hG : Declared Γ decl I)
    (hp : PlainKeys Γ st top decl) (t : τ) : Steady Γ st top (Γ t).body := by
  rw [hG.body]
  cases hd : decl t with
  | derived c => exact (calm_container c).steady
  | std x =>
    by_cases hx : ∀ k v, x ≠ .map k v
    · exact (calm_std hx).steady
    · simp only [ne_eq, not_forall, not_not] at hx
      obtain ⟨k, v, rfl⟩ := hx
      intro r l hr vs _
      exact ⟨fun d => congrArg _ (mapSchema_steady (hp t k v hd r l hr) d []), trivial⟩

theorem Spec.Declared.apart {decl : τ → Decl τ} {I : TypeInfo τ} (hG : Declared Γ decl I)
    (hn : ∀ t u, (Γ t).schemaName = (Γ u).schemaName ↔ (Γ t).schemaId = (Γ u).schemaId) : Apart Γ st top :=
  ⟨fun t u => (hn t u).1, fun t u h => ⟨(hn t u).2 h, fun s l ho => by rwa [hG.body, ← hG.ids t u h, ← hG.body]⟩⟩

/-- C73 for derived and standard types, with names as distinct as the ids. -/
theorem C73_declared_partial [Finite τ] {decl : τ → Decl τ} {I : TypeInfo τ} (hG : Declared Γ decl I) (hg : Guarded Γ)
    (hn : ∀ t u, (Γ t).schemaName = (Γ u).schemaName ↔ (Γ t).schemaId = (Γ u).schemaId)
    (hp : PlainKeys Γ st none decl) (hin : st.inlineSubschemas = false) {ts ts' : List τ} {g g' : Gen τ}
    (h : AskedFor Γ st ts g) (h' : AskedFor Γ st ts' g') (hts : ∀ t, t ∈ ts ↔ t ∈ ts') : g.defs = g'.defs :=
  C73_order_partial (hG.apart hn) hin (fun t _ => known_sub hg (hG.steady hp) t) h h' hts

end Verif
