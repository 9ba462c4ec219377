import Verif.Lemmas.Derive

/-!
# What the bodies of types return in a run of the generator, in terms of its final state

`Produced W m t s`: the body of `t` returns `s`, if every answer it gets is itself produced, or is a reference
to the definition that the final state of the generator has for that type (or to the root).
-/

namespace Verif
open Spec

variable {τ : Type}

/-! ## Programs that do not start a root schema -/

/-- The program does not call `root_schema_for`. -/
def NoRoot : Prog τ → Prop
  | .ret _ => True
  | .sub _ k => ∀ s, NoRoot (k s)
  | .direct _ k => ∀ s, NoRoot (k s)
  | .root _ _ => False
  | .askSettings k => ∀ st, NoRoot (k st)
  | .askDefs k => ∀ d, NoRoot (k d)

/-- The program does not call `root_schema_for` and does not look at the definitions. -/
def Calm : Prog τ → Prop
  | .ret _ => True
  | .sub _ k => ∀ s, Calm (k s)
  | .direct _ k => ∀ s, Calm (k s)
  | .root _ _ => False
  | .askSettings k => ∀ st, Calm (k st)
  | .askDefs _ => False

theorem Calm.noRoot {p : Prog τ} (h : Calm p) : NoRoot p := by
  induction p with
  | ret s => trivial
  | sub t f ih => exact fun s => ih s (h s)
  | direct t f ih => exact fun s => ih s (h s)
  | root t f ih => exact h.elim
  | askSettings f ih => exact fun s => ih s (h s)
  | askDefs f ih => exact h.elim

theorem calm_bind {p : Prog τ} {k : Json → Prog τ} (hp : Calm p) (hk : ∀ s, Calm (k s)) :
    Calm (p.bind k) := by
  induction p with
  | ret s => exact hk s
  | sub t f ih => exact fun s => ih s (hp s)
  | direct t f ih => exact fun s => ih s (hp s)
  | root t f ih => exact hp.elim
  | askSettings f ih => exact fun s => ih s (hp s)
  | askDefs f ih => exact hp.elim

theorem calm_map {p : Prog τ} {f : Json → Json} (hp : Calm p) : Calm (p.map f) :=
  calm_bind hp fun _ => trivial

theorem calm_collect {l : List ((Contract → Bool) × Prog τ)} {k : List Json → Prog τ}
    (hl : ∀ e ∈ l, Calm e.2) (hk : ∀ r, Calm (k r)) : Calm (collect l k) := by
  induction l generalizing k with
  | nil => exact hk []
  | cons e l ih =>
    obtain ⟨inc, p⟩ := e
    intro st
    show Calm (if inc st.contract then _ else _)
    by_cases h : inc st.contract
    · rw [if_pos h]
      exact calm_bind (hl _ List.mem_cons_self) fun s =>
        ih (fun e he => hl e (List.mem_cons_of_mem _ he)) fun r => hk _
    · rw [if_neg h]
      exact ih (fun e he => hl e (List.mem_cons_of_mem _ he)) hk

section
variable {I : TypeInfo τ}

theorem calm_field (f : Field τ) (b : Bool) : Calm (fieldProg I f b) := by
  unfold fieldProg
  refine calm_map ?_
  split
  · exact fun _ => trivial
  · split
    · unfold internalNewtypeProg
      intro s st
      simp only
      split
      · trivial
      · exact fun _ => trivial
    · exact fun _ => trivial

theorem calm_tuple (fs : List (Field τ)) : Calm (tupleStructProg I fs) := by
  unfold tupleStructProg
  refine calm_collect ?_ fun _ => trivial
  intro e he
  obtain ⟨f, _, rfl⟩ := List.mem_map.1 he
  exact calm_field f false

theorem calm_struct (fs : List (Field τ)) (cd deny : Bool) : Calm (structProg I fs cd deny) := by
  unfold structProg
  generalize mkObj _ = s
  induction fs generalizing s with
  | nil => trivial
  | cons f r ih =>
    unfold structFieldsProg
    refine calm_bind ?_ ih
    unfold structFieldProg
    intro st
    simp only
    split
    · split
      · exact fun _ => trivial
      · exact calm_bind (calm_field f false) fun _ => trivial
    · trivial

theorem calm_untagged (v : Variant τ) (deny b : Bool) : Calm (untaggedVariantProg I v deny b) := by
  have h : Calm (match v.withTy with
    | some t => .sub t .ret
    | none => match v.fields with
      | .unit => .sub I.unit .ret
      | .newtype f => fieldProg I f false
      | .tuple fs => tupleStructProg I fs
      | .struct fs => structProg I fs false deny) := by
    cases v.withTy with
    | some t => exact fun _ => trivial
    | none =>
      cases v.fields with
      | unit => exact fun _ => trivial
      | newtype f => exact calm_field f false
      | tuple fs => exact calm_tuple fs
      | struct fs => exact calm_struct fs false deny
  unfold untaggedVariantProg
  cases b with
  | false => exact h
  | true => exact calm_bind h fun _ _ => trivial

theorem calm_internal (v : Variant τ) (deny : Bool) : Calm (internalVariantProg I v deny) := by
  unfold internalVariantProg
  cases v.withTy with
  | some t => exact fun _ => trivial
  | none =>
    cases v.fields with
    | unit => exact fun _ => trivial
    | newtype f => exact calm_field f true
    | tuple fs => exact calm_tuple fs
    | struct fs => exact calm_struct fs false deny

theorem calm_variants {unique : Bool} {first : Option (Prog τ)} {vs : List (Variant τ × Prog τ)}
    (hf : ∀ p, first = some p → Calm p) (hv : ∀ e ∈ vs, Calm e.2) :
    Calm (variantSubschemas unique first vs) := by
  unfold variantSubschemas
  refine calm_collect ?_ fun _ => trivial
  intro e he
  rcases List.mem_append.1 he with he | he
  · cases first with
    | none => cases he
    | some p =>
      simp only [Option.elim_some, List.mem_cons, List.not_mem_nil, or_false] at he
      subst he
      exact hf p rfl
  · obtain ⟨x, hx, rfl⟩ := List.mem_map.1 he
    cases x.1.refTy with
    | none => simp only [Option.elim_none]; exact hv x hx
    | some t => simp only [Option.elim_some]; exact fun _ => trivial

theorem calm_enum (tag : TagType) (vs : List (Variant τ)) (deny : Bool) : Calm (enumProg I tag vs deny) := by
  unfold enumProg
  split
  · trivial
  cases tag with
  | external =>
    simp only
    unfold externalEnumProg
    simp only
    split
    · exact fun _ => trivial
    · refine calm_variants ?_ ?_
      · intro p hp
        split at hp
        · cases hp
        · cases hp; exact fun _ => trivial
      · intro e he
        obtain ⟨v, _, rfl⟩ := List.mem_map.1 he
        show Calm (externalVariantProg I v deny)
        unfold externalVariantProg
        split
        · exact calm_untagged v deny true
        · split
          · exact fun _ => trivial
          · exact fun _ => calm_map (calm_untagged v deny false)
  | none =>
    refine calm_variants (fun p hp => by cases hp) ?_
    intro e he
    obtain ⟨v, _, rfl⟩ := List.mem_map.1 he
    exact calm_untagged v deny true
  | internal tag =>
    refine calm_variants (fun p hp => by cases hp) ?_
    intro e he
    obtain ⟨v, _, rfl⟩ := List.mem_map.1 he
    show Calm (internalTaggedProg I tag v deny)
    unfold internalTaggedProg
    split
    · exact calm_untagged v deny true
    · exact calm_bind (calm_internal v deny) fun _ _ => trivial
  | adjacent tag content =>
    refine calm_variants (fun p hp => by cases hp) ?_
    intro e he
    obtain ⟨v, _, rfl⟩ := List.mem_map.1 he
    show Calm (adjacentTaggedProg I tag content v deny)
    unfold adjacentTaggedProg
    split
    · exact calm_untagged v deny true
    · split
      · exact fun _ => trivial
      · exact fun _ => calm_map (calm_untagged v deny false)

theorem calm_data (c : Container τ) : Calm (dataProg I c) := by
  unfold dataProg
  split
  · exact fun _ => trivial
  · exact calm_field _ false
  · exact calm_tuple _
  · exact calm_struct _ _ _
  · exact calm_enum _ _ _

theorem calm_container (c : Container τ) : Calm (containerProg I c) := by
  unfold containerProg
  refine calm_map ?_
  split
  · exact fun _ => trivial
  · exact calm_field _ false
  · intro st; simp only; split <;> exact fun _ => trivial
  · intro st
    simp only
    split
    · exact fun _ => trivial
    · exact calm_data c
  · intro st
    simp only
    split
    · exact fun _ => trivial
    · exact calm_data c
  · exact calm_data c

end

theorem calm_subAll {l : List τ} {k : List Json → Prog τ} (hk : ∀ r, Calm (k r)) : Calm (subAll l k) := by
  induction l generalizing k with
  | nil => exact hk []
  | cons t l ih => exact fun s => ih fun r => hk _

theorem calm_std {x : Std τ} (h : ∀ k v, x ≠ .map k v) : Calm (stdBody x) := by
  cases x with
  | tuple l => exact calm_subAll fun _ => trivial
  | map k v => exact absurd rfl (h k v)
  | _ => simp [stdBody, Calm]

theorem noRoot_container {I : TypeInfo τ} (c : Container τ) : NoRoot (containerProg I c) := (calm_container c).noRoot

theorem noRoot_std (x : Std τ) : NoRoot (stdBody x) := by
  by_cases h : ∀ k v, x ≠ .map k v
  · exact (calm_std h).noRoot
  · simp only [ne_eq, not_forall, not_not] at h
    obtain ⟨k, v, rfl⟩ := h
    exact fun _ _ _ _ => trivial

/-! ## Produced schemas -/

/-- The final state of a run. -/
structure World (τ : Type) where
  Γ : τ → TypeDef τ
  settings : Settings
  names : List (Uid × String)
  defs : List (String × Json)
  root : Option Uid

/-- The identity of a type. -/
def World.uid (W : World τ) (t : τ) : Uid := ((W.Γ t).schemaId, W.settings.contract)

/-- The schema of the type may be given in place. -/
def World.MayInline (W : World τ) (t : τ) : Prop := (W.Γ t).inlineSchema = true ∨ W.settings.inlineSubschemas = true

/-- The reference to the definition called `n`. -/
def World.ref (W : World τ) (n : String) : Json := Schema.newRef (refFor W.settings.definitionsPath.toList n)

/-- The objects among the definitions are there in the end. (While a definition is being made, there is a
`false` in its place.) -/
def DefsIn (d d' : List (String × Json)) : Prop :=
  ∀ n m, Obj.get d n = some (.obj m) → Obj.get d' n = some (.obj m)

/-- The answers in a run that ends in `W`, if `P` describes the results of bodies. -/
def World.answers (W : World τ) (P : τ → Json → Prop) : Answers τ where
  sub t s := (W.MayInline t ∧ P t s) ∨ (W.Γ t).inlineSchema = false ∧
    ((∃ n, (W.uid t, n) ∈ W.names ∧ (∃ d, Obj.get W.defs n = some d) ∧ s = W.ref n) ∨ W.root = some (W.uid t) ∧ s = Schema.newRef "#")
  direct := P
  root _ _ := True
  settings := W.settings
  defs d := DefsIn d W.defs

/-- The body of `t` returns `s`, with nesting depth at most `m`. -/
def Produced (W : World τ) : Nat → τ → Json → Prop
  | 0, _, _ => False
  | m + 1, t, s => Returns (W.answers (Produced W m)) (W.Γ t).body s

theorem Returns.mono {A B : Answers τ} (hs : ∀ t s, A.sub t s → B.sub t s)
    (hd : ∀ t s, A.direct t s → B.direct t s) (hr : ∀ t s, A.root t s → B.root t s)
    (hst : A.settings = B.settings) (hf : ∀ d, A.defs d → B.defs d) {p : Prog τ} {r : Json} :
    Returns A p r → Returns B p r := by
  induction p with
  | ret s => exact id
  | sub t f ih => rintro ⟨s, h1, h2⟩; exact ⟨s, hs t s h1, ih s h2⟩
  | direct t f ih => rintro ⟨s, h1, h2⟩; exact ⟨s, hd t s h1, ih s h2⟩
  | root t f ih => rintro ⟨s, h1, h2⟩; exact ⟨s, hr t s h1, ih s h2⟩
  | askSettings f ih =>
    intro h
    show Returns B (f B.settings) r
    rw [← hst]
    exact ih _ h
  | askDefs f ih => rintro ⟨d, h1, h2⟩; exact ⟨d, hf d h1, ih d h2⟩

/-- More answers allowed. -/
theorem World.answers_mono {W : World τ} {P Q : τ → Json → Prop} (h : ∀ t s, P t s → Q t s) {p : Prog τ} {r : Json}
    (hr : Returns (W.answers P) p r) : Returns (W.answers Q) p r :=
  Returns.mono (A := W.answers P) (B := W.answers Q) (fun t s hs => Or.imp (And.imp id (h t s)) id hs) h (fun _ _ x => x) rfl
    (fun _ x => x) hr

theorem Produced.succ {W : World τ} {m : Nat} {t : τ} {s : Json} (h : Produced W m t s) : Produced W (m + 1) t s := by
  induction m generalizing t s with
  | zero => exact h.elim
  | succ m ih => exact World.answers_mono (fun t s => ih) h

theorem Produced.le {W : World τ} {m m' : Nat} (h : m ≤ m') {t : τ} {s : Json} (hp : Produced W m t s) :
    Produced W m' t s := by
  induction h with
  | refl => exact hp
  | step _ ih => exact ih.succ

/-! ## Runs -/

/-- What is asked of the state after a call: it is part of the final state. -/
structure Within (W : World τ) (g : Gen τ) : Prop where
  names : ∀ e ∈ g.names, e ∈ W.names
  defs : DefsIn g.defs W.defs
  present : ∀ n v, Obj.get g.defs n = some v → ∃ d, Obj.get W.defs n = some d

theorem Post.within {W : World τ} {g g' : Gen τ} {evs} (hp : Post W.Γ g g' evs) (h : Within W g') : Within W g :=
  ⟨fun e he => h.names e (hp.names.subset he), fun n m hm => h.defs n m (hp.defsKeep n _ hm),
    fun n v hv => h.present n v (hp.defsKeep n v hv)⟩

/-- The state before a call. -/
structure Fits (W : World τ) (g : Gen τ) : Prop where
  inv : Inv g
  settings : g.settings = W.settings
  root : g.rootStack.head? = W.root

theorem Post.fits {W : World τ} {g g' : Gen τ} {evs} (hp : Post W.Γ g g' evs) (h : Fits W g) : Fits W g' :=
  ⟨hp.inv, hp.settings.trans h.settings, by rw [hp.rootStack]; exact h.root⟩

/-- A runner all of whose results are produced. -/
def RunsIn (W : World τ) (n : Nat) (R : τ → Gen τ → Option (Json × Gen τ)) : Prop :=
  ∀ t g s g', Fits W g → R t g = some (s, g') → Within W g' →
    Produced W n t s ∧ ∀ t u s, Event.leave t u s ∈ g'.log → Event.leave t u s ∈ g.log ∨ Produced W n t s

variable {W : World τ} {n : Nat} {R : τ → Gen τ → Option (Json × Gen τ)}

theorem internal_in (hR : RunsIn W n R) {t : τ} {u : Uid} {g g' : Gen τ} {s : Json} (hg : Fits W g)
    (hu : u = uidOf W.Γ g t) (h : jsonSchemaInternal R t u g = some (s, g')) (hw : Within W g') :
    Produced W n t s ∧ ∀ t u s, Event.leave t u s ∈ g'.log → Event.leave t u s ∈ g.log ∨ Produced W n t s := by
  unfold jsonSchemaInternal at h
  obtain ⟨⟨s1, g2⟩, hr, he⟩ := Option.map_eq_some_iff.1 h
  simp only [Prod.mk.injEq] at he
  obtain ⟨rfl, rfl⟩ := he
  have hf : Fits W (({ g with pending := if u ∉ g.pending then u :: g.pending else g.pending } :
      Gen τ).note (.enter t u)) := by
    refine ⟨⟨hg.inv.ids, hg.inv.vals, hg.inv.used, hg.inv.sorted, ?_, hg.inv.roots⟩, hg.settings, hg.root⟩
    intro v
    simp only [Gen.note, openOf, List.mem_cons]
    by_cases hp : u ∈ g.pending
    · rw [if_neg (by simpa using hp), hg.inv.pend v]
      constructor
      · exact .inr
      · rintro (rfl | h)
        · exact (hg.inv.pend v).1 hp
        · exact h
    · rw [if_pos hp, List.mem_cons, hg.inv.pend v]
  obtain ⟨h1, h2⟩ := hR _ _ _ _ hf hr ⟨hw.names, hw.defs, hw.present⟩
  refine ⟨h1, fun t' u' s' hl => ?_⟩
  rcases List.mem_cons.1 hl with hl | hl
  · cases hl; exact .inr h1
  · rcases h2 t' u' s' hl with h | h
    · rcases List.mem_cons.1 h with h | h
      · cases h
      · exact .inl h
    · exact .inr h

theorem subschemaFor_in (hG : Good W.Γ R) (hR : RunsIn W n R) {t : τ} {g g' : Gen τ} {s : Json} (hg : Fits W g)
    (h : subschemaFor W.Γ R t g = some (s, g')) (hw : Within W g') :
    (W.answers (Produced W n)).sub t s ∧
      ∀ t u s, Event.leave t u s ∈ g'.log → Event.leave t u s ∈ g.log ∨ Produced W n t s := by
  have hu : uidOf W.Γ g t = W.uid t := by unfold uidOf World.uid; rw [hg.settings]
  by_cases hc : ReturnsRef W.Γ g t
  case neg =>
    rw [subschemaFor_inline (fun e => hc (returnsRef_iff.1 e))] at h
    obtain ⟨h1, h2⟩ := internal_in hR hg rfl h hw
    refine ⟨.inl ⟨?_, h1⟩, h2⟩
    unfold ReturnsRef at hc
    rw [hg.settings] at hc
    unfold World.MayInline
    cases h5 : (W.Γ t).inlineSchema with
    | true => exact .inl rfl
    | false =>
      refine .inr ?_
      cases h6 : W.settings.inlineSubschemas with
      | true => rfl
      | false => exact absurd ⟨h5, fun h => by rw [h6] at h; cases h⟩ hc
  by_cases hroot : g.rootStack.head? = some (uidOf W.Γ g t)
  · rw [subschemaFor_root hc hroot] at h
    simp only [Option.some.injEq, Prod.mk.injEq] at h
    obtain ⟨rfl, rfl⟩ := h
    refine ⟨.inr ⟨hc.1, .inr ⟨by rw [← hg.root, hroot, hu], rfl⟩⟩, fun t' u' s' hl => ?_⟩
    rcases List.mem_cons.1 hl with hl | hl
    · cases hl
    · exact .inl hl
  obtain ⟨names, used, hn, hsuf, husuf, hmem, hid, hval, husd, hnew⟩ := nameFor_spec W.Γ t hg.inv
  have href : refSchema g (nameFor W.Γ t g).1 = W.ref (nameFor W.Γ t g).1 := by
    unfold refSchema World.ref; rw [hg.settings]
  have hafter : afterName W.Γ t g = ({ g with names := names, used := used } : Gen τ).note
      (.handed t (uidOf W.Γ g t) (refSchema g (nameFor W.Γ t g).1)) := by
    unfold afterName; rw [hn]
  have hinv : Inv (afterName W.Γ t g) := by
    rw [hafter]
    exact ⟨hid, hval, husd, hg.inv.sorted, hg.inv.pend, hg.inv.roots⟩
  by_cases hd : Obj.has g.defs (nameFor W.Γ t g).1 = true
  · rw [subschemaFor_known hc hroot hd] at h
    simp only [Option.some.injEq, Prod.mk.injEq] at h
    obtain ⟨rfl, rfl⟩ := h
    refine ⟨.inr ⟨hc.1, .inl ⟨(nameFor W.Γ t g).1, ?_, ?_, href⟩⟩, fun t' u' s' hl => ?_⟩
    · rw [← hu]
      refine hw.names _ ?_
      rw [hafter]; exact hmem
    · obtain ⟨v, hv⟩ := Option.isSome_iff_exists.1 hd
      refine hw.present _ v ?_
      rw [hafter]; exact hv
    · rw [hafter] at hl
      rcases List.mem_cons.1 hl with hl | hl
      · cases hl
      · exact .inl hl
  · rw [subschemaFor_new hc hroot hd] at h
    obtain ⟨g3, h3, h4⟩ := Option.map_eq_some_iff.1 h
    simp only [Prod.mk.injEq] at h4
    obtain ⟨rfl, rfl⟩ := h4
    unfold insertNewSubschemaFor at h3
    obtain ⟨⟨s1, g2⟩, hi, he⟩ := Option.map_eq_some_iff.1 h3
    simp only at he
    subst he
    generalize hname : (nameFor W.Γ t g).1 = name at *
    have hg1 : Fits W ({ afterName W.Γ t g with
        defs := Obj.insert (afterName W.Γ t g).defs name (.bool false) } : Gen τ) := by
      refine ⟨⟨hinv.ids, hinv.vals, hinv.used, Obj.sorted_insert hinv.sorted _ _, hinv.pend, hinv.roots⟩, ?_, ?_⟩
      · show (afterName W.Γ t g).settings = _
        rw [hafter]; exact hg.settings
      · show (afterName W.Γ t g).rootStack.head? = _
        rw [hafter]; exact hg.root
    have hu1 : uidOf W.Γ g t = uidOf W.Γ ({ afterName W.Γ t g with
        defs := Obj.insert (afterName W.Γ t g).defs name (.bool false) } : Gen τ) t := by
      rw [hu]; unfold uidOf World.uid; rw [hg1.settings]
    have hpost : ∃ evs, Post W.Γ ({ afterName W.Γ t g with
        defs := Obj.insert (afterName W.Γ t g).defs name (.bool false) } : Gen τ) g2 evs := by
      rw [hu1] at hi
      obtain ⟨evs, hp⟩ := internal_post hG hg1.inv hi
      exact ⟨_, hp⟩
    obtain ⟨evs, hp⟩ := hpost
    have hfalse : Obj.get g2.defs name = some (.bool false) :=
      hp.defsKeep name _ (Obj.get_insert_self _ _ _)
    have hw2 : Within W g2 := by
      refine ⟨hw.names, fun k m hm => hw.defs k m ?_, fun k v hv => ?_⟩
      rotate_left
      · by_cases hk : name = k
        · exact hw.present k s1 (by subst hk; exact Obj.get_insert_self _ _ _)
        · exact hw.present k v ((Obj.get_insert_ne _ _ hk).trans hv)
      have hne : name ≠ k := by
        rintro rfl
        rw [hfalse] at hm; cases hm
      show Obj.get (Obj.insert g2.defs name s1) k = _
      rw [Obj.get_insert_ne _ _ hne]
      exact hm
    obtain ⟨h1, h2⟩ := internal_in hR hg1 hu1 hi hw2
    refine ⟨.inr ⟨hc.1, .inl ⟨name, ?_, hw.present name s1 (Obj.get_insert_self _ _ _), href⟩⟩, fun t' u' s' hl => ?_⟩
    · rw [← hu]
      refine hw.names _ (hp.names.subset ?_)
      show _ ∈ (afterName W.Γ t g).names
      rw [hafter]; exact hmem
    · rcases h2 t' u' s' hl with h | h
      · refine .inl ?_
        change _ ∈ (afterName W.Γ t g).log at h
        rw [hafter] at h
        rcases List.mem_cons.1 h with h | h
        · cases h
        · exact h
      · exact .inr h

theorem exec_in (hG : Good W.Γ R) (hR : RunsIn W n R) (p : Prog τ) : ∀ {g g' : Gen τ} {s : Json}, NoRoot p →
    Fits W g → exec W.Γ R p g = some (s, g') → Within W g' →
    Returns (W.answers (Produced W n)) p s ∧
      ∀ t u s, Event.leave t u s ∈ g'.log → Event.leave t u s ∈ g.log ∨ Produced W n t s := by
  induction p with
  | ret s => intro g g' s' _ _ h _; cases h; exact ⟨rfl, fun _ _ _ h => .inl h⟩
  | sub t f ih =>
    intro g g' s' hn hg h hw
    obtain ⟨⟨s1, g1⟩, h1, h2⟩ := Option.bind_eq_some_iff.1 h
    obtain ⟨_, hp⟩ := subschemaFor_post hG hg.inv h1
    obtain ⟨_, hp2⟩ := exec_post hG (f s1) hp.inv h2
    obtain ⟨a1, a2⟩ := ih s1 (hn s1) (hp.fits hg) h2 hw
    obtain ⟨b1, b2⟩ := subschemaFor_in hG hR hg h1 (hp2.within hw)
    refine ⟨⟨s1, b1, a1⟩, fun t u s hl => ?_⟩
    rcases a2 t u s hl with h | h
    · exact b2 t u s h
    · exact .inr h
  | direct t f ih =>
    intro g g' s' hn hg h hw
    obtain ⟨⟨s1, g1⟩, h1, h2⟩ := Option.bind_eq_some_iff.1 h
    obtain ⟨_, hp⟩ := (hG _ _ _ _ hg.inv h1).2
    obtain ⟨_, hp2⟩ := exec_post hG (f s1) hp.inv h2
    obtain ⟨a1, a2⟩ := ih s1 (hn s1) (hp.fits hg) h2 hw
    obtain ⟨b1, b2⟩ := hR _ _ _ _ hg h1 (hp2.within hw)
    refine ⟨⟨s1, b1, a1⟩, fun t u s hl => ?_⟩
    rcases a2 t u s hl with h | h
    · exact b2 t u s h
    · exact .inr h
  | root t f ih => intro g g' s' hn; exact hn.elim
  | askSettings f ih =>
    intro g g' s' hn hg h hw
    have := ih g.settings (hn _) hg h hw
    rw [hg.settings] at this
    exact this
  | askDefs f ih =>
    intro g g' s' hn hg h hw
    obtain ⟨_, hp⟩ := exec_post hG (f g.defs) hg.inv h
    obtain ⟨a1, a2⟩ := ih g.defs (hn _) hg h hw
    exact ⟨⟨g.defs, (hp.within hw).defs, a1⟩, a2⟩

/-- Every run of `json_schema` that ends within the final state returns a produced schema, and so did all the
runs inside it. -/
theorem run_in (hΓ : ∀ t, NoRoot (W.Γ t).body) (n : Nat) : RunsIn W n (run W.Γ n) := by
  induction n with
  | zero => intro t g s g' _ h; cases h
  | succ n ih =>
    intro t g s g' hg h hw
    obtain ⟨h1, h2⟩ := exec_in (run_good W.Γ n) ih _ (hΓ t) hg h hw
    exact ⟨h1, fun t u s hl => (h2 t u s hl).imp id Produced.succ⟩

/-- The final state of `root_schema_for` on a new generator, and what it says. -/
theorem root_world {Γ : τ → TypeDef τ} (hΓ : ∀ t, NoRoot (Γ t).body) {n : Nat} {t : τ} {st : Settings} {r : Json}
    {g' : Gen τ} (h : rootSchemaFor Γ (run Γ n) t (Gen.new st) = some (r, g')) :
    ∃ body m, Schema.ensureObject body = some m ∧
      r = applyTransforms st.transforms
        (.obj (addDefinitions st.definitionsPath.toList (rootObject Γ t st.metaSchema m) g'.defs)) ∧
      (let W : World τ := ⟨Γ, st, g'.names, g'.defs, some ((Γ t).schemaId, st.contract)⟩
       Produced W n t body ∧
       (∀ name d, Obj.get g'.defs name = some d → ∃ t', Produced W n t' d ∧ (W.uid t', name) ∈ W.names) ∧
       (∀ u u' name, (u, name) ∈ W.names → (u', name) ∈ W.names → u = u')) := by
  unfold rootSchemaFor at h
  obtain ⟨⟨body, g1⟩, h1, h2⟩ := Option.bind_eq_some_iff.1 h
  obtain ⟨m, hm, h3⟩ := Option.map_eq_some_iff.1 h2
  simp only [Prod.mk.injEq] at h3
  obtain ⟨rfl, rfl⟩ := h3
  let W : World τ := ⟨Γ, st, g1.names, g1.defs, some ((Γ t).schemaId, st.contract)⟩
  let g0 : Gen τ := ({ (Gen.new st : Gen τ) with
    rootStack := uidOf Γ (Gen.new st) t :: (Gen.new st : Gen τ).rootStack } : Gen τ).note
      (.rootEnter t (uidOf Γ (Gen.new st) t))
  have hinv : Inv g0 := ⟨List.nodup_nil, List.nodup_nil, by simp [g0, Gen.new, Gen.note], Obj.sorted_nil,
    by simp [g0, Gen.new, Gen.note, openOf], rfl⟩
  have hfit : Fits W g0 := ⟨hinv, rfl, rfl⟩
  have hw : Within W g1 := ⟨fun _ h => h, fun _ _ h => h, fun _ v h => ⟨v, h⟩⟩
  obtain ⟨a1, a2⟩ := internal_in (W := W) (run_in hΓ n) hfit rfl h1 hw
  obtain ⟨evs, hp⟩ := internal_post (Γ := Γ) (run_good Γ n) hinv h1
  have hset : g1.settings = st := hp.settings
  refine ⟨body, m, hm, by rw [hset]; rfl, a1, ?_, ?_⟩
  rotate_left
  · intro u u' name h1 h2
    exact (Prod.mk.inj (List.inj_on_of_nodup_map hp.inv.vals h1 h2 rfl)).1
  intro name d hd
  obtain ⟨t', u', b1, b2, _⟩ := hp.defsNew name d hd rfl
  have hl : Event.leave t' u' d ∈ g1.log := by rw [hp.log]; exact List.mem_append_left _ b1
  obtain ⟨b, hb⟩ := mem_happened g0.log b1
  have hu' := (hp.events _ b hb).1
  refine ⟨t', ?_, ?_⟩
  · rcases a2 t' u' d hl with h | h
    · simp [g0, Gen.new, Gen.note] at h
    · exact h
  · rw [hu'] at b2
    exact b2

end Verif
