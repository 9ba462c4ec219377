import Verif.Delegate

/-!
# Runs of programs whose types are renamed

`Mirrors x f o' o` says that two partial results agree up to `f`, except that the first (`x`) or the second may be
missing. The generator is run on two families of implementations, related by a function on types.
-/

namespace Verif

variable {τ σ : Type}

/-- The types of a body renamed. -/
def Prog.rename (φ : τ → σ) : Prog τ → Prog σ
  | .ret s => .ret s
  | .sub t k => .sub (φ t) fun s => (k s).rename φ
  | .direct t k => .direct (φ t) fun s => (k s).rename φ
  | .root t k => .root (φ t) fun s => (k s).rename φ
  | .askSettings k => .askSettings fun st => (k st).rename φ
  | .askDefs k => .askDefs fun d => (k d).rename φ

/-- The types of an event renamed. -/
def Event.rename (φ : τ → σ) : Event τ → Event σ
  | .rootEnter t u => .rootEnter (φ t) u
  | .rootLeave t u s => .rootLeave (φ t) u s
  | .enter t u => .enter (φ t) u
  | .leave t u s => .leave (φ t) u s
  | .handed t u s => .handed (φ t) u s

/-- The types in the ghost log renamed. -/
def Gen.rename (φ : τ → σ) (g : Gen τ) : Gen σ :=
  { settings := g.settings, defs := g.defs, pending := g.pending, names := g.names, used := g.used,
    rootStack := g.rootStack, log := g.log.map (Event.rename φ) }

/-- A result with its generator renamed. -/
def renamed {α : Type} (φ : τ → σ) (r : α × Gen τ) : α × Gen σ := (r.1, r.2.rename φ)

theorem Prog.rename_id (p : Prog τ) : p.rename id = p := by
  induction p <;> simp_all [Prog.rename]

theorem Event.rename_id (e : Event τ) : e.rename id = e := by cases e <;> rfl

theorem Gen.rename_id (g : Gen τ) : g.rename id = g := by
  have : (Event.rename (id : τ → τ)) = id := funext Event.rename_id
  cases g; simp [Gen.rename, this]

theorem renamed_id {α : Type} (r : α × Gen τ) : renamed id r = r := by simp [renamed, Gen.rename_id]

theorem Gen.rename_new (φ : τ → σ) (st : Settings) : (Gen.new st : Gen τ).rename φ = Gen.new st := rfl

theorem Prog.rename_bind (φ : τ → σ) (p : Prog τ) (k : Json → Prog τ) :
    (p.bind k).rename φ = (p.rename φ).bind fun s => (k s).rename φ := by
  induction p <;> simp_all [Prog.rename, Prog.bind]

theorem Prog.rename_map (φ : τ → σ) (p : Prog τ) (f : Json → Json) : (p.map f).rename φ = (p.rename φ).map f := by
  simp [Prog.map, Prog.rename_bind, Prog.rename]

/-! ## Partial results that agree -/

/-- The results agree up to `f`, or the first (if `x`) or the second is missing. -/
def Mirrors {α β : Type} (x : Bool) (f : α → β) (o' : Option α) (o : Option β) : Prop :=
  o = o'.map f ∨ if x then o' = none else o = none

theorem Mirrors.none {α β : Type} {x : Bool} {f : α → β} : Mirrors x f none none := Or.inl rfl

theorem Mirrors.some {α β : Type} {x : Bool} {f : α → β} (a : α) : Mirrors x f (some a) (some (f a)) := Or.inl rfl

theorem Mirrors.bind {α β α' β' : Type} {x : Bool} {f : α → β} {f' : α' → β'} {o' : Option α} {o : Option β}
    {k' : α → Option α'} {k : β → Option β'} (h : Mirrors x f o' o) (hk : ∀ a, Mirrors x f' (k' a) (k (f a))) :
    Mirrors x f' (o'.bind k') (o.bind k) := by
  rcases h with rfl | h
  · cases o' with
    | none => exact .none
    | some a => exact hk a
  · cases x
    · right; simp_all
    · right; simp_all

theorem Mirrors.map {α β α' β' : Type} {x : Bool} {f : α → β} {f' : α' → β'} {o' : Option α} {o : Option β}
    {k' : α → α'} {k : β → β'} (h : Mirrors x f o' o) (hk : ∀ a, k (f a) = f' (k' a)) :
    Mirrors x f' (o'.map k') (o.map k) := by
  rw [Option.map_eq_bind, Option.map_eq_bind]
  exact h.bind fun a => by simp only [Function.comp_apply, hk]; exact .some _

/-! ## The generator on renamed types -/

/-- The implementations of `t` and `φ t` have the same id, name and `inline_schema`. -/
def SameNames (φ : τ → σ) (Γ' : τ → TypeDef τ) (Γ : σ → TypeDef σ) : Prop :=
  ∀ t, (Γ (φ t)).schemaId = (Γ' t).schemaId ∧ (Γ (φ t)).schemaName = (Γ' t).schemaName ∧
    (Γ (φ t)).inlineSchema = (Γ' t).inlineSchema

/-- The runners agree. -/
def MirrorsAll (x : Bool) (φ : τ → σ) (R' : τ → Gen τ → Option (Json × Gen τ))
    (R : σ → Gen σ → Option (Json × Gen σ)) : Prop :=
  ∀ t g, Mirrors x (renamed φ) (R' t g) (R (φ t) (g.rename φ))

section
variable {x : Bool} {φ : τ → σ} {Γ' : τ → TypeDef τ} {Γ : σ → TypeDef σ}
  {R' : τ → Gen τ → Option (Json × Gen τ)} {R : σ → Gen σ → Option (Json × Gen σ)}

theorem mirrors_internal (hR : MirrorsAll x φ R' R) (t : τ) (u : Uid) (g : Gen τ) :
    Mirrors x (renamed φ) (jsonSchemaInternal R' t u g) (jsonSchemaInternal R (φ t) u (g.rename φ)) := by
  unfold jsonSchemaInternal
  exact (hR t _).map fun a => rfl

theorem mirrors_insert (hR : MirrorsAll x φ R' R) (t : τ) (name : String) (u : Uid) (g : Gen τ) :
    Mirrors x (Gen.rename φ) (insertNewSubschemaFor R' t name u g)
      (insertNewSubschemaFor R (φ t) name u (g.rename φ)) := by
  unfold insertNewSubschemaFor
  exact (mirrors_internal hR t u _).map fun a => rfl

theorem uidOf_rename (hn : SameNames φ Γ' Γ) (t : τ) (g : Gen τ) : uidOf Γ (g.rename φ) (φ t) = uidOf Γ' g t := by
  simp [uidOf, Gen.rename, (hn t).1]

theorem nameFor_rename (hn : SameNames φ Γ' Γ) (t : τ) (g : Gen τ) :
    nameFor Γ (φ t) (g.rename φ) = renamed φ (nameFor Γ' t g) := by
  unfold nameFor
  rw [uidOf_rename hn, (hn t).2.1]
  show (match lookupName g.names (uidOf Γ' g t) with | some n => _ | none => _) = _
  cases lookupName g.names (uidOf Γ' g t) <;> rfl

theorem mirrors_sub (hn : SameNames φ Γ' Γ) (hR : MirrorsAll x φ R' R) (t : τ) (g : Gen τ) :
    Mirrors x (renamed φ) (subschemaFor Γ' R' t g) (subschemaFor Γ R (φ t) (g.rename φ)) := by
  unfold subschemaFor
  rw [uidOf_rename hn, (hn t).2.2, nameFor_rename hn]
  show Mirrors x _ _ (if (!(Γ' t).inlineSchema && (!g.settings.inlineSubschemas ||
    decide (uidOf Γ' g t ∈ g.pending))) = true then _ else _)
  dsimp only
  split
  · show Mirrors x _ _ (if g.rootStack.head? = some (uidOf Γ' g t) then _ else _)
    split
    · exact .some _
    · generalize nameFor Γ' t g = r
      obtain ⟨name, g1⟩ := r
      show Mirrors x _ _ (if Obj.has g1.defs name = true then _ else _)
      show Mirrors x _ (if Obj.has g1.defs name = true then _ else _) _
      split
      · exact .some _
      · exact (mirrors_insert hR t name _ _).map fun a => rfl
  · exact mirrors_internal hR t _ g

theorem rootObject_rename (hn : SameNames φ Γ' Γ) (t : τ) (o : Option String) (m : List (String × Json)) :
    rootObject Γ (φ t) o m = rootObject Γ' t o m := by
  simp [rootObject, (hn t).2.1]

theorem mirrors_root (hn : SameNames φ Γ' Γ) (hR : MirrorsAll x φ R' R) (t : τ) (g : Gen τ) :
    Mirrors x (renamed φ) (rootSchemaFor Γ' R' t g) (rootSchemaFor Γ R (φ t) (g.rename φ)) := by
  unfold rootSchemaFor
  rw [uidOf_rename hn]
  refine (mirrors_internal hR t _ _).bind fun a => ?_
  obtain ⟨s, g1⟩ := a
  show Mirrors x _ ((Schema.ensureObject s).map _) ((Schema.ensureObject s).map _)
  cases Schema.ensureObject s with
  | none => exact .none
  | some m => simp only [rootObject_rename hn, Option.map_some]; exact .some _

theorem mirrors_into (hn : SameNames φ Γ' Γ) (hR : MirrorsAll x φ R' R) (t : τ) (g : Gen τ) :
    Mirrors x id (intoRootSchemaFor Γ' R' t g) (intoRootSchemaFor Γ R (φ t) (g.rename φ)) := by
  unfold intoRootSchemaFor
  rw [uidOf_rename hn]
  refine (mirrors_internal hR t _ _).bind fun a => ?_
  obtain ⟨s, g1⟩ := a
  show Mirrors x _ ((Schema.ensureObject s).map _) ((Schema.ensureObject s).map _)
  cases Schema.ensureObject s with
  | none => exact .none
  | some m => simp only [rootObject_rename hn, Option.map_some]; exact .some _

theorem mirrors_exec (hn : SameNames φ Γ' Γ) (hR : MirrorsAll x φ R' R) (p : Prog τ) : ∀ g : Gen τ,
    Mirrors x (renamed φ) (exec Γ' R' p g) (exec Γ R (p.rename φ) (g.rename φ)) := by
  induction p with
  | ret s => intro g; exact .some _
  | sub t k ih => intro g; exact (mirrors_sub hn hR t g).bind fun a => ih a.1 a.2
  | direct t k ih => intro g; exact (hR t g).bind fun a => ih a.1 a.2
  | root t k ih => intro g; exact (mirrors_root hn hR t g).bind fun a => ih a.1 a.2
  | askSettings k ih => intro g; exact ih g.settings g
  | askDefs k ih => intro g; exact ih g.defs g

end

/-! ## More depth gives the same results -/

section
variable {Γ : τ → TypeDef τ}

theorem sameNames_id : SameNames id Γ Γ := fun _ => ⟨rfl, rfl, rfl⟩

theorem run_mirrors (n : Nat) : MirrorsAll true id (run Γ n) (run Γ (n + 1)) := by
  induction n with
  | zero => intro t g; right; rfl
  | succ n ih =>
    intro t g
    have h := mirrors_exec (sameNames_id (Γ := Γ)) ih (Γ t).body g
    rwa [Prog.rename_id] at h

theorem run_mono {n m : Nat} {t : τ} {g : Gen τ} {r : Json × Gen τ} (h : run Γ n t g = some r) (hnm : n ≤ m) :
    run Γ m t g = some r := by
  induction hnm with
  | refl => exact h
  | step _ ih =>
    rcases run_mirrors (Γ := Γ) _ t g with h' | h'
    · rw [ih, Gen.rename_id] at h'
      simpa [renamed_id] using h'
    · simp [ih] at h'

theorem run_mirrorsAll {n m : Nat} (hnm : n ≤ m) : MirrorsAll true id (run Γ n) (run Γ m) := by
  intro t g
  rcases h : run Γ n t g with _ | r
  · right; rfl
  · left; rw [Gen.rename_id]; simp [run_mono h hnm, renamed_id]

/-- The results at any depth. -/
noncomputable def limit (Γ : τ → TypeDef τ) (t : τ) (g : Gen τ) : Option (Json × Gen τ) :=
  open Classical in if h : ∃ r, ∃ n, run Γ n t g = some r then some h.choose else none

theorem limit_eq {t : τ} {g : Gen τ} {r : Json × Gen τ} : limit Γ t g = some r ↔ ∃ n, run Γ n t g = some r := by
  unfold limit
  constructor
  · intro h
    split at h
    · rename_i h'
      cases h
      exact h'.choose_spec
    · cases h
  · rintro ⟨n, h⟩
    have h' : ∃ r, ∃ n, run Γ n t g = some r := ⟨r, n, h⟩
    rw [dif_pos h']
    obtain ⟨m, hm⟩ := h'.choose_spec
    have := (run_mono h (Nat.le_max_left n m)).symm.trans (run_mono hm (Nat.le_max_right n m))
    exact this.symm

/-- At some depth the run of a type from a generator is the result at any depth. -/
theorem limit_reached (t : τ) (g : Gen τ) : ∃ n, run Γ n t g = limit Γ t g := by
  rcases h : limit Γ t g with _ | r
  · exact ⟨0, rfl⟩
  · exact limit_eq.1 h

theorem internal_once (t : τ) (u : Uid) (g : Gen τ) : ∃ g0, ∀ R R' : τ → Gen τ → Option (Json × Gen τ),
    R t g0 = R' t g0 → jsonSchemaInternal R t u g = jsonSchemaInternal R' t u g := by
  unfold jsonSchemaInternal
  dsimp only
  exact ⟨_, fun R R' h => by rw [h]⟩

/-- `subschema_for` calls `json_schema` at most once. -/
theorem sub_once (t : τ) (g : Gen τ) : ∃ g0, ∀ R R' : τ → Gen τ → Option (Json × Gen τ), R t g0 = R' t g0 →
    subschemaFor Γ R t g = subschemaFor Γ R' t g := by
  unfold subschemaFor
  dsimp only
  split
  · split
    · exact ⟨g, fun _ _ _ => rfl⟩
    · generalize nameFor Γ t g = r
      obtain ⟨name, g1⟩ := r
      dsimp only
      split
      · exact ⟨g, fun _ _ _ => rfl⟩
      · unfold insertNewSubschemaFor
        dsimp only
        obtain ⟨g0, h⟩ := internal_once t (uidOf Γ g t) { (g1.note (.handed t (uidOf Γ g t)
          (Schema.newRef (refFor g1.settings.definitionsPath.toList name)))) with
          defs := Obj.insert (g1.note (.handed t (uidOf Γ g t)
            (Schema.newRef (refFor g1.settings.definitionsPath.toList name)))).defs name (.bool false) }
        exact ⟨g0, fun R R' h' => by rw [h R R' h']⟩
  · exact internal_once t _ _

/-- `root_schema_for` calls `json_schema` at most once. -/
theorem root_once (t : τ) (g : Gen τ) : ∃ g0, ∀ R R' : τ → Gen τ → Option (Json × Gen τ), R t g0 = R' t g0 →
    rootSchemaFor Γ R t g = rootSchemaFor Γ R' t g := by
  unfold rootSchemaFor
  dsimp only
  obtain ⟨g0, h⟩ := internal_once t (uidOf Γ g t)
    ({ g with rootStack := uidOf Γ g t :: g.rootStack }.note (.rootEnter t (uidOf Γ g t)))
  exact ⟨g0, fun R R' h' => by rw [h R R' h']⟩

/-- `into_root_schema_for` calls `json_schema` at most once. -/
theorem into_once (t : τ) (g : Gen τ) : ∃ g0, ∀ R R' : τ → Gen τ → Option (Json × Gen τ), R t g0 = R' t g0 →
    intoRootSchemaFor Γ R t g = intoRootSchemaFor Γ R' t g := by
  unfold intoRootSchemaFor
  dsimp only
  obtain ⟨g0, h⟩ := internal_once t (uidOf Γ g t)
    ({ g with rootStack := uidOf Γ g t :: g.rootStack }.note (.rootEnter t (uidOf Γ g t)))
  exact ⟨g0, fun R R' h' => by rw [h R R' h']⟩

/-- A body that uses results at any depth uses results at some depth. -/
theorem exec_limit (p : Prog τ) : ∀ (g : Gen τ) (r : Json × Gen τ), exec Γ (limit Γ) p g = some r →
    ∃ n, exec Γ (run Γ n) p g = some r := by
  have mono : ∀ (p : Prog τ) (g : Gen τ) (r : Json × Gen τ) (n m : Nat), exec Γ (run Γ n) p g = some r → n ≤ m →
      exec Γ (run Γ m) p g = some r := by
    intro p g r n m h hnm
    have := mirrors_exec (sameNames_id (Γ := Γ)) (run_mirrorsAll (Γ := Γ) hnm) p g
    rw [Prog.rename_id, Gen.rename_id] at this
    rcases this with h' | h'
    · simpa [h, renamed_id] using h'
    · simp [h] at h'
  have step : ∀ (f : (τ → Gen τ → Option (Json × Gen τ)) → Option (Json × Gen τ)) (t : τ) (g0 : Gen τ)
      (k : Json → Prog τ) (r : Json × Gen τ), (∀ R R', R t g0 = R' t g0 → f R = f R') →
      (∀ n m, n ≤ m → ∀ r, f (run Γ n) = some r → f (run Γ m) = some r) →
      (∀ s g r, exec Γ (limit Γ) (k s) g = some r → ∃ n, exec Γ (run Γ n) (k s) g = some r) →
      ((f (limit Γ)).bind fun r => exec Γ (limit Γ) (k r.1) r.2) = some r →
      ∃ n, ((f (run Γ n)).bind fun r => exec Γ (run Γ n) (k r.1) r.2) = some r := by
    intro f t g0 k r hf hm ih h
    obtain ⟨n, hn⟩ := limit_reached (Γ := Γ) t g0
    rw [← hf _ _ hn] at h
    rcases h1 : f (run Γ n) with _ | r1
    · simp [h1] at h
    · rw [h1] at h
      obtain ⟨m, hm'⟩ := ih _ _ _ h
      refine ⟨max n m, ?_⟩
      rw [hm n _ (Nat.le_max_left n m) _ h1]
      exact mono _ _ _ _ _ hm' (Nat.le_max_right n m)
  have lift : ∀ {o o' : Option (Json × Gen τ)} {r}, Mirrors true (renamed id) o o' → o = some r → o' = some r := by
    intro o o' r h h1
    rcases h with h' | h'
    · simpa [h1, renamed_id] using h'
    · simp [h1] at h'
  induction p with
  | ret s => intro g r h; exact ⟨0, h⟩
  | sub t k ih =>
    intro g r h
    obtain ⟨g0, hg⟩ := sub_once (Γ := Γ) t g
    refine step (fun R => subschemaFor Γ R t g) t g0 k r hg (fun n m hnm r h => ?_) ih h
    have := mirrors_sub (sameNames_id (Γ := Γ)) (run_mirrorsAll (Γ := Γ) hnm) t g
    rw [Gen.rename_id] at this
    exact lift this h
  | direct t k ih =>
    intro g r h
    exact step (fun R => R t g) t g k r (fun _ _ h => h) (fun n m hnm r h => run_mono h hnm) ih h
  | root t k ih =>
    intro g r h
    obtain ⟨g0, hg⟩ := root_once (Γ := Γ) t g
    refine step (fun R => rootSchemaFor Γ R t g) t g0 k r hg (fun n m hnm r h => ?_) ih h
    have := mirrors_root (sameNames_id (Γ := Γ)) (run_mirrorsAll (Γ := Γ) hnm) t g
    rw [Gen.rename_id] at this
    exact lift this h
  | askSettings k ih => intro g r h; exact ih g.settings g r h
  | askDefs k ih => intro g r h; exact ih g.defs g r h

end

/-! ## Families with delegating types -/

theorem exec_direct_ret (Γ : τ → TypeDef τ) (R : τ → Gen τ → Option (Json × Gen τ)) (u : τ) (g : Gen τ) :
    exec Γ R (.direct u .ret) g = R u g := by
  show (R u g).bind (fun r => some (r.1, r.2)) = R u g
  cases R u g <;> rfl

section
variable {φ : τ → σ} {Γ' : τ → TypeDef τ} {Γ : σ → TypeDef σ}

/-- A type of the first family has the renamed body of its counterpart, or only calls a type with the same
counterpart. -/
def Simulates (φ : τ → σ) (Γ' : τ → TypeDef τ) (Γ : σ → TypeDef σ) : Prop :=
  ∀ t, (Γ (φ t)).body = (Γ' t).body.rename φ ∨ ∃ u, (Γ' t).body = .direct u .ret ∧ φ u = φ t

/-- Whatever the first family generates, the second does at the same depth. -/
theorem run_simulates (hn : SameNames φ Γ' Γ) (hs : Simulates φ Γ' Γ) (n : Nat) :
    MirrorsAll true φ (run Γ' n) (run Γ n) := by
  induction n with
  | zero => intro t g; right; rfl
  | succ n ih =>
    intro t g
    rcases hs t with h | ⟨u, h, hu⟩
    · show Mirrors true _ (exec Γ' (run Γ' n) (Γ' t).body g) (exec Γ (run Γ n) (Γ (φ t)).body (g.rename φ))
      rw [h]
      exact mirrors_exec hn ih _ g
    · have h1 : run Γ' (n + 1) t g = run Γ' n u g := by
        show exec Γ' (run Γ' n) (Γ' t).body g = _
        rw [h, exec_direct_ret]
      rw [h1]
      rcases h2 : run Γ' n u g with _ | r
      · right; rfl
      · left
        have h3 := ih u g
        rw [h2, hu] at h3
        rcases h3 with h3 | h3
        · exact run_mono h3 (Nat.le_succ n)
        · cases h3

/-- Whatever the second family generates, the first does, if chains of calls end. -/
theorem limit_simulates (hn : SameNames φ Γ' Γ) (rank : τ → Nat)
    (hs : ∀ t, (Γ (φ t)).body = (Γ' t).body.rename φ ∨
      ∃ u, (Γ' t).body = .direct u .ret ∧ φ u = φ t ∧ rank u < rank t) (n : Nat) :
    MirrorsAll false φ (limit Γ') (run Γ n) := by
  induction n with
  | zero => intro t g; right; rfl
  | succ n ih =>
    have main : ∀ k t g, rank t < k → Mirrors false (renamed φ) (limit Γ' t g) (run Γ (n + 1) (φ t) (g.rename φ)) := by
      intro k
      induction k with
      | zero => intro t g h; omega
      | succ k ihk =>
        intro t g hk
        rcases hs t with h | ⟨u, h, hu, hlt⟩
        · have h1 := mirrors_exec hn ih (Γ' t).body g
          rw [← h] at h1
          rcases h1 with h1 | h1
          · rcases h2 : exec Γ' (limit Γ') (Γ' t).body g with _ | r
            · right
              show exec Γ (run Γ n) _ _ = none
              rw [h1, h2]; rfl
            · left
              obtain ⟨m, hm⟩ := exec_limit _ _ _ h2
              have h3 : limit Γ' t g = some r := limit_eq.2 ⟨m + 1, hm⟩
              show exec Γ (run Γ n) _ _ = _
              rw [h1, h2, h3]
          · right; exact h1
        · have h1 : limit Γ' t g = limit Γ' u g := by
            apply Option.ext
            intro r
            simp only [limit_eq]
            constructor
            · rintro ⟨m, hm⟩
              cases m with
              | zero => cases hm
              | succ m =>
                refine ⟨m, ?_⟩
                have hm : exec Γ' (run Γ' m) (Γ' t).body g = some r := hm
                rwa [h, exec_direct_ret] at hm
            · rintro ⟨m, hm⟩
              refine ⟨m + 1, ?_⟩
              show exec Γ' (run Γ' m) (Γ' t).body g = some r
              rwa [h, exec_direct_ret]
          rw [h1, ← hu]
          exact ihk u g (by omega)
    intro t g
    exact main (rank t + 1) t g (Nat.lt_succ_self _)

end

end Verif
