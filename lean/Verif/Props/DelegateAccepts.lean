import Verif.Props.Delegate
import Verif.Props.ReadsFlatten

/-!
# C45, C64 and C65 for programs with wrappers

serde writes and reads a wrapper as the type inside. By C66 the root schema of a type is that of its counterpart in
the program without wrappers, so it accepts what serde writes and reads for the counterpart.
-/

namespace Verif
open Spec

variable {τ σ : Type} {src : τ → Source τ} {src' : σ → Source σ} {φ : τ → σ} {rank : τ → Nat} {Γ : τ → TypeDef τ}
  {Γ' : σ → TypeDef σ} {I : TypeInfo τ} {I' : TypeInfo σ} {D : Dialect} {env : Env} {decl : σ → Decl σ} {w : Nat}
  {q : Quirks σ}

/-- C45 through wrappers (`_partial` as `C45_root_partial`, for the program without the wrappers). -/
theorem C45_wrapped_partial (hrank : ∀ t u, Asks src t u → rank u < rank t) (hφ : Unwraps src φ src')
    (h : Implements src Γ I) (h' : Implements src' Γ' I') (hunit : I'.unit = φ I.unit) (hM : Modern D env)
    (hG : Declared Γ' decl I') (hok : ∀ t, WideDecl decl I' (decl t)) {n : Nat} {t : τ} {st : Settings} {r : Json}
    {g : Gen τ} (hr : rootSchemaFor Γ (run Γ n) t (Gen.new st) = some (r, g)) (hst : st.transforms = [])
    (hser : st.contract = .serialize) {k : String} (hk : k = "$defs" ∨ k = "definitions")
    (hpath : PathDenotes st.definitionsPath [k]) (hfree : g.defs ≠ [] → ∃ ds, At r [k] (.obj ds))
    (hplain : ∀ name d, Obj.get g.defs name = some d → PlainName name) (hR : Resolves D env r) {j : Json}
    (hj : SerializedIf w (FieldObeys env) I'.base decl (φ t) j) : Valid D env r j := by
  obtain ⟨m, g', h1, h2⟩ := C66_root hrank hφ h h' hunit hr
  rw [← h2] at hfree hplain
  exact C45_root_partial hM hG hok h1 hst hser hk hpath hfree hplain hR hj

/-- C64 through wrappers (`_partial` as `C64_root_partial`, for the program without the wrappers). -/
theorem C64_wrapped_partial (hrank : ∀ t u, Asks src t u → rank u < rank t) (hφ : Unwraps src φ src')
    (h : Implements src Γ I) (h' : Implements src' Γ' I') (hunit : I'.unit = φ I.unit) (hM : Modern D env)
    (hx : DecimalInputRx env) (hq : Documented q) (hG : Declared Γ' decl I') (ho : OptionsKnown decl I')
    (hok : ∀ t, ReadOk false q.lenient decl I'.base (decl t)) {n : Nat} {t : τ} {st : Settings} {r : Json}
    {g : Gen τ} (hr : rootSchemaFor Γ (run Γ n) t (Gen.new st) = some (r, g)) (hst : st.transforms = [])
    (hde : st.contract = .deserialize) {k : String} (hk : k = "$defs" ∨ k = "definitions")
    (hpath : PathDenotes st.definitionsPath [k]) (hfree : g.defs ≠ [] → ∃ ds, At r [k] (.obj ds))
    (hplain : ∀ name d, Obj.get g.defs name = some d → PlainName name) (hR : Resolves D env r) {j : Json}
    (hj : j.WF) (hread : ReadIf w q (FieldObeys env) I'.base decl (φ t) j) : Valid D env r j := by
  obtain ⟨m, g', h1, h2⟩ := C66_root hrank hφ h h' hunit hr
  rw [← h2] at hfree hplain
  exact C64_root_partial hM hx hq hG ho hok h1 hst hde hk hpath hfree hplain hR hj hread

/-- C65 through wrappers (`_partial` as `C65_root_partial`, for the program without the wrappers). -/
theorem C65_wrapped_partial (hrank : ∀ t u, Asks src t u → rank u < rank t) (hφ : Unwraps src φ src')
    (h : Implements src Γ I) (h' : Implements src' Γ' I') (hunit : I'.unit = φ I.unit) (hM : Modern D env)
    (hw : 32 ≤ w) (hq : Documented q) (hG : Declared Γ' decl I') (ho : OptionsKnown decl I')
    (hg : Grounded I'.base decl) (hok : ∀ t, ReadOk true q.lenient decl I'.base (decl t)) {n : Nat} {t : τ}
    {st : Settings} {r : Json} {g : Gen τ} (hr : rootSchemaFor Γ (run Γ n) t (Gen.new st) = some (r, g))
    (hst : st.transforms = []) (hde : st.contract = .deserialize) {k : String} (hk : k = "$defs" ∨ k = "definitions")
    (hpath : PathDenotes st.definitionsPath [k]) (hfree : g.defs ≠ [] → ∃ ds, At r [k] (.obj ds))
    (hplain : ∀ name d, Obj.get g.defs name = some d → PlainName name) (hR : Resolves D env r) {j : Json}
    (hj : j.WF) (hn : SmallNumbers j) (hv : Valid D env r j) : Read w q I'.base decl (φ t) j := by
  obtain ⟨m, g', h1, h2⟩ := C66_root hrank hφ h h' hunit hr
  rw [← h2] at hfree hplain
  exact C65_root_partial hM hw hq hG ho hg hok h1 hst hde hk hpath hfree hplain hR hj hn hv

/-! ## An example: every field is boxed -/

namespace Dg

/-- The source of a declaration of the examples for C64. -/
def sourceOf (id : String) : Decl Nat → Source Nat
  | .std (.option u) => .written ⟨id, "T", true, stdBody (.option u)⟩ true (some u)
  | .std x => .written ⟨id, "T", true, stdBody x⟩ false none
  | .derived c => .derived { container := c, schemaId := id, schemaName := "T", inline := true }

/-- The structs of `Rf.nested`. -/
def plain (n : Nat) : Source Nat := sourceOf (Nat.repr n) (Rd.decl Rf.nested n)

/-- `(true, n)` is `Box<T>` for the type `T` with the number `n`, and every field is boxed. -/
def boxed : Bool × Nat → Source (Bool × Nat)
  | (true, n) => .forwarded (false, n)
  | (false, n) => retypeSource (Prod.mk true) (plain n)

theorem plain_target (n : Nat) : (plain n).target = none := by
  match n with
  | 0 | 1 | 2 => rfl
  | 3 | 4 | 5 | 6 => decide +kernel
  | n + 7 => rfl

theorem plain_implements : Implements plain (Rd.types Rf.nested) Rd.info where
  made n := by
    match n with
    | 0 | 1 | 2 => exact ⟨rfl, rfl, rfl⟩
    | 3 | 4 | 5 | 6 => exact ⟨rfl, rfl, rfl⟩
    | n + 7 =>
      exact ⟨rfl, by simp [Rd.info], by simp [Rd.info]⟩
  inline n := rfl

theorem retype_unboxed (n : Nat) : retypeSource Prod.snd (retypeSource (Prod.mk true) (plain n)) = plain n := by
  have hp : ∀ p : Prog Nat, (p.rename (Prod.mk true)).rename (Prod.snd : Bool × Nat → Nat) = p := by
    intro p
    induction p <;> simp_all [Prog.rename]
  match n with
  | 0 => rfl
  | 1 => rfl
  | 2 => simp only [plain, sourceOf, Rd.decl, retypeSource, hp]; rfl
  | 3 => rfl
  | 4 => rfl
  | 5 => rfl
  | 6 => rfl
  | n + 7 => rfl

/-- The rank of a type: boxes are above the types inside, and `Option<u32>` is above `u32`. -/
def boxRank : Bool × Nat → Nat
  | (b, n) => (if n = 2 then 2 else 0) + if b then 1 else 0

theorem boxed_ranked (t u : Bool × Nat) (h : Asks boxed t u) : boxRank u < boxRank t := by
  obtain ⟨b, n⟩ := t
  rcases h with h | ⟨d, o, h⟩
  · cases b with
    | true => cases h; simp [boxRank]
    | false =>
      have h : (retypeSource (Prod.mk true) (plain n)).target = some u := h
      rw [retype_target, plain_target] at h
      cases h
  · cases b with
    | true => cases h
    | false =>
      match n with
      | 0 | 1 => cases h
      | 2 => cases h; decide
      | 3 | 4 | 5 | 6 => cases h
      | n + 7 => cases h

theorem boxed_unwraps : Unwraps boxed Prod.snd plain := by
  rintro ⟨b, n⟩
  cases b with
  | true => exact .inr ⟨(false, n), rfl, rfl⟩
  | false => exact .inl (retype_unboxed n).symm

/-- The program with boxes everywhere: its implementations exist, and the schema of the box of the struct accepts
exactly what serde reads for the struct. -/
theorem boxed_exact : ∃ Γ I, Implements boxed Γ I ∧ ∃ r env n, (∃ g, rootSchemaFor Γ (run Γ n) (true, 3)
    (Gen.new Settings.draft2020) = some (r, g)) ∧ Modern draft2020 env ∧ Resolves draft2020 env r ∧
    ∀ j, j.WF → SmallNumbers j →
      (Valid draft2020 env r j ↔ Read 64 {} Rd.info.base (Rd.decl Rf.nested) 3 j) := by
  obtain ⟨Γ, I, h, hu⟩ := implements_exists boxed boxRank boxed_ranked (true, 0)
  have hunit : Rd.info.unit = Prod.snd I.unit := by rw [hu]; rfl
  obtain ⟨⟨r, g'⟩, hr', hr, hd⟩ := Rf.run_of (Γ := Rd.types Rf.nested) (t := 3) (by decide +kernel)
  obtain ⟨n, g, hg, hgd⟩ := (C66 boxed_ranked boxed_unwraps h plain_implements hunit Settings.draft2020 (true, 3) r
    g'.defs).1.2 ⟨_, _, hr', rfl⟩
  rw [hd] at hgd
  obtain ⟨f, hf⟩ := resolves_plain (D := draft2020) (env := inputEnv) hr
  have hopt := Rd.noOptions_derived (cs := [Rf.struct_ [Rd.member "a" 1, Rf.flat 4, Rf.flat 5],
    Rf.struct_ [Rd.member "x" 1, { (Rd.member "y" 1) with hasDefault := true }],
    Rf.struct_ [Rf.flat 6, Rd.member "z" 1], Rf.struct_ [Rd.member "w" 1]])
  refine ⟨Γ, I, h, r, _, n, ⟨g, hg⟩, modern_inputEnv f, hf, fun j hj hn => ⟨fun hv => ?_, fun hr => ?_⟩⟩
  · exact C65_wrapped_partial (k := "$defs") boxed_ranked boxed_unwraps h plain_implements hunit (modern_inputEnv f)
      (by decide) documented (Rd.declared _) (Rd.options hopt) Rf.nested_grounded
      (fun t => Rf.nested_readable t true _) hg rfl rfl (.inl rfl) rfl (fun h => absurd hgd h)
      (fun _ _ h => by rw [hgd] at h; cases h) hf hj hn hv
  · exact C64_wrapped_partial (k := "$defs") boxed_ranked boxed_unwraps h plain_implements hunit (modern_inputEnv f)
      (input_inputEnv f) documented (Rd.declared _) (Rd.options hopt)
      (fun t => Rf.nested_readable t false _) hg rfl rfl (.inl rfl) rfl (fun h => absurd hgd h)
      (fun _ _ h => by rw [hgd] at h; cases h) hf hj
      (read_obeys (Rd.unvalidated (by rfl)) hr)

end Dg

end Verif
