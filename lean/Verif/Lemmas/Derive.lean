import Verif.Derive
import Verif.Lemmas.Generator
import Verif.Props.Validation

/-!
# Results of the programs of derived implementations
-/

namespace Verif
open Spec

/-- What the generator may answer to a program. -/
structure Answers (τ : Type) where
  sub : τ → Json → Prop
  direct : τ → Json → Prop
  root : τ → Json → Prop
  settings : Settings
  defs : List (String × Json) → Prop

variable {τ : Type}

/-- The program can return `r`, if it is given answers as in `A`. -/
def Returns (A : Answers τ) : Prog τ → Json → Prop
  | .ret s, r => r = s
  | .sub t f, r => ∃ s, A.sub t s ∧ Returns A (f s) r
  | .direct t f, r => ∃ s, A.direct t s ∧ Returns A (f s) r
  | .root t f, r => ∃ s, A.root t s ∧ Returns A (f s) r
  | .askSettings f, r => Returns A (f A.settings) r
  | .askDefs f, r => ∃ d, A.defs d ∧ Returns A (f d) r

theorem res_bind {A : Answers τ} {p : Prog τ} {k : Json → Prog τ} {r : Json} :
    Returns A (p.bind k) r ↔ ∃ s, Returns A p s ∧ Returns A (k s) r := by
  induction p with
  | ret s => simp [Prog.bind, Returns]
  | askSettings f ih => simp only [Prog.bind, Returns, ih]
  | askDefs f ih =>
    simp only [Prog.bind, Returns, ih]
    constructor
    · rintro ⟨s, hs, s', h1, h2⟩; exact ⟨s', ⟨s, hs, h1⟩, h2⟩
    · rintro ⟨s', ⟨s, hs, h1⟩, h2⟩; exact ⟨s, hs, s', h1, h2⟩
  | _ t f ih =>
    simp only [Prog.bind, Returns, ih]
    constructor
    · rintro ⟨s, hs, s', h1, h2⟩; exact ⟨s', ⟨s, hs, h1⟩, h2⟩
    · rintro ⟨s', ⟨s, hs, h1⟩, h2⟩; exact ⟨s, hs, s', h1, h2⟩

theorem res_map {A : Answers τ} {p : Prog τ} {f : Json → Json} {r : Json} :
    Returns A (p.map f) r ↔ ∃ s, Returns A p s ∧ r = f s := by
  unfold Prog.map; rw [res_bind]; rfl

/-- The included programs return the schemas of the list, in order. -/
theorem res_collect {A : Answers τ} (l : List ((Contract → Bool) × Prog τ)) (k : List Json → Prog τ) (r : Json) :
    Returns A (collect l k) r ↔
      ∃ rs, List.Forall₂ (fun e s => Returns A e.2 s) (l.filter fun e => e.1 A.settings.contract) rs ∧
        Returns A (k rs) r := by
  induction l generalizing k with
  | nil =>
    simp only [collect, List.filter_nil]
    constructor
    · intro h; exact ⟨[], .nil, h⟩
    · rintro ⟨rs, h, h'⟩; cases h; exact h'
  | cons e l ih =>
    obtain ⟨inc, p⟩ := e
    simp only [collect, Returns]
    by_cases hi : inc A.settings.contract = true
    · rw [if_pos hi, res_bind, List.filter_cons_of_pos (by simpa using hi)]
      constructor
      · rintro ⟨s, hs, h⟩
        obtain ⟨rs, h1, h2⟩ := (ih _).1 h
        exact ⟨s :: rs, .cons hs h1, h2⟩
      · rintro ⟨rs, h1, h2⟩
        cases h1 with
        | cons hs h1 => exact ⟨_, hs, (ih _).2 ⟨_, h1, h2⟩⟩
    · rw [if_neg hi, List.filter_cons_of_neg (by simpa using hi)]
      exact ih _

/-! ## Answers of the generator -/

/-- What the generator answers in runs with settings `st`. -/
def runAnswers (Γ : τ → TypeDef τ) (st : Settings) : Answers τ where
  sub t s := ∃ n g g', Inv g ∧ g.settings = st ∧ subschemaFor Γ (run Γ n) t g = some (s, g')
  direct t s := ∃ n g g', Inv g ∧ g.settings = st ∧ run Γ n t g = some (s, g')
  root t s := ∃ n g g', Inv g ∧ g.settings = st ∧ rootSchemaFor Γ (run Γ n) t g = some (s, g')
  settings := st
  defs _ := True

theorem exec_returns {Γ : τ → TypeDef τ} {n : Nat} (p : Prog τ) : ∀ {g g' : Gen τ} {s : Json}, Inv g →
    exec Γ (run Γ n) p g = some (s, g') → Returns (runAnswers Γ g.settings) p s := by
  induction p with
  | ret s => intro g g' s' _ h; cases h; rfl
  | sub t f ih =>
    intro g g' s' hg h
    obtain ⟨⟨s1, g1⟩, h1, h2⟩ := Option.bind_eq_some_iff.1 h
    obtain ⟨_, hp⟩ := subschemaFor_post (run_good Γ n) hg h1
    have := ih s1 hp.inv h2
    rw [hp.settings] at this
    exact ⟨s1, ⟨n, g, g1, hg, rfl, h1⟩, this⟩
  | direct t f ih =>
    intro g g' s' hg h
    obtain ⟨⟨s1, g1⟩, h1, h2⟩ := Option.bind_eq_some_iff.1 h
    obtain ⟨_, hp⟩ := (run_good Γ n _ _ _ _ hg h1).2
    have := ih s1 hp.inv h2
    rw [hp.settings] at this
    exact ⟨s1, ⟨n, g, g1, hg, rfl, h1⟩, this⟩
  | root t f ih =>
    intro g g' s' hg h
    obtain ⟨⟨s1, g1⟩, h1, h2⟩ := Option.bind_eq_some_iff.1 h
    obtain ⟨_, hp⟩ := rootSchemaFor_post (run_good Γ n) hg h1
    have := ih s1 hp.inv h2
    rw [hp.settings] at this
    exact ⟨s1, ⟨n, g, g1, hg, rfl, h1⟩, this⟩
  | askSettings f ih => intro g g' s' hg h; exact ih _ hg h
  | askDefs f ih => intro g g' s' hg h; exact ⟨g.defs, trivial, ih _ hg h⟩

/-- A run of `json_schema` returns a result of its body. -/
theorem run_returns {Γ : τ → TypeDef τ} {n : Nat} {t : τ} {g g' : Gen τ} {s : Json} (hg : Inv g)
    (h : run Γ n t g = some (s, g')) : Returns (runAnswers Γ g.settings) (Γ t).body s := by
  cases n with
  | zero => cases h
  | succ n => exact exec_returns _ hg h

/-! ## Schemas whose entries are sorted -/

/-- A schema; if it is an object, its entries are sorted by key (as in a `Map`). -/
inductive Sch : Json → Prop
  | obj {m} : Obj.Sorted m → Sch (.obj m)
  | bool (b) : Sch (.bool b)

theorem Sch.isSchema {s : Json} (h : Sch s) : IsSchema s := by
  cases h with
  | obj _ => exact .obj _
  | bool b => exact .bool b

theorem Sch.ensureObject {s : Json} (h : Sch s) : ∃ m, Schema.ensureObject s = some m ∧ Obj.Sorted m := by
  cases h with
  | obj h => exact ⟨_, rfl, h⟩
  | bool b => cases b with
    | true => exact ⟨[], rfl, List.Pairwise.nil⟩
    | false => exact ⟨_, rfl, List.pairwise_singleton _ _⟩

theorem Sch.put {s : Json} (h : Sch s) (k : String) (v : Json) : Sch (Schema.put s k v) := by
  obtain ⟨m, hm, hs⟩ := h.ensureObject
  unfold Schema.put; rw [hm]
  exact .obj (Obj.sorted_insert hs k v)

section
variable {D : Dialect} {env : Env} {i : Json}

theorem valid_emptySchema : Valid D env (.obj []) i := by
  rw [valid_entries (.inr rfl) (by simp [Obj.keys])]
  simp

theorem valid_notTrue : ¬ Valid D env (.obj [("not", .obj [])]) i := by
  rw [valid_entries (.inr rfl) (by simp [Obj.keys])]
  simp only [List.mem_singleton, forall_eq]
  exact fun h => h rfl valid_emptySchema

/-- Annotations do not matter, even beside a `$ref`. -/
theorem valid_put_annotation {s : Json} (h : Sch s) {k : String} (hk : k ∈ annotations) (v : Json) :
    Valid D env (Schema.put s k v) i ↔ Valid D env s i := by
  have hkr : k ≠ "$ref" := fun e => absurd (e ▸ hk) (by decide)
  cases h with
  | bool b =>
    cases b with
    | true =>
      show Valid D env (.obj (Obj.insert [] k v)) i ↔ _
      rw [valid_insert_annotation hk List.Pairwise.nil (.inr rfl)]
      exact ⟨fun _ => rfl, fun _ => valid_emptySchema⟩
    | false =>
      show Valid D env (.obj (Obj.insert [("not", .obj [])] k v)) i ↔ _
      rw [valid_insert_annotation hk (List.pairwise_singleton _ _) (.inr rfl)]
      exact ⟨fun h => absurd h valid_notTrue, fun h => by cases h⟩
  | @obj m hm =>
    by_cases hr : D.refSiblings = true ∨ Obj.get m "$ref" = none
    · exact valid_insert_annotation hk hm hr v
    · show Valid D env (.obj (Obj.insert m k v)) i ↔ _
      have hg : Obj.get (Obj.insert m k v) "$ref" = Obj.get m "$ref" := Obj.get_insert_ne _ _ hkr
      have hs : D.refSiblings = false := by simpa using fun h => hr (.inl h)
      have hrr : refResult env (viewOf D env (Obj.insert m k v)) i = refResult env (viewOf D env m) i := by
        unfold refResult
        rw [raw_viewOf D env _ (by decide), raw_viewOf D env _ (by decide), hg]
      by_cases hstr : ∃ r, Obj.get m "$ref" = some (.str r)
      · obtain ⟨r, hr'⟩ := hstr
        have h1 : ∃ x, refResult env (viewOf D env m) i = some x := by
          unfold refResult
          rw [raw_viewOf D env _ (by decide), hr']
          exact ⟨_, rfl⟩
        obtain ⟨x, hx⟩ := h1
        unfold Valid
        rw [den_obj, den_obj]
        unfold combine
        rw [hs, hrr, hx]
      · have hno : ∀ r, Obj.get m "$ref" ≠ some (.str r) := fun r h => hstr ⟨r, h⟩
        have hctx : ∀ k ∈ annotations, ∀ c ∈ contextKeys, c ≠ k := by decide
        have hcongr : ∀ c ∈ contextKeys, Obj.get (Obj.insert m k v) c = Obj.get m c :=
          fun c hc => Obj.get_insert_ne _ _ (Ne.symm (hctx k hk c hc))
        rw [valid_objOk_noRef (by rw [hg]; exact hno), valid_objOk_noRef hno,
          objOk_entries (Obj.sorted_nodup (Obj.sorted_insert hm k v)), objOk_entries (Obj.sorted_nodup hm)]
        constructor
        · intro h e he
          by_cases hek : e.1 = k
          · rw [hek]; exact entryOk_annotation hk _
          · rw [← entryOk_congr hcongr]
            refine h e (Obj.get_mem ?_)
            rw [Obj.get_insert_ne _ _ (Ne.symm hek)]
            exact Obj.get_of_mem_sorted hm he
        · intro h e he
          by_cases hek : e.1 = k
          · rw [hek]; exact entryOk_annotation hk _
          · rw [entryOk_congr hcongr]
            have := Obj.get_of_mem_sorted (Obj.sorted_insert hm k v) he
            rw [Obj.get_insert_ne _ _ (Ne.symm hek)] at this
            exact h e (Obj.get_mem this)

end

/-! ## Attributes that only annotate -/

/-- The attributes only set annotations. -/
def Harmless (a : CommonAttrs) : Prop := a.transforms = [] ∧ ∀ e ∈ a.extensions, e.1 ∈ annotations

/-- The mutator sets an annotation, or does nothing. -/
def Annotates (f : Json → Json) : Prop :=
  (∃ k ∈ annotations, ∃ v, ∀ s, f s = Schema.put s k v) ∨ ∀ s, f s = s

theorem annotates_metadata {k : String} (hk : k ∈ annotations) (v : String) :
    Annotates fun s => insertMetadataIfNonempty s k v := by
  by_cases h : v = ""
  · right; intro s; simp [insertMetadataIfNonempty, h]
  · left; exact ⟨k, hk, .str v, fun s => by simp [insertMetadataIfNonempty, h]⟩

theorem Harmless.annotates {a : CommonAttrs} (h : Harmless a) : ∀ f ∈ a.mutators, Annotates f := by
  intro f hf
  unfold CommonAttrs.mutators at hf
  rw [h.1, List.append_nil] at hf
  simp only [List.mem_append, List.mem_map] at hf
  rcases hf with (((hf | hf) | hf) | hf) | ⟨e, he, rfl⟩
  · cases ht : a.effectiveTitle with
    | none => simp [ht] at hf
    | some t =>
      simp only [ht, Option.elim_some, List.mem_singleton] at hf
      subst hf; exact annotates_metadata (by decide) t
  · cases ht : a.effectiveDescription with
    | none => simp [ht] at hf
    | some t =>
      simp only [ht, Option.elim_some, List.mem_singleton] at hf
      subst hf; exact annotates_metadata (by decide) t
  · split at hf
    · simp only [List.mem_singleton] at hf
      subst hf; exact .inl ⟨_, by decide, _, fun _ => rfl⟩
    · cases hf
  · split at hf
    · cases hf
    · simp only [List.mem_singleton] at hf
      subst hf; exact .inl ⟨_, by decide, _, fun _ => rfl⟩
  · exact .inl ⟨e.1, h.2 e he, e.2, fun _ => rfl⟩

theorem runMutators_cons (f : Json → Json) (l : List (Json → Json)) (s : Json) :
    runMutators (f :: l) s = runMutators l (f s) := rfl

theorem annotates_sch {f : Json → Json} (hf : Annotates f) {s : Json} (h : Sch s) : Sch (f s) := by
  rcases hf with ⟨k, _, v, hf⟩ | hf
  · rw [hf]; exact h.put k v
  · rw [hf]; exact h

theorem runMutators_sch {l : List (Json → Json)} (hl : ∀ f ∈ l, Annotates f) {s : Json} (h : Sch s) :
    Sch (runMutators l s) := by
  induction l generalizing s with
  | nil => exact h
  | cons f l ih =>
    rw [runMutators_cons]
    exact ih (fun g hg => hl g (List.mem_cons_of_mem _ hg)) (annotates_sch (hl f (List.mem_cons_self ..)) h)

theorem runMutators_valid {D : Dialect} {env : Env} {i : Json} {l : List (Json → Json)}
    (hl : ∀ f ∈ l, Annotates f) {s : Json} (h : Sch s) :
    Valid D env (runMutators l s) i ↔ Valid D env s i := by
  induction l generalizing s with
  | nil => rfl
  | cons f l ih =>
    rw [runMutators_cons,
      ih (fun g hg => hl g (List.mem_cons_of_mem _ hg)) (annotates_sch (hl f (List.mem_cons_self ..)) h)]
    rcases hl f (List.mem_cons_self ..) with ⟨k, hk, v, hf⟩ | hf
    · rw [hf, valid_put_annotation h hk]
    · rw [hf]

/-- Only annotations are changed. -/
theorem runMutators_get {l : List (Json → Json)} (hl : ∀ f ∈ l, Annotates f) {m : List (String × Json)}
    (hm : Obj.Sorted m) : ∃ m', runMutators l (.obj m) = .obj m' ∧ Obj.Sorted m' ∧
      ∀ k, k ∉ annotations → Obj.get m' k = Obj.get m k := by
  induction l generalizing m with
  | nil => exact ⟨m, rfl, hm, fun _ _ => rfl⟩
  | cons f l ih =>
    rw [runMutators_cons]
    have hl' := fun g hg => hl g (List.mem_cons_of_mem f hg)
    rcases hl f (List.mem_cons_self ..) with ⟨k, hk, v, hf⟩ | hf
    · rw [hf]
      obtain ⟨m', h1, h2, h3⟩ := ih hl' (Obj.sorted_insert hm k v)
      refine ⟨m', h1, h2, fun q hq => ?_⟩
      rw [h3 q hq, Obj.get_insert_ne]
      rintro rfl; exact hq hk
    · rw [hf]; exact ih hl' hm

/-! ## Schemas of objects with named members -/

/-- `properties` is `props`, or absent if there are none. -/
def PropsAre (m props : List (String × Json)) : Prop :=
  (Obj.get m "properties" = none ∧ props = []) ∨ Obj.get m "properties" = some (.obj props)

/-- `required` is `req`, or absent if there are none. -/
def ReqAre (m : List (String × Json)) (req : List String) : Prop :=
  (Obj.get m "required" = none ∧ req = []) ∨ Obj.get m "required" = some (.arr (req.map .str))

/-- The schema says of an object which members it has, and nothing else. -/
structure Shape (m props : List (String × Json)) (req : List String) (deny : Bool) : Prop where
  sorted : Obj.Sorted m
  type : Obj.get m "type" = some (.str "object")
  props : PropsAre m props
  req : ReqAre m req
  deny : Obj.get m "additionalProperties" = if deny then some (.bool false) else none
  other : ∀ k, k ∉ annotations → k ∉ ["type", "properties", "required", "additionalProperties"] →
    Obj.get m k = none

/-- The instance is an object with the required members, whose members are valid against the schemas for
their names; if `deny`, it has no other members. -/
def Spec.Conforms (D : Dialect) (env : Env) (props : List (String × Json)) (req : List String) (deny : Bool)
    (i : Json) : Prop :=
  ∃ o, i = .obj o ∧ (∀ n ∈ req, ∃ x, Obj.get o n = some x) ∧
    (∀ e ∈ o, ∀ s, Obj.get props e.1 = some s → Valid D env s e.2) ∧
    (deny = true → ∀ e ∈ o, ∃ s, Obj.get props e.1 = some s)

theorem PropsAre.memb {m props : List (String × Json)} (h : PropsAre m props) :
    Verif.memb m "properties" = props := by
  rcases h with ⟨h, rfl⟩ | h
  · exact memb_none m h
  · exact memb_some m h

theorem Shape.valid {D : Dialect} {env : Env} {i : Json} {m props : List (String × Json)} {req : List String}
    {deny : Bool} (h : Shape m props req deny) :
    Valid D env (.obj m) i ↔ Conforms D env props req deny i := by
  have hnr : Obj.get m "$ref" = none := h.other _ (by decide) (by decide)
  have hnull : Obj.get m "nullable" = none := h.other _ (by decide) (by decide)
  have hpat : Verif.memb m "patternProperties" = [] := memb_none m (h.other "patternProperties" (by decide) (by decide))
  have hnamed : ∀ k, Named env m k ↔ ∃ s, Obj.get props k = some s := by
    intro k
    unfold Named
    rw [h.props.memb, hpat]
    simp only [List.not_mem_nil, false_and, exists_const, or_false]
    unfold Obj.has
    rw [Option.isSome_iff_exists]
  rw [valid_get (.inr hnr) h.sorted]
  constructor
  · intro hv
    have ht := hv _ _ h.type
    rw [entryOk_type hnull, typeMatch_object] at ht
    obtain ⟨o, rfl⟩ := ht
    refine ⟨o, rfl, ?_, ?_, ?_⟩
    · rcases h.req with ⟨_, rfl⟩ | hr
      · simp
      · have := hv _ _ hr
        rw [entryOk_required] at this
        exact this o rfl
    · rcases h.props with ⟨_, rfl⟩ | hp
      · simp
      · have := hv _ _ hp
        rw [entryOk_properties] at this
        exact this
    · rintro rfl e he
      have := hv _ _ h.deny
      by_contra hc
      have hn : ¬ Named env m e.1 := by rw [hnamed]; exact hc
      exact Bool.false_ne_true (this e he hn)
  · rintro ⟨o, rfl, hreq, hprops, hdeny⟩ k v hk
    by_cases ha : k ∈ annotations
    · exact entryOk_annotation ha v
    by_cases hk' : k ∈ ["type", "properties", "required", "additionalProperties"]
    · simp only [List.mem_cons, List.not_mem_nil, or_false] at hk'
      rcases hk' with rfl | rfl | rfl | rfl
      · rw [h.type] at hk; cases hk
        rw [entryOk_type hnull, typeMatch_object]; exact ⟨o, rfl⟩
      · rcases h.props with ⟨hp, _⟩ | hp
        · rw [hp] at hk; cases hk
        · rw [hp] at hk; cases hk
          rw [entryOk_properties]; exact hprops
      · rcases h.req with ⟨hp, _⟩ | hp
        · rw [hp] at hk; cases hk
        · rw [hp] at hk; cases hk
          rw [entryOk_required]; rintro _ ⟨⟩; exact hreq
      · rw [h.deny] at hk
        cases deny with
        | false => cases hk
        | true =>
          cases hk
          intro e he hn
          exact absurd ((hnamed e.1).2 (hdeny rfl e he)) hn
    · rw [h.other k ha hk'] at hk; cases hk

theorem Shape.annotate {m props : List (String × Json)} {req : List String} {deny : Bool}
    (h : Shape m props req deny) {l : List (Json → Json)} (hl : ∀ f ∈ l, Annotates f) :
    ∃ m', runMutators l (.obj m) = .obj m' ∧ Shape m' props req deny := by
  obtain ⟨m', h1, h2, h3⟩ := runMutators_get hl h.sorted
  refine ⟨m', h1, h2, ?_, ?_, ?_, ?_, ?_⟩
  · rw [h3 _ (by decide)]; exact h.type
  · unfold PropsAre; rw [h3 _ (by decide)]; exact h.props
  · unfold ReqAre; rw [h3 _ (by decide)]; exact h.req
  · rw [h3 _ (by decide)]; exact h.deny
  · intro k ha hk; rw [h3 k ha]; exact h.other k ha hk

theorem Shape.sch {m props : List (String × Json)} {req : List String} {deny : Bool}
    (h : Shape m props req deny) : Sch (.obj m) := .obj h.sorted

/-- The effect of `insert_object_property`. -/
theorem PropsAre.insert {m props : List (String × Json)} (h : PropsAre m props) (k : String) (v : Json) :
    Obj.entryOr m "properties" (.obj []) (insertMember k v) =
      Obj.insert m "properties" (.obj (Obj.insert props k v)) := by
  unfold Obj.entryOr
  rcases h with ⟨h, rfl⟩ | h <;> rw [h] <;> rfl

theorem ReqAre.push {m : List (String × Json)} {req : List String} (h : ReqAre m req) (k : String) :
    Obj.entryOr m "required" (.arr []) (pushElem (.str k)) =
      Obj.insert m "required" (.arr ((req ++ [k]).map .str)) := by
  unfold Obj.entryOr
  rcases h with ⟨h, rfl⟩ | h <;> rw [h] <;> simp [pushElem]

theorem ReqAre.unshift {m : List (String × Json)} {req : List String} (h : ReqAre m req) (k : String) :
    Obj.entryOr m "required" (.arr []) (unshiftElem (.str k)) =
      Obj.insert m "required" (.arr ((k :: req).map .str)) := by
  unfold Obj.entryOr
  rcases h with ⟨h, rfl⟩ | h <;> rw [h] <;> simp [unshiftElem]

theorem ReqAre.congr {m m' : List (String × Json)} {req : List String} (h : ReqAre m req)
    (hg : Obj.get m' "required" = Obj.get m "required") : ReqAre m' req := by
  unfold ReqAre; rw [hg]; exact h

theorem PropsAre.congr {m m' props : List (String × Json)} (h : PropsAre m props)
    (hg : Obj.get m' "properties" = Obj.get m "properties") : PropsAre m' props := by
  unfold PropsAre; rw [hg]; exact h

theorem insertObjectProperty_obj {m props : List (String × Json)} {req : List String} (hm : Obj.Sorted m)
    (hp : PropsAre m props) (hr : ReqAre m req) (key : String) (opt : Bool) (sub : Json) :
    ∃ m', insertObjectProperty (.obj m) key opt sub = .obj m' ∧ Obj.Sorted m' ∧
      PropsAre m' (Obj.insert props key sub) ∧ ReqAre m' (req ++ if opt then [] else [key]) ∧
      ∀ k, k ≠ "properties" → k ≠ "required" → Obj.get m' k = Obj.get m k := by
  unfold insertObjectProperty Schema.ensureObject
  simp only
  rw [hp.insert]
  have hr1 : ReqAre (Obj.insert m "properties" (.obj (Obj.insert props key sub))) req :=
    hr.congr (Obj.get_insert_ne _ _ (by decide))
  cases opt with
  | true =>
    rw [if_pos rfl]
    refine ⟨_, rfl, Obj.sorted_insert hm _ _, .inr (Obj.get_insert_self _ _ _), ?_, ?_⟩
    · simpa using hr1
    · intro k h1 _; rw [Obj.get_insert_ne _ _ (Ne.symm h1)]
  | false =>
    simp only [Bool.false_eq_true, if_false]
    rw [hr1.push]
    refine ⟨_, rfl, Obj.sorted_insert (Obj.sorted_insert hm _ _) _ _, ?_, .inr (Obj.get_insert_self _ _ _), ?_⟩
    · right
      rw [Obj.get_insert_ne _ _ (by decide), Obj.get_insert_self]
    · intro k h1 h2; rw [Obj.get_insert_ne _ _ (Ne.symm h2), Obj.get_insert_ne _ _ (Ne.symm h1)]

theorem Shape.insertProperty {m props : List (String × Json)} {req : List String} {deny : Bool}
    (h : Shape m props req deny) (key : String) (opt : Bool) (sub : Json) :
    ∃ m', insertObjectProperty (.obj m) key opt sub = .obj m' ∧
      Shape m' (Obj.insert props key sub) (req ++ if opt then [] else [key]) deny := by
  obtain ⟨m', h1, h2, h3, h4, h5⟩ := insertObjectProperty_obj h.sorted h.props h.req key opt sub
  refine ⟨m', h1, h2, ?_, h3, h4, ?_, ?_⟩
  · rw [h5 _ (by decide) (by decide)]; exact h.type
  · rw [h5 _ (by decide) (by decide)]; exact h.deny
  · intro k ha hk
    have h6 : k ≠ "properties" := by rintro rfl; exact hk (by decide)
    have h7 : k ≠ "required" := by rintro rfl; exact hk (by decide)
    rw [h5 k h6 h7]; exact h.other k ha hk

/-- A literal schema of an object. -/
theorem shape_mkObj {l props : List (String × Json)} {req : List String} {deny : Bool}
    (hn : (Obj.keys l).Nodup) (ht : Obj.get l "type" = some (.str "object")) (hp : PropsAre l props)
    (hr : ReqAre l req) (hd : Obj.get l "additionalProperties" = if deny then some (.bool false) else none)
    (ho : ∀ e ∈ l, e.1 ∈ ["type", "properties", "required", "additionalProperties"]) :
    Shape (Obj.ofList l) props req deny where
  sorted := Obj.sorted_ofList l
  type := by rw [get_ofList hn]; exact ht
  props := hp.congr (get_ofList hn _)
  req := hr.congr (get_ofList hn _)
  deny := by rw [get_ofList hn]; exact hd
  other := by
    intro k _ hk
    rw [get_ofList hn, Obj.get_eq_none]
    intro hc
    obtain ⟨e, he, rfl⟩ := List.mem_map.1 hc
    exact hk (ho e he)

end Verif
