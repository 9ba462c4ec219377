import Verif.Props.AcceptsPipelines
import Verif.Props.CrateTypes

/-!
# C83: names of the crate's types, examples, and `ArrayVec`
-/

namespace Verif
open Spec

namespace Spec

/-- The names of the types without params, as documented by the titles of their schemas. -/
def FixedTitle : List (Fixed × String) :=
  [(.string, "string"), (.bool, "boolean"), (.unit, "null"), (.f32, "float"), (.f64, "double"),
   (.int .i8, "int8"), (.int .i16, "int16"), (.int .i32, "int32"), (.int .i64, "int64"), (.int .i128, "int128"),
   (.int .isize, "int"), (.int .u8, "uint8"), (.int .u16, "uint16"), (.int .u32, "uint32"), (.int .u64, "uint64"),
   (.int .u128, "uint128"), (.int .usize, "uint"),
   (.nonZero .i8, "NonZeroI8"), (.nonZero .i16, "NonZeroI16"), (.nonZero .i32, "NonZeroI32"),
   (.nonZero .i64, "NonZeroI64"), (.nonZero .i128, "NonZeroI128"), (.nonZero .isize, "NonZeroIsize"),
   (.nonZero .u8, "NonZeroU8"), (.nonZero .u16, "NonZeroU16"), (.nonZero .u32, "NonZeroU32"),
   (.nonZero .u64, "NonZeroU64"), (.nonZero .u128, "NonZeroU128"), (.nonZero .usize, "NonZeroUsize"),
   (.ipv4, "ipv4"), (.ipv6, "ipv6"), (.ip, "ip"), (.char, "Character"), (.value, "AnyValue"), (.number, "Number"),
   (.duration, "Duration"), (.systemTime, "SystemTime"), (.osString, "OsString"), (.cString, "CString"),
   (.bytes, "Bytes"), (.decimal, "Decimal"), (.weekday, "Weekday"), (.timeDelta, "TimeDelta"),
   (.chronoDate, "NaiveDate"), (.chronoDateTime, "NaiveDateTime"), (.chronoTime, "NaiveTime"),
   (.chronoZoned, "DateTime"), (.jiffSignedDuration, "SignedDuration"), (.jiffSpan, "Span"),
   (.jiffTimestamp, "Timestamp"), (.jiffZoned, "Zoned"), (.jiffDate, "Date"), (.jiffTime, "Time"),
   (.jiffDateTime, "DateTime"), (.semver, "SemVer"), (.url, "Url"), (.uuid, "Uuid"),
   (.schema, "Schema")]

mutual
/-- The title of a type of the crate. -/
inductive Title : Ty → String → Prop
  | fixed {f s} : (f, s) ∈ FixedTitle → Title (.fixed f) s
  | option {t s} : Title t s → Title (.option t) ("Nullable_" ++ s)
  | seq {t s} : Title t s → Title (.seq t) ("Array_of_" ++ s)
  | set {t s} : Title t s → Title (.set t) ("Set_of_" ++ s)
  | emptyArray : Title .emptyArray "EmptyArray"
  | array {n t s} : Title t s → Title (.array n t) ("Array_size_" ++ Nat.repr n ++ "_of_" ++ s)
  | arrayVec {n t s} : Title t s → Title (.arrayVec n t) ("Array_up_to_size_" ++ Nat.repr n ++ "_of_" ++ s)
  | tuple {l s} : Titles l s → Title (.tuple l) ("Tuple_of_" ++ s)
  | textMap {t s} : Title t s → Title (.map (.fixed .string) t) ("Map_of_" ++ s)
  | map {k t a b} : k ≠ .fixed .string → Title k a → Title t b → Title (.map k t) ("Map_from_" ++ a ++ "_to_" ++ b)
  | result {t e a b} : Title t a → Title e b → Title (.result t e) ("Result_of_" ++ a ++ "_or_" ++ b)
  | bound {t s} : Title t s → Title (.bound t) ("Bound_of_" ++ s)
  | range {t s} : Title t s → Title (.range t) ("Range_of_" ++ s)
  | either {l r a b} : Title l a → Title r b → Title (.either l r) ("Either_" ++ a ++ "_or_" ++ b)
/-- The titles of the elements of a tuple. -/
inductive Titles : List Ty → String → Prop
  | one {t s} : Title t s → Titles [t] s
  | more {t u l a b} : Title t a → Titles (u :: l) b → Titles (t :: u :: l) (a ++ "_and_" ++ b)
end

end Spec

section
variable {P : Nat → IdDecl}

theorem title_fixed (f : Fixed) : (f, f.name) ∈ FixedTitle := by
  cases f with
  | int t => cases t <;> decide
  | nonZero t => cases t <;> decide
  | _ => decide

/-- Only texts have the id `string`. -/
theorem id_string {t : Ty} (hc : Crate true t) : Ty.id P t = "string".toList ↔ t = .fixed .string := by
  constructor
  · intro h
    cases t with
    | fixed f =>
      have h : f.id.toList = "string".toList := h
      cases f with
      | int t => cases t <;> exact absurd h (by decide)
      | nonZero t => cases t <;> exact absurd h (by decide)
      | string => rfl
      | _ => exact absurd h (by decide)
    | derived d cs l => exact hc.elim
    | map k v =>
      simp only [Ty.id] at h
      split at h <;> simp [Ty.fill] at h
    | _ => simp [Ty.id, Ty.fill] at h
  · rintro rfl; rfl

theorem fill_string (a : String) (x : List Char) (b : String) (y : List Char) (c : String) :
    String.ofList (Ty.fill a x b y c) = a ++ String.ofList x ++ b ++ String.ofList y ++ c := by
  apply String.toList_injective
  simp [Ty.fill, String.toList_append]

theorem title_of {t : Ty} {s s' : String} (h : Title t s) (e : s' = s) : Title t s' := e ▸ h

/-- C83: the names of the crate's types. -/
theorem C83_names (t : Ty) (hc : Crate true t) : Title t (Ty.typeDef P t).schemaName := by
  refine crate_induction (M := fun t => Crate true t → Title t (String.ofList (Ty.name P t))) ?_ ?_ ?_ ?_ ?_ ?_ ?_ ?_ ?_ ?_
    ?_ ?_ ?_ t hc hc
  case refine_1 =>
    intro f _
    exact title_of (.fixed (title_fixed f)) String.ofList_toList
  case refine_2 => exact fun _ => .emptyArray
  case refine_3 =>
    intro t ih hc
    exact title_of (.option (ih hc)) ((fill_string "Nullable_" _ "" [] "").trans (by simp))
  case refine_4 =>
    intro t ih hc
    exact title_of (.seq (ih hc)) ((fill_string "Array_of_" _ "" [] "").trans (by simp))
  case refine_5 =>
    intro t ih hc
    exact title_of (.set (ih hc)) ((fill_string "Set_of_" _ "" [] "").trans (by simp))
  case refine_6 =>
    intro n t ih hc
    exact title_of (.array (ih hc)) ((fill_string "Array_size_" _ "_of_" _ "").trans (by rw [Ty.num, String.ofList_toList]; simp))
  case refine_7 =>
    intro _ n t ih hc
    exact title_of (.arrayVec (ih hc.2)) ((fill_string "Array_up_to_size_" _ "_of_" _ "").trans (by rw [Ty.num, String.ofList_toList]; simp))
  case refine_8 =>
    intro l hne ih hc
    have : Titles l (String.ofList (Ty.join "_and_".toList (Ty.names P l))) := by
      replace hc := crateAll_mem hc.2
      induction l with
      | nil => exact absurd rfl hne
      | cons t l ih' =>
        cases l with
        | nil => exact .one (ih t (.head _) (hc t (.head _)))
        | cons u l =>
          have h1 := ih t (.head _) (hc t (.head _))
          have h2 := ih' (by simp) (fun t ht => ih t (.tail _ ht)) (fun t ht => hc t (.tail _ ht))
          have h3 := Titles.more h1 h2
          have e : String.ofList (Ty.join "_and_".toList (Ty.names P (t :: u :: l))) =
              String.ofList (Ty.name P t) ++ "_and_" ++ String.ofList (Ty.join "_and_".toList (Ty.names P (u :: l))) := by
            show String.ofList (Ty.name P t ++ "_and_".toList ++ Ty.join "_and_".toList (Ty.names P (u :: l))) = _
            apply String.toList_injective
            simp [String.toList_append]
          rw [e]
          exact h3
    exact title_of (.tuple this) ((fill_string "Tuple_of_" _ "" [] "").trans (by simp))
  case refine_9 =>
    intro a b iha ihb hc
    show Title (.map a b) (String.ofList (if Ty.id P a = "string".toList then Ty.fill "Map_of_" (Ty.name P b) "" [] ""
      else Ty.fill "Map_from_" (Ty.name P a) "_to_" (Ty.name P b) ""))
    by_cases h : a = .fixed .string
    · rw [if_pos ((id_string hc.1).2 h)]
      subst h
      exact title_of (.textMap (ihb hc.2)) ((fill_string "Map_of_" _ "" [] "").trans (by simp))
    · rw [if_neg fun e => h ((id_string hc.1).1 e)]
      exact title_of (.map h (iha hc.1) (ihb hc.2)) ((fill_string "Map_from_" _ "_to_" _ "").trans (by simp))
  case refine_10 =>
    intro a b iha ihb hc
    exact title_of (.result (iha hc.1) (ihb hc.2)) ((fill_string "Result_of_" _ "_or_" _ "").trans (by simp))
  case refine_11 =>
    intro t ih hc
    exact title_of (.bound (ih hc)) ((fill_string "Bound_of_" _ "" [] "").trans (by simp))
  case refine_12 =>
    intro t ih hc
    exact title_of (.range (ih hc)) ((fill_string "Range_of_" _ "" [] "").trans (by simp))
  case refine_13 =>
    intro a b iha ihb hc
    exact title_of (.either (iha hc.1) (ihb hc.2)) ((fill_string "Either_" _ "_or_" _ "").trans (by simp))

/-- C83: exactly these types of the crate have definitions of their own. -/
theorem C83_referenced (t : Ty) (hc : Crate true t) : (Ty.typeDef P t).inlineSchema = false ↔
    (∃ a b, t = .result a b) ∨ (∃ a, t = .bound a) ∨ (∃ a, t = .range a) ∨
    ∃ f ∈ [Fixed.duration, .systemTime, .osString, .cString, .bytes, .semver, .schema], t = .fixed f := by
  show Ty.inline P t = false ↔ _
  cases t with
  | fixed f =>
    simp only [Ty.inline, reduceCtorEq, exists_false, false_or, Ty.fixed.injEq, exists_eq_right']
    cases f with
    | int t => cases t <;> decide
    | nonZero t => cases t <;> decide
    | _ => decide
  | derived d cs l => exact hc.elim
  | _ => simp [Ty.inline]

end

/-- C83 for the default settings. -/
theorem C83_draft2020 {env : Env} (hrx : FixedRx env) {P : Nat → IdDecl} {n : Nat} {t : Ty} (hc : Crate false t)
    (c : Contract) {r : Json} {g' : Gen Ty} (h : rootSchemaFor (Ty.typeDef P) (run (Ty.typeDef P) n) t
      (Gen.new { Settings.draft2020 with contract := c }) = some (r, g'))
    (hR : Resolves draft2020 env r) {j : Json} (hj : j.WF) : Valid draft2020 env r j ↔ Doc c t j :=
  C83_partial hrx rfl rfl hc h rfl (.inl rfl)
    (show PathDenotes Settings.draft2020.definitionsPath _ by unfold PathDenotes; decide) hR hj

/-- C83: the schema of `ArrayVec<T, n>` itself accepts exactly the arrays of at most `n` elements. -/
theorem C83_arrayVec {D : Dialect} {env : Env} {P : Nat → IdDecl} {A : Answers Ty} {n : Nat} {t : Ty} {r : Json}
    (hA : ∀ s, A.sub t s → IsSchema s) (h : Returns A (Ty.body P (.arrayVec n t)) r) :
    ∃ s, A.sub t s ∧ ∀ i, Valid D env r i ↔ ∃ l, i = .arr l ∧ l.length ≤ n ∧ ∀ x ∈ l, Valid D env s x := by
  obtain ⟨s, hs, rfl⟩ := h
  refine ⟨s, hs, fun i => ?_⟩
  rw [valid_mkObj (by simp [Obj.keys]) (.inr rfl)]
  simp only [List.mem_cons, List.not_mem_nil, or_false, forall_eq_or_imp, forall_eq]
  rw [entryOk_type rfl, typeMatch_array, entryOk_items (hA s hs) rfl, entryOk_maxItems]
  constructor
  · rintro ⟨⟨l, rfl⟩, h1, h2⟩; exact ⟨l, rfl, h2 l rfl, h1⟩
  · rintro ⟨l, rfl, h1, h2⟩; exact ⟨⟨l, rfl⟩, h2, by rintro _ ⟨⟩; exact h1⟩

/-- C83: maps whose keys are of an unsigned `NonZero` type, which are not negative, accept keys with a minus sign: only
a `minimum` of 0 makes a pattern without a sign. -/
theorem C83_nonZeroKey {D : Dialect} {env : Env} (hrx : FixedRx env) (hr : D.refSiblings = true)
    (hp : D.prefixItems = true) (path : List Char) (defs : List (String × Json)) {vs x : Json} (hx : Valid D env vs x) :
    Valid D env (mapSchema path defs (nonZeroSchema .u8) vs) (.obj [("-7", x)]) ∧
    ¬ Valid D env (mapSchema path defs (intSchema .u8) vs) (.obj [("-7", x)]) := by
  have hM := (C76_assumed hrx hr hp).1
  refine ⟨(keys_nonZero (c := .serialize) hM .u8 path defs vs _).2 ⟨_, rfl, ?_⟩, fun h => ?_⟩
  · intro e he
    cases List.mem_singleton.1 he
    exact ⟨.inr ⟨['7'], show "-7".toList = _ by decide, by unfold Digits; decide⟩, hx⟩
  · obtain ⟨o, e, h⟩ := (keys_int (c := .serialize) hM .u8 path defs vs _).1 h
    cases e
    have := (h _ (.head _)).1.1 (by unfold Unsigned; decide)
    exact absurd (show Digits "-7".toList from this) (by unfold Digits; decide)

/-! ### `ArrayVec` -/

namespace CrateEx

/-- `(((), ()), ())` -/
def nested : Ty := .tuple [.tuple [.fixed .unit, .fixed .unit], .fixed .unit]
/-- `(((), (), ()),)` -/
def flat : Ty := .tuple [.tuple [.fixed .unit, .fixed .unit, .fixed .unit]]

/-- `(Bound<ArrayVec<(((), ()), ()), 1>>, Bound<ArrayVec<t, 1>>)` -/
def both (t : Ty) : Ty := .tuple [.bound (.arrayVec 1 nested), .bound (.arrayVec 1 t)]

def types : Ty → TypeDef Ty := Ty.typeDef IdEx.distinct

def schema : Json := ((rootSchemaFor types (run types 10) (both flat) (Gen.new Settings.draft2020)).map (·.1)).getD .null

theorem generates (t : Ty) (h : t ∈ [flat, nested]) :
    ∃ g', rootSchemaFor types (run types 10) (both t) (Gen.new Settings.draft2020) = some (schema, g') := by
  have : (rootSchemaFor types (run types 10) (both t) (Gen.new Settings.draft2020)).map (·.1) = some schema := by
    simp only [List.mem_cons, List.not_mem_nil, or_false] at h
    rcases h with rfl | rfl <;> decide +kernel
  obtain ⟨⟨s, g'⟩, h1, e⟩ := Option.map_eq_some_iff.1 this
  have e : s = schema := e
  exact ⟨g', by rw [h1, e]⟩

/-- References to one definition that has no references can be followed. -/
theorem resolves_one {D : Dialect} {env : Env} {doc d : Json} {ref : String} (hd : RefersTo doc ref d)
    (h : ∀ v ∈ valuesIn doc, ∀ r ∈ refsHere v, r = ref ∧ v ≠ d) : ∃ f, Resolves D (env.withRef f) doc := by
  refine resolves_exists' (fun v => if v = d then 0 else 1) 2 (fun v => by split <;> omega) fun v hv r hr v' hv' => ?_
  obtain ⟨rfl, hne⟩ := h v hv r hr
  rw [refersTo_unique hv' hd, if_pos rfl, if_neg hne]
  omega

open Classical in
/-- An environment in which the patterns mean what ECMA-262 says. -/
theorem fixedRx_exists : ∃ env : Env, FixedRx env := by
  refine ⟨⟨fun _ _ => R.pass, fun p s => decide (∃ r ∈ Pat.all, p = r.anchored ∧ r.whole.Finds s.toList),
    fun _ _ _ => true⟩, fun r hr s => ?_⟩
  simp only [decide_eq_true_eq]
  constructor
  · rintro ⟨r', hr', e, h⟩
    have : (Pat.all.map Rx.anchored).Nodup := by rw [C76_texts]; decide +kernel
    have : r = r' := List.inj_on_of_nodup_map this hr hr' e
    rw [this]; exact h
  · intro h
    exact ⟨r, hr, rfl, h⟩

theorem at_get {s v x : Json} {k : String} {p : List String} (h : Schema.get s k = some v) (h' : At v p x) :
    At s (k :: p) x := by
  cases s with
  | obj m => exact .member h h'
  | _ => cases h

/-- The definition called `name` of a document. -/
def definition (doc : Json) (name : String) : Json := ((Schema.get doc "$defs").bind fun d => Schema.get d name).getD .null

theorem resolves_named {doc : Json} {name : String} (hn : ∀ c ∈ name.toList, 0x10 ≤ c.toNat)
    (hd : (Schema.get doc "$defs").bind (fun d => Schema.get d name) = some (definition doc name))
    (h : ∀ v ∈ valuesIn doc, ∀ r ∈ refsHere v, r = refFor "/$defs".toList name ∧ v ≠ definition doc name) :
    ∃ env, FixedRx env ∧ Resolves draft2020 env doc := by
  obtain ⟨env, he⟩ := fixedRx_exists
  obtain ⟨ds, h1, h2⟩ := Option.bind_eq_some_iff.1 hd
  obtain ⟨f, hf⟩ := resolves_one (D := draft2020) (env := env) (refersTo_definition (segs := ["$defs"])
    (by unfold PathDenotes; decide) (by decide) hn (at_get h1 (at_get h2 (.here _)))) h
  exact ⟨env.withRef f, he, hf⟩

theorem resolves : ∃ env, FixedRx env ∧ Resolves draft2020 env schema :=
  resolves_named (name := "Bound_of_Array_up_to_size_1_of_Tuple_of_Tuple_of_null_and_null_and_null") (by decide)
    (by decide +kernel) (by decide +kernel)

/-- `(Unbounded, Included([((), (), ()),]))` -/
def document : Json := .arr [.str "Unbounded", .obj [("Included", .arr [.arr [.arr [.null, .null, .null]]])]]

theorem document_wf : document.WF := by
  have hn : ∀ x ∈ [Json.null, .null, .null], x.WF := by
    intro x hx
    simp only [List.mem_cons, List.not_mem_nil, or_false, or_self] at hx
    exact hx ▸ .null
  have h1 : (Json.arr [.arr [.arr [.null, .null, .null]]]).WF := by
    refine .arr _ fun x hx => ?_
    cases List.mem_singleton.1 hx
    refine .arr _ fun x hx => ?_
    cases List.mem_singleton.1 hx
    exact .arr _ hn
  refine .arr _ fun x hx => ?_
  simp only [List.mem_cons, List.not_mem_nil, or_false] at hx
  rcases hx with rfl | rfl
  · exact .str _
  · exact .obj _ (List.pairwise_singleton _ _) fun e he => by cases List.mem_singleton.1 he; exact h1

end CrateEx

/-- C83 fails for `ArrayVec`, whose id is its name: the names of `(((), ()), ())` and `(((), (), ()),)` are equal, so the
two bounds of `(Bound<ArrayVec<(((), ()), ()), 1>>, Bound<ArrayVec<(((), (), ()),), 1>>)` have one definition. -/
theorem C83_Full_false : ¬ C83_Full := by
  intro h
  obtain ⟨env, he, hR⟩ := CrateEx.resolves
  have key : ∀ t ∈ [CrateEx.flat, CrateEx.nested], (Valid draft2020 env CrateEx.schema CrateEx.document ↔
      Doc .deserialize (CrateEx.both t) CrateEx.document) := by
    intro t ht
    obtain ⟨g', hg⟩ := CrateEx.generates t ht
    refine h draft2020 env IdEx.distinct 10 _ _ _ _ he rfl rfl ?_ hg rfl (by unfold PathDenotes; decide) hR _
      CrateEx.document_wf
    simp only [List.mem_cons, List.not_mem_nil, or_false] at ht
    rcases ht with rfl | rfl <;> simp [CrateEx.both, CrateEx.flat, CrateEx.nested, Crate, CrateAll]
  have h1 := (key _ (.head _)).symm.trans (key _ (.tail _ (.head _)))
  have h2 : Doc .deserialize (CrateEx.both CrateEx.nested) CrateEx.document := h1.1 (by
    simp [CrateEx.both, CrateEx.flat, CrateEx.nested, CrateEx.document, Doc, Docs, OneOf, Member, ListDoc, FixedDoc,
      Obj.get_cons])
  simp [CrateEx.both, CrateEx.nested, CrateEx.document, Doc, Docs, OneOf, Member, ListDoc, FixedDoc,
    Obj.get_cons] at h2

/-! ### An example -/

namespace CrateEx

/-- `BTreeMap<u8, Option<Bound<char>>>` -/
def bounds : Ty := .map (.fixed (.int .u8)) (.option (.bound (.fixed .char)))

def boundsSchema : Json := ((rootSchemaFor types (run types 10) bounds (Gen.new Settings.draft2020)).map (·.1)).getD .null

theorem boundsGenerates : ∃ g', rootSchemaFor types (run types 10) bounds (Gen.new Settings.draft2020) =
    some (boundsSchema, g') := by
  have : (rootSchemaFor types (run types 10) bounds (Gen.new Settings.draft2020)).map (·.1) = some boundsSchema := by
    decide +kernel
  obtain ⟨⟨s, g'⟩, h1, e⟩ := Option.map_eq_some_iff.1 this
  have e : s = boundsSchema := e
  exact ⟨g', by rw [h1, e]⟩

/-- The schema has a definition, and it accepts `{"7": "Unbounded"}`, but not `{"-7": "Unbounded"}`. -/
example : ∃ env, FixedRx env ∧ Resolves draft2020 env boundsSchema ∧
    Valid draft2020 env boundsSchema (.obj [("7", .str "Unbounded")]) ∧
    ¬ Valid draft2020 env boundsSchema (.obj [("-7", .str "Unbounded")]) := by
  obtain ⟨env, he, hR⟩ := resolves_named (doc := boundsSchema) (name := "Bound_of_Character") (by decide)
    (by decide +kernel) (by decide +kernel)
  obtain ⟨g', hg⟩ := boundsGenerates
  have hw : ∀ k, (Json.obj [(k, .str "Unbounded")]).WF := fun k =>
    .obj _ (List.pairwise_singleton _ _) fun e he => by cases List.mem_singleton.1 he; exact .str _
  have hc : Crate false bounds := by simp [bounds, Crate]
  refine ⟨env, he, hR, (C83_draft2020 he hc .deserialize hg hR (hw _)).2 ?_,
    fun h => ?_⟩
  · simp [bounds, Doc, KeyText, Unsigned, Digits]
  · have := (C83_draft2020 he hc .deserialize hg hR (hw _)).1 h
    simp [bounds, Doc, KeyText, Unsigned, Digits] at this

end CrateEx

/-- C76: the numbers in a text that the schema of `semver::Version` accepts may have any number of digits, while those of
the type have 64 bits: `semver` does not read `18446744073709551616.0.0`. -/
theorem C76_semver_large {D : Dialect} {env : Env} (h : FixedRx env) {c : Char} {ds : List Char} (hc : IsDigit c)
    (h0 : c ≠ '0') (hd : ∀ x ∈ ds, IsDigit x) :
    Valid D env (mkObj [("type", .str "string"), ("pattern", .str Fixed.semverPattern)])
      (.str (String.ofList (c :: ds ++ ['.', '0', '.', '0']))) := by
  refine (C76_semver_schema h _).2 ⟨_, rfl, c :: ds, ['0'], ['0'], [], [], ?_, .inr ⟨c, ds, rfl, hc, h0, hd⟩, .inl rfl,
    .inl rfl, .inl rfl, .inl rfl⟩
  simp

/-- The hypotheses of `C76_semver_large` for `2 ^ 64`. -/
example : (∀ x ∈ "8446744073709551616".toList, IsDigit x) ∧ '1' ≠ '0' ∧
    (2 ^ 64).repr = "18446744073709551616" := by
  refine ⟨?_, by decide, by decide +kernel⟩
  simp only [IsDigit]
  decide

end Verif
