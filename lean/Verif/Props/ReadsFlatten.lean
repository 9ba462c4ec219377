import Verif.Props.ReadsPipelines

/-!
# C64 and C65 for structs with flattened fields: examples, and types whose schemas disagree with what serde reads
-/

namespace Verif
open Spec Rd

namespace Rf

/-- `()`, `u32`, `Option<S>` where `S` is the second of the given types, and these. -/
def decl (ds : List (Decl Nat)) : Nat → Decl Nat
  | 0 => .std (.simple "null")
  | 1 => .std (.int .u32)
  | 2 => .std (.option 4)
  | n + 3 => (ds[n]?).getD (.std (.simple "null"))

def info : TypeInfo Nat where
  unit := 0
  isOption t := t = 2
  base t := if t = 2 then 4 else t
  inline _ := true

/-- The types, all with `#[schemars(inline)]`. -/
def types (ds : List (Decl Nat)) (t : Nat) : TypeDef Nat := ⟨Nat.repr t, "T", true, bodyOf info (decl ds t)⟩

theorem declared (ds : List (Decl Nat)) : Declared (types ds) (decl ds) info where
  body _ := rfl
  ids t t' h := by
    have h : Nat.repr t = Nat.repr t' := h
    rw [repr_inj h]
  unit := rfl
  unitInline := rfl
  option t h := by
    obtain rfl : t = 2 := of_decide_eq_true h
    exact ⟨4, rfl, rfl⟩
  base t h := if_neg (of_decide_eq_false h)

theorem options {ds : List (Decl Nat)} (h : NoOptions ds) : OptionsKnown (decl ds) info := by
  intro t u ht
  match t with
  | 0 => cases ht
  | 1 => cases ht
  | 2 => rfl
  | n + 3 =>
    exfalso
    have ht : (ds[n]?).getD (.std (.simple "null")) = .std (.option u) := ht
    cases hd : ds[n]? with
    | none => rw [hd] at ht; cases ht
    | some d => rw [hd] at ht; exact h d (List.mem_of_getElem? hd) u ht

theorem unvalidated {ds : List (Decl Nat)} (h : Bare ds) (t : Nat) :
    ∀ f ∈ declFields (decl ds t), f.validation = .noAttrs := by
  match t with
  | 0 => simp [decl, declFields]
  | 1 => simp [decl, declFields]
  | 2 => simp [decl, declFields]
  | n + 3 => exact bare_decl h n

/-- `#[serde(flatten)] f: …`. -/
def flat (t : Nat) : Field Nat := { member "f" t with flatten := true }

/-- A struct. -/
def struct_ (fs : List (Field Nat)) (deny : Bool := false) : Container Nat :=
  { data := .struct (.struct fs), denyUnknownFields := deny }

/-- `struct T { #[serde(flatten)] f: Option<S> }` with `struct S { x: u32 }`. -/
def optional : List (Decl Nat) := [struct_ [flat 2], struct_ [member "x" 1]].map .derived

/-- `struct T { #[serde(flatten)] f: E }` with `enum E { A(u32), B(u32) }`. -/
def flatEnum : List (Decl Nat) := [struct_ [flat 4], { data := .enum .external [variant "A" (.newtype (member "0" 1)),
  variant "B" (.newtype (member "0" 1))] }].map .derived

/-- `#[serde(deny_unknown_fields)] struct T { #[serde(flatten)] f: R }` with `struct R { #[serde(flatten)] f: S }`,
`struct S { x: u32 }`. -/
def denyNested : List (Decl Nat) := [struct_ [flat 4] true, struct_ [flat 5], struct_ [member "x" 1]].map .derived

/-- `struct T { #[serde(flatten)] f: R }` with `#[serde(deny_unknown_fields)] struct R { #[serde(flatten)] f: S }`,
`struct S { x: u32 }`. -/
def nestedDeny : List (Decl Nat) := [struct_ [flat 4], struct_ [flat 5] true, struct_ [member "x" 1]].map .derived

/-- `struct T { x: u32, #[serde(flatten)] f: S }` with `struct S { x: u32 }`. -/
def sameName : List (Decl Nat) := [struct_ [member "x" 1, flat 4], struct_ [member "x" 1]].map .derived

/-- `struct T { #[serde(flatten)] f: Option<HashMap<String, u32>> }`. -/
def optionalMap : List (Decl Nat) := [.derived (struct_ [flat 2]), .std (.map 5 1), .std (.simple "string")]

/-- `struct T { #[serde(flatten)] f: HashMap<String, E> }` with `enum E {}`. -/
def neverMap : List (Decl Nat) :=
  [.derived (struct_ [flat 4]), .std (.map 5 6), .std (.simple "string"), .derived { data := .enum .external [] }]

/-- `struct T { #[serde(flatten)] f: HashMap<String, String>, #[serde(flatten)] f: S }` with `struct S { x: u32 }`. -/
def mapFirst : List (Decl Nat) :=
  [.derived (struct_ [flat 4, flat 6]), .std (.map 5 5), .std (.simple "string"), .derived (struct_ [member "x" 1])]

/-- The root schema of the struct with the member `x`, required this often. -/
def rootX (extra : List (String × Json)) (req : List (String × Json)) : Json :=
  root (extra ++ ("properties", .obj [("x", Ex.u32Schema)]) :: req ++ [("title", .str "T"), ("type", .str "object")])

/-- What is read for the flattened field of a struct that has only this one. -/
theorem read_flat {q : Quirks Nat} {R : Nat → Json → Prop} {base : Nat → Nat} {dl : Nat → Decl Nat} {t : Nat}
    {o left : List (String × Json)} (ht : ∀ u, dl t ≠ .std (.option u)) (hall : share q dl (base t) = .all)
    (h : ReadFlattened q R base dl [flat t] o left) :
    (R (base t) (.obj o) ∨ NullType dl (base t)) ∧ left = o := by
  have hseen : seen q dl (base t) o = o := by unfold seen wants; rw [hall]
  have hleave : leave q dl (base t) o = o := by unfold leave wants; rw [hall]
  cases h with
  | pass h _ => rcases h with h | h <;> cases h
  | part _ _ h1 h2 =>
    have h1 : R (base t) (.obj (seen q dl (base t) o)) ∨ NullType dl (base t) := h1
    have h2 : ReadFlattened q R base dl [] (leave q dl (base t) o) left := h2
    rw [hseen] at h1
    rw [hleave] at h2
    cases h2
    exact ⟨h1, rfl⟩
  | one _ _ h => rw [show (flat t).ty = t from rfl, hall] at h; cases h
  | none _ _ _ h => exact absurd h (ht _)

theorem notNull_struct {dl : Nat → Decl Nat} {t : Nat} {fs : List (Field Nat)} {deny : Bool}
    (h : dl t = .derived (struct_ fs deny)) : ¬ NullType dl t := by
  rintro (h' | ⟨c, h', -, -, -, hd⟩)
  · rw [h] at h'; cases h'
  · rw [h] at h'
    cases h'
    cases hd

end Rf

open Rf

/-! ### Documents that serde reads and the schemas reject -/

set_option maxRecDepth 10000 in
/-- serde reads an optional flattened field as `None` if its members have the wrong types, the schema rejects them. -/
theorem C64_flatten_optional : ¬ C64_Full := by
  intro hC
  have h : (rootSchemaFor (Rf.types optional) (run (Rf.types optional) 10) 3 (Gen.new Settings.draft2020)).map Prod.fst =
    some (rootX [] []) := by rfl
  obtain ⟨⟨r', g'⟩, hg, hr'⟩ := Option.map_eq_some_iff.1 h
  have hr' : r' = rootX [] [] := hr'
  subst hr'
  obtain ⟨f, hf⟩ := resolves_plain (D := draft2020) (env := inputEnv) (doc := rootX [] []) (by decide)
  have hread : Read 64 { lenient := true } Rf.info.base (Rf.decl optional) 3 (.obj [("x", .str "a")]) := by
    refine read_intro (.inl ⟨_, rfl, ?_, _, .none rfl rfl rfl rfl (.inr rfl) .nil, fun h => ?_⟩)
    · intro f hf _ h
      rw [List.mem_singleton.1 hf] at h; cases h
    · cases h
  have := hC Nat _ _ _ _ _ 64 10 { lenient := true } 3 _ g' (modern_inputEnv f) (input_inputEnv f) (Rf.declared optional)
    (Rf.options (noOptions_derived (cs := [_, _]))) hg hf (.obj [("x", .str "a")]) (wf_one (.str _))
    (read_obeys (Rf.unvalidated (by rfl)) hread)
  exact absurd (show false = true from this) (by decide)

set_option maxRecDepth 10000 in
/-- serde reads a flattened enum from the first of the members that name variants and ignores the others, the schema
rejects them. -/
theorem C64_flatten_enum : ¬ C64_Full := by
  refine rejected (ds := flatEnum) (r := root [("oneOf", .arr [.obj (object [("A", Ex.u32Schema)] ["A"]),
      .obj (object [("B", Ex.u32Schema)] ["B"])]), ("title", .str "T"), ("type", .str "object")]) (n := 10)
    (j := .obj [("A", .num (.int 1)), ("B", .num (.int 2))]) lax (noOptions_derived (cs := [_, _])) (by decide +kernel) (by decide +kernel)
    (wf_two (by decide) (.num _) (.num _))
    (read_intro (.inl ⟨_, rfl, ?_, _, .one rfl rfl rfl (List.mem_cons_self ..) (.inl rfl) (.inl ?_) .nil, fun h => ?_⟩))
    (fun f h => ?_)
  · intro f hf _ h
    rw [List.mem_singleton.1 hf] at h; cases h
  · refine read_intro ⟨_, List.mem_cons_self .., rfl, "A", List.mem_cons_self .., .inr ⟨fun h => ?_, _, rfl, ?_⟩⟩
    · exact absurd h.2 (by simp [readAs, variant, member])
    · exact read_u32 1 (by decide) (by decide)
  · cases h
  · exact absurd (show false = true from h) (by decide)

set_option maxRecDepth 10000 in
/-- serde reads an optional flattened map as `None` if the other members have the wrong types, the schema rejects them. -/
theorem C64_flatten_map : ¬ C64_Full := by
  intro hC
  have h : (rootSchemaFor (Rf.types optionalMap) (run (Rf.types optionalMap) 10) 3 (Gen.new Settings.draft2020)).map Prod.fst =
    some (root [("additionalProperties", Ex.u32Schema), ("title", .str "T"), ("type", .str "object")]) := by decide +kernel
  obtain ⟨⟨r', g'⟩, hg, hr'⟩ := Option.map_eq_some_iff.1 h
  obtain ⟨f, hf⟩ := resolves_plain (D := draft2020) (env := inputEnv)
    (doc := root [("additionalProperties", Ex.u32Schema), ("title", .str "T"), ("type", .str "object")]) (by decide)
  rw [← show r' = _ from hr'] at hf
  have hread : Read 64 { lenient := true } Rf.info.base (Rf.decl optionalMap) 3 (.obj [("x", .str "a")]) := by
    refine read_intro (.inl ⟨_, rfl, ?_, _, .none rfl rfl rfl rfl (.inr rfl) .nil, fun h => ?_⟩)
    · intro f hf _ h
      rw [List.mem_singleton.1 hf] at h; cases h
    · cases h
  have := hC Nat _ _ _ _ _ 64 10 { lenient := true } 3 _ g' (modern_inputEnv f) (input_inputEnv f) (Rf.declared optionalMap)
    (Rf.options (by simp [NoOptions, optionalMap])) hg hf (.obj [("x", .str "a")]) (wf_one (.str _))
    (read_obeys (Rf.unvalidated (by rfl)) hread)
  rw [show r' = _ from hr'] at this
  exact absurd (show false = true from this) (by decide)

/-! ### Documents that the schemas accept and serde does not read -/

set_option maxRecDepth 10000 in
/-- A flattened struct that has a flattened field leaves all members, so that `deny_unknown_fields` of the struct
around it denies them. Its schema accepts them: serde reads no document that the schema accepts. -/
theorem C65_deny_nested : ¬ C65_Full := by
  refine accepted (ds := denyNested) (r := rootX [("additionalProperties", .bool false)] [("required", .arr [.str "x"])])
    (n := 10) (j := .obj [("x", .num (.int 1))]) (noOptions_derived (cs := [_, _, _])) (by decide +kernel) (by decide +kernel) (wf_one (.num _))
    ?_ (fun f => rfl)
  rintro (⟨o, ho, -, left, h, hl⟩ | ⟨-, -, h, -⟩)
  · cases ho
    obtain ⟨-, rfl⟩ := read_flat (by intro u h; cases h) (by rfl) h
    exact absurd (hl rfl) (by decide)
  · exact absurd (h (flat 4) (List.mem_cons_self ..) rfl) (by decide)

set_option maxRecDepth 10000 in
/-- `deny_unknown_fields` of a flattened struct that has a flattened field denies all other members, and all that are
read for this field. It is not in the schema. -/
theorem C65_nested_deny : ¬ C65_Full := by
  refine accepted (ds := nestedDeny) (r := rootX [] [("required", .arr [.str "x"])])
    (n := 10) (j := .obj [("x", .num (.int 1)), ("z", .null)]) (noOptions_derived (cs := [_, _, _])) (by decide +kernel) (by decide +kernel)
    (wf_two (by decide) (.num _) .null) ?_ (fun f => rfl)
  rintro (⟨o, ho, -, left, h, -⟩ | ⟨-, -, h, -⟩)
  · cases ho
    obtain ⟨h | h, -⟩ := read_flat (by intro u h; cases h) (by rfl) h
    · rcases read_iff.1 h with ⟨o, ho, -, left, h, hl⟩ | ⟨-, -, h, -⟩
      · cases ho
        have hleft := hl rfl
        subst hleft
        cases h with
        | pass h _ => rcases h with h | h <;> cases h
        | part _ _ h1 h2 => cases h2
        | one _ _ h => cases h
        | none _ _ _ h => cases h
      · exact absurd (h (flat 5) (List.mem_cons_self ..) rfl) (by decide)
    · exact notNull_struct (dl := Rd.decl nestedDeny) (t := 4) rfl h
  · exact absurd (h (flat 4) (List.mem_cons_self ..) rfl) (by decide)

set_option maxRecDepth 10000 in
/-- A member for a field of the struct is not given to its flattened fields: if they have a field of the same name,
serde reads no document, while the schema accepts some. -/
theorem C65_flatten_name : ¬ C65_Full := by
  refine accepted (ds := sameName) (r := rootX [] [("required", .arr [.str "x", .str "x"])])
    (n := 10) (j := .obj [("x", .num (.int 1))]) (noOptions_derived (cs := [_, _])) (by decide +kernel) (by decide +kernel)
    (wf_one (.num _)) ?_ (fun f => rfl)
  rintro (⟨o, ho, -, left, h, -⟩ | ⟨-, -, h, -⟩)
  · cases ho
    cases h with
    | part _ h => cases h
    | one _ h => cases h
    | none _ h => cases h
    | pass _ h =>
    cases h with
    | pass h _ => rcases h with h | h <;> cases h
    | one _ _ h => cases h
    | none _ _ _ h => cases h
    | part _ _ h _ =>
    rcases h with h | h
    · rcases read_iff.1 h with ⟨o, ho, h, -⟩ | ⟨-, -, -, _, h, -⟩
      · cases ho
        rcases h (member "x" 1) (List.mem_cons_self ..) rfl rfl with ⟨n, hn, x, hx, -⟩ | ⟨-, h⟩
        · cases hx
        · rcases h with h | h | ⟨-, h⟩
          · cases h
          · cases h
          · cases h with
            | option h => cases h
            | transparent _ h => cases h
            | source _ h => cases h
      · cases h
    · exact notNull_struct (dl := Rd.decl sameName) (t := 4) rfl h
  · exact absurd (h (flat 4) (by simp) rfl) (by decide)

set_option maxRecDepth 10000 in
/-- If no value of a flattened map can be read, serde rejects all other members. The schema accepts them: its
`additionalProperties` are `false`, and dropped. -/
theorem C65_flatten_never : ¬ C65_Full := by
  refine accepted (ds := neverMap) (r := root [("title", .str "T"), ("type", .str "object")]) (n := 10)
    (j := .obj [("x", .null)]) (by simp [NoOptions, neverMap]) (by decide +kernel) (by decide +kernel) (wf_one .null) ?_
    (fun f => rfl)
  rintro (⟨o, ho, -, left, h, -⟩ | ⟨-, -, h, -⟩)
  · cases ho
    obtain ⟨h | h, -⟩ := read_flat (by intro u h; cases h) (by rfl) h
    · obtain ⟨o, ho, h⟩ := read_iff.1 h
      cases ho
      obtain ⟨v, hv, -⟩ := read_iff.1 (h _ (List.mem_cons_self ..)).2
      cases hv
    · rcases h with h | ⟨_, h, -⟩ <;> cases h
  · exact absurd (h (flat 4) (List.mem_cons_self ..) rfl) (by decide)

set_option maxRecDepth 10000 in
/-- A flattened map gets the members of the flattened structs too. The schema does not check these with the values of the
map. -/
theorem C65_flatten_map : ¬ C65_Full := by
  refine accepted (ds := mapFirst) (r := root [("additionalProperties", .obj [("type", .str "string")]),
      ("properties", .obj [("x", Ex.u32Schema)]), ("required", .arr [.str "x"]), ("title", .str "T"), ("type", .str "object")])
    (n := 10) (j := .obj [("x", .num (.int 1))]) (by simp [NoOptions, mapFirst]) (by decide +kernel) (by decide +kernel)
    (wf_one (.num _)) ?_ (fun f => rfl)
  rintro (⟨o, ho, -, left, h, -⟩ | ⟨-, -, h, -⟩)
  · cases ho
    cases h with
    | pass h _ => rcases h with h | h <;> cases h
    | one _ _ h => cases h
    | none _ _ _ h => cases h
    | part _ _ h _ =>
    rcases h with h | h
    · obtain ⟨o, ho, h⟩ := read_iff.1 h
      cases ho
      have h : EncSimple "string" (.num (.int 1)) := read_iff.1 (h _ (List.mem_cons_self ..)).2
      simp [EncSimple] at h
    · rcases h with h | ⟨_, h, -⟩ <;> cases h
  · exact absurd (h (flat 4) (by simp) rfl) (by decide)

/-! ### Examples -/

namespace Rf

/-- `struct T { a: u32, #[serde(flatten)] f: S, #[serde(flatten)] f: R }` with
`struct S { x: u32, #[serde(default)] y: u32 }`, `struct R { #[serde(flatten)] f: Q, z: u32 }`, `struct Q { w: u32 }`. -/
def nested : List (Decl Nat) :=
  [struct_ [member "a" 1, flat 4, flat 5], struct_ [member "x" 1, { (member "y" 1) with hasDefault := true }],
   struct_ [flat 6, member "z" 1], struct_ [member "w" 1]].map .derived

theorem readOk_struct {dl : Nat → Decl Nat} {exact sw deny : Bool} {base : Nat → Nat} {fs : List (Field Nat)}
    (h : ReadFieldsOk exact sw dl base deny fs) : ReadOk exact sw dl base (.derived (struct_ fs deny)) :=
  ⟨⟨rfl, by simp [struct_]⟩, fun _ _ h => (by cases h), fun _ _ _ _ e => (by cases e; exact .inl h), fun _ _ _ _ _ e => by cases e⟩

theorem plainInput (fs : List (Field Nat)) (deny : Bool) : PlainInput (struct_ fs deny) fs :=
  ⟨rfl, rfl, rfl, rfl, ⟨rfl, by simp [struct_]⟩⟩

theorem default_ok (exact : Bool) (n : String) (t : Nat) : InputField exact { member n t with hasDefault := true } :=
  ⟨⟨rfl, by simp [member]⟩, fun _ => rfl⟩

theorem nested_readable (t : Nat) (exact sw : Bool) : ReadOk exact sw (Rd.decl nested) Rd.info.base (Rd.decl nested t) := by
  have hQ : InputNames (Rd.decl nested) Rd.info.base [member "w" 1] ["w"] [] := .own rfl rfl .nil
  have hR : InputNames (Rd.decl nested) Rd.info.base [flat 6, member "z" 1] ["z"] ["w"] :=
    .flat (ns' := ["w"]) (ms' := []) rfl rfl rfl (plainInput _ false) hQ (.own rfl rfl .nil)
  have hS : InputNames (Rd.decl nested) Rd.info.base [member "x" 1, { (member "y" 1) with hasDefault := true }] ["x", "y"] [] :=
    .own rfl rfl (.own rfl rfl .nil)
  have hT : InputNames (Rd.decl nested) Rd.info.base [member "a" 1, flat 4, flat 5] ["a"] ["x", "y", "z", "w"] :=
    .own rfl rfl (.flat (ns' := ["x", "y"]) (ms' := []) rfl rfl rfl (plainInput _ false) hS
      (.flat (ns' := ["z"]) (ms' := ["w"]) (ms := []) rfl rfl rfl (plainInput _ false) hR .nil))
  match t with
  | 0 | 1 | 2 => exact fun _ => trivial
  | n + 7 => exact fun _ => trivial
  | 3 =>
    refine readOk_struct (deny := false) ⟨fun f hf _ hfl => ?_, ⟨_, _, hT, by decide⟩, fun f hf _ hfl _ u hu => ?_,
      fun _ f hf _ hfl c gs hd hc hg => ?_⟩ <;>
    simp only [List.mem_cons, List.not_mem_nil, or_false] at hf
    · rcases hf with rfl | rfl | rfl
      · exact fieldOk _ ..
      · cases hfl
      · cases hfl
    · rcases hf with rfl | rfl | rfl <;> cases hu
    · rcases hf with rfl | rfl | rfl
      · cases hfl
      · cases hd; exact ⟨rfl, rfl⟩
      · cases hd; exact ⟨rfl, rfl⟩
  | 4 =>
    refine readOk_struct (deny := false) (readFieldsOk_own (by simp [member]) (fun f hf _ => ?_) (by decide))
    simp only [List.mem_cons, List.not_mem_nil, or_false] at hf
    rcases hf with rfl | rfl
    · exact fieldOk _ ..
    · exact default_ok ..
  | 5 =>
    refine readOk_struct (deny := false) ⟨fun f hf _ hfl => ?_, ⟨_, _, hR, by decide⟩, fun f hf _ hfl _ u hu => ?_,
      fun _ f hf _ hfl c gs hd hc hg => ?_⟩ <;>
    simp only [List.mem_cons, List.not_mem_nil, or_false] at hf
    · rcases hf with rfl | rfl
      · cases hfl
      · exact fieldOk _ ..
    · rcases hf with rfl | rfl <;> cases hu
    · rcases hf with rfl | rfl
      · cases hd; exact ⟨rfl, rfl⟩
      · cases hfl
  | 6 =>
    refine readOk_struct (deny := false) (readFieldsOk_own (by simp [member]) (fun f hf _ => ?_) (by decide))
    rw [List.mem_singleton.1 hf]
    exact fieldOk _ ..

/-- Types that are read in place have a number that is larger, up to 6. -/
theorem nested_grounded : Grounded Rd.info.base (Rd.decl nested) := by
  refine ⟨fun t => if t = 2 then 7 else 6 - t, fun t u h => ?_⟩
  have key : ∀ {fs : List (Field Nat)} {u : Nat}, InPlace Rd.info.base (.derived (struct_ fs)) u →
      ∃ f ∈ fs, f.flatten = true ∧ Rd.info.base f.ty = u := by
    intro fs u h
    rcases h with h | ⟨_, h, -⟩ | h | ⟨_, h, -⟩ | ⟨_, h, f, hf, -, hfl, rfl⟩ <;> cases h
    exact ⟨f, hf, hfl, rfl⟩
  match t with
  | 0 | 1 => exact False.elim h
  | 2 => cases h; decide
  | 3 =>
    obtain ⟨f, hf, hfl, rfl⟩ := key h
    simp only [List.mem_cons, List.not_mem_nil, or_false] at hf
    rcases hf with rfl | rfl | rfl <;> first | decide | cases hfl
  | 4 =>
    obtain ⟨f, hf, hfl, rfl⟩ := key h
    simp only [List.mem_cons, List.not_mem_nil, or_false] at hf
    rcases hf with rfl | rfl <;> cases hfl
  | 5 =>
    obtain ⟨f, hf, hfl, rfl⟩ := key h
    simp only [List.mem_cons, List.not_mem_nil, or_false] at hf
    rcases hf with rfl | rfl <;> first | decide | cases hfl
  | 6 =>
    obtain ⟨f, hf, hfl, rfl⟩ := key h
    rw [List.mem_singleton.1 hf] at hfl; cases hfl
  | n + 7 => exact False.elim h

/-- What the run of an example gives. -/
theorem run_of {Γ : Nat → TypeDef Nat} {t : Nat}
    (h : (rootSchemaFor Γ (run Γ 10) t (Gen.new Settings.draft2020)).elim false
      (fun p => decide (∀ v ∈ valuesIn p.1, refsHere v = []) && decide (p.2.defs = [])) = true) :
    ∃ p, rootSchemaFor Γ (run Γ 10) t (Gen.new Settings.draft2020) = some p ∧
      (∀ v ∈ valuesIn p.1, refsHere v = []) ∧ p.2.defs = [] := by
  generalize rootSchemaFor Γ (run Γ 10) t (Gen.new Settings.draft2020) = x at h
  cases x with
  | none => cases h
  | some p =>
    rw [Option.elim_some, Bool.and_eq_true, decide_eq_true_eq, decide_eq_true_eq] at h
    exact ⟨p, rfl, h⟩

/-- The two theorems applied to the example: the schema accepts exactly what serde reads. -/
theorem nested_exact : ∃ r env, (∃ g', rootSchemaFor (Rd.types nested) (run (Rd.types nested) 10) 3
    (Gen.new Settings.draft2020) = some (r, g')) ∧ Modern draft2020 env ∧ Resolves draft2020 env r ∧
    ∀ j, j.WF → SmallNumbers j → (Valid draft2020 env r j ↔ Read 64 {} Rd.info.base (Rd.decl nested) 3 j) := by
  obtain ⟨⟨r, g'⟩, h, hr, hd⟩ := run_of (Γ := Rd.types nested) (t := 3) (by decide +kernel)
  obtain ⟨f, hf⟩ := resolves_plain (D := draft2020) (env := inputEnv) hr
  have hopt := noOptions_derived (cs := [struct_ [member "a" 1, flat 4, flat 5],
    struct_ [member "x" 1, { (member "y" 1) with hasDefault := true }], struct_ [flat 6, member "z" 1],
    struct_ [member "w" 1]])
  refine ⟨r, _, ⟨g', h⟩, modern_inputEnv f, hf, fun j hj hn => ⟨fun hv => ?_, fun hr => ?_⟩⟩
  · exact C65_root_partial (k := "$defs") (modern_inputEnv f) (by decide) documented (Rd.declared nested)
      (Rd.options hopt) nested_grounded (fun t => nested_readable t true _) h rfl rfl (.inl rfl) rfl (fun h => absurd hd h)
      (fun _ _ h => by rw [hd] at h; cases h) hf hj hn hv
  · exact C64_root_partial (k := "$defs") (modern_inputEnv f) (input_inputEnv f) documented (Rd.declared nested)
      (Rd.options hopt) (fun t => nested_readable t false _) h rfl rfl (.inl rfl) rfl (fun h => absurd hd h)
      (fun _ _ h => by rw [hd] at h; cases h) hf hj
      (read_obeys (Rd.unvalidated (by rfl)) hr)

/-- The conditions for an optional flattened struct. -/
theorem optional_readable (t : Nat) (exact : Bool) :
    ReadOk exact exact (Rf.decl optional) Rf.info.base (Rf.decl optional t) := by
  have hS : InputNames (Rf.decl optional) Rf.info.base [member "x" 1] ["x"] [] := .own rfl rfl .nil
  match t with
  | 0 | 1 | 2 => exact fun _ => trivial
  | n + 5 => exact fun _ => trivial
  | 3 =>
    refine readOk_struct (deny := false) ⟨fun f hf _ hfl => ?_, ⟨_, _, .flat (ns' := ["x"]) (ms' := []) rfl rfl rfl
      (plainInput _ false) hS .nil, by decide⟩, fun _ _ _ _ _ _ _ => rfl, fun _ f hf _ _ c gs hd _ _ => ?_⟩ <;>
    rw [List.mem_singleton.1 hf] at *
    · cases hfl
    · cases hd; exact ⟨rfl, rfl⟩
  | 4 =>
    refine readOk_struct (deny := false) (readFieldsOk_own (by simp [member]) (fun f hf _ => ?_) (by decide))
    rw [List.mem_singleton.1 hf]
    exact fieldOk _ ..

theorem optional_grounded : Grounded Rf.info.base (Rf.decl optional) := by
  refine ⟨fun t => if t = 3 then 2 else if t = 2 then 1 else 0, fun t u h => ?_⟩
  match t with
  | 0 | 1 => exact False.elim h
  | 2 => cases h; decide
  | 3 =>
    rcases h with h | ⟨_, h, -⟩ | h | ⟨_, h, -⟩ | ⟨_, h, f, hf, -, hfl, rfl⟩ <;> cases h
    rw [List.mem_singleton.1 hf]; decide
  | 4 =>
    rcases h with h | ⟨_, h, -⟩ | h | ⟨_, h, -⟩ | ⟨_, h, f, hf, -, hfl, rfl⟩ <;> cases h
    rw [List.mem_singleton.1 hf] at hfl; cases hfl
  | n + 5 => exact False.elim h

/-- The schema of an optional flattened struct is between what serde documents and what it reads. -/
theorem optional_between : ∃ r env, (∃ g', rootSchemaFor (Rf.types optional) (run (Rf.types optional) 10) 3
    (Gen.new Settings.draft2020) = some (r, g')) ∧ Modern draft2020 env ∧ Resolves draft2020 env r ∧
    ∀ j, j.WF → SmallNumbers j → (Read 64 {} Rf.info.base (Rf.decl optional) 3 j → Valid draft2020 env r j) ∧
      (Valid draft2020 env r j → Read 64 { lenient := true } Rf.info.base (Rf.decl optional) 3 j) := by
  obtain ⟨⟨r, g'⟩, h, hr, hd⟩ := run_of (Γ := Rf.types optional) (t := 3) (by decide +kernel)
  obtain ⟨f, hf⟩ := resolves_plain (D := draft2020) (env := inputEnv) hr
  have hopt := noOptions_derived (cs := [struct_ [flat 2], struct_ [member "x" 1]])
  refine ⟨r, _, ⟨g', h⟩, modern_inputEnv f, hf, fun j hj hn => ⟨fun hr => ?_, fun hv => ?_⟩⟩
  · exact C64_root_partial (k := "$defs") (modern_inputEnv f) (input_inputEnv f) documented (Rf.declared optional)
      (Rf.options hopt) (fun t => optional_readable t false) h rfl rfl (.inl rfl) rfl (fun h => absurd hd h)
      (fun _ _ h => by rw [hd] at h; cases h) hf hj
      (read_obeys (Rf.unvalidated (by rfl)) hr)
  · exact C65_root_partial (k := "$defs") (modern_inputEnv f) (by decide) ⟨rfl, fun _ => rfl, fun _ => rfl, fun _ => rfl⟩
      (Rf.declared optional) (Rf.options hopt) optional_grounded (fun t => optional_readable t true) h rfl rfl (.inl rfl) rfl
      (fun h => absurd hd h) (fun _ _ h => by rw [hd] at h; cases h) hf hj hn hv

/-- An enum. -/
def enum_ (tag : TagType) (vs : List (Variant Nat)) : Container Nat := { data := .enum tag vs }

/-- `struct T { a: u32, #[serde(flatten)] f: F, #[serde(flatten)] f: G }` with
`#[serde(tag = "t", content = "c")] enum F { A(u32), B { x: u32 } }`,
`#[serde(tag = "k")] enum G { C, D { b: u32 }, E(S) }`, `struct S { z: u32 }`. -/
def tagged : List (Decl Nat) :=
  [struct_ [member "a" 1, flat 4, flat 5],
   enum_ (.adjacent "t" "c") [variant "A" (.newtype (member "0" 1)), variant "B" (.struct [member "x" 1])],
   enum_ (.internal "k") [variant "C" .unit, variant "D" (.struct [member "b" 1]), variant "E" (.newtype (member "0" 6))],
   struct_ [member "z" 1]].map .derived

theorem readOk_enum {dl : Nat → Decl Nat} {exact sw : Bool} {base : Nat → Nat} {tag : TagType} {vs : List (Variant Nat)}
    (h : ReadEnumOk exact sw dl base tag vs false) : ReadOk exact sw dl base (.derived (enum_ tag vs)) :=
  ⟨⟨rfl, by simp [enum_]⟩, fun _ _ h => (by cases h), fun _ _ _ _ e => (by cases e), fun _ _ _ _ _ e => by cases e; exact h⟩

theorem readOk_wide {dl : Nat → Decl Nat} {exact sw : Bool} {base : Nat → Nat} {fs : List (Field Nat)}
    (h : WideInput exact sw dl base false fs) : ReadOk exact sw dl base (.derived (struct_ fs)) :=
  ⟨⟨rfl, by simp [struct_]⟩, fun _ _ h => (by cases h), fun _ _ _ _ e => (by cases e; exact .inr (.inl h)), fun _ _ _ _ _ e => by cases e⟩

theorem readOk_map {dl : Nat → Decl Nat} {exact sw : Bool} {base : Nat → Nat} {fs : List (Field Nat)}
    (h : MapInput exact sw dl base false fs) : ReadOk exact sw dl base (.derived (struct_ fs)) :=
  ⟨⟨rfl, by simp [struct_]⟩, fun _ _ h => (by cases h), fun _ _ _ _ e => (by cases e; exact .inr (.inr h)), fun _ _ _ _ _ e => by cases e⟩

theorem variantInput (n : String) {fields : Fields Nat} (h : ∀ f, fields = .newtype f → f.skipDe = false) :
    VariantInput (variant n fields) := ⟨⟨rfl, by simp [variant]⟩, rfl, rfl, fun f _ e => h f e⟩

theorem oneMember {dl : Nat → Decl Nat} {exact sw deny : Bool} {base : Nat → Nat} (n : String) (t : Nat) :
    ReadFieldsOk exact sw dl base deny [member n t] := by
  refine readFieldsOk_own (by simp [member]) (fun f hf _ => ?_) (List.pairwise_singleton _ _)
  rw [List.mem_singleton.1 hf]
  exact fieldOk _ ..

theorem oneName {dl : Nat → Decl Nat} {base : Nat → Nat} (n : String) (t : Nat) :
    InputNames dl base [member n t] [n] [] := .own rfl rfl .nil

theorem tagged_parts (exact sw : Bool) : WideInput exact sw (Rd.decl tagged) Rd.info.base false
    [member "a" 1, flat 4, flat 5] := by
  refine ⟨rfl, [["a"], ["t", "c"], ["k", "b", "z"]], ?_, by simp⟩
  refine .own rfl rfl (fieldOk _ ..) (.enum (c := enum_ (.adjacent "t" "c") _) rfl rfl rfl
    ⟨rfl, rfl, rfl, rfl, ⟨rfl, by simp [enum_]⟩, by simp, ?_, by decide⟩ ⟨by decide, by simp, by simp, fun _ v hv _ => ?_⟩
    (fun _ u h => by cases h)
    (.enum (c := enum_ (.internal "k") _) rfl rfl rfl
      ⟨rfl, rfl, rfl, rfl, ⟨rfl, by simp [enum_]⟩, by simp, ?_, by decide⟩ ⟨by simp, fun v hv _ => ?_⟩
      (fun _ u h => by cases h) .nil))
  · intro v hv
    simp only [List.mem_cons, List.not_mem_nil, or_false] at hv
    rcases hv with rfl | rfl
    · exact variantInput _ fun f e => by cases e; rfl
    · exact variantInput _ fun f e => by cases e
  · simp only [List.mem_cons, List.not_mem_nil, or_false] at hv
    rcases hv with rfl | rfl <;> exact fun h => by cases h.2
  · intro v hv
    simp only [List.mem_cons, List.not_mem_nil, or_false] at hv
    rcases hv with rfl | rfl | rfl
    · exact variantInput _ fun f e => by cases e
    · exact variantInput _ fun f e => by cases e
    · exact variantInput _ fun f e => by cases e; rfl
  · simp only [List.mem_cons, List.not_mem_nil, or_false] at hv
    rcases hv with rfl | rfl | rfl
    · exact ⟨[], ⟨rfl, fun _ => rfl⟩, by simp⟩
    · exact ⟨["b"], ⟨⟨_, _, oneName .., rfl⟩, fun _ => rfl⟩, by simp⟩
    · exact ⟨["z"], ⟨⟨(fieldOk true ..).1, rfl⟩, _, _, _, _, rfl, plainInput _ false, oneName .., rfl, fun _ => rfl⟩, by simp⟩

theorem tagged_readable (t : Nat) (exact sw : Bool) : ReadOk exact sw (Rd.decl tagged) Rd.info.base (Rd.decl tagged t) := by
  match t with
  | 0 | 1 | 2 => exact fun _ => trivial
  | n + 7 => exact fun _ => trivial
  | 3 => exact readOk_wide (tagged_parts exact sw)
  | 4 =>
    refine readOk_enum ⟨by simp, fun v hv => ?_, fun _ => by decide, fun _ h => (by cases h), fun t c h => ?_⟩
    · simp only [List.mem_cons, List.not_mem_nil, or_false] at hv
      rcases hv with rfl | rfl
      · exact ⟨variantInput _ fun f e => by (cases e; rfl), fun _ => fieldOk _ ..⟩
      · exact ⟨variantInput _ fun f e => by (cases e), fun _ => .inl (oneMember ..)⟩
    · cases h
      refine ⟨by decide, fun _ v hv h => ?_⟩
      simp only [List.mem_cons, List.not_mem_nil, or_false] at hv
      rcases hv with rfl | rfl <;> cases h.2
  | 5 =>
    refine readOk_enum ⟨by simp, fun v hv => ?_, fun _ => by decide, fun t h v hv => ?_, fun t c h => by cases h⟩
    · simp only [List.mem_cons, List.not_mem_nil, or_false] at hv
      rcases hv with rfl | rfl | rfl
      · exact ⟨variantInput _ fun f e => by (cases e), fun _ => trivial⟩
      · exact ⟨variantInput _ fun f e => by (cases e), fun _ => .inl (oneMember ..)⟩
      · exact ⟨variantInput _ fun f e => by (cases e; rfl), fun _ => fieldOk _ ..⟩
    · cases h
      simp only [List.mem_cons, List.not_mem_nil, or_false] at hv
      rcases hv with rfl | rfl | rfl
      · trivial
      · exact ⟨_, _, oneName .., by decide⟩
      · exact ⟨rfl, _, _, _, _, rfl, plainInput _ false, oneName .., by decide⟩
  | 6 => exact readOk_struct (deny := false) (oneMember ..)

theorem tagged_grounded : Grounded Rd.info.base (Rd.decl tagged) := by
  refine ⟨fun t => if t = 3 ∨ t = 2 then 1 else 0, fun t u h => ?_⟩
  match t with
  | 0 | 1 => exact False.elim h
  | 2 => cases h; decide
  | 3 =>
    rcases h with h | ⟨_, h, -⟩ | h | ⟨_, h, -⟩ | ⟨_, h, f, hf, -, -, rfl⟩ <;> cases h
    simp only [List.mem_cons, List.not_mem_nil, or_false] at hf
    rcases hf with rfl | rfl | rfl <;> decide
  | 4 | 5 => rcases h with h | ⟨_, h, -⟩ | h | ⟨h, -⟩ <;> cases h
  | 6 =>
    rcases h with h | ⟨_, h, -⟩ | h | ⟨_, h, -⟩ | ⟨_, h, f, hf, -, hfl, rfl⟩ <;> cases h
    rw [List.mem_singleton.1 hf] at hfl; cases hfl
  | n + 7 => exact False.elim h

/-- The two theorems applied to flattened enums with tags: the schema accepts exactly what serde reads. -/
theorem tagged_exact : ∃ r env, (∃ g', rootSchemaFor (Rd.types tagged) (run (Rd.types tagged) 10) 3
    (Gen.new Settings.draft2020) = some (r, g')) ∧ Modern draft2020 env ∧ Resolves draft2020 env r ∧
    ∀ j, j.WF → SmallNumbers j → (Valid draft2020 env r j ↔ Read 64 {} Rd.info.base (Rd.decl tagged) 3 j) := by
  obtain ⟨⟨r, g'⟩, h, hr, hd⟩ := run_of (Γ := Rd.types tagged) (t := 3) (by decide +kernel)
  obtain ⟨f, hf⟩ := resolves_plain (D := draft2020) (env := inputEnv) hr
  have hopt : NoOptions tagged := noOptions_derived
  refine ⟨r, _, ⟨g', h⟩, modern_inputEnv f, hf, fun j hj hn => ⟨fun hv => ?_, fun hr => ?_⟩⟩
  · exact C65_root_partial (k := "$defs") (modern_inputEnv f) (by decide) documented (Rd.declared tagged)
      (Rd.options hopt) tagged_grounded (fun t => tagged_readable t true _) h rfl rfl (.inl rfl) rfl (fun h => absurd hd h)
      (fun _ _ h => by rw [hd] at h; cases h) hf hj hn hv
  · exact C64_root_partial (k := "$defs") (modern_inputEnv f) (input_inputEnv f) documented (Rd.declared tagged)
      (Rd.options hopt) (fun t => tagged_readable t false _) h rfl rfl (.inl rfl) rfl (fun h => absurd hd h)
      (fun _ _ h => by rw [hd] at h; cases h) hf hj
      (read_obeys (Rd.unvalidated (by rfl)) hr)

theorem flatEnum_readable (t : Nat) (exact : Bool) :
    ReadOk exact exact (Rd.decl flatEnum) Rd.info.base (Rd.decl flatEnum t) := by
  match t with
  | 0 | 1 | 2 => exact fun _ => trivial
  | n + 5 => exact fun _ => trivial
  | 3 =>
    refine readOk_wide ⟨rfl, [["A", "B"]], ?_, by simp⟩
    refine .enum (c := enum_ .external _) rfl rfl rfl
      ⟨rfl, rfl, rfl, rfl, ⟨rfl, by simp [enum_]⟩, by simp, fun v hv => ?_, by decide⟩ ⟨fun v hv _ => ?_, rfl⟩
      (fun _ u h => by cases h) .nil <;>
    simp only [List.mem_cons, List.not_mem_nil, or_false] at hv
    · rcases hv with rfl | rfl <;> exact variantInput _ fun f e => by cases e; rfl
    · rcases hv with rfl | rfl
      · exact ⟨by decide, fun h => by cases h⟩
      · exact ⟨by decide, fun h => by cases h⟩
  | 4 =>
    refine readOk_enum ⟨by simp, fun v hv => ?_, fun _ => by decide, fun _ h => (by cases h), fun t c h => by cases h⟩
    simp only [List.mem_cons, List.not_mem_nil, or_false] at hv
    rcases hv with rfl | rfl <;> exact ⟨variantInput _ fun f e => by (cases e; rfl), fun _ => fieldOk _ ..⟩

theorem flatEnum_grounded : Grounded Rd.info.base (Rd.decl flatEnum) := by
  refine ⟨fun t => if t = 3 ∨ t = 2 then 1 else 0, fun t u h => ?_⟩
  match t with
  | 0 | 1 => exact False.elim h
  | 2 => cases h; decide
  | 3 =>
    rcases h with h | ⟨_, h, -⟩ | h | ⟨_, h, -⟩ | ⟨_, h, f, hf, -, hfl, rfl⟩ <;> cases h
    rw [List.mem_singleton.1 hf]; decide
  | 4 => rcases h with h | ⟨_, h, -⟩ | h | ⟨h, -⟩ <;> cases h
  | n + 5 => exact False.elim h

/-- The schema of a flattened enum without a tag is between what serde documents and what it reads. -/
theorem flatEnum_between : ∃ r env, (∃ g', rootSchemaFor (Rd.types flatEnum) (run (Rd.types flatEnum) 10) 3
    (Gen.new Settings.draft2020) = some (r, g')) ∧ Modern draft2020 env ∧ Resolves draft2020 env r ∧
    ∀ j, j.WF → SmallNumbers j → (Read 64 {} Rd.info.base (Rd.decl flatEnum) 3 j → Valid draft2020 env r j) ∧
      (Valid draft2020 env r j → Read 64 { lenient := true } Rd.info.base (Rd.decl flatEnum) 3 j) := by
  obtain ⟨⟨r, g'⟩, h, hr, hd⟩ := run_of (Γ := Rd.types flatEnum) (t := 3) (by decide +kernel)
  obtain ⟨f, hf⟩ := resolves_plain (D := draft2020) (env := inputEnv) hr
  have hopt : NoOptions flatEnum := noOptions_derived
  refine ⟨r, _, ⟨g', h⟩, modern_inputEnv f, hf, fun j hj hn => ⟨fun hr => ?_, fun hv => ?_⟩⟩
  · exact C64_root_partial (k := "$defs") (modern_inputEnv f) (input_inputEnv f) documented (Rd.declared flatEnum)
      (Rd.options hopt) (fun t => flatEnum_readable t false) h rfl rfl (.inl rfl) rfl (fun h => absurd hd h)
      (fun _ _ h => by rw [hd] at h; cases h) hf hj
      (read_obeys (Rd.unvalidated (by rfl)) hr)
  · exact C65_root_partial (k := "$defs") (modern_inputEnv f) (by decide) ⟨rfl, fun _ => rfl, fun _ => rfl, fun _ => rfl⟩
      (Rd.declared flatEnum) (Rd.options hopt) flatEnum_grounded (fun t => flatEnum_readable t true) h rfl rfl (.inl rfl) rfl
      (fun h => absurd hd h) (fun _ _ h => by rw [hd] at h; cases h) hf hj hn hv

/-- `struct T { a: u32, #[serde(flatten)] f: S, #[serde(flatten)] f: HashMap<String, u32>, b: Option<u32> }` with
`struct S { x: u32 }`. -/
def mapped : List (Decl Nat) :=
  [.derived (struct_ [member "a" 1, flat 4, flat 5, member "b" 2]), .derived (struct_ [member "x" 1]), .std (.map 6 1),
   .std (.simple "string")]

theorem mapped_readable (t : Nat) (exact sw : Bool) : ReadOk exact sw (Rd.decl mapped) Rd.info.base (Rd.decl mapped t) := by
  match t with
  | 0 | 1 | 2 | 6 => exact fun _ => trivial
  | 5 => exact fun _ => rfl
  | n + 7 => exact fun _ => trivial
  | 3 =>
    have hT : InputNames (Rd.decl mapped) Rd.info.base [member "a" 1, flat 4, member "b" 2] ["a", "b"] ["x"] :=
      .own rfl rfl (.flat (ns' := ["x"]) (ms' := []) (ns := ["b"]) (ms := []) rfl rfl rfl (plainInput _ false) (oneName ..)
        (.own rfl rfl .nil))
    refine readOk_map ⟨rfl, [member "a" 1, flat 4], flat 5, [member "b" 2], rfl,
      ⟨rfl, rfl, .inr ⟨6, 1, rfl, rfl, fun _ => trivial⟩, fun _ _ h => by cases h⟩, by simp [member],
      ⟨fun f hf _ hfl => ?_, ⟨_, _, hT, by decide⟩, fun f hf _ hfl _ u hu => ?_, fun _ f hf _ hfl c gs hd hc hg => ?_⟩⟩ <;>
    simp only [List.mem_cons, List.not_mem_nil, or_false, List.cons_append, List.nil_append] at hf
    · rcases hf with rfl | rfl | rfl
      · exact fieldOk _ ..
      · cases hfl
      · exact fieldOk _ ..
    · rcases hf with rfl | rfl | rfl
      · cases hfl
      · cases hu
      · cases hfl
    · rcases hf with rfl | rfl | rfl
      · cases hfl
      · cases hd
        cases hc.data
        obtain ⟨g, hg, -, h⟩ := hg
        rw [List.mem_singleton.1 hg] at h; cases h
      · cases hfl
  | 4 => exact readOk_struct (deny := false) (oneMember ..)

theorem mapped_grounded : Grounded Rd.info.base (Rd.decl mapped) := by
  refine ⟨fun t => if t = 3 ∨ t = 2 then 1 else 0, fun t u h => ?_⟩
  match t with
  | 0 | 1 | 5 | 6 => exact False.elim h
  | 2 => cases h; decide
  | 3 =>
    rcases h with h | ⟨_, h, -⟩ | h | ⟨_, h, -⟩ | ⟨_, h, f, hf, -, hfl, rfl⟩ <;> cases h
    simp only [List.mem_cons, List.not_mem_nil, or_false] at hf
    rcases hf with rfl | rfl | rfl | rfl <;> decide
  | 4 =>
    rcases h with h | ⟨_, h, -⟩ | h | ⟨_, h, -⟩ | ⟨_, h, f, hf, -, hfl, rfl⟩ <;> cases h
    rw [List.mem_singleton.1 hf] at hfl; cases hfl
  | n + 7 => exact False.elim h

/-- The two theorems applied to a flattened map: the schema accepts exactly what serde reads. -/
theorem mapped_exact : ∃ r env, (∃ g', rootSchemaFor (Rd.types mapped) (run (Rd.types mapped) 10) 3
    (Gen.new Settings.draft2020) = some (r, g')) ∧ Modern draft2020 env ∧ Resolves draft2020 env r ∧
    ∀ j, j.WF → SmallNumbers j → (Valid draft2020 env r j ↔ Read 64 {} Rd.info.base (Rd.decl mapped) 3 j) := by
  obtain ⟨⟨r, g'⟩, h, hr, hd⟩ := run_of (Γ := Rd.types mapped) (t := 3) (by decide +kernel)
  obtain ⟨f, hf⟩ := resolves_plain (D := draft2020) (env := inputEnv) hr
  have hopt : NoOptions mapped := by simp [NoOptions, mapped]
  refine ⟨r, _, ⟨g', h⟩, modern_inputEnv f, hf, fun j hj hn => ⟨fun hv => ?_, fun hr => ?_⟩⟩
  · exact C65_root_partial (k := "$defs") (modern_inputEnv f) (by decide) documented (Rd.declared mapped)
      (Rd.options hopt) mapped_grounded (fun t => mapped_readable t true _) h rfl rfl (.inl rfl) rfl (fun h => absurd hd h)
      (fun _ _ h => by rw [hd] at h; cases h) hf hj hn hv
  · exact C64_root_partial (k := "$defs") (modern_inputEnv f) (input_inputEnv f) documented (Rd.declared mapped)
      (Rd.options hopt) (fun t => mapped_readable t false _) h rfl rfl (.inl rfl) rfl (fun h => absurd hd h)
      (fun _ _ h => by rw [hd] at h; cases h) hf hj
      (read_obeys (Rd.unvalidated (by rfl)) hr)

end Rf

end Verif
