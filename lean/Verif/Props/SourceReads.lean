import Verif.Props.SourceAccepts
import Verif.Props.ReadsRoot

/-!
# C70, reading: an example with every form of enum
-/

namespace Verif
open Spec

namespace SourceEx
open AttrMetaEx ItemEx Rd

def formMeaning : Meaning String Nat :=
  names (fun t => match t with
    | "u32" => 1 | "Option<u32>" => 2 | "T" => 3 | "bool" => 4 | "Vec<bool>" => 5 | "S" => 6 | "E" => 7 | "I" => 8
    | "J" => 9 | "U" => 10 | "String" => 11 | _ => 0) fun _ => 0

/-- Default values are not written. -/
def unwritten : Values String String := { values with write := fun _ _ => none }

def plain (n t : String) : SrcField String (SrcAttrs String) := ⟨n, t, []⟩

def item (n : String) (attrs : SrcAttrs String) (data : SrcData String (SrcAttrs String)) :
    SrcItem String (SrcAttrs String) := ⟨n, data, attrs⟩

/-- The declarations of `Rd.forms` in the source. -/
def formSource : Nat → Option (SrcItem String (SrcAttrs String))
  | 3 => some (item "T" [] (.struct (.named [plain "e" "E", plain "i" "I", plain "j" "J", plain "o" "Option<u32>",
      plain "u" "U"])))
  | 6 => some (item "S" [] (.struct (.named [plain "x" "u32", ⟨"y", "Vec<bool>", [.serde (some [flag "default"])]⟩])))
  | 7 => some (item "E" [] (.enum [⟨"A", .unit, []⟩, ⟨"B", .unnamed [plain "0" "u32"], []⟩,
      ⟨"C", .named [plain "x" "u32"], []⟩, ⟨"D", .unnamed [plain "0" "u32", plain "1" "bool"], []⟩]))
  | 8 => some (item "I" [.serde (some [text "tag" "t"])] (.enum [⟨"A", .unit, []⟩, ⟨"B", .unnamed [plain "0" "S"], []⟩,
      ⟨"C", .named [plain "y" "u32"], []⟩]))
  | 9 => some (item "J" [.serde (some [text "tag" "t", text "content" "c"]), .serde (some [flag "deny_unknown_fields"])] 
      (.enum [⟨"A", .unit, []⟩, ⟨"B", .unnamed [plain "0" "u32"], []⟩]))
  | 10 => some (item "U" [.serde (some [flag "untagged"])] (.enum [⟨"A", .unnamed [plain "0" "S"], []⟩,
      ⟨"B", .unnamed [plain "0" "String"], []⟩]))
  | _ => none

/-- The program. -/
def formProgram (t : Nat) : SrcDecl String Nat :=
  match formSource t, decl forms t with
  | some i, _ => .item i
  | none, .std s => .std s
  | none, .derived _ => .std (.simple "null")

instance (attrs : SrcAttrs String) : Decidable (Undisturbed attrs) :=
  decidable_of_iff (has disturbing (schemarsOf attrs) = false ∧ has replacing (serdeOf attrs) = false ∧
    (∀ i ∈ validateOf attrs, i.negated = false ∧ isNamed ["required"] i = false) ∧
    has ["required"] (gardeOf attrs) = false)
    ⟨fun h => ⟨h.1, h.2.1, h.2.2.1, h.2.2.2⟩, fun h => ⟨h.1, h.2, h.3, h.4⟩⟩

instance (i : SrcItem String (SrcAttrs String)) : Decidable (LeftToSerde i) :=
  decidable_of_iff (Undisturbed i.attrs ∧ (∀ f ∈ srcFields i.data, Undisturbed f.attrs) ∧
    ∀ v ∈ variantList i.data, Undisturbed v.attrs ∧ ∀ f ∈ fieldList v.fields, Undisturbed f.attrs)
    ⟨fun h => ⟨h.1, h.2.1, h.2.2⟩, fun h => ⟨h.1, h.2, h.3⟩⟩

theorem form_left (t : Nat) (i : SrcItem String (SrcAttrs String)) (h : formProgram t = .item i) : LeftToSerde i := by
  match t with
  | 0 | 1 | 2 | 4 | 5 | 11 => cases h
  | 3 | 6 | 7 | 8 | 9 | 10 => cases h; decide +kernel
  | n + 12 => cases h

theorem form_derives (t : Nat) : Derives lang cases formMeaning unwritten (formProgram t) (decl forms t) := by
  match t with
  | 0 | 1 | 2 | 4 | 5 | 11 => rfl
  | 3 | 6 | 7 | 8 | 9 | 10 => exact ⟨_, rfl, rfl⟩
  | n + 12 => rfl

theorem form_seen (t : Nat) : Seen lang cases formMeaning.type .deserialize (formProgram t) (decl forms t) := by
  match t with
  | 0 | 1 | 2 | 4 | 5 | 11 => rfl
  | 3 | 6 | 7 | 8 | 9 | 10 => exact ⟨_, rfl, rfl⟩
  | n + 12 => rfl

/-- C70 for reading is not vacuous: the schema from the source accepts exactly what serde, from the source, reads. -/
example : ∃ (view : Nat → Decl Nat) (r : Json) (env : Env),
    (∀ t, Seen lang cases formMeaning.type .deserialize (formProgram t) (view t)) ∧
    (∃ g', rootSchemaFor (types forms) (run (types forms) 10) 3 (Gen.new Settings.draft2020) = some (r, g')) ∧
    Modern draft2020 env ∧ Resolves draft2020 env r ∧
    ∀ j, j.WF → SmallNumbers j → (Valid draft2020 env r j ↔ Read 64 {} info.base view 3 j) := by
  obtain ⟨⟨r, g'⟩, h, hr, hd⟩ := forms_run
  obtain ⟨f, hf⟩ := resolves_plain (D := draft2020) (env := inputEnv) hr
  have hopt : NoOptions forms := by
    intro d hd u h
    unfold forms at hd
    simp only [List.mem_cons, List.not_mem_nil, or_false] at hd
    rcases hd with rfl | rfl | rfl | rfl | rfl | rfl | rfl | rfl | rfl <;> cases h
  refine ⟨_, r, _, form_seen, ⟨g', h⟩, modern_inputEnv f, hf, fun j hj hn => ⟨fun hv => ?_, fun hr => ?_⟩⟩
  · exact C70_reads_partial (k := "$defs") form_left form_derives form_seen (modern_inputEnv f) (by decide) documented
      (declared forms) (options hopt) forms_grounded (fun t => forms_readable t true _) h rfl rfl (.inl rfl) rfl
      (fun h => absurd hd h) (fun _ _ h => by rw [hd] at h; cases h) hf hj hn hv
  · exact C70_readable_partial (k := "$defs") form_left form_derives form_seen (modern_inputEnv f) (input_inputEnv f)
      documented (declared forms) (options hopt) (fun t => forms_readable t false _) (unvalidated (by rfl)) h rfl rfl (.inl rfl) rfl
      (fun h => absurd hd h) (fun _ _ h => by rw [hd] at h; cases h) hf hj hr

end SourceEx

end Verif
