import Verif.Spec.Regex

/-!
# Specification: patterns with their meaning

The constructs of ECMA-262 patterns that the fixed patterns of schemars are made of: how they are written
(`Rx.text`) and what they mean (`Rx.re`, a pattern of `Verif.Spec.Regex`; `Rx.Lang`, the set of texts that it
matches, wherever they are).

Simplifications: characters are code points. A class is a list of ranges, whose characters are written as they are.
Groups are not numbered, since there are no back references.
-/

namespace Verif.Spec

inductive Rx where
  /-- A character, after a backslash if it is a `SyntaxCharacter`. -/
  | chr (c : Char)
  /-- `\d` -/
  | digit
  /-- `[a-zA-Z-]` -/
  | cls (ranges : List (Char × Char))
  /-- `(…)` -/
  | group (r : Rx)
  /-- `(?:…)` -/
  | plainGroup (r : Rx)
  | star (r : Rx)
  | plus (r : Rx)
  | opt (r : Rx)
  | seq (r r' : Rx)
  | alt (r r' : Rx)

/-- A range in a class. -/
def rangeText (e : Char × Char) : List Char := if e.1 = e.2 then [e.1] else [e.1, '-', e.2]

/-- How the pattern is written. -/
def Rx.text : Rx → List Char
  | .chr c => if c ∈ syntaxChars then ['\\', c] else [c]
  | .digit => ['\\', 'd']
  | .cls l => '[' :: (l.flatMap rangeText ++ [']'])
  | .group r => '(' :: r.text ++ [')']
  | .plainGroup r => '(' :: '?' :: ':' :: r.text ++ [')']
  | .star r => r.text ++ ['*']
  | .plus r => r.text ++ ['+']
  | .opt r => r.text ++ ['?']
  | .seq r r' => r.text ++ r'.text
  | .alt r r' => r.text ++ '|' :: r'.text

/-- A character of one of the ranges. -/
def InRanges (l : List (Char × Char)) (c : Char) : Prop := ∃ e ∈ l, e.1 ≤ c ∧ c ≤ e.2

/-- What the pattern means. -/
def Rx.re : Rx → Re
  | .chr c => .char c
  | .digit => .other fun _ m _ => ∃ c, m = [c] ∧ '0' ≤ c ∧ c ≤ '9'
  | .cls l => .other fun _ m _ => ∃ c, m = [c] ∧ InRanges l c
  | .group r => r.re
  | .plainGroup r => r.re
  | .star r => .rep 0 none r.re
  | .plus r => .rep 1 none r.re
  | .opt r => .rep 0 (some 1) r.re
  | .seq r r' => .seq r.re r'.re
  | .alt r r' => .alt r.re r'.re

/-- The pattern is an `Atom`, a `Term`, an `Alternative`, a `Disjunction`: it is written without further
parentheses. -/
def Rx.fits : Rx → Cat → Bool
  | .chr _, _ | .digit, _ | .cls _, _ => true
  | .group r, _ | .plainGroup r, _ => r.fits .disjunction
  | .star r, c | .plus r, c | .opt r, c =>
    (match c with | .atom => false | _ => true) && r.fits .atom
  | .seq r r', c =>
    (match c with | .alternative => true | .disjunction => true | _ => false) && r.fits .alternative && r'.fits .term
  | .alt r r', c => (match c with | .disjunction => true | _ => false) && r.fits .alternative && r'.fits .disjunction

/-- The whole texts that the pattern matches. -/
def Rx.Lang : Rx → List Char → Prop
  | .chr c, m => m = [c]
  | .digit, m => ∃ c, m = [c] ∧ '0' ≤ c ∧ c ≤ '9'
  | .cls l, m => ∃ c, m = [c] ∧ InRanges l c
  | .group r, m => r.Lang m
  | .plainGroup r, m => r.Lang m
  | .star r, m => ∃ ps : List (List Char), m = ps.flatten ∧ ∀ p ∈ ps, r.Lang p
  | .plus r, m => ∃ ps : List (List Char), ps ≠ [] ∧ m = ps.flatten ∧ ∀ p ∈ ps, r.Lang p
  | .opt r, m => m = [] ∨ r.Lang m
  | .seq r r', m => ∃ m1 m2, m = m1 ++ m2 ∧ r.Lang m1 ∧ r'.Lang m2
  | .alt r r', m => r.Lang m ∨ r'.Lang m

/-- `^…$` -/
def Rx.anchored (r : Rx) : String := String.ofList ('^' :: r.text ++ ['$'])

/-- What `^…$` means. -/
def Rx.whole (r : Rx) : Re :=
  .seq (.seq (.other fun b m _ => b = [] ∧ m = []) r.re) (.other fun _ m a => a = [] ∧ m = [])

/-! ## The grammar of semantic versions (semver.org, "Backus–Naur Form Grammar for Valid SemVer Versions") -/

/-- `<digit>` -/
def IsDigit (c : Char) : Prop := '0' ≤ c ∧ c ≤ '9'

/-- `<non-digit>` -/
def IsNonDigit (c : Char) : Prop := ('a' ≤ c ∧ c ≤ 'z') ∨ ('A' ≤ c ∧ c ≤ 'Z') ∨ c = '-'

/-- `<numeric identifier>`: no leading zeros. -/
def NumericId (s : List Char) : Prop :=
  s = ['0'] ∨ ∃ c rest, s = c :: rest ∧ IsDigit c ∧ c ≠ '0' ∧ ∀ x ∈ rest, IsDigit x

/-- `<alphanumeric identifier>`: identifier characters, at least one of them no digit. -/
def AlphanumericId (s : List Char) : Prop := (∀ c ∈ s, IsDigit c ∨ IsNonDigit c) ∧ ∃ c ∈ s, IsNonDigit c

/-- `<pre-release identifier>` -/
def PreReleaseId (s : List Char) : Prop := AlphanumericId s ∨ NumericId s

/-- `<build identifier>`: alphanumeric, or digits. -/
def BuildId (s : List Char) : Prop := AlphanumericId s ∨ (s ≠ [] ∧ ∀ c ∈ s, IsDigit c)

/-- Texts of the given kind, at least one, separated by dots. -/
inductive Dotted (P : List Char → Prop) : List Char → Prop
  | one {s : List Char} (h : P s) : Dotted P s
  | cons {s t : List Char} (h : P s) (ht : Dotted P t) : Dotted P (s ++ '.' :: t)

/-- `<valid semver>` -/
def SemVerText (s : List Char) : Prop :=
  ∃ major minor patch pre build, s = major ++ '.' :: minor ++ '.' :: patch ++ pre ++ build ∧
    NumericId major ∧ NumericId minor ∧ NumericId patch ∧
    (pre = [] ∨ ∃ t, pre = '-' :: t ∧ Dotted PreReleaseId t) ∧
    (build = [] ∨ ∃ t, build = '+' :: t ∧ Dotted BuildId t)

end Verif.Spec
