import Mathlib.Order.Basic

/-!
# Specification: the regular expressions of JSON Schema (ECMA-262)

The grammar of patterns (ECMA-262, section "Patterns") and what a pattern matches. Only the constructs that
can match a fixed character are given in detail. Character classes, escapes of letters and digits, `(?…)`
groups are over-approximated: `Parses` lets them take any text and mean anything (`Re.other`), so a
statement about all parses of a pattern holds whatever these constructs are.

Simplification: characters are code points (the difference to UTF-16 code units does not matter for patterns
and subjects made of whole code points).
-/

namespace Verif.Spec

/-- A pattern. -/
inductive Re where
  | empty
  | char (c : Char)
  | seq (r r' : Re)
  | alt (r r' : Re)
  /-- between `min` and `max` times -/
  | rep (min : Nat) (max : Option Nat) (r : Re)
  /-- any condition on the text before, the matched text and the text after -/
  | other (P : List Char → List Char → List Char → Prop)

/-- `n` matches in a row. -/
def Times (M : List Char → List Char → List Char → Prop) : Nat → List Char → List Char → List Char → Prop
  | 0, _, m, _ => m = []
  | n + 1, b, m, a => ∃ m1 m2, m = m1 ++ m2 ∧ M b m1 (m2 ++ a) ∧ Times M n (b ++ m1) m2 a

/-- The pattern matches `m` between `b` and `a`. -/
def Re.Match : Re → List Char → List Char → List Char → Prop
  | .empty, _, m, _ => m = []
  | .char c, _, m, _ => m = [c]
  | .seq r r', b, m, a => ∃ m1 m2, m = m1 ++ m2 ∧ r.Match b m1 (m2 ++ a) ∧ r'.Match (b ++ m1) m2 a
  | .alt r r', b, m, a => r.Match b m a ∨ r'.Match b m a
  | .rep min max r, b, m, a => ∃ n, min ≤ n ∧ (∀ k, max = some k → n ≤ k) ∧ Times r.Match n b m a
  | .other P, b, m, a => P b m a

/-- The pattern matches somewhere in the text (patterns in JSON Schema are not anchored). -/
def Re.Finds (r : Re) (s : List Char) : Prop := ∃ b m a, s = b ++ m ++ a ∧ r.Match b m a

/-- With or without the `u` flag. -/
inductive ReMode where
  | plain
  | unicode
  deriving DecidableEq

/-- ECMA-262 `SyntaxCharacter`. -/
def syntaxChars : List Char := ['^', '$', '\\', '.', '*', '+', '?', '(', ')', '[', ']', '{', '}', '|']

/-- ECMA-262 `IdentityEscape`: the characters that may follow a backslash to stand for themselves. Without
the `u` flag any character that cannot be part of an identifier; with it only `SyntaxCharacter` and `/`. -/
def IdentityEscape : ReMode → Char → Prop
  | .plain, c => c.isAlphanum = false ∧ c ≠ '_'
  | .unicode, c => c ∈ syntaxChars ∨ c = '/'

/-- ECMA-262 `QuantifierPrefix`, with the bounds it means. -/
inductive QuantifierPrefix : List Char → Nat → Option Nat → Prop
  | star : QuantifierPrefix ['*'] 0 none
  | plus : QuantifierPrefix ['+'] 1 none
  | opt : QuantifierPrefix ['?'] 0 (some 1)
  | braces (s n max) : QuantifierPrefix ('{' :: s) n max

/-- The nonterminals `Disjunction`, `Alternative`, `Term` and `Atom`. -/
inductive Cat where
  | disjunction
  | alternative
  | term
  | atom

/-- The grammar. -/
inductive Parses (mode : ReMode) : Cat → List Char → Re → Prop
  | single {s r} : Parses mode .alternative s r → Parses mode .disjunction s r
  | bar {s t r r'} : Parses mode .alternative s r → Parses mode .disjunction t r' →
      Parses mode .disjunction (s ++ '|' :: t) (.alt r r')
  | nil : Parses mode .alternative [] .empty
  | snoc {s t r r'} : Parses mode .alternative s r → Parses mode .term t r' →
      Parses mode .alternative (s ++ t) (.seq r r')
  | start : Parses mode .term ['^'] (.other fun b m _ => b = [] ∧ m = [])
  | stop : Parses mode .term ['$'] (.other fun _ m a => a = [] ∧ m = [])
  | plainAtom {s r} : Parses mode .atom s r → Parses mode .term s r
  | quantified {s r q n max} : Parses mode .atom s r → QuantifierPrefix q n max →
      Parses mode .term (s ++ q) (.rep n max r)
  | lazy {s r q n max} : Parses mode .atom s r → QuantifierPrefix q n max →
      Parses mode .term (s ++ q ++ ['?']) (.rep n max r)
  | patternChar {c} : c ∉ syntaxChars → Parses mode .atom [c] (.char c)
  | dot (P) : Parses mode .atom ['.'] (.other P)
  | escape {c} : IdentityEscape mode c → Parses mode .atom ['\\', c] (.char c)
  | otherEscape {c} (s P) : c.isAlphanum = true → Parses mode .atom ('\\' :: c :: s) (.other P)
  | group {s r} : Parses mode .disjunction s r → Parses mode .atom ('(' :: s ++ [')']) r
  | otherGroup (s P) : Parses mode .atom ('(' :: '?' :: s) (.other P)
  | cls (s P) : Parses mode .atom ('[' :: s) (.other P)

end Verif.Spec
