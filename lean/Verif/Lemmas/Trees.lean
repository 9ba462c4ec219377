import Mathlib.Data.List.Basic

/-!
# Bracketed texts can be read back

Texts built from words, `w<..>`, `[..]` and `(..)`, with or without separators between the parts. Two such
trees with the same text are the same tree, if between unseparated parts no word touches another one.
-/

namespace Verif.Trees

/-- The characters that are not part of words. -/
def isWord (c : Char) : Bool := c ∉ ['<', '>', ',', '[', ']', '(', ')', ';', ' ']

inductive Tree where
  | word (w : List Char)
  /-- `w<..>` -/
  | angle (w : List Char) (l : List Tree)
  /-- `[..]` -/
  | square (l : List Tree)
  /-- `(..)` -/
  | round (l : List Tree)

variable (sp : List Char → Bool)

/-- What separates the parts of `w<..>`: `, ` for the words in `sp`, nothing for others. -/
def sep (w : List Char) : List Char := if sp w then [',', ' '] else []

mutual
def pr : Tree → List Char
  | .word w => w
  | .angle w l => w ++ '<' :: (prs (sep sp w) l ++ ['>'])
  | .square l => '[' :: (prs [';', ' '] l ++ [']'])
  | .round l => '(' :: (prs [','] l ++ [')'])
def prs (s : List Char) : List Tree → List Char
  | [] => []
  | t :: l => pr t ++ prsTail s l
def prsTail (s : List Char) : List Tree → List Char
  | [] => []
  | t :: l => s ++ pr t ++ prsTail s l
end

def Tree.bare : Tree → Bool
  | .word _ => true
  | _ => false

def Tree.opens : Tree → Bool
  | .square _ | .round _ => true
  | _ => false

/-- No word is directly before a part that begins with a word. -/
def Apart : List Tree → Prop
  | [] => True
  | [_] => True
  | a :: b :: l => (a.bare = true → b.opens = true) ∧ Apart (b :: l)

mutual
def Neat : Tree → Prop
  | .word w => w ≠ [] ∧ w.all isWord = true
  | .angle w l => w ≠ [] ∧ w.all isWord = true ∧ Neats l ∧ (sp w = false → Apart l)
  | .square l => Neats l
  | .round l => Neats l
def Neats : List Tree → Prop
  | [] => True
  | t :: l => Neat t ∧ Neats l
end

/-- What may come after a tree. -/
def After (t : Tree) (r : List Char) : Prop :=
  t.bare = true → ∀ c l, r = c :: l → isWord c = false ∧ c ≠ '<'

variable {sp}

theorem span {w w' r r' : List Char} (hw : w.all isWord = true) (hw' : w'.all isWord = true)
    (hr : ∀ c l, r = c :: l → isWord c = false) (hr' : ∀ c l, r' = c :: l → isWord c = false)
    (h : w ++ r = w' ++ r') : w = w' ∧ r = r' := by
  induction w generalizing w' with
  | nil =>
    cases w' with
    | nil => exact ⟨rfl, h⟩
    | cons c w' =>
      have := hr c (w' ++ r') h
      simp only [List.all_cons, Bool.and_eq_true] at hw'
      rw [this] at hw'; cases hw'.1
  | cons c w ih =>
    simp only [List.all_cons, Bool.and_eq_true] at hw
    cases w' with
    | nil =>
      have := hr' c (w ++ r) h.symm
      rw [this] at hw; cases hw.1
    | cons c' w' =>
      simp only [List.all_cons, Bool.and_eq_true] at hw'
      simp only [List.cons_append, List.cons.injEq] at h
      obtain ⟨rfl, h⟩ := h
      obtain ⟨rfl, h2⟩ := ih hw.2 hw'.2 h
      exact ⟨rfl, h2⟩

theorem pr_head {t : Tree} (h : Neat sp t) : ∃ c l, pr sp t = c :: l ∧
    (t.opens = false → isWord c = true) ∧ (t.opens = true → c = '[' ∨ c = '(') := by
  cases t with
  | word w =>
    unfold Neat at h
    cases w with
    | nil => exact absurd rfl h.1
    | cons c w =>
      simp only [List.all_cons, Bool.and_eq_true] at h
      exact ⟨c, w, by simp [pr], fun _ => h.2.1, by simp [Tree.opens]⟩
  | angle w l =>
    unfold Neat at h
    cases w with
    | nil => exact absurd rfl h.1
    | cons c w =>
      simp only [List.all_cons, Bool.and_eq_true] at h
      exact ⟨c, _, by simp [pr]; rfl, fun _ => h.2.1.1, by simp [Tree.opens]⟩
  | square l => exact ⟨'[', _, by simp [pr]; rfl, by simp [Tree.opens], by simp⟩
  | round l => exact ⟨'(', _, by simp [pr]; rfl, by simp [Tree.opens], by simp⟩

/-- The closing brackets. -/
def Close (c : Char) : Prop := c = '>' ∨ c = ']' ∨ c = ')'

theorem Close.after {c : Char} (h : Close c) (t : Tree) (r : List Char) : After t (c :: r) := by
  intro _ d l hd
  cases hd
  rcases h with rfl | rfl | rfl <;> decide

theorem head_ne_close {t : Tree} (hg : Neat sp t) {c : Char} (hc : Close c) (r r' : List Char) :
    pr sp t ++ r ≠ c :: r' := by
  obtain ⟨d, l, e, h1, h2⟩ := pr_head hg
  rw [e]
  intro h
  simp only [List.cons_append, List.cons.injEq] at h
  obtain ⟨rfl, -⟩ := h
  cases ho : t.opens with
  | false =>
    have := h1 ho
    rcases hc with rfl | rfl | rfl <;> revert this <;> decide
  | true =>
    rcases h2 ho with rfl | rfl <;> rcases hc with h | h | h <;> revert h <;> decide

/-- The separators. -/
def Sepr (s : List Char) : Prop := s = [',', ' '] ∨ s = [';', ' '] ∨ s = [','] ∨ s = []

theorem tail_ne_close {s : List Char} (hs : Sepr s) {t : Tree} (hg : Neat sp t) {c : Char} (hc : Close c)
    (r r' : List Char) : s ++ pr sp t ++ r ≠ c :: r' := by
  rcases hs with rfl | rfl | rfl | rfl
  · intro h; simp only [List.cons_append, List.cons.injEq] at h
    rcases hc with h' | h' | h' <;> rw [h'] at h <;> exact absurd h.1 (by decide)
  · intro h; simp only [List.cons_append, List.cons.injEq] at h
    rcases hc with h' | h' | h' <;> rw [h'] at h <;> exact absurd h.1 (by decide)
  · intro h; simp only [List.cons_append, List.cons.injEq] at h
    rcases hc with h' | h' | h' <;> rw [h'] at h <;> exact absurd h.1 (by decide)
  · exact head_ne_close hg hc r r'

theorem after_tail {s : List Char} (hs : Sepr s) {a : Tree} {l : List Tree} (hg : Neats sp l)
    (ha : s = [] → Apart (a :: l)) {c : Char} (hc : Close c) (r : List Char) :
    After a (prsTail sp s l ++ c :: r) := by
  cases l with
  | nil => simp only [prsTail, List.nil_append]; exact hc.after a r
  | cons b l =>
    intro hb d m hd
    simp only [prsTail, List.append_assoc] at hd
    rcases hs with rfl | rfl | rfl | rfl
    · cases hd; decide
    · cases hd; decide
    · cases hd; decide
    · have ho := (ha rfl).1 hb
      obtain ⟨x, y, e, -, h2⟩ := pr_head hg.1
      rw [e] at hd
      cases hd
      rcases h2 ho with rfl | rfl <;> decide

mutual
/-- The text of a tree determines the tree, and what follows. -/
theorem pr_inj : ∀ (t t' : Tree) (r r' : List Char), Neat sp t → Neat sp t' → After t r → After t' r' →
    pr sp t ++ r = pr sp t' ++ r' → t = t' ∧ r = r'
  | .word w, .word w', r, r', hg, hg', ha, ha', h => by
      unfold Neat at hg hg'
      simp only [pr] at h
      obtain ⟨rfl, hr⟩ := span hg.2 hg'.2 (fun c l e => (ha rfl c l e).1) (fun c l e => (ha' rfl c l e).1) h
      exact ⟨rfl, hr⟩
  | .word w, .angle w' l', r, r', hg, hg', ha, ha', h => by
      unfold Neat at hg hg'
      simp only [pr, List.append_assoc, List.cons_append] at h
      obtain ⟨-, hr⟩ := span hg.2 hg'.2.1 (fun c l e => (ha rfl c l e).1)
        (fun c l e => by cases e; decide) h
      exact absurd rfl (ha rfl _ _ hr).2
  | .angle w l, .word w', r, r', hg, hg', ha, ha', h => by
      unfold Neat at hg hg'
      simp only [pr, List.append_assoc, List.cons_append] at h
      obtain ⟨-, hr⟩ := span hg.2.1 hg'.2 (fun c l e => by cases e; decide)
        (fun c l e => (ha' rfl c l e).1) h
      exact absurd rfl (ha' rfl _ _ hr.symm).2
  | .angle w l, .angle w' l', r, r', hg, hg', _, _, h => by
      unfold Neat at hg hg'
      simp only [pr, List.append_assoc, List.cons_append, List.nil_append] at h
      obtain ⟨rfl, hr⟩ := span hg.2.1 hg'.2.1 (fun c l e => by cases e; decide)
        (fun c l e => by cases e; decide) h
      simp only [List.cons.injEq, true_and] at hr
      have hs : Sepr (sep sp w) := by
        unfold sep; split
        · exact Or.inl rfl
        · exact Or.inr (Or.inr (Or.inr rfl))
      have hsp : sep sp w = [] → sp w = false := by
        unfold sep; split
        · intro h; cases h
        · intro _; simp_all
      obtain ⟨rfl, h2⟩ := prs_inj l l' r r' hs (Or.inl rfl) hg.2.2.1 hg'.2.2.1
        (fun h => hg.2.2.2 (hsp h)) (fun h => hg'.2.2.2 (hsp h)) hr
      exact ⟨rfl, h2⟩
  | .square l, .square l', r, r', hg, hg', _, _, h => by
      unfold Neat at hg hg'
      simp only [pr, List.append_assoc, List.cons_append, List.nil_append, List.cons.injEq, true_and] at h
      obtain ⟨rfl, hr⟩ := prs_inj l l' r r' (Or.inr (Or.inl rfl)) (Or.inr (Or.inl rfl)) hg hg'
        (by simp) (by simp) h
      exact ⟨rfl, hr⟩
  | .round l, .round l', r, r', hg, hg', _, _, h => by
      unfold Neat at hg hg'
      simp only [pr, List.append_assoc, List.cons_append, List.nil_append, List.cons.injEq, true_and] at h
      obtain ⟨rfl, hr⟩ := prs_inj l l' r r' (Or.inr (Or.inr (Or.inl rfl))) (Or.inr (Or.inr rfl)) hg hg'
        (by simp) (by simp) h
      exact ⟨rfl, hr⟩
  | .square l, .round l', r, r', _, _, _, _, h => by
      simp only [pr, List.cons_append, List.cons.injEq] at h
      exact absurd h.1 (by decide)
  | .round l, .square l', r, r', _, _, _, _, h => by
      simp only [pr, List.cons_append, List.cons.injEq] at h
      exact absurd h.1 (by decide)
  | .word w, .square l', r, r', hg, _, _, _, h => by
      obtain ⟨c, l, e, h1, -⟩ := pr_head hg
      have := h1 rfl
      rw [e] at h
      simp only [pr, List.cons_append, List.cons.injEq] at h
      rw [h.1] at this; exact absurd this (by decide)
  | .word w, .round l', r, r', hg, _, _, _, h => by
      obtain ⟨c, l, e, h1, -⟩ := pr_head hg
      have := h1 rfl
      rw [e] at h
      simp only [pr, List.cons_append, List.cons.injEq] at h
      rw [h.1] at this; exact absurd this (by decide)
  | .angle w l, .square l', r, r', hg, _, _, _, h => by
      obtain ⟨c, l, e, h1, -⟩ := pr_head hg
      have := h1 rfl
      rw [e] at h
      simp only [pr, List.cons_append, List.cons.injEq] at h
      rw [h.1] at this; exact absurd this (by decide)
  | .angle w l, .round l', r, r', hg, _, _, _, h => by
      obtain ⟨c, l, e, h1, -⟩ := pr_head hg
      have := h1 rfl
      rw [e] at h
      simp only [pr, List.cons_append, List.cons.injEq] at h
      rw [h.1] at this; exact absurd this (by decide)
  | .square l, .word w', r, r', _, hg', _, _, h => by
      obtain ⟨c, l, e, h1, -⟩ := pr_head hg'
      have := h1 rfl
      rw [e] at h
      simp only [pr, List.cons_append, List.cons.injEq] at h
      rw [← h.1] at this; exact absurd this (by decide)
  | .square l, .angle w' l', r, r', _, hg', _, _, h => by
      obtain ⟨c, l, e, h1, -⟩ := pr_head hg'
      have := h1 rfl
      rw [e] at h
      simp only [pr, List.cons_append, List.cons.injEq] at h
      rw [← h.1] at this; exact absurd this (by decide)
  | .round l, .word w', r, r', _, hg', _, _, h => by
      obtain ⟨c, l, e, h1, -⟩ := pr_head hg'
      have := h1 rfl
      rw [e] at h
      simp only [pr, List.cons_append, List.cons.injEq] at h
      rw [← h.1] at this; exact absurd this (by decide)
  | .round l, .angle w' l', r, r', _, hg', _, _, h => by
      obtain ⟨c, l, e, h1, -⟩ := pr_head hg'
      have := h1 rfl
      rw [e] at h
      simp only [pr, List.cons_append, List.cons.injEq] at h
      rw [← h.1] at this; exact absurd this (by decide)
theorem prs_inj {s : List Char} {c : Char} : ∀ (l l' : List Tree) (r r' : List Char), Sepr s → Close c →
    Neats sp l → Neats sp l' → (s = [] → Apart l) → (s = [] → Apart l') →
    prs sp s l ++ c :: r = prs sp s l' ++ c :: r' → l = l' ∧ r = r'
  | [], [], _, _, _, _, _, _, _, _, h => by
      simp only [prs, List.nil_append, List.cons.injEq, true_and] at h
      exact ⟨rfl, h⟩
  | [], t' :: l', r, r', _, hc, _, hg', _, _, h => by
      simp only [prs, List.nil_append, List.append_assoc] at h
      exact absurd h.symm (head_ne_close hg'.1 hc _ _)
  | t :: l, [], r, r', _, hc, hg, _, _, _, h => by
      simp only [prs, List.nil_append, List.append_assoc] at h
      exact absurd h (head_ne_close hg.1 hc _ _)
  | t :: l, t' :: l', r, r', hs, hc, hg, hg', hp, hp', h => by
      simp only [prs, List.append_assoc] at h
      obtain ⟨rfl, h2⟩ := pr_inj t t' _ _ hg.1 hg'.1 (after_tail hs hg.2 hp hc r)
        (after_tail hs hg'.2 hp' hc r') h
      obtain ⟨rfl, h3⟩ := prsTail_inj t t l l' r r' hs hc hg.2 hg'.2 hp hp' h2
      exact ⟨rfl, h3⟩
theorem prsTail_inj {s : List Char} {c : Char} : ∀ (a a' : Tree) (l l' : List Tree) (r r' : List Char),
    Sepr s → Close c → Neats sp l → Neats sp l' → (s = [] → Apart (a :: l)) → (s = [] → Apart (a' :: l')) →
    prsTail sp s l ++ c :: r = prsTail sp s l' ++ c :: r' → l = l' ∧ r = r'
  | _, _, [], [], _, _, _, _, _, _, _, _, h => by
      simp only [prsTail, List.nil_append, List.cons.injEq, true_and] at h
      exact ⟨rfl, h⟩
  | _, _, [], t' :: l', r, r', hs, hc, _, hg', _, _, h => by
      have := tail_ne_close hs hg'.1 hc (prsTail sp s l' ++ c :: r') r
      simp only [prsTail, List.nil_append, List.append_assoc] at h this
      exact absurd h.symm this
  | _, _, t :: l, [], r, r', hs, hc, hg, _, _, _, h => by
      have := tail_ne_close hs hg.1 hc (prsTail sp s l ++ c :: r) r'
      simp only [prsTail, List.nil_append, List.append_assoc] at h this
      exact absurd h this
  | a, a', t :: l, t' :: l', r, r', hs, hc, hg, hg', hp, hp', h => by
      simp only [prsTail, List.append_assoc, List.append_cancel_left_eq] at h
      obtain ⟨rfl, h2⟩ := pr_inj t t' _ _ hg.1 hg'.1 (after_tail hs hg.2 (fun h => (hp h).2) hc r)
        (after_tail hs hg'.2 (fun h => (hp' h).2) hc r') h
      obtain ⟨rfl, h3⟩ := prsTail_inj t t l l' r r' hs hc hg.2 hg'.2 (fun h => (hp h).2)
        (fun h => (hp' h).2) h2
      exact ⟨rfl, h3⟩
end

end Verif.Trees
