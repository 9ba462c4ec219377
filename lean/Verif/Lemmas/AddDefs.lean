import Verif.Lemmas.Pointer

namespace Verif
open Spec

theorem objAtMut_nil (r : List String) (f) :
    ∃ n, objAtMut [] r f = some n := by
  induction r with
  | nil => exact ⟨_, rfl⟩
  | cons k r ih => obtain ⟨n, hn⟩ := ih; exact ⟨Obj.insert [] k (.obj n), by simp [objAtMut, hn]⟩

/-- The walk fails only on an existing non-object. -/
theorem objAtMut_isSome {m : List (String × Json)} {segs : List String}
    {f : List (String × Json) → List (String × Json)}
    (h : ∀ p w, p ≠ [] → p <+: segs → At (.obj m) p w → ∃ n, w = .obj n) :
    ∃ n, objAtMut m segs f = some n := by
  induction segs generalizing m with
  | nil => exact ⟨_, rfl⟩
  | cons k r ih =>
    simp only [objAtMut]
    cases hg : Obj.get m k with
    | none => obtain ⟨n, hn⟩ := objAtMut_nil r f; exact ⟨Obj.insert m k (.obj n), by simp [hn]⟩
    | some v =>
      obtain ⟨n, rfl⟩ := h [k] v (by simp) (by simp) (.member hg (.here _))
      obtain ⟨n', hn'⟩ := ih (m := n) (fun p w hp hpr hw => h (k :: p) w (by simp) (by simpa using hpr) (.member hg hw))
      exact ⟨Obj.insert m k (.obj n'), by simp [hn']⟩

theorem objAtMut_blocked {m : List (String × Json)} {segs p : List String} {w : Json}
    {f : List (String × Json) → List (String × Json)}
    (hp : p ≠ []) (hpr : p <+: segs) (hw : At (.obj m) p w) (hno : ∀ n, w ≠ .obj n) :
    objAtMut m segs f = none := by
  induction segs generalizing m p with
  | nil => exact absurd (List.prefix_nil.1 hpr) hp
  | cons k r ih =>
    cases p with
    | nil => exact absurd rfl hp
    | cons k' p =>
      obtain ⟨rfl, hpr'⟩ := List.cons_prefix_cons.1 hpr
      cases hw with
      | member hg hw' =>
        next v =>
        simp only [objAtMut, hg]
        cases p with
        | nil =>
          have hv : v = w := by cases hw'; rfl
          subst hv
          cases v <;> first | rfl | exact absurd rfl (hno _)
        | cons k2 p =>
          cases v with
          | obj n => simp [ih (by simp) hpr' hw']
          | _ => rfl

theorem objAtMut_target {m m' : List (String × Json)} {segs : List String}
    {f : List (String × Json) → List (String × Json)} (h : objAtMut m segs f = some m') :
    ∃ t, At (.obj m') segs (.obj (f t)) ∧
      ((At (.obj m) segs (.obj t)) ∨ (t = [] ∧ ∀ w, ¬ At (.obj m) segs w)) := by
  induction segs generalizing m m' with
  | nil => simp only [objAtMut, Option.some.injEq] at h; subst h; exact ⟨m, .here _, Or.inl (.here _)⟩
  | cons k r ih =>
    simp only [objAtMut] at h
    split at h
    · next n hg =>
      simp only [Option.map_eq_some_iff] at h
      obtain ⟨n', hn', rfl⟩ := h
      obtain ⟨t, h1, h2⟩ := ih hn'
      refine ⟨t, .member (Obj.get_insert_self _ _ _) h1, ?_⟩
      rcases h2 with h2 | ⟨h2, h3⟩
      · exact Or.inl (.member hg h2)
      · refine Or.inr ⟨h2, fun w hw => ?_⟩
        cases hw with
        | member hg' hw => rw [hg] at hg'; cases hg'; exact h3 w hw
    · cases h
    · next hg =>
      simp only [Option.map_eq_some_iff] at h
      obtain ⟨n', hn', rfl⟩ := h
      obtain ⟨t, h1, h2⟩ := ih hn'
      refine ⟨t, .member (Obj.get_insert_self _ _ _) h1, Or.inr ⟨?_, ?_⟩⟩
      · rcases h2 with h2 | ⟨h2, _⟩
        · cases r with
          | nil => cases h2; rfl
          | cons a r => cases h2 with | member hx _ => simp at hx
        · exact h2
      · intro w hw
        cases hw with | member hg' _ => rw [hg] at hg'; cases hg'

theorem objAtMut_frame {m m' : List (String × Json)} {segs q : List String}
    {f : List (String × Json) → List (String × Json)} (h : objAtMut m segs f = some m')
    (h1 : ¬ segs <+: q) (h2 : ¬ q <+: segs) (w : Json) : At (.obj m') q w ↔ At (.obj m) q w := by
  induction segs generalizing m m' q with
  | nil => exact absurd List.nil_prefix h1
  | cons k r ih =>
    cases q with
    | nil => exact absurd List.nil_prefix h2
    | cons k' q =>
      simp only [objAtMut] at h
      have step : ∀ {n n' : List (String × Json)}, objAtMut n r f = some n' →
          (∀ x, Obj.get m k = some x → x = .obj n) → (Obj.get m k = none → n = []) →
          (At (.obj (Obj.insert m k (.obj n'))) (k' :: q) w ↔ At (.obj m) (k' :: q) w) := by
        intro n n' hn hsome hnone
        by_cases hk : k = k'
        · subst hk
          simp only [List.cons_prefix_cons, true_and] at h1 h2
          have key := ih hn h1 h2
          constructor
          · intro hw
            cases hw with
            | member hg hw =>
              rw [Obj.get_insert_self] at hg
              cases hg
              rw [key] at hw
              cases hg2 : Obj.get m k with
              | none =>
                rw [hnone hg2] at hw
                cases q with
                | nil => exact absurd List.nil_prefix h2
                | cons a q => cases hw with | member hx _ => simp at hx
              | some x => rw [hsome x hg2] at hg2; exact .member hg2 hw
          · intro hw
            cases hw with
            | member hg hw =>
              rw [hsome _ hg] at hw
              exact .member (Obj.get_insert_self _ _ _) (key.2 hw)
        · constructor
          · intro hw; cases hw with
            | member hg hw => rw [Obj.get_insert_ne _ _ hk] at hg; exact .member hg hw
          · intro hw; cases hw with
            | member hg hw => exact .member (by rw [Obj.get_insert_ne _ _ hk]; exact hg) hw
      split at h
      · next n hg =>
        simp only [Option.map_eq_some_iff] at h
        obtain ⟨n', hn', rfl⟩ := h
        exact step hn' (fun x hx => by rw [hg] at hx; exact (Option.some.inj hx).symm)
          (fun hx => by rw [hg] at hx; cases hx)
      · cases h
      · next hg =>
        simp only [Option.map_eq_some_iff] at h
        obtain ⟨n', hn', rfl⟩ := h
        exact step hn' (fun x hx => by rw [hg] at hx; cases hx) (fun _ => rfl)

theorem ptrMutSegments_render {segs : List String} (h1 : segs ≠ []) (h2 : segs ≠ [""]) :
    ptrMutSegments (renderPointer segs) = some segs := by
  cases segs with
  | nil => exact absurd rfl h1
  | cons t ts =>
    rw [renderPointer_cons]
    have hne : escapeToken t.toList ++ renderPointer ts ≠ [] := by
      intro h
      simp only [List.append_eq_nil_iff] at h
      cases ts with
      | cons a b => rw [renderPointer_cons] at h; simp at h
      | nil =>
        have h3 := unescape_escape t.toList
        rw [h.1] at h3
        have : t = "" := String.toList_inj.1 h3.symm
        exact h2 (by rw [this])
    simp only [ptrMutSegments, stripPrefix, if_true, Option.map_some, if_neg hne,
      splitChar_render _ (escapeToken_no_slash _)]
    simp [unescape_escape, Function.comp_def]

theorem At_append {j v w : Json} {p q : List String} (h1 : At j p v) (h2 : At v q w) :
    At j (p ++ q) w := by
  induction h1 with
  | here => exact h2
  | member hg _ ih => exact .member hg (ih h2)
  | elem i hi _ ih => exact .elem i hi (ih h2)

theorem renderPointer_append (p q : List String) :
    renderPointer (p ++ q) = renderPointer p ++ renderPointer q := by simp [renderPointer]

theorem loopBytes_append_of_no_pct {s : List Char} (h : '%' ∉ s) (t : List Char) :
    loopBytes (s ++ t) = utf8 s ++ loopBytes t := by
  induction s with
  | nil => rfl
  | cons c s ih =>
    simp only [List.mem_cons, not_or] at h
    rw [List.cons_append, loopBytes_ne (Ne.symm h.1), ih h.2]
    simp

end Verif
