import Verif.TypeIds
import Verif.Lemmas.Trees
import Verif.Lemmas.Generator
import Verif.Props.Generator

/-!
# C59: types with the same id have the same implementation
-/

namespace Verif
open Gen

namespace Spec

variable (P : Nat → IdDecl)

mutual
/-- The arguments of derived types are as many as their declaration says, and tuples have elements. -/
def Legal : Ty → Prop
  | .fixed _ | .emptyArray => True
  | .option t | .seq t | .set t | .array _ t | .arrayVec _ t | .bound t | .range t => Legal t
  | .map a b | .result a b | .either a b => Legal a ∧ Legal b
  | .tuple l => l ≠ [] ∧ LegalAll l
  | .derived d cs l => cs.length = (P d).consts ∧ l.length = (P d).args ∧ LegalAll l
def LegalAll : List Ty → Prop
  | [] => True
  | t :: l => Legal t ∧ LegalAll l
end

/-- The documented contract of `schema_id` (schemars/src/lib.rs:156-161): types that produce different schemas
have different ids, for every set of derived types. -/
def C59_Full : Prop :=
  ∀ P t t', Legal P t → Legal P t' → (Ty.typeDef P t).schemaId = (Ty.typeDef P t').schemaId →
    Ty.typeDef P t = Ty.typeDef P t'

/-- The characters that none of the crate's ids uses between or around parts. -/
def wordChar (c : Char) : Bool := c ∉ ['<', '>', ',', '[', ']', '(', ')', ';', ' ']

/-- The text before the arguments in the id of a derived type. -/
def path (d : IdDecl) : List Char := d.modulePath ++ "::".toList ++ d.name

/-- The words with which ids of the crate's own types begin. -/
def taken : List String :=
  ["string", "boolean", "null", "float", "double", "int8", "int16", "int32", "int64", "int128", "int", "uint8",
   "uint16", "uint32", "uint64", "uint128", "uint", "std::num::NonZeroI8", "std::num::NonZeroI16",
   "std::num::NonZeroI32", "std::num::NonZeroI64", "std::num::NonZeroI128", "std::num::NonZeroIsize",
   "std::num::NonZeroU8", "std::num::NonZeroU16", "std::num::NonZeroU32", "std::num::NonZeroU64",
   "std::num::NonZeroU128", "std::num::NonZeroUsize", "ipv4", "ipv6", "ip", "char", "AnyValue", "Number",
   "std::time::Duration", "std::time::SystemTime", "std::ffi::OsString", "std::ffi::CString", "bytes::Bytes",
   "Decimal", "chrono::Weekday", "chrono::TimeDelta", "chrono::NaiveDate", "chrono::NaiveDateTime",
   "chrono::NaiveTime", "chrono::DateTime", "jiff::SignedDuration", "jiff::Span", "jiff::Timestamp",
   "jiff::Zoned", "jiff::Date", "jiff::Time", "jiff::DateTime", "semver::Version", "url::Url", "uuid::Uuid",
   "schemars::Schema",
   "Option", "Set", "Map", "Result", "Bound", "Range", "either::Either"]

/-- The derived types have paths without brackets and the like, each its own one. -/
structure Paths : Prop where
  word : ∀ d, (path (P d)).all wordChar = true
  inj : ∀ d d', path (P d) = path (P d') → d = d'
  free : ∀ d, String.ofList (path (P d)) ∉ taken

/-- The id is a word. -/
def bareId : Ty → Bool
  | .fixed _ => true
  | .derived _ cs l => cs.isEmpty && l.isEmpty
  | _ => false

/-- The id begins with a bracket. -/
def opensId : Ty → Bool
  | .seq _ | .emptyArray | .array _ _ | .tuple _ => true
  | _ => false

/-- In a list of ids, given by whether they are words and whether they begin with a bracket, no word is directly
before an id that begins with a word. -/
def apartIds : List (Bool × Bool) → Bool
  | a :: b :: l => (!a.1 || b.2) && apartIds (b :: l)
  | _ => true

mutual
/-- There is no `ArrayVec`, and in the argument lists of derived types no two words touch. -/
def PlainIds : Ty → Prop
  | .fixed _ | .emptyArray => True
  | .arrayVec _ _ => False
  | .option t | .seq t | .set t | .array _ t | .bound t | .range t => PlainIds t
  | .map a b | .result a b | .either a b => PlainIds a ∧ PlainIds b
  | .tuple l => PlainIdsAll l
  | .derived _ cs l => (∀ c ∈ cs, c ≠ [] ∧ c.all wordChar = true) ∧ PlainIdsAll l ∧
      apartIds (cs.map (fun _ => (true, false)) ++ l.map fun t => (bareId t, opensId t)) = true
def PlainIdsAll : List Ty → Prop
  | [] => True
  | t :: l => PlainIds t ∧ PlainIdsAll l
end

end Spec

open Spec Trees

namespace Ty

variable (P : Nat → IdDecl)

/-- The words whose arguments are separated by `, `. -/
def spaced (w : List Char) : Bool :=
  [("Result" : String).toList, ("Map" : String).toList, ("either::Either" : String).toList].contains w

mutual
/-- The structure of an id. -/
def tree : Ty → Tree
  | .fixed f => .word f.id.toList
  | .option t => .angle "Option".toList [tree t]
  | .seq t => .square [tree t]
  | .set t => .angle "Set".toList [tree t]
  | .emptyArray => .square []
  | .array n t => .square [.word (num n), tree t]
  | .arrayVec _ _ => .square []
  | .tuple l => .round (trees l)
  | .map k v =>
      if id P k = "string".toList then .angle "Map".toList [tree v] else .angle "Map".toList [tree k, tree v]
  | .result t e => .angle "Result".toList [tree t, tree e]
  | .bound t => .angle "Bound".toList [tree t]
  | .range t => .angle "Range".toList [tree t]
  | .either l r => .angle "either::Either".toList [tree l, tree r]
  | .derived d cs l =>
      if cs.isEmpty && l.isEmpty then .word (path (P d))
      else .angle (path (P d)) (cs.map .word ++ trees l)
def trees : List Ty → List Tree
  | [] => []
  | t :: l => tree t :: trees l
end

variable {P}

theorem fixed_taken (f : Fixed) : f.id ∈ taken := by
  cases f with
  | int t => cases t <;> decide
  | nonZero t => cases t <;> decide
  | _ => decide

theorem fixed_word (f : Fixed) : f.id.toList ≠ [] ∧ f.id.toList.all isWord = true :=
  (by decide : ∀ w ∈ taken, w.toList ≠ [] ∧ w.toList.all isWord = true) f.id (fixed_taken f)

/-- The types without params, by id. -/
def allFixed : List Fixed :=
  let ints : List IntTy := [.i8, .i16, .i32, .i64, .i128, .isize, .u8, .u16, .u32, .u64, .u128, .usize]
  ints.map .int ++ ints.map .nonZero ++
  [.string, .bool, .unit, .f32, .f64, .ipv4, .ipv6, .ip, .char, .value, .number, .duration, .systemTime,
   .osString, .cString, .bytes, .decimal, .weekday, .timeDelta, .chronoDate, .chronoDateTime, .chronoTime,
   .chronoZoned, .jiffSignedDuration, .jiffSpan, .jiffTimestamp, .jiffZoned, .jiffDate, .jiffTime,
   .jiffDateTime, .semver, .url, .uuid, .schema]

theorem fixed_find (f : Fixed) : allFixed.find? (fun g => g.id == f.id) = some f := by
  cases f with
  | int t => cases t <;> decide
  | nonZero t => cases t <;> decide
  | _ => decide

theorem fixed_inj {f g : Fixed} (h : f.id = g.id) : f = g := by
  have h1 := fixed_find f
  rw [h, fixed_find g] at h1
  exact (Option.some.inj h1).symm

theorem num_word (n : Nat) : num n ≠ [] ∧ (num n).all isWord = true := by
  have e : num n = Nat.toDigits 10 n := by simp [num, Nat.repr]
  obtain ⟨d, t, h, -, -⟩ := toDigits_head n
  refine ⟨by rw [e, h]; simp, ?_⟩
  rw [e, List.all_eq_true]
  intro c hc
  have := Nat.isDigit_of_mem_toDigits (by decide) (by decide) hc
  have hm : ∀ x ∈ ['<', '>', ',', '[', ']', '(', ')', ';', ' '], x.isDigit = false := by decide
  simp only [isWord, decide_eq_true_eq]
  intro hx
  rw [hm c hx] at this
  cases this

theorem num_inj {n m : Nat} (h : num n = num m) : n = m := repr_inj (String.toList_injective h)

theorem not_spaced (hP : Paths P) (d : Nat) : spaced (path (P d)) = false := by
  by_contra h
  rw [Bool.not_eq_false] at h
  have h1 := List.elem_iff.1 h
  have h2 : ∀ w ∈ [("Result" : String).toList, ("Map" : String).toList, ("either::Either" : String).toList],
      String.ofList w ∈ taken := by decide
  exact hP.free d (h2 _ h1)

theorem path_ne (d : IdDecl) : path d ≠ [] := by
  simp [path]

theorem tree_bare {t : Ty} (ht : PlainIds t) : (tree P t).bare = bareId t ∧ (tree P t).opens = opensId t := by
  cases t with
  | map k v => simp only [tree]; split <;> exact ⟨rfl, rfl⟩
  | derived d cs l =>
    simp only [tree, bareId, opensId]
    split
    · rename_i h; rw [h]; exact ⟨rfl, rfl⟩
    · rename_i h; rw [Bool.not_eq_true] at h; rw [h]; exact ⟨rfl, rfl⟩
  | arrayVec n t => exact absurd ht (by simp [PlainIds])
  | _ => exact ⟨rfl, rfl⟩

theorem trees_eq (l : List Ty) : trees P l = l.map (tree P) := by
  induction l with
  | nil => rfl
  | cons t l ih => simp [trees, ih]

theorem plainIdsAll {l : List Ty} (h : PlainIdsAll l) : ∀ t ∈ l, PlainIds t := by
  induction l with
  | nil => intro t ht; cases ht
  | cons a l ih =>
    intro t ht
    rcases List.mem_cons.1 ht with rfl | ht
    · exact h.1
    · exact ih h.2 t ht

theorem apart_of (l : List Tree) (h : apartIds (l.map fun t => (t.bare, t.opens)) = true) : Apart l := by
  induction l with
  | nil => trivial
  | cons a l ih =>
    cases l with
    | nil => trivial
    | cons b l =>
      simp only [List.map_cons, apartIds, Bool.and_eq_true, Bool.or_eq_true, Bool.not_eq_true'] at h
      refine ⟨fun ha => ?_, ih h.2⟩
      rcases h.1 with h1 | h1
      · rw [ha] at h1; cases h1
      · exact h1

theorem goods_of {sp : List Char → Bool} {l : List Tree} (h : ∀ t ∈ l, Neat sp t) : Neats sp l := by
  induction l with
  | nil => trivial
  | cons a l ih => exact ⟨h a (by simp), ih fun t ht => h t (by simp [ht])⟩

theorem neats_mem {sp : List Char → Bool} {l : List Tree} (h : Neats sp l) {t : Tree} (ht : t ∈ l) :
    Neat sp t := by
  induction l with
  | nil => cases ht
  | cons a l ih =>
    rcases List.mem_cons.1 ht with rfl | ht
    · exact h.1
    · exact ih h.2 ht

mutual
theorem tree_good (hP : Paths P) : ∀ t, PlainIds t → Neat spaced (tree P t)
  | .fixed f, _ => by simpa only [tree, Neat] using fixed_word f
  | .option t, h => by
      simp only [tree, Neat, Neats]
      exact ⟨by decide, by decide, ⟨tree_good hP t h, trivial⟩, fun _ => trivial⟩
  | .seq t, h => by simp only [tree, Neat, Neats]; exact ⟨tree_good hP t h, trivial⟩
  | .set t, h => by
      simp only [tree, Neat, Neats]
      exact ⟨by decide, by decide, ⟨tree_good hP t h, trivial⟩, fun _ => trivial⟩
  | .emptyArray, _ => by simp only [tree, Neat, Neats]
  | .array n t, h => by
      simp only [tree, Neat, Neats]
      exact ⟨num_word n, tree_good hP t h, trivial⟩
  | .arrayVec _ _, h => absurd h (by simp [PlainIds])
  | .tuple l, h => by simp only [tree, Neat]; exact trees_good hP l h
  | .map k v, h => by
      simp only [tree]
      split
      · simp only [Neat, Neats]
        exact ⟨by decide, by decide, ⟨tree_good hP v h.2, trivial⟩, fun _ => trivial⟩
      · simp only [Neat, Neats]
        exact ⟨by decide, by decide, ⟨tree_good hP k h.1, tree_good hP v h.2, trivial⟩,
          fun h => absurd h (by decide)⟩
  | .result a b, h => by
      simp only [tree, Neat, Neats]
      exact ⟨by decide, by decide, ⟨tree_good hP a h.1, tree_good hP b h.2, trivial⟩,
        fun h => absurd h (by decide)⟩
  | .bound t, h => by
      simp only [tree, Neat, Neats]
      exact ⟨by decide, by decide, ⟨tree_good hP t h, trivial⟩, fun _ => trivial⟩
  | .range t, h => by
      simp only [tree, Neat, Neats]
      exact ⟨by decide, by decide, ⟨tree_good hP t h, trivial⟩, fun _ => trivial⟩
  | .either a b, h => by
      simp only [tree, Neat, Neats]
      exact ⟨by decide, by decide, ⟨tree_good hP a h.1, tree_good hP b h.2, trivial⟩,
        fun h => absurd h (by decide)⟩
  | .derived d cs l, h => by
      have hl := trees_good hP l h.2.1
      simp only [tree]
      split
      · simp only [Neat]; exact ⟨path_ne _, hP.word d⟩
      · simp only [Neat]
        refine ⟨path_ne _, hP.word d, ?_, fun _ => apart_of _ ?_⟩
        · apply goods_of
          intro t ht
          rcases List.mem_append.1 ht with ht | ht
          · obtain ⟨c, hc, rfl⟩ := List.mem_map.1 ht
            simp only [Neat]; exact h.1 c hc
          · exact neats_mem hl ht
        · have hp := h.2.2
          have hpl := plainIdsAll h.2.1
          rw [List.map_append, List.map_map, trees_eq, List.map_map]
          have e1 : cs.map ((fun t : Tree => (t.bare, t.opens)) ∘ Tree.word) = cs.map fun _ => (true, false) := rfl
          have e2 : l.map ((fun t : Tree => (t.bare, t.opens)) ∘ tree P) = l.map fun t => (bareId t, opensId t) := by
            apply List.map_congr_left
            intro t ht
            have := tree_bare (P := P) (hpl t ht)
            simp only [Function.comp, this.1, this.2]
          rw [e1, e2]; exact hp
theorem trees_good (hP : Paths P) : ∀ l, PlainIdsAll l → Neats spaced (trees P l)
  | [], _ => trivial
  | t :: l, h => ⟨tree_good hP t h.1, trees_good hP l h.2⟩
end

theorem prsTail_eq (sp : List Char → Bool) (s : List Char) (l : List Tree) :
    prsTail sp s l = (l.map fun t => s ++ pr sp t).flatten := by
  induction l with
  | nil => simp [prsTail]
  | cons t l ih => simp [prsTail, ih]

theorem prs_join (sp : List Char → Bool) (s : List Char) (l : List Tree) :
    prs sp s l = join s (l.map (pr sp)) := by
  cases l with
  | nil => simp [prs, join]
  | cons t l =>
    simp only [prs, List.map_cons]
    induction l generalizing t with
    | nil => simp [prsTail, join]
    | cons b l ih => simp [prsTail, join, ← ih b]

theorem join_nil (l : List (List Char)) : join [] l = l.flatten := by
  cases l with
  | nil => rfl
  | cons a l =>
    induction l generalizing a with
    | nil => simp [join]
    | cons b l ih => simp only [join, List.append_nil, List.flatten_cons]; rw [ih b]; rfl

theorem id_map_pos {k v : Ty} (c : id P k = "string".toList) :
    id P (.map k v) = fill "Map<" (id P v) "" [] ">" := by
  rw [id, if_pos c]

theorem id_map_neg {k v : Ty} (c : id P k ≠ "string".toList) :
    id P (.map k v) = fill "Map<" (id P k) ", " (id P v) ">" := by
  rw [id, if_neg c]

set_option maxHeartbeats 1000000 in
mutual
/-- The id is the text of the tree. -/
theorem pr_tree (hP : Paths P) : ∀ t, PlainIds t → pr spaced (tree P t) = id P t
  | .fixed f, _ => by simp only [tree, pr, id]
  | .option t, h => by simp [tree, pr, prs, prsTail, id, fill, pr_tree hP t h]
  | .seq t, h => by simp [tree, pr, prs, prsTail, id, fill, pr_tree hP t h]
  | .set t, h => by simp [tree, pr, prs, prsTail, id, fill, pr_tree hP t h]
  | .emptyArray, _ => by simp [tree, pr, prs, id]
  | .array n t, h => by simp [tree, pr, prs, prsTail, id, fill, pr_tree hP t h]
  | .arrayVec _ _, h => absurd h (by simp [PlainIds])
  | .tuple l, h => by
      simp only [tree, pr, id, fill, prs_join]
      rw [prs_trees hP l h]
      simp
  | .map k v, h => by
      have hk := pr_tree hP k h.1
      have hv := pr_tree hP v h.2
      by_cases c : id P k = "string".toList
      · have e1 : tree P (.map k v) = .angle "Map".toList [tree P v] := by rw [tree, if_pos c]
        rw [e1, id_map_pos c]
        simp [pr, prs, prsTail, hv, fill]
      · have e1 : tree P (.map k v) = .angle "Map".toList [tree P k, tree P v] := by rw [tree, if_neg c]
        rw [e1, id_map_neg c]
        simp [pr, prs, prsTail, hv, hk, sep, fill, (by decide : spaced ['M', 'a', 'p'] = true)]
  | .result a b, h => by
      simp [tree, pr, prs, prsTail, pr_tree hP a h.1, pr_tree hP b h.2, id, fill, sep,
        (by decide : spaced ['R', 'e', 's', 'u', 'l', 't'] = true)]
  | .bound t, h => by simp [tree, pr, prs, prsTail, id, fill, pr_tree hP t h]
  | .range t, h => by simp [tree, pr, prs, prsTail, id, fill, pr_tree hP t h]
  | .either a b, h => by
      simp [tree, pr, prs, prsTail, pr_tree hP a h.1, pr_tree hP b h.2, id, fill, sep,
        (by decide : spaced ['e', 'i', 't', 'h', 'e', 'r', ':', ':', 'E', 'i', 't', 'h', 'e', 'r'] = true)]
  | .derived d cs l, h => by
      have hl := prs_trees hP l h.2.1
      simp only [tree, id, fill]
      split
      · simp [pr, path]
      · simp only [pr, sep, not_spaced hP, prs_join, List.map_append, hl, List.map_map]
        have e : cs.map (pr spaced ∘ Tree.word) = cs := by
          conv_rhs => rw [← List.map_id cs]
          apply List.map_congr_left
          intro c _; simp [pr]
        simp [e, path, join_nil]
theorem prs_trees (hP : Paths P) : ∀ l, PlainIdsAll l → (trees P l).map (pr spaced) = ids P l
  | [], _ => rfl
  | t :: l, h => by
      simp only [trees, ids, List.map_cons, pr_tree hP t h.1, prs_trees hP l h.2]
end

/-- Which constructor a type has. -/
def tag : Ty → Nat
  | .fixed _ => 0 | .option _ => 1 | .seq _ => 2 | .set _ => 3 | .emptyArray => 4 | .array _ _ => 5
  | .arrayVec _ _ => 6 | .tuple _ => 7 | .map _ _ => 8 | .result _ _ => 9 | .bound _ => 10 | .range _ => 11
  | .either _ _ => 12 | .derived _ _ _ => 13

/-- The constructor, read from the tree. -/
def tagOf : Tree → Nat
  | .word w => if String.ofList w ∈ taken then 0 else 13
  | .angle w _ =>
    if w = "Option".toList then 1 else if w = "Set".toList then 3 else if w = "Map".toList then 8
    else if w = "Result".toList then 9 else if w = "Bound".toList then 10 else if w = "Range".toList then 11
    else if w = "either::Either".toList then 12 else 13
  | .square [] => 4
  | .square [_] => 2
  | .square _ => 5
  | .round _ => 7

theorem tagOf_tree (hP : Paths P) {t : Ty} (h : PlainIds t) : tagOf (tree P t) = tag t := by
  cases t with
  | fixed f =>
    simp only [tree, tagOf, tag, String.ofList_toList]
    rw [if_pos (fixed_taken f)]
  | map k v => simp only [tree]; split <;> rfl
  | arrayVec n t => exact absurd h (by simp [PlainIds])
  | derived d cs l =>
    have hf := hP.free d
    simp only [tree, tag]
    split
    · simp only [tagOf, if_neg hf]
    · have hn : ∀ s ∈ taken, path (P d) ≠ s.toList := by
        intro s hs e
        rw [e, String.ofList_toList] at hf
        exact hf hs
      simp only [tagOf, hn "Option" (by decide), hn "Set" (by decide), hn "Map" (by decide),
        hn "Result" (by decide), hn "Bound" (by decide), hn "Range" (by decide),
        hn "either::Either" (by decide), if_false]
  | _ => rfl

theorem taken_word {d : Nat} (hP : Paths P) : path (P d) ≠ "string".toList := by
  intro e
  have := hP.free d
  rw [e, String.ofList_toList] at this
  exact this (by decide)

mutual
theorem tree_inj (hP : Paths P) : ∀ t t', PlainIds t → PlainIds t' → Legal P t → Legal P t' →
    tree P t = tree P t' → t = t'
  | .fixed f, t', h, h', _, _, e => by
      have ht : tag (.fixed f) = tag t' := by rw [← tagOf_tree hP h, ← tagOf_tree hP h', e]
      cases t' with
      | fixed g =>
        simp only [tree, Tree.word.injEq] at e
        rw [fixed_inj (String.toList_injective e)]
      | _ => exact absurd ht (by simp [tag])
  | .option t, t', h, h', g, g', e => by
      have ht : tag (.option t) = tag t' := by rw [← tagOf_tree hP h, ← tagOf_tree hP h', e]
      cases t' with
      | option t' =>
        simp only [tree, Tree.angle.injEq, List.cons.injEq, true_and, and_true] at e
        rw [tree_inj hP t t' h h' g g' e]
      | _ => exact absurd ht (by simp [tag])
  | .seq t, t', h, h', g, g', e => by
      have ht : tag (.seq t) = tag t' := by rw [← tagOf_tree hP h, ← tagOf_tree hP h', e]
      cases t' with
      | seq t' =>
        simp only [tree, Tree.square.injEq, List.cons.injEq, and_true] at e
        rw [tree_inj hP t t' h h' g g' e]
      | _ => exact absurd ht (by simp [tag])
  | .set t, t', h, h', g, g', e => by
      have ht : tag (.set t) = tag t' := by rw [← tagOf_tree hP h, ← tagOf_tree hP h', e]
      cases t' with
      | set t' =>
        simp only [tree, Tree.angle.injEq, List.cons.injEq, true_and, and_true] at e
        rw [tree_inj hP t t' h h' g g' e]
      | _ => exact absurd ht (by simp [tag])
  | .emptyArray, t', h, h', _, _, e => by
      have ht : tag .emptyArray = tag t' := by rw [← tagOf_tree hP h, ← tagOf_tree hP h', e]
      cases t' with
      | emptyArray => rfl
      | _ => exact absurd ht (by simp [tag])
  | .array n t, t', h, h', g, g', e => by
      have ht : tag (.array n t) = tag t' := by rw [← tagOf_tree hP h, ← tagOf_tree hP h', e]
      cases t' with
      | array n' t' =>
        simp only [tree, Tree.square.injEq, List.cons.injEq, Tree.word.injEq, and_true] at e
        rw [tree_inj hP t t' h h' g g' e.2, num_inj e.1]
      | _ => exact absurd ht (by simp [tag])
  | .arrayVec _ _, _, h, _, _, _, _ => absurd h (by simp [PlainIds])
  | .tuple l, t', h, h', g, g', e => by
      have ht : tag (.tuple l) = tag t' := by rw [← tagOf_tree hP h, ← tagOf_tree hP h', e]
      cases t' with
      | tuple l' =>
        simp only [tree, Tree.round.injEq] at e
        rw [trees_inj hP l l' h h' g.2 g'.2 e]
      | _ => exact absurd ht (by simp [tag])
  | .map k v, t', h, h', g, g', e => by
      have ht : tag (.map k v) = tag t' := by rw [← tagOf_tree hP h, ← tagOf_tree hP h', e]
      cases t' with
      | map k' v' =>
        simp only [tree] at e
        by_cases c : id P k = "string".toList
        · by_cases c' : id P k' = "string".toList
          · rw [if_pos c, if_pos c'] at e
            simp only [Tree.angle.injEq, List.cons.injEq, true_and, and_true] at e
            have hk : tree P k = tree P k' := by
              refine (pr_inj (sp := spaced) _ _ [] [] (tree_good hP k h.1) (tree_good hP k' h'.1)
                (by intro _ c l hc; cases hc) (by intro _ c l hc; cases hc) ?_).1
              rw [pr_tree hP k h.1, pr_tree hP k' h'.1, c, c']
            rw [tree_inj hP v v' h.2 h'.2 g.2 g'.2 e, tree_inj hP k k' h.1 h'.1 g.1 g'.1 hk]
          · rw [if_pos c, if_neg c'] at e
            simp at e
        · by_cases c' : id P k' = "string".toList
          · rw [if_neg c, if_pos c'] at e
            simp at e
          · rw [if_neg c, if_neg c'] at e
            simp only [Tree.angle.injEq, List.cons.injEq, true_and, and_true] at e
            rw [tree_inj hP v v' h.2 h'.2 g.2 g'.2 e.2, tree_inj hP k k' h.1 h'.1 g.1 g'.1 e.1]
      | _ => exact absurd ht (by simp [tag])
  | .result a b, t', h, h', g, g', e => by
      have ht : tag (.result a b) = tag t' := by rw [← tagOf_tree hP h, ← tagOf_tree hP h', e]
      cases t' with
      | result a' b' =>
        simp only [tree, Tree.angle.injEq, List.cons.injEq, true_and, and_true] at e
        rw [tree_inj hP a a' h.1 h'.1 g.1 g'.1 e.1, tree_inj hP b b' h.2 h'.2 g.2 g'.2 e.2]
      | _ => exact absurd ht (by simp [tag])
  | .bound t, t', h, h', g, g', e => by
      have ht : tag (.bound t) = tag t' := by rw [← tagOf_tree hP h, ← tagOf_tree hP h', e]
      cases t' with
      | bound t' =>
        simp only [tree, Tree.angle.injEq, List.cons.injEq, true_and, and_true] at e
        rw [tree_inj hP t t' h h' g g' e]
      | _ => exact absurd ht (by simp [tag])
  | .range t, t', h, h', g, g', e => by
      have ht : tag (.range t) = tag t' := by rw [← tagOf_tree hP h, ← tagOf_tree hP h', e]
      cases t' with
      | range t' =>
        simp only [tree, Tree.angle.injEq, List.cons.injEq, true_and, and_true] at e
        rw [tree_inj hP t t' h h' g g' e]
      | _ => exact absurd ht (by simp [tag])
  | .either a b, t', h, h', g, g', e => by
      have ht : tag (.either a b) = tag t' := by rw [← tagOf_tree hP h, ← tagOf_tree hP h', e]
      cases t' with
      | either a' b' =>
        simp only [tree, Tree.angle.injEq, List.cons.injEq, true_and, and_true] at e
        rw [tree_inj hP a a' h.1 h'.1 g.1 g'.1 e.1, tree_inj hP b b' h.2 h'.2 g.2 g'.2 e.2]
      | _ => exact absurd ht (by simp [tag])
  | .derived d cs l, t', h, h', g, g', e => by
      have ht : tag (.derived d cs l) = tag t' := by rw [← tagOf_tree hP h, ← tagOf_tree hP h', e]
      cases t' with
      | derived d' cs' l' =>
        simp only [tree] at e
        by_cases c : (cs.isEmpty && l.isEmpty) = true
        · by_cases c' : (cs'.isEmpty && l'.isEmpty) = true
          · rw [if_pos c, if_pos c'] at e
            simp only [Tree.word.injEq] at e
            simp only [Bool.and_eq_true, List.isEmpty_iff] at c c'
            rw [hP.inj d d' e, c.1, c.2, c'.1, c'.2]
          · rw [if_pos c, if_neg c'] at e; cases e
        · by_cases c' : (cs'.isEmpty && l'.isEmpty) = true
          · rw [if_neg c, if_pos c'] at e; cases e
          · rw [if_neg c, if_neg c'] at e
            simp only [Tree.angle.injEq] at e
            have hd := hP.inj d d' e.1
            subst hd
            have e2 := List.append_inj e.2 (by
              rw [List.length_map, List.length_map, g.1, g'.1])
            have e3 : cs = cs' := List.map_injective_iff.2 (fun a b hab => by cases hab; rfl) e2.1
            rw [e3, trees_inj hP l l' h.2.1 h'.2.1 g.2.2 g'.2.2 e2.2]
      | _ => exact absurd ht (by simp [tag])
theorem trees_inj (hP : Paths P) : ∀ l l', PlainIdsAll l → PlainIdsAll l' → LegalAll P l → LegalAll P l' →
    trees P l = trees P l' → l = l'
  | [], [], _, _, _, _, _ => rfl
  | [], _ :: _, _, _, _, _, e => by simp [trees] at e
  | _ :: _, [], _, _, _, _, e => by simp [trees] at e
  | t :: l, t' :: l', h, h', g, g', e => by
      simp only [trees, List.cons.injEq] at e
      rw [tree_inj hP t t' h.1 h'.1 g.1 g'.1 e.1, trees_inj hP l l' h.2 h'.2 g.2 g'.2 e.2]
end

end Ty

open Ty

/-- C59, without `ArrayVec` and when in the argument lists of derived types no two words touch (for instance,
when there is at most one argument): types with the same id are the same type, and so have the same
implementation. -/
theorem C59_partial {P : Nat → IdDecl} (hP : Paths P) {t t' : Ty} (hl : Legal P t) (hl' : Legal P t')
    (hp : PlainIds t) (hp' : PlainIds t') (h : (typeDef P t).schemaId = (typeDef P t').schemaId) :
    t = t' ∧ typeDef P t = typeDef P t' := by
  have e : Ty.id P t = Ty.id P t' := by
    have := congrArg String.toList h
    simpa only [typeDef, String.toList_ofList] using this
  have : t = t' := by
    refine tree_inj hP t t' hp hp' hl hl' (pr_inj (sp := spaced) _ _ [] [] (tree_good hP t hp) (tree_good hP t' hp')
      (by intro _ c l hc; cases hc) (by intro _ c l hc; cases hc) ?_).1
    rw [pr_tree hP t hp, pr_tree hP t' hp', e]
  exact ⟨this, by rw [this]⟩

/-! ## Examples and counterexamples -/

namespace IdEx

/-- A derived type without renaming whose schema is `{"const": s}`. -/
def decl (m n : String) (consts args : Nat) (s : List (List Char) → List Ty → Json) : IdDecl where
  modulePath := m.toList
  name := n.toList
  consts := consts
  args := args
  nameOf := fun _ _ => n.toList
  inline := false
  body := fun cs l => .ret (mkObj [("const", s cs l)])

/-- Declarations with one path each: `m::T`, `m::T1`, `m::T11`, ..., all with one type param. -/
def distinct (d : Nat) : IdDecl := decl "m" (String.ofList ('T' :: List.replicate d '1')) 0 1 fun _ _ => .num (.int d)

theorem distinct_paths : Paths distinct where
  word d := by
    simp only [path, distinct, decl, String.toList_ofList, List.all_append, List.all_cons, List.all_replicate]
    have h : wordChar '1' = true := by decide
    rw [h]
    simp only [ite_self]
    decide
  inj d d' h := by
    have := congrArg List.length h
    simpa [path, distinct, decl] using this
  free d := by
    intro h
    have h1 : ∀ w ∈ taken, w.toList.take 4 ≠ "m::T".toList := by decide
    apply h1 _ h
    simp [path, distinct, decl]

/-- `T1<Option<T<i32>>>` and `T<T1<i32>>` are types that `C59_partial` covers. -/
example : Legal distinct (.derived 1 [] [.option (.derived 0 [] [.fixed (.int .i32)])]) ∧
    PlainIds (.derived 1 [] [.option (.derived 0 [] [.fixed (.int .i32)])]) ∧
    Legal distinct (.derived 0 [] [.derived 1 [] [.fixed (.int .i32)]]) ∧
    PlainIds (.derived 0 [] [.derived 1 [] [.fixed (.int .i32)]]) := by
  simp [Legal, LegalAll, PlainIds, PlainIdsAll, apartIds, distinct, decl]

/-- The ids of some types. -/
example : String.ofList (Ty.id distinct (.map (.fixed .string) (.tuple [.fixed .bool, .array 3 (.fixed .char)]))) =
      "Map<(boolean,[3; char])>" ∧
    String.ofList (Ty.id distinct (.map (.fixed (.int .u8)) (.set (.derived 1 [] [.fixed .uuid])))) =
      "Map<uint8, Set<m::T1<uuid::Uuid>>>" := by
  constructor <;> rfl

/-- `struct Grid<const H: usize, const W: usize>`, `struct Pair<T, U>`, structs `A`, `Am`, `B` in `m`, a struct `B`
in the crate `mm`, structs `T` in two modules, and two structs of one module renamed to `X`. -/
def P : Nat → IdDecl
  | 0 => decl "m" "Grid" 2 0 fun cs _ => .arr (cs.map fun c => .str (String.ofList c))
  | 1 => decl "m" "Pair" 0 2 fun _ l => .num (.int (match l with | .derived d _ _ :: _ => d | _ => 0))
  | 2 => decl "m" "A" 0 0 fun _ _ => .str "m::A"
  | 3 => decl "m" "Am" 0 0 fun _ _ => .str "m::Am"
  | 4 => decl "m" "B" 0 0 fun _ _ => .str "m::B"
  | 5 => decl "mm" "B" 0 0 fun _ _ => .str "mm::B"
  | 6 => decl "m::a" "T" 0 0 fun _ _ => .str "a"
  | 7 => decl "m::b" "T" 0 0 fun _ _ => .str "b"
  | 8 => decl "m" "X" 0 0 fun _ _ => .str "first"
  | _ => decl "m" "X" 0 0 fun _ _ => .str "second"

/-- `Grid<1, 23>` -/
def grid1 : Ty := .derived 0 ["1".toList, "23".toList] []
/-- `Grid<12, 3>` -/
def grid2 : Ty := .derived 0 ["12".toList, "3".toList] []

end IdEx

/-- The const arguments are not separated: `Grid<1, 23>` and `Grid<12, 3>` have the same id. -/
theorem C59_consts : Legal IdEx.P IdEx.grid1 ∧ Legal IdEx.P IdEx.grid2 ∧
    (typeDef IdEx.P IdEx.grid1).schemaId = (typeDef IdEx.P IdEx.grid2).schemaId ∧
    typeDef IdEx.P IdEx.grid1 ≠ typeDef IdEx.P IdEx.grid2 := by
  refine ⟨by simp [Legal, LegalAll, IdEx.grid1, IdEx.P, IdEx.decl],
    by simp [Legal, LegalAll, IdEx.grid2, IdEx.P, IdEx.decl], rfl, ?_⟩
  intro h
  have := congrArg TypeDef.body h
  simp only [typeDef, IdEx.grid1, IdEx.grid2, body, IdEx.P, IdEx.decl, Prog.ret.injEq] at this
  exact absurd this (by decide)

/-- The type arguments are not separated: `Pair<m::A, mm::B>` and `Pair<m::Am, m::B>` have the same id. -/
theorem C59_args : Legal IdEx.P (.derived 1 [] [.derived 2 [] [], .derived 5 [] []]) ∧
    Legal IdEx.P (.derived 1 [] [.derived 3 [] [], .derived 4 [] []]) ∧
    (typeDef IdEx.P (.derived 1 [] [.derived 2 [] [], .derived 5 [] []])).schemaId =
      (typeDef IdEx.P (.derived 1 [] [.derived 3 [] [], .derived 4 [] []])).schemaId ∧
    typeDef IdEx.P (.derived 1 [] [.derived 2 [] [], .derived 5 [] []]) ≠
      typeDef IdEx.P (.derived 1 [] [.derived 3 [] [], .derived 4 [] []]) := by
  refine ⟨by simp [Legal, LegalAll, IdEx.P, IdEx.decl], by simp [Legal, LegalAll, IdEx.P, IdEx.decl], rfl, ?_⟩
  intro h
  have := congrArg TypeDef.body h
  simp only [typeDef, body, IdEx.P, IdEx.decl, Prog.ret.injEq] at this
  exact absurd this (by decide)

/-- The id of `ArrayVec<T, CAP>` is its name, which has the name of `T` in place of its id. -/
theorem C59_arrayVec : Legal IdEx.P (.arrayVec 3 (.derived 6 [] [])) ∧
    Legal IdEx.P (.arrayVec 3 (.derived 7 [] [])) ∧
    (typeDef IdEx.P (.arrayVec 3 (.derived 6 [] []))).schemaId =
      (typeDef IdEx.P (.arrayVec 3 (.derived 7 [] []))).schemaId ∧
    typeDef IdEx.P (.arrayVec 3 (.derived 6 [] [])) ≠ typeDef IdEx.P (.arrayVec 3 (.derived 7 [] [])) := by
  refine ⟨by simp [Legal, LegalAll, IdEx.P, IdEx.decl], by simp [Legal, LegalAll, IdEx.P, IdEx.decl], rfl, ?_⟩
  intro h
  have := congrArg TypeDef.body h
  simp only [typeDef, body, Prog.sub.injEq] at this
  exact absurd this.1 (by simp)

/-- The id of a derived type has the name that `rename` gives in place of the name of the type. -/
theorem C59_renamed : Legal IdEx.P (.derived 8 [] []) ∧ Legal IdEx.P (.derived 9 [] []) ∧
    (typeDef IdEx.P (.derived 8 [] [])).schemaId = (typeDef IdEx.P (.derived 9 [] [])).schemaId ∧
    typeDef IdEx.P (.derived 8 [] []) ≠ typeDef IdEx.P (.derived 9 [] []) := by
  refine ⟨by simp [Legal, LegalAll, IdEx.P, IdEx.decl], by simp [Legal, LegalAll, IdEx.P, IdEx.decl], rfl, ?_⟩
  intro h
  have := congrArg TypeDef.body h
  simp only [typeDef, body, IdEx.P, IdEx.decl, Prog.ret.injEq] at this
  exact absurd this (by decide)

theorem C59_Full_false : ¬ C59_Full := fun h =>
  C59_consts.2.2.2 (h IdEx.P _ _ C59_consts.1 C59_consts.2.1 C59_consts.2.2.1)

/-- Why it matters: once a type has got a reference, every later request for another type with the same id gets
that reference, whatever the other type's implementation is. -/
theorem C59_merged {τ : Type} {Γ : τ → TypeDef τ} {n : Nat} {R' : τ → Gen τ → Option (Json × Gen τ)} {t t' : τ}
    {g g' g'' : Gen τ} {s : Json} (hid : (Γ t).schemaId = (Γ t').schemaId)
    (hin : (Γ t).inlineSchema = false) (hin' : (Γ t').inlineSchema = false)
    (hset : g.settings.inlineSubschemas = true → uidOf Γ g t ∈ g.pending)
    (h : subschemaFor Γ (run Γ n) t g = some (s, g')) (hlater : Calls Γ g' g'') :
    subschemaFor Γ R' t' g'' = some (s, g''.note (.handed t' (uidOf Γ g t) s)) := by
  have h1 := C28_reference (R' := fun _ _ => none) hin hset h hlater
  have hu : uidOf Γ g'' t' = uidOf Γ g'' t := by simp [uidOf, hid]
  unfold subschemaFor at h1 ⊢
  simp only [hu, hin, hin'] at h1 ⊢
  by_cases c : (!false && (!g''.settings.inlineSubschemas || decide (uidOf Γ g'' t ∈ g''.pending))) = true
  · rw [if_pos c] at h1 ⊢
    by_cases c2 : g''.rootStack.head? = some (uidOf Γ g'' t)
    · rw [if_pos c2] at h1 ⊢
      simp only [Option.some.injEq, Prod.mk.injEq] at h1 ⊢
      refine ⟨h1.1, ?_⟩
      have := congrArg Gen.log h1.2
      simp only [note, List.cons.injEq, Event.handed.injEq, and_true, true_and] at this
      rw [this.1, this.2]
    · rw [if_neg c2] at h1 ⊢
      unfold nameFor at h1 ⊢
      simp only [hu] at h1 ⊢
      cases hn : lookupName g''.names (uidOf Γ g'' t) with
      | none =>
        rw [hn] at h1
        simp only [insertNewSubschemaFor, jsonSchemaInternal, Option.map_none] at h1
        split at h1
        · simp only [Option.some.injEq, Prod.mk.injEq] at h1
          have := congrArg Gen.names h1.2
          simp [note] at this
        · cases h1
      | some m =>
        rw [hn] at h1
        simp only [insertNewSubschemaFor, jsonSchemaInternal, Option.map_none] at h1 ⊢
        split at h1
        · rename_i hd
          have hd' : Obj.has (g''.note (.handed t' (uidOf Γ g'' t)
            (Schema.newRef (refFor g''.settings.definitionsPath.toList m)))).defs m = true := hd
          rw [if_pos hd']
          simp only [Option.some.injEq, Prod.mk.injEq] at h1 ⊢
          refine ⟨h1.1, ?_⟩
          have := congrArg Gen.log h1.2
          simp only [note, List.cons.injEq, Event.handed.injEq, and_true, true_and] at this
          rw [this.1, h1.1]
        · cases h1
  · rw [if_neg c] at h1
    simp [jsonSchemaInternal] at h1

/-- Both fields of `struct S { a: Grid<1, 23>, b: Grid<12, 3> }` get the schema of `Grid<1, 23>`. -/
example : ((subschemaFor (typeDef IdEx.P) (run (typeDef IdEx.P) 3) IdEx.grid1 (Gen.new Settings.draft2020)).bind
    fun r => (subschemaFor (typeDef IdEx.P) (run (typeDef IdEx.P) 3) IdEx.grid2 r.2).map fun q =>
      (r.1, q.1, q.2.defs)) =
    some (Schema.newRef "#/$defs/Grid", Schema.newRef "#/$defs/Grid",
      [("Grid", .obj [("const", .arr [.str "1", .str "23"])])]) := by
  rfl

end Verif
