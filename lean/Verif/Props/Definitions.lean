import Verif.Lemmas.AddDefs
import Verif.Props.SchemaApi
import Verif.Props.Encoding

/-!
# C04, C05: where definitions are stored and how references reach them
-/

namespace Verif
open Spec

/-- The settings' definitions path denotes the pointer with the given segments, whatever optional `#` and
trailing `/` it is written with. -/
def PathDenotes (path : String) (segs : List String) : Prop :=
  definitionsPathStripped path.toList = renderPointer segs

/-! ## C05 -/

/-- C05: an optional leading `#` and an optional trailing `/` make no difference. `core` is a path that
itself neither starts with `#` nor ends with `/`. -/
theorem C05_normalise (core : List Char) (h1 : core.head? ≠ some '#') (h2 : core.getLast? ≠ some '/') :
    definitionsPathStripped core = core ∧ definitionsPathStripped ('#' :: core) = core ∧
    definitionsPathStripped (core ++ ['/']) = core ∧
    definitionsPathStripped ('#' :: core ++ ['/']) = core := by
  have a1 : stripPrefix '#' core = none := by
    cases core with
    | nil => rfl
    | cons c t =>
      have : c ≠ '#' := by rintro rfl; exact h1 rfl
      simp [stripPrefix, this]
  have a2 : stripSuffix '/' core = none := by
    unfold stripSuffix
    rw [← List.head?_reverse] at h2
    cases hr : core.reverse with
    | nil => rfl
    | cons c t =>
      have : c ≠ '/' := by rintro rfl; rw [hr] at h2; exact h2 rfl
      simp [stripPrefix, this]
  have a3 : stripSuffix '/' (core ++ ['/']) = some core := by
    simp [stripSuffix, stripPrefix]
  have a4 : stripPrefix '#' (core ++ ['/']) = none := by
    cases core with
    | nil => simp [stripPrefix]
    | cons c t =>
      have : c ≠ '#' := by rintro rfl; exact h1 rfl
      simp [stripPrefix, this]
  have a5 : stripPrefix '#' ('#' :: core) = some core := by simp [stripPrefix]
  have a6 : stripPrefix '#' ('#' :: core ++ ['/']) = some (core ++ ['/']) := by simp [stripPrefix]
  refine ⟨?_, ?_, ?_, ?_⟩
  · simp [definitionsPathStripped, a1, a2]
  · simp [definitionsPathStripped, a5, a2]
  · simp [definitionsPathStripped, a4, a3]
  · simp only [definitionsPathStripped, a6, Option.getD_some, a3]

/-- C05: paths that differ only by an optional leading `#` and an optional trailing `/` give the same
references and put the definitions in the same place. -/
theorem C05_same_effect (core p : List Char) (h1 : core.head? ≠ some '#') (h2 : core.getLast? ≠ some '/')
    (hp : p = core ∨ p = '#' :: core ∨ p = core ++ ['/'] ∨ p = '#' :: core ++ ['/'])
    (m defs : List (String × Json)) (name : String) :
    refFor p name = refFor core name ∧ addDefinitions p m defs = addDefinitions core m defs := by
  obtain ⟨e0, e1, e2, e3⟩ := C05_normalise core h1 h2
  have : definitionsPathStripped p = definitionsPathStripped core := by
    rcases hp with rfl | rfl | rfl | rfl
    · rfl
    · rw [e1, e0]
    · rw [e2, e0]
    · rw [e3, e0]
  simp [refFor, addDefinitions, this]

example : "/$defs".toList.head? ≠ some '#' ∧ "/$defs".toList.getLast? ≠ some '/' := by decide

/-- The path is free in the root object: nothing on it exists yet that is not an object. -/
def PathFree (m : List (String × Json)) (segs : List String) : Prop :=
  ∀ p w, p ≠ [] → p <+: segs → At (.obj m) p w → ∃ n, w = .obj n

theorem addDefinitions_eq {path : String} {segs : List String} {m defs : List (String × Json)}
    (hpath : PathDenotes path segs) (h1 : segs ≠ []) (h2 : segs ≠ [""]) (hne : defs ≠ []) :
    addDefinitions path.toList m defs = (objAtMut m segs fun t => Obj.extend t defs).getD m := by
  have hpath' : definitionsPathStripped path.toList = renderPointer segs := hpath
  simp [addDefinitions, hne, jsonPointerMut, hpath', ptrMutSegments_render h1 h2]

/-- C05: the definitions end up at the path: the target object exists, contains every definition, and
keeps every entry it had before under another name. -/
theorem C05_target (path : String) (segs : List String) (m defs : List (String × Json))
    (hpath : PathDenotes path segs) (h1 : segs ≠ []) (h2 : segs ≠ [""]) (hfree : PathFree m segs)
    (hnodup : (Obj.keys defs).Nodup) (hne : defs ≠ []) :
    ∃ t, At (.obj (addDefinitions path.toList m defs)) segs (.obj t) ∧
      (∀ n d, Obj.get defs n = some d → Obj.get t n = some d) ∧
      (∀ n, Obj.get defs n = none → ∀ v, Obj.get t n = some v ↔ At (.obj m) (segs ++ [n]) v) := by
  obtain ⟨m', hm'⟩ := objAtMut_isSome (f := fun t => Obj.extend t defs) hfree
  rw [addDefinitions_eq hpath h1 h2 hne, hm', Option.getD_some]
  obtain ⟨t, ht1, ht2⟩ := objAtMut_target hm'
  refine ⟨_, ht1, ?_, ?_⟩
  · intro n d hd; rw [Obj.get_extend_nodup _ hnodup, hd]; rfl
  · intro n hn v
    rw [Obj.get_extend_nodup _ hnodup, hn, Option.orElse_none]
    constructor
    · intro hv
      rcases ht2 with ht2 | ⟨rfl, _⟩
      · exact At_append ht2 (.member hv (.here _))
      · simp at hv
    · intro hv
      have split : ∀ (j : Json) (p : List String), At j (p ++ [n]) v → ∃ x, At j p x ∧ At x [n] v := by
        intro j p
        induction p generalizing j with
        | nil => intro h; exact ⟨j, .here _, h⟩
        | cons k p ih =>
          intro h
          cases h with
          | member hg h => obtain ⟨x, hx1, hx2⟩ := ih _ h; exact ⟨x, .member hg hx1, hx2⟩
          | elem i hi h => obtain ⟨x, hx1, hx2⟩ := ih _ h; exact ⟨x, .elem i hi hx1, hx2⟩
      obtain ⟨x, hx1, hx2⟩ := split _ _ hv
      rcases ht2 with ht2 | ⟨_, hno⟩
      · have := At_unique hx1 ht2
        subst this
        cases hx2 with
        | member hg h => cases h; exact hg
      · exact absurd hx1 (hno x)

/-- C05: nothing outside the path changes. -/
theorem C05_frame (path : String) (segs q : List String) (m defs : List (String × Json))
    (hpath : PathDenotes path segs) (h1 : segs ≠ []) (h2 : segs ≠ [""])
    (hq1 : ¬ segs <+: q) (hq2 : ¬ q <+: segs) (w : Json) :
    At (.obj (addDefinitions path.toList m defs)) q w ↔ At (.obj m) q w := by
  by_cases hne : defs = []
  · simp [addDefinitions, hne]
  rw [addDefinitions_eq hpath h1 h2 hne]
  cases hm' : objAtMut m segs fun t => Obj.extend t defs with
  | none => rfl
  | some m' => exact objAtMut_frame hm' hq1 hq2 w

/-- C05: with no definitions the root object is unchanged (no empty `$defs` appears). -/
theorem C05_empty (path : List Char) (m : List (String × Json)) : addDefinitions path m [] = m := by
  simp [addDefinitions]

/-- C05: when something on the path is not an object, the root is left unchanged (the definitions are
dropped without an error). -/
theorem C05_obstructed (path : String) (segs p : List String) (w : Json) (m defs : List (String × Json))
    (hpath : PathDenotes path segs) (h1 : segs ≠ []) (h2 : segs ≠ [""]) (hp : p ≠ []) (hpr : p <+: segs)
    (hw : At (.obj m) p w) (hno : ∀ n, w ≠ .obj n) : addDefinitions path.toList m defs = m := by
  by_cases hne : defs = []
  · simp [addDefinitions, hne]
  rw [addDefinitions_eq hpath h1 h2 hne, objAtMut_blocked hp hpr hw hno]; rfl

/-- The object at the path has all the definitions. -/
def HasDefs (m : List (String × Json)) (segs : List String) (defs : List (String × Json)) : Prop :=
  ∃ t, At (.obj m) segs (.obj t) ∧ ∀ n d, Obj.get defs n = some d → Obj.get t n = some d

/-- C05: the definitions are at the path exactly if it was free, or they were there before. -/
theorem C05_iff {path : String} {segs : List String} {m defs : List (String × Json)} (hpath : PathDenotes path segs)
    (h1 : segs ≠ []) (h2 : segs ≠ [""]) (hnodup : (Obj.keys defs).Nodup) (hne : defs ≠ []) :
    HasDefs (addDefinitions path.toList m defs) segs defs ↔ PathFree m segs ∨ HasDefs m segs defs := by
  by_cases hfree : PathFree m segs
  · obtain ⟨t, ht, hget, -⟩ := C05_target path segs m defs hpath h1 h2 hfree hnodup hne
    exact ⟨fun _ => .inl hfree, fun _ => ⟨t, ht, hget⟩⟩
  · have hn := hfree
    unfold PathFree at hn
    simp only [not_forall] at hn
    obtain ⟨p, w, hp, hpr, hw, hno⟩ := hn
    rw [C05_obstructed path segs p w m defs hpath h1 h2 hp hpr hw (fun n e => hno ⟨n, e⟩)]
    exact ⟨.inr, fun h => h.resolve_left hfree⟩

example : PathDenotes "#/components/schemas/" ["components", "schemas"] := by unfold PathDenotes; decide
example : PathDenotes "/$defs" ["$defs"] := by unfold PathDenotes; decide
example : PathDenotes "/definitions" ["definitions"] := by unfold PathDenotes; decide
example : PathFree [("title", .str "x"), ("$defs", .obj [("A", .bool true)])] ["$defs"] := by
  intro p w hp hpr hw
  cases p with
  | nil => exact absurd rfl hp
  | cons k p =>
    simp only [List.cons_prefix_cons, List.prefix_nil] at hpr
    obtain ⟨rfl, rfl⟩ := hpr
    cases hw with
    | member hg h => cases h; simp [Obj.get] at hg; exact ⟨_, hg.symm⟩

/-! ## C04 -/

/-- C04 for every definitions path and name, already restricted to an empty root object (so that nothing
can obstruct the path): after adding the definitions each one is found through its reference. -/
def C04_Full : Prop :=
  ∀ (path : String) (m defs : List (String × Json)) (name : String) (d : Json),
    (Obj.keys defs).Nodup → Obj.get defs name = some d → m = [] →
    Schema.pointer (.obj (addDefinitions path.toList m defs)) (refFor path.toList name) = some d

/-- C04 is false for `definitions_path = "defs"` (no leading slash): the definitions are dropped and the
reference `#defs/A` finds nothing. -/
theorem C04_refuted_unrooted : ¬ C04_Full := by
  intro h
  have h1 := h "defs" [] [("A", .bool true)] "A" (.bool true) (by decide) (by decide) rfl
  have e1 : addDefinitions "defs".toList [] [("A", .bool true)] = [] := by decide
  have e2 : refFor "defs".toList "A" = "#defs/A" := by decide
  rw [e1, e2] at h1
  have e3 : Schema.pointer (.obj []) "#defs/A" = none := by decide
  rw [e3] at h1; cases h1

/-- C04 is also false for a rooted path with a percent sign: the definitions are stored under `a%20b` but
the reference `#/a%20b/A` is percent-decoded to `/a b/A`. -/
theorem C04_refuted_percent :
    Schema.pointer (.obj (addDefinitions "/a%20b".toList [] [("A", .bool true)]))
      (refFor "/a%20b".toList "A") = none := by
  have e1 : addDefinitions "/a%20b".toList [] [("A", .bool true)] =
    [("a%20b", .obj [("A", .bool true)])] := by decide
  have e2 : Schema.pointerText (refFor "/a%20b".toList "A") = some "/a b/A".toList := by
    have : refFor "/a%20b".toList "A" = "#/a%20b/A" := by decide
    rw [this]
    have h2 : loopBytes "/a%20b/A".toList = utf8 "/a b/A".toList := by decide
    show percentDecodeChars "/a%20b/A".toList = _
    rw [percentDecodeChars_eq, h2, fromUtf8_utf8]
  rw [Schema.pointer, e1, e2]
  decide

/-- C04 for definitions paths that are rooted, non-trivial and without `%`, and names without characters
below U+0010: every reference resolves through `Schema::pointer` on the root to the definition stored
under that name. This covers all built-in settings (`/$defs`, `/definitions`, `/components/schemas`).
Missing: paths without a leading `/`, the path `//`, paths with `%`, control-character names: false
there (`C04_refuted_unrooted`, `C04_refuted_percent`, `C01_refuted`). -/
theorem C04_resolves_partial (path : String) (segs : List String) (m defs : List (String × Json))
    (name : String) (d : Json)
    (hpath : PathDenotes path segs) (h1 : segs ≠ []) (h2 : segs ≠ [""])
    (hpct : '%' ∉ renderPointer segs) (hfree : PathFree m segs)
    (hnodup : (Obj.keys defs).Nodup) (hname : ∀ c ∈ name.toList, 0x10 ≤ c.toNat)
    (hd : Obj.get defs name = some d) :
    Schema.pointer (.obj (addDefinitions path.toList m defs)) (refFor path.toList name) = some d := by
  have hne : defs ≠ [] := by rintro rfl; simp at hd
  obtain ⟨t, ht, hget, _⟩ := C05_target path segs m defs hpath h1 h2 hfree hnodup hne
  have hat := At_append ht (.member (hget name d hd) (.here _))
  rw [← valuePointer_render] at hat
  have hpath' : definitionsPathStripped path.toList = renderPointer segs := hpath
  have htext : Schema.pointerText (refFor path.toList name) = some (renderPointer (segs ++ [name])) := by
    simp only [Schema.pointerText, refFor, String.toList_ofList, List.cons_append, stripPrefix, if_true,
      hpath', percentDecodeChars_eq]
    rw [loopBytes_append_of_no_pct hpct, loopBytes_ne (by decide), loopBytes_encode hname]
    have : utf8 (renderPointer segs) ++ (String.utf8EncodeChar '/' ++ utf8 (escapeToken name.toList)) =
        utf8 (renderPointer (segs ++ [name])) := by
      rw [renderPointer_append]; simp [renderPointer]
    rw [this, fromUtf8_utf8]
  rw [Schema.pointer, htext]
  exact hat

example : '%' ∉ renderPointer ["components", "schemas"] := by decide

/-- The name under which the reference for a name is looked up. It is the name itself unless it has a character below
U+0010 (`C01_iff`). -/
def lookedUp (name : String) : String := String.ofList (name.toList.flatMap decoded)

theorem pointerText_refFor {path : String} {segs : List String} (hpath : PathDenotes path segs)
    (hpct : '%' ∉ renderPointer segs) (name : String) :
    Schema.pointerText (refFor path.toList name) = some (renderPointer (segs ++ [lookedUp name])) := by
  have hpath' : definitionsPathStripped path.toList = renderPointer segs := hpath
  simp only [Schema.pointerText, refFor, String.toList_ofList, List.cons_append, stripPrefix, if_true,
    hpath', percentDecodeChars_eq]
  rw [loopBytes_append_of_no_pct hpct, loopBytes_ne (by decide), encodeRefChars_eq, loopBytes_name]
  have : utf8 (renderPointer segs) ++ (String.utf8EncodeChar '/' ++ utf8 (escapeToken (name.toList.flatMap decoded))) =
      utf8 (renderPointer (segs ++ [lookedUp name])) := by
    rw [renderPointer_append]; simp [renderPointer, lookedUp]
  rw [this, fromUtf8_utf8]

theorem At_split {p q : List String} {j w : Json} (h : At j (p ++ q) w) : ∃ v, At j p v ∧ At v q w := by
  induction p generalizing j with
  | nil => exact ⟨j, .here _, h⟩
  | cons k p ih =>
    cases h with
    | member hg h =>
      obtain ⟨v, h1, h2⟩ := ih h
      exact ⟨v, .member hg h1, h2⟩
    | elem hi hg h =>
      obtain ⟨v, h1, h2⟩ := ih h
      exact ⟨v, .elem hi hg h1, h2⟩

/-- C04 for every name: the reference finds what is stored at the definitions path under `lookedUp name`. -/
theorem C04_finds {path : String} {segs : List String} (hpath : PathDenotes path segs)
    (hpct : '%' ∉ renderPointer segs) (name : String) (r v : Json) :
    Schema.pointer r (refFor path.toList name) = some v ↔ At r (segs ++ [lookedUp name]) v := by
  rw [Schema.pointer, pointerText_refFor hpath hpct]
  exact valuePointer_render ..

/-- C04, when the type's own schema has nothing at the definitions path: the reference finds exactly the definition
whose name is `lookedUp name`, if there is one. -/
theorem C04_lookup {path : String} {segs : List String} {m defs : List (String × Json)} (hpath : PathDenotes path segs)
    (h1 : segs ≠ []) (h2 : segs ≠ [""]) (hpct : '%' ∉ renderPointer segs) (hfree : PathFree m segs)
    (hnodup : (Obj.keys defs).Nodup) (hnone : ∀ n v, ¬ At (.obj m) (segs ++ [n]) v) (name : String) :
    Schema.pointer (.obj (addDefinitions path.toList m defs)) (refFor path.toList name) =
      Obj.get defs (lookedUp name) := by
  refine Option.ext fun v => ?_
  rw [C04_finds hpath hpct]
  by_cases hne : defs = []
  · subst hne
    rw [C05_empty]
    exact ⟨fun h => absurd h (hnone _ _), fun h => by cases h⟩
  · obtain ⟨t, ht, hget, hother⟩ := C05_target path segs m defs hpath h1 h2 hfree hnodup hne
    constructor
    · intro h
      obtain ⟨t', ht', h⟩ := At_split h
      cases At_unique ht ht'
      cases h with
      | member hg h =>
        cases h
        cases hd : Obj.get defs (lookedUp name) with
        | none => exact absurd ((hother _ hd _).1 hg) (hnone _ _)
        | some d => rw [← hg, hget _ _ hd]
    · exact fun h => At_append ht (.member (hget _ _ h) (.here _))

/-- C04: the references that find the definition of their name are exactly those for names without a character below
U+0010, if no two definitions are equal. -/
theorem C04_iff {path : String} {segs : List String} {m defs : List (String × Json)} (hpath : PathDenotes path segs)
    (h1 : segs ≠ []) (h2 : segs ≠ [""]) (hpct : '%' ∉ renderPointer segs) (hfree : PathFree m segs)
    (hnodup : (Obj.keys defs).Nodup) (hnone : ∀ n v, ¬ At (.obj m) (segs ++ [n]) v) {name : String} {d : Json}
    (hd : Obj.get defs name = some d) (hdiff : ∀ n, Obj.get defs n = some d → n = name) :
    Schema.pointer (.obj (addDefinitions path.toList m defs)) (refFor path.toList name) = some d ↔
      ∀ c ∈ name.toList, 0x10 ≤ c.toNat := by
  rw [C04_lookup hpath h1 h2 hpct hfree hnodup hnone, ← C01_iff, C01_decoded]
  constructor
  · intro h
    exact congrArg some (hdiff _ h)
  · intro h
    rw [lookedUp, Option.some.inj h, hd]

/-- The reference for the name U+0001 finds the definition that is named `% 1`. -/
theorem C04_confused : Schema.pointer
      (.obj (addDefinitions "/$defs".toList [] [("\x01", .bool true), ("% 1", .bool false)])) (refFor "/$defs".toList "\x01") =
    some (.bool false) := by
  rw [C04_lookup (segs := ["$defs"]) (by unfold PathDenotes; decide) (by decide) (by decide) (by decide) _ (by decide) _ "\x01"]
  · decide
  · intro p w hp hpr hw
    cases hw with
    | here => exact ⟨_, rfl⟩
    | member hg => cases hg
  · intro n v h
    cases h with
    | member hg => cases hg

/-- The hypotheses of `C04_iff` can be met. -/
example : Schema.pointer (.obj (addDefinitions "/$defs".toList [("title", .str "T")] [("A", .bool true), ("B", .bool false)]))
    (refFor "/$defs".toList "A") = some (.bool true) := by
  refine (C04_iff (segs := ["$defs"]) (by unfold PathDenotes; decide) (by decide) (by decide) (by decide) ?_ (by decide) ?_ rfl
    ?_).2 (by decide)
  · intro p w hp hpr hw
    cases hw with
    | here => exact ⟨_, rfl⟩
    | member hg _ =>
      obtain ⟨rfl, -⟩ := List.cons_prefix_cons.1 hpr
      cases hg
  · intro n v h
    cases h with
    | member hg => cases hg
  · intro n h
    simp only [Obj.get] at h
    split at h
    · exact Eq.symm (by assumption)
    · split at h <;> cases h

end Verif
