import Verif.Lemmas.Traverse

/-!
# The recursive transforms satisfy the equations in the code, and these have no other solution
-/

namespace Verif
open Spec

/-! ## Entry-wise maps commute with operations on keys that are not traversed -/

section Entries
variable {slot : String → Slot} {T : Json → Json}

/-- The action of `tsub` on an entry. -/
abbrev entryMap (slot : String → Slot) (T : Json → Json) (e : String × Json) : String × Json :=
  (e.1, atSlot T (slot e.1) e.2)

theorem atSlot_skip (v : Json) : atSlot T .skip v = v := by cases v <;> rfl

theorem tsub_obj (o : List (String × Json)) : tsub slot T (.obj o) = .obj (o.map (entryMap slot T)) := rfl

theorem get_entryMap (o : List (String × Json)) (k : String) :
    Obj.get (o.map (entryMap slot T)) k = (Obj.get o k).map (atSlot T (slot k)) :=
  Obj.get_map o (fun k v => atSlot T (slot k) v) k

theorem get_entryMap_skip (o : List (String × Json)) {k : String} (h : slot k = .skip) :
    Obj.get (o.map (entryMap slot T)) k = Obj.get o k := by
  rw [get_entryMap, h]
  cases Obj.get o k <;> simp [atSlot_skip]

theorem insert_entryMap (o : List (String × Json)) (k : String) (v : Json) :
    (Obj.insert o k v).map (entryMap slot T) =
      Obj.insert (o.map (entryMap slot T)) k (atSlot T (slot k) v) := by
  induction o with
  | nil => rfl
  | cons e o ih =>
    obtain ⟨k', v'⟩ := e
    simp only [Obj.insert, List.map_cons, entryMap]
    split_ifs
    · rfl
    · rfl
    · simp only [List.map_cons, ih]

theorem insert_entryMap_skip (o : List (String × Json)) {k : String} (h : slot k = .skip) (v : Json) :
    (Obj.insert o k v).map (entryMap slot T) = Obj.insert (o.map (entryMap slot T)) k v := by
  rw [insert_entryMap, h, atSlot_skip]

theorem remove_entryMap (o : List (String × Json)) (k : String) :
    (Obj.remove o k).map (entryMap slot T) = Obj.remove (o.map (entryMap slot T)) k := by
  simp only [Obj.remove, List.filter_map]; rfl

theorem modify_entryMap_skip (o : List (String × Json)) {k : String} (h : slot k = .skip) (f : Json → Json) :
    (Obj.modify o k f).map (entryMap slot T) = Obj.modify (o.map (entryMap slot T)) k f := by
  induction o with
  | nil => rfl
  | cons e o ih =>
    obtain ⟨k', v'⟩ := e
    simp only [Obj.modify, List.map_cons, entryMap]
    split_ifs with h1
    · subst h1; simp only [h, atSlot_skip, List.map_cons, entryMap]
    · simp only [List.map_cons, ih]

theorem keys_entryMap (o : List (String × Json)) : Obj.keys (o.map (entryMap slot T)) = Obj.keys o := by
  simp [Obj.keys, Function.comp_def]

end Entries

/-! ## Uniqueness of recursive definitions over smaller schemas -/

/-- If a recursive definition calls itself only on smaller schemas, it has one solution. -/
theorem step_unique {S : (Json → Json) → Json → Json}
    (hloc : ∀ T T' s, (∀ x, IsSchema x → sizeOf x < sizeOf s → T x = T' x) → S T s = S T' s)
    {T T' : Json → Json} (h : ∀ s, IsSchema s → T s = S T s) (h' : ∀ s, IsSchema s → T' s = S T' s) :
    ∀ s, IsSchema s → T s = T' s := by
  suffices ∀ n s, sizeOf s < n → IsSchema s → T s = T' s by
    intro s; exact this _ s (Nat.lt_succ_self _)
  intro n
  induction n with
  | zero => intro s hs; omega
  | succ n ih =>
    intro s hs hi
    rw [h s hi, h' s hi]
    exact hloc _ _ _ (fun x hx hlt => ih x (by omega) hx)

theorem subs_isSchema {slot : String → Slot} {s x : Json} (h : x ∈ subs slot s) : IsSchema x := by
  cases s with
  | obj m => simp only [subs, List.mem_flatMap] at h; obtain ⟨_, _, hx⟩ := h; exact mem_slotSubs hx
  | _ => simp [subs] at h

theorem tsub_local {slot : String → Slot} {T T' : Json → Json} {s : Json}
    (h : ∀ x, IsSchema x → sizeOf x < sizeOf s → T x = T' x) : tsub slot T s = tsub slot T' s :=
  tsub_congr (fun x hx => h x (subs_isSchema hx) (sizeOf_subs hx))

/-! ## Post-order transforms -/

theorem postOrder_eq (f : Json → Json) {s : Json} (h : IsSchema s) :
    postOrder f s = f (tsub subSlot (postOrder f) s) := by
  cases h with
  | obj m => unfold postOrder; rw [walk_obj]
  | bool b => unfold postOrder; rw [walk_bool]; rfl

theorem postOrder_unique (f : Json → Json) {T : Json → Json}
    (h : ∀ s, IsSchema s → T s = f (tsub subSlot T s)) : ∀ s, IsSchema s → T s = postOrder f s :=
  step_unique (S := fun T s => f (tsub subSlot T s)) (fun T T' s hs => by rw [tsub_local hs]) h
    (fun s hs => postOrder_eq f hs)

/-- schemars/src/transform.rs:321-336 -/
theorem removeRefSiblings_eq {s : Json} (h : IsSchema s) :
    removeRefSiblings s = removeRefSiblingsStep removeRefSiblings s := postOrder_eq _ h
/-- schemars/src/transform.rs:349-359 -/
theorem setSingleExample_eq {s : Json} (h : IsSchema s) :
    setSingleExample s = setSingleExampleStep setSingleExample s := postOrder_eq _ h
/-- schemars/src/transform.rs:371-379 -/
theorem replaceConst_eq {s : Json} (h : IsSchema s) :
    replaceConst s = replaceConstStep replaceConst s := postOrder_eq _ h
/-- schemars/src/transform.rs:394-406 -/
theorem replacePrefix_eq {s : Json} (h : IsSchema s) :
    replacePrefix s = replacePrefixStep replacePrefix s := postOrder_eq _ h
/-- schemars/src/transform.rs:479-508 -/
theorem replaceUneval_eq {s : Json} (h : IsSchema s) :
    replaceUneval s = replaceUnevalStep replaceUneval s := postOrder_eq _ h

theorem removeRefSiblings_unique {T} (h : ∀ s, IsSchema s → T s = removeRefSiblingsStep T s) :
    ∀ s, IsSchema s → T s = removeRefSiblings s := postOrder_unique _ h
theorem setSingleExample_unique {T} (h : ∀ s, IsSchema s → T s = setSingleExampleStep T s) :
    ∀ s, IsSchema s → T s = setSingleExample s := postOrder_unique _ h
theorem replaceConst_unique {T} (h : ∀ s, IsSchema s → T s = replaceConstStep T s) :
    ∀ s, IsSchema s → T s = replaceConst s := postOrder_unique _ h
theorem replacePrefix_unique {T} (h : ∀ s, IsSchema s → T s = replacePrefixStep T s) :
    ∀ s, IsSchema s → T s = replacePrefix s := postOrder_unique _ h
theorem replaceUneval_unique {T} (h : ∀ s, IsSchema s → T s = replaceUnevalStep T s) :
    ∀ s, IsSchema s → T s = replaceUneval s := postOrder_unique _ h

/-! ## ReplaceBoolSchemas -/

/-- schemars/src/transform.rs:290-308 -/
theorem replaceBool_eq (skipAp : Bool) {s : Json} (h : IsSchema s) :
    replaceBool skipAp s = replaceBoolStep skipAp (replaceBool skipAp) s := by
  cases h with
  | bool b => cases b <;> simp [replaceBool, walk_bool, replaceBoolLeave, replaceBoolStep, Schema.ensureObject,
      Obj.insert]
  | obj m =>
    have h0 : replaceBool skipAp (.obj m) =
        replaceBoolLeave skipAp (.obj m) (tsub subSlot (replaceBool skipAp) (.obj m)) := by
      unfold replaceBool; rw [walk_obj]
    rw [h0, tsub_obj]
    unfold replaceBoolStep replaceBoolLeave
    cases skipAp with
    | false => rfl
    | true =>
      cases hg : Obj.get m "additionalProperties" with
      | none => simp only [hg, tsub_obj]
      | some ap => simp only [hg, tsub_obj, Schema.put, Schema.ensureObject, remove_entryMap]

theorem subs_remove {slot : String → Slot} {m : List (String × Json)} {k : String} {x : Json}
    (h : x ∈ subs slot (.obj (Obj.remove m k))) : x ∈ subs slot (.obj m) := by
  simp only [subs, List.mem_flatMap] at h ⊢
  obtain ⟨e, he, hx⟩ := h
  exact ⟨e, (Obj.mem_remove.1 he).1, hx⟩

theorem replaceBool_unique (skipAp : Bool) {T : Json → Json}
    (h : ∀ s, IsSchema s → T s = replaceBoolStep skipAp T s) :
    ∀ s, IsSchema s → T s = replaceBool skipAp s := by
  refine step_unique (S := replaceBoolStep skipAp) ?_ h (fun s hs => replaceBool_eq skipAp hs)
  intro T T' s hs
  unfold replaceBoolStep
  cases s with
  | obj o =>
    have h1 : tsub subSlot T (.obj o) = tsub subSlot T' (.obj o) := tsub_local hs
    have h2 : tsub subSlot T (.obj (Obj.remove o "additionalProperties")) =
        tsub subSlot T' (.obj (Obj.remove o "additionalProperties")) :=
      tsub_congr (fun x hx => hs x (subs_isSchema hx) (sizeOf_subs (subs_remove hx)))
    simp only [h1, h2]
  | _ => rfl

/-! ## AddNullable -/

theorem hasType_tsub (T : Json → Json) (o : List (String × Json)) (ty : String) :
    Schema.hasType (tsub subSlot T (.obj o)) ty = Schema.hasType (.obj o) ty := by
  unfold Schema.hasType Schema.get tsub
  simp only
  rw [get_entryMap_skip o (by decide : subSlot "type" = .skip)]

theorem addNullableLocal_tsub (c : NullableCfg) (T : Json → Json) (s : Json) :
    addNullableLocal c (tsub subSlot T s) = tsub subSlot T (addNullableLocal c s) := by
  cases s with
  | obj o =>
    have hn : subSlot "nullable" = .skip := by decide
    have ht : subSlot "type" = .skip := by decide
    have hc : subSlot "const" = .skip := by decide
    unfold addNullableLocal
    rw [hasType_tsub]
    by_cases h : Schema.hasType (.obj o) "null" = true
    · rw [if_pos h, if_pos h]
      simp only [tsub_obj, Schema.put, Schema.ensureObject, Schema.get, ← insert_entryMap_skip o hn,
        get_entryMap_skip _ ht]
      cases hty : Obj.get (Obj.insert o "nullable" (.bool true)) "type" with
      | none => rfl
      | some ty =>
        simp only
        split_ifs <;> simp only [tsub_obj, Schema.remove, Schema.getMut, remove_entryMap,
          insert_entryMap_skip _ hc, modify_entryMap_skip _ ht, insert_entryMap_skip _ hn]
    · rw [if_neg h, if_neg h]
  | _ => rfl

/-- schemars/src/transform.rs:433-466 -/
theorem addNullable_eq (c : NullableCfg) {s : Json} (h : IsSchema s) :
    addNullable c s = addNullableStep c (addNullable c) s := by
  unfold addNullable addNullableStep
  rw [postOrder_eq _ h, addNullableLocal_tsub]

theorem addNullable_unique (c : NullableCfg) {T : Json → Json}
    (h : ∀ s, IsSchema s → T s = addNullableStep c T s) :
    ∀ s, IsSchema s → T s = addNullable c s := by
  refine step_unique (S := addNullableStep c) ?_ h (fun s hs => addNullable_eq c hs)
  intro T T' s hs
  unfold addNullableStep
  rw [← addNullableLocal_tsub, ← addNullableLocal_tsub, tsub_local hs]

/-! ## GatherPropertyNames -/

theorem gather_one (j : Json) : gather .one j =
    if isSchema j then ownPropertyNames j ++ (match j with | .obj o => gatherEntries o | _ => []) else [] := by
  cases j <;> simp [gather, isSchema, ownPropertyNames, Schema.get]

theorem gatherList_eq (l : List Json) :
    gatherList l = (l.filter isSchema).flatMap (gather .one) := by
  induction l with
  | nil => rfl
  | cons j l ih =>
    rw [gatherList, ih, List.filter_cons]
    split
    · simp
    · next h => cases j <;> simp_all [gather, isSchema]

theorem gatherEntries_eq (o : List (String × Json)) :
    gatherEntries o = (subs immSlot (.obj o)).flatMap (gather .one) := by
  induction o with
  | nil => rfl
  | cons e o ih =>
    obtain ⟨k, v⟩ := e
    have h : subs immSlot (.obj ((k, v) :: o)) = slotSubs (immSlot k) v ++ subs immSlot (.obj o) := rfl
    rw [gatherEntries, ih, h, List.flatMap_append]
    congr 1
    rcases immSlot_cases k with ⟨_, e⟩ | ⟨_, e⟩ | ⟨_, _, e⟩ <;> rw [e]
    · rw [slotSubs_one]; split
      · simp
      · next h => cases v <;> simp_all [gather, isSchema]
    · cases v <;> simp [gather, slotSubs, gatherList_eq]
    · cases v <;> simp [gather, slotSubs]

/-- schemars/src/transform.rs:515-527: own names, then those of the in-place subschemas. -/
theorem gatherPropertyNames_eq {s : Json} (h : IsSchema s) :
    gatherPropertyNames s = ownPropertyNames s ++ (subs immSlot s).flatMap gatherPropertyNames := by
  cases h with
  | obj m => unfold gatherPropertyNames; rw [gather, gatherEntries_eq]
  | bool b => simp [gatherPropertyNames, gather, ownPropertyNames, Schema.get, subs]

/-- The accumulating traversal of the code computes `gatherPropertyNames`: if the recursive calls append
the names they gather, then so does the whole. -/
theorem gather_state (t : Json → StateM (List String) Json)
    (ht : ∀ x st, (t x st).2 = st ++ gatherPropertyNames x) {s : Json} (h : IsSchema s) (st : List String) :
    (tsubM immSlot t s (st ++ ownPropertyNames s)).2 = st ++ gatherPropertyNames s := by
  rw [tsubM_state, gatherPropertyNames_eq h, ← List.append_assoc]
  generalize st ++ ownPropertyNames s = st'
  generalize subs immSlot s = l
  induction l generalizing st' with
  | nil => simp
  | cons x l ih => rw [List.foldl_cons, ih, ht, List.flatMap_cons, List.append_assoc]

/-! ## RestrictFormats -/

theorem dropFormat_entryMap (c : FormatsCfg) (inf) (T : Json → Json) (o : List (String × Json)) :
    dropFormat c inf (o.map (entryMap subSlot T)) = (dropFormat c inf o).map (entryMap subSlot T) := by
  unfold dropFormat
  rw [get_entryMap_skip o (by decide : subSlot "format" = .skip)]
  cases (Obj.get o "format").bind Json.asStr? with
  | none => rfl
  | some f => simp only; split_ifs <;> simp [remove_entryMap]

theorem restrictFrom_eq (c : FormatsCfg) (inf) (o : List (String × Json)) :
    restrictFrom c inf (.obj o) =
      match inferFormats c inf o with
      | none => .obj o
      | some inf' => tsub subSlot (restrictFrom c inf') (.obj (dropFormat c inf' o)) := by
  unfold restrictFrom
  rw [walk_obj, tsub_obj]
  unfold restrictLeave
  simp only
  cases h : inferFormats c inf o with
  | none => rfl
  | some inf' => simp only [Option.getD_some, dropFormat_entryMap, tsub_obj]

theorem restrictFrom_bool (c : FormatsCfg) (inf) (b : Bool) : restrictFrom c inf (.bool b) = .bool b := by
  unfold restrictFrom; rw [walk_bool]; rfl

/-- A stateful transform that leaves the state alone acts like a pure one. -/
theorem tsubM_pure {σ : Type} (slot : String → Slot) (T : Json → StateM σ Json) (R : Json → Json) (st : σ)
    (s : Json) (h : ∀ x ∈ subs slot s, T x st = (R x, st)) : tsubM slot T s st = (tsub slot R s, st) := by
  have h1 : ∀ v, (∀ x ∈ slotSubs .one v, T x st = (R x, st)) → atSchemaM T v st = (atSchema R v, st) := by
    intro v hv; rw [slotSubs_one] at hv; unfold atSchemaM atSchema; split
    · next hi => exact hv v (by simp [hi])
    · rfl
  have h2 : ∀ l, (∀ x ∈ l.filter isSchema, T x st = (R x, st)) → atListM T l st = (l.map (atSchema R), st) := by
    intro l hl
    induction l with
    | nil => rfl
    | cons v l ih =>
      have : atListM T (v :: l) st =
        let r := atSchemaM T v st; let q := atListM T l r.2; (r.1 :: q.1, q.2) := rfl
      rw [this, h1 v (fun x hx => hl x ?_)]
      · simp only; rw [ih (fun x hx => hl x ?_)]; rfl
        simp only [List.filter_cons]; split <;> simp [hx]
      · rw [slotSubs_one] at hx; split at hx <;> simp_all
  have h3 : ∀ l, (∀ x ∈ (l.map Prod.snd).filter isSchema, T x st = (R x, st)) →
      atValsM T l st = (l.map fun e => (e.1, atSchema R e.2), st) := by
    intro l hl
    induction l with
    | nil => rfl
    | cons e l ih =>
      obtain ⟨k, v⟩ := e
      have : atValsM T ((k, v) :: l) st =
        let r := atSchemaM T v st; let q := atValsM T l r.2; ((k, r.1) :: q.1, q.2) := rfl
      rw [this, h1 v (fun x hx => hl x ?_)]
      · simp only; rw [ih (fun x hx => hl x ?_)]; rfl
        simp only [List.map_cons, List.filter_cons]; split <;> simp [hx]
      · rw [slotSubs_one] at hx; split at hx <;> simp_all
  have h4 : ∀ s v, (∀ x ∈ slotSubs s v, T x st = (R x, st)) → atSlotM T s v st = (atSlot R s v, st) := by
    intro s v hv
    have ha : ∀ l, (∀ x ∈ l.filter isSchema, T x st = (R x, st)) →
        (do let l' ← atListM T l; pure (Json.arr l') : StateM σ Json) st =
        (Json.arr (l.map (atSchema R)), st) := by
      intro l hl
      have : (do let l' ← atListM T l; pure (Json.arr l') : StateM σ Json) st =
        (let r := atListM T l st; (Json.arr r.1, r.2)) := rfl
      rw [this, h2 l hl]
    have ho : ∀ l, (∀ x ∈ (l.map Prod.snd).filter isSchema, T x st = (R x, st)) →
        (do let l' ← atValsM T l; pure (Json.obj l') : StateM σ Json) st =
        (Json.obj (l.map fun e => (e.1, atSchema R e.2)), st) := by
      intro l hl
      have : (do let l' ← atValsM T l; pure (Json.obj l') : StateM σ Json) st =
        (let r := atValsM T l st; (Json.obj r.1, r.2)) := rfl
      rw [this, h3 l hl]
    cases s <;> cases v <;> first | rfl | exact h1 _ hv | exact ha _ hv | exact ho _ hv
  have h5 : ∀ l, (∀ x ∈ subs slot (.obj l), T x st = (R x, st)) →
      atEntriesM slot T l st = (l.map (entryMap slot R), st) := by
    intro l hl
    induction l with
    | nil => rfl
    | cons e l ih =>
      obtain ⟨k, v⟩ := e
      have hs : subs slot (.obj ((k, v) :: l)) = slotSubs (slot k) v ++ subs slot (.obj l) := rfl
      have : atEntriesM slot T ((k, v) :: l) st =
        let r := atSlotM T (slot k) v st; let q := atEntriesM slot T l r.2; ((k, r.1) :: q.1, q.2) := rfl
      rw [this, h4 _ _ (fun x hx => hl x (by rw [hs]; simp [hx]))]; simp only
      rw [ih (fun x hx => hl x (by rw [hs]; simp [hx]))]; rfl
  cases s with
  | obj o =>
    have : tsubM slot T (.obj o) st = (let r := atEntriesM slot T o st; (Json.obj r.1, r.2)) := rfl
    rw [this, h5 o h]; rfl
  | _ => rfl

/-- schemars/src/transform.rs:668-703: the stateful body, with recursive calls that act like
`restrictFrom` and restore the state, acts like `restrictFrom` and restores the state. -/
theorem restrictFrom_stateful (c : FormatsCfg) (T : Json → StateM (Option (List String)) Json)
    (s : Json) (hs : IsSchema s)
    (hT : ∀ x st, IsSchema x → sizeOf x < sizeOf s → T x st = (restrictFrom c st x, st)) (st) :
    restrictStepM c T s st = (restrictFrom c st s, st) := by
  cases hs with
  | bool b => rw [restrictFrom_bool]; rfl
  | obj o =>
    rw [restrictFrom_eq]
    have h0 : restrictStepM c T (.obj o) st =
        match inferFormats c st o with
        | none => (Json.obj o, st)
        | some inf => ((tsubM subSlot T (.obj (dropFormat c inf o)) inf).1, st) := by
      unfold restrictStepM
      show (match inferFormats c st o with | none => _ | some inf => _ : StateM _ Json) st = _
      cases inferFormats c st o <;> rfl
    rw [h0]
    cases h : inferFormats c st o with
    | none => rfl
    | some inf =>
      simp only
      have hsub : ∀ x ∈ subs subSlot (.obj (dropFormat c inf o)), x ∈ subs subSlot (.obj o) := by
        intro x hx
        unfold dropFormat at hx
        split at hx
        · split_ifs at hx
          · exact subs_remove hx
          · exact hx
        · exact hx
      rw [tsubM_pure subSlot T (restrictFrom c inf) inf _ (fun x hx => ?_)]
      exact hT x inf (subs_isSchema hx) (sizeOf_subs (hsub x hx))

end Verif
