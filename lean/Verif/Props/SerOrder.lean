import Verif.Lemmas.SerOrder

/-!
# C11, C12: serialization of schemas
-/

namespace Verif
open Spec Ser

theorem roleOf_eq (k : String) :
    roleOf k = if isPlain k then .data else if isNoReorder k then .schemaMap else .schema := by
  have h1 : (k ∈ ["examples", "default"] ∨ "x-".toList <+: k.toList) ↔ isPlain k = true := by
    simp only [isPlain, List.mem_cons, List.not_mem_nil, or_false, Bool.or_eq_true, beq_iff_eq]
    refine or_congr Iff.rfl ?_
    constructor
    · rintro ⟨t, ht⟩
      rw [← ht]; rfl
    · intro h
      split at h
      · next t ht => exact ⟨t, by rw [ht]; rfl⟩
      · cases h
  have h2 : (k ∈ ["properties", "patternProperties", "dependentSchemas", "$defs", "definitions"]) ↔
      isNoReorder k = true := by
    simp [isNoReorder, or_assoc]
  unfold roleOf
  simp only [h1, h2]

/-- C12: the serialized form of every schema document (with distinct keys, whatever the map order) is the
specified one: in each schema object keywords are stably sorted by rank; maps of schemas keep their own
order; the values of `examples`, `default` and `x-*` are emitted verbatim. -/
theorem C12_order (j : Json) (h : NodupKeys j) :
    SerSpec .schema j (ser false j) ∧ SerSpec .schemaMap j (ser true j) := by
  induction j using Json.ind with
  | null => exact ⟨.null, .null⟩
  | bool b => exact ⟨.bool b, .bool b⟩
  | num n => exact ⟨.num n, .num n⟩
  | str s => exact ⟨.str s, .str s⟩
  | arr l ih =>
    have hl : ∀ x ∈ l, NodupKeys x := by cases h; assumption
    have key : List.Forall₂ (SerSpec .schema) l (serList l) := by
      rw [serList_eq]
      refine List.forall₂_map_right_iff.2 ?_
      refine List.forall₂_same.2 (fun x hx => (ih x hx (hl x hx)).1)
    exact ⟨.arr (by decide) key, .arr (by decide) key⟩
  | obj m ih =>
    have hm : (Obj.keys m).Nodup ∧ ∀ e ∈ m, NodupKeys e.2 := by cases h; exact ⟨by assumption, by assumption⟩
    constructor
    · have hk : Obj.keys m = Obj.keys (serProps m) := by
        simp [serProps_eq, Obj.keys, Function.comp_def]
      refine .schema (c := serProps m) hk ?_ ?_
      · rw [serProps_eq]
        refine List.forall₂_map_right_iff.2 (List.forall₂_same.2 (fun e he => ?_))
        simp only [roleOf_eq]
        have := ih e he (hm.2 e he)
        by_cases h1 : isPlain e.1
        · simp only [h1, if_true]; exact .data _
        · simp only [h1]
          cases h2 : isNoReorder e.1
          · exact this.1
          · exact this.2
      · exact emitOrder_stable (hk ▸ hm.1)
    · refine .map ?_ ?_
      · simp [serMap_eq, Obj.keys, Function.comp_def]
      · rw [serMap_eq]
        exact List.forall₂_map_right_iff.2 (List.forall₂_same.2 (fun e he => (ih e he (hm.2 e he)).1))

theorem SameJson.refl (j : Json) : SameJson j j := by
  induction j using Json.ind with
  | null => exact .null
  | bool b => exact .bool b
  | num n => exact .num n
  | str s => exact .str s
  | arr l ih => exact .arr (List.forall₂_same.2 ih)
  | obj m ih => exact .obj (n := m) rfl (List.forall₂_same.2 ih) (List.Perm.refl _)

/-- C11: nothing is lost or duplicated by serialization, for any map order: the output is the same JSON
value up to the order of object entries. -/
theorem C11_same (j : Json) (h : NodupKeys j) (b : Bool) : SameJson j (ser b j) := by
  induction j using Json.ind generalizing b with
  | null => exact .null
  | bool x => exact .bool x
  | num n => exact .num n
  | str s => exact .str s
  | arr l ih =>
    have hl : ∀ x ∈ l, NodupKeys x := by cases h; assumption
    refine .arr ?_
    rw [serList_eq]
    exact List.forall₂_map_right_iff.2 (List.forall₂_same.2 (fun x hx => ih x hx (hl x hx) _))
  | obj m ih =>
    have hm : (Obj.keys m).Nodup ∧ ∀ e ∈ m, NodupKeys e.2 := by cases h; exact ⟨by assumption, by assumption⟩
    cases b with
    | true =>
      refine .obj (n := serMap m) ?_ ?_ (List.Perm.refl _)
      · simp [serMap_eq, Obj.keys, Function.comp_def]
      · rw [serMap_eq]
        exact List.forall₂_map_right_iff.2 (List.forall₂_same.2 (fun e he => ih e he (hm.2 e he) _))
    | false =>
      have hk : Obj.keys m = Obj.keys (serProps m) := by
        simp [serProps_eq, Obj.keys, Function.comp_def]
      refine .obj (n := serProps m) hk ?_ (emitOrder_stable (hk ▸ hm.1)).1.symm
      rw [serProps_eq]
      refine List.forall₂_map_right_iff.2 (List.forall₂_same.2 (fun e he => ?_))
      simp only
      by_cases h1 : isPlain e.1
      · simp only [h1, if_true]; exact SameJson.refl _
      · simp only [h1]; exact ih e he (hm.2 e he) _

theorem readBack_of_WF {j : Json} (h : j.WF) : readBack j = j := by
  induction h with
  | arr l _ ih =>
    simp only [readBack, readBackList_eq]
    rw [List.map_congr_left (g := id) ih, List.map_id]
  | obj m hs _ ih =>
    simp only [readBack, readBackObj_eq]
    rw [List.map_congr_left (g := id) (fun e he => by rw [ih e he]; rfl), List.map_id,
      ofList_perm (List.Perm.refl _) hs]
  | _ => simp [readBack]

/-- C11: with the default (sorted) map, reading the serialized schema back gives an equal value. -/
theorem C11_read_back (j : Json) (h : j.WF) (b : Bool) : readBack (ser b j) = j := by
  induction h generalizing b with
  | null => simp [ser, readBack]
  | bool b => simp [ser, readBack]
  | num n => simp [ser, readBack]
  | str s => simp [ser, readBack]
  | arr l _ ih =>
    simp only [ser, readBack, readBackList_eq, serList_eq, List.map_map]
    rw [List.map_congr_left (f := readBack ∘ ser false) (g := id) (fun x hx => ih x hx false), List.map_id]
  | obj m hs hwf ih =>
    cases b with
    | true =>
      simp only [ser, if_true, readBack, readBackObj_eq, serMap_eq, List.map_map]
      rw [List.map_congr_left (g := id) (fun e he => by simp [ih e he]), List.map_id,
        ofList_perm (List.Perm.refl _) hs]
    | false =>
      simp only [ser, Bool.false_eq_true, if_false, readBack, readBackObj_eq]
      have hk : Obj.keys (serProps m) = Obj.keys m := by
        simp [serProps_eq, Obj.keys, Function.comp_def]
      have hp := (emitOrder_stable (c := serProps m) (hk ▸ Obj.sorted_nodup hs)).1
      have hp2 := hp.map (fun e : String × Json => (e.1, readBack e.2))
      have he : (serProps m).map (fun e : String × Json => (e.1, readBack e.2)) = m := by
        rw [serProps_eq, List.map_map]
        rw [List.map_congr_left (g := id) (fun e he => ?_), List.map_id]
        simp only [Function.comp, id]
        by_cases h1 : isPlain e.1
        · simp only [h1, if_true, readBack_of_WF (hwf e he)]
        · simp only [h1, if_false, ih e he, Bool.false_eq_true]
      rw [he] at hp2
      rw [ofList_perm hp2 hs]

private def sample : Json :=
  .obj [("$defs", .obj [("type", .bool true), ("A", .obj [("z", .null), ("title", .str "t")])]),
    ("a", .null), ("default", .obj [("z", .null), ("title", .null)]), ("type", .str "object")]

example : serialize sample =
    .obj [("type", .str "object"), ("a", .null), ("default", .obj [("z", .null), ("title", .null)]),
      ("$defs", .obj [("type", .bool true), ("A", .obj [("title", .str "t"), ("z", .null)])])] := by
  decide

example : (Json.obj [("a", .arr [.null]), ("type", .str "object")]).WF := by
  refine .obj _ ?_ ?_
  · simp only [Obj.Sorted, List.pairwise_cons, List.mem_singleton, forall_eq, List.not_mem_nil,
      false_imp_iff, implies_true, List.Pairwise.nil, and_true]
    decide
  · intro e he
    simp only [List.mem_cons, List.not_mem_nil, or_false] at he
    rcases he with rfl | rfl
    · exact .arr _ (fun x hx => by simp at hx; subst hx; exact .null)
    · exact .str _

end Verif
