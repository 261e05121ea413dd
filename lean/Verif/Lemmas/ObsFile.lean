import Verif.Spec.ObsFile
import Verif.Lemmas.TextMore
import Verif.Lemmas.UtilIO
namespace Verif
variable {V : Type}
namespace UtilIO
open Text

theorem map_ofList_toList (l : List String) : (l.map String.toList).map String.ofList = l := by simp [List.map_map]
theorem map_toList_ofList (l : List (List Char)) : (l.map String.ofList).map String.toList = l := by
  rw [List.map_map]
  conv_rhs => rw [← List.map_id l]
  apply List.map_congr_left
  intro x _
  simp

/-- the observation of a line is added -/
def addRow (obs : ObsMap String) (w : Row) : ObsMap String := obs.set w.rel (((obs.find? w.rel).getD []) ++ [(w.items, w.value)])

theorem loadLine_ok {F : Family V} {schema : Schema F} {obs obs' : ObsMap String} {ps : List (List Char)} :
    loadLine schema obs ps = .ok obs' ↔ ∃ w : Row, ps = w.fields.map String.toList ∧ (schema.contains w.rel = true ∧ w.items ≠ []) ∧ obs' = addRow obs w := by
  match ps with
  | [] => simp [loadLine, Row.fields]
  | [v] => simp [loadLine, Row.fields]
  | v :: r :: items =>
    rw [loadLine]
    constructor
    · intro h
      split at h
      · split at h
        · cases h
        · rename_i hc hi
          cases h
          exact ⟨⟨String.ofList v, String.ofList r, items.map String.ofList⟩, by simp [Row.fields], ⟨hc, by simpa using hi⟩, rfl⟩
      · cases h
    · rintro ⟨w, h1, ⟨h2, h3⟩, rfl⟩
      simp only [Row.fields, List.map_cons, List.cons.injEq] at h1
      obtain ⟨rfl, rfl, rfl⟩ := h1
      rw [if_pos (by simpa using h2), if_neg (by simpa using h3)]
      simp [addRow]

theorem loadLines_ok {F : Family V} {schema : Schema F} : ∀ {ls : List (List Char)} {obs obs' : ObsMap String},
    loadLines schema ls obs = .ok obs' ↔
      ∃ ws, List.Forall₂ RowText ls ws ∧ (∀ w ∈ ws, schema.contains w.rel = true ∧ w.items ≠ []) ∧ obs' = ws.foldl addRow obs := by
  intro ls
  induction ls with
  | nil =>
    intro obs obs'
    constructor
    · intro h; cases h; exact ⟨[], .nil, by simp, rfl⟩
    · rintro ⟨ws, h, _, rfl⟩; cases h; rfl
  | cons l ls ih =>
    intro obs obs'
    rw [loadLines, bind_ok]
    constructor
    · rintro ⟨o1, h1, h2⟩
      obtain ⟨w, h3, h4, rfl⟩ := loadLine_ok.mp h1
      obtain ⟨ws, h5, h6, rfl⟩ := ih.mp h2
      refine ⟨w :: ws, .cons (parts_iff.mp h3) h5, ?_, rfl⟩
      intro w' hw'
      rcases List.mem_cons.mp hw' with rfl | hw'
      · exact h4
      · exact h6 w' hw'
    · rintro ⟨ws, h1, h2, rfl⟩
      cases h1 with
      | cons h3 h4 =>
        rename_i w ws
        exact ⟨_, loadLine_ok.mpr ⟨w, parts_iff.mpr h3, h2 w (by simp), rfl⟩, ih.mpr ⟨ws, h4, fun w' hw' => h2 w' (by simp [hw']), rfl⟩⟩

theorem foldl_addRow (ws : List Row) : ∀ (obs : ObsMap String) (r : String), (ws.foldl addRow obs).find? r =
    if rowsOf ws r = [] then obs.find? r else some ((obs.find? r).getD [] ++ rowsOf ws r) := by
  induction ws with
  | nil => intro obs r; rfl
  | cons w ws ih =>
    intro obs r
    rw [List.foldl_cons, ih]
    by_cases h : w.rel = r
    · subst h
      have hr : rowsOf (w :: ws) w.rel = (w.items, w.value) :: rowsOf ws w.rel := by simp [rowsOf]
      rw [hr, addRow, FMap.find?_set_self, if_neg (List.cons_ne_nil _ _)]
      split
      · rename_i h; rw [h]
      · simp
    · have hr : rowsOf (w :: ws) r = rowsOf ws r := by simp [rowsOf, h]
      rw [hr, addRow, FMap.find?_set_ne _ (fun e => h e.symm)]

theorem observe_observe {F : Family V} (s : RelSpec F) : s.observe.observe = s.observe := by cases s <;> rfl

theorem markAll_ok {F : Family V} : ∀ (rs : List String) (schema : Schema F), (∀ r ∈ rs, schema.contains r = true) →
    ∃ schema', markAll rs schema = .ok schema' ∧ ∀ r, schema'.find? r = (schema.find? r).map (fun s => if r ∈ rs then s.observe else s) := by
  intro rs
  induction rs with
  | nil => intro schema _; exact ⟨schema, rfl, fun r => by simp⟩
  | cons r rs ih =>
    intro schema h
    obtain ⟨s, hs⟩ := FMap.contains_iff.mp (h r (by simp))
    have hc : ∀ r' ∈ rs, (schema.set r s.observe).contains r' = true := by
      intro r' hr'
      by_cases he : r' = r
      · subst he; exact FMap.contains_iff.mpr ⟨_, FMap.find?_set_self _ _ _⟩
      · obtain ⟨s', hs'⟩ := FMap.contains_iff.mp (h r' (by simp [hr']))
        exact FMap.contains_iff.mpr ⟨s', by rw [FMap.find?_set_ne _ he]; exact hs'⟩
    obtain ⟨schema', h1, h2⟩ := ih _ hc
    refine ⟨schema', ?_, fun r' => ?_⟩
    · rw [markAll, FMap.atKey_of_find hs]; exact h1
    · rw [h2]
      by_cases he : r' = r
      · subst he
        rw [FMap.find?_set_self, hs]
        simp [observe_observe]
      · rw [FMap.find?_set_ne _ he]
        simp [he]

/-! ### Writing -/

/-- the text of an entity -/
theorem entityText_ok {e : Encoding} {d : String} {c : Int} {txt : List Char} :
    entityText e d c = .ok txt ↔ (∃ m, e.rev.find? d = some m) ∧ txt = (nameOf e d c).toList := by
  unfold entityText nameOf Encoding.entity
  rw [bind_ok]
  constructor
  · rintro ⟨m, h1, h2⟩
    have h1 := FMap.atKey_ok.mp h1
    refine ⟨⟨m, h1⟩, ?_⟩
    rw [h1]
    simp only [Option.bind_some]
    cases hc : m.find? c with
    | none => rw [hc] at h2; simp at h2; rw [← h2]; simp
    | some n => rw [hc] at h2; simp at h2; rw [← h2]; simp
  · rintro ⟨⟨m, h1⟩, rfl⟩
    refine ⟨m, FMap.atKey_of_find h1, ?_⟩
    rw [h1]
    simp only [Option.bind_some]
    cases hc : m.find? c with
    | none => simp
    | some n => simp

theorem entitiesText_ok {e : Encoding} {doms : List String} : ∀ {cs : List Int} {i : Nat} {txt : List Char},
    entitiesText e doms cs i = .ok txt ↔ cs.length ≤ (doms.drop i).length ∧ (∀ d ∈ (doms.drop i).take cs.length, ∃ m, e.rev.find? d = some m) ∧
      txt = (namesOf e (doms.drop i) cs).flatMap (fun n => ',' :: n.toList) := by
  intro cs
  induction cs with
  | nil => intro i txt; simp [entitiesText, namesOf, eq_comm]
  | cons c cs ih =>
    intro i txt
    rw [entitiesText, bind_ok]
    rcases Nat.lt_or_ge i doms.length with hlt | hge
    · rw [List.drop_eq_getElem_cons hlt]
      constructor
      · rintro ⟨d, h1, h2⟩
        have h1 := idxR_ok.mp h1
        rw [List.getElem?_eq_getElem hlt] at h1
        cases h1
        obtain ⟨n, h3, h4⟩ := bind_ok.mp h2
        obtain ⟨rest, h5, h6⟩ := bind_ok.mp h4
        obtain ⟨h7, rfl⟩ := entityText_ok.mp h3
        obtain ⟨h8, h9, rfl⟩ := ih.mp h5
        cases h6
        refine ⟨by rw [List.length_cons, List.length_cons]; omega, ?_, by simp [namesOf, -List.getElem_cons_drop]⟩
        intro d hd
        rw [List.length_cons, List.take_succ_cons] at hd
        rcases List.mem_cons.mp hd with rfl | hd
        · exact h7
        · exact h9 d hd
      · rintro ⟨h1, h2, rfl⟩
        refine ⟨doms[i], idxR_ok.mpr (List.getElem?_eq_getElem hlt), bind_ok.mpr ⟨_, entityText_ok.mpr ⟨h2 _ (by simp [-List.getElem_cons_drop]), rfl⟩,
          bind_ok.mpr ⟨_, ih.mpr ⟨by rw [List.length_cons, List.length_cons] at h1; omega, fun d hd => h2 d (by simp [hd, -List.getElem_cons_drop]), rfl⟩, by simp [namesOf, -List.getElem_cons_drop]⟩⟩⟩
    · rw [List.drop_eq_nil_of_le hge]
      constructor
      · rintro ⟨d, h1, h2⟩
        have h1 := idxR_ok.mp h1
        rw [List.getElem?_eq_none hge] at h1
        cases h1
      · rintro ⟨h1, _⟩; simp at h1

/-- the row of an observation -/
def rowOf (e : Encoding) (r : String) (doms : List String) (o : List Int × String) : Row := ⟨o.2, r, namesOf e doms o.1⟩

/-- the line of a row -/
def rowLine (w : Row) : List Char := w.value.toList ++ ',' :: w.rel.toList ++ w.items.flatMap (fun n => ',' :: n.toList)

def ObsPrintable (e : Encoding) (doms : List String) (o : List Int × String) : Prop :=
  o.1.length ≤ doms.length ∧ ∀ d ∈ doms.take o.1.length, ∃ m, e.rev.find? d = some m

theorem relText_ok {e : Encoding} {r : String} {doms : List String} : ∀ {obs : List (List Int × String)} {txt : List Char},
    relText e r doms obs = .ok txt ↔ (∀ o ∈ obs, ObsPrintable e doms o) ∧
      txt = (obs.map (rowOf e r doms)).flatMap (fun w => rowLine w ++ ['\n']) := by
  intro obs
  induction obs with
  | nil => intro txt; simp [relText, eq_comm]
  | cons o obs ih =>
    obtain ⟨codes, v⟩ := o
    intro txt
    rw [relText, bind_ok]
    constructor
    · rintro ⟨items, h1, h2⟩
      obtain ⟨rest, h3, h4⟩ := bind_ok.mp h2
      obtain ⟨h5, h6, rfl⟩ := entitiesText_ok.mp h1
      obtain ⟨h7, rfl⟩ := ih.mp h3
      cases h4
      refine ⟨?_, by simp [rowLine, rowOf]⟩
      intro o ho
      rcases List.mem_cons.mp ho with rfl | ho
      · exact ⟨h5, h6⟩
      · exact h7 o ho
    · rintro ⟨h1, rfl⟩
      obtain ⟨h2, h3⟩ := h1 _ (List.mem_cons_self ..)
      exact ⟨_, entitiesText_ok.mpr ⟨h2, h3, rfl⟩, bind_ok.mpr ⟨_, ih.mpr ⟨fun o ho => h1 o (by simp [ho]), rfl⟩, by simp [rowLine, rowOf]⟩⟩

/-- the rows of the relations -/
def relRows {F : Family V} (schema : Schema F) (e : Encoding) (l : List (String × List (List Int × String))) : List Row :=
  l.flatMap (fun x => x.2.map (rowOf e x.1 (((schema.find? x.1).map RelSpec.doms).getD [])))

theorem relsText_ok {F : Family V} {schema : Schema F} {e : Encoding} : ∀ {l : List (String × List (List Int × String))} {txt : List Char},
    relsText schema e l = .ok txt ↔ (∀ x ∈ l, ∃ spec, schema.find? x.1 = some spec ∧ ∀ o ∈ x.2, ObsPrintable e spec.doms o) ∧
      txt = (relRows schema e l).flatMap (fun w => rowLine w ++ ['\n']) := by
  intro l
  induction l with
  | nil => intro txt; simp [relsText, relRows, eq_comm]
  | cons x l ih =>
    obtain ⟨r, obs⟩ := x
    intro txt
    rw [relsText, bind_ok]
    constructor
    · rintro ⟨spec, h1, h2⟩
      obtain ⟨here, h3, h4⟩ := bind_ok.mp h2
      obtain ⟨rest, h5, h6⟩ := bind_ok.mp h4
      have h1 := FMap.atKey_ok.mp h1
      obtain ⟨h7, rfl⟩ := relText_ok.mp h3
      obtain ⟨h8, rfl⟩ := ih.mp h5
      cases h6
      refine ⟨?_, by simp [relRows, h1, List.flatMap_append]⟩
      intro x hx
      rcases List.mem_cons.mp hx with rfl | hx
      · exact ⟨spec, h1, h7⟩
      · exact h8 x hx
    · rintro ⟨h1, rfl⟩
      obtain ⟨spec, h2, h3⟩ := h1 (r, obs) (List.mem_cons_self ..)
      exact ⟨spec, FMap.atKey_of_find h2, bind_ok.mpr ⟨_, relText_ok.mpr ⟨h3, rfl⟩, bind_ok.mpr ⟨_, ih.mpr ⟨fun x hx => h1 x (by simp [hx]), rfl⟩,
        by simp [relRows, h2, List.flatMap_append]⟩⟩⟩

end UtilIO
end Verif
