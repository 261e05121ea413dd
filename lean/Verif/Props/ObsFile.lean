import Verif.Lemmas.ObsFile
import Verif.Props.UtilIO
/-!
C35: observation files.
-/
namespace Verif
variable {V : Type}
namespace UtilIO
open Text

/-- C35: a file is loaded exactly when it consists of rows whose relations are in the schema and which have entities; the observations of each relation are
then those of its rows, in order; and exactly the relations with observations are marked as observed. -/
theorem C35_load {F : Family V} (schema : Schema F) (text : List Char) (t : Tape) (obs : ObsMap String) (schema' : Schema F) :
    (∃ t', loadObservations schema text t = .ok ((obs, schema'), t')) ↔
    ∃ ws, FileText text ws ∧ (∀ w ∈ ws, schema.contains w.rel = true ∧ w.items ≠ []) ∧
      (∀ r, obs.find? r = if rowsOf ws r = [] then none else some (rowsOf ws r)) ∧
      ∀ r, schema'.find? r = (schema.find? r).map (fun s => if rowsOf ws r = [] then s else s.observe) := by
  have hmark : ∀ ws : List Row, (∀ w ∈ ws, schema.contains w.rel = true ∧ w.items ≠ []) →
      ∃ schema2, markAll (shuffle (ws.foldl addRow ∅).keys t).1 schema = .ok schema2 ∧
        ∀ r, schema2.find? r = (schema.find? r).map (fun s => if rowsOf ws r = [] then s else s.observe) := by
    intro ws hws
    have hfind := foldl_addRow ws ∅
    have hkeys : ∀ r, r ∈ (shuffle (ws.foldl addRow ∅).keys t).1 ↔ rowsOf ws r ≠ [] := by
      intro r
      rw [(shuffle_perm _ _).mem_iff, ← FMap.contains_iff_mem, FMap.contains_iff, hfind r, FMap.find?_empty]
      by_cases h : rowsOf ws r = [] <;> simp [h]
    obtain ⟨s2, h1, h2⟩ := markAll_ok (shuffle (ws.foldl addRow ∅).keys t).1 schema (by
      intro r hr
      obtain ⟨o, ho⟩ := List.exists_mem_of_ne_nil _ ((hkeys r).mp hr)
      obtain ⟨w, hw, _⟩ := List.mem_map.mp ho
      obtain ⟨hw, hwr⟩ := List.mem_filter.mp hw
      rw [← (beq_iff_eq.mp hwr)]
      exact (hws w hw).1)
    refine ⟨s2, h1, fun r => ?_⟩
    rw [h2 r]
    congr 1
    funext s
    by_cases h : rowsOf ws r = []
    · rw [if_pos h, if_neg (fun hm => (hkeys r).mp hm h)]
    · rw [if_neg h, if_pos ((hkeys r).mpr h)]
  constructor
  · rintro ⟨t', h⟩
    unfold loadObservations at h
    obtain ⟨o, h1, h2⟩ := bind_ok.mp h
    obtain ⟨ws, h3, h4, rfl⟩ := loadLines_ok.mp h1
    obtain ⟨s2, h5, h6⟩ := hmark ws h4
    obtain ⟨s3, h7, h8⟩ := bind_ok.mp h2
    have h7 : markAll (shuffle (ws.foldl addRow ∅).keys t).1 schema = .ok s3 := h7
    rw [h5] at h7
    cases h7
    cases h8
    exact ⟨ws, ⟨lines text, parts_iff.mp rfl, h3⟩, h4, fun r => foldl_addRow ws ∅ r |>.trans (by rw [FMap.find?_empty]; simp), h6⟩
  · rintro ⟨ws, ⟨ls, h1, h2⟩, h3, h4, h5⟩
    obtain ⟨s2, h6, h7⟩ := hmark ws h3
    have hs : schema' = s2 := FMap.ext (fun r => (h5 r).trans (h7 r).symm)
    have ho : obs = ws.foldl addRow ∅ := FMap.ext (fun r => (h4 r).trans ((foldl_addRow ws ∅ r).trans (by rw [FMap.find?_empty]; simp)).symm)
    subst hs ho
    have hl : lines text = ls := parts_iff.mpr h1
    refine ⟨(shuffle (ws.foldl addRow ∅).keys t).2, ?_⟩
    unfold loadObservations
    rw [hl, loadLines_ok.mpr ⟨ws, h2, h3, rfl⟩]
    simp only [bind, Except.bind, h6]

/-- C35: observations are written exactly when they are of relations in the schema, with no more entities than domains, and the domains are in the encoding. -/
theorem C35_written {F : Family V} (schema : Schema F) (obs : ObsMap Int) (e : Encoding) (t : Tape) :
    (∃ text t', writeObservations schema obs e t = .ok (text, t')) ↔ Printable schema obs e := by
  have hmem : ∀ x, x ∈ (shuffle obs.entries t).1 ↔ obs.find? x.1 = some x.2 := fun x => (shuffle_perm obs.entries t).mem_iff.trans FMap.mem_entries
  constructor
  · rintro ⟨text, t', h⟩
    unfold writeObservations at h
    obtain ⟨txt, h1, _⟩ := bind_ok.mp h
    intro r l hl
    exact (relsText_ok.mp h1).1 (r, l) ((hmem (r, l)).mpr hl)
  · intro h
    refine ⟨(relRows schema e (shuffle obs.entries t).1).flatMap (fun w => rowLine w ++ ['\n']), (shuffle obs.entries t).2, ?_⟩
    unfold writeObservations
    have := relsText_ok.mpr ⟨fun x hx => h x.1 x.2 ((hmem x).mp hx), rfl⟩
    simp only [bind, Except.bind, this]

theorem flatMap_comma (l : List String) : l.flatMap (fun n => ',' :: n.toList) ++ [','] = ',' :: (l.map String.toList).flatMap (· ++ [',']) := by
  induction l with
  | nil => rfl
  | cons x l ih =>
    rw [List.flatMap_cons, List.append_assoc, ih]
    simp

theorem rowLine_text {w : Row} (h : PlainObs w.rel [(w.items, w.value)]) : RowText (rowLine w) w := by
  obtain ⟨h1, h2⟩ := h
  obtain ⟨h3, h4, x, h5, h6⟩ := h2 _ (List.mem_singleton_self _)
  have hx : x.toList ≠ [] := by intro h; apply h6; rw [← String.toList_inj, h]; rfl
  have hlast : (rowLine w).getLast? = x.toList.getLast? := by
    obtain ⟨init, hi⟩ := List.getLast?_eq_some_iff.mp h5
    have : rowLine w = (w.value.toList ++ ',' :: w.rel.toList ++ init.flatMap (fun n => ',' :: n.toList) ++ [',']) ++ x.toList := by
      unfold rowLine
      change w.items = _ at hi
      rw [hi]
      simp
    rw [this, List.getLast?_append_of_ne_nil _ hx]
  have hne : (rowLine w).getLast? ≠ some ',' := by
    rw [hlast]
    intro h
    exact (h4 x (List.mem_of_getLast? h5)).1 (List.mem_of_getLast? h)
  refine ⟨?_, ?_⟩
  · intro p hp
    simp only [Row.fields, List.map_cons, List.mem_cons, List.mem_map] at hp
    rcases hp with rfl | rfl | ⟨y, hy, rfl⟩
    · exact h3.1
    · exact h1.1
    · exact (h4 y hy).1
  · unfold ended
    rw [if_neg (by
      rintro (h | h)
      · rw [h] at hlast
        exact hx (List.getLast?_eq_none_iff.mp hlast.symm)
      · exact hne h)]
    unfold rowLine
    rw [List.append_assoc, flatMap_comma]
    simp [Row.fields]

theorem rowLine_newline {w : Row} (h : PlainObs w.rel [(w.items, w.value)]) : '\n' ∉ rowLine w := by
  obtain ⟨h1, h2⟩ := h
  obtain ⟨h3, h4, x, h5, h6⟩ := h2 _ (List.mem_singleton_self _)
  intro h
  simp only [rowLine, List.mem_append, List.mem_cons, List.mem_flatMap] at h
  rcases h with (h | h | h) | ⟨y, hy, h | h⟩
  · exact h3.2 h
  · exact absurd h (by decide)
  · exact h1.2 h
  · exact absurd h (by decide)
  · exact (h4 y hy).2 h

theorem written_rows {ws : List Row} (h : ∀ w ∈ ws, PlainObs w.rel [(w.items, w.value)]) : FileText (ws.flatMap (fun w => rowLine w ++ ['\n'])) ws := by
  refine ⟨ws.map rowLine, ⟨?_, ?_⟩, ?_⟩
  · intro p hp
    obtain ⟨w, hw, rfl⟩ := List.mem_map.mp hp
    exact rowLine_newline (h w hw)
  · rw [List.flatMap_map]
    unfold ended
    rw [if_pos]
    rcases List.eq_nil_or_concat ws with rfl | ⟨init, w, rfl⟩
    · exact .inl rfl
    · right
      rw [List.concat_eq_append, List.flatMap_append]
      simp only [List.flatMap_cons, List.flatMap_nil, List.append_nil]
      rw [← List.append_assoc, List.getLast?_append_of_ne_nil _ (by simp)]
      rfl
  · rw [List.forall₂_map_left_iff]
    exact List.forall₂_same.mpr (fun w hw => rowLine_text (h w hw))

theorem rowsOf_relRows {F : Family V} {schema : Schema F} {e : Encoding} (r : String) : ∀ (l : List (String × List (List Int × String))), (l.map Prod.fst).Nodup →
    ∀ o, (r, o) ∈ l → rowsOf (relRows schema e l) r = o.map (fun x => (namesOf e (((schema.find? r).map RelSpec.doms).getD []) x.1, x.2)) := by
  have hskip : ∀ l : List (String × List (List Int × String)), r ∉ l.map Prod.fst → rowsOf (relRows schema e l) r = [] := by
    intro l
    induction l with
    | nil => intro _; rfl
    | cons x l ih =>
      intro h
      simp only [List.map_cons, List.mem_cons, not_or] at h
      have hx : rowsOf (x.2.map (rowOf e x.1 (((schema.find? x.1).map RelSpec.doms).getD []))) r = [] := by
        unfold rowsOf
        rw [List.map_eq_nil_iff, List.filter_eq_nil_iff]
        intro w hw
        obtain ⟨y, _, rfl⟩ := List.mem_map.mp hw
        simpa [rowOf] using fun he => h.1 he.symm
      have ih := ih h.2
      unfold relRows at ih ⊢
      unfold rowsOf at ih hx ⊢
      rw [List.flatMap_cons, List.filter_append, List.map_append, hx, ih]
      rfl
  intro l
  induction l with
  | nil => intro _ o h; cases h
  | cons x l ih =>
    intro hnd o ho
    simp only [List.map_cons, List.nodup_cons] at hnd
    rcases List.mem_cons.mp ho with rfl | ho
    · have h0 := hskip l hnd.1
      have hx : rowsOf (o.map (rowOf e r (((schema.find? r).map RelSpec.doms).getD []))) r =
          o.map (fun x => (namesOf e (((schema.find? r).map RelSpec.doms).getD []) x.1, x.2)) := by
        unfold rowsOf
        rw [List.filter_eq_self.mpr, List.map_map]
        · rfl
        · intro w hw
          obtain ⟨y, _, rfl⟩ := List.mem_map.mp hw
          simp [rowOf]
      unfold relRows at h0 ⊢
      unfold rowsOf at h0 hx ⊢
      rw [List.flatMap_cons, List.filter_append, List.map_append, hx, h0, List.append_nil]
    · have hne : x.1 ≠ r := fun h => hnd.1 (h ▸ List.mem_map.mpr ⟨_, ho, rfl⟩)
      have hx : rowsOf (x.2.map (rowOf e x.1 (((schema.find? x.1).map RelSpec.doms).getD []))) r = [] := by
        unfold rowsOf
        rw [List.map_eq_nil_iff, List.filter_eq_nil_iff]
        intro w hw
        obtain ⟨y, _, rfl⟩ := List.mem_map.mp hw
        simpa [rowOf] using hne
      have ih := ih hnd.2 o ho
      unfold relRows at ih ⊢
      unfold rowsOf at ih hx ⊢
      rw [List.flatMap_cons, List.filter_append, List.map_append, hx, ih]
      rfl

theorem rowsOf_none {F : Family V} {schema : Schema F} {e : Encoding} (r : String) (l : List (String × List (List Int × String))) (h : r ∉ l.map Prod.fst) :
    rowsOf (relRows schema e l) r = [] := by
  unfold rowsOf
  rw [List.map_eq_nil_iff, List.filter_eq_nil_iff]
  intro w hw
  obtain ⟨x, hx, hw⟩ := List.mem_flatMap.mp hw
  obtain ⟨y, _, rfl⟩ := List.mem_map.mp hw
  simp only [rowOf, beq_iff_eq]
  exact fun he => h (he ▸ List.mem_map.mpr ⟨x, hx, rfl⟩)

/-- C35: what was written is loaded again, with any schema that has the relations: the observations of each relation, in order, with the names of the entities.
(The fields have no commas and line ends, and the last entity has a name.) -/
theorem C35_round_trip_partial {F : Family V} {schema schema2 : Schema F} {obs : ObsMap Int} {e : Encoding} {t t' t2 : Tape} {text : List Char}
    (h : writeObservations schema obs e t = .ok (text, t')) (hs : ∀ r, obs.contains r = true → schema2.contains r = true)
    (hp : ∀ r, obs.contains r = true → PlainObs r (named schema e obs r)) :
    ∃ obs' schema3 t3, loadObservations schema2 text t2 = .ok ((obs', schema3), t3) ∧
      (∀ r, obs'.find? r = if named schema e obs r = [] then none else some (named schema e obs r)) ∧
      ∀ r, schema3.find? r = (schema2.find? r).map (fun s => if named schema e obs r = [] then s else s.observe) := by
  have hperm := shuffle_perm obs.entries t
  have hmem : ∀ x, x ∈ (shuffle obs.entries t).1 ↔ obs.find? x.1 = some x.2 := fun x => hperm.mem_iff.trans FMap.mem_entries
  have hnd : ((shuffle obs.entries t).1.map Prod.fst).Nodup := (hperm.map Prod.fst).nodup_iff.mpr obs.nodupKeys
  unfold writeObservations at h
  obtain ⟨txt, h1, h2⟩ := bind_ok.mp h
  cases h2
  obtain ⟨h3, rfl⟩ := relsText_ok.mp h1
  set l := (shuffle obs.entries t).1 with hl
  have hrow : ∀ w ∈ relRows schema e l, ∃ o, obs.find? w.rel = some o ∧ (w.items, w.value) ∈ named schema e obs w.rel := by
    intro w hw
    obtain ⟨x, hx, hw⟩ := List.mem_flatMap.mp hw
    obtain ⟨y, hy, rfl⟩ := List.mem_map.mp hw
    have hf := (hmem x).mp hx
    refine ⟨x.2, hf, List.mem_map.mpr ⟨y, ?_, rfl⟩⟩
    simp only [rowOf]
    rw [hf]
    exact hy
  have hplain : ∀ w ∈ relRows schema e l, PlainObs w.rel [(w.items, w.value)] := by
    intro w hw
    obtain ⟨o, h4, h5⟩ := hrow w hw
    obtain ⟨h6, h7⟩ := hp w.rel (FMap.contains_iff.mpr ⟨o, h4⟩)
    exact ⟨h6, fun o ho => by cases List.mem_singleton.mp ho; exact h7 _ h5⟩
  have hrows : ∀ r, rowsOf (relRows schema e l) r = named schema e obs r := by
    intro r
    unfold named
    cases ho : obs.find? r with
    | some o => exact rowsOf_relRows r l hnd o ((hmem (r, o)).mpr ho)
    | none =>
      apply rowsOf_none
      intro hm
      obtain ⟨⟨r', o⟩, hx, rfl⟩ := List.mem_map.mp hm
      have := (hmem (r', o)).mp hx
      rw [ho] at this
      cases this
  have hw : ∀ w ∈ relRows schema e l, schema2.contains w.rel = true ∧ w.items ≠ [] := by
    intro w hw
    obtain ⟨o, h4, h5⟩ := hrow w hw
    have hc := FMap.contains_iff.mpr ⟨o, h4⟩
    obtain ⟨_, _, x, hx, _⟩ := (hp w.rel hc).2 _ h5
    refine ⟨hs _ hc, fun he => ?_⟩
    simp only at hx
    rw [he] at hx
    cases hx
  obtain ⟨s2, h7, h8⟩ := markAll_ok (shuffle ((relRows schema e l).foldl addRow ∅).keys t2).1 schema2 (by
    intro r hr
    have hc := FMap.contains_iff_mem.mpr ((shuffle_perm _ _).mem_iff.mp hr)
    obtain ⟨v, hv⟩ := FMap.contains_iff.mp hc
    rw [foldl_addRow, FMap.find?_empty] at hv
    have hne : rowsOf (relRows schema e l) r ≠ [] := by intro h0; rw [h0] at hv; simp at hv
    obtain ⟨o, ho⟩ := List.exists_mem_of_ne_nil _ hne
    obtain ⟨w, hw', _⟩ := List.mem_map.mp ho
    obtain ⟨hw', hwr⟩ := List.mem_filter.mp hw'
    rw [← (beq_iff_eq.mp hwr)]
    exact (hw w hw').1)
  have hload : ∃ t3, loadObservations schema2 ((relRows schema e l).flatMap (fun w => rowLine w ++ ['\n'])) t2 = .ok (((relRows schema e l).foldl addRow ∅, s2), t3) := by
    obtain ⟨ls, hc, hf⟩ := written_rows hplain
    have hls : lines ((relRows schema e l).flatMap (fun w => rowLine w ++ ['\n'])) = ls := parts_iff.mpr hc
    refine ⟨(shuffle ((relRows schema e l).foldl addRow ∅).keys t2).2, ?_⟩
    unfold loadObservations
    rw [hls, loadLines_ok.mpr ⟨_, hf, hw, rfl⟩]
    simp only [bind, Except.bind, h7]
  obtain ⟨t3, ht3⟩ := hload
  obtain ⟨ws, _, _, _, h11⟩ := (C35_load schema2 _ t2 _ s2).mp ⟨t3, ht3⟩
  refine ⟨_, s2, t3, ht3, fun r => ?_, fun r => ?_⟩
  · rw [foldl_addRow, FMap.find?_empty, hrows]
    simp
  · rw [h8 r]
    congr 1
    funext s
    have : r ∈ (shuffle ((relRows schema e l).foldl addRow ∅).keys t2).1 ↔ named schema e obs r ≠ [] := by
      rw [(shuffle_perm _ _).mem_iff, ← FMap.contains_iff_mem, FMap.contains_iff, foldl_addRow, FMap.find?_empty, hrows]
      by_cases h : named schema e obs r = [] <;> simp [h]
    by_cases h : named schema e obs r = []
    · rw [if_pos h, if_neg (fun hm => this.mp hm h)]
    · rw [if_neg h, if_pos (this.mpr h)]

/-- C35: observations loaded from a file, encoded with their own encoding, written and loaded again are the same, if the last entity of each observation
has a name. -/
theorem C35_same_partial {F : Family V} {schema schema2 : Schema F} {text : List Char} {obs : ObsMap String} {t1 t2 t3 t4 t5 u1 u2 u3 : Tape} {e : Encoding} {m : ObsMap Int}
    (hload : loadObservations schema text t1 = .ok ((obs, schema2), u1)) (henc : calculateEncoding schema2 obs t2 = .ok (e, u2))
    (hcode : encodeObservations schema2 obs e t3 = .ok (m, u3))
    (hlast : ∀ r l o, obs.find? r = some l → o ∈ l → o.1.getLast? ≠ some "") :
    ∃ text' u4, writeObservations schema2 m e t4 = .ok (text', u4) ∧
      ∃ schema3 u5, loadObservations schema text' t5 = .ok ((obs, schema3), u5) ∧ schema3 = schema2 := by
  obtain ⟨ws, ⟨ls, hls, hrt⟩, h1, h2, h3⟩ := (C35_load schema text t1 obs schema2).mp ⟨u1, hload⟩
  have hcont : ∀ r, obs.contains r = true → schema2.contains r = true := by
    intro r hr
    obtain ⟨o, ho⟩ := FMap.contains_iff.mp hr
    rw [h2 r] at ho
    have hne : rowsOf ws r ≠ [] := by intro h0; rw [if_pos h0] at ho; cases ho
    obtain ⟨x, hx⟩ := List.exists_mem_of_ne_nil _ hne
    obtain ⟨w, hw, _⟩ := List.mem_map.mp hx
    obtain ⟨hw, hwr⟩ := List.mem_filter.mp hw
    obtain ⟨s, hs⟩ := FMap.contains_iff.mp (h1 w hw).1
    rw [beq_iff_eq.mp hwr] at hs
    exact FMap.contains_iff.mpr ⟨_, by rw [h3 r, hs]; rfl⟩
  obtain ⟨m', u3', hm', hkey, hdec⟩ := C32_round_trip henc hcont t3
  rw [hcode] at hm'
  cases hm'
  have hfit := (C32_calculated schema2 obs t2).mp ⟨e, u2, henc⟩
  -- the names are those of the observations
  have hnames : ∀ (doms : List String) (items : List String) (codes : Items), Decodes e doms items codes → items.length ≤ doms.length → namesOf e doms codes = items := by
    intro doms items codes hd hlen
    apply List.ext_getElem
    · simp [namesOf, hd.1]; omega
    · intro i hi1 hi2
      have hic : i < codes.length := by rw [hd.1]; exact hi2
      obtain ⟨d, h5, _, h7⟩ := hd.2 i items[i] codes[i] (List.getElem?_eq_getElem hi2) (List.getElem?_eq_getElem hic)
      obtain ⟨hid, rfl⟩ := List.getElem?_eq_some_iff.mp h5
      simp only [namesOf, List.getElem_zipWith, nameOf]
      rw [h7]
      rfl
  have hnamed : ∀ r, named schema2 e m r = (obs.find? r).getD [] := by
    intro r
    cases hs : schema2.find? r with
    | none =>
      have ho : obs.find? r = none := by
        cases ho : obs.find? r with
        | none => rfl
        | some o =>
          obtain ⟨s, hs'⟩ := FMap.contains_iff.mp (hcont r (FMap.contains_iff.mpr ⟨o, ho⟩))
          rw [hs] at hs'; cases hs'
      have hm : m.find? r = none := by
        cases hm : m.find? r with
        | none => rfl
        | some c =>
          obtain ⟨l, hl, _⟩ := (hkey r).mp (FMap.contains_iff.mpr ⟨c, hm⟩)
          rw [ho] at hl; cases hl
      simp [named, ho, hm]
    | some spec =>
      have hd := hdec r spec hs
      unfold named
      rw [hs]
      simp only [Option.map_some, Option.getD_some]
      have hlen : ∀ o ∈ (obs.find? r).getD [], o.1.length ≤ spec.doms.length := by
        intro o ho
        cases hob : obs.find? r with
        | none => rw [hob] at ho; simp at ho
        | some l =>
          rw [hob] at ho
          obtain ⟨spec', hs', hle⟩ := hfit r l o.1 o.2 hob ho
          rw [hs] at hs'
          cases hs'
          exact hle
      generalize (obs.find? r).getD [] = l at hd hlen
      generalize (m.find? r).getD [] = cs at hd
      induction hd with
      | nil => rfl
      | cons h4 _ ih =>
        rw [List.map_cons, ih (fun o ho => hlen o (by simp [ho])), hnames _ _ _ h4.1 (hlen _ (by simp)), ← h4.2]
  -- the fields of the rows
  have hplain : ∀ r, m.contains r = true → PlainObs r (named schema2 e m r) := by
    intro r hr
    obtain ⟨l, hl, hne⟩ := (hkey r).mp hr
    rw [hnamed r, hl]
    have hlr : l = rowsOf ws r := by
      rw [h2 r] at hl
      split at hl
      · cases hl
      · cases hl; rfl
    have hplainrow : ∀ w ∈ ws, ∀ f ∈ w.fields, PlainField f := by
      intro w hw f hf
      obtain ⟨i, hi, rfl⟩ := List.getElem_of_mem hw
      have hi' : i < ls.length := by rw [hrt.length_eq]; exact hi
      have hrow : RowText ls[i] ws[i] := hrt.get hi' hi
      refine ⟨hrow.1 _ (List.mem_map.mpr ⟨f, hf, rfl⟩), fun hn => ?_⟩
      -- a field is part of the line
      have hmemf : '\n' ∈ ended ',' ls[i] := by
        rw [← hrow.2]
        exact List.mem_flatMap.mpr ⟨f.toList, List.mem_map.mpr ⟨f, hf, rfl⟩, by simp [hn]⟩
      unfold ended at hmemf
      split at hmemf
      · exact hls.1 _ (List.getElem_mem _) hmemf
      · rcases List.mem_append.mp hmemf with h | h
        · exact hls.1 _ (List.getElem_mem _) h
        · exact absurd h (by decide)
    have hex : ∀ o ∈ l, ∃ w ∈ ws, w.rel = r ∧ (w.items, w.value) = o := by
      intro o ho
      rw [hlr] at ho
      obtain ⟨w, hw, rfl⟩ := List.mem_map.mp ho
      obtain ⟨hw, hwr⟩ := List.mem_filter.mp hw
      exact ⟨w, hw, beq_iff_eq.mp hwr, rfl⟩
    refine ⟨?_, fun o ho => ?_⟩
    · obtain ⟨o, ho⟩ := List.exists_mem_of_ne_nil _ hne
      obtain ⟨w, hw, rfl, _⟩ := hex o ho
      exact hplainrow w hw _ (by simp [Row.fields])
    · obtain ⟨w, hw, rfl, rfl⟩ := hex o ho
      refine ⟨hplainrow w hw _ (by simp [Row.fields]), fun x hx => hplainrow w hw _ (by simp [Row.fields]; exact .inr (.inr hx)), ?_⟩
      obtain ⟨x, hx⟩ : ∃ x, w.items.getLast? = some x := by
        cases hg : w.items.getLast? with
        | none => exact absurd (List.getLast?_eq_none_iff.mp hg) (h1 w hw).2
        | some x => exact ⟨x, rfl⟩
      exact ⟨x, hx, fun he => hlast w.rel l (w.items, w.value) hl ho (he ▸ hx)⟩
  have hprint : Printable schema2 m e := by
    intro r cs hcs
    obtain ⟨l, hl, _⟩ := (hkey r).mp (FMap.contains_iff.mpr ⟨cs, hcs⟩)
    obtain ⟨spec, hs⟩ := FMap.contains_iff.mp (hcont r (FMap.contains_iff.mpr ⟨l, hl⟩))
    refine ⟨spec, hs, fun c hc => ?_⟩
    have hd := hdec r spec hs
    rw [hl, hcs] at hd
    simp only [Option.getD_some] at hd
    obtain ⟨i, hi, rfl⟩ := List.getElem_of_mem hc
    have hi' : i < l.length := by rw [hd.length_eq]; exact hi
    have h4 := hd.get hi' hi
    obtain ⟨spec', hs', hle⟩ := hfit r l l[i].1 l[i].2 hl (List.getElem_mem _)
    rw [hs] at hs'
    cases hs'
    have hlen : cs[i].1.length = l[i].1.length := h4.1.1
    refine ⟨by omega, fun d hd' => ?_⟩
    exact ((C32_bijection henc d).2.2.2.2).mpr ⟨r, spec, hs, List.mem_of_mem_take hd'⟩
  obtain ⟨text', u4, hw⟩ := (C35_written schema2 m e t4).mpr hprint
  have hmobs : ∀ r, m.contains r = true → obs.contains r = true := by
    intro r hr
    obtain ⟨l, hl, _⟩ := (hkey r).mp hr
    exact FMap.contains_iff.mpr ⟨l, hl⟩
  have hs0 : ∀ r, schema2.contains r = true → schema.contains r = true := by
    intro r hr
    obtain ⟨s, hs⟩ := FMap.contains_iff.mp hr
    rw [h3 r] at hs
    cases h0 : schema.find? r with
    | none => rw [h0] at hs; cases hs
    | some s0 => exact FMap.contains_iff.mpr ⟨s0, h0⟩
  obtain ⟨obs', schema3, u5, h4, h5, h6⟩ := C35_round_trip_partial (t2 := t5) hw (fun r hr => hs0 r (hcont r (hmobs r hr))) hplain
  have hobs : obs' = obs := by
    refine FMap.ext (fun r => ?_)
    rw [h5, hnamed, h2]
    by_cases h : rowsOf ws r = [] <;> simp [h]
  subst hobs
  refine ⟨text', u4, hw, schema3, u5, h4, FMap.ext (fun r => ?_)⟩
  rw [h6, hnamed, h3, h2]
  by_cases h : rowsOf ws r = [] <;> simp [h]

/-- C35 is false for entities without a name at the end of an observation: the file `1,C,x,,` has an observation of two entities, the second of which is the
empty string; it is written as `1,C,x,`, which is loaded as an observation of one entity. -/
theorem C35_empty_name_false : ∃ obs schema e m text obs' schema', loadObservations uSchema "1,C,x,,\n".toList [] = .ok ((obs, schema), []) ∧
    calculateEncoding schema obs [] = .ok (e, []) ∧ encodeObservations schema obs e [] = .ok (m, []) ∧ writeObservations schema m e [] = .ok (text, []) ∧
    loadObservations uSchema text [] = .ok ((obs', schema'), []) ∧ obs.find? "C" = some [(["x", ""], "1")] ∧ obs'.find? "C" = some [(["x"], "1")] :=
  ⟨_, _, _, _, _, _, _, rfl, rfl, rfl, rfl, rfl, rfl, rfl⟩

/-! ### Concrete cases -/

/-- a file with two relations; the comma at the end of a line and the line end at the end of the file are optional -/
def uText : List Char := "1,A,x,y\n1,C,x,x,\n0,A,z,y".toList

example : ∃ obs schema e m, loadObservations uSchema uText [] = .ok ((obs, schema), []) ∧ obs.entries = uObs.entries ∧
    (schema.find? "A").map RelSpec.observed = some true ∧ (schema.find? "B").map RelSpec.observed = some false ∧
    calculateEncoding schema obs [] = .ok (e, []) ∧ encodeObservations schema obs e [] = .ok (m, []) ∧
    writeObservations schema m e [] = .ok ("1,A,x,y\n0,A,z,y\n1,C,x,x\n".toList, []) :=
  ⟨_, _, _, _, rfl, rfl, rfl, rfl, rfl, rfl, rfl⟩
/-- an entity without a name gets a new one -/
example : ∃ e, calculateEncoding uSchema uObs [] = .ok (e, []) ∧
    writeObservations uSchema ((∅ : ObsMap Int).set "B" [([12], "1")]) e [] = .ok ("1,B,new_D_12\n".toList, []) := ⟨_, rfl, rfl⟩
/-- what is refused: a line without entities, an unknown relation, an empty line -/
example : loadObservations uSchema "1,A,\n".toList [] = .error .assert := rfl
example : loadObservations uSchema "1,Q,x\n".toList [] = .error .exit := rfl
example : loadObservations uSchema "1,A,x,y\n\n".toList [] = .error .assert := rfl

end UtilIO
end Verif
