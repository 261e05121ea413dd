import Verif.Lemmas.GenDBUpdate
import Verif.Props.GenDBConserve
import Verif.Props.GenDBPlaces
/-!
C85: when a reference gets another value, each stored value moves to the tuple of the same entity.
-/
namespace Verif
namespace GenDB
open PClean
noncomputable section
variable {V : Type} {F : Family V} {L : FamilyLaws F} {s : PClean.Schema} {hash : String → Int} {mkC : String → FMap String String → Res F.C}
  {mkE : String → FMap String String → Res F.E} {clean finalOnly : Bool} {t₀ t₁ : Tape} {D₀ D D' : DB F} {rows : List (Row V)} {c f : String} {i w : Int} {st st' : Stored V}

theorem setRef_redirected {e e' : Ents} (h : setRef e c f i w = .ok e') : Redirected e c f i w e' := setRef_hasRef h

/-- **C84**, in part: as long as rows are incorporated and no reference is reassigned, each value of each relation is at the tuple of its entity. -/
theorem C84_all_partial (S : Samples L) (hf : Fine s clean) (hmk : make s hash mkC mkE clean finalOnly t₀ = .ok (D₀, t₁)) (hcm : Compatible L D₀.H.schema)
    (hi : (∃ y ∈ rows, y.unique = true) → Indexed s finalOnly) (h : Loaded L D₀ rows D) {n : String} {k : Items} {v : V} (hv : D.H.value n k = some v) :
    ∃ c i, Belongs s finalOnly D.ents n c i k := by
  have hm := make_spec L hf hmk
  obtain ⟨H, e, rfl, hI⟩ := h.inv S hm hf hcm hi
  rcases hI.only n k v hv with ⟨y, _, _, ht⟩ | hl
  · rw [hm.schema] at ht
    exact ⟨_, y.id, Or.inl ⟨rfl, ht⟩⟩
  · exact hm.lower hf hl

/-- **C85**: if the values of a relation are stored at the tuples of their entities, `update_reference_items` gives exactly the same values for the same entities, each at
the tuple that the references lead to when the reference has the new value: none is lost, doubled or mixed up with another. -/
theorem C85_tuples (hf : Fine s clean) (hi : Indexed s finalOnly) (hmk : make s hash mkC mkE clean finalOnly t₀ = .ok (D₀, t₁)) {e : Ents}
    (h : updateItems D₀.H.schema D₀.relIdx e c f i w st = .ok st') :
    ∃ e', Redirected e c f i w e' ∧ ∀ n, (∀ k v, storedAt st n k = some v → ∃ d j, Belongs s finalOnly e n d j k) →
      ∀ k' v, storedAt st' n k' = some v ↔ ∃ k d j, storedAt st n k = some v ∧ Belongs s finalOnly e n d j k ∧ Belongs s finalOnly e' n d j k' := by
  have hm := make_laid hf hmk
  obtain ⟨e', he, h2, h3⟩ := updateItems_spec h
  refine ⟨e', setRef_redirected he, fun n hst k' v => ?_⟩
  simp only [storedAt_part] at hst ⊢
  constructor
  · intro hv
    obtain ⟨k, a1, a2⟩ := h3 n k' v hv
    obtain ⟨d, j, hb⟩ := hst k v a1
    obtain ⟨hr, spec, hp⟩ := hm.belongs hf hi hb
    exact ⟨k, d, j, a1, hb, hp.of _ _ _ (hp.renewed hr a2)⟩
  · rintro ⟨k, d, j, a1, a2, a3⟩
    obtain ⟨hr, spec, hp⟩ := hm.belongs hf hi a2
    obtain ⟨hr', _⟩ := hm.belongs hf hi a3
    obtain ⟨e'', he'', hall⟩ := updateItems_tuples hp (fun k v hv => by
      obtain ⟨d', j', hb⟩ := hst k v hv
      exact ⟨j', (hm.belongs hf hi hb).1⟩) h
    rw [he] at he''
    cases he''
    exact (hall k' v).mpr ⟨k, j, a1, hr, hr'⟩

/-- **C85**: if the reference keeps its value, so do all tuples. -/
theorem C85_same (hf : Fine s clean) (hi : Indexed s finalOnly) (hmk : make s hash mkC mkE clean finalOnly t₀ = .ok (D₀, t₁)) {e : Ents} (hw : HasRef e c f i w)
    (h : updateItems D₀.H.schema D₀.relIdx e c f i w st = .ok st') {n : String} (hst : ∀ k v, storedAt st n k = some v → ∃ d j, Belongs s finalOnly e n d j k) (k : Items) :
    storedAt st' n k = storedAt st n k := by
  have hm := make_laid hf hmk
  obtain ⟨e', he, hall⟩ := C85_tuples hf hi hmk h
  have hsame : ∀ c' f' i' v, HasRef e c' f' i' v ↔ HasRef e' c' f' i' v := by
    intro c' f' i' v
    rw [he]
    split
    · next hx =>
      obtain ⟨rfl, rfl, rfl⟩ := hx
      exact ⟨fun h => h.fun hw, fun h => h ▸ hw⟩
    · exact Iff.rfl
  refine Option.ext fun v => ?_
  rw [hall n hst k v]
  constructor
  · rintro ⟨k₁, d, j, a1, a2, a3⟩
    obtain ⟨hr, spec, hp⟩ := hm.belongs hf hi a2
    have := hp.unique hr ((RowOf.congr hsame).mpr (hm.belongs hf hi a3).1)
    rw [← this]
    exact a1
  · intro hv
    obtain ⟨d, j, hb⟩ := hst k v hv
    obtain ⟨hr, spec, hp⟩ := hm.belongs hf hi hb
    exact ⟨k, d, j, hv, hb, hp.of _ _ _ ((RowOf.congr hsame).mp hr)⟩

/-- **C85**: `update_reference_items` returns if the entity has the reference, the values are stored at the tuples of their entities, and all references are there of the
entities that references lead to from the new one. -/
theorem C85_returns (hf : Fine s clean) (hi : Indexed s finalOnly) (hmk : make s hash mkC mkE clean finalOnly t₀ = .ok (D₀, t₁)) {e : Ents} {v : Int} {d : String}
    (hd : Refers s c f d) (hv : HasRef e c f i v) (hw : Full s e d w)
    (hst : ∀ n k u, storedAt st n k = some u → ∃ x j, Belongs s finalOnly e n x j k) :
    ∃ st', updateItems D₀.H.schema D₀.relIdx e c f i w st = .ok st' := by
  have hm := make_laid hf hmk
  obtain ⟨e', he⟩ := setRef_defined hv w
  obtain ⟨st', h'⟩ := newStored_defined (rels := D₀.H.schema) (relIdx := D₀.relIdx) (e := e') (l := st.entries) ∅ (by
    intro q m k u hx hu
    obtain ⟨x, j, hb⟩ := hst q k u (by rw [storedAt_part]; unfold part; rw [FMap.mem_entries.mp hx]; exact hu)
    obtain ⟨hr, spec, hp⟩ := hm.belongs hf hi hb
    exact hp.renew hd (setRef_redirected he) hw hr)
  refine ⟨st', ?_⟩
  unfold updateItems
  exact bind_ok.mpr ⟨e', he, h'⟩

/-- **C85**: whatever calls came before, when `unincorporate_reference` takes out what depends on a reference and `update_reference_items` gives it another value, each
value of a query field that was taken out is stored for the same row, at the tuple of the row with the new reference. -/
theorem C85_rows (hf : Fine s clean) (hi : Indexed s finalOnly) (hmk : make s hash mkC mkE clean finalOnly t₀ = .ok (D₀, t₁)) (h : Worked D₀ rows D)
    {inds : FMap String (List Nat)} {out out' : DomOut} {t t' : Tape} {lp : WithBot ℝ} (hu : D.unincReference inds c f i ∅ out t = .ok (lp, D', st, out', t'))
    (h' : updateItems D'.H.schema D'.relIdx D'.ents c f i w st = .ok st') :
    ∃ e', Redirected D.ents c f i w e' ∧ ∀ q fld, s.query.fields.find? q = some fld → ∀ k' v,
      storedAt st' q k' = some v ↔ ∃ k id, D.H.value q k = some v ∧ storedAt st q k = some v ∧ TupleOf s D.ents q id k ∧ TupleOf s e' q id k' := by
  have hm := make_laid hf hmk
  obtain ⟨r, hr, hw⟩ := hm.ready hf hi
  obtain ⟨hs, hstay, _⟩ := h.stays hm hf hi hr hw
  have ho := unincReference_only hu
  have hs' : Same D₀ D' := hs.trans ho.same
  rw [hs'.rels, hs'.relIdx, ho.ents] at h'
  obtain ⟨e', he, hall⟩ := C85_tuples hf hi hmk h'
  have hc := (unincReference_out (Handled.tidy hmk (.worked h)) hu).1.conserved
  have hin : ∀ n k v, storedAt st n k = some v → D.H.value n k = some v := by
    intro n k v hv
    rcases hc n k with ⟨_, b⟩ | ⟨u, a, _, b⟩
    · rw [hv] at b; cases b
    · rw [hv] at b; cases b; exact a
  refine ⟨e', he, fun q fld hq k' v => ?_⟩
  have hb : ∀ k v, storedAt st q k = some v → ∃ id, TupleOf s D.ents q id k := by
    intro k v hv
    obtain ⟨x, _, _, hx⟩ := ((C69_history hf hi hmk h).1 q fld hq).2 k v (hin q k v hv)
    exact ⟨x.id, hx⟩
  rw [hall q (fun k v hv => by
    obtain ⟨id, hid⟩ := hb k v hv
    exact ⟨_, id, Or.inl ⟨rfl, hid⟩⟩) k' v]
  have hq0 : Queried D₀ q := ⟨fld, by rw [hm.schema]; exact hq⟩
  obtain ⟨spec, a1, _, _, _, _, a6⟩ := hm.rowOf hf hi hq0
  constructor
  · rintro ⟨k, d, j, b1, b2, b3⟩
    exact ⟨k, j, hin _ _ _ b1, b1, (a6 _ _ _).mp (hm.belongs hf hi b2).1, (a6 _ _ _).mp (hm.belongs hf hi b3).1⟩
  · rintro ⟨k, id, _, b1, b2, b3⟩
    exact ⟨k, _, id, b1, Or.inl ⟨rfl, b2⟩, Or.inl ⟨rfl, b3⟩⟩

/-- **C85**: after rows have been incorporated the same is true of all relations. -/
theorem C85_loaded (S : Samples L) (hf : Fine s clean) (hi : Indexed s finalOnly) (hmk : make s hash mkC mkE clean finalOnly t₀ = .ok (D₀, t₁))
    (hcm : Compatible L D₀.H.schema) (h : Loaded L D₀ rows D) {inds : FMap String (List Nat)} {out out' : DomOut} {t t' : Tape} {lp : WithBot ℝ}
    (hu : D.unincReference inds c f i ∅ out t = .ok (lp, D', st, out', t')) (h' : updateItems D'.H.schema D'.relIdx D'.ents c f i w st = .ok st') :
    ∃ e', Redirected D.ents c f i w e' ∧ ∀ n k' v, storedAt st' n k' = some v ↔
      ∃ k d j, storedAt st n k = some v ∧ Belongs s finalOnly D.ents n d j k ∧ Belongs s finalOnly e' n d j k' := by
  have hm := make_spec L hf hmk
  have ho := unincReference_only hu
  have hs' : Same D₀ D' := h.same.trans ho.same
  rw [hs'.rels, hs'.relIdx, ho.ents] at h'
  obtain ⟨e', he, hall⟩ := C85_tuples hf hi hmk h'
  have ht : D.H.Tidy := by
    obtain ⟨H, e, rfl, hI⟩ := h.inv S hm hf hcm (fun _ => hi)
    exact hI.st.reach.good.tidy
  have hc := (unincReference_out ht hu).1.conserved
  refine ⟨e', he, fun n k' v => hall n (fun k v hv => ?_) k' v⟩
  rcases hc n k with ⟨_, b⟩ | ⟨u, a, _, b⟩
  · rw [hv] at b; cases b
  · exact C84_all_partial S hf hmk hcm (fun _ => hi) h a

/-! ### Concrete cases -/
open Latent (bools boolLaws)

/-- a reference is taken out and gets another value -/
def redirect (s : PClean.Schema) (clean : Bool) (rows : List (Row Bool)) (c f : String) (i w : Int) : Res (DB bools × DB bools × Stored Bool × Stored Bool) := do
  let (D, _) ← loadAll s clean false 4 rows
  let inds ← D.domainInds c f
  let (_, D₁, st, _, _) ← D.unincReference inds c f i ∅ ∅ []
  let st' ← updateItems D₁.H.schema D₁.relIdx D₁.ents c f i w st
  .ok (D, D₁, st, st')

set_option maxRecDepth 40000 in
/-- The city of practice 1, which row 8 visits, is replaced by city 0: all values of the row and of the practice move to the tuples with city 0. -/
theorem redirect_witness : (redirect visits false [bothRow true 8 true false, bothRow true 7 false true] "Practice" "city" 1 0).map (fun x => (refsOf x.1, storedOf x.2.2.1, storedOf x.2.2.2)) =
    .ok ([("City", []), ("Practice", [(("city", 0), 0), (("city", 1), 1)]), ("Record", [(("location", 7), 0), (("location", 8), 1)])],
      [("Addr", [([1, 1, 8], true)]), ("City", [([1, 1, 8], false)]), ("Practice::City", [([1, 1], false)]), ("Practice:addr", [([1, 1], false)])],
      [("Addr", [([0, 1, 8], true)]), ("City", [([0, 1, 8], false)]), ("Practice::City", [([0, 1], false)]), ("Practice:addr", [([0, 1], false)])]) := rfl

set_option maxRecDepth 4000 in
/-- All theorems about C85, for this case. -/
example : ∃ (D₀ : DB bools) (t₀ : Tape) (D : DB bools) (st st' : Stored Bool) (e' : Ents), start visits false false = .ok (D₀, t₀) ∧
    Loaded boolLaws D₀ [bothRow true 8 true false, bothRow true 7 false true] D ∧ Redirected D.ents "Practice" "city" 1 0 e' ∧
    updateItems D₀.H.schema D₀.relIdx D.ents "Practice" "city" 1 0 st = .ok st' ∧ storedAt st "Practice:addr" [1, 1] = some false ∧
    storedAt st' "Practice:addr" [0, 1] = some false ∧ storedAt st "Addr" [1, 1, 8] = some true ∧ storedAt st' "Addr" [0, 1, 8] = some true ∧
    (∃ k id, TupleOf visits D.ents "Addr" id k ∧ TupleOf visits e' "Addr" id [0, 1, 8]) ∧
    (∀ n k v, storedAt st n k = some v → ∃ d j, Belongs visits false D.ents n d j k) ∧
    (∀ w, ∃ st₂, updateItems D₀.H.schema D₀.relIdx D.ents "Practice" "city" 1 w st = .ok st₂) ∧
    ∃ st₁, updateItems D₀.H.schema D₀.relIdx D.ents "Practice" "city" 1 1 st = .ok st₁ ∧ ∀ n k, storedAt st₁ n k = storedAt st n k := by
  obtain ⟨⟨D, D₁, st, st'⟩, h, hx⟩ := Res.of_map redirect_witness
  simp only [Prod.mk.injEq] at hx
  obtain ⟨w0, w1, w2⟩ := hx
  unfold redirect at h
  obtain ⟨⟨D', u⟩, h0, h⟩ := bind_ok.mp h
  dsimp only at h
  obtain ⟨inds, _, h⟩ := bind_ok.mp h
  obtain ⟨⟨lp, D₁', st₀, out, t⟩, h2, h⟩ := bind_ok.mp h
  dsimp only at h
  obtain ⟨st₁, h3, h⟩ := bind_ok.mp h
  cases h
  obtain ⟨D₀, t₀, hs, hl⟩ := visits_rows rfl rfl (by decide) h0
  have ho := unincReference_only h2
  have hsame : Same D₀ D₁ := hl.same.trans ho.same
  obtain ⟨e', he, hall⟩ := C85_loaded HIRM.samples_bools visits_fine visits_indexed hs (HIRM.compatible_bools _) hl h2 h3
  obtain ⟨D₀', t₀', hs', hw⟩ := visits_worked rfl rfl h0
  rw [hs] at hs'
  cases hs'
  rw [hsame.rels, hsame.relIdx, ho.ents] at h3
  have hb : ∀ n k v, storedAt st n k = some v → ∃ d j, Belongs visits false D.ents n d j k := by
    intro n k v hv
    have hc := (unincReference_out (Handled.tidy hs (.worked hw)) h2).1.conserved
    rcases hc n k with ⟨_, b⟩ | ⟨u, a, _, b⟩
    · rw [hv] at b; cases b
    · exact C84_all_partial HIRM.samples_bools visits_fine hs (HIRM.compatible_bools _) (fun _ => visits_indexed) hl a
  have hcity : HasRef D.ents "Practice" "city" 1 1 := (hasRef_of w0).mpr ⟨[(("city", 0), 0), (("city", 1), 1)], by simp, by simp⟩
  have hret : ∀ w, ∃ st₂, updateItems D₀.H.schema D₀.relIdx D.ents "Practice" "city" 1 w st = .ok st₂ := by
    intro w
    refine C85_returns visits_fine visits_indexed hs visits_refers.2 hcity (full_iff.mpr fun f d hr => ?_) hb
    have := refers_refsFrom.mp hr
    have h0 : refsFrom visits "City" = [] := by decide
    rw [h0] at this
    cases this
  obtain ⟨st₂, hst₂⟩ := hret 1
  have hv : storedAt st' "Addr" [0, 1, 8] = some true := (storedAt_of w2).mpr ⟨_, List.mem_cons_self .., List.mem_cons_self ..⟩
  refine ⟨D₀, t₀, D, st, st', e', hs, hl, he, h3, (storedAt_of w1).mpr ⟨[([1, 1], false)], by simp, by simp⟩, (storedAt_of w2).mpr ⟨[([0, 1], false)], by simp, by simp⟩,
    (storedAt_of w1).mpr ⟨[([1, 1, 8], true)], by simp, by simp⟩, hv, ?_, hb, hret, st₂, hst₂, fun n k => C85_same visits_fine visits_indexed hs hcity hst₂ (hb n) k⟩
  obtain ⟨e'', he'', hall''⟩ := C85_rows visits_fine visits_indexed hs hw h2 (w := 0) (st' := st') (by rw [hsame.rels, hsame.relIdx, ho.ents]; exact h3)
  obtain ⟨k, id, _, _, b1, b2⟩ := (hall'' "Addr" _ rfl [0, 1, 8] true).mp hv
  refine ⟨k, id, b1, ?_⟩
  have hcongr : ∀ c f i v, HasRef e'' c f i v ↔ HasRef e' c f i v := fun c f i v => by rw [he, he'']
  have hx : Extends e'' e' := fun c f i v h => (hcongr c f i v).mp h
  exact b2.mono hx

end
end GenDB
end Verif
