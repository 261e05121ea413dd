import Verif.Spec.PCleanMain
import Verif.Lemmas.GenDBOrigin
import Verif.Lemmas.GenDBWired
import Verif.Lemmas.Priors
import Verif.Props.Priors
import Verif.Props.PCleanLib
/-! Runs of the program `pclean`: the database that is made of a proper schema. -/
namespace Verif
namespace PCleanMain
open PClean GenDB
noncomputable section
variable {w : World} {hash : String → Int} {clean finalOnly : Bool} {s : PClean.Schema} {D₀ : DB (priors w)} {t t' : Tape} {df : DataFrame} {m : Nat}

theorem mkC_ok {j : String} {p : FMap String String} {c : Prior} : (reader w hash).mkC j p = .ok c ↔ ∃ d, jointDist j p = .ok d ∧ getPrior d = .ok c :=
  bind_ok

theorem mkE_ok {j : String} {p : FMap String String} {e : EmisPrior} : (reader w hash).mkE j p = .ok e ↔ ∃ d, jointEmis j p = .ok d ∧ getEmisPrior d = .ok e :=
  bind_ok

theorem PartsOf.unique {j : String} {p : FMap String String} {c c' : Prior} {e e' : EmisPrior} (h : PartsOf j p c e) (h' : PartsOf j p c' e') : c = c' ∧ e = e' := by
  obtain ⟨⟨d, h1, h2⟩, d', h3, h4⟩ := h
  obtain ⟨⟨_, k1, k2⟩, _, k3, k4⟩ := h'
  rw [h1] at k1; cases k1
  rw [h3] at k3; cases k3
  rw [h2] at k2; rw [h4] at k4
  exact ⟨Except.ok.inj k2, Except.ok.inj k4⟩

/-- whatever the draws, a database is made of a proper schema -/
theorem ProperSchema.make (h : ProperSchema w hash clean finalOnly s) (t : Tape) :
    ∃ D₀ t', GenDB.make s hash (reader w hash).mkC (reader w hash).mkE clean finalOnly t = .ok (D₀, t') := by
  obtain ⟨doms, h1⟩ := (C45_defined s).mpr ⟨h.acyclic, h.closed⟩
  obtain ⟨idx, h2⟩ := C46_defined h1
  have hL : layoutsOf s = .ok ⟨doms, idx⟩ := by
    unfold layoutsOf
    rw [h1]
    show (computeRefs _ _ >>= _) = _
    rw [h2]
    rfl
  have hn := h.fine.names
  have hq := h.fine.query
  obtain ⟨b, h3⟩ := (C62_defined hn hq hL (mkC := (reader w hash).mkC) (mkE := (reader w hash).mkE) clean finalOnly (by
    intro c x j p hs
    obtain ⟨c, e, ⟨h1, h2⟩, _⟩ := h.modelled c x j p hs
    exact ⟨⟨c, mkC_ok.mpr h1⟩, e, mkE_ok.mpr h2⟩)).mpr (fun _ => h.once)
  obtain ⟨⟨H, t', h4⟩, _⟩ := C62_hirm hn hq hL h3 t
  have h5 := (HIRM.C31_hirm_constructor b.schema t).mp ⟨H, t', h4⟩
  obtain ⟨hsch, _⟩ := HIRM.C31_hirm_result h4
  obtain ⟨classRels, h6⟩ := classRelsLoop_defined (l := H.schema.entries) (fun x hx => (h5 x.1 x.2 (by rw [← hsch]; exact FMap.mem_entries.mp hx)).1) ∅
  refine ⟨⟨s, hash, b.relIdx, classRels, H, ⟨s.classes.mapVals (fun _ _ => ∅), s.classes.mapVals (fun _ _ => {})⟩⟩, t', ?_⟩
  unfold GenDB.make
  rw [hL]
  show (makeSchema _ _ _ _ _ _ >>= _) = _
  rw [h3]
  show (HIRM.mk' _ _ >>= _) = _
  rw [h4]
  show (classRelsLoop _ _ >>= _) = _
  rw [h6]
  rfl

theorem madeOf_takes {j : String} {p : FMap String String} {c : Prior} {e : EmisPrior} (hp : PartsOf j p c e) (hce : ∀ v, Prior.Supports w c v → EmisPrior.Takes e v)
    {sp : RelSpec (priors w)} (h : MadeOf (reader w hash).mkC (reader w hash).mkE j p sp) {v : Value} (hv : sp.Takes v) : EmisPrior.Takes e v := by
  cases sp with
  | clean c' ds o =>
    have := mkC_ok.mp h
    obtain ⟨rfl, _⟩ := hp.unique ⟨this, hp.2⟩
    exact hce v hv
  | noisy e' ds b o =>
    have := mkE_ok.mp h
    obtain ⟨_, rfl⟩ := hp.unique ⟨hp.1, this⟩
    exact hv

/-- its relations can be sampled -/
theorem ProperSchema.sampleable (h : ProperSchema w hash clean finalOnly s)
    (hmk : GenDB.make s hash (reader w hash).mkC (reader w hash).mkE clean finalOnly t = .ok (D₀, t')) : Sampleable D₀.H.schema := by
  have hm := make_spec (priorLaws w) h.fine hmk
  obtain ⟨Ly, b, hL, hb, _, hs⟩ := hm.build
  have hn := h.fine.names
  have hq := h.fine.query
  rw [hs]
  have origin := fun {n} {spec} hn' => schema_origin hn hq hL hb (n := n) (spec := spec) hn'
  have samples : ∀ n c doms o, b.schema.find? n = some (.clean c doms o) → Prior.Samples c := by
    intro n c doms o hs
    obtain ⟨cl, x, j, p, h1, h2, _⟩ := origin hs
    obtain ⟨c', e, h3, h4, _⟩ := h.modelled cl x j p h1
    obtain ⟨rfl, _⟩ := h3.unique ⟨mkC_ok.mp h2, h3.2⟩
    exact h4
  refine ⟨⟨?_, ?_, ?_⟩, samples⟩
  · intro n spec base sp h1 h2 h3
    cases spec with
    | clean c ds o => cases h2
    | noisy e ds b' o =>
      cases h2
      obtain ⟨sp', tl, h4, h5⟩ := (C62_hirm hn hq hL hb []).2 n e ds base o h1
      rw [h3] at h4
      cases h4
      show sp.doms.length ≤ ds.length
      rw [h5]
      simp
  · intro n e doms base o sp h1 h2 v hv
    obtain ⟨cl, x, j, p, h3, h4, h5⟩ := origin h1
    obtain ⟨c', e', h6, _, h7⟩ := h.modelled cl x j p h3
    obtain ⟨sp', h8, h9⟩ := h5 base rfl
    rw [h2] at h8
    cases h8
    obtain ⟨_, rfl⟩ := h6.unique ⟨h6.1, mkE_ok.mp h4⟩
    exact madeOf_takes h6 h7 h9 hv
  · intro n c doms o m spec h1 _ _
    exact samples n c doms o h1

theorem ProperSchema.compatible (hw : w.Readable) (h : ProperSchema w hash clean finalOnly s)
    (hmk : GenDB.make s hash (reader w hash).mkC (reader w hash).mkE clean finalOnly t = .ok (D₀, t')) : Compatible (priorLaws w) D₀.H.schema :=
  (h.sampleable hmk).compatible hw

/-- the relation of a query field -/
theorem ProperSchema.field (h : ProperSchema w hash clean finalOnly s)
    (hmk : GenDB.make s hash (reader w hash).mkC (reader w hash).mkE clean finalOnly t = .ok (D₀, t')) {q : String} {f : QueryField} {hops : List (String × String)}
    {d x j : String} {p : FMap String String} {c : Prior} {e : EmisPrior} (hq : s.query.fields.find? q = some f)
    (hp : PathTo s s.query.recordClass f.classPath hops d x j p) (hc : PartsOf j p c e) :
    (hops = [] ∧ ∃ ds o, D₀.H.schema.find? q = some (.clean c ds o)) ∨ hops ≠ [] ∧ ∃ ds b o, D₀.H.schema.find? q = some (.noisy e ds b o) := by
  have hm := make_spec (priorLaws w) h.fine hmk
  obtain ⟨Ly, b, hL, hb, _, hs⟩ := hm.build
  obtain ⟨ds, hds⟩ := field_layout hL hp
  have hfield := (C62_relations h.fine.names h.fine.query hL hb).2.1 q f hops d x j p ds hq hp hds
  rw [hs]
  cases hops with
  | nil =>
    left
    have hcl : clean = true := by
      cases hp' : f.classPath with
      | nil => rw [hp'] at hp; cases hp
      | cons y l =>
        cases l with
        | nil => exact h.fine.mode q f y hq hp'
        | cons z l => rw [hp'] at hp; cases hp
    subst hcl
    obtain ⟨c', h1, h2, _⟩ := hfield
    obtain ⟨rfl, _⟩ := hc.unique ⟨mkC_ok.mp h1, hc.2⟩
    exact ⟨rfl, ds, true, h2⟩
  | cons hop hops =>
    right
    refine ⟨by simp, ?_⟩
    cases finalOnly with
    | true =>
      obtain ⟨e', r, h1, h2, _⟩ := hfield
      obtain ⟨_, rfl⟩ := hc.unique ⟨hc.1, mkE_ok.mp h1⟩
      exact ⟨_, _, _, h2⟩
    | false =>
      obtain ⟨e', h1, hall⟩ := hfield
      obtain ⟨_, rfl⟩ := hc.unique ⟨hc.1, mkE_ok.mp h1⟩
      obtain ⟨c', g⟩ := hop
      obtain ⟨h2, _⟩ := hall [] c' g hops rfl
      exact ⟨_, _, _, h2⟩

theorem Cell.fun {q : String} {i : Nat} {x y : String} (h : Cell df q i x) (h' : Cell df q i y) : x = y := by
  obtain ⟨col, h1, h2⟩ := h
  obtain ⟨col', h3, h4⟩ := h'
  rw [h1] at h3
  cases h3
  rw [h2] at h4
  exact String.toList_inj.mp (Option.some.inj h4)

/-- the meaning of a text for the relation of a query field -/
theorem ProperSchema.means (h : ProperSchema w hash clean finalOnly s)
    (hmk : GenDB.make s hash (reader w hash).mkC (reader w hash).mkE clean finalOnly t = .ok (D₀, t')) {q : String} {f : QueryField} {hops : List (String × String)}
    {d x j : String} {p : FMap String String} {c : Prior} {e : EmisPrior} (hq : s.query.fields.find? q = some f)
    (hp : PathTo s s.query.recordClass f.classPath hops d x j p) (hc : PartsOf j p c e) {spec : RelSpec (priors w)} (hs : D₀.H.schema.find? q = some spec)
    (y : String) (v : Value) : Means w c e hops y v ↔ (reader w hash).parse spec.kind y = .ok v ∧ spec.Takes v := by
  unfold Means
  rcases h.field hmk hq hp hc with ⟨rfl, ds, o, h1⟩ | ⟨h0, ds, b, o, h1⟩
  · rw [hs] at h1
    cases h1
    rw [if_pos rfl]
    exact Iff.rfl
  · rw [hs] at h1
    cases h1
    rw [if_neg h0]
    exact Iff.rfl

theorem ProperTable.cellValue (ht : ProperTable w s df m) (h : ProperSchema w hash clean finalOnly s)
    (hmk : GenDB.make s hash (reader w hash).mkC (reader w hash).mkE clean finalOnly t = .ok (D₀, t')) (q : String) (i : Nat) (v : Value) :
    CellValue D₀ (reader w hash).parse df q i v ↔ CellMeans w s df q i v := by
  have hm := make_spec (priorLaws w) h.fine hmk
  constructor
  · rintro ⟨f, spec, text, h1, h2, h3, h4, h5⟩
    rw [hm.schema] at h1
    obtain ⟨_, v', f', hops, d, x, j, p, c, e, text', k1, k2, k3, k4, k5, k6⟩ := ht.cells q f i text h1 h3 h4
    obtain rfl := Cell.fun h3 k4
    refine ⟨f', hops, d, x, j, p, c, e, text, k1, k2, k3, k4, k5, ?_⟩
    have := ((h.means hmk k1 k2 k3 h2 _ _).mp k6).1
    rw [h5] at this
    cases this
    exact k6
  · rintro ⟨f, hops, d, x, j, p, c, e, text, k1, k2, k3, k4, k5, k6⟩
    obtain ⟨spec, hs⟩ : ∃ spec, D₀.H.schema.find? q = some spec := by
      rcases h.field hmk k1 k2 k3 with ⟨_, ds, o, h1⟩ | ⟨_, ds, b, o, h1⟩ <;> exact ⟨_, h1⟩
    exact ⟨f, spec, text, by rw [hm.schema]; exact k1, hs, k4, k5, ((h.means hmk k1 k2 k3 hs _ _).mp k6).1⟩

theorem ProperTable.legible (ht : ProperTable w s df m) (h : ProperSchema w hash clean finalOnly s)
    (hmk : GenDB.make s hash (reader w hash).mkC (reader w hash).mkE clean finalOnly t = .ok (D₀, t')) :
    Legible (priorLaws w) D₀ (reader w hash).parse df := by
  have hm := make_spec (priorLaws w) h.fine hmk
  intro q f spec i text h1 h2 h3 h4
  rw [hm.schema] at h1
  obtain ⟨hprint, v, f', hops, d, x, j, p, c, e, text', k1, k2, k3, k4, k5, k6⟩ := ht.cells q f i text h1 h3 h4
  obtain rfl := Cell.fun h3 k4
  obtain ⟨h5, h6⟩ := (h.means hmk k1 k2 k3 h2 _ _).mp k6
  exact ⟨hprint, v, h5, (h.sampleable hmk).toSound.accepts h2 h6⟩

end
end PCleanMain
end Verif
