import Verif.Props.Loading
import Verif.Props.IrmRun
/-!
C78 for the mode `irm`: cluster files that suit the schema and the observations are accepted, in particular those that a run has saved.
-/
namespace Verif
noncomputable section
namespace UtilIO
variable {V : Type} {F : Family V} {L : FamilyLaws F}

/-! ### The states on the way -/

theorem seatItems_reach_irm {fwd : FMap String (FMap String Int)} {d : String} {c : Int} {n : Nat} {I : IRM F} : ∀ (l : List String) (σ : Doms)
    (t : Tape) (x : Doms × Tape), IRM.Reach L False True n { I with doms := σ } → seatItems fwd d c l σ t = .ok x →
    IRM.Reach L False True n { I with doms := x.1 } := by
  intro l
  induction l with
  | nil => intro σ t x h hc; cases hc; exact h
  | cons item l ih =>
    intro σ t x h hc
    obtain ⟨m, _, hc⟩ := bind_ok.mp hc
    obtain ⟨k, _, hc⟩ := bind_ok.mp hc
    obtain ⟨dom, h3, hc⟩ := bind_ok.mp hc
    obtain ⟨⟨dom', t'⟩, h4, hc⟩ := bind_ok.mp hc
    have := IRM.Reach.seat (I := { I with doms := σ }) trivial h (FMap.atKey_ok.mp h3) h4
    exact ih _ _ _ this hc

theorem seatTables_reach_irm {fwd : FMap String (FMap String Int)} {d : String} {n : Nat} {I : IRM F} : ∀ (l : List (Int × List String)) (σ : Doms)
    (t : Tape) (x : Doms × Tape), IRM.Reach L False True n { I with doms := σ } → seatTables fwd d l σ t = .ok x →
    IRM.Reach L False True n { I with doms := x.1 } := by
  intro l
  induction l with
  | nil => intro σ t x h hc; cases hc; exact h
  | cons e l ih =>
    obtain ⟨c, items⟩ := e
    intro σ t x h hc
    obtain ⟨_, _, hc⟩ := bind_ok.mp hc
    obtain ⟨⟨σ₁, t₁⟩, h1, hc⟩ := bind_ok.mp hc
    exact ih _ _ _ (seatItems_reach_irm _ _ _ _ h h1) hc

theorem seatClusters_reach_irm {fwd : FMap String (FMap String Int)} {n : Nat} {I : IRM F} : ∀ (l : List (String × FMap Int (List String)))
    (σ : Doms) (t : Tape) (x : Doms × Tape), IRM.Reach L False True n { I with doms := σ } → seatClusters fwd l σ t = .ok x →
    IRM.Reach L False True n { I with doms := x.1 } := by
  intro l
  induction l with
  | nil => intro σ t x h hc; cases hc; exact h
  | cons e l ih =>
    obtain ⟨d, tables⟩ := e
    intro σ t x h hc
    obtain ⟨_, _, hc⟩ := bind_ok.mp hc
    obtain ⟨_, _, hc⟩ := bind_ok.mp hc
    obtain ⟨⟨σ₁, t₁⟩, h1, hc⟩ := bind_ok.mp hc
    exact ih _ _ _ (seatTables_reach_irm _ _ _ _ h h1) hc

/-- A file that suits the schema and the observations is accepted, up to the observations. -/
theorem irmFromTxt_ok {parse : F.C ⊕ F.E → String → Res V} {schema : Schema F} {obs : ObsMap String} {cl : Clusters}
    (ha : ∀ n spec b sp, schema.find? n = some spec → spec.base? = some b → schema.find? b = some sp → sp.doms.length ≤ spec.doms.length)
    (hd : ∀ n spec, schema.find? n = some spec → spec.doms ≠ []) (hb : BasesEarlier schema) (hsuit : SuitsIrm schema obs schema.keys cl) {t t₁ : Tape} {enc : Encoding}
    (henc : calculateEncoding schema obs t = .ok (enc, t₁)) (L : FamilyLaws F) :
    ∃ I n t₂, IRM.Reach L False True n I ∧ I.schema = schema ∧ (∀ r k, I.value r k = none) ∧
      irmFromTxt parse schema obs cl t = incorporateObservations (IRM.host F) parse I enc obs t₂ := by
  obtain ⟨I0, h0⟩ := (IRM.C31_irm_constructor_partial schema).mpr (fun n spec hs => ⟨hd n spec hs, fun b h => hb n spec b hs h⟩)
  have e0 := (IRM.C31_irm_result h0).1
  have hnone := IRM.mk'_none h0
  obtain ⟨m, hr0⟩ : ∃ m, IRM.Reach L False True m I0 := IRM.reach_mk' ha h0
  have hk : IRM.Known (fun _ _ => False) I0 := IRM.known_mk' h0
  obtain ⟨I1, h1, hc⟩ := bind_ok.mp h0
  obtain ⟨_, _, hc⟩ := bind_ok.mp hc
  cases hc
  obtain ⟨⟨σ, t₂⟩, h2⟩ := hsuit.seat (numbers henc) hk.seats (fun n _ spec hs d hd => by
    obtain ⟨id, rel, k1, k2⟩ := hr0.inv.obj (by rw [e0]; exact hs)
    exact (hr0.inv.rels n id rel k1).doms d (by rw [k2.doms]; exact hd)) t₁
  refine ⟨{ I0 with doms := σ }, m, t₂, seatClusters_reach_irm _ _ _ _ hr0 h2, e0, hnone, ?_⟩
  simp only [irmFromTxt, bind, Except.bind, henc, h1, h2]

/-- **C78**: `from_txt` accepts every cluster file that suits the schema and the observations, in the mode `irm`, too.

Missing: as for `C78_loads_partial`. -/
theorem C78_irm_loads_partial (Sm : Samples L) {schema : Schema F} (hu : Usable L schema)
    (ha : ∀ n spec b sp, schema.find? n = some spec → spec.base? = some b → schema.find? b = some sp → sp.doms.length ≤ spec.doms.length)
    (hd : ∀ n spec, schema.find? n = some spec → spec.doms ≠ []) (hb : BasesEarlier schema) {parse : F.C ⊕ F.E → String → Res V} {obs : ObsMap String}
    (hv : ∀ r spec l o v, schema.find? r = some spec → obs.find? r = some l → o ∈ l → parse spec.kind o.2 = .ok v → Takes L schema v spec)
    (hf : Fitting parse schema obs) {cl : Clusters} (hs : SuitsIrm schema obs schema.keys cl) (t : Tape) :
    ∃ I n t' enc, irmFromTxt parse schema obs cl t = .ok (I, t') ∧ IRM.Reach L False True n I ∧ I.schema = schema ∧ Numbers schema obs enc ∧
      ∀ r spec l, schema.find? r = some spec → obs.find? r = some l → ∀ o ∈ l, ∃ k v, Codes enc spec.doms o.1 k ∧ parse spec.kind o.2 = .ok v ∧ I.value r k = some v := by
  obtain ⟨enc, t1, henc⟩ := (C32_calculated schema obs t).mpr (fun r l items v hl ho => by
    obtain ⟨spec, h1, h2⟩ := hf.each r l hl
    exact ⟨spec, h1, le_of_eq (h2 _ ho).1⟩)
  have hnum := numbers henc
  obtain ⟨I0, m, t2, h1, e0, h2, h3⟩ := irmFromTxt_ok (parse := parse) ha hd hb hs henc L
  obtain ⟨I, t', h4, h5, h7⟩ := IRM.C33_returns_partial Sm h1 (by rw [e0]; exact hu) (parse := parse) (enc := enc) (obs := obs)
    (fun r spec l o v g1 g2 g3 g4 => by
      have g1 : I0.schema.find? r = some spec := g1
      show Takes L I0.schema v spec
      rw [e0] at g1 ⊢
      exact hv r spec l o v g1 g2 g3 g4) (by
    rw [e0]
    intro r l hl
    obtain ⟨spec, g1, g2⟩ := hf.each r l hl
    refine ⟨spec, g1, fun o ho => ?_, ?_⟩
    · obtain ⟨g3, v, g4⟩ := g2 o ho
      obtain ⟨k, g5, g6⟩ := codes_ex (enc := enc) g3 (fun j x d hx hd => ((hnum d).2 x).mpr ⟨r, spec, l, o.1, o.2, j, g1, hl, ho, hx, hd⟩)
      exact ⟨k, v, g5, g6, h2 r k, g4⟩
    · have := hf.distinct r l hl
      rw [List.Nodup, List.pairwise_map] at this
      refine this.imp (fun {o o'} hne k k' hk hk' he => hne ?_)
      subst he
      exact Codes.inj hnum.inj hk hk') (by rw [e0]; exact hf.leaf) (by rw [e0]; exact hf.all) t2
  refine ⟨I, m, t', enc, h3.trans h4, h5, h7.schema.trans e0, hnum, fun r spec l hr hl o ho => ?_⟩
  obtain ⟨k, v, ⟨spec', rel, g1, g2, g3, g4⟩, _, g5⟩ := h7.each r l hl o ho
  have g1 : I0.schema.find? r = some spec' := g1
  obtain ⟨rel', k1, k2, _⟩ := (IRM.hosted Sm m).get (m := I0) ⟨h1, by rw [e0]; exact hu⟩ g1
  rw [k1] at g3; cases g3
  rw [e0, hr] at g1; cases g1
  exact ⟨k, v, g2, by rw [← k2]; exact g4, g5⟩

end UtilIO

namespace HirmMain
open UtilIO
variable {w : World} {a : Args} {S : Schema (priors w)} {rows held : List Row}

/-- what `C78_irm_starts_partial` says, with the state that the model is in -/
theorem Proper.loadIrm (hw : w.Readable) (h : Proper w a S rows held) (hb : BasesEarlier S) {text : List Char} (ha : a.clusters = some text)
    {cl : Clusters} (hl : loadClustersIrm text = .ok cl) {obs : ObsMap String} (ho : OfRows rows obs)
    (hs : SuitsIrm S obs S.keys cl) (i : Inputs (priors w)) (t : Tape) :
    ∃ I n t' S' enc, HirmMain.startIrm (reader w) a i t = .ok (I, t') ∧ Marked S S' ∧ IRM.Reach (priorLaws w) False True n I ∧ I.schema = S' ∧ Numbers S obs enc ∧
      (∀ x ∈ rows, Has S enc I.value x) ∧
      ∀ r k v, HIRM.Leaf S r → I.value r k = some v → ∃ x ∈ rows, x.rel = r ∧ States w S x v ∧ ∃ spec, S.find? r = some spec ∧ Codes enc spec.doms x.items k := by
  have hd := loadSchema_doms h.schema
  obtain ⟨obs', S', t1, h1, h2, h3, _⟩ := loadObservations_rows h.obs (fun x hx => by
    obtain ⟨v, hv⟩ := (h.each x hx).2
    exact hv.row hd) t
  have e : obs' = obs := FMap.ext (fun r => (h2 r).trans (ho r).symm)
  subst e
  have hal := h3.alike
  have hsnd := h3.sound h.sound
  obtain ⟨enc, t2, henc⟩ := (C32_calculated S' obs' t1).mpr (fun r l items v hl hm => by
    obtain ⟨rfl, _⟩ := h2.find hl
    obtain ⟨x, hx, rfl, he⟩ := mem_rowsOf.mp hm
    obtain ⟨v', spec, g1, g2, _⟩ := (h.each x hx).2
    obtain ⟨sp, g3, g4⟩ := h3.to g1
    exact ⟨sp, g3, by rw [g4.doms, ← g2, (Prod.mk.inj he).1]⟩)
  have hs' : SuitsIrm S' obs' S'.keys cl := by
    obtain ⟨a1, a2, a3, a4, a5⟩ := hs.alike hal
    refine ⟨fun d m hm => ?_, a2, a3, a4, a5⟩
    obtain ⟨n, _, spec, k1, k2⟩ := a1 d m hm
    exact ⟨n, FMap.contains_iff_mem.mp (FMap.contains_iff.mpr ⟨_, k1⟩), spec, k1, k2⟩
  obtain ⟨I0, m, t3, h4, e0, h5, h6⟩ := irmFromTxt_ok (parse := parseValue w) hsnd.arity (fun n spec hn => by
    obtain ⟨sp, g1, g2⟩ := h3.of hn
    rw [g2.doms]
    exact hd n sp g1) (hb.alike hal) hs' henc (priorLaws w)
  have hg : Got S rows [] ({ schema := S', observations := obs', heldout := ∅, encoding := enc } : Inputs (priors w)) :=
    ⟨h3, h2, fun r => rfl, obs', t1, t2, henc, fun x hx => ⟨_, h2.row (by simpa using hx)⟩⟩
  obtain ⟨I, t', h7, h8, h9, h10, h11⟩ := h.fillIrm hw hg h4 e0 h5 t3
  refine ⟨I, m, t', S', enc, ?_, h3, h8, h9, (numbers henc).alike hal.symm, h10, h11⟩
  unfold HirmMain.startIrm
  rw [ha]
  exact bind_ok.mpr ⟨S, h.schema, bind_ok.mpr ⟨_, h1, bind_ok.mpr ⟨_, hl, h6.trans h7⟩⟩⟩

/-- **C78**: a run in the mode `irm` with proper files accepts a cluster file that suits them, and starts with a model that has exactly the values
of the observations. -/
theorem C78_irm_starts_partial (hw : w.Readable) (h : Proper w a S rows held) (hb : BasesEarlier S) {text : List Char} (ha : a.clusters = some text)
    {cl : Clusters} (hl : loadClustersIrm text = .ok cl) {obs : ObsMap String} (ho : OfRows rows obs)
    (hs : SuitsIrm S obs S.keys cl) (i : Inputs (priors w)) (t : Tape) :
    ∃ I t' enc, startIrm (reader w) a i t = .ok (I, t') ∧ Numbers S obs enc ∧ (∀ x ∈ rows, Has S enc I.value x) ∧
      ∀ r k v, HIRM.Leaf S r → I.value r k = some v → ∃ x ∈ rows, x.rel = r ∧ States w S x v ∧ ∃ spec, S.find? r = some spec ∧ Codes enc spec.doms x.items k := by
  obtain ⟨I, _, t', _, enc, h1, _, _, _, h2⟩ := h.loadIrm hw hb ha hl ho hs i t
  exact ⟨I, t', enc, h1, h2⟩

/-- **C78**: a run in the mode `irm` with proper files and a cluster file that suits them never fails, whatever is drawn: it saves the clusters
of a model that has exactly the values of the observations, and if there are held-out lines, the log probability that it prints is a real
number.

Missing: as for `C78_runs_partial`, and a held-out file without lines (see `C73_empty_heldout_false`). -/
theorem C78_irm_runs_partial (hw : w.Readable) (h : Proper w a S rows held) (hb : BasesEarlier S) {text : List Char} (ha : a.clusters = some text)
    {cl : Clusters} (hl : loadClustersIrm text = .ok cl) {obs : ObsMap String} (ho : OfRows rows obs)
    (hs : SuitsIrm S obs S.keys cl) (hi : Iterable a S []) (hne : a.heldout ≠ none → held ≠ []) (t : Tape) :
    ∃ i I saved t1 enc out t', saveIrm (reader w) a t = .ok ((i, I, saved), t1) ∧ runIrm (reader w) a t = .ok (out, t') ∧ Numbers S obs enc ∧
      (∀ x ∈ rows, Has S enc I.value x) ∧
      (∀ r k v, HIRM.Leaf S r → I.value r k = some v →
        ∃ x ∈ rows, x.rel = r ∧ States w S x v ∧ ∃ spec, S.find? r = some spec ∧ Codes enc spec.doms x.items k) ∧
      out.clusters = saved ∧ (a.heldout = none → out.logp = none) ∧ (a.heldout ≠ none → ∃ lp : ℝ, out.logp = some (lp : WithBot ℝ)) := by
  obtain ⟨i, t1, h1, hg, _⟩ := h.read t
  obtain ⟨I0, n, t2, S', enc, h2, hm, h3, he, hn, h4, h5⟩ := h.loadIrm hw hb ha hl ho hs i t1
  obtain ⟨I, t3, h6, h7, h8, h9⟩ : ∃ I t', inferenceIrm a.iters I0 t2 = .ok (I, t') ∧ IRM.Reach (priorLaws w) False True n I ∧ I.schema = I0.schema ∧
      ∀ r k, I.value r k = I0.value r k := by
    rcases hi with hi | ⟨hu, hi⟩
    · rw [hi]
      exact ⟨I0, t2, rfl, h3, rfl, fun _ _ => rfl⟩
    · refine inferenceIrm_observed a.iters I0 t2 h3 (by rw [he]; exact (hm.undoing hu).scores) (fun n spec b sp q1 q2 q3 => ?_)
      rw [he] at q1
      obtain ⟨s, k1, k2⟩ := hm.of q1
      obtain ⟨x, hx, _⟩ := hi n s b k1 (by rw [← k2.base]; exact q2)
      cases hx
  have hfit : fitIrm (reader w) a t = .ok ((i, I), t3) := bind_ok.mpr ⟨_, h1, bind_ok.mpr ⟨_, h2, bind_ok.mpr ⟨_, h6, rfl⟩⟩⟩
  obtain ⟨saved, t4, hsave⟩ := C73_saves hfit
  have hhas : ∀ x ∈ rows, Has S enc I.value x := by
    intro x hx
    obtain ⟨spec, k, v, a1, a2, a3, a4⟩ := h4 x hx
    exact ⟨spec, k, v, a1, a2, a3, by rw [h9]; exact a4⟩
  have hg' : Got S rows held { i with schema := S' } := by
    obtain ⟨merged, te, te', g1, g2⟩ := hg.enc
    exact ⟨hm, hg.obs, hg.heldout, merged, te, te', (calculateEncoding_alike (hg.marked.alike.symm.trans hm.alike) merged te).trans g1, g2⟩
  obtain ⟨lp, t5, k1, k2, k3⟩ : ∃ lp t', heldoutIrm (reader w) a i I t4 = .ok (lp, t') ∧ (a.heldout = none → lp = none) ∧
      (a.heldout ≠ none → ∃ x : ℝ, lp = some (x : WithBot ℝ)) := by
    cases ha : a.heldout with
    | none =>
      refine ⟨none, t4, ?_, fun _ => rfl, fun hn => absurd rfl hn⟩
      unfold heldoutIrm
      rw [ha]
    | some tx =>
      obtain ⟨qs, x, t', k1, _⟩ := h.scoreIrm hw hg' h7 (h8.trans he) (hne (by rw [ha]; simp)) ha t4
      exact ⟨some (x : WithBot ℝ), t', k1, ⟨fun hn => absurd hn (by simp), fun _ => ⟨x, rfl⟩⟩⟩
  exact ⟨i, I, saved, t4, enc, _, t5, hsave, bind_ok.mpr ⟨_, hsave, bind_ok.mpr ⟨_, k1, rfl⟩⟩, hn, hhas,
    fun r k v hl hv => h5 r k v hl (by rw [← h9]; exact hv), rfl, k2, k3⟩

/-- **C78**: what a run in the mode `irm` has saved, a later run with the same schema and observations accepts, and it starts with the clusters
that the first ended with.

Missing: as for `C78_irm_runs_partial`. -/
theorem C78_irm_reloads_partial (hw : w.Readable) (h : Proper w a S rows held) (hc : a.clusters = none) (hi : Iterable a S held) (hb : BasesEarlier S) {t t' : Tape}
    {i : Inputs (priors w)} {I : IRM (priors w)} {text : List Char} (hsave : saveIrm (reader w) a t = .ok ((i, I, text), t'))
    (hn : ∀ d c x, Encoding.entity i.encoding d c = some x → Word d ∧ Word x) {a' : Args} {held' : List Row}
    (hs : a'.schema = a.schema) (ho : a'.obs = a.obs) (ha' : a'.clusters = some text) (h' : Proper w a' S rows held') (t₁ : Tape) :
    ∃ i' t₂, readInputs (reader w) a' t₁ = .ok (i', t₂) ∧ ∀ t₃, ∃ I' t₄ enc, startIrm (reader w) a' i' t₃ = .ok (I', t₄) ∧
      Numbers i.schema i.observations enc ∧ SameClusters I.doms i.encoding I'.doms enc := by
  obtain ⟨cl, hl, hsv⟩ := C73_reads_back hsave hn
  obtain ⟨i', t₂, h1, hg', _⟩ := h'.read t₁
  refine ⟨i', t₂, h1, fun t₃ => ?_⟩
  have hsuit : SuitsIrm S i.observations S.keys cl ∧ OfRows rows i.observations := by
    obtain ⟨⟨⟨i₀, I₀⟩, t5⟩, h0, hq⟩ := bind_ok.mp hsave
    obtain ⟨⟨_, _⟩, _, hq⟩ := bind_ok.mp hq
    cases hq
    obtain ⟨⟨i₀, t6⟩, k1, hq⟩ := bind_ok.mp h0
    obtain ⟨⟨Is, t7⟩, k2, hq⟩ := bind_ok.mp hq
    obtain ⟨⟨I1, t8⟩, k3, hq⟩ := bind_ok.mp hq
    cases hq
    obtain ⟨j, t9, r1, hg, hobs⟩ := h.read t
    rw [k1] at r1; cases r1
    obtain ⟨Is', n, t10, r2, r3, r4, _⟩ := h.startIrm False hw (fun n spec b q1 q2 => (hb n spec b q1 q2).2) hc hg t6
    rw [k2] at r2; cases r2
    obtain ⟨hR, hsch⟩ : IRM.Reach (priorLaws w) False False n I ∧ I.schema = i.schema := by
      rcases hi with hi | ⟨hu, hi⟩
      · rw [hi] at k3
        cases k3
        exact ⟨r3, r4⟩
      · obtain ⟨I2, t11, q1, q2, q3, _⟩ := inferenceIrm_observed a.iters Is t7 r3 (by rw [r4]; exact (hg.marked.undoing hu).scores) (fun n spec b sp q1 q2 q3 => by
          rw [r4] at q1 q3
          obtain ⟨s, k1, k2⟩ := hg.marked.of q1
          obtain ⟨x, hx, rfl⟩ := hi n s b k1 (by rw [← k2.base]; exact q2)
          exact hobs x (by simp [hx]) sp q3)
        rw [k3] at q1; cases q1
        exact ⟨q2, q3.trans r4⟩
    have hgiv := readInputs_given k1
    obtain ⟨merged, te, te', henc, hsub, _⟩ := hgiv.encoding
    have hK : DomAll (SeatedIn (fun d c => ∃ x, Occurs i.schema i.observations d x ∧ Encoding.code i.encoding d x = some c)) I.doms := by
      refine inferenceIrm_seats _ _ _ _ ?_ k3
      unfold HirmMain.startIrm at k2
      rw [hc] at k2
      obtain ⟨I0, q1, q2⟩ := bind_ok.mp k2
      have e := (IRM.C31_irm_result q1).1
      have k := IRM.known_mk' (Q := fun d c => ∃ x, Occurs i.schema i.observations d x ∧ Encoding.code i.encoding d x = some c) q1
      exact (IRM.feeds.occurring k k.links (by show ∀ n spec b sp, I0.schema.find? n = some spec → spec.base? = some b → I0.schema.find? b = some sp → _; rw [e]; exact hgiv.bases)
        (fun d x c hx hcd => ⟨x, by rw [← e]; exact hx, hcd⟩) q2).1.seats
    have hsu : SuitsIrm i.schema i.observations S.keys cl := saved_suits_irm henc (fun d dom hd => by
      have hinv := hR.inv
      obtain ⟨s, hs'⟩ := FMap.contains_iff.mp ((hinv.names d).trans (FMap.contains_iff.mpr ⟨dom, hd⟩))
      obtain ⟨r, hr⟩ := hinv.used d s hs'
      obtain ⟨id, rel, hrel, hdr⟩ := (hinv.index d s hs' r).mp hr
      obtain ⟨sp, k1, k2⟩ := hinv.spec hrel
      rw [hsch] at k1
      obtain ⟨sp', k3, _⟩ := hg.marked.of k1
      exact ⟨r, FMap.contains_iff_mem.mp (FMap.contains_iff.mpr ⟨_, k3⟩), sp, k1, by rw [← k2.doms]; exact hdr⟩) hK hsv
    exact ⟨hsu.alike hg.marked.alike.symm, hg.obs⟩
  obtain ⟨I', t₄, _, h2, _⟩ := C78_irm_starts_partial hw h' hb ha' hl hsuit.2 hsuit.1 i' t₃
  obtain ⟨enc, q1, q2⟩ := C76_irm_round_trip hsave hc hn hs ho ha' h1 h2
  exact ⟨I', t₄, enc, h2, q1, q2⟩

/-! ### Examples -/
section Examples
open Text

/-- the files of `loadRun`, with clusters for the mode `irm` -/
def loadIrmRun : Args := { loadRun with clusters := some "D 0 a\nE 1 x\n".toList }

theorem loadIrm_proper (c : Option (List Char)) : Proper plain { loadRun with clusters := c } loadSchema' loadRows loadHeld :=
  ⟨rfl, load_proper.sound, load_proper.grounded, load_proper.obs, load_proper.each, load_proper.distinct, load_proper.leaves, load_proper.heldout,
    load_proper.heldEach, load_proper.heldDistinct⟩

theorem loadIrm_suits : SuitsIrm loadSchema' loadObs loadSchema'.keys loadN := by
  obtain ⟨cl, h1, h2⟩ := load_suits.irm 0 ["N"] rfl
  cases h1
  obtain ⟨a1, a2, a3, a4, a5⟩ := h2
  refine ⟨fun d m hm => ?_, a2, a3, a4, a5⟩
  obtain ⟨n, _, spec, k1, k2⟩ := a1 d m hm
  exact ⟨n, FMap.contains_iff_mem.mp (FMap.contains_iff.mpr ⟨_, k1⟩), spec, k1, k2⟩

/-- C78_irm_starts_partial and C78_irm_runs_partial: the hypotheses hold of this run -/
example (i : Inputs (priors plain)) (t : Tape) : ∃ y, startIrm (reader plain) loadIrmRun i t = .ok y := by
  obtain ⟨I, t', _, h, _⟩ := C78_irm_starts_partial plain_readable (loadIrm_proper _) load_earlier (text := "D 0 a\nE 1 x\n".toList) rfl (cl := loadN) rfl load_rows loadIrm_suits i t
  exact ⟨_, h⟩

example (t : Tape) : ∃ res, runIrm (reader plain) loadIrmRun t = .ok res := by
  obtain ⟨_, _, _, _, _, out, t', _, h, _⟩ := C78_irm_runs_partial plain_readable (loadIrm_proper _) load_earlier (text := "D 0 a\nE 1 x\n".toList) rfl (cl := loadN) rfl load_rows loadIrm_suits (.inl rfl)
    (fun _ => by simp [loadHeld]) t
  exact ⟨_, h⟩

/-- C78_irm_loads_partial: the same files -/
example (t : Tape) : ∃ I t', irmFromTxt (parseValue plain) loadSchema' loadObs loadN t = .ok (I, t') := by
  obtain ⟨I, _, t', _, h, _⟩ := C78_irm_loads_partial (L := priorLaws plain) samples_priors (schema := loadSchema') (load_sampleable.toSound.usable plain_readable)
    load_sampleable.toSound.arity (loadSchema_doms load_proper.schema) load_earlier (parse := parseValue plain) (obs := loadObs) (fun r spec l o v h1 h2 h3 h4 => by
      obtain ⟨rfl, _⟩ := load_rows.find h2
      obtain ⟨x, hx, rfl, rfl⟩ := mem_rowsOf.mp h3
      obtain ⟨v', sp, g1, g2, g3, g4⟩ := (load_proper.each x hx).2
      rw [g1] at h1; cases h1
      rw [g3] at h4; cases h4
      exact load_sampleable.toSound.accepts g1 g4) load_fitting loadIrm_suits t
  exact ⟨I, t', h⟩

/-- C78_irm_reloads_partial: a first run without clusters, and what it has saved -/
example : ∃ i I text t', saveIrm (reader plain) { loadRun with clusters := none } [] = .ok ((i, I, text), t') ∧
    (∀ d c x, Encoding.entity i.encoding d c = some x → Word d ∧ Word x) := by
  obtain ⟨i, I, text, t', _, _, h, _⟩ := C73_runs_partial plain_readable (loadIrm_proper none) (fun n spec b q1 q2 => (load_earlier n spec b q1 q2).2) rfl (.inl rfl)
    (fun _ => by simp [loadHeld]) []
  refine ⟨i, I, text, t', h, fun d c x hx => ?_⟩
  obtain ⟨j, t1, hj, e⟩ : ∃ j t1, readInputs (reader plain) { loadRun with clusters := none } [] = .ok (j, t1) ∧
      names j.encoding = [("D", 0, "b"), ("D", 1, "c"), ("D", 2, "a"), ("E", 0, "x")] := ⟨_, _, rfl, rfl⟩
  obtain ⟨⟨⟨i₀, I₀⟩, t5⟩, h0, hq⟩ := bind_ok.mp h
  obtain ⟨⟨_, _⟩, _, hq⟩ := bind_ok.mp hq
  cases hq
  obtain ⟨⟨i₀, t6⟩, k1, hq⟩ := bind_ok.mp h0
  obtain ⟨⟨Is, t7⟩, k2, hq⟩ := bind_ok.mp hq
  obtain ⟨⟨I1, t8⟩, k3, hq⟩ := bind_ok.mp hq
  cases hq
  rw [hj] at k1; cases k1
  have hx := mem_names hx
  rw [e] at hx
  simp only [List.mem_cons, Prod.mk.injEq, List.not_mem_nil, or_false] at hx
  rcases hx with ⟨rfl, rfl, rfl⟩ | ⟨rfl, rfl, rfl⟩ | ⟨rfl, rfl, rfl⟩ | ⟨rfl, rfl, rfl⟩ <;> unfold Word <;> decide

end Examples

end HirmMain
end
end Verif
