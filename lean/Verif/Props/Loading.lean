import Verif.Lemmas.LoadRun
import Verif.Props.Restore
/-!
C78: cluster files that suit the schema and the observations are accepted, in particular those that a run has saved.
-/
namespace Verif
noncomputable section
namespace UtilIO
open HIRM
variable {V : Type} {F : Family V} {L : FamilyLaws F}

/-- **C78**: `from_txt` accepts every cluster file that suits the schema and the observations, whatever is drawn, and the model that it
returns has the values of the observations, at the codes of their entities.

Missing: relations that come before their bases in the order of the names (for them it is false, see `C71_load_order_false`), and
observations that a new model does not take either. -/
theorem C78_loads_partial (Sm : Samples L) {schema : Schema F} (hu : Usable L schema)
    (ha : ∀ n spec b sp, schema.find? n = some spec → spec.base? = some b → schema.find? b = some sp → sp.doms.length ≤ spec.doms.length)
    (hd : ∀ n spec, schema.find? n = some spec → spec.doms ≠ []) (hb : BasesEarlier schema) {parse : F.C ⊕ F.E → String → Res V} {obs : ObsMap String}
    (hv : ∀ r spec l o v, schema.find? r = some spec → obs.find? r = some l → o ∈ l → parse spec.kind o.2 = .ok v → Takes L schema v spec)
    (hf : Fitting parse schema obs) {relations : FMap Int (List String)} {irms : FMap Int Clusters} (hs : SuitsHirm schema obs relations irms) (t : Tape) :
    ∃ H t' enc, hirmFromTxt parse schema obs relations irms t = .ok (H, t') ∧ Reach L H ∧ HIRM.Sound L H ∧ H.schema = schema ∧ Numbers schema obs enc ∧
      ∀ r spec l, schema.find? r = some spec → obs.find? r = some l → ∀ o ∈ l, ∃ k v, Codes enc spec.doms o.1 k ∧ parse spec.kind o.2 = .ok v ∧ H.value r k = some v := by
  obtain ⟨enc, t1, henc⟩ := (C32_calculated schema obs t).mpr (fun r l items v hl ho => by
    obtain ⟨spec, h1, h2⟩ := hf.each r l hl
    exact ⟨spec, h1, le_of_eq (h2 _ ho).1⟩)
  have hnum := numbers henc
  obtain ⟨H0, t2, h1, e0, h2, h3⟩ := hirmFromTxt_ok (parse := parse) ha hd hb hs henc L
  obtain ⟨H, t', h4, h5, h6, h7⟩ := HIRM.C33_returns_partial Sm h1 (by rw [e0]; exact hu) (parse := parse) (enc := enc) (obs := obs)
    (fun r spec l o v g1 g2 g3 g4 => by
      have g1 : H0.schema.find? r = some spec := g1
      show Takes L H0.schema v spec
      rw [e0] at g1 ⊢
      exact hv r spec l o v g1 g2 g3 g4) (by
    rw [e0]
    intro r l hl
    obtain ⟨spec, g1, g2⟩ := hf.each r l hl
    refine ⟨spec, g1, fun o ho => ?_, ?_⟩
    · obtain ⟨g3, v, g4⟩ := g2 o ho
      obtain ⟨k, g5, g6⟩ := codes_ex (enc := enc) g3 (fun j x d hx hd => ((hnum d).2 x).mpr ⟨r, spec, l, o.1, o.2, j, g1, hl, ho, hx, hd⟩)
      exact ⟨k, v, g5, g6, value_none h2 r k, g4⟩
    · have := hf.distinct r l hl
      rw [List.Nodup, List.pairwise_map] at this
      refine this.imp (fun {o o'} hne k k' hk hk' he => hne ?_)
      subst he
      exact Codes.inj (fun d x y c hx hy => by
        have h2 := ((hnum d).1 x c).mp hx
        rw [((hnum d).1 y c).mp hy] at h2
        exact (Option.some.inj h2).symm) hk hk') (by rw [e0]; exact hf.leaf) (by rw [e0]; exact hf.all) t2
  refine ⟨H, t', enc, h3.trans h4, h5, h6, h7.schema.trans e0, hnum, fun r spec l hr hl o ho => ?_⟩
  obtain ⟨k, v, ⟨spec', rel, g1, g2, g3, g4⟩, _, g5⟩ := h7.each r l hl o ho
  have g1 : H0.schema.find? r = some spec' := g1
  obtain ⟨rel', k1, k2, _⟩ := (HIRM.hosted Sm).get (m := H0) ⟨h1, by rw [e0]; exact hu⟩ g1
  rw [k1] at g3; cases g3
  rw [e0, hr] at g1; cases g1
  exact ⟨k, v, g2, by rw [← k2]; exact g4, g5⟩

end UtilIO

namespace HirmMain
open UtilIO
variable {w : World} {a : Args} {S : Schema (priors w)} {rows held : List Row}

/-- **C78**: a run of `hirm` with proper files accepts a cluster file that suits them, and starts with a model that has exactly the values of the
observations. -/
theorem C78_starts_partial (hw : w.Readable) (h : Proper w a S rows held) (hb : BasesEarlier S) {text : List Char} (ha : a.clusters = some text)
    {rels : FMap Int (List String)} {irms : FMap Int Clusters} (hl : loadClustersHirm text = .ok (rels, irms)) {obs : ObsMap String} (ho : OfRows rows obs)
    (hs : SuitsHirm S obs rels irms) (i : Inputs (priors w)) (t : Tape) :
    ∃ H t' S' enc, startHirm (reader w) a i t = .ok (H, t') ∧ Marked S S' ∧ Session w S' H ∧ Numbers S obs enc ∧ (∀ x ∈ rows, Has S enc H.value x) ∧
      ∀ r k v, HIRM.Leaf S r → H.value r k = some v → ∃ x ∈ rows, x.rel = r ∧ States w S x v ∧ ∃ spec, S.find? r = some spec ∧ Codes enc spec.doms x.items k := by
  have hd := loadSchema_doms h.schema
  obtain ⟨obs', S', t1, h1, h2, h3, _⟩ := loadObservations_rows h.obs (fun x hx => by
    obtain ⟨v, hv⟩ := (h.each x hx).2
    exact hv.row hd) t
  have e : obs' = obs := FMap.ext (fun r => (h2 r).trans (ho r).symm)
  subst e
  have hal := h3.alike
  have hsnd := h3.sound h.sound
  obtain ⟨enc, t2, henc⟩ := (C32_calculated S' obs' t1).mpr (fun r l items v hl hm => by
    obtain ⟨rfl, _⟩ := h2.find hl
    obtain ⟨x, hx, rfl, he⟩ := mem_rowsOf.mp hm
    obtain ⟨v', spec, g1, g2, _⟩ := (h.each x hx).2
    obtain ⟨sp, g3, g4⟩ := h3.to g1
    exact ⟨sp, g3, by rw [g4.doms, ← g2, (Prod.mk.inj he).1]⟩)
  obtain ⟨H0, t3, h4, e0, h5, h6⟩ := hirmFromTxt_ok (parse := parseValue w) hsnd.arity (fun n spec hn => by
    obtain ⟨sp, g1, g2⟩ := h3.of hn
    rw [g2.doms]
    exact hd n sp g1) (hb.alike hal) (hs.alike hal) henc (priorLaws w)
  have hg : Got S rows [] ({ schema := S', observations := obs', heldout := ∅, encoding := enc } : Inputs (priors w)) :=
    ⟨h3, h2, fun r => rfl, obs', t1, t2, henc, fun x hx => ⟨_, h2.row (by simpa using hx)⟩⟩
  obtain ⟨hr, H, t', h7, h8, h9⟩ := h.fill hw hg h4 e0 (value_none h5) t3
  refine ⟨H, t', S', enc, ?_, h3, .restore hr (h6.trans h7), (numbers henc).alike hal.symm, h8, h9⟩
  unfold startHirm
  rw [ha]
  exact bind_ok.mpr ⟨S, h.schema, bind_ok.mpr ⟨_, h1, bind_ok.mpr ⟨_, hl, h6.trans h7⟩⟩⟩

/-- **C78**: a run of `hirm` with proper files and a cluster file that suits them never fails, whatever is drawn: it saves the clusters of a
model that has exactly the values of the observations; if there is a held-out file, the log probability that it prints is a real number;
and it writes samples if it was asked to.

Missing: as for `C72_runs_partial`, observations of base relations, and iterations if there are base relations; and which model the held-out
lines and the saved file are about, if there are held-out lines (see `C71_load_heldout_false`). -/
theorem C78_runs_partial (hw : w.Readable) (h : Proper w a S rows held) (hb : BasesEarlier S) {text : List Char} (ha : a.clusters = some text)
    {rels : FMap Int (List String)} {irms : FMap Int Clusters} (hl : loadClustersHirm text = .ok (rels, irms)) {obs : ObsMap String} (ho : OfRows rows obs)
    (hs : SuitsHirm S obs rels irms) (hi : Iterable a S []) (hsa : a.samples = 0 ∨ Sampleable S) (fuel : Nat) (t : Tape) :
    ∃ i H saved t1 enc res, saveHirm (reader w) a t = .ok ((i, H, saved), t1) ∧ runHirm (reader w) a fuel t = .ok res ∧ Numbers S obs enc ∧
      (∀ x ∈ rows, Has S enc H.value x) ∧
      (∀ r k v, HIRM.Leaf S r → H.value r k = some v →
        ∃ x ∈ rows, x.rel = r ∧ States w S x v ∧ ∃ spec, S.find? r = some spec ∧ Codes enc spec.doms x.items k) ∧
      ∀ out t', res = some (out, t') → out.clusters = saved ∧ (a.heldout = none → out.logp = none) ∧
        (a.heldout ≠ none → ∃ lp : ℝ, out.logp = some (lp : WithBot ℝ)) ∧
        if 0 < a.samples then ∃ text, out.samples = some text else out.samples = none := by
  obtain ⟨i, t1, h1, hg, _⟩ := h.read t
  obtain ⟨H0, t2, S', enc, h2, hm, h3, hn, h4, h5⟩ := C78_starts_partial hw h hb ha hl ho hs i t1
  have hsnd := hm.sound h.sound
  obtain ⟨H, t3, h6, h7, h8⟩ : ∃ H t', H0.inference a.iters t2 = .ok (H, t') ∧ Session w S' H ∧ ∀ n k, H.value n k = H0.value n k := by
    rcases hi with hi | ⟨hu, hi⟩
    · rw [hi]
      exact ⟨H0, t2, rfl, h3, fun _ _ => rfl⟩
    · refine C70_infer hw hsnd (hm.undoing hu) h3 (fun n spec b sp q1 q2 q3 => ?_) a.iters t2
      obtain ⟨s, k1, k2⟩ := hm.of q1
      obtain ⟨x, hx, _⟩ := hi n s b k1 (by rw [← k2.base]; exact q2)
      cases hx
  have hfit : fitHirm (reader w) a t = .ok ((i, H), t3) := bind_ok.mpr ⟨_, h1, bind_ok.mpr ⟨_, h2, bind_ok.mpr ⟨_, h6, rfl⟩⟩⟩
  obtain ⟨saved, t4, hsave⟩ := C71_saves hfit
  have hhas : ∀ x ∈ rows, Has S enc H.value x := by
    intro x hx
    obtain ⟨spec, k, v, a1, a2, a3, a4⟩ := h4 x hx
    exact ⟨spec, k, v, a1, a2, a3, by rw [h8]; exact a4⟩
  have hg' : Got S rows held { i with schema := S' } := by
    obtain ⟨merged, te, te', g1, g2⟩ := hg.enc
    exact ⟨hm, hg.obs, hg.heldout, merged, te, te', (calculateEncoding_alike (hg.marked.alike.symm.trans hm.alike) merged te).trans g1, g2⟩
  obtain ⟨lp, t5, h9, h10, h11⟩ : ∃ lp t', heldoutHirm (reader w) a i H t4 = .ok (lp, H, t') ∧ (a.heldout = none → lp = none) ∧
      (a.heldout ≠ none → ∃ x : ℝ, lp = some (x : WithBot ℝ)) := by
    cases ha : a.heldout with
    | none =>
      refine ⟨none, t4, ?_, fun _ => rfl, fun hn => absurd rfl hn⟩
      unfold heldoutHirm
      rw [ha]
    | some tx =>
      obtain ⟨qs, x, t', k1, _⟩ := h.score hw hg' h7 ha t4
      exact ⟨some (x : WithBot ℝ), t', k1, ⟨fun hn => absurd hn (by simp), fun _ => ⟨x, rfl⟩⟩⟩
  obtain ⟨res, h12, h13⟩ : ∃ res, samplesHirm (reader w) a i fuel H t5 = .ok res ∧
      ∀ o t', res = some (o, t') → if 0 < a.samples then ∃ text, o = some text else o = none := by
    rcases hsa with hs | hs
    · unfold samplesHirm
      rw [if_neg (by omega)]
      refine ⟨_, rfl, fun o t' h => ?_⟩
      cases h
      rw [if_neg (by omega)]
    · exact hg'.samples hw h7 hs fuel t5
  have hrun : runHirm (reader w) a fuel t = .ok (res.map (fun x => ({ clusters := saved, logp := lp, samples := x.1 }, x.2))) := by
    refine bind_ok.mpr ⟨_, hsave, bind_ok.mpr ⟨_, h9, bind_ok.mpr ⟨_, h12, ?_⟩⟩⟩
    cases res with
    | none => rfl
    | some x => rfl
  refine ⟨i, H, saved, t4, enc, _, hsave, hrun, hn, hhas, fun r k v hl hv => h5 r k v hl (by rw [← h8]; exact hv), fun out t' he => ?_⟩
  obtain ⟨⟨o, t6⟩, e1, e2⟩ := Option.map_eq_some_iff.mp he
  have := congrArg Prod.fst e2
  subst this
  exact ⟨rfl, h10, h11, h13 o t6 e1⟩

/-- **C78**: what a run of `hirm` has saved, a later run with the same schema and observations accepts, and it starts with the clusters that
the first ended with.

Missing: as for `C78_runs_partial`. -/
theorem C78_reloads_partial (hw : w.Readable) (h : Proper w a S rows held) (hc : a.clusters = none) (hi : Iterable a S held) (hb : BasesEarlier S) {t t' : Tape}
    {i : Inputs (priors w)} {H : HIRM (priors w)} {text : List Char} (hsave : saveHirm (reader w) a t = .ok ((i, H, text), t'))
    (hn : ∀ d c x, Encoding.entity i.encoding d c = some x → Word d ∧ DomainWord d ∧ Word x) {a' : Args} {held' : List Row}
    (hs : a'.schema = a.schema) (ho : a'.obs = a.obs) (ha' : a'.clusters = some text) (h' : Proper w a' S rows held') (t₁ : Tape) :
    ∃ i' t₂, readInputs (reader w) a' t₁ = .ok (i', t₂) ∧ ∀ t₃, ∃ H' t₄ enc, startHirm (reader w) a' i' t₃ = .ok (H', t₄) ∧
      Numbers i.schema i.observations enc ∧ (∀ n, H'.tableOf n = H.tableOf n) ∧
      ∀ tb I I', H.irms.find? tb = some I → H'.irms.find? tb = some I' → SameClusters I.doms i.encoding I'.doms enc := by
  obtain ⟨rels, irms, hl, hsv⟩ := C71_reads_back hsave hn
  obtain ⟨i', t₂, h1, hg', _⟩ := h'.read t₁
  refine ⟨i', t₂, h1, fun t₃ => ?_⟩
  have hsuit : SuitsHirm S i.observations rels irms ∧ OfRows rows i.observations := by
    obtain ⟨⟨⟨i₀, H₀⟩, t5⟩, h0, hq⟩ := bind_ok.mp hsave
    obtain ⟨⟨_, _⟩, _, hq⟩ := bind_ok.mp hq
    cases hq
    obtain ⟨⟨i₀, t6⟩, k1, hq⟩ := bind_ok.mp h0
    obtain ⟨⟨Hs, t7⟩, k2, hq⟩ := bind_ok.mp hq
    obtain ⟨⟨H1, t8⟩, k3, hq⟩ := bind_ok.mp hq
    cases hq
    obtain ⟨j, t9, r1, hg, hobs⟩ := h.read t
    rw [k1] at r1; cases r1
    have hsnd := hg.marked.sound h.sound
    obtain ⟨Hs', t10, r2, r3, _⟩ := h.start hw hc hg t6
    rw [k2] at r2; cases r2
    have hS : Session w i.schema H := by
      rcases hi with hi | ⟨hu, hi⟩
      · rw [hi] at k3
        cases k3
        exact r3
      · refine .infer r3 (fun n spec b sp q1 q2 q3 => ?_) k3
        obtain ⟨s, k1, k2⟩ := hg.marked.of q1
        obtain ⟨x, hx, rfl⟩ := hi n s b k1 (by rw [← k2.base]; exact q2)
        exact hobs x (by simp [hx]) sp q3
    obtain ⟨hR, hsch⟩ := hS.reach hw hsnd
    have hgiv := readInputs_given k1
    obtain ⟨merged, te, te', henc, hsub, _⟩ := hgiv.encoding
    have hK : HIRM.Known (fun d c => ∃ x, Occurs i.schema i.observations d x ∧ Encoding.code i.encoding d x = some c) H := by
      refine HIRM.Known.inference _ _ _ _ ?_ k3
      unfold startHirm at k2
      rw [hc] at k2
      obtain ⟨⟨H0, t0⟩, q1, q2⟩ := bind_ok.mp k2
      have e := (HIRM.C31_hirm_result q1).1
      exact ((HIRM.known_mk' q1).occurring (by rw [e]; exact hgiv.bases) (fun d x c hx hcd => ⟨x, by rw [← e]; exact hx, hcd⟩) q2).1
    exact ⟨(saved_suits hR.good hsch henc hK hsv (loadClustersHirm_nonneg hl)).alike hg.marked.alike.symm, hg.obs⟩
  obtain ⟨H', t₄, _, _, h2, _⟩ := C78_starts_partial hw h' hb ha' hl hsuit.2 hsuit.1 i' t₃
  obtain ⟨enc, q1, q2, q3⟩ := C76_hirm_round_trip hsave hc hn hs ho ha' h1 h2
  exact ⟨H', t₄, enc, h2, q1, q2, q3⟩

/-! ### Examples -/
section Examples
open Text

/-- a run with a noisy relation that comes after its base, clusters for both, and held-out lines -/
def loadRun : Args where
  schema := "A ~ bernoulli(D)\nN ~ sometimes_bitflip(A; D, E)\n".toList
  obs := "1,N,a,x\n0,N,b,x\n".toList
  heldout := some "1,A,b\n0,A,c\n".toList
  clusters := some "0 N\n3 A\n\nirm=0\nD 0 a\nE 1 x\n\nirm=3\nD 2 a b\n".toList
  iters := 0
  samples := 3

def loadSchema' : Schema (priors plain) :=
  ((∅ : Schema (priors plain)).set "A" (.clean .bernoulli ["D"] false)).set "N" (.noisy .sometimesBitflip ["D", "E"] "A" false)

def loadRows : List Row := [⟨"1", "N", ["a", "x"]⟩, ⟨"0", "N", ["b", "x"]⟩]
def loadHeld : List Row := [⟨"1", "A", ["b"]⟩, ⟨"0", "A", ["c"]⟩]
def loadObs : ObsMap String := (∅ : ObsMap String).set "N" [(["a", "x"], "1"), (["b", "x"], "0")]

theorem load_find {n : String} {spec : RelSpec (priors plain)} (h : loadSchema'.find? n = some spec) :
    (n = "A" ∧ spec = .clean .bernoulli ["D"] false) ∨ (n = "N" ∧ spec = .noisy .sometimesBitflip ["D", "E"] "A" false) := by
  unfold loadSchema' at h
  rw [FMap.find?_set, FMap.find?_set] at h
  split at h
  · rename_i e; exact .inr ⟨e, (Option.some.inj h).symm⟩
  · split at h
    · rename_i e; exact .inl ⟨e, (Option.some.inj h).symm⟩
    · cases h

theorem load_sampleable : Sampleable loadSchema' where
  arity n spec b sp h1 h2 h3 := by
    rcases load_find h1 with ⟨rfl, rfl⟩ | ⟨rfl, rfl⟩
    · cases h2
    · cases h2
      rcases load_find h3 with ⟨_, rfl⟩ | ⟨h, rfl⟩ <;> decide
  takes n e doms b o sp h1 h2 v hv := by
    rcases load_find h1 with ⟨rfl, h⟩ | ⟨rfl, h⟩
    · cases h
    · cases h
      rcases load_find h2 with ⟨_, rfl⟩ | ⟨h, rfl⟩
      · exact hv
      · exact absurd h (by decide)
  bases n c doms o m spec h1 _ _ := by
    rcases load_find h1 with ⟨rfl, h⟩ | ⟨rfl, h⟩
    · cases h; exact trivial
    · cases h
  all n c doms o h1 := by
    rcases load_find h1 with ⟨rfl, h⟩ | ⟨rfl, h⟩
    · cases h; exact trivial
    · cases h

theorem load_proper : Proper plain loadRun loadSchema' loadRows loadHeld where
  schema := rfl
  sound := load_sampleable.toSound
  grounded n hn := by
    obtain ⟨spec, hs⟩ := FMap.contains_iff.mp hn
    have hR : Grounded loadSchema' "A" := .clean (spec := .clean .bernoulli ["D"] false) rfl rfl
    rcases load_find hs with ⟨rfl, _⟩ | ⟨rfl, _⟩
    · exact hR
    · exact .noisy (spec := .noisy .sometimesBitflip ["D", "E"] "A" false) rfl rfl hR
  obs := ⟨_, parts_iff.mp rfl, .cons (parts_iff.mp rfl) (.cons (parts_iff.mp rfl) .nil)⟩
  each x hx := by
    have : x.rel = "N" := by
      simp only [loadRows, List.mem_cons, List.not_mem_nil, or_false] at hx
      rcases hx with rfl | rfl <;> rfl
    refine ⟨fun n spec hs => ?_, ?_⟩
    · rw [this]
      rcases load_find hs with ⟨_, rfl⟩ | ⟨_, rfl⟩ <;> decide
    · simp only [loadRows, List.mem_cons, List.not_mem_nil, or_false] at hx
      rcases hx with rfl | rfl
      · exact ⟨.bool true, .noisy .sometimesBitflip ["D", "E"] "A" false, rfl, rfl, rfl, _, rfl⟩
      · exact ⟨.bool false, .noisy .sometimesBitflip ["D", "E"] "A" false, rfl, rfl, rfl, _, rfl⟩
  distinct := by simp [Distinct, loadRows]
  leaves n spec b h1 h2 _ := by
    rcases load_find h1 with ⟨rfl, rfl⟩ | ⟨rfl, rfl⟩
    · cases h2
    · exact ⟨_, List.mem_cons_self .., rfl⟩
  heldout := ⟨_, parts_iff.mp rfl, .cons (parts_iff.mp rfl) (.cons (parts_iff.mp rfl) .nil)⟩
  heldEach x hx := by
    simp only [loadHeld, List.mem_cons, List.not_mem_nil, or_false] at hx
    rcases hx with rfl | rfl
    · exact ⟨⟨.bool true, .clean .bernoulli ["D"] false, rfl, rfl, rfl, true, rfl⟩, .bernoulli, ["D"], false, rfl, trivial⟩
    · exact ⟨⟨.bool false, .clean .bernoulli ["D"] false, rfl, rfl, rfl, false, rfl⟩, .bernoulli, ["D"], false, rfl, trivial⟩
  heldDistinct := by simp [Distinct, loadHeld]

theorem load_earlier : BasesEarlier loadSchema' := by
  intro n spec b h1 h2
  rcases load_find h1 with ⟨rfl, rfl⟩ | ⟨rfl, rfl⟩
  · cases h2
  · cases h2; exact ⟨rfl, rfl⟩

theorem load_rows : OfRows loadRows loadObs := by
  intro r
  unfold loadObs
  rw [FMap.find?_set]
  split
  · rename_i h; subst h; rfl
  · rename_i h
    have : rowsOf loadRows r = [] := by
      simp [rowsOf, loadRows, Ne.symm h]
    rw [this]; rfl

def loadRels : FMap Int (List String) := ((∅ : FMap Int (List String)).set 0 ["N"]).set 3 ["A"]
def loadN : Clusters := ((∅ : Clusters).set "D" ((∅ : FMap Int (List String)).set 0 ["a"])).set "E" ((∅ : FMap Int (List String)).set 1 ["x"])
def loadA : Clusters := (∅ : Clusters).set "D" ((∅ : FMap Int (List String)).set 2 ["a", "b"])
def loadIrms : FMap Int Clusters := ((∅ : FMap Int Clusters).set 0 loadN).set 3 loadA

theorem load_reads : loadClustersHirm "0 N\n3 A\n\nirm=0\nD 0 a\nE 1 x\n\nirm=3\nD 2 a b\n".toList = .ok (loadRels, loadIrms) := rfl

theorem loadRels_find {tb : Int} {l : List String} (h : loadRels.find? tb = some l) : (tb = 3 ∧ l = ["A"]) ∨ (tb = 0 ∧ l = ["N"]) := by
  unfold loadRels at h
  rw [FMap.find?_set, FMap.find?_set] at h
  split at h
  · rename_i e; exact .inl ⟨e, (Option.some.inj h).symm⟩
  · split at h
    · rename_i e; exact .inr ⟨e, (Option.some.inj h).symm⟩
    · cases h

theorem loadN_find {d : String} {m : FMap Int (List String)} {c : Int} {l : List String} (h : loadN.find? d = some m) (h' : m.find? c = some l) :
    (d = "D" ∧ c = 0 ∧ l = ["a"]) ∨ (d = "E" ∧ c = 1 ∧ l = ["x"]) := by
  unfold loadN at h
  rw [FMap.find?_set, FMap.find?_set] at h
  split at h
  · cases h
    rw [FMap.find?_set] at h'
    split at h'
    · cases h'; exact .inr ⟨‹_›, ‹_›, rfl⟩
    · cases h'
  · split at h
    · cases h
      rw [FMap.find?_set] at h'
      split at h'
      · cases h'; exact .inl ⟨‹_›, ‹_›, rfl⟩
      · cases h'
    · cases h

theorem loadA_find {d : String} {m : FMap Int (List String)} {c : Int} {l : List String} (h : loadA.find? d = some m) (h' : m.find? c = some l) :
    d = "D" ∧ c = 2 ∧ l = ["a", "b"] := by
  unfold loadA at h
  rw [FMap.find?_set] at h
  split at h
  · cases h
    rw [FMap.find?_set] at h'
    split at h'
    · cases h'; exact ⟨‹_›, ‹_›, rfl⟩
    · cases h'
  · cases h

theorem listed_find {cl : Clusters} {d : String} {c : Int} (h : listed cl d c ≠ []) : ∃ m l, cl.find? d = some m ∧ m.find? c = some l ∧ listed cl d c = l := by
  unfold listed at h ⊢
  cases hd : cl.find? d with
  | none => rw [hd] at h; exact absurd rfl h
  | some m =>
    rw [hd] at h
    have h : (m.find? c).getD [] ≠ [] := h
    cases hc : m.find? c with
    | none => rw [hc] at h; exact absurd rfl h
    | some l => exact ⟨m, l, rfl, hc, by show (m.find? c).getD [] = l; rw [hc]; rfl⟩

theorem load_occurs_a : Occurs loadSchema' loadObs "D" "a" :=
  ⟨"N", .noisy .sometimesBitflip ["D", "E"] "A" false, _, ["a", "x"], "1", 0, rfl, rfl, List.mem_cons_self .., rfl, rfl⟩
theorem load_occurs_b : Occurs loadSchema' loadObs "D" "b" :=
  ⟨"N", .noisy .sometimesBitflip ["D", "E"] "A" false, _, ["b", "x"], "0", 0, rfl, rfl, List.mem_cons_of_mem _ (List.mem_cons_self ..), rfl, rfl⟩
theorem load_occurs_x : Occurs loadSchema' loadObs "E" "x" :=
  ⟨"N", .noisy .sometimesBitflip ["D", "E"] "A" false, _, ["a", "x"], "1", 1, rfl, rfl, List.mem_cons_self .., rfl, rfl⟩

theorem loadN_listed {d x : String} {c : Int} (h : x ∈ listed loadN d c) : (d = "D" ∧ c = 0 ∧ x = "a") ∨ (d = "E" ∧ c = 1 ∧ x = "x") := by
  obtain ⟨m, l, h1, h2, h3⟩ := listed_find (List.ne_nil_of_mem h)
  rw [h3] at h
  rcases loadN_find h1 h2 with ⟨rfl, rfl, rfl⟩ | ⟨rfl, rfl, rfl⟩
  · exact .inl ⟨rfl, rfl, by simpa using h⟩
  · exact .inr ⟨rfl, rfl, by simpa using h⟩

theorem loadA_listed {d x : String} {c : Int} (h : x ∈ listed loadA d c) : d = "D" ∧ c = 2 ∧ (x = "a" ∨ x = "b") := by
  obtain ⟨m, l, h1, h2, h3⟩ := listed_find (List.ne_nil_of_mem h)
  rw [h3] at h
  obtain ⟨rfl, rfl, rfl⟩ := loadA_find h1 h2
  exact ⟨rfl, rfl, by simpa using h⟩

theorem listed_once {cl : Clusters} (h : ∀ d m c l, cl.find? d = some m → m.find? c = some l → l.Nodup) (d : String) (c : Int) : (listed cl d c).Nodup := by
  by_cases hn : listed cl d c = []
  · rw [hn]; exact List.nodup_nil
  · obtain ⟨m, l, h1, h2, h3⟩ := listed_find hn
    rw [h3]
    exact h d m c l h1 h2

theorem load_suits : SuitsHirm loadSchema' loadObs loadRels loadIrms where
  table tb l h := by rcases loadRels_find h with ⟨rfl, rfl⟩ | ⟨rfl, rfl⟩ <;> simp
  each n := by
    constructor
    · intro hn
      obtain ⟨spec, hs⟩ := FMap.contains_iff.mp hn
      rcases load_find hs with ⟨rfl, _⟩ | ⟨rfl, _⟩
      · exact ⟨3, ["A"], rfl, List.mem_cons_self ..⟩
      · exact ⟨0, ["N"], rfl, List.mem_cons_self ..⟩
    · rintro ⟨tb, l, h1, h2⟩
      rcases loadRels_find h1 with ⟨rfl, rfl⟩ | ⟨rfl, rfl⟩ <;> (cases List.mem_singleton.mp h2; rfl)
  one tb tb' l l' n h1 h2 h3 h4 := by
    rcases loadRels_find h1 with ⟨rfl, rfl⟩ | ⟨rfl, rfl⟩ <;> rcases loadRels_find h2 with ⟨rfl, rfl⟩ | ⟨rfl, rfl⟩ <;> simp_all
  irm tb l h := by
    rcases loadRels_find h with ⟨rfl, rfl⟩ | ⟨rfl, rfl⟩
    · refine ⟨loadA, rfl, ⟨fun d m hd => ?_, fun d m c l h1 h2 => ?_, fun d c x hx => ?_, listed_once (fun d m c l h1 h2 => ?_), fun d c c' x h1 h2 => ?_⟩⟩
      · refine ⟨"A", List.mem_cons_self .., .clean .bernoulli ["D"] false, rfl, ?_⟩
        unfold loadA at hd
        rw [FMap.find?_set] at hd
        split at hd
        · subst d; exact List.mem_cons_self ..
        · cases hd
      · obtain ⟨_, rfl, _⟩ := loadA_find h1 h2; decide
      · obtain ⟨rfl, _, rfl | rfl⟩ := loadA_listed hx
        · exact load_occurs_a
        · exact load_occurs_b
      · obtain ⟨_, _, rfl⟩ := loadA_find h1 h2; decide
      · rw [(loadA_listed h1).2.1, (loadA_listed h2).2.1]
    · refine ⟨loadN, rfl, ⟨fun d m hd => ?_, fun d m c l h1 h2 => ?_, fun d c x hx => ?_, listed_once (fun d m c l h1 h2 => ?_), fun d c c' x h1 h2 => ?_⟩⟩
      · refine ⟨"N", List.mem_cons_self .., .noisy .sometimesBitflip ["D", "E"] "A" false, rfl, ?_⟩
        unfold loadN at hd
        rw [FMap.find?_set, FMap.find?_set] at hd
        split at hd
        · subst d; exact List.mem_cons_of_mem _ (List.mem_cons_self ..)
        · split at hd
          · subst d; exact List.mem_cons_self ..
          · cases hd
      · rcases loadN_find h1 h2 with ⟨_, rfl, _⟩ | ⟨_, rfl, _⟩ <;> decide
      · rcases loadN_listed hx with ⟨rfl, _, rfl⟩ | ⟨rfl, _, rfl⟩
        · exact load_occurs_a
        · exact load_occurs_x
      · rcases loadN_find h1 h2 with ⟨_, _, rfl⟩ | ⟨_, _, rfl⟩ <;> decide
      · rcases loadN_listed h1 with ⟨rfl, rfl, rfl⟩ | ⟨rfl, rfl, rfl⟩ <;> rcases loadN_listed h2 with ⟨h, rfl, _⟩ | ⟨h, rfl, _⟩ <;> first | rfl | exact absurd h (by decide)

/-- C78_starts_partial and C78_runs_partial: the hypotheses hold of this run -/
example (i : Inputs (priors plain)) (t : Tape) : ∃ y, startHirm (reader plain) loadRun i t = .ok y := by
  obtain ⟨H, t', _, _, h, _⟩ := C78_starts_partial plain_readable load_proper load_earlier rfl load_reads load_rows load_suits i t
  exact ⟨_, h⟩

example (fuel : Nat) (t : Tape) : ∃ res, runHirm (reader plain) loadRun fuel t = .ok res := by
  obtain ⟨_, _, _, _, _, res, _, h, _⟩ := C78_runs_partial plain_readable load_proper load_earlier rfl load_reads load_rows load_suits (.inl rfl) (.inr load_sampleable) fuel t
  exact ⟨res, h⟩

theorem load_fitting : Fitting (parseValue plain) loadSchema' loadObs where
  each r l hl := by
    obtain ⟨rfl, hne⟩ := load_rows.find hl
    obtain ⟨o, ho⟩ := List.exists_mem_of_ne_nil _ hne
    obtain ⟨x, hx, rfl, rfl⟩ := mem_rowsOf.mp ho
    obtain ⟨_, spec, g1, _⟩ := (load_proper.each x hx).2
    refine ⟨spec, g1, fun o ho => ?_⟩
    obtain ⟨y, hy, e, rfl⟩ := mem_rowsOf.mp ho
    obtain ⟨v, sp, k1, k2, k3, _⟩ := (load_proper.each y hy).2
    rw [e, g1] at k1; cases k1
    exact ⟨k2, v, k3⟩
  distinct r l hl := by
    unfold loadObs at hl
    rw [FMap.find?_set] at hl
    split at hl
    · cases hl; decide
    · cases hl
  leaf r l hl hne := by
    obtain ⟨rfl, _⟩ := load_rows.find hl
    obtain ⟨o, ho⟩ := List.exists_mem_of_ne_nil _ hne
    obtain ⟨x, hx, rfl, rfl⟩ := mem_rowsOf.mp ho
    exact (load_proper.each x hx).1
  all n spec b h1 h2 _ := by
    rcases load_find h1 with ⟨rfl, rfl⟩ | ⟨rfl, rfl⟩
    · cases h2
    · rfl

/-- C78_loads_partial: the same files -/
example (t : Tape) : ∃ H t', hirmFromTxt (parseValue plain) loadSchema' loadObs loadRels loadIrms t = .ok (H, t') := by
  obtain ⟨H, t', _, h, _⟩ := C78_loads_partial (L := priorLaws plain) samples_priors (schema := loadSchema') (load_sampleable.toSound.usable plain_readable)
    load_sampleable.toSound.arity (loadSchema_doms load_proper.schema) load_earlier (parse := parseValue plain) (obs := loadObs) (fun r spec l o v h1 h2 h3 h4 => by
      obtain ⟨rfl, _⟩ := load_rows.find h2
      obtain ⟨x, hx, rfl, rfl⟩ := mem_rowsOf.mp h3
      obtain ⟨v', sp, g1, g2, g3, g4⟩ := (load_proper.each x hx).2
      rw [g1] at h1; cases h1
      rw [g3] at h4; cases h4
      exact load_sampleable.toSound.accepts g1 g4) load_fitting load_suits t
  exact ⟨H, t', h⟩

/-- C78_reloads_partial: a first run without clusters, and what it has saved -/
example : ∃ i H text t', saveHirm (reader plain) { loadRun with clusters := none } [] = .ok ((i, H, text), t') ∧
    (∀ d c x, Encoding.entity i.encoding d c = some x → Word d ∧ DomainWord d ∧ Word x) := by
  obtain ⟨i, H, text, t', _, h, _⟩ := C72_runs_partial (a := { loadRun with clusters := none }) plain_readable
    ⟨rfl, load_proper.sound, load_proper.grounded, load_proper.obs, load_proper.each, load_proper.distinct, load_proper.leaves, load_proper.heldout,
      load_proper.heldEach, load_proper.heldDistinct⟩ rfl (.inl rfl) (.inr load_sampleable) 0 []
  refine ⟨i, H, text, t', h, fun d c x hx => ?_⟩
  obtain ⟨j, t1, hj, e⟩ : ∃ j t1, readInputs (reader plain) { loadRun with clusters := none } [] = .ok (j, t1) ∧
      names j.encoding = [("D", 0, "b"), ("D", 1, "c"), ("D", 2, "a"), ("E", 0, "x")] := ⟨_, _, rfl, rfl⟩
  obtain ⟨⟨⟨i₀, H₀⟩, t5⟩, h0, hq⟩ := bind_ok.mp h
  obtain ⟨⟨_, _⟩, _, hq⟩ := bind_ok.mp hq
  cases hq
  obtain ⟨⟨i₀, t6⟩, k1, hq⟩ := bind_ok.mp h0
  obtain ⟨⟨Hs, t7⟩, k2, hq⟩ := bind_ok.mp hq
  obtain ⟨⟨H1, t8⟩, k3, hq⟩ := bind_ok.mp hq
  cases hq
  rw [hj] at k1; cases k1
  have hx := mem_names hx
  rw [e] at hx
  simp only [List.mem_cons, Prod.mk.injEq, List.not_mem_nil, or_false] at hx
  rcases hx with ⟨rfl, rfl, rfl⟩ | ⟨rfl, rfl, rfl⟩ | ⟨rfl, rfl, rfl⟩ | ⟨rfl, rfl, rfl⟩ <;> unfold Word DomainWord <;> decide

end Examples

end HirmMain
end
end Verif
