import Verif.Lemmas.HirmRun2
import Verif.Props.HirmMain
/-!
C72: runs of the program `hirm` with proper files.
-/
namespace Verif
noncomputable section
namespace HirmMain
open UtilIO
variable {w : World} {a : Args} {S : Schema (priors w)} {rows held : List Row}

/-- a row of the observations is the value of its tuple -/
def Has (S : Schema (priors w)) (enc : Encoding) (value : String → Items → Option Value) (x : Row) : Prop :=
  ∃ spec k v, S.find? x.rel = some spec ∧ Codes enc spec.doms x.items k ∧ States w S x v ∧ value x.rel k = some v

/-- the queries ask for the values of the rows -/
structure Scores (S : Schema (priors w)) (enc : Encoding) (held : List Row) (qs : List (String × Items × Value)) : Prop where
  each : ∀ x ∈ held, ∃ q ∈ qs, q.1 = x.rel ∧ States w S x q.2.2 ∧ ∃ spec, S.find? x.rel = some spec ∧ Codes enc spec.doms x.items q.2.1
  only : ∀ q ∈ qs, ∃ x ∈ held, q.1 = x.rel ∧ States w S x q.2.2 ∧ ∃ spec, S.find? x.rel = some spec ∧ Codes enc spec.doms x.items q.2.1
  once : (qs.map (fun q => (q.1, q.2.1))).Nodup

theorem States.same {S S' : Schema (priors w)} (h : Marked S S') {x : Row} {v : Value} (hv : States w S x v) {spec : RelSpec (priors w)} (hs : S'.find? x.rel = some spec) :
    x.items.length = spec.doms.length ∧ parseValue w spec.kind x.value = .ok v ∧ spec.Takes v := by
  obtain ⟨sp, h1, h2, h3, h4⟩ := hv
  obtain ⟨sp', g1, g2⟩ := h.to h1
  rw [hs] at g1; cases g1
  exact ⟨by rw [g2.doms]; exact h2, by rw [g2.kind]; exact h3, (g2.takes v).mpr h4⟩

theorem States.back {S S' : Schema (priors w)} (h : Marked S S') {x : Row} {v : Value} {spec : RelSpec (priors w)} (hs : S'.find? x.rel = some spec)
    (hl : x.items.length = spec.doms.length) (hp : parseValue w spec.kind x.value = .ok v) (ht : spec.Takes v) : States w S x v := by
  obtain ⟨sp, g1, g2⟩ := h.of hs
  exact ⟨sp, g1, by rw [← g2.doms]; exact hl, by rw [← g2.kind]; exact hp, (g2.takes v).mp ht⟩

/-- a model without values takes the observations -/
theorem Proper.fill (hw : w.Readable) (h : Proper w a S rows held) {held' : List Row} {i : Inputs (priors w)} (hg : Got S rows held' i) {H0 : HIRM (priors w)}
    (hR : HIRM.Reach (priorLaws w) H0) (e0 : H0.schema = i.schema) (hnone : ∀ r k, H0.value r k = none) (t0 : Tape) :
    InRange i.schema i.observations ∧ ∃ H t', incorporateObservations (HIRM.host (priors w)) (parseValue w) H0 i.encoding i.observations t0 = .ok (H, t') ∧
      (∀ x ∈ rows, Has S i.encoding H.value x) ∧
      ∀ r k v, HIRM.Leaf S r → H.value r k = some v → ∃ x ∈ rows, x.rel = r ∧ States w S x v ∧ ∃ spec, S.find? r = some spec ∧ Codes i.encoding spec.doms x.items k := by
  have hsnd := hg.marked.sound h.sound
  have hrow : ∀ r l, i.observations.find? r = some l → ∀ o ∈ l, ∃ x ∈ rows, x.rel = r ∧ o = (x.items, x.value) := by
    intro r l hl o ho
    obtain ⟨rfl, _⟩ := hg.obs.find hl
    exact mem_rowsOf.mp ho
  have hknown : ∀ x ∈ rows, ∃ v spec, i.schema.find? x.rel = some spec ∧ x.items.length = spec.doms.length ∧ parseValue w spec.kind x.value = .ok v ∧ spec.Takes v := by
    intro x hx
    obtain ⟨v, hv⟩ := (h.each x hx).2
    have hv' := hv
    obtain ⟨sp, g1, _⟩ := hv'
    obtain ⟨sp', g2, _⟩ := hg.marked.to g1
    exact ⟨v, sp', g2, States.same hg.marked hv g2⟩
  have hrange : InRange i.schema i.observations := by
    intro r spec l y v hs hl hy hp
    obtain ⟨x, hx, rfl, rfl⟩ := hrow r l hl y hy
    obtain ⟨v', sp, g1, g2, g3, g4⟩ := hknown x hx
    rw [hs] at g1; cases g1
    have hp : parseValue w spec.kind x.value = .ok v := hp
    rw [g3] at hp
    cases hp
    exact g4
  obtain ⟨H, t', h1, _, _, h3⟩ := HIRM.C33_returns_partial samples_priors hR (by rw [e0]; exact hsnd.usable hw) (hsnd.supported e0 hrange) (enc := i.encoding) (by
    rw [e0]
    intro r l hl
    · obtain ⟨o, ho⟩ := List.exists_mem_of_ne_nil _ (hg.obs.find hl).2
      obtain ⟨x, hx, rfl, _⟩ := hrow r l hl o ho
      obtain ⟨_, sp, g1, _⟩ := hknown x hx
      refine ⟨sp, g1, fun o ho => ?_, ?_⟩
      · obtain ⟨y, hy, e1, rfl⟩ := hrow _ l hl o ho
        obtain ⟨v, sp', k1, k2, k3, _⟩ := hknown y hy
        rw [e1, g1] at k1; cases k1
        obtain ⟨k, k4, k5⟩ := hg.codes (x := y) (by simp [hy]) (by rw [e1]; exact g1) k2
        exact ⟨k, v, k4, k5, hnone _ _, k3⟩
      · rw [(hg.obs.find hl).1]
        exact hg.apart h.distinct _ _)
    (by
      rw [e0]
      intro r l hl hne
      obtain ⟨o, ho⟩ := List.exists_mem_of_ne_nil _ hne
      obtain ⟨x, hx, rfl, _⟩ := hrow r l hl o ho
      exact hg.marked.leaf (h.each x hx).1)
    (by
      rw [e0]
      intro n spec b hs hb hl
      obtain ⟨sp, g1, g2⟩ := hg.marked.of hs
      obtain ⟨x, hx, rfl⟩ := h.leaves n sp b g1 (by rw [← g2.base]; exact hb) (hg.marked.leaf' hl)
      exact FMap.contains_iff.mpr ⟨_, (hg.obs.row hx).1⟩) t0
  have hsays : ∀ {x : Row} {k : Items} {v : Value}, x ∈ rows → Says (HIRM.host (priors w)) (parseValue w) i.encoding H0 x.rel (x.items, x.value) k v →
      States w S x v ∧ ∃ spec, S.find? x.rel = some spec ∧ Codes i.encoding spec.doms x.items k := by
    intro x k v hx hs
    obtain ⟨spec, rel, g1, g2, g3, g4⟩ := hs
    have g1 : H0.schema.find? x.rel = some spec := g1
    obtain ⟨rel', k1, k2, _⟩ := (HIRM.hosted samples_priors).get (m := H0) ⟨hR, by rw [e0]; exact hsnd.usable hw⟩ g1
    rw [k1] at g3; cases g3
    rw [e0] at g1
    obtain ⟨v', sp', q1, q2, q3, q4⟩ := hknown x hx
    rw [g1] at q1; cases q1
    rw [k2, q3] at g4
    cases g4
    obtain ⟨sp, r1, r2⟩ := hg.marked.of g1
    exact ⟨States.back hg.marked g1 q2 q3 q4, sp, r1, by rw [← r2.doms]; exact g2⟩
  refine ⟨hrange, H, t', h1, fun x hx => ?_, fun r k v hl hv => ?_⟩
  · obtain ⟨g1, g2⟩ := hg.obs.row hx
    obtain ⟨k, v, g3, _, g4⟩ := h3.each _ _ g1 _ g2
    obtain ⟨k1, spec, k2, k3⟩ := hsays hx g3
    exact ⟨spec, k, v, k2, k3, k1, g4⟩
  · rcases h3.only r k v (hnone r k) hv with ⟨l, g1, o, g2, g3⟩ | ⟨_, n, g1, _⟩
    · obtain ⟨x, hx, rfl, rfl⟩ := hrow r l g1 o g2
      obtain ⟨k1, spec, k2, k3⟩ := hsays hx g3
      exact ⟨x, hx, rfl, k1, spec, k2, k3⟩
    · obtain ⟨spec, k1, k2⟩ := hR.good.noisy r n |>.mp g1
      rw [e0] at k1
      exact absurd k2 (hg.marked.leaf hl n spec k1)

/-- a new model takes the observations -/
theorem Proper.start (hw : w.Readable) (h : Proper w a S rows held) (hc : a.clusters = none) {i : Inputs (priors w)} (hg : Got S rows held i) (t : Tape) :
    ∃ H t', startHirm (reader w) a i t = .ok (H, t') ∧ Session w i.schema H ∧ (∀ x ∈ rows, Has S i.encoding H.value x) ∧
      ∀ r k v, HIRM.Leaf S r → H.value r k = some v → ∃ x ∈ rows, x.rel = r ∧ States w S x v ∧ ∃ spec, S.find? r = some spec ∧ Codes i.encoding spec.doms x.items k := by
  have hsnd := hg.marked.sound h.sound
  obtain ⟨H0, t0, h0⟩ := (HIRM.C31_hirm_constructor i.schema t).mpr (fun n spec hs => by
    obtain ⟨sp, g1, g2⟩ := hg.marked.of hs
    exact ⟨by rw [g2.doms]; exact loadSchema_doms h.schema n sp g1, hg.marked.grounded (h.grounded n (FMap.contains_iff.mpr ⟨_, g1⟩))⟩)
  obtain ⟨e0, hnew⟩ := HIRM.C31_hirm_result h0
  have hnone : ∀ r k, H0.value r k = none := by
    intro r k
    cases hv : H0.value r k with
    | none => rfl
    | some v =>
      obtain ⟨data, h1, h2⟩ := Option.bind_eq_some_iff.mp hv
      obtain ⟨⟨tb, id, rel⟩, h3, h4⟩ := Option.map_eq_some_iff.mp h1
      have h5 := ((Session.new h0).reach hw hsnd).1.good.skel.known h3
      rw [e0] at h5
      obtain ⟨spec, hs⟩ := FMap.contains_iff.mp h5
      obtain ⟨tb', id', rel', g1, _, _, _, g2⟩ := hnew r spec hs
      rw [h3] at g1; cases g1
      rw [← h4] at h2
      have h2 : rel.data.find? k = some v := h2
      rw [g2] at h2
      cases h2
  obtain ⟨hr, H, t', h1, h2, h3⟩ := h.fill hw hg ((Session.new h0).reach hw hsnd).1 e0 hnone t0
  refine ⟨H, t', ?_, .load (.new h0) hr h1, h2, h3⟩
  unfold startHirm
  rw [hc]
  exact bind_ok.mpr ⟨_, h0, h1⟩

/-- the held-out rows are scored -/
theorem Proper.score (hw : w.Readable) (h : Proper w a S rows held) {i : Inputs (priors w)} (hg : Got S rows held i) {H : HIRM (priors w)} (hH : Session w i.schema H)
    {text : List Char} (ha : a.heldout = some text) (t : Tape) :
    ∃ qs, ∃ lp : ℝ, ∃ t', heldoutHirm (reader w) a i H t = .ok (some (lp : WithBot ℝ), H, t') ∧ Scores S i.encoding held qs ∧
      ∀ t, ∃ t', H.logp qs t = .ok ((lp : WithBot ℝ), H, t') := by
  have hsnd := hg.marked.sound h.sound
  obtain ⟨hr, he⟩ := hH.reach hw hsnd
  have hrow : ∀ r l, i.heldout.find? r = some l → ∀ o ∈ l, ∃ x ∈ held, x.rel = r ∧ o = (x.items, x.value) := by
    intro r l hl o ho
    obtain ⟨rfl, _⟩ := hg.heldout.find hl
    exact mem_rowsOf.mp ho
  have hknown : ∀ x ∈ held, ∃ v spec, i.schema.find? x.rel = some spec ∧ x.items.length = spec.doms.length ∧ parseValue w spec.kind x.value = .ok v ∧ spec.Takes v := by
    intro x hx
    obtain ⟨v, hv⟩ := (h.heldEach x hx).1
    have hv' := hv
    obtain ⟨sp, g1, _⟩ := hv'
    obtain ⟨sp', g2, _⟩ := hg.marked.to g1
    exact ⟨v, sp', g2, States.same hg.marked hv g2⟩
  obtain ⟨qs, t1, h1, h2, h3, h4⟩ := logpArgs_ok (HIRM.hosted samples_priors) (m := H) ⟨hr, by rw [he]; exact hsnd.usable hw⟩ (parse := parseValue w) (enc := i.encoding)
    (obs := i.heldout) (fun r l hl => by
      obtain ⟨o, ho⟩ := List.exists_mem_of_ne_nil _ (hg.heldout.find hl).2
      obtain ⟨x, hx, rfl, _⟩ := hrow r l hl o ho
      obtain ⟨_, sp, g1, _⟩ := hknown x hx
      refine ⟨sp, by rw [← he] at g1; exact g1, fun o ho => ?_⟩
      obtain ⟨y, hy, e1, rfl⟩ := hrow _ l hl o ho
      obtain ⟨v, sp', k1, k2, k3, _⟩ := hknown y hy
      rw [e1, g1] at k1; cases k1
      obtain ⟨k, k4, _⟩ := hg.codes (x := y) (by simp [hy]) (by rw [e1]; exact g1) k2
      exact ⟨k, v, k4, k3⟩) t
  have hasks : ∀ {x : Row} {q : String × Items × Value}, x ∈ held → Asks H.schema (parseValue w) i.encoding (x.rel, x.items, x.value) q →
      q.1 = x.rel ∧ States w S x q.2.2 ∧ ∃ spec, S.find? x.rel = some spec ∧ Codes i.encoding spec.doms x.items q.2.1 := by
    rintro x q hx ⟨e1, spec, g1, g2, g3⟩
    rw [he] at g1
    obtain ⟨v', sp', q1, q2, q3, q4⟩ := hknown x hx
    have g1 : i.schema.find? x.rel = some spec := g1
    rw [g1] at q1; cases q1
    have g3 : parseValue w spec.kind x.value = .ok q.2.2 := g3
    have ev : v' = q.2.2 := by rw [q3] at g3; exact Except.ok.inj g3
    subst ev
    obtain ⟨sp, r1, r2⟩ := hg.marked.of g1
    exact ⟨e1, States.back hg.marked g1 q2 q3 q4, sp, r1, by rw [← r2.doms]; exact g2⟩
  have hsc : Scores S i.encoding held qs := by
    refine ⟨fun x hx => ?_, fun q hq => ?_, h4 (fun r l spec hl _ => ?_)⟩
    · obtain ⟨g1, g2⟩ := hg.heldout.row hx
      obtain ⟨q, hq, k⟩ := h3 _ _ _ g1 g2
      exact ⟨q, hq, hasks hx k⟩
    · obtain ⟨l, o, g1, g2, g3⟩ := h2 q hq
      obtain ⟨x, hx, e1, rfl⟩ := hrow _ l g1 o g2
      rw [← e1] at g3
      exact ⟨x, hx, hasks hx g3⟩
    · rw [(hg.heldout.find hl).1]
      exact hg.apart h.heldDistinct _ _
  have hq : Queries i.schema qs := by
    refine ⟨fun q hq => ?_, hsc.once⟩
    obtain ⟨x, hx, e1, hst, spec, g1, g2⟩ := hsc.only q hq
    obtain ⟨c, ds, o, g3, g4⟩ := (h.heldEach x hx).2
    rw [g1] at g3; cases g3
    obtain ⟨sp, k1, k2, k3, k4⟩ := hst
    rw [g1] at k1; cases k1
    obtain ⟨sp', r1, r2⟩ := hg.marked.to g1
    obtain ⟨o', rfl⟩ := r2.symm.clean rfl
    exact ⟨c, ds, o', by rw [e1]; exact r1, g4, by rw [g2.1]; exact k2, k4⟩
  obtain ⟨lp, hlp⟩ := C70_logp hw hsnd hH hq (.refl _)
  obtain ⟨t2, h5⟩ := hlp t1
  refine ⟨qs, lp, t2, ?_, hsc, hlp⟩
  unfold heldoutHirm
  rw [ha]
  exact bind_ok.mpr ⟨_, h1, bind_ok.mpr ⟨_, h5, rfl⟩⟩

/-- samples are written -/
theorem Got.samples (hw : w.Readable) {i : Inputs (priors w)} (hg : Got S rows held i) {H : HIRM (priors w)} (hH : Session w i.schema H)
    (hs : Sampleable S) (fuel : Nat) (t : Tape) : ∃ res, samplesHirm (reader w) a i fuel H t = .ok res ∧
      ∀ o t', res = some (o, t') → if 0 < a.samples then ∃ text, o = some text else o = none := by
  unfold samplesHirm
  by_cases hp : 0 < a.samples
  · rw [if_pos hp]
    have hsmp := hg.marked.sampleable hs
    obtain ⟨res, h1, h2⟩ := C70_sample hw hsmp hH a.samples fuel t
    cases res with
    | none => exact ⟨none, bind_ok.mpr ⟨_, h1, rfl⟩, fun o t' h => by cases h⟩
    | some x =>
      obtain ⟨s, t1⟩ := x
      obtain ⟨h3, h4, _⟩ := h2 s t1 rfl
      obtain ⟨merged, te, te', h5, _⟩ := hg.enc
      have es : s.H.schema = i.schema := (h3.reach hw hsmp.toSound).2
      obtain ⟨text, t2, h6⟩ := (C35_written s.H.schema (printed (reader w).print s.obs) i.encoding t1).mpr (by
        intro r l hl
        rw [printed_find] at hl
        obtain ⟨l0, g1, rfl⟩ := Option.map_eq_some_iff.mp hl
        have hk := HIRM.sampleAndIncorporate_obs h1 (FMap.contains_iff.mpr ⟨_, g1⟩)
        rw [← h4.schema] at hk
        obtain ⟨spec, hsp⟩ := FMap.contains_iff.mp hk
        refine ⟨spec, hsp, fun o ho => ?_⟩
        obtain ⟨o', ho', rfl⟩ := List.mem_map.mp ho
        have hv := (h4.new r o'.1 o'.2 (by rw [g1]; exact ho')).2
        obtain ⟨spec', g2, g3⟩ := (h3.reach hw hsmp.toSound).1.good.value_length hv
        rw [hsp] at g2; cases g2
        refine ⟨by rw [g3], fun d hd => ((C32_bijection h5 d).2.2.2.2).mpr ⟨r, spec, by rw [← es]; exact hsp, List.mem_of_mem_take hd⟩⟩)
      refine ⟨some (some text, t2), bind_ok.mpr ⟨_, h1, bind_ok.mpr ⟨_, h6, rfl⟩⟩, fun o t' h => ?_⟩
      cases h
      rw [if_pos hp]
      exact ⟨text, rfl⟩
  · rw [if_neg hp]
    refine ⟨_, rfl, fun o t' h => ?_⟩
    cases h
    rw [if_neg hp]

/-- **C72**: a run of `hirm` with proper files and without initial clusters never fails, whatever is drawn: it saves the clusters of a model
that has exactly the values of the observations at the codes of their entities; if there is a held-out file, the log probability that it
prints is a real number, and it is the one of exactly the held-out lines; and it writes samples if it was asked to.  (The result is `none`
if sampling has not ended after `fuel` rounds.)

Missing: observations of base relations, iterations with base relations whose values are resampled, and the option `load`. -/
theorem C72_runs_partial (hw : w.Readable) (h : Proper w a S rows held) (hc : a.clusters = none) (hb : Iterable a S held)
    (hs : a.samples = 0 ∨ Sampleable S) (fuel : Nat) (t : Tape) :
    ∃ i H text t1 res, saveHirm (reader w) a t = .ok ((i, H, text), t1) ∧ runHirm (reader w) a fuel t = .ok res ∧
      (∀ x ∈ rows, Has S i.encoding H.value x) ∧
      (∀ r k v, HIRM.Leaf S r → H.value r k = some v →
        ∃ x ∈ rows, x.rel = r ∧ States w S x v ∧ ∃ spec, S.find? r = some spec ∧ Codes i.encoding spec.doms x.items k) ∧
      ∀ out t', res = some (out, t') → out.clusters = text ∧
        (a.heldout = none → out.logp = none) ∧
        (a.heldout ≠ none → ∃ qs, ∃ lp : ℝ, out.logp = some (lp : WithBot ℝ) ∧ Scores S i.encoding held qs ∧
          ∀ t, ∃ t', H.logp qs t = .ok ((lp : WithBot ℝ), H, t')) ∧
        if 0 < a.samples then ∃ text, out.samples = some text else out.samples = none := by
  obtain ⟨i, t1, h1, hg, hobs⟩ := h.read t
  have hsnd := hg.marked.sound h.sound
  obtain ⟨H0, t2, h2, h3, h4, h5⟩ := h.start hw hc hg t1
  obtain ⟨H, t3, h6, h7, h8⟩ : ∃ H t', H0.inference a.iters t2 = .ok (H, t') ∧ Session w i.schema H ∧ ∀ n k, H.value n k = H0.value n k := by
    rcases hb with hb | ⟨hu, hb⟩
    · rw [hb]
      exact ⟨H0, t2, rfl, h3, fun _ _ => rfl⟩
    · refine C70_infer hw hsnd (hg.marked.undoing hu) h3 (fun n spec b sp q1 q2 q3 => ?_) a.iters t2
      obtain ⟨s, k1, k2⟩ := hg.marked.of q1
      obtain ⟨x, hx, rfl⟩ := hb n s b k1 (by rw [← k2.base]; exact q2)
      exact hobs x (by simp [hx]) sp q3
  have hfit : fitHirm (reader w) a t = .ok ((i, H), t3) := bind_ok.mpr ⟨_, h1, bind_ok.mpr ⟨_, h2, bind_ok.mpr ⟨_, h6, rfl⟩⟩⟩
  obtain ⟨text, t4, hsave⟩ := C71_saves hfit
  have hhas : ∀ x ∈ rows, Has S i.encoding H.value x := by
    intro x hx
    obtain ⟨spec, k, v, a1, a2, a3, a4⟩ := h4 x hx
    exact ⟨spec, k, v, a1, a2, a3, by rw [h8]; exact a4⟩
  obtain ⟨lp, t5, h9, h10, h11⟩ : ∃ lp t', heldoutHirm (reader w) a i H t4 = .ok (lp, H, t') ∧ (a.heldout = none → lp = none) ∧
      (a.heldout ≠ none → ∃ qs, ∃ x : ℝ, lp = some (x : WithBot ℝ) ∧ Scores S i.encoding held qs ∧ ∀ t, ∃ t', H.logp qs t = .ok ((x : WithBot ℝ), H, t')) := by
    cases ha : a.heldout with
    | none =>
      refine ⟨none, t4, ?_, fun _ => rfl, fun hn => absurd rfl hn⟩
      unfold heldoutHirm
      rw [ha]
    | some tx =>
      obtain ⟨qs, x, t', k1, k2, k3⟩ := h.score hw hg h7 ha t4
      exact ⟨some (x : WithBot ℝ), t', k1, ⟨fun hn => absurd hn (by simp), fun _ => ⟨qs, x, rfl, k2, k3⟩⟩⟩
  obtain ⟨res, h12, h13⟩ : ∃ res, samplesHirm (reader w) a i fuel H t5 = .ok res ∧
      ∀ o t', res = some (o, t') → if 0 < a.samples then ∃ text, o = some text else o = none := by
    rcases hs with hs | hs
    · unfold samplesHirm
      rw [if_neg (by omega)]
      refine ⟨_, rfl, fun o t' h => ?_⟩
      cases h
      rw [if_neg (by omega)]
    · exact hg.samples hw h7 hs fuel t5
  have hrun : runHirm (reader w) a fuel t = .ok (res.map (fun x => ({ clusters := text, logp := lp, samples := x.1 }, x.2))) := by
    refine bind_ok.mpr ⟨_, hsave, bind_ok.mpr ⟨_, h9, bind_ok.mpr ⟨_, h12, ?_⟩⟩⟩
    cases res with
    | none => rfl
    | some x => rfl
  refine ⟨i, H, text, t4, _, hsave, hrun, hhas, fun r k v hl hv => h5 r k v hl (by rw [← h8]; exact hv), fun out t' he => ?_⟩
  obtain ⟨⟨o, t6⟩, e1, e2⟩ := Option.map_eq_some_iff.mp he
  have := congrArg Prod.fst e2
  subst this
  exact ⟨rfl, h10, h11, h13 o t6 e1⟩

/-! ### Example -/
section Example
open Text

/-- a run with a noisy relation and held-out observations of its base -/
def noisyRun : Args where
  schema := "N ~ sometimes_bitflip(R; D, E)\nR ~ bernoulli(D)\n".toList
  obs := "1,N,a,x\n0,N,b,x\n".toList
  heldout := some "1,R,b\n0,R,c\n".toList
  samples := 3

def noisySchema : Schema (priors plain) :=
  ((∅ : Schema (priors plain)).set "N" (.noisy .sometimesBitflip ["D", "E"] "R" false)).set "R" (.clean .bernoulli ["D"] false)

def noisyRows : List Row := [⟨"1", "N", ["a", "x"]⟩, ⟨"0", "N", ["b", "x"]⟩]
def noisyHeld : List Row := [⟨"1", "R", ["b"]⟩, ⟨"0", "R", ["c"]⟩]

theorem noisy_find {n : String} {spec : RelSpec (priors plain)} (h : noisySchema.find? n = some spec) :
    (n = "N" ∧ spec = .noisy .sometimesBitflip ["D", "E"] "R" false) ∨ (n = "R" ∧ spec = .clean .bernoulli ["D"] false) := by
  unfold noisySchema at h
  rw [FMap.find?_set, FMap.find?_set] at h
  split at h
  · rename_i e; exact .inr ⟨e, (Option.some.inj h).symm⟩
  · split at h
    · rename_i e; exact .inl ⟨e, (Option.some.inj h).symm⟩
    · cases h

theorem noisy_sampleable : Sampleable noisySchema where
  arity n spec b sp h1 h2 h3 := by
    rcases noisy_find h1 with ⟨rfl, rfl⟩ | ⟨rfl, rfl⟩
    · cases h2
      rcases noisy_find h3 with ⟨h, rfl⟩ | ⟨_, rfl⟩ <;> decide
    · cases h2
  takes n e doms b o sp h1 h2 v hv := by
    rcases noisy_find h1 with ⟨rfl, h⟩ | ⟨rfl, h⟩
    · cases h
      rcases noisy_find h2 with ⟨h, rfl⟩ | ⟨_, rfl⟩
      · exact absurd h (by decide)
      · exact hv
    · cases h
  bases n c doms o m spec h1 _ _ := by
    rcases noisy_find h1 with ⟨rfl, h⟩ | ⟨rfl, h⟩
    · cases h
    · cases h; exact trivial
  all n c doms o h1 := by
    rcases noisy_find h1 with ⟨rfl, h⟩ | ⟨rfl, h⟩
    · cases h
    · cases h; exact trivial

theorem noisy_undoing : Undoing noisySchema := by
  intro n e doms b o h1
  rcases noisy_find h1 with ⟨rfl, h⟩ | ⟨rfl, h⟩
  · cases h; exact trivial
  · cases h

theorem noisy_proper : Proper plain noisyRun noisySchema noisyRows noisyHeld where
  schema := rfl
  sound := noisy_sampleable.toSound
  grounded n hn := by
    obtain ⟨spec, hs⟩ := FMap.contains_iff.mp hn
    have hR : Grounded noisySchema "R" := .clean (spec := .clean .bernoulli ["D"] false) rfl rfl
    rcases noisy_find hs with ⟨rfl, _⟩ | ⟨rfl, _⟩
    · exact .noisy (spec := .noisy .sometimesBitflip ["D", "E"] "R" false) rfl rfl hR
    · exact hR
  obs := ⟨_, parts_iff.mp rfl, .cons (parts_iff.mp rfl) (.cons (parts_iff.mp rfl) .nil)⟩
  each x hx := by
    have : x.rel = "N" := by
      simp only [noisyRows, List.mem_cons, List.not_mem_nil, or_false] at hx
      rcases hx with rfl | rfl <;> rfl
    refine ⟨fun n spec hs => ?_, ?_⟩
    · rw [this]
      rcases noisy_find hs with ⟨_, rfl⟩ | ⟨_, rfl⟩ <;> decide
    · simp only [noisyRows, List.mem_cons, List.not_mem_nil, or_false] at hx
      rcases hx with rfl | rfl
      · exact ⟨.bool true, .noisy .sometimesBitflip ["D", "E"] "R" false, rfl, rfl, rfl, _, rfl⟩
      · exact ⟨.bool false, .noisy .sometimesBitflip ["D", "E"] "R" false, rfl, rfl, rfl, _, rfl⟩
  distinct := by simp [Distinct, noisyRows]
  leaves n spec b h1 h2 _ := by
    rcases noisy_find h1 with ⟨rfl, rfl⟩ | ⟨rfl, rfl⟩
    · exact ⟨_, List.mem_cons_self .., rfl⟩
    · cases h2
  heldout := ⟨_, parts_iff.mp rfl, .cons (parts_iff.mp rfl) (.cons (parts_iff.mp rfl) .nil)⟩
  heldEach x hx := by
    simp only [noisyHeld, List.mem_cons, List.not_mem_nil, or_false] at hx
    rcases hx with rfl | rfl
    · exact ⟨⟨.bool true, .clean .bernoulli ["D"] false, rfl, rfl, rfl, true, rfl⟩, .bernoulli, ["D"], false, rfl, trivial⟩
    · exact ⟨⟨.bool false, .clean .bernoulli ["D"] false, rfl, rfl, rfl, false, rfl⟩, .bernoulli, ["D"], false, rfl, trivial⟩
  heldDistinct := by simp [Distinct, noisyHeld]

/-- C72_runs_partial: the hypotheses hold of this run, which makes ten iterations, scores two held-out lines and makes three samples -/
example (fuel : Nat) (t : Tape) : ∃ res, runHirm (reader plain) noisyRun fuel t = .ok res := by
  obtain ⟨_, _, _, _, res, _, h, _⟩ := C72_runs_partial plain_readable noisy_proper rfl (.inr ⟨noisy_undoing, fun n spec b h1 h2 => by
    rcases noisy_find h1 with ⟨rfl, rfl⟩ | ⟨rfl, rfl⟩
    · cases h2; exact ⟨_, List.mem_cons_self .., rfl⟩
    · cases h2⟩) (.inr noisy_sampleable) fuel t
  exact ⟨res, h⟩

end Example

end HirmMain
end
end Verif
