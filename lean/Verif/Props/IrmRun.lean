import Verif.Props.IrmMain
import Verif.Props.HirmRun
/-!
C73: runs of the program `hirm` in the mode `irm` with proper files.
-/
namespace Verif
noncomputable section

namespace IRM
variable {V : Type} {F : Family V} {L : FamilyLaws F}

theorem reach_addAll {st : Prop} : ∀ (l : List (String × RelSpec F)) (n : Nat) (I I' : IRM F), Reach L False st n I → Skel I → (l.map (·.1)).Nodup →
    (∀ x ∈ l, ∀ b sp, x.2.base? = some b → I.schema.find? b = some sp ∨ (b, sp) ∈ l → sp.doms.length ≤ x.2.doms.length) →
    addAll l n I = .ok I' → Reach L False st (n + l.length) I' := by
  intro l
  induction l with
  | nil => intro n I I' h _ _ _ hc; cases hc; exact h
  | cons e l ih =>
    obtain ⟨name, spec⟩ := e
    intro n I I' h hs hnd ha hc
    obtain ⟨I1, h1, hc⟩ := bind_ok.mp hc
    have hnd' := List.nodup_cons.mp hnd
    have r1 : Reach L False st (n + 1) I1 := by
      refine .add h (fun e doms base o he id b hb => ?_) h1
      obtain ⟨sp, k1, k2⟩ := h.inv.spec hb
      have := ha (name, spec) (by simp) base sp (by rw [he]; rfl) (.inl k1)
      rw [he] at this
      rw [k2.doms]
      exact this
    obtain ⟨s1, s2, s3⟩ := addAll_result [(name, spec)] n I I1 hs (by simp) (bind_ok.mpr ⟨I1, h1, rfl⟩)
    have := ih (n + 1) I1 I' r1 s1 hnd'.2 (fun x hx b sp hb hsp => by
      refine ha x (by simp [hx]) b sp hb ?_
      rcases hsp with hsp | hsp
      · by_cases hbn : b = name
        · subst hbn
          rw [(s3 b spec (by simp)).1] at hsp
          cases hsp
          exact .inr (by simp)
        · rw [(s2 b (by simp [hbn])).1] at hsp
          exact .inl hsp
      · exact .inr (by simp [hsp])) hc
    rw [List.length_cons, show n + (l.length + 1) = n + 1 + l.length by omega]
    exact this

/-- a new IRM is reachable -/
theorem reach_mk' {st : Prop} {schema : Schema F} (ha : ∀ n spec b sp, schema.find? n = some spec → spec.base? = some b → schema.find? b = some sp → sp.doms.length ≤ spec.doms.length)
    {I : IRM F} (hc : mk' schema = .ok I) : ∃ n, Reach L False st n I := by
  obtain ⟨I1, h1, hc⟩ := bind_ok.mp hc
  obtain ⟨_, _, hc⟩ := bind_ok.mp hc
  cases hc
  refine ⟨_, reach_addAll schema.entries 0 {} I .empty skel_empty schema.nodupKeys (fun x hx b sp hb hsp => ?_) h1⟩
  rcases hsp with hsp | hsp
  · cases hsp
  · exact ha x.1 x.2 b sp (FMap.mem_entries.mp hx) hb (FMap.mem_entries.mp hsp)

/-- a new IRM has no values -/
theorem mk'_none {schema : Schema F} {I : IRM F} (h : mk' schema = .ok I) (r : String) (k : Items) : I.value r k = none := by
  obtain ⟨_, hkeys, hnew⟩ := C31_irm_result h
  cases hv : I.value r k with
  | none => rfl
  | some v =>
    obtain ⟨⟨id, rel⟩, h1, h2⟩ := Option.bind_eq_some_iff.mp hv
    have h5 := (hkeys r).symm.trans (FMap.contains_iff.mpr ⟨_, h1⟩)
    obtain ⟨spec, hs⟩ := FMap.contains_iff.mp h5
    obtain ⟨id', rel', g1, _, _, _, g2⟩ := hnew r spec hs
    rw [h1] at g1; cases g1
    have h2 : rel.data.find? k = some v := h2
    rw [g2] at h2
    cases h2

theorem latentSweep_observed {env : IRM F → Env V} : ∀ (l : List String) (I : IRM F) (t : Tape),
    (∀ r ∈ l, ∃ spec, I.schema.find? r = some spec ∧ spec.observed = true) → latentSweep env l I t = .ok (I, t) := by
  intro l
  induction l with
  | nil => intro I t _; rfl
  | cons r l ih =>
    intro I t hl
    obtain ⟨spec, h1, h2⟩ := hl r (by simp)
    simp only [latentSweep, bind, Except.bind, FMap.atKey_of_find h1, h2]
    exact ih I t (fun r' hr' => hl r' (by simp [hr']))

theorem SameData.value {I I' : IRM F} (h : SameData I I') (n : String) (k : Items) : I'.value n k = I.value n k := by
  rcases h.rels n with ⟨h1, h2⟩ | ⟨id, r, r', h1, h2, h3⟩
  · simp [IRM.value, h1, h2]
  · rw [value_of h1, value_of h2, h3.data]

/-- a step with latent values, if the base relations are observed -/
theorem singleStep_observed {st : Prop} {n : Nat} {I : IRM F} (h : Reach L False st n I) (hS : L.Scores I.schema)
    (ho : ∀ n spec b sp, I.schema.find? n = some spec → spec.base? = some b → I.schema.find? b = some sp → sp.observed = true) (k : Nat) (t : Tape) :
    ∃ I' t', singleStep I k true t = .ok (I', t') ∧ Reach L False st n I' ∧ SameData I I' := by
  obtain ⟨I', t', h1, h2, h3, _⟩ := C27_step h hS k (shuffle I.baseToNoisy.keys t).2
  refine ⟨I', t', ?_, h2, h3⟩
  obtain ⟨⟨Iz, tz⟩, hz, h1⟩ := bind_ok.mp h1
  cases hz
  refine bind_ok.mpr ⟨(I, (shuffle I.baseToNoisy.keys t).2), latentSweep_observed _ _ _ (fun r hr => ?_), h1⟩
  obtain ⟨l, hl⟩ := FMap.contains_iff.mp (FMap.contains_iff_mem.mpr ((shuffle_perm _ _).mem_iff.mp hr))
  cases l with
  | nil => exact absurd hl (h.tied.listed r)
  | cons m l =>
    obtain ⟨spec, k1, k2⟩ := (h.tied.noisy r m).mp (by rw [hl]; simp)
    have hg := h.tied.grounded m (FMap.contains_iff.mpr ⟨_, k1⟩)
    have : ∃ sp, I.schema.find? r = some sp := by
      cases hg with
      | clean q1 q2 => rw [k1] at q1; cases q1; rw [k2] at q2; cases q2
      | noisy q1 q2 q3 =>
        rw [k1] at q1; cases q1
        rw [k2] at q2; cases q2
        cases q3 with
        | clean q1 _ => exact ⟨_, q1⟩
        | noisy q1 _ _ => exact ⟨_, q1⟩
    obtain ⟨sp, k3⟩ := this
    exact ⟨sp, k3, ho m spec r sp k1 k2 k3⟩

end IRM

namespace HirmMain
open UtilIO
variable {w : World} {a : Args} {S : Schema (priors w)} {rows held : List Row}

theorem supported_irm {schema : Schema (priors w)} (hs : Sound schema) {I : IRM (priors w)} (he : I.schema = schema) {obs : ObsMap String} (hv : InRange schema obs) :
    Supported (IRM.host (priors w)) (priorLaws w) (parseValue w) obs I := by
  intro r spec l x v h1 h2 h3 h4
  have h1 : I.schema.find? r = some spec := h1
  show Takes (priorLaws w) I.schema v spec
  rw [he] at h1 ⊢
  exact hs.accepts h1 (hv r spec l x v h1 h2 h3 h4)

/-- The base of every noisy relation comes before it in the order of the names. -/
def BasesFirst (S : Schema (priors w)) : Prop := ∀ n spec b, S.find? n = some spec → spec.base? = some b → Key.lt b n = true

/-- an IRM without values takes the observations -/
theorem Proper.fillIrm {st : Prop} (hw : w.Readable) (h : Proper w a S rows held) {held' : List Row} {i : Inputs (priors w)} (hg : Got S rows held' i)
    {I0 : IRM (priors w)} {m : Nat} (hr0 : IRM.Reach (priorLaws w) False st m I0) (e0 : I0.schema = i.schema) (hnone : ∀ r k, I0.value r k = none) (t : Tape) :
    ∃ I t', incorporateObservations (IRM.host (priors w)) (parseValue w) I0 i.encoding i.observations t = .ok (I, t') ∧
      IRM.Reach (priorLaws w) False st m I ∧ I.schema = i.schema ∧ (∀ x ∈ rows, Has S i.encoding I.value x) ∧
      ∀ r k v, HIRM.Leaf S r → I.value r k = some v → ∃ x ∈ rows, x.rel = r ∧ States w S x v ∧ ∃ spec, S.find? r = some spec ∧ Codes i.encoding spec.doms x.items k := by
  have hsnd := hg.marked.sound h.sound
  have hu0 : Usable (priorLaws w) I0.schema := by rw [e0]; exact hsnd.usable hw
  have hrow : ∀ r l, i.observations.find? r = some l → ∀ o ∈ l, ∃ x ∈ rows, x.rel = r ∧ o = (x.items, x.value) := by
    intro r l hl o ho
    obtain ⟨rfl, _⟩ := hg.obs.find hl
    exact mem_rowsOf.mp ho
  have hknown : ∀ x ∈ rows, ∃ v spec, i.schema.find? x.rel = some spec ∧ x.items.length = spec.doms.length ∧ parseValue w spec.kind x.value = .ok v ∧ spec.Takes v := by
    intro x hx
    obtain ⟨v, hv⟩ := (h.each x hx).2
    have hv' := hv
    obtain ⟨sp, g1, _⟩ := hv'
    obtain ⟨sp', g2, _⟩ := hg.marked.to g1
    exact ⟨v, sp', g2, States.same hg.marked hv g2⟩
  have hrange : InRange i.schema i.observations := by
    intro r spec l y v hs hl hy hp
    obtain ⟨x, hx, rfl, rfl⟩ := hrow r l hl y hy
    obtain ⟨v', sp, g1, g2, g3, g4⟩ := hknown x hx
    rw [hs] at g1; cases g1
    have hp : parseValue w spec.kind x.value = .ok v := hp
    rw [g3] at hp
    cases hp
    exact g4
  obtain ⟨I, t', h1, h2, h3⟩ := IRM.C33_returns_partial samples_priors hr0 hu0 (supported_irm hsnd e0 hrange) (enc := i.encoding) (fun r l hl => by
      obtain ⟨o, ho⟩ := List.exists_mem_of_ne_nil _ (hg.obs.find hl).2
      obtain ⟨x, hx, rfl, _⟩ := hrow r l hl o ho
      obtain ⟨_, sp, g1, _⟩ := hknown x hx
      refine ⟨sp, by rw [e0]; exact g1, fun o ho => ?_, ?_⟩
      · obtain ⟨y, hy, e1, rfl⟩ := hrow _ l hl o ho
        obtain ⟨v, sp', k1, k2, k3, _⟩ := hknown y hy
        rw [e1, g1] at k1; cases k1
        obtain ⟨k, k4, k5⟩ := hg.codes (x := y) (by simp [hy]) (by rw [e1]; exact g1) k2
        exact ⟨k, v, k4, k5, hnone _ _, k3⟩
      · rw [(hg.obs.find hl).1]
        exact hg.apart h.distinct _ _)
    (fun r l hl hne => by
      obtain ⟨o, ho⟩ := List.exists_mem_of_ne_nil _ hne
      obtain ⟨x, hx, rfl, _⟩ := hrow r l hl o ho
      rw [e0]
      exact hg.marked.leaf (h.each x hx).1)
    (fun n spec b hs hb hl => by
      rw [e0] at hs hl
      obtain ⟨sp, g1, g2⟩ := hg.marked.of hs
      obtain ⟨x, hx, rfl⟩ := h.leaves n sp b g1 (by rw [← g2.base]; exact hb) (hg.marked.leaf' hl)
      exact FMap.contains_iff.mpr ⟨_, (hg.obs.row hx).1⟩) t
  have hsays : ∀ {x : Row} {k : Items} {v : Value}, x ∈ rows → Says (IRM.host (priors w)) (parseValue w) i.encoding I0 x.rel (x.items, x.value) k v →
      States w S x v ∧ ∃ spec, S.find? x.rel = some spec ∧ Codes i.encoding spec.doms x.items k := by
    intro x k v hx hs
    obtain ⟨spec, rel, g1, g2, g3, g4⟩ := hs
    have g1 : I0.schema.find? x.rel = some spec := g1
    obtain ⟨rel', k1, k2, _⟩ := (IRM.hosted samples_priors m).get (m := I0) ⟨hr0, hu0⟩ g1
    rw [k1] at g3; cases g3
    rw [e0] at g1
    obtain ⟨v', sp', q1, q2, q3, q4⟩ := hknown x hx
    rw [g1] at q1; cases q1
    rw [k2, q3] at g4
    cases g4
    obtain ⟨sp, r1, r2⟩ := hg.marked.of g1
    exact ⟨States.back hg.marked g1 q2 q3 q4, sp, r1, by rw [← r2.doms]; exact g2⟩
  refine ⟨I, t', h1, h2, h3.schema.trans e0, fun x hx => ?_, fun r k v hl hv => ?_⟩
  · obtain ⟨g1, g2⟩ := hg.obs.row hx
    obtain ⟨k, v, g3, _, g4⟩ := h3.each _ _ g1 _ g2
    obtain ⟨k1, spec, k2, k3⟩ := hsays hx g3
    exact ⟨spec, k, v, k2, k3, k1, g4⟩
  · rcases h3.only r k v (hnone r k) hv with ⟨l, g1, o, g2, g3⟩ | ⟨_, n, g1, _⟩
    · obtain ⟨x, hx, rfl, rfl⟩ := hrow r l g1 o g2
      obtain ⟨k1, spec, k2, k3⟩ := hsays hx g3
      exact ⟨x, hx, rfl, k1, spec, k2, k3⟩
    · obtain ⟨spec, k1, k2⟩ := (hr0.tied.noisy r n).mp g1
      rw [e0] at k1
      exact absurd k2 (hg.marked.leaf hl n spec k1)

/-- a new IRM takes the observations -/
theorem Proper.startIrm (st : Prop) (hw : w.Readable) (h : Proper w a S rows held) (hf : BasesFirst S) (hc : a.clusters = none) {i : Inputs (priors w)} (hg : Got S rows held i) (t : Tape) :
    ∃ I n t', HirmMain.startIrm (reader w) a i t = .ok (I, t') ∧ IRM.Reach (priorLaws w) False st n I ∧ I.schema = i.schema ∧ (∀ x ∈ rows, Has S i.encoding I.value x) ∧
      ∀ r k v, HIRM.Leaf S r → I.value r k = some v → ∃ x ∈ rows, x.rel = r ∧ States w S x v ∧ ∃ spec, S.find? r = some spec ∧ Codes i.encoding spec.doms x.items k := by
  obtain ⟨I0, h0⟩ := (IRM.C31_irm_constructor_partial i.schema).mpr (fun n spec hs => by
    obtain ⟨sp, g1, g2⟩ := hg.marked.of hs
    refine ⟨by rw [g2.doms]; exact loadSchema_doms h.schema n sp g1, fun b hb => ⟨?_, hf n sp b g1 (by rw [← g2.base]; exact hb)⟩⟩
    obtain ⟨sb, k1, _⟩ := (loadSchema_read h.schema).bases n sp b g1 (by rw [← g2.base]; exact hb)
    obtain ⟨sb', k2, _⟩ := hg.marked.to k1
    exact FMap.contains_iff.mpr ⟨_, k2⟩)
  obtain ⟨m, hr0⟩ : ∃ m, IRM.Reach (priorLaws w) False st m I0 := IRM.reach_mk' (hg.marked.sound h.sound).arity h0
  obtain ⟨I, t', h1, h2⟩ := h.fillIrm hw hg hr0 (IRM.C31_irm_result h0).1 (IRM.mk'_none h0) t
  refine ⟨I, m, t', ?_, h2⟩
  unfold HirmMain.startIrm
  rw [hc]
  exact bind_ok.mpr ⟨_, h0, h1⟩

/-- the held-out rows are scored, if there are any -/
theorem Proper.scoreIrm {st : Prop} (hw : w.Readable) (h : Proper w a S rows held) {i : Inputs (priors w)} (hg : Got S rows held i) {I : IRM (priors w)} {n : Nat}
    (hr : IRM.Reach (priorLaws w) False st n I) (he : I.schema = i.schema) (hne : held ≠ []) {text : List Char} (ha : a.heldout = some text) (t : Tape) :
    ∃ qs, ∃ lp : ℝ, ∃ t', heldoutIrm (reader w) a i I t = .ok (some (lp : WithBot ℝ), t') ∧ Scores S i.encoding held qs ∧
      ∀ t, ∃ t', I.logp qs t = .ok ((lp : WithBot ℝ), I, t') := by
  have hsnd := hg.marked.sound h.sound
  have hrow : ∀ r l, i.heldout.find? r = some l → ∀ o ∈ l, ∃ x ∈ held, x.rel = r ∧ o = (x.items, x.value) := by
    intro r l hl o ho
    obtain ⟨rfl, _⟩ := hg.heldout.find hl
    exact mem_rowsOf.mp ho
  have hknown : ∀ x ∈ held, ∃ v spec, i.schema.find? x.rel = some spec ∧ x.items.length = spec.doms.length ∧ parseValue w spec.kind x.value = .ok v ∧ spec.Takes v := by
    intro x hx
    obtain ⟨v, hv⟩ := (h.heldEach x hx).1
    have hv' := hv
    obtain ⟨sp, g1, _⟩ := hv'
    obtain ⟨sp', g2, _⟩ := hg.marked.to g1
    exact ⟨v, sp', g2, States.same hg.marked hv g2⟩
  obtain ⟨qs, t1, h1, h2, h3, h4⟩ := logpArgs_ok (IRM.hosted samples_priors n) (m := I) ⟨hr, by rw [he]; exact hsnd.usable hw⟩ (parse := parseValue w) (enc := i.encoding)
    (obs := i.heldout) (fun r l hl => by
      obtain ⟨o, ho⟩ := List.exists_mem_of_ne_nil _ (hg.heldout.find hl).2
      obtain ⟨x, hx, rfl, _⟩ := hrow r l hl o ho
      obtain ⟨_, sp, g1, _⟩ := hknown x hx
      refine ⟨sp, by rw [← he] at g1; exact g1, fun o ho => ?_⟩
      obtain ⟨y, hy, e1, rfl⟩ := hrow _ l hl o ho
      obtain ⟨v, sp', k1, k2, k3, _⟩ := hknown y hy
      rw [e1, g1] at k1; cases k1
      obtain ⟨k, k4, _⟩ := hg.codes (x := y) (by simp [hy]) (by rw [e1]; exact g1) k2
      exact ⟨k, v, k4, k3⟩) t
  have hasks : ∀ {x : Row} {q : String × Items × Value}, x ∈ held → Asks I.schema (parseValue w) i.encoding (x.rel, x.items, x.value) q →
      q.1 = x.rel ∧ States w S x q.2.2 ∧ ∃ spec, S.find? x.rel = some spec ∧ Codes i.encoding spec.doms x.items q.2.1 := by
    rintro x q hx ⟨e1, spec, g1, g2, g3⟩
    rw [he] at g1
    obtain ⟨v', sp', q1, q2, q3, q4⟩ := hknown x hx
    have g1 : i.schema.find? x.rel = some spec := g1
    rw [g1] at q1; cases q1
    have g3 : parseValue w spec.kind x.value = .ok q.2.2 := g3
    have ev : v' = q.2.2 := by rw [q3] at g3; exact Except.ok.inj g3
    subst ev
    obtain ⟨sp, r1, r2⟩ := hg.marked.of g1
    exact ⟨e1, States.back hg.marked g1 q2 q3 q4, sp, r1, by rw [← r2.doms]; exact g2⟩
  have hsc : Scores S i.encoding held qs := by
    refine ⟨fun x hx => ?_, fun q hq => ?_, h4 (fun r l spec hl _ => ?_)⟩
    · obtain ⟨g1, g2⟩ := hg.heldout.row hx
      obtain ⟨q, hq, k⟩ := h3 _ _ _ g1 g2
      exact ⟨q, hq, hasks hx k⟩
    · obtain ⟨l, o, g1, g2, g3⟩ := h2 q hq
      obtain ⟨x, hx, e1, rfl⟩ := hrow _ l g1 o g2
      rw [← e1] at g3
      exact ⟨x, hx, hasks hx g3⟩
    · rw [(hg.heldout.find hl).1]
      exact hg.apart h.heldDistinct _ _
  have hqs : qs ≠ [] := by
    obtain ⟨x, hx⟩ := List.exists_mem_of_ne_nil _ hne
    obtain ⟨q, hq, _⟩ := hsc.each x hx
    exact List.ne_nil_of_mem hq
  obtain ⟨lp, hlp, _⟩ := IRM.logp_perm hr.inv (fun c => Prior.logpPure w c) hqs hsc.once (fun q hq => by
    obtain ⟨x, hx, e1, hst, spec, g1, g2⟩ := hsc.only q hq
    obtain ⟨c, ds, o, g3, g4⟩ := (h.heldEach x hx).2
    rw [g1] at g3; cases g3
    obtain ⟨sp, k1, k2, k3, k4⟩ := hst
    rw [g1] at k1; cases k1
    obtain ⟨sp', r1, r2⟩ := hg.marked.to g1
    obtain ⟨o', rfl⟩ := r2.symm.clean rfl
    obtain ⟨id, rel, q1, q2⟩ := hr.inv.obj (by rw [he]; exact r1)
    have hk := q2.kind
    cases rel with
    | noisy e p r => cases hk
    | clean c' r =>
      cases hk
      refine ⟨id, c, r, by rw [e1]; exact q1, ?_, k4, ?_⟩
      · rw [g2.1, k2]
        exact congrArg List.length q2.doms.symm
      · intro t t'
        cases c <;> first | rfl | exact g4.elim) (.refl _)
  obtain ⟨t2, h5⟩ := hlp t1
  refine ⟨qs, lp, t2, ?_, hsc, hlp⟩
  unfold heldoutIrm
  rw [ha]
  exact bind_ok.mpr ⟨_, h1, bind_ok.mpr ⟨_, h5, rfl⟩⟩

theorem inferenceIrm_observed {st : Prop} {n : Nat} : ∀ (k : Nat) (I : IRM (priors w)) (t : Tape), IRM.Reach (priorLaws w) False st n I → (priorLaws w).Scores I.schema →
    (∀ n spec b sp, I.schema.find? n = some spec → spec.base? = some b → I.schema.find? b = some sp → sp.observed = true) →
    ∃ I' t', inferenceIrm k I t = .ok (I', t') ∧ IRM.Reach (priorLaws w) False st n I' ∧ I'.schema = I.schema ∧ ∀ r k, I'.value r k = I.value r k := by
  intro k
  induction k with
  | zero => intro I t h _ _; exact ⟨I, t, rfl, h, rfl, fun _ _ => rfl⟩
  | succ k ih =>
    intro I t h hS ho
    obtain ⟨I1, t1, h1, h2, h3⟩ := IRM.singleStep_observed h hS ho 10 t
    obtain ⟨I2, t2, g1, g2, g3, g4⟩ := ih I1 t1 h2 (by rw [h3.schema]; exact hS) (by rw [h3.schema]; exact ho)
    exact ⟨I2, t2, bind_ok.mpr ⟨_, h1, g1⟩, g2, g3.trans h3.schema, fun r k => (g4 r k).trans (h3.value r k)⟩

/-- **C73**: a run in the mode `irm` with proper files and without initial clusters never fails, whatever is drawn, if the names of bases come
before those of the relations that are noisy versions of them, and if a held-out file is not empty: it saves the clusters of a model that
has exactly the values of the observations at the codes of their entities, and the log probability that it prints is a real number, and it
is the one of exactly the held-out lines.

Missing: as in C72; that the order of names and an empty held-out file should not matter is false (`C73_order_false`, `C73_empty_heldout_false`). -/
theorem C73_runs_partial (hw : w.Readable) (h : Proper w a S rows held) (hf : BasesFirst S) (hc : a.clusters = none) (hb : Iterable a S held)
    (hne : a.heldout ≠ none → held ≠ []) (t : Tape) :
    ∃ i I text t1 out t', saveIrm (reader w) a t = .ok ((i, I, text), t1) ∧ runIrm (reader w) a t = .ok (out, t') ∧ out.clusters = text ∧
      (∀ x ∈ rows, Has S i.encoding I.value x) ∧
      (∀ r k v, HIRM.Leaf S r → I.value r k = some v →
        ∃ x ∈ rows, x.rel = r ∧ States w S x v ∧ ∃ spec, S.find? r = some spec ∧ Codes i.encoding spec.doms x.items k) ∧
      (a.heldout = none → out.logp = none) ∧
      (a.heldout ≠ none → ∃ qs, ∃ lp : ℝ, out.logp = some (lp : WithBot ℝ) ∧ Scores S i.encoding held qs ∧
        ∀ t, ∃ t', I.logp qs t = .ok ((lp : WithBot ℝ), I, t')) := by
  obtain ⟨i, t1, h1, hg, hobs⟩ := h.read t
  obtain ⟨I0, n, t2, h2, h3, he, h4, h5⟩ := h.startIrm False hw hf hc hg t1
  obtain ⟨I, t3, h6, h7, h8, h9⟩ : ∃ I t', inferenceIrm a.iters I0 t2 = .ok (I, t') ∧ IRM.Reach (priorLaws w) False False n I ∧ I.schema = I0.schema ∧
      ∀ r k, I.value r k = I0.value r k := by
    rcases hb with hb | ⟨hu, hb⟩
    · rw [hb]
      exact ⟨I0, t2, rfl, h3, rfl, fun _ _ => rfl⟩
    · refine inferenceIrm_observed a.iters I0 t2 h3 (by rw [he]; exact (hg.marked.undoing hu).scores) (fun n spec b sp q1 q2 q3 => ?_)
      rw [he] at q1 q3
      obtain ⟨s, k1, k2⟩ := hg.marked.of q1
      obtain ⟨x, hx, rfl⟩ := hb n s b k1 (by rw [← k2.base]; exact q2)
      exact hobs x (by simp [hx]) sp q3
  have hfit : fitIrm (reader w) a t = .ok ((i, I), t3) := bind_ok.mpr ⟨_, h1, bind_ok.mpr ⟨_, h2, bind_ok.mpr ⟨_, h6, rfl⟩⟩⟩
  obtain ⟨text, t4, hsave⟩ := C73_saves hfit
  have hhas : ∀ x ∈ rows, Has S i.encoding I.value x := by
    intro x hx
    obtain ⟨spec, k, v, a1, a2, a3, a4⟩ := h4 x hx
    exact ⟨spec, k, v, a1, a2, a3, by rw [h9]; exact a4⟩
  obtain ⟨lp, t5, k1, k2, k3⟩ : ∃ lp t', heldoutIrm (reader w) a i I t4 = .ok (lp, t') ∧ (a.heldout = none → lp = none) ∧
      (a.heldout ≠ none → ∃ qs, ∃ x : ℝ, lp = some (x : WithBot ℝ) ∧ Scores S i.encoding held qs ∧ ∀ t, ∃ t', I.logp qs t = .ok ((x : WithBot ℝ), I, t')) := by
    cases ha : a.heldout with
    | none =>
      refine ⟨none, t4, ?_, fun _ => rfl, fun hn => absurd rfl hn⟩
      unfold heldoutIrm
      rw [ha]
    | some tx =>
      obtain ⟨qs, x, t', k1, k2, k3⟩ := h.scoreIrm hw hg h7 (h8.trans he) (hne (by rw [ha]; simp)) ha t4
      exact ⟨some (x : WithBot ℝ), t', k1, ⟨fun hn => absurd hn (by simp), fun _ => ⟨qs, x, rfl, k2, k3⟩⟩⟩
  exact ⟨i, I, text, t4, _, t5, hsave, bind_ok.mpr ⟨_, hsave, bind_ok.mpr ⟨_, k1, rfl⟩⟩, rfl, hhas,
    fun r k v hl hv => h5 r k v hl (by rw [← h9]; exact hv), k2, k3⟩

/-! ### Example -/
section Example
open Text

/-- a run with a noisy relation after its base and held-out observations of the base -/
def irmRun : Args where
  schema := "A ~ bernoulli(D)\nN ~ sometimes_bitflip(A; D, E)\n".toList
  obs := "1,N,a,x\n0,N,b,x\n".toList
  heldout := some "1,A,b\n0,A,c\n".toList

def irmSchema : Schema (priors plain) :=
  ((∅ : Schema (priors plain)).set "A" (.clean .bernoulli ["D"] false)).set "N" (.noisy .sometimesBitflip ["D", "E"] "A" false)

def irmRows : List Row := [⟨"1", "N", ["a", "x"]⟩, ⟨"0", "N", ["b", "x"]⟩]
def irmHeld : List Row := [⟨"1", "A", ["b"]⟩, ⟨"0", "A", ["c"]⟩]

theorem irm_find {n : String} {spec : RelSpec (priors plain)} (h : irmSchema.find? n = some spec) :
    (n = "N" ∧ spec = .noisy .sometimesBitflip ["D", "E"] "A" false) ∨ (n = "A" ∧ spec = .clean .bernoulli ["D"] false) := by
  unfold irmSchema at h
  rw [FMap.find?_set, FMap.find?_set] at h
  split at h
  · rename_i e; exact .inl ⟨e, (Option.some.inj h).symm⟩
  · split at h
    · rename_i e; exact .inr ⟨e, (Option.some.inj h).symm⟩
    · cases h

theorem irm_sampleable : Sampleable irmSchema where
  arity n spec b sp h1 h2 h3 := by
    rcases irm_find h1 with ⟨rfl, rfl⟩ | ⟨rfl, rfl⟩
    · cases h2
      rcases irm_find h3 with ⟨h, rfl⟩ | ⟨_, rfl⟩ <;> decide
    · cases h2
  takes n e doms b o sp h1 h2 v hv := by
    rcases irm_find h1 with ⟨rfl, h⟩ | ⟨rfl, h⟩
    · cases h
      rcases irm_find h2 with ⟨h, rfl⟩ | ⟨_, rfl⟩
      · exact absurd h (by decide)
      · exact hv
    · cases h
  bases n c doms o m spec h1 _ _ := by
    rcases irm_find h1 with ⟨rfl, h⟩ | ⟨rfl, h⟩
    · cases h
    · cases h; exact trivial
  all n c doms o h1 := by
    rcases irm_find h1 with ⟨rfl, h⟩ | ⟨rfl, h⟩
    · cases h
    · cases h; exact trivial

theorem irm_undoing : Undoing irmSchema := by
  intro n e doms b o h1
  rcases irm_find h1 with ⟨rfl, h⟩ | ⟨rfl, h⟩
  · cases h; exact trivial
  · cases h

theorem irm_proper : Proper plain irmRun irmSchema irmRows irmHeld where
  schema := rfl
  sound := irm_sampleable.toSound
  grounded n hn := by
    obtain ⟨spec, hs⟩ := FMap.contains_iff.mp hn
    have hA : Grounded irmSchema "A" := .clean (spec := .clean .bernoulli ["D"] false) rfl rfl
    rcases irm_find hs with ⟨rfl, _⟩ | ⟨rfl, _⟩
    · exact .noisy (spec := .noisy .sometimesBitflip ["D", "E"] "A" false) rfl rfl hA
    · exact hA
  obs := ⟨_, parts_iff.mp rfl, .cons (parts_iff.mp rfl) (.cons (parts_iff.mp rfl) .nil)⟩
  each x hx := by
    have : x.rel = "N" := by
      simp only [irmRows, List.mem_cons, List.not_mem_nil, or_false] at hx
      rcases hx with rfl | rfl <;> rfl
    refine ⟨fun n spec hs => ?_, ?_⟩
    · rw [this]
      rcases irm_find hs with ⟨_, rfl⟩ | ⟨_, rfl⟩ <;> decide
    · simp only [irmRows, List.mem_cons, List.not_mem_nil, or_false] at hx
      rcases hx with rfl | rfl
      · exact ⟨.bool true, .noisy .sometimesBitflip ["D", "E"] "A" false, rfl, rfl, rfl, _, rfl⟩
      · exact ⟨.bool false, .noisy .sometimesBitflip ["D", "E"] "A" false, rfl, rfl, rfl, _, rfl⟩
  distinct := by simp [Distinct, irmRows]
  leaves n spec b h1 h2 _ := by
    rcases irm_find h1 with ⟨rfl, rfl⟩ | ⟨rfl, rfl⟩
    · exact ⟨_, List.mem_cons_self .., rfl⟩
    · cases h2
  heldout := ⟨_, parts_iff.mp rfl, .cons (parts_iff.mp rfl) (.cons (parts_iff.mp rfl) .nil)⟩
  heldEach x hx := by
    simp only [irmHeld, List.mem_cons, List.not_mem_nil, or_false] at hx
    rcases hx with rfl | rfl
    · exact ⟨⟨.bool true, .clean .bernoulli ["D"] false, rfl, rfl, rfl, true, rfl⟩, .bernoulli, ["D"], false, rfl, trivial⟩
    · exact ⟨⟨.bool false, .clean .bernoulli ["D"] false, rfl, rfl, rfl, false, rfl⟩, .bernoulli, ["D"], false, rfl, trivial⟩
  heldDistinct := by simp [Distinct, irmHeld]

/-- C73_runs_partial: the hypotheses hold of this run, which makes ten iterations and scores two held-out lines -/
example (t : Tape) : ∃ out t', runIrm (reader plain) irmRun t = .ok (out, t') := by
  obtain ⟨_, _, _, _, out, t', _, h, _⟩ := C73_runs_partial plain_readable irm_proper (fun n spec b h1 h2 => by
    rcases irm_find h1 with ⟨rfl, rfl⟩ | ⟨rfl, rfl⟩
    · cases h2; rfl
    · cases h2) rfl (.inr ⟨irm_undoing, fun n spec b h1 h2 => by
    rcases irm_find h1 with ⟨rfl, rfl⟩ | ⟨rfl, rfl⟩
    · cases h2; exact ⟨_, List.mem_cons_self .., rfl⟩
    · cases h2⟩) (fun _ => by simp [irmHeld]) t
  exact ⟨out, t', h⟩

end Example

end HirmMain
end
end Verif
