import Verif.Spec.Session
import Verif.Lemmas.Priors
import Verif.Lemmas.LoadReach
import Verif.Props.Incorporate
import Verif.Props.Sampling
import Verif.Props.HIRMPredictive
import Verif.Props.Emission
/-!
C70: with the distributions and emissions of the repository, whatever a user does, no call fails.
-/
namespace Verif
open Spec UtilIO
noncomputable section
variable {w : World} {schema : Schema (priors w)}

theorem fromString_type {ty : ObsType} {x : String} {v : Value} (h : fromString w ty x = .ok v) : v.type = ty := by
  cases ty with
  | string => cases h; rfl
  | bool => obtain ⟨_, _, h⟩ := bind_ok.mp h; cases h; rfl
  | int => obtain ⟨_, _, h⟩ := bind_ok.mp h; cases h; rfl
  | double => obtain ⟨_, _, h⟩ := bind_ok.mp h; cases h; rfl

theorem Sound.accepts (hs : Sound schema) {r : String} {spec : RelSpec (priors w)} (hr : schema.find? r = some spec) {v : Value} (hv : spec.Takes v) :
    Takes (priorLaws w) schema v spec := by
  cases spec with
  | clean c ds o => exact hv
  | noisy e ds b o => exact fun sp bv hb hbv => ⟨hs.takes _ _ _ _ _ _ hr hb bv (RelSpec.value_takes hbv), hv⟩

theorem Sound.supported (hs : Sound schema) {H : HIRM (priors w)} (he : H.schema = schema) {obs : ObsMap String} (hv : InRange schema obs) :
    Supported (HIRM.host (priors w)) (priorLaws w) (parseValue w) obs H := by
  intro r spec l x v h1 h2 h3 h4
  have h1 : H.schema.find? r = some spec := h1
  show Takes (priorLaws w) H.schema v spec
  rw [he] at h1 ⊢
  exact hs.accepts h1 (hv r spec l x v h1 h2 h3 h4)

theorem inSupport_of_takes {V : Type} {F : Family V} {L : FamilyLaws F} {schema : Schema F} {val : String → Items → Option V} {k : Items} {v : V}
    {spec : RelSpec F} (h : Takes L schema v spec) (hval : ∀ n sp k v, schema.find? n = some sp → val n k = some v → sp.Value L v) :
    InSupport L schema val k v spec := by
  cases spec with
  | clean c ds o => exact h
  | noisy e ds b o => exact fun sp bv h1 h2 => h sp bv h1 (hval _ _ _ _ h1 h2)

theorem Session.reach (hw : w.Readable) (hs : Sound schema) {H : HIRM (priors w)} (h : Session w schema H) :
    HIRM.Reach (priorLaws w) H ∧ H.schema = schema := by
  induction h with
  | new hc => exact ⟨HIRM.C61_constructed hs.arity hc, (HIRM.C31_hirm_result hc).1⟩
  | restore hv hc =>
    obtain ⟨H₀, enc, t₁, h1, h2, _, h3⟩ := hirmFromTxt_reach hs.arity hc
    obtain ⟨h4, _, h5⟩ := HIRM.C33_returned samples_priors h1 (by rw [h2]; exact hs.usable hw) (hs.supported h2 hv) h3
    exact ⟨h4, h5.schema.trans h2⟩
  | load _ hv hc ih =>
    obtain ⟨h1, _, h2⟩ := HIRM.C33_returned samples_priors ih.1 (by rw [ih.2]; exact hs.usable hw) (hs.supported ih.2 hv) hc
    exact ⟨h1, h2.schema.trans ih.2⟩
  | @observe H H' r spec k v t t' _ hr hv hc ih =>
    have hsup : ∀ tb id q, H.relOf r = some (tb, id, q) → q.Supports (priorLaws w) (IRM.baseOf H.env q) k v := by
      intro tb id q hq
      have hr' : H.schema.find? r = some spec := by rw [ih.2]; exact hr
      refine (ih.1.good.shown hr' hq).supports.mpr ?_
      rw [ih.2]
      exact inSupport_of_takes (hs.accepts hr hv) (fun n sp k v h1 h2 => ih.1.good.value (by rw [ih.2]; exact h1) h2)
    obtain ⟨h1, h2, _⟩ := HIRM.C61_incorporated ih.1 hsup hc
    exact ⟨h1, h2.trans ih.2⟩
  | forget _ hu hc ih =>
    refine ⟨.unincorporate ih.1 hu hc, ?_⟩
    obtain ⟨⟨tb, I⟩, h1, h2⟩ := bind_ok.mp hc
    obtain ⟨I', h3, h4⟩ := bind_ok.mp h2
    cases h4
    exact ih.2
  | @move H H' r t t' _ hc ih =>
    cases hr : H.schema.contains r with
    | false => rw [(HIRM.C61_move_unknown ih.1 hr 0 t).1] at hc; cases hc
    | true =>
      obtain ⟨_, _, _, h1, h2, h3, _⟩ := HIRM.C61_move ih.1 hr t
      rw [hc] at h1; cases h1
      exact ⟨h2, h3.trans ih.2⟩
  | @set H H' r table t t' _ hc ih =>
    cases hr : H.schema.contains r with
    | false => rw [(HIRM.C61_move_unknown ih.1 hr table t).2] at hc; cases hc
    | true =>
      obtain ⟨_, _, h1, h2, h3, _⟩ := HIRM.C61_set ih.1 hr table t
      rw [hc] at h1; cases h1
      exact ⟨h2, h3.trans ih.2⟩
  | infer _ ho hc ih =>
    obtain ⟨h2, _, h3, _⟩ := HIRM.C61_inference_returned ih.1 (by rw [ih.2]; exact ho) hc
    exact ⟨h2, h3.trans ih.2⟩
  | sample _ ha hc ih =>
    obtain ⟨res, h1, h2⟩ := HIRM.C52_sample samples_priors ih.1 (by rw [ih.2]; exact ha.compatible hw) _ _ _
    rw [hc] at h1; cases h1
    obtain ⟨h3, _, h4, _⟩ := h2 _ _ rfl
    exact ⟨h3, h4.schema.trans ih.2⟩

/-! ### C70 -/

/-- **C70**: after any session, the clusters and indexes of every relation are what its observations say, every entity is in exactly one
cluster, and noisy observations are scored against the current values of the base relations. -/
theorem C70_sound (hw : w.Readable) (hs : Sound schema) {H : HIRM (priors w)} (h : Session w schema H) :
    HIRM.Sound (priorLaws w) H ∧ H.schema = schema ∧ ∀ r spec k v, schema.find? r = some spec → H.value r k = some v → spec.Takes v := by
  obtain ⟨h1, h2⟩ := h.reach hw hs
  refine ⟨HIRM.C61_sound h1, h2, fun r spec k v hr hv => ?_⟩
  exact RelSpec.value_takes (h1.good.value (by rw [h2]; exact hr) hv)

/-- **C70**: observations of relations that are not bases can always be loaded, whatever the orders and the draws: if each is for an existing
relation, with the right number of known entities, for a tuple of its own that has no value yet, with a text that can be read as a value of
the relation, and if every noisy relation that is not a base has observations. -/
theorem C70_load (hw : w.Readable) (hs : Sound schema) {H : HIRM (priors w)} (h : Session w schema H) {enc : Encoding} {obs : ObsMap String}
    (hv : InRange schema obs)
    (hobs : ∀ r l, obs.find? r = some l → ∃ spec, schema.find? r = some spec ∧ Suits HIRM.value (parseValue w) enc H r spec l)
    (hleaf : ∀ r l, obs.find? r = some l → l ≠ [] → HIRM.Leaf schema r)
    (hall : ∀ n spec b, schema.find? n = some spec → spec.base? = some b → HIRM.Leaf schema n → obs.contains n = true) (t : Tape) :
    ∃ H' t', incorporateObservations (HIRM.host (priors w)) (parseValue w) H enc obs t = .ok (H', t') ∧ Session w schema H' ∧
      Incorporated (HIRM.host (priors w)) HIRM.value (parseValue w) enc obs H H' := by
  obtain ⟨h1, h2⟩ := h.reach hw hs
  obtain ⟨H', t', h3, _, _, h4⟩ := HIRM.C33_returns_partial samples_priors h1 (by rw [h2]; exact hs.usable hw) (hs.supported h2 hv) (enc := enc)
    (by rw [h2]; exact hobs) (by rw [h2]; exact hleaf) (by rw [h2]; exact hall) t
  exact ⟨H', t', h3, .load h hv h3, h4⟩

/-- **C70**: a single observation is accepted exactly if the relation exists, the tuple has its arity and no value yet, and, for a noisy
relation, the base relation has a value for it. -/
theorem C70_observe (hw : w.Readable) (hs : Sound schema) {H : HIRM (priors w)} (h : Session w schema H) {r : String}
    {spec : RelSpec (priors w)} (hr : schema.find? r = some spec) {k : Items} {v : Value} (hv : spec.Takes v) (t : Tape) :
    (∃ H' t', H.incorporate r k v t = .ok (H', t')) ↔
      k.length = spec.doms.length ∧ H.value r k = none ∧
        ∀ b sp, spec.base? = some b → schema.find? b = some sp → ∃ bv, H.value b (k.take sp.doms.length) = some bv := by
  obtain ⟨h1, h2⟩ := h.reach hw hs
  have hr' : H.schema.find? r = some spec := by rw [h2]; exact hr
  have hsup : ∀ tb id q, H.relOf r = some (tb, id, q) → q.Supports (priorLaws w) (IRM.baseOf H.env q) k v := by
    intro tb id q hq
    refine (h1.good.shown hr' hq).supports.mpr ?_
    rw [h2]
    exact inSupport_of_takes (hs.accepts hr hv) (fun n sp k v a b => h1.good.value (by rw [h2]; exact a) b)
  rw [HIRM.C61_incorporate h1 hsup t]
  constructor
  · rintro ⟨spec', data, a1, a2, a3, a4, a5⟩
    rw [hr'] at a1; cases a1
    refine ⟨a3, by simp [HIRM.value, a2, a4], fun b sp hb hsp => ?_⟩
    obtain ⟨sp', bd, bv, c1, c2, c3⟩ := a5 b hb
    rw [h2, hsp] at c1; cases c1
    exact ⟨bv, by simp [HIRM.value, c2, c3]⟩
  · rintro ⟨a1, a2, a3⟩
    obtain ⟨tb, id, q, hq⟩ := h1.good.skel.relOf (FMap.contains_iff.mpr ⟨spec, hr'⟩)
    have hd : H.dataOf r = some q.data := by simp [HIRM.dataOf, hq]
    refine ⟨spec, q.data, hr', hd, a1, by rw [← HIRM.value_of hq]; exact a2, fun b hb => ?_⟩
    obtain ⟨tb', id', q', btb, bid, br, g1, g2, _⟩ := (HIRM.C61_sound h1).attached r spec b hr' hb
    obtain ⟨sp, g3, _⟩ := h1.good.matched g2
    obtain ⟨bv, hbv⟩ := a3 b sp hb (by rw [← h2]; exact g3)
    exact ⟨sp, br.data, bv, g3, by simp [HIRM.dataOf, g2], by rw [← HIRM.value_of g2]; exact hbv⟩

/-- **C70**: an accepted observation is stored, and no other value changes. -/
theorem C70_observed (hw : w.Readable) (hs : Sound schema) {H H' : HIRM (priors w)} (h : Session w schema H) {r : String}
    {spec : RelSpec (priors w)} (hr : schema.find? r = some spec) {k : Items} {v : Value} (hv : spec.Takes v) {t t' : Tape}
    (hc : H.incorporate r k v t = .ok (H', t')) :
    Session w schema H' ∧ ∀ n k', H'.value n k' = if n = r ∧ k' = k then some v else H.value n k' := by
  obtain ⟨h1, h2⟩ := h.reach hw hs
  have hr' : H.schema.find? r = some spec := by rw [h2]; exact hr
  have hsup : ∀ tb id q, H.relOf r = some (tb, id, q) → q.Supports (priorLaws w) (IRM.baseOf H.env q) k v := by
    intro tb id q hq
    refine (h1.good.shown hr' hq).supports.mpr ?_
    rw [h2]
    exact inSupport_of_takes (hs.accepts hr hv) (fun n sp k v a b => h1.good.value (by rw [h2]; exact a) b)
  obtain ⟨_, _, _, h3⟩ := HIRM.C61_incorporated h1 hsup hc
  refine ⟨.observe h hr hv hc, fun n k' => ?_⟩
  simp only [HIRM.value, h3 n]
  by_cases hn : n = r
  · subst hn
    obtain ⟨tb, id, q, hq⟩ := h1.good.skel.relOf (FMap.contains_iff.mpr ⟨spec, hr'⟩)
    simp only [HIRM.dataOf, hq, if_true, Option.map_some, Option.bind_some, FMap.find?_set, true_and]
  · simp only [hn, if_false, false_and]

/-- **C70**: relations can always be moved to clusters, by hand or by chance. -/
theorem C70_move (hw : w.Readable) (hs : Sound schema) {H : HIRM (priors w)} (h : Session w schema H) {r : String}
    (hr : schema.contains r = true) (table : Int) (t : Tape) :
    (∃ H' t', H.transitionRelation r t = .ok (H', t') ∧ Session w schema H' ∧ ∀ n k, H'.value n k = H.value n k) ∧
      ∃ H' t', H.setClusterAssignmentGibbs r table t = .ok (H', t') ∧ Session w schema H' ∧ ∀ n k, H'.value n k = H.value n k := by
  obtain ⟨h1, h2⟩ := h.reach hw hs
  constructor
  · obtain ⟨H', t', _, h3, _, _, h4, _⟩ := HIRM.C61_move h1 (by rw [h2]; exact hr) t
    exact ⟨H', t', h3, .move h h3, fun n k => by rw [HIRM.value, HIRM.value, h4]⟩
  · obtain ⟨H', t', h3, _, _, h4, _⟩ := HIRM.C61_set h1 (by rw [h2]; exact hr) table t
    exact ⟨H', t', h3, .set h h3, fun n k => by rw [HIRM.value, HIRM.value, h4]⟩

/-- **C70**: if the base relations are observed and the noise can be undone, inference of any number of iterations returns, and keeps all
observations. -/
theorem C70_infer (hw : w.Readable) (hs : Sound schema) (hu : Undoing schema) {H : HIRM (priors w)} (h : Session w schema H) (ho : BasesObserved schema)
    (k : Nat) (t : Tape) :
    ∃ H' t', H.inference k t = .ok (H', t') ∧ Session w schema H' ∧ ∀ n k, H'.value n k = H.value n k := by
  obtain ⟨h1, h2⟩ := h.reach hw hs
  obtain ⟨H', t', h3, _, _, _, h4⟩ := HIRM.C61_inference h1 (by rw [h2]; exact hu.scores) (by rw [h2]; exact ho) k t
  exact ⟨H', t', h3, .infer h ho h3, fun n k => by rw [HIRM.value, HIRM.value, h4]⟩

/-- **C70**: if the base relations are observed, inference keeps all observations, if it returns, also with noise that cannot be undone. -/
theorem C70_inferred (hw : w.Readable) (hs : Sound schema) {H H' : HIRM (priors w)} (h : Session w schema H) (ho : BasesObserved schema)
    {k : Nat} {t t' : Tape} (hc : H.inference k t = .ok (H', t')) : Session w schema H' ∧ ∀ n k, H'.value n k = H.value n k := by
  obtain ⟨h1, h2⟩ := h.reach hw hs
  obtain ⟨_, _, _, h4⟩ := HIRM.C61_inference_returned h1 (by rw [h2]; exact ho) hc
  exact ⟨.infer h ho hc, fun n k => by rw [HIRM.value, HIRM.value, h4]⟩

/-- **C70**: if all distributions sample values of their supports, sampling never fails.  If it ends, it has made `n` observations of each
relation that is not a base. -/
theorem C70_sample (hw : w.Readable) (hs : Sampleable schema) {H : HIRM (priors w)} (h : Session w schema H) (n fuel : Nat) (t : Tape) :
    ∃ res, H.sampleAndIncorporate n fuel t = .ok res ∧ ∀ s t', res = some (s, t') → Session w schema s.H ∧
      HIRM.Sampled H s.H (fun r => (s.obs.find? r).getD []) ∧
      ∀ r spec, schema.find? r = some spec → HIRM.Leaf schema r → ((s.obs.find? r).getD []).length = n := by
  obtain ⟨h1, h2⟩ := h.reach hw hs.toSound
  obtain ⟨res, h3, h4⟩ := HIRM.C52_sample samples_priors h1 (by rw [h2]; exact hs.compatible hw) n fuel t
  refine ⟨res, h3, fun s t' he => ?_⟩
  subst he
  obtain ⟨_, _, a1, a2⟩ := h4 s t' rfl
  exact ⟨.sample h hs h3, a1, fun r spec hr hl => (a2 r spec (by rw [h2]; exact hr)).1 (by rw [h2]; exact hl)⟩

/-- **C70**: `logp` of distinct tuples of clean relations returns, whatever is drawn; it returns the same number for all draws and orders,
and it changes nothing. -/
theorem C70_logp (hw : w.Readable) (hs : Sound schema) {H : HIRM (priors w)} (h : Session w schema H) {obs obs' : List (String × Items × Value)}
    (hq : Queries schema obs) (hp : obs.Perm obs') : ∃ lp : ℝ, ∀ t, ∃ t', H.logp obs' t = .ok ((lp : WithBot ℝ), H, t') := by
  obtain ⟨h1, h2⟩ := h.reach hw hs
  obtain ⟨lp, _, h4⟩ := HIRM.C51_order h1 (fun c => Prior.logpPure w c) hq.distinct (fun o ho => by
    obtain ⟨c, ds, b, a1, a2, a3, a4⟩ := hq.each o ho
    have a1' : H.schema.find? o.1 = some (.clean c ds b) := by rw [h2]; exact a1
    obtain ⟨tb, id, q, hq⟩ := h1.good.skel.relOf (FMap.contains_iff.mpr ⟨_, a1'⟩)
    obtain ⟨sp, hsp, hm⟩ := h1.good.matched hq
    rw [a1'] at hsp; cases hsp
    obtain ⟨hT, I, hI, hx⟩ := HIRM.relOf_some.mp hq
    have hk := hm.kind
    cases q with
    | noisy e p q => cases hk
    | clean c' q =>
      cases hk
      refine ⟨tb, I, hT, hI, id, c, q, hx, by rw [a3]; exact congrArg List.length hm.doms.symm, a4, ?_⟩
      intro t t'
      cases c <;> first | rfl | exact a2.elim) hp
  exact ⟨lp, h4⟩


/-! ### concrete cases -/

/-- a world in which every draw and every number read is as simple as possible -/
def plain : World where
  besselI := fun _ _ => 1
  initDraws := fun _ => (0, 0)
  accept := fun _ => 0
  student := fun t => (0, t)
  normal := fun t => (0, t)
  gamma := fun _ t => (1, t)
  poisson := fun _ t => (1, t)
  readReal := fun _ => .ok 0
  showReal := fun _ => "0"

theorem plain_readable : plain.Readable := fun _ => ⟨⟨fun h => absurd h (by decide), by
  show ∀ c ∈ "0".toList, 32 ≤ c.toNat ∧ c.toNat ≤ 126
  decide⟩, 0, rfl⟩

namespace C70

/-- the relation `R(A)` of numbers, its noisy version `S(A, D)`, and the relation `T(D)` of texts -/
def demo : Schema (priors plain) :=
  (((∅ : Schema (priors plain)).set "R" (.clean (.normal : Prior) ["A"] true)).set "S"
    (.noisy (.sometimesGaussian : EmisPrior) ["A", "D"] "R" true)).set "T" (.clean (.bigram 0 : Prior) ["D"] true)

theorem demo_find {n : String} {spec : RelSpec (priors plain)} (h : demo.find? n = some spec) :
    (n = "R" ∧ spec = .clean (.normal : Prior) ["A"] true) ∨ (n = "S" ∧ spec = .noisy (.sometimesGaussian : EmisPrior) ["A", "D"] "R" true) ∨
      (n = "T" ∧ spec = .clean (.bigram 0 : Prior) ["D"] true) := by
  unfold demo at h
  simp only [FMap.find?_set] at h
  split at h
  · cases h; exact .inr (.inr ⟨by assumption, rfl⟩)
  · split at h
    · cases h; exact .inr (.inl ⟨by assumption, rfl⟩)
    · split at h
      · cases h; exact .inl ⟨by assumption, rfl⟩
      · cases h

theorem demo_sampleable : Sampleable demo where
  arity n spec b sp h1 h2 h3 := by
    rcases demo_find h1 with ⟨rfl, rfl⟩ | ⟨rfl, rfl⟩ | ⟨rfl, rfl⟩ <;> cases h2
    cases h3; decide
  takes n e ds b o sp h1 h2 v hv := by
    rcases demo_find h1 with ⟨rfl, h⟩ | ⟨rfl, h⟩ | ⟨rfl, h⟩ <;> cases h
    cases h2; exact hv
  bases n c ds o m spec h1 _ _ := by
    rcases demo_find h1 with ⟨rfl, h⟩ | ⟨rfl, h⟩ | ⟨rfl, h⟩ <;> cases h
    · trivial
    · exact le_rfl
  all n c ds o h1 := by
    rcases demo_find h1 with ⟨rfl, h⟩ | ⟨rfl, h⟩ | ⟨rfl, h⟩ <;> cases h
    · trivial
    · exact le_rfl

theorem demo_undoing : Undoing demo := by
  intro n e ds b o h
  rcases demo_find h with ⟨rfl, h⟩ | ⟨rfl, h⟩ | ⟨rfl, h⟩ <;> cases h
  trivial

def got {α : Type} (d : α) (x : Res (α × Tape)) : α :=
  match x with
  | .ok (a, _) => a
  | .error _ => d

def demo0 : HIRM (priors plain) := got {} (HIRM.mk' demo [])

theorem demo0_session : Session plain demo demo0 := .new (t := []) (t' := []) rfl

/-- `S(a, d) = 2.5` and `T(d) = "x y"` -/
def demoObs : ObsMap String := ((∅ : ObsMap String).set "S" [(["a", "d"], "2.5")]).set "T" [(["d"], "x y")]

def demoEnc : Encoding :=
  { fwd := ((∅ : FMap String (FMap String Int)).set "A" ((∅ : FMap String Int).set "a" 3)).set "D" ((∅ : FMap String Int).set "d" 5) }


theorem demo_leaf {r : String} (hr : r ≠ "R") : HIRM.Leaf demo r := by
  intro n spec h1 h2
  rcases demo_find h1 with ⟨rfl, rfl⟩ | ⟨rfl, rfl⟩ | ⟨rfl, rfl⟩ <;> cases h2
  exact hr rfl

theorem demoObs_find {r : String} {l : List (List String × String)} (h : demoObs.find? r = some l) :
    (r = "S" ∧ l = [(["a", "d"], "2.5")]) ∨ (r = "T" ∧ l = [(["d"], "x y")]) := by
  unfold demoObs at h
  simp only [FMap.find?_set] at h
  split at h
  · cases h; exact .inr ⟨by assumption, rfl⟩
  · split at h
    · cases h; exact .inl ⟨by assumption, rfl⟩
    · cases h

theorem demo_range : InRange demo demoObs := by
  intro r spec l x v h1 h2 h3 h4
  rcases demoObs_find h2 with ⟨rfl, rfl⟩ | ⟨rfl, rfl⟩
  · cases h1
    simp only [List.mem_cons, List.not_mem_nil, or_false] at h3
    subst h3
    cases h4
    exact ⟨_, rfl⟩
  · cases h1
    simp only [List.mem_cons, List.not_mem_nil, or_false] at h3
    subst h3
    cases h4
    exact ⟨_, rfl, fun h => absurd h (by decide), by decide⟩

/-- C70_load, C70_infer: the observations are loaded for all orders, and then inference returns -/
theorem demo_loaded (t : Tape) : ∃ H' t', incorporateObservations (HIRM.host (priors plain)) (parseValue plain) demo0 demoEnc demoObs t = .ok (H', t') ∧
    Session plain demo H' ∧ H'.value "T" [5] = some (.str "x y") := by
  have c1 : Codes demoEnc ["A", "D"] ["a", "d"] [3, 5] := ⟨rfl, fun i x c' hx hc => by
    match i with
    | 0 => cases hx; cases hc; exact ⟨_, rfl, rfl⟩
    | 1 => cases hx; cases hc; exact ⟨_, rfl, rfl⟩⟩
  have c2 : Codes demoEnc ["D"] ["d"] [5] := ⟨rfl, fun i x c' hx hc => by
    match i with
    | 0 => cases hx; cases hc; exact ⟨_, rfl, rfl⟩⟩
  obtain ⟨H', t', h1, h2, h3⟩ := C70_load plain_readable demo_sampleable.toSound demo0_session (enc := demoEnc) demo_range
    (fun r l hl => by
      rcases demoObs_find hl with ⟨rfl, rfl⟩ | ⟨rfl, rfl⟩
      · refine ⟨_, rfl, ⟨fun o ho => ?_, List.pairwise_singleton _ _⟩⟩
        simp only [List.mem_cons, List.not_mem_nil, or_false] at ho
        subst ho
        exact ⟨[3, 5], .real 0, c1, rfl, rfl, rfl⟩
      · refine ⟨_, rfl, ⟨fun o ho => ?_, List.pairwise_singleton _ _⟩⟩
        simp only [List.mem_cons, List.not_mem_nil, or_false] at ho
        subst ho
        exact ⟨[5], .str "x y", c2, rfl, rfl, rfl⟩)
    (fun r l hl _ => by
      rcases demoObs_find hl with ⟨rfl, rfl⟩ | ⟨rfl, rfl⟩ <;> exact demo_leaf (by decide))
    (fun n spec b h1 h2 _ => by
      rcases demo_find h1 with ⟨rfl, rfl⟩ | ⟨rfl, rfl⟩ | ⟨rfl, rfl⟩ <;> cases h2
      rfl) t
  refine ⟨H', t', h1, h2, ?_⟩
  obtain ⟨k, v, ⟨spec, rel, g1, g2, g3, g4⟩, _, g5⟩ := h3.each "T" _ rfl (["d"], "x y") (by simp)
  have g1 : demo.find? "T" = some spec := g1
  have g1' : demo.find? "T" = some (.clean (.bigram 0 : Prior) ["D"] true) := rfl
  rw [g1'] at g1
  cases g1
  have g3' : (HIRM.host (priors plain)).get demo0 "T" = .ok rel := g3
  cases g3'
  cases g4
  rw [g2.unique c2] at g5
  exact g5

theorem demo_bases : BasesObserved demo := by
  intro n spec b sp h1 h2 h3
  rcases demo_find h1 with ⟨rfl, rfl⟩ | ⟨rfl, rfl⟩ | ⟨rfl, rfl⟩ <;> cases h2
  cases h3; rfl

example (t t2 : Tape) (k : Nat) : ∃ H' t' H2 t2', incorporateObservations (HIRM.host (priors plain)) (parseValue plain) demo0 demoEnc demoObs t = .ok (H', t') ∧
    H'.inference k t2 = .ok (H2, t2') ∧ H2.value "T" [5] = some (.str "x y") := by
  obtain ⟨H', t', h1, h2, h3⟩ := demo_loaded t
  obtain ⟨H2, t2', h4, _, h5⟩ := C70_infer plain_readable demo_sampleable.toSound demo_undoing h2 demo_bases k t2
  exact ⟨H', t', H2, t2', h1, h4, by rw [h5]; exact h3⟩

/-- C70_observe: `R(3) = 1` is accepted, and `S(3, 5) = 1` is not before that -/
example (t : Tape) : (∃ H' t', demo0.incorporate "R" [3] (.real 1) t = .ok (H', t')) ∧ ¬ ∃ H' t', demo0.incorporate "S" [3, 5] (.real 1) t = .ok (H', t') := by
  have h := demo_sampleable.toSound
  have hR : RelSpec.Takes (w := plain) (.clean (.normal : Prior) ["A"] true) (.real 1) := ⟨_, rfl⟩
  have hS : RelSpec.Takes (w := plain) (.noisy (.sometimesGaussian : EmisPrior) ["A", "D"] "R" true) (.real 1) := ⟨_, rfl⟩
  constructor
  · exact (C70_observe plain_readable h demo0_session (r := "R") rfl hR t).mpr ⟨rfl, rfl, fun b sp hb => by cases hb⟩
  · intro hx
    obtain ⟨_, _, h3⟩ := (C70_observe plain_readable h demo0_session (r := "S") rfl hS t).mp hx
    obtain ⟨bv, hbv⟩ := h3 "R" _ rfl rfl
    cases hbv

/-- C70_move: `S` moves to cluster 7 -/
example (t : Tape) : ∃ H' t', demo0.setClusterAssignmentGibbs "S" 7 t = .ok (H', t') := by
  obtain ⟨_, H', t', h, _⟩ := C70_move plain_readable demo_sampleable.toSound demo0_session (r := "S") rfl 7 t
  exact ⟨H', t', h⟩

/-- C70_sample: new observations of `S` and `T` are sampled -/
example (n fuel : Nat) (t : Tape) : ∃ res, demo0.sampleAndIncorporate n fuel t = .ok res ∧ ∀ s t', res = some (s, t') → ((s.obs.find? "S").getD []).length = n := by
  obtain ⟨res, h1, h2⟩ := C70_sample plain_readable demo_sampleable demo0_session n fuel t
  exact ⟨res, h1, fun s t' he => (h2 s t' he).2.2 "S" _ rfl (demo_leaf (by decide))⟩

/-- C70_logp: two texts and a number -/
example : ∃ lp : ℝ, ∀ t, ∃ t', demo0.logp [("T", [5], .str "x"), ("R", [3], .real 1), ("T", [6], .str "")] t = .ok ((lp : WithBot ℝ), demo0, t') :=
  C70_logp plain_readable demo_sampleable.toSound demo0_session ⟨fun o ho => by
    simp only [List.mem_cons, List.not_mem_nil, or_false] at ho
    rcases ho with rfl | rfl | rfl
    · exact ⟨_, _, _, rfl, trivial, rfl, _, rfl, fun h => absurd h (by decide), by decide⟩
    · exact ⟨_, _, _, rfl, trivial, rfl, _, rfl⟩
    · exact ⟨_, _, _, rfl, trivial, rfl, _, rfl, fun h => absurd h (by decide), by decide⟩, by decide⟩ (List.Perm.refl _)

/-! ### noise that cannot be undone -/

/-- a relation of texts and its version with typing errors -/
def typos : Schema (priors plain) :=
  ((∅ : Schema (priors plain)).set "T" (.clean (.bigram 0 : Prior) ["D"] true)).set "U" (.noisy (.bigram : EmisPrior) ["D", "E"] "T" true)

theorem typos_find {n : String} {spec : RelSpec (priors plain)} (h : typos.find? n = some spec) :
    (n = "T" ∧ spec = .clean (.bigram 0 : Prior) ["D"] true) ∨ (n = "U" ∧ spec = .noisy (.bigram : EmisPrior) ["D", "E"] "T" true) := by
  unfold typos at h
  simp only [FMap.find?_set] at h
  split at h
  · cases h; exact .inr ⟨by assumption, rfl⟩
  · split at h
    · cases h; exact .inl ⟨by assumption, rfl⟩
    · cases h

theorem typos_sampleable : Sampleable typos where
  arity n spec b sp h1 h2 h3 := by
    rcases typos_find h1 with ⟨rfl, rfl⟩ | ⟨rfl, rfl⟩ <;> cases h2
    cases h3; decide
  takes n e ds b o sp h1 h2 v hv := by
    rcases typos_find h1 with ⟨rfl, h⟩ | ⟨rfl, h⟩ <;> cases h
    cases h2
    obtain ⟨s, rfl, hs⟩ := hv
    exact ⟨s, rfl, hs.2⟩
  bases n c ds o m spec h1 _ _ := by
    rcases typos_find h1 with ⟨rfl, h⟩ | ⟨rfl, h⟩ <;> cases h
    exact le_rfl
  all n c ds o h1 := by
    rcases typos_find h1 with ⟨rfl, h⟩ | ⟨rfl, h⟩ <;> cases h
    exact le_rfl

/-- C70_observe, C70_move, C70_inferred: with typing errors too, observations are accepted, relations move, and inference keeps the observations -/
example (t1 t2 t3 : Tape) : ∃ H0 H1 H2 H3 t1' t2' t3', HIRM.mk' typos [] = .ok (H0, []) ∧ H0.incorporate "T" [4] (.str "rain") t1 = .ok (H1, t1') ∧
    H1.incorporate "U" [4, 9] (.str "rein") t2 = .ok (H2, t2') ∧ H2.transitionRelation "U" t3 = .ok (H3, t3') ∧
    ∀ k t t' H, H3.inference k t = .ok (H, t') → H.value "U" [4, 9] = some (.str "rein") := by
  have hs := typos_sampleable.toSound
  have hT : RelSpec.Takes (w := plain) (.clean (.bigram 0 : Prior) ["D"] true) (.str "rain") := ⟨_, rfl, fun h => absurd h (by decide), by decide⟩
  have hU : RelSpec.Takes (w := plain) (.noisy (.bigram : EmisPrior) ["D", "E"] "T" true) (.str "rein") := ⟨_, rfl, by decide⟩
  have s0 : Session plain typos (got {} (HIRM.mk' typos [])) := .new (t := []) (t' := []) rfl
  obtain ⟨H1, t1', h1⟩ := (C70_observe plain_readable hs s0 (r := "T") (k := [4]) rfl hT t1).mpr ⟨rfl, rfl, fun b sp hb => by cases hb⟩
  obtain ⟨s1, v1⟩ := C70_observed plain_readable hs s0 rfl hT h1
  obtain ⟨H2, t2', h2⟩ := (C70_observe plain_readable hs s1 (r := "U") (k := [4, 9]) rfl hU t2).mpr ⟨rfl, by rw [v1]; rfl, fun b sp hb hsp => by
    cases hb; cases hsp
    exact ⟨_, v1 _ _⟩⟩
  obtain ⟨s2, v2⟩ := C70_observed plain_readable hs s1 rfl hU h2
  obtain ⟨⟨H3, t3', h3, s3, h4⟩, _⟩ := C70_move plain_readable hs s2 (r := "U") rfl 0 t3
  have hb : BasesObserved typos := by
    intro n spec b sp h1 h2 h3
    rcases typos_find h1 with ⟨rfl, rfl⟩ | ⟨rfl, rfl⟩ <;> cases h2
    cases h3; rfl
  exact ⟨_, H1, H2, H3, t1', t2', t3', rfl, h1, h2, h3, fun k t t' H hc => by
    rw [(C70_inferred plain_readable hs s3 hb hc).2, h4, v2]
    rfl⟩

/-- a relation of categories and its noisy version with `sometimes_categorical` noise -/
def s2 : Schema (priors plain) := ((∅ : Schema (priors plain)).set "R" (.clean (.categorical 2 : Prior) ["A"] false)).set "S" (.noisy (.sometimesCategorical 2 : EmisPrior) ["A", "D"] "R" true)

def gotI {F : Family Value} (x : Res (IRM F)) : IRM F :=
  match x with
  | .ok I => I
  | .error _ => {}
def gotT {F : Family Value} (x : Res (IRM F × Tape)) : IRM F :=
  match x with
  | .ok (I, _) => I
  | .error _ => {}
def i0 := gotI (IRM.mk' s2)
def i1 := gotT (i0.incorporate i0.env "R" [0] (.int 0) [])
def i2 := gotT (i1.incorporate i1.env "S" [0, 0] (.int 0) [])

theorem stay_score {n c : ℝ} (hn : 0 ≤ n) (hc : 0 ≤ c) : (Sometimes (CategoricalEmission 2) true).score (stay n c) = - Real.log (n + 1) - Real.log (1 + c) := by
  simp only [Sometimes, stay, CategoricalEmission, CategoricalEmission.logpScore, BetaBernoulli.logpScore, lbeta]
  have g1 : lgamma 1 = 0 := by simp [lgamma]
  have g2 : lgamma 2 = 0 := by simp [lgamma]
  simp
  norm_num [g1, g2]
  have g3 : lgamma (1 + (n + 1)) = Real.log (n + 1) + lgamma (n + 1) := by
    rw [show 1 + (n + 1) = (n + 1) + 1 by ring]; exact lgamma_add_one (by linarith)
  have g4 : lgamma (2 + c) = Real.log (1 + c) + lgamma (1 + c) := by
    rw [show 2 + c = (1 + c) + 1 by ring]; exact lgamma_add_one (by linarith)
  have e1 : ({ N := c, counts := [c, 0] } : DirichletCategorical).logpScore = - Real.log (1 + c) := by
    norm_num [DirichletCategorical.logpScore, g1, g2]
    rw [g4, add_comm c 1]; ring
  have e2 : ({ counts := [0, 0] } : DirichletCategorical).logpScore = 0 := by
    norm_num [DirichletCategorical.logpScore, g1, g2]
  rw [g3, e1, e2]; ring

abbrev catOps := (EmisPrior.ops plain (.sometimesCategorical 2)).toDistOps
abbrev pr : Value × Value := (.int 0, .int 0)

theorem cat_inc (s : catOps.S) : catOps.inc s pr = (Sometimes (CategoricalEmission 2) true).incW s (0, 0) 1 := rfl
theorem cat_dec (s : catOps.S) : catOps.dec s pr = (Sometimes (CategoricalEmission 2) true).incW s (0, 0) (-1) := rfl
theorem cat_fresh (t : Tape) : (catOps.fresh t).1 = stay 0 0 := rfl


theorem stay_one : (Sometimes (CategoricalEmission 2) true).incW (stay 0 0) (0, 0) 1 = .ok (stay 1 (1 / 4)) := by
  have := stay_step (n := 0) (c := 0) (w := 1) (p := 1 / 4) le_rfl le_rfl (.inl rfl) (by norm_num)
  rw [this]; norm_num


theorem CleanRel.exactCurrent_differs {V : Type} {D : DistOps V} {σ : Doms} {r : CleanRel D} {k z : Items} {c0 c1 c2 : D.S} {x : V}
    (hz : CleanRel.clusterOf σ r k = .ok z) (hc : r.clusters.find? z = some c0) (hd : r.data.find? k = some x) (h1 : D.dec c0 x = .ok c1)
    (h2 : D.inc c1 x = .ok c2) (h3 : CleanRel.scoresAgree (D.score c2) (D.score c0) = false) : CleanRel.exactCurrent σ r [k] = .error .assert := by
  unfold CleanRel.exactCurrent
  simp only [List.isEmpty_cons, Bool.not_false, assertR, bind, Except.bind, idxR, List.getElem?_cons_zero, hz, FMap.atKey_of_find hc,
    CleanRel.decItems, CleanRel.incItems, FMap.atKey_of_find hd, h1, h2, h3, if_true]
  rfl

/-- in a cluster with the one pair (0, 0), removing and adding the pair changes the score -/
theorem stay_back : (Sometimes (CategoricalEmission 2) true).incW (stay 1 (1 / 4)) (0, 0) (-1) = .ok (stay 0 (7 / 108)) := by
  rw [stay_step (n := 1) (c := 1 / 4) (p := 5 / 27) (by norm_num) (by norm_num) (.inr rfl) (by norm_num)]
  norm_num
theorem stay_again : (Sometimes (CategoricalEmission 2) true).incW (stay 0 (7 / 108)) (0, 0) 1 = .ok (stay 1 (7 / 108 + 115 / 446)) := by
  rw [stay_step (n := 0) (c := 7 / 108) (p := 115 / 446) (by norm_num) (by norm_num) (.inl rfl) (by norm_num)]
  norm_num
theorem stay_differs : CleanRel.scoresAgree ((Sometimes (CategoricalEmission 2) true).score (stay 1 (7 / 108 + 115 / 446)))
    ((Sometimes (CategoricalEmission 2) true).score (stay 1 (1 / 4))) = false := by
  rw [stay_score (by norm_num) (by norm_num), stay_score (by norm_num) (by norm_num)]
  unfold CleanRel.scoresAgree
  rw [decide_eq_false_iff_not, not_le]
  have l2 : 1 - ((1 + (7 / 108 + 115 / 446)) / (1 + 1 / 4) : ℝ)⁻¹ ≤ Real.log ((1 + (7 / 108 + 115 / 446)) / (1 + 1 / 4)) :=
    Real.one_sub_inv_le_log_of_pos (by norm_num)
  rw [Real.log_div (by norm_num) (by norm_num)] at l2
  have l3 : Real.log (1 + 1) ≤ 1 + 1 - 1 := Real.log_le_sub_one_of_pos (by norm_num)
  have l4 : Real.log (1 + 1 / 4) ≤ 1 + 1 / 4 - 1 := Real.log_le_sub_one_of_pos (by norm_num)
  have l5 : 0 ≤ Real.log (1 + 1 : ℝ) := Real.log_nonneg (by norm_num)
  have l6 : 0 ≤ Real.log (1 + 1 / 4 : ℝ) := Real.log_nonneg (by norm_num)
  norm_num at l2 l3 l4 l5 l6 ⊢
  rw [abs_of_nonpos (by linarith), abs_of_nonpos (by linarith)]
  linarith

theorem scoreItem_fails {F : Family Value} {d : String} {item : Int} {tables : List Int} {n : String} {id : Nat} {q : Rel F} (hq : q.hasObservation d item = .ok true) :
    ∀ (l : List String) (I : IRM F) (lps : List ℝ) (t : Tape), n ∈ l → I.rels.find? n = some (id, q) →
      (∀ t x, q.logpGibbsExact I.doms d item tables t ≠ .ok x) → ∀ x, IRM.scoreItem d item tables l I lps t ≠ .ok x := by
  intro l
  induction l with
  | nil => intro I lps t hm; cases hm
  | cons r l ih =>
    intro I lps t hm hf hx x hc
    obtain ⟨⟨id', rel⟩, h1, h2⟩ := bind_ok.mp hc
    have h1 := FMap.atKey_ok.mp h1
    by_cases hr : n = r
    · subst hr
      rw [hf] at h1; cases h1
      obtain ⟨y, h3, h2⟩ := bind_ok.mp h2
      rw [hq] at h3
      cases h3
      obtain ⟨y, h3, h2⟩ := bind_ok.mp h2
      exact hx _ _ h3
    · have hm : n ∈ l := by
        rcases List.mem_cons.mp hm with h | h
        · exact absurd h hr
        · exact h
      obtain ⟨b, h3, h2⟩ := bind_ok.mp h2
      split at h2
      · obtain ⟨y, h3, h2⟩ := bind_ok.mp h2
        obtain ⟨_, h4, h2⟩ := bind_ok.mp h2
        obtain ⟨_, h5, h2⟩ := bind_ok.mp h2
        exact ih { I with rels := I.rels.set r (id', y.2.1) } _ _ hm (by rw [FMap.find?_set, if_neg hr]; exact hf) hx _ h2
      · exact ih _ _ _ hm hf hx _ h2


theorem shuffle_one {α : Type} (a : α) (t : Tape) : (shuffle [a] t).1 = [a] :=
  List.perm_singleton.mp (shuffle_perm _ _)

/-- the emission clusters of `S` -/
theorem logpGibbsExact_one {V : Type} {D : DistOps V} {σ : Doms} {r : CleanRel D} {d : String} {item : Int} {k z : Items} {dom : Domain} {tb : Int} {s : FSet Items}
    (hs : CleanRel.observationsOf r d item = .ok s) (hk : s.keys = [k]) (hz : CleanRel.clusterOf σ r k = .ok z) (hdom : σ.get d = .ok dom) (htb : dom.getClusterAssignment item = .ok tb)
    (he : CleanRel.exactCurrent σ r [k] = .error .assert) (t : Tape) : CleanRel.logpGibbsExact σ r d item [tb] t = .error .assert := by
  have h1 : CleanRel.clusterToItemsList σ r d item t = .ok ((∅ : FMap Items (List Items)).set z [k], (shuffle [k] t).2) := by
    unfold CleanRel.clusterToItemsList
    simp only [hs, hk, bind, Except.bind, shuffle_one, CleanRel.groupLoop, hz]
    rfl
  unfold CleanRel.logpGibbsExact
  have h2 : ((∅ : FMap Items (List Items)).set z [k]).vals = [[k]] := rfl
  simp only [h1, hdom, htb, bind, Except.bind, h2, shuffle_one, CleanRel.exactTables, CleanRel.exactTable, if_true, he]

def theS : Rel (priors plain) := ((i2.rels.find? "S").map Prod.snd).getD (.clean (.normal : Prior) {doms := []})

def emi : CleanRel catOps :=
  match theS with
  | .noisy (.sometimesCategorical 2) _ r => r.emission
  | _ => {doms := []}
theorem find_S : i2.rels.find? "S" = some (1, theS) := rfl

theorem theS_eq : ∃ p ds da b, theS = .noisy (.sometimesCategorical 2 : EmisPrior) p { doms := ds, data := da, baseToNoisy := b, emission := emi } := ⟨_, _, _, _, rfl⟩

def c0 : Sometimes.St (CategoricalEmission 2) := (emi.clusters.find? [0, 0]).getD (stay 5 5)
theorem emi_data : emi.data.find? [0, 0] = some pr := rfl
theorem emi_cluster : emi.clusters.find? [0, 0] = some c0 := rfl
theorem c0_inc : (Sometimes (CategoricalEmission 2) true).incW (stay 0 0) (0, 0) 1 = .ok c0 := rfl
theorem c0_eq : c0 = stay 1 (1 / 4) := by
  have := c0_inc
  rw [stay_one] at this
  exact (Except.ok.inj this).symm
theorem emi_of : CleanRel.clusterOf i2.doms emi [0, 0] = .ok [0, 0] := rfl

theorem emi_current : CleanRel.exactCurrent i2.doms emi [[0, 0]] = .error .assert :=
  CleanRel.exactCurrent_differs (c0 := c0) emi_of emi_cluster emi_data (c1 := stay 0 (7 / 108)) (c2 := stay 1 (7 / 108 + 115 / 446))
    (by rw [c0_eq]; exact stay_back) stay_again (by rw [c0_eq]; exact stay_differs)

def set00 (d : String) : FSet Items := match CleanRel.observationsOf emi d 0 with | .ok s => s | .error _ => ∅
def domOf (d : String) : Domain := match i2.doms.get d with | .ok s => s | .error _ => { name := d }

theorem emi_exact (d : String) (hd : d = "A" ∨ d = "D") (t : Tape) : CleanRel.logpGibbsExact i2.doms emi d 0 [0] t = .error .assert := by
  rcases hd with rfl | rfl
  · exact logpGibbsExact_one (s := set00 "A") (dom := domOf "A") rfl rfl emi_of rfl rfl emi_current t
  · exact logpGibbsExact_one (s := set00 "D") (dom := domOf "D") rfl rfl emi_of rfl rfl emi_current t

theorem theS_exact (d : String) (hd : d = "A" ∨ d = "D") (t : Tape) (x) : theS.logpGibbsExact i2.doms d 0 [0] t ≠ .ok x := by
  intro h
  obtain ⟨p, ds, da, b, he⟩ := theS_eq
  rw [he] at h
  obtain ⟨y, h1, h2⟩ := bind_ok.mp h
  obtain ⟨y, h1, h3⟩ := bind_ok.mp h1
  have := emi_exact d hd t
  dsimp only at h1
  change CleanRel.logpGibbsExact i2.doms emi d 0 [0] t = _ at h1
  rw [this] at h1
  cases h1

theorem i2_item (d : String) (hd : d = "A" ∨ d = "D") (t : Tape) (x) : i2.transitionItem d 0 t ≠ .ok x := by
  intro h
  obtain ⟨y, h1, h2⟩ := bind_ok.mp h
  obtain ⟨dom, h3, h1⟩ := bind_ok.mp h1
  obtain ⟨w, h4, h1⟩ := bind_ok.mp h1
  obtain ⟨names, h6, h1⟩ := bind_ok.mp h1
  obtain ⟨y, h5, h1⟩ := bind_ok.mp h1
  have key : ∀ d, d = "A" ∨ d = "D" → (domOf d).tablesWeightsGibbs 0 = .ok ((∅ : FMap Int ℝ).set 0 1) := by
    have one : ((1 : Nat) : ℝ) - 1 = 0 := by norm_num
    rintro d (rfl | rfl)
    · show (if ((1 : Nat) : ℝ) - 1 = 0 then _ else _) = _
      rw [if_pos one]; rfl
    · show (if ((1 : Nat) : ℝ) - 1 = 0 then _ else _) = _
      rw [if_pos one]; rfl
  have hk := key d hd
  rcases hd with rfl | rfl
  · have e3 : i2.doms.atKey "A" = .ok (domOf "A") := rfl
    rw [e3] at h3; cases h3
    rw [hk] at h4; cases h4
    cases h6
    exact scoreItem_fails (n := "S") (id := 1) (q := theS) rfl _ _ _ _ ((shuffle_perm _ _).mem_iff.mpr (by decide)) find_S (theS_exact "A" (.inl rfl)) _ h5
  · have e3 : i2.doms.atKey "D" = .ok (domOf "D") := rfl
    rw [e3] at h3; cases h3
    rw [hk] at h4; cases h4
    cases h6
    exact scoreItem_fails (n := "S") (id := 1) (q := theS) rfl _ _ _ _ ((shuffle_perm _ _).mem_iff.mpr (by decide)) find_S (theS_exact "D" (.inr rfl)) _ h5

theorem i2_items {d : String} (hd : d = "A" ∨ d = "D") (t : Tape) (x) : IRM.transitionItems d (shuffle (domOf d).items.keys t).1 i2 (shuffle (domOf d).items.keys t).2 ≠ .ok x := by
  have hk : (domOf d).items.keys = [0] := by rcases hd with rfl | rfl <;> rfl
  rw [hk, shuffle_one]
  intro h
  obtain ⟨y, h1, _⟩ := bind_ok.mp h
  exact i2_item d hd _ _ h1

end C70

open C70 in
/-- C70 is false for `sometimes_categorical` noise: there is a model of two observations, for a schema that is sound but for that noise, on
which inference aborts, whatever is drawn: the score of a cluster is not restored. -/
theorem C70_sometimes_categorical_false : ∃ I0 I1 I2 : IRM (priors plain), IRM.mk' s2 = .ok I0 ∧ I0.incorporate I0.env "R" [0] (.int 0) [] = .ok (I1, []) ∧
    I1.incorporate I1.env "S" [0, 0] (.int 0) [] = .ok (I2, []) ∧ ∀ n t x, I2.singleStep n false t ≠ .ok x := by
  refine ⟨i0, i1, i2, rfl, rfl, rfl, fun n t x h => ?_⟩
  obtain ⟨y, h0, h⟩ := bind_ok.mp h
  cases h0
  obtain ⟨y, h0, h⟩ := bind_ok.mp h
  have hk : i2.doms.keys = ["A", "D"] := rfl
  have hp := shuffle_perm i2.doms.keys t
  unfold IRM.transitionAll at h0
  generalize hs : shuffle i2.doms.keys t = p at h0 hp
  obtain ⟨ds, u⟩ := p
  dsimp only at h0 hp
  rw [hk] at hp
  cases ds with
  | nil => exact absurd hp.length_eq (by decide)
  | cons d ds =>
    have hd : d = "A" ∨ d = "D" := by simpa using hp.mem_iff.mp (List.mem_cons_self)
    obtain ⟨dom, h1, h2⟩ := bind_ok.mp h0
    have e : i2.doms.atKey d = .ok (domOf d) := by rcases hd with rfl | rfl <;> rfl
    rw [e] at h1; cases h1
    obtain ⟨z, h3, _⟩ := bind_ok.mp h2
    exact i2_items hd _ _ h3

end
end Verif
