import Verif.Spec.Incorporate
import Verif.Lemmas.UtilIO
import Verif.Lemmas.Sampling
/-! Helper lemmas about `incorporate_observations`, for any host that keeps the contract `Hosted`. -/
namespace Verif
open Spec
variable {V : Type} {F : Family V} {M : Type}

namespace UtilIO

/-- the base relation has a value for the first items of the tuple -/
def Ready (schema : Schema F) (val : String → Items → Option V) (spec : RelSpec F) (k : Items) : Prop :=
  ∀ b, spec.base? = some b → ∃ sp bv, schema.find? b = some sp ∧ val b (k.take sp.doms.length) = some bv

/-- the value is in the support of the relation, given the value of the base relation -/
def InSupport (L : FamilyLaws F) (schema : Schema F) (val : String → Items → Option V) (k : Items) (v : V) : RelSpec F → Prop
  | .clean c _ _ => L.suppC c v
  | .noisy e _ b _ => ∀ sp bv, schema.find? b = some sp → val b (k.take sp.doms.length) = some bv → L.suppE e (bv, v)

/-- what `incorporate_observations` needs to know about its host; `R` are the states of the host -/
structure Hosted (X : Host F M) (value : M → String → Items → Option V) (L : FamilyLaws F) (R : M → Prop) : Prop where
  get : ∀ {m r spec}, R m → (X.schema m).find? r = some spec → ∃ rel, X.get m r = .ok rel ∧ rel.tag = spec.kind ∧
    (∀ k, rel.data.find? k = value m r k) ∧ ∀ b, spec.base? = some b → ∃ sp view, (X.schema m).find? b = some sp ∧
      IRM.baseOf (X.env m) rel = some view ∧ view.arity = sp.doms.length ∧ sp.doms.length ≤ spec.doms.length
  known : ∀ {m r rel}, R m → X.get m r = .ok rel → ∃ spec, (X.schema m).find? r = some spec
  links : ∀ {m}, R m → ∀ b n, n ∈ ((X.baseToNoisy m).find? b).getD [] ↔ ∃ spec, (X.schema m).find? n = some spec ∧ spec.base? = some b
  listed : ∀ {m}, R m → ∀ b, (X.baseToNoisy m).find? b ≠ some []
  grounded : ∀ {m}, R m → ∀ n, (X.schema m).contains n = true → Grounded (X.schema m) n
  vals : ∀ {m r spec k v}, R m → (X.schema m).find? r = some spec → value m r k = some v → spec.Value L v
  inc : ∀ {m r spec k v}, R m → (X.schema m).find? r = some spec → k.length = spec.doms.length → value m r k = none →
    Ready (X.schema m) (value m) spec k → InSupport L (X.schema m) (value m) k v spec → ∀ t, ∃ m' t', X.incorporate m r k v t = .ok (m', t') ∧
      R m' ∧ X.schema m' = X.schema m ∧ X.baseToNoisy m' = X.baseToNoisy m ∧ ∀ n k', value m' n k' = if n = r ∧ k' = k then some v else value m n k'
  inc_pre : ∀ {m r k v t x}, R m → (∀ spec, (X.schema m).find? r = some spec → InSupport L (X.schema m) (value m) k v spec) →
    X.incorporate m r k v t = .ok x →
    ∃ spec, (X.schema m).find? r = some spec ∧ k.length = spec.doms.length ∧ value m r k = none ∧ Ready (X.schema m) (value m) spec k
  sample : ∀ {m r spec k}, R m → (X.schema m).find? r = some spec → (∃ n spec', (X.schema m).find? n = some spec' ∧ spec'.base? = some r) →
    k.length = spec.doms.length → Ready (X.schema m) (value m) spec k → ∀ t, ∃ v t', X.sampleAt m r k t = .ok (v, m, t') ∧ InSupport L (X.schema m) (value m) k v spec
  sample_pre : ∀ {m r k t x}, R m → X.sampleAt m r k t = .ok x →
    ∃ spec, (X.schema m).find? r = some spec ∧ k.length = spec.doms.length ∧ Ready (X.schema m) (value m) spec k

variable {X : Host F M} {value : M → String → Items → Option V} {L : FamilyLaws F} {R : M → Prop}

/-- the same schema, and old values are kept -/
structure Grown (X : Host F M) (value : M → String → Items → Option V) (R : M → Prop) (m m' : M) : Prop where
  inv : R m'
  schema : X.schema m' = X.schema m
  links : X.baseToNoisy m' = X.baseToNoisy m
  kept : ∀ n k v, value m n k = some v → value m' n k = some v

theorem Grown.refl {m : M} (h : R m) : Grown X value R m m := ⟨h, rfl, rfl, fun _ _ _ h => h⟩

theorem Grown.trans {m m1 m2 : M} (h : Grown X value R m m1) (h' : Grown X value R m1 m2) : Grown X value R m m2 :=
  ⟨h'.inv, h'.schema.trans h.schema, h'.links.trans h.links, fun n k v hv => h'.kept n k v (h.kept n k v hv)⟩

theorem Takes.support (hX : Hosted X value L R) {m : M} (hm : R m) {v : V} {spec : RelSpec F} (h : Takes L (X.schema m) v spec) (k : Items) :
    InSupport L (X.schema m) (value m) k v spec := by
  cases spec with
  | clean c ds o => exact h
  | noisy e ds b o => exact fun sp bv h1 h2 => h sp bv h1 (hX.vals hm h1 h2)

/-! ### the observations of a relation -/

/-- the parsed observations of a relation -/
def Parsed (parse : F.C ⊕ F.E → String → Res V) (kind : F.C ⊕ F.E) (o : Items × String) (p : Items × V) : Prop :=
  o.1 = p.1 ∧ parse kind o.2 = .ok p.2

theorem feed_ok (hX : Hosted X value L R) {parse : F.C ⊕ F.E → String → Res V} {r : String} {kind : F.C ⊕ F.E} :
    ∀ {l : List (Items × String)} {m : M} {t : Tape} {x : M × Tape}, R m →
      (∀ spec o v, (X.schema m).find? r = some spec → o ∈ l → parse kind o.2 = .ok v → Takes L (X.schema m) v spec) →
      feed X parse r kind l m t = .ok x →
    Grown X value R m x.1 ∧ ∃ ps : List (Items × V), List.Forall₂ (Parsed parse kind) l ps ∧ (ps.map Prod.fst).Nodup ∧
      (∀ p ∈ ps, value m r p.1 = none ∧ value x.1 r p.1 = some p.2) ∧
      ∀ n k v, value m n k = none → value x.1 n k = some v → n = r ∧ (k, v) ∈ ps := by
  intro l
  induction l with
  | nil =>
    intro m t x hm _ h
    cases h
    exact ⟨.refl hm, [], .nil, by simp, by simp, fun n k v h1 h2 => by rw [h1] at h2; cases h2⟩
  | cons o l ih =>
    obtain ⟨items, s⟩ := o
    intro m t x hm hT h
    obtain ⟨v, h1, h⟩ := bind_ok.mp h
    obtain ⟨⟨m1, t1⟩, h2, h⟩ := bind_ok.mp h
    have h : feed X parse r kind l m1 t1 = .ok x := h
    have hsup : ∀ spec, (X.schema m).find? r = some spec → InSupport L (X.schema m) (value m) items v spec :=
      fun spec hs => (hT spec (items, s) v hs (by simp) h1).support hX hm items
    obtain ⟨spec, g1, g2, g3, g4⟩ := hX.inc_pre hm hsup h2
    obtain ⟨m', t', a1, a2, a3, a4, a5⟩ := hX.inc hm g1 g2 g3 g4 (hsup spec g1) t
    rw [h2] at a1
    cases a1
    have hgr : Grown X value R m m1 := ⟨a2, a3, a4, fun n k w hw => by
      rw [a5]
      split
      · rename_i he; rw [he.1, he.2, g3] at hw; cases hw
      · exact hw⟩
    obtain ⟨b1, ps, b2, b3, b4, b5⟩ := ih a2 (by rw [a3]; exact fun spec o w hs ho hp => hT spec o w hs (by simp [ho]) hp) h
    have hin : value m1 r items = some v := by rw [a5, if_pos ⟨rfl, rfl⟩]
    have hne : ∀ p ∈ ps, p.1 ≠ items := by
      intro p hp he
      rw [← he, (b4 p hp).1] at hin
      cases hin
    refine ⟨hgr.trans b1, (items, v) :: ps, .cons ⟨rfl, h1⟩ b2, ?_, ?_, ?_⟩
    · simp only [List.map_cons, List.nodup_cons]
      refine ⟨fun hmem => ?_, b3⟩
      obtain ⟨p, hp, he⟩ := List.mem_map.mp hmem
      exact hne p hp he
    · intro p hp
      rcases List.mem_cons.mp hp with rfl | hp
      · exact ⟨g3, b1.kept _ _ _ hin⟩
      · refine ⟨?_, (b4 p hp).2⟩
        have := (b4 p hp).1
        rw [a5, if_neg (fun he => hne p hp he.2)] at this
        exact this
    · intro n k w hw1 hw2
      cases hc : value m1 n k with
      | some u =>
        rw [b1.kept _ _ _ hc] at hw2
        cases hw2
        rw [a5] at hc
        split at hc
        · rename_i he
          cases hc
          exact ⟨he.1, by rw [he.2]; simp⟩
        · rw [hw1] at hc; cases hc
      | none =>
        obtain ⟨h3, h4⟩ := b5 n k w hc hw2
        exact ⟨h3, by simp [h4]⟩

theorem feed_ex (hX : Hosted X value L R) {parse : F.C ⊕ F.E → String → Res V} {r : String} {kind : F.C ⊕ F.E} {spec : RelSpec F} :
    ∀ (l : List (Items × String)) (m : M) (t : Tape), R m → (X.schema m).find? r = some spec →
      (∀ o ∈ l, ∃ v, parse kind o.2 = .ok v ∧ Takes L (X.schema m) v spec) → (l.map Prod.fst).Nodup →
      (∀ o ∈ l, o.1.length = spec.doms.length ∧ value m r o.1 = none ∧ Ready (X.schema m) (value m) spec o.1) →
      ∃ x, feed X parse r kind l m t = .ok x := by
  intro l
  induction l with
  | nil => intro m t _ _ _ _ _; exact ⟨_, rfl⟩
  | cons o l ih =>
    obtain ⟨items, s⟩ := o
    intro m t hm hs hp hnd hl
    obtain ⟨v, h1, h2⟩ := hp (items, s) (by simp)
    obtain ⟨g1, g2, g3⟩ := hl (items, s) (by simp)
    obtain ⟨m', t', a1, a2, a3, a4, a5⟩ := hX.inc hm hs g1 g2 g3 (h2.support hX hm items) t
    simp only [List.map_cons, List.nodup_cons] at hnd
    obtain ⟨x, hx⟩ := ih m' t' a2 (by rw [a3]; exact hs) (by rw [a3]; exact fun o ho => hp o (by simp [ho])) hnd.2 (by
      intro o ho
      obtain ⟨b1, b2, b3⟩ := hl o (by simp [ho])
      refine ⟨b1, ?_, ?_⟩
      · rw [a5, if_neg]
        · exact b2
        · rintro ⟨_, he⟩
          exact hnd.1 (List.mem_map.mpr ⟨o, ho, he⟩)
      · intro b hb
        obtain ⟨sp, bv, c1, c2⟩ := b3 b hb
        refine ⟨sp, ?_⟩
        rw [a3, a5]
        split
        · exact ⟨_, c1, rfl⟩
        · exact ⟨bv, c1, c2⟩)
    refine ⟨x, ?_⟩
    rw [feed, h1]
    simp only [bind, Except.bind]
    dsimp only at a1
    rw [a1]
    exact hx

/-! ### sampled values -/

/-- the relation is the base of another one -/
def IsBase (schema : Schema F) (r : String) : Prop := ∃ n spec, schema.find? n = some spec ∧ spec.base? = some r

theorem sampleMissing_ok (hX : Hosted X value L R) {r : String} : ∀ {l : List Items} {m : M} {t : Tape} {x : M × Tape}, R m →
      (l ≠ [] → IsBase (X.schema m) r) → sampleMissing X r l m t = .ok x →
    Grown X value R m x.1 ∧ (∀ k ∈ l, ∃ v, value x.1 r k = some v) ∧ ∀ n k v, value m n k = none → value x.1 n k = some v → n = r ∧ k ∈ l := by
  intro l
  induction l with
  | nil =>
    intro m t x hm _ h
    cases h
    exact ⟨.refl hm, by simp, fun n k v h1 h2 => by rw [h1] at h2; cases h2⟩
  | cons items l ih =>
    intro m t x hm hib h
    have hib := hib (by simp)
    obtain ⟨⟨v, m1, t1⟩, h1, h⟩ := bind_ok.mp h
    obtain ⟨spec, g1, g2, g3⟩ := hX.sample_pre hm h1
    obtain ⟨v', t', g4, g5⟩ := hX.sample hm g1 hib g2 g3 t
    rw [h1] at g4
    cases g4
    obtain ⟨rel, h2, h⟩ := bind_ok.mp h
    obtain ⟨rel', h3, _, h4, _⟩ := hX.get hm g1
    have h2 : X.get m r = .ok rel := h2
    rw [h2] at h3
    cases h3
    by_cases hc : rel.data.contains items = true
    · have h : sampleMissing X r l m t1 = .ok x := by simpa [hc] using h
      obtain ⟨w, hw⟩ := FMap.contains_iff.mp hc
      rw [h4] at hw
      obtain ⟨b1, b2, b3⟩ := ih hm (fun _ => hib) h
      refine ⟨b1, ?_, fun n k u hu1 hu2 => ?_⟩
      · intro k hk
        rcases List.mem_cons.mp hk with rfl | hk
        · exact ⟨w, b1.kept _ _ _ hw⟩
        · exact b2 k hk
      · obtain ⟨c1, c2⟩ := b3 n k u hu1 hu2
        exact ⟨c1, by simp [c2]⟩
    · have hc : rel.data.contains items = false := by simpa using hc
      have hnone : value m r items = none := by rw [← h4]; exact FMap.contains_false.mp hc
      rw [if_neg (by simp [hc])] at h
      obtain ⟨⟨m2, t2⟩, h5, h⟩ := bind_ok.mp h
      have h5 : X.incorporate m r items v t1 = .ok (m2, t2) := h5
      have h : sampleMissing X r l m2 t2 = .ok x := h
      obtain ⟨m', t', a1, a2, a3, a4, a5⟩ := hX.inc hm g1 g2 hnone g3 g5 t1
      rw [h5] at a1
      cases a1
      have hgr : Grown X value R m m2 := ⟨a2, a3, a4, fun n k w hw => by
        rw [a5]
        split
        · rename_i he; rw [he.1, he.2, hnone] at hw; cases hw
        · exact hw⟩
      obtain ⟨b1, b2, b3⟩ := ih a2 (fun _ => by rw [a3]; exact hib) h
      refine ⟨hgr.trans b1, ?_, fun n k u hu1 hu2 => ?_⟩
      · intro k hk
        rcases List.mem_cons.mp hk with rfl | hk
        · exact ⟨v, b1.kept _ _ _ (by rw [a5, if_pos ⟨rfl, rfl⟩])⟩
        · exact b2 k hk
      · by_cases he : n = r ∧ k = items
        · exact ⟨he.1, by simp [he.2]⟩
        · obtain ⟨c1, c2⟩ := b3 n k u (by rw [a5, if_neg he]; exact hu1) hu2
          exact ⟨c1, by simp [c2]⟩

theorem sampleMissing_ex (hX : Hosted X value L R) {r : String} {spec : RelSpec F} : ∀ (l : List Items) (m : M) (t : Tape), R m →
      (X.schema m).find? r = some spec → (l ≠ [] → IsBase (X.schema m) r) →
      (∀ k ∈ l, k.length = spec.doms.length ∧ Ready (X.schema m) (value m) spec k) → ∃ x, sampleMissing X r l m t = .ok x := by
  intro l
  induction l with
  | nil => intro m t _ _ _ _; exact ⟨_, rfl⟩
  | cons items l ih =>
    intro m t hm hs hib hl
    have hib := hib (by simp)
    obtain ⟨g2, g3⟩ := hl items (by simp)
    obtain ⟨v, t1, g4, g5⟩ := hX.sample hm hs hib g2 g3 t
    obtain ⟨rel, h3, _, h4, _⟩ := hX.get hm hs
    by_cases hc : rel.data.contains items = true
    · obtain ⟨x, hx⟩ := ih m t1 hm hs (fun _ => hib) (fun k hk => hl k (by simp [hk]))
      refine ⟨x, ?_⟩
      simp only [sampleMissing, g4, bind, Except.bind, h3, hc, if_true, hx]
    · have hc : rel.data.contains items = false := by simpa using hc
      have hnone : value m r items = none := by rw [← h4]; exact FMap.contains_false.mp hc
      obtain ⟨m', t', a1, a2, a3, a4, a5⟩ := hX.inc hm hs g2 hnone g3 g5 t1
      obtain ⟨x, hx⟩ := ih m' t' a2 (by rw [a3]; exact hs) (fun _ => by rw [a3]; exact hib) (by
        intro k hk
        obtain ⟨b1, b2⟩ := hl k (by simp [hk])
        refine ⟨b1, fun b hb => ?_⟩
        obtain ⟨sp, bv, c1, c2⟩ := b2 b hb
        refine ⟨sp, ?_⟩
        rw [a3, a5]
        split
        · exact ⟨_, c1, rfl⟩
        · exact ⟨bv, c1, c2⟩)
      refine ⟨x, ?_⟩
      simp only [sampleMissing, g4, bind, Except.bind, h3, hc, Bool.false_eq_true, if_false, a1, hx]

/-! ### one relation -/

/-- the items noted for a relation -/
def Noted (s : IncState M) (n : String) (k : Items) : Prop := ((s.items.find? n).getD ∅).contains k = true

theorem noted_atKey {s : IncState M} {n : String} {is : FSet Items} (h : s.items.atKey n = .ok is) (k : Items) : Noted s n k ↔ k ∈ is.keys := by
  rw [Noted, FMap.atKey_ok.mp h]
  exact FMap.contains_iff_mem

/-- items without a value are noted for the relation -/
def Lacks (value : M → String → Items → Option V) (s : IncState M) (n : String) : Prop := ∃ k, Noted s n k ∧ value s.m n k = none

/-- between `m` and `m'`, exactly the observations `l` of relation `n` have been stored -/
def Fed (value : M → String → Items → Option V) (parse : F.C ⊕ F.E → String → Res V) (kind : F.C ⊕ F.E) (m m' : M) (n : String)
    (l : List (Items × String)) : Prop :=
  ∃ ps : List (Items × V), List.Forall₂ (Parsed parse kind) l ps ∧ (ps.map Prod.fst).Nodup ∧
    (∀ p ∈ ps, value m n p.1 = none ∧ value m' n p.1 = some p.2) ∧ ∀ k v, value m n k = none → value m' n k = some v → (k, v) ∈ ps

/-- the relation has not changed, or it has been fed -/
def Step (value : M → String → Items → Option V) (parse : F.C ⊕ F.E → String → Res V) (kind : F.C ⊕ F.E) (m m' : M) (n : String)
    (l : List (Items × String)) : Prop :=
  (∀ k, value m' n k = value m n k) ∨ Fed value parse kind m m' n l

variable {parse : F.C ⊕ F.E → String → Res V} {kind : F.C ⊕ F.E}

theorem Fed.same {m m' : M} {n : String} (h : Fed value parse kind m m' n []) (hk : ∀ k v, value m n k = some v → value m' n k = some v) (k : Items) :
    value m' n k = value m n k := by
  obtain ⟨ps, h1, _, _, h4⟩ := h
  cases h1
  cases h : value m n k with
  | some v => exact hk k v h
  | none =>
    cases h' : value m' n k with
    | none => rfl
    | some v => simpa using h4 k v h h'

theorem Fed.left {m m1 m2 : M} {n : String} {l : List (Items × String)} (h : Fed value parse kind m m1 n l)
    (hk1 : ∀ k v, value m n k = some v → value m1 n k = some v)
    (hk2 : ∀ k v, value m1 n k = some v → value m2 n k = some v) (h' : Step value parse kind m1 m2 n l) : Fed value parse kind m m2 n l := by
  obtain ⟨ps, h1, h2, h3, h4⟩ := id h
  refine ⟨ps, h1, h2, fun p hp => ⟨(h3 p hp).1, hk2 _ _ (h3 p hp).2⟩, fun k v hv hv' => ?_⟩
  rcases h' with h' | h'
  · exact h4 k v hv (by rw [← h' k]; exact hv')
  · obtain ⟨ps', g1, g2, g3, g4⟩ := id h'
    cases l with
    | nil =>
      have a1 := h'.same hk2 k
      have a2 := h.same hk1 k
      rw [a1, a2, hv] at hv'
      cases hv'
    | cons o l =>
      cases h1 with
      | cons h1 h1' =>
        cases g1 with
        | cons g1 g1' =>
          rename_i p ps p' ps'
          have a1 := (h3 p (by simp)).2
          have a2 := (g3 p' (by simp)).1
          rw [← g1.1, h1.1, a1] at a2
          cases a2

theorem Fed.right {m m1 m2 : M} {n : String} {l : List (Items × String)} (h : Step value parse kind m m1 n l)
    (hk1 : ∀ k v, value m n k = some v → value m1 n k = some v)
    (hk2 : ∀ k v, value m1 n k = some v → value m2 n k = some v) (h' : Fed value parse kind m1 m2 n l) : Fed value parse kind m m2 n l := by
  rcases h with h | h
  · obtain ⟨ps, h1, h2, h3, h4⟩ := h'
    exact ⟨ps, h1, h2, fun p hp => ⟨by rw [← h]; exact (h3 p hp).1, (h3 p hp).2⟩, fun k v hv hv' => h4 k v (by rw [h]; exact hv) hv'⟩
  · exact h.left hk1 hk2 (.inr h')

theorem Step.trans {m m1 m2 : M} {n : String} {l : List (Items × String)} (h : Step value parse kind m m1 n l)
    (hk1 : ∀ k v, value m n k = some v → value m1 n k = some v)
    (hk2 : ∀ k v, value m1 n k = some v → value m2 n k = some v) (h' : Step value parse kind m1 m2 n l) : Step value parse kind m m2 n l := by
  rcases h with h | h
  · rcases h' with h' | h'
    · exact .inl fun k => (h' k).trans (h k)
    · exact .inr (Fed.right (.inl h) hk1 hk2 h')
  · exact .inr (h.left hk1 hk2 h')

/-- what `incorporate_observations_relation` does to the state -/
structure Went (X : Host F M) (value : M → String → Items → Option V) (R : M → Prop) (parse : F.C ⊕ F.E → String → Res V) (e : ObsMap Int)
    (n2b : FMap String String) (s s' : IncState M) : Prop where
  grown : Grown X value R s.m s'.m
  noted : ∀ n k, Noted s n k → Noted s' n k
  same : ∀ n, e.contains n = true → ∀ k, Noted s' n k → Noted s n k
  new : ∀ n k, Noted s' n k → Noted s n k ∨ ∃ n1 k', n2b.find? n1 = some n ∧ Noted s' n1 k' ∧ k <+: k'
  step : ∀ n spec l, (X.schema s.m).find? n = some spec → e.find? n = some l → Step value parse spec.kind s.m s'.m n l
  comp : ∀ n, s'.completed.contains n = true → s.completed.contains n = true ∨
    ¬ Lacks value s' n ∧ ∀ spec l, (X.schema s.m).find? n = some spec → e.find? n = some l → Fed value parse spec.kind s.m s'.m n l
  compl : ∀ n, s.completed.contains n = true → s'.completed.contains n = true
  unobs : ∀ n, e.find? n = none → ∀ k v, value s.m n k = none → value s'.m n k = some v → Noted s' n k

/-- the relation has all values that it needs -/
structure Done (X : Host F M) (value : M → String → Items → Option V) (parse : F.C ⊕ F.E → String → Res V) (e : ObsMap Int)
    (s s' : IncState M) (r : String) : Prop where
  lacks : ∀ n, Lacks value s' n → Lacks value s n ∧ n ≠ r
  own : ∀ spec l, (X.schema s.m).find? r = some spec → e.find? r = some l → Fed value parse spec.kind s.m s'.m r l
  seen : s'.completed.contains r = true

variable {e : ObsMap Int} {n2b : FMap String String}

theorem Went.refl {s : IncState M} (h : R s.m) : Went X value R parse e n2b s s :=
  ⟨.refl h, fun _ _ h => h, fun _ _ _ h => h, fun _ _ h => .inl h, fun _ _ _ _ _ => .inl fun _ => rfl, fun _ h => .inl h, fun _ h => h,
    fun n _ k v h1 h2 => by rw [h1] at h2; cases h2⟩

theorem Went.trans {s s1 s2 : IncState M} (h : Went X value R parse e n2b s s1) (h' : Went X value R parse e n2b s1 s2)
    (hl : ∀ n, Lacks value s2 n → Lacks value s1 n) : Went X value R parse e n2b s s2 where
  grown := h.grown.trans h'.grown
  noted n k hk := h'.noted n k (h.noted n k hk)
  same n hn k hk := h.same n hn k (h'.same n hn k hk)
  new n k hk := by
    rcases h'.new n k hk with hk | hk
    · rcases h.new n k hk with hk | ⟨n1, k', g1, g2, g3⟩
      · exact .inl hk
      · exact .inr ⟨n1, k', g1, h'.noted _ _ g2, g3⟩
    · exact .inr hk
  step n spec l hs hn := (h.step n spec l hs hn).trans (h.grown.kept n) (h'.grown.kept n) (h'.step n spec l (by rw [h.grown.schema]; exact hs) hn)
  comp n hn := by
    rcases h'.comp n hn with hn | ⟨h1, h2⟩
    · rcases h.comp n hn with hn | ⟨h1, h2⟩
      · exact .inl hn
      · refine .inr ⟨fun hc => h1 (hl n hc), fun spec l hs hn => ?_⟩
        exact (h2 spec l hs hn).left (h.grown.kept n) (h'.grown.kept n) (h'.step n spec l (by rw [h.grown.schema]; exact hs) hn)
    · refine .inr ⟨h1, fun spec l hs hn => ?_⟩
      exact Fed.right (h.step n spec l hs hn) (h.grown.kept n) (h'.grown.kept n) (h2 spec l (by rw [h.grown.schema]; exact hs) hn)
  compl n hn := h'.compl n (h.compl n hn)
  unobs n hn k v h1 h2 := by
    cases hc : value s1.m n k with
    | none => exact h'.unobs n hn k v hc h2
    | some u => exact h'.noted n k (h.unobs n hn k u h1 hc)

/-- what must be known about the observations -/
structure Sane (X : Host F M) (value : M → String → Items → Option V) (L : FamilyLaws F) (parse : F.C ⊕ F.E → String → Res V) (e : ObsMap Int)
    (n2b : FMap String String) (s : IncState M) : Prop where
  takes : ∀ r spec l o v, (X.schema s.m).find? r = some spec → e.find? r = some l → o ∈ l → parse spec.kind o.2 = .ok v → Takes L (X.schema s.m) v spec
  links : ∀ n b, n2b.find? n = some b ↔ ∃ spec, (X.schema s.m).find? n = some spec ∧ spec.base? = some b
  obs : ∀ n l, e.find? n = some l → ∀ k, Noted s n k → k ∈ l.map Prod.fst
  base : ∀ n k, e.find? n = none → Noted s n k → IsBase (X.schema s.m) n

theorem Sane.went {s s' : IncState M} (h : Sane X value L parse e n2b s) (hw : Went X value R parse e n2b s s') : Sane X value L parse e n2b s' where
  takes := by rw [hw.grown.schema]; exact h.takes
  links := by rw [hw.grown.schema]; exact h.links
  obs n l hn k hk := h.obs n l hn k (hw.same n (FMap.contains_iff.mpr ⟨_, hn⟩) k hk)
  base n k hn hk := by
    rw [hw.grown.schema]
    rcases hw.new n k hk with hk | ⟨n1, _, h1, _⟩
    · exact h.base n k hn hk
    · obtain ⟨spec, h2, h3⟩ := (h.links n1 n).mp h1
      exact ⟨n1, spec, h2, h3⟩

theorem incOwn_ok (hX : Hosted X value L R) {r : String} {rel : Rel F} {spec : RelSpec F} {s : IncState M} {t : Tape} {x : IncState M × Tape}
    (hm : R s.m) (hs : (X.schema s.m).find? r = some spec) (hrel : rel.tag = spec.kind) (hS : Sane X value L parse e n2b s)
    (h : incOwn X parse e r rel s t = .ok x) : Went X value R parse e n2b s x.1 ∧ Done X value parse e s x.1 r := by
  unfold incOwn at h
  have hcomp : ∀ n, (FSet.insert s.completed r).contains n = true ↔ n = r ∨ s.completed.contains n = true := fun n => by
    rw [FMap.contains_iff_mem, FMap.contains_iff_mem, FSet.mem_insert]
  cases ho : e.find? r with
  | some l =>
    rw [ho] at h
    obtain ⟨⟨m1, t1⟩, h1, h⟩ := bind_ok.mp h
    cases h
    obtain ⟨g1, ps, g2, g3, g4, g5⟩ := feed_ok hX hm (fun spec' o v hs' hol hp => by
      rw [hs] at hs'; cases hs'
      rw [hrel] at hp
      exact hS.takes r spec l o v hs ho hol hp) h1
    dsimp only at g1 g2 g3 g4 g5
    have hfed : Fed value parse spec.kind s.m m1 r l := ⟨ps, by rw [← hrel]; exact g2, g3, g4, fun k v a b => (g5 r k v a b).2⟩
    have hother : ∀ n, n ≠ r → ∀ k, value m1 n k = value s.m n k := by
      intro n hn k
      cases hc : value s.m n k with
      | some v => exact g1.kept n k v hc
      | none =>
        cases hc' : value m1 n k with
        | none => rfl
        | some v => exact absurd (g5 n k v hc hc').1 hn
    have hstep : ∀ n spec' l', (X.schema s.m).find? n = some spec' → e.find? n = some l' → Step value parse spec'.kind s.m m1 n l' := by
      intro n spec' l' hs' hn
      by_cases hnr : n = r
      · subst hnr
        rw [hs] at hs'; cases hs'
        rw [ho] at hn; cases hn
        exact .inr hfed
      · exact .inl (hother n hnr)
    have hlacks : ∀ n, Lacks value ({ s with m := m1, completed := FSet.insert s.completed r } : IncState M) n → Lacks value s n ∧ n ≠ r := by
      rintro n ⟨k, hk, hv⟩
      have hk : Noted s n k := hk
      have hv : value m1 n k = none := hv
      by_cases hnr : n = r
      · subst hnr
        obtain ⟨o, hol, rfl⟩ := List.mem_map.mp (hS.obs n l ho k hk)
        obtain ⟨j, hj, rfl⟩ := List.getElem_of_mem hol
        have hj' : j < ps.length := g2.length_eq ▸ hj
        have a1 := (g2.get hj hj').1
        have a2 := (g4 ps[j] (List.getElem_mem hj')).2
        simp only [List.get_eq_getElem] at a1
        rw [← a1, hv] at a2
        cases a2
      · exact ⟨⟨k, hk, by rw [← hother n hnr]; exact hv⟩, hnr⟩
    refine ⟨⟨g1, fun _ _ h => h, fun _ _ _ h => h, fun _ _ h => .inl h, hstep, ?_, fun n hn => (hcomp n).mpr (.inr hn), ?_⟩, hlacks, ?_, (hcomp r).mpr (.inl rfl)⟩
    · intro n hn
      rcases (hcomp n).mp hn with rfl | hn
      · refine .inr ⟨fun hc => (hlacks _ hc).2 rfl, fun spec' l' hs' hn => ?_⟩
        rw [hs] at hs'; cases hs'
        rw [ho] at hn; cases hn
        exact hfed
      · exact .inl hn
    · intro n hn k v h1 h2
      rw [(g5 n k v h1 h2).1, ho] at hn
      cases hn
    · intro spec' l' hs' hn
      rw [hs] at hs'; cases hs'
      rw [ho] at hn; cases hn
      exact hfed
  | none =>
    rw [ho] at h
    obtain ⟨is, h0, h⟩ := bind_ok.mp h
    have h : (sampleMissing X r (shuffle is.keys t).1 s.m (shuffle is.keys t).2 >>= fun p => (.ok ({ s with m := p.1, completed := FSet.insert s.completed r }, p.2) : Res (IncState M × Tape))) = .ok x := h
    obtain ⟨⟨m1, t1⟩, h1, h⟩ := bind_ok.mp h
    cases h
    have hmem : ∀ k, k ∈ (shuffle is.keys t).1 ↔ Noted s r k := fun k => (shuffle_perm _ _).mem_iff.trans (noted_atKey h0 k).symm
    obtain ⟨g1, g2, g3⟩ := sampleMissing_ok hX hm (fun hne => by
      obtain ⟨k, hk⟩ := List.exists_mem_of_ne_nil _ hne
      exact hS.base r k ho ((hmem k).mp hk)) h1
    dsimp only at g1 g2 g3
    have hother : ∀ n, n ≠ r → ∀ k, value m1 n k = value s.m n k := by
      intro n hn k
      cases hc : value s.m n k with
      | some v => exact g1.kept n k v hc
      | none =>
        cases hc' : value m1 n k with
        | none => rfl
        | some v => exact absurd (g3 n k v hc hc').1 hn
    have hlacks : ∀ n, Lacks value ({ s with m := m1, completed := FSet.insert s.completed r } : IncState M) n → Lacks value s n ∧ n ≠ r := by
      rintro n ⟨k, hk, hv⟩
      have hk : Noted s n k := hk
      have hv : value m1 n k = none := hv
      by_cases hnr : n = r
      · subst hnr
        obtain ⟨v, hv'⟩ := g2 k ((hmem k).mpr hk)
        rw [hv] at hv'
        cases hv'
      · exact ⟨⟨k, hk, by rw [← hother n hnr]; exact hv⟩, hnr⟩
    refine ⟨⟨g1, fun _ _ h => h, fun _ _ _ h => h, fun _ _ h => .inl h, ?_, ?_, fun n hn => (hcomp n).mpr (.inr hn), ?_⟩, hlacks, ?_, (hcomp r).mpr (.inl rfl)⟩
    · intro n spec' l' hs' hn
      by_cases hnr : n = r
      · subst hnr; rw [ho] at hn; cases hn
      · exact .inl (hother n hnr)
    · intro n hn
      rcases (hcomp n).mp hn with rfl | hn
      · refine .inr ⟨fun hc => (hlacks _ hc).2 rfl, fun spec' l' hs' hn => ?_⟩
        rw [ho] at hn; cases hn
      · exact .inl hn
    · intro n hn k v h1 h2
      obtain ⟨a, b⟩ := g3 n k v h1 h2
      rw [a]
      exact (hmem k).mp b
    · intro spec' l' hs' hn
      rw [ho] at hn; cases hn

theorem collectBase_ok {b : BaseView V} {base : String} : ∀ {l : List Items} {m m' : FMap String (FSet Items)}, collectBase b base l m = .ok m' →
    (∀ n k, ((m'.find? n).getD ∅).contains k = true ↔ ((m.find? n).getD ∅).contains k = true ∨ n = base ∧ ∃ k' ∈ l, k = k'.take b.arity) ∧
    (∀ n, m.contains n = true → m'.contains n = true) ∧ (l ≠ [] → m'.contains base = true) := by
  intro l
  induction l with
  | nil => intro m m' h; cases h; simp
  | cons items l ih =>
    intro m m' h
    obtain ⟨bi, h1, h⟩ := bind_ok.mp h
    obtain ⟨_, rfl⟩ := NoisyRel.baseItems_ok h1
    obtain ⟨g1, g2, g3⟩ := ih h
    have hc : ∀ n, (m.set base (FSet.insert ((m.find? base).getD ∅) (items.take b.arity))).contains n = true ↔ n = base ∨ m.contains n = true := by
      intro n
      rw [FMap.contains_iff_mem, FMap.contains_iff_mem, FMap.keys_set_mem]
    refine ⟨fun n k => ?_, fun n hn => g2 n ((hc n).mpr (.inr hn)), fun _ => g2 base ((hc base).mpr (.inl rfl))⟩
    rw [g1, FMap.find?_set]
    by_cases hn : n = base
    · subst hn
      simp only [if_true, Option.getD_some, true_and, List.mem_cons]
      rw [FMap.contains_iff_mem, FSet.mem_insert, ← FMap.contains_iff_mem]
      constructor
      · rintro ((rfl | h) | ⟨k', hk, rfl⟩)
        · exact .inr ⟨items, .inl rfl, rfl⟩
        · exact .inl h
        · exact .inr ⟨k', .inr hk, rfl⟩
      · rintro (h | ⟨k', rfl | hk, rfl⟩)
        · exact .inl (.inr h)
        · exact .inl (.inl rfl)
        · exact .inr ⟨k', hk, rfl⟩
    · simp [hn]

theorem noteBase_ok {r base : String} {rel : Rel F} {s : IncState M} {t : Tape} {x : IncState M × Tape}
    (hm : R s.m) (hb : n2b.find? r = some base) (he : e.contains base = false) (h : noteBase X r base rel s t = .ok x) :
    Went X value R parse e n2b s x.1 ∧ (∀ n, Lacks value x.1 n → Lacks value s n ∨ n = base) := by
  obtain ⟨is, h0, h⟩ := bind_ok.mp h
  have h : (derefR (IRM.baseOf (X.env s.m) rel) >>= fun b => collectBase b base (shuffle is.keys t).1 s.items >>= fun items =>
    (.ok ({ s with items := items }, (shuffle is.keys t).2) : Res (IncState M × Tape))) = .ok x := h
  obtain ⟨b, h1, h⟩ := bind_ok.mp h
  obtain ⟨items, h2, h⟩ := bind_ok.mp h
  cases h
  obtain ⟨g1, _, _⟩ := collectBase_ok h2
  have hmem : ∀ k, k ∈ (shuffle is.keys t).1 ↔ Noted s r k := fun k => (shuffle_perm _ _).mem_iff.trans (noted_atKey h0 k).symm
  refine ⟨⟨.refl hm, fun n k hk => (g1 n k).mpr (.inl hk), ?_, ?_, fun _ _ _ _ _ => .inl fun _ => rfl, fun n hn => .inl hn, fun n hn => hn,
    fun n hn k v a b => ?_⟩, ?_⟩
  · intro n hn k hk
    rcases (g1 n k).mp hk with hk | ⟨rfl, _⟩
    · exact hk
    · rw [he] at hn; cases hn
  · intro n k hk
    rcases (g1 n k).mp hk with hk | ⟨rfl, k', hk', rfl⟩
    · exact .inl hk
    · exact .inr ⟨r, k', hb, (g1 r k').mpr (.inl ((hmem k').mp hk')), List.take_prefix _ _⟩
  · rw [a] at b; cases b
  · rintro n ⟨k, hk, hv⟩
    rcases (g1 n k).mp hk with hk | ⟨rfl, _⟩
    · exact .inl ⟨k, hk, hv⟩
    · exact .inr rfl

theorem incRelation_ok (hX : Hosted X value L R) : ∀ {fuel : Nat} {r : String} {s : IncState M} {t : Tape} {x : IncState M × Tape}, R s.m →
    Sane X value L parse e n2b s → incRelation X parse e n2b fuel r s t = .ok x →
    Went X value R parse e n2b s x.1 ∧ Done X value parse e s x.1 r := by
  intro fuel
  induction fuel with
  | zero => intro r s t x _ _ h; cases h
  | succ fuel ih =>
    intro r s t x hm hS h
    obtain ⟨rel, h1, h⟩ := bind_ok.mp h
    obtain ⟨spec, hs⟩ := hX.known hm h1
    have htag : rel.tag = spec.kind := by
      obtain ⟨rel', a1, a2, _⟩ := hX.get hm hs
      rw [h1] at a1; cases a1
      exact a2
    cases hb : n2b.find? r with
    | none =>
      rw [hb] at h
      exact incOwn_ok hX hm hs htag hS h
    | some base =>
      rw [hb] at h
      have h : ∃ y, (if e.contains base = true then .ok (s, t) else noteBase X r base rel s t) = .ok y ∧
          (incRelation X parse e n2b fuel base y.1 y.2 >>= fun p => incOwn X parse e r rel p.1 p.2) = .ok x := by
        dsimp only at h
        by_cases hc : e.contains base = true
        · rw [if_pos hc] at h ⊢
          exact ⟨(s, t), rfl, h⟩
        · rw [if_neg hc] at h ⊢
          obtain ⟨y, h2, h⟩ := bind_ok.mp h
          exact ⟨y, h2, h⟩
      obtain ⟨⟨s1, t1⟩, h2, h⟩ := h
      obtain ⟨⟨s2, t2⟩, h3, h⟩ := bind_ok.mp h
      have h : incOwn X parse e r rel s2 t2 = .ok x := h
      have hw1 : Went X value R parse e n2b s s1 ∧ (∀ n, Lacks value s1 n → Lacks value s n ∨ n = base) := by
        by_cases hc : e.contains base = true
        · rw [if_pos hc] at h2
          cases h2
          exact ⟨.refl hm, fun n hn => .inl hn⟩
        · rw [if_neg hc] at h2
          exact noteBase_ok hm hb (by simpa using hc) h2
      obtain ⟨hw1, hl1⟩ := hw1
      obtain ⟨hw2, hd2⟩ := ih hw1.grown.inv (hS.went hw1) h3
      have hS2 := (hS.went hw1).went hw2
      obtain ⟨hw3, hd3⟩ := incOwn_ok hX hw2.grown.inv (by rw [hw2.grown.schema, hw1.grown.schema]; exact hs) htag hS2 h
      have h12 : Went X value R parse e n2b s s2 := hw1.trans hw2 (fun n hn => (hd2.lacks n hn).1)
      refine ⟨h12.trans hw3 (fun n hn => (hd3.lacks n hn).1), ?_, ?_, hd3.seen⟩
      · intro n hn
        obtain ⟨a1, a2⟩ := hd3.lacks n hn
        obtain ⟨b1, b2⟩ := hd2.lacks n a1
        rcases hl1 n b1 with c | c
        · exact ⟨c, a2⟩
        · exact absurd c b2
      · intro spec' l hs' hl
        exact Fed.right (h12.step r spec' l hs' hl) (h12.grown.kept r) (hw3.grown.kept r)
          (hd3.own spec' l (by rw [h12.grown.schema]; exact hs') hl)

theorem incLoop_ok (hX : Hosted X value L R) : ∀ {l : List String} {s : IncState M} {t : Tape} {x : IncState M × Tape}, R s.m →
    Sane X value L parse e n2b s → incLoop X parse e n2b l s t = .ok x →
    Went X value R parse e n2b s x.1 ∧ (∀ n, Lacks value x.1 n → Lacks value s n ∧ (n ∉ l ∨ s.completed.contains n = true)) ∧
      ∀ r ∈ l, s.completed.contains r = true ∨ ∀ spec l', (X.schema s.m).find? r = some spec → e.find? r = some l' → Fed value parse spec.kind s.m x.1.m r l' := by
  intro l
  induction l with
  | nil =>
    intro s t x hm hS h
    cases h
    exact ⟨.refl hm, fun n hn => ⟨hn, .inl (by simp)⟩, by simp⟩
  | cons r l ih =>
    intro s t x hm hS h
    rw [incLoop] at h
    split at h
    · rename_i hc
      obtain ⟨g1, g2, g3⟩ := ih hm hS h
      refine ⟨g1, fun n hn => ?_, fun r' hr' => ?_⟩
      · obtain ⟨a, b⟩ := g2 n hn
        refine ⟨a, ?_⟩
        by_cases hnr : n = r
        · exact .inr (hnr ▸ hc)
        · rcases b with b | b
          · exact .inl (by simp [hnr, b])
          · exact .inr b
      · rcases List.mem_cons.mp hr' with rfl | hr'
        · exact .inl hc
        · exact g3 r' hr'
    · obtain ⟨⟨s1, t1⟩, h1, h⟩ := bind_ok.mp h
      have h : incLoop X parse e n2b l s1 t1 = .ok x := h
      obtain ⟨hw, hd⟩ := incRelation_ok hX hm hS h1
      obtain ⟨g1, g2, g3⟩ := ih hw.grown.inv (hS.went hw) h
      refine ⟨hw.trans g1 (fun n hn => (g2 n hn).1), fun n hn => ?_, fun r' hr' => ?_⟩
      · obtain ⟨a, b⟩ := g2 n hn
        obtain ⟨c1, c2⟩ := hd.lacks n a
        refine ⟨c1, ?_⟩
        rcases b with b | b
        · exact .inl (by simp [c2, b])
        · rcases hw.comp n b with b | ⟨b, _⟩
          · exact .inr b
          · exact absurd a b
      · rcases List.mem_cons.mp hr' with rfl | hr'
        · refine .inr fun spec l' hs hl => ?_
          exact (hd.own spec l' hs hl).left (hw.grown.kept _) (g1.grown.kept _) (g1.step _ spec l' (by rw [hw.grown.schema]; exact hs) hl)
        · rcases g3 r' hr' with c | c
          · rcases hw.comp r' c with c | ⟨_, c⟩
            · exact .inl c
            · refine .inr fun spec l' hs hl => ?_
              exact (c spec l' hs hl).left (hw.grown.kept _) (g1.grown.kept _) (g1.step _ spec l' (by rw [hw.grown.schema]; exact hs) hl)
          · refine .inr fun spec l' hs hl => ?_
            exact Fed.right (hw.step _ spec l' hs hl) (hw.grown.kept _) (g1.grown.kept _) (c spec l' (by rw [hw.grown.schema]; exact hs) hl)

end UtilIO
end Verif
