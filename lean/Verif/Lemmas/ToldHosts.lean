import Verif.Lemmas.Told
/-!
Which tuples an IRM and an HIRM store after reading observations.
-/
namespace Verif
noncomputable section
variable {V : Type} {F : Family V}

/-- what a noisy relation needs to take an observation: a value of the base -/
theorem Rel.incorporate_view {σ : Doms} {b : Option (BaseView V)} {r : Rel F} {items : Items} {v : V} {t : Tape} {x : Doms × Rel F × Tape}
    (h : r.incorporate σ b items v t = .ok x) {p : Ptr} (hp : r.base? = some p) : ∃ w, b = some w ∧ w.data.contains (items.take w.arity) = true := by
  cases r with
  | clean c r => cases hp
  | noisy e p r =>
    obtain ⟨w, h1, h⟩ := bind_ok.mp h
    obtain ⟨⟨σ', r', t'⟩, h2, h⟩ := bind_ok.mp h
    obtain ⟨bi, h3, h2⟩ := bind_ok.mp h2
    obtain ⟨bv, h4, h2⟩ := bind_ok.mp h2
    obtain ⟨_, rfl⟩ := NoisyRel.baseItems_ok h3
    obtain ⟨_, h5, _⟩ := bind_ok.mp h4
    exact ⟨w, derefR_ok.mp h1, assertR_ok.mp h5⟩

open UtilIO

namespace HIRM

theorem Tidy.env {H : HIRM F} (h : H.Tidy) {p : Ptr} {w : BaseView V} (hw : H.env p = some w) :
    ∃ sp, H.schema.find? p.name = some sp ∧ w.arity = sp.doms.length ∧ H.dataOf p.name = some w.data := by
  unfold HIRM.env at hw
  split at hw
  · cases hw
  · rename_i tb htb
    split at hw
    · cases hw
    · rename_i I hI
      split at hw
      · cases hw
      · rename_i id r hr
        split at hw
        · cases hw
          have hT := (h.skel.place tb I hI p.name).mp (FMap.contains_iff.mpr ⟨_, hr⟩)
          obtain ⟨sp, a, _, c, d⟩ := h.relOf (relOf_some.mpr ⟨hT, I, hI, hr⟩ : H.relOf p.name = some (tb, id, r))
          exact ⟨sp, a, by show r.doms.length = _; rw [c], d⟩
        · cases hw

/-- the base of a stored tuple is stored -/
def Based (H : HIRM F) : Prop := ∀ n b spec sp k, H.schema.find? n = some spec → spec.base? = some b → H.schema.find? b = some sp → H.stores n k = true →
  H.stores b (k.take sp.doms.length) = true

theorem incorporate_stores {H H' : HIRM F} {r : String} {items : Items} {v : V} {t t' : Tape} (hc : H.incorporate r items v t = .ok (H', t')) (n : String) (k : Items) :
    H'.stores n k = true ↔ H.stores n k = true ∨ n = r ∧ k = items := by
  obtain ⟨hn, d, hd, hd'⟩ := incorporate_next hc
  by_cases e : n = r
  · subst e
    unfold stores
    rw [hd, hd']
    show (d.set items v).contains k = true ↔ d.contains k = true ∨ _
    rw [FMap.contains_iff_mem, FMap.keys_set_mem, FMap.contains_iff_mem]
    tauto
  · rw [stores_congr (hn.dataOf e)]
    tauto

theorem Based.incorporate {H H' : HIRM F} (h : H.Based) (ht : H.Tidy) (hN : H.Named) {r : String} {items : Items} {v : V} {t t' : Tape}
    (hc : H.incorporate r items v t = .ok (H', t')) : H'.Based := by
  have hs := (incorporate_next hc).1.schema
  have hst := incorporate_stores hc
  intro n b spec sp k h1 h2 h3 hk
  rw [hs] at h1 h3
  rw [hst]
  rcases (hst n k).mp hk with hk | ⟨rfl, rfl⟩
  · exact .inl (h n b spec sp k h1 h2 h3 hk)
  · obtain ⟨⟨tb, I⟩, q1, hc⟩ := bind_ok.mp hc
    obtain ⟨⟨I', t₁⟩, q2, hc⟩ := bind_ok.mp hc
    obtain ⟨⟨id, rel⟩, q3, q2⟩ := bind_ok.mp q2
    obtain ⟨⟨σ, rel', t₂⟩, q4, _⟩ := bind_ok.mp q2
    obtain ⟨hT, hI⟩ := relationToIrm_ok.mp q1
    have hr := FMap.atKey_ok.mp q3
    obtain ⟨spec', k1, k2⟩ := hN tb I hI n _ hr
    have := ht.skel.specs tb I hI n (FMap.contains_iff.mpr ⟨_, hr⟩)
    rw [k1, h1] at this; cases this
    rw [h2] at k2
    cases hp : rel.base? with
    | none => rw [hp] at k2; cases k2
    | some p =>
      rw [hp] at k2
      obtain ⟨w, w1, w2⟩ := Rel.incorporate_view q4 hp
      have k2 : some b = some p.name := k2
      cases k2
      unfold IRM.baseOf at w1
      rw [hp] at w1
      obtain ⟨sp', l1, l2, l3⟩ := ht.env w1
      rw [h3] at l1; cases l1
      refine .inl ?_
      unfold stores
      rw [l3, ← l2]
      exact w2

theorem stores_host (C : CRP) : Stores (HIRM.host F) (fun H => Known (fun _ _ => True) H ∧ H.Named ∧ H.Based ∧ H.crp = C) (fun H n k => H.stores n k = true) where
  incorporate h hc := by
    obtain ⟨h1, h2, h3, h4⟩ := h
    have hn := (incorporate_next hc).1
    exact ⟨⟨h1.incorporate hc (fun _ _ _ _ _ => trivial), h2.incorporate hc, h3.incorporate h1.tidy h2 hc, hn.crp.trans h4⟩, hn.schema, incorporate_stores hc⟩
  sampleAt h hc := by
    obtain ⟨h1, h2, h3, h4⟩ := h
    obtain ⟨hn, hk⟩ := sampleAt_next hc
    have hd := fun n => hn.dataOf (n := n) id
    refine ⟨⟨h1.next hn (hk _), h2.sampleAt hc, ?_, hn.crp.trans h4⟩, hn.schema, fun n k => by rw [stores_congr (hd n)]⟩
    intro n b spec sp k q1 q2 q3 q4
    have hs : _ = _ := hn.schema
    rw [stores_congr (hd n)] at q4
    rw [stores_congr (hd b)]
    exact h3 n b spec sp k (by rw [← hs]; exact q1) q2 (by rw [← hs]; exact q3) q4
  view {H r rel b} h hg hb := by
    obtain ⟨h1, h2, _, _⟩ := h
    obtain ⟨⟨p, rel'⟩, q1, hg⟩ := bind_ok.mp hg
    cases hg
    obtain ⟨⟨tb, I⟩, q2, q1⟩ := bind_ok.mp q1
    obtain ⟨⟨id, rel'⟩, q3, q1⟩ := bind_ok.mp q1
    cases q1
    obtain ⟨hT, hI⟩ := relationToIrm_ok.mp q2
    have hr := FMap.atKey_ok.mp q3
    obtain ⟨spec, k1, k2⟩ := h2 tb I hI r _ hr
    have hs := h1.tidy.skel.specs tb I hI r (FMap.contains_iff.mpr ⟨_, hr⟩)
    rw [k1] at hs
    unfold IRM.baseOf at hb
    cases hp : rel.base? with
    | none => rw [hp] at hb; cases hb
    | some q =>
      rw [hp] at hb k2
      obtain ⟨sp, l1, l2, l3⟩ := h1.tidy.env (show H.env q = some b from hb)
      exact ⟨spec, q.name, sp, hs.symm, k2, l1, l2⟩
  based h h1 h2 h3 h4 := h.2.2.1 _ _ _ _ _ h1 h2 h3 h4

end HIRM

namespace IRM

def stores (I : IRM F) (n : String) (k : Items) : Bool := ((I.dataOf n).getD ∅).contains k

theorem Tidy.env {I : IRM F} (h : I.Tidy) {p : Ptr} {w : BaseView V} (hw : I.env p = some w) :
    ∃ sp, I.schema.find? p.name = some sp ∧ w.arity = sp.doms.length ∧ I.dataOf p.name = some w.data := by
  unfold IRM.env at hw
  split at hw
  · rename_i id r _ hr
    split at hw
    · cases hw
      obtain ⟨_, sp, b, c⟩ := h p.name _ hr
      refine ⟨sp, b, by show r.doms.length = _; rw [c], ?_⟩
      unfold IRM.dataOf
      rw [hr]; rfl
    · cases hw
  · cases hw

/-- the base of a stored tuple is stored -/
def Based (H : IRM F) : Prop := ∀ n b spec sp k, H.schema.find? n = some spec → spec.base? = some b → H.schema.find? b = some sp → H.stores n k = true →
  H.stores b (k.take sp.doms.length) = true

theorem incorporate_stores {env : Env V} {I I' : IRM F} {r : String} {items : Items} {v : V} {t t' : Tape} (hc : incorporate env I r items v t = .ok (I', t')) (n : String) (k : Items) :
    I'.stores n k = true ↔ I.stores n k = true ∨ n = r ∧ k = items := by
  obtain ⟨hn, x, y, hx, hy, hd⟩ := incorporate_next hc
  by_cases e : n = r
  · subst e
    unfold stores IRM.dataOf
    rw [hx, hy]
    show y.2.data.contains k = true ↔ x.2.data.contains k = true ∨ _
    rw [hd, FMap.contains_iff_mem, FMap.keys_set_mem, FMap.contains_iff_mem]
    tauto
  · have : I'.dataOf n = I.dataOf n := by
      unfold IRM.dataOf
      cases hx : I.rels.find? n with
      | none => rw [hn.none n hx]
      | some x =>
        obtain ⟨y, hy, _, b⟩ := hn.some n x hx
        rw [hy]
        exact congrArg some (b e)
    unfold stores
    rw [this]
    tauto

theorem Based.incorporate {I I' : IRM F} (h : I.Based) (ht : I.Tidy) (hN : I.Named) {r : String} {items : Items} {v : V} {t t' : Tape}
    (hc : IRM.incorporate I.env I r items v t = .ok (I', t')) : I'.Based := by
  have hs := (incorporate_next hc).1.schema
  have hst := incorporate_stores hc
  intro n b spec sp k h1 h2 h3 hk
  rw [hs] at h1 h3
  rw [hst]
  rcases (hst n k).mp hk with hk | ⟨rfl, rfl⟩
  · exact .inl (h n b spec sp k h1 h2 h3 hk)
  · obtain ⟨⟨id, rel⟩, q3, q2⟩ := bind_ok.mp hc
    obtain ⟨⟨σ, rel', t₂⟩, q4, _⟩ := bind_ok.mp q2
    have hr := FMap.atKey_ok.mp q3
    obtain ⟨spec', k1, k2⟩ := hN n _ hr
    rw [h1] at k1; cases k1
    rw [h2] at k2
    cases hp : rel.base? with
    | none => rw [hp] at k2; cases k2
    | some p =>
      rw [hp] at k2
      obtain ⟨w, w1, w2⟩ := Rel.incorporate_view q4 hp
      have k2 : some b = some p.name := k2
      cases k2
      unfold IRM.baseOf at w1
      rw [hp] at w1
      obtain ⟨sp', l1, l2, l3⟩ := ht.env w1
      rw [h3] at l1; cases l1
      refine .inl ?_
      unfold stores
      rw [l3, ← l2]
      exact w2

theorem sampleAt_next {I I' : IRM F} {r : String} {items : Items} {v : V} {t t' : Tape} (hc : I.sampleAt r items t = .ok (v, I', t')) :
    Next (fun _ => False) I I' ∧ I'.doms = I.doms := by
  obtain ⟨⟨id, rel⟩, h2, hc⟩ := bind_ok.mp hc
  obtain ⟨⟨v, rel', t₁⟩, h3, hc⟩ := bind_ok.mp hc
  cases hc
  have hr : Rel.Next rel rel' ∧ rel'.data = rel.data := by
    cases rel with
    | clean c q =>
      obtain ⟨⟨_, q', _⟩, h4, h3⟩ := bind_ok.mp h3
      cases h3
      exact Rel.next_clean (CleanRel.sampleAtItems_same h4)
    | noisy e p q =>
      obtain ⟨b, _, h3⟩ := bind_ok.mp h3
      obtain ⟨⟨_, _⟩, h4, h3⟩ := bind_ok.mp h3
      cases h3
      exact ⟨.refl _, rfl⟩
  exact ⟨.setRel' (id, rel') (FMap.atKey_ok.mp h2) hr.1 (fun _ => hr.2), rfl⟩

theorem Next.dataOf {P : String → Prop} {I I' : IRM F} (h : Next P I I') {n : String} (hn : ¬ P n) : I'.dataOf n = I.dataOf n := by
  unfold IRM.dataOf
  cases hx : I.rels.find? n with
  | none => rw [h.none n hx]
  | some x =>
    obtain ⟨y, hy, _, b⟩ := h.some n x hx
    rw [hy]
    exact congrArg Option.some (b hn)

theorem stores_host : Stores (IRM.host F) (fun I => Known (fun _ _ => True) I ∧ I.Named ∧ I.Based) (fun I n k => I.stores n k = true) where
  incorporate {I I' r items v t t'} h hc := by
    obtain ⟨h1, h2, h3⟩ := h
    obtain ⟨a, b⟩ := feeds.incorporate h1 hc (fun _ _ _ _ _ => trivial)
    exact ⟨⟨a, h2.incorporate hc, h3.incorporate h1.tidy h2 hc⟩, b, incorporate_stores hc⟩
  sampleAt {I I' r items v t t'} h hc := by
    obtain ⟨h1, h2, h3⟩ := h
    obtain ⟨a, b⟩ := feeds.sampleAt h1 hc
    obtain ⟨hn, _⟩ := sampleAt_next hc
    have hd : ∀ n k, I'.stores n k = I.stores n k := fun n k => by unfold stores; rw [hn.dataOf id]
    refine ⟨⟨a, h2.sampleAt hc, ?_⟩, b, fun n k => by rw [hd n]⟩
    intro n b' spec sp k q1 q2 q3 q4
    rw [hd] at q4
    rw [hd]
    exact h3 n b' spec sp k (by rw [← hn.schema]; exact q1) q2 (by rw [← hn.schema]; exact q3) q4
  view {I r rel b} h hg hb := by
    obtain ⟨h1, h2, _⟩ := h
    obtain ⟨⟨id, rel'⟩, q3, hg⟩ := bind_ok.mp hg
    cases hg
    have hr := FMap.atKey_ok.mp q3
    obtain ⟨spec, k1, k2⟩ := h2 r _ hr
    unfold IRM.baseOf at hb
    cases hp : rel.base? with
    | none => rw [hp] at hb; cases hb
    | some q =>
      rw [hp] at hb k2
      obtain ⟨sp, l1, l2, l3⟩ := h1.tidy.env (show I.env q = some b from hb)
      exact ⟨spec, q.name, sp, k1, k2, l1, l2⟩
  based h h1 h2 h3 h4 := h.2.2 _ _ _ _ _ h1 h2 h3 h4

end IRM

/-! ### Names -/

namespace UtilIO

theorem Codes.take {enc : Encoding} {ds ds' names : List String} {k : Items} (h : Codes enc ds' names k) (hp : ds <+: ds') :
    Codes enc ds (names.take ds.length) (k.take ds.length) := by
  obtain ⟨u, rfl⟩ := hp
  refine ⟨by simp [h.1], fun i x c hx hk => ?_⟩
  rw [List.getElem?_take] at hx hk
  split at hx
  · rename_i hlt
    rw [if_pos hlt] at hk
    obtain ⟨d, h1, h2⟩ := h.2 i x c hx hk
    rw [List.getElem?_append_left hlt] at h1
    exact ⟨d, h1, h2⟩
  · cases hx

/-- the stored codes are the codes of the tuples that the observations are about -/
theorem told_names {S : Schema F} (hp : ∀ n spec b sp, S.find? n = some spec → spec.base? = some b → S.find? b = some sp → sp.doms <+: spec.doms)
    {obs : ObsMap String} {enc : Encoding} {e : ObsMap Int} {t t' : Tape} (h : encodeObservations S obs enc t = .ok (e, t')) {n : String} {spec : RelSpec F}
    (hn : S.find? n = some spec) (k : Items) : Told S (Encoded e) n k ↔ ∃ names, Told S (InFile obs) n names ∧ Codes enc spec.doms names k := by
  obtain ⟨g1, g2⟩ := encode_facts h
  constructor
  · intro hk
    induction hk generalizing spec with
    | @given n k hk =>
      obtain ⟨l, hl, o, ho, rfl⟩ := hk
      cases hr : obs.find? n with
      | none => rw [g2 n hr] at hl; cases hl
      | some lo =>
        obtain ⟨spec', cs, k1, k2, k3⟩ := g1 n lo hr
        rw [hn] at k1; cases k1
        rw [hl] at k3
        split at k3
        · cases k3
        · cases k3
          obtain ⟨a, ha, hao⟩ := forall₂_mem_right k2 ho
          exact ⟨a.1, .given ⟨lo, hr, a.2, ha⟩, encObs_codes hao⟩
    | @base n b k spec' sp hk k1 k2 k3 ih =>
      rw [hn] at k3; cases k3
      obtain ⟨names, a, c⟩ := ih k1
      exact ⟨_, .base a k1 k2 hn, c.take (hp n spec' b sp k1 k2 hn)⟩
  · rintro ⟨names, hk, hc⟩
    have key : ∀ n names, Told S (InFile obs) n names → ∀ spec, S.find? n = some spec → ∃ k', Codes enc spec.doms names k' ∧ Told S (Encoded e) n k' := by
      intro n names hk
      induction hk with
      | @given n names hk =>
        intro spec hn
        obtain ⟨l, hl, v, hv⟩ := hk
        obtain ⟨spec', cs, k1, k2, k3⟩ := g1 n l hl
        rw [hn] at k1; cases k1
        obtain ⟨c, hcm, hc⟩ := forall₂_mem_left k2 hv
        rw [if_neg (by rintro rfl; cases hcm)] at k3
        exact ⟨c.1, encObs_codes hc, .given ⟨cs, k3, c, hcm, rfl⟩⟩
      | @base n b names spec' sp hk k1 k2 k3 ih =>
        intro spec hn
        rw [hn] at k3; cases k3
        obtain ⟨k', a, c⟩ := ih spec' k1
        exact ⟨_, a.take (hp n spec' b sp k1 k2 hn), .base c k1 k2 hn⟩
    obtain ⟨k', a, c⟩ := key n names hk spec hn
    rw [hc.unique a]
    exact c

end UtilIO
end
end Verif
