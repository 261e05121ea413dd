import Verif.Lemmas.Born
/-! Helper lemmas: an entity move in a domain with one relation, when the clusters of the relation have different hyperparameters. -/
namespace Verif
open Spec
noncomputable section
namespace IRM
variable {V : Type} {F : Family V} {L : FamilyLaws F} {ar : Ptr → Option Nat}

theorem track_move {I I' : IRM F} (h : Inv L ar I) {d n : String} {item z cur : Int} {dom : Domain} (hdom : I.doms.find? d = some dom)
    (hcur : dom.crp.assignments.find? item = some cur) {s : FSet String} (hone : I.domToRels.find? d = some s) (hkeys : s.keys = [n]) {id : Nat} {c : F.C}
    {r0 : CleanRel (F.dist c).toDistOps} (hrel : I.rels.find? n = some (id, .clean c r0)) (hd : d ∈ r0.doms) (hob : r0.hasObservation d item = .ok true)
    (S : (L.dist c).Scored) {hy : Items → (L.dist c).H} (htr : CleanRel.TInv (L.dist c) hy I.doms r0) {p : ℝ} (hm : MovesTo I d item p I')
    (hz : seatOf I'.doms d item = some z) (hzc : z ≠ cur)
    (hfr : ∀ k v, r0.data.find? k = some v → Uses r0.doms d item k → ∀ zz, tupleSeat I'.doms r0.doms k = some zz →
      CleanRel.others (tupleSeat I.doms r0.doms) r0.data (Uses r0.doms d item) zz = 0 → ∀ t, (L.dist c).Rep (hy zz) 0 ((F.dist c).fresh t).1) :
    ∃ cl, I'.rels = I.rels.set n (id, .clean c { r0 with clusters := cl }) ∧ CleanRel.TInv (L.dist c) hy I'.doms { r0 with clusters := cl } := by
  obtain ⟨t, tables, logps, order, I1, t1, z', x, t2, t', k, c1, c2, c3, c4, c5⟩ := hm
  simp only [itemScores] at c1
  obtain ⟨dom', a1, hc⟩ := bind_ok.mp c1
  obtain ⟨w, a2, hc⟩ := bind_ok.mp hc
  obtain ⟨s', a3, hc⟩ := bind_ok.mp hc
  obtain ⟨⟨lps, I2, t3⟩, a4, hc⟩ := bind_ok.mp hc
  cases hc
  rw [FMap.atKey_ok, hone] at a3
  cases a3
  have hperm := shuffle_perm s.keys t
  have horder : (shuffle s.keys t).1 = [n] := by rw [hkeys] at hperm ⊢; exact List.perm_singleton.mp hperm
  obtain ⟨_, rels1, e0, g3, g4⟩ := scoreItem_keeps _ I _ _ h (by simp [FMap.vals, FMap.keys]) a4
  rw [horder] at a4 c5
  -- the scores
  rw [scoreItem] at a4
  obtain ⟨⟨id', rel⟩, b1, a4⟩ := bind_ok.mp a4
  obtain ⟨b, b2, a4⟩ := bind_ok.mp a4
  rw [FMap.atKey_ok, hrel] at b1
  cases b1
  have b2' : r0.hasObservation d item = .ok b := b2
  rw [hob] at b2'
  cases b2'
  obtain ⟨⟨x1, rel', t4⟩, b3, a4⟩ := bind_ok.mp a4
  obtain ⟨_, _, a4⟩ := bind_ok.mp a4
  obtain ⟨_, _, a4⟩ := bind_ok.mp a4
  cases a4
  obtain ⟨⟨lps1, r1, t5⟩, b4, b5⟩ := bind_ok.mp b3
  cases b5
  have : ∀ table, ∃ σ' : Doms, table ≠ cur → ∀ d' i, seatOf σ' d' i = if d' = d ∧ i = item then some table else seatOf I.doms d' i := by
    intro table
    by_cases ht : table = cur
    · exact ⟨I.doms, fun h => absurd ht h⟩
    · obtain ⟨dom', _, _, h2, _⟩ := CleanRel.exists_moved h.store hdom hcur ht
      exact ⟨_, fun _ => h2⟩
  choose σf hσf using this
  obtain ⟨lps', cl, t6, m, gs, h1, h2, _⟩ := CleanRel.logpGibbsExact_spec S h.store htr hd hdom hcur hσf hob w.keys (shuffle s.keys t).2
  rw [b4] at h1; cases h1
  cases e0
  -- the move
  obtain ⟨I3, t7, e1, e2, e3, e4, e5, e6⟩ := moveItem_ok g3 hdom hcur hone (order := [n]) (by rw [hkeys]) z' t2
  rw [c5] at e1; cases e1
  have hzz : z' = z := by
    have := e4 d item
    rw [hz] at this; simpa using this.symm
  subst hzz
  obtain ⟨rels2, dom2, f1, f2, rfl⟩ := e6 hzc
  obtain ⟨dom3, k1, k2, k3, k4, k5, k6⟩ := CleanRel.exists_moved h.store hdom hcur hzc
  rw [f2] at k1; cases k1
  rw [moveRels] at f1
  obtain ⟨⟨id', rel⟩, q1, f1⟩ := bind_ok.mp f1
  obtain ⟨b, q2, f1⟩ := bind_ok.mp f1
  rw [FMap.atKey_ok, FMap.find?_set_self] at q1
  cases q1
  have q2' : r0.hasObservation d item = .ok b := q2
  rw [hob] at q2'
  cases q2'
  simp only [if_true] at f1
  obtain ⟨⟨rel2, t8⟩, q3, f1⟩ := bind_ok.mp f1
  cases f1
  obtain ⟨⟨r2, t9⟩, q4, q5⟩ := bind_ok.mp q3
  cases q5
  obtain ⟨cl2, t10, u1, u2⟩ := CleanRel.setGibbs_tracked (L.dist c) h.store h2 hd hdom hcur hzc hob k3 k4 hfr t2
  rw [q4] at u1; cases u1
  exact ⟨cl2, FMap.set_set .., u2⟩

end IRM
end
end Verif
