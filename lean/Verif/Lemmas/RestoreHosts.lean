import Verif.Lemmas.Restore
import Verif.Lemmas.HIRMSound
/-!
Reading observations into an IRM and an HIRM: who is seated afterwards.
-/
namespace Verif
noncomputable section
variable {V : Type} {F : Family V} {M : Type}
open UtilIO

theorem UtilIO.Stores.and {X : Host F M} {K : M → Prop} {st : M → String → Items → Prop} (h : Stores X K st) {P : M → Prop}
    (hi : ∀ {m m' : M} {r : String} {items : Items} {v : V} {t t' : Tape}, K m → P m → X.incorporate m r items v t = .ok (m', t') → P m')
    (hs : ∀ {m m' : M} {r : String} {items : Items} {v : V} {t t' : Tape}, K m → P m → X.sampleAt m r items t = .ok (v, m', t') → P m') :
    Stores X (fun m => K m ∧ P m) st where
  incorporate hk hc := ⟨⟨(h.incorporate hk.1 hc).1, hi hk.1 hk.2 hc⟩, (h.incorporate hk.1 hc).2⟩
  sampleAt hk hc := ⟨⟨(h.sampleAt hk.1 hc).1, hs hk.1 hk.2 hc⟩, (h.sampleAt hk.1 hc).2⟩
  view hk := h.view hk.1
  based hk := h.based hk.1

namespace IRM

/-- the entity is in a stored tuple -/
def Fed (I : IRM F) (d : String) (i : Int) : Prop := ∃ n spec k, I.schema.find? n = some spec ∧ I.stores n k = true ∧ Uses spec.doms d i k

/-- nobody has moved, and the newly seated entities are those of the stored tuples -/
structure Filled (σ₀ : Doms) (I : IRM F) : Prop where
  joins : Joins I.Fed σ₀ I.doms
  seated : ∀ d i, I.Fed d i → Seated I.doms d i

theorem incorporate_seats {I I' : IRM F} (ht : I.Tidy) {env : Env V} {r : String} {items : Items} {v : V} {t t' : Tape} (hc : incorporate env I r items v t = .ok (I', t')) :
    SeatsIn I.doms I'.doms ∧ ∀ spec, I.schema.find? r = some spec → ∀ d i, Uses spec.doms d i items → Seated I'.doms d i := by
  obtain ⟨⟨id, rel⟩, h1, h2⟩ := bind_ok.mp hc
  obtain ⟨⟨σ, rel', t1⟩, h4, h3⟩ := bind_ok.mp h2
  cases h3
  obtain ⟨a, spec, b, c⟩ := ht r _ (FMap.atKey_ok.mp h1)
  obtain ⟨e, f⟩ := Rel.incorporate_seats h4
  rw [a.inner, c] at f
  refine ⟨e, fun spec' hs => ?_⟩
  rw [b] at hs; cases hs
  exact f

theorem filled_host (σ₀ : Doms) : Stores (IRM.host F) (fun I => (Known (fun _ _ => True) I ∧ I.Named ∧ I.Based) ∧ Filled σ₀ I) (fun I n k => I.stores n k = true) := by
  refine stores_host.and (fun {I I' r items v t t'} hk h hc => ?_) (fun {I I' r items v t t'} hk h hc => ?_)
  · have hs : I'.schema = I.schema := (incorporate_next hc).1.schema
    have hst := incorporate_stores hc
    have hd : DomAll TidyDom I.doms := fun d dom hd => (hk.1.seats d dom hd).1
    obtain ⟨spec, g1, g2⟩ := incorporate_joins hd hk.1.tidy hc
    obtain ⟨g3, g4⟩ := incorporate_seats hk.1.tidy hc
    have up : ∀ d i, I.Fed d i → I'.Fed d i := fun d i ⟨n, sp, k, h1, h2, h3⟩ => ⟨n, sp, k, by rw [hs]; exact h1, (hst n k).mpr (.inl h2), h3⟩
    refine ⟨(h.joins.mono up).trans (g2.mono (fun d i hu => ⟨r, spec, items, by rw [hs]; exact g1, (hst r items).mpr (.inr ⟨rfl, rfl⟩), hu⟩)), ?_⟩
    rintro d i ⟨n, sp, k, h1, h2, h3⟩
    rw [hs] at h1
    rcases (hst n k).mp h2 with h2 | ⟨rfl, rfl⟩
    · exact g3.seated (h.seated d i ⟨n, sp, k, h1, h2, h3⟩)
    · exact g4 sp h1 d i h3
  · obtain ⟨hn, hd⟩ := sampleAt_next hc
    have hs : I'.schema = I.schema := hn.schema
    have hst : ∀ n k, I'.stores n k = I.stores n k := fun n k => by unfold stores; rw [hn.dataOf id]
    have e : I'.Fed = I.Fed := by funext d i; unfold Fed; rw [hs]; simp only [hst]
    exact ⟨by rw [e, hd]; exact h.joins, by rw [e, hd]; exact h.seated⟩

theorem filled_start {I : IRM F} (h : ∀ n k, ¬ I.stores n k = true) : Filled I.doms I :=
  ⟨.refl _ _, fun _ _ ⟨n, _, k, _, h2, _⟩ => absurd h2 (h n k)⟩

end IRM

namespace HIRM

/-- the entity is in a stored tuple of a relation of this cluster -/
def Fed (H : HIRM F) (tb : Int) (d : String) (i : Int) : Prop :=
  ∃ n spec k, H.tableOf n = some tb ∧ H.schema.find? n = some spec ∧ H.stores n k = true ∧ Uses spec.doms d i k

/-- the relations are where they were, nobody has moved, and the newly seated entities are those of the stored tuples -/
structure Filled (H₀ H : HIRM F) : Prop where
  tables : ∀ n, H.tableOf n = H₀.tableOf n
  irms : ∀ tb I, H.irms.find? tb = some I → ∃ I₀, H₀.irms.find? tb = some I₀ ∧ Joins (H.Fed tb) I₀.doms I.doms ∧ ∀ d i, H.Fed tb d i → Seated I.doms d i

theorem filled_host (C : CRP) (H₀ : HIRM F) : Stores (HIRM.host F) (fun H => (Known (fun _ _ => True) H ∧ H.Named ∧ H.Based ∧ H.crp = C) ∧ Filled H₀ H)
    (fun H n k => H.stores n k = true) := by
  refine (stores_host C).and (fun {H H' r items v t t'} hk h hc => ?_) (fun {H H' r items v t t'} hk h hc => ?_)
  · have hn := (incorporate_next hc).1
    have hs : H'.schema = H.schema := hn.schema
    have hst := incorporate_stores hc
    have hT : ∀ n, H'.tableOf n = H.tableOf n := hn.tableOf
    have up : ∀ tb d i, H.Fed tb d i → H'.Fed tb d i := fun tb d i ⟨n, sp, k, h0, h1, h2, h3⟩ =>
      ⟨n, sp, k, by rw [hT]; exact h0, by rw [hs]; exact h1, (hst n k).mpr (.inl h2), h3⟩
    obtain ⟨⟨tb, I⟩, h1, h2⟩ := bind_ok.mp hc
    obtain ⟨⟨I', t1⟩, h3, h4⟩ := bind_ok.mp h2
    cases h4
    obtain ⟨hr, hI⟩ := relationToIrm_ok.mp h1
    refine ⟨fun n => (hT n).trans (h.tables n), fun tb' J hJ => ?_⟩
    replace hJ : (H.irms.set tb I').find? tb' = some J := hJ
    rw [FMap.find?_set] at hJ
    split at hJ
    · rename_i e
      subst e
      cases hJ
      obtain ⟨I₀, k1, k2, k3⟩ := h.irms tb' I hI
      have hd : DomAll TidyDom I.doms := fun d dom hd => (hk.1.seats _ _ hI d dom hd).1
      have hti := hk.1.tidy.irms _ _ hI
      obtain ⟨spec, g1, g2⟩ := IRM.incorporate_joins hd hti h3
      obtain ⟨g3, g4⟩ := IRM.incorporate_seats hti h3
      have hsp : I.schema.find? r = H.schema.find? r :=
        hk.1.tidy.skel.specs tb' I hI r ((hk.1.tidy.skel.place tb' I hI r).mpr hr)
      refine ⟨I₀, k1, (k2.mono (up tb')).trans (g2.mono (fun d i hu =>
        ⟨r, spec, items, by rw [hT]; exact hr, by rw [hs, ← hsp]; exact g1, (hst r items).mpr (.inr ⟨rfl, rfl⟩), hu⟩)), ?_⟩
      rintro d i ⟨n, sp, k, h0, q1, h2, q3⟩
      rw [hs] at q1
      rw [hT] at h0
      rcases (hst n k).mp h2 with h2 | ⟨rfl, rfl⟩
      · exact g3.seated (k3 d i ⟨n, sp, k, h0, q1, h2, q3⟩)
      · exact g4 sp (hsp.trans q1) d i q3
    · rename_i e
      obtain ⟨I₀, k1, k2, k3⟩ := h.irms tb' J hJ
      refine ⟨I₀, k1, k2.mono (up tb'), ?_⟩
      rintro d i ⟨n, sp, k, h0, h1, h2, h3⟩
      rw [hs] at h1
      rw [hT] at h0
      rcases (hst n k).mp h2 with h2 | ⟨rfl, rfl⟩
      · exact k3 d i ⟨n, sp, k, h0, h1, h2, h3⟩
      · rw [hr] at h0; cases h0; exact absurd rfl e
  · obtain ⟨hn, _⟩ := sampleAt_next hc
    have hs : H'.schema = H.schema := hn.schema
    have hT : ∀ n, H'.tableOf n = H.tableOf n := hn.tableOf
    have hst : ∀ n k, H'.stores n k = H.stores n k := fun n k => stores_congr (hn.dataOf id) k
    have e : H'.Fed = H.Fed := by funext tb d i; unfold Fed; rw [hs]; simp only [hst, hT]
    obtain ⟨⟨tb, I⟩, h1, hc⟩ := bind_ok.mp hc
    obtain ⟨⟨id, rel⟩, h2, hc⟩ := bind_ok.mp hc
    obtain ⟨⟨v, rel', t₁⟩, h3, hc⟩ := bind_ok.mp hc
    cases hc
    refine ⟨fun n => (hT n).trans (h.tables n), fun tb' J hJ => ?_⟩
    rw [e]
    replace hJ : (H.irms.set tb { I with rels := I.rels.set r (id, rel') }).find? tb' = some J := hJ
    rw [FMap.find?_set] at hJ
    split at hJ
    · rename_i e
      subst e
      cases hJ
      exact h.irms tb' I (relationToIrm_ok.mp h1).2
    · exact h.irms tb' J hJ

theorem filled_start {H : HIRM F} (h : ∀ n k, ¬ H.stores n k = true) : Filled H H :=
  ⟨fun _ => rfl, fun _ I hI => ⟨I, hI, .refl _ _, fun _ _ ⟨n, _, k, _, _, h2, _⟩ => absurd h2 (h n k)⟩⟩

theorem inferenceStep_stores {H H' : HIRM F} (h : H.Tidy) {t t' : Tape} (hc : H.inferenceStep t = .ok (H', t')) (n : String) (k : Items) :
    H'.stores n k = H.stores n k := by
  obtain ⟨⟨H₁, t₁⟩, h1, hc⟩ := bind_ok.mp hc
  obtain ⟨⟨H₂, t₂⟩, h2, hc⟩ := bind_ok.mp hc
  have k1 := latentSweep_next (P := H.Latent) _ _ _ _ (fun _ h => h) h1
  have key : ∀ (l : List String) (H : HIRM F) (t : Tape) (x : HIRM F × Tape), latentSweep l H t = .ok x → x.1.stores n k = H.stores n k := by
    intro l
    induction l with
    | nil => intro H t x hc; cases hc; rfl
    | cons r l ih =>
      intro H t x hc
      obtain ⟨spec, hsp, hc⟩ := bind_ok.mp hc
      split at hc
      · obtain ⟨⟨H₁, t₁⟩, h1, hc⟩ := bind_ok.mp hc
        exact (ih _ _ _ hc).trans (transitionLatentRelation_stores h1 n k)
      · exact ih _ _ _ hc
  obtain ⟨a, b, c⟩ := transitionRelations_tidy _ _ _ _ (k1.tidy h) h2
  have k3 := stepIrms_next (P := fun _ => False) _ _ _ _ hc
  rw [stores_congr (k3.dataOf id), stores_congr (c n)]
  exact key _ _ _ _ h1

/-- inference changes values, but no relation gains or loses a tuple -/
theorem inference_stores : ∀ (m : Nat) (H : HIRM F) (t : Tape) (x : HIRM F × Tape), H.Tidy → inference m H t = .ok x → ∀ n k, x.1.stores n k = H.stores n k := by
  intro m
  induction m with
  | zero => intro H t x h hc n k; cases hc; rfl
  | succ m ih =>
    intro H t x h hc n k
    obtain ⟨⟨H₁, t₁⟩, h1, hc⟩ := bind_ok.mp hc
    exact (ih _ _ _ (inferenceStep_tidy h h1).1 hc n k).trans (inferenceStep_stores h h1 n k)

end HIRM
end
end Verif
