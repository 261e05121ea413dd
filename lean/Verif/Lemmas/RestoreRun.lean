import Verif.Lemmas.RestoreMain
/-!
Inference in an IRM stores and loses nothing, and what a run of `hirm` starts with.
-/
namespace Verif
noncomputable section
variable {V : Type} {F : Family V}
open UtilIO

namespace IRM

theorem stores_put {I : IRM F} {n : String} {x : Nat × Rel F} (hx : I.rels.find? n = some x) (y : Nat × Rel F) (hy : ∀ k, y.2.data.contains k = x.2.data.contains k)
    (m : String) (k : Items) : stores { I with rels := I.rels.set n y } m k = I.stores m k := by
  unfold stores IRM.dataOf
  show FMap.contains ((Option.map _ ((I.rels.set n y).find? m)).getD ∅) k = _
  rw [FMap.find?_set]
  split
  · rename_i e; subst e; rw [hx]; exact hy k
  · rfl

/-- what is stored of a noisy relation -/
def Holding (I : IRM F) (x : LatentNoisy F) : Prop := ∀ k, I.stores x.name k = x.r.data.contains k

theorem noisyOf_keeps {I : IRM F} {p : Ptr} : ∀ {l : List String} {xs : List (LatentNoisy F)}, noisyOf I p l = .ok xs → ∀ x ∈ xs, I.Holding x := by
  intro l
  induction l with
  | nil => intro xs hc; cases hc; simp
  | cons n l ih =>
    intro xs hc
    obtain ⟨⟨id, rel⟩, h1, hc⟩ := bind_ok.mp hc
    cases rel with
    | clean c q => cases hc
    | noisy e q r =>
      dsimp only at hc
      split at hc
      · obtain ⟨xs', h2, hc⟩ := bind_ok.mp hc
        cases hc
        intro x hx
        rcases List.mem_cons.mp hx with rfl | hx
        · intro k
          unfold stores IRM.dataOf
          rw [FMap.atKey_ok.mp h1]
          rfl
        · exact ih h2 x hx
      · cases hc

theorem storeNoisy_stores {p : Ptr} {I₀ : IRM F} : ∀ (l : List (LatentNoisy F)) (I I' : IRM F), (∀ n k, I.stores n k = I₀.stores n k) → (∀ x ∈ l, I₀.Holding x) →
    storeNoisy I p l = .ok I' → ∀ n k, I'.stores n k = I₀.stores n k := by
  intro l
  induction l with
  | nil => intro I I' h _ hc; cases hc; exact h
  | cons x l ih =>
    intro I I' h hl hc
    obtain ⟨⟨id, rel⟩, h1, hc⟩ := bind_ok.mp hc
    refine ih _ _ (fun n k => ?_) (fun z hz => hl z (by simp [hz])) hc
    rw [stores_put (FMap.atKey_ok.mp h1)]
    · exact h n k
    · intro k
      have a := h x.name k
      rw [hl x (by simp) k] at a
      unfold stores IRM.dataOf at a
      rw [FMap.atKey_ok.mp h1] at a
      exact a.symm

theorem transitionLatentRelation_stores {env : Env V} {I I' : IRM F} {r : String} {t t' : Tape} (hc : transitionLatentRelation env I r t = .ok (I', t'))
    (n : String) (k : Items) : I'.stores n k = I.stores n k := by
  obtain ⟨⟨id, rel⟩, h1, hc⟩ := bind_ok.mp hc
  obtain ⟨names, _, hc⟩ := bind_ok.mp hc
  obtain ⟨noisy, h2, hc⟩ := bind_ok.mp hc
  obtain ⟨⟨base, noisy', t1⟩, h3, hc⟩ := bind_ok.mp hc
  obtain ⟨I1, h4, hc⟩ := bind_ok.mp hc
  cases hc
  obtain ⟨_, b⟩ := Latent.latentLoop_steps _ _ _ _ _ h3
  have hk := Latent.latentLoop_keys _ _ _ _ _ h3
  refine storeNoisy_stores _ _ _ (fun n k => stores_put (FMap.atKey_ok.mp h1) _ hk n k) (fun x hx => ?_) h4 n k
  obtain ⟨y, hy, hs⟩ := b x hx
  intro k
  rw [hs.name, hs.data]
  exact noisyOf_keeps h2 y ((shuffle_perm _ _).mem_iff.mp hy) k

theorem latentSweep_stores {env : IRM F → Env V} : ∀ (l : List String) (I : IRM F) (t : Tape) (x : IRM F × Tape), latentSweep env l I t = .ok x →
    ∀ n k, x.1.stores n k = I.stores n k := by
  intro l
  induction l with
  | nil => intro I t x h n k; cases h; rfl
  | cons r l ih =>
    intro I t x h n k
    obtain ⟨spec, _, h⟩ := bind_ok.mp h
    split at h
    · obtain ⟨⟨I1, t1⟩, h1, h⟩ := bind_ok.mp h
      exact (ih _ _ _ h n k).trans (transitionLatentRelation_stores h1 n k)
    · exact ih _ _ _ h n k

/-- a step with or without latent values -/
theorem singleStep_stores {I I' : IRM F} {m : Nat} {b : Bool} {t t' : Tape} (hc : singleStep I m b t = .ok (I', t')) :
    (∀ n k, I'.stores n k = I.stores n k) ∧ SeatsIn I.doms I'.doms := by
  obtain ⟨I0, t0, e, e', h1⟩ : ∃ I0 t0, I0.doms = I.doms ∧ (∀ n k, I0.stores n k = I.stores n k) ∧ singleStep I0 m false t0 = .ok (I', t') := by
    cases b with
    | false => exact ⟨I, t, rfl, fun _ _ => rfl, hc⟩
    | true =>
      obtain ⟨⟨I0, t0⟩, h0, h1⟩ := bind_ok.mp hc
      exact ⟨I0, t0, latentSweep_doms _ _ _ _ h0, latentSweep_stores _ _ _ _ h0, h1⟩
  refine ⟨fun n k => ?_, ?_⟩
  · have := (singleStep_next (P := fun _ => False) h1).dataOf (n := n) id
    rw [← e' n k]
    unfold stores
    rw [this]
  · rw [← e]; exact (singleStep_stays h1).seats

end IRM

namespace HirmMain

theorem inferenceIrm_stores : ∀ (m : Nat) (I : IRM F) (t : Tape) (x : IRM F × Tape), inferenceIrm m I t = .ok x →
    (∀ n k, x.1.stores n k = I.stores n k) ∧ SeatsIn I.doms x.1.doms := by
  intro m
  induction m with
  | zero => intro I t x hc; cases hc; exact ⟨fun _ _ => rfl, .refl _⟩
  | succ m ih =>
    intro I t x hc
    obtain ⟨⟨I1, t1⟩, h1, hc⟩ := bind_ok.mp hc
    obtain ⟨a, b⟩ := IRM.singleStep_stores h1
    obtain ⟨c, d⟩ := ih _ _ _ hc
    exact ⟨fun n k => (c n k).trans (a n k), b.trans d⟩

theorem Given.bases {R : Reader F} {a : Args} {i : Inputs F} (hg : Given R a i) :
    ∀ n spec b sp, i.schema.find? n = some spec → spec.base? = some b → i.schema.find? b = some sp → sp.doms <+: spec.doms := by
  intro n spec b sp q1 q2 q3
  obtain ⟨sp', r1, r2⟩ := hg.read.bases n spec b q1 q2
  rw [q3] at r1; cases r1; exact r2

/-- a new HIRM with the observations -/
theorem startHirm_new {R : Reader F} {a : Args} {i : Inputs F} (hg : Given R a i) (ha : a.clusters = none) {t t' : Tape} {H : HIRM F}
    (h : startHirm R a i t = .ok (H, t')) : H.schema = i.schema ∧ H.Tidy ∧ H.Firm ∧ (∀ n k, H.stores n k = true ↔ Stated i.schema i.observations i.encoding n k) ∧
      Coded i.schema i.observations i.encoding := by
  unfold startHirm at h
  rw [ha] at h
  obtain ⟨⟨H0, t0⟩, h1, h⟩ := bind_ok.mp h
  obtain ⟨hs, hd⟩ := HIRM.C31_hirm_result h1
  have k : HIRM.Known (fun _ _ => True) H0 := HIRM.known_mk' h1
  have hN := HIRM.Named.mk' h1
  have h0 : ∀ n k, ¬ H0.stores n k = true := by
    intro n k' hk
    obtain ⟨spec, hsp⟩ := k.tidy.stored hk
    rw [hs] at hsp
    obtain ⟨tb, id, r, hr, _, _, _, hd⟩ := hd n spec hsp
    unfold HIRM.stores HIRM.dataOf at hk
    rw [hr] at hk
    replace hk : r.data.contains k' = true := hk
    rw [hd] at hk
    cases hk
  obtain ⟨p, q, r, _, _, u⟩ := HIRM.read_observations k hN h0 (by rw [hs]; exact hg.bases) h
  rw [hs] at p q u
  exact ⟨p, r.tidy, HIRM.Firm.observations (HIRM.mk'_sound h1) k hN h0 h, q, u⟩

/-- a new IRM with the observations -/
theorem startIrm_new {R : Reader F} {a : Args} {i : Inputs F} (hg : Given R a i) (ha : a.clusters = none) {t t' : Tape} {I : IRM F}
    (h : startIrm R a i t = .ok (I, t')) : I.schema = i.schema ∧ (∀ n k, I.stores n k = true ↔ Stated i.schema i.observations i.encoding n k) ∧
      Coded i.schema i.observations i.encoding ∧ ∀ d c, I.Fed d c → Seated I.doms d c := by
  unfold startIrm at h
  rw [ha] at h
  obtain ⟨I0, h1, h⟩ := bind_ok.mp h
  obtain ⟨I1, h2, h1⟩ := bind_ok.mp h1
  obtain ⟨_, _, h1⟩ := bind_ok.mp h1
  cases h1
  obtain ⟨e, k, hN, h0⟩ := IRM.addAll_start h2
  obtain ⟨p, q, _, r, _, u⟩ := IRM.read_observations k hN h0 (by rw [e]; exact hg.bases) h
  rw [e] at p q u
  exact ⟨p, q, u, r.seated⟩

/-- an HIRM with clusters from a file -/
theorem startHirm_load {R : Reader F} {a : Args} {i : Inputs F} (hg : Given R a i) {text : List Char} (ha : a.clusters = some text) {t t' : Tape} {H : HIRM F}
    (h : startHirm R a i t = .ok (H, t')) : ∃ S t₁ rels irms, Alike S i.schema ∧ loadClustersHirm text = .ok (rels, irms) ∧
      (∀ n spec b sp, S.find? n = some spec → spec.base? = some b → S.find? b = some sp → sp.doms <+: spec.doms) ∧
      hirmFromTxt R.parse S i.observations rels irms t₁ = .ok (H, t') := by
  unfold startHirm at h
  rw [ha] at h
  obtain ⟨S, g1, g2, S', tg, tg', g3⟩ := hg.schema
  obtain ⟨S1, h1, h⟩ := bind_ok.mp h
  rw [g1] at h1
  cases h1
  obtain ⟨⟨⟨obs, S2⟩, t1⟩, h2, h⟩ := bind_ok.mp h
  obtain ⟨⟨rels, irms⟩, h3, h⟩ := bind_ok.mp h
  have e := loadObservations_obs g3 h2
  subst e
  have al := loadObservations_alike h2
  have hr := al.read (loadSchema_read g1)
  exact ⟨S2, t1, rels, irms, al.symm.trans g2, h3, (fun n spec b sp q1 q2 q3 => by
      obtain ⟨sp', r1, r2⟩ := hr.bases n spec b q1 q2
      rw [q3] at r1; cases r1; exact r2), h⟩

theorem startIrm_load {R : Reader F} {a : Args} {i : Inputs F} (hg : Given R a i) {text : List Char} (ha : a.clusters = some text) {t t' : Tape} {I : IRM F}
    (h : startIrm R a i t = .ok (I, t')) : ∃ S t₁ cl, Alike S i.schema ∧ loadClustersIrm text = .ok cl ∧
      (∀ n spec b sp, S.find? n = some spec → spec.base? = some b → S.find? b = some sp → sp.doms <+: spec.doms) ∧
      irmFromTxt R.parse S i.observations cl t₁ = .ok (I, t') := by
  unfold startIrm at h
  rw [ha] at h
  obtain ⟨S, g1, g2, S', tg, tg', g3⟩ := hg.schema
  obtain ⟨S1, h1, h⟩ := bind_ok.mp h
  rw [g1] at h1
  cases h1
  obtain ⟨⟨⟨obs, S2⟩, t1⟩, h2, h⟩ := bind_ok.mp h
  obtain ⟨cl, h3, h⟩ := bind_ok.mp h
  have e := loadObservations_obs g3 h2
  subst e
  have al := loadObservations_alike h2
  have hr := al.read (loadSchema_read g1)
  exact ⟨S2, t1, cl, al.symm.trans g2, h3, (fun n spec b sp q1 q2 q3 => by
      obtain ⟨sp', r1, r2⟩ := hr.bases n spec b q1 q2
      rw [q3] at r1; cases r1; exact r2), h⟩

/-- two runs with the same schema and observations -/
theorem Given.same {R : Reader F} {a a' : Args} {i i' : Inputs F} (h : Given R a i) (h' : Given R a' i') (hs : a'.schema = a.schema) (ho : a'.obs = a.obs) :
    Alike i'.schema i.schema ∧ i'.observations = i.observations := by
  obtain ⟨S, g1, g2, S', tg, tg', g3⟩ := h.schema
  obtain ⟨T, k1, k2, T', tk, tk', k3⟩ := h'.schema
  rw [hs, g1] at k1
  cases k1
  rw [ho] at k3
  exact ⟨k2.symm.trans g2, (loadObservations_obs g3 k3).symm⟩

end HirmMain
end
end Verif
