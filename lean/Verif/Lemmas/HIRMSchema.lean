import Verif.Lemmas.HIRM
/-! Inference leaves the schema of an HIRM as it is, whatever the state. -/
namespace Verif
namespace HIRM
noncomputable section
variable {V : Type} {F : Family V}

theorem storeNoisy_schema {p : Ptr} {l : List (LatentNoisy F)} : ∀ {H H' : HIRM F}, storeNoisy p l H = .ok H' → H'.schema = H.schema := by
  induction l with
  | nil => intro H H' h; cases h; rfl
  | cons x l ih =>
    intro H H' h
    unfold storeNoisy at h
    obtain ⟨⟨tb, I⟩, _, h⟩ := bind_ok.mp h
    dsimp only at h
    obtain ⟨⟨id, _⟩, _, h⟩ := bind_ok.mp h
    exact (ih h :)

theorem transitionLatentRelation_schema {H H' : HIRM F} {r : String} {t t' : Tape} (h : H.transitionLatentRelation r t = .ok (H', t')) : H'.schema = H.schema := by
  unfold transitionLatentRelation at h
  obtain ⟨⟨tb, I⟩, _, h⟩ := bind_ok.mp h
  obtain ⟨⟨id, rel⟩, _, h⟩ := bind_ok.mp h
  obtain ⟨names, _, h⟩ := bind_ok.mp h
  obtain ⟨noisy, _, h⟩ := bind_ok.mp h
  obtain ⟨⟨base, noisy', t₁⟩, _, h⟩ := bind_ok.mp h
  obtain ⟨H₁, h1, h⟩ := bind_ok.mp h
  cases h
  exact (storeNoisy_schema h1 :)

theorem latentSweep_schema {l : List String} : ∀ {H H' : HIRM F} {t t' : Tape}, latentSweep l H t = .ok (H', t') → H'.schema = H.schema := by
  induction l with
  | nil => intro H H' t t' h; cases h; rfl
  | cons r l ih =>
    intro H H' t t' h
    unfold latentSweep at h
    obtain ⟨spec, _, h⟩ := bind_ok.mp h
    split at h
    · obtain ⟨⟨H₁, t₁⟩, h1, h⟩ := bind_ok.mp h
      exact (ih h).trans (transitionLatentRelation_schema h1)
    · exact ih h

theorem updateLoop_schema {r : String} {l : List String} : ∀ {H H' : HIRM F}, updateLoop r l H = .ok H' → H'.schema = H.schema := by
  induction l with
  | nil => intro H H' h; cases h; rfl
  | cons n l ih =>
    intro H H' h
    unfold updateLoop at h
    obtain ⟨⟨tb, I⟩, _, h⟩ := bind_ok.mp h
    dsimp only at h
    obtain ⟨⟨id, rel⟩, _, h⟩ := bind_ok.mp h
    dsimp only at h
    split at h
    · cases h
    · obtain ⟨⟨p, _⟩, _, h⟩ := bind_ok.mp h
      exact (ih h :)

theorem settle_schema {H H' : HIRM F} {r : String} {rc cur choice : Int} {order : List Int} {aux : Option (Int × IRM F)}
    (h : H.settle r rc cur choice order aux = .ok H') : H'.schema = H.schema := by
  unfold settle at h
  obtain ⟨irms, _, h⟩ := bind_ok.mp h
  obtain ⟨crp, _, h⟩ := bind_ok.mp h
  obtain ⟨crp', _, h⟩ := bind_ok.mp h
  obtain ⟨_, _, h⟩ := bind_ok.mp h
  unfold updateBase at h
  split at h
  · cases h; rfl
  · exact (updateLoop_schema h :)

theorem transitionRelation_schema {H H' : HIRM F} {r : String} {t t' : Tape} (h : H.transitionRelation r t = .ok (H', t')) : H'.schema = H.schema := by
  unfold transitionRelation at h
  obtain ⟨rc, _, h⟩ := bind_ok.mp h
  obtain ⟨cur, _, h⟩ := bind_ok.mp h
  obtain ⟨⟨_, rel⟩, _, h⟩ := bind_ok.mp h
  obtain ⟨spec, _, h⟩ := bind_ok.mp h
  obtain ⟨w, _, h⟩ := bind_ok.mp h
  obtain ⟨⟨lps, H₁, aux, t₁⟩, h1, h⟩ := bind_ok.mp h
  obtain ⟨choice, _, h⟩ := bind_ok.mp h
  obtain ⟨H₂, h2, h⟩ := bind_ok.mp h
  cases h
  have hnd : ((shuffle w.entries t).1.map Prod.fst).Nodup :=
    ((shuffle_perm w.entries t).map _).nodup_iff.mpr (FMap.nodupKeys w)
  obtain ⟨_, hS, _⟩ := scoreTables_inv _ _ _ _ _ _ _ _ hnd (fun _ _ h => by cases h) h1
  exact (settle_schema h2).trans hS.schema

theorem transitionRelations_schema {l : List String} : ∀ {H H' : HIRM F} {t t' : Tape}, transitionRelations l H t = .ok (H', t') → H'.schema = H.schema := by
  induction l with
  | nil => intro H H' t t' h; cases h; rfl
  | cons r l ih =>
    intro H H' t t' h
    unfold transitionRelations at h
    obtain ⟨⟨H₁, t₁⟩, h1, h⟩ := bind_ok.mp h
    exact (ih h).trans (transitionRelation_schema h1)

theorem stepIrms_schema {l : List Int} : ∀ {H H' : HIRM F} {t t' : Tape}, stepIrms l H t = .ok (H', t') → H'.schema = H.schema := by
  induction l with
  | nil => intro H H' t t' h; cases h; rfl
  | cons r l ih =>
    intro H H' t t' h
    unfold stepIrms at h
    obtain ⟨I, _, h⟩ := bind_ok.mp h
    obtain ⟨⟨I₁, t₁⟩, _, h⟩ := bind_ok.mp h
    exact (ih h :)

theorem inference_schema {n : Nat} : ∀ {H H' : HIRM F} {t t' : Tape}, inference n H t = .ok (H', t') → H'.schema = H.schema := by
  induction n with
  | zero => intro H H' t t' h; cases h; rfl
  | succ n ih =>
    intro H H' t t' h
    unfold inference at h
    obtain ⟨⟨H₁, t₁⟩, h1, h⟩ := bind_ok.mp h
    refine (ih h).trans ?_
    unfold inferenceStep at h1
    obtain ⟨⟨H₂, t₂⟩, h2, h1⟩ := bind_ok.mp h1
    obtain ⟨⟨H₃, t₃⟩, h3, h1⟩ := bind_ok.mp h1
    exact (stepIrms_schema h1).trans ((transitionRelations_schema h3).trans (latentSweep_schema h2))

end
end HIRM
end Verif
