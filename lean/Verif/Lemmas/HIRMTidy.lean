import Verif.Lemmas.HIRMNext
import Verif.Props.HIRM
/-! The states that the constructor of an HIRM makes are tidy, whatever the distributions are. -/
namespace Verif
namespace HIRM
noncomputable section
variable {V : Type} {F : Family V}

theorem addPass_all {P : HIRM F → Prop} (hadd : ∀ {H H' : HIRM F} {name spec t t'}, P H → H.addRelation name spec t = .ok (H', t') → P H') :
    ∀ (l : List (String × RelSpec F)) (H : HIRM F) (a p : Bool) (t : Tape) (x : HIRM F × Bool × Bool × Tape), P H → addPass l H a p t = .ok x → P x.1 := by
  intro l
  induction l with
  | nil => intro H a p t x h hc; cases hc; exact h
  | cons e l ih =>
    obtain ⟨name, spec⟩ := e
    intro H a p t x h hc
    unfold addPass at hc
    split at hc
    · exact ih _ _ _ _ _ h hc
    · cases spec with
      | clean c ds o =>
        obtain ⟨⟨H1, t1⟩, h1, h2⟩ := bind_ok.mp hc
        exact ih _ _ _ _ _ (hadd h h1) h2
      | noisy e ds b o =>
        dsimp only at hc
        split at hc
        · obtain ⟨⟨H1, t1⟩, h1, h2⟩ := bind_ok.mp hc
          exact ih _ _ _ _ _ (hadd h h1) h2
        · exact ih _ _ _ _ _ h hc

theorem mk'_all {P : HIRM F → Prop} (h0 : P {}) (hadd : ∀ {H H' : HIRM F} {name spec t t'}, P H → H.addRelation name spec t = .ok (H', t') → P H') {schema : Schema F}
    {H : HIRM F} {t t' : Tape} (hc : mk' schema t = .ok (H, t')) : P H := by
  have : ∀ (k : Nat) (H : HIRM F) (t : Tape) (x : HIRM F × Tape), P H → addPasses schema k H t = .ok x → P x.1 := by
    intro k
    induction k with
    | zero => intro H t x _ hc; cases hc
    | succ k ih =>
      intro H t x h hc
      obtain ⟨⟨H1, a, p, t1⟩, h1, h2⟩ := bind_ok.mp hc
      have := addPass_all hadd _ _ _ _ _ _ h h1
      dsimp only at h2
      split at h2
      · cases h2; exact this
      · split at h2
        · cases h2
        · exact ih _ _ _ this h2
  exact this _ _ _ _ h0 hc

theorem addRelation_irms {H H' : HIRM F} {name : String} {spec : RelSpec F} {t t' : Tape} (hc : H.addRelation name spec t = .ok (H', t'))
    (h : ∀ tb I, H.irms.find? tb = some I → I.Tidy) : ∀ tb I, H'.irms.find? tb = some I → I.Tidy := by
  unfold addRelation at hc
  obtain ⟨_, _, hc⟩ := bind_ok.mp hc
  dsimp only at hc
  obtain ⟨crp, _, hc⟩ := bind_ok.mp hc
  have h' : ∀ tb I, (if H.irms.contains (H.crp.sample t).1 then H.irms else H.irms.set (H.crp.sample t).1 {}).find? tb = some I → I.Tidy := by
    intro tb I hI
    split at hI
    · exact h tb I hI
    · rw [FMap.find?_set] at hI
      split at hI
      · cases hI; exact IRM.Tidy.empty
      · exact h tb I hI
  have key : ∀ {btn : FMap String (List String)} {I I' : IRM F} {sp : RelSpec F} {irms : FMap Int (IRM F)}, (∀ tb I, irms.find? tb = some I → I.Tidy) →
      irms.find? (H.crp.sample t).1 = some I →
      ({ schema := FMap.set H.schema name sp, irms := irms, relToCode := H.relToCode, codeToRel := H.codeToRel, baseToNoisy := btn, crp := crp, next := H.next } :
        HIRM F).addRelationToIrm I name sp = .ok I' → ∀ tb J, (irms.set (H.crp.sample t).1 I').find? tb = some J → J.Tidy := by
    intro btn I I' sp irms hall h1 h2 tb J hJ
    rw [FMap.find?_set] at hJ
    split at hJ
    · cases hJ
      exact addRelationToIrm_tidy h2 (hall _ _ h1)
    · exact hall tb J hJ
  cases spec with
  | clean c ds o =>
    obtain ⟨btn, _, hc⟩ := bind_ok.mp hc
    obtain ⟨I, h1, hc⟩ := bind_ok.mp hc
    obtain ⟨I', h2, hc⟩ := bind_ok.mp hc
    obtain ⟨_, _, hc⟩ := bind_ok.mp hc
    obtain ⟨_, _, hc⟩ := bind_ok.mp hc
    cases hc
    exact key h' (FMap.atKey_ok.mp h1) h2
  | noisy e ds b o =>
    dsimp only at hc
    split at hc
    · obtain ⟨_, _, hc⟩ := bind_ok.mp hc
      cases hc
    · obtain ⟨btn, _, hc⟩ := bind_ok.mp hc
      obtain ⟨I, h1, hc⟩ := bind_ok.mp hc
      obtain ⟨I', h2, hc⟩ := bind_ok.mp hc
      obtain ⟨_, _, hc⟩ := bind_ok.mp hc
      obtain ⟨_, _, hc⟩ := bind_ok.mp hc
      cases hc
      exact key h' (FMap.atKey_ok.mp h1) h2

theorem mk'_tidy {schema : Schema F} {H : HIRM F} {t t' : Tape} (hc : mk' schema t = .ok (H, t')) : H.Tidy :=
  ⟨(mk'_history hc).skel, mk'_all (P := fun H => ∀ tb I, H.irms.find? tb = some I → I.Tidy) (fun _ _ h => by cases h) (fun h h' => addRelation_irms h' h) hc⟩

end
end HIRM
end Verif
