import Verif.Spec.LatentValue
import Verif.Lemmas.EmissionMore
import Verif.Model.BigramString
/-! Every distribution and emission of the repository counts its data. -/
namespace Verif
noncomputable section

theorem DistOps.Counted.of {V : Type} {D : DistOps V} {f : D.S → V → ℝ → Res D.S} (hi : ∀ s x, D.inc s x = f s x 1)
    (hd : ∀ s x, D.dec s x = f s x (-1)) (h : ∀ {s s' x w}, f s x w = .ok s' → D.N s' = D.N s + w) : D.Counted :=
  ⟨fun e => h ((hi _ _).symm.trans e), fun e => by rw [h ((hd _ _).symm.trans e)]; exact (sub_eq_add_neg _ _).symm⟩

theorem BetaBernoulli.counted : BetaBernoulli.ops.Counted :=
  .of (f := fun (s : BetaBernoulli) x w => .ok (s.incorporate x w)) (fun _ _ => rfl) (fun _ _ => rfl)
    (fun h => by injection h with h; subst h; rfl)

theorem Normal.incorporate_N (s : Normal) (x w) : (s.incorporate x w).N = s.N + w := by
  unfold Normal.incorporate
  dsimp only
  split <;> rfl

theorem ZeroMeanNormal.incorporate_N (s : ZeroMeanNormal) (x w) : (s.incorporate x w).N = s.N + w := by
  unfold ZeroMeanNormal.incorporate
  dsimp only
  split <;> rfl

theorem Normal.counted : Normal.ops.Counted :=
  .of (f := fun (s : Normal) x w => .ok (s.incorporate x w)) (fun _ _ => rfl) (fun _ _ => rfl)
    (fun h => by injection h with h; subst h; exact Normal.incorporate_N _ _ _)

theorem ZeroMeanNormal.counted : ZeroMeanNormal.ops.Counted :=
  .of (f := fun (s : ZeroMeanNormal) x w => .ok (s.incorporate x w)) (fun _ _ => rfl) (fun _ _ => rfl)
    (fun h => by injection h with h; subst h; exact ZeroMeanNormal.incorporate_N _ _ _)

theorem Skellam.counted (a b c) : (Skellam.ops a b c).Counted :=
  ⟨fun h => by injection h with h; subst h; rfl, fun h => by injection h with h; subst h; rfl⟩

theorem DirichletCategorical.incorporate_N {s s' : DirichletCategorical} {x w} (h : s.incorporate x w = .ok s') : s'.N = s.N + w := by
  unfold DirichletCategorical.incorporate at h
  simp only [bind, Except.bind] at h
  split at h
  · cases h
  · injection h with h; subst h; rfl

theorem DirichletCategorical.counted (k) : (DirichletCategorical.ops k).Counted :=
  .of (f := fun (s : DirichletCategorical) x w => s.incorporate x w) (fun _ _ => rfl) (fun _ _ => rfl) DirichletCategorical.incorporate_N

theorem StringCat.incorporate_N {s s' : StringCat} {x w} (h : s.incorporate x w = .ok s') : s'.N = s.N + w := by
  unfold StringCat.incorporate at h
  simp only [bind, Except.bind] at h
  split at h
  · cases h
  · split at h
    · cases h
    · injection h with h; subst h; rfl

theorem StringCat.counted (k) : (StringCat.ops k).Counted :=
  .of (f := fun (s : StringCat) x w => s.incorporate x w) (fun _ _ => rfl) (fun _ _ => rfl) StringCat.incorporate_N

theorem Bigram.incorporate_N {s s' : Bigram} {x w} (h : s.incorporate x w = .ok s') : s'.N = s.N + w := by
  unfold Bigram.incorporate at h
  split at h
  · cases h
  · simp only [bind, Except.bind] at h
    split at h
    · cases h
    · split at h
      · cases h
      · injection h with h; subst h; rfl

theorem Bigram.counted (a b c) : (Bigram.ops a b c).Counted :=
  .of (f := fun (s : Bigram) x w => s.incorporate x w) (fun _ _ => rfl) (fun _ _ => rfl) Bigram.incorporate_N

/-- the same for emissions, with every weight -/
def WEmis.Counted {V : Type} (W : WEmis V) : Prop := ∀ {s s' x w}, W.incW s x w = .ok s' → W.N s' = W.N s + w

theorem WEmis.Counted.ops {V : Type} {W : WEmis V} (h : W.Counted) : W.ops.toDistOps.Counted :=
  .of (f := W.incW) (fun _ _ => rfl) (fun _ _ => rfl) h

theorem BitFlip.counted : BitFlip.Counted := by
  intro s s' x w h
  simp only [BitFlip, bind, Except.bind] at h
  split at h
  · cases h
  · injection h with h; exact h.symm

theorem IdentityEmission.counted (V) : (IdentityEmission V).Counted := by
  intro s s' x w h
  simp only [IdentityEmission, bind, Except.bind] at h
  injection h with h; exact h.symm

theorem GaussianEmission.counted (z) : (GaussianEmission z).Counted := by
  intro s s' x w h
  simp only [GaussianEmission] at h
  injection h with h; subst h; rfl

theorem CategoricalEmission.counted (k) : (CategoricalEmission k).Counted := by
  intro s s' x w h
  simp only [CategoricalEmission, CategoricalEmission.incorporate, bind, Except.bind] at h
  split at h
  · cases h
  · split at h
    · cases h
    · injection h with h; subst h; rfl

theorem Sometimes.counted {V : Type} [DecidableEq V] (W : WEmis V) (f : Bool) : (Sometimes W f).Counted := by
  intro s s' x w h
  simp only [Sometimes, Sometimes.incorporate, bind, Except.bind] at h
  split at h
  · split at h
    · cases h
    · injection h with h; subst h; rfl
  · split at h
    · split at h
      · cases h
      · split at h
        · cases h
        · injection h with h; subst h; rfl
    · injection h with h; subst h; rfl

theorem SimpleString.corporate_N (s : SimpleString.St) (c d w) : (SimpleString.corporate s c d w).N = s.N := by
  fun_induction SimpleString.corporate s c d w <;> first | rfl | assumption

theorem SimpleStringEmission.counted : SimpleStringEmission.Counted := by
  intro s s' x w h
  simp only [SimpleStringEmission] at h
  injection h with h
  subst h
  exact SimpleString.corporate_N _ _ _ _

theorem BigramString.incPiece_N {s s' : BigramString} {ctx ctx' w p} (h : s.incPiece ctx w p = .ok (s', ctx')) : s'.N = s.N := by
  cases p <;> simp only [BigramString.incPiece, bind, Except.bind] at h
  case ins =>
    split at h
    · cases h
    · injection h with h; injection h with h h2; subst h; rfl
  all_goals
    split at h
    · cases h
    · split at h
      · cases h
      · injection h with h; injection h with h h2; subst h; rfl

theorem BigramString.incPieces_N {s s' : BigramString} {ctx w ps} (h : s.incPieces ctx w ps = .ok s') : s'.N = s.N := by
  induction ps generalizing s ctx with
  | nil => simp only [BigramString.incPieces] at h; injection h with h; rw [h]
  | cons p ps ih =>
    simp only [BigramString.incPieces, bind, Except.bind] at h
    split at h
    · cases h
    · rename_i x hx
      obtain ⟨s1, c1⟩ := x
      rw [ih h, BigramString.incPiece_N hx]

theorem BigramString.incAlignments_N {s s' : BigramString} {as} (h : s.incAlignments as = .ok s') : s'.N = s.N := by
  induction as generalizing s with
  | nil => simp only [BigramString.incAlignments] at h; injection h with h; rw [h]
  | cons p ps ih =>
    simp only [BigramString.incAlignments, bind, Except.bind] at h
    split at h
    · cases h
    · rename_i x hx
      rw [ih h, BigramString.incPieces_N hx]

theorem BigramStringEmission.counted : BigramStringEmission.Counted := by
  intro s s' x w h
  simp only [BigramStringEmission, BigramString.incorporate, bind, Except.bind] at h
  split at h
  · cases h
  · exact BigramString.incAlignments_N h

end
end Verif
