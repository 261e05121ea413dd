import Verif.Lemmas.BigramUndo
import Verif.Props.BigramString
/-!
C43 for the bigram string emission: `unincorporate` does not undo `incorporate`.
-/
namespace Verif
noncomputable section
namespace BigramString

/-- Incorporating the pair ("a", "a") into a fresh emission and unincorporating it again (both succeed) leaves the emission with another
probability of copying an `a`: the weights of the two alignments are computed anew from the changed tables. -/
theorem C43_bigram_no_round_trip : ∃ s1 s2 : BigramString, init.incorporate (['a'], ['a']) 1 = .ok s1 ∧
    s1.incorporate (['a'], ['a']) (-1) = .ok s2 ∧
    ∃ p q : ℝ, vecLogp init.substitutions (getIndex 'a') (getIndex 'a') = .ok p ∧
      vecLogp s2.substitutions (getIndex 'a') (getIndex 'a') = .ok q ∧ p ≠ q := by
  have fine : (nums init).Fine := by rw [nums_init]; constructor <;> norm_num
  obtain ⟨s1, h1, o1, n1⟩ := incorporate_copied ones_init fine 1
  -- the copy gets one of 85828705 parts
  have n1' : nums s1 = ⟨85828704/85828705, 9216 + 1 + 85828704/85828705, 9216, 0, 9216, 85828704/85828705, 9216 + 1/85828705, 9217⟩ ∨
      nums s1 = ⟨0, 9217, 9216, 85828704/85828705, 9216 + 85828704/85828705, 85828704/85828705, 9216 + 1/85828705, 9217⟩ := by
    rcases n1 with n1 | n1
    · left; rw [n1, nums_init]; simp only [Nums.ins, Nums.eM, Nums.eI]; norm_num
    · right; rw [n1, nums_init]; simp only [Nums.del, Nums.eM, Nums.eD]; norm_num
  have fine1 : (nums s1).Fine := by rcases n1' with n | n <;> rw [n] <;> constructor <;> norm_num
  obtain ⟨s2, h2, o2, n2⟩ := incorporate_copied o1 fine1 (-1)
  have hN : (nums s2).sN = 9216 ∧ (nums s2).s66 ≠ 9216 ∧ 0 < (nums s2).s66 := by
    rcases n2 with n2 | n2 <;> rcases n1' with n | n <;> rw [n2, n] <;> simp only [Nums.ins, Nums.del, Nums.eM, Nums.eI, Nums.eD] <;> norm_num
  refine ⟨s1, s2, h1, h2, _, _, vecLogp_num ones_init.wf.sub idx66 idx66 ones_init.c, vecLogp_num o2.wf.sub idx66 idx66 o2.c, ?_⟩
  have i1 : num init.substitutions (66 : Int).toNat (66 : Int).toNat = 9216 := congrArg Nums.s66 nums_init
  have i2 : (tab init.substitutions (66 : Int).toNat).N = 9216 := congrArg Nums.sN nums_init
  have j1 : num s2.substitutions (66 : Int).toNat (66 : Int).toNat = (nums s2).s66 := rfl
  have j2 : (tab s2.substitutions (66 : Int).toNat).N = 9216 := hN.1
  rw [getIndex_a, i1, i2, j1, j2]
  intro he
  have := Real.log_injOn_pos (show (1 + 9216 : ℝ) ∈ Set.Ioi 0 by simp; norm_num)
    (show 1 + (nums s2).s66 ∈ Set.Ioi 0 by have := hN.2.2; simp only [Set.mem_Ioi]; linarith) (by linarith)
  exact hN.2.1 (by linarith)

end BigramString
end
end Verif
