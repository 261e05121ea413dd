import Verif.Lemmas.Text
import Verif.Spec.Text
namespace Verif
namespace Text

theorem parts_flatMap {d : Char} (ls : List (List Char)) (h : ∀ l ∈ ls, d ∉ l) : parts d (ls.flatMap (· ++ [d])) = ls := by
  induction ls with
  | nil => rfl
  | cons l ls ih =>
    have : (l :: ls).flatMap (· ++ [d]) = l ++ d :: ls.flatMap (· ++ [d]) := by simp
    rw [this, parts_cons (h l (by simp))]
    exact congrArg _ (ih (fun x hx => h x (by simp [hx])))

theorem getl_snoc {d : Char} (cs : List Char) : ∀ acc, acc ++ cs ≠ [] → cs.getLast? ≠ some d → getl d acc (cs ++ [d]) = getl d acc cs := by
  induction cs with
  | nil => intro acc h _; simp at h; simp [getl, h]
  | cons c cs ih =>
    intro acc _ hl
    by_cases hc : c = d
    · subst hc
      rw [List.cons_append, getl, getl, if_pos rfl, if_pos rfl]
      cases cs with
      | nil => simp at hl
      | cons c' cs => rw [ih [] (by simp) (by simpa using hl)]
    · rw [List.cons_append, getl, getl, if_neg hc, if_neg hc, ih (acc ++ [c]) (by simp)]
      cases cs with
      | nil => simp
      | cons c' cs => simpa using hl

theorem parts_ended (d : Char) (text : List Char) : parts d (ended d text) = parts d text := by
  unfold ended
  split
  · rfl
  · rename_i h
    simp only [not_or] at h
    exact getl_snoc text [] (by simpa using h.1) h.2

theorem flatMap_getl {d : Char} (cs : List Char) : ∀ acc, d ∉ acc → (cs = [] → acc = []) → (cs ≠ [] → cs.getLast? = some d) →
    (getl d acc cs).flatMap (· ++ [d]) = acc ++ cs := by
  induction cs with
  | nil => intro acc _ h _; simp [getl, h rfl]
  | cons c cs ih =>
    intro acc ha _ hl
    have hl := hl (by simp)
    by_cases hc : c = d
    · subst hc
      rw [getl, if_pos rfl, List.flatMap_cons, ih [] (by simp) (fun _ => rfl)]
      · simp
      · intro h
        cases cs with
        | nil => exact absurd rfl h
        | cons c' cs => simpa using hl
    · rw [getl, if_neg hc, ih (acc ++ [c])]
      · simp
      · simp [ha]; exact fun h => hc h.symm
      · intro h; subst h; simp at hl; exact absurd hl hc
      · intro h
        cases cs with
        | nil => exact absurd rfl h
        | cons c' cs => simpa using hl

theorem parts_iff {d : Char} {text : List Char} {ps : List (List Char)} : parts d text = ps ↔ Consists d text ps := by
  constructor
  · rintro rfl
    refine ⟨fun p => parts_no_delim, ?_⟩
    rw [← parts_ended]
    unfold parts
    rw [flatMap_getl _ [] (by simp) (fun _ => rfl)]
    · simp
    · unfold ended
      split
      · rename_i h
        intro hn
        rcases h with h | h
        · exact absurd h hn
        · exact h
      · simp
  · rintro ⟨h1, h2⟩
    rw [← parts_ended, ← h2, parts_flatMap ps h1]

theorem digit_isDigit {n : Nat} (h : n < 10) : isDigit (digit n) = true := by
  rcases n with _ | _ | _ | _ | _ | _ | _ | _ | _ | _ | n <;> first | rfl | omega

theorem natDigits_digits : ∀ (fuel n : Nat), ∀ c ∈ natDigits fuel n, isDigit c = true := by
  intro fuel
  induction fuel with
  | zero => intro n c h; simp [natDigits] at h
  | succ f ih =>
    intro n c h
    unfold natDigits at h
    split at h
    · rename_i hn; simp at h; subst h; exact digit_isDigit hn
    · rcases List.mem_append.mp h with h | h
      · exact ih _ c h
      · simp at h; subst h; exact digit_isDigit (Nat.mod_lt _ (by omega))

theorem natText_ne_nil (n : Nat) : natText n ≠ [] := by
  unfold natText natDigits
  split <;> simp

theorem intText_mem {n : Int} {c : Char} (h : c ∈ intText n) : c = '-' ∨ isDigit c = true := by
  cases n with
  | ofNat n => exact .inr (natDigits_digits _ _ c h)
  | negSucc n =>
    rcases List.mem_cons.mp h with h | h
    · exact .inl h
    · exact .inr (natDigits_digits _ _ c h)

end Text
end Verif
