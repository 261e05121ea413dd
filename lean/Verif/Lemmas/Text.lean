import Verif.Lemmas.Parse
namespace Verif
namespace Text

theorem getl_append {d : Char} (acc w cs : List Char) (hw : d ∉ w) : getl d acc (w ++ d :: cs) = (acc ++ w) :: getl d [] cs := by
  induction w generalizing acc with
  | nil => simp [getl]
  | cons c w ih =>
    simp only [List.mem_cons, not_or] at hw
    have hc : c ≠ d := fun h => hw.1 h.symm
    rw [List.cons_append, getl, if_neg hc, ih _ hw.2, List.append_assoc, List.singleton_append]

theorem getl_end {d : Char} (acc w : List Char) (hw : d ∉ w) : getl d acc w = if acc ++ w = [] then [] else [acc ++ w] := by
  induction w generalizing acc with
  | nil => simp [getl]
  | cons c w ih =>
    simp only [List.mem_cons, not_or] at hw
    have hc : c ≠ d := fun h => hw.1 h.symm
    rw [getl, if_neg hc, ih _ hw.2, List.append_assoc, List.singleton_append]

/-- a part and its delimiter -/
theorem parts_cons {d : Char} {w cs : List Char} (hw : d ∉ w) : parts d (w ++ d :: cs) = w :: parts d cs := by
  simp [parts, getl_append _ _ _ hw]

/-- the last part -/
theorem parts_last {d : Char} {w : List Char} (hw : d ∉ w) : parts d w = if w = [] then [] else [w] := by
  simp [parts, getl_end _ _ hw]

/-- lines that are written with their line ends are read back -/
theorem lines_flatMap (ls : List (List Char)) (h : ∀ l ∈ ls, '\n' ∉ l) : lines (ls.flatMap (· ++ ['\n'])) = ls := by
  induction ls with
  | nil => rfl
  | cons l ls ih =>
    have : (l :: ls).flatMap (· ++ ['\n']) = l ++ '\n' :: ls.flatMap (· ++ ['\n']) := by simp
    rw [this, lines, parts_cons (h l (by simp))]
    exact congrArg _ (ih (fun x hx => h x (by simp [hx])))

theorem getl_no_delim {d : Char} (cs : List Char) : ∀ acc, d ∉ acc → ∀ p ∈ getl d acc cs, d ∉ p := by
  induction cs with
  | nil =>
    intro acc ha p hp
    unfold getl at hp
    split at hp
    · simp at hp
    · simp at hp; subst hp; exact ha
  | cons c cs ih =>
    intro acc ha p hp
    unfold getl at hp
    split at hp
    · rcases List.mem_cons.mp hp with rfl | hp
      · exact ha
      · exact ih [] (by simp) p hp
    · rename_i hc
      exact ih _ (by simp [ha]; exact fun h => hc h.symm) p hp

/-- no part has the delimiter -/
theorem parts_no_delim {d : Char} {cs p : List Char} (h : p ∈ parts d cs) : d ∉ p := getl_no_delim cs [] (by simp) p h

end Text
end Verif
