import Verif.Spec.Values
import Verif.Model.HirmMain
import Verif.Lemmas.ClusterFile
/-!
C87: how the values of relations are read and written.
-/
namespace Verif
open Text
noncomputable section
variable {w : World}

theorem digit_iff {c : Char} : Digit c ↔ isDigit c = true := by
  unfold Digit isDigit
  simp only [Bool.and_eq_true, decide_eq_true_eq]
  constructor
  · rintro ⟨n, h, h'⟩; omega
  · intro h; exact ⟨c.toNat - 48, by omega, by omega⟩

theorem isSpace_iff {c : Char} : isSpace c = true ↔ c = ' ' ∨ 9 ≤ c.toNat ∧ c.toNat ≤ 13 := by
  unfold isSpace
  simp only [Bool.or_eq_true, Bool.and_eq_true, decide_eq_true_eq, beq_iff_eq]
  have : c.toNat = 32 ↔ c = ' ' := by
    constructor
    · intro h
      exact Char.toNat_inj.mp h
    · rintro rfl; rfl
  rw [this]

theorem natValue_ofDigits (ds : List Char) : natValue ds = Nat.ofDigits 10 (ds.reverse.map (fun c => c.toNat - 48)) := by
  induction ds using List.reverseRecOn with
  | nil => rfl
  | append_singleton ds c ih =>
    rw [List.reverse_append, List.reverse_singleton, List.singleton_append, List.map_cons, Nat.ofDigits_cons, ← ih]
    unfold natValue
    rw [List.foldl_append]
    simp only [List.foldl_cons, List.foldl_nil]
    ring

/-- what the stream reads of an integer -/
theorem readInt_numeral {text : List Char} {n : Int} (h : Numeral text n) : ∃ rest, readInt text = some (n, rest) := by
  obtain ⟨bl, sg, ds, rest, rfl, hb, hne, hd, hr, hn⟩ := h
  have hb' : ∀ c ∈ bl, isSpace c = true := fun c hc => isSpace_iff.mpr (hb c hc)
  have hd' : ∀ c ∈ ds, isDigit c = true := fun c hc => digit_iff.mp (hd c hc)
  obtain ⟨d, ds', rfl⟩ := List.exists_cons_of_ne_nil hne
  have hd0 := hd' d (List.mem_cons_self ..)
  have h1 : ((d :: ds') ++ rest).takeWhile isDigit = d :: ds' := by
    rw [List.takeWhile_append_of_pos hd']
    cases rest with
    | nil => simp
    | cons c rest =>
      have : isDigit c = false := by
        have := hr c rfl
        rw [digit_iff] at this
        simpa using this
      simp [this]
  obtain ⟨m1, m2⟩ := digit_head hd' rest (by simp)
  have hsp : ∀ x : List Char, (∀ c, x.head? = some c → isSpace c = false) → (bl ++ x).dropWhile isSpace = x := by
    intro x hx
    rw [List.dropWhile_append_of_pos hb']
    cases x with
    | nil => rfl
    | cons c x => rw [List.dropWhile_cons, if_neg (by rw [hx c rfl]; simp)]
  refine ⟨((d :: ds') ++ rest).dropWhile isDigit, ?_⟩
  rw [← natValue_ofDigits] at hn
  rcases hn with ⟨rfl | rfl, rfl⟩ | ⟨rfl, rfl⟩
  · have e : (bl ++ [] ++ (d :: ds') ++ rest).dropWhile isSpace = (d :: ds') ++ rest := by
      rw [List.append_nil, List.append_assoc]
      exact hsp _ (fun c hc => by cases hc; exact isDigit_not_space hd0)
    have hh : ¬ (((d :: ds') ++ rest).head? = some '-' ∨ ((d :: ds') ++ rest).head? = some '+') := by rintro (h | h) <;> [exact m1 h; exact m2 h]
    have hg : (((d :: ds') ++ rest).head? == some '-') = false := by rw [beq_eq_false_iff_ne]; exact m1
    unfold readInt
    simp only [e, if_neg hh, h1, hg]
    simp
  · have e : (bl ++ ['+'] ++ (d :: ds') ++ rest).dropWhile isSpace = '+' :: ((d :: ds') ++ rest) := by
      rw [List.append_assoc, List.append_assoc]
      exact hsp _ (fun c hc => by cases hc; rfl)
    unfold readInt
    simp only [e, List.head?_cons, List.tail_cons, or_true, if_true, h1]
    simp
  · have e : (bl ++ ['-'] ++ (d :: ds') ++ rest).dropWhile isSpace = '-' :: ((d :: ds') ++ rest) := by
      rw [List.append_assoc, List.append_assoc]
      exact hsp _ (fun c hc => by cases hc; rfl)
    unfold readInt
    simp only [e, List.head?_cons, List.tail_cons, true_or, if_true, h1, beq_self_eq_true]
    simp

theorem numeral_of_readInt {text rest : List Char} {n : Int} (h : readInt text = some (n, rest)) : Numeral text n := by
  have hbl : ∀ c ∈ text.takeWhile isSpace, c = ' ' ∨ 9 ≤ c.toNat ∧ c.toNat ≤ 13 := fun c hc => isSpace_iff.mp (List.all_eq_true.mp List.all_takeWhile c hc)
  have htx := (List.takeWhile_append_dropWhile (p := isSpace) (l := text)).symm
  unfold readInt at h
  dsimp only at h
  generalize text.dropWhile isSpace = cs at *
  generalize text.takeWhile isSpace = bl at *
  subst htx
  have main : ∀ (sg tl : List Char), cs = sg ++ tl → tl.takeWhile isDigit ≠ [] →
      ((sg = [] ∨ sg = ['+']) ∧ n = (natValue (tl.takeWhile isDigit) : Int) ∨ sg = ['-'] ∧ n = -(natValue (tl.takeWhile isDigit) : Int)) → Numeral (bl ++ cs) n := by
    intro sg tl hcs hne hv
    refine ⟨bl, sg, tl.takeWhile isDigit, tl.dropWhile isDigit, ?_, hbl, hne, fun c hc => digit_iff.mpr (List.all_eq_true.mp List.all_takeWhile c hc), fun c hc => ?_, ?_⟩
    · rw [List.append_assoc, List.takeWhile_append_dropWhile, List.append_assoc, hcs]
    · rw [digit_iff]
      have := List.head?_dropWhile_not isDigit tl
      rw [hc] at this
      simpa using this
    · rw [← natValue_ofDigits]
      exact hv
  by_cases hm : cs.head? = some '-'
  · obtain ⟨tl, rfl⟩ : ∃ tl, cs = '-' :: tl := by
      cases cs with
      | nil => cases hm
      | cons c tl => cases hm; exact ⟨tl, rfl⟩
    simp only [List.head?_cons, List.tail_cons, true_or, if_true, beq_self_eq_true] at h
    by_cases hd : tl.takeWhile isDigit = []
    · rw [if_pos hd] at h; cases h
    · rw [if_neg hd] at h
      cases h
      exact main ['-'] tl rfl hd (.inr ⟨rfl, rfl⟩)
  have hb : (cs.head? == some '-') = false := beq_eq_false_iff_ne.mpr hm
  rw [hb] at h
  by_cases hp : cs.head? = some '+'
  · obtain ⟨tl, rfl⟩ : ∃ tl, cs = '+' :: tl := by
      cases cs with
      | nil => cases hp
      | cons c tl => cases hp; exact ⟨tl, rfl⟩
    simp only [List.head?_cons, List.tail_cons, or_true, if_true] at h
    by_cases hd : tl.takeWhile isDigit = []
    · rw [if_pos hd] at h; cases h
    · rw [if_neg hd] at h
      cases h
      exact main ['+'] tl rfl hd (.inl ⟨.inr rfl, rfl⟩)
  · simp only [if_neg (show ¬ (cs.head? = some '-' ∨ cs.head? = some '+') by rintro (h | h) <;> [exact hm h; exact hp h])] at h
    by_cases hd : cs.takeWhile isDigit = []
    · rw [if_pos hd] at h; cases h
    · rw [if_neg hd] at h
      cases h
      exact main [] cs rfl hd (.inl ⟨.inl rfl, rfl⟩)

theorem streamInt_of {x : String} {n : Int} (h : Numeral x.toList n) : streamInt x = .ok n := by
  obtain ⟨rest, hr⟩ := readInt_numeral h
  unfold streamInt
  rw [if_neg ?_, hr]
  obtain ⟨bl, sg, ds, rest, he, _, hne, hd, _⟩ := h
  intro hall
  obtain ⟨c, hc⟩ := List.exists_mem_of_ne_nil _ hne
  rw [List.all_eq_true] at hall
  have h1 := hall c (by rw [he]; simp [hc])
  rw [isDigit_not_space (digit_iff.mp (hd c hc))] at h1
  cases h1

theorem streamInt_other {x : String} (hn : ∀ n, ¬ Numeral x.toList n) {c : Char} (hc : c ∈ x.toList) (hs : isSpace c = false) : streamInt x = .ok 0 := by
  unfold streamInt
  rw [if_neg ?_]
  · cases h : readInt x.toList with
    | none => rfl
    | some y => exact absurd (numeral_of_readInt h) (hn y.1)
  · intro hall
    rw [List.all_eq_true] at hall
    rw [hall c hc] at hs
    cases hs

/-- the numeral of a number -/
theorem numeral_intText (n : Int) : Numeral (intText n) n := by
  have h := readInt_append n [] (by simp)
  rw [List.append_nil] at h
  exact numeral_of_readInt h

/-- **C87**: integers and booleans are read from the numeral at the start of the text, whatever follows it, and a boolean is true if the number is not zero; strings are taken as they are. -/
theorem C87_reads (w : World) {x : String} {n : Int} (h : Numeral x.toList n) :
    fromString w .int x = .ok (.int n) ∧ fromString w .bool x = .ok (.bool (decide (n ≠ 0))) ∧ fromString w .string x = .ok (.str x) := by
  have h1 := streamInt_of h
  refine ⟨?_, ?_, rfl⟩
  · show (streamInt x).bind _ = _
    rw [h1]; rfl
  · show (streamBool x).bind _ = _
    unfold streamBool
    rw [h1]
    show Except.ok (Value.bool (n != 0)) = _
    congr 2
    by_cases hn : n = 0 <;> simp [hn]

/-- A text starts with at most one numeral. -/
theorem C87_unique {text : List Char} {n m : Int} (h : Numeral text n) (h' : Numeral text m) : n = m := by
  obtain ⟨r, hr⟩ := readInt_numeral h
  obtain ⟨r', hr'⟩ := readInt_numeral h'
  rw [hr] at hr'
  cases hr'
  rfl

/-- **C87**: what is written is read back, reals as far as the stream reads back what it writes. -/
theorem C87_round_trip (w : World) (v : Value) (h : ∀ r, v = .real r → w.readReal (w.showReal r) = .ok r) : fromString w v.type (showValue w v) = .ok v := by
  cases v with
  | bool b =>
    have := (C87_reads w (x := if b then "1" else "0") (n := if b then 1 else 0) (by cases b with | false => exact numeral_intText 0 | true => exact numeral_intText 1)).2.1
    show fromString w .bool (if b then "1" else "0") = _
    rw [this]
    cases b <;> rfl
  | real r =>
    show (w.readReal (w.showReal r)).bind _ = _
    rw [h r rfl]
    rfl
  | int n => exact (C87_reads w (by show Numeral (String.ofList _).toList n; rw [String.toList_ofList]; exact numeral_intText n)).1
  | str s => rfl

/-- **C87** is false of other text: unless it is blank, an integer is read as 0 and a boolean as false, without any error. -/
theorem C87_other_false (w : World) {x : String} (hn : ∀ n, ¬ Numeral x.toList n) {c : Char} (hc : c ∈ x.toList) (hs : ¬ (c = ' ' ∨ 9 ≤ c.toNat ∧ c.toNat ≤ 13)) :
    fromString w .int x = .ok (.int 0) ∧ fromString w .bool x = .ok (.bool false) := by
  have h1 := streamInt_other hn hc (by rw [← isSpace_iff] at hs; simpa using hs)
  constructor
  · show (streamInt x).bind _ = _
    rw [h1]; rfl
  · show (streamBool x).bind _ = _
    unfold streamBool
    rw [h1]
    rfl

/-- **C87** is false of blank text: the value is undefined. -/
theorem C87_blank_false (w : World) {x : String} (hx : ∀ c ∈ x.toList, c = ' ' ∨ 9 ≤ c.toNat ∧ c.toNat ≤ 13) :
    fromString w .int x = .error .ub ∧ fromString w .bool x = .error .ub := by
  have h1 : streamInt x = .error .ub := if_pos (List.all_eq_true.mpr fun c hc => isSpace_iff.mpr (hx c hc))
  constructor
  · show (streamInt x).bind _ = _
    rw [h1]; rfl
  · show (streamBool x).bind _ = _
    unfold streamBool
    rw [h1]
    rfl

/-- In particular the word true is read as false. -/
theorem C87_true_false (w : World) : fromString w .bool "true" = .ok (.bool false) := rfl

/-! ### Concrete cases -/

example (w : World) : Numeral " -042.5".toList (-42) ∧ fromString w .int " -042.5" = .ok (.int (-42)) ∧ fromString w .bool " -042.5" = .ok (.bool true) := by
  have h : Numeral " -042.5".toList (-42) := numeral_of_readInt (rest := ['.', '5']) rfl
  exact ⟨h, (C87_reads w h).1, (C87_reads w h).2.1⟩

example (w : World) : fromString w .bool "yes" = .ok (.bool false) := by
  refine (C87_other_false w (x := "yes") (c := 'y') (fun n h => ?_) (by decide) (by decide)).2
  obtain ⟨r, hr⟩ := readInt_numeral h
  have : readInt "yes".toList = none := rfl
  rw [this] at hr
  cases hr

example (w : World) : fromString w .int " \t" = .error .ub := (C87_blank_false w (by decide)).1

end
end Verif
