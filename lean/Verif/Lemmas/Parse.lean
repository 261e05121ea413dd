import Verif.Spec.Parse
import Mathlib.Tactic.Tauto
namespace Verif
namespace Lex
open Text

theorem toNat_inj {c d : Char} (h : c.toNat = d.toNat) : c = d := Char.toNat_inj.mp h

theorem isSpace_iff {c : Char} : isSpace c = true ↔ Blank c := by
  have h : ∀ d : Char, c = d ↔ c.toNat = d.toNat := fun d => ⟨fun h => by rw [h], toNat_inj⟩
  unfold isSpace Blank
  simp only [List.mem_cons, List.not_mem_nil, or_false, h]
  simp only [Bool.or_eq_true, beq_iff_eq, Bool.and_eq_true, decide_eq_true_eq]
  have e1 : ' '.toNat = 32 := rfl
  have e2 : '\t'.toNat = 9 := rfl
  have e3 : '\n'.toNat = 10 := rfl
  have e4 : (Char.ofNat 11).toNat = 11 := rfl
  have e5 : (Char.ofNat 12).toNat = 12 := rfl
  have e6 : '\r'.toNat = 13 := rfl
  rw [e1, e2, e3, e4, e5, e6]
  omega

theorem mem_of_range {c : Char} {l : List Char} {a b : Nat} (hl : l.map Char.toNat = List.range' a (b + 1 - a)) :
    c ∈ l ↔ a ≤ c.toNat ∧ c.toNat ≤ b := by
  have : c ∈ l ↔ c.toNat ∈ l.map Char.toNat := by
    rw [List.mem_map]
    exact ⟨fun h => ⟨c, h, rfl⟩, fun ⟨d, h, e⟩ => toNat_inj e ▸ h⟩
  rw [this, hl, List.mem_range'_1]
  omega

theorem isDigit_iff {c : Char} : isDigit c = true ↔ Digit c := by
  unfold isDigit Digit
  rw [mem_of_range (a := 48) (b := 57) rfl]
  simp

theorem letter_iff {c : Char} : Letter c ↔ (97 ≤ c.toNat ∧ c.toNat ≤ 122) ∨ (65 ≤ c.toNat ∧ c.toNat ≤ 90) := by
  unfold Letter
  have : "abcdefghijklmnopqrstuvwxyzABCDEFGHIJKLMNOPQRSTUVWXYZ".toList =
    "abcdefghijklmnopqrstuvwxyz".toList ++ "ABCDEFGHIJKLMNOPQRSTUVWXYZ".toList := rfl
  rw [this, List.mem_append, mem_of_range (a := 97) (b := 122) rfl, mem_of_range (a := 65) (b := 90) rfl]

theorem isAlnum_iff {c : Char} : isAlnum c = true ↔ Letter c ∨ Digit c := by
  rw [letter_iff, ← isDigit_iff]
  unfold isAlnum isUpper
  simp only [Bool.or_eq_true, Bool.and_eq_true, decide_eq_true_eq]
  tauto

theorem isSymbol_iff {c : Char} (h : c ≠ Char.ofNat 0) : isSymbol c = true ↔ Symbol c := by
  have : c.toNat ≠ 0 := fun h' => h (toNat_inj h')
  unfold isSymbol Symbol
  simp [this]

theorem numberChar_iff {c : Char} : numberChar c = true ↔ InNumber c := by
  unfold numberChar InNumber
  simp only [Bool.or_eq_true, isDigit_iff, beq_iff_eq, or_assoc]

theorem idChar_iff {c : Char} : idChar c = true ↔ InName c := by
  unfold idChar InName
  simp only [Bool.or_eq_true, isAlnum_iff, beq_iff_eq, or_assoc]

/-! ### the kinds of characters are disjoint -/

theorem blank_facts {c : Char} (h : Blank c) : c ≠ '#' ∧ isSpace c = true :=
  ⟨by rintro rfl; exact absurd h (by unfold Blank; decide), isSpace_iff.mpr h⟩

theorem symbol_facts : ∀ c, Symbol c → c ≠ '#' ∧ isSpace c = false ∧ isSymbol c = true := by
  unfold Symbol
  decide

theorem quote_facts {c : Char} (h : Quote c) : c ≠ '#' ∧ isSpace c = false ∧ isSymbol c = false := by
  rcases h with rfl | rfl <;> decide

theorem digit_facts : ∀ c, Digit c → c ≠ '#' ∧ isSpace c = false ∧ isSymbol c = false ∧ ¬ (c = '"' ∨ c = '\'') ∧ isDigit c = true := by
  unfold Digit
  decide

theorem letter_facts : ∀ c, Letter c → c ≠ '#' ∧ isSpace c = false ∧ isSymbol c = false ∧ ¬ (c = '"' ∨ c = '\'') ∧ isDigit c = false ∧
    (c == '.') = false ∧ isAlnum c = true := by
  unfold Letter
  decide

theorem under_facts {c : Char} (h : c = '_') : c ≠ '#' ∧ isSpace c = false ∧ isSymbol c = false ∧ ¬ (c = '"' ∨ c = '\'') ∧ isDigit c = false ∧
    (c == '.') = false ∧ (c == '_') = true := by
  subst h
  decide

theorem name_facts {c : Char} (hd : Letter c ∨ c = '_') : c ≠ '#' ∧ isSpace c = false ∧ isSymbol c = false ∧ ¬ (c = '"' ∨ c = '\'') ∧
    isDigit c = false ∧ (c == '.') = false ∧ (isAlnum c || c == '_') = true := by
  rcases hd with hd | hd
  · obtain ⟨h1, h2, h3, h4, h5, h6, h7⟩ := letter_facts c hd
    exact ⟨h1, h2, h3, h4, h5, h6, by simp [h7]⟩
  · obtain ⟨h1, h2, h3, h4, h5, h6, h7⟩ := under_facts hd
    exact ⟨h1, h2, h3, h4, h5, h6, by simp [h7]⟩

/-! ### the parts of a line -/

theorem stringBody_some {q : Char} : ∀ {cs b r : List Char}, stringBody q cs = some (b, r) ↔ q ∉ b ∧ cs = b ++ q :: r := by
  intro cs
  induction cs with
  | nil => intro b r; simp [stringBody]
  | cons c cs ih =>
    intro b r
    unfold stringBody
    split
    · rename_i h; subst h
      constructor
      · intro h; cases h; simp
      · rintro ⟨h1, h2⟩
        cases b with
        | nil => simp at h2; simp [h2]
        | cons x b => simp only [List.cons_append, List.cons.injEq] at h2; exact absurd (by simp [h2.1]) h1
    · rename_i hne
      rw [Option.map_eq_some_iff]
      constructor
      · rintro ⟨⟨b', r'⟩, h1, h2⟩
        cases h2
        obtain ⟨h3, rfl⟩ := ih.mp h1
        exact ⟨by simp [h3, Ne.symm hne], rfl⟩
      · rintro ⟨h1, h2⟩
        cases b with
        | nil => simp at h2; exact absurd h2.1 hne
        | cons x b =>
          simp only [List.cons_append, List.cons.injEq] at h2
          simp only [List.mem_cons, not_or] at h1
          exact ⟨(b, r), ih.mpr ⟨h1.2, h2.2⟩, by rw [h2.1]⟩

theorem stringBody_none {q : Char} {cs : List Char} : stringBody q cs = none ↔ q ∉ cs := by
  induction cs with
  | nil => simp [stringBody]
  | cons c cs ih =>
    unfold stringBody
    split
    · rename_i h; simp [h]
    · rename_i h; simp [ih, Ne.symm h]

theorem takeWhile_append {p : Char → Bool} {w cs : List Char} (hw : ∀ x ∈ w, p x = true) (hcs : NoStart (fun c => p c = true) cs) :
    (w ++ cs).takeWhile p = w ∧ (w ++ cs).dropWhile p = cs := by
  induction w with
  | nil =>
    cases cs with
    | nil => simp
    | cons c cs =>
      have := hcs c cs rfl
      simp [this]
  | cons x w ih =>
    have hx := hw x (by simp)
    obtain ⟨h1, h2⟩ := ih (fun y hy => hw y (by simp [hy]))
    simp [hx, h1, h2]

theorem noStart_dropWhile (p : Char → Bool) (cs : List Char) : NoStart (fun c => p c = true) (cs.dropWhile p) := by
  intro c cs' h
  have := List.head?_dropWhile_not p cs
  rw [h] at this
  simpa using this

theorem mem_takeWhile {p : Char → Bool} {cs : List Char} : ∀ x ∈ cs.takeWhile p, p x = true := fun x hx => by
  have := List.all_takeWhile (p := p) (l := cs)
  exact List.all_eq_true.mp this x hx

theorem NoStart.congr {P Q : Char → Prop} (h : ∀ c, P c ↔ Q c) {cs : List Char} : NoStart P cs ↔ NoStart Q cs := by
  constructor <;> intro hn c cs' e hp
  · exact hn c cs' e ((h c).mpr hp)
  · exact hn c cs' e ((h c).mp hp)

/-! ### the loop -/

theorem loop_of_lexed {cs : List Char} {ts : List Token} (h : Lexed cs ts) : ∀ fuel, cs.length ≤ fuel → tokenizeLoop fuel cs = some ts := by
  induction h with
  | done => intro fuel _; cases fuel <;> rfl
  | comment cs =>
    intro fuel hf
    cases fuel with
    | zero => simp at hf
    | succ fuel => simp [tokenizeLoop]
  | @blank c cs ts hb h ih =>
    intro fuel hf
    cases fuel with
    | zero => simp at hf
    | succ fuel =>
      obtain ⟨h1, h2⟩ := blank_facts hb
      simp only [List.length_cons, Nat.add_le_add_iff_right] at hf
      simp [tokenizeLoop, h1, h2, ih fuel hf]
  | @symbol c cs ts hs h ih =>
    intro fuel hf
    cases fuel with
    | zero => simp at hf
    | succ fuel =>
      obtain ⟨h1, h2, h3⟩ := symbol_facts c hs
      simp only [List.length_cons, Nat.add_le_add_iff_right] at hf
      simp [tokenizeLoop, h1, h2, h3, ih fuel hf]
  | @string q b cs ts hq hb h ih =>
    intro fuel hf
    cases fuel with
    | zero => simp at hf
    | succ fuel =>
      obtain ⟨h1, h2, h3⟩ := quote_facts hq
      have hq' : q = '"' ∨ q = '\'' := hq
      have hs : stringBody q (b ++ q :: cs) = some (b, cs) := stringBody_some.mpr ⟨hb, rfl⟩
      simp only [List.length_cons, List.length_append, List.cons_append, Nat.add_le_add_iff_right] at hf
      simp only [List.cons_append, tokenizeLoop, h1, if_false, h2, h3, Bool.false_eq_true, if_pos hq', hs, ih fuel (by omega), Option.map_some]
  | @number c w cs ts hd hw hn h ih =>
    intro fuel hf
    cases fuel with
    | zero => simp at hf
    | succ fuel =>
      obtain ⟨h1, h2, h3, h4, h5⟩ := digit_facts c hd
      simp only [List.length_cons, List.length_append, List.cons_append, Nat.add_le_add_iff_right] at hf
      obtain ⟨e1, e2⟩ := takeWhile_append (p := numberChar) (fun x hx => numberChar_iff.mpr (hw x hx)) ((NoStart.congr (fun c => numberChar_iff.symm)).mp hn)
      simp only [List.cons_append, tokenizeLoop, h1, if_false, h2, h3, Bool.false_eq_true, if_neg h4, h5, Bool.true_or, if_true, e1, e2,
        ih fuel (by omega), Option.map_some]
  | @name c w cs ts hd hw hn h ih =>
    intro fuel hf
    cases fuel with
    | zero => simp at hf
    | succ fuel =>
      obtain ⟨h1, h2, h3, h4, h5, h6, h7⟩ := name_facts hd
      simp only [List.length_cons, List.length_append, List.cons_append, Nat.add_le_add_iff_right] at hf
      obtain ⟨e1, e2⟩ := takeWhile_append (p := idChar) (fun x hx => idChar_iff.mpr (hw x hx)) ((NoStart.congr (fun c => idChar_iff.symm)).mp hn)
      simp only [List.cons_append, tokenizeLoop, h1, if_false, h2, h3, Bool.false_eq_true, if_neg h4, h5, h6, Bool.or_self, h7, if_true, e1, e2,
        ih fuel (by omega), Option.map_some]

/-- every line without NUL characters is written with some tokens or is bad, and the loop says which -/
theorem loop_spec : ∀ (fuel : Nat) (cs : List Char), cs.length ≤ fuel → Char.ofNat 0 ∉ cs →
    (∃ ts, tokenizeLoop fuel cs = some ts ∧ Lexed cs ts) ∨ (tokenizeLoop fuel cs = none ∧ Bad cs) := by
  intro fuel
  induction fuel with
  | zero =>
    intro cs hf _
    rw [List.eq_nil_of_length_eq_zero (Nat.le_zero.mp hf)]
    exact .inl ⟨[], rfl, .done⟩
  | succ fuel ih =>
    intro cs hf h0
    cases cs with
    | nil => exact .inl ⟨[], rfl, .done⟩
    | cons c cs =>
      simp only [List.length_cons, Nat.add_le_add_iff_right] at hf
      simp only [List.mem_cons, not_or] at h0
      unfold tokenizeLoop
      split
      · rename_i h; subst h; exact .inl ⟨[], rfl, .comment cs⟩
      rename_i hc
      split
      · rename_i h
        rcases ih cs hf h0.2 with ⟨ts, h1, h2⟩ | ⟨h1, h2⟩
        · exact .inl ⟨ts, h1, .blank (isSpace_iff.mp h) h2⟩
        · exact .inr ⟨h1, .blank (isSpace_iff.mp h) h2⟩
      rename_i hsp
      split
      · rename_i h
        rcases ih cs hf h0.2 with ⟨ts, h1, h2⟩ | ⟨h1, h2⟩
        · exact .inl ⟨_, by rw [h1]; rfl, .symbol ((isSymbol_iff (Ne.symm h0.1)).mp h) h2⟩
        · exact .inr ⟨by rw [h1]; rfl, .symbol ((isSymbol_iff (Ne.symm h0.1)).mp h) h2⟩
      rename_i hsy
      split
      · rename_i hq
        split
        · rename_i h
          exact .inr ⟨rfl, .unclosed hq (stringBody_none.mp h)⟩
        · rename_i b r h
          obtain ⟨h1, rfl⟩ := stringBody_some.mp h
          have hr : r.length ≤ fuel := by simp at hf; omega
          have h0r : Char.ofNat 0 ∉ r := fun hm => h0.2 (by simp [hm])
          rcases ih r hr h0r with ⟨ts, g1, g2⟩ | ⟨g1, g2⟩
          · exact .inl ⟨_, by rw [g1]; rfl, .string hq h1 g2⟩
          · exact .inr ⟨by rw [g1]; rfl, .string hq h1 g2⟩
      rename_i hq
      split
      · rename_i h
        have hd : Digit c := by
          rw [Bool.or_eq_true] at h
          rcases h with h | h
          · exact isDigit_iff.mp h
          · rw [beq_iff_eq] at h; subst h; exact absurd rfl hsy
        have e : c :: cs = c :: cs.takeWhile numberChar ++ cs.dropWhile numberChar := by simp
        have hw : ∀ x ∈ cs.takeWhile numberChar, InNumber x := fun x hx => numberChar_iff.mp (mem_takeWhile x hx)
        have hn : NoStart InNumber (cs.dropWhile numberChar) := (NoStart.congr (fun c => numberChar_iff)).mp (noStart_dropWhile _ _)
        have hr : (cs.dropWhile numberChar).length ≤ fuel   := Nat.le_trans (List.dropWhile_sublist _).length_le hf
        have h0r : Char.ofNat 0 ∉ cs.dropWhile numberChar := fun hm => h0.2 ((List.dropWhile_sublist _).subset hm)
        rcases ih _ hr h0r with ⟨ts, g1, g2⟩ | ⟨g1, g2⟩
        · exact .inl ⟨_, by rw [g1]; rfl, by rw [e]; exact .number hd hw hn g2⟩
        · exact .inr ⟨by rw [g1]; rfl, by rw [e]; exact .number hd hw hn g2⟩
      rename_i hd
      split
      · rename_i h
        have hl : Letter c ∨ c = '_' := by
          simp only [Bool.or_eq_true, isAlnum_iff, beq_iff_eq, isDigit_iff, not_or] at h hd
          tauto
        have e : c :: cs = c :: cs.takeWhile idChar ++ cs.dropWhile idChar := by simp
        have hw : ∀ x ∈ cs.takeWhile idChar, InName x := fun x hx => idChar_iff.mp (mem_takeWhile x hx)
        have hn : NoStart InName (cs.dropWhile idChar) := (NoStart.congr (fun c => idChar_iff)).mp (noStart_dropWhile _ _)
        have hr : (cs.dropWhile idChar).length ≤ fuel   := Nat.le_trans (List.dropWhile_sublist _).length_le hf
        have h0r : Char.ofNat 0 ∉ cs.dropWhile idChar := fun hm => h0.2 ((List.dropWhile_sublist _).subset hm)
        rcases ih _ hr h0r with ⟨ts, g1, g2⟩ | ⟨g1, g2⟩
        · exact .inl ⟨_, by rw [g1]; rfl, by rw [e]; exact .name hl hw hn g2⟩
        · exact .inr ⟨by rw [g1]; rfl, by rw [e]; exact .name hl hw hn g2⟩
      rename_i hal
      simp only [Bool.or_eq_true, isAlnum_iff, beq_iff_eq, isDigit_iff, not_or] at hal hd
      exact .inr ⟨rfl, .stray hc (fun h => hsp (isSpace_iff.mpr h)) (fun h => hsy ((isSymbol_iff (Ne.symm h0.1)).mpr h)) hq hd.1 hal.1.1 hal.2⟩

theorem loop_of_bad {cs : List Char} (h : Bad cs) : ∀ fuel, cs.length ≤ fuel → Char.ofNat 0 ∉ cs → tokenizeLoop fuel cs = none := by
  induction h with
  | @stray c cs h1 h2 h3 h4 h5 h6 h7 =>
    intro fuel hf h0
    simp only [List.mem_cons, not_or] at h0
    cases fuel with
    | zero => rfl
    | succ fuel =>
      have a2 : isSpace c = false := by rw [Bool.eq_false_iff]; exact fun h => h2 (isSpace_iff.mp h)
      have a3 : isSymbol c = false := by rw [Bool.eq_false_iff]; exact fun h => h3 ((isSymbol_iff (Ne.symm h0.1)).mp h)
      have a4 : ¬ (c = '"' ∨ c = '\'') := h4
      have a5 : isDigit c = false := by rw [Bool.eq_false_iff]; exact fun h => h5 (isDigit_iff.mp h)
      have a6 : (c == '.') = false := by
        rw [Bool.eq_false_iff]
        intro h
        rw [beq_iff_eq] at h; subst h
        cases a3
      have a7 : (isAlnum c || c == '_') = false := by
        rw [Bool.eq_false_iff]
        intro h
        simp only [Bool.or_eq_true, isAlnum_iff, beq_iff_eq] at h
        tauto
      simp only [tokenizeLoop, h1, if_false, a2, a3, Bool.false_eq_true, if_neg a4, a5, a6, Bool.or_self, a7]
  | @unclosed q cs hq hn =>
    intro fuel hf h0
    cases fuel with
    | zero => rfl
    | succ fuel =>
      obtain ⟨h1, h2, h3⟩ := quote_facts hq
      have hq' : q = '"' ∨ q = '\'' := hq
      simp only [tokenizeLoop, h1, if_false, h2, h3, Bool.false_eq_true, if_pos hq', stringBody_none.mpr hn]
  | @blank c cs hb h ih =>
    intro fuel hf h0
    cases fuel with
    | zero => rfl
    | succ fuel =>
      obtain ⟨h1, h2⟩ := blank_facts hb
      simp only [List.length_cons, Nat.add_le_add_iff_right] at hf
      simp only [List.mem_cons, not_or] at h0
      simp [tokenizeLoop, h1, h2, ih fuel hf h0.2]
  | @symbol c cs hs h ih =>
    intro fuel hf h0
    cases fuel with
    | zero => rfl
    | succ fuel =>
      obtain ⟨h1, h2, h3⟩ := symbol_facts c hs
      simp only [List.length_cons, Nat.add_le_add_iff_right] at hf
      simp only [List.mem_cons, not_or] at h0
      simp [tokenizeLoop, h1, h2, h3, ih fuel hf h0.2]
  | @string q b cs hq hb h ih =>
    intro fuel hf h0
    cases fuel with
    | zero => rfl
    | succ fuel =>
      obtain ⟨h1, h2, h3⟩ := quote_facts hq
      have hq' : q = '"' ∨ q = '\'' := hq
      have hs : stringBody q (b ++ q :: cs) = some (b, cs) := stringBody_some.mpr ⟨hb, rfl⟩
      simp only [List.length_cons, List.length_append, List.cons_append, Nat.add_le_add_iff_right] at hf
      simp only [List.cons_append, tokenizeLoop, h1, if_false, h2, h3, Bool.false_eq_true, if_pos hq', hs,
        ih fuel (by omega) (fun hm => h0 (by simp [hm])), Option.map_none]
  | @number c w cs hd hw hn h ih =>
    intro fuel hf h0
    cases fuel with
    | zero => rfl
    | succ fuel =>
      obtain ⟨h1, h2, h3, h4, h5⟩ := digit_facts c hd
      simp only [List.length_cons, List.length_append, List.cons_append, Nat.add_le_add_iff_right] at hf
      obtain ⟨e1, e2⟩ := takeWhile_append (p := numberChar) (fun x hx => numberChar_iff.mpr (hw x hx)) ((NoStart.congr (fun c => numberChar_iff.symm)).mp hn)
      simp only [List.cons_append, tokenizeLoop, h1, if_false, h2, h3, Bool.false_eq_true, if_neg h4, h5, Bool.true_or, if_true, e1, e2,
        ih fuel (by omega) (fun hm => h0 (by simp [hm])), Option.map_none]
  | @name c w cs hd hw hn h ih =>
    intro fuel hf h0
    cases fuel with
    | zero => rfl
    | succ fuel =>
      obtain ⟨h1, h2, h3, h4, h5, h6, h7⟩ := name_facts hd
      simp only [List.length_cons, List.length_append, List.cons_append, Nat.add_le_add_iff_right] at hf
      obtain ⟨e1, e2⟩ := takeWhile_append (p := idChar) (fun x hx => idChar_iff.mpr (hw x hx)) ((NoStart.congr (fun c => idChar_iff.symm)).mp hn)
      simp only [List.cons_append, tokenizeLoop, h1, if_false, h2, h3, Bool.false_eq_true, if_neg h4, h5, h6, Bool.or_self, h7, if_true, e1, e2,
        ih fuel (by omega) (fun hm => h0 (by simp [hm])), Option.map_none]

/-! ### writing tokens -/

theorem Lexed.blanks {b cs : List Char} {ts : List Token} (hb : ∀ c ∈ b, Blank c) (h : Lexed cs ts) : Lexed (b ++ cs) ts := by
  induction b with
  | nil => exact h
  | cons c b ih => exact .blank (hb c (by simp)) (ih (fun x hx => hb x (by simp [hx])))

/-- a token that is not glued to the rest of the line -/
theorem Lexed.write {t : Token} (ht : Writable t) {cs : List Char} {ts : List Token}
    (hc : (t.type = .number → NoStart InNumber cs) ∧ (t.type = .identifier → NoStart InName cs)) (h : Lexed cs ts) :
    Lexed (write t ++ cs) (t :: ts) := by
  obtain ⟨ty, v⟩ := t
  cases ty with
  | symbol =>
    obtain ⟨c, h1, h2⟩ := ht
    dsimp only at h2
    subst h2
    exact .symbol h1 h
  | string =>
    have hq : '"' ∉ v ∨ '\'' ∉ v := ht
    show Lexed ((if '"' ∈ v then '\'' :: v ++ ['\''] else '"' :: v ++ ['"']) ++ cs) _
    split
    · rename_i hm
      have := Lexed.string (q := '\'') (b := v) (.inr rfl) (hq.resolve_left (fun h => h hm)) h
      simpa using this
    · rename_i hm
      have := Lexed.string (q := '"') (b := v) (.inl rfl) hm h
      simpa using this
  | number =>
    obtain ⟨c, w, h1, h2, h3⟩ := ht
    dsimp only at h1
    subst h1
    exact .number h2 h3 (hc.1 rfl) h
  | identifier =>
    obtain ⟨c, w, h1, h2, h3⟩ := ht
    dsimp only at h1
    subst h1
    exact .name h2 h3 (hc.2 rfl) h

theorem blank_not_inNumber : ∀ c, Blank c → ¬ InNumber c := fun c h hn => by
  rw [← numberChar_iff] at hn
  revert c
  unfold Blank
  decide

theorem blank_not_inName : ∀ c, Blank c → ¬ InName c := fun c h hn => by
  rw [← idChar_iff] at hn
  revert c
  unfold Blank
  decide

theorem Lexed.writeLine (l : List (Token × List Char)) (hl : ∀ t b, (t, b) ∈ l → Writable t ∧ b ≠ [] ∧ ∀ c ∈ b, Blank c) {cs : List Char}
    (h : Lexed cs []) : Lexed (Lex.writeLine l ++ cs) (l.map Prod.fst) := by
  induction l with
  | nil => exact h
  | cons e l ih =>
    obtain ⟨t, b⟩ := e
    obtain ⟨h1, h2, h3⟩ := hl t b (by simp)
    have ih := ih (fun t b hm => hl t b (by simp [hm]))
    rw [Lex.writeLine, List.append_assoc, List.append_assoc]
    have hstart : ∀ P : Char → Prop, (∀ c, Blank c → ¬ P c) → NoStart P (b ++ (Lex.writeLine l ++ cs)) := by
      intro P hP c cs' he
      cases b with
      | nil => exact absurd rfl h2
      | cons x b =>
        simp only [List.cons_append, List.cons.injEq] at he
        rw [← he.1]
        exact hP x (h3 x (by simp))
    exact Lexed.write h1 ⟨fun _ => hstart _ blank_not_inNumber, fun _ => hstart _ blank_not_inName⟩ (ih.blanks h3)

end Lex
end Verif
