import Verif.Lemmas.Parse
/-!
The tokenizer of schema files: C36.
-/
namespace Verif
open Lex

/-- C36: a line without NUL characters is tokenized exactly as the lexical grammar says. -/
theorem C36_tokenize {line : List Char} (h0 : Char.ofNat 0 ∉ line) (ts : List Token) : tokenize line = some ts ↔ Lexed line ts := by
  constructor
  · intro h
    rcases loop_spec line.length line (Nat.le_refl _) h0 with ⟨ts', h1, h2⟩ | ⟨h1, _⟩
    · have : some ts' = some ts := h1.symm.trans h
      cases this
      exact h2
    · have : none = some ts := h1.symm.trans h
      cases this
  · exact fun h => loop_of_lexed h _ (Nat.le_refl _)

/-- C36: a line is refused exactly if it has an unclosed string or a character that starts no token. -/
theorem C36_refused {line : List Char} (h0 : Char.ofNat 0 ∉ line) : tokenize line = none ↔ Bad line := by
  constructor
  · intro h
    rcases loop_spec line.length line (Nat.le_refl _) h0 with ⟨ts', h1, _⟩ | ⟨_, h2⟩
    · have : none = some ts' := h.symm.trans h1
      cases this
    · exact h2
  · exact fun h => loop_of_bad h _ (Nat.le_refl _) h0

/-- C36: tokens that are written one after the other, with any blanks before, between and after them and possibly a comment at the end, are
read back. -/
theorem C36_round_trip (l : List (Token × List Char)) (hl : ∀ t b, (t, b) ∈ l → Writable t ∧ b ≠ [] ∧ ∀ c ∈ b, Blank c)
    (blanks comment : List Char) (hb : ∀ c ∈ blanks, Blank c) (hc : comment = [] ∨ ∃ cs, comment = '#' :: cs) :
    tokenize (blanks ++ (writeLine l ++ comment)) = some (l.map Prod.fst) := by
  refine loop_of_lexed ((Lexed.writeLine l hl ?_).blanks hb) _ (Nat.le_refl _)
  rcases hc with rfl | ⟨cs, rfl⟩
  · exact .done
  · exact .comment cs

/-- C36: each token of a line occurs in it, and every character outside the tokens is blank, a quote of a string, or part of a comment: the
line is the concatenation of the tokens, with their quotes if they are strings, and blanks. -/
theorem C36_nothing_lost {line : List Char} {ts : List Token} (h0 : Char.ofNat 0 ∉ line) (h : tokenize line = some ts) :
    ∃ (blanks comment : List Char) (l : List (Char × Token × List Char)), l.map (fun x => x.2.1) = ts ∧ (∀ c ∈ blanks, Blank c) ∧
      (comment = [] ∨ ∃ cs, comment = '#' :: cs) ∧ (∀ q t b, (q, t, b) ∈ l → Quote q ∧ ∀ c ∈ b, Blank c) ∧
      line = blanks ++ (l.flatMap fun (q, t, b) => (if t.type = .string then q :: t.val ++ [q] else t.val) ++ b) ++ comment := by
  replace h := (C36_tokenize h0 ts).mp h
  clear h0
  induction h with
  | done => exact ⟨[], [], [], rfl, by simp, .inl rfl, by simp, rfl⟩
  | comment cs => exact ⟨[], '#' :: cs, [], rfl, by simp, .inr ⟨cs, rfl⟩, by simp, rfl⟩
  | @blank c cs ts hb _ ih =>
    obtain ⟨bl, co, l, h1, h2, h3, h4, rfl⟩ := ih
    exact ⟨c :: bl, co, l, h1, by simpa [hb] using h2, h3, h4, rfl⟩
  | @symbol c cs ts _ _ ih =>
    obtain ⟨bl, co, l, rfl, h2, h3, h4, rfl⟩ := ih
    refine ⟨[], co, ('"', ⟨.symbol, [c]⟩, bl) :: l, by simp, by simp, h3, ?_, by simp⟩
    intro q t b hm
    rcases List.mem_cons.mp hm with hm | hm
    · cases hm; exact ⟨.inl rfl, h2⟩
    · exact h4 q t b hm
  | @string q b cs ts hq _ _ ih =>
    obtain ⟨bl, co, l, rfl, h2, h3, h4, rfl⟩ := ih
    refine ⟨[], co, (q, ⟨.string, b⟩, bl) :: l, by simp, by simp, h3, ?_, by simp⟩
    intro q' t b' hm
    rcases List.mem_cons.mp hm with hm | hm
    · cases hm; exact ⟨hq, h2⟩
    · exact h4 q' t b' hm
  | @number c w cs ts _ _ _ _ ih =>
    obtain ⟨bl, co, l, rfl, h2, h3, h4, rfl⟩ := ih
    refine ⟨[], co, ('"', ⟨.number, c :: w⟩, bl) :: l, by simp, by simp, h3, ?_, by simp⟩
    intro q t b hm
    rcases List.mem_cons.mp hm with hm | hm
    · cases hm; exact ⟨.inl rfl, h2⟩
    · exact h4 q t b hm
  | @name c w cs ts _ _ _ _ ih =>
    obtain ⟨bl, co, l, rfl, h2, h3, h4, rfl⟩ := ih
    refine ⟨[], co, ('"', ⟨.identifier, c :: w⟩, bl) :: l, by simp, by simp, h3, ?_, by simp⟩
    intro q t b hm
    rcases List.mem_cons.mp hm with hm | hm
    · cases hm; exact ⟨.inl rfl, h2⟩
    · exact h4 q t b hm

/-- C36: a number that starts with its decimal point is not a number: `.5` is the symbol `.` and the number `5`. -/
theorem C36_leading_point : tokenize ".5".toList = some [⟨.symbol, ['.']⟩, ⟨.number, ['5']⟩] := rfl

/-- C36: a NUL character is taken for a symbol. -/
theorem C36_nul : tokenize [Char.ofNat 0] = some [⟨.symbol, [Char.ofNat 0]⟩] := rfl

/-! ### concrete cases -/

/-- a line of a schema file -/
def exLine : List Char := "R1 ~ bigram[maxlength=10](D1, D2)  # a relation".toList

theorem exLine_tokens : tokenize exLine = some ([⟨.identifier, "R1".toList⟩, ⟨.symbol, ['~']⟩, ⟨.identifier, "bigram".toList⟩, ⟨.symbol, ['[']⟩,
    ⟨.identifier, "maxlength".toList⟩, ⟨.symbol, ['=']⟩, ⟨.number, "10".toList⟩, ⟨.symbol, [']']⟩, ⟨.symbol, ['(']⟩,
    ⟨.identifier, "D1".toList⟩, ⟨.symbol, [',']⟩, ⟨.identifier, "D2".toList⟩, ⟨.symbol, [')']⟩]) := by decide

/-- C36_tokenize and C36_nothing_lost -/
example : ∃ ts, Lexed exLine ts ∧ ts.length = 13 := ⟨_, (C36_tokenize (by decide) _).mp exLine_tokens, rfl⟩

/-- C36_refused: an unclosed string -/
example : Bad "a = \"b".toList := (C36_refused (by decide)).mp (by decide)
/-- C36_refused: a character that starts no token -/
example : Bad "a @ b".toList := (C36_refused (by decide)).mp (by decide)

/-- C36_round_trip -/
example : tokenize " x = 'it \"is\"' # so".toList = some [⟨.identifier, ['x']⟩, ⟨.symbol, ['=']⟩, ⟨.string, "it \"is\"".toList⟩] :=
  C36_round_trip [(⟨.identifier, ['x']⟩, [' ']), (⟨.symbol, ['=']⟩, [' ']), (⟨.string, "it \"is\"".toList⟩, [' '])] (by
    intro t b h
    simp only [List.mem_cons, Prod.mk.injEq, List.not_mem_nil, or_false] at h
    rcases h with ⟨rfl, rfl⟩ | ⟨rfl, rfl⟩ | ⟨rfl, rfl⟩
    · exact ⟨⟨'x', [], rfl, .inl (by unfold Letter; decide), by simp⟩, by simp, by simp [Blank]⟩
    · exact ⟨⟨'=', by unfold Symbol; decide, rfl⟩, by simp, by simp [Blank]⟩
    · exact ⟨.inr (by decide), by simp, by simp [Blank]⟩) [' '] "# so".toList (by simp [Blank]) (.inr ⟨" so".toList, rfl⟩)

end Verif
