import Verif.Lemmas.ClusterFileIRM
namespace Verif
variable {V : Type}
namespace UtilIO
open Text

theorem hirmLines_append (l1 l2 : List (List Char)) (s : HLoad) : hirmLines (l1 ++ l2) s = (hirmLines l1 s >>= hirmLines l2) := by
  induction l1 generalizing s with
  | nil => rfl
  | cons l l1 ih =>
    rw [List.cons_append, hirmLines, hirmLines]
    cases hirmLine s l with
    | error e => rfl
    | ok s' => exact ih s'

theorem numeric_natText (n : Nat) : isNumeric (natText n) = true := by
  unfold isNumeric
  rw [Bool.and_eq_true]
  refine ⟨List.all_eq_true.mpr (natDigits_digits _ _), ?_⟩
  cases h : natText n with
  | nil => exact absurd h (natText_ne_nil n)
  | cons _ _ => rfl

/-- a row that can be read back -/
structure RRow.Readable (r : RRow) : Prop where
  tb : 0 ≤ r.tb
  names : ∀ x ∈ r.names, Word x
  ne : r.names ≠ []
  length : r.names.length ≤ r.n

theorem RRow.line_newline {r : RRow} (h : r.Readable) : '\n' ∉ r.line := by
  intro hn
  simp only [RRow.line, List.mem_append, List.mem_cons] at hn
  rcases hn with hn | hn | hn
  · exact intText_newline _ hn
  · exact absurd hn (by decide)
  · exact joinNames_newline _ _ h.names hn

theorem hirmLine_rel {s : HLoad} {r : RRow} (h : r.Readable) (hc : s.relations.find? r.tb = none) :
    hirmLine s r.line = .ok { s with relations := s.relations.set r.tb r.names } := by
  obtain ⟨tb, n, names⟩ := r
  obtain ⟨k, rfl⟩ := Int.eq_ofNat_of_zero_le h.tb
  simp only at hc
  have hl : RRow.line ⟨(k : Int), n, names⟩ = natText k ++ ' ' :: joinNames n 1 names := rfl
  have hlen := h.length
  simp only at hlen
  unfold hirmLine
  rw [hl, if_neg (by simp), readWord_append natText_not_space (natText_ne_nil k) rfl, if_pos (numeric_natText k)]
  unfold relLine
  simp only
  rw [words_space rfl, words_joinNames (n := n) names 1 h.names (by omega), natValue_natText, if_neg (by simpa using h.ne), if_neg]
  · rw [map_ofList_toList']
  · rw [Bool.not_eq_true, FMap.contains_false]
    exact hc
where
  map_ofList_toList' {l : List String} : (l.map String.toList).map String.ofList = l := by simp [List.map_map]

theorem hirmLines_rels : ∀ (rows : List RRow) (s : HLoad), (∀ r ∈ rows, r.Readable) → (rows.map RRow.tb).Nodup → (∀ r ∈ rows, s.relations.find? r.tb = none) →
    hirmLines (rows.map RRow.line) s = .ok { s with relations := rows.foldl (fun m r => m.set r.tb r.names) s.relations } := by
  intro rows
  induction rows with
  | nil => intro s _ _ _; rfl
  | cons r rows ih =>
    intro s hr hnd hf
    simp only [List.map_cons, List.nodup_cons] at hnd
    rw [List.map_cons, hirmLines, hirmLine_rel (hr r (by simp)) (hf r (by simp))]
    simp only [bind, Except.bind]
    rw [ih { s with relations := s.relations.set r.tb r.names } (fun r' h' => hr r' (by simp [h'])) hnd.2]
    · rfl
    · intro r' hr'
      have hne : r'.tb ≠ r.tb := fun he => hnd.1 (List.mem_map.mpr ⟨r', hr', he⟩)
      simp only
      rw [FMap.find?_set_ne _ hne, hf r' (by simp [hr'])]

theorem head_not_space (tb : Int) : ∀ c ∈ "irm=".toList ++ intText tb, isSpace c = false := by
  intro c hc
  rcases List.mem_append.mp hc with hc | hc
  · have : c = 'i' ∨ c = 'r' ∨ c = 'm' ∨ c = '=' := by simpa using hc
    rcases this with rfl | rfl | rfl | rfl <;> rfl
  · exact intText_not_space c hc

theorem hirmLine_head {s : HLoad} {tb : Int} (hs : s.irmc = -1) (hc : s.irms.find? tb = none) :
    hirmLine s ("irm=".toList ++ intText tb) = .ok { s with irmc := tb, irms := s.irms.set tb ∅ } := by
  unfold hirmLine
  rw [if_neg (by simp), readWord_end (head_not_space tb)]
  have h1 : isNumeric ("irm=".toList ++ intText tb) = false := rfl
  have h2 : ("irm=".toList.isPrefixOf ("irm=".toList ++ intText tb)) = true := by
    rw [List.isPrefixOf_iff_prefix]
    exact List.prefix_append _ _
  rw [h1, h2]
  simp only [Bool.false_eq_true, if_false, if_true]
  unfold headLine
  have h3 : ("irm=".toList ++ intText tb).drop 4 = intText tb := rfl
  have h4 : readInt (intText tb) = some (tb, []) := by
    have := readInt_append tb [] (by simp)
    rwa [List.append_nil] at this
  have h5 : ¬ ("irm=".toList ++ intText tb).length ≤ 4 := by
    have h6 : 0 < (intText tb).length := List.length_pos_iff.mpr (intText_ne_nil tb)
    have h7 : ("irm=".toList).length = 4 := rfl
    rw [List.length_append, h7]
    omega
  rw [if_neg (by simp [hs]), if_neg h5, h3, h4]
  simp only
  rw [if_neg]
  rw [Bool.not_eq_true, FMap.contains_false]
  exact hc

/-- the domain name is not taken for anything else -/
theorem domainWord_numeric {d : String} (h : DomainWord d) : isNumeric d.toList = false := by
  obtain ⟨⟨c, hc, hn⟩, _⟩ := h
  unfold isNumeric
  rw [Bool.and_eq_false_iff]
  left
  rw [List.all_eq_false]
  exact ⟨c, hc, by simp [hn]⟩

theorem hirmLine_dom {s : HLoad} {r : CRow} {cl : Clusters} (h : r.Readable) (hd : DomainWord r.d) (ht : 0 ≤ r.tb) (hs : 0 ≤ s.irmc)
    (hc : s.irms.find? s.irmc = some cl) (hl : look cl r.d r.tb = none) :
    hirmLine s r.line = .ok { s with irms := s.irms.set s.irmc (r.add cl) } := by
  obtain ⟨k, hk⟩ := Int.eq_ofNat_of_zero_le ht
  unfold hirmLine
  rw [if_neg r.line_ne, h.split, domainWord_numeric hd]
  have hp : "irm=".toList.isPrefixOf r.d.toList = false := by
    rw [Bool.eq_false_iff, Ne, List.isPrefixOf_iff_prefix]
    exact hd.2
  rw [hp]
  simp only [Bool.false_eq_true, if_false]
  unfold domLine
  rw [if_neg (by omega), hc]
  simp only
  have hsplit : readWord (' ' :: (intText r.tb ++ ' ' :: joinNames r.n 1 r.names)) = (natText k, ' ' :: joinNames r.n 1 r.names) := by
    rw [readWord_skip rfl, hk, intText_nat, readWord_append natText_not_space (natText_ne_nil k) rfl]
  rw [hsplit]
  simp only
  rw [numeric_natText, if_pos rfl, h.words, natValue_natText, String.ofList_toList, ← hk, addCluster_row h.ne hl]
  rfl

theorem hirmLines_doms : ∀ (rows : List CRow) (s : HLoad) (cl : Clusters), (∀ r ∈ rows, r.Readable ∧ DomainWord r.d ∧ 0 ≤ r.tb) →
    (rows.map (fun r => (r.d, r.tb))).Nodup → 0 ≤ s.irmc → s.irms.find? s.irmc = some cl → (∀ r ∈ rows, look cl r.d r.tb = none) →
    hirmLines (rows.map CRow.line) s = .ok { s with irms := s.irms.set s.irmc (rows.foldl (fun c r => r.add c) cl) } := by
  intro rows
  induction rows with
  | nil =>
    intro s cl _ _ _ hc _
    rw [List.foldl_nil, FMap.set_of_find hc]
    rfl
  | cons r rows ih =>
    intro s cl hr hnd hs hc hl
    simp only [List.map_cons, List.nodup_cons] at hnd
    obtain ⟨h1, h2, h3⟩ := hr r (by simp)
    rw [List.map_cons, hirmLines, hirmLine_dom h1 h2 h3 hs hc (hl r (by simp))]
    simp only [bind, Except.bind]
    rw [ih { s with irms := s.irms.set s.irmc (r.add cl) } (r.add cl) (fun r' h' => hr r' (by simp [h'])) hnd.2 hs (FMap.find?_set_self _ _ _)]
    · simp only [List.foldl_cons, FMap.set_set]
    · intro r' hr'
      rw [look_add, if_neg, hl r' (by simp [hr'])]
      rintro ⟨h1, h2⟩
      exact hnd.1 (List.mem_map.mpr ⟨r', hr', by rw [h1, h2]⟩)

theorem hirmLines_blocks : ∀ (bs : List (Int × List CRow)) (s : HLoad), s.irmc = -1 → (bs.map Prod.fst).Nodup →
    (∀ b ∈ bs, 0 ≤ b.1 ∧ s.irms.find? b.1 = none ∧ (b.2.map (fun r => (r.d, r.tb))).Nodup ∧ ∀ r ∈ b.2, r.Readable ∧ DomainWord r.d ∧ 0 ≤ r.tb) →
    ∃ c, hirmLines (blockLines bs) s = .ok { s with irms := bs.foldl (fun m b => m.set b.1 (b.2.foldl (fun c r => r.add c) ∅)) s.irms, irmc := c } := by
  intro bs
  induction bs with
  | nil => intro s _ _ _; exact ⟨s.irmc, rfl⟩
  | cons b bs ih =>
    obtain ⟨tb, rows⟩ := b
    intro s hs hnd hb
    simp only [List.map_cons, List.nodup_cons] at hnd
    obtain ⟨h1, h2, h3, h4⟩ := hb (tb, rows) (by simp)
    have hblock : hirmLines (("irm=".toList ++ intText tb) :: rows.map CRow.line) s =
        .ok { s with irms := s.irms.set tb (rows.foldl (fun c r => r.add c) ∅), irmc := tb } := by
      rw [hirmLines, hirmLine_head hs h2]
      simp only [bind, Except.bind]
      rw [hirmLines_doms rows { s with irmc := tb, irms := s.irms.set tb ∅ } ∅ h4 h3 h1 (FMap.find?_set_self _ _ _) (fun r _ => rfl)]
      simp only [FMap.set_set]
    rw [blockLines, hirmLines_append, hirmLines_append, hblock]
    simp only [bind, Except.bind]
    by_cases hbs : bs = []
    · subst hbs
      exact ⟨tb, rfl⟩
    · rw [if_neg hbs]
      obtain ⟨c, hc⟩ := ih { s with irms := s.irms.set tb (rows.foldl (fun c r => r.add c) ∅), irmc := -1 } rfl hnd.2 (by
        intro b hb'
        obtain ⟨h5, h6, h7⟩ := hb b (by simp [hb'])
        have hne : b.1 ≠ tb := fun he => hnd.1 (List.mem_map.mpr ⟨b, hb', he⟩)
        refine ⟨h5, ?_, h7⟩
        simp only
        rw [FMap.find?_set_ne _ hne, h6])
      refine ⟨c, ?_⟩
      simp only [hirmLines, hirmLine, bind, Except.bind, if_true]
      rw [hc]
      rfl

theorem foldl_set_find {α β γ : Type} [Key β] (k : α → β) (f : α → γ) : ∀ (l : List α) (m : FMap β γ), (l.map k).Nodup → ∀ x v,
    (l.foldl (fun m a => m.set (k a) (f a)) m).find? x = some v ↔ (∃ a ∈ l, k a = x ∧ f a = v) ∨ (x ∉ l.map k ∧ m.find? x = some v) := by
  intro l
  induction l with
  | nil => intro m _ x v; simp
  | cons a l ih =>
    intro m hnd x v
    simp only [List.map_cons, List.nodup_cons] at hnd
    rw [List.foldl_cons, ih _ hnd.2]
    by_cases h : k a = x
    · subst h
      rw [FMap.find?_set_self]
      constructor
      · rintro (⟨b, hb, h1, h2⟩ | ⟨_, h2⟩)
        · exact .inl ⟨b, by simp [hb], h1, h2⟩
        · exact .inl ⟨a, by simp, rfl, by simpa using h2⟩
      · rintro (⟨b, hb, h1, h2⟩ | ⟨h1, _⟩)
        · rcases List.mem_cons.mp hb with rfl | hb
          · exact .inr ⟨hnd.1, by rw [h2]⟩
          · exact .inl ⟨b, hb, h1, h2⟩
        · simp at h1
    · rw [FMap.find?_set_ne _ (fun e => h e.symm)]
      constructor
      · rintro (⟨b, hb, h1, h2⟩ | ⟨h1, h2⟩)
        · exact .inl ⟨b, by simp [hb], h1, h2⟩
        · exact .inr ⟨by simp only [List.map_cons, List.mem_cons, not_or]; exact ⟨fun e => h e.symm, h1⟩, h2⟩
      · rintro (⟨b, hb, h1, h2⟩ | ⟨h1, h2⟩)
        · rcases List.mem_cons.mp hb with rfl | hb
          · exact absurd h1 h
          · exact .inl ⟨b, hb, h1, h2⟩
        · simp only [List.map_cons, List.mem_cons, not_or] at h1
          exact .inr ⟨h1.2, h2⟩

end UtilIO
end Verif
