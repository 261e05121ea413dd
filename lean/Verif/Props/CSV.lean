import Verif.Lemmas.CSV
/-!
C37: comma-separated files.  C38: the files with generated samples.
-/
namespace Verif
namespace DataFrame
open Text Verif.Lex

/-- C37: what `from_csv` reads, for every text whose first line names columns, all different.  A comma at the end of the header is ignored.
Every other line that is not empty has one value per column, of which only the last may be empty; anything else is refused or undefined. -/
theorem C37_from_csv (text : List Char) (df : DataFrame) :
    (fromCsv text = .ok df ∧ df.columns.Nodup ∧ df.columns ≠ []) ↔
    df.columns.Nodup ∧ df.columns ≠ [] ∧ (∀ c ∈ df.columns, c ≠ []) ∧
    ∃ header ls rows, (text.splitOn '\n').filter (· ≠ []) = header :: ls ∧
      (RowText header df.columns ∨ RowText header (df.columns ++ [[]])) ∧
      List.Forall₂ RowText ls rows ∧ (∀ r ∈ rows, Legible r ∧ r.length = df.columns.length) ∧ df.Holds rows := by
  have hf : fromCsv text = lineLoop [] ((text.splitOn '\n').filter (· ≠ [])) true {} := by
    rw [← filter_lines, ← lineLoop_filter]; rfl
  have hls : ∀ l ∈ (text.splitOn '\n').filter (· ≠ []), l ≠ [] := fun l hl => by simpa using (List.mem_filter.mp hl).2
  rw [hf]
  generalize (text.splitOn '\n').filter (· ≠ []) = L at hls
  have hfil : ∀ {ls : List (List Char)}, (∀ l ∈ ls, l ≠ []) → ls.filter (· ≠ []) = ls :=
    fun h => List.filter_eq_self.mpr (fun l hl => by simpa using h l hl)
  constructor
  · rintro ⟨h1, h2, h3⟩
    cases L with
    | nil =>
      cases h1
      exact absurd rfl h3
    | cons header ls =>
      have hne := hls header (by simp)
      have hls' : ∀ l ∈ ls, l ≠ [] := fun l hl => hls l (by simp [hl])
      rw [lineLoop, if_neg hne] at h1
      obtain ⟨df1, h4, h5⟩ := bind_ok.mp h1
      rw [readLine, if_pos (by simp)] at h4
      obtain ⟨cs, h6, rfl⟩ := (headerLoop_ok _ _ _).mp h4
      obtain ⟨h7, h8, h9⟩ := (header_text hne cs).mp h6
      simp only [List.nil_append] at h5
      have hnd : cs.Nodup := by
        have : df.columns = cs := lineLoop_columns _ _ _ h5
        exact this ▸ h2
      obtain ⟨h10, rows, h11, h12, h13, h14⟩ := lines_read [] ls _ df (table_zero hnd).shape h5
      have hcs : df.columns = cs := h10
      rw [hfil hls'] at h11
      have hrows : ∀ i (hi : i < ls.length) (hr : i < rows.length), RowText ls[i] rows[i] ∧ Legible rows[i] := by
        intro i hi hr
        have h := List.Forall₂.get h11 hi hr
        exact (row_text (hls' _ (List.getElem_mem hi)) _).mp (rowOf_ok.mp h)
      refine ⟨h2, h3, hcs ▸ h8, header, ls, rows, rfl, hcs ▸ h9, ?_, ?_, ?_⟩
      · exact List.forall₂_iff_get.mpr ⟨h11.length_eq, fun i h1 h2 => (hrows i h1 h2).1⟩
      · intro r hr
        obtain ⟨i, hi, rfl⟩ := List.getElem_of_mem hr
        exact ⟨(hrows i (h11.length_eq ▸ hi) hi).2, by rw [hcs]; exact h12 _ hr⟩
      · have hcol : ∀ j c, df.columns[j]? = some c → df.col c = rows.map (·.getD j []) := by
          intro j c hc
          rw [hcs] at hc
          rw [h14 j c hc]
          have : col { columns := cs, data := cs.foldl (fun m c => m.set c []) ∅ } c = [] :=
            List.length_eq_zero_iff.mp ((table_zero hnd).rows c (List.mem_of_getElem? hc))
          rw [this, List.nil_append]
        refine ⟨⟨h13.distinct, h13.data, fun c hc => ?_⟩, hcol⟩
        obtain ⟨j, hj, rfl⟩ := List.getElem_of_mem hc
        rw [hcol j _ (List.getElem?_eq_getElem hj), List.length_map]
  · rintro ⟨h1, h2, h3, header, ls, rows, rfl, h4, h5, h6, h7⟩
    refine ⟨?_, h1, h2⟩
    have hne := hls header (by simp)
    have hls' : ∀ l ∈ ls, l ≠ [] := fun l hl => hls l (by simp [hl])
    have h8 := (header_text hne _).mpr ⟨h2, h3, h4⟩
    have h9 : List.Forall₂ (fun l r => rowOf l = .ok r) (ls.filter (· ≠ [])) rows := by
      rw [hfil hls']
      refine List.forall₂_iff_get.mpr ⟨h5.length_eq, fun i hi hr => ?_⟩
      refine rowOf_ok.mpr ((row_text (hls' _ (List.getElem_mem hi)) _).mpr ⟨h5.get hi hr, (h6 _ (List.getElem_mem hr)).1⟩)
    obtain ⟨df', h10⟩ := lines_ok [] ls { columns := df.columns, data := df.columns.foldl (fun m c => m.set c []) ∅ } rows (table_zero h1).shape
      h9 (fun r hr => (h6 r hr).2)
    obtain ⟨h11, rows', h12, _, h14, h15⟩ := lines_read [] ls _ df' (table_zero h1).shape h10
    have hrows : rows' = rows := by
      have : ∀ (a b c : List _), List.Forall₂ (fun l r => rowOf l = .ok r) a b → List.Forall₂ (fun l r => rowOf l = .ok r) a c → b = c := by
        intro a
        induction a with
        | nil => intro b c h h'; cases h; cases h'; rfl
        | cons x a ih =>
          intro b c h h'
          cases h with
          | cons e1 e2 =>
            cases h' with
            | cons e3 e4 =>
              rw [e1] at e3
              cases e3
              rw [ih _ _ e2 e4]
      exact this _ _ _ h12 h9
    subst hrows
    have h11 : df'.columns = df.columns := h11
    have hcol : ∀ c ∈ df'.columns, df'.col c = df.col c := by
      intro c hc
      rw [h11] at hc
      obtain ⟨j, hj, rfl⟩ := List.getElem_of_mem hc
      rw [h15 j _ (List.getElem?_eq_getElem hj), h7.2 j _ (List.getElem?_eq_getElem hj)]
      have : col { columns := df.columns, data := df.columns.foldl (fun m c => m.set c []) ∅ } df.columns[j] = [] :=
        List.length_eq_zero_iff.mp ((table_zero h1).rows _ hc)
      rw [this, List.nil_append]
    have htab : Table df' rows'.length :=
      ⟨h14.distinct, h14.data, fun c hc => by rw [hcol c hc]; exact h7.1.rows c (h11 ▸ hc)⟩
    have : df' = df := htab.ext' h7.1 h11 hcol
    rw [lineLoop, if_neg hne, readLine, if_pos (by simp), (headerLoop_ok _ _ _).mpr ⟨_, h8, rfl⟩]
    simp only [List.nil_append]
    show lineLoop [] ls false _ = _
    rw [h10, this]

/-- C37: `from_csv` never yields columns of different lengths, if the header does not repeat a name. -/
theorem C37_columns_agree {text : List Char} {df : DataFrame} (h : fromCsv text = .ok df) (hd : df.columns.Nodup) : ∃ n, df.Table n := by
  by_cases hc : df.columns = []
  · have hf : fromCsv text = lineLoop [] ((text.splitOn '\n').filter (· ≠ [])) true {} := by
      rw [← filter_lines, ← lineLoop_filter]; rfl
    have hls : ∀ l ∈ (text.splitOn '\n').filter (· ≠ []), l ≠ [] := fun l hl => by simpa using (List.mem_filter.mp hl).2
    rw [hf] at h
    cases hL : (text.splitOn '\n').filter (· ≠ []) with
    | nil =>
      rw [hL] at h
      cases h
      exact ⟨0, table_zero (cs := []) (by simp)⟩
    | cons header ls =>
      rw [hL] at h hls
      have hne := hls header (by simp)
      rw [lineLoop, if_neg hne] at h
      obtain ⟨df1, h4, h5⟩ := bind_ok.mp h
      rw [readLine, if_pos (by simp)] at h4
      obtain ⟨cs, h6, rfl⟩ := (headerLoop_ok _ _ _).mp h4
      have := lineLoop_columns _ _ _ h5
      simp only [List.nil_append] at this
      exact absurd (this.symm.trans hc) ((header_text hne cs).mp h6).1
  · obtain ⟨_, _, _, _, _, rows, _, _, _, _, h⟩ := (C37_from_csv text df).mp ⟨h, hd, hc⟩
    exact ⟨_, h.1⟩

/-- C37: reading what `to_csv` has written gives the frame back, for every frame whose names and values can be written. -/
theorem C37_round_trip {df : DataFrame} {n : Nat} (ht : df.Table n) (hw : df.Writable) :
    ∃ text, df.toCsv = .ok text ∧ fromCsv text = .ok df := by
  cases hc : df.columns with
  | nil =>
    refine ⟨[], by rw [toCsv, hc], ?_⟩
    show Except.ok _ = _
    congr 1
    exact (table_zero (cs := []) (by simp)).ext' ht hc.symm (by simp)
  | cons c0 cs =>
    have hc0 : c0 ∈ df.columns := by rw [hc]; simp
    have hlen0 : ((df.data.find? c0).getD []).length = n := ht.rows c0 hc0
    have hne : df.columns ≠ [] := by rw [hc]; simp
    have hfield : ∀ c ∈ df.columns, Field c := hw.1
    have hrow : ∀ i < n, ∀ j v, (df.row i)[j]? = some v → Field v ∨ (v = [] ∧ j + 1 = df.columns.length ∧ 2 ≤ df.columns.length) := by
      intro i hi j v hj
      unfold row at hj
      rw [List.getElem?_map] at hj
      obtain ⟨c, hcj, rfl⟩ := Option.map_eq_some_iff.mp hj
      refine hw.2 j c _ hcj ?_
      have := ht.rows c (List.mem_of_getElem? hcj)
      rw [List.getD_eq_getElem?_getD, List.getElem?_eq_getElem (by omega)]
      exact List.getElem_mem _
    have hrowlen : ∀ i, (df.row i).length = df.columns.length := fun i => by simp [row]
    have hleg : ∀ i < n, Legible (df.row i) := by
      intro i hi
      refine ⟨fun h => hne (List.length_eq_zero_iff.mp (by rw [← hrowlen i, h]; rfl)), fun j v hj => ?_⟩
      rcases hrow i hi j v hj with h | h
      · left
        rintro rfl
        obtain ⟨_, _, c, hcc, _⟩ := h
        cases hcc
      · right
        rw [hrowlen]; exact h.2
    have hrt : ∀ i < n, RowText (joinComma (df.row i)) (df.row i) := by
      intro i hi
      apply rowText_join
      intro v hv
      obtain ⟨j, hj, rfl⟩ := List.getElem_of_mem hv
      rcases hrow i hi j _ (List.getElem?_eq_getElem hj) with h | h
      · exact .inl h
      · exact .inr h.1
    have hht : RowText (joinComma df.columns) df.columns := rowText_join (fun v hv => .inl (hfield v hv))
    have hnn : ∀ vs : List (List Char), (∀ v ∈ vs, Field v ∨ v = []) → '\n' ∉ joinComma vs := by
      intro vs hvs hm
      rw [joinComma_eq] at hm
      rcases mem_intercalate hm with h | ⟨v, hv, h⟩
      · exact absurd h (by decide)
      · rcases hvs v hv with h' | rfl
        · exact h'.2.1 h
        · cases h
    have hL1 : ∀ l ∈ joinComma df.columns :: (List.range' 0 n).map (fun i => joinComma (df.row i)), '\n' ∉ l ∧ l ≠ [] := by
      intro l hl
      rcases List.mem_cons.mp hl with rfl | hl
      · refine ⟨hnn _ (fun v hv => .inl (hfield v hv)), ?_⟩
        rw [joinComma_eq]
        apply intercalate_ne_nil _ hne
        intro h
        obtain ⟨_, _, c, hcc, _⟩ := hfield [] (by rw [h]; simp)
        cases hcc
      · obtain ⟨i, hi, rfl⟩ := List.mem_map.mp hl
        have hi : i < n := by simpa using (List.mem_range'_1.mp hi).2
        refine ⟨hnn _ (fun v hv => ?_), ?_⟩
        · obtain ⟨j, hj, rfl⟩ := List.getElem_of_mem hv
          rcases hrow i hi j _ (List.getElem?_eq_getElem hj) with h | h
          · exact .inl h
          · exact .inr h.1
        · rw [joinComma_eq]
          apply intercalate_ne_nil _ (hleg i hi).1
          intro h
          have hl := hrowlen i
          rcases (hleg i hi).2 0 [] (by rw [h]; rfl) with h' | h'
          · exact h' rfl
          · rw [h] at h'; simp at h'
    have htext : df.toCsv = .ok ((joinComma df.columns :: (List.range' 0 n).map (fun i => joinComma (df.row i))).flatMap (· ++ ['\n'])) := by
      have := rowsFrom_ok ht.rows n 0 (by omega)
      unfold toCsv
      rw [hc]
      simp only
      rw [hlen0, this]
      simp [bind, Except.bind]
    refine ⟨_, htext, ((C37_from_csv _ df).mpr ?_).1⟩
    refine ⟨ht.distinct, hne, ?_, joinComma df.columns, (List.range' 0 n).map (fun i => joinComma (df.row i)),
      (List.range' 0 n).map df.row, ?_, .inl hht, ?_, ?_, ?_, ?_⟩
    · intro c hcc h
      obtain ⟨_, _, x, hx, _⟩ := hfield c hcc
      rw [h] at hx
      cases hx
    · rw [← filter_lines, lines_flatMap _ (fun l hl => (hL1 l hl).1), List.filter_eq_self.mpr]
      intro l hl
      simpa using (hL1 l hl).2
    · rw [List.forall₂_map_left_iff, List.forall₂_map_right_iff, List.forall₂_same]
      intro i hi
      exact hrt i (by simpa using (List.mem_range'_1.mp hi).2)
    · intro r hr
      obtain ⟨i, hi, rfl⟩ := List.mem_map.mp hr
      have hi : i < n := by simpa using (List.mem_range'_1.mp hi).2
      exact ⟨hleg i hi, hrowlen i⟩
    · rw [List.length_map, List.length_range']; exact ht
    · intro j c hcj
      have hl := ht.rows c (List.mem_of_getElem? hcj)
      rw [List.map_map]
      apply List.ext_getElem
      · simp [hl]
      · intro i h1 h2
        simp only [List.getElem_map, List.getElem_range', Function.comp, Nat.zero_add, Nat.one_mul]
        simp only [row, List.getD_eq_getElem?_getD, List.getElem?_map, hcj, Option.map_some, Option.getD_some]
        rw [List.getElem?_eq_getElem h1]
        rfl

/-- C37: with given column names, which must be different, the first line is not checked: it may have too few values.  All other lines have
one value per column. -/
theorem C37_given_names_partial {text : List Char} {names : List (List Char)} {df : DataFrame} (hn : names ≠ []) (hd : names.Nodup)
    (h : fromCsv text names = .ok df) :
    df.columns = names ∧ (((text.splitOn '\n').filter (· ≠ []) = [] ∧ df.Table 0) ∨
      ∃ first vs ls rows, (text.splitOn '\n').filter (· ≠ []) = first :: ls ∧ vs.length ≤ names.length ∧
        (RowText first vs ∨ RowText first (vs ++ [[]])) ∧ List.Forall₂ RowText ls rows ∧ (∀ r ∈ rows, r.length = names.length) ∧
        ∀ j c, names[j]? = some c → df.col c = vs[j]?.toList ++ rows.map (·.getD j [])) := by
  have hf : fromCsv text names = lineLoop names ((text.splitOn '\n').filter (· ≠ [])) true
      { columns := names, data := names.foldl (fun m c => m.set c []) ∅ } := by
    rw [← filter_lines, ← lineLoop_filter]; rfl
  have hls : ∀ l ∈ (text.splitOn '\n').filter (· ≠ []), l ≠ [] := fun l hl => by simpa using (List.mem_filter.mp hl).2
  rw [hf] at h
  have hnames : names.isEmpty = false := by cases names with
    | nil => exact absurd rfl hn
    | cons => rfl
  generalize (text.splitOn '\n').filter (· ≠ []) = L at hls h
  have ht := table_zero hd
  cases L with
  | nil =>
    cases h
    exact ⟨rfl, .inl ⟨rfl, ht⟩⟩
  | cons first ls =>
    have hne := hls first (by simp)
    have hls' : ∀ l ∈ ls, l ≠ [] := fun l hl => hls l (by simp [hl])
    rw [lineLoop, if_neg hne] at h
    obtain ⟨df1, h4, h5⟩ := bind_ok.mp h
    rw [readLine, if_neg (by simp [hnames])] at h4
    obtain ⟨⟨df2, k⟩, h6, h7⟩ := bind_ok.mp h4
    have h7 : df2 = df1 := by simpa using h7
    subst h7
    obtain ⟨hk, hle, vs, hvs, ha⟩ := rowLoop_read _ _ _ _ _ hd ht.shape.contains h6
    have htext := (header_text hne vs).mp hvs
    obtain ⟨h8, rows, h9, h10, h11, h12⟩ := lines_read names ls _ df (ha.shape ht.shape) h5
    rw [ha.1] at h8 h10 h12
    refine ⟨h8, .inr ⟨first, vs, ls, rows, rfl, ?_, htext.2.2, ?_, h10, ?_⟩⟩
    · have hlen := mapM_length hvs
      have hpne : parts ',' first ≠ [] := fun hp => htext.1 (List.length_eq_zero_iff.mp (by rw [hlen, hp]; rfl))
      have := hle hpne
      have hcols : (({ columns := names, data := names.foldl (fun m c => m.set c []) ∅ } : DataFrame)).columns.length = names.length := rfl
      omega
    · rw [List.filter_eq_self.mpr (fun l hl => by simpa using hls' l hl)] at h9
      refine List.forall₂_iff_get.mpr ⟨h9.length_eq, fun i hi hr => ?_⟩
      exact ((row_text (hls' _ (List.getElem_mem hi)) _).mp (rowOf_ok.mp (h9.get hi hr))).1
    · intro j c hjc
      rw [h12 j c hjc, ha.2.2 j c hjc]
      have : col { columns := names, data := names.foldl (fun m c => m.set c []) ∅ } c = [] :=
        List.length_eq_zero_iff.mp (ht.rows c (List.mem_of_getElem? hjc))
      rw [this, List.nil_append]
      simp

/-! ### what fails -/

/-- C37: a line whose first value is missing or blank is undefined behaviour (`back` of an empty string). -/
theorem C37_empty_value_ub (text : List Char) :
    fromCsv ("a,b\n,1\n".toList ++ text) = .error .ub ∧ fromCsv ("a,b\n  ,1\n".toList ++ text) = .error .ub := ⟨rfl, rfl⟩

/-- C37: too many values are undefined behaviour, not an error. -/
theorem C37_extra_value_ub (text : List Char) : fromCsv ("a,b\n1,2,3\n".toList ++ text) = .error .ub := rfl

/-- C37: a missing value is refused. -/
theorem C37_missing_value_refused (text : List Char) : fromCsv ("a,b\n1\n".toList ++ text) = .error .assert := rfl

/-- C37 is false: with given names, a short first line makes columns of different lengths. -/
theorem C37_given_names_false : ∃ df, fromCsv "1\n2,3\n".toList [['a'], ['b']] = .ok df ∧ df.col ['a'] = [['1'], ['2']] ∧ df.col ['b'] = [['3']] :=
  ⟨_, rfl, rfl, rfl⟩

/-- C37 is false: a repeated name makes columns of different lengths. -/
theorem C37_repeated_name_false : ∃ df, fromCsv "a,a,b\n1,2,3\n".toList = .ok df ∧ df.col ['a'] = [['1'], ['2']] ∧ df.col ['b'] = [['3']] :=
  ⟨_, rfl, rfl, rfl⟩

theorem table_one (a : List Char) (vs : List (List Char)) : Table ⟨[a], (∅ : FMap _ _).set a vs⟩ vs.length := by
  refine ⟨by simp, fun c => ?_, fun c hc => ?_⟩
  · show FMap.contains (FMap.set ∅ a vs) c = true ↔ c ∈ [a]
    unfold FMap.contains
    rw [FMap.find?_set, FMap.find?_empty]
    by_cases h : c = a <;> simp [h]
  · have hc : c = a := by simpa using hc
    subst hc
    unfold col
    rw [FMap.find?_set_self]
    rfl

theorem table_two {a b : List Char} (h : a ≠ b) {vs ws : List (List Char)} (hl : ws.length = vs.length) :
    Table ⟨[a, b], ((∅ : FMap _ _).set a vs).set b ws⟩ vs.length := by
  refine ⟨by simp [h], fun c => ?_, fun c hc => ?_⟩
  · show FMap.contains (FMap.set (FMap.set ∅ a vs) b ws) c = true ↔ c ∈ [a, b]
    unfold FMap.contains
    rw [FMap.find?_set, FMap.find?_set, FMap.find?_empty]
    by_cases h1 : c = b <;> by_cases h2 : c = a <;> simp [h1, h2, h]
  · have hc : c = a ∨ c = b := by simpa using hc
    unfold col
    simp only
    rw [FMap.find?_set, FMap.find?_set]
    rcases hc with rfl | rfl
    · rw [if_neg h, if_pos rfl]; rfl
    · rw [if_pos rfl]; exact hl

/-- C37 is false: the empty values of an only column are lost. -/
theorem C37_single_column_false : ∃ df df' : DataFrame, ∃ text, df.Table 2 ∧ df.toCsv = .ok text ∧ fromCsv text = .ok df' ∧ df'.Table 1 :=
  ⟨⟨[['a']], (∅ : FMap _ _).set ['a'] [[], ['1']]⟩, ⟨[['a']], (∅ : FMap _ _).set ['a'] [['1']]⟩, _, table_one _ _, rfl, rfl, table_one _ _⟩

/-- C37 is false: values with commas, with line ends or with blanks at their end are not read back. -/
theorem C37_special_values_false :
    (∃ text, (⟨[['a'], ['b']], (∅ : FMap _ _).set ['a'] [['x', ',', 'y']] |>.set ['b'] [['1']]⟩ : DataFrame).toCsv = .ok text ∧ fromCsv text = .error .ub) ∧
    (∃ text df', (⟨[['a']], (∅ : FMap _ _).set ['a'] [['x', ' ']]⟩ : DataFrame).toCsv = .ok text ∧ fromCsv text = .ok df' ∧ df'.col ['a'] = [['x']]) ∧
    (∃ text df', (⟨[['a']], (∅ : FMap _ _).set ['a'] [['x', '\n', 'y']]⟩ : DataFrame).toCsv = .ok text ∧ fromCsv text = .ok df' ∧ df'.col ['a'] = [['x'], ['y']]) :=
  ⟨⟨_, rfl, rfl⟩, ⟨_, _, rfl, rfl, rfl⟩, ⟨_, _, rfl, rfl, rfl⟩⟩

/-! ### C38 -/

/-- C38: `make_pclean_samples` collects one value per sample in each column. -/
theorem C38_samples_collected_partial {σ : Type} {sample : Int → σ → Res (FMap (List Char) (List Char) × σ)} {fields : List (List Char)}
    (hs : ∀ i g r, sample i g = .ok r → ∀ f, r.1.contains f = true ↔ f ∈ fields) {n : Nat} {start : Int} {g g' : σ} {df : DataFrame}
    (h : makeSamples sample n start g = .ok (df, g')) : (∀ f ∈ fields, (df.col f).length = n) ∧ ∀ f, f ∉ fields → df.col f = [] := by
  have key : ∀ n start (df0 : DataFrame) g, sampleLoop sample n start df0 g = .ok (df, g') →
      (∀ f ∈ fields, (df.col f).length = (df0.col f).length + n) ∧ ∀ f, f ∉ fields → df.col f = df0.col f := by
    intro n
    induction n with
    | zero => intro start df0 g h; cases h; simp
    | succ n ih =>
      intro start df0 g h
      obtain ⟨r, h1, h⟩ := bind_ok.mp h
      obtain ⟨h2, h3⟩ := ih _ _ _ h
      have hc := (addSample_col df0 r.1).2
      have hf := hs _ _ _ h1
      refine ⟨fun f hff => ?_, fun f hff => ?_⟩
      · rw [h2 f hff, hc f, List.length_append]
        have := (hf f).mpr hff
        unfold FMap.contains at this
        obtain ⟨v, hv⟩ := Option.isSome_iff_exists.mp this
        rw [hv]
        simp
        omega
      · rw [h3 f hff, hc f]
        have : ¬ r.1.contains f = true := fun h => hff ((hf f).mp h)
        unfold FMap.contains at this
        rw [Option.not_isSome_iff_eq_none.mp this]
        simp
  obtain ⟨h1, h2⟩ := key _ _ _ _ h
  have h0 : ∀ f, ({} : DataFrame).col f = [] := fun f => by show ((∅ : FMap _ _).find? f).getD [] = []; rw [FMap.find?_empty]; rfl
  exact ⟨fun f hf => by rw [h1 f hf, h0]; simp, fun f hf => by rw [h2 f hf, h0]⟩

/-- C38 is false: whatever is sampled, the file that is written is empty, because the names of the columns are not set. -/
theorem C38_false {σ : Type} {sample : Int → σ → Res (FMap (List Char) (List Char) × σ)} {n : Nat} {start : Int} {g g' : σ} {df : DataFrame}
    (h : makeSamples sample n start g = .ok (df, g')) : df.toCsv = .ok [] := by
  have key : ∀ n start (df0 : DataFrame) g, sampleLoop sample n start df0 g = .ok (df, g') → df.columns = df0.columns := by
    intro n
    induction n with
    | zero => intro start df0 g h; cases h; rfl
    | succ n ih =>
      intro start df0 g h
      obtain ⟨r, h1, h⟩ := bind_ok.mp h
      exact (ih _ _ _ h).trans (addSample_col df0 r.1).1
  unfold toCsv
  rw [key _ _ _ _ h]

/-! ### concrete cases -/

/-- a file with blanks before the commas, an empty line and a missing last value -/
example : fromCsv "Room Type ,Rent\n\nstudio,1800\n2br  ,\n".toList =
    .ok ⟨["Room Type".toList, "Rent".toList],
      (∅ : FMap _ _).set "Room Type".toList ["studio".toList, "2br".toList] |>.set "Rent".toList ["1800".toList, []]⟩ := rfl

/-- a frame that meets the hypotheses of the round trip, with an empty value in the last column -/
example : ∃ df : DataFrame, df.Table 2 ∧ df.Writable ∧ df.toCsv = .ok "a,b\nx y,1\nz,\n".toList := by
  refine ⟨⟨[['a'], ['b']], ((∅ : FMap _ _).set ['a'] ["x y".toList, ['z']]).set ['b'] [['1'], []]⟩, table_two (by decide) rfl, ⟨?_, ?_⟩, rfl⟩
  · intro c hc
    rcases List.mem_cons.mp hc with rfl | hc
    · exact ⟨by decide, by decide, 'a', rfl, by unfold Blank; decide⟩
    · rcases List.mem_singleton.mp hc with rfl
      exact ⟨by decide, by decide, 'b', rfl, by unfold Blank; decide⟩
  · intro j c v hj hv
    match j with
    | 0 =>
      cases hj
      rcases List.mem_cons.mp hv with rfl | hv
      · exact .inl ⟨by decide, by decide, 'y', rfl, by unfold Blank; decide⟩
      · rcases List.mem_singleton.mp hv with rfl
        exact .inl ⟨by decide, by decide, 'z', rfl, by unfold Blank; decide⟩
    | 1 =>
      cases hj
      rcases List.mem_cons.mp hv with rfl | hv
      · exact .inl ⟨by decide, by decide, '1', rfl, by unfold Blank; decide⟩
      · rcases List.mem_singleton.mp hv with rfl
        exact .inr ⟨rfl, rfl, by decide⟩

/-- given names -/
example : fromCsv "1,2\n3,4\n".toList [['a'], ['b']] = .ok ⟨[['a'], ['b']], ((∅ : FMap _ _).set ['a'] [['1'], ['3']]).set ['b'] [['2'], ['4']]⟩ := rfl

/-- two samples of two fields -/
example : ∃ df, makeSamples (fun i (_ : Unit) => .ok (((∅ : FMap _ _).set ['a'] [if i = 5 then 'x' else 'y']).set ['b'] ['1'], ())) 2 5 () = .ok (df, ()) ∧
    df.col ['a'] = [['x'], ['y']] ∧ df.col ['b'] = [['1'], ['1']] ∧ df.toCsv = .ok [] := ⟨_, rfl, rfl, rfl, rfl⟩

end DataFrame
end Verif
