import Verif.Spec.CSV
import Verif.Lemmas.Text
import Verif.Lemmas.Store
namespace Verif
namespace DataFrame
open Text Verif.Lex

theorem strip_field {f : List Char} (h : Field f) : strip f = .ok f := by
  obtain ⟨_, _, c, h1, h2⟩ := h
  have hr : f.reverse.head? = some c := by rw [List.head?_reverse]; exact h1
  unfold strip
  cases hf : f.reverse with
  | nil => rw [hf] at hr; cases hr
  | cons x xs =>
    rw [hf] at hr
    cases hr
    have : isSpace c = false := by rw [Bool.eq_false_iff]; exact fun hs => h2 (isSpace_iff.mp hs)
    simp only [stripRev, this, Bool.false_eq_true, if_false]
    show Except.ok (c :: xs).reverse = _
    rw [← hf, List.reverse_reverse]

/-- a part without any character but blanks is not stripped but undefined -/
theorem strip_blank {f : List Char} (h : ∀ c ∈ f, Blank c) : strip f = .error .ub := by
  unfold strip
  have : ∀ l : List Char, (∀ c ∈ l, Blank c) → stripRev l = .error .ub := by
    intro l
    induction l with
    | nil => intro _; rfl
    | cons c l ih =>
      intro hl
      rw [stripRev, if_pos (isSpace_iff.mpr (hl c (by simp)))]
      exact ih (fun x hx => hl x (by simp [hx]))
  rw [this _ (fun c hc => h c (by simpa using hc))]
  rfl

theorem strip_ok {f g : List Char} (h : strip f = .ok g) : ∃ b, f = g ++ b ∧ (∀ c ∈ b, Blank c) ∧ ∃ c, g.getLast? = some c ∧ ¬ Blank c := by
  have : ∀ l r : List Char, stripRev l = .ok r → ∃ b, l = b ++ r ∧ (∀ c ∈ b, Blank c) ∧ ∃ c, r.head? = some c ∧ ¬ Blank c := by
    intro l
    induction l with
    | nil => intro r hr; cases hr
    | cons c l ih =>
      intro r hr
      unfold stripRev at hr
      split at hr
      · rename_i hc
        obtain ⟨b, rfl, h2, h3⟩ := ih r hr
        exact ⟨c :: b, rfl, by simpa [isSpace_iff.mp hc] using h2, h3⟩
      · rename_i hc
        cases hr
        exact ⟨[], rfl, by simp, c, rfl, fun hb => hc (isSpace_iff.mpr hb)⟩
  unfold strip at h
  cases hs : stripRev f.reverse with
  | error e => rw [hs] at h; cases h
  | ok r =>
    rw [hs] at h
    have h : r.reverse = g := by cases h; rfl
    subst h
    obtain ⟨b, h1, h2, h3⟩ := this _ _ hs
    refine ⟨b.reverse, ?_, by simpa using h2, by simpa [List.getLast?_reverse] using h3⟩
    have := congrArg List.reverse h1
    simpa using this

theorem push_ok {df df' : DataFrame} {i : Nat} {v : List Char} : df.push i v = .ok df' ↔
    ∃ c, df.columns[i]? = some c ∧ df' = { df with data := df.data.set c (df.col c ++ [v]) } := by
  unfold push idxR col
  cases h : df.columns[i]? with
  | none => simp [bind, Except.bind]
  | some c => simp [bind, Except.bind, eq_comm]

/-- the columns after some values of a row have been added -/
def Added (df df' : DataFrame) (i : Nat) (vs : List (List Char)) : Prop :=
  df'.columns = df.columns ∧ (∀ c, df'.data.contains c = df.data.contains c) ∧
  ∀ j c, df.columns[j]? = some c → df'.col c = df.col c ++ (if i ≤ j then (vs[j - i]?).toList else [])

theorem Added.refl (df : DataFrame) (i : Nat) : Added df df i [] := ⟨rfl, fun _ => rfl, fun j c _ => by simp⟩

theorem Added.cons {df : DataFrame} (hnd : df.columns.Nodup) (hd : ∀ c ∈ df.columns, df.data.contains c = true) {i : Nat} {c v : List Char}
    {vs : List (List Char)} (hc : df.columns[i]? = some c) {df' : DataFrame}
    (h : Added { df with data := df.data.set c (df.col c ++ [v]) } df' (i + 1) vs) : Added df df' i (v :: vs) := by
  obtain ⟨h1, h2, h3⟩ := h
  refine ⟨h1, fun x => ?_, fun j x hx => ?_⟩
  · rw [h2]
    have := hd c (List.mem_of_getElem? hc)
    show FMap.contains (FMap.set _ _ _) _ = _
    unfold FMap.contains
    rw [FMap.find?_set]
    split
    · rename_i he; subst he; unfold FMap.contains at this; rw [this]; rfl
    · rfl
  · rw [h3 j x hx]
    have hcol : col { df with data := df.data.set c (df.col c ++ [v]) } x = if x = c then df.col c ++ [v] else df.col x := by
      unfold col
      rw [FMap.find?_set]
      split <;> rfl
    rw [hcol]
    by_cases he : x = c
    · subst he
      have : j = i := (List.getElem?_inj (by
        have := (List.getElem?_eq_some_iff.mp hx).1; exact this) hnd).mp (hx.trans hc.symm)
      subst this
      simp
    · rw [if_neg he]
      have hji : j ≠ i := fun e => he (by rw [e, hc] at hx; cases hx; rfl)
      rcases Nat.lt_or_gt_of_ne hji with hlt | hgt
      · rw [if_neg (by omega), if_neg (by omega)]
      · rw [if_pos (by omega), if_pos (by omega)]
        have : j - i = (j - (i + 1)) + 1 := by omega
        rw [this, List.getElem?_cons_succ]

/-- a row with at most as many values as columns -/
theorem rowLoop_ok : ∀ (ps vs : List (List Char)) (i : Nat) (df : DataFrame), df.columns.Nodup → (∀ c ∈ df.columns, df.data.contains c = true) →
    ps.mapM strip = .ok vs → i + vs.length ≤ df.columns.length →
    ∃ df', rowLoop ps i df = .ok (df', i + vs.length) ∧ Added df df' i vs := by
  intro ps
  induction ps with
  | nil => intro vs i df _ _ h _; cases h; exact ⟨df, rfl, .refl df i⟩
  | cons p ps ih =>
    intro vs i df hnd hd hs hl
    rw [List.mapM_cons] at hs
    obtain ⟨v, hv, hs⟩ := bind_ok.mp hs
    obtain ⟨vs', hvs, hs⟩ := bind_ok.mp hs
    cases hs
    simp only [List.length_cons] at hl
    have hi : i < df.columns.length := by omega
    have hc : df.columns[i]? = some df.columns[i] := List.getElem?_eq_getElem hi
    have hp : df.push i v = .ok { df with data := df.data.set df.columns[i] (df.col df.columns[i] ++ [v]) } := push_ok.mpr ⟨_, hc, rfl⟩
    obtain ⟨df', h1, h2⟩ := ih vs' (i + 1) { df with data := df.data.set df.columns[i] (df.col df.columns[i] ++ [v]) } hnd
      (fun c hc => by
        show FMap.contains (FMap.set _ _ _) _ = true
        have := hd c hc
        unfold FMap.contains at this ⊢
        rw [FMap.find?_set]
        split
        · rfl
        · exact this) hvs (by show _ ≤ df.columns.length; omega)
    refine ⟨df', ?_, h2.cons hnd hd hc⟩
    simp only [rowLoop, bind, Except.bind, hv, hp, h1, List.length_cons]
    congr 2
    omega

/-- a row that has been read -/
theorem rowLoop_read : ∀ (ps : List (List Char)) (i : Nat) (df df' : DataFrame) (k : Nat), df.columns.Nodup →
    (∀ c ∈ df.columns, df.data.contains c = true) → rowLoop ps i df = .ok (df', k) →
    k = i + ps.length ∧ (ps ≠ [] → k ≤ df.columns.length) ∧ ∃ vs, ps.mapM strip = .ok vs ∧ Added df df' i vs := by
  intro ps
  induction ps with
  | nil =>
    intro i df df' k hnd hd h
    cases h
    exact ⟨rfl, by simp, [], rfl, .refl df i⟩
  | cons p ps ih =>
    intro i df df' k hnd hd h
    obtain ⟨v, hv, h⟩ := bind_ok.mp h
    obtain ⟨df1, h1, h⟩ := bind_ok.mp h
    obtain ⟨c, hc, rfl⟩ := push_ok.mp h1
    obtain ⟨h2, h3, vs, h4, h5⟩ := ih (i + 1) { df with data := df.data.set c (df.col c ++ [v]) } df' k hnd (fun c' hc' => by
        show FMap.contains (FMap.set _ _ _) _ = true
        have := hd c' hc'
        unfold FMap.contains at this ⊢
        rw [FMap.find?_set]
        split
        · rfl
        · exact this) h
    refine ⟨by rw [h2, List.length_cons]; omega, fun _ => ?_, v :: vs, ?_, h5.cons hnd hd hc⟩
    · cases ps with
      | nil =>
        have := (List.getElem?_eq_some_iff.mp hc).1
        simp at h2
        omega
      | cons q qs => exact h3 (by simp)
    · rw [List.mapM_cons, hv, h4]; rfl

/-- adding one more value -/
theorem Added.snoc {df df1 : DataFrame} (hnd : df.columns.Nodup) (hd : ∀ c ∈ df.columns, df.data.contains c = true) {i : Nat}
    {vs : List (List Char)} (h : Added df df1 0 vs) {v : List Char} {df2 : DataFrame} (hi : i = vs.length) (hp : df1.push i v = .ok df2) :
    Added df df2 0 (vs ++ [v]) := by
  subst hi
  obtain ⟨h1, h2, h3⟩ := h
  obtain ⟨c, hc, rfl⟩ := push_ok.mp hp
  rw [h1] at hc
  have hmem := List.mem_of_getElem? hc
  refine ⟨h1, fun x => ?_, fun j x hx => ?_⟩
  · show FMap.contains (FMap.set _ _ _) _ = _
    have := hd c hmem
    rw [← h2 x]
    rw [← h2 c] at this
    unfold FMap.contains at this ⊢
    rw [FMap.find?_set]
    split
    · rename_i he; subst he; rw [this]; rfl
    · rfl
  · have hcol : col { df1 with data := df1.data.set c (df1.col c ++ [v]) } x = if x = c then df1.col c ++ [v] else df1.col x := by
      unfold col
      rw [FMap.find?_set]
      split <;> rfl
    rw [hcol]
    by_cases he : x = c
    · subst he
      have : j = vs.length := (List.getElem?_inj (by
        have := (List.getElem?_eq_some_iff.mp hx).1; exact this) hnd).mp (hx.trans hc.symm)
      subst this
      rw [if_pos rfl, h3 _ _ hx]
      simp
    · rw [if_neg he, h3 _ _ hx]
      have hji : j ≠ vs.length := fun e => he (by rw [e, hc] at hx; cases hx; rfl)
      simp only [Nat.zero_le, if_true, Nat.sub_zero]
      rcases Nat.lt_or_gt_of_ne hji with hlt | hgt
      · rw [List.getElem?_append_left hlt]
      · rw [List.getElem?_eq_none (by omega), List.getElem?_eq_none (by simp; omega)]

/-- The header. -/
theorem headerLoop_ok : ∀ (ps : List (List Char)) (df df' : DataFrame), headerLoop ps df = .ok df' ↔
    ∃ vs, ps.mapM strip = .ok vs ∧ df' = { columns := df.columns ++ vs, data := vs.foldl (fun m c => m.set c []) df.data } := by
  intro ps
  induction ps with
  | nil =>
    intro df df'
    constructor
    · intro h
      cases h
      exact ⟨[], rfl, by simp⟩
    · rintro ⟨vs, h1, rfl⟩
      cases h1
      simp [headerLoop]
  | cons p ps ih =>
    intro df df'
    rw [headerLoop, bind_ok]
    constructor
    · rintro ⟨v, hv, h⟩
      obtain ⟨vs, h1, rfl⟩ := (ih _ _).mp h
      exact ⟨v :: vs, by rw [List.mapM_cons, hv, h1]; rfl, by simp⟩
    · rintro ⟨vs, h1, rfl⟩
      rw [List.mapM_cons] at h1
      obtain ⟨v, hv, h1⟩ := bind_ok.mp h1
      obtain ⟨vs', hvs, h1⟩ := bind_ok.mp h1
      cases h1
      exact ⟨v, hv, (ih _ _).mpr ⟨vs', hvs, by simp⟩⟩

theorem find?_foldl_set (cs : List (List Char)) (m : FMap (List Char) (List (List Char))) (x : List Char) :
    (cs.foldl (fun m c => m.set c []) m).find? x = if x ∈ cs then some [] else m.find? x := by
  induction cs generalizing m with
  | nil => simp
  | cons c cs ih =>
    rw [List.foldl_cons, ih, FMap.find?_set]
    by_cases h1 : x ∈ cs
    · simp [h1]
    · by_cases h2 : x = c
      · simp [h2]
      · simp [h1, h2]

/-- a frame that has only columns -/
theorem table_zero {cs : List (List Char)} (h : cs.Nodup) : Table { columns := cs, data := cs.foldl (fun m c => m.set c []) ∅ } 0 := by
  refine ⟨h, fun c => ?_, fun c hc => ?_⟩
  · unfold FMap.contains
    rw [find?_foldl_set]
    by_cases hx : c ∈ cs <;> simp [hx, FMap.find?_empty]
  · unfold col
    rw [find?_foldl_set, if_pos hc]
    rfl

/-- frames are determined by their columns -/
theorem Table.ext' {df df' : DataFrame} {n m : Nat} (h : Table df n) (h' : Table df' m) (hc : df.columns = df'.columns)
    (hv : ∀ c ∈ df.columns, df.col c = df'.col c) : df = df' := by
  have : df.data = df'.data := by
    apply FMap.ext
    intro c
    by_cases hm : c ∈ df.columns
    · have h1 := (h.data c).mpr hm
      have h2 := (h'.data c).mpr (hc ▸ hm)
      have h3 := hv c hm
      unfold FMap.contains at h1 h2
      unfold col at h3
      obtain ⟨v, hv1⟩ := Option.isSome_iff_exists.mp h1
      obtain ⟨v', hv2⟩ := Option.isSome_iff_exists.mp h2
      rw [hv1, hv2] at h3 ⊢
      exact congrArg _ h3
    · have h1 : ¬ df.data.contains c = true := fun h1 => hm ((h.data c).mp h1)
      have h2 : ¬ df'.data.contains c = true := fun h1 => hm (hc ▸ (h'.data c).mp h1)
      unfold FMap.contains at h1 h2
      rw [Option.not_isSome_iff_eq_none] at h1 h2
      rw [h1, h2]
  cases df
  cases df'
  simp_all

/-- the values of the last field of a line that ends in a comma -/
def lastEmpty (line : List Char) : List (List Char) := if line.getLast? = some ',' then [[]] else []

/-- a frame with different columns -/
structure Shape (df : DataFrame) : Prop where
  distinct : df.columns.Nodup
  data : ∀ c, df.data.contains c = true ↔ c ∈ df.columns

theorem Shape.contains {df : DataFrame} (h : Shape df) : ∀ c ∈ df.columns, df.data.contains c = true := fun c hc => (h.data c).mpr hc

theorem Table.shape {df : DataFrame} {n : Nat} (h : Table df n) : Shape df := ⟨h.distinct, h.data⟩

theorem Added.shape {df df' : DataFrame} (h : Shape df) {i : Nat} {vs : List (List Char)} (ha : Added df df' i vs) : Shape df' := by
  obtain ⟨h1, h2, h3⟩ := ha
  exact ⟨h1 ▸ h.distinct, fun c => by rw [h2, h1]; exact h.data c⟩

theorem mapM_length : ∀ {ps vs : List (List Char)}, ps.mapM strip = .ok vs → vs.length = ps.length := by
  intro ps
  induction ps with
  | nil => intro vs h; cases h; rfl
  | cons p ps ih =>
    intro vs hvs
    rw [List.mapM_cons] at hvs
    obtain ⟨v, hv, h1⟩ := bind_ok.mp hvs
    obtain ⟨vs', hvs', h1⟩ := bind_ok.mp h1
    cases h1
    simp [ih hvs']

/-- A line after the first that has been read. -/
theorem row_read {df df1 df2 : DataFrame} {k : Nat} {line : List Char} (h : Shape df)
    (h1 : rowLoop (parts ',' line) 0 df = .ok (df1, k)) (h2 : checkRow line df1 k = .ok df2) :
    ∃ vs, (parts ',' line).mapM strip = .ok vs ∧ (vs ++ lastEmpty line).length = df.columns.length ∧ Added df df2 0 (vs ++ lastEmpty line) := by
  obtain ⟨hk, _, vs, hvs, ha⟩ := rowLoop_read _ _ _ _ _ h.distinct h.contains h1
  have hlen : vs.length = (parts ',' line).length := mapM_length hvs
  rw [Nat.zero_add, ← hlen] at hk
  refine ⟨vs, hvs, ?_⟩
  unfold checkRow at h2
  unfold lastEmpty
  obtain ⟨⟨df3, k3⟩, h3, h4⟩ := bind_ok.mp h2
  obtain ⟨_, h5, h6⟩ := bind_ok.mp h4
  have h6 : df3 = df2 := by cases h6; rfl
  subst h6
  have h5 : k3 = df3.columns.length := by
    unfold assertR at h5
    split at h5
    · rename_i hb; simpa using hb
    · cases h5
  by_cases hl : line.getLast? = some ','
  · rw [addLast, if_pos hl] at h3
    rw [if_pos hl]
    obtain ⟨df4, h7, h8⟩ := bind_ok.mp h3
    cases h8
    have := ha.snoc h.distinct h.contains hk h7
    refine ⟨?_, this⟩
    rw [← this.1, List.length_append, List.length_singleton, ← hk]
    exact h5
  · rw [addLast, if_neg hl] at h3
    rw [if_neg hl]
    cases h3
    rw [List.append_nil]
    exact ⟨by rw [← ha.1, ← hk]; exact h5, ha⟩

/-- A line after the first that can be read. -/
theorem row_ok {df : DataFrame} {line : List Char} {vs : List (List Char)} (h : Shape df)
    (hvs : (parts ',' line).mapM strip = .ok vs) (hlen : (vs ++ lastEmpty line).length = df.columns.length) :
    ∃ df1 k df2, rowLoop (parts ',' line) 0 df = .ok (df1, k) ∧ checkRow line df1 k = .ok df2 := by
  rw [List.length_append] at hlen
  obtain ⟨df1, h1, h2⟩ := rowLoop_ok _ _ 0 df h.distinct h.contains hvs (by omega)
  unfold lastEmpty at hlen
  by_cases hl : line.getLast? = some ','
  · rw [if_pos hl, List.length_singleton] at hlen
    have hi : vs.length < df1.columns.length := by rw [h2.1]; omega
    obtain ⟨df2, hp⟩ : ∃ df2, df1.push (0 + vs.length) [] = .ok df2 :=
      ⟨_, push_ok.mpr ⟨df1.columns[vs.length], by rw [Nat.zero_add]; exact List.getElem?_eq_getElem hi, rfl⟩⟩
    refine ⟨df1, _, df2, h1, ?_⟩
    have hc : df2.columns = df1.columns := by obtain ⟨c, _, rfl⟩ := push_ok.mp hp; rfl
    unfold checkRow addLast
    rw [if_pos hl, hp]
    show (assertR ((0 + vs.length + 1) == df2.columns.length) >>= fun _ => Except.ok df2) = _
    rw [hc, h2.1, Nat.zero_add, hlen]
    simp [assertR, bind, Except.bind]
  · rw [if_neg hl, List.length_nil] at hlen
    refine ⟨df1, _, df1, h1, ?_⟩
    unfold checkRow addLast
    rw [if_neg hl]
    show (assertR ((0 + vs.length) == df1.columns.length) >>= fun _ => Except.ok df1) = _
    rw [h2.1, Nat.zero_add, ← hlen, Nat.add_zero]
    simp [assertR, bind, Except.bind]

/-- what a line says -/
def rowOf (l : List Char) : Res (List (List Char)) := ((parts ',' l).mapM strip).map (· ++ lastEmpty l)

theorem rowOf_ok {l : List Char} {r : List (List Char)} : rowOf l = .ok r ↔ ∃ vs, (parts ',' l).mapM strip = .ok vs ∧ r = vs ++ lastEmpty l := by
  unfold rowOf
  cases h : (parts ',' l).mapM strip with
  | error e => simp [Except.map]
  | ok vs => simp [Except.map, eq_comm]

/-- The lines after the first. -/
theorem lines_read (names : List (List Char)) : ∀ (ls : List (List Char)) (df df' : DataFrame), Shape df →
    lineLoop names ls false df = .ok df' → df'.columns = df.columns ∧
    ∃ rows : List (List (List Char)), List.Forall₂ (fun l r => rowOf l = .ok r) (ls.filter (· ≠ [])) rows ∧
      (∀ r ∈ rows, r.length = df.columns.length) ∧ Shape df' ∧
      ∀ j c, df.columns[j]? = some c → df'.col c = df.col c ++ rows.map (·.getD j []) := by
  intro ls
  induction ls with
  | nil =>
    intro df df' ht h
    cases h
    exact ⟨rfl, [], .nil, by simp, ht, by simp⟩
  | cons l ls ih =>
    intro df df' ht h
    rw [lineLoop] at h
    by_cases hl : l = []
    · rw [if_pos hl] at h
      obtain ⟨h1, rows, h2, h3⟩ := ih _ _ ht h
      exact ⟨h1, rows, by rw [List.filter_cons_of_neg (by simp [hl])]; exact h2, h3⟩
    · rw [if_neg hl] at h
      obtain ⟨df1, h1, h⟩ := bind_ok.mp h
      rw [readLine, if_neg (by simp)] at h1
      obtain ⟨⟨df2, k⟩, h2, h3⟩ := bind_ok.mp h1
      rw [if_neg (by simp)] at h3
      obtain ⟨vs, hvs, hlen, ha⟩ := row_read ht h2 h3
      obtain ⟨h4, rows, h5, h6, h7, h8⟩ := ih _ _ (ha.shape ht) h
      rw [ha.1] at h4 h6 h8
      refine ⟨h4, (vs ++ lastEmpty l) :: rows, ?_, ?_, h7, ?_⟩
      · rw [List.filter_cons_of_pos (by simp [hl])]
        exact .cons (rowOf_ok.mpr ⟨vs, hvs, rfl⟩) h5
      · intro r hr
        rcases List.mem_cons.mp hr with rfl | hr
        · exact hlen
        · exact h6 r hr
      · intro j c hc
        have hj : j < df.columns.length := (List.getElem?_eq_some_iff.mp hc).1
        rw [h8 j c hc, ha.2.2 j c hc, List.map_cons, List.append_assoc]
        simp only [Nat.zero_le, if_true, Nat.sub_zero]
        rw [List.getElem?_eq_getElem (by omega), List.getD_eq_getElem?_getD, List.getElem?_eq_getElem (by omega)]
        rfl

/-- The lines after the first can be read. -/
theorem lines_ok (names : List (List Char)) : ∀ (ls : List (List Char)) (df : DataFrame) (rows : List (List (List Char))), Shape df →
    List.Forall₂ (fun l r => rowOf l = .ok r) (ls.filter (· ≠ [])) rows → (∀ r ∈ rows, r.length = df.columns.length) →
    ∃ df', lineLoop names ls false df = .ok df' := by
  intro ls
  induction ls with
  | nil => intro df rows _ _ _; exact ⟨df, rfl⟩
  | cons l ls ih =>
    intro df rows ht hr hlen
    rw [lineLoop]
    by_cases hl : l = []
    · rw [if_pos hl]
      rw [List.filter_cons_of_neg (by simp [hl])] at hr
      exact ih df rows ht hr hlen
    · rw [if_neg hl]
      rw [List.filter_cons_of_pos (by simp [hl])] at hr
      cases hr with
      | cons h1 h2 =>
        rename_i r rows
        obtain ⟨vs, hvs, rfl⟩ := rowOf_ok.mp h1
        obtain ⟨df1, k, df2, h3, h4⟩ := row_ok ht hvs (hlen _ (by simp))
        obtain ⟨vs', _, _, ha⟩ := row_read ht h3 h4
        obtain ⟨df', h5⟩ := ih df2 rows (ha.shape ht) h2 (fun r hr => by rw [ha.1]; exact hlen r (by simp [hr]))
        refine ⟨df', ?_⟩
        rw [readLine, if_neg (by simp), h3]
        simp only [bind, Except.bind, Bool.false_eq_true, if_false, h4, h5]

theorem strip_trim {v b : List Char} (hb : ∀ c ∈ b, Blank c) (hv : ∃ c, v.getLast? = some c ∧ ¬ Blank c) : strip (v ++ b) = .ok v := by
  obtain ⟨c, h1, h2⟩ := hv
  have hr : v.reverse.head? = some c := by rw [List.head?_reverse]; exact h1
  have key : ∀ l : List Char, (∀ c ∈ l, Blank c) → stripRev (l ++ v.reverse) = .ok v.reverse := by
    intro l
    induction l with
    | nil =>
      intro _
      cases hf : v.reverse with
      | nil => rw [hf] at hr; cases hr
      | cons x xs =>
        rw [hf] at hr
        cases hr
        have : isSpace c = false := by rw [Bool.eq_false_iff]; exact fun hs => h2 (isSpace_iff.mp hs)
        simp [stripRev, this]
    | cons x l ih =>
      intro hl
      rw [List.cons_append, stripRev, if_pos (isSpace_iff.mpr (hl x (by simp)))]
      exact ih (fun y hy => hl y (by simp [hy]))
  unfold strip
  rw [List.reverse_append, key _ (fun x hx => hb x (by simpa using hx))]
  show Except.ok v.reverse.reverse = _
  rw [List.reverse_reverse]

theorem intercalate_cons (f g : List Char) (fs : List (List Char)) :
    List.intercalate [','] (f :: g :: fs) = f ++ ',' :: List.intercalate [','] (g :: fs) := by
  simp [List.intercalate, List.intersperse]

theorem joinComma_eq : ∀ vs : List (List Char), joinComma vs = List.intercalate [','] vs := by
  intro vs
  induction vs with
  | nil => rfl
  | cons f vs ih =>
    cases vs with
    | nil => simp [joinComma, List.intercalate]
    | cons g gs => rw [joinComma, ih, intercalate_cons]

theorem intercalate_ne_nil : ∀ raw : List (List Char), raw ≠ [] → raw ≠ [[]] → List.intercalate [','] raw ≠ [] := by
  intro raw h1 h2
  cases raw with
  | nil => exact absurd rfl h1
  | cons f raw =>
    cases raw with
    | nil => simpa [List.intercalate] using h2
    | cons g gs => rw [intercalate_cons]; simp

theorem lastEmpty_cons (f : List Char) {line : List Char} (h : line ≠ []) : lastEmpty (f ++ ',' :: line) = lastEmpty line := by
  unfold lastEmpty
  rw [List.getLast?_append_of_ne_nil _ (by simp), List.getLast?_cons]
  cases hl : line.getLast? with
  | none => exact absurd (List.getLast?_eq_none_iff.mp hl) h
  | some c => rfl

/-- a line is split into its fields -/
theorem parts_join : ∀ raw : List (List Char), raw ≠ [] → raw ≠ [[]] → (∀ r ∈ raw, ',' ∉ r) →
    parts ',' (List.intercalate [','] raw) ++ lastEmpty (List.intercalate [','] raw) = raw := by
  intro raw
  induction raw with
  | nil => intro h; exact absurd rfl h
  | cons r raw ih =>
    intro _ h2 h3
    have hr : ',' ∉ r := h3 r (by simp)
    cases raw with
    | nil =>
      have he : List.intercalate [','] [r] = r := by simp [List.intercalate]
      have hne : r ≠ [] := fun h => h2 (by rw [h])
      have : lastEmpty r = [] := by
        unfold lastEmpty
        rw [if_neg]
        exact fun h => hr (List.mem_of_getLast? h)
      rw [he, parts_last hr, if_neg hne, this, List.append_nil]
    | cons s rest =>
      rw [intercalate_cons, parts_cons hr]
      by_cases hs : s :: rest = [[]]
      · rw [hs]
        simp [List.intercalate, parts, getl, lastEmpty]
      · rw [lastEmpty_cons _ (intercalate_ne_nil _ (by simp) hs), List.cons_append, ih (by simp) hs (fun x hx => h3 x (by simp [hx]))]

/-- the last value of a line that does not end in a comma has characters -/
theorem last_part : ∀ raw : List (List Char), 2 ≤ raw.length → raw.getLast? = some [] → lastEmpty (List.intercalate [','] raw) = [[]] := by
  intro raw
  induction raw with
  | nil => intro h; simp at h
  | cons r raw ih =>
    intro h1 h2
    cases raw with
    | nil => simp at h1
    | cons s rest =>
      rw [intercalate_cons]
      by_cases hs : s :: rest = [[]]
      · rw [hs]
        simp [List.intercalate, lastEmpty]
      · rw [lastEmpty_cons _ (intercalate_ne_nil _ (by simp) hs)]
        apply ih
        · cases rest with
          | nil => simp at h2; exact absurd (by rw [h2]) hs
          | cons => simp
        · rw [List.getLast?_cons] at h2
          cases hl : (s :: rest).getLast? with
          | none => simp at hl
          | some c => rw [hl] at h2; exact h2

/-- every line consists of its parts -/
theorem join_parts {line : List Char} (h : line ≠ []) : List.intercalate [','] (parts ',' line ++ lastEmpty line) = line := by
  have key : ∀ (cs acc : List Char), ',' ∉ acc → acc ++ cs ≠ [] →
      List.intercalate [','] (getl ',' acc cs ++ lastEmpty (acc ++ cs)) = acc ++ cs := by
    intro cs
    induction cs with
    | nil =>
      intro acc ha hne
      rw [List.append_nil] at hne ⊢
      have : lastEmpty acc = [] := by
        unfold lastEmpty
        rw [if_neg]
        exact fun h => ha (List.mem_of_getLast? h)
      rw [getl, if_neg hne, this, List.append_nil]
      simp [List.intercalate]
    | cons c cs ih =>
      intro acc ha hne
      rw [getl]
      by_cases hc : c = ','
      · subst hc
        rw [if_pos rfl]
        by_cases hcs : cs = []
        · subst hcs
          simp [getl, lastEmpty, List.intercalate]
        · rw [lastEmpty_cons _ hcs]
          have := ih [] (by simp) (by simpa using hcs)
          rw [List.nil_append] at this
          rw [List.cons_append]
          cases hg : getl ',' [] cs ++ lastEmpty cs with
          | nil => rw [hg] at this; exact absurd this.symm hcs
          | cons g gs => rw [intercalate_cons, ← hg, this]
      · rw [if_neg hc]
        have := ih (acc ++ [c]) (by simp [ha]; exact fun h => hc h.symm) (by simp)
        rw [List.append_assoc, List.singleton_append] at this
        exact this
  exact key line [] (by simp) (by simpa using h)

theorem mapM_strip {ps vs : List (List Char)} (hps : ∀ p ∈ ps, ',' ∉ p) :
    ps.mapM strip = .ok vs ↔ List.Forall₂ ValueText ps vs ∧ ∀ v ∈ vs, v ≠ [] := by
  induction ps generalizing vs with
  | nil =>
    constructor
    · intro h; cases h; exact ⟨.nil, by simp⟩
    · rintro ⟨h, _⟩; cases h; rfl
  | cons p ps ih =>
    rw [List.mapM_cons]
    constructor
    · intro h
      obtain ⟨v, hv, h⟩ := bind_ok.mp h
      obtain ⟨vs', hvs, h⟩ := bind_ok.mp h
      cases h
      obtain ⟨h1, h2⟩ := (ih (fun x hx => hps x (by simp [hx]))).mp hvs
      have hs := strip_ok hv
      refine ⟨.cons ⟨hps p (by simp), .inr hs⟩ h1, fun x hx => ?_⟩
      rcases List.mem_cons.mp hx with rfl | hx
      · obtain ⟨_, _, _, c, hc, _⟩ := hs
        rintro rfl
        cases hc
      · exact h2 x hx
    · rintro ⟨h, hne⟩
      cases h with
      | cons h1 h2 =>
        rename_i v vs'
        have h3 := (ih (fun x hx => hps x (by simp [hx]))).mpr ⟨h2, fun x hx => hne x (by simp [hx])⟩
        rcases h1.2 with ⟨_, h⟩ | ⟨b, h4, h5, h6⟩
        · exact absurd h (hne v (by simp))
        · rw [h4, strip_trim h5 h6, h3]
          rfl

theorem valueText_nil {v : List Char} (h : ValueText [] v) : v = [] := by
  rcases h.2 with h | ⟨b, h1, _⟩
  · exact h.2
  · simpa using (List.append_eq_nil_iff.mp h1.symm).1

/-- What the line says. -/
theorem row_text {line : List Char} (hl : line ≠ []) (vs : List (List Char)) :
    (∃ vs0, (parts ',' line).mapM strip = .ok vs0 ∧ vs = vs0 ++ lastEmpty line) ↔ RowText line vs ∧ Legible vs := by
  have hps : ∀ p ∈ parts ',' line, ',' ∉ p := fun p hp => parts_no_delim hp
  constructor
  · rintro ⟨vs0, h1, rfl⟩
    obtain ⟨h2, h3⟩ := (mapM_strip hps).mp h1
    have hne : vs0 ≠ [] := by
      rintro rfl
      have : parts ',' line = [] := by cases h : parts ',' line with
        | nil => rfl
        | cons p ps => rw [h] at h2; cases h2
      have hj := join_parts hl
      rw [this] at hj
      unfold lastEmpty at hj
      split at hj <;> simp [List.intercalate] at hj <;> exact hl hj
    refine ⟨⟨_, (join_parts hl).symm, List.rel_append h2 ?_⟩, by simp [hne], fun j v hj => ?_⟩
    · unfold lastEmpty
      split
      · exact .cons ⟨by simp, .inl ⟨rfl, rfl⟩⟩ .nil
      · exact .nil
    · rcases Nat.lt_or_ge j vs0.length with hlt | hge
      · rw [List.getElem?_append_left hlt] at hj
        exact .inl (h3 v (List.mem_of_getElem? hj))
      · right
        rw [List.getElem?_append_right hge] at hj
        have : 0 < vs0.length := List.length_pos_iff.mpr hne
        unfold lastEmpty at hj ⊢
        split at hj
        · rename_i hc
          rw [if_pos hc]
          have := (List.getElem?_eq_some_iff.mp hj).1
          simp at this ⊢
          omega
        · simp at hj
  · rintro ⟨⟨raw, rfl, h1⟩, h2, h3⟩
    have hraw : raw ≠ [] := by rintro rfl; cases h1; exact h2 rfl
    have hraw2 : raw ≠ [[]] := by rintro rfl; exact hl (by simp [List.intercalate])
    have hc : ∀ r ∈ raw, ',' ∉ r := by
      intro r hr
      obtain ⟨i, hi, rfl⟩ := List.getElem_of_mem hr
      exact (h1.get hi (h1.length_eq ▸ hi)).1
    have hj := parts_join raw hraw hraw2 hc
    generalize hP : parts ',' (List.intercalate [','] raw) = P at hj hps ⊢
    by_cases hE : lastEmpty (List.intercalate [','] raw) = []
    · rw [hE, List.append_nil] at hj
      subst hj
      refine ⟨vs, (mapM_strip hps).mpr ⟨h1, fun v hv => ?_⟩, by rw [hE]; simp⟩
      obtain ⟨j, hj, rfl⟩ := List.getElem_of_mem hv
      rcases h3 j _ (List.getElem?_eq_getElem hj) with h | ⟨h4, h5⟩
      · exact h
      · intro hv0
        have hlen := h1.length_eq
        have hrel := h1.get (i := j) (by omega) hj
        simp only [List.get_eq_getElem] at hrel
        rw [hv0] at hrel
        have hp0 : P[j] = [] := by
          rcases hrel.2 with h | ⟨b, _, _, c, hc, _⟩
          · exact h.1
          · cases hc
        have hlast : P.getLast? = some [] := by
          rw [List.getLast?_eq_getElem?, ← hp0, List.getElem?_eq_some_iff]
          have : P.length - 1 = j := by omega
          exact ⟨by omega, by simp [this]⟩
        have := last_part P (by omega) hlast
        rw [hE] at this
        cases this
    · have hE' : lastEmpty (List.intercalate [','] raw) = [[]] := by
        unfold lastEmpty at hE ⊢
        split
        · rfl
        · rename_i hn; rw [if_neg hn] at hE; exact absurd rfl hE
      rw [hE'] at hj
      subst hj
      rw [hE']
      obtain ⟨vs0, e, rfl, h4, h5⟩ : ∃ vs0 e, vs = vs0 ++ e ∧ List.Forall₂ ValueText P vs0 ∧ List.Forall₂ ValueText [[]] e :=
        ⟨vs.take P.length, vs.drop P.length, (List.take_append_drop _ _).symm, (List.forall₂_take_append vs P [[]] h1.flip).flip,
          (List.forall₂_drop_append vs P [[]] h1.flip).flip⟩
      cases h5 with
      | cons h6 h7 =>
        cases h7
        cases valueText_nil h6
        refine ⟨vs0, (mapM_strip hps).mpr ⟨h4, fun v hv => ?_⟩, rfl⟩
        obtain ⟨j, hj, rfl⟩ := List.getElem_of_mem hv
        rcases h3 j _ (by rw [List.getElem?_append_left hj]; exact List.getElem?_eq_getElem hj) with h | ⟨h4, h5⟩
        · exact h
        · simp at h4; omega

theorem Legible.of_ne {vs : List (List Char)} (h : vs ≠ []) (hv : ∀ v ∈ vs, v ≠ []) : Legible vs :=
  ⟨h, fun _ v hj => .inl (hv v (List.mem_of_getElem? hj))⟩

theorem lastEmpty_cases (line : List Char) : lastEmpty line = [] ∨ lastEmpty line = [[]] := by
  unfold lastEmpty
  split
  · exact .inr rfl
  · exact .inl rfl

/-- The column names in a header. -/
theorem header_text {line : List Char} (hl : line ≠ []) (cs : List (List Char)) :
    (parts ',' line).mapM strip = .ok cs ↔ cs ≠ [] ∧ (∀ c ∈ cs, c ≠ []) ∧ (RowText line cs ∨ RowText line (cs ++ [[]])) := by
  have hps : ∀ p ∈ parts ',' line, ',' ∉ p := fun p hp => parts_no_delim hp
  constructor
  · intro h
    have h1 := ((mapM_strip hps).mp h).2
    obtain ⟨h2, h3, h4⟩ := (row_text hl _).mp ⟨cs, h, rfl⟩
    rcases lastEmpty_cases line with he | he
    · rw [he, List.append_nil] at h2 h3
      exact ⟨h3, h1, .inl h2⟩
    · rw [he] at h2 h4
      refine ⟨?_, h1, .inr h2⟩
      rintro rfl
      rcases h4 0 [] rfl with h | h
      · exact h rfl
      · simp at h
  · rintro ⟨h1, h2, h3 | h3⟩
    · obtain ⟨vs0, h4, h5⟩ := (row_text hl _).mpr ⟨h3, .of_ne h1 h2⟩
      rcases lastEmpty_cases line with he | he
      · rw [he, List.append_nil] at h5
        rw [h5]; exact h4
      · rw [he] at h5
        exact absurd rfl (h2 [] (by rw [h5]; simp))
    · have hleg : Legible (cs ++ [[]]) := by
        refine ⟨by simp, fun j v hj => ?_⟩
        rcases Nat.lt_or_ge j cs.length with hlt | hge
        · rw [List.getElem?_append_left hlt] at hj
          exact .inl (h2 v (List.mem_of_getElem? hj))
        · right
          have := (List.getElem?_eq_some_iff.mp hj).1
          have h0 : 0 < cs.length := List.length_pos_iff.mpr h1
          simp at this ⊢
          omega
      obtain ⟨vs0, h4, h5⟩ := (row_text hl _).mpr ⟨h3, hleg⟩
      have h6 := ((mapM_strip hps).mp h4).2
      rcases lastEmpty_cases line with he | he
      · rw [he, List.append_nil] at h5
        exact absurd rfl (h6 [] (by rw [← h5]; simp))
      · rw [he] at h5
        rw [List.append_cancel_right h5]; exact h4

theorem filter_getl (d : Char) : ∀ cs acc : List Char, (getl d acc cs).filter (· ≠ []) = ((cs.splitOn d).modifyHead (acc ++ ·)).filter (· ≠ []) := by
  intro cs
  induction cs with
  | nil => intro acc; by_cases h : acc = [] <;> simp [getl, h]
  | cons c cs ih =>
    intro acc
    rw [getl, List.splitOn_cons_eq_if_modifyHead]
    by_cases hc : c = d
    · subst hc
      have := ih []
      simp only [List.nil_append] at this
      have hm : (cs.splitOn c).modifyHead (fun x => x) = cs.splitOn c := by cases cs.splitOn c <;> rfl
      rw [hm] at this
      simp only [if_true, beq_self_eq_true, List.modifyHead_cons, List.append_nil]
      rw [List.filter_cons, List.filter_cons, this]
    · rw [if_neg hc, if_neg (by simpa using hc), ih]
      congr 1
      cases cs.splitOn d <;> simp

/-- the lines that are not empty -/
theorem filter_lines (text : List Char) : (lines text).filter (· ≠ []) = (text.splitOn '\n').filter (· ≠ []) := by
  have := filter_getl '\n' text []
  have hm : (text.splitOn '\n').modifyHead (([] : List Char) ++ ·) = text.splitOn '\n' := by cases text.splitOn '\n' <;> rfl
  rw [hm] at this
  exact this

/-- empty lines at the start are skipped -/
theorem lineLoop_filter (names : List (List Char)) : ∀ (ls : List (List Char)) (b : Bool) (df : DataFrame),
    lineLoop names ls b df = lineLoop names (ls.filter (· ≠ [])) b df := by
  intro ls
  induction ls with
  | nil => intro b df; rfl
  | cons l ls ih =>
    intro b df
    by_cases hl : l = []
    · rw [lineLoop, if_pos hl, List.filter_cons_of_neg (by simp [hl]), ih]
    · rw [lineLoop, if_neg hl, List.filter_cons_of_pos (by simp [hl]), lineLoop, if_neg hl]
      congr 1
      funext df'
      exact ih _ _

theorem rowLoop_columns : ∀ (ps : List (List Char)) (i : Nat) (df df' : DataFrame) (k : Nat), rowLoop ps i df = .ok (df', k) →
    df'.columns = df.columns := by
  intro ps
  induction ps with
  | nil => intro i df df' k h; cases h; rfl
  | cons p ps ih =>
    intro i df df' k h
    obtain ⟨v, _, h⟩ := bind_ok.mp h
    obtain ⟨df1, h1, h⟩ := bind_ok.mp h
    obtain ⟨c, hc, rfl⟩ := push_ok.mp h1
    exact ih (i + 1) { df with data := df.data.set c (df.col c ++ [v]) } df' k h

theorem readLine_columns {names : List (List Char)} {line : List Char} {df df' : DataFrame} (h : readLine names line false df = .ok df') :
    df'.columns = df.columns := by
  rw [readLine, if_neg (by simp)] at h
  obtain ⟨⟨df1, k⟩, h1, h⟩ := bind_ok.mp h
  rw [if_neg (by simp)] at h
  rw [← rowLoop_columns _ _ _ _ _ h1]
  unfold checkRow at h
  obtain ⟨r, h2, h⟩ := bind_ok.mp h
  obtain ⟨_, _, h⟩ := bind_ok.mp h
  cases h
  unfold addLast at h2
  split at h2
  · obtain ⟨df3, h3, h2⟩ := bind_ok.mp h2
    obtain ⟨c, hc, rfl⟩ := push_ok.mp h3
    cases h2
    rfl
  · cases h2
    rfl

theorem lineLoop_columns {names : List (List Char)} : ∀ (ls : List (List Char)) (df df' : DataFrame),
    lineLoop names ls false df = .ok df' → df'.columns = df.columns := by
  intro ls
  induction ls with
  | nil => intro df df' h; cases h; rfl
  | cons l ls ih =>
    intro df df' h
    rw [lineLoop] at h
    split at h
    · exact ih _ _ h
    · obtain ⟨df1, h1, h⟩ := bind_ok.mp h
      exact (ih _ _ h).trans (readLine_columns h1)

/-- a row of a frame -/
def row (df : DataFrame) (i : Nat) : List (List Char) := df.columns.map (fun c => (df.col c).getD i [])

theorem rowAt_ok {df : DataFrame} {i : Nat} : ∀ {cs : List (List Char)}, (∀ c ∈ cs, i < (df.col c).length) →
    rowAt df.data i cs = .ok (cs.map (fun c => (df.col c).getD i [])) := by
  intro cs
  induction cs with
  | nil => intro _; rfl
  | cons c cs ih =>
    intro h
    have h1 := h c (by simp)
    have : idxR ((df.data.find? c).getD []) i = .ok ((df.col c).getD i []) := by
      unfold idxR col at *
      rw [List.getElem?_eq_getElem h1, List.getD_eq_getElem?_getD, List.getElem?_eq_getElem h1]
      rfl
    rw [rowAt, this, ih (fun x hx => h x (by simp [hx]))]
    rfl

theorem rowsFrom_ok {df : DataFrame} {n : Nat} (h : ∀ c ∈ df.columns, (df.col c).length = n) : ∀ k i, i + k ≤ n →
    rowsFrom df i k = .ok (((List.range' i k).map (fun i => joinComma (df.row i))).flatMap (· ++ ['\n'])) := by
  intro k
  induction k with
  | zero => intro i _; rfl
  | succ k ih =>
    intro i hi
    have h1 : rowAt df.data i df.columns = .ok (df.row i) := rowAt_ok (fun c hc => by rw [h c hc]; omega)
    rw [rowsFrom, h1, ih (i + 1) (by omega), List.range'_succ]
    simp [bind, Except.bind]

theorem mem_intercalate {x c : Char} : ∀ {vs : List (List Char)}, x ∈ List.intercalate [c] vs → x = c ∨ ∃ v ∈ vs, x ∈ v := by
  intro vs
  induction vs with
  | nil => intro h; simp [List.intercalate] at h
  | cons v vs ih =>
    intro h
    cases vs with
    | nil => simp [List.intercalate] at h; exact .inr ⟨v, by simp, h⟩
    | cons w ws =>
      have : List.intercalate [c] (v :: w :: ws) = v ++ c :: List.intercalate [c] (w :: ws) := by
        simp [List.intercalate, List.intersperse]
      rw [this, List.mem_append, List.mem_cons] at h
      rcases h with h | h | h
      · exact .inr ⟨v, by simp, h⟩
      · exact .inl h
      · rcases ih h with h | ⟨u, hu, h⟩
        · exact .inl h
        · exact .inr ⟨u, by simp [hu], h⟩

theorem field_text {v : List Char} (h : Field v) : ValueText v v :=
  ⟨h.1, .inr ⟨[], by simp, by simp, h.2.2⟩⟩

theorem rowText_join {vs : List (List Char)} (h : ∀ v ∈ vs, Field v ∨ v = []) : RowText (joinComma vs) vs := by
  refine ⟨vs, joinComma_eq vs, ?_⟩
  rw [List.forall₂_same]
  intro v hv
  rcases h v hv with h | rfl
  · exact field_text h
  · exact ⟨by simp, .inl ⟨rfl, rfl⟩⟩

/-- the values of a sample -/
theorem addSample_col (df : DataFrame) (values : FMap (List Char) (List Char)) :
    (df.addSample values).columns = df.columns ∧
    ∀ c, (df.addSample values).col c = df.col c ++ (values.find? c).toList := by
  have key : ∀ (l : List (List Char × List Char)) (df : DataFrame), (l.map Prod.fst).Nodup →
      (l.foldl (fun df (c, v) => { df with data := df.data.set c ((df.data.find? c).getD [] ++ [v]) }) df).columns = df.columns ∧
      ∀ c, (l.foldl (fun df (c, v) => { df with data := df.data.set c ((df.data.find? c).getD [] ++ [v]) }) df).col c =
        df.col c ++ (l.filter (fun x => x.1 == c)).map Prod.snd := by
    intro l
    induction l with
    | nil => intro df _; simp
    | cons x l ih =>
      obtain ⟨k, v⟩ := x
      intro df hnd
      simp only [List.map_cons, List.nodup_cons] at hnd
      obtain ⟨h1, h2⟩ := ih { df with data := df.data.set k ((df.data.find? k).getD [] ++ [v]) } hnd.2
      refine ⟨h1, fun c => ?_⟩
      rw [List.foldl_cons, h2 c]
      have hcol : col { df with data := df.data.set k ((df.data.find? k).getD [] ++ [v]) } c = if c = k then df.col k ++ [v] else df.col c := by
        unfold col
        rw [FMap.find?_set]
        split <;> rfl
      rw [hcol]
      by_cases he : c = k
      · subst he
        rw [if_pos rfl, List.filter_cons_of_pos (by simp), List.map_cons, List.append_assoc, List.singleton_append]
      · rw [if_neg he, List.filter_cons_of_neg (by simp; exact fun h => he h.symm)]
  obtain ⟨h1, h2⟩ := key values.entries df values.nodupKeys
  refine ⟨h1, fun c => ?_⟩
  refine (h2 c).trans ?_
  congr 1
  cases h : values.find? c with
  | none =>
    rw [List.filter_eq_nil_iff.mpr]
    · rfl
    · rintro ⟨k, v⟩ hkv hc
      have hc : k = c := by simpa using hc
      subst hc
      rw [FMap.mem_entries.mp hkv] at h
      cases h
  | some v =>
    have hm : (c, v) ∈ values.entries := FMap.mem_entries.mpr h
    obtain ⟨l1, l2, hl⟩ := List.append_of_mem hm
    have hnd : (values.entries.map Prod.fst).Nodup := values.nodupKeys
    rw [hl] at hnd ⊢
    simp only [List.map_append, List.map_cons, List.nodup_append, List.nodup_cons] at hnd
    have e1 : l1.filter (fun x => x.1 == c) = [] := by
      rw [List.filter_eq_nil_iff]
      rintro ⟨k, w⟩ hk hc
      have hc : k = c := by simpa using hc
      subst hc
      exact hnd.2.2 k (List.mem_map.mpr ⟨_, hk, rfl⟩) k (by simp) rfl
    have e2 : l2.filter (fun x => x.1 == c) = [] := by
      rw [List.filter_eq_nil_iff]
      rintro ⟨k, w⟩ hk hc
      have hc : k = c := by simpa using hc
      subst hc
      exact hnd.2.1.1 (List.mem_map.mpr ⟨_, hk, rfl⟩)
    simp [List.filter_append, e1, e2]

end DataFrame
end Verif
