import Verif.Spec.ClusterFile
import Verif.Lemmas.TextMore
import Verif.Lemmas.UtilIO
namespace Verif
variable {V : Type}
namespace Text

theorem wordl_space {acc cs : List Char} {c : Char} (hc : isSpace c = true) :
    wordl acc (c :: cs) = if acc = [] then wordl [] cs else acc :: wordl [] cs := by
  rw [wordl, if_pos hc]

theorem wordl_append (w cs : List Char) (hw : ∀ c ∈ w, isSpace c = false) : ∀ acc, wordl acc (w ++ cs) = wordl (acc ++ w) cs := by
  induction w with
  | nil => intro acc; simp
  | cons c w ih =>
    intro acc
    rw [List.cons_append, wordl, if_neg (by rw [hw c (by simp)]; simp), ih (fun c hc => hw c (by simp [hc]))]
    simp

theorem words_cons {w cs : List Char} {c : Char} (hw : ∀ c ∈ w, isSpace c = false) (hne : w ≠ []) (hc : isSpace c = true) :
    words (w ++ c :: cs) = w :: words cs := by
  unfold words
  rw [wordl_append w _ hw, wordl_space hc]
  simp [hne]

theorem words_last {w : List Char} (hw : ∀ c ∈ w, isSpace c = false) (hne : w ≠ []) : words w = [w] := by
  unfold words
  have := wordl_append w [] hw []
  rw [List.append_nil, List.nil_append] at this
  rw [this]
  simp [wordl, hne]

theorem words_space {cs : List Char} {c : Char} (hc : isSpace c = true) : words (c :: cs) = words cs := by
  unfold words
  rw [wordl_space hc, if_pos rfl]

theorem readWord_append {w cs : List Char} {c : Char} (hw : ∀ c ∈ w, isSpace c = false) (hne : w ≠ []) (hc : isSpace c = true) :
    readWord (w ++ c :: cs) = (w, c :: cs) := by
  unfold readWord
  have h1 : (w ++ c :: cs).dropWhile isSpace = w ++ c :: cs := by
    cases w with
    | nil => exact absurd rfl hne
    | cons a w => rw [List.cons_append, List.dropWhile_cons, if_neg (by rw [hw a (by simp)]; simp)]
  simp only [h1]
  rw [List.takeWhile_append_of_pos (by intro a ha; simp [hw a ha]), List.dropWhile_append_of_pos (by intro a ha; simp [hw a ha])]
  simp [hc]

theorem readWord_end {w : List Char} (hw : ∀ c ∈ w, isSpace c = false) : readWord w = (w, []) := by
  unfold readWord
  have h1 : w.dropWhile isSpace = w := by
    cases w with
    | nil => rfl
    | cons a w => rw [List.dropWhile_cons, if_neg (by rw [hw a (by simp)]; simp)]
  simp only [h1]
  have h2 := List.takeWhile_append_of_pos (p := fun c => !isSpace c) (l₁ := w) (l₂ := []) (by intro a ha; simp [hw a ha])
  rw [List.append_nil, List.takeWhile_nil, List.append_nil] at h2
  have h3 := List.dropWhile_append_of_pos (p := fun c => !isSpace c) (l₁ := w) (l₂ := []) (by intro a ha; simp [hw a ha])
  rw [List.append_nil, List.dropWhile_nil] at h3
  rw [h2, h3]

theorem readWord_skip {cs : List Char} {c : Char} (hc : isSpace c = true) : readWord (c :: cs) = readWord cs := by
  unfold readWord
  simp [hc]

theorem isDigit_not_space {c : Char} (h : isDigit c = true) : isSpace c = false := by
  unfold isDigit at h
  unfold isSpace
  simp at h ⊢
  omega

theorem natText_not_space {n : Nat} : ∀ c ∈ natText n, isSpace c = false := fun c hc => isDigit_not_space (natDigits_digits _ _ c hc)

theorem intText_not_space {n : Int} : ∀ c ∈ intText n, isSpace c = false := by
  intro c hc
  rcases intText_mem hc with rfl | h
  · rfl
  · exact isDigit_not_space h

theorem intText_ne_nil (n : Int) : intText n ≠ [] := by
  cases n with
  | ofNat n => exact natText_ne_nil n
  | negSucc n => simp [intText]

theorem digit_value {n : Nat} (h : n < 10) : (digit n).toNat - 48 = n := by
  rcases n with _ | _ | _ | _ | _ | _ | _ | _ | _ | _ | n <;> first | rfl | omega

theorem natValue_digits : ∀ (fuel n : Nat), n < fuel → natValue (natDigits fuel n) = n := by
  intro fuel
  induction fuel with
  | zero => intro n h; omega
  | succ f ih =>
    intro n h
    unfold natDigits
    split
    · rename_i hn
      simp only [natValue, List.foldl_cons, List.foldl_nil]
      rw [digit_value hn]
      omega
    · have := ih (n / 10) (by omega)
      unfold natValue at this ⊢
      rw [List.foldl_append, this]
      simp only [List.foldl_cons, List.foldl_nil]
      rw [digit_value (Nat.mod_lt _ (by omega))]
      omega

theorem natValue_natText (n : Nat) : natValue (natText n) = n := natValue_digits _ _ (by omega)

theorem intText_nat (n : Nat) : intText (n : Int) = natText n := rfl

theorem digit_head {w : List Char} (hw : ∀ c ∈ w, isDigit c = true) (cs : List Char) (hne : w ≠ []) :
    (w ++ cs).head? ≠ some '-' ∧ (w ++ cs).head? ≠ some '+' := by
  cases w with
  | nil => exact absurd rfl hne
  | cons a w =>
    have ha := hw a (by simp)
    constructor
    · intro h
      simp at h
      subst h
      exact absurd ha (by decide)
    · intro h
      simp at h
      subst h
      exact absurd ha (by decide)

/-- a number is read up to the next character that is not a digit -/
theorem readInt_append (n : Int) (cs : List Char) (h : ∀ c, cs.head? = some c → isDigit c = false) : readInt (intText n ++ cs) = some (n, cs) := by
  have htake : ∀ w : List Char, (∀ c ∈ w, isDigit c = true) → (w ++ cs).takeWhile isDigit = w ∧ (w ++ cs).dropWhile isDigit = cs := by
    intro w hw
    rw [List.takeWhile_append_of_pos hw, List.dropWhile_append_of_pos hw]
    cases cs with
    | nil => simp
    | cons c cs => simp [h c rfl]
  have hsp : (intText n ++ cs).dropWhile isSpace = intText n ++ cs := by
    cases ht : intText n with
    | nil => exact absurd ht (intText_ne_nil n)
    | cons a w => rw [List.cons_append, List.dropWhile_cons, if_neg (by rw [intText_not_space (n := n) a (by rw [ht]; simp)]; simp)]
  cases n with
  | ofNat n =>
    have hd : ∀ c ∈ natText n, isDigit c = true := natDigits_digits _ _
    obtain ⟨h1, h2⟩ := digit_head hd cs (natText_ne_nil n)
    obtain ⟨h3, h4⟩ := htake _ hd
    change (natText n ++ cs).dropWhile isSpace = natText n ++ cs at hsp
    change readInt (natText n ++ cs) = _
    unfold readInt
    have hh : ¬ ((natText n ++ cs).head? = some '-' ∨ (natText n ++ cs).head? = some '+') := by rintro (h | h) <;> [exact h1 h; exact h2 h]
    have hb : ((natText n ++ cs).head? == some '-') = false := by
      rw [beq_eq_false_iff_ne]; exact h1
    simp only [hsp, if_neg hh, h3, h4, hb, natText_ne_nil n, if_false, natValue_natText]
    rfl
  | negSucc n =>
    have hd : ∀ c ∈ natText (n + 1), isDigit c = true := natDigits_digits _ _
    obtain ⟨h3, h4⟩ := htake _ hd
    change ('-' :: (natText (n + 1) ++ cs)).dropWhile isSpace = '-' :: (natText (n + 1) ++ cs) at hsp
    change readInt ('-' :: (natText (n + 1) ++ cs)) = _
    unfold readInt
    simp only [hsp, List.head?_cons, List.tail_cons, true_or, if_true, h3, h4, natText_ne_nil, if_false, natValue_natText, beq_self_eq_true]
    rfl

end Text

namespace UtilIO
open Text

theorem Word.toList {s : String} (h : Word s) : s.toList ≠ [] := by
  intro he; apply h.1; rw [← String.toList_inj, he]; rfl

theorem words_joinNames {n : Nat} : ∀ (xs : List String) (i : Nat), (∀ x ∈ xs, Word x) → i + xs.length ≤ n + 1 → words (joinNames n i xs) = xs.map String.toList := by
  intro xs
  induction xs with
  | nil => intro i _ _; rfl
  | cons x xs ih =>
    intro i hw hl
    have hx := hw x (by simp)
    rw [joinNames]
    by_cases h : i < n
    · rw [if_pos h, List.append_assoc, List.singleton_append, words_cons hx.2 hx.toList rfl, ih _ (fun y hy => hw y (by simp [hy])) (by simp at hl; omega)]
      rfl
    · have : xs = [] := by
        cases xs with
        | nil => rfl
        | cons _ _ => simp at hl; omega
      subst this
      rw [if_neg h]
      simp only [joinNames, List.append_nil]
      exact words_last hx.2 hx.toList

/-- a line of a cluster of a domain -/
def clusterLine (d : String) (tb : Int) (n : Nat) (names : List String) : List Char := d.toList ++ ' ' :: intText tb ++ ' ' :: joinNames n 1 names

theorem joinNames_newline {n : Nat} : ∀ (xs : List String) (i : Nat), (∀ x ∈ xs, Word x) → '\n' ∉ joinNames n i xs := by
  intro xs
  induction xs with
  | nil => intro i _; simp [joinNames]
  | cons x xs ih =>
    intro i hw h
    rw [joinNames, List.mem_append, List.mem_append] at h
    rcases h with (h | h) | h
    · exact absurd ((hw x (by simp)).2 _ h) (by decide)
    · split at h
      · exact absurd h (by decide)
      · simp at h
    · exact ih _ (fun y hy => hw y (by simp [hy])) h

theorem Word.newline {s : String} (h : Word s) : '\n' ∉ s.toList := fun hn => absurd (h.2 _ hn) (by decide)

theorem intText_newline (n : Int) : '\n' ∉ intText n := fun h => absurd (intText_not_space _ h) (by decide)

theorem clusterLine_newline {d : String} {tb : Int} {n : Nat} {names : List String} (hd : Word d) (hn : ∀ x ∈ names, Word x) : '\n' ∉ clusterLine d tb n names := by
  intro h
  simp only [clusterLine, List.mem_append, List.mem_cons] at h
  rcases h with (h | h | h) | h | h
  · exact hd.newline h
  · exact absurd h (by decide)
  · exact intText_newline _ h
  · exact absurd h (by decide)
  · exact joinNames_newline _ _ hn h

/-! ### Writing -/

theorem itemNames_ok {e : Encoding} {d : String} : ∀ {is : List Int} {s s' : FSet String}, itemNames e d is s = .ok s' →
    (∀ i ∈ is, ∃ x, Encoding.entity e d i = some x) ∧ ∀ x, x ∈ s'.keys ↔ x ∈ s.keys ∨ ∃ i ∈ is, Encoding.entity e d i = some x := by
  intro is
  induction is with
  | nil => intro s s' h; cases h; simp
  | cons i is ih =>
    intro s s' h
    rw [itemNames, bind_ok] at h
    obtain ⟨m, h1, h2⟩ := h
    obtain ⟨n, h3, h4⟩ := bind_ok.mp h2
    have he : Encoding.entity e d i = some n := by
      unfold Encoding.entity
      rw [FMap.atKey_ok.mp h1]
      exact FMap.atKey_ok.mp h3
    obtain ⟨h5, h6⟩ := ih h4
    refine ⟨?_, fun x => ?_⟩
    · intro j hj
      rcases List.mem_cons.mp hj with rfl | hj
      · exact ⟨n, he⟩
      · exact h5 j hj
    · rw [h6 x, FSet.mem_insert]
      constructor
      · rintro ((h | h) | ⟨j, hj, h⟩)
        · exact .inr ⟨i, by simp, by rw [he, h]⟩
        · exact .inl h
        · exact .inr ⟨j, by simp [hj], h⟩
      · rintro (h | ⟨j, hj, h⟩)
        · exact .inl (.inr h)
        · rcases List.mem_cons.mp hj with rfl | hj
          · rw [he] at h; cases h; exact .inl (.inl rfl)
          · exact .inr ⟨j, hj, h⟩

theorem itemNames_ex {e : Encoding} {d : String} : ∀ (is : List Int) (s : FSet String), (∀ i ∈ is, ∃ x, Encoding.entity e d i = some x) →
    ∃ s', itemNames e d is s = .ok s' := by
  intro is
  induction is with
  | nil => intro s _; exact ⟨s, rfl⟩
  | cons i is ih =>
    intro s h
    obtain ⟨x, hx⟩ := h i (by simp)
    unfold Encoding.entity at hx
    obtain ⟨m, h1, h2⟩ := Option.bind_eq_some_iff.mp hx
    obtain ⟨s', h3⟩ := ih (FSet.insert s x) (fun j hj => h j (by simp [hj]))
    exact ⟨s', by rw [itemNames, FMap.atKey_of_find h1]; simp only [bind, Except.bind]; rw [FMap.atKey_of_find h2]; exact h3⟩

theorem itemNames_size {e : Encoding} {d : String} : ∀ {is : List Int} {s s' : FSet String}, itemNames e d is s = .ok s' →
    s'.keys.length ≤ s.keys.length + is.length := by
  intro is
  induction is with
  | nil => intro s s' h; cases h; simp
  | cons i is ih =>
    intro s s' h
    rw [itemNames, bind_ok] at h
    obtain ⟨m, h1, h2⟩ := h
    obtain ⟨n, h3, h4⟩ := bind_ok.mp h2
    have h5 := ih h4
    have h6 : (FSet.insert s n).keys.length ≤ s.keys.length + 1 := by
      have hsub : (FSet.insert s n).keys ⊆ n :: s.keys := by
        intro x hx
        rw [FSet.mem_insert] at hx
        simpa using hx
      have hnd : (FSet.insert s n).keys.Nodup := FMap.nodupKeys _
      have := (List.subperm_of_subset hnd hsub).length_le
      simpa using this
    simp only [List.length_cons]
    omega

/-- a line of the file: domain, table, number of items and names -/
structure CRow where
  d : String
  tb : Int
  n : Nat
  names : List String

def CRow.line (r : CRow) : List Char := clusterLine r.d r.tb r.n r.names

/-- the row of a table with these items -/
structure CRow.Good (e : Encoding) (s : FSet Int) (r : CRow) : Prop where
  length : r.names.length ≤ r.n
  nodup : r.names.Nodup
  mem : ∀ x, x ∈ r.names ↔ ∃ i ∈ s.keys, Encoding.entity e r.d i = some x
  named : ∀ i ∈ s.keys, ∃ x, Encoding.entity e r.d i = some x

theorem tablesText_ok {e : Encoding} {d : String} : ∀ {l : List (Int × FSet Int)} {t t' : Tape} {txt : List Char}, tablesText e d l t = .ok (txt, t') →
    ∃ rows : List CRow, txt = rows.flatMap (fun r => r.line ++ ['\n']) ∧ rows.map (fun r => (r.d, r.tb)) = l.map (fun x => (d, x.1)) ∧
      ∀ r ∈ rows, ∃ s, (r.tb, s) ∈ l ∧ r.Good e s := by
  intro l
  induction l with
  | nil => intro t t' txt h; cases h; exact ⟨[], rfl, rfl, by simp⟩
  | cons x l ih =>
    obtain ⟨tb, s⟩ := x
    intro t t' txt h
    rw [tablesText] at h
    obtain ⟨names, h1, h2⟩ := bind_ok.mp h
    obtain ⟨⟨rest, t2⟩, h3, h4⟩ := bind_ok.mp h2
    have h1 : itemNames e d (shuffle s.keys t).1 ∅ = .ok names := h1
    cases h4
    obtain ⟨rows, rfl, h5, h6⟩ := ih h3
    have hperm := shuffle_perm s.keys t
    obtain ⟨h7, h8⟩ := itemNames_ok h1
    have h9 := itemNames_size h1
    refine ⟨⟨d, tb, s.size, names.keys⟩ :: rows, by simp [CRow.line, clusterLine], by simp [h5], ?_⟩
    intro r hr
    rcases List.mem_cons.mp hr with rfl | hr
    · refine ⟨s, by simp, ?_, FMap.nodupKeys _, fun x => ?_, fun i hi => h7 i (hperm.mem_iff.mpr hi)⟩
      · simp only
        rw [hperm.length_eq] at h9
        have : s.keys.length = s.size := List.length_map ..
        have h0 : (∅ : FSet String).keys.length = 0 := rfl
        omega
      · simp only
        rw [h8 x]
        have h0 : x ∉ (∅ : FSet String).keys := List.not_mem_nil
        constructor
        · rintro (h | ⟨i, hi, h⟩)
          · exact absurd h h0
          · exact ⟨i, hperm.mem_iff.mp hi, h⟩
        · rintro ⟨i, hi, h⟩
          exact .inr ⟨i, hperm.mem_iff.mpr hi, h⟩
    · obtain ⟨s', h10, h11⟩ := h6 r hr
      exact ⟨s', by simp [h10], h11⟩

theorem tablesText_ex {e : Encoding} {d : String} : ∀ (l : List (Int × FSet Int)) (t : Tape), (∀ x ∈ l, ∀ i ∈ x.2.keys, ∃ y, Encoding.entity e d i = some y) →
    ∃ txt t', tablesText e d l t = .ok (txt, t') := by
  intro l
  induction l with
  | nil => intro t _; exact ⟨_, _, rfl⟩
  | cons x l ih =>
    obtain ⟨tb, s⟩ := x
    intro t h
    have hperm := shuffle_perm s.keys t
    obtain ⟨names, h1⟩ := itemNames_ex (e := e) (d := d) (shuffle s.keys t).1 ∅ (fun i hi => h (tb, s) (by simp) i (hperm.mem_iff.mp hi))
    obtain ⟨rest, t2, h2⟩ := ih (shuffle s.keys t).2 (fun x hx => h x (by simp [hx]))
    refine ⟨d.toList ++ ' ' :: intText tb ++ ' ' :: joinNames s.size 1 names.keys ++ '\n' :: rest, t2, ?_⟩
    rw [tablesText]
    exact bind_ok.mpr ⟨names, h1, bind_ok.mpr ⟨(rest, t2), h2, rfl⟩⟩

theorem domainsText_ok {e : Encoding} : ∀ {l : List (String × Domain)} {t t' : Tape} {txt : List Char}, domainsText e l t = .ok (txt, t') →
    ∃ rows : List CRow, txt = rows.flatMap (fun r => r.line ++ ['\n']) ∧
      rows.map (fun r => (r.d, r.tb)) = l.flatMap (fun x => x.2.crp.tables.entries.map (fun y => (x.2.name, y.1))) ∧
      ∀ r ∈ rows, ∃ x ∈ l, r.d = x.2.name ∧ ∃ s, x.2.crp.tables.find? r.tb = some s ∧ r.Good e s := by
  intro l
  induction l with
  | nil => intro t t' txt h; cases h; exact ⟨[], rfl, rfl, by simp⟩
  | cons x l ih =>
    obtain ⟨d, dom⟩ := x
    intro t t' txt h
    rw [domainsText] at h
    obtain ⟨⟨here, t1⟩, h1, h2⟩ := bind_ok.mp h
    obtain ⟨⟨rest, t2⟩, h3, h4⟩ := bind_ok.mp h2
    cases h4
    obtain ⟨rows1, rfl, h5, h6⟩ := tablesText_ok h1
    obtain ⟨rows2, rfl, h7, h8⟩ := ih h3
    refine ⟨rows1 ++ rows2, by simp, by simp [h5, h7], ?_⟩
    intro r hr
    rcases List.mem_append.mp hr with hr | hr
    · obtain ⟨s, h9, h10⟩ := h6 r hr
      have hd : r.d = dom.name := by
        have : (r.d, r.tb) ∈ dom.crp.tables.entries.map (fun x => (dom.name, x.1)) := h5 ▸ List.mem_map.mpr ⟨r, hr, rfl⟩
        obtain ⟨y, _, hy⟩ := List.mem_map.mp this
        exact (Prod.mk.inj hy).1.symm
      exact ⟨(d, dom), by simp, hd, s, FMap.mem_entries.mp h9, h10⟩
    · obtain ⟨x, hx, h9⟩ := h8 r hr
      exact ⟨x, by simp [hx], h9⟩

theorem domainsText_ex {e : Encoding} : ∀ (l : List (String × Domain)) (t : Tape),
    (∀ x ∈ l, ∀ tb s, x.2.crp.tables.find? tb = some s → ∀ i ∈ s.keys, ∃ y, Encoding.entity e x.2.name i = some y) →
    ∃ txt t', domainsText e l t = .ok (txt, t') := by
  intro l
  induction l with
  | nil => intro t _; exact ⟨_, _, rfl⟩
  | cons x l ih =>
    obtain ⟨d, dom⟩ := x
    intro t h
    obtain ⟨here, t1, h1⟩ := tablesText_ex (e := e) (d := dom.name) dom.crp.tables.entries t (fun x hx i hi => h (d, dom) (by simp) x.1 x.2 (FMap.mem_entries.mp hx) i hi)
    obtain ⟨rest, t2, h2⟩ := ih t1 (fun x hx => h x (by simp [hx]))
    exact ⟨here ++ rest, t2, by rw [domainsText]; exact bind_ok.mpr ⟨(here, t1), h1, bind_ok.mpr ⟨(rest, t2), h2, rfl⟩⟩⟩

/-! ### Reading -/

/-- the clusters with a row added -/
def CRow.add (cl : Clusters) (r : CRow) : Clusters := cl.set r.d (((cl.find? r.d).getD ∅).set r.tb r.names)

def look (cl : Clusters) (d : String) (tb : Int) : Option (List String) := (cl.find? d).bind (·.find? tb)

theorem listed_look (cl : Clusters) (d : String) (tb : Int) : listed cl d tb = (look cl d tb).getD [] := by
  unfold listed look
  cases cl.find? d with
  | none => simp
  | some m => simp

theorem look_add (cl : Clusters) (r : CRow) (d : String) (tb : Int) : look (r.add cl) d tb = if d = r.d ∧ tb = r.tb then some r.names else look cl d tb := by
  unfold look CRow.add
  rw [FMap.find?_set]
  by_cases hd : d = r.d
  · subst hd
    rw [if_pos rfl]
    simp only [Option.bind_some, true_and]
    rw [FMap.find?_set]
    split
    · rfl
    · cases cl.find? r.d with
      | none => simp
      | some m => simp
  · rw [if_neg hd, if_neg (fun h => hd h.1)]

theorem look_foldl (rows : List CRow) : ∀ (cl : Clusters), (rows.map (fun r => (r.d, r.tb))).Nodup → (∀ r ∈ rows, look cl r.d r.tb = none) → ∀ d tb l,
    look (rows.foldl (fun c r => r.add c) cl) d tb = some l ↔ look cl d tb = some l ∨ ∃ r ∈ rows, r.d = d ∧ r.tb = tb ∧ r.names = l := by
  induction rows with
  | nil => intro cl _ _ d tb l; simp
  | cons r rows ih =>
    intro cl hnd hl d tb l
    simp only [List.map_cons, List.nodup_cons] at hnd
    rw [List.foldl_cons, ih _ hnd.2, look_add]
    · by_cases h : d = r.d ∧ tb = r.tb
      · obtain ⟨rfl, rfl⟩ := h
        rw [if_pos ⟨rfl, rfl⟩, hl r (by simp)]
        constructor
        · rintro (h | ⟨r', hr', h⟩)
          · exact .inr ⟨r, by simp, rfl, rfl, by simpa using h⟩
          · exact .inr ⟨r', by simp [hr'], h⟩
        · rintro (h | ⟨r', hr', h1, h2, h3⟩)
          · cases h
          · rcases List.mem_cons.mp hr' with rfl | hr'
            · exact .inl (by rw [h3])
            · exact .inr ⟨r', hr', h1, h2, h3⟩
      · rw [if_neg h]
        constructor
        · rintro (h | ⟨r', hr', h⟩)
          · exact .inl h
          · exact .inr ⟨r', by simp [hr'], h⟩
        · rintro (h' | ⟨r', hr', h1, h2, h3⟩)
          · exact .inl h'
          · rcases List.mem_cons.mp hr' with rfl | hr'
            · exact absurd ⟨h1.symm, h2.symm⟩ h
            · exact .inr ⟨r', hr', h1, h2, h3⟩
    · intro r' hr'
      rw [look_add, if_neg, hl r' (by simp [hr'])]
      rintro ⟨h1, h2⟩
      exact hnd.1 (List.mem_map.mpr ⟨r', hr', by rw [h1, h2]⟩)

theorem foldl_domain (rows : List CRow) : ∀ (cl : Clusters), (∀ d m, cl.find? d = some m → ∃ tb l, m.find? tb = some l) →
    ∀ d m, (rows.foldl (fun c r => r.add c) cl).find? d = some m → ∃ tb l, m.find? tb = some l := by
  induction rows with
  | nil => intro cl h; exact h
  | cons r rows ih =>
    intro cl h
    rw [List.foldl_cons]
    apply ih
    intro d m hm
    unfold CRow.add at hm
    rw [FMap.find?_set] at hm
    split at hm
    · cases hm
      exact ⟨r.tb, r.names, FMap.find?_set_self _ _ _⟩
    · exact h d m hm

theorem addCluster_row {cl : Clusters} {r : CRow} (hne : r.names ≠ []) (hl : look cl r.d r.tb = none) :
    addCluster cl r.d r.tb (r.names.map String.toList) = .ok (r.add cl) := by
  unfold addCluster
  rw [if_neg (by simpa using hne), if_neg]
  · rw [List.map_map]
    have : r.names.map (String.ofList ∘ String.toList) = r.names := by simp [Function.comp_def]
    rw [this]
    rfl
  · intro h
    obtain ⟨l, hl'⟩ := FMap.contains_iff.mp h
    unfold look at hl
    cases hc : cl.find? r.d with
    | none => rw [hc] at hl'; simp at hl'
    | some m => rw [hc] at hl hl'; simp at hl hl'; rw [hl] at hl'; cases hl'

/-- a row that can be read back -/
structure CRow.Readable (r : CRow) : Prop where
  d : Word r.d
  names : ∀ x ∈ r.names, Word x
  ne : r.names ≠ []
  length : r.names.length ≤ r.n

theorem CRow.Readable.split {r : CRow} (h : r.Readable) : readWord r.line = (r.d.toList, ' ' :: (intText r.tb ++ ' ' :: joinNames r.n 1 r.names)) := by
  unfold CRow.line clusterLine
  rw [List.append_assoc, List.cons_append]
  exact readWord_append h.d.2 h.d.toList rfl

theorem CRow.Readable.words {r : CRow} (h : r.Readable) : Text.words (' ' :: joinNames r.n 1 r.names) = r.names.map String.toList := by
  have := h.length
  rw [words_space rfl, words_joinNames _ _ h.names (by omega)]

theorem readInt_space {cs : List Char} {c : Char} (hc : isSpace c = true) : readInt (c :: cs) = readInt cs := by
  unfold readInt
  simp [hc]

theorem irmLine_row {cl : Clusters} {r : CRow} (h : r.Readable) (hl : look cl r.d r.tb = none) : irmLine cl r.line = .ok (r.add cl) := by
  unfold irmLine
  rw [h.split]
  simp only
  rw [readInt_space rfl, readInt_append _ _ (by simp; decide)]
  simp only
  rw [h.words, String.ofList_toList]
  exact addCluster_row h.ne hl

theorem CRow.line_ne (r : CRow) : r.line ≠ [] := by simp [CRow.line, clusterLine]

theorem irmLines_rows : ∀ (rows : List CRow) (cl : Clusters), (∀ r ∈ rows, r.Readable) → (rows.map (fun r => (r.d, r.tb))).Nodup →
    (∀ r ∈ rows, look cl r.d r.tb = none) → irmLines (rows.map CRow.line) cl = .ok (rows.foldl (fun c r => r.add c) cl) := by
  intro rows
  induction rows with
  | nil => intro cl _ _ _; rfl
  | cons r rows ih =>
    intro cl hr hnd hl
    simp only [List.map_cons, List.nodup_cons] at hnd
    rw [List.map_cons, irmLines, if_neg r.line_ne, irmLine_row (hr r (by simp)) (hl r (by simp))]
    simp only [bind, Except.bind]
    rw [ih _ (fun r' h' => hr r' (by simp [h'])) hnd.2, List.foldl_cons]
    intro r' hr'
    rw [look_add, if_neg, hl r' (by simp [hr'])]
    rintro ⟨h1, h2⟩
    exact hnd.1 (List.mem_map.mpr ⟨r', hr', by rw [h1, h2]⟩)

end UtilIO
end Verif
