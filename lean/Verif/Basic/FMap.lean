import Verif.Basic.Outcome
import Mathlib.Data.List.Sort
import Mathlib.Data.List.Perm.Basic
import Mathlib.Data.Multiset.Basic
/-!
Finite maps and sets, used for `std::map`, `std::unordered_map`, `std::set` and `std::unordered_set`.

A map is a strictly sorted association list (bundled with its sortedness), so that two maps with
the same lookups are *equal*.  Iteration is in key order, which is what `std::map` guarantees; for the
unordered containers it is one of the possible orders, and theorems that could depend on
it say so.
-/
namespace Verif

/-- A decidable strict total order on keys (`operator<` of the key type). -/
class Key (K : Type _) where
  deq : DecidableEq K
  lt : K → K → Bool
  irrefl : ∀ a, lt a a = false
  trans : ∀ a b c, lt a b = true → lt b c = true → lt a c = true
  tri : ∀ a b, lt a b = true ∨ a = b ∨ lt b a = true

attribute [reducible, instance] Key.deq

namespace Key

theorem asymm {K} [Key K] {a b : K} (h : lt a b = true) : lt b a = false := by
  cases h' : lt b a
  · rfl
  · have := trans _ _ _ h h'
    rw [irrefl] at this; cases this

theorem ne_of_lt {K} [Key K] {a b : K} (h : lt a b = true) : a ≠ b := by
  rintro rfl; rw [irrefl] at h; cases h

instance : Key Int where
  deq := inferInstance
  lt a b := decide (a < b)
  irrefl a := by simp
  trans a b c := by simp; omega
  tri a b := by simp; omega

instance : Key Nat where
  deq := inferInstance
  lt a b := decide (a < b)
  irrefl a := by simp
  trans a b c := by simp; omega
  tri a b := by simp; omega

instance : Key Char where
  deq := inferInstance
  lt a b := decide (a.toNat < b.toNat)
  irrefl a := by simp
  trans a b c := by simp; omega
  tri a b := by
    simp
    by_cases h : a = b
    · exact .inr (.inl h)
    · have : a.toNat ≠ b.toNat := fun h' => h (Char.ext (UInt32.toNat_inj.mp h'))
      omega

instance : Key Bool where
  deq := inferInstance
  lt a b := !a && b
  irrefl a := by cases a <;> rfl
  trans a b c := by cases a <;> cases b <;> cases c <;> simp
  tri a b := by cases a <;> cases b <;> simp

instance : Key Unit where
  deq := inferInstance
  lt _ _ := false
  irrefl _ := rfl
  trans _ _ _ := by simp
  tri _ _ := by simp

/-- Lexicographic comparison (`operator<` of `std::vector`). -/
def listLt {K} [Key K] : List K → List K → Bool
  | [], [] => false
  | [], _ :: _ => true
  | _ :: _, [] => false
  | a :: as, b :: bs => lt a b || (decide (a = b) && listLt as bs)

instance {K} [Key K] : Key (List K) where
  deq := inferInstance
  lt := listLt
  irrefl a := by induction a with
    | nil => rfl
    | cons a as ih => simp [listLt, irrefl, ih]
  trans := by
    intro a
    induction a with
    | nil => intro b c; cases b <;> cases c <;> simp [listLt]
    | cons a as ih =>
      intro b c
      cases b with
      | nil => simp [listLt]
      | cons b bs =>
        cases c with
        | nil => simp [listLt]
        | cons c cs =>
          simp only [listLt, Bool.or_eq_true, Bool.and_eq_true, decide_eq_true_eq]
          rintro (h1 | ⟨rfl, h1⟩) (h2 | ⟨rfl, h2⟩)
          · exact .inl (trans _ _ _ h1 h2)
          · exact .inl h1
          · exact .inl h2
          · exact .inr ⟨rfl, ih _ _ h1 h2⟩
  tri := by
    intro a
    induction a with
    | nil => intro b; cases b <;> simp [listLt]
    | cons a as ih =>
      intro b
      cases b with
      | nil => simp [listLt]
      | cons b bs =>
        simp only [listLt, Bool.or_eq_true, Bool.and_eq_true, decide_eq_true_eq, List.cons.injEq]
        rcases tri a b with h | rfl | h
        · exact .inl (.inl h)
        · rcases ih bs with h | rfl | h
          · exact .inl (.inr ⟨rfl, h⟩)
          · exact .inr (.inl ⟨rfl, rfl⟩)
          · exact .inr (.inr (.inr ⟨rfl, h⟩))
        · exact .inr (.inr (.inl h))

/-- Lexicographic comparison of pairs (`operator<` of `std::pair`). -/
instance {K L} [Key K] [Key L] : Key (K × L) where
  deq := inferInstance
  lt a b := lt a.1 b.1 || (decide (a.1 = b.1) && lt a.2 b.2)
  irrefl a := by simp [irrefl]
  trans := by
    rintro ⟨a, a'⟩ ⟨b, b'⟩ ⟨c, c'⟩
    simp only [Bool.or_eq_true, Bool.and_eq_true, decide_eq_true_eq]
    rintro (h1 | ⟨rfl, h1⟩) (h2 | ⟨rfl, h2⟩)
    · exact .inl (trans _ _ _ h1 h2)
    · exact .inl h1
    · exact .inl h2
    · exact .inr ⟨rfl, trans _ _ _ h1 h2⟩
  tri := by
    rintro ⟨a, a'⟩ ⟨b, b'⟩
    simp only [Bool.or_eq_true, Bool.and_eq_true, decide_eq_true_eq, Prod.mk.injEq]
    rcases tri a b with h | rfl | h
    · exact .inl (.inl h)
    · rcases tri a' b' with h | rfl | h
      · exact .inl (.inr ⟨rfl, h⟩)
      · exact .inr (.inl ⟨rfl, rfl⟩)
      · exact .inr (.inr (.inr ⟨rfl, h⟩))
    · exact .inr (.inr (.inl h))

instance : Key String where
  deq := inferInstance
  lt a b := listLt a.toList b.toList
  irrefl a := irrefl (K := List Char) _
  trans a b c := trans (K := List Char) _ _ _
  tri a b := by
    rcases tri a.toList b.toList with h | h | h
    · exact .inl h
    · exact .inr (.inl (String.toList_inj.mp h))
    · exact .inr (.inr h)

end Key

/-- A finite map: strictly sorted association list. -/
structure FMap (K V : Type _) [Key K] where
  entries : List (K × V)
  sorted : entries.Pairwise (fun a b => Key.lt a.1 b.1 = true)

namespace FMap
variable {K V : Type _} [Key K]

instance [DecidableEq V] : DecidableEq (FMap K V) := fun a b =>
  if h : a.entries = b.entries then .isTrue (by cases a; cases b; cases h; rfl)
  else .isFalse (by rintro rfl; exact h rfl)

instance [Repr K] [Repr V] : Repr (FMap K V) := ⟨fun m n => reprPrec m.entries n⟩

def empty : FMap K V := ⟨[], .nil⟩
instance : EmptyCollection (FMap K V) := ⟨empty⟩
instance : Inhabited (FMap K V) := ⟨∅⟩

/-- lookup in an association list -/
def lfind (k : K) : List (K × V) → Option V
  | [] => none
  | e :: l => if e.1 = k then some e.2 else lfind k l

/-- ordered insertion / replacement -/
def lset (k : K) (v : V) : List (K × V) → List (K × V)
  | [] => [(k, v)]
  | e :: l => if Key.lt k e.1 then (k, v) :: e :: l
              else if e.1 = k then (k, v) :: l
              else e :: lset k v l

/-- removal -/
def lerase (k : K) (l : List (K × V)) : List (K × V) := l.filter (fun e => decide (e.1 ≠ k))

theorem lset_all {k : K} {v : V} {l : List (K × V)} {p : K → Prop}
    (h : ∀ e ∈ l, p e.1) (hk : p k) : ∀ e ∈ lset k v l, p e.1 := by
  induction l with
  | nil => simp [lset, hk]
  | cons a l ih =>
    simp only [lset]
    split
    · intro e he; simp only [List.mem_cons] at he
      rcases he with rfl | rfl | he
      · exact hk
      · exact h _ (by simp)
      · exact h _ (by simp [he])
    · split
      · intro e he; simp only [List.mem_cons] at he
        rcases he with rfl | he
        · exact hk
        · exact h _ (by simp [he])
      · intro e he; simp only [List.mem_cons] at he
        rcases he with rfl | he
        · exact h _ (by simp)
        · exact ih (fun e he => h e (by simp [he])) e he

theorem lset_sorted {k : K} {v : V} {l : List (K × V)}
    (h : l.Pairwise (fun a b => Key.lt a.1 b.1 = true)) :
    (lset k v l).Pairwise (fun a b => Key.lt a.1 b.1 = true) := by
  induction l with
  | nil => simp [lset]
  | cons a l ih =>
    rw [List.pairwise_cons] at h
    simp only [lset]
    split
    · rename_i hk
      rw [List.pairwise_cons, List.pairwise_cons]
      refine ⟨?_, h⟩
      intro e he; simp only [List.mem_cons] at he
      rcases he with rfl | he
      · exact hk
      · exact Key.trans _ _ _ hk (h.1 e he)
    · split
      · rename_i hk; subst hk
        rw [List.pairwise_cons]; exact h
      · rename_i h1 h2
        rw [List.pairwise_cons]
        refine ⟨?_, ih h.2⟩
        apply lset_all (p := fun k' => Key.lt a.1 k' = true) h.1
        rcases Key.tri k a.1 with h' | h' | h'
        · exact absurd h' h1
        · exact absurd h'.symm h2
        · exact h'

/-- `m.find(k)` -/
def find? (m : FMap K V) (k : K) : Option V := lfind k m.entries
/-- `m.contains(k)` -/
def contains (m : FMap K V) (k : K) : Bool := (m.find? k).isSome
/-- `m[k] = v` -/
def set (m : FMap K V) (k : K) (v : V) : FMap K V := ⟨lset k v m.entries, lset_sorted m.sorted⟩
/-- `m.erase(k)` -/
def erase (m : FMap K V) (k : K) : FMap K V := ⟨lerase k m.entries, m.sorted.filter _⟩
/-- `m.at(k)` -/
def atKey (m : FMap K V) (k : K) : Res V :=
  match m.find? k with
  | some v => .ok v
  | none => .error .outOfRange
/-- the keys, in increasing order -/
def keys (m : FMap K V) : List K := m.entries.map (·.1)
/-- the values, in key order -/
def vals (m : FMap K V) : List V := m.entries.map (·.2)
/-- `m.size()` -/
def size (m : FMap K V) : Nat := m.entries.length
/-- keep the entries satisfying `p` -/
def filter (m : FMap K V) (p : K → V → Bool) : FMap K V :=
  ⟨m.entries.filter (fun e => p e.1 e.2), m.sorted.filter _⟩
/-- apply `f` to the values -/
def mapVals {W} (f : K → V → W) (m : FMap K V) : FMap K W :=
  ⟨m.entries.map (fun e => (e.1, f e.1 e.2)), by
    rw [List.pairwise_map]; exact m.sorted⟩
/-- insert a list of entries, left to right -/
def ofList (l : List (K × V)) : FMap K V := l.foldl (fun m e => m.set e.1 e.2) ∅

theorem nodupKeys (m : FMap K V) : m.keys.Nodup := by
  have := m.sorted
  rw [keys, List.Nodup, List.pairwise_map]
  exact this.imp (fun h => Key.ne_of_lt h)

theorem keys_sorted (m : FMap K V) : m.keys.Pairwise (fun a b => Key.lt a b = true) := by
  rw [keys, List.pairwise_map]; exact m.sorted

theorem lfind_none {k : K} {l : List (K × V)} : lfind k l = none ↔ ∀ e ∈ l, e.1 ≠ k := by
  induction l with
  | nil => simp [lfind]
  | cons a l ih => simp only [lfind]; split <;> simp_all

theorem mem_of_lfind {k : K} {v : V} {l : List (K × V)} (h : lfind k l = some v) : (k, v) ∈ l := by
  induction l with
  | nil => simp [lfind] at h
  | cons a l ih =>
    simp only [lfind] at h
    split at h
    · cases h; rename_i h; subst h; simp
    · exact List.mem_cons_of_mem _ (ih h)

theorem lfind_of_mem {k : K} {v : V} {l : List (K × V)}
    (hs : l.Pairwise (fun a b => Key.lt a.1 b.1 = true)) (h : (k, v) ∈ l) : lfind k l = some v := by
  induction l with
  | nil => simp at h
  | cons a l ih =>
    rw [List.pairwise_cons] at hs
    simp only [lfind]
    rcases List.mem_cons.mp h with rfl | h
    · simp
    · have : a.1 ≠ k := Key.ne_of_lt (hs.1 _ h)
      simp [this, ih hs.2 h]

theorem mem_entries {m : FMap K V} {k : K} {v : V} : (k, v) ∈ m.entries ↔ m.find? k = some v :=
  ⟨lfind_of_mem m.sorted, mem_of_lfind⟩

theorem mem_keys {m : FMap K V} {k : K} : k ∈ m.keys ↔ ∃ v, m.find? k = some v := by
  simp only [keys, List.mem_map]
  constructor
  · rintro ⟨⟨k, v⟩, h, rfl⟩; exact ⟨v, mem_entries.mp h⟩
  · rintro ⟨v, h⟩; exact ⟨(k, v), mem_entries.mpr h, rfl⟩

theorem contains_iff {m : FMap K V} {k : K} : m.contains k = true ↔ ∃ v, m.find? k = some v := by
  simp [contains, Option.isSome_iff_exists]

theorem contains_iff_mem {m : FMap K V} {k : K} : m.contains k = true ↔ k ∈ m.keys := by
  rw [contains_iff, mem_keys]

theorem contains_false {m : FMap K V} {k : K} : m.contains k = false ↔ m.find? k = none := by
  simp [contains]

theorem find?_none_iff {m : FMap K V} {k : K} : m.find? k = none ↔ k ∉ m.keys := by
  rw [mem_keys]; cases m.find? k <;> simp

theorem lfind_lset_self (k : K) (v : V) (l : List (K × V)) : lfind k (lset k v l) = some v := by
  induction l with
  | nil => simp [lset, lfind]
  | cons a l ih =>
    simp only [lset]
    split
    · simp [lfind]
    · split
      · simp [lfind]
      · rename_i h1 h2; simp [lfind, h2, ih]

theorem lfind_lset_ne {k k' : K} (h : k' ≠ k) (v : V) (l : List (K × V)) :
    lfind k' (lset k v l) = lfind k' l := by
  induction l with
  | nil => simp [lset, lfind, h.symm]
  | cons a l ih =>
    simp only [lset]
    split
    · simp [lfind, h.symm]
    · split
      · rename_i h1 h2; subst h2; simp [lfind, h.symm]
      · simp [lfind, ih]

theorem lfind_lerase_self (k : K) (l : List (K × V)) : lfind k (lerase k l) = none := by
  rw [lfind_none]; intro e he; simp [lerase] at he; exact he.2

theorem lfind_lerase_ne {k k' : K} (h : k' ≠ k) (l : List (K × V)) :
    lfind k' (lerase k l) = lfind k' l := by
  induction l with
  | nil => simp [lerase]
  | cons a l ih =>
    simp only [lerase, List.filter_cons] at ih ⊢
    by_cases ha : a.1 = k
    · simp [ha, lfind, h.symm]; simpa [lerase] using ih
    · simp [ha, lfind]; split
      · rfl
      · simpa [lerase] using ih

@[simp] theorem find?_empty (k : K) : (∅ : FMap K V).find? k = none := rfl
@[simp] theorem find?_set_self (m : FMap K V) (k : K) (v : V) : (m.set k v).find? k = some v :=
  lfind_lset_self _ _ _
theorem find?_set_ne (m : FMap K V) {k k' : K} (h : k' ≠ k) (v : V) :
    (m.set k v).find? k' = m.find? k' := lfind_lset_ne h _ _
@[simp] theorem find?_erase_self (m : FMap K V) (k : K) : (m.erase k).find? k = none :=
  lfind_lerase_self _ _
theorem find?_erase_ne (m : FMap K V) {k k' : K} (h : k' ≠ k) :
    (m.erase k).find? k' = m.find? k' := lfind_lerase_ne h _
theorem find?_set (m : FMap K V) (k k' : K) (v : V) :
    (m.set k v).find? k' = if k' = k then some v else m.find? k' := by
  split
  · rename_i h; subst h; simp
  · rename_i h; exact find?_set_ne _ h _
theorem find?_erase (m : FMap K V) (k k' : K) :
    (m.erase k).find? k' = if k' = k then none else m.find? k' := by
  split
  · rename_i h; subst h; simp
  · rename_i h; exact find?_erase_ne _ h

theorem find?_filter (m : FMap K V) (p : K → V → Bool) (k : K) :
    (m.filter p).find? k = (m.find? k).filter (p k) := by
  cases h : m.find? k with
  | none =>
    rw [find?_none_iff] at h
    simp only [Option.filter_none]
    rw [find?_none_iff]
    intro h'; apply h
    simp only [keys, filter, List.mem_map, List.mem_filter] at h' ⊢
    obtain ⟨e, ⟨he, _⟩, rfl⟩ := h'
    exact ⟨e, he, rfl⟩
  | some v =>
    by_cases hp : p k v = true
    · simp [Option.filter, hp]
      rw [← mem_entries] at h ⊢
      simp [filter, h, hp]
    · simp [Option.filter, hp]
      rw [find?_none_iff]
      intro h'
      simp only [keys, filter, List.mem_map, List.mem_filter] at h'
      obtain ⟨⟨k', v'⟩, ⟨he, hp'⟩, rfl⟩ := h'
      rw [mem_entries, h] at he
      cases he; exact hp hp'

theorem find?_mapVals {W} (f : K → V → W) (m : FMap K V) (k : K) :
    (m.mapVals f).find? k = (m.find? k).map (f k) := by
  cases h : m.find? k with
  | none =>
    rw [find?_none_iff] at h
    simp only [Option.map_none]
    rw [find?_none_iff]
    intro h'; apply h
    simp only [keys, mapVals, List.mem_map] at h' ⊢
    obtain ⟨_, ⟨e, he, rfl⟩, rfl⟩ := h'
    exact ⟨e, he, rfl⟩
  | some v =>
    simp only [Option.map_some]
    rw [← mem_entries] at h ⊢
    simp only [mapVals, List.mem_map]
    exact ⟨(k, v), h, rfl⟩

@[simp] theorem keys_mapVals {W} (f : K → V → W) (m : FMap K V) : (m.mapVals f).keys = m.keys := by
  simp [keys, mapVals]

/-- maps with the same lookups are equal -/
theorem ext {m n : FMap K V} (h : ∀ k, m.find? k = n.find? k) : m = n := by
  obtain ⟨l, hl⟩ := m
  obtain ⟨l', hl'⟩ := n
  have key : l = l' := by
    simp only [find?] at h
    induction l generalizing l' with
    | nil =>
      cases l' with
      | nil => rfl
      | cons b l' => have := h b.1; simp [lfind] at this
    | cons a l ih =>
      cases l' with
      | nil => have := h a.1; simp [lfind] at this
      | cons b l' =>
        rw [List.pairwise_cons] at hl hl'
        have hab : a = b := by
          by_cases hk : a.1 = b.1
          · have := h a.1
            simp [lfind, hk] at this
            exact Prod.ext hk this
          · exfalso
            rcases Key.tri a.1 b.1 with hlt | heq | hlt
            · have := h a.1
              rw [lfind, if_pos rfl, lfind, if_neg (Ne.symm hk)] at this
              have hmem := mem_of_lfind this.symm
              have := Key.asymm (hl'.1 _ hmem)
              simp [hlt] at this
            · exact hk heq
            · have := h b.1
              conv at this => rhs; rw [lfind, if_pos rfl]
              rw [lfind, if_neg hk] at this
              have hmem := mem_of_lfind this
              have := Key.asymm (hl.1 _ hmem)
              simp [hlt] at this
        subst hab
        congr 1
        apply ih hl.2 _ hl'.2
        intro k
        have := h k
        simp only [lfind] at this
        by_cases hk : a.1 = k
        · subst hk
          rw [lfind_none.mpr (fun e he => (Key.ne_of_lt (hl.1 e he)).symm),
            lfind_none.mpr (fun e he => (Key.ne_of_lt (hl'.1 e he)).symm)]
        · simpa [hk] using this
  subst key; rfl

theorem set_set (m : FMap K V) (k : K) (v w : V) : (m.set k v).set k w = m.set k w :=
  ext fun k' => by simp only [find?_set]; split <;> rfl
theorem erase_set (m : FMap K V) (k : K) (v : V) : (m.set k v).erase k = m.erase k :=
  ext fun k' => by simp only [find?_set, find?_erase]; split <;> rfl
theorem set_erase (m : FMap K V) (k : K) (v : V) : (m.erase k).set k v = m.set k v :=
  ext fun k' => by simp only [find?_set, find?_erase]; split <;> rfl
theorem erase_of_not_mem {m : FMap K V} {k : K} (h : m.find? k = none) : m.erase k = m :=
  ext fun k' => by simp only [find?_erase]; split
                   · rename_i hk; rw [hk, h]
                   · rfl
theorem set_of_find {m : FMap K V} {k : K} {v : V} (h : m.find? k = some v) : m.set k v = m :=
  ext fun k' => by simp only [find?_set]; split
                   · rename_i hk; rw [hk, h]
                   · rfl

theorem perm_set (m : FMap K V) (k : K) (v : V) :
    (m.set k v).entries.Perm ((k, v) :: (m.erase k).entries) := by
  have h1 : (m.set k v).entries.Nodup := (List.Nodup.of_map _ (nodupKeys (m.set k v)))
  have h2 : ((k, v) :: (m.erase k).entries).Nodup := by
    rw [List.nodup_cons]
    refine ⟨?_, List.Nodup.of_map _ (nodupKeys (m.erase k))⟩
    rw [mem_entries]; simp
  rw [List.perm_ext_iff_of_nodup h1 h2]
  rintro ⟨k', v'⟩
  rw [List.mem_cons, mem_entries, mem_entries, find?_set, find?_erase]
  by_cases h : k' = k
  · subst h; simp [eq_comm]
  · simp [h]

theorem perm_erase {m : FMap K V} {k : K} {v : V} (h : m.find? k = some v) :
    m.entries.Perm ((k, v) :: (m.erase k).entries) := by
  have := perm_set m k v
  rwa [set_of_find h] at this

theorem size_set (m : FMap K V) (k : K) (v : V) : (m.set k v).size = (m.erase k).size + 1 := by
  simpa [size] using (perm_set m k v).length_eq
theorem size_erase {m : FMap K V} {k : K} {v : V} (h : m.find? k = some v) :
    (m.erase k).size + 1 = m.size := by
  simpa [size] using (perm_erase h).length_eq.symm

theorem eq_empty_of_size {m : FMap K V} (h : m.size = 0) : m = ∅ := by
  obtain ⟨l, hl⟩ := m
  simp [size] at h; subst h; rfl

theorem keys_set_mem {m : FMap K V} {k k' : K} {v : V} :
    k' ∈ (m.set k v).keys ↔ k' = k ∨ k' ∈ m.keys := by
  rw [mem_keys, mem_keys]; simp only [find?_set]
  split
  · simp_all
  · simp_all

theorem keys_erase_mem {m : FMap K V} {k k' : K} :
    k' ∈ (m.erase k).keys ↔ k' ≠ k ∧ k' ∈ m.keys := by
  rw [mem_keys, mem_keys]; simp only [find?_erase]
  split
  · simp_all
  · simp_all

theorem atKey_ok {m : FMap K V} {k : K} {v : V} : m.atKey k = .ok v ↔ m.find? k = some v := by
  unfold atKey; cases m.find? k <;> simp

theorem atKey_of_find {m : FMap K V} {k : K} {v : V} (h : m.find? k = some v) : m.atKey k = .ok v :=
  atKey_ok.mpr h

/-- the largest key (`rbegin()->first`) -/
def maxKey? (m : FMap K V) : Option K := m.keys.getLast?

theorem maxKey?_none {m : FMap K V} : m.maxKey? = none ↔ m = ∅ := by
  constructor
  · intro h
    simp [maxKey?, keys] at h
    exact eq_empty_of_size (by simp [size, h])
  · rintro rfl; rfl

theorem maxKey?_spec {m : FMap K V} {k : K} (h : m.maxKey? = some k) :
    k ∈ m.keys ∧ ∀ k' ∈ m.keys, k' = k ∨ Key.lt k' k = true := by
  have hmem := List.mem_of_getLast? h
  refine ⟨hmem, fun k' hk' => ?_⟩
  have hs := m.keys_sorted
  obtain ⟨l, hl⟩ := List.getLast?_eq_some_iff.mp h
  rw [hl] at hs hk'
  rw [List.pairwise_append] at hs
  rcases List.mem_append.mp hk' with h' | h'
  · exact .inr (hs.2.2 _ h' _ (by simp))
  · exact .inl (by simpa using h')

end FMap

/-- A finite set (`std::set`, `std::unordered_set`). -/
abbrev FSet (K : Type _) [Key K] := FMap K Unit

namespace FSet
variable {K : Type _} [Key K]
/-- `s.insert(k)` -/
def insert (s : FSet K) (k : K) : FSet K := FMap.set s k ()
/-- `s.contains(k)` as a proposition -/
def Mem (k : K) (s : FSet K) : Prop := k ∈ FMap.keys s
/-- the elements -/
abbrev toList (s : FSet K) : List K := FMap.keys s

theorem mem_insert {s : FSet K} {k k' : K} :
    k' ∈ FMap.keys (insert s k) ↔ k' = k ∨ k' ∈ FMap.keys s := FMap.keys_set_mem

theorem ext {s t : FSet K} (h : ∀ k, k ∈ FMap.keys s ↔ k ∈ FMap.keys t) : s = t := by
  apply FMap.ext
  intro k
  have := h k
  rw [FMap.mem_keys, FMap.mem_keys] at this
  cases hs : s.find? k <;> cases ht : t.find? k <;> simp_all
end FSet

end Verif
