import Verif.Lemmas.DistCat
import Mathlib.Data.Multiset.ZeroCons
/-! The adapter and sampling from a Bigram. -/
namespace Verif
noncomputable section

/-- what the adapter accepts: strings that parse as a supported value -/
def AdaptSupp {V : Type} (supp : V → Prop) (parse : String → Res V) (x : String) : Prop := ∃ v, parse x = .ok v ∧ supp v

theorem rel_unique {V : Type} {parse : String → Res V} {supp : V → Prop} (m : Multiset String) : ∀ {a b : Multiset V},
    Multiset.Rel (fun x v => parse x = .ok v ∧ supp v) m a → Multiset.Rel (fun x v => parse x = .ok v ∧ supp v) m b →
    a = b := by
  induction m using Multiset.induction with
  | empty => intro a b ha hb; rw [Multiset.rel_zero_left] at ha hb; rw [ha, hb]
  | cons x m ih =>
    intro a b ha hb
    rw [Multiset.rel_cons_left] at ha hb
    obtain ⟨v, a', hv, ha', rfl⟩ := ha
    obtain ⟨w, b', hw, hb', rfl⟩ := hb
    have : v = w := by have := hv.1.symm.trans hw.1; injection this
    rw [this, ih ha' hb']

/-- The adapter of a lawful distribution is lawful. -/
def Lawful.adapt {V : Type} {D : DistOps V} {supp : V → Prop} (L : Lawful D supp) (parse : String → Res V) :
    Lawful (D.adapt parse) (AdaptSupp supp parse) where
  H := L.H
  Rep := fun h m s => s.1 = (Multiset.card m : ℝ) ∧
    ∃ m', Multiset.Rel (fun x v => parse x = .ok v ∧ supp v) m m' ∧ L.Rep h m' s.2
  fresh := by
    intro t
    obtain ⟨h, hr⟩ := L.fresh t
    exact ⟨h, by simp [DistOps.adapt], 0, by simp, hr⟩
  supported := by
    rintro h m s x ⟨_, m', hm, _⟩ hx
    obtain ⟨v, _, hv⟩ := Multiset.exists_mem_of_rel_of_mem hm hx
    exact ⟨v, hv⟩
  inc := by
    rintro h m s x ⟨hn, m', hm, hr⟩ ⟨v, hv, hs⟩
    obtain ⟨d, h1, h2⟩ := L.inc hr hs
    refine ⟨(s.1 + 1, d), ?_, ?_, v ::ₘ m', Multiset.Rel.cons ⟨hv, hs⟩ hm, h2⟩
    · simp [DistOps.adapt, hv, h1, Except.bind]
    · simp [hn]
  dec := by
    rintro h m s x ⟨hn, m', hm, hr⟩
    rw [Multiset.rel_cons_left] at hm
    obtain ⟨v, m'', hv, hm', rfl⟩ := hm
    obtain ⟨d, h1, h2⟩ := L.dec hr
    refine ⟨(s.1 + -1, d), ?_, ?_, m'', hm', h2⟩
    · simp [DistOps.adapt, hv.1, h1, Except.bind]
    · simp [hn]
  count := fun h => h.1
  logp := by
    rintro h m s x ⟨hn, m', hm, hr⟩ ⟨v, hv, hs⟩
    obtain ⟨r, d, h1, h2⟩ := L.logp hr hs
    refine ⟨r, (s.1, d), ?_, hn, m', hm, h2⟩
    simp [DistOps.adapt, hv, h1, Except.bind]
  trans := by
    rintro h m s ⟨hn, m', hm, hr⟩ t
    obtain ⟨h', hr'⟩ := L.trans hr t
    exact ⟨h', hn, m', hm, hr'⟩
  theta := by
    rintro h m s ⟨hn, m', hm, hr⟩ t
    obtain ⟨h', hr'⟩ := L.theta hr t
    exact ⟨h', hn, m', hm, hr'⟩

theorem Lawful.Scored.adapt {V : Type} {D : DistOps V} {supp : V → Prop} {L : Lawful D supp} (S : L.Scored)
    (parse : String → Res V) : (L.adapt parse).Scored := by
  rintro h m s s' ⟨_, m1, hm1, h1⟩ ⟨_, m2, hm2, h2⟩
  obtain rfl := rel_unique m hm1 hm2
  exact S _ _ _ _ h1 h2

theorem Lawful.Exact.adapt {V : Type} {D : DistOps V} {supp : V → Prop} {L : Lawful D supp} (E : L.Exact)
    (parse : String → Res V) : (L.adapt parse).Exact := by
  rintro h m ⟨a, s⟩ ⟨b, s'⟩ ⟨h1, m1, hm1, hr1⟩ ⟨h2, m2, hm2, hr2⟩
  obtain rfl := rel_unique m hm1 hm2
  simp only at h1 h2 hr1 hr2
  rw [h1, h2, E _ _ _ _ hr1 hr2]

theorem Coherent.adapt {V : Type} {D : DistOps V} {supp : V → Prop} {L : Lawful D supp} (C : Coherent L)
    (parse : String → Res V) : Coherent (L.adapt parse) := by
  rintro h m s x s1 ⟨hn, m', hm, hr⟩ ⟨v, hv, hs⟩ h1
  obtain ⟨d, h2, h3⟩ := L.inc hr hs
  obtain ⟨s2, h4⟩ := C _ _ _ _ _ hr hs h2
  have : s1 = (s.1 + 1, d) := by
    simp [DistOps.adapt, hv, h2, Except.bind] at h1; injection h1 with h1; exact h1.symm
  subst this
  refine ⟨(s.1, s2), ?_⟩
  simp [DistOps.adapt, hv, h4, Except.bind]

theorem BetaBernoulli.exact : BetaBernoulli.lawful.Exact := by rintro h m s s' rfl rfl; rfl
theorem Normal.exact : Normal.lawful.Exact := by rintro h m s s' rfl rfl; rfl
theorem ZeroMeanNormal.exact : ZeroMeanNormal.lawful.Exact := by rintro h m s s' rfl rfl; rfl
theorem DirichletCategorical.exact (k) : (DirichletCategorical.lawful k).Exact := by
  rintro h m s s' ⟨rfl, _⟩ ⟨rfl, _⟩; rfl
theorem StringCat.exact (k) : (StringCat.lawful k).Exact := by rintro h m s s' ⟨rfl, _⟩ ⟨rfl, _⟩; rfl
theorem Bigram.exact (k lo hi) : (Bigram.lawful k lo hi).Exact := by rintro h m s s' ⟨rfl, _⟩ ⟨rfl, _⟩; rfl

namespace Bigram

theorem pairs_snoc (l : List Nat) (a b : Nat) : pairs (l ++ [a, b]) = pairs (l ++ [a]) ++ [(a, b)] := by
  induction l with
  | nil => simp [pairs]
  | cons x l ih =>
    cases l with
    | nil => simp [pairs]
    | cons y l => simp only [List.cons_append, pairs] at ih ⊢; rw [ih]

theorem addPairs_append (f w l l') : addPairs (addPairs f w l) w l' = addPairs f w (l ++ l') := by
  funext i j
  simp only [addPairs, ← Multiset.coe_add, Multiset.count_add]; push_cast; ring

theorem addRow_append (g w l l') : addRow (addRow g w l) w l' = addRow g w (l ++ l') := by
  funext i
  simp only [addRow, List.map_append, List.count_append]; push_cast; ring

theorem bump_eq (f i j w) : bump f i j w = addPairs f w [(i, j)] := by
  have := addPairs_bump f i j w []
  rwa [addPairs_nil] at this

theorem bump1_eq (g i j w) : bump1 g i w = addRow g w [(i, j)] := by
  have := addRow_bump g i j w []
  rwa [addRow_nil] at this

theorem sampleNext_rows {a k f g cur x} (h : cur < k) : sampleNext (rows a k f g) cur x =
    .ok (x % k, rows a k (addPairs f 1 [(cur, x % k)]) (addRow g 1 [(cur, x % k)])) := by
  have hk : x % k < k := Nat.mod_lt _ (by omega)
  simp only [sampleNext, idx_rows h]
  show (incAt _ _ _ _).bind _ = _
  rw [DirichletCategorical.length_of, incAt_rows h hk, ← bump_eq, ← bump1_eq]
  simp only [Except.bind]

/-- a character code of the range is the code of the character made from it -/
theorem toNat_ofNat {c : Nat} (h : c < 128) : (Char.ofNat c).toNat = c := by
  have hv : c.isValidChar := Or.inl (by omega)
  simp [Char.ofNat, hv, Char.toNat, Char.ofNatAux]

theorem indexToChar_eq {b : Bigram} {i : Nat} (h : i + b.minChar ≤ b.maxChar) :
    b.indexToChar i = .ok (Char.ofNat (i + b.minChar)) := by
  simp [indexToChar, h]; rfl

/-- The loop of `sample`, from rows `f g` after the transitions of `acc` and the one to `cur`. -/
theorem sampleLoop_spec {b : Bigram} {a : ℝ} {f : Nat → Nat → ℝ} {g : Nat → ℝ} (hlo : b.minChar ≤ b.maxChar)
    (hhi : b.maxChar < 128) : ∀ (t : Tape) (acc : List Char) (cur : Nat) {r},
    (∀ c ∈ acc, b.minChar ≤ c.toNat ∧ c.toNat ≤ b.maxChar) → cur < b.numChars + 1 →
    (0 < b.maxLength → acc.length < b.maxLength) →
    sampleLoop b (rows a (b.numChars + 1) (addPairs f 1 (pairs (b.numChars :: idxs b.minChar acc ++ [cur])))
      (addRow g 1 (pairs (b.numChars :: idxs b.minChar acc ++ [cur])))) cur acc t = some r →
    ∃ str, (∀ c ∈ str, b.minChar ≤ c.toNat ∧ c.toNat ≤ b.maxChar) ∧
      ((r = .ok (str, rows a (b.numChars + 1)
          (addPairs f 1 (pairs (b.numChars :: idxs b.minChar str ++ [b.numChars])))
          (addRow g 1 (pairs (b.numChars :: idxs b.minChar str ++ [b.numChars])))) ∧
          (0 < b.maxLength → str.length < b.maxLength)) ∨
       (r = .ok (str, rows a (b.numChars + 1) (addPairs f 1 (pairs (b.numChars :: idxs b.minChar str)))
          (addRow g 1 (pairs (b.numChars :: idxs b.minChar str)))) ∧ 0 < b.maxLength ∧ str.length = b.maxLength)) := by
  have hnum : b.numChars = b.maxChar - b.minChar + 1 := rfl
  have head : ∀ (acc : List Char) (cur : Nat), cur < b.numChars + 1 → cur ≠ b.numChars →
      b.sampleHead cur acc = .ok (acc ++ [Char.ofNat (cur + b.minChar)],
        decide ((acc ++ [Char.ofNat (cur + b.minChar)]).length = b.maxLength)) := by
    intro acc cur h1 h2
    simp only [sampleHead, if_neg h2, indexToChar_eq (b := b) (i := cur) (by omega)]
    rfl
  have hcode : ∀ cur, cur < b.numChars + 1 → cur ≠ b.numChars → (Char.ofNat (cur + b.minChar)).toNat = cur + b.minChar :=
    fun cur h1 h2 => toNat_ofNat (by omega)
  have hrange : ∀ (acc : List Char) cur, (∀ c ∈ acc, b.minChar ≤ c.toNat ∧ c.toNat ≤ b.maxChar) →
      cur < b.numChars + 1 → cur ≠ b.numChars →
      ∀ c ∈ acc ++ [Char.ofNat (cur + b.minChar)], b.minChar ≤ c.toNat ∧ c.toNat ≤ b.maxChar := by
    intro acc cur ha h1 h2 c hc
    rcases List.mem_append.1 hc with hc | hc
    · exact ha c hc
    · simp only [List.mem_singleton] at hc
      subst hc
      rw [hcode cur h1 h2]; omega
  have hidx : ∀ (acc : List Char) cur, cur < b.numChars + 1 → cur ≠ b.numChars →
      idxs b.minChar (acc ++ [Char.ofNat (cur + b.minChar)]) = idxs b.minChar acc ++ [cur] := by
    intro acc cur h1 h2
    simp [idxs, hcode cur h1 h2]
  intro t
  induction t with
  | nil =>
    intro acc cur r hacc hcur hlen hr
    simp only [sampleLoop] at hr
    by_cases hs : cur = b.numChars
    · have : b.sampleHead cur acc = .ok (acc, true) := by simp [sampleHead, hs]
      rw [this] at hr
      simp only [Option.some.injEq] at hr
      exact ⟨acc, hacc, Or.inl ⟨by rw [← hr, hs], hlen⟩⟩
    · rw [head acc cur hcur hs] at hr
      by_cases hl : (acc ++ [Char.ofNat (cur + b.minChar)]).length = b.maxLength
      · simp only [hl, decide_true, Option.some.injEq] at hr
        refine ⟨_, hrange acc cur hacc hcur hs, Or.inr ⟨?_, ?_, hl⟩⟩
        · rw [← hr, hidx acc cur hcur hs]; rfl
        · rw [← hl]; simp
      · simp only [hl, decide_false] at hr; cases hr
  | cons x t ih =>
    intro acc cur r hacc hcur hlen hr
    simp only [sampleLoop] at hr
    by_cases hs : cur = b.numChars
    · have : b.sampleHead cur acc = .ok (acc, true) := by simp [sampleHead, hs]
      rw [this] at hr
      simp only [Option.some.injEq] at hr
      exact ⟨acc, hacc, Or.inl ⟨by rw [← hr, hs], hlen⟩⟩
    · rw [head acc cur hcur hs] at hr
      by_cases hl : (acc ++ [Char.ofNat (cur + b.minChar)]).length = b.maxLength
      · simp only [hl, decide_true, Option.some.injEq] at hr
        refine ⟨_, hrange acc cur hacc hcur hs, Or.inr ⟨?_, ?_, hl⟩⟩
        · rw [← hr, hidx acc cur hcur hs]; rfl
        · rw [← hl]; simp
      · simp only [hl, decide_false, sampleNext_rows hcur] at hr
        refine ih (acc ++ [Char.ofNat (cur + b.minChar)]) (x % (b.numChars + 1)) (hrange acc cur hacc hcur hs)
          (Nat.mod_lt _ (by omega)) ?_ ?_
        · intro h0
          have := hlen h0
          simp only [List.length_append, List.length_singleton] at hl ⊢
          omega
        · rw [addPairs_append, addRow_append] at hr
          rw [hidx acc cur hcur hs]
          have e : pairs (b.numChars :: (idxs b.minChar acc ++ [cur]) ++ [x % (b.numChars + 1)]) =
              pairs (b.numChars :: idxs b.minChar acc ++ [cur]) ++ [(cur, x % (b.numChars + 1))] := by
            have := pairs_snoc (b.numChars :: idxs b.minChar acc) cur (x % (b.numChars + 1))
            simpa using this
          rw [e]
          exact hr

/-- `sample` on rows `f g`: the string is accepted, and either it ended with the stop symbol and the state is as before, or it was
cut at `maxLength` and the transition from its last character to the stop symbol has lost one count. -/
theorem sample_spec {b : Bigram} {a : ℝ} {f : Nat → Nat → ℝ} {g : Nat → ℝ} (hlo : b.minChar ≤ b.maxChar)
    (hhi : b.maxChar < 128) (hb : b.dists = rows a (b.numChars + 1) f g) {t : Tape} {r}
    (hr : b.sample t = some r) :
    ∃ str b', r = .ok (str, b') ∧ Accepts b.maxLength b.minChar b.maxChar str ∧
      ((b' = b ∧ (0 < b.maxLength → str.length < b.maxLength)) ∨
        (∃ c ∈ str.getLast?, str.length = b.maxLength ∧ b' = { b with
          dists := rows a (b.numChars + 1) (bump f (c.toNat - b.minChar) b.numChars (-1))
            (bump1 g (c.toNat - b.minChar) (-1)) })) := by
  cases t with
  | nil => simp [sample] at hr
  | cons x t =>
    simp only [sample] at hr
    rw [hb, sampleNext_rows (by omega)] at hr
    simp only [Option.map_eq_some_iff] at hr
    obtain ⟨r', hr', rfl⟩ := hr
    have h0 : (0 : Nat) < b.maxLength → ([] : List Char).length < b.maxLength := fun h => h
    have hm : x % (b.numChars + 1) < b.numChars + 1 := Nat.mod_lt _ (by omega)
    obtain ⟨str, hstr, hcase⟩ := sampleLoop_spec (a := a) (f := f) (g := g) hlo hhi t [] (x % (b.numChars + 1))
      (by simp) hm h0 hr'
    have cancel : ∀ l : List (Nat × Nat), addPairs (addPairs f 1 l) (-1) l = f := by
      intro l; funext i j; simp [addPairs]
    have cancel1 : ∀ l : List (Nat × Nat), addRow (addRow g 1 l) (-1) l = g := by
      intro l; funext i; simp [addRow]
    rcases hcase with ⟨rfl, hl⟩ | ⟨rfl, hpos, hl⟩
    · have hacc : Accepts b.maxLength b.minChar b.maxChar str := ⟨fun h => (hl h).le, hstr⟩
      refine ⟨str, b, ?_, hacc, Or.inl ⟨rfl, hl⟩⟩
      show (unincorporate _ str).bind _ = _
      rw [unincorporate, incorporate_eq (b := { b with
        dists := rows a (b.numChars + 1) (addPairs f 1 (pairs (b.numChars :: idxs b.minChar str ++ [b.numChars])))
            (addRow g 1 (pairs (b.numChars :: idxs b.minChar str ++ [b.numChars]))), N := b.N + 1 }) (a := a) hacc rfl]
      simp only [trans]
      have e : b.maxChar - b.minChar + 1 = b.numChars := rfl
      simp only [e, cancel, cancel1, Except.bind, ← hb]
      simp
    · have hacc : Accepts b.maxLength b.minChar b.maxChar str := ⟨fun h => hl.le, hstr⟩
      have hne : str ≠ [] := by rintro rfl; simp at hl; omega
      have hlast : str.getLast? = some (str.getLast hne) := List.getLast?_eq_some_getLast hne
      refine ⟨str, _, ?_, hacc, Or.inr ⟨str.getLast hne, hlast, hl, rfl⟩⟩
      show (unincorporate _ str).bind _ = _
      rw [unincorporate, incorporate_eq (b := { b with
        dists := rows a (b.numChars + 1) (addPairs f 1 (pairs (b.numChars :: idxs b.minChar str)))
            (addRow g 1 (pairs (b.numChars :: idxs b.minChar str))), N := b.N + 1 }) (a := a) hacc rfl]
      have e : b.maxChar - b.minChar + 1 = b.numChars := rfl
      simp only [trans, e, Except.bind]
      have hsplit : b.numChars :: idxs b.minChar str =
          (b.numChars :: idxs b.minChar str.dropLast) ++ [(str.getLast hne).toNat - b.minChar] := by
        conv_lhs => rw [← List.dropLast_append_getLast hne]
        simp [idxs]
      have hp : pairs (b.numChars :: idxs b.minChar str ++ [b.numChars]) =
          pairs (b.numChars :: idxs b.minChar str) ++ [((str.getLast hne).toNat - b.minChar, b.numChars)] := by
        rw [hsplit, List.append_assoc]
        exact pairs_snoc _ _ _
      have e1 : addPairs (addPairs f 1 (pairs (b.numChars :: idxs b.minChar str))) (-1)
          (pairs (b.numChars :: idxs b.minChar str ++ [b.numChars])) =
          bump f ((str.getLast hne).toNat - b.minChar) b.numChars (-1) := by
        rw [hp, ← addPairs_append, cancel, ← bump_eq]
      have e2 : addRow (addRow g 1 (pairs (b.numChars :: idxs b.minChar str))) (-1)
          (pairs (b.numChars :: idxs b.minChar str ++ [b.numChars])) =
          bump1 g ((str.getLast hne).toNat - b.minChar) (-1) := by
        rw [hp, ← addRow_append, cancel1, ← bump1_eq]
      rw [e1, e2]
      simp

end Bigram

end
end Verif
