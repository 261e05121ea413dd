import Verif.Lemmas.AlignmentBest
import Verif.Props.Predictive
/-!
Properties of string alignment: C40, C41, and C16 for the string distributions and for relations.
-/
namespace Verif
noncomputable section

/-! ### C40 -/

/-- Every alignment returned by `topk_alignments` spells exactly the two strings, has advanced to the end of both, and its cost is the
cost of its steps; no alignment is returned twice and at most `k` are returned. -/
theorem C40_spells {k : Int} {s t : List Char} {cost : CostFunction} {R : List StrAlignment}
    (h : topkAlignments k s t cost = .ok R) :
    (∀ a ∈ R, IsAlignment s t a.pieces ∧ a.p1 = s.length ∧ a.p2 = t.length ∧ StepCost cost a.pieces a.cost) ∧
      (R.map StrAlignment.pieces).Nodup ∧ R.length ≤ k.toNat := by
  by_cases h0 : 0 ≤ k
  · obtain ⟨heap, P, X, visited, I, hle, -⟩ := Alignment.topk_inv h0 h
    exact ⟨fun a ha => I.spells ha, I.found_nodup, by omega⟩
  · rw [Alignment.topk_nonpos (by omega)] at h
    injection h with h
    subst h
    simp

/-- At least one alignment is returned for positive `k`, whatever the step costs. -/
theorem C40_at_least_one {k : Int} {s t : List Char} {cost : CostFunction} {R : List StrAlignment} (hk : 0 < k)
    (h : topkAlignments k s t cost = .ok R) : R ≠ [] := by
  obtain ⟨heap, P, X, visited, I, -, hend⟩ := Alignment.topk_inv hk.le h
  exact I.nonempty hk hend

/-- With non-negative step costs the alignments come in order of cost. -/
theorem C40_sorted {k : Int} {s t : List Char} {cost : CostFunction} {R : List StrAlignment} (hn : cost.NonNeg)
    (h : topkAlignments k s t cost = .ok R) : R.Pairwise fun a b => a.cost ≤ b.cost := by
  by_cases h0 : 0 ≤ k
  · obtain ⟨heap, P, X, visited, I, -, -⟩ := Alignment.topk_inv h0 h
    exact I.found_sorted hn
  · rw [Alignment.topk_nonpos (by omega)] at h
    injection h with h
    subst h
    simp

/-- With non-negative step costs that depend on the position and the piece only, the `k` best alignments are returned: an alignment that
is not returned costs at least as much as each of the `k` returned ones, and nothing is left out if fewer than `k` are returned. -/
theorem C40_best_k {k : Int} {s t : List Char} {cost : CostFunction} {R : List StrAlignment} (hk : 0 ≤ k) (hn : cost.NonNeg)
    (hl : cost.Local) (h : topkAlignments k s t cost = .ok R) (ps : List AlignPiece) (c : ℝ) (hps : IsAlignment s t ps)
    (hc : StepCost cost ps c) : (∃ a ∈ R, a.pieces = ps) ∨ ((R.length : Int) = k ∧ ∀ a ∈ R, a.cost ≤ c) := by
  obtain ⟨heap, P, X, visited, I, hle, hend⟩ := Alignment.topk_inv hk h
  obtain ⟨r, hr, er⟩ := I.root
  have := I.best hle hend hn hl ps.length ps r c rfl hr (by rw [er]; exact hps) (by rw [er]; exact hc)
  rw [er] at this
  exact this

/-- The search always returns if the cost function is defined on the non-empty prefixes of alignments of the two strings. -/
theorem C40_returns {k : Int} {s t : List Char} {cost : CostFunction}
    (hc : ∀ a old, a.pieces ≠ [] → cleanSide a.pieces <+: s → dirtySide a.pieces <+: t → ∃ c, cost a old = .ok c) :
    ∃ R, topkAlignments k s t cost = .ok R :=
  Alignment.topk_total hc

/-- The hypotheses are met by `edit_distance` on any strings, here those of string_alignment_test.cc. -/
example : ∃ R, topkAlignments 5 "world".toList "w0rld!".toList editDistance = .ok R ∧ editDistance.NonNeg ∧ editDistance.Local ∧
    R ≠ [] ∧ R.Pairwise (fun a b => a.cost ≤ b.cost) := by
  obtain ⟨R, hR⟩ := C40_returns (k := 5) (s := "world".toList) (t := "w0rld!".toList)
    (fun a old h _ _ => Alignment.editDistance_total (a := a) (old := old) h)
  exact ⟨R, hR, Alignment.editDistance_nonneg, ⟨_, Alignment.editDistance_local⟩, C40_at_least_one (by omega) hR,
    C40_sorted Alignment.editDistance_nonneg hR⟩

/-- A non-trivial alignment of "ab" and "b" and its cost. -/
example : IsAlignment ['a', 'b'] ['b'] [.del 'a', .mat 'b'] ∧ StepCost editDistance [.del 'a', .mat 'b'] 1 := by
  refine ⟨⟨rfl, rfl, by intro a b h; simp at h⟩, ?_⟩
  have := Alignment.editDistance_cost [.del 'a', .mat 'b']
  simpa [Alignment.editCount] using this

/-! ### C41 -/

/-- The best alignment under `edit_distance` costs the least number of single-character insertions, deletions and substitutions that
turn one string into the other. -/
theorem C41_edit_distance (s t : List Char) : ∃ a : StrAlignment, ∃ n : Nat, topkAlignments 1 s t editDistance = .ok [a] ∧
    a.cost = n ∧ IsEditDistance s t n := by
  obtain ⟨a, n, h1, -, h2, h3⟩ := Alignment.edit_best s t
  exact ⟨a, n, h1, h2, h3⟩

/-- The same for each of the `k` alignments: its cost is the number of its pieces that are not matches, and that many edits do turn the
one string into the other. -/
theorem C41_each {k : Int} {s t : List Char} {R : List StrAlignment} (h : topkAlignments k s t editDistance = .ok R) :
    ∀ a ∈ R, ∃ n : Nat, a.cost = n ∧ Edits n s t ∧
      n = (a.pieces.filter fun p => match p with | .mat _ => false | _ => true).length := by
  intro a ha
  obtain ⟨hal, -, -, hc⟩ := (C40_spells h).1 a ha
  refine ⟨_, Alignment.stepCost_det hc (Alignment.editDistance_cost a.pieces), ?_, rfl⟩
  have := Alignment.edits_of_pieces a.pieces
  rw [hal.clean, hal.dirty] at this
  exact this

/-- "abc" can be turned into "bd" in two edits. -/
example : Edits 2 ['a', 'b', 'c'] ['b', 'd'] :=
  .step (.step (.refl _) (.delete [] ['b', 'c'] 'a')) (.substitute ['b'] [] 'c' 'd')

/-! ### C16 -/

theorem StringCat.nearestLoop_spec (x : String) (ss : List String) :
    ∀ (near : String) (lowest : Option ℝ) (pre : List String),
      (lowest = none ↔ pre = []) →
      (∀ l, lowest = some l → near ∈ pre ∧ (∃ n : Nat, l = n ∧ IsEditDistance near.toList x.toList n) ∧
        ∀ z ∈ pre, ∀ m, IsEditDistance z.toList x.toList m → l ≤ (m : ℝ)) →
      pre ++ ss ≠ [] →
      ∃ y, StringCat.nearestLoop x near lowest ss = .ok y ∧ y ∈ pre ++ ss ∧ ∃ n : Nat, IsEditDistance y.toList x.toList n ∧
        ∀ z ∈ pre ++ ss, ∀ m, IsEditDistance z.toList x.toList m → n ≤ m := by
  have huniq : ∀ {s t : List Char} {n m : Nat}, IsEditDistance s t n → IsEditDistance s t m → n = m :=
    fun h h' => le_antisymm (h.2 _ h'.1) (h'.2 _ h.1)
  induction ss with
  | nil =>
    intro near lowest pre h1 h2 h3
    cases lowest with
    | none => exact absurd (by simpa using h1) (by simpa using h3)
    | some l =>
      obtain ⟨k1, ⟨n, rfl, k2⟩, k3⟩ := h2 l rfl
      refine ⟨near, rfl, by simpa using k1, n, k2, ?_⟩
      intro z hz m hm
      exact_mod_cast k3 z (by simpa using hz) m hm
  | cons s ss ih =>
    intro near lowest pre h1 h2 _
    obtain ⟨a, n, hR, hal, hcost, hdist⟩ := Alignment.edit_best s.toList x.toList
    unfold StringCat.nearestLoop
    simp only [bind, Except.bind, hR, idxR, List.getElem?_cons_zero]
    have hass : pre ++ s :: ss = pre ++ [s] ++ ss := by simp
    by_cases hlt : StringCat.closer a.cost lowest
    · rw [if_pos hlt, hass]
      refine ih s (some a.cost) (pre ++ [s]) (by simp) ?_ (by simp)
      intro l hl
      injection hl with hl
      subst hl
      refine ⟨by simp, ⟨n, hcost, hdist⟩, ?_⟩
      intro z hz m hm
      rcases List.mem_append.mp hz with hz | hz
      · cases lowest with
        | none => rw [h1.mp rfl] at hz; simp at hz
        | some l => exact (le_of_lt hlt).trans ((h2 l rfl).2.2 z hz m hm)
      · simp at hz
        subst hz
        rw [hcost, huniq hm hdist]
    · rw [if_neg hlt]
      cases lowest with
      | none => exact absurd trivial hlt
      | some l =>
        simp only [StringCat.closer, not_lt] at hlt
        rw [hass]
        refine ih near (some l) (pre ++ [s]) (by simp) ?_ (by simp)
        intro l' hl'
        injection hl' with hl'
        subst hl'
        obtain ⟨k1, k2, k3⟩ := h2 l rfl
        refine ⟨by simp [k1], k2, ?_⟩
        intro z hz m hm
        rcases List.mem_append.mp hz with hz | hz
        · exact k3 z hz m hm
        · simp at hz
          subst hz
          rw [huniq hm hdist, ← hcost]
          exact hlt

/-- StringCat: `nearest` returns one of the strings, `x` itself if it is one of them, and no other string is fewer edits away. -/
theorem C16_stringcat (d : StringCat) (hne : d.strings ≠ []) (x : String) : ∃ y, d.nearest x = .ok y ∧ y ∈ d.strings ∧
    (x ∈ d.strings → y = x) ∧
    ∃ n, IsEditDistance y.toList x.toList n ∧ ∀ z ∈ d.strings, ∀ m, Edits m z.toList x.toList → n ≤ m := by
  unfold StringCat.nearest
  by_cases hx : x ∈ d.strings
  · rw [if_pos hx]
    exact ⟨x, rfl, hx, fun _ => rfl, 0, ⟨.refl _, fun m _ => Nat.zero_le m⟩, fun _ _ m _ => Nat.zero_le m⟩
  · rw [if_neg hx]
    obtain ⟨s0, rest, hs⟩ := List.exists_cons_of_ne_nil hne
    have h0 : idxR d.strings 0 = .ok s0 := by simp [idxR, hs]
    obtain ⟨y, h1, h2, n, h3, h4⟩ := StringCat.nearestLoop_spec x d.strings s0 none [] (by simp) (by simp) (by simpa using hne)
    refine ⟨y, by simp only [bind, Except.bind, h0, h1], by simpa using h2, fun h => absurd h hx, n, h3, ?_⟩
    intro z hz m hm
    obtain ⟨a, m', -, -, hd⟩ := C41_edit_distance z.toList x.toList
    exact (h4 z (by simpa using hz) m' hd).trans (hd.2 m hm)

/-- The value StringCat::nearest returns is accepted by `incorporate`. -/
theorem C16_stringcat_accepted (strings : List String) (hne : strings ≠ []) (x : String) :
    ∃ y d', (StringCat.mk' strings).nearest x = .ok y ∧ (StringCat.mk' strings).incorporate y = .ok d' := by
  obtain ⟨y, h1, h2, -⟩ := C16_stringcat (StringCat.mk' strings) hne x
  have hm : y ∈ strings := h2
  obtain ⟨d', hd⟩ : ∃ d', (StringCat.mk' strings).dc.incorporate (strings.idxOf y : Int) 1 = .ok d' := by
    have hlt := List.idxOf_lt_length_iff.mpr hm
    unfold DirichletCategorical.incorporate
    have hr : (StringCat.mk' strings).dc.inRange (strings.idxOf y : Int) = true := by
      simp [DirichletCategorical.inRange, StringCat.mk', DirichletCategorical.mk', hlt]
    simp only [bind, Except.bind, hr, assertR_true]
    exact ⟨_, rfl⟩
  refine ⟨y, { StringCat.mk' strings with dc := d', N := (StringCat.mk' strings).N + 1 }, h1, ?_⟩
  unfold StringCat.incorporate StringCat.stringToIndex
  have hm' : y ∈ (StringCat.mk' strings).strings := hm
  rw [if_pos hm']
  simp only [bind, Except.bind]
  rw [show (StringCat.mk' strings).strings = strings from rfl, hd]

/-- With no strings `nearest` is undefined behaviour. -/
theorem C16_stringcat_empty (d : StringCat) (h : d.strings = []) (x : String) : d.nearest x = .error .ub := by
  unfold StringCat.nearest
  rw [h, if_neg (by simp)]
  rfl

/-- The hypotheses are met. -/
example : (StringCat.mk' ["hello", "world"]).strings ≠ [] := by simp [StringCat.mk']

/-- A Bigram distribution keeps the default `nearest`, which returns its argument even if `incorporate` refuses it. -/
theorem C16_bigram_default : (Bigram.mk' 3).incorporate (Distribution.defaultNearest ['a', 'b', 'c', 'd']) = .error .exit := by
  unfold Bigram.incorporate
  rw [if_pos (by simp [Bigram.mk', Distribution.defaultNearest])]

/-- `CleanRelation::nearest` projects onto the support of the relation's distribution whenever the distribution's `nearest` does. -/
theorem CleanRel.C16_relation {V : Type} {C : CleanOps V} {supp : V → Prop}
    (hC : ∀ c x, ∃ y, C.nearest c x = .ok y ∧ supp y ∧ (supp x → y = x))
    {σ : Doms} {r : CleanRel C.toDistOps} {items z : Items} (hz : r.clusterOf σ items = .ok z) (x : V) (t : Tape) :
    ∃ y t', r.nearest σ x items t = .ok (y, t') ∧ supp y ∧ (supp x → y = x) ∧
      (∀ c, r.clusters.find? z = some c → C.nearest c x = .ok y) := by
  unfold CleanRel.nearest
  simp only [bind, Except.bind, hz]
  cases hf : r.clusters.find? z with
  | some c =>
    obtain ⟨y, h1, h2, h3⟩ := hC c x
    refine ⟨y, t, by simp only [h1], h2, h3, ?_⟩
    intro c' hc'
    injection hc' with hc'
    subst hc'
    exact h1
  | none =>
    obtain ⟨y, h1, h2, h3⟩ := hC (C.fresh t).1 x
    exact ⟨y, (C.fresh t).2, by simp only [h1], h2, h3, by simp⟩

/-- The hypotheses are met by the reachable relation `ex2` of coin tosses at a stored tuple. -/
example : ∃ z, CleanRel.clusterOf CleanRel.twoStore CleanRel.ex2 [1, 2] = .ok z ∧
    ∀ c x, ∃ y, CleanRel.coinOps.nearest c x = .ok y ∧ True ∧ (True → y = x) :=
  ⟨[0, 0], rfl, fun _ x => ⟨x, rfl, trivial, fun _ => rfl⟩⟩

end
end Verif
