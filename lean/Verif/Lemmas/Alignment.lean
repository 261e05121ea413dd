import Verif.Spec.Alignment
import Mathlib.Data.List.Sort
/-! The search invariant of `topk_alignments`. -/
namespace Verif
namespace Alignment

@[simp] theorem cleanSide_append (a b : List AlignPiece) : cleanSide (a ++ b) = cleanSide a ++ cleanSide b := by simp [cleanSide]
@[simp] theorem dirtySide_append (a b : List AlignPiece) : dirtySide (a ++ b) = dirtySide a ++ dirtySide b := by simp [dirtySide]
@[simp] theorem cleanSide_single (p : AlignPiece) : cleanSide [p] = p.clean := by simp [cleanSide]
@[simp] theorem dirtySide_single (p : AlignPiece) : dirtySide [p] = p.dirty := by simp [dirtySide]
@[simp] theorem cleanSide_nil : cleanSide [] = [] := rfl
@[simp] theorem dirtySide_nil : dirtySide [] = [] := rfl

/-- substitutions change the character -/
def Valid (ps : List AlignPiece) : Prop := ∀ a b, AlignPiece.sub a b ∈ ps → a ≠ b

/-- the pieces spell prefixes of the two strings -/
structure Pre (s t : List Char) (ps : List AlignPiece) : Prop where
  clean : cleanSide ps <+: s
  dirty : dirtySide ps <+: t
  valid : Valid ps

/-- what holds of every alignment on the heap -/
structure Good (cost : CostFunction) (s t : List Char) (a : StrAlignment) : Prop where
  clean : cleanSide a.pieces = s.take a.p1
  dirty : dirtySide a.pieces = t.take a.p2
  p1 : a.p1 ≤ s.length
  p2 : a.p2 ≤ t.length
  valid : Valid a.pieces
  cost : StepCost cost a.pieces (-a.cost)

theorem Good.len1 {cost : CostFunction} {s t a} (g : Good cost s t a) : (cleanSide a.pieces).length = a.p1 := by
  rw [g.clean, List.length_take]; have := g.p1; omega

theorem Good.len2 {cost : CostFunction} {s t a} (g : Good cost s t a) : (dirtySide a.pieces).length = a.p2 := by
  rw [g.dirty, List.length_take]; have := g.p2; omega

theorem stepCost_det {cost : CostFunction} {ps c c'} (h : StepCost cost ps c) (h' : StepCost cost ps c') : c = c' := by
  induction h generalizing c' with
  | nil =>
    generalize hq : ([] : List AlignPiece) = q at h'
    cases h' with
    | nil => rfl
    | snoc => simp at hq
  | snoc ps p c1 c2 h1 h2 ih =>
    generalize hq : ps ++ [p] = q at h'
    cases h' with
    | nil => simp at hq
    | snoc ps' p' d1 d2 g1 g2 =>
      obtain ⟨rfl, hp⟩ := List.append_inj' hq rfl
      injection hp with hp
      subst hp
      have := ih g1
      subst this
      rw [h2] at g2
      injection g2

theorem stepCost_snoc {cost : CostFunction} {ps p c'} (h : StepCost cost (ps ++ [p]) c') : ∃ c, StepCost cost ps c ∧
    cost { cost := -c, p1 := (cleanSide (ps ++ [p])).length, p2 := (dirtySide (ps ++ [p])).length, pieces := ps ++ [p] } c
        = .ok c' := by
  generalize hq : ps ++ [p] = q at h
  cases h with
  | nil => simp at hq
  | snoc ps' p' d1 d2 g1 g2 =>
    obtain ⟨rfl, hp⟩ := List.append_inj' hq rfl
    injection hp with hp
    subst hp
    exact ⟨d1, g1, g2⟩

theorem popMax_cost (b : StrAlignment) (l : List StrAlignment) : ∀ x ∈ b :: l, x.cost ≤ (popMax b l).1.cost := by
  induction l generalizing b with
  | nil => intro x hx; simp at hx; subst hx; exact le_refl _
  | cons y ys ih =>
    intro x hx
    unfold popMax
    split
    · rename_i hlt
      have hy := ih y y (by simp)
      have hb : b.cost ≤ y.cost := by
        rcases hlt with h | h
        · exact h.le
        · exact h.1.le
      rcases List.mem_cons.mp hx with rfl | hx
      · exact hb.trans hy
      · exact ih y x hx
    · rename_i hlt
      have hb := ih b b (by simp)
      have hy : y.cost ≤ b.cost := by
        by_contra hc
        exact hlt (.inl (not_le.mp hc))
      rcases List.mem_cons.mp hx with rfl | hx
      · exact hb
      rcases List.mem_cons.mp hx with rfl | hx
      · exact hy.trans hb
      · exact ih b x (by simp [hx])

/-- the pieces by which an alignment at `(p1, p2)` can be continued -/
def nexts (s t : List Char) (p1 p2 : Nat) : List AlignPiece :=
  (match s[p1]? with | some c => [.del c] | none => []) ++
  (match t[p2]? with | some c => [.ins c] | none => []) ++
  (match s[p1]?, t[p2]? with | some c, some d => [if c = d then .mat c else .sub c d] | _, _ => [])

theorem prefix_snoc {s l : List Char} {n : Nat} {c : Char} (hl : l = s.take n) (hn : n ≤ s.length) :
    l ++ [c] <+: s ↔ s[n]? = some c := by
  subst hl
  constructor
  · rintro ⟨r, hr⟩
    have h := congrArg (fun l => l[n]?) hr
    rw [← h, List.append_assoc, List.getElem?_append_right (by simp)]
    simp [hn]
  · intro h
    obtain ⟨hlt, h'⟩ := List.getElem?_eq_some_iff.mp h
    refine ⟨s.drop (n + 1), ?_⟩
    subst h'
    simp

theorem mem_nexts {cost : CostFunction} {s t : List Char} {a : StrAlignment} (g : Good cost s t a) (p : AlignPiece) :
    p ∈ nexts s t a.p1 a.p2 ↔ Pre s t (a.pieces ++ [p]) := by
  have hpre : Pre s t (a.pieces ++ [p]) ↔ (cleanSide a.pieces ++ p.clean <+: s ∧ dirtySide a.pieces ++ p.dirty <+: t) ∧
      Valid [p] := by
    constructor
    · intro h
      refine ⟨⟨by simpa using h.clean, by simpa using h.dirty⟩, fun x y hxy => h.valid x y (by simp at hxy; simp [hxy])⟩
    · rintro ⟨⟨h1, h2⟩, h3⟩
      refine ⟨by simpa using h1, by simpa using h2, fun x y hxy => ?_⟩
      rcases List.mem_append.mp hxy with h | h
      · exact g.valid x y h
      · exact h3 x y h
  have hc0 : cleanSide a.pieces <+: s := by rw [g.clean]; exact List.take_prefix _ _
  have hd0 : dirtySide a.pieces <+: t := by rw [g.dirty]; exact List.take_prefix _ _
  have hc1 := fun c => prefix_snoc (c := c) g.clean g.p1
  have hd1 := fun c => prefix_snoc (c := c) g.dirty g.p2
  rw [hpre]
  cases p with
  | del c =>
    simp only [AlignPiece.clean, AlignPiece.dirty, List.append_nil, hd0, hc1, and_true, nexts, Valid]
    cases h1 : s[a.p1]? <;> cases h2 : t[a.p2]? <;> simp [eq_comm]
    · rename_i c' d'; split <;> simp
  | ins c =>
    simp only [AlignPiece.clean, AlignPiece.dirty, List.append_nil, hc0, hd1, true_and, nexts, Valid]
    cases h1 : s[a.p1]? <;> cases h2 : t[a.p2]? <;> simp [eq_comm]
    · rename_i c' d'; split <;> simp
  | sub x y =>
    simp only [AlignPiece.clean, AlignPiece.dirty, hc1, hd1, nexts, Valid]
    cases h1 : s[a.p1]? <;> cases h2 : t[a.p2]? <;> simp
    · rename_i c' d'
      split
      · rename_i h; subst h; simp; rintro rfl rfl; rfl
      · rename_i h
        simp
        constructor
        · rintro ⟨rfl, rfl⟩; exact ⟨⟨rfl, rfl⟩, h⟩
        · rintro ⟨⟨rfl, rfl⟩, -⟩; exact ⟨rfl, rfl⟩
  | mat c =>
    simp only [AlignPiece.clean, AlignPiece.dirty, hc1, hd1, nexts, Valid]
    cases h1 : s[a.p1]? <;> cases h2 : t[a.p2]? <;> simp
    · rename_i c' d'
      split
      · rename_i h; subst h; simp [eq_comm]
      · rename_i h
        simp
        rintro rfl; exact fun h' => h h'.symm

theorem nexts_nodup (s t : List Char) (p1 p2 : Nat) : (nexts s t p1 p2).Nodup := by
  unfold nexts
  cases h1 : s[p1]? <;> cases h2 : t[p2]? <;> simp
  rename_i c d; split <;> simp

theorem grow_good {cost : CostFunction} {s t : List Char} {top a : StrAlignment} {p1 p2 p} (g : Good cost s t top)
    (hp : Pre s t (top.pieces ++ [p])) (h1 : p1 = top.p1 + p.clean.length) (h2 : p2 = top.p2 + p.dirty.length)
    (h : grow cost top (-top.cost) p1 p2 p = .ok a) : Good cost s t a ∧ a.pieces = top.pieces ++ [p] ∧
      (cost.NonNeg → -top.cost ≤ -a.cost) := by
  obtain ⟨e1, e2, e3, e4⟩ := grow_fields h
  have l1 : (cleanSide (top.pieces ++ [p])).length = p1 := by simp [g.len1, h1]
  have l2 : (dirtySide (top.pieces ++ [p])).length = p2 := by simp [g.len2, h2]
  have t1 := List.prefix_iff_eq_take.mp hp.clean
  have t2 := List.prefix_iff_eq_take.mp hp.dirty
  have b1 := hp.clean.length_le
  have b2 := hp.dirty.length_le
  rw [l1] at t1 b1
  rw [l2] at t2 b2
  refine ⟨⟨?_, ?_, ?_, ?_, ?_, ?_⟩, e3, fun hn => hn _ _ _ e4⟩
  · rw [e3, e1]; exact t1
  · rw [e3, e2]; exact t2
  · rw [e1]; exact b1
  · rw [e2]; exact b2
  · rw [e3]; exact hp.valid
  · rw [e3]
    refine .snoc _ _ _ _ g.cost ?_
    rw [l1, l2, neg_neg]
    exact e4

theorem continuations_spec {cost : CostFunction} {s t : List Char} {top : StrAlignment} {cs} (g : Good cost s t top)
    (h : continuations cost s t top = .ok cs) :
    cs.map StrAlignment.pieces = (nexts s t top.p1 top.p2).map (fun p => top.pieces ++ [p]) ∧
      ∀ a ∈ cs, Good cost s t a ∧ (cost.NonNeg → -top.cost ≤ -a.cost) := by
  obtain ⟨d, i, b, hd, hi, hb, rfl⟩ := continuations_split h
  have hm := fun p => (mem_nexts g p).mp
  have hD : d.map StrAlignment.pieces = (match s[top.p1]? with | some c => [AlignPiece.del c] | none => []).map (fun p => top.pieces ++ [p]) ∧
      ∀ a ∈ d, Good cost s t a ∧ (cost.NonNeg → -top.cost ≤ -a.cost) := by
    unfold growDel at hd
    split at hd
    · rename_i hlt
      have hs := List.getElem?_eq_getElem hlt
      simp only [bind, Except.bind, idxR, hs] at hd
      cases hg : grow cost top (-top.cost) (top.p1 + 1) top.p2 (.del s[top.p1]) with
      | error e => rw [hg] at hd; cases hd
      | ok a =>
        rw [hg] at hd
        injection hd with hd
        subst hd
        obtain ⟨g1, g2, g3⟩ := grow_good g (hm _ (by simp [nexts, hs])) (by simp [AlignPiece.clean]) (by simp [AlignPiece.dirty]) hg
        rw [hs]
        refine ⟨by simp [g2], ?_⟩
        intro a' ha'
        simp at ha'
        subst ha'
        exact ⟨g1, g3⟩
    · rename_i hlt
      injection hd with hd
      subst hd
      rw [List.getElem?_eq_none (not_lt.mp hlt)]
      simp
  have hI : i.map StrAlignment.pieces = (match t[top.p2]? with | some c => [AlignPiece.ins c] | none => []).map (fun p => top.pieces ++ [p]) ∧
      ∀ a ∈ i, Good cost s t a ∧ (cost.NonNeg → -top.cost ≤ -a.cost) := by
    unfold growIns at hi
    split at hi
    · rename_i hlt
      have hs := List.getElem?_eq_getElem hlt
      simp only [bind, Except.bind, idxR, hs] at hi
      cases hg : grow cost top (-top.cost) top.p1 (top.p2 + 1) (.ins t[top.p2]) with
      | error e => rw [hg] at hi; cases hi
      | ok a =>
        rw [hg] at hi
        injection hi with hi
        subst hi
        obtain ⟨g1, g2, g3⟩ := grow_good g (hm _ (by simp [nexts, hs])) (by simp [AlignPiece.clean]) (by simp [AlignPiece.dirty]) hg
        rw [hs]
        refine ⟨by simp [g2], ?_⟩
        intro a' ha'
        simp at ha'
        subst ha'
        exact ⟨g1, g3⟩
    · rename_i hlt
      injection hi with hi
      subst hi
      rw [List.getElem?_eq_none (not_lt.mp hlt)]
      simp
  have hB : b.map StrAlignment.pieces = (match s[top.p1]?, t[top.p2]? with
        | some c, some d => [if c = d then AlignPiece.mat c else .sub c d] | _, _ => []).map (fun p => top.pieces ++ [p]) ∧
      ∀ a ∈ b, Good cost s t a ∧ (cost.NonNeg → -top.cost ≤ -a.cost) := by
    unfold growBoth at hb
    split at hb
    · rename_i hlt
      have hs := List.getElem?_eq_getElem hlt.1
      have ht := List.getElem?_eq_getElem hlt.2
      simp only [bind, Except.bind, idxR, hs, ht] at hb
      cases hg : grow cost top (-top.cost) (top.p1 + 1) (top.p2 + 1)
        (if s[top.p1] = t[top.p2] then .mat s[top.p1] else .sub s[top.p1] t[top.p2]) with
      | error e => rw [hg] at hb; cases hb
      | ok a =>
        rw [hg] at hb
        injection hb with hb
        subst hb
        obtain ⟨g1, g2, g3⟩ := grow_good g (hm _ (by simp [nexts, hs, ht]))
          (by split <;> simp [AlignPiece.clean]) (by split <;> simp [AlignPiece.dirty]) hg
        rw [hs, ht]
        refine ⟨by simp [g2], ?_⟩
        intro a' ha'
        simp at ha'
        subst ha'
        exact ⟨g1, g3⟩
    · rename_i hlt
      injection hb with hb
      subst hb
      by_cases h1 : top.p1 < s.length
      · rw [List.getElem?_eq_getElem h1, List.getElem?_eq_none (not_lt.mp (fun h2 => hlt ⟨h1, h2⟩))]
        simp
      · rw [List.getElem?_eq_none (not_lt.mp h1)]
        simp
  constructor
  · rw [List.map_append, List.map_append, hD.1, hI.1, hB.1]
    simp only [nexts, List.map_append]
  · intro a ha
    rcases List.mem_append.mp ha with ha | ha
    · rcases List.mem_append.mp ha with ha | ha
      · exact hD.2 a ha
      · exact hI.2 a ha
    · exact hB.2 a ha

/-- what relates the search state to the alignments processed (`P`) and skipped (`X`) so far -/
structure Inv (k : Int) (cost : CostFunction) (s t : List Char) (heap P X : List StrAlignment) (visited : Nat × Nat → Int)
    (found : List StrAlignment) : Prop where
  good : ∀ a ∈ heap ++ P ++ X, Good cost s t a
  nodup : ((heap ++ P ++ X).map StrAlignment.pieces).Nodup
  parent : ∀ a ∈ heap ++ P ++ X, a.pieces = [] ∨ ∃ b ∈ P, ∃ p, a.pieces = b.pieces ++ [p]
  closed : ∀ b ∈ P, ∀ p, Pre s t (b.pieces ++ [p]) → ∃ a ∈ heap ++ P ++ X, a.pieces = b.pieces ++ [p]
  root : ∃ a ∈ heap ++ P ++ X, a.pieces = []
  count : ∀ v : Nat × Nat, visited v = ((P ++ X).filter fun a => (a.p1, a.p2) = v).length
  pruned : ∀ x ∈ X, ∃ Q : List StrAlignment, Q.Sublist P ∧ (Q.length : Int) = k ∧
    ∀ q ∈ Q, q.p1 = x.p1 ∧ q.p2 = x.p2 ∧ (cost.NonNeg → -q.cost ≤ -x.cost)
  found : found = (P.filter fun a => a.p1 = s.length ∧ a.p2 = t.length).map fun a => { a with cost := -a.cost }
  mono : cost.NonNeg → ∀ a ∈ P ++ X, ∀ b ∈ heap, -a.cost ≤ -b.cost
  sorted : cost.NonNeg → P.Pairwise fun a b => -a.cost ≤ -b.cost

theorem Inv.perm {k cost s t heap heap' P X visited found} (I : Inv k cost s t heap P X visited found) (h : heap.Perm heap') :
    Inv k cost s t heap' P X visited found := by
  have hp : (heap ++ P ++ X).Perm (heap' ++ P ++ X) := (h.append_right P).append_right X
  have hm : ∀ a, a ∈ heap ++ P ++ X ↔ a ∈ heap' ++ P ++ X := fun a => hp.mem_iff
  exact ⟨fun a ha => I.good a ((hm a).mpr ha), (hp.map _).nodup_iff.mp I.nodup, fun a ha => I.parent a ((hm a).mpr ha),
    fun b hb p hpre => by
      obtain ⟨a, ha, e⟩ := I.closed b hb p hpre
      exact ⟨a, (hm a).mp ha, e⟩,
    by
      obtain ⟨a, ha, e⟩ := I.root
      exact ⟨a, (hm a).mp ha, e⟩,
    I.count, I.pruned, I.found, fun hn a ha b hb => I.mono hn a ha b (h.mem_iff.mpr hb), I.sorted⟩

theorem Inv.prune {k cost s t top heap P X visited found} (I : Inv k cost s t (top :: heap) P X visited found)
    (hk : k < visited (top.p1, top.p2) + 1) (h0 : 0 ≤ k)
    (hmax : cost.NonNeg → ∀ b ∈ heap, -top.cost ≤ -b.cost) :
    Inv k cost s t heap P (X ++ [top]) (Function.update visited (top.p1, top.p2) (visited (top.p1, top.p2) + 1)) found := by
  have hp : (top :: heap ++ P ++ X).Perm (heap ++ P ++ (X ++ [top])) := by
    rw [List.cons_append, List.cons_append, ← List.append_assoc]
    exact (List.perm_append_singleton top _).symm
  have hm : ∀ a, a ∈ top :: heap ++ P ++ X ↔ a ∈ heap ++ P ++ (X ++ [top]) := fun a => hp.mem_iff
  refine ⟨fun a ha => I.good a ((hm a).mpr ha), (hp.map _).nodup_iff.mp I.nodup, fun a ha => I.parent a ((hm a).mpr ha),
    fun b hb p hpre => ?_, ?_, ?_, ?_, I.found, ?_, I.sorted⟩
  · obtain ⟨a, ha, e⟩ := I.closed b hb p hpre
    exact ⟨a, (hm a).mp ha, e⟩
  · obtain ⟨a, ha, e⟩ := I.root
    exact ⟨a, (hm a).mp ha, e⟩
  · intro v
    rw [← List.append_assoc, List.filter_append, List.length_append, Nat.cast_add]
    by_cases hv : v = (top.p1, top.p2)
    · subst hv
      rw [Function.update_self, I.count]
      simp
    · rw [Function.update_of_ne hv, I.count]
      simp [Ne.symm hv]
  · intro x hx
    rcases List.mem_append.mp hx with hx | hx
    · exact I.pruned x hx
    simp at hx
    subst hx
    by_cases hX : ∃ x' ∈ X, (x'.p1, x'.p2) = (x.p1, x.p2)
    · obtain ⟨x', hx', e⟩ := hX
      simp only [Prod.mk.injEq] at e
      obtain ⟨Q, h1, h2, h3⟩ := I.pruned x' hx'
      refine ⟨Q, h1, h2, fun q hq => ⟨(h3 q hq).1.trans e.1, (h3 q hq).2.1.trans e.2, fun hn => ?_⟩⟩
      exact I.mono hn q (by simp [h1.subset hq]) x (by simp)
    · have hX' : (X.filter fun a => (a.p1, a.p2) = (x.p1, x.p2)) = [] := by
        rw [List.filter_eq_nil_iff]
        intro a ha
        simp only [decide_eq_true_eq]
        exact fun he => hX ⟨a, ha, he⟩
      rw [I.count, List.filter_append, hX', List.append_nil] at hk
      refine ⟨(P.filter fun a => (a.p1, a.p2) = (x.p1, x.p2)).take k.toNat, (List.take_sublist _ _).trans List.filter_sublist, ?_, ?_⟩
      · rw [List.length_take]; omega
      · intro q hq
        have hq' := List.mem_of_mem_take hq
        rw [List.mem_filter] at hq'
        simp only [decide_eq_true_eq, Prod.mk.injEq] at hq'
        exact ⟨hq'.2.1, hq'.2.2, fun hn => I.mono hn q (by simp [hq'.1]) x (by simp)⟩
  · intro hn a ha b hb
    rw [← List.append_assoc] at ha
    rcases List.mem_append.mp ha with ha | ha
    · exact I.mono hn a ha b (by simp [hb])
    · simp at ha
      subst ha
      exact hmax hn b hb

theorem Inv.process {k cost s t top heap P X visited found cs} (I : Inv k cost s t (top :: heap) P X visited found)
    (hmax : cost.NonNeg → ∀ b ∈ heap, -top.cost ≤ -b.cost)
    (hcs : cs.map StrAlignment.pieces = (nexts s t top.p1 top.p2).map (fun p => top.pieces ++ [p]))
    (hgood : ∀ a ∈ cs, Good cost s t a ∧ (cost.NonNeg → -top.cost ≤ -a.cost)) :
    Inv k cost s t (heap ++ cs) (P ++ [top]) X (Function.update visited (top.p1, top.p2) (visited (top.p1, top.p2) + 1))
      (found ++ if top.p1 = s.length ∧ top.p2 = t.length then [{ top with cost := -top.cost }] else []) := by
  have hp : (top :: heap ++ P ++ X ++ cs).Perm ((heap ++ cs) ++ (P ++ [top]) ++ X) := by
    classical
    rw [List.perm_iff_count]
    intro a
    simp only [List.count_append, List.count_cons, List.count_nil, List.cons_append]
    omega
  have hm : ∀ a, a ∈ (heap ++ cs) ++ (P ++ [top]) ++ X ↔ a ∈ top :: heap ++ P ++ X ∨ a ∈ cs := fun a => by
    rw [← hp.mem_iff, List.mem_append]
  have hgt : Good cost s t top := I.good top (by simp)
  have hpc : ∀ a ∈ cs, ∃ p, p ∈ nexts s t top.p1 top.p2 ∧ a.pieces = top.pieces ++ [p] := by
    intro a ha
    have : a.pieces ∈ cs.map StrAlignment.pieces := List.mem_map_of_mem ha
    rw [hcs] at this
    obtain ⟨p, hp, e⟩ := List.mem_map.mp this
    exact ⟨p, hp, e.symm⟩
  refine ⟨?_, ?_, ?_, ?_, ?_, ?_, ?_, ?_, ?_, ?_⟩
  · intro a ha
    rcases (hm a).mp ha with h | h
    · exact I.good a h
    · exact (hgood a h).1
  · rw [← (hp.map _).nodup_iff, List.map_append, List.nodup_append]
    refine ⟨I.nodup, ?_, ?_⟩
    · rw [hcs]
      exact (nexts_nodup s t top.p1 top.p2).map (fun p q h => by simpa using h)
    · intro x hx y hy hxy
      subst hxy
      rw [hcs] at hy
      obtain ⟨p, -, rfl⟩ := List.mem_map.mp hy
      obtain ⟨a, ha, e⟩ := List.mem_map.mp hx
      rcases I.parent a ha with h | ⟨b, hb, p', h⟩
      · rw [h] at e; simp at e
      · rw [h] at e
        have e' := (List.append_inj' e rfl).1
        have hnd := I.nodup
        rw [List.cons_append, List.cons_append, List.map_cons, List.nodup_cons] at hnd
        refine hnd.1 ?_
        rw [← e']
        exact List.mem_map_of_mem (by simp [hb])
  · intro a ha
    rcases (hm a).mp ha with h | h
    · rcases I.parent a h with h | ⟨b, hb, p, e⟩
      · exact .inl h
      · exact .inr ⟨b, by simp [hb], p, e⟩
    · obtain ⟨p, -, e⟩ := hpc a h
      exact .inr ⟨top, by simp, p, e⟩
  · intro b hb p hpre
    rcases List.mem_append.mp hb with hb | hb
    · obtain ⟨a, ha, e⟩ := I.closed b hb p hpre
      exact ⟨a, (hm a).mpr (.inl ha), e⟩
    · simp at hb
      subst hb
      have hn := (mem_nexts hgt p).mpr hpre
      have : b.pieces ++ [p] ∈ cs.map StrAlignment.pieces := by
        rw [hcs]
        exact List.mem_map_of_mem (f := fun p => b.pieces ++ [p]) hn
      obtain ⟨a, ha, e⟩ := List.mem_map.mp this
      exact ⟨a, (hm a).mpr (.inr ha), e⟩
  · obtain ⟨a, ha, e⟩ := I.root
    exact ⟨a, (hm a).mpr (.inl ha), e⟩
  · intro v
    have h1 := I.count v
    rw [List.filter_append, List.length_append] at h1 ⊢
    rw [List.filter_append, List.length_append]
    by_cases hv : v = (top.p1, top.p2)
    · subst hv
      rw [Function.update_self, h1]
      simp
      omega
    · rw [Function.update_of_ne hv, h1]
      simp [Ne.symm hv]
  · intro x hx
    obtain ⟨Q, h1, h2, h3⟩ := I.pruned x hx
    exact ⟨Q, h1.trans (List.sublist_append_left _ _), h2, h3⟩
  · rw [I.found, List.filter_append, List.map_append]
    congr 1
    by_cases h : top.p1 = s.length ∧ top.p2 = t.length
    · simp [h]
    · simp [h]
  · intro hn a ha b hb
    have ha' : a ∈ P ++ X ∨ a = top := by
      simp only [List.mem_append, List.mem_singleton] at ha ⊢
      tauto
    rcases List.mem_append.mp hb with hb | hb
    · rcases ha' with h | rfl
      · exact I.mono hn a h b (by simp [hb])
      · exact hmax hn b hb
    · have h2 := (hgood b hb).2 hn
      rcases ha' with h | rfl
      · exact (I.mono hn a h top (by simp)).trans h2
      · exact h2
  · intro hn
    rw [List.pairwise_append]
    refine ⟨I.sorted hn, by simp, ?_⟩
    intro a ha b hb
    simp at hb
    subst hb
    exact I.mono hn a (by simp [ha]) b (by simp)

/-- a returned list comes from a search state in which either `k` were found or the heap is empty -/
theorem loop_inv {k : Int} {cost : CostFunction} {s t : List Char} (h0 : 0 ≤ k) :
    ∀ (heap : List StrAlignment) (P X : List StrAlignment) (visited : Nat × Nat → Int) (found R : List StrAlignment),
      Inv k cost s t heap P X visited found → (found.length : Int) ≤ k → loop k cost s t heap visited found = .ok R →
      ∃ heap' P' X' visited', Inv k cost s t heap' P' X' visited' R ∧ (R.length : Int) ≤ k ∧
        ((R.length : Int) = k ∨ heap' = []) := by
  intro heap P X visited found R I hk hR
  induction hw : weight s t heap using Nat.strong_induction_on generalizing heap P X visited found with
  | _ n ih =>
    unfold loop at hR
    split at hR
    · rename_i hlt
      match heap, I, hw, hR with
      | [], I, hw, hR =>
        injection hR with hR
        subst hR
        exact ⟨[], P, X, visited, I, hk, .inr rfl⟩
      | b :: rest, I, hw, hR =>
        have hperm := popMax_perm b rest
        have I' := I.perm hperm.symm
        have hgt : Good cost s t (popMax b rest).1 := I'.good _ (by simp)
        have hmax : cost.NonNeg → ∀ x ∈ (popMax b rest).2, -(popMax b rest).1.cost ≤ -x.cost := by
          intro _ x hx
          have := popMax_cost b rest x (hperm.mem_iff.mp (by simp [hx]))
          linarith
        have hweight := weight_perm (s1 := s) (s2 := t) hperm
        rw [weight_cons] at hweight
        have h4 : 0 < 4 ^ (remaining s t (popMax b rest).1 + 1) := Nat.pow_pos (by omega)
        simp only [Function.update_self] at hR
        split at hR
        · rename_i hgt'
          exact ih _ (by omega) _ _ _ _ _ (I'.prune hgt' h0 hmax) hk hR rfl
        split at hR
        · rename_i hterm
          have := I'.process (cs := []) hmax (by
            have h1 : s[(popMax b rest).1.p1]? = none := by rw [hterm.1]; exact List.getElem?_eq_none (le_refl _)
            have h2 : t[(popMax b rest).1.p2]? = none := by rw [hterm.2]; exact List.getElem?_eq_none (le_refl _)
            simp [nexts, h1, h2]) (by simp)
          rw [if_pos hterm, List.append_nil] at this
          exact ih _ (by omega) _ _ _ _ _ this (by simp; omega) hR rfl
        · rename_i hterm
          cases hc : continuations cost s t (popMax b rest).1 with
          | error e =>
            rw [hc] at hR
            cases hR
          | ok cs =>
            rw [hc] at hR
            obtain ⟨c1, c2⟩ := continuations_spec hgt hc
            have := I'.process hmax c1 c2
            rw [if_neg hterm, List.append_nil] at this
            have hcw := continuations_weight hc
            exact ih (weight s t ((popMax b rest).2 ++ cs)) (by rw [weight_append]; omega) _ _ _ _ _ this hk hR rfl
    · injection hR with hR
      subst hR
      exact ⟨heap, P, X, visited, I, hk, .inl (by omega)⟩

end Alignment
end Verif
