import Verif.Lemmas.GenDBItems
import Verif.Props.GenDBBuild
/-!
The references of a layout, and those of a tuple of a query relation, form a tree.
-/
namespace Verif
namespace GenDB
open PClean
variable {s : PClean.Schema}

theorem fieldAt_cons {x : String × String} {fs : List (String × String)} {dx : List String} (hx : Layout s x.2 dx) {o : Nat} {f d : String} :
    FieldAt s (x :: fs) o f d ↔ (o = 0 ∧ (f, d) = x) ∨ ∃ o', o = dx.length + o' ∧ FieldAt s fs o' f d := by
  constructor
  · rintro ⟨pre, post, es, h1, h2, h3⟩
    cases pre with
    | nil =>
      cases h2
      simp only [List.nil_append, List.cons.injEq] at h1
      exact Or.inl ⟨h3, h1.1.symm⟩
    | cons y pre =>
      simp only [List.cons_append, List.cons.injEq] at h1
      obtain ⟨rfl, rfl⟩ := h1
      cases h2 with
      | @cons f' d' _ ds ds' a b =>
        right
        have := layout_unique a hx
        subst this
        exact ⟨ds'.length, by simpa using h3, pre, post, ds', rfl, b, rfl⟩
  · rintro (⟨rfl, rfl⟩ | ⟨o', rfl, pre, post, es, rfl, h2, rfl⟩)
    · exact ⟨[], fs, [], rfl, .nil, rfl⟩
    · obtain ⟨g, y⟩ := x
      exact ⟨(g, y) :: pre, post, dx ++ es, rfl, .cons hx h2, by simp⟩

/-- Each position belongs to the layout of a field. -/
theorem fieldAt_cover {fs : List (String × String)} {es : List String} (hs : Sublayouts s fs es) {j : Nat} (hj : j < es.length) :
    ∃ o f d ds, FieldAt s fs o f d ∧ Layout s d ds ∧ o ≤ j ∧ j < o + ds.length := by
  induction fs generalizing es j with
  | nil => cases hs; simp at hj
  | cons x fs ih =>
    cases hs with
    | @cons f d _ ds ds' a b =>
      by_cases hlt : j < ds.length
      · exact ⟨0, f, d, ds, (fieldAt_cons (x := (f, d)) a).mpr (Or.inl ⟨rfl, rfl⟩), a, Nat.zero_le _, by omega⟩
      · obtain ⟨o, f', d', ds'', h1, h2, h3, h4⟩ := ih b (j := j - ds.length) (by simp at hj; omega)
        exact ⟨ds.length + o, f', d', ds'', (fieldAt_cons (x := (f, d)) a).mpr (Or.inr ⟨o, rfl, h1⟩), h2, by omega, by omega⟩

/-- And only to one. -/
theorem fieldAt_disjoint {fs : List (String × String)} {es : List String} (hs : Sublayouts s fs es) {j o f d o' f' d'} {ds ds' : List String}
    (h : FieldAt s fs o f d) (h' : FieldAt s fs o' f' d') (hd : Layout s d ds) (hd' : Layout s d' ds') (h1 : o ≤ j) (h2 : j < o + ds.length) (h1' : o' ≤ j)
    (h2' : j < o' + ds'.length) : o = o' ∧ f = f' ∧ d = d' := by
  induction fs generalizing es j o o' with
  | nil => obtain ⟨pre, post, es, h, _⟩ := h; simp at h
  | cons x fs ih =>
    cases hs with
    | @cons g y _ dx dxs a b =>
      rcases (fieldAt_cons (x := (g, y)) a).mp h with ⟨rfl, e⟩ | ⟨o₁, rfl, k⟩
      · cases e
        have := layout_unique a hd
        subst this
        rcases (fieldAt_cons (x := (f, d)) a).mp h' with ⟨rfl, e⟩ | ⟨o₁, rfl, k⟩
        · cases e
          exact ⟨rfl, rfl, rfl⟩
        · omega
      · rcases (fieldAt_cons (x := (g, y)) a).mp h' with ⟨rfl, e⟩ | ⟨o₂, rfl, k'⟩
        · cases e
          have := layout_unique a hd'
          subst this
          omega
        · obtain ⟨e1, e2, e3⟩ := ih b (j := j - dx.length) k k' (by omega) (by omega) (by omega) (by omega)
          exact ⟨by omega, e2, e3⟩

/-- Each position of a layout but the last is referenced. -/
theorem refAt_parent (n : Nat) : ∀ {c ds}, ds.length ≤ n → Layout s c ds → ∀ {j}, j + 1 < ds.length → ∃ i f, RefAt s c i f j := by
  induction n with
  | zero => intro c ds h hl; have := hl.length_pos; omega
  | succ n ih =>
    intro c ds hn hl j hj
    obtain ⟨cl, es, hc, hs, rfl⟩ := hl.sub
    simp only [List.length_append, List.length_singleton] at hn hj
    obtain ⟨o, f, d, ds', h1, h2, h3, h4⟩ := fieldAt_cover hs (j := j) (by omega)
    by_cases hlast : j + 1 = o + ds'.length
    · exact ⟨es.length, f, (refAt_iff hc hs).mpr (Or.inl ⟨rfl, o, d, ds', h1, h2, by omega⟩)⟩
    · have hb := h1.bound hs h2
      obtain ⟨i, g, hr⟩ := ih (by omega) h2 (j := j - o) (by omega)
      exact ⟨o + i, g, (refAt_iff hc hs).mpr (Or.inr ⟨o, f, d, i, j - o, h1, hr, rfl, by omega⟩)⟩

/-- By one reference only. -/
theorem refAt_one (n : Nat) : ∀ {c ds}, ds.length ≤ n → Layout s c ds → ∀ {i f i' f' j}, RefAt s c i f j → RefAt s c i' f' j → i = i' ∧ f = f' := by
  induction n with
  | zero => intro c ds h hl; have := hl.length_pos; omega
  | succ n ih =>
    intro c ds hn hl i f i' f' j h h'
    obtain ⟨cl, es, hc, hs, rfl⟩ := hl.sub
    simp only [List.length_append, List.length_singleton] at hn
    have inner : ∀ {o g d i₁ h₁ j₁}, FieldAt s (refFields cl) o g d → RefAt s d i₁ h₁ j₁ → ∃ ds, Layout s d ds ∧ j₁ + 1 < ds.length := by
      intro o g d i₁ h₁ j₁ hf hr
      obtain ⟨ds, hds⟩ := hf.layout hs
      obtain ⟨x, y, hx, _, _, hlt⟩ := refAt_spec hr hds
      have := (List.getElem?_eq_some_iff.mp hx).1
      exact ⟨ds, hds, by omega⟩
    rcases (refAt_iff hc hs).mp h with ⟨rfl, o, d, d1, a1, a2, rfl⟩ | ⟨o, g, d, k, l, a1, a2, rfl, rfl⟩
    · have := a2.length_pos
      rcases (refAt_iff hc hs).mp h' with ⟨rfl, o', d', d2, b1, b2, e⟩ | ⟨o', g', d', k', l', b1, b2, rfl, e⟩
      · have := b2.length_pos
        obtain ⟨_, e2, _⟩ := fieldAt_disjoint hs (j := o + d1.length - 1) a1 b1 a2 b2 (by omega) (by omega) (by omega) (by omega)
        exact ⟨rfl, e2⟩
      · obtain ⟨d2, b3, b4⟩ := inner b1 b2
        obtain ⟨rfl, rfl, rfl⟩ := fieldAt_disjoint hs (j := o + d1.length - 1) a1 b1 a2 b3 (by omega) (by omega) (by omega) (by omega)
        have := layout_unique a2 b3
        subst this
        omega
    · obtain ⟨d1, a3, a4⟩ := inner a1 a2
      rcases (refAt_iff hc hs).mp h' with ⟨rfl, o', d', d2, b1, b2, e⟩ | ⟨o', g', d', k', l', b1, b2, rfl, e⟩
      · have := b2.length_pos
        obtain ⟨rfl, rfl, rfl⟩ := fieldAt_disjoint hs (j := o + l) a1 b1 a3 b2 (by omega) (by omega) (by omega) (by omega)
        have := layout_unique a3 b2
        subst this
        omega
      · obtain ⟨d2, b3, b4⟩ := inner b1 b2
        obtain ⟨rfl, rfl, rfl⟩ := fieldAt_disjoint hs (j := o + l) a1 b1 a3 b3 (by omega) (by omega) (by omega) (by omega)
        have hb := a1.bound hs a3
        have hll : l = l' := by omega
        subst hll
        obtain ⟨rfl, rfl⟩ := ih (by omega) a3 a2 b2
        exact ⟨rfl, rfl⟩

theorem refAt_tree {c : String} {ds : List String} (hl : Layout s c ds) : TreeIdx s ds (RefAt s c) where
  sound i f j h := by
    obtain ⟨x, y, h1, h2, h3, h4⟩ := refAt_spec h hl
    exact ⟨h4, x, y, h1, h2, h3⟩
  one _ _ _ _ _ h h' := refAt_one _ (Nat.le_refl _) hl h h'

/-- Each position but the last is referenced. -/
def Rooted (ds : List String) (E : Nat → String → Nat → Prop) : Prop := ∀ j, j + 1 < ds.length → ∃ i f, E i f j

theorem refAt_rooted {c : String} {ds : List String} (hl : Layout s c ds) : Rooted ds (RefAt s c) := fun _ h => refAt_parent _ (Nat.le_refl _) hl h

/-- One more reference to the entity at the last position. -/
def Snoc (n : Nat) (f : String) (E : Nat → String → Nat → Prop) (i : Nat) (g : String) (j : Nat) : Prop := E i g j ∨ (i = n ∧ g = f ∧ j + 1 = n)

theorem TreeIdx.snoc {ds : List String} {E : Nat → String → Nat → Prop} (h : TreeIdx s ds E) {c f y : String} (hy : ds[ds.length - 1]? = some y)
    (hr : Refers s c f y) : TreeIdx s (ds ++ [c]) (Snoc ds.length f E) where
  sound i g j hE := by
    have hpos : 0 < ds.length := by have := (List.getElem?_eq_some_iff.mp hy).1; omega
    rcases hE with hE | ⟨rfl, rfl, hj⟩
    · obtain ⟨h1, x, y, h2, h3, h4⟩ := h.sound i g j hE
      have l2 := (List.getElem?_eq_some_iff.mp h2).1
      have l3 := (List.getElem?_eq_some_iff.mp h3).1
      exact ⟨h1, x, y, by rw [List.getElem?_append_left l2]; exact h2, by rw [List.getElem?_append_left l3]; exact h3, h4⟩
    · refine ⟨by omega, c, y, by simp, ?_, hr⟩
      rw [List.getElem?_append_left (by omega)]
      have : j = ds.length - 1 := by omega
      rw [this]
      exact hy
  one i g i' g' j h1 h2 := by
    have lt : ∀ {i g j}, E i g j → j + 1 < ds.length := by
      intro i g j hE
      obtain ⟨h1, x, y, h2, _⟩ := h.sound i g j hE
      have := (List.getElem?_eq_some_iff.mp h2).1
      omega
    rcases h1 with h1 | ⟨rfl, rfl, hj⟩
    · rcases h2 with h2 | ⟨rfl, rfl, hj⟩
      · exact h.one _ _ _ _ _ h1 h2
      · have := lt h1; omega
    · rcases h2 with h2 | ⟨rfl, rfl, hj⟩
      · have := lt h2; omega
      · exact ⟨rfl, rfl⟩

theorem Rooted.snoc {ds : List String} {E : Nat → String → Nat → Prop} (h : Rooted ds E) {c f : String} : Rooted (ds ++ [c]) (Snoc ds.length f E) := by
  intro j hj
  simp only [List.length_append, List.length_singleton] at hj
  by_cases hlt : j + 1 < ds.length
  · obtain ⟨i, g, hE⟩ := h j hlt
    exact ⟨i, g, Or.inl hE⟩
  · exact ⟨ds.length, f, Or.inr ⟨rfl, rfl, by omega⟩⟩

theorem TreeIdx.mono {ds : List String} {E E' : Nat → String → Nat → Prop} (h : TreeIdx s ds E) (hE : ∀ i f j, E' i f j → E i f j) : TreeIdx s ds E' :=
  ⟨fun i f j h' => h.sound i f j (hE _ _ _ h'), fun i f i' f' j h1 h2 => h.one i f i' f' j (hE _ _ _ h1) (hE _ _ _ h2)⟩

theorem tupleRef_cons {d : String} {n : Nat} {c f : String} {hops : List (String × String)} {i : Nat} {g : String} {j : Nat} :
    TupleRef s d n ((c, f) :: hops) i g j ↔ Snoc (n + hops.length) f (TupleRef s d n hops) i g j := by
  unfold TupleRef Snoc HopRef
  simp only [List.reverse_cons]
  constructor
  · rintro (h | ⟨k, c', h1, h2, h3⟩)
    · exact Or.inl (Or.inl h)
    · by_cases hk : k < hops.reverse.length
      · rw [List.getElem?_append_left hk] at h1
        exact Or.inl (Or.inr ⟨k, c', h1, h2, h3⟩)
      · have hlt := (List.getElem?_eq_some_iff.mp h1).1
        simp only [List.length_append, List.length_reverse, List.length_singleton] at hlt hk
        have : k = hops.reverse.length := by simp; omega
        subst this
        simp at h1
        simp at h2
        exact Or.inr ⟨h2, h1.2.symm, by omega⟩
  · rintro ((h | ⟨k, c', h1, h2, h3⟩) | ⟨rfl, rfl, h⟩)
    · exact Or.inl h
    · exact Or.inr ⟨k, c', by rw [List.getElem?_append_left (List.getElem?_eq_some_iff.mp h1).1]; exact h1, h2, h3⟩
    · refine Or.inr ⟨hops.length, c, ?_, rfl, h⟩
      rw [List.getElem?_append_right (by simp)]
      simp

theorem PathTo.tree {c : String} {path : List String} {hops : List (String × String)} {d x j : String} {p : FMap String String}
    (h : PathTo s c path hops d x j p) {ds : List String} (hl : Layout s d ds) :
    TreeIdx s (ds ++ hops.reverse.map (·.1)) (TupleRef s d ds.length hops) ∧ Rooted (ds ++ hops.reverse.map (·.1)) (TupleRef s d ds.length hops) ∧
      (ds ++ hops.reverse.map (·.1))[ds.length + hops.length - 1]? = some c := by
  induction h with
  | here _ =>
    have e : ∀ {c} {n i : Nat} {f : String} {j : Nat}, TupleRef s c n [] i f j ↔ RefAt s c i f j := by
      intro c n i f j
      unfold TupleRef HopRef
      simp
    simp only [List.reverse_nil, List.map_nil, List.append_nil, List.length_nil, Nat.add_zero]
    refine ⟨(refAt_tree hl).mono (fun i f j h => e.mp h), ?_, hl.last⟩
    intro j hj
    obtain ⟨i, f, h⟩ := refAt_rooted hl j hj
    exact ⟨i, f, e.mpr h⟩
  | @step c f d' path hops d x j p hr hp ih =>
    obtain ⟨h1, h2, h3⟩ := ih hl
    have hpos := hl.length_pos
    have hlen : (ds ++ hops.reverse.map (·.1)).length = ds.length + hops.length := by simp
    have e : ds ++ ((c, f) :: hops).reverse.map (·.1) = (ds ++ hops.reverse.map (·.1)) ++ [c] := by simp
    rw [e]
    have t := h1.snoc (c := c) (f := f) (by rw [hlen]; exact h3) hr
    have r := h2.snoc (c := c) (f := f)
    rw [hlen] at t r
    refine ⟨t.mono (fun i g j h => tupleRef_cons.mp h), ?_, ?_⟩
    · intro j hj
      obtain ⟨i, g, h⟩ := r j hj
      exact ⟨i, g, tupleRef_cons.mpr h⟩
    · rw [List.getElem?_append_right (by simp)]
      simp

/-- What `Filled` says of all positions. -/
theorem Filled.follows {e : Ents} {ds : List String} {E : Nat → String → Nat → Prop} (hE : TreeIdx s ds E) (hr : Rooted ds E) {i : Int} {items items' : Items}
    (hlen : items.length = ds.length) (h : Filled e ds E (ds.length - 1) i items items') :
    Follows e ds E items' ∧ (ds ≠ [] → items'[ds.length - 1]? = some i) ∧ ∀ b, b < ds.length → ∃ w, items'[b]? = some w ∧ Reach e ds E (ds.length - 1) i b w := by
  have all : ∀ k b, b + k + 1 = ds.length → ∃ w, Reach e ds E (ds.length - 1) i b w := by
    intro k
    induction k using Nat.strong_induction_on with
    | _ k ih =>
      intro b hb
      by_cases h0 : k = 0
      · have : b = ds.length - 1 := by omega
        subst this
        exact ⟨i, .self⟩
      · obtain ⟨a, f, hE'⟩ := hr b (by omega)
        obtain ⟨h1, x, y, h2, _⟩ := hE.sound a f b hE'
        have := (List.getElem?_eq_some_iff.mp h2).1
        obtain ⟨v, hv⟩ := ih (ds.length - 1 - a) (by omega) a (by omega)
        obtain ⟨c, w, k1, k2⟩ := h.all a v f b hv hE'
        exact ⟨w, .step hv hE' k1 k2⟩
  have hall : ∀ b, b < ds.length → ∃ w, items'[b]? = some w ∧ Reach e ds E (ds.length - 1) i b w := by
    intro b hb
    obtain ⟨w, hw⟩ := all (ds.length - 1 - b) b (by omega)
    exact ⟨w, h.set b w hw, hw⟩
  refine ⟨⟨h.len.trans hlen, ?_⟩, fun _ => h.set _ _ .self, hall⟩
  intro a f b hE'
  obtain ⟨_, x, y, h2, _⟩ := hE.sound a f b hE'
  obtain ⟨v, k1, k2⟩ := hall a (List.getElem?_eq_some_iff.mp h2).1
  obtain ⟨c, w, q1, q2⟩ := h.all a v f b k2 hE'
  exact ⟨c, v, w, q1, k1, h.set b w (.step k2 hE' q1 q2), q2⟩

/-- A tuple that follows the references is determined by its last item. -/
theorem Follows.unique {e : Ents} {ds : List String} {E : Nat → String → Nat → Prop} (hE : TreeIdx s ds E) (hr : Rooted ds E) {items items' : Items}
    (h : Follows e ds E items) (h' : Follows e ds E items') (hl : items[ds.length - 1]? = items'[ds.length - 1]?) : items = items' := by
  have all : ∀ k b, b + k + 1 = ds.length → items[b]? = items'[b]? := by
    intro k
    induction k using Nat.strong_induction_on with
    | _ k ih =>
      intro b hb
      by_cases h0 : k = 0
      · have : b = ds.length - 1 := by omega
        subst this
        exact hl
      · obtain ⟨a, f, hE'⟩ := hr b (by omega)
        obtain ⟨h1, x, y, h2, _⟩ := hE.sound a f b hE'
        have := (List.getElem?_eq_some_iff.mp h2).1
        have hv := ih (ds.length - 1 - a) (by omega) a (by omega)
        obtain ⟨c, u, w, k1, k2, k3, k4⟩ := h.2 a f b hE'
        obtain ⟨c', u', w', k1', k2', k3', k4'⟩ := h'.2 a f b hE'
        rw [k1] at k1'
        cases k1'
        rw [k2, k2'] at hv
        cases hv
        rw [k3, k3', k4.fun k4']
  apply List.ext_getElem?
  intro b
  by_cases hb : b < ds.length
  · exact all (ds.length - 1 - b) b (by omega)
  · rw [List.getElem?_eq_none (by rw [h.1]; omega), List.getElem?_eq_none (by rw [h'.1]; omega)]

end GenDB
end Verif
