import Verif.Lemmas.GenDBTree
/-!
Lemmas about `sample_class_ancestors` and `sample_entities_relation`.
-/
namespace Verif
namespace GenDB
open PClean

mutual
/-- `LTuple s e c i items`: the items over the layout of `c` that the references give to the entity `i`. -/
inductive LTuple (s : PClean.Schema) (e : Ents) : String → Int → Items → Prop
  | mk {c cl i items} : s.classes.find? c = some cl → LSub s e c i (refFields cl) items → LTuple s e c i (items ++ [i])
/-- the items of the classes that these fields of the entity `i` of `c` reference -/
inductive LSub (s : PClean.Schema) (e : Ents) : String → Int → List (String × String) → Items → Prop
  | nil {c i} : LSub s e c i [] []
  | cons {c i f d fs v l l'} : HasRef e c f i v → LTuple s e d v l → LSub s e c i fs l' → LSub s e c i ((f, d) :: fs) (l ++ l')
end

section
variable {s : PClean.Schema} {e e' : Ents}

theorem LTuple.mono (hx : Extends e e') {c : String} {i : Int} {items : Items} (h : LTuple s e c i items) : LTuple s e' c i items := by
  refine LTuple.rec (motive_1 := fun c i items _ => LTuple s e' c i items) (motive_2 := fun c i fs items _ => LSub s e' c i fs items) ?_ ?_ ?_ h
  · intro c cl i items hc _ ih; exact .mk hc ih
  · intro c i; exact .nil
  · intro c i f d fs v l l' h1 _ _ ih1 ih2; exact .cons (hx _ _ _ _ h1) ih1 ih2

theorem LSub.mono (hx : Extends e e') {c : String} {i : Int} {fs : List (String × String)} {items : Items} (h : LSub s e c i fs items) : LSub s e' c i fs items := by
  refine LSub.rec (motive_1 := fun c i items _ => LTuple s e' c i items) (motive_2 := fun c i fs items _ => LSub s e' c i fs items) ?_ ?_ ?_ h
  · intro c cl i items hc _ ih; exact .mk hc ih
  · intro c i; exact .nil
  · intro c i f d fs v l l' h1 _ _ ih1 ih2; exact .cons (hx _ _ _ _ h1) ih1 ih2

theorem Uses.head {c d : String} {i v : Int} (h : Uses s e c i d v) : (d = c ∧ v = i) ∨ ∃ f c' i', Refers s c f c' ∧ HasRef e c f i i' ∧ Uses s e c' i' d v := by
  induction h with
  | self => exact Or.inl ⟨rfl, rfl⟩
  | step h1 h2 h3 ih =>
    rcases ih with ⟨rfl, rfl⟩ | ⟨f, c', i', k1, k2, k3⟩
    · exact Or.inr ⟨_, _, _, h2, h3, .self⟩
    · exact Or.inr ⟨f, c', i', k1, k2, .step k3 h2 h3⟩

theorem full_iff {c : String} {i : Int} : Full s e c i ↔ ∀ f d, Refers s c f d → ∃ v, HasRef e c f i v ∧ Full s e d v := by
  constructor
  · intro h f d hr
    obtain ⟨v, hv⟩ := h c i f d .self hr
    exact ⟨v, hv, fun d' v' f' d'' hu hr' => h d' v' f' d'' ((Uses.step .self hr hv).trans hu) hr'⟩
  · intro h d v f d' hu hr
    rcases hu.head with ⟨rfl, rfl⟩ | ⟨g, c', i', h1, h2, h3⟩
    · obtain ⟨v, hv, _⟩ := h f d' hr
      exact ⟨v, hv⟩
    · obtain ⟨v', hv', hf⟩ := h g c' h1
      have := hv'.fun h2
      subst this
      exact hf d v f d' h3 hr

theorem Full.mono (hx : Extends e e') {c : String} {i : Int} (h : Full s e c i) : Full s e' c i := by
  have back : ∀ {d v}, Uses s e' c i d v → Uses s e c i d v := by
    intro d v hu
    induction hu with
    | self => exact .self
    | step _ h2 h3 ih =>
      obtain ⟨w, hw⟩ := h _ _ _ _ ih h2
      have := (hx _ _ _ _ hw).fun h3
      subst this
      exact .step ih h2 hw
  intro d v f d' hu hr
  obtain ⟨w, hw⟩ := h d v f d' (back hu) hr
  exact ⟨w, hx _ _ _ _ hw⟩

theorem LTuple.full {c : String} {i : Int} {items : Items} (h : LTuple s e c i items) : Full s e c i := by
  refine LTuple.rec (motive_1 := fun c i _ _ => Full s e c i) (motive_2 := fun c i fs _ _ => ∀ f d, (f, d) ∈ fs → ∃ v, HasRef e c f i v ∧ Full s e d v)
    ?_ ?_ ?_ h
  · intro c cl i items hc _ ih
    exact full_iff.mpr (fun f d hr => ih f d ((refers_iff hc).mp hr))
  · intro c i f d h; cases h
  · intro c i f d fs v l l' h1 _ _ ih1 ih2 f' d' hm
    rcases List.mem_cons.mp hm with h | h
    · cases h; exact ⟨v, h1, ih1⟩
    · exact ih2 f' d' h

/-- The items follow the references. -/
theorem LTuple.follows {c : String} {i : Int} {items : Items} (h : LTuple s e c i items) : ∀ {ds}, Layout s c ds →
    Follows e ds (RefAt s c) items ∧ items[ds.length - 1]? = some i := by
  refine LTuple.rec (motive_1 := fun c i items _ => ∀ {ds}, Layout s c ds → Follows e ds (RefAt s c) items ∧ items[ds.length - 1]? = some i)
    (motive_2 := fun c i fs items _ => ∀ {es}, Sublayouts s fs es → items.length = es.length ∧ ∀ o g d ds, FieldAt s fs o g d → Layout s d ds →
      ∃ v, HasRef e c g i v ∧ items[o + ds.length - 1]? = some v ∧ ∀ a f b, RefAt s d a f b →
        ∃ x u w, ds[a]? = some x ∧ es[o + a]? = some x ∧ items[o + a]? = some u ∧ items[o + b]? = some w ∧ HasRef e x f u w) ?_ ?_ ?_ h
  · intro c cl i items hc _ ih ds hl
    obtain ⟨cl', es, hc', hs, rfl⟩ := hl.sub
    rw [hc] at hc'
    cases hc'
    obtain ⟨h1, h2⟩ := ih hs
    refine ⟨⟨by simp [h1], ?_⟩, by simp [h1]⟩
    intro a f b hr
    have up : ∀ {k : Nat} {u : Int}, items[k]? = some u → (items ++ [i])[k]? = some u := fun {k u} h => by
      rw [List.getElem?_append_left (List.getElem?_eq_some_iff.mp h).1]; exact h
    rcases (refAt_iff hc hs).mp hr with ⟨rfl, o, d, ds, k1, k2, rfl⟩ | ⟨o, g, d, a', b', k1, k2, rfl, rfl⟩
    · obtain ⟨v, q1, q2, _⟩ := h2 o f d ds k1 k2
      exact ⟨c, i, v, by simp, by simp [← h1], up q2, q1⟩
    · obtain ⟨ds, hds⟩ := k1.layout hs
      obtain ⟨v, _, _, q3⟩ := h2 o g d ds k1 hds
      obtain ⟨x, u, w, r1, r2, r3, r4, r5⟩ := q3 a' f b' k2
      exact ⟨x, u, w, by rw [List.getElem?_append_left (List.getElem?_eq_some_iff.mp r2).1]; exact r2, up r3, up r4, r5⟩
  · intro c i es hs
    cases hs
    refine ⟨rfl, ?_⟩
    rintro o g d ds ⟨pre, post, es, h, _⟩
    simp at h
  · intro c i f d fs v l l' h1 _ _ ih1 ih2 es hs
    cases hs with
    | @cons _ _ _ dx dxs ha hb =>
      obtain ⟨⟨p1, p2⟩, p3⟩ := ih1 ha
      obtain ⟨q1, q2⟩ := ih2 hb
      refine ⟨by simp [p1, q1], ?_⟩
      intro o g y ds hf hds
      have hpos := hds.length_pos
      rcases (fieldAt_cons (x := (f, d)) ha).mp hf with ⟨rfl, e⟩ | ⟨o', rfl, hf'⟩
      · cases e
        have := layout_unique ha hds
        subst this
        refine ⟨v, h1, ?_, ?_⟩
        · rw [Nat.zero_add, List.getElem?_append_left (by omega)]
          exact p3
        · intro a k b hr
          obtain ⟨x, u, w, r1, r2, r3, r4⟩ := p2 a k b hr
          refine ⟨x, u, w, r1, ?_, ?_, ?_, r4⟩
          · rw [Nat.zero_add, List.getElem?_append_left (List.getElem?_eq_some_iff.mp r1).1]; exact r1
          · rw [Nat.zero_add, List.getElem?_append_left (List.getElem?_eq_some_iff.mp r2).1]; exact r2
          · rw [Nat.zero_add, List.getElem?_append_left (List.getElem?_eq_some_iff.mp r3).1]; exact r3
      · obtain ⟨v', r1, r2, r3⟩ := q2 o' g y ds hf' hds
        refine ⟨v', r1, ?_, ?_⟩
        · rw [List.getElem?_append_right (by omega)]
          have : dx.length + o' + ds.length - 1 - l.length = o' + ds.length - 1 := by omega
          rw [this]
          exact r2
        · intro a k b hr
          obtain ⟨x, u, w, t1, t2, t3, t4, t5⟩ := r3 a k b hr
          refine ⟨x, u, w, t1, ?_, ?_, ?_, t5⟩
          · rw [Nat.add_assoc, List.getElem?_append_right (by omega), Nat.add_sub_cancel_left]; exact t2
          · rw [Nat.add_assoc, List.getElem?_append_right (by omega), p1, Nat.add_sub_cancel_left]; exact t3
          · rw [Nat.add_assoc, List.getElem?_append_right (by omega), p1, Nat.add_sub_cancel_left]; exact t4

end

variable {s : PClean.Schema} {hash : String → Int}

theorem sampleRef_spec {c f : String} {i : Int} {d : String} {e e' : Ents} {t t' : Tape} (h : sampleRef hash c f i d e t = .ok (e', t')) :
    ∃ v, addRef hash c f i d v e = .ok e' := by
  unfold sampleRef at h
  simp only [bind_ok] at h
  obtain ⟨crp, h1, e₁, h2, h3⟩ := h
  cases h3
  exact ⟨_, h2⟩

theorem ensureRef_spec {c f : String} {i : Int} {d : String} {e e' : Ents} {t t' : Tape} (hr : Refers s c f d) (h : ensureRef hash c f i d e t = .ok (e', t')) :
    Grow s hash (From s c i) e e' ∧ ((∃ v, HasRef e c f i v) → e' = e ∧ t' = t) := by
  unfold ensureRef at h
  rw [bind_ok] at h
  obtain ⟨m, h1, h2⟩ := h
  have h1 := FMap.atKey_ok.mp h1
  split at h2
  · cases h2
    exact ⟨.refl, fun _ => ⟨rfl, rfl⟩⟩
  · rename_i hno
    have hn : ∀ w, ¬ HasRef e c f i w := by
      rintro w ⟨m', k1, k2⟩
      rw [h1] at k1
      cases k1
      exact hno (FMap.contains_iff.mpr ⟨w, k2⟩)
    obtain ⟨v, hv⟩ := sampleRef_spec h2
    exact ⟨.single hr hn .self hv, fun ⟨v, hv⟩ => absurd hv (hn v)⟩

theorem ancestorsLoop_spec {rec : String → Int → Ents → Tape → Res (Items × Ents × Tape)}
    (hrec : ∀ d v e t items e' t', rec d v e t = .ok (items, e', t') → Grow s hash (From s d v) e e' ∧ LTuple s e' d v items ∧ (Full s e d v → e' = e ∧ t' = t))
    {c : String} {i : Int} {vs : List (String × Variable)} (hvs : ∀ f d, (f, d) ∈ fieldsOf vs → Refers s c f d) {items : Items} {e : Ents} {t : Tape} {items' : Items}
    {e' : Ents} {t' : Tape} (h : ancestorsLoop rec hash c i vs items e t = .ok (items', e', t')) :
    Grow s hash (From s c i) e e' ∧ (∃ l, items' = items ++ l ∧ LSub s e' c i (fieldsOf vs) l) ∧
      ((∀ f d, (f, d) ∈ fieldsOf vs → ∃ v, HasRef e c f i v ∧ Full s e d v) → e' = e ∧ t' = t) := by
  induction vs generalizing items e t with
  | nil =>
    cases h
    exact ⟨.refl, ⟨[], by simp, .nil⟩, fun _ => ⟨rfl, rfl⟩⟩
  | cons x vs ih =>
    obtain ⟨f, v⟩ := x
    unfold ancestorsLoop at h
    split at h
    · rename_i j p hsp
      rw [fieldsOf_scalar hsp] at hvs ⊢
      exact ih hvs h
    · rename_i d hsp
      rw [fieldsOf_cls hsp] at hvs ⊢
      simp only [bind_ok] at h
      obtain ⟨⟨e₁, t₁⟩, h1, r, h2, ⟨l, e₂, t₂⟩, h3, h4⟩ := h
      have hr := hvs f d (List.mem_cons_self ..)
      obtain ⟨g1, n1⟩ := ensureRef_spec hr h1
      have hv := getRef_ok.mp h2
      obtain ⟨g2, l2, n2⟩ := hrec _ _ _ _ _ _ _ h3
      obtain ⟨g3, ⟨l', e3, l3⟩, n3⟩ := ih (fun f d h => hvs f d (List.mem_cons_of_mem _ h)) h4
      have g2' : Grow s hash (From s c i) e₁ e₂ := g2.mono (fun e' _ _ _ _ _ hx' hp => hp.root (.step .self hr hv) hx')
      refine ⟨(g1.trans g2').trans g3, ⟨l ++ l', by rw [e3, List.append_assoc], .cons ((g2.extends.trans g3.extends) _ _ _ _ hv) (l2.mono g3.extends) l3⟩, ?_⟩
      intro hfull
      obtain ⟨w, hw, hwf⟩ := hfull f d (List.mem_cons_self ..)
      obtain ⟨rfl, rfl⟩ := n1 ⟨w, hw⟩
      have := hw.fun hv
      subst this
      obtain ⟨rfl, rfl⟩ := n2 hwf
      exact n3 (fun f d h => hfull f d (List.mem_cons_of_mem _ h))

/-- What `sample_class_ancestors` does. -/
theorem sampleAncestors_spec (n : Nat) : ∀ c i e t items e' t', sampleAncestors s hash n c i e t = .ok (items, e', t') →
    Grow s hash (From s c i) e e' ∧ LTuple s e' c i items ∧ (Full s e c i → e' = e ∧ t' = t) := by
  induction n with
  | zero => intro c i e t items e' t' h; cases h
  | succ n ih =>
    intro c i e t items e' t' h
    unfold sampleAncestors at h
    simp only [bind_ok] at h
    obtain ⟨cl, h1, ⟨l, e₁, t₁⟩, h2, h3⟩ := h
    cases h3
    have hc : s.classes.find? c = some cl := by
      unfold getClass at h1
      split at h1
      · cases h1
      · cases h1; assumption
    obtain ⟨g, ⟨l', e1, l1⟩, n1⟩ := ancestorsLoop_spec ih (fun f d h => (refers_iff hc).mpr h) h2
    simp only [List.nil_append] at e1
    subst e1
    refine ⟨g, .mk hc l1, fun hf => n1 ?_⟩
    intro f d hm
    exact full_iff.mp hf f d ((refers_iff hc).mpr hm)

theorem refTarget_ok {c f d : String} : refTarget s c f = .ok d ↔ Refers s c f d := by
  unfold refTarget
  simp only [bind_ok]
  constructor
  · rintro ⟨cl, h1, v, h2, h3⟩
    split at h3
    · cases h3
    · rename_i d' hd
      cases h3
      refine ⟨cl, FMap.atKey_ok.mp h1, ?_⟩
      unfold refFields
      refine List.mem_filterMap.mpr ⟨(f, v), FMap.mem_entries.mpr (FMap.atKey_ok.mp h2), ?_⟩
      simp only [hd]
  · intro h
    obtain ⟨cl, v, h1, h2, h3⟩ := refers_var h
    exact ⟨cl, FMap.atKey_ok.mpr h1, v, FMap.atKey_ok.mpr h2, by rw [h3]⟩

theorem Follows.snoc {e : Ents} {ds : List String} {E : Nat → String → Nat → Prop} {items : Items} (h : Follows e ds E items) {c f : String} {i v : Int}
    (hds : ds ≠ []) (hv : items[ds.length - 1]? = some v) (hr : HasRef e c f i v) : Follows e (ds ++ [c]) (Snoc ds.length f E) (items ++ [i]) := by
  have hpos := List.length_pos_of_ne_nil hds
  obtain ⟨h1, h2⟩ := h
  refine ⟨by simp [h1], ?_⟩
  rintro a g b (hE | ⟨rfl, rfl, hb⟩)
  · obtain ⟨x, u, w, k1, k2, k3, k4⟩ := h2 a g b hE
    refine ⟨x, u, w, ?_, ?_, ?_, k4⟩
    · rw [List.getElem?_append_left (List.getElem?_eq_some_iff.mp k1).1]; exact k1
    · rw [List.getElem?_append_left (List.getElem?_eq_some_iff.mp k2).1]; exact k2
    · rw [List.getElem?_append_left (List.getElem?_eq_some_iff.mp k3).1]; exact k3
  · refine ⟨c, i, v, by simp, by simp [← h1], ?_, hr⟩
    rw [List.getElem?_append_left (by omega), show b = ds.length - 1 by omega]
    exact hv

theorem Follows.mono {e e' : Ents} (hx : Extends e e') {ds : List String} {E : Nat → String → Nat → Prop} {items : Items} (h : Follows e ds E items) :
    Follows e' ds E items := by
  refine ⟨h.1, ?_⟩
  intro a f b hE
  obtain ⟨c, u, w, k1, k2, k3, k4⟩ := h.2 a f b hE
  exact ⟨c, u, w, k1, k2, k3, hx _ _ _ _ k4⟩

theorem Follows.sub {e : Ents} {ds : List String} {E E' : Nat → String → Nat → Prop} {items : Items} (h : Follows e ds E items)
    (hE : ∀ i f j, E' i f j → E i f j) : Follows e ds E' items := ⟨h.1, fun a f b h' => h.2 a f b (hE _ _ _ h')⟩

theorem tupleRef_nil {d : String} {n i : Nat} {f : String} {j : Nat} : TupleRef s d n [] i f j ↔ RefAt s d i f j := by
  unfold TupleRef HopRef
  simp

/-- What `sample_entities_relation` does. -/
theorem sampleEntities_spec {c : String} {path : List String} {hops : List (String × String)} {d x j : String} {p : FMap String String}
    (hp : PathTo s c path hops d x j p) {ds : List String} (hl : Layout s d ds) : ∀ {i : Int} {e : Ents} {t : Tape} {items : Items} {e' : Ents} {t' : Tape},
    sampleEntities s hash c path i e t = .ok (items, e', t') → Grow s hash (From s c i) e e' ∧
      Follows e' (ds ++ hops.reverse.map (·.1)) (TupleRef s d ds.length hops) items ∧ items[ds.length + hops.length - 1]? = some i := by
  induction hp with
  | here hs =>
    intro i e t items e' t' h
    unfold sampleEntities at h
    obtain ⟨g, l, _⟩ := sampleAncestors_spec _ _ _ _ _ _ _ _ h
    obtain ⟨f1, f2⟩ := l.follows hl
    simp only [List.reverse_nil, List.map_nil, List.append_nil, List.length_nil, Nat.add_zero]
    exact ⟨g, f1.sub (fun _ _ _ h => tupleRef_nil.mp h), f2⟩
  | @step c f d' path hops d x j p hr hp ih =>
    intro i e t items e' t' h
    obtain ⟨g, path, rfl⟩ : ∃ g path', path = g :: path' := by
      cases hp with
      | here _ => exact ⟨_, _, rfl⟩
      | step _ _ => exact ⟨_, _, rfl⟩
    unfold sampleEntities at h
    simp only [bind_ok] at h
    obtain ⟨d₁, h1, ⟨e₁, t₁⟩, h2, r, h3, ⟨l, e₂, t₂⟩, h4, h5⟩ := h
    cases h5
    have := refers_fun (refTarget_ok.mp h1) hr
    subst this
    obtain ⟨g1, _⟩ := ensureRef_spec hr h2
    have hv := getRef_ok.mp h3
    obtain ⟨g2, f2, l2⟩ := ih hl h4
    have hlen : (ds ++ hops.reverse.map (·.1)).length = ds.length + hops.length := by simp
    have hne : ds ++ hops.reverse.map (·.1) ≠ [] := by
      have := hl.length_pos
      intro h
      rw [h] at hlen
      simp at hlen
      omega
    have f3 := f2.snoc (c := c) (f := f) (i := i) hne (by rw [hlen]; exact l2) (g2.extends _ _ _ _ hv)
    rw [hlen] at f3
    refine ⟨g1.trans (g2.mono (fun e' _ _ _ _ _ hx' hp => hp.root (.step .self hr hv) hx')), ?_, ?_⟩
    · have e : ds ++ ((c, f) :: hops).reverse.map (·.1) = (ds ++ hops.reverse.map (·.1)) ++ [c] := by simp
      rw [e]
      exact f3.sub (fun _ _ _ h => tupleRef_cons.mp h)
    · have := f2.1
      rw [hlen] at this
      rw [List.getElem?_append_right (by simp; omega)]
      simp [this]

/-! ### When the functions fail -/

/-- The state in which a reference of an entity that is reached from the entity `i₀` of `c₀` cannot be added, since another reference to the same class has the
same identifier. -/
def Clash (s : PClean.Schema) (hash : String → Int) (c₀ : String) (i₀ : Int) (e : Ents) : Prop :=
  ∃ c f i d c' f' i' w, Uses s e c₀ i₀ c i ∧ Refers s c f d ∧ (∀ v, ¬ HasRef e c f i v) ∧ Refers s c' f' d ∧ HasRef e c' f' i' w ∧
    refId hash c' f' i' = refId hash c f i

/-- The computation succeeds, or it fails with an assertion because of a clash of identifiers. -/
def OkOr {α : Type _} (s : PClean.Schema) (hash : String → Int) (c₀ : String) (i₀ : Int) (e : Ents) (x : Res α) : Prop :=
  (∃ a, x = .ok a) ∨ x = .error .assert ∧ ∃ e', Grow s hash (From s c₀ i₀) e e' ∧ Clash s hash c₀ i₀ e'

theorem Clash.root {c₀ c₁ : String} {i₀ i₁ : Int} {e₀ e : Ents} (hu : Uses s e₀ c₀ i₀ c₁ i₁) (hx : Extends e₀ e) (h : Clash s hash c₁ i₁ e) :
    Clash s hash c₀ i₀ e := by
  obtain ⟨c, f, i, d, c', f', i', w, h1, h2⟩ := h
  exact ⟨c, f, i, d, c', f', i', w, (hu.mono hx).trans h1, h2⟩

theorem OkOr.root {α : Type _} {c₀ c₁ : String} {i₀ i₁ : Int} {e : Ents} {x : Res α} (hu : Uses s e c₀ i₀ c₁ i₁) (h : OkOr s hash c₁ i₁ e x) :
    OkOr s hash c₀ i₀ e x := by
  rcases h with h | ⟨h, e', g, cl⟩
  · exact Or.inl h
  · exact Or.inr ⟨h, e', g.mono (fun _ _ _ _ _ _ hx hp => hp.root hu hx), cl.root hu g.extends⟩

theorem OkOr.grow {α : Type _} {c₀ : String} {i₀ : Int} {e e₁ : Ents} {x : Res α} (g : Grow s hash (From s c₀ i₀) e e₁) (h : OkOr s hash c₀ i₀ e₁ x) :
    OkOr s hash c₀ i₀ e x := by
  rcases h with h | ⟨h, e', g', cl⟩
  · exact Or.inl h
  · exact Or.inr ⟨h, e', g.trans g', cl⟩

theorem OkOr.bind {α β : Type _} {c₀ : String} {i₀ : Int} {e : Ents} {x : Res α} {k : α → Res β} (h : OkOr s hash c₀ i₀ e x)
    (hk : ∀ a, x = .ok a → OkOr s hash c₀ i₀ e (k a)) : OkOr s hash c₀ i₀ e (x >>= k) := by
  rcases h with ⟨a, h⟩ | ⟨h, h'⟩
  · subst h
    exact hk a rfl
  · subst h
    exact Or.inr ⟨rfl, h'⟩

theorem OkOr.ok {α : Type _} {c₀ : String} {i₀ : Int} {e : Ents} {a : α} : OkOr s hash c₀ i₀ e (.ok a : Res α) := Or.inl ⟨a, rfl⟩

theorem OkOr.of {α : Type _} {c₀ : String} {i₀ : Int} {e : Ents} {x : Res α} {a : α} (h : x = .ok a) : OkOr s hash c₀ i₀ e x := Or.inl ⟨a, h⟩

theorem addRef_okOr {e : Ents} (he : EntsOk s hash e) (hcl : Closed s) {c f : String} {i : Int} {d : String} (v : Int) (hr : Refers s c f d)
    (hn : ∀ v, ¬ HasRef e c f i v) : OkOr s hash c i e (addRef hash c f i d v e) := by
  have hc : ∃ cl, s.classes.find? c = some cl := by obtain ⟨cl, h, _⟩ := hr; exact ⟨cl, h⟩
  rcases addRef_defined he i v hc (hcl c f d hr) with h | ⟨h, c', f', i', w, h1, h2, h3⟩
  · exact Or.inl h
  · exact Or.inr ⟨h, e, .refl, c, f, i, d, c', f', i', w, .self, hr, hn, h1, h2, h3⟩

theorem not_hasRef {e : Ents} {c f : String} {i : Int} {m : FMap (String × Int) Int} (hm : e.refs.find? c = some m) (hno : ¬ m.contains (f, i) = true) :
    ∀ v, ¬ HasRef e c f i v := by
  rintro w ⟨m', k1, k2⟩
  rw [hm] at k1
  cases k1
  exact hno (FMap.contains_iff.mpr ⟨w, k2⟩)

theorem ensureRef_okOr {e : Ents} (he : EntsOk s hash e) (hcl : Closed s) {c f : String} {i : Int} {d : String} (hr : Refers s c f d) (t : Tape) :
    OkOr s hash c i e (ensureRef hash c f i d e t) := by
  have hc : ∃ cl, s.classes.find? c = some cl := by obtain ⟨cl, h, _⟩ := hr; exact ⟨cl, h⟩
  obtain ⟨cl, hc⟩ := hc
  obtain ⟨cl', hd⟩ := hcl c f d hr
  obtain ⟨⟨m, hm⟩, _⟩ := he.cls c cl hc
  obtain ⟨_, crp, hcrp⟩ := he.cls d cl' hd
  unfold ensureRef
  refine OkOr.bind (.of (FMap.atKey_of_find hm)) ?_
  intro m' hm'
  rw [FMap.atKey_of_find hm] at hm'
  cases hm'
  split
  · exact .ok
  · rename_i hno
    unfold sampleRef
    refine OkOr.bind (.of (FMap.atKey_of_find hcrp)) ?_
    intro crp' _
    refine OkOr.bind (addRef_okOr he hcl _ hr (not_hasRef hm hno)) ?_
    intro e' _
    exact .ok

theorem ensureRef_hasRef {c f : String} {i : Int} {d : String} {e e' : Ents} {t t' : Tape} (h : ensureRef hash c f i d e t = .ok (e', t')) :
    ∃ v, HasRef e' c f i v := by
  unfold ensureRef at h
  rw [bind_ok] at h
  obtain ⟨m, h1, h2⟩ := h
  split at h2
  · rename_i hc
    cases h2
    obtain ⟨v, hv⟩ := FMap.contains_iff.mp hc
    exact ⟨v, m, FMap.atKey_ok.mp h1, hv⟩
  · obtain ⟨v, hv⟩ := sampleRef_spec h2
    exact ⟨v, (addRef_hasRef hv c f i v).mpr (by simp)⟩

theorem ancestorsLoop_okOr (hcl : Closed s) {rec : String → Int → Ents → Tape → Res (Items × Ents × Tape)} {c : String} {i : Int} {vs : List (String × Variable)}
    (hspec : ∀ d v e t items e' t', rec d v e t = .ok (items, e', t') → Grow s hash (From s d v) e e')
    (hrec : ∀ f d, (f, d) ∈ fieldsOf vs → ∀ v e t, EntsOk s hash e → OkOr s hash d v e (rec d v e t))
    (hvs : ∀ f d, (f, d) ∈ fieldsOf vs → Refers s c f d) (items : Items) {e : Ents} (he : EntsOk s hash e) (t : Tape) :
    OkOr s hash c i e (ancestorsLoop rec hash c i vs items e t) := by
  induction vs generalizing items e t with
  | nil => exact .ok
  | cons x vs ih =>
    obtain ⟨f, v⟩ := x
    unfold ancestorsLoop
    split
    · rename_i j p hsp
      rw [fieldsOf_scalar hsp] at hvs hrec
      exact ih hrec hvs items he t
    · rename_i d hsp
      rw [fieldsOf_cls hsp] at hvs hrec
      have hr := hvs f d (List.mem_cons_self ..)
      refine OkOr.bind (ensureRef_okOr he hcl hr t) ?_
      rintro ⟨e₁, t₁⟩ h1
      obtain ⟨g1, _⟩ := ensureRef_spec hr h1
      obtain ⟨r, hv⟩ := ensureRef_hasRef h1
      refine OkOr.grow g1 ?_
      refine OkOr.bind (.of (getRef_ok.mpr hv)) ?_
      intro r' hr'
      rw [getRef_ok.mpr hv] at hr'
      cases hr'
      refine OkOr.bind ((hrec f d (List.mem_cons_self ..) r e₁ t₁ (g1.ok he)).root (.step .self hr hv)) ?_
      rintro ⟨l, e₂, t₂⟩ h2
      have g2 := (hspec _ _ _ _ _ _ _ h2).mono (Q := From s c i) (fun e' _ _ _ _ _ hx' hp => hp.root (.step .self hr hv) hx')
      exact OkOr.grow g2 (ih (fun f d h => hrec f d (List.mem_cons_of_mem _ h)) (fun f d h => hvs f d (List.mem_cons_of_mem _ h)) _ (g2.ok (g1.ok he)) t₂)

/-- `sample_class_ancestors` succeeds unless there is a clash of identifiers. -/
theorem sampleAncestors_okOr (hcl : Closed s) {r : String → Nat} (hr : ∀ c f d, Refers s c f d → r d < r c) (n : Nat) : ∀ c, (∃ cl, s.classes.find? c = some cl) →
    r c < n → ∀ i e t, EntsOk s hash e → OkOr s hash c i e (sampleAncestors s hash n c i e t) := by
  induction n with
  | zero => intro c _ h; omega
  | succ n ih =>
    rintro c ⟨cl, hc⟩ hlt i e t he
    unfold sampleAncestors
    have hg : getClass s c = .ok cl := by unfold getClass; rw [hc]
    refine OkOr.bind (.of hg) ?_
    intro cl' hcl'
    rw [hg] at hcl'
    cases hcl'
    have hvs : ∀ f d, (f, d) ∈ fieldsOf cl.vars.entries → Refers s c f d := fun f d h => (refers_iff hc).mpr h
    refine OkOr.bind (ancestorsLoop_okOr hcl (fun d v e t items e' t' h => (sampleAncestors_spec n d v e t items e' t' h).1) ?_ hvs [] he t) ?_
    · intro f d hm v e t he
      have hrd := hvs f d hm
      have := hr c f d hrd
      exact ih d (hcl c f d hrd) (by omega) v e t he
    · intro _ _
      exact .ok

/-- `sample_entities_relation` succeeds unless there is a clash of identifiers. -/
theorem sampleEntities_okOr (hcl : Closed s) (ha : Acyclic s) {c : String} {path : List String} {hops : List (String × String)} {d x j : String}
    {p : FMap String String} (hp : PathTo s c path hops d x j p) {ds : List String} (hl : Layout s d ds) : ∀ {i : Int} {e : Ents} (t : Tape), EntsOk s hash e →
    OkOr s hash c i e (sampleEntities s hash c path i e t) := by
  obtain ⟨r, hr, hb⟩ := ha.rank hcl
  induction hp with
  | here hs =>
    intro i e t he
    unfold sampleEntities
    obtain ⟨cl, v, hc, _⟩ := hs
    exact sampleAncestors_okOr hcl hr _ _ ⟨cl, hc⟩ (hb _) i e t he
  | @step c f d' path hops d x j p hrf hp ih =>
    intro i e t he
    obtain ⟨g, path, rfl⟩ : ∃ g path', path = g :: path' := by
      cases hp with
      | here _ => exact ⟨_, _, rfl⟩
      | step _ _ => exact ⟨_, _, rfl⟩
    unfold sampleEntities
    refine OkOr.bind (.of (refTarget_ok.mpr hrf)) ?_
    intro d₁ h1
    have := refers_fun (refTarget_ok.mp h1) hrf
    subst this
    refine OkOr.bind (ensureRef_okOr he hcl hrf t) ?_
    rintro ⟨e₁, t₁⟩ h1
    obtain ⟨g1, _⟩ := ensureRef_spec hrf h1
    obtain ⟨r', hv⟩ := ensureRef_hasRef h1
    refine OkOr.grow g1 ?_
    refine OkOr.bind (.of (getRef_ok.mpr hv)) ?_
    intro r'' hr'
    rw [getRef_ok.mpr hv] at hr'
    cases hr'
    refine OkOr.bind ((ih hl t₁ (g1.ok he)).root (.step .self hrf hv)) ?_
    intro _ _
    exact .ok

end GenDB
end Verif
