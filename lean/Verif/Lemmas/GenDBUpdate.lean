import Verif.Spec.GenDBUpdate
import Verif.Lemmas.GenDBHeld
import Verif.Lemmas.GenDBHistory
import Verif.Lemmas.GenDBFill
/-! The tuples of the relations of a database, and what `update_reference_items` does with them. -/
namespace Verif
namespace GenDB
open PClean
noncomputable section
variable {V : Type} {F : Family V} {s : PClean.Schema} {hash : String → Int} {mkC : String → FMap String String → Res F.C}
  {mkE : String → FMap String String → Res F.E} {clean finalOnly : Bool} {D₀ : DB F}

/-- what a relation that has been laid out is -/
structure Sited (s : PClean.Schema) (finalOnly : Bool) (D₀ : DB F) (n c : String) (spec : RelSpec F) : Prop where
  known : D₀.H.schema.find? n = some spec
  last : spec.doms.getLast? = some c
  tree : TreeIdx s spec.doms (RelEntry D₀.relIdx n)
  rooted : Rooted spec.doms (RelEntry D₀.relIdx n)
  of : ∀ e i k, RowOf D₀ e n i k → Belongs s finalOnly e n c i k

/-- a tuple of a relation by its kind -/
theorem rowOf_kind {b : Build F} (h3 : D₀.relIdx = b.relIdx) {n c d : String} {spec : RelSpec F} {hops : List (String × String)} {ds : List String}
    (hn : D₀.H.schema.find? n = some spec) (hk : Kind s b n spec c hops d ds) (hc : ∀ i f j, TupleRef s d ds.length hops i f j → RelEntry b.relIdx n i f j)
    (e : Ents) (i : Int) (k : Items) : RowOf D₀ e n i k ↔ Follows e (ds ++ hops.reverse.map (·.1)) (TupleRef s d ds.length hops) k ∧ k.getLast? = some i := by
  have heq : RelEntry D₀.relIdx n = TupleRef s d ds.length hops := by
    funext a g j
    rw [h3]
    exact propext ⟨hk.sound a g j, hc a g j⟩
  unfold RowOf
  rw [heq, ← hk.doms]
  constructor
  · rintro ⟨spec', k1, k2⟩
    rw [hn] at k1
    cases k1
    exact k2
  · intro h
    exact ⟨spec, hn, h⟩

theorem tupleRef_refAt {d : String} {n : Nat} : TupleRef s d n [] = RefAt s d := by
  funext i g j
  exact propext tupleRef_nil

theorem Laid.belongs (hm : Laid s hash mkC mkE clean finalOnly D₀) (hf : Fine s clean) (hi : Indexed s finalOnly) {e : Ents} {n c : String} {i : Int} {k : Items}
    (h : Belongs s finalOnly e n c i k) : RowOf D₀ e n i k ∧ ∃ spec, Sited s finalOnly D₀ n c spec := by
  obtain ⟨Ly, b, h1, h2, h3, h4⟩ := hm.build
  rcases h with ⟨rfl, h⟩ | ⟨hc, x, j, p, hs, rfl, h⟩ | ⟨rfl, h⟩
  · have hq : Queried D₀ n := by
      obtain ⟨f, _, _, _, _, _, _, hq, _⟩ := h
      exact ⟨f, by rw [hm.schema]; exact hq⟩
    obtain ⟨spec, a1, _, a3, a4, a5, a6⟩ := hm.rowOf hf hi hq
    rw [hm.schema] at a3 a4
    exact ⟨(a6 _ _ _).mpr h, spec, a1, a3, a4, a5, fun e i k h => Or.inl ⟨rfl, (a6 _ _ _).mp h⟩⟩
  · obtain ⟨C, ds', _, _, a3⟩ := (C62_relations hf.names hf.query h1 h2).1 c x j p hs (fun h => hc h.2.1)
    obtain ⟨ds, hk⟩ := kind_var hf h1 h2 hs a3
    obtain ⟨t1, t2, t3, t4⟩ := hk.tree
    have hn : D₀.H.schema.find? (varRel c x) = some (.clean C ds' false) := by rw [h4]; exact a3
    have hrow := rowOf_kind h3 hn hk (hk.complete hc)
    have heq : RelEntry D₀.relIdx (varRel c x) = TupleRef s c ds.length [] := by
      funext a g j'
      rw [h3]
      exact propext ⟨hk.sound a g j', hk.complete hc a g j'⟩
    have hplace : ∀ e i k, RowOf D₀ e (varRel c x) i k ↔ PlaceOf s e c i k := by
      intro e i k
      rw [hrow, tupleRef_refAt]
      simp only [List.reverse_nil, List.map_nil, List.append_nil]
      constructor
      · exact fun h => ⟨ds, hk.layout, h⟩
      · rintro ⟨ds₂, g1, g2⟩
        have := layout_unique hk.layout g1
        subst this
        exact g2
    exact ⟨(hplace _ _ _).mpr h, _, hn, t3, by rw [heq]; exact t1, by rw [heq]; exact t2, fun e i k h => Or.inr (Or.inl ⟨hc, x, j, p, hs, rfl, (hplace _ _ _).mp h⟩)⟩
  · obtain ⟨q, f, hops, d, x, j, p, ds, pre, g, post, g1, g2, g3, g4, g5, rfl, g7⟩ := h
    have hl : linkRel q pre c = viaRel c q := by
      unfold linkRel
      cases pre with
      | nil => exact absurd rfl g5
      | cons a l => rfl
    obtain ⟨e', q1, q2⟩ := kind_link hf h1 h2 g1 g2 g3 g4
    have hk := kind_of_link hf h1 h2 g1 g2 g3 g4 q1
    rw [hl] at q1 q2 hk
    obtain ⟨t1, t2, t3, t4⟩ := hk.tree
    have hn := q1
    rw [← h4] at hn
    have hrow := rowOf_kind h3 hn hk (fun _ _ _ => (q2 _ _ _).mpr)
    have heq : RelEntry D₀.relIdx (viaRel c q) = TupleRef s d ds.length ((c, g) :: post) := by
      funext a g j'
      rw [h3]
      exact propext (q2 a g j')
    exact ⟨(hrow _ _ _).mpr g7, _, hn, t3, by rw [heq]; exact t1, by rw [heq]; exact t2,
      fun e i k h => Or.inr (Or.inr ⟨rfl, q, f, hops, d, x, j, p, ds, pre, g, post, g1, g2, g3, g4, g5, rfl, (hrow _ _ _).mp h⟩)⟩

/-- the tuples of the relations of other classes -/
theorem Laid.lower (hm : Laid s hash mkC mkE clean finalOnly D₀) (hf : Fine s clean) {e : Ents} {n : String} {k : Items} (h : Lower D₀ e n k) :
    ∃ c i, Belongs s finalOnly e n c i k := by
  obtain ⟨Ly, b, h1, h2, h3, h4⟩ := hm.build
  obtain ⟨spec, c, l1, l2, l3, l4⟩ := h
  rw [hm.schema] at l3
  have hb : b.schema.find? n = some spec := by rw [← h4]; exact l1
  have hk0 : k ≠ [] := by
    rintro rfl
    have : spec.doms = [] := List.length_eq_zero_iff.mp l4.1.symm
    rw [this] at l2
    cases l2
  have hrow : RowOf D₀ e n (k.getLast hk0) k := ⟨spec, l1, l4, List.getLast?_eq_some_getLast hk0⟩
  refine ⟨c, k.getLast hk0, ?_⟩
  rcases (C62_relations hf.names hf.query h1 h2).2.2 n spec hb with ⟨c', x, j, p, hs, rfl⟩ | ⟨q, f, hq, rfl | ⟨hops, d, x, j, p, hp, a, ha, rfl⟩⟩
  · obtain ⟨ds, hk⟩ := kind_var hf h1 h2 hs hb
    obtain ⟨_, _, t3, _⟩ := hk.tree
    rw [l2] at t3
    cases t3
    have := (rowOf_kind h3 l1 hk (hk.complete l3) _ _ _).mp hrow
    rw [tupleRef_refAt] at this
    simp only [List.reverse_nil, List.map_nil, List.append_nil] at this
    exact Or.inr (Or.inl ⟨l3, x, j, p, hs, rfl, ds, hk.layout, this⟩)
  · exfalso
    obtain ⟨hops, d, x, j, p, hp⟩ := hf.query.path n f hq
    obtain ⟨ds, hd⟩ := field_layout h1 hp
    obtain ⟨_, _, t3, _⟩ := (kind_field hf h1 h2 hq hp hd hb).tree
    rw [l2] at t3
    cases t3
    exact l3 rfl
  · obtain ⟨ds, hd⟩ := field_layout h1 hp
    cases finalOnly with
    | true => simp [viaHops] at ha
    | false =>
      cases hops with
      | nil => simp [viaHops] at ha
      | cons hop hops =>
        simp only [viaHops, Bool.false_eq_true, if_false, List.tail_cons] at ha
        obtain ⟨pre, post, he⟩ := List.append_of_mem ha
        obtain ⟨c', g⟩ := a
        have hl : linkRel q (hop :: pre) c' = viaRel c' q := by simp [linkRel]
        have he' : hop :: hops = (hop :: pre) ++ (c', g) :: post := by rw [he]; rfl
        have hk := kind_of_link hf h1 h2 hq hp hd he' (spec := spec) (by rw [hl]; exact hb)
        rw [hl] at hk
        obtain ⟨_, _, t3, _⟩ := hk.tree
        rw [l2] at t3
        cases t3
        exact Or.inr (Or.inr ⟨rfl, q, f, _, d, x, j, p, ds, hop :: pre, g, post, hq, hp, hd, he', by simp, rfl, (rowOf_kind h3 l1 hk (hk.complete l3) _ _ _).mp hrow⟩)

section
variable {n c : String} {spec : RelSpec F}

theorem Sited.unique (h : Sited s finalOnly D₀ n c spec) {e : Ents} {i : Int} {k k' : Items} (hk : RowOf D₀ e n i k) (hk' : RowOf D₀ e n i k') : k = k' := by
  have l := RowOf.last h.known hk
  have l' := RowOf.last h.known hk'
  obtain ⟨_, h1, h2, _⟩ := hk
  obtain ⟨_, h1', h2', _⟩ := hk'
  rw [h.known] at h1 h1'
  cases h1
  cases h1'
  exact Follows.unique h.tree h.rooted h2 h2' (l.trans l'.symm)

theorem Sited.renewed (h : Sited s finalOnly D₀ n c spec) {e e' : Ents} {i : Int} {k k' : Items} (hk : RowOf D₀ e n i k)
    (hn : Renewed D₀.H.schema D₀.relIdx e' n k k') : RowOf D₀ e' n i k' := by
  obtain ⟨spec', h1, h2, h3⟩ := hk
  rw [h.known] at h1
  cases h1
  obtain ⟨j, hj, hk⟩ := hn
  unfold DB.back at hj
  rw [h3] at hj
  cases hj
  rw [h2.1] at hk
  have hd : spec.doms[spec.doms.length - 1]? = some c := by rw [← List.getLast?_eq_getElem?]; exact h.last
  have hne : spec.doms ≠ [] := by rintro h0; have := h.last; rw [h0] at this; cases this
  obtain ⟨f1, f2, _⟩ := Filled.follows h.tree h.rooted (by simp) (relationItems_spec h.known h.tree _ _ _ _ _ hk _ hd)
  refine ⟨spec, h.known, f1, ?_⟩
  rw [List.getLast?_eq_getElem?, f1.1]
  exact f2 hne

end

/-- what `update_reference_items` does with the tuples of a relation -/
theorem updateItems_tuples {c f : String} {i w : Int} {e : Ents} {st st' : Stored V} {n d : String} {spec : RelSpec F} (hp : Sited s finalOnly D₀ n d spec)
    (hst : ∀ k v, part st n k = some v → ∃ j, RowOf D₀ e n j k) (h : updateItems D₀.H.schema D₀.relIdx e c f i w st = .ok st') :
    ∃ e', setRef e c f i w = .ok e' ∧ ∀ k' v, part st' n k' = some v ↔ ∃ k j, part st n k = some v ∧ RowOf D₀ e n j k ∧ RowOf D₀ e' n j k' := by
  obtain ⟨e', h1, h2, h3⟩ := updateItems_spec h
  refine ⟨e', h1, fun k' v => ⟨fun hv => ?_, ?_⟩⟩
  · obtain ⟨k, a1, a2⟩ := h3 n k' v hv
    obtain ⟨j, hj⟩ := hst k v a1
    exact ⟨k, j, a1, hj, hp.renewed hj a2⟩
  · rintro ⟨k, j, a1, a2, a3⟩
    obtain ⟨k₂, b1, v₂, b2⟩ := h2 n k v a1
    have := hp.unique (hp.renewed a2 b1) a3
    subst this
    obtain ⟨k₃, d1, d2⟩ := h3 n k₂ v₂ b2
    obtain ⟨j₃, hj₃⟩ := hst k₃ v₂ d1
    have hj := RowOf.row (hp.renewed hj₃ d2) a3
    subst hj
    have := hp.unique hj₃ a2
    subst this
    rw [a1] at d1
    cases d1
    exact b2

/-! ### When it returns -/

theorem newItems_defined {rels : Schema F} {relIdx : FMap String RefIdx} {e : Ents} {rel : String} {l : List (Items × V)} :
    ∀ st : Stored V, (∀ x ∈ l, ∃ k, Renewed rels relIdx e rel x.1 k) → ∃ st', newItems rels relIdx e rel l st = .ok st' := by
  induction l with
  | nil => exact fun st _ => ⟨st, rfl⟩
  | cons x l ih =>
    obtain ⟨items, v⟩ := x
    intro st h
    obtain ⟨k, j, h1, h2⟩ := h _ (List.mem_cons_self ..)
    obtain ⟨st', h3⟩ := ih (store st rel k v) (fun x hx => h x (List.mem_cons_of_mem _ hx))
    refine ⟨st', ?_⟩
    unfold newItems
    exact bind_ok.mpr ⟨j, h1, bind_ok.mpr ⟨k, h2, h3⟩⟩

theorem newStored_defined {rels : Schema F} {relIdx : FMap String RefIdx} {e : Ents} {l : List (String × FMap Items V)} :
    ∀ st : Stored V, (∀ q m k v, (q, m) ∈ l → m.find? k = some v → ∃ k', Renewed rels relIdx e q k k') → ∃ st', newStored rels relIdx e l st = .ok st' := by
  induction l with
  | nil => exact fun st _ => ⟨st, rfl⟩
  | cons x l ih =>
    obtain ⟨rel, m⟩ := x
    intro st h
    obtain ⟨st₁, h1⟩ := newItems_defined (l := m.entries) st (fun x hx => h rel m x.1 x.2 (List.mem_cons_self ..) (FMap.mem_entries.mp hx))
    obtain ⟨st', h3⟩ := ih st₁ (fun q m k v hx => h q m k v (List.mem_cons_of_mem _ hx))
    refine ⟨st', ?_⟩
    unfold newStored
    exact bind_ok.mpr ⟨st₁, h1, h3⟩

theorem setRef_defined {e : Ents} {c f : String} {i v : Int} (h : HasRef e c f i v) (w : Int) : ∃ e', setRef e c f i w = .ok e' := by
  obtain ⟨m, h1, h2⟩ := h
  refine ⟨{ e with refs := e.refs.set c (m.set (f, i) w) }, ?_⟩
  unfold setRef
  exact bind_ok.mpr ⟨m, FMap.atKey_ok.mpr h1, bind_ok.mpr ⟨v, FMap.atKey_ok.mpr h2, rfl⟩⟩

/-- All references are there if the new target has all its references. -/
theorem Full.redirected {e e' : Ents} {c f d : String} {i w : Int} (hr : Refers s c f d) (he : Redirected e c f i w e') {c₀ : String} {j : Int}
    (h : Full s e c₀ j) (hw : Full s e d w) : Full s e' c₀ j := by
  have huse : ∀ x y, Uses s e' c₀ j x y → Uses s e c₀ j x y ∨ Uses s e d w x y := by
    intro x y hu
    induction hu with
    | self => exact Or.inl .self
    | step _ h2 h3 ih =>
      rw [he] at h3
      split at h3
      · next hx =>
        obtain ⟨rfl, rfl, rfl⟩ := hx
        subst h3
        rw [refers_fun h2 hr]
        exact Or.inr .self
      · rcases ih with ih | ih
        · exact Or.inl (ih.step h2 h3)
        · exact Or.inr (ih.step h2 h3)
  intro x y g z hu hz
  have : ∃ v, HasRef e x g y v := by
    rcases huse x y hu with hu | hu
    · exact h x y g z hu hz
    · exact hw x y g z hu hz
  obtain ⟨v, hv⟩ := this
  by_cases hx : x = c ∧ g = f ∧ y = i
  · exact ⟨w, (he _ _ _ _).mpr (by rw [if_pos hx])⟩
  · exact ⟨v, (he _ _ _ _).mpr (by rw [if_neg hx]; exact hv)⟩

/-- `get_relation_items` succeeds if the references that it follows are there. -/
theorem itemsLoop_along {ds : List String} {E : Nat → String → Nat → Prop} (hE : TreeIdx s ds E) {P : Nat → Int → Prop} {e : Ents}
    (hP : ∀ a y g b x, P a y → E a g b → ds[a]? = some x → ∃ v, HasRef e x g y v ∧ P b v) {a : Nat} {c : String} (hc : ds[a]? = some c) {i : Int} (hi : P a i)
    {rec : Nat → Int → Items → Res Items}
    (hrec : ∀ j v items, j < a → P j v → items.length = ds.length → ∃ items', rec j v items = .ok items' ∧ items'.length = ds.length)
    {l : List (String × Nat)} (hl : ∀ f j, (f, j) ∈ l → E a f j) {items : Items} (hlen : items.length = ds.length) :
    ∃ items', itemsLoop rec e c i l items = .ok items' ∧ items'.length = ds.length := by
  induction l generalizing items with
  | nil => exact ⟨items, rfl, hlen⟩
  | cons x l ih =>
    obtain ⟨f, j⟩ := x
    have hx := hl f j (List.mem_cons_self ..)
    obtain ⟨hlt, _⟩ := hE.sound _ _ _ hx
    obtain ⟨v, hv, hpv⟩ := hP a i f j c hi hx hc
    obtain ⟨items₁, h1, h2⟩ := hrec j v items hlt hpv hlen
    obtain ⟨items₂, h3, h4⟩ := ih (fun f j h => hl f j (List.mem_cons_of_mem _ h)) h2
    refine ⟨items₂, ?_, h4⟩
    unfold itemsLoop
    exact bind_ok.mpr ⟨v, getRef_ok.mpr hv, bind_ok.mpr ⟨items₁, h1, h3⟩⟩

theorem relationItems_along {rels : Schema F} {relIdx : FMap String RefIdx} {rel : String} {spec : RelSpec F} (hs : rels.find? rel = some spec)
    (hE : TreeIdx s spec.doms (RelEntry relIdx rel)) {e : Ents} {P : Nat → Int → Prop}
    (hP : ∀ a y g b x, P a y → RelEntry relIdx rel a g b → spec.doms[a]? = some x → ∃ v, HasRef e x g y v ∧ P b v) (n : Nat) :
    ∀ a i items, a < n → a < spec.doms.length → P a i → items.length = spec.doms.length →
      ∃ items', relationItems rels relIdx rel e n a i items = .ok items' ∧ items'.length = spec.doms.length := by
  induction n with
  | zero => intro a i items h; omega
  | succ n ih =>
    intro a i items ha hlt hi hlen
    have hc : spec.doms[a]? = some spec.doms[a] := List.getElem?_eq_getElem hlt
    have h1 : setItem items a i = .ok (items.set a i) := by
      unfold setItem; rw [if_pos (by omega)]
    have h2 : (items.set a i).length = spec.doms.length := by rw [List.length_set, hlen]
    unfold relationItems
    rw [FMap.atKey_of_find hs]
    cases hm : refsAt relIdx rel a with
    | none =>
      refine ⟨_, bind_ok.mpr ⟨spec, rfl, bind_ok.mpr ⟨_, h1, rfl⟩⟩, h2⟩
    | some m =>
      obtain ⟨items', k1, k2⟩ := itemsLoop_along (rec := relationItems rels relIdx rel e n) hE hP hc hi
        (fun j v items hj hp hl => ih j v items (by omega) (by omega) hp hl) (l := m.entries) (fun f j h => (mem_of_relEntry hm).mpr h) h2
      exact ⟨items', bind_ok.mpr ⟨spec, rfl, bind_ok.mpr ⟨_, h1, bind_ok.mpr ⟨_, atR_ok.mpr hc, k1⟩⟩⟩, k2⟩

/-- A tuple has a new one if the new target has all its references. -/
theorem Sited.renew {n c₀ : String} {spec : RelSpec F} (h : Sited s finalOnly D₀ n c₀ spec) {e e' : Ents} {c f d : String} {i w : Int} (hr : Refers s c f d)
    (he : Redirected e c f i w e') (hw : Full s e d w) {j : Int} {k : Items} (hk : RowOf D₀ e n j k) : ∃ k', Renewed D₀.H.schema D₀.relIdx e' n k k' := by
  have hl := RowOf.last h.known hk
  obtain ⟨spec', h1, h2, h3⟩ := hk
  rw [h.known] at h1
  cases h1
  have hw' : Full s e' d w := hw.redirected hr he hw
  have hd : spec.doms[spec.doms.length - 1]? = some c₀ := by rw [← List.getLast?_eq_getElem?]; exact h.last
  have hlt := (List.getElem?_eq_some_iff.mp hd).1
  obtain ⟨k', h4, _⟩ := relationItems_along h.known h.tree (e := e') (P := fun a y => k[a]? = some y ∨ ∃ x, spec.doms[a]? = some x ∧ Full s e' x y) (by
    intro a y g b x hP hE hx
    obtain ⟨_, x', z, g1, g2, g3⟩ := h.tree.sound _ _ _ hE
    rw [hx] at g1
    cases g1
    rcases hP with hy | ⟨x'', hx'', hfull⟩
    · obtain ⟨c', y', b', q1, q2, q3, q4⟩ := h2.2 a g b hE
      rw [hx] at q1
      cases q1
      rw [hy] at q2
      cases q2
      by_cases hcase : x = c ∧ g = f ∧ y = i
      · refine ⟨w, (he _ _ _ _).mpr (by rw [if_pos hcase]), Or.inr ⟨z, g2, ?_⟩⟩
        obtain ⟨rfl, rfl, rfl⟩ := hcase
        rw [refers_fun g3 hr]
        exact hw'
      · exact ⟨b', (he _ _ _ _).mpr (by rw [if_neg hcase]; exact q4), Or.inl q3⟩
    · rw [hx] at hx''
      cases hx''
      obtain ⟨v, hv, hfv⟩ := full_iff.mp hfull g z g3
      exact ⟨v, hv, Or.inr ⟨z, g2, hfv⟩⟩) k.length (spec.doms.length - 1) j (List.replicate k.length 0) (by rw [h2.1]; omega) (by omega) (Or.inl hl)
    (by rw [List.length_replicate, h2.1])
  refine ⟨k', j, ?_, by rw [h2.1] at h4 ⊢; exact h4⟩
  unfold DB.back
  rw [h3]

end
end GenDB
end Verif
