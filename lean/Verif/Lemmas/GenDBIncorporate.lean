import Verif.Lemmas.GenDBRows
/-!
What `GenDB::incorporate` does.
-/
namespace Verif
namespace GenDB
open PClean UtilIO
noncomputable section
section
variable {s : PClean.Schema}

theorem FieldAt.get {fs o f d} (h : FieldAt s fs o f d) {es ds : List String} (hs : Sublayouts s fs es) (hd : Layout s d ds) {i : Nat} (hi : i < ds.length) :
    es[o + i]? = ds[i]? := by
  obtain ⟨pre, post, e1, rfl, h1, rfl⟩ := h
  obtain ⟨a, b, rfl, ha, hb⟩ := hs.split
  have := ha.unique h1
  subst this
  cases hb with
  | @cons _ _ _ dx dxs p q =>
    have := layout_unique p hd
    subst this
    rw [List.getElem?_append_right (by omega), List.getElem?_append_left (by omega)]
    simp

/-- Each reference field of a class of a layout has its reference in the layout. -/
theorem refAt_exists (n : Nat) : ∀ {c ds}, ds.length ≤ n → Layout s c ds → ∀ {a x f y}, ds[a]? = some x → Refers s x f y → ∃ j, RefAt s c a f j := by
  induction n with
  | zero => intro c ds h hl; have := hl.length_pos; omega
  | succ n ih =>
    intro c ds hn hl a x f y hx hr
    obtain ⟨cl, es, hc, hs, rfl⟩ := hl.sub
    simp only [List.length_append, List.length_singleton] at hn
    have hlt := (List.getElem?_eq_some_iff.mp hx).1
    simp only [List.length_append, List.length_singleton] at hlt
    by_cases ha : a < es.length
    · rw [List.getElem?_append_left ha] at hx
      obtain ⟨o, g, d, ds', h1, h2, h3, h4⟩ := fieldAt_cover hs ha
      have hb := h1.bound hs h2
      have hg := h1.get hs h2 (i := a - o) (by omega)
      rw [show o + (a - o) = a by omega, hx] at hg
      obtain ⟨j, hj⟩ := ih (by omega) h2 hg.symm hr
      exact ⟨o + j, (refAt_iff hc hs).mpr (Or.inr ⟨o, g, d, a - o, j, h1, hj, by omega, rfl⟩)⟩
    · have : a = es.length := by omega
      subst this
      rw [List.getElem?_append_right (Nat.le_refl _)] at hx
      simp only [Nat.sub_self, List.getElem?_cons_zero, Option.some.injEq] at hx
      subst hx
      obtain ⟨cl', hc', hm⟩ := hr
      rw [hc] at hc'
      cases hc'
      obtain ⟨pre, post, he⟩ := List.append_of_mem hm
      have hs' := hs
      rw [he] at hs'
      obtain ⟨u, v, rfl, hu, hv⟩ := hs'.split
      cases hv with
      | @cons _ _ _ dx dxs p q =>
        exact ⟨_, (refAt_iff hc hs).mpr (Or.inl ⟨rfl, u.length, y, dx, ⟨pre, post, u, he, hu, rfl⟩, p, rfl⟩)⟩

/-- The entity at a position from which all references are in the tuple has all its references. -/
theorem Follows.full {e : Ents} {ds : List String} {E : Nat → String → Nat → Prop} (hE : TreeIdx s ds E) {items : Items} (h : Follows e ds E items)
    {b : Nat} {c : String} {w : Int} (hc : ds[b]? = some c) (hw : items[b]? = some w) (hcov : Covers s ds E b) : Full s e c w := by
  obtain ⟨S, hS, hcov⟩ := hcov
  have step : ∀ {b' d v f d'}, S b' → ds[b']? = some d → items[b']? = some v → Refers s d f d' →
      ∃ j v', S j ∧ ds[j]? = some d' ∧ items[j]? = some v' ∧ HasRef e d f v v' := by
    intro b' d v f d' k1 k2 k3 k4
    obtain ⟨j, e1, e2⟩ := hcov b' d k1 k2 f d' k4
    obtain ⟨x, u, v', q1, q2, q3, q4⟩ := h.2 _ _ _ e1
    rw [k2] at q1
    cases q1
    rw [k3] at q2
    cases q2
    obtain ⟨_, x, y, r1, r2, r3⟩ := hE.sound _ _ _ e1
    rw [k2] at r1
    cases r1
    have := refers_fun r3 k4
    subst this
    exact ⟨j, v', e2, r2, q3, q4⟩
  have key : ∀ {d v}, Uses s e c w d v → ∃ b', S b' ∧ ds[b']? = some d ∧ items[b']? = some v := by
    intro d v hu
    induction hu with
    | self => exact ⟨b, hS, hc, hw⟩
    | @step d v f d' v' _ h2 h3 ih =>
      obtain ⟨b', k1, k2, k3⟩ := ih
      obtain ⟨j, v'', q1, q2, q3, q4⟩ := step k1 k2 k3 h2
      have := q4.fun h3
      subst this
      exact ⟨j, q1, q2, q3⟩
  intro d v f d' hu hr
  obtain ⟨b', k1, k2, k3⟩ := key hu
  obtain ⟨j, v', _, _, _, q⟩ := step k1 k2 k3 hr
  exact ⟨v', q⟩

end
variable {V : Type} {F : Family V} {L : FamilyLaws F}

/-- `q` is a query field; its path has these hops and leads to the class `d` with the layout `ds`. -/
structure Asks (D : DB F) (q : String) (spec : RelSpec F) (hops : List (String × String)) (d : String) (ds : List String) : Prop where
  path : ∃ f x j p, D.schema.query.fields.find? q = some f ∧ PathTo D.schema D.schema.query.recordClass f.classPath hops d x j p
  layout : Layout D.schema d ds
  known : D.H.schema.find? q = some spec
  doms : spec.doms = ds ++ hops.reverse.map (·.1)
  base : ∀ b, spec.base? = some b → ∀ i f j, RelEntry D.relIdx b i f j → TupleRef D.schema d ds.length hops i f j

/-- The reference indices of `q` have all references of its tuples. -/
def Complete (D : DB F) (q d : String) (n : Nat) (hops : List (String × String)) : Prop :=
  ∀ i f j, TupleRef D.schema d n hops i f j → RelEntry D.relIdx q i f j

/-- The tuple of the query field that belongs to the row `id`. -/
def RowTuple (D : DB F) (spec : RelSpec F) (hops : List (String × String)) (d : String) (ds : List String) (e : Ents) (id : Int) (items : Items) : Prop :=
  Follows e spec.doms (TupleRef D.schema d ds.length hops) items ∧ items.getLast? = some id

section
variable {D : DB F} {r : String → Nat} {q : String} {spec : RelSpec F} {hops : List (String × String)} {d : String} {ds : List String}

theorem Asks.tree (h : Asks D q spec hops d ds) : TreeIdx D.schema spec.doms (TupleRef D.schema d ds.length hops) ∧
    Rooted spec.doms (TupleRef D.schema d ds.length hops) ∧ spec.doms.getLast? = some D.schema.query.recordClass ∧ spec.doms.length = ds.length + hops.length := by
  obtain ⟨f, x, j, p, _, hp⟩ := h.path
  obtain ⟨h1, h2, h3⟩ := hp.tree h.layout
  have hl : spec.doms.length = ds.length + hops.length := by rw [h.doms]; simp
  rw [← h.doms] at h1 h2 h3
  exact ⟨h1, h2, by rw [List.getLast?_eq_getElem?, hl]; exact h3, hl⟩

theorem RowTuple.last {e : Ents} {id : Int} {items : Items} (h : RowTuple D spec hops d ds e id items) : items[spec.doms.length - 1]? = some id := by
  rw [← h.1.1, ← List.getLast?_eq_getElem?]
  exact h.2

theorem OkOr.by {α β : Type _} {s : PClean.Schema} {hash : String → Int} {c₀ : String} {i₀ : Int} {e : Ents} {x : Res α} {a : α} {k : α → Res β} (h : x = .ok a)
    (hk : OkOr s hash c₀ i₀ e (k a)) : OkOr s hash c₀ i₀ e (x >>= k) := by
  subst h
  exact hk

theorem rowItems_okOr (hw : Wired D.schema D.relIdx D.classRels D.H.schema D.schema.query.recordClass r) (ha : Asks D q spec hops d ds) {H : HIRM F} {e : Ents}
    (hst : St L D H e) (unique : Bool) (id : Int) (t : Tape) : OkOr D.schema D.hash D.schema.query.recordClass id e (DB.rowItems unique q id (D.at H e) t) := by
  obtain ⟨f, x, j, p, hf, hp⟩ := ha.path
  obtain ⟨t1, t2, t3, t4⟩ := ha.tree
  have hpos := ha.layout.length_pos
  unfold DB.rowItems
  refine OkOr.by (FMap.atKey_of_find (m := D.schema.query.fields) hf) ?_
  cases unique with
  | true =>
    rw [if_pos rfl]
    refine OkOr.by (FMap.atKey_of_find (m := H.schema) (k := q) (v := spec) (by rw [hst.schema]; exact ha.known)) ?_
    refine OkOr.bind (uniqueItems_okOr (rels := H.schema) hw.closed (by rw [hst.schema]; exact ha.known) (hw.tree q spec ha.known).2 _ _ _ _ _ _ (by omega)
      (last_get t3) (by simp) hst.ents) ?_
    intro a _
    exact .ok
  | false =>
    rw [if_neg (by simp)]
    refine OkOr.bind (sampleEntities_okOr hw.closed ⟨r, hw.rank⟩ hp ha.layout t hst.ents) ?_
    intro a _
    exact .ok

theorem rowItems_spec (hw : Wired D.schema D.relIdx D.classRels D.H.schema D.schema.query.recordClass r) (ha : Asks D q spec hops d ds) {H : HIRM F} {e : Ents}
    (hst : H.schema = D.H.schema) {unique : Bool} (hu : unique = true → Complete D q d ds.length hops) {id : Int} {t : Tape} {items : Items} {D' : DB F} {t' : Tape}
    (h : DB.rowItems unique q id (D.at H e) t = .ok (items, D', t')) : ∃ e', D' = D.at H e' ∧ Grow D.schema D.hash (From D.schema D.schema.query.recordClass id) e e' ∧
      (unique = true → Grow D.schema D.hash (FromNew D.schema D.schema.query.recordClass id) e e') ∧ RowTuple D spec hops d ds e' id items := by
  obtain ⟨f, x, j, p, hf, hp⟩ := ha.path
  obtain ⟨t1, t2, t3, t4⟩ := ha.tree
  have hpos := ha.layout.length_pos
  have hlast : ∀ {e'}, Follows e' spec.doms (TupleRef D.schema d ds.length hops) items → items[spec.doms.length - 1]? = some id →
      RowTuple D spec hops d ds e' id items := by
    intro e' k1 k2
    refine ⟨k1, ?_⟩
    rw [List.getLast?_eq_getElem?, k1.1]
    exact k2
  unfold DB.rowItems at h
  obtain ⟨f', h1, h⟩ := bind_ok.mp h
  have h1 : D.schema.query.fields.atKey q = .ok f' := h1
  rw [FMap.atKey_of_find hf] at h1
  cases h1
  cases unique with
  | true =>
    rw [if_pos rfl] at h
    obtain ⟨spec', h2, h⟩ := bind_ok.mp h
    have h2 : H.schema.atKey q = .ok spec' := h2
    rw [hst, FMap.atKey_of_find ha.known] at h2
    cases h2
    obtain ⟨⟨items', e'⟩, h3, h4⟩ := bind_ok.mp h
    cases h4
    obtain ⟨g1, g2⟩ := uniqueItems_spec (rels := H.schema) (s := D.schema) (by rw [hst]; exact ha.known) (hw.tree q spec ha.known).2 _ _ _ _ _ _ _ h3 _ (last_get t3)
    have hR : Rooted spec.doms (RelEntry D.relIdx q) := by
      intro b hb
      obtain ⟨a, g, hab⟩ := t2 b hb
      exact ⟨a, g, hu rfl _ _ _ hab⟩
    obtain ⟨f1, f2, _⟩ := g2.follows (hw.tree q spec ha.known).2 hR (by simp)
    exact ⟨e', rfl, g1.from, fun _ => g1, hlast (f1.sub (hu rfl)) (f2 (hw.tree q spec ha.known).1)⟩
  | false =>
    rw [if_neg (by simp)] at h
    obtain ⟨⟨items', e', t''⟩, h3, h4⟩ := bind_ok.mp h
    cases h4
    obtain ⟨g1, g2, g3⟩ := sampleEntities_spec hp ha.layout h3
    rw [← ha.doms] at g2
    rw [← t4] at g3
    exact ⟨e', rfl, g1, fun h => (by cases h), hlast g2 g3⟩

/-- A tuple of a relation of another class than the record class that follows the references. -/
def Lower (D : DB F) (e : Ents) (n : String) (k : Items) : Prop := ∃ spec c, D.H.schema.find? n = some spec ∧ spec.doms.getLast? = some c ∧
  c ≠ D.schema.query.recordClass ∧ Follows e spec.doms (RelEntry D.relIdx n) k

theorem Lower.mono {e e' : Ents} (hx : Extends e e') {n : String} {k : Items} (h : Lower D e n k) : Lower D e' n k := by
  obtain ⟨spec, c, h1, h2, h3, h4⟩ := h
  exact ⟨spec, c, h1, h2, h3, h4.mono hx⟩

/-- What `incorporate_query_relation` does. -/
structure Put (L : FamilyLaws F) (D : DB F) (id : Int) (q : String) (spec : RelSpec F) (k : Items) (v : V) (H : HIRM F) (e : Ents) (H' : HIRM F) (e' : Ents) :
    Prop where
  st : St L D H' e'
  grow : Grow D.schema D.hash (From D.schema D.schema.query.recordClass id) e e'
  kept : ∀ n k w, H.value n k = some w → H'.value n k = some w
  here : H'.value q k = some v
  new : ∀ n k' w, H.value n k' = none → H'.value n k' = some w → (n = q ∧ k' = k ∧ w = v) ∨ Lower D e' n k'
  still : (∀ b sp c i, spec.base? = some b → D.H.schema.find? b = some sp → sp.doms.getLast? = some c → k[sp.doms.length - 1]? = some i →
    Full D.schema e c i) → e' = e

theorem incorporateQuery_does (S : Samples L) (hcm : Compatible L D.H.schema) (hw : Wired D.schema D.relIdx D.classRels D.H.schema D.schema.query.recordClass r)
    (ha : Asks D q spec hops d ds) {H : HIRM F} {e : Ents} (hst : St L D H e) {id : Int} {k : Items} (hk : RowTuple D spec hops d ds e id k)
    (hn : H.value q k = none) {v : V} (hv : Takes L D.H.schema v spec) {n : Nat} (hlt : depth D.schema ≤ n) (t : Tape) :
    Does D D.schema.query.recordClass id e (DB.incorporateQuery n q k v (D.at H e) t) (Put L D id q spec k v H e) := by
  obtain ⟨t1, t2, t3, t4⟩ := ha.tree
  unfold DB.incorporateQuery
  refine Does.bind (forBase_does hw hst ha.known t3 t1 t2 hk.1 ha.base hk.last
    (fun c' i' t _ h2 h3 => forClass_does S hw hcm n c' i' H e t hst (by have := hw.bound c'; omega) h2 h3) t) ?_
  rintro H₁ e₁ t₁ ⟨⟨c₁, i₁, u1, u2, u3, u4, m⟩, hb⟩
  have hn₁ : H₁.value q k = none := by
    cases hx : H₁.value q k with
    | none => rfl
    | some w =>
      obtain ⟨sp, c', k1, k2, _, k4, _⟩ := m.new q k w hn hx
      rw [ha.known] at k1
      cases k1
      rw [t3] at k2
      cases k2
      exact absurd rfl k4
  have hs₁ : H₁.schema.find? q = some spec := by rw [m.st.schema]; exact ha.known
  have hR : HIRM.Reach L H₁ ∧ Usable L H₁.schema := ⟨m.st.reach, by rw [m.st.schema]; exact hcm.toUsable⟩
  have hready : Ready H₁.schema H₁.value spec k := by
    intro b hsb
    obtain ⟨sp, tl, _, _, w1, _⟩ := hw.base q spec b ha.known hsb
    obtain ⟨bv, hbv⟩ := hb b sp hsb w1
    exact ⟨sp, bv, by rw [m.st.schema]; exact w1, hbv⟩
  have hin : InSupport L H₁.schema H₁.value k v spec :=
    Takes.support (HIRM.hosted S) hR (v := v) (spec := spec) (by show Takes L H₁.schema v spec; rw [m.st.schema]; exact hv) k
  obtain ⟨H₂, t₂, k1, ⟨k2, _⟩, k3, _, k4⟩ := (HIRM.hosted S).inc hR hs₁ hk.1.1 hn₁ hready hin t₁
  refine Does.of (a := (H₂, t₂)) k1 ?_
  have hval : ∀ n' k', H₂.value n' k' = if n' = q ∧ k' = k then some v else H₁.value n' k' := k4
  refine Does.ok (H' := H₂) (e' := e₁) ⟨⟨k2, k3.trans m.st.schema, m.st.ents⟩, (m.root u1 u2).grow, ?_, ?_, ?_, ?_⟩
  · intro n' k' w h
    rw [hval]
    split
    · next he => obtain ⟨rfl, rfl⟩ := he; rw [hn] at h; cases h
    · exact m.kept _ _ _ h
  · rw [hval, if_pos ⟨rfl, rfl⟩]
  · intro n' k' w h1 h2
    rw [hval] at h2
    split at h2
    · next he => cases h2; exact Or.inl ⟨he.1, he.2, rfl⟩
    · obtain ⟨sp, c', k1, k2, _, k4, k5⟩ := m.new n' k' w h1 h2
      exact Or.inr ⟨sp, c', k1, k2, k4, k5⟩
  · intro hf
    cases hsb : spec.base? with
    | none => exact (u3 hsb).1
    | some b =>
      obtain ⟨sp, tl, _, _, w1, _⟩ := hw.base q spec b ha.known hsb
      obtain ⟨v1, v2, v3⟩ := u4 b sp hsb w1
      exact m.still (hf b sp c₁ i₁ hsb w1 v2 v3)

end

/-- The classes of the path that belong to the tuples of the base relation have only the reference field that the path follows. -/
def Narrow (D : DB F) (spec : RelSpec F) (hops : List (String × String)) (ds : List String) : Prop := ∀ b sp k c g, spec.base? = some b →
  D.H.schema.find? b = some sp → ds.length + k < sp.doms.length → hops.reverse[k]? = some (c, g) → ∀ f x, Refers D.schema c f x → f = g

theorem Narrow.full {D : DB F} {r : String → Nat} {q : String} {spec : RelSpec F} {hops : List (String × String)} {d : String} {ds : List String}
    (hw : Wired D.schema D.relIdx D.classRels D.H.schema D.schema.query.recordClass r) (ha : Asks D q spec hops d ds) (hn : Narrow D spec hops ds) {e : Ents}
    {id : Int} {k : Items} (hk : RowTuple D spec hops d ds e id k) {b : String} {sp : RelSpec F} {c : String} {i : Int} (h1 : spec.base? = some b)
    (h2 : D.H.schema.find? b = some sp) (h3 : sp.doms.getLast? = some c) (h4 : k[sp.doms.length - 1]? = some i) : Full D.schema e c i := by
  obtain ⟨t1, t2, t3, t4⟩ := ha.tree
  obtain ⟨sp', tl, _, _, w1, w2, _⟩ := hw.base q spec b ha.known h1
  rw [h2] at w1
  cases w1
  have hpos := List.length_pos_of_ne_nil (hw.tree b sp h2).1
  have hlp := ha.layout.length_pos
  refine hk.1.full t1 (b := sp.doms.length - 1) ?_ h4 ⟨fun a => a < sp.doms.length, by omega, ?_⟩
  · rw [w2, List.getElem?_append_left (by omega)]
    exact last_get h3
  · intro a x hlt hx f y hr
    rw [ha.doms] at hx
    by_cases hsm : a < ds.length
    · rw [List.getElem?_append_left hsm] at hx
      obtain ⟨j, hj⟩ := refAt_exists _ (Nat.le_refl _) ha.layout hx hr
      have := (refAt_tree ha.layout).sound _ _ _ hj
      exact ⟨j, Or.inl hj, by omega⟩
    · rw [List.getElem?_append_right (by omega), List.getElem?_map] at hx
      cases hg : hops.reverse[a - ds.length]? with
      | none => rw [hg] at hx; cases hx
      | some cg =>
        obtain ⟨c', g⟩ := cg
        rw [hg] at hx
        simp only [Option.map_some, Option.some.injEq] at hx
        subst hx
        have := hn b sp (a - ds.length) c' g h1 h2 (by omega) hg f y hr
        subst this
        exact ⟨a - 1, Or.inr ⟨a - ds.length, c', hg, by omega, by omega⟩, by omega⟩

/-- What `incorporate` does with the values of a row. -/
structure Rowed (L : FamilyLaws F) (D : DB F) (unique : Bool) (id : Int) (row : List (String × V)) (H : HIRM F) (e : Ents) (H' : HIRM F) (e' : Ents) : Prop where
  st : St L D H' e'
  grow : Grow D.schema D.hash (From D.schema D.schema.query.recordClass id) e e'
  kept : ∀ n k w, H.value n k = some w → H'.value n k = some w
  stored : ∀ q v, (q, v) ∈ row → ∀ spec hops d ds, Asks D q spec hops d ds → ∃ k, RowTuple D spec hops d ds e' id k ∧ H'.value q k = some v
  new : ∀ n k w, H.value n k = none → H'.value n k = some w →
    ((n, w) ∈ row ∧ ∀ spec hops d ds, Asks D n spec hops d ds → RowTuple D spec hops d ds e' id k) ∨ Lower D e' n k
  fresh : unique = true → (∀ q v spec hops d ds, (q, v) ∈ row → Asks D q spec hops d ds → Narrow D spec hops ds) →
    Grow D.schema D.hash (FromNew D.schema D.schema.query.recordClass id) e e'

theorem Asks.unique {D : DB F} {q : String} {spec spec' : RelSpec F} {hops hops' : List (String × String)} {d d' : String} {ds ds' : List String}
    (h : Asks D q spec hops d ds) (h' : Asks D q spec' hops' d' ds') : spec = spec' ∧ hops = hops' ∧ d = d' ∧ ds = ds' := by
  obtain ⟨f, x, j, p, hf, hp⟩ := h.path
  obtain ⟨f', x', j', p', hf', hp'⟩ := h'.path
  rw [hf] at hf'
  cases hf'
  obtain ⟨e1, e2, _⟩ := hp.unique hp'
  subst e1
  subst e2
  refine ⟨?_, rfl, rfl, layout_unique h.layout h'.layout⟩
  have := h.known.symm.trans h'.known
  cases this
  rfl

theorem RowTuple.mono {D : DB F} {spec : RelSpec F} {hops : List (String × String)} {d : String} {ds : List String} {e e' : Ents} (hx : Extends e e') {id : Int}
    {k : Items} (h : RowTuple D spec hops d ds e id k) : RowTuple D spec hops d ds e' id k := ⟨h.1.mono hx, h.2⟩

/-- What must be true of the values of a row. -/
structure RowOk (L : FamilyLaws F) (D : DB F) (unique : Bool) (row : List (String × V)) : Prop where
  asks : ∀ q v, (q, v) ∈ row → ∃ spec hops d ds, Asks D q spec hops d ds ∧ (unique = true → Complete D q d ds.length hops) ∧ Takes L D.H.schema v spec
  nodup : (row.map (·.1)).Nodup

theorem incorporateLoop_does (S : Samples L) {D : DB F} {r : String → Nat} (hcm : Compatible L D.H.schema)
    (hw : Wired D.schema D.relIdx D.classRels D.H.schema D.schema.query.recordClass r) {n : Nat} (hlt : depth D.schema ≤ n) {unique : Bool} {id : Int} :
    ∀ {row : List (String × V)} {H : HIRM F} {e : Ents} (t : Tape), RowOk L D unique row → St L D H e →
      (∀ q v k, (q, v) ∈ row → k.getLast? = some id → H.value q k = none) →
      Does D D.schema.query.recordClass id e (DB.incorporateLoop n unique id row (D.at H e) t) (Rowed L D unique id row H e) := by
  intro row
  induction row with
  | nil =>
    intro H e t _ hst _
    exact .ok ⟨hst, .refl, fun _ _ _ h => h, fun q v h => (by cases h), fun n k w h1 h2 => (by rw [h1] at h2; cases h2), fun _ _ => .refl⟩
  | cons qv row ih =>
    obtain ⟨q, v⟩ := qv
    intro H e t hrow hst hfresh
    obtain ⟨spec, hops, d, ds, ha, hcp, hv⟩ := hrow.asks q v (List.mem_cons_self ..)
    have hnd := List.nodup_cons.mp hrow.nodup
    unfold DB.incorporateLoop
    refine OkOr.does (rowItems_okOr hw ha hst unique id t) ?_
    rintro ⟨k, D₁, t₁⟩ h1
    obtain ⟨e₁, rfl, g1, gn, hk⟩ := rowItems_spec hw ha hst.schema hcp h1
    refine Does.grow g1 ?_
    have hst₁ : St L D H e₁ := ⟨hst.reach, hst.schema, g1.ok hst.ents⟩
    refine Does.bind (incorporateQuery_does S hcm hw ha hst₁ hk (hfresh q v k (List.mem_cons_self ..) hk.2) hv hlt t₁) ?_
    rintro H₂ e₂ t₂ p
    have hne : ∀ q' v', (q', v') ∈ row → q' ≠ q := by
      rintro q' v' hm rfl
      exact hnd.1 (List.mem_map.mpr ⟨_, hm, rfl⟩)
    have hlow : ∀ q' v' e' k', (q', v') ∈ row → ¬ Lower D e' q' k' := by
      rintro q' v' e' k' hm ⟨sp, c, l1, l2, l3, _⟩
      obtain ⟨spec', hops', d', ds', ha', _⟩ := hrow.asks q' v' (List.mem_cons_of_mem _ hm)
      have := l1.symm.trans ha'.known
      cases this
      rw [ha'.tree.2.2.1] at l2
      cases l2
      exact l3 rfl
    refine Does.grow p.grow (Does.mono (ih t₂ ⟨fun q' v' hm => hrow.asks q' v' (List.mem_cons_of_mem _ hm), hnd.2⟩ p.st ?_) ?_)
    · intro q' v' k' hm hl
      cases hx : H₂.value q' k' with
      | none => rfl
      | some w =>
        rcases p.new q' k' w (hfresh q' v' k' (List.mem_cons_of_mem _ hm) hl) hx with h | h
        · exact absurd h.1 (hne q' v' hm)
        · exact absurd h (hlow q' v' _ _ hm)
    · intro H' e' m
      refine ⟨m.st, (g1.trans p.grow).trans m.grow, fun _ _ _ h => m.kept _ _ _ (p.kept _ _ _ h), ?_, ?_, ?_⟩
      · intro q' v' hm
        rcases List.mem_cons.mp hm with h | hm
        · cases h
          intro spec' hops' d' ds' ha'
          obtain ⟨rfl, rfl, rfl, rfl⟩ := ha.unique ha'
          exact ⟨k, hk.mono (fun _ _ _ _ h => m.grow.extends _ _ _ _ (p.grow.extends _ _ _ _ h)), m.kept _ _ _ p.here⟩
        · exact m.stored q' v' hm
      · intro n' k' w h1 h2
        cases hx : H₂.value n' k' with
        | none =>
          rcases m.new n' k' w hx h2 with h | h
          · exact Or.inl ⟨List.mem_cons_of_mem _ h.1, h.2⟩
          · exact Or.inr h
        | some w' =>
          have := (m.kept _ _ _ hx).symm.trans h2
          cases this
          rcases p.new n' k' w h1 hx with ⟨rfl, rfl, rfl⟩ | h
          · refine Or.inl ⟨List.mem_cons_self .., ?_⟩
            intro spec' hops' d' ds' ha'
            obtain ⟨rfl, rfl, rfl, rfl⟩ := ha.unique ha'
            exact hk.mono (fun _ _ _ _ h => m.grow.extends _ _ _ _ (p.grow.extends _ _ _ _ h))
          · exact Or.inr (h.mono m.grow.extends)
      · intro hu hnar
        have he : e₂ = e₁ := p.still (fun b sp c i h1 h2 h3 h4 => (hnar q v spec hops d ds (List.mem_cons_self ..) ha).full hw ha hk h1 h2 h3 h4)
        subst he
        exact (gn hu).trans (m.fresh hu (fun q' v' spec' hops' d' ds' hm => hnar q' v' spec' hops' d' ds' (List.mem_cons_of_mem _ hm)))

end
end GenDB
end Verif
