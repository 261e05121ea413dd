import Verif.Lemmas.GenDBFill
import Verif.Lemmas.IncorporateHosts
import Verif.Props.Sampling
/-!
What `sample_and_incorporate_for_class` does.
-/
namespace Verif
namespace HIRM
variable {V : Type} {F : Family V} {L : FamilyLaws F}

theorem Reach.get {H : HIRM F} (h : HIRM.Reach L H) {n : String} {spec : RelSpec F} (hs : H.schema.find? n = some spec) :
    ∃ p rel, H.getRelation n = .ok (p, rel) ∧ (∀ k, rel.data.find? k = H.value n k) ∧ ∀ b, spec.base? = some b →
      ∃ sp view, H.schema.find? b = some sp ∧ IRM.baseOf H.env rel = some view ∧ view.arity = sp.doms.length ∧ sp.doms.length ≤ spec.doms.length := by
  have hg := h.good
  obtain ⟨tb, id, rel, hr⟩ := hg.skel.relOf (FMap.contains_iff.mpr ⟨spec, hs⟩)
  have hsh := hg.shown hs hr
  refine ⟨_, rel, getRelation_ok.mpr ⟨tb, id, hr, rfl⟩, fun k => (value_of hr k).symm, ?_⟩
  intro b hb
  obtain ⟨sp, view, g1, g2, g3, g4, _⟩ := hsh.base b hb
  exact ⟨sp, view, g1, g2, g3, g4⟩

end HIRM

namespace GenDB
open PClean
noncomputable section
variable {V : Type} {F : Family V} {L : FamilyLaws F}

/-- What the reference indices and the relations of classes must say. -/
structure Wired (s : PClean.Schema) (relIdx : FMap String RefIdx) (classRels : FMap String (List String)) (sch : Schema F) (rc : String) (r : String → Nat) : Prop where
  closed : Closed s
  rank : ∀ c f d, Refers s c f d → r d < r c
  bound : ∀ c, r c < depth s
  known : ∀ n spec d, sch.find? n = some spec → d ∈ spec.doms → ∃ cl, s.classes.find? d = some cl
  tree : ∀ n spec, sch.find? n = some spec → spec.doms ≠ [] ∧ TreeIdx s spec.doms (RelEntry relIdx n)
  base : ∀ n spec b, sch.find? n = some spec → spec.base? = some b → ∃ sp tl c c', sch.find? b = some sp ∧ spec.doms = sp.doms ++ tl ∧
    spec.doms.getLast? = some c ∧ sp.doms.getLast? = some c' ∧ r c' < r c ∧ c' ≠ rc ∧
    (c ≠ rc → ∀ i f j, RelEntry relIdx b i f j → RelEntry relIdx n i f j)
  rooted : ∀ n spec c, sch.find? n = some spec → spec.doms.getLast? = some c → c ≠ rc → Rooted spec.doms (RelEntry relIdx n)
  cls : ∀ n spec c, sch.find? n = some spec → spec.doms.getLast? = some c → ∃ rels, classRels.find? c = some rels ∧ n ∈ rels
  of : ∀ c rels n, classRels.find? c = some rels → n ∈ rels → ∃ spec, sch.find? n = some spec ∧ spec.doms.getLast? = some c

/-- The database with another HIRM and other entities. -/
def DB.at (D : DB F) (H : HIRM F) (e : Ents) : DB F := { D with H := H, ents := e }

/-- The states of a database: the HIRM has the schema of `D` and a history, and references and entity CRPs agree. -/
structure St (L : FamilyLaws F) (D : DB F) (H : HIRM F) (e : Ents) : Prop where
  reach : HIRM.Reach L H
  schema : H.schema = D.H.schema
  ents : EntsOk D.schema D.hash e

/-- The computation ends in a state with `P`, or it fails with an assertion because of a clash of identifiers. -/
def Does (D : DB F) (c : String) (i : Int) (e : Ents) (x : Res (DB F × Tape)) (P : HIRM F → Ents → Prop) : Prop :=
  (∃ H' e' t', x = .ok (D.at H' e', t') ∧ P H' e') ∨
    x = .error .assert ∧ ∃ e', Grow D.schema D.hash (From D.schema c i) e e' ∧ Clash D.schema D.hash c i e'

section
variable {D : DB F} {c : String} {i : Int} {e : Ents} {x : Res (DB F × Tape)} {P Q : HIRM F → Ents → Prop}

theorem Does.root {c₁ : String} {i₁ : Int} (hu : Uses D.schema e c i c₁ i₁) (h : Does D c₁ i₁ e x P) : Does D c i e x P := by
  rcases h with h | ⟨h, e', g, cl⟩
  · exact Or.inl h
  · exact Or.inr ⟨h, e', g.mono (fun _ _ _ _ _ _ hx hp => hp.root hu hx), cl.root hu g.extends⟩

theorem Does.grow {e₁ : Ents} (g : Grow D.schema D.hash (From D.schema c i) e e₁) (h : Does D c i e₁ x P) : Does D c i e x P := by
  rcases h with h | ⟨h, e', g', cl⟩
  · exact Or.inl h
  · exact Or.inr ⟨h, e', g.trans g', cl⟩

theorem Does.mono (h : Does D c i e x P) (hPQ : ∀ H' e', P H' e' → Q H' e') : Does D c i e x Q := by
  rcases h with ⟨H', e', t', h, hp⟩ | h
  · exact Or.inl ⟨H', e', t', h, hPQ _ _ hp⟩
  · exact Or.inr h

theorem Does.bind {k : DB F × Tape → Res (DB F × Tape)} (h : Does D c i e x P) (hk : ∀ H' e' t', P H' e' → Does D c i e (k (D.at H' e', t')) Q) :
    Does D c i e (x >>= k) Q := by
  rcases h with ⟨H', e', t', h, hp⟩ | ⟨h, h'⟩
  · subst h
    exact hk _ _ _ hp
  · subst h
    exact Or.inr ⟨rfl, h'⟩

theorem OkOr.does {α : Type _} {y : Res α} {k : α → Res (DB F × Tape)} (h : OkOr D.schema D.hash c i e y) (hk : ∀ a, y = .ok a → Does D c i e (k a) Q) :
    Does D c i e (y >>= k) Q := by
  rcases h with ⟨a, h⟩ | ⟨h, h'⟩
  · subst h
    exact hk a rfl
  · subst h
    exact Or.inr ⟨rfl, h'⟩

theorem Does.ok {H' : HIRM F} {e' : Ents} {t : Tape} (h : P H' e') : Does D c i e (.ok (D.at H' e', t)) P := Or.inl ⟨H', e', t, rfl, h⟩

theorem Does.of {α : Type _} {y : Res α} {a : α} {k : α → Res (DB F × Tape)} (h : y = .ok a) (hk : Does D c i e (k a) Q) : Does D c i e (y >>= k) Q := by
  subst h
  exact hk

theorem Does.result (h : Does D c i e x P) {D' : DB F} {t' : Tape} (hx : x = .ok (D', t')) : ∃ H' e', D' = D.at H' e' ∧ P H' e' := by
  rcases h with ⟨H', e', t'', h, hp⟩ | ⟨h, _⟩
  · rw [hx] at h
    cases h
    exact ⟨H', e', rfl, hp⟩
  · rw [hx] at h
    cases h

end

/-- What a step that works for the entity `i` of class `c` may do: it adds references of entities that are reached from `i`, none if they are all there, and it
adds values of relations of classes of at most this rank, for tuples that follow the references. -/
structure Moved (L : FamilyLaws F) (D : DB F) (r : String → Nat) (rc : String) (c : String) (i : Int) (H : HIRM F) (e : Ents) (H' : HIRM F) (e' : Ents) : Prop where
  st : St L D H' e'
  grow : Grow D.schema D.hash (From D.schema c i) e e'
  still : Full D.schema e c i → e' = e
  kept : ∀ n k v, H.value n k = some v → H'.value n k = some v
  new : ∀ n k v, H.value n k = none → H'.value n k = some v → ∃ spec c', D.H.schema.find? n = some spec ∧ spec.doms.getLast? = some c' ∧ r c' ≤ r c ∧
    c' ≠ rc ∧ Follows e' spec.doms (RelEntry D.relIdx n) k

theorem Moved.refl {D : DB F} {r : String → Nat} {rc : String} {c : String} {i : Int} {H : HIRM F} {e : Ents} (h : St L D H e) : Moved L D r rc c i H e H e :=
  ⟨h, .refl, fun _ => rfl, fun _ _ _ h => h, fun n k v h1 h2 => (by rw [h1] at h2; cases h2)⟩

theorem Moved.trans {D : DB F} {r : String → Nat} {rc : String} {c : String} {i : Int} {H H₁ H₂ : HIRM F} {e e₁ e₂ : Ents} (h : Moved L D r rc c i H e H₁ e₁)
    (h' : Moved L D r rc c i H₁ e₁ H₂ e₂) : Moved L D r rc c i H e H₂ e₂ where
  st := h'.st
  grow := h.grow.trans h'.grow
  still hf := by
    have h1 := h.still hf
    subst h1
    exact h'.still hf
  kept n k v hv := h'.kept n k v (h.kept n k v hv)
  new n k v h1 h2 := by
    cases hv : H₁.value n k with
    | none => exact h'.new n k v hv h2
    | some w =>
      obtain ⟨spec, c', k1, k2, k3, k4, k5⟩ := h.new n k w h1 hv
      exact ⟨spec, c', k1, k2, k3, k4, k5.mono h'.grow.extends⟩

theorem Moved.root {D : DB F} {r : String → Nat} {rc : String} {c c₁ : String} {i i₁ : Int} {H H₁ : HIRM F} {e e₁ : Ents} (hu : Uses D.schema e c i c₁ i₁) (hr : r c₁ ≤ r c)
    (h : Moved L D r rc c₁ i₁ H e H₁ e₁) : Moved L D r rc c i H e H₁ e₁ where
  st := h.st
  grow := h.grow.mono (fun _ _ _ _ _ _ hx hp => hp.root hu hx)
  still hf := h.still (hf.uses hu)
  kept := h.kept
  new n k v h1 h2 := by
    obtain ⟨spec, c', k1, k2, k3, k4⟩ := h.new n k v h1 h2
    exact ⟨spec, c', k1, k2, by omega, k4⟩

/-- The relation has a value for the tuple that the references give to the entity `i` of its class. -/
def Has (D : DB F) (H : HIRM F) (e : Ents) (n : String) (i : Int) : Prop :=
  ∀ spec items, D.H.schema.find? n = some spec → Follows e spec.doms (RelEntry D.relIdx n) items → items[spec.doms.length - 1]? = some i →
    ∃ v, H.value n items = some v

/-- All entities of a tuple that follows the references are reached from the last one. -/
theorem Follows.uses {s : PClean.Schema} {e : Ents} {ds : List String} {E : Nat → String → Nat → Prop} (hE : TreeIdx s ds E) (hr : Rooted ds E) {items : Items}
    (h : Follows e ds E items) {c : String} {i : Int} (hc : ds[ds.length - 1]? = some c) (hi : items[ds.length - 1]? = some i) {b : Nat} (hb : b < ds.length) :
    ∃ d w, ds[b]? = some d ∧ items[b]? = some w ∧ Uses s e c i d w := by
  have all : ∀ k b, b + k + 1 = ds.length → ∃ d w, ds[b]? = some d ∧ items[b]? = some w ∧ Uses s e c i d w := by
    intro k
    induction k using Nat.strong_induction_on with
    | _ k ih =>
      intro b hb
      by_cases h0 : k = 0
      · subst h0
        have : b = ds.length - 1 := by omega
        subst this
        exact ⟨c, i, hc, hi, .self⟩
      · obtain ⟨a, f, hab⟩ := hr b (by omega)
        obtain ⟨hlt, x, y, hx, hy, hxy⟩ := hE.sound _ _ _ hab
        have ha := (List.getElem?_eq_some_iff.mp hx).1
        obtain ⟨d, w, k1, k2, k3⟩ := ih (ds.length - 1 - a) (by omega) a (by omega)
        obtain ⟨x', u, v, q1, q2, q3, q4⟩ := h.2 a f b hab
        rw [k1] at hx q1
        cases hx
        cases q1
        rw [k2] at q2
        cases q2
        exact ⟨y, v, hy, q3, .step k3 hxy q4⟩
  exact all (ds.length - 1 - b) b (by omega)

/-- The first entities of a tuple that follows the references. -/
theorem Follows.prefix {s : PClean.Schema} {e : Ents} {ds ds' tl : List String} {E E' : Nat → String → Nat → Prop} {items : Items} (h : Follows e ds E items)
    (hd : ds = ds' ++ tl) (hE : TreeIdx s ds' E') (hsub : ∀ i f j, E' i f j → E i f j) : Follows e ds' E' (items.take ds'.length) := by
  refine ⟨by rw [List.length_take, h.1, hd]; simp, ?_⟩
  intro a f b hab
  obtain ⟨x, u, v, q1, q2, q3, q4⟩ := h.2 a f b (hsub a f b hab)
  obtain ⟨hlt, y, z, r1, r2, _⟩ := hE.sound a f b hab
  have l1 := (List.getElem?_eq_some_iff.mp r1).1
  have l2 := (List.getElem?_eq_some_iff.mp r2).1
  rw [hd, List.getElem?_append_left l1] at q1
  exact ⟨x, u, v, q1, by rw [List.getElem?_take_of_lt l1]; exact q2, by rw [List.getElem?_take_of_lt l2]; exact q3, q4⟩

theorem last_get {α : Type _} {l : List α} {a : α} (h : l.getLast? = some a) : l[l.length - 1]? = some a := by
  rw [← List.getLast?_eq_getElem?]; exact h

section
variable {D : DB F} {rc : String} {r : String → Nat}

/-- What `sample_and_incorporate_relation` adds has at most the rank of the relation. -/
theorem ensureValue_does (S : Samples L) (hw : Wired D.schema D.relIdx D.classRels D.H.schema rc r) (hcm : Compatible L D.H.schema) {H : HIRM F} {e : Ents}
    (hst : St L D H e) {n : String} {spec : RelSpec F} (hs : D.H.schema.find? n = some spec) {c : String} (hc : spec.doms.getLast? = some c) (hrc : c ≠ rc)
    {items : Items} (hf : Follows e spec.doms (RelEntry D.relIdx n) items) (i : Int) (t : Tape) : ∃ H' t', (D.at H e).ensureValue n items t = .ok (D.at H' e, t') ∧
      Moved L D r rc c i H e H' e ∧ ∃ v, H'.value n items = some v := by
  have hs' : H.schema.find? n = some spec := by rw [hst.schema]; exact hs
  obtain ⟨p, rel, h1, h2, _⟩ := hst.reach.get hs'
  have hun : (D.at H e).ensureValue n items t = (if rel.data.contains items then .ok (D.at H e, t)
      else HIRM.sampleRelation (H.schema.size + 1) H n items t >>= fun x => .ok (D.at x.2.1 e, x.2.2)) := by
    unfold DB.ensureValue
    show (H.getRelation n >>= _) = _
    rw [h1]
    rfl
  by_cases hcon : rel.data.contains items = true
  · rw [if_pos hcon] at hun
    obtain ⟨v, hv⟩ := FMap.contains_iff.mp hcon
    exact ⟨H, t, hun, .refl hst, v, by rw [← h2]; exact hv⟩
  · rw [if_neg hcon] at hun
    have hnone : H.value n items = none := by
      rw [← h2]
      cases hv : rel.data.find? items with
      | none => rfl
      | some v => exact absurd (FMap.contains_iff.mpr ⟨v, hv⟩) hcon
    obtain ⟨v, H', t', k1, k2, _, k3, k4, k5, k6⟩ := HIRM.C52_sample_relation S hst.reach (by rw [hst.schema]; exact hcm) hs' hf.1 hnone t
    rw [k1] at hun
    refine ⟨H', t', hun, ⟨⟨k2, k3.trans hst.schema, hst.ents⟩, .refl, fun _ => rfl, k5, ?_⟩, v, k4⟩
    have key : ∀ j m k w, H.value m k = none → H'.value m k = some w → ∀ sp c', D.H.schema.find? m = some sp → sp.doms.getLast? = some c' →
        depth D.schema ≤ r c' + j → r c' ≤ r c ∧ c' ≠ rc ∧ Follows e sp.doms (RelEntry D.relIdx m) k := by
      intro j
      induction j with
      | zero =>
        intro m k w _ _ sp c' _ _ hj
        have := hw.bound c'
        omega
      | succ j ih =>
        intro m k w h1 h2 sp c' h3 h4 hj
        rcases k6 m k w h1 h2 with ⟨rfl, rfl⟩ | ⟨m', spec', sp', k', v', q1, q2, q3, q4, q5, rfl⟩
        · rw [hs] at h3
          cases h3
          rw [hc] at h4
          cases h4
          exact ⟨Nat.le_refl _, hrc, hf⟩
        · rw [hst.schema] at q1 q3
          rw [h3] at q3
          cases q3
          obtain ⟨sp'', tl, d, d', w1, w2, w3, w4, w5, w6, w8⟩ := hw.base m' spec' m q1 q2
          rw [h3] at w1
          cases w1
          rw [h4] at w4
          cases w4
          obtain ⟨i1, i2, i3⟩ := ih m' k' v' q4 q5 spec' d q1 w3 (by omega)
          exact ⟨by omega, w6, i3.prefix w2 (hw.tree m sp h3).2 (w8 i2)⟩
    intro m k w h1 h2
    have hm : ∃ sp, D.H.schema.find? m = some sp := by
      rcases k6 m k w h1 h2 with ⟨rfl, _⟩ | ⟨m', spec', sp', k', v', q1, q2, q3, _⟩
      · exact ⟨spec, hs⟩
      · exact ⟨sp', by rw [← hst.schema]; exact q3⟩
    obtain ⟨sp, hsp⟩ := hm
    obtain ⟨hne, _⟩ := hw.tree m sp hsp
    obtain ⟨c', hc'⟩ : ∃ c', sp.doms.getLast? = some c' := by
      cases hx : sp.doms.getLast? with
      | none => exact absurd (List.getLast?_eq_none_iff.mp hx) hne
      | some x => exact ⟨x, rfl⟩
    exact ⟨sp, c', hsp, hc', key (depth D.schema) m k w h1 h2 sp c' hsp hc' (by omega)⟩

/-- What `sample_and_incorporate_for_class` does. -/
def ForClass (L : FamilyLaws F) (D : DB F) (r : String → Nat) (rc : String) (c : String) (i : Int) (H : HIRM F) (e : Ents) (H' : HIRM F) (e' : Ents) : Prop :=
  Moved L D r rc c i H e H' e' ∧ ∀ rels n, D.classRels.find? c = some rels → n ∈ rels → Has D H' e' n i

theorem back_ok {α : Type _} {l : List α} {a : α} (h : l.getLast? = some a) : DB.back l = .ok a := by
  unfold DB.back
  rw [h]

theorem forBase_does (hw : Wired D.schema D.relIdx D.classRels D.H.schema rc r) {rec : String → Int → DB F → Tape → Res (DB F × Tape)} {H : HIRM F} {e : Ents}
    (hst : St L D H e) {n : String} {spec : RelSpec F} (hs : D.H.schema.find? n = some spec) {c : String} (hc : spec.doms.getLast? = some c) {items : Items} {i : Int}
    {E : Nat → String → Nat → Prop} (hE : TreeIdx D.schema spec.doms E) (hR : Rooted spec.doms E) (hf : Follows e spec.doms E items)
    (hsub : ∀ b, spec.base? = some b → ∀ i f j, RelEntry D.relIdx b i f j → E i f j) (hi : items[spec.doms.length - 1]? = some i)
    (hrec : ∀ c' i' t, r c' < r c → c' ≠ rc → (∃ rels, D.classRels.find? c' = some rels) → Does D c' i' e (rec c' i' (D.at H e) t) (ForClass L D r rc c' i' H e))
    (t : Tape) : Does D c i e (DB.forBase rec n items (D.at H e) t) (fun H' e' => (∃ c₁ i₁, Uses D.schema e c i c₁ i₁ ∧ r c₁ ≤ r c ∧ (spec.base? = none → e' = e ∧ H' = H) ∧
      (∀ b sp, spec.base? = some b → D.H.schema.find? b = some sp → r c₁ < r c ∧ sp.doms.getLast? = some c₁ ∧ items[sp.doms.length - 1]? = some i₁) ∧
      Moved L D r rc c₁ i₁ H e H' e') ∧
      ∀ b sp, spec.base? = some b → D.H.schema.find? b = some sp → ∃ v, H'.value b (items.take sp.doms.length) = some v) := by
  have hs' : H.schema.find? n = some spec := by rw [hst.schema]; exact hs
  unfold DB.forBase
  refine Does.of (FMap.atKey_of_find (m := H.schema) hs') ?_
  cases hsp : spec with
  | clean C ds o =>
    refine Does.ok ⟨⟨c, i, .self, Nat.le_refl _, fun _ => ⟨rfl, rfl⟩, fun b sp h => (by cases h), .refl hst⟩, ?_⟩
    intro b sp h
    cases h
  | noisy E ds base o =>
    have hb : spec.base? = some base := by rw [hsp]; rfl
    obtain ⟨sp, tl, cc, c', w1, w2, w3, w4, w5, w6, _⟩ := hw.base n spec base hs hb
    rw [hc] at w3
    cases w3
    obtain ⟨hneb, hEb⟩ := hw.tree base sp w1
    have hlen : sp.doms.length ≤ spec.doms.length := by rw [w2]; simp
    have hpos := List.length_pos_of_ne_nil hneb
    obtain ⟨d, w, u1, u2, u3⟩ := hf.uses hE hR (last_get hc) hi (b := sp.doms.length - 1) (by omega)
    have hd : d = c' := by
      rw [w2, List.getElem?_append_left (by omega), last_get w4] at u1
      exact (Option.some.inj u1).symm
    subst hd
    have hi' : (items.take sp.doms.length)[sp.doms.length - 1]? = some w := by
      rw [List.getElem?_take_of_lt (by omega)]; exact u2
    have htl : (items.take sp.doms.length).length = sp.doms.length := by rw [List.length_take, hf.1]; omega
    have hlast : (items.take sp.doms.length).getLast? = some w := by
      rw [List.getLast?_eq_getElem?, htl]; exact hi'
    obtain ⟨p, rel, g1, g2, g3⟩ := hst.reach.get hs'
    obtain ⟨sp', view, g4, g5, g6, g7⟩ := g3 base hb
    rw [hst.schema, w1] at g4
    cases g4
    have hbi : (D.at H e).baseItems n items = .ok (items.take sp.doms.length) := by
      unfold DB.baseItems
      refine bind_ok.mpr ⟨(p, rel), g1, bind_ok.mpr ⟨view, ?_, ?_⟩⟩
      · show derefR (IRM.baseOf H.env rel) = _
        rw [g5]; rfl
      · unfold NoisyRel.baseItems
        rw [g6, hf.1, if_pos g7]
    refine Does.of hbi ?_
    refine Does.of (FMap.atKey_of_find (m := H.schema) (k := base) (v := sp) (by rw [hst.schema]; exact w1)) ?_
    refine Does.of (back_ok w4) ?_
    refine Does.of (back_ok hlast) ?_
    refine ((hrec d w t w5 w6 ?_).root u3).mono ?_
    · obtain ⟨rels, h1, _⟩ := hw.cls base sp d w1 w4
      exact ⟨rels, h1⟩
    · rintro H' e' ⟨m1, m2⟩
      refine ⟨⟨d, w, u3, by omega, fun h => (by cases h), ?_, m1⟩, ?_⟩
      · intro b sp' h1 h2
        cases h1
        rw [w1] at h2
        cases h2
        exact ⟨w5, w4, u2⟩
      · intro b sp' h1 h2
        cases h1
        rw [w1] at h2
        cases h2
        obtain ⟨rels, k1, k2⟩ := hw.cls base sp d w1 w4
        exact m2 rels base k1 k2 sp _ w1 ((hf.prefix w2 hEb (hsub base hb)).mono m1.grow.extends) hi'

theorem forRels_does (S : Samples L) (hw : Wired D.schema D.relIdx D.classRels D.H.schema rc r) (hcm : Compatible L D.H.schema)
    {rec : String → Int → DB F → Tape → Res (DB F × Tape)} {c : String} (hrc : c ≠ rc) {i : Int}
    (hrec : ∀ c' i' H e t, St L D H e → r c' < r c → c' ≠ rc → (∃ rels, D.classRels.find? c' = some rels) →
      Does D c' i' e (rec c' i' (D.at H e) t) (ForClass L D r rc c' i' H e))
    {l : List String} (hl : ∀ n ∈ l, ∃ spec, D.H.schema.find? n = some spec ∧ spec.doms.getLast? = some c) {H : HIRM F} {e : Ents} (hst : St L D H e) (t : Tape) :
    Does D c i e (DB.forRels rec c i l (D.at H e) t) (fun H' e' => Moved L D r rc c i H e H' e' ∧ ∀ n ∈ l, Has D H' e' n i) := by
  induction l generalizing H e t with
  | nil => exact .ok ⟨.refl hst, fun n h => (by cases h)⟩
  | cons n l ih =>
    obtain ⟨spec, hs, hc⟩ := hl n (List.mem_cons_self ..)
    obtain ⟨hne, hE⟩ := hw.tree n spec hs
    have hpos := List.length_pos_of_ne_nil hne
    have hR := hw.rooted n spec c hs hc hrc
    have hsub : ∀ b, spec.base? = some b → ∀ i f j, RelEntry D.relIdx b i f j → RelEntry D.relIdx n i f j := by
      intro b hb
      obtain ⟨sp, tl, c₁, c', _, _, w3, _, _, _, w8⟩ := hw.base n spec b hs hb
      rw [hc] at w3
      cases w3
      exact w8 hrc
    have hcls := hw.known n spec c hs (List.mem_of_getLast? hc)
    unfold DB.forRels
    refine OkOr.does (sampleAncestors_okOr hw.closed hw.rank (depth D.schema) c hcls (hw.bound c) i e t hst.ents) ?_
    rintro ⟨its, e₁, t₁⟩ h1
    obtain ⟨g1, l1, n1⟩ := sampleAncestors_spec _ _ _ _ _ _ _ _ h1
    have hfull := l1.full
    refine Does.grow g1 ?_
    have hst₁ : St L D H e₁ := ⟨hst.reach, hst.schema, g1.ok hst.ents⟩
    have m₁ : Moved L D r rc c i H e H e₁ := ⟨hst₁, g1, fun hf => (n1 hf).1, fun _ _ _ h => h, fun n k v h1 h2 => (by rw [h1] at h2; cases h2)⟩
    refine Does.of (FMap.atKey_of_find (m := H.schema) (k := n) (v := spec) (by rw [hst.schema]; exact hs)) ?_
    obtain ⟨items, h2, h3⟩ := relationItems_defined (rels := H.schema) (relIdx := D.relIdx) (s := D.schema) (by rw [hst.schema]; exact hs) hE
      (e := e₁) spec.doms.length (spec.doms.length - 1) i (List.replicate spec.doms.length 0) c (by omega) (last_get hc) hfull (by simp)
    refine Does.of h2 ?_
    have hfil := relationItems_spec (rels := H.schema) (relIdx := D.relIdx) (s := D.schema) (by rw [hst.schema]; exact hs) hE _ _ _ _ _ h2 c (last_get hc)
    obtain ⟨f1, f2, _⟩ := hfil.follows hE hR (by simp)
    have hf2 := f2 hne
    refine Does.bind (forBase_does hw hst₁ hs hc hE hR f1 hsub hf2 (fun c' i' t h1 h2 h3 => hrec c' i' H e₁ t hst₁ h1 h2 h3) t₁) ?_
    rintro H₂ e₂ t₂ ⟨⟨c₁, i₁, u1, u2, _, _, m2⟩, _⟩
    have m₂ := m2.root u1 u2
    have he₂ := m₂.still hfull
    subst he₂
    obtain ⟨H₃, t₃, h4, m₃, v, hv⟩ := ensureValue_does S hw hcm m₂.st hs hc hrc f1 i t₂
    refine Does.of h4 ?_
    refine Does.mono (ih (fun n h => hl n (List.mem_cons_of_mem _ h)) m₃.st t₃) ?_
    rintro H' e' ⟨m₄, hh⟩
    refine ⟨((m₁.trans m₂).trans m₃).trans m₄, ?_⟩
    have he' := m₄.still hfull
    subst he'
    intro n' hn'
    rcases List.mem_cons.mp hn' with rfl | hn'
    · intro spec' items' q1 q2 q3
      rw [hs] at q1
      cases q1
      have := Follows.unique hE hR q2 f1 (by rw [q3, hf2])
      subst this
      exact ⟨v, m₄.kept _ _ _ hv⟩
    · exact hh n' hn'

/-- `sample_and_incorporate_for_class` succeeds unless there is a clash of identifiers. -/
theorem forClass_does (S : Samples L) (hw : Wired D.schema D.relIdx D.classRels D.H.schema rc r) (hcm : Compatible L D.H.schema) (m : Nat) :
    ∀ c i H e t, St L D H e → r c < m → c ≠ rc → (∃ rels, D.classRels.find? c = some rels) →
      Does D c i e (DB.forClass m c i (D.at H e) t) (ForClass L D r rc c i H e) := by
  induction m with
  | zero => intro c i H e t _ h; omega
  | succ m ih =>
    rintro c i H e t hst hlt hrc ⟨rels, hrels⟩
    unfold DB.forClass
    refine Does.of (FMap.atKey_of_find (m := D.classRels) hrels) ?_
    refine Does.mono (forRels_does S hw hcm hrc (fun c' i' H e t h1 h2 h3 h4 => ih c' i' H e t h1 (by omega) h3 h4)
      (fun n hn => hw.of c rels n hrels hn) hst t) ?_
    rintro H' e' ⟨m1, m2⟩
    refine ⟨m1, ?_⟩
    intro rels' n h1 h2
    rw [hrels] at h1
    cases h1
    exact m2 n h2

end
end
end GenDB
end Verif
