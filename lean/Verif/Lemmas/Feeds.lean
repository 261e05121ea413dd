import Verif.Lemmas.IncorporateAll
import Verif.Lemmas.ClusterFileLoad
import Verif.Lemmas.DomainState
/-!
Reading observations: which entities are seated.
-/
namespace Verif
noncomputable section
variable {V : Type} {F : Family V} {M : Type} {Q : String → Int → Prop}

theorem uses_take {ds ds' : List String} (h : ds <+: ds') : ∀ {k : Items} {n : Nat} {d : String} {i : Int}, Uses ds d i (k.take n) → Uses ds' d i k := by
  obtain ⟨u, rfl⟩ := h
  intro k n d i hu
  obtain ⟨j, hj⟩ := List.mem_iff_getElem?.mp hu
  rw [List.getElem?_zip_eq_some] at hj
  refine List.mem_iff_getElem?.mpr ⟨j, ?_⟩
  rw [List.getElem?_zip_eq_some]
  refine ⟨?_, ?_⟩
  · rw [List.getElem?_append_left (by have := (List.getElem?_eq_some_iff.mp hj.1).1; exact this)]
    exact hj.1
  · have := hj.2
    rw [List.getElem?_take] at this
    split at this
    · exact this
    · cases this

open UtilIO in
/-- the entity has a name -/
def HIRM.HasName (enc : Encoding) (d : String) (i : Int) : Prop := ∃ x, Encoding.entity enc d i = some x

namespace UtilIO
open HIRM (HasName)

/-- what `incorporate` and `sample_at_items` keep of a model, if the entities of new observations are in `Q` -/
structure Feeds (X : Host F M) (Q : String → Int → Prop) (K : M → Prop) : Prop where
  incorporate : ∀ {m m' : M} {r : String} {items : Items} {v : V} {t t' : Tape}, K m → X.incorporate m r items v t = .ok (m', t') →
    (∀ spec, (X.schema m).find? r = some spec → ∀ d i, Uses spec.doms d i items → Q d i) → K m' ∧ X.schema m' = X.schema m
  sampleAt : ∀ {m m' : M} {r : String} {items : Items} {v : V} {t t' : Tape}, K m → X.sampleAt m r items t = .ok (v, m', t') →
    K m' ∧ X.schema m' = X.schema m

variable {X : Host F M} {K : M → Prop} {parse : F.C ⊕ F.E → String → Res V} {S : Schema F} {e : ObsMap Int} {n2b : FMap String String}

/-- the state while observations are read -/
structure Reading (X : Host F M) (Q : String → Int → Prop) (K : M → Prop) (S : Schema F) (s : IncState M) : Prop where
  known : K s.m
  schema : X.schema s.m = S
  noted : ∀ n spec k, S.find? n = some spec → Noted s n k → ∀ d i, Uses spec.doms d i k → Q d i

theorem Feeds.feed (hX : Feeds X Q K) {r : String} {kind : F.C ⊕ F.E} : ∀ (l : List (Items × String)) (m : M) (t : Tape) (x : M × Tape), K m →
    (∀ spec, (X.schema m).find? r = some spec → ∀ o ∈ l, ∀ d i, Uses spec.doms d i o.1 → Q d i) → feed X parse r kind l m t = .ok x →
    K x.1 ∧ X.schema x.1 = X.schema m := by
  intro l
  induction l with
  | nil => intro m t x h _ hc; cases hc; exact ⟨h, rfl⟩
  | cons o l ih =>
    intro m t x h hQ hc
    obtain ⟨v, _, hc⟩ := bind_ok.mp hc
    obtain ⟨⟨m₁, t₁⟩, h1, hc⟩ := bind_ok.mp hc
    obtain ⟨k, hs⟩ := hX.incorporate h h1 (fun spec hs => hQ spec hs o (by simp))
    obtain ⟨a, b⟩ := ih _ _ _ k (fun spec hsp o' ho' => hQ spec (by rw [← hs]; exact hsp) o' (by simp [ho'])) hc
    exact ⟨a, b.trans hs⟩

theorem Feeds.sampleMissing (hX : Feeds X Q K) {r : String} : ∀ (l : List Items) (m : M) (t : Tape) (x : M × Tape), K m →
    (∀ spec, (X.schema m).find? r = some spec → ∀ k ∈ l, ∀ d i, Uses spec.doms d i k → Q d i) → sampleMissing X r l m t = .ok x →
    K x.1 ∧ X.schema x.1 = X.schema m := by
  intro l
  induction l with
  | nil => intro m t x h _ hc; cases hc; exact ⟨h, rfl⟩
  | cons k l ih =>
    intro m t x h hQ hc
    obtain ⟨⟨v, m₁, t₁⟩, h1, hc⟩ := bind_ok.mp hc
    obtain ⟨rel, _, hc⟩ := bind_ok.mp hc
    obtain ⟨h', hs⟩ := hX.sampleAt h h1
    split at hc
    · obtain ⟨a, b⟩ := ih _ _ _ h' (fun spec hsp k' hk' => hQ spec (by rw [← hs]; exact hsp) k' (by simp [hk'])) hc
      exact ⟨a, b.trans hs⟩
    · obtain ⟨⟨m₂, t₂⟩, h2, hc⟩ := bind_ok.mp hc
      obtain ⟨h'', hs2⟩ := hX.incorporate h' h2 (fun spec hsp => hQ spec (by rw [← hs]; exact hsp) k (by simp))
      have hs' := hs2.trans hs
      obtain ⟨a, b⟩ := ih _ _ _ h'' (fun spec hsp k' hk' => hQ spec (by rw [← hs']; exact hsp) k' (by simp [hk'])) hc
      exact ⟨a, b.trans hs'⟩

theorem Reading.own (hX : Feeds X Q K) (he : ∀ r spec l, S.find? r = some spec → e.find? r = some l → ∀ o ∈ l, ∀ d i, Uses spec.doms d i o.1 → Q d i) {r : String} {rel : Rel F}
    {s : IncState M} (h : Reading X Q K S s) {t : Tape} {x : IncState M × Tape} (hc : incOwn X parse e r rel s t = .ok x) : Reading X Q K S x.1 := by
  unfold incOwn at hc
  split at hc
  · rename_i l hl
    obtain ⟨⟨m₁, t₁⟩, h1, hc⟩ := bind_ok.mp hc
    cases hc
    obtain ⟨a, b⟩ := hX.feed _ _ _ _ h.known (fun spec hs => he r spec l (by rw [← h.schema]; exact hs) hl) h1
    exact ⟨a, b.trans h.schema, h.noted⟩
  · obtain ⟨is, h0, hc⟩ := bind_ok.mp hc
    obtain ⟨⟨m₁, t₁⟩, h1, hc⟩ := bind_ok.mp hc
    cases hc
    obtain ⟨a, b⟩ := hX.sampleMissing _ _ _ _ h.known (fun spec hs k hk => h.noted r spec k (by rw [← h.schema]; exact hs)
      ((noted_atKey h0 k).mpr ((shuffle_perm _ _).mem_iff.mp hk))) h1
    exact ⟨a, b.trans h.schema, h.noted⟩

theorem Reading.note (hp : ∀ n spec b sp, S.find? n = some spec → spec.base? = some b → S.find? b = some sp → sp.doms <+: spec.doms)
    {r base : String} (hb : ∃ spec, S.find? r = some spec ∧ spec.base? = some base) {rel : Rel F}
    {s : IncState M} (h : Reading X Q K S s) {t : Tape} {x : IncState M × Tape} (hc : noteBase X r base rel s t = .ok x) : Reading X Q K S x.1 := by
  obtain ⟨is, h0, hc⟩ := bind_ok.mp hc
  obtain ⟨b, h1, hc⟩ := bind_ok.mp hc
  obtain ⟨items, h2, hc⟩ := bind_ok.mp hc
  cases hc
  obtain ⟨h3, _⟩ := collectBase_ok h2
  refine ⟨h.known, h.schema, fun n spec k hs hk => ?_⟩
  rcases (h3 n k).mp hk with hk | ⟨rfl, k', hk', rfl⟩
  · exact h.noted n spec k hs hk
  · intro d i hu
    obtain ⟨sp, hs1, hb1⟩ := hb
    exact h.noted r sp k' hs1 ((noted_atKey h0 k').mpr ((shuffle_perm _ _).mem_iff.mp hk')) d i (uses_take (hp r sp n spec hs1 hb1 hs) hu)

theorem Reading.relation (hX : Feeds X Q K) (hp : ∀ n spec b sp, S.find? n = some spec → spec.base? = some b → S.find? b = some sp → sp.doms <+: spec.doms)
    (he : ∀ r spec l, S.find? r = some spec → e.find? r = some l → ∀ o ∈ l, ∀ d i, Uses spec.doms d i o.1 → Q d i)
    (hb : ∀ n b, n2b.find? n = some b → ∃ spec, S.find? n = some spec ∧ spec.base? = some b) : ∀ (fuel : Nat) (r : String) (s : IncState M) (t : Tape)
      (x : IncState M × Tape), Reading X Q K S s → incRelation X parse e n2b fuel r s t = .ok x → Reading X Q K S x.1 := by
  intro fuel
  induction fuel with
  | zero => intro r s t x _ hc; cases hc
  | succ fuel ih =>
    intro r s t x h hc
    obtain ⟨rel, _, hc⟩ := bind_ok.mp hc
    split at hc
    · exact h.own hX he hc
    · rename_i base hbase
      dsimp only at hc
      split at hc
      · have hc : (incRelation X parse e n2b fuel base s t >>= fun y => incOwn X parse e r rel y.1 y.2) = .ok x := hc
        obtain ⟨⟨s₂, t₂⟩, h2, hc⟩ := bind_ok.mp hc
        exact (ih _ _ _ _ h h2).own hX he hc
      · obtain ⟨⟨s₁, t₁⟩, h1, hc⟩ := bind_ok.mp hc
        obtain ⟨⟨s₂, t₂⟩, h2, hc⟩ := bind_ok.mp hc
        exact (ih _ _ _ _ (h.note hp (hb r base hbase) h1) h2).own hX he hc

theorem Reading.loop (hX : Feeds X Q K) (hp : ∀ n spec b sp, S.find? n = some spec → spec.base? = some b → S.find? b = some sp → sp.doms <+: spec.doms)
    (he : ∀ r spec l, S.find? r = some spec → e.find? r = some l → ∀ o ∈ l, ∀ d i, Uses spec.doms d i o.1 → Q d i)
    (hb : ∀ n b, n2b.find? n = some b → ∃ spec, S.find? n = some spec ∧ spec.base? = some b) : ∀ (l : List String) (s : IncState M) (t : Tape)
      (x : IncState M × Tape), Reading X Q K S s → incLoop X parse e n2b l s t = .ok x → Reading X Q K S x.1 := by
  intro l
  induction l with
  | nil => intro s t x h hc; cases hc; exact h
  | cons r l ih =>
    intro s t x h hc
    unfold incLoop at hc
    split at hc
    · exact ih _ _ _ h hc
    · obtain ⟨⟨s₁, t₁⟩, h1, hc⟩ := bind_ok.mp hc
      exact ih _ _ _ (Reading.relation hX hp he hb _ _ _ _ _ h h1) hc

/-- Reading observations keeps `K`. -/
theorem Feeds.occurring {enc : Encoding} (hX : Feeds X Q K) {m : M} (h : K m)
    (hlinks : ∀ b ns n, (X.baseToNoisy m).find? b = some ns → n ∈ ns → ∃ spec, (X.schema m).find? n = some spec ∧ spec.base? = some b)
    (hp : ∀ n spec b sp, (X.schema m).find? n = some spec → spec.base? = some b → (X.schema m).find? b = some sp → sp.doms <+: spec.doms)
    {obs : ObsMap String} (hQ : ∀ d x c, Occurs (X.schema m) obs d x → Encoding.code enc d x = some c → Q d c)
    {t : Tape} {x : M × Tape} (hc : incorporateObservations X parse m enc obs t = .ok x) :
    K x.1 ∧ X.schema x.1 = X.schema m := by
  obtain ⟨⟨e, t1⟩, h1, hc⟩ := bind_ok.mp hc
  obtain ⟨n2b, h2, hc⟩ := bind_ok.mp hc
  obtain ⟨⟨s, t2⟩, h3, hc⟩ := bind_ok.mp hc
  cases hc
  obtain ⟨g1, g2⟩ := encode_facts h1
  have he : ∀ r spec l, (X.schema m).find? r = some spec → e.find? r = some l → ∀ o ∈ l, ∀ d i, Uses spec.doms d i o.1 → Q d i := by
    intro r spec l hs hl o ho d i hu
    cases hr : obs.find? r with
    | none => rw [g2 r hr] at hl; cases hl
    | some lo =>
      obtain ⟨spec', cs, k1, k2, k3⟩ := g1 r lo hr
      have k1 : (X.schema m).find? r = some spec' := k1
      rw [hs] at k1
      cases k1
      rw [hl] at k3
      split at k3
      · cases k3
      · cases k3
        obtain ⟨a, hm, ha⟩ := forall₂_mem_right k2 ho
        obtain ⟨c1, c2⟩ := encObs_codes ha
        obtain ⟨j, hj⟩ := List.mem_iff_getElem?.mp hu
        rw [List.getElem?_zip_eq_some] at hj
        have hlt : j < a.1.length := by rw [← c1]; exact (List.getElem?_eq_some_iff.mp hj.2).1
        obtain ⟨d', e1, e2⟩ := c2 j a.1[j] i (List.getElem?_eq_getElem hlt) hj.2
        rw [hj.1] at e1
        cases e1
        exact hQ _ _ _ ⟨r, spec, lo, a.1, a.2, j, hs, hr, hm, List.getElem?_eq_getElem hlt, hj.1⟩ e2
  have hb : ∀ n b, n2b.find? n = some b → ∃ spec, (X.schema m).find? n = some spec ∧ spec.base? = some b := by
    intro n b hn
    rcases (linkBases_ok h2).1 n b hn with h | ⟨ns, h4, h5⟩
    · cases h
    · exact hlinks b ns n (FMap.mem_entries.mp ((shuffle_perm _ _).mem_iff.mp h4)) h5
  have hr : Reading X Q K (X.schema m) { m := m, items := allItems e.entries ∅ } := by
    refine ⟨h, rfl, fun n spec k hs hk => ?_⟩
    rcases (allItems_mem n k).mp hk with hk | ⟨l, h4, h5⟩
    · cases hk
    · obtain ⟨o, ho, rfl⟩ := List.mem_map.mp h5
      exact he n spec l hs (FMap.mem_entries.mp h4) o ho
  have := Reading.loop hX hp he hb _ _ _ _ hr h3
  exact ⟨this.known, this.schema⟩

theorem Feeds.observations {enc : Encoding} (hX : Feeds X (HasName enc) K) (hbij : ∀ d x c, Encoding.code enc d x = some c → HasName enc d c) {m : M} (h : K m)
    (hlinks : ∀ b ns n, (X.baseToNoisy m).find? b = some ns → n ∈ ns → ∃ spec, (X.schema m).find? n = some spec ∧ spec.base? = some b)
    (hp : ∀ n spec b sp, (X.schema m).find? n = some spec → spec.base? = some b → (X.schema m).find? b = some sp → sp.doms <+: spec.doms)
    {obs : ObsMap String} {t : Tape} {x : M × Tape} (hc : incorporateObservations X parse m enc obs t = .ok x) :
    K x.1 ∧ X.schema x.1 = X.schema m :=
  hX.occurring h hlinks hp (fun d x c _ => hbij d x c) hc

end UtilIO
end
end Verif
