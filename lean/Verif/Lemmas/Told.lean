import Verif.Spec.Told
import Verif.Lemmas.Named
/-!
Reading observations: which tuples are stored at the end of a run that returns.  This needs nothing about the distributions.
-/
namespace Verif
noncomputable section
variable {V : Type} {F : Family V} {M : Type}

theorem derefR_ok {α : Type} {o : Option α} {x : α} : derefR o = .ok x ↔ o = some x := by
  cases o with
  | none => constructor <;> (intro h; cases h)
  | some y => constructor <;> (intro h; cases h; rfl)

namespace UtilIO

/-- what reading observations needs to know of a model: `st` are the stored tuples -/
structure Stores (X : Host F M) (K : M → Prop) (st : M → String → Items → Prop) : Prop where
  incorporate : ∀ {m m' : M} {r : String} {items : Items} {v : V} {t t' : Tape}, K m → X.incorporate m r items v t = .ok (m', t') →
    K m' ∧ X.schema m' = X.schema m ∧ ∀ n k, st m' n k ↔ st m n k ∨ n = r ∧ k = items
  sampleAt : ∀ {m m' : M} {r : String} {items : Items} {v : V} {t t' : Tape}, K m → X.sampleAt m r items t = .ok (v, m', t') →
    K m' ∧ X.schema m' = X.schema m ∧ ∀ n k, st m' n k ↔ st m n k
  view : ∀ {m : M} {r : String} {rel : Rel F} {b : BaseView V}, K m → X.get m r = .ok rel → IRM.baseOf (X.env m) rel = some b →
    ∃ spec bn sp, (X.schema m).find? r = some spec ∧ spec.base? = some bn ∧ (X.schema m).find? bn = some sp ∧ b.arity = sp.doms.length
  based : ∀ {m : M} {n b : String} {spec sp : RelSpec F} {k : Items}, K m → (X.schema m).find? n = some spec → spec.base? = some b →
    (X.schema m).find? b = some sp → st m n k → st m b (k.take sp.doms.length)

variable {X : Host F M} {K : M → Prop} {st : M → String → Items → Prop} {parse : F.C ⊕ F.E → String → Res V} {S : Schema F} {e : ObsMap Int}
  {n2b : FMap String String} {T : String → Items → Prop}

/-- what is known while observations are read: only tuples in `T` are stored and noted, and the observations of the completed relations are stored -/
structure Telling (X : Host F M) (K : M → Prop) (st : M → String → Items → Prop) (S : Schema F) (e : ObsMap Int) (T : String → Items → Prop)
    (s : IncState M) : Prop where
  known : K s.m
  schema : X.schema s.m = S
  stored : ∀ n k, st s.m n k → T n k
  noted : ∀ n k, Noted s n k → T n k
  completed : ∀ r l, s.completed.contains r = true → e.find? r = some l → ∀ o ∈ l, st s.m r o.1

theorem Stores.feed (hX : Stores X K st) {r : String} {kind : F.C ⊕ F.E} : ∀ (l : List (Items × String)) (m : M) (t : Tape) (x : M × Tape), K m →
    feed X parse r kind l m t = .ok x → K x.1 ∧ X.schema x.1 = X.schema m ∧ ∀ n k, st x.1 n k ↔ st m n k ∨ n = r ∧ ∃ o ∈ l, o.1 = k := by
  intro l
  induction l with
  | nil => intro m t x h hc; cases hc; exact ⟨h, rfl, fun n k => by simp⟩
  | cons o l ih =>
    intro m t x h hc
    obtain ⟨v, _, hc⟩ := bind_ok.mp hc
    obtain ⟨⟨m₁, t₁⟩, h1, hc⟩ := bind_ok.mp hc
    obtain ⟨k, hs, hst⟩ := hX.incorporate h h1
    obtain ⟨a, b, c⟩ := ih _ _ _ k hc
    refine ⟨a, b.trans hs, fun n k => ?_⟩
    rw [c, hst]
    simp only [List.mem_cons, exists_eq_or_imp]
    constructor
    · rintro ((h | ⟨h, h'⟩) | ⟨h, h'⟩)
      · exact .inl h
      · exact .inr ⟨h, .inl h'.symm⟩
      · exact .inr ⟨h, .inr h'⟩
    · rintro (h | ⟨h, h' | h'⟩)
      · exact .inl (.inl h)
      · exact .inl (.inr ⟨h, h'.symm⟩)
      · exact .inr ⟨h, h'⟩

theorem Stores.sampleMissing (hX : Stores X K st) {r : String} : ∀ (l : List Items) (m : M) (t : Tape) (x : M × Tape), K m →
    sampleMissing X r l m t = .ok x → K x.1 ∧ X.schema x.1 = X.schema m ∧ (∀ n k, st m n k → st x.1 n k) ∧
      ∀ n k, st x.1 n k → st m n k ∨ n = r ∧ k ∈ l := by
  intro l
  induction l with
  | nil => intro m t x h hc; cases hc; exact ⟨h, rfl, fun _ _ h => h, fun _ _ h => .inl h⟩
  | cons a l ih =>
    intro m t x h hc
    obtain ⟨⟨v, m₁, t₁⟩, h1, hc⟩ := bind_ok.mp hc
    obtain ⟨rel, _, hc⟩ := bind_ok.mp hc
    obtain ⟨h', hs, hst⟩ := hX.sampleAt h h1
    split at hc
    · obtain ⟨a1, a2, a3, a4⟩ := ih _ _ _ h' hc
      refine ⟨a1, a2.trans hs, fun n k hk => a3 n k ((hst n k).mpr hk), fun n k hk => ?_⟩
      rcases a4 n k hk with hk | ⟨hn, hk⟩
      · exact .inl ((hst n k).mp hk)
      · exact .inr ⟨hn, by simp [hk]⟩
    · obtain ⟨⟨m₂, t₂⟩, h2, hc⟩ := bind_ok.mp hc
      obtain ⟨h'', hs2, hst2⟩ := hX.incorporate h' h2
      obtain ⟨a1, a2, a3, a4⟩ := ih _ _ _ h'' hc
      refine ⟨a1, a2.trans (hs2.trans hs), fun n k hk => a3 n k ((hst2 n k).mpr (.inl ((hst n k).mpr hk))), fun n k hk => ?_⟩
      rcases a4 n k hk with hk | ⟨hn, hk⟩
      · rcases (hst2 n k).mp hk with hk | ⟨hn, hk⟩
        · exact .inl ((hst n k).mp hk)
        · exact .inr ⟨hn, by simp [hk]⟩
      · exact .inr ⟨hn, by simp [hk]⟩

theorem Telling.own (hX : Stores X K st) (he : ∀ r l, e.find? r = some l → ∀ o ∈ l, T r o.1) {r : String} {rel : Rel F} {s : IncState M}
    (h : Telling X K st S e T s) {t : Tape} {x : IncState M × Tape} (hc : incOwn X parse e r rel s t = .ok x) :
    Telling X K st S e T x.1 ∧ (∀ n, s.completed.contains n = true → x.1.completed.contains n = true) ∧ x.1.completed.contains r = true := by
  have hins : ∀ n, (FSet.insert s.completed r).contains n = true ↔ n = r ∨ s.completed.contains n = true := by
    intro n
    rw [FMap.contains_iff_mem, FSet.mem_insert, FMap.contains_iff_mem]
  unfold incOwn at hc
  split at hc
  · rename_i l hl
    obtain ⟨⟨m₁, t₁⟩, h1, hc⟩ := bind_ok.mp hc
    cases hc
    obtain ⟨a, b, c⟩ := hX.feed _ _ _ _ h.known h1
    refine ⟨⟨a, b.trans h.schema, fun n k hk => ?_, h.noted, fun n l' hn hl' o ho => ?_⟩, fun n hn => (hins n).mpr (.inr hn), (hins r).mpr (.inl rfl)⟩
    · rcases (c n k).mp hk with hk | ⟨rfl, o, ho, rfl⟩
      · exact h.stored n k hk
      · exact he _ l hl o ho
    · rcases (hins n).mp hn with rfl | hn
      · rw [hl] at hl'; cases hl'
        exact (c _ _).mpr (.inr ⟨rfl, o, ho, rfl⟩)
      · exact (c _ _).mpr (.inl (h.completed n l' hn hl' o ho))
  · rename_i hl
    obtain ⟨is, h0, hc⟩ := bind_ok.mp hc
    obtain ⟨⟨m₁, t₁⟩, h1, hc⟩ := bind_ok.mp hc
    cases hc
    obtain ⟨a, b, c, d⟩ := hX.sampleMissing _ _ _ _ h.known h1
    refine ⟨⟨a, b.trans h.schema, fun n k hk => ?_, h.noted, fun n l' hn hl' o ho => ?_⟩, fun n hn => (hins n).mpr (.inr hn), (hins r).mpr (.inl rfl)⟩
    · rcases d n k hk with hk | ⟨rfl, hk'⟩
      · exact h.stored n k hk
      · exact h.noted _ k ((noted_atKey h0 k).mpr ((shuffle_perm _ _).mem_iff.mp hk'))
    · rcases (hins n).mp hn with rfl | hn
      · rw [hl] at hl'; cases hl'
      · exact c _ _ (h.completed n l' hn hl' o ho)

theorem Telling.note (hX : Stores X K st) (hT : ∀ n b spec sp k, T n k → S.find? n = some spec → spec.base? = some b → S.find? b = some sp → T b (k.take sp.doms.length))
    {r base : String} (hb : ∃ spec, S.find? r = some spec ∧ spec.base? = some base) {rel : Rel F} {s : IncState M} (hr : X.get s.m r = .ok rel)
    (h : Telling X K st S e T s) {t : Tape} {x : IncState M × Tape} (hc : noteBase X r base rel s t = .ok x) :
    Telling X K st S e T x.1 ∧ x.1.completed = s.completed := by
  obtain ⟨is, h0, hc⟩ := bind_ok.mp hc
  obtain ⟨b, h1, hc⟩ := bind_ok.mp hc
  obtain ⟨items, h2, hc⟩ := bind_ok.mp hc
  cases hc
  obtain ⟨h3, _⟩ := collectBase_ok h2
  have hbv : IRM.baseOf (X.env s.m) rel = some b := derefR_ok.mp h1
  obtain ⟨spec, bn, sp, k1, k2, k3, k4⟩ := hX.view h.known hr hbv
  rw [h.schema] at k1 k3
  obtain ⟨spec', l1, l2⟩ := hb
  rw [k1] at l1; cases l1
  rw [k2] at l2; cases l2
  refine ⟨⟨h.known, h.schema, h.stored, fun n k hk => ?_, h.completed⟩, rfl⟩
  rcases (h3 n k).mp hk with hk | ⟨rfl, k', hk', rfl⟩
  · exact h.noted n k hk
  · rw [k4]
    exact hT r n spec sp k' (h.noted r k' ((noted_atKey h0 k').mpr ((shuffle_perm _ _).mem_iff.mp hk'))) k1 k2 k3

theorem Telling.relation (hX : Stores X K st) (hT : ∀ n b spec sp k, T n k → S.find? n = some spec → spec.base? = some b → S.find? b = some sp → T b (k.take sp.doms.length))
    (he : ∀ r l, e.find? r = some l → ∀ o ∈ l, T r o.1) (hb : ∀ n b, n2b.find? n = some b → ∃ spec, S.find? n = some spec ∧ spec.base? = some b) :
    ∀ (fuel : Nat) (r : String) (s : IncState M) (t : Tape) (x : IncState M × Tape), Telling X K st S e T s → incRelation X parse e n2b fuel r s t = .ok x →
      Telling X K st S e T x.1 ∧ (∀ n, s.completed.contains n = true → x.1.completed.contains n = true) ∧ x.1.completed.contains r = true := by
  intro fuel
  induction fuel with
  | zero => intro r s t x _ hc; cases hc
  | succ fuel ih =>
    intro r s t x h hc
    obtain ⟨rel, hr, hc⟩ := bind_ok.mp hc
    split at hc
    · exact h.own hX he hc
    · rename_i base hbase
      dsimp only at hc
      split at hc
      · have hc : (incRelation X parse e n2b fuel base s t >>= fun y => incOwn X parse e r rel y.1 y.2) = .ok x := hc
        obtain ⟨⟨s₂, t₂⟩, h2, hc⟩ := bind_ok.mp hc
        obtain ⟨a, b, _⟩ := ih _ _ _ _ h h2
        obtain ⟨a', b', c'⟩ := a.own hX he hc
        exact ⟨a', fun n hn => b' n (b n hn), c'⟩
      · obtain ⟨⟨s₁, t₁⟩, h1, hc⟩ := bind_ok.mp hc
        obtain ⟨⟨s₂, t₂⟩, h2, hc⟩ := bind_ok.mp hc
        obtain ⟨a0, e0⟩ := h.note hX hT (hb r base hbase) hr h1
        obtain ⟨a, b, _⟩ := ih _ _ _ _ a0 h2
        obtain ⟨a', b', c'⟩ := a.own hX he hc
        exact ⟨a', fun n hn => b' n (b n (by rw [e0]; exact hn)), c'⟩

theorem Telling.loop (hX : Stores X K st) (hT : ∀ n b spec sp k, T n k → S.find? n = some spec → spec.base? = some b → S.find? b = some sp → T b (k.take sp.doms.length))
    (he : ∀ r l, e.find? r = some l → ∀ o ∈ l, T r o.1) (hb : ∀ n b, n2b.find? n = some b → ∃ spec, S.find? n = some spec ∧ spec.base? = some b) :
    ∀ (l : List String) (s : IncState M) (t : Tape) (x : IncState M × Tape), Telling X K st S e T s → incLoop X parse e n2b l s t = .ok x →
      Telling X K st S e T x.1 ∧ (∀ n, s.completed.contains n = true → x.1.completed.contains n = true) ∧ ∀ r ∈ l, x.1.completed.contains r = true := by
  intro l
  induction l with
  | nil => intro s t x h hc; cases hc; exact ⟨h, fun _ h => h, fun _ h => by cases h⟩
  | cons r l ih =>
    intro s t x h hc
    unfold incLoop at hc
    split at hc
    · rename_i hr
      obtain ⟨a, b, c⟩ := ih _ _ _ h hc
      refine ⟨a, b, fun n hn => ?_⟩
      rcases List.mem_cons.mp hn with rfl | hn
      · exact b _ hr
      · exact c n hn
    · obtain ⟨⟨s₁, t₁⟩, h1, hc⟩ := bind_ok.mp hc
      obtain ⟨a0, b0, c0⟩ := Telling.relation hX hT he hb _ _ _ _ _ h h1
      obtain ⟨a, b, c⟩ := ih _ _ _ a0 hc
      refine ⟨a, fun n hn => b n (b0 n hn), fun n hn => ?_⟩
      rcases List.mem_cons.mp hn with rfl | hn
      · exact b _ c0
      · exact c n hn

/-- the encoded observations -/
def Encoded (e : ObsMap Int) (n : String) (k : Items) : Prop := ∃ l, e.find? n = some l ∧ ∃ o ∈ l, o.1 = k

/-- What is stored when all observations have been read into a model without any. -/
theorem Stores.observations {enc : Encoding} (hX : Stores X K st) {m : M} (h : K m) (h0 : ∀ n k, ¬ st m n k)
    (hlinks : ∀ b ns n, (X.baseToNoisy m).find? b = some ns → n ∈ ns → ∃ spec, (X.schema m).find? n = some spec ∧ spec.base? = some b)
    {obs : ObsMap String} {t : Tape} {x : M × Tape} (hc : incorporateObservations X parse m enc obs t = .ok x) :
    K x.1 ∧ X.schema x.1 = X.schema m ∧ ∃ e t', encodeObservations (X.schema m) obs enc t = .ok (e, t') ∧
      ∀ n k, st x.1 n k ↔ Told (X.schema m) (Encoded e) n k := by
  obtain ⟨⟨e, t1⟩, h1, hc⟩ := bind_ok.mp hc
  obtain ⟨n2b, h2, hc⟩ := bind_ok.mp hc
  obtain ⟨⟨s, t2⟩, h3, hc⟩ := bind_ok.mp hc
  cases hc
  have hb : ∀ n b, n2b.find? n = some b → ∃ spec, (X.schema m).find? n = some spec ∧ spec.base? = some b := by
    intro n b hn
    rcases (linkBases_ok h2).1 n b hn with h | ⟨ns, h4, h5⟩
    · cases h
    · exact hlinks b ns n (FMap.mem_entries.mp ((shuffle_perm _ _).mem_iff.mp h4)) h5
  have hs : Telling X K st (X.schema m) e (Told (X.schema m) (Encoded e)) { m := m, items := allItems e.entries ∅ } := by
    refine ⟨h, rfl, fun n k hk => absurd hk (h0 n k), fun n k hk => ?_, fun r l hr => by cases hr⟩
    rcases (allItems_mem n k).mp hk with hk | ⟨l, h4, h5⟩
    · cases hk
    · obtain ⟨o, ho, rfl⟩ := List.mem_map.mp h5
      exact .given ⟨l, FMap.mem_entries.mp h4, o, ho, rfl⟩
  obtain ⟨a, _, c⟩ := Telling.loop hX (fun n b spec sp k h1 h2 h3 h4 => .base h1 h2 h3 h4) (fun r l hl o ho => .given ⟨l, hl, o, ho, rfl⟩) hb _ _ _ _ hs h3
  refine ⟨a.known, a.schema, e, t1, h1, fun n k => ⟨a.stored n k, fun hk => ?_⟩⟩
  induction hk with
  | given hk =>
    obtain ⟨l, hl, o, ho, rfl⟩ := hk
    exact a.completed _ l (c _ ((shuffle_perm _ _).mem_iff.mpr (FMap.mem_keys.mpr ⟨l, hl⟩))) hl o ho
  | base _ k1 k2 k3 ih =>
    exact hX.based a.known (by rw [a.schema]; exact k1) k2 (by rw [a.schema]; exact k3) ih

end UtilIO
end
end Verif
