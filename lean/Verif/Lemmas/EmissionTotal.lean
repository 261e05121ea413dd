import Verif.Lemmas.Counted
import Verif.Props.BigramString
/-! The laws of the emissions that count their data but cannot undo an observation: `bigram` and `sometimes_categorical`. -/
namespace Verif
noncomputable section

/-- Every operation of the emission succeeds on the supported pairs, with any weight, and counts. -/
structure WEmis.Total {V : Type} (W : WEmis V) (supp : V × V → Prop) where
  WF : W.S → Prop
  fresh : WF W.fresh ∧ W.N W.fresh = 0
  incW : ∀ {s x}, WF s → supp x → ∀ w, ∃ s', W.incW s x w = .ok s' ∧ WF s' ∧ W.N s' = W.N s + w
  logp : ∀ {s x}, WF s → supp x → ∃ lp s', W.logp s x = .ok (lp, s') ∧ WF s' ∧ W.N s' = W.N s
  trans : ∀ {s}, WF s → ∀ t, WF (W.trans s t).1 ∧ W.N (W.trans s t).1 = W.N s
  corrupt : ∀ {s x}, WF s → (∃ y, supp (x, y)) → ∀ t, ∃ y t', W.corrupt s x t = .ok (y, t') ∧ supp (x, y)

/-- Such an emission has the laws of a distribution, except that the data do not determine the score. -/
def WEmis.Total.lawful {V : Type} {W : WEmis V} {supp : V × V → Prop} (T : W.Total supp) : Lawful W.ops.toDistOps supp where
  H := Unit
  Rep := fun _ m s => T.WF s ∧ W.N s = Multiset.card m ∧ ∀ x ∈ m, supp x
  fresh := fun _ => ⟨(), T.fresh.1, T.fresh.2.trans (by simp), by simp⟩
  supported := fun h hx => h.2.2 _ hx
  inc := by
    rintro h m s x ⟨h1, h2, h3⟩ hx
    obtain ⟨s', a1, a2, a3⟩ := T.incW h1 hx 1
    refine ⟨s', a1, a2, by rw [a3, h2]; simp, fun y hy => ?_⟩
    rcases Multiset.mem_cons.mp hy with rfl | hy
    · exact hx
    · exact h3 y hy
  dec := by
    rintro h m s x ⟨h1, h2, h3⟩
    obtain ⟨s', a1, a2, a3⟩ := T.incW h1 (h3 x (Multiset.mem_cons_self _ _)) (-1)
    exact ⟨s', a1, a2, by rw [a3, h2]; simp, fun y hy => h3 y (Multiset.mem_cons_of_mem hy)⟩
  count := fun h => h.2.1
  logp := by
    rintro h m s x ⟨h1, h2, h3⟩ hx
    obtain ⟨lp, s', a1, a2, a3⟩ := T.logp h1 hx
    exact ⟨lp, s', a1, a2, a3.trans h2, h3⟩
  trans := by
    rintro h m s ⟨h1, h2, h3⟩ t
    obtain ⟨a1, a2⟩ := T.trans h1 t
    exact ⟨(), a1, a2.trans h2, h3⟩
  theta := fun h _ => ⟨(), h⟩

theorem WEmis.Total.wf {V : Type} {W : WEmis V} {supp : V × V → Prop} (T : W.Total supp) {m : Multiset (V × V)} {s : W.S}
    (h : W.ops.Holds supp m s) : T.WF s := by
  obtain ⟨_, h1, _⟩ := T.lawful.holds h
  exact h1

namespace BigramString

/-- the bigram string emission -/
def totals : BigramStringEmission.Total (fun x => Printable x.1 ∧ Printable x.2) where
  WF := WF
  fresh := ⟨init_wf, rfl⟩
  incW := by
    intro s x hs hx w
    obtain ⟨s', h1, h2⟩ := incorporate_ok hs hx.1 hx.2 w
    exact ⟨s', h1, h2.wf, h2.N⟩
  logp := by
    intro s x hs hx
    obtain ⟨s', h1, _⟩ := incorporate_ok hs hx.1 hx.2 1
    refine ⟨s'.logpScore - s.logpScore, s, ?_, hs, rfl⟩
    show (do let lp ← s.logp x; .ok (lp, s)) = _
    simp only [logp, bind, Except.bind, h1]
  trans := fun hs t => ⟨trans_wf hs t, rfl⟩
  corrupt := by
    rintro s x hs ⟨y, hx, _⟩ t
    obtain ⟨r, t', h1, h2⟩ := corruptLoop_printable hs x hx none (by intro c hc; cases hc) t
    exact ⟨r, t', h1, hx, h2⟩

end BigramString

namespace CategoricalEmission

theorem row_ok {k : Nat} {s : St} (hs : s.dists.length = k ∧ ∀ d ∈ s.dists, d.counts.length = k) {x : Int} (hx : 0 ≤ x ∧ x < k) :
    ∃ d, row s x = .ok d ∧ d ∈ s.dists ∧ d.counts.length = k := by
  have hlt : x.toNat < s.dists.length := by rw [hs.1]; omega
  refine ⟨s.dists[x.toNat], ?_, List.getElem_mem hlt, hs.2 _ (List.getElem_mem hlt)⟩
  unfold row
  rw [if_neg (by omega)]
  simp [idxR, List.getElem?_eq_getElem hlt]

theorem transLoop_shape {k : Nat} : ∀ (l : List DirichletCategorical) (t : Tape), (∀ d ∈ l, d.counts.length = k) →
    (transLoop l t).1.length = l.length ∧ ∀ d ∈ (transLoop l t).1, d.counts.length = k
  | [], _, _ => ⟨rfl, by simp [transLoop]⟩
  | d :: ds, t, h => by
    obtain ⟨h1, h2⟩ := transLoop_shape ds (d.transitionHyperparameters t).2 (fun e he => h e (by simp [he]))
    refine ⟨?_, ?_⟩
    · simp only [transLoop, List.length_cons, h1]
    · intro e he
      simp only [transLoop, List.mem_cons] at he
      rcases he with rfl | he
      · exact h d (by simp)
      · exact h2 e he

/-- the categorical emission -/
def totals (k : Nat) : (CategoricalEmission k).Total (Supp k) where
  WF := fun s => s.dists.length = k ∧ ∀ d ∈ s.dists, d.counts.length = k
  fresh := by
    refine ⟨⟨by simp [CategoricalEmission], ?_⟩, rfl⟩
    intro d hd
    simp only [CategoricalEmission] at hd
    rw [List.eq_of_mem_replicate hd]
    simp [DirichletCategorical.mk']
  incW := by
    rintro s x hs ⟨hx, hy⟩ w
    obtain ⟨d, h1, h2, h3⟩ := row_ok hs hx
    have hr : d.inRange x.2 = true := by simp [DirichletCategorical.inRange, h3, hy.1, hy.2]
    refine ⟨{ N := s.N + w, dists := s.dists.set x.1.toNat { d with N := d.N + w, counts := d.counts.modify x.2.toNat (· + w) } }, ?_, ⟨?_, ?_⟩, rfl⟩
    · show incorporate s x w = _
      simp only [incorporate, DirichletCategorical.incorporate, bind, Except.bind, h1, hr, assertR_true]
      rfl
    · simp only [List.length_set]; exact hs.1
    · intro e he
      rcases List.mem_or_eq_of_mem_set he with he | rfl
      · exact hs.2 e he
      · simp [h3]
  logp := by
    rintro s x hs ⟨hx, hy⟩
    obtain ⟨d, h1, h2, h3⟩ := row_ok hs hx
    have hlt : x.2.toNat < d.counts.length := by rw [h3]; have := hy.1; have := hy.2; omega
    have hr : d.inRange x.2 = true := by simp [DirichletCategorical.inRange, h3, hy.1, hy.2]
    have : ∃ v, d.logp x.2 = .ok v := by
      unfold DirichletCategorical.logp
      simp only [bind, Except.bind, hr, assertR_true, idxR, List.getElem?_eq_getElem hlt]
      exact ⟨_, rfl⟩
    obtain ⟨v, hv⟩ := this
    refine ⟨v, s, ?_, hs, rfl⟩
    show (logp s x).bind _ = _
    simp only [logp, bind, Except.bind, h1, hv]
    rfl
  trans := by
    intro s hs t
    obtain ⟨h1, h2⟩ := transLoop_shape s.dists t hs.2
    exact ⟨⟨h1.trans hs.1, h2⟩, rfl⟩
  corrupt := by
    rintro s x hs ⟨y, hx, hy⟩ t
    obtain ⟨d, h1, h2, h3⟩ := row_ok hs hx
    have hk : 0 < k := by have := hx.1; have := hx.2; simp only at *; omega
    have hlt : (d.sample t).1 < k := by
      have := draw_lt (n := d.counts.length) (by omega) t
      unfold DirichletCategorical.sample
      omega
    refine ⟨((d.sample t).1 : Int), (d.sample t).2, ?_, hx, by simp, ?_⟩
    · show corrupt s x t = _
      simp only [corrupt, bind, Except.bind, h1]
    · simpa using hlt

end CategoricalEmission

namespace Sometimes
variable {V : Type} [DecidableEq V]

/-- `Sometimes` of such an emission that can leave a value as it is -/
def totals {W : WEmis V} {supp : V × V → Prop} (T : W.Total supp) (hd : ∀ {x y}, supp (x, y) → supp (x, x)) : (Sometimes W true).Total supp where
  WF := fun s => T.WF s.be
  fresh := ⟨T.fresh.1, rfl⟩
  incW := by
    intro s x hs hx w
    show ∃ s', incorporate W true s x w = .ok s' ∧ _
    unfold incorporate
    by_cases he : x.1 = x.2
    · obtain ⟨lp, be, h1, h2, _⟩ := T.logp hs hx
      obtain ⟨be', h3, h4, _⟩ := T.incW h2 hx (Real.exp (s.bb.logp true + lp) * w)
      simp only [he, ne_eq, not_true_eq_false, if_false, if_true, bind, Except.bind, h1, h3]
      exact ⟨_, rfl, h4, rfl⟩
    · obtain ⟨be, h1, h2, _⟩ := T.incW hs hx w
      simp only [he, ne_eq, not_false_eq_true, if_true, bind, Except.bind, h1]
      exact ⟨_, rfl, h2, rfl⟩
  logp := by
    intro s x hs hx
    show ∃ lp s', logp W true s x = .ok (lp, s') ∧ _
    unfold logp
    obtain ⟨lp, be, h1, h2, _⟩ := T.logp hs hx
    by_cases he : x.1 = x.2
    · simp only [he, ne_eq, not_true_eq_false, if_false, Bool.not_true, Bool.false_eq_true, bind, Except.bind, h1]
      exact ⟨_, _, rfl, h2, rfl⟩
    · simp only [he, ne_eq, not_false_eq_true, if_true, bind, Except.bind, h1]
      exact ⟨_, _, rfl, h2, rfl⟩
  trans := fun hs t => ⟨(T.trans hs t).1, rfl⟩
  corrupt := by
    rintro s x hs ⟨y, hy⟩ t
    show ∃ z t', corrupt W s x t = .ok (z, t') ∧ _
    unfold corrupt
    dsimp only
    split
    · exact T.corrupt hs ⟨y, hy⟩ _
    · exact ⟨x, _, rfl, hd hy⟩

end Sometimes
end
end Verif
