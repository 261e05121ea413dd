import Verif.Model.Emission
import Verif.Lemmas.DistMore
/-! Lemmas about the emissions. -/
namespace Verif
noncomputable section

/-! ### BitFlip and IdentityEmission -/

/-- the pairs that a bit flip can produce -/
def Differ {V : Type} (x : V × V) : Prop := x.1 ≠ x.2

theorem BitFlip.inc_eq {x : Bool × Bool} (hx : Differ x) (s w : ℝ) : BitFlip.incW s x w = .ok (s + w : ℝ) := by
  have : (x.1 != x.2) = true := by simpa [Differ] using hx
  simp [BitFlip, this, bind, Except.bind]

theorem BitFlip.logp_eq {x : Bool × Bool} (hx : Differ x) (s : ℝ) : BitFlip.logp s x = .ok (0, s) := by
  have : (x.1 != x.2) = true := by simpa [Differ] using hx
  simp [BitFlip, this, bind, Except.bind]

/-- BitFlip stores the number of its data. -/
def BitFlip.lawful : Lawful BitFlip.ops.toDistOps Differ where
  H := Unit
  Rep := fun _ m s => s = ((Multiset.card m : ℝ) : ℝ) ∧ ∀ x ∈ m, Differ x
  fresh := fun _ => ⟨(), by simp [WEmis.ops, BitFlip], by simp⟩
  supported := fun h hx => h.2 _ hx
  inc := by
    rintro _ m _ x ⟨rfl, hm⟩ hx
    refine ⟨_, BitFlip.inc_eq hx _ _, by simp; rfl, ?_⟩
    intro y hy
    rcases Multiset.mem_cons.1 hy with rfl | hy
    · exact hx
    · exact hm _ hy
  dec := by
    rintro _ m _ x ⟨rfl, hm⟩
    exact ⟨_, BitFlip.inc_eq (hm x (Multiset.mem_cons_self _ _)) _ _, by simp; rfl, fun y hy => hm _ (Multiset.mem_cons_of_mem hy)⟩
  count := by rintro _ m s ⟨hs, _⟩; exact hs
  logp := by
    rintro _ m s x hr hx
    exact ⟨0, s, BitFlip.logp_eq hx s, hr⟩
  trans := fun hr _ => ⟨(), hr⟩
  theta := fun hr _ => ⟨(), hr⟩

theorem BitFlip.scored : BitFlip.lawful.Scored := fun _ _ _ _ _ _ => rfl

theorem BitFlip.exact : BitFlip.lawful.Exact := by
  rintro h m s s' ⟨h1, _⟩ ⟨h2, _⟩
  exact h1.trans h2.symm

theorem BitFlip.coherent : Coherent BitFlip.lawful := by
  rintro h m s x s1 hr hx h1
  refine ⟨s, (BitFlip.logp_eq hx s).trans ?_⟩
  simp [WEmis.ops, BitFlip]

/-- IdentityEmission stores the number of its data. -/
def IdentityEmission.lawful (V : Type) : Lawful (IdentityEmission V).ops.toDistOps (fun _ => True) where
  H := Unit
  Rep := fun _ m s => s = ((Multiset.card m : ℝ) : ℝ)
  fresh := fun _ => ⟨(), by simp [WEmis.ops, IdentityEmission]⟩
  supported := fun _ _ => trivial
  inc := by
    rintro _ m _ x rfl _
    exact ⟨((Multiset.card m : ℝ) + 1 : ℝ), rfl, by simp; rfl⟩
  dec := by
    rintro _ m _ x rfl
    exact ⟨((Multiset.card (x ::ₘ m) : ℝ) + -1 : ℝ), rfl, by simp; rfl⟩
  count := fun hs => hs
  logp := fun hr _ => ⟨0, _, rfl, hr⟩
  trans := fun hr _ => ⟨(), hr⟩
  theta := fun hr _ => ⟨(), hr⟩

theorem IdentityEmission.scored (V : Type) : (IdentityEmission.lawful V).Scored := fun _ _ _ _ _ _ => rfl

theorem IdentityEmission.exact (V : Type) : (IdentityEmission.lawful V).Exact := by
  rintro h m s s' h1 h2
  exact Eq.trans h1 (Eq.symm h2)

theorem IdentityEmission.coherent (V : Type) : Coherent (IdentityEmission.lawful V) := by
  rintro h m s x s1 hr hx h1
  exact ⟨s, by simp [WEmis.ops, IdentityEmission]⟩

/-! ### GaussianEmission -/
namespace GaussianEmission

/-- the differences of the pairs -/
def diffs (m : Multiset (ℝ × ℝ)) : Multiset ℝ := m.map (fun x => x.2 - x.1)

def rep (h : ℝ × ℝ) (m : Multiset (ℝ × ℝ)) : Gaussian.St := { N := Multiset.card m, zmn := ZeroMeanNormal.rep h (diffs m) }

theorem inc_rep (z h m x) : (GaussianEmission z).incW (rep h m) x 1 = .ok (rep h (x ::ₘ m)) := by
  show (Except.ok _ : Res Gaussian.St) = _
  simp only [rep, diffs, Multiset.map_cons, Multiset.card_cons]
  rw [ZeroMeanNormal.inc_rep]
  push_cast; rfl

theorem dec_rep (z h m x) : (GaussianEmission z).incW (rep h (x ::ₘ m)) x (-1) = .ok (rep h m) := by
  show (Except.ok _ : Res Gaussian.St) = _
  have := ZeroMeanNormal.dec_rep h (diffs m) (x.2 - x.1)
  simp only [ZeroMeanNormal.unincorporate] at this
  simp only [rep, diffs, Multiset.map_cons, Multiset.card_cons] at this ⊢
  rw [this]
  push_cast; simp; rfl

/-- GaussianEmission stores the multiset of the differences. -/
def lawful (z) : Lawful (GaussianEmission z).ops.toDistOps (fun _ => True) where
  H := {h : ℝ × ℝ // 0 < h.1 ∧ 0 < h.2}
  Rep := fun h m s => s = rep h.1 m
  fresh := fun t => ⟨⟨(1, 1), by norm_num⟩, by simp [WEmis.ops, GaussianEmission, rep, diffs, ZeroMeanNormal.rep]⟩
  supported := fun _ _ => trivial
  inc := by rintro h m s x rfl _; exact ⟨_, inc_rep z _ _ _, rfl⟩
  dec := by rintro h m s x rfl; exact ⟨_, dec_rep z _ _ _, rfl⟩
  count := by rintro h m s rfl; rfl
  logp := by rintro h m s x rfl _; exact ⟨_, _, rfl, rfl⟩
  trans := by
    rintro h m s rfl t
    obtain ⟨h', hm, he⟩ := ZeroMeanNormal.trans_mem (rep h.1 m).zmn t
    refine ⟨⟨h', ZeroMeanNormal.grid_pos hm⟩, ?_⟩
    show ({ N := _, zmn := ((rep h.1 m).zmn.transitionHyperparameters t).1 } : Gaussian.St) = _
    rw [he]; rfl

theorem scored (z) : (lawful z).Scored := by rintro h m s s' rfl rfl; rfl

theorem exact (z) : (lawful z).Exact := by rintro h m s s' rfl rfl; rfl

theorem coherent (z) : Coherent (lawful z) := by
  rintro h m s x s1 hs _ h1
  have hs' : s = rep h.1 m := hs
  subst hs'
  have h1' := (inc_rep z h.1 m x).symm.trans h1
  injection h1' with h1'
  subst h1'
  obtain ⟨s', h2⟩ := ZeroMeanNormal.coherent h (diffs m) (ZeroMeanNormal.rep h.1 (diffs m)) (x.2 - x.1)
    (ZeroMeanNormal.rep h.1 ((x.2 - x.1) ::ₘ diffs m)) rfl trivial
    (by show (Except.ok _ : Res ZeroMeanNormal) = _; rw [ZeroMeanNormal.inc_rep]; rfl)
  refine ⟨rep h.1 m, ?_⟩
  injection h2 with h2
  have h3 := congrArg Prod.fst h2
  show (Except.ok ((rep h.1 m).zmn.logp (x.2 - x.1), rep h.1 m) : Res (ℝ × Gaussian.St)) = _
  congr 2
  have e : diffs (x ::ₘ m) = (x.2 - x.1) ::ₘ diffs m := by simp [diffs]
  show _ = (ZeroMeanNormal.rep h.1 (diffs (x ::ₘ m))).logpScore - _
  rw [e]
  exact h3

end GaussianEmission

/-! ### Sometimes -/
namespace Sometimes
variable {V : Type} [DecidableEq V] {W : WEmis V} {supp : V × V → Prop}

/-- the pairs that `Sometimes` accepts: unchanged values, and changes that the base emission accepts -/
def Supp (supp : V × V → Prop) (x : V × V) : Prop := x.1 = x.2 ∨ supp x

/-- the changed pairs -/
def changed (m : Multiset (V × V)) : Multiset (V × V) := m.filter (fun x => x.1 ≠ x.2)

/-- the coin tosses -/
def tosses (m : Multiset (V × V)) : Multiset Bool := m.map (fun x => decide (x.1 ≠ x.2))

theorem mem_changed {m : Multiset (V × V)} {x} : x ∈ changed m ↔ x ∈ m ∧ x.1 ≠ x.2 := by simp [changed]

theorem changed_cons_ne {m : Multiset (V × V)} {x : V × V} (h : x.1 ≠ x.2) : changed (x ::ₘ m) = x ::ₘ changed m := by
  simp [changed, h]

theorem changed_cons_eq {m : Multiset (V × V)} {x : V × V} (h : x.1 = x.2) : changed (x ::ₘ m) = changed m := by
  simp [changed, h]

theorem tosses_cons_ne {m : Multiset (V × V)} {x : V × V} (h : x.1 ≠ x.2) : tosses (x ::ₘ m) = true ::ₘ tosses m := by
  simp [tosses, h]

theorem tosses_cons_eq {m : Multiset (V × V)} {x : V × V} (h : x.1 = x.2) : tosses (x ::ₘ m) = false ::ₘ tosses m := by
  simp [tosses, h]

/-- the state holding `m` -/
def Rep (L : Lawful W.ops.toDistOps supp) (h : BetaBernoulli.PosH × L.H) (m : Multiset (V × V)) (s : St W) : Prop :=
  s.N = Multiset.card m ∧ s.bb = BetaBernoulli.rep h.1.1 (tosses m) ∧ L.Rep h.2 (changed m) s.be

theorem Rep.inc {L : Lawful W.ops.toDistOps supp} {h m} {s : St W} {x} (hr : Rep L h m s) (hx : Supp supp x) :
    ∃ s', incorporate W false s x 1 = .ok s' ∧ Rep L h (x ::ₘ m) s' := by
  obtain ⟨h1, h2, h3⟩ := hr
  by_cases he : x.1 = x.2
  · refine ⟨{ s with N := s.N + 1, bb := s.bb.incorporate false 1 }, by simp [incorporate, he], ?_, ?_, ?_⟩
    · simp [h1]
    · show s.bb.incorporate false = _
      rw [h2, BetaBernoulli.inc_rep, tosses_cons_eq he]
    · rw [changed_cons_eq he]; exact h3
  · obtain ⟨be, h4, h5⟩ := L.inc h3 (hx.resolve_left he)
    have h4 : W.incW s.be x 1 = .ok be := h4
    refine ⟨{ N := s.N + 1, bb := s.bb.incorporate true 1, be := be }, by
      simp [incorporate, he, h4, bind, Except.bind], ?_, ?_, ?_⟩
    · simp [h1]
    · show s.bb.incorporate true = _
      rw [h2, BetaBernoulli.inc_rep, tosses_cons_ne he]
    · rw [changed_cons_ne he]; exact h5

theorem Rep.dec {L : Lawful W.ops.toDistOps supp} {h m} {s : St W} {x} (hr : Rep L h (x ::ₘ m) s) :
    ∃ s', incorporate W false s x (-1) = .ok s' ∧ Rep L h m s' := by
  obtain ⟨h1, h2, h3⟩ := hr
  by_cases he : x.1 = x.2
  · rw [tosses_cons_eq he] at h2
    rw [changed_cons_eq he] at h3
    refine ⟨{ s with N := s.N + -1, bb := s.bb.incorporate false (-1) }, by simp [incorporate, he], ?_, ?_, h3⟩
    · simp [h1]
    · show s.bb.unincorporate false = _
      rw [h2, BetaBernoulli.dec_rep]
  · rw [tosses_cons_ne he] at h2
    rw [changed_cons_ne he] at h3
    obtain ⟨be, h4, h5⟩ := L.dec h3
    have h4 : W.incW s.be x (-1) = .ok be := h4
    refine ⟨{ N := s.N + -1, bb := s.bb.incorporate true (-1), be := be }, by
      simp [incorporate, he, h4, bind, Except.bind], ?_, ?_, h5⟩
    · simp [h1]
    · show s.bb.unincorporate true = _
      rw [h2, BetaBernoulli.dec_rep]

/-- `Sometimes` of a lawful emission is lawful (without the option `dirty_can_equal_clean`). -/
def lawful (L : Lawful W.ops.toDistOps supp) : Lawful (Sometimes W).ops.toDistOps (Supp supp) where
  H := BetaBernoulli.PosH × L.H
  Rep := Rep L
  fresh := fun t => by
    obtain ⟨h, hr⟩ := L.fresh t
    exact ⟨(⟨(1, 1), by norm_num, by norm_num⟩, h), by simp [WEmis.ops, Sometimes],
      by simp [WEmis.ops, Sometimes, BetaBernoulli.rep, tosses], hr⟩
  supported := by
    intro h m s x hr hx
    by_cases he : x.1 = x.2
    · exact .inl he
    · exact .inr (L.supported hr.2.2 (mem_changed.mpr ⟨hx, he⟩))
  inc := fun hr hx => hr.inc hx
  dec := fun hr => hr.dec
  count := fun hr => hr.1
  logp := by
    intro h m s x hr hx
    by_cases he : x.1 = x.2
    · exact ⟨s.bb.logp false, s, by simp [WEmis.ops, Sometimes, logp, he], hr⟩
    · obtain ⟨v, be, h1, h2⟩ := L.logp hr.2.2 (hx.resolve_left he)
      have h1 : W.logp s.be x = .ok (v, be) := h1
      exact ⟨s.bb.logp true + v, ({ s with be := be } : St W),
        by simp [WEmis.ops, Sometimes, logp, he, h1, bind, Except.bind], hr.1, hr.2.1, h2⟩
  trans := by
    intro h m s hr t
    obtain ⟨h', h1⟩ := L.trans hr.2.2 t
    obtain ⟨h2, h3, h4⟩ := BetaBernoulli.trans_mem s.bb (W.trans s.be t).2
    refine ⟨(⟨(_, _), BetaBernoulli.grid_pos h2, BetaBernoulli.grid_pos h3⟩, h'), hr.1, ?_, h1⟩
    refine Eq.trans h4 ?_
    have e1 : s.bb.N = (BetaBernoulli.rep h.1.1 (tosses m)).N := by rw [hr.2.1]
    have e2 : s.bb.s = (BetaBernoulli.rep h.1.1 (tosses m)).s := by rw [hr.2.1]
    rw [e1, e2]; rfl

theorem scored {L : Lawful W.ops.toDistOps supp} (S : L.Scored) : (lawful L).Scored := by
  intro h m s s' hr hr'
  show s.bb.logpScore + W.score s.be = s'.bb.logpScore + W.score s'.be
  rw [hr.2.1, hr'.2.1]
  congr 1
  exact S _ _ _ _ hr.2.2 hr'.2.2

theorem exact {L : Lawful W.ops.toDistOps supp} (E : L.Exact) : (lawful L).Exact := by
  rintro h m ⟨N, bb, be⟩ ⟨N', bb', be'⟩ ⟨h1, h2, h3⟩ ⟨h4, h5, h6⟩
  have h7 : be = be' := E _ _ _ _ h3 h6
  simp only at h1 h2 h4 h5
  subst h7 h1 h2 h4 h5
  rfl

theorem coherent {L : Lawful W.ops.toDistOps supp} (C : Coherent L) : Coherent (lawful L) := by
  rintro h m s x s1 ⟨hr1, hr2, hr3⟩ hx h1
  have hbb : ∀ (b : Bool), s.bb.logp b = (s.bb.incorporate b).logpScore - s.bb.logpScore := by
    intro b
    obtain ⟨s', h2⟩ := BetaBernoulli.coherent h.1 (tosses m) s.bb b (s.bb.incorporate b) hr2 trivial rfl
    injection h2 with h2
    exact congrArg Prod.fst h2
  replace h1 : incorporate W false s x 1 = .ok s1 := h1
  by_cases he : x.1 = x.2
  · simp [incorporate, he] at h1
    injection h1 with h1
    subst h1
    refine ⟨s, ?_⟩
    show logp W false s x = .ok ((s.bb.incorporate false).logpScore + W.score s.be - (s.bb.logpScore + W.score s.be), s)
    simp only [logp, he]
    simp
    rw [hbb]
  · obtain ⟨be, h4, h5⟩ := L.inc hr3 (hx.resolve_left he)
    obtain ⟨be', h6⟩ := C _ _ _ _ _ hr3 (hx.resolve_left he) h4
    have h4 : W.incW s.be x 1 = .ok be := h4
    have h6 : W.logp s.be x = .ok (W.score be - W.score s.be, be') := h6
    simp only [incorporate, he, ne_eq, not_false_eq_true, if_true, h4, bind, Except.bind] at h1
    injection h1 with h1
    subst h1
    refine ⟨({ s with be := be' } : St W), ?_⟩
    show logp W false s x =
      .ok ((s.bb.incorporate true).logpScore + W.score be - (s.bb.logpScore + W.score s.be), ({ s with be := be' } : St W))
    simp [logp, he, h6, bind, Except.bind]
    rw [hbb]; ring

end Sometimes

end
end Verif
