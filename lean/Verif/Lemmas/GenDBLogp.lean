import Verif.Spec.GenDBLogp
import Verif.Lemmas.CRPGibbs
import Verif.Lemmas.GenDBSeats
import Verif.Lemmas.GenDBLoad
import Verif.Lemmas.HIRMReach
/-!
The log probabilities that taking out values and entities returns.
-/
namespace Verif
open Spec
noncomputable section
variable {V : Type}

theorem FMap.sum_set {K A : Type} [Key K] {m : FMap K A} {k : K} {a : A} (h : m.find? k = some a) (b : A) (f : A → ℝ) :
    ((m.set k b).vals.map f).sum = (m.vals.map f).sum - f a + f b := by
  have p1 := FMap.perm_erase h
  have p2 := FMap.perm_set m k b
  have e1 := ((p1.map (·.2)).map f).sum_eq
  have e2 := ((p2.map (·.2)).map f).sum_eq
  simp only [List.map_cons, List.sum_cons] at e1 e2
  simp only [FMap.vals]
  linarith

theorem Lawful.tells {D : DistOps V} {supp : V → Prop} {L : Lawful D supp} (S : L.Scored) (C : Coherent L) : D.Tells supp := by
  intro m x s s' lp s'' hs hd hl
  obtain ⟨h, hr⟩ := L.holds hs
  have hx : supp x := L.supported hr (Multiset.mem_cons_self ..)
  obtain ⟨s₁, h1, r1⟩ := L.dec hr
  rw [hd] at h1
  cases h1
  obtain ⟨s₂, h2, r2⟩ := L.inc r1 hx
  obtain ⟨s₃, h3⟩ := C h m s' x s₂ r1 hx h2
  obtain ⟨v, s₄, h4, r4⟩ := L.logp r1 hx
  rw [hl] at h3 h4
  cases h3
  cases h4
  exact ⟨by rw [S h _ _ _ r2 hr], S h _ _ _ r4 r1⟩

/-! ### a customer leaves a CRP -/

theorem CRP.left_score {c c' : CRP} (hc : c.WF) (ha : 0 < c.alpha) {i t : Int} (hi : c.assignments.find? i = some t) (h : c.unincorporate i = .ok c') :
    GenDB.leftLogp c' t = ((c.logpScore - c'.logpScore : ℝ) : WithBot ℝ) := by
  obtain ⟨s, hs, _⟩ := CRP.mem_table hc hi
  rw [CRP.unincorporate_eq hi hs] at h
  cases h
  have h0 := hc.uninState hi hs
  have hn : (c.uninState i t s).assignments.find? i = none := by simp [CRP.uninState]
  have e2 : c = (c.uninState i t s).incState i t := by
    refine hc.ext (h0.incState hn t) rfl (fun j => ?_)
    simp only [CRP.incState, CRP.uninState, FMap.set_erase, FMap.set_of_find hi]
  have s2 := CRP.score_incState h0 ha hn t
  rw [← e2] at s2
  generalize c.uninState i t s = c' at *
  unfold GenDB.leftLogp
  cases ht : c'.tables.find? t with
  | none =>
    rw [ht] at s2
    rw [FMap.contains_false.mpr ht]
    simp only [Bool.false_eq_true, if_false]
    congr 1
    unfold CRP.logpNewTable
    dsimp only at s2
    linarith
  | some s' =>
    rw [ht] at s2
    rw [FMap.contains_iff.mpr ⟨s', ht⟩, if_pos rfl]
    have hN : c'.N ≠ 0 := by
      obtain ⟨j, hj⟩ := h0.nonempty t s' ht
      have h1 := (h0.mem j t).mpr ⟨s', ht, hj⟩
      have h2 := FMap.size_erase h1
      rw [h0.count, ← h2]
      omega
    have hne : t ≠ c'.maxTable + 1 := by
      rintro rfl
      rw [CRP.new_not_mem h0 hN] at ht
      cases ht
    unfold CRP.logp
    rw [CRP.find?_tablesWeights h0 hN, if_neg hne, ht]
    dsimp only [Option.map_some]
    congr 1
    dsimp only at s2
    linarith

/-! ### a value leaves a relation -/

namespace CleanRel
variable {D : DistOps V} {supp : V → Prop} {σ : Doms}

/-- Every cluster holds the values of the tuples that are placed there, and there is a cluster where tuples are placed. -/
def Cells (supp : V → Prop) (σ : Doms) (r : CleanRel D) : Prop :=
  ∀ z, (r.clusters.find? z = none → contents (tupleSeat σ r.doms) r.data z = 0) ∧
    ∀ c, r.clusters.find? z = some c → D.Holds supp (contents (tupleSeat σ r.doms) r.data z) c

/-- so, but the value of the tuple is already gone -/
def Short (supp : V → Prop) (σ : Doms) (r : CleanRel D) (items : Items) : Prop :=
  ∀ z, (r.clusters.find? z = none → contents (tupleSeat σ r.doms) (r.data.erase items) z = 0) ∧
    ∀ c, r.clusters.find? z = some c → D.Holds supp (contents (tupleSeat σ r.doms) (r.data.erase items) z) c

theorem unincorporateFromCluster_short (L : Lawful D supp) {r r' : CleanRel D} {items : Items} (hc : r.Cells supp σ) (h : r.unincorporateFromCluster σ items = .ok r')
    {v : V} (hv : r.data.find? items = some v) : r'.Short supp σ items ∧
    ∀ (_ : D.Tells supp) lp r'', r'.clusterLogpFromItems σ items v = .ok (lp, r'') → lp = r.logpScore - r''.logpScore ∧ r''.Short supp σ items := by
  unfold unincorporateFromCluster at h
  obtain ⟨z, h1, h⟩ := bind_ok.mp h
  obtain ⟨_, _, h⟩ := bind_ok.mp h
  obtain ⟨v', h2, h⟩ := bind_ok.mp h
  obtain ⟨c, h3, h⟩ := bind_ok.mp h
  obtain ⟨c', h4, h⟩ := bind_ok.mp h
  cases h
  have h2 := getValue_find h2
  rw [hv] at h2
  cases h2
  have h3 := FMap.atKey_ok.mp h3
  have hz := clusterOf_ok h1
  have hh := (hc z).2 c h3
  rw [contents_erase hv, if_pos hz] at hh
  obtain ⟨c₁, k1, k2⟩ := L.holds_dec hh
  rw [h4] at k1
  cases k1
  have key : ∀ a, D.Holds supp (contents (tupleSeat σ r.doms) (r.data.erase items) z) a → ∀ m : FMap Items D.S, (∀ z', z' ≠ z → m.find? z' = r.clusters.find? z') →
      m.find? z = some a → Short supp σ { r with clusters := m } items := by
    intro a ha m h5 h6 z'
    by_cases he : z' = z
    · subst he
      refine ⟨fun hb => ?_, fun b hb => ?_⟩
      · dsimp only at hb
        rw [h6] at hb
        cases hb
      · dsimp only at hb ⊢
        rw [h6] at hb
        cases hb
        exact ha
    · have := hc z'
      rw [contents_erase hv, if_neg (fun h => he (by rw [hz] at h; exact (Option.some.inj h).symm))] at this
      refine ⟨fun hb => ?_, fun b hb => ?_⟩
      · dsimp only at hb ⊢
        rw [h5 z' he] at hb
        exact this.1 hb
      · dsimp only at hb ⊢
        rw [h5 z' he] at hb
        exact this.2 b hb
  refine ⟨key c' k2 _ (fun z' he => by rw [FMap.find?_set, if_neg he]) (FMap.find?_set_self _ _ _), fun T lp r'' hl => ?_⟩
  unfold clusterLogpFromItems at hl
  obtain ⟨b, _, hl⟩ := bind_ok.mp hl
  split at hl
  · obtain ⟨z', h5, hl⟩ := bind_ok.mp hl
    have h5 := clusterOf_ok h5
    rw [show CleanRel.doms { r with clusters := r.clusters.set z c' } = r.doms from rfl, hz] at h5
    cases h5
    obtain ⟨a, h6, hl⟩ := bind_ok.mp hl
    have h6 := FMap.atKey_ok.mp h6
    rw [FMap.find?_set_self] at h6
    cases h6
    obtain ⟨⟨lp', c''⟩, h7, hl⟩ := bind_ok.mp hl
    cases hl
    obtain ⟨e1, e2⟩ := T _ v c c' lp c'' hh h4 h7
    obtain ⟨_, c₂, k3, k4⟩ := L.holds_logp k2 (L.holds_supp hh (Multiset.mem_cons_self ..))
    rw [h7] at k3
    cases k3
    refine ⟨?_, key c'' k4 _ (fun z' he => by rw [FMap.find?_set, if_neg he, FMap.find?_set, if_neg he]) (FMap.find?_set_self _ _ _)⟩
    unfold logpScore
    rw [FMap.set_set, FMap.sum_set h3, e1, e2]
    ring
  · cases hl

theorem cleanupData_cells {r r' : CleanRel D} {items : Items} (hc : r.Short supp σ items) (h : r.cleanupData items = .ok r') :
    r'.Cells supp σ ∧ r'.logpScore = r.logpScore ∧ r'.data = r.data.erase items := by
  unfold cleanupData at h
  obtain ⟨m, _, h⟩ := bind_ok.mp h
  cases h
  exact ⟨hc, rfl, rfl⟩

end CleanRel

namespace Rel
variable {F : Family V} {σ : Doms}

/-- Every cluster holds the values of the tuples that are placed there. -/
def Cells (L : FamilyLaws F) (σ : Doms) : Rel F → Prop
  | .clean c r => r.Cells (L.suppC c) σ
  | .noisy e _ r => r.emission.Cells (L.suppE e) σ

/-- the kind of the relation tells the log probability of what was taken out -/
def Tells (L : FamilyLaws F) : Rel F → Prop
  | .clean c _ => L.Tells (.inl c)
  | .noisy e _ _ => L.Tells (.inr e)

/-- The emission of a noisy relation holds its values together with the values of the base, as far as the base has them. -/
def Paired (b : Option (BaseView V)) : Rel F → Prop
  | .clean _ _ => True
  | .noisy _ _ r => (∀ k, r.data.find? k = (r.emission.data.find? k).map Prod.snd) ∧
    ∀ w, b = some w → ∀ k x bv, r.emission.data.find? k = some x → w.data.find? (k.take w.arity) = some bv → x.1 = bv

theorem takeOut_cells {L : FamilyLaws F} {b : Option (BaseView V)} {r r' : Rel F} {items : Items} {lp : WithBot ℝ} {v : V} (hT : r.Tells L) (hc : r.Cells L σ) (hp : r.Paired b)
    (h : r.takeOut σ b items = .ok (lp, v, r')) : r'.Cells L σ ∧ r'.Paired b ∧ r'.Tells L ∧ ∀ p : ℝ, lp = (p : WithBot ℝ) → r.logpScore = r'.logpScore + p := by
  unfold takeOut at h
  obtain ⟨v', h1, h⟩ := bind_ok.mp h
  obtain ⟨r₁, h2, h⟩ := bind_ok.mp h
  obtain ⟨⟨lp', r₂⟩, h3, h⟩ := bind_ok.mp h
  obtain ⟨r₃, h4, h⟩ := bind_ok.mp h
  cases h
  cases r with
  | clean c r =>
    have hv := CleanRel.getValue_find h1
    obtain ⟨r₁', k2, h2⟩ := bind_ok.mp h2
    cases h2
    obtain ⟨⟨lp', r₂'⟩, k3, h3⟩ := bind_ok.mp h3
    cases h3
    obtain ⟨r₃', k4, h4⟩ := bind_ok.mp h4
    cases h4
    obtain ⟨e1, e2⟩ := (CleanRel.unincorporateFromCluster_short (L.dist c) hc k2 hv).2 hT _ _ k3
    obtain ⟨e3, e4, _⟩ := CleanRel.cleanupData_cells e2 k4
    refine ⟨e3, trivial, hT, fun p hp => ?_⟩
    have := WithBot.coe_injective hp
    show r.logpScore = r₃'.logpScore + p
    rw [e4, ← this, e1]
    ring
  | noisy e q r =>
    have hv := NoisyRel.getValue_find h1
    obtain ⟨r₁', k2, h2⟩ := bind_ok.mp h2
    cases h2
    obtain ⟨b', k5, h3⟩ := bind_ok.mp h3
    obtain ⟨⟨lp', r₂'⟩, k3, h3⟩ := bind_ok.mp h3
    cases h3
    obtain ⟨b'', k6, h4⟩ := bind_ok.mp h4
    obtain ⟨r₃', k4, h4⟩ := bind_ok.mp h4
    cases h4
    obtain ⟨hp1, hp2⟩ := hp
    unfold NoisyRel.unincorporateFromCluster at k2
    obtain ⟨em, k2', h2⟩ := bind_ok.mp k2
    cases h2
    clear k2
    rename' k2' => k2
    rw [hp1] at hv
    cases hx : r.emission.data.find? items with
    | none => rw [hx] at hv; cases hv
    | some x =>
      rw [hx] at hv
      cases hv
      obtain ⟨s1, s2⟩ := CleanRel.unincorporateFromCluster_short (L.emis e) hc k2 hx
      have hsame := (CleanRel.unincorporateFromCluster_same k2).1.data
      cases b with
      | none => cases k5
      | some w =>
        have k5 : w = b' := Except.ok.inj k5
        have k6 : w = b'' := Except.ok.inj k6
        rw [← k5] at k3
        rw [← k6] at k4
        unfold NoisyRel.clusterLogpFromItems at k3
        obtain ⟨bi, hb, k3⟩ := bind_ok.mp k3
        unfold NoisyRel.cleanupData at k4
        obtain ⟨em₃, k7, k4⟩ := bind_ok.mp k4
        obtain ⟨m, _, k4⟩ := bind_ok.mp k4
        cases k4
        have fin : ∀ {em₂ em₃ : CleanRel (F.emis e).toDistOps}, em₂.Short (L.suppE e) σ items → em₂.data = r.emission.data → em₂.cleanupData items = .ok em₃ →
            ∀ m, Rel.Cells L σ (.noisy e q { r with emission := em₃, data := r.data.erase items, baseToNoisy := m }) ∧
            Rel.Paired (some w) (.noisy e q { r with emission := em₃, data := r.data.erase items, baseToNoisy := m }) := by
          intro em₂ em₃ e1 e2 e3 m
          obtain ⟨e4, _, e6⟩ := CleanRel.cleanupData_cells e1 e3
          refine ⟨e4, fun k => ?_, fun w' hw k y bv hy hbv => ?_⟩
          · show (r.data.erase items).find? k = (em₃.data.find? k).map Prod.snd
            rw [e6, e2, FMap.find?_erase, FMap.find?_erase]
            split
            · rfl
            · exact hp1 k
          · replace hy : em₃.data.find? k = some y := hy
            rw [e6, e2, FMap.find?_erase] at hy
            split at hy
            · cases hy
            · exact hp2 w' hw k y bv hy hbv
        split at k3
        · cases k3
          obtain ⟨f1, f2⟩ := fin s1 hsame k7 m
          exact ⟨f1, f2, hT, fun p hp => by cases hp⟩
        · rename_i bv hbv
          obtain ⟨⟨lp'', em₂⟩, k8, k3⟩ := bind_ok.mp k3
          cases k3
          have hbi : bi = items.take w.arity := by
            unfold NoisyRel.baseItems at hb
            split at hb
            · cases hb; rfl
            · cases hb
          subst hbi
          have hxb := hp2 w rfl items x bv hx hbv
          rw [← hxb] at k8
          obtain ⟨e1, e2⟩ := s2 hT _ _ k8
          obtain ⟨f1, f2⟩ := fin e2 ((CleanRel.clusterLogpFromItems_same k8).data.trans hsame) k7 m
          refine ⟨f1, f2, hT, fun p hp => ?_⟩
          have := WithBot.coe_injective hp
          show r.emission.logpScore = em₃.logpScore + p
          rw [(CleanRel.cleanupData_cells e2 k7).2.1, ← this, e1]
          ring

theorem takeOut_base {b : Option (BaseView V)} {r r' : Rel F} {items : Items} {lp : WithBot ℝ} {v : V} (h : r.takeOut σ b items = .ok (lp, v, r'))
    (env : Env V) : IRM.baseOf env r' = IRM.baseOf env r := by
  unfold takeOut at h
  obtain ⟨v', h1, h⟩ := bind_ok.mp h
  obtain ⟨r₁, h2, h⟩ := bind_ok.mp h
  obtain ⟨⟨lp', r₂⟩, h3, h⟩ := bind_ok.mp h
  obtain ⟨r₃, h4, h⟩ := bind_ok.mp h
  cases h
  cases r with
  | clean c r =>
    obtain ⟨r₁', k2, h2⟩ := bind_ok.mp h2
    cases h2
    obtain ⟨⟨lp', r₂'⟩, k3, h3⟩ := bind_ok.mp h3
    cases h3
    obtain ⟨r₃', k4, h4⟩ := bind_ok.mp h4
    cases h4
    rfl
  | noisy e q r =>
    obtain ⟨r₁', k2, h2⟩ := bind_ok.mp h2
    cases h2
    obtain ⟨b', k5, h3⟩ := bind_ok.mp h3
    obtain ⟨⟨lp', r₂'⟩, k3, h3⟩ := bind_ok.mp h3
    cases h3
    obtain ⟨b'', k6, h4⟩ := bind_ok.mp h4
    obtain ⟨r₃', k4, h4⟩ := bind_ok.mp h4
    cases h4
    rfl

theorem takeOut_kind {b : Option (BaseView V)} {r r' : Rel F} {items : Items} {lp : WithBot ℝ} {v : V} (h : r.takeOut σ b items = .ok (lp, v, r')) :
    r'.kind = r.kind ∧ r'.base? = r.base? := by
  unfold takeOut at h
  obtain ⟨v', h1, h⟩ := bind_ok.mp h
  obtain ⟨r₁, h2, h⟩ := bind_ok.mp h
  obtain ⟨⟨lp', r₂⟩, h3, h⟩ := bind_ok.mp h
  obtain ⟨r₃, h4, h⟩ := bind_ok.mp h
  cases h
  cases r with
  | clean c r =>
    obtain ⟨r₁', k2, h2⟩ := bind_ok.mp h2
    cases h2
    obtain ⟨⟨lp', r₂'⟩, k3, h3⟩ := bind_ok.mp h3
    cases h3
    obtain ⟨r₃', k4, h4⟩ := bind_ok.mp h4
    cases h4
    exact ⟨rfl, rfl⟩
  | noisy e q r =>
    obtain ⟨r₁', k2, h2⟩ := bind_ok.mp h2
    cases h2
    obtain ⟨b', k5, h3⟩ := bind_ok.mp h3
    obtain ⟨⟨lp', r₂'⟩, k3, h3⟩ := bind_ok.mp h3
    cases h3
    obtain ⟨b'', k6, h4⟩ := bind_ok.mp h4
    obtain ⟨r₃', k4, h4⟩ := bind_ok.mp h4
    cases h4
    exact ⟨rfl, rfl⟩

end Rel

namespace HIRM
variable {F : Family V} {L : FamilyLaws F} {H H' : HIRM F}

/-- Every cluster holds the values of the tuples that are placed there, every noisy value is held together with the value of its base as far as there is one,
the partitions of the entities are in order, the distributions tell the log probability of what was taken out, and the relations are as the schema says. -/
structure Filed (L : FamilyLaws F) (H : HIRM F) : Prop where
  store : ∀ tb I, H.irms.find? tb = some I → StoreWF I.doms
  alpha : ∀ tb I, H.irms.find? tb = some I → ∀ d dom, I.doms.find? d = some dom → 0 < dom.crp.alpha
  cells : ∀ tb I, H.irms.find? tb = some I → ∀ n id r, I.rels.find? n = some (id, r) → r.Cells L I.doms
  paired : ∀ tb I, H.irms.find? tb = some I → ∀ n id r, I.rels.find? n = some (id, r) → r.Paired (IRM.baseOf H.env r)
  tells : ∀ tb I, H.irms.find? tb = some I → ∀ n id r, I.rels.find? n = some (id, r) → r.Tells L
  kinds : ∀ tb I, H.irms.find? tb = some I → ∀ n id r, I.rels.find? n = some (id, r) → ∃ spec, H.schema.find? n = some spec ∧ spec.Matches r

theorem logpScore_set {tb : Int} {I : IRM F} (hI : H.irms.find? tb = some I) (I' : IRM F) :
    HIRM.logpScore { H with irms := H.irms.set tb I' } = H.logpScore - I.logpScore + I'.logpScore := by
  unfold HIRM.logpScore
  dsimp only
  rw [FMap.sum_set hI]
  ring

/-- The relations that a base pointer shows lose values at most. -/
theorem env_fewer {tb : Int} {I : IRM F} (hI : H.irms.find? tb = some I) {n : String} {id : Nat} {r r' : Rel F} (hr : I.rels.find? n = some (id, r))
    (hd : r'.doms = r.doms) (hf : ∀ k v, r'.data.find? k = some v → r.data.find? k = some v) {p : Ptr} {w' : BaseView V}
    (hw : HIRM.env { H with irms := H.irms.set tb { I with rels := I.rels.set n (id, r') } } p = some w') :
    ∃ w, H.env p = some w ∧ w'.arity = w.arity ∧ ∀ k v, w'.data.find? k = some v → w.data.find? k = some v := by
  unfold HIRM.env at hw ⊢
  cases ht : p.table with
  | none => rw [ht] at hw; cases hw
  | some tb' =>
    rw [ht] at hw
    dsimp only at hw ⊢
    rw [FMap.find?_set] at hw
    by_cases he : tb' = tb
    · subst he
      rw [if_pos rfl] at hw
      rw [hI]
      dsimp only at hw ⊢
      rw [FMap.find?_set] at hw
      by_cases hn : p.name = n
      · rw [if_pos hn] at hw
        rw [hn, hr]
        dsimp only at hw ⊢
        split at hw
        · rename_i hid
          cases hw
          exact ⟨r.view, by rw [if_pos hid], by unfold Rel.view; rw [hd], hf⟩
        · cases hw
      · rw [if_neg hn] at hw
        exact ⟨w', hw, rfl, fun _ _ h => h⟩
    · rw [if_neg he] at hw
      exact ⟨w', hw, rfl, fun _ _ h => h⟩

theorem takeOut_filed (h : Filed L H) {rel : String} {items : Items} {lp : WithBot ℝ} {v : V} (hc : H.takeOut rel items = .ok (lp, v, H')) :
    Filed L H' ∧ ∀ p : ℝ, lp = (p : WithBot ℝ) → H.logpScore = H'.logpScore + p := by
  obtain ⟨⟨tb, I⟩, h1, h2⟩ := bind_ok.mp hc
  obtain ⟨⟨id, r⟩, h3, h2⟩ := bind_ok.mp h2
  obtain ⟨⟨lp', v', r'⟩, h4, h2⟩ := bind_ok.mp h2
  cases h2
  obtain ⟨hT, hI⟩ := relationToIrm_ok.mp h1
  have hr := FMap.atKey_ok.mp h3
  obtain ⟨e1, e2, e3, e4⟩ := Rel.takeOut_cells (h.tells tb I hI rel id r hr) (h.cells tb I hI rel id r hr) (h.paired tb I hI rel id r hr) h4
  have d2 := Rel.takeOut_base h4
  obtain ⟨⟨d1, _⟩, d3, _⟩ := Rel.takeOut_next h4
  have fewer : ∀ k v, r'.data.find? k = some v → r.data.find? k = some v := by
    intro k v hk
    rw [d3, FMap.find?_erase] at hk
    split at hk
    · cases hk
    · exact hk
  have paired : ∀ q : Rel F, q.Paired (IRM.baseOf H.env q) → q.Paired (IRM.baseOf (HIRM.env { H with irms := H.irms.set tb { I with rels := I.rels.set rel (id, r') } }) q) := by
    intro q hq
    cases q with
    | clean c q => trivial
    | noisy e p q =>
      refine ⟨hq.1, fun w' hw k x bv hx hb => ?_⟩
      obtain ⟨w, g1, g2, g3⟩ := env_fewer hI hr d1 fewer hw
      exact hq.2 w g1 k x bv hx (by rw [← g2]; exact g3 _ _ hb)
  have each : ∀ {P : IRM F → Rel F → Prop}, (∀ J rels q, P J q → P { J with rels := rels } q) → (∀ tb I, H.irms.find? tb = some I → ∀ n id r, I.rels.find? n = some (id, r) → P I r) →
      P I r' → ∀ tb' I', (H.irms.set tb { I with rels := I.rels.set rel (id, r') }).find? tb' = some I' → ∀ n id r, I'.rels.find? n = some (id, r) → P I' r := by
    intro P g0 g1 g2 tb' I' hI' n id' q hq
    rw [FMap.find?_set] at hI'
    split at hI'
    · cases hI'
      dsimp only at hq
      rw [FMap.find?_set] at hq
      split at hq
      · cases hq; exact g0 _ _ _ g2
      · exact g0 _ _ _ (g1 tb I hI n id' q hq)
    · exact g1 tb' I' hI' n id' q hq
  have doms : ∀ {P : Doms → Prop}, (∀ tb I, H.irms.find? tb = some I → P I.doms) → ∀ tb' I', (H.irms.set tb { I with rels := I.rels.set rel (id, r') }).find? tb' = some I' → P I'.doms := by
    intro P g1 tb' I' hI'
    rw [FMap.find?_set] at hI'
    split at hI'
    · cases hI'; exact g1 tb I hI
    · exact g1 tb' I' hI'
  refine ⟨⟨doms (P := StoreWF) h.store, doms (P := fun σ => ∀ d dom, σ.find? d = some dom → 0 < dom.crp.alpha) h.alpha,
    each (P := fun I r => r.Cells L I.doms) (fun _ _ _ h => h) h.cells e1,
    each (P := fun _ r => r.Paired (IRM.baseOf (HIRM.env { H with irms := H.irms.set tb { I with rels := I.rels.set rel (id, r') } }) r)) (fun _ _ _ h => h)
      (fun tb I hI n id r hr => paired r (h.paired tb I hI n id r hr)) ?_,
    each (P := fun _ r => r.Tells L) (fun _ _ _ h => h) h.tells e3, fun tb' I' hI' n id' q hq => ?_⟩, fun p hp => ?_⟩
  · apply paired
    rw [d2]
    exact e2
  · dsimp only at hI'
    rw [FMap.find?_set] at hI'
    split at hI'
    · cases hI'
      dsimp only at hq
      rw [FMap.find?_set] at hq
      split at hq
      · rename_i hn
        subst hn
        cases hq
        obtain ⟨spec, k1, k2⟩ := h.kinds tb I hI n id r hr
        obtain ⟨k3, k4⟩ := Rel.takeOut_kind h4
        exact ⟨spec, k1, k3.trans k2.kind, d1.trans k2.doms, by rw [k4]; exact k2.base⟩
      · exact h.kinds tb I hI n id' q hq
    · exact h.kinds tb' I' hI' n id' q hq
  · rw [logpScore_set hI]
    unfold IRM.logpScore
    dsimp only
    rw [FMap.sum_set hr, e4 p hp]
    ring

/-- the partitions of the entities are in order -/
structure Parted (H : HIRM F) : Prop where
  store : ∀ tb I, H.irms.find? tb = some I → StoreWF I.doms
  alpha : ∀ tb I, H.irms.find? tb = some I → ∀ d dom, I.doms.find? d = some dom → 0 < dom.crp.alpha

theorem Filed.parted (h : Filed L H) : Parted H := ⟨h.store, h.alpha⟩

/-- Only the domains differ. -/
def SameRels (H H' : HIRM F) : Prop := ∀ tb, (H'.irms.find? tb).map (·.rels) = (H.irms.find? tb).map (·.rels)

theorem SameRels.env (h : SameRels H H') : H'.env = H.env := by
  funext p
  unfold HIRM.env
  cases ht : p.table with
  | none => rfl
  | some tb =>
    have h := h tb
    dsimp only
    cases h1 : H.irms.find? tb <;> cases h2 : H'.irms.find? tb <;> rw [h1, h2] at h
    · cases h
    · cases h
    · rename_i I I'
      have h : I'.rels = I.rels := Option.some.inj h
      dsimp only
      rw [h]

/-- If the score is `p` higher when the log probability `p` is told. -/
def Falls (H : HIRM F) (lp : WithBot ℝ) (H' : HIRM F) : Prop := ∀ p : ℝ, lp = (p : WithBot ℝ) → H.logpScore = H'.logpScore + p

theorem Falls.zero (H : HIRM F) : Falls H 0 H := by
  intro p hp
  have : (0 : ℝ) = p := WithBot.coe_injective hp
  rw [← this, add_zero]

theorem Falls.add {H₁ H₂ : HIRM F} {lp lp' : WithBot ℝ} (h : Falls H lp H₁) (h' : Falls H₁ lp' H₂) : Falls H (lp + lp') H₂ := by
  intro p hp
  obtain ⟨a, b, ha, hb, hab⟩ := WithBot.add_eq_coe.mp hp
  rw [h a ha.symm, h' b hb.symm, ← hab]
  ring

/-- An entity leaves its domain. -/
theorem leave_falls (h : Parted H) {code : Int} {I : IRM F} {c : String} {dom dom' : Domain} {item cl : Int} (hI : H.irms.find? code = some I) (hd : I.doms.find? c = some dom)
    (hc : dom.crp.assignments.find? item = some cl) (hu : dom.unincorporate item = .ok dom') :
    Parted { H with irms := H.irms.set code { I with doms := I.doms.set c dom' } } ∧ SameRels H { H with irms := H.irms.set code { I with doms := I.doms.set c dom' } } ∧
    Falls H (GenDB.leftLogp dom'.crp cl) { H with irms := H.irms.set code { I with doms := I.doms.set c dom' } } := by
  have hw := h.store code I hI c dom hd
  have ha := h.alpha code I hI c dom hd
  obtain ⟨tb, s, k1, k2, k3, k4⟩ := Domain.unincorporate_eq hw (hw.mem.mpr ⟨cl, hc⟩)
  rw [hc] at k1
  cases k1
  rw [k3] at hu
  cases hu
  have k5 := CRP.left_score hw.crp ha hc (CRP.unincorporate_eq hc k2)
  have each : ∀ {P : Domain → Prop}, (∀ tb I, H.irms.find? tb = some I → ∀ d dom, I.doms.find? d = some dom → P dom) → ∀ x, P x →
      ∀ tb I', (H.irms.set code { I with doms := I.doms.set c x }).find? tb = some I' → ∀ d dom, I'.doms.find? d = some dom → P dom := by
    intro P g1 x g2 tb I' hI' d dom hd'
    rw [FMap.find?_set] at hI'
    split at hI'
    · cases hI'
      dsimp only at hd'
      rw [FMap.find?_set] at hd'
      split at hd'
      · cases hd'; exact g2
      · exact g1 code I hI d dom hd'
    · exact g1 tb I' hI' d dom hd'
  refine ⟨⟨each (P := Domain.WF) h.store _ k4, each (P := fun dom => 0 < dom.crp.alpha) h.alpha _ ha⟩, fun tb => ?_, fun p hp => ?_⟩
  · dsimp only
    rw [FMap.find?_set]
    split
    · rename_i he
      rw [he, hI]
      rfl
    · rfl
  · rw [logpScore_set hI]
    have := k5.symm.trans hp
    have := WithBot.coe_injective this
    unfold IRM.logpScore
    dsimp only
    rw [FMap.sum_set hd, ← this]
    ring

end HIRM

namespace GenDB
open HIRM PClean
variable {F : Family V} {L : FamilyLaws F}

theorem unincRel_filed {n : Nat} : ∀ {H H' : HIRM F} {rel : String} {items : Items} {ind : Nat} {st st' : Stored V} {lp : WithBot ℝ}, Filed L H →
    unincRel n H rel items ind st = .ok (lp, H', st') → Filed L H' ∧ Falls H lp H' := by
  induction n with
  | zero => intro H H' rel items ind st st' lp _ h; cases h
  | succ n ih =>
    intro H H' rel items ind st st' lp hf h
    unfold unincRel at h
    obtain ⟨⟨_, r⟩, h1, h⟩ := bind_ok.mp h
    dsimp only at h
    split at h
    · cases h; exact ⟨hf, .zero _⟩
    · obtain ⟨⟨lp₁, v, H₁⟩, h2, h⟩ := bind_ok.mp h
      obtain ⟨spec, h3, h⟩ := bind_ok.mp h
      obtain ⟨g1, g2⟩ := takeOut_filed hf h2
      cases spec with
      | clean c ds o => cases h; exact ⟨g1, g2⟩
      | noisy e ds b o =>
        obtain ⟨bi, h4, h⟩ := bind_ok.mp h
        obtain ⟨⟨lp₂, H₂, st₂⟩, h5, h⟩ := bind_ok.mp h
        cases h
        obtain ⟨g3, g4⟩ := ih g1 h5
        exact ⟨g3, Falls.add g2 g4⟩

theorem unincItems_filed {n : Nat} {rel : String} {ind : Nat} {i : Int} {l : List Items} : ∀ {H H' : HIRM F} {st st' : Stored V} {lp : WithBot ℝ}, Filed L H →
    unincItems n rel ind i l H st = .ok (lp, H', st') → Filed L H' ∧ Falls H lp H' := by
  induction l with
  | nil => intro H H' st st' lp hf h; cases h; exact ⟨hf, .zero _⟩
  | cons k l ih =>
    intro H H' st st' lp hf h
    obtain ⟨j, _, h⟩ := bind_ok.mp h
    dsimp only at h
    split at h
    · obtain ⟨⟨lp₁, H₁, st₁⟩, h1, h⟩ := bind_ok.mp h
      obtain ⟨⟨lp₂, H₂, st₂⟩, h2, h⟩ := bind_ok.mp h
      cases h
      obtain ⟨g1, g2⟩ := unincRel_filed hf h1
      obtain ⟨g3, g4⟩ := ih g1 h2
      exact ⟨g3, g2.add g4⟩
    · exact ih hf h

theorem unincInds_filed {n : Nat} {rel : String} {i : Int} {l : List Items} {inds : List Nat} : ∀ {H H' : HIRM F} {st st' : Stored V} {lp : WithBot ℝ}, Filed L H →
    unincInds n rel i l inds H st = .ok (lp, H', st') → Filed L H' ∧ Falls H lp H' := by
  induction inds with
  | nil => intro H H' st st' lp hf h; cases h; exact ⟨hf, .zero _⟩
  | cons k l ih =>
    intro H H' st st' lp hf h
    obtain ⟨⟨lp₁, H₁, st₁⟩, h1, h⟩ := bind_ok.mp h
    obtain ⟨⟨lp₂, H₂, st₂⟩, h2, h⟩ := bind_ok.mp h
    cases h
    obtain ⟨g1, g2⟩ := unincItems_filed hf h1
    obtain ⟨g3, g4⟩ := ih g1 h2
    exact ⟨g3, g2.add g4⟩

theorem unincRels_filed {n : Nat} {c : String} {i : Int} {l : List (String × List Nat)} : ∀ {H H' : HIRM F} {st st' : Stored V} {t t' : Tape} {lp : WithBot ℝ}, Filed L H →
    unincRels n c i l H st t = .ok (lp, H', st', t') → Filed L H' ∧ Falls H lp H' := by
  induction l with
  | nil => intro H H' st st' t t' lp hf h; cases h; exact ⟨hf, .zero _⟩
  | cons x l ih =>
    intro H H' st st' t t' lp hf h
    obtain ⟨rel, inds⟩ := x
    obtain ⟨⟨_, r⟩, _, h⟩ := bind_ok.mp h
    obtain ⟨m, _, h⟩ := bind_ok.mp h
    dsimp only at h
    split at h
    · exact ih hf h
    · obtain ⟨⟨lp₁, H₁, st₁⟩, h1, h⟩ := bind_ok.mp h
      obtain ⟨⟨lp₂, H₂, st₂, t₂⟩, h2, h⟩ := bind_ok.mp h
      cases h
      obtain ⟨g1, g2⟩ := unincInds_filed hf h1
      obtain ⟨g3, g4⟩ := ih g1 h2
      exact ⟨g3, g2.add g4⟩

/-- what the loops over the entities do -/
def Drops (H : HIRM F) (lp : WithBot ℝ) (H' : HIRM F) : Prop := Parted H' ∧ SameRels H H' ∧ Falls H lp H'

theorem Drops.zero {H : HIRM F} (h : Parted H) : Drops H 0 H := ⟨h, fun _ => rfl, .zero _⟩

theorem Drops.add {H H₁ H₂ : HIRM F} {lp lp' : WithBot ℝ} (h : Drops H lp H₁) (h' : Drops H₁ lp' H₂) : Drops H (lp + lp') H₂ :=
  ⟨h'.1, fun tb => (h'.2.1 tb).trans (h.2.1 tb), h.2.2.add h'.2.2⟩

theorem dropRefs_drops {rec : Int → Nat → HIRM F → DomOut → Res (WithBot ℝ × HIRM F × DomOut)} {e : Ents} {c : String} {i : Int}
    (hrec : ∀ v j H out lp H' out', Parted H → rec v j H out = .ok (lp, H', out') → Drops H lp H') {l : List (String × Nat)} :
    ∀ {H H' : HIRM F} {out out' : DomOut} {lp : WithBot ℝ}, Parted H → dropRefs rec e c i l H out = .ok (lp, H', out') → Drops H lp H' := by
  induction l with
  | nil => intro H H' out out' lp hp h; cases h; exact .zero hp
  | cons x l ih =>
    intro H H' out out' lp hp h
    obtain ⟨f, j⟩ := x
    obtain ⟨v, _, h⟩ := bind_ok.mp h
    obtain ⟨⟨lp₁, H₁, st₁⟩, h1, h⟩ := bind_ok.mp h
    obtain ⟨⟨lp₂, H₂, st₂⟩, h2, h⟩ := bind_ok.mp h
    cases h
    have g := hrec _ _ _ _ _ _ _ hp h1
    exact g.add (ih g.1 h2)

theorem dropEntity_drops {relIdx : FMap String RefIdx} {e : Ents} {rel : String} {n : Nat} : ∀ (v : Int) (j : Nat) (H : HIRM F) (out : DomOut) (lp : WithBot ℝ)
    (H' : HIRM F) (out' : DomOut), Parted H → dropEntity relIdx e rel n v j H out = .ok (lp, H', out') → Drops H lp H' := by
  induction n with
  | zero => intro v j H out lp H' out' _ h; cases h
  | succ n ih =>
    intro v j H out lp H' out' hp h
    unfold dropEntity at h
    obtain ⟨⟨code, I⟩, h1, h⟩ := bind_ok.mp h
    dsimp only at h
    obtain ⟨spec, hs, h⟩ := bind_ok.mp h
    obtain ⟨c, hc, h⟩ := bind_ok.mp h
    obtain ⟨dom, hd, h⟩ := bind_ok.mp h
    obtain ⟨hT, hI⟩ := HIRM.relationToIrm_ok.mp h1
    have hd := FMap.atKey_ok.mp hd
    split at h
    · cases h; exact .zero hp
    · obtain ⟨has, h2, h⟩ := bind_ok.mp h
      split at h
      · cases h; exact .zero hp
      · obtain ⟨cl, h3, h⟩ := bind_ok.mp h
        obtain ⟨dom', h4, h⟩ := bind_ok.mp h
        have g : Drops H _ _ := leave_falls hp hI hd (FMap.atKey_ok.mp h3) h4
        split at h
        · cases h; exact g
        · obtain ⟨⟨lp₁, H₁, out₁⟩, h5, h⟩ := bind_ok.mp h
          cases h
          exact g.add (dropRefs_drops ih g.1 h5)

theorem dropInds_drops {relIdx : FMap String RefIdx} {e : Ents} {f : String} {v : Int} {rel : String} {inds : List Nat} :
    ∀ {H H' : HIRM F} {out out' : DomOut} {lp : WithBot ℝ}, Parted H → dropInds relIdx e f v rel inds H out = .ok (lp, H', out') → Drops H lp H' := by
  induction inds with
  | nil => intro H H' out out' lp hp h; cases h; exact .zero hp
  | cons x l ih =>
    intro H H' out out' lp hp h
    obtain ⟨_, _, h⟩ := bind_ok.mp h
    obtain ⟨_, _, h⟩ := bind_ok.mp h
    obtain ⟨_, _, h⟩ := bind_ok.mp h
    obtain ⟨_, _, h⟩ := bind_ok.mp h
    obtain ⟨⟨lp₁, H₁, st₁⟩, h1, h⟩ := bind_ok.mp h
    obtain ⟨⟨lp₂, H₂, st₂⟩, h2, h⟩ := bind_ok.mp h
    cases h
    have g := dropEntity_drops _ _ _ _ _ _ _ hp h1
    exact g.add (ih g.1 h2)

theorem dropRels_drops {relIdx : FMap String RefIdx} {e : Ents} {f : String} {v : Int} {l : List (String × List Nat)} :
    ∀ {H H' : HIRM F} {out out' : DomOut} {lp : WithBot ℝ}, Parted H → dropRels relIdx e f v l H out = .ok (lp, H', out') → Drops H lp H' := by
  induction l with
  | nil => intro H H' out out' lp hp h; cases h; exact .zero hp
  | cons x l ih =>
    intro H H' out out' lp hp h
    obtain ⟨rel, inds⟩ := x
    obtain ⟨⟨lp₁, H₁, st₁⟩, h1, h⟩ := bind_ok.mp h
    obtain ⟨⟨lp₂, H₂, st₂⟩, h2, h⟩ := bind_ok.mp h
    cases h
    have g := dropInds_drops hp h1
    exact g.add (ih g.1 h2)

theorem _root_.Verif.Rel.Cells.store {r : Rel F} {σ σ' : Verif.Doms} (hi : r.Indexed) (h : r.Cells L σ)
    (hs : ∀ k, r.data.contains k = true → tupleSeat σ' r.doms k = tupleSeat σ r.doms k) : r.Cells L σ' := by
  cases r with
  | clean c r =>
    intro z
    rw [contents_congr (place' := tupleSeat σ r.doms) (data := r.data) (place := tupleSeat σ' r.doms) (fun k v hk => hs k (FMap.contains_iff.mpr ⟨v, hk⟩))]
    exact h z
  | noisy e p r =>
    have hi : r.Indexed := hi
    intro z
    rw [contents_congr (place' := tupleSeat σ r.emission.doms) (fun k v hk => by
      rw [hi.doms]
      exact hs k (by
        show r.data.contains k = true
        rw [← hi.keys]
        exact FMap.contains_iff.mpr ⟨v, hk⟩))]
    exact h z

/-- The entities that left were not used. -/
theorem Drops.filed {H H' : HIRM F} {lp : WithBot ℝ} {out out' : DomOut} (h : Drops H lp H') (hf : Filed L H) (ht : H'.Tidy) (hm : H'.Firm) (hs : H'.schema = H.schema) (hl : Left H out H' out') :
    Filed L H' := by
  obtain ⟨h1, h2, _⟩ := h
  have back : ∀ tb I', H'.irms.find? tb = some I' → ∃ I, H.irms.find? tb = some I ∧ I'.rels = I.rels := by
    intro tb I' hI'
    have h2 := h2 tb
    rw [hI'] at h2
    cases hI : H.irms.find? tb with
    | none => rw [hI] at h2; cases h2
    | some I => rw [hI] at h2; exact ⟨I, rfl, Option.some.inj h2⟩
  refine ⟨h1.store, h1.alpha, fun tb I' hI' n id r hr => ?_, fun tb I' hI' n id r hr => ?_, fun tb I' hI' n id r hr => ?_, fun tb I' hI' n id r hr => ?_⟩
  · obtain ⟨I, hI, he⟩ := back tb I' hI'
    obtain ⟨hx, sp, hsp, hds⟩ := ht.irms tb I' hI' n _ hr
    have hs := ht.skel.specs tb I' hI' n (FMap.contains_iff.mpr ⟨_, hr⟩)
    rw [hsp] at hs
    have hT : H'.tableOf n = some tb := (ht.skel.place tb I' hI' n).mp (FMap.contains_iff.mpr ⟨_, hr⟩)
    refine Rel.Cells.store hx (hf.cells tb I hI n id r (by rw [← he]; exact hr)) (fun k hk => tupleSeat_congr fun d i hu => ?_)
    obtain ⟨v, hv⟩ := FMap.contains_iff.mp hk
    have hus : Used H' tb d i := ⟨n, sp, k, v, hT, hs.symm, HIRM.value_some.mpr ⟨tb, id, r, HIRM.relOf_some.mpr ⟨hT, I', hI', hr⟩, hv⟩, by rw [← hds]; exact hu⟩
    obtain ⟨z, hz⟩ := hus.seat ht hm
    rw [← HIRM.cluster_of hI', ← HIRM.cluster_of hI]
    rcases hl tb d i with ⟨g, _⟩ | ⟨w, _, g, _⟩
    · exact g
    · rw [g] at hz; cases hz
  · obtain ⟨I, hI, he⟩ := back tb I' hI'
    rw [h2.env]
    exact hf.paired tb I hI n id r (by rw [← he]; exact hr)
  · obtain ⟨I, hI, he⟩ := back tb I' hI'
    exact hf.tells tb I hI n id r (by rw [← he]; exact hr)
  · obtain ⟨I, hI, he⟩ := back tb I' hI'
    rw [hs]
    exact hf.kinds tb I hI n id r (by rw [← he]; exact hr)

theorem unincReference_filed {D D' : DB F} (ht : D.H.Tidy) (hm : D.H.Firm) (hf : Filed L D.H) {inds : FMap String (List Nat)} {c f : String} {i : Int} {st st' : Stored V}
    {out out' : DomOut} {t t' : Tape} {lp : WithBot ℝ} (h : D.unincReference inds c f i st out t = .ok (lp, D', st', out', t')) :
    Filed L D'.H ∧ Falls D.H lp D'.H ∧ D'.ents = D.ents := by
  have hm' : D'.H.Firm := firm_closed.unincReference (x := (lp, D', st', out', t')) hm h
  have ht' : D'.H.Tidy := (unincReference_out ht h).1.tidy
  unfold DB.unincReference at h
  obtain ⟨⟨lp₁, H₁, st₁, t₁⟩, h1, h⟩ := bind_ok.mp h
  obtain ⟨v, h0, h⟩ := bind_ok.mp h
  obtain ⟨⟨lp₂, H₂, out₂⟩, h2, h⟩ := bind_ok.mp h
  cases h
  obtain ⟨g1, g2⟩ := unincRels_filed hf h1
  have g3 := dropRels_drops g1.parted h2
  exact ⟨g3.filed g1 ht' hm' (dropRels_schema h2) (dropRels_left (firm_closed.unincRels (x := (lp₁, H₁, _, _)) hm h1) h2).1, g2.add g3.2.2, rfl⟩

theorem unincSingle_filed {crps : FMap String CRP} {n : Nat} : ∀ {H H' : HIRM F} {rel : String} {items : Items} {st st' : Stored V} {lp : WithBot ℝ}, Filed L H →
    unincSingle crps n H rel items st = .ok (lp, H', st') → Filed L H' ∧ Falls H lp H' := by
  induction n with
  | zero => intro H H' rel items st st' lp _ h; cases h
  | succ n ih =>
    intro H H' rel items st st' lp hf h
    unfold unincSingle at h
    obtain ⟨⟨_, r⟩, h1, h⟩ := bind_ok.mp h
    obtain ⟨spec, h3, h⟩ := bind_ok.mp h
    dsimp only at h
    split at h
    · cases h; exact ⟨hf, .zero _⟩
    · obtain ⟨_, _, h⟩ := bind_ok.mp h
      obtain ⟨_, _, h⟩ := bind_ok.mp h
      obtain ⟨_, _, h⟩ := bind_ok.mp h
      split at h
      · cases h; exact ⟨hf, .zero _⟩
      · obtain ⟨⟨lp₁, v, H₁⟩, h2, h⟩ := bind_ok.mp h
        obtain ⟨g1, g2⟩ := takeOut_filed hf h2
        cases spec with
        | clean c ds o => cases h; exact ⟨g1, g2⟩
        | noisy e ds b o =>
          obtain ⟨bi, h4, h⟩ := bind_ok.mp h
          obtain ⟨⟨lp₂, H₂, st₂⟩, h5, h⟩ := bind_ok.mp h
          cases h
          obtain ⟨g3, g4⟩ := ih g1 h5
          exact ⟨g3, Falls.add g2 g4⟩

theorem singleRels_filed {i : Int} {l : List String} : ∀ {D D' : DB F} {st st' : Stored V} {lp : WithBot ℝ}, Filed L D.H →
    DB.singleRels i l D st = .ok (lp, D', st') → Filed L D'.H ∧ Falls D.H lp D'.H ∧ D'.ents = D.ents := by
  induction l with
  | nil => intro D D' st st' lp hf h; cases h; exact ⟨hf, .zero _, rfl⟩
  | cons rel l ih =>
    intro D D' st st' lp hf h
    obtain ⟨k, _, h⟩ := bind_ok.mp h
    obtain ⟨⟨lp₁, H₁, st₁⟩, h1, h⟩ := bind_ok.mp h
    obtain ⟨⟨lp₂, D₂, st₂⟩, h2, h⟩ := bind_ok.mp h
    cases h
    obtain ⟨g1, g2⟩ := unincSingle_filed hf h1
    obtain ⟨g3, g4, g5⟩ := ih (D := { D with H := H₁ }) g1 h2
    exact ⟨g3, g2.add g4, g5⟩

theorem singleDoms_drops {i : Int} {l : List String} : ∀ {D D' : DB F} {out out' : DomOut} {lp : WithBot ℝ}, Parted D.H →
    DB.singleDoms i l D out = .ok (lp, D', out') → Drops D.H lp D'.H ∧ D'.ents = D.ents := by
  induction l with
  | nil => intro D D' st st' lp hf h; cases h; exact ⟨.zero hf, rfl⟩
  | cons rel l ih =>
    intro D D' st st' lp hf h
    obtain ⟨k, _, h⟩ := bind_ok.mp h
    obtain ⟨_, _, h⟩ := bind_ok.mp h
    obtain ⟨⟨lp₁, H₁, st₁⟩, h1, h⟩ := bind_ok.mp h
    obtain ⟨⟨lp₂, D₂, st₂⟩, h2, h⟩ := bind_ok.mp h
    cases h
    have g1 := dropEntity_drops _ _ _ _ _ _ _ hf h1
    obtain ⟨g3, g5⟩ := ih (D := { D with H := H₁ }) g1.1 h2
    exact ⟨g1.add g3, g5⟩

/-- The entities are as they were if the entity that was referred to has no references. -/
theorem clearRefs_none {s : PClean.Schema} {hash : String → Int} {e : Ents} {c f : String} {i v : Int} {d : String} {crp : CRP} (hv : getRef e c f i = .ok v) (hr : refTarget s c f = .ok d)
    (hd : e.crps.find? d = some crp) (ht : crp.tables.find? v = none) {n : Nat} {out out' : EntOut} {lp : WithBot ℝ} {e' : Ents}
    (hc : clearRefs s hash n false c f i e out = .ok (lp, e', out')) : lp = 0 ∧ e' = e := by
  cases n with
  | zero => cases hc
  | succ n =>
    unfold clearRefs at hc
    rw [hv, hr] at hc
    obtain ⟨_, h1, hc⟩ := bind_ok.mp hc
    cases h1
    obtain ⟨_, h2, hc⟩ := bind_ok.mp hc
    cases h2
    obtain ⟨⟨crp', e₁, out₁⟩, h3, hc⟩ := bind_ok.mp hc
    unfold clearOwn at h3
    obtain ⟨crp₂, h4, h3⟩ := bind_ok.mp h3
    rw [FMap.atKey_of_find hd] at h4
    cases h4
    cases h3
    dsimp only at hc
    rw [FMap.contains_false.mpr ht] at hc
    simp only [Bool.false_eq_true, if_false] at hc
    cases hc
    exact ⟨rfl, rfl⟩

theorem unincSingleton_filed {D D' : DB F} (ht : D.H.Tidy) (hm : D.H.Firm) (hf : Filed L D.H) {c f : String} {i v : Int} {d d' : String} {st st' : Stored V} {out out' : DomOut}
    {ent ent' : EntOut} {lp : WithBot ℝ} {crp : CRP} (hv : getRef D.ents c f i = .ok v) (hr : refTarget D.schema c f = .ok d) (hd : D.ents.crps.find? d = some crp)
    (hn : crp.tables.find? v = none) (ha : Away D.H out) (h : D.unincSingleton c f i d' st out ent = .ok (lp, D', st', out', ent')) :
    Filed L D'.H ∧ Falls D.H lp D'.H ∧ D'.ents = D.ents := by
  obtain ⟨hm', hnext, _⟩ := unincSingleton_left ht hm ha h
  have ht' : D'.H.Tidy := hnext.tidy ht
  have hsch := (unincSingleton_out ht h).1
  unfold DB.unincSingleton at h
  obtain ⟨v', h1, h⟩ := bind_ok.mp h
  obtain ⟨⟨lp₁, e, ent₁⟩, h2, h⟩ := bind_ok.mp h
  dsimp only at h
  obtain ⟨rels, h3, h⟩ := bind_ok.mp h
  obtain ⟨⟨lp₂, D₂, st₂⟩, h4, h⟩ := bind_ok.mp h
  obtain ⟨⟨lp₃, D₃, out₃⟩, h5, h⟩ := bind_ok.mp h
  cases h
  obtain ⟨rfl, rfl⟩ := clearRefs_none hv hr hd hn h2
  obtain ⟨g1, g2, g3⟩ := singleRels_filed hf h4
  obtain ⟨g4, g5⟩ := singleDoms_drops g1.parted h5
  obtain ⟨k1, _⟩ := singleRels_out (D := D) ht h4
  have hc := HIRM.cluster_doms (k1.doms trivial)
  have ha' : Away D₂.H out := fun tb d i z hz => by rw [hc]; exact ha tb d i z hz
  obtain ⟨k2, _⟩ := singleDoms_left k1.tidy (firm_closed.singleRels (x := (lp₂, D₂, _)) (D := D) hm h4) ha' h5
  refine ⟨g4.filed g1 ht' hm' (hsch.trans k1.schema.symm) k2, ?_, g5.trans g3⟩
  rw [zero_add]
  exact g2.add g4.2.2

/-- A model that came about by the calls of the API holds the values as said. -/
theorem _root_.Verif.HIRM.Good.filed {H : HIRM F} (h : HIRM.Good L H) (hT : H.SchemaTells L) : Filed L H := by
  refine ⟨fun tb I hI => (h.inv tb I hI).store, fun tb I hI => (h.inv tb I hI).alpha, fun tb I hI n id r hr => ?_, fun tb I hI n id r hr => ?_, fun tb I hI n id r hr => ?_,
    fun tb I hI n id r hr => h.matched (HIRM.relOf_some.mpr ⟨(h.skel.place tb I hI n).mp (FMap.contains_iff.mpr ⟨_, hr⟩), I, hI, hr⟩)⟩
  · have := (h.inv tb I hI).rels n id r hr
    cases r with
    | clean c r =>
      have h : CleanRel.Inv _ _ r := this
      exact fun z => ⟨(h.cl z).1, fun a ha => ((h.cl z).2 a ha).2⟩
    | noisy e p r => exact fun z => ⟨(this.1.cl z).1, fun a ha => ((this.1.cl z).2 a ha).2⟩
  · cases r with
    | clean c r => trivial
    | noisy e p r =>
      obtain ⟨_, m, _, g⟩ := (h.inv tb I hI).rels n id _ hr
      have hT : H.tableOf n = some tb := (h.skel.place tb I hI n).mp (FMap.contains_iff.mpr ⟨_, hr⟩)
      have hrel : H.relOf n = some (tb, id, .noisy e p r) := HIRM.relOf_some.mpr ⟨hT, I, hI, hr⟩
      obtain ⟨btb, bid, b, _, _, k1, _, k2⟩ := h.base hrel (p := p) rfl
      refine ⟨g.data, fun w hw k x bv hx hb => ?_⟩
      rw [k1] at hw
      cases hw
      have hd : r.data.find? k = some x.2 := by rw [g.data, hx]; rfl
      obtain ⟨bv', k3, k4⟩ := k2 k x.2 hd
      have k4 : r.emission.data.find? k = some (bv', x.2) := k4
      rw [hx] at k4
      have hb : b.data.find? (k.take b.doms.length) = some bv := hb
      rw [k3] at hb
      cases hb
      rw [Option.some.inj k4]
  · have hT' : H.tableOf n = some tb := (h.skel.place tb I hI n).mp (FMap.contains_iff.mpr ⟨_, hr⟩)
    obtain ⟨spec, h1, h2⟩ := h.matched (HIRM.relOf_some.mpr ⟨hT', I, hI, hr⟩)
    have := hT n spec h1
    rw [← h2.kind] at this
    cases r <;> exact this

end GenDB

end
end Verif
