import Verif.Spec.GenDBWeigh
import Verif.Lemmas.GenDBLogp
import Verif.Lemmas.ToldHosts
import Verif.Lemmas.Sampling
/-!
Putting stored values back keeps what the clusters hold, so that the log probability of a candidate is told by taking the values out again.
-/
namespace Verif
open Spec
noncomputable section
variable {V : Type}

/-! ### a value comes into a relation -/

namespace CleanRel
variable {D : DistOps V} {supp : V → Prop} {σ σ' : Doms}

theorem incLoop_grows {items : Items} {ds : List String} : ∀ {is : Items} {σ σ' : Doms} {m m' : RevIndex} {t t' : Tape}, StoreWF σ →
    incLoop items ds is σ m t = .ok (σ', m', t') → StoreWF σ' ∧ (∀ d i z, seatOf σ d i = some z → seatOf σ' d i = some z) ∧
    ∀ d dom', σ'.find? d = some dom' → ∃ dom, σ.find? d = some dom ∧ dom'.crp.alpha = dom.crp.alpha := by
  induction ds with
  | nil => intro is σ σ' m m' t t' hσ h; cases h; exact ⟨hσ, fun _ _ _ h => h, fun _ dom h => ⟨dom, h, rfl⟩⟩
  | cons d ds ih =>
    intro is σ σ' m m' t t' hσ h
    cases is with
    | nil => cases h
    | cons i is =>
      unfold incLoop at h
      obtain ⟨dom, h1, h⟩ := bind_ok.mp h
      obtain ⟨⟨dom₁, t₁⟩, h2, h⟩ := bind_ok.mp h
      dsimp only at h
      obtain ⟨m₁, _, h⟩ := bind_ok.mp h
      have h1 : σ.find? d = some dom := Doms.get_ok h1
      obtain ⟨dom₂, t₂, k1, k2, k3⟩ := grows_incorporate hσ h1 i t
      rw [h2] at k1
      cases k1
      obtain ⟨g1, g2, g3⟩ := ih k2 h
      refine ⟨g1, fun d' i' z hz => g2 d' i' z (k3.seat d' i' z hz), fun d' dom' hd => ?_⟩
      obtain ⟨e, he, ha⟩ := g3 d' dom' hd
      have hc : σ.contains d' = true := by rw [← k3.doms]; exact FMap.contains_iff.mpr ⟨e, he⟩
      obtain ⟨e₀, he₀⟩ := FMap.contains_iff.mp hc
      obtain ⟨e₁, q1, q2, _⟩ := k3.alpha d' e₀ he₀
      rw [he] at q1
      cases q1
      exact ⟨e₀, he₀, ha.trans q2⟩

theorem incorporate_cells (L : Lawful D supp) {r r' : CleanRel D} {items : Items} {v : V} {t t' : Tape} (hσ : StoreWF σ) (hc : r.Cells supp σ)
    (hs : ∀ k, r.data.contains k = true → ∃ z, tupleSeat σ r.doms k = some z) (hv : supp v) (h : incorporate σ r items v t = .ok (σ', r', t')) :
    StoreWF σ' ∧ (∀ d i z, seatOf σ d i = some z → seatOf σ' d i = some z) ∧ (∀ d dom', σ'.find? d = some dom' → ∃ dom, σ.find? d = some dom ∧ dom'.crp.alpha = dom.crp.alpha) ∧
    r'.Cells supp σ' ∧ r'.data = r.data.set items v ∧ r.data.find? items = none := by
  obtain ⟨_, hn⟩ := incorporate_pre h
  obtain ⟨⟨z, σ₁, r₁, t₁⟩, h1, h⟩ := bind_ok.mp h
  dsimp only at h
  obtain ⟨c, h2, h⟩ := bind_ok.mp h
  obtain ⟨c', h3, h⟩ := bind_ok.mp h
  cases h
  obtain ⟨_, _, h1⟩ := bind_ok.mp h1
  obtain ⟨⟨σ₂, m, t₂⟩, h4, h1⟩ := bind_ok.mp h1
  dsimp only at h1
  obtain ⟨z₁, h5, h1⟩ := bind_ok.mp h1
  obtain ⟨g1, g2, g3⟩ := incLoop_grows hσ h4
  have h5 := clusterOf_ok h5
  have h2 := FMap.atKey_ok.mp h2
  have hcon : ∀ z, contents (tupleSeat σ₂ r.doms) r.data z = contents (tupleSeat σ r.doms) r.data z := fun z => contents_congr (fun k v hk => by
    obtain ⟨y, hy⟩ := hs k (FMap.contains_iff.mpr ⟨v, hk⟩)
    rw [hy]
    exact tupleSeat_mono (fun d _ i z hz => g2 d i z hz) hy) z
  have key : ∀ (q : CleanRel D), q.doms = r.doms → q.data = r.data.set items v → D.Holds supp (contents (tupleSeat σ r.doms) r.data z₁) c →
      (∀ y, y ≠ z₁ → q.clusters.find? y = r.clusters.find? y) → q.clusters.find? z₁ = some c' → q.Cells supp σ₂ := by
    intro q e1 e2 e3 e4 e5 y
    rw [e1, e2, contents_set_new hn, hcon]
    by_cases hy : y = z₁
    · subst hy
      rw [if_pos h5]
      obtain ⟨c₁, k1, k2⟩ := L.holds_inc e3 hv
      rw [h3] at k1
      cases k1
      refine ⟨fun hb => ?_, fun b hb => ?_⟩ <;> rw [e5] at hb <;> cases hb
      exact k2
    · have h5 : tupleSeat σ₂ r.doms items = some z₁ := h5
      rw [if_neg (fun hh => hy (by rw [h5] at hh; exact (Option.some.inj hh).symm)), e4 y hy]
      exact hc y
  split at h1
  · cases h1
    refine ⟨g1, g2, g3, key _ rfl rfl ((hc z).2 c h2) (fun y hy => FMap.find?_set_ne _ hy _) (FMap.find?_set_self _ _ _), rfl, hn⟩
  · rename_i hz
    cases h1
    have hz : r.clusters.find? z = none := FMap.contains_false.mp (by simpa using hz)
    dsimp only at h2
    rw [FMap.find?_set_self] at h2
    cases h2
    refine ⟨g1, g2, g3, key _ rfl rfl ?_ (fun y hy => ?_) (FMap.find?_set_self _ _ _), rfl, hn⟩
    · rw [(hc z).1 hz]
      exact holds_fresh t₂
    · dsimp only
      rw [FMap.find?_set_ne _ hy, FMap.find?_set_ne _ hy]

/-- a value that a cluster holds is one of the distribution -/
theorem Cells.held (L : Lawful D supp) {r : CleanRel D} (hc : r.Cells supp σ) {k z : Items} {v : V} (hk : r.data.find? k = some v) (hz : tupleSeat σ r.doms k = some z) : supp v := by
  have hm := mem_contents.mpr ⟨k, hk, hz⟩
  cases h : r.clusters.find? z with
  | none => rw [(hc z).1 h] at hm; simp at hm
  | some c => exact L.holds_supp ((hc z).2 c h) hm

end CleanRel

namespace Rel
variable {F : Family V} {L : FamilyLaws F} {σ σ' : Doms}

/-- The emission of a noisy relation holds its values together with the values of the base, which there are. -/
def Bound (b : Option (BaseView V)) : Rel F → Prop
  | .clean _ _ => True
  | .noisy _ _ r => (∀ k, r.data.find? k = (r.emission.data.find? k).map Prod.snd) ∧
    ∀ w, b = some w → ∀ k x, r.emission.data.find? k = some x → w.data.find? (k.take w.arity) = some x.1

theorem Bound.paired {b : Option (BaseView V)} {r : Rel F} (h : r.Bound b) : r.Paired b := by
  cases r with
  | clean c r => trivial
  | noisy e p r =>
    refine ⟨h.1, fun w hw k x bv hx hb => ?_⟩
    rw [h.2 w hw k x hx] at hb
    exact Option.some.inj hb

/-- a base with more values -/
theorem Bound.more {b b' : Option (BaseView V)} {r : Rel F} (h : r.Bound b)
    (hb : ∀ w', b' = some w' → ∃ w, b = some w ∧ w'.arity = w.arity ∧ ∀ k v, w.data.find? k = some v → w'.data.find? k = some v) : r.Bound b' := by
  cases r with
  | clean c r => trivial
  | noisy e p r =>
    refine ⟨h.1, fun w' hw k x hx => ?_⟩
    obtain ⟨w, h1, h2, h3⟩ := hb w' hw
    rw [h2]
    exact h3 _ _ (h.2 w h1 k x hx)

theorem incorporate_cells {b : Option (BaseView V)} {r r' : Rel F} {items : Items} {v : V} {t t' : Tape} (hσ : StoreWF σ) (hi : r.Indexed) (hc : r.Cells L σ) (hb : r.Bound b)
    (hs : ∀ k, r.data.contains k = true → ∃ z, tupleSeat σ r.doms k = some z) (hv : r.Supports L b items v) (h : r.incorporate σ b items v t = .ok (σ', r', t')) :
    StoreWF σ' ∧ (∀ d i z, seatOf σ d i = some z → seatOf σ' d i = some z) ∧ (∀ d dom', σ'.find? d = some dom' → ∃ dom, σ.find? d = some dom ∧ dom'.crp.alpha = dom.crp.alpha) ∧
    r'.Cells L σ' ∧ r'.Bound b ∧ r.data.find? items = none ∧ r'.kind = r.kind ∧ r'.base? = r.base? := by
  cases r with
  | clean c r =>
    obtain ⟨⟨σ₁, r₁, t₁⟩, h1, h⟩ := bind_ok.mp h
    cases h
    obtain ⟨k1, k2, k3, k4, k5, k6⟩ := CleanRel.incorporate_cells (L.dist c) hσ hc hs hv h1
    exact ⟨k1, k2, k3, k4, trivial, k6, rfl, rfl⟩
  | noisy e p r =>
    obtain ⟨w, h0, h⟩ := bind_ok.mp h
    have h0 := derefR_ok.mp h0
    obtain ⟨⟨σ₁, r₁, t₁⟩, h1, h⟩ := bind_ok.mp h
    cases h
    obtain ⟨bi, h2, h1⟩ := bind_ok.mp h1
    obtain ⟨bv, h3, h1⟩ := bind_ok.mp h1
    obtain ⟨⟨σ₂, em, t₂⟩, h4, h1⟩ := bind_ok.mp h1
    cases h1
    obtain ⟨_, rfl⟩ := NoisyRel.baseItems_ok h2
    obtain ⟨_, _, h3⟩ := bind_ok.mp h3
    have h3 : w.data.find? (items.take w.arity) = some bv := FMap.atKey_ok.mp h3
    have hi : r.Indexed := hi
    obtain ⟨k1, k2, k3, k4, k5, k6⟩ := CleanRel.incorporate_cells (L.emis e) hσ hc (fun k hk => by
      rw [hi.doms]
      exact hs k (by show r.data.contains k = true; rw [← hi.keys]; exact hk)) (hv w h0 bv h3) h4
    refine ⟨k1, k2, k3, k4, ⟨fun k => ?_, fun w' hw k x hx => ?_⟩, ?_, rfl, rfl⟩
    · dsimp only
      rw [k5, FMap.find?_set, FMap.find?_set]
      split
      · rfl
      · exact hb.1 k
    · rw [h0] at hw
      cases hw
      dsimp only at hx
      rw [k5, FMap.find?_set] at hx
      split at hx
      · rename_i hk
        subst hk
        cases hx
        exact h3
      · exact hb.2 w h0 k x hx
    · show r.data.find? items = none
      rw [hb.1, k6]
      rfl

/-- the values that the relation can have -/
def Fit (L : FamilyLaws F) : Rel F → V → Prop
  | .clean c _, v => L.suppC c v
  | .noisy e _ _, v => ∃ b, L.suppE e (b, v)

theorem Cells.fit {r : Rel F} {b : Option (BaseView V)} (hi : r.Indexed) (hc : r.Cells L σ) (hb : r.Paired b) {k z : Items} {v : V} (hk : r.data.find? k = some v)
    (hz : tupleSeat σ r.doms k = some z) : r.Fit L v := by
  cases r with
  | clean c r => exact CleanRel.Cells.held (L.dist c) hc hk hz
  | noisy e p r =>
    have hi : r.Indexed := hi
    have hk : r.data.find? k = some v := hk
    rw [hb.1] at hk
    obtain ⟨x, hx, rfl⟩ := Option.map_eq_some_iff.mp hk
    refine ⟨x.1, CleanRel.Cells.held (L.emis e) hc hx (z := z) (by rw [hi.doms]; exact hz)⟩

end Rel

namespace IRM
variable {F : Family V}

theorem Sound.tuple {I : IRM F} (h : I.Sound) {n : String} {x : Nat × Rel F} (hx : I.rels.find? n = some x) {k : Items} (hk : x.2.data.contains k = true) :
    ∃ z, tupleSeat I.doms x.2.doms k = some z := by
  rw [tupleSeat_isSome ((h.tidy n x hx).1.len hk)]
  intro d i hu
  obtain ⟨dom, h1, h2⟩ := h.seated n x hx k hk d i hu
  rw [seatOf_eq h1]
  exact (h.doms d dom h1).2.1.mem.mp h2

end IRM

namespace HIRM
variable {F : Family V} {L : FamilyLaws F} {H H' : HIRM F}

/-- Every noisy value is held together with the value of its base. -/
def Bound (H : HIRM F) : Prop := ∀ tb I, H.irms.find? tb = some I → ∀ n id r, I.rels.find? n = some (id, r) → r.Bound (IRM.baseOf H.env r)

/-- The relations that a base pointer shows keep their values. -/
theorem env_more {tb : Int} {I : IRM F} (hI : H.irms.find? tb = some I) {n : String} {id : Nat} {r r' : Rel F} (hr : I.rels.find? n = some (id, r)) {σ : Doms}
    (hd : r'.doms = r.doms) (hf : ∀ k v, r.data.find? k = some v → r'.data.find? k = some v) {p : Ptr} {w' : BaseView V}
    (hw : HIRM.env { H with irms := H.irms.set tb { I with doms := σ, rels := I.rels.set n (id, r') } } p = some w') :
    ∃ w, H.env p = some w ∧ w'.arity = w.arity ∧ ∀ k v, w.data.find? k = some v → w'.data.find? k = some v := by
  unfold HIRM.env at hw ⊢
  cases ht : p.table with
  | none => rw [ht] at hw; cases hw
  | some tb' =>
    rw [ht] at hw
    dsimp only at hw ⊢
    rw [FMap.find?_set] at hw
    by_cases he : tb' = tb
    · subst he
      rw [if_pos rfl] at hw
      rw [hI]
      dsimp only at hw ⊢
      rw [FMap.find?_set] at hw
      by_cases hn : p.name = n
      · rw [if_pos hn] at hw
        rw [hn, hr]
        dsimp only at hw ⊢
        split at hw
        · rename_i hid
          cases hw
          exact ⟨r.view, by rw [if_pos hid], by unfold Rel.view; rw [hd], hf⟩
        · cases hw
      · rw [if_neg hn] at hw
        exact ⟨w', hw, rfl, fun _ _ h => h⟩
    · rw [if_neg he] at hw
      exact ⟨w', hw, rfl, fun _ _ h => h⟩

theorem incorporate_filed (hm : H.Firm) (hf : Filed L H) (hb : H.Bound) {rel : String} {items : Items} {v : V} {t t' : Tape}
    (hv : ∀ tb I id r, H.irms.find? tb = some I → I.rels.find? rel = some (id, r) → r.Supports L (IRM.baseOf H.env r) items v)
    (h : H.incorporate rel items v t = .ok (H', t')) : Filed L H' ∧ H'.Bound := by
  obtain ⟨⟨tb, I⟩, h1, h⟩ := bind_ok.mp h
  obtain ⟨⟨I', t₁⟩, h2, h⟩ := bind_ok.mp h
  cases h
  obtain ⟨hT, hI⟩ := relationToIrm_ok.mp h1
  obtain ⟨⟨id, r⟩, h3, h2⟩ := bind_ok.mp h2
  obtain ⟨⟨σ, r', t₂⟩, h4, h2⟩ := bind_ok.mp h2
  cases h2
  have hr := FMap.atKey_ok.mp h3
  have hS := hm tb I hI
  have hidx := (hS.tidy rel _ hr).1
  obtain ⟨k1, k2, k3, k4, k5, k6, k7, k8⟩ := Rel.incorporate_cells (hf.store tb I hI) hidx (hf.cells tb I hI rel id r hr) (hb tb I hI rel id r hr)
    (fun k hk => hS.tuple hr hk) (hv tb I id r hI hr) h4
  obtain ⟨⟨d1, _⟩, d2⟩ := Rel.incorporate_next h4
  have more : ∀ k x, r.data.find? k = some x → r'.data.find? k = some x := by
    intro k x hk
    rw [d2, FMap.find?_set, if_neg (fun he => by rw [he, k6] at hk; cases hk)]
    exact hk
  have bound : ∀ q : Rel F, q.Bound (IRM.baseOf H.env q) →
      q.Bound (IRM.baseOf (HIRM.env { H with irms := H.irms.set tb { I with doms := σ, rels := I.rels.set rel (id, r') } }) q) := by
    intro q hq
    refine hq.more fun w' hw => ?_
    unfold IRM.baseOf at hw ⊢
    cases hp : q.base? with
    | none => rw [hp] at hw; cases hw
    | some p =>
      rw [hp] at hw
      exact env_more hI hr d1 more hw
  have each : ∀ {P : String → IRM F → Rel F → Prop}, (∀ n id₁ q, n ≠ rel → I.rels.find? n = some (id₁, q) → P n { I with doms := σ, rels := I.rels.set rel (id, r') } q) →
      (∀ u J, u ≠ tb → H.irms.find? u = some J → ∀ n id q, J.rels.find? n = some (id, q) → P n J q) → P rel { I with doms := σ, rels := I.rels.set rel (id, r') } r' →
      ∀ u J, (H.irms.set tb { I with doms := σ, rels := I.rels.set rel (id, r') }).find? u = some J → ∀ n id q, J.rels.find? n = some (id, q) → P n J q := by
    intro P g1 g2 g3 u J hJ n id' q hq
    rw [FMap.find?_set] at hJ
    split at hJ
    · cases hJ
      dsimp only at hq
      rw [FMap.find?_set] at hq
      split at hq
      · rename_i hn
        subst hn
        cases hq
        exact g3
      · rename_i hn
        exact g1 n id' q hn hq
    · rename_i hu
      exact g2 u J hu hJ n id' q hq
  have doms : ∀ {P : Doms → Prop}, (∀ u J, H.irms.find? u = some J → P J.doms) → P σ →
      ∀ u J, (H.irms.set tb { I with doms := σ, rels := I.rels.set rel (id, r') }).find? u = some J → P J.doms := by
    intro P g1 g2 u J hJ
    rw [FMap.find?_set] at hJ
    split at hJ
    · cases hJ; exact g2
    · exact g1 u J hJ
  have hB : HIRM.Bound { H with irms := H.irms.set tb { I with doms := σ, rels := I.rels.set rel (id, r') } } :=
    each (P := fun _ _ q => q.Bound (IRM.baseOf (HIRM.env { H with irms := H.irms.set tb { I with doms := σ, rels := I.rels.set rel (id, r') } }) q))
      (fun n id q _ hq => bound q (hb tb I hI n id q hq)) (fun u J _ hJ n id q hq => bound q (hb u J hJ n id q hq))
      (bound r' (by
        have : IRM.baseOf H.env r' = IRM.baseOf H.env r := by unfold IRM.baseOf; rw [k8]
        rw [this]
        exact k5))
  refine ⟨⟨doms (P := StoreWF) hf.store k1, doms (P := fun σ => ∀ d dom, σ.find? d = some dom → 0 < dom.crp.alpha) hf.alpha (fun d dom hd => ?_),
    each (P := fun _ J q => q.Cells L J.doms) (fun n id' q _ hq => ?_) (fun u J _ hJ n id q hq => hf.cells u J hJ n id q hq) k4,
    fun u J hJ n id q hq => (hB u J hJ n id q hq).paired,
    each (P := fun _ _ q => q.Tells L) (fun n id q _ hq => hf.tells tb I hI n id q hq) (fun u J _ hJ n id q hq => hf.tells u J hJ n id q hq) ?_,
    each (P := fun n _ q => ∃ spec, H.schema.find? n = some spec ∧ spec.Matches q) (fun n id q _ hq => hf.kinds tb I hI n id q hq)
      (fun u J _ hJ n id q hq => hf.kinds u J hJ n id q hq) ?_⟩, hB⟩
  · obtain ⟨dom₀, q1, q2⟩ := k3 d dom hd
    rw [q2]
    exact hf.alpha tb I hI d dom₀ q1
  · refine Rel.Cells.store (hS.tidy n _ hq).1 (hf.cells tb I hI n id' q hq) (fun k hk => ?_)
    obtain ⟨z, hz⟩ := hS.tuple hq hk
    have hz : tupleSeat I.doms q.doms k = some z := hz
    rw [hz]
    exact tupleSeat_mono (fun d _ i z hz => k2 d i z hz) hz
  · have := hf.tells tb I hI rel id r hr
    cases r <;> cases r' <;> cases k7 <;> exact this
  · obtain ⟨spec, q1, q2⟩ := hf.kinds tb I hI rel id r hr
    exact ⟨spec, q1, k7.trans q2.kind, d1.trans q2.doms, by rw [k8]; exact q2.base⟩

/-- the relation objects hold values of their distributions -/
theorem Filed.value (hm : H.Firm) (hf : Filed L H) {n : String} {sp : RelSpec F} (hs : H.schema.find? n = some sp) {k : Items} {v : V} (h : H.value n k = some v) : sp.Value L v := by
  obtain ⟨tb, id, r, h1, h2⟩ := value_some.mp h
  obtain ⟨hT, I, hI, hr⟩ := relOf_some.mp h1
  obtain ⟨z, hz⟩ := (hm tb I hI).tuple hr (FMap.contains_iff.mpr ⟨v, h2⟩)
  have hfit := (hf.cells tb I hI n id r hr).fit ((hm tb I hI).tidy n _ hr).1 (hf.paired tb I hI n id r hr) h2 hz
  obtain ⟨spec, k1, k2⟩ := hf.kinds tb I hI n id r hr
  rw [hs] at k1
  cases k1
  have k3 := k2.kind
  cases r <;> cases sp <;> cases k3 <;> exact hfit

theorem Filed.supports (ht : H.Tidy) (hm : H.Firm) (hf : Filed L H) (hF : Freely L H.schema) {rel : String} {spec : RelSpec F} (hs : H.schema.find? rel = some spec)
    {items : Items} {v : V} (hv : spec.Value L v) {tb : Int} {I : IRM F} {id : Nat} {r : Rel F} (hI : H.irms.find? tb = some I) (hr : I.rels.find? rel = some (id, r)) :
    r.Supports L (IRM.baseOf H.env r) items v := by
  obtain ⟨spec', k1, k2⟩ := hf.kinds tb I hI rel id r hr
  rw [hs] at k1
  cases k1
  have k3 := k2.kind
  have k4 := k2.base
  cases r with
  | clean c r => cases spec <;> cases k3; exact hv
  | noisy e p r =>
    cases spec with
    | clean c ds o => cases k3
    | noisy e' ds b o =>
      cases k3
      have k4 : some p.name = some b := k4
      cases k4
      intro w hw bv hb
      have hw : H.env p = some w := hw
      obtain ⟨sp, l1, l2, l3⟩ := ht.env hw
      refine hF rel e ds p.name o sp hs l1 bv v (hf.value hm l1 (k := items.take w.arity) ?_) hv
      unfold HIRM.value
      rw [l3]
      exact hb

theorem Filed.bound (ht : H.Tidy) (hf : Filed L H) (hw : H.Whole) : H.Bound := by
  intro tb I hI n id r hr
  have hT : H.tableOf n = some tb := (ht.skel.place tb I hI n).mp (FMap.contains_iff.mpr ⟨_, hr⟩)
  have hrel : H.relOf n = some (tb, id, r) := relOf_some.mpr ⟨hT, I, hI, hr⟩
  have hp := hf.paired tb I hI n id r hr
  cases r with
  | clean c r => trivial
  | noisy e p r =>
    refine ⟨hp.1, fun w hb k x hx => ?_⟩
    obtain ⟨bv, h1⟩ := hw n tb id _ p w k x.2 hrel rfl hb (by show r.data.find? k = _; rw [hp.1, hx]; rfl)
    rw [h1, hp.2 w hb k x bv hx h1]

end HIRM

namespace GenDB
open HIRM
variable {F : Family V} {L : FamilyLaws F} {H H' : HIRM F} {st : Stored V} {S : Schema F}

/-- the state while stored values are put back -/
structure Keeps (L : FamilyLaws F) (S : Schema F) (H : HIRM F) : Prop where
  tidy : H.Tidy
  firm : H.Firm
  filed : Filed L H
  bound : H.Bound
  schema : H.schema = S

theorem putItems_keeps (hF : Freely L S) {rel : String} {l : List (Items × V)} : ∀ {H H' : HIRM F} {t t' : Tape}, Keeps L S H →
    (∀ k v, (k, v) ∈ l → ∀ spec, S.find? rel = some spec → spec.Value L v) → putItems rel l H t = .ok (H', t') → Keeps L S H' := by
  induction l with
  | nil => intro H H' t t' hk _ h; cases h; exact hk
  | cons a l ih =>
    obtain ⟨items, v⟩ := a
    intro H H' t t' hk hv h
    unfold putItems at h
    obtain ⟨⟨p, r⟩, hr, h⟩ := bind_ok.mp h
    dsimp only at h
    split at h
    · exact ih hk (fun k v hm => hv k v (List.mem_cons_of_mem _ hm)) h
    · obtain ⟨⟨H₁, t₁⟩, h1, h⟩ := bind_ok.mp h
      have hn := (HIRM.incorporate_next h1).1
      obtain ⟨tb', id', g1, _⟩ := HIRM.getRelation_ok.mp hr
      obtain ⟨spec, hs⟩ := FMap.contains_iff.mp (hk.tidy.skel.known g1)
      have hF' : Freely L H.schema := by rw [hk.schema]; exact hF
      obtain ⟨k1, k2⟩ := incorporate_filed hk.firm hk.filed hk.bound (fun tb I id r hI hr => hk.filed.supports hk.tidy hk.firm hF' hs
        (hv items v (List.mem_cons_self ..) spec (by rw [← hk.schema]; exact hs)) hI hr) h1
      exact ih ⟨hn.tidy hk.tidy, firm_closed.incorporate hk.firm h1, k1, k2, hn.schema.trans hk.schema⟩ (fun k v hm => hv k v (List.mem_cons_of_mem _ hm)) h

theorem putRel_keeps (hF : Freely L S) (hv : ∀ n k v, part st n k = some v → ∀ spec, S.find? n = some spec → spec.Value L v) {n : Nat} :
    ∀ {rel : String} {H H' : HIRM F} {t t' : Tape}, Keeps L S H → putRel st n rel H t = .ok (H', t') → Keeps L S H' := by
  induction n with
  | zero => intro rel H H' t t' _ h; cases h
  | succ n ih =>
    intro rel H H' t t' hk h
    unfold putRel at h
    obtain ⟨⟨H₁, t₁⟩, h1, h⟩ := bind_ok.mp h
    dsimp only at h
    obtain ⟨m, h2, h⟩ := bind_ok.mp h
    have h2 := FMap.atKey_ok.mp h2
    have k1 : Keeps L S H₁ := by
      unfold putBase at h1
      obtain ⟨spec, hs, h1⟩ := bind_ok.mp h1
      cases spec with
      | clean c ds o => cases h1; exact hk
      | noisy e ds base o =>
        dsimp only at h1
        split at h1
        · exact ih hk h1
        · cases h1; exact hk
    refine putItems_keeps hF k1 (fun k v hm => hv rel k v ?_) h
    rw [(shuffle_perm _ _).mem_iff, FMap.mem_entries] at hm
    unfold part
    rw [h2]
    exact hm

theorem putRels_keeps (hF : Freely L S) (hv : ∀ n k v, part st n k = some v → ∀ spec, S.find? n = some spec → spec.Value L v) {n : Nat} {l : List String} :
    ∀ {H H' : HIRM F} {t t' : Tape}, Keeps L S H → putRels n st l H t = .ok (H', t') → Keeps L S H' := by
  induction l with
  | nil => intro H H' t t' hk h; cases h; exact hk
  | cons rel l ih =>
    intro H H' t t' hk h
    unfold putRels at h
    obtain ⟨⟨H₁, t₁⟩, h1, h⟩ := bind_ok.mp h
    exact ih (putRel_keeps hF hv hk h1) h

/-- the values that are moved with their entities are the values that were stored -/
theorem newItems_part {S : Schema F} {relIdx : FMap String RefIdx} {e : Ents} {rel : String} {l : List (Items × V)} : ∀ {st st' : Stored V},
    newItems S relIdx e rel l st = .ok st' → ∀ n k v, part st' n k = some v → part st n k = some v ∨ n = rel ∧ ∃ k', (k', v) ∈ l := by
  induction l with
  | nil => intro st st' h n k v hk; cases h; exact .inl hk
  | cons a l ih =>
    obtain ⟨items, x⟩ := a
    intro st st' h n k v hk
    unfold newItems at h
    obtain ⟨j, _, h⟩ := bind_ok.mp h
    obtain ⟨items', _, h⟩ := bind_ok.mp h
    rcases ih h n k v hk with h1 | ⟨h1, k', h2⟩
    · rw [part_store] at h1
      split at h1
      · rename_i hh
        cases h1
        exact .inr ⟨hh.1, items, List.mem_cons_self ..⟩
      · exact .inl h1
    · exact .inr ⟨h1, k', List.mem_cons_of_mem _ h2⟩

theorem newStored_part {S : Schema F} {relIdx : FMap String RefIdx} {e : Ents} {l : List (String × FMap Items V)} : ∀ {st st' : Stored V},
    newStored S relIdx e l st = .ok st' → ∀ n k v, part st' n k = some v → part st n k = some v ∨ ∃ m k', (n, m) ∈ l ∧ m.find? k' = some v := by
  induction l with
  | nil => intro st st' h n k v hk; cases h; exact .inl hk
  | cons a l ih =>
    obtain ⟨rel, m⟩ := a
    intro st st' h n k v hk
    unfold newStored at h
    obtain ⟨st₁, h1, h⟩ := bind_ok.mp h
    rcases ih h n k v hk with h2 | ⟨m', k', h2, h3⟩
    · rcases newItems_part h1 n k v h2 with h4 | ⟨rfl, k', h4⟩
      · exact .inl h4
      · exact .inr ⟨m, k', List.mem_cons_self .., FMap.mem_entries.mp h4⟩
    · exact .inr ⟨m', k', List.mem_cons_of_mem _ h2, h3⟩

theorem updateItems_part {S : Schema F} {relIdx : FMap String RefIdx} {e : Ents} {c f : String} {i u : Int} {st st' : Stored V}
    (h : updateItems S relIdx e c f i u st = .ok st') {n : String} {k : Items} {v : V} (hk : part st' n k = some v) : ∃ k', part st n k' = some v := by
  unfold updateItems at h
  obtain ⟨e', _, h⟩ := bind_ok.mp h
  rcases newStored_part h n k v hk with h1 | ⟨m, k', h1, h2⟩
  · cases h1
  · refine ⟨k', ?_⟩
    unfold part
    rw [FMap.mem_entries.mp h1]
    exact h2

/-! ### values are sampled -/

end GenDB

namespace CleanRel
variable {D : DistOps V} {supp : V → Prop} {σ σ' : Doms}

theorem incorporateItems_holds {r r' : CleanRel D} {items z : Items} {t t' : Tape} (hσ : StoreWF σ) (hc : r.Cells supp σ) (h : incorporateItems σ r items t = .ok (z, σ', r', t')) :
    StoreWF σ' ∧ tupleSeat σ' r'.doms items = some z ∧ ∃ c m, r'.clusters.find? z = some c ∧ D.Holds supp m c := by
  obtain ⟨_, _, h⟩ := bind_ok.mp h
  obtain ⟨⟨σ₂, m, t₂⟩, h4, h⟩ := bind_ok.mp h
  dsimp only at h
  obtain ⟨z₁, h5, h⟩ := bind_ok.mp h
  obtain ⟨g1, _, _⟩ := incLoop_grows hσ h4
  have h5 := clusterOf_ok h5
  split at h
  · rename_i hz
    cases h
    obtain ⟨c, hc'⟩ := FMap.contains_iff.mp hz
    exact ⟨g1, h5, c, _, hc', (hc z).2 c hc'⟩
  · cases h
    exact ⟨g1, h5, _, 0, FMap.find?_set_self .., holds_fresh t₂⟩

end CleanRel

namespace Rel
variable {F : Family V} {L : FamilyLaws F} {σ σ' : Doms}

/-- sampling a value does what incorporating it does -/
theorem sample_eq (S : Samples L) {b : Option (BaseView V)} {r r' : Rel F} {items : Items} {x : V} {t t' : Tape} (hσ : StoreWF σ) (hc : r.Cells L σ)
    (hcl : ∀ c q, r = .clean c q → L.Sampleable c) (hacc : ∀ e p q, r = .noisy e p q → ∀ w, b = some w → ∀ bv, w.data.find? (items.take w.arity) = some bv → ∃ y, L.suppE e (bv, y))
    (h : r.sampleAndIncorporate σ b items t = .ok (x, σ', r', t')) : r.Fit L x ∧ ∃ t₁, r.incorporate σ b items x t = .ok (σ', r', t₁) := by
  cases r with
  | clean c r =>
    obtain ⟨⟨x₁, σ₁, r₁, t₁⟩, h1, h⟩ := bind_ok.mp h
    cases h
    obtain ⟨⟨z, σ₂, r₂, t₂⟩, h2, h1⟩ := bind_ok.mp h1
    obtain ⟨k1, k2, s, m, k3, k4⟩ := CleanRel.incorporateItems_holds hσ hc h2
    obtain ⟨y, t₃, k5, k6⟩ := hcl c _ rfl m s t₂ k4
    have hsa : CleanRel.sampleAtItems σ₂ r₂ items t₂ = .ok (y, r₂, t₃) := by
      simp only [CleanRel.sampleAtItems, CleanRel.clustersContains_eq k1 k2, FMap.contains_iff.mpr ⟨_, k3⟩, bind, Except.bind, if_true,
        CleanRel.clusterOf_eq k1 k2, FMap.atKey_of_find k3, k5, FMap.set_of_find k3]
    dsimp only at h1
    rw [hsa] at h1
    obtain ⟨_, h3, h1⟩ := bind_ok.mp h1
    cases h3
    dsimp only at h1
    obtain ⟨c₁, h3, h1⟩ := bind_ok.mp h1
    obtain ⟨c₂, h4, h1⟩ := bind_ok.mp h1
    cases h1
    refine ⟨k6, t₂, ?_⟩
    simp only [Rel.incorporate, CleanRel.incorporate, bind, Except.bind, h2, h3, h4]
  | noisy e p r =>
    obtain ⟨w, h0, h⟩ := bind_ok.mp h
    have hw := derefR_ok.mp h0
    obtain ⟨⟨x₁, σ₁, r₁, t₁⟩, h1, h⟩ := bind_ok.mp h
    cases h
    obtain ⟨t₄, h11⟩ := NoisyRel.sampleAndIncorporate_eq h1
    refine ⟨?_, t₄, by simp only [Rel.incorporate, bind, Except.bind, h0, h11]⟩
    obtain ⟨⟨z, σ₂, em, t₂⟩, h2, h1⟩ := bind_ok.mp h1
    obtain ⟨k1, k2, s, m, k3, k4⟩ := CleanRel.incorporateItems_holds hσ hc h2
    dsimp only at h1
    obtain ⟨bv, h3, h1⟩ := bind_ok.mp h1
    obtain ⟨bi, h4, h1⟩ := bind_ok.mp h1
    obtain ⟨_, rfl⟩ := NoisyRel.baseItems_ok h4
    have hbv := h3
    obtain ⟨_, h5, h3⟩ := bind_ok.mp h3
    obtain ⟨_, rfl⟩ := NoisyRel.baseItems_ok h5
    obtain ⟨_, _, h3⟩ := bind_ok.mp h3
    have h3 : w.data.find? (items.take w.arity) = some bv := FMap.atKey_ok.mp h3
    obtain ⟨y, t₃, k5, k6⟩ := S.noisy e m s bv t₂ k4 (hacc e p r rfl w hw bv h3)
    have hsa : NoisyRel.sampleAtItems σ₂ w { r with emission := em } items t₂ = .ok (y, t₃) := by
      simp only [NoisyRel.sampleAtItems, hbv, CleanRel.clustersContains_eq k1 k2, FMap.contains_iff.mpr ⟨_, k3⟩, bind, Except.bind, if_true,
        CleanRel.clusterOf_eq k1 k2, FMap.atKey_of_find k3, k5]
    rw [hsa] at h1
    obtain ⟨_, h5, h1⟩ := bind_ok.mp h1
    cases h5
    dsimp only at h1
    obtain ⟨c₁, _, h1⟩ := bind_ok.mp h1
    obtain ⟨c₂, _, h1⟩ := bind_ok.mp h1
    cases h1
    exact ⟨bv, k6⟩

end Rel

namespace GenDB
open HIRM
variable {F : Family V} {L : FamilyLaws F} {H H' : HIRM F} {S : Schema F}

theorem sampleOne_keeps (P : Samples L) (hcm : Compatible L S) (hF : Freely L S) (hk : Keeps L S H) {rel : String} {items : Items} {v : V} {t t' : Tape}
    (h : H.sampleOne rel items t = .ok (v, H', t')) : Keeps L S H' := by
  obtain ⟨⟨tb, I⟩, h1, h⟩ := bind_ok.mp h
  obtain ⟨⟨id, r⟩, h2, h⟩ := bind_ok.mp h
  obtain ⟨⟨x, σ, r', t₁⟩, h3, h⟩ := bind_ok.mp h
  cases h
  obtain ⟨hT, hI⟩ := relationToIrm_ok.mp h1
  have hr := FMap.atKey_ok.mp h2
  have hm := hk.firm
  have hf := hk.filed
  obtain ⟨spec, q1, q2⟩ := hf.kinds tb I hI rel id r hr
  have hs : S.find? rel = some spec := by rw [← hk.schema]; exact q1
  have q3 := q2.kind
  obtain ⟨k1, t₂, k2⟩ := Rel.sample_eq P (hf.store tb I hI) (hf.cells tb I hI rel id r hr) (fun c q hq => by
      subst hq
      cases spec with
      | noisy e ds b o => cases q3
      | clean c' ds o => cases q3; exact hcm.all rel c ds o hs) (fun e p q hq w hw bv hbv => by
      subst hq
      cases spec with
      | clean c ds o => cases q3
      | noisy e' ds b o =>
        cases q3
        have q4 : some p.name = some b := q2.base
        cases q4
        have hw : H.env p = some w := hw
        obtain ⟨sp, l1, l2, l3⟩ := hk.tidy.env hw
        refine hcm.accepts rel e ds p.name o sp hs (by rw [← hk.schema]; exact l1) bv (hf.value hm l1 (k := items.take w.arity) ?_)
        unfold HIRM.value
        rw [l3]
        exact hbv) h3
  have hinc : H.incorporate rel items v t = .ok ({ H with irms := H.irms.set tb { I with doms := σ, rels := I.rels.set rel (id, r') } }, t₂) := by
    simp only [HIRM.incorporate, IRM.incorporate, bind, Except.bind, h1, h2, k2]
  have hv : spec.Value L v := by cases r <;> cases spec <;> cases q3 <;> exact k1
  have hn := (HIRM.incorporate_next hinc).1
  obtain ⟨g1, g2⟩ := incorporate_filed hm hf hk.bound (fun tb I id r hI hr => hf.supports hk.tidy hm (by rw [hk.schema]; exact hF) q1 hv hI hr) hinc
  exact ⟨hn.tidy hk.tidy, firm_closed.incorporate hm hinc, g1, g2, hn.schema.trans hk.schema⟩

theorem sampleRelation_keeps (P : Samples L) (hcm : Compatible L S) (hF : Freely L S) {n : Nat} : ∀ {H H' : HIRM F} {rel : String} {items : Items} {v : V} {t t' : Tape}, Keeps L S H →
    HIRM.sampleRelation n H rel items t = .ok (v, H', t') → Keeps L S H' := by
  induction n with
  | zero => intro H H' rel items v t t' _ h; cases h
  | succ n ih =>
    intro H H' rel items v t t' hk h
    obtain ⟨spec, _, h⟩ := bind_ok.mp h
    dsimp only at h
    cases spec with
    | clean c ds o =>
      obtain ⟨y, h1, h⟩ := bind_ok.mp h
      cases h1
      exact sampleOne_keeps P hcm hF hk h
    | noisy e ds b o =>
      obtain ⟨⟨p, r⟩, _, h⟩ := bind_ok.mp h
      obtain ⟨w, _, h⟩ := bind_ok.mp h
      obtain ⟨bi, _, h⟩ := bind_ok.mp h
      split at h
      · obtain ⟨y, h1, h⟩ := bind_ok.mp h
        cases h1
        exact sampleOne_keeps P hcm hF hk h
      · obtain ⟨⟨x, H₁, t₁⟩, h1, h⟩ := bind_ok.mp h
        obtain ⟨y, h2, h⟩ := bind_ok.mp h
        cases h2
        exact sampleOne_keeps P hcm hF (ih hk h1) h

theorem seatRels_keeps (P : Samples L) (hcm : Compatible L S) (hF : Freely L S) {i : Int} {l : List String} : ∀ {D D' : DB F} {t t' : Tape}, Keeps L S D.H →
    DB.seatRels i l D t = .ok (D', t') → Keeps L S D'.H := by
  induction l with
  | nil => intro D D' t t' hk h; cases h; exact hk
  | cons r l ih =>
    intro D D' t t' hk h
    unfold DB.seatRels at h
    obtain ⟨k, _, h⟩ := bind_ok.mp h
    obtain ⟨⟨D₁, t₁⟩, h1, h⟩ := bind_ok.mp h
    refine ih ?_ h
    unfold DB.ensureValue at h1
    obtain ⟨⟨p, q⟩, _, h1⟩ := bind_ok.mp h1
    dsimp only at h1
    split at h1
    · cases h1; exact hk
    · obtain ⟨⟨x, H₂, t₂⟩, h2, h1⟩ := bind_ok.mp h1
      cases h1
      exact sampleRelation_keeps P hcm hF hk h2

theorem seatNew_keeps (P : Samples L) (hcm : Compatible L S) (hF : Freely L S) {D D' : DB F} {d : String} {i : Int} {t t' : Tape} (hk : Keeps L S D.H)
    (h : D.seatNew d i t = .ok (D', t')) : Keeps L S D'.H := by
  obtain ⟨⟨x, e, t₁⟩, _, h⟩ := bind_ok.mp h
  dsimp only at h
  obtain ⟨rels, _, h⟩ := bind_ok.mp h
  exact seatRels_keeps (D := { D with ents := e }) P hcm hF hk h

end GenDB
end
end Verif
