import Verif.Lemmas.Feeds
import Verif.Lemmas.TidyDom
import Verif.Lemmas.IncorporateAll
import Verif.Lemmas.HIRMMk
import Verif.Lemmas.ClusterFileLoad
/-!
Every entity that an HIRM has seated, or stores a tuple with, has a property `Q`: what each operation needs for this to stay true.  This needs
nothing about the distributions.
-/
namespace Verif
noncomputable section
variable {V : Type} {F : Family V}

/-- a consistent domain whose entities all have the property -/
def SeatedIn (Q : String → Int → Prop) (d : String) (dom : Domain) : Prop := TidyDom d dom ∧ ∀ i, dom.items.contains i = true → Q d i

theorem seatedIn_closed (Q : String → Int → Prop) : DomClosed (SeatedIn Q) Q where
  new d := ⟨tidyDom_closed.new d, fun i h => by cases h⟩
  incorporate := by
    intro d dom dom' i table t t' hq ⟨h1, h2⟩ hc
    refine ⟨tidyDom_closed.incorporate trivial h1 hc, ?_⟩
    cases hi : dom.items.contains i with
    | true => rw [Domain.incorporate_same hi hc]; exact h2
    | false =>
      rw [Domain.incorporate_new h1.2.1 hi] at hc
      cases hc
      intro j hj
      have hj : (FSet.insert dom.items i).contains j = true := hj
      rw [FMap.contains_iff_mem, FSet.mem_insert] at hj
      rcases hj with rfl | hj
      · exact hq
      · exact h2 j (FMap.contains_iff_mem.mpr hj)
  unincorporate := by
    intro d dom dom' i ⟨h1, h2⟩ hc
    refine ⟨tidyDom_closed.unincorporate h1 hc, ?_⟩
    cases hi : dom.items.contains i with
    | false => rw [Domain.unincorporate_absent hi] at hc; cases hc
    | true =>
      obtain ⟨tb, s, _, _, h3, _⟩ := Domain.unincorporate_eq h1.2.1 hi
      rw [h3] at hc
      cases hc
      intro j hj
      have hj : (dom.items.erase i).contains j = true := hj
      rw [FMap.contains_iff_mem, FMap.keys_erase_mem] at hj
      exact h2 j (FMap.contains_iff_mem.mpr hj.2)
  move := by
    intro d dom dom' i w tb ⟨h1, h2⟩ hg ht hc
    refine ⟨tidyDom_closed.move h1 hg ht hc, ?_⟩
    have hi : dom'.items = dom.items := by
      obtain ⟨_, _, hc⟩ := bind_ok.mp hc
      obtain ⟨_, _, hc⟩ := bind_ok.mp hc
      obtain ⟨_, _, hc⟩ := bind_ok.mp hc
      obtain ⟨_, _, hc⟩ := bind_ok.mp hc
      obtain ⟨_, _, hc⟩ := bind_ok.mp hc
      cases hc
      rfl
    rw [hi]
    exact h2
  alpha := by
    intro d dom t ⟨h1, h2⟩
    exact ⟨tidyDom_closed.alpha t h1, h2⟩

/-! ### The tuples of a relation with latent values stay -/

namespace Rel

theorem incorporateToCluster_keys {σ : Doms} {b : Option (BaseView V)} {r r' : Rel F} {items : Items} {v : V}
    (h : r.incorporateToCluster σ b items v = .ok r') : ∀ k, r'.data.contains k = r.data.contains k := by
  cases r with
  | clean c r =>
    obtain ⟨_, h1, h⟩ := bind_ok.mp h
    cases h
    intro k; rw [(next_clean (CleanRel.incorporateToCluster_same h1)).2]
  | noisy e p r =>
    obtain ⟨_, _, h⟩ := bind_ok.mp h
    obtain ⟨_, h1, h⟩ := bind_ok.mp h
    cases h
    intro k; rw [(next_noisy (p := p) (p' := p) (NoisyRel.incorporateToCluster_same h1)).2]

theorem unincorporateFromCluster_keys {σ : Doms} {r r' : Rel F} {items : Items} (h : r.unincorporateFromCluster σ items = .ok r') :
    ∀ k, r'.data.contains k = r.data.contains k := by
  cases r with
  | clean c r =>
    obtain ⟨_, h1, h⟩ := bind_ok.mp h
    cases h
    intro k; rw [(next_clean (CleanRel.unincorporateFromCluster_same h1).1).2]
  | noisy e p r =>
    obtain ⟨_, h1, h⟩ := bind_ok.mp h
    cases h
    intro k; rw [(next_noisy (p := p) (p' := p) (NoisyRel.unincorporateFromCluster_same h1).1).2]

theorem updateValue_keys {σ : Doms} {b : Option (BaseView V)} {r r' : Rel F} {items : Items} {v : V}
    (h : r.updateValue σ b items v = .ok r') : ∀ k, r'.data.contains k = r.data.contains k := by
  cases r with
  | clean c r =>
    obtain ⟨_, h1, h⟩ := bind_ok.mp h
    cases h
    exact (CleanRel.updateValue_idx h1).2.2.2
  | noisy e p r =>
    obtain ⟨_, _, h⟩ := bind_ok.mp h
    obtain ⟨_, h1, h⟩ := bind_ok.mp h
    cases h
    obtain ⟨_, h0, h1⟩ := bind_ok.mp h1
    obtain ⟨bv, _, h1⟩ := bind_ok.mp h1
    obtain ⟨em, h2, h1⟩ := bind_ok.mp h1
    cases h1
    intro k
    have hc : r.data.contains items = true := by simpa using assertR_ok.mp h0
    show (r.data.set items v).contains k = r.data.contains k
    rw [Bool.eq_iff_iff, FMap.contains_iff_mem, FMap.contains_iff_mem, FMap.keys_set_mem]
    constructor
    · rintro (rfl | h)
      · exact FMap.contains_iff_mem.mp hc
      · exact h
    · exact Or.inr

end Rel

namespace Latent

theorem scoreLoop_keys {bi : Items} {bl : ℝ} {vs : List V} : ∀ {base base' : LatentBase F} {ps qs : List (LatentObs F)} {ss : List ℝ},
    scoreLoop bi bl vs base ps = .ok (ss, base', qs) → ∀ k, base'.rel.data.contains k = base.rel.data.contains k := by
  induction vs with
  | nil => intro base base' ps qs ss h k; cases h; rfl
  | cons v vs ih =>
    intro base base' ps qs ss h k
    obtain ⟨rel, h1, h⟩ := bind_ok.mp h
    obtain ⟨ps₁, h2, h⟩ := bind_ok.mp h
    obtain ⟨ps₂, h3, h⟩ := bind_ok.mp h
    obtain ⟨rel', h4, h⟩ := bind_ok.mp h
    obtain ⟨⟨ss', b', q'⟩, h5, h⟩ := bind_ok.mp h
    cases h
    exact (ih h5 k).trans ((Rel.unincorporateFromCluster_keys h4 k).trans (Rel.incorporateToCluster_keys h1 k))

theorem transition_keys {bi : Items} {base : LatentBase F} {noisy : List (LatentNoisy F)} {t t' : Tape} {o : Outcome F}
    (h : transition bi base noisy t = .ok (o, t')) (k : Items) : o.base.rel.data.contains k = base.rel.data.contains k := by
  obtain ⟨rel, h1, h⟩ := bind_ok.mp h
  obtain ⟨⟨ps, t₁⟩, h2, h⟩ := bind_ok.mp h
  obtain ⟨⟨cands, t₂⟩, h3, h⟩ := bind_ok.mp h
  obtain ⟨⟨ss, base₁, ps₁⟩, h4, h⟩ := bind_ok.mp h
  obtain ⟨⟨v, base₂, ps₂, t₃⟩, h5, h⟩ := bind_ok.mp h
  cases h
  obtain ⟨_, _, h5⟩ := bind_ok.mp h5
  obtain ⟨r₁, k1, h5⟩ := bind_ok.mp h5
  obtain ⟨r₂, k2, h5⟩ := bind_ok.mp h5
  obtain ⟨ps₃, k3, h5⟩ := bind_ok.mp h5
  cases h5
  exact (Rel.updateValue_keys k2 k).trans ((Rel.incorporateToCluster_keys k1 k).trans ((scoreLoop_keys h4 k).trans (Rel.unincorporateFromCluster_keys h1 k)))

theorem latentLoop_keys : ∀ (l : List Items) (base : LatentBase F) (noisy : List (LatentNoisy F)) (t : Tape)
    (x : LatentBase F × List (LatentNoisy F) × Tape), IRM.latentLoop l base noisy t = .ok x → ∀ k, x.1.rel.data.contains k = base.rel.data.contains k := by
  intro l
  induction l with
  | nil => intro base noisy t x h k; cases h; rfl
  | cons a l ih =>
    intro base noisy t x h k
    obtain ⟨⟨o, t₁⟩, h1, h⟩ := bind_ok.mp h
    exact (ih _ _ _ _ h k).trans (transition_keys h1 k)

end Latent

namespace HIRM

/-- the tuples that a relation stores -/
def stores (H : HIRM F) (n : String) (k : Items) : Bool := ((H.dataOf n).getD ∅).contains k

theorem stores_congr {H H' : HIRM F} {n : String} (h : H'.dataOf n = H.dataOf n) (k : Items) : H'.stores n k = H.stores n k := by
  unfold stores; rw [h]

/-- replacing the object of one relation -/
theorem dataOf_put {H : HIRM F} {tb : Int} {I : IRM F} {n : String} (hT : H.tableOf n = some tb) (hI : H.irms.find? tb = some I) (y : Nat × Rel F) (m : String) :
    dataOf { H with irms := H.irms.set tb { I with rels := I.rels.set n y } } m = if m = n then some y.2.data else H.dataOf m := by
  have hT' : ∀ m, tableOf { H with irms := H.irms.set tb { I with rels := I.rels.set n y } } m = H.tableOf m := fun _ => rfl
  by_cases e : m = n
  · subst e
    rw [if_pos rfl, dataOf_irm (FMap.find?_set_self _ _ _) ((hT' m).trans hT)]
    unfold IRM.dataOf
    show Option.map _ ((I.rels.set m y).find? m) = _
    rw [FMap.find?_set_self]; rfl
  · rw [if_neg e]
    cases hm : H.tableOf m with
    | none => unfold dataOf relOf; rw [hT', hm]; rfl
    | some u =>
      by_cases eu : u = tb
      · subst eu
        rw [dataOf_irm (FMap.find?_set_self _ _ _) ((hT' m).trans hm), dataOf_irm hI hm]
        unfold IRM.dataOf
        show Option.map _ ((I.rels.set n y).find? m) = _
        rw [FMap.find?_set_ne _ e]
      · unfold dataOf relOf
        rw [hT', hm]
        show Option.map _ (Option.bind _ _) = Option.map _ (Option.bind _ _)
        simp only [Option.bind_some]
        show Option.map _ (Option.bind ((H.irms.set tb _).find? u) _) = _
        rw [FMap.find?_set_ne _ eu]
        rfl

theorem storeNoisy_stores {p : Ptr} {H₀ : HIRM F} : ∀ (l : List (LatentNoisy F)) (H H' : HIRM F), (∀ n k, H.stores n k = H₀.stores n k) →
    (∀ x ∈ l, Held H₀ p x) → storeNoisy p l H = .ok H' → ∀ n k, H'.stores n k = H₀.stores n k := by
  intro l
  induction l with
  | nil => intro H H' h _ hc; cases hc; exact h
  | cons x l ih =>
    intro H H' h hl hc
    obtain ⟨⟨tb, I⟩, h1, h2⟩ := bind_ok.mp hc
    obtain ⟨⟨id, rel⟩, h3, h4⟩ := bind_ok.mp h2
    obtain ⟨tb₀, I₀, y, k1, k2, k3, k4, k5⟩ := hl x (by simp)
    obtain ⟨hT, hI⟩ := relationToIrm_ok.mp h1
    refine ih _ _ (fun n k => ?_) (fun z hz => hl z (by simp [hz])) h4
    show FMap.contains ((dataOf { H with irms := H.irms.set tb { I with rels := I.rels.set x.name (id, .noisy x.e p x.r) } } n).getD ∅) k = _
    rw [dataOf_put hT hI]
    split
    · rename_i e; subst e
      unfold stores
      rw [dataOf_irm k2 k1]
      unfold IRM.dataOf
      rw [k3]
      show x.r.data.contains k = y.2.data.contains k
      rw [k5]
    · exact h n k

theorem transitionLatentRelation_stores {H H' : HIRM F} {r : String} {t t' : Tape}
    (hc : H.transitionLatentRelation r t = .ok (H', t')) : ∀ n k, H'.stores n k = H.stores n k := by
  obtain ⟨⟨tb, I⟩, h1, h2⟩ := bind_ok.mp hc
  obtain ⟨⟨id, rel⟩, h3, h4⟩ := bind_ok.mp h2
  obtain ⟨_, _, h5⟩ := bind_ok.mp h4
  obtain ⟨ns, hns, h6⟩ := bind_ok.mp h5
  obtain ⟨⟨base, noisy, t₁⟩, hl, h7⟩ := bind_ok.mp h6
  obtain ⟨_, h8, h9⟩ := bind_ok.mp h7
  cases h9
  obtain ⟨a, b⟩ := Latent.latentLoop_steps _ _ _ _ _ hl
  have hk := Latent.latentLoop_keys _ _ _ _ _ hl
  obtain ⟨hT, hI⟩ := relationToIrm_ok.mp h1
  refine storeNoisy_stores _ _ _ (fun n k => ?_) ?_ h8
  · show FMap.contains ((dataOf { H with irms := H.irms.set tb { I with rels := I.rels.set r (id, base.rel) } } n).getD ∅) k = _
    rw [dataOf_put hT hI]
    split
    · rename_i e; subst e
      unfold stores
      rw [dataOf_irm hI hT]
      unfold IRM.dataOf
      rw [FMap.atKey_ok.mp h3]
      exact hk k
    · rfl
  · intro x hx
    obtain ⟨y, hy, hs⟩ := b x hx
    exact (noisyOf_held hns y ((shuffle_perm _ _).mem_iff.mp hy)).step hs

/-! ### The invariant -/

/-- Consistent, every seated entity and every entity of a stored tuple has the property, and the noisy relations of a base are those with this base. -/
structure Known (Q : String → Int → Prop) (H : HIRM F) : Prop where
  tidy : H.Tidy
  seats : ∀ tb I, H.irms.find? tb = some I → DomAll (SeatedIn Q) I.doms
  tuples : ∀ n spec k, H.schema.find? n = some spec → H.stores n k = true → ∀ d i, Uses spec.doms d i k → Q d i
  links : ∀ b l n, H.baseToNoisy.find? b = some l → n ∈ l → ∃ spec, H.schema.find? n = some spec ∧ spec.base? = some b

variable {Q : String → Int → Prop}

theorem Known.mono {Q' : String → Int → Prop} {H : HIRM F} (h : Known Q H) (hQ : ∀ d i, Q d i → Q' d i) : Known Q' H where
  tidy := h.tidy
  seats tb I hI d dom hd := ⟨(h.seats tb I hI d dom hd).1, fun i hi => hQ d i ((h.seats tb I hI d dom hd).2 i hi)⟩
  tuples n spec k hs hk d i hu := hQ d i (h.tuples n spec k hs hk d i hu)
  links := h.links

theorem Tidy.relOf {H : HIRM F} (h : H.Tidy) {n : String} {x : Int × Nat × Rel F} (hx : H.relOf n = some x) :
    ∃ spec, H.schema.find? n = some spec ∧ x.2.2.Indexed ∧ x.2.2.doms = spec.doms ∧ H.dataOf n = some x.2.2.data := by
  obtain ⟨hT, I, hI, hr⟩ := relOf_some.mp hx
  obtain ⟨a, sp, b, c⟩ := h.irms _ I hI n _ hr
  have := h.skel.specs _ I hI n (FMap.contains_iff.mpr ⟨_, hr⟩)
  rw [b] at this
  refine ⟨sp, this.symm, a, c, ?_⟩
  unfold dataOf; rw [hx]; rfl

theorem Known.incorporate {H H' : HIRM F} (h : Known Q H) {r : String} {items : Items} {v : V} {t t' : Tape}
    (hc : H.incorporate r items v t = .ok (H', t')) (hQ : ∀ spec, H.schema.find? r = some spec → ∀ d i, Uses spec.doms d i items → Q d i) : Known Q H' := by
  obtain ⟨hn, d, hd, hd'⟩ := incorporate_next hc
  refine ⟨hn.tidy h.tidy, ?_, fun n spec k hs hk => ?_, by rw [hn.baseToNoisy, hn.schema]; exact h.links⟩
  · refine (incorporate_keeps (seatedIn_closed Q) hc (fun x hx => ?_)).all h.seats
    obtain ⟨spec, h1, h2, h3, _⟩ := h.tidy.relOf hx
    rw [h2.inner, h3]
    exact hQ spec h1
  · rw [hn.schema] at hs
    by_cases e : n = r
    · subst e
      unfold stores at hk
      rw [hd'] at hk
      have hk : (d.set items v).contains k = true := hk
      rw [FMap.contains_iff_mem, FMap.keys_set_mem] at hk
      rcases hk with rfl | hk
      · exact hQ spec hs
      · refine h.tuples n spec k hs ?_
        unfold stores
        rw [hd]
        exact FMap.contains_iff_mem.mpr hk
    · rw [stores_congr (hn.dataOf e)] at hk
      exact h.tuples n spec k hs hk

theorem Known.latent {H H' : HIRM F} (h : Known Q H) {r : String} {t t' : Tape} (hc : H.transitionLatentRelation r t = .ok (H', t')) : Known Q H' := by
  have hn := transitionLatentRelation_next hc
  refine ⟨hn.tidy h.tidy, (transitionLatentRelation_keeps hc).all h.seats, fun n spec k hs hk => ?_,
    by rw [hn.baseToNoisy, hn.schema]; exact h.links⟩
  rw [hn.schema] at hs
  rw [transitionLatentRelation_stores hc] at hk
  exact h.tuples n spec k hs hk

theorem Known.latentSweep : ∀ (l : List String) (H : HIRM F) (t : Tape) (x : HIRM F × Tape), Known Q H → latentSweep l H t = .ok x → Known Q x.1 := by
  intro l
  induction l with
  | nil => intro H t x h hc; cases hc; exact h
  | cons r l ih =>
    intro H t x h hc
    obtain ⟨spec, hsp, hc⟩ := bind_ok.mp hc
    split at hc
    · obtain ⟨⟨H₁, t₁⟩, h1, hc⟩ := bind_ok.mp hc
      exact ih _ _ _ (h.latent h1) hc
    · exact ih _ _ _ h hc

theorem transitionRelation_crp {H H' : HIRM F} {r : String} {t t' : Tape} (hc : H.transitionRelation r t = .ok (H', t')) :
    H'.baseToNoisy = H.baseToNoisy ∧ ∃ rc cur w tb c1, H.crp.tablesWeightsGibbs cur = .ok w ∧ tb ∈ w.keys ∧ H.crp.unincorporate rc = .ok c1 ∧ c1.incorporate rc tb = .ok H'.crp := by
  obtain ⟨rc, h1, hc⟩ := bind_ok.mp hc
  obtain ⟨cur, h2, hc⟩ := bind_ok.mp hc
  obtain ⟨⟨p, rel⟩, h0, hc⟩ := bind_ok.mp hc
  obtain ⟨spec, h3, hc⟩ := bind_ok.mp hc
  obtain ⟨w, hw, hc⟩ := bind_ok.mp hc
  obtain ⟨⟨lps, H1, aux, t1⟩, h4, hc⟩ := bind_ok.mp hc
  obtain ⟨ch, h5, hc⟩ := bind_ok.mp hc
  obtain ⟨H2, h6, hc⟩ := bind_ok.mp hc
  cases hc
  have hnd : ((shuffle w.entries t).1.map Prod.fst).Nodup :=
    ((shuffle_perm w.entries t).map _).nodup_iff.mpr (FMap.nodupKeys w)
  obtain ⟨hl, hS, _⟩ := scoreTables_inv _ _ _ _ _ _ _ _ hnd (fun _ _ h => by cases h) h4
  have hch : ch.1 ∈ (shuffle w.entries t).1.map Prod.fst := by
    rw [← hl]
    exact List.mem_map_of_mem (idxR_mem h5)
  obtain ⟨m, h7, hc⟩ := bind_ok.mp h6
  obtain ⟨c1, h8, hc⟩ := bind_ok.mp hc
  obtain ⟨c2, h9, hc⟩ := bind_ok.mp hc
  obtain ⟨_, _, hc⟩ := bind_ok.mp hc
  rw [hS.crp] at h8
  have hk := updateBase_keys hc
  refine ⟨hk.baseToNoisy.trans hS.baseToNoisy, rc, cur, w, ch.1, c1, hw, ?_, h8, ?_⟩
  · obtain ⟨e, he, h⟩ := List.mem_map.mp hch
    rw [← h]
    exact FMap.mem_keys.mpr ⟨e.2, FMap.mem_entries.mp ((shuffle_perm _ _).mem_iff.mp he)⟩
  · rw [hk.crp]
    exact h9

theorem Known.move {H H' : HIRM F} (h : Known Q H) {r : String} {t t' : Tape} (hc : H.transitionRelation r t = .ok (H', t')) : Known Q H' := by
  obtain ⟨a, b, c⟩ := transitionRelation_tidy h.tidy hc
  obtain ⟨e, _⟩ := transitionRelation_crp hc
  refine ⟨a, ?_, fun n spec k hs hk => ?_, by rw [e, b]; exact h.links⟩
  · refine (transitionRelation_keeps (seatedIn_closed Q) hc (fun spec x hs hx k hk => ?_)).all h.seats
    obtain ⟨_, _, _, _, hd⟩ := h.tidy.relOf hx
    refine h.tuples r spec k hs ?_
    unfold stores; rw [hd]; exact hk
  · rw [b] at hs
    rw [stores_congr (c n)] at hk
    exact h.tuples n spec k hs hk

theorem Known.moves : ∀ (l : List String) (H : HIRM F) (t : Tape) (x : HIRM F × Tape), Known Q H → transitionRelations l H t = .ok x → Known Q x.1 := by
  intro l
  induction l with
  | nil => intro H t x h hc; cases hc; exact h
  | cons r l ih =>
    intro H t x h hc
    obtain ⟨⟨H₁, t₁⟩, h1, hc⟩ := bind_ok.mp hc
    exact ih _ _ _ (h.move h1) hc

theorem Known.steps {H : HIRM F} (h : Known Q H) {l : List Int} {t : Tape} {x : HIRM F × Tape} (hc : stepIrms l H t = .ok x) : Known Q x.1 := by
  have hn := stepIrms_next (P := fun _ => False) _ _ _ _ hc
  refine ⟨hn.tidy h.tidy, (stepIrms_keeps (seatedIn_closed Q) _ _ _ _ hc).all h.seats, fun n spec k hs hk => ?_,
    by rw [hn.baseToNoisy, hn.schema]; exact h.links⟩
  rw [hn.schema] at hs
  rw [stores_congr (hn.dataOf id)] at hk
  exact h.tuples n spec k hs hk

theorem Known.inferenceStep {H H' : HIRM F} (h : Known Q H) {t t' : Tape} (hc : H.inferenceStep t = .ok (H', t')) : Known Q H' := by
  obtain ⟨⟨H₁, t₁⟩, h1, hc⟩ := bind_ok.mp hc
  obtain ⟨⟨H₂, t₂⟩, h2, hc⟩ := bind_ok.mp hc
  exact (Known.moves _ _ _ _ (Known.latentSweep _ _ _ _ h h1) h2).steps hc

theorem Known.inference : ∀ (k : Nat) (H : HIRM F) (t : Tape) (x : HIRM F × Tape), Known Q H → inference k H t = .ok x → Known Q x.1 := by
  intro k
  induction k with
  | zero => intro H t x h hc; cases hc; exact h
  | succ k ih =>
    intro H t x h hc
    obtain ⟨⟨H₁, t₁⟩, h1, hc⟩ := bind_ok.mp hc
    exact ih _ _ _ (h.inferenceStep h1) hc

/-! ### Building a model -/

theorem known_empty : Known Q ({} : HIRM F) where
  tidy := ⟨History.empty.skel, fun tb I h => by cases h⟩
  seats := fun tb I h => by cases h
  tuples := fun n spec k h => by cases h
  links := fun b l n h => by cases h

theorem Known.add {H H' : HIRM F} (h : Known Q H) {name : String} {spec : RelSpec F} {t t' : Tape} (hc : H.addRelation name spec t = .ok (H', t')) : Known Q H' := by
  have hsk := addRelation_skel h.tidy.skel hc
  have hseats := (addRelation_keeps (seatedIn_closed Q) hc).all h.seats
  have hdata := addRelation_data h.tidy.skel hc
  obtain ⟨hf, hsch, _⟩ := addRelation_inv hc
  obtain ⟨p, hp⟩ := h.tidy.skel.basePtr (fun b hb => addRelation_base h.tidy.skel hc hb)
  obtain ⟨rc, c', _, h1, h2⟩ := addRelation_eq h.tidy.skel hf hp t
  rw [h2] at hc
  obtain ⟨I, h3, hc⟩ := bind_ok.mp hc
  cases hc
  rw [← addRelationToIrm_eq hp] at h3
  have hold : ∀ n sp, H.schema.find? n = some sp → (H.schema.set name spec).find? n = some sp := by
    intro n sp hn
    rw [FMap.find?_set_ne _ (by rintro rfl; rw [FMap.contains_false.mp hf] at hn; cases hn)]
    exact hn
  refine ⟨⟨hsk, fun tb K hK => ?_⟩, hseats, fun n sp k hs hk => ?_, fun b l n hl hn => ?_⟩
  · have hK : (H.irms.set (H.crp.sample t).1 I).find? tb = some K := hK
    rw [FMap.find?_set] at hK
    split at hK
    · cases hK
      refine addRelationToIrm_tidy h3 ?_
      cases hJ : H.irms.find? (H.crp.sample t).1 with
      | none => intro n x hx; cases hx
      | some J => exact h.tidy.irms _ _ hJ
    · exact h.tidy.irms _ _ hK
  · have hs : (H.schema.set name spec).find? n = some sp := hs
    rw [FMap.find?_set] at hs
    unfold stores at hk
    rw [hdata] at hk
    split at hs
    · rename_i e
      rw [if_pos e] at hk
      cases hk
    · rename_i e
      rw [if_neg e] at hk
      exact h.tuples n sp k hs hk
  · have hl : (noisyNames H.baseToNoisy name spec).find? b = some l := hl
    show ∃ sp, (H.schema.set name spec).find? n = some sp ∧ _
    have old : ∀ l', H.baseToNoisy.find? b = some l' → n ∈ l' → ∃ sp, (H.schema.set name spec).find? n = some sp ∧ sp.base? = some b := by
      intro l' h1 h2
      obtain ⟨sp, a, c⟩ := h.links b l' n h1 h2
      exact ⟨sp, hold n sp a, c⟩
    unfold noisyNames at hl
    split at hl
    · exact old l hl hn
    · rename_i b' hb
      rw [FMap.find?_set] at hl
      split at hl
      · rename_i e
        subst e
        cases hl
        rcases List.mem_append.mp hn with hn | hn
        · cases ho : H.baseToNoisy.find? b with
          | none => rw [ho] at hn; cases hn
          | some l' => rw [ho] at hn; exact old l' ho hn
        · cases List.mem_singleton.mp hn
          exact ⟨spec, FMap.find?_set_self _ _ _, hb⟩
      · exact old l hl hn

theorem Known.addPass : ∀ (l : List (String × RelSpec F)) (H : HIRM F) (a p : Bool) (t : Tape) (x : HIRM F × Bool × Bool × Tape),
    Known Q H → addPass l H a p t = .ok x → Known Q x.1 := by
  intro l
  induction l with
  | nil => intro H a p t x h hc; cases hc; exact h
  | cons e l ih =>
    obtain ⟨name, spec⟩ := e
    intro H a p t x h hc
    unfold HIRM.addPass at hc
    split at hc
    · exact ih _ _ _ _ _ h hc
    · cases spec with
      | clean c ds o =>
        obtain ⟨⟨H1, t1⟩, h1, h2⟩ := bind_ok.mp hc
        exact ih _ _ _ _ _ (h.add h1) h2
      | noisy e ds b o =>
        dsimp only at hc
        split at hc
        · obtain ⟨⟨H1, t1⟩, h1, h2⟩ := bind_ok.mp hc
          exact ih _ _ _ _ _ (h.add h1) h2
        · exact ih _ _ _ _ _ h hc

theorem Known.addPasses {schema : Schema F} : ∀ (k : Nat) (H : HIRM F) (t : Tape) (x : HIRM F × Tape), Known Q H → addPasses schema k H t = .ok x → Known Q x.1 := by
  intro k
  induction k with
  | zero => intro H t x _ hc; cases hc
  | succ k ih =>
    intro H t x h hc
    obtain ⟨⟨H1, a, p, t1⟩, h1, h2⟩ := bind_ok.mp hc
    have := Known.addPass _ _ _ _ _ _ h h1
    dsimp only at h2
    split at h2
    · cases h2; exact this
    · split at h2
      · cases h2
      · exact ih _ _ _ this h2

theorem known_mk' {schema : Schema F} {H : HIRM F} {t t' : Tape} (hc : mk' schema t = .ok (H, t')) : Known Q H :=
  Known.addPasses _ _ _ _ known_empty hc

/-! ### Reading observations -/

theorem sampleAt_next {H : HIRM F} {r : String} {items : Items} {t : Tape} {x : V × HIRM F × Tape} (hc : H.sampleAt r items t = .ok x) :
    Next (fun _ => False) H x.2.1 ∧ ∀ P, HKeeps P H x.2.1 := by
  obtain ⟨⟨tb, I⟩, h1, hc⟩ := bind_ok.mp hc
  obtain ⟨⟨id, rel⟩, h2, hc⟩ := bind_ok.mp hc
  obtain ⟨⟨v, rel', t₁⟩, h3, hc⟩ := bind_ok.mp hc
  cases hc
  obtain ⟨hT, hI⟩ := relationToIrm_ok.mp h1
  have hr : Rel.Next rel rel' ∧ rel'.data = rel.data := by
    cases rel with
    | clean c q =>
      obtain ⟨⟨_, q', _⟩, h4, h3⟩ := bind_ok.mp h3
      cases h3
      exact Rel.next_clean (CleanRel.sampleAtItems_same h4)
    | noisy e p q =>
      obtain ⟨b, _, h3⟩ := bind_ok.mp h3
      obtain ⟨⟨_, _⟩, h4, h3⟩ := bind_ok.mp h3
      cases h3
      exact ⟨.refl _, rfl⟩
  exact ⟨.setRel hI (id, rel') (FMap.atKey_ok.mp h2) hr.1 (fun _ => hr.2), fun P => .setIrm hI (.same rfl)⟩

theorem Known.next {H H' : HIRM F} (h : Known Q H) (hn : Next (fun _ => False) H H') (hk : HKeeps (SeatedIn Q) H H') : Known Q H' := by
  refine ⟨hn.tidy h.tidy, hk.all h.seats, fun n spec k hs hk => ?_,
    by rw [hn.baseToNoisy, hn.schema]; exact h.links⟩
  rw [hn.schema] at hs
  rw [stores_congr (hn.dataOf id)] at hk
  exact h.tuples n spec k hs hk

section Observations
open UtilIO
variable {parse : F.C ⊕ F.E → String → Res V}

theorem feeds (C : CRP) : Feeds (HIRM.host F) Q (fun H => Known Q H ∧ H.crp = C) where
  incorporate h hc hQ := by
    have hn := (incorporate_next hc).1
    exact ⟨⟨h.1.incorporate hc hQ, hn.crp.trans h.2⟩, hn.schema⟩
  sampleAt h hc := by
    obtain ⟨hn, hk⟩ := sampleAt_next hc
    exact ⟨⟨h.1.next hn (hk _), hn.crp.trans h.2⟩, hn.schema⟩

theorem Known.occurring {enc : Encoding} {H : HIRM F} (h : Known Q H)
    (hp : ∀ n spec b sp, H.schema.find? n = some spec → spec.base? = some b → H.schema.find? b = some sp → sp.doms <+: spec.doms)
    {obs : ObsMap String} (hQ : ∀ d x c, Occurs H.schema obs d x → Encoding.code enc d x = some c → Q d c)
    {t : Tape} {x : HIRM F × Tape} (hc : incorporateObservations (HIRM.host F) parse H enc obs t = .ok x) :
    Known Q x.1 ∧ x.1.schema = H.schema ∧ x.1.crp = H.crp := by
  obtain ⟨⟨a, b⟩, c⟩ := (feeds H.crp).occurring (m := H) ⟨h, rfl⟩ h.links hp hQ hc
  exact ⟨a, c, b⟩

theorem Known.observations {enc : Encoding} (hbij : ∀ d x c, Encoding.code enc d x = some c → HasName enc d c) {H : HIRM F} (h : Known (HasName enc) H)
    (hp : ∀ n spec b sp, H.schema.find? n = some spec → spec.base? = some b → H.schema.find? b = some sp → sp.doms <+: spec.doms)
    {obs : ObsMap String} {t : Tape} {x : HIRM F × Tape} (hc : incorporateObservations (HIRM.host F) parse H enc obs t = .ok x) :
    Known (HasName enc) x.1 ∧ x.1.schema = H.schema ∧ x.1.crp = H.crp := by
  obtain ⟨⟨a, b⟩, c⟩ := (feeds H.crp).observations hbij (m := H) ⟨h, rfl⟩ h.links hp hc
  exact ⟨a, c, b⟩

end Observations

/-! ### Saving -/

theorem Known.nameable {enc : Encoding} {H : HIRM F} (h : Known (HasName enc) H) {tb : Int} {I : IRM F} (hI : H.irms.find? tb = some I) : UtilIO.Nameable I.doms enc := by
  rintro d u i ⟨dom, hd, hu⟩
  have := h.seats tb I hI d dom hd
  exact this.2 i (this.1.2.1.mem.mpr ⟨u, hu⟩)

theorem DomAll.seated {σ : Doms} (h : DomAll (SeatedIn Q) σ) : DomAll TidyDom σ := fun d dom hd => (h d dom hd).1

/-- what has been read and inferred can be saved -/
theorem Known.saves {enc : Encoding} {H : HIRM F} (h : Known (HasName enc) H) (t : Tape) : ∃ text t', UtilIO.hirmText H enc t = .ok (text, t') :=
  (UtilIO.hirmText_ok_iff h.tidy.skel.consistent h.tidy.skel.crp.tidy (fun tb I hI => (DomAll.seated (h.seats tb I hI)).tidy) enc t).mpr (fun _ _ hI => h.nameable hI)

/-! ### The tables of the relations -/

theorem _root_.Verif.CRP.weights_ge {c : CRP} {b : Int} (hb : b ≤ 0) (hc : c.WF) (h : ∀ i tb, c.assignments.find? i = some tb → b ≤ tb) {tb : Int}
    (ht : tb ∈ c.tablesWeights.keys) : b ≤ tb := by
  have key : ∀ tb, tb ∈ c.tables.keys → b ≤ tb := by
    intro tb ht
    obtain ⟨s, hs⟩ := FMap.mem_keys.mp ht
    obtain ⟨i, hi⟩ := hc.nonempty tb s hs
    exact h i tb ((hc.mem i tb).mpr ⟨s, hs, hi⟩)
  unfold CRP.tablesWeights at ht
  split at ht
  · rw [FMap.keys_set_mem] at ht
    rcases ht with rfl | ht
    · exact hb
    · cases ht
  · rename_i hN
    rw [FMap.keys_set_mem] at ht
    rcases ht with rfl | ht
    · have := key _ (FMap.maxKey?_spec (CRP.maxTable_spec hc hN)).1
      omega
    · obtain ⟨w, hw⟩ := FMap.mem_keys.mp ht
      rw [FMap.find?_mapVals] at hw
      cases hs : c.tables.find? tb with
      | none => rw [hs] at hw; cases hw
      | some s => exact key _ (FMap.mem_keys.mpr ⟨s, hs⟩)

/-- no relation is at a table below the bound -/
def From (b : Int) (H : HIRM F) : Prop := ∀ i tb, H.crp.assignments.find? i = some tb → b ≤ tb

theorem incorporate_from {c c' : CRP} {b i tb : Int} (hc : c.incorporate i tb = .ok c') (h : ∀ i tb, c.assignments.find? i = some tb → b ≤ tb) (ht : b ≤ tb) :
    ∀ i tb, c'.assignments.find? i = some tb → b ≤ tb := by
  obtain ⟨_, _, hc⟩ := bind_ok.mp hc
  obtain ⟨_, _, hc⟩ := bind_ok.mp hc
  cases hc
  intro j u hj
  have hj : (c.assignments.set i tb).find? j = some u := hj
  rw [FMap.find?_set] at hj
  split at hj
  · cases hj; exact ht
  · exact h _ _ hj

theorem unincorporate_from {c c' : CRP} {b i : Int} (hc : c.unincorporate i = .ok c') (h : ∀ i tb, c.assignments.find? i = some tb → b ≤ tb) :
    ∀ i tb, c'.assignments.find? i = some tb → b ≤ tb := by
  obtain ⟨_, _, hc⟩ := bind_ok.mp hc
  obtain ⟨_, _, hc⟩ := bind_ok.mp hc
  obtain ⟨_, _, hc⟩ := bind_ok.mp hc
  cases hc
  intro j u hj
  have hj : (c.assignments.erase i).find? j = some u := hj
  rw [FMap.find?_erase] at hj
  split at hj
  · cases hj
  · exact h _ _ hj

theorem From.next {P : String → Prop} {b : Int} {H H' : HIRM F} (h : From b H) (hn : Next P H H') : From b H' := by
  unfold From; rw [hn.crp]; exact h

theorem From.move {b : Int} (hb : b ≤ 0) {H H' : HIRM F} (h : From b H) (hs : Skel H) {r : String} {t t' : Tape} (hc : H.transitionRelation r t = .ok (H', t')) : From b H' := by
  obtain ⟨_, rc, cur, w, tb, c1, h1, h2, h3, h4⟩ := transitionRelation_crp hc
  exact incorporate_from h4 (unincorporate_from h3 h) (CRP.weights_ge hb hs.crp h (CRP.gibbs_keys h1 h2))

theorem From.add {b : Int} (hb : b ≤ 0) {H H' : HIRM F} (h : From b H) (hs : Skel H) {name : String} {spec : RelSpec F} {t t' : Tape}
    (hc : H.addRelation name spec t = .ok (H', t')) : From b H' := by
  obtain ⟨_, _, _, rc, tb, I, c', J, _, h1, _, h2, rfl, _⟩ := addRelation_inv hc
  exact incorporate_from h2 h (CRP.weights_ge hb hs.crp h h1)

theorem From.set {b : Int} {H H' : HIRM F} (h : From b H) {r : String} {table : Int} (ht : b ≤ table) {t t' : Tape}
    (hc : H.setClusterAssignmentGibbs r table t = .ok (H', t')) : From b H' := by
  obtain ⟨_, _, hc⟩ := bind_ok.mp hc
  obtain ⟨rc, h1, hc⟩ := bind_ok.mp hc
  obtain ⟨cur, h2, hc⟩ := bind_ok.mp hc
  obtain ⟨⟨p, rel⟩, h0, hc⟩ := bind_ok.mp hc
  obtain ⟨spec, h3, hc⟩ := bind_ok.mp hc
  obtain ⟨I0, h4, hc⟩ := bind_ok.mp hc
  obtain ⟨I1, h5, hc⟩ := bind_ok.mp hc
  obtain ⟨I2, h6, hc⟩ := bind_ok.mp hc
  obtain ⟨⟨I3, t3⟩, h7, hc⟩ := bind_ok.mp hc
  obtain ⟨c1, h8, hc⟩ := bind_ok.mp hc
  obtain ⟨c2, h9, hc⟩ := bind_ok.mp hc
  obtain ⟨H2, h10, hc⟩ := bind_ok.mp hc
  obtain ⟨_, _, hc⟩ := bind_ok.mp hc
  cases hc
  unfold From
  rw [(updateBase_keys h10).crp]
  exact incorporate_from h9 (unincorporate_from h8 h) ht

theorem From.inference {b : Int} (hb : b ≤ 0) : ∀ (k : Nat) (H : HIRM F) (t : Tape) (x : HIRM F × Tape), H.Tidy → From b H → inference k H t = .ok x → From b x.1 := by
  have moves : ∀ (l : List String) (H : HIRM F) (t : Tape) (x : HIRM F × Tape), H.Tidy → From b H → transitionRelations l H t = .ok x → From b x.1 := by
    intro l
    induction l with
    | nil => intro H t x _ h hc; cases hc; exact h
    | cons r l ih =>
      intro H t x ht h hc
      obtain ⟨⟨H₁, t₁⟩, h1, hc⟩ := bind_ok.mp hc
      exact ih _ _ _ (transitionRelation_tidy ht h1).1 (h.move hb ht.skel h1) hc
  intro k
  induction k with
  | zero => intro H t x _ h hc; cases hc; exact h
  | succ k ih =>
    intro H t x ht h hc
    obtain ⟨⟨H₁, t₁⟩, h0, hc⟩ := bind_ok.mp hc
    refine ih _ _ _ (inferenceStep_tidy ht h0).1 ?_ hc
    obtain ⟨⟨H₂, t₂⟩, h1, h0⟩ := bind_ok.mp h0
    obtain ⟨⟨H₃, t₃⟩, h2, h0⟩ := bind_ok.mp h0
    have n1 := latentSweep_next (P := fun _ => True) _ _ _ _ (fun _ _ => trivial) h1
    have t2 := n1.tidy ht
    exact (moves _ _ _ _ t2 (h.next n1) h2).next (stepIrms_next (P := fun _ => False) _ _ _ _ h0)

theorem From.mk' {b : Int} (hb : b ≤ 0) {schema : Schema F} {H : HIRM F} {t t' : Tape} (hc : HIRM.mk' schema t = .ok (H, t')) : From b H := by
  have pass : ∀ (l : List (String × RelSpec F)) (H : HIRM F) (a p : Bool) (t : Tape) (x : HIRM F × Bool × Bool × Tape),
      Skel H ∧ From b H → HIRM.addPass l H a p t = .ok x → Skel x.1 ∧ From b x.1 := by
    intro l
    induction l with
    | nil => intro H a p t x h hc; cases hc; exact h
    | cons e l ih =>
      obtain ⟨name, spec⟩ := e
      intro H a p t x h hc
      unfold HIRM.addPass at hc
      split at hc
      · exact ih _ _ _ _ _ h hc
      · cases spec with
        | clean c ds o =>
          obtain ⟨⟨H1, t1⟩, h1, h2⟩ := bind_ok.mp hc
          exact ih _ _ _ _ _ ⟨addRelation_skel h.1 h1, h.2.add hb h.1 h1⟩ h2
        | noisy e ds b o =>
          dsimp only at hc
          split at hc
          · obtain ⟨⟨H1, t1⟩, h1, h2⟩ := bind_ok.mp hc
            exact ih _ _ _ _ _ ⟨addRelation_skel h.1 h1, h.2.add hb h.1 h1⟩ h2
          · exact ih _ _ _ _ _ h hc
  have passes : ∀ (k : Nat) (H : HIRM F) (t : Tape) (x : HIRM F × Tape), Skel H ∧ From b H → HIRM.addPasses schema k H t = .ok x → From b x.1 := by
    intro k
    induction k with
    | zero => intro H t x _ hc; cases hc
    | succ k ih =>
      intro H t x h hc
      obtain ⟨⟨H1, a, p, t1⟩, h1, h2⟩ := bind_ok.mp hc
      have := pass _ _ _ _ _ _ h h1
      dsimp only at h2
      split at h2
      · cases h2; exact this.2
      · split at h2
        · cases h2
        · exact ih _ _ _ this h2
  exact passes _ _ _ _ ⟨skel_empty, fun i tb h => by cases h⟩ hc

end HIRM
end
end Verif
