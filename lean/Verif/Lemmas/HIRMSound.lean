import Verif.Lemmas.IRMSound
import Verif.Lemmas.HIRMTidy
/-! Every IRM of an HIRM keeps the invariant of `IRM.Sound` under all operations of the HIRM. -/
namespace Verif
namespace HIRM
noncomputable section
variable {V : Type} {F : Family V}

/-- every IRM is sound -/
def Firm (H : HIRM F) : Prop := ∀ tb I, H.irms.find? tb = some I → I.Sound

theorem Firm.setIrm {H : HIRM F} (h : H.Firm) {tb : Int} {I : IRM F} (hI : I.Sound) : Firm { H with irms := H.irms.set tb I } := by
  intro u J hJ
  replace hJ : (H.irms.set tb I).find? u = some J := hJ
  rw [FMap.find?_set] at hJ
  split at hJ
  · cases hJ; exact hI
  · exact h u J hJ

/-- one relation changes in place, with the same tuples or fewer -/
theorem Firm.setRel {H : HIRM F} (h : H.Firm) {tb : Int} {I : IRM F} (hI : H.irms.find? tb = some I) {r : String} {id id' : Nat} {rel rel' : Rel F}
    (hr : I.rels.find? r = some (id, rel)) (hn : Rel.Next rel rel') (hk : ∀ k, rel'.data.contains k = true → rel.data.contains k = true) :
    Firm { H with irms := H.irms.set tb { I with rels := I.rels.set r (id', rel') } } :=
  h.setIrm ((h tb I hI).put hr hn (.refl _) (h tb I hI).doms (fun k hc => .inl (hk k hc)))

theorem Firm.incorporate {H H' : HIRM F} (h : H.Firm) {r : String} {items : Items} {v : V} {t t' : Tape}
    (hc : H.incorporate r items v t = .ok (H', t')) : H'.Firm := by
  obtain ⟨⟨tb, I⟩, h1, h2⟩ := bind_ok.mp hc
  obtain ⟨⟨I', t1⟩, h3, h4⟩ := bind_ok.mp h2
  cases h4
  exact h.setIrm ((h tb I (relationToIrm_ok.mp h1).2).incorporate h3)

theorem Firm.takeOut {H H' : HIRM F} (h : H.Firm) {r : String} {items : Items} {lp : WithBot ℝ} {v : V} (hc : H.takeOut r items = .ok (lp, v, H')) : H'.Firm := by
  obtain ⟨⟨tb, I⟩, h1, h2⟩ := bind_ok.mp hc
  obtain ⟨⟨id, rel⟩, h3, h4⟩ := bind_ok.mp h2
  obtain ⟨⟨lp', v', rel'⟩, h5, h6⟩ := bind_ok.mp h4
  cases h6
  obtain ⟨a, b, _⟩ := Rel.takeOut_next h5
  refine h.setRel (relationToIrm_ok.mp h1).2 (FMap.atKey_ok.mp h3) a (fun k hk => ?_)
  rw [b, FMap.contains_iff_mem, FMap.keys_erase_mem] at hk
  exact FMap.contains_iff_mem.mpr hk.2

theorem Firm.sampleOne {H H' : HIRM F} (h : H.Firm) {r : String} {items : Items} {v : V} {t t' : Tape} (hc : H.sampleOne r items t = .ok (v, H', t')) : H'.Firm := by
  obtain ⟨⟨tb, I⟩, h1, h2⟩ := bind_ok.mp hc
  obtain ⟨⟨id, rel⟩, h3, h4⟩ := bind_ok.mp h2
  obtain ⟨⟨v', σ, rel', t1⟩, h6, h7⟩ := bind_ok.mp h4
  cases h7
  have hI := h tb I (relationToIrm_ok.mp h1).2
  have hr := FMap.atKey_ok.mp h3
  obtain ⟨a, b⟩ := Rel.sampleAndIncorporate_next h6
  obtain ⟨c, e⟩ := Rel.sampleAndIncorporate_seats h6
  refine h.setIrm (hI.put hr a c (Rel.sampleAndIncorporate_keeps (Q := fun _ _ => True) tidyDom_closed h6 (fun _ _ => trivial) hI.doms) (fun k hk => ?_))
  rw [b, FMap.contains_iff_mem, FMap.keys_set_mem] at hk
  rcases hk with rfl | hk
  · refine .inr ?_
    have := (hI.tidy r _ hr).1.inner
    rw [← this]
    exact e
  · exact .inl (FMap.contains_iff_mem.mpr hk)

theorem Firm.cleanup : ∀ (l : List String) (H H' : HIRM F), H.Firm → cleanupLoop l H = .ok H' → H'.Firm := by
  intro l
  induction l with
  | nil => intro H H' h hc; cases hc; exact h
  | cons r l ih =>
    intro H H' h hc
    obtain ⟨⟨tb, I⟩, h1, h2⟩ := bind_ok.mp hc
    obtain ⟨⟨id, rel⟩, h3, h4⟩ := bind_ok.mp h2
    obtain ⟨a, b⟩ := Rel.cleanupClusters_next rel
    exact ih _ _ (h.setRel (relationToIrm_ok.mp h1).2 (FMap.atKey_ok.mp h3) a (fun k hk => by rw [← b]; exact hk)) h4

theorem Firm.cleanupRelationClusters {H H' : HIRM F} (h : H.Firm) (hc : H.cleanupRelationClusters = .ok H') : H'.Firm := Firm.cleanup _ _ _ h hc

theorem Firm.updateLoop {r : String} : ∀ (l : List String) (H H' : HIRM F), H.Firm → updateLoop r l H = .ok H' → H'.Firm := by
  intro l
  induction l with
  | nil => intro H H' h hc; cases hc; exact h
  | cons n l ih =>
    intro H H' h hc
    obtain ⟨⟨tb, I⟩, h1, h2⟩ := bind_ok.mp hc
    obtain ⟨⟨id, rel⟩, h3, h4⟩ := bind_ok.mp h2
    cases rel with
    | clean c q => cases h4
    | noisy e p q =>
      obtain ⟨⟨p', _⟩, _, h5⟩ := bind_ok.mp h4
      exact ih _ _ (h.setRel (relationToIrm_ok.mp h1).2 (FMap.atKey_ok.mp h3) (rel' := .noisy e p' q) ⟨rfl, fun h => h⟩ (fun _ h => h)) h5

theorem Firm.updateBase {H H' : HIRM F} (h : H.Firm) {r : String} (hc : H.updateBase r = .ok H') : H'.Firm := by
  unfold HIRM.updateBase at hc
  split at hc
  · cases hc; exact h
  · exact Firm.updateLoop _ _ _ h hc

theorem Firm.stepIrms : ∀ (l : List Int) (H : HIRM F) (t : Tape) (x : HIRM F × Tape), H.Firm → stepIrms l H t = .ok x → x.1.Firm := by
  intro l
  induction l with
  | nil => intro H t x h hc; cases hc; exact h
  | cons tb l ih =>
    intro H t x h hc
    obtain ⟨I, h1, h2⟩ := bind_ok.mp hc
    obtain ⟨⟨I', t1⟩, h3, h4⟩ := bind_ok.mp h2
    exact ih _ _ _ (h.setIrm ((h tb I (FMap.atKey_ok.mp h1)).singleStep h3)) h4

/-! ### Resampling a latent value -/

/-- the same domains and lists, and the same tuples in every relation -/
structure _root_.Verif.IRM.Mild (I I' : IRM F) : Prop where
  doms : I'.doms = I.doms
  index : I'.domToRels = I.domToRels
  keys : ∀ n x y, I.rels.find? n = some x → I'.rels.find? n = some y → ∀ k, y.2.data.contains k = x.2.data.contains k

/-- the same for every IRM -/
def Mild (H H' : HIRM F) : Prop := ∀ tb I I', H.irms.find? tb = some I → H'.irms.find? tb = some I' → I.Mild I'

theorem Mild.refl (H : HIRM F) : Mild H H := fun tb I I' h h' => by
  rw [h] at h'; cases h'
  exact ⟨rfl, rfl, fun n x y hx hy k => by rw [hx] at hy; cases hy; rfl⟩

theorem Mild.put {H₀ H : HIRM F} (h : Mild H₀ H) {tb : Int} {I₀ I : IRM F} (hI₀ : H₀.irms.find? tb = some I₀) (hI : H.irms.find? tb = some I) {r : String}
    {x : Nat × Rel F} {y : Nat × Rel F} (hx : I₀.rels.find? r = some x) (hk : ∀ k, y.2.data.contains k = x.2.data.contains k) :
    Mild H₀ { H with irms := H.irms.set tb { I with rels := I.rels.set r y } } := by
  intro u J J' hJ hJ'
  replace hJ' : (H.irms.set tb { I with rels := I.rels.set r y }).find? u = some J' := hJ'
  rw [FMap.find?_set] at hJ'
  split at hJ'
  · rename_i e
    subst e
    cases hJ'
    rw [hI₀] at hJ; cases hJ
    have k := h _ _ _ hI₀ hI
    refine ⟨k.doms, k.index, fun n x' y' hx' hy' => ?_⟩
    replace hy' : (I.rels.set r y).find? n = some y' := hy'
    rw [FMap.find?_set] at hy'
    split at hy'
    · rename_i e
      subst e
      cases hy'
      rw [hx] at hx'; cases hx'
      exact hk
    · exact k.keys n x' y' hx' hy'
  · exact h u J J' hJ hJ'

theorem storeNoisy_mild {p : Ptr} {H₀ : HIRM F} : ∀ (l : List (LatentNoisy F)) (H H' : HIRM F), Next (fun _ => True) H₀ H → Mild H₀ H → (∀ x ∈ l, Held H₀ p x) →
    storeNoisy p l H = .ok H' → Mild H₀ H' := by
  intro l
  induction l with
  | nil => intro H H' _ h _ hc; cases hc; exact h
  | cons x l ih =>
    intro H H' hn h hl hc
    obtain ⟨⟨tb, I⟩, h1, h2⟩ := bind_ok.mp hc
    obtain ⟨⟨id, rel⟩, h3, h4⟩ := bind_ok.mp h2
    obtain ⟨tb₀, I₀, y, k1, k2, k3, k4, k5⟩ := hl x (by simp)
    have hstep : Next (fun _ => True) H₀ { H with irms := H.irms.set tb { I with rels := I.rels.set x.name (id, .noisy x.e p x.r) } } := by
      refine storeNoisy_next [x] H _ hn (fun z hz => hl z (by simp at hz; simp [hz])) ?_
      unfold storeNoisy
      rw [h1]
      simp only [bind, Except.bind]
      rw [h3]
      rfl
    obtain ⟨hT, hI⟩ := relationToIrm_ok.mp h1
    rw [hn.tableOf, k1] at hT
    cases hT
    exact ih _ _ hstep (h.put k2 hI k3 (fun k => by rw [← k5]; rfl)) (fun z hz => hl z (by simp [hz])) h4

theorem Firm.latent {H H' : HIRM F} (h : H.Firm) {r : String} {t t' : Tape} (hc : H.transitionLatentRelation r t = .ok (H', t')) : H'.Firm := by
  have hn := transitionLatentRelation_next hc
  obtain ⟨⟨tb, I⟩, h1, h2⟩ := bind_ok.mp hc
  obtain ⟨⟨id, rel⟩, h3, h4⟩ := bind_ok.mp h2
  obtain ⟨_, _, h5⟩ := bind_ok.mp h4
  obtain ⟨ns, hns, h6⟩ := bind_ok.mp h5
  obtain ⟨⟨base, noisy, t₁⟩, hl, h7⟩ := bind_ok.mp h6
  obtain ⟨_, h8, h9⟩ := bind_ok.mp h7
  cases h9
  obtain ⟨a, b⟩ := Latent.latentLoop_steps _ _ _ _ _ hl
  have hk := Latent.latentLoop_keys _ _ _ _ _ hl
  obtain ⟨hT, hI⟩ := relationToIrm_ok.mp h1
  have hm : Mild H H' := by
    refine storeNoisy_mild _ _ _ (Next.setRel hI (id, base.rel) (FMap.atKey_ok.mp h3) a (fun h => absurd trivial h))
      ((Mild.refl H).put hI hI (FMap.atKey_ok.mp h3) hk) ?_ h8
    intro x hx
    obtain ⟨y, hy, hs⟩ := b x hx
    exact (noisyOf_held hns y ((shuffle_perm _ _).mem_iff.mp hy)).step hs
  intro u J' hJ'
  cases hJ : H.irms.find? u with
  | none => rw [hn.none u hJ] at hJ'; cases hJ'
  | some J =>
    obtain ⟨J₁, q1, q2⟩ := hn.some u J hJ
    rw [hJ'] at q1; cases q1
    have m := hm u J J' hJ hJ'
    exact (h u J hJ).next q2 ⟨m.index, by rw [m.doms]; exact .refl _⟩ (fun h => by rw [m.doms]; exact h) (fun n x y hx hy k hk => .inl (by rw [← m.keys n x y hx hy]; exact hk))

theorem Firm.latentSweep : ∀ (l : List String) (H : HIRM F) (t : Tape) (x : HIRM F × Tape), H.Firm → latentSweep l H t = .ok x → x.1.Firm := by
  intro l
  induction l with
  | nil => intro H t x h hc; cases hc; exact h
  | cons r l ih =>
    intro H t x h hc
    obtain ⟨spec, hsp, hc⟩ := bind_ok.mp hc
    split at hc
    · obtain ⟨⟨H₁, t₁⟩, h1, hc⟩ := bind_ok.mp hc
      exact ih _ _ _ (h.latent h1) hc
    · exact ih _ _ _ h hc

/-! ### Moving a relation -/

theorem addRelationToIrm_sound {H : HIRM F} {I I' : IRM F} {r : String} {spec : RelSpec F} (hc : H.addRelationToIrm I r spec = .ok I') (h : I.Sound) :
    I'.Sound := by
  cases spec with
  | clean c ds o => exact h.addClean hc
  | noisy e ds b o =>
    obtain ⟨⟨p, _⟩, _, hc⟩ := bind_ok.mp hc
    exact h.addWithBase hc

theorem _root_.Verif.IRM.Sound.fill {env : Env V} {r : String} : ∀ (l : List (Items × V)) (I : IRM F) (t : Tape) (x : IRM F × Tape), I.Sound →
    fill env r l I t = .ok x → x.1.Sound := by
  intro l
  induction l with
  | nil => intro I t x h hc; cases hc; exact h
  | cons e l ih =>
    intro I t x h hc
    obtain ⟨⟨I', t1⟩, h1, h2⟩ := bind_ok.mp hc
    exact ih _ _ _ (h.incorporate h1) h2

theorem putRelation_sound {H : HIRM F} {I I' : IRM F} {r : String} {spec : RelSpec F} {data : FMap Items V} {t t' : Tape}
    (hc : H.putRelation I r spec data t = .ok (I', t')) (h : I.Sound) : I'.Sound := by
  obtain ⟨I1, h1, h2⟩ := bind_ok.mp hc
  exact (addRelationToIrm_sound h1 h).fill _ _ _ _ h2

theorem scoreTables_sound {r : String} {cur : Int} {spec : RelSpec F} {data : FMap Items V} :
    ∀ (l : List (Int × ℝ)) (H : HIRM F) (aux : Option (Int × IRM F)) (t : Tape) (lps : List (Int × ℝ)) (H' : HIRM F)
      (aux' : Option (Int × IRM F)) (t' : Tape), (∀ tb I, H.irms.find? tb = some I → I.Sound) → (∀ tb I, aux = some (tb, I) → I.Sound) →
      scoreTables r cur spec data l H aux t = .ok (lps, H', aux', t') →
      (∀ tb I, H'.irms.find? tb = some I → I.Sound) ∧ (∀ tb I, aux' = some (tb, I) → I.Sound) := by
  intro l
  induction l with
  | nil => intro H aux t lps H' aux' t' h ha hc; cases hc; exact ⟨h, ha⟩
  | cons e l ih =>
    obtain ⟨tb, w⟩ := e
    intro H aux t lps H' aux' t' h ha hc
    -- the rest of the loop, once the IRM of the table is known
    have rest : ∀ (I : IRM F) (H₁ : HIRM F) (t₁ : Tape), I.Sound → H₁.irms = H.irms →
        ∀ (H₂ : HIRM F) (aux₂ : Option (Int × IRM F)) (x : List (Int × ℝ) × HIRM F × Option (Int × IRM F) × Tape),
        (H₂, aux₂) = (if H.irms.contains tb then ({ H₁ with irms := H₁.irms.set tb I }, aux) else (H₁, some (tb, I))) →
        scoreTables r cur spec data l H₂ aux₂ t₁ = .ok x → (∀ tb I, x.2.1.irms.find? tb = some I → I.Sound) ∧ (∀ tb I, x.2.2.1 = some (tb, I) → I.Sound) := by
      intro I H₁ t₁ hI hH H₂ aux₂ x he hx
      obtain ⟨_, _, _, _⟩ := x
      refine ih _ _ _ _ _ _ _ ?_ ?_ hx
      · split at he
        · cases he
          intro u J hJ
          change (H₁.irms.set tb I).find? u = some J at hJ
          rw [FMap.find?_set] at hJ
          split at hJ
          · cases hJ; exact hI
          · rw [hH] at hJ; exact h u J hJ
        · cases he
          rw [hH]; exact h
      · split at he
        · cases he; exact ha
        · cases he
          intro u J hJ
          cases hJ
          exact hI
    unfold scoreTables at hc
    dsimp only at hc
    have key : ∀ (I : IRM F), I.Sound → (do
        let (I, H', t) ← if tb ≠ cur then do
            let (I, t) ← H.putRelation I r spec data t
            .ok (I, { H with next := H.next + 1 }, t)
          else Except.ok (I, H, t)
        let (_, rel) ← I.rels.atKey r
        let lp := Real.log w + rel.logpScore
        let (H', aux) := if H.irms.contains tb then ({ H' with irms := H'.irms.set tb I }, aux) else (H', some (tb, I))
        let (lps, H', aux, t) ← scoreTables r cur spec data l H' aux t
        .ok ((tb, lp) :: lps, H', aux, t)) = .ok (lps, H', aux', t') →
        (∀ tb I, H'.irms.find? tb = some I → I.Sound) ∧ (∀ tb I, aux' = some (tb, I) → I.Sound) := by
      intro I hI hc
      dsimp only at hc
      by_cases hcur : tb = cur
      · rw [if_neg (by simpa using hcur)] at hc
        obtain ⟨x, h5, hc⟩ := bind_ok.mp hc
        cases h5
        obtain ⟨_, _, hc⟩ := bind_ok.mp hc
        by_cases hcon : H.irms.contains tb = true
        · simp only [hcon, if_true] at hc
          obtain ⟨x, h6, hc⟩ := bind_ok.mp hc
          cases hc
          exact rest I H t hI rfl _ _ x (by rw [if_pos hcon]) h6
        · simp only [hcon, if_false, Bool.false_eq_true] at hc
          obtain ⟨x, h6, hc⟩ := bind_ok.mp hc
          cases hc
          exact rest I H t hI rfl _ _ x (by rw [if_neg hcon]) h6
      · rw [if_pos (by simpa using hcur)] at hc
        obtain ⟨⟨I1, t1⟩, h3, hc⟩ := bind_ok.mp hc
        obtain ⟨x, h5, hc⟩ := bind_ok.mp hc
        cases h5
        obtain ⟨_, _, hc⟩ := bind_ok.mp hc
        by_cases hcon : H.irms.contains tb = true
        · simp only [hcon, if_true] at hc
          obtain ⟨x, h6, hc⟩ := bind_ok.mp hc
          cases hc
          exact rest I1 { H with next := H.next + 1 } t1 (putRelation_sound h3 hI) rfl _ _ x (by rw [if_pos hcon]) h6
        · simp only [hcon, if_false, Bool.false_eq_true] at hc
          obtain ⟨x, h6, hc⟩ := bind_ok.mp hc
          cases hc
          exact rest I1 { H with next := H.next + 1 } t1 (putRelation_sound h3 hI) rfl _ _ x (by rw [if_neg hcon]) h6
    cases hI : H.irms.find? tb with
    | some I =>
      rw [hI] at hc
      obtain ⟨J, h1, hc⟩ := bind_ok.mp hc
      cases h1
      exact key I (h tb I hI) hc
    | none =>
      rw [hI] at hc
      obtain ⟨_, _, hc⟩ := bind_ok.mp hc
      obtain ⟨J, h1, hc⟩ := bind_ok.mp hc
      cases h1
      exact key {} .empty hc

theorem dropOthers_sound {r : String} {cur choice : Int} {crp : CRP} : ∀ (l : List Int) (m m' : FMap Int (IRM F)), (∀ tb I, m.find? tb = some I → I.Sound) →
    dropOthers r cur choice crp l m = .ok m' → ∀ tb I, m'.find? tb = some I → I.Sound := by
  intro l
  induction l with
  | nil => intro m m' h hc; cases hc; exact h
  | cons tb l ih =>
    intro m m' h hc
    unfold dropOthers at hc
    obtain ⟨I, h1, h2⟩ := bind_ok.mp hc
    have hI := h tb I (FMap.atKey_ok.mp h1)
    dsimp only at h2
    have key : ∀ I1 : IRM F, I1.Sound →
        (if I1.rels.size = 0 then do
            let s ← crp.tables.atKey tb
            assertR (decide (s.size = 1))
            assertR (decide (tb = cur))
            dropOthers r cur choice crp l (m.erase tb)
          else dropOthers r cur choice crp l (m.set tb I1)) = .ok m' → ∀ tb I, m'.find? tb = some I → I.Sound := by
      intro I1 hI1 hc
      split at hc
      · obtain ⟨_, _, hc⟩ := bind_ok.mp hc
        obtain ⟨_, _, hc⟩ := bind_ok.mp hc
        obtain ⟨_, _, hc⟩ := bind_ok.mp hc
        refine ih _ _ (fun u J hJ => ?_) hc
        rw [FMap.find?_erase] at hJ
        split at hJ
        · cases hJ
        · exact h u J hJ
      · refine ih _ _ (fun u J hJ => ?_) hc
        rw [FMap.find?_set] at hJ
        split at hJ
        · cases hJ; exact hI1
        · exact h u J hJ
    split at h2
    · obtain ⟨_, _, h2⟩ := bind_ok.mp h2
      obtain ⟨J, h3, h2⟩ := bind_ok.mp h2
      exact key J (hI.remove h3) h2
    · obtain ⟨J, h3, h2⟩ := bind_ok.mp h2
      cases h3
      exact key _ hI h2

theorem Firm.transitionRelation {H H' : HIRM F} (h : H.Firm) {r : String} {t t' : Tape} (hc : H.transitionRelation r t = .ok (H', t')) : H'.Firm := by
  obtain ⟨rc, h1, hc⟩ := bind_ok.mp hc
  obtain ⟨cur, h2, hc⟩ := bind_ok.mp hc
  obtain ⟨⟨p, rel⟩, h0, hc⟩ := bind_ok.mp hc
  obtain ⟨spec, h3, hc⟩ := bind_ok.mp hc
  obtain ⟨w, _, hc⟩ := bind_ok.mp hc
  obtain ⟨⟨lps, H1, aux, t1⟩, h4, hc⟩ := bind_ok.mp hc
  obtain ⟨ch, h5, hc⟩ := bind_ok.mp hc
  obtain ⟨H2, h6, hc⟩ := bind_ok.mp hc
  cases hc
  obtain ⟨m, h7, hc⟩ := bind_ok.mp h6
  obtain ⟨c1, h8, hc⟩ := bind_ok.mp hc
  obtain ⟨c2, h9, hc⟩ := bind_ok.mp hc
  obtain ⟨_, _, hc⟩ := bind_ok.mp hc
  obtain ⟨k1, k2⟩ := scoreTables_sound _ _ _ _ _ _ _ _ h (fun _ _ h => by cases h) h4
  have k3 := dropOthers_sound _ _ _ k1 h7
  refine Firm.updateBase ?_ hc
  intro u J hJ
  replace hJ : (withAux aux ch.1 m).find? u = some J := hJ
  unfold withAux at hJ
  split at hJ
  · rename_i tb' I'
    split at hJ
    · rw [FMap.find?_set] at hJ
      split at hJ
      · cases hJ; exact k2 _ _ rfl
      · exact k3 u J hJ
    · exact k3 u J hJ
  · exact k3 u J hJ

theorem Firm.transitionRelations : ∀ (l : List String) (H : HIRM F) (t : Tape) (x : HIRM F × Tape), H.Firm → transitionRelations l H t = .ok x → x.1.Firm := by
  intro l
  induction l with
  | nil => intro H t x h hc; cases hc; exact h
  | cons r l ih =>
    intro H t x h hc
    obtain ⟨⟨H₁, t₁⟩, h1, hc⟩ := bind_ok.mp hc
    exact ih _ _ _ (h.transitionRelation h1) hc

theorem Firm.inferenceStep {H H' : HIRM F} (h : H.Firm) {t t' : Tape} (hc : H.inferenceStep t = .ok (H', t')) : H'.Firm := by
  obtain ⟨⟨H₁, t₁⟩, h1, hc⟩ := bind_ok.mp hc
  obtain ⟨⟨H₂, t₂⟩, h2, hc⟩ := bind_ok.mp hc
  exact Firm.stepIrms _ _ _ _ (Firm.transitionRelations _ _ _ _ (Firm.latentSweep _ _ _ _ h h1) h2) hc

theorem Firm.inference : ∀ (k : Nat) (H : HIRM F) (t : Tape) (x : HIRM F × Tape), H.Firm → inference k H t = .ok x → x.1.Firm := by
  intro k
  induction k with
  | zero => intro H t x h hc; cases hc; exact h
  | succ k ih =>
    intro H t x h hc
    obtain ⟨⟨H₁, t₁⟩, h1, hc⟩ := bind_ok.mp hc
    exact ih _ _ _ (h.inferenceStep h1) hc

theorem Firm.sampleRelation : ∀ (k : Nat) (H : HIRM F) (r : String) (items : Items) (t : Tape) (x : V × HIRM F × Tape), H.Firm →
    sampleRelation k H r items t = .ok x → x.2.1.Firm := by
  intro k
  induction k with
  | zero => intro H r items t x h hc; cases hc
  | succ k ih =>
    intro H r items t x h hc
    obtain ⟨spec, hsp, h1⟩ := bind_ok.mp hc
    dsimp only at h1
    cases spec with
    | clean c ds o =>
      obtain ⟨y, h2, h3⟩ := bind_ok.mp h1
      cases h2
      exact h.sampleOne h3
    | noisy e ds base o =>
      obtain ⟨⟨p, rel⟩, _, h2⟩ := bind_ok.mp h1
      obtain ⟨b, _, h3⟩ := bind_ok.mp h2
      obtain ⟨bi, _, h4⟩ := bind_ok.mp h3
      split at h4
      · obtain ⟨y, h5, h6⟩ := bind_ok.mp h4
        cases h5
        exact h.sampleOne h6
      · obtain ⟨⟨v, H1, t1⟩, h5, h6⟩ := bind_ok.mp h4
        obtain ⟨y, h7, h8⟩ := bind_ok.mp h6
        cases h7
        exact Firm.sampleOne (ih _ _ _ _ _ h h5) h8

/-! ### The constructor -/

theorem addRelation_sound {H H' : HIRM F} {name : String} {spec : RelSpec F} {t t' : Tape} (hc : H.addRelation name spec t = .ok (H', t'))
    (h : ∀ tb I, H.irms.find? tb = some I → I.Sound) : ∀ tb I, H'.irms.find? tb = some I → I.Sound := by
  unfold addRelation at hc
  obtain ⟨_, _, hc⟩ := bind_ok.mp hc
  dsimp only at hc
  obtain ⟨crp, _, hc⟩ := bind_ok.mp hc
  have h' : ∀ tb I, (if H.irms.contains (H.crp.sample t).1 then H.irms else H.irms.set (H.crp.sample t).1 {}).find? tb = some I → I.Sound := by
    intro tb I hI
    split at hI
    · exact h tb I hI
    · rw [FMap.find?_set] at hI
      split at hI
      · cases hI; exact IRM.Sound.empty
      · exact h tb I hI
  have key : ∀ {btn : FMap String (List String)} {I I' : IRM F} {sp : RelSpec F} {irms : FMap Int (IRM F)}, (∀ tb I, irms.find? tb = some I → I.Sound) →
      irms.find? (H.crp.sample t).1 = some I →
      ({ schema := FMap.set H.schema name sp, irms := irms, relToCode := H.relToCode, codeToRel := H.codeToRel, baseToNoisy := btn, crp := crp, next := H.next } :
        HIRM F).addRelationToIrm I name sp = .ok I' → ∀ tb J, (irms.set (H.crp.sample t).1 I').find? tb = some J → J.Sound := by
    intro btn I I' sp irms hall h1 h2 tb J hJ
    rw [FMap.find?_set] at hJ
    split at hJ
    · cases hJ
      exact addRelationToIrm_sound h2 (hall _ _ h1)
    · exact hall tb J hJ
  cases spec with
  | clean c ds o =>
    obtain ⟨btn, _, hc⟩ := bind_ok.mp hc
    obtain ⟨I, h1, hc⟩ := bind_ok.mp hc
    obtain ⟨I', h2, hc⟩ := bind_ok.mp hc
    obtain ⟨_, _, hc⟩ := bind_ok.mp hc
    obtain ⟨_, _, hc⟩ := bind_ok.mp hc
    cases hc
    exact key h' (FMap.atKey_ok.mp h1) h2
  | noisy e ds b o =>
    dsimp only at hc
    split at hc
    · obtain ⟨_, _, hc⟩ := bind_ok.mp hc
      cases hc
    · obtain ⟨btn, _, hc⟩ := bind_ok.mp hc
      obtain ⟨I, h1, hc⟩ := bind_ok.mp hc
      obtain ⟨I', h2, hc⟩ := bind_ok.mp hc
      obtain ⟨_, _, hc⟩ := bind_ok.mp hc
      obtain ⟨_, _, hc⟩ := bind_ok.mp hc
      cases hc
      exact key h' (FMap.atKey_ok.mp h1) h2

theorem mk'_sound {schema : Schema F} {H : HIRM F} {t t' : Tape} (hc : mk' schema t = .ok (H, t')) : H.Firm :=
  mk'_all (P := fun H => ∀ tb I, H.irms.find? tb = some I → I.Sound) (fun _ _ h => by cases h) (fun h h' => addRelation_sound h' h) hc

end
end HIRM
end Verif
