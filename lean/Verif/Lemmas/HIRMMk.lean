import Verif.Lemmas.HIRM
import Verif.Lemmas.IRMMk
/-! Helper lemmas: when `add_relation` of an HIRM succeeds, and which schemas the constructor accepts. -/
namespace Verif
open Spec
noncomputable section
variable {V : Type} {F : Family V}

namespace IRM

/-- add a relation object with the given identity and, if it is noisy, the given base pointer -/
def addObj (id : Nat) (I : IRM F) (name : String) (p : Ptr) : RelSpec F → Res (IRM F)
  | .clean c ds o => addClean id I name c ds o
  | .noisy e ds b o => addWithBase id I name e ds b o p

theorem addObj_skel {I : IRM F} (h : Skel I) (id : Nat) {name : String} {spec : RelSpec F} (p : Ptr) (hf : I.rels.contains name = false)
    (hd : spec.doms ≠ []) (hp : ∀ b, spec.base? = some b → p.name = b) :
    ∃ I' rel, addObj id I name p spec = .ok I' ∧ Skel I' ∧ I'.rels = I.rels.set name (id, rel) ∧ spec.Matches rel := by
  have hs : I.schema.contains name = false := (h.keys name).trans hf
  obtain ⟨σ', m', h1, h2, h3⟩ := addDomains_ok (name := name) spec.doms I h.names
  have hnames : ∀ d, m'.contains d = σ'.contains d := by
    intro d
    have := h.names d
    simp only [FMap.contains, h2, h3] at this ⊢
    by_cases hm : d ∈ spec.doms
    · cases hx : I.doms.find? d <;> simp [hm]
    · simp [hm, this]
  have hkeys : ∀ (sp : RelSpec F) (x : Nat × Rel F) n, (I.schema.set name sp).contains n = (I.rels.set name x).contains n := by
    intro sp x n
    have := h.keys n
    simp only [FMap.contains, FMap.find?_set] at this ⊢
    split <;> simp [this]
  cases spec with
  | clean c ds o =>
    obtain ⟨r, hr⟩ := CleanRel.mk'_total (D := (F.dist c).toDistOps) hd
    obtain ⟨_, hr'⟩ := CleanRel.mk'_ok hr
    simp only [RelSpec.doms] at h1 hr
    refine ⟨{ I with doms := σ', domToRels := m', rels := I.rels.set name (id, .clean c r), schema := I.schema.set name (.clean c ds o) },
      .clean c r, ?_, ⟨hnames, hkeys _ _⟩, rfl, ⟨rfl, by rw [hr']; rfl, rfl⟩⟩
    simp [addObj, addClean, bind, Except.bind, assertR, hs, hf, h1, hr]
  | noisy e ds base o =>
    obtain ⟨r, hr⟩ := NoisyRel.mk'_total (D := (F.emis e).toDistOps) hd
    simp only [RelSpec.doms] at h1 hr
    have hr' : r.doms = ds := by
      unfold NoisyRel.mk' at hr
      obtain ⟨_, _, h5⟩ := bind_ok.mp hr
      cases h5; rfl
    refine ⟨{ I with
        doms := σ', domToRels := m', rels := I.rels.set name (id, .noisy e p r),
        schema := I.schema.set name (.noisy e ds base o), baseToNoisy := I.baseToNoisy.set base ((I.baseToNoisy.find? base).getD [] ++ [name]) },
      .noisy e p r, ?_, ⟨hnames, hkeys _ _⟩, rfl, ⟨rfl, hr', by simp [Rel.base?, RelSpec.base?, hp base rfl]⟩⟩
    simp [addObj, addWithBase, bind, Except.bind, assertR, hs, hf, h1, hr]

theorem addObj_doms {I I' : IRM F} {id : Nat} {name : String} {spec : RelSpec F} {p : Ptr} (hc : addObj id I name p spec = .ok I') :
    spec.doms ≠ [] := by
  cases spec with
  | clean c ds o =>
    obtain ⟨_, _, h3⟩ := bind_ok.mp hc
    obtain ⟨_, _, h5⟩ := bind_ok.mp h3
    obtain ⟨I1, _, h6⟩ := bind_ok.mp h5
    obtain ⟨r, h7, _⟩ := bind_ok.mp h6
    rintro rfl
    cases h7
  | noisy e ds base o =>
    obtain ⟨_, _, h3⟩ := bind_ok.mp hc
    obtain ⟨_, _, h5⟩ := bind_ok.mp h3
    obtain ⟨I1, _, h6⟩ := bind_ok.mp h5
    obtain ⟨r, h7, _⟩ := bind_ok.mp h6
    rintro rfl
    cases h7

end IRM

namespace HIRM
open IRM

/-- `p` points to the base of the relation -/
def BasePtr (H : HIRM F) (spec : RelSpec F) (p : Ptr) : Prop :=
  ∀ b, spec.base? = some b → ∃ tb id rel, H.relOf b = some (tb, id, rel) ∧ p = { table := some tb, name := b, id := id }

theorem addRelationToIrm_eq {H : HIRM F} {I : IRM F} {r : String} {spec : RelSpec F} {p : Ptr} (hp : H.BasePtr spec p) :
    H.addRelationToIrm I r spec = addObj H.next I r p spec := by
  cases spec with
  | clean c ds o => rfl
  | noisy e ds b o =>
    obtain ⟨tb, id, rel, h1, rfl⟩ := hp b rfl
    have := getRelation_ok.mpr ⟨tb, id, h1, rfl⟩
    simp only [addRelationToIrm, this, bind, Except.bind, addObj]

theorem Skel.relOf {H : HIRM F} (h : Skel H) {n : String} (hn : H.schema.contains n = true) : ∃ tb id rel, H.relOf n = some (tb, id, rel) := by
  obtain ⟨tb, ht⟩ := h.table_some hn
  obtain ⟨I, hI, hr⟩ := h.irm ht
  obtain ⟨⟨id, rel⟩, hx⟩ := FMap.contains_iff.mp hr
  exact ⟨tb, id, rel, relOf_some.mpr ⟨ht, I, hI, hx⟩⟩

theorem Skel.basePtr {H : HIRM F} (h : Skel H) {spec : RelSpec F} (hb : ∀ b, spec.base? = some b → H.schema.contains b = true) :
    ∃ p, H.BasePtr spec p := by
  cases spec with
  | clean c ds o => exact ⟨⟨none, "", 0⟩, fun b hb => by cases hb⟩
  | noisy e ds b o =>
    obtain ⟨tb, id, rel, h1⟩ := h.relOf (hb b rfl)
    exact ⟨_, fun b' hb' => by cases hb'; exact ⟨tb, id, rel, h1, rfl⟩⟩

/-- the code that the next relation will get is new -/
theorem code_fresh (m : FMap Int String) : m.find? (1 + m.maxKey?.getD 0) = none := by
  cases hk : m.maxKey? with
  | none => rw [FMap.maxKey?_none.mp hk]; rfl
  | some k =>
    rw [FMap.find?_none_iff]
    intro hm
    rcases (FMap.maxKey?_spec hk).2 _ hm with h | h
    · simp at h
    · simp [Key.lt] at h

/-- the noisy relations of each base after adding a relation -/
def noisyNames (m : FMap String (List String)) (name : String) (spec : RelSpec F) : FMap String (List String) :=
  match spec.base? with
  | none => m
  | some b => m.set b ((m.find? b).getD [] ++ [name])

/-- `add_relation` for a new name whose base, if any, exists -/
theorem addRelation_eq {H : HIRM F} (h : Skel H) {name : String} {spec : RelSpec F} (hf : H.schema.contains name = false)
    {p : Ptr} (hp : H.BasePtr spec p) (t : Tape) :
    ∃ rc c', rc = 1 + H.codeToRel.maxKey?.getD 0 ∧ H.crp.incorporate rc (H.crp.sample t).1 = .ok c' ∧
      H.addRelation name spec t = (do
        let I ← addObj H.next ((H.irms.find? (H.crp.sample t).1).getD {}) name p spec
        .ok ({ schema := H.schema.set name spec, crp := c', irms := H.irms.set (H.crp.sample t).1 I,
               baseToNoisy := noisyNames H.baseToNoisy name spec, relToCode := H.relToCode.set name rc,
               codeToRel := H.codeToRel.set rc name, next := H.next + 1 }, (H.crp.sample t).2)) := by
  have hcode := code_fresh H.codeToRel
  have hnc : H.crp.assignments.find? (1 + H.codeToRel.maxKey?.getD 0) = none :=
    FMap.contains_false.mp ((h.seated _).trans (FMap.contains_false.mpr hcode))
  obtain ⟨c', hc'⟩ : ∃ c', H.crp.incorporate (1 + H.codeToRel.maxKey?.getD 0) (H.crp.sample t).1 = .ok c' := ⟨_, CRP.incorporate_eq hnc⟩
  obtain ⟨_, hass, _⟩ := crp_incorporate h.crp hc'
  refine ⟨_, c', rfl, hc', ?_⟩
  have hrc : H.relToCode.contains name = false := (h.schema name).symm.trans hf
  have hcc : H.codeToRel.contains (1 + H.codeToRel.maxKey?.getD 0) = false := FMap.contains_false.mpr hcode
  have key : ∀ btn : FMap String (List String), (do
      let H2 : HIRM F := { H with
        schema := H.schema.set name spec, crp := c', baseToNoisy := btn,
        irms := if H.irms.contains (H.crp.sample t).1 then H.irms else H.irms.set (H.crp.sample t).1 {} }
      let I ← H2.irms.atKey (H.crp.sample t).1
      let I ← H2.addRelationToIrm I name spec
      assertR (!H2.relToCode.contains name)
      assertR (!H2.codeToRel.contains (1 + H.codeToRel.maxKey?.getD 0))
      .ok ({ H2 with
        irms := H2.irms.set (H.crp.sample t).1 I, relToCode := H2.relToCode.set name (1 + H.codeToRel.maxKey?.getD 0),
        codeToRel := H2.codeToRel.set (1 + H.codeToRel.maxKey?.getD 0) name, next := H2.next + 1 }, (H.crp.sample t).2) : Res (HIRM F × Tape)) =
      (do
        let I ← addObj H.next ((H.irms.find? (H.crp.sample t).1).getD {}) name p spec
        .ok ({ schema := H.schema.set name spec, crp := c', irms := H.irms.set (H.crp.sample t).1 I,
               baseToNoisy := btn, relToCode := H.relToCode.set name (1 + H.codeToRel.maxKey?.getD 0),
               codeToRel := H.codeToRel.set (1 + H.codeToRel.maxKey?.getD 0) name, next := H.next + 1 }, (H.crp.sample t).2)) := by
    intro btn
    generalize H.crp.sample t = st at *
    obtain ⟨tb, t1⟩ := st
    have hpre : ∀ b tb' id rel, H.relOf b = some (tb', id, rel) →
        (HIRM.relOf { H with
          schema := H.schema.set name spec, crp := c', baseToNoisy := btn,
          irms := if H.irms.contains tb then H.irms else H.irms.set tb {} } b) = some (tb', id, rel) := by
      intro b tb' id rel hb
      obtain ⟨h1, I, h2, h3⟩ := relOf_some.mp hb
      refine relOf_some.mpr ⟨?_, I, ?_, h3⟩
      · unfold tableOf at h1 ⊢
        obtain ⟨c, h4, h5⟩ := Option.bind_eq_some_iff.mp h1
        dsimp only
        rw [h4, hass]
        show FMap.find? _ c = _
        rw [FMap.find?_set_ne _ (fun he => by rw [he, hnc] at h5; cases h5)]
        exact h5
      · dsimp only
        split
        · exact h2
        · rename_i hn
          rw [FMap.find?_set_ne _ (fun he => hn (by rw [← he, FMap.contains_iff]; exact ⟨_, h2⟩))]
          exact h2
    have hat : FMap.atKey (if H.irms.contains tb then H.irms else H.irms.set tb {}) tb = .ok ((H.irms.find? tb).getD {}) := by
      apply FMap.atKey_of_find
      split
      · rename_i hc
        obtain ⟨I, hI⟩ := FMap.contains_iff.mp hc
        rw [hI]; rfl
      · rename_i hn
        rw [FMap.find?_set_self, FMap.contains_false.mp (by simpa using hn)]; rfl
    have hset : ∀ I : IRM F, (if H.irms.contains tb then H.irms else H.irms.set tb {}).set tb I = H.irms.set tb I := by
      intro I
      split
      · rfl
      · rw [FMap.set_set]
    simp only [hat, bind, Except.bind]
    rw [addRelationToIrm_eq (p := p) (fun b hb => by
      obtain ⟨tb', id, rel, h1, h2⟩ := hp b hb
      exact ⟨tb', id, rel, hpre b _ _ _ h1, h2⟩)]
    cases addObj H.next ((H.irms.find? tb).getD {}) name p spec with
    | error e => rfl
    | ok I => simp only [hrc, hcc, Bool.not_false, assertR, if_true, hset]
  unfold addRelation
  simp only [hf, Bool.not_false, assertR, if_true, bind, Except.bind, hc']
  cases spec with
  | clean c ds o => exact key H.baseToNoisy
  | noisy e ds b o =>
    have hb : H.relToCode.contains b = true := by
      obtain ⟨tb, id, rel, h1, _⟩ := hp b rfl
      rw [← h.schema]
      exact tableOf_known h (relOf_some.mp h1).1
    simp only [hb, Bool.not_true]
    exact key _

theorem addRelation_tables {H H' : HIRM F} (h : Skel H) {name : String} {spec : RelSpec F} {t t' : Tape}
    (hc : H.addRelation name spec t = .ok (H', t')) : ∃ tb, H'.tableOf name = some tb ∧ ∀ n, n ≠ name → H'.tableOf n = H.tableOf n := by
  obtain ⟨_, _, _, rc, tb, I, c', J, _, _, h3, h4, hcr, h5, _, _⟩ := addRelation_inv hc
  obtain ⟨_, ha, _⟩ := crp_incorporate h.crp h4
  have h3' := FMap.contains_false.mp h3
  have hassign : ∀ c, H'.crp.assignments.find? c = if c = rc then some tb else H.crp.assignments.find? c := by
    intro c; rw [hcr, ha, FMap.find?_set]
  refine ⟨tb, ?_, fun n hn => ?_⟩
  · unfold tableOf
    rw [h5, FMap.find?_set_self]
    simp [hassign]
  · unfold tableOf
    rw [h5, FMap.find?_set_ne _ hn]
    cases hf : H.relToCode.find? n with
    | none => rfl
    | some c =>
      have : c ≠ rc := by
        rintro rfl
        rw [(h.codes n c).mp hf] at h3'; cases h3'
      simp [hassign, this]

/-- `add_relation` adds a relation without observations and leaves the observations of the others -/
theorem addRelation_data {H H' : HIRM F} (h : Skel H) {name : String} {spec : RelSpec F} {t t' : Tape}
    (hc : H.addRelation name spec t = .ok (H', t')) (n : String) : H'.dataOf n = if n = name then some ∅ else H.dataOf n := by
  have hs' := addRelation_skel h hc
  obtain ⟨tb1, ht1, htab⟩ := addRelation_tables h hc
  obtain ⟨_, _, h2, rc, tb, I, c', J, _, _, h3, h4, hcr, h5, _, hJ, hW, hir⟩ := addRelation_inv hc
  have hI : H'.irms.find? tb = some I := by rw [hir, FMap.find?_set_self]
  split
  · rename_i he
    subst he
    have hT : H'.tableOf n = some tb := (hs'.place tb I hI n).mp ((hW.rels n).mpr (.inl rfl))
    rw [dataOf_irm hI hT, hW.data, if_pos rfl]
  · rename_i hn
    cases hT : H.tableOf n with
    | none =>
      have hT' := (htab n hn).trans hT
      simp [HIRM.dataOf, HIRM.relOf, hT, hT']
    | some u =>
      have hT' := (htab n hn).trans hT
      obtain ⟨K, hK, _⟩ := h.irm hT
      by_cases hu : u = tb
      · subst hu
        rw [dataOf_irm hI hT', dataOf_irm hK hT, hW.data, if_neg hn, hJ, hK]; rfl
      · have hK' : H'.irms.find? u = some K := by rw [hir, FMap.find?_set_ne _ hu]; exact hK
        rw [dataOf_irm hK' hT', dataOf_irm hK hT]

/-! ### the constructor -/

/-- a state of the constructor -/
structure Built (schema : Schema F) (H : HIRM F) : Prop where
  skel : Skel H
  irms : ∀ tb I, H.irms.find? tb = some I → IRM.Skel I
  sub : ∀ n spec, H.schema.find? n = some spec → schema.find? n = some spec
  grounded : ∀ n, H.schema.contains n = true → Grounded schema n
  empty : ∀ n, H.schema.contains n = true → H.dataOf n = some ∅
  objs : ∀ tb I n id r, H.irms.find? tb = some I → I.rels.find? n = some (id, r) → ∃ spec, H.schema.find? n = some spec ∧ spec.Matches r

theorem built_empty (schema : Schema F) : Built schema ({} : HIRM F) where
  skel := skel_empty
  irms _ _ h := by cases h
  sub _ _ h := by cases h
  grounded _ h := by cases h
  empty _ h := by cases h
  objs _ _ _ _ _ h := by cases h

theorem Built.add {schema : Schema F} {H : HIRM F} (h : Built schema H) {name : String} {spec : RelSpec F} (hs : schema.find? name = some spec)
    (hf : H.schema.contains name = false) (hd : spec.doms ≠ []) (hb : ∀ b, spec.base? = some b → H.schema.contains b = true) (t : Tape) :
    ∃ H' t', H.addRelation name spec t = .ok (H', t') ∧ Built schema H' ∧ H'.schema = H.schema.set name spec := by
  obtain ⟨p, hp⟩ := h.skel.basePtr hb
  obtain ⟨rc, c', _, _, heq⟩ := addRelation_eq h.skel hf hp t
  have hJ : IRM.Skel ((H.irms.find? (H.crp.sample t).1).getD {}) := by
    cases hx : H.irms.find? (H.crp.sample t).1 with
    | none => exact IRM.skel_empty
    | some I => exact h.irms _ _ hx
  have hJf : ((H.irms.find? (H.crp.sample t).1).getD {}).rels.contains name = false := by
    cases hx : H.irms.find? (H.crp.sample t).1 with
    | none => rfl
    | some I =>
      rw [Bool.eq_false_iff]
      intro hc
      have := tableOf_known h.skel ((h.skel.place _ I hx name).mp hc)
      rw [hf] at this; cases this
  obtain ⟨I', rel, h1, h2, hrels, hmatch⟩ := addObj_skel hJ H.next p hJf hd (fun b hb => by
    obtain ⟨_, _, _, _, rfl⟩ := hp b hb; rfl)
  rw [h1] at heq
  refine ⟨_, _, heq, ?_, rfl⟩
  have hsk := addRelation_skel h.skel heq
  refine ⟨hsk, ?_, ?_, ?_, ?_, ?_⟩
  · intro tb I hI
    dsimp only at hI
    rw [FMap.find?_set] at hI
    split at hI
    · cases hI; exact h2
    · exact h.irms tb I hI
  · intro n sp hn
    dsimp only at hn
    rw [FMap.find?_set] at hn
    split at hn
    · rename_i he; cases hn; rw [he]; exact hs
    · exact h.sub n sp hn
  · intro n hn
    by_cases he : n = name
    · subst he
      cases hb' : spec.base? with
      | none => exact .clean hs hb'
      | some b => exact .noisy hs hb' (h.grounded b (hb b hb'))
    · refine h.grounded n ?_
      dsimp only at hn
      rw [FMap.contains, FMap.find?_set_ne _ he] at hn
      exact hn
  · intro n hn
    rw [addRelation_data h.skel heq]
    split
    · rfl
    · rename_i he
      refine h.empty n ?_
      dsimp only at hn
      rw [FMap.contains, FMap.find?_set_ne _ he] at hn
      exact hn
  · intro tb I n id r hI hn
    dsimp only at hI ⊢
    have hold : ∀ tb0 I0, H.irms.find? tb0 = some I0 → I0.rels.find? n = some (id, r) →
        ∃ sp, (H.schema.set name spec).find? n = some sp ∧ sp.Matches r := by
      intro tb0 I0 hI0 hn0
      obtain ⟨sp, h3, h4⟩ := h.objs tb0 I0 n id r hI0 hn0
      refine ⟨sp, ?_, h4⟩
      rw [FMap.find?_set_ne _ (fun he => ?_)]
      · exact h3
      · rw [he] at h3
        rw [FMap.contains, h3] at hf; cases hf
    rw [FMap.find?_set] at hI
    split at hI
    · cases hI
      rw [hrels, FMap.find?_set] at hn
      split at hn
      · rename_i he
        cases hn
        exact ⟨spec, by rw [he, FMap.find?_set_self], hmatch⟩
      · cases hx : H.irms.find? (H.crp.sample t).1 with
        | none => rw [hx] at hn; cases hn
        | some I0 => rw [hx] at hn; exact hold _ I0 hx hn
    · exact hold tb I hI hn

theorem addRelation_pre {H H' : HIRM F} {name : String} {spec : RelSpec F} {t t' : Tape}
    (hc : H.addRelation name spec t = .ok (H', t')) : spec.doms ≠ [] := by
  have key : ∀ {K : HIRM F} {I I' : IRM F}, K.addRelationToIrm I name spec = .ok I' → spec.doms ≠ [] := by
    intro K I I' h
    cases spec with
    | clean c ds o => exact addObj_doms (p := ⟨none, "", 0⟩) h
    | noisy e ds b o =>
      obtain ⟨⟨p, _⟩, _, h2⟩ := bind_ok.mp h
      exact addObj_doms (p := p) h2
  obtain ⟨_, _, hc⟩ := bind_ok.mp hc
  obtain ⟨c', _, hc⟩ := bind_ok.mp hc
  cases spec with
  | clean c ds o =>
    obtain ⟨b, hb, hc⟩ := bind_ok.mp hc
    obtain ⟨J, h3, hc⟩ := bind_ok.mp hc
    obtain ⟨I, h4, hc⟩ := bind_ok.mp hc
    exact key h4
  | noisy e ds b o =>
    dsimp only at hc
    split at hc
    · obtain ⟨_, _, hc⟩ := bind_ok.mp hc
      cases hc
    · obtain ⟨b, hb, hc⟩ := bind_ok.mp hc
      obtain ⟨J, h3, hc⟩ := bind_ok.mp hc
      obtain ⟨I, h4, hc⟩ := bind_ok.mp hc
      exact key h4

/-- what one pass does -/
structure Passed (schema : Schema F) (l : List (String × RelSpec F)) (H : HIRM F) (a p : Bool) (x : HIRM F × Bool × Bool × Tape) : Prop where
  built : Built schema x.1
  more : ∀ n, H.schema.contains n = true → x.1.schema.contains n = true
  pending : x.2.2.1 = true ↔ p = true ∨ ∃ e ∈ l, x.1.schema.contains e.1 = false
  stuck : x.2.1 = false → x.1 = H ∧ ∀ e ∈ l, H.schema.contains e.1 = true ∨ ∃ b, e.2.base? = some b ∧ H.schema.contains b = false
  added : x.2.1 = true → a = true ∨ H.schema.size < x.1.schema.size
  keep : a = true → x.2.1 = true
  only : ∀ n, x.1.schema.contains n = true → H.schema.contains n = true ∨ n ∈ l.map (·.1)

theorem size_le_of_sub {K A B : Type} [Key K] {m : FMap K A} {m' : FMap K B} (h : ∀ k, m.contains k = true → m'.contains k = true) : m.size ≤ m'.size := by
  have := (m.nodupKeys.subperm (fun k hk => FMap.contains_iff_mem.mp (h k (FMap.contains_iff_mem.mpr hk)))).length_le (l₂ := m'.keys)
  simpa [FMap.keys, FMap.size] using this

theorem size_set_new {K A : Type} [Key K] {m : FMap K A} {k : K} (v : A) (h : m.contains k = false) : (m.set k v).size = m.size + 1 := by
  rw [FMap.size_set, FMap.erase_of_not_mem (FMap.contains_false.mp h)]

theorem addPass_ok {schema : Schema F} (hd : ∀ n spec, schema.find? n = some spec → spec.doms ≠ []) :
    ∀ (l : List (String × RelSpec F)) (H : HIRM F) (a p : Bool) (t : Tape), (l.map (·.1)).Nodup →
      (∀ e ∈ l, schema.find? e.1 = some e.2) → Built schema H →
      ∃ x, addPass l H a p t = .ok x ∧ Passed schema l H a p x := by
  intro l
  induction l with
  | nil =>
    intro H a p t _ _ h
    exact ⟨_, rfl, h, fun _ h => h, by simp, fun _ => ⟨rfl, by simp⟩, fun h => .inl h, fun h => h, fun _ h => .inl h⟩
  | cons e l ih =>
    obtain ⟨name, spec⟩ := e
    intro H a p t hnd hl h
    rw [List.map_cons, List.nodup_cons] at hnd
    have hs : schema.find? name = some spec := hl (name, spec) (by simp)
    have hl' : ∀ e ∈ l, schema.find? e.1 = some e.2 := fun e he => hl e (by simp [he])
    by_cases hc : H.schema.contains name = true
    · obtain ⟨x, h1, h2⟩ := ih H a p t hnd.2 hl' h
      refine ⟨x, by simp only [addPass, hc, if_true, h1], h2.built, h2.more, ?_, ?_, h2.added, h2.keep,
        fun n hn => (h2.only n hn).imp_right (fun h => List.mem_cons_of_mem _ h)⟩
      · rw [h2.pending]
        simp [h2.more name hc]
      · intro hx
        obtain ⟨a1, a2⟩ := h2.stuck hx
        refine ⟨a1, fun e he => ?_⟩
        rcases List.mem_cons.mp he with rfl | he
        · exact .inl hc
        · exact a2 e he
    · have hc : H.schema.contains name = false := by simpa using hc
      by_cases hb : ∀ b, spec.base? = some b → H.schema.contains b = true
      · obtain ⟨H1, t1, h1, h2, h3⟩ := h.add hs hc (hd name spec hs) hb t
        obtain ⟨x, h4, h5⟩ := ih H1 true p t1 hnd.2 hl' h2
        have hmore : ∀ n, H.schema.contains n = true → H1.schema.contains n = true := by
          intro n hn; rw [h3, IRM.contains_set]; exact .inr hn
        have hname : H1.schema.contains name = true := by rw [h3, IRM.contains_set]; exact .inl rfl
        have hsz : H1.schema.size = H.schema.size + 1 := by rw [h3, size_set_new _ hc]
        have hge := size_le_of_sub h5.more
        have heq : addPass ((name, spec) :: l) H a p t = .ok x := by
          cases spec with
          | clean c ds o => simp only [addPass, hc, h1, bind, Except.bind, h4]; rfl
          | noisy e ds b o => simp only [addPass, hc, hb b rfl, h1, bind, Except.bind, h4, if_true]; rfl
        have htrue : x.2.1 = true := h5.keep rfl
        refine ⟨x, heq, h5.built, fun n hn => h5.more n (hmore n hn), ?_, ?_, fun _ => .inr (by omega), fun _ => htrue, fun n hn => ?_⟩
        · rw [h5.pending]
          simp [h5.more name hname]
        · intro hx; rw [htrue] at hx; cases hx
        · rcases h5.only n hn with h6 | h6
          · rw [h3, IRM.contains_set] at h6
            rcases h6 with rfl | h6
            · exact .inr (by simp)
            · exact .inl h6
          · exact .inr (List.mem_cons_of_mem _ h6)
      · push Not at hb
        obtain ⟨b, hb, hbn⟩ := hb
        have hbn : H.schema.contains b = false := by simpa using hbn
        obtain ⟨x, h1, h2⟩ := ih H a true t hnd.2 hl' h
        have heq : addPass ((name, spec) :: l) H a p t = .ok x := by
          cases spec with
          | clean c ds o => cases hb
          | noisy e ds b' o => cases hb; simp only [addPass, hc, hbn, h1]; rfl
        have hx : x.1.schema.contains name = false := by
          rw [Bool.eq_false_iff]
          intro hx
          rcases h2.only name hx with h3 | h3
          · rw [hc] at h3; cases h3
          · exact hnd.1 h3
        refine ⟨x, heq, h2.built, h2.more, ?_, ?_, h2.added, h2.keep,
          fun n hn => (h2.only n hn).imp_right (fun h => List.mem_cons_of_mem _ h)⟩
        · rw [h2.pending]
          simp [hx]
        · intro hx
          obtain ⟨a1, a2⟩ := h2.stuck hx
          refine ⟨a1, fun e he => ?_⟩
          rcases List.mem_cons.mp he with rfl | he
          · exact .inr ⟨b, hb, hbn⟩
          · exact a2 e he

theorem addPasses_ok {schema : Schema F} (hd : ∀ n spec, schema.find? n = some spec → spec.doms ≠ []) :
    ∀ (k : Nat) (H : HIRM F) (t : Tape), Built schema H → schema.size < k + H.schema.size →
      (∃ H' t', addPasses schema k H t = .ok (H', t') ∧ Built schema H' ∧ H'.schema = schema) ∨
      (addPasses schema k H t = .error .exit ∧ ∃ n, schema.contains n = true ∧ ¬ Grounded schema n) := by
  intro k
  induction k with
  | zero =>
    intro H t h hk
    have : H.schema.size ≤ schema.size := size_le_of_sub (fun n hn => by
      obtain ⟨sp, hs⟩ := FMap.contains_iff.mp hn
      exact FMap.contains_iff.mpr ⟨sp, h.sub n sp hs⟩)
    omega
  | succ k ih =>
    intro H t h hk
    obtain ⟨⟨H1, a, p, t1⟩, h1, h2⟩ := addPass_ok hd schema.entries H false false t schema.nodupKeys
      (fun e he => FMap.mem_entries.mp he) h
    have hpend := h2.pending
    have hstuck := h2.stuck
    have hadded := h2.added
    have hb := h2.built
    dsimp only at hpend hstuck hadded hb
    cases p with
    | false =>
      refine .inl ⟨H1, t1, by simp [addPasses, h1, bind, Except.bind], hb, ?_⟩
      apply FMap.ext
      intro n
      cases hn : schema.find? n with
      | none =>
        cases hm : H1.schema.find? n with
        | none => rfl
        | some sp => rw [hb.sub n sp hm] at hn; cases hn
      | some sp =>
        have : H1.schema.contains n = true := by
          by_contra hx
          have := hpend.mpr (.inr ⟨(n, sp), FMap.mem_entries.mpr hn, by simpa using hx⟩)
          cases this
        obtain ⟨sp', hs'⟩ := FMap.contains_iff.mp this
        have := hb.sub n sp' hs'
        rw [hn] at this
        rw [hs', this]
    | true =>
      cases a with
      | true =>
        have : H.schema.size < H1.schema.size := (hadded rfl).resolve_left (by simp)
        rcases ih H1 t1 hb (by omega) with ⟨H', t', h3, h4⟩ | ⟨h3, h4⟩
        · exact .inl ⟨H', t', by simp [addPasses, h1, bind, Except.bind, h3], h4⟩
        · exact .inr ⟨by simp [addPasses, h1, bind, Except.bind, h3], h4⟩
      | false =>
        obtain ⟨rfl, hst⟩ := hstuck rfl
        refine .inr ⟨by simp [addPasses, h1, bind, Except.bind], ?_⟩
        have hin : ∀ n, Grounded schema n → H1.schema.contains n = true := by
          intro n hg
          induction hg with
          | @clean n spec hs hb =>
            rcases hst (n, spec) (FMap.mem_entries.mpr hs) with h3 | ⟨b, h3, _⟩
            · exact h3
            · dsimp only at h3; rw [hb] at h3; cases h3
          | @noisy n b spec hs hb _ ih =>
            rcases hst (n, spec) (FMap.mem_entries.mpr hs) with h3 | ⟨b', h3, h4⟩
            · exact h3
            · dsimp only at h3; rw [hb] at h3; cases h3; rw [ih] at h4; cases h4
        obtain ⟨⟨n, sp⟩, he, hno⟩ := (hpend.mp rfl).resolve_left (by simp)
        refine ⟨n, FMap.contains_iff.mpr ⟨sp, FMap.mem_entries.mp he⟩, fun hg => ?_⟩
        rw [hin n hg] at hno; cases hno

/-- the relations so far are relations of the schema with domains -/
def Pre (schema : Schema F) (H : HIRM F) : Prop := ∀ n spec, H.schema.find? n = some spec → schema.find? n = some spec ∧ spec.doms ≠ []

theorem Pre.add {schema : Schema F} {H H' : HIRM F} (h : Pre schema H) {name : String} {spec : RelSpec F} (hs : schema.find? name = some spec)
    {t t' : Tape} (hc : H.addRelation name spec t = .ok (H', t')) : Pre schema H' ∧ H'.schema = H.schema.set name spec := by
  obtain ⟨_, h1, _⟩ := addRelation_inv hc
  refine ⟨fun n sp hn => ?_, h1⟩
  rw [h1, FMap.find?_set] at hn
  split at hn
  · rename_i he
    cases hn
    rw [he]
    exact ⟨hs, addRelation_pre hc⟩
  · exact h n sp hn

theorem addPass_inv {schema : Schema F} : ∀ (l : List (String × RelSpec F)) (H : HIRM F) (a p : Bool) (t : Tape) (x : HIRM F × Bool × Bool × Tape),
    (∀ e ∈ l, schema.find? e.1 = some e.2) → Pre schema H → addPass l H a p t = .ok x →
    Pre schema x.1 ∧ (∀ n, H.schema.contains n = true → x.1.schema.contains n = true) ∧
    (x.2.2.1 = false → p = false ∧ ∀ e ∈ l, x.1.schema.contains e.1 = true) := by
  intro l
  induction l with
  | nil => intro H a p t x _ h hc; cases hc; exact ⟨h, fun _ h => h, fun h => ⟨h, by simp⟩⟩
  | cons e l ih =>
    obtain ⟨name, spec⟩ := e
    intro H a p t x hl h hc
    have hs : schema.find? name = some spec := hl (name, spec) (by simp)
    have hl' : ∀ e ∈ l, schema.find? e.1 = some e.2 := fun e he => hl e (by simp [he])
    have hadd : ∀ H1 t1, H.addRelation name spec t = .ok (H1, t1) → addPass l H1 true p t1 = .ok x →
        Pre schema x.1 ∧ (∀ n, H.schema.contains n = true → x.1.schema.contains n = true) ∧
        (x.2.2.1 = false → p = false ∧ ∀ e ∈ (name, spec) :: l, x.1.schema.contains e.1 = true) := by
      intro H1 t1 h1 h2
      obtain ⟨h3, h4⟩ := h.add hs h1
      obtain ⟨a1, a2, a3⟩ := ih _ _ _ _ _ hl' h3 h2
      refine ⟨a1, fun n hn => a2 n (by rw [h4, IRM.contains_set]; exact .inr hn), fun hx => ?_⟩
      obtain ⟨b1, b2⟩ := a3 hx
      refine ⟨b1, fun e he => ?_⟩
      rcases List.mem_cons.mp he with rfl | he
      · exact a2 _ (by rw [h4, IRM.contains_set]; exact .inl rfl)
      · exact b2 e he
    unfold addPass at hc
    split at hc
    · rename_i hin
      obtain ⟨a1, a2, a3⟩ := ih _ _ _ _ _ hl' h hc
      refine ⟨a1, a2, fun hx => ?_⟩
      obtain ⟨b1, b2⟩ := a3 hx
      refine ⟨b1, fun e he => ?_⟩
      rcases List.mem_cons.mp he with rfl | he
      · exact a2 _ hin
      · exact b2 e he
    · cases spec with
      | clean c ds o =>
        obtain ⟨⟨H1, t1⟩, h1, h2⟩ := bind_ok.mp hc
        exact hadd H1 t1 h1 h2
      | noisy e ds b o =>
        dsimp only at hc
        split at hc
        · obtain ⟨⟨H1, t1⟩, h1, h2⟩ := bind_ok.mp hc
          exact hadd H1 t1 h1 h2
        · obtain ⟨a1, a2, a3⟩ := ih _ _ _ _ _ hl' h hc
          exact ⟨a1, a2, fun hx => by cases (a3 hx).1⟩

theorem addPasses_inv {schema : Schema F} : ∀ (k : Nat) (H : HIRM F) (t : Tape) (x : HIRM F × Tape),
    Pre schema H → addPasses schema k H t = .ok x → Pre schema x.1 ∧ ∀ n, schema.contains n = true → x.1.schema.contains n = true := by
  intro k
  induction k with
  | zero => intro H t x _ hc; cases hc
  | succ k ih =>
    intro H t x h hc
    obtain ⟨⟨H1, a, p, t1⟩, h1, h2⟩ := bind_ok.mp hc
    obtain ⟨a1, _, a3⟩ := addPass_inv _ _ _ _ _ _ (fun e he => FMap.mem_entries.mp he) h h1
    dsimp only at h2 a3
    split at h2
    · rename_i hp
      cases h2
      refine ⟨a1, fun n hn => ?_⟩
      obtain ⟨sp, hs⟩ := FMap.contains_iff.mp hn
      exact (a3 (by simpa using hp)).2 (n, sp) (FMap.mem_entries.mpr hs)
    · split at h2
      · cases h2
      · exact ih _ _ _ a1 h2

end HIRM
end
end Verif
