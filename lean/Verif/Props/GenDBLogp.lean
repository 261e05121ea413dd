import Verif.Lemmas.GenDBLogp
import Verif.Lemmas.DistCat
import Verif.Lemmas.EmissionMore
import Verif.Props.GenDBSeats
/-!
C83: the log probability that taking out a reference returns is what the score of the database loses.
-/
namespace Verif
namespace GenDB
open PClean
noncomputable section
variable {V : Type} {F : Family V} {L : FamilyLaws F} {s : PClean.Schema} {hash : String → Int} {mkC : String → FMap String String → Res F.C}
  {mkE : String → FMap String String → Res F.E} {clean finalOnly : Bool} {t₀ t₁ : Tape} {D₀ : DB F} {D D' D'' : DB F} {rows : List (Row V)}
  {c f d : String} {i v : Int} {inds : FMap String (List Nat)} {st st' : Stored V} {out out' out'' : DomOut} {ent ent' : EntOut} {t t' t'' : Tape} {lp lp' : WithBot ℝ}

/-- Databases into which rows have been incorporated meet the hypotheses of the theorems below. -/
theorem Loaded.reach (S : Samples L) (hf : Fine s clean) (hmk : make s hash mkC mkE clean finalOnly t₀ = .ok (D₀, t₁)) (hcm : Compatible L D₀.H.schema)
    (hi : (∃ x ∈ rows, x.unique = true) → Indexed s finalOnly) (h : Loaded L D₀ rows D) : Worked D₀ rows D ∧ HIRM.Reach L D.H := by
  constructor
  · clear hi
    induction h with
    | nil => exact .nil
    | row _ _ hfit _ hc ih =>
      refine .row ih (fun q w hw => ?_) hc
      obtain ⟨f, _, hf, _⟩ := hfit q w hw
      exact ⟨f, hf⟩
  · obtain ⟨H, e, rfl, hI⟩ := h.inv S (make_spec L hf hmk) hf hcm hi
    exact hI.st.reach

/-- **C83**, `unincorporate_reference`: if the returned log probability is a number, the score of the database has gone down by it. -/
theorem C83_reference_partial (hmk : make s hash mkC mkE clean finalOnly t₀ = .ok (D₀, t₁)) (h : Worked D₀ rows D) (hr : HIRM.Reach L D.H) (hT : D.H.SchemaTells L)
    (hu : D.unincReference inds c f i st out t = .ok (lp, D', st', out', t')) (p : ℝ) (hp : lp = (p : WithBot ℝ)) : D.logpScore = D'.logpScore + p := by
  have hh : Handled D₀ D := .worked h
  obtain ⟨_, k2, k3⟩ := unincReference_filed (hh.tidy hmk) (hh.firm hmk) (hr.good.filed hT) hu
  unfold DB.logpScore
  rw [k2 p hp, k3]
  ring

/-- **C83**, `unincorporate_singleton`, called when no reference to the entity is left. -/
theorem C83_singleton_partial (hmk : make s hash mkC mkE clean finalOnly t₀ = .ok (D₀, t₁)) (h : Handled D₀ D) (hr : HIRM.Reach L D.H) (hT : D.H.SchemaTells L)
    (hv : getRef D.ents c f i = .ok v) (ht : refTarget D.schema c f = .ok d) {crp : CRP} (hd : D.ents.crps.find? d = some crp) (hn : crp.tables.find? v = none)
    (hu : D.unincSingleton c f i d st ∅ ent = .ok (lp, D', st', out', ent')) (p : ℝ) (hp : lp = (p : WithBot ℝ)) : D.logpScore = D'.logpScore + p := by
  obtain ⟨_, k2, k3⟩ := unincSingleton_filed (h.tidy hmk) (h.firm hmk) (hr.good.filed hT) hv ht hd hn (fun _ _ _ _ h => by cases h) hu
  unfold DB.logpScore
  rw [k2 p hp, k3]
  ring

/-- **C83**, as when the only reference to an entity is reassigned: the reference is taken out, then it leaves the entity CRP, and then the entity is taken out.
Together the two log probabilities are what the score of the relations loses. -/
theorem C83_both_partial (hmk : make s hash mkC mkE clean finalOnly t₀ = .ok (D₀, t₁)) (h : Worked D₀ rows D) (hr : HIRM.Reach L D.H) (hT : D.H.SchemaTells L)
    (hu : D.unincReference inds c f i st ∅ t = .ok (lp, D', st', out', t')) {e : Ents} (hv : getRef e c f i = .ok v) (ht : refTarget D'.schema c f = .ok d) {crp : CRP}
    (hd : e.crps.find? d = some crp) (hn : crp.tables.find? v = none) {st₁ st₂ : Stored V}
    (hs : { D' with ents := e }.unincSingleton c f i d st₁ out' ent = .ok (lp', D'', st₂, out'', ent')) (p : ℝ) (hp : lp + lp' = (p : WithBot ℝ)) :
    D.H.logpScore = D''.H.logpScore + p := by
  have hh : Handled D₀ D := .worked h
  have h1 : Handled D₀ { D' with ents := e } := .ents (.ref hh hu)
  obtain ⟨k1, k2, _⟩ := unincReference_filed (hh.tidy hmk) (hh.firm hmk) (hr.good.filed hT) hu
  obtain ⟨_, _, k4, _⟩ := unincReference_left (hh.tidy hmk) (hh.firm hmk) hu
  obtain ⟨_, k5, _⟩ := unincSingleton_filed (D := { D' with ents := e }) (h1.tidy hmk) (h1.firm hmk) k1 hv ht hd hn k4.recorded.away hs
  exact k2.add k5 p hp

/-- **C83**: the distributions and emissions for which the log probability of a value after it was taken out is what the score has lost. -/
theorem C83_distributions : BetaBernoulli.ops.Tells (fun _ => True) ∧ Normal.ops.Tells (fun _ => True) ∧ (∀ b z q, (Skellam.ops b z q).Tells (fun _ => True)) ∧
    (∀ k, (DirichletCategorical.ops k).Tells (DirichletCategorical.Supp k)) ∧ (∀ strings, (StringCat.ops strings).Tells (· ∈ strings)) ∧
    (∀ n lo hi, (Bigram.ops n lo hi).Tells (Bigram.Accepts n lo hi)) ∧ (∀ V, (IdentityEmission V).ops.toDistOps.Tells (fun _ => True)) ∧
    (∀ z, (GaussianEmission z).ops.toDistOps.Tells (fun _ => True)) ∧ (∀ k, (CategoricalEmission k).ops.toDistOps.Tells (CategoricalEmission.Supp k)) ∧
    SimpleStringEmission.ops.toDistOps.Tells (fun _ => True) ∧ (Sometimes BitFlip).ops.toDistOps.Tells (Sometimes.Supp Differ) ∧
    (∀ z, (Sometimes (GaussianEmission z)).ops.toDistOps.Tells (Sometimes.Supp (fun _ => True))) ∧ ∀ k, (Sometimes (CategoricalEmission k)).ops.toDistOps.Tells (Sometimes.Supp (CategoricalEmission.Supp k)) :=
  ⟨Lawful.tells BetaBernoulli.scored BetaBernoulli.coherent, Lawful.tells Normal.scored Normal.coherent, fun b z q => Lawful.tells (Skellam.scored b z q) (Skellam.coherent b z q),
    fun k => Lawful.tells (DirichletCategorical.scored k) (DirichletCategorical.coherent k), fun l => Lawful.tells (StringCat.scored l) (StringCat.coherent l),
    fun n lo hi => Lawful.tells (Bigram.scored n lo hi) (Bigram.coherent n lo hi), fun V => Lawful.tells (IdentityEmission.scored V) (IdentityEmission.coherent V),
    fun z => Lawful.tells (GaussianEmission.scored z) (GaussianEmission.coherent z), fun k => Lawful.tells (CategoricalEmission.scored k) (CategoricalEmission.coherent k),
    Lawful.tells SimpleString.scored SimpleString.coherent, Lawful.tells (Sometimes.scored BitFlip.scored) (Sometimes.coherent BitFlip.coherent),
    fun z => Lawful.tells (Sometimes.scored (GaussianEmission.scored z)) (Sometimes.coherent (GaussianEmission.coherent z)),
    fun k => Lawful.tells (Sometimes.scored (CategoricalEmission.scored k)) (Sometimes.coherent (CategoricalEmission.coherent k))⟩

/-! ### Concrete cases -/
open Latent (bools boolLaws)

theorem tells_bools (H : HIRM bools) : H.SchemaTells boolLaws := by
  intro n spec _
  cases spec with
  | clean c ds o => exact Lawful.tells BetaBernoulli.scored BetaBernoulli.coherent
  | noisy e ds b o => exact Lawful.tells (Sometimes.scored BitFlip.scored) (Sometimes.coherent BitFlip.coherent)

/-- the log probabilities of taking out a reference and then its entity -/
def takeLogps (s : PClean.Schema) (clean : Bool) (rows : List (Row Bool)) (c f : String) (i : Int) : Res (WithBot ℝ × WithBot ℝ × Bool) := do
  let (D, _) ← loadAll s clean false 4 rows
  let inds ← D.domainInds c f
  let (lp, D₁, _, out, _) ← D.unincReference inds c f i ∅ ∅ []
  let v ← getRef D₁.ents c f i
  let d ← refTarget D₁.schema c f
  let crp ← D₁.ents.crps.atKey d
  let crp ← crp.unincorporate (refId D₁.hash c f i)
  let (lp', _, _, _, _) ← { D₁ with ents := { D₁.ents with crps := D₁.ents.crps.set d crp } }.unincSingleton c f i d ∅ out ∅
  .ok (lp, lp', (crp.tables.find? v).isNone)

set_option maxRecDepth 40000 in
theorem takeLogps_witness : (takeLogps visits false [bothRow true 8 true false, bothRow true 7 false true] "Record" "location" 8).map
    (fun x => (Option.isSome x.1, Option.isSome x.2.1, x.2.2)) = .ok (true, true, true) := rfl

/-- Databases of such rows meet the hypotheses. -/
theorem visits_reach {x y : Row Bool} {D : DB bools} {t : Tape} {ux uy : Bool} {a b a' b' : Bool} {i j : Int} (hx : x = bothRow ux i a b) (hy : y = bothRow uy j a' b') (hij : j ≠ i)
    (h : loadAll visits false false 4 [x, y] = .ok (D, t)) : ∃ D₀ t₀, start visits false false = .ok (D₀, t₀) ∧ Worked D₀ [x, y] D ∧ HIRM.Reach boolLaws D.H := by
  obtain ⟨D₀, t₀, hs, hl⟩ := visits_rows hx hy hij h
  exact ⟨D₀, t₀, hs, hl.reach HIRM.samples_bools visits_fine hs (HIRM.compatible_bools _) (fun _ => visits_indexed)⟩

/-- the log probability of taking out a reference -/
def takeOne (s : PClean.Schema) (clean : Bool) (rows : List (Row Bool)) (c f : String) (i : Int) : Res (WithBot ℝ) := do
  let (D, _) ← loadAll s clean false 4 rows
  let inds ← D.domainInds c f
  let (lp, _, _, _, _) ← D.unincReference inds c f i ∅ ∅ []
  .ok lp

set_option maxRecDepth 40000 in
theorem takeOne_witness : (takeOne visits false [bothRow false 8 true false, bothRow true 7 false true] "Practice" "city" 0).map Option.isSome = .ok false := rfl

/-- **C83** is false without that restriction: the two rows visit the same practice, and when the city of the practice is taken out, the score, a number, goes down by
a number, but the returned log probability is minus infinity. -/
theorem C83_reference_false : ∃ (D₀ D D' : DB bools) (t₀ t t' : Tape) (rows : List (Row Bool)) (inds : FMap String (List Nat)) (lp : WithBot ℝ) (st : Stored Bool) (out : DomOut),
    start visits false false = .ok (D₀, t₀) ∧ Worked D₀ rows D ∧ HIRM.Reach boolLaws D.H ∧ D.H.SchemaTells boolLaws ∧ D.domainInds "Practice" "city" = .ok inds ∧
    D.unincReference inds "Practice" "city" 0 ∅ ∅ t = .ok (lp, D', st, out, t') ∧ lp = ⊥ ∧ lp ≠ ((D.logpScore - D'.logpScore : ℝ) : WithBot ℝ) := by
  obtain ⟨x, h, hx⟩ := Res.of_map takeOne_witness
  unfold takeOne at h
  obtain ⟨⟨D, u⟩, h0, h⟩ := bind_ok.mp h
  dsimp only at h
  obtain ⟨inds, h1, h⟩ := bind_ok.mp h
  obtain ⟨⟨lp, D₁, st, out, t⟩, h2, h⟩ := bind_ok.mp h
  cases h
  obtain ⟨D₀, t₀, hs, hw, hr⟩ := visits_reach rfl rfl (by decide) h0
  have hb : lp = ⊥ := by
    cases lp with
    | bot => rfl
    | coe p => cases hx
  refine ⟨D₀, D, D₁, t₀, [], t, _, inds, lp, st, out, hs, hw, hr, tells_bools _, h1, h2, hb, ?_⟩
  rw [hb]
  exact WithBot.bot_ne_coe

/-- `C83_reference_partial` and `C83_both_partial` for row 8 and its practice, where both log probabilities are numbers -/
example : ∃ (D₀ D D₁ D₂ : DB bools) (t₀ : Tape) (p p' : ℝ), start visits false false = .ok (D₀, t₀) ∧ Handled D₀ D ∧ D.logpScore = D₁.logpScore + p ∧
    D.H.logpScore = D₂.H.logpScore + (p + p') := by
  obtain ⟨x, h, hx⟩ := Res.of_map takeLogps_witness
  unfold takeLogps at h
  obtain ⟨⟨D, u⟩, h0, h⟩ := bind_ok.mp h
  dsimp only at h
  obtain ⟨inds, h1, h⟩ := bind_ok.mp h
  obtain ⟨⟨lp, D₁, st, out, t⟩, h2, h⟩ := bind_ok.mp h
  dsimp only at h
  obtain ⟨v, j1, h⟩ := bind_ok.mp h
  obtain ⟨d, j2, h⟩ := bind_ok.mp h
  obtain ⟨crp, k1, h⟩ := bind_ok.mp h
  obtain ⟨crp', k2, h⟩ := bind_ok.mp h
  obtain ⟨⟨lp', D₂, st', out', ent'⟩, h3, h⟩ := bind_ok.mp h
  cases h
  simp only [Prod.mk.injEq] at hx
  obtain ⟨D₀, t₀, hs, hw, hr⟩ := visits_reach rfl rfl (by decide) h0
  cases lp with
  | bot => cases hx.1
  | coe p =>
    cases lp' with
    | bot => cases hx.2.1
    | coe p' =>
      refine ⟨D₀, D, D₁, D₂, t₀, p, p', hs, .worked hw, C83_reference_partial hs hw hr (tells_bools _) h2 p rfl, ?_⟩
      exact C83_both_partial (e := { D₁.ents with crps := D₁.ents.crps.set d crp' }) hs hw hr (tells_bools _) h2 j1 j2 (FMap.find?_set_self ..)
        (Option.isNone_iff_eq_none.mp hx.2.2) h3 (p + p') rfl

end
end GenDB
end Verif
