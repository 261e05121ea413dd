import Verif.Lemmas.GenDBWeigh
import Verif.Props.GenDBLogp
/-!
C86: the weights of the candidates of a reference.
-/
namespace Verif
namespace GenDB
open PClean
noncomputable section
variable {V : Type} {F : Family V} {L : FamilyLaws F} {s : PClean.Schema} {hash : String → Int} {mkC : String → FMap String String → Res F.C}
  {mkE : String → FMap String String → Res F.E} {clean finalOnly : Bool} {t₀ t₁ : Tape} {D₀ : DB F} {D D' D'' : DB F} {rows : List (Row V)}
  {a : DB.MoveArgs V} {m m' : DB.Move F} {table : Int} {w : ℝ} {out out' : DomOut} {t t' u u' : Tape} {lp : WithBot ℝ}

/-- what holds of the databases between the candidates -/
structure Between.Ok (L : FamilyLaws F) (a : DB.MoveArgs V) (D : DB F) : Prop where
  tidy : D.H.Tidy
  firm : D.H.Firm
  filed : HIRM.Filed L D.H
  freely : Freely L D.H.schema
  values : ∀ n k v, part a.stored n k = some v → ∀ spec, D.H.schema.find? n = some spec → spec.Value L v

/-- trying a candidate that is an entity already -/
theorem Between.Ok.tried (h : Between.Ok L a D) (hw : D.H.Whole) {e : Ents} (hs : table ≠ a.single) (hc : DB.tryTable a table w { D with ents := e } m u = .ok (m', u')) :
    Between.Ok L a m'.D ∧ ∃ st H u₁ lp', updateItems D.H.schema D.relIdx e a.c a.f a.i table a.stored = .ok st ∧
      putStored st D.H u = .ok (H, u₁) ∧ m'.logps = m.logps ++ [((Real.log w : ℝ) : WithBot ℝ) + lp'] ∧
      ∀ p : ℝ, lp' = (p : WithBot ℝ) → H.logpScore = m'.D.H.logpScore + p := by
  unfold DB.tryTable DB.seatIf DB.clearIf at hc
  rw [if_neg hs] at hc
  obtain ⟨⟨D₁, t₁⟩, h1, hc⟩ := bind_ok.mp hc
  cases h1
  obtain ⟨st, h2, hc⟩ := bind_ok.mp hc
  obtain ⟨⟨H, u₁⟩, h3, hc⟩ := bind_ok.mp hc
  obtain ⟨⟨lp', D₂, st₂, out₂, u₂⟩, h4, hc⟩ := bind_ok.mp hc
  dsimp only at hc
  rw [if_neg hs] at hc
  cases hc
  have hk : Keeps L D.H.schema D.H := ⟨h.tidy, h.firm, h.filed, h.filed.bound h.tidy hw, rfl⟩
  have hk' := putRels_keeps h.freely (fun n k v hv spec hsp => by
    obtain ⟨k', hk'⟩ := updateItems_part h2 hv
    exact h.values n k' v hk' spec hsp) hk h3
  obtain ⟨k1, k2, _⟩ := unincReference_filed (D := { D with H := H, ents := e }) hk'.tidy hk'.firm hk'.filed h4
  obtain ⟨o, _⟩ := unincReference_out (D := { D with H := H, ents := e }) hk'.tidy h4
  have hsch : D₂.H.schema = D.H.schema := o.schema.trans hk'.schema
  refine ⟨⟨o.tidy, firm_closed.unincReference (x := (lp', D₂, st₂, out₂, u')) (D := { D with H := H, ents := e }) hk'.firm h4, k1, by rw [hsch]; exact h.freely, by rw [hsch]; exact h.values⟩,
    st, H, u₁, lp', h2, h3, ?_, fun p hp => k2 p hp⟩
  show m.logps ++ [((Real.log w : ℝ) : WithBot ℝ) + lp' + 0] = _
  rw [add_zero]

/-- trying a candidate that is a new entity -/
theorem Between.Ok.new (h : Between.Ok L a D) (hw : D.H.Whole) (S : Samples L) (hcm : Compatible L D.H.schema) {e : Ents} {D₁ : DB F} {u₁ : Tape}
    (hs : ({ D with ents := e } : DB F).seatNew a.d a.single u = .ok (D₁, u₁)) {v : Int} {crp : CRP} (hv : getRef D₁.ents a.c a.f a.i = .ok v)
    (hr : refTarget D.schema a.c a.f = .ok a.d) (hd : D₁.ents.crps.find? a.d = some crp) (hn : crp.tables.find? v = none) (ho : m.outs.find? a.single = none)
    (hc : DB.tryTable a a.single w { D with ents := e } m u = .ok (m', u')) :
    Between.Ok L a m'.D ∧ ∃ st H u₂ lp', updateItems D₁.H.schema D₁.relIdx D₁.ents a.c a.f a.i a.single a.stored = .ok st ∧
      putStored st D₁.H u₁ = .ok (H, u₂) ∧ m'.logps = m.logps ++ [((Real.log w : ℝ) : WithBot ℝ) + lp'] ∧
      ∀ p : ℝ, lp' = (p : WithBot ℝ) → H.logpScore = m'.D.H.logpScore + p := by
  unfold DB.tryTable DB.seatIf DB.clearIf at hc
  rw [if_pos rfl, hs] at hc
  obtain ⟨_, h1, hc⟩ := bind_ok.mp hc
  cases h1
  dsimp only at hc
  obtain ⟨st, h2, hc⟩ := bind_ok.mp hc
  obtain ⟨⟨H, u₂⟩, h3, hc⟩ := bind_ok.mp hc
  dsimp only at hc
  rw [ho] at hc
  obtain ⟨⟨lp', D₂, st₂, out₂, u₃⟩, h4, hc⟩ := bind_ok.mp hc
  dsimp only at hc
  rw [if_pos rfl] at hc
  obtain ⟨⟨lp'', D₃, st₃, out₃, ent₃⟩, h5, hc⟩ := bind_ok.mp hc
  cases hc
  have hk : Keeps L D.H.schema D.H := ⟨h.tidy, h.firm, h.filed, h.filed.bound h.tidy hw, rfl⟩
  have hk₁ : Keeps L D.H.schema D₁.H := seatNew_keeps (D := { D with ents := e }) S hcm h.freely hk hs
  have hk' := putRels_keeps h.freely (fun n k v hv spec hsp => by
    obtain ⟨k', hk'⟩ := updateItems_part h2 hv
    exact h.values n k' v hk' spec hsp) hk₁ h3
  obtain ⟨k1, k2, k3⟩ := unincReference_filed (D := { D₁ with H := H }) hk'.tidy hk'.firm hk'.filed h4
  obtain ⟨o, _⟩ := unincReference_out (D := { D₁ with H := H }) hk'.tidy h4
  obtain ⟨l1, _, l3, _⟩ := unincReference_left (D := { D₁ with H := H }) hk'.tidy hk'.firm h4
  have hsame : D₂.schema = D.schema := by
    unfold DB.seatNew at hs
    obtain ⟨⟨_, e', t₂⟩, _, hs⟩ := bind_ok.mp hs
    obtain ⟨rels, _, hs⟩ := bind_ok.mp hs
    exact (unincReference_only (D := { D₁ with H := H }) h4).same.schema.trans (seatRels_only hs).same.schema
  have k3 : D₂.ents = D₁.ents := k3
  obtain ⟨j1, j2, j3⟩ := unincSingleton_filed o.tidy l1 k1 (by rw [k3]; exact hv) (by rw [hsame]; exact hr) (by rw [k3]; exact hd) hn l3.recorded.away h5
  have hsch : D₃.H.schema = D.H.schema := ((unincSingleton_out o.tidy h5).1.trans o.schema).trans hk'.schema
  obtain ⟨n1, n2, _⟩ := unincSingleton_left o.tidy l1 l3.recorded.away h5
  refine ⟨⟨n2.tidy o.tidy, n1, j1, by rw [hsch]; exact h.freely, by rw [hsch]; exact h.values⟩, st, H, u₂, lp' + lp'', h2, h3, ?_, fun p hp => k2.add j2 p hp⟩
  show m.logps ++ [((Real.log w : ℝ) : WithBot ℝ) + lp' + lp''] = _
  rw [add_assoc]

theorem Between.ok (hmk : make s hash mkC mkE clean finalOnly t₀ = .ok (D₀, t₁)) (h : Between L D₀ a D) : Between.Ok L a D := by
  have first : ∀ {rows D D' out out' t t' lp}, Worked D₀ rows D → HIRM.Reach L D.H → D.H.SchemaTells L → Freely L D.H.schema →
      D.unincReference a.inds a.c a.f a.i ∅ out t = .ok (lp, D', a.stored, out', t') → Between.Ok L a D' := by
    intro rows D D' out out' t t' lp h hr hT hF hu
    have hh : Handled D₀ D := .worked h
    have ht := hh.tidy hmk
    have hm := hh.firm hmk
    have hf := hr.good.filed hT
    obtain ⟨f1, _, _⟩ := unincReference_filed ht hm hf hu
    obtain ⟨o, _⟩ := unincReference_out ht hu
    refine ⟨o.tidy, (hh.ref hu).firm hmk, f1, by rw [o.schema]; exact hF, fun n k v hv spec hsp => ?_⟩
    rcases o.each n k with ⟨_, h5⟩ | ⟨_, x, h5, _, h6⟩
    · rw [h5] at hv; cases hv
    · rw [hv] at h6
      cases h6
      exact hf.value hm (by rw [← o.schema]; exact hsp) h5
  induction h with
  | ref h hr hT hF hu => exact first h hr hT hF hu
  | @entity rows D D' D'' out' t t' lp e v crp st st' out'' ent ent' lp' h hr hT hF hu hv ht hd hn hs =>
    have k := first h hr hT hF hu
    have hh : Handled D₀ D := .worked h
    have h1 : Handled D₀ { D' with ents := e } := .ents (.ref hh hu)
    obtain ⟨_, _, k4, _⟩ := unincReference_left (hh.tidy hmk) (hh.firm hmk) hu
    obtain ⟨k5, _, _⟩ := unincSingleton_filed (D := { D' with ents := e }) k.tidy k.firm k.filed hv ht hd hn k4.recorded.away hs
    have hsch := (unincSingleton_out (D := { D' with ents := e }) k.tidy hs).1
    have hsch : D''.H.schema = D'.H.schema := hsch
    have h2 : Handled D₀ D'' := .single h1 hs
    exact ⟨h2.tidy hmk, h2.firm hmk, k5, by rw [hsch]; exact k.freely, by rw [hsch]; exact k.values⟩
  | tried _ hw hs hc ih => exact (ih.tried hw hs hc).1
  | new _ hw S hcm hs hv hr hd hn ho hc ih => exact (ih.new hw S hcm hs hv hr hd hn ho hc).1

/-- **C86**: the weight of a candidate that is an entity already, when the candidates before it were such too and the noisy values have base values.  The stored values are
moved to the tuples of the candidate and put into the relations, which gives a model with some score; a log probability `lp` is found, and the weight of the candidate is the
logarithm of its weight in the entity CRP plus `lp`; and if `lp` is a number, it is what the score loses when the values are taken out again. -/
theorem C86_weight_partial (hmk : make s hash mkC mkE clean finalOnly t₀ = .ok (D₀, t₁)) (h : Between L D₀ a D) (hw : D.H.Whole) {e : Ents} (hs : table ≠ a.single)
    (hc : DB.tryTable a table w { D with ents := e } m u = .ok (m', u')) : ∃ st H u₁ lp, updateItems D.H.schema D.relIdx e a.c a.f a.i table a.stored = .ok st ∧
      putStored st D.H u = .ok (H, u₁) ∧ m'.logps = m.logps ++ [((Real.log w : ℝ) : WithBot ℝ) + lp] ∧
      ∀ p : ℝ, lp = (p : WithBot ℝ) → H.logpScore = m'.D.H.logpScore + p := ((h.ok hmk).tried hw hs hc).2

/-- **C86**: the same for the candidate that is a new entity: first references and values are sampled for it, then the stored values are moved to its tuples and put into the
relations, which gives a model with some score; if the log probability found is a number, it is what the score loses when those values, those of the new entity among them, are
taken out again. -/
theorem C86_new_partial (hmk : make s hash mkC mkE clean finalOnly t₀ = .ok (D₀, t₁)) (h : Between L D₀ a D) (hw : D.H.Whole) (S : Samples L) (hcm : Compatible L D.H.schema)
    {e : Ents} {D₁ : DB F} {u₁ : Tape} (hs : ({ D with ents := e } : DB F).seatNew a.d a.single u = .ok (D₁, u₁)) {v : Int} {crp : CRP} (hv : getRef D₁.ents a.c a.f a.i = .ok v)
    (hr : refTarget D.schema a.c a.f = .ok a.d) (hd : D₁.ents.crps.find? a.d = some crp) (hn : crp.tables.find? v = none) (ho : m.outs.find? a.single = none)
    (hc : DB.tryTable a a.single w { D with ents := e } m u = .ok (m', u')) :
    ∃ st H u₂ lp, updateItems D₁.H.schema D₁.relIdx D₁.ents a.c a.f a.i a.single a.stored = .ok st ∧
      putStored st D₁.H u₁ = .ok (H, u₂) ∧ m'.logps = m.logps ++ [((Real.log w : ℝ) : WithBot ℝ) + lp] ∧
      ∀ p : ℝ, lp = (p : WithBot ℝ) → H.logpScore = m'.D.H.logpScore + p := ((h.ok hmk).new hw S hcm hs hv hr hd hn ho hc).2

/-! ### Concrete cases -/
open Latent (bools boolLaws)

theorem freely_bools (schema : Schema bools) : Freely boolLaws schema := by
  intro n e ds b o sp _ _ x y _ _
  show NoisyRel.Any (x, y)
  cases x <;> cases y <;> simp [NoisyRel.Any]

/-- `HIRM.Whole` as a check -/
def wholeB (H : HIRM F) : Bool := H.irms.entries.all fun I => I.2.rels.entries.all fun r =>
  match r.2.2.base? with
  | none => true
  | some p =>
    match H.env p with
    | none => true
    | some w => r.2.2.data.keys.all fun k => w.data.contains (k.take w.arity)

theorem whole_of {H : HIRM F} (h : wholeB H = true) : H.Whole := by
  intro n tb id r p w k v hr hp hw hk
  obtain ⟨_, I, hI, hr⟩ := HIRM.relOf_some.mp hr
  unfold wholeB at h
  rw [List.all_eq_true] at h
  have h := h _ (FMap.mem_entries.mpr hI)
  rw [List.all_eq_true] at h
  have h := h _ (FMap.mem_entries.mpr hr)
  dsimp only at h
  rw [hp] at h
  dsimp only at h
  rw [hw] at h
  dsimp only at h
  rw [List.all_eq_true] at h
  exact FMap.contains_iff.mp (h k (FMap.mem_keys.mpr ⟨v, hk⟩))

/-- A reference is taken out, then its entity, and then a candidate is tried. -/
def tryOne (s : PClean.Schema) (clean : Bool) (rows : List (Row Bool)) (c f : String) (i table : Int) : Res (DB bools × DB.Move bools × Bool × Bool) := do
  let (D, _) ← loadAll s clean false 4 rows
  let inds ← D.domainInds c f
  let (lp, D₁, st, out, t) ← D.unincReference inds c f i ∅ ∅ []
  let v ← getRef D₁.ents c f i
  let d ← refTarget D₁.schema c f
  let crp ← D₁.ents.crps.atKey d
  let crp ← crp.unincorporate (refId D₁.hash c f i)
  let (lp', D₂, st', out', ent') ← { D₁ with ents := { D₁.ents with crps := D₁.ents.crps.set d crp } }.unincSingleton c f i d ∅ out ∅
  let e ← setRef D₂.ents c f i table
  let a : DB.MoveArgs Bool := { c := c, f := f, i := i, d := d, init := v, single := v, cur := lp + lp', inds := inds, stored := st }
  let (m, _) ← DB.tryTable a table 1 { D₂ with ents := e } { D := D₂, outs := (∅ : FMap Int DomOut).set v out', single := st', ent := ent' } t
  .ok (D₂, m, (crp.tables.find? v).isNone, decide (table ≠ v))

set_option maxRecDepth 40000 in
/-- Row 8 visits practice 1, and practice 0 is tried instead: the weight found is a number. -/
theorem tryOne_witness : (tryOne visits false [bothRow true 8 true false, bothRow true 7 false true] "Record" "location" 8 0).map
    (fun x => (wholeB x.1.H, x.2.1.logps.map Option.isSome, x.2.2)) = .ok (true, [true], true, true) := rfl

/-- `C86_weight_partial` for that case -/
example : ∃ (D₀ D : DB bools) (a : DB.MoveArgs Bool) (m m' : DB.Move bools) (t₀ u u' : Tape) (e : Ents), start visits false false = .ok (D₀, t₀) ∧ Between boolLaws D₀ a D ∧ D.H.Whole ∧
    (0 : Int) ≠ a.single ∧ DB.tryTable a 0 1 { D with ents := e } m u = .ok (m', u') ∧ Between boolLaws D₀ a m'.D ∧
    ∃ (H : HIRM bools) (p : ℝ), m'.logps = [((Real.log 1 : ℝ) : WithBot ℝ) + (p : WithBot ℝ)] ∧ H.logpScore = m'.D.H.logpScore + p := by
  obtain ⟨⟨Dx, mx, b₁, b₂⟩, h, hx⟩ := Res.of_map tryOne_witness
  simp only [Prod.mk.injEq] at hx
  obtain ⟨w1, w2, rfl, rfl⟩ := hx
  unfold tryOne at h
  obtain ⟨⟨D, u⟩, h0, h⟩ := bind_ok.mp h
  dsimp only at h
  obtain ⟨inds, h1, h⟩ := bind_ok.mp h
  obtain ⟨⟨lp, D₁, st, out, t⟩, h2, h⟩ := bind_ok.mp h
  dsimp only at h
  obtain ⟨v, j1, h⟩ := bind_ok.mp h
  obtain ⟨d, j2, h⟩ := bind_ok.mp h
  obtain ⟨crp, k1, h⟩ := bind_ok.mp h
  obtain ⟨crp', k2, h⟩ := bind_ok.mp h
  obtain ⟨⟨lp', D₂, st', out', ent'⟩, h3, h⟩ := bind_ok.mp h
  dsimp only at h
  obtain ⟨e, h4, h⟩ := bind_ok.mp h
  obtain ⟨⟨m', u'⟩, h5, h⟩ := bind_ok.mp h
  dsimp only at h
  simp only [Except.ok.injEq, Prod.mk.injEq] at h
  obtain ⟨rfl, rfl, hn, hne⟩ := h
  have hne := of_decide_eq_true hne
  obtain ⟨D₀, t₀, hs, hw, hr⟩ := visits_reach rfl rfl (by decide) h0
  have hB : Between boolLaws D₀ { c := "Record", f := "location", i := 8, d := d, init := v, single := v, cur := lp + lp', inds := inds, stored := st } D₂ :=
    .entity (e := { D₁.ents with crps := D₁.ents.crps.set d crp' }) hw hr (tells_bools _) (freely_bools _) h2 j1 j2 (FMap.find?_set_self ..) (Option.isNone_iff_eq_none.mp hn) h3
  have hW := whole_of w1
  obtain ⟨st₁, H, u₁, q, _, _, g1, g2⟩ := C86_weight_partial hs hB hW hne h5
  refine ⟨D₀, D₂, _, _, m', t₀, t, u', e, hs, hB, hW, hne, h5, .tried hB hW hne h5, H, ?_⟩
  cases q with
  | bot =>
    rw [g1] at w2
    cases w2
  | coe p => exact ⟨p, g1, g2 p rfl⟩

/-- A reference is taken out, and then the new entity `table` is tried. -/
def tryFresh (s : PClean.Schema) (clean : Bool) (rows : List (Row Bool)) (c f : String) (i table : Int) :
    Res (DB bools × DB.Move bools × Bool × DB bools × Tape) := do
  let (D, _) ← loadAll s clean false 4 rows
  let inds ← D.domainInds c f
  let (lp, D₁, st, out, t) ← D.unincReference inds c f i ∅ ∅ []
  let v ← getRef D₁.ents c f i
  let d ← refTarget D₁.schema c f
  let crp ← D₁.ents.crps.atKey d
  let crp ← crp.unincorporate (refId D₁.hash c f i)
  let e ← setRef { D₁.ents with crps := D₁.ents.crps.set d crp } c f i table
  let a : DB.MoveArgs Bool := { c := c, f := f, i := i, d := d, init := v, single := table, cur := lp, inds := inds, stored := st }
  let (D₂, u) ← ({ D₁ with ents := e } : DB bools).seatNew d table t
  let v' ← getRef D₂.ents c f i
  let crp' ← D₂.ents.crps.atKey d
  let (m, _) ← DB.tryTable a table 1 { D₁ with ents := e } { D := D₁, outs := (∅ : FMap Int DomOut).set v out, single := ∅, ent := ∅ } t
  .ok (D₁, m, (crp'.tables.find? v').isNone && decide (v ≠ table), D₂, u)

set_option maxRecDepth 40000 in
/-- Rows 8 and 7 visit the same practice, and a new practice is tried for row 8: the weight found is a number. -/
theorem tryFresh_witness : (tryFresh visits false [bothRow true 8 true false, bothRow false 7 false true] "Record" "location" 8 9).map
    (fun x => (wholeB x.1.H, x.2.1.logps.map Option.isSome, x.2.2.1)) = .ok (true, [true], true) := rfl

/-- `C86_new_partial` for that case -/
example : ∃ (D₀ D : DB bools) (a : DB.MoveArgs Bool) (m m' : DB.Move bools) (t₀ u u' : Tape) (e : Ents), start visits false false = .ok (D₀, t₀) ∧ Between boolLaws D₀ a D ∧ D.H.Whole ∧
    a.init ≠ a.single ∧ DB.tryTable a a.single 1 { D with ents := e } m u = .ok (m', u') ∧ Between boolLaws D₀ a m'.D ∧
    ∃ (H : HIRM bools) (p : ℝ), m'.logps = [((Real.log 1 : ℝ) : WithBot ℝ) + (p : WithBot ℝ)] ∧ H.logpScore = m'.D.H.logpScore + p := by
  obtain ⟨⟨Dx, mx, b₁, Dy, uy⟩, h, hx⟩ := Res.of_map tryFresh_witness
  simp only [Prod.mk.injEq] at hx
  obtain ⟨w1, w2, rfl⟩ := hx
  unfold tryFresh at h
  obtain ⟨⟨D, u⟩, h0, h⟩ := bind_ok.mp h
  dsimp only at h
  obtain ⟨inds, h1, h⟩ := bind_ok.mp h
  obtain ⟨⟨lp, D₁, st, out, t⟩, h2, h⟩ := bind_ok.mp h
  dsimp only at h
  obtain ⟨v, j1, h⟩ := bind_ok.mp h
  obtain ⟨d, j2, h⟩ := bind_ok.mp h
  obtain ⟨crp, k1, h⟩ := bind_ok.mp h
  obtain ⟨crp', k2, h⟩ := bind_ok.mp h
  obtain ⟨e, h4, h⟩ := bind_ok.mp h
  obtain ⟨⟨D₂, uu⟩, h3, h⟩ := bind_ok.mp h
  dsimp only at h
  obtain ⟨v', j3, h⟩ := bind_ok.mp h
  obtain ⟨crp₂, k3, h⟩ := bind_ok.mp h
  obtain ⟨⟨m', u'⟩, h5, h⟩ := bind_ok.mp h
  dsimp only at h
  simp only [Except.ok.injEq, Prod.mk.injEq, Bool.and_eq_true] at h
  obtain ⟨rfl, rfl, ⟨hn, hne⟩, _, _⟩ := h
  have hne := of_decide_eq_true hne
  obtain ⟨D₀, t₀, hs, hw, hr⟩ := visits_reach rfl rfl (by decide) h0
  have hB : Between boolLaws D₀ { c := "Record", f := "location", i := 8, d := d, init := v, single := 9, cur := lp, inds := inds, stored := st } D₁ :=
    .ref hw hr (tells_bools _) (freely_bools _) h2
  have hW := whole_of w1
  have ho : ((∅ : FMap Int DomOut).set v out).find? 9 = none := by rw [FMap.find?_set_ne _ (Ne.symm hne)]; rfl
  have hn := Option.isNone_iff_eq_none.mp hn
  obtain ⟨st₁, H, u₁, q, _, _, g1, g2⟩ := C86_new_partial hs hB hW HIRM.samples_bools (HIRM.compatible_bools _) h3 j3 j2 (FMap.atKey_ok.mp k3) hn ho h5
  refine ⟨D₀, D₁, _, _, m', t₀, t, u', e, hs, hB, hW, hne, h5, .new hB hW HIRM.samples_bools (HIRM.compatible_bools _) h3 j3 j2 (FMap.atKey_ok.mp k3) hn ho h5, H, ?_⟩
  cases q with
  | bot =>
    rw [g1] at w2
    cases w2
  | coe p => exact ⟨p, g1, g2 p rfl⟩

end
end GenDB
end Verif
