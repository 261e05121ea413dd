import Verif.Lemmas.GenDBConserve
import Verif.Props.GenDBClusters
import Verif.Props.GenDBMove
/-!
C81: taking values out of a database loses nothing, and what is taken out can be put back.
-/
namespace Verif
namespace GenDB
open PClean
noncomputable section
variable {V : Type} {F : Family V} {s : PClean.Schema} {hash : String → Int} {mkC : String → FMap String String → Res F.C}
  {mkE : String → FMap String String → Res F.E} {clean finalOnly : Bool} {t₀ t₁ : Tape} {D₀ : DB F} {D D' D'' : DB F}
  {c f d : String} {i : Int} {inds : FMap String (List Nat)} {st st' : Stored V} {out out' out'' : DomOut} {ent ent' : EntOut} {t t' t'' : Tape} {lp lp' : WithBot ℝ}

theorem storedAt_part (st : Stored V) (n : String) (k : Items) : storedAt st n k = part st n k := by
  unfold storedAt part
  cases st.find? n <;> rfl

theorem Out.conserved {S : Prop} {G : String → Items → Prop} {H H' : HIRM F} (h : Out S G H ∅ H' st) : Conserved H H' st := by
  intro n k
  rw [storedAt_part]
  rcases h.each n k with ⟨a, b⟩ | ⟨_, h⟩
  · exact Or.inl ⟨a, b⟩
  · exact Or.inr h

theorem inUse_busy {n : String} {k : Items} : InUse D n k ↔ Busy D.H.schema D.ents.crps n k := by
  unfold InUse Busy ownerClass
  constructor
  · rintro ⟨c, crp, j, s, h1, h2, h3, h4⟩
    cases hs : D.H.schema.find? n with
    | none => rw [hs] at h1; cases h1
    | some spec => rw [hs] at h1; exact ⟨spec, c, crp, j, rfl, h1, h2, h3, FMap.contains_iff.mpr ⟨s, h4⟩⟩
  · rintro ⟨spec, c, crp, j, hs, h1, h2, h3, h4⟩
    obtain ⟨s, h4⟩ := FMap.contains_iff.mp h4
    exact ⟨c, crp, j, s, by rw [hs]; exact h1, h2, h3, h4⟩

theorem Handled.tidy (hmk : make s hash mkC mkE clean finalOnly t₀ = .ok (D₀, t₁)) (h : Handled D₀ D) : D.H.Tidy := by
  induction h with
  | worked h => exact tidy_holding.worked (make_tidy hmk) h
  | ents _ ih => exact ih
  | ref _ hu ih => exact (unincReference_out ih hu).1.tidy
  | single _ hu ih => exact (unincSingleton_out ih hu).2.1.tidy
  | put _ hp ih => exact (putStored_back ih hp).1
  | seats _ hp ih => exact tidy_holding.rejoin ih hp

/-- **C81**, `unincorporate_reference`: of no relation and no tuple is the value lost: it stays or it is stored.  What is taken out is at tuples with the entity,
and no query field keeps a value at a tuple with the entity at a position where the reference of this field leads on. -/
theorem C81_reference (hmk : make s hash mkC mkE clean finalOnly t₀ = .ok (D₀, t₁)) (h : Handled D₀ D) (hd : D.domainInds c f = .ok inds)
    (hu : D.unincReference inds c f i ∅ out t = .ok (lp, D', st, out', t')) :
    Conserved D.H D'.H st ∧ (∀ n k v, storedAt st n k = some v → i ∈ k) ∧
    ∀ q fld spec a j k, D.schema.query.fields.find? q = some fld → D.H.schema.find? q = some spec → spec.doms[a]? = some c → RelEntry D.relIdx q a f j →
      k[a]? = some i → D'.H.value q k = none := by
  obtain ⟨k1, k2⟩ := unincReference_out (h.tidy hmk) hu
  refine ⟨k1.conserved, fun n k v hv => ?_, ?_⟩
  · rw [storedAt_part] at hv
    rcases k1.each n k with ⟨_, b⟩ | ⟨hi, _⟩
    · rw [hv] at b; cases b
    · exact hi
  · intro q fld spec a j k hq hs hc he hk
    have hi := domainInds_spec hd
    cases hx : inds.find? q with
    | none => exact absurd he (hi.2 q spec ⟨fld, hq⟩ hs hx a j hc)
    | some l =>
      obtain ⟨_, spec', h4, h5⟩ := hi.1 q l hx
      rw [hs] at h4
      cases h4
      exact k2 q l spec hx hs a ((h5 a).mpr ⟨hc, j, he⟩) hc k hk

/-- **C81**, `unincorporate_singleton`: no value is lost, the attributes of entities that are still in use stay, and of the entity that was referred to every
attribute is taken out unless the entity is still in use. -/
theorem C81_singleton (hmk : make s hash mkC mkE clean finalOnly t₀ = .ok (D₀, t₁)) (h : Handled D₀ D)
    (hu : D.unincSingleton c f i d ∅ out ent = .ok (lp, D', st, out', ent')) :
    Conserved D.H D'.H st ∧ (∀ n k, InUse D' n k → D'.H.value n k = D.H.value n k ∧ storedAt st n k = none) ∧
    ∃ v rels, getRef D.ents c f i = .ok v ∧ D.classRels.find? d = some rels ∧
      ∀ n ∈ rels, ∃ k, D'.itemsOf n v = .ok k ∧ (¬ InUse D' n k → D'.H.value n k = none) := by
  obtain ⟨_, k1, v, rels, h1, h2, k2⟩ := unincSingleton_out (h.tidy hmk) hu
  refine ⟨k1.conserved, fun n k hin => ?_, v, rels, h1, h2, fun n hn => ?_⟩
  · rw [storedAt_part]
    rcases k1.each n k with h | ⟨hi, _⟩
    · exact h
    · exact absurd (inUse_busy.mp hin) hi.busy
  · obtain ⟨k, e1, e2⟩ := k2 n hn
    exact ⟨k, e1, fun hi => e2 (fun hb => hi (inUse_busy.mpr hb))⟩

/-- **C81**, `incorporate_reference`: a value that is there stays, and where there is none the stored one comes in. -/
theorem C81_put (hmk : make s hash mkC mkE clean finalOnly t₀ = .ok (D₀, t₁)) (h : Handled D₀ D) {H : HIRM F} (hp : putStored st D.H t = .ok (H, t')) (n : String) (k : Items) :
    H.value n k = (D.H.value n k).or (storedAt st n k) := by
  rw [storedAt_part]
  exact (putStored_back (h.tidy hmk) hp).2 n k

theorem Conserved.back {H H' : HIRM F} (h : Conserved H H' st) (n : String) (k : Items) : (H'.value n k).or (storedAt st n k) = H.value n k := by
  rcases h n k with ⟨a, b⟩ | ⟨v, a, b, e⟩
  · rw [a, b]; cases H.value n k <;> rfl
  · rw [a, b, e]; rfl

/-- **C81**: `incorporate_reference` undoes `unincorporate_reference`. -/
theorem C81_reference_back (hmk : make s hash mkC mkE clean finalOnly t₀ = .ok (D₀, t₁)) (h : Handled D₀ D)
    (hu : D.unincReference inds c f i ∅ out t = .ok (lp, D', st, out', t')) {H : HIRM F} (hp : putStored st D'.H t' = .ok (H, t'')) (n : String) (k : Items) :
    H.value n k = D.H.value n k := by
  rw [C81_put hmk (.ref h hu) hp]
  exact (unincReference_out (h.tidy hmk) hu).1.conserved.back n k

/-- **C81**: `incorporate_reference` undoes `unincorporate_singleton`. -/
theorem C81_singleton_back (hmk : make s hash mkC mkE clean finalOnly t₀ = .ok (D₀, t₁)) (h : Handled D₀ D)
    (hu : D.unincSingleton c f i d ∅ out ent = .ok (lp, D', st, out', ent')) {H : HIRM F} (hp : putStored st D'.H t = .ok (H, t'')) (n : String) (k : Items) :
    H.value n k = D.H.value n k := by
  rw [C81_put hmk (.single h hu) hp]
  exact (unincSingleton_out (h.tidy hmk) hu).2.1.conserved.back n k

/-- **C81**: both can be taken out one after the other, as when the only reference to an entity is reassigned, and be put back. -/
theorem C81_both_back (hmk : make s hash mkC mkE clean finalOnly t₀ = .ok (D₀, t₁)) (h : Handled D₀ D)
    (hu : D.unincReference inds c f i ∅ out t = .ok (lp, D', st, out', t')) {e : Ents}
    (hs : { D' with ents := e }.unincSingleton c f i d ∅ out' ent = .ok (lp', D'', st', out'', ent')) {H H' : HIRM F} {t₂ : Tape} (hp : putStored st' D''.H t' = .ok (H, t''))
    (hp' : putStored st H t'' = .ok (H', t₂)) (n : String) (k : Items) : H'.value n k = D.H.value n k := by
  have h1 : Handled D₀ { D' with ents := e } := .ents (.ref h hu)
  have h2 : Handled D₀ { D'' with H := H } := .put (.single h1 hs) hp
  rw [C81_put hmk h2 hp']
  show (H.value n k).or (storedAt st n k) = _
  rw [C81_singleton_back hmk h1 hs hp]
  exact (unincReference_out (h.tidy hmk) hu).1.conserved.back n k

/-! ### Concrete cases -/
open Latent (bools boolLaws)

/-- the values of the relations -/
def valuesOf (H : HIRM bools) : List (String × List (Items × Bool)) := H.schema.keys.map (fun n => (n, ((H.dataOf n).map (·.entries)).getD []))

/-- the stored values -/
def storedOf (st : Stored Bool) : List (String × List (Items × Bool)) := st.entries.map (fun x => (x.1, x.2.entries))

/-- what comes of taking out a reference and the entity that only it refers to -/
structure Taken where
  D : DB bools
  inds : FMap String (List Nat)
  out : DB bools
  stored : Stored Bool
  ents : Ents
  gone : DB bools
  single : Stored Bool
  back : HIRM bools
  all : HIRM bools

/-- a reference is taken out, then its entity, and both are put back -/
def take (s : PClean.Schema) (clean : Bool) (rows : List (Row Bool)) (c f : String) (i : Int) (d : String) : Res Taken := do
  let (D, _) ← loadAll s clean false 4 rows
  let inds ← D.domainInds c f
  let (_, D₁, st, out, t) ← D.unincReference inds c f i ∅ ∅ []
  let crp ← D₁.ents.crps.atKey d
  let crp ← crp.unincorporate (refId D₁.hash c f i)
  let e : Ents := { D₁.ents with crps := D₁.ents.crps.set d crp }
  let (_, D₂, st', _, _) ← { D₁ with ents := e }.unincSingleton c f i d ∅ out ∅
  let (H, t) ← putStored st' D₂.H t
  let (H', _) ← putStored st H t
  .ok ⟨D, inds, D₁, st, e, D₂, st', H, H'⟩

set_option maxRecDepth 40000 in
/-- Practice 1 is visited by row 8 only.  The values of the row are stored, then the address of the practice and what it says about the name of its city, while
the name itself stays. -/
theorem take_witness : (take visits false [bothRow true 8 true false, bothRow true 7 false true] "Record" "location" 8 "Practice").map
      (fun x => (storedOf x.stored, storedOf x.single, valuesOf x.gone.H)) =
    .ok ([("Addr", [([1, 1, 8], true)]), ("City", [([1, 1, 8], false)])], [("Practice::City", [([1, 1], false)]), ("Practice:addr", [([1, 1], false)])],
      [("Addr", [([0, 0, 7], false)]), ("City", [([0, 0, 7], true)]), ("City:name", [([0], false), ([1], false)]), ("Practice::City", [([0, 0], false)]),
        ("Practice:addr", [([0, 0], false)]), ("Record:note", [])]) := rfl

theorem visits_worked {x y : Row Bool} {D : DB bools} {t : Tape} {ux uy : Bool} {a b a' b' : Bool} {i j : Int} (hx : x = bothRow ux i a b) (hy : y = bothRow uy j a' b')
    (h : loadAll visits false false 4 [x, y] = .ok (D, t)) : ∃ D₀ t₀, start visits false false = .ok (D₀, t₀) ∧ Worked D₀ [x, y] D := by
  subst hx hy
  unfold loadAll at h
  obtain ⟨⟨D₂, t₂⟩, h2, h⟩ := bind_ok.mp h
  unfold loadAll at h2
  obtain ⟨⟨D₁, t₁⟩, h1, h2⟩ := bind_ok.mp h2
  unfold loadAll at h1
  have hfit : ∀ u i a b q w, (bothRow u i a b).vals.find? q = some w → ∃ f, D₁.schema.query.fields.find? q = some f := fun u i a b q w hw => by
    obtain ⟨f, _, hf, _⟩ := both_fits h1 u i a b q w hw
    exact ⟨f, hf⟩
  exact ⟨D₁, t₁, h1, .row (.row .nil (hfit _ _ _ _) h2) (hfit _ _ _ _) h⟩

theorem Res.of_map {α β : Type _} {x : Res α} {f : α → β} {b : β} (h : x.map f = .ok b) : ∃ a, x = .ok a ∧ f a = b := by
  cases x with
  | error e => cases h
  | ok a => exact ⟨a, rfl, Except.ok.inj h⟩

theorem storedAt_of {st : Stored Bool} {l : List (String × List (Items × Bool))} (h : storedOf st = l) {n : String} {k : Items} {v : Bool} :
    storedAt st n k = some v ↔ ∃ m, (n, m) ∈ l ∧ (k, v) ∈ m := by
  subst h
  unfold storedAt storedOf
  constructor
  · intro h
    cases hx : st.find? n with
    | none => rw [hx] at h; cases h
    | some m => rw [hx] at h; exact ⟨m.entries, List.mem_map.mpr ⟨_, FMap.mem_entries.mpr hx, rfl⟩, FMap.mem_entries.mpr h⟩
  · rintro ⟨m, h1, h2⟩
    obtain ⟨⟨n', m'⟩, h3, h4⟩ := List.mem_map.mp h1
    cases h4
    rw [FMap.mem_entries.mp h3]
    exact FMap.mem_entries.mp h2

/-- All theorems about C81, for row 8 and its practice: values of the query fields and attributes of the practice are stored, and all come back. -/
example : ∃ (D₀ : DB bools) (t₀ : Tape) (D : DB bools) (inds : FMap String (List Nat)) (D₁ : DB bools) (st : Stored Bool) (e : Ents) (D₂ : DB bools) (st' : Stored Bool) (H H' : HIRM bools),
    start visits false false = .ok (D₀, t₀) ∧ Handled D₀ D ∧ D.domainInds "Record" "location" = .ok inds ∧
    Conserved D.H D₁.H st ∧ storedAt st "Addr" [1, 1, 8] = some true ∧ Handled D₀ { D₁ with ents := e } ∧ Conserved D₁.H D₂.H st' ∧
    storedAt st' "Practice:addr" [1, 1] = some false ∧ (∀ n k, H.value n k = D₁.H.value n k) ∧ ∀ n k, H'.value n k = D.H.value n k := by
  obtain ⟨x, h, hx⟩ := Res.of_map take_witness
  unfold take at h
  obtain ⟨⟨D, u⟩, h0, h⟩ := bind_ok.mp h
  dsimp only at h
  obtain ⟨inds, h1, h⟩ := bind_ok.mp h
  obtain ⟨⟨lp, D₁, st, out, t⟩, h2, h⟩ := bind_ok.mp h
  dsimp only at h
  obtain ⟨crp, _, h⟩ := bind_ok.mp h
  obtain ⟨crp', _, h⟩ := bind_ok.mp h
  obtain ⟨⟨lp', D₂, st', out', ent'⟩, h3, h⟩ := bind_ok.mp h
  dsimp only at h
  obtain ⟨⟨H, t'⟩, h4, h⟩ := bind_ok.mp h
  dsimp only at h
  obtain ⟨⟨H', t''⟩, h5, h⟩ := bind_ok.mp h
  cases h
  simp only [Prod.mk.injEq] at hx
  obtain ⟨e1, e2, _⟩ := hx
  obtain ⟨D₀, t₀, hs, hw⟩ := visits_worked rfl rfl h0
  have hh : Handled D₀ D := .worked hw
  have hh' : Handled D₀ { D₁ with ents := { D₁.ents with crps := D₁.ents.crps.set "Practice" crp' } } := .ents (.ref hh h2)
  exact ⟨D₀, t₀, D, inds, D₁, st, _, D₂, st', H, H', hs, hh, h1, (C81_reference hs hh h1 h2).1, (storedAt_of e1).mpr ⟨_, List.mem_cons_self .., List.mem_cons_self ..⟩,
    hh', (C81_singleton hs hh' h3).1, (storedAt_of e2).mpr ⟨_, List.mem_cons_of_mem _ (List.mem_cons_self ..), List.mem_cons_self ..⟩, C81_singleton_back hs hh' h3 h4,
    C81_both_back hs hh h2 h3 h4 h5⟩

end
end GenDB
end Verif
