import Verif.Lemmas.GenDBSeats
import Verif.Props.GenDBConserve
/-!
C82: the entities that lose their clusters when a reference is taken out are recorded, and get them back.
-/
namespace Verif
namespace GenDB
open PClean
noncomputable section
variable {V : Type} {F : Family V} {s : PClean.Schema} {hash : String → Int} {mkC : String → FMap String String → Res F.C}
  {mkE : String → FMap String String → Res F.E} {clean finalOnly : Bool} {t₀ t₁ : Tape} {D₀ : DB F} {D D' D'' : DB F}
  {c f d : String} {i : Int} {inds : FMap String (List Nat)} {st st' : Stored V} {out out' out'' : DomOut} {ent ent' : EntOut} {t t' t'' : Tape} {lp lp' : WithBot ℝ}

theorem Handled.firm (hmk : make s hash mkC mkE clean finalOnly t₀ = .ok (D₀, t₁)) (h : Handled D₀ D) : D.H.Firm := by
  induction h with
  | worked h => exact firm_closed.worked (make_firm hmk) h
  | ents _ ih => exact ih
  | ref _ hu ih => exact firm_closed.unincReference ih hu
  | single _ hu ih => exact firm_closed.unincSingleton ih hu
  | put _ hp ih => exact firm_closed.putStored ih hp
  | seats _ hp ih => exact firm_closed.rejoin ih hp

theorem recorded_refl (H : HIRM F) : Recorded H H ∅ := fun _ _ _ => .inl ⟨rfl, rfl⟩

theorem Recorded.left {H H' : HIRM F} (h : Recorded H H' out) : Left H ∅ H' out := h

theorem Left.recorded {H H' : HIRM F} (h : Left H ∅ H' out) : Recorded H H' out := h

theorem Recorded.away {H H' : HIRM F} (h : Recorded H H' out) : Away H' out := Away.left (fun _ _ _ _ h => by cases h) h.left

/-- **C82**, in between: when values and entities have been taken out or put back, in whatever order, the clusters are in order: in particular every value is about
entities that are in clusters. -/
theorem C82_in_order (hmk : make s hash mkC mkE clean finalOnly t₀ = .ok (D₀, t₁)) (h : Handled D₀ D) : D.H.InOrder := (h.firm hmk).inOrder (h.tidy hmk)

/-- **C82**, `unincorporate_reference`: the record of the entities without clusters is continued rightly, no recorded entity is used by a value, and of the entity
that was referred to none of the components of the query fields that lead to it keeps the cluster unless a value there uses the entity. -/
theorem C82_reference (hmk : make s hash mkC mkE clean finalOnly t₀ = .ok (D₀, t₁)) (h : Handled D₀ D) {H : HIRM F} (hr : Recorded H D.H out) (hd : D.domainInds c f = .ok inds)
    (hu : D.unincReference inds c f i st out t = .ok (lp, D', st', out', t')) :
    Recorded H D'.H out' ∧ (∀ tb d j z, out'.find? (tb, d, j) = some z → ¬ Used D'.H tb d j) ∧
    ∃ v, getRef D.ents c f i = .ok v ∧ ∀ q fld spec tb a j d, D.schema.query.fields.find? q = some fld → D.H.schema.find? q = some spec → D.H.tableOf q = some tb →
      spec.doms[a]? = some c → RelEntry D.relIdx q a f j → spec.doms[j]? = some d → D'.H.cluster tb d v = none ∨ Used D'.H tb d v := by
  obtain ⟨_, _, k1, k2⟩ := unincReference_left (h.tidy hmk) (h.firm hmk) hu
  have hr' : Recorded H D'.H out' := (hr.left.trans k1).recorded
  refine ⟨hr', fun tb d j z hz hus => ?_, ?_⟩
  · obtain ⟨w, hw⟩ := hus.seat ((Handled.ref h hu).tidy hmk) ((Handled.ref h hu).firm hmk)
    rw [hr'.away tb d j z hz] at hw
    cases hw
  · obtain ⟨v, hv, k3⟩ := k2 hr.away
    refine ⟨v, hv, fun q fld spec tb a j d hq hs hT hc he hj => ?_⟩
    have hi := domainInds_spec hd
    cases hx : inds.find? q with
    | none => exact absurd he (hi.2 q spec ⟨fld, hq⟩ hs hx a j hc)
    | some l =>
      obtain ⟨_, spec', h4, h5⟩ := hi.1 q l hx
      rw [hs] at h4
      cases h4
      exact k3 q l hx a ((h5 a).mpr ⟨hc, j, he⟩) tb spec j d he hT hs hj

/-- **C82**, `unincorporate_singleton`: the same, for the components of the attributes of the class of the entity. -/
theorem C82_singleton (hmk : make s hash mkC mkE clean finalOnly t₀ = .ok (D₀, t₁)) (h : Handled D₀ D) {H : HIRM F} (hr : Recorded H D.H out)
    (hu : D.unincSingleton c f i d st out ent = .ok (lp, D', st', out', ent')) :
    Recorded H D'.H out' ∧ (∀ tb d j z, out'.find? (tb, d, j) = some z → ¬ Used D'.H tb d j) ∧
    ∃ v rels, getRef D.ents c f i = .ok v ∧ D.classRels.find? d = some rels ∧ ∀ n ∈ rels, ∃ k j, D'.itemsOf n v = .ok k ∧ k.getLast? = some j ∧
      ∀ tb spec d, D.H.tableOf n = some tb → D.H.schema.find? n = some spec → spec.doms[k.length - 1]? = some d → D'.H.cluster tb d j = none ∨ Used D'.H tb d j := by
  obtain ⟨_, _, k1, k2⟩ := unincSingleton_left (h.tidy hmk) (h.firm hmk) hr.away hu
  have hr' : Recorded H D'.H out' := (hr.left.trans k1).recorded
  refine ⟨hr', fun tb d j z hz hus => ?_, k2⟩
  obtain ⟨w, hw⟩ := hus.seat ((Handled.single h hu).tidy hmk) ((Handled.single h hu).firm hmk)
  rw [hr'.away tb d j z hz] at hw
  cases hw

/-- **C82**: the entities go back to the clusters that they left. -/
theorem C82_rejoin (hmk : make s hash mkC mkE clean finalOnly t₀ = .ok (D₀, t₁)) (h : Handled D₀ D) (h' : Handled D₀ D') (hr : Recorded D.H D'.H out) {H : HIRM F}
    (hj : DB.rejoin out.entries D'.H t = .ok (H, t')) (tb : Int) (d : String) (i : Int) : H.cluster tb d i = D.H.cluster tb d i := by
  rw [rejoin_cluster (h'.firm hmk) _ hj]
  · rcases hr tb d i with ⟨a, b⟩ | ⟨z, a, b, e⟩
    · rw [a, b]; cases D.H.cluster tb d i <;> rfl
    · rw [a, b, e]; rfl
  · rintro ⟨tb, d, i⟩ z hz
    rcases hr tb d i with ⟨_, b⟩ | ⟨w, a, _, e⟩
    · rw [b] at hz; cases hz
    · rw [e] at hz
      cases hz
      exact (h.firm hmk).nonneg a

/-- If the entities are in the clusters that they were in, putting the stored values back does not change that. -/
theorem still_of {H₁ H₂ : HIRM F} (ht : D.H.Tidy) (hf : D.H.Firm) (hn : HIRM.Next (fun _ => True) D.H H₁) (ht' : H₁.Tidy) (hf' : H₁.Firm) (hc : ∀ tb d i, H₁.cluster tb d i = D.H.cluster tb d i)
    (hst : ∀ n k v, part st n k = some v → D.H.value n k = some v) (hp : putStored st H₁ t = .ok (H₂, t')) : Still H₁ H₂ := by
  refine putStored_still ht' hf' (fun n k v hv => ?_) hp
  intro tb spec d i hT hs hu
  rw [hn.tableOf] at hT
  rw [hn.schema] at hs
  rw [hc]
  exact placed_of ht hf (hst n k v hv) tb spec d i hT hs hu

theorem Conserved.was {H H' : HIRM F} (h : Conserved H H' st) {n : String} {k : Items} {v : V} (hv : part st n k = some v) : H.value n k = some v := by
  rw [← storedAt_part] at hv
  rcases h n k with ⟨_, b⟩ | ⟨w, a, _, e⟩
  · rw [b] at hv; cases hv
  · rw [e] at hv; cases hv; exact a

/-- **C82**: if after `unincorporate_reference` the entities go back to their clusters and then the stored values are incorporated, as `reincorporate_new_refval`
does it, every value and every cluster is what it was before. -/
theorem C82_reference_back (hmk : make s hash mkC mkE clean finalOnly t₀ = .ok (D₀, t₁)) (h : Handled D₀ D)
    (hu : D.unincReference inds c f i ∅ ∅ t = .ok (lp, D', st, out, t')) {H H' : HIRM F} {t₂ t₃ : Tape} (hj : DB.rejoin out.entries D'.H t' = .ok (H, t₂))
    (hp : putStored st H t₂ = .ok (H', t₃)) : (∀ n k, H'.value n k = D.H.value n k) ∧ ∀ tb d i, H'.cluster tb d i = D.H.cluster tb d i := by
  have h1 : Handled D₀ D' := .ref h hu
  have h2 : Handled D₀ { D' with H := H } := .seats h1 hj
  obtain ⟨_, k1, k2, _⟩ := unincReference_left (h.tidy hmk) (h.firm hmk) hu
  have hc := C82_rejoin hmk h h1 k2.recorded hj
  have hq : Quiet (fun _ => True) D'.H H := rejoin_quiet hj
  have hcons := (unincReference_out (h.tidy hmk) hu).1.conserved
  constructor
  · intro n k
    rw [C81_put hmk h2 hp]
    show (H.value n k).or _ = _
    rw [hq.value trivial]
    exact hcons.back n k
  · intro tb d i
    rw [(still_of (h.tidy hmk) (h.firm hmk) (k1.trans (hq.mono fun _ _ => trivial)) (h2.tidy hmk) (h2.firm hmk) hc (fun n k v hv => hcons.was hv) hp).cluster]
    exact hc tb d i

/-- **C82**: the same if the entity that only this reference leads to is taken out too. -/
theorem C82_both_back (hmk : make s hash mkC mkE clean finalOnly t₀ = .ok (D₀, t₁)) (h : Handled D₀ D)
    (hu : D.unincReference inds c f i ∅ ∅ t = .ok (lp, D', st, out, t')) {e : Ents} (hs : { D' with ents := e }.unincSingleton c f i d ∅ out ent = .ok (lp', D'', st', out', ent'))
    {H H' H'' : HIRM F} {t₂ t₃ t₄ : Tape} (hj : DB.rejoin out'.entries D''.H t' = .ok (H, t₂)) (hp : putStored st' H t₂ = .ok (H', t₃)) (hp' : putStored st H' t₃ = .ok (H'', t₄)) :
    (∀ n k, H''.value n k = D.H.value n k) ∧ ∀ tb d i, H''.cluster tb d i = D.H.cluster tb d i := by
  have h1 : Handled D₀ { D' with ents := e } := .ents (.ref h hu)
  have h2 : Handled D₀ D'' := .single h1 hs
  have h3 : Handled D₀ { D'' with H := H } := .seats h2 hj
  have h4 : Handled D₀ { D'' with H := H' } := .put (D := { D'' with H := H }) h3 hp
  obtain ⟨_, k1, k2, _⟩ := unincReference_left (h.tidy hmk) (h.firm hmk) hu
  obtain ⟨_, k3, k4, _⟩ := unincSingleton_left (h1.tidy hmk) (h1.firm hmk) k2.recorded.away hs
  have hc := C82_rejoin hmk h h2 (k2.trans k4).recorded hj
  have hq : Quiet (fun _ => True) D''.H H := rejoin_quiet hj
  have hcons := (unincReference_out (h.tidy hmk) hu).1.conserved
  have hcons' : Conserved D'.H D''.H st' := (unincSingleton_out (h1.tidy hmk) hs).2.1.conserved
  have hwas : ∀ n k v, part st' n k = some v → D.H.value n k = some v := fun n k v hv => by
    have := hcons'.was hv
    rcases hcons n k with ⟨a, _⟩ | ⟨_, _, b, _⟩
    · rw [← a]; exact this
    · rw [b] at this; cases this
  have s1 := still_of (h.tidy hmk) (h.firm hmk) ((k1.trans k3).trans (hq.mono fun _ _ => trivial)) (h3.tidy hmk) (h3.firm hmk) hc hwas hp
  have hc' : ∀ tb d i, H'.cluster tb d i = D.H.cluster tb d i := fun tb d i => (s1.cluster tb d i).trans (hc tb d i)
  have s2 := still_of (h.tidy hmk) (h.firm hmk) (((k1.trans k3).trans (hq.mono fun _ _ => trivial)).trans s1.next) (h4.tidy hmk) (h4.firm hmk) hc' (fun n k v hv => hcons.was hv) hp'
  refine ⟨fun n k => ?_, fun tb d i => (s2.cluster tb d i).trans (hc' tb d i)⟩
  rw [C81_put hmk h4 hp']
  show (H'.value n k).or _ = _
  rw [C81_put hmk h3 hp]
  show ((H.value n k).or _).or _ = _
  rw [hq.value trivial, hcons'.back n k]
  exact hcons.back n k

/-! ### Concrete cases -/
open Latent (bools boolLaws)

/-- what comes of taking out a reference and the entity that only it refers to, entities and all -/
structure TakenSeats where
  D : DB bools
  out : DomOut
  out' : DomOut
  gone : DB bools
  all : HIRM bools

/-- A reference is taken out, then its entity, the entities go back to their clusters, and the values are put back. -/
def takeSeats (s : PClean.Schema) (clean : Bool) (rows : List (Row Bool)) (c f : String) (i : Int) (d : String) : Res TakenSeats := do
  let (D, _) ← loadAll s clean false 4 rows
  let inds ← D.domainInds c f
  let (_, D₁, st, out, t) ← D.unincReference inds c f i ∅ ∅ []
  let crp ← D₁.ents.crps.atKey d
  let crp ← crp.unincorporate (refId D₁.hash c f i)
  let e : Ents := { D₁.ents with crps := D₁.ents.crps.set d crp }
  let (_, D₂, st', out', _) ← { D₁ with ents := e }.unincSingleton c f i d ∅ out ∅
  let (H, t) ← DB.rejoin out'.entries D₂.H t
  let (H', t) ← putStored st' H t
  let (H'', _) ← putStored st H' t
  .ok ⟨D, out, out', D₂, H''⟩

/-- the clusters of the entities -/
def clustersOf (H : HIRM bools) : List (Int × List (String × List (Int × Int))) := H.irms.entries.map (fun x => (x.1, x.2.doms.entries.map (fun y => (y.1, y.2.crp.assignments.entries))))

set_option maxRecDepth 40000 in
/-- Practice 1 is visited by row 8 only.  When the values of the row are out, the practice keeps its cluster, as its attributes use it; when these are out too, it leaves
the cluster and is recorded, and in the end it is back. -/
theorem takeSeats_witness : (takeSeats visits false [bothRow true 8 true false, bothRow true 7 false true] "Record" "location" 8 "Practice").map
      (fun x => (x.out.entries, x.out'.entries, clustersOf x.D.H, clustersOf x.gone.H, clustersOf x.all)) =
    .ok ([], [((0, "Practice", 1), 0)],
      [(0, [("City", [(0, 0), (1, 0)]), ("Practice", [(0, 0), (1, 0)]), ("Record", [(7, 0), (8, 0)])])],
      [(0, [("City", [(0, 0), (1, 0)]), ("Practice", [(0, 0)]), ("Record", [(7, 0), (8, 0)])])],
      [(0, [("City", [(0, 0), (1, 0)]), ("Practice", [(0, 0), (1, 0)]), ("Record", [(7, 0), (8, 0)])])]) := rfl

/-- All theorems about C82, for row 8 and its practice. -/
example : ∃ (D₀ : DB bools) (t₀ : Tape) (D : DB bools) (inds : FMap String (List Nat)) (D₁ : DB bools) (out : DomOut) (e : Ents) (D₂ : DB bools) (out' : DomOut) (H H'' : HIRM bools),
    start visits false false = .ok (D₀, t₀) ∧ Handled D₀ D ∧ D.domainInds "Record" "location" = .ok inds ∧ Recorded D.H D₁.H out ∧ Handled D₀ { D₁ with ents := e } ∧
    Recorded D.H D₂.H out' ∧ Handled D₀ D₂ ∧ D₂.H.InOrder ∧ out'.find? (0, "Practice", 1) = some 0 ∧ D.H.cluster 0 "Practice" 1 = some 0 ∧ D₂.H.cluster 0 "Practice" 1 = none ∧
    ¬ Used D₂.H 0 "Practice" 1 ∧ (∀ tb d i, H.cluster tb d i = D.H.cluster tb d i) ∧
    (∀ n k, H''.value n k = D.H.value n k) ∧ ∀ tb d i, H''.cluster tb d i = D.H.cluster tb d i := by
  obtain ⟨x, h, hx⟩ := Res.of_map takeSeats_witness
  unfold takeSeats at h
  obtain ⟨⟨D, u⟩, h0, h⟩ := bind_ok.mp h
  dsimp only at h
  obtain ⟨inds, h1, h⟩ := bind_ok.mp h
  obtain ⟨⟨lp, D₁, st, out, t⟩, h2, h⟩ := bind_ok.mp h
  dsimp only at h
  obtain ⟨crp, _, h⟩ := bind_ok.mp h
  obtain ⟨crp', _, h⟩ := bind_ok.mp h
  obtain ⟨⟨lp', D₂, st', out', ent'⟩, h3, h⟩ := bind_ok.mp h
  dsimp only at h
  obtain ⟨⟨H, t'⟩, h4, h⟩ := bind_ok.mp h
  dsimp only at h
  obtain ⟨⟨H', t''⟩, h5, h⟩ := bind_ok.mp h
  dsimp only at h
  obtain ⟨⟨H'', t₃⟩, h6, h⟩ := bind_ok.mp h
  cases h
  simp only [Prod.mk.injEq] at hx
  obtain ⟨_, e2, _⟩ := hx
  obtain ⟨D₀, t₀, hs, hw⟩ := visits_worked rfl rfl h0
  have hh : Handled D₀ D := .worked hw
  have hh' : Handled D₀ { D₁ with ents := { D₁.ents with crps := D₁.ents.crps.set "Practice" crp' } } := .ents (.ref hh h2)
  have r1 := C82_reference hs hh (recorded_refl D.H) h1 h2
  have r2 := C82_singleton hs hh' (H := D.H) r1.1 h3
  have hh₂ : Handled D₀ D₂ := .single hh' h3
  have ho : out'.find? (0, "Practice", 1) = some 0 := FMap.mem_entries.mp (by rw [e2]; exact List.mem_cons_self ..)
  have hc : D.H.cluster 0 "Practice" 1 = some 0 ∧ D₂.H.cluster 0 "Practice" 1 = none := by
    rcases r2.1 0 "Practice" 1 with ⟨_, b⟩ | ⟨z, a, b, e⟩
    · rw [ho] at b; cases b
    · rw [ho] at e; cases e; exact ⟨a, b⟩
  exact ⟨D₀, t₀, D, inds, D₁, out, _, D₂, out', H, H'', hs, hh, h1, r1.1, hh', r2.1, hh₂, C82_in_order hs hh₂, ho, hc.1, hc.2, r2.2.1 _ _ _ _ ho, C82_rejoin hs hh hh₂ r2.1 h4,
    (C82_both_back hs hh h2 h3 h4 h5 h6).1, (C82_both_back hs hh h2 h3 h4 h5 h6).2⟩

end
end GenDB
end Verif
