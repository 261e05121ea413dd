import Verif.Lemmas.GenDBTake
import Verif.Lemmas.GenDBMoved
/-!
The values of the query relations under the transitions of references: the tuples of a query field, what is taken out, and what is put back.
-/
namespace Verif
namespace GenDB
open PClean
noncomputable section
variable {V : Type} {F : Family V}

/-- The query fields. -/
def Queried (D : DB F) (q : String) : Prop := ∃ f, D.schema.query.fields.find? q = some f

/-- What the transitions need to know about the relations of a database; the schema, not the state, decides it. -/
structure Ready (D : DB F) (r : String → Nat) : Prop where
  rank : ∀ c f d, Refers D.schema c f d → r d < r c
  query : ∀ q, Queried D q → ∃ spec, D.H.schema.find? q = some spec ∧ spec.observed = true ∧ spec.doms.getLast? = some D.schema.query.recordClass ∧
    TreeIdx D.schema spec.doms (RelEntry D.relIdx q) ∧ Rooted spec.doms (RelEntry D.relIdx q)
  base : NoBase (Queried D) D.H.schema
  cls : ∀ d rels n, d ≠ D.schema.query.recordClass → D.classRels.find? d = some rels → n ∈ rels → ¬ Queried D n

theorem Same.queried {D D' : DB F} (h : Same D D') : Queried D' = Queried D := by
  funext q
  unfold Queried
  rw [h.schema]

theorem Ready.same {D D' : DB F} {r : String → Nat} (h : Ready D r) (hs : Same D D') : Ready D' r := by
  obtain ⟨h1, h2, h3, h4⟩ := h
  refine ⟨?_, ?_, ?_, ?_⟩
  · rw [hs.schema]; exact h1
  · rw [hs.queried, hs.schema, hs.relIdx, hs.rels]; exact h2
  · rw [hs.queried, hs.rels]; exact h3
  · rw [hs.queried, hs.schema, hs.classRels]; exact h4

/-- The tuple of the query field that belongs to the row, by the reference indices of the relation. -/
def RowOf (D : DB F) (e : Ents) (q : String) (id : Int) (k : Items) : Prop :=
  ∃ spec, D.H.schema.find? q = some spec ∧ Follows e spec.doms (RelEntry D.relIdx q) k ∧ k.getLast? = some id

theorem RowOf.same {D D' : DB F} (hs : Same D D') {e : Ents} {q : String} {id : Int} {k : Items} : RowOf D' e q id k ↔ RowOf D e q id k := by
  unfold RowOf
  rw [hs.rels, hs.relIdx]

/-- The tuple has the entity at a position where its class has the reference field. -/
def Touch (D : DB F) (c f : String) (i : Int) (q : String) (k : Items) : Prop :=
  ∃ spec a j, D.H.schema.find? q = some spec ∧ spec.doms[a]? = some c ∧ RelEntry D.relIdx q a f j ∧ k[a]? = some i

theorem Touch.same {D D' : DB F} (hs : Same D D') {c f : String} {i : Int} : Touch D' c f i = Touch D c f i := by
  funext q k
  unfold Touch
  rw [hs.rels, hs.relIdx]

/-- All references but one are still there. -/
def Agree (c f : String) (i : Int) (e e' : Ents) : Prop := ∀ c' f' i' w, ¬ (c' = c ∧ f' = f ∧ i' = i) → HasRef e c' f' i' w → HasRef e' c' f' i' w

section
variable {D : DB F} {r : String → Nat} {c f : String} {i : Int} {e e' : Ents} {q : String}

theorem RowOf.last {id : Int} {k : Items} {spec : RelSpec F} (hs : D.H.schema.find? q = some spec) (h : RowOf D e q id k) : k[spec.doms.length - 1]? = some id := by
  obtain ⟨spec', h1, h2, h3⟩ := h
  rw [hs] at h1
  cases h1
  rw [← h2.1, ← List.getLast?_eq_getElem?]
  exact h3

theorem RowOf.row {id id' : Int} {k : Items} (h : RowOf D e q id k) (h' : RowOf D e' q id' k) : id = id' := by
  obtain ⟨_, _, _, h3⟩ := h
  obtain ⟨_, _, _, h3'⟩ := h'
  rw [h3] at h3'
  cases h3'
  rfl

theorem RowOf.unique (hr : Ready D r) (hq : Queried D q) {id : Int} {k k' : Items} (h : RowOf D e q id k) (h' : RowOf D e q id k') : k = k' := by
  obtain ⟨spec, hs, _, _, hE, hR⟩ := hr.query q hq
  have l := RowOf.last hs h
  have l' := RowOf.last hs h'
  obtain ⟨spec', h1, h2, _⟩ := h
  obtain ⟨spec'', h1', h2', _⟩ := h'
  rw [hs] at h1 h1'
  cases h1
  cases h1'
  exact Follows.unique hE hR h2 h2' (l.trans l'.symm)

/-- A tuple that the reference does not touch is still the tuple of its row. -/
theorem RowOf.untouched (ha : Agree c f i e e') {id : Int} {k : Items} (h : RowOf D e q id k) (hn : ¬ Touch D c f i q k) : RowOf D e' q id k := by
  obtain ⟨spec, h1, h2, h3⟩ := h
  refine ⟨spec, h1, ⟨h2.1, fun a g b hE => ?_⟩, h3⟩
  obtain ⟨c', x, y, k1, k2, k3, k4⟩ := h2.2 a g b hE
  refine ⟨c', x, y, k1, k2, k3, ha _ _ _ _ ?_ k4⟩
  rintro ⟨rfl, rfl, rfl⟩
  exact hn ⟨spec, a, b, h1, k1, hE, k2⟩

/-- Whether the reference touches the tuple of a row does not depend on its value. -/
theorem RowOf.touch (hr : Ready D r) (ha : Agree c f i e e') (hq : Queried D q) {id : Int} {k k' : Items} (h : RowOf D e q id k) (h' : RowOf D e' q id k') :
    Touch D c f i q k ↔ Touch D c f i q k' := by
  obtain ⟨spec, hs, _, hlast, hE, hR⟩ := hr.query q hq
  have l := RowOf.last hs h
  have l' := RowOf.last hs h'
  obtain ⟨spec', h1, h2, _⟩ := h
  obtain ⟨spec'', h1', h2', _⟩ := h'
  rw [hs] at h1 h1'
  cases h1
  cases h1'
  have all : ∀ n b x, b + n + 1 = spec.doms.length → spec.doms[b]? = some x → r c ≤ r x → k[b]? = k'[b]? := by
    intro n
    induction n using Nat.strong_induction_on with
    | _ n ih =>
      intro b x hb hx hrx
      by_cases h0 : n = 0
      · have : b = spec.doms.length - 1 := by omega
        subst this
        exact l.trans l'.symm
      · obtain ⟨a, g, hE'⟩ := hR b (by omega)
        obtain ⟨s1, y, z, s2, s3, s4⟩ := hE.sound a g b hE'
        rw [hx] at s3
        cases s3
        have hlt := hr.rank _ _ _ s4
        have := (List.getElem?_eq_some_iff.mp s2).1
        have hv := ih (spec.doms.length - 1 - a) (by omega) a y (by omega) s2 (by omega)
        obtain ⟨c', u, w, k1, k2, k3, k4⟩ := h2.2 a g b hE'
        obtain ⟨c'', u', w', k1', k2', k3', k4'⟩ := h2'.2 a g b hE'
        rw [s2] at k1 k1'
        cases k1
        cases k1'
        rw [k2, k2'] at hv
        cases hv
        have hne : ¬ (y = c ∧ g = f ∧ u = i) := by
          rintro ⟨rfl, _, _⟩
          omega
        rw [k3, k3', (ha _ _ _ _ hne k4).fun k4']
  have eq : ∀ a : Nat, spec.doms[a]? = some c → k[a]? = k'[a]? := by
    intro a hx
    have := (List.getElem?_eq_some_iff.mp hx).1
    exact all (spec.doms.length - 1 - a) a c (by omega) hx (Nat.le_refl _)
  constructor
  · rintro ⟨sp, a, j, t1, t2, t3, t4⟩
    rw [hs] at t1
    cases t1
    exact ⟨spec, a, j, hs, t2, t3, by rw [← eq a t2]; exact t4⟩
  · rintro ⟨sp, a, j, t1, t2, t3, t4⟩
    rw [hs] at t1
    cases t1
    exact ⟨spec, a, j, hs, t2, t3, by rw [eq a t2]; exact t4⟩

theorem RowOf.congr (h : ∀ c f i v, HasRef e c f i v ↔ HasRef e' c f i v) {id : Int} {k : Items} : RowOf D e q id k ↔ RowOf D e' q id k := by
  unfold RowOf Follows
  simp only [h]

end

/-! ### The positions -/

theorem indsLoop_spec {m : RefIdx} {c f : String} {ds : List String} : ∀ {n : Nat} {l : List Nat}, DB.indsLoop m c f ds n = .ok l →
    ∀ a, a ∈ l ↔ ∃ b, a = n + b ∧ ds[b]? = some c ∧ ∃ j, Entry m a f j := by
  induction ds with
  | nil => intro n l h a; cases h; simp
  | cons d ds ih =>
    intro n l h a
    have shift : (∃ b, a = n + b ∧ (d :: ds)[b]? = some c ∧ ∃ j, Entry m a f j) ↔
        (a = n ∧ d = c ∧ ∃ j, Entry m a f j) ∨ ∃ b, a = n + 1 + b ∧ ds[b]? = some c ∧ ∃ j, Entry m a f j := by
      constructor
      · rintro ⟨b, h1, h2, h3⟩
        cases b with
        | zero => exact Or.inl ⟨by omega, by simpa using h2, h3⟩
        | succ b => exact Or.inr ⟨b, by omega, by simpa using h2, h3⟩
      · rintro (⟨h1, h2, h3⟩ | ⟨b, h1, h2, h3⟩)
        · exact ⟨0, by omega, by simpa using h2, h3⟩
        · exact ⟨b + 1, by omega, by simpa using h2, h3⟩
    rw [shift]
    unfold DB.indsLoop at h
    split at h
    · rename_i hd
      obtain ⟨r, h1, h⟩ := bind_ok.mp h
      obtain ⟨l', h2, h⟩ := bind_ok.mp h
      cases h
      have h1 := FMap.atKey_ok.mp h1
      have hr : r.contains f = true ↔ ∃ j, Entry m n f j := by
        rw [FMap.contains_iff]
        unfold Entry
        constructor
        · rintro ⟨j, hj⟩; exact ⟨j, r, h1, hj⟩
        · rintro ⟨j, r', hr', hj⟩
          rw [h1] at hr'
          cases hr'
          exact ⟨j, hj⟩
      rw [← ih h2 a]
      by_cases hc : r.contains f = true
      · rw [if_pos hc, List.mem_cons]
        refine or_congr ⟨fun e => ⟨e, hd, by rw [e]; exact hr.mp hc⟩, fun e => e.1⟩ Iff.rfl
      · rw [if_neg hc]
        refine ⟨Or.inr, ?_⟩
        rintro (⟨rfl, _, h3⟩ | h)
        · exact absurd (hr.mpr h3) hc
        · exact h
    · rename_i hd
      rw [← ih h a]
      exact ⟨Or.inr, fun h => h.resolve_left (fun h => hd h.2.1)⟩

theorem relInds_spec {D : DB F} {c f rel : String} {ds : List String} {l : List Nat} (h : D.relInds c f rel ds = .ok l) :
    ∀ a, a ∈ l ↔ ds[a]? = some c ∧ ∃ j, RelEntry D.relIdx rel a f j := by
  intro a
  unfold DB.relInds at h
  split at h
  · obtain ⟨idx, h1, h⟩ := bind_ok.mp h
    have h1 := FMap.atKey_ok.mp h1
    rw [indsLoop_spec h a]
    constructor
    · rintro ⟨b, h2, h3, j, h4⟩
      rw [Nat.zero_add] at h2
      subst h2
      exact ⟨h3, j, idx, h1, h4⟩
    · rintro ⟨h3, j, idx', h4, h5⟩
      rw [h1] at h4
      cases h4
      exact ⟨a, by omega, h3, j, h5⟩
  · rename_i hc
    cases h
    constructor
    · intro h; cases h
    · rintro ⟨h, _⟩
      exact absurd (by simpa using List.mem_of_getElem? h) hc

/-- The positions of the class in the relations that have been looked at. -/
def IndsOf (D : DB F) (c f : String) (P : String → Prop) (m : FMap String (List Nat)) : Prop :=
  (∀ q l, m.find? q = some l → P q ∧ ∃ spec, D.H.schema.find? q = some spec ∧ ∀ a, a ∈ l ↔ spec.doms[a]? = some c ∧ ∃ j, RelEntry D.relIdx q a f j) ∧
  ∀ q spec, P q → D.H.schema.find? q = some spec → m.find? q = none → ∀ a j, spec.doms[a]? = some c → ¬ RelEntry D.relIdx q a f j

theorem domainIndsLoop_spec {D : DB F} {c f : String} {l : List String} : ∀ {P : String → Prop} {m m' : FMap String (List Nat)}, IndsOf D c f P m →
    (∀ q ∈ l, ¬ P q) → l.Nodup → DB.domainIndsLoop D c f l m = .ok m' → IndsOf D c f (fun q => P q ∨ q ∈ l) m' := by
  induction l with
  | nil =>
    intro P m m' h _ _ hl
    cases hl
    simpa using h
  | cons rel l ih =>
    intro P m m' h hP hnd hl
    unfold DB.domainIndsLoop at hl
    obtain ⟨spec, h1, hl⟩ := bind_ok.mp hl
    obtain ⟨inds, h2, hl⟩ := bind_ok.mp hl
    have h1 := FMap.atKey_ok.mp h1
    have h2 := relInds_spec h2
    have hnone : m.find? rel = none := by
      cases hx : m.find? rel with
      | none => rfl
      | some l' => exact absurd (h.1 rel l' hx).1 (hP rel (by simp))
    have hstep : IndsOf D c f (fun q => P q ∨ q = rel) (if inds = [] then m else m.set rel inds) := by
      by_cases hi : inds = []
      · rw [if_pos hi]
        subst hi
        refine ⟨fun q l' hx => ?_, fun q sp hq hs hx a j ha hE => ?_⟩
        · obtain ⟨a1, a2⟩ := h.1 q l' hx
          exact ⟨Or.inl a1, a2⟩
        · rcases hq with hq | rfl
          · exact h.2 q sp hq hs hx a j ha hE
          · rw [h1] at hs
            cases hs
            have := (h2 a).mpr ⟨ha, j, hE⟩
            cases this
      · rw [if_neg hi]
        refine ⟨fun q l' hx => ?_, fun q sp hq hs hx a j ha hE => ?_⟩
        · rw [FMap.find?_set] at hx
          split at hx
          · rename_i e
            subst e
            cases hx
            exact ⟨Or.inr rfl, spec, h1, h2⟩
          · obtain ⟨a1, a2⟩ := h.1 q l' hx
            exact ⟨Or.inl a1, a2⟩
        · rw [FMap.find?_set] at hx
          split at hx
          · cases hx
          · rename_i hne
            exact h.2 q sp (hq.resolve_right hne) hs hx a j ha hE
    have := ih hstep (fun q hq => ?_) (List.nodup_cons.mp hnd).2 hl
    · unfold IndsOf at this ⊢
      simpa only [or_assoc, List.mem_cons] using this
    · rintro (hp | rfl)
      · exact hP q (by simp [hq]) hp
      · exact (List.nodup_cons.mp hnd).1 hq

theorem domainInds_spec {D : DB F} {c f : String} {m : FMap String (List Nat)} (h : D.domainInds c f = .ok m) : IndsOf D c f (Queried D) m := by
  unfold DB.domainInds at h
  have := domainIndsLoop_spec (P := fun _ => False) ⟨fun q l h => (by simp at h), fun q sp h => h.elim⟩ (fun _ _ h => h) (FMap.nodupKeys _) h
  have e : (fun q => False ∨ q ∈ D.schema.query.fields.keys) = Queried D := by
    funext q
    unfold Queried
    rw [FMap.mem_keys]
    simp
  rwa [e] at this

theorem unincReference_took {D₀ D D' : DB F} {r : String → Nat} (hr : Ready D₀ r) (hs : Same D₀ D) (ht : D.H.Tidy) {c f : String} {i : Int}
    {inds : FMap String (List Nat)} (hi : IndsOf D₀ c f (Queried D₀) inds) {st st' : Stored V} {out out' : DomOut} {t t' : Tape} {lp : WithBot ℝ}
    (h : D.unincReference inds c f i st out t = .ok (lp, D', st', out', t')) : Took (Queried D₀) (Touch D₀ c f i) D.H st D'.H st' := by
  unfold DB.unincReference at h
  obtain ⟨⟨lp₁, H₁, st₁, t₁⟩, h1, h⟩ := bind_ok.mp h
  obtain ⟨v, _, h⟩ := bind_ok.mp h
  obtain ⟨⟨lp₂, H₂, out₂⟩, h2, h⟩ := bind_ok.mp h
  cases h
  have hb : NoBase (Queried D₀) D.H.schema := by rw [hs.rels]; exact hr.base
  have := unincRels_took ht hb (fun rel l hl => ?_) h1
  · refine (this.quiet (dropRels_quiet h2)).congr ?_
    intro q k v hq _
    constructor
    · rintro ⟨l, hl, a, ha, hk⟩
      obtain ⟨_, spec, h4, h5⟩ := hi.1 q l (FMap.mem_entries.mp hl)
      obtain ⟨h6, j, h7⟩ := (h5 a).mp ha
      exact ⟨spec, a, j, h4, h6, h7, hk⟩
    · rintro ⟨spec, a, j, h4, h6, h7, hk⟩
      cases hx : inds.find? q with
      | none => exact absurd h7 (hi.2 q spec hq h4 hx a j h6)
      | some l =>
        obtain ⟨_, spec', h4', h5⟩ := hi.1 q l hx
        rw [h4] at h4'
        cases h4'
        exact ⟨l, FMap.mem_entries.mpr hx, a, (h5 a).mpr ⟨h6, j, h7⟩, hk⟩
  · obtain ⟨_, spec, h4, h5⟩ := hi.1 rel l (FMap.mem_entries.mp hl)
    rw [hs.rels]
    exact ⟨spec, h4, fun ind hind => ((h5 ind).mp hind).1⟩

end
end GenDB
end Verif
