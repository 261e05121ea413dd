import Verif.Lemmas.GenDBBuild
import Verif.Spec.GenDBRows
import Verif.Props.GenDBSchema
import Verif.Props.HIRM
import Verif.Props.LatentValue
/-!
C62 and C63: the HIRM schema that `GenDB` builds from a PClean schema, and the reference indices of its relations.
-/
namespace Verif
namespace GenDB
open PClean
variable {V : Type} {F : Family V}

theorem layouts_facts {s : PClean.Schema} {L : Layouts} (h : layoutsOf s = .ok L) :
    Acyclic s ∧ Closed s ∧ (∀ c ds, L.doms.find? c = some ds ↔ Layout s c ds) ∧ (∀ c cl, s.classes.find? c = some cl → ∃ ds, Layout s c ds) ∧
    ∀ c r ds, L.classIdx.find? c = some r → Layout s c ds → ∀ i ref, r.find? i = some ref → i < ds.length := by
  obtain ⟨h1, h2⟩ := layoutsOf_spec h
  obtain ⟨a1, a2⟩ := (C45_defined s).mp ⟨_, h1⟩
  have hd : DomsOk s L.doms := fun c ds h => ((C45_layout h1 c).2 ds).mp h
  obtain ⟨i1, _, _⟩ := refsCache_spec hd (idx := ∅) (fun c r h => by simp at h) h2
  refine ⟨a1, a2, fun c ds => (C45_layout h1 c).2 ds, ?_, fun c r ds hr hds i ref hi => ((i1 c r hr).bound ds hds i ref hi).1⟩
  intro c cl hc
  obtain ⟨ds, hds⟩ := (C45_layout h1 c).1.mpr ⟨cl, hc⟩
  exact ⟨ds, hd c ds hds⟩

/-! ### C62 -/

/-- C62: each scalar variable becomes an unobserved clean relation over the domains of its class, unless a query field of the clean record class takes it
over; each query field gives what `FieldRels` says; and there is nothing else. -/
theorem C62_relations {s : PClean.Schema} (hn : NamesOk s) (hq : QueryOk s) {L : Layouts} (hL : layoutsOf s = .ok L)
    {mkC : String → FMap String String → Res F.C} {mkE : String → FMap String String → Res F.E} {clean finalOnly : Bool} {b : Build F}
    (h : makeSchema s L mkC mkE clean finalOnly = .ok b) :
    (∀ c x j p, HasScalar s c x j p → ¬ (clean = true ∧ c = s.query.recordClass ∧ ∃ k f, s.query.fields.find? k = some f ∧ f.classPath = [x]) →
      ∃ C ds, mkC j p = .ok C ∧ Layout s c ds ∧ b.schema.find? (varRel c x) = some (.clean C ds false)) ∧
    (∀ k f hops d x j p ds, s.query.fields.find? k = some f → PathTo s s.query.recordClass f.classPath hops d x j p → Layout s d ds →
      FieldRels b k clean finalOnly (mkC j p) (mkE j p) hops d x ds (L.classIdx.find? d)) ∧
    ∀ n r, b.schema.find? n = some r → (∃ c x j p, HasScalar s c x j p ∧ n = varRel c x) ∨
      ∃ k f, s.query.fields.find? k = some f ∧ (n = k ∨ ∃ hops d x j p, PathTo s s.query.recordClass f.classPath hops d x j p ∧
        ∃ a ∈ viaHops finalOnly hops, n = viaRel a.1 k) := by
  obtain ⟨a1, a2, a3, a4, a5⟩ := layouts_facts hL
  have hb := makeSchema_spec hn hq a1 a3 a4 a5 h
  have hname : ∀ k f, s.query.fields.find? k = some f → f.name = k := fun k f hf => (hn.field k f hf).1
  refine ⟨?_, ?_, ?_⟩
  · intro c x j p hs hno
    obtain ⟨_, C, ds, h1, h2, h3⟩ := hb.var c x j p hs
    rcases h3 with ⟨_, h3⟩ | ⟨⟨e1, e2, f, hf, e3⟩, _⟩
    · exact ⟨C, ds, h1, h2, h3⟩
    · exfalso
      obtain ⟨⟨k, f'⟩, hm, rfl⟩ := List.mem_map.mp hf
      exact hno ⟨e1, e2, k, f', FMap.mem_entries.mp hm, e3⟩
  · intro k f hops d x j p ds hf hp hds
    have := hb.field f (List.mem_map.mpr ⟨(k, f), FMap.mem_entries.mpr hf, rfl⟩) hops d x j p ds hp hds
    rw [hname k f hf] at this
    exact this
  · intro n r hr
    rcases hb.keys n (Or.inl ⟨r, hr⟩) with h' | ⟨f, hf, h'⟩
    · exact Or.inl h'
    · obtain ⟨⟨k, f'⟩, hm, rfl⟩ := List.mem_map.mp hf
      have hm := FMap.mem_entries.mp hm
      simp only at h'
      rw [hname k f' hm] at h'
      exact Or.inr ⟨k, f', hm, h'⟩

/-- C62: the schema of a PClean schema whose variables have distributions and emissions is built exactly if no two query fields ask for the same variable of
a record class that is declared clean. -/
theorem C62_defined {s : PClean.Schema} (hn : NamesOk s) (hq : QueryOk s) {L : Layouts} (hL : layoutsOf s = .ok L)
    {mkC : String → FMap String String → Res F.C} {mkE : String → FMap String String → Res F.E} (clean finalOnly : Bool)
    (hC : ∀ c x j p, HasScalar s c x j p → (∃ e, mkC j p = .ok e) ∧ ∃ e, mkE j p = .ok e) :
    (∃ b : Build F, makeSchema s L mkC mkE clean finalOnly = .ok b) ↔
      (clean = true → ∀ k f k' f' x, s.query.fields.find? k = some f → s.query.fields.find? k' = some f' → f.classPath = [x] → f'.classPath = [x] → k = k') := by
  obtain ⟨a1, a2, a3, a4, a5⟩ := layouts_facts hL
  constructor
  · rintro ⟨b, h⟩ rfl k f k' f' x h1 h2 h3 h4
    exact makeSchema_distinct hn hq a1 a3 a4 a5 h h1 h2 h3 h4
  · exact makeSchema_ok hn hq a1 a3 a4 a5 clean finalOnly (fun c x j p h => (hC c x j p h).1) (fun c x j p h => (hC c x j p h).2)

/-- A class of lower rank is not the record class. -/
theorem path_leaves {s : PClean.Schema} (ha : Acyclic s) {c : String} {path : List String} {hop : String × String} {hops : List (String × String)}
    {d x j : String} {p : FMap String String} (hp : PathTo s c path (hop :: hops) d x j p) : d ≠ c := by
  obtain ⟨r, hr⟩ := ha
  have h := (hp.rank hr).2.1 hop (List.mem_cons_self ..)
  rintro rfl
  omega

/-- C62: whatever the draws, an HIRM is constructed from the schema, and each noisy relation has the domains of its base first. -/
theorem C62_hirm {s : PClean.Schema} (hn : NamesOk s) (hq : QueryOk s) {L : Layouts} (hL : layoutsOf s = .ok L)
    {mkC : String → FMap String String → Res F.C} {mkE : String → FMap String String → Res F.E} {clean finalOnly : Bool} {b : Build F}
    (h : makeSchema s L mkC mkE clean finalOnly = .ok b) (t : Tape) :
    (∃ H t', HIRM.mk' b.schema t = .ok (H, t')) ∧
    ∀ n e ds base o, b.schema.find? n = some (.noisy e ds base o) → ∃ spec tl, b.schema.find? base = some spec ∧ ds = spec.doms ++ tl := by
  obtain ⟨a1, a2, a3, a4, a5⟩ := layouts_facts hL
  obtain ⟨h1, h2, h3⟩ := C62_relations hn hq hL h
  -- the variable of a path of several classes, or of a noisy record class, has its relation
  have hvar : ∀ {path hops d x j p}, PathTo s s.query.recordClass path hops d x j p → (hops = [] → clean = false) →
      ∃ C ds, mkC j p = .ok C ∧ Layout s d ds ∧ b.schema.find? (varRel d x) = some (.clean C ds false) := by
    intro path hops d x j p hp hc
    refine h1 d x j p hp.has ?_
    rintro ⟨e1, e2, _⟩
    cases hops with
    | nil => rw [hc rfl] at e1; cases e1
    | cons hop hops => exact path_leaves a1 hp e2
  -- each relation: its domains and its base
  have key : ∀ n spec, b.schema.find? n = some spec → spec.doms ≠ [] ∧ Grounded b.schema n ∧ ∀ e ds base o, spec = .noisy e ds base o →
      ∃ spec' tl, b.schema.find? base = some spec' ∧ ds = spec'.doms ++ tl := by
    -- the relations along a path
    have chainKey : ∀ {k f hops d x j p ds}, s.query.fields.find? k = some f → PathTo s s.query.recordClass f.classPath hops d x j p → Layout s d ds →
        finalOnly = false → ∀ post pre c g, hops = pre ++ (c, g) :: post → ∃ e spec' tl, b.schema.find? (linkRel k pre c) =
          some (.noisy e (ds ++ (post.reverse ++ [(c, g)]).map (·.1)) (baseOf k d x post) pre.isEmpty) ∧ Grounded b.schema (linkRel k pre c) ∧
          b.schema.find? (baseOf k d x post) = some spec' ∧ ds ++ (post.reverse ++ [(c, g)]).map (·.1) = spec'.doms ++ tl := by
      intro k f hops d x j p ds hf hp hds hfin post
      subst hfin
      have hfield := h2 k f hops d x j p ds hf hp hds
      induction post with
      | nil =>
        intro pre c g heq
        have hne : hops ≠ [] := by rw [heq]; simp
        obtain ⟨C, ds', _, hl, hv⟩ := hvar hp (fun h => absurd h hne)
        have := layout_unique hl hds
        subst this
        cases hops with
        | nil => exact absurd rfl hne
        | cons hop hops =>
          obtain ⟨e', _, hall⟩ := hfield
          obtain ⟨q1, _⟩ := hall pre c g [] heq
          exact ⟨e', _, [c], q1, .noisy q1 rfl (.clean hv rfl), hv, by simp [RelSpec.doms]⟩
      | cons a post ih =>
        intro pre c g heq
        obtain ⟨c', g'⟩ := a
        obtain ⟨e'', spec'', tl'', p1, p2, p3, p4⟩ := ih (pre ++ [(c, g)]) c' g' (by rw [heq]; simp)
        have hlk : linkRel k (pre ++ [(c, g)]) c' = viaRel c' k := by simp [linkRel]
        rw [hlk] at p1 p2
        cases hops with
        | nil => simp at heq
        | cons hop hops =>
          obtain ⟨e', _, hall⟩ := hfield
          obtain ⟨q1, _⟩ := hall pre c g ((c', g') :: post) heq
          exact ⟨e', _, [c], q1, .noisy q1 rfl p2, p1, by simp [RelSpec.doms]⟩
    intro n spec hs
    rcases h3 n spec hs with ⟨c, x, j, p, hh, rfl⟩ | ⟨k, f, hf, hk⟩
    · obtain ⟨_, C, ds, _, hl, hv⟩ := (makeSchema_spec hn hq a1 a3 a4 a5 h).var c x j p hh
      rcases hv with ⟨_, hv⟩ | ⟨_, hv⟩
      · rw [hv] at hs
        cases hs
        exact ⟨List.ne_nil_of_length_pos hl.length_pos, .clean hv rfl, fun e ds base o he => by cases he⟩
      · rw [hv] at hs; cases hs
    · obtain ⟨hops, d, x, j, p, hp⟩ := hq.path k f hf
      obtain ⟨ds, hds⟩ : ∃ ds, Layout s d ds := by
        obtain ⟨cl, v, hc, _⟩ := hp.has
        exact a4 d cl hc
      have hne := List.ne_nil_of_length_pos hds.length_pos
      have hfield := h2 k f hops d x j p ds hf hp hds
      -- which relation is it?
      cases hops with
      | nil =>
        have hn' : n = k := by
          rcases hk with hk | ⟨hops', d', x', j', p', hp', a, ha, _⟩
          · exact hk
          · have := (hp.unique hp').1
            subst this
            simp [viaHops] at ha
        subst hn'
        cases clean with
        | true =>
          obtain ⟨c, _, hv, _⟩ := hfield
          rw [hv] at hs
          cases hs
          exact ⟨hne, .clean hv rfl, fun e ds base o he => by cases he⟩
        | false =>
          obtain ⟨e', _, hv, _⟩ := hfield
          rw [hv] at hs
          cases hs
          obtain ⟨C, ds', _, hl, hvv⟩ := hvar hp (fun _ => rfl)
          have := layout_unique hl hds
          subst this
          refine ⟨hne, .noisy hv rfl (.clean hvv rfl), ?_⟩
          intro e ds base o he
          cases he
          exact ⟨_, [], hvv, by simp [RelSpec.doms]⟩
      | cons hop hops =>
        obtain ⟨C, ds', _, hl, hvv⟩ := hvar hp (fun h => by cases h)
        have := layout_unique hl hds
        subst this
        cases hfin : finalOnly with
        | true =>
          rw [hfin] at hfield
          obtain ⟨e', r, _, hv, _⟩ := hfield
          rcases hk with rfl | ⟨hops', d', x', j', p', hp', a, ha, rfl⟩
          · rw [hv] at hs
            cases hs
            refine ⟨by simp [RelSpec.doms, hne], .noisy hv rfl (.clean hvv rfl), ?_⟩
            intro e ds base o he
            cases he
            exact ⟨_, _, hvv, rfl⟩
          · simp [viaHops, hfin] at ha

        | false =>
          obtain ⟨pre, c, g, post, heq, rfl⟩ : ∃ pre c g post, hop :: hops = pre ++ (c, g) :: post ∧ n = linkRel k pre c := by
            rcases hk with rfl | ⟨hops', d', x', j', p', hp', a, ha, rfl⟩
            · exact ⟨[], hop.1, hop.2, hops, rfl, rfl⟩
            · have := (hp.unique hp').1
              subst this
              simp only [viaHops, hfin, Bool.false_eq_true, if_false, List.tail_cons] at ha
              obtain ⟨pre, post, he⟩ := List.append_of_mem ha
              exact ⟨hop :: pre, a.1, a.2, post, by rw [he]; rfl, by simp [linkRel]⟩
          obtain ⟨e', spec', tl, q1, q2, q3, q4⟩ := chainKey hf hp hds hfin post pre c g heq
          rw [q1] at hs
          cases hs
          refine ⟨by simp [RelSpec.doms, hne], q2, ?_⟩
          intro e ds base o he
          cases he
          exact ⟨spec', tl, q3, q4⟩
  refine ⟨(HIRM.C31_hirm_constructor b.schema t).mpr (fun n spec hs => ⟨(key n spec hs).1, (key n spec hs).2.1⟩), ?_⟩
  intro n e ds base o hs
  exact (key n _ hs).2.2 e ds base o rfl

/-! ### C63 -/

theorem classIdx_complete {s : PClean.Schema} {L : Layouts} (hL : layoutsOf s = .ok L) {d g : String} {i j : Nat} (h : RefAt s d i g j) :
    ∃ r, L.classIdx.find? d = some r ∧ Entry r i g j := by
  obtain ⟨h1, h2⟩ := layoutsOf_spec hL
  exact C46_complete h1 h2 h

/-- C63: without `only_final_emissions`, and without `record_class_is_clean` if the variable is one of the record class, the indices of the relation of a query
field have every reference among the entities of its tuples. -/
theorem C63_complete {s : PClean.Schema} (hn : NamesOk s) (hq : QueryOk s) {L : Layouts} (hL : layoutsOf s = .ok L)
    {mkC : String → FMap String String → Res F.C} {mkE : String → FMap String String → Res F.E} {clean finalOnly : Bool} {b : Build F}
    (h : makeSchema s L mkC mkE clean finalOnly = .ok b) {k : String} {f : QueryField} {hops : List (String × String)} {d x j : String}
    {p : FMap String String} {ds : List String} (hf : s.query.fields.find? k = some f) (hp : PathTo s s.query.recordClass f.classPath hops d x j p)
    (hds : Layout s d ds) (hmode : if hops = [] then clean = false else finalOnly = false) {i : Nat} {g : String} {i' : Nat}
    (hr : TupleRef s d ds.length hops i g i') : ∃ r, b.relIdx.find? k = some r ∧ Entry r i g i' := by
  have hfield := (C62_relations hn hq hL h).2.1 k f hops d x j p ds hf hp hds
  cases hops with
  | nil =>
    rw [if_pos rfl] at hmode
    subst hmode
    obtain ⟨e, _, _, hi⟩ := hfield
    rcases hr with hr | ⟨n, c, hc, _⟩
    · obtain ⟨r, h1, h2⟩ := classIdx_complete hL hr
      exact ⟨r, by rw [hi]; exact h1, h2⟩
    · simp at hc
  | cons hop hops =>
    rw [if_neg (by simp)] at hmode
    subst hmode
    obtain ⟨e, _, hall⟩ := hfield
    obtain ⟨_, r, h1, h2⟩ := hall [] hop.1 hop.2 hops rfl
    refine ⟨r, by simpa [linkRel] using h1, (h2 i g i').mpr ?_⟩
    rcases hr with hr | hr
    · left
      obtain ⟨r, h1, h2⟩ := classIdx_complete hL hr
      exact ⟨r, h1, h2⟩
    · right
      simpa using hr

/-- C63: and nothing else, if no reference leads from the class of the variable to a class from which two more references lead on (see
`C46_phantom_false`). -/
theorem C63_sound_partial {s : PClean.Schema} (hn : NamesOk s) (hq : QueryOk s) {L : Layouts} (hL : layoutsOf s = .ok L)
    {mkC : String → FMap String String → Res F.C} {mkE : String → FMap String String → Res F.E} {clean finalOnly : Bool} {b : Build F}
    (h : makeSchema s L mkC mkE clean finalOnly = .ok b) {k : String} {f : QueryField} {hops : List (String × String)} {d x j : String}
    {p : FMap String String} {ds : List String} (hf : s.query.fields.find? k = some f) (hp : PathTo s s.query.recordClass f.classPath hops d x j p)
    (hds : Layout s d ds) (hsh : ShallowAt s d) {i : Nat} {g : String} {i' : Nat} {r : RefIdx} (hr : b.relIdx.find? k = some r)
    (he : Entry r i g i') : TupleRef s d ds.length hops i g i' := by
  have hfield := (C62_relations hn hq hL h).2.1 k f hops d x j p ds hf hp hds
  obtain ⟨l1, l2⟩ := layoutsOf_spec hL
  cases hops with
  | nil =>
    cases clean with
    | true => obtain ⟨c, _, _, hi⟩ := hfield; rw [hi] at hr; cases hr
    | false =>
      obtain ⟨e, _, _, hi⟩ := hfield
      rw [hi] at hr
      exact Or.inl (C46_sound_partial l1 l2 (((C45_layout l1 d).2 ds).mpr hds) hsh hr he).1
  | cons hop hops =>
    cases finalOnly with
    | true =>
      obtain ⟨e, r', _, _, hi, hall⟩ := hfield
      rw [hi] at hr
      cases hr
      have := (hall i g i').mp he
      cases hx : L.classIdx.find? d with
      | none => rw [hx] at this; exact Or.inr this
      | some r₀ => rw [hx] at this; exact Or.inl (C46_sound_partial l1 l2 (((C45_layout l1 d).2 ds).mpr hds) hsh hx this).1
    | false =>
      obtain ⟨e, _, hall⟩ := hfield
      obtain ⟨_, r', h1, h2⟩ := hall [] hop.1 hop.2 hops rfl
      have h1 : b.relIdx.find? k = some r' := by simpa [linkRel] using h1
      rw [h1] at hr
      cases hr
      rcases (h2 i g i').mp he with ⟨r₀, hx, h3⟩ | h3
      · exact Or.inl (C46_sound_partial l1 l2 (((C45_layout l1 d).2 ds).mpr hds) hsh hx h3).1
      · exact Or.inr (by simpa using h3)

/-- C63 is false for a clean record class: the relation of a query field of the record class has no indices, whatever the references of the class are. -/
theorem C63_clean_false {s : PClean.Schema} (hn : NamesOk s) (hq : QueryOk s) {L : Layouts} (hL : layoutsOf s = .ok L)
    {mkC : String → FMap String String → Res F.C} {mkE : String → FMap String String → Res F.E} {finalOnly : Bool} {b : Build F}
    (h : makeSchema s L mkC mkE true finalOnly = .ok b) {k : String} {f : QueryField} {d x j : String} {p : FMap String String}
    (hf : s.query.fields.find? k = some f) (hp : PathTo s s.query.recordClass f.classPath [] d x j p) : b.relIdx.find? k = none := by
  obtain ⟨a1, a2, a3, a4, a5⟩ := layouts_facts hL
  obtain ⟨ds, hds⟩ : ∃ ds, Layout s d ds := by
    obtain ⟨cl, v, hc, _⟩ := hp.has
    exact a4 d cl hc
  obtain ⟨c, _, _, hi⟩ := (C62_relations hn hq hL h).2.1 k f [] d x j p ds hf hp hds
  exact hi

/-- C63 is false with `only_final_emissions`: if the class of the variable has references of its own, the relation has no entries for the entities of the path,
although each of them has a reference. -/
theorem C63_final_false {s : PClean.Schema} (hn : NamesOk s) (hq : QueryOk s) {L : Layouts} (hL : layoutsOf s = .ok L)
    {mkC : String → FMap String String → Res F.C} {mkE : String → FMap String String → Res F.E} {clean : Bool} {b : Build F}
    (h : makeSchema s L mkC mkE clean true = .ok b) {k : String} {f : QueryField} {hops : List (String × String)} {d x j : String}
    {p : FMap String String} {ds : List String} (hf : s.query.fields.find? k = some f) (hp : PathTo s s.query.recordClass f.classPath hops d x j p)
    (hds : Layout s d ds) (hhops : hops ≠ []) {g e : String} (hr : Refers s d g e) :
    (∀ n c v, hops.reverse[n]? = some (c, v) → TupleRef s d ds.length hops (ds.length + n) v (ds.length + n - 1)) ∧
    ∃ r, b.relIdx.find? k = some r ∧ ∀ i v i', Entry r i v i' → i < ds.length := by
  obtain ⟨a1, a2, a3, a4, a5⟩ := layouts_facts hL
  have hfield := (C62_relations hn hq hL h).2.1 k f hops d x j p ds hf hp hds
  have hpos := hds.length_pos
  refine ⟨fun n c v hn => Or.inr ⟨n, c, hn, rfl, by omega⟩, ?_⟩
  cases hops with
  | nil => exact absurd rfl hhops
  | cons hop hops =>
    obtain ⟨e', r, _, _, hi, hall⟩ := hfield
    refine ⟨r, hi, ?_⟩
    intro i v i' he
    have := (hall i v i').mp he
    obtain ⟨cl, hc, hm⟩ := hr
    obtain ⟨cl', es, e1, e2, e3⟩ := hds.sub
    rw [hc] at e1
    cases e1
    obtain ⟨pre, post, eq⟩ := List.append_of_mem hm
    rw [eq] at e2
    obtain ⟨u, w, _, hu, hw⟩ := e2.split
    cases hw with
    | cons w1 w2 =>
      obtain ⟨r₀, hx, _⟩ := classIdx_complete hL (.own hc eq hu w1 w2)
      rw [hx] at this
      obtain ⟨ref, h1, h2⟩ := this
      exact a5 d r₀ ds hx hds i ref h1

/-! ### A schema that meets the hypotheses -/

/-- a class with these scalar variables and reference fields -/
def mixedClass (name : String) (scalars : List String) (fields : List (String × String)) : Class :=
  ⟨name, FMap.ofList (scalars.map (fun x => (x, ⟨x, .scalar "bool" ∅⟩)) ++ fields.map fun f => (f.1, ⟨f.1, .cls f.2⟩))⟩

/-- a schema with these classes, this record class and these query fields -/
def queryOf (cs : List Class) (rc : String) (fs : List (String × List String)) : PClean.Schema :=
  ⟨FMap.ofList (cs.map fun c => (c.name, c)), ⟨rc, FMap.ofList (fs.map fun f => (f.1, ⟨f.1, f.2⟩))⟩⟩

/-- Practices are in cities and records name practices. -/
def practices : PClean.Schema :=
  queryOf [mixedClass "City" ["name"] [], mixedClass "Practice" ["addr"] [("city", "City")], mixedClass "Record" ["note"] [("location", "Practice")]] "Record"
    [("Addr", ["location", "addr"]), ("City", ["location", "city", "name"]), ("Note", ["note"])]

/-- a schema whose record class declares its variable twice in the query -/
def noteTwice : PClean.Schema := queryOf [mixedClass "Record" ["note"] []] "Record" [("A", ["note"]), ("B", ["note"])]

theorem namesOk_of {s : PClean.Schema}
    (h : (∀ e ∈ s.classes.entries, e.2.name = e.1 ∧ ':' ∉ e.1.toList ∧ ∀ v ∈ e.2.vars.entries, v.2.name = v.1 ∧ ':' ∉ v.1.toList) ∧
      ∀ e ∈ s.query.fields.entries, e.2.name = e.1 ∧ ':' ∉ e.1.toList) : NamesOk s :=
  ⟨fun _ _ hc => ⟨(h.1 _ (FMap.mem_entries.mpr hc)).1, (h.1 _ (FMap.mem_entries.mpr hc)).2.1⟩,
    fun _ _ _ _ hc hx => (h.1 _ (FMap.mem_entries.mpr hc)).2.2 _ (FMap.mem_entries.mpr hx), fun _ _ hf => h.2 _ (FMap.mem_entries.mpr hf)⟩

set_option maxRecDepth 4000 in
example : NamesOk practices := namesOk_of (by decide)

set_option maxRecDepth 4000 in
theorem practices_refers : Refers practices "Record" "location" "Practice" ∧ Refers practices "Practice" "city" "City" :=
  ⟨refers_refsFrom.mpr (by decide), refers_refsFrom.mpr (by decide)⟩

set_option maxRecDepth 4000 in
theorem practices_addr : PathTo practices "Record" ["location", "addr"] [("Record", "location")] "Practice" "addr" "bool" ∅ :=
  .step practices_refers.1 (.here ⟨_, _, rfl, rfl, rfl⟩)

set_option maxRecDepth 4000 in
theorem practices_city : PathTo practices "Record" ["location", "city", "name"] [("Record", "location"), ("Practice", "city")] "City" "name" "bool" ∅ :=
  .step practices_refers.1 (.step practices_refers.2 (.here ⟨_, _, rfl, rfl, rfl⟩))

set_option maxRecDepth 4000 in
theorem practices_note : PathTo practices "Record" ["note"] [] "Record" "note" "bool" ∅ := .here ⟨_, _, rfl, rfl, rfl⟩

set_option maxRecDepth 4000 in
example : QueryOk practices := by
  refine ⟨⟨_, rfl⟩, ?_⟩
  intro k f hf
  have hm := FMap.mem_entries.mpr hf
  have e : practices.query.fields.entries = [("Addr", ⟨"Addr", ["location", "addr"]⟩), ("City", ⟨"City", ["location", "city", "name"]⟩), ("Note", ⟨"Note", ["note"]⟩)] := rfl
  rw [e] at hm
  simp only [List.mem_cons, Prod.mk.injEq, List.not_mem_nil, or_false] at hm
  rcases hm with ⟨rfl, rfl⟩ | ⟨rfl, rfl⟩ | ⟨rfl, rfl⟩
  · exact ⟨_, _, _, _, _, practices_addr⟩
  · exact ⟨_, _, _, _, _, practices_city⟩
  · exact ⟨_, _, _, _, _, practices_note⟩

/-- the schema of an example, with a family of Boolean distributions -/
noncomputable def buildOf (s : PClean.Schema) (clean finalOnly : Bool) : Res (Build Latent.bools) := do
  let L ← layoutsOf s
  makeSchema s L (fun _ _ => .ok ()) (fun _ _ => .ok ()) clean finalOnly

/-- the domains, the base and the observed flag of each relation -/
noncomputable def shape (b : Build Latent.bools) : List (String × List String × Option String × Bool) :=
  b.schema.entries.map fun e => (e.1, e.2.doms, e.2.base?, e.2.observed)

set_option maxRecDepth 8000 in
example : (buildOf practices false false).map shape = .ok [
    ("Addr", ["City", "Practice", "Record"], some "Practice:addr", true),
    ("City", ["City", "Practice", "Record"], some "Practice::City", true),
    ("City:name", ["City"], none, false),
    ("Note", ["City", "Practice", "Record"], some "Record:note", true),
    ("Practice::City", ["City", "Practice"], some "City:name", false),
    ("Practice:addr", ["City", "Practice"], none, false),
    ("Record:note", ["City", "Practice", "Record"], none, false)] := rfl

set_option maxRecDepth 8000 in
/-- C63: the full indices, -/
example : (buildOf practices false false).map (fun b => (b.relIdx.find? "Addr").map idxList) = .ok (some [(1, [("city", 0)]), (2, [("location", 1)])]) := rfl

set_option maxRecDepth 8000 in
/-- those without the reference of the record, by `C63_final_false`, -/
example : (buildOf practices false true).map (fun b => (b.relIdx.find? "Addr").map idxList) = .ok (some [(1, [("city", 0)])]) := rfl

set_option maxRecDepth 8000 in
/-- and those that are not there, by `C63_clean_false`. -/
example : (buildOf practices true false).map (fun b => (b.relIdx.find? "Note").map idxList) = .ok none := rfl

set_option maxRecDepth 8000 in
/-- two query fields for one variable of a clean record class -/
example : (buildOf noteTwice true false).map shape = .error .outOfRange ∧
    (buildOf noteTwice false false).map shape = .ok [("A", ["Record"], some "Record:note", true), ("B", ["Record"], some "Record:note", true),
      ("Record:note", ["Record"], none, false)] := ⟨rfl, rfl⟩

end GenDB
end Verif
