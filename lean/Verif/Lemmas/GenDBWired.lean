import Verif.Lemmas.GenDBIncorporate
import Verif.Lemmas.HIRMTidy
import Verif.Props.HIRMMoves
/-!
The database that the constructor of `GenDB` makes.
-/
namespace Verif
namespace GenDB
open PClean
noncomputable section
variable {V : Type} {F : Family V} {s : PClean.Schema}

theorem PathTo.first {c : String} {path : List String} {c' g : String} {hops : List (String × String)} {d x j : String} {p : FMap String String}
    (h : PathTo s c path ((c', g) :: hops) d x j p) : c' = c := by
  generalize hh : (c', g) :: hops = hh' at h
  cases h with
  | here _ => cases hh
  | step _ _ => cases hh; rfl

theorem PathTo.suffix {c : String} {path : List String} {hops : List (String × String)} {d x j : String} {p : FMap String String} (h : PathTo s c path hops d x j p) :
    ∀ {pre c' g post}, hops = pre ++ (c', g) :: post → ∃ path', PathTo s c' path' ((c', g) :: post) d x j p := by
  induction h with
  | here _ => intro pre c' g post h; simp at h
  | @step c f d' path hops d x j p hr hp ih =>
    intro pre c' g post h
    cases pre with
    | nil =>
      simp only [List.nil_append, List.cons.injEq] at h
      obtain ⟨h1, rfl⟩ := h
      cases h1
      exact ⟨f :: path, .step hr hp⟩
    | cons a pre =>
      simp only [List.cons_append, List.cons.injEq] at h
      exact ih h.2

/-- The class to which the hops after the first ones lead. -/
theorem PathTo.drop {c : String} {path : List String} {hops : List (String × String)} {d x j : String} {p : FMap String String} (h : PathTo s c path hops d x j p)
    {pre post : List (String × String)} (he : hops = pre ++ post) : ∃ c' path', PathTo s c' path' post d x j p := by
  cases post with
  | nil => exact ⟨d, [x], .here h.has⟩
  | cons a post =>
    obtain ⟨c', g⟩ := a
    obtain ⟨path', h'⟩ := h.suffix he
    exact ⟨c', path', h'⟩

/-- After at least one hop the class has a lower rank. -/
theorem PathTo.drop_rank {r : String → Nat} (hr : ∀ c f d, Refers s c f d → r d < r c) {c : String} {path : List String} {hops : List (String × String)}
    {d x j : String} {p : FMap String String} (h : PathTo s c path hops d x j p) {pre post : List (String × String)} (he : hops = pre ++ post) (hpre : pre ≠ [])
    {c' : String} {path' : List String} (h' : PathTo s c' path' post d x j p) : r c' < r c := by
  induction h generalizing pre with
  | here _ => simp at he; exact absurd he.1 hpre
  | @step c f d' path hops d x j p hc hp ih =>
    have hlt := hr c f d' hc
    cases pre with
    | nil => exact absurd rfl hpre
    | cons a pre =>
      simp only [List.cons_append, List.cons.injEq] at he
      obtain ⟨_, rfl⟩ := he
      by_cases hp0 : pre = []
      · subst hp0
        have : c' = d' := by
          cases hp with
          | here _ =>
            cases h'
            rfl
          | step h1 h2 =>
            cases h'
            rfl
        subst this
        exact hlt
      · have := ih rfl hp0 h'
        omega

theorem TupleRef.of_suffix {d : String} {n : Nat} {pre post : List (String × String)} {i : Nat} {g : String} {j : Nat} (h : TupleRef s d n post i g j) :
    TupleRef s d n (pre ++ post) i g j := by
  rcases h with h | ⟨k, c, h1, h2, h3⟩
  · exact Or.inl h
  · refine Or.inr ⟨k, c, ?_, h2, h3⟩
    rw [List.reverse_append, List.getElem?_append_left (List.getElem?_eq_some_iff.mp h1).1]
    exact h1

/-- What is true of a relation of the schema that `GenDB` builds: it belongs to the class `c`, and its tuples have the entities of a path from `c` to the
class `d` and those of the layout of `d`. -/
structure Kind (s : PClean.Schema) (b : Build F) (n : String) (spec : RelSpec F) (c : String) (hops : List (String × String)) (d : String) (ds : List String) :
    Prop where
  path : ∃ path x j p, PathTo s c path hops d x j p
  layout : Layout s d ds
  doms : spec.doms = ds ++ hops.reverse.map (·.1)
  sound : ∀ i f j, RelEntry b.relIdx n i f j → TupleRef s d ds.length hops i f j
  complete : c ≠ s.query.recordClass → ∀ i f j, TupleRef s d ds.length hops i f j → RelEntry b.relIdx n i f j
  base : ∀ m, spec.base? = some m → ∃ sp pre post c' path' x j p, b.schema.find? m = some sp ∧ hops = pre ++ post ∧ pre ≠ [] ∧ PathTo s c' path' post d x j p ∧
    c' ≠ s.query.recordClass ∧ sp.doms = ds ++ post.reverse.map (·.1) ∧ ∀ i f j, RelEntry b.relIdx m i f j → TupleRef s d ds.length post i f j

section
variable {Ly : Layouts} {mkC : String → FMap String String → Res F.C} {mkE : String → FMap String String → Res F.E} {clean finalOnly : Bool} {b : Build F}

theorem classIdx_sound (hL : layoutsOf s = .ok Ly) {d : String} (hsh : ShallowAt s d) {ds : List String} (hd : Layout s d ds) {r : RefIdx}
    (hr : Ly.classIdx.find? d = some r) {i : Nat} {f : String} {j : Nat} (he : Entry r i f j) : RefAt s d i f j := by
  obtain ⟨l1, l2⟩ := layoutsOf_spec hL
  exact (C46_sound_partial l1 l2 (((C45_layout l1 d).2 ds).mpr hd) hsh hr he).1

theorem kind_var (hf : Fine s clean) (hL : layoutsOf s = .ok Ly) (h : makeSchema s Ly mkC mkE clean finalOnly = .ok b) {c x j : String} {p : FMap String String}
    (hs : HasScalar s c x j p) {spec : RelSpec F} (hspec : b.schema.find? (varRel c x) = some spec) : ∃ ds, Kind s b (varRel c x) spec c [] c ds := by
  obtain ⟨a1, a2, a3, a4, a5⟩ := layouts_facts hL
  obtain ⟨h1, C, ds, _, h2, h3⟩ := (makeSchema_spec hf.names hf.query a1 a3 a4 a5 h).var c x j p hs
  rcases h3 with ⟨_, h3⟩ | ⟨_, h3⟩
  · rw [h3] at hspec
    cases hspec
    refine ⟨ds, ⟨_, _, _, _, .here hs⟩, h2, by simp [RelSpec.doms], ?_, ?_, fun m hm => (by cases hm)⟩
    · rintro i f j ⟨r, hr, he⟩
      rw [h1] at hr
      exact Or.inl (classIdx_sound hL (hf.shallow c x _ p hs) h2 hr he)
    · intro _ i f j ht
      obtain ⟨r, hr, he⟩ := classIdx_complete hL (tupleRef_nil.mp ht)
      exact ⟨r, by rw [h1]; exact hr, he⟩
  · rw [h3] at hspec
    cases hspec

/-- The indices of a variable. -/
theorem var_sound (hf : Fine s clean) (hL : layoutsOf s = .ok Ly) (h : makeSchema s Ly mkC mkE clean finalOnly = .ok b) {c x j : String} {p : FMap String String}
    (hs : HasScalar s c x j p) {ds : List String} (hd : Layout s c ds) (hops : List (String × String)) {i : Nat} {f : String} {i' : Nat}
    (he : RelEntry b.relIdx (varRel c x) i f i') : TupleRef s c ds.length hops i f i' := by
  obtain ⟨a1, a2, a3, a4, a5⟩ := layouts_facts hL
  obtain ⟨h1, _⟩ := (makeSchema_spec hf.names hf.query a1 a3 a4 a5 h).var c x j p hs
  obtain ⟨r, hr, he⟩ := he
  rw [h1] at hr
  exact Or.inl (classIdx_sound hL (hf.shallow c x _ p hs) hd hr he)

/-- The relation of a queried variable of another class. -/
theorem var_spec (hf : Fine s clean) (hL : layoutsOf s = .ok Ly) (h : makeSchema s Ly mkC mkE clean finalOnly = .ok b) {path : List String}
    {hop : String × String} {hops : List (String × String)} {d x j : String} {p : FMap String String}
    (hp : PathTo s s.query.recordClass path (hop :: hops) d x j p) {ds : List String} (hd : Layout s d ds) :
    d ≠ s.query.recordClass ∧ ∃ C, b.schema.find? (varRel d x) = some (.clean C ds false) := by
  obtain ⟨a1, a2, a3, a4, a5⟩ := layouts_facts hL
  have hne := path_leaves a1 hp
  obtain ⟨C, ds', _, h2, h3⟩ := (C62_relations hf.names hf.query hL h).1 d x j p hp.has (fun h => hne h.2.1)
  have := layout_unique hd h2
  subst this
  exact ⟨hne, C, h3⟩

/-- The relations of a query field whose path has hops, without `only_final_emissions`. -/
theorem kind_link (hf : Fine s clean) (hL : layoutsOf s = .ok Ly) (h : makeSchema s Ly mkC mkE clean false = .ok b) {k : String} {f : QueryField}
    {hops : List (String × String)} {d x j : String} {p : FMap String String} {ds : List String} (hk : s.query.fields.find? k = some f)
    (hp : PathTo s s.query.recordClass f.classPath hops d x j p) (hds : Layout s d ds) {pre : List (String × String)} {c g : String}
    {post : List (String × String)} (he : hops = pre ++ (c, g) :: post) :
    ∃ e', b.schema.find? (linkRel k pre c) = some (.noisy e' (ds ++ (post.reverse ++ [(c, g)]).map (·.1)) (baseOf k d x post) pre.isEmpty) ∧
      ∀ i f j, RelEntry b.relIdx (linkRel k pre c) i f j ↔ TupleRef s d ds.length ((c, g) :: post) i f j := by
  have hfield := (C62_relations hf.names hf.query hL h).2.1 k f hops d x j p ds hk hp hds
  cases hops with
  | nil => simp at he
  | cons hop hops =>
    obtain ⟨e', _, hall⟩ := hfield
    obtain ⟨q1, r, q2, q3⟩ := hall pre c g post he
    refine ⟨e', q1, ?_⟩
    intro i f j
    have hrel : RelEntry b.relIdx (linkRel k pre c) i f j ↔ Entry r i f j :=
      ⟨fun ⟨r', h1, h2⟩ => by rw [q2] at h1; cases h1; exact h2, fun h => ⟨r, q2, h⟩⟩
    rw [hrel, q3]
    constructor
    · rintro (⟨r₀, h1, h2⟩ | h)
      · exact Or.inl (classIdx_sound hL (hf.shallow d x _ p hp.has) hds h1 h2)
      · exact Or.inr (by simpa using h)
    · rintro (h | h)
      · obtain ⟨r₀, h1, h2⟩ := classIdx_complete hL h
        exact Or.inl ⟨r₀, h1, h2⟩
      · exact Or.inr (by simpa using h)

theorem linkRel_snoc {k : String} {pre : List (String × String)} {a : String × String} {c : String} : linkRel k (pre ++ [a]) c = viaRel c k := by
  simp [linkRel]

theorem kind_of_link (hf : Fine s clean) (hL : layoutsOf s = .ok Ly) (h : makeSchema s Ly mkC mkE clean false = .ok b) {k : String} {f : QueryField}
    {hops : List (String × String)} {d x j : String} {p : FMap String String} {ds : List String} (hk : s.query.fields.find? k = some f)
    (hp : PathTo s s.query.recordClass f.classPath hops d x j p) (hds : Layout s d ds) {pre : List (String × String)} {c g : String}
    {post : List (String × String)} (he : hops = pre ++ (c, g) :: post) {spec : RelSpec F} (hspec : b.schema.find? (linkRel k pre c) = some spec) :
    Kind s b (linkRel k pre c) spec c ((c, g) :: post) d ds := by
  obtain ⟨a1, _⟩ := layouts_facts hL
  obtain ⟨e', h1, h2⟩ := kind_link hf hL h hk hp hds he
  rw [h1] at hspec
  cases hspec
  obtain ⟨path', hp'⟩ := hp.suffix he
  refine ⟨⟨_, _, _, _, hp'⟩, hds, by simp [RelSpec.doms], fun _ _ _ => (h2 _ _ _).mp, fun _ _ _ _ => (h2 _ _ _).mpr, ?_⟩
  intro m hm
  cases hm
  cases post with
  | nil =>
    cases hops with
    | nil => simp at he
    | cons hop hops =>
      obtain ⟨hne, C, hv⟩ := var_spec hf hL h hp hds
      exact ⟨_, [(c, g)], [], d, _, _, _, _, hv, rfl, by simp, .here hp.has, hne, by simp [RelSpec.doms], fun _ _ _ => var_sound hf hL h hp.has hds []⟩
  | cons a post =>
    obtain ⟨c', g'⟩ := a
    have he' : hops = (pre ++ [(c, g)]) ++ (c', g') :: post := by rw [he]; simp
    obtain ⟨e'', q1, q2⟩ := kind_link hf hL h hk hp hds he'
    obtain ⟨path'', hp''⟩ := hp.suffix he'
    rw [linkRel_snoc] at q1 q2
    refine ⟨_, [(c, g)], (c', g') :: post, c', path'', _, _, _, q1, rfl, by simp, hp'', ?_, by simp [RelSpec.doms], fun _ _ _ => (q2 _ _ _).mp⟩
    obtain ⟨r, hr⟩ := a1
    have := hp.drop_rank hr he' (by simp) hp''
    rintro rfl
    omega

/-- The relation of a query field. -/
theorem kind_field (hf : Fine s clean) (hL : layoutsOf s = .ok Ly) (h : makeSchema s Ly mkC mkE clean finalOnly = .ok b) {k : String} {f : QueryField}
    {hops : List (String × String)} {d x j : String} {p : FMap String String} {ds : List String} (hk : s.query.fields.find? k = some f)
    (hp : PathTo s s.query.recordClass f.classPath hops d x j p) (hds : Layout s d ds) {spec : RelSpec F} (hspec : b.schema.find? k = some spec) :
    Kind s b k spec s.query.recordClass hops d ds := by
  have hfield := (C62_relations hf.names hf.query hL h).2.1 k f hops d x j p ds hk hp hds
  cases hops with
  | nil =>
    have hcl : clean = true := hf.mode k f x hk hp.path
    subst hcl
    obtain ⟨C, _, h1, h2⟩ := hfield
    rw [h1] at hspec
    cases hspec
    refine ⟨⟨_, _, _, _, hp⟩, hds, by simp [RelSpec.doms], ?_, fun h => absurd rfl h, fun m hm => (by cases hm)⟩
    rintro i f j ⟨r, hr, _⟩
    rw [h2] at hr
    cases hr
  | cons hop hops =>
    cases finalOnly with
    | false =>
      obtain ⟨c, g⟩ := hop
      have hc : c = s.query.recordClass := hp.first
      have := kind_of_link hf hL h hk hp hds (pre := []) (c := c) (g := g) (post := hops) rfl (spec := spec) (by simpa [linkRel] using hspec)
      rw [hc] at this ⊢
      simpa [linkRel] using this
    | true =>
      obtain ⟨e', r, _, h1, h2, h3⟩ := hfield
      rw [h1] at hspec
      cases hspec
      obtain ⟨hne, C, hv⟩ := var_spec hf hL h hp hds
      refine ⟨⟨_, _, _, _, hp⟩, hds, rfl, ?_, fun h => absurd rfl h, ?_⟩
      · rintro i f j ⟨r', hr, he⟩
        rw [h2] at hr
        cases hr
        have he := (h3 i f j).mp he
        cases hx : Ly.classIdx.find? d with
        | none => rw [hx] at he; exact Or.inr he
        | some r₀ => rw [hx] at he; exact Or.inl (classIdx_sound hL (hf.shallow d x _ p hp.has) hds hx he)
      · intro m hm
        cases hm
        exact ⟨_, hop :: hops, [], d, _, _, _, _, hv, by simp, by simp, .here hp.has, hne, by simp [RelSpec.doms], fun _ _ _ => var_sound hf hL h hp.has hds []⟩

theorem field_layout (hL : layoutsOf s = .ok Ly) {c : String} {path : List String} {hops : List (String × String)} {d x j : String} {p : FMap String String}
    (hp : PathTo s c path hops d x j p) : ∃ ds, Layout s d ds := by
  obtain ⟨a1, a2, a3, a4, a5⟩ := layouts_facts hL
  obtain ⟨cl, v, hc, _⟩ := hp.has
  exact a4 d cl hc

/-- The relations of the schema. -/
theorem kinds (hf : Fine s clean) (hL : layoutsOf s = .ok Ly) (h : makeSchema s Ly mkC mkE clean finalOnly = .ok b) {n : String} {spec : RelSpec F}
    (hspec : b.schema.find? n = some spec) : ∃ c hops d ds, Kind s b n spec c hops d ds := by
  rcases (C62_relations hf.names hf.query hL h).2.2 n spec hspec with ⟨c, x, j, p, hs, rfl⟩ | ⟨k, f, hk, hn⟩
  · obtain ⟨ds, hd⟩ := kind_var hf hL h hs hspec
    exact ⟨_, _, _, _, hd⟩
  · rcases hn with rfl | ⟨hops, d, x, j, p, hp, a, ha, rfl⟩
    · obtain ⟨hops, d, x, j, p, hp⟩ := hf.query.path n f hk
      obtain ⟨ds, hd⟩ := field_layout hL hp
      exact ⟨_, _, _, _, kind_field hf hL h hk hp hd hspec⟩
    · obtain ⟨ds, hd⟩ := field_layout hL hp
      cases finalOnly with
      | true => simp [viaHops] at ha
      | false =>
        cases hops with
        | nil => simp [viaHops] at ha
        | cons hop hops =>
          simp only [viaHops, Bool.false_eq_true, if_false, List.tail_cons] at ha
          obtain ⟨pre, post, he⟩ := List.append_of_mem ha
          obtain ⟨c, g⟩ := a
          have hl : linkRel k (hop :: pre) c = viaRel c k := by simp [linkRel]
          rw [← hl] at hspec ⊢
          exact ⟨_, _, _, _, kind_of_link hf hL h hk hp hd (pre := hop :: pre) (by rw [he]; rfl) hspec⟩

end

/-! ### the constructor -/

theorem classRelsLoop_spec {l : List (String × RelSpec F)} : ∀ {m m' : FMap String (List String)}, classRelsLoop l m = .ok m' →
    ∀ c n, (∃ rels, m'.find? c = some rels ∧ n ∈ rels) ↔ (∃ rels, m.find? c = some rels ∧ n ∈ rels) ∨ ∃ spec, (n, spec) ∈ l ∧ spec.doms.getLast? = some c := by
  induction l with
  | nil =>
    intro m m' h c n
    cases h
    simp
  | cons x l ih =>
    obtain ⟨rel, spec⟩ := x
    intro m m' h c n
    unfold classRelsLoop at h
    cases hx : spec.doms.getLast? with
    | none => rw [hx] at h; cases h
    | some c' =>
      rw [hx] at h
      rw [ih h c n]
      constructor
      · rintro (⟨rels, h1, h2⟩ | ⟨sp, h1, h2⟩)
        · rw [FMap.find?_set] at h1
          split at h1
          · next he =>
            cases h1
            rcases List.mem_append.mp h2 with h2 | h2
            · cases hm : m.find? c' with
              | none => rw [hm] at h2; cases h2
              | some rels => rw [hm] at h2; exact Or.inl ⟨rels, by rw [he]; exact hm, h2⟩
            · cases List.mem_singleton.mp h2
              exact Or.inr ⟨spec, List.mem_cons_self .., by rw [he]; exact hx⟩
          · exact Or.inl ⟨rels, h1, h2⟩
        · exact Or.inr ⟨sp, List.mem_cons_of_mem _ h1, h2⟩
      · rintro (⟨rels, h1, h2⟩ | ⟨sp, h1, h2⟩)
        · left
          by_cases he : c = c'
          · subst he
            refine ⟨_, FMap.find?_set_self .., ?_⟩
            rw [h1]
            exact List.mem_append_left _ h2
          · exact ⟨rels, by rw [FMap.find?_set, if_neg he]; exact h1, h2⟩
        · rcases List.mem_cons.mp h1 with h1 | h1
          · cases h1
            rw [hx] at h2
            cases h2
            exact Or.inl ⟨_, FMap.find?_set_self .., List.mem_append_right _ (List.mem_singleton.mpr rfl)⟩
          · exact Or.inr ⟨sp, h1, h2⟩

theorem classRelsLoop_defined {l : List (String × RelSpec F)} (hl : ∀ x ∈ l, x.2.doms ≠ []) : ∀ (m : FMap String (List String)), ∃ m', classRelsLoop l m = .ok m' := by
  induction l with
  | nil => intro m; exact ⟨m, rfl⟩
  | cons x l ih =>
    obtain ⟨rel, spec⟩ := x
    intro m
    unfold classRelsLoop
    cases hx : spec.doms.getLast? with
    | none => exact absurd (List.getLast?_eq_none_iff.mp hx) (hl _ (List.mem_cons_self ..))
    | some c => exact ih (fun y hy => hl y (List.mem_cons_of_mem _ hy)) _

theorem Kind.tree {b : Build F} {n : String} {spec : RelSpec F} {c : String} {hops : List (String × String)} {d : String} {ds : List String}
    (h : Kind s b n spec c hops d ds) : TreeIdx s spec.doms (TupleRef s d ds.length hops) ∧ Rooted spec.doms (TupleRef s d ds.length hops) ∧
      spec.doms.getLast? = some c ∧ spec.doms ≠ [] := by
  obtain ⟨path, x, j, p, hp⟩ := h.path
  obtain ⟨h1, h2, h3⟩ := hp.tree h.layout
  have hl : spec.doms.length = ds.length + hops.length := by rw [h.doms]; simp
  have := h.layout.length_pos
  rw [← h.doms] at h1 h2 h3
  exact ⟨h1, h2, by rw [List.getLast?_eq_getElem?, hl]; exact h3, fun h0 => by rw [h0] at hl; simp at hl; omega⟩

theorem Layout.known (n : Nat) : ∀ {c ds}, ds.length ≤ n → Layout s c ds → ∀ {x}, x ∈ ds → ∃ cl, s.classes.find? x = some cl := by
  induction n with
  | zero => intro c ds h hl; have := hl.length_pos; omega
  | succ n ih =>
    intro c ds hn hl x hx
    obtain ⟨cl, es, hc, hs, rfl⟩ := hl.sub
    simp only [List.length_append, List.length_singleton] at hn
    rcases List.mem_append.mp hx with hx | hx
    · obtain ⟨a, ha, hax⟩ := List.getElem_of_mem hx
      obtain ⟨o, g, d, ds', h1, h2, h3, h4⟩ := fieldAt_cover hs ha
      have hb := h1.bound hs h2
      have hg := h1.get hs h2 (i := a - o) (by omega)
      rw [show o + (a - o) = a by omega, List.getElem?_eq_getElem ha, hax] at hg
      exact ih (by omega) h2 (List.mem_of_getElem? hg.symm)
    · cases List.mem_singleton.mp hx
      exact ⟨cl, hc⟩

theorem Kind.known {b : Build F} {n : String} {spec : RelSpec F} {c : String} {hops : List (String × String)} {d : String} {ds : List String}
    (h : Kind s b n spec c hops d ds) {x : String} (hx : x ∈ spec.doms) : ∃ cl, s.classes.find? x = some cl := by
  rw [h.doms] at hx
  rcases List.mem_append.mp hx with hx | hx
  · exact h.layout.known _ (Nat.le_refl _) hx
  · obtain ⟨path, y, j, p, hp⟩ := h.path
    obtain ⟨a, ha, rfl⟩ := List.mem_map.mp hx
    exact hp.hop_class a (List.mem_reverse.mp ha)

theorem wired {Ly : Layouts} {mkC : String → FMap String String → Res F.C} {mkE : String → FMap String String → Res F.E} {clean finalOnly : Bool} {b : Build F}
    (hf : Fine s clean) (hL : layoutsOf s = .ok Ly) (h : makeSchema s Ly mkC mkE clean finalOnly = .ok b) {classRels : FMap String (List String)}
    (hc : classRelsLoop b.schema.entries ∅ = .ok classRels) : ∃ r, Wired s b.relIdx classRels b.schema s.query.recordClass r := by
  obtain ⟨a1, a2, a3, a4, a5⟩ := layouts_facts hL
  obtain ⟨r, hr, hb⟩ := a1.rank a2
  have hcs := classRelsLoop_spec hc
  refine ⟨r, a2, hr, hb, ?_, ?_, ?_, ?_, ?_, ?_⟩
  · intro n spec d hn hd
    obtain ⟨c, hops, d', ds, hk⟩ := kinds hf hL h hn
    exact hk.known hd
  · intro n spec hn
    obtain ⟨c, hops, d', ds, hk⟩ := kinds hf hL h hn
    obtain ⟨t1, t2, t3, t4⟩ := hk.tree
    exact ⟨t4, t1.mono hk.sound⟩
  · intro n spec m hn hm
    obtain ⟨c, hops, d, ds, hk⟩ := kinds hf hL h hn
    obtain ⟨t1, t2, t3, t4⟩ := hk.tree
    obtain ⟨sp, pre, post, c', path', x, j, p, q1, rfl, q3, q4, q5, q6, q7⟩ := hk.base m hm
    obtain ⟨path, x', j', p', hp⟩ := hk.path
    obtain ⟨_, _, u3⟩ := q4.tree hk.layout
    have hsl : sp.doms.length = ds.length + post.length := by rw [q6]; simp
    have hrank : r c' < r c := by
      obtain ⟨c'', path'', hp''⟩ := hp.drop rfl
      have hlt := hp.drop_rank hr rfl q3 hp''
      have : c' = c'' := by
        cases post with
        | nil => rw [← q4.nil_hops rfl, ← hp''.nil_hops rfl]
        | cons a post =>
          obtain ⟨y, g⟩ := a
          rw [← q4.first, ← hp''.first]
      rw [this]
      exact hlt
    refine ⟨sp, pre.reverse.map (·.1), c, c', q1, ?_, t3, ?_, hrank, q5, ?_⟩
    · rw [hk.doms, q6]; simp
    · rw [List.getLast?_eq_getElem?, hsl, q6]; exact u3
    · intro hne i f j' he
      exact hk.complete hne _ _ _ (q7 _ _ _ he).of_suffix
  · intro n spec c hn hlast hne
    obtain ⟨c', hops, d, ds, hk⟩ := kinds hf hL h hn
    obtain ⟨t1, t2, t3, t4⟩ := hk.tree
    rw [hlast] at t3
    cases t3
    intro i hi
    obtain ⟨a, g, hag⟩ := t2 i hi
    exact ⟨a, g, hk.complete hne _ _ _ hag⟩
  · intro n spec c hn hlast
    exact (hcs c n).mpr (Or.inr ⟨spec, FMap.mem_entries.mpr hn, hlast⟩)
  · intro c rels n h1 h2
    rcases (hcs c n).mp ⟨rels, h1, h2⟩ with ⟨rels', h3, _⟩ | ⟨spec, h3, h4⟩
    · simp at h3
    · exact ⟨spec, FMap.mem_entries.mp h3, h4⟩

/-- What the constructor makes, whatever the distributions are. -/
structure Laid (s : PClean.Schema) (hash : String → Int) (mkC : String → FMap String String → Res F.C) (mkE : String → FMap String String → Res F.E)
    (clean finalOnly : Bool) (D : DB F) : Prop where
  schema : D.schema = s
  hash_eq : D.hash = hash
  build : ∃ Ly b, layoutsOf s = .ok Ly ∧ makeSchema s Ly mkC mkE clean finalOnly = .ok b ∧ D.relIdx = b.relIdx ∧ D.H.schema = b.schema
  wired : ∃ r, Wired D.schema D.relIdx D.classRels D.H.schema D.schema.query.recordClass r
  tidy : D.H.Tidy
  ents : EntsOk D.schema D.hash D.ents
  none : ∀ n k, D.H.value n k = none
  noRef : ∀ c f i v, ¬ HasRef D.ents c f i v
  asks : ∀ q f hops d x j p, s.query.fields.find? q = some f → PathTo s s.query.recordClass f.classPath hops d x j p → ∃ spec ds, Asks D q spec hops d ds

theorem make_laid {hash : String → Int} {mkC : String → FMap String String → Res F.C} {mkE : String → FMap String String → Res F.E}
    {clean finalOnly : Bool} (hf : Fine s clean) {t : Tape} {D : DB F} {t' : Tape} (h : make s hash mkC mkE clean finalOnly t = .ok (D, t')) :
    Laid s hash mkC mkE clean finalOnly D := by
  unfold make at h
  obtain ⟨Ly, h1, h⟩ := bind_ok.mp h
  obtain ⟨b, h2, h⟩ := bind_ok.mp h
  obtain ⟨⟨H, t₁⟩, h3, h⟩ := bind_ok.mp h
  obtain ⟨classRels, h4, h⟩ := bind_ok.mp h
  cases h
  obtain ⟨hsch, hrels⟩ := HIRM.C31_hirm_result h3
  have h4' : classRelsLoop b.schema.entries ∅ = .ok classRels := by rw [← hsch]; exact h4
  obtain ⟨r, hw⟩ := wired hf h1 h2 h4'
  have hval : ∀ n k, H.value n k = none := by
    intro n k
    cases hs : b.schema.find? n with
    | none =>
      cases hv : H.value n k with
      | none => rfl
      | some v =>
        obtain ⟨⟨tb, id, rel⟩, q1, _⟩ : ∃ x, H.relOf n = some x ∧ True := by
          unfold HIRM.value HIRM.dataOf at hv
          cases hx : H.relOf n with
          | none => rw [hx] at hv; cases hv
          | some x => exact ⟨x, rfl, trivial⟩
        have := (HIRM.mk'_history h3).skel.known q1
        obtain ⟨sp, hsp⟩ := FMap.contains_iff.mp this
        rw [hsch, hs] at hsp
        cases hsp
    | some spec =>
      obtain ⟨tb, id, rel, q1, _, _, _, q2⟩ := hrels n spec hs
      rw [HIRM.value_of q1, q2]
      rfl
  have hno : ∀ c f i v, ¬ HasRef (⟨s.classes.mapVals (fun _ _ => ∅), s.classes.mapVals (fun _ _ => {})⟩ : Ents) c f i v := by
    rintro c f i v ⟨m, q1, q2⟩
    rw [FMap.find?_mapVals] at q1
    cases hc : s.classes.find? c with
    | none => rw [hc] at q1; cases q1
    | some cl => rw [hc] at q1; cases q1; simp at q2
  refine ⟨rfl, rfl, ⟨Ly, b, h1, h2, rfl, hsch⟩, ⟨r, ?_⟩, HIRM.mk'_tidy h3, ?_, hval, hno, ?_⟩
  · show Wired s b.relIdx classRels H.schema s.query.recordClass r
    rw [hsch]
    exact hw
  · refine ⟨?_, fun c f i v h => absurd h (hno c f i v), ?_, ?_, fun c f i v c' f' i' v' d _ _ h => absurd h (hno c f i v)⟩
    · intro c cl hc
      simp only [FMap.find?_mapVals, hc]
      exact ⟨⟨_, rfl⟩, _, rfl⟩
    · intro d crp hd
      simp only [FMap.find?_mapVals] at hd
      cases hc : s.classes.find? d with
      | none => rw [hc] at hd; cases hd
      | some cl => rw [hc] at hd; cases hd; exact CRP.WF.init _
    · intro d crp k v hd
      simp only [FMap.find?_mapVals] at hd
      cases hc : s.classes.find? d with
      | none => rw [hc] at hd; cases hd
      | some cl =>
        rw [hc] at hd
        cases hd
        constructor
        · intro h; simp at h
        · rintro ⟨c, f, i, _, h, _⟩; exact absurd h (hno c f i v)
  · intro q f hops d x j p hq hp
    obtain ⟨ds, hds⟩ := field_layout h1 hp
    obtain ⟨spec, hspec⟩ : ∃ spec, b.schema.find? q = some spec := by
      have hfield := (C62_relations hf.names hf.query h1 h2).2.1 q f hops d x j p ds hq hp hds
      cases hops with
      | nil =>
        have hcl : clean = true := hf.mode q f x hq hp.path
        subst hcl
        obtain ⟨_, _, h, _⟩ := hfield
        exact ⟨_, h⟩
      | cons hop hops =>
        cases finalOnly with
        | true =>
          obtain ⟨_, _, _, h, _⟩ := hfield
          exact ⟨_, h⟩
        | false =>
          obtain ⟨c, g⟩ := hop
          obtain ⟨_, h, _⟩ := kind_link hf h1 h2 hq hp hds (pre := []) (c := c) (g := g) (post := hops) rfl
          exact ⟨_, by simpa [linkRel] using h⟩
    have hk := kind_field hf h1 h2 hq hp hds hspec
    refine ⟨spec, ds, ⟨f, x, j, p, hq, hp⟩, hds, by show H.schema.find? q = _; rw [hsch]; exact hspec, hk.doms, ?_⟩
    intro m hm i g i' he
    obtain ⟨sp, pre, post, c', path', x', j', p', q1, q2, q3, q4, q5, q6, q7⟩ := hk.base m hm
    rw [q2]
    exact (q7 _ _ _ he).of_suffix

/-- What the constructor makes. -/
structure Made (L : FamilyLaws F) (s : PClean.Schema) (hash : String → Int) (mkC : String → FMap String String → Res F.C) (mkE : String → FMap String String → Res F.E)
    (clean finalOnly : Bool) (D : DB F) : Prop extends Laid s hash mkC mkE clean finalOnly D where
  st : St L D D.H D.ents

theorem make_spec (L : FamilyLaws F) {hash : String → Int} {mkC : String → FMap String String → Res F.C} {mkE : String → FMap String String → Res F.E}
    {clean finalOnly : Bool} (hf : Fine s clean) {t : Tape} {D : DB F} {t' : Tape} (h : make s hash mkC mkE clean finalOnly t = .ok (D, t')) :
    Made L s hash mkC mkE clean finalOnly D := by
  have hl := make_laid hf h
  refine ⟨hl, ?_, rfl, hl.ents⟩
  obtain ⟨r, hw⟩ := hl.wired
  unfold make at h
  obtain ⟨Ly, h1, h⟩ := bind_ok.mp h
  obtain ⟨b, h2, h⟩ := bind_ok.mp h
  obtain ⟨⟨H, t₁⟩, h3, h⟩ := bind_ok.mp h
  obtain ⟨classRels, h4, h⟩ := bind_ok.mp h
  cases h
  obtain ⟨hsch, _⟩ := HIRM.C31_hirm_result h3
  refine HIRM.C61_constructed ?_ h3
  intro n spec m sp q1 q2 q3
  obtain ⟨sp', tl, _, _, w1, w2, _⟩ := hw.base n spec m (by show H.schema.find? n = _; rw [hsch]; exact q1) q2
  have w1 : H.schema.find? m = some sp' := w1
  rw [hsch, q3] at w1
  cases w1
  rw [w2]
  simp

end
end GenDB
end Verif
