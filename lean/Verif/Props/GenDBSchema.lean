import Verif.Lemmas.GenDBRefs
/-!
C45 and C46: the domain layouts and the reference indices that `GenDB` computes from a PClean schema.
-/
namespace Verif
namespace GenDB
open PClean

/-- A class with reference fields only. -/
def refClass (name : String) (fields : List (String × String)) : Class :=
  ⟨name, FMap.ofList (fields.map fun e => (e.1, ⟨e.1, .cls e.2⟩))⟩

/-- A schema with these classes. -/
def schemaOf (cs : List Class) : PClean.Schema := ⟨FMap.ofList (cs.map fun c => (c.name, c)), ⟨"", ∅⟩⟩

/-- A record refers to a practice and a physician; both refer to a city. -/
def physicians : PClean.Schema :=
  schemaOf [refClass "City" [], refClass "Physician" [("school", "School")], refClass "Practice" [("city", "City")],
    refClass "Record" [("location", "Practice"), ("physician", "Physician")], refClass "School" []]

/-- Four classes, each of which refers to the one before. -/
def chain4 : PClean.Schema :=
  schemaOf [refClass "A" [], refClass "B" [("a", "A")], refClass "C" [("b", "B")], refClass "D" [("c", "C")]]

/-! ### C45 -/

/-- C45: the domains of a class are the domains of the classes it references, in the order of the fields, and then the class itself; exactly the classes
of the schema have domains. -/
theorem C45_layout {s : PClean.Schema} {m : Doms} (h : computeDomains s = .ok m) (c : String) :
    ((∃ ds, m.find? c = some ds) ↔ ∃ cl, s.classes.find? c = some cl) ∧ ∀ ds, m.find? c = some ds ↔ Layout s c ds := by
  obtain ⟨h1, _, h3⟩ := domainsCache_spec (m := ∅) (fun c ds h => by simp at h) h
  have ex : ∀ {c}, (∃ cl, s.classes.find? c = some cl) → ∃ ds, m.find? c = some ds := fun hc => h3 _ (FMap.mem_keys.mpr hc)
  refine ⟨⟨fun ⟨ds, hd⟩ => (h1 c ds hd).exists_class, ex⟩, fun ds => ⟨h1 c ds, ?_⟩⟩
  intro hl
  obtain ⟨ds', hd⟩ := ex hl.exists_class
  rw [hd, layout_unique (h1 c ds' hd) hl]

/-- C45: the domains are computed exactly for the schemas without cycles of references and without references to missing classes. -/
theorem C45_defined (s : PClean.Schema) : (∃ m, computeDomains s = .ok m) ↔ Acyclic s ∧ Closed s := by
  constructor
  · rintro ⟨m, h⟩
    refine acyclic_of_layouts ?_
    intro c cl hc
    obtain ⟨h1, h2⟩ := C45_layout h c
    obtain ⟨ds, hd⟩ := h1.mpr ⟨cl, hc⟩
    exact ⟨ds, (h2 ds).mp hd⟩
  · rintro ⟨h1, h2⟩
    exact domainsCache_ok h1 h2 (fun c hc => FMap.mem_keys.mp hc) ∅

/-- C45: with a cycle of references the recursion does not end. -/
theorem C45_cyclic {s : PClean.Schema} (hc : Closed s) (ha : ¬ Acyclic s) : computeDomains s = .error .ub := by
  cases h : computeDomains s with
  | ok m => exact absurd ((C45_defined s).mp ⟨m, h⟩).1 ha
  | error e => rw [domainsCache_err hc (fun c hc => FMap.mem_keys.mp hc) h]

set_option maxRecDepth 4000 in
example : (computeDomains physicians).map (fun m => m.find? "Record") = .ok (some ["City", "Practice", "School", "Physician", "Record"]) := rfl
set_option maxRecDepth 4000 in
example : ∃ m, computeDomains physicians = .ok m := ⟨_, rfl⟩
/-- a class that refers to itself -/
example : computeDomains (schemaOf [refClass "A" [("a", "A")]]) = .error .ub := rfl

/-! ### C46 -/

/-- C46: each reference within the layout of a class is in its index, at any depth; classes without references have no index. -/
theorem C46_complete {s : PClean.Schema} {m : Doms} {idx : FMap String RefIdx} (hm : computeDomains s = .ok m) (h : computeRefs s m = .ok idx)
    {c : String} {i : Nat} {f : String} {j : Nat} (hr : RefAt s c i f j) : ∃ r, idx.find? c = some r ∧ Entry r i f j := by
  have hd : DomsOk s m := fun c ds h => ((C45_layout hm c).2 ds).mp h
  obtain ⟨h1, h2, _⟩ := refsCache_spec hd (idx := ∅) (fun c r h => by simp at h) h
  have hcl : ∃ cl, s.classes.find? c = some cl := by cases hr <;> exact ⟨_, by assumption⟩
  obtain ⟨cl, hcl⟩ := hcl
  cases hx : idx.find? c with
  | none => exact absurd hr (no_refAt hcl (h2 c (FMap.mem_keys.mpr ⟨cl, hcl⟩) hx cl hcl))
  | some r => exact ⟨r, rfl, (h1 c r hx).complete i f j hr⟩

/-- C46, as far as it holds: for a class from which no three references lead on one after the other, each entry of the index says what the property claims.
Missing: deeper classes, for which `C46_phantom_false` shows that there are wrong entries. -/
theorem C46_sound_partial {s : PClean.Schema} {m : Doms} {idx : FMap String RefIdx} (hm : computeDomains s = .ok m) (h : computeRefs s m = .ok idx)
    {c : String} {ds : List String} (hds : m.find? c = some ds) (hsh : ShallowAt s c) {r : RefIdx} (hr : idx.find? c = some r) {i : Nat} {f : String}
    {j : Nat} (he : Entry r i f j) : RefAt s c i f j ∧ ∃ x y, ds[i]? = some x ∧ ds[j]? = some y ∧ Refers s x f y := by
  have hd : DomsOk s m := fun c ds h => ((C45_layout hm c).2 ds).mp h
  obtain ⟨h1, h2, _⟩ := refsCache_spec hd (idx := ∅) (fun c r h => by simp at h) h
  have := (h1 c r hr).sound hsh i f j he
  obtain ⟨x, y, a1, a2, a3, _⟩ := refAt_spec this (hd c ds hds)
  exact ⟨this, x, y, a1, a2, a3⟩

/-- C46 is false for deeper classes, whatever the schema: if `a` refers to `b`, `b` to `c` and `c` by a field `h` to `d`, and `b` has no field `h`, then the
index of `a` says of the position of `b`, to which the field `f` of `a` leads, that it has a reference field `h`. -/
theorem C46_phantom_false {s : PClean.Schema} {m : Doms} {idx : FMap String RefIdx} (hm : computeDomains s = .ok m) (h : computeRefs s m = .ok idx)
    {a f b g c k d : String} (h1 : Refers s a f b) (h2 : Refers s b g c) (h3 : Refers s c k d) (h4 : ∀ x, ¬ Refers s b k x) :
    ∃ r ds p j, idx.find? a = some r ∧ m.find? a = some ds ∧ RefAt s a (ds.length - 1) f p ∧ ds[p]? = some b ∧ Entry r p k j ∧
      ¬ ∃ x y, ds[p]? = some x ∧ ds[j]? = some y ∧ Refers s x k y := by
  have hd : DomsOk s m := fun c ds h => ((C45_layout hm c).2 ds).mp h
  obtain ⟨i1, i2, _⟩ := refsCache_spec hd (idx := ∅) (fun c r h => by simp at h) h
  obtain ⟨acl, ha, hf⟩ := h1
  obtain ⟨bcl, hb, hg⟩ := h2
  obtain ⟨ccl, hc, hk⟩ := h3
  have lay : ∀ {c cl}, s.classes.find? c = some cl → ∃ ds es, m.find? c = some ds ∧ Layout s c ds ∧ Sublayouts s (refFields cl) es ∧ ds = es ++ [c] := by
    intro c cl hc
    obtain ⟨ds, h⟩ := (C45_layout hm c).1.mpr ⟨cl, hc⟩
    have hl := hd c ds h
    obtain ⟨cl', es, e1, e2, e3⟩ := hl.sub
    rw [hc] at e1
    cases e1
    exact ⟨ds, es, h, hl, e2, e3⟩
  obtain ⟨da, ea, ma, la, sa, rfl⟩ := lay ha
  obtain ⟨db, eb, mb, lb, sb, rfl⟩ := lay hb
  obtain ⟨dc, ec, mc, lc, sc, rfl⟩ := lay hc
  have fld : ∀ {c cl es f d}, s.classes.find? c = some cl → Sublayouts s (refFields cl) es → (f, d) ∈ refFields cl → ∃ o, FieldAt s (refFields cl) o f d := by
    intro c cl es f d _ hs hm
    obtain ⟨pre, post, e⟩ := List.append_of_mem hm
    rw [e] at hs
    obtain ⟨x, y, _, hx, _⟩ := hs.split
    exact ⟨x.length, pre, post, x, e, hx, rfl⟩
  obtain ⟨oa, fa⟩ := fld ha sa hf
  obtain ⟨ob, fb⟩ := fld hb sb hg
  obtain ⟨oc, fc⟩ := fld hc sc hk
  obtain ⟨dd, ld⟩ := fc.layout sc
  have rc := (refAt_iff hc sc).mpr (Or.inl ⟨rfl, oc, d, dd, fc, ld, rfl⟩)
  have rb1 := (refAt_iff hb sb).mpr (Or.inr ⟨ob, g, c, _, _, fb, rc, rfl, rfl⟩)
  have rb2 := (refAt_iff hb sb).mpr (Or.inl ⟨rfl, ob, c, _, fb, lc, rfl⟩)
  have ra := (refAt_iff ha sa).mpr (Or.inl ⟨rfl, oa, b, _, fa, lb, rfl⟩)
  obtain ⟨r, hr, _⟩ := C46_complete hm h ra
  have hle := fb.bound sb lc
  obtain ⟨j, hj⟩ := (i1 a r hr).acc acl oa f b _ k _ _ g _ ha fa rb1 rb2 (by simp at hle ⊢; omega)
  obtain ⟨x, y, q1, q2, q3, _⟩ := refAt_spec ra la
  have hp : (ea ++ [a])[oa + (eb ++ [b]).length - 1]? = some b := by
    obtain ⟨pre, post, e1, e2, e3, e4⟩ := fa
    have sa' := sa
    rw [e2] at sa'
    obtain ⟨u, v, rfl, hu, hv⟩ := sa'.split
    have := hu.unique e3
    subst this
    cases hv with
    | cons w1 w2 =>
      have := layout_unique w1 lb
      subst this
      subst e4
      simp
  refine ⟨r, ea ++ [a], _, j, hr, ma, ?_, hp, ?_, ?_⟩
  · simpa using ra
  · have e : oa + (eb ++ [b]).length - 1 = oa + eb.length := by simp
    rw [e]
    exact hj
  · rintro ⟨x, y, e1, _, e3⟩
    rw [hp] at e1
    cases e1
    exact h4 y e3

/-- C46: the indices are computed whenever the domains are. -/
theorem C46_defined {s : PClean.Schema} {m : Doms} (hm : computeDomains s = .ok m) : ∃ idx, computeRefs s m = .ok idx := by
  obtain ⟨h1, h2⟩ := (C45_defined s).mp ⟨m, hm⟩
  exact refsCache_ok h1 h2 (fun c cl hc => (C45_layout hm c).1.mpr ⟨cl, hc⟩) (fun c hc => FMap.mem_keys.mp hc) ∅

/-- The indices as a list. -/
def idxList (m : RefIdx) : List (Nat × List (String × Nat)) := m.entries.map fun e => (e.1, e.2.entries)

/-- the reference fields of a class of a schema -/
def refsFrom (s : PClean.Schema) (c : String) : List (String × String) :=
  match s.classes.find? c with
  | some cl => refFields cl
  | none => []

theorem refers_refsFrom {s : PClean.Schema} {c f d : String} : Refers s c f d ↔ (f, d) ∈ refsFrom s c := by
  unfold Refers refsFrom
  cases h : s.classes.find? c with
  | none => simp
  | some cl => simp

theorem shallowAt_iff {s : PClean.Schema} {c : String} : ShallowAt s c ↔ ∀ x ∈ refsFrom s c, ∀ y ∈ refsFrom s x.2, refsFrom s y.2 = [] := by
  constructor
  · intro h x hx y hy
    by_contra hne
    obtain ⟨z, l, hz⟩ := List.exists_cons_of_ne_nil hne
    exact h x.1 x.2 y.1 y.2 z.1 z.2 (refers_refsFrom.mpr hx) (refers_refsFrom.mpr hy) (refers_refsFrom.mpr (by rw [hz]; exact List.mem_cons_self ..))
  · intro h f x g y k z h1 h2 h3
    have := h (f, x) (refers_refsFrom.mp h1) (g, y) (refers_refsFrom.mp h2)
    have h3 := refers_refsFrom.mp h3
    rw [this] at h3
    cases h3

set_option maxRecDepth 4000 in
/-- the record class meets the hypothesis of `C46_sound_partial` -/
example : ShallowAt physicians "Record" := shallowAt_iff.mpr (by decide)

set_option maxRecDepth 4000 in
/-- `D` meets the hypotheses of `C46_phantom_false` -/
example : Refers chain4 "D" "c" "C" ∧ Refers chain4 "C" "b" "B" ∧ Refers chain4 "B" "a" "A" ∧ ∀ x, ¬ Refers chain4 "C" "a" x :=
  ⟨refers_refsFrom.mpr (by decide), refers_refsFrom.mpr (by decide), refers_refsFrom.mpr (by decide), fun x h => by
    have h := refers_refsFrom.mp h
    have e : refsFrom chain4 "C" = [("b", "B")] := rfl
    rw [e] at h
    simp at h⟩

set_option maxRecDepth 4000 in
/-- the indices of a record -/
example : (do let m ← computeDomains physicians; let idx ← computeRefs physicians m; .ok ((idx.find? "Record").map idxList)) =
    .ok (some [(1, [("city", 0)]), (3, [("school", 2)]), (4, [("location", 1), ("physician", 3)])]) := rfl

set_option maxRecDepth 4000 in
/-- `C46_phantom_false` at work: `C`, at position 2, has no field `a`. -/
example : (do let m ← computeDomains chain4; let idx ← computeRefs chain4 m; .ok ((idx.find? "D").map idxList)) =
    .ok (some [(1, [("a", 0)]), (2, [("a", 0), ("b", 1)]), (3, [("c", 2)])]) := rfl

end GenDB
end Verif
