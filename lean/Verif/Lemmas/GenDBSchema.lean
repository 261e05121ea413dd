import Verif.Spec.GenDBSchema
import Verif.Lemmas.SchemaFile
/-!
Lemmas about domain layouts and reference indices.
-/
namespace Verif
namespace GenDB
open PClean

theorem Layout.length_pos {s : PClean.Schema} {c : String} {ds : List String} (h : Layout s c ds) : 0 < ds.length := by
  cases h; simp

theorem Layout.last {s : PClean.Schema} {c : String} {ds : List String} (h : Layout s c ds) : ds[ds.length - 1]? = some c := by
  cases h; simp

theorem Layout.exists_class {s : PClean.Schema} {c : String} {ds : List String} (h : Layout s c ds) : ∃ cl, s.classes.find? c = some cl := by
  cases h with | mk h _ => exact ⟨_, h⟩

theorem layout_unique {s : PClean.Schema} {c : String} {ds : List String} (h : Layout s c ds) : ∀ {ds'}, Layout s c ds' → ds = ds' := by
  refine Layout.rec (motive_1 := fun c ds _ => ∀ {ds'}, Layout s c ds' → ds = ds') (motive_2 := fun fs ds _ => ∀ {ds'}, Sublayouts s fs ds' → ds = ds')
    ?_ ?_ ?_ h
  · intro c cl ds hc _ ih ds' h'
    cases h' with
    | mk hc' hs' =>
      rw [hc] at hc'
      cases hc'
      rw [ih hs']
  · intro ds' h'
    cases h'
    rfl
  · intro f d fs ds ds1 _ _ ih1 ih2 ds' h'
    cases h' with
    | cons h1 h2 => rw [ih1 h1, ih2 h2]

theorem Sublayouts.unique {s : PClean.Schema} {fs : List (String × String)} {ds ds' : List String} (h : Sublayouts s fs ds) (h' : Sublayouts s fs ds') :
    ds = ds' := by
  induction fs generalizing ds ds' with
  | nil => cases h; cases h'; rfl
  | cons e fs ih =>
    cases h with
    | cons h1 h2 => cases h' with
      | cons h1' h2' => rw [layout_unique h1 h1', ih h2 h2']

theorem Sublayouts.append {s : PClean.Schema} {fs gs : List (String × String)} {ds es : List String} (h : Sublayouts s fs ds) (h' : Sublayouts s gs es) :
    Sublayouts s (fs ++ gs) (ds ++ es) := by
  induction fs generalizing ds with
  | nil => cases h; exact h'
  | cons e fs ih =>
    cases h with
    | cons h1 h2 =>
      rw [List.append_assoc]
      exact .cons h1 (ih h2)

theorem Sublayouts.split {s : PClean.Schema} {fs gs : List (String × String)} {ds : List String} (h : Sublayouts s (fs ++ gs) ds) :
    ∃ ds₁ ds₂, ds = ds₁ ++ ds₂ ∧ Sublayouts s fs ds₁ ∧ Sublayouts s gs ds₂ := by
  induction fs generalizing ds with
  | nil => exact ⟨[], ds, rfl, .nil, h⟩
  | cons e fs ih =>
    cases h with
    | cons h1 h2 =>
      obtain ⟨a, b, rfl, ha, hb⟩ := ih h2
      exact ⟨_, b, (List.append_assoc _ _ _).symm, .cons h1 ha, hb⟩

/-- what `m` holds is right -/
def DomsOk (s : PClean.Schema) (m : Doms) : Prop := ∀ c ds, m.find? c = some ds → Layout s c ds

/-- `refFields` of a list of variables -/
def fieldsOf (l : List (String × Variable)) : List (String × String) :=
  l.filterMap fun e => match e.2.spec with
    | .scalar _ _ => none
    | .cls d => some (e.1, d)

theorem fieldsOf_scalar {x : String} {v : Variable} {j p} {l} (h : v.spec = .scalar j p) : fieldsOf ((x, v) :: l) = fieldsOf l := by
  simp [fieldsOf, h]

theorem fieldsOf_cls {x : String} {v : Variable} {d} {l} (h : v.spec = .cls d) : fieldsOf ((x, v) :: l) = (x, d) :: fieldsOf l := by
  simp [fieldsOf, h]

/-- the keys of the first map are keys of the second -/
def Grows {W} (m m' : FMap String W) : Prop := ∀ c w, m.find? c = some w → m'.find? c = some w

theorem domainsLoop_spec {s : PClean.Schema} {compute : String → Doms → Res Doms}
    (hc : ∀ d m m', DomsOk s m → m.find? d = none → compute d m = .ok m' → DomsOk s m' ∧ (∃ ds, m'.find? d = some ds) ∧ Grows m m')
    {vs : List (String × Variable)} {ds : List String} {m : Doms} {ds' : List String} {m' : Doms} (hm : DomsOk s m)
    (h : domainsLoop compute vs ds m = .ok (ds', m')) :
    DomsOk s m' ∧ Grows m m' ∧ ∃ es, ds' = ds ++ es ∧ Sublayouts s (fieldsOf vs) es := by
  induction vs generalizing ds m with
  | nil =>
    cases h
    exact ⟨hm, fun _ _ h => h, [], by simp, .nil⟩
  | cons e vs ih =>
    obtain ⟨x, v⟩ := e
    unfold domainsLoop at h
    cases hv : v.spec with
    | scalar j p =>
      rw [hv] at h
      rw [fieldsOf_scalar hv]
      exact ih hm h
    | cls d =>
      rw [hv] at h
      obtain ⟨m1, h1, h2⟩ := bind_ok.mp h
      have key : DomsOk s m1 ∧ (∃ ds, m1.find? d = some ds) ∧ Grows m m1 := by
        unfold once at h1
        split at h1
        · next hd =>
          cases h1
          exact ⟨hm, FMap.contains_iff.mp hd, fun _ _ h => h⟩
        · next hd => exact hc d m m1 hm (FMap.contains_false.mp (by simpa using hd)) h1
      obtain ⟨k1, ⟨dd, k2⟩, k3⟩ := key
      obtain ⟨r1, r2, es, r3, r4⟩ := ih k1 h2
      refine ⟨r1, fun c w hw => r2 c w (k3 c w hw), dd ++ es, ?_, ?_⟩
      · rw [r3, k2]; simp
      · rw [fieldsOf_cls hv]
        exact .cons (k1 d dd k2) r4

theorem computeDomainsFor_spec {s : PClean.Schema} (n : Nat) : ∀ d m m', DomsOk s m → m.find? d = none → computeDomainsFor s n d m = .ok m' →
    DomsOk s m' ∧ (∃ ds, m'.find? d = some ds) ∧ Grows m m' := by
  induction n with
  | zero => intro d m m' _ _ h; cases h
  | succ n ih =>
    intro d m m' hm hd h
    unfold computeDomainsFor at h
    obtain ⟨cl, h1, h⟩ := bind_ok.mp h
    obtain ⟨⟨ds, m1⟩, h2, h⟩ := bind_ok.mp h
    cases h
    obtain ⟨r1, r2, es, r3, r4⟩ := domainsLoop_spec ih hm h2
    have hcl : s.classes.find? d = some cl := by
      unfold getClass at h1
      split at h1
      · cases h1
      · next hx => cases h1; exact hx
    simp only [List.nil_append] at r3
    subst r3
    refine ⟨?_, ⟨_, FMap.find?_set_self ..⟩, ?_⟩
    · intro c w hw
      rw [FMap.find?_set] at hw
      split at hw
      · next he => cases hw; subst he; exact .mk hcl r4
      · exact r1 c w hw
    · intro c w hw
      rw [FMap.find?_set]
      split
      · next he => subst he; rw [hd] at hw; cases hw
      · exact r2 c w hw

theorem domainsCache_spec {s : PClean.Schema} {cs : List String} {m m' : Doms} (hm : DomsOk s m) (h : domainsCache s cs m = .ok m') :
    DomsOk s m' ∧ Grows m m' ∧ ∀ c ∈ cs, ∃ ds, m'.find? c = some ds := by
  induction cs generalizing m with
  | nil => cases h; exact ⟨hm, fun _ _ h => h, by simp⟩
  | cons c cs ih =>
    unfold domainsCache at h
    obtain ⟨m1, h1, h2⟩ := bind_ok.mp h
    have key : DomsOk s m1 ∧ (∃ ds, m1.find? c = some ds) ∧ Grows m m1 := by
      unfold once at h1
      split at h1
      · next hd =>
        cases h1
        exact ⟨hm, FMap.contains_iff.mp hd, fun _ _ h => h⟩
      · next hd => exact computeDomainsFor_spec _ c m m1 hm (FMap.contains_false.mp (by simpa using hd)) h1
    obtain ⟨k1, ⟨dd, k2⟩, k3⟩ := key
    obtain ⟨r1, r2, r3⟩ := ih k1 h2
    refine ⟨r1, fun c w hw => r2 c w (k3 c w hw), ?_⟩
    intro c' hc'
    rcases List.mem_cons.mp hc' with rfl | hc'
    · exact ⟨dd, r2 _ _ k2⟩
    · exact r3 c' hc'

/-! ### Success -/

theorem refers_iff {s : PClean.Schema} {c f d : String} {cl : Class} (h : s.classes.find? c = some cl) : Refers s c f d ↔ (f, d) ∈ refFields cl := by
  constructor
  · rintro ⟨cl', h', hm⟩
    rw [h] at h'
    cases h'
    exact hm
  · exact fun hm => ⟨cl, h, hm⟩

/-- the number of classes of lower rank -/
def below (s : PClean.Schema) (rank : String → Nat) (c : String) : Nat := (s.classes.keys.filter (fun x => decide (rank x < rank c))).length

theorem below_lt {s : PClean.Schema} {rank : String → Nat} {c d : String} (h : rank d < rank c) (hd : ∃ cl, s.classes.find? d = some cl) :
    below s rank d < below s rank c := by
  have hd' : d ∈ s.classes.keys := FMap.mem_keys.mpr hd
  unfold below
  have aux : ∀ l : List String, d ∈ l →
      (l.filter (fun x => decide (rank x < rank d))).length < (l.filter (fun x => decide (rank x < rank c))).length := by
    intro l hl
    induction l with
    | nil => cases hl
    | cons a l ih =>
      have hle : (l.filter (fun x => decide (rank x < rank d))).length ≤ (l.filter (fun x => decide (rank x < rank c))).length := by
        clear ih hl
        induction l with
        | nil => simp
        | cons b l ih =>
          simp only [List.filter_cons]
          by_cases h1 : rank b < rank d
          · have h2 : rank b < rank c := by omega
            simp [h1, h2, ih]
          · by_cases h2 : rank b < rank c
            · simp [h1, h2]; omega
            · simp [h1, h2, ih]
      simp only [List.filter_cons]
      by_cases ha : a = d
      · subst ha
        simp [h]
        omega
      · have := ih ((List.mem_cons.mp hl).resolve_left (fun e => ha e.symm))
        by_cases h1 : rank a < rank d
        · have h2 : rank a < rank c := by omega
          simp [h1, h2, this]
        · by_cases h2 : rank a < rank c
          · simp [h1, h2]; omega
          · simp [h1, h2, this]
  exact aux _ hd'

theorem below_lt_depth (s : PClean.Schema) (rank : String → Nat) (c : String) : below s rank c < depth s := by
  unfold below depth
  have : (s.classes.keys.filter (fun x => decide (rank x < rank c))).length ≤ s.classes.keys.length := List.length_filter_le ..
  have h2 : s.classes.keys.length = s.classes.size := by simp [FMap.keys, FMap.size]
  omega

theorem Acyclic.rank {s : PClean.Schema} (h : Acyclic s) (hc : Closed s) :
    ∃ r : String → Nat, (∀ c f d, Refers s c f d → r d < r c) ∧ ∀ c, r c < depth s := by
  obtain ⟨rank, hr⟩ := h
  exact ⟨below s rank, fun c f d hcd => below_lt (hr c f d hcd) (hc c f d hcd), below_lt_depth s rank⟩

theorem domainsLoop_ok {compute : String → Doms → Res Doms} {vs : List (String × Variable)}
    (hc : ∀ d, (∃ f, (f, d) ∈ fieldsOf vs) → ∀ m, ∃ m', compute d m = .ok m') (ds : List String) (m : Doms) :
    ∃ r, domainsLoop compute vs ds m = .ok r := by
  induction vs generalizing ds m with
  | nil => exact ⟨_, rfl⟩
  | cons e vs ih =>
    obtain ⟨x, v⟩ := e
    unfold domainsLoop
    cases hv : v.spec with
    | scalar j p =>
      exact ih (fun d ⟨f, hf⟩ => hc d ⟨f, by rw [fieldsOf_scalar hv]; exact hf⟩) ds m
    | cls d =>
      have ih' := ih (fun d ⟨f, hf⟩ => hc d ⟨f, by rw [fieldsOf_cls hv]; exact List.mem_cons_of_mem _ hf⟩)
      simp only
      have : ∃ m1, once compute d m = .ok m1 := by
        unfold once
        split
        · exact ⟨_, rfl⟩
        · exact hc d ⟨x, by rw [fieldsOf_cls hv]; exact List.mem_cons_self ..⟩ m
      obtain ⟨m1, h1⟩ := this
      obtain ⟨r, hr⟩ := ih' (ds ++ (m1.find? d).getD []) m1
      exact ⟨r, bind_ok.mpr ⟨m1, h1, hr⟩⟩

theorem computeDomainsFor_ok {s : PClean.Schema} {r : String → Nat} (hr : ∀ c f d, Refers s c f d → r d < r c) (hcl : Closed s) (n : Nat) :
    ∀ c, (∃ cl, s.classes.find? c = some cl) → r c < n → ∀ m, ∃ m', computeDomainsFor s n c m = .ok m' := by
  induction n with
  | zero => intro c _ h; omega
  | succ n ih =>
    intro c ⟨cl, hc⟩ hn m
    unfold computeDomainsFor
    have h1 : getClass s c = .ok cl := by simp [getClass, hc]
    obtain ⟨⟨ds, m1⟩, h2⟩ := domainsLoop_ok (compute := computeDomainsFor s n) (vs := cl.vars.entries) (by
      rintro d ⟨f, hf⟩ m
      have hfd : Refers s c f d := ⟨cl, hc, hf⟩
      exact ih d (hcl c f d hfd) (by have := hr c f d hfd; omega) m) [] m
    exact ⟨_, bind_ok.mpr ⟨cl, h1, bind_ok.mpr ⟨(ds, m1), h2, rfl⟩⟩⟩

theorem domainsCache_ok {s : PClean.Schema} (ha : Acyclic s) (hcl : Closed s) {cs : List String} (hcs : ∀ c ∈ cs, ∃ cl, s.classes.find? c = some cl)
    (m : Doms) : ∃ m', domainsCache s cs m = .ok m' := by
  obtain ⟨r, hr, hd⟩ := ha.rank hcl
  induction cs generalizing m with
  | nil => exact ⟨_, rfl⟩
  | cons c cs ih =>
    have : ∃ m1, once (computeDomainsFor s (depth s)) c m = .ok m1 := by
      unfold once
      split
      · exact ⟨_, rfl⟩
      · exact computeDomainsFor_ok hr hcl _ c (hcs c (List.mem_cons_self ..)) (hd c) m
    obtain ⟨m1, h1⟩ := this
    obtain ⟨m2, h2⟩ := ih (fun c hc => hcs c (List.mem_cons_of_mem _ hc)) m1
    exact ⟨m2, bind_ok.mpr ⟨m1, h1, h2⟩⟩

theorem sublayouts_mem {s : PClean.Schema} {fs : List (String × String)} {ds : List String} (h : Sublayouts s fs ds) {f d : String} (hf : (f, d) ∈ fs) :
    ∃ es, Layout s d es ∧ es.length ≤ ds.length := by
  induction fs generalizing ds with
  | nil => cases hf
  | cons e fs ih =>
    cases h with
    | cons h1 h2 =>
      rcases List.mem_cons.mp hf with he | hf
      · cases he
        exact ⟨_, h1, by simp⟩
      · obtain ⟨es, h3, h4⟩ := ih h2 hf
        exact ⟨es, h3, by simp; omega⟩

/-- layouts for all the classes exist only without cycles and missing classes -/
theorem acyclic_of_layouts {s : PClean.Schema} (h : ∀ c cl, s.classes.find? c = some cl → ∃ ds, Layout s c ds) : Acyclic s ∧ Closed s := by
  classical
  have key : ∀ c f d, Refers s c f d → ∃ ds es, Layout s c ds ∧ Layout s d es ∧ es.length < ds.length := by
    rintro c f d ⟨cl, hc, hf⟩
    obtain ⟨ds, hds⟩ := h c cl hc
    have hds' := hds
    cases hds with
    | mk hc' hs =>
      rw [hc] at hc'
      cases hc'
      obtain ⟨es, h1, h2⟩ := sublayouts_mem hs hf
      exact ⟨_, es, hds', h1, by simp; omega⟩
  refine ⟨⟨fun c => if hx : ∃ ds, Layout s c ds then hx.choose.length else 0, ?_⟩, ?_⟩
  · intro c f d hcd
    obtain ⟨ds, es, h1, h2, h3⟩ := key c f d hcd
    have e1 : ∃ ds, Layout s c ds := ⟨ds, h1⟩
    have e2 : ∃ ds, Layout s d ds := ⟨es, h2⟩
    simp only [dif_pos e1, dif_pos e2]
    rw [layout_unique e1.choose_spec h1, layout_unique e2.choose_spec h2]
    exact h3
  · intro c f d hcd
    obtain ⟨ds, es, h1, h2, h3⟩ := key c f d hcd
    exact h2.exists_class

end GenDB
end Verif
