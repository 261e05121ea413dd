import Verif.Spec.GenDBBuild
import Verif.Lemmas.GenDBRefs
/-!
Lemmas about the HIRM schema that `GenDB` builds.
-/
namespace Verif
namespace GenDB
open PClean
variable {V : Type} {F : Family V}

/-! ### Names -/

theorem split_colon {a a' r r' : List Char} (h : ':' ∉ a) (h' : ':' ∉ a') (e : a ++ ':' :: r = a' ++ ':' :: r') : a = a' ∧ r = r' := by
  induction a generalizing a' with
  | nil =>
    cases a' with
    | nil => simpa using e
    | cons b a' =>
      simp only [List.nil_append, List.cons_append, List.cons.injEq] at e
      exact absurd (by rw [e.1]; exact List.mem_cons_self ..) h'
  | cons b a ih =>
    cases a' with
    | nil =>
      simp only [List.nil_append, List.cons_append, List.cons.injEq] at e
      exact absurd (by rw [e.1]; exact List.mem_cons_self ..) h
    | cons b' a' =>
      simp only [List.cons_append, List.cons.injEq] at e
      have := ih (fun hm => h (List.mem_cons_of_mem _ hm)) (fun hm => h' (List.mem_cons_of_mem _ hm)) e.2
      exact ⟨by rw [e.1, this.1], this.2⟩

theorem varRel_list (c x : String) : (varRel c x).toList = c.toList ++ ':' :: x.toList := by
  simp [varRel, String.toList_append]

theorem viaRel_list (c f : String) : (viaRel c f).toList = c.toList ++ ':' :: (':' :: f.toList) := by
  simp [viaRel, String.toList_append]

theorem toList_inj {a b : String} (h : a.toList = b.toList) : a = b := by
  rw [← String.ofList_toList (s := a), h, String.ofList_toList]

theorem varRel_inj {c x c' x' : String} (h : Plain c) (h' : Plain c') (e : varRel c x = varRel c' x') : c = c' ∧ x = x' := by
  have := split_colon h h' (by rw [← varRel_list, ← varRel_list, e])
  exact ⟨toList_inj this.1, toList_inj this.2⟩

theorem varRel_inj_right {c x x' : String} (e : varRel c x = varRel c x') : x = x' := by
  have : (varRel c x).toList = (varRel c x').toList := by rw [e]
  rw [varRel_list, varRel_list] at this
  simpa using toList_inj (a := x) (b := x') (by simpa using this)

theorem viaRel_inj {c f c' f' : String} (h : Plain c) (h' : Plain c') (e : viaRel c f = viaRel c' f') : c = c' ∧ f = f' := by
  have := split_colon h h' (by rw [← viaRel_list, ← viaRel_list, e])
  exact ⟨toList_inj this.1, toList_inj (List.cons.inj this.2).2⟩

theorem viaRel_ne_varRel {c f c' x : String} (h : Plain c) (h' : Plain c') (hx : Plain x) : viaRel c f ≠ varRel c' x := by
  intro e
  have := split_colon h h' (by rw [← viaRel_list, ← varRel_list, e])
  exact hx (by rw [← this.2]; exact List.mem_cons_self ..)

theorem plain_ne_varRel {f c x : String} (h : Plain f) : f ≠ varRel c x := by
  intro e
  exact h (by rw [e, varRel_list]; simp)

theorem plain_ne_viaRel {f c x : String} (h : Plain f) : f ≠ viaRel c x := by
  intro e
  exact h (by rw [e, viaRel_list]; simp)

/-! ### The clean relations -/

/-- what the index of a clean relation becomes -/
theorem cleanRels_spec {L : Layouts} {mkC : String → FMap String String → Res F.C} {c : String} {vs : List (String × Variable)}
    (hn : (vs.map (·.1)).Nodup) {b b' : Build F} (h : cleanRels L mkC c vs b = .ok b') :
    (∀ x v j p, (x, v) ∈ vs → v.spec = .scalar j p → ∃ C, mkC j p = .ok C ∧ b'.schema.find? (varRel c x) = some (.clean C ((L.doms.find? c).getD []) false) ∧
      (b.relIdx.find? (varRel c x) = none → b'.relIdx.find? (varRel c x) = L.classIdx.find? c)) ∧
    ∀ k, (∀ x v j p, (x, v) ∈ vs → v.spec = .scalar j p → k ≠ varRel c x) → b'.schema.find? k = b.schema.find? k ∧ b'.relIdx.find? k = b.relIdx.find? k := by
  induction vs generalizing b with
  | nil =>
    cases h
    exact ⟨fun x v j p hm => (by cases hm), fun k _ => ⟨rfl, rfl⟩⟩
  | cons e vs ih =>
    obtain ⟨y, w⟩ := e
    simp only [List.map_cons, List.nodup_cons] at hn
    unfold cleanRels at h
    cases hw : w.spec with
    | cls d =>
      rw [hw] at h
      obtain ⟨h1, h2⟩ := ih hn.2 h
      refine ⟨?_, ?_⟩
      · intro x v j p hm hv
        rcases List.mem_cons.mp hm with he | hm
        · cases he; rw [hw] at hv; cases hv
        · exact h1 x v j p hm hv
      · intro k hk
        exact h2 k (fun x v j p hm hv => hk x v j p (List.mem_cons_of_mem _ hm) hv)
    | scalar j0 p0 =>
      rw [hw] at h
      obtain ⟨C, hC, h⟩ := bind_ok.mp h
      change cleanRels L mkC c vs ⟨b.schema.set (varRel c y) (.clean C ((L.doms.find? c).getD []) false),
        inherit L.classIdx c b.relIdx (varRel c y)⟩ = _ at h
      obtain ⟨h1, h2⟩ := ih hn.2 h
      have hy : ∀ x v j p, (x, v) ∈ vs → v.spec = .scalar j p → varRel c y ≠ varRel c x := by
        intro x v j p hm _ e
        have := varRel_inj_right e
        subst this
        exact hn.1 (List.mem_map.mpr ⟨_, hm, rfl⟩)
      refine ⟨?_, ?_⟩
      · intro x v j p hm hv
        rcases List.mem_cons.mp hm with he | hm
        · cases he
          rw [hw] at hv
          cases hv
          obtain ⟨h3, h4⟩ := h2 _ hy
          refine ⟨C, hC, by rw [h3]; simp, ?_⟩
          intro hb
          rw [h4]
          simp only [inherit]
          cases hx : L.classIdx.find? c with
          | none => simpa using hb
          | some i => simp
        · obtain ⟨C', e1, e2, e3⟩ := h1 x v j p hm hv
          refine ⟨C', e1, e2, fun hb => e3 ?_⟩
          simp only [inherit]
          have hne := (hy x v j p hm hv).symm
          split
          · rw [FMap.find?_set_ne _ hne]; exact hb
          · exact hb
      · intro k hk
        obtain ⟨h3, h4⟩ := h2 k (fun x v j p hm hv => hk x v j p (List.mem_cons_of_mem _ hm) hv)
        have hne := hk y w j0 p0 (List.mem_cons_self ..) hw
        refine ⟨by rw [h3]; simp [FMap.find?_set_ne _ hne], ?_⟩
        rw [h4]
        simp only [inherit]
        split
        · rw [FMap.find?_set_ne _ hne]
        · rfl

theorem cleanClasses_spec {L : Layouts} {mkC : String → FMap String String → Res F.C} {cs : List (String × Class)}
    (hn : (cs.map (·.1)).Nodup) (hp : ∀ e ∈ cs, Plain e.1) {b b' : Build F} (h : cleanClasses L mkC cs b = .ok b') :
    (∀ c cl x v j p, (c, cl) ∈ cs → cl.vars.find? x = some v → v.spec = .scalar j p → ∃ C, mkC j p = .ok C ∧
      b'.schema.find? (varRel c x) = some (.clean C ((L.doms.find? c).getD []) false) ∧
      (b.relIdx.find? (varRel c x) = none → b'.relIdx.find? (varRel c x) = L.classIdx.find? c)) ∧
    ∀ k, (∀ c cl x v j p, (c, cl) ∈ cs → cl.vars.find? x = some v → v.spec = .scalar j p → k ≠ varRel c x) →
      b'.schema.find? k = b.schema.find? k ∧ b'.relIdx.find? k = b.relIdx.find? k := by
  induction cs generalizing b with
  | nil =>
    cases h
    exact ⟨fun c cl x v j p hm => (by cases hm), fun k _ => ⟨rfl, rfl⟩⟩
  | cons e cs ih =>
    obtain ⟨c0, cl0⟩ := e
    simp only [List.map_cons, List.nodup_cons] at hn
    unfold cleanClasses at h
    obtain ⟨b1, h1, h2⟩ := bind_ok.mp h
    obtain ⟨k1, k2⟩ := cleanRels_spec cl0.vars.nodupKeys h1
    obtain ⟨r1, r2⟩ := ih hn.2 (fun e he => hp e (List.mem_cons_of_mem _ he)) h2
    have hp0 : Plain c0 := hp _ (List.mem_cons_self ..)
    have hdis : ∀ x c cl y, (c, cl) ∈ cs → varRel c0 x ≠ varRel c y := by
      intro x c cl y hm e
      have := (varRel_inj hp0 (hp _ (List.mem_cons_of_mem _ hm)) e).1
      simp only at this
      subst this
      exact hn.1 (List.mem_map.mpr ⟨_, hm, rfl⟩)
    refine ⟨?_, ?_⟩
    · intro c cl x v j p hm hx hv
      rcases List.mem_cons.mp hm with he | hm
      · cases he
        obtain ⟨C, e1, e2, e3⟩ := k1 x v j p (FMap.mem_entries.mpr hx) hv
        obtain ⟨f1, f2⟩ := r2 (varRel c0 x) (fun c cl y v j p hm _ _ => hdis x c cl y hm)
        exact ⟨C, e1, by rw [f1]; exact e2, fun hb => by rw [f2]; exact e3 hb⟩
      · obtain ⟨C, e1, e2, e3⟩ := r1 c cl x v j p hm hx hv
        refine ⟨C, e1, e2, fun hb => e3 ?_⟩
        rw [(k2 (varRel c x) (fun y v j p _ _ e => hdis y c cl x hm e.symm)).2]
        exact hb
    · intro k hk
      obtain ⟨f1, f2⟩ := r2 k (fun c cl x v j p hm => hk c cl x v j p (List.mem_cons_of_mem _ hm))
      obtain ⟨g1, g2⟩ := k2 k (fun x v j p hm hv => hk c0 cl0 x v j p (List.mem_cons_self ..) (FMap.mem_entries.mp hm) hv)
      exact ⟨by rw [f1, g1], by rw [f2, g2]⟩

/-! ### Paths -/

theorem refers_var {s : PClean.Schema} {c f d : String} (h : Refers s c f d) : ∃ cl v, s.classes.find? c = some cl ∧ cl.vars.find? f = some v ∧ v.spec = .cls d := by
  obtain ⟨cl, hc, hm⟩ := h
  unfold refFields at hm
  obtain ⟨⟨z, w⟩, hz, hzz⟩ := List.mem_filterMap.mp hm
  split at hzz
  · cases hzz
  · next hs => cases hzz; exact ⟨cl, w, hc, FMap.mem_entries.mp hz, hs⟩

theorem walk_spec {s : PClean.Schema} (hn : NamesOk s) {c : String} {path : List String} {hops : List (String × String)} {d x j : String}
    {p : FMap String String} (h : PathTo s c path hops d x j p) : ∀ {cl}, s.classes.find? c = some cl →
    ∃ v, walk s cl path = .ok ((hops.map (·.1)).tail ++ (if hops = [] then [] else [d]), hops.map (·.2) ++ [x], v) ∧ v.name = x ∧ v.spec = .scalar j p := by
  induction h with
  | @here c x j p hs =>
    intro cl hc
    obtain ⟨cl', v, h1, h2, h3⟩ := hs
    rw [hc] at h1
    cases h1
    have hv := (hn.var c cl x v hc h2).1
    exact ⟨v, by simp [walk, h2, hv], hv, h3⟩
  | @step c f d path hops e x j p hr hp ih =>
    intro cl hc
    obtain ⟨cl', v, h1, h2, h3⟩ := refers_var hr
    rw [hc] at h1
    cases h1
    have hv := (hn.var c cl f v hc h2).1
    have hex : ∃ dcl, s.classes.find? d = some dcl := by
      cases hp with
      | here h => obtain ⟨a, _, h, _⟩ := h; exact ⟨a, h⟩
      | step h _ => obtain ⟨a, h, _⟩ := h; exact ⟨a, h⟩
    obtain ⟨dcl, hd⟩ := hex
    obtain ⟨v', w1, w2, w3⟩ := ih hd
    have hpath : ∃ g fs, path = g :: fs := by
      cases hp with
      | here _ => exact ⟨_, _, rfl⟩
      | step _ _ => exact ⟨_, _, rfl⟩
    obtain ⟨g, fs, rfl⟩ := hpath
    refine ⟨v', ?_, w2, w3⟩
    have hfirst : d :: ((hops.map (·.1)).tail ++ (if hops = [] then [] else [e])) = hops.map (·.1) ++ [e] := by
      cases hp with
      | here _ => rfl
      | step _ _ => simp
    unfold walk
    simp only [h2, Option.getD_some, h3]
    refine bind_ok.mpr ⟨dcl, FMap.atKey_of_find hd, bind_ok.mpr ⟨_, w1, ?_⟩⟩
    simp only [hfirst, hv]
    simp

theorem PathTo.length {s : PClean.Schema} {c : String} {path : List String} {hops : List (String × String)} {d x j : String}
    {p : FMap String String} (h : PathTo s c path hops d x j p) : path.length = hops.length + 1 := by
  induction h with
  | here _ => rfl
  | step _ _ ih => simp [ih]

theorem PathTo.has {s : PClean.Schema} {c : String} {path : List String} {hops : List (String × String)} {d x j : String}
    {p : FMap String String} (h : PathTo s c path hops d x j p) : HasScalar s d x j p := by
  induction h with
  | here h => exact h
  | step _ _ ih => exact ih

/-- Along a path the rank decreases. -/
theorem PathTo.rank {s : PClean.Schema} {r : String → Nat} (hr : ∀ c f d, Refers s c f d → r d < r c) {c : String} {path : List String}
    {hops : List (String × String)} {d x j : String} {p : FMap String String} (h : PathTo s c path hops d x j p) :
    (hops.map (fun e => r e.1)).Pairwise (· > ·) ∧ (∀ e ∈ hops, r e.1 ≤ r c ∧ r d < r e.1) ∧ r d ≤ r c := by
  induction h with
  | here _ => simp
  | @step c f d path hops e x j p hcd _ ih =>
    obtain ⟨h1, h2, h3⟩ := ih
    have := hr _ _ _ hcd
    refine ⟨?_, ?_, by omega⟩
    · simp only [List.map_cons, List.pairwise_cons]
      refine ⟨?_, h1⟩
      intro n hn
      obtain ⟨a, ha, rfl⟩ := List.mem_map.mp hn
      have := (h2 a ha).1
      omega
    · intro a ha
      rcases List.mem_cons.mp ha with rfl | ha
      · exact ⟨Nat.le_refl _, by simp only; omega⟩
      · have := h2 a ha
        omega

theorem PathTo.hop_nodup {s : PClean.Schema} (ha : Acyclic s) {c : String} {path : List String}
    {hops : List (String × String)} {d x j : String} {p : FMap String String} (h : PathTo s c path hops d x j p) : (hops.map (·.1)).Nodup := by
  obtain ⟨r, hr⟩ := ha
  have := (h.rank hr).1
  have h2 : ((hops.map (·.1)).map r).Nodup := by
    rw [List.map_map]
    exact this.imp (fun h => by omega)
  exact List.Nodup.of_map _ h2

theorem PathTo.hop_class {s : PClean.Schema} {c : String} {path : List String} {hops : List (String × String)} {d x j : String}
    {p : FMap String String} (h : PathTo s c path hops d x j p) : ∀ e ∈ hops, ∃ cl, s.classes.find? e.1 = some cl := by
  induction h with
  | here _ => simp
  | step hr _ ih =>
    intro a ha
    rcases List.mem_cons.mp ha with rfl | ha
    · obtain ⟨cl, h, _⟩ := hr; exact ⟨cl, h⟩
    · exact ih a ha

theorem PathTo.head {s : PClean.Schema} {c : String} {path : List String} {hops : List (String × String)} {d x j : String}
    {p : FMap String String} (h : PathTo s c path hops d x j p) : c :: ((hops.map (·.1)).tail ++ (if hops = [] then [] else [d])) = hops.map (·.1) ++ [d] := by
  cases h with
  | here _ => rfl
  | step _ _ => simp

theorem PathTo.nil_hops {s : PClean.Schema} {c : String} {path : List String} {hops : List (String × String)} {d x j : String}
    {p : FMap String String} (h : PathTo s c path hops d x j p) (hn : hops = []) : d = c := by
  cases h with
  | here _ => rfl
  | step _ _ => cases hn

/-! ### The relations of a query field -/

theorem mergeIdx_single {target : RefIdx} {n : Nat} {m : FMap String Nat} (h : target.find? n = none) :
    mergeIdx target ((∅ : RefIdx).set n m) = (target.set n m, ∅) := by
  have hc : target.contains n = false := FMap.contains_false.mpr h
  unfold mergeIdx
  congr 1
  · change (if target.contains n then target else target.set n m) = _
    rw [hc]; rfl
  · apply FMap.ext
    intro k
    rw [FMap.find?_filter, FMap.find?_set]
    split
    · next he => subst he; simp [hc]
    · simp

/-- what the relation before the first hop, or before a later one, is called -/
def prevRel (prev f : String) (l : List (String × String)) : String :=
  match l.getLast? with
  | none => prev
  | some a => viaRel a.1 f

theorem chain_spec {f : String} {e : F.E} (l : List (String × String)) (hnd : (l.map (·.1)).Nodup) (hf : Plain f) (hpl : ∀ a ∈ l, Plain a.1)
    (prev : String) (ds : List String) (hds : ds ≠ []) (b b' : Build F) (I : RefIdx) (hI : (b.relIdx.find? prev).getD ∅ = I)
    (hb : ∀ i r, I.find? i = some r → i < ds.length) (hfresh : l ≠ [] → b.relIdx.find? f = none) (hfresh' : ∀ a ∈ l, b.relIdx.find? (viaRel a.1 f) = none)
    (h : chain f (.ok e) l prev ds ∅ b = .ok b') :
    (∀ k, k ≠ f → (∀ a ∈ l.dropLast, k ≠ viaRel a.1 f) → b'.schema.find? k = b.schema.find? k ∧ b'.relIdx.find? k = b.relIdx.find? k) ∧
    ∀ l₁ c g l₂, l = l₁ ++ (c, g) :: l₂ →
      b'.schema.find? (linkRel f l₂ c) = some (.noisy e (ds ++ (l₁ ++ [(c, g)]).map (·.1)) (prevRel prev f l₁) l₂.isEmpty) ∧
      ∃ r, b'.relIdx.find? (linkRel f l₂ c) = some r ∧ ∀ i k j, Entry r i k j ↔ Entry I i k j ∨ HopRef ds.length (l₁ ++ [(c, g)]) i k j := by
  induction l generalizing prev ds b I with
  | nil =>
    cases h
    exact ⟨fun k _ _ => ⟨rfl, rfl⟩, fun l₁ c g l₂ e => by simp at e⟩
  | cons a l ih =>
    obtain ⟨c, v⟩ := a
    simp only [List.map_cons, List.nodup_cons] at hnd
    have hc : Plain c := hpl _ (List.mem_cons_self ..)
    have hpos : 0 < ds.length := List.length_pos_of_ne_nil hds
    unfold chain at h
    simp only at h
    -- the step
    have hname : (if l.isEmpty = true then f else c ++ "::" ++ f) = linkRel f l c := rfl
    rw [hname] at h
    have hrefs : setIdx ∅ ((ds ++ [c]).length - 1) v ((ds ++ [c]).length - 2) = (∅ : RefIdx).set ds.length ((∅ : FMap String Nat).set v (ds.length - 1)) := by
      simp [setIdx]
    rw [hrefs] at h
    have hnf : b.relIdx.find? (linkRel f l c) = none := by
      unfold linkRel
      split
      · exact hfresh (by simp)
      · exact hfresh' _ (List.mem_cons_self ..)
    obtain ⟨R, hR⟩ : ∃ R, R = inherit b.relIdx prev b.relIdx (linkRel f l c) := ⟨_, rfl⟩
    have hcur : (R.find? (linkRel f l c)).getD ∅ = I := by
      rw [hR, ← hI, inherit]
      cases hx : b.relIdx.find? prev with
      | none => simp [hnf]
      | some i => simp
    have hother : ∀ k, k ≠ linkRel f l c → R.find? k = b.relIdx.find? k := by
      intro k hk
      rw [hR, inherit]
      split
      · exact FMap.find?_set_ne _ hk _
      · rfl
    have hIn : I.find? ds.length = none := by
      cases hx : I.find? ds.length with
      | none => rfl
      | some r => have := hb _ _ hx; omega
    rw [← hR, hcur, mergeIdx_single hIn] at h
    simp only at h
    have h : chain f (.ok e) l (linkRel f l c) (ds ++ [c]) ∅ ⟨b.schema.set (linkRel f l c) (.noisy e (ds ++ [c]) prev l.isEmpty),
        R.set (linkRel f l c) (I.set ds.length ((∅ : FMap String Nat).set v (ds.length - 1)))⟩ = .ok b' := h
    obtain ⟨I', hI'⟩ : ∃ I', I' = I.set ds.length ((∅ : FMap String Nat).set v (ds.length - 1)) := ⟨_, rfl⟩
    rw [← hI'] at h
    -- names later on
    have hlate : ∀ a ∈ l, viaRel a.1 f ≠ linkRel f l c := by
      intro a ha
      unfold linkRel
      split
      · exact (plain_ne_viaRel hf).symm
      · intro e
        have := (viaRel_inj (hpl _ (List.mem_cons_of_mem _ ha)) hc e).1
        exact hnd.1 (List.mem_map.mpr ⟨a, ha, this⟩)
    have hent : ∀ i k j, Entry I' i k j ↔ Entry I i k j ∨ HopRef ds.length [(c, v)] i k j := by
      intro i k j
      rw [hI']
      constructor
      · rintro ⟨r, hr, hj⟩
        rw [FMap.find?_set] at hr
        split at hr
        · next he =>
          cases hr
          right
          rw [FMap.find?_set] at hj
          split at hj
          · next hk => cases hj; subst hk; exact ⟨0, c, rfl, he, by omega⟩
          · simp at hj
        · exact Or.inl ⟨r, hr, hj⟩
      · rintro (⟨r, hr, hj⟩ | ⟨n, c', hn, rfl, hj⟩)
        · refine ⟨r, ?_, hj⟩
          rw [FMap.find?_set_ne]
          · exact hr
          · have := hb _ _ hr; omega
        · cases n with
          | zero =>
            simp only [List.getElem?_cons_zero, Option.some.injEq, Prod.mk.injEq] at hn
            obtain ⟨rfl, rfl⟩ := hn
            refine ⟨(∅ : FMap String Nat).set v (ds.length - 1), FMap.find?_set_self .., ?_⟩
            rw [FMap.find?_set_self]
            congr 1
            omega
          | succ n => simp at hn
    obtain ⟨k1, k2⟩ := ih hnd.2 (fun a ha => hpl a (List.mem_cons_of_mem _ ha)) (linkRel f l c) (ds ++ [c]) (by simp)
      ⟨b.schema.set (linkRel f l c) (.noisy e (ds ++ [c]) prev l.isEmpty), R.set (linkRel f l c) I'⟩ I' (by simp)
      (by
        intro i r hr
        rw [hI', FMap.find?_set] at hr
        split at hr
        · simp; omega
        · have := hb i r hr; simp; omega)
      (by
        intro hl
        have hne : f ≠ linkRel f l c := by
          unfold linkRel
          rw [if_neg (by simpa using hl)]
          exact plain_ne_viaRel hf
        simp only
        rw [FMap.find?_set_ne _ hne, hother _ hne]
        exact hfresh (by simp))
      (by
        intro a ha
        simp only
        rw [FMap.find?_set_ne _ (hlate a ha), hother _ (hlate a ha)]
        exact hfresh' a (List.mem_cons_of_mem _ ha))
      h
    refine ⟨?_, ?_⟩
    · intro k hk1 hk2
      obtain ⟨r1, r2⟩ := k1 k hk1 (fun a ha => hk2 a (by
        cases l with
        | nil => simp at ha
        | cons a' l' => rw [List.dropLast_cons_cons]; exact List.mem_cons_of_mem _ ha))
      have hne : k ≠ linkRel f l c := by
        unfold linkRel
        split
        · exact hk1
        · next hl =>
          refine hk2 (c, v) ?_
          cases l with
          | nil => exact absurd rfl hl
          | cons a' l' => rw [List.dropLast_cons_cons]; exact List.mem_cons_self ..
      refine ⟨by rw [r1]; simp [FMap.find?_set_ne _ hne], ?_⟩
      rw [r2]
      simp only
      rw [FMap.find?_set_ne _ hne, hother _ hne]
    · intro l₁ c' g l₂ he
      cases l₁ with
      | nil =>
        simp only [List.nil_append, List.cons.injEq, Prod.mk.injEq] at he
        obtain ⟨⟨rfl, rfl⟩, rfl⟩ := he
        have hkeep : b'.schema.find? (linkRel f l c) = some (.noisy e (ds ++ [c]) prev l.isEmpty) ∧ b'.relIdx.find? (linkRel f l c) = some I' := by
          cases l with
          | nil => cases h; simp
          | cons a' l' =>
            obtain ⟨r1, r2⟩ := k1 (linkRel f (a' :: l') c) (fun e => plain_ne_viaRel (c := c) (x := f) hf e.symm) (fun a ha e => hlate a (List.mem_of_mem_dropLast ha) e.symm)
            rw [r1, r2]
            simp
        exact ⟨by simpa [prevRel] using hkeep.1, I', hkeep.2, by simpa using hent⟩
      | cons a₁ l₁ =>
        simp only [List.cons_append, List.cons.injEq] at he
        obtain ⟨rfl, rfl⟩ := he
        obtain ⟨r1, r, r2, r3⟩ := k2 l₁ c' g l₂ rfl
        refine ⟨?_, r, r2, ?_⟩
        · rw [r1]
          have hp : prevRel (linkRel f (l₁ ++ (c', g) :: l₂) c) f l₁ = prevRel prev f ((c, v) :: l₁) := by
            unfold prevRel
            cases l₁ with
            | nil => simp [linkRel]
            | cons a l =>
              rw [List.getLast?_cons_cons]
              cases hx : (a :: l).getLast? with
              | none => simp at hx
              | some y => rfl
          rw [hp]
          simp
        · intro i k j
          rw [r3, hent]
          constructor
          · rintro ((h | ⟨n, c1, hn, hi, hj⟩) | ⟨n, c1, hn, hi, hj⟩)
            · exact Or.inl h
            · cases n with
              | zero => exact Or.inr ⟨0, c1, by simpa using hn, hi, hj⟩
              | succ n => simp at hn
            · exact Or.inr ⟨n + 1, c1, by simpa using hn, by simp at hi; omega, hj⟩
          · rintro (h | ⟨n, c1, hn, hi, hj⟩)
            · exact Or.inl (Or.inl h)
            · cases n with
              | zero => exact Or.inl (Or.inr ⟨0, c1, by simpa using hn, hi, hj⟩)
              | succ n => exact Or.inr ⟨n, c1, by simpa using hn, by simp; omega, hj⟩

theorem zip_hops (hops : List (String × String)) (d x : String) :
    (hops.map (·.1) ++ [d]).zip (hops.map (·.2) ++ [x]).dropLast = hops := by
  rw [List.dropLast_concat]
  induction hops with
  | nil => simp
  | cons a l ih => simp [ih]

theorem finalDoms_spec (l : List (String × String)) (ds : List String) (hds : ds ≠ []) (I : RefIdx) (hI : ∀ i r, I.find? i = some r → i < ds.length) :
    (finalDoms l ds I).1 = ds ++ l.map (·.1) ∧ ∀ i k j, Entry (finalDoms l ds I).2 i k j ↔ Entry I i k j ∨ HopRef ds.length l i k j := by
  induction l generalizing ds I with
  | nil => exact ⟨by simp [finalDoms], fun i k j => by simp [finalDoms, HopRef]⟩
  | cons a l ih =>
    obtain ⟨c, v⟩ := a
    have hpos : 0 < ds.length := List.length_pos_of_ne_nil hds
    have hIn : I.find? ds.length = none := by
      cases hx : I.find? ds.length with
      | none => rfl
      | some r => have := hI _ _ hx; omega
    have hset : setIdx I ((ds ++ [c]).length - 1) v ((ds ++ [c]).length - 2) = I.set ds.length ((∅ : FMap String Nat).set v (ds.length - 1)) := by
      simp [setIdx, hIn]
    unfold finalDoms
    simp only
    rw [hset]
    obtain ⟨h1, h2⟩ := ih (ds ++ [c]) (by simp) (I.set ds.length ((∅ : FMap String Nat).set v (ds.length - 1))) (by
      intro i r hr
      rw [FMap.find?_set] at hr
      split at hr
      · simp; omega
      · have := hI i r hr; simp; omega)
    refine ⟨by rw [h1]; simp, ?_⟩
    intro i k j
    rw [h2]
    constructor
    · rintro (⟨r, hr, hj⟩ | ⟨n, c1, hn, hi, hj⟩)
      · rw [FMap.find?_set] at hr
        split at hr
        · next he =>
          cases hr
          right
          rw [FMap.find?_set] at hj
          split at hj
          · next hk => cases hj; subst hk; exact ⟨0, c, rfl, he, by omega⟩
          · simp at hj
        · exact Or.inl ⟨r, hr, hj⟩
      · exact Or.inr ⟨n + 1, c1, by simpa using hn, by simp at hi; omega, hj⟩
    · rintro (⟨r, hr, hj⟩ | ⟨n, c1, hn, hi, hj⟩)
      · refine Or.inl ⟨r, ?_, hj⟩
        rw [FMap.find?_set_ne]
        · exact hr
        · have := hI _ _ hr; omega
      · cases n with
        | zero =>
          simp only [List.getElem?_cons_zero, Option.some.injEq, Prod.mk.injEq] at hn
          obtain ⟨rfl, rfl⟩ := hn
          refine Or.inl ⟨(∅ : FMap String Nat).set v (ds.length - 1), by rw [hi]; simp, ?_⟩
          rw [FMap.find?_set_self]
          congr 1
          omega
        | succ n => exact Or.inr ⟨n, c1, by simpa using hn, by simp; omega, hj⟩

theorem baseOf_prevRel (f d x : String) (post : List (String × String)) : prevRel (varRel d x) f post.reverse = baseOf f d x post := by
  unfold prevRel
  rw [List.getLast?_reverse]
  cases post <;> rfl

theorem linkRel_reverse (f c : String) (pre : List (String × String)) : linkRel f pre.reverse c = linkRel f pre c := by
  unfold linkRel
  cases pre <;> simp

/-- One query field. -/
theorem queryField_spec {s : PClean.Schema} (hn : NamesOk s) (ha : Acyclic s) {L : Layouts} (hL : ∀ c ds, L.doms.find? c = some ds ↔ Layout s c ds)
    (hidx : ∀ c r ds, L.classIdx.find? c = some r → Layout s c ds → ∀ i ref, r.find? i = some ref → i < ds.length)
    {mkC : String → FMap String String → Res F.C} {mkE : String → FMap String String → Res F.E} {clean finalOnly : Bool}
    {rc : Class} (hrc : s.classes.find? rc.name = some rc) {f : QueryField} (hf : Plain f.name) {hops : List (String × String)} {d x j : String}
    {p : FMap String String} (hp : PathTo s rc.name f.classPath hops d x j p) {ds : List String} (hds : Layout s d ds) {b b' : Build F}
    (hclean : hops = [] → clean = true → ∃ C, mkC j p = .ok C ∧ b.schema.find? (varRel d x) = some (.clean C ds false))
    (hvar : b.relIdx.find? (varRel d x) = L.classIdx.find? d) (hfresh : b.relIdx.find? f.name = none)
    (hfresh' : ∀ a ∈ hops, b.relIdx.find? (viaRel a.1 f.name) = none)
    (h : queryField s L mkE clean finalOnly rc f b = .ok b') :
    FieldRels b' f.name clean finalOnly (mkC j p) (mkE j p) hops d x ds (L.classIdx.find? d) ∧
    ∀ k, k ≠ f.name → (∀ a ∈ viaHops finalOnly hops, k ≠ viaRel a.1 f.name) → b'.relIdx.find? k = b.relIdx.find? k ∧
      b'.schema.find? k = if clean = true ∧ hops = [] ∧ k = varRel d x then none else b.schema.find? k := by
  obtain ⟨v, hw, hv1, hv2⟩ := walk_spec hn hp hrc
  have hhead := hp.head
  have hlen := hp.length
  have hldoms : L.doms.find? d = some ds := (hL d ds).mpr hds
  have hne : ds ≠ [] := List.ne_nil_of_length_pos hds.length_pos
  unfold queryField at h
  rw [hw] at h
  simp only [bind, Except.bind] at h
  simp only [hhead, List.getLast_concat, hldoms, Option.getD_some, hv1] at h
  have hscal : scalarOf v = .ok (j, p) := by simp [scalarOf, hv2]
  have hbase : d ++ ":" ++ x = varRel d x := rfl
  simp only [zip_hops, hscal, hbase] at h
  have hfv : f.name ≠ varRel d x := plain_ne_varRel hf
  cases hops with
  | nil =>
    simp only [hlen, List.length_nil, Nat.zero_add, if_true] at h
    cases clean with
    | true =>
      obtain ⟨C, hC, hfind⟩ := hclean rfl rfl
      simp only [if_true, FMap.atKey_of_find hfind] at h
      cases h
      refine ⟨⟨C, hC, ?_, hfresh⟩, ?_⟩
      · simp only
        rw [FMap.find?_erase_ne _ hfv, FMap.find?_set_self]
      · intro k hk _
        refine ⟨rfl, ?_⟩
        simp only [true_and]
        rw [FMap.find?_erase, FMap.find?_set_ne _ hk]
    | false =>
      have hd : d = rc.name := hp.nil_hops rfl
      simp only [Bool.false_eq_true, if_false] at h
      cases he : mkE j p with
      | error e => rw [he] at h; cases h
      | ok e =>
        rw [he] at h
        cases h
        refine ⟨⟨e, rfl, by simp, ?_⟩, ?_⟩
        · simp only [inherit, hd]
          split
          · next hx => rw [hx]; simp
          · next hx => rw [hx]; exact hfresh
        · intro k hk _
          refine ⟨?_, by simp [FMap.find?_set_ne _ hk]⟩
          simp only [inherit]
          split
          · rw [FMap.find?_set_ne _ hk]
          · rfl
  | cons hop hops =>
    have hl1 : ¬ f.classPath.length = 1 := by simp [hlen]
    rw [if_neg hl1] at h
    cases finalOnly with
    | true =>
      simp only [if_true] at h
      obtain ⟨f1, f2⟩ := finalDoms_spec (hop :: hops).reverse ds hne ∅ (by simp)
      rw [hfresh] at h
      simp only [Option.getD_none] at h
      cases he : mkE j p with
      | error e => rw [he] at h; cases h
      | ok e =>
        rw [he] at h
        cases h
        refine ⟨?_, ?_⟩
        · have hb : (b.relIdx.set f.name (finalDoms (hop :: hops).reverse ds ∅).2).find? (varRel d x) = L.classIdx.find? d := by
            rw [FMap.find?_set_ne _ hfv.symm]; exact hvar
          cases hx : L.classIdx.find? d with
          | none =>
            refine ⟨e, (finalDoms (hop :: hops).reverse ds ∅).2, rfl, by simp only [f1]; exact FMap.find?_set_self .., ?_, ?_⟩
            · simp only [inherit, hb, hx]
              exact FMap.find?_set_self ..
            · intro i k j
              rw [f2]
              simp [Entry]
          | some r =>
            refine ⟨e, r, rfl, by simp only [f1]; exact FMap.find?_set_self .., ?_, fun i k j => Iff.rfl⟩
            simp only [inherit, hb, hx]
            exact FMap.find?_set_self ..
        · intro k hk _
          refine ⟨?_, by simp [FMap.find?_set_ne _ hk]⟩
          simp only [inherit]
          split
          · rw [FMap.find?_set_ne _ hk, FMap.find?_set_ne _ hk]
          · rw [FMap.find?_set_ne _ hk]
    | false =>
      simp only [Bool.false_eq_true, if_false] at h
      cases he : mkE j p with
      | error e =>
        rw [he] at h
        obtain ⟨a, l, hal⟩ : ∃ a l, (hop :: hops).reverse = a :: l := by
          cases hx : (hop :: hops).reverse with
          | nil => simp at hx
          | cons a l => exact ⟨a, l, rfl⟩
        rw [hal] at h
        unfold chain at h
        cases h
      | ok e =>
        rw [he] at h
        have hpl : ∀ a ∈ (hop :: hops).reverse, Plain a.1 := by
          intro a ha
          obtain ⟨cl, hcl⟩ := hp.hop_class a (List.mem_reverse.mp ha)
          exact (hn.cls _ _ hcl).2
        have hnd : ((hop :: hops).reverse.map (·.1)).Nodup := by
          rw [List.map_reverse, List.nodup_reverse]
          exact hp.hop_nodup ha
        have hbound : ∀ i r, ((L.classIdx.find? d).getD ∅).find? i = some r → i < ds.length := by
          intro i r hr
          cases hx : L.classIdx.find? d with
          | none => rw [hx] at hr; simp at hr
          | some r' => rw [hx] at hr; exact hidx d r' ds hx hds i r hr
        obtain ⟨k1, k2⟩ := chain_spec (hop :: hops).reverse hnd hf hpl (varRel d x) ds hne b b' ((L.classIdx.find? d).getD ∅) (by rw [hvar]) hbound
          (fun _ => hfresh) (fun a ha => hfresh' a (List.mem_reverse.mp ha)) h
        refine ⟨⟨e, rfl, ?_⟩, ?_⟩
        · intro pre c g post heq
          have hrev : (hop :: hops).reverse = post.reverse ++ (c, g) :: pre.reverse := by rw [heq]; simp
          obtain ⟨q1, r, q2, q3⟩ := k2 post.reverse c g pre.reverse hrev
          rw [linkRel_reverse, baseOf_prevRel] at q1
          rw [linkRel_reverse] at q2
          refine ⟨by rw [q1]; cases pre <;> simp, r, q2, ?_⟩
          intro i k j
          rw [q3]
          cases hx : L.classIdx.find? d with
          | none => simp [Entry]
          | some r' => simp
        · intro k hk1 hk2
          obtain ⟨q1, q2⟩ := k1 k hk1 (fun a ha => hk2 a (by
            rw [List.dropLast_reverse] at ha
            simpa [viaHops] using ha))
          exact ⟨q2, by rw [q1]; simp⟩

/-- With `record_class_is_clean`, a variable that is not there any more. -/
theorem queryField_gone {s : PClean.Schema} (hn : NamesOk s) {L : Layouts} {mkE : String → FMap String String → Res F.E} {finalOnly : Bool}
    {rc : Class} (hrc : s.classes.find? rc.name = some rc) {f : QueryField} {hops : List (String × String)} {d x j : String}
    {p : FMap String String} (hp : PathTo s rc.name f.classPath hops d x j p) (hh : hops = []) {b : Build F}
    (hv : b.schema.find? (varRel d x) = none) : queryField s L mkE true finalOnly rc f b = .error .outOfRange := by
  obtain ⟨v, hw, hv1, hv2⟩ := walk_spec hn hp hrc
  have hhead := hp.head
  have hlen := hp.length
  unfold queryField
  rw [hw]
  simp only [bind, Except.bind]
  simp only [hhead, List.getLast_concat, hv1]
  have hl1 : f.classPath.length = 1 := by rw [hlen, hh]; rfl
  have hbase : d ++ ":" ++ x = varRel d x := rfl
  have : b.schema.atKey (varRel d x) = .error .outOfRange := by simp [FMap.atKey, hv]
  simp only [hl1, hbase, this, if_true]

/-! ### All query fields -/

/-- Two builds agree on what a query field gives. -/
theorem FieldRels.congr {b b' : Build F} {f : String} {clean finalOnly : Bool} {C : Res F.C} {e : Res F.E} {hops : List (String × String)} {d x : String}
    {ds : List String} {own : Option RefIdx} (h : FieldRels b f clean finalOnly C e hops d x ds own)
    (h1 : b'.schema.find? f = b.schema.find? f ∧ b'.relIdx.find? f = b.relIdx.find? f)
    (h2 : ∀ a ∈ hops, b'.schema.find? (viaRel a.1 f) = b.schema.find? (viaRel a.1 f) ∧ b'.relIdx.find? (viaRel a.1 f) = b.relIdx.find? (viaRel a.1 f)) :
    FieldRels b' f clean finalOnly C e hops d x ds own := by
  cases hops with
  | nil =>
    cases clean with
    | true => obtain ⟨c, r1, r2, r3⟩ := h; exact ⟨c, r1, by rw [h1.1]; exact r2, by rw [h1.2]; exact r3⟩
    | false => obtain ⟨c, r1, r2, r3⟩ := h; exact ⟨c, r1, by rw [h1.1]; exact r2, by rw [h1.2]; exact r3⟩
  | cons hop hops =>
    cases finalOnly with
    | true => obtain ⟨e', r, r1, r2, r3, r4⟩ := h; exact ⟨e', r, r1, by rw [h1.1]; exact r2, by rw [h1.2]; exact r3, r4⟩
    | false =>
      obtain ⟨e', r1, r2⟩ := h
      refine ⟨e', r1, ?_⟩
      intro pre c g post heq
      obtain ⟨q1, r, q2, q3⟩ := r2 pre c g post heq
      have hk : b'.schema.find? (linkRel f pre c) = b.schema.find? (linkRel f pre c) ∧ b'.relIdx.find? (linkRel f pre c) = b.relIdx.find? (linkRel f pre c) := by
        unfold linkRel
        split
        · exact h1
        · exact h2 (c, g) (by rw [heq]; simp)
      exact ⟨by rw [hk.1]; exact q1, r, by rw [hk.2]; exact q2, q3⟩

theorem viaHops_sub {finalOnly : Bool} {hops : List (String × String)} {a : String × String} (h : a ∈ viaHops finalOnly hops) : a ∈ hops := by
  unfold viaHops at h
  split at h
  · cases h
  · exact List.mem_of_mem_tail h

/-- The state after some of the query fields. -/
structure BuildOk (s : PClean.Schema) (L : Layouts) (mkC : String → FMap String String → Res F.C) (mkE : String → FMap String String → Res F.E)
    (clean finalOnly : Bool) (rc : String) (fs : List QueryField) (b : Build F) : Prop where
  var : ∀ c x j p, HasScalar s c x j p → b.relIdx.find? (varRel c x) = L.classIdx.find? c ∧ ∃ C ds, mkC j p = .ok C ∧ Layout s c ds ∧
    ((¬ (clean = true ∧ c = rc ∧ ∃ f ∈ fs, f.classPath = [x]) ∧ b.schema.find? (varRel c x) = some (.clean C ds false)) ∨
      ((clean = true ∧ c = rc ∧ ∃ f ∈ fs, f.classPath = [x]) ∧ b.schema.find? (varRel c x) = none))
  keys : ∀ k, (∃ r, b.schema.find? k = some r) ∨ (∃ r, b.relIdx.find? k = some r) → (∃ c x j p, HasScalar s c x j p ∧ k = varRel c x) ∨
    ∃ f ∈ fs, k = f.name ∨ ∃ hops d x j p, PathTo s rc f.classPath hops d x j p ∧ ∃ a ∈ viaHops finalOnly hops, k = viaRel a.1 f.name
  field : ∀ f ∈ fs, ∀ hops d x j p ds, PathTo s rc f.classPath hops d x j p → Layout s d ds →
    FieldRels b f.name clean finalOnly (mkC j p) (mkE j p) hops d x ds (L.classIdx.find? d)

theorem hasScalar_plain {s : PClean.Schema} (hn : NamesOk s) {c x j : String} {p : FMap String String} (h : HasScalar s c x j p) : Plain c ∧ Plain x := by
  obtain ⟨cl, v, h1, h2, _⟩ := h
  exact ⟨(hn.cls c cl h1).2, (hn.var c cl x v h1 h2).2⟩

theorem PathTo.path {s : PClean.Schema} {c : String} {path : List String} {d x j : String}
    {p : FMap String String} (h : PathTo s c path [] d x j p) : path = [x] := by
  cases h; rfl

theorem PathTo.of_single {s : PClean.Schema} {c x : String} {hops : List (String × String)} {d x' j : String}
    {p : FMap String String} (h : PathTo s c [x] hops d x' j p) : hops = [] ∧ d = c ∧ x' = x := by
  cases h with
  | here _ => exact ⟨rfl, rfl, rfl⟩
  | step _ h => cases h

/-- A path leads to one variable. -/
theorem PathTo.unique {s : PClean.Schema} {c : String} {path : List String} {hops : List (String × String)} {d x j : String} {p : FMap String String}
    (h : PathTo s c path hops d x j p) : ∀ {hops' d' x' j' p'}, PathTo s c path hops' d' x' j' p' → hops = hops' ∧ d = d' ∧ x = x' ∧ j = j' ∧ p = p' := by
  induction h with
  | @here c x j p hs =>
    intro hops' d' x' j' p' h'
    cases h' with
    | here hs' =>
      obtain ⟨cl, v, a1, a2, a3⟩ := hs
      obtain ⟨cl', v', b1, b2, b3⟩ := hs'
      rw [a1] at b1; cases b1
      rw [a2] at b2; cases b2
      rw [a3] at b3; cases b3
      exact ⟨rfl, rfl, rfl, rfl, rfl⟩
    | step _ h => cases h
  | @step c f d path hops e x j p hr hp ih =>
    intro hops' d' x' j' p' h'
    cases h' with
    | here _ => cases hp
    | step hr' hp' =>
      obtain ⟨cl, v, a1, a2, a3⟩ := refers_var hr
      obtain ⟨cl', v', b1, b2, b3⟩ := refers_var hr'
      rw [a1] at b1; cases b1
      rw [a2] at b2; cases b2
      rw [a3] at b3; cases b3
      obtain ⟨rfl, rfl, rfl, rfl, rfl⟩ := ih hp'
      exact ⟨rfl, rfl, rfl, rfl, rfl⟩

theorem queryFields_spec {s : PClean.Schema} (hn : NamesOk s) (ha : Acyclic s) {L : Layouts} (hL : ∀ c ds, L.doms.find? c = some ds ↔ Layout s c ds)
    (hlay : ∀ c cl, s.classes.find? c = some cl → ∃ ds, Layout s c ds)
    (hidx : ∀ c r ds, L.classIdx.find? c = some r → Layout s c ds → ∀ i ref, r.find? i = some ref → i < ds.length)
    {mkC : String → FMap String String → Res F.C} {mkE : String → FMap String String → Res F.E} {clean finalOnly : Bool}
    {rc : Class} (hrc : s.classes.find? rc.name = some rc) {qs : List (String × QueryField)} (hq : ∀ e ∈ qs, Plain e.2.name)
    (hpath : ∀ e ∈ qs, ∃ hops d x j p, PathTo s rc.name e.2.classPath hops d x j p) (hnd : (qs.map (fun e => e.2.name)).Nodup)
    {fs : List QueryField} (hfs : ∀ f ∈ fs, Plain f.name ∧ ∀ e ∈ qs, f.name ≠ e.2.name) {b b' : Build F}
    (hb : BuildOk s L mkC mkE clean finalOnly rc.name fs b) (h : queryFields s L mkE clean finalOnly rc qs b = .ok b') :
    BuildOk s L mkC mkE clean finalOnly rc.name (fs ++ qs.map (·.2)) b' := by
  induction qs generalizing fs b with
  | nil =>
    cases h
    simpa using hb
  | cons q qs ih =>
    obtain ⟨q0, f⟩ := q
    unfold queryFields at h
    obtain ⟨b1, h1, h2⟩ := bind_ok.mp h
    obtain ⟨hops, d, x, j, p, hp⟩ := hpath _ (List.mem_cons_self ..)
    simp only at hp
    have hf : Plain f.name := hq _ (List.mem_cons_self ..)
    obtain ⟨ds, hds⟩ : ∃ ds, Layout s d ds := by
      obtain ⟨cl, v, hc, _⟩ := hp.has
      exact hlay d cl hc
    have hnew : ∀ f' ∈ fs, f'.name ≠ f.name := fun f' hf' => (hfs f' hf').2 _ (List.mem_cons_self ..)
    have hplain : ∀ a ∈ hops, Plain a.1 := by
      intro a ha'
      obtain ⟨cl, hcl⟩ := hp.hop_class a ha'
      exact (hn.cls _ _ hcl).2
    -- the new names are not there
    have hno : ∀ k, (k = f.name ∨ ∃ a ∈ hops, k = viaRel a.1 f.name) → b.schema.find? k = none ∧ b.relIdx.find? k = none := by
      intro k hk
      have hnot : ¬ ((∃ c x j p, HasScalar s c x j p ∧ k = varRel c x) ∨
          ∃ f ∈ fs, k = f.name ∨ ∃ hops d x j p, PathTo s rc.name f.classPath hops d x j p ∧ ∃ a ∈ viaHops finalOnly hops, k = viaRel a.1 f.name) := by
        rintro (⟨c, y, j', p', hs, rfl⟩ | ⟨f', hf', hk'⟩)
        · obtain ⟨hc, hy⟩ := hasScalar_plain hn hs
          rcases hk with hk | ⟨a, ha', hk⟩
          · exact plain_ne_varRel hf hk.symm
          · exact viaRel_ne_varRel (hplain a ha') hc hy hk.symm
        · rcases hk' with rfl | ⟨hops', d', x', j', p', hp', a', ha', rfl⟩
          · rcases hk with hk | ⟨a, ha', hk⟩
            · exact hnew f' hf' hk
            · exact plain_ne_viaRel (hfs f' hf').1 hk
          · rcases hk with hk | ⟨a, ha'', hk⟩
            · exact plain_ne_viaRel hf hk.symm
            · obtain ⟨cl, hcl⟩ := hp'.hop_class a' (viaHops_sub ha')
              exact hnew f' hf' (viaRel_inj (hn.cls _ _ hcl).2 (hplain a ha'') hk).2
      constructor
      · cases hx : b.schema.find? k with
        | none => rfl
        | some r => exact absurd (hb.keys k (Or.inl ⟨r, hx⟩)) hnot
      · cases hx : b.relIdx.find? k with
        | none => rfl
        | some r => exact absurd (hb.keys k (Or.inr ⟨r, hx⟩)) hnot
    obtain ⟨hv1, C, ds', hC, hds', hv2⟩ := hb.var d x j p hp.has
    have := layout_unique hds' hds
    subst this
    -- a variable that was renamed before makes this call fail
    have hcl : hops = [] → clean = true → ∃ C, mkC j p = .ok C ∧ b.schema.find? (varRel d x) = some (.clean C ds' false) := by
      rintro rfl rfl
      rcases hv2 with ⟨_, hv2⟩ | ⟨_, hv2⟩
      · exact ⟨C, hC, hv2⟩
      · exfalso
        rw [queryField_gone hn hrc hp rfl hv2] at h1
        cases h1
    obtain ⟨k1, k2⟩ := queryField_spec hn ha hL hidx hrc hf hp hds hcl hv1 (hno _ (Or.inl rfl)).2
      (fun a ha' => (hno _ (Or.inr ⟨a, ha', rfl⟩)).2) h1
    have e : fs ++ List.map (·.2) ((q0, f) :: qs) = (fs ++ [f]) ++ qs.map (·.2) := by simp
    rw [e]
    simp only [List.map_cons, List.nodup_cons] at hnd
    refine ih (fun e he => hq e (List.mem_cons_of_mem _ he)) (fun e he => hpath e (List.mem_cons_of_mem _ he)) hnd.2 ?_ ?_ h2
    · intro f' hf'
      rcases List.mem_append.mp hf' with hf' | hf'
      · exact ⟨(hfs f' hf').1, fun e he => (hfs f' hf').2 e (List.mem_cons_of_mem _ he)⟩
      · rw [List.mem_singleton] at hf'
        subst hf'
        exact ⟨hf, fun e he h => hnd.1 (List.mem_map.mpr ⟨e, he, h.symm⟩)⟩
    · refine ⟨?_, ?_, ?_⟩
      · intro c y j' p' hs
        obtain ⟨hc, hy⟩ := hasScalar_plain hn hs
        obtain ⟨q1, C', es, q2, q3, q4⟩ := hb.var c y j' p' hs
        obtain ⟨r1, r2⟩ := k2 (varRel c y) (plain_ne_varRel hf).symm (fun a ha' => (viaRel_ne_varRel (hplain a (viaHops_sub ha')) hc hy).symm)
        refine ⟨by rw [r1, q1], C', es, q2, q3, ?_⟩
        rw [r2]
        by_cases hit : clean = true ∧ hops = [] ∧ varRel c y = varRel d x
        · right
          obtain ⟨e1, rfl, e3⟩ := hit
          obtain ⟨rfl, rfl⟩ := varRel_inj hc (hasScalar_plain hn hp.has).1 e3
          exact ⟨⟨e1, hp.nil_hops rfl, f, by simp, hp.path⟩, by simp [e1]⟩
        · rw [if_neg hit]
          have hiff : (clean = true ∧ c = rc.name ∧ ∃ f' ∈ fs ++ [f], f'.classPath = [y]) ↔ clean = true ∧ c = rc.name ∧ ∃ f' ∈ fs, f'.classPath = [y] := by
            constructor
            · rintro ⟨e1, e2, f', hf', e3⟩
              rcases List.mem_append.mp hf' with hf' | hf'
              · exact ⟨e1, e2, f', hf', e3⟩
              · rw [List.mem_singleton] at hf'
                subst hf'
                rw [e3] at hp
                obtain ⟨rfl, rfl, rfl⟩ := hp.of_single
                exact absurd ⟨e1, rfl, by rw [e2]⟩ hit
            · rintro ⟨e1, e2, f', hf', e3⟩
              exact ⟨e1, e2, f', List.mem_append_left _ hf', e3⟩
          rw [hiff]
          exact q4
      · intro k hk
        by_cases hkf : k = f.name ∨ ∃ a ∈ viaHops finalOnly hops, k = viaRel a.1 f.name
        · right
          refine ⟨f, by simp, ?_⟩
          rcases hkf with rfl | hkf
          · exact Or.inl rfl
          · exact Or.inr ⟨hops, d, x, j, p, hp, hkf⟩
        · obtain ⟨r1, r2⟩ := k2 k (fun e => hkf (Or.inl e)) (fun a ha' e => hkf (Or.inr ⟨a, ha', e⟩))
          rw [r1, r2] at hk
          have hk' : (∃ r, b.schema.find? k = some r) ∨ (∃ r, b.relIdx.find? k = some r) := by
            rcases hk with ⟨r, hr⟩ | hr
            · split at hr
              · cases hr
              · exact Or.inl ⟨r, hr⟩
            · exact Or.inr hr
          rcases hb.keys k hk' with h' | ⟨f', hf', h'⟩
          · exact Or.inl h'
          · exact Or.inr ⟨f', List.mem_append_left _ hf', h'⟩
      · intro f' hf' hops' d' x' j' p' es hp' hes
        rcases List.mem_append.mp hf' with hf'' | hf''
        · have hne := hnew f' hf''
          refine (hb.field f' hf'' hops' d' x' j' p' es hp' hes).congr ?_ ?_
          · obtain ⟨r1, r2⟩ := k2 f'.name hne (fun a _ => plain_ne_viaRel (hfs f' hf'').1)
            refine ⟨?_, r1⟩
            rw [r2, if_neg]
            rintro ⟨_, _, e3⟩
            exact plain_ne_varRel (hfs f' hf'').1 e3
          · intro a ha'
            obtain ⟨cl, hcl⟩ := hp'.hop_class a ha'
            have hpa := (hn.cls _ _ hcl).2
            obtain ⟨r1, r2⟩ := k2 (viaRel a.1 f'.name) (plain_ne_viaRel hf).symm (fun a' ha'' e => hne (viaRel_inj hpa (hplain a' (viaHops_sub ha'')) e).2)
            refine ⟨?_, r1⟩
            rw [r2, if_neg]
            rintro ⟨_, _, e3⟩
            exact viaRel_ne_varRel hpa (hasScalar_plain hn hp.has).1 (hasScalar_plain hn hp.has).2 e3
        · rw [List.mem_singleton] at hf''
          subst hf''
          obtain ⟨rfl, rfl, rfl, rfl, rfl⟩ := hp.unique hp'
          have := layout_unique hds hes
          subst this
          exact k1

theorem layoutsOf_spec {s : PClean.Schema} {L : Layouts} (h : layoutsOf s = .ok L) :
    computeDomains s = .ok L.doms ∧ computeRefs s L.doms = .ok L.classIdx := by
  unfold layoutsOf at h
  obtain ⟨m, h1, h⟩ := bind_ok.mp h
  obtain ⟨idx, h2, h⟩ := bind_ok.mp h
  cases h
  exact ⟨h1, h2⟩

/-- The state before the query fields. -/
theorem init_spec {s : PClean.Schema} (hn : NamesOk s) {L : Layouts}
    (hL : ∀ c ds, L.doms.find? c = some ds ↔ Layout s c ds) (hlay : ∀ c cl, s.classes.find? c = some cl → ∃ ds, Layout s c ds)
    {mkC : String → FMap String String → Res F.C} {mkE : String → FMap String String → Res F.E} {clean finalOnly : Bool} {rc : String} {b : Build F}
    (h : cleanClasses L mkC s.classes.entries ⟨∅, ∅⟩ = .ok b) : BuildOk s L mkC mkE clean finalOnly rc [] b := by
  obtain ⟨k1, k2⟩ := cleanClasses_spec s.classes.nodupKeys (fun e he => (hn.cls e.1 e.2 (FMap.mem_entries.mp he)).2) h
  refine ⟨?_, ?_, ?_⟩
  · rintro c x j p ⟨cl, v, hc, hx, hv⟩
    obtain ⟨C, r1, r2, r3⟩ := k1 c cl x v j p (FMap.mem_entries.mpr hc) hx hv
    obtain ⟨ds, hds⟩ := hlay c cl hc
    have hno : ¬ (clean = true ∧ c = rc ∧ ∃ f ∈ ([] : List QueryField), f.classPath = [x]) := by
      rintro ⟨_, _, f, hf, _⟩
      cases hf
    refine ⟨r3 (by simp), C, ds, r1, hds, Or.inl ⟨hno, ?_⟩⟩
    rw [r2, (hL c ds).mpr hds]
    rfl
  · intro k hk
    left
    by_contra hne
    obtain ⟨r1, r2⟩ := k2 k (fun c cl x v j p hm hx hv e => hne ⟨c, x, j, p, ⟨cl, v, FMap.mem_entries.mp hm, hx, hv⟩, e⟩)
    rw [r1, r2] at hk
    simp at hk
  · intro f hf
    cases hf

theorem fields_nodup {s : PClean.Schema} (hn : NamesOk s) : (s.query.fields.entries.map (fun e => e.2.name)).Nodup ∧
    ∀ e ∈ s.query.fields.entries, Plain e.2.name := by
  have hfn : ∀ e ∈ s.query.fields.entries, e.2.name = e.1 ∧ Plain e.1 := fun e he => hn.field e.1 e.2 (FMap.mem_entries.mp he)
  refine ⟨?_, fun e he => by rw [(hfn e he).1]; exact (hfn e he).2⟩
  have := s.query.fields.nodupKeys
  unfold FMap.keys at this
  rw [List.map_congr_left (fun e he => (hfn e he).1)]
  exact this

/-- What the construction of the HIRM schema leads to. -/
theorem makeSchema_spec {s : PClean.Schema} (hn : NamesOk s) (hq : QueryOk s) (ha : Acyclic s) {L : Layouts}
    (hL : ∀ c ds, L.doms.find? c = some ds ↔ Layout s c ds) (hlay : ∀ c cl, s.classes.find? c = some cl → ∃ ds, Layout s c ds)
    (hidx : ∀ c r ds, L.classIdx.find? c = some r → Layout s c ds → ∀ i ref, r.find? i = some ref → i < ds.length)
    {mkC : String → FMap String String → Res F.C} {mkE : String → FMap String String → Res F.E} {clean finalOnly : Bool} {b : Build F}
    (h : makeSchema s L mkC mkE clean finalOnly = .ok b) :
    BuildOk s L mkC mkE clean finalOnly s.query.recordClass (s.query.fields.entries.map (·.2)) b := by
  unfold makeSchema at h
  obtain ⟨b0, h0, h⟩ := bind_ok.mp h
  obtain ⟨rc, h1, h⟩ := bind_ok.mp h
  obtain ⟨rc', hrc'⟩ := hq.record
  rw [FMap.atKey_of_find hrc'] at h1
  cases h1
  have hname : rc.name = s.query.recordClass := (hn.cls _ _ hrc').1
  have hrc : s.classes.find? rc.name = some rc := by rw [hname]; exact hrc'
  obtain ⟨hnd, hpl⟩ := fields_nodup hn
  have := queryFields_spec hn ha hL hlay hidx hrc (qs := s.query.fields.entries) hpl
    (fun e he => by rw [hname]; exact hq.path e.1 e.2 (FMap.mem_entries.mp he)) hnd (fs := []) (fun f hf => by cases hf)
    (init_spec hn hL hlay (mkE := mkE) (clean := clean) (finalOnly := finalOnly) (rc := rc.name) h0) h
  rw [hname] at this
  simpa using this

/-! ### Success -/

theorem cleanRels_ok {L : Layouts} {mkC : String → FMap String String → Res F.C} {c : String} {vs : List (String × Variable)}
    (hC : ∀ x v j p, (x, v) ∈ vs → v.spec = .scalar j p → ∃ C, mkC j p = .ok C) (b : Build F) : ∃ b', cleanRels L mkC c vs b = .ok b' := by
  induction vs generalizing b with
  | nil => exact ⟨b, rfl⟩
  | cons e vs ih =>
    obtain ⟨x, v⟩ := e
    unfold cleanRels
    have ih' := ih (fun x v j p hm hv => hC x v j p (List.mem_cons_of_mem _ hm) hv)
    cases hv : v.spec with
    | cls d => exact ih' b
    | scalar j p =>
      obtain ⟨C, h1⟩ := hC x v j p (List.mem_cons_self ..) hv
      simp only [h1]
      exact ih' _

theorem cleanClasses_ok {L : Layouts} {mkC : String → FMap String String → Res F.C} {cs : List (String × Class)}
    (hC : ∀ c cl x v j p, (c, cl) ∈ cs → cl.vars.find? x = some v → v.spec = .scalar j p → ∃ C, mkC j p = .ok C) (b : Build F) :
    ∃ b', cleanClasses L mkC cs b = .ok b' := by
  induction cs generalizing b with
  | nil => exact ⟨b, rfl⟩
  | cons e cs ih =>
    obtain ⟨c, cl⟩ := e
    unfold cleanClasses
    obtain ⟨b1, h1⟩ := cleanRels_ok (L := L) (c := c) (vs := cl.vars.entries) (fun x v j p hm hv => hC c cl x v j p (List.mem_cons_self ..) (FMap.mem_entries.mp hm) hv) b
    obtain ⟨b2, h2⟩ := ih (fun c cl x v j p hm => hC c cl x v j p (List.mem_cons_of_mem _ hm)) b1
    exact ⟨b2, bind_ok.mpr ⟨b1, h1, h2⟩⟩

theorem chain_ok {f : String} {e : F.E} (l : List (String × String)) (prev : String) (ds : List String) (refs : RefIdx) (b : Build F) :
    ∃ b', chain f (.ok e) l prev ds refs b = .ok b' := by
  induction l generalizing prev ds refs b with
  | nil => exact ⟨b, rfl⟩
  | cons a l ih =>
    obtain ⟨c, v⟩ := a
    unfold chain
    exact ih _ _ _ _

/-- A query field whose emission exists. -/
theorem queryField_ok {s : PClean.Schema} (hn : NamesOk s) {L : Layouts} {mkE : String → FMap String String → Res F.E} {clean finalOnly : Bool}
    {rc : Class} (hrc : s.classes.find? rc.name = some rc) {f : QueryField} {hops : List (String × String)} {d x j : String}
    {p : FMap String String} (hp : PathTo s rc.name f.classPath hops d x j p) {b : Build F}
    (hclean : hops = [] → clean = true → ∃ C ds o, b.schema.find? (varRel d x) = some (.clean C ds o)) {e : F.E} (he : mkE j p = .ok e) :
    ∃ b', queryField s L mkE clean finalOnly rc f b = .ok b' := by
  obtain ⟨v, hw, hv1, hv2⟩ := walk_spec hn hp hrc
  have hhead := hp.head
  have hlen := hp.length
  unfold queryField
  rw [hw]
  simp only [bind, Except.bind]
  simp only [hhead, List.getLast_concat, hv1]
  have hscal : scalarOf v = .ok (j, p) := by simp [scalarOf, hv2]
  have hbase : d ++ ":" ++ x = varRel d x := rfl
  simp only [zip_hops, hscal, hbase, he]
  cases hops with
  | nil =>
    simp only [hlen, List.length_nil, Nat.zero_add, if_true]
    cases clean with
    | true =>
      obtain ⟨C, ds, o, hfind⟩ := hclean rfl rfl
      simp only [if_true, FMap.atKey_of_find hfind]
      exact ⟨_, rfl⟩
    | false => exact ⟨_, rfl⟩
  | cons hop hops =>
    have hl1 : ¬ f.classPath.length = 1 := by simp [hlen]
    rw [if_neg hl1]
    cases finalOnly with
    | true => exact ⟨_, rfl⟩
    | false => exact chain_ok _ _ _ _ _

theorem queryFields_ok {s : PClean.Schema} (hn : NamesOk s) (ha : Acyclic s) {L : Layouts} (hL : ∀ c ds, L.doms.find? c = some ds ↔ Layout s c ds)
    (hlay : ∀ c cl, s.classes.find? c = some cl → ∃ ds, Layout s c ds)
    (hidx : ∀ c r ds, L.classIdx.find? c = some r → Layout s c ds → ∀ i ref, r.find? i = some ref → i < ds.length)
    {mkC : String → FMap String String → Res F.C} {mkE : String → FMap String String → Res F.E} {clean finalOnly : Bool}
    {rc : Class} (hrc : s.classes.find? rc.name = some rc) {qs : List (String × QueryField)} (hq : ∀ e ∈ qs, Plain e.2.name)
    (hpath : ∀ e ∈ qs, ∃ hops d x j p, PathTo s rc.name e.2.classPath hops d x j p) (hnd : (qs.map (fun e => e.2.name)).Nodup)
    (hE : ∀ c x j p, HasScalar s c x j p → ∃ e, mkE j p = .ok e)
    {fs : List QueryField} (hfs : ∀ f ∈ fs, Plain f.name ∧ ∀ e ∈ qs, f.name ≠ e.2.name)
    (hdist : clean = true → ((fs ++ qs.map (·.2)).Pairwise fun f g => ∀ x, f.classPath = [x] → g.classPath ≠ [x])) {b : Build F}
    (hb : BuildOk s L mkC mkE clean finalOnly rc.name fs b) : ∃ b', queryFields s L mkE clean finalOnly rc qs b = .ok b' := by
  induction qs generalizing fs b with
  | nil => exact ⟨b, rfl⟩
  | cons q qs ih =>
    obtain ⟨q0, f⟩ := q
    obtain ⟨hops, d, x, j, p, hp⟩ := hpath _ (List.mem_cons_self ..)
    simp only at hp
    obtain ⟨e, he⟩ := hE d x j p hp.has
    have hd : clean = true → ∀ f' ∈ fs, ∀ x, f'.classPath = [x] → f.classPath ≠ [x] := by
      intro hc f' hf' x hx
      have := hdist hc
      rw [List.pairwise_append] at this
      exact this.2.2 f' hf' f (by simp) x hx
    obtain ⟨b1, h1⟩ := queryField_ok hn (L := L) (finalOnly := finalOnly) hrc hp (b := b) (clean := clean) (by
      rintro rfl rfl
      obtain ⟨_, C, ds, _, _, h2⟩ := hb.var d x j p hp.has
      rcases h2 with ⟨_, h2⟩ | ⟨⟨_, _, f', hf', h3⟩, _⟩
      · exact ⟨C, ds, false, h2⟩
      · exact absurd hp.path (hd rfl f' hf' x h3)) he
    have hone := queryFields_spec hn ha hL hlay hidx hrc (qs := [(q0, f)]) (fun e he => hq e (by simp at he; simp [he]))
      (fun e he => hpath e (by simp at he; simp [he])) (by simp) (fs := fs)
      (fun f' hf' => ⟨(hfs f' hf').1, fun e he => (hfs f' hf').2 e (by simp at he; simp [he])⟩) hb (b' := b1) (by
        unfold queryFields
        exact bind_ok.mpr ⟨b1, h1, rfl⟩)
    simp only [List.map_cons, List.nodup_cons] at hnd
    obtain ⟨b2, h2⟩ := ih (fun e he => hq e (List.mem_cons_of_mem _ he)) (fun e he => hpath e (List.mem_cons_of_mem _ he)) hnd.2 (fs := fs ++ [f]) (by
      intro f' hf'
      rcases List.mem_append.mp hf' with hf' | hf'
      · exact ⟨(hfs f' hf').1, fun e he => (hfs f' hf').2 e (List.mem_cons_of_mem _ he)⟩
      · rw [List.mem_singleton] at hf'
        subst hf'
        exact ⟨hq _ (List.mem_cons_self ..), fun e he h => hnd.1 (List.mem_map.mpr ⟨e, he, h.symm⟩)⟩) (by
      intro hc
      have := hdist hc
      simpa [List.append_assoc] using this) hone
    exact ⟨b2, bind_ok.mpr ⟨b1, h1, h2⟩⟩

/-- With `record_class_is_clean`, success means that no two query fields ask for the same variable of the record class. -/
theorem queryFields_distinct {s : PClean.Schema} (hn : NamesOk s) (ha : Acyclic s) {L : Layouts} (hL : ∀ c ds, L.doms.find? c = some ds ↔ Layout s c ds)
    (hlay : ∀ c cl, s.classes.find? c = some cl → ∃ ds, Layout s c ds)
    (hidx : ∀ c r ds, L.classIdx.find? c = some r → Layout s c ds → ∀ i ref, r.find? i = some ref → i < ds.length)
    {mkC : String → FMap String String → Res F.C} {mkE : String → FMap String String → Res F.E} {finalOnly : Bool}
    {rc : Class} (hrc : s.classes.find? rc.name = some rc) {qs : List (String × QueryField)} (hq : ∀ e ∈ qs, Plain e.2.name)
    (hpath : ∀ e ∈ qs, ∃ hops d x j p, PathTo s rc.name e.2.classPath hops d x j p) (hnd : (qs.map (fun e => e.2.name)).Nodup)
    {fs : List QueryField} (hfs : ∀ f ∈ fs, Plain f.name ∧ ∀ e ∈ qs, f.name ≠ e.2.name) {b b' : Build F}
    (hb : BuildOk s L mkC mkE true finalOnly rc.name fs b) (h : queryFields s L mkE true finalOnly rc qs b = .ok b')
    (hd : fs.Pairwise fun f g => ∀ x, f.classPath = [x] → g.classPath ≠ [x]) :
    (fs ++ qs.map (·.2)).Pairwise fun f g => ∀ x, f.classPath = [x] → g.classPath ≠ [x] := by
  induction qs generalizing fs b with
  | nil => simpa using hd
  | cons q qs ih =>
    obtain ⟨q0, f⟩ := q
    unfold queryFields at h
    obtain ⟨b1, h1, h2⟩ := bind_ok.mp h
    obtain ⟨hops, d, x, j, p, hp⟩ := hpath _ (List.mem_cons_self ..)
    simp only at hp
    have hdf : ∀ f' ∈ fs, ∀ y, f'.classPath = [y] → f.classPath ≠ [y] := by
      intro f' hf' y hy hy'
      rw [hy'] at hp
      obtain ⟨rfl, rfl, rfl⟩ := hp.of_single
      obtain ⟨_, C, ds, _, _, h3⟩ := hb.var _ x j p hp.has
      rcases h3 with ⟨h3, _⟩ | ⟨_, h3⟩
      · exact h3 ⟨rfl, rfl, f', hf', hy⟩
      · rw [← hy'] at hp
        rw [queryField_gone hn hrc hp rfl h3] at h1
        cases h1
    have hone := queryFields_spec hn ha hL hlay hidx hrc (qs := [(q0, f)]) (fun e he => hq e (by simp at he; simp [he]))
      (fun e he => hpath e (by simp at he; simp [he])) (by simp) (fs := fs)
      (fun f' hf' => ⟨(hfs f' hf').1, fun e he => (hfs f' hf').2 e (by simp at he; simp [he])⟩) hb (b' := b1) (by
        unfold queryFields
        exact bind_ok.mpr ⟨b1, h1, rfl⟩)
    simp only [List.map_cons, List.nodup_cons] at hnd
    have e : fs ++ List.map (·.2) ((q0, f) :: qs) = (fs ++ [f]) ++ qs.map (·.2) := by simp
    rw [e]
    refine ih (fun e he => hq e (List.mem_cons_of_mem _ he)) (fun e he => hpath e (List.mem_cons_of_mem _ he)) hnd.2 (fs := fs ++ [f]) ?_ hone h2 ?_
    · intro f' hf'
      rcases List.mem_append.mp hf' with hf' | hf'
      · exact ⟨(hfs f' hf').1, fun e he => (hfs f' hf').2 e (List.mem_cons_of_mem _ he)⟩
      · rw [List.mem_singleton] at hf'
        subst hf'
        exact ⟨hq _ (List.mem_cons_self ..), fun e he h => hnd.1 (List.mem_map.mpr ⟨e, he, h.symm⟩)⟩
    · rw [List.pairwise_append]
      exact ⟨hd, by simp, fun f' hf' g hg => by rw [List.mem_singleton] at hg; subst hg; exact hdf f' hf'⟩

theorem makeSchema_distinct {s : PClean.Schema} (hn : NamesOk s) (hq : QueryOk s) (ha : Acyclic s) {L : Layouts}
    (hL : ∀ c ds, L.doms.find? c = some ds ↔ Layout s c ds) (hlay : ∀ c cl, s.classes.find? c = some cl → ∃ ds, Layout s c ds)
    (hidx : ∀ c r ds, L.classIdx.find? c = some r → Layout s c ds → ∀ i ref, r.find? i = some ref → i < ds.length)
    {mkC : String → FMap String String → Res F.C} {mkE : String → FMap String String → Res F.E} {finalOnly : Bool} {b : Build F}
    (h : makeSchema s L mkC mkE true finalOnly = .ok b) {k k' x : String} {f f' : QueryField} (hf : s.query.fields.find? k = some f)
    (hf' : s.query.fields.find? k' = some f') (hx : f.classPath = [x]) (hx' : f'.classPath = [x]) : k = k' := by
  unfold makeSchema at h
  obtain ⟨b0, h0, h⟩ := bind_ok.mp h
  obtain ⟨rc, h1, h⟩ := bind_ok.mp h
  obtain ⟨rc', hrc'⟩ := hq.record
  rw [FMap.atKey_of_find hrc'] at h1
  cases h1
  have hname : rc.name = s.query.recordClass := (hn.cls _ _ hrc').1
  have hrc : s.classes.find? rc.name = some rc := by rw [hname]; exact hrc'
  obtain ⟨hnd, hpl⟩ := fields_nodup hn
  have := queryFields_distinct hn ha hL hlay hidx hrc (qs := s.query.fields.entries) hpl
    (fun e he => by rw [hname]; exact hq.path e.1 e.2 (FMap.mem_entries.mp he)) hnd (fs := []) (fun f hf => by cases hf)
    (init_spec hn hL hlay (mkE := mkE) (clean := true) (finalOnly := finalOnly) (rc := rc.name) h0) h (by simp)
  rw [List.nil_append, List.pairwise_map] at this
  by_contra hne
  have hs := List.Pairwise.forall_of_forall_of_flip (R := fun a b : String × QueryField => a.1 ≠ b.1 → ∀ x, a.2.classPath = [x] → b.2.classPath ≠ [x])
    (l := s.query.fields.entries) (fun a _ h => absurd rfl h) (List.Pairwise.imp (fun h _ x h1 h2 => h x h1 h2) this)
    (List.Pairwise.imp (fun h _ x h1 h2 => h x h2 h1) this) (FMap.mem_entries.mpr hf) (FMap.mem_entries.mpr hf') hne
  exact hs x hx hx'

theorem makeSchema_ok {s : PClean.Schema} (hn : NamesOk s) (hq : QueryOk s) (ha : Acyclic s) {L : Layouts}
    (hL : ∀ c ds, L.doms.find? c = some ds ↔ Layout s c ds) (hlay : ∀ c cl, s.classes.find? c = some cl → ∃ ds, Layout s c ds)
    (hidx : ∀ c r ds, L.classIdx.find? c = some r → Layout s c ds → ∀ i ref, r.find? i = some ref → i < ds.length)
    {mkC : String → FMap String String → Res F.C} {mkE : String → FMap String String → Res F.E} (clean finalOnly : Bool)
    (hC : ∀ c x j p, HasScalar s c x j p → ∃ e, mkC j p = .ok e) (hE : ∀ c x j p, HasScalar s c x j p → ∃ e, mkE j p = .ok e)
    (hdist : clean = true → ∀ k f k' f' x, s.query.fields.find? k = some f → s.query.fields.find? k' = some f' → f.classPath = [x] → f'.classPath = [x] → k = k') :
    ∃ b, makeSchema s L mkC mkE clean finalOnly = .ok b := by
  obtain ⟨b0, h0⟩ := cleanClasses_ok (L := L) (mkC := mkC) (cs := s.classes.entries)
    (fun c cl x v j p hm hx hv => hC c x j p ⟨cl, v, FMap.mem_entries.mp hm, hx, hv⟩) (⟨∅, ∅⟩ : Build F)
  obtain ⟨rc, hrc'⟩ := hq.record
  have hname : rc.name = s.query.recordClass := (hn.cls _ _ hrc').1
  have hrc : s.classes.find? rc.name = some rc := by rw [hname]; exact hrc'
  obtain ⟨hnd, hpl⟩ := fields_nodup hn
  obtain ⟨b, h⟩ := queryFields_ok hn ha hL hlay hidx (mkC := mkC) (mkE := mkE) (clean := clean) (finalOnly := finalOnly) hrc
    (qs := s.query.fields.entries) hpl (fun e he => by rw [hname]; exact hq.path e.1 e.2 (FMap.mem_entries.mp he)) hnd hE (fs := [])
    (fun f hf => by cases hf) (by
      intro hc
      rw [List.nil_append, List.pairwise_map]
      have hk := s.query.fields.nodupKeys
      unfold FMap.keys at hk
      have hk : s.query.fields.entries.Pairwise (fun a b => a.1 ≠ b.1) := by rw [List.Nodup, List.pairwise_map] at hk; exact hk
      refine List.Pairwise.imp_of_mem ?_ hk
      intro a a' ha' hb' hne x h1 h2
      exact hne (hdist hc a.1 a.2 a'.1 a'.2 x (FMap.mem_entries.mp ha') (FMap.mem_entries.mp hb') h1 h2))
    (init_spec hn hL hlay (mkE := mkE) (clean := clean) (finalOnly := finalOnly) (rc := rc.name) h0)
  exact ⟨b, bind_ok.mpr ⟨b0, h0, bind_ok.mpr ⟨rc, FMap.atKey_of_find hrc', h⟩⟩⟩

end GenDB
end Verif
