import Verif.Lemmas.GenDBSample
/-!
When the items of a relation are found.
-/
namespace Verif
namespace GenDB
open PClean
variable {V : Type} {F : Family V} {s : PClean.Schema} {hash : String → Int}

theorem Full.next {e : Ents} {c : String} {i : Int} (h : Full s e c i) {f d : String} {v : Int} (hr : Refers s c f d) (hv : HasRef e c f i v) : Full s e d v := by
  obtain ⟨w, hw, hf⟩ := full_iff.mp h f d hr
  have := hw.fun hv
  subst this
  exact hf

theorem Full.uses {e : Ents} {c d : String} {i v : Int} (h : Full s e c i) (hu : Uses s e c i d v) : Full s e d v := by
  induction hu with
  | self => exact h
  | step _ h2 h3 ih => exact ih.next h2 h3

theorem itemsLoop_defined {ds : List String} {E : Nat → String → Nat → Prop} (hE : TreeIdx s ds E) {a : Nat} {c : String} (hc : ds[a]? = some c) {i : Int} {e : Ents}
    (hf : Full s e c i) {rec : Nat → Int → Items → Res Items}
    (hrec : ∀ j v items d, j < a → ds[j]? = some d → Full s e d v → items.length = ds.length → ∃ items', rec j v items = .ok items' ∧ items'.length = ds.length)
    {l : List (String × Nat)} (hl : ∀ f j, (f, j) ∈ l → E a f j) {items : Items} (hi : items.length = ds.length) :
    ∃ items', itemsLoop rec e c i l items = .ok items' ∧ items'.length = ds.length := by
  induction l generalizing items with
  | nil => exact ⟨items, rfl, hi⟩
  | cons x l ih =>
    obtain ⟨f, j⟩ := x
    obtain ⟨hlt, x, d, hx, hd, hr⟩ := hE.sound _ _ _ (hl f j (List.mem_cons_self ..))
    rw [hc] at hx
    cases hx
    obtain ⟨v, hv, hfv⟩ := full_iff.mp hf f d hr
    obtain ⟨items₁, h1, h2⟩ := hrec j v items d hlt hd hfv hi
    obtain ⟨items₂, h3, h4⟩ := ih (fun f j h => hl f j (List.mem_cons_of_mem _ h)) h2
    refine ⟨items₂, ?_, h4⟩
    unfold itemsLoop
    exact bind_ok.mpr ⟨v, getRef_ok.mpr hv, bind_ok.mpr ⟨items₁, h1, h3⟩⟩

/-- `get_relation_items` succeeds if all references are there. -/
theorem relationItems_defined {rels : Schema F} {relIdx : FMap String RefIdx} {rel : String} {spec : RelSpec F} (hs : rels.find? rel = some spec)
    (hE : TreeIdx s spec.doms (RelEntry relIdx rel)) {e : Ents} (n : Nat) : ∀ a i items c, a < n → spec.doms[a]? = some c → Full s e c i →
    items.length = spec.doms.length → ∃ items', relationItems rels relIdx rel e n a i items = .ok items' ∧ items'.length = spec.doms.length := by
  induction n with
  | zero => intro a i items c h; omega
  | succ n ih =>
    intro a i items c ha hc hf hi
    have hlt := (List.getElem?_eq_some_iff.mp hc).1
    have h1 : setItem items a i = .ok (items.set a i) := by
      unfold setItem; rw [if_pos (by omega)]
    have h2 : (items.set a i).length = spec.doms.length := by rw [List.length_set, hi]
    unfold relationItems
    rw [FMap.atKey_of_find hs]
    cases hm : refsAt relIdx rel a with
    | none =>
      refine ⟨_, bind_ok.mpr ⟨spec, rfl, bind_ok.mpr ⟨_, h1, rfl⟩⟩, h2⟩
    | some m =>
      obtain ⟨items', k1, k2⟩ := itemsLoop_defined (rec := relationItems rels relIdx rel e n) hE hc hf
        (fun j v items d hj hd hf hi => ih j v items d (by omega) hd hf hi) (l := m.entries) (fun f j h => (mem_of_relEntry hm).mpr h) h2
      exact ⟨items', bind_ok.mpr ⟨spec, rfl, bind_ok.mpr ⟨_, h1, bind_ok.mpr ⟨c, atR_ok.mpr hc, k1⟩⟩⟩, k2⟩

theorem ensureUnique_okOr (hcl : Closed s) {ds : List String} {c f : String} {i : Int} {j : Nat} {e : Ents} (he : EntsOk s hash e) {d : String} (hd : ds[j]? = some d)
    (hr : Refers s c f d) : OkOr s hash c i e (ensureUnique hash ds c f i j e) := by
  have hc : ∃ cl, s.classes.find? c = some cl := by obtain ⟨cl, h, _⟩ := hr; exact ⟨cl, h⟩
  obtain ⟨cl, hc⟩ := hc
  obtain ⟨cl', hd'⟩ := hcl c f d hr
  obtain ⟨⟨m, hm⟩, _⟩ := he.cls c cl hc
  obtain ⟨_, crp, hcrp⟩ := he.cls d cl' hd'
  unfold ensureUnique
  refine OkOr.bind (.of (FMap.atKey_of_find hm)) ?_
  intro m' hm'
  rw [FMap.atKey_of_find hm] at hm'
  cases hm'
  split
  · exact .ok
  · rename_i hno
    refine OkOr.bind (.of (atR_ok.mpr hd)) ?_
    intro d' hd'
    rw [atR_ok.mpr hd] at hd'
    cases hd'
    refine OkOr.bind (.of (FMap.atKey_of_find hcrp)) ?_
    intro crp' _
    exact addRef_okOr he hcl _ hr (not_hasRef hm hno)

theorem ensureUnique_hasRef {ds : List String} {c f : String} {i : Int} {j : Nat} {e e' : Ents} (h : ensureUnique hash ds c f i j e = .ok e') :
    ∃ v, HasRef e' c f i v := by
  unfold ensureUnique at h
  rw [bind_ok] at h
  obtain ⟨m, h1, h2⟩ := h
  split at h2
  · rename_i hc
    cases h2
    obtain ⟨v, hv⟩ := FMap.contains_iff.mp hc
    exact ⟨v, m, FMap.atKey_ok.mp h1, hv⟩
  · simp only [bind_ok] at h2
    obtain ⟨d, h3, crp, h4, h5⟩ := h2
    exact ⟨_, (addRef_hasRef h5 c f i _).mpr (by rw [if_pos ⟨rfl, rfl, rfl⟩])⟩

theorem Grow.from {c : String} {i : Int} {e e' : Ents} (h : Grow s hash (FromNew s c i) e e') : Grow s hash (From s c i) e e' :=
  h.mono (fun _ _ _ _ _ _ _ hp => hp.1)

theorem uniqueLoop_okOr (hcl : Closed s) {ds : List String} {E : Nat → String → Nat → Prop} (hE : TreeIdx s ds E) {a : Nat} {c : String} (hc : ds[a]? = some c)
    {i : Int} {rec : Nat → Int → Items → Ents → Res (Items × Ents)}
    (hspec : ∀ j v items e items' e', rec j v items e = .ok (items', e') → ∀ d, ds[j]? = some d → Grow s hash (FromNew s d v) e e' ∧ items'.length = items.length)
    (hrec : ∀ j v items e d, j < a → ds[j]? = some d → items.length = ds.length → EntsOk s hash e → OkOr s hash d v e (rec j v items e))
    {l : List (String × Nat)} (hl : ∀ f j, (f, j) ∈ l → E a f j) {items : Items} {e : Ents} (hi : items.length = ds.length) (he : EntsOk s hash e) :
    OkOr s hash c i e (uniqueLoop rec hash ds c i l items e) := by
  induction l generalizing items e with
  | nil => exact .ok
  | cons x l ih =>
    obtain ⟨f, j⟩ := x
    obtain ⟨hlt, x, d, hx, hd, hr⟩ := hE.sound _ _ _ (hl f j (List.mem_cons_self ..))
    rw [hc] at hx
    cases hx
    unfold uniqueLoop
    refine OkOr.bind (ensureUnique_okOr hcl he hd hr) ?_
    intro e₁ h1
    have g1 := (ensureUnique_spec (s := s) hd hr h1).from
    obtain ⟨v, hv⟩ := ensureUnique_hasRef h1
    refine OkOr.grow g1 ?_
    refine OkOr.bind (.of (getRef_ok.mpr hv)) ?_
    intro v' hv'
    rw [getRef_ok.mpr hv] at hv'
    cases hv'
    refine OkOr.bind ((hrec j v items e₁ d hlt hd hi (g1.ok he)).root (.step .self hr hv)) ?_
    rintro ⟨items₂, e₂⟩ h2
    obtain ⟨g2, l2⟩ := hspec _ _ _ _ _ _ h2 d hd
    have g2' := g2.from.mono (Q := From s c i) (fun e' _ _ _ _ _ hx' hp => hp.root (.step .self hr hv) hx')
    exact OkOr.grow g2' (ih (fun f j h => hl f j (List.mem_cons_of_mem _ h)) (l2.trans hi) (g2'.ok (g1.ok he)))

/-- `get_unique_entities_relation` succeeds unless there is a clash of identifiers. -/
theorem uniqueItems_okOr (hcl : Closed s) {rels : Schema F} {relIdx : FMap String RefIdx} {rel : String} {spec : RelSpec F} (hs : rels.find? rel = some spec)
    (hE : TreeIdx s spec.doms (RelEntry relIdx rel)) (n : Nat) : ∀ a i items e c, a < n → spec.doms[a]? = some c → items.length = spec.doms.length →
    EntsOk s hash e → OkOr s hash c i e (uniqueItems hash rels relIdx rel n a i items e) := by
  induction n with
  | zero => intro a i items e c h; omega
  | succ n ih =>
    intro a i items e c ha hc hi he
    have hlt := (List.getElem?_eq_some_iff.mp hc).1
    have h1 : setItem items a i = .ok (items.set a i) := by
      unfold setItem; rw [if_pos (by omega)]
    have h2 : (items.set a i).length = spec.doms.length := by rw [List.length_set, hi]
    unfold uniqueItems
    rw [FMap.atKey_of_find hs, h1]
    change OkOr s hash c i e (match refsAt relIdx rel a with
      | none => .ok (items.set a i, e)
      | some m => idxR spec.doms a >>= fun c => uniqueLoop (uniqueItems hash rels relIdx rel n) hash spec.doms c i m.entries (items.set a i) e)
    cases hm : refsAt relIdx rel a with
    | none => exact .ok
    | some m =>
      refine OkOr.bind (.of (idxR_ok.mpr hc)) ?_
      intro c' hc'
      rw [idxR_ok.mpr hc] at hc'
      cases hc'
      refine uniqueLoop_okOr hcl hE hc ?_ ?_ (fun f j h => (mem_of_relEntry hm).mpr h) h2 he
      · intro j v items e items' e' h d hd
        obtain ⟨g, f⟩ := uniqueItems_spec hs hE n j v items e items' e' h d hd
        exact ⟨g, f.len⟩
      · intro j v items e d hj hd hi he
        exact ih j v items e d (by omega) hd hi he

/-- The indices have all references of the entity at a position and of those that are reached from it. -/
def Covers (s : PClean.Schema) (ds : List String) (E : Nat → String → Nat → Prop) (b : Nat) : Prop :=
  ∃ S : Nat → Prop, S b ∧ ∀ a c, S a → ds[a]? = some c → ∀ f d, Refers s c f d → ∃ j, E a f j ∧ S j

theorem Filled.full {e : Ents} {ds : List String} {E : Nat → String → Nat → Prop} (hE : TreeIdx s ds E) {a : Nat} {i : Int} {items items' : Items}
    (h : Filled e ds E a i items items') {b : Nat} {w : Int} (hb : Reach e ds E a i b w) {c : String} (hc : ds[b]? = some c) (hcov : Covers s ds E b) :
    Full s e c w := by
  obtain ⟨S, hS, hcov⟩ := hcov
  have key : ∀ {d v}, Uses s e c w d v → ∃ b', S b' ∧ ds[b']? = some d ∧ Reach e ds E a i b' v := by
    intro d v hu
    induction hu with
    | self => exact ⟨b, hS, hc, hb⟩
    | @step d v f d' v' _ h2 h3 ih =>
      obtain ⟨b', k1, k2, k3⟩ := ih
      obtain ⟨j, q1, q2⟩ := hcov b' d k1 k2 f d' h2
      obtain ⟨_, x, y, r1, r2, r3⟩ := hE.sound _ _ _ q1
      rw [k2] at r1
      cases r1
      have := refers_fun r3 h2
      subst this
      exact ⟨j, q2, r2, .step k3 q1 k2 h3⟩
  intro d v f d' hu hr
  obtain ⟨b', k1, k2, k3⟩ := key hu
  obtain ⟨j, q1, q2⟩ := hcov b' d k1 k2 f d' hr
  obtain ⟨x, v', r1, r2⟩ := h.all b' v f j k3 q1
  rw [k2] at r1
  cases r1
  exact ⟨v', r2⟩

end GenDB
end Verif
