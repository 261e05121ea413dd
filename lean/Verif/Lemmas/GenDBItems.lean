import Verif.Lemmas.GenDBEnts
/-!
Lemmas about the items that `get_unique_entities_relation` and `get_relation_items` find.
-/
namespace Verif
namespace GenDB
open PClean

section
variable {s : PClean.Schema} {e e' : Ents} {ds : List String} {E : Nat → String → Nat → Prop} {a : Nat} {i : Int}

/-- The first reference on the way. -/
theorem Reach.head {b : Nat} {w : Int} (h : Reach e ds E a i b w) : (b = a ∧ w = i) ∨ ∃ c f j v, ds[a]? = some c ∧ E a f j ∧ HasRef e c f i v ∧ Reach e ds E j v b w := by
  induction h with
  | self => exact Or.inl ⟨rfl, rfl⟩
  | step h1 h2 h3 h4 ih =>
    rcases ih with ⟨rfl, rfl⟩ | ⟨c, f, j, v, k1, k2, k3, k4⟩
    · exact Or.inr ⟨_, _, _, _, h3, h2, h4, .self⟩
    · exact Or.inr ⟨c, f, j, v, k1, k2, k3, .step k4 h2 h3 h4⟩

/-- What is reached was reached before, if all references were there. -/
theorem Reach.back (hx : Extends e e') (hall : ∀ b v f b', Reach e ds E a i b v → E b f b' → ∃ c v', ds[b]? = some c ∧ HasRef e c f v v') {b : Nat} {w : Int}
    (h : Reach e' ds E a i b w) : Reach e ds E a i b w := by
  induction h with
  | self => exact .self
  | step _ h2 h3 h4 ih =>
    obtain ⟨c, v', k1, k2⟩ := hall _ _ _ _ ih h2
    rw [h3] at k1
    cases k1
    have := (hx _ _ _ _ k2).fun h4
    subst this
    exact .step ih h2 h3 k2

/-- What the loops over the references of an entity leave in the items. -/
structure LoopFilled (e : Ents) (ds : List String) (E : Nat → String → Nat → Prop) (a : Nat) (c : String) (i : Int) (l : List (String × Nat))
    (items items' : Items) : Prop where
  len : items'.length = items.length
  same : ∀ b, items'[b]? = items[b]? ∨ ∃ w, items'[b]? = some w ∧ Reach e ds E a i b w
  done : ∀ f j, (f, j) ∈ l → ∃ v, HasRef e c f i v ∧ (∀ b w, Reach e ds E j v b w → items'[b]? = some w) ∧
    ∀ b u f' b', Reach e ds E j v b u → E b f' b' → ∃ x u', ds[b]? = some x ∧ HasRef e x f' u u'

theorem LoopFilled.nil {c : String} (items : Items) : LoopFilled e ds E a c i [] items items :=
  ⟨rfl, fun _ => Or.inl rfl, fun f j h => by cases h⟩

theorem LoopFilled.cons (hE : TreeIdx s ds E) {c f : String} {j : Nat} {v : Int} {l : List (String × Nat)} {items items₁ items' : Items} (hc : ds[a]? = some c)
    (he : E a f j) (hv : HasRef e c f i v) (h1 : Filled e ds E j v items items₁) (hx : Extends e e') (h2 : LoopFilled e' ds E a c i l items₁ items') :
    LoopFilled e' ds E a c i ((f, j) :: l) items items' := by
  have hroot : Reach e' ds E a i j v := .step .self he hc (hx _ _ _ _ hv)
  have hset : ∀ b w, Reach e' ds E j v b w → items'[b]? = some w := by
    intro b w hr
    have h := h1.set b w (hr.back hx h1.all)
    rcases h2.same b with hs | ⟨w', hs, hr'⟩
    · rw [hs, h]
    · rw [hs, (hroot.trans hr).fun hE hr']
  refine ⟨h2.len.trans h1.len, ?_, ?_⟩
  · intro b
    rcases h2.same b with hs | hs
    · rcases h1.same b with hs' | ⟨w, hs', hr⟩
      · exact Or.inl (hs.trans hs')
      · exact Or.inr ⟨w, hs.trans hs', hroot.trans (hr.mono hx)⟩
    · exact Or.inr hs
  · intro f' j' hm
    rcases List.mem_cons.mp hm with h | h
    · cases h
      refine ⟨v, hx _ _ _ _ hv, hset, ?_⟩
      intro b u f' b' hr hE'
      obtain ⟨x, u', k1, k2⟩ := h1.all b u f' b' (hr.back hx h1.all) hE'
      exact ⟨x, u', k1, hx _ _ _ _ k2⟩
    · exact h2.done f' j' h

theorem LoopFilled.filled (hE : TreeIdx s ds E) {c : String} {l : List (String × Nat)} {items items' : Items} (hc : ds[a]? = some c) (ha : a < items.length)
    (hl : ∀ f j, E a f j → (f, j) ∈ l) (h : LoopFilled e ds E a c i l (items.set a i) items') : Filled e ds E a i items items' := by
  refine ⟨by rw [h.len, List.length_set], ?_, ?_, ?_⟩
  · intro b
    rcases h.same b with hs | hs
    · by_cases hb : b = a
      · subst hb
        exact Or.inr ⟨i, by rw [hs]; simp [ha], .self⟩
      · left
        rw [hs, List.getElem?_set_ne (fun h => hb h.symm)]
    · exact Or.inr hs
  · intro b w hr
    rcases hr.head with ⟨rfl, rfl⟩ | ⟨c', f, j, v, k1, k2, k3, k4⟩
    · rcases h.same b with hs | ⟨w', hs, hr'⟩
      · rw [hs]; simp [ha]
      · rw [hs, hr.fun hE hr']
    · rw [hc] at k1
      cases k1
      obtain ⟨v', q1, q2, _⟩ := h.done f j (hl f j k2)
      have := q1.fun k3
      subst this
      exact q2 b w k4
  · intro b u f b' hr hE'
    rcases hr.head with ⟨rfl, rfl⟩ | ⟨c', f', j, v, k1, k2, k3, k4⟩
    · obtain ⟨v', q1, _, _⟩ := h.done f b' (hl f b' hE')
      exact ⟨c, v', hc, q1⟩
    · rw [hc] at k1
      cases k1
      obtain ⟨v', q1, _, q3⟩ := h.done f' j (hl f' j k2)
      have := q1.fun k3
      subst this
      exact q3 b u f b' k4 hE'

end

variable {V : Type} {F : Family V} {s : PClean.Schema} {hash : String → Int}

theorem atR_ok {α : Type _} {l : List α} {i : Nat} {a : α} : atR l i = .ok a ↔ l[i]? = some a := by
  unfold atR
  split <;> simp_all

theorem idxR_ok {α : Type _} {l : List α} {i : Nat} {a : α} : idxR l i = .ok a ↔ l[i]? = some a := by
  unfold idxR
  split <;> simp_all

theorem ensureUnique_spec {ds : List String} {c f : String} {i : Int} {j : Nat} {e e' : Ents} {d : String} (hd : ds[j]? = some d) (hr : Refers s c f d)
    (h : ensureUnique hash ds c f i j e = .ok e') : Grow s hash (FromNew s c i) e e' := by
  unfold ensureUnique at h
  rw [bind_ok] at h
  obtain ⟨m, h1, h2⟩ := h
  have h1 := FMap.atKey_ok.mp h1
  split at h2
  · cases h2
    exact .refl
  · rename_i hno
    simp only [bind_ok] at h2
    obtain ⟨d', h3, crp, h4, h5⟩ := h2
    have h3 := atR_ok.mp h3
    rw [hd] at h3
    cases h3
    refine .single hr ?_ ⟨.self, crp, FMap.atKey_ok.mp h4, rfl⟩ h5
    rintro w ⟨m', k1, k2⟩
    rw [h1] at k1
    cases k1
    exact hno (FMap.contains_iff.mpr ⟨w, k2⟩)

theorem uniqueLoop_spec {ds : List String} {E : Nat → String → Nat → Prop} (hE : TreeIdx s ds E) {a : Nat} {c : String} (hc : ds[a]? = some c) {i : Int}
    {rec : Nat → Int → Items → Ents → Res (Items × Ents)}
    (hrec : ∀ j v items e items' e', rec j v items e = .ok (items', e') → ∀ d, ds[j]? = some d →
      Grow s hash (FromNew s d v) e e' ∧ Filled e' ds E j v items items')
    {l : List (String × Nat)} (hl : ∀ f j, (f, j) ∈ l → E a f j) {items : Items} {e : Ents} {items' : Items} {e' : Ents}
    (h : uniqueLoop rec hash ds c i l items e = .ok (items', e')) : Grow s hash (FromNew s c i) e e' ∧ LoopFilled e' ds E a c i l items items' := by
  induction l generalizing items e with
  | nil =>
    cases h
    exact ⟨.refl, .nil _⟩
  | cons x l ih =>
    obtain ⟨f, j⟩ := x
    unfold uniqueLoop at h
    simp only [bind_ok] at h
    obtain ⟨e₁, h1, v, h2, ⟨items₂, e₂⟩, h3, h4⟩ := h
    have he := hl f j (List.mem_cons_self ..)
    obtain ⟨_, x, d, hx, hd, hr⟩ := hE.sound _ _ _ he
    rw [hc] at hx
    cases hx
    have g1 := ensureUnique_spec (s := s) hd hr h1
    have hv := getRef_ok.mp h2
    obtain ⟨g2, f2⟩ := hrec _ _ _ _ _ _ h3 d hd
    obtain ⟨g3, f3⟩ := ih (fun f j h => hl f j (List.mem_cons_of_mem _ h)) h4
    have g2' : Grow s hash (FromNew s c i) e₁ e₂ := g2.mono (fun e' _ _ _ _ _ hx' hp => hp.root (.step .self hr hv) hx')
    exact ⟨(g1.trans g2').trans g3, LoopFilled.cons hE hc he (g2.extends _ _ _ _ hv) f2 g3.extends f3⟩

theorem mem_of_relEntry {relIdx : FMap String RefIdx} {rel : String} {a : Nat} {m : FMap String Nat} (hm : refsAt relIdx rel a = some m) {f : String} {j : Nat} :
    RelEntry relIdx rel a f j ↔ (f, j) ∈ m.entries := by
  rw [relEntry_iff, hm, FMap.mem_entries]
  simp

theorem no_relEntry {relIdx : FMap String RefIdx} {rel : String} {a : Nat} (hm : refsAt relIdx rel a = none) {f : String} {j : Nat} :
    ¬ RelEntry relIdx rel a f j := by
  rw [relEntry_iff, hm]
  simp

/-- What `get_unique_entities_relation` does. -/
theorem uniqueItems_spec {rels : Schema F} {relIdx : FMap String RefIdx} {rel : String} {spec : RelSpec F} (hs : rels.find? rel = some spec)
    (hE : TreeIdx s spec.doms (RelEntry relIdx rel)) (n : Nat) : ∀ a i items e items' e', uniqueItems hash rels relIdx rel n a i items e = .ok (items', e') →
    ∀ c, spec.doms[a]? = some c → Grow s hash (FromNew s c i) e e' ∧ Filled e' spec.doms (RelEntry relIdx rel) a i items items' := by
  induction n with
  | zero => intro a i items e items' e' h; cases h
  | succ n ih =>
    intro a i items e items' e' h c hc
    unfold uniqueItems at h
    rw [FMap.atKey_of_find hs] at h
    simp only [bind_ok] at h
    obtain ⟨spec', h0, items₁, h1, h2⟩ := h
    cases h0
    obtain ⟨ha, rfl⟩ := setItem_ok h1
    split at h2
    · rename_i hm
      cases h2
      exact ⟨.refl, (LoopFilled.nil (c := c) _).filled hE hc ha (fun f j h => absurd h (no_relEntry hm))⟩
    · rename_i m hm
      rw [bind_ok] at h2
      obtain ⟨c', h3, h4⟩ := h2
      have h3 := idxR_ok.mp h3
      rw [hc] at h3
      cases h3
      obtain ⟨g, f⟩ := uniqueLoop_spec hE hc ih (fun f j h => (mem_of_relEntry hm).mpr h) h4
      exact ⟨g, f.filled hE hc ha (fun f j h => (mem_of_relEntry hm).mp h)⟩

theorem itemsLoop_spec {ds : List String} {E : Nat → String → Nat → Prop} (hE : TreeIdx s ds E) {a : Nat} {c : String} (hc : ds[a]? = some c) {i : Int} {e : Ents}
    {rec : Nat → Int → Items → Res Items}
    (hrec : ∀ j v items items', rec j v items = .ok items' → ∀ d, ds[j]? = some d → Filled e ds E j v items items')
    {l : List (String × Nat)} (hl : ∀ f j, (f, j) ∈ l → E a f j) {items items' : Items} (h : itemsLoop rec e c i l items = .ok items') :
    LoopFilled e ds E a c i l items items' := by
  induction l generalizing items with
  | nil =>
    cases h
    exact .nil _
  | cons x l ih =>
    obtain ⟨f, j⟩ := x
    unfold itemsLoop at h
    simp only [bind_ok] at h
    obtain ⟨v, h2, items₂, h3, h4⟩ := h
    have he := hl f j (List.mem_cons_self ..)
    obtain ⟨_, x, d, hx, hd, hr⟩ := hE.sound _ _ _ he
    rw [hc] at hx
    cases hx
    exact LoopFilled.cons hE hc he (getRef_ok.mp h2) (hrec _ _ _ _ h3 d hd) (Extends.refl _) (ih (fun f j h => hl f j (List.mem_cons_of_mem _ h)) h4)

/-- What `get_relation_items` does. -/
theorem relationItems_spec {rels : Schema F} {relIdx : FMap String RefIdx} {rel : String} {spec : RelSpec F} (hs : rels.find? rel = some spec)
    (hE : TreeIdx s spec.doms (RelEntry relIdx rel)) {e : Ents} (n : Nat) : ∀ a i items items', relationItems rels relIdx rel e n a i items = .ok items' →
    ∀ c, spec.doms[a]? = some c → Filled e spec.doms (RelEntry relIdx rel) a i items items' := by
  induction n with
  | zero => intro a i items items' h; cases h
  | succ n ih =>
    intro a i items items' h c hc
    unfold relationItems at h
    rw [FMap.atKey_of_find hs] at h
    simp only [bind_ok] at h
    obtain ⟨spec', h0, items₁, h1, h2⟩ := h
    cases h0
    obtain ⟨ha, rfl⟩ := setItem_ok h1
    split at h2
    · rename_i hm
      cases h2
      exact (LoopFilled.nil (c := c) _).filled hE hc ha (fun f j h => absurd h (no_relEntry hm))
    · rename_i m hm
      rw [bind_ok] at h2
      obtain ⟨c', h3, h4⟩ := h2
      have h3 := atR_ok.mp h3
      rw [hc] at h3
      cases h3
      exact (itemsLoop_spec hE hc ih (fun f j h => (mem_of_relEntry hm).mpr h) h4).filled hE hc ha (fun f j h => (mem_of_relEntry hm).mp h)

end GenDB
end Verif
