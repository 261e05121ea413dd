import Verif.Lemmas.ToldHosts
/-!
Clusters that are loaded: `from_txt` puts the listed entities where the file says, and reading observations moves nobody.
-/
namespace Verif
noncomputable section
variable {V : Type} {F : Family V}
open UtilIO

theorem TidyDom.grow {d : String} {dom dom' : Domain} {i table : Int} {t t' : Tape} (h : TidyDom d dom) (hc : dom.incorporate i t table = .ok (dom', t')) :
    (∀ j c, dom.crp.assignments.find? j = some c → dom'.crp.assignments.find? j = some c) ∧
    (∀ j c, dom'.crp.assignments.find? j = some c → dom.crp.assignments.find? j = some c ∨ j = i) ∧
    (0 ≤ table → ∀ j c, dom'.crp.assignments.find? j = some c ↔ dom.crp.assignments.find? j = some c ∨ j = i ∧ c = table) := by
  cases hi : dom.items.contains i with
  | true =>
    by_cases e : table = -1
    · subst e
      rw [Domain.incorporate_present hi] at hc; cases hc
      exact ⟨fun _ _ h => h, fun _ _ h => .inl h, fun h => by omega⟩
    · rw [Domain.incorporate_present_table hi t e] at hc; cases hc
  | false =>
    rw [Domain.incorporate_new h.2.1 hi] at hc
    cases hc
    have hno : ∀ c, dom.crp.assignments.find? i ≠ some c := by
      intro c hc
      rw [h.2.1.mem.mpr ⟨c, hc⟩] at hi; cases hi
    refine ⟨fun j c hj => ?_, fun j c hj => ?_, fun h0 j c => ?_⟩
    · show (dom.crp.assignments.set i _).find? j = _
      rw [FMap.find?_set_ne _ (by rintro rfl; exact hno c hj)]
      exact hj
    · replace hj : (dom.crp.assignments.set i _).find? j = some c := hj
      rw [FMap.find?_set] at hj
      split at hj
      · rename_i e; exact .inr e
      · exact .inl hj
    · have hch : (dom.chosenTable t table).1 = table := by unfold Domain.chosenTable; rw [if_pos h0]
      show (dom.crp.assignments.set i (dom.chosenTable t table).1).find? j = some c ↔ _
      rw [hch, FMap.find?_set]
      split
      · rename_i e
        subst e
        constructor
        · intro hc; cases hc; exact .inr ⟨rfl, rfl⟩
        · rintro (hc | ⟨_, rfl⟩)
          · exact absurd hc (hno c)
          · rfl
      · rename_i e
        exact ⟨.inl, fun h => h.elim id (fun h => absurd h.1 e)⟩

/-- nobody moves, and who is new is in `Q` -/
structure Joins (Q : String → Int → Prop) (σ σ' : Doms) : Prop where
  old : ∀ d c i, InCluster σ d c i → InCluster σ' d c i
  new : ∀ d c i, InCluster σ' d c i → InCluster σ d c i ∨ Q d i

theorem Joins.refl (Q : String → Int → Prop) (σ : Doms) : Joins Q σ σ := ⟨fun _ _ _ h => h, fun _ _ _ h => .inl h⟩

theorem Joins.trans {Q : String → Int → Prop} {σ σ₁ σ₂ : Doms} (h : Joins Q σ σ₁) (h' : Joins Q σ₁ σ₂) : Joins Q σ σ₂ :=
  ⟨fun d c i hi => h'.old d c i (h.old d c i hi), fun d c i hi => (h'.new d c i hi).elim (h.new d c i) .inr⟩

theorem Joins.mono {Q Q' : String → Int → Prop} {σ σ' : Doms} (h : Joins Q σ σ') (hq : ∀ d i, Q d i → Q' d i) : Joins Q' σ σ' :=
  ⟨h.old, fun d c i hi => (h.new d c i hi).imp id (hq d i)⟩

theorem inCluster_set {σ : Doms} {d : String} {dom : Domain} {d' : String} {c i : Int} :
    InCluster (σ.set d dom) d' c i ↔ (d' = d ∧ dom.crp.assignments.find? i = some c) ∨ (d' ≠ d ∧ InCluster σ d' c i) := by
  unfold InCluster
  rw [FMap.find?_set]
  split
  · rename_i e
    simp [e]
  · rename_i e
    simp [e]

theorem Joins.set {Q : String → Int → Prop} {σ : Doms} {d : String} {dom dom' : Domain} (hd : σ.find? d = some dom)
    (h1 : ∀ j c, dom.crp.assignments.find? j = some c → dom'.crp.assignments.find? j = some c)
    (h2 : ∀ j c, dom'.crp.assignments.find? j = some c → dom.crp.assignments.find? j = some c ∨ Q d j) : Joins Q σ (σ.set d dom') := by
  refine ⟨fun d' c i hi => ?_, fun d' c i hi => ?_⟩
  · rw [inCluster_set]
    by_cases e : d' = d
    · subst e
      obtain ⟨dom₁, k1, k2⟩ := hi
      rw [hd] at k1; cases k1
      exact .inl ⟨rfl, h1 _ _ k2⟩
    · exact .inr ⟨e, hi⟩
  · rcases inCluster_set.mp hi with ⟨rfl, hj⟩ | ⟨_, hi⟩
    · exact (h2 _ _ hj).imp (fun h => ⟨dom, hd, h⟩) id
    · exact .inl hi

theorem CleanRel.incLoop_joins {items : Items} : ∀ (ds : List String) (is : Items) (σ : Doms) (m : RevIndex) (t : Tape)
    (x : Doms × RevIndex × Tape), DomAll TidyDom σ → CleanRel.incLoop items ds is σ m t = .ok x → Joins (fun d i => Uses ds d i is) σ x.1 := by
  intro ds
  induction ds with
  | nil => intro is σ m t x _ hc; cases hc; exact .refl _ _
  | cons d ds ih =>
    intro is σ m t x h hc
    cases is with
    | nil => cases hc
    | cons i is =>
      obtain ⟨dom, h1, h2⟩ := bind_ok.mp hc
      obtain ⟨⟨dom', t1⟩, h3, h4⟩ := bind_ok.mp h2
      obtain ⟨m', _, h6⟩ := bind_ok.mp h4
      have hd := Doms.get_ok h1
      have ht := h d dom hd
      obtain ⟨g1, g2, _⟩ := ht.grow h3
      refine (Joins.set hd g1 (fun j c hj => (g2 j c hj).imp id ?_)).trans
        ((ih _ _ _ _ _ (h.set (tidyDom_closed.incorporate trivial ht h3)) h6).mono (fun d' i' hu => List.mem_cons_of_mem _ hu))
      rintro rfl
      exact List.mem_cons_self

theorem CleanRel.incorporate_joins {W : Type} {D : DistOps W} {σ : Doms} {r : CleanRel D} {items : Items} {v : W} {t : Tape}
    {x : Doms × CleanRel D × Tape} (h : DomAll TidyDom σ) (hc : CleanRel.incorporate σ r items v t = .ok x) : Joins (fun d i => Uses r.doms d i items) σ x.1 := by
  obtain ⟨y, h1, h2⟩ := bind_ok.mp hc
  obtain ⟨_, _, h3⟩ := bind_ok.mp h2
  obtain ⟨_, _, h4⟩ := bind_ok.mp h3
  cases h4
  obtain ⟨_, _, h1⟩ := bind_ok.mp h1
  obtain ⟨z, h2, h3⟩ := bind_ok.mp h1
  obtain ⟨_, _, h4⟩ := bind_ok.mp h3
  have := CleanRel.incLoop_joins _ _ _ _ _ _ h h2
  dsimp only at h4
  split at h4 <;> · cases h4; exact this

theorem Rel.incorporate_joins {σ : Doms} {b : Option (BaseView V)} {r : Rel F} {items : Items} {v : V} {t : Tape}
    {x : Doms × Rel F × Tape} (h : DomAll TidyDom σ) (hc : r.incorporate σ b items v t = .ok x) : Joins (fun d i => Uses r.inner d i items) σ x.1 := by
  cases r with
  | clean c r =>
    obtain ⟨y, h1, h2⟩ := bind_ok.mp hc
    cases h2
    exact CleanRel.incorporate_joins h h1
  | noisy e p r =>
    obtain ⟨_, _, h0⟩ := bind_ok.mp hc
    obtain ⟨y, h1, h2⟩ := bind_ok.mp h0
    cases h2
    obtain ⟨_, _, h3⟩ := bind_ok.mp h1
    obtain ⟨_, _, h4⟩ := bind_ok.mp h3
    obtain ⟨y, h5, h6⟩ := bind_ok.mp h4
    cases h6
    exact CleanRel.incorporate_joins h h5

theorem IRM.incorporate_joins {I I' : IRM F} (hd : DomAll TidyDom I.doms) (ht : I.Tidy) {env : Env V} {r : String} {items : Items} {v : V} {t t' : Tape}
    (hc : IRM.incorporate env I r items v t = .ok (I', t')) :
    ∃ spec, I.schema.find? r = some spec ∧ Joins (fun d i => Uses spec.doms d i items) I.doms I'.doms := by
  obtain ⟨⟨id, rel⟩, h1, h2⟩ := bind_ok.mp hc
  obtain ⟨⟨σ, rel', t1⟩, h4, h3⟩ := bind_ok.mp h2
  cases h3
  obtain ⟨a, spec, b, c⟩ := ht r _ (FMap.atKey_ok.mp h1)
  refine ⟨spec, b, ?_⟩
  have := Rel.incorporate_joins hd h4
  rw [a.inner, c] at this
  exact this

/-! ### The clusters of the file -/

namespace UtilIO

theorem code_of {enc : Encoding} {d item : String} {m : FMap String Int} {c : Int} (h1 : enc.fwd.atKey d = .ok m) (h2 : m.atKey item = .ok c) :
    Encoding.code enc d item = some c := by
  unfold Encoding.code
  rw [FMap.atKey_ok.mp h1]
  exact FMap.atKey_ok.mp h2

theorem seatItems_exact {enc : Encoding} {d : String} {table : Int} (h0 : 0 ≤ table) : ∀ (l : List String) (σ : Doms) (t : Tape) (x : Doms × Tape),
    DomAll TidyDom σ → seatItems enc.fwd d table l σ t = .ok x → DomAll TidyDom x.1 ∧
      (∀ d' c i, InCluster x.1 d' c i ↔ InCluster σ d' c i ∨ d' = d ∧ c = table ∧ ∃ item ∈ l, Encoding.code enc d item = some i) ∧
      ∀ item ∈ l, ∃ i, Encoding.code enc d item = some i := by
  intro l
  induction l with
  | nil => intro σ t x h hc; cases hc; exact ⟨h, fun d' c i => by simp, by simp⟩
  | cons item l ih =>
    intro σ t x h hc
    obtain ⟨m, h1, hc⟩ := bind_ok.mp hc
    obtain ⟨c₀, h2, hc⟩ := bind_ok.mp hc
    obtain ⟨dom, h3, hc⟩ := bind_ok.mp hc
    obtain ⟨⟨dom', t'⟩, h4, hc⟩ := bind_ok.mp hc
    have hd := FMap.atKey_ok.mp h3
    have ht := h d dom hd
    have hcode := code_of h1 h2
    obtain ⟨a, b, e⟩ := ih _ _ _ (h.set ((show SeatedIn (fun _ _ => True) d dom from ⟨ht, fun _ _ => trivial⟩).place trivial h0 h4).1) hc
    refine ⟨a, fun d' c i => ?_, fun it hit => ?_⟩
    · rw [b, inCluster_set, (ht.grow h4).2.2 h0]
      simp only [List.mem_cons, exists_eq_or_imp, hcode, Option.some.injEq]
      constructor
      · rintro ((⟨rfl, h | ⟨rfl, rfl⟩⟩ | ⟨_, h⟩) | ⟨rfl, rfl, h⟩)
        · exact .inl ⟨dom, hd, h⟩
        · exact .inr ⟨rfl, rfl, .inl rfl⟩
        · exact .inl h
        · exact .inr ⟨rfl, rfl, .inr h⟩
      · rintro (h | ⟨rfl, rfl, rfl | h⟩)
        · by_cases e : d' = d
          · subst e
            obtain ⟨dom₁, k1, k2⟩ := h
            rw [hd] at k1; cases k1
            exact .inl (.inl ⟨rfl, .inl k2⟩)
          · exact .inl (.inr ⟨e, h⟩)
        · exact .inl (.inl ⟨rfl, .inr ⟨rfl, rfl⟩⟩)
        · exact .inr ⟨rfl, rfl, h⟩
    · rcases List.mem_cons.mp hit with rfl | hit
      · exact ⟨_, hcode⟩
      · exact e it hit

theorem seatTables_exact {enc : Encoding} {d : String} : ∀ (l : List (Int × List String)) (σ : Doms) (t : Tape) (x : Doms × Tape),
    DomAll TidyDom σ → seatTables enc.fwd d l σ t = .ok x → DomAll TidyDom x.1 ∧
      (∀ d' c i, InCluster x.1 d' c i ↔ InCluster σ d' c i ∨ d' = d ∧ ∃ items, (c, items) ∈ l ∧ ∃ item ∈ items, Encoding.code enc d item = some i) ∧
      ∀ c items, (c, items) ∈ l → ∀ item ∈ items, ∃ i, Encoding.code enc d item = some i := by
  intro l
  induction l with
  | nil => intro σ t x h hc; cases hc; exact ⟨h, fun d' c i => by simp, by simp⟩
  | cons e l ih =>
    obtain ⟨table, items⟩ := e
    intro σ t x h hc
    obtain ⟨_, h0, hc⟩ := bind_ok.mp hc
    obtain ⟨⟨σ', t'⟩, h1, hc⟩ := bind_ok.mp hc
    obtain ⟨a, b, e⟩ := seatItems_exact (of_decide_eq_true (assertR_ok.mp h0)) _ _ _ _ h h1
    obtain ⟨a', b', e'⟩ := ih _ _ _ a hc
    refine ⟨a', fun d' c i => ?_, fun c its hits item hitem => ?_⟩
    · rw [b', b]
      constructor
      · rintro ((h | ⟨rfl, rfl, h⟩) | ⟨rfl, its, h, h'⟩)
        · exact .inl h
        · exact .inr ⟨rfl, items, by simp, h⟩
        · exact .inr ⟨rfl, its, by simp [h], h'⟩
      · rintro (h | ⟨rfl, its, h, h'⟩)
        · exact .inl (.inl h)
        · rcases List.mem_cons.mp h with h | h
          · cases h
            exact .inl (.inr ⟨rfl, rfl, h'⟩)
          · exact .inr ⟨rfl, its, h, h'⟩
    · rcases List.mem_cons.mp hits with hits | hits
      · cases hits; exact e item hitem
      · exact e' c its hits item hitem

theorem seatClusters_exact {enc : Encoding} : ∀ (l : List (String × FMap Int (List String))) (σ : Doms) (t : Tape) (x : Doms × Tape),
    DomAll TidyDom σ → seatClusters enc.fwd l σ t = .ok x → DomAll TidyDom x.1 ∧
      (∀ d c i, InCluster x.1 d c i ↔ InCluster σ d c i ∨ ∃ tables items, (d, tables) ∈ l ∧ tables.find? c = some items ∧ ∃ item ∈ items, Encoding.code enc d item = some i) ∧
      ∀ d tables, (d, tables) ∈ l → ∀ c items, tables.find? c = some items → ∀ item ∈ items, ∃ i, Encoding.code enc d item = some i := by
  intro l
  induction l with
  | nil => intro σ t x h hc; cases hc; exact ⟨h, fun d' c i => by simp, by simp⟩
  | cons e l ih =>
    obtain ⟨d₀, tables⟩ := e
    intro σ t x h hc
    obtain ⟨_, _, hc⟩ := bind_ok.mp hc
    obtain ⟨_, _, hc⟩ := bind_ok.mp hc
    obtain ⟨⟨σ', t'⟩, h1, hc⟩ := bind_ok.mp hc
    obtain ⟨a, b, e⟩ := seatTables_exact _ _ _ _ h h1
    obtain ⟨a', b', e'⟩ := ih _ _ _ a hc
    refine ⟨a', fun d c i => ?_, fun d tbs htbs c items hits item hitem => ?_⟩
    · rw [b', b]
      constructor
      · rintro ((h | ⟨rfl, its, h, h'⟩) | ⟨tbs, its, h, h', h''⟩)
        · exact .inl h
        · exact .inr ⟨tables, its, by simp, FMap.mem_entries.mp h, h'⟩
        · exact .inr ⟨tbs, its, by simp [h], h', h''⟩
      · rintro (h | ⟨tbs, its, h, h', h''⟩)
        · exact .inl (.inl h)
        · rcases List.mem_cons.mp h with h | h
          · cases h
            exact .inl (.inr ⟨rfl, its, FMap.mem_entries.mpr h', h''⟩)
          · exact .inr ⟨tbs, its, h, h', h''⟩
    · rcases List.mem_cons.mp htbs with htbs | htbs
      · cases htbs; exact e c items (FMap.mem_entries.mpr hits) item hitem
      · exact e' d tbs htbs c items hits item hitem

theorem listed_iff {cl : Clusters} {d : String} {c : Int} {x : String} :
    x ∈ listed cl d c ↔ ∃ tables items, (d, tables) ∈ cl.entries ∧ tables.find? c = some items ∧ x ∈ items := by
  unfold listed
  constructor
  · intro h
    cases h1 : cl.find? d with
    | none => rw [h1] at h; cases h
    | some tables =>
      rw [h1] at h
      replace h : x ∈ (tables.find? c).getD [] := h
      cases h2 : tables.find? c with
      | none => rw [h2] at h; cases h
      | some items =>
        rw [h2] at h
        exact ⟨tables, items, FMap.mem_entries.mpr h1, h2, h⟩
  · rintro ⟨tables, items, h1, h2, h3⟩
    rw [FMap.mem_entries.mp h1]
    show x ∈ (tables.find? c).getD []
    rw [h2]
    exact h3

/-- The clusters of the file: the entities with the listed names, in the listed clusters, and nobody else. -/
def Placed (enc : Encoding) (cl : Clusters) (σ : Doms) : Prop :=
  (∀ d c x, x ∈ listed cl d c → ∃ i, Encoding.code enc d x = some i) ∧
  ∀ d c i, InCluster σ d c i ↔ ∃ x ∈ listed cl d c, Encoding.code enc d x = some i

theorem seatClusters_placed {enc : Encoding} {cl : Clusters} {σ : Doms} {t : Tape} {x : Doms × Tape} (h : DomAll (SeatedIn (fun _ _ => False)) σ)
    (hc : seatClusters enc.fwd cl.entries σ t = .ok x) : Placed enc cl x.1 := by
  obtain ⟨_, a, b⟩ := seatClusters_exact _ _ _ _ (fun d dom hd => (h d dom hd).1) hc
  refine ⟨fun d c x hx => ?_, fun d c i => ?_⟩
  · obtain ⟨tables, items, h1, h2, h3⟩ := listed_iff.mp hx
    exact b d tables h1 c items h2 x h3
  · rw [a]
    constructor
    · rintro (⟨dom, h1, h2⟩ | ⟨tables, items, h1, h2, x, h3, h4⟩)
      · exact ((h d dom h1).2 i ((h d dom h1).1.2.1.mem.mpr ⟨c, h2⟩)).elim
      · exact ⟨x, listed_iff.mpr ⟨tables, items, h1, h2, h3⟩, h4⟩
    · rintro ⟨x, hx, hi⟩
      obtain ⟨tables, items, h1, h2, h3⟩ := listed_iff.mp hx
      exact .inr ⟨tables, items, h1, h2, x, h3, hi⟩

end UtilIO
end
end Verif
