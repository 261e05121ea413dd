import Verif.Lemmas.GenDBLoad
import Verif.Lemmas.GenDBSame
import Verif.Spec.PCleanLib
import Verif.Lemmas.ClusterFileLoad
/-!
Lemmas about the rows of a data frame, and about the encoding for the output.
-/
namespace Verif
namespace GenDB
open PClean UtilIO
noncomputable section
variable {V : Type} {F : Family V} {L : FamilyLaws F}

theorem cell_ofList {df : DataFrame} {q : String} {i : Nat} {x : List Char} {col : List (List Char)} (hc : df.data.find? q.toList = some col) (hx : col[i]? = some x) :
    Cell df q i (String.ofList x) := ⟨col, hc, by rw [hx, String.toList_ofList]⟩

theorem ofList_ne {x : List Char} (h : x ≠ []) : String.ofList x ≠ "" := by
  intro he
  apply h
  have := congrArg String.toList he
  rwa [String.toList_ofList] at this

/-- The text of a cell of a query column, as `rowValues` reads it. -/
theorem cellValue_ok {D : DB F} {parse : F.C ⊕ F.E → String → Res V} {q : String} {rel : Rel F} {p : Ptr} (hg : D.H.getRelation q = .ok (p, rel)) {x : List Char}
    {v : V} (hp : ∀ c ∈ x, isPrint c = true) (hne : x ≠ []) (hv : parse rel.tag (String.ofList x) = .ok v) : D.cellValue parse q.toList x = .ok (some v) := by
  unfold DB.cellValue
  rw [if_neg (by cases x with | nil => exact absurd rfl hne | cons a l => simp), if_neg (by simpa using hp)]
  rw [String.ofList_toList, hg]
  show (parse rel.tag (String.ofList x) >>= fun v => Except.ok (some v)) = _
  rw [hv]
  rfl

theorem putCell_find {m : FMap String V} {q : String} {v : Option V} {q' : String} {w : V} (hm : m.find? q = none) :
    (DB.putCell m q v).find? q' = some w ↔ (q' = q ∧ v = some w) ∨ m.find? q' = some w := by
  cases v with
  | none => simp [DB.putCell]
  | some v =>
    unfold DB.putCell
    rw [FMap.find?_set]
    by_cases h : q' = q
    · subst h
      simp [hm]
    · simp [h]

/-- What `rowValues` makes of columns whose cells can be read; `g` are the values of the cells. -/
theorem rowValues_ok {D : DB F} {parse : F.C ⊕ F.E → String → Res V} {i : Nat} : ∀ {l : List (List Char × List (List Char))} {m : FMap String V},
    (l.map (·.1)).Nodup → (∀ q, q.toList ∈ l.map (·.1) → m.find? q = none) →
    (∀ col vals, (col, vals) ∈ l → D.schema.query.fields.contains (String.ofList col) = true → ∃ x v, vals[i]? = some x ∧ D.cellValue parse col x = .ok v) →
    ∃ m', D.rowValues parse i l m = .ok m' ∧ ∀ q v, m'.find? q = some v ↔ m.find? q = some v ∨
      ∃ vals x, (q.toList, vals) ∈ l ∧ D.schema.query.fields.contains q = true ∧ vals[i]? = some x ∧ D.cellValue parse q.toList x = .ok (some v) := by
  intro l
  induction l with
  | nil => intro m _ _ _; exact ⟨m, rfl, fun q v => by simp⟩
  | cons e l ih =>
    obtain ⟨col, vals⟩ := e
    intro m hnd hm hc
    have hnd' := List.nodup_cons.mp hnd
    unfold DB.rowValues
    by_cases hq : D.schema.query.fields.contains (String.ofList col) = true
    · obtain ⟨x, v, h1, h2⟩ := hc col vals (List.mem_cons_self ..) hq
      rw [if_neg (by simp [hq])]
      have h1' : idxR vals i = .ok x := idxR_ok.mpr h1
      rw [h1']
      change ∃ m', (D.cellValue parse col x >>= fun v => D.rowValues parse i l (DB.putCell m (String.ofList col) v)) = .ok m' ∧ _
      rw [h2]
      have hcol : m.find? (String.ofList col) = none := hm _ (by rw [String.toList_ofList]; exact List.mem_cons_self ..)
      obtain ⟨m', k1, k2⟩ := ih (m := DB.putCell m (String.ofList col) v) hnd'.2 (by
        intro q hq'
        cases hx : (DB.putCell m (String.ofList col) v).find? q with
        | none => rfl
        | some w =>
          rcases (putCell_find hcol).mp hx with ⟨rfl, _⟩ | h
          · rw [String.toList_ofList] at hq'; exact absurd hq' hnd'.1
          · rw [hm q (List.mem_cons_of_mem _ hq')] at h; cases h) (fun col' vals' h => hc col' vals' (List.mem_cons_of_mem _ h))
      refine ⟨m', k1, fun q w => ?_⟩
      rw [k2, putCell_find hcol]
      constructor
      · rintro ((⟨rfl, rfl⟩ | h) | ⟨vals', x', h3, h4, h5, h6⟩)
        · refine Or.inr ⟨vals, x, ?_, hq, h1, ?_⟩
          · rw [String.toList_ofList]; exact List.mem_cons_self ..
          · rw [String.toList_ofList]; exact h2
        · exact Or.inl h
        · exact Or.inr ⟨vals', x', List.mem_cons_of_mem _ h3, h4, h5, h6⟩
      · rintro (h | ⟨vals', x', h3, h4, h5, h6⟩)
        · exact Or.inl (Or.inr h)
        · rcases List.mem_cons.mp h3 with h3 | h3
          · cases h3
            rw [h1] at h5
            cases h5
            rw [h2] at h6
            cases h6
            exact Or.inl (Or.inl ⟨by rw [String.ofList_toList], rfl⟩)
          · exact Or.inr ⟨vals', x', h3, h4, h5, h6⟩
    · rw [if_pos (by simp [hq])]
      obtain ⟨m', k1, k2⟩ := ih (m := m) hnd'.2 (fun q hq' => hm q (List.mem_cons_of_mem _ hq')) (fun col' vals' h => hc col' vals' (List.mem_cons_of_mem _ h))
      refine ⟨m', k1, fun q w => ?_⟩
      rw [k2]
      constructor
      · rintro (h | ⟨vals', x', h3, h4⟩)
        · exact Or.inl h
        · exact Or.inr ⟨vals', x', List.mem_cons_of_mem _ h3, h4⟩
      · rintro (h | ⟨vals', x', h3, h4, h5⟩)
        · exact Or.inl h
        · rcases List.mem_cons.mp h3 with h3 | h3
          · cases h3
            rw [String.ofList_toList] at hq
            exact absurd h4 hq
          · exact Or.inr ⟨vals', x', h3, h4, h5⟩

/-- If `rowValues` succeeds then the cells of the query columns are there and can be read. -/
theorem rowValues_cells {D : DB F} {parse : F.C ⊕ F.E → String → Res V} {i : Nat} : ∀ {l : List (List Char × List (List Char))} {m m' : FMap String V},
    D.rowValues parse i l m = .ok m' → ∀ col vals, (col, vals) ∈ l → D.schema.query.fields.contains (String.ofList col) = true →
    ∃ x v, vals[i]? = some x ∧ D.cellValue parse col x = .ok v := by
  intro l
  induction l with
  | nil => intro m m' _ col vals h; cases h
  | cons e l ih =>
    obtain ⟨col, vals⟩ := e
    intro m m' h col' vals' hm hq
    unfold DB.rowValues at h
    by_cases hc : D.schema.query.fields.contains (String.ofList col) = true
    · rw [if_neg (by simp [hc])] at h
      obtain ⟨x, h1, h⟩ := bind_ok.mp h
      obtain ⟨v, h2, h⟩ := bind_ok.mp h
      rcases List.mem_cons.mp hm with hm | hm
      · cases hm
        exact ⟨x, v, idxR_ok.mp h1, h2⟩
      · exact ih h col' vals' hm hq
    · rw [if_pos (by simp [hc])] at h
      rcases List.mem_cons.mp hm with hm | hm
      · cases hm; exact absurd hq hc
      · exact ih h col' vals' hm hq

/-! ### A row that is there already -/

theorem incorporateQuery_again (S : Samples L) {D : DB F} {r : String → Nat} {q : String} {spec : RelSpec F} {hops : List (String × String)} {d : String} {ds : List String}
    (hcm : Compatible L D.H.schema) (hw : Wired D.schema D.relIdx D.classRels D.H.schema D.schema.query.recordClass r)
    (ha : Asks D q spec hops d ds) {H : HIRM F} {e : Ents} (hst : St L D H e) {id : Int} {k : Items} (hk : RowTuple D spec hops d ds e id k) {w : V}
    (hn : H.value q k = some w) {v : V} (hv : Takes L D.H.schema v spec) {n : Nat} (hlt : depth D.schema ≤ n) (t : Tape) (x : DB F × Tape) :
    DB.incorporateQuery n q k v (D.at H e) t ≠ .ok x := by
  intro h
  obtain ⟨t1, t2, t3, t4⟩ := ha.tree
  unfold DB.incorporateQuery at h
  obtain ⟨⟨D₁, u⟩, h1, h⟩ := bind_ok.mp h
  obtain ⟨H₁, e₁, rfl, ⟨c₁, i₁, u1, u2, u3, u4, m⟩, hb⟩ := (forBase_does hw hst ha.known t3 t1 t2 hk.1 ha.base hk.last
    (fun c' i' t _ h2 h3 => forClass_does S hw hcm n c' i' H e t hst (by have := hw.bound c'; omega) h2 h3) t).result h1
  obtain ⟨⟨H₂, u'⟩, h2, _⟩ := bind_ok.mp h
  have h2 : H₁.incorporate q k v u = .ok (H₂, u') := h2
  have hR : HIRM.Reach L H₁ ∧ Usable L H₁.schema := ⟨m.st.reach, by rw [m.st.schema]; exact hcm.toUsable⟩
  obtain ⟨sp, _, _, h3, _⟩ := (HIRM.hosted S).inc_pre (r := q) (k := k) (v := v) hR (fun sp hs => by
    have hs : H₁.schema.find? q = some sp := hs
    rw [m.st.schema, ha.known] at hs
    cases hs
    exact Takes.support (HIRM.hosted S) hR (v := v) (spec := spec) (by show Takes L H₁.schema v spec; rw [m.st.schema]; exact hv) k) h2
  have h3 : H₁.value q k = none := h3
  rw [m.kept _ _ _ hn] at h3
  cases h3

theorem incorporateLoop_again (S : Samples L) {D : DB F} {r : String → Nat} (hcm : Compatible L D.H.schema)
    (hw : Wired D.schema D.relIdx D.classRels D.H.schema D.schema.query.recordClass r) {n : Nat} (hlt : depth D.schema ≤ n) {unique : Bool} {id : Int}
    {q : String} {spec : RelSpec F} {hops : List (String × String)} {d : String} {ds : List String} (ha : Asks D q spec hops d ds) {k : Items} {w : V} :
    ∀ {row : List (String × V)} {H : HIRM F} {e : Ents} (t : Tape), RowOk L D unique row → St L D H e → (∃ v, (q, v) ∈ row) →
      RowTuple D spec hops d ds e id k → H.value q k = some w → ∀ x, DB.incorporateLoop n unique id row (D.at H e) t ≠ .ok x := by
  intro row
  induction row with
  | nil => rintro H e t _ _ ⟨v, hv⟩; cases hv
  | cons qv row ih =>
    obtain ⟨q', v'⟩ := qv
    intro H e t hrow hst hmem hk hw' x h
    obtain ⟨spec', hops', d', ds', ha', hcp, hv⟩ := hrow.asks q' v' (List.mem_cons_self ..)
    unfold DB.incorporateLoop at h
    obtain ⟨⟨k', D₁, t₁⟩, h1, h⟩ := bind_ok.mp h
    obtain ⟨e₁, rfl, g1, _, hk'⟩ := rowItems_spec hw ha' hst.schema hcp h1
    have hst₁ : St L D H e₁ := ⟨hst.reach, hst.schema, g1.ok hst.ents⟩
    obtain ⟨⟨D₂, t₂⟩, h2, h⟩ := bind_ok.mp h
    have hk₁ := hk.mono g1.extends
    by_cases hq : q' = q
    · subst hq
      obtain ⟨rfl, rfl, rfl, rfl⟩ := ha.unique ha'
      obtain ⟨t1, t2, _⟩ := ha.tree
      have : k' = k := by
        refine hk'.1.unique t1 t2 hk₁.1 ?_
        rw [hk'.last, hk₁.last]
      subst this
      exact incorporateQuery_again S hcm hw ha hst₁ hk' hw' hv hlt t₁ _ h2
    · cases hx : H.value q' k' with
      | some w' => exact incorporateQuery_again S hcm hw ha' hst₁ hk' hx hv hlt t₁ _ h2
      | none =>
        obtain ⟨H₂, e₂, rfl, p⟩ := (incorporateQuery_does S hcm hw ha' hst₁ hk' hx hv hlt t₁).result h2
        obtain ⟨v, hv⟩ := hmem
        rcases List.mem_cons.mp hv with hv | hv
        · cases hv; exact hq rfl
        · exact ih t₂ ⟨fun q v hm => hrow.asks q v (List.mem_cons_of_mem _ hm), (List.nodup_cons.mp hrow.nodup).2⟩ p.st ⟨v, hv⟩ (hk₁.mono p.grow.extends)
            (p.kept _ _ _ hw') x h

end
end GenDB
end Verif
