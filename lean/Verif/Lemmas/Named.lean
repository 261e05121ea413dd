import Verif.Lemmas.KnownIRM
import Verif.Lemmas.HIRMSound
/-!
The base pointers of the relations carry the names of the bases in the schema.  This needs nothing about the distributions.
-/
namespace Verif
noncomputable section
variable {V : Type} {F : Family V} {Q : String → Int → Prop}

theorem Rel.incorporate_base {σ : Doms} {b : Option (BaseView V)} {r : Rel F} {items : Items} {v : V} {t : Tape} {x : Doms × Rel F × Tape}
    (h : r.incorporate σ b items v t = .ok x) : x.2.1.base? = r.base? := by
  cases r with
  | clean c r => obtain ⟨_, _, h⟩ := bind_ok.mp h; cases h; rfl
  | noisy e p r =>
    obtain ⟨_, _, h⟩ := bind_ok.mp h
    obtain ⟨_, _, h⟩ := bind_ok.mp h
    cases h; rfl

theorem Rel.sampleAtItems_base {σ : Doms} {b : Option (BaseView V)} {r : Rel F} {items : Items} {t : Tape} {x : V × Rel F × Tape}
    (h : r.sampleAtItems σ b items t = .ok x) : x.2.1.base? = r.base? := by
  cases r with
  | clean c r => obtain ⟨_, _, h⟩ := bind_ok.mp h; cases h; rfl
  | noisy e p r =>
    obtain ⟨_, _, h⟩ := bind_ok.mp h
    obtain ⟨_, _, h⟩ := bind_ok.mp h
    cases h; rfl

namespace IRM

/-- the noisy relations are those with a base in the schema, and their pointers have the names of the bases -/
def Named (I : IRM F) : Prop := ∀ n x, I.rels.find? n = some x → ∃ spec, I.schema.find? n = some spec ∧ spec.base? = x.2.base?.map Ptr.name

theorem Named.empty : Named ({} : IRM F) := fun _ _ h => by cases h

theorem Named.add {I : IRM F} (h : Named I) {name : String} {x : Nat × Rel F} {spec : RelSpec F} {J : IRM F} (hs : J.schema = I.schema.set name spec)
    (hr : J.rels = I.rels.set name x) (hp : spec.base? = x.2.base?.map Ptr.name) : Named J := by
  intro n y hy
  rw [hr, FMap.find?_set] at hy
  rw [hs, FMap.find?_set]
  split
  · rename_i e
    rw [if_pos e] at hy; cases hy
    exact ⟨_, rfl, hp⟩
  · rename_i e
    rw [if_neg e] at hy
    exact h n y hy

theorem Named.put {I : IRM F} (h : Named I) {r : String} {x y : Nat × Rel F} (hx : I.rels.find? r = some x) (hb : y.2.base? = x.2.base?) {σ : Doms} :
    Named { I with doms := σ, rels := I.rels.set r y } := by
  intro n z hz
  replace hz : (I.rels.set r y).find? n = some z := hz
  rw [FMap.find?_set] at hz
  split at hz
  · rename_i e; subst e; cases hz
    rw [hb]
    exact h n x hx
  · exact h n z hz

theorem Named.addClean {I I' : IRM F} (h : Named I) {id : Nat} {name : String} {c : F.C} {ds : List String} {o : Bool}
    (hc : addClean id I name c ds o = .ok I') : Named I' := by
  obtain ⟨_, _, hc⟩ := bind_ok.mp hc
  obtain ⟨_, _, hc⟩ := bind_ok.mp hc
  obtain ⟨I1, h1, hc⟩ := bind_ok.mp hc
  obtain ⟨r, h2, hc⟩ := bind_ok.mp hc
  cases hc
  obtain ⟨a, b⟩ := addDomains_keys _ _ _ h1
  exact h.add (x := (id, .clean c r)) (spec := .clean c ds o) (by show I1.schema.set _ _ = _; rw [a]) (by show I1.rels.set _ _ = _; rw [b]) rfl

theorem Named.addWithBase {I I' : IRM F} (h : Named I) {id : Nat} {name : String} {e : F.E} {ds : List String} {b : String} {o : Bool} {p : Ptr} (hp : p.name = b)
    (hc : addWithBase id I name e ds b o p = .ok I') : Named I' := by
  obtain ⟨_, _, hc⟩ := bind_ok.mp hc
  obtain ⟨_, _, hc⟩ := bind_ok.mp hc
  obtain ⟨I1, h1, hc⟩ := bind_ok.mp hc
  obtain ⟨r, h2, hc⟩ := bind_ok.mp hc
  cases hc
  obtain ⟨a, b'⟩ := addDomains_keys _ _ _ h1
  exact h.add (x := (id, .noisy e p r)) (spec := .noisy e ds b o) (by show I1.schema.set _ _ = _; rw [a]) (by show I1.rels.set _ _ = _; rw [b'])
    (by rw [← hp]; rfl)

theorem Named.addRelation {I I' : IRM F} (h : Named I) {id : Nat} {name : String} {spec : RelSpec F} (hc : addRelation id I name spec = .ok I') : Named I' := by
  cases spec with
  | clean c ds o => exact h.addClean hc
  | noisy e ds base o =>
    obtain ⟨_, h0, hc⟩ := bind_ok.mp hc
    obtain ⟨_, _, hc⟩ := bind_ok.mp hc
    obtain ⟨I1, h1, hc⟩ := bind_ok.mp hc
    split at hc
    · obtain ⟨_, _, hc⟩ := bind_ok.mp hc; cases hc
    · obtain ⟨⟨bid, _⟩, _, hc⟩ := bind_ok.mp hc
      obtain ⟨r, h2, hc⟩ := bind_ok.mp hc
      cases hc
      obtain ⟨a, b'⟩ := addDomains_keys _ _ _ h1
      exact h.add (x := (id, .noisy e _ r)) (spec := .noisy e ds base o) (by show I1.schema.set _ _ = _; rw [a]) (by show I1.rels.set _ _ = _; rw [b'])
        rfl

theorem Named.addAll : ∀ (l : List (String × RelSpec F)) (id : Nat) (I I' : IRM F), Named I → addAll l id I = .ok I' → Named I' := by
  intro l
  induction l with
  | nil => intro id I I' h hc; cases hc; exact h
  | cons e l ih =>
    intro id I I' h hc
    obtain ⟨I1, h1, hc⟩ := bind_ok.mp hc
    exact ih _ _ _ (h.addRelation h1) hc

theorem Named.remove {I I' : IRM F} (h : Named I) {name : String} (hc : removeRelation I name = .ok I') : Named I' := by
  obtain ⟨⟨id, rel⟩, h1, hc⟩ := bind_ok.mp hc
  obtain ⟨I1, h2, hc⟩ := bind_ok.mp hc
  cases hc
  obtain ⟨a, b⟩ := dropDomains_keys _ _ _ h2
  intro n x hx
  have hx : (I1.rels.erase name).find? n = some x := hx
  show ∃ spec, (I1.schema.erase name).find? n = some spec ∧ _
  rw [b, FMap.find?_erase] at hx
  rw [a, FMap.find?_erase]
  split at hx
  · cases hx
  · rename_i e
    rw [if_neg e]
    exact h n x hx

theorem Named.incorporate {I I' : IRM F} (h : Named I) {env : Env V} {r : String} {items : Items} {v : V} {t t' : Tape}
    (hc : incorporate env I r items v t = .ok (I', t')) : Named I' := by
  obtain ⟨⟨id, rel⟩, h1, hc⟩ := bind_ok.mp hc
  obtain ⟨⟨σ, rel', t₁⟩, h2, hc⟩ := bind_ok.mp hc
  cases hc
  exact h.put (y := (id, rel')) (FMap.atKey_ok.mp h1) (Rel.incorporate_base h2)

theorem Named.fill {env : Env V} {r : String} : ∀ (l : List (Items × V)) (I : IRM F) (t : Tape) (x : IRM F × Tape), I.Named →
    HIRM.fill env r l I t = .ok x → x.1.Named := by
  intro l
  induction l with
  | nil => intro I t x h hc; cases hc; exact h
  | cons e l ih =>
    intro I t x h hc
    obtain ⟨⟨I', t1⟩, h1, h2⟩ := bind_ok.mp hc
    exact ih _ _ _ (h.incorporate h1) h2

theorem Named.sampleAt {I I' : IRM F} (h : Named I) {r : String} {items : Items} {v : V} {t t' : Tape} (hc : I.sampleAt r items t = .ok (v, I', t')) : Named I' := by
  obtain ⟨⟨id, rel⟩, h1, hc⟩ := bind_ok.mp hc
  obtain ⟨⟨v, rel', t₁⟩, h2, hc⟩ := bind_ok.mp hc
  cases hc
  exact h.put (y := (id, rel')) (FMap.atKey_ok.mp h1) (Rel.sampleAtItems_base h2) (σ := I.doms)

end IRM

namespace HIRM

theorem getRelation_name {H : HIRM F} {r : String} {x : Ptr × Rel F} (h : H.getRelation r = .ok x) : x.1.name = r := by
  obtain ⟨⟨tb, I⟩, _, h⟩ := bind_ok.mp h
  obtain ⟨⟨id, rel⟩, _, h⟩ := bind_ok.mp h
  cases h; rfl

def Named (H : HIRM F) : Prop := ∀ tb I, H.irms.find? tb = some I → I.Named

theorem addRelationToIrm_named {H : HIRM F} {I I' : IRM F} {r : String} {spec : RelSpec F} (hc : H.addRelationToIrm I r spec = .ok I') (h : I.Named) :
    I'.Named := by
  cases spec with
  | clean c ds o => exact h.addClean hc
  | noisy e ds b o =>
    obtain ⟨⟨p, _⟩, h1, hc⟩ := bind_ok.mp hc
    exact h.addWithBase (getRelation_name h1) hc

theorem putRelation_named {H : HIRM F} {I I' : IRM F} {r : String} {spec : RelSpec F} {data : FMap Items V} {t t' : Tape}
    (hc : H.putRelation I r spec data t = .ok (I', t')) (h : I.Named) : I'.Named := by
  obtain ⟨I1, h1, h2⟩ := bind_ok.mp hc
  exact (addRelationToIrm_named h1 h).fill _ _ _ _ h2

theorem Named.setIrm {H : HIRM F} (h : H.Named) {tb : Int} {I : IRM F} (hI : I.Named) : Named { H with irms := H.irms.set tb I } := by
  intro u J hJ
  change (H.irms.set tb I).find? u = some J at hJ
  rw [FMap.find?_set] at hJ
  split at hJ
  · cases hJ; exact hI
  · exact h u J hJ

theorem Named.incorporate {H H' : HIRM F} (h : H.Named) {r : String} {items : Items} {v : V} {t t' : Tape}
    (hc : H.incorporate r items v t = .ok (H', t')) : H'.Named := by
  obtain ⟨⟨tb, I⟩, h1, hc⟩ := bind_ok.mp hc
  obtain ⟨⟨I', t₁⟩, h2, hc⟩ := bind_ok.mp hc
  cases hc
  exact h.setIrm ((h _ _ (relationToIrm_ok.mp h1).2).incorporate h2)

theorem Named.sampleAt {H H' : HIRM F} (h : H.Named) {r : String} {items : Items} {v : V} {t t' : Tape}
    (hc : H.sampleAt r items t = .ok (v, H', t')) : H'.Named := by
  obtain ⟨⟨tb, I⟩, h1, hc⟩ := bind_ok.mp hc
  obtain ⟨⟨id, rel⟩, h2, hc⟩ := bind_ok.mp hc
  obtain ⟨⟨v, rel', t₁⟩, h3, hc⟩ := bind_ok.mp hc
  cases hc
  exact h.setIrm ((h _ _ (relationToIrm_ok.mp h1).2).put (y := (id, rel')) (FMap.atKey_ok.mp h2) (Rel.sampleAtItems_base h3) (σ := I.doms))

theorem Named.addRelation {H H' : HIRM F} {name : String} {spec : RelSpec F} {t t' : Tape} (hc : H.addRelation name spec t = .ok (H', t'))
    (h : H.Named) : H'.Named := by
  unfold HIRM.addRelation at hc
  obtain ⟨_, _, hc⟩ := bind_ok.mp hc
  dsimp only at hc
  obtain ⟨crp, _, hc⟩ := bind_ok.mp hc
  have h' : ∀ tb I, (if H.irms.contains (H.crp.sample t).1 then H.irms else H.irms.set (H.crp.sample t).1 {}).find? tb = some I → I.Named := by
    intro tb I hI
    split at hI
    · exact h tb I hI
    · rw [FMap.find?_set] at hI
      split at hI
      · cases hI; exact IRM.Named.empty
      · exact h tb I hI
  have key : ∀ {btn : FMap String (List String)} {I I' : IRM F} {sp : RelSpec F} {irms : FMap Int (IRM F)}, (∀ tb I, irms.find? tb = some I → I.Named) →
      irms.find? (H.crp.sample t).1 = some I →
      ({ schema := FMap.set H.schema name sp, irms := irms, relToCode := H.relToCode, codeToRel := H.codeToRel, baseToNoisy := btn, crp := crp, next := H.next } :
        HIRM F).addRelationToIrm I name sp = .ok I' → ∀ tb J, (irms.set (H.crp.sample t).1 I').find? tb = some J → J.Named := by
    intro btn I I' sp irms hall h1 h2 tb J hJ
    rw [FMap.find?_set] at hJ
    split at hJ
    · cases hJ
      exact addRelationToIrm_named h2 (hall _ _ h1)
    · exact hall tb J hJ
  cases spec with
  | clean c ds o =>
    obtain ⟨btn, _, hc⟩ := bind_ok.mp hc
    obtain ⟨I, h1, hc⟩ := bind_ok.mp hc
    obtain ⟨I', h2, hc⟩ := bind_ok.mp hc
    obtain ⟨_, _, hc⟩ := bind_ok.mp hc
    obtain ⟨_, _, hc⟩ := bind_ok.mp hc
    cases hc
    exact key h' (FMap.atKey_ok.mp h1) h2
  | noisy e ds b o =>
    dsimp only at hc
    split at hc
    · obtain ⟨_, _, hc⟩ := bind_ok.mp hc
      cases hc
    · obtain ⟨btn, _, hc⟩ := bind_ok.mp hc
      obtain ⟨I, h1, hc⟩ := bind_ok.mp hc
      obtain ⟨I', h2, hc⟩ := bind_ok.mp hc
      obtain ⟨_, _, hc⟩ := bind_ok.mp hc
      obtain ⟨_, _, hc⟩ := bind_ok.mp hc
      cases hc
      exact key h' (FMap.atKey_ok.mp h1) h2

theorem Named.mk' {schema : Schema F} {H : HIRM F} {t t' : Tape} (hc : mk' schema t = .ok (H, t')) : H.Named :=
  mk'_all (P := fun H => ∀ tb I, H.irms.find? tb = some I → I.Named) (fun _ _ h => by cases h) (fun h h' => Named.addRelation h' h) hc

/-- pointing the noisy relations of a base to it -/
theorem Named.updateLoop {r : String} : ∀ (l : List String) (H H' : HIRM F), H.Named →
    (∀ tb I n x, H.irms.find? tb = some I → I.rels.find? n = some x → n ∈ l → ∃ spec, I.schema.find? n = some spec ∧ spec.base? = some r) →
    updateLoop r l H = .ok H' → H'.Named := by
  intro l
  induction l with
  | nil => intro H H' h _ hc; cases hc; exact h
  | cons n l ih =>
    intro H H' h hl hc
    unfold HIRM.updateLoop at hc
    obtain ⟨⟨tb, I⟩, h1, hc⟩ := bind_ok.mp hc
    obtain ⟨⟨id, rel⟩, h2, hc⟩ := bind_ok.mp hc
    cases rel with
    | clean c q => cases hc
    | noisy e p' q =>
      obtain ⟨⟨p, _⟩, h3, hc⟩ := bind_ok.mp hc
      have hI := (relationToIrm_ok.mp h1).2
      have hn := FMap.atKey_ok.mp h2
      refine ih _ _ (h.setIrm ?_) ?_ hc
      · intro m z hz
        replace hz : (I.rels.set n (id, .noisy e p q)).find? m = some z := hz
        rw [FMap.find?_set] at hz
        split at hz
        · rename_i e'; subst e'; cases hz
          show ∃ spec : RelSpec F, _ ∧ spec.base? = some p.name
          rw [getRelation_name h3]
          exact hl tb I m _ hI hn (by simp)
        · exact h tb I hI m z hz
      · intro u J m z hJ hz hm
        have hJ : (H.irms.set tb { I with rels := I.rels.set n (id, .noisy e p q) }).find? u = some J := hJ
        rw [FMap.find?_set] at hJ
        split at hJ
        · cases hJ
          have hz : (I.rels.set n (id, .noisy e p q)).find? m = some z := hz
          rw [FMap.find?_set] at hz
          split at hz
          · rename_i e'; subst e'
            exact hl tb I m _ hI hn (by simp)
          · exact hl tb I m z hI hz (by simp [hm])
        · exact hl u J m z hJ hz (by simp [hm])

theorem Named.set {H H' : HIRM F} (h : H.Named) (hk : Known Q H) {r : String} {table : Int} {t t' : Tape}
    (hc : H.setClusterAssignmentGibbs r table t = .ok (H', t')) : H'.Named := by
  obtain ⟨hs', hm⟩ := setClusterAssignmentGibbs_skel hk.tidy.skel hc
  obtain ⟨_, _, hc⟩ := bind_ok.mp hc
  obtain ⟨rc, h1, hc⟩ := bind_ok.mp hc
  obtain ⟨cur, h2, hc⟩ := bind_ok.mp hc
  obtain ⟨⟨p, rel⟩, h0, hc⟩ := bind_ok.mp hc
  obtain ⟨spec, h3, hc⟩ := bind_ok.mp hc
  obtain ⟨I0, h4, hc⟩ := bind_ok.mp hc
  obtain ⟨I1, h5, hc⟩ := bind_ok.mp hc
  obtain ⟨I2, h6, hc⟩ := bind_ok.mp hc
  obtain ⟨⟨I3, t3⟩, h7, hc⟩ := bind_ok.mp hc
  obtain ⟨c1, h8, hc⟩ := bind_ok.mp hc
  obtain ⟨c2, h9, hc⟩ := bind_ok.mp hc
  obtain ⟨H2, h10, hc⟩ := bind_ok.mp hc
  obtain ⟨_, _, hc⟩ := bind_ok.mp hc
  cases hc
  have hI1 : I1.Named := (h _ _ (FMap.atKey_ok.mp h4)).remove h5
  have ha : ∀ tb I, (if I1.rels.size = 0 then H.irms.erase cur else H.irms.set cur I1).find? tb = some I → I.Named := by
    intro tb I hI
    split at hI
    · rw [FMap.find?_erase] at hI
      split at hI
      · cases hI
      · exact h _ _ hI
    · rw [FMap.find?_set] at hI
      split at hI
      · cases hI; exact hI1
      · exact h _ _ hI
  have hb : ∀ m : FMap Int (IRM F), (∀ tb I, m.find? tb = some I → I.Named) →
      ∀ tb I, (if m.contains table then m else m.set table {}).find? tb = some I → I.Named := by
    intro m hm tb I hI
    split at hI
    · exact hm _ _ hI
    · rw [FMap.find?_set] at hI
      split at hI
      · cases hI; exact .empty
      · exact hm _ _ hI
  have hI3 : I3.Named := putRelation_named h7 (hb _ ha _ _ (FMap.atKey_ok.mp h6))
  have hall : ∀ tb I, ((if (if I1.rels.size = 0 then H.irms.erase cur else H.irms.set cur I1).contains table then
      (if I1.rels.size = 0 then H.irms.erase cur else H.irms.set cur I1) else
      (if I1.rels.size = 0 then H.irms.erase cur else H.irms.set cur I1).set table {}).set table I3).find? tb = some I → I.Named := by
    intro tb I hI
    rw [FMap.find?_set] at hI
    split at hI
    · cases hI; exact hI3
    · exact hb _ ha _ _ hI
  have hn := updateBase_next (P := fun _ => False) h10
  unfold updateBase at h10
  split at h10
  · cases h10; exact hall
  · rename_i l hl
    refine Named.updateLoop _ _ _ (fun tb I hI => hall tb I hI) (fun tb I n x hI hx hnl => ?_) h10
    obtain ⟨spec', k1, k2⟩ := hk.links r l n hl hnl
    refine ⟨spec', ?_, k2⟩
    obtain ⟨I', q1, q2⟩ := hn.some tb I hI
    obtain ⟨y, q3, _⟩ := q2.some n x hx
    have := hs'.specs tb I' q1 n (FMap.contains_iff.mpr ⟨_, q3⟩)
    rw [← q2.schema, this, hm.schema]
    exact k1

end HIRM
end
end Verif
