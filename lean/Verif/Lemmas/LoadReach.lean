import Verif.Lemmas.RestoreMain
import Verif.Props.HIRMMoves
/-!
`from_txt` uses only the operations of `HIRM.Reach`: relations are added and moved, and entities are put into clusters.
-/
namespace Verif
noncomputable section
variable {V : Type} {F : Family V} {L : FamilyLaws F}
open HIRM

namespace UtilIO

/-- the HIRM in which the IRM at the table has these domains -/
def withDoms (H : HIRM F) (table : Int) (I : IRM F) (σ : Doms) : HIRM F := { H with irms := H.irms.set table { I with doms := σ } }

theorem withDoms_seat {H : HIRM F} {table : Int} {I : IRM F} {σ : Doms} (h : Reach L (withDoms H table I σ)) {d : String} {dom dom' : Domain} {i c : Int}
    {t t' : Tape} (hd : σ.find? d = some dom) (hc : dom.incorporate i t c = .ok (dom', t')) : Reach L (withDoms H table I (σ.set d dom')) := by
  have := Reach.seat (tb := table) (I := { I with doms := σ }) h (FMap.find?_set_self ..) hd hc
  simpa only [withDoms, FMap.set_set] using this

theorem seatItems_reach {fwd : FMap String (FMap String Int)} {d : String} {c : Int} {H : HIRM F} {table : Int} {I : IRM F} : ∀ (l : List String) (σ : Doms)
    (t : Tape) (x : Doms × Tape), Reach L (withDoms H table I σ) → seatItems fwd d c l σ t = .ok x → Reach L (withDoms H table I x.1) := by
  intro l
  induction l with
  | nil => intro σ t x h hc; cases hc; exact h
  | cons item l ih =>
    intro σ t x h hc
    obtain ⟨m, _, hc⟩ := bind_ok.mp hc
    obtain ⟨k, _, hc⟩ := bind_ok.mp hc
    obtain ⟨dom, h3, hc⟩ := bind_ok.mp hc
    obtain ⟨⟨dom', t'⟩, h4, hc⟩ := bind_ok.mp hc
    exact ih _ _ _ (withDoms_seat h (FMap.atKey_ok.mp h3) h4) hc

theorem seatTables_reach {fwd : FMap String (FMap String Int)} {d : String} {H : HIRM F} {table : Int} {I : IRM F} : ∀ (l : List (Int × List String)) (σ : Doms)
    (t : Tape) (x : Doms × Tape), Reach L (withDoms H table I σ) → seatTables fwd d l σ t = .ok x → Reach L (withDoms H table I x.1) := by
  intro l
  induction l with
  | nil => intro σ t x h hc; cases hc; exact h
  | cons e l ih =>
    obtain ⟨c, items⟩ := e
    intro σ t x h hc
    obtain ⟨_, _, hc⟩ := bind_ok.mp hc
    obtain ⟨⟨σ₁, t₁⟩, h1, hc⟩ := bind_ok.mp hc
    exact ih _ _ _ (seatItems_reach _ _ _ _ h h1) hc

theorem seatClusters_reach {fwd : FMap String (FMap String Int)} {H : HIRM F} {table : Int} {I : IRM F} : ∀ (l : List (String × FMap Int (List String)))
    (σ : Doms) (t : Tape) (x : Doms × Tape), Reach L (withDoms H table I σ) → seatClusters fwd l σ t = .ok x → Reach L (withDoms H table I x.1) := by
  intro l
  induction l with
  | nil => intro σ t x h hc; cases hc; exact h
  | cons e l ih =>
    obtain ⟨d, tables⟩ := e
    intro σ t x h hc
    obtain ⟨_, _, hc⟩ := bind_ok.mp hc
    obtain ⟨_, _, hc⟩ := bind_ok.mp hc
    obtain ⟨⟨σ₁, t₁⟩, h1, hc⟩ := bind_ok.mp hc
    exact ih _ _ _ (seatTables_reach _ _ _ _ h h1) hc

theorem moveAll_reach {table : Int} : ∀ (l : List String) (H : HIRM F) (t : Tape) (x : HIRM F × Tape), Reach L H → moveAll table l H t = .ok x → Reach L x.1 := by
  intro l
  induction l with
  | nil => intro H t x h hc; cases hc; exact h
  | cons r l ih =>
    intro H t x h hc
    obtain ⟨_, _, hc⟩ := bind_ok.mp hc
    obtain ⟨cur, _, hc⟩ := bind_ok.mp hc
    split at hc
    · obtain ⟨_, _, hc⟩ := bind_ok.mp hc
      obtain ⟨⟨H₁, t₁⟩, h2, hc⟩ := bind_ok.mp hc
      exact ih _ _ _ (.set h h2) hc
    · exact ih _ _ _ h hc

theorem seatIrms_reach {fwd : FMap String (FMap String Int)} {irms : FMap Int Clusters} : ∀ (l : List (Int × List String)) (H : HIRM F) (t : Tape)
    (x : HIRM F × Tape), Reach L H → seatIrms fwd irms l H t = .ok x → Reach L x.1 := by
  intro l
  induction l with
  | nil => intro H t x h hc; cases hc; exact h
  | cons e l ih =>
    obtain ⟨table, rs⟩ := e
    intro H t x h hc
    obtain ⟨_, _, hc⟩ := bind_ok.mp hc
    obtain ⟨⟨H₁, t₁⟩, h1, hc⟩ := bind_ok.mp hc
    obtain ⟨I, h2, hc⟩ := bind_ok.mp hc
    obtain ⟨cl, h3, hc⟩ := bind_ok.mp hc
    obtain ⟨_, _, hc⟩ := bind_ok.mp hc
    obtain ⟨⟨σ, t₂⟩, h4, hc⟩ := bind_ok.mp hc
    have hI : H₁.irms.find? table = some I := FMap.atKey_ok.mp h2
    have h5 : Reach L (withDoms H₁ table I I.doms) := by
      have e : withDoms H₁ table I I.doms = H₁ := by
        unfold withDoms
        rw [show ({ I with doms := I.doms } : IRM F) = I from rfl, FMap.set_of_find hI]
      rw [e]
      exact moveAll_reach _ _ _ _ h h1
    exact ih _ _ _ (seatClusters_reach _ _ _ _ h5 h4) hc

theorem addAside_reach {schema : Schema F} (ha : ∀ n spec b sp, schema.find? n = some spec → spec.base? = some b → schema.find? b = some sp →
      sp.doms.length ≤ spec.doms.length) : ∀ (l : List (String × RelSpec F)) (H : HIRM F) (t : Tape) (x : HIRM F × Tape),
    (∀ e ∈ l, schema.find? e.1 = some e.2) → (∀ n sp, H.schema.find? n = some sp → schema.find? n = some sp) → Reach L H →
    addAside l H t = .ok x → Reach L x.1 := by
  intro l
  induction l with
  | nil => intro H t x _ _ h hc; cases hc; exact h
  | cons e l ih =>
    obtain ⟨r, spec⟩ := e
    intro H t x hl hs h hc
    obtain ⟨⟨H₁, t₁⟩, h1, hc⟩ := bind_ok.mp hc
    obtain ⟨_, _, hc⟩ := bind_ok.mp hc
    obtain ⟨⟨H₂, t₂⟩, h2, hc⟩ := bind_ok.mp hc
    have hr : schema.find? r = some spec := hl (r, spec) (by simp)
    have k1 : Reach L H₁ := .add h (fun b sp hb hsp => ha r spec b sp hr hb (hs b sp hsp)) h1
    obtain ⟨_, hm⟩ := setClusterAssignmentGibbs_skel k1.good.skel h2
    obtain ⟨_, hsch, _⟩ := addRelation_inv h1
    refine ih _ _ _ (fun e he => hl e (by simp [he])) (fun n sp hn => ?_) (.set k1 h2) hc
    rw [hm.schema, hsch, FMap.find?_set] at hn
    split at hn
    · rename_i e; subst e; cases hn; exact hr
    · exact hs n sp hn

/-- the HIRM that `from_txt` has before it incorporates the observations -/
theorem hirmFromTxt_reach {parse : F.C ⊕ F.E → String → Res V} {schema : Schema F} {obs : ObsMap String} {relations : FMap Int (List String)}
    {irms : FMap Int Clusters} {t : Tape} {x : HIRM F × Tape} (ha : ∀ n spec b sp, schema.find? n = some spec → spec.base? = some b → schema.find? b = some sp →
      sp.doms.length ≤ spec.doms.length)
    (hc : hirmFromTxt parse schema obs relations irms t = .ok x) :
    ∃ H enc t', Reach L H ∧ H.schema = schema ∧ (∀ n k, ¬ H.stores n k = true) ∧ incorporateObservations (HIRM.host F) parse H enc obs t' = .ok x := by
  obtain ⟨⟨enc, t1⟩, h1, hc⟩ := bind_ok.mp hc
  obtain ⟨⟨H₁, t₂⟩, h2, hc⟩ := bind_ok.mp hc
  obtain ⟨⟨H₂, t₃⟩, h3, hc⟩ := bind_ok.mp hc
  obtain ⟨_, h4, hc⟩ := bind_ok.mp hc
  obtain ⟨a, b⟩ := addAside_start h2
  obtain ⟨_, _, h0, hs⟩ := seatIrms_plain _ _ _ _ (a.known.mono (fun _ _ _ => trivial)) a.named a.empty h3
  exact ⟨H₂, enc, t₃, seatIrms_reach _ _ _ _ (addAside_reach ha _ _ _ _ (fun e he => FMap.mem_entries.mp he) (fun n sp h => by cases h) .empty h2) h3,
    hs.trans b, h0, hc⟩

end UtilIO
end
end Verif
