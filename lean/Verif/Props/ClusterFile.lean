import Verif.Lemmas.ClusterFileLoad
import Verif.Lemmas.TidyDom
import Verif.Props.UtilIO
import Verif.Props.HIRM
/-!
C34: loading the file written by `to_txt` returns the clusters, relations and items that were saved.

For HIRM files this is false for some names without white space: the reader takes a domain that is called like a number for a
relation cluster, and a domain whose name starts with `irm=` for the beginning of an IRM.
-/
namespace Verif
variable {V : Type}
namespace UtilIO
open Text

/-- **C34** for IRMs, writing: `to_txt` returns exactly if every clustered item has a name. -/
theorem C34_irm_written {F : Family V} {L : FamilyLaws F} {rm st : Prop} {n : Nat} {I : IRM F} (h : IRM.Reach L rm st n I) (e : Encoding) (t : Tape) :
    (∃ text t', irmText I e t = .ok (text, t')) ↔ Nameable I.doms e :=
  irmText_ok_iff (h.domains tidyDom_closed (fun _ _ => trivial)).tidy e t

/-- **C34** for IRMs: if the names are words, the file is read back, and the clusters read are those of the IRM, in whatever order the
domains and items were written. -/
theorem C34_irm {F : Family V} {L : FamilyLaws F} {rm st : Prop} {n : Nat} {I : IRM F} (h : IRM.Reach L rm st n I) {e : Encoding} {t t' : Tape}
    {text : List Char} (hw : irmText I e t = .ok (text, t')) (hW : Wordy I.doms e) :
    ∃ cl, loadClustersIrm text = .ok cl ∧ Saved I.doms e cl :=
  irmText_loaded (h.domains tidyDom_closed (fun _ _ => trivial)).tidy hw hW

/-- **C34** for HIRMs, writing: `to_txt` returns exactly if every clustered item has a name. -/
theorem C34_hirm_written {F : Family V} {H : HIRM F} (h : HIRM.History H) (e : Encoding) (t : Tape) :
    (∃ text t', hirmText H e t = .ok (text, t')) ↔ ∀ tb I, H.irms.find? tb = some I → Nameable I.doms e :=
  hirmText_ok_iff h.skel.consistent h.skel.crp.tidy (fun tb I hI => (h.domains tidyDom_closed (fun _ _ => trivial) tb I hI).tidy) e t

/-- **C34** for HIRMs.  Missing: domains that are called like a number or whose name starts with `irm=`, and relations that were
moved to a table with a negative number. -/
theorem C34_hirm_partial {F : Family V} {H : HIRM F} (h : HIRM.History H) {e : Encoding} {t t' : Tape} {text : List Char}
    (hw : hirmText H e t = .ok (text, t')) (hW : ∀ tb I, H.irms.find? tb = some I → Wordy I.doms e)
    (hD : ∀ tb I d tb' i, H.irms.find? tb = some I → InCluster I.doms d tb' i → DomainWord d)
    (hR : ∀ n tb, H.tableOf n = some tb → Word n ∧ 0 ≤ tb) :
    ∃ rels irms, loadClustersHirm text = .ok (rels, irms) ∧ SavedHirm H e rels irms := by
  have hT := h.domains tidyDom_closed (fun _ _ => trivial)
  refine hirmText_loaded h.skel.consistent h.skel.crp.tidy (fun tb I hI => (hT tb I hI).tidy) hw (fun tb I hI => ⟨hW tb I hI, ?_⟩) hR
  intro d tb' i hi
  obtain ⟨dom, hd, ha⟩ := id hi
  exact ⟨hD tb I d tb' i hI hi, (hT tb I hI d dom hd).2.2 i tb' ha⟩

/-! ### Names that are not read back -/

section Witnesses
open Latent HIRM

/-- one relation over the domain `d` -/
noncomputable def blank (d : String) : HIRM bools := got (mk' ((∅ : Schema bools).set "R" (.clean () [d] true)) [])
/-- with one observation -/
noncomputable def oneDomain (d : String) : HIRM bools := got ((blank d).incorporate "R" [0] true [])

/-- the only item of the domain is called `x` -/
def oneItem (d : String) : Encoding :=
  { fwd := (∅ : FMap String (FMap String Int)).set d ((∅ : FMap String Int).set "x" 0),
    rev := (∅ : FMap String (FMap Int String)).set d ((∅ : FMap Int String).set 0 "x") }

/-- **C34** is false for HIRMs: the names are words, but the file that was written for the domain `7` is not accepted. -/
theorem C34_numeric_domain_false : History (oneDomain "7") ∧
    ∃ t', hirmText (oneDomain "7") (oneItem "7") [] = .ok ("0 R\n\nirm=0\n7 0 x\n".toList, t') ∧
      loadClustersHirm "0 R\n\nirm=0\n7 0 x\n".toList = .error .assert :=
  ⟨.incorporate (mk'_history (schema := (∅ : Schema bools).set "R" (.clean () ["7"] true)) (H := blank "7") (t := []) (t' := []) rfl) (t := []) (t' := []) (name := "R") (items := [0]) (v := true) rfl, _, rfl, rfl⟩

/-- The same for a domain whose name starts with `irm=`. -/
theorem C34_irm_domain_false : History (oneDomain "irm=1") ∧
    ∃ t', hirmText (oneDomain "irm=1") (oneItem "irm=1") [] = .ok ("0 R\n\nirm=0\nirm=1 0 x\n".toList, t') ∧
      loadClustersHirm "0 R\n\nirm=0\nirm=1 0 x\n".toList = .error .assert :=
  ⟨.incorporate (mk'_history (schema := (∅ : Schema bools).set "R" (.clean () ["irm=1"] true)) (H := blank "irm=1") (t := []) (t' := []) rfl) (t := []) (t' := []) (name := "R") (items := [0]) (v := true) rfl, _, rfl, rfl⟩

/-- The same for a relation that was moved to a table with a negative number. -/
theorem C34_negative_table_false : History (got (ex4.setClusterAssignmentGibbs "B" (-1) [])) ∧
    ∃ text t', hirmText (got (ex4.setClusterAssignmentGibbs "B" (-1) []))
      { rev := ((∅ : FMap String (FMap Int String)).set "D" ((∅ : FMap Int String).set 3 "x")).set "E" ((∅ : FMap Int String).set 5 "y") } [] =
      .ok (text, t') ∧ loadClustersHirm text = .error .assert :=
  ⟨.set ex4_history (name := "B") (table := -1) (t := []) (t' := []) rfl, _, _, rfl, rfl⟩

/-! ### Examples -/

/-- names of the items 3 and 5 of the domains `D` and `E` -/
def exNames : Encoding :=
  { rev := ((∅ : FMap String (FMap Int String)).set "D" ((∅ : FMap Int String).set 3 "three")).set "E" ((∅ : FMap Int String).set 5 "five") }

/-- C34: two IRMs with three relations -/
example : ∃ t', hirmText ex4 exNames [] = .ok ("0 B A\n1 C\n\nirm=0\nD 0 three\nE 0 five\n\nirm=1\nE 0 five\n".toList, t') := ⟨_, rfl⟩

/-- C34: the relation `B` was moved to the table 7 -/
example : ∃ t', hirmText ex5 exNames [] = .ok ("0 A\n1 C\n7 B\n\nirm=0\nD 0 three\nE 0 five\n\nirm=1\nE 0 five\n\nirm=7\nD 0 three\n".toList, t') := ⟨_, rfl⟩

/-- the clustered items: table of the IRM, domain, item, cluster -/
def places (H : HIRM bools) : List (Int × String × Int × Int) :=
  H.irms.entries.flatMap fun x => x.2.doms.entries.flatMap fun y => y.2.crp.assignments.entries.map fun z => (x.1, y.1, z.1, z.2)

theorem mem_places {H : HIRM bools} {tb : Int} {I : IRM bools} {d : String} {table i : Int} (hI : H.irms.find? tb = some I)
    (hi : InCluster I.doms d table i) : (tb, d, i, table) ∈ places H := by
  obtain ⟨dom, hd, ha⟩ := hi
  exact List.mem_flatMap.mpr ⟨_, FMap.mem_entries.mpr hI, List.mem_flatMap.mpr ⟨_, FMap.mem_entries.mpr hd,
    List.mem_map.mpr ⟨_, FMap.mem_entries.mpr ha, rfl⟩⟩⟩

/-- C34: what is loaded from that file are the clusters that were saved -/
example : ∃ rels irms, loadClustersHirm "0 A\n1 C\n7 B\n\nirm=0\nD 0 three\nE 0 five\n\nirm=1\nE 0 five\n\nirm=7\nD 0 three\n".toList =
    .ok (rels, irms) ∧ SavedHirm ex5 exNames rels irms := by
  have hp : places ex5 = [(0, "D", 3, 0), (0, "E", 5, 0), (1, "E", 5, 0), (7, "D", 3, 0)] := rfl
  have hr : ∀ n tb, ex5.tableOf n = some tb → (n = "A" ∨ n = "B" ∨ n = "C") ∧ (tb = 0 ∨ tb = 1 ∨ tb = 7) := by
    intro n tb h
    obtain ⟨c, h1, h2⟩ := Option.bind_eq_some_iff.mp h
    have h1 := FMap.mem_entries.mpr h1
    have h2 := FMap.mem_entries.mpr h2
    have e1 : ex5.relToCode.entries = [("A", 3), ("B", 1), ("C", 2)] := rfl
    have e2 : ex5.crp.assignments.entries = [(1, 7), (2, 1), (3, 0)] := rfl
    rw [e1] at h1
    rw [e2] at h2
    simp only [List.mem_cons, Prod.mk.injEq, List.not_mem_nil, or_false] at h1 h2
    tauto
  refine C34_hirm_partial (t := []) (t' := []) (.set ex4_history ex5_eq) rfl ?_ ?_ ?_
  · intro tb I hI d table i hi
    have := mem_places hI hi
    rw [hp] at this
    simp only [List.mem_cons, Prod.mk.injEq, List.not_mem_nil, or_false] at this
    rcases this with ⟨_, rfl, rfl, rfl⟩ | ⟨_, rfl, rfl, rfl⟩ | ⟨_, rfl, rfl, rfl⟩ | ⟨_, rfl, rfl, rfl⟩ <;>
      refine ⟨by unfold Word; decide, fun x hx => ?_⟩ <;> cases hx <;> unfold Word <;> decide
  · intro tb I d table i hI hi
    have := mem_places hI hi
    rw [hp] at this
    simp only [List.mem_cons, Prod.mk.injEq, List.not_mem_nil, or_false] at this
    rcases this with ⟨_, rfl, rfl, rfl⟩ | ⟨_, rfl, rfl, rfl⟩ | ⟨_, rfl, rfl, rfl⟩ | ⟨_, rfl, rfl, rfl⟩ <;> unfold DomainWord <;> decide
  · intro n tb h
    obtain ⟨rfl | rfl | rfl, rfl | rfl | rfl⟩ := hr n tb h <;> exact ⟨by unfold Word; decide, by decide⟩

/-- C34: an IRM with two relations, two items of `D` and one of `E` -/
example : ∃ cl, loadClustersIrm "D 0 a b\nE 0 z\n".toList = .ok cl ∧ Saved IRM.ex5.doms
    { rev := ((∅ : FMap String (FMap Int String)).set "D" (((∅ : FMap Int String).set 1 "b").set 2 "a")).set "E" ((∅ : FMap Int String).set 7 "z") } cl := by
  refine C34_irm (L := boolLaws) (t := []) (t' := []) (IRM.ex5_reach False) rfl ?_
  intro d table i hi
  obtain ⟨dom, hd, ha⟩ := hi
  have hm : (d, i, table) ∈ IRM.ex5.doms.entries.flatMap fun y => y.2.crp.assignments.entries.map fun z => (y.1, z.1, z.2) :=
    List.mem_flatMap.mpr ⟨_, FMap.mem_entries.mpr hd, List.mem_map.mpr ⟨_, FMap.mem_entries.mpr ha, rfl⟩⟩
  have hp : (IRM.ex5.doms.entries.flatMap fun y => y.2.crp.assignments.entries.map fun z => (y.1, z.1, z.2)) =
      [("D", 1, 0), ("D", 2, 0), ("E", 7, 0)] := rfl
  rw [hp] at hm
  simp only [List.mem_cons, Prod.mk.injEq, List.not_mem_nil, or_false] at hm
  rcases hm with ⟨rfl, rfl, rfl⟩ | ⟨rfl, rfl, rfl⟩ | ⟨rfl, rfl, rfl⟩ <;>
    refine ⟨by unfold Word; decide, fun x hx => ?_⟩ <;> cases hx <;> unfold Word <;> decide

end Witnesses

end UtilIO
end Verif
