import Verif.Lemmas.LoadTotal
import Verif.Lemmas.RestoreRun
import Verif.Props.HirmRun
/-!
Runs of the program `hirm` that load clusters.
-/
namespace Verif
noncomputable section
variable {V : Type} {F : Family V}
namespace UtilIO
open HIRM

theorem initSchema_congr : ∀ {l l' : List (String × RelSpec F)} (e : EncState), l.map (fun x => x.2.doms) = l'.map (fun x => x.2.doms) → initSchema l e = initSchema l' e
  | [], [], _, _ => rfl
  | [], _ :: _, _, h => by simp at h
  | _ :: _, [], _, h => by simp at h
  | (_, s) :: l, (_, s') :: l', e, h => by
    simp only [List.map_cons, List.cons.injEq] at h
    unfold initSchema
    rw [h.1]
    exact initSchema_congr _ h.2

theorem Alike.doms {S S' : Schema F} (h : Alike S S') : S'.entries.map (fun x => x.2.doms) = S.entries.map (fun x => x.2.doms) := by
  let D : Schema F → FMap String (List String) := fun S => ⟨S.entries.map (fun x => (x.1, x.2.doms)), by rw [List.pairwise_map]; exact S.sorted⟩
  have hD : ∀ (S : Schema F) n, (D S).find? n = (S.find? n).map RelSpec.doms := by
    intro S n
    apply Option.ext
    intro ds
    rw [← FMap.mem_entries (m := D S), Option.map_eq_some_iff]
    constructor
    · intro hm
      obtain ⟨x, hx, e⟩ := List.mem_map.mp hm
      cases e
      exact ⟨x.2, FMap.mem_entries.mp hx, rfl⟩
    · rintro ⟨sp, hs, rfl⟩
      exact List.mem_map.mpr ⟨(n, sp), FMap.mem_entries.mpr hs, rfl⟩
  have he : D S' = D S := by
    apply FMap.ext
    intro n
    rw [hD, hD]
    have := congrArg (Option.map Prod.fst) (h n)
    simpa [Option.map_map, Function.comp_def] using this
  have := congrArg (fun m : FMap String (List String) => m.entries.map Prod.snd) he
  simpa [D, List.map_map, Function.comp_def] using this

theorem calculateEncoding_alike {S S' : Schema F} (h : Alike S S') (obs : ObsMap String) (t : Tape) : calculateEncoding S' obs t = calculateEncoding S obs t := by
  have key : ∀ (r : String) (o : List (List String × String)) (e : EncState), encRel S' r o e = encRel S r o e := by
    intro r o
    induction o with
    | nil => intro e; rfl
    | cons x o ih =>
      intro e
      unfold encRel
      have := h r
      cases h1 : S.find? r with
      | none =>
        rw [h1] at this
        cases h2 : S'.find? r with
        | none => simp only [FMap.atKey, h1, h2, bind, Except.bind]
        | some sp => rw [h2] at this; cases this
      | some sp =>
        obtain ⟨sp', h2, h3, _⟩ := h.symm.some h1
        simp only [FMap.atKey, h1, h2, bind, Except.bind, h3]
        cases encItems sp.doms x.1 0 e with
        | error _ => rfl
        | ok e' => exact ih e'
  have key2 : ∀ (l : List (String × List (List String × String))) (e : EncState), encRels S' l e = encRels S l e := by
    intro l
    induction l with
    | nil => intro e; rfl
    | cons x l ih =>
      intro e
      unfold encRels
      rw [key]
      cases encRel S x.1 x.2 e with
      | error _ => rfl
      | ok e' => exact ih e'
  unfold calculateEncoding
  simp only [initSchema_congr _ h.doms, key2]

theorem SuitsIrm.alike {S S' : Schema F} (h : Alike S S') {obs : ObsMap String} {rs : List String} {cl : Clusters} (hs : SuitsIrm S obs rs cl) : SuitsIrm S' obs rs cl where
  domain d m hm := by
    obtain ⟨n, hn, sp, h1, h2⟩ := hs.domain d m hm
    obtain ⟨sp', h3, h4, _⟩ := h.symm.some h1
    exact ⟨n, hn, sp', h3, by rw [h4]; exact h2⟩
  table := hs.table
  occurs d c x hx := occurs_alike h (fun r l hl => ⟨l, hl, fun _ ho => ho⟩) (hs.occurs d c x hx)
  once := hs.once
  one := hs.one

theorem Alike.contains {S S' : Schema F} (h : Alike S S') (n : String) : S'.contains n = S.contains n := by
  rw [Bool.eq_iff_iff, FMap.contains_iff, FMap.contains_iff]
  constructor
  · rintro ⟨sp, hs⟩
    obtain ⟨sp', h1, _⟩ := h.some hs
    exact ⟨sp', h1⟩
  · rintro ⟨sp, hs⟩
    obtain ⟨sp', h1, _⟩ := h.symm.some hs
    exact ⟨sp', h1⟩

theorem SuitsHirm.alike {S S' : Schema F} (h : Alike S S') {obs : ObsMap String} {relations : FMap Int (List String)} {irms : FMap Int Clusters}
    (hs : SuitsHirm S obs relations irms) : SuitsHirm S' obs relations irms where
  table := hs.table
  each n := by rw [h.contains]; exact hs.each n
  one := hs.one
  irm tb l hl := by
    obtain ⟨cl, h1, h2⟩ := hs.irm tb l hl
    exact ⟨cl, h1, h2.alike h⟩

theorem BasesEarlier.alike {S S' : Schema F} (h : Alike S S') (hs : BasesEarlier S) : BasesEarlier S' := by
  intro n spec b h1 h2
  obtain ⟨sp, h3, _, h4⟩ := h.some h1
  obtain ⟨h5, h6⟩ := hs n sp b h3 (h4.trans h2)
  exact ⟨by rw [h.contains]; exact h5, h6⟩

theorem value_none {H : HIRM F} (h : ∀ n k, ¬ H.stores n k = true) (n : String) (k : Items) : H.value n k = none := by
  cases hv : H.value n k with
  | none => rfl
  | some v =>
    obtain ⟨data, h1, h2⟩ := Option.bind_eq_some_iff.mp hv
    refine absurd ?_ (h n k)
    unfold HIRM.stores
    rw [h1]
    exact FMap.contains_iff.mpr ⟨v, h2⟩

/-- the clusters that an IRM has saved suit the observations -/
theorem saved_suits_irm {I : IRM F} {schema : Schema F} {obs merged : ObsMap String} {enc : Encoding} {rels : List String} {cl : Clusters} {t t' : Tape}
    (henc : calculateEncoding schema merged t = .ok (enc, t'))
    (hdom : ∀ d dom, I.doms.find? d = some dom → ∃ n ∈ rels, ∃ spec, schema.find? n = some spec ∧ d ∈ spec.doms)
    (hseat : DomAll (SeatedIn (fun d i => ∃ x, Occurs schema obs d x ∧ Encoding.code enc d x = some i)) I.doms) (hs : Saved I.doms enc cl) :
    SuitsIrm schema obs rels cl := by
  have hbij := fun d => (C32_bijection henc d).1
  have hcl2 : ∀ d m c items, cl.find? d = some m → m.find? c = some items → ∃ x i, x ∈ listed cl d c ∧ InCluster I.doms d c i := by
    intro d m c items h1 h2
    obtain ⟨x, hx⟩ := List.exists_mem_of_ne_nil items (hs.cluster d m c items h1 h2)
    have hx' : x ∈ listed cl d c := by
      unfold listed
      rw [h1]
      show x ∈ (m.find? c).getD []
      rw [h2]
      exact hx
    obtain ⟨i, hi, _⟩ := (hs.same d c x).mp hx'
    exact ⟨x, i, hx', hi⟩
  refine ⟨fun d m hm => ?_, fun d m c items h1 h2 => ?_, fun d c x hx => ?_, hs.once, fun d c c' x h1 h2 => ?_⟩
  · obtain ⟨c, items, hc⟩ := hs.domain d m hm
    obtain ⟨x, i, _, dom, hd, _⟩ := hcl2 d m c items hm hc
    exact hdom d dom hd
  · obtain ⟨x, i, _, dom, hd, hi⟩ := hcl2 d m c items h1 h2
    exact (hseat d dom hd).1.2.2 i c hi
  · obtain ⟨i, ⟨dom, hd, hi⟩, he⟩ := (hs.same d c x).mp hx
    obtain ⟨y, h1, h2⟩ := (hseat d dom hd).2 i ((hseat d dom hd).1.2.1.mem.mpr ⟨c, hi⟩)
    rw [(hbij d y i).mp h2] at he
    cases he
    exact h1
  · obtain ⟨i, ⟨dom, hd, hi⟩, he⟩ := (hs.same d c x).mp h1
    obtain ⟨i', ⟨dom', hd', hi'⟩, he'⟩ := (hs.same d c' x).mp h2
    rw [hd] at hd'; cases hd'
    have e1 := (hbij d x i).mpr he
    rw [(hbij d x i').mpr he'] at e1
    cases e1
    rw [hi] at hi'; cases hi'
    rfl

/-- the clusters that a sound model has saved suit the observations -/
theorem saved_suits {L : FamilyLaws F} {H : HIRM F} {schema : Schema F} {obs merged : ObsMap String} {enc : Encoding} {rels : FMap Int (List String)} {irms : FMap Int Clusters}
    {t t' : Tape} (hG : Good L H) (hsch : H.schema = schema) (henc : calculateEncoding schema merged t = .ok (enc, t'))
    (hk : HIRM.Known (fun d i => ∃ x, Occurs schema obs d x ∧ Encoding.code enc d x = some i) H) (hsv : SavedHirm H enc rels irms)
    (hnn : ∀ tb, rels.contains tb = true → 0 ≤ tb) : SuitsHirm schema obs rels irms := by
  have hmem : ∀ tb l n, rels.find? tb = some l → (n ∈ l ↔ H.tableOf n = some tb) := by
    intro tb l n hl
    rw [← hsv.relations, hl]
    rfl
  refine ⟨fun tb l hl => ⟨hnn tb (FMap.contains_iff.mpr ⟨l, hl⟩), hsv.nonempty tb l hl, ?_⟩, fun n => ⟨fun hn => ?_, ?_⟩, fun tb tb' l l' n h1 h2 h3 h4 => ?_, fun tb l hl => ?_⟩
  · have := hsv.once tb
    rw [hl] at this
    exact this
  · obtain ⟨tb, htb⟩ := hG.skel.table_some (by rw [hsch]; exact hn)
    have := (hsv.relations tb n).mpr htb
    cases hl : rels.find? tb with
    | none => rw [hl] at this; cases this
    | some l => rw [hl] at this; exact ⟨tb, l, hl, this⟩
  · rintro ⟨tb, l, hl, hn⟩
    rw [← hsch]
    exact tableOf_known hG.skel ((hmem tb l n hl).mp hn)
  · have r1 := (hmem _ _ _ h1).mp h3
    rw [(hmem _ _ _ h2).mp h4] at r1
    exact (Option.some.inj r1).symm
  · obtain ⟨n₀, hn₀⟩ := List.exists_mem_of_ne_nil l (hsv.nonempty tb l hl)
    have hT := (hmem tb l n₀ hl).mp hn₀
    obtain ⟨I, hI, _⟩ := hG.skel.irm hT
    obtain ⟨cl, hcl⟩ := FMap.contains_iff.mp ((hsv.tables tb).mpr ⟨n₀, hT⟩)
    refine ⟨cl, hcl, saved_suits_irm henc (fun d dom hd => ?_) (hk.seats tb I hI) (hsv.clusters tb I cl hI hcl)⟩
    have hinv := hG.inv tb I hI
    obtain ⟨s, hs'⟩ := FMap.contains_iff.mp ((hinv.names d).trans (FMap.contains_iff.mpr ⟨dom, hd⟩))
    obtain ⟨r, hr⟩ := hinv.used d s hs'
    obtain ⟨id, rel, hrel, hdr⟩ := (hinv.index d s hs' r).mp hr
    obtain ⟨sp, k1, k2⟩ := hG.matched (hG.skel.obj hI hrel)
    exact ⟨r, (hmem tb l r hl).mpr ((hG.skel.place tb I hI r).mp (FMap.contains_iff.mpr ⟨_, hrel⟩)), sp, by rw [← hsch]; exact k1, by rw [← k2.doms]; exact hdr⟩

end UtilIO

namespace HirmMain
open UtilIO
variable {w : World} {a : Args} {S : Schema (priors w)} {rows held : List Row}

theorem _root_.Verif.UtilIO.Marked.alike {S S' : Schema F} (h : Marked S S') : Alike S S' := by
  intro n
  rcases h n with h | h
  · rw [h]
  · rw [h]
    cases S.find? n with
    | none => rfl
    | some s =>
      cases s <;> rfl

end HirmMain
end
end Verif
