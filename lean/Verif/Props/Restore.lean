import Verif.Lemmas.RestoreRun
/-!
C76: what is loaded from a cluster file is what the file says.
-/
namespace Verif
variable {V : Type} {F : Family V}
namespace HirmMain
open UtilIO Text

theorem inCluster_unique {σ : Doms} {d : String} {c c' i : Int} (h : InCluster σ d c i) (h' : InCluster σ d c' i) : c = c' := by
  obtain ⟨dom, h1, h2⟩ := h
  obtain ⟨dom', h3, h4⟩ := h'
  rw [h1] at h3; cases h3
  rw [h2] at h4; cases h4; rfl

theorem DomAll.inCluster {σ : Doms} (h : DomAll TidyDom σ) {d : String} {i : Int} (hs : Seated σ d i) : ∃ c, InCluster σ d c i := by
  obtain ⟨dom, hd, hi⟩ := hs
  obtain ⟨c, hc⟩ := (h d dom hd).2.1.mem.mp hi
  exact ⟨c, dom, hd, hc⟩

theorem _root_.Verif.UtilIO.Codes.use {enc : Encoding} {ds nm : List String} {k : Items} (hk : Codes enc ds nm k) {d x : String} (h : (d, x) ∈ ds.zip nm) :
    ∃ j, Encoding.code enc d x = some j ∧ Uses ds d j k := by
  obtain ⟨m, hm⟩ := List.mem_iff_getElem?.mp h
  rw [List.getElem?_zip_eq_some] at hm
  have hlt : m < k.length := by rw [hk.1]; exact (List.getElem?_eq_some_iff.mp hm.2).1
  obtain ⟨d', g1, g2⟩ := hk.2 m x k[m] hm.2 (List.getElem?_eq_getElem hlt)
  rw [hm.1] at g1; cases g1
  exact ⟨_, g2, hk.uses.mpr ⟨x, h, g2⟩⟩

/-- entities of a file and of observations -/
theorem joined_clusters {Q : String → Int → Prop} {M : String → String → Prop} {S : Schema F} {obs : ObsMap String} {enc : Encoding} {cl : Clusters} {σ₀ σ : Doms}
    (he : Numbers S obs enc) (hp : Placed enc cl σ₀) (hj : Joins Q σ₀ σ) (hQ : ∀ d i, Q d i ↔ ∃ x, M d x ∧ Encoding.code enc d x = some i)
    (hs : ∀ d i, Q d i → ∃ c, InCluster σ d c i) :
    (∀ d c x, x ∈ listed cl d c → ∃ i, Encoding.code enc d x = some i ∧ InCluster σ d c i) ∧
    (∀ d x i, M d x → Encoding.code enc d x = some i → ∃ c, InCluster σ d c i) ∧
    ∀ d c i, InCluster σ d c i → ∃ x, Encoding.entity enc d i = some x ∧ (x ∈ listed cl d c ∨ (∀ c', x ∉ listed cl d c') ∧ M d x) := by
  have h1 : ∀ d c x, x ∈ listed cl d c → ∃ i, Encoding.code enc d x = some i ∧ InCluster σ d c i := by
    intro d c x hx
    obtain ⟨i, hi⟩ := hp.1 d c x hx
    exact ⟨i, hi, hj.old d c i ((hp.2 d c i).mpr ⟨x, hx, hi⟩)⟩
  refine ⟨h1, fun d x i hM hx => hs d i ((hQ d i).mpr ⟨x, hM, hx⟩), fun d c i hi => ?_⟩
  rcases hj.new d c i hi with h | h
  · obtain ⟨x, hx, hc⟩ := (hp.2 d c i).mp h
    exact ⟨x, ((he d).1 x i).mp hc, .inl hx⟩
  · obtain ⟨x, hM, hc⟩ := (hQ d i).mp h
    refine ⟨x, ((he d).1 x i).mp hc, ?_⟩
    by_cases hl : ∃ c', x ∈ listed cl d c'
    · obtain ⟨c', hl⟩ := hl
      obtain ⟨j, hj1, hj2⟩ := h1 d c' x hl
      rw [hc] at hj1; cases hj1
      rw [inCluster_unique hi hj2]
      exact .inl hl
    · exact .inr ⟨fun c' hl' => hl ⟨c', hl'⟩, hM⟩

/-- **C76**: in an IRM that is loaded from a file, each entity that the file lists is in the cluster that the file says.  The entities of the
observations that the file does not list are in some cluster, too; nothing else is in a cluster. -/
theorem C76_irm_loaded {R : Reader F} {a : Args} {t₀ t₁ t t' : Tape} {i : Inputs F} {I : IRM F} {text : List Char} (hi : readInputs R a t₀ = .ok (i, t₁))
    (ha : a.clusters = some text) (h : startIrm R a i t = .ok (I, t')) :
    ∃ cl enc, loadClustersIrm text = .ok cl ∧ Numbers i.schema i.observations enc ∧
      (∀ d c x, x ∈ listed cl d c → ∃ j, Encoding.code enc d x = some j ∧ InCluster I.doms d c j) ∧
      (∀ n d x j, Mentions i.schema i.observations n d x → Encoding.code enc d x = some j → ∃ c, InCluster I.doms d c j) ∧
      (∀ d c j, InCluster I.doms d c j → ∃ x, Encoding.entity enc d j = some x ∧
        (x ∈ listed cl d c ∨ (∀ c', x ∉ listed cl d c') ∧ ∃ n, Mentions i.schema i.observations n d x)) ∧
      ∀ n k, I.stores n k = true ↔ Stated i.schema i.observations enc n k := by
  have hg := readInputs_given hi
  obtain ⟨S, t2, cl, al, h1, hp, h⟩ := startIrm_load hg ha h
  obtain ⟨enc, t3, σ₀, q1, q2, q3, q4, q5, q6, q7⟩ := irmFromTxt_filled hp h
  have hn := numbers q1
  obtain ⟨a1, a2, a3⟩ := joined_clusters (M := fun d x => ∃ n, Mentions i.schema i.observations n d x) hn q3 q4.joins (fun d j => by
    rw [q6 d j]
    exact ⟨fun ⟨n, x, hm, hc⟩ => ⟨x, ⟨n, hm.alike al⟩, hc⟩, fun ⟨x, ⟨n, hm⟩, hc⟩ => ⟨n, x, hm.alike al.symm, hc⟩⟩)
    (fun d j hf => DomAll.inCluster (HIRM.DomAll.seated (q7.seats)) (q4.seated d j hf))
  exact ⟨cl, enc, h1, hn.alike al, a1, fun n d x j hM hx => a2 d x j ⟨n, hM⟩ hx, a3, fun n k => (q5 n k).trans ⟨fun h => h.alike al, fun h => h.alike al.symm⟩⟩

/-- **C76**: in an HIRM that is loaded from a file, each relation is in the cluster of relations that the file says, and in the IRM of that
cluster each entity that the file lists is in the cluster that the file says.  The entities of the observations of the relations of the
cluster that the file does not list are in some cluster, too; nothing else is in a cluster. -/
theorem C76_hirm_loaded {R : Reader F} {a : Args} {t₀ t₁ t t' : Tape} {i : Inputs F} {H : HIRM F} {text : List Char} (hi : readInputs R a t₀ = .ok (i, t₁))
    (ha : a.clusters = some text) (h : startHirm R a i t = .ok (H, t')) {rels : FMap Int (List String)} {irms : FMap Int Clusters}
    (hl : loadClustersHirm text = .ok (rels, irms))
    (hone : ∀ tb tb' l l' n, rels.find? tb = some l → rels.find? tb' = some l' → n ∈ l → n ∈ l' → tb = tb') :
    (∀ n tb, H.tableOf n = some tb ↔ ∃ l, rels.find? tb = some l ∧ n ∈ l) ∧
    ∃ enc, Numbers i.schema i.observations enc ∧
      (∀ tb I, H.irms.find? tb = some I → ∃ cl, irms.find? tb = some cl ∧
        (∀ d c x, x ∈ listed cl d c → ∃ j, Encoding.code enc d x = some j ∧ InCluster I.doms d c j) ∧
        (∀ n d x j, H.tableOf n = some tb → Mentions i.schema i.observations n d x → Encoding.code enc d x = some j → ∃ c, InCluster I.doms d c j) ∧
        ∀ d c j, InCluster I.doms d c j → ∃ x, Encoding.entity enc d j = some x ∧
          (x ∈ listed cl d c ∨ (∀ c', x ∉ listed cl d c') ∧ ∃ n, H.tableOf n = some tb ∧ Mentions i.schema i.observations n d x)) ∧
      ∀ n k, H.stores n k = true ↔ Stated i.schema i.observations enc n k := by
  have hg := readInputs_given hi
  obtain ⟨S, t2, rels', irms', al, h1, hp, h⟩ := startHirm_load hg ha h
  rw [hl] at h1; cases h1
  have hnn : ∀ tb, rels.contains tb = true → 0 ≤ tb := loadClustersHirm_nonneg hl
  obtain ⟨enc, t3, q1, q2, q3, q4, q5⟩ := hirmFromTxt_filled hp hnn hone h
  have hn := numbers q1
  obtain ⟨_, _, _, _, hk, _⟩ := hirmFromTxt_stores hp h
  refine ⟨q4, enc, hn.alike al, fun tb I hI => ?_, fun n k => (q3 n k).trans ⟨fun h => h.alike al, fun h => h.alike al.symm⟩⟩
  obtain ⟨cl, σ₀, r1, r2, r3, r4, r5⟩ := q5 tb I hI
  obtain ⟨a1, a2, a3⟩ := joined_clusters (M := fun d x => ∃ n, H.tableOf n = some tb ∧ Mentions i.schema i.observations n d x) hn r2 r3 (fun d j => by
    rw [r5 d j]
    exact ⟨fun ⟨n, x, ht, hm, hc⟩ => ⟨x, ⟨n, ht, hm.alike al⟩, hc⟩, fun ⟨x, ⟨n, ht, hm⟩, hc⟩ => ⟨n, x, ht, hm.alike al.symm, hc⟩⟩)
    (fun d j hf => DomAll.inCluster (HIRM.DomAll.seated (hk.seats tb I hI)) (r4 d j hf))
  exact ⟨cl, r1, a1, fun n d x j hT hM hx => a2 d x j ⟨n, hT, hM⟩ hx, a3⟩

/-- **C76**: a run of `hirm` never stores, loses or moves an observation: at the end of inference, each relation has exactly the tuples of
its observations, and for each tuple of a noisy relation the base has the first entities of it. -/
theorem C76_hirm_stores {R : Reader F} {a : Args} {t t' : Tape} {i : Inputs F} {H : HIRM F} (h : fitHirm R a t = .ok ((i, H), t')) :
    ∃ enc, (a.clusters = none → enc = i.encoding) ∧ (a.clusters ≠ none → Numbers i.schema i.observations enc) ∧
      ∀ n k, H.stores n k = true ↔ Stated i.schema i.observations enc n k := by
  obtain ⟨⟨i', t1⟩, h1, h⟩ := bind_ok.mp h
  obtain ⟨⟨H0, t2⟩, h2, h⟩ := bind_ok.mp h
  obtain ⟨⟨H1, t3⟩, h3, h⟩ := bind_ok.mp h
  cases h
  have hg := readInputs_given h1
  cases ha : a.clusters with
  | none =>
    obtain ⟨_, hT, _, hs, _⟩ := startHirm_new hg ha h2
    exact ⟨i.encoding, fun _ => rfl, fun h => absurd rfl h, fun n k => by rw [HIRM.inference_stores _ _ _ _ hT h3]; exact hs n k⟩
  | some text =>
    obtain ⟨S, t2, rels, irms, al, _, hp, h2⟩ := startHirm_load hg ha h2
    obtain ⟨enc, _, q1, _, q2, q3⟩ := hirmFromTxt_stores hp h2
    exact ⟨enc, fun h => (by cases h), fun _ => (numbers q1).alike al, fun n k => by
      rw [HIRM.inference_stores _ _ _ _ q2.tidy h3]
      exact (q3 n k).trans ⟨fun h => h.alike al, fun h => h.alike al.symm⟩⟩

/-- **C76**: the same for the mode `irm`. -/
theorem C76_irm_stores {R : Reader F} {a : Args} {t t' : Tape} {i : Inputs F} {I : IRM F} (h : fitIrm R a t = .ok ((i, I), t')) :
    ∃ enc, (a.clusters = none → enc = i.encoding) ∧ (a.clusters ≠ none → Numbers i.schema i.observations enc) ∧
      ∀ n k, I.stores n k = true ↔ Stated i.schema i.observations enc n k := by
  obtain ⟨⟨i', t1⟩, h1, h⟩ := bind_ok.mp h
  obtain ⟨⟨I0, t2⟩, h2, h⟩ := bind_ok.mp h
  obtain ⟨⟨I1, t3⟩, h3, h⟩ := bind_ok.mp h
  cases h
  have hg := readInputs_given h1
  have hst := (inferenceIrm_stores _ _ _ _ h3).1
  cases ha : a.clusters with
  | none =>
    obtain ⟨_, hs, _⟩ := startIrm_new hg ha h2
    exact ⟨i.encoding, fun _ => rfl, fun h => absurd rfl h, fun n k => by rw [hst]; exact hs n k⟩
  | some text =>
    obtain ⟨cl, enc, _, q1, _, _, _, q2⟩ := C76_irm_loaded h1 ha h2
    exact ⟨enc, fun h => (by cases h), fun _ => q1, fun n k => by rw [hst]; exact q2 n k⟩

/-- what was seated is listed in the saved file, so loading it gives the same clusters -/
theorem same_of_saved {σ σ' : Doms} {e enc : Encoding} {cl : Clusters} {M : String → String → Prop} (hsv : Saved σ e cl)
    (henc : ∀ d x c, Encoding.code enc d x = some c ↔ Encoding.entity enc d c = some x)
    (h1 : ∀ d c x, x ∈ listed cl d c → ∃ j, Encoding.code enc d x = some j ∧ InCluster σ' d c j)
    (h2 : ∀ d c j, InCluster σ' d c j → ∃ x, Encoding.entity enc d j = some x ∧ (x ∈ listed cl d c ∨ (∀ c', x ∉ listed cl d c') ∧ M d x))
    (hM : ∀ d x, M d x → ∃ c i, InCluster σ d c i ∧ Encoding.entity e d i = some x) : SameClusters σ e σ' enc := by
  intro d c x
  rw [← hsv.same d c x]
  constructor
  · intro hx
    obtain ⟨j, k1, k2⟩ := h1 d c x hx
    exact ⟨j, k2, (henc d x j).mp k1⟩
  · rintro ⟨j, k1, k2⟩
    obtain ⟨y, k3, k4⟩ := h2 d c j k1
    rw [k2] at k3; cases k3
    rcases k4 with k4 | ⟨k4, k5⟩
    · exact k4
    · obtain ⟨c', i, q⟩ := hM d x k5
      exact absurd ((hsv.same d c' x).mpr ⟨i, q⟩) (k4 c')

/-- **C76**: saving and loading is a round trip.  If a run of `hirm` has saved its clusters and a second run with the same schema and
observations loads the file, then the second starts with the clusters that the first ended with: each relation is in the same cluster of
relations, and each entity is in the same cluster of the same domain of the same IRM.  (The stored tuples are the same by `C76_hirm_stores`.) -/
theorem C76_hirm_round_trip {R : Reader F} {a a' : Args} {t t' t₁ t₂ t₃ t₄ : Tape} {i i' : Inputs F} {H H' : HIRM F} {text : List Char}
    (h : saveHirm R a t = .ok ((i, H, text), t')) (ha : a.clusters = none)
    (hw : ∀ d c x, Encoding.entity i.encoding d c = some x → Word d ∧ DomainWord d ∧ Word x)
    (hs : a'.schema = a.schema) (ho : a'.obs = a.obs) (ha' : a'.clusters = some text)
    (hr : readInputs R a' t₁ = .ok (i', t₂)) (h' : startHirm R a' i' t₃ = .ok (H', t₄)) :
    ∃ enc, Numbers i.schema i.observations enc ∧ (∀ n, H'.tableOf n = H.tableOf n) ∧
      ∀ tb I I', H.irms.find? tb = some I → H'.irms.find? tb = some I' → SameClusters I.doms i.encoding I'.doms enc := by
  obtain ⟨rels, irms, hl, hsv⟩ := C71_reads_back h hw
  obtain ⟨⟨⟨i₀, H₀⟩, t5⟩, h0, h⟩ := bind_ok.mp h
  obtain ⟨⟨_, _⟩, _, h⟩ := bind_ok.mp h
  cases h
  obtain ⟨⟨i₀, t6⟩, h1, h⟩ := bind_ok.mp h0
  obtain ⟨⟨Hs, t7⟩, h2, h⟩ := bind_ok.mp h
  obtain ⟨⟨H1, t8⟩, h3, h⟩ := bind_ok.mp h
  cases h
  have hg := readInputs_given h1
  obtain ⟨al, eo⟩ := hg.same (readInputs_given hr) hs ho
  obtain ⟨p1, p2, p3, p4, p5⟩ := startHirm_new hg ha h2
  have hst := HIRM.inference_stores _ _ _ _ p2 h3
  have hfirm := HIRM.Firm.inference _ _ _ _ p3 h3
  have hT : H.Tidy := (HIRM.inference_tidy _ _ _ _ p2 h3).1
  have hsch : H.schema = i.schema := (HIRM.inference_schema h3).trans p1
  obtain ⟨merged, te, te', henc, _⟩ := hg.encoding
  have hnum := numbers henc
  have hone : ∀ tb tb' l l' n, rels.find? tb = some l → rels.find? tb' = some l' → n ∈ l → n ∈ l' → tb = tb' := by
    intro tb tb' l l' n q1 q2 q3 q4
    have r1 := (hsv.relations tb n).mp (by rw [q1]; exact q3)
    have r2 := (hsv.relations tb' n).mp (by rw [q2]; exact q4)
    rw [r1] at r2; cases r2; rfl
  obtain ⟨c1, enc, c2, c3, c4⟩ := C76_hirm_loaded hr ha' h' hl hone
  rw [eo] at c2 c3 c4
  have htab : ∀ n tb, H'.tableOf n = some tb ↔ H.tableOf n = some tb := by
    intro n tb
    rw [c1, ← hsv.relations]
    cases rels.find? tb <;> simp
  refine ⟨enc, c2.alike al, fun n => Option.ext (htab n), fun tb I I' hI hI' => ?_⟩
  · obtain ⟨cl, k1, k2, _, k3⟩ := c3 tb I' hI'
    refine same_of_saved (M := fun d x => ∃ n, H.tableOf n = some tb ∧ Mentions i.schema i.observations n d x) (hsv.clusters tb I cl hI k1) (fun d => (c2 d).1) k2
      (fun d c j hj => ?_) (fun d x hx => ?_)
    · obtain ⟨x, q1, q2⟩ := k3 d c j hj
      exact ⟨x, q1, q2.imp id (fun ⟨q3, n, q4, q5⟩ => ⟨q3, n, (htab n tb).mp q4, q5.alike al⟩)⟩
    · obtain ⟨n, q1, spec, names, q2, q3, q4⟩ := hx
      obtain ⟨k, hk⟩ := p5 n spec names q2 q3
      obtain ⟨j, hj⟩ := hk.use q4
      have hsto : H.stores n k = true := by rw [hst]; exact (p4 n k).mpr ⟨spec, names, q2, q3, hk⟩
      have hsd : Seated I.doms d j := by
        have hc := (hT.skel.place tb I hI n).mpr q1
        obtain ⟨y, hy⟩ := FMap.contains_iff.mp hc
        obtain ⟨_, sp, r1, r2⟩ := hT.irms tb I hI n y hy
        have r3 := hT.skel.specs tb I hI n hc
        rw [r1, hsch, q2] at r3; cases r3
        refine (hfirm tb I hI).seated n y hy k ?_ d j (by rw [r2]; exact hj.2)
        unfold HIRM.stores at hsto
        rw [HIRM.dataOf_irm hI q1] at hsto
        unfold IRM.dataOf at hsto
        rw [hy] at hsto
        exact hsto
      obtain ⟨c, hc⟩ := DomAll.inCluster (hfirm tb I hI).doms hsd
      exact ⟨c, j, hc, ((hnum d).1 x j).mp hj.1⟩

/-- **C76**: saving and loading is a round trip in the mode `irm`, too. -/
theorem C76_irm_round_trip {R : Reader F} {a a' : Args} {t t' t₁ t₂ t₃ t₄ : Tape} {i i' : Inputs F} {I I' : IRM F} {text : List Char}
    (h : saveIrm R a t = .ok ((i, I, text), t')) (ha : a.clusters = none)
    (hw : ∀ d c x, Encoding.entity i.encoding d c = some x → Word d ∧ Word x)
    (hs : a'.schema = a.schema) (ho : a'.obs = a.obs) (ha' : a'.clusters = some text)
    (hr : readInputs R a' t₁ = .ok (i', t₂)) (h' : startIrm R a' i' t₃ = .ok (I', t₄)) :
    ∃ enc, Numbers i.schema i.observations enc ∧ SameClusters I.doms i.encoding I'.doms enc := by
  obtain ⟨cl, hl, hsv⟩ := C73_reads_back h hw
  obtain ⟨⟨⟨i₀, I₀⟩, t5⟩, h0, h⟩ := bind_ok.mp h
  obtain ⟨⟨_, _⟩, _, h⟩ := bind_ok.mp h
  cases h
  have hk := fitIrm_seats h0
  obtain ⟨⟨i₀, t6⟩, h1, h⟩ := bind_ok.mp h0
  obtain ⟨⟨Is, t7⟩, h2, h⟩ := bind_ok.mp h
  obtain ⟨⟨I1, t8⟩, h3, h⟩ := bind_ok.mp h
  cases h
  have hg := readInputs_given h1
  obtain ⟨al, eo⟩ := hg.same (readInputs_given hr) hs ho
  obtain ⟨p1, p2, p3, p4⟩ := startIrm_new hg ha h2
  have hsi := (inferenceIrm_stores _ _ _ _ h3).2
  obtain ⟨merged, te, te', henc, _⟩ := hg.encoding
  have hnum := numbers henc
  obtain ⟨cl', enc, c1, c2, c3, _, c4, _⟩ := C76_irm_loaded hr ha' h'
  rw [hl] at c1; cases c1
  rw [eo] at c2 c4
  refine ⟨enc, c2.alike al, same_of_saved (M := fun d x => ∃ n, Mentions i.schema i.observations n d x) hsv (fun d => (c2 d).1) c3 (fun d c j hj => ?_) (fun d x hx => ?_)⟩
  · obtain ⟨x, q1, q2⟩ := c4 d c j hj
    exact ⟨x, q1, q2.imp id (fun ⟨q3, n, q4⟩ => ⟨q3, n, q4.alike al⟩)⟩
  · obtain ⟨n, spec, names, q2, q3, q4⟩ := hx
    obtain ⟨k, hk'⟩ := p3 n spec names q2 q3
    obtain ⟨j, hj1, hj2⟩ := hk'.use q4
    have hfed : Is.Fed d j := ⟨n, spec, k, by rw [p1]; exact q2, (p2 n k).mpr ⟨spec, names, q2, q3, hk'⟩, hj2⟩
    obtain ⟨c, hc⟩ := DomAll.inCluster (HIRM.DomAll.seated hk) (hsi.seated (p4 d j hfed))
    exact ⟨c, j, hc, ((hnum d).1 x j).mp hj1⟩

/-! ### Examples -/
section Examples
open Latent

theorem two_words {i : Inputs bools} (e : names i.encoding = [("D", 0, "a"), ("D", 1, "b"), ("E", 0, "x")]) (d : String) (c : Int) (x : String)
    (h : Encoding.entity i.encoding d c = some x) : Word d ∧ DomainWord d ∧ Word x := by
  have h := mem_names h
  rw [e] at h
  simp only [List.mem_cons, Prod.mk.injEq, List.not_mem_nil, or_false] at h
  rcases h with ⟨rfl, rfl, rfl⟩ | ⟨rfl, rfl, rfl⟩ | ⟨rfl, rfl, rfl⟩ <;> unfold Word DomainWord <;> decide

/-- C76_hirm_round_trip: a run and a second one that loads what the first has saved -/
example : ∃ i H text t' i' t₂ H' t₄, saveHirm boolReader two [] = .ok ((i, H, text), t') ∧
    (∀ d c x, Encoding.entity i.encoding d c = some x → Word d ∧ DomainWord d ∧ Word x) ∧
    readInputs boolReader { two with clusters := some text } [] = .ok (i', t₂) ∧ startHirm boolReader { two with clusters := some text } i' [] = .ok (H', t₄) :=
  ⟨twoInputs, _, _, _, _, _, _, _, rfl, two_words rfl, rfl, rfl⟩

/-- C76_irm_round_trip -/
example : ∃ i I text t' i' t₂ I' t₄, saveIrm boolReader two [] = .ok ((i, I, text), t') ∧
    (∀ d c x, Encoding.entity i.encoding d c = some x → Word d ∧ Word x) ∧
    readInputs boolReader { two with clusters := some text } [] = .ok (i', t₂) ∧ startIrm boolReader { two with clusters := some text } i' [] = .ok (I', t₄) :=
  ⟨twoInputs, _, _, _, _, _, _, _, rfl, fun d c x h => ⟨(two_words rfl d c x h).1, (two_words rfl d c x h).2.2⟩, rfl, rfl⟩

/-- C76_hirm_loaded: a file that does not list the entity `c` of the observations -/
example : ∃ i t₁ H t' rels irms, readInputs boolReader { both with clusters := some "0 R S\n\nirm=0\nD 0 a\n".toList } [] = .ok (i, t₁) ∧
    startHirm boolReader { both with clusters := some "0 R S\n\nirm=0\nD 0 a\n".toList } i [] = .ok (H, t') ∧
    loadClustersHirm "0 R S\n\nirm=0\nD 0 a\n".toList = .ok (rels, irms) ∧
    ∀ tb tb' l l' n, rels.find? tb = some l → rels.find? tb' = some l' → n ∈ l → n ∈ l' → tb = tb' := by
  refine ⟨_, _, _, _, (∅ : FMap Int (List String)).set 0 ["R", "S"], _, rfl, rfl, rfl, fun tb tb' l l' n h1 h2 _ _ => ?_⟩
  rw [FMap.find?_set] at h1 h2
  split at h1
  · split at h2
    · subst tb; subst tb'; rfl
    · cases h2
  · cases h1

/-- C76_irm_loaded -/
example : ∃ i t₁ I t', readInputs boolReader { two with clusters := some "D 0 a\nD 2 b\n".toList } [] = .ok (i, t₁) ∧
    startIrm boolReader { two with clusters := some "D 0 a\nD 2 b\n".toList } i [] = .ok (I, t') := ⟨_, _, _, _, rfl, rfl⟩

/-- C76_hirm_stores and C76_irm_stores: the base `B` gets the tuple of the noisy relation `A` -/
example : ∃ i H t', fitHirm boolReader late [] = .ok ((i, H), t') ∧ H.stores "B" [0] = true ∧ i.observations.contains "B" = false := ⟨_, _, _, rfl, rfl, rfl⟩

example : ∃ i I t', fitIrm boolReader two [] = .ok ((i, I), t') ∧ I.stores "S" [0, 0] = true := ⟨_, _, _, rfl, rfl⟩

end Examples

end HirmMain
end Verif
