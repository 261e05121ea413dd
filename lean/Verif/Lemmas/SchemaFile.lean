import Verif.Spec.SchemaFile
import Verif.Lemmas.Text
import Verif.Lemmas.Parse
namespace Verif
open Text Verif.Lex

/-! ### specifications -/

theorem specArgs_append (l : List (List Char)) : ∀ (as : List Arg) (args : FMap String String), l = as.map (fun a => a.1 ++ '=' :: a.2) → (∀ a ∈ as, '=' ∉ a.1) →
    specArgs l args = .ok (putArgs args as) := by
  induction l with
  | nil =>
    intro as args h _
    cases as with
    | nil => rfl
    | cons a as => cases h
  | cons p l ih =>
    intro as args h hne
    cases as with
    | nil => cases h
    | cons a as =>
      simp only [List.map_cons, List.cons.injEq] at h
      obtain ⟨rfl, h⟩ := h
      have ha : ∀ x ∈ a.1, (x != '=') = true := fun x hx => by
        simp only [bne_iff_ne, ne_eq]
        rintro rfl
        exact hne a (by simp) hx
      have h1 : (a.1 ++ '=' :: a.2).takeWhile (· != '=') = a.1 := by
        rw [List.takeWhile_append_of_pos ha]
        simp
      have h2 : (a.1 ++ '=' :: a.2).dropWhile (· != '=') = '=' :: a.2 := by
        rw [List.dropWhile_append_of_pos ha]
        simp
      unfold specArgs
      rw [h1, h2]
      have h3 : (a.1 ++ '=' :: a.2).contains '=' = true := by simp
      rw [h3]
      exact ih as _ h (fun b hb => hne b (by simp [hb]))

theorem specArgs_ok : ∀ (l : List (List Char)) {args args' : FMap String String}, specArgs l args = .ok args' →
    ∃ as : List Arg, l = as.map (fun a => a.1 ++ '=' :: a.2) ∧ (∀ a ∈ as, '=' ∉ a.1) ∧ args' = putArgs args as := by
  intro l
  induction l with
  | nil => intro args args' h; cases h; exact ⟨[], rfl, by simp, rfl⟩
  | cons p l ih =>
    intro args args' h
    unfold specArgs at h
    obtain ⟨u, h1, h⟩ := bind_ok.mp h
    have h1 := assertR_ok.mp h1
    obtain ⟨as, rfl, h3, h4⟩ := ih h
    have hmem : '=' ∈ p := by simpa using h1
    obtain ⟨w, r, rfl, hw⟩ := List.eq_append_cons_of_mem hmem
    have ha : ∀ x ∈ w, (x != '=') = true := fun x hx => by
      simp only [bne_iff_ne, ne_eq]
      rintro rfl
      exact hw hx
    refine ⟨(w, r) :: as, rfl, ?_, ?_⟩
    · intro a ha
      rcases List.mem_cons.mp ha with rfl | ha
      · exact hw
      · exact h3 a ha
    · rw [h4, List.takeWhile_append_of_pos ha, List.dropWhile_append_of_pos ha]
      simp [putArgs]

theorem parts_argsText : ∀ (l : List Arg), (∀ a ∈ l, Arg.Ok a) → parts ',' (argsText l) = l.map (fun a => a.1 ++ '=' :: a.2)
  | [], _ => rfl
  | [a], h => by
    have ha := h a (by simp)
    rw [argsText, parts_last (by simp [ha.1, ha.2.2])]
    simp
  | a :: b :: l, h => by
    have ha := h a (by simp)
    rw [argsText, parts_cons (by simp [ha.1, ha.2.2]), parts_argsText (b :: l) (fun c hc => h c (by simp [hc]))]
    · rfl
    · simp

theorem argsText_comma : ∀ (l : List Arg), l ≠ [] → (∀ a ∈ l, Arg.Ok a) → parts ',' (argsText l ++ [',']) = l.map (fun a => a.1 ++ '=' :: a.2)
  | [], h, _ => absurd rfl h
  | [a], _, h => by
    have ha := h a (by simp)
    rw [argsText, parts_cons (by simp [ha.1, ha.2.2])]
    rfl
  | a :: b :: l, _, h => by
    have ha := h a (by simp)
    rw [argsText, List.append_assoc, List.cons_append, parts_cons (by simp [ha.1, ha.2.2]),
      argsText_comma (b :: l) (by simp) (fun c hc => h c (by simp [hc]))]
    · rfl
    · simp

/-- what can be split into given parts -/
theorem parts_inv : ∀ (ps : List (List Char)) (cs : List Char), parts ',' cs = ps → ps ≠ [] → (∀ p ∈ ps, p ≠ []) →
    cs = List.intercalate [','] ps ∨ cs = List.intercalate [','] ps ++ [','] := by
  intro ps
  induction ps with
  | nil => intro cs _ h; exact absurd rfl h
  | cons p ps ih =>
    intro cs h _ hne
    by_cases hc : ',' ∈ cs
    · obtain ⟨w, r, rfl, hw⟩ := List.eq_append_cons_of_mem hc
      rw [parts_cons hw] at h
      simp only [List.cons.injEq] at h
      obtain ⟨rfl, h⟩ := h
      by_cases hps : ps = []
      · subst hps
        have : r = [] := by
          by_contra hr
          obtain ⟨c, v, rfl⟩ := List.exists_cons_of_ne_nil hr
          by_cases hr2 : ',' ∈ c :: v
          · obtain ⟨w', r', h', hw'⟩ := List.eq_append_cons_of_mem hr2
            rw [h', parts_cons hw'] at h
            cases h
          · rw [parts_last hr2] at h
            cases h
        subst this
        right
        simp [List.intercalate]
      · rcases ih r h hps (fun q hq => hne q (by simp [hq])) with rfl | rfl
        · left
          obtain ⟨q, qs, rfl⟩ := List.exists_cons_of_ne_nil hps
          simp [List.intercalate]
        · right
          obtain ⟨q, qs, rfl⟩ := List.exists_cons_of_ne_nil hps
          simp [List.intercalate]
    · rw [parts_last hc] at h
      split at h
      · cases h
      · cases h
        left
        simp [List.intercalate]

theorem argsText_intercalate : ∀ (l : List Arg), argsText l = List.intercalate [','] (l.map (fun a => a.1 ++ '=' :: a.2))
  | [] => rfl
  | [a] => by simp [argsText, List.intercalate]
  | a :: b :: l => by
    rw [argsText, argsText_intercalate (b :: l)]
    · simp [List.intercalate]
    · simp

theorem distByName_iff {name : String} {x : DistEnum × ObsType} : distByName name = .ok x ↔ (name, x) ∈ distTable := by
  constructor
  · intro h
    unfold distByName at h
    repeat' split at h
    all_goals cases h
    all_goals subst_vars; simp [distTable]
  · intro h
    simp only [distTable, List.mem_cons, Prod.mk.injEq, List.not_mem_nil, or_false] at h
    rcases h with ⟨rfl, rfl⟩ | ⟨rfl, rfl⟩ | ⟨rfl, rfl⟩ | ⟨rfl, rfl⟩ | ⟨rfl, rfl⟩ | ⟨rfl, rfl⟩ | ⟨rfl, rfl⟩ | ⟨rfl, rfl⟩ | ⟨rfl, rfl⟩ <;> rfl

theorem emisByName_iff {name : String} {x : EmisEnum × ObsType} : emisByName name = .ok x ↔ (name, x) ∈ emisTable := by
  constructor
  · intro h
    unfold emisByName at h
    repeat' split at h
    all_goals cases h
    all_goals subst_vars; simp [emisTable]
  · intro h
    simp only [emisTable, List.mem_cons, Prod.mk.injEq, List.not_mem_nil, or_false] at h
    rcases h with ⟨rfl, rfl⟩ | ⟨rfl, rfl⟩ | ⟨rfl, rfl⟩ | ⟨rfl, rfl⟩ | ⟨rfl, rfl⟩ | ⟨rfl, rfl⟩ <;> rfl

/-! ### schema files -/
/-- setting the entries of a map one after the other gives the map -/
theorem foldl_entries {K V : Type} [Key K] (m : FMap K V) : m.entries.foldl (fun m e => m.set e.1 e.2) (∅ : FMap K V) = m := by
  have key : ∀ (l : List (K × V)) (m0 : FMap K V), (l.map Prod.fst).Nodup →
      (∀ k v, (k, v) ∈ l → (l.foldl (fun m e => m.set e.1 e.2) m0).find? k = some v) ∧
      (∀ k, k ∉ l.map Prod.fst → (l.foldl (fun m e => m.set e.1 e.2) m0).find? k = m0.find? k) := by
    intro l
    induction l with
    | nil => exact fun m0 _ => ⟨by simp, fun _ _ => rfl⟩
    | cons e l ih =>
      intro m0 hn
      rw [List.map_cons, List.nodup_cons] at hn
      obtain ⟨h1, h2⟩ := ih (m0.set e.1 e.2) hn.2
      refine ⟨fun k v h => ?_, fun k h => ?_⟩
      · rcases List.mem_cons.mp h with rfl | h
        · rw [List.foldl_cons, h2 _ hn.1, FMap.find?_set_self]
        · exact h1 k v h
      · rw [List.map_cons, List.mem_cons, not_or] at h
        rw [List.foldl_cons, h2 _ h.2, FMap.find?_set_ne _ h.1]
  obtain ⟨h1, h2⟩ := key m.entries ∅ m.nodupKeys
  apply FMap.ext
  intro k
  cases h : m.find? k with
  | some v => exact h1 k v (FMap.mem_entries.mpr h)
  | none =>
    rw [h2 k (fun hm => ?_), FMap.find?_empty]
    obtain ⟨v, hv⟩ := FMap.mem_keys.mp hm
    rw [h] at hv
    cases hv

theorem getl_subset {d : Char} (cs : List Char) : ∀ acc, ∀ p ∈ getl d acc cs, ∀ c ∈ p, c ∈ acc ∨ c ∈ cs := by
  induction cs with
  | nil =>
    intro acc p hp c hc
    unfold getl at hp
    split at hp
    · simp at hp
    · rw [List.mem_singleton] at hp
      subst hp
      exact .inl hc
  | cons x cs ih =>
    intro acc p hp c hc
    rw [getl] at hp
    split at hp
    · rcases List.mem_cons.mp hp with rfl | hp
      · exact .inl hc
      · rcases ih [] p hp c hc with h | h
        · simp at h
        · exact .inr (List.mem_cons_of_mem _ h)
    · rcases ih _ p hp c hc with h | h
      · rcases List.mem_append.mp h with h | h
        · exact .inl h
        · exact .inr (by rw [List.mem_singleton] at h; simp [h])
      · exact .inr (List.mem_cons_of_mem _ h)

theorem parts_subset {d : Char} {cs p : List Char} (h : p ∈ parts d cs) {c : Char} (hc : c ∈ p) : c ∈ cs := by
  rcases getl_subset cs [] p h c hc with h | h
  · simp at h
  · exact h

theorem mem_writeLine {l : List (Token × List Char)} {c : Char} (h : c ∈ Lex.writeLine l) :
    ∃ t b, (t, b) ∈ l ∧ (c ∈ t.val ∨ c ∈ b ∨ c = '"' ∨ c = '\'') := by
  induction l with
  | nil => simp [Lex.writeLine] at h
  | cons e l ih =>
    obtain ⟨t, b⟩ := e
    rw [Lex.writeLine, List.append_assoc, List.mem_append, List.mem_append] at h
    rcases h with h | h | h
    · refine ⟨t, b, by simp, ?_⟩
      unfold Lex.write at h
      split at h
      · split at h <;> simp at h <;> tauto
      · exact .inl h
    · exact ⟨t, b, by simp, .inr (.inl h)⟩
    · obtain ⟨t', b', h1, h2⟩ := ih h
      exact ⟨t', b', by simp [h1], h2⟩

/-- the parts that `boost::split` finds, joined with the delimiter, are the text -/
theorem splitAny_spec {d : Char} (cs : List Char) : ∀ acc, d ∉ acc → splitAny d acc cs ≠ [] ∧ (∀ x ∈ splitAny d acc cs, d ∉ x) ∧
    [d].intercalate (splitAny d acc cs) = acc ++ cs := by
  induction cs with
  | nil => intro acc h; exact ⟨by simp [splitAny], by simpa [splitAny] using h, by simp [splitAny, List.intercalate]⟩
  | cons c cs ih =>
    intro acc h
    rw [splitAny]
    split
    · next hc =>
      subst hc
      obtain ⟨h1, h2, h3⟩ := ih [] (by simp)
      refine ⟨by simp, fun x hx => ?_, ?_⟩
      · rcases List.mem_cons.mp hx with rfl | hx
        · exact h
        · exact h2 x hx
      · obtain ⟨a, l, he⟩ := List.exists_cons_of_ne_nil h1
        rw [he] at h3 ⊢
        have : [c].intercalate (acc :: a :: l) = acc ++ [c] ++ [c].intercalate (a :: l) := by simp [List.intercalate]
        rw [this, h3]
        simp
    · next hc =>
      obtain ⟨h1, h2, h3⟩ := ih (acc ++ [c]) (by simp [h, Ne.symm hc])
      exact ⟨h1, h2, by rw [h3]; simp⟩

namespace UtilIO

theorem loadParams_iff : ∀ (ts : List Token) (m0 m : FMap String String) (rest : List Token), loadParams ts m0 = .ok (m, rest) ↔ Params m0 ts m rest
  | [], m0, m, rest => ⟨fun h => (by cases h), fun h => by cases h⟩
  | [p], m0, m, rest => ⟨fun h => (by unfold loadParams at h; split at h <;> cases h), fun h => by cases h⟩
  | [p, eq], m0, m, rest => ⟨fun h => (by unfold loadParams at h; split at h; cases h; dsimp only at h; split at h <;> cases h), fun h => by cases h⟩
  | [p, eq, v], m0, m, rest => ⟨fun h => (by unfold loadParams at h; split at h; cases h; dsimp only at h; split at h <;> cases h), fun h => by cases h⟩
  | p :: eq :: v :: sep :: ts, m0, m, rest => by
    have ih := loadParams_iff ts (m0.set (String.ofList p.val) (String.ofList v.val)) m rest
    unfold loadParams
    by_cases hp : p.type = .identifier
    · rw [if_neg (by simp [hp])]
      dsimp only
      by_cases he : eq.val = "=".toList
      · rw [if_neg (by simp [he])]
        by_cases h1 : sep.val = ",".toList
        · rw [if_pos h1, ih]
          constructor
          · exact .more hp he h1
          · intro h
            cases h with
            | last _ _ h2 => rw [Token.Is, h1] at h2; cases h2
            | more _ _ _ h => exact h
        · rw [if_neg h1]
          by_cases h2 : sep.val = "]".toList
          · rw [if_pos h2]
            constructor
            · intro h; cases h; exact .last hp he h2
            · intro h
              cases h with
              | last _ _ _ => rfl
              | more _ _ h3 _ => exact absurd h3 h1
          · rw [if_neg h2]
            constructor
            · intro h; cases h
            · intro h
              cases h with
              | last _ _ h3 => exact absurd h3 h2
              | more _ _ h3 _ => exact absurd h3 h1
      · rw [if_pos he]
        constructor
        · intro h; cases h
        · intro h; cases h <;> exact absurd ‹_› he
    · rw [if_pos hp]
      constructor
      · intro h; cases h
      · intro h; cases h <;> exact absurd ‹_› hp

theorem loadParams_ub : ∀ (ts : List Token) (m0 : FMap String String), loadParams ts m0 = .error .ub ↔ ParamsCut ts
  | [], m0 => ⟨fun h => (by cases h), fun h => by cases h⟩
  | [p], m0 => ⟨fun h => (by unfold loadParams at h; split at h <;> cases h), fun h => by cases h⟩
  | [p, eq], m0 => by
    unfold loadParams
    dsimp only
    constructor
    · intro h
      split at h
      · cases h
      · rename_i hp
        split at h
        · cases h
        · rename_i he
          exact .eq (not_not.mp hp) (not_not.mp he)
    · intro h
      cases h with
      | eq hp he => rw [if_neg (by simp [hp]), if_neg (by simpa [Token.Is] using he)]
  | [p, eq, v], m0 => by
    unfold loadParams
    dsimp only
    constructor
    · intro h
      split at h
      · cases h
      · rename_i hp
        split at h
        · cases h
        · rename_i he
          exact .value (not_not.mp hp) (not_not.mp he)
    · intro h
      cases h with
      | value hp he => rw [if_neg (by simp [hp]), if_neg (by simpa [Token.Is] using he)]
  | p :: eq :: v :: sep :: ts, m0 => by
    have ih := loadParams_ub ts (m0.set (String.ofList p.val) (String.ofList v.val))
    unfold loadParams
    by_cases hp : p.type = .identifier
    · rw [if_neg (by simp [hp])]
      dsimp only
      by_cases he : eq.val = "=".toList
      · rw [if_neg (by simp [he])]
        by_cases h1 : sep.val = ",".toList
        · rw [if_pos h1, ih]
          exact ⟨.more hp he h1, fun h => by cases h; assumption⟩
        · rw [if_neg h1]
          constructor
          · intro h; split at h <;> cases h
          · intro h; cases h; exact absurd ‹Token.Is sep ","› h1
      · rw [if_pos he]
        constructor
        · intro h; cases h
        · intro h; cases h; exact absurd ‹Token.Is eq "="› he
    · rw [if_pos hp]
      constructor
      · intro h; cases h
      · intro h; cases h; exact absurd ‹p.type = _› hp

theorem loadDomains_iff : ∀ (ts : List Token) (ds : List String), loadDomains ts = .ok ds ↔ Domains ts ds
  | [], ds => ⟨fun h => (by cases h), fun h => by cases h⟩
  | [d], ds => ⟨fun h => (by cases h), fun h => by cases h⟩
  | d :: sep :: ts, ds => by
    unfold loadDomains
    dsimp only
    by_cases h1 : sep.val = ",".toList
    · rw [if_pos h1]
      constructor
      · intro h
        obtain ⟨ds', h2, h⟩ := bind_ok.mp h
        cases h
        exact .more h1 ((loadDomains_iff ts ds').mp h2)
      · intro h
        cases h with
        | last h2 => rw [Token.Is, h1] at h2; cases h2
        | more _ h2 => exact bind_ok.mpr ⟨_, (loadDomains_iff ts _).mpr h2, rfl⟩
    · rw [if_neg h1]
      by_cases h2 : sep.val = ")".toList
      · rw [if_pos h2]
        constructor
        · intro h; cases h; exact .last h2
        · intro h
          cases h with
          | last _ => rfl
          | more h3 _ => exact absurd h3 h1
      · rw [if_neg h2]
        constructor
        · intro h; cases h
        · intro h
          cases h with
          | last h3 => exact absurd h3 h2
          | more h3 _ => exact absurd h3 h1

theorem bind_error_iff {α β : Type} {x : Res α} {f : α → Res β} {e : Err} : (x >>= f) = .error e ↔ x = .error e ∨ ∃ a, x = .ok a ∧ f a = .error e := by
  cases x with
  | error e' =>
    show Except.error e' = Except.error e ↔ _
    simp
  | ok a =>
    show f a = .error e ↔ _
    simp

theorem loadDomains_ub : ∀ (ts : List Token), loadDomains ts = .error .ub ↔ DomainsCut ts
  | [] => ⟨fun _ => .nil, fun _ => rfl⟩
  | [d] => ⟨fun _ => .one, fun _ => rfl⟩
  | d :: sep :: ts => by
    unfold loadDomains
    dsimp only
    by_cases h1 : sep.val = ",".toList
    · rw [if_pos h1, bind_error_iff, loadDomains_ub ts]
      constructor
      · rintro (h | ⟨_, _, h⟩)
        · exact .more h1 h
        · cases h
      · intro h; cases h; left; assumption
    · rw [if_neg h1]
      constructor
      · intro h; split at h <;> cases h
      · intro h; cases h; exact absurd ‹Token.Is sep ","› h1

theorem loadTail_iff {name : String} {dist : List Char} {params : FMap String String} : ∀ (ts : List Token) (d : Decl), loadTail name dist params ts = .ok d ↔
    ∃ base doms, Tail ts base doms ∧ d = { name := name, dist := dist, params := params, base := base, doms := doms }
  | [], d => ⟨fun h => (by cases h), fun ⟨_, _, h, _⟩ => by cases h⟩
  | [par], d => ⟨fun h => (by unfold loadTail at h; dsimp only at h; split at h <;> cases h), fun ⟨_, _, h, _⟩ => by cases h⟩
  | [par, x], d => ⟨fun h => (by unfold loadTail at h; dsimp only at h; split at h; cases h; split at h <;> cases h), fun ⟨_, _, h, _⟩ => by cases h⟩
  | par :: x :: semi :: ts, d => by
    unfold loadTail
    dsimp only
    by_cases hp : par.val = "(".toList
    · rw [if_neg (by simp [hp])]
      by_cases hx : x.type = .identifier
      · rw [if_neg (by simp [hx])]
        by_cases hs : semi.val = ";".toList
        · rw [if_pos hs]
          constructor
          · intro h
            obtain ⟨ds, h1, h⟩ := bind_ok.mp h
            cases h
            exact ⟨_, _, .noisy hp hx hs ((loadDomains_iff _ _).mp h1), rfl⟩
          · rintro ⟨base, doms, h, rfl⟩
            cases h with
            | noisy _ _ _ h => exact bind_ok.mpr ⟨_, (loadDomains_iff _ _).mpr h, rfl⟩
            | clean _ _ h => exact absurd hs h
        · rw [if_neg hs]
          constructor
          · intro h
            obtain ⟨ds, h1, h⟩ := bind_ok.mp h
            cases h
            exact ⟨_, _, .clean hp hx hs ((loadDomains_iff _ _).mp h1), rfl⟩
          · rintro ⟨base, doms, h, rfl⟩
            cases h with
            | noisy _ _ h _ => exact absurd h hs
            | clean _ _ _ h => exact bind_ok.mpr ⟨_, (loadDomains_iff _ _).mpr h, rfl⟩
      · rw [if_pos hx]
        exact ⟨fun h => (by cases h), fun ⟨_, _, h, _⟩ => by cases h <;> exact absurd ‹_› hx⟩
    · rw [if_pos hp]
      exact ⟨fun h => (by cases h), fun ⟨_, _, h, _⟩ => by cases h <;> exact absurd ‹Token.Is par "("› hp⟩

theorem loadTail_ub {name : String} {dist : List Char} {params : FMap String String} : ∀ (ts : List Token), loadTail name dist params ts = .error .ub ↔ TailCut ts
  | [] => ⟨fun h => (by cases h), fun h => by cases h⟩
  | [par] => ⟨fun h => (by unfold loadTail at h; dsimp only at h; split at h <;> cases h), fun h => by cases h⟩
  | [par, x] => by
    unfold loadTail
    dsimp only
    constructor
    · intro h
      split at h
      · cases h
      · rename_i hp
        split at h
        · cases h
        · rename_i hx
          exact .one (not_not.mp hp) (not_not.mp hx)
    · intro h
      cases h with
      | one hp hx => rw [if_neg (by simpa [Token.Is] using hp), if_neg (by simp [hx])]
  | par :: x :: semi :: ts => by
    unfold loadTail
    dsimp only
    by_cases hp : par.val = "(".toList
    · rw [if_neg (by simp [hp])]
      by_cases hx : x.type = .identifier
      · rw [if_neg (by simp [hx])]
        by_cases hs : semi.val = ";".toList
        · rw [if_pos hs, bind_error_iff, loadDomains_ub]
          constructor
          · rintro (h | ⟨_, _, h⟩)
            · exact .noisy hp hx hs h
            · cases h
          · intro h
            cases h with
            | noisy _ _ _ h => exact .inl h
            | clean _ _ h => exact absurd hs h
        · rw [if_neg hs, bind_error_iff, loadDomains_ub]
          constructor
          · rintro (h | ⟨_, _, h⟩)
            · exact .clean hp hx hs h
            · cases h
          · intro h
            cases h with
            | noisy _ _ h _ => exact absurd h hs
            | clean _ _ _ h => exact .inl h
      · rw [if_pos hx]
        exact ⟨fun h => (by cases h), fun h => by cases h <;> exact absurd ‹_› hx⟩
    · rw [if_pos hp]
      exact ⟨fun h => (by cases h), fun h => by cases h <;> exact absurd ‹Token.Is par "("› hp⟩

theorem loadDecl_iff : ∀ (ts : List Token) (d : Decl), loadDecl ts = .ok d ↔ Line ts d
  | [], d => ⟨fun h => (by cases h), fun h => by cases h⟩
  | [r], d => ⟨fun h => (by unfold loadDecl at h; dsimp only at h; split at h <;> cases h), fun h => by cases h⟩
  | [r, tilde], d => ⟨fun h => (by unfold loadDecl at h; dsimp only at h; split at h; cases h; split at h <;> cases h), fun h => by cases h⟩
  | [r, tilde, dist], d => ⟨fun h => (by
      unfold loadDecl at h; dsimp only at h; split at h; cases h; split at h; cases h; split at h <;> cases h), fun h => by cases h⟩
  | r :: tilde :: dist :: br :: ts, d => by
    unfold loadDecl
    dsimp only
    by_cases hr : r.type = .identifier
    · rw [if_neg (by simp [hr])]
      by_cases ht : tilde.val = "~".toList
      · rw [if_neg (by simp [ht])]
        by_cases hd : dist.type = .identifier
        · rw [if_neg (by simp [hd])]
          by_cases hb : br.val = "[".toList
          · rw [if_pos hb]
            constructor
            · intro h
              obtain ⟨⟨m, rest⟩, h1, h⟩ := bind_ok.mp h
              obtain ⟨base, doms, h2, rfl⟩ := (loadTail_iff _ _).mp h
              exact .params hr ht hd hb ((loadParams_iff _ _ _ _).mp h1) h2
            · intro h
              cases h with
              | params _ _ _ _ h1 h2 => exact bind_ok.mpr ⟨_, (loadParams_iff _ _ _ _).mpr h1, (loadTail_iff _ _).mpr ⟨_, _, h2, rfl⟩⟩
              | plain _ _ _ h => exact absurd hb h
          · rw [if_neg hb]
            constructor
            · intro h
              obtain ⟨base, doms, h2, rfl⟩ := (loadTail_iff _ _).mp h
              exact .plain hr ht hd hb h2
            · intro h
              cases h with
              | params _ _ _ h => exact absurd h hb
              | plain _ _ _ _ h2 => exact (loadTail_iff _ _).mpr ⟨_, _, h2, rfl⟩
        · rw [if_pos hd]
          exact ⟨fun h => (by cases h), fun h => by cases h <;> exact absurd ‹dist.type = _› hd⟩
      · rw [if_pos ht]
        exact ⟨fun h => (by cases h), fun h => by cases h <;> exact absurd ‹Token.Is tilde "~"› ht⟩
    · rw [if_pos hr]
      exact ⟨fun h => (by cases h), fun h => by cases h <;> exact absurd ‹r.type = _› hr⟩

theorem loadDecl_ub : ∀ (ts : List Token), loadDecl ts = .error .ub ↔ Cut ts
  | [] => ⟨fun h => (by cases h), fun h => by cases h⟩
  | [r] => ⟨fun h => (by unfold loadDecl at h; dsimp only at h; split at h <;> cases h), fun h => by cases h⟩
  | [r, tilde] => ⟨fun h => (by unfold loadDecl at h; dsimp only at h; split at h; cases h; split at h <;> cases h), fun h => by cases h⟩
  | [r, tilde, dist] => by
    unfold loadDecl
    dsimp only
    constructor
    · intro h
      split at h
      · cases h
      · rename_i hr
        split at h
        · cases h
        · rename_i ht
          split at h
          · cases h
          · rename_i hd
            exact .dist (not_not.mp hr) (not_not.mp ht) (not_not.mp hd)
    · intro h
      cases h with
      | dist hr ht hd => rw [if_neg (by simp [hr]), if_neg (by simpa [Token.Is] using ht), if_neg (by simp [hd])]
  | r :: tilde :: dist :: br :: ts => by
    unfold loadDecl
    dsimp only
    by_cases hr : r.type = .identifier
    · rw [if_neg (by simp [hr])]
      by_cases ht : tilde.val = "~".toList
      · rw [if_neg (by simp [ht])]
        by_cases hd : dist.type = .identifier
        · rw [if_neg (by simp [hd])]
          by_cases hb : br.val = "[".toList
          · rw [if_pos hb, bind_error_iff, loadParams_ub]
            constructor
            · rintro (h | ⟨⟨m, rest⟩, h1, h⟩)
              · exact .params hr ht hd hb h
              · exact .tail hr ht hd hb ((loadParams_iff _ _ _ _).mp h1) ((loadTail_ub _).mp h)
            · intro h
              cases h with
              | params _ _ _ _ h => exact .inl h
              | tail _ _ _ _ h1 h2 => exact .inr ⟨_, (loadParams_iff _ _ _ _).mpr h1, (loadTail_ub _).mpr h2⟩
              | plain _ _ _ h => exact absurd hb h
          · rw [if_neg hb, loadTail_ub]
            constructor
            · exact .plain hr ht hd hb
            · intro h
              cases h with
              | params _ _ _ h => exact absurd h hb
              | tail _ _ _ h => exact absurd h hb
              | plain _ _ _ _ h => exact h
        · rw [if_pos hd]
          exact ⟨fun h => (by cases h), fun h => by cases h <;> exact absurd ‹dist.type = _› hd⟩
      · rw [if_pos ht]
        exact ⟨fun h => (by cases h), fun h => by cases h <;> exact absurd ‹Token.Is tilde "~"› ht⟩
    · rw [if_pos hr]
      exact ⟨fun h => (by cases h), fun h => by cases h <;> exact absurd ‹r.type = _› hr⟩

/-! ### written declarations -/

theorem params_written (rest : List Token) : ∀ (l : List (List Char × Token)) (m0 : FMap String String), l ≠ [] →
    Params m0 (paramToks l ++ symTok ']' :: rest) (l.foldl (fun m p => m.set (String.ofList p.1) (String.ofList p.2.val)) m0) rest
  | [], _, h => absurd rfl h
  | [p], m0, _ => .last rfl rfl rfl
  | p :: q :: l, m0, _ => .more rfl rfl rfl (params_written rest (q :: l) _ (by simp))

theorem domains_written (rest : List Token) : ∀ (l : List (List Char)), l ≠ [] → Domains (domToks l ++ symTok ')' :: rest) (l.map String.ofList)
  | [], h => absurd rfl h
  | [d], _ => .last rfl
  | d :: e :: l, _ => .more rfl (domains_written rest (e :: l) (by simp))

theorem tail_written {w : Written} (h : w.Ok) : Tail ([symTok '('] ++ (match w.base with | none => [] | some b => [idTok b, symTok ';']) ++ domToks w.doms ++ [symTok ')'])
    (String.ofList (w.base.getD [])) (w.doms.map String.ofList) := by
  have hd := domains_written [] w.doms h.doms
  cases hb : w.base with
  | some b => exact .noisy rfl rfl rfl hd
  | none =>
    obtain ⟨d, l, hl⟩ := List.exists_cons_of_ne_nil h.doms
    rw [hl] at hd ⊢
    cases l with
    | nil => exact .clean rfl rfl (by unfold Token.Is; decide) hd
    | cons e l => exact .clean rfl rfl (by unfold Token.Is; decide) hd

theorem loadDecl_written {w : Written} (h : w.Ok) : loadDecl w.tokens = .ok w.decl := by
  rw [loadDecl_iff]
  have ht := tail_written h
  by_cases hp : w.params = []
  · have : w.decl = { name := String.ofList w.name, dist := w.dist, params := ∅, base := String.ofList (w.base.getD []), doms := w.doms.map String.ofList } := by
      simp [Written.decl, Written.paramMap, hp]
    rw [this]
    unfold Written.tokens
    rw [if_pos hp]
    exact .plain rfl rfl rfl (by show ¬ (symTok '(').val = "[".toList; decide) ht
  · unfold Written.tokens
    rw [if_neg hp]
    have := params_written ([symTok '('] ++ (match w.base with | none => [] | some b => [idTok b, symTok ';']) ++ domToks w.doms ++ [symTok ')']) w.params ∅ hp
    simp only [List.append_assoc, List.cons_append, List.nil_append] at this ht ⊢
    exact .params rfl rfl rfl rfl this ht

theorem addDecl_written {V : Type} {F : Family V} {mkC : List Char → FMap String String → Res F.C} {mkE : List Char → FMap String String → Res F.E}
    {w : Written} (h : w.Ok) {n : String} {spec : RelSpec F} (hd : w.Declares mkC mkE n spec) (schema : Schema F) :
    addDecl mkC mkE schema w.decl = .ok (schema.set n spec) := by
  obtain ⟨rfl, hd⟩ := hd
  have hl : decide (0 < w.decl.doms.length) = true := by
    simp only [Written.decl, List.length_map, decide_eq_true_eq]
    exact List.length_pos_iff.mpr h.doms
  unfold addDecl
  cases hb : w.base with
  | none =>
    rw [hb] at hd
    obtain ⟨c, h1, rfl⟩ := hd
    rw [if_pos (by simp [Written.decl, hb])]
    exact bind_ok.mpr ⟨(), (assertR_ok (u := ())).mpr hl, bind_ok.mpr ⟨c, h1, rfl⟩⟩
  | some b =>
    rw [hb] at hd
    obtain ⟨e, h1, rfl⟩ := hd
    have hne : w.decl.base ≠ "" := by
      intro he
      have h2 : String.ofList b = "" := by simpa [Written.decl, hb] using he
      have : b = [] := by
        have := congrArg String.toList h2
        simpa using this
      exact h.base (by rw [hb, this])
    rw [if_neg hne]
    refine bind_ok.mpr ⟨(), (assertR_ok (u := ())).mpr hl, bind_ok.mpr ⟨e, h1, ?_⟩⟩
    simp [Written.decl, hb]

theorem tokens_ne_nil (w : Written) : w.tokens ≠ [] := by simp [Written.tokens]

/-- lines that are declarations or say nothing -/
theorem schemaLines_written {V : Type} {F : Family V} {mkC : List Char → FMap String String → Res F.C} {mkE : List Char → FMap String String → Res F.E} :
    ∀ {ls : List (List Char)} {ws : List (Option Written)} {es : List (String × RelSpec F)} (schema : Schema F),
    List.Forall₂ (fun line w => tokenize line = some ((w.map Written.tokens).getD [])) ls ws →
    List.Forall₂ (fun w e => w.Ok ∧ w.Declares mkC mkE e.1 e.2) (ws.filterMap id) es →
    schemaLines mkC mkE ls schema = .ok (es.foldl (fun m e => m.set e.1 e.2) schema) := by
  intro ls ws es schema h
  induction h generalizing es schema with
  | nil => intro h2; cases h2; rfl
  | @cons line w ls ws h _ ih =>
    intro h2
    cases w with
    | none =>
      unfold schemaLines
      rw [h]
      exact ih schema h2
    | some w =>
      cases h2 with
      | @cons _ e _ es h3 h4 =>
        unfold schemaLines
        rw [h]
        obtain ⟨t, ts, ht⟩ := List.exists_cons_of_ne_nil (tokens_ne_nil w)
        have hl := loadDecl_written h3.1
        simp only [Option.map_some, Option.getD_some]
        rw [ht] at hl ⊢
        refine bind_ok.mpr ⟨_, hl, bind_ok.mpr ⟨_, addDecl_written h3.1 h3.2 schema, ?_⟩⟩
        exact ih _ h4

end UtilIO
end Verif
