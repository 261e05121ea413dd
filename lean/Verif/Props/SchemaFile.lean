import Verif.Lemmas.SchemaFile
import Verif.Props.Parse
import Verif.Props.UtilIO
import Verif.Props.LatentValue
import Verif.Lemmas.ClusterFile
/-!
Distribution specifications and schema files: C39, C53, C54.
-/
namespace Verif
open Text Verif.Lex

/-! ### C39 -/

/-- C39: `name(k1=v1,...,kn=vn)` is read as the distribution with that name and exactly these arguments, in addition to the arguments that were
passed separately. -/
theorem C39_parse (name : List Char) (hn : '(' ∉ name) (l : List Arg) (hl : ∀ a ∈ l, a.Ok) (args : FMap String String) :
    DistSpec.make (name ++ '(' :: argsText l ++ [')']) args =
      (distByName (String.ofList name)).map (fun x => { distribution := x.1, obsType := x.2, args := putArgs args l }) := by
  have hp : ∀ x ∈ name, (x != '(') = true := fun x hx => by
    simp only [bne_iff_ne, ne_eq]
    rintro rfl
    exact hn hx
  have h1 : (name ++ '(' :: argsText l ++ [')']).takeWhile (· != '(') = name := by
    rw [List.append_assoc, List.takeWhile_append_of_pos hp]
    simp
  have h2 : (name ++ '(' :: argsText l ++ [')']).drop name.length = '(' :: argsText l ++ [')'] := by simp
  unfold DistSpec.make
  simp only [h1, h2]
  have h3 : (('(' :: argsText l ++ [')']).drop 1).take (('(' :: argsText l ++ [')']).length - 2) = argsText l := by simp
  have h4 : ('(' :: argsText l ++ [')']).head? = some '(' := rfl
  have h5 : ('(' :: argsText l ++ [')']).getLast? = some ')' := List.getLast?_concat
  rw [if_neg (by simp), h3, h4, h5, parts_argsText l hl, specArgs_append _ l args rfl (fun a ha => (hl a ha).2.1)]
  cases distByName (String.ofList name) <;> rfl

/-- C39: without parentheses, the text is the name. -/
theorem C39_plain (name : List Char) (hn : '(' ∉ name) (args : FMap String String) :
    DistSpec.make name args = (distByName (String.ofList name)).map (fun x => { distribution := x.1, obsType := x.2, args := args }) := by
  have hp : ∀ x ∈ name, (x != '(') = true := fun x hx => by
    simp only [bne_iff_ne, ne_eq]
    rintro rfl
    exact hn hx
  have h1 : name.takeWhile (· != '(') = name := by
    have := List.takeWhile_append_of_pos (l₂ := []) hp
    simpa using this
  unfold DistSpec.make
  simp only [h1, List.drop_length]
  cases distByName (String.ofList name) <;> rfl

/-- C39: exactly these texts are accepted: a name of the table, alone or with arguments in parentheses, possibly with a comma after the last. -/
theorem C39_accepts (s : List Char) (args : FMap String String) (spec : DistSpec) : DistSpec.make s args = .ok spec ↔
    ∃ (name : List Char) (l : List Arg) (d : DistEnum) (o : ObsType), (String.ofList name, d, o) ∈ distTable ∧ (∀ a ∈ l, a.Ok) ∧
      spec = { distribution := d, obsType := o, args := putArgs args l } ∧
      ((s = name ∧ l = []) ∨ s = name ++ '(' :: argsText l ++ [')'] ∨ (l ≠ [] ∧ s = name ++ '(' :: (argsText l ++ [',']) ++ [')'])) := by
  have hpar : ∀ {name : List Char} {d o}, (String.ofList name, d, o) ∈ distTable → '(' ∉ name := by
    intro name d o h hm
    obtain ⟨n, rfl, h⟩ : ∃ n : String, n.toList = name ∧ (n, d, o) ∈ distTable := ⟨_, by simp, h⟩
    rw [String.ofList_toList] at *
    clear * - h hm
    simp only [distTable, List.mem_cons, Prod.mk.injEq, List.not_mem_nil, or_false] at h
    rcases h with ⟨rfl, _⟩ | ⟨rfl, _⟩ | ⟨rfl, _⟩ | ⟨rfl, _⟩ | ⟨rfl, _⟩ | ⟨rfl, _⟩ | ⟨rfl, _⟩ | ⟨rfl, _⟩ | ⟨rfl, _⟩ <;> revert hm <;> decide
  constructor
  · intro h
    by_cases hs : '(' ∈ s
    · obtain ⟨name, r, rfl, hn⟩ := List.eq_append_cons_of_mem hs
      have hp : ∀ x ∈ name, (x != '(') = true := fun x hx => by
        simp only [bne_iff_ne, ne_eq]
        rintro rfl
        exact hn hx
      have h1 : (name ++ '(' :: r).takeWhile (· != '(') = name := by
        rw [List.takeWhile_append_of_pos hp]
        simp
      have h2 : (name ++ '(' :: r).drop name.length = '(' :: r := by simp
      unfold DistSpec.make at h
      simp only [h1, h2] at h
      rw [if_neg (by simp)] at h
      obtain ⟨_, _, h⟩ := bind_ok.mp h
      obtain ⟨_, h5, h⟩ := bind_ok.mp h
      obtain ⟨args', h3, h⟩ := bind_ok.mp h
      obtain ⟨⟨d, o⟩, h4, h⟩ := bind_ok.mp h
      cases h
      have h5 : (('(' :: r).getLast? == some ')') = true := assertR_ok.mp h5
      obtain ⟨as, h6, h7, rfl⟩ := specArgs_ok _ h3
      obtain ⟨body, rfl⟩ : ∃ body, r = body ++ [')'] := by
        have h5 : ('(' :: r).getLast? = some ')' := by simpa using h5
        cases r using List.reverseRecOn with
        | nil => cases h5
        | append_singleton body c _ =>
          refine ⟨body, ?_⟩
          rw [← List.cons_append, List.getLast?_append] at h5
          simp at h5
          rw [h5]
      have hb : (('(' :: (body ++ [')'])).drop 1).take (('(' :: (body ++ [')'])).length - 2) = body := by simp
      rw [hb] at h6
      have hok : ∀ a ∈ as, a.Ok := fun a ha => by
        have hm : a.1 ++ '=' :: a.2 ∈ parts ',' body := by rw [h6]; exact List.mem_map_of_mem (f := fun a : Arg => a.1 ++ '=' :: a.2) ha
        have := parts_no_delim hm
        simp only [List.mem_append, List.mem_cons, not_or] at this
        exact ⟨this.1, h7 a ha, this.2.2⟩
      refine ⟨name, as, d, o, distByName_iff.mp h4, hok, rfl, .inr ?_⟩
      by_cases has : as = []
      · subst has
        left
        have : body = [] := by
          by_contra hne
          by_cases hc : ',' ∈ body
          · obtain ⟨w, r, rfl, hw⟩ := List.eq_append_cons_of_mem hc
            rw [parts_cons hw] at h6
            cases h6
          · rw [parts_last hc, if_neg hne] at h6
            cases h6
        subst this
        simp [argsText]
      · rcases parts_inv _ body h6 (by simpa using has) (by rintro p hp rfl; simp at hp) with hbody | hbody
        · left
          rw [hbody, argsText_intercalate]
          simp
        · right
          refine ⟨has, ?_⟩
          rw [hbody, argsText_intercalate]
          simp
    · rw [C39_plain s hs] at h
      cases hd : distByName (String.ofList s) with
      | error e => rw [hd] at h; cases h
      | ok x =>
        rw [hd] at h
        cases h
        exact ⟨s, [], x.1, x.2, distByName_iff.mp hd, by simp, rfl, .inl ⟨rfl, rfl⟩⟩
  · rintro ⟨name, l, d, o, h1, h2, rfl, h3⟩
    have hn := hpar h1
    rcases h3 with ⟨rfl, rfl⟩ | rfl | ⟨hne, rfl⟩
    · rw [C39_plain _ hn, distByName_iff.mpr h1]
      rfl
    · rw [C39_parse name hn l h2, distByName_iff.mpr h1]
      rfl
    · have hp : ∀ x ∈ name, (x != '(') = true := fun x hx => by
        simp only [bne_iff_ne, ne_eq]
        rintro rfl
        exact hn hx
      have e1 : (name ++ '(' :: (argsText l ++ [',']) ++ [')']).takeWhile (· != '(') = name := by
        rw [List.append_assoc, List.takeWhile_append_of_pos hp]
        simp
      have e2 : (name ++ '(' :: (argsText l ++ [',']) ++ [')']).drop name.length = '(' :: (argsText l ++ [',']) ++ [')'] := by simp
      unfold DistSpec.make
      simp only [e1, e2]
      have e3 : (('(' :: (argsText l ++ [',']) ++ [')']).drop 1).take (('(' :: (argsText l ++ [',']) ++ [')']).length - 2) = argsText l ++ [','] := by
        simp only [List.cons_append, List.drop_succ_cons, List.drop_zero, List.length_cons, List.length_append, List.length_nil, Nat.zero_add]
        rw [List.take_append_of_le_length (by simp)]
        exact List.take_of_length_le (by simp)
      have e4 : ('(' :: (argsText l ++ [',']) ++ [')']).head? = some '(' := rfl
      have e5 : ('(' :: (argsText l ++ [',']) ++ [')']).getLast? = some ')' := List.getLast?_concat
      rw [if_neg (by simp), e3, e4, e5, argsText_comma l hne h2, specArgs_append _ l args rfl (fun a ha => (h2 a ha).2.1), distByName_iff.mpr h1]
      rfl

/-- C39: an emission is read as the emission with that name, with the arguments that were passed separately; it takes no arguments in parentheses. -/
theorem C39_emission (s : List Char) (args : FMap String String) (spec : EmisSpec) : EmisSpec.make s args = .ok spec ↔
    (String.ofList s, spec.emission, spec.obsType) ∈ emisTable ∧ spec.args = args := by
  unfold EmisSpec.make
  constructor
  · intro h
    obtain ⟨⟨e, o⟩, h1, h⟩ := bind_ok.mp h
    cases h
    exact ⟨emisByName_iff.mp h1, rfl⟩
  · rintro ⟨h, rfl⟩
    exact bind_ok.mpr ⟨_, emisByName_iff.mpr h, rfl⟩

/-- C39_parse, C39_accepts: a distribution with two arguments -/
example : ∃ spec, DistSpec.make "stringcat(strings=a:b=c,delim=:)".toList ∅ = .ok spec ∧ spec.distribution = .stringcat ∧
    spec.args.find? "strings" = some "a:b=c" ∧ spec.args.find? "delim" = some ":" ∧ spec.args.size = 2 := ⟨_, rfl, rfl, rfl, rfl, rfl⟩
example : DistSpec.make "categorical(k)".toList ∅ = .error .assert ∧ DistSpec.make "categorical(k=5".toList ∅ = .error .assert ∧
    DistSpec.make "gamma".toList ∅ = .error .exit ∧ EmisSpec.make "bigram()".toList ∅ = .error .exit := ⟨rfl, rfl, rfl, rfl⟩

/-! ### C53 -/
namespace UtilIO
variable {V : Type} {F : Family V}

/-- C53: exactly the lines of the grammar are accepted, and they are read as what they say.  `Line` is the grammar; `load_schema` does not look at
the quotes of tokens that it compares, nor at what follows the closing parenthesis. -/
theorem C53_accepts (ts : List Token) (d : Decl) : loadDecl ts = .ok d ↔ Line ts d := loadDecl_iff ts d

/-- C53 is false: exactly for the lines that break off after the distribution, in the parameters after `=` or a value, after the first
name in parentheses or in the domains, `load_schema` reads past the end of the tokens. -/
theorem C53_reads_past_end_false (ts : List Token) : loadDecl ts = .error .ub ↔ Cut ts := loadDecl_ub ts

/-- C53: a file whose lines are declarations, blank lines and comments is read as the schema with the declared relations (of two declarations of
the same name the later one), if each base relation is declared and the domains of a relation start with those of its base. -/
theorem C53_load_schema {mkC : List Char → FMap String String → Res F.C} {mkE : List Char → FMap String String → Res F.E}
    {text : List Char} (h0 : Char.ofNat 0 ∉ text) {ws : List (Option Written)} {es : List (String × RelSpec F)}
    (hlines : List.Forall₂ (fun line w => Lexed line ((w.map Written.tokens).getD [])) (lines text) ws)
    (hdecl : List.Forall₂ (fun w e => w.Ok ∧ w.Declares mkC mkE e.1 e.2) (ws.filterMap id) es)
    (hdoms : ∀ n e doms base o, (es.foldl (fun m e => m.set e.1 e.2) (∅ : Schema F)).find? n = some (.noisy e doms base o) →
      ∃ b, (es.foldl (fun m e => m.set e.1 e.2) (∅ : Schema F)).find? base = some b ∧ b.doms <+: doms) :
    loadSchema mkC mkE text = .ok (es.foldl (fun m e => m.set e.1 e.2) ∅) := by
  have hchar : ∀ line ∈ lines text, Char.ofNat 0 ∉ line := fun line hl hm => h0 (parts_subset hl hm)
  refine bind_ok.mpr ⟨_, schemaLines_written ∅ (ws := ws) ?_ hdecl, bind_ok.mpr ⟨(), (C49_accepts _).mpr hdoms, rfl⟩⟩
  clear hdecl
  generalize lines text = ls at hlines hchar
  induction hlines with
  | nil => exact .nil
  | @cons line w ls ws h _ ih =>
    exact .cons ((C36_tokenize (hchar line (by simp)) _).mpr h) (ih (fun l hl => hchar l (by simp [hl])))

/-- C53: a schema that is written out, one declaration on each line, is read back. -/
theorem C53_round_trip {mkC : List Char → FMap String String → Res F.C} {mkE : List Char → FMap String String → Res F.E}
    (schema : Schema F) {ws : List Written} (hs : ∀ w ∈ ws, w.Spelled)
    (hdecl : List.Forall₂ (fun w e => w.Ok ∧ w.Declares mkC mkE e.1 e.2) ws schema.entries)
    (hdoms : ∀ n e doms base o, schema.find? n = some (.noisy e doms base o) → ∃ b, schema.find? base = some b ∧ b.doms <+: doms) :
    loadSchema mkC mkE (ws.flatMap (fun w => w.text ++ ['\n'])) = .ok schema := by
  have hchars : ∀ w ∈ ws, '\n' ∉ w.text ∧ Char.ofNat 0 ∉ w.text := by
    intro w hw
    constructor <;> intro hc <;> obtain ⟨t, b, htb, hc⟩ := mem_writeLine hc <;> obtain ⟨t', ht, he⟩ := List.mem_map.mp htb <;> cases he
    · rcases hc with hc | hc | hc | hc
      · exact ((hs w hw) _ ht).2.1 hc
      all_goals revert hc; decide
    · rcases hc with hc | hc | hc | hc
      · exact ((hs w hw) _ ht).2.2 hc
      all_goals revert hc; decide
  have htext : ws.flatMap (fun w => w.text ++ ['\n']) = (ws.map Written.text).flatMap (· ++ ['\n']) := by rw [List.flatMap_map]
  have hlines : lines (ws.flatMap (fun w => w.text ++ ['\n'])) = ws.map Written.text := by
    rw [htext, lines_flatMap]
    intro l hl
    obtain ⟨w, hw, rfl⟩ := List.mem_map.mp hl
    exact (hchars w hw).1
  have key := C53_load_schema (mkC := mkC) (mkE := mkE) (text := ws.flatMap (fun w => w.text ++ ['\n'])) (ws := ws.map some) (es := schema.entries) ?_ ?_ ?_ ?_
  · rw [foldl_entries] at key
    exact key
  · intro hc
    obtain ⟨w, hw, hc⟩ := List.mem_flatMap.mp hc
    rcases List.mem_append.mp hc with hc | hc
    · exact (hchars w hw).2 hc
    · revert hc; decide
  · rw [hlines, List.forall₂_map_left_iff, List.forall₂_map_right_iff, List.forall₂_same]
    intro w hw
    have := C36_round_trip (w.tokens.map (fun t => (t, [' ']))) ?_ [] [] (by simp) (.inl rfl)
    · rw [List.map_map] at this
      have he : (Prod.fst ∘ fun t : Token => (t, [' '])) = id := rfl
      rw [he, List.map_id] at this
      have hcc : Char.ofNat 0 ∉ w.text := (hchars w hw).2
      refine (C36_tokenize hcc _).mp ?_
      rw [List.append_nil] at this
      exact this
    · intro t b htb
      obtain ⟨t', ht, he⟩ := List.mem_map.mp htb
      cases he
      exact ⟨((hs w hw) _ ht).1, by simp, fun c hc => by rw [List.mem_singleton] at hc; subst hc; unfold Blank; decide⟩
  · rw [List.filterMap_map]
    simpa using hdecl
  · rw [foldl_entries]
    exact hdoms

/-- C53 is false: a line that breaks off after the distribution makes `load_schema` read past the end of the tokens. -/
theorem C53_cut_line_false (mkC : List Char → FMap String String → Res F.C) (mkE : List Char → FMap String String → Res F.E) :
    loadSchema mkC mkE "R ~ bernoulli\n".toList = .error .ub := by
  have h1 : lines "R ~ bernoulli\n".toList = ["R ~ bernoulli".toList] := rfl
  have h2 : tokenize "R ~ bernoulli".toList = some [idTok ['R'], symTok '~', idTok "bernoulli".toList] := rfl
  unfold loadSchema schemaLines
  rw [h1]
  dsimp only
  rw [h2]
  rfl

/-- C53 is false: so does a list of domains that ends with a comma. -/
theorem C53_open_domains_false (mkC : List Char → FMap String String → Res F.C) (mkE : List Char → FMap String String → Res F.E) :
    loadSchema mkC mkE "R ~ bernoulli(D,".toList = .error .ub := by
  have h1 : lines "R ~ bernoulli(D,".toList = ["R ~ bernoulli(D,".toList] := rfl
  have h2 : tokenize "R ~ bernoulli(D,".toList = some [idTok ['R'], symTok '~', idTok "bernoulli".toList, symTok '(', idTok ['D'], symTok ','] := rfl
  unfold loadSchema schemaLines
  rw [h1]
  dsimp only
  rw [h2]
  rfl

/-- C53 is false: what follows the closing parenthesis is ignored. -/
theorem C53_rest_ignored_false {ts : List Token} {d : Decl} (h : loadDecl ts = .ok d) (rest : List Token) : loadDecl (ts ++ rest) = .ok d := by
  have hparams : ∀ {m0 ts m r}, Params m0 ts m r → Params m0 (ts ++ rest) m (r ++ rest) := by
    intro m0 ts m r h
    induction h with
    | last h1 h2 h3 => exact .last h1 h2 h3
    | more h1 h2 h3 _ ih => exact .more h1 h2 h3 ih
  have hdoms : ∀ {ts ds}, Domains ts ds → Domains (ts ++ rest) ds := by
    intro ts ds h
    induction h with
    | last h1 => exact .last h1
    | more h1 _ ih => exact .more h1 ih
  have htail : ∀ {ts b ds}, Tail ts b ds → Tail (ts ++ rest) b ds := by
    intro ts b ds h
    cases h with
    | noisy h1 h2 h3 h4 => exact .noisy h1 h2 h3 (hdoms h4)
    | clean h1 h2 h3 h4 => exact .clean h1 h2 h3 (hdoms h4)
  rw [C53_accepts] at h ⊢
  cases h with
  | params h1 h2 h3 h4 h5 h6 => exact .params h1 h2 h3 h4 (hparams h5) (htail h6)
  | plain h1 h2 h3 h4 h5 => exact .plain h1 h2 h3 h4 (htail h5)

/-! #### concrete cases -/

instance : DecidablePred Letter := fun c => by unfold Letter; infer_instance
instance : DecidablePred Digit := fun c => by unfold Digit; infer_instance
instance : DecidablePred Symbol := fun c => by unfold Symbol; infer_instance
instance : DecidablePred InName := fun c => by unfold InName; infer_instance

/-- a test for tokens that can be written -/
def writableB (t : Token) : Bool :=
  match t.type, t.val with
  | .symbol, [c] => decide (Symbol c)
  | .string, v => !v.contains '"'
  | .identifier, c :: w => decide (Letter c) && w.all (fun x => decide (InName x))
  | _, _ => false

theorem writableB_sound {t : Token} (h : writableB t = true) : Writable t := by
  obtain ⟨ty, v⟩ := t
  unfold writableB at h
  unfold Writable
  cases ty <;> dsimp only at h ⊢
  · cases v with
    | nil => cases h
    | cons c w =>
      simp only [Bool.and_eq_true, decide_eq_true_eq, List.all_eq_true] at h
      exact ⟨c, w, rfl, .inl h.1, h.2⟩
  · match v, h with
    | [c], h => exact ⟨c, of_decide_eq_true h, rfl⟩
  · cases h
  · left
    simpa using h

/-- the constructors used for the examples: the only family has the distribution and the emission of booleans -/
def boolC (s : List Char) (_ : FMap String String) : Res (Latent.bools.C) := if s = "bernoulli".toList then .ok () else .error .exit
def boolE (s : List Char) (_ : FMap String String) : Res (Latent.bools.E) := if s = "sometimes_bitflip".toList then .ok () else .error .exit

def exWritten : List Written :=
  [⟨"N".toList, "sometimes_bitflip".toList, [], some "R".toList, ["D1".toList, "D2".toList, "D3".toList]⟩,
   ⟨"R".toList, "bernoulli".toList, [("k".toList, ⟨.string, "5 #".toList⟩)], none, ["D1".toList, "D2".toList]⟩]

def exSchema : Schema Latent.bools :=
  ((∅ : Schema Latent.bools).set "R" (.clean () ["D1", "D2"] false)).set "N" (.noisy () ["D1", "D2", "D3"] "R" false)

/-- C53_round_trip: a noisy relation and its base relation with a parameter -/
example : loadSchema boolC boolE "N ~ sometimes_bitflip ( R ; D1 , D2 , D3 ) \nR ~ bernoulli [ k = \"5 #\" ] ( D1 , D2 ) \n".toList = .ok exSchema := by
  have h := C53_round_trip (mkC := boolC) (mkE := boolE) exSchema (ws := exWritten) ?_ ?_ ?_
  · exact h
  · intro w hw t ht
    have hall : (exWritten.all fun w => w.tokens.all fun t => writableB t && !t.val.contains '\n' && !t.val.contains (Char.ofNat 0)) = true := rfl
    have := List.all_eq_true.mp (List.all_eq_true.mp hall w hw) t ht
    simp only [Bool.and_eq_true, Bool.not_eq_true', List.contains_eq_mem, decide_eq_false_iff_not] at this
    exact ⟨writableB_sound this.1.1, this.1.2, this.2⟩
  · refine .cons ⟨⟨by decide, by decide⟩, rfl, (), rfl, rfl⟩ (.cons ⟨⟨by decide, by decide⟩, rfl, (), rfl, rfl⟩ .nil)
  · intro n e doms base o h
    obtain ⟨x, hx, h⟩ := FMap.mem_entries.mpr h |> fun h => (⟨_, h, rfl⟩ : ∃ x, x ∈ exSchema.entries ∧ x = (n, RelSpec.noisy e doms base o))
    have hx : x ∈ [("N", (.noisy () ["D1", "D2", "D3"] "R" false : RelSpec Latent.bools)), ("R", .clean () ["D1", "D2"] false)] := hx
    simp only [List.mem_cons, List.not_mem_nil, or_false] at hx
    rcases hx with rfl | rfl
    · cases h
      exact ⟨_, rfl, ⟨["D3"], rfl⟩⟩
    · cases h

/-- C53_accepts, C53_reads_past_end_false: a line that is cut after the first domain -/
example : loadDecl [idTok ['R'], symTok '~', idTok ['b'], symTok '(', idTok ['D'], symTok ','] = .error .ub := rfl
example : loadDecl [idTok ['R'], symTok '~', idTok ['b'], symTok '(', idTok ['D'], symTok ';', idTok ['E'], symTok ')'] =
    .ok ⟨"R", ['b'], ∅, "D", ["E"]⟩ := rfl
example : loadDecl [idTok ['R'], symTok '='] = .error .assert := rfl

end UtilIO

/-! ### C54 -/

/-- C54: the names of the schema language have a distribution and an emission, with the same type of observations; other names are refused. -/
theorem C54_joint_types (joint : String) (params : FMap String String) :
    (∃ d e, jointDist joint params = .ok d ∧ jointEmis joint params = .ok e ∧ d.obsType = e.obsType ∧ d.args = params ∧ e.args = params) ∨
    (joint ∉ ["bool", "categorical", "real", "string", "stringcat", "typo_int", "typo_nat", "typo_real"] ∧
      jointDist joint params = .error .exit ∧ jointEmis joint params = .error .exit) := by
  by_cases h : joint ∈ ["bool", "categorical", "real", "string", "stringcat", "typo_int", "typo_nat", "typo_real"]
  · left
    simp only [List.mem_cons, List.not_mem_nil, or_false] at h
    rcases h with rfl | rfl | rfl | rfl | rfl | rfl | rfl | rfl <;> exact ⟨_, _, rfl, rfl, rfl, rfl, rfl⟩
  · right
    have : jointParts.lookup joint = none := by
      simp only [List.mem_cons, List.not_mem_nil, or_false, not_or] at h
      obtain ⟨h1, h2, h3, h4, h5, h6, h7, h8⟩ := h
      simp only [jointParts, List.lookup, beq_eq_false_iff_ne.mpr h1, beq_eq_false_iff_ne.mpr h2, beq_eq_false_iff_ne.mpr h3,
        beq_eq_false_iff_ne.mpr h4, beq_eq_false_iff_ne.mpr h5, beq_eq_false_iff_ne.mpr h6, beq_eq_false_iff_ne.mpr h7, beq_eq_false_iff_ne.mpr h8]
    refine ⟨h, ?_, ?_⟩
    · unfold jointDist; rw [this]
    · unfold jointEmis; rw [this]

/-- C54: what the eight names stand for: texts have typos, numbers and truth values have the noise of their type. -/
theorem C54_joint_parts (params : FMap String String) :
    [("bool", DistEnum.bernoulli, EmisEnum.sometimes_bitflip), ("categorical", .categorical, .sometimes_categorical),
     ("real", .normal, .sometimes_gaussian), ("string", .bigram, .bigram_string), ("stringcat", .stringcat, .bigram_string),
     ("typo_int", .string_skellam, .bigram_string), ("typo_nat", .string_nat, .bigram_string),
     ("typo_real", .string_normal, .bigram_string)].Forall fun x =>
      (∃ d, jointDist x.1 params = .ok d ∧ d.distribution = x.2.1) ∧ ∃ e, jointEmis x.1 params = .ok e ∧ e.emission = x.2.2 :=
  ⟨⟨⟨_, rfl, rfl⟩, _, rfl, rfl⟩, ⟨⟨_, rfl, rfl⟩, _, rfl, rfl⟩, ⟨⟨_, rfl, rfl⟩, _, rfl, rfl⟩, ⟨⟨_, rfl, rfl⟩, _, rfl, rfl⟩,
   ⟨⟨_, rfl, rfl⟩, _, rfl, rfl⟩, ⟨⟨_, rfl, rfl⟩, _, rfl, rfl⟩, ⟨⟨_, rfl, rfl⟩, _, rfl, rfl⟩, ⟨_, rfl, rfl⟩, _, rfl, rfl⟩

/-- C54: the distribution that is made for a specification has the declared type of observations. -/
theorem C54_prior_type {s : List Char} {args : FMap String String} {spec : DistSpec} {p : Prior} (hs : DistSpec.make s args = .ok spec)
    (hp : getPrior spec = .ok p) : p.obsType = spec.obsType := by
  obtain ⟨name, l, d, o, h1, -, rfl, -⟩ := (C39_accepts s args spec).mp hs
  have hd : ∀ (d : DistEnum) (o : ObsType), (String.ofList name, d, o) ∈ distTable → o = (match d with
      | .bernoulli => .bool | .bigram => .string | .categorical => .int | .normal => .double | .skellam => .int | .stringcat => .string
      | .string_nat => .string | .string_normal => .string | .string_skellam => .string) := by
    intro d o h1
    simp only [distTable, List.mem_cons, Prod.mk.injEq, List.not_mem_nil, or_false] at h1
    rcases h1 with ⟨_, rfl, rfl⟩ | ⟨_, rfl, rfl⟩ | ⟨_, rfl, rfl⟩ | ⟨_, rfl, rfl⟩ | ⟨_, rfl, rfl⟩ | ⟨_, rfl, rfl⟩ | ⟨_, rfl, rfl⟩ |
      ⟨_, rfl, rfl⟩ | ⟨_, rfl, rfl⟩ <;> rfl
  show p.obsType = o
  rw [hd d o h1]
  clear hs h1 hd
  cases d <;> unfold getPrior at hp <;> dsimp only at hp
  · cases hp; rfl
  · split at hp
    · cases hp; rfl
    · obtain ⟨_, _, hp⟩ := bind_ok.mp hp
      cases hp; rfl
  · obtain ⟨_, _, hp⟩ := bind_ok.mp hp
    obtain ⟨_, _, hp⟩ := bind_ok.mp hp
    obtain ⟨_, _, hp⟩ := bind_ok.mp hp
    cases hp; rfl
  · cases hp; rfl
  · cases hp; rfl
  · obtain ⟨_, _, hp⟩ := bind_ok.mp hp
    obtain ⟨_, _, hp⟩ := bind_ok.mp hp
    cases hp; rfl
  · cases hp; rfl
  · split at hp
    · cases hp; rfl
    · obtain ⟨_, _, hp⟩ := bind_ok.mp hp
      cases hp; rfl
  · cases hp; rfl

/-- C54: so does the emission. -/
theorem C54_emission_type {s : List Char} {args : FMap String String} {spec : EmisSpec} {p : EmisPrior} (hs : EmisSpec.make s args = .ok spec)
    (hp : getEmisPrior spec = .ok p) : p.obsType = spec.obsType := by
  obtain ⟨h1, -⟩ := (C39_emission s args spec).mp hs
  obtain ⟨e, o, as⟩ := spec
  simp only [emisTable, List.mem_cons, Prod.mk.injEq, List.not_mem_nil, or_false] at h1
  rcases h1 with ⟨_, rfl, rfl⟩ | ⟨_, rfl, rfl⟩ | ⟨_, rfl, rfl⟩ | ⟨_, rfl, rfl⟩ | ⟨_, rfl, rfl⟩ | ⟨_, rfl, rfl⟩ <;> unfold getEmisPrior at hp <;> dsimp only at hp
  all_goals first
    | (cases hp; rfl)
    | (obtain ⟨_, _, hp⟩ := bind_ok.mp hp
       obtain ⟨_, _, hp⟩ := bind_ok.mp hp
       cases hp; rfl)

/-- C54: every specification has a prior with the parameters that it says, if a categorical distribution has the number of categories and no other
argument, the strings of a `stringcat` are given and the delimiter is one character, and lengths are numbers.
Missing for the full property: the conditions. `C54_no_prior_false` shows that they are needed. -/
theorem C54_prior_partial (spec : DistSpec)
    (hk : spec.distribution = .categorical → ∃ k : Int, spec.args = (∅ : FMap String String).set "k" (String.ofList (intText k)))
    (hs : spec.distribution = .stringcat → spec.args.find? "strings" ≠ none ∧ ∀ d, spec.args.find? "delim" = some d → d.length = 1)
    (hl : spec.distribution = .bigram ∨ spec.distribution = .string_nat →
      ∀ s, spec.args.find? "maxlength" = some s → ∃ n : Int, s = String.ofList (intText n)) : ∃ p, getPrior spec = .ok p ∧ p.Of spec := by
  have hnum : ∀ n : Int, stoi (String.ofList (intText n)) = .ok n := by
    intro n
    have := readInt_append n [] (by simp)
    unfold stoi
    rw [List.append_nil] at this
    rw [String.toList_ofList, this]
  obtain ⟨d, o, as⟩ := spec
  cases d <;> unfold getPrior <;> dsimp only
  · exact ⟨_, rfl, trivial⟩
  · cases hm : as.find? "maxlength" with
    | none => exact ⟨_, rfl, .inl ⟨hm, rfl⟩⟩
    | some s =>
      obtain ⟨n, rfl⟩ := hl (.inl rfl) s hm
      exact ⟨_, bind_ok.mpr ⟨n, hnum n, rfl⟩, .inr hm⟩
  · obtain ⟨k, h⟩ := hk rfl
    dsimp only at h
    subst h
    exact ⟨_, bind_ok.mpr ⟨(), assertR_ok.mpr rfl, bind_ok.mpr ⟨_, FMap.atKey_of_find (FMap.find?_set_self _ _ _), bind_ok.mpr ⟨_, hnum k, rfl⟩⟩⟩,
      FMap.find?_set_self _ _ _⟩
  · exact ⟨_, rfl, trivial⟩
  · exact ⟨_, rfl, trivial⟩
  · obtain ⟨h1, h2⟩ := hs rfl
    dsimp only at h1 h2
    obtain ⟨s, h1⟩ := Option.ne_none_iff_exists'.mp h1
    have : ∃ c : Char, stringcatDelim as = .ok c ∧ (as.find? "delim" = none ∧ c = ' ' ∨ as.find? "delim" = some (String.ofList [c])) := by
      unfold stringcatDelim
      cases hd : as.find? "delim" with
      | none => exact ⟨_, rfl, .inl ⟨rfl, rfl⟩⟩
      | some d =>
        have h2 := h2 d hd
        have h2 : d.toList.length = 1 := by rw [String.length_toList]; exact h2
        obtain ⟨c, hc⟩ := List.length_eq_one_iff.mp h2
        refine ⟨c, bind_ok.mpr ⟨(), assertR_ok.mpr (by rw [h2]; rfl), ?_⟩, .inr ?_⟩
        · rw [hc]
          rfl
        · rw [← hc, String.ofList_toList]
    obtain ⟨c, hc, hc'⟩ := this
    obtain ⟨g1, g2, g3⟩ := splitAny_spec (d := c) s.toList [] (by simp)
    refine ⟨_, bind_ok.mpr ⟨c, hc, bind_ok.mpr ⟨s, FMap.atKey_of_find h1, rfl⟩⟩, ?_⟩
    refine ⟨c, hc', ?_, by simpa using g1, ?_⟩
    · intro x hx
      obtain ⟨y, hy, rfl⟩ := List.mem_map.mp hx
      rw [String.toList_ofList]
      exact g2 y hy
    · have : (String.toList ∘ String.ofList) = id := by
        funext x
        exact String.toList_ofList
      rw [List.map_map, this, List.map_id, g3, List.nil_append, String.ofList_toList]
      exact h1
  · exact ⟨_, rfl, trivial⟩
  · cases hm : as.find? "maxlength" with
    | none => exact ⟨_, rfl, .inl ⟨hm, rfl⟩⟩
    | some s =>
      obtain ⟨n, rfl⟩ := hl (.inr rfl) s hm
      exact ⟨_, bind_ok.mpr ⟨n, hnum n, rfl⟩, .inr hm⟩
  · exact ⟨_, rfl, trivial⟩

/-- C54: every emission specification has a prior, if a categorical emission has the number of categories. -/
theorem C54_emission_prior_partial (spec : EmisSpec)
    (hk : spec.emission = .sometimes_categorical → ∃ k : Int, spec.args.find? "k" = some (String.ofList (intText k))) :
    ∃ p, getEmisPrior spec = .ok p := by
  obtain ⟨e, o, as⟩ := spec
  cases e <;> unfold getEmisPrior <;> dsimp only
  all_goals first
    | exact ⟨_, rfl⟩
    | skip
  obtain ⟨k, h⟩ := hk rfl
  have hnum : stoi (String.ofList (intText k)) = .ok k := by
    have := readInt_append k [] (by simp)
    unfold stoi
    rw [List.append_nil] at this
    rw [String.toList_ofList, this]
  exact ⟨_, bind_ok.mpr ⟨_, FMap.atKey_of_find h, bind_ok.mpr ⟨_, hnum, rfl⟩⟩⟩

/-- C54 is false: specifications that are accepted have no prior, and this is noticed only when it is made.  `categorical` and `stringcat` without
arguments fail, and so does `categorical` with an argument besides `k`. -/
theorem C54_no_prior_false :
    (∃ spec, DistSpec.make "categorical".toList ∅ = .ok spec ∧ getPrior spec = .error .assert) ∧
    (∃ spec, DistSpec.make "categorical(k=5,delim=:)".toList ∅ = .ok spec ∧ getPrior spec = .error .assert) ∧
    (∃ spec, DistSpec.make "stringcat".toList ∅ = .ok spec ∧ getPrior spec = .error .outOfRange) ∧
    (∃ spec, DistSpec.make "bigram(maxlength=long)".toList ∅ = .ok spec ∧ getPrior spec = .error .assert) ∧
    (∃ spec, EmisSpec.make "sometimes_categorical".toList ∅ = .ok spec ∧ getEmisPrior spec = .error .outOfRange) :=
  ⟨⟨_, rfl, rfl⟩, ⟨_, rfl, rfl⟩, ⟨_, rfl, rfl⟩, ⟨_, rfl, rfl⟩, ⟨_, rfl, rfl⟩⟩

/-- C54_prior_type, C54_prior_partial: the priors of some specifications -/
example : ∃ spec, DistSpec.make "stringcat(strings=a:b c,delim=:)".toList ∅ = .ok spec ∧ getPrior spec = .ok (.stringcat ["a", "b c"]) := ⟨_, rfl, rfl⟩
example : ∃ spec, DistSpec.make "categorical(k=5)".toList ∅ = .ok spec ∧ getPrior spec = .ok (.categorical 5) ∧
    spec.args = (∅ : FMap String String).set "k" (String.ofList (intText 5)) := ⟨_, rfl, rfl, rfl⟩
example : ∃ d e, jointDist "typo_nat" ∅ = .ok d ∧ jointEmis "typo_nat" ∅ = .ok e ∧ d.obsType = .string ∧ e.obsType = .string ∧
    getPrior d = .ok (.stringNat 20) ∧ getEmisPrior e = .ok .bigram := ⟨_, _, rfl, rfl, rfl, rfl, rfl, rfl⟩

end Verif
