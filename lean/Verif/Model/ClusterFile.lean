import Verif.Model.UtilIO
import Verif.Model.HIRM
import Verif.Model.Text
/-!
Model of the cluster files of `/repo/cxx/util_io.cc`.  A file is its text.
-/
namespace Verif
variable {V : Type}
namespace UtilIO
open Text

/-! ### Writing -/

/-- util_io.cc:446-448: the names of the items, as a `std::set`. -/
def itemNames (e : Encoding) (d : String) : List Int → FSet String → Res (FSet String)
  | [], s => .ok s
  | i :: is, s => do
    let m ← e.rev.atKey d
    let n ← m.atKey i
    itemNames e d is (FSet.insert s n)

/-- util_io.cc:449-454 and 470-475: names, each but number `n` followed by a space; `i` is the number of the first. -/
def joinNames (n : Nat) : Nat → List String → List Char
  | _, [] => []
  | i, x :: xs => x.toList ++ (if i < n then [' '] else []) ++ joinNames n (i + 1) xs

/-- util_io.cc:440-456: the tables of a domain. -/
def tablesText (e : Encoding) (d : String) : List (Int × FSet Int) → Tape → Res (List Char × Tape)
  | [], t => .ok ([], t)
  | (table, items) :: l, t => do
    let (is, t) := shuffle items.keys t
    let names ← itemNames e d is ∅
    let (rest, t) ← tablesText e d l t
    .ok (d.toList ++ ' ' :: intText table ++ ' ' :: joinNames items.size 1 names.keys ++ '\n' :: rest, t)

/-- util_io.cc:437-458: the domains. -/
def domainsText (e : Encoding) : List (String × Domain) → Tape → Res (List Char × Tape)
  | [], t => .ok ([], t)
  | (_, dom) :: l, t => do
    let (here, t) ← tablesText e dom.name dom.crp.tables.entries t
    let (rest, t) ← domainsText e l t
    .ok (here ++ rest, t)

/-- util_io.cc:435-459 `to_txt(IRM)`.  What is written before a failure is not modelled. -/
def irmText {F : Family V} (I : IRM F) (e : Encoding) (t : Tape) : Res (List Char × Tape) := do
  let (l, t) := shuffle I.doms.entries t
  domainsText e l t

/-- util_io.cc:470-471: the names of the relations of a table. -/
def relNames (codeToRel : FMap Int String) : List Int → Res (List String)
  | [] => .ok []
  | c :: cs => do
    let n ← codeToRel.atKey c
    let rest ← relNames codeToRel cs
    .ok (n :: rest)

/-- util_io.cc:467-477: the relation clusters. -/
def relClustersText (codeToRel : FMap Int String) : List (Int × FSet Int) → Tape → Res (List Char × Tape)
  | [], t => .ok ([], t)
  | (table, rcs) :: l, t => do
    let (cs, t) := shuffle rcs.keys t
    let names ← relNames codeToRel cs
    let (rest, t) ← relClustersText codeToRel l t
    .ok (intText table ++ ' ' :: joinNames rcs.size 1 names ++ '\n' :: rest, t)

/-- util_io.cc:480-488: the IRMs; there is an empty line after each but the last. -/
def irmsText {F : Family V} (irms : FMap Int (IRM F)) (e : Encoding) : List (Int × FSet Int) → Tape → Res (List Char × Tape)
  | [], t => .ok ([], t)
  | (table, _) :: l, t => do
    let I ← irms.atKey table
    let (here, t) ← irmText I e t
    let (rest, t) ← irmsText irms e l t
    .ok ("irm=".toList ++ intText table ++ '\n' :: here ++ (if l = [] then [] else ['\n']) ++ rest, t)

/-- util_io.cc:461-489 `to_txt(HIRM)`. -/
def hirmText {F : Family V} (H : HIRM F) (e : Encoding) (t : Tape) : Res (List Char × Tape) := do
  let (rels, t) ← relClustersText H.codeToRel H.crp.tables.entries t
  let (irms, t) ← irmsText H.irms e H.crp.tables.entries t
  .ok (rels ++ '\n' :: irms, t)

/-! ### Reading -/

/-- `std::map<std::string, std::map<int, std::vector<std::string>>>`: the clusters of the domains -/
abbrev Clusters := FMap String (FMap Int (List String))

/-- util_io.cc:529-531 and 615-620: a cluster is added. -/
def addCluster (cl : Clusters) (d : String) (table : Int) (items : List (List Char)) : Res Clusters :=
  if items = [] then .error .assert
  else if ((cl.find? d).getD ∅).contains table then .error .assert
  else .ok (cl.set d (((cl.find? d).getD ∅).set table (items.map String.ofList)))

/-- util_io.cc:519-531: a line; if the domain or the table is missing, there are no items. -/
def irmLine (cl : Clusters) (line : List Char) : Res Clusters :=
  match readInt (readWord line).2 with
  | none => .error .assert
  | some (table, rest) => addCluster cl (String.ofList (readWord line).1) table (words rest)

/-- util_io.cc:514-533: the lines. -/
def irmLines : List (List Char) → Clusters → Res Clusters
  | [], cl => .ok cl
  | l :: ls, cl => if l = [] then irmLines ls cl else do
    let cl ← irmLine cl l
    irmLines ls cl

/-- util_io.cc:507-536 `load_clusters_irm`. -/
def loadClustersIrm (text : List Char) : Res Clusters := irmLines (lines text) ∅

/-- util_io.cc:538-545 `isnumeric`. -/
def isNumeric (s : List Char) : Bool := s.all isDigit && !s.isEmpty

/-- The local variables of `load_clusters_hirm` (util_io.cc:560-566). -/
structure HLoad where
  relations : FMap Int (List String) := ∅
  irms : FMap Int Clusters := ∅
  irmc : Int := 0

/-- util_io.cc:579-590: a relation cluster. -/
def relLine (s : HLoad) (first rest : List Char) : Res HLoad :=
  let items := words rest
  if items = [] then .error .assert
  else if s.relations.contains (natValue first) then .error .assert
  else .ok { s with relations := s.relations.set (natValue first) (items.map String.ofList) }

/-- util_io.cc:592-601: an `irm=` line; `std::stoi` throws if there is no number. -/
def headLine (s : HLoad) (first : List Char) : Res HLoad :=
  if s.irmc ≠ -1 then .error .assert
  else if first.length ≤ 4 then .error .assert
  else match readInt (first.drop 4) with
    | none => .error .outOfRange
    | some (table, _) =>
      if s.irms.contains table then .error .assert
      else .ok { s with irmc := table, irms := s.irms.set table ∅ }

/-- util_io.cc:603-621: a domain cluster. -/
def domLine (s : HLoad) (first rest : List Char) : Res HLoad :=
  if s.irmc ≤ -1 then .error .assert
  else match s.irms.find? s.irmc with
    | none => .error .assert
    | some cl =>
      if isNumeric (readWord rest).1 then do
        let cl ← addCluster cl (String.ofList first) (natValue (readWord rest).1) (words (readWord rest).2)
        .ok { s with irms := s.irms.set s.irmc cl }
      else .error .assert

/-- util_io.cc:568-621: a line. -/
def hirmLine (s : HLoad) (line : List Char) : Res HLoad :=
  if line = [] then .ok { s with irmc := -1 }
  else if isNumeric (readWord line).1 then relLine s (readWord line).1 (readWord line).2
  else if "irm=".toList.isPrefixOf (readWord line).1 then headLine s (readWord line).1
  else domLine s (readWord line).1 (readWord line).2

/-- util_io.cc:568-622: the lines. -/
def hirmLines : List (List Char) → HLoad → Res HLoad
  | [], s => .ok s
  | l :: ls, s => do
    let s ← hirmLine s l
    hirmLines ls s

/-- util_io.cc:547-634 `load_clusters_hirm`. -/
def loadClustersHirm (text : List Char) : Res (FMap Int (List String) × FMap Int Clusters) := do
  let s ← hirmLines (lines text) {}
  assertR (s.relations.size == s.irms.size)
  assertR (s.relations.keys.all s.irms.contains)
  .ok (s.relations, s.irms)

end UtilIO
end Verif
