import Verif.Basic.Outcome
/-!
Characters and streams of the C++ standard library, as far as the file formats use them.  A text is a list of characters; the
C locale is assumed, so only ASCII characters are spaces, digits or letters.
-/
namespace Verif
namespace Text

/-- `std::isspace` in the C locale: space, tab, newline, vertical tab, form feed, carriage return. -/
def isSpace (c : Char) : Bool := c.toNat == 32 || (decide (9 ≤ c.toNat) && decide (c.toNat ≤ 13))

/-- `std::isdigit`. -/
def isDigit (c : Char) : Bool := decide (48 ≤ c.toNat) && decide (c.toNat ≤ 57)

/-- `std::isupper` in the C locale. -/
def isUpper (c : Char) : Bool := decide (65 ≤ c.toNat) && decide (c.toNat ≤ 90)

/-- `std::isalnum` in the C locale. -/
def isAlnum (c : Char) : Bool := isDigit c || isUpper c || (decide (97 ≤ c.toNat) && decide (c.toNat ≤ 122))

/-- `std::isprint` in the C locale. -/
def isPrint (c : Char) : Bool := decide (32 ≤ c.toNat) && decide (c.toNat ≤ 126)

/-- The results of the loop `while (std::getline(stream, part, d))`, where `acc` is what has been read of the current part: a part ends at
`d` or at the end of the text; at the end of the text, a part without characters is not returned. -/
def getl (d : Char) : List Char → List Char → List (List Char)
  | acc, [] => if acc = [] then [] else [acc]
  | acc, c :: cs => if c = d then acc :: getl d [] cs else getl d (acc ++ [c]) cs

/-- The parts of a text. -/
def parts (d : Char) (text : List Char) : List (List Char) := getl d [] text

/-- The lines of a file. -/
def lines (text : List Char) : List (List Char) := parts '\n' text

/-- The results of the loop `for (std::string w; stream >> w;)`, where `acc` is what has been read of the current word. -/
def wordl : List Char → List Char → List (List Char)
  | acc, [] => if acc = [] then [] else [acc]
  | acc, c :: cs =>
    if isSpace c then (if acc = [] then wordl [] cs else acc :: wordl [] cs) else wordl (acc ++ [c]) cs

/-- The words of a line. -/
def words (line : List Char) : List (List Char) := wordl [] line

/-- The digit for a number less than 10. -/
def digit (n : Nat) : Char := Char.ofNat (48 + n)

/-- The last digits of a number, at most `fuel` of them. -/
def natDigits : Nat → Nat → List Char
  | 0, _ => []
  | fuel + 1, n => if n < 10 then [digit n] else natDigits fuel (n / 10) ++ [digit (n % 10)]

/-- `stream << n` for a number that is not negative. -/
def natText (n : Nat) : List Char := natDigits (n + 1) n

/-- `stream << n` for an `int`. -/
def intText : Int → List Char
  | .ofNat n => natText n
  | .negSucc n => '-' :: natText (n + 1)

/-- `stream >> word`: the word and the rest of the stream; without a word, the stream is at its end and has failed. -/
def readWord (cs : List Char) : List Char × List Char :=
  let cs := cs.dropWhile isSpace
  (cs.takeWhile (fun c => !isSpace c), cs.dropWhile (fun c => !isSpace c))

/-- The value of digits. -/
def natValue (cs : List Char) : Nat := cs.foldl (fun n c => 10 * n + (c.toNat - 48)) 0

/-- `stream >> n` for an `int n`, and also `std::stoi`: the number and the rest.  Numbers have any size: that an `int` can be too small for
the number is not modelled. -/
def readInt (cs : List Char) : Option (Int × List Char) :=
  let cs := cs.dropWhile isSpace
  let neg := cs.head? == some '-'
  let cs := if cs.head? = some '-' ∨ cs.head? = some '+' then cs.tail else cs
  let ds := cs.takeWhile isDigit
  if ds = [] then none
  else some (if neg then -(natValue ds : Int) else natValue ds, cs.dropWhile isDigit)

end Text
end Verif
