import Verif.Model.Text
/-!
Specification of texts that consist of parts.
-/
namespace Verif
namespace Text

/-- The text with a delimiter at its end: one is added if there is none. -/
def ended (d : Char) (text : List Char) : List Char := if text = [] ∨ text.getLast? = some d then text else text ++ [d]

/-- The text consists of these parts, each followed by the delimiter, which may be missing after the last. -/
def Consists (d : Char) (text : List Char) (ps : List (List Char)) : Prop :=
  (∀ p ∈ ps, d ∉ p) ∧ ps.flatMap (· ++ [d]) = ended d text

end Text
end Verif
