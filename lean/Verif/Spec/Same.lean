import Verif.Model.Script
/-
When two runs of a parse count as the same: the expected list of an unexpected-character error may be printed
in another order, everything else is equal.
-/
namespace HPP.Spec

/-- How a lookahead is named in a message: a character by itself, the end of the input as the word `terminate`. -/
def lookaheadText : SetMember → Str
  | .char c => [c]
  | .terminate => "terminate".toList

/-- How a list of lookaheads is written in a message: separated by semicolons. -/
def expectedText (L : List SetMember) : Str := List.intercalate ";".toList (L.map lookaheadText)

/-- The same expected list, possibly printed in another order. -/
def SameExpected (x y : Str) : Prop :=
  ∃ L L' : List SetMember, L.Perm L' ∧ x = expectedText L ∧ y = expectedText L'

/-- The same error. -/
def SameErr : PErr → PErr → Prop
  | .unexpectedChar c p x, .unexpectedChar c' p' y => c = c' ∧ p = p' ∧ (x = y ∨ SameExpected x y)
  | e, e' => e = e'

/-- The same result. -/
def SameRes {α : Type} : Res PErr α → Res PErr α → Prop
  | .ok a, .ok b => a = b
  | .err e, .err e' => SameErr e e'
  | .panic, .panic => True
  | .timeout, .timeout => True
  | _, _ => False

end HPP.Spec
