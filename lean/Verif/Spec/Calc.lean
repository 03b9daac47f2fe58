import Verif.Model.Basic
/-
Scripts of the calculator examples and reverse Polish evaluation.  Nothing here mentions grammars or machines.
-/
namespace HPP.Spec

/-- A word of a calculator script. -/
inductive Token where
  | num (ds : List (Fin 10))
  | add
  | sub
  | print
  deriving DecidableEq, Repr

/-- The character of a decimal digit. -/
def figure : Fin 10 → Char
  | 0 => '0' | 1 => '1' | 2 => '2' | 3 => '3' | 4 => '4' | 5 => '5' | 6 => '6' | 7 => '7' | 8 => '8' | 9 => '9'

/-- How a word is written. -/
def Token.text : Token → Str
  | .num ds => ds.map figure
  | .add => c% "+"
  | .sub => c% "-"
  | .print => c% "print"

/-- A number has at least one digit. -/
def Token.Ok : Token → Prop
  | .num ds => ds ≠ []
  | _ => True

/-- Words separated by single blanks. -/
def scriptText : List Token → Str
  | [] => []
  | [t] => t.text
  | t :: u :: ts => t.text ++ ' ' :: scriptText (u :: ts)

/-- The number of digits of a word. -/
def Token.digits : Token → Nat
  | .num ds => ds.length
  | _ => 0

/-- The value of a digit string, most significant digit first. -/
def decimal (ds : List (Fin 10)) : Nat := ds.foldl (fun v d => 10 * v + d.val) 0

/-- The state of a reverse Polish calculation: the stack (top first) and what was printed (oldest first). -/
structure Rpn where
  stack : List Int
  out : List Int
  deriving DecidableEq, Repr

/-- Reverse Polish evaluation of one word with values in `lo .. hi-1`; `none` if an operand is missing or a value leaves
the range. -/
def rpnStep (lo hi : Int) (c : Rpn) : Token → Option Rpn
  | .num ds => if lo ≤ decimal ds ∧ (decimal ds : Int) < hi then some { c with stack := decimal ds :: c.stack } else none
  | .add =>
    match c.stack with
    | b :: a :: st => if lo ≤ a + b ∧ a + b < hi then some { c with stack := (a + b) :: st } else none
    | _ => none
  | .sub =>
    match c.stack with
    | b :: a :: st => if lo ≤ a - b ∧ a - b < hi then some { c with stack := (a - b) :: st } else none
    | _ => none
  | .print =>
    match c.stack with
    | a :: st => some ⟨st, c.out ++ [a]⟩
    | [] => none

/-- Reverse Polish evaluation of a script. -/
def rpn (lo hi : Int) (c : Rpn) : List Token → Option Rpn
  | [] => some c
  | t :: ts =>
    match rpnStep lo hi c t with
    | some c' => rpn lo hi c' ts
    | none => none

end HPP.Spec
