import Verif.Spec.CalcTotal
/-
Arithmetic expressions, their values, and how they are written in reverse Polish notation.  Nothing here mentions grammars
or machines.
-/
namespace HPP.Spec

/-- Expressions with numbers (given by their digits), sums and differences. -/
inductive Arith where
  | num (ds : List (Fin 10))
  | plus (a b : Arith)
  | minus (a b : Arith)
  deriving DecidableEq, Repr

namespace Arith

/-- The value of an expression, without limits. -/
def value : Arith → Int
  | .num ds => decimal ds
  | .plus a b => a.value + b.value
  | .minus a b => a.value - b.value

/-- The expression in reverse Polish notation: first the operands, then the operator. -/
def words : Arith → List Token
  | .num ds => [.num ds]
  | .plus a b => a.words ++ b.words ++ [.add]
  | .minus a b => a.words ++ b.words ++ [.sub]

/-- Every number has between one and `n` digits. -/
def Digits (n : Nat) : Arith → Prop
  | .num ds => ds ≠ [] ∧ ds.length ≤ n
  | .plus a b => a.Digits n ∧ b.Digits n
  | .minus a b => a.Digits n ∧ b.Digits n

/-- The values of the expression and of all its parts are in `lo .. hi-1`. -/
def Fits (lo hi : Int) : Arith → Prop
  | .num ds => lo ≤ decimal ds ∧ (decimal ds : Int) < hi
  | .plus a b => a.Fits lo hi ∧ b.Fits lo hi ∧ lo ≤ a.value + b.value ∧ a.value + b.value < hi
  | .minus a b => a.Fits lo hi ∧ b.Fits lo hi ∧ lo ≤ a.value - b.value ∧ a.value - b.value < hi

end Arith

/-- The script that prints some expressions, one after the other. -/
def printing : List Arith → List Token
  | [] => []
  | e :: es => e.words ++ .print :: printing es

end HPP.Spec
