import Verif.Spec.Calc
/-
What the calculator examples do with every script of words: also when operands are missing and when numbers or results do
not fit.  Nothing here mentions grammars or machines.
-/
namespace HPP.Spec

/-- What can be observed of a calculator: the stack (top first), the last operand taken from it, the error code and what
was printed (oldest first). -/
structure Calc where
  stack : List Int
  last : Int
  error : Nat
  out : List Int
  deriving DecidableEq, Repr

/-- The result of an operation on machine words `lo .. hi-1`: a result outside panics (`none`) in builds with overflow
checks and wraps around otherwise. -/
def wordResult (lo hi : Int) (checked : Bool) (n : Int) : Option Int :=
  if lo ≤ n ∧ n < hi then some n
  else if checked then none
  else some (lo + (n - lo) % (hi - lo))

/-- The sum of the digits weighted by the powers of ten, the exponents being reduced to 32 bits; for digit strings of at
most `2 ^ 32` digits this is the decimal value (`weighted_decimal`). -/
def weighted : List (Fin 10) → Nat
  | [] => 0
  | d :: ds => d.val * 10 ^ (ds.length % 2 ^ 32) + weighted ds

/-- How a kind of calculator treats numbers and results. -/
structure Arithmetic where
  /-- the value pushed for a digit string; `none`: panic -/
  number : List (Fin 10) → Option Int
  /-- the value of a sum or difference; `none`: panic -/
  result : Int → Option Int
  /-- a number of digits as a machine word -/
  count : Nat → Int

/-- `usize` words: with overflow checks a number of more than 20 digits or of a value that does not fit panics. -/
def unsigned (checked : Bool) : Arithmetic where
  number ds :=
    if checked then (if ds.length ≤ 20 ∧ decimal ds < 2 ^ 64 then some (decimal ds) else none)
    else some ((weighted ds % 2 ^ 64 : Nat) : Int)
  result := wordResult 0 (2 ^ 64) checked
  count n := ((n % 2 ^ 64 : Nat) : Int)

/-- `n` read as a 64-bit two's complement word. -/
def signedWord (n : Int) : Int := -(2 ^ 63) + (n + 2 ^ 63) % 2 ^ 64

/-- `isize` words: with overflow checks a number of more than 20 digits panics, and so does a number whose last 19 digits
do not fit; of the remaining numbers of 20 digits those that begin with 0 are pushed, those that begin with 1 are pushed
`2 ^ 64` too low, and those that begin with a larger digit panic. -/
def signed (checked : Bool) : Arithmetic where
  number ds :=
    if checked then
      (if 20 < ds.length ∨ 2 ^ 63 ≤ decimal (ds.drop (ds.length - 19)) then none
       else if ds.length = 20 ∧ ds.head? = some 1 then some ((decimal ds : Int) - 2 ^ 64)
       else if ds.length = 20 ∧ ds.head? ≠ some 0 then none
       else some (decimal ds))
    else some (signedWord (weighted ds))
  result := wordResult (-(2 ^ 63)) (2 ^ 63) checked
  count n := signedWord n

/-- One word.  A number of several digits leaves the number of its digits as "last operand".  An operator that misses an
operand sets the error code and loses the operand that is there; `print` on an empty stack sets the error code and prints
the last operand. -/
def calcStep (ar : Arithmetic) (c : Calc) : Token → Option Calc
  | .num ds => (ar.number ds).map fun v =>
      { c with stack := v :: c.stack, last := if ds.length = 1 then c.last else ar.count ds.length }
  | .add =>
    match c.stack with
    | b :: a :: st => (ar.result (a + b)).map fun r => { c with stack := r :: st, last := b }
    | [b] => some { c with stack := [], last := b, error := 1 }
    | [] => some { c with error := 1 }
  | .sub =>
    match c.stack with
    | b :: a :: st => (ar.result (a - b)).map fun r => { c with stack := r :: st, last := b }
    | [b] => some { c with stack := [], last := b, error := 1 }
    | [] => some { c with error := 1 }
  | .print =>
    match c.stack with
    | a :: st => some { c with stack := st, last := a, out := c.out ++ [a] }
    | [] => some { c with error := 1, out := c.out ++ [c.last] }

/-- The words of a script, in order; `none`: panic. -/
def calcRun (ar : Arithmetic) (c : Calc) : List Token → Option Calc
  | [] => some c
  | t :: ts =>
    match calcStep ar c t with
    | some c' => calcRun ar c' ts
    | none => none

end HPP.Spec
