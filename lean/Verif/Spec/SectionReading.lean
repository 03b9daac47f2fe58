import Verif.Spec.RuleText
import Verif.Model.ParseFuncs
/-
Programs that read from a process through its public calls and the lexical helpers, the way the author of a virtual machine
writes `parse_instructions`.
-/
namespace HPP.Spec

/-- A call that reads from a process; the index is the type of its answer. -/
inductive ReadCall : Type → Type where
  | peek : ReadCall (Option Char)
  | next : ReadCall (Option Char)
  | nextIf (f : Char → Bool) : ReadCall (Option Char)
  | nextIfEq (c : Char) : ReadCall (Option Char)
  | curPos : ReadCall Nat
  | whitespace : ReadCall Unit
  | digits : ReadCall (Res PErr Str)
  | requiredDigits : ReadCall (Res PErr Str)
  | usize : ReadCall (Res PErr Nat)
  | isize : ReadCall (Res PErr Int)
  | symbol (c : Char) : ReadCall (Res PErr Unit)
  | varName (cc : CharClass) : ReadCall (Res PErr Str)

/-- The answer of a call and the process after it. -/
def ReadCall.run {σ α : Type} [TPeekable σ] : ReadCall α → PP σ → α × PP σ
  | .peek, p => p.peek
  | .next, p => p.next
  | .nextIf f, p => p.nextIf f
  | .nextIfEq c, p => p.nextIfEq c
  | .curPos, p => (p.curPos, p)
  | .whitespace, p => ((), parseWhitespace p)
  | .digits, p => parseDigits p
  | .requiredDigits, p => parseRequiredDigits p
  | .usize, p => parseUsize p
  | .isize, p => parseIsize p
  | .symbol c, p => parseSymbol c p
  | .varName cc, p => parseVarName cc p

/-- A program: it returns, or makes a call and goes on depending on the answer. -/
inductive ReadProg (α : Type) : Type 1 where
  | done (a : α)
  | call {β : Type} (c : ReadCall β) (next : β → ReadProg α)

/-- What a program returns and the process after it. -/
def ReadProg.run {σ α : Type} [TPeekable σ] : ReadProg α → PP σ → α × PP σ
  | .done a, p => (a, p)
  | .call c next, p => (next (c.run p).1).run (c.run p).2

/-- Without a closing brace, and not ending in the escape character. -/
def PlainBody (w : Str) : Prop := '}' ∉ w ∧ w.getLast? ≠ some '\\'

end HPP.Spec
