import Verif.Spec.RuleText
/-
Code that only reads a process, and what the positions in errors mean.
-/
namespace HPP

/-- The calls a user can make on a process. -/
inductive ReadOp where
  | peek
  | next
  | nextIf (f : Char → Bool)
  | nextIfEq (c : Char)

/-- The answer of a call. -/
def ReadOp.run {σ : Type} [TPeekable σ] : ReadOp → σ → Option Char × σ
  | .peek, s => TPeekable.peek s
  | .next, s => TPeekable.next s
  | .nextIf f, s => TPeekable.nextIf f s
  | .nextIfEq c, s => TPeekable.nextIfEq c s

/-- The character a call consumed. -/
def ReadOp.consumed : ReadOp → Option Char → List Char
  | .peek, _ => []
  | _, some c => [c]
  | _, none => []

/-- The characters consumed by a sequence of calls, and the final state. -/
def runReads {σ : Type} [TPeekable σ] : List ReadOp → σ → List Char × σ
  | [], s => ([], s)
  | op :: ops, s =>
    let (r, s1) := op.run s
    let (cs, s2) := runReads ops s1
    (op.consumed r ++ cs, s2)

namespace Spec
variable {I S : Type}

/-- The VM returns for every section, and what it does to the process is some sequence of reading calls. -/
structure OnlyReads (vm : VM I S) : Prop where
  reads : ∀ name w k, ∃ ops, (vm.parseInstructions name (sectionProcess w k)).2 = (runReads ops (sectionProcess w k)).2
  returns : ∀ name w k, (∃ is, (vm.parseInstructions name (sectionProcess w k)).1 = .ok is) ∨
    (∃ e, (vm.parseInstructions name (sectionProcess w k)).1 = .err e)

/-- The error points into the text: `unexpectedChar` names the character at its position, `endOfChars` gives the length
of the text, a misplaced element is inside the text.  (Other errors do not satisfy this.) -/
def PointsInto (text : Str) : PErr → Prop
  | .unexpectedChar c p _ => text[p]? = some c
  | .endOfChars p => p = text.length
  | .gram (.unexpectedElement _ p) => p ≤ text.length
  | _ => False

/-- The error came from the VM, reading a section somewhere in the text. -/
def FromSection (vm : VM I S) (text : Str) (e : PErr) : Prop :=
  ∃ u v name, text = u ++ v ∧
    (vm.parseInstructions name (sectionProcess v u.length)).1 = .err e

/-- In this place of some text the VM makes `instr` of the section text `body` and stops on the closing brace. -/
def ReadsSectionIn (vm : VM I S) (name body : Str) (instr : List I) : Prop :=
  ∃ (rest : Str) (k : Nat) (p : PP Proc),
    vm.parseInstructions name (sectionProcess (body ++ '}' :: rest) k) = (.ok instr, p) ∧
    p.src = ⟨⟨'}' :: rest⟩, k + body.length, none, none, false⟩

end Spec
end HPP
