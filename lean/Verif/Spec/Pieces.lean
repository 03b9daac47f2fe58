import Verif.Spec.CalcTotal
import Verif.Model.VMs
/-
Calculator scripts in pieces.
-/
namespace HPP.Spec

/-- The text is a calculator script: words separated by single blanks, at least one. -/
def IsScript (u : Str) : Prop := ∃ toks : List Token, toks ≠ [] ∧ (∀ t ∈ toks, t.Ok) ∧ u = scriptText toks

/-- What can be observed of a machine: the stack, the first register, the error code and what was printed. -/
def SState.shown (s : SState) : List Nat × Nat × Nat × List Nat := (s.stack, s.reg, s.error, s.out)

/-- The same for StackVm. -/
def VState.shown (s : VState) : List Int × Int × Nat × List Int := (s.stack, s.reg, s.error, s.out)

/-- `whole` is the outcome of a run, `first` that of its first part and `second` that of its second part, run from the state that the
first part left behind: the whole panics if and only if one of the parts does; otherwise all three succeed and whole and second end
in states that look the same. -/
def InPieces {S α : Type} (shown : S → α) (whole first : Res PErr (Tree Str) × Ctx S) (second : S → Res PErr (Tree Str) × Ctx S) : Prop :=
  (whole.1 = .panic ∧ (first.1 = .panic ∨ (∃ t, first.1 = .ok t) ∧ (second first.2.state).1 = .panic)) ∨
  (∃ t t1 t2, whole.1 = .ok t ∧ first.1 = .ok t1 ∧ (second first.2.state).1 = .ok t2 ∧
    whole.2.proc.rest = [] ∧ first.2.proc.rest = [] ∧ (second first.2.state).2.proc.rest = [] ∧
    shown whole.2.state = shown (second first.2.state).2.state)

end HPP.Spec
