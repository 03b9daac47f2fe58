import Verif.Spec.Ideal
import Verif.Spec.Effects
/-
The words of 64 bits that SimpleStackVm (which reads them as unsigned numbers) and StackVm (which reads them as two's complement) hold.
-/
namespace HPP.Spec

/-- The two states hold the same words: the numbers of StackVm are those of SimpleStackVm read as two's complement. -/
structure SameWords (s1 : SState) (s2 : VState) : Prop where
  stack : s2.stack = s1.stack.map (fun (n : Nat) => signed64 n)
  reg : s2.reg = signed64 s1.reg
  reg2 : s2.reg2 = signed64 s1.reg2
  error : s2.error = s1.error
  out : s2.out = s1.out.map (fun (n : Nat) => signed64 n)
  stackWords : ∀ n ∈ s1.stack, n < 2 ^ 64
  regWord : s1.reg < 2 ^ 64
  reg2Word : s1.reg2 < 2 ^ 64
  outWords : ∀ n ∈ s1.out, n < 2 ^ 64
  code : s1.error ≤ 2

/-- The instruction of StackVm for an instruction of SimpleStackVm, constants being read as two's complement. -/
def SInstr.signed : SInstr → Instr
  | .regAddConst c => .regAddConst (signed64 c)
  | .pushConst c => .pushConst (signed64 c)
  | i => SInstr.general i

/-- Both machines read the same number from the text, or none. -/
def ReadAlike (d : Str) : Prop := readUnsigned d = readSigned d


end HPP.Spec
