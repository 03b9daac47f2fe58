import Verif.Spec.Text
import Verif.Model.VMs
/-
The stack machines with numbers of unlimited size.
-/
namespace HPP.Spec

/-- The state of an ideal machine: whole numbers of any size. -/
structure Ideal where
  stack : List Int
  reg : Int
  reg2 : Int
  error : Nat
  out : List Int
  deriving DecidableEq

/-- The text is a number: digits, at least one. -/
def IsNumeral (ds : Str) : Prop := ds ≠ [] ∧ ∀ c ∈ ds, IsDigit c

instance (ds : Str) : Decidable (IsNumeral ds) := inferInstanceAs (Decidable (_ ∧ _))

/-- An unsigned number of 64 bits, a `+` in front being allowed. -/
def readUnsigned (s : Str) : Option Int :=
  let ds := if s.head? = some '+' then s.tail else s
  if IsNumeral ds ∧ decimalValue ds < 2 ^ 64 then some (decimalValue ds) else none

/-- A signed number of 64 bits, a sign in front being allowed. -/
def readSigned (s : Str) : Option Int :=
  let ds := if s.head? = some '+' ∨ s.head? = some '-' then s.tail else s
  let v : Int := if s.head? = some '-' then -decimalValue ds else decimalValue ds
  if IsNumeral ds ∧ -(2 ^ 63) ≤ v ∧ v < 2 ^ 63 then some v else none

/-- Replacing the top of the stack; without one, error 1. -/
def Ideal.top (s : Ideal) (f : Int → Int) : Ideal :=
  match s.stack with
  | [] => { s with error := 1 }
  | x :: st => { s with stack := f x :: st }

/-- Taking the top off the stack; without one, error 1. -/
def Ideal.take (s : Ideal) (f : Int → Ideal → Ideal) : Ideal :=
  match s.stack with
  | [] => { s with error := 1 }
  | x :: st => f x { s with stack := st }

/-- What an instruction does to an ideal machine, `node` being the text of the first child of the current node (if there
is one) and `read` the reading of numbers. -/
def Ideal.step (read : Str → Option Int) (node : Option Str) (s : Ideal) : Instr → Ideal
  | .add => s.top (fun x => x + s.reg)
  | .sub => s.top (fun x => x - s.reg)
  | .pow b => s.top (fun x => x * (b : Int) ^ (s.reg % 2 ^ 32).toNat + s.reg2)
  | .regAddConst c => { s with reg := s.reg + c }
  | .digit => s
  | .popToReg => s.take (fun x s => { s with reg := x })
  | .popToReg2 => s.take (fun x s => { s with reg2 := x })
  | .popDiscard => s.take (fun _ s => s)
  | .pushConst c => { s with stack := c :: s.stack }
  | .pushReg => { s with stack := s.reg :: s.stack }
  | .pushReg2 => { s with stack := s.reg2 :: s.stack }
  | .printReg => { s with out := s.out ++ [s.reg] }
  | .printReg2 => { s with out := s.out ++ [s.reg2] }
  | .printError => { s with out := s.out ++ [(s.error : Int)] }
  | .pushFromTree =>
    match node with
    | none => { s with error := 1 }
    | some d =>
      match read d with
      | some v => { s with stack := v :: s.stack }
      | none => { s with error := 2 }

/-- The instructions of SimpleStackVm among those of StackVm. -/
def SInstr.general : SInstr → Instr
  | .add => .add | .sub => .sub | .digit => .digit | .popToReg => .popToReg | .popToReg2 => .popToReg2
  | .popDiscard => .popDiscard | .pushFromTree => .pushFromTree | .pushReg => .pushReg | .pushReg2 => .pushReg2
  | .printReg => .printReg | .printReg2 => .printReg2 | .printError => .printError
  | .regAddConst c => .regAddConst c | .pushConst c => .pushConst c | .pow b => .pow b

/-- The text of the first child of a node; the outer `none` is a panic of the tree. -/
def firstChildText (t : Tree Str) (id : NodeId) : Option (Option Str) :=
  match t.getByPathOrNone id [0] with
  | .ok (some n) => some (some n.data)
  | .ok none => some none
  | .err _ => some none
  | .panic => none
  | .timeout => none

/-- The instruction looks at the tree. -/
def Instr.looks : Instr → Bool
  | .pushFromTree => true
  | _ => false

/-- An instruction of an ideal machine at a node of a tree: it panics only if looking at the tree does. -/
def Ideal.execute (read : Str → Option Int) (t : Tree Str) (id : NodeId) (i : Instr) (s : Ideal) :
    Option (Tree Str × Ideal) :=
  if Instr.looks i then (firstChildText t id).map (fun node => (t, s.step read node i))
  else some (t, s.step read none i)

/-- StackVm with numbers of unlimited size. -/
def idealStackVm (cc : CharClass) : VM Instr Ideal where
  parseInstructions := (stackVm cc false).parseInstructions
  execute := Ideal.execute readSigned
  init := ⟨[], 0, 0, 0, []⟩

/-- SimpleStackVm with numbers of unlimited size (also below zero). -/
def idealSimpleVm : VM SInstr Ideal where
  parseInstructions := (simpleStackVm false).parseInstructions
  execute t id i s := Ideal.execute readUnsigned t id (SInstr.general i) s
  init := ⟨[], 0, 0, 0, []⟩

/-- The signed 64-bit number with the same remainder modulo 2^64. -/
def signed64 (n : Int) : Int := n.bmod (2 ^ 64)

/-- The unsigned 64-bit number with the same remainder modulo 2^64. -/
def unsigned64 (n : Int) : Nat := (n % 2 ^ 64).toNat

/-- Every number of the machine is that of the ideal machine modulo 2^64, in the signed range. -/
structure SignedModulo (s : VState) (S : Ideal) : Prop where
  stack : s.stack = S.stack.map signed64
  reg : s.reg = signed64 S.reg
  reg2 : s.reg2 = signed64 S.reg2
  error : s.error = S.error
  out : s.out = S.out.map signed64
  code : s.error ≤ 2

/-- Every number of the machine is that of the ideal machine modulo 2^64, in the unsigned range. -/
structure UnsignedModulo (s : SState) (S : Ideal) : Prop where
  stack : s.stack = S.stack.map unsigned64
  reg : s.reg = unsigned64 S.reg
  reg2 : s.reg2 = unsigned64 S.reg2
  error : s.error = S.error
  out : s.out = S.out.map unsigned64
  code : s.error ≤ 2

/-- Every number of the machine is exactly that of the ideal machine. -/
structure SignedExact (s : VState) (S : Ideal) : Prop where
  stack : s.stack = S.stack
  reg : s.reg = S.reg
  reg2 : s.reg2 = S.reg2
  error : s.error = S.error
  out : s.out = S.out

/-- Every number of the machine is exactly that of the ideal machine. -/
structure UnsignedExact (s : SState) (S : Ideal) : Prop where
  stack : s.stack.map (fun (n : Nat) => (n : Int)) = S.stack
  reg : (s.reg : Int) = S.reg
  reg2 : (s.reg2 : Int) = S.reg2
  error : s.error = S.error
  out : s.out.map (fun (n : Nat) => (n : Int)) = S.out

/-- The constant of the instruction is a signed 64-bit number. -/
def Instr.ConstSigned : Instr → Prop
  | .regAddConst c | .pushConst c => -(2 ^ 63) ≤ c ∧ c < 2 ^ 63
  | _ => True

/-- The constant of the instruction is an unsigned 64-bit number. -/
def SInstr.ConstUnsigned : SInstr → Prop
  | .regAddConst c | .pushConst c => c < 2 ^ 64
  | _ => True

/-- The instruction is a multiplication by a power. -/
def Instr.isPow : Instr → Bool
  | .pow _ => true
  | _ => false

/-- The number is a signed one of 64 bits. -/
def isSigned64 (n : Int) : Bool := decide (-(2 ^ 63) ≤ n ∧ n < 2 ^ 63)

/-- The number is an unsigned one of 64 bits. -/
def isUnsigned64 (n : Int) : Bool := decide (0 ≤ n ∧ n < 2 ^ 64)

/-- Every number that the instruction computes is in range. -/
def Ideal.fits (range : Int → Bool) (s : Ideal) : Instr → Bool
  | .add => s.stack.head?.all (fun x => range (x + s.reg))
  | .sub => s.stack.head?.all (fun x => range (x - s.reg))
  | .pow b => s.stack.head?.all (fun x =>
      let p := (b : Int) ^ (s.reg % 2 ^ 32).toNat
      range p && range (x * p) && range (x * p + s.reg2))
  | .regAddConst c => range (s.reg + c)
  | _ => true

/-- The machine that panics before an instruction that is not allowed. -/
def guardVm {I S : Type} (vm : VM I S) (allowed : S → I → Bool) : VM I S where
  parseInstructions := vm.parseInstructions
  execute t id i s := if allowed s i then vm.execute t id i s else none
  init := vm.init

end HPP.Spec
