import Verif.Model.Script
import Verif.Model.ParseFuncs
/-
Model of src/vms.rs (NullVm), src/vms/counting_vm.rs, src/vms/simple_stack_vm.rs, src/vms/stack_vm.rs.
The target is a 64-bit machine.  Arithmetic overflow panics in builds with overflow checks
(`checked = true`, the default of debug builds) and wraps otherwise.  `println!` is recorded in an
output list.
-/
namespace HPP

/-- `while let Some(_) = to_parse.next() {}` (vms.rs 237-240, simple_stack_vm.rs 44-47). -/
def drainLoop {σ : Type} [TPeekable σ] : Nat → PP σ → Res PErr Unit × PP σ
  | 0, p => (.timeout, p)
  | fuel + 1, p =>
    match p.next with
    | (some _, p1) => drainLoop fuel p1
    | (none, p1) => (.ok (), p1)

/-- `drainLoop` with enough iterations for the remaining text (vms.rs 237-240, simple_stack_vm.rs 44-47). -/
def drain {σ : Type} [TPeekable σ] (p : PP σ) : Res PErr Unit × PP σ :=
  drainLoop (p.rest.length + 1) p

/-- `impl VM for NullVm` (vms.rs 197-272; `null_instruction` does nothing and is not called). -/
def nullVm : VM Nat Nat where
  parseInstructions _ p :=
    match drain p with
    | (.ok _, p1) => (.ok [0], p1)
    | (.err e, p1) => (.err e, p1)
    | (.panic, p1) => (.panic, p1)
    | (.timeout, p1) => (.timeout, p1)
  execute t _ _ s := some (t, s)
  init := 0

/-! ### Machine arithmetic -/

/-- `usize` result of an operation with mathematical result `n` (counting_vm.rs 10, simple_stack_vm.rs 77, 85, 146, 155). -/
def uRes (checked : Bool) (n : Int) : Option Nat :=
  if 0 ≤ n ∧ n < 2 ^ 64 then some n.toNat
  else if checked then none
  else some (n % 2 ^ 64).toNat

/-- Two's complement reading of `n` in 64 bits (`as isize`). -/
def iWrap (n : Int) : Int := (n + 2 ^ 63) % 2 ^ 64 - 2 ^ 63

/-- `isize` result of an operation with mathematical result `n` (stack_vm.rs 101, 109, 170, 179). -/
def iRes (checked : Bool) (n : Int) : Option Int :=
  if -(2 ^ 63) ≤ n ∧ n < 2 ^ 63 then some n
  else if checked then none
  else some (iWrap n)

/-- `impl VM for CountingVm` (counting_vm.rs 7-43, with `increment_counter`). -/
def countingVm (checked : Bool) : VM Nat Nat where
  parseInstructions _ p := (.ok [0], p)
  execute t _ _ s := (uRes checked (s + 1)).map (fun s' => (t, s'))
  init := 0

/-! ### SimpleStackVm -/

/-- `simple_stack_vm.rs` 13-29: `Instruction`. -/
inductive SInstr where
  | add
  | regAddConst (c : Nat)
  | sub
  | digit
  | popToReg
  | popToReg2
  | popDiscard
  | pushConst (c : Nat)
  | pushFromTree
  | pushReg
  | pushReg2
  | printReg
  | printReg2
  | printError
  | pow (base : Nat)
  deriving DecidableEq, Repr

/-- `SimpleStackVmState` (simple_stack_vm.rs 6-11) plus the printed numbers (oldest first).  The head
of `stack` is its top. -/
structure SState where
  stack : List Nat
  reg : Nat
  reg2 : Nat
  error : Nat
  out : List Nat
  deriving DecidableEq, Repr

/-- `create_new_state` (simple_stack_vm.rs 160-167). -/
def SState.init : SState := ⟨[], 0, 0, 0, []⟩

/-- The table of `parse_instructions` (simple_stack_vm.rs 48-63). -/
def simpleInstr (name : Str) : List SInstr :=
  if name = c% "add" then [.popToReg, .add]
  else if name = c% "sub" then [.popToReg, .sub]
  else if name = c% "number" then [.popDiscard]
  else if name = c% "digit" then [.pushFromTree, .pushConst 1]
  else if name = c% "number_s_" then
    [.popToReg, .popToReg2, .popDiscard, .pow 10, .regAddConst 1, .pushReg]
  else if name = c% "print" then [.popToReg, .printReg]
  else []

/-- The tree access of `PushFromTree` (simple_stack_vm.rs 111-115, stack_vm.rs 135-139):
outer `none` = panic, inner `none` = no such node. -/
def firstChildData (t : Tree Str) (id : NodeId) : Option (Option Str) :=
  match t.getByPathOrNone id [0] with
  | .ok (some n) => some (some n.data)
  | .ok none => some none
  | .err _ => some none
  | .panic => none
  | .timeout => none

/-- `execute_instruction` of SimpleStackVm (simple_stack_vm.rs 67-158). -/
def simpleExec (checked : Bool) (t : Tree Str) (id : NodeId) (i : SInstr) (s : SState) :
    Option SState :=
  match i with
  | .add =>
    match s.stack with
    | v :: st => (uRes checked (s.reg + v)).map (fun r => { s with stack := r :: st })
    | [] => some { s with error := 1 }
  | .sub =>
    match s.stack with
    | v :: st => (uRes checked ((v : Int) - s.reg)).map (fun r => { s with stack := r :: st })
    | [] => some { s with error := 1 }
  | .digit => some s
  | .popToReg =>
    match s.stack with
    | v :: st => some { s with stack := st, reg := v }
    | [] => some { s with error := 1 }
  | .popToReg2 =>
    match s.stack with
    | v :: st => some { s with stack := st, reg2 := v }
    | [] => some { s with error := 1 }
  | .pushConst c => some { s with stack := c :: s.stack }
  | .pushFromTree =>
    match firstChildData t id with
    | none => none
    | some none => some { s with error := 1 }
    | some (some d) =>
      match strToUsize d with
      | some v => some { s with stack := v :: s.stack }
      | none => some { s with error := 2 }
  | .popDiscard =>
    match s.stack with
    | _ :: st => some { s with stack := st }
    | [] => some { s with error := 1 }
  | .printReg => some { s with out := s.out ++ [s.reg] }
  | .printReg2 => some { s with out := s.out ++ [s.reg2] }
  | .printError => some { s with out := s.out ++ [s.error] }
  | .pow base =>
    match s.stack with
    | v :: st => do
      let p ← uRes checked ((base ^ (s.reg % 2 ^ 32) : Nat) : Int)
      let m ← uRes checked ((v : Int) * p)
      let r ← uRes checked ((m : Int) + s.reg2)
      some { s with stack := r :: st }
    | [] => some { s with error := 1 }
  | .pushReg => some { s with stack := s.reg :: s.stack }
  | .pushReg2 => some { s with stack := s.reg2 :: s.stack }
  | .regAddConst c => (uRes checked ((s.reg : Int) + c)).map (fun r => { s with reg := r })

/-- `impl VM for SimpleStackVm` (simple_stack_vm.rs 33-168). -/
def simpleStackVm (checked : Bool) : VM SInstr SState where
  parseInstructions name p :=
    match drain p with
    | (.ok _, p1) => (.ok (simpleInstr name), p1)
    | (.err e, p1) => (.err e, p1)
    | (.panic, p1) => (.panic, p1)
    | (.timeout, p1) => (.timeout, p1)
  execute t id i s := (simpleExec checked t id i s).map (fun s' => (t, s'))
  init := SState.init

/-! ### StackVm -/

/-- `stack_vm.rs` 9-25: `Instruction`. -/
inductive Instr where
  | add
  | regAddConst (c : Int)
  | sub
  | digit
  | popToReg
  | popToReg2
  | popDiscard
  | pushConst (c : Int)
  | pushFromTree
  | pushReg
  | pushReg2
  | printReg
  | printReg2
  | printError
  | pow (base : Nat)
  deriving DecidableEq, Repr

/-- `StackVmState` (stack_vm.rs 27-34) plus the printed numbers (oldest first).  The head of `stack`
is its top. -/
structure VState where
  stack : List Int
  reg : Int
  reg2 : Int
  error : Nat
  instructionCounter : Nat
  instructions : List Instr
  out : List Int
  deriving DecidableEq, Repr

/-- `create_new_state` (stack_vm.rs 184-193). -/
def VState.init : VState := ⟨[], 0, 0, 0, 0, [], []⟩

/-- The instructions without operand (stack_vm.rs 55-83). -/
def plainInstr (name : Str) : Option Instr :=
  if name = c% "Add" then some .add
  else if name = c% "Sub" then some .sub
  else if name = c% "Digit" then some .digit
  else if name = c% "PopToReg" then some .popToReg
  else if name = c% "PopToReg2" then some .popToReg2
  else if name = c% "PopDiscard" then some .popDiscard
  else if name = c% "PushFromTree" then some .pushFromTree
  else if name = c% "PushReg" then some .pushReg
  else if name = c% "PushReg2" then some .pushReg2
  else if name = c% "PrintReg" then some .printReg
  else if name = c% "PrintReg2" then some .printReg2
  else if name = c% "PrintError" then some .printError
  else none

/-- The instructions with a constant (stack_vm.rs 57-61, 67-71, 78-82); `val as isize` wraps. -/
def constInstr (name : Str) : Option (Nat → Instr) :=
  if name = c% "RegAddConst" then some (fun v => .regAddConst (iWrap v))
  else if name = c% "PushConst" then some (fun v => .pushConst (iWrap v))
  else if name = c% "Pow" then some (fun v => .pow v)
  else none

/-- `parse_whitespace(to_parse)` as a step (stack_vm.rs 51, 58, 68, 79, 86). -/
def ppWhitespace {σ : Type} [TPeekable σ] : SM (PP σ) PErr Unit := fun p => (.ok (), parseWhitespace p)

/-- `to_parse.peek()` as a step (stack_vm.rs 52). -/
def ppPeek {σ : Type} [TPeekable σ] : SM (PP σ) PErr (Option Char) := fun p => let (c, p1) := p.peek; (.ok c, p1)

/-- `parse_usize(to_parse)` as a step (stack_vm.rs 59, 69, 80). -/
def ppUsize {σ : Type} [TPeekable σ] : SM (PP σ) PErr Nat := parseUsize

/-- `parse_var_name(to_parse)` as a step (stack_vm.rs 53). -/
def ppVarName {σ : Type} [TPeekable σ] (cc : CharClass) : SM (PP σ) PErr Str := parseVarName cc

/-- `parse_symbol(to_parse, sym)` as a step (stack_vm.rs 85). -/
def ppSymbol {σ : Type} [TPeekable σ] (sym : Char) : SM (PP σ) PErr Unit := parseSymbol sym

/-- The `match` on one instruction name (stack_vm.rs 55-84): unknown names add nothing. -/
def parseOneInstr {σ : Type} [TPeekable σ] (name : Str) : SM (PP σ) PErr (List Instr) :=
  match constInstr name with
  | some mk => do
    ppWhitespace
    let v ← ppUsize
    return [mk v]
  | none => pure (plainInstr name).toList

/-- Loop of `parse_instructions` of StackVm (stack_vm.rs 52-87). -/
def stackParseLoop {σ : Type} [TPeekable σ] (cc : CharClass) :
    Nat → List Instr → SM (PP σ) PErr (List Instr)
  | 0, _ => SM.lift .timeout
  | fuel + 1, acc => do
    let c ← ppPeek
    match c with
    | none => return acc
    | some _ => do
      let name ← ppVarName cc
      let is ← parseOneInstr name
      ppSymbol ';'
      ppWhitespace
      stackParseLoop cc fuel (acc ++ is)

/-- `parse_instructions` of StackVm (stack_vm.rs 41-89). -/
def stackParse {σ : Type} [TPeekable σ] (cc : CharClass) (p : PP σ) :
    Res PErr (List Instr) × PP σ :=
  let p1 := parseWhitespace p
  stackParseLoop cc (p1.rest.length + 1) [] p1

/-- `execute_instruction` of StackVm (stack_vm.rs 91-182). -/
def stackExec (checked : Bool) (t : Tree Str) (id : NodeId) (i : Instr) (s : VState) :
    Option VState :=
  match i with
  | .add =>
    match s.stack with
    | v :: st => (iRes checked (s.reg + v)).map (fun r => { s with stack := r :: st })
    | [] => some { s with error := 1 }
  | .sub =>
    match s.stack with
    | v :: st => (iRes checked (v - s.reg)).map (fun r => { s with stack := r :: st })
    | [] => some { s with error := 1 }
  | .digit => some s
  | .popToReg =>
    match s.stack with
    | v :: st => some { s with stack := st, reg := v }
    | [] => some { s with error := 1 }
  | .popToReg2 =>
    match s.stack with
    | v :: st => some { s with stack := st, reg2 := v }
    | [] => some { s with error := 1 }
  | .pushConst c => some { s with stack := c :: s.stack }
  | .pushFromTree =>
    match firstChildData t id with
    | none => none
    | some none => some { s with error := 1 }
    | some (some d) =>
      match strToIsize d with
      | some v => some { s with stack := v :: s.stack }
      | none => some { s with error := 2 }
  | .popDiscard =>
    match s.stack with
    | _ :: st => some { s with stack := st }
    | [] => some { s with error := 1 }
  | .printReg => some { s with out := s.out ++ [s.reg] }
  | .printReg2 => some { s with out := s.out ++ [s.reg2] }
  | .printError => some { s with out := s.out ++ [(s.error : Int)] }
  | .pow base =>
    match s.stack with
    | v :: st => do
      let p ← uRes checked ((base ^ (s.reg % 2 ^ 32).toNat : Nat) : Int)
      let m ← iRes checked (v * iWrap p)
      let r ← iRes checked (m + s.reg2)
      some { s with stack := r :: st }
    | [] => some { s with error := 1 }
  | .pushReg => some { s with stack := s.reg :: s.stack }
  | .pushReg2 => some { s with stack := s.reg2 :: s.stack }
  | .regAddConst c => (iRes checked (s.reg + c)).map (fun r => { s with reg := r })

/-- `impl VM for StackVm` (stack_vm.rs 37-194). -/
def stackVm (cc : CharClass) (checked : Bool) : VM Instr VState where
  parseInstructions _ p := stackParse cc p
  execute t id i s := (stackExec checked t id i s).map (fun s' => (t, s'))
  init := VState.init

end HPP
