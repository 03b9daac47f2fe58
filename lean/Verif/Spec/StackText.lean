import Verif.Spec.RuleText
import Verif.Model.VMs
/-
The instruction language of StackVm.
-/
namespace HPP.Spec

/-- A 64-bit pattern read as a signed number. -/
def asSigned (v : Nat) : Int := if v < 2 ^ 63 then v else (v : Int) - 2 ^ 64

/-- The instructions without operand. -/
def plainTable : List (Str × Instr) :=
  [(c% "Add", .add), (c% "Sub", .sub), (c% "Digit", .digit), (c% "PopToReg", .popToReg), (c% "PopToReg2", .popToReg2),
    (c% "PopDiscard", .popDiscard), (c% "PushFromTree", .pushFromTree), (c% "PushReg", .pushReg),
    (c% "PushReg2", .pushReg2), (c% "PrintReg", .printReg), (c% "PrintReg2", .printReg2), (c% "PrintError", .printError)]

/-- The instructions with a constant. -/
def constTable : List (Str × (Nat → Instr)) :=
  [(c% "RegAddConst", fun v => .regAddConst (asSigned v)), (c% "PushConst", fun v => .pushConst (asSigned v)),
    (c% "Pow", fun v => .pow v)]

/-- SimpleStackVm knows six rule names; the text of the section plays no role. -/
def simpleTable : List (Str × List SInstr) :=
  [(c% "add", [.popToReg, .add]), (c% "sub", [.popToReg, .sub]), (c% "number", [.popDiscard]),
    (c% "digit", [.pushFromTree, .pushConst 1]),
    (c% "number_s_", [.popToReg, .popToReg2, .popDiscard, .pow 10, .regAddConst 1, .pushReg]),
    (c% "print", [.popToReg, .printReg])]

/-- The instructions a section of the rule `name` stands for with SimpleStackVm: those of the table, and none for any
other name. -/
def SimpleMeaning (name : Str) (instr : List SInstr) : Prop :=
  (name, instr) ∈ simpleTable ∨ (instr = [] ∧ ∀ is, (name, is) ∉ simpleTable)

/-- One instruction with its semicolon.  A name that is no instruction is accepted and means nothing. -/
inductive InstrText (cc : CharClass) : List Instr → Str → Prop where
  | plain {n : Str} {i : Instr} : (n, i) ∈ plainTable → InstrText cc [i] (n ++ c% ";")
  | const {n g ds : Str} {mk : Nat → Instr} : (n, mk) ∈ constTable → IsSpace g → g ≠ [] → ds ≠ [] → (∀ c ∈ ds, IsDigit c) →
      decimalValue ds < 2 ^ 64 → InstrText cc [mk (decimalValue ds)] (n ++ (g ++ (ds ++ c% ";")))
  | unknown {n : Str} : IsName cc n → (∀ i, (n, i) ∉ plainTable) → (∀ mk, (n, mk) ∉ constTable) →
      InstrText cc [] (n ++ c% ";")

/-- Instructions, each followed by white space. -/
inductive InstrsText (cc : CharClass) : List Instr → Str → Prop where
  | nil : InstrsText cc [] []
  | cons {is is' : List Instr} {t g t' : Str} : InstrText cc is t → IsSpace g → InstrsText cc is' t' →
      InstrsText cc (is ++ is') (t ++ (g ++ t'))

/-- A section of StackVm instructions. -/
def StackSection (cc : CharClass) (is : List Instr) (text : Str) : Prop :=
  ∃ g t, text = g ++ t ∧ IsSpace g ∧ InstrsText cc is t

end HPP.Spec
