import Verif.Model.Examples
import Verif.Model.Display
/-
The `main` functions of the programs in /repo/examples, and the rule file shown in /repo/readme.md.
-/
namespace HPP.Examples

/-- `{}` of an `isize` (`core::fmt`; stack_vm.rs 158-166). -/
def showInt (n : Int) : Str := if n < 0 then '-' :: showNat n.natAbs else showNat n.toNat

/-- The script in all three programs (simple_stack_based_math.rs 22, stack_based_math.rs 22, rust_defined_rules.rs 152). -/
def script : Str := c% "1 2 + 3 + 4 - print"

/-- `main` of examples/simple_stack_based_math.rs (8-27).  `file` is what `fs::read_to_string` returns (`none`: an error);
the result of a normal exit is the lines on standard output (simplification: output before a panic is not kept). -/
def simpleMathMain (ho ho2 : HashOrder) (fuel : Nat) (cc : CharClass) (checked : Bool) (file : Option Str) :
    Res PErr (List Str) := do
  let rules ← Res.unwrapO file
  let P ← Parser.newFromText ho fuel cc (simpleStackVm checked) rules
  let r := Parser.parse ho2 fuel (simpleStackVm checked) P script (simpleStackVm checked).init
  let _ ← r.1.unwrap
  return r.2.state.out.map showNat ++ [c% "ok"]

/-- `main` of examples/stack_based_math.rs (8-27), as above. -/
def mathMain (ho ho2 : HashOrder) (fuel : Nat) (cc : CharClass) (checked : Bool) (file : Option Str) :
    Res PErr (List Str) := do
  let rules ← Res.unwrapO file
  let P ← Parser.newFromText ho fuel cc (stackVm cc checked) rules
  let r := Parser.parse ho2 fuel (stackVm cc checked) P script (stackVm cc checked).init
  let _ ← r.1.unwrap
  return r.2.state.out.map showInt ++ [c% "ok"]

/-- `main` of examples/rust_defined_rules.rs (8-161); `debug` is the `{:?}` text of an error (not modelled). -/
def rustMain (debug : PErr → Str) (ho ho2 : HashOrder) (fuel : Nat) (cc : CharClass) (checked : Bool) : Res PErr (List Str) := do
  let P ← Parser.newFromParserData ho fuel rustData.1 rustData.2
  let r := Parser.parse ho2 fuel (stackVm cc checked) P script (stackVm cc checked).init
  match r.1 with
  | .ok _ => return r.2.state.out.map showInt ++ [c% "Parsing successful!", c% "ok"]
  | .err e => return r.2.state.out.map showInt ++ [c% "Parsing error: " ++ debug e, c% "ok"]
  | .panic => .panic
  | .timeout => .timeout

/-- The example rule file in readme.md (119-137). -/
def readmeText : Str :=
  (c% "start  -> terms;\n") ++
  (c% "\n") ++
  (c% "terms -> term terms_s;\n") ++
  (c% "terms_s -> whitespace term terms_s | #;\n") ++
  (c% "\n") ++
  (c% "term -> add|sub|number|print;\n") ++
  (c% "\n") ++
  (c% "print -> \"print\" {};\n") ++
  (c% "add -> \"+\" {};\n") ++
  (c% "sub -> \"-\" {};\n") ++
  (c% "\n") ++
  (c% "number-> digit number_s {};\n") ++
  (c% "number_s -> number_s_ | # {};\n") ++
  (c% "number_s_ -> digit number_s {};\n") ++
  (c% "digit -> \"0\"|\"1\"|\"2\"|\"3\"|\"4\"|\"5\"|\"6\"|\"7\"|\"8\"|\"9\" {};\n") ++
  (c% "\n") ++
  (c% "whitespaces -> whitespace whitespaces_s;\n") ++
  (c% "whitespaces_s -> whitespace whitespaces_s| #;\n") ++
  (c% "whitespace -> \" \";\n")

end HPP.Examples
