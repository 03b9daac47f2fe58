import Verif.Model.VMs
import Verif.Model.RuleParsing
/-
The programs in /repo/examples as data: the two rule files and the grammar built in Rust.
-/
namespace HPP.Examples

/-- `examples/simple_stack_based_math.txt` (1-21), read by `examples/simple_stack_based_math.rs` 11-12. -/
def simpleMathText : Str :=
  (c% "start  -> terms;\n") ++
  (c% "\n") ++
  (c% "terms -> term terms_s;\n") ++
  (c% "terms_s -> whitespace term terms_s | #;\n") ++
  (c% "\n") ++
  (c% "\n") ++
  (c% "term -> add|sub|number|print;\n") ++
  (c% "\n") ++
  (c% "print -> \"print\" {};\n") ++
  (c% "add -> \"+\" {};\n") ++
  (c% "sub -> \"-\" {};\n") ++
  (c% "\n") ++
  (c% "number-> digit number_s {};\n") ++
  (c% "number_s -> number_s_ | # {};\n") ++
  (c% "number_s_ -> digit number_s {};\n") ++
  (c% "digit -> \"0\"|\"1\"|\"2\"|\"3\"|\"4\"|\"5\"|\"6\"|\"7\"|\"8\"|\"9\" {};\n") ++
  (c% "\n") ++
  (c% "\n") ++
  (c% "whitespaces -> whitespace whitespaces_s;\n") ++
  (c% "whitespaces_s -> whitespace whitespaces_s| #;\n") ++
  (c% "whitespace -> \" \";")

/-- `examples/stack_based_math.txt` (1-21), read by `examples/stack_based_math.rs`. -/
def mathText : Str :=
  (c% "start  -> terms;\n") ++
  (c% "\n") ++
  (c% "terms -> term terms_s;\n") ++
  (c% "terms_s -> whitespace term terms_s | #;\n") ++
  (c% "\n") ++
  (c% "\n") ++
  (c% "term -> add|sub|number|print;\n") ++
  (c% "\n") ++
  (c% "print -> \"print\" {PopToReg;PrintReg;};\n") ++
  (c% "add -> \"+\" {PopToReg; Add;};\n") ++
  (c% "sub -> \"-\" {PopToReg;Sub;};\n") ++
  (c% "\n") ++
  (c% "number-> digit number_s {PopDiscard;};\n") ++
  (c% "number_s -> number_s_ | # {};\n") ++
  (c% "number_s_ -> digit number_s {PopToReg;PopToReg2;PopDiscard;Pow 10;RegAddConst 1;PushReg;};\n") ++
  (c% "digit -> \"0\"|\"1\"|\"2\"|\"3\"|\"4\"|\"5\"|\"6\"|\"7\"|\"8\"|\"9\" {PushFromTree;PushConst 1;};\n") ++
  (c% "\n") ++
  (c% "\n") ++
  (c% "whitespaces -> whitespace whitespaces_s;\n") ++
  (c% "whitespaces_s -> whitespace whitespaces_s| #;\n") ++
  (c% "whitespace -> \" \";")

/-- `examples/rust_defined_rules.rs` 13-143: the grammar built through the interface and its start symbol. -/
def rustData : ParserData Instr × Nat :=
  let pd : ParserData Instr := ParserData.new
  let (start_idx, pd) := pd.getOrAddNonTerminal (c% "start")
  let (terms_idx, pd) := pd.getOrAddNonTerminal (c% "terms")
  let (terms_s_idx, pd) := pd.getOrAddNonTerminal (c% "terms_s")
  let (term_idx, pd) := pd.getOrAddNonTerminal (c% "term")
  let (add_idx, pd) := pd.getOrAddNonTerminal (c% "add")
  let (sub_idx, pd) := pd.getOrAddNonTerminal (c% "sub")
  let (number_idx, pd) := pd.getOrAddNonTerminal (c% "number")
  let (print_idx, pd) := pd.getOrAddNonTerminal (c% "print")
  let (number_s_idx, pd) := pd.getOrAddNonTerminal (c% "number_s")
  let (number_s__idx, pd) := pd.getOrAddNonTerminal (c% "number_s_")
  let (digit_idx, pd) := pd.getOrAddNonTerminal (c% "digit")
  let (whitespace_idx, pd) := pd.getOrAddNonTerminal (c% "whitespace")
  let (whitespaces_idx, pd) := pd.getOrAddNonTerminal (c% "whitespaces")
  let (whitespaces_s_idx, pd) := pd.getOrAddNonTerminal (c% "whitespaces_s")
  let (plus_idx, pd) := pd.getOrAddTerminal (c% "+")
  let (minus_idx, pd) := pd.getOrAddTerminal (c% "-")
  let (print_term_idx, pd) := pd.getOrAddTerminal (c% "print")
  let (space_idx, pd) := pd.getOrAddTerminal (c% " ")
  let (digit0_idx, pd) := pd.getOrAddTerminal (c% "0")
  let (digit1_idx, pd) := pd.getOrAddTerminal (c% "1")
  let (digit2_idx, pd) := pd.getOrAddTerminal (c% "2")
  let (digit3_idx, pd) := pd.getOrAddTerminal (c% "3")
  let (digit4_idx, pd) := pd.getOrAddTerminal (c% "4")
  let (digit5_idx, pd) := pd.getOrAddTerminal (c% "5")
  let (digit6_idx, pd) := pd.getOrAddTerminal (c% "6")
  let (digit7_idx, pd) := pd.getOrAddTerminal (c% "7")
  let (digit8_idx, pd) := pd.getOrAddTerminal (c% "8")
  let (digit9_idx, pd) := pd.getOrAddTerminal (c% "9")
  let pd := pd.addProduction start_idx [terms_idx]
  let pd := pd.addProduction terms_idx [term_idx, terms_s_idx]
  let pd := pd.addProduction terms_s_idx [whitespace_idx, term_idx, terms_s_idx]
  let pd := pd.addProduction terms_s_idx []
  let pd := pd.addProduction term_idx [add_idx]
  let pd := pd.addProduction term_idx [sub_idx]
  let pd := pd.addProduction term_idx [number_idx]
  let pd := pd.addProduction term_idx [print_idx]
  let pd := pd.addProduction print_idx [print_term_idx]
  let pd := pd.addInstructions print_idx [.popToReg, .printReg]
  let pd := pd.addProduction add_idx [plus_idx]
  let pd := pd.addInstructions add_idx [.popToReg, .add]
  let pd := pd.addProduction sub_idx [minus_idx]
  let pd := pd.addInstructions sub_idx [.popToReg, .sub]
  let pd := pd.addProduction number_idx [digit_idx, number_s_idx]
  let pd := pd.addInstructions number_idx [.popDiscard]
  let pd := pd.addProduction number_s_idx [number_s__idx]
  let pd := pd.addProduction number_s_idx []
  let pd := pd.addProduction number_s__idx [digit_idx, number_s_idx]
  let pd := pd.addInstructions number_s__idx [.popToReg, .popToReg2, .popDiscard, .pow 10, .regAddConst 1, .pushReg]
  let pd := pd.setProductions digit_idx [[digit0_idx], [digit1_idx], [digit2_idx], [digit3_idx], [digit4_idx], [digit5_idx], [digit6_idx], [digit7_idx], [digit8_idx], [digit9_idx]]
  let pd := pd.addInstructions digit_idx [.pushFromTree, .pushConst 1]
  let pd := pd.addProduction whitespace_idx [space_idx]
  let pd := pd.addProduction whitespaces_idx [whitespace_idx, whitespaces_s_idx]
  let pd := pd.addProduction whitespaces_s_idx [whitespace_idx, whitespaces_s_idx]
  let pd := pd.addProduction whitespaces_s_idx []
  (pd, start_idx)

end HPP.Examples
