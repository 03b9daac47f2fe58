import Verif.Model.RuleParsing
import Verif.Model.VMs
/-
Model of src/main.rs.
-/
namespace HPP

/-- `main` (main.rs 16-29).  `args` are the command-line arguments including the program name, `readFile` is
`fs::read_to_string` (`none`: the file cannot be read or is not UTF-8; that the two calls see the same file system
is a simplification).  `.ok ()` is a normal exit, `.panic` a panic (exit status 101); the tree is dropped. -/
def cliMain (ho ho2 : HashOrder) (fuel : Nat) (cc : CharClass) (args : List Str) (readFile : Str → Option Str) :
    Res PErr Unit := do
  let rulePath ← Res.unwrapO args[1]?
  let scriptPath ← Res.unwrapO args[2]?
  let rules ← Res.unwrapO (readFile rulePath)
  let script ← Res.unwrapO (readFile scriptPath)
  let P ← Parser.newFromText ho fuel cc nullVm rules
  let _ ← (Parser.parse ho2 fuel nullVm P script nullVm.init).1.unwrap
  return ()

end HPP
