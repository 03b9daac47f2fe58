import Verif.Model.Steuer
import Verif.Model.Tree
import Verif.Model.Peekables
/-
Model of src/script_parser.rs and of the VM trait (src/vms.rs).
-/
namespace HPP

/-- `trait VM` (vms.rs 80-170).  `I` = `Tinstrution`, `S` = `Tstate`.
Simplifications: `parse_instructions` is given for the one process type it is used with (a process
nested in the rule text process); `execute_instruction` is assumed to return or panic (`none`). -/
structure VM (I S : Type) where
  parseInstructions : Str → PP Proc → Res PErr (List I) × PP Proc
  execute : Tree Str → NodeId → I → S → Option (Tree Str × S)
  init : S

/-- `Parser` (script_parser.rs 53-63) without the VM reference. -/
structure Parser (I : Type) where
  rules : AMap Nat (NTRules I)
  elements : List ElementVerbose

/-- What `parse` mutates: the process over the script, the VM state, the tree (script_parser.rs 246-252). -/
structure Ctx (S : Type) where
  proc : Proc
  state : S
  tree : Tree Str

variable {I S : Type}

/-- Loop of `parse_terminal` (script_parser.rs 315-326). -/
def parseTerminalLoop : Str → SM Proc PErr Unit
  | [], p => (.ok (), p)
  | chr :: cs, p =>
    let pos := p.curPos
    match p.peek with
    | (none, p1) => (.err (.endOfChars pos), p1)
    | (some c, p1) =>
      if c ≠ chr then (.err (.unexpectedChar c p1.curPos [chr]), p1)
      else parseTerminalLoop cs p1.next.2

/-- `parse_terminal` (script_parser.rs 310-328). -/
def parseScriptTerminal (terminal : Str) : SM Proc PErr Str := do
  parseTerminalLoop terminal
  return terminal

/-- Rust `[String]::join(";")` (script_parser.rs 241). -/
def joinSemi : List Str → Str
  | [] => []
  | [x] => x
  | x :: xs => x ++ ';' :: joinSemi xs

/-- `get_fitting_production` (script_parser.rs 220-245).  Hash iteration site 9 (the keys in the
message). -/
def getFittingProduction (ho : HashOrder) (P : Parser I) (el : Nat) (cur : SetMember) :
    SM Proc PErr Production := fun p =>
  match AMap.get P.rules el with
  | none => (.err (.gram (.missingProduction el)), p)
  | some r =>
    match AMap.get r.steuermap cur with
    | some fp => (.ok fp, p)
    | none =>
      let (pk, p1) := p.peek
      (.err (.unexpectedChar (pk.getD '#') p1.curPos
        (joinSemi ((ho.iter 9 SetMember (AMap.keys r.steuermap)).map SetMember.toStr))), p1)

/-- `run_instructions` (script_parser.rs 297-308). -/
def runInstructions (vm : VM I S) (id : NodeId) : List I → Tree Str → S → Option (Tree Str × S)
  | [], t, s => some (t, s)
  | i :: is, t, s =>
    match vm.execute t id i s with
    | none => none
    | some (t', s') => runInstructions vm id is t' s'

/-- Running a process function inside the whole context (`to_parse`, script_parser.rs 246-262). -/
def onProc {α : Type} (f : SM Proc PErr α) : SM (Ctx S) PErr α := fun c =>
  let (r, p) := f c.proc
  (r, { c with proc := p })

/-- `tree.add_node(data, parent)?` (script_parser.rs 262). -/
def addTreeNode (data : Str) (parent : Option NodeId) : SM (Ctx S) PErr NodeId := fun c =>
  let (r, t) := c.tree.addNode data parent
  (r.mapErr PErr.tree, { c with tree := t })

/-- `let _ = tree.add_node(data, Some(id));` (script_parser.rs 272-275): the `Result` is dropped. -/
def addTreeNodeIgnore (data : Str) (parent : Option NodeId) : SM (Ctx S) PErr Unit := fun c =>
  let (r, t) := c.tree.addNode data parent
  (match r with
    | .panic => .panic
    | .timeout => .timeout
    | _ => .ok (), { c with tree := t })

/-- Loop over the elements of the chosen production (script_parser.rs 267-287); `rec` is
`parse_production`. -/
def parseElements (P : Parser I) (rec : Nat → Option NodeId → SM (Ctx S) PErr Unit) (id : NodeId) :
    List Nat → SM (Ctx S) PErr Unit
  | [] => pure ()
  | e :: es => do
    let el ← SM.lift (Res.unwrapO P.elements[e]?)
    match el.et with
    | .terminal => do
      let s ← onProc (parseScriptTerminal el.name)
      addTreeNodeIgnore s (some id)
    | .nonTerminal => rec e (some id)
    parseElements P rec id es

/-- Running the instructions inside the context (script_parser.rs 292). -/
def runInstructionsM (vm : VM I S) (id : NodeId) (is : List I) : SM (Ctx S) PErr Unit := fun c =>
  match runInstructions vm id is c.tree c.state with
  | none => (.panic, c)
  | some (t, s) => (.ok (), { c with tree := t, state := s })

/-- `parse_production` (script_parser.rs 246-295); the first number bounds the call depth. -/
def parseProduction (ho : HashOrder) (vm : VM I S) (P : Parser I) :
    Nat → Nat → Option NodeId → SM (Ctx S) PErr Unit
  | 0, _, _ => SM.lift .timeout
  | fuel + 1, el, parent => do
    let cur ← onProc (fun p => let (c, p1) := p.peek; (.ok (SetMember.ofPeek c), p1))
    let r ← SM.lift (Res.ofOption (AMap.get P.rules el) (PErr.gram (.missingProduction el)))
    let prod ← onProc (getFittingProduction ho P el cur)
    let id ← addTreeNode [] parent
    (match prod with
    | .notEmpty els => parseElements P (parseProduction ho vm P fuel) id els
    | .empty => pure ())
    runInstructionsM vm id r.instr

/-- Rust `iter().position(|r| *r == x)` (script_parser.rs 210). -/
def positionOf (x : ElementVerbose) : List ElementVerbose → Option Nat
  | [] => none
  | y :: ys => if y = x then some 0 else (positionOf x ys).map (· + 1)

/-- `Parser::parse` (script_parser.rs 200-218): the result and, for reasoning about failed parses,
the final context. -/
def Parser.parse (ho : HashOrder) (fuel : Nat) (vm : VM I S) (P : Parser I) (text : Str) (s : S) :
    Res PErr (Tree Str) × Ctx S :=
  let c0 : Ctx S := ⟨Proc.ofText text, s, Tree.new⟩
  match positionOf ⟨c% "start", .nonTerminal⟩ P.elements with
  | none => (.panic, c0)
  | some ix =>
    match parseProduction ho vm P fuel ix none c0 with
    | (.ok (), c) => (.ok c.tree, c)
    | (.err e, c) => (.err e, c)
    | (.panic, c) => (.panic, c)
    | (.timeout, c) => (.timeout, c)

/-- `Parser::new` (script_parser.rs 161-171). -/
def Parser.new (rules : AMap Nat (NTRules I)) (elements : List ElementVerbose) : Parser I :=
  ⟨rules, elements⟩

/-- `Parser::new_from_parser_data` (script_parser.rs 133-146): every `unwrap` of an error panics. -/
def Parser.newFromParserData (ho : HashOrder) (fuel : Nat) (pd : ParserData I) (start : Nat) :
    Res PErr (Parser I) := do
  let first ← (getFirstSets ho fuel pd).unwrap
  let follow ← (getFollowSets ho fuel start first pd).unwrap
  let elements ← pd.getElementsVerbose
  let maps ← (getSteuermaps ho first follow pd).unwrap
  return Parser.new maps elements

end HPP
