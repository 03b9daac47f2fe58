import Verif.Model.Script
import Verif.Model.ParseFuncs
/-
Model of src/rule_parsing.rs.  Loops over the text are bounded by the number of remaining characters;
`C46_returns` (Props/RuleText.lean) shows that the bound is never the reason for stopping.
-/
namespace HPP
variable {I S : Type}

/-- `RuleParser` (rule_parsing.rs 26-33) without the VM reference. -/
structure RP (I : Type) where
  proc : Proc
  pd : ParserData I

/-- `RuleParser::new` (rule_parsing.rs 39-50). -/
def RP.new (text : Str) : RP I := ⟨Proc.ofText text, ParserData.new⟩

/-- Running a text function on the parser's process (`&mut self.parse_process`, e.g. rule_parsing.rs 134, 328-334). -/
def rpProc {α : Type} (f : SM Proc PErr α) : SM (RP I) PErr α := fun s =>
  let (r, p) := f s.proc
  (r, { s with proc := p })

/-- `self.parse_whitespace()` (rule_parsing.rs 332-334). -/
def rpWhitespace : SM (RP I) PErr Unit := rpProc (fun p => (.ok (), parseWhitespace p))

/-- `self.parse_symbol(sym)` (rule_parsing.rs 328-330). -/
def rpSymbol (sym : Char) : SM (RP I) PErr Unit := rpProc (parseSymbol sym)

/-- `parse_var_name(&mut self.parse_process)` (rule_parsing.rs 134, 199, 209, 312). -/
def rpVarName (cc : CharClass) : SM (RP I) PErr Str := rpProc (parseVarName cc)

/-- `self.parse_process.peek()` (rule_parsing.rs 55). -/
def rpPeek : SM (RP I) PErr (Option Char) := rpProc (fun p => let (c, p1) := p.peek; (.ok c, p1))

/-- `self.parse_process.cur_pos()` (rule_parsing.rs 233, 270, 294, 317, 323). -/
def rpPos : SM (RP I) PErr Nat := fun s => (.ok s.proc.curPos, s)

/-- `self.parser_data.get_or_add_element_key(...)` (rule_parsing.rs 138, 207, 277). -/
def rpIntern (k : ElementVerbose) : SM (RP I) PErr Nat := fun s =>
  let (i, pd) := s.pd.getOrAddElementKey k
  (.ok i, { s with pd := pd })

/-- The ignore production in force, `self.parser_data.parse_rules.ignore` (rule_parsing.rs 197). -/
def rpIgnore : SM (RP I) PErr (Option Nat) := fun s => (.ok s.pd.ignore, s)

/-- `f().is_ok()` / `if let Ok(x) = f()`: an error is caught, its effects stay (rule_parsing.rs 197, 204, 247, 261). -/
def smTry {σ ε α : Type} (f : SM σ ε α) : SM σ ε (Option α) := fun s =>
  match f s with
  | (.ok a, s1) => (.ok (some a), s1)
  | (.err _, s1) => (.ok none, s1)
  | (.panic, s1) => (.panic, s1)
  | (.timeout, s1) => (.timeout, s1)

/-- Loop of `parse_terminal` (rule_parsing.rs 345-355); `cur` is `cur_char`. -/
def parseQuotedLoop : Nat → Char → Bool → Str → SM Proc PErr Str
  | 0, _, _, _, p => (.timeout, p)
  | fuel + 1, cur, escape, lit, p =>
    if cur ≠ '"' ∨ escape = true then
      let escape' := decide (cur = '\\' ∧ escape = false)
      let pos := p.curPos
      match p.next with
      | (none, p1) => (.err (.endOfChars pos), p1)
      | (some c, p1) =>
        let pos := p1.curPos
        match p1.peek with
        | (none, p2) => (.err (.endOfChars pos), p2)
        | (some c', p2) => parseQuotedLoop fuel c' escape' (lit ++ [c]) p2
    else (.ok lit, p.next.2)

/-- `parse_terminal` (rule_parsing.rs 337-358). -/
def parseQuoted : SM Proc PErr Str := fun p =>
  match parseSymbol '"' p with
  | (.err e, p1) => (.err e, p1)
  | (.panic, p1) => (.panic, p1)
  | (.timeout, p1) => (.timeout, p1)
  | (.ok _, p1) =>
    let pos := p1.curPos
    match p1.peek with
    | (none, p2) => (.err (.endOfChars pos), p2)
    | (some c, p2) => parseQuotedLoop (p2.rest.length + 1) c false [] p2

/-- `parse_element` (rule_parsing.rs 299-326). -/
def parseElement (cc : CharClass) : SM Proc PErr (Option ElementVerbose) := fun p =>
  match p.peek with
  | (none, p1) => (.err (.endOfChars p1.curPos), p1)
  | (some x, p1) =>
    if x = '#' then (.ok none, p1.next.2)
    else if x = '"' then
      (do let n ← parseQuoted; return some ⟨n, .terminal⟩ : SM Proc PErr _) p1
    else if cc.isAlphabetic x then
      (do let n ← parseVarName cc; return some ⟨n, .nonTerminal⟩ : SM Proc PErr _) p1
    else
      (.err (.unexpectedChar x p1.curPos
        (c% "char # for empty, \" for terminal ort alphabetic for element")), p1)

/-- End of `parse_production` (rule_parsing.rs 286-296). -/
def finishProduction (result : List Nat) : SM (RP I) PErr Production := fun s =>
  if result.isEmpty then (.err (.gram (.unexpectedElement false s.proc.curPos)), s)
  else (.ok (.notEmpty result), s)

/-- Loop of `parse_production` (rule_parsing.rs 259-284). -/
def parseProductionLoop (cc : CharClass) : Nat → List Nat → SM (RP I) PErr Production
  | 0, _ => SM.lift .timeout
  | fuel + 1, result => do
    rpWhitespace
    match ← smTry (rpProc (parseElement cc)) with
    | none => finishProduction result
    | some none =>
      if result.isEmpty then return .empty
      else do
        let pos ← rpPos
        SM.lift (.err (.gram (.unexpectedElement true pos)))
    | some (some el) => do
      let ix ← rpIntern el
      parseProductionLoop cc fuel (result ++ [ix])

/-- `parse_production` (rule_parsing.rs 257-297). -/
def parseProd (cc : CharClass) : SM (RP I) PErr Production := fun s =>
  parseProductionLoop cc (s.proc.rest.length + 1) [] s

/-- Loop of `parse_possible_productions` (rule_parsing.rs 243-253). -/
def parseAltsLoop (cc : CharClass) : Nat → List Production → SM (RP I) PErr (List Production)
  | 0, _ => SM.lift .timeout
  | fuel + 1, acc => do
    rpWhitespace
    let _ ← smTry (rpSymbol '\n')
    rpWhitespace
    match ← smTry (rpSymbol '|') with
    | some _ => do
      rpWhitespace
      let p ← parseProd cc
      parseAltsLoop cc fuel (acc ++ [p])
    | none => return acc

/-- `parse_possible_productions` (rule_parsing.rs 241-255). -/
def parseAlts (cc : CharClass) : SM (RP I) PErr (List Production) := do
  let p ← parseProd cc
  fun s => parseAltsLoop cc (s.proc.rest.length + 1) [p] s

/-- The call of the VM on a nested process that ends at `}` (rule_parsing.rs 228-234).  The nested process borrows
the rule process; afterwards the rule process continues where the nested one left it. -/
def runSection (vm : VM I S) (name : Str) : SM Proc PErr (List I) := fun p =>
  let (r, g) := vm.parseInstructions name (PP.newNested p (some '}') (some '\\') p.curPos)
  (r, g.src)

/-- `parse_instruction_section` (rule_parsing.rs 222-239). -/
def parseInstructionSection (vm : VM I S) (name : Str) : SM (RP I) PErr (List I) := do
  match ← smTry (rpSymbol '{') with
  | none => return []
  | some _ => do
    rpWhitespace
    let instr ← rpProc (runSection vm name)
    rpSymbol '}'
    return instr

/-- The part of `parse_overrides` after the colon (rule_parsing.rs 203-214), `v` being the name of the
override and `dflt` the ignore production in force. -/
def overrideValue (cc : CharClass) (v : Str) (dflt : Option Nat) : SM (RP I) PErr (Option Nat) :=
  if v = c% "IGNORE" then do
    match ← smTry (rpSymbol '#') with
    | some _ => return none
    | none => do
      let n ← rpVarName cc
      let ix ← rpIntern ⟨n, .nonTerminal⟩
      return some ix
  else pure dflt

/-- `parse_overrides` (rule_parsing.rs 195-220). -/
def parseOverrides (cc : CharClass) : SM (RP I) PErr (Option Nat) := do
  let dflt ← rpIgnore
  match ← smTry (rpSymbol '$') with
  | none => return dflt
  | some _ => do
    rpSymbol '['
    let v ← rpVarName cc
    rpWhitespace
    rpSymbol ':'
    let ignoreThis ← overrideValue cc v dflt
    rpSymbol ']'
    return ignoreThis

/-- `parse_rule` (rule_parsing.rs 133-158). -/
def parseRule (cc : CharClass) (vm : VM I S) : SM (RP I) PErr (Nat × NTRule I) := do
  let ident ← rpVarName cc
  let key ← rpIntern ⟨ident, .nonTerminal⟩
  rpWhitespace
  rpSymbol '-'
  rpSymbol '>'
  rpWhitespace
  let ignoreThis ← parseOverrides cc
  let prods ← parseAlts cc
  let instr ← parseInstructionSection vm ident
  rpWhitespace
  rpSymbol ';'
  return (key, ⟨prods, ignoreThis, instr⟩)

/-- `merge_rule` (rule_parsing.rs 123-131). -/
def mergeRule (pd : ParserData I) (key : Nat) (rule : NTRule I) : ParserData I :=
  match AMap.get pd.rules key with
  | some old =>
    { pd with rules := AMap.insert pd.rules key { old with prods := old.prods ++ rule.prods } }
  | none => { pd with rules := AMap.insert pd.rules key rule }

/-- `self.merge_rule(...)` (rule_parsing.rs 59). -/
def rpMerge (key : Nat) (rule : NTRule I) : SM (RP I) PErr Unit := fun s =>
  (.ok (), { s with pd := mergeRule s.pd key rule })

/-- `weave_in_ignorers_single_production` (rule_parsing.rs 174-193). -/
def weaveProduction (w : Nat) : Production → Production
  | .notEmpty els => .notEmpty (els.flatMap (fun e => [e, w])).dropLast
  | .empty => .empty

/-- `weave_in_ignorers` (rule_parsing.rs 159-172). -/
def weaveRule (prods : List Production) (w : Nat) : List Production := prods.map (weaveProduction w)

/-- Recursive worker of the derivative check, `(left, visited) ↦ (answer, visited)` (rule_parsing.rs 372-424). -/
abbrev DerivRec := Nat → List Nat → Res PErr (Bool × List Nat)

/-- Loop over the elements of one production (rule_parsing.rs 405-418).  `.ok (none, _)` stands for
the early `return Ok(true)`. -/
def derivElems (rec : DerivRec) (right : Nat) :
    List Nat → Bool → List Nat → Res PErr (Option Bool × List Nat)
  | [], isDer, vis => .ok (some isDer, vis)
  | el :: els, isDer, vis =>
    if el = right then .ok (none, vis)
    else if isDer then derivElems rec right els true vis
    else do
      let (b, vis) ← rec el vis
      derivElems rec right els b vis

/-- Loop over the productions (rule_parsing.rs 402-422). -/
def derivProds (rec : DerivRec) (right : Nat) :
    List Production → Bool → List Nat → Res PErr (Bool × List Nat)
  | [], isDer, vis => .ok (isDer, vis)
  | .empty :: ps, isDer, vis => derivProds rec right ps isDer vis
  | .notEmpty els :: ps, isDer, vis => do
    let (r, vis) ← derivElems rec right els isDer vis
    match r with
    | none => return (true, vis)
    | some d => derivProds rec right ps d vis

/-- `_check_is_derivative` (rule_parsing.rs 372-424); the number bounds the call depth.
`element_types.get(left).unwrap()` panics when out of bounds. -/
def checkDerivativeRec (types : List ElementType) (rules : AMap Nat (NTRule I)) (right : Nat) :
    Nat → DerivRec
  | 0, _, _ => .timeout
  | fuel + 1, left, vis => do
    let et ← Res.unwrapO types[left]?
    if et = .terminal then return (false, vis)
    else do
      let r ← Res.ofOption (AMap.get rules left) (PErr.internal left)
      if left = right then return (true, vis)
      else if left ∈ vis then return (false, vis)
      else
        derivProds (checkDerivativeRec types rules right fuel) right r.prods false
          (setInsert vis left)

/-- `check_is_derivative` (rule_parsing.rs 360-370). -/
def checkIsDerivative (types : List ElementType) (rules : AMap Nat (NTRule I)) (left right : Nat) :
    Res PErr Bool := do
  let (b, _) ← checkDerivativeRec types rules right (rules.length + 2) left []
  return b

/-- First pass of `edit_rules` (rule_parsing.rs 74-89): the map rule ↦ `weave_in`. -/
def editActions (pd : ParserData I) : List (Nat × NTRule I) → AMap Nat Bool → Res PErr (AMap Nat Bool)
  | [], acc => .ok acc
  | (ix, rule) :: rest, acc => do
    let weaveIn ← match rule.ignore with
      | some ign => do
        let d ← checkIsDerivative pd.elementTypes pd.rules ign ix
        Res.ok (!d)
      | none => Res.ok false
    editActions pd rest (AMap.insert acc ix weaveIn)

/-- The new version of one rule (rule_parsing.rs 97-113). -/
def editRule (rule : NTRule I) (weaveIn : Bool) : NTRule I :=
  match rule.ignore with
  | some ign =>
    if weaveIn then ⟨weaveRule rule.prods ign, some ign, rule.instr⟩
    else ⟨rule.prods, none, rule.instr⟩
  | none => ⟨rule.prods, none, rule.instr⟩

/-- Second pass of `edit_rules` (rule_parsing.rs 92-116). -/
def editApply (actions : AMap Nat Bool) :
    List (Nat × NTRule I) → AMap Nat (NTRule I) → Res PErr (AMap Nat (NTRule I))
  | [], acc => .ok acc
  | (ix, rule) :: rest, acc => do
    let a ← Res.ofOption (AMap.get actions ix) (PErr.internal ix)
    editApply actions rest (AMap.insert acc ix (editRule rule a))

/-- `edit_rules` (rule_parsing.rs 65-121).  Hash iteration sites 10 and 11. -/
def editRules (ho : HashOrder) (pd : ParserData I) : Res PErr (ParserData I) := do
  let actions ← editActions pd (ho.iter 10 (Nat × NTRule I) pd.rules) []
  let rules ← editApply actions (ho.iter 11 (Nat × NTRule I) pd.rules) []
  return { pd with rules := rules }

/-- Loop of `parse_rules` (rule_parsing.rs 53-60). -/
def parseRulesLoop (cc : CharClass) (vm : VM I S) : Nat → SM (RP I) PErr Unit
  | 0 => SM.lift .timeout
  | fuel + 1 => do
    rpWhitespace
    match ← rpPeek with
    | none => return ()
    | some _ => do
      let (key, rule) ← parseRule cc vm
      rpMerge key rule
      parseRulesLoop cc vm fuel

/-- `parse_rules` (rule_parsing.rs 52-63) on a fresh parser: the resulting parser data. -/
def parseRules (ho : HashOrder) (cc : CharClass) (vm : VM I S) (text : Str) :
    Res PErr (ParserData I) :=
  match parseRulesLoop cc vm (text.length + 1) (RP.new text) with
  | (.ok _, s) => editRules ho s.pd
  | (.err e, _) => .err e
  | (.panic, _) => .panic
  | (.timeout, _) => .timeout

/-- `Parser::new_from_text` (script_parser.rs 93-117): every `unwrap` of an error panics. -/
def Parser.newFromText (ho : HashOrder) (fuel : Nat) (cc : CharClass) (vm : VM I S) (text : Str) :
    Res PErr (Parser I) := do
  let pd ← (parseRules ho cc vm text).unwrap
  let elements ← pd.getElementsVerbose
  let first ← (getFirstSets ho fuel pd).unwrap
  let start ← Res.unwrapO (pd.getElementNtIndex (c% "start"))
  let follow ← (getFollowSets ho fuel start first pd).unwrap
  let maps ← (getSteuermaps ho first follow pd).unwrap
  return Parser.new maps elements

end HPP
