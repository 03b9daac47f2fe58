import Verif.Model.Basic
/-
Model of src/parser_data.rs (and the set element types of src/sets.rs).
`I` is the instruction type of the VM (`T::Tinstrution`).
-/
namespace HPP

/-- `ElementType` (parser_data.rs 254-258). -/
inductive ElementType where
  | terminal
  | nonTerminal
  deriving DecidableEq, Repr

/-- `ElementVerbose` (parser_data.rs 236-252). -/
structure ElementVerbose where
  name : Str
  et : ElementType
  deriving DecidableEq, Repr

/-- `Element` (parser_data.rs 259-275). -/
structure Element where
  ix : Nat
  et : ElementType
  deriving DecidableEq, Repr

/-- `ElementData` (parser_data.rs 277-280). -/
structure ElementData where
  keepData : Bool
  name : Str
  deriving DecidableEq, Repr

/-- `Production` (parser_data.rs 281-285). `Rc` sharing is not modelled (productions are immutable). -/
inductive Production where
  | notEmpty (els : List Nat)
  | empty
  deriving DecidableEq, Repr

/-- `NonTerminalRules` (parser_data.rs 195-219). -/
structure NTRule (I : Type) where
  prods : List Production
  ignore : Option Nat
  instr : List I
  deriving Repr

/-- `ParserData` (parser_data.rs 21-29) with `ParseRules` (172-178) inlined as `rules`, `ignore`. -/
structure ParserData (I : Type) where
  rules : AMap Nat (NTRule I)
  ignore : Option Nat
  elementTypes : List ElementType
  verboseMap : AMap ElementVerbose Nat
  elementData : List ElementData

namespace ParserData
variable {I : Type}

/-- `ParserData::new` (parser_data.rs 35-45). -/
def new : ParserData I := ⟨[], none, [], [], []⟩

/-- `get_element_data` (parser_data.rs 47-49). -/
def getElementData (pd : ParserData I) (ix : Nat) : Option ElementData := pd.elementData[ix]?

/-- `get_element` (parser_data.rs 50-55). -/
def getElement (pd : ParserData I) (ix : Nat) : Option Element :=
  match pd.elementTypes[ix]? with
  | none => none
  | some et => some ⟨ix, et⟩

/-- `get_element_verbose` (parser_data.rs 57-61). -/
def getElementVerbose (pd : ParserData I) (ix : Nat) : Option ElementVerbose :=
  match pd.elementData[ix]?, pd.elementTypes[ix]? with
  | some d, some et => some ⟨d.name, et⟩
  | _, _ => none

/-- Loop of `get_elements_verbose` (parser_data.rs 65-70), starting at index `ix`.
`self.element_types[ix]` panics when out of bounds. -/
def elementsVerboseFrom {ε : Type} (types : List ElementType) :
    Nat → List ElementData → Res ε (List ElementVerbose)
  | _, [] => .ok []
  | ix, d :: ds => do
    let et ← Res.unwrapO types[ix]?
    let r ← elementsVerboseFrom types (ix + 1) ds
    return ⟨d.name, et⟩ :: r

/-- `get_elements_verbose` (parser_data.rs 63-72). -/
def getElementsVerbose {ε : Type} (pd : ParserData I) : Res ε (List ElementVerbose) :=
  elementsVerboseFrom pd.elementTypes 0 pd.elementData

/-- `get_rule_by_key` (parser_data.rs 74-76). -/
def getRuleByKey (pd : ParserData I) (ix : Nat) : Option (NTRule I) := AMap.get pd.rules ix

/-- `get_rule_by_element` (parser_data.rs 77-79). -/
def getRuleByElement (pd : ParserData I) (el : Element) : Option (NTRule I) :=
  AMap.get pd.rules el.ix

/-- `get_element_index` (parser_data.rs 149-154). -/
def getElementIndex (pd : ParserData I) (key : ElementVerbose) : Option Nat :=
  AMap.get pd.verboseMap key

/-- `get_rule_by_element_verbose` (parser_data.rs 81-89). -/
def getRuleByElementVerbose (pd : ParserData I) (name : Str) : Option (NTRule I) :=
  match pd.getElementIndex ⟨name, .nonTerminal⟩ with
  | some i => pd.getRuleByKey i
  | none => none

/-- `get_or_add_element_key` (parser_data.rs 91-105). -/
def getOrAddElementKey (pd : ParserData I) (k : ElementVerbose) : Nat × ParserData I :=
  match AMap.get pd.verboseMap k with
  | none =>
    let index := pd.elementData.length
    (index, { pd with
      elementData := pd.elementData ++ [⟨false, k.name⟩]
      elementTypes := pd.elementTypes ++ [k.et]
      verboseMap := AMap.insert pd.verboseMap k index })
  | some ix => (ix, pd)

/-- `add_production` (parser_data.rs 107-119). -/
def addProduction (pd : ParserData I) (idx : Nat) (terms : List Nat) : ParserData I :=
  let prod := if terms.length > 0 then Production.notEmpty terms else Production.empty
  match AMap.get pd.rules idx with
  | some rule =>
    { pd with rules := AMap.insert pd.rules idx { rule with prods := rule.prods ++ [prod] } }
  | none => { pd with rules := AMap.insert pd.rules idx ⟨[prod], none, []⟩ }

/-- `set_productions` (parser_data.rs 121-129). -/
def setProductions (pd : ParserData I) (idx : Nat) (terms : List (List Nat)) : ParserData I :=
  let pd1 := match AMap.get pd.rules idx with
    | some rule => { pd with rules := AMap.insert pd.rules idx { rule with prods := [] } }
    | none => pd
  terms.foldl (fun pd term => pd.addProduction idx term) pd1

/-- `add_instructions` (parser_data.rs 131-139). -/
def addInstructions (pd : ParserData I) (idx : Nat) (inst : List I) : ParserData I :=
  match AMap.get pd.rules idx with
  | some rule => { pd with rules := AMap.insert pd.rules idx { rule with instr := inst } }
  | none => { pd with rules := AMap.insert pd.rules idx ⟨[], none, inst⟩ }

/-- `get_or_add_non_terminal` (parser_data.rs 141-144). -/
def getOrAddNonTerminal (pd : ParserData I) (name : Str) : Nat × ParserData I :=
  pd.getOrAddElementKey ⟨name, .nonTerminal⟩

/-- `get_or_add_terminal` (parser_data.rs 145-148). -/
def getOrAddTerminal (pd : ParserData I) (name : Str) : Nat × ParserData I :=
  pd.getOrAddElementKey ⟨name, .terminal⟩

/-- `get_element_nt_index` (parser_data.rs 156-162). -/
def getElementNtIndex (pd : ParserData I) (key : Str) : Option Nat :=
  AMap.get pd.verboseMap ⟨key, .nonTerminal⟩

/-- `get_element_t_index` (parser_data.rs 163-169). -/
def getElementTIndex (pd : ParserData I) (key : Str) : Option Nat :=
  AMap.get pd.verboseMap ⟨key, .terminal⟩

end ParserData

/-- `SetMemberWithEmpty` (sets.rs 10-15). -/
inductive SetMemberE where
  | char (c : Char)
  | empty
  | terminate
  deriving DecidableEq, Repr

/-- `SetMember` (sets.rs 43-47). -/
inductive SetMember where
  | char (c : Char)
  | terminate
  deriving DecidableEq, Repr

/-- `TryFrom<SetMemberWithEmpty> for SetMember` (sets.rs 73-83); `none` = the `Err("was empty")`. -/
def SetMember.tryFrom : SetMemberE → Option SetMember
  | .char x => some (.char x)
  | .empty => none
  | .terminate => some .terminate

/-- `From<Option<&char>> for SetMember` (sets.rs 85-92). -/
def SetMember.ofPeek : Option Char → SetMember
  | none => .terminate
  | some x => .char x

/-- `Into<String> for SetMember` (sets.rs 61-68). -/
def SetMember.toStr : SetMember → Str
  | .char x => [x]
  | .terminate => c% "terminate"

/-- `NamedSets` (sets.rs 71). -/
abbrev NamedSets := AMap Nat (List SetMemberE)
/-- `NamedSetsNoEmpty` (sets.rs 72). -/
abbrev NamedSetsNoEmpty := AMap Nat (List SetMember)

/-- `.iter().map(|x| SetMember::try_from(*x).unwrap()).collect::<HashSet<_>>()`
(follow_sets.rs 140-142, steuer_sets.rs 18-21): panics if `Empty` is present. -/
def toSetMembers {ε : Type} : List SetMemberE → Res ε (List SetMember)
  | [] => .ok []
  | x :: xs => do
    let y ← Res.unwrapO (SetMember.tryFrom x)
    let ys ← toSetMembers xs
    return y :: ys

end HPP
