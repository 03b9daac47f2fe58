import Verif.Model.ParserData
import Verif.Model.Errors
/-
Model of src/first_sets.rs.
-/
namespace HPP
variable {I : Type}

/-- `get_first_set_of_element` (first_sets.rs 82-103).  `element_types[el_ix]` and the `unwrap` of
`get_element_data` panic when out of bounds. -/
def getFirstSetOfElement (pd : ParserData I) (fs : NamedSets) (el : Nat) :
    Res GErr (Option (List SetMemberE)) := do
  let et ← Res.unwrapO pd.elementTypes[el]?
  match et with
  | .nonTerminal => return AMap.get fs el
  | .terminal =>
    let d ← Res.unwrapO (pd.getElementData el)
    match d.name.head? with
    | none => return some [.empty]
    | some ch => return some [.char ch]

/-- Loop of `first_set_of_partial` (first_sets.rs 31-40). -/
def firstSetOfPartialLoop (pd : ParserData I) (fs : NamedSets) :
    List Nat → List SetMemberE → Res GErr (List SetMemberE)
  | [], set => .ok set
  | ix :: ixs, set => do
    let cur? ← getFirstSetOfElement pd fs ix
    let cur ← Res.ofOption cur? (.missingFirstSet ix)
    let hasEmpty := decide (SetMemberE.empty ∈ cur)
    let set := setExtend set cur
    if !hasEmpty then return setRemove set .empty
    else firstSetOfPartialLoop pd fs ixs set

/-- `first_set_of_partial` (first_sets.rs 21-42). -/
def firstSetOfPartial (pd : ParserData I) (fs : NamedSets) (els : List Nat) :
    Res GErr (List SetMemberE) :=
  firstSetOfPartialLoop pd fs els []

/-- The recursive worker passed around below:
`get_set_first_set_of_element` (first_sets.rs 55-80) at a smaller recursion depth. -/
abbrev FirstRec := Nat → NamedSets → Res GErr (List SetMemberE × NamedSets)

/-- Inner loop of `get_first_set_of_production` (first_sets.rs 119-127). -/
def firstOfProdLoop (rec : FirstRec) :
    List Nat → List SetMemberE → NamedSets → Res GErr (List SetMemberE × NamedSets)
  | [], menge, fs => .ok (menge, fs)
  | el :: els, menge, fs => do
    let (cur, fs) ← rec el fs
    let hasEmpty := decide (SetMemberE.empty ∈ cur)
    let menge := setExtend menge cur
    if !hasEmpty then return (setRemove menge .empty, fs)
    else firstOfProdLoop rec els menge fs

/-- `get_first_set_of_production` (first_sets.rs 105-132); `first().unwrap()` panics on `NotEmpty([])`. -/
def firstOfProd (rec : FirstRec) (prod : Production) (fs : NamedSets) :
    Res GErr (List SetMemberE × NamedSets) :=
  match prod with
  | .empty => .ok ([.empty], fs)
  | .notEmpty [] => .panic
  | .notEmpty (el :: els) => do
    let (menge, fs) ← rec el fs
    if SetMemberE.empty ∈ menge then firstOfProdLoop rec els menge fs
    else return (menge, fs)

/-- Loop over the productions in `get_set_first_set_of_element` (first_sets.rs 70-73). -/
def firstOfProds (rec : FirstRec) :
    List Production → List SetMemberE → NamedSets → Res GErr (List SetMemberE × NamedSets)
  | [], set, fs => .ok (set, fs)
  | prod :: prods, set, fs => do
    let (rus, fs) ← firstOfProd rec prod fs
    firstOfProds rec prods (setExtend set rus) fs

/-- `get_set_first_set_of_element` (first_sets.rs 55-80); the first argument bounds the call depth. -/
def getSetFirstSetOfElement (pd : ParserData I) : Nat → FirstRec
  | 0, _, _ => .timeout
  | fuel + 1, el, fs => do
    match ← getFirstSetOfElement pd fs el with
    | some x => return (x, fs)
    | none =>
      match AMap.get pd.rules el with
      | none => .err (.missingProduction el)
      | some rule =>
        let (set, fs) ← firstOfProds (getSetFirstSetOfElement pd fuel) rule.prods [] fs
        return (set, AMap.insert fs el set)

/-- Loop of `get_first_sets` (first_sets.rs 49-51). -/
def getFirstSetsLoop (pd : ParserData I) (fuel : Nat) : List Nat → NamedSets → Res GErr NamedSets
  | [], fs => .ok fs
  | el :: els, fs => do
    let (_, fs) ← getSetFirstSetOfElement pd fuel el fs
    getFirstSetsLoop pd fuel els fs

/-- `get_first_sets` (first_sets.rs 44-53).  Hash iteration site 1. -/
def getFirstSets (ho : HashOrder) (fuel : Nat) (pd : ParserData I) : Res GErr NamedSets :=
  getFirstSetsLoop pd fuel (ho.iter 1 Nat (AMap.keys pd.rules)) []

end HPP
