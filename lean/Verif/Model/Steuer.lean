import Verif.Model.Follow
/-
Model of src/steuer_sets.rs and src/steuer_map.rs.
-/
namespace HPP
variable {I : Type}

/-- Loop of `get_steuer_sets` (steuer_sets.rs 17-29). -/
def getSteuerSetsLoop (follow : NamedSetsNoEmpty) :
    List (Nat × List SetMemberE) → NamedSetsNoEmpty → Res GErr NamedSetsNoEmpty
  | [], acc => .ok acc
  | (name, first) :: rest, acc => do
    let steuer ← toSetMembers (first.filter (fun m => decide (m ≠ SetMemberE.empty)))
    let steuer ←
      if SetMemberE.empty ∈ first then do
        let f ← Res.ofOption (AMap.get follow name) (GErr.missingFollowSet name)
        Res.ok (setExtend steuer f)
      else Res.ok steuer
    getSteuerSetsLoop follow rest (AMap.insert acc name steuer)

/-- `get_steuer_sets` (steuer_sets.rs 12-31).  Hash iteration site 6. -/
def getSteuerSets (ho : HashOrder) (first : NamedSets) (follow : NamedSetsNoEmpty) :
    Res GErr NamedSetsNoEmpty :=
  getSteuerSetsLoop follow (ho.iter 6 (Nat × List SetMemberE) first) []

/-- `Steuermap` (steuer_map.rs 27). -/
abbrev Steuermap := AMap SetMember Production

/-- `NTRules` (steuer_map.rs 18-25). -/
structure NTRules (I : Type) where
  steuermap : Steuermap
  ignore : Option Nat
  instr : List I

/-- Loop of `fill_with_steuer_set` (steuer_map.rs 121-133). -/
def fillLoop (prod : Production) (rule : Nat) : List SetMember → Steuermap → Res GErr Steuermap
  | [], m => .ok m
  | x :: xs, m =>
    match AMap.get m x with
    | some _ =>
      .err (.steuerSetsNotDistinct (c% "follow_set")
        (match x with
          | .char c => c
          | .terminate => '#') rule)
    | none => fillLoop prod rule xs (AMap.insert m x prod)

/-- `fill_with_steuer_set` (steuer_map.rs 115-135).  Hash iteration site 8. -/
def fillWithSteuerSet (ho : HashOrder) (set : List SetMember) (m : Steuermap) (prod : Production)
    (rule : Nat) : Res GErr Steuermap :=
  fillLoop prod rule (ho.iter 8 SetMember set) m

/-- `steuermap_of_production` (steuer_map.rs 65-113).  `el[0]`, `el_data.get(first).unwrap()` and
`name.chars().next().unwrap()` may panic. -/
def steuermapOfProduction (ho : HashOrder) (steuer follow : NamedSetsNoEmpty) (m : Steuermap)
    (prod : Production) (rule : Nat) (elTypes : List ElementType) (elData : List ElementData) :
    Res GErr Steuermap :=
  match prod with
  | .notEmpty [] => .panic
  | .notEmpty (first :: _) => do
    let et ← Res.ofOption elTypes[first]? (GErr.missingElementForIndex first)
    match et with
    | .terminal =>
      let d ← Res.unwrapO elData[first]?
      let ch ← Res.unwrapO d.name.head?
      match AMap.get m (.char ch) with
      | some _ => .err (.steuerSetsNotDistinct d.name ch rule)
      | none => .ok (AMap.insert m (.char ch) prod)
    | .nonTerminal =>
      let s ← Res.ofOption (AMap.get steuer first) (GErr.missingSteuerSet first)
      fillWithSteuerSet ho s m prod rule
  | .empty => do
    let f ← Res.ofOption (AMap.get follow rule) (GErr.missingFollowSet rule)
    fillWithSteuerSet ho f m prod rule

/-- Loop over the productions of one rule (steuer_map.rs 42-52). -/
def steuermapOfRule (ho : HashOrder) (steuer follow : NamedSetsNoEmpty) (rule : Nat)
    (elTypes : List ElementType) (elData : List ElementData) :
    List Production → Steuermap → Res GErr Steuermap
  | [], m => .ok m
  | p :: ps, m => do
    let m ← steuermapOfProduction ho steuer follow m p rule elTypes elData
    steuermapOfRule ho steuer follow rule elTypes elData ps m

/-- Loop over the rules (steuer_map.rs 39-61). -/
def getSteuermapsLoop (ho : HashOrder) (steuer follow : NamedSetsNoEmpty) (pd : ParserData I) :
    List (Nat × NTRule I) → AMap Nat (NTRules I) → Res GErr (AMap Nat (NTRules I))
  | [], acc => .ok acc
  | (name, r) :: rest, acc => do
    let m ← steuermapOfRule ho steuer follow name pd.elementTypes pd.elementData r.prods []
    getSteuermapsLoop ho steuer follow pd rest (AMap.insert acc name ⟨m, r.ignore, r.instr⟩)

/-- `get_steuermaps` (steuer_map.rs 29-63).  Hash iteration site 7. -/
def getSteuermaps (ho : HashOrder) (first : NamedSets) (follow : NamedSetsNoEmpty)
    (pd : ParserData I) : Res GErr (AMap Nat (NTRules I)) := do
  let steuer ← getSteuerSets ho first follow
  getSteuermapsLoop ho steuer follow pd (ho.iter 7 (Nat × NTRule I) pd.rules) []

end HPP
