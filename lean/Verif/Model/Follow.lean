import Verif.Model.First
import Verif.Model.Graph
/-
Model of src/follow_sets.rs.
-/
namespace HPP
variable {I : Type}

/-- `Graph` alias (follow_sets.rs 21). -/
abbrev FollowGraph := NamedGraph (List SetMember)

/-- Loop of `make_graph_with_index` (follow_sets.rs 63-65). -/
def makeGraphLoop : List Nat → FollowGraph → Res GErr FollowGraph
  | [], g => .ok g
  | n :: ns, g => do
    let (_, g) ← g.addNode n []
    makeGraphLoop ns g

/-- `make_graph_with_index` (follow_sets.rs 58-67).  Hash iteration site 2. -/
def makeGraphWithIndex (ho : HashOrder) (pd : ParserData I) : Res GErr FollowGraph :=
  makeGraphLoop (ho.iter 2 Nat (AMap.keys pd.rules)) NamedGraph.new

/-- First half of the loop body of `graph_marking_for_rightside_elements` for a non-terminal `el`
(follow_sets.rs 127-144): mark the FIRST characters of what follows; the flag is `add_edge`. -/
def markFollowing (pd : ParserData I) (fs : NamedSets) (el : Nat) (following : List Nat)
    (g : FollowGraph) : Res GErr (FollowGraph × Bool) :=
  if following.isEmpty then Res.ok (g, true)
  else do
    let set ← firstSetOfPartial pd fs following
    let hasEmpty := decide (SetMemberE.empty ∈ set)
    let set := if hasEmpty then setRemove set .empty else set
    let members ← toSetMembers set
    let g ← g.modifyNode el (fun d => setExtend d members)
    Res.ok (g, hasEmpty)

/-- Second half of the loop body (follow_sets.rs 145-147). -/
def linkIf (addEdge : Bool) (left el : Nat) (g : FollowGraph) : Res GErr FollowGraph :=
  if addEdge then g.addEdge left el else Res.ok g

/-- Loop of `graph_marking_for_rightside_elements` (follow_sets.rs 119-148).  The Rust loop runs over
positions `i` of `prod`; here the remaining slice `prod[i..]` is the argument, so `is_last_element`
is "nothing follows" and `prod[i+1..]` is the tail. -/
def graphMarking (pd : ParserData I) (fs : NamedSets) (left : Nat) :
    List Nat → FollowGraph → Res GErr FollowGraph
  | [], g => .ok g
  | el :: following, g => do
    let element ← Res.ofOption (pd.getElement el) (.missingElementForIndex el)
    match element.et with
    | .terminal => graphMarking pd fs left following g
    | .nonTerminal =>
      let (g, addEdge) ← markFollowing pd fs el following g
      let g ← linkIf addEdge left el g
      graphMarking pd fs left following g

/-- Loop over the productions of one rule (follow_sets.rs 42-53). -/
def markProductions (pd : ParserData I) (fs : NamedSets) (left : Nat) :
    List Production → FollowGraph → Res GErr FollowGraph
  | [], g => .ok g
  | .empty :: ps, g => markProductions pd fs left ps g
  | .notEmpty els :: ps, g => do
    let g ← graphMarking pd fs left els g
    markProductions pd fs left ps g

/-- Loop over the rules (follow_sets.rs 41-54). -/
def markRules (pd : ParserData I) (fs : NamedSets) :
    List (Nat × NTRule I) → FollowGraph → Res GErr FollowGraph
  | [], g => .ok g
  | (el, rule) :: rs, g => do
    let g ← markProductions pd fs el rule.prods g
    markRules pd fs rs g

/-- Inner loop over the successors of one node (follow_sets.rs 81-90): the pairs
(successor index, members missing there). -/
def missingInSuccessors (data : List SetMember) :
    List (Nat × GNode (List SetMember)) → List (Nat × List SetMember)
  | [] => []
  | (si, s) :: rest =>
    if data.all (fun x => decide (x ∈ s.data)) then missingInSuccessors data rest
    else (si, data.filter (fun x => decide (x ∉ s.data))) :: missingInSuccessors data rest

/-- Collection phase of one round (follow_sets.rs 76-91). -/
def collectRound (g : FollowGraph) : List (Nat × Nat) → Res GErr (List (Nat × List SetMember))
  | [] => .ok []
  | (name, nodeIndex) :: rest => do
    let node ← g.getNodeByIndex nodeIndex
    let succ ← g.successors name
    let r ← collectRound g rest
    return missingInSuccessors node.data succ ++ r

/-- Update phase of one round (follow_sets.rs 92-97). -/
def applyRound : List (Nat × List SetMember) → FollowGraph → Res GErr FollowGraph
  | [], g => .ok g
  | (ix, missing) :: rest, g => do
    let g ← g.modifyNodeByIndex ix (fun d => setExtend d missing)
    applyRound rest g

/-- The `while changes` loop (follow_sets.rs 73-98); `changes` is set exactly when something was
collected.  The first argument bounds the number of rounds.  Hash iteration site 4. -/
def propagate (ho : HashOrder) : Nat → FollowGraph → Res GErr FollowGraph
  | 0, _ => .timeout
  | fuel + 1, g => do
    let todo ← collectRound g (ho.iter 4 (Nat × Nat) g.names)
    let g' ← applyRound todo g
    if todo.isEmpty then return g' else propagate ho fuel g'

/-- Final loop (follow_sets.rs 99-104). -/
def collectFollow (g : FollowGraph) :
    List (Nat × Nat) → NamedSetsNoEmpty → Res GErr NamedSetsNoEmpty
  | [], acc => .ok acc
  | (name, ix) :: rest, acc => do
    let n ← g.getNodeByIndex ix
    collectFollow g rest (AMap.insert acc name n.data)

/-- `make_follow_sets_from_marked_graph` (follow_sets.rs 69-106).  Hash iteration site 5. -/
def makeFollowSets (ho : HashOrder) (fuel : Nat) (g : FollowGraph) : Res GErr NamedSetsNoEmpty := do
  let g ← propagate ho fuel g
  collectFollow g (ho.iter 5 (Nat × Nat) g.names) []

/-- `get_follow_sets` (follow_sets.rs 28-56).  Hash iteration site 3. -/
def getFollowSets (ho : HashOrder) (fuel : Nat) (start : Nat) (fs : NamedSets) (pd : ParserData I) :
    Res GErr NamedSetsNoEmpty := do
  let g ← makeGraphWithIndex ho pd
  let g ← g.modifyNode start (fun d => setInsert d .terminate)
  let g ← markRules pd fs (ho.iter 3 (Nat × NTRule I) pd.rules) g
  makeFollowSets ho fuel g

end HPP
