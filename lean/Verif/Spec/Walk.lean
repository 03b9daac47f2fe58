import Verif.Spec.TopDown
import Verif.Spec.TreeObs
/-
What a parse does with the tree and the virtual machine, whatever the virtual machine is: the parse trees are walked from
left to right, every node is added when it is reached, and the instructions of a rule are executed when its node is left.
Nothing here mentions the parsing algorithm.
-/
namespace HPP.Spec
variable {I S : Type}

/-- Walking a forest below the node `par` leads from one tree and state to another.  A leaf is added under `par` with its
text (if `par` is no longer there, nothing is added and the walk goes on).  For a non-terminal an empty node is added
under `par`, its children are walked below the new node, and then the instructions of its rule are executed with it. -/
inductive Walk (vm : VM I S) (pd : ParserData I) : Option NodeId → Forest → Tree Str × S → Tree Str × S → Prop where
  | nil {par : Option NodeId} {x : Tree Str × S} : Walk vm pd par .nil x x
  | leaf {par : Option NodeId} {e : Nat} {f : Forest} {t t1 : Tree Str} {s : S} {r : Res TErr NodeId} {y : Tree Str × S} :
      t.addNode (nameOf pd e) par = (r, t1) → ((∃ id, r = .ok id) ∨ ∃ err, r = .err err) →
      Walk vm pd par f (t1, s) y → Walk vm pd par (.leaf e f) (t, s) y
  | node {par : Option NodeId} {A : Nat} {p : Production} {kids f : Forest} {t t1 : Tree Str} {s : S} {id : NodeId}
      {x y z : Tree Str × S} :
      t.addNode [] par = (.ok id, t1) → Walk vm pd (some id) kids (t1, s) x →
      Executes vm id (instrOf pd A) x y → Walk vm pd par f y z → Walk vm pd par (.node A p kids f) (t, s) z

/-- `t'` is made from `t` by adding nodes (under nodes that are there or not, or as new roots) and by changing the data of
nodes, but never by removing. -/
inductive Grown : Tree Str → Tree Str → Prop where
  | refl {t : Tree Str} : Grown t t
  | add {t t1 t2 : Tree Str} {d : Str} {par : Option NodeId} {r : Res TErr NodeId} :
      Grown t t1 → t1.addNode d par = (r, t2) → Grown t t2
  | set {t t1 : Tree Str} {id : NodeId} {nd : TNode Str} {d : Str} :
      Grown t t1 → t1.getNodeMut id = .ok nd →
      Grown t { t1 with nodes := t1.nodes.set id.ptr { nd with data := d } }

/-- Executing an instruction only adds nodes and changes data. -/
def OnlyGrows (vm : VM I S) : Prop :=
  ∀ t id i s t' s', vm.execute t id i s = some (t', s') → Grown t t'

/-- `t'` is made from `t` by any of the tree's functions: adding (successfully or not), removing branches (successfully or
not), changing data, or putting another tree made by such calls in its place. -/
inductive Edited : Tree Str → Tree Str → Prop where
  | refl {t : Tree Str} : Edited t t
  | add {t t1 t2 : Tree Str} {d : Str} {par : Option NodeId} {r : Res TErr NodeId} :
      Edited t t1 → t1.addNode d par = (r, t2) → Edited t t2
  | remove {t t1 t2 : Tree Str} {fuel : Nat} {id : NodeId} {r : Res TErr Unit} :
      Edited t t1 → t1.removeBranch fuel id = (r, t2) → Edited t t2
  | set {t t1 : Tree Str} {id : NodeId} {nd : TNode Str} {d : Str} :
      Edited t t1 → t1.getNodeMut id = .ok nd →
      Edited t { t1 with nodes := t1.nodes.set id.ptr { nd with data := d } }
  | replace {t t1 : Tree Str} {log : List (NodeId × Str)} : TRun t1 log → Edited t t1

/-- Executing an instruction changes the tree only through the tree's functions. -/
def EditsTree (vm : VM I S) : Prop :=
  ∀ t id i s t' s', vm.execute t id i s = some (t', s') → Edited t t'

/-- Executing an instruction for any node but the first, which is the root of the parse, only adds nodes and changes data.
For the root it may do anything. -/
def OnlyGrowsBelowRoot (vm : VM I S) : Prop :=
  ∀ t id i s t' s', id ≠ ⟨0, 0⟩ → vm.execute t id i s = some (t', s') → Grown t t'

/-- Executing an instruction changes the tree at most by removing the branches of children of the node it is executed
for. -/
def OnlyPrunes (vm : VM I S) : Prop :=
  ∀ t id i s t' s', vm.execute t id i s = some (t', s') → t' = t ∨
    ∃ fuel cs c, (t.getChildren fuel id : Res TErr _) = .ok cs ∧ c ∈ cs ∧ t.removeBranch fuel c = (.ok (), t')

/-- The outcome without the tree: success, or the error. -/
def outcome {α : Type} : Res PErr α → Res PErr Unit
  | .ok _ => .ok ()
  | .err e => .err e
  | .panic => .panic
  | .timeout => .timeout

end HPP.Spec
