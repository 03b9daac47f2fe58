import Verif.Spec.Control
import Verif.Spec.Tree
import Verif.Model.Script
/-
Parse trees, the order in which the instructions of a parse are to be run, and what it means that a tree
value shows an ordered tree.  Nothing here mentions the parsing algorithm.
-/
namespace HPP.Spec
variable {I S : Type}

/-- A sequence of parse trees: `leaf e rest` is a terminal element followed by `rest`, `node A p kids rest`
is the non-terminal `A`, expanded by its alternative `p` into `kids`, followed by `rest`. -/
inductive Forest where
  | nil
  | leaf (e : Nat) (rest : Forest)
  | node (A : Nat) (p : Production) (kids rest : Forest)
  deriving DecidableEq, Repr

/-- `f` consists of one parse tree for each of the elements `els`, and its leaves spell `s`. -/
inductive IsForest (pd : ParserData I) : List Nat → Forest → Str → Prop where
  | nil : IsForest pd [] .nil []
  | leaf {e : Nat} {es : List Nat} {d : ElementData} {f : Forest} {s : Str} :
      pd.elementTypes[e]? = some .terminal → pd.elementData[e]? = some d → IsForest pd es f s →
      IsForest pd (e :: es) (.leaf e f) (d.name ++ s)
  | node {A : Nat} {es : List Nat} {r : NTRule I} {p : Production} {kids f : Forest} {s1 s2 : Str} :
      pd.elementTypes[A]? = some .nonTerminal → AMap.get pd.rules A = some r → p ∈ r.prods →
      IsForest pd (prodElems p) kids s1 → IsForest pd es f s2 →
      IsForest pd (A :: es) (.node A p kids f) (s1 ++ s2)

/-- Number of nodes. -/
def Forest.size : Forest → Nat
  | .nil => 0
  | .leaf _ r => 1 + r.size
  | .node _ _ k r => 1 + k.size + r.size

/-- The text of element `e`. -/
def nameOf (pd : ParserData I) (e : Nat) : Str :=
  match pd.elementData[e]? with
  | some d => d.name
  | none => []

/-- The data trees a forest is to be stored as: a terminal is a leaf carrying its text, a non-terminal has
empty data and its children in order. -/
def roses (pd : ParserData I) : Forest → List Rose
  | .nil => []
  | .leaf e r => .node (nameOf pd e) [] :: roses pd r
  | .node _ _ k r => .node [] (roses pd k) :: roses pd r

mutual
/-- The data of the leaves of a data tree, concatenated. -/
def Rose.text : Rose → Str
  | .node d [] => d
  | .node _ (k :: ks) => Rose.text k ++ Rose.texts ks
/-- The same for a list of trees. -/
def Rose.texts : List Rose → Str
  | [] => []
  | r :: rs => Rose.text r ++ Rose.texts rs
end

mutual
/-- Looking at node `id` of `t` through `get_node` and `get_children` shows exactly the given tree. -/
inductive Shows (t : Tree Str) : NodeId → Rose → Prop where
  | mk {id : NodeId} {nd : TNode Str} {cs : List NodeId} {d : Str} {ks : List Rose} :
      t.getNode id = .ok nd → nd.data = d →
      (∃ N, ∀ fuel, N ≤ fuel → (t.getChildren fuel id : Res TErr _) = .ok cs) →
      ShowsAll t cs ks → Shows t id (.node d ks)
/-- The same for lists of nodes. -/
inductive ShowsAll (t : Tree Str) : List NodeId → List Rose → Prop where
  | nil : ShowsAll t [] []
  | cons {id : NodeId} {r : Rose} {ids : List NodeId} {rs : List Rose} :
      Shows t id r → ShowsAll t ids rs → ShowsAll t (id :: ids) (r :: rs)
end

/-- One finished occurrence of a non-terminal: the number of its node (nodes are numbered in the order in
which a top-down left-to-right parse reaches them), the non-terminal, and its subtree. -/
structure Event where
  num : Nat
  nt : Nat
  sub : Rose

/-- The occurrences of non-terminals in a forest whose first node has number `n`, in post-order: children
from left to right, then the node itself, then what is to the right of it. -/
def events (pd : ParserData I) : Nat → Forest → List Event
  | _, .nil => []
  | n, .leaf _ r => events pd (n + 1) r
  | n, .node A _ k r =>
    events pd (n + 1) k ++ ⟨n, A, .node [] (roses pd k)⟩ :: events pd (n + 1 + k.size) r

/-- The instructions of the rule of `A`. -/
def instrOf (pd : ParserData I) (A : Nat) : List I :=
  match AMap.get pd.rules A with
  | some r => r.instr
  | none => []

/-- Executing the instructions one after the other, with the node `id`, leads from one tree and state to another. -/
inductive Executes (vm : VM I S) (id : NodeId) : List I → Tree Str × S → Tree Str × S → Prop where
  | nil {x : Tree Str × S} : Executes vm id [] x x
  | cons {i : I} {is : List I} {x y z : Tree Str × S} :
      vm.execute x.1 id i x.2 = some y → Executes vm id is y z → Executes vm id (i :: is) x z

/-- The state changes from `s` to `s'` by running, for each event in turn, the instructions of its
non-terminal one after the other, each run being given the node id of the event and a tree in which that node
shows the finished subtree. -/
inductive Runs (vm : VM I S) (pd : ParserData I) : List Event → S → S → Prop where
  | nil {s : S} : Runs vm pd [] s s
  | cons {ev : Event} {evs : List Event} {τ : Tree Str} {s s1 s2 : S} :
      Shows τ ⟨ev.num, ev.num⟩ ev.sub →
      Executes vm ⟨ev.num, ev.num⟩ (instrOf pd ev.nt) (τ, s) (τ, s1) →
      Runs vm pd evs s1 s2 → Runs vm pd (ev :: evs) s s2

/-- Executing the instructions one after the other, with the node `id`, panics: some of them are executed, and the next
one panics. -/
def ExecPanics (vm : VM I S) (id : NodeId) (is : List I) (x : Tree Str × S) : Prop :=
  ∃ is1 i is2 y, is = is1 ++ i :: is2 ∧ Executes vm id is1 x y ∧ vm.execute y.1 id i y.2 = none

/-- Executing an instruction never changes the tree. -/
def TreePreserving (vm : VM I S) : Prop :=
  ∀ t id i s t' s', vm.execute t id i s = some (t', s') → t' = t

/-- Executing an instruction never panics. -/
def Total (vm : VM I S) : Prop := ∀ t id i s, vm.execute t id i s ≠ none

/-- `i` is the only non-terminal named `start`. -/
def StartSymbol (pd : ParserData I) (i : Nat) : Prop :=
  pd.getElementVerbose i = some ⟨c% "start", .nonTerminal⟩ ∧
  ∀ j, pd.getElementVerbose j = some ⟨c% "start", .nonTerminal⟩ → j = i

end HPP.Spec
