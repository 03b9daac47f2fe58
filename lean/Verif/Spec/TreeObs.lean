import Verif.Spec.Tree
import Verif.Model.Tree
/-
What the read functions of a tree show, given the history of insertions and the removed branches.
-/
namespace HPP.Spec
variable {T : Type}

/-- The node inserted as number `i` has the id `(i, i)` and is still there. -/
def Alive (h : Hist T) (ds : List Nat) (i : Nat) : Prop := i < h.length ∧ ¬ Dead h ds i

/-- Reading `t` shows the forest given by the insertions `h` after removing the branches at `ds`. -/
structure Observes (t : Tree T) (h : Hist T) (ds : List Nat) : Prop where
  /-- Every id resolves to the data it was created with. -/
  node : ∀ i p d, h[i]? = some (p, d) → Alive h ds i →
    ∃ nd, t.getNode ⟨i, i⟩ = .ok nd ∧ t.getNodeMut ⟨i, i⟩ = .ok nd ∧ nd.data = d
  /-- Nothing else resolves. -/
  refused : ∀ id : NodeId, ¬ (id.ptr = id.pk ∧ Alive h ds id.ptr) →
    (∃ e, t.getNode id = .err e) ∧ (∃ e, t.getNodeMut id = .err e) ∧ t.nodeExists id = false
  /-- `get_children` lists the remaining children in insertion order. -/
  children : ∀ i, Alive h ds i → ∃ N, ∀ fuel, N ≤ fuel →
    (t.getChildren fuel ⟨i, i⟩ : Res TErr _) = .ok ((kidsLeft h ds i).map fun j => ⟨j, j⟩)
  /-- `get_descendants` lists every remaining proper descendant exactly once. -/
  descendants : ∀ i, Alive h ds i → ∃ L : List Nat, L.Nodup ∧
    (∀ j, j ∈ L ↔ Descendant h i j ∧ ¬ Dead h ds j) ∧
    ∃ N, ∀ fuel, N ≤ fuel → (t.getDescendants fuel ⟨i, i⟩ : Res TErr _) = .ok (L.map fun j => ⟨j, j⟩)
  /-- `get_nth_child` and `get_nth_child_or_none` select by position. -/
  nth : ∀ i nd, t.getNode ⟨i, i⟩ = .ok nd → ∀ n,
    (∀ j, (kidsLeft h ds i)[n]? = some j → ∃ c, t.getNode ⟨j, j⟩ = .ok c ∧
      t.getNthChild nd n = .ok c ∧ (t.getNthChildOrNone nd n : Res TErr _) = .ok (some c)) ∧
    ((kidsLeft h ds i)[n]? = none →
      t.getNthChild nd n = .err (.childDoesNotExist n) ∧ (t.getNthChildOrNone nd n : Res TErr _) = .ok none)
  /-- `get_by_path_or_none` follows positions. -/
  path : ∀ i, Alive h ds i → ∀ ns,
    (∀ j, followPath (kidsLeft h ds) ns i = some j → ∃ c, t.getNode ⟨j, j⟩ = .ok c ∧
      t.getByPathOrNone ⟨i, i⟩ ns = .ok (some c)) ∧
    (followPath (kidsLeft h ds) ns i = none → t.getByPathOrNone ⟨i, i⟩ ns = .ok none)

/-- The number of the node an id denotes after the insertions `h`. -/
def numberOf (h : Hist T) (id : NodeId) : Option Nat :=
  if id.ptr = id.pk ∧ id.ptr < h.length then some id.ptr else none

/-- What a sequence of `add_node` calls should do: the history and the returned ids (`none` for an error). -/
def insertions : List (T × Option NodeId) → Hist T → Hist T × List (Option NodeId)
  | [], h => (h, [])
  | (d, none) :: cs, h =>
    let (h', rs) := insertions cs (h ++ [(none, d)])
    (h', some ⟨h.length, h.length⟩ :: rs)
  | (d, some id) :: cs, h =>
    match numberOf h id with
    | some q =>
      let (h', rs) := insertions cs (h ++ [(some q, d)])
      (h', some ⟨h.length, h.length⟩ :: rs)
    | none =>
      let (h', rs) := insertions cs h
      (h', none :: rs)

/-- The result of an `add_node` call: `none` for an error. -/
def okId : Res TErr NodeId → Option (Option NodeId)
  | .ok id => some (some id)
  | .err _ => some none
  | _ => none

/-- The trees reachable by any calls of `add_node` and `remove_branch` that return, with the log of the ids
issued and the data they were issued for. -/
inductive TRun : Tree T → List (NodeId × T) → Prop where
  | new : TRun Tree.new []
  | add {t t' : Tree T} {log : List (NodeId × T)} {d : T} {par : Option NodeId} {id : NodeId} :
      TRun t log → t.addNode d par = (.ok id, t') → TRun t' (log ++ [(id, d)])
  | addErr {t t' : Tree T} {log : List (NodeId × T)} {d : T} {par : Option NodeId} {e : TErr} :
      TRun t log → t.addNode d par = (.err e, t') → TRun t' log
  | remove {t t' : Tree T} {log : List (NodeId × T)} {fuel : Nat} {id : NodeId} :
      TRun t log → t.removeBranch fuel id = (.ok (), t') → TRun t' log
  | removeErr {t t' : Tree T} {log : List (NodeId × T)} {fuel : Nat} {id : NodeId} {e : TErr} :
      TRun t log → t.removeBranch fuel id = (.err e, t') → TRun t' log

/-- The trees reachable by `add_node` calls followed by `remove_branch` calls that return, with the history of
the insertions and the roots of the removed branches. -/
inductive TPhases : Tree T → Hist T → List Nat → Prop where
  | adds (calls : List (T × Option NodeId)) :
      TPhases (calls.foldl (fun t c => (t.addNode c.1 c.2).2) Tree.new) (insertions calls []).1 []
  | remove {t t' : Tree T} {h : Hist T} {ds : List Nat} {fuel i : Nat} :
      TPhases t h ds → Alive h ds i → t.removeBranch fuel ⟨i, i⟩ = (.ok (), t') → TPhases t' h (i :: ds)

end HPP.Spec
