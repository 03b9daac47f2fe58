import Verif.Model.Graph
/-
Abstract graphs: node data by number, and a partial map from (node, edge id) to the target.
-/
namespace HPP.Spec
variable {α : Type}

/-- A graph as the user sees it. -/
structure AGraph (α : Type) where
  data : List α
  edge : Nat → Nat → Option Nat

namespace AGraph

def empty : AGraph α := ⟨[], fun _ _ => none⟩

def addNode (a : AGraph α) (d : α) : AGraph α := { a with data := a.data ++ [d] }

/-- The edge `s --id--> t` is added. -/
def addEdge (a : AGraph α) (s id t : Nat) : AGraph α :=
  { a with edge := fun n k => if n = s ∧ k = id then some t else a.edge n k }

/-- `id` is one above the largest edge id used at `s`, and 0 if none is used. -/
def NextId (a : AGraph α) (s id : Nat) : Prop :=
  (id = 0 ∧ ∀ k, a.edge s k = none) ∨
  ∃ m, id = m + 1 ∧ a.edge s m ≠ none ∧ ∀ k, m < k → a.edge s k = none

/-- `b` put beside `a`, its nodes numbered after those of `a`. -/
def beside (a b : AGraph α) : AGraph α where
  data := a.data ++ b.data
  edge n k := if n < a.data.length then a.edge n k
    else (b.edge (n - a.data.length) k).map (a.data.length + ·)

/-- The node reached from `n` by following the edge ids. -/
def follow (a : AGraph α) : Nat → List Nat → Option Nat
  | n, [] => some n
  | n, id :: ids =>
    match a.edge n id with
    | none => none
    | some m => follow a m ids

end AGraph

/-- The graphs built by any calls that return, each with what it should stand for. -/
inductive GraphOf : Graph α → AGraph α → Prop where
  | new : GraphOf Graph.new .empty
  | node {g : Graph α} {a : AGraph α} (d : α) : GraphOf g a → GraphOf (g.addNode d).2 (a.addNode d)
  | edge {g g' : Graph α} {a : AGraph α} {s t id : Nat} : GraphOf g a →
      (g.addEdge s t : Res Empty _) = .ok g' → a.NextId s id → GraphOf g' (a.addEdge s id t)
  | edgeWithId {g g' : Graph α} {a : AGraph α} {s t id : Nat} : GraphOf g a →
      (g.tryAddEdgeWithId s t id : Res Empty _) = .ok (true, g') → GraphOf g' (a.addEdge s id t)
  | edgeRefused {g g' : Graph α} {a : AGraph α} {s t id : Nat} : GraphOf g a →
      (g.tryAddEdgeWithId s t id : Res Empty _) = .ok (false, g') → GraphOf g' a
  | merge {g o g' : Graph α} {a b : AGraph α} {this other id : Nat} : GraphOf g a → GraphOf o b →
      (g.addGraphAtNode o this other : Res Empty _) = .ok g' → (a.beside b).NextId this id →
      GraphOf g' ((a.beside b).addEdge this id (other + a.data.length))

/-- A named graph as the user sees it: names in insertion order, data by name, edges between names in insertion
order. -/
structure ANamed (α : Type) where
  names : List Nat
  data : Nat → Option α
  edges : List (Nat × Nat)

namespace ANamed

def empty : ANamed α := ⟨[], fun _ => none, []⟩

def addNode (a : ANamed α) (n : Nat) (d : α) : ANamed α :=
  { a with names := a.names ++ [n], data := fun m => if m = n then some d else a.data m }

def addEdge (a : ANamed α) (x y : Nat) : ANamed α := { a with edges := a.edges ++ [(x, y)] }

def modify (a : ANamed α) (n : Nat) (f : α → α) : ANamed α :=
  { a with data := fun m => if m = n then (a.data n).map f else a.data m }

/-- The names edges lead to from `n`, newest edge first. -/
def targets (a : ANamed α) (n : Nat) : List Nat := ((a.edges.filter (fun e => e.1 = n)).map (·.2)).reverse

end ANamed

/-- The named graphs built by any successful calls (failing calls leave the graph as it is). -/
inductive NamedOf : NamedGraph α → ANamed α → Prop where
  | new : NamedOf NamedGraph.new .empty
  | node {g g' : NamedGraph α} {a : ANamed α} {n i : Nat} {d : α} : NamedOf g a →
      g.addNode n d = .ok (i, g') → NamedOf g' (a.addNode n d)
  | edge {g g' : NamedGraph α} {a : ANamed α} {x y : Nat} : NamedOf g a →
      g.addEdge x y = .ok g' → NamedOf g' (a.addEdge x y)
  | modify {g g' : NamedGraph α} {a : ANamed α} {n : Nat} {f : α → α} : NamedOf g a →
      g.modifyNode n f = .ok g' → NamedOf g' (a.modify n f)
  | modifyByIndex {g g' : NamedGraph α} {a : ANamed α} {i n : Nat} {f : α → α} : NamedOf g a →
      a.names[i]? = some n → g.modifyNodeByIndex i f = .ok g' → NamedOf g' (a.modify n f)

end HPP.Spec
