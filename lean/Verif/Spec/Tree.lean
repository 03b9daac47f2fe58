/-
Ordered trees given by the history of their insertions.  Nothing here mentions the arena of the code.
-/
namespace HPP.Spec

/-- A history of insertions: entry `i` is the number of the parent (`none` for a root) and the data of the
node inserted as number `i`. -/
abbrev Hist (T : Type) := List (Option Nat × T)

/-- Numbers of the nodes inserted under `i` by the insertions `h`, whose first has number `n`. -/
def kidsFrom {T : Type} (n : Nat) : Hist T → Nat → List Nat
  | [], _ => []
  | (p, _) :: h, i => if p = some i then n :: kidsFrom (n + 1) h i else kidsFrom (n + 1) h i

/-- The children of node `i`, in insertion order. -/
def kids {T : Type} (h : Hist T) (i : Nat) : List Nat := kidsFrom 0 h i

/-- `j` is a proper descendant of `i`. -/
inductive Descendant {T : Type} (h : Hist T) (i : Nat) : Nat → Prop where
  | child {j : Nat} : j ∈ kids h i → Descendant h i j
  | step {j k : Nat} : Descendant h i j → k ∈ kids h j → Descendant h i k

/-- Node `i` is gone after removing the branches at the nodes `ds`. -/
def Dead {T : Type} (h : Hist T) (ds : List Nat) (i : Nat) : Prop := ∃ r ∈ ds, i = r ∨ Descendant h r i

/-- The children of node `i` that are left after removing the branches at the nodes `ds`. -/
def kidsLeft {T : Type} (h : Hist T) (ds : List Nat) (i : Nat) : List Nat := (kids h i).filter (fun j => decide (j ∉ ds))

/-- Following child positions, `k i` being the children of `i`. -/
def followPath (k : Nat → List Nat) : List Nat → Nat → Option Nat
  | [], i => some i
  | n :: ns, i =>
    match (k i)[n]? with
    | none => none
    | some j => followPath k ns j

/-- An ordered tree with data. -/
inductive Rose where
  | node (data : List Char) (kids : List Rose)

end HPP.Spec
