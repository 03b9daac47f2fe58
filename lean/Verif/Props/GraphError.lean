import Verif.Model.GraphError
import Verif.Props.Display
/-
C70 for the texts of `GraphError`.
-/
namespace HPP
open Spec

/-- **C70.** The text of a graph error determines it, whatever characters the name contains. -/
theorem C70_graph_error_text {e e' : GraphErr} (h : e.display = e'.display) : e = e' := by
  cases e <;> cases e' <;> simp only [GraphErr.display] at h <;> first
    | (exfalso; revert h; simp [List.cons_append]; done)
    | skip
  · rw [List.append_cancel_left_eq, List.append_cancel_right_eq] at h; rw [h]
  · rw [List.append_cancel_left_eq, List.append_cancel_right_eq] at h; rw [h]
  · rw [List.append_cancel_left_eq, List.append_cancel_right_eq] at h
    have := showNat_append (r := []) (s := []) (by intro c t h; cases h) (by intro c t h; cases h)
      (congrArg (· ++ []) h)
    rw [this.1]

/-- The full texts. -/
example : GraphErr.display (.nodeAlreadyExists (c% "7")) = c% "Node with the name \"7\" already exists" ∧
    GraphErr.display (.nodeDoesNotExist (c% "7")) = c% "Node \"7\" does not exist" ∧
    GraphErr.display (.indexOutOfBounds 12) = c% "Index \"12\" out of bounds" := ⟨rfl, rfl, rfl⟩

end HPP
