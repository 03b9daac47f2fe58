import Mathlib.Logic.Relation
import Verif.Spec.Cfg
/-
Use of symbols by rules, and inserting an element between neighbours.
-/
namespace HPP.Spec
variable {I : Type}

/-- `A` has a rule with an alternative that contains `e`. -/
def Uses (rules : AMap Nat (NTRule I)) (A e : Nat) : Prop :=
  ∃ r, AMap.get rules A = some r ∧ ∃ p ∈ r.prods, e ∈ prodElems p

/-- `e` is `A` or is used directly or indirectly by the rules of `A`. -/
abbrev UsesStar (rules : AMap Nat (NTRule I)) : Nat → Nat → Prop := Relation.ReflTransGen (Uses rules)

/-- `x₁ x₂ .. xₙ` with `i` between neighbours: `x₁ i x₂ i .. i xₙ`. -/
def between {α : Type} (i : α) : List α → List α
  | [] => []
  | [x] => [x]
  | x :: y :: xs => x :: i :: between i (y :: xs)

/-- An alternative with `i` between neighbouring elements. -/
def betweenAlt (i : Nat) : Production → Production
  | .notEmpty els => .notEmpty (between i els)
  | .empty => .empty

/-- An alternative with at most one element. -/
def AtMostOne : Production → Prop
  | .notEmpty els => els.length ≤ 1
  | .empty => True

end HPP.Spec
