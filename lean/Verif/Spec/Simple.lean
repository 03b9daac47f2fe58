import Verif.Spec.Woven
import Verif.Spec.Extend
/-
Simple grammars: every alternative begins with a character.
-/
namespace HPP.Spec
variable {I : Type}

/-- The character an alternative begins with, if it begins with a terminal that is not empty. -/
def leadOf : List ElementVerbose → Option Char
  | ⟨b, .terminal⟩ :: _ => b.head?
  | _ => none

/-- Every alternative begins with a character. -/
def LeadsEverywhere (rs : List (WrittenRule I)) : Prop := ∀ r ∈ rs, ∀ a ∈ r.alts, ∃ c, leadOf a = some c

/-- No two alternatives of the same name begin with the same character. -/
def LeadsDiffer (rs : List (WrittenRule I)) : Prop :=
  ∀ n, (altsOf rs n).Pairwise fun a b => leadOf a ≠ leadOf b

end HPP.Spec
