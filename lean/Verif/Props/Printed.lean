import Verif.Model.ExampleMains
import Verif.Props.Display
/-
C70, C108: how set members and the numbers of the example programs are shown.
-/
namespace HPP
open Spec

/-- **C108**, the numbers an example program prints: in decimal, with a sign exactly if they are negative. -/
theorem C108_printed_numbers (n : Nat) :
    Examples.showInt (n : Int) = numeral n ∧ (0 < n → Examples.showInt (-(n : Int)) = '-' :: numeral n) := by
  refine ⟨?_, fun h => ?_⟩
  · rw [Examples.showInt, if_neg (by omega), Int.toNat_natCast, C70_numbers_in_decimal]
  · rw [Examples.showInt, if_pos (by omega), Int.natAbs_neg, Int.natAbs_natCast, C70_numbers_in_decimal]

example : Examples.showInt 0 = c% "0" ∧ Examples.showInt (-12) = c% "-12" := by decide +kernel

end HPP
