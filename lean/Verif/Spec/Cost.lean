import Verif.Spec.Parse
/-
How much a parse may do: a bound that is linear in the length of the script, with a factor that depends on the
grammar only.  Nothing here mentions the parsing algorithm.
-/
namespace HPP.Spec
variable {I S : Type}

/-- `B` is at least the number of elements of every alternative. -/
def WidthAtMost (pd : ParserData I) (B : Nat) : Prop :=
  ∀ A r, AMap.get pd.rules A = some r → ∀ p ∈ r.prods, (prodElems p).length ≤ B

/-- `L` is at least the number of instructions of every rule. -/
def InstrAtMost (pd : ParserData I) (L : Nat) : Prop :=
  ∀ A r, AMap.get pd.rules A = some r → r.instr.length ≤ L

/-- The number of nodes allowed for `n` characters, with `R` rules whose alternatives have at most `B` elements. -/
def nodeBound (R B n : Nat) : Nat := (B + 1) ^ R * (1 + R * B * n)

/-- `μ` meters the machine: executing one instruction raises it by at most one (for example, it counts the executions). -/
def Meters (vm : VM I S) (μ : S → Nat) : Prop :=
  ∀ t id i s t' s', vm.execute t id i s = some (t', s') → μ s' ≤ μ s + 1

mutual
/-- Number of nodes of a data tree. -/
def Rose.size : Rose → Nat
  | .node _ ks => 1 + Rose.sizes ks
/-- The same for a list of trees. -/
def Rose.sizes : List Rose → Nat
  | [] => 0
  | r :: rs => Rose.size r + Rose.sizes rs
end

end HPP.Spec
