import Verif.Spec.Woven
import Verif.Spec.Parse
/-
What a script means by a rule text and a virtual machine: the texts that elements stand for, the trees, and what the machine
does to its state.  Everything is told by the names and the alternatives of the rule text.
-/
namespace HPP.Spec
variable {I S : Type}

/-- The instructions in force for `n`: those of its first definition. -/
def instructionsOf (rs : List (WrittenRule I)) (n : Str) : List I :=
  match rs.filter fun r => decide (r.name = n) with
  | [] => []
  | d :: _ => d.instr

/-- `Performs vm rs es n s x us m s'`: the elements `es` are read as the text `x` with the trees `us`, whose nodes have the
numbers `n`, .., `m - 1` in the order in which they are reached, and by that the machine gets from the state `s` to `s'`.
Reading a terminal does nothing to the state.  Reading a name performs one of its alternatives and then executes the
instructions of the name, one after the other, with the node of the name, which then shows the trees of the alternative. -/
inductive Performs (vm : VM I S) (rs : List (WrittenRule I)) :
    List ElementVerbose → Nat → S → Str → List Rose → Nat → S → Prop where
  | nil {n : Nat} {s : S} : Performs vm rs [] n s [] [] n s
  | terminal {b x : Str} {es : List ElementVerbose} {us : List Rose} {n m : Nat} {s s' : S} :
      Performs vm rs es (n + 1) s x us m s' → Performs vm rs (⟨b, .terminal⟩ :: es) n s (b ++ x) (.node b [] :: us) m s'
  | name {A x y : Str} {a es : List ElementVerbose} {vs us : List Rose} {n m m' : Nat} {s s1 s2 s' : S} {τ : Tree Str} :
      FinalAlt rs A a → Performs vm rs a (n + 1) s x vs m s1 → Shows τ ⟨n, n⟩ (.node [] vs) →
      Executes vm ⟨n, n⟩ (instructionsOf rs A) (τ, s1) (τ, s2) → Performs vm rs es m s2 y us m' s' →
      Performs vm rs (⟨A, .nonTerminal⟩ :: es) n s (x ++ y) (.node [] vs :: us) m' s'

/-- Of the tree, an instruction sees only what the node it is executed for shows: its effect on the state is the same for all
trees that show the same there. -/
def SeesOnlyBelow (vm : VM I S) : Prop :=
  ∀ τ τ' id r, Shows τ id r → Shows τ' id r → ∀ i s, (vm.execute τ id i s).map Prod.snd = (vm.execute τ' id i s).map Prod.snd

end HPP.Spec
