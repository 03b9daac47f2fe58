import Verif.Spec.Executing
/-
Rules by which a script is a sequence of statements, one after the other.
-/
namespace HPP.Spec
variable {I S : Type}

/-- Every alternative of `start` is empty or ends in `start`, and the name `start` has no instructions. -/
structure RepeatsStart (rs : List (WrittenRule I)) : Prop where
  alternatives : ∀ r ∈ rs, r.name = c% "start" → ∀ a ∈ r.alts, a = [] ∨ ∃ es, a = es ++ [⟨c% "start", .nonTerminal⟩]
  silent : instructionsOf rs (c% "start") = []

/-- `Continued r r' r''`: `r''` is `r` with `r'` in place of the last node on the way down along the last children. -/
inductive Continued (r' : Rose) : Rose → Rose → Prop where
  | here : Continued r' (.node [] []) r'
  | last {d : List Char} {ks : List Rose} {u u' : Rose} : Continued r' u u' → Continued r' (.node d (ks ++ [u])) (.node d (ks ++ [u']))

/-- The scripts are accepted and read to their ends one after the other, each from the state in which the one before it left the
machine; they lead from the first to the second state. -/
inductive InTurn (vm : VM I S) (P : Parser I) : List Str → S → S → Prop where
  | nil {s : S} : InTurn vm P [] s s
  | cons {ho : HashOrder} {fuel : Nat} {x : Str} {xs : List Str} {s s' : S} {t : Tree Str} {c : Ctx S} :
      Parser.parse ho fuel vm P x s = (.ok t, c) → c.proc.rest = [] → InTurn vm P xs c.state s' → InTurn vm P (x :: xs) s s'

end HPP.Spec
