import Mathlib.Data.List.Forall2
import Verif.Spec.Woven
/-
Rule lists that say the same: names replaced consistently, rules listed in another order, alternatives of a rule listed
in another order.
-/
namespace HPP.Spec
variable {I : Type}

/-- The element with names replaced by `ρ`; terminals stay. -/
def renamed (ρ : Str → Str) (e : ElementVerbose) : ElementVerbose :=
  match e.et with
  | .nonTerminal => ⟨ρ e.name, .nonTerminal⟩
  | .terminal => e

/-- `r'` is `r` with names replaced by `ρ` and its alternatives in some order. -/
structure SameRule (ρ : Str → Str) (r r' : WrittenRule I) : Prop where
  name : r'.name = ρ r.name
  ignore : r'.ignore = r.ignore.map ρ
  instr : r'.instr = r.instr
  alts : r'.alts.Perm (r.alts.map (List.map (renamed ρ)))

/-- `rs'` is `rs` with names replaced by `ρ`, in another order: the definitions of every single name are the same, one
after the other (so their order among themselves is kept), and there are no other definitions. -/
structure RenamedRules (ρ : Str → Str) (rs rs' : List (WrittenRule I)) : Prop where
  injective : ∀ m n, ρ m = ρ n → m = n
  definitions : ∀ n, List.Forall₂ (SameRule ρ) (rs.filter fun r => decide (r.name = n))
    (rs'.filter fun r => decide (r.name = ρ n))
  noMore : ∀ r' ∈ rs', ∃ n, r'.name = ρ n

/-- The same, and `start` keeps its name. -/
structure SameRules (ρ : Str → Str) (rs rs' : List (WrittenRule I)) : Prop extends RenamedRules ρ rs rs' where
  start : ρ (c% "start") = c% "start"

end HPP.Spec
