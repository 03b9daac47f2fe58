import Verif.Spec.SameRules
/-
Rule lists with the same meaning, however their definitions are divided up.
-/
namespace HPP.Spec
variable {I : Type}

/-- The instructions in force for `n`: those of its first definition. -/
def instrFor (rs : List (WrittenRule I)) (n : Str) : List I :=
  match rs.filter fun r => decide (r.name = n) with
  | [] => []
  | d :: _ => d.instr

/-- `rs'` means the same as `rs` with names replaced by `ρ`: the same names are defined, with the same alternatives (all
definitions of the name taken together, in any order) and with the same override and instructions in force.  `start` keeps
its name.  Nothing is said about how many definitions a name has. -/
structure SameMeaning (ρ : Str → Str) (rs rs' : List (WrittenRule I)) : Prop where
  injective : ∀ m n, ρ m = ρ n → m = n
  start : ρ (c% "start") = c% "start"
  defined : ∀ n, (∃ r' ∈ rs', r'.name = ρ n) ↔ ∃ r ∈ rs, r.name = n
  noMore : ∀ r' ∈ rs', ∃ n, r'.name = ρ n
  alts : ∀ n, (altsOf rs' (ρ n)).Perm ((altsOf rs n).map (List.map (renamed ρ)))
  override : ∀ n, overrideOf rs' (ρ n) = (overrideOf rs n).map ρ
  instr : ∀ n, instrFor rs' (ρ n) = instrFor rs n

end HPP.Spec
