import Verif.Spec.Grammar
import Verif.Spec.SameMeaning
/-
Grammars that grow: more alternatives, more rules.
-/
namespace HPP.Spec
variable {I : Type}

/-- All of `small` is in `big`, in any order, with the same or greater multiplicity. -/
def Among {α : Type} (small big : List α) : Prop := ∃ l, small.Sublist l ∧ l.Perm big

/-- `pd'` is `pd` with more in it: elements were added at the end of the list, rules may have got additional alternatives
(anywhere) and there may be additional rules.  Rules that were there keep their instructions. -/
structure Extends (pd pd' : ParserData I) : Prop where
  kinds : pd.elementTypes <+: pd'.elementTypes
  data : pd.elementData <+: pd'.elementData
  rules : ∀ A r, AMap.get pd.rules A = some r → ∃ r', AMap.get pd'.rules A = some r' ∧ r'.instr = r.instr ∧ Among r.prods r'.prods

/-- `rs'` is `rs` with more in it: whatever is defined in `rs` is defined in `rs'`, with the alternatives of `rs` and
perhaps others, and the same override and instructions are in force for it.  An ignore element that did not use the rule it
was given for still does not. -/
structure ExtendsRules (rs rs' : List (WrittenRule I)) : Prop where
  alts : ∀ n, Among (altsOf rs n) (altsOf rs' n)
  defined : ∀ r ∈ rs, ∃ r' ∈ rs', r'.name = r.name
  override : ∀ r ∈ rs, overrideOf rs' r.name = overrideOf rs r.name
  instr : ∀ r ∈ rs, instrFor rs' r.name = instrFor rs r.name
  ignores : ∀ n j, overrideOf rs n = some j → NameUsesStar rs' j n → NameUsesStar rs j n

/-- Every name that is mentioned in the rules is defined by them. -/
def Complete (rs : List (WrittenRule I)) : Prop :=
  ∀ r ∈ rs, ∀ n, (⟨n, .nonTerminal⟩ : ElementVerbose) ∈ r.mentions → ∃ r' ∈ rs, r'.name = n

end HPP.Spec
