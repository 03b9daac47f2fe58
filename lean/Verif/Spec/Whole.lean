import Verif.Spec.Control
import Verif.Spec.Woven
/-
Grammars whose scripts are always read to the end.  Nothing here mentions the parsing algorithm.
-/
namespace HPP.Spec
variable {I : Type}

/-- `Z` is a set of "closing" non-terminals: they are used only as the last element of an alternative of a closing
non-terminal, and every alternative of a closing non-terminal is empty or ends with a closing non-terminal.  The start
symbol is closing.  Examples: `Z = {start, end}` with `start -> ... end; end -> #;`, and `Z = {start, terms, terms_s}` of
the calculator rules. -/
structure Closing (pd : ParserData I) (start : Nat) (Z : Nat → Prop) : Prop where
  start : Z start
  nonTerminal : ∀ E, Z E → pd.elementTypes[E]? = some .nonTerminal
  ends : ∀ A r, Z A → AMap.get pd.rules A = some r → ∀ p ∈ r.prods,
    prodElems p = [] ∨ ∃ pre E, prodElems p = pre ++ [E] ∧ Z E
  onlyLast : ∀ A r, AMap.get pd.rules A = some r → ∀ p ∈ r.prods, ∀ pre E post,
    prodElems p = pre ++ E :: post → Z E → post = [] ∧ Z A

/-- The same for the rules of a text: the names in `Z` stand only at the end of alternatives of names in `Z`, every
alternative of a name in `Z` is empty or ends with such a name, and no override gives such a name. -/
structure ClosingNames (rs : List (WrittenRule I)) (Z : Str → Prop) : Prop where
  start : Z (c% "start")
  ends : ∀ n a, Z n → a ∈ altsOf rs n → a = [] ∨ ∃ pre m, a = pre ++ [⟨m, .nonTerminal⟩] ∧ Z m
  onlyLast : ∀ n a pre m post, a ∈ altsOf rs n → a = pre ++ ⟨m, .nonTerminal⟩ :: post → Z m → post = [] ∧ Z n
  noOverride : ∀ n j, overrideOf rs n = some j → ¬ Z j

end HPP.Spec
