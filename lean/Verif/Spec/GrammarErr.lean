import Verif.Spec.Control
/-
What the errors of grammar analysis are to mean.
-/
namespace HPP.Spec
variable {I : Type}

/-- `X` is a non-terminal that some alternative of some rule uses although it has no rule. -/
def UndefinedUse (pd : ParserData I) (X : Nat) : Prop :=
  pd.elementTypes[X]? = some .nonTerminal ∧ AMap.get pd.rules X = none ∧
    ∃ A r p, AMap.get pd.rules A = some r ∧ p ∈ r.prods ∧ X ∈ prodElems p

/-- How a lookahead is written in a report: the end of the script as `#`. -/
def WrittenAs : SetMember → Char → Prop
  | .char c, d => d = c
  | .terminate, d => d = '#'

/-- The text that is to identify an alternative in a report: the terminal it begins with, or `follow_set` if
it begins with a non-terminal or is empty. -/
def Identifies (pd : ParserData I) (t : Str) : Production → Prop
  | .notEmpty (e :: _) =>
    (∃ d, pd.elementTypes[e]? = some .terminal ∧ pd.elementData[e]? = some d ∧ t = d.name) ∨
    (pd.elementTypes[e]? = some .nonTerminal ∧ t = c% "follow_set")
  | _ => t = c% "follow_set"

/-- A true report of a conflict: the rule of `A` has two alternatives, the later one being the one identified
by `t`, that would both be chosen on a lookahead written `c`. -/
def TrueConflict (pd : ParserData I) (start : Nat) (t : Str) (c : Char) (A : Nat) : Prop :=
  ∃ (r : NTRule I) (i j : Nat) (p q : Production) (m : SetMember), AMap.get pd.rules A = some r ∧ i < j ∧ r.prods[i]? = some p ∧ r.prods[j]? = some q ∧
    Control pd start A p m ∧ Control pd start A q m ∧ WrittenAs m c ∧ Identifies pd t q

end HPP.Spec
