import Verif.Spec.Control
/-
The textbook LL(1) condition.
-/
namespace HPP.Spec
variable {I : Type}

/-- Textbook PREDICT set of the alternative `p` of `A`: the FIRST characters of the whole alternative and,
if the whole alternative can derive the empty text, FOLLOW of `A`. -/
def Predict (pd : ParserData I) (start A : Nat) (p : Production) (m : SetMember) : Prop :=
  (∃ c, m = .char c ∧ FirstChar (grammarOf pd) (formOf pd (prodElems p)) c) ∨
  (Nullable (grammarOf pd) (formOf pd (prodElems p)) ∧ FollowMember (grammarOf pd) start A m)

/-- The textbook LL(1) condition: the PREDICT sets of the alternatives of a rule are pairwise disjoint. -/
def LL1 (pd : ParserData I) (start : Nat) : Prop :=
  ∀ A r, AMap.get pd.rules A = some r →
    r.prods.Pairwise (fun p q => ∀ m, ¬ (Predict pd start A p m ∧ Predict pd start A q m))

/-- No alternative begins with a non-terminal that can derive the empty text. -/
def NoLeadingNullable (pd : ParserData I) : Prop :=
  ∀ A r, AMap.get pd.rules A = some r → ∀ e es, Production.notEmpty (e :: es) ∈ r.prods →
    pd.elementTypes[e]? = some .nonTerminal → ¬ Nullable (grammarOf pd) [.nt e]

end HPP.Spec
