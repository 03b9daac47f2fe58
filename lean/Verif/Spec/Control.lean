import Verif.Spec.Grammar
/-
Lookahead ("control") sets of alternatives and the acceptance criterion for grammars, in terms of
derivations only.
-/
namespace HPP.Spec
variable {I : Type}

/-- FOLLOW as one predicate on lookaheads: a character or the end of the script. -/
def FollowMember (G : Grammar) (start A : Nat) : SetMember → Prop
  | .char c => FollowChar G A c
  | .terminate => FollowEnd G start A

/-- The steuer set of a non-terminal: its FIRST characters and, if it can derive the empty text, its
FOLLOW set. -/
def SteuerMember (G : Grammar) (start A : Nat) (m : SetMember) : Prop :=
  (∃ c, m = .char c ∧ FirstChar G [.nt A] c) ∨ (Nullable G [.nt A] ∧ FollowMember G start A m)

/-- The control set of an alternative of `A`: FOLLOW of `A` for the empty alternative, the first character
of a leading terminal, the steuer set of a leading non-terminal. -/
def Control (pd : ParserData I) (start A : Nat) : Production → SetMember → Prop
  | .empty, m => FollowMember (grammarOf pd) start A m
  | .notEmpty [], _ => False
  | .notEmpty (e :: _), m =>
    (pd.elementTypes[e]? = some .terminal ∧
      ∃ d c, pd.elementData[e]? = some d ∧ d.name.head? = some c ∧ m = .char c) ∨
    (pd.elementTypes[e]? = some .nonTerminal ∧ SteuerMember (grammarOf pd) start e m)

/-- For every rule the control sets of its alternatives are pairwise disjoint. -/
def ControlDisjoint (pd : ParserData I) (start : Nat) : Prop :=
  ∀ A r, AMap.get pd.rules A = some r →
    r.prods.Pairwise (fun p q => ∀ m, ¬ (Control pd start A p m ∧ Control pd start A q m))

/-- No alternative begins with the empty terminal. -/
def NoLeadingEmptyTerminal (pd : ParserData I) : Prop :=
  ∀ A r, AMap.get pd.rules A = some r → ∀ e es, Production.notEmpty (e :: es) ∈ r.prods →
    pd.elementTypes[e]? = some .terminal → ∀ d, pd.elementData[e]? = some d → d.name ≠ []

/-- The grammars for which a parser is built. -/
structure Acceptable (pd : ParserData I) (start : Nat) : Prop where
  startDefined : ∃ r, AMap.get pd.rules start = some r
  defined : AllDefined pd
  noLeftRec : ∀ A, ¬ LeftRecursive (grammarOf pd) A
  noEmptyTerminal : NoLeadingEmptyTerminal pd
  disjoint : ControlDisjoint pd start

end HPP.Spec
