import Verif.Spec.Prepared
import Verif.Model.RuleParserApi
/-
Histories of calls on one rule parser: the whole text, single rules, single lists of alternatives, single alternatives.
-/
namespace HPP.Spec
variable {I S : Type}

/-- The rule parsers reachable from `s0` by the public reading calls, with success or not, in any order. -/
inductive PartRun (cc : CharClass) (vm : VM I S) (s0 : RP I) : RP I → Prop where
  | start : PartRun cc vm s0 s0
  | rules {ho : HashOrder} {s s' : RP I} {r : Res PErr Unit} :
      PartRun cc vm s0 s → rpParseRules ho cc vm s = (r, s') → PartRun cc vm s0 s'
  | rule {s s' : RP I} {r : Res PErr (Nat × NTRule I)} :
      PartRun cc vm s0 s → parseRule cc vm s = (r, s') → PartRun cc vm s0 s'
  | alternatives {s s' : RP I} {r : Res PErr (List Production)} :
      PartRun cc vm s0 s → parseAlts cc s = (r, s') → PartRun cc vm s0 s'
  | alternative {s s' : RP I} {r : Res PErr Production} :
      PartRun cc vm s0 s → parseProd cc s = (r, s') → PartRun cc vm s0 s'

/-- The elements of `pd` are `E`, numbered in order. -/
structure Holds (pd : ParserData I) (E : List ElementVerbose) : Prop where
  elements : ∀ i, pd.getElementVerbose i = E[i]?
  index : ∀ k i, pd.getElementIndex k = some i ↔ E[i]? = some k

/-- The rules and the default ignore element of `pd'` are those of `pd`. -/
def KeepsRules (pd pd' : ParserData I) : Prop :=
  (∀ i, pd'.getRuleByKey i = pd.getRuleByKey i) ∧ pd'.ignore = pd.ignore

/-- The text goes on with `|`, `{` or `;`, or ends. -/
def AltEnds (w : Str) : Prop := ∀ c r, w = c :: r → c = '|' ∨ c = '{' ∨ c = ';'

/-- The text goes on with `{` or `;`, or ends. -/
def AltsEnd (w : Str) : Prop := ∀ c r, w = c :: r → c = '{' ∨ c = ';'

end HPP.Spec
