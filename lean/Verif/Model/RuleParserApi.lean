import Verif.Model.RuleParsing
/-
`RuleParser` as an object: `parse_rules` with its effect on the object (src/rule_parsing.rs 52-121), so that histories of
calls on one object can be described.  `Model/RuleParsing.lean` has the result of one call on a fresh object.
-/
namespace HPP
variable {I S : Type}

/-- `edit_rules` (rule_parsing.rs 65-121) with its effect.  The first pass only reads, so an error there leaves the rules as
they are; the second pass has taken the rules out of the object (`mem::take`, line 92), so an error there would leave the
object without rules.  Hash iteration sites 10 and 11. -/
def rpEditRules (ho : HashOrder) : SM (RP I) PErr Unit := fun s =>
  match editActions s.pd (ho.iter 10 (Nat × NTRule I) s.pd.rules) [] with
  | .ok actions =>
    match editApply actions (ho.iter 11 (Nat × NTRule I) s.pd.rules) [] with
    | .ok rules => (.ok (), { s with pd := { s.pd with rules := rules } })
    | .err e => (.err e, { s with pd := { s.pd with rules := [] } })
    | .panic => (.panic, { s with pd := { s.pd with rules := [] } })
    | .timeout => (.timeout, { s with pd := { s.pd with rules := [] } })
  | .err e => (.err e, s)
  | .panic => (.panic, s)
  | .timeout => (.timeout, s)

/-- `parse_rules` (rule_parsing.rs 52-63) on a rule parser in any state; the loop is bounded by the number of unread
characters.  The result `Ok(&rules)` is the rules of the state. -/
def rpParseRules (ho : HashOrder) (cc : CharClass) (vm : VM I S) : SM (RP I) PErr Unit := fun s =>
  (do parseRulesLoop cc vm (s.proc.rest.length + 1); rpEditRules ho : SM (RP I) PErr Unit) s

end HPP
