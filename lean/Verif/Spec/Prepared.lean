import Verif.Spec.RuleText
/-
Reading a rule text into grammar data that already holds elements, rules and a default ignore element (the field
`parser_data` of a rule parser is public).

The syntax is that of `Spec/RuleText.lean`; here an override is recorded as what it says, so that the default can be
told from an override that switches ignoring off.
-/
namespace HPP.Spec
variable {I S : Type}

/-- What a rule says about its ignore element: nothing, `#`, or a name. -/
inductive Choice where
  | default
  | off
  | use (n : Str)

/-- No override or an unknown one says nothing, `$[IGNORE:#]` switches off, `$[IGNORE:n]` names. -/
inductive ChoiceText (cc : CharClass) : Choice → Str → Prop where
  | absent : ChoiceText cc .default []
  | off {g : Str} : IsSpace g → ChoiceText cc .off (c% "$[IGNORE" ++ (g ++ c% ":#]"))
  | name {g n : Str} : IsSpace g → IsName cc n → ChoiceText cc (.use n) (c% "$[IGNORE" ++ (g ++ ':' :: (n ++ c% "]")))
  | unknown {v g : Str} : IsName cc v → v ≠ c% "IGNORE" → IsSpace g →
      ChoiceText cc .default (c% "$[" ++ (v ++ (g ++ c% ":]")))

/-- A rule as written. -/
structure ReadRule (I : Type) where
  name : Str
  choice : Choice
  alts : List (List ElementVerbose)
  instr : List I

/-- A rule: name, arrow, optional override, alternatives, optional section, semicolon. -/
inductive ReadRuleText (cc : CharClass) (Sec : Str → Str → List I → Prop) : ReadRule I → Str → Prop where
  | mk {n o a s g1 g2 g3 g4 g5 : Str} {ch : Choice} {alts : List (List ElementVerbose)} {instr : List I} :
      IsName cc n → IsSpace g1 → IsSpace g2 → ChoiceText cc ch o → IsSpace g3 → AltsText cc alts a → IsSpace g4 →
      SectionText Sec n instr s → IsSpace g5 →
      ReadRuleText cc Sec ⟨n, ch, alts, instr⟩
        (n ++ (g1 ++ (c% "->" ++ (g2 ++ (o ++ (g3 ++ (a ++ (g4 ++ (s ++ (g5 ++ c% ";"))))))))))

/-- A rule text: rules with white space around them. -/
inductive ReadRulesText (cc : CharClass) (Sec : Str → Str → List I → Prop) : List (ReadRule I) → Str → Prop where
  | nil {g : Str} : IsSpace g → ReadRulesText cc Sec [] g
  | cons {r : ReadRule I} {rs : List (ReadRule I)} {g t t' : Str} :
      IsSpace g → ReadRuleText cc Sec r t → ReadRulesText cc Sec rs t' → ReadRulesText cc Sec (r :: rs) (g ++ (t ++ t'))

/-- The element a choice mentions. -/
def Choice.mentions : Choice → List ElementVerbose
  | .use n => [⟨n, .nonTerminal⟩]
  | _ => []

/-- The ignore element a choice selects, `dflt` being the default. -/
def Choice.select (keys : List ElementVerbose) (dflt : Option Nat) : Choice → Option Nat
  | .default => dflt
  | .off => none
  | .use n => some (keys.idxOf ⟨n, .nonTerminal⟩)

/-- The elements a rule mentions, in text order. -/
def ReadRule.mentions (r : ReadRule I) : List ElementVerbose :=
  ⟨r.name, .nonTerminal⟩ :: (r.choice.mentions ++ r.alts.flatten)

/-- The elements after reading: those that were there keep their numbers, new ones follow in the order of mention. -/
def elementsAfter (keys0 : List ElementVerbose) (rs : List (ReadRule I)) : List ElementVerbose :=
  firstOccurrences (keys0 ++ rs.flatMap ReadRule.mentions)

/-- The rule after reading, `old` being the rule that was there and `ds` the definitions in the text: alternatives are
appended; instructions and ignore element are those of the old rule, or else those of the first definition. -/
def ruleAfter (keys : List ElementVerbose) (dflt : Option Nat) (old : Option (NTRule I)) (ds : List (ReadRule I)) :
    Option (NTRule I) :=
  match old, ds with
  | some q, ds => some { q with prods := q.prods ++ ds.flatMap fun r => r.alts.map (altMeaning keys) }
  | none, [] => none
  | none, d :: ds => some
    { prods := (d :: ds).flatMap fun r => r.alts.map (altMeaning keys)
      ignore := d.choice.select keys dflt
      instr := d.instr }

/-- The definitions of element `i` in the text. -/
def defsOf (keys : List ElementVerbose) (rs : List (ReadRule I)) (i : Nat) : List (ReadRule I) :=
  rs.filter fun r => decide (keys[i]? = some ⟨r.name, .nonTerminal⟩)

/-- `pd` is `pd0`, whose elements are `keys0`, with the rules `rs` read into it (before ignore elements are woven in). -/
structure ReadInto (pd0 : ParserData I) (keys0 : List ElementVerbose) (rs : List (ReadRule I)) (pd : ParserData I) : Prop where
  elements : ∀ i, pd.getElementVerbose i = (elementsAfter keys0 rs)[i]?
  index : ∀ k i, pd.getElementIndex k = some i ↔ (elementsAfter keys0 rs)[i]? = some k
  default : pd.ignore = pd0.ignore
  rules : ∀ i, pd.getRuleByKey i =
    ruleAfter (elementsAfter keys0 rs) pd0.ignore (pd0.getRuleByKey i) (defsOf (elementsAfter keys0 rs) rs i)

end HPP.Spec
