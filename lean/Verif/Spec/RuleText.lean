import Verif.Spec.Text
import Verif.Spec.Construction
import Verif.Model.Script
/-
The syntax of rule texts and what they denote.  `Sec name body instr` says which section texts a VM accepts for a
rule `name` and which instructions it makes of them.
-/
namespace HPP.Spec
variable {I S : Type}

/-- White space (possibly none). -/
def IsSpace (g : Str) : Prop := ∀ c ∈ g, CharClass.isWhitespace c = true

/-- A name: a letter followed by letters, digits and underscores. -/
def IsName (cc : CharClass) (n : Str) : Prop :=
  ∃ c cs, n = c :: cs ∧ cc.isAlphabetic c = true ∧ ∀ d ∈ cs, cc.isAlphanumeric d = true ∨ d = '_'

/-- An element of an alternative: a quoted terminal, taken verbatim, or a name. -/
inductive ElemText (cc : CharClass) : ElementVerbose → Str → Prop where
  | terminal {b : Str} : quotedFrom false (b ++ ['"']) = some (b, []) → ElemText cc ⟨b, .terminal⟩ ('"' :: (b ++ ['"']))
  | name {n : Str} : IsName cc n → ElemText cc ⟨n, .nonTerminal⟩ n

/-- A sequence of elements; two names are separated by white space. -/
inductive SeqText (cc : CharClass) : List ElementVerbose → Str → Prop where
  | one {e : ElementVerbose} {t : Str} : ElemText cc e t → SeqText cc [e] t
  | cons {e e' : ElementVerbose} {es : List ElementVerbose} {t g t' : Str} :
      ElemText cc e t → IsSpace g → (e.et = .nonTerminal → e'.et = .nonTerminal → g ≠ []) → SeqText cc (e' :: es) t' →
      SeqText cc (e :: e' :: es) (t ++ (g ++ t'))

/-- An alternative: `#` is the empty one. -/
inductive AltText (cc : CharClass) : List ElementVerbose → Str → Prop where
  | empty : AltText cc [] (c% "#")
  | seq {es : List ElementVerbose} {t : Str} : SeqText cc es t → AltText cc es t

/-- Alternatives separated by `|`. -/
inductive AltsText (cc : CharClass) : List (List ElementVerbose) → Str → Prop where
  | one {a : List ElementVerbose} {t : Str} : AltText cc a t → AltsText cc [a] t
  | cons {a : List ElementVerbose} {as : List (List ElementVerbose)} {t g g' t' : Str} :
      AltText cc a t → IsSpace g → IsSpace g' → AltsText cc as t' → AltsText cc (a :: as) (t ++ (g ++ '|' :: (g' ++ t')))

/-- An override: none, `$[IGNORE:#]`, `$[IGNORE:name]`, or an unknown one (which has no effect). -/
inductive OverrideText (cc : CharClass) : Option Str → Str → Prop where
  | absent : OverrideText cc none []
  | off {g : Str} : IsSpace g → OverrideText cc none (c% "$[IGNORE" ++ (g ++ c% ":#]"))
  | name {g n : Str} : IsSpace g → IsName cc n → OverrideText cc (some n) (c% "$[IGNORE" ++ (g ++ ':' :: (n ++ c% "]")))
  | unknown {v g : Str} : IsName cc v → v ≠ c% "IGNORE" → IsSpace g →
      OverrideText cc none (c% "$[" ++ (v ++ (g ++ c% ":]")))

/-- An optional section in braces; the body starts at the first character that is not white space. -/
inductive SectionText (Sec : Str → Str → List I → Prop) (name : Str) : List I → Str → Prop where
  | absent : SectionText Sec name [] []
  | given {instr : List I} {g body : Str} : IsSpace g →
      (∀ c r, body = c :: r → CharClass.isWhitespace c = false) → Sec name body instr →
      SectionText Sec name instr ('{' :: (g ++ (body ++ c% "}")))

/-- A rule as written. -/
structure WrittenRule (I : Type) where
  name : Str
  ignore : Option Str
  alts : List (List ElementVerbose)
  instr : List I

/-- A rule: name, arrow, optional override, alternatives, optional section, semicolon. -/
inductive RuleText (cc : CharClass) (Sec : Str → Str → List I → Prop) : WrittenRule I → Str → Prop where
  | mk {n o a s g1 g2 g3 g4 g5 : Str} {ign : Option Str} {alts : List (List ElementVerbose)} {instr : List I} :
      IsName cc n → IsSpace g1 → IsSpace g2 → OverrideText cc ign o → IsSpace g3 → AltsText cc alts a → IsSpace g4 →
      SectionText Sec n instr s → IsSpace g5 →
      RuleText cc Sec ⟨n, ign, alts, instr⟩
        (n ++ (g1 ++ (c% "->" ++ (g2 ++ (o ++ (g3 ++ (a ++ (g4 ++ (s ++ (g5 ++ c% ";"))))))))))

/-- A rule text: rules with white space around them. -/
inductive RulesText (cc : CharClass) (Sec : Str → Str → List I → Prop) : List (WrittenRule I) → Str → Prop where
  | nil {g : Str} : IsSpace g → RulesText cc Sec [] g
  | cons {r : WrittenRule I} {rs : List (WrittenRule I)} {g t t' : Str} :
      IsSpace g → RuleText cc Sec r t → RulesText cc Sec rs t' → RulesText cc Sec (r :: rs) (g ++ (t ++ t'))

/-! ### Meaning -/

/-- The elements a rule mentions, in text order. -/
def WrittenRule.mentions (r : WrittenRule I) : List ElementVerbose :=
  ⟨r.name, .nonTerminal⟩ :: ((r.ignore.map fun n => ⟨n, .nonTerminal⟩).toList ++ r.alts.flatten)

/-- The elements of a rule text, numbered by first mention. -/
def elementsOf (rs : List (WrittenRule I)) : List ElementVerbose :=
  firstOccurrences (rs.flatMap WrittenRule.mentions)

/-- The production an alternative denotes, elements being numbered as in `keys`. -/
def altMeaning (keys : List ElementVerbose) (a : List ElementVerbose) : Production :=
  productionOf (a.map fun e => keys.idxOf e)

/-- The rule that the definitions of `n` denote together: all alternatives in text order, the override and the
instructions of the first definition. -/
def ruleMeaning (keys : List ElementVerbose) (rs : List (WrittenRule I)) (n : Str) : Option (NTRule I) :=
  match rs.filter (fun r => decide (r.name = n)) with
  | [] => none
  | d :: ds => some
    { prods := (d :: ds).flatMap fun r => r.alts.map (altMeaning keys)
      ignore := d.ignore.map fun i => keys.idxOf ⟨i, .nonTerminal⟩
      instr := d.instr }

/-- `pd` holds the elements and the rules that `rs` denotes. -/
structure Means (rs : List (WrittenRule I)) (pd : ParserData I) : Prop where
  elements : ∀ i, pd.getElementVerbose i = (elementsOf rs)[i]?
  index : ∀ k i, pd.getElementIndex k = some i ↔ (elementsOf rs)[i]? = some k
  rules : ∀ i, pd.getRuleByKey i = match (elementsOf rs)[i]? with
    | some ⟨n, .nonTerminal⟩ => ruleMeaning (elementsOf rs) rs n
    | _ => none

/-- The process the rule parser hands to the VM for a section that starts with `w` at position `k`: it ends at the first
`}` that is not escaped by `\\`. -/
def sectionProcess (w : Str) (k : Nat) : PP Proc :=
  PP.newNested (⟨⟨w⟩, k, none, none, false⟩ : Proc) (some '}') (some '\\') k

/-- The VM accepts the section text `body` for the rule `name`, wherever it stands: reading the section process over
the text from `body` on, it returns `instr` and leaves the outer process on the closing brace. -/
def ReadsSection (vm : VM I S) (name body : Str) (instr : List I) : Prop :=
  ∀ (rest : Str) (k : Nat), ∃ p,
    vm.parseInstructions name (sectionProcess (body ++ '}' :: rest) k) = (.ok instr, p) ∧
    p.src = ⟨⟨'}' :: rest⟩, k + body.length, none, none, false⟩

end HPP.Spec
