import Verif.Spec.SameRules
import Verif.Spec.Executing
/-
Adding an end marker to a grammar: a new start rule `start -> old end;` where `end -> #;` is a rule for the end of the script.
-/
namespace HPP.Spec
variable {I S : Type}

/-- `pd'` is `pd` with an end marker: a new start symbol `s` with the one alternative "the old start symbol `st`, then `e`", and a
new name `e` with the empty alternative only; both without instructions.  The old elements keep their kinds, terminals keep their
texts (names of non-terminals may change), and the old rules are kept as they are. -/
structure EndMarked (pd : ParserData I) (st : Nat) (pd' : ParserData I) (s e : Nat) : Prop where
  kinds : pd.elementTypes <+: pd'.elementTypes
  texts : ∀ i : Nat, pd.elementTypes[i]? = some .terminal →
    (pd'.elementData[i]?).map ElementData.name = (pd.elementData[i]?).map ElementData.name
  old : st < pd.elementTypes.length
  newStart : pd.elementTypes.length ≤ s
  newEnd : pd.elementTypes.length ≤ e
  different : s ≠ e
  kept : ∀ A, A < pd.elementTypes.length → AMap.get pd'.rules A = AMap.get pd.rules A
  startRule : AMap.get pd'.rules s = some ⟨[.notEmpty [st, e]], none, []⟩
  endRule : AMap.get pd'.rules e = some ⟨[.empty], none, []⟩
  noMore : ∀ A, pd.elementTypes.length ≤ A → A ≠ s → A ≠ e → AMap.get pd'.rules A = none

/-- The name, but with `start` and `g` exchanged. -/
def swapStart (g n : Str) : Str := if n = c% "start" then g else if n = g then c% "start" else n

/-- The rule with its name, its override and the names in its alternatives replaced. -/
def WrittenRule.rename (ρ : Str → Str) (r : WrittenRule I) : WrittenRule I :=
  ⟨ρ r.name, r.ignore.map ρ, r.alts.map (List.map (renamed ρ)), r.instr⟩

/-- The rules with an end marker: what was called `start` is now called `g`, and there are two more rules, `start -> g h;` and
`h -> #;`. -/
def endMarked (g h : Str) (rs : List (WrittenRule I)) : List (WrittenRule I) :=
  rs.map (WrittenRule.rename (swapStart g)) ++
    [⟨c% "start", none, [[⟨g, .nonTerminal⟩, ⟨h, .nonTerminal⟩]], []⟩, ⟨h, none, [[]], []⟩]

/-- The names `g` and `h` are new: they are different from each other and from `start`, and the rules do not mention them. -/
structure NewNames (g h : Str) (rs : List (WrittenRule I)) : Prop where
  different : g ≠ h
  notStart : g ≠ c% "start"
  notStart' : h ≠ c% "start"
  unused : ∀ r ∈ rs, (⟨g, .nonTerminal⟩ : ElementVerbose) ∉ r.mentions ∧ (⟨h, .nonTerminal⟩ : ElementVerbose) ∉ r.mentions

/-- Of the tree and the node it is executed for, an instruction sees only what the node shows: not which number the node has, nor
anything else in the tree. -/
def SeesOnlyShown (vm : VM I S) : Prop :=
  ∀ τ τ' id id' r, Shows τ id r → Shows τ' id' r → ∀ i s,
    (vm.execute τ id i s).map Prod.snd = (vm.execute τ' id' i s).map Prod.snd

end HPP.Spec
