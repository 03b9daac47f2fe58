import Verif.Spec.EndMark
/-
Naming a part of alternatives: a sequence of elements is taken out of the alternatives it stands in and made a rule of its own.
-/
namespace HPP.Spec
variable {I S : Type}

/-- The elements, with `body` in the place of `x`. -/
def inlineEls (x : Nat) (body els : List Nat) : List Nat := els.flatMap fun i => if i = x then body else [i]

/-- The alternative, with `body` in the place of `x`. -/
def inlineAlt (x : Nat) (body : List Nat) : Production → Production
  | .empty => .empty
  | .notEmpty els => .notEmpty (inlineEls x body els)

/-- `pd'` is `pd` with a name `x` for the sequence `body`: there is one more rule, `x -> body;` without instructions, and some places
of old alternatives where `body` stood now have `x` instead - at least one.  The old elements keep their kinds and terminals their
texts (names of non-terminals may change).  The first element of `body` cannot derive the empty text. -/
structure Named (pd pd' : ParserData I) (x : Nat) (body : List Nat) : Prop where
  kinds : pd.elementTypes <+: pd'.elementTypes
  texts : ∀ i : Nat, pd.elementTypes[i]? = some .terminal →
    (pd'.elementData[i]?).map ElementData.name = (pd.elementData[i]?).map ElementData.name
  new : pd.elementTypes.length ≤ x
  bodyOld : ∀ i ∈ body, i < pd.elementTypes.length
  leads : ∃ i is, body = i :: is ∧ ¬ Nullable (grammarOf pd) (elemForm pd i)
  bodyRule : AMap.get pd'.rules x = some ⟨[.notEmpty body], none, []⟩
  others : ∀ A, A ≠ x →
    AMap.get pd.rules A = (AMap.get pd'.rules A).map fun r => ⟨r.prods.map (inlineAlt x body), r.ignore, r.instr⟩
  used : ∃ A r p, A ≠ x ∧ AMap.get pd'.rules A = some r ∧ p ∈ r.prods ∧ x ∈ prodElems p

/-- The forest without the nodes for `x`: what was below them takes their place. -/
def splice (x : Nat) (body : List Nat) : Forest → Forest
  | .nil => .nil
  | .leaf i f => .leaf i (splice x body f)
  | .node A p k f =>
    if A = x then join (splice x body k) (splice x body f) else .node A (inlineAlt x body p) (splice x body k) (splice x body f)
where
  /-- One forest after the other. -/
  join : Forest → Forest → Forest
  | .nil, g => g
  | .leaf i f, g => .leaf i (join f g)
  | .node A p k f, g => .node A p k (join f g)

mutual
/-- The first data tree is made from the second by putting, for some nodes without text, their children in their place. -/
inductive Flatter : Rose → Rose → Prop where
  | node {d : Str} {ks ks' : List Rose} : FlatterAll ks ks' → Flatter (.node d ks) (.node d ks')
/-- The same for lists of trees. -/
inductive FlatterAll : List Rose → List Rose → Prop where
  | nil : FlatterAll [] []
  | keep {r r' : Rose} {rs rs' : List Rose} : Flatter r r' → FlatterAll rs rs' → FlatterAll (r :: rs) (r' :: rs')
  | dissolve {ks ks' rs rs' : List Rose} : FlatterAll ks ks' → FlatterAll rs rs' → FlatterAll (ks ++ rs) (.node [] ks' :: rs')
end

/-- The texts of the children of the node. -/
def Rose.childTexts : Rose → List Str
  | .node _ ks => ks.map fun | .node d _ => d

/-- Of the tree and the node it is executed for, an instruction sees only the texts of the children of the node. -/
def SeesOnlyChildTexts (vm : VM I S) : Prop :=
  ∀ τ τ' id id' r r', Shows τ id r → Shows τ' id' r' → r.childTexts = r'.childTexts → ∀ i s,
    (vm.execute τ id i s).map Prod.snd = (vm.execute τ' id' i s).map Prod.snd

/-- What the instruction does to the state does not depend on the tree and the node. -/
def BlindInstr (vm : VM I S) (i : I) : Prop :=
  ∀ τ τ' id id' s, (vm.execute τ id i s).map Prod.snd = (vm.execute τ' id' i s).map Prod.snd

/-- The rules that mention `x` have instructions that do not look at the tree. -/
def MentionsBlind (vm : VM I S) (pd' : ParserData I) (x : Nat) : Prop :=
  ∀ A r p, AMap.get pd'.rules A = some r → p ∈ r.prods → x ∈ prodElems p → ∀ i ∈ r.instr, BlindInstr vm i

/-! ### rule texts -/

/-- The alternative, with `b` in the place of the name `g`. -/
def inlineName (g : Str) (b a : List ElementVerbose) : List ElementVerbose :=
  a.flatMap fun e => if e = ⟨g, .nonTerminal⟩ then b else [e]

/-- `rs'` are the rules `rs` with the name `g` for the sequence `b`: without the one rule `g -> b;`, and with `b` in the place of `g`,
they are `rs`.  The rules that mention `g` have no overrides in force, and no override names it; `g` is not `start`, `b` does not
mention it, some rule does, and the first element of `b` does not stand for the empty text. -/
structure NamedText (g : Str) (b : List ElementVerbose) (rs rs' : List (WrittenRule I)) : Prop where
  rules : rs = (rs'.filter fun r => decide (r.name ≠ g)).map fun r => ⟨r.name, r.ignore, r.alts.map (inlineName g b), r.instr⟩
  definition : (rs'.filter fun r => decide (r.name = g)) = [⟨g, none, [b], []⟩]
  noOverride : ∀ r ∈ rs', ∀ a ∈ r.alts, ⟨g, .nonTerminal⟩ ∈ a → overrideOf rs' r.name = none
  notIgnored : ∀ r ∈ rs', r.ignore ≠ some g
  notStart : g ≠ c% "start"
  notSelf : ⟨g, .nonTerminal⟩ ∉ b
  used : ∃ r ∈ rs', r.name ≠ g ∧ ∃ a ∈ r.alts, ⟨g, .nonTerminal⟩ ∈ a
  leads : ∃ e es, b = e :: es ∧ ¬ Spells rs [e] []

/-- The rules that mention `g` have instructions that do not look at the tree. -/
def NameBlind (vm : VM I S) (g : Str) (rs' : List (WrittenRule I)) : Prop :=
  ∀ r ∈ rs', ∀ a ∈ r.alts, ⟨g, .nonTerminal⟩ ∈ a → ∀ d ∈ rs', d.name = r.name → ∀ i ∈ d.instr, BlindInstr vm i

end HPP.Spec
