import Verif.Spec.RuleText
import Verif.Spec.Edit
/-
The meaning of a rule text with `$[IGNORE:..]` overrides, and the texts it describes.  Everything here is about names and
written alternatives, not about the numbers the rule parser gives to elements.
-/
namespace HPP.Spec
variable {I : Type}

/-- All alternatives written for `n`, in text order. -/
def altsOf (rs : List (WrittenRule I)) (n : Str) : List (List ElementVerbose) :=
  (rs.filter fun r => decide (r.name = n)).flatMap WrittenRule.alts

/-- The override in force for `n`: that of its first definition. -/
def overrideOf (rs : List (WrittenRule I)) (n : Str) : Option Str :=
  match rs.filter fun r => decide (r.name = n) with
  | [] => none
  | d :: _ => d.ignore

/-- An alternative of `n` mentions the name `m`. -/
def NameUses (rs : List (WrittenRule I)) (n m : Str) : Prop := ∃ a ∈ altsOf rs n, ⟨m, .nonTerminal⟩ ∈ a

/-- `m` is `n` or is used directly or indirectly by `n`. -/
abbrev NameUsesStar (rs : List (WrittenRule I)) : Str → Str → Prop := Relation.ReflTransGen (NameUses rs)

/-- Everything the ignore productions use has a definition. -/
def IgnoresDefined (rs : List (WrittenRule I)) : Prop :=
  ∀ n j m, overrideOf rs n = some j → NameUsesStar rs j m → ∃ r ∈ rs, r.name = m

/-- The alternatives that count for `n`: with an override `j` by something that does not use `n`, the written ones with
`j` between neighbours; otherwise the written ones. -/
inductive FinalAlt (rs : List (WrittenRule I)) (n : Str) : List ElementVerbose → Prop where
  | plain {a : List ElementVerbose} : overrideOf rs n = none → a ∈ altsOf rs n → FinalAlt rs n a
  | own {j : Str} {a : List ElementVerbose} : overrideOf rs n = some j → NameUsesStar rs j n → a ∈ altsOf rs n →
      FinalAlt rs n a
  | woven {j : Str} {a : List ElementVerbose} : overrideOf rs n = some j → ¬ NameUsesStar rs j n → a ∈ altsOf rs n →
      FinalAlt rs n (between ⟨j, .nonTerminal⟩ a)

/-- The texts a sequence of elements can stand for: a terminal stands for itself, a name for whatever one of its
alternatives stands for. -/
inductive Spells (rs : List (WrittenRule I)) : List ElementVerbose → Str → Prop where
  | nil : Spells rs [] []
  | terminal {b : Str} {es : List ElementVerbose} {s : Str} : Spells rs es s → Spells rs (⟨b, .terminal⟩ :: es) (b ++ s)
  | name {n : Str} {a es : List ElementVerbose} {s s' : Str} :
      FinalAlt rs n a → Spells rs a s → Spells rs es s' → Spells rs (⟨n, .nonTerminal⟩ :: es) (s ++ s')

/-- `pd` holds the elements and the rules that `rs` denotes, overrides applied. -/
structure MeansWoven (rs : List (WrittenRule I)) (pd : ParserData I) : Prop where
  elements : ∀ i, pd.getElementVerbose i = (elementsOf rs)[i]?
  index : ∀ k i, pd.getElementIndex k = some i ↔ (elementsOf rs)[i]? = some k
  noName : ∀ i, (∀ n, (elementsOf rs)[i]? ≠ some ⟨n, .nonTerminal⟩) → pd.getRuleByKey i = none
  undefined : ∀ i n, (elementsOf rs)[i]? = some ⟨n, .nonTerminal⟩ → ruleMeaning (elementsOf rs) rs n = none →
    pd.getRuleByKey i = none
  plain : ∀ i n r, (elementsOf rs)[i]? = some ⟨n, .nonTerminal⟩ → ruleMeaning (elementsOf rs) rs n = some r →
    overrideOf rs n = none → pd.getRuleByKey i = some r
  own : ∀ i n r j, (elementsOf rs)[i]? = some ⟨n, .nonTerminal⟩ → ruleMeaning (elementsOf rs) rs n = some r →
    overrideOf rs n = some j → NameUsesStar rs j n → pd.getRuleByKey i = some ⟨r.prods, none, r.instr⟩
  woven : ∀ i n r j, (elementsOf rs)[i]? = some ⟨n, .nonTerminal⟩ → ruleMeaning (elementsOf rs) rs n = some r →
    overrideOf rs n = some j → ¬ NameUsesStar rs j n →
    pd.getRuleByKey i = some
      ⟨r.prods.map (betweenAlt ((elementsOf rs).idxOf ⟨j, .nonTerminal⟩)), r.ignore, r.instr⟩

end HPP.Spec
