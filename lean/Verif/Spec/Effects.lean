import Verif.Spec.Executing
import Verif.Spec.Same
/-
What instruction sections do, as opposed to how they are written: two sections, of two virtual machines with instructions and
states of their own, that have the same effect; and grammars that differ in nothing but their sections.
-/
namespace HPP.Spec
variable {I J S1 S2 : Type}

/-- Facts about trees that hold of the empty tree and that adding a node with one of the texts `texts`, successfully or not, cannot
destroy. -/
structure KeptByAdding (texts : Str → Prop) (T : Tree Str → Prop) : Prop where
  new : T Tree.new
  add : ∀ t d p, texts d → T t → T (t.addNode d p).2

/-- The texts of the nodes of a tree that a parser for `pd` makes: the empty text for a rule, its own text for a terminal. -/
def NodeText (pd : ParserData I) (d : Str) : Prop :=
  d = [] ∨ ∃ e : Nat, pd.elementTypes[e]? = some .terminal ∧ (pd.elementData[e]?).map ElementData.name = some d

/-- The same for written rules. -/
def NodeTextOf (rs : List (WrittenRule I)) (d : Str) : Prop :=
  d = [] ∨ (⟨d, .terminal⟩ : ElementVerbose) ∈ elementsOf rs

/-- Trees that come from the empty one by adding nodes only. -/
inductive OnlyGrown : Tree Str → Prop where
  | new : OnlyGrown Tree.new
  | add {t : Tree Str} {d : Str} {p : Option NodeId} : OnlyGrown t → OnlyGrown (t.addNode d p).2

/-- Section `is1` of machine `vm1` and section `is2` of machine `vm2` have the same effect, states being compared by `R`, on trees
with the property `T`: from related states and the same tree and node, either both panic, or both come to an end, with the same
tree, which again has the property, and in related states. -/
def SameEffect (T : Tree Str → Prop) (R : S1 → S2 → Prop) (vm1 : VM I S1) (vm2 : VM J S2) (is1 : List I) (is2 : List J) : Prop :=
  ∀ (t : Tree Str) (id : NodeId) (s1 : S1) (s2 : S2), T t → R s1 s2 →
    ((∀ y, ¬ Executes vm1 id is1 (t, s1) y) ∧ (∀ y, ¬ Executes vm2 id is2 (t, s2) y)) ∨
    ∃ t' s1' s2', Executes vm1 id is1 (t, s1) (t', s1') ∧ Executes vm2 id is2 (t, s2) (t', s2') ∧ T t' ∧ R s1' s2'

/-- The same grammar up to the sections and the overrides: the same elements, and the same alternatives for every rule. -/
structure SameSyntax (pd : ParserData I) (pd' : ParserData J) : Prop where
  types : pd'.elementTypes = pd.elementTypes
  data : pd'.elementData = pd.elementData
  alternatives : ∀ A, (AMap.get pd'.rules A).map NTRule.prods = (AMap.get pd.rules A).map NTRule.prods

/-- A written rule with its section left out. -/
def WrittenRule.withoutSection (r : WrittenRule I) : WrittenRule Empty := ⟨r.name, r.ignore, r.alts, []⟩

end HPP.Spec
