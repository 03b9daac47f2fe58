import Verif.Spec.Ignoring
import Verif.Spec.Parse
/-
The tree of a script by the rules as they are written, and how it is found in the tree with the ignored text.
-/
namespace HPP.Spec
variable {I : Type}

/-- The trees that a sequence of elements can stand for by the rules as they are written, overrides aside, and the tokens at
their leaves: a terminal is a leaf with its text, a name is an inner node over the trees of one of its alternatives. -/
inductive WrittenTrees (rs : List (WrittenRule I)) : List ElementVerbose → List Rose → List Str → Prop where
  | nil : WrittenTrees rs [] [] []
  | terminal {b : Str} {es : List ElementVerbose} {us : List Rose} {ts : List Str} :
      WrittenTrees rs es us ts → WrittenTrees rs (⟨b, .terminal⟩ :: es) (.node b [] :: us) (b :: ts)
  | name {n : Str} {a es : List ElementVerbose} {vs us : List Rose} {ts ts' : List Str} :
      a ∈ altsOf rs n → WrittenTrees rs a vs ts → WrittenTrees rs es us ts' →
      WrittenTrees rs (⟨n, .nonTerminal⟩ :: es) (.node [] vs :: us) (ts ++ ts')

/-- The first, third, fifth, .. member of a list. -/
def everyOther {α : Type} : List α → List α
  | [] => []
  | [x] => [x]
  | x :: _ :: xs => x :: everyOther xs

/-- The name `n` has an override that counts: something that does not use `n`. -/
def Overridden (rs : List (WrittenRule I)) (n : Str) : Prop := ∃ j, overrideOf rs n = some j ∧ ¬ NameUsesStar rs j n

/-- Leaving out the ignored text: the trees `ts` of the elements become `us`, where below each node of an overridden name
every second child is left out, and below all other nodes all children are kept. -/
inductive Cleaned (rs : List (WrittenRule I)) : List ElementVerbose → List Rose → List Rose → Prop where
  | nil : Cleaned rs [] [] []
  | terminal {b : Str} {es : List ElementVerbose} {ts us : List Rose} :
      Cleaned rs es ts us → Cleaned rs (⟨b, .terminal⟩ :: es) (.node b [] :: ts) (.node b [] :: us)
  | plain {n : Str} {a es : List ElementVerbose} {ks vs ts us : List Rose} :
      ¬ Overridden rs n → a ∈ altsOf rs n → Cleaned rs a ks vs → Cleaned rs es ts us →
      Cleaned rs (⟨n, .nonTerminal⟩ :: es) (.node [] ks :: ts) (.node [] vs :: us)
  | woven {n : Str} {a es : List ElementVerbose} {ks vs ts us : List Rose} :
      Overridden rs n → a ∈ altsOf rs n → ks.length = 2 * a.length - 1 → Cleaned rs a (everyOther ks) vs →
      Cleaned rs es ts us → Cleaned rs (⟨n, .nonTerminal⟩ :: es) (.node [] ks :: ts) (.node [] vs :: us)

end HPP.Spec
