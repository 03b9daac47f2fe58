import Verif.Spec.SameMeaning
/-
The names that occur when a text is derived by the rules of a rule text.
-/
namespace HPP.Spec
variable {I : Type}

/-- The sequence of elements can stand for the text, and these are the names used in doing so, one entry for each
occurrence. -/
inductive Occurring (rs : List (WrittenRule I)) : List ElementVerbose → List Str → Str → Prop where
  | nil : Occurring rs [] [] []
  | terminal {b : Str} {es : List ElementVerbose} {ns : List Str} {s : Str} :
      Occurring rs es ns s → Occurring rs (⟨b, .terminal⟩ :: es) ns (b ++ s)
  | name {n : Str} {a es : List ElementVerbose} {ns ns' : List Str} {s s' : Str} :
      FinalAlt rs n a → Occurring rs a ns s → Occurring rs es ns' s' →
      Occurring rs (⟨n, .nonTerminal⟩ :: es) (n :: (ns ++ ns')) (s ++ s')

/-- The number of entries whose name has an instruction section in its first definition. -/
def sectionsAmong (rs : List (WrittenRule Nat)) (ns : List Str) : Nat :=
  ns.countP fun n => decide (instrFor rs n ≠ [])

end HPP.Spec
