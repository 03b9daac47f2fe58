import Verif.Spec.RuleText
/-
Rule texts with one rule of quoted words.
-/
namespace HPP.Spec

/-- A word in quotes. -/
def quoted (w : Str) : Str := '"' :: (w ++ ['"'])

/-- Words in quotes, separated by blanks. -/
def wordsText : List Str → Str
  | [] => []
  | [w] => quoted w
  | w :: ws => quoted w ++ ' ' :: wordsText ws

/-- Choices of words, separated by ` | `. -/
def choicesText : List (List Str) → Str
  | [] => []
  | [ws] => wordsText ws
  | ws :: more => wordsText ws ++ (c% " | " ++ choicesText more)

/-- The rule text `start -> "..." "..." | "..." ... ;`. -/
def keywordText (alts : List (List Str)) : Str := c% "start -> " ++ (choicesText alts ++ c% ";")

/-- A word that can stand between quotes as it is. -/
def PlainWord (w : Str) : Prop := ∀ c ∈ w, c ≠ '"' ∧ c ≠ '\\'

/-- The rule that `keywordText` writes. -/
def keywordRules (I : Type) (alts : List (List Str)) : List (WrittenRule I) :=
  [⟨c% "start", none, alts.map fun ws => ws.map fun w => ⟨w, .terminal⟩, []⟩]

end HPP.Spec
