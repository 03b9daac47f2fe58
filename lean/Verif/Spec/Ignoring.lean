import Verif.Spec.Woven
/-
What a user expects of ignored text: the script is a sequence of tokens of the rules as they are written, with ignored text
in between.
-/
namespace HPP.Spec
variable {I : Type}

/-- The token sequences that a sequence of elements can stand for by the rules as they are written, overrides aside: a
terminal is a token, a name stands for what one of its alternatives stands for. -/
inductive Tokens (rs : List (WrittenRule I)) : List ElementVerbose → List Str → Prop where
  | nil : Tokens rs [] []
  | terminal {b : Str} {es : List ElementVerbose} {ts : List Str} : Tokens rs es ts → Tokens rs (⟨b, .terminal⟩ :: es) (b :: ts)
  | name {n : Str} {a es : List ElementVerbose} {ts ts' : List Str} :
      a ∈ altsOf rs n → Tokens rs a ts → Tokens rs es ts' → Tokens rs (⟨n, .nonTerminal⟩ :: es) (ts ++ ts')

/-- The tokens in a row, with pieces of ignored text anywhere before, between and after them. -/
inductive Sprinkled (J : Str → Prop) : List Str → Str → Prop where
  | nil : Sprinkled J [] []
  | token {t : Str} {ts : List Str} {s : Str} : Sprinkled J ts s → Sprinkled J (t :: ts) (t ++ s)
  | ignored {x : Str} {ts : List Str} {s : Str} : J x → Sprinkled J ts s → Sprinkled J ts (x ++ s)

/-- The tokens in a row, with one piece of ignored text between every two neighbours. -/
inductive Separated (J : Str → Prop) : List Str → Str → Prop where
  | nil : Separated J [] []
  | one (t : Str) : Separated J [t] t
  | cons {t x : Str} {ts : List Str} {s : Str} : J x → ts ≠ [] → Separated J ts s → Separated J (t :: ts) (t ++ x ++ s)

/-- Text that is ignored: a name given in an override stands for it. -/
def IgnoredText (rs : List (WrittenRule I)) (x : Str) : Prop :=
  ∃ n j, overrideOf rs n = some j ∧ Spells rs [⟨j, .nonTerminal⟩] x

/-- The definitions of all names in `U`, a set that contains every name its members use, are overridden with `j`, and `j`
itself does not use them. -/
structure AllIgnore (rs : List (WrittenRule I)) (j : Str) (U : Str → Prop) : Prop where
  closed : ∀ n m, U n → NameUses rs n m → U m
  override : ∀ n, U n → overrideOf rs n = some j
  outside : ∀ n, U n → ¬ NameUsesStar rs j n

end HPP.Spec
