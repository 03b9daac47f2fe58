import Verif.Spec.Parse
/-
Which beginnings of a text can still be completed, and the position an error names.  Nothing here mentions the parsing
algorithm.
-/
namespace HPP.Spec
variable {I : Type}

/-- Every non-terminal that has a rule derives some text. -/
def Productive (pd : ParserData I) : Prop :=
  ∀ A r, AMap.get pd.rules A = some r → ∃ s, Language (grammarOf pd) A s

/-- The text begins some text of the language `L`. -/
def Completable (L : Str → Prop) (s : Str) : Prop := ∃ y, L (s ++ y)

/-- The first `pos` characters of the text can be completed to a text of `L`; the first `n` cannot, if `n` is larger. -/
def LongestCompletable (L : Str → Prop) (text : Str) (pos : Nat) : Prop :=
  pos ≤ text.length ∧ Completable L (text.take pos) ∧
  ∀ n, pos < n → n ≤ text.length → ¬ Completable L (text.take n)

/-- The position that is named by a syntax error. -/
def ErrorAt (e : PErr) (pos : Nat) : Prop := (∃ x expected, e = .unexpectedChar x pos expected) ∨ e = .endOfChars pos

end HPP.Spec
