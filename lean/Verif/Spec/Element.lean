import Verif.Spec.RuleText
/-
What reading one element of an alternative gives.
-/
namespace HPP.Spec

/-- Reading an element where the text `w` is ahead and `k` characters were read gives this outcome, leaves that text ahead
and has read so many characters. -/
inductive ElemOutcome (cc : CharClass) : (w : Str) → (k : Nat) → Res PErr (Option ElementVerbose) → Str → Nat → Prop where
  /-- `#` is the sign of the empty alternative. -/
  | hash (w : Str) (k : Nat) : ElemOutcome cc ('#' :: w) k (.ok none) w (k + 1)
  /-- A quoted terminal, read with its quotes. -/
  | quoted {w b r : Str} (k : Nat) : quotedFrom false w = some (b, r) →
      ElemOutcome cc ('"' :: w) k (.ok (some ⟨b, .terminal⟩)) r (k + 1 + b.length + 1)
  /-- There is no closing quote: everything is read. -/
  | unclosed {w : Str} (k : Nat) : quotedFrom false w = none →
      ElemOutcome cc ('"' :: w) k (.err (.endOfChars (k + 1 + w.length))) [] (k + 1 + w.length)
  /-- A name, taken as long as possible. -/
  | name {n w : Str} (k : Nat) : IsName cc n → (∀ c r, w = c :: r → cc.isAlphanumeric c = false ∧ c ≠ '_') →
      ElemOutcome cc (n ++ w) k (.ok (some ⟨n, .nonTerminal⟩)) w (k + n.length)
  /-- Any other character is an error; nothing is read. -/
  | other {c : Char} {w : Str} (k : Nat) : c ≠ '#' → c ≠ '"' → cc.isAlphabetic c = false →
      ElemOutcome cc (c :: w) k
        (.err (.unexpectedChar c k (c% "char # for empty, \" for terminal ort alphabetic for element"))) (c :: w) k
  /-- So is the end of the text. -/
  | ended (k : Nat) : ElemOutcome cc [] k (.err (.endOfChars k)) [] k

/-- How reading elements one after the other ends, where the text `v` is ahead and the text `w` is left: at a character
that starts no element, or at the end of the text, nothing more is read; an unfinished terminal is read to the end of the
text, and lost. -/
inductive NoMore (cc : CharClass) : (v w : Str) → Prop where
  | other {w : Str} : (∀ c r, w = c :: r → CharClass.isWhitespace c = false ∧ c ≠ '#' ∧ c ≠ '"' ∧ cc.isAlphabetic c = false) →
      NoMore cc w w
  | unfinished {b : Str} : quotedFrom false b = none → NoMore cc ('"' :: b) []

/-- Reading one alternative off the text `v` gives the elements `a` and leaves the text `w`. -/
inductive AltReads (cc : CharClass) : (v : Str) → (a : List ElementVerbose) → (w : Str) → Prop where
  /-- `#` is the empty alternative. -/
  | empty {g : Str} (w : Str) : IsSpace g → AltReads cc (g ++ '#' :: w) [] w
  /-- At least one element; a name at the end is taken as long as possible. -/
  | elements {g0 t g v w : Str} {es : List ElementVerbose} : IsSpace g0 → SeqText cc es t → IsSpace g →
      (∀ e, es.getLast? = some e → e.et = .nonTerminal → ∀ c r, g ++ v = c :: r → cc.isAlphanumeric c = false ∧ c ≠ '_') →
      NoMore cc v w → AltReads cc (g0 ++ (t ++ (g ++ v))) es w

/-- Reading alternatives separated by `|` off the text `v` gives `as` and leaves the text `w`. -/
inductive AltsReads (cc : CharClass) : (v : Str) → (as : List (List ElementVerbose)) → (w : Str) → Prop where
  /-- No `|` follows. -/
  | last {v g w : Str} {a : List ElementVerbose} : AltReads cc v a (g ++ w) → IsSpace g →
      (∀ c r, w = c :: r → CharClass.isWhitespace c = false ∧ c ≠ '|') → AltsReads cc v [a] w
  | more {v g v' w : Str} {a : List ElementVerbose} {as : List (List ElementVerbose)} :
      AltReads cc v a (g ++ '|' :: v') → IsSpace g → AltsReads cc v' as w → AltsReads cc v (a :: as) w

end HPP.Spec
