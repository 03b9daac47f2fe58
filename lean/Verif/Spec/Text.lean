/-
Texts: prefixes, decimal numerals.
-/
namespace HPP.Spec

/-- The value of a decimal digit. -/
def digitValue (c : Char) : Nat := c.toNat - '0'.toNat

/-- `'0' .. '9'`. -/
def IsDigit (c : Char) : Prop := '0' ≤ c ∧ c ≤ '9'

instance (c : Char) : Decidable (IsDigit c) := inferInstanceAs (Decidable (_ ∧ _))

/-- The number a digit string denotes: every digit counts with the power of ten given by the number of digits
after it. -/
def decimalValue : List Char → Nat
  | [] => 0
  | c :: cs => digitValue c * 10 ^ cs.length + decimalValue cs

/-- The digit of a number below ten. -/
def digitChar (n : Nat) : Char := Char.ofNat ('0'.toNat + n)

/-- The decimal numeral of a number, without leading zeros. -/
def numeral (n : Nat) : List Char := if n < 10 then [digitChar n] else numeral (n / 10) ++ [digitChar (n % 10)]
termination_by n
decreasing_by omega

/-- The decimal numeral of an integer, negative ones with a leading minus sign. -/
def intNumeral : Int → List Char
  | .ofNat n => numeral n
  | .negSucc n => '-' :: numeral (n + 1)

/-- `w` is split into its longest prefix of `P`-characters and the rest. -/
structure MaximalPrefix (P : Char → Prop) (w pre post : List Char) : Prop where
  split : w = pre ++ post
  all : ∀ c ∈ pre, P c
  stop : ∀ c r, post = c :: r → ¬ P c

/-- `c` at the given place of a section ends it: the stop character not directly after an escape character.
`sectionOf stop esc w` is the part of `w` before the first such place; the flag says whether the character before
`w` was an escape character. -/
def sectionFrom (stop esc : Char) : Bool → List Char → List Char
  | _, [] => []
  | afterEsc, c :: w =>
    if c = stop ∧ afterEsc = false then [] else c :: sectionFrom stop esc (decide (c = esc)) w

/-- The text of a section that starts with `w`. -/
def sectionOf (stop esc : Char) (w : List Char) : List Char := sectionFrom stop esc false w

/-- Reading a quoted text after the opening quote: the text up to the first quote not preceded by an active backslash
(a backslash is active unless it is itself preceded by an active one), and what follows that quote.  The flag says
whether an active backslash comes directly before. -/
def quotedFrom : Bool → List Char → Option (List Char × List Char)
  | _, [] => none
  | active, c :: w =>
    if c = '"' ∧ active = false then some ([], w)
    else (quotedFrom (decide (c = '\\' ∧ active = false)) w).map fun x => (c :: x.1, x.2)

end HPP.Spec
