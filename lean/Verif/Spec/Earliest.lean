import Verif.Spec.Reading
import Verif.Spec.StackText
/-
Errors that are reported as early as possible.
-/
namespace HPP.Spec
variable {I S : Type}

/-- The text follows the syntax of rule texts, its sections being accepted by the VM. -/
def FollowsSyntax (cc : CharClass) (vm : VM I S) (text : Str) : Prop :=
  ∃ rs, RulesText cc (ReadsSection vm) rs text

/-- The text can be continued to one that follows the syntax. -/
def Viable (cc : CharClass) (vm : VM I S) (text : Str) : Prop := ∃ more, FollowsSyntax cc vm (text ++ more)

/-- The error is reported between `u`, which was read from position `k` on, and `v`: it names the first character of `v`, or
says that the text ends there, or that an element is missing there, or that the `#` there is misplaced (the position given is
the one behind the `#`). -/
inductive ReportedAt (k : Nat) (u : Str) : Str → PErr → Prop where
  | char (c : Char) (r expected : Str) : ReportedAt k u (c :: r) (.unexpectedChar c (k + u.length) expected)
  | ended : ReportedAt k u [] (.endOfChars (k + u.length))
  | missing (v : Str) : ReportedAt k u v (.gram (.unexpectedElement false (k + u.length)))
  | misplaced (r : Str) : ReportedAt k u ('#' :: r) (.gram (.unexpectedElement true (k + u.length + 1)))

/-- What the VM makes of a section depends only on the text up to the first character it leaves, and it does not lead into a
dead end: what it has read when it returns instructions can be continued to a section it accepts. -/
structure ReadsInTurn (vm : VM I S) : Prop where
  returns : ∀ name w k, (∃ is, (vm.parseInstructions name (sectionProcess w k)).1 = .ok is) ∨
    (∃ e, (vm.parseInstructions name (sectionProcess w k)).1 = .err e)
  turn : ∀ name w k is, (∀ c r, w = c :: r → CharClass.isWhitespace c = false) →
    (vm.parseInstructions name (sectionProcess w k)).1 = .ok is →
    ∃ u v, w = u ++ v ∧
      (∀ v' : Str, v'.head? = v.head? → ∃ p, vm.parseInstructions name (sectionProcess (u ++ v') k) = (.ok is, p) ∧
        p.src = ⟨⟨v'⟩, k + u.length, none, none, false⟩) ∧
      (∀ r, v = '}' :: r → ReadsSection vm name u is) ∧
      ∃ x is', (∀ c r, u ++ x = c :: r → CharClass.isWhitespace c = false) ∧ ReadsSection vm name (u ++ x) is'

/-- What the VM reports for a section it rejects depends only on the text up to the place of the error, and what it has read
until then can be continued to a section it accepts; the place is that of a character it cannot go on with, the end of the text
or the closing brace.  Errors with `H` are exempt. -/
def FailsInTurn (vm : VM I S) (H : PErr → Prop) : Prop :=
  ∀ name w k e, (∀ c r, w = c :: r → CharClass.isWhitespace c = false) →
    (vm.parseInstructions name (sectionProcess w k)).1 = .err e → H e ∨
    ∃ u v, w = u ++ v ∧ (ReportedAt k u v e ∨ ∃ r, v = '}' :: r ∧ e = .endOfChars (k + u.length)) ∧
      (∀ v' : Str, v'.head? = v.head? → (vm.parseInstructions name (sectionProcess (u ++ v') k)).1 = .err e) ∧
      ∃ x is', (∀ c r, u ++ x = c :: r → CharClass.isWhitespace c = false) ∧ ReadsSection vm name (u ++ x) is'

/-- The error is reported between `u` and `v`, as before, or it says that a section is closed too early by the brace there. -/
def ReportedIn (u v : Str) (e : PErr) : Prop :=
  ReportedAt 0 u v e ∨ ∃ r, v = '}' :: r ∧ e = .endOfChars u.length

/-- Somewhere in the text there is an instruction of StackVm with a constant that does not fit into a machine word. -/
def BigConst (text : Str) : Prop :=
  ∃ (a n : Str) (mk : Nat → Instr) (g ds b : Str), text = a ++ (n ++ (g ++ (ds ++ b))) ∧ (n, mk) ∈ constTable ∧ IsSpace g ∧ g ≠ [] ∧
    ds ≠ [] ∧ (∀ c ∈ ds, IsDigit c) ∧ 2 ^ 64 ≤ decimalValue ds

end HPP.Spec
