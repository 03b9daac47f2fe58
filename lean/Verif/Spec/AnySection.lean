import Verif.Props.Text
/-
What a reader may do to a process at any nesting depth.
-/
namespace HPP.Spec

/-- `p'` is `p` after reading `u`: the unread text lost exactly `u`, all positions grew by its length. -/
def Took {n : Nat} (p : PP (Nest n)) (u : Str) (p' : PP (Nest n)) : Prop :=
  p.rest = u ++ p'.rest ∧ Nest.positions (n + 1) p' = (Nest.positions (n + 1) p).map (· + u.length)

/-- The stop characters of all nested processes. -/
def stopChars : (n : Nat) → Nest n → List Char
  | 0, _ => []
  | n + 1, p => (PP.stopOn p).toList ++ stopChars n (PP.src p)

/-- An error that tells the truth about the place the process stands at: the end of the section or text is reported with this
position, an unexpected character with this position and is the next unread one; `impossible` (a number out of range or
without digits) tells nothing. -/
def TellsOf {n : Nat} (p : PP (Nest n)) : PErr → Prop
  | .endOfChars k => k = p.curPos
  | .unexpectedChar c k _ => k = p.curPos ∧ p.rest.head? = some c
  | .impossible => True
  | _ => False

/-- A call of `peek` led to `p'` and showed the end or a character outside `f`. -/
def SawNo {n : Nat} (f : Char → Prop) (q p' : PP (Nest n)) : Prop :=
  q.peek.2 = p' ∧ ∀ c, q.peek.1 = some c → ¬ f c

end HPP.Spec
