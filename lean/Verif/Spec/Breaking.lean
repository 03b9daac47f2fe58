import Verif.Spec.Executing
import Verif.Spec.Same
/-
Where running a script by a rule text can break off, and what has been done by then.  Everything is told by the names, the
alternatives and the instructions of the rule text.
-/
namespace HPP.Spec
variable {I S : Type}

/-- Why a run breaks off: a terminal goes on with the character `c`; the name `A` comes next; an instruction of the finished
name `A` panics. -/
inductive Why where
  | char (c : Char)
  | name (A : Str)
  | instructions (A : Str)

/-- `Breaks vm rs es n s x w s'`: the elements `es` are read up to and including the text `x`, the first node having the number
`n`, and the run breaks off there because of `w`.  Names before that place have been performed completely; the names around it
are unfinished, so that none of their instructions has been executed.  By that the machine gets from the state `s` to `s'`. -/
inductive Breaks (vm : VM I S) (rs : List (WrittenRule I)) : List ElementVerbose → Nat → S → Str → Why → S → Prop where
  | terminal {u v : Str} {c : Char} {es : List ElementVerbose} {n : Nat} {s : S} :
      Breaks vm rs (⟨u ++ c :: v, .terminal⟩ :: es) n s u (.char c) s
  | name {A : Str} {es : List ElementVerbose} {n : Nat} {s : S} :
      Breaks vm rs (⟨A, .nonTerminal⟩ :: es) n s [] (.name A) s
  | instructions {A x : Str} {a es : List ElementVerbose} {vs : List Rose} {n m : Nat} {s s1 : S} {τ : Tree Str} :
      FinalAlt rs A a → Performs vm rs a (n + 1) s x vs m s1 → Shows τ ⟨n, n⟩ (.node [] vs) →
      ExecPanics vm ⟨n, n⟩ (instructionsOf rs A) (τ, s1) →
      Breaks vm rs (⟨A, .nonTerminal⟩ :: es) n s x (.instructions A) s1
  | inside {A x : Str} {a es : List ElementVerbose} {w : Why} {n : Nat} {s s' : S} :
      FinalAlt rs A a → Breaks vm rs a (n + 1) s x w s' → Breaks vm rs (⟨A, .nonTerminal⟩ :: es) n s x w s'
  | after {e : ElementVerbose} {es : List ElementVerbose} {x y : Str} {us : List Rose} {w : Why} {n m : Nat} {s s1 s' : S} :
      Performs vm rs [e] n s x us m s1 → Breaks vm rs es m s1 y w s' → Breaks vm rs (e :: es) n s (x ++ y) w s'

/-- What `parse` reports if a run breaks off because of `w` after reading `read`, when `rest` is left.  Inside a terminal: the end
of the text, or the character that is not the expected one.  Before a name: a list of lookaheads, which has every character with
which a text of the name can begin; the next character is not in the list.  A panic of an instruction is not reported. -/
def Why.Reports (rs : List (WrittenRule I)) (read rest : Str) : Why → PErr → Prop
  | .char c, e => (rest = [] ∧ e = .endOfChars read.length) ∨
      ∃ d r, rest = d :: r ∧ d ≠ c ∧ e = .unexpectedChar d read.length [c]
  | .name A, e => ∃ L : List SetMember, e = .unexpectedChar (rest.head?.getD '#') read.length (expectedText L) ∧ L.Nodup ∧
      SetMember.ofPeek rest.head? ∉ L ∧ ∀ c x, Spells rs [⟨A, .nonTerminal⟩] (c :: x) → .char c ∈ L
  | .instructions _, _ => False

end HPP.Spec
