import Verif.Spec.Calc
import Verif.Spec.Expected
import Verif.Spec.Failing
/-
What can come next in a calculator script: words separated by single blanks.  Nothing here mentions grammars or machines.
-/
namespace HPP.Spec

/-- A script of at least one word. -/
def IsWords (text : Str) : Prop := ∃ toks, toks ≠ [] ∧ (∀ t ∈ toks, t.Ok) ∧ text = scriptText toks

/-- After `q` a new word begins. -/
def WordBegins (q : Str) : Prop := q = [] ∨ ∃ s, IsWords s ∧ q = s ++ [' ']

/-- A word, or its beginning. -/
def WordPart (w : Str) : Prop := ∃ (t : Token) (z : Str), t.Ok ∧ t.text = w ++ z

/-- The ten figures. -/
def figures : List SetMember :=
  [.char '0', .char '1', .char '2', .char '3', .char '4', .char '5', .char '6', .char '7', .char '8', .char '9']

/-- What can come next, if `w` is what has been written of the current word. -/
def nextIn (w : Str) : List SetMember :=
  if w = [] then figures ++ [.char '+', .char '-', .char 'p']
  else if w = c% "p" then [.char 'r']
  else if w = c% "pr" then [.char 'i']
  else if w = c% "pri" then [.char 'n']
  else if w = c% "prin" then [.char 't']
  else if w = c% "+" ∨ w = c% "-" ∨ w = c% "print" then [.char ' ', .terminate]
  else figures ++ [.char ' ', .terminate]

/-- The error for a text that is no script: `q` are the words before, with the blank, `w` is what is written of the current word,
`r` is the rest, which does not go on as it could.  At the end of the text within a word (`print`) the end is reported; in all
other cases the character that comes next (`#` at the end of the text) with all that can come next. -/
def CalcMessage (text : Str) (e : PErr) : Prop :=
  ∃ q w r, text = q ++ w ++ r ∧ WordBegins q ∧ WordPart w ∧ SetMember.ofPeek r.head? ∉ nextIn w ∧
    ((r = [] ∧ w ≠ [] ∧ e = .endOfChars text.length) ∨
     (¬ (r = [] ∧ w ≠ []) ∧ ∃ L, List.Perm L (nextIn w) ∧
       e = .unexpectedChar (r.head?.getD '#') (q ++ w).length (expectedText L)))

end HPP.Spec
