import Mathlib.Logic.Relation
import Verif.Model.ParserData
/-
Textbook context-free grammars: sentential forms, one-step rewriting, derivations, FIRST, FOLLOW,
left recursion.  Nothing here mentions the algorithms of the code.
-/
namespace HPP.Spec

/-- A grammar symbol: a character of the script or a non-terminal (given by its element index). -/
inductive Sym where
  | ch (c : Char)
  | nt (A : Nat)
  deriving DecidableEq, Repr

/-- A sentential form. -/
abbrev Form := List Sym

/-- A grammar: `G A w` says that `A -> w` is one of its alternatives. -/
abbrev Grammar := Nat → Form → Prop

/-- Replace one occurrence of a non-terminal by one of its alternatives. -/
inductive Step (G : Grammar) : Form → Form → Prop where
  | mk (u v : Form) {A : Nat} {w : Form} (h : G A w) : Step G (u ++ .nt A :: v) (u ++ w ++ v)

/-- `u ⇒* w`. -/
abbrev Derives (G : Grammar) : Form → Form → Prop := Relation.ReflTransGen (Step G)

/-- `u ⇒+ w`. -/
abbrev DerivesPlus (G : Grammar) : Form → Form → Prop := Relation.TransGen (Step G)

/-- A text as a form. -/
def ofText (s : Str) : Form := s.map Sym.ch

/-- `u` derives the empty text. -/
def Nullable (G : Grammar) (u : Form) : Prop := Derives G u []

/-- `c` is a textbook FIRST character of `u`: `u` derives a form starting with `c`. -/
def FirstChar (G : Grammar) (u : Form) (c : Char) : Prop := ∃ v, Derives G u (.ch c :: v)

/-- `A` is left recursive: it derives, in at least one step, a form starting with itself. -/
def LeftRecursive (G : Grammar) (A : Nat) : Prop := ∃ v, DerivesPlus G [.nt A] (.nt A :: v)

/-- `c` is a textbook FOLLOW character of `A`: some non-terminal that has an alternative derives a form in
which `A` is immediately followed by `c`. -/
def FollowChar (G : Grammar) (A : Nat) (c : Char) : Prop :=
  ∃ B u v, (∃ w, G B w) ∧ Derives G [.nt B] (u ++ .nt A :: .ch c :: v)

/-- The end of the script may follow `A`: the start symbol derives a form ending in `A`. -/
def FollowEnd (G : Grammar) (start A : Nat) : Prop := ∃ u, Derives G [.nt start] (u ++ [.nt A])

/-- The language of a non-terminal. -/
def Language (G : Grammar) (A : Nat) (s : Str) : Prop := Derives G [.nt A] (ofText s)

/-! ### The grammar described by `ParserData` -/

variable {I : Type}

/-- The form denoted by one grammar element: a terminal is its text, a non-terminal is itself. -/
def elemForm (pd : ParserData I) (e : Nat) : Form :=
  match pd.elementTypes[e]?, pd.elementData[e]? with
  | some .terminal, some d => ofText d.name
  | _, _ => [.nt e]

/-- The form denoted by a list of grammar elements. -/
def formOf (pd : ParserData I) (els : List Nat) : Form := els.flatMap (elemForm pd)

/-- The elements of a production. -/
def prodElems : Production → List Nat
  | .notEmpty els => els
  | .empty => []

/-- The grammar described by the rules. -/
def grammarOf (pd : ParserData I) : Grammar := fun A w =>
  ∃ r, AMap.get pd.rules A = some r ∧ ∃ p ∈ r.prods, w = formOf pd (prodElems p)

end HPP.Spec
