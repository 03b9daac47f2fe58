import Verif.Spec.Productive
/-
What can come next, after a beginning of a text; grammars in which what may follow a name that can be empty does not depend on
where the name stands.
-/
namespace HPP.Spec
variable {I : Type}

/-- A character can come next after `s` if some text of `L` begins with `s` and this character; the end can come next if `s`
is a text of `L`. -/
def CanComeNext (L : Str → Prop) (s : Str) : SetMember → Prop
  | .char x => Completable L (s ++ [x])
  | .terminate => L s

/-- The form derives a form that begins with the character; for the end: it derives the empty text. -/
def Begins (G : Grammar) (v : Form) : SetMember → Prop
  | .char x => FirstChar G v x
  | .terminate => Nullable G v

/-- Replace the leftmost non-terminal by one of its alternatives. -/
inductive LStep (G : Grammar) : Form → Form → Prop where
  | mk (u : Str) (v : Form) {A : Nat} {w : Form} (h : G A w) : LStep G (ofText u ++ .nt A :: v) (ofText u ++ (w ++ v))

/-- Leftmost derivation. -/
abbrev LDerives (G : Grammar) : Form → Form → Prop := Relation.ReflTransGen (LStep G)

/-- Wherever a non-terminal that can be empty comes first in a leftmost derivation from the start symbol, all of its FOLLOW set
can begin what stands behind it there, not only the part that can come next elsewhere. -/
def FollowFits (pd : ParserData I) (start : Nat) : Prop :=
  ∀ (u : Str) (A : Nat) (v : Form) (m : SetMember), LDerives (grammarOf pd) [.nt start] (ofText u ++ .nt A :: v) →
    Nullable (grammarOf pd) [.nt A] → FollowMember (grammarOf pd) start A m → Begins (grammarOf pd) v m

/-- There is no empty alternative, and no alternative contains the empty terminal. -/
def EmptyFree (pd : ParserData I) : Prop :=
  ∀ A r, AMap.get pd.rules A = some r → ∀ p ∈ r.prods, p ≠ .empty ∧
    ∀ e ∈ prodElems p, pd.elementTypes[e]? = some .terminal → ∀ d, pd.elementData[e]? = some d → d.name ≠ []

end HPP.Spec
