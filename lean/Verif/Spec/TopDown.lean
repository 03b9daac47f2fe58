import Verif.Spec.Parse
/-
Predictive top-down reading: what it means that a text can be read from the front by always expanding the
leftmost non-terminal with an alternative whose control set contains the next character (or the end of the
text).  Nothing here mentions the parsing algorithm.
-/
namespace HPP.Spec
variable {I : Type}

/-- The elements `els` can be read from the front of the text `w`, one after the other, leaving `r`; the
trees read are `f`.  A terminal is read if the text begins with it.  A non-terminal is read by reading one of
its alternatives whose control set contains the lookahead. -/
inductive TopDown (pd : ParserData I) (start : Nat) : List Nat → Str → Forest → Str → Prop where
  | nil {w : Str} : TopDown pd start [] w .nil w
  | leaf {e : Nat} {es : List Nat} {d : ElementData} {w r : Str} {f : Forest} :
      pd.elementTypes[e]? = some .terminal → pd.elementData[e]? = some d → TopDown pd start es w f r →
      TopDown pd start (e :: es) (d.name ++ w) (.leaf e f) r
  | node {A : Nat} {es : List Nat} {rule : NTRule I} {p : Production} {w w1 r : Str} {kids f : Forest} :
      pd.elementTypes[A]? = some .nonTerminal → AMap.get pd.rules A = some rule → p ∈ rule.prods →
      Control pd start A p (SetMember.ofPeek w.head?) →
      TopDown pd start (prodElems p) w kids w1 → TopDown pd start es w1 f r →
      TopDown pd start (A :: es) w (.node A p kids f) r

/-- The largest number of non-terminals on a path from the root to a leaf. -/
def Forest.height : Forest → Nat
  | .nil => 0
  | .leaf _ r => r.height
  | .node _ _ k r => max (k.height + 1) r.height

end HPP.Spec
