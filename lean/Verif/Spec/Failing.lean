import Verif.Spec.Same
import Verif.Spec.Walk
/-
How a parse can stop without success, whatever the virtual machine is, and what has happened by then.  Nothing here
mentions the parsing algorithm.
-/
namespace HPP.Spec
variable {I S : Type}

/-- Why a parse stopped: in a terminal, at the character `c` instead of `expected`; in a terminal, at the end of the text;
before the non-terminal `A`, none of whose alternatives has the lookahead in its control set; at a node that could not be
added to the tree because of `e`; or by a panic.  `rest` is the text not read, `s` the state of the virtual machine. -/
inductive Stop (S : Type) where
  | wrongChar (c expected : Char) (rest : Str) (s : S)
  | ended (s : S)
  | noAlternative (A : Nat) (rest : Str) (s : S)
  | noParent (e : TErr) (rest : Str) (s : S)
  | panicked

/-- Reading the elements `els` from the front of the text, below the node `par`, beginning with the given tree and state,
and never with more than the given number of non-terminals inside each other, stops with the given stop. -/
inductive Stops (vm : VM I S) (pd : ParserData I) (start : Nat) :
    Nat → Option NodeId → List Nat → Str → Tree Str × S → Stop S → Prop where
  /-- The text and the terminal begin alike, then another character follows. -/
  | wrongChar {k : Nat} {par : Option NodeId} {e : Nat} {es : List Nat} {d : ElementData} {u v r : Str} {c c' : Char}
      {t : Tree Str} {s : S} :
      pd.elementTypes[e]? = some .terminal → pd.elementData[e]? = some d → d.name = u ++ c' :: v → c ≠ c' →
      Stops vm pd start k par (e :: es) (u ++ c :: r) (t, s) (.wrongChar c c' (c :: r) s)
  /-- The text is a proper beginning of the terminal. -/
  | ended {k : Nat} {par : Option NodeId} {e : Nat} {es : List Nat} {d : ElementData} {w v : Str} {c' : Char}
      {t : Tree Str} {s : S} :
      pd.elementTypes[e]? = some .terminal → pd.elementData[e]? = some d → d.name = w ++ c' :: v →
      Stops vm pd start k par (e :: es) w (t, s) (.ended s)
  /-- No alternative has the lookahead in its control set. -/
  | noAlternative {k : Nat} {par : Option NodeId} {A : Nat} {es : List Nat} {rule : NTRule I} {w : Str}
      {t : Tree Str} {s : S} :
      pd.elementTypes[A]? = some .nonTerminal → AMap.get pd.rules A = some rule →
      (∀ p ∈ rule.prods, ¬ Control pd start A p (SetMember.ofPeek w.head?)) →
      Stops vm pd start (k + 1) par (A :: es) w (t, s) (.noAlternative A w s)
  /-- There is such an alternative, but its node cannot be added. -/
  | noParent {k : Nat} {par : Option NodeId} {A : Nat} {es : List Nat} {rule : NTRule I} {p : Production} {w : Str}
      {t t1 : Tree Str} {s : S} {e : TErr} :
      pd.elementTypes[A]? = some .nonTerminal → AMap.get pd.rules A = some rule → p ∈ rule.prods →
      Control pd start A p (SetMember.ofPeek w.head?) → t.addNode [] par = (.err e, t1) →
      Stops vm pd start (k + 1) par (A :: es) w (t, s) (.noParent e w s)
  /-- There is such an alternative, its node is added, and reading the alternative stops. -/
  | inside {k : Nat} {par : Option NodeId} {A : Nat} {es : List Nat} {rule : NTRule I} {p : Production} {w : Str}
      {t t1 : Tree Str} {s : S} {id : NodeId} {st : Stop S} :
      pd.elementTypes[A]? = some .nonTerminal → AMap.get pd.rules A = some rule → p ∈ rule.prods →
      Control pd start A p (SetMember.ofPeek w.head?) → t.addNode [] par = (.ok id, t1) →
      Stops vm pd start k (some id) (prodElems p) w (t1, s) st →
      Stops vm pd start (k + 1) par (A :: es) w (t, s) st
  /-- The first element is read, its tree is walked, and reading the others stops. -/
  | after {k : Nat} {par : Option NodeId} {e : Nat} {es : List Nat} {w w1 : Str} {f : Forest} {x y : Tree Str × S}
      {st : Stop S} :
      TopDown pd start [e] w f w1 → f.height ≤ k → Walk vm pd par f x y →
      Stops vm pd start k par es w1 y st → Stops vm pd start k par (e :: es) w x st
  /-- The text of a terminal is read, but adding its node panics. -/
  | leafPanics {k : Nat} {par : Option NodeId} {e : Nat} {es : List Nat} {d : ElementData} {w : Str}
      {t t1 : Tree Str} {s : S} :
      pd.elementTypes[e]? = some .terminal → pd.elementData[e]? = some d → t.addNode d.name par = (.panic, t1) →
      Stops vm pd start k par (e :: es) (d.name ++ w) (t, s) .panicked
  /-- There is an alternative for the lookahead, but adding its node panics. -/
  | nodePanics {k : Nat} {par : Option NodeId} {A : Nat} {es : List Nat} {rule : NTRule I} {p : Production} {w : Str}
      {t t1 : Tree Str} {s : S} :
      pd.elementTypes[A]? = some .nonTerminal → AMap.get pd.rules A = some rule → p ∈ rule.prods →
      Control pd start A p (SetMember.ofPeek w.head?) → t.addNode [] par = (.panic, t1) →
      Stops vm pd start (k + 1) par (A :: es) w (t, s) .panicked
  /-- A non-terminal is read, but executing the instructions of its rule panics. -/
  | machinePanics {k : Nat} {par : Option NodeId} {A : Nat} {es : List Nat} {rule : NTRule I} {p : Production} {w w1 : Str}
      {kids : Forest} {t t1 : Tree Str} {s : S} {id : NodeId} {x : Tree Str × S} :
      pd.elementTypes[A]? = some .nonTerminal → AMap.get pd.rules A = some rule → p ∈ rule.prods →
      Control pd start A p (SetMember.ofPeek w.head?) → t.addNode [] par = (.ok id, t1) →
      TopDown pd start (prodElems p) w kids w1 → kids.height ≤ k → Walk vm pd (some id) kids (t1, s) x →
      (∀ y, ¬ Executes vm id (instrOf pd A) x y) → Stops vm pd start (k + 1) par (A :: es) w (t, s) .panicked

/-- The error that is returned for a stop in a text of length `n`, the text not read and the state of the virtual machine
at that time.  Positions count the characters read.  The list of expected lookaheads may have any order. -/
def Stop.Shows (pd : ParserData I) (start n : Nat) : Stop S → PErr → Str → S → Prop
  | .wrongChar c c' r s, e, rest, s' => e = .unexpectedChar c (n - r.length) [c'] ∧ rest = r ∧ s' = s
  | .ended s, e, rest, s' => e = .endOfChars n ∧ rest = [] ∧ s' = s
  | .noAlternative A r s, e, rest, s' => rest = r ∧ s' = s ∧
      ∃ (rule : NTRule I) (L : List SetMember), AMap.get pd.rules A = some rule ∧ L.Nodup ∧
        (∀ m, m ∈ L ↔ ∃ p ∈ rule.prods, Control pd start A p m) ∧
        e = .unexpectedChar (r.head?.getD '#') (n - r.length) (expectedText L)
  | .noParent x r s, e, rest, s' => e = .tree x ∧ rest = r ∧ s' = s
  | .panicked, _, _, _ => False

end HPP.Spec
