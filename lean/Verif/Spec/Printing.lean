import Verif.Spec.Woven
import Verif.Spec.Grammar
/-
Writing rules down: the plainest text of a list of rules, and of grammar data.
-/
namespace HPP.Spec
variable {I S : Type}

/-- A terminal in quotes, a name as it is. -/
def showElem (e : ElementVerbose) : Str :=
  match e.et with
  | .terminal => '"' :: (e.name ++ ['"'])
  | .nonTerminal => e.name

/-- Elements separated by blanks. -/
def showSeq : List ElementVerbose → Str
  | [] => []
  | [e] => showElem e
  | e :: e' :: es => showElem e ++ (c% " " ++ showSeq (e' :: es))

/-- An alternative; the empty one is `#`. -/
def showAlt (a : List ElementVerbose) : Str := if a = [] then c% "#" else showSeq a

/-- Alternatives separated by ` | `. -/
def showAlts : List (List ElementVerbose) → Str
  | [] => []
  | [a] => showAlt a
  | a :: a' :: as => showAlt a ++ (c% " " ++ '|' :: (c% " " ++ showAlts (a' :: as)))

/-- A rule on a line of its own: `name -> $[IGNORE:name] alternatives {section};`, override and section only if needed.
`sec name instr` is the section text. -/
def showRule (sec : Str → List I → Str) (r : WrittenRule I) : Str :=
  r.name ++ (c% " " ++ (c% "->" ++ (c% " " ++
    ((match r.ignore with | none => [] | some n => c% "$[IGNORE" ++ ([] ++ ':' :: (n ++ c% "]"))) ++ (c% " " ++ (showAlts r.alts ++ (c% " " ++
      ((match r.instr with | [] => [] | i :: is => '{' :: ([] ++ (sec r.name (i :: is) ++ c% "}"))) ++ (c% "" ++ c% ";")))))))))

/-- The rules, one per line. -/
def showRules (sec : Str → List I → Str) : List (WrittenRule I) → Str
  | [] => c% "\n"
  | r :: rs => c% "\n" ++ (showRule sec r ++ showRules sec rs)

/-- The element can be written: a name of a non-terminal is a name, a quoted terminal is read back as it is. -/
def WritableElem (cc : CharClass) (e : ElementVerbose) : Prop :=
  match e.et with
  | .terminal => quotedFrom false (e.name ++ ['"']) = some (e.name, [])
  | .nonTerminal => IsName cc e.name

/-- The rule can be written: it has an alternative, its elements can be written, and the VM makes its instructions of the
section text. -/
structure WritableRule (cc : CharClass) (Sec : Str → Str → List I → Prop) (sec : Str → List I → Str) (r : WrittenRule I) : Prop where
  name : IsName cc r.name
  ignore : ∀ n, r.ignore = some n → IsName cc n
  alts : r.alts ≠ []
  elems : ∀ a ∈ r.alts, ∀ e ∈ a, WritableElem cc e
  instr : r.instr ≠ [] → Sec r.name (sec r.name r.instr) r.instr ∧
    ∀ c w, sec r.name r.instr = c :: w → CharClass.isWhitespace c = false

/-- What an element is called. -/
def keyOf (pd : ParserData I) (e : Nat) : ElementVerbose := (pd.getElementVerbose e).getD ⟨[], .terminal⟩

/-- The rules of grammar data as written rules (no overrides). -/
def rulesOf (pd : ParserData I) : List (WrittenRule I) :=
  pd.rules.map fun x => ⟨(keyOf pd x.1).name, none, x.2.prods.map fun p => (prodElems p).map (keyOf pd), x.2.instr⟩

/-- No two elements have both the same kind and the same name. -/
def DistinctElements (pd : ParserData I) : Prop :=
  ∀ i j k, pd.getElementVerbose i = some k → pd.getElementVerbose j = some k → i = j

/-- The text of grammar data. -/
def showData (sec : Str → List I → Str) (pd : ParserData I) : Str := showRules sec (rulesOf pd)

end HPP.Spec
