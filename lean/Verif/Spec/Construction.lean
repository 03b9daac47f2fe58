import Verif.Model.ParserData
/-
Histories of calls that build grammar data.
-/
namespace HPP.Spec
variable {I : Type}

/-- The calls that build grammar data (`get_or_add_terminal` and `get_or_add_non_terminal` are requests of an
element). -/
inductive BuildOp (I : Type) where
  | request (k : ElementVerbose)
  | addProduction (idx : Nat) (terms : List Nat)
  | setProductions (idx : Nat) (terms : List (List Nat))
  | addInstructions (idx : Nat) (inst : List I)

/-- One call. -/
def BuildOp.run (pd : ParserData I) : BuildOp I → ParserData I
  | .request k => (pd.getOrAddElementKey k).2
  | .addProduction idx terms => pd.addProduction idx terms
  | .setProductions idx terms => pd.setProductions idx terms
  | .addInstructions idx inst => pd.addInstructions idx inst

/-- The data after a history of calls. -/
def build (ops : List (BuildOp I)) : ParserData I := ops.foldl BuildOp.run ParserData.new

/-- The elements requested, in call order. -/
def requested (ops : List (BuildOp I)) : List ElementVerbose :=
  ops.filterMap (fun op => match op with | .request k => some k | _ => none)

/-- Each element of the list once, in the order of first occurrence. -/
def firstOccurrences (ks : List ElementVerbose) : List ElementVerbose :=
  ks.foldl (fun acc k => if k ∈ acc then acc else acc ++ [k]) []

/-- The production given by a list of terms. -/
def productionOf (terms : List Nat) : Production := if terms = [] then .empty else .notEmpty terms

/-- The productions added to `idx`, in call order. -/
def addedTo (idx : Nat) (ops : List (BuildOp I)) : List Production :=
  ops.filterMap (fun op => match op with
    | .addProduction i terms => if i = idx then some (productionOf terms) else none
    | _ => none)

/-- The call replaces the productions of `idx`. -/
def BuildOp.SetsProductions (idx : Nat) : BuildOp I → Prop
  | .setProductions i _ => i = idx
  | _ => False

/-- The call replaces the instructions of `idx`. -/
def BuildOp.SetsInstructions (idx : Nat) : BuildOp I → Prop
  | .addInstructions i _ => i = idx
  | _ => False

/-- The call gives `idx` a rule. -/
def BuildOp.Defines (idx : Nat) : BuildOp I → Prop
  | .addProduction i _ => i = idx
  | .setProductions i terms => i = idx ∧ terms ≠ []
  | .addInstructions i _ => i = idx
  | .request _ => False

/-- The indices a call mentions are among those issued for `keys`, rules being given to non-terminals. -/
def BuildOp.Uses (keys : List ElementVerbose) : BuildOp I → Prop
  | .request _ => True
  | .addProduction i terms => (∃ n, keys[i]? = some ⟨n, .nonTerminal⟩) ∧ ∀ t ∈ terms, t < keys.length
  | .setProductions i terms => (∃ n, keys[i]? = some ⟨n, .nonTerminal⟩) ∧ ∀ ts ∈ terms, ∀ t ∈ ts, t < keys.length
  | .addInstructions i _ => ∃ n, keys[i]? = some ⟨n, .nonTerminal⟩

/-- Every call mentions only indices issued before. -/
def ValidHistory (ops : List (BuildOp I)) : Prop :=
  ∀ pre op post, ops = pre ++ op :: post → op.Uses (firstOccurrences (requested pre))

end HPP.Spec
