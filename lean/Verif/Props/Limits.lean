import Verif.Proofs.Fuel
import Verif.Props.Parse
import Verif.Props.Rounds
/-
C89: how deep calls may be nested and how long loops may run decides only whether an operation gets to its end, not what it
returns.
-/
namespace HPP
open Spec
variable {I S T : Type}

/-- **C89**, parsing: for every parser, script, virtual machine and state, a parse that gets to its end within a limit ends in
the same result, tree, state and unread text within every larger one. -/
theorem C89_parse (ho : HashOrder) (vm : VM I S) (P : Parser I) (text : Str) (s : S) {fuel fuel' : Nat} (hf : fuel ≤ fuel')
    (h : (Parser.parse ho fuel vm P text s).1 ≠ .timeout) :
    Parser.parse ho fuel' vm P text s = Parser.parse ho fuel vm P text s :=
  ((Lim.parse_le ho vm P hf text s).resolve_left h).symm

/-- **C89**, construction from grammar data. -/
theorem C89_construction (ho : HashOrder) (pd : ParserData I) (start : Nat) {fuel fuel' : Nat} (hf : fuel ≤ fuel')
    (h : Parser.newFromParserData ho fuel pd start ≠ .timeout) :
    Parser.newFromParserData ho fuel' pd start = Parser.newFromParserData ho fuel pd start :=
  ((Lim.newFromParserData_le ho hf pd start).resolve_left h).symm

/-- **C89**, construction from a text. -/
theorem C89_construction_from_text (ho : HashOrder) (cc : CharClass) (vm : VM I S) (text : Str) {fuel fuel' : Nat}
    (hf : fuel ≤ fuel') (h : Parser.newFromText ho fuel cc vm text ≠ .timeout) :
    Parser.newFromText ho fuel' cc vm text = Parser.newFromText ho fuel cc vm text :=
  ((Lim.newFromText_le ho hf cc vm text).resolve_left h).symm

/-- **C89**, the FIRST and FOLLOW sets. -/
theorem C89_sets (ho : HashOrder) (pd : ParserData I) (start : Nat) (fs : NamedSets) {fuel fuel' : Nat} (hf : fuel ≤ fuel') :
    (getFirstSets ho fuel pd ≠ .timeout → getFirstSets ho fuel' pd = getFirstSets ho fuel pd) ∧
    (getFollowSets ho fuel start fs pd ≠ .timeout → getFollowSets ho fuel' start fs pd = getFollowSets ho fuel start fs pd) :=
  ⟨fun h => ((Lim.getFirstSets_le ho hf pd).resolve_left h).symm,
   fun h => ((Lim.getFollowSets_le ho hf start fs pd).resolve_left h).symm⟩

/-- **C89**, trees: for every tree (also one whose sibling lists are cyclic). -/
theorem C89_tree (t : Tree T) (id : NodeId) {fuel fuel' : Nat} (hf : fuel ≤ fuel') :
    ((t.getChildren fuel id : Res TErr _) ≠ .timeout → (t.getChildren fuel' id : Res TErr _) = t.getChildren fuel id) ∧
    ((t.getDescendants fuel id : Res TErr _) ≠ .timeout → (t.getDescendants fuel' id : Res TErr _) = t.getDescendants fuel id) ∧
    ((t.removeBranch fuel id).1 ≠ .timeout → t.removeBranch fuel' id = t.removeBranch fuel id) :=
  ⟨fun h => ((Lim.getChildren_le t hf id).resolve_left h).symm,
   fun h => ((Lim.getDescendants_le t fuel fuel' hf id).resolve_left h).symm,
   fun h => ((Lim.removeBranch_le t hf id).resolve_left h).symm⟩

/-- **C89**, one outcome: for a constructed parser every parse has exactly one outcome; a limit that is large enough gives it
and a smaller one gives it or is hit. -/
theorem C89_one_outcome {pd : ParserData I} {start st0 : Nat} {P : Parser I} {ho0 : HashOrder} {fuel0 : Nat}
    (hw : WellFormed pd) (hP : Parser.newFromParserData ho0 fuel0 pd start = .ok P) (hs : StartSymbol pd st0)
    (ho : HashOrder) (vm : VM I S) (text : Str) (s : S) :
    ∃ out : Res PErr (Tree Str) × Ctx S, out.1 ≠ .timeout ∧
      (∃ N, ∀ fuel, N ≤ fuel → Parser.parse ho fuel vm P text s = out) ∧
      ∀ fuel, Parser.parse ho fuel vm P text s = out ∨ (Parser.parse ho fuel vm P text s).1 = .timeout := by
  obtain ⟨N, hN⟩ := C24_parse_terminates (S := S) hw hP hs text.length
  have h0 := hN N (Nat.le_refl _) ho vm text s (Nat.le_refl _)
  refine ⟨Parser.parse ho N vm P text s, h0, ⟨N, fun fuel hf => C89_parse ho vm P text s hf h0⟩, fun fuel => ?_⟩
  by_cases ht : (Parser.parse ho fuel vm P text s).1 = .timeout
  · exact .inr ht
  · left
    rcases Nat.le_total fuel N with hf | hf
    · exact (C89_parse ho vm P text s hf ht).symm
    · exact C89_parse ho vm P text s hf h0

/-- The limits matter: the sample parser needs three nested calls for `ab,c`, and not more. -/
example : (Parser.parse .insertion 2 nullVm Samples.listParser (c% "ab,c") 0).1 = .timeout ∧
    ∃ t c, Parser.parse .insertion 3 nullVm Samples.listParser (c% "ab,c") 0 = (.ok t, c) ∧ c.proc.rest = [] :=
  ⟨by decide +kernel, Samples.okRest_eq (by decide +kernel)⟩

end HPP
