import Verif.Proofs.TextTree
import Verif.Props.Ignoring
/-
C96: the tree of a script by the rules as they are written.
-/
namespace HPP
open Spec
variable {I S S' : Type} {cc : CharClass} {rs : List (WrittenRule I)} {text : Str} {P : Parser I} {ho0 : HashOrder} {fuel0 : Nat}

/-- **C96.** The tree returned by a parser that was built from a rule text shows the tree of the script by the rules as they
are written: leaving out every second child below nodes of overridden names gives a tree of the written rules, whose leaves
are tokens, and what was read is these tokens with ignored text in between. -/
theorem C96_written_tree (hcc : SpaceOk cc) {vm : VM I S} (h : RulesText cc (ReadsSection vm) rs text)
    (hP : Parser.newFromText ho0 fuel0 cc vm text = .ok P) (vm' : VM I S') (htp : TreePreserving vm') {ho : HashOrder}
    {fuel : Nat} {script : Str} {s : S'} {t : Tree Str} {c : Ctx S'} (hr : Parser.parse ho fuel vm' P script s = (.ok t, c)) :
    ∃ r u ts consumed, Shows t ⟨0, 0⟩ r ∧ Cleaned rs [⟨c% "start", .nonTerminal⟩] [r] [u] ∧
      WrittenTrees rs [⟨c% "start", .nonTerminal⟩] [u] ts ∧ script = consumed ++ c.proc.rest ∧
      Sprinkled (IgnoredText rs) ts consumed ∧ Rose.text r = consumed := by
  obtain ⟨pd, st, a1, a2, a3, a4, a5, a6⟩ := newFromText_means hcc h hP
  obtain ⟨x, p, k, h1, h2, h3, h4, -⟩ := C25_tree_is_derivation_tree a2 a6 (a3.start a5) vm' htp hr
  have hm : (⟨c% "start", .nonTerminal⟩ : ElementVerbose) ∈ elementsOf rs := List.mem_of_getElem? a5
  have hi : st = (elementsOf rs).idxOf ⟨c% "start", .nonTerminal⟩ := a3.inj a5 (getElem?_idxOf hm)
  obtain ⟨k1, ts, k2, k3⟩ := clean_forest a1 a3 h2 .all [] [⟨c% "start", .nonTerminal⟩] _ (by simpa using hm) (by rw [hi]; rfl)
    (.inr rfl) (sel_all _ _)
  exact ⟨_, _, ts, x, h3, k1, k2, h1, k3, h4⟩

/-- **C96**, one tree: if overrides can stand for nothing, there is at most one tree by the written rules for a text without
ignored text. -/
theorem C96_one_written_tree (hcc : SpaceOk cc) {vm : VM I S} (h : RulesText cc (ReadsSection vm) rs text)
    (hP : Parser.newFromText ho0 fuel0 cc vm text = .ok P)
    (he : ∀ n j, overrideOf rs n = some j → Spells rs [⟨j, .nonTerminal⟩] []) {us us' : List Rose} {ts ts' : List Str}
    (hu : WrittenTrees rs [⟨c% "start", .nonTerminal⟩] us ts) (hu' : WrittenTrees rs [⟨c% "start", .nonTerminal⟩] us' ts')
    (ht : ts.flatten = ts'.flatten) : us = us' := by
  obtain ⟨pd, st, a1, a2, a3, a4, a5, a6⟩ := newFromText_means hcc h hP
  have hm : (⟨c% "start", .nonTerminal⟩ : ElementVerbose) ∈ elementsOf rs := List.mem_of_getElem? a5
  have hi : st = (elementsOf rs).idxOf ⟨c% "start", .nonTerminal⟩ := a3.inj a5 (getElem?_idxOf hm)
  obtain ⟨f, hf, rfl⟩ := hu.hasClean a1 a3 he (by simpa using hm)
  obtain ⟨f', hf', rfl⟩ := hu'.hasClean a1 a3 he (by simpa using hm)
  simp only [List.map_cons, List.map_nil, ← hi] at hf hf'
  rw [← ht] at hf'
  rw [C19_unambiguous a2 a6 hf hf']

/-- **C96**, layout does not matter: if overrides can stand for nothing, then two scripts with the same tokens, read with any
amount of ignored text, give the same tree by the written rules. -/
theorem C96_layout_independent (hcc : SpaceOk cc) {vm : VM I S} (h : RulesText cc (ReadsSection vm) rs text)
    (hP : Parser.newFromText ho0 fuel0 cc vm text = .ok P)
    (he : ∀ n j, overrideOf rs n = some j → Spells rs [⟨j, .nonTerminal⟩] []) (vm' : VM I S') (htp : TreePreserving vm')
    {ho1 ho2 : HashOrder} {fuel1 fuel2 : Nat} {script1 script2 : Str} {s1 s2 : S'} {t1 t2 : Tree Str} {c1 c2 : Ctx S'}
    (h1 : Parser.parse ho1 fuel1 vm' P script1 s1 = (.ok t1, c1)) (h2 : Parser.parse ho2 fuel2 vm' P script2 s2 = (.ok t2, c2)) :
    ∃ r1 r2 u1 u2 ts1 ts2 x1 x2, (Shows t1 ⟨0, 0⟩ r1 ∧ Cleaned rs [⟨c% "start", .nonTerminal⟩] [r1] [u1] ∧
        WrittenTrees rs [⟨c% "start", .nonTerminal⟩] [u1] ts1 ∧ script1 = x1 ++ c1.proc.rest ∧
        Sprinkled (IgnoredText rs) ts1 x1) ∧
      (Shows t2 ⟨0, 0⟩ r2 ∧ Cleaned rs [⟨c% "start", .nonTerminal⟩] [r2] [u2] ∧
        WrittenTrees rs [⟨c% "start", .nonTerminal⟩] [u2] ts2 ∧ script2 = x2 ++ c2.proc.rest ∧
        Sprinkled (IgnoredText rs) ts2 x2) ∧
      (ts1 = ts2 → u1 = u2) := by
  obtain ⟨r1, u1, ts1, x1, a1, a2, a3, a4, a5, -⟩ := C96_written_tree hcc h hP vm' htp h1
  obtain ⟨r2, u2, ts2, x2, b1, b2, b3, b4, b5, -⟩ := C96_written_tree hcc h hP vm' htp h2
  refine ⟨r1, r2, u1, u2, ts1, ts2, x1, x2, ⟨a1, a2, a3, a4, a5⟩, ⟨b1, b2, b3, b4, b5⟩, ?_⟩
  rintro rfl
  simpa using C96_one_written_tree hcc h hP he a3 b3 rfl

/-- The tree that a parse returns is that of a given forest. -/
theorem parse_forest {pd : ParserData I} {st : Nat} (hw : WellFormed pd)
    (hP : Parser.newFromParserData ho0 fuel0 pd st = .ok P) (hs : StartSymbol pd st) (vm : VM I S) (htp : TreePreserving vm)
    (htot : Total vm) {f : Forest} {script : Str} (hf : IsForest pd [st] f script) :
    ∃ N, ∀ fuel, N ≤ fuel → ∀ (ho : HashOrder) (s : S), ∃ t c r, Parser.parse ho fuel vm P script s = (.ok t, c) ∧
      c.proc.rest = [] ∧ Shows t ⟨0, 0⟩ r ∧ roses pd f = [r] := by
  have hl := (C19_tree_iff_language hw hs.type script).1 ⟨f, hf⟩
  obtain ⟨N, hN⟩ := C22_parse_complete hw hP hs vm htp htot hl
  refine ⟨N, fun fuel hfu ho s => ?_⟩
  obtain ⟨t, c, h1, h2⟩ := hN fuel hfu ho s
  obtain ⟨x, p, k, g1, g2, g3, -, -⟩ := C25_tree_is_derivation_tree hw hP hs vm htp h1
  rw [h2, List.append_nil] at g1
  subst g1
  have := C19_unambiguous hw hP hf g2
  subst this
  exact ⟨t, c, _, h1, h2, g3, rfl⟩

/-- **C96**, conversely: if all names that `start` uses are overridden with `j`, which uses none of them and can stand for
nothing, then a script that has the tokens of a tree by the written rules, and any text that `j` stands for between
neighbouring ones, is read completely, and this tree is what is found in the returned tree. -/
theorem C96_written_tree_found (hcc : SpaceOk cc) {vm : VM I S} (h : RulesText cc (ReadsSection vm) rs text)
    (hP : Parser.newFromText ho0 fuel0 cc vm text = .ok P) {j : Str} {U : Str → Prop} (hU : AllIgnore rs j U)
    (hst : U (c% "start")) (he : Spells rs [⟨j, .nonTerminal⟩] []) (vm' : VM I S') (htp : TreePreserving vm') (htot : Total vm')
    {u : Rose} {ts : List Str} (ht : WrittenTrees rs [⟨c% "start", .nonTerminal⟩] [u] ts) {script : Str}
    (hs : Separated (fun x => Spells rs [⟨j, .nonTerminal⟩] x) ts script) :
    ∃ N, ∀ fuel, N ≤ fuel → ∀ (ho : HashOrder) (s : S'), ∃ t c r, Parser.parse ho fuel vm' P script s = (.ok t, c) ∧
      c.proc.rest = [] ∧ Shows t ⟨0, 0⟩ r ∧ Cleaned rs [⟨c% "start", .nonTerminal⟩] [r] [u] := by
  obtain ⟨pd, st, a1, a2, a3, a4, a5, a6⟩ := newFromText_means hcc h hP
  have hm : (⟨c% "start", .nonTerminal⟩ : ElementVerbose) ∈ elementsOf rs := List.mem_of_getElem? a5
  have hi : st = (elementsOf rs).idxOf ⟨c% "start", .nonTerminal⟩ := a3.inj a5 (getElem?_idxOf hm)
  obtain ⟨us', ⟨f, hf, rfl⟩, k2⟩ := hU.hasClean a1 a3 (mem_elementsOf_override (hU.override _ hst)) he ht (by
    intro n hn
    simp only [List.mem_cons, List.not_mem_nil, or_false, ElementVerbose.mk.injEq, and_true] at hn
    subst hn; exact hst) (by simpa using hm) hs
  simp only [between, List.map_cons, List.map_nil, ← hi] at hf
  obtain ⟨N, hN⟩ := parse_forest a2 a6 (a3.start a5) vm' htp htot hf
  refine ⟨N, fun fuel hfu ho s => ?_⟩
  obtain ⟨t, c, r, g1, g2, g3, g4⟩ := hN fuel hfu ho s
  refine ⟨t, c, r, g1, g2, g3, ?_⟩
  obtain ⟨k1, -⟩ := clean_forest a1 a3 hf .all [] [⟨c% "start", .nonTerminal⟩] _ (by simpa using hm) (by rw [hi]; rfl)
    (.inr rfl) (sel_all _ _)
  simp only [pick, g4] at k1
  have hlen : (cleanF rs pd f).length = 1 := by
    have := HasClean.length ⟨f, (show IsForest pd (List.map (fun x => (elementsOf rs).idxOf x) [⟨c% "start", .nonTerminal⟩]) f script
      by simpa [← hi] using hf), rfl⟩
    simpa using this
  match hcl : cleanF rs pd f, hlen with
  | [v], _ =>
    rw [hcl] at k1 k2
    simp only [pick] at k2
    rw [k2] at k1
    exact k1

/-! ### a concrete case -/

/-- The tree of the tokens `a`, `b`, `c` by the written rules of the sample. -/
def Samples.spacedTree : Rose := .node [] [.node (c% "a") [], .node [] [.node (c% "b") [], .node (c% "c") []]]

theorem Samples.spaced_written :
    WrittenTrees Samples.spacedRules [⟨c% "start", .nonTerminal⟩] [Samples.spacedTree] [c% "a", c% "b", c% "c"] := by
  have h1 : [⟨c% "b", .terminal⟩, ⟨c% "c", .terminal⟩] ∈ altsOf Samples.spacedRules (c% "b") := by decide
  have h2 : [⟨c% "a", .terminal⟩, ⟨c% "b", .nonTerminal⟩] ∈ altsOf Samples.spacedRules (c% "start") := by decide
  exact .name (ts := [c% "a", c% "b", c% "c"]) (ts' := []) h2
    (.terminal (.name (ts := [c% "b", c% "c"]) (ts' := []) h1 (.terminal (.terminal .nil)) .nil)) .nil

/-- The script `a b c` is read completely, and its tree, without the nodes for the spaces, is the tree of `a`, `b`, `c`; the
nodes for the spaces are there, so that it is not this tree itself. -/
example {P : Parser Nat} (hP : Parser.newFromText ho0 fuel0 .ascii nullVm Samples.spacedText = .ok P) :
    ∃ N, ∀ fuel, N ≤ fuel → ∀ ho, ∃ t c r, Parser.parse ho fuel nullVm P (c% "a b c") 0 = (.ok t, c) ∧ c.proc.rest = [] ∧
      Shows t ⟨0, 0⟩ r ∧ Cleaned Samples.spacedRules [⟨c% "start", .nonTerminal⟩] [r] [Samples.spacedTree] := by
  obtain ⟨N, hN⟩ := C96_written_tree_found Samples.ruleText_reads.1 Samples.spacedText_rules hP Samples.spaced_allIgnore
    (.inl rfl) Samples.spaced_empty nullVm nullVm_treePreserving nullVm_total Samples.spaced_written
    (.cons (t := c% "a") (x := c% " ") (s := c% "b c") Samples.spaced_one (by simp)
      (.cons (t := c% "b") (x := c% " ") (s := c% "c") Samples.spaced_one (by simp) (.one _)))
  exact ⟨N, fun fuel h ho => hN fuel h ho 0⟩

/-- The parser exists. -/
example : Samples.runText (Parser.newFromText .insertion 99 .ascii nullVm Samples.spacedText) (c% "a b c") = some [] := by
  decide +kernel

/-- A node of `b` with the children `b`, space, `c` is cleaned. -/
example : ∃ us, Cleaned Samples.spacedRules [⟨c% "b", .nonTerminal⟩]
    [.node [] [.node (c% "b") [], .node [] [.node (c% " ") [], .node [] []], .node (c% "c") []]] us ∧
    us = [.node [] [.node (c% "b") [], .node (c% "c") []]] := by
  have h1 : [⟨c% "b", .terminal⟩, ⟨c% "c", .terminal⟩] ∈ altsOf Samples.spacedRules (c% "b") := by decide
  exact ⟨_, .woven ⟨c% "w", by decide, fun h => by have := Samples.spaced_w h rfl; revert this; decide⟩ h1 rfl
    (.terminal (.terminal .nil)) .nil, rfl⟩

end HPP
