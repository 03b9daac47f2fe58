import Verif.Proofs.Walk
import Verif.Proofs.AnyVm
import Verif.Props.Parse
/-
C83: parsing with any virtual machine.  C84: virtual machines that add to the tree.  C85: virtual machines that prune it.
-/
namespace HPP
open Spec
variable {I S S1 S2 : Type} {pd : ParserData I} {start st0 : Nat} {P : Parser I} {ho0 ho : HashOrder} {fuel0 fuel : Nat}

/-! ### C83 -/

/-- **C83.** For a constructed parser and any virtual machine at all: `parse` returns `Ok` with the tree `t`, the state `s'`
and the unread text `rest` exactly if the script is read top-down as a parse tree (not higher than the call depth), leaving
`rest`, and walking this parse tree leads from the empty tree and the state `s` to `t` and `s'`. -/
theorem C83_parse_is_walk (hw : WellFormed pd) (hP : Parser.newFromParserData ho0 fuel0 pd start = .ok P)
    (hs : StartSymbol pd st0) (vm : VM I S) (text rest : Str) (s s' : S) (t : Tree Str) :
    (∃ c, Parser.parse ho fuel vm P text s = (.ok t, c) ∧ c.proc.rest = rest ∧ c.state = s') ↔
      ∃ f, TopDown pd start [st0] text f rest ∧ f.height ≤ fuel ∧ Walk vm pd none f (Tree.new, s) (t, s') :=
  parse_walk hw (newFromParserData_ok hw hP).2 hs vm fuel text rest s s' t

/-- **C83**, what a virtual machine can influence: for every parser and script the outcome (success or the error) and the
unread text are those of any virtual machine that neither edits the tree nor panics, unless the parse panics or fails with a
tree error. -/
theorem C83_same_or_trouble (ho : HashOrder) (fuel : Nat) (P : Parser I) (text : Str) (vm : VM I S1) (s1 : S1)
    (vm0 : VM I S2) (htp : TreePreserving vm0) (htot : Total vm0) (s2 : S2) :
    (outcome (Parser.parse ho fuel vm P text s1).1 = outcome (Parser.parse ho fuel vm0 P text s2).1 ∧
      (Parser.parse ho fuel vm P text s1).2.proc.rest = (Parser.parse ho fuel vm0 P text s2).2.proc.rest) ∨
    (Parser.parse ho fuel vm P text s1).1 = .panic ∨
    ∃ e, (Parser.parse ho fuel vm P text s1).1 = .err (.tree e) := by
  have h0 := (parse_anyVm ho vm0 P fuel text s2).2
    (fun t id i s t' s' _ h => by rw [htp t id i s t' s' h]; exact .refl) htot
  rcases (parse_anyVm ho vm P fuel text s1).1 with h | h
  · right
    generalize (Parser.parse ho fuel vm P text s1).1 = r at h
    cases r with
    | ok t => exact h.elim
    | panic => exact .inl rfl
    | timeout => exact h.elim
    | err e =>
      cases e <;> first | exact .inr ⟨_, rfl⟩ | exact h.elim
  · left
    exact ⟨h.1.trans h0.1.symm, by rw [h.2, h0.2]⟩

/-- **C83**, no panic: if the virtual machine edits the tree in any way, but through the tree's functions, and does not
panic itself, then for every parser and script the outcome and the unread text are those of a virtual machine that leaves
the tree alone, or the parse fails with a tree error. -/
theorem C83_same_or_tree_error (ho : HashOrder) (fuel : Nat) (P : Parser I) (text : Str) (vm : VM I S1) (he : EditsTree vm)
    (ht : Total vm) (s1 : S1) (vm0 : VM I S2) (htp : TreePreserving vm0) (htot : Total vm0) (s2 : S2) :
    (outcome (Parser.parse ho fuel vm P text s1).1 = outcome (Parser.parse ho fuel vm0 P text s2).1 ∧
      (Parser.parse ho fuel vm P text s1).2.proc.rest = (Parser.parse ho fuel vm0 P text s2).2.proc.rest) ∨
    ∃ e, (Parser.parse ho fuel vm P text s1).1 = .err (.tree e) := by
  have h0 := (parse_anyVm ho vm0 P fuel text s2).2
    (fun t id i s t' s' _ h => by rw [htp t id i s t' s' h]; exact .refl) htot
  rcases parse_editingVm ho he ht P fuel text s1 with h | h
  · exact .inr h
  · exact .inl ⟨h.1.trans h0.1.symm, by rw [h.2, h0.2]⟩

/-! ### C84 -/

/-- **C84.** A virtual machine that does not panic and, except for the root, only adds nodes to the tree and changes data,
does not influence the outcome nor the unread text: for every parser, script and state they are the same with any two such
virtual machines, for example with `NullVm`. -/
theorem C84_growing_vm (ho : HashOrder) (fuel : Nat) (P : Parser I) (text : Str) (vm1 : VM I S1) (vm2 : VM I S2)
    (hg1 : OnlyGrowsBelowRoot vm1) (ht1 : Total vm1) (hg2 : OnlyGrowsBelowRoot vm2) (ht2 : Total vm2) (s1 : S1) (s2 : S2) :
    outcome (Parser.parse ho fuel vm1 P text s1).1 = outcome (Parser.parse ho fuel vm2 P text s2).1 ∧
    (Parser.parse ho fuel vm1 P text s1).2.proc.rest = (Parser.parse ho fuel vm2 P text s2).2.proc.rest := by
  have h1 := (parse_anyVm ho vm1 P fuel text s1).2 hg1 ht1
  have h2 := (parse_anyVm ho vm2 P fuel text s2).2 hg2 ht2
  exact ⟨h1.1.trans h2.1.symm, by rw [h1.2, h2.2]⟩

theorem Spec.OnlyGrows.belowRoot {vm : VM I S} (h : OnlyGrows vm) : OnlyGrowsBelowRoot vm :=
  fun t id i s t' s' _ he => h t id i s t' s' he

/-- A virtual machine with the same instructions that does nothing. -/
def idleVm (I : Type) : VM I Unit where
  parseInstructions _ p := (.ok [], p)
  execute t _ _ s := some (t, s)
  init := ()

theorem idleVm_treePreserving : TreePreserving (idleVm I) := by
  intro t id i s t' s' h
  cases h
  rfl

theorem idleVm_total : Total (idleVm I) := by intro t id i s h; cases h

/-- **C84**, every script of the language is accepted and read to its end, and errors are only syntax errors. -/
theorem C84_language (hw : WellFormed pd) (hP : Parser.newFromParserData ho0 fuel0 pd start = .ok P)
    (hs : StartSymbol pd start) (vm : VM I S) (hg : OnlyGrowsBelowRoot vm) (htot : Total vm) :
    (∀ text, Language (grammarOf pd) start text → ∃ N, ∀ fuel, N ≤ fuel → ∀ (ho : HashOrder) (s : S),
      ∃ t c, Parser.parse ho fuel vm P text s = (.ok t, c) ∧ c.proc.rest = []) ∧
    (∀ (ho : HashOrder) fuel text s, (Parser.parse ho fuel vm P text s).1 ≠ .panic ∧
      ∀ e, (Parser.parse ho fuel vm P text s).1 = .err e →
        (∃ chr pos exp, e = .unexpectedChar chr pos exp) ∨ (∃ pos, e = .endOfChars pos)) := by
  have hi : OnlyGrowsBelowRoot (idleVm I) := fun t id i s t' s' _ h => by
    rw [idleVm_treePreserving t id i s t' s' h]; exact .refl
  constructor
  · intro text hl
    obtain ⟨N, hN⟩ := C22_parse_complete hw hP hs (idleVm I) idleVm_treePreserving idleVm_total hl
    refine ⟨N, fun fuel hf ho s => ?_⟩
    obtain ⟨t, c, h1, h2⟩ := hN fuel hf ho ()
    obtain ⟨k1, k2⟩ := C84_growing_vm ho fuel P text vm (idleVm I) hg htot hi idleVm_total s ()
    rw [h1] at k1 k2
    rcases hx : Parser.parse ho fuel vm P text s with ⟨r, c'⟩
    rw [hx] at k1 k2
    cases r <;> simp only [outcome, reduceCtorEq] at k1
    exact ⟨_, c', rfl, k2.trans h2⟩
  · intro ho fuel text s
    obtain ⟨k1, -⟩ := C84_growing_vm ho fuel P text vm (idleVm I) hg htot hi idleVm_total s ()
    have h := C29_only_syntax_errors (ho := ho) (fuel := fuel) hw hP hs (idleVm I) idleVm_treePreserving idleVm_total text ()
    generalize (Parser.parse ho fuel (idleVm I) P text ()).1 = r0 at h k1
    generalize (Parser.parse ho fuel vm P text s).1 = r at k1
    cases r <;> cases r0 <;> simp only [outcome, reduceCtorEq, Res.err.injEq] at k1
    · exact ⟨by simp, by simp⟩
    · subst k1
      exact ⟨by simp, h.2⟩
    · exact absurd rfl h.1
    · exact ⟨by simp, by simp⟩

/-! ### A growing virtual machine -/

/-- Every instruction adds a remark below the node it is executed for. -/
def Samples.remarkVm : VM Nat Nat where
  parseInstructions _ p := (.ok [], p)
  execute t id i s := some ((t.addNode (c% "remark") (some id)).2, s + i)
  init := 0

theorem Samples.remarkVm_grows : OnlyGrows Samples.remarkVm := by
  intro t id i s t' s' h
  simp only [Samples.remarkVm, Option.some.injEq, Prod.mk.injEq] at h
  obtain ⟨rfl, -⟩ := h
  exact .add .refl (Prod.eta _).symm

theorem Samples.remarkVm_total : Total Samples.remarkVm := by intro t id i s h; cases h

/-- It is not covered by C22: it edits the tree. -/
example : ¬ TreePreserving Samples.remarkVm := by
  intro h
  have := h (Tree.new.addNode [] none).2 ⟨0, 0⟩ 0 0 _ _ rfl
  revert this
  decide

/-- Its tree on `ab,c`: 8 nodes of the parse and 4 remarks. -/
example : ∃ t c, Parser.parse .insertion 9 Samples.remarkVm Samples.listParser (c% "ab,c") 0 = (.ok t, c) ∧ c.proc.rest = [] :=
  Samples.okRest_eq (by decide +kernel)

/-! ### C85 -/

/-- The grammar `start -> a b; a -> "x" {7}; b -> "y" c; c -> "z";`. -/
def Samples.pruneData : ParserData Nat :=
  let pd : ParserData Nat := ParserData.new
  let (start, pd) := pd.getOrAddNonTerminal (c% "start")
  let (a, pd) := pd.getOrAddNonTerminal (c% "a")
  let (b, pd) := pd.getOrAddNonTerminal (c% "b")
  let (c, pd) := pd.getOrAddNonTerminal (c% "c")
  let (x, pd) := pd.getOrAddTerminal (c% "x")
  let (y, pd) := pd.getOrAddTerminal (c% "y")
  let (z, pd) := pd.getOrAddTerminal (c% "z")
  let pd := pd.addProduction start [a, b]
  let pd := pd.addProduction a [x]
  let pd := pd.addProduction b [y, c]
  let pd := pd.addProduction c [z]
  pd.addInstructions a [7]

theorem Samples.pruneData_start : StartSymbol Samples.pruneData 0 := Samples.start_of_check rfl
theorem Samples.pruneData_wf : WellFormed Samples.pruneData := Samples.wf_of_check rfl

/-- Removes the first child of the node it is executed for. -/
def Samples.pruneVm : VM Nat Nat where
  parseInstructions _ p := (.ok [], p)
  execute t id _ s :=
    match (t.getChildren 9 id : Res TErr _) with
    | .ok (c :: _) =>
      match t.removeBranch 9 c with
      | (.ok (), t') => some (t', s)
      | _ => some (t, s)
    | _ => some (t, s)
  init := 0

/-- The parser for it. -/
def Samples.pruneParser : Parser Nat where
  rules := [(0, ⟨[(.char 'x', .notEmpty [1, 2])], none, []⟩), (1, ⟨[(.char 'x', .notEmpty [4])], none, [7]⟩),
    (2, ⟨[(.char 'y', .notEmpty [5, 3])], none, []⟩), (3, ⟨[(.char 'z', .notEmpty [6])], none, []⟩)]
  elements := [⟨c% "start", .nonTerminal⟩, ⟨c% "a", .nonTerminal⟩, ⟨c% "b", .nonTerminal⟩, ⟨c% "c", .nonTerminal⟩,
    ⟨c% "x", .terminal⟩, ⟨c% "y", .terminal⟩, ⟨c% "z", .terminal⟩]

theorem Samples.pruneParser_eq : Parser.newFromParserData .insertion 9 Samples.pruneData 0 = .ok Samples.pruneParser := rfl

theorem Samples.pruneVm_prunes : OnlyPrunes Samples.pruneVm := by
  intro t id i s t' s' h
  simp only [Samples.pruneVm] at h
  split at h
  · next c cs hc =>
    split at h
    · next t1 ht1 =>
      simp only [Option.some.injEq, Prod.mk.injEq] at h
      obtain ⟨rfl, -⟩ := h
      exact .inr ⟨9, _, c, hc, List.mem_cons_self, ht1⟩
    · simp only [Option.some.injEq, Prod.mk.injEq] at h
      exact .inl h.1.symm
  · simp only [Option.some.injEq, Prod.mk.injEq] at h
    exact .inl h.1.symm

theorem Samples.pruneVm_total : Total Samples.pruneVm := by
  intro t id i s h
  simp only [Samples.pruneVm] at h
  split at h
  · split at h <;> cases h
  · cases h

/-- The outcome of a parse with the sample. -/
def Samples.pruneOutcome (text : Str) : Option PErr :=
  match (Parser.parse .insertion 9 Samples.pruneVm Samples.pruneParser text 0).1 with
  | .err e => some e
  | _ => none

/-- **C85** is refuted: removing only finished children, in a grammar with a parser and for a script of the language, makes
the parse fail with a tree error. -/
theorem C85_refuted : OnlyPrunes Samples.pruneVm ∧ Total Samples.pruneVm ∧
    Parser.newFromParserData .insertion 9 Samples.pruneData 0 = .ok Samples.pruneParser ∧
    Language (grammarOf Samples.pruneData) 0 (c% "xyz") ∧
    (Parser.parse .insertion 9 Samples.pruneVm Samples.pruneParser (c% "xyz") 0).1 =
      .err (.tree (.nodeDoesNotExist ⟨2, 3⟩)) := by
  refine ⟨Samples.pruneVm_prunes, Samples.pruneVm_total, Samples.pruneParser_eq, ?_, ?_⟩
  · obtain ⟨t, c, h1, h2⟩ := Samples.okRest_eq (x := Parser.parse .insertion 9 nullVm Samples.pruneParser (c% "xyz") 0)
      (r := []) (by decide +kernel)
    obtain ⟨u, k1, k2⟩ := C21_parse_sound Samples.pruneData_wf Samples.pruneParser_eq Samples.pruneData_start nullVm h1
    rw [h2, List.append_nil] at k1
    rw [k1]
    exact k2
  · have h : Samples.pruneOutcome (c% "xyz") = some (.tree (.nodeDoesNotExist ⟨2, 3⟩)) := by decide +kernel
    unfold Samples.pruneOutcome at h
    split at h
    · next e he => rw [he]; cases h; rfl
    · cases h

/-- The grammar `start -> a b; a -> "x" {7}; b -> "y" "z";`. -/
def Samples.lossData : ParserData Nat :=
  let pd : ParserData Nat := ParserData.new
  let (start, pd) := pd.getOrAddNonTerminal (c% "start")
  let (a, pd) := pd.getOrAddNonTerminal (c% "a")
  let (b, pd) := pd.getOrAddNonTerminal (c% "b")
  let (x, pd) := pd.getOrAddTerminal (c% "x")
  let (y, pd) := pd.getOrAddTerminal (c% "y")
  let (z, pd) := pd.getOrAddTerminal (c% "z")
  let pd := pd.addProduction start [a, b]
  let pd := pd.addProduction a [x]
  let pd := pd.addProduction b [y, z]
  pd.addInstructions a [7]

/-- The parser for it. -/
def Samples.lossParser : Parser Nat where
  rules := [(0, ⟨[(.char 'x', .notEmpty [1, 2])], none, []⟩), (1, ⟨[(.char 'x', .notEmpty [3])], none, [7]⟩),
    (2, ⟨[(.char 'y', .notEmpty [4, 5])], none, []⟩)]
  elements := [⟨c% "start", .nonTerminal⟩, ⟨c% "a", .nonTerminal⟩, ⟨c% "b", .nonTerminal⟩,
    ⟨c% "x", .terminal⟩, ⟨c% "y", .terminal⟩, ⟨c% "z", .terminal⟩]

/-- The data of all slots after a successful parse that read everything. -/
def Samples.lossResult : Option (List (List Char)) :=
  match Parser.parse .insertion 9 Samples.pruneVm Samples.lossParser (c% "xyz") 0 with
  | (.ok t, c) => if c.proc.rest = [] then some (t.nodes.map (·.data)) else none
  | _ => none

/-- **C85**, worse: with another grammar the whole script is read and `parse` returns `Ok`, but no node of the tree carries
the last terminal. -/
theorem C85_text_lost : Parser.newFromParserData .insertion 9 Samples.lossData 0 = .ok Samples.lossParser ∧
    ∃ t c, Parser.parse .insertion 9 Samples.pruneVm Samples.lossParser (c% "xyz") 0 = (.ok t, c) ∧ c.proc.rest = [] ∧
      ∀ id nd, t.getNode id = .ok nd → nd.data ≠ c% "z" := by
  refine ⟨rfl, ?_⟩
  have h : Samples.lossResult = some [[], [], c% "y"] := by decide +kernel
  unfold Samples.lossResult at h
  split at h
  · next t c hp =>
    split at h
    · next hr =>
      refine ⟨t, c, hp, hr, fun id nd hn hd => ?_⟩
      simp only [Option.some.injEq] at h
      have hm : nd.data ∈ t.nodes.map (·.data) := List.mem_map_of_mem (List.mem_of_getElem? (getNode_at hn).1)
      rw [h, hd] at hm
      revert hm
      decide
    · cases h
  · cases h

theorem Spec.OnlyPrunes.edits {vm : VM I S} (h : OnlyPrunes vm) : EditsTree vm := by
  intro t id i s t' s' he
  rcases h t id i s t' s' he with rfl | ⟨fuel, cs, c, -, -, h1⟩
  · exact .refl
  · exact .remove .refl h1

/-- **C85**, the part that holds: a virtual machine that only removes children of the node it is executed for, and does not
panic, leaves the outcome and the unread text as they are, unless the parse fails with a tree error; it never panics. -/
theorem C85_prune_partial (ho : HashOrder) (fuel : Nat) (P : Parser I) (text : Str) (vm : VM I S1) (he : OnlyPrunes vm)
    (ht : Total vm) (s1 : S1) (vm0 : VM I S2) (htp : TreePreserving vm0) (htot : Total vm0) (s2 : S2) :
    (outcome (Parser.parse ho fuel vm P text s1).1 = outcome (Parser.parse ho fuel vm0 P text s2).1 ∧
      (Parser.parse ho fuel vm P text s1).2.proc.rest = (Parser.parse ho fuel vm0 P text s2).2.proc.rest) ∨
    ∃ e, (Parser.parse ho fuel vm P text s1).1 = .err (.tree e) :=
  C83_same_or_tree_error ho fuel P text vm he.edits ht s1 vm0 htp htot s2

/-- **C85**, the other part that holds: removing anything at the end of the parse, that is when executed for the root, is
harmless: every script of the language is accepted. -/
theorem C85_prune_at_the_end_partial (hw : WellFormed pd) (hP : Parser.newFromParserData ho0 fuel0 pd start = .ok P)
    (hs : StartSymbol pd start) (vm : VM I S)
    (he : ∀ t id i s t' s', vm.execute t id i s = some (t', s') → id = ⟨0, 0⟩ ∨ t' = t) (htot : Total vm) {text : Str}
    (hl : Language (grammarOf pd) start text) :
    ∃ N, ∀ fuel, N ≤ fuel → ∀ (ho : HashOrder) (s : S),
      ∃ t c, Parser.parse ho fuel vm P text s = (.ok t, c) ∧ c.proc.rest = [] := by
  refine (C84_language hw hP hs vm (fun t id i s t' s' hne h => ?_) htot).1 text hl
  rcases he t id i s t' s' h with h0 | rfl
  · exact absurd h0 hne
  · exact .refl

/-- A virtual machine that empties the tree when executed for the root. -/
def Samples.sweepVm : VM Nat Nat where
  parseInstructions _ p := (.ok [], p)
  execute t id _ s := some (if id = ⟨0, 0⟩ then Tree.new else t, s)
  init := 0

example : Total Samples.sweepVm ∧
    (∀ t id i s t' s', Samples.sweepVm.execute t id i s = some (t', s') → id = ⟨0, 0⟩ ∨ t' = t) ∧
    ∃ t c, Parser.parse .insertion 9 Samples.sweepVm Samples.listParser (c% "ab,c") 0 = (.ok t, c) ∧ c.proc.rest = [] := by
  refine ⟨(by intro t id i s h; cases h), ?_, Samples.okRest_eq (by decide +kernel)⟩
  intro t id i s t' s' h
  simp only [Samples.sweepVm, Option.some.injEq, Prod.mk.injEq] at h
  by_cases h0 : id = ⟨0, 0⟩
  · exact .inl h0
  · rw [if_neg h0] at h
    exact .inr h.1.symm

end HPP
