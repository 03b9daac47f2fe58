import Verif.Props.Parse
import Verif.Proofs.Depth
import Verif.Proofs.TopDown
/-
C67: how deep the recursion goes.  C68: exactly which scripts are accepted, and how much of them is read.
-/
namespace HPP
open Spec
variable {I S : Type} {pd : ParserData I} {start st0 : Nat} {P : Parser I} {ho0 ho : HashOrder} {fuel0 fuel : Nat}

/-! ### C68 -/

/-- **C68.** For a constructed parser, every VM that does not edit the tree and does not panic, every script
and every limit on the call depth: `parse` returns `Ok` leaving `rest` unread exactly if predictive top-down
reading of the start symbol from the script leaves `rest`, with a parse tree not higher than the limit. -/
theorem C68_accepts_exactly (hw : WellFormed pd) (hP : Parser.newFromParserData ho0 fuel0 pd start = .ok P)
    (hs : StartSymbol pd st0) (vm : VM I S) (htp : TreePreserving vm) (htot : Total vm) (text rest : Str) (s : S) :
    (∃ t c, Parser.parse ho fuel vm P text s = (.ok t, c) ∧ c.proc.rest = rest) ↔
      ∃ f, TopDown pd start [st0] text f rest ∧ f.height ≤ fuel :=
  parse_topDown hw (newFromParserData_ok hw hP).2 hs htp htot fuel text rest s

/-- **C30**, the part that holds: whatever index is given at construction, scripts are parsed from the non-terminal named
`start`: an accepted script begins with a sentence of that non-terminal, which is what is consumed, and the accepted
scripts are exactly those that can be read top-down from it.  (The given index has an influence only on the control
sets.)  So the claim is true exactly for the index of `start`. -/
theorem C30_parses_from_start_partial (hw : WellFormed pd) (hP : Parser.newFromParserData ho0 fuel0 pd start = .ok P)
    (hs : StartSymbol pd st0) (vm : VM I S) (text rest : Str) (s : S) :
    (∀ t c, Parser.parse ho fuel vm P text s = (.ok t, c) →
      ∃ consumed, text = consumed ++ c.proc.rest ∧ Language (grammarOf pd) st0 consumed) ∧
    (TreePreserving vm → Total vm →
      ((∃ t c, Parser.parse ho fuel vm P text s = (.ok t, c) ∧ c.proc.rest = rest) ↔
        ∃ f, TopDown pd start [st0] text f rest ∧ f.height ≤ fuel)) :=
  ⟨fun _ _ h => C21_parse_sound hw hP hs vm h, fun htp htot => C68_accepts_exactly hw hP hs vm htp htot text rest s⟩

/-- **C68**, the tree and the unread rest are determined by the script. -/
theorem C68_reading_unique (hw : WellFormed pd) (hP : Parser.newFromParserData ho0 fuel0 pd start = .ok P)
    {els : List Nat} {w r r' : Str} {f f' : Forest} (h : TopDown pd start els w f r) (h' : TopDown pd start els w f' r') :
    f = f' ∧ r = r' := by
  obtain ⟨ha, -⟩ := newFromParserData_ok hw hP
  induction h generalizing r' f' with
  | nil => cases h'; exact ⟨rfl, rfl⟩
  | @leaf e es d w r f h1 h2 _ ih =>
    generalize hw' : d.name ++ w = w' at h'
    cases h' with
    | @leaf _ _ d' w' _ f' _ h2' t =>
      rw [h2] at h2'
      cases h2'
      have := List.append_cancel_left hw'
      subst this
      obtain ⟨rfl, rfl⟩ := ih t
      exact ⟨rfl, rfl⟩
    | node h1' => rw [h1] at h1'; cases h1'
  | @node A es rule p w w1 r k f h1 h2 h3 h4 _ _ ih1 ih2 =>
    generalize hw' : w = w' at h'
    cases h' with
    | leaf h1' => rw [h1] at h1'; cases h1'
    | @node _ _ rule' p' _ w1' _ k' f' h1' h2' h3' h4' t1 t2 =>
      subst hw'
      rw [h2] at h2'
      cases h2'
      have := control_unique ha.disjoint h2 h3 h3' h4 h4'
      subst this
      obtain ⟨rfl, rfl⟩ := ih1 t1
      obtain ⟨rfl, rfl⟩ := ih2 t2
      exact ⟨rfl, rfl⟩

/-- **C68**, rejection: a script that cannot be read that way is answered with a syntax error, as soon as the
call depth suffices for its length. -/
theorem C68_otherwise_error (hw : WellFormed pd) (hP : Parser.newFromParserData ho0 fuel0 pd start = .ok P)
    (hs : StartSymbol pd start) (vm : VM I S) (htp : TreePreserving vm) (htot : Total vm) (text : Str) (s : S)
    (hno : ∀ f rest, ¬ TopDown pd start [start] text f rest) (hf : (text.length + 1) * pd.rules.length + 1 ≤ fuel) :
    (∃ c pos exp, (Parser.parse ho fuel vm P text s).1 = .err (.unexpectedChar c pos exp)) ∨
    (∃ pos, (Parser.parse ho fuel vm P text s).1 = .err (.endOfChars pos)) := by
  obtain ⟨ha, hpf⟩ := newFromParserData_ok hw hP
  have h1 := parse_depth hw ha hpf hs ho vm text s hf
  have h2 := C29_only_syntax_errors (ho := ho) (fuel := fuel) hw hP hs vm htp htot text s
  have h3 := C68_accepts_exactly (ho := ho) (fuel := fuel) hw hP hs vm htp htot text
  rcases hx : Parser.parse ho fuel vm P text s with ⟨r, c⟩
  rw [hx] at h1 h2
  cases r with
  | timeout => exact absurd rfl h1
  | panic => exact absurd rfl h2.1
  | ok t =>
    obtain ⟨f, hf, -⟩ := (h3 c.proc.rest s).1 ⟨t, c, hx, rfl⟩
    exact absurd hf (hno _ _)
  | err e =>
    rcases h2.2 e rfl with ⟨a, b, d, rfl⟩ | ⟨a, rfl⟩
    · exact .inl ⟨a, b, d, rfl⟩
    · exact .inr ⟨a, rfl⟩

/-- **C68**, why `parse` stops early: if text is left unread, no sentence of the language begins with what was
read and the next character. -/
theorem C68_stops_only_when_forced (hw : WellFormed pd) (hP : Parser.newFromParserData ho0 fuel0 pd start = .ok P)
    (hs : StartSymbol pd start) (vm : VM I S) {text : Str} {s : S} {t : Tree Str} {c : Ctx S} {x : Char} {r : Str}
    (h : Parser.parse ho fuel vm P text s = (.ok t, c)) (hr : c.proc.rest = x :: r) :
    ∃ consumed, text = consumed ++ x :: r ∧ Language (grammarOf pd) start consumed ∧
      ∀ z, ¬ Language (grammarOf pd) start (consumed ++ x :: z) := by
  obtain ⟨ha, hpf⟩ := newFromParserData_ok hw hP
  obtain ⟨⟨o, c'⟩, ⟨s', rest', h1, h2, h3⟩, he⟩ := parse_good hw ha hpf hs ho fuel vm text s
  rw [h] at he
  cases o with
  | ok a =>
    obtain ⟨f, hf, hdet, -⟩ := h3
    simp only [Res.bind, Prod.mk.injEq] at he
    obtain ⟨-, rfl⟩ := he
    simp only [List.nil_append] at h2
    have hrest : rest' = x :: r := by rw [← hr, h2]; rfl
    subst hrest
    refine ⟨s', h1, ?_, ?_⟩
    · have := hf.derives
      rwa [formOf_start hs] at this
    · intro z hz
      have := hdet [] [] (ofText (x :: z)) (by rw [formOf_start hs]; exact .refl) (cont_char x r _)
        (by rw [formOf_start hs, ← ofText_append]; exact hz)
      have := Derives.nil_inv this
      simp [ofText] at this
  | err e => simp [Res.bind] at he
  | panic => simp [Res.bind] at he
  | timeout => simp [Res.bind] at he

/-! ### C67 -/

/-- **C67.** A recursion depth of one more than the number of rules suffices to compute the FIRST sets of
every well-formed, complete grammar without left recursion. -/
theorem C67_first_depth (hw : WellFormed pd) (hd : AllDefined pd) (hlr : ∀ A, ¬ LeftRecursive (grammarOf pd) A)
    (ho : HashOrder) (hf : pd.rules.length + 1 ≤ fuel) : ∃ fs, getFirstSets ho fuel pd = .ok fs :=
  getFirstSets_depth hw hd hlr ho hf

/-- **C67.** A recursion depth of (length of the script + 1) times the number of rules, plus one, suffices
for every parse, whatever the VM does. -/
theorem C67_parse_depth (hw : WellFormed pd) (hP : Parser.newFromParserData ho0 fuel0 pd start = .ok P)
    (hs : StartSymbol pd st0) (vm : VM I S) (text : Str) (s : S)
    (hf : (text.length + 1) * pd.rules.length + 1 ≤ fuel) : (Parser.parse ho fuel vm P text s).1 ≠ .timeout := by
  obtain ⟨ha, hpf⟩ := newFromParserData_ok hw hP
  exact parse_depth hw ha hpf hs ho vm text s hf

/-- **C67.** On a script of the language the recursion depth needed is exactly the height of its parse tree:
with less `parse` does not return, with as much it returns `Ok`. -/
theorem C67_depth_is_tree_height (hw : WellFormed pd) (hP : Parser.newFromParserData ho0 fuel0 pd start = .ok P)
    (hs : StartSymbol pd start) (vm : VM I S) (htp : TreePreserving vm) (htot : Total vm) {text : Str} {f : Forest}
    (hf : IsForest pd [start] f text) (s : S) :
    (f.height ≤ fuel → ∃ t c, Parser.parse ho fuel vm P text s = (.ok t, c) ∧ c.proc.rest = []) ∧
    (fuel < f.height → (Parser.parse ho fuel vm P text s).1 = .timeout) := by
  obtain ⟨ha, hpf⟩ := newFromParserData_ok hw hP
  have hl : Language (grammarOf pd) start text := by
    have := hf.derives
    rwa [formOf_start hs] at this
  have htd : TopDown pd start [start] text f [] := by
    obtain ⟨N, hN⟩ := C22_parse_complete hw hP hs vm htp htot hl
    obtain ⟨t, c, h1, h2⟩ := hN N (Nat.le_refl _) ho s
    obtain ⟨f', hf', -⟩ := (C68_accepts_exactly hw hP hs vm htp htot text [] s).1 ⟨t, c, h1, h2⟩
    obtain ⟨s', h3, h4⟩ := hf'.isForest
    rw [List.append_nil] at h3
    subst h3
    have := C19_unambiguous hw hP hf h4
    rw [this]; exact hf'
  constructor
  · intro hh
    exact (C68_accepts_exactly hw hP hs vm htp htot text [] s).2 ⟨f, htd, hh⟩
  · intro hh
    have h2 := C29_only_syntax_errors (ho := ho) (fuel := fuel) hw hP hs vm htp htot text s
    have h3 := parse_good hw ha hpf hs ho fuel vm text s
    rcases hx : Parser.parse ho fuel vm P text s with ⟨r, c⟩
    rw [hx] at h2
    cases r with
    | timeout => rfl
    | panic => exact absurd rfl h2.1
    | ok t =>
      obtain ⟨f', hf', hh'⟩ := (C68_accepts_exactly hw hP hs vm htp htot text _ s).1 ⟨t, c, hx, rfl⟩
      obtain ⟨rfl, -⟩ := C68_reading_unique hw hP hf' htd
      omega
    | err e =>
      exfalso
      obtain ⟨⟨o, c'⟩, ⟨s', rest', h1, h2', h4⟩, he⟩ := h3
      rw [hx] at he
      cases o with
      | ok a => simp [Res.bind] at he
      | panic => simp [Res.bind] at he
      | timeout => simp [Res.bind] at he
      | err e' =>
        obtain ⟨v, -, -, hdead, htr⟩ := h4
        exact hdead (htr htp [] none .new parOk_root) [] [] (ofText rest') (by rw [formOf_start hs]; exact .refl)
          (cont_refl _) (by rw [formOf_start hs, ← ofText_append, ← h1]; exact hl)

/-- The grammar `start -> "(" start ")" | "";` with the empty alternative. -/
def Samples.nestData : ParserData Nat :=
  let pd : ParserData Nat := ParserData.new
  let (start, pd) := pd.getOrAddNonTerminal (c% "start")
  let (l, pd) := pd.getOrAddTerminal (c% "(")
  let (r, pd) := pd.getOrAddTerminal (c% ")")
  pd.setProductions start [[l, start, r], []]

theorem Samples.nestData_wf : WellFormed Samples.nestData := Samples.wf_of_check rfl
theorem Samples.nestData_start : StartSymbol Samples.nestData 0 := Samples.start_of_check rfl

/-- `n` opening and `n` closing brackets. -/
def Samples.nest : Nat → Str
  | 0 => []
  | n + 1 => '(' :: (Samples.nest n ++ [')'])

/-- Their parse tree. -/
def Samples.nestTree : Nat → Forest
  | 0 => .node 0 .empty .nil .nil
  | n + 1 => .node 0 (.notEmpty [1, 0, 2]) (.leaf 1 (Forest.append (Samples.nestTree n) (.leaf 2 .nil))) .nil

theorem Samples.nestTree_isForest (n : Nat) : IsForest Samples.nestData [0] (Samples.nestTree n) (Samples.nest n) := by
  induction n with
  | zero => exact .node (s1 := []) (s2 := []) rfl rfl (.tail _ (.head _)) .nil .nil
  | succ n ih =>
    have h2 : IsForest Samples.nestData [2] (.leaf 2 .nil) (c% ")") :=
      .leaf (d := ⟨false, c% ")"⟩) (s := []) rfl rfl .nil
    have h1 : IsForest Samples.nestData [1, 0, 2] (.leaf 1 (Forest.append (Samples.nestTree n) (.leaf 2 .nil)))
        ('(' :: (Samples.nest n ++ [')'])) :=
      .leaf (d := ⟨false, c% "("⟩) rfl rfl (ih.append h2)
    have h3 : IsForest Samples.nestData [0] (Samples.nestTree (n + 1)) (('(' :: (Samples.nest n ++ [')'])) ++ []) :=
      .node rfl rfl (.head _) h1 .nil
    simpa [Samples.nest] using h3

theorem Samples.nestTree_height (n : Nat) : (Samples.nestTree n).height = n + 1 := by
  induction n with
  | zero => rfl
  | succ n ih =>
    have : (Forest.append (Samples.nestTree n) (.leaf 2 .nil)).height = n + 1 := by
      cases n with
      | zero => rfl
      | succ n => simp only [Samples.nestTree, Forest.append, Forest.height] at ih ⊢; omega
    simp only [Samples.nestTree, Forest.height, this]
    omega

theorem Samples.nest_length (n : Nat) : (Samples.nest n).length = 2 * n := by
  induction n with
  | zero => rfl
  | succ n ih => simp [Samples.nest, ih]; omega

/-- **C67**, no fixed depth suffices: for one and the same parser, `n` nested brackets, a script of `2 n`
characters of the language, need recursion depth `n + 1`; with depth `n` the parse does not return. -/
theorem C67_no_fixed_depth : ∃ P, Parser.newFromParserData .insertion 9 Samples.nestData 0 = .ok P ∧
    ∀ n, (Samples.nest n).length = 2 * n ∧ Language (grammarOf Samples.nestData) 0 (Samples.nest n) ∧
      ∀ ho, (Parser.parse ho n nullVm P (Samples.nest n) 0).1 = .timeout ∧
        ∃ t c, Parser.parse ho (n + 1) nullVm P (Samples.nest n) 0 = (.ok t, c) ∧ c.proc.rest = [] := by
  refine ⟨_, rfl, fun n => ⟨Samples.nest_length n, ?_, fun ho => ?_⟩⟩
  · exact (C19_tree_iff_language Samples.nestData_wf (A := 0) rfl _).1 ⟨_, Samples.nestTree_isForest n⟩
  · have h := fun fuel => C67_depth_is_tree_height (ho0 := .insertion) (fuel0 := 9) (start := 0) (ho := ho) (fuel := fuel)
      Samples.nestData_wf rfl Samples.nestData_start nullVm nullVm_treePreserving nullVm_total (Samples.nestTree_isForest n) 0
    rw [Samples.nestTree_height] at h
    exact ⟨(h n).2 (by omega), (h (n + 1)).1 (Nat.le_refl _)⟩

/-- C68 on a script of the list grammar, read to its end. -/
example : TopDown Samples.listData 0 [0] (c% "ab,c")
    (.node 0 (.notEmpty [1, 2]) (.node 1 (.notEmpty [4]) (.leaf 4 .nil)
      (.node 2 (.notEmpty [3, 1, 2]) (.leaf 3 (.node 1 (.notEmpty [5]) (.leaf 5 .nil)
        (.node 2 .empty .nil .nil))) .nil)) .nil) [] := by
  obtain ⟨f, hf, -⟩ := (C68_accepts_exactly (ho := .insertion) (fuel := 20) (st0 := 0) Samples.listData_wf Samples.listParser_eq
    Samples.listData_start nullVm nullVm_treePreserving nullVm_total (c% "ab,c") [] 0).1 (Samples.okRest_eq (by decide +kernel))
  obtain ⟨s, h1, h2⟩ := hf.isForest
  rw [List.append_nil] at h1
  subst h1
  rw [C19_unambiguous Samples.listData_wf Samples.listParser_eq (f := f) h2 ?_] at hf
  · exact hf
  · refine .node (s1 := c% "ab,c") (s2 := []) rfl rfl (.head _) ?_ .nil
    refine .node (s1 := c% "ab") (s2 := c% ",c") rfl rfl (.head _) (.leaf (d := ⟨false, c% "ab"⟩) rfl rfl .nil) ?_
    refine .node (s1 := c% ",c") (s2 := []) rfl rfl (.head _) ?_ .nil
    refine .leaf (d := ⟨false, c% ","⟩) (s := c% "c") rfl rfl ?_
    refine .node (s1 := c% "c") (s2 := []) rfl rfl (.tail _ (.head _)) (.leaf (d := ⟨false, c% "c"⟩) rfl rfl .nil) ?_
    exact .node (s1 := []) (s2 := []) rfl rfl (.tail _ (.head _)) .nil .nil

/-- C68 on a script with text left over: with `start -> "a"` the script `ab` is read up to the `b`. -/
example : TopDown Samples.twoData 0 [0] (c% "ab") (.node 0 (.notEmpty [2]) (.leaf 2 .nil) .nil) (c% "b") ∧
    ∃ t c, Parser.parse .insertion 1 nullVm Samples.twoParser (c% "ab") 0 = (.ok t, c) ∧ c.proc.rest = c% "b" := by
  have h : TopDown Samples.twoData 0 [0] (c% "ab") (.node 0 (.notEmpty [2]) (.leaf 2 .nil) .nil) (c% "b") :=
    .node rfl rfl (.head _) (.inl ⟨rfl, ⟨false, c% "a"⟩, 'a', rfl, rfl, rfl⟩)
      (.leaf (d := ⟨false, c% "a"⟩) (w := c% "b") rfl rfl .nil) .nil
  exact ⟨h, (C68_accepts_exactly (ho0 := .insertion) (fuel0 := 9) (start := 0) Samples.twoData_wf rfl Samples.twoData_start
    nullVm nullVm_treePreserving nullVm_total _ _ 0).2 ⟨_, h, Nat.le_refl _⟩⟩

/-- C68 on a rejected script: `b` cannot be read. -/
example : ∀ f rest, ¬ TopDown Samples.twoData 0 [0] (c% "b") f rest := by
  intro f rest h
  obtain ⟨s, h1, h2⟩ := h.isForest
  have h3 := Samples.twoData_language ((C19_tree_iff_language Samples.twoData_wf (A := 0) rfl s).1 ⟨_, h2⟩)
  subst h3
  simp at h1

end HPP
