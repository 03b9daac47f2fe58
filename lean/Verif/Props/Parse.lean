import Verif.Proofs.ParseTop
import Verif.Proofs.ScriptPos
import Verif.Proofs.Determinism
import Verif.Proofs.VmIndep
import Verif.Props.Steuer
import Verif.Model.VMs
/-
Properties C19, C21-C31: what a constructed parser does with a script.

`Parser.newFromParserData ho0 fuel0 pd start = .ok P` says that `P` was constructed from the grammar `pd` (with
any hash orders `ho0`); `StartSymbol pd start` says that the given start index is the non-terminal named
`start`.  `fuel` bounds the call depth of `parse`; `C24_parse_terminates` shows that some depth always
suffices.
-/
namespace HPP
open Spec
variable {I S : Type} {pd : ParserData I} {start st0 : Nat} {P : Parser I} {ho0 ho : HashOrder}
  {fuel0 fuel : Nat}

/-! ### samples -/

/-- `StartSymbol` of concrete data is decidable: only indices below the number of elements matter. -/
theorem Samples.start_of_check {I : Type} {pd : ParserData I} {i : Nat}
    (h : (decide (pd.getElementVerbose i = some ⟨c% "start", .nonTerminal⟩) &&
      (List.range pd.elementData.length).all (fun j =>
        decide (pd.getElementVerbose j = some ⟨c% "start", .nonTerminal⟩ → j = i))) = true) :
    StartSymbol pd i := by
  simp only [Bool.and_eq_true, decide_eq_true_eq, List.all_eq_true, List.mem_range] at h
  refine ⟨h.1, fun j hj => h.2 j ?_ hj⟩
  rcases Nat.lt_or_ge j pd.elementData.length with hlt | hge
  · exact hlt
  · have : pd.elementData[j]? = none := List.getElem?_eq_none hge
    simp [ParserData.getElementVerbose, this] at hj

theorem Samples.listData_start : StartSymbol Samples.listData 0 := Samples.start_of_check rfl

theorem nullVm_treePreserving : TreePreserving nullVm := by
  intro t id i s t' s' h
  simp [nullVm] at h
  exact h.1.symm

theorem nullVm_total : Total nullVm := by
  intro t id i s h
  simp [nullVm] at h

theorem countingVm_treePreserving (checked : Bool) : TreePreserving (countingVm checked) := by
  intro t id i s t' s' h
  simp only [countingVm, Option.map_eq_some_iff] at h
  obtain ⟨a, -, h⟩ := h
  exact (Prod.mk.inj h).1.symm

/-! ### the language -/

/-- **C19.** If a parser is constructed, no text has two parse trees from the start symbol. -/
theorem C19_unambiguous (hw : WellFormed pd) (hP : Parser.newFromParserData ho0 fuel0 pd start = .ok P)
    {f f' : Forest} {s : Str} (h : IsForest pd [start] f s) (h' : IsForest pd [start] f' s) : f = f' := by
  obtain ⟨ha, -⟩ := newFromParserData_ok hw hP
  obtain ⟨r, hr⟩ := ha.startDefined
  have hform : formOf pd [start] = [.nt start] := by simp [elemForm_nonTerminal (hw.keysNT _ _ hr)]
  exact (forest_unique hw ha h (u := []) (K := []) (z := []) (z' := []) (B0 := start) h'
    (by rw [hform]; exact .refl) .refl .refl (.inl ⟨rfl, rfl⟩) (.inl ⟨rfl, rfl⟩) rfl).1

/-- **C19** for every non-terminal that something can follow (a character, or the end of a script): no text
has two parse trees for it. -/
theorem C19_unambiguous_nt (hw : WellFormed pd) (hP : Parser.newFromParserData ho0 fuel0 pd start = .ok P)
    {A : Nat} (hA : pd.elementTypes[A]? = some .nonTerminal)
    (hfol : FollowEnd (grammarOf pd) start A ∨ ∃ c, FollowChar (grammarOf pd) A c)
    {f f' : Forest} {s : Str} (h : IsForest pd [A] f s) (h' : IsForest pd [A] f' s) : f = f' := by
  obtain ⟨ha, -⟩ := newFromParserData_ok hw hP
  have hform : formOf pd [A] = [.nt A] := by simp [elemForm_nonTerminal hA]
  rcases hfol with ⟨u, hu⟩ | ⟨c, B, u, v, -, hu⟩
  · exact (forest_unique hw ha h (u := u) (K := []) (z := []) (z' := []) (B0 := start) h'
      (by simpa [hform] using hu) .refl .refl (.inl ⟨rfl, rfl⟩) (.inl ⟨rfl, rfl⟩) rfl).1
  · exact (forest_unique hw ha h (u := u) (K := .ch c :: v) (z := .ch c :: v) (z' := .ch c :: v) (B0 := B) h'
      (by simpa [hform] using hu) .refl .refl (.inr ⟨c, v, rfl⟩) (.inr ⟨c, v, rfl⟩) rfl).1

/-- Parse trees and derivations describe the same texts (so C19 is about all derivable texts). -/
theorem C19_tree_iff_language (hw : WellFormed pd) {A : Nat} (hA : pd.elementTypes[A]? = some .nonTerminal)
    (s : Str) : (∃ f, IsForest pd [A] f s) ↔ Language (grammarOf pd) A s := by
  have hform : formOf pd [A] = [.nt A] := by simp [elemForm_nonTerminal hA]
  constructor
  · rintro ⟨f, hf⟩
    have := hf.derives
    rwa [hform] at this
  · intro h
    refine exists_forest hw (fun e he => ?_) (by rw [hform]; exact h)
    simp at he; subst he
    exact (List.getElem?_eq_some_iff.mp hA).1

/-- The grammar `start -> "a"; A -> B | #; B -> #;`: nothing follows `A`. -/
def Samples.danglingData : ParserData Nat :=
  let pd : ParserData Nat := ParserData.new
  let (start, pd) := pd.getOrAddNonTerminal (c% "start")
  let (A, pd) := pd.getOrAddNonTerminal (c% "A")
  let (B, pd) := pd.getOrAddNonTerminal (c% "B")
  let (a, pd) := pd.getOrAddTerminal (c% "a")
  let pd := pd.setProductions start [[a]]
  let pd := pd.setProductions A [[B], []]
  pd.setProductions B [[]]

/-- The restriction in `C19_unambiguous_nt` is needed: an unused non-terminal may be ambiguous although a
parser is constructed. -/
theorem C19_unused_may_be_ambiguous :
    ∃ P, Parser.newFromParserData .insertion 9 Samples.danglingData 0 = .ok P ∧
      ∃ f f', f ≠ f' ∧ IsForest Samples.danglingData [1] f [] ∧ IsForest Samples.danglingData [1] f' [] := by
  refine ⟨_, rfl, .node 1 (.notEmpty [2]) (.node 2 .empty .nil .nil) .nil, .node 1 .empty .nil .nil,
    by decide, ?_, ?_⟩
  · exact .node (s1 := []) (s2 := []) rfl rfl (.head _) (.node (s1 := []) (s2 := []) rfl rfl (.head _) .nil .nil) .nil
  · exact .node (s1 := []) (s2 := []) rfl rfl (.tail _ (.head _)) .nil .nil

/-- Hypotheses of C19 are met with a non-trivial tree: the tree of `ab,c` in the list grammar. -/
example : IsForest Samples.listData [0]
    (.node 0 (.notEmpty [1, 2]) (.node 1 (.notEmpty [4]) (.leaf 4 .nil)
      (.node 2 (.notEmpty [3, 1, 2]) (.leaf 3 (.node 1 (.notEmpty [5]) (.leaf 5 .nil)
        (.node 2 .empty .nil .nil))) .nil)) .nil) (c% "ab,c") := by
  refine .node (s1 := c% "ab,c") (s2 := []) rfl rfl (.head _) ?_ .nil
  refine .node (s1 := c% "ab") (s2 := c% ",c") rfl rfl (.head _) (.leaf (d := ⟨false, c% "ab"⟩) rfl rfl .nil) ?_
  refine .node (s1 := c% ",c") (s2 := []) rfl rfl (.head _) ?_ .nil
  refine .leaf (d := ⟨false, c% ","⟩) (s := c% "c") rfl rfl ?_
  refine .node (s1 := c% "c") (s2 := []) rfl rfl (.tail _ (.head _)) (.leaf (d := ⟨false, c% "c"⟩) rfl rfl .nil) ?_
  exact .node (s1 := []) (s2 := []) rfl rfl (.tail _ (.head _)) .nil .nil

/-- **C21.** If `parse` returns `Ok`, the script splits into a consumed part, which is in the language of the
start symbol, and the unread rest (any VM, any hash orders). -/
theorem C21_parse_sound (hw : WellFormed pd) (hP : Parser.newFromParserData ho0 fuel0 pd start = .ok P)
    (hs : StartSymbol pd st0) (vm : VM I S) {text : Str} {s : S} {t : Tree Str} {c : Ctx S}
    (h : Parser.parse ho fuel vm P text s = (.ok t, c)) :
    ∃ consumed, text = consumed ++ c.proc.rest ∧ Language (grammarOf pd) st0 consumed := by
  obtain ⟨ha, hpf⟩ := newFromParserData_ok hw hP
  obtain ⟨⟨r, c'⟩, ⟨s', rest', h1, h2, h3⟩, he⟩ := parse_good hw ha hpf hs ho fuel vm text s
  rw [h] at he
  cases r with
  | ok a =>
    obtain ⟨f, hf, -⟩ := h3
    simp only [Res.bind, Prod.mk.injEq] at he
    obtain ⟨-, rfl⟩ := he
    simp only [List.nil_append] at h2
    refine ⟨s', ?_, ?_⟩
    · rw [h2]; exact h1
    · have := hf.derives
      rwa [formOf_start hs] at this
  | err e => simp [Res.bind] at he
  | panic => simp [Res.bind] at he
  | timeout => simp [Res.bind] at he

/-- **C24.** For every constructed parser and every length, some call depth suffices for all scripts of at
most that length, all VMs, states and hash orders: `parse` returns. -/
theorem C24_parse_terminates (hw : WellFormed pd) (hP : Parser.newFromParserData ho0 fuel0 pd start = .ok P)
    (hs : StartSymbol pd st0) (n : Nat) : ∃ N, ∀ fuel, N ≤ fuel → ∀ (ho : HashOrder) (vm : VM I S)
      (text : Str) (s : S), text.length ≤ n → (Parser.parse ho fuel vm P text s).1 ≠ .timeout := by
  obtain ⟨ha, hpf⟩ := newFromParserData_ok hw hP
  exact parse_terminates hw ha hpf hs n

/-- A non-terminal occurring in a form derived from the start symbol has a rule. -/
theorem occurring_defined (hw : WellFormed pd) (ha : Acceptable pd start) {w : Form}
    (hd : Derives (grammarOf pd) [.nt start] w) :
    ∀ {x : Form} {B : Nat} {v : Form}, w = x ++ .nt B :: v → ∃ r, AMap.get pd.rules B = some r := by
  induction hd with
  | refl =>
    intro x B v hw'
    have := congrArg List.length hw'
    cases x with
    | nil => simp at hw'; rw [← hw'.1]; exact ha.startDefined
    | cons a x => simp at this
  | tail hd' hst ih =>
    intro x B v hw'
    cases hst with
    | @mk u w0 A0 rhs hG =>
      have hmem : Sym.nt B ∈ u ++ rhs ++ w0 := by rw [hw']; simp
      simp only [List.mem_append] at hmem
      rcases hmem with (hm | hm) | hm
      · obtain ⟨a, b, rfl⟩ := List.append_of_mem hm
        exact ih (x := a) (v := b ++ .nt A0 :: w0) (by simp)
      · obtain ⟨r, hr, p, hp, rfl⟩ := hG
        obtain ⟨e, hemem, hBe⟩ := List.mem_flatMap.mp hm
        have hlt := hw.inRange A0 r hr p hp e hemem
        rcases WellFormed.element hw hlt with ⟨d, hT, hD⟩ | hT
        · rw [elemForm_terminal hT hD] at hBe; simp [ofText] at hBe
        · rw [elemForm_nonTerminal hT] at hBe
          simp at hBe; subst hBe
          exact ha.defined A0 r hr p hp B hemem hT
      · obtain ⟨a, b, rfl⟩ := List.append_of_mem hm
        exact ih (x := u ++ .nt A0 :: a) (v := b) (by simp)

/-- **C29.** With a VM that neither panics nor edits the tree, `parse` never panics, and every error it
returns is an `UnexpectedCharError` or an `EndOfCharsError`. -/
theorem C29_only_syntax_errors (hw : WellFormed pd) (hP : Parser.newFromParserData ho0 fuel0 pd start = .ok P)
    (hs : StartSymbol pd start) (vm : VM I S) (htp : TreePreserving vm) (htot : Total vm) (text : Str) (s : S) :
    (Parser.parse ho fuel vm P text s).1 ≠ .panic ∧
    ∀ e, (Parser.parse ho fuel vm P text s).1 = .err e →
      (∃ chr pos exp, e = .unexpectedChar chr pos exp) ∨ (∃ pos, e = .endOfChars pos) := by
  obtain ⟨ha, hpf⟩ := newFromParserData_ok hw hP
  obtain ⟨⟨r, c'⟩, ⟨s', rest', h1, h2, h3⟩, he⟩ := parse_good hw ha hpf hs ho fuel vm text s
  rw [he]
  cases r with
  | ok a => simp [Res.bind]
  | timeout => simp [Res.bind]
  | panic => exact absurd parOk_root (h3.2 htp htot [] none .new)
  | err e =>
    simp only [Res.bind, ne_eq, reduceCtorEq, not_false_eq_true, Res.err.injEq, true_and]
    rintro e' rfl
    obtain ⟨v, hv, hsh, -, htr⟩ := h3
    have htr := htr htp [] none .new parOk_root
    rw [formOf_start hs] at hv
    cases e with
    | unexpectedChar chr pos exp => exact .inl ⟨_, _, _, rfl⟩
    | endOfChars pos => exact .inr ⟨_, rfl⟩
    | tree e => exact absurd trivial htr
    | gram g =>
      cases g with
      | missingProduction B =>
        obtain ⟨hB, v', rfl⟩ := hsh
        obtain ⟨r, hr⟩ := occurring_defined hw ha hv rfl
        rw [hB] at hr; cases hr
      | _ => exact hsh.elim
    | unknownSpecialOperation => exact hsh.elim
    | impossible => exact hsh.elim
    | internal => exact hsh.elim
    | vmError => exact hsh.elim

/-- **C22.** Every script of the language is accepted and read to its end. -/
theorem C22_parse_complete (hw : WellFormed pd) (hP : Parser.newFromParserData ho0 fuel0 pd start = .ok P)
    (hs : StartSymbol pd start) (vm : VM I S) (htp : TreePreserving vm) (htot : Total vm) {text : Str}
    (hl : Language (grammarOf pd) start text) :
    ∃ N, ∀ fuel, N ≤ fuel → ∀ (ho : HashOrder) (s : S),
      ∃ t c, Parser.parse ho fuel vm P text s = (.ok t, c) ∧ c.proc.rest = [] := by
  obtain ⟨N, hN⟩ := C24_parse_terminates (S := S) hw hP hs text.length
  refine ⟨N, fun fuel hf ho s => ?_⟩
  have hnt := hN fuel hf ho vm text s (Nat.le_refl _)
  have hse := C29_only_syntax_errors (ho := ho) (fuel := fuel) hw hP hs vm htp htot text s
  obtain ⟨ha, hpf⟩ := newFromParserData_ok hw hP
  obtain ⟨⟨r, c'⟩, ⟨s', rest', h1, h2, h3⟩, he⟩ := parse_good hw ha hpf hs ho fuel vm text s
  rw [he] at hnt hse ⊢
  have hform := formOf_start hs
  cases r with
  | timeout => exact absurd rfl hnt
  | panic => exact absurd rfl hse.1
  | ok a =>
    obtain ⟨f, hf, hdet, -⟩ := h3
    refine ⟨_, _, rfl, ?_⟩
    have := hdet [] [] (ofText rest') (by rw [hform]; exact .refl) (cont_refl _)
      (by rw [hform, ← ofText_append, ← h1]; exact hl)
    have hr : rest' = [] := by
      have h := Derives.nil_inv this
      cases rest' with
      | nil => rfl
      | cons a b => simp [ofText] at h
    have h2' : c'.proc = procAt ([] ++ s') rest' := h2
    rw [h2']
    exact hr
  | err e =>
    obtain ⟨v, hv, hsh, hdead, htr⟩ := h3
    exact absurd (by rw [hform, ← ofText_append, ← h1]; exact hl)
      (hdead (htr htp [] none .new parOk_root) [] [] (ofText rest') (by rw [hform]; exact .refl) (cont_refl _))

/-- The grammar `start -> "a"; other -> "b";`. -/
def Samples.twoData : ParserData Nat :=
  let pd : ParserData Nat := ParserData.new
  let (start, pd) := pd.getOrAddNonTerminal (c% "start")
  let (other, pd) := pd.getOrAddNonTerminal (c% "other")
  let (a, pd) := pd.getOrAddTerminal (c% "a")
  let (b, pd) := pd.getOrAddTerminal (c% "b")
  let pd := pd.setProductions start [[a]]
  pd.setProductions other [[b]]

theorem Samples.twoData_start : StartSymbol Samples.twoData 0 := Samples.start_of_check rfl
theorem Samples.twoData_wf : WellFormed Samples.twoData := Samples.wf_of_check rfl

/-- The only text of `start` in `twoData` is `a`. -/
theorem Samples.twoData_language {s : Str} (h : Language (grammarOf Samples.twoData) 0 s) : s = c% "a" := by
  obtain ⟨f, hf⟩ := (C19_tree_iff_language Samples.twoData_wf (A := 0) rfl s).mpr h
  cases hf with
  | leaf h1 => cases h1
  | node h1 h2 h3 h4 h5 =>
    cases h5
    cases h2
    rcases List.mem_singleton.mp h3 with rfl
    cases h4 with
    | node h1 => cases h1
    | leaf h6 h7 h8 =>
      cases h8
      cases h7
      rfl

/-- The parser the code constructs for `twoData`. -/
def Samples.twoParser : Parser Nat where
  rules := [(0, ⟨[(.char 'a', .notEmpty [2])], none, []⟩), (1, ⟨[(.char 'b', .notEmpty [3])], none, []⟩)]
  elements := [⟨c% "start", .nonTerminal⟩, ⟨c% "other", .nonTerminal⟩, ⟨c% "a", .terminal⟩, ⟨c% "b", .terminal⟩]

/-- The parser the code constructs for `listData`. -/
def Samples.listParser : Parser Nat where
  rules := [(0, ⟨[(.char 'a', .notEmpty [1, 2]), (.char 'c', .notEmpty [1, 2])], none, [1, 2]⟩),
    (2, ⟨[(.char ',', .notEmpty [3, 1, 2]), (.terminate, .empty)], none, [7]⟩),
    (1, ⟨[(.char 'a', .notEmpty [4]), (.char 'c', .notEmpty [5])], none, []⟩)]
  elements := [⟨c% "start", .nonTerminal⟩, ⟨c% "item", .nonTerminal⟩, ⟨c% "rest", .nonTerminal⟩,
    ⟨c% ",", .terminal⟩, ⟨c% "ab", .terminal⟩, ⟨c% "c", .terminal⟩]

theorem Samples.listParser_eq : Parser.newFromParserData .insertion 9 Samples.listData 0 = .ok Samples.listParser := rfl

/-- The text left unread by a successful parse. -/
def Samples.okRest {S : Type} (x : Res PErr (Tree Str) × Ctx S) : Option Str :=
  match x with
  | (.ok _, c) => some c.proc.rest
  | _ => none

theorem Samples.okRest_eq {S : Type} {x : Res PErr (Tree Str) × Ctx S} {r : Str} (h : Samples.okRest x = some r) :
    ∃ t c, x = (.ok t, c) ∧ c.proc.rest = r := by
  obtain ⟨a, c⟩ := x
  cases a <;> simp [Samples.okRest] at h
  exact ⟨_, _, rfl, h⟩

/-- The error of a failed parse. -/
def Samples.errOf {S : Type} (x : Res PErr (Tree Str) × Ctx S) : Option PErr :=
  match x with
  | (.err e, _) => some e
  | _ => none

theorem Samples.errOf_eq {S : Type} {x : Res PErr (Tree Str) × Ctx S} {e : PErr} (h : Samples.errOf x = some e) :
    ∃ c, x = (.err e, c) := by
  obtain ⟨a, c⟩ := x
  cases a <;> simp [Samples.errOf] at h
  exact ⟨c, by rw [h]⟩

/-- **C23 is false**: with `start -> "a"` the script `ab` is accepted, although it is not in the language. -/
theorem C23_trailing_input_refuted :
    ∃ (P : Parser Nat) (t : Tree Str) (c : Ctx Nat), StartSymbol Samples.twoData 0 ∧
      Parser.newFromParserData .insertion 9 Samples.twoData 0 = .ok P ∧
      Parser.parse .insertion 9 nullVm P (c% "ab") 0 = (.ok t, c) ∧
      ¬ Language (grammarOf Samples.twoData) 0 (c% "ab") := by
  obtain ⟨t, c, h, -⟩ := Samples.okRest_eq (r := c% "b")
    (x := Parser.parse .insertion 9 nullVm Samples.twoParser (c% "ab") 0) (by decide +kernel)
  refine ⟨Samples.twoParser, t, c, Samples.twoData_start, rfl, h, fun h => ?_⟩
  exact absurd (Samples.twoData_language h) (by decide)

/-- **C23**, the part that holds: the script is in the language exactly if `parse` returns `Ok` without
leaving unread text.  Missing: `Ok` with unread text is possible. -/
theorem C23_consumed_all_partial (hw : WellFormed pd) (hP : Parser.newFromParserData ho0 fuel0 pd start = .ok P)
    (hs : StartSymbol pd start) (vm : VM I S) (htp : TreePreserving vm) (htot : Total vm) (text : Str) :
    ∃ N, ∀ fuel, N ≤ fuel → ∀ (ho : HashOrder) (s : S),
      (Language (grammarOf pd) start text ↔
        ∃ t c, Parser.parse ho fuel vm P text s = (.ok t, c) ∧ c.proc.rest = []) := by
  by_cases hl : Language (grammarOf pd) start text
  · obtain ⟨N, hN⟩ := C22_parse_complete (S := S) hw hP hs vm htp htot hl
    exact ⟨N, fun fuel hf ho s => ⟨fun _ => hN fuel hf ho s, fun _ => hl⟩⟩
  · refine ⟨0, fun fuel _ ho s => ⟨fun h => absurd h hl, ?_⟩⟩
    rintro ⟨t, c, h, hr⟩
    obtain ⟨consumed, h1, h2⟩ := C21_parse_sound hw hP hs vm h
    rw [hr, List.append_nil] at h1
    rwa [h1]

/-- **C30 is false**: constructed with the start index of `other -> "b"`, the parser rejects `b` (which is in
the language of `other`) and accepts `a`. -/
theorem C30_start_index_refuted :
    ∃ (P : Parser Nat), Parser.newFromParserData .insertion 9 Samples.twoData 1 = .ok P ∧
      Language (grammarOf Samples.twoData) 1 (c% "b") ∧
      (∃ e c, Parser.parse .insertion 9 nullVm P (c% "b") 0 = (.err e, c)) ∧
      (∃ t c, Parser.parse .insertion 9 nullVm P (c% "a") 0 = (.ok t, c)) := by
  obtain ⟨t, c, h, -⟩ := Samples.okRest_eq (r := [])
    (x := Parser.parse .insertion 9 nullVm Samples.twoParser (c% "a") 0) (by decide +kernel)
  obtain ⟨c', h'⟩ := Samples.errOf_eq (e := .unexpectedChar 'b' 0 (c% "a"))
    (x := Parser.parse .insertion 9 nullVm Samples.twoParser (c% "b") 0) (by decide +kernel)
  refine ⟨Samples.twoParser, rfl, ?_, ⟨_, _, h'⟩, ⟨_, _, h⟩⟩
  exact .single (.mk [] [] (A := 1) (w := [.ch 'b']) ⟨_, rfl, _, .head _, rfl⟩)

/-- **C28**, first half: whatever the outcome, what has been read is a viable prefix. -/
theorem C28_viable_prefix (hw : WellFormed pd) (hP : Parser.newFromParserData ho0 fuel0 pd start = .ok P)
    (hs : StartSymbol pd st0) (vm : VM I S) (text : Str) (s : S) :
    ∃ consumed v, text = consumed ++ (Parser.parse ho fuel vm P text s).2.proc.rest ∧
      Derives (grammarOf pd) [.nt st0] (ofText consumed ++ v) := by
  obtain ⟨ha, hpf⟩ := newFromParserData_ok hw hP
  obtain ⟨⟨r, c'⟩, ⟨s', rest', h1, h2, h3⟩, he⟩ := parse_good hw ha hpf hs ho fuel vm text s
  rw [he]
  have h2' : c'.proc = procAt ([] ++ s') rest' := h2
  simp only [h2']
  rw [formOf_start hs] at h3
  cases r with
  | ok a =>
    obtain ⟨f, hf, -⟩ := h3
    have := hf.derives
    rw [formOf_start hs] at this
    exact ⟨s', [], h1, by simpa using this⟩
  | err e => obtain ⟨v, hv, -⟩ := h3; exact ⟨s', v, h1, hv⟩
  | panic => obtain ⟨⟨v, hv⟩, -⟩ := h3; exact ⟨s', v, h1, hv⟩
  | timeout => obtain ⟨v, hv⟩ := h3; exact ⟨s', v, h1, hv⟩

/-- **C28**, second half: when `parse` fails, the next character cannot continue the consumed text to a viable
prefix (and at the end of the script the consumed text is not in the language).  With the first half: a failing
parse stops exactly before the first character that is not viable. -/
theorem C28_fails_at_first_bad_character (hw : WellFormed pd)
    (hP : Parser.newFromParserData ho0 fuel0 pd start = .ok P)
    (hs : StartSymbol pd start) (vm : VM I S) (htp : TreePreserving vm) {text : Str} {s : S} {e : PErr} {c : Ctx S}
    (h : Parser.parse ho fuel vm P text s = (.err e, c)) :
    ∃ consumed, text = consumed ++ c.proc.rest ∧
      (∀ x xs, c.proc.rest = x :: xs → ∀ v, ¬ Derives (grammarOf pd) [.nt start] (ofText (consumed ++ [x]) ++ v)) ∧
      (c.proc.rest = [] → ¬ Language (grammarOf pd) start consumed) := by
  obtain ⟨ha, hpf⟩ := newFromParserData_ok hw hP
  obtain ⟨⟨r, c'⟩, ⟨s', rest', h1, h2, h3⟩, he⟩ := parse_good hw ha hpf hs ho fuel vm text s
  rw [h] at he
  have hform := formOf_start hs
  cases r with
  | ok a => simp [Res.bind] at he
  | panic => simp [Res.bind] at he
  | timeout => simp [Res.bind] at he
  | err e' =>
    simp only [Res.bind, Prod.mk.injEq, Res.err.injEq] at he
    obtain ⟨rfl, rfl⟩ := he
    obtain ⟨v, hv, hsh, hdead, htr⟩ := h3
    have hdead := hdead (htr htp [] none .new parOk_root) [] []
    have h2' : c.proc = procAt ([] ++ s') rest' := h2
    have hr : c.proc.rest = rest' := by rw [h2']; rfl
    rw [hr]
    rw [hform] at hdead
    refine ⟨s', h1, ?_, ?_⟩
    · rintro x xs rfl v hd
      refine hdead (.ch x :: v) .refl (cont_char _ _ _) ?_
      simpa [ofText] using hd
    · rintro rfl hd
      refine hdead [] .refl (cont_refl []) ?_
      simp only [List.append_nil]; exact hd

/-! ### the tree and the instructions -/

/-- **C25.** On `Ok` the root of the returned tree is node `(0, 0)`, and looking at it through `get_node` and
`get_children` shows the derivation tree: there is an alternative `p` of the start symbol and parse trees `k` of
its elements, spelling the consumed text, such that the root shows an inner node (empty data) over the trees of
`k`, and the leaf texts concatenated are the consumed text. -/
theorem C25_tree_is_derivation_tree (hw : WellFormed pd)
    (hP : Parser.newFromParserData ho0 fuel0 pd start = .ok P) (hs : StartSymbol pd st0) (vm : VM I S)
    (htp : TreePreserving vm) {text : Str} {s : S} {t : Tree Str} {c : Ctx S}
    (h : Parser.parse ho fuel vm P text s = (.ok t, c)) :
    ∃ consumed p k, text = consumed ++ c.proc.rest ∧ IsForest pd [st0] (.node st0 p k .nil) consumed ∧
      Shows t ⟨0, 0⟩ (.node [] (roses pd k)) ∧ Rose.text (.node [] (roses pd k)) = consumed ∧
      Runs vm pd (events pd 0 (.node st0 p k .nil)) s c.state := by
  obtain ⟨ha, hpf⟩ := newFromParserData_ok hw hP
  obtain ⟨⟨r, c'⟩, ⟨s', rest', h1, h2, h3⟩, he⟩ := parse_good hw ha hpf hs ho fuel vm text s
  rw [h] at he
  cases r with
  | ok a =>
    obtain ⟨f, hf, -, htree⟩ := h3
    simp only [Res.bind, Prod.mk.injEq, Res.ok.injEq] at he
    obtain ⟨rfl, rfl⟩ := he
    obtain ⟨ht, hruns⟩ := htree htp [] none .new parOk_root
    have h2' : c.proc = procAt ([] ++ s') rest' := h2
    have hcr : c.proc.rest = rest' := by rw [h2']; rfl
    rw [hcr]
    have hf' := hf
    cases hf with
    | leaf a => rw [hs.type] at a; cases a
    | @node _ _ r p k f s1 s2 g1 g2 g3 g4 g5 =>
      cases g5
      refine ⟨_, p, k, h1, hf', ?_, ?_, hruns⟩
      · exact TRep.shows_node (pd := pd) (h1 := []) (par := none) ht (by simp)
      · have := texts_roses hf'
        simpa [roses, Rose.texts] using this
  | err e => simp [Res.bind] at he
  | panic => simp [Res.bind] at he
  | timeout => simp [Res.bind] at he

/-- **C26.** On `Ok` the state is the result of running, for every occurrence of a non-terminal in the
derivation tree shown by the returned tree, in post-order, the instructions of its rule in rule order, once,
with the id of the occurrence's node and while that node shows its finished subtree. -/
theorem C26_instructions_in_post_order (hw : WellFormed pd)
    (hP : Parser.newFromParserData ho0 fuel0 pd start = .ok P) (hs : StartSymbol pd st0) (vm : VM I S)
    (htp : TreePreserving vm) {text : Str} {s : S} {t : Tree Str} {c : Ctx S}
    (h : Parser.parse ho fuel vm P text s = (.ok t, c)) :
    ∃ consumed p k, text = consumed ++ c.proc.rest ∧ IsForest pd [st0] (.node st0 p k .nil) consumed ∧
      Shows t ⟨0, 0⟩ (.node [] (roses pd k)) ∧ Runs vm pd (events pd 0 (.node st0 p k .nil)) s c.state := by
  obtain ⟨x, p, k, h1, h2, h3, -, h4⟩ := C25_tree_is_derivation_tree hw hP hs vm htp h
  exact ⟨x, p, k, h1, h2, h3, h4⟩

/-- The order of `C26` on `ab,c` in the list grammar: `item` (node 1), the second `item` (node 5), the
inner `rest` (node 7), the outer `rest` (node 3), `start` (node 0). -/
example : (events Samples.listData 0
    (.node 0 (.notEmpty [1, 2]) (.node 1 (.notEmpty [4]) (.leaf 4 .nil)
      (.node 2 (.notEmpty [3, 1, 2]) (.leaf 3 (.node 1 (.notEmpty [5]) (.leaf 5 .nil)
        (.node 2 .empty .nil .nil))) .nil)) .nil)).map (fun e => (e.num, e.nt)) =
    [(1, 1), (5, 1), (7, 2), (3, 2), (0, 0)] := rfl

/-- `ab,c` is parsed: the hypotheses of C21, C25 and C26 are met. -/
example : ∃ t c, Parser.parse .insertion 9 nullVm Samples.listParser (c% "ab,c") 0 = (.ok t, c) ∧ c.proc.rest = [] :=
  Samples.okRest_eq (by decide +kernel)

/-! ### errors -/

/-- **C27.** Error positions are exact, for any parser value, VM, hash orders: the reported position is the
number of characters read; the reported character is the one at that position, or `#` at the end. -/
theorem C27_error_positions (ho : HashOrder) (fuel : Nat) (vm : VM I S) (P : Parser I) (text : Str) (s : S) :
    (∀ chr pos exp, (Parser.parse ho fuel vm P text s).1 = .err (.unexpectedChar chr pos exp) →
      text[pos]? = some chr ∨ (pos = text.length ∧ chr = '#')) ∧
    (∀ pos, (Parser.parse ho fuel vm P text s).1 = .err (.endOfChars pos) → pos = text.length) := by
  simp only [Parser.parse]
  cases positionOf ⟨c% "start", .nonTerminal⟩ P.elements with
  | none => simp
  | some ix =>
    simp only
    have hg := PosGood.production ho vm P fuel ix none [] text ⟨Proc.ofText text, s, Tree.new⟩ rfl
    generalize parseProduction ho vm P fuel ix none ⟨Proc.ofText text, s, Tree.new⟩ = x at hg
    obtain ⟨r, c⟩ := x
    obtain ⟨s', rest', h1, h2, h3⟩ := hg
    cases r with
    | ok a => simp
    | panic => simp
    | timeout => simp
    | err e =>
      have h3 := h3 e rfl
      simp only [List.nil_append] at h3
      constructor
      · rintro chr pos exp h
        simp only [Res.err.injEq] at h
        subst h
        obtain ⟨rfl, hh | ⟨rfl, rfl⟩⟩ := h3
        · left
          rw [h1, List.getElem?_append_right (Nat.le_refl _), Nat.sub_self]
          rw [← hh]; cases rest' <;> rfl
        · right; simp [h1]
      · rintro pos h
        simp only [Res.err.injEq] at h
        subst h
        obtain ⟨rfl, rfl⟩ := h3
        simp [h1]

example : (Parser.parse .insertion 9 nullVm Samples.listParser (c% "ab;c") 0).1 =
    .err (.unexpectedChar ';' 2 (c% ",;terminate")) := by decide +kernel
example : (Parser.parse .insertion 9 nullVm Samples.listParser (c% "ab,a") 0).1 =
    .err (.endOfChars 4) := by decide +kernel

/-- **C31.** An unexpected-character error at `pos`, after reading `consumed`: either a terminal was being
matched and exactly one character is expected, or a non-terminal `B` was to be expanded, no alternative has the
next character (or the end) in its control set, and the expected text lists, without repetition, exactly the
lookaheads in the control sets of the alternatives of `B`.  In both cases the expected symbol stands right after
`consumed` in a form derivable from the start symbol. -/
theorem C31_expected_list_exact (hw : WellFormed pd)
    (hP : Parser.newFromParserData ho0 fuel0 pd start = .ok P) (hs : StartSymbol pd start) (vm : VM I S)
    {text : Str} {s : S} {chr : Char} {pos : Nat} {exp : Str} {c : Ctx S}
    (h : Parser.parse ho fuel vm P text s = (.err (.unexpectedChar chr pos exp), c)) :
    ∃ consumed, text = consumed ++ c.proc.rest ∧ pos = consumed.length ∧
      ((∃ c' v, exp = [c'] ∧ chr ≠ c' ∧ Derives (grammarOf pd) [.nt start] (ofText consumed ++ .ch c' :: v)) ∨
       (∃ (B : Nat) (r : NTRule I) (v : Form) (L : List SetMember), AMap.get pd.rules B = some r ∧
          Derives (grammarOf pd) [.nt start] (ofText consumed ++ .nt B :: v) ∧
          exp = expectedText L ∧ L.Nodup ∧
          (∀ m, m ∈ L ↔ ∃ p ∈ r.prods, Control pd start B p m) ∧
          SetMember.ofPeek c.proc.rest.head? ∉ L)) := by
  obtain ⟨ha, hpf⟩ := newFromParserData_ok hw hP
  obtain ⟨⟨r, c'⟩, ⟨s', rest', h1, h2, h3⟩, he⟩ := parse_good hw ha hpf hs ho fuel vm text s
  rw [h] at he
  cases r with
  | ok a => simp [Res.bind] at he
  | panic => simp [Res.bind] at he
  | timeout => simp [Res.bind] at he
  | err e' =>
    simp only [Res.bind, Prod.mk.injEq, Res.err.injEq] at he
    obtain ⟨rfl, rfl⟩ := he
    obtain ⟨v, hv, hsh, -⟩ := h3
    rw [formOf_start hs] at hv
    have h2' : c.proc = procAt ([] ++ s') rest' := h2
    have hr : c.proc.rest = rest' := by rw [h2']; rfl
    rw [hr]
    obtain ⟨hpos, ⟨c', v', g1, g2, g3, rfl⟩ | ⟨B, R, v', rfl, g1, g2, g3, g4⟩⟩ := hsh
    · exact ⟨s', h1, by simpa using hpos, .inl ⟨c', v', g1, g3, hv⟩⟩
    · refine ⟨s', h1, by simpa using hpos, .inr ?_⟩
      obtain ⟨r, hB⟩ := occurring_defined hw ha hv rfl
      have hm := hpf.rules B
      rw [hB] at hm
      obtain ⟨R', e1, -, -, e2⟩ := hm
      rw [g1] at e1; cases e1
      have hmem : ∀ m, m ∈ ho.iter 9 SetMember (AMap.keys R.steuermap) ↔ ∃ p ∈ r.prods, Control pd start B p m := by
        intro m
        rw [(ho.perm _ _ _).mem_iff, AMap.mem_keys_iff]
        exact ⟨fun ⟨p, hp⟩ => ⟨p, (e2 m p).mp hp⟩, fun ⟨p, hp⟩ => ⟨p, (e2 m p).mpr hp⟩⟩
      refine ⟨B, r, v', _, hB, hv, g4.trans (expectedText_eq _).symm, ((ho.perm _ _ _).nodup_iff).mpr (hpf.nodup B R g1), hmem, ?_⟩
      rw [(ho.perm _ _ _).mem_iff, AMap.mem_keys_iff, g3]
      rintro ⟨p, hp⟩; cases hp

/-! ### hash orders -/

/-- **C18**, construction: whether a parser is built does not depend on the hash orders. -/
theorem C18_construction_deterministic (hw : WellFormed pd) (ho1 ho2 : HashOrder) :
    (∃ fuel P, Parser.newFromParserData ho1 fuel pd start = .ok P) ↔
    (∃ fuel P, Parser.newFromParserData ho2 fuel pd start = .ok P) := by
  rw [C16_parser_built_iff hw ho1, C16_parser_built_iff hw ho2]

/-- **C18**, behaviour: two parsers built from the same grammar under whatever hash orders give, on every
script, VM, state and at every call depth, the same outcome (the same tree, the same error up to the order in
which the expected characters are printed, the same panic), the same VM state and the same unread text, even if
the hash orders during parsing differ too. -/
theorem C18_parse_deterministic (hw : WellFormed pd) {ho1 ho2 ho3 ho4 : HashOrder} {fuel1 fuel2 : Nat}
    {P1 P2 : Parser I} (h1 : Parser.newFromParserData ho1 fuel1 pd start = .ok P1)
    (h2 : Parser.newFromParserData ho2 fuel2 pd start = .ok P2) (vm : VM I S) (text : Str) (s : S) :
    (Parser.parse ho3 fuel vm P1 text s).2 = (Parser.parse ho4 fuel vm P2 text s).2 ∧
    SameRes (Parser.parse ho3 fuel vm P1 text s).1 (Parser.parse ho4 fuel vm P2 text s).1 :=
  Sim.parse ((newFromParserData_ok hw h1).2.agree (newFromParserData_ok hw h2).2) ho3 ho4 vm fuel text s

/-- The orders matter internally: these two constructions give different (but agreeing) parsers. -/
example : ∃ P1 P2, Parser.newFromParserData .insertion 9 Samples.listData 0 = .ok P1 ∧
    Parser.newFromParserData .reversed 9 Samples.listData 0 = .ok P2 ∧ AMap.keys P1.rules ≠ AMap.keys P2.rules :=
  ⟨_, _, rfl, rfl, by decide⟩

/-! ### CountingVm and NullVm -/

/-- The non-terminals of all nodes of a forest, one entry for each occurrence. -/
def Spec.occurrences : Forest → List Nat
  | .nil => []
  | .leaf _ r => occurrences r
  | .node A _ k r => A :: (occurrences k ++ occurrences r)

theorem events_occurrences (pd : ParserData I) (f : Forest) :
    ∀ n, ((events pd n f).map Event.nt).Perm (occurrences f) := by
  induction f with
  | nil => intro n; exact .refl _
  | leaf e r ih => intro n; exact ih _
  | node A p k r ih1 ih2 =>
    intro n
    simp only [events, occurrences, List.map_append, List.map_cons]
    exact (List.perm_middle).trans (((ih1 _).append (ih2 _)).cons A)

theorem uRes_checked {n : Int} {m : Nat} (h : uRes true n = some m) : (m : Int) = n := by
  unfold uRes at h
  generalize (2 ^ 64 : Int) = M at h
  split at h
  · simp only [Option.some.injEq] at h; omega
  · simp at h

theorem countingVm_execute {t t' : Tree Str} {id : NodeId} {i s s' : Nat}
    (h : (countingVm true).execute t id i s = some (t', s')) : t' = t ∧ s' = s + 1 := by
  simp only [countingVm, Option.map_eq_some_iff] at h
  obtain ⟨a, ha, he⟩ := h
  have h1 := uRes_checked ha
  have h2 := Prod.mk.inj he
  exact ⟨h2.1.symm, by omega⟩

theorem runInstructions_counting_checked {t t' : Tree Str} {id : NodeId} (is : List Nat) :
    ∀ {s s' : Nat}, runInstructions (countingVm true) id is t s = some (t', s') → s' = s + is.length := by
  induction is with
  | nil => intro s s' h; simp [runInstructions] at h; simp [h.2]
  | cons i is ih =>
    intro s s' h
    rw [runInstructions] at h
    cases he : (countingVm true).execute t id i s with
    | none => rw [he] at h; cases h
    | some x =>
      obtain ⟨t1, s1⟩ := x
      rw [he] at h
      obtain ⟨rfl, h1⟩ := countingVm_execute he
      have h2 := ih h
      simp only [List.length_cons]
      omega

/-- **C54.** With `CountingVm` (overflow checks on) a successful parse increases the state by exactly the total
number of instructions of the rules of all parsed occurrences (`CountingVm` gives one instruction to every
rule with an instruction section, see `C54_counts_sections`). -/
theorem C54_counts {pd : ParserData Nat} {P : Parser Nat} (hw : WellFormed pd)
    (hP : Parser.newFromParserData ho0 fuel0 pd start = .ok P) (hs : StartSymbol pd st0)
    {text : Str} {s : Nat} {t : Tree Str} {c : Ctx Nat}
    (h : Parser.parse ho fuel (countingVm true) P text s = (.ok t, c)) :
    ∃ consumed p k, text = consumed ++ c.proc.rest ∧ IsForest pd [st0] (.node st0 p k .nil) consumed ∧
      Shows t ⟨0, 0⟩ (.node [] (roses pd k)) ∧
      c.state = s + ((occurrences (.node st0 p k .nil)).map fun A => (instrOf pd A).length).sum := by
  obtain ⟨x, p, k, h1, h2, h3, h4⟩ := C26_instructions_in_post_order hw hP hs _ (countingVm_treePreserving true) h
  refine ⟨x, p, k, h1, h2, h3, ?_⟩
  have hperm := ((events_occurrences pd (.node st0 p k .nil) 0).map fun A => (instrOf pd A).length).sum_nat
  rw [← hperm]
  generalize events pd 0 (.node st0 p k .nil) = evs at h4
  clear hperm h3 h2 h1 h
  generalize c.state = s' at h4
  induction h4 with
  | nil => simp
  | @cons ev evs τ s s1 s2 g1 g2 _ ih =>
    have := runInstructions_counting_checked _ ((executes_iff _ _ _ _ _).1 g2)
    rw [ih, this]
    simp; omega

/-- Counting the occurrences of rules that have an instruction section. -/
theorem C54_counts_sections {pd : ParserData Nat} (hone : ∀ A, (instrOf pd A).length ≤ 1) (f : Forest) :
    ((occurrences f).map fun A => (instrOf pd A).length).sum =
      (occurrences f).countP (fun A => decide (instrOf pd A ≠ [])) := by
  induction occurrences f with
  | nil => rfl
  | cons A l ih =>
    have h1 := hone A
    rw [List.map_cons, List.sum_cons, ih, List.countP_cons]
    by_cases h : instrOf pd A = []
    · simp [h]
    · have : (instrOf pd A).length ≠ 0 := by simpa using h
      simp [h]; omega

/-- **C55.** With `NullVm` the state is never changed, whatever the parser, script and outcome. -/
theorem C55_null_state (ho : HashOrder) (fuel : Nat) (P : Parser Nat) (text : Str) (s : Nat) :
    (Parser.parse ho fuel nullVm P text s).2.state = s :=
  Keeps.parse (vm := nullVm) (R := fun a b => b = a) (fun _ => rfl) (fun _ _ _ h1 h2 => h2.trans h1)
    (fun t id i s t' s' h => by simp [nullVm] at h; exact h.2.symm) ho P fuel text s

/-- **C55.** The outcome (tree, error, unread text) of a parse with `NullVm` depends neither on the state nor on
the choice of `NullVm`: every VM that neither panics nor edits the tree gives the same outcome. -/
theorem C55_outcome_independent (ho : HashOrder) (fuel : Nat) (P : Parser Nat) (text : Str) (s : Nat)
    (vm : VM Nat S) (htp : TreePreserving vm) (htot : Total vm) (s' : S) :
    (Parser.parse ho fuel vm P text s').1 = (Parser.parse ho fuel nullVm P text s).1 ∧
    (Parser.parse ho fuel vm P text s').2.proc.rest = (Parser.parse ho fuel nullVm P text s).2.proc.rest := by
  have := VSim.parse htp nullVm_treePreserving htot nullVm_total ho P fuel text s' s
  exact ⟨this.1, by rw [this.2]⟩

/-- The wrapping CountingVm is such a VM; the checked one is not. -/
theorem countingVm_total : Total (countingVm false) := by
  intro t id i s h
  simp only [countingVm, uRes] at h
  split at h <;> simp at h

/-- `CountingVm` on `ab,c`: two occurrences of `rest` (one instruction), one of `start` (two). -/
example : (Parser.parse .insertion 9 (countingVm true) Samples.listParser (c% "ab,c") 10).2.state = 14 := by
  decide +kernel

end HPP
