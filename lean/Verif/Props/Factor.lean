import Verif.Proofs.FactorWalk
import Verif.Props.Productive
import Verif.Props.Executing
import Verif.Props.EndMark
/-
C122: naming a part of alternatives.
-/
namespace HPP
open Spec
variable {I S : Type} {pd pd' : ParserData I} {st x fuel fuel0 fuel0' : Nat} {body : List Nat} {P P' : Parser I}
  {ho ho' ho0 ho0' : HashOrder}

section
variable (h : Named pd pd' x body) (hw : WellFormed pd) (hw' : WellFormed pd') (hst : st < pd.elementTypes.length)
include h hw hw' hst

/-- **C122**, the language: naming a part of alternatives does not change it. -/
theorem C122_data_language (s : Str) : Language (grammarOf pd') st s ↔ Language (grammarOf pd) st s :=
  Fac.language_iff h hw hw' (Fac.ne_of_old h hst) s

/-- **C122**, construction: a parser is made with the name exactly if it is made without it. -/
theorem C122_data_built_iff (ho1 ho2 : HashOrder) :
    (∃ fuel P, Parser.newFromParserData ho1 fuel pd st = .ok P) ↔ (∃ fuel P, Parser.newFromParserData ho2 fuel pd' st = .ok P) := by
  rw [C16_parser_built_iff hw ho1, C16_parser_built_iff hw' ho2]
  exact ⟨Fac.acceptable h hw hw' (Fac.ne_of_old h hst), Fac.acceptable_back h hw hw' (Fac.ne_of_old h hst)⟩

omit hst in
theorem Fac.shown {vm : VM I S} (htp : TreePreserving vm) (hm : MentionsBlind vm pd' x) {script rest : Str} {f : Forest}
    (hst : st ≠ x) {st' : Nat} (hT : pd.elementTypes[st]? = some .nonTerminal) (hf : TopDown pd' st' [st] script f rest)
    {u u' v v' : S} {t t' : Tree Str} (hwk : Walk vm pd none (splice x body f) (Tree.new, u) (t, u'))
    (hwk' : Walk vm pd' none f (Tree.new, v) (t', v')) :
    ∃ r r', Shows t ⟨0, 0⟩ r ∧ Shows t' ⟨0, 0⟩ r' ∧ Flatter r r' := by
  have hi := (List.getElem?_eq_some_iff.1 hT).1
  have hon := Fac.facOn h hw hw' hm hf (by simpa using Or.inl hi)
  obtain ⟨b, -⟩ := walk_runs htp hwk [] none TRep.new parOk_root
  obtain ⟨b', -⟩ := walk_runs htp hwk' [] none TRep.new parOk_root
  cases hf with
  | leaf h1 _ _ => rw [Fac.kind_eq h hi, hT] at h1; cases h1
  | @node A es rule p w w1 r kids f hT hr hp hctl hk ht =>
    cases ht
    simp only [splice, if_neg hst] at b
    exact ⟨_, _, TRep.shows_node (h1 := []) (by simpa using b) (by simp), TRep.shows_node (h1 := []) (by simpa using b') (by simp),
      .node hon.2.2.1.flatter⟩

end

section
variable (h : Named pd pd' x body) (hw : WellFormed pd) (hw' : WellFormed pd')
  (hP : Parser.newFromParserData ho0 fuel0 pd st = .ok P) (hP' : Parser.newFromParserData ho0' fuel0' pd' st = .ok P')
  (hs : StartSymbol pd st) (hs' : StartSymbol pd' st)
include h hw hw' hP hP' hs hs'

/-- **C122**, parsing: what is accepted without the name is accepted with it (if the call depth suffices), with the same text unread
and the same final state; without the nodes for the name the tree is the same. -/
theorem C122_data_accepts {vm : VM I S} (htp : TreePreserving vm) (hb : SeesOnlyChildTexts vm) (hm : MentionsBlind vm pd' x)
    {script : Str} {u : S} {t : Tree Str} {c : Ctx S} (hr : Parser.parse ho fuel vm P script u = (.ok t, c)) :
    ∃ N, ∀ fuel', N ≤ fuel' → ∀ ho', ∃ t' c', Parser.parse ho' fuel' vm P' script u = (.ok t', c') ∧
      c'.proc.rest = c.proc.rest ∧ c'.state = c.state ∧ ∃ r r', Shows t ⟨0, 0⟩ r ∧ Shows t' ⟨0, 0⟩ r' ∧ Flatter r r' := by
  have hT := Spec.StartSymbol.type hs
  have hi := (List.getElem?_eq_some_iff.1 hT).1
  have hx := Fac.ne_of_old h hi
  obtain ⟨ha, hpf⟩ := newFromParserData_ok hw hP
  obtain ⟨ha', hpf'⟩ := newFromParserData_ok hw' hP'
  obtain ⟨f, hf, hh, hwk⟩ := (parse_walk (ho := ho) hw hpf hs vm fuel script c.proc.rest u c.state t).1 ⟨c, hr, rfl, rfl⟩
  have he : ∀ i ∈ [st], i < pd.elementTypes.length ∨ i = x := by simpa using Or.inl hi
  obtain ⟨f', hf', rfl⟩ := Fac.topDown_up h hw hw' hx (els := [st]) (by
    rw [inlineEls_free (by simpa using hx.symm)]; exact hf) he
  obtain ⟨t', hwk'⟩ := (walk_splice htp hb (Fac.facOn h hw hw' hm hf' he) TRep.new parOk_root TRep.new parOk_root).2 ⟨t, hwk⟩
  refine ⟨f'.height, fun fuel' hle ho' => ?_⟩
  obtain ⟨c', k1, k2, k3⟩ := (parse_walk (ho := ho') hw' hpf' hs' vm fuel' script c.proc.rest u c.state t').2 ⟨f', hf', hle, hwk'⟩
  exact ⟨t', c', k1, k2, k3, Fac.shown h hw hw' htp hm hx hT hf' hwk hwk'⟩

/-- **C122**, parsing, conversely: what is accepted with the name is accepted without it, with the same call depth. -/
theorem C122_data_accepts_only {vm : VM I S} (htp : TreePreserving vm) (hb : SeesOnlyChildTexts vm) (hm : MentionsBlind vm pd' x)
    {script : Str} {u : S} {t' : Tree Str} {c' : Ctx S} (hr : Parser.parse ho' fuel vm P' script u = (.ok t', c')) :
    ∃ t c, Parser.parse ho fuel vm P script u = (.ok t, c) ∧
      c.proc.rest = c'.proc.rest ∧ c.state = c'.state ∧ ∃ r r', Shows t ⟨0, 0⟩ r ∧ Shows t' ⟨0, 0⟩ r' ∧ Flatter r r' := by
  have hT := Spec.StartSymbol.type hs
  have hi := (List.getElem?_eq_some_iff.1 hT).1
  have hx := Fac.ne_of_old h hi
  obtain ⟨ha, hpf⟩ := newFromParserData_ok hw hP
  obtain ⟨ha', hpf'⟩ := newFromParserData_ok hw' hP'
  obtain ⟨f', hf', hh, hwk'⟩ := (parse_walk (ho := ho') hw' hpf' hs' vm fuel script c'.proc.rest u c'.state t').1 ⟨c', hr, rfl, rfl⟩
  have he : ∀ i ∈ [st], i < pd.elementTypes.length ∨ i = x := by simpa using Or.inl hi
  obtain ⟨t, hwk⟩ := (walk_splice htp hb (Fac.facOn h hw hw' hm hf' he) TRep.new parOk_root TRep.new parOk_root).1 ⟨t', hwk'⟩
  have hf := Fac.topDown_down h hw hw' hx hf' he
  rw [inlineEls_free (by simpa using hx.symm)] at hf
  obtain ⟨c, k1, k2, k3⟩ := (parse_walk (ho := ho) hw hpf hs vm fuel script c'.proc.rest u c'.state t).2
    ⟨_, hf, (splice_height f').trans hh, hwk⟩
  exact ⟨t, c, k1, k2, k3, Fac.shown h hw hw' htp hm hx hT hf' hwk hwk'⟩

/-- **C122**, errors: if every name stands for some text, and both parsers report a syntax error for a script (whatever the virtual
machines do), it is at the same position. -/
theorem C122_data_same_position (hp : Productive pd) {S1 S2 : Type} (vm : VM I S1) (vm' : VM I S2) {script : Str} {s : S1} {s' : S2}
    {e e' : PErr} {pos pos' : Nat} (hr : (Parser.parse ho fuel vm P script s).1 = .err e) (hat : ErrorAt e pos)
    {fuel' : Nat} (hr' : (Parser.parse ho' fuel' vm' P' script s').1 = .err e') (hat' : ErrorAt e' pos') : pos = pos' := by
  have hi := (List.getElem?_eq_some_iff.1 (Spec.StartSymbol.type hs)).1
  have hp' : Productive pd' := by
    have key : ∀ A, A ≠ x → (∃ r, AMap.get pd'.rules A = some r) → ∃ s, Language (grammarOf pd') A s := by
      rintro A hA ⟨r, hr⟩
      obtain ⟨s, hl⟩ := hp A _ (Fac.down_rule h hA hr)
      exact ⟨s, (Fac.language_iff h hw hw' hA s).2 hl⟩
    intro A r hr
    by_cases hA : A = x
    · subst hA
      obtain ⟨B, rB, p, hB, hrB, hp1, hx⟩ := h.used
      obtain ⟨a, b, hab⟩ := List.append_of_mem hx
      -- some alternative of `B` contains `x`; all its elements stand for a text
      have ha := (newFromParserData_ok hw' hP').1
      have : ∀ els : List Nat, (∀ i ∈ els, i < pd.elementTypes.length) →
          (∀ i ∈ els, pd'.elementTypes[i]? = some .nonTerminal → ∃ r, AMap.get pd'.rules i = some r) →
          ∃ s, Derives (grammarOf pd') (formOf pd' els) (ofText s) := by
        intro els
        induction els with
        | nil => intro _ _; exact ⟨[], .refl⟩
        | cons i els ih =>
          intro h1 h2
          obtain ⟨s, hs⟩ := ih (fun j hj => h1 j (.tail _ hj)) fun j hj => h2 j (.tail _ hj)
          have hi := h1 i (.head _)
          have e : formOf pd' (i :: els) = elemForm pd' i ++ formOf pd' els := by simp [formOf]
          have : ∃ s1, Derives (grammarOf pd') (elemForm pd' i) (ofText s1) := by
            by_cases hT : pd'.elementTypes[i]? = some .nonTerminal
            · obtain ⟨s1, hl⟩ := key i (Fac.ne_of_old h hi) (h2 i (.head _) hT)
              have : elemForm pd' i = [.nt i] := by simp only [elemForm, hT]
              exact ⟨s1, by rw [this]; exact hl⟩
            · have hi' : i < pd'.elementTypes.length := by
                have := h.kinds.length_le; omega
              have h3 := List.getElem?_eq_getElem (hw'.lengths ▸ hi')
              have h4 := List.getElem?_eq_getElem hi'
              cases hty : pd'.elementTypes[i] with
              | nonTerminal => rw [h4, hty] at hT; exact absurd rfl hT
              | terminal =>
                refine ⟨(pd'.elementData[i]'(hw'.lengths ▸ hi')).name, ?_⟩
                have : elemForm pd' i = ofText (pd'.elementData[i]'(hw'.lengths ▸ hi')).name := by
                  simp only [elemForm, h4, hty, h3]
                rw [this]
          obtain ⟨s1, hs1⟩ := this
          refine ⟨s1 ++ s, ?_⟩
          rw [e]
          have := Derives.append hs1 hs
          simpa [ofText] using this
      obtain ⟨s, hl⟩ := this body h.bodyOld fun i hi hT =>
        ha.defined A _ h.bodyRule (.notEmpty body) (List.mem_singleton.2 rfl) i hi hT
      rw [Fac.bodyForm h hw hw'] at hl
      exact ⟨s, (Derives.of_rule ((Fac.grammar_x h hw hw').2 rfl)).trans hl⟩
    · exact key A hA ⟨r, hr⟩
  exact C111_same_position hw hP hs hp vm hw' hP' hs' hp' vm'
    (fun s => (Fac.language_iff h hw hw' (Fac.ne_of_old h hi) s).symm) hr hat hr' hat'

end

theorem firstText_eq {r r' : Rose} (h : r.childTexts = r'.childTexts) : r.firstText = r'.firstText := by
  cases r with
  | node d ks =>
    cases r' with
    | node d' ks' =>
      rw [childTexts_node, childTexts_node] at h
      cases ks with
      | nil =>
        cases ks' with
        | nil => rfl
        | cons k ks' => simp [rootTexts] at h
      | cons k ks =>
        cases ks' with
        | nil => simp [rootTexts] at h
        | cons k' ks' =>
          obtain ⟨a, as⟩ := k
          obtain ⟨b, bs⟩ := k'
          simp only [rootTexts, List.map_cons, List.cons.injEq] at h
          simp only [Rose.firstText, h.1]

/-- The four machines of the library see only the texts of the children. -/
theorem C122_library_machines {cc : CharClass} (checked : Bool) : SeesOnlyChildTexts nullVm ∧ SeesOnlyChildTexts (countingVm checked) ∧
    SeesOnlyChildTexts (simpleStackVm checked) ∧ SeesOnlyChildTexts (stackVm cc checked) := by
  refine ⟨fun _ _ _ _ _ _ _ _ _ _ _ => rfl, fun _ _ _ _ _ _ _ _ _ _ _ => ?_, fun τ τ' id id' r r' h1 h2 hc i s => ?_,
    fun τ τ' id id' r r' h1 h2 hc i s => ?_⟩
  · simp only [countingVm, Option.map_map]; rfl
  · have e : simpleExec checked τ id i s = simpleExec checked τ' id' i s := by
      have a := firstChildData_of_shows h1
      have b := firstChildData_of_shows h2
      rw [← firstText_eq hc] at b
      cases i <;> simp only [simpleExec, a, b]
    simp only [simpleStackVm, Option.map_map, e]; rfl
  · have e : stackExec checked τ id i s = stackExec checked τ' id' i s := by
      have a := firstChildData_of_shows h1
      have b := firstChildData_of_shows h2
      rw [← firstText_eq hc] at b
      cases i <;> simp only [stackExec, a, b]
    simp only [stackVm, Option.map_map, e]; rfl

/-- All instructions of the machines but `PushFromTree` are blind. -/
theorem C122_blind_instructions {cc : CharClass} (checked : Bool) : (∀ i, BlindInstr nullVm i) ∧ (∀ i, BlindInstr (countingVm checked) i) ∧
    (∀ i, i ≠ .pushFromTree → BlindInstr (simpleStackVm checked) i) ∧ (∀ i, i ≠ .pushFromTree → BlindInstr (stackVm cc checked) i) := by
  refine ⟨fun _ _ _ _ _ _ => rfl, fun i _ _ _ _ _ => ?_, fun i hi τ τ' id id' s => ?_, fun i hi τ τ' id id' s => ?_⟩
  · simp only [countingVm, Option.map_map]; rfl
  · have e : simpleExec checked τ id i s = simpleExec checked τ' id' i s := by
      cases i <;> first | rfl | exact absurd rfl hi
    simp only [simpleStackVm, Option.map_map, e]; rfl
  · have e : stackExec checked τ id i s = stackExec checked τ' id' i s := by
      cases i <;> first | rfl | exact absurd rfl hi
    simp only [stackVm, Option.map_map, e]; rfl

/-- `Samples.listData` with the name `more` for `"," item rest`: `start -> item rest; rest -> more | #; item -> "ab" | "c";
more -> "," item rest;`. -/
def Samples.moreData : ParserData Nat :=
  let pd : ParserData Nat := ParserData.new
  let (start, pd) := pd.getOrAddNonTerminal (c% "start")
  let (item, pd) := pd.getOrAddNonTerminal (c% "item")
  let (rest, pd) := pd.getOrAddNonTerminal (c% "rest")
  let (comma, pd) := pd.getOrAddTerminal (c% ",")
  let (ab, pd) := pd.getOrAddTerminal (c% "ab")
  let (c, pd) := pd.getOrAddTerminal (c% "c")
  let (more, pd) := pd.getOrAddNonTerminal (c% "more")
  let pd := pd.addProduction start [item, rest]
  let pd := pd.addProduction rest [more]
  let pd := pd.addProduction rest []
  let pd := pd.setProductions item [[ab], [c]]
  let pd := pd.addProduction more [comma, item, rest]
  let pd := pd.addInstructions rest [7]
  pd.addInstructions start [1, 2]

theorem Samples.moreData_rules : Samples.moreData.rules =
    [(0, ⟨[.notEmpty [1, 2]], none, [1, 2]⟩), (2, ⟨[.notEmpty [6], .empty], none, [7]⟩),
      (1, ⟨[.notEmpty [4], .notEmpty [5]], none, []⟩), (6, ⟨[.notEmpty [3, 1, 2]], none, []⟩)] := rfl

theorem Samples.listData_wf1 : WellFormed Samples.listData := Samples.wf_of_check rfl
theorem Samples.moreData_wf : WellFormed Samples.moreData := Samples.wf_of_check rfl
theorem Samples.listData_start1 : StartSymbol Samples.listData 0 := Samples.start_of_check rfl
theorem Samples.moreData_start : StartSymbol Samples.moreData 0 := Samples.start_of_check rfl

theorem Samples.more_named : Named Samples.listData Samples.moreData 6 [3, 1, 2] := by
  refine ⟨⟨[.nonTerminal], rfl⟩, ?_, by decide, by decide, ⟨3, [1, 2], rfl, ?_⟩, rfl, ?_, ⟨2, _, _, by decide, rfl, .head _, .head _⟩⟩
  · intro i hi
    have hlt := (List.getElem?_eq_some_iff.1 hi).1
    have : i < 6 := hlt
    match i, this with
    | 0, _ | 1, _ | 2, _ | 3, _ | 4, _ | 5, _ => rfl
  · rintro h
    have : elemForm Samples.listData 3 = ofText [','] := rfl
    rw [this, nullable_ofText] at h
    exact absurd h (by decide)
  · intro A hA
    rw [Samples.moreData_rules, Samples.listData_rules]
    simp only [AMap.get]
    by_cases h0 : A = 0
    · subst h0; rfl
    · by_cases h2 : A = 2
      · subst h2; rfl
      · by_cases h1 : A = 1
        · subst h1; rfl
        · simp [Ne.symm h0, Ne.symm h1, Ne.symm h2, Ne.symm hA]

/-- Both data give a parser. -/
example : ∃ fuel P, Parser.newFromParserData .insertion fuel Samples.moreData 0 = .ok P :=
  (C122_data_built_iff Samples.more_named Samples.listData_wf1 Samples.moreData_wf (by decide) .insertion .insertion).1
    (by
      obtain ⟨P, -, -, h, -⟩ := Samples.runCount_eq (x := Parser.newFromParserData .insertion 99 Samples.listData 0)
        (s := c% "ab,c") (r := []) (k := 9) (by decide +kernel)
      exact ⟨_, P, h⟩)

/-- `c,ab,c` is accepted by both, with the same count. -/
example {P' : Parser Nat} (hP' : Parser.newFromParserData ho0' fuel0' Samples.moreData 0 = .ok P') :
    ∃ N, ∀ fuel', N ≤ fuel' → ∀ ho', ∃ t' c', Parser.parse ho' fuel' (countingVm true) P' (c% "c,ab,c") 5 = (.ok t', c') ∧
      c'.proc.rest = [] ∧ c'.state = 10 := by
  obtain ⟨P, t, c, h1, h2, h3, h4⟩ := Samples.runCount_eq (x := Parser.newFromParserData .insertion 99 Samples.listData 0)
    (s := c% "c,ab,c") (r := []) (k := 10) (by decide +kernel)
  obtain ⟨N, k⟩ := C122_data_accepts (vm := countingVm true) Samples.more_named Samples.listData_wf1 Samples.moreData_wf h1 hP'
    Samples.listData_start1 Samples.moreData_start (countingVm_treePreserving true) (C122_library_machines (cc := .ascii) true).2.1
    (fun _ _ _ _ _ _ i _ => (C122_blind_instructions (cc := .ascii) true).2.1 i) h2
  refine ⟨N, fun fuel' hle ho' => ?_⟩
  obtain ⟨t', c', k1, k2, k3, -⟩ := k fuel' hle ho'
  exact ⟨t', c', k1, k2.trans h3, k3.trans h4⟩

/-- Conversely. -/
example {P P' : Parser Nat} (hP : Parser.newFromParserData ho0 fuel0 Samples.listData 0 = .ok P)
    (hP' : Parser.newFromParserData ho0' fuel0' Samples.moreData 0 = .ok P') {script : Str} {t' : Tree Str} {c' : Ctx Nat}
    (hr : Parser.parse ho' fuel (countingVm true) P' script 5 = (.ok t', c')) :
    ∃ t c, Parser.parse ho fuel (countingVm true) P script 5 = (.ok t, c) ∧ c.state = c'.state := by
  obtain ⟨t, c, k1, -, k3, -⟩ := C122_data_accepts_only (ho := ho) Samples.more_named Samples.listData_wf1 Samples.moreData_wf hP hP'
    Samples.listData_start1 Samples.moreData_start (countingVm_treePreserving true) (C122_library_machines (cc := .ascii) true).2.1
    (fun _ _ _ _ _ _ i _ => (C122_blind_instructions (cc := .ascii) true).2.1 i) hr
  exact ⟨t, c, k1, k3⟩

example (s : Str) : Language (grammarOf Samples.moreData) 0 s ↔ Language (grammarOf Samples.listData) 0 s :=
  C122_data_language Samples.more_named Samples.listData_wf1 Samples.moreData_wf (by decide) s

end HPP
