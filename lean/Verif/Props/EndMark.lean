import Verif.Proofs.EndMark
import Verif.Proofs.EndMarkText
import Verif.Props.Whole
import Verif.Props.Layout
import Verif.Props.Executing
/-
C121: an end marker can be added to every grammar.
-/
namespace HPP
open Spec
variable {I S : Type} {pd pd' : ParserData I} {st s e fuel fuel0 fuel0' : Nat} {P P' : Parser I} {ho ho' ho0 ho0' : HashOrder}

namespace Mark
variable (h : EndMarked pd st pd' s e) (hw : WellFormed pd) (hw' : WellFormed pd')
include h hw'

theorem closing (hw : WellFormed pd) : Closing pd' s (fun i => i = s ∨ i = e) where
  start := .inl rfl
  nonTerminal := by
    rintro E (rfl | rfl)
    · exact typeS h hw'
    · exact typeE h hw'
  ends := by
    rintro A r (rfl | rfl) hr p hp
    · rw [h.startRule] at hr; cases hr
      simp only [List.mem_singleton] at hp
      subst hp
      exact .inr ⟨[st], e, rfl, .inr rfl⟩
    · rw [h.endRule] at hr; cases hr
      simp only [List.mem_singleton] at hp
      subst hp
      exact .inl rfl
  onlyLast := by
    intro A r hr p hp pre E post he hE
    have hold := h.old
    have hns := h.newStart
    have hne := h.newEnd
    have hE' : ¬ E < pd.elementTypes.length := by
      rcases hE with rfl | rfl <;> omega
    have hmem : E ∈ prodElems p := by rw [he]; simp
    by_cases hA : A < pd.elementTypes.length
    · rw [h.kept A hA] at hr
      exact absurd (hw.inRange A r hr p hp E hmem) hE'
    · by_cases hs : A = s
      · subst hs
        rw [h.startRule] at hr; cases hr
        simp only [List.mem_singleton] at hp
        subst hp
        refine ⟨?_, .inl rfl⟩
        simp only [prodElems] at he
        match pre, he with
        | [], he =>
          simp only [List.nil_append, List.cons.injEq] at he
          exact absurd (he.1 ▸ hold) hE'
        | [x], he =>
          simp only [List.cons_append, List.nil_append, List.cons.injEq] at he
          exact he.2.2.symm
        | x :: y :: l, he => simp at he
      · by_cases he' : A = e
        · subst he'
          rw [h.endRule] at hr; cases hr
          simp only [List.mem_singleton] at hp
          subst hp
          simp [prodElems] at hmem
        · rw [h.noMore A (by omega) hs he'] at hr; cases hr

theorem control_end (hw : WellFormed pd) (hst : pd.elementTypes[st]? = some .nonTerminal) (m : SetMember) :
    Control pd' s e .empty m ↔ m = .terminate := by
  constructor
  · intro hm
    cases m with
    | char c => exact absurd hm ((closing h hw' hw).noFollow (.inr rfl) c)
    | terminate => rfl
  · rintro rfl
    exact ⟨[.nt st], (start_derives h hw hw' hst .refl).1⟩

theorem control_start (hw : WellFormed pd) (hst : pd.elementTypes[st]? = some .nonTerminal) (m : SetMember) :
    Control pd' s s (.notEmpty [st, e]) m ↔ SteuerMember (grammarOf pd) st st m := by
  simp only [Control, kind_eq h h.old, hst, steuer_iff h hw hw' hst h.old]
  simp

omit h hw' in
/-- The lookahead of a text that has been read, completely or not without reading anything. -/
theorem steuer_of_read {x w : Str} (hl : Language (grammarOf pd) st x) (hx : x ≠ [] ∨ w = []) :
    SteuerMember (grammarOf pd) st st (SetMember.ofPeek (x ++ w).head?) := by
  cases x with
  | cons c x => exact .inl ⟨c, rfl, ofText x, hl⟩
  | nil =>
    rcases hx with hx | rfl
    · exact absurd rfl hx
    · exact .inr ⟨hl, [], .refl⟩

end Mark

section
variable (h : EndMarked pd st pd' s e) (hw : WellFormed pd) (hw' : WellFormed pd')
  (hP : Parser.newFromParserData ho0 fuel0 pd st = .ok P) (hP' : Parser.newFromParserData ho0' fuel0' pd' s = .ok P')
  (hs : StartSymbol pd st) (hs' : StartSymbol pd' s) {vm : VM I S} (htp : TreePreserving vm) (hb : SeesOnlyShown vm)
include h hw hw' hP hP' hs hs' htp hb

omit hP hP' hs' in
/-- The part of a parse with end marker that reads the old start symbol. -/
theorem marked_part {text rest : Str} {u u' : S} {t : Tree Str} {f : Forest}
    (hf : TopDown pd st [st] text f rest) (hwk : Walk vm pd none f (Tree.new, u) (t, u')) :
    ∃ t1 t2 p kids, f = .node st p kids .nil ∧ (Tree.new : Tree Str).addNode [] none = (.ok ⟨0, 0⟩, t1) ∧ TRep t1 [(none, [])] ∧
      TopDown pd' s [st] text f rest ∧ Walk vm pd' (some ⟨0, 0⟩) f (t1, u) (t2, u') ∧
      TRep t2 ([(none, [])] ++ histOf pd' (some 0) 1 f) ∧ Shows t ⟨0, 0⟩ (.node [] (roses pd kids)) ∧
      roses pd' kids = roses pd kids := by
  have hst := Spec.StartSymbol.type hs
  obtain ⟨t1, g1, g2⟩ := (TRep.new (T := Str)).addNode_par ([] : Str) (parent := none) (par := none) rfl (by simp)
  have hold : ∀ i ∈ [st], i < pd.elementTypes.length := by simpa using h.old
  have hsame := sameOn_topDown h hw hw' hf hold
  have po : ParOk [(none, ([] : Str))] (some ⟨0, 0⟩) (some 0) := ⟨rfl, fun q hq => by cases hq; simp⟩
  obtain ⟨t2, hwk'⟩ := walk_moved htp hb hwk hsame [] none TRep.new parOk_root t1 [(none, [])] (some ⟨0, 0⟩) (some 0) g2 po
  obtain ⟨a, -⟩ := walk_runs htp hwk' [(none, [])] (some 0) g2 po
  obtain ⟨b, -⟩ := walk_runs htp hwk [] none TRep.new parOk_root
  have htd := (Mark.topDown_iff h hw hw' hst hold).2 hf
  cases hf with
  | leaf h1 _ _ => rw [hst] at h1; cases h1
  | @node A es rule p w w1 r kids f hT hr hp hctl hk ht =>
    cases ht
    exact ⟨t1, t2, p, kids, rfl, g1, g2, htd, hwk', a, TRep.shows_node (h1 := []) (by simpa using b) (by simp), hsame.2.1.roses⟩

/-- **C121**, parsing with grammar data: a script that is read to its end without the end marker is accepted with it, with the
same final state and one more node around the tree. -/
theorem C121_data_accepts {script : Str} {u : S} {t : Tree Str} {c : Ctx S}
    (hr : Parser.parse ho fuel vm P script u = (.ok t, c)) (hc : c.proc.rest = []) :
    ∃ t' c' r, Parser.parse ho' (fuel + 1) vm P' script u = (.ok t', c') ∧ c'.proc.rest = [] ∧ c'.state = c.state ∧
      Shows t ⟨0, 0⟩ r ∧ Shows t' ⟨0, 0⟩ (.node [] [r, .node [] []]) := by
  have hst := Spec.StartSymbol.type hs
  obtain ⟨ha, hpf⟩ := newFromParserData_ok hw hP
  obtain ⟨ha', hpf'⟩ := newFromParserData_ok hw' hP'
  obtain ⟨f, hf, hh, hwk⟩ := (parse_walk (ho := ho) hw hpf hs vm fuel script [] u c.state t).1 ⟨c, hr, hc, rfl⟩
  obtain ⟨x, hx, hl⟩ := C21_parse_sound hw hP hs vm hr
  rw [hc, List.append_nil] at hx
  subst hx
  obtain ⟨t1, t2, p, kids, rfl, g1, g2, htd, hwk', hrep, hsh, hro⟩ := marked_part h hw hw' hs htp hb hf hwk
  have hctl : Control pd' s s (.notEmpty [st, e]) (SetMember.ofPeek script.head?) :=
    (Mark.control_start h hw' hw hst _).2 (by simpa using Mark.steuer_of_read (w := []) hl (.inr rfl))
  obtain ⟨t3, k1, k2⟩ := hrep.addNode_par ([] : Str) (parent := some ⟨0, 0⟩) (par := some 0) rfl (by
    intro q hq; cases hq; simp)
  -- the forest with the end marker
  have hF : TopDown pd' s [s] script (.node s (.notEmpty [st, e]) (.node st p kids (.node e .empty .nil .nil)) .nil) [] := by
    refine .node (Mark.typeS h hw') h.startRule (by simp) hctl ?_ .nil
    cases htd with
    | node q1 q2 q3 q4 q5 q6 =>
      cases q6
      exact .node q1 q2 q3 q4 q5 (.node (Mark.typeE h hw') h.endRule (by simp)
        ((Mark.control_end h hw' hw hst _).2 rfl) .nil .nil)
  have hE : instrOf pd' e = [] := by simp [instrOf, h.endRule]
  have hS : instrOf pd' s = [] := by simp [instrOf, h.startRule]
  have hW : Walk vm pd' none (.node s (.notEmpty [st, e]) (.node st p kids (.node e .empty .nil .nil)) .nil) (Tree.new, u)
      (t3, c.state) := by
    refine .node g1 ?_ (by rw [hS]; exact .nil) .nil
    cases hwk' with
    | node q1 q2 q3 q4 =>
      cases q4
      exact .node q1 q2 q3 (.node k1 .nil (by rw [hE]; exact .nil) .nil)
  have hheight : (Forest.node s (.notEmpty [st, e]) (.node st p kids (.node e .empty .nil .nil)) .nil).height ≤ fuel + 1 := by
    simp only [Forest.height] at hh ⊢
    omega
  obtain ⟨c', h1, h2, h3⟩ := (parse_walk (ho := ho') hw' hpf' hs' vm (fuel + 1) script [] u c.state t3).2 ⟨_, hF, hheight, hW⟩
  obtain ⟨b, -⟩ := walk_runs htp hW [] none TRep.new parOk_root
  have := TRep.shows_node (h1 := []) (t := t3) (pd := pd') (par := none) (by simpa using b) (by simp)
  simp only [roses, hro] at this
  exact ⟨t3, c', _, h1, h2, h3, hsh, this⟩

/-- **C121**, parsing with grammar data, conversely: a script that is accepted with the end marker is read to its end without it,
with the same final state. -/
theorem C121_data_accepts_only {script : Str} {u : S} {t' : Tree Str} {c' : Ctx S}
    (hr : Parser.parse ho' fuel vm P' script u = (.ok t', c')) :
    c'.proc.rest = [] ∧ ∃ t c, Parser.parse ho fuel vm P script u = (.ok t, c) ∧ c.proc.rest = [] ∧ c.state = c'.state := by
  have hst := Spec.StartSymbol.type hs
  obtain ⟨ha, hpf⟩ := newFromParserData_ok hw hP
  obtain ⟨ha', hpf'⟩ := newFromParserData_ok hw' hP'
  have hc := (C101_whole_script hw' hP' hs' (Mark.closing h hw' hw) vm hr).1
  refine ⟨hc, ?_⟩
  obtain ⟨F, hF, hh, hW⟩ := (parse_walk (ho := ho') hw' hpf' hs' vm fuel script [] u c'.state t').1 ⟨c', hr, hc, rfl⟩
  have hE : instrOf pd' e = [] := by simp [instrOf, h.endRule]
  have hS : instrOf pd' s = [] := by simp [instrOf, h.startRule]
  have hold : ∀ i ∈ [st], i < pd.elementTypes.length := by simpa using h.old
  cases hF with
  | leaf h1 _ _ => rw [Mark.typeS h hw'] at h1; cases h1
  | @node _ _ rule p _ w1 _ kids f hT hrule hp hctl hk ht =>
    cases ht
    rw [h.startRule] at hrule; cases hrule
    simp only [List.mem_singleton] at hp
    subst hp
    simp only [prodElems] at hk
    cases hk with
    | leaf h1 _ _ => rw [Mark.kind_eq h h.old, hst] at h1; cases h1
    | @node _ _ rule p _ w1 _ kids f hT2 hrule2 hp2 hctl2 hk2 ht2 =>
      cases ht2 with
      | leaf h1 _ _ => rw [Mark.typeE h hw'] at h1; cases h1
      | @node _ _ rule3 p3 _ w3 _ kids3 f3 hT3 hrule3 hp3 hctl3 hk3 ht3 =>
        cases ht3
        rw [h.endRule] at hrule3; cases hrule3
        simp only [List.mem_singleton] at hp3
        subst hp3
        cases hk3
        have htd : TopDown pd' s [st] script (.node st p kids .nil) [] := .node hT2 hrule2 hp2 hctl2 hk2 .nil
        have htd0 := (Mark.topDown_iff h hw hw' hst hold).1 htd
        have hsame := sameOn_topDown h hw hw' htd0 hold
        cases hW with
        | @node _ _ _ _ _ _ t1 _ id x y _ g1 g2 g3 g4 =>
          cases g4
          rw [hS] at g3
          cases g3
          obtain ⟨ta, k1, k2⟩ := (TRep.new (T := Str)).addNode_par ([] : Str) (parent := none) (par := none) rfl (by simp)
          rw [k1] at g1
          simp only [Prod.mk.injEq, Res.ok.injEq] at g1
          obtain ⟨rfl, rfl⟩ := g1
          cases g2 with
          | @node _ _ _ _ _ _ tb _ id2 x2 y2 _ q1 q2 q3 q4 =>
            cases q4 with
            | @node _ _ _ _ _ _ td _ id3 x3 y3 _ r1 r2 r3 r4 =>
              cases r2
              cases r4
              rw [hE] at r3
              cases r3
              have hwk' : Walk vm pd' (some ⟨0, 0⟩) (.node st p kids .nil) (ta, u) (_, c'.state) := .node q1 q2 q3 .nil
              obtain ⟨t2, hwk⟩ := walk_moved htp hb hwk' hsame.symm [(none, [])] (some 0) k2
                ⟨rfl, fun q hq => by cases hq; simp⟩ Tree.new [] none none TRep.new parOk_root
              have hheight : (Forest.node st p kids .nil).height ≤ fuel := by
                simp only [Forest.height] at hh ⊢
                omega
              obtain ⟨c, a1, a2, a3⟩ := (parse_walk (ho := ho) hw hpf hs vm fuel script [] u c'.state t2).2 ⟨_, htd0, hheight, hwk⟩
              exact ⟨t2, c, a1, a2, a3⟩

/-- **C121**, parsing with grammar data, unread text: where the parser without the end marker stops and leaves text unread, the
parser with the end marker reports an unexpected character.  If something has been read before, the end of the text is what is
expected, and the machine is in the same state. -/
theorem C121_data_unread {script r : Str} {d : Char} {u : S} {t : Tree Str} {c : Ctx S}
    (hr : Parser.parse ho fuel vm P script u = (.ok t, c)) (hc : c.proc.rest = d :: r) :
    ∃ exp c', Parser.parse ho' (fuel + 1) vm P' script u = (.err (.unexpectedChar d (script.length - (d :: r).length) exp), c') ∧
      c'.proc.rest = d :: r ∧ (script ≠ d :: r → exp = c% "terminate" ∧ c'.state = c.state) := by
  have hst := Spec.StartSymbol.type hs
  obtain ⟨ha, hpf⟩ := newFromParserData_ok hw hP
  obtain ⟨ha', hpf'⟩ := newFromParserData_ok hw' hP'
  obtain ⟨f, hf, hh, hwk⟩ := (parse_walk (ho := ho) hw hpf hs vm fuel script (d :: r) u c.state t).1 ⟨c, hr, hc, rfl⟩
  obtain ⟨x, hx, hl⟩ := C21_parse_sound hw hP hs vm hr
  rw [hc] at hx
  obtain ⟨t1, t2, p, kids, rfl, g1, g2, htd, hwk', hrep, hsh, hro⟩ := marked_part h hw hw' hs htp hb hf hwk
  by_cases hctl : Control pd' s s (.notEmpty [st, e]) (SetMember.ofPeek script.head?)
  · have hstop : Stops vm pd' s (fuel + 1) none [s] script (Tree.new, u) (.noAlternative e (d :: r) c.state) := by
      refine .inside (Mark.typeS h hw') h.startRule (by simp) hctl g1 (.after htd hh hwk' ?_)
      obtain ⟨k, rfl⟩ : ∃ k, fuel = k + 1 := ⟨fuel - 1, by simp only [Forest.height] at hh; omega⟩
      refine .noAlternative (Mark.typeE h hw') h.endRule ?_
      intro p hp hcon
      simp only [List.mem_singleton] at hp
      subst hp
      have := (Mark.control_end h hw' hw hst _).1 hcon
      cases this
    obtain ⟨err, c', h1, h2, h3, rule, L, h4, h5, h6, h7⟩ := (parse_stops (ho := ho') hw' ha'.defined hpf' hs' ha'.startDefined
      vm (fuel + 1) script u).2.1 _ hstop (by simp)
    rw [h.endRule] at h4; cases h4
    have hL : L = [.terminate] := by
      have hm : ∀ m, m ∈ L ↔ m = .terminate := by
        intro m
        rw [h6]
        simp only [List.mem_singleton, exists_eq_left]
        exact Mark.control_end h hw' hw hst m
      cases L with
      | nil => have := (hm .terminate).2 rfl; cases this
      | cons a L =>
        have h8 := (hm a).1 (by simp)
        subst h8
        cases L with
        | nil => rfl
        | cons b L =>
          have h9 := (hm b).1 (by simp)
          subst h9
          simp at h5
    subst hL
    subst h7
    exact ⟨_, c', h1, h2, fun _ => ⟨rfl, h3⟩⟩
  · have hxn : x = [] := by
      cases x with
      | nil => rfl
      | cons b x =>
        exact absurd ((Mark.control_start h hw' hw hst _).2 (by
          rw [hx]; exact Mark.steuer_of_read hl (.inl (by simp)))) hctl
    subst hxn
    simp only [List.nil_append] at hx
    subst hx
    have hstop : Stops vm pd' s (fuel + 1) none [s] (d :: r) (Tree.new, u) (.noAlternative s (d :: r) u) := by
      refine .noAlternative (Mark.typeS h hw') h.startRule ?_
      intro p hp hcon
      simp only [List.mem_singleton] at hp
      subst hp
      exact hctl hcon
    obtain ⟨err, c', h1, h2, h3, rule, L, h4, h5, h6, h7⟩ := (parse_stops (ho := ho') hw' ha'.defined hpf' hs' ha'.startDefined
      vm (fuel + 1) (d :: r) u).2.1 _ hstop (by simp)
    subst h7
    exact ⟨_, c', h1, h2, fun hne => absurd rfl hne⟩

end

/-- **C121**, construction with grammar data: the end marker is accepted for exactly the grammars that are. -/
theorem C121_data_built_iff (h : EndMarked pd st pd' s e) (hw : WellFormed pd) (hw' : WellFormed pd')
    (hst : pd.elementTypes[st]? = some .nonTerminal) (ho1 ho2 : HashOrder) :
    (∃ fuel P, Parser.newFromParserData ho1 fuel pd st = .ok P) ↔ (∃ fuel P, Parser.newFromParserData ho2 fuel pd' s = .ok P) := by
  rw [C16_parser_built_iff hw ho1, C16_parser_built_iff hw' ho2]
  exact ⟨Mark.acceptable h hw hw' hst, Mark.acceptable_back h hw hw' hst⟩

/-! ### rule texts -/

section
variable {S0 S1 : Type} {cc : CharClass} {vm0 : VM I S0} {rs : List (WrittenRule I)} {text text' g n : Str}
  (hcc : SpaceOk cc) (h : RulesText cc (ReadsSection vm0) rs text)
  (h' : RulesText cc (ReadsSection vm0) (endMarked g n rs) text') (hn : NewNames g n rs)
include hcc h h' hn

omit h hn in
theorem swapped_means (hd : IgnoresDefined rs) : ∃ pdm, MeansWoven (swapped g rs) pdm ∧ WellFormed pdm ∧
    InternOk pdm (elementsOf (swapped g rs)) := by
  obtain ⟨tm, htm⟩ := rulesText_of_each (rs := swapped g rs) (cc := cc) (Sec := ReadsSection vm0)
    fun r hr => h'.each r (List.mem_append_left _ hr)
  obtain ⟨pdm, -, m⟩ := parseRules_means hcc htm ((swapped_renamed g rs).ignoresDefined hd) .insertion
  exact ⟨pdm, m⟩

/-- **C121**, construction: the rules with the end marker give a parser exactly when the rules without it do. -/
theorem C121_built_iff (ho1 ho2 : HashOrder) :
    (∃ fuel P, Parser.newFromText ho1 fuel cc vm0 text = .ok P) ↔ (∃ fuel P, Parser.newFromText ho2 fuel cc vm0 text' = .ok P) := by
  have key : ∀ {pd pdm pd' : ParserData I} {st : Nat}, MeansWoven rs pd → WellFormed pd → InternOk pd (elementsOf rs) →
      (elementsOf rs)[st]? = some ⟨c% "start", .nonTerminal⟩ → MeansWoven (swapped g rs) pdm → WellFormed pdm →
      InternOk pdm (elementsOf (swapped g rs)) → MeansWoven (endMarked g n rs) pd' → WellFormed pd' →
      InternOk pd' (elementsOf (endMarked g n rs)) →
      ((∃ fuel P, Parser.newFromParserData ho1 fuel pd st = .ok P) ↔
        (∃ fuel P, Parser.newFromParserData ho2 fuel pd' (elementsOf (swapped g rs)).length = .ok P)) := by
    intro pd pdm pd' st a1 a2 a3 a4 b1 b2 b3 c1 c2 c3
    have hmem := List.mem_of_getElem? a4
    have hr := (swapped_renamed g rs).renumbered a1 b1 a3 b3
    have hi : renumbering (swapStart g) rs (swapped g rs) st = (elementsOf (swapped g rs)).idxOf ⟨g, .nonTerminal⟩ := by
      rw [renumbering_at _ _ a4, renamed_nt, swapStart_start]
    have hS := backNamed_start hn b3 hmem
    have hT := Spec.StartSymbol.type hS
    have hr0 := renumbered_backNamed hr hT
    rw [C63_built_iff a2 (backNamed_wf b2 _) hr0 ho1 ho1, hi]
    exact C121_data_built_iff (endMarked_data hn b1 b3 b2 c1 c3 hmem) (backNamed_wf b2 _) c2 hT ho1 ho2
  constructor
  · rintro ⟨fuel, P, hP⟩
    obtain ⟨pd, st, a1, a2, a3, a4, a5, a6⟩ := newFromText_means hcc h hP
    obtain ⟨pdm, b1, b2, b3⟩ := swapped_means hcc h' a4
    obtain ⟨pd', hpd', c1, c2, c3⟩ := parseRules_means hcc h' (hn.ignoresDefined ((swapped_renamed g rs).ignoresDefined a4)) ho2
    obtain ⟨fuel', P', hP'⟩ := (key a1 a2 a3 a5 b1 b2 b3 c1 c2 c3).1 ⟨fuel, P, a6⟩
    refine ⟨fuel', P', newFromText_eq hpd' ((c3.map _ _).2 ?_) hP'⟩
    rw [hn.elements (List.mem_of_getElem? a5)]; simp
  · rintro ⟨fuel, P, hP⟩
    obtain ⟨pd', s, c1, c2, c3, c4, c5, c6⟩ := newFromText_means hcc h' hP
    have hmem := endMarked_start hn c1 c3 c5 ((C16_parser_built_iff c2 ho2 s).1 ⟨fuel, P, c6⟩).defined
    have hdm := hn.untouched.ignoresDefined c4
    have hd := (swapped_renamed g rs).ignoresDefined_iff.1 hdm
    obtain ⟨pdm, b1, b2, b3⟩ := swapped_means hcc h' hd
    obtain ⟨pd, hpd, a1, a2, a3⟩ := parseRules_means hcc h hd ho1
    have hsL : s = (elementsOf (swapped g rs)).length := by
      refine c3.inj c5 ?_
      rw [hn.elements hmem]; simp
    subst hsL
    obtain ⟨fuel', P', hP'⟩ := (key a1 a2 a3 (getElem?_idxOf hmem) b1 b2 b3 c1 c2 c3).2 ⟨fuel, P, c6⟩
    exact ⟨fuel', P', newFromText_eq hpd ((a3.map _ _).2 (getElem?_idxOf hmem)) hP'⟩

omit hcc h h' hn in
theorem sameRes_ok_left {α : Type} {a : α} {r : Res PErr α} (hs : SameRes (.ok a) r) : r = .ok a := by
  cases r with
  | ok b => exact congrArg _ (Eq.symm hs)
  | err | panic | timeout => exact hs.elim

omit hcc h h' hn in
theorem sameRes_ok_right {α : Type} {a : α} {r : Res PErr α} (hs : SameRes r (.ok a)) : r = .ok a := by
  cases r with
  | ok b => exact congrArg _ hs
  | err | panic | timeout => exact hs.elim

/-- Between a grammar and its end-marked version there is one that has the same behaviour as the first, and of which the second is the
end-marked version. -/
theorem marked_bridge (hP : Parser.newFromText ho0 fuel0 cc vm0 text = .ok P) (hP' : Parser.newFromText ho0' fuel0' cc vm0 text' = .ok P') :
    ∃ (pd pd' : ParserData I) (st s e f : Nat) (Q : Parser I), EndMarked pd st pd' s e ∧ WellFormed pd ∧ WellFormed pd' ∧
      Parser.newFromParserData ho0 f pd st = .ok Q ∧ Parser.newFromParserData ho0' fuel0' pd' s = .ok P' ∧ StartSymbol pd st ∧
      StartSymbol pd' s ∧ (∀ x, Language (grammarOf pd) st x ↔ Spells rs [⟨c% "start", .nonTerminal⟩] x) ∧ ∀ {S : Type} (ho1 ho2 : HashOrder) (fuel : Nat) (vm : VM I S) (script : Str) (u : S),
        (Parser.parse ho1 fuel vm P script u).2 = (Parser.parse ho2 fuel vm Q script u).2 ∧
        SameRes (Parser.parse ho1 fuel vm P script u).1 (Parser.parse ho2 fuel vm Q script u).1 := by
  obtain ⟨pd, st, a1, a2, a3, a4, a5, a6⟩ := newFromText_means hcc h hP
  obtain ⟨pdm, b1, b2, b3⟩ := swapped_means hcc h' a4
  obtain ⟨pd', s, c1, c2, c3, c4, c5, c6⟩ := newFromText_means hcc h' hP'
  have hmem := List.mem_of_getElem? a5
  have hsL : s = (elementsOf (swapped g rs)).length := by
    refine c3.inj c5 ?_
    rw [hn.elements hmem]; simp
  subst hsL
  have hr := (swapped_renamed g rs).renumbered a1 b1 a3 b3
  have hi : renumbering (swapStart g) rs (swapped g rs) st = (elementsOf (swapped g rs)).idxOf ⟨g, .nonTerminal⟩ := by
    rw [renumbering_at _ _ a5, renamed_nt, swapStart_start]
  have hS := backNamed_start hn b3 hmem
  have hT := Spec.StartSymbol.type hS
  have hr0 := renumbered_backNamed hr hT
  obtain ⟨f, Q, hQ⟩ := (C63_built_iff a2 (backNamed_wf b2 _) hr0 ho0 ho0).1 ⟨_, _, a6⟩
  have hS' : StartSymbol (backNamed pdm ((elementsOf (swapped g rs)).idxOf ⟨g, .nonTerminal⟩))
      (renumbering (swapStart g) rs (swapped g rs) st) := by rw [hi]; exact hS
  have hQ' := hQ
  rw [hi] at hQ
  refine ⟨_, pd', _, _, _, f, Q, endMarked_data hn b1 b3 b2 c1 c3 hmem, backNamed_wf b2 _, c2, hQ, c6, hS, c3.start c5, ?_, ?_⟩
  · intro x
    have hty := Spec.StartSymbol.type (a3.start a5)
    rw [← spells_iff_forest a1 a3 a5, C19_tree_iff_language a2 hty, Language, Language,
      ← Ren.derives_map_iff hr0 a2.lengths (backNamed_wf b2 _).lengths, ofText_symMap]
    simp only [List.map_cons, List.map_nil, symMap, hi]
  intro S ho1 ho2 fuel vm script u
  exact C63_parse_same a2 (backNamed_wf b2 _) hr0 (a3.start a5) hS' a6 hQ' fuel vm script u

/-- **C121**, whole scripts: a script that is read to its end without the end marker is accepted with it, with the same final
state and one more node around the tree. -/
theorem C121_accepts (hP : Parser.newFromText ho0 fuel0 cc vm0 text = .ok P) (hP' : Parser.newFromText ho0' fuel0' cc vm0 text' = .ok P')
    {vm : VM I S} (htp : TreePreserving vm) (hb : SeesOnlyShown vm) {script : Str} {u : S} {t : Tree Str} {c : Ctx S}
    (hr : Parser.parse ho fuel vm P script u = (.ok t, c)) (hc : c.proc.rest = []) :
    ∃ t' c' r, Parser.parse ho' (fuel + 1) vm P' script u = (.ok t', c') ∧ c'.proc.rest = [] ∧ c'.state = c.state ∧
      Shows t ⟨0, 0⟩ r ∧ Shows t' ⟨0, 0⟩ (.node [] [r, .node [] []]) := by
  obtain ⟨pd, pd', st, s, e, f, Q, k1, k2, k3, k4, k5, k6, k7, -, k8⟩ := marked_bridge hcc h h' hn hP hP'
  obtain ⟨x, y⟩ := k8 ho ho fuel vm script u
  rw [hr] at x y
  have hq : Parser.parse ho fuel vm Q script u = _ := Prod.ext (sameRes_ok_left y) x.symm
  exact C121_data_accepts k1 k2 k3 k4 k5 k6 k7 htp hb hq hc

/-- **C121**, no text is left: what the parser with the end marker accepts, it has read to its end, and the parser without it
reads the same to its end, with the same final state. -/
theorem C121_accepts_only (hP : Parser.newFromText ho0 fuel0 cc vm0 text = .ok P)
    (hP' : Parser.newFromText ho0' fuel0' cc vm0 text' = .ok P') {vm : VM I S} (htp : TreePreserving vm) (hb : SeesOnlyShown vm)
    {script : Str} {u : S} {t' : Tree Str} {c' : Ctx S} (hr : Parser.parse ho' fuel vm P' script u = (.ok t', c')) :
    c'.proc.rest = [] ∧ ∃ t c, Parser.parse ho fuel vm P script u = (.ok t, c) ∧ c.proc.rest = [] ∧ c.state = c'.state := by
  obtain ⟨pd, pd', st, s, e, f, Q, k1, k2, k3, k4, k5, k6, k7, -, k8⟩ := marked_bridge hcc h h' hn hP hP'
  obtain ⟨a, t, c, b1, b2, b3⟩ := C121_data_accepts_only (ho := ho) k1 k2 k3 k4 k5 k6 k7 htp hb hr
  obtain ⟨x, y⟩ := k8 ho ho fuel vm script u
  rw [b1] at x y
  have hq : Parser.parse ho fuel vm P script u = _ := Prod.ext (sameRes_ok_right y) x
  exact ⟨a, _, _, hq, b2, b3⟩

/-- **C121**, the remaining scripts: where the parser without the end marker succeeds and leaves text unread, the one with it
reports the first unread character at its position (and, if anything was read before, that the end was expected). -/
theorem C121_unread (hP : Parser.newFromText ho0 fuel0 cc vm0 text = .ok P)
    (hP' : Parser.newFromText ho0' fuel0' cc vm0 text' = .ok P') {vm : VM I S} (htp : TreePreserving vm) (hb : SeesOnlyShown vm)
    {script r : Str} {d : Char} {u : S} {t : Tree Str} {c : Ctx S}
    (hr : Parser.parse ho fuel vm P script u = (.ok t, c)) (hc : c.proc.rest = d :: r) :
    ∃ exp c', Parser.parse ho' (fuel + 1) vm P' script u = (.err (.unexpectedChar d (script.length - (d :: r).length) exp), c') ∧
      c'.proc.rest = d :: r ∧ (script ≠ d :: r → exp = c% "terminate" ∧ c'.state = c.state) := by
  obtain ⟨pd, pd', st, s, e, f, Q, k1, k2, k3, k4, k5, k6, k7, -, k8⟩ := marked_bridge hcc h h' hn hP hP'
  obtain ⟨x, y⟩ := k8 ho ho fuel vm script u
  rw [hr] at x y
  have hq : Parser.parse ho fuel vm Q script u = _ := Prod.ext (sameRes_ok_left y) x.symm
  exact C121_data_unread k1 k2 k3 k4 k5 k6 k7 htp hb hq hc

/-- **C121**, a decision procedure: with the end marker, `parse` tells for every script whether the original rules spell it, by
returning `Ok` or a syntax error (VMs that neither edit the tree nor panic). -/
theorem C121_decides (hP' : Parser.newFromText ho0' fuel0' cc vm0 text' = .ok P') {vm : VM I S} (htp : TreePreserving vm)
    (htot : Total vm) (script : Str) :
    ∃ N, ∀ fuel, N ≤ fuel → ∀ (ho : HashOrder) (u : S),
      (Spells rs [⟨c% "start", .nonTerminal⟩] script → ∃ t c, Parser.parse ho fuel vm P' script u = (.ok t, c) ∧ c.proc.rest = []) ∧
      (¬ Spells rs [⟨c% "start", .nonTerminal⟩] script → ∃ e c, Parser.parse ho fuel vm P' script u = (.err e, c) ∧ SyntaxError e) := by
  obtain ⟨fuel0, P, hP⟩ := (C121_built_iff hcc h h' hn ho0' ho0').2 ⟨_, _, hP'⟩
  obtain ⟨pd, pd', st, s, e, f, Q, k1, k2, k3, k4, k5, k6, k7, k8, -⟩ := marked_bridge hcc h h' hn hP hP'
  have hcl := Mark.closing k1 k3 k2
  have hlang := fun x => (Mark.language_iff k1 k2 k3 (Spec.StartSymbol.type k6) x).trans (k8 x)
  obtain ⟨N1, h1⟩ := C101_accepts_language k3 k5 k7 hcl vm htp htot script
  obtain ⟨N2, h2⟩ := C24_parse_terminates (S := S) k3 k5 k7 script.length
  refine ⟨max N1 N2, fun fuel hf ho u => ⟨fun hs => ?_, fun hs => ?_⟩⟩
  · obtain ⟨t, c, hr⟩ := (h1 fuel (by omega) ho u).2 ((hlang _).2 hs)
    exact ⟨t, c, hr, (C101_whole_script k3 k5 k7 hcl vm hr).1⟩
  · have a1 := h1 fuel (by omega) ho u
    have a2 := h2 fuel (by omega) ho vm script u (Nat.le_refl _)
    have a3 := C29_only_syntax_errors (ho := ho) (fuel := fuel) k3 k5 k7 vm htp htot script u
    rcases hr : Parser.parse ho fuel vm P' script u with ⟨_ | er | _ | _, c⟩
    · exact absurd ((hlang _).1 (a1.1 ⟨_, _, hr⟩)) hs
    · refine ⟨er, c, rfl, ?_⟩
      rw [hr] at a3
      exact a3.2 er rfl
    · rw [hr] at a3; exact absurd rfl a3.1
    · rw [hr] at a2; exact absurd rfl a2

end

/-- The four machines of the library see only what their node shows. -/
theorem C121_library_machines {cc : CharClass} (checked : Bool) : SeesOnlyShown nullVm ∧ SeesOnlyShown (countingVm checked) ∧
    SeesOnlyShown (simpleStackVm checked) ∧ SeesOnlyShown (stackVm cc checked) := by
  refine ⟨fun _ _ _ _ _ _ _ _ _ => rfl, fun _ _ _ _ _ _ _ _ _ => ?_, fun τ τ' id id' r h1 h2 i s => ?_,
    fun τ τ' id id' r h1 h2 i s => ?_⟩
  · simp only [countingVm, Option.map_map]; rfl
  · have e : simpleExec checked τ id i s = simpleExec checked τ' id' i s := by
      have a := firstChildData_of_shows h1
      have b := firstChildData_of_shows h2
      cases i <;> simp only [simpleExec, a, b]
    simp only [simpleStackVm, Option.map_map, e]; rfl
  · have e : stackExec checked τ id i s = stackExec checked τ' id' i s := by
      have a := firstChildData_of_shows h1
      have b := firstChildData_of_shows h2
      cases i <;> simp only [stackExec, a, b]
    simp only [stackVm, Option.map_map, e]; rfl

/-! ### a concrete case -/

/-- A counting grammar whose scripts end with a `y`. -/
def Samples.openText : Str := c% "start -> \"a\" b \"y\"; b -> \"x\" b | # { };"

def Samples.openRules : List (WrittenRule Nat) :=
  [⟨c% "start", none, [[⟨c% "a", .terminal⟩, ⟨c% "b", .nonTerminal⟩, ⟨c% "y", .terminal⟩]], []⟩,
   ⟨c% "b", none, [[⟨c% "x", .terminal⟩, ⟨c% "b", .nonTerminal⟩], []], [0]⟩]

theorem Samples.openText_rules (checked : Bool) :
    RulesText .ascii (ReadsSection (countingVm checked)) Samples.openRules Samples.openText := by
  have sp : IsSpace [' '] := Samples.isSpace_one (by decide)
  have nb : IsName .ascii (c% "b") := Samples.isName_letter (by decide)
  have r1 := RuleText.mk (cc := .ascii) (Sec := ReadsSection (countingVm checked)) (isName_start .ascii) sp sp .absent isSpace_nil
    (.one (.seq (.cons (.terminal (b := c% "a") rfl) sp (by simp) (.cons (.name nb) sp (by simp) (.one (.terminal (b := c% "y") rfl))))))
    isSpace_nil (.absent (name := c% "start")) isSpace_nil
  have r2 := RuleText.mk (cc := .ascii) (Sec := ReadsSection (countingVm checked)) nb sp sp .absent isSpace_nil
    (.cons (.seq (.cons (.terminal (b := c% "x") rfl) sp (by simp) (.one (.name nb)))) sp sp (.one .empty)) sp
    ((C54_section_or_not checked (c% "b") [0] (c% "{ }")).2 (.inr ⟨rfl, [' '], sp, rfl⟩)) isSpace_nil
  exact .cons isSpace_nil r1 (.cons sp r2 (.nil isSpace_nil))

/-- The same with an end marker: `start` is now `g`. -/
def Samples.openEndText : Str := c% "g -> \"a\" b \"y\"; b -> \"x\" b | # { }; start -> g h; h -> #;"

theorem Samples.open_new : NewNames (c% "g") (c% "h") Samples.openRules where
  different := by decide
  notStart := by decide
  notStart' := by decide
  unused := by decide

theorem Samples.openEndText_rules (checked : Bool) :
    RulesText .ascii (ReadsSection (countingVm checked)) (endMarked (c% "g") (c% "h") Samples.openRules) Samples.openEndText := by
  have sp : IsSpace [' '] := Samples.isSpace_one (by decide)
  have nb : IsName .ascii (c% "b") := Samples.isName_letter (by decide)
  have ng : IsName .ascii (c% "g") := Samples.isName_letter (by decide)
  have nh : IsName .ascii (c% "h") := Samples.isName_letter (by decide)
  have r1 := RuleText.mk (cc := .ascii) (Sec := ReadsSection (countingVm checked)) ng sp sp .absent isSpace_nil
    (.one (.seq (.cons (.terminal (b := c% "a") rfl) sp (by simp) (.cons (.name nb) sp (by simp) (.one (.terminal (b := c% "y") rfl))))))
    isSpace_nil (.absent (name := c% "g")) isSpace_nil
  have r2 := RuleText.mk (cc := .ascii) (Sec := ReadsSection (countingVm checked)) nb sp sp .absent isSpace_nil
    (.cons (.seq (.cons (.terminal (b := c% "x") rfl) sp (by simp) (.one (.name nb)))) sp sp (.one .empty)) sp
    ((C54_section_or_not checked (c% "b") [0] (c% "{ }")).2 (.inr ⟨rfl, [' '], sp, rfl⟩)) isSpace_nil
  have r3 := RuleText.mk (cc := .ascii) (Sec := ReadsSection (countingVm checked)) (isName_start .ascii) sp sp .absent isSpace_nil
    (.one (.seq (.cons (.name ng) sp (by simp) (.one (.name nh))))) isSpace_nil (.absent (name := c% "start")) isSpace_nil
  have r4 := RuleText.mk (cc := .ascii) (Sec := ReadsSection (countingVm checked)) nh sp sp .absent isSpace_nil
    (.one .empty) isSpace_nil (.absent (name := c% "h")) isSpace_nil
  exact .cons isSpace_nil r1 (.cons sp r2 (.cons sp r3 (.cons sp r4 (.nil isSpace_nil))))

/-- What a parse leaves unread and the state it ends in. -/
def Samples.runCount (x : Res PErr (Parser Nat)) (s : Str) : Option (Str × Nat) :=
  match x with
  | .ok P => match Parser.parse .insertion 99 (countingVm true) P s 5 with
    | (.ok _, c) => some (c.proc.rest, c.state)
    | _ => none
  | _ => none

theorem Samples.runCount_eq {x : Res PErr (Parser Nat)} {s r : Str} {k : Nat} (h : Samples.runCount x s = some (r, k)) :
    ∃ P t c, x = .ok P ∧ Parser.parse .insertion 99 (countingVm true) P s 5 = (.ok t, c) ∧ c.proc.rest = r ∧ c.state = k := by
  unfold Samples.runCount at h
  cases x with
  | ok P =>
    simp only at h
    rcases hp : Parser.parse .insertion 99 (countingVm true) P s 5 with ⟨_ | _ | _ | _, c⟩
    · rw [hp] at h
      simp only [Option.some.injEq, Prod.mk.injEq] at h
      exact ⟨P, _, c, rfl, hp, h.1, h.2⟩
    all_goals rw [hp] at h; cases h
  | err | panic | timeout => cases h

/-- Both texts give a parser. -/
example : ∃ fuel P, Parser.newFromText .insertion fuel .ascii (countingVm true) Samples.openEndText = .ok P := by
  refine (C121_built_iff Samples.ruleText_reads.1 (Samples.openText_rules true) (Samples.openEndText_rules true)
    Samples.open_new .insertion .insertion).1 ?_
  obtain ⟨P, -, -, h, -⟩ := Samples.runCount_eq (x := Parser.newFromText .insertion 99 .ascii (countingVm true) Samples.openText)
    (s := c% "axxy") (r := []) (k := 8) (by decide +kernel)
  exact ⟨_, P, h⟩

/-- `axxy` is accepted by both, `axxya` is accepted only without the end marker. -/
example {P' : Parser Nat} (hP' : Parser.newFromText ho0' fuel0' .ascii (countingVm true) Samples.openEndText = .ok P') :
    (∃ t c, Parser.parse ho' 100 (countingVm true) P' (c% "axxy") 5 = (.ok t, c) ∧ c.proc.rest = [] ∧ c.state = 8) ∧
    (∃ c, Parser.parse ho' 100 (countingVm true) P' (c% "axxya") 5 = (.err (.unexpectedChar 'a' 4 (c% "terminate")), c) ∧ c.state = 8) := by
  have hb := (C121_library_machines (cc := .ascii) true).2.1
  constructor
  · obtain ⟨P, t, c, h1, h2, h3, h4⟩ := Samples.runCount_eq (x := Parser.newFromText .insertion 99 .ascii (countingVm true) Samples.openText)
      (s := c% "axxy") (r := []) (k := 8) (by decide +kernel)
    obtain ⟨t', c', r, k1, k2, k3, -⟩ := C121_accepts (ho' := ho') Samples.ruleText_reads.1 (Samples.openText_rules true) (Samples.openEndText_rules true)
      Samples.open_new h1 hP' (countingVm_treePreserving true) hb h2 h3
    exact ⟨t', c', k1, k2, k3.trans h4⟩
  · obtain ⟨P, t, c, h1, h2, h3, h4⟩ := Samples.runCount_eq (x := Parser.newFromText .insertion 99 .ascii (countingVm true) Samples.openText)
      (s := c% "axxya") (r := ['a']) (k := 8) (by decide +kernel)
    obtain ⟨exp, c', k1, k2, k3⟩ := C121_unread (ho' := ho') Samples.ruleText_reads.1 (Samples.openText_rules true) (Samples.openEndText_rules true)
      Samples.open_new h1 hP' (countingVm_treePreserving true) hb h2 h3
    obtain ⟨rfl, k4⟩ := k3 (by decide)
    exact ⟨c', k1, k4.trans h4⟩

/-- The parser with the end marker decides which texts the rules spell (here: with the counting machine of unchecked builds). -/
example {P' : Parser Nat} (hP' : Parser.newFromText ho0' fuel0' .ascii (countingVm false) Samples.openEndText = .ok P') (script : Str) :
    ∃ N, ∀ fuel, N ≤ fuel → ∀ (ho : HashOrder) (u : Nat),
      (Spells Samples.openRules [⟨c% "start", .nonTerminal⟩] script →
        ∃ t c, Parser.parse ho fuel (countingVm false) P' script u = (.ok t, c) ∧ c.proc.rest = []) ∧
      (¬ Spells Samples.openRules [⟨c% "start", .nonTerminal⟩] script →
        ∃ e c, Parser.parse ho fuel (countingVm false) P' script u = (.err e, c) ∧ SyntaxError e) :=
  C121_decides Samples.ruleText_reads.1 (Samples.openText_rules false) (Samples.openEndText_rules false) Samples.open_new hP'
    (countingVm_treePreserving false) countingVm_total script

/-- What the parser with the end marker accepts is read completely by the other one. -/
example {P P' : Parser Nat} (hP : Parser.newFromText ho0 fuel0 .ascii (countingVm true) Samples.openText = .ok P)
    (hP' : Parser.newFromText ho0' fuel0' .ascii (countingVm true) Samples.openEndText = .ok P') {t' : Tree Str} {c' : Ctx Nat}
    {script : Str} (hr : Parser.parse ho' fuel (countingVm true) P' script 5 = (.ok t', c')) : c'.proc.rest = [] :=
  (C121_accepts_only (ho := ho) Samples.ruleText_reads.1 (Samples.openText_rules true) (Samples.openEndText_rules true)
    Samples.open_new hP hP' (countingVm_treePreserving true) (C121_library_machines (cc := .ascii) true).2.1 hr).1

end HPP
