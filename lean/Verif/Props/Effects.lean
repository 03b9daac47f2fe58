import Verif.Proofs.Effects
import Verif.Props.Executing
import Verif.Props.SameMeaning
import Verif.Props.Ideal
import Verif.Props.Calculator
import Verif.Props.Counting
/-
C118: of the instruction sections, a parse uses only their effect.  Two grammars that differ in nothing but their sections,
with whatever virtual machines, instructions and states, give a parser or not together, and their parses go alike as long as
the sections of every rule have the same effect.
-/
namespace HPP
open Spec
open scoped Classical
variable {I J S1 S2 T1 T2 : Type} {T : Tree Str → Prop} {R : T1 → T2 → Prop}

/-! ### grammar data -/

section
variable {pd : ParserData I} {pd' : ParserData J}

/-- **C118**, construction from data. -/
theorem C118_built_iff (hw : WellFormed pd) (hw' : WellFormed pd') (h : SameSyntax pd pd') (start : Nat) (ho1 ho2 : HashOrder) :
    (∃ fuel P, Parser.newFromParserData ho1 fuel pd start = .ok P) ↔
    (∃ fuel P, Parser.newFromParserData ho2 fuel pd' start = .ok P) := by
  rw [C16_parser_built_iff hw, C16_parser_built_iff hw']
  exact ⟨h.acceptable, h.symm.acceptable⟩

/-- **C118**, parsing with parsers built from data: with sections of the same effect, and from related states, both parses panic,
or both end with the same result (the same tree, or the same error up to the order of the expected list), with the same text
unread, and in related states. -/
theorem C118_parse (hw : WellFormed pd) (hw' : WellFormed pd') (h : SameSyntax pd pd') {start : Nat} {ho1 ho2 : HashOrder}
    {fuel1 fuel2 : Nat} {P1 : Parser I} {P2 : Parser J} (h1 : Parser.newFromParserData ho1 fuel1 pd start = .ok P1)
    (h2 : Parser.newFromParserData ho2 fuel2 pd' start = .ok P2) {vm1 : VM I T1} {vm2 : VM J T2}
    (hT : KeptByAdding (NodeText pd') T) (hx : ∀ A, SameEffect T R vm1 vm2 (instrOf pd A) (instrOf pd' A))
    (ho3 ho4 : HashOrder) (fuel : Nat) (script : Str) {s1 : T1} {s2 : T2} (hs : R s1 s2) :
    ((Parser.parse ho3 fuel vm1 P1 script s1).1 = .panic ∧ (Parser.parse ho4 fuel vm2 P2 script s2).1 = .panic) ∨
    (SameRes (Parser.parse ho3 fuel vm1 P1 script s1).1 (Parser.parse ho4 fuel vm2 P2 script s2).1 ∧
      (Parser.parse ho3 fuel vm1 P1 script s1).2.proc = (Parser.parse ho4 fuel vm2 P2 script s2).2.proc ∧
      R (Parser.parse ho3 fuel vm1 P1 script s1).2.state (Parser.parse ho4 fuel vm2 P2 script s2).2.state) := by
  have ha := ParserFor.agreeX (T := T) (R := R) (vm1 := vm1) (vm2 := vm2) h (newFromParserData_ok hw h1).2 (newFromParserData_ok hw' h2).2
    (fun A r r' hr hr' => by have := hx A; simpa only [instrOf, hr, hr'] using this)
  rcases XSim.parse hT (.inl rfl) (newFromParserData_ok hw' h2).2.nodeText ha ho3 ho4 fuel script hs with h | ⟨g1, g2, -, g3⟩
  · exact .inl h
  · exact .inr ⟨g1, g2, g3⟩

theorem grown_kept {D : Str → Prop} : KeptByAdding D OnlyGrown := ⟨.new, fun _ _ _ _ h => .add h⟩

/-- In sections of machines that leave the tree alone and never panic, there is nothing to compare but the states. -/
theorem sameEffect_calm {vm1 : VM I T1} {vm2 : VM J T2} (t1 : TreePreserving vm1) (t2 : TreePreserving vm2)
    (o1 : ∀ t id i s, OnlyGrown t → vm1.execute t id i s ≠ none) (o2 : ∀ t id i s, OnlyGrown t → vm2.execute t id i s ≠ none)
    (is1 : List I) (is2 : List J) : SameEffect OnlyGrown (fun _ _ => True) vm1 vm2 is1 is2 := by
  have key : ∀ {K T0 : Type} (vm : VM K T0), TreePreserving vm → (∀ t id i s, OnlyGrown t → vm.execute t id i s ≠ none) →
      ∀ (is : List K) (t : Tree Str) (id : NodeId) (s : T0), OnlyGrown t → ∃ s', Executes vm id is (t, s) (t, s') := by
    intro K T0 vm tp o is
    induction is with
    | nil => intro t id s _; exact ⟨s, .nil⟩
    | cons i is ih =>
      intro t id s hg
      cases he : vm.execute t id i s with
      | none => exact absurd he (o t id i s hg)
      | some y =>
        obtain ⟨t', s1⟩ := y
        have ht := tp t id i s t' s1 he
        subst ht
        obtain ⟨s', hs'⟩ := ih t' id s1 hg
        exact ⟨s', .cons he hs'⟩
  intro t id s1 s2 hg _
  obtain ⟨a, ha⟩ := key vm1 t1 o1 is1 t id s1 hg
  obtain ⟨b, hb⟩ := key vm2 t2 o2 is2 t id s2 hg
  exact .inr ⟨t, a, b, ha, hb, hg, trivial⟩

/-- The machine without its panics on trees that have not just grown. -/
noncomputable def grownOnly (vm : VM I T1) : VM I T1 where
  parseInstructions := vm.parseInstructions
  execute t id i s := if OnlyGrown t then vm.execute t id i s else some (t, s)
  init := vm.init

theorem parse_grown_no_panic (hw : WellFormed pd) {start : Nat} {ho1 : HashOrder} {fuel1 : Nat} {P1 : Parser I}
    (h1 : Parser.newFromParserData ho1 fuel1 pd start = .ok P1) (hst : StartSymbol pd start) {vm1 : VM I T1}
    (t1 : TreePreserving vm1) (o1 : ∀ t id i s, OnlyGrown t → vm1.execute t id i s ≠ none)
    (ho3 : HashOrder) (fuel : Nat) (script : Str) (s1 : T1) : (Parser.parse ho3 fuel vm1 P1 script s1).1 ≠ .panic := by
  have t2 : TreePreserving (grownOnly vm1) := by
    intro t id i s t' s' h
    simp only [grownOnly] at h
    split at h
    · exact t1 _ _ _ _ _ _ h
    · cases h; rfl
  have o2 : Total (grownOnly vm1) := by
    intro t id i s h
    simp only [grownOnly] at h
    split at h
    · next hg => exact o1 t id i s hg h
    · cases h
  have hno := (C29_only_syntax_errors (ho := ho3) (fuel := fuel) hw h1 hst (grownOnly vm1) t2 o2 script s1).1
  rcases C118_parse (R := fun _ _ => True) hw hw ⟨rfl, rfl, fun _ => rfl⟩ h1 h1 grown_kept
    (fun A => sameEffect_calm t1 t2 o1 (fun t id i s _ => o2 t id i s) _ _) ho3 ho3 fuel script (s1 := s1) (s2 := s1) trivial
    with ⟨-, b⟩ | ⟨a, -⟩
  · exact absurd b hno
  · intro hp
    rw [hp] at a
    cases hq : (Parser.parse ho3 fuel (grownOnly vm1) P1 script s1).1 with
    | panic => exact hno hq
    | ok v => rw [hq] at a; exact a
    | err v => rw [hq] at a; exact a
    | timeout => rw [hq] at a; exact a

/-- **C118**, for machines that leave the tree alone and never panic on a tree that has only grown: whatever the sections are, the
result and the unread text are the same. -/
theorem C118_any_sections (hw : WellFormed pd) (hw' : WellFormed pd') (h : SameSyntax pd pd') {start : Nat} {ho1 ho2 : HashOrder}
    {fuel1 fuel2 : Nat} {P1 : Parser I} {P2 : Parser J} (h1 : Parser.newFromParserData ho1 fuel1 pd start = .ok P1)
    (h2 : Parser.newFromParserData ho2 fuel2 pd' start = .ok P2) (hst : StartSymbol pd start) {vm1 : VM I T1} {vm2 : VM J T2}
    (t1 : TreePreserving vm1) (t2 : TreePreserving vm2) (o1 : ∀ t id i s, OnlyGrown t → vm1.execute t id i s ≠ none)
    (o2 : ∀ t id i s, OnlyGrown t → vm2.execute t id i s ≠ none)
    (ho3 ho4 : HashOrder) (fuel : Nat) (script : Str) (s1 : T1) (s2 : T2) :
    SameRes (Parser.parse ho3 fuel vm1 P1 script s1).1 (Parser.parse ho4 fuel vm2 P2 script s2).1 ∧
    (Parser.parse ho3 fuel vm1 P1 script s1).2.proc = (Parser.parse ho4 fuel vm2 P2 script s2).2.proc := by
  rcases C118_parse (R := fun _ _ => True) hw hw' h h1 h2 grown_kept (fun A => sameEffect_calm t1 t2 o1 o2 _ _) ho3 ho4 fuel script
    (s1 := s1) (s2 := s2) trivial with ⟨a, b⟩ | ⟨a, b, -⟩
  · exact absurd a (parse_grown_no_panic hw h1 hst t1 o1 ho3 fuel script s1)
  · exact ⟨a, b⟩
end

/-! ### rule texts -/

section erase
variable {rs : List (WrittenRule I)}

theorem filter_withoutSection (n : Str) :
    (rs.map WrittenRule.withoutSection).filter (fun r => decide (r.name = n)) =
    (rs.filter (fun r => decide (r.name = n))).map WrittenRule.withoutSection := by
  rw [List.filter_map]; rfl

theorem elementsOf_withoutSection : elementsOf (rs.map WrittenRule.withoutSection) = elementsOf rs := by
  simp only [elementsOf, List.flatMap_map]
  rfl

theorem altsOf_withoutSection : altsOf (rs.map WrittenRule.withoutSection) = altsOf rs := by
  funext n
  simp only [altsOf, filter_withoutSection, List.flatMap_map]
  rfl

theorem overrideOf_withoutSection : overrideOf (rs.map WrittenRule.withoutSection) = overrideOf rs := by
  funext n
  simp only [overrideOf, filter_withoutSection]
  cases rs.filter (fun r => decide (r.name = n)) <;> rfl

theorem nameUses_withoutSection : NameUses (rs.map WrittenRule.withoutSection) = NameUses rs := by
  funext n m
  simp only [NameUses, altsOf_withoutSection]

theorem ruleMeaning_withoutSection (keys : List ElementVerbose) (n : Str) :
    (ruleMeaning keys (rs.map WrittenRule.withoutSection) n).map NTRule.prods = (ruleMeaning keys rs n).map NTRule.prods := by
  simp only [ruleMeaning, filter_withoutSection]
  cases rs.filter (fun r => decide (r.name = n)) with
  | nil => rfl
  | cons d ds =>
    simp only [List.map_cons, Option.map_some, Option.some.injEq, List.flatMap_cons, List.flatMap_map]
    rfl

/-- The alternatives in force for the element number `i`. -/
noncomputable def alternativesAt (rs : List (WrittenRule I)) (i : Nat) : Option (List Production) :=
  match (elementsOf rs)[i]? with
  | some ⟨n, .nonTerminal⟩ => ((ruleMeaning (elementsOf rs) rs n).map NTRule.prods).map fun ps =>
    match overrideOf rs n with
    | none => ps
    | some j => if NameUsesStar rs j n then ps else ps.map (betweenAlt ((elementsOf rs).idxOf ⟨j, .nonTerminal⟩))
  | _ => none

theorem alternativesAt_withoutSection (i : Nat) : alternativesAt (rs.map WrittenRule.withoutSection) i = alternativesAt rs i := by
  simp only [alternativesAt, elementsOf_withoutSection, ruleMeaning_withoutSection, overrideOf_withoutSection, NameUsesStar,
    nameUses_withoutSection]

theorem Spec.MeansWoven.alternatives {pd : ParserData I} (hm : MeansWoven rs pd) (A : Nat) :
    (AMap.get pd.rules A).map NTRule.prods = alternativesAt rs A := by
  by_cases hx : ∃ n, (elementsOf rs)[A]? = some ⟨n, .nonTerminal⟩
  · obtain ⟨n, hn⟩ := hx
    simp only [alternativesAt, hn]
    cases hq : ruleMeaning (elementsOf rs) rs n with
    | none =>
      have h1 : AMap.get pd.rules A = none := hm.undefined A n hn hq
      rw [h1]; rfl
    | some q =>
      cases ho : overrideOf rs n with
      | none =>
        have h1 : AMap.get pd.rules A = some q := hm.plain A n q hn hq ho
        rw [h1]; rfl
      | some j =>
        by_cases hu : NameUsesStar rs j n
        · have h1 : AMap.get pd.rules A = _ := hm.own A n q j hn hq ho hu
          rw [h1]; simp only [Option.map_some, if_pos hu]
        · have h1 : AMap.get pd.rules A = _ := hm.woven A n q j hn hq ho hu
          rw [h1]; simp only [Option.map_some, if_neg hu]
  · have h1 : AMap.get pd.rules A = none := hm.noName A fun n hn => hx ⟨n, hn⟩
    rw [h1]
    simp only [alternativesAt]
    split
    · next n hn => exact absurd ⟨n, hn⟩ hx
    · rfl
end erase

variable {cc : CharClass} {rs : List (WrittenRule I)} {rs' : List (WrittenRule J)} {text text' : Str}

theorem elementsOf_sameSyntax (he : rs.map WrittenRule.withoutSection = rs'.map WrittenRule.withoutSection) :
    elementsOf rs' = elementsOf rs := by
  rw [← elementsOf_withoutSection (rs := rs'), ← he, elementsOf_withoutSection]

theorem sameSyntax_of_means (he : rs.map WrittenRule.withoutSection = rs'.map WrittenRule.withoutSection) {pd : ParserData I}
    {pd' : ParserData J} (hm : MeansWoven rs pd) (hm' : MeansWoven rs' pd') (hi : InternOk pd (elementsOf rs))
    (hi' : InternOk pd' (elementsOf rs')) : SameSyntax pd pd' := by
  refine ⟨?_, ?_, fun A => ?_⟩
  · rw [hi.types, hi'.types, elementsOf_sameSyntax he]
  · rw [hi.data, hi'.data, elementsOf_sameSyntax he]
  · rw [hm.alternatives, hm'.alternatives, ← alternativesAt_withoutSection (rs := rs'), ← he, alternativesAt_withoutSection]

theorem ignoresDefined_withoutSection : IgnoresDefined (rs.map WrittenRule.withoutSection) ↔ IgnoresDefined rs := by
  simp only [IgnoresDefined, overrideOf_withoutSection, NameUsesStar, nameUses_withoutSection, List.mem_map]
  constructor
  · intro h n j m a b
    obtain ⟨r, ⟨q, hq, rfl⟩, hn⟩ := h n j m a b
    exact ⟨q, hq, hn⟩
  · intro h n j m a b
    obtain ⟨r, hr, hn⟩ := h n j m a b
    exact ⟨_, ⟨r, hr, rfl⟩, hn⟩

theorem built_of_built (hcc : SpaceOk cc) {vm : VM I S1} {vm' : VM J S2} (h : RulesText cc (ReadsSection vm) rs text)
    (h' : RulesText cc (ReadsSection vm') rs' text') (he : rs.map WrittenRule.withoutSection = rs'.map WrittenRule.withoutSection)
    (ho1 ho2 : HashOrder) (hb : ∃ fuel P, Parser.newFromText ho1 fuel cc vm text = .ok P) :
    ∃ fuel P, Parser.newFromText ho2 fuel cc vm' text' = .ok P := by
  obtain ⟨fuel, P, hP⟩ := hb
  obtain ⟨pd, st, a1, a2, a3, a4, a5, a6⟩ := newFromText_means hcc h hP
  have hd : IgnoresDefined rs' := by
    rw [← ignoresDefined_withoutSection (rs := rs'), ← he, ignoresDefined_withoutSection]; exact a4
  obtain ⟨pd', hpd', b1, b2, b3⟩ := parseRules_means hcc h' hd ho2
  obtain ⟨fuel', P', hP'⟩ := (C118_built_iff a2 b2 (sameSyntax_of_means he a1 b1 a3 b3) st ho1 ho2).1 ⟨fuel, P, a6⟩
  exact ⟨fuel', P', newFromText_eq hpd' ((b3.map _ _).2 (by rw [elementsOf_sameSyntax he]; exact a5)) hP'⟩

theorem nodeText_intern {pd : ParserData I} {keys : List ElementVerbose} (hi : InternOk pd keys) {d : Str} (hd : NodeText pd d) :
    d = [] ∨ (⟨d, .terminal⟩ : ElementVerbose) ∈ keys := by
  rcases hd with rfl | ⟨e, h1, h2⟩
  · exact .inl rfl
  · right
    rw [hi.types, List.getElem?_map] at h1
    rw [hi.data, List.getElem?_map] at h2
    cases hk : keys[e]? with
    | none => rw [hk] at h1; cases h1
    | some k =>
      rw [hk] at h1 h2
      obtain ⟨n, t⟩ := k
      simp only [Option.map_some, Option.some.injEq] at h1 h2
      subst h1; subst h2
      exact List.mem_of_getElem? hk

/-- **C118**, construction from rule texts: of two rule texts that are the same except for their sections (and blanks), read with
two machines, either both give a parser or none does. -/
theorem C118_text_built_iff (hcc : SpaceOk cc) {vm : VM I S1} {vm' : VM J S2} (h : RulesText cc (ReadsSection vm) rs text)
    (h' : RulesText cc (ReadsSection vm') rs' text') (he : rs.map WrittenRule.withoutSection = rs'.map WrittenRule.withoutSection)
    (ho1 ho2 : HashOrder) :
    (∃ fuel P, Parser.newFromText ho1 fuel cc vm text = .ok P) ↔
    (∃ fuel P, Parser.newFromText ho2 fuel cc vm' text' = .ok P) :=
  ⟨built_of_built hcc h h' he ho1 ho2, built_of_built hcc h' h he.symm ho2 ho1⟩

/-- **C118**, parsing with parsers built from rule texts that are the same except for their sections: if for every name the
sections in force have the same effect, both parses panic, or both end with the same result, with the same text unread, and in
related states. -/
theorem C118_text_parse (hcc : SpaceOk cc) {vm : VM I S1} {vm' : VM J S2} (h : RulesText cc (ReadsSection vm) rs text)
    (h' : RulesText cc (ReadsSection vm') rs' text') (he : rs.map WrittenRule.withoutSection = rs'.map WrittenRule.withoutSection)
    {ho1 ho2 : HashOrder} {fuel1 fuel2 : Nat} {P1 : Parser I} {P2 : Parser J}
    (h1 : Parser.newFromText ho1 fuel1 cc vm text = .ok P1) (h2 : Parser.newFromText ho2 fuel2 cc vm' text' = .ok P2)
    {vm1 : VM I T1} {vm2 : VM J T2} (hT : KeptByAdding (NodeTextOf rs) T)
    (hx : ∀ n, SameEffect T R vm1 vm2 (instructionsOf rs n) (instructionsOf rs' n))
    (ho3 ho4 : HashOrder) (fuel : Nat) (script : Str) {s1 : T1} {s2 : T2} (hs : R s1 s2) :
    ((Parser.parse ho3 fuel vm1 P1 script s1).1 = .panic ∧ (Parser.parse ho4 fuel vm2 P2 script s2).1 = .panic) ∨
    (SameRes (Parser.parse ho3 fuel vm1 P1 script s1).1 (Parser.parse ho4 fuel vm2 P2 script s2).1 ∧
      (Parser.parse ho3 fuel vm1 P1 script s1).2.proc = (Parser.parse ho4 fuel vm2 P2 script s2).2.proc ∧
      R (Parser.parse ho3 fuel vm1 P1 script s1).2.state (Parser.parse ho4 fuel vm2 P2 script s2).2.state) := by
  obtain ⟨pd, st, a1, a2, a3, a4, a5, a6⟩ := newFromText_means hcc h h1
  obtain ⟨pd', st', b1, b2, b3, b4, b5, b6⟩ := newFromText_means hcc h' h2
  have hel := elementsOf_sameSyntax he
  rw [hel] at b5
  have heq := a3.inj b5 a5
  rw [heq] at b6
  refine C118_parse a2 b2 (sameSyntax_of_means he a1 b1 a3 b3) a6 b6
    ⟨hT.new, fun t d p hd => hT.add t d p (by have := nodeText_intern b3 hd; rw [hel] at this; exact this)⟩ (fun A => ?_) ho3 ho4 fuel script hs
  by_cases hA : ∃ n, (elementsOf rs)[A]? = some ⟨n, .nonTerminal⟩
  · obtain ⟨n, hn⟩ := hA
    rw [instrOf_means a1 hn, instrOf_means b1 (by rw [hel]; exact hn)]
    exact hx n
  · have c1 : AMap.get pd.rules A = none := a1.noName A fun n hn => hA ⟨n, hn⟩
    have c2 : AMap.get pd'.rules A = none := b1.noName A fun n hn => hA ⟨n, by rw [← hel]; exact hn⟩
    simp only [instrOf, c1, c2]
    intro t id s1 s2 ht h
    exact .inr ⟨t, s1, s2, .nil, .nil, ht, h⟩

/-- **C118**, rule texts and machines that leave the tree alone and never panic on a tree that has only grown: whatever the sections
are, the result and the unread text are the same. -/
theorem C118_text_any_sections (hcc : SpaceOk cc) {vm : VM I S1} {vm' : VM J S2} (h : RulesText cc (ReadsSection vm) rs text)
    (h' : RulesText cc (ReadsSection vm') rs' text') (he : rs.map WrittenRule.withoutSection = rs'.map WrittenRule.withoutSection)
    {ho1 ho2 : HashOrder} {fuel1 fuel2 : Nat} {P1 : Parser I} {P2 : Parser J}
    (h1 : Parser.newFromText ho1 fuel1 cc vm text = .ok P1) (h2 : Parser.newFromText ho2 fuel2 cc vm' text' = .ok P2)
    {vm1 : VM I T1} {vm2 : VM J T2} (t1 : TreePreserving vm1) (t2 : TreePreserving vm2)
    (o1 : ∀ t id i s, OnlyGrown t → vm1.execute t id i s ≠ none) (o2 : ∀ t id i s, OnlyGrown t → vm2.execute t id i s ≠ none)
    (ho3 ho4 : HashOrder) (fuel : Nat) (script : Str) (s1 : T1) (s2 : T2) :
    SameRes (Parser.parse ho3 fuel vm1 P1 script s1).1 (Parser.parse ho4 fuel vm2 P2 script s2).1 ∧
    (Parser.parse ho3 fuel vm1 P1 script s1).2.proc = (Parser.parse ho4 fuel vm2 P2 script s2).2.proc := by
  obtain ⟨pd, st, a1, a2, a3, a4, a5, a6⟩ := newFromText_means hcc h h1
  obtain ⟨pd', st', b1, b2, b3, b4, b5, b6⟩ := newFromText_means hcc h' h2
  have hel := elementsOf_sameSyntax he
  rw [hel] at b5
  have heq := a3.inj b5 a5
  rw [heq] at b6
  exact C118_any_sections a2 b2 (sameSyntax_of_means he a1 b1 a3 b3) a6 b6 (a3.start a5) t1 t2 o1 o2 ho3 ho4 fuel script s1 s2

/-! ### the machines that come with the project -/

theorem onlyGrown_treeOk {t : Tree Str} (h : OnlyGrown t) : TreeOk t := by
  induction h with
  | new => exact ⟨[], .new⟩
  | add _ ih => exact ih.addNode _ _

/-- **C118**, the machines that come with the project, without overflow checks: none changes the tree, none panics on a tree that
has only grown. -/
theorem C118_shipped_machines (cc : CharClass) :
    (TreePreserving nullVm ∧ ∀ t id i s, OnlyGrown t → nullVm.execute t id i s ≠ none) ∧
    (TreePreserving (countingVm false) ∧ ∀ t id i s, OnlyGrown t → (countingVm false).execute t id i s ≠ none) ∧
    (TreePreserving (simpleStackVm false) ∧ ∀ t id i s, OnlyGrown t → (simpleStackVm false).execute t id i s ≠ none) ∧
    (TreePreserving (stackVm cc false) ∧ ∀ t id i s, OnlyGrown t → (stackVm cc false).execute t id i s ≠ none) := by
  refine ⟨⟨nullVm_treePreserving, fun t id i s _ => nullVm_total t id i s⟩, ⟨countingVm_treePreserving false, fun t id i s _ h => ?_⟩,
    ⟨simpleStackVm_treePreserving false, fun t id i s h => exec_simple_release i t id s (onlyGrown_treeOk h)⟩,
    ⟨stackVm_treePreserving cc false, fun t id i s h => exec_stack_release cc i t id s (onlyGrown_treeOk h)⟩⟩
  simp only [countingVm, uRes] at h
  split at h
  · cases h
  · cases h

theorem textParser_data {vm : VM I T1} {ins : CalcNT → List I} {text : Str}
    (e1 : (parseRulesLoop cc vm (text.length + 1) (RP.new text)).1 = .ok ())
    (e2 : (parseRulesLoop cc vm (text.length + 1) (RP.new text)).2.pd = Examples.data ins) {ho1 : HashOrder} {fuel1 : Nat}
    {P1 : Parser I} (h1 : Parser.newFromText ho1 fuel1 cc vm text = .ok P1) :
    ∃ pd, WellFormed pd ∧ StartSymbol pd 0 ∧ Parser.newFromParserData ho1 fuel1 pd 0 = .ok P1 ∧
      pd.elementTypes = (Examples.data ins).elementTypes ∧ pd.elementData = (Examples.data ins).elementData ∧
      ∀ A, AMap.get pd.rules A = AMap.get (Examples.data ins).rules A := by
  obtain ⟨pd, st, k1, k2, k3⟩ := newFromText_ok h1
  obtain ⟨pd', g1, g2, g3, g4, g5, g6⟩ := editRules_plain ho1 (Examples.data_wf ins) (Examples.data_noIgnore ins)
  have hpd : parseRules ho1 cc vm text = .ok pd' := by
    unfold parseRules
    rcases hx : parseRulesLoop cc vm (text.length + 1) (RP.new text) with ⟨a, b⟩
    rw [hx] at e1 e2
    simp only at e1 e2
    subst e1
    simp only [e2]
    exact g1
  rw [hpd] at k1
  cases k1
  have hst : pd.getElementNtIndex (c% "start") = some 0 := by
    simp only [ParserData.getElementNtIndex, g4]; rfl
  rw [hst] at k2
  cases k2
  exact ⟨pd, wellFormed_congr g2 g3 g6 g5 (Examples.data_wf _), startSymbol_congr g2 g3 g6 (Examples.data_start _), k3, g2, g3, g6⟩

theorem Examples.data_prods (ins : CalcNT → List I) (ins' : CalcNT → List J) (A : Nat) :
    (AMap.get (Examples.data ins').rules A).map NTRule.prods = (AMap.get (Examples.data ins).rules A).map NTRule.prods := by
  have h : (Examples.data ins').rules.map (fun x => (x.1, x.2.prods)) = (Examples.data ins).rules.map (fun x => (x.1, x.2.prods)) := rfl
  have key : ∀ {K : Type} (l : AMap Nat (NTRule K)), (AMap.get l A).map NTRule.prods = AMap.get (l.map (fun x => (x.1, x.2.prods))) A := by
    intro K l
    induction l with
    | nil => rfl
    | cons x l ih =>
      obtain ⟨k, v⟩ := x
      simp only [AMap.get, List.map_cons]
      split
      · rfl
      · exact ih
  rw [key, key, h]

/-- **C118**, the calculators of `examples/simple_stack_based_math` and `examples/stack_based_math`, compiled without overflow checks:
their machines, instructions and states differ, but on every text, from whatever states, both give the same tree or the same error
(up to the order of the expected characters), and leave the same text unread. -/
theorem C118_calculators {ho1 ho2 : HashOrder} {fuel1 fuel2 : Nat} {cc : CharClass} {P1 : Parser SInstr} {P2 : Parser Instr}
    (h1 : Parser.newFromText ho1 fuel1 cc (simpleStackVm false) Examples.simpleMathText = .ok P1)
    (h2 : Parser.newFromText ho2 fuel2 cc (stackVm cc false) Examples.mathText = .ok P2)
    (ho3 ho4 : HashOrder) (fuel : Nat) (text : Str) (s1 : SState) (s2 : VState) :
    SameRes (Parser.parse ho3 fuel (simpleStackVm false) P1 text s1).1 (Parser.parse ho4 fuel (stackVm cc false) P2 text s2).1 ∧
    (Parser.parse ho3 fuel (simpleStackVm false) P1 text s1).2.proc = (Parser.parse ho4 fuel (stackVm cc false) P2 text s2).2.proc := by
  obtain ⟨pd, a1, a2, a3, a4, a5, a6⟩ := textParser_data (Examples.simple_text_ok cc false) (Examples.simple_text cc false) h1
  obtain ⟨pd', b1, b2, b3, b4, b5, b6⟩ := textParser_data (Examples.stack_text_ok cc false) (Examples.stack_text cc false) h2
  have hm := C118_shipped_machines cc
  refine C118_any_sections a1 b1 ⟨?_, ?_, fun A => ?_⟩ a3 b3 a2 hm.2.2.1.1 hm.2.2.2.1 hm.2.2.1.2 hm.2.2.2.2 ho3 ho4 fuel text s1 s2
  · rw [a4, b4]; rfl
  · rw [a5, b5]; rfl
  · rw [a6, b6]; exact Examples.data_prods _ _ A

/-! ### concrete cases -/

/-- `Samples.countText` with a section of StackVm. -/
def Samples.pushText : Str := c% "start -> \"a\" b; b -> \"x\" b | # {PushConst 1;};"

def Samples.pushRules : List (WrittenRule Instr) :=
  [⟨c% "start", none, [[⟨c% "a", .terminal⟩, ⟨c% "b", .nonTerminal⟩]], []⟩,
   ⟨c% "b", none, [[⟨c% "x", .terminal⟩, ⟨c% "b", .nonTerminal⟩], []], [.pushConst 1]⟩]

theorem Samples.pushText_rules (checked : Bool) :
    RulesText .ascii (ReadsSection (stackVm .ascii checked)) Samples.pushRules Samples.pushText := by
  have sp : IsSpace [' '] := Samples.isSpace_one (by decide)
  have nb : IsName .ascii (c% "b") := Samples.isName_letter (by decide)
  have h := InstrText.const (cc := .ascii) (n := c% "PushConst") (mk := fun v => .pushConst (asSigned v)) (.tail _ (.head _))
    isSpace_blank (by simp) (ds := c% "1") (by simp) (by decide) (by decide +kernel)
  have hv : asSigned (decimalValue (c% "1")) = 1 := by decide +kernel
  rw [hv] at h
  have h' : StackSection .ascii [.pushConst 1] (c% "PushConst 1;") := ⟨[], _, rfl, isSpace_nil, .cons h isSpace_nil .nil⟩
  have r1 := RuleText.mk (cc := .ascii) (Sec := ReadsSection (stackVm .ascii checked)) (isName_start .ascii) sp sp .absent isSpace_nil
    (.one (.seq (.cons (.terminal (b := c% "a") rfl) sp (by simp) (.one (.name nb))))) isSpace_nil
    (.absent (name := c% "start")) isSpace_nil
  have r2 := RuleText.mk (cc := .ascii) (Sec := ReadsSection (stackVm .ascii checked)) nb sp sp .absent isSpace_nil
    (.cons (.seq (.cons (.terminal (b := c% "x") rfl) sp (by simp) (.one (.name nb)))) sp sp (.one .empty)) sp
    (.given (name := c% "b") isSpace_nil (by intro c r h; injection h with h _; subst h; decide)
      ((stackVm_reads ascii_spaceOk checked (c% "b") _ _).2 h')) isSpace_nil
  exact .cons isSpace_nil r1 (.cons sp r2 (.nil isSpace_nil))

/-- The counter counts what lies on the stack. -/
def Samples.counts (n : Nat) (s : VState) : Prop := n = s.stack.length % 2 ^ 64

theorem Samples.counts_sameEffect (n : Str) : SameEffect (fun _ => True) Samples.counts (countingVm false) (stackVm .ascii false)
    (instructionsOf Samples.countRules n) (instructionsOf Samples.pushRules n) := by
  have hone : SameEffect (fun _ => True) Samples.counts (countingVm false) (stackVm .ascii false) [0] [.pushConst 1] := by
    intro t id s1 s2 _ hs
    refine .inr ⟨t, (s1 + 1) % 2 ^ 64, { s2 with stack := 1 :: s2.stack }, .cons (y := (t, (s1 + 1) % 2 ^ 64)) ?_ .nil,
      .cons rfl .nil, trivial, ?_⟩
    · have : uRes false ((s1 : Int) + 1) = some ((s1 + 1) % 2 ^ 64) := by
        simp only [uRes]
        split
        · congr 1; omega
        · simp only [Bool.false_eq_true, if_false, Option.some.injEq]; omega
      simp only [countingVm, this, Option.map_some]
    · simp only [Samples.counts] at hs ⊢
      rw [hs, List.length_cons, Nat.mod_add_mod]
  have hnil : SameEffect (fun _ => True) Samples.counts (countingVm false) (stackVm .ascii false) [] [] :=
    fun t id s1 s2 _ hs => .inr ⟨t, s1, s2, .nil, .nil, trivial, hs⟩
  by_cases h1 : c% "start" = n
  · simp only [instructionsOf, Samples.countRules, Samples.pushRules, List.filter_cons, h1, decide_true, if_true]
    exact hnil
  · by_cases h2 : c% "b" = n
    · simp only [instructionsOf, Samples.countRules, Samples.pushRules, List.filter_cons, h1, h2, decide_true, decide_false,
        if_true, Bool.false_eq_true, if_false]
      exact hone
    · simp only [instructionsOf, Samples.countRules, Samples.pushRules, List.filter_cons, h1, h2, decide_false,
        Bool.false_eq_true, if_false, List.filter_nil]
      exact hnil

theorem Samples.count_built : ∃ P, Parser.newFromText .insertion 99 .ascii (countingVm false) Samples.countText = .ok P := by
  have : (match Parser.newFromText .insertion 99 .ascii (countingVm false) Samples.countText with | .ok _ => true | _ => false) = true := by
    decide +kernel
  generalize Parser.newFromText .insertion 99 .ascii (countingVm false) Samples.countText = x at this
  cases x with
  | ok P => exact ⟨P, rfl⟩
  | err e => cases this
  | panic => cases this
  | timeout => cases this

/-- The hypotheses of C118_text_built_iff and C118_text_parse are met by a text with a CountingVm section and one with a StackVm
section: both give a parser, and whatever the script, the counter of the one ends with the number of items on the stack of the
other. -/
example : ∃ P1 P2 fuel1 fuel2, Parser.newFromText .insertion fuel1 .ascii (countingVm false) Samples.countText = .ok P1 ∧
    Parser.newFromText .insertion fuel2 .ascii (stackVm .ascii false) Samples.pushText = .ok P2 ∧
    ∀ fuel script,
      ((Parser.parse .insertion fuel (countingVm false) P1 script 0).1 = .panic ∧
        (Parser.parse .insertion fuel (stackVm .ascii false) P2 script VState.init).1 = .panic) ∨
      (SameRes (Parser.parse .insertion fuel (countingVm false) P1 script 0).1
        (Parser.parse .insertion fuel (stackVm .ascii false) P2 script VState.init).1 ∧
      (Parser.parse .insertion fuel (countingVm false) P1 script 0).2.proc =
        (Parser.parse .insertion fuel (stackVm .ascii false) P2 script VState.init).2.proc ∧
      (Parser.parse .insertion fuel (countingVm false) P1 script 0).2.state =
        (Parser.parse .insertion fuel (stackVm .ascii false) P2 script VState.init).2.state.stack.length % 2 ^ 64) := by
  have hb : ∃ fuel P, Parser.newFromText .insertion fuel .ascii (countingVm false) Samples.countText = .ok P :=
    ⟨99, Samples.count_built⟩
  obtain ⟨fuel2, P2, h2⟩ := (C118_text_built_iff ascii_spaceOk (Samples.countText_rules false) (Samples.pushText_rules false) rfl
    .insertion .insertion).1 hb
  obtain ⟨fuel1, P1, h1⟩ := hb
  exact ⟨P1, P2, fuel1, fuel2, h1, h2, fun fuel script => C118_text_parse ascii_spaceOk (Samples.countText_rules false)
    (Samples.pushText_rules false) rfl h1 h2 ⟨trivial, fun _ _ _ _ _ => trivial⟩ Samples.counts_sameEffect .insertion .insertion fuel
    script (rfl : Samples.counts 0 VState.init)⟩

/-- C118_text_any_sections applies to the same two texts. -/
example : ∃ P1 P2 fuel1 fuel2, Parser.newFromText .insertion fuel1 .ascii (countingVm false) Samples.countText = .ok P1 ∧
    Parser.newFromText .insertion fuel2 .ascii (stackVm .ascii false) Samples.pushText = .ok P2 ∧
    ∀ fuel script s1 s2, SameRes (Parser.parse .insertion fuel (countingVm false) P1 script s1).1
        (Parser.parse .insertion fuel (stackVm .ascii false) P2 script s2).1 := by
  obtain ⟨P1, h1⟩ := Samples.count_built
  obtain ⟨fuel2, P2, h2⟩ := (C118_text_built_iff ascii_spaceOk (Samples.countText_rules false) (Samples.pushText_rules false) rfl
    .insertion .insertion).1 ⟨99, P1, h1⟩
  have hm := C118_shipped_machines .ascii
  exact ⟨P1, P2, 99, fuel2, h1, h2, fun fuel script s1 s2 => (C118_text_any_sections ascii_spaceOk (Samples.countText_rules false)
    (Samples.pushText_rules false) rfl h1 h2 hm.2.1.1 hm.2.2.2.1 hm.2.1.2 hm.2.2.2.2 .insertion .insertion fuel script s1 s2).1⟩

/-- The two calculators exist, and the theorem compares them on every text. -/
example (cc : CharClass) : ∃ (P1 : Parser SInstr) (P2 : Parser Instr), ∀ fuel text,
    SameRes (Parser.parse .insertion fuel (simpleStackVm false) P1 text SState.init).1
      (Parser.parse .insertion fuel (stackVm cc false) P2 text VState.init).1 := by
  obtain ⟨⟨f1, P1, h1⟩, ⟨f2, P2, h2⟩, -⟩ := C53_examples_built .insertion cc false
  exact ⟨P1, P2, fun fuel text => (C118_calculators h1 h2 .insertion .insertion fuel text _ _).1⟩

/-- The hypotheses of C118_built_iff, C118_parse and C118_any_sections: the list grammar with its sections and without any. -/
example : WellFormed Samples.listData ∧ SameSyntax Samples.listData
      { Samples.listData with rules := Samples.listData.rules.map fun x => (x.1, (⟨x.2.prods, x.2.ignore, []⟩ : NTRule Nat)) } ∧
    StartSymbol Samples.listData 0 ∧ (∃ A, instrOf Samples.listData A = [1, 2]) :=
  ⟨Samples.listData_wf, ⟨rfl, rfl, fun A => by
    have : ∀ l : AMap Nat (NTRule Nat), (AMap.get (l.map fun x => (x.1, (⟨x.2.prods, x.2.ignore, []⟩ : NTRule Nat))) A).map NTRule.prods =
        (AMap.get l A).map NTRule.prods := by
      intro l
      induction l with
      | nil => rfl
      | cons x l ih =>
        obtain ⟨k, v⟩ := x
        simp only [AMap.get, List.map_cons]
        split
        · rfl
        · exact ih
    exact this _⟩, Samples.listData_start, ⟨0, rfl⟩⟩

end HPP
