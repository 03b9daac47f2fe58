import Verif.Proofs.Extend
import Verif.Props.SameMeaning
import Verif.Props.Unused
/-
C91: growing a grammar is conservative.
-/
namespace HPP
open Spec
variable {I S S' : Type} {pd pd' : ParserData I} {start : Nat} {P P' : Parser I} {ho0 ho0' : HashOrder} {fuel0 fuel0' : Nat}

/-! ### Grammar data -/

/-- **C91**, construction: if a parser is built for the larger grammar, one is built for the smaller one, provided this one
is complete. -/
theorem C91_smaller_built (hw : WellFormed pd) (hw' : WellFormed pd') (h : Extends pd pd') (hd : AllDefined pd)
    (hst : ∃ r, AMap.get pd.rules start = some r) (ho ho' : HashOrder)
    (hP : ∃ fuel P, Parser.newFromParserData ho' fuel pd' start = .ok P) :
    ∃ fuel P, Parser.newFromParserData ho fuel pd start = .ok P :=
  (C16_parser_built_iff hw ho start).2 (Ext.acceptable h hw hst hd ((C16_parser_built_iff hw' ho' start).1 hP))

/-- **C91**, language: every sentence of the smaller grammar is one of the larger. -/
theorem C91_language (hw : WellFormed pd) (h : Extends pd pd') (s : Str) (hs : Language (grammarOf pd) start s) :
    Language (grammarOf pd') start s :=
  Ext.derives_up h hw hs

/-- **C91**, parses: whatever the parser of the smaller grammar parses, with any virtual machine, the parser of the larger
one parses too, to the same tree, with the same text left unread and the same final state. -/
theorem C91_success_kept (hw : WellFormed pd) (hw' : WellFormed pd') (h : Extends pd pd') (hs : StartSymbol pd start)
    (hs' : StartSymbol pd' start) (hP : Parser.newFromParserData ho0 fuel0 pd start = .ok P)
    (hP' : Parser.newFromParserData ho0' fuel0' pd' start = .ok P') (vm : VM I S) {ho ho' : HashOrder} {fuel : Nat} {text : Str}
    {s : S} {t : Tree Str} {c : Ctx S} (hr : Parser.parse ho fuel vm P text s = (.ok t, c)) :
    ∃ c', Parser.parse ho' fuel vm P' text s = (.ok t, c') ∧ c'.proc.rest = c.proc.rest ∧ c'.state = c.state := by
  obtain ⟨f, h1, h2, h3⟩ := (C83_parse_is_walk hw hP hs vm text c.proc.rest s c.state t).1 ⟨c, hr, rfl, rfl⟩
  exact (C83_parse_is_walk hw' hP' hs' vm text c.proc.rest s c.state t).2
    ⟨f, Ext.topDown_up h hw h1, h2, Ext.walk_up h vm h1 h3⟩

/-! ### Rule texts -/

variable {cc : CharClass} {rs rs' : List (WrittenRule I)} {text text' : Str}

theorem Spec.Complete.ignoresDefined (h : Complete rs) : IgnoresDefined rs := by
  intro n j m ho hu
  have hj : ∃ r ∈ rs, r.name = j := by
    unfold overrideOf at ho
    cases hf : rs.filter (fun r => decide (r.name = n)) with
    | nil => rw [hf] at ho; cases ho
    | cons a l =>
      rw [hf] at ho
      have ha : a ∈ rs := by
        have : a ∈ rs.filter (fun r => decide (r.name = n)) := by rw [hf]; exact .head _
        exact (List.mem_filter.1 this).1
      have ho : a.ignore = some j := ho
      exact h a ha j (by simp [WrittenRule.mentions, ho])
  induction hu with
  | refl => exact hj
  | tail _ hbc _ =>
    obtain ⟨a, ha, hm⟩ := hbc
    obtain ⟨r, hr, har⟩ := List.mem_flatMap.1 ha
    exact h r (List.mem_filter.1 hr).1 _ (by simp only [WrittenRule.mentions, List.mem_cons, List.mem_append, List.mem_flatten]; exact .inr (.inr ⟨a, har, hm⟩))

theorem meansWoven_rule (hm : MeansWoven rs pd) {i : Nat} {n : Str}
    (hi : (elementsOf rs)[i]? = some ⟨n, .nonTerminal⟩) (hd : ∃ r ∈ rs, r.name = n) : ∃ q, AMap.get pd.rules i = some q := by
  obtain ⟨r, hr, hn⟩ := hd
  obtain ⟨q, hq⟩ := ruleMeaning_defined (keys := elementsOf rs) hr hn
  by_cases ho : overrideOf rs n = none
  · exact ⟨_, hm.plain i n q hi hq ho⟩
  · obtain ⟨j, hj⟩ := Option.ne_none_iff_exists'.1 ho
    by_cases hu : NameUsesStar rs j n
    · exact ⟨_, hm.own i n q j hi hq hj hu⟩
    · exact ⟨_, hm.woven i n q j hi hq hj hu⟩

theorem Spec.Complete.allDefined (h : Complete rs) (hm : MeansWoven rs pd) (hin : InternOk pd (elementsOf rs)) : AllDefined pd := by
  intro A r _ p _ e _ he
  rw [hin.types, List.getElem?_map] at he
  cases hk : (elementsOf rs)[e]? with
  | none => rw [hk] at he; cases he
  | some k =>
    rw [hk] at he
    obtain ⟨n, et⟩ := k
    have het : et = .nonTerminal := by simpa using he
    subst het
    obtain ⟨r', hr', hmem⟩ := mem_elementsOf_iff.1 (List.mem_of_getElem? hk)
    exact meansWoven_rule hm hk (h r' hr' n hmem)

/-- The data of the two texts, the larger one rearranged so that it begins with the smaller. -/
theorem extend_data (hcc : SpaceOk cc) {vm : VM I S} (h : RulesText cc (ReadsSection vm) rs text)
    (h' : RulesText cc (ReadsSection vm) rs' text') (he : ExtendsRules rs rs') (hc : Complete rs)
    (hst : ∃ r ∈ rs, r.name = c% "start") {ho : HashOrder} {fuel : Nat} (hP' : Parser.newFromText ho fuel cc vm text' = .ok P') :
    ∃ us text1 fuel1 P1 pd pd1 st, SameMeaning id rs' (rs ++ us) ∧ RulesText cc (ReadsSection vm) (rs ++ us) text1 ∧
      Parser.newFromText ho fuel1 cc vm text1 = .ok P1 ∧ Parser.newFromParserData ho fuel1 pd1 st = .ok P1 ∧
      (∀ ho', ∃ q, parseRules ho' cc vm text = .ok q ∧ MeansWoven rs q ∧ WellFormed q ∧ InternOk q (elementsOf rs)) ∧
      parseRules ho cc vm text = .ok pd ∧ pd.getElementNtIndex (c% "start") = some st ∧
      WellFormed pd ∧ WellFormed pd1 ∧ Extends pd pd1 ∧ AllDefined pd ∧ (∃ r, AMap.get pd.rules st = some r) ∧
      StartSymbol pd st ∧ StartSymbol pd1 st := by
  obtain ⟨us, hs, hu⟩ := he.append h.each h'.each
  obtain ⟨text1, ht1⟩ := rulesText_of_each (rs := rs ++ us) (cc := cc) (Sec := ReadsSection vm) (fun r hr => by
    rcases List.mem_append.1 hr with hr | hr
    · exact h.each r hr
    · exact hu r hr)
  obtain ⟨fuel1, P1, hP1⟩ := (C90_built_iff hcc vm h' ht1 hs ho ho).1 ⟨fuel, P', hP'⟩
  obtain ⟨pd1, st, a1, a2, a3, a4, a5, a6⟩ := newFromText_means hcc ht1 hP1
  obtain ⟨pd, hpd, b1, b2, b3⟩ := parseRules_means hcc h hc.ignoresDefined ho
  have hext : Extends pd pd1 := extends_append (us := us) (fun n j hj hx => he.ignores n j hj (by
    have := (SM2.usesStar_iff hs j n).1
    simp only [id_eq] at this
    exact this hx)) b1 b3 a1 a3
  have hmem : (⟨c% "start", .nonTerminal⟩ : ElementVerbose) ∈ elementsOf rs := by
    obtain ⟨r, hr, hn⟩ := hst
    rw [← hn]; exact mem_elementsOf_name hr
  have hi := getElem?_idxOf hmem
  have hlt := (List.getElem?_eq_some_iff.1 hi).1
  obtain ⟨more, hmore⟩ := addAll_prefix (elementsOf rs) (us.flatMap WrittenRule.mentions)
  rw [← Untouched.elements_eq] at hmore
  have heq := a3.inj a5 (by rw [hmore, List.getElem?_append_left hlt]; exact hi)
  subst heq
  exact ⟨us, text1, fuel1, P1, pd, pd1, _, hs, ht1, hP1, a6, fun ho' => parseRules_means hcc h hc.ignoresDefined ho',
    hpd, (b3.map _ _).2 hi, b2, a2, hext, hc.allDefined b1 b3, meansWoven_rule b1 hi hst, b3.start hi, a3.start a5⟩

/-- **C91**, rule texts: if a text gives a parser, so does every complete text that it extends. -/
theorem C91_text_smaller_built (hcc : SpaceOk cc) {vm : VM I S} (h : RulesText cc (ReadsSection vm) rs text)
    (h' : RulesText cc (ReadsSection vm) rs' text') (he : ExtendsRules rs rs') (hc : Complete rs)
    (hst : ∃ r ∈ rs, r.name = c% "start") (ho : HashOrder) (hP' : ∃ fuel P, Parser.newFromText ho fuel cc vm text' = .ok P) :
    ∃ fuel P, Parser.newFromText ho fuel cc vm text = .ok P := by
  obtain ⟨fuel, P, hP⟩ := hP'
  obtain ⟨us, text1, fuel1, P1, pd, pd1, st, -, -, -, h4, -, h6, h7, h8, h9, h10, h11, h12, -, -⟩ := extend_data hcc h h' he hc hst hP
  obtain ⟨fuel', P', hP'⟩ := C91_smaller_built h8 h9 h10 h11 h12 ho ho ⟨fuel1, P1, h4⟩
  exact ⟨fuel', P', newFromText_eq h6 h7 hP'⟩

/-- **C91**, rule texts: whatever the parser of the smaller text parses, the parser of the larger one parses too, to the
same tree, with the same text left unread and the same final state, whatever the virtual machine. -/
theorem C91_text_success_kept (hcc : SpaceOk cc) {vm : VM I S} (h : RulesText cc (ReadsSection vm) rs text)
    (h' : RulesText cc (ReadsSection vm) rs' text') (he : ExtendsRules rs rs')
    {ho0 ho0' : HashOrder} {fuel0 fuel0' : Nat}
    {P P' : Parser I} (hP : Parser.newFromText ho0 fuel0 cc vm text = .ok P)
    (hP' : Parser.newFromText ho0' fuel0' cc vm text' = .ok P') (vm' : VM I S') {ho ho' : HashOrder} {fuel : Nat}
    {script : Str} {s : S'} {t : Tree Str} {c : Ctx S'} (hr : Parser.parse ho fuel vm' P script s = (.ok t, c)) :
    ∃ c', Parser.parse ho' fuel vm' P' script s = (.ok t, c') ∧ c'.proc.rest = c.proc.rest ∧ c'.state = c.state := by
  obtain ⟨us, hs, hu⟩ := he.append h.each h'.each
  obtain ⟨text1, ht1⟩ := rulesText_of_each (rs := rs ++ us) (cc := cc) (Sec := ReadsSection vm) (fun r hr => by
    rcases List.mem_append.1 hr with hr | hr
    · exact h.each r hr
    · exact hu r hr)
  obtain ⟨fuel1, P1, hP1⟩ := (C90_built_iff hcc vm h' ht1 hs ho0' ho0').1 ⟨fuel0', P', hP'⟩
  obtain ⟨pd1, st1, a1, a2, a3, a4, a5, a6⟩ := newFromText_means hcc ht1 hP1
  obtain ⟨pd, st, b1, b2, b3, b4, b5, b6⟩ := newFromText_means hcc h hP
  have hext : Extends pd pd1 := extends_append (us := us) (fun n j hj hx => he.ignores n j hj (by
    have := (SM2.usesStar_iff hs j n).1
    simp only [id_eq] at this
    exact this hx)) b1 b3 a1 a3
  have hlt := (List.getElem?_eq_some_iff.1 b5).1
  obtain ⟨more, hmore⟩ := addAll_prefix (elementsOf rs) (us.flatMap WrittenRule.mentions)
  rw [← Untouched.elements_eq] at hmore
  have heq := a3.inj a5 (by rw [hmore, List.getElem?_append_left hlt]; exact b5)
  subst heq
  obtain ⟨c1, k1, k2, k3⟩ := C91_success_kept (ho' := ho') b2 a2 hext (b3.start b5) (a3.start a5) b6 a6 vm' hr
  obtain ⟨m1, m2⟩ := C90_parse_same hcc h' ht1 hs hP' hP1 ho' ho' fuel vm' script s
  rw [k1] at m1 m2
  rcases hx : Parser.parse ho' fuel vm' P' script s with ⟨r, c2⟩
  rw [hx] at m1 m2
  cases r <;> simp only [SameRes] at m2
  subst m2
  simp only at m1
  subst m1
  exact ⟨_, rfl, k2, k3⟩

/-! ### growing a text -/

/-- `r'` is the definition `r`, perhaps with more alternatives. -/
def Spec.GrownRule (r r' : WrittenRule I) : Prop :=
  r'.name = r.name ∧ r'.ignore = r.ignore ∧ r'.instr = r.instr ∧ r.alts.Sublist r'.alts

theorem Spec.GrownRule.filter (n : Str) : ∀ {rs rs1 : List (WrittenRule I)}, List.Forall₂ GrownRule rs rs1 →
    List.Forall₂ GrownRule (rs.filter fun r => decide (r.name = n)) (rs1.filter fun r => decide (r.name = n))
  | _, _, .nil => .nil
  | r :: _, r1 :: _, .cons h t => by
    have := GrownRule.filter n t
    by_cases hn : r.name = n
    · have hn1 : r1.name = n := h.1.trans hn
      simp only [List.filter_cons, hn, hn1, decide_true, if_true]
      exact .cons h this
    · have hn1 : ¬ r1.name = n := fun hx => hn (h.1.symm.trans hx)
      simpa only [List.filter_cons, hn, hn1, decide_false, Bool.false_eq_true, if_false] using this

/-- Alternatives inserted in definitions and new definitions added at the end, in a text without overrides. -/
theorem Spec.ExtendsRules.of_grown {rs1 us : List (WrittenRule I)} (hg : List.Forall₂ GrownRule rs rs1)
    (hov : ∀ r ∈ rs, r.ignore = none) : ExtendsRules rs (rs1 ++ us) := by
  have hhead : ∀ r ∈ rs, ∃ a l a1 l1 l2, rs.filter (fun x => decide (x.name = r.name)) = a :: l ∧
      (rs1 ++ us).filter (fun x => decide (x.name = r.name)) = a1 :: l1 ++ l2 ∧ GrownRule a a1 := by
    intro r hr
    have hf := GrownRule.filter r.name hg
    have hmem : r ∈ rs.filter (fun x => decide (x.name = r.name)) := List.mem_filter.2 ⟨hr, by simp⟩
    rw [List.filter_append]
    generalize rs.filter (fun x => decide (x.name = r.name)) = x at hf hmem ⊢
    generalize rs1.filter (fun x => decide (x.name = r.name)) = y at hf ⊢
    cases hf with
    | nil => cases hmem
    | cons h _ => exact ⟨_, _, _, _, _, rfl, rfl, h⟩
  refine ⟨fun n => ?_, fun r hr => ?_, fun r hr => ?_, fun r hr => ?_, fun n j hj => ?_⟩
  · have hf := GrownRule.filter n hg
    unfold altsOf
    rw [List.filter_append, List.flatMap_append]
    refine ⟨_, List.Sublist.trans ?_ (List.sublist_append_left _ _), List.Perm.refl _⟩
    generalize rs.filter (fun x => decide (x.name = n)) = x at hf ⊢
    generalize rs1.filter (fun x => decide (x.name = n)) = y at hf ⊢
    induction hf with
    | nil => exact .slnil
    | cons h _ ih => simp only [List.flatMap_cons]; exact h.2.2.2.append ih
  · obtain ⟨a, l, a1, l1, l2, -, h2, -⟩ := hhead r hr
    have : a1 ∈ (rs1 ++ us).filter (fun x => decide (x.name = r.name)) := by rw [h2]; simp
    obtain ⟨k1, k2⟩ := List.mem_filter.1 this
    exact ⟨a1, k1, of_decide_eq_true k2⟩
  · obtain ⟨a, l, a1, l1, l2, h1, h2, h3⟩ := hhead r hr
    unfold overrideOf
    rw [h1, h2]
    exact h3.2.1
  · obtain ⟨a, l, a1, l1, l2, h1, h2, h3⟩ := hhead r hr
    unfold instrFor
    rw [h1, h2]
    exact h3.2.2.1
  · exfalso
    unfold overrideOf at hj
    split at hj
    · cases hj
    · next a l hf =>
      have : a ∈ rs.filter (fun x => decide (x.name = n)) := by rw [hf]; exact .head _
      rw [hov a (List.mem_filter.1 this).1] at hj
      cases hj

/-! ### concrete cases -/

/-- `Samples.textA` without the alternative `"y"`. -/
def Samples.textSmall : Str := c% "start -> a b; a -> \"x\"; b -> \"z\";"
/-- The rules of `Samples.textSmall`. -/
def Samples.rulesSmall : List (WrittenRule Nat) :=
  [⟨c% "start", none, [[⟨c% "a", .nonTerminal⟩, ⟨c% "b", .nonTerminal⟩]], []⟩,
   ⟨c% "a", none, [[⟨c% "x", .terminal⟩]], []⟩, ⟨c% "b", none, [[⟨c% "z", .terminal⟩]], []⟩]
/-- The rules of `Samples.textA`. -/
def Samples.rulesBig : List (WrittenRule Nat) :=
  [⟨c% "start", none, [[⟨c% "a", .nonTerminal⟩, ⟨c% "b", .nonTerminal⟩]], []⟩,
   ⟨c% "a", none, [[⟨c% "x", .terminal⟩], [⟨c% "y", .terminal⟩]], []⟩, ⟨c% "b", none, [[⟨c% "z", .terminal⟩]], []⟩]

theorem Samples.textSmall_rules : RulesText .ascii (ReadsSection nullVm) Samples.rulesSmall Samples.textSmall := by
  have sp : IsSpace [' '] := Samples.isSpace_one (by decide)
  have na : IsName .ascii (c% "a") := Samples.isName_letter (by decide)
  have nb : IsName .ascii (c% "b") := Samples.isName_letter (by decide)
  have r1 := RuleText.mk (cc := .ascii) (Sec := ReadsSection nullVm) (isName_start .ascii) sp sp .absent isSpace_nil
    (.one (.seq (.cons (.name na) sp (by simp) (.one (.name nb))))) isSpace_nil (.absent (name := c% "start")) isSpace_nil
  have r2 := RuleText.mk (cc := .ascii) (Sec := ReadsSection nullVm) na sp sp .absent isSpace_nil
    (.one (.seq (.one (.terminal (b := c% "x") rfl)))) isSpace_nil (.absent (name := c% "a")) isSpace_nil
  have r3 := RuleText.mk (cc := .ascii) (Sec := ReadsSection nullVm) nb sp sp .absent isSpace_nil
    (.one (.seq (.one (.terminal (b := c% "z") rfl)))) isSpace_nil (.absent (name := c% "b")) isSpace_nil
  exact .cons isSpace_nil r1 (.cons sp r2 (.cons sp r3 (.nil isSpace_nil)))

theorem Samples.rulesSmall_extended : ExtendsRules Samples.rulesSmall Samples.rulesBig := by
  have := ExtendsRules.of_grown (rs := Samples.rulesSmall) (rs1 := Samples.rulesBig) (us := [])
    (.cons ⟨rfl, rfl, rfl, List.Sublist.refl _⟩ (.cons ⟨rfl, rfl, rfl, List.sublist_append_left [[⟨c% "x", .terminal⟩]] [[(⟨c% "y", .terminal⟩ : ElementVerbose)]]⟩
      (.cons ⟨rfl, rfl, rfl, List.Sublist.refl _⟩ .nil))) (by decide)
  rwa [List.append_nil] at this

theorem Samples.rulesSmall_complete : Complete Samples.rulesSmall := by
  intro r hr n hn
  simp only [Samples.rulesSmall, List.mem_cons, List.not_mem_nil, or_false] at hr
  rcases hr with rfl | rfl | rfl <;>
    simp only [WrittenRule.mentions, Option.map_none, Option.toList_none, List.nil_append, List.flatten_cons, List.flatten_nil,
      List.append_nil, List.mem_cons, ElementVerbose.mk.injEq, and_true, List.not_mem_nil, or_false, reduceCtorEq, and_false] at hn
  · rcases hn with rfl | rfl | rfl
    · exact ⟨_, .head _, rfl⟩
    · exact ⟨_, .tail _ (.head _), rfl⟩
    · exact ⟨_, .tail _ (.tail _ (.head _)), rfl⟩
  · subst hn; exact ⟨_, .tail _ (.head _), rfl⟩
  · subst hn; exact ⟨_, .tail _ (.tail _ (.head _)), rfl⟩

/-- The hypotheses of the C91 theorems on texts are met; both texts give a parser and both parse `xz`. -/
example : SpaceOk .ascii ∧ RulesText .ascii (ReadsSection nullVm) Samples.rulesBig Samples.textA ∧
    (∃ r ∈ Samples.rulesSmall, r.name = c% "start") ∧
    Samples.runText (Parser.newFromText .insertion 99 .ascii nullVm Samples.textSmall) (c% "xzq") = some (c% "q") ∧
    Samples.runText (Parser.newFromText .insertion 99 .ascii nullVm Samples.textA) (c% "xzq") = some (c% "q") :=
  ⟨Samples.ruleText_reads.1, Samples.textA_rules, ⟨_, .head _, rfl⟩, by decide +kernel, by decide +kernel⟩

/-- Those on grammar data: the data of the two texts. -/
example : ∃ (pd pd1 : ParserData Nat) (st : Nat), Extends pd pd1 ∧ WellFormed pd ∧ WellFormed pd1 ∧ AllDefined pd ∧
    (∃ r, AMap.get pd.rules st = some r) ∧ StartSymbol pd st ∧ StartSymbol pd1 st ∧
    (∃ ho fuel P, Parser.newFromParserData ho fuel pd1 st = .ok P) := by
  have hb : Samples.built (Parser.newFromText .insertion 99 .ascii nullVm Samples.textA) = some true := by decide +kernel
  rcases hx : Parser.newFromText .insertion 99 .ascii nullVm Samples.textA with P | e | _ | _
  · obtain ⟨us, text1, fuel1, P1, pd, pd1, st, -, -, -, h4, -, h6, h7, h8, h9, h10, h11, h12, h13, h14⟩ :=
      extend_data Samples.ruleText_reads.1 Samples.textSmall_rules Samples.textA_rules Samples.rulesSmall_extended
        Samples.rulesSmall_complete ⟨_, .head _, rfl⟩ hx
    exact ⟨pd, pd1, st, h10, h8, h9, h11, h12, h13, h14, _, fuel1, P1, h4⟩
  all_goals rw [hx] at hb; cases hb

theorem Spec.Among.mem {α : Type} {l l' : List α} (h : Among l l') {x : α} (hx : x ∈ l) : x ∈ l' := by
  obtain ⟨m, h1, h2⟩ := h
  exact h2.mem_iff.1 (h1.subset hx)

theorem Spec.ExtendsRules.usesStar {rs rs' : List (WrittenRule I)} (h : ExtendsRules rs rs') {a b : Str} (hu : NameUsesStar rs a b) :
    NameUsesStar rs' a b := by
  exact Relation.ReflTransGen.mono (fun x y ⟨w, hw, hy⟩ => ⟨w, (h.alts x).mem hw, hy⟩) _ _ hu

theorem mem_altsOf_defined {rs : List (WrittenRule I)} {n : Str} {a : List ElementVerbose} (h : a ∈ altsOf rs n) :
    ∃ r ∈ rs, r.name = n := by
  simp only [altsOf, List.mem_flatMap, List.mem_filter, decide_eq_true_eq] at h
  obtain ⟨r, ⟨h1, h2⟩, -⟩ := h
  exact ⟨r, h1, h2⟩

theorem Spec.ExtendsRules.finalAlt {rs rs' : List (WrittenRule I)} (h : ExtendsRules rs rs') {n : Str} {a : List ElementVerbose}
    (hf : FinalAlt rs n a) : FinalAlt rs' n a := by
  cases hf with
  | plain h1 h2 =>
    obtain ⟨r, hr, rfl⟩ := mem_altsOf_defined h2
    exact .plain (by rw [h.override r hr]; exact h1) ((h.alts _).mem h2)
  | own h1 h2 h3 =>
    obtain ⟨r, hr, rfl⟩ := mem_altsOf_defined h3
    exact .own (by rw [h.override r hr]; exact h1) (h.usesStar h2) ((h.alts _).mem h3)
  | woven h1 h2 h3 =>
    obtain ⟨r, hr, rfl⟩ := mem_altsOf_defined h3
    exact .woven (by rw [h.override r hr]; exact h1) (fun hx => h2 (h.ignores _ _ h1 hx)) ((h.alts _).mem h3)

/-- **C91**, rule texts: whatever a sequence of elements can stand for by the smaller rules (overrides applied), it can stand
for by the larger ones; in particular every script of the smaller grammar is one of the larger. -/
theorem C91_text_language {rs rs' : List (WrittenRule I)} (h : ExtendsRules rs rs') {els : List ElementVerbose} {s : Str}
    (hs : Spells rs els s) : Spells rs' els s := by
  induction hs with
  | nil => exact .nil
  | terminal _ ih => exact .terminal ih
  | name hf _ _ ih1 ih2 => exact .name (h.finalAlt hf) ih1 ih2

/-- `xz` is a script of the smaller rules, hence of the larger ones. -/
example : Spells Samples.rulesSmall [⟨c% "start", .nonTerminal⟩] (c% "xz") ∧
    Spells Samples.rulesBig [⟨c% "start", .nonTerminal⟩] (c% "xz") := by
  have h : Spells Samples.rulesSmall [⟨c% "start", .nonTerminal⟩] (c% "xz") := by
    have hx : Spells Samples.rulesSmall [⟨c% "a", .nonTerminal⟩, ⟨c% "b", .nonTerminal⟩] (c% "xz") :=
      .name (s := c% "x") (s' := c% "z") (.plain (a := [⟨c% "x", .terminal⟩]) (by decide) (by decide))
        (.terminal (b := c% "x") (s := []) .nil)
        (.name (s := c% "z") (s' := []) (.plain (a := [⟨c% "z", .terminal⟩]) (by decide) (by decide))
          (.terminal (b := c% "z") (s := []) .nil) .nil)
    exact .name (s := c% "xz") (s' := []) (.plain (by decide) (by decide)) hx .nil
  exact ⟨h, C91_text_language Samples.rulesSmall_extended h⟩

end HPP
