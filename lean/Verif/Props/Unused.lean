import Verif.Proofs.UnusedText
import Verif.Proofs.Fuel
import Verif.Props.AnyVm
import Verif.Props.Layout
/-
C88: rules that are not needed.
-/
namespace HPP
open Spec
variable {I S : Type} {K : Nat → Prop} {pd pd' : ParserData I} {start : Nat} {P P' : Parser I}
  {ho0 ho0' : HashOrder} {fuel0 fuel0' : Nat}

/-! ### Grammar data -/

/-- **C88**, construction: if a parser is built with the unneeded rules, one is built without them. -/
theorem C88_still_built_partial (hw : WellFormed pd) (hw' : WellFormed pd') (h : Restricted K pd pd') (hk : K start)
    (ho ho' : HashOrder) (hP : ∃ fuel P, Parser.newFromParserData ho fuel pd start = .ok P) :
    ∃ fuel P, Parser.newFromParserData ho' fuel pd' start = .ok P :=
  (C16_parser_built_iff hw' ho' start).2 (Unu.acceptable h hw' hk ((C16_parser_built_iff hw ho start).1 hP))

/-- **C88**, language: the language of `start` is the same with and without the unneeded rules. -/
theorem C88_same_language (hw : WellFormed pd) (hw' : WellFormed pd') (h : Restricted K pd pd') (hk : K start) (s : Str) :
    Language (grammarOf pd') start s ↔ Language (grammarOf pd) start s :=
  Unu.derives_iff h hw hw' hk

/-- **C88**, success: with any virtual machine, a script that is parsed without the unneeded rules is parsed with them too,
with the same tree, state and unread text. -/
theorem C88_success_kept_partial (hw : WellFormed pd) (hw' : WellFormed pd') (h : Restricted K pd pd')
    (hs : StartSymbol pd start) (hs' : StartSymbol pd' start)
    (hP : Parser.newFromParserData ho0 fuel0 pd start = .ok P) (hP' : Parser.newFromParserData ho0' fuel0' pd' start = .ok P')
    (vm : VM I S) {ho ho' : HashOrder} {fuel : Nat} {text : Str} {s : S} {t : Tree Str} {c : Ctx S}
    (hr : Parser.parse ho' fuel vm P' text s = (.ok t, c)) :
    ∃ c', Parser.parse ho fuel vm P text s = (.ok t, c') ∧ c'.proc.rest = c.proc.rest ∧ c'.state = c.state := by
  obtain ⟨f, h1, h2, h3⟩ := (C83_parse_is_walk hw' hP' hs' vm text c.proc.rest s c.state t).1 ⟨c, hr, rfl, rfl⟩
  exact (C83_parse_is_walk hw hP hs vm text c.proc.rest s c.state t).2
    ⟨f, Unu.topDown_up h hw' h1, h2, Unu.walk_up h vm h1 h3⟩

theorem prefix_cases {α : Type} {a b c d : List α} (h : a ++ b = c ++ d) :
    a = c ∨ (∃ x xs ys, b = x :: xs ∧ c = a ++ x :: ys) ∨ (∃ x xs ys, d = x :: xs ∧ a = c ++ x :: ys) := by
  rcases List.append_eq_append_iff.1 h with ⟨e, h1, h2⟩ | ⟨e, h1, h2⟩
  · cases e with
    | nil => exact .inl (by simpa using h1.symm)
    | cons x ys => exact .inr (.inl ⟨x, _, ys, by rw [h2]; rfl, h1⟩)
  · cases e with
    | nil => exact .inl (by simpa using h1)
    | cons x ys => exact .inr (.inr ⟨x, _, ys, by rw [h2]; rfl, h1⟩)

/-- **C88**, failure: a script that is rejected with the unneeded rules is rejected without them, at the same place (when
the call depth suffices). -/
theorem C88_failure_kept_partial (hw : WellFormed pd) (hw' : WellFormed pd') (h : Restricted K pd pd') (hk : K start)
    (hs : StartSymbol pd start) (hs' : StartSymbol pd' start)
    (hP : Parser.newFromParserData ho0 fuel0 pd start = .ok P) (hP' : Parser.newFromParserData ho0' fuel0' pd' start = .ok P')
    (vm : VM I S) (htp : TreePreserving vm) (htot : Total vm) {ho : HashOrder} {fuel : Nat} {text : Str} {s : S} {e : PErr}
    {c : Ctx S} (hr : Parser.parse ho fuel vm P text s = (.err e, c)) :
    ∃ N, ∀ fuel', N ≤ fuel' → ∀ ho' : HashOrder,
      ∃ e' c', Parser.parse ho' fuel' vm P' text s = (.err e', c') ∧ c'.proc.rest = c.proc.rest := by
  obtain ⟨N, hN⟩ := C24_parse_terminates (S := S) hw' hP' hs' text.length
  refine ⟨N, fun fuel' hf ho' => ?_⟩
  have h1 := hN fuel' hf ho' vm text s (Nat.le_refl _)
  have h2 := (C29_only_syntax_errors (ho := ho') (fuel := fuel') hw' hP' hs' vm htp htot text s).1
  have h3 := C28_viable_prefix (ho := ho') (fuel := fuel') hw' hP' hs' vm text s
  have h4 := C28_viable_prefix (ho := ho) (fuel := fuel) hw hP hs vm text s
  rcases hx : Parser.parse ho' fuel' vm P' text s with ⟨r, c'⟩
  rw [hx] at h1 h2 h3
  rw [hr] at h4
  obtain ⟨x2, k1, k2, -⟩ := C28_fails_at_first_bad_character hw hP hs vm htp hr
  cases r with
  | panic => exact absurd rfl h2
  | timeout => exact absurd rfl h1
  | ok t =>
    exfalso
    have hbig : ∀ fuel2, fuel' ≤ fuel2 → ∃ c2, Parser.parse ho fuel2 vm P text s = (.ok t, c2) := by
      intro fuel2 hf2
      obtain ⟨f, g1, g2, g3⟩ := (C83_parse_is_walk hw' hP' hs' vm text c'.proc.rest s c'.state t).1 ⟨c', hx, rfl, rfl⟩
      obtain ⟨c2, q1, -⟩ := (C83_parse_is_walk hw hP hs vm text c'.proc.rest s c'.state t).2
        ⟨f, Unu.topDown_up h hw' g1, Nat.le_trans g2 hf2, Unu.walk_up h vm g1 g3⟩
      exact ⟨c2, q1⟩
    obtain ⟨c2, q⟩ := hbig (max fuel fuel') (Nat.le_max_right _ _)
    have := Lim.parse_fuel_err hr (Nat.le_max_left fuel fuel')
    rw [q] at this
    cases this
  | err e' =>
    refine ⟨e', c', rfl, ?_⟩
    obtain ⟨x1, m1, m2, -⟩ := C28_fails_at_first_bad_character hw' hP' hs' vm htp hx
    obtain ⟨x3, v3, n1, n2⟩ := h3
    obtain ⟨x4, v4, o1, o2⟩ := h4
    simp only at n1 o1
    have e1 : x3 = x1 := List.append_cancel_right (n1.symm.trans m1)
    have e2 : x4 = x2 := List.append_cancel_right (o1.symm.trans k1)
    subst e1 e2
    rcases prefix_cases (m1.symm.trans k1) with he | ⟨x, xs, ys, p1, p2⟩ | ⟨x, xs, ys, p1, p2⟩
    · subst he
      exact List.append_cancel_left (m1.symm.trans k1)
    · exfalso
      refine m2 x xs p1 (ofText ys ++ v4) ((Unu.derives_iff h hw hw' hk).2 ?_)
      rw [p2] at o2
      simpa [ofText] using o2
    · exfalso
      refine k2 x xs p1 (ofText ys ++ v3) (Unu.derives_up h hw' ?_)
      rw [p2] at n2
      simpa [ofText] using n2

/-! ### Rule texts -/

variable {cc : CharClass} {rs : List (WrittenRule I)} {text text' : Str}

/-- The rules chosen by `keep` get along without the others: none of them mentions a name that another one defines. -/
def Spec.SelfContained (keep : WrittenRule I → Bool) (rs : List (WrittenRule I)) : Prop :=
  ∀ u ∈ rs, keep u = false → ∀ r ∈ rs, keep r = true → (⟨u.name, .nonTerminal⟩ : ElementVerbose) ∉ r.mentions

theorem Spec.SelfContained.untouched {keep : WrittenRule I → Bool} (h : SelfContained keep rs) :
    Untouched (rs.filter keep) (rs.filter fun r => !keep r) := by
  intro u hu r hr
  obtain ⟨u1, u2⟩ := List.mem_filter.1 hu
  obtain ⟨r1, r2⟩ := List.mem_filter.1 hr
  exact h u u1 (by simpa using u2) r r1 r2

theorem Spec.SelfContained.same {keep : WrittenRule I → Bool} (h : SelfContained keep rs) :
    SameRules id rs (rs.filter keep ++ rs.filter fun r => !keep r) := by
  refine .of_filters fun n => ?_
  rw [List.filter_append, List.filter_filter, List.filter_filter]
  by_cases hk : ∃ r ∈ rs, keep r = true ∧ r.name = n
  · obtain ⟨r, hr, hk, hn⟩ := hk
    have hall : ∀ u ∈ rs, u.name = n → keep u = true := by
      intro u hu hun
      cases hx : keep u with
      | true => rfl
      | false => exact absurd (by simp [WrittenRule.mentions, hun, hn]) (h u hu hx r hr hk)
    have h2 : rs.filter (fun r => decide (r.name = n) && !keep r) = [] := by
      rw [List.filter_eq_nil_iff]
      intro u hu hc
      simp only [Bool.and_eq_true, decide_eq_true_eq, Bool.not_eq_true'] at hc
      rw [hall u hu hc.1] at hc
      exact absurd hc.2 (by simp)
    rw [h2, List.append_nil]
    refine List.filter_congr fun u hu => ?_
    by_cases hun : u.name = n
    · simp [hun, hall u hu hun]
    · simp [hun]
  · have h1 : rs.filter (fun r => decide (r.name = n) && keep r) = [] := by
      rw [List.filter_eq_nil_iff]
      intro u hu hc
      simp only [Bool.and_eq_true, decide_eq_true_eq] at hc
      exact hk ⟨u, hu, hc.2, hc.1⟩
    rw [h1, List.nil_append]
    refine List.filter_congr fun u hu => ?_
    by_cases hun : u.name = n
    · have : keep u = false := by
        cases hx : keep u with
        | false => rfl
        | true => exact absurd ⟨u, hu, hx, hun⟩ hk
      simp [hun, this]
    · simp [hun]

/-- The data of a text with unneeded rules (moved to its end) and without them. -/
theorem unused_data (hcc : SpaceOk cc) {vm : VM I S} {keep : WrittenRule I → Bool}
    (h : RulesText cc (ReadsSection vm) rs text) (h' : RulesText cc (ReadsSection vm) (rs.filter keep) text')
    (hk : SelfContained keep rs) (hst : ∃ r ∈ rs, keep r = true ∧ r.name = c% "start") {ho : HashOrder} {fuel : Nat} {P : Parser I}
    (hP : Parser.newFromText ho fuel cc vm text = .ok P) :
    ∃ text1 fuel1 P1 pd pd' st, RulesText cc (ReadsSection vm) (rs.filter keep ++ rs.filter fun r => !keep r) text1 ∧
      Parser.newFromText ho fuel1 cc vm text1 = .ok P1 ∧ Parser.newFromParserData ho fuel1 pd st = .ok P1 ∧
      (∀ ho', ∃ q, parseRules ho' cc vm text' = .ok q) ∧ parseRules ho cc vm text' = .ok pd' ∧
      pd'.getElementNtIndex (c% "start") = some st ∧
      WellFormed pd ∧ WellFormed pd' ∧ Restricted (fun i => i < (elementsOf (rs.filter keep)).length) pd pd' ∧
      st < (elementsOf (rs.filter keep)).length ∧ StartSymbol pd st ∧ StartSymbol pd' st := by
  obtain ⟨text1, ht1⟩ := rulesText_of_each (rs := rs.filter keep ++ rs.filter fun r => !keep r) (cc := cc)
    (Sec := ReadsSection vm) (fun r hr => h.each r (by
      rcases List.mem_append.1 hr with hr | hr <;> exact (List.mem_filter.1 hr).1))
  obtain ⟨fuel1, P1, hP1⟩ := (C72_built_iff hcc vm h ht1 hk.same ho ho).1 ⟨fuel, P, hP⟩
  obtain ⟨pd, st, a1, a2, a3, a4, a5, a6⟩ := newFromText_means hcc ht1 hP1
  have hu := hk.untouched
  have hd := hu.ignoresDefined a4
  obtain ⟨pd', hpd', b1, b2, b3⟩ := parseRules_means hcc h' hd ho
  obtain ⟨r, hr, hkr, hrn⟩ := hst
  have hmem : (⟨c% "start", .nonTerminal⟩ : ElementVerbose) ∈ elementsOf (rs.filter keep) :=
    mem_elementsOf (List.mem_filter.2 ⟨hr, hkr⟩) (by simp [WrittenRule.mentions, hrn])
  have hi := getElem?_idxOf hmem
  have hlt := (List.getElem?_eq_some_iff.1 hi).1
  obtain ⟨more, hmore⟩ := addAll_prefix (elementsOf (rs.filter keep))
    ((rs.filter fun r => !keep r).flatMap WrittenRule.mentions)
  rw [← Untouched.elements_eq] at hmore
  have heq := a3.inj a5 (by rw [hmore, List.getElem?_append_left hlt]; exact hi)
  refine ⟨text1, fuel1, P1, pd, pd', st, ht1, hP1, a6, fun ho' => ?_, hpd', ?_, a2, b2, hu.restricted a1 a3 b1 b3 b2,
    by rw [heq]; exact hlt, a3.start a5, ?_⟩
  · obtain ⟨q, hq, -⟩ := parseRules_means hcc h' hd ho'
    exact ⟨q, hq⟩
  · rw [heq]; exact (b3.map _ _).2 hi
  · rw [heq]; exact b3.start hi

/-- **C88**, rule texts: if a text gives a parser, then so does the text without rules that the others do not mention. -/
theorem C88_text_still_built_partial (hcc : SpaceOk cc) {vm : VM I S} {keep : WrittenRule I → Bool}
    (h : RulesText cc (ReadsSection vm) rs text) (h' : RulesText cc (ReadsSection vm) (rs.filter keep) text')
    (hk : SelfContained keep rs) (hst : ∃ r ∈ rs, keep r = true ∧ r.name = c% "start") (ho : HashOrder)
    (hP : ∃ fuel P, Parser.newFromText ho fuel cc vm text = .ok P) :
    ∃ fuel P, Parser.newFromText ho fuel cc vm text' = .ok P := by
  obtain ⟨fuel, P, hP⟩ := hP
  obtain ⟨_, fuel1, P1, pd, pd', st, -, -, h3, -, h5, h6, h7, h8, h9, h10, -, -⟩ := unused_data hcc h h' hk hst hP
  obtain ⟨fuel', P', hP'⟩ := C88_still_built_partial h7 h8 h9 h10 ho ho ⟨fuel1, P1, h3⟩
  exact ⟨fuel', P', newFromText_eq h5 h6 hP'⟩

/-- **C88**, rule texts: what is parsed without the unneeded rules is parsed with them, to the same tree and state. -/
theorem C88_text_success_kept_partial (hcc : SpaceOk cc) {vm : VM I S} {keep : WrittenRule I → Bool}
    (h : RulesText cc (ReadsSection vm) rs text) (h' : RulesText cc (ReadsSection vm) (rs.filter keep) text')
    (hk : SelfContained keep rs) (hst : ∃ r ∈ rs, keep r = true ∧ r.name = c% "start") {ho0 : HashOrder} {fuel0 fuel0' : Nat}
    {P P' : Parser I} (hP : Parser.newFromText ho0 fuel0 cc vm text = .ok P)
    (hP' : Parser.newFromText ho0 fuel0' cc vm text' = .ok P') {S' : Type} (vm' : VM I S') {ho ho' : HashOrder} {fuel : Nat}
    {script : Str} {s : S'} {t : Tree Str} {c : Ctx S'} (hr : Parser.parse ho' fuel vm' P' script s = (.ok t, c)) :
    ∃ c', Parser.parse ho fuel vm' P script s = (.ok t, c') ∧ c'.proc.rest = c.proc.rest ∧ c'.state = c.state := by
  obtain ⟨text1, fuel1, P1, pd, pd', st, h1, h2, h3, -, h5, h6, h7, h8, h9, h10, h11, h12⟩ := unused_data hcc h h' hk hst hP
  obtain ⟨q, st', e1, e2, e3⟩ := newFromText_ok hP'
  rw [h5] at e1; cases e1
  rw [h6] at e2; cases e2
  obtain ⟨c1, k1, k2, k3⟩ := C88_success_kept_partial (ho := ho) h7 h8 h9 h11 h12 h3 e3 vm' hr
  obtain ⟨m1, m2⟩ := C72_parse_same hcc h h1 hk.same hP h2 ho ho fuel vm' script s
  rw [k1] at m1 m2
  rcases hx : Parser.parse ho fuel vm' P script s with ⟨r, c2⟩
  rw [hx] at m1 m2
  cases r <;> simp only [SameRes] at m2
  subst m2
  simp only at m1
  subst m1
  exact ⟨_, rfl, k2, k3⟩

/-- **C88**, rule texts: what is rejected with the unneeded rules is rejected without them, with the same text unread. -/
theorem C88_text_failure_kept_partial (hcc : SpaceOk cc) {vm : VM I S} {keep : WrittenRule I → Bool}
    (h : RulesText cc (ReadsSection vm) rs text) (h' : RulesText cc (ReadsSection vm) (rs.filter keep) text')
    (hk : SelfContained keep rs) (hst : ∃ r ∈ rs, keep r = true ∧ r.name = c% "start") {ho0 : HashOrder} {fuel0 fuel0' : Nat}
    {P P' : Parser I} (hP : Parser.newFromText ho0 fuel0 cc vm text = .ok P)
    (hP' : Parser.newFromText ho0 fuel0' cc vm text' = .ok P') {S' : Type} (vm' : VM I S') (htp : TreePreserving vm')
    (htot : Total vm') {ho : HashOrder} {fuel : Nat}
    {script : Str} {s : S'} {e : PErr} {c : Ctx S'} (hr : Parser.parse ho fuel vm' P script s = (.err e, c)) :
    ∃ N, ∀ fuel', N ≤ fuel' → ∀ ho' : HashOrder,
      ∃ e' c', Parser.parse ho' fuel' vm' P' script s = (.err e', c') ∧ c'.proc.rest = c.proc.rest := by
  obtain ⟨text1, fuel1, P1, pd, pd', st, h1, h2, h3, -, h5, h6, h7, h8, h9, h10, h11, h12⟩ := unused_data hcc h h' hk hst hP
  obtain ⟨q, st', e1, e2, e3⟩ := newFromText_ok hP'
  rw [h5] at e1; cases e1
  rw [h6] at e2; cases e2
  obtain ⟨m1, m2⟩ := C72_parse_same hcc h h1 hk.same hP h2 ho ho fuel vm' script s
  rw [hr] at m1 m2
  rcases hx : Parser.parse ho fuel vm' P1 script s with ⟨r, c2⟩
  rw [hx] at m1 m2
  cases r with
  | err e1 =>
    simp only at m1
    subst m1
    exact C88_failure_kept_partial h7 h8 h9 h10 h11 h12 h3 e3 vm' htp htot hx
  | ok _ => exact m2.elim
  | panic => exact m2.elim
  | timeout => exact m2.elim

/-! ### C88 in full is false -/

/-- `start -> a; a -> "x" | #;` and the unneeded rule `u -> a "x";`. -/
def Samples.unusedA : Str := c% "start -> a; a -> \"x\" | #; u -> a \"x\";"
def Samples.unusedA' : Str := c% "start -> a; a -> \"x\" | #;"
/-- `start -> "x" a; a -> "y" | #;` and the unneeded rule `u -> a "z";`. -/
def Samples.unusedB : Str := c% "start -> \"x\" a; a -> \"y\" | #; u -> a \"z\";"
def Samples.unusedB' : Str := c% "start -> \"x\" a; a -> \"y\" | #;"

/-- Whether a parser was built. -/
def Samples.built (x : Res PErr (Parser Nat)) : Option Bool :=
  match x with
  | .ok _ => some true
  | .panic => some false
  | _ => none

/-- **C88 is false**, construction: an unneeded rule can make the construction fail, because what follows `a` in it counts
like what follows `a` in a needed rule. -/
theorem C88_construction_refuted :
    Samples.unusedA = Samples.unusedA' ++ c% " u -> a \"x\";" ∧
    Samples.built (Parser.newFromText .insertion 99 .ascii nullVm Samples.unusedA) = some false ∧
    Samples.built (Parser.newFromText .insertion 99 .ascii nullVm Samples.unusedA') = some true :=
  ⟨rfl, by decide +kernel, by decide +kernel⟩

/-- **C88 is false**, parsing: with the unneeded rule the script `xz` is accepted (up to the `z`), without it it is
rejected. -/
theorem C88_parse_refuted :
    Samples.unusedB = Samples.unusedB' ++ c% " u -> a \"z\";" ∧
    Samples.runText (Parser.newFromText .insertion 99 .ascii nullVm Samples.unusedB) (c% "xz") = some (c% "z") ∧
    Samples.runText (Parser.newFromText .insertion 99 .ascii nullVm Samples.unusedB') (c% "xz") = none ∧
    Samples.built (Parser.newFromText .insertion 99 .ascii nullVm Samples.unusedB') = some true :=
  ⟨rfl, by decide +kernel, by decide +kernel, by decide +kernel⟩

/-! ### The hypotheses are met -/

def Samples.unusedRules : List (WrittenRule Nat) :=
  [⟨c% "start", none, [[⟨c% "x", .terminal⟩, ⟨c% "a", .nonTerminal⟩]], []⟩,
   ⟨c% "a", none, [[⟨c% "y", .terminal⟩], []], []⟩,
   ⟨c% "u", none, [[⟨c% "a", .nonTerminal⟩, ⟨c% "z", .terminal⟩]], []⟩]

/-- All but `u`. -/
def Samples.keepNeeded (r : WrittenRule Nat) : Bool := decide (r.name ≠ c% "u")

theorem Samples.unusedB_rules : RulesText .ascii (ReadsSection nullVm) Samples.unusedRules Samples.unusedB ∧
    RulesText .ascii (ReadsSection nullVm) (Samples.unusedRules.filter Samples.keepNeeded) Samples.unusedB' := by
  have sp : IsSpace [' '] := Samples.isSpace_one (by decide)
  have na : IsName .ascii (c% "a") := Samples.isName_letter (by decide)
  have nu : IsName .ascii (c% "u") := Samples.isName_letter (by decide)
  have r1 := RuleText.mk (cc := .ascii) (Sec := ReadsSection nullVm) (isName_start .ascii) sp sp .absent isSpace_nil
    (.one (.seq (.cons (.terminal (b := c% "x") rfl) sp (by simp) (.one (.name na))))) isSpace_nil
    (.absent (name := c% "start")) isSpace_nil
  have r2 := RuleText.mk (cc := .ascii) (Sec := ReadsSection nullVm) na sp sp .absent isSpace_nil
    (.cons (.seq (.one (.terminal (b := c% "y") rfl))) sp sp (.one .empty)) isSpace_nil
    (.absent (name := c% "a")) isSpace_nil
  have r3 := RuleText.mk (cc := .ascii) (Sec := ReadsSection nullVm) nu sp sp .absent isSpace_nil
    (.one (.seq (.cons (.name na) sp (by simp) (.one (.terminal (b := c% "z") rfl))))) isSpace_nil
    (.absent (name := c% "u")) isSpace_nil
  exact ⟨.cons isSpace_nil r1 (.cons sp r2 (.cons sp r3 (.nil isSpace_nil))),
    .cons isSpace_nil r1 (.cons sp r2 (.nil isSpace_nil))⟩

theorem Samples.unusedRules_selfContained : SelfContained Samples.keepNeeded Samples.unusedRules := by
  unfold SelfContained
  decide

/-- The hypotheses of the C88 theorems on texts are met; the parser without the rule `u` parses `xy`. -/
example : SpaceOk .ascii ∧ (∃ r ∈ Samples.unusedRules, Samples.keepNeeded r = true ∧ r.name = c% "start") ∧
    Samples.runText (Parser.newFromText .insertion 99 .ascii nullVm Samples.unusedB') (c% "xy") = some [] ∧
    Samples.runText (Parser.newFromText .insertion 99 .ascii nullVm Samples.unusedB) (c% "xy") = some [] :=
  ⟨Samples.ruleText_reads.1, ⟨_, .head _, by decide, rfl⟩, by decide +kernel, by decide +kernel⟩

/-- The error of building a parser and parsing a script with it. -/
def Samples.textErr (x : Res PErr (Parser Nat)) (s : Str) : Option PErr :=
  match x with
  | .ok P => Samples.errOf (Parser.parse .insertion 99 nullVm P s 0)
  | _ => none

/-- The parser with the rule `u` rejects `y`; so does every parser without it. -/
example {P' : Parser Nat} {fuel0' : Nat}
    (hP' : Parser.newFromText .insertion fuel0' .ascii nullVm Samples.unusedB' = .ok P') :
    ∃ N, ∀ fuel', N ≤ fuel' → ∀ ho' : HashOrder, ∃ e' c', Parser.parse ho' fuel' nullVm P' (c% "y") 0 = (.err e', c') := by
  have hb : Samples.textErr (Parser.newFromText .insertion 99 .ascii nullVm Samples.unusedB) (c% "y") =
      some (.unexpectedChar 'y' 0 (c% "x")) := by decide +kernel
  rcases hx : Parser.newFromText .insertion 99 .ascii nullVm Samples.unusedB with P | e | _ | _
  · rw [hx] at hb
    obtain ⟨c, hc⟩ := Samples.errOf_eq hb
    obtain ⟨N, hN⟩ := C88_text_failure_kept_partial Samples.ruleText_reads.1 Samples.unusedB_rules.1 Samples.unusedB_rules.2
      Samples.unusedRules_selfContained ⟨_, .head _, by decide, rfl⟩ hx hP' nullVm nullVm_treePreserving nullVm_total hc
    refine ⟨N, fun fuel' hf ho' => ?_⟩
    obtain ⟨e', c', g, -⟩ := hN fuel' hf ho'
    exact ⟨e', c', g⟩
  all_goals rw [hx] at hb; cases hb

/-- Those on grammar data: the data of the two texts. -/
example : ∃ (K : Nat → Prop) (pd pd' : ParserData Nat) (st : Nat), Restricted K pd pd' ∧ K st ∧ WellFormed pd ∧ WellFormed pd' ∧
    StartSymbol pd st ∧ StartSymbol pd' st ∧ (∃ ho fuel P, Parser.newFromParserData ho fuel pd st = .ok P) := by
  have hb : Samples.built (Parser.newFromText .insertion 99 .ascii nullVm Samples.unusedB) = some true := by decide +kernel
  rcases hx : Parser.newFromText .insertion 99 .ascii nullVm Samples.unusedB with P | e | _ | _
  · obtain ⟨_, f1, P1, pd, pd', st, -, -, h3, -, -, -, h7, h8, h9, h10, h11, h12⟩ :=
      unused_data Samples.ruleText_reads.1 Samples.unusedB_rules.1 Samples.unusedB_rules.2 Samples.unusedRules_selfContained
        ⟨_, .head _, by decide, rfl⟩ hx
    exact ⟨_, pd, pd', st, h9, h10, h7, h8, h11, h12, _, f1, P1, h3⟩
  all_goals rw [hx] at hb; cases hb

end HPP
