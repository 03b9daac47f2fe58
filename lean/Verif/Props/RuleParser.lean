import Verif.Proofs.CalcData
import Verif.Proofs.RuleParserApi
import Verif.Props.RuleText
/-
C73 and C74: histories of calls on one rule parser.

`rpParseRules ho cc vm` is one call of `parse_rules`; `s.pd` is the public field `parser_data` and `s.proc.rest` the text not
yet read.
-/
namespace HPP
open Spec
variable {I S : Type}

/-! ### What holds after a successful call -/

/-- A rule parser that has read everything and whose data are in order. -/
def Finished (s : RP I) : Prop :=
  (∃ k, s.proc = Proc.at [] k) ∧ WellFormed s.pd ∧ IgnoresNT s.pd ∧ ¬ BadIgnore s.pd

theorem finished_of_edit {ho : HashOrder} {pd pd' : ParserData I} (hw : WellFormed pd) (hi : IgnoresNT pd)
    (h : editRules ho pd = .ok pd') (k : Nat) : Finished (⟨Proc.at [] k, pd'⟩ : RP I) := by
  rcases editRules_spec ho hw hi with ⟨pd1, h1, h2, h3, h4, h5, h6, h7⟩ | ⟨e, h1, -⟩
  · have hgood := goodOverrides_of_edit hw hi h1
    rw [h1] at h
    cases h
    exact ⟨⟨k, rfl⟩, edited_wellFormed hw hi h2 h3 h6 h7, edited_ignoresNT h2 h7 hi, edited_notBad h2 h7 hgood⟩
  · rw [h1] at h; cases h

/-- The first call, taken apart. -/
theorem first_call {vm : VM I S} (hvm : OnlyReads vm) {ho : HashOrder} {cc : CharClass} {text : Str} {r : Res PErr Unit} {s : RP I}
    (h : rpParseRules ho cc vm (RP.new text) = (r, s)) :
    (∃ rs pd, RulesText cc (ReadsSectionIn vm) rs text ∧ MeansOk pd rs ∧
      (r, s) = rpEditRules ho ⟨Proc.at [] text.length, pd⟩) ∨
    (∃ e rs good c bad u w' pd0 ks, r = .err e ∧ s.proc = Proc.at w' (good.length + u.length) ∧
      text = good ++ c :: bad ∧ c :: bad = u ++ w' ∧ RulesText cc (ReadsSectionIn vm) rs good ∧ CharClass.isWhitespace c = false ∧
      MeansOk pd0 rs ∧ Interned pd0 (elementsOf rs) ks s.pd ∧
      (parseRule cc vm ⟨Proc.at (c :: bad) good.length, pd0⟩).1 = .err e) := by
  have h0 : rpParseRules ho cc vm (RP.new text : RP I) =
      (parseRulesLoop cc vm (text.length + 1) >>= fun _ => rpEditRules ho) ⟨Proc.at text 0, ParserData.new⟩ := rfl
  rw [h0, SM.bind_apply] at h
  rcases rulesLoop_states hvm cc (text.length + 1) text 0 ParserData.new [] (by omega) .new with
    ⟨rs', pd', h1, h2, h3⟩ | ⟨e, rs', good, c, bad, u, w', pd0, pd', ks, h1, h2, h3, h4, h5, h6, h7, h8⟩
  · rw [h1] at h
    simp only [Nat.zero_add] at h
    exact .inl ⟨rs', pd', h2, by simpa using h3, h.symm⟩
  · rw [h1] at h
    simp only [Nat.zero_add, Prod.mk.injEq] at h
    obtain ⟨rfl, rfl⟩ := h
    exact .inr ⟨e, rs', good, c, bad, u, w', pd0, ks, rfl, rfl, h2, h3, h4, h5, by simpa using h6, by simpa using h7,
      by simpa using h8⟩

theorem MeansOk.edit_cases {pd : ParserData I} {rs : List (WrittenRule I)} (h : MeansOk pd rs) (ho : HashOrder) (k : Nat) :
    (∃ pd', rpEditRules ho ⟨Proc.at [] k, pd⟩ = (.ok (), ⟨Proc.at [] k, pd'⟩) ∧ editRules ho pd = .ok pd') ∨
    (∃ e, rpEditRules ho ⟨Proc.at [] k, pd⟩ = (.err e, ⟨Proc.at [] k, pd⟩) ∧ BadIgnore pd ∧ editRules ho pd = .err e) := by
  rcases editRules_spec ho h.wellFormed h.ignoresNT with ⟨pd1, h1, -⟩ | ⟨e, h1, hb⟩
  · exact .inl ⟨pd1, rpEditRules_ok (s := ⟨Proc.at [] k, pd⟩) h1, h1⟩
  · exact .inr ⟨e, rpEditRules_err (s := ⟨Proc.at [] k, pd⟩) h.wellFormed h.ignoresNT h1, hb, h1⟩

theorem first_call_finished {vm : VM I S} (hvm : OnlyReads vm) {ho : HashOrder} {cc : CharClass} {text : Str} {s : RP I}
    (h : rpParseRules ho cc vm (RP.new text) = (.ok (), s)) : Finished s := by
  rcases first_call hvm h with ⟨rs, pd, -, hm, he⟩ | ⟨e, rs, good, c, bad, u, w', pd0, ks, he, -⟩
  · rcases hm.edit_cases ho text.length with ⟨pd', h1, h2⟩ | ⟨e, h1, -⟩
    · rw [h1] at he
      cases he
      exact finished_of_edit hm.wellFormed hm.ignoresNT h2 _
    · rw [h1] at he; cases he
  · cases he

/-- A call on a finished rule parser only edits. -/
theorem finished_call {s : RP I} (hs : Finished s) (ho : HashOrder) (cc : CharClass) (vm : VM I S) :
    ∃ s', rpParseRules ho cc vm s = (.ok (), s') ∧ Finished s' ∧ s'.proc = s.proc ∧
      s'.pd.elementTypes = s.pd.elementTypes ∧ s'.pd.elementData = s.pd.elementData ∧ s'.pd.verboseMap = s.pd.verboseMap ∧
      ∀ A, AMap.get s'.pd.rules A = (AMap.get s.pd.rules A).map (edited s.pd.rules A) := by
  obtain ⟨p, pd⟩ := s
  obtain ⟨⟨k, rfl⟩, hw, hi, hb⟩ := hs
  simp only at hw hi hb
  rcases editRules_spec ho hw hi with ⟨pd1, h1, h2, h3, h4, h5, h6, h7⟩ | ⟨e, h1, hb'⟩
  · refine ⟨⟨Proc.at [] k, pd1⟩, ?_, finished_of_edit hw hi h1 k, rfl, h2, h3, h4, h7⟩
    rw [rpParseRules_at, smBind_ok (rulesLoop_end cc vm isSpace_nil _ k pd)]
    exact rpEditRules_ok (s := ⟨Proc.at [] k, pd⟩) h1
  · exact absurd hb' hb

/-! ### C73 -/

/-- Several calls of `parse_rules` one after the other. -/
def parseRulesCalls (cc : CharClass) (vm : VM I S) : List HashOrder → SM (RP I) PErr Unit
  | [] => pure ()
  | ho :: hos => do rpParseRules ho cc vm; parseRulesCalls cc vm hos

/-- The data of two rule parsers say the same. -/
structure SameContents (pd pd' : ParserData I) : Prop where
  elements : ∀ i, pd'.getElementVerbose i = pd.getElementVerbose i
  index : ∀ k, pd'.getElementIndex k = pd.getElementIndex k
  rules : ∀ i, pd'.getRuleByKey i = pd.getRuleByKey i

theorem parseRulesCalls_finished (cc : CharClass) (vm : VM I S) : ∀ (hos : List HashOrder) {s : RP I}, Finished s →
    ∃ s', parseRulesCalls cc vm hos s = (.ok (), s') ∧ s'.proc = s.proc ∧
      s'.pd.elementTypes = s.pd.elementTypes ∧ s'.pd.elementData = s.pd.elementData ∧ s'.pd.verboseMap = s.pd.verboseMap ∧
      (∀ A r, AMap.get s.pd.rules A = some r → r.ignore = none → AMap.get s'.pd.rules A = some r) ∧
      ∀ A, AMap.get s.pd.rules A = none → AMap.get s'.pd.rules A = none
  | [], s, hs => ⟨s, rfl, rfl, rfl, rfl, rfl, fun _ _ h _ => h, fun _ h => h⟩
  | ho :: hos, s, hs => by
    obtain ⟨s1, h1, h2, h3, h4, h5, h6, h7⟩ := finished_call hs ho cc vm
    obtain ⟨s2, g1, g3, g4, g5, g6, g7, g8⟩ := parseRulesCalls_finished cc vm hos h2
    refine ⟨s2, by rw [parseRulesCalls, smBind_ok h1, g1], g3.trans h3, g4.trans h4, g5.trans h5, g6.trans h6, ?_, ?_⟩
    · intro A r hr hn
      refine g7 A r ?_ hn
      rw [h7, hr]
      simp [edited, hn]
    · intro A hA
      exact g8 A (by rw [h7, hA]; rfl)

/-- **C73**, further calls: once a call of `parse_rules` has succeeded, the text is used up, every further call succeeds as
well, elements stay as they are and so do all rules without override. -/
theorem C73_further_calls {vm : VM I S} (hvm : OnlyReads vm) {ho : HashOrder} {cc : CharClass} {text : Str} {s : RP I}
    (h : rpParseRules ho cc vm (RP.new text) = (.ok (), s)) (hos : List HashOrder) :
    ∃ s', parseRulesCalls cc vm hos s = (.ok (), s') ∧ s.proc.rest = [] ∧ s'.proc = s.proc ∧
      (∀ i, s'.pd.getElementVerbose i = s.pd.getElementVerbose i) ∧ (∀ k, s'.pd.getElementIndex k = s.pd.getElementIndex k) ∧
      (∀ A r, s.pd.getRuleByKey A = some r → r.ignore = none → s'.pd.getRuleByKey A = some r) ∧
      (∀ A, s.pd.getRuleByKey A = none → s'.pd.getRuleByKey A = none) := by
  have hf := first_call_finished hvm h
  obtain ⟨s', h1, h2, h3, h4, h5, h6, h7⟩ := parseRulesCalls_finished cc vm hos hf
  obtain ⟨⟨k, hk⟩, -⟩ := hf
  refine ⟨s', h1, by rw [hk]; rfl, h2, ?_, ?_, h6, h7⟩
  · intro i; simp only [ParserData.getElementVerbose, h3, h4]
  · intro k; simp only [ParserData.getElementIndex, h5]

/-- **C73**, restricted: if no override is in force after the first call (in particular if the text has none), further calls
change nothing.  Missing: overrides in force, for which the claim is false (`C73_refuted`, `C73_woven_again`). -/
theorem C73_again_partial {vm : VM I S} (hvm : OnlyReads vm) {ho : HashOrder} {cc : CharClass} {text : Str} {s : RP I}
    (h : rpParseRules ho cc vm (RP.new text) = (.ok (), s))
    (hn : ∀ A r, s.pd.getRuleByKey A = some r → r.ignore = none) (hos : List HashOrder) :
    ∃ s', parseRulesCalls cc vm hos s = (.ok (), s') ∧ s'.proc = s.proc ∧ SameContents s.pd s'.pd := by
  obtain ⟨s', h1, -, h2, h3, h4, h5, h6⟩ := C73_further_calls hvm h hos
  refine ⟨s', h1, h2, h3, h4, ?_⟩
  intro A
  cases hA : s.pd.getRuleByKey A with
  | none => exact h6 A hA
  | some r => exact h5 A r hA (hn A r hA)

/-- **C73**, what a second call does to a rule whose override is in force: if the ignore element by now uses the rule, the
override is dropped; otherwise the ignore element is put between neighbours once more. -/
theorem C73_woven_again {vm : VM I S} (hvm : OnlyReads vm) {ho ho2 : HashOrder} {cc : CharClass} {text : Str} {s s2 : RP I}
    (h : rpParseRules ho cc vm (RP.new text) = (.ok (), s)) (h2 : rpParseRules ho2 cc vm s = (.ok (), s2))
    {A i : Nat} {r : NTRule I} (hr : s.pd.getRuleByKey A = some r) (hi : r.ignore = some i) :
    (UsesStar s.pd.rules i A → s2.pd.getRuleByKey A = some ⟨r.prods, none, r.instr⟩) ∧
    (¬ UsesStar s.pd.rules i A → s2.pd.getRuleByKey A = some ⟨r.prods.map (betweenAlt i), some i, r.instr⟩) := by
  obtain ⟨s', h1, -, -, -, -, -, h7⟩ := finished_call (first_call_finished hvm h) ho2 cc vm
  rw [h1] at h2
  cases h2
  have hr' : AMap.get s.pd.rules A = some r := hr
  constructor
  · intro hu
    show AMap.get s2.pd.rules A = _
    rw [h7, hr']; simp [edited, hi, hu]
  · intro hu
    show AMap.get s2.pd.rules A = _
    rw [h7, hr']; simp [edited, hi, hu]

theorem between_grows {α : Type} (i : α) : ∀ (els : List α), els.length ≤ (between i els).length ∧
    (1 < els.length → els.length < (between i els).length)
  | [] => ⟨by simp [between], by simp⟩
  | [a] => ⟨by simp [between], by simp⟩
  | a :: b :: r => by
    have := (between_grows i (b :: r)).1
    simp only [between, List.length_cons] at this ⊢
    exact ⟨by omega, fun _ => by omega⟩

theorem betweenAlt_same (i : Nat) (q : Production) : betweenAlt i q = q ↔ AtMostOne q := by
  cases q with
  | empty => simp [betweenAlt, AtMostOne]
  | notEmpty els =>
    simp only [betweenAlt, AtMostOne, Production.notEmpty.injEq]
    constructor
    · intro h
      have := (between_grows i els).2
      rw [h] at this
      omega
    · intro h
      match els, h with
      | [], _ => rfl
      | [a], _ => rfl
      | a :: b :: r, h => simp at h

theorem map_betweenAlt_same (i : Nat) : ∀ ps : List Production, ps.map (betweenAlt i) = ps ↔ ∀ q ∈ ps, AtMostOne q
  | [] => by simp
  | p :: ps => by
    simp only [List.map_cons, List.cons.injEq, List.forall_mem_cons]
    rw [betweenAlt_same, map_betweenAlt_same i ps]

/-- **C73**, exactly when a further call changes nothing: when every rule whose override is in force has only alternatives with
at most one element and is not used by its ignore element. -/
theorem C73_exactly {vm : VM I S} (hvm : OnlyReads vm) {ho ho2 : HashOrder} {cc : CharClass} {text : Str} {s s2 : RP I}
    (h : rpParseRules ho cc vm (RP.new text) = (.ok (), s)) (h2 : rpParseRules ho2 cc vm s = (.ok (), s2)) :
    SameContents s.pd s2.pd ↔
      ∀ A r i, s.pd.getRuleByKey A = some r → r.ignore = some i → ¬ UsesStar s.pd.rules i A ∧ ∀ q ∈ r.prods, AtMostOne q := by
  constructor
  · intro hs A r i hr hi
    obtain ⟨w1, w2⟩ := C73_woven_again hvm h h2 hr hi
    have hsame := hs.rules A
    rw [hr] at hsame
    have hnu : ¬ UsesStar s.pd.rules i A := by
      intro hu
      rw [w1 hu] at hsame
      have := congrArg (Option.map NTRule.ignore) hsame
      simp [hi] at this
    refine ⟨hnu, ?_⟩
    rw [w2 hnu] at hsame
    have := congrArg (Option.map NTRule.prods) hsame
    simp only [Option.map_some, Option.some.injEq] at this
    exact (map_betweenAlt_same i _).1 this
  · intro hc
    obtain ⟨s', h1, -, -, h3, h4, h5, h6⟩ := C73_further_calls hvm h [ho2]
    have hs' : s' = s2 := by
      rw [parseRulesCalls, smBind_ok h2] at h1
      cases h1
      rfl
    subst hs'
    refine ⟨h3, h4, fun A => ?_⟩
    cases hA : s.pd.getRuleByKey A with
    | none => exact h6 A hA
    | some r =>
      cases hi : r.ignore with
      | none => exact h5 A r hA hi
      | some i =>
        obtain ⟨c1, c2⟩ := hc A r i hA hi
        rw [(C73_woven_again hvm h h2 hA hi).2 c1, (map_betweenAlt_same i _).2 c2, ← hi]

/-- A text whose grammar is fine after one call and ambiguous after two. -/
def Samples.twiceText : Str := c% "start -> $[IGNORE:ws] \"a\" \"b\"; ws -> \" \" ws | #;"

/-- Its grammar data, with the alternatives of `start` as given. -/
def Samples.twiceData (els : List Nat) : ParserData Nat where
  rules := [(0, ⟨[.notEmpty els], some 1, []⟩), (1, ⟨[.notEmpty [4, 1], .empty], none, []⟩)]
  ignore := none
  elementTypes := [.nonTerminal, .nonTerminal, .terminal, .terminal, .terminal]
  verboseMap := [(⟨c% "start", .nonTerminal⟩, 0), (⟨c% "ws", .nonTerminal⟩, 1), (⟨c% "a", .terminal⟩, 2), (⟨c% "b", .terminal⟩, 3),
    (⟨c% " ", .terminal⟩, 4)]
  elementData := [⟨false, c% "start"⟩, ⟨false, c% "ws"⟩, ⟨false, c% "a"⟩, ⟨false, c% "b"⟩, ⟨false, c% " "⟩]

/-- The first and the second call: the ignore element is woven in twice. -/
theorem Samples.calls_eq :
    rpParseRules .insertion .ascii nullVm (RP.new Samples.twiceText) =
      (.ok (), ⟨Proc.at [] 48, Samples.twiceData [2, 1, 3]⟩) ∧
    rpParseRules .insertion .ascii nullVm ⟨Proc.at [] 48, Samples.twiceData [2, 1, 3]⟩ =
      (.ok (), ⟨Proc.at [] 48, Samples.twiceData [2, 1, 1, 1, 3]⟩) := by
  refine ⟨?_, ?_⟩ <;> kernel_rfl

/-- Building the parser from these data. -/
def Samples.builds (els : List Nat) : Res GErr Unit := do
  let first ← getFirstSets .insertion 10 (Samples.twiceData els)
  let follow ← getFollowSets .insertion 10 0 first (Samples.twiceData els)
  let _ ← getSteuermaps .insertion first follow (Samples.twiceData els)
  return ()

/-- After the second call the grammar is ambiguous: no parser can be built any more. -/
theorem Samples.twice_builds : Samples.builds [2, 1, 3] = .ok () ∧
    Samples.builds [2, 1, 1, 1, 3] = .err (.steuerSetsNotDistinct (c% "follow_set") ' ' 1) := by
  refine ⟨?_, ?_⟩ <;> kernel_rfl

/-- The claim "calling `parse_rules` again changes nothing", for one VM. -/
def AgainChangesNothing {I S : Type} (vm : VM I S) : Prop :=
  ∀ (ho ho2 : HashOrder) (cc : CharClass) (text : Str) (s s2 : RP I),
    rpParseRules ho cc vm (RP.new text) = (.ok (), s) → rpParseRules ho2 cc vm s = (.ok (), s2) → SameContents s.pd s2.pd

/-- **C73** is false of the code: a second call weaves the ignore element in once more. -/
theorem C73_refuted : ¬ AgainChangesNothing nullVm := by
  intro h
  have := (h .insertion .insertion .ascii Samples.twiceText _ _ Samples.calls_eq.1 Samples.calls_eq.2).rules 0
  have h1 : ((Samples.twiceData [2, 1, 3]).getRuleByKey 0).map (·.prods) = some [.notEmpty [2, 1, 3]] := rfl
  have h2 : ((Samples.twiceData [2, 1, 1, 1, 3]).getRuleByKey 0).map (·.prods) = some [.notEmpty [2, 1, 1, 1, 3]] := rfl
  rw [this, h1] at h2
  exact absurd h2 (by decide)

/-- The hypotheses of C73 are met by that text; those of the restricted version by its second half. -/
example : OnlyReads nullVm ∧ (∃ s, rpParseRules .insertion .ascii nullVm (RP.new Samples.twiceText) = (.ok (), s)) ∧
    (rpParseRules .insertion .ascii nullVm (RP.new (c% "ws -> \" \" ws | #;"))).1 = .ok () ∧
    ((rpParseRules .insertion .ascii nullVm (RP.new (c% "ws -> \" \" ws | #;"))).2.pd.rules.map fun x => x.2.ignore) = [none] :=
  ⟨nullVm_onlyReads, ⟨_, Samples.calls_eq.1⟩, by decide +kernel, by decide +kernel⟩

/-! ### C74 -/

/-- The rules in `pd` are exactly those that `rs` denotes, nothing woven in; the elements of `rs` have their numbers (there may
be more elements). -/
structure HoldsRules (rs : List (WrittenRule I)) (pd : ParserData I) : Prop where
  elements : ∀ i k, (elementsOf rs)[i]? = some k → pd.getElementVerbose i = some k
  rules : ∀ i, pd.getRuleByKey i = match (elementsOf rs)[i]? with
    | some ⟨n, .nonTerminal⟩ => ruleMeaning (elementsOf rs) rs n
    | _ => none

theorem holdsRules_of_interned {pd0 pd : ParserData I} {rs : List (WrittenRule I)} {ks : List ElementVerbose} (hm : MeansOk pd0 rs)
    (hI : Interned pd0 (elementsOf rs) ks pd) : HoldsRules rs pd := by
  refine ⟨?_, ?_⟩
  · intro i k hk
    rw [hI.ok.verbose]
    obtain ⟨more, hmore⟩ := addAll_prefix (elementsOf rs) ks
    rw [hmore, List.getElem?_append_left (List.getElem?_eq_some_iff.1 hk).1]
    exact hk
  · intro i
    have := hm.means.rules i
    simp only [ParserData.getRuleByKey] at this ⊢
    rw [hI.rules]
    exact this

/-- Failure of the editing does not depend on the hash order. -/
theorem editRules_err_any {pd : ParserData I} (hw : WellFormed pd) (hi : IgnoresNT pd) {ho : HashOrder} {e : PErr}
    (h : editRules ho pd = .err e) (ho2 : HashOrder) : ∃ e2, editRules ho2 pd = .err e2 := by
  have hn : AMap.NodupKeys pd.rules := hw.rulesNodup
  have hget : ∀ x ∈ pd.rules, AMap.get pd.rules x.1 = some x.2 := fun x hx => AMap.get_of_mem hn hx
  have key : ∀ ho : HashOrder, (∃ pd', editRules ho pd = .ok pd') ↔ ∀ x ∈ pd.rules, ∃ b, weaveFlag pd x.1 x.2 = .ok b := by
    intro ho
    have hp10 := ho.perm 10 (Nat × NTRule I) pd.rules
    have hp11 := ho.perm 11 (Nat × NTRule I) pd.rules
    have hn10 : ((ho.iter 10 (Nat × NTRule I) pd.rules).map (·.1)).Nodup := AMap.NodupKeys.perm hn hp10
    have hn11 : ((ho.iter 11 (Nat × NTRule I) pd.rules).map (·.1)).Nodup := AMap.NodupKeys.perm hn hp11
    unfold editRules
    rcases editActions_spec pd (ho.iter 10 (Nat × NTRule I) pd.rules) [] hn10 (fun x hx => by
        rcases weaveFlag_spec hw hi (hget x (hp10.mem_iff.1 hx)) with ⟨b, hb, -⟩ | ⟨e, he, -⟩
        · rw [hb]; simp
        · rw [he]; simp) with ⟨m, h1, h2, -⟩ | ⟨e', h1, x, hx, hxe⟩
    · have hall : ∀ x ∈ pd.rules, ∃ b, weaveFlag pd x.1 x.2 = .ok b ∧ AMap.get m x.1 = some b :=
        fun x hx => h2 x (hp10.mem_iff.2 hx)
      obtain ⟨m', a1, -⟩ := editApply_spec m (ho.iter 11 (Nat × NTRule I) pd.rules) [] hn11 AMap.NodupKeys.nil
        (fun x hx => (hall x (hp11.mem_iff.1 hx)).imp fun b hb => hb.2)
      rw [h1, Res.bind_ok, a1, Res.bind_ok]
      exact ⟨fun _ x hx => (hall x hx).imp fun b hb => hb.1, fun _ => ⟨_, rfl⟩⟩
    · rw [h1, Res.bind_err]
      constructor
      · rintro ⟨_, h⟩; cases h
      · intro hall
        obtain ⟨b, hb⟩ := hall x (hp10.mem_iff.1 hx)
        rw [hb] at hxe; cases hxe
  rcases editRules_spec ho2 hw hi with ⟨pd1, h1, -⟩ | ⟨e2, h1, -⟩
  · obtain ⟨pd', h'⟩ := (key ho).2 ((key ho2).1 ⟨pd1, h1⟩)
    rw [h] at h'; cases h'
  · exact ⟨e2, h1⟩

/-- **C74.** After a failed call of `parse_rules` nothing is lost.  Either reading failed: then the text before the first
text that is not a rule consists of rules, and the data hold exactly these rules as written.  Or the whole text was read
and an ignore production uses an undefined name: then the data hold all rules as written, and calling again fails again
and changes nothing. -/
theorem C74_failed_call {vm : VM I S} (hvm : OnlyReads vm) {ho : HashOrder} {cc : CharClass} (hcc : SpaceOk cc) {text : Str} {e : PErr}
    {s : RP I} (h : rpParseRules ho cc vm (RP.new text) = (.err e, s)) :
    (∃ rs good c bad, text = good ++ c :: bad ∧ RulesText cc (ReadsSectionIn vm) rs good ∧ CharClass.isWhitespace c = false ∧
      (∀ r u v, c :: bad = u ++ v → ¬ RuleText cc (ReadsSection vm) r u) ∧ HoldsRules rs s.pd ∧
      ∃ u, c :: bad = u ++ s.proc.rest) ∨
    (∃ rs, RulesText cc (ReadsSectionIn vm) rs text ∧ ¬ IgnoresDefined rs ∧ Means rs s.pd ∧ s.proc.rest = [] ∧
      ∀ ho2 : HashOrder, ∃ e2, rpParseRules ho2 cc vm s = (.err e2, s)) := by
  rcases first_call hvm h with ⟨rs, pd, ht, hm, he⟩ | ⟨e', rs, good, c, bad, u, w', pd0, ks, -, hs, htx, hbad, hrt, hc, hm, hI, hfail⟩
  · right
    rcases hm.edit_cases ho text.length with ⟨pd', h1, h2⟩ | ⟨e', h1, hb, h2⟩
    · rw [h1] at he; cases he
    · rw [h1] at he
      cases he
      refine ⟨rs, ht, hm.badIgnore hb, hm.means, rfl, ?_⟩
      intro ho2
      obtain ⟨e2, he2⟩ := editRules_err_any hm.wellFormed hm.ignoresNT h2 ho2
      refine ⟨e2, ?_⟩
      rw [rpParseRules_at, smBind_ok (rulesLoop_end cc vm isSpace_nil _ _ pd)]
      exact rpEditRules_err (s := ⟨Proc.at [] text.length, pd⟩) hm.wellFormed hm.ignoresNT he2
  · left
    refine ⟨rs, good, c, bad, htx, hrt, hc, ?_, holdsRules_of_interned hm hI, u, by rw [hs]; exact hbad⟩
    intro r u' v hu hr
    obtain ⟨k', pd', h1, -⟩ := parseRule_complete hcc hr v good.length hm.ok hm.ignore
    rw [hu, h1] at hfail
    cases hfail

/-- The state after a call on a text. -/
def Samples.after (text : Str) : Res PErr Unit × RP Nat := rpParseRules .insertion .ascii nullVm (RP.new text)

/-- Both kinds of failure occur, and keep what was read. -/
example : (Samples.after (c% "s -> a \"x\"; a -> \"y\" ; b = c;")).1 = .err (.unexpectedChar '=' 25 (c% "-")) := by
  decide +kernel
example : ((Samples.after (c% "s -> a \"x\"; a -> \"y\" ; b = c;")).2.pd.rules.map fun x => (x.1, x.2.prods)) =
      [(0, [.notEmpty [1, 2]]), (1, [.notEmpty [3]])] := by
  decide +kernel
example : (Samples.after (c% "s -> $[IGNORE:w] \"x\" \"y\";")).1 = .err (.internal 1) := by decide +kernel
example : ((Samples.after (c% "s -> $[IGNORE:w] \"x\" \"y\";")).2.pd.rules.map fun x => (x.1, x.2.prods, x.2.ignore)) =
      [(0, [.notEmpty [2, 3]], some 1)] := by
  decide +kernel

end HPP
