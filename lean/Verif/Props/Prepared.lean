import Verif.Proofs.Prepared
import Verif.Proofs.CalcData
import Verif.Props.RuleParser
/-
C77: a rule parser whose public field `parser_data` was filled before `parse_rules` is called.
-/
namespace HPP
open Spec
variable {I S : Type}

/-- Data prepared by hand: elements requested in the order `ks`, any rules, any default ignore element. -/
def prepared (ks : List ElementVerbose) (rules : AMap Nat (NTRule I)) (dflt : Option Nat) : ParserData I :=
  { (build (ks.map .request) : ParserData I) with rules := rules, ignore := dflt }

/-- A rule parser on `text` with these data. -/
def preparedParser (text : Str) (pd : ParserData I) : RP I := { (RP.new text : RP I) with pd := pd }

theorem prepared_intern (ks : List ElementVerbose) (rules : AMap Nat (NTRule I)) (dflt : Option Nat) :
    InternOk (prepared ks rules dflt) (firstOccurrences ks) := by
  have h := build_intern (ks.map BuildOp.request : List (BuildOp I))
  have hr : requested (ks.map BuildOp.request : List (BuildOp I)) = ks := by
    induction ks with
    | nil => rfl
    | cons k ks ih => simp [requested]
  rw [hr] at h
  exact h.of_tables rfl rfl rfl

/-- The prepared rules and the default are in order: rules and ignore elements are those of non-terminals, alternatives
mention existing elements. -/
def InOrder (pd : ParserData I) : Prop :=
  WellFormed pd ∧ (∀ A r i, pd.getRuleByKey A = some r → r.ignore = some i → pd.elementTypes[i]? = some .nonTerminal) ∧
  ∀ j, pd.ignore = some j → pd.elementTypes[j]? = some .nonTerminal

/-- `pd'` is `pd` with ignore elements woven in: a rule with an ignore element that does not use the rule gets it between
neighbours; if it does use the rule, the rule stays as it is and loses its ignore element. -/
structure WovenIn (pd pd' : ParserData I) : Prop where
  elements : ∀ i, pd'.getElementVerbose i = pd.getElementVerbose i
  index : ∀ k, pd'.getElementIndex k = pd.getElementIndex k
  default : pd'.ignore = pd.ignore
  absent : ∀ A, pd.getRuleByKey A = none → pd'.getRuleByKey A = none
  plain : ∀ A r, pd.getRuleByKey A = some r → r.ignore = none → pd'.getRuleByKey A = some r
  own : ∀ A r i, pd.getRuleByKey A = some r → r.ignore = some i → UsesStar pd.rules i A →
    pd'.getRuleByKey A = some ⟨r.prods, none, r.instr⟩
  woven : ∀ A r i, pd.getRuleByKey A = some r → r.ignore = some i → ¬ UsesStar pd.rules i A →
    pd'.getRuleByKey A = some ⟨r.prods.map (betweenAlt i), some i, r.instr⟩

theorem wovenIn_of_edit {ho : HashOrder} {pd pd' : ParserData I} (hw : WellFormed pd) (hi : IgnoresNT pd)
    (h : editRules ho pd = .ok pd') : WovenIn pd pd' := by
  rcases editRules_spec ho hw hi with ⟨pd1, h1, h2, h3, h4, h5, h6, h7⟩ | ⟨e, h1, -⟩
  · rw [h1] at h
    cases h
    refine ⟨?_, ?_, h5, ?_, ?_, ?_, ?_⟩
    · intro i; simp only [ParserData.getElementVerbose, h2, h3]
    · intro k; simp only [ParserData.getElementIndex, h4]
    · intro A hA
      show AMap.get _ _ = _
      rw [h7, show AMap.get pd.rules A = none from hA]; rfl
    · intro A r hA hn
      show AMap.get _ _ = _
      rw [h7, show AMap.get pd.rules A = some r from hA]; simp [edited, hn]
    · intro A r i hA hn hu
      show AMap.get _ _ = _
      rw [h7, show AMap.get pd.rules A = some r from hA]; simp [edited, hn, hu]
    · intro A r i hA hn hu
      show AMap.get _ _ = _
      rw [h7, show AMap.get pd.rules A = some r from hA]; simp [edited, hn, hu]
  · rw [h1] at h; cases h

/-- Everything that the ignore elements in force use has a rule. -/
def IgnoresUsable (pd : ParserData I) : Prop :=
  ∀ A r i B, pd.getRuleByKey A = some r → r.ignore = some i → UsesStar pd.rules i B →
    pd.elementTypes[B]? = some .nonTerminal → pd.getRuleByKey B ≠ none

theorem preparedParser_eq (text : Str) (pd : ParserData I) : preparedParser text pd = ⟨Proc.at text 0, pd⟩ := rfl

/-- **C77.** Reading a rule text into prepared data: elements keep their numbers and new ones follow; alternatives are
appended to prepared rules, whose ignore element and instructions stay; a rule that was not there gets the instructions of
its first definition, and as ignore element the one its first definition names, none if that says `#`, and the default if
that says nothing.  Then ignore elements are woven in; this fails only if one of them uses something without a rule. -/
theorem C77_reads_into {cc : CharClass} (hcc : SpaceOk cc) (vm : VM I S) {rs : List (ReadRule I)} {text : Str}
    (h : ReadRulesText cc (ReadsSection vm) rs text) {ks : List ElementVerbose} {rules : AMap Nat (NTRule I)} {dflt : Option Nat}
    (hp : InOrder (prepared ks rules dflt)) (ho : HashOrder) :
    ∃ pd, ReadInto (prepared ks rules dflt) (firstOccurrences ks) rs pd ∧
      ((∃ s, rpParseRules ho cc vm (preparedParser text (prepared ks rules dflt)) = (.ok (), s) ∧ WovenIn pd s.pd ∧
          s.proc.rest = []) ∨
       (∃ e s, rpParseRules ho cc vm (preparedParser text (prepared ks rules dflt)) = (.err e, s) ∧ ¬ IgnoresUsable pd)) := by
  have h0 := prepared_intern ks rules dflt
  obtain ⟨k', pd, h1, h2⟩ := rulesLoop_complete_in hcc h (text.length + 1) 0 _ [] (by omega) (IntoOk.start h0 hp.1.rulesNodup)
  rw [List.nil_append] at h2
  have hw := h2.wellFormed h0 hp.1
  have hi := h2.ignoresNT h0 hp.2.1 hp.2.2
  refine ⟨pd, h2.readInto h0, ?_⟩
  rw [preparedParser_eq, rpParseRules_at, smBind_ok h1]
  rcases editRules_spec ho hw hi with ⟨pd1, h3, -⟩ | ⟨e, h3, hb⟩
  · exact .inl ⟨_, rpEditRules_ok (s := ⟨Proc.at [] k', pd⟩) h3, wovenIn_of_edit hw hi h3, rfl⟩
  · refine .inr ⟨e, _, rpEditRules_err (s := ⟨Proc.at [] k', pd⟩) hw hi h3, fun hu => ?_⟩
    obtain ⟨A, r, i, B, hA, hri, hus, hB, hn⟩ := hb
    exact hu A r i B hA hri hus hB hn

/-- **C77**, success: if everything the ignore elements use has a rule, the call succeeds. -/
theorem C77_succeeds {cc : CharClass} (hcc : SpaceOk cc) (vm : VM I S) {rs : List (ReadRule I)} {text : Str}
    (h : ReadRulesText cc (ReadsSection vm) rs text) {ks : List ElementVerbose} {rules : AMap Nat (NTRule I)} {dflt : Option Nat}
    (hp : InOrder (prepared ks rules dflt))
    (hu : ∀ pd, ReadInto (prepared ks rules dflt) (firstOccurrences ks) rs pd → IgnoresUsable pd) (ho : HashOrder) :
    ∃ pd s, ReadInto (prepared ks rules dflt) (firstOccurrences ks) rs pd ∧
      rpParseRules ho cc vm (preparedParser text (prepared ks rules dflt)) = (.ok (), s) ∧ WovenIn pd s.pd := by
  obtain ⟨pd, h1, ⟨s, h2, h3, -⟩ | ⟨e, s, -, h3⟩⟩ := C77_reads_into hcc vm h hp ho
  · exact ⟨pd, s, h1, h2, h3⟩
  · exact absurd (hu pd h1) h3

/-- **C77**, converse: whatever text is accepted on prepared data follows the syntax and was read as described. -/
theorem C77_only {vm : VM I S} (hvm : OnlyReads vm) {cc : CharClass} {text : Str} {ks : List ElementVerbose}
    {rules : AMap Nat (NTRule I)} {dflt : Option Nat} (hp : InOrder (prepared ks rules dflt)) {ho : HashOrder} {s : RP I}
    (h : rpParseRules ho cc vm (preparedParser text (prepared ks rules dflt)) = (.ok (), s)) :
    ∃ rs pd, ReadRulesText cc (ReadsSectionIn vm) rs text ∧
      ReadInto (prepared ks rules dflt) (firstOccurrences ks) rs pd ∧ WovenIn pd s.pd := by
  have h0 := prepared_intern ks rules dflt
  rw [preparedParser_eq, rpParseRules_at, SM.bind_apply] at h
  rcases rulesLoop_sound_in hvm cc (text.length + 1) text 0 _ [] (by omega) (IntoOk.start h0 hp.1.rulesNodup) with
    ⟨rs, pd, h1, h2, h3⟩ | ⟨e, s', h1, -⟩
  · rw [List.nil_append] at h3
    have hw := h3.wellFormed h0 hp.1
    have hi := h3.ignoresNT h0 hp.2.1 hp.2.2
    rw [h1] at h
    simp only at h
    refine ⟨rs, pd, h2, h3.readInto h0, ?_⟩
    rcases editRules_spec ho hw hi with ⟨pd1, h4, -⟩ | ⟨e, h4, -⟩
    · rw [rpEditRules_ok (s := ⟨Proc.at [] (0 + text.length), pd⟩) h4] at h
      cases h
      exact wovenIn_of_edit hw hi h4
    · rw [rpEditRules_err (s := ⟨Proc.at [] (0 + text.length), pd⟩) hw hi h4] at h
      cases h
  · rw [h1] at h; cases h

/-- **C77**, totality: on prepared data in order the call returns, with success or an error. -/
theorem C77_returns {vm : VM I S} (hvm : OnlyReads vm) (cc : CharClass) (text : Str) {ks : List ElementVerbose}
    {rules : AMap Nat (NTRule I)} {dflt : Option Nat} (hp : InOrder (prepared ks rules dflt)) (ho : HashOrder) :
    (∃ s, rpParseRules ho cc vm (preparedParser text (prepared ks rules dflt)) = (.ok (), s)) ∨
    (∃ e s, rpParseRules ho cc vm (preparedParser text (prepared ks rules dflt)) = (.err e, s)) := by
  have h0 := prepared_intern ks rules dflt
  rw [preparedParser_eq, rpParseRules_at, SM.bind_apply]
  rcases rulesLoop_sound_in hvm cc (text.length + 1) text 0 _ [] (by omega) (IntoOk.start h0 hp.1.rulesNodup) with
    ⟨rs, pd, h1, h2, h3⟩ | ⟨e, s', h1, -⟩
  · rw [List.nil_append] at h3
    have hw := h3.wellFormed h0 hp.1
    have hi := h3.ignoresNT h0 hp.2.1 hp.2.2
    rw [h1]
    simp only
    rcases editRules_spec ho hw hi with ⟨pd1, h4, -⟩ | ⟨e, h4, -⟩
    · exact .inl ⟨_, rpEditRules_ok (s := ⟨Proc.at [] (0 + text.length), pd⟩) h4⟩
    · exact .inr ⟨e, _, rpEditRules_err (s := ⟨Proc.at [] (0 + text.length), pd⟩) hw hi h4⟩
  · rw [h1]; exact .inr ⟨e, s', rfl⟩

/-! ### A sample: white space prepared by hand and set as default -/

/-- Elements `ws` and a blank. -/
def Samples.wsElements : List ElementVerbose := [⟨c% "ws", .nonTerminal⟩, ⟨c% " ", .terminal⟩]

/-- `ws -> " " ws | #`. -/
def Samples.wsRules : AMap Nat (NTRule Nat) := [(0, ⟨[.notEmpty [1, 0], .empty], none, [7]⟩)]

/-- One rule for each kind of override, and one more alternative for the prepared rule. -/
def Samples.preparedText : Str :=
  c% "s -> \"a\" \"b\"; r -> $[IGNORE:#] \"c\" \"d\"; u -> $[FOO:] \"e\" \"f\"; t -> $[IGNORE:v] \"g\" \"h\"; v -> #; ws -> \"x\" ws;"

/-- The rules afterwards. -/
def Samples.preparedResult : Option (List (Nat × List Production × Option Nat × List Nat)) :=
  match rpParseRules .insertion .ascii nullVm (preparedParser Samples.preparedText (prepared Samples.wsElements Samples.wsRules (some 0))) with
  | (.ok _, s) => some (s.pd.rules.map fun x => (x.1, x.2.prods, x.2.ignore, x.2.instr))
  | _ => none

/-- `s` and `u` get the default woven in, `r` nothing, `t` its own, `v` the default without effect, `ws` one alternative
more. -/
theorem Samples.preparedResult_eq : Samples.preparedResult = some
    [(0, [.notEmpty [1, 0], .empty, .notEmpty [15, 0]], none, [7]),
     (2, [.notEmpty [3, 0, 4]], some 0, []), (5, [.notEmpty [6, 7]], none, []), (8, [.notEmpty [9, 0, 10]], some 0, []),
     (11, [.notEmpty [13, 12, 14]], some 12, []), (12, [.empty], some 0, [])] := by
  decide +kernel

/-- The prepared data are in order. -/
theorem Samples.prepared_inOrder : InOrder (prepared Samples.wsElements Samples.wsRules (some 0)) := by
  have hget : ∀ A r, AMap.get (prepared Samples.wsElements Samples.wsRules (some 0)).rules A = some r →
      A = 0 ∧ r = ⟨[.notEmpty [1, 0], .empty], none, [7]⟩ := by
    intro A r h
    have h' : AMap.get Samples.wsRules A = some r := h
    simp only [Samples.wsRules, AMap.get] at h'
    split at h'
    · next h0 => simp only [Option.some.injEq] at h'; exact ⟨h0.symm, h'.symm⟩
    · cases h'
  refine ⟨⟨by decide, rfl, ?_, ?_, ?_⟩, ?_, ?_⟩
  · intro A r h; obtain ⟨rfl, rfl⟩ := hget A r h; rfl
  · intro A r h; obtain ⟨rfl, rfl⟩ := hget A r h; decide
  · intro A r h; obtain ⟨rfl, rfl⟩ := hget A r h; decide
  · intro A r i h hi; obtain ⟨rfl, rfl⟩ := hget A r h; cases hi
  · intro j hj; cases hj; rfl

/-- The sample text follows the syntax. -/
example : ∃ rs, ReadRulesText .ascii (ReadsSectionIn nullVm) rs Samples.preparedText := by
  have h := Samples.preparedResult_eq
  unfold Samples.preparedResult at h
  split at h
  · next u s hs =>
    obtain ⟨rs, pd, h1, -⟩ := C77_only nullVm_onlyReads Samples.prepared_inOrder hs
    exact ⟨rs, h1⟩
  · cases h

end HPP
