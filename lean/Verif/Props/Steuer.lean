import Verif.Proofs.Predict
import Verif.Props.Follow
/-
Properties C15, C16, C17, C20: steuer sets, conflict detection, acceptance of grammars.
-/
namespace HPP
open Spec
variable {I : Type}

/-- **C15.** For any tables (without duplicates, as hash maps and sets are): if every non-terminal whose FIRST set contains `Empty` has a
FOLLOW set, `get_steuer_sets` succeeds with exactly one set per FIRST set, consisting of its members other
than `Empty` and, exactly if it contains `Empty`, of the FOLLOW set; otherwise it fails with
`MissingFollowSet` of such a non-terminal. -/
theorem C15_steuer_sets (ho : HashOrder) {first : NamedSets} {follow : NamedSetsNoEmpty}
    (hk : (first.map (·.1)).Nodup) (hn : ∀ n S, AMap.get first n = some S → S.Nodup) :
    ((∀ n f, AMap.get first n = some f → .empty ∈ f → ∃ F, AMap.get follow n = some F) →
      ∃ r, getSteuerSets ho first follow = .ok r ∧
        (∀ n, (∃ S, AMap.get r n = some S) ↔ ∃ f, AMap.get first n = some f) ∧
        ∀ n S f, AMap.get r n = some S → AMap.get first n = some f →
          (∀ c, .char c ∈ S ↔ .char c ∈ f ∨ (.empty ∈ f ∧ ∃ F, AMap.get follow n = some F ∧ .char c ∈ F)) ∧
          (.terminate ∈ S ↔ .terminate ∈ f ∨
            (.empty ∈ f ∧ ∃ F, AMap.get follow n = some F ∧ .terminate ∈ F))) ∧
    ((∃ n f, AMap.get first n = some f ∧ .empty ∈ f ∧ AMap.get follow n = none) →
      ∃ n f, AMap.get first n = some f ∧ .empty ∈ f ∧ AMap.get follow n = none ∧
        getSteuerSets ho first follow = .err (.missingFollowSet n)) := by
  obtain ⟨h1, h2⟩ := getSteuerSets_spec (ho := ho) (follow := follow) hk hn
  refine ⟨fun h => ?_, h2⟩
  obtain ⟨r, hr, hr2⟩ := h1 h
  refine ⟨r, hr, fun n => ?_, fun n S f hS hf => ?_⟩
  · have := hr2 n
    cases hg : AMap.get first n with
    | none => rw [hg] at this; simp [this]
    | some f => rw [hg] at this; obtain ⟨S, hS, -⟩ := this; simp [hS]
  · have := hr2 n
    rw [hf] at this
    obtain ⟨S', hS', -, hm⟩ := this
    rw [hS] at hS'; cases hS'
    refine ⟨fun c => (hm _).trans (or_congr ?_ Iff.rfl), (hm _).trans (or_congr ?_ Iff.rfl)⟩
    · constructor
      · rintro ⟨e, he, h⟩
        cases e <;> simp [SetMember.tryFrom] at h
        exact h ▸ he
      · intro h; exact ⟨_, h, rfl⟩
    · constructor
      · rintro ⟨e, he, h⟩
        cases e <;> simp [SetMember.tryFrom] at h
        exact he
      · intro h; exact ⟨_, h, rfl⟩

/-- **C15** in terms of the grammar: on the computed FIRST and FOLLOW tables `get_steuer_sets` succeeds, and
the set of `A` holds exactly the FIRST characters of `A` plus, if `A` derives the empty text, what can follow
`A`. -/
theorem C15_steuer_sets_grammar {ho1 ho2 : HashOrder} {fuel1 fuel2 start : Nat} {pd : ParserData I}
    {fs : NamedSets} {fo : NamedSetsNoEmpty} (hlen : pd.elementTypes.length = pd.elementData.length)
    (hfs : getFirstSets ho1 fuel1 pd = .ok fs) (hfo : getFollowSets ho2 fuel2 start fs pd = .ok fo)
    (ho : HashOrder) :
    ∃ st, getSteuerSets ho fs fo = .ok st ∧
      (∀ n, (∃ S, AMap.get st n = some S) ↔ ∃ S, AMap.get fs n = some S) ∧
      ∀ A S, AMap.get st A = some S →
        (∀ c, .char c ∈ S ↔ FirstChar (grammarOf pd) [.nt A] c ∨
          (Nullable (grammarOf pd) [.nt A] ∧ FollowChar (grammarOf pd) A c)) ∧
        (.terminate ∈ S ↔ Nullable (grammarOf pd) [.nt A] ∧ FollowEnd (grammarOf pd) start A) := by
  obtain ⟨st, h1, h2, h3⟩ := (tables_of hlen hfs hfo).steuer ho
  refine ⟨st, h1, h2, fun A S hS => ⟨fun c => ?_, ?_⟩⟩
  · rw [(h3 A S hS).2]; simp [SteuerMember, FollowMember]
  · rw [(h3 A S hS).2]; simp [SteuerMember, FollowMember]

/-- The sample grammar: `rest` is nullable, so its steuer set contains its FOLLOW set. -/
example : ∃ fs fo st, getFirstSets .insertion 5 Samples.listData = .ok fs ∧
    getFollowSets .insertion 5 0 fs Samples.listData = .ok fo ∧ getSteuerSets .insertion fs fo = .ok st ∧
    AMap.get st 2 = some [.char ',', .terminate] := ⟨_, _, _, rfl, rfl, rfl, rfl⟩

/-- A nullable non-terminal without FOLLOW set is the failing case. -/
example : getSteuerSets .insertion [(0, [.char 'a']), (1, [.empty])] [(0, [.terminate])] =
    .err (.missingFollowSet 1) := rfl

/-- **C16.** On the computed tables, for a complete grammar in which no alternative begins with the empty
terminal: if the control sets of the alternatives are pairwise disjoint for every rule, the steuer maps are
built, there is one for every rule and none for anything else, and it sends a lookahead to exactly the
alternative whose control set contains it (instructions and ignore are the rule's); if they are not disjoint,
building fails with `SteuerSetsNotDistinct`. -/
theorem C16_conflict_detection_exact {ho1 ho2 : HashOrder} {fuel1 fuel2 start : Nat} {pd : ParserData I}
    {fs : NamedSets} {fo : NamedSetsNoEmpty} (hw : WellFormed pd) (hd : AllDefined pd)
    (hne : NoLeadingEmptyTerminal pd)
    (hfs : getFirstSets ho1 fuel1 pd = .ok fs) (hfo : getFollowSets ho2 fuel2 start fs pd = .ok fo)
    (ho : HashOrder) :
    (ControlDisjoint pd start → ∃ maps, getSteuermaps ho fs fo pd = .ok maps ∧
      (∀ A, (∃ R, AMap.get maps A = some R) ↔ ∃ r, AMap.get pd.rules A = some r) ∧
      ∀ A R r, AMap.get maps A = some R → AMap.get pd.rules A = some r →
        R.instr = r.instr ∧ R.ignore = r.ignore ∧
        ∀ m p, AMap.get R.steuermap m = some p ↔ p ∈ r.prods ∧ Control pd start A p m) ∧
    (¬ ControlDisjoint pd start →
      ∃ t c A, getSteuermaps ho fs fo pd = .err (.steuerSetsNotDistinct t c A)) := by
  obtain ⟨h1, h2⟩ := getSteuermaps_spec (tables_of hw.lengths hfs hfo) hw hd hne ho
  refine ⟨fun h => ?_, h2⟩
  obtain ⟨maps, hm1, hm2⟩ := h1 h
  refine ⟨maps, hm1, fun A => ?_, fun A R r hR hr => ?_⟩
  · have := hm2 A
    cases hg : AMap.get pd.rules A with
    | none => rw [hg] at this; simp [this]
    | some r => rw [hg] at this; obtain ⟨R, hR, -⟩ := this; simp [hR]
  · have := hm2 A
    rw [hr] at this
    obtain ⟨R', hR', h3⟩ := this
    rw [hR] at hR'; cases hR'
    exact h3

/-- An alternative beginning with the empty terminal never gets a steuer map. -/
theorem C16_empty_terminal_rejected {ho : HashOrder} {pd : ParserData I} {fs : NamedSets}
    {fo : NamedSetsNoEmpty} {maps : AMap Nat (NTRules I)} (h : getSteuermaps ho fs fo pd = .ok maps) :
    NoLeadingEmptyTerminal pd := getSteuermaps_ok_noEmpty h

/-- **C16**, whole construction: a parser is built exactly for the acceptable grammars. -/
theorem C16_parser_built_iff {pd : ParserData I} (hw : WellFormed pd) (ho : HashOrder) (start : Nat) :
    (∃ fuel P, Parser.newFromParserData ho fuel pd start = .ok P) ↔ Acceptable pd start := by
  constructor
  · rintro ⟨fuel, P, h⟩
    exact (newFromParserData_ok hw h).1
  · intro h
    obtain ⟨N, hN⟩ := newFromParserData_succeeds hw h ho
    exact ⟨N, hN N (Nat.le_refl _)⟩

theorem Samples.listData_built : ∃ P, Parser.newFromParserData .insertion 5 Samples.listData 0 = .ok P :=
  ⟨_, rfl⟩

theorem Samples.listData_acceptable : Acceptable Samples.listData 0 := by
  obtain ⟨P, hP⟩ := Samples.listData_built
  exact (newFromParserData_ok Samples.listData_wf hP).1

/-- The hypotheses of C16 hold for the sample grammar (disjoint case). -/
example : WellFormed Samples.listData ∧ AllDefined Samples.listData ∧ NoLeadingEmptyTerminal Samples.listData ∧
    ControlDisjoint Samples.listData 0 :=
  ⟨Samples.listData_wf, Samples.listData_defined, Samples.listData_acceptable.noEmptyTerminal,
    Samples.listData_acceptable.disjoint⟩

/-- A grammar with a conflict: `start -> "ab" | "ac";`. -/
def Samples.conflictData : ParserData Nat :=
  let pd : ParserData Nat := ParserData.new
  let (start, pd) := pd.getOrAddNonTerminal (c% "start")
  let (x, pd) := pd.getOrAddTerminal (c% "ab")
  let (y, pd) := pd.getOrAddTerminal (c% "ac")
  pd.setProductions start [[x], [y]]

example : ∃ fs fo, getFirstSets .insertion 5 Samples.conflictData = .ok fs ∧
    getFollowSets .insertion 5 0 fs Samples.conflictData = .ok fo ∧
    getSteuermaps .insertion fs fo Samples.conflictData = .err (.steuerSetsNotDistinct (c% "ac") 'a' 0) :=
  ⟨_, _, rfl, rfl, rfl⟩

/-- **C17.** If an alternative of a rule mentions a non-terminal that has no rule, or the start symbol has no
rule, no parser is constructed. -/
theorem C17_undefined_rejected {pd : ParserData I} (hlen : pd.elementTypes.length = pd.elementData.length)
    {start : Nat}
    (hbad : (∃ A r p e, AMap.get pd.rules A = some r ∧ p ∈ r.prods ∧ e ∈ prodElems p ∧
        pd.elementTypes[e]? = some .nonTerminal ∧ AMap.get pd.rules e = none) ∨
      AMap.get pd.rules start = none) (ho : HashOrder) (fuel : Nat) (P : Parser I) :
    Parser.newFromParserData ho fuel pd start ≠ .ok P := by
  intro h
  simp only [Parser.newFromParserData] at h
  obtain ⟨fs, hfs, h⟩ := Res.bind_eq_ok.mp h
  obtain ⟨fo, hfo, h⟩ := Res.bind_eq_ok.mp h
  rw [Res.unwrap_eq_ok] at hfs hfo
  obtain ⟨-, -, h3, h4, h5⟩ := getFollowSets_ok (getFirstSets_sound hfs).1 hlen hfo
  rcases hbad with ⟨A, r, p, e, hr, hp, he, hT, hno⟩ | hno
  · exact AMap.get_eq_none_iff.mp hno ((h5 (A, r) (AMap.mem_of_get hr) p hp e he).2 hT)
  · exact AMap.get_eq_none_iff.mp hno h3

/-- `start -> "x" b;` with `b` undefined. -/
def Samples.undefinedData : ParserData Nat :=
  let pd : ParserData Nat := ParserData.new
  let (start, pd) := pd.getOrAddNonTerminal (c% "start")
  let (x, pd) := pd.getOrAddTerminal (c% "x")
  let (b, pd) := pd.getOrAddNonTerminal (c% "b")
  pd.setProductions start [[x, b]]

example : ∃ A r p e, AMap.get Samples.undefinedData.rules A = some r ∧ p ∈ r.prods ∧ e ∈ prodElems p ∧
    Samples.undefinedData.elementTypes[e]? = some .nonTerminal ∧
    AMap.get Samples.undefinedData.rules e = none :=
  ⟨0, _, .notEmpty [1, 2], 2, rfl, .head _, .tail _ (.head _), rfl, rfl⟩

/-! ### C20 -/

/-- Every accepted grammar satisfies the textbook LL(1) condition. -/
theorem C20_accepted_is_LL1 {pd : ParserData I} (hw : WellFormed pd) {ho : HashOrder} {fuel start : Nat}
    {P : Parser I} (h : Parser.newFromParserData ho fuel pd start = .ok P) : LL1 pd start := by
  obtain ⟨ha, -⟩ := newFromParserData_ok hw h
  intro A r hr
  refine (ha.disjoint A r hr).imp_of_mem ?_
  intro p q hp hq hpq m hm
  exact hpq m ⟨predict_control hw ha.noEmptyTerminal hr hp hm.1, predict_control hw ha.noEmptyTerminal hr hq hm.2⟩

/-- **C20**, the provable part: an LL(1) grammar without left recursion, undefined symbols and leading empty
terminals yields a parser *provided that no alternative begins with a nullable non-terminal*.  Without that
proviso the property is false, see `C20_refuted`. -/
theorem C20_LL1_accepted_partial {pd : ParserData I} (hw : WellFormed pd) (hd : AllDefined pd) {start : Nat}
    (hs : ∃ r, AMap.get pd.rules start = some r) (hlr : ∀ A, ¬ LeftRecursive (grammarOf pd) A)
    (hne : NoLeadingEmptyTerminal pd) (hll : LL1 pd start) (hnl : NoLeadingNullable pd) (ho : HashOrder) :
    ∃ N, ∀ fuel, N ≤ fuel → ∃ P, Parser.newFromParserData ho fuel pd start = .ok P := by
  refine newFromParserData_succeeds hw ⟨hs, hd, hlr, hne, ?_⟩ ho
  intro A r hr
  refine (hll A r hr).imp_of_mem ?_
  intro p q hp hq hpq m hm
  exact hpq m ⟨control_predict hnl hr hp hm.1, control_predict hnl hr hq hm.2⟩

/-- PREDICT computed from tables, for concrete grammars. -/
def Samples.predictList (pd : ParserData I) (fs : NamedSets) (fo : NamedSetsNoEmpty) (A : Nat) :
    Production → Option (List SetMember)
  | .empty => AMap.get fo A
  | .notEmpty [] => none
  | .notEmpty els =>
    match firstSetOfPartial pd fs els, AMap.get fo A with
    | .ok S, some F => some (S.filterMap SetMember.tryFrom ++ if .empty ∈ S then F else [])
    | _, _ => none

theorem Samples.predictList_spec {ho1 ho2 : HashOrder} {fuel1 fuel2 start : Nat} {pd : ParserData I}
    {fs : NamedSets} {fo : NamedSetsNoEmpty} (hlen : pd.elementTypes.length = pd.elementData.length)
    (hfs : getFirstSets ho1 fuel1 pd = .ok fs) (hfo : getFollowSets ho2 fuel2 start fs pd = .ok fo)
    {A : Nat} {p : Production} {L : List SetMember} (h : Samples.predictList pd fs fo A p = some L)
    {m : SetMember} (hm : Predict pd start A p m) : m ∈ L := by
  have t := tables_of hlen hfs hfo
  cases p with
  | empty =>
    simp only [Samples.predictList] at h
    rcases hm with ⟨c, -, hc⟩ | ⟨-, hm⟩
    · exact absurd hc not_firstChar_nil
    · exact (t.omem A L h m).mpr hm
  | notEmpty els =>
    cases els with
    | nil => simp [Samples.predictList] at h
    | cons e es =>
      simp only [Samples.predictList] at h
      split at h
      · next S F hS hF =>
        cases h
        obtain ⟨h1, h2, -⟩ := C11_first_of_sequence hfs hS
        rcases hm with ⟨c, rfl, hc⟩ | ⟨hn, hm⟩
        · exact List.mem_append_left _ (List.mem_filterMap.mpr ⟨_, (h1 c).mpr hc, rfl⟩)
        · rw [if_pos (h2.mpr ⟨by simp, hn⟩)]
          exact List.mem_append_right _ ((t.omem A F hF m).mpr hm)
      · simp at h

/-- Both lists are known and disjoint. -/
def Samples.disjointList : Option (List SetMember) → Option (List SetMember) → Bool
  | some L, some L' => L.all (fun x => decide (x ∉ L'))
  | _, _ => false

/-- A computable check that implies LL(1). -/
def Samples.checkLL1 (pd : ParserData I) (fs : NamedSets) (fo : NamedSetsNoEmpty) : Bool :=
  pd.rules.all (fun q => decide (q.2.prods.Pairwise (fun p p' =>
    Samples.disjointList (Samples.predictList pd fs fo q.1 p) (Samples.predictList pd fs fo q.1 p') = true)))

theorem Samples.LL1_of_check {ho1 ho2 : HashOrder} {fuel1 fuel2 start : Nat} {pd : ParserData I}
    {fs : NamedSets} {fo : NamedSetsNoEmpty} (hlen : pd.elementTypes.length = pd.elementData.length)
    (hfs : getFirstSets ho1 fuel1 pd = .ok fs) (hfo : getFollowSets ho2 fuel2 start fs pd = .ok fo)
    (h : Samples.checkLL1 pd fs fo = true) : LL1 pd start := by
  intro A r hr
  have h1 := List.all_eq_true.mp h (A, r) (AMap.mem_of_get hr)
  refine (of_decide_eq_true h1).imp ?_
  intro p q hpq m hm
  unfold Samples.disjointList at hpq
  split at hpq
  · next L L' hL hL' =>
    have := List.all_eq_true.mp hpq m (Samples.predictList_spec hlen hfs hfo hL hm.1)
    exact of_decide_eq_true this (Samples.predictList_spec hlen hfs hfo hL' hm.2)
  · exact absurd hpq (by simp)

/-- `start -> a "x" | "y" b; b -> a "y"; a -> "z" | #;` -/
def Samples.ll1Data : ParserData Nat :=
  let pd : ParserData Nat := ParserData.new
  let (start, pd) := pd.getOrAddNonTerminal (c% "start")
  let (a, pd) := pd.getOrAddNonTerminal (c% "a")
  let (b, pd) := pd.getOrAddNonTerminal (c% "b")
  let (x, pd) := pd.getOrAddTerminal (c% "x")
  let (y, pd) := pd.getOrAddTerminal (c% "y")
  let (z, pd) := pd.getOrAddTerminal (c% "z")
  let pd := pd.setProductions start [[a, x], [y, b]]
  let pd := pd.setProductions b [[a, y]]
  pd.setProductions a [[z], []]

/-- **C20 is false of the code**: a grammar that is complete, without left recursion and empty terminals and
LL(1) in the textbook sense for which no parser is ever constructed (the code predicts an alternative that
begins with a nullable non-terminal by FOLLOW of that non-terminal instead of what follows it there). -/
theorem C20_refuted : ∃ pd : ParserData Nat, WellFormed pd ∧ AllDefined pd ∧
    (∃ r, AMap.get pd.rules 0 = some r) ∧ (∀ A, ¬ LeftRecursive (grammarOf pd) A) ∧
    NoLeadingEmptyTerminal pd ∧ LL1 pd 0 ∧
    ∀ (ho : HashOrder) (fuel : Nat) (P : Parser Nat), Parser.newFromParserData ho fuel pd 0 ≠ .ok P := by
  have hfs : getFirstSets .insertion 5 Samples.ll1Data = .ok
      [(1, [.char 'z', .empty]), (0, [.char 'z', .char 'x', .char 'y']), (2, [.char 'z', .char 'y'])] := rfl
  have hfo : getFollowSets .insertion 5 0
      [(1, [.char 'z', .empty]), (0, [.char 'z', .char 'x', .char 'y']), (2, [.char 'z', .char 'y'])]
      Samples.ll1Data = .ok [(0, [.terminate]), (2, [.terminate]), (1, [.char 'x', .char 'y'])] := rfl
  have hw : WellFormed Samples.ll1Data := Samples.wf_of_check rfl
  refine ⟨Samples.ll1Data, hw, Samples.defined_of_check rfl, ⟨_, rfl⟩, ?_, ?_,
    Samples.LL1_of_check rfl hfs hfo rfl, ?_⟩
  · intro A hlr
    have hA := leftRecursive_mem_keys hlr
    exact FirstGood.not_leftRecursive hw.keysNT ((getFirstSets_sound hfs).2 A hA).1 hlr
  · intro A r hr e es hp hT d hD hnil
    have : ∀ d ∈ Samples.ll1Data.elementData, d.name ≠ [] := by
      intro d hd
      have : d ∈ ([⟨false, c% "start"⟩, ⟨false, c% "a"⟩, ⟨false, c% "b"⟩, ⟨false, c% "x"⟩,
        ⟨false, c% "y"⟩, ⟨false, c% "z"⟩] : List ElementData) := hd
      simp only [List.mem_cons, List.not_mem_nil, or_false] at this
      rcases this with rfl | rfl | rfl | rfl | rfl | rfl <;> simp
    exact this d (List.mem_of_getElem? hD) hnil
  · intro ho fuel P h
    have hdis := (newFromParserData_ok hw h).1.disjoint 0 ⟨[.notEmpty [1, 3], .notEmpty [4, 2]], none, []⟩ rfl
    have hdis := List.rel_of_pairwise_cons hdis (a' := .notEmpty [4, 2]) (by simp)
    have t := tables_of rfl hfs hfo
    refine hdis (.char 'y') ⟨.inr ⟨rfl, .inr ⟨?_, ?_⟩⟩, .inl ⟨rfl, _, 'y', rfl, rfl, rfl⟩⟩
    · exact ((t.finv 1 [.char 'z', .empty] rfl).1.empty).mp (by simp)
    · exact (t.omem 1 [.char 'x', .char 'y'] rfl _).mp (by simp)

/-- The hypotheses of `C20_LL1_accepted_partial` hold for the sample grammar (which has a nullable
non-terminal, but never at the beginning of an alternative). -/
example : LL1 Samples.listData 0 ∧ NoLeadingNullable Samples.listData := by
  obtain ⟨P, hP⟩ := Samples.listData_built
  refine ⟨C20_accepted_is_LL1 Samples.listData_wf hP, ?_⟩
  intro A r hr e es hp hT
  have hmem := AMap.mem_of_get hr
  rw [Samples.listData_rules] at hmem
  simp only [List.mem_cons, List.not_mem_nil, or_false, Prod.mk.injEq] at hmem
  have he : e = 1 ∨ e = 3 ∨ e = 4 ∨ e = 5 := by
    rcases hmem with ⟨-, rfl⟩ | ⟨-, rfl⟩ | ⟨-, rfl⟩ <;> simp at hp <;> omega
  have h1 : e = 1 := by
    rw [Samples.listData_types] at hT
    rcases he with rfl | rfl | rfl | rfl <;> simp at hT ⊢
  subst h1
  have := ((getFirstSets_sound Samples.listData_first).1 1 [.char 'a', .char 'c'] rfl).1.empty
  intro hn
  exact absurd (this.mpr hn) (by simp)

end HPP
