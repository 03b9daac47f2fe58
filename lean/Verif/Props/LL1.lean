import Verif.Props.Steuer
/-
C20, sharper: which LL(1) grammars the code rejects.
-/
namespace HPP
open Spec
variable {I : Type}

/-- Whatever can follow a nullable non-terminal `e` that begins an alternative of a rule with several alternatives, also
predicts that alternative in the textbook sense. -/
def Spec.LeadingNullableConfined (pd : ParserData I) (start : Nat) : Prop :=
  ∀ A r, AMap.get pd.rules A = some r → 2 ≤ r.prods.length →
    ∀ e es, Production.notEmpty (e :: es) ∈ r.prods → pd.elementTypes[e]? = some .nonTerminal →
      Nullable (grammarOf pd) [.nt e] → ∀ m, FollowMember (grammarOf pd) start e m →
        Predict pd start A (.notEmpty (e :: es)) m

/-- The control set of an alternative consists of its textbook PREDICT set and, if it begins with a nullable non-terminal,
of all that can follow this non-terminal anywhere in the grammar. -/
theorem control_iff {pd : ParserData I} (hw : WellFormed pd) (hne : NoLeadingEmptyTerminal pd) {start A : Nat}
    {r : NTRule I} (hr : AMap.get pd.rules A = some r) {p : Production} (hp : p ∈ r.prods) (m : SetMember) :
    Control pd start A p m ↔ Predict pd start A p m ∨
      ∃ e es, p = .notEmpty (e :: es) ∧ pd.elementTypes[e]? = some .nonTerminal ∧
        Nullable (grammarOf pd) [.nt e] ∧ FollowMember (grammarOf pd) start e m := by
  constructor
  · intro h
    cases p with
    | empty => exact .inl (.inr ⟨nullable_nil, h⟩)
    | notEmpty els =>
      cases els with
      | nil => exact h.elim
      | cons e es =>
        rcases h with ⟨hT, d, c, hD, hc, rfl⟩ | ⟨hT, h⟩
        · refine .inl (.inl ⟨c, rfl, ?_⟩)
          simp only [prodElems, formOf_cons, elemForm_terminal hT hD, firstChar_append, firstChar_ofText]
          exact .inl hc
        · rcases h with ⟨c, rfl, hc⟩ | ⟨hn, hf⟩
          · refine .inl (.inl ⟨c, rfl, ?_⟩)
            simp only [prodElems, formOf_leading_nt hT]
            exact firstChar_cons.mpr (.inl hc)
          · exact .inr ⟨e, es, rfl, hT, hn, hf⟩
  · rintro (h | ⟨e, es, rfl, hT, hn, hf⟩)
    · exact predict_control hw hne hr hp h
    · exact .inr ⟨hT, .inr ⟨hn, hf⟩⟩

/-- **C20**, a larger provable part: leading nullable non-terminals are harmless as long as they stand in rules with one
alternative, or what follows them elsewhere predicts the alternative anyway. -/
theorem C20_LL1_accepted_confined_partial {pd : ParserData I} (hw : WellFormed pd) (hd : AllDefined pd) {start : Nat}
    (hs : ∃ r, AMap.get pd.rules start = some r) (hlr : ∀ A, ¬ LeftRecursive (grammarOf pd) A)
    (hne : NoLeadingEmptyTerminal pd) (hll : LL1 pd start) (hnl : LeadingNullableConfined pd start) (ho : HashOrder) :
    ∃ N, ∀ fuel, N ≤ fuel → ∃ P, Parser.newFromParserData ho fuel pd start = .ok P := by
  refine newFromParserData_succeeds hw ⟨hs, hd, hlr, hne, ?_⟩ ho
  intro A r hr
  by_cases h2 : 2 ≤ r.prods.length
  · refine (hll A r hr).imp_of_mem ?_
    intro p q hp hq hpq m hm
    have key : ∀ x, x ∈ r.prods → Control pd start A x m → Predict pd start A x m := by
      intro x hx hc
      rcases (control_iff hw hne hr hx m).mp hc with h | ⟨e, es, rfl, hT, hn, hf⟩
      · exact h
      · exact hnl A r hr h2 e es hx hT hn m hf
    exact hpq m ⟨key p hp hm.1, key q hq hm.2⟩
  · rcases hps : r.prods with _ | ⟨p, _ | ⟨q, t⟩⟩
    · exact .nil
    · exact List.pairwise_singleton _ _
    · rw [hps] at h2; simp at h2

/-- **C20**, the grammars that the code rejects wrongly: if an LL(1) grammar without left recursion, undefined symbols and
leading empty terminals gets no parser, some rule has an alternative beginning with a nullable non-terminal `e` and another
alternative such that some lookahead `m` follows `e` somewhere in the grammar and belongs to the control set of the other
alternative -- although `m` does not predict both. -/
theorem C20_rejection_explained_partial {pd : ParserData I} (hw : WellFormed pd) (hd : AllDefined pd) {start : Nat}
    (hs : ∃ r, AMap.get pd.rules start = some r) (hlr : ∀ A, ¬ LeftRecursive (grammarOf pd) A)
    (hne : NoLeadingEmptyTerminal pd) (hll : LL1 pd start) (ho : HashOrder)
    (hno : ∀ fuel P, Parser.newFromParserData ho fuel pd start ≠ .ok P) :
    ∃ A r e es q m, AMap.get pd.rules A = some r ∧ Production.notEmpty (e :: es) ∈ r.prods ∧ q ∈ r.prods ∧
      pd.elementTypes[e]? = some .nonTerminal ∧ Nullable (grammarOf pd) [.nt e] ∧
      FollowMember (grammarOf pd) start e m ∧ Control pd start A q m ∧
      ¬ (Predict pd start A (.notEmpty (e :: es)) m ∧ Predict pd start A q m) := by
  apply Classical.byContradiction
  intro hcon
  have hdis : ControlDisjoint pd start := by
    intro A r hr
    refine (hll A r hr).imp_of_mem ?_
    intro p q hp hq hpq m hm
    have hnp := hpq m
    rcases (control_iff hw hne hr hp m).mp hm.1 with h1 | ⟨e, es, rfl, hT, hn, hf⟩
    · rcases (control_iff hw hne hr hq m).mp hm.2 with h2 | ⟨e, es, rfl, hT, hn, hf⟩
      · exact hnp ⟨h1, h2⟩
      · exact hcon ⟨A, r, e, es, p, m, hr, hq, hp, hT, hn, hf, hm.1, fun h => hnp ⟨h.2, h.1⟩⟩
    · exact hcon ⟨A, r, e, es, q, m, hr, hp, hq, hT, hn, hf, hm.2, hnp⟩
  obtain ⟨N, hN⟩ := newFromParserData_succeeds hw ⟨hs, hd, hlr, hne, hdis⟩ ho
  obtain ⟨P, hP⟩ := hN N (Nat.le_refl _)
  exact hno N P hP

/-- `start -> a "x" | "y"; a -> "z" | #;`: an alternative begins with a nullable non-terminal. -/
def Samples.confinedData : ParserData Nat :=
  let pd : ParserData Nat := ParserData.new
  let (start, pd) := pd.getOrAddNonTerminal (c% "start")
  let (a, pd) := pd.getOrAddNonTerminal (c% "a")
  let (x, pd) := pd.getOrAddTerminal (c% "x")
  let (y, pd) := pd.getOrAddTerminal (c% "y")
  let (z, pd) := pd.getOrAddTerminal (c% "z")
  let pd := pd.setProductions start [[a, x], [y]]
  pd.setProductions a [[z], []]

/-- The hypotheses of `C20_LL1_accepted_confined_partial` hold for a grammar to which `C20_LL1_accepted_partial` does not
apply. -/
example : LL1 Samples.confinedData 0 ∧ LeadingNullableConfined Samples.confinedData 0 ∧
    ¬ NoLeadingNullable Samples.confinedData := by
  have hfs : getFirstSets .insertion 5 Samples.confinedData = .ok
      [(1, [.char 'z', .empty]), (0, [.char 'z', .char 'x', .char 'y'])] := rfl
  have hfo : getFollowSets .insertion 5 0
      [(1, [.char 'z', .empty]), (0, [.char 'z', .char 'x', .char 'y'])] Samples.confinedData =
      .ok [(0, [.terminate]), (1, [.char 'x'])] := rfl
  have t := tables_of rfl hfs hfo
  have hnull : Nullable (grammarOf Samples.confinedData) [.nt 1] :=
    ((t.finv 1 [.char 'z', .empty] rfl).1.empty).mp (by simp)
  refine ⟨Samples.LL1_of_check rfl hfs hfo rfl, ?_, ?_⟩
  · intro A r hr _ e es hp hT hn m hm
    have hmem : (A, r) ∈ [((0 : Nat), (⟨[.notEmpty [1, 2], .notEmpty [3]], none, []⟩ : NTRule Nat)),
        (1, ⟨[.notEmpty [4], .empty], none, []⟩)] := AMap.mem_of_get hr
    simp only [List.mem_cons, List.not_mem_nil, or_false, Prod.mk.injEq] at hmem
    have hT' : ([.nonTerminal, .nonTerminal, .terminal, .terminal, .terminal] : List ElementType)[e]? =
      some .nonTerminal := hT
    rcases hmem with ⟨rfl, rfl⟩ | ⟨rfl, rfl⟩
    · simp only [List.mem_cons, List.not_mem_nil, or_false, Production.notEmpty.injEq, List.cons.injEq] at hp
      rcases hp with ⟨rfl, rfl⟩ | ⟨rfl, rfl⟩
      · have : m = .char 'x' := by
          have := (t.omem 1 [.char 'x'] rfl m).mpr hm
          simpa using this
        subst this
        refine .inl ⟨'x', rfl, ?_⟩
        have hS : firstSetOfPartial Samples.confinedData
            [(1, [.char 'z', .empty]), (0, [.char 'z', .char 'x', .char 'y'])] [1, 2] =
            .ok [.char 'z', .char 'x'] := rfl
        exact ((C11_first_of_sequence hfs hS).1 'x').mp (by simp)
      · simp at hT'
    · simp only [List.mem_cons, List.not_mem_nil, or_false, Production.notEmpty.injEq, List.cons.injEq,
        reduceCtorEq] at hp
      obtain ⟨rfl, rfl⟩ := hp
      simp at hT'
  · intro h
    exact h 0 ⟨[.notEmpty [1, 2], .notEmpty [3]], none, []⟩ rfl 1 [2] (by simp) rfl hnull

end HPP
