import Verif.Proofs.Edit
import Verif.Props.Samples
/-
Properties C43 and C44: ignore weaving and the derivative check.
-/
namespace HPP
open Spec
variable {I : Type}

/-! ### C44 -/

/-- **C44.** For well-formed data and a non-terminal `left`, the check always returns without panicking.  If it says
`true` or `false`, that is the truth about use of `right` by `left`; it reports an error only if a non-terminal
without a rule is used directly or indirectly by `left`. -/
theorem C44_derivative_check {pd : ParserData I} (hw : WellFormed pd) {left right : Nat}
    (hl : pd.elementTypes[left]? = some .nonTerminal) :
    (∃ b, checkIsDerivative pd.elementTypes pd.rules left right = .ok b ∧
      (b = true ↔ UsesStar pd.rules left right)) ∨
    (∃ e, checkIsDerivative pd.elementTypes pd.rules left right = .err e ∧
      ∃ B, UsesStar pd.rules left B ∧ pd.elementTypes[B]? = some .nonTerminal ∧ AMap.get pd.rules B = none) :=
  checkIsDerivative_spec hw.inRange hw.keysNT hl

/-- **C44.** When all reachable non-terminals have rules, the answer is `true` exactly if `right` is `left` or is used
directly or indirectly by its productions. -/
theorem C44_derivative_check_defined {pd : ParserData I} (hw : WellFormed pd) {left right : Nat}
    (hl : pd.elementTypes[left]? = some .nonTerminal)
    (hd : ∀ B, UsesStar pd.rules left B → pd.elementTypes[B]? = some .nonTerminal →
      ∃ r, AMap.get pd.rules B = some r) :
    ∃ b, checkIsDerivative pd.elementTypes pd.rules left right = .ok b ∧ (b = true ↔ UsesStar pd.rules left right) := by
  rcases C44_derivative_check (right := right) hw hl with h | ⟨e, -, B, h1, h2, h3⟩
  · exact h
  · obtain ⟨r, hr⟩ := hd B h1 h2
    rw [h3] at hr; cases hr

/-- The cyclic grammar `start -> a ws; a -> ws "x"; ws -> " " ws | #; other -> other;` with overrides: `start` and `ws`
ignore `ws`. -/
def Samples.ignoreData : ParserData Nat where
  rules := [(0, ⟨[.notEmpty [1, 2], .notEmpty [1, 3, 1]], some 2, [5]⟩), (1, ⟨[.notEmpty [2, 3]], none, []⟩),
    (2, ⟨[.notEmpty [4, 2], .empty], some 2, []⟩), (5, ⟨[.notEmpty [5]], some 5, []⟩)]
  ignore := none
  elementTypes := [.nonTerminal, .nonTerminal, .nonTerminal, .terminal, .terminal, .nonTerminal]
  verboseMap := [(⟨c% "start", .nonTerminal⟩, 0), (⟨c% "a", .nonTerminal⟩, 1), (⟨c% "ws", .nonTerminal⟩, 2),
    (⟨c% "x", .terminal⟩, 3), (⟨c% " ", .terminal⟩, 4), (⟨c% "other", .nonTerminal⟩, 5)]
  elementData := [⟨false, c% "start"⟩, ⟨false, c% "a"⟩, ⟨false, c% "ws"⟩, ⟨false, c% "x"⟩, ⟨false, c% " "⟩,
    ⟨false, c% "other"⟩]

theorem Samples.ignoreData_wf : WellFormed Samples.ignoreData := Samples.wf_of_check (by decide)

theorem Samples.ignoreData_defined : AllDefined Samples.ignoreData := Samples.defined_of_check (by decide)

/-- All hypotheses of C44 are met by a grammar with cycles, for both answers. -/
example : checkIsDerivative Samples.ignoreData.elementTypes Samples.ignoreData.rules 0 2 = .ok true ∧
    checkIsDerivative Samples.ignoreData.elementTypes Samples.ignoreData.rules 2 0 = .ok false ∧
    checkIsDerivative Samples.ignoreData.elementTypes Samples.ignoreData.rules 0 5 = .ok false ∧
    Samples.ignoreData.elementTypes[0]? = some .nonTerminal := by
  refine ⟨?_, ?_, ?_, rfl⟩ <;> decide +kernel

/-! ### C43 -/

/-- **C43**, the shape of a woven alternative: `n` elements with `n - 1` ignores between them. -/
theorem C43_between (i : Nat) (els : List Nat) :
    (∀ k, k < els.length → (between i els)[2 * k]? = els[k]?) ∧
    (∀ k, k + 1 < els.length → (between i els)[2 * k + 1]? = some i) ∧
    (between i els).length = 2 * els.length - 1 := by
  induction els with
  | nil => exact ⟨by simp, by simp, rfl⟩
  | cons x xs ih =>
    cases xs with
    | nil =>
      refine ⟨?_, ?_, rfl⟩
      · intro k hk
        have : k = 0 := by simp at hk; exact hk
        subst this; rfl
      · intro k hk; simp at hk
    | cons y ys =>
      obtain ⟨h1, h2, h3⟩ := ih
      refine ⟨?_, ?_, ?_⟩
      · intro k hk
        cases k with
        | zero => rfl
        | succ k =>
          have := h1 k (by simpa using hk)
          rw [show 2 * (k + 1) = 2 * k + 1 + 1 by omega]
          simpa [between] using this
      · intro k hk
        cases k with
        | zero => rfl
        | succ k =>
          have := h2 k (by simpa using hk)
          rw [show 2 * (k + 1) + 1 = 2 * k + 1 + 1 + 1 by omega]
          simpa [between] using this
      · simp only [between, List.length_cons] at h3 ⊢
        omega

/-- **C43.** Editing the rules, for data with defined symbols: every rule stays, with its instructions; a rule without
override is unchanged; a rule used by its own ignore production is unchanged but loses the override; every
alternative of any other rule gets the ignore element between neighbouring elements. -/
theorem C43_weaving (ho : HashOrder) {pd : ParserData I} (hw : WellFormed pd) (hi : IgnoresNT pd)
    (hd : AllDefined pd) (hid : ∀ A r i, AMap.get pd.rules A = some r → r.ignore = some i → ∃ r', AMap.get pd.rules i = some r') :
    ∃ pd', editRules ho pd = .ok pd' ∧
      pd'.elementTypes = pd.elementTypes ∧ pd'.elementData = pd.elementData ∧ pd'.verboseMap = pd.verboseMap ∧
      (∀ A, AMap.get pd.rules A = none → AMap.get pd'.rules A = none) ∧
      (∀ A r, AMap.get pd.rules A = some r → r.ignore = none → AMap.get pd'.rules A = some r) ∧
      (∀ A r i, AMap.get pd.rules A = some r → r.ignore = some i → UsesStar pd.rules i A →
        AMap.get pd'.rules A = some ⟨r.prods, none, r.instr⟩) ∧
      (∀ A r i, AMap.get pd.rules A = some r → r.ignore = some i → ¬ UsesStar pd.rules i A →
        AMap.get pd'.rules A = some ⟨r.prods.map (betweenAlt i), some i, r.instr⟩) := by
  rcases editRules_spec ho hw hi with ⟨pd', h1, h2, h3, h4, h5, h6, h7⟩ | ⟨e, -, A, r, i, B, hr, hig, hu, hB, hB'⟩
  · refine ⟨pd', h1, h2, h3, h4, ?_, ?_, ?_, ?_⟩
    · intro A hA; rw [h7, hA]; rfl
    · intro A r hA hn; rw [h7, hA]; simp [edited, hn]
    · intro A r i hA hig hu; rw [h7, hA]; simp [edited, hig, hu]
    · intro A r i hA hig hu; rw [h7, hA]; simp [edited, hig, hu]
  · exfalso
    have key : ∀ B, UsesStar pd.rules i B → pd.elementTypes[B]? = some .nonTerminal → ∃ r, AMap.get pd.rules B = some r := by
      intro B hB hty
      cases hB with
      | refl => exact hid A r i hr hig
      | tail _ hlast =>
        obtain ⟨r', hr', p, hp, he⟩ := hlast
        exact hd _ r' hr' p hp B he hty
    obtain ⟨r', hr'⟩ := key B hu hB
    rw [hB'] at hr'; cases hr'

/-- **C43**, failure: editing the rules fails (never panics, never hangs) only if an ignore production uses a
non-terminal without a rule. -/
theorem C43_weaving_error (ho : HashOrder) {pd : ParserData I} (hw : WellFormed pd) (hi : IgnoresNT pd) :
    (∃ pd', editRules ho pd = .ok pd') ∨ (∃ e, editRules ho pd = .err e ∧
      ∃ A r i B, AMap.get pd.rules A = some r ∧ r.ignore = some i ∧ UsesStar pd.rules i B ∧
        pd.elementTypes[B]? = some .nonTerminal ∧ AMap.get pd.rules B = none) := by
  rcases editRules_spec ho hw hi with ⟨pd', h1, -⟩ | ⟨e, h1, h2⟩
  · exact .inl ⟨pd', h1⟩
  · exact .inr ⟨e, h1, h2⟩

/-- The hypotheses are met by a grammar with a woven rule, a rule of the ignore production and a self-ignoring one. -/
example : WellFormed Samples.ignoreData ∧ AllDefined Samples.ignoreData ∧ IgnoresNT Samples.ignoreData ∧
    (editRules .insertion Samples.ignoreData).bind (fun pd => .ok (pd.rules.map fun x => (x.1, x.2.prods, x.2.ignore))) =
      .ok [(0, [.notEmpty [1, 2, 2], .notEmpty [1, 2, 3, 2, 1]], some 2), (1, [.notEmpty [2, 3]], none),
        (2, [.notEmpty [4, 2], .empty], none), (5, [.notEmpty [5]], none)] := by
  refine ⟨Samples.ignoreData_wf, Samples.ignoreData_defined, ?_, by decide +kernel⟩
  intro A r i hr hig
  have hm := AMap.mem_of_get hr
  simp only [Samples.ignoreData, List.mem_cons, Prod.mk.injEq, List.not_mem_nil, or_false] at hm
  rcases hm with ⟨rfl, rfl⟩ | ⟨rfl, rfl⟩ | ⟨rfl, rfl⟩ | ⟨rfl, rfl⟩ <;> cases hig <;> rfl

end HPP
