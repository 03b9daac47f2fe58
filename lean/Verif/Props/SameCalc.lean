import Verif.Props.Renaming
import Verif.Props.Calculator
/-
C117: the calculator whose rules are built in Rust and the one whose rules stand in a file are the same calculator.
-/
namespace HPP
open Spec

/-- A computable check of `Renumbered`, given the inverse `ψ` of the renumbering. -/
def checkRenumbered {I : Type} [DecidableEq I] (φ ψ : Nat → Nat) (pd pd' : ParserData I) : Bool :=
  pd.rules.all (fun x => x.2.prods.all fun p => (prodElems p).all fun e =>
      decide (pd'.elementTypes[φ e]? = pd.elementTypes[e]?) &&
      (decide (pd.elementTypes[e]? ≠ some .terminal) ||
        decide ((pd'.elementData[φ e]?).map (·.name) = (pd.elementData[e]?).map (·.name)))) &&
  pd.rules.all (fun x => match AMap.get pd'.rules (φ x.1) with
      | none => false
      | some r' => decide (r'.instr = x.2.instr) && r'.prods.isPerm (x.2.prods.map (renumber φ))) &&
  pd'.rules.all (fun x => decide (φ (ψ x.1) = x.1) && (AMap.get pd.rules (ψ x.1)).isSome)

theorem renumbered_of_check {I : Type} [DecidableEq I] {φ ψ : Nat → Nat} {pd pd' : ParserData I} (hψ : ∀ n, ψ (φ n) = n)
    (h : checkRenumbered φ ψ pd pd' = true) : Renumbered φ pd pd' := by
  simp only [checkRenumbered, Bool.and_eq_true, List.all_eq_true, Bool.or_eq_true, decide_eq_true_eq] at h
  obtain ⟨⟨h1, h2⟩, h3⟩ := h
  refine ⟨fun a b hab => by rw [← hψ a, ← hψ b, hab], ?_, ?_, ?_, ?_⟩
  · rintro e ⟨A, r, p, hr, hp, he⟩
    exact (h1 _ (Samples.mem_of_get' hr) p hp e he).1
  · rintro e ⟨A, r, p, hr, hp, he⟩ ht
    rcases (h1 _ (Samples.mem_of_get' hr) p hp e he).2 with h | h
    · exact absurd ht h
    · exact h
  · intro A r hr
    have := h2 _ (Samples.mem_of_get' hr)
    simp only at this
    cases hg : AMap.get pd'.rules (φ A) with
    | none => rw [hg] at this; cases this
    | some r' =>
      rw [hg] at this
      simp only [Bool.and_eq_true, decide_eq_true_eq, List.isPerm_iff] at this
      exact ⟨r', rfl, this.1, this.2⟩
  · intro A' r' hr
    have := h3 _ (Samples.mem_of_get' hr)
    simp only at this
    obtain ⟨r, hr⟩ := Option.isSome_iff_exists.1 this.2
    exact ⟨ψ A', r, this.1.symm, hr⟩

theorem Renumbered.congr_left {φ : Nat → Nat} {pd pd1 pd' : ParserData I} (h : Renumbered φ pd pd')
    (ht : pd1.elementTypes = pd.elementTypes) (hd : pd1.elementData = pd.elementData)
    (hr : ∀ A, AMap.get pd1.rules A = AMap.get pd.rules A) : Renumbered φ pd1 pd' := by
  have ho : ∀ e, Occurs pd1 e → Occurs pd e := by
    rintro e ⟨A, r, p, h1, h2, h3⟩
    exact ⟨A, r, p, by rw [← hr]; exact h1, h2, h3⟩
  refine ⟨h.injective, fun e he => ?_, fun e he => ?_, fun A r hA => ?_, fun A' r' hA => ?_⟩
  · rw [ht]; exact h.kinds e (ho e he)
  · rw [ht, hd]; exact h.texts e (ho e he)
  · exact h.rules A r (by rw [← hr]; exact hA)
  · obtain ⟨A, r, h1, h2⟩ := h.noMore A' r' hA
    exact ⟨A, r, h1, by rw [hr]; exact h2⟩

namespace Examples

/-- The numbers in the grammar built in Rust of the elements of the rule file. -/
def toRust (n : Nat) : Nat :=
  ([0, 1, 3, 2, 11, 4, 5, 6, 7, 16, 14, 15, 10, 8, 9, 18, 19, 20, 21, 22, 23, 24, 25, 26, 27, 12, 13, 17] : List Nat).getD n n

/-- The way back. -/
def ofRust (n : Nat) : Nat :=
  ([0, 1, 3, 2, 5, 6, 7, 8, 13, 14, 12, 4, 25, 26, 10, 11, 9, 27, 15, 16, 17, 18, 19, 20, 21, 22, 23, 24] : List Nat).getD n n

theorem ofRust_toRust (n : Nat) : ofRust (toRust n) = n := by
  by_cases h : n < 28
  · exact (by decide : ∀ n : Fin 28, ofRust (toRust n.val) = n.val) ⟨n, h⟩
  · have h1 : toRust n = n := by
      rw [toRust, List.getD_eq_getElem?_getD, List.getElem?_eq_none (by simp; omega)]; rfl
    rw [h1, ofRust, List.getD_eq_getElem?_getD, List.getElem?_eq_none (by simp; omega)]; rfl

theorem rust_renumbered : Renumbered toRust (data calcIns) rustData.1 :=
  renumbered_of_check ofRust_toRust (by decide +kernel)

end Examples

/-- **C117.** The calculator of `examples/stack_based_math` (rules in a file) and the one of `examples/rust_defined_rules`
(rules built by calls) are the same: on every text, script or not, in every state of the machine, in every build and at every
call depth they give the same tree, the same error (up to the order of the expected characters) or the same panic, leave the
same text unread and the machine in the same state. -/
theorem C117_same_calculator {ho1 ho2 : HashOrder} {fuel1 fuel2 : Nat} {cc : CharClass} {checked : Bool} {P1 P2 : Parser Instr}
    (h1 : Parser.newFromText ho1 fuel1 cc (stackVm cc checked) Examples.mathText = .ok P1)
    (h2 : Parser.newFromParserData ho2 fuel2 Examples.rustData.1 Examples.rustData.2 = .ok P2)
    (ho3 ho4 : HashOrder) (fuel : Nat) (vm : VM Instr S) (text : Str) (s : S) :
    (Parser.parse ho3 fuel vm P1 text s).2 = (Parser.parse ho4 fuel vm P2 text s).2 ∧
    SameRes (Parser.parse ho3 fuel vm P1 text s).1 (Parser.parse ho4 fuel vm P2 text s).1 := by
  obtain ⟨pd, st, k1, k2, k3⟩ := newFromText_ok h1
  obtain ⟨pd', g1, g2, g3, g4, g5, g6⟩ := editRules_plain ho1 (Examples.data_wf calcIns)
    (Examples.data_noIgnore calcIns)
  have hpd : parseRules ho1 cc (stackVm cc checked) Examples.mathText = .ok pd' := by
    have e1 := Examples.stack_text_ok cc checked
    have e2 := Examples.stack_text cc checked
    unfold parseRules
    rcases hx : parseRulesLoop cc (stackVm cc checked) (Examples.mathText.length + 1) (RP.new Examples.mathText) with ⟨a, b⟩
    rw [hx] at e1 e2
    simp only at e1 e2
    subst e1
    simp only [e2]
    exact g1
  rw [hpd] at k1
  cases k1
  have hst : pd.getElementNtIndex (c% "start") = some 0 := by
    simp only [ParserData.getElementNtIndex, g4]; rfl
  rw [hst] at k2
  cases k2
  exact C63_parse_same (wellFormed_congr g2 g3 g6 g5 (Examples.data_wf _)) Examples.rust_wf
    (Renumbered.congr_left Examples.rust_renumbered g2 g3 g6)
    (startSymbol_congr g2 g3 g6 (Examples.data_start _)) Examples.rust_start k3 h2 fuel vm text s

/-- Both calculators exist, and the theorem compares them on `1 2 + ;`, on the text `1 +` which is no script, and on every
other text. -/
example (cc : CharClass) (checked : Bool) : ∃ P1 P2 : Parser Instr,
    (∃ fuel, Parser.newFromText .insertion fuel cc (stackVm cc checked) Examples.mathText = .ok P1) ∧
    (∃ fuel, Parser.newFromParserData .insertion fuel Examples.rustData.1 Examples.rustData.2 = .ok P2) ∧
    (∀ fuel, (Parser.parse .insertion fuel (stackVm cc checked) P1 (c% "1 2 + ;") VState.init).2 =
      (Parser.parse .insertion fuel (stackVm cc checked) P2 (c% "1 2 + ;") VState.init).2) ∧
    (∀ fuel, SameRes (Parser.parse .insertion fuel (stackVm cc checked) P1 (c% "1 +") VState.init).1
      (Parser.parse .insertion fuel (stackVm cc checked) P2 (c% "1 +") VState.init).1) := by
  obtain ⟨-, ⟨f1, P1, h1⟩, ⟨f2, P2, h2⟩⟩ := C53_examples_built .insertion cc checked
  exact ⟨P1, P2, ⟨f1, h1⟩, ⟨f2, h2⟩, fun fuel => (C117_same_calculator h1 h2 .insertion .insertion fuel _ _ _).1,
    fun fuel => (C117_same_calculator h1 h2 .insertion .insertion fuel _ _ _).2⟩

end HPP
