import Verif.Model.ExampleMains
import Verif.Props.Postfix
import Verif.Props.Limits
/-
C108: the example programs and the rule file of the readme.
-/
namespace HPP
open Spec

/-- `((1 + 2) + 3) - 4` -/
def exampleArith : Arith := .minus (.plus (.plus (.num [1]) (.num [2])) (.num [3])) (.num [4])

theorem exampleArith_script : scriptText (printing [exampleArith]) = Examples.script := by decide +kernel

theorem exampleArith_digits : ∀ e ∈ [exampleArith], e.Digits 20 := by
  intro e he
  cases List.mem_singleton.1 he
  simp [exampleArith, Arith.Digits]

theorem exampleArith_value : [exampleArith].map Arith.value = [2] := by decide +kernel

theorem exampleArith_fitsU : ∀ e ∈ [exampleArith], e.Fits 0 (2 ^ 64) := by
  intro e he
  cases List.mem_singleton.1 he
  simp [exampleArith, Arith.Fits, Arith.value, decimal]

theorem exampleArith_fitsI : ∀ e ∈ [exampleArith], e.Fits (-(2 ^ 63)) (2 ^ 63) := by
  intro e he
  cases List.mem_singleton.1 he
  simp [exampleArith, Arith.Fits, Arith.value, decimal]

/-- **C108**, the example programs: run in the directory of the project, each prints the result 2 and says that all went well,
for every iteration order of the hash maps, in all builds, if the stack is large enough. -/
theorem C108_example_programs (ho : HashOrder) (cc : CharClass) (checked : Bool) (debug : PErr → Str) :
    ∃ N, ∀ fuel, N ≤ fuel → ∀ ho2 : HashOrder,
      Examples.simpleMathMain ho ho2 fuel cc checked (some Examples.simpleMathText) = .ok [c% "2", c% "ok"] ∧
      Examples.mathMain ho ho2 fuel cc checked (some Examples.mathText) = .ok [c% "2", c% "ok"] ∧
      Examples.rustMain debug ho ho2 fuel cc checked = .ok [c% "2", c% "Parsing successful!", c% "ok"] := by
  obtain ⟨⟨f1, P1, h1⟩, ⟨f2, P2, h2⟩, ⟨f3, P3, h3⟩⟩ := C53_examples_built ho cc checked
  obtain ⟨N1, g1⟩ := C106_simple h1 (es := [exampleArith]) (by simp) exampleArith_digits exampleArith_fitsU (simpleStackVm checked).init
  obtain ⟨N2, g2⟩ := C106_stack (.inl h2) (es := [exampleArith]) (by simp) exampleArith_digits exampleArith_fitsI (stackVm cc checked).init
  obtain ⟨N3, g3⟩ := C106_stack (cc := cc) (checked := checked) (.inr h3) (es := [exampleArith]) (by simp) exampleArith_digits exampleArith_fitsI (stackVm cc checked).init
  rw [exampleArith_script, exampleArith_value] at g1 g2 g3
  refine ⟨max (max (max f1 f2) f3) (max (max N1 N2) N3), fun fuel hf ho2 => ⟨?_, ?_, ?_⟩⟩
  · obtain ⟨t, ctx, k1, -, -, k2, -⟩ := g1 fuel (by omega) ho2
    have hb : Parser.newFromText ho fuel cc (simpleStackVm checked) Examples.simpleMathText = .ok P1 := by
      rw [C89_construction_from_text ho cc _ _ (fuel := f1) (by omega) (by rw [h1]; exact fun h => by cases h), h1]
    have k2' : ctx.state.out = [2] := by
      cases ho : ctx.state.out with
      | nil => rw [ho] at k2; cases k2
      | cons a l =>
        rw [ho] at k2
        have k3 : (a : Int) = 2 ∧ l.map Int.ofNat = [] := List.cons.inj k2
        cases l with
        | nil => rw [show a = 2 by omega]
        | cons b l => cases k3.2
    simp only [Examples.simpleMathMain, Res.unwrapO, Res.bind_ok, hb, k1, Res.unwrap, k2']
    rfl
  · obtain ⟨t, ctx, k1, -, -, k2, -⟩ := g2 fuel (by omega) ho2
    have hb : Parser.newFromText ho fuel cc (stackVm cc checked) Examples.mathText = .ok P2 := by
      rw [C89_construction_from_text ho cc _ _ (fuel := f2) (by omega) (by rw [h2]; exact fun h => by cases h), h2]
    have k2' : ctx.state.out = [2] := k2
    simp only [Examples.mathMain, Res.unwrapO, Res.bind_ok, hb, k1, Res.unwrap, k2']
    rfl
  · obtain ⟨t, ctx, k1, -, -, k2, -⟩ := g3 fuel (by omega) ho2
    have hb : Parser.newFromParserData ho fuel Examples.rustData.1 Examples.rustData.2 = .ok P3 := by
      rw [C89_construction ho _ _ (fuel := f3) (by omega) (by rw [h3]; exact fun h => by cases h), h3]
    have k2' : ctx.state.out = [2] := k2
    simp only [Examples.rustMain, Res.bind_ok, hb, k1, k2']
    rfl

/-- **C108**, run elsewhere: if the rule file cannot be read, the two programs that need it panic. -/
theorem C108_missing_file (ho ho2 : HashOrder) (fuel : Nat) (cc : CharClass) (checked : Bool) :
    Examples.simpleMathMain ho ho2 fuel cc checked none = .panic ∧ Examples.mathMain ho ho2 fuel cc checked none = .panic :=
  ⟨rfl, rfl⟩

set_option maxRecDepth 100000 in
theorem Examples.readme_text (cc : CharClass) (checked : Bool) :
    (parseRulesLoop cc (simpleStackVm checked) (readmeText.length + 1) (RP.new readmeText)).2.pd = data calcSIns := by
  kernel_rfl

set_option maxRecDepth 100000 in
theorem Examples.readme_text_ok (cc : CharClass) (checked : Bool) :
    (parseRulesLoop cc (simpleStackVm checked) (readmeText.length + 1) (RP.new readmeText)).1 = .ok () := by
  kernel_rfl

/-- **C108**, the rule file in the readme: it gives exactly the parser of the example program (so that C53, C100 and C106 hold
for it). -/
theorem C108_readme_rules (ho : HashOrder) (fuel : Nat) (cc : CharClass) (checked : Bool) :
    parseRules ho cc (simpleStackVm checked) Examples.readmeText = parseRules ho cc (simpleStackVm checked) Examples.simpleMathText ∧
    Parser.newFromText ho fuel cc (simpleStackVm checked) Examples.readmeText =
      Parser.newFromText ho fuel cc (simpleStackVm checked) Examples.simpleMathText := by
  have h : parseRules ho cc (simpleStackVm checked) Examples.readmeText =
      parseRules ho cc (simpleStackVm checked) Examples.simpleMathText := by
    have a1 := Examples.readme_text cc checked
    have a2 := Examples.readme_text_ok cc checked
    have b1 := Examples.simple_text cc checked
    have b2 := Examples.simple_text_ok cc checked
    unfold parseRules
    rcases hx : parseRulesLoop cc (simpleStackVm checked) (Examples.readmeText.length + 1) (RP.new Examples.readmeText) with ⟨a, b⟩
    rcases hy : parseRulesLoop cc (simpleStackVm checked) (Examples.simpleMathText.length + 1) (RP.new Examples.simpleMathText) with ⟨a', b'⟩
    rw [hx] at a1 a2
    rw [hy] at b1 b2
    simp only at a1 a2 b1 b2
    subst a2 b2
    simp only [a1, b1]
  exact ⟨h, by simp only [Parser.newFromText, h]⟩

/-- The readme: its parser exists, and evaluates its example `1 2 + 3 + 4 - print`. -/
example (ho : HashOrder) (cc : CharClass) (checked : Bool) :
    (∃ fuel P, Parser.newFromText ho fuel cc (simpleStackVm checked) Examples.readmeText = .ok P) ∧
    ∃ N, ∀ fuel, N ≤ fuel → ∀ ho2, Examples.simpleMathMain ho ho2 fuel cc checked (some Examples.readmeText) = .ok [c% "2", c% "ok"] := by
  constructor
  · obtain ⟨⟨f, P, h⟩, -⟩ := C53_examples_built ho cc checked
    exact ⟨f, P, by rw [(C108_readme_rules ho f cc checked).2, h]⟩
  · obtain ⟨N, h⟩ := C108_example_programs ho cc checked fun _ => []
    refine ⟨N, fun fuel hf ho2 => ?_⟩
    have := (h fuel hf ho2).1
    simp only [Examples.simpleMathMain, Res.unwrapO, Res.bind_ok, (C108_readme_rules ho fuel cc checked).2] at this ⊢
    exact this

end HPP
