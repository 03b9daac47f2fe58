import Verif.Props.CalcTotal
import Verif.Props.Postfix
import Verif.Props.Whole
import Verif.Props.Ideal
import Verif.Props.StackMachine
import Verif.Props.NewMachine
/-
Concrete cases of the theorems on the calculators and the stack machines (C51 - C53, C56, C65, C66, C100, C101, C106, C109): the
parsers exist (`C53_examples_built`), and the scripts meet the hypotheses.
-/
namespace HPP
open Spec CalcShape

theorem Samples.script_ok : ∀ t ∈ Samples.calcScript, t.Ok := by simp [Samples.calcScript, Token.Ok]
theorem Samples.script_digits {n : Nat} (h : 1 ≤ n) : ∀ t ∈ Samples.calcScript, t.digits ≤ n := by
  intro t ht
  have : ∀ t ∈ Samples.calcScript, t.digits ≤ 1 := by decide
  exact Nat.le_trans (this t ht) h

/-- The calculators of the three example programs. -/
theorem Samples.simple_calculator (checked : Bool) : ∃ fuel P,
    Parser.newFromText .insertion fuel .ascii (simpleStackVm checked) Examples.simpleMathText = .ok P :=
  (C53_examples_built .insertion .ascii checked).1
theorem Samples.stack_calculator (checked : Bool) : ∃ fuel P,
    Parser.newFromText .insertion fuel .ascii (stackVm .ascii checked) Examples.mathText = .ok P :=
  (C53_examples_built .insertion .ascii checked).2.1
theorem Samples.rust_calculator : ∃ fuel P,
    Parser.newFromParserData .insertion fuel Examples.rustData.1 Examples.rustData.2 = .ok P :=
  (C53_examples_built .insertion .ascii true).2.2

/-- `C53_simple`: the script of the example program prints 2 on a new machine. -/
example : ∃ fuel0 P, Parser.newFromText .insertion fuel0 .ascii (simpleStackVm true) Examples.simpleMathText = .ok P ∧
    ∃ N, ∀ fuel, N ≤ fuel → ∀ ho, ∃ t ctx,
      Parser.parse ho fuel (simpleStackVm true) P (c% "1 2 + 3 + 4 - print") SState.init = (.ok t, ctx) ∧
      ctx.state.out.map Int.ofNat = [2] := by
  obtain ⟨fuel0, P, hP⟩ := Samples.simple_calculator true
  obtain ⟨N, hN⟩ := C53_simple hP (toks := Samples.calcScript) (by decide) Samples.script_ok
    (fun _ => Samples.script_digits (by decide)) (s := SState.init) (c := ⟨[], [2]⟩) (by decide +kernel)
  refine ⟨fuel0, P, hP, N, fun fuel hf ho => ?_⟩
  obtain ⟨t, ctx, h1, -, -, h2, -⟩ := hN fuel hf ho
  exact ⟨t, ctx, h1, h2⟩

/-- `C53_stack`: and with StackVm, on a machine that has 7 on its stack. -/
example : ∃ fuel0 P, Parser.newFromText .insertion fuel0 .ascii (stackVm .ascii true) Examples.mathText = .ok P ∧
    ∃ N, ∀ fuel, N ≤ fuel → ∀ ho, ∃ t ctx,
      Parser.parse ho fuel (stackVm .ascii true) P (c% "1 2 + 3 + 4 - print") { VState.init with stack := [7] } = (.ok t, ctx) ∧
      ctx.state.stack = [7] ∧ ctx.state.out = [2] := by
  obtain ⟨fuel0, P, hP⟩ := Samples.stack_calculator true
  obtain ⟨N, hN⟩ := C53_stack hP (toks := Samples.calcScript) (by decide) Samples.script_ok
    (fun _ => Samples.script_digits (by decide)) (s := { VState.init with stack := [7] }) (c := ⟨[7], [2]⟩) (by decide +kernel)
  refine ⟨fuel0, P, hP, N, fun fuel hf ho => ?_⟩
  obtain ⟨t, ctx, h1, -, h2, h3, -⟩ := hN fuel hf ho
  exact ⟨t, ctx, h1, h2, h3⟩

/-- `C53_rust`: and with the grammar built in Rust. -/
example : ∃ fuel0 P, Parser.newFromParserData .insertion fuel0 Examples.rustData.1 Examples.rustData.2 = .ok P ∧
    ∃ N, ∀ fuel, N ≤ fuel → ∀ ho, ∃ t ctx,
      Parser.parse ho fuel (stackVm .ascii true) P (c% "1 2 + 3 + 4 - print") VState.init = (.ok t, ctx) ∧
      ctx.state.out = [2] := by
  obtain ⟨fuel0, P, hP⟩ := Samples.rust_calculator
  obtain ⟨N, hN⟩ := C53_rust (cc := .ascii) (checked := true) hP (toks := Samples.calcScript) (by decide) Samples.script_ok
    (fun _ => Samples.script_digits (by decide)) (s := VState.init) (c := ⟨[], [2]⟩) (by decide +kernel)
  refine ⟨fuel0, P, hP, N, fun fuel hf ho => ?_⟩
  obtain ⟨t, ctx, h1, -, -, h3, -⟩ := hN fuel hf ho
  exact ⟨t, ctx, h1, h3⟩

/-- `C53_only_scripts`, `C101_calculators_exact`: whenever `1 2 print` is accepted, all of it was read. -/
example {ho0 ho : HashOrder} {fuel0 fuel : Nat} {P : Parser SInstr}
    (hP : Parser.newFromText ho0 fuel0 .ascii (simpleStackVm true) Examples.simpleMathText = .ok P) (t : Tree Str) (c : Ctx SState)
    (h : Parser.parse ho fuel (simpleStackVm true) P (c% "1 2 print") SState.init = (.ok t, c)) : c.proc.rest = [] :=
  ((C101_calculators_exact (cc := .ascii)).1 P hP _ t c h).2

/-- `C53_simple_sound`: a parse of the script on the stack 5, 6 that leaves no error code printed 2. -/
example : ∃ fuel0 P, Parser.newFromText .insertion fuel0 .ascii (simpleStackVm true) Examples.simpleMathText = .ok P ∧
    ∃ N, ∀ fuel, N ≤ fuel → ∀ t ctx,
      Parser.parse .insertion fuel (simpleStackVm true) P (scriptText Samples.calcScript) { SState.init with stack := [5, 6] } = (.ok t, ctx) →
      ctx.state.error = 0 → ctx.state.out.map Int.ofNat = [2] := by
  obtain ⟨fuel0, P, hP⟩ := Samples.simple_calculator true
  obtain ⟨N, hN⟩ := C53_simple_sound hP (toks := Samples.calcScript) (by decide) Samples.script_ok
  refine ⟨fuel0, P, hP, N, fun fuel hf t ctx h he => ?_⟩
  have := hN fuel hf _ _ t ctx h he
  rw [show rpn 0 (2 ^ 64) ⟨({ SState.init with stack := [5, 6] } : SState).stack.map Int.ofNat,
    ({ SState.init with stack := [5, 6] } : SState).out.map Int.ofNat⟩ Samples.calcScript = some ⟨[5, 6], [2]⟩ by decide +kernel] at this
  simp only [Option.some.injEq, Rpn.mk.injEq] at this
  exact this.2.symm

/-- `C53_stack_sound`. -/
example : ∃ fuel0 P, Parser.newFromText .insertion fuel0 .ascii (stackVm .ascii true) Examples.mathText = .ok P ∧
    ∃ N, ∀ fuel, N ≤ fuel → ∀ t ctx,
      Parser.parse .insertion fuel (stackVm .ascii true) P (scriptText Samples.calcScript) VState.init = (.ok t, ctx) →
      ctx.state.error = 0 → ctx.state.out = [2] := by
  obtain ⟨fuel0, P, hP⟩ := Samples.stack_calculator true
  obtain ⟨N, hN⟩ := C53_stack_sound (cc := .ascii) (.inl hP) (toks := Samples.calcScript) (by decide) Samples.script_ok
    (Samples.script_digits (by decide))
  refine ⟨fuel0, P, hP, N, fun fuel hf t ctx h he => ?_⟩
  have := hN fuel hf _ _ t ctx h he
  rw [show rpn (-(2 ^ 63)) (2 ^ 63) ⟨VState.init.stack, VState.init.out⟩ Samples.calcScript = some ⟨[], [2]⟩ by decide +kernel] at this
  simp only [Option.some.injEq, Rpn.mk.injEq] at this
  exact this.2.symm

/-- `C52_number_simple_release`, `C52_number_simple_partial`: 18446744073709551615 is pushed as such. -/
example (checked : Bool) : ∃ fuel0 P, Parser.newFromText .insertion fuel0 .ascii (simpleStackVm checked) Examples.simpleMathText = .ok P ∧
    ∃ N, ∀ fuel, N ≤ fuel → ∀ ho, ∃ t ctx,
      Parser.parse ho fuel (simpleStackVm checked) P (c% "18446744073709551615") SState.init = (.ok t, ctx) ∧
      ctx.state.stack = [18446744073709551615] := by
  obtain ⟨fuel0, P, hP⟩ := Samples.simple_calculator checked
  obtain ⟨N, hN⟩ := C52_number_simple_partial hP (ds := [1, 8, 4, 4, 6, 7, 4, 4, 0, 7, 3, 7, 0, 9, 5, 5, 1, 6, 1, 5]) (by decide)
    (by decide) (by decide) SState.init
  refine ⟨fuel0, P, hP, N, fun fuel hf ho => ?_⟩
  obtain ⟨t, ctx, h1, -, h2, -⟩ := hN fuel hf ho
  exact ⟨t, ctx, h1, h2⟩

/-- `C52_number_simple_panics`: 18446744073709551616 makes a build with overflow checks panic. -/
example : ∃ fuel0 P, Parser.newFromText .insertion fuel0 .ascii (simpleStackVm true) Examples.simpleMathText = .ok P ∧
    ∃ N, ∀ fuel, N ≤ fuel → ∀ ho,
      (Parser.parse ho fuel (simpleStackVm true) P (c% "18446744073709551616") SState.init).1 = .panic := by
  obtain ⟨fuel0, P, hP⟩ := Samples.simple_calculator true
  obtain ⟨N, hN⟩ := C52_number_simple_panics hP (ds := [1, 8, 4, 4, 6, 7, 4, 4, 0, 7, 3, 7, 0, 9, 5, 5, 1, 6, 1, 6]) (by decide)
    SState.init
  exact ⟨fuel0, P, hP, N, fun fuel hf ho => (hN fuel hf ho).2 (.inr (by decide))⟩

/-- `C52_number_stack_release`, `C52_number_stack_partial`: 9223372036854775807 is pushed as such. -/
example (checked : Bool) : ∃ fuel0 P, Parser.newFromText .insertion fuel0 .ascii (stackVm .ascii checked) Examples.mathText = .ok P ∧
    ∃ N, ∀ fuel, N ≤ fuel → ∀ ho, ∃ t ctx,
      Parser.parse ho fuel (stackVm .ascii checked) P (c% "9223372036854775807") VState.init = (.ok t, ctx) ∧
      ctx.state.stack = [9223372036854775807] := by
  obtain ⟨fuel0, P, hP⟩ := Samples.stack_calculator checked
  obtain ⟨N, hN⟩ := C52_number_stack_partial (cc := .ascii) (checked := checked) (.inl hP)
    (ds := [9, 2, 2, 3, 3, 7, 2, 0, 3, 6, 8, 5, 4, 7, 7, 5, 8, 0, 7]) (by decide) (fun _ => by decide) (by decide) VState.init
  refine ⟨fuel0, P, hP, N, fun fuel hf ho => ?_⟩
  obtain ⟨t, ctx, h1, -, h2, -⟩ := hN fuel hf ho
  exact ⟨t, ctx, h1, h2⟩

/-- `C52_twenty_digits_wrap`: 10000000000000000000 is pushed as -8446744073709551616. -/
example : ∃ fuel0 P, Parser.newFromText .insertion fuel0 .ascii (stackVm .ascii true) Examples.mathText = .ok P ∧
    ∃ N, ∀ fuel, N ≤ fuel → ∀ ho, ∃ t ctx,
      Parser.parse ho fuel (stackVm .ascii true) P (c% "10000000000000000000") VState.init = (.ok t, ctx) ∧
      ctx.state.stack = [-8446744073709551616] ∧ ctx.state.error = 0 := by
  obtain ⟨fuel0, P, hP⟩ := Samples.stack_calculator true
  obtain ⟨N, hN⟩ := C52_twenty_digits_wrap (cc := .ascii) (checked := true) (.inl hP)
    (ds := [0, 0, 0, 0, 0, 0, 0, 0, 0, 0, 0, 0, 0, 0, 0, 0, 0, 0, 0]) (by decide) (by decide) VState.init
  refine ⟨fuel0, P, hP, N, fun fuel hf ho => ?_⟩
  obtain ⟨t, ctx, h1, -, h2, -, h3⟩ := hN fuel hf ho
  exact ⟨t, ctx, h1, h2, h3⟩

/-- `C56_negative_refuted`: with overflow checks `5 7 - print` panics. -/
example : ∃ fuel0 P, Parser.newFromText .insertion fuel0 .ascii (simpleStackVm true) Examples.simpleMathText = .ok P ∧
    ∃ N, ∀ fuel, N ≤ fuel → ∀ ho,
      (Parser.parse ho fuel (simpleStackVm true) P (c% "5 7 - print") SState.init).1 = .panic := by
  obtain ⟨fuel0, P, hP⟩ := Samples.simple_calculator true
  obtain ⟨N, hN⟩ := C56_negative_refuted hP (pre := [.num [5], .num [7]]) (post := [.print]) (s := SState.init) (a := 5) (b := 7)
    (st := []) (out := []) (by simp [Token.Ok, Token.digits]) (by simp [Token.Ok]) (by decide +kernel) (by decide)
  exact ⟨fuel0, P, hP, N, hN⟩

/-- `C100_simple`: `7 + print` loses the operand, prints it all the same and leaves error code 1. -/
example : ∃ fuel0 P, Parser.newFromText .insertion fuel0 .ascii (simpleStackVm true) Examples.simpleMathText = .ok P ∧
    ∃ N, ∀ fuel, N ≤ fuel → ∀ ho, ∃ t ctx,
      Parser.parse ho fuel (simpleStackVm true) P (c% "7 + print") SState.init = (.ok t, ctx) ∧ ctx.state.error = 1 ∧
      ctx.state.out.map Int.ofNat = [7] := by
  obtain ⟨fuel0, P, hP⟩ := Samples.simple_calculator true
  obtain ⟨N, hN⟩ := C100_simple hP (toks := [.num [7], .add, .print]) (by decide) (by simp [Token.Ok])
  refine ⟨fuel0, P, hP, N, fun fuel hf ho => ?_⟩
  obtain ⟨t, ctx, h1, -, h2⟩ := (hN fuel hf ho SState.init).1 ⟨[], 7, 1, [7]⟩ (by decide +kernel)
  simp only [Calc.mk.injEq] at h2
  exact ⟨t, ctx, h1, h2.2.2.1, h2.2.2.2⟩

/-- `C100_stack`: 1 added to the largest number panics with overflow checks. -/
example : ∃ fuel0 P, Parser.newFromText .insertion fuel0 .ascii (stackVm .ascii true) Examples.mathText = .ok P ∧
    ∃ N, ∀ fuel, N ≤ fuel → ∀ ho,
      (Parser.parse ho fuel (stackVm .ascii true) P (c% "1 +") { VState.init with stack := [2 ^ 63 - 1] }).1 = .panic := by
  obtain ⟨fuel0, P, hP⟩ := Samples.stack_calculator true
  obtain ⟨N, hN⟩ := C100_stack (cc := .ascii) (checked := true) (.inl hP) (toks := [.num [1], .add]) (by decide) (by simp [Token.Ok])
  exact ⟨fuel0, P, hP, N, fun fuel hf ho => (hN fuel hf ho { VState.init with stack := [2 ^ 63 - 1] }).2 (by decide +kernel)⟩

/-- `C100_release_numbers`: 18446744073709551617 is 1 modulo 2^64. -/
example : (unsigned false).number [1, 8, 4, 4, 6, 7, 4, 4, 0, 7, 3, 7, 0, 9, 5, 5, 1, 6, 1, 7] = some 1 := by
  rw [(C100_release_numbers (ds := [1, 8, 4, 4, 6, 7, 4, 4, 0, 7, 3, 7, 0, 9, 5, 5, 1, 6, 1, 7]) (by decide)).1]
  decide

/-- `C101_calculators_any_text`: `1 2 print` is a script of words. -/
example (ho : HashOrder) : ∃ fuel0 P, Parser.newFromText .insertion fuel0 .ascii (simpleStackVm true) Examples.simpleMathText = .ok P ∧
    ∃ N, ∀ fuel, N ≤ fuel →
      (∃ t c, Parser.parse ho fuel (simpleStackVm true) P (c% "1 2 print") SState.init = (.ok t, c) ∧ c.proc.rest = []) ∨
      (Parser.parse ho fuel (simpleStackVm true) P (c% "1 2 print") SState.init).1 = .panic := by
  obtain ⟨fuel0, P, hP⟩ := Samples.simple_calculator true
  obtain ⟨N, hN⟩ := (C101_calculators_any_text (c% "1 2 print")).1 P hP
  exact ⟨fuel0, P, hP, N, fun fuel hf => (hN fuel hf ho SState.init).2
    ⟨[.num [1], .num [2], .print], by decide, by simp [Token.Ok], by decide⟩⟩

/-- `3 - (1 - 2)`, written `3 1 2 - -`. -/
def Samples.expression : Arith := .minus (.num [3]) (.minus (.num [1]) (.num [2]))

/-- `C106_stack`: `3 1 2 - - print` prints 4. -/
example : ∃ fuel0 P, Parser.newFromText .insertion fuel0 .ascii (stackVm .ascii true) Examples.mathText = .ok P ∧
    ∃ N, ∀ fuel, N ≤ fuel → ∀ ho, ∃ t ctx,
      Parser.parse ho fuel (stackVm .ascii true) P (c% "3 1 2 - - print") VState.init = (.ok t, ctx) ∧
      ctx.state.out = [4] := by
  obtain ⟨fuel0, P, hP⟩ := Samples.stack_calculator true
  obtain ⟨N, hN⟩ := C106_stack (cc := .ascii) (checked := true) (.inl hP) (es := [Samples.expression]) (by decide)
    (by simp [Samples.expression, Arith.Digits]) (by simp [Samples.expression, Arith.Fits, Arith.value, decimal]) VState.init
  refine ⟨fuel0, P, hP, N, fun fuel hf ho => ?_⟩
  obtain ⟨t, ctx, h1, -, -, h2, -⟩ := hN fuel hf ho
  exact ⟨t, ctx, h1, h2⟩

/-- `C106_checked_panics`: the same script makes `simple_stack_based_math` panic with overflow checks, as `1 - 2` is negative. -/
example : ∃ fuel0 P, Parser.newFromText .insertion fuel0 .ascii (simpleStackVm true) Examples.simpleMathText = .ok P ∧
    ∃ N, ∀ fuel, N ≤ fuel → ∀ ho s,
      (Parser.parse ho fuel (simpleStackVm true) P (c% "3 1 2 - - print") s).1 = .panic := by
  obtain ⟨fuel0, P, hP⟩ := Samples.simple_calculator true
  obtain ⟨N, hN⟩ := (C106_checked_panics (cc := .ascii) (es := [Samples.expression])).1 (by simp [Samples.expression, Arith.Digits])
    ⟨_, List.mem_singleton.2 rfl, by simp [Samples.expression, Arith.Fits, Arith.value, decimal]⟩ P hP
  exact ⟨fuel0, P, hP, N, hN⟩

/-- `C106_release`: without overflow checks it prints 4. -/
example : ∃ fuel0 P, Parser.newFromText .insertion fuel0 .ascii (simpleStackVm false) Examples.simpleMathText = .ok P ∧
    ∃ N, ∀ fuel, N ≤ fuel → ∀ ho, ∃ t ctx,
      Parser.parse ho fuel (simpleStackVm false) P (c% "3 1 2 - - print") SState.init = (.ok t, ctx) ∧
      ctx.state.out.map Int.ofNat = [4] := by
  obtain ⟨fuel0, P, hP⟩ := Samples.simple_calculator false
  obtain ⟨N, hN⟩ := (C106_release (cc := .ascii) (es := [Samples.expression]) (by decide) (by simp [Samples.expression, Arith.Digits])).1 P hP
  refine ⟨fuel0, P, hP, N, fun fuel hf ho => ?_⟩
  obtain ⟨t, ctx, h1, -, -, h2, -⟩ := hN fuel hf ho SState.init
  exact ⟨t, ctx, h1, h2⟩

/-- `C106_simple`, `C106_new_machine`: `1 2 + 3 + 4 - print 7 print` prints 2 and 7. -/
example : ∃ fuel0 P, Parser.newFromText .insertion fuel0 .ascii (simpleStackVm true) Examples.simpleMathText = .ok P ∧
    ∃ N, ∀ fuel, N ≤ fuel → ∀ ho, ∃ t ctx,
      Parser.parse ho fuel (simpleStackVm true) P (c% "1 2 + 3 + 4 - print 7 print") (simpleStackVm true).init = (.ok t, ctx) ∧
      ctx.state.out.map Int.ofNat = [2, 7] ∧ ctx.state.error = 0 := by
  obtain ⟨fuel0, P, hP⟩ := Samples.simple_calculator true
  obtain ⟨N, hN⟩ := (C106_new_machine (cc := .ascii) (checked := true) (ho0 := .insertion) (fuel0 := fuel0)
    (es := [.minus (.plus (.plus (.num [1]) (.num [2])) (.num [3])) (.num [4]), .num [7]]) (by decide)
    (by simp [Arith.Digits])).1 P hP (by simp [Arith.Fits, Arith.value, decimal])
  refine ⟨fuel0, P, hP, N, fun fuel hf ho => ?_⟩
  obtain ⟨t, ctx, h1, -, h2, h3⟩ := hN fuel hf ho
  exact ⟨t, ctx, h1, h2, h3⟩

/-- `C51_error_kept`, `C51_error_kept_simple`: an addition on one operand leaves error code 1. -/
example : ∃ s', (stackVm .ascii true).execute Tree.new ⟨0, 0⟩ .add { VState.init with error := 2 } = some (Tree.new, s') ∧
    (s'.error = 2 ∨ s'.error = 1) := by
  refine ⟨_, rfl, ?_⟩
  rcases (C51_error_kept .ascii true (t := Tree.new) (id := ⟨0, 0⟩) (i := .add) (s := { VState.init with error := 2 }) rfl).2
    with h | h | h
  · exact .inl h
  · exact .inr h.1
  · exact .inl h.1

/-- `C51_error_kept_parse_simple`, `C51_error_kept_parse`, `C109_output_only_grows`: after a parse of the script on a machine with
error code 1 that has printed 5, the code is set and 5 is still printed first. -/
example : ∃ fuel0 P, Parser.newFromText .insertion fuel0 .ascii (simpleStackVm true) Examples.simpleMathText = .ok P ∧
    ∀ (ho : HashOrder) (fuel : Nat),
      (Parser.parse ho fuel (simpleStackVm true) P (c% "1 x") { SState.init with error := 1, out := [5] }).2.state.error ≠ 0 ∧
      [5] <+: (Parser.parse ho fuel (simpleStackVm true) P (c% "1 x") { SState.init with error := 1, out := [5] }).2.state.out := by
  obtain ⟨fuel0, P, hP⟩ := Samples.simple_calculator true
  exact ⟨fuel0, P, hP, fun ho fuel => ⟨C51_error_kept_parse_simple true ho fuel P _ _ (by decide),
    (C109_output_only_grows .ascii true ho fuel _).1 P { SState.init with error := 1, out := [5] }⟩⟩

/-- `C66_text_release_never_panics`: no text makes the release build of the calculator panic. -/
example : ∃ fuel0 P, Parser.newFromText .insertion fuel0 .ascii (simpleStackVm false) Examples.simpleMathText = .ok P ∧
    ∀ (ho : HashOrder) (fuel : Nat) (text : Str) (s : SState), (Parser.parse ho fuel (simpleStackVm false) P text s).1 ≠ .panic := by
  obtain ⟨fuel0, P, hP⟩ := Samples.simple_calculator false
  exact ⟨fuel0, P, hP, fun ho fuel text s => ((C66_text_release_never_panics ho fuel text).2 P hP s).1⟩

/-- `C65_simple_release` with `C65_text_constants`, `C65_fresh`: any text, from a new machine. -/
example : ∃ fuel0 P, Parser.newFromText .insertion fuel0 .ascii (simpleStackVm false) Examples.simpleMathText = .ok P ∧
    ∀ (ho : HashOrder) (fuel : Nat) (text : Str),
      PanicTogether (Parser.parse ho fuel (simpleStackVm false) P text SState.init)
        (Parser.parse ho fuel idealSimpleVm P text ⟨[], 0, 0, 0, []⟩) ∨
      SameParse UnsignedModulo (Parser.parse ho fuel (simpleStackVm false) P text SState.init)
        (Parser.parse ho fuel idealSimpleVm P text ⟨[], 0, 0, 0, []⟩) := by
  obtain ⟨fuel0, P, hP⟩ := Samples.simple_calculator false
  exact ⟨fuel0, P, hP, fun ho fuel text => C65_simple_release P (C65_text_constants.2 P hP) ho fuel text C65_fresh.2.2.1⟩

/-- `C65_stack_release`, `C65_stack_debug`: the same with StackVm. -/
example : ∃ fuel0 P, Parser.newFromText .insertion fuel0 .ascii (stackVm .ascii true) Examples.mathText = .ok P ∧
    ∀ (ho : HashOrder) (fuel : Nat) (text : Str),
      (Parser.parse ho fuel (stackVm .ascii true) P text VState.init).1 = .panic ∨
      SameParse SignedModulo (Parser.parse ho fuel (stackVm .ascii true) P text VState.init)
        (Parser.parse ho fuel (idealStackVm .ascii) P text ⟨[], 0, 0, 0, []⟩) := by
  obtain ⟨fuel0, P, hP⟩ := Samples.stack_calculator true
  exact ⟨fuel0, P, hP, fun ho fuel text => C65_stack_debug .ascii P (C65_text_constants.1 P hP) ho fuel text C65_fresh.1⟩

end HPP
