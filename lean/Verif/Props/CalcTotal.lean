import Verif.Proofs.CalcTotal
import Verif.Props.Calculator
/-
Property C100: what the calculator examples do with every script of words, in every state and build; and the exact panic
condition of numbers on StackVm (C52).
-/
namespace HPP
open Spec CalcShape

theorem IsCalc.total {I S : Type} {ins : CalcNT → List I} {P : Parser I} (h : IsCalc ins P) (hp : Plain ins) {vm : VM I S}
    (htp : TreePreserving vm) {exec : Option Str → I → S → Option S} (hl : LocalVm vm exec) {obs : S → Calc} {ar : Arithmetic}
    (hx : ∀ s t, t.Ok → (tokenStep exec ins s t).map obs = calcStep ar (obs s) t) {toks : List Token}
    (hne : toks ≠ []) (hok : ∀ t ∈ toks, t.Ok) :
    ∃ N, ∀ fuel, N ≤ fuel → ∀ (ho : HashOrder) (s : S),
      (∀ c, calcRun ar (obs s) toks = some c → ∃ t ctx, Parser.parse ho fuel vm P (scriptText toks) s = (.ok t, ctx) ∧
        ctx.proc.rest = [] ∧ obs ctx.state = c) ∧
      (calcRun ar (obs s) toks = none → (Parser.parse ho fuel vm P (scriptText toks) s).1 = .panic) := by
  obtain ⟨N, hN⟩ := h.run hp htp hl hne hok
  refine ⟨N, fun fuel hf ho s => ?_⟩
  rw [← steps_exact hx hok s]
  refine ⟨fun c hc => ?_, fun hc => ?_⟩
  · obtain ⟨s', h1, h2⟩ := Option.map_eq_some_iff.1 hc
    obtain ⟨t, ctx, g1, g2, g3⟩ := (hN fuel hf ho s).1 s' h1
    exact ⟨t, ctx, g1, g2, by rw [g3, h2]⟩
  · exact (hN fuel hf ho s).2 (Option.map_eq_none_iff.1 hc)

/-- **C100**, `simple_stack_based_math`: for every script of words, every state of the machine and both kinds of builds the
parser does exactly what `calcRun` says: it reads everything and ends with the stack, register, error code and output
computed there, or it panics where `calcRun` has no result. -/
theorem C100_simple {ho0 : HashOrder} {fuel0 : Nat} {cc : CharClass} {checked : Bool} {P : Parser SInstr}
    (h : Parser.newFromText ho0 fuel0 cc (simpleStackVm checked) Examples.simpleMathText = .ok P) {toks : List Token}
    (hne : toks ≠ []) (hok : ∀ t ∈ toks, t.Ok) :
    ∃ N, ∀ fuel, N ≤ fuel → ∀ (ho : HashOrder) (s : SState),
      (∀ c, calcRun (unsigned checked) ⟨s.stack.map Int.ofNat, s.reg, s.error, s.out.map Int.ofNat⟩ toks = some c →
        ∃ t ctx, Parser.parse ho fuel (simpleStackVm checked) P (scriptText toks) s = (.ok t, ctx) ∧ ctx.proc.rest = [] ∧
          (⟨ctx.state.stack.map Int.ofNat, ctx.state.reg, ctx.state.error, ctx.state.out.map Int.ofNat⟩ : Calc) = c) ∧
      (calcRun (unsigned checked) ⟨s.stack.map Int.ofNat, s.reg, s.error, s.out.map Int.ofNat⟩ toks = none →
        (Parser.parse ho fuel (simpleStackVm checked) P (scriptText toks) s).1 = .panic) :=
  (Examples.text_isCalc (Examples.simple_text_ok cc checked) (Examples.simple_text cc checked) h).total calcSIns_plain
    (simpleStackVm_treePreserving checked) (simple_local checked) (obs := SState.observed)
    (fun s _ ht => simple_step_exact checked s ht) hne hok

/-- **C100**, `stack_based_math` and `rust_defined_rules`: the same with `isize` words. -/
theorem C100_stack {ho0 : HashOrder} {fuel0 : Nat} {cc : CharClass} {checked : Bool} {P : Parser Instr}
    (h : Parser.newFromText ho0 fuel0 cc (stackVm cc checked) Examples.mathText = .ok P ∨
      Parser.newFromParserData ho0 fuel0 Examples.rustData.1 Examples.rustData.2 = .ok P) {toks : List Token}
    (hne : toks ≠ []) (hok : ∀ t ∈ toks, t.Ok) :
    ∃ N, ∀ fuel, N ≤ fuel → ∀ (ho : HashOrder) (s : VState),
      (∀ c, calcRun (signed checked) ⟨s.stack, s.reg, s.error, s.out⟩ toks = some c →
        ∃ t ctx, Parser.parse ho fuel (stackVm cc checked) P (scriptText toks) s = (.ok t, ctx) ∧ ctx.proc.rest = [] ∧
          (⟨ctx.state.stack, ctx.state.reg, ctx.state.error, ctx.state.out⟩ : Calc) = c) ∧
      (calcRun (signed checked) ⟨s.stack, s.reg, s.error, s.out⟩ toks = none →
        (Parser.parse ho fuel (stackVm cc checked) P (scriptText toks) s).1 = .panic) :=
  (stackExample_isCalc h).total calcIns_plain
    (stackVm_treePreserving cc checked) (stack_local cc checked) (obs := VState.observed)
    (fun s _ ht => stack_step_exact checked s ht) hne hok

/-- Digit strings of at most `2 ^ 32` digits: without overflow checks the value pushed is the decimal value modulo `2 ^ 64`. -/
theorem C100_release_numbers {ds : List (Fin 10)} (h : ds.length ≤ 2 ^ 32) :
    (unsigned false).number ds = some ((decimal ds % 2 ^ 64 : Nat) : Int) ∧
    (signed false).number ds = some (signedWord (decimal ds)) := by
  simp only [unsigned, signed, Bool.false_eq_true, if_false, weighted_decimal h, and_self]

/-- **C52**, exactly when StackVm with overflow checks panics on a number: more than 20 digits, or the last 19 digits do not
fit `isize`, or 20 digits of which the first is 2 or more. -/
theorem C52_number_stack_panics {ho0 : HashOrder} {fuel0 : Nat} {cc : CharClass} {P : Parser Instr}
    (h : Parser.newFromText ho0 fuel0 cc (stackVm cc true) Examples.mathText = .ok P ∨
      Parser.newFromParserData ho0 fuel0 Examples.rustData.1 Examples.rustData.2 = .ok P) {ds : List (Fin 10)}
    (hne : ds ≠ []) :
    ∃ N, ∀ fuel, N ≤ fuel → ∀ (ho : HashOrder) (s : VState),
      ((Parser.parse ho fuel (stackVm cc true) P (ds.map figure) s).1 = .panic ↔
        20 < ds.length ∨ 2 ^ 63 ≤ decimal (ds.drop (ds.length - 19)) ∨ ds.length = 20 ∧ ds.head? ≠ some 0 ∧ ds.head? ≠ some 1) := by
  obtain ⟨N, hN⟩ := C100_stack (checked := true) h (toks := [.num ds]) (by simp) (only_num hne)
  refine ⟨N, fun fuel hf ho s => ?_⟩
  obtain ⟨h1, h2⟩ := hN fuel hf ho s
  simp only [calcRun, calcStep] at h1 h2
  cases hv : (signed true).number ds with
  | none =>
    rw [hv] at h2
    refine ⟨fun _ => ?_, fun _ => h2 rfl⟩
    simp only [signed, if_true] at hv
    split at hv
    · next hc => exact hc.elim .inl (fun hc => .inr (.inl hc))
    · split at hv
      · cases hv
      · next hn =>
        split at hv
        · next hc => exact .inr (.inr ⟨hc.1, hc.2, fun he => hn ⟨hc.1, he⟩⟩)
        · cases hv
  | some v =>
    rw [hv] at h1
    obtain ⟨t, ctx, g, -⟩ := h1 _ rfl
    refine ⟨fun hp => ?_, fun hp => ?_⟩
    · change (Parser.parse ho fuel (stackVm cc true) P (scriptText [.num ds]) s).1 = .panic at hp
      rw [g] at hp
      cases hp
    · exfalso
      simp only [signed, if_true] at hv
      split at hv
      · cases hv
      · next hc =>
        split at hv
        · next hn =>
          rcases hp with hp | hp | hp
          · exact hc (.inl hp)
          · exact hc (.inr hp)
          · exact hp.2.2 hn.2
        · split at hv
          · cases hv
          · next hn =>
            rcases hp with hp | hp | hp
            · exact hc (.inl hp)
            · exact hc (.inr hp)
            · exact hn ⟨hp.1, hp.2.1⟩

/-- Scripts whose behaviour C100 settles: a missing operand loses the other one, `print` on an empty stack repeats the last
operand, a number of several digits changes what such a `print` shows, too big a sum panics or wraps. -/
example :
    calcRun (unsigned true) ⟨[], 0, 0, []⟩ [.num [7], .add, .print] = some ⟨[], 7, 1, [7]⟩ ∧
    calcRun (unsigned true) ⟨[], 0, 0, []⟩ [.num [1, 2, 3], .print, .num [4, 5], .sub, .print, .num [1, 0, 0]] =
      some ⟨[100], 3, 1, [123, 45]⟩ ∧
    calcRun (signed true) ⟨[2 ^ 63 - 1], 0, 0, []⟩ [.num [1], .add] = none ∧
    calcRun (signed false) ⟨[2 ^ 63 - 1], 0, 0, []⟩ [.num [1], .add] = some ⟨[-(2 ^ 63)], 1, 0, []⟩ ∧
    calcRun (unsigned false) ⟨[], 0, 0, []⟩ [.num [1], .num [2], .sub, .print] = some ⟨[], 2 ^ 64 - 1, 0, [2 ^ 64 - 1]⟩ ∧
    scriptText [.num [7], .add, .print] = c% "7 + print" := by
  refine ⟨by decide +kernel, by decide +kernel, by decide +kernel, by decide +kernel, by decide +kernel, by decide +kernel⟩

end HPP
