import Verif.Spec.Postfix
import Verif.Props.CalcTotal
/-
C106: the calculators evaluate arithmetic expressions written in reverse Polish notation.
-/
namespace HPP
open Spec CalcShape

theorem Spec.Arith.Digits.ok {n : Nat} {e : Arith} (h : e.Digits n) : ∀ t ∈ e.words, t.Ok := by
  induction e with
  | num ds => intro t ht; cases List.mem_singleton.1 ht; exact h.1
  | plus a b iha ihb =>
    intro t ht
    simp only [Arith.words, List.mem_append, List.mem_singleton] at ht
    rcases ht with (ht | ht) | rfl
    · exact iha h.1 t ht
    · exact ihb h.2 t ht
    · trivial
  | minus a b iha ihb =>
    intro t ht
    simp only [Arith.words, List.mem_append, List.mem_singleton] at ht
    rcases ht with (ht | ht) | rfl
    · exact iha h.1 t ht
    · exact ihb h.2 t ht
    · trivial

theorem Spec.Arith.Digits.le {n : Nat} {e : Arith} (h : e.Digits n) : ∀ t ∈ e.words, t.digits ≤ n := by
  induction e with
  | num ds => intro t ht; cases List.mem_singleton.1 ht; exact h.2
  | plus a b iha ihb =>
    intro t ht
    simp only [Arith.words, List.mem_append, List.mem_singleton] at ht
    rcases ht with (ht | ht) | rfl
    · exact iha h.1 t ht
    · exact ihb h.2 t ht
    · exact Nat.zero_le _
  | minus a b iha ihb =>
    intro t ht
    simp only [Arith.words, List.mem_append, List.mem_singleton] at ht
    rcases ht with (ht | ht) | rfl
    · exact iha h.1 t ht
    · exact ihb h.2 t ht
    · exact Nat.zero_le _

theorem mem_printing {es : List Arith} {t : Token} (h : t ∈ printing es) : t = .print ∨ ∃ e ∈ es, t ∈ e.words := by
  induction es with
  | nil => cases h
  | cons e es ih =>
    rcases List.mem_append.1 h with h | h
    · exact .inr ⟨e, .head _, h⟩
    · rcases List.mem_cons.1 h with h | h
      · exact .inl h
      · rcases ih h with h | ⟨e', h1, h2⟩
        · exact .inl h
        · exact .inr ⟨e', .tail _ h1, h2⟩

theorem printing_ne {es : List Arith} (h : es ≠ []) : printing es ≠ [] := by
  cases es with
  | nil => exact absurd rfl h
  | cons e es => simp [printing]

theorem printing_ok {n : Nat} {es : List Arith} (h : ∀ e ∈ es, e.Digits n) : ∀ t ∈ printing es, t.Ok := by
  intro t ht
  rcases mem_printing ht with rfl | ⟨e, h1, h2⟩
  · trivial
  · exact (h e h1).ok t h2

theorem printing_digits {n : Nat} {es : List Arith} (h : ∀ e ∈ es, e.Digits n) : ∀ t ∈ printing es, t.digits ≤ n := by
  intro t ht
  rcases mem_printing ht with rfl | ⟨e, h1, h2⟩
  · exact Nat.zero_le _
  · exact (h e h1).le t h2

/-! ### Exact values -/

theorem rpn_words {lo hi : Int} {e : Arith} (h : e.Fits lo hi) : ∀ (c : Rpn) (ts : List Token),
    rpn lo hi c (e.words ++ ts) = rpn lo hi { c with stack := e.value :: c.stack } ts := by
  induction e with
  | num ds => intro c ts; simp only [Arith.words, List.singleton_append, rpn, rpnStep, Arith.value]; rw [if_pos (show _ ∧ _ from h)]
  | plus a b iha ihb =>
    intro c ts
    simp only [Arith.words, List.append_assoc]
    rw [iha h.1, ihb h.2.1]
    simp only [List.singleton_append, rpn, rpnStep, if_pos h.2.2, Arith.value]
  | minus a b iha ihb =>
    intro c ts
    simp only [Arith.words, List.append_assoc]
    rw [iha h.1, ihb h.2.1]
    simp only [List.singleton_append, rpn, rpnStep, if_pos h.2.2, Arith.value]

theorem rpn_printing {lo hi : Int} : ∀ {es : List Arith}, (∀ e ∈ es, e.Fits lo hi) → ∀ c : Rpn,
    rpn lo hi c (printing es) = some ⟨c.stack, c.out ++ es.map Arith.value⟩ := by
  intro es
  induction es with
  | nil => intro _ c; simp [printing, rpn]
  | cons e es ih =>
    intro h c
    rw [printing, rpn_words (h e (.head _)), rpn]
    simp only [rpnStep]
    rw [ih fun e' he => h e' (.tail _ he)]
    simp

/-- **C106**, `simple_stack_based_math`: expressions written in reverse Polish notation and followed by `print` are evaluated:
whatever is on the stack, exactly their values are printed and the stack is as before, in all builds, if the values of all
parts fit the machine word and (in builds with overflow checks) no number has more than 20 digits. -/
theorem C106_simple {ho0 : HashOrder} {fuel0 : Nat} {cc : CharClass} {checked : Bool} {P : Parser SInstr}
    (h : Parser.newFromText ho0 fuel0 cc (simpleStackVm checked) Examples.simpleMathText = .ok P) {es : List Arith} (hne : es ≠ [])
    (hd : ∀ e ∈ es, e.Digits 20) (hf : ∀ e ∈ es, e.Fits 0 (2 ^ 64)) (s : SState) :
    ∃ N, ∀ fuel, N ≤ fuel → ∀ ho : HashOrder,
      ∃ t ctx, Parser.parse ho fuel (simpleStackVm checked) P (scriptText (printing es)) s = (.ok t, ctx) ∧ ctx.proc.rest = [] ∧
        ctx.state.stack = s.stack ∧ ctx.state.out.map Int.ofNat = s.out.map Int.ofNat ++ es.map Arith.value ∧
        ctx.state.error = s.error := by
  obtain ⟨N, hN⟩ := C53_simple h (printing_ne hne) (printing_ok hd) (fun _ => printing_digits hd) (rpn_printing hf _)
  refine ⟨N, fun fuel hfu ho => ?_⟩
  obtain ⟨t, ctx, g1, g2, g3, g4, g5⟩ := hN fuel hfu ho
  refine ⟨t, ctx, g1, g2, ?_, g4, g5⟩
  exact (List.map_inj_right (fun _ _ h => Int.ofNat.inj h)).1 g3

/-- **C106**, `stack_based_math` and `rust_defined_rules`: the same with `isize` values. -/
theorem C106_stack {ho0 : HashOrder} {fuel0 : Nat} {cc : CharClass} {checked : Bool} {P : Parser Instr}
    (h : Parser.newFromText ho0 fuel0 cc (stackVm cc checked) Examples.mathText = .ok P ∨
      Parser.newFromParserData ho0 fuel0 Examples.rustData.1 Examples.rustData.2 = .ok P) {es : List Arith} (hne : es ≠ [])
    (hd : ∀ e ∈ es, e.Digits 20) (hf : ∀ e ∈ es, e.Fits (-(2 ^ 63)) (2 ^ 63)) (s : VState) :
    ∃ N, ∀ fuel, N ≤ fuel → ∀ ho : HashOrder,
      ∃ t ctx, Parser.parse ho fuel (stackVm cc checked) P (scriptText (printing es)) s = (.ok t, ctx) ∧ ctx.proc.rest = [] ∧
        ctx.state.stack = s.stack ∧ ctx.state.out = s.out ++ es.map Arith.value ∧ ctx.state.error = s.error := by
  have hr : rpn (-(2 ^ 63)) (2 ^ 63) ⟨s.stack, s.out⟩ (printing es) = some ⟨s.stack, s.out ++ es.map Arith.value⟩ := rpn_printing hf _
  rcases h with h | h
  · exact C53_stack h (printing_ne hne) (printing_ok hd) (fun _ => printing_digits hd) hr
  · exact C53_rust h (printing_ne hne) (printing_ok hd) (fun _ => printing_digits hd) hr

/-- **C106**, on a new machine (`create_new_state`): afterwards the stack is empty, exactly the values were printed, and the
error code is 0. -/
theorem C106_new_machine {ho0 : HashOrder} {fuel0 : Nat} {cc : CharClass} {checked : Bool} {es : List Arith} (hne : es ≠ [])
    (hd : ∀ e ∈ es, e.Digits 20) :
    (∀ P, Parser.newFromText ho0 fuel0 cc (simpleStackVm checked) Examples.simpleMathText = .ok P → (∀ e ∈ es, e.Fits 0 (2 ^ 64)) →
      ∃ N, ∀ fuel, N ≤ fuel → ∀ ho : HashOrder, ∃ t ctx,
        Parser.parse ho fuel (simpleStackVm checked) P (scriptText (printing es)) (simpleStackVm checked).init = (.ok t, ctx) ∧
        ctx.state.stack = [] ∧ ctx.state.out.map Int.ofNat = es.map Arith.value ∧ ctx.state.error = 0) ∧
    (∀ P, (Parser.newFromText ho0 fuel0 cc (stackVm cc checked) Examples.mathText = .ok P ∨
        Parser.newFromParserData ho0 fuel0 Examples.rustData.1 Examples.rustData.2 = .ok P) → (∀ e ∈ es, e.Fits (-(2 ^ 63)) (2 ^ 63)) →
      ∃ N, ∀ fuel, N ≤ fuel → ∀ ho : HashOrder, ∃ t ctx,
        Parser.parse ho fuel (stackVm cc checked) P (scriptText (printing es)) (stackVm cc checked).init = (.ok t, ctx) ∧
        ctx.state.stack = [] ∧ ctx.state.out = es.map Arith.value ∧ ctx.state.error = 0) := by
  constructor
  · intro P h hf
    obtain ⟨N, hN⟩ := C106_simple h hne hd hf (simpleStackVm checked).init
    refine ⟨N, fun fuel hfu ho => ?_⟩
    obtain ⟨t, ctx, g1, -, g3, g4, g5⟩ := hN fuel hfu ho
    exact ⟨t, ctx, g1, g3, g4, g5⟩
  · intro P h hf
    obtain ⟨N, hN⟩ := C106_stack h hne hd hf (stackVm cc checked).init
    refine ⟨N, fun fuel hfu ho => ?_⟩
    obtain ⟨t, ctx, g1, -, g3, g4, g5⟩ := hN fuel hfu ho
    exact ⟨t, ctx, g1, g3, g4, g5⟩

/-! ### Values modulo the machine word, and panics -/

/-- The value of an expression as a calculator computes it; `none`: panic. -/
def arithEval (ar : Arithmetic) : Arith → Option Int
  | .num ds => ar.number ds
  | .plus a b => (arithEval ar a).bind fun x => (arithEval ar b).bind fun y => ar.result (x + y)
  | .minus a b => (arithEval ar a).bind fun x => (arithEval ar b).bind fun y => ar.result (x - y)

theorem calcRun_words (ar : Arithmetic) (e : Arith) : ∀ (c : Calc), ∃ l : Int, ∀ ts : List Token,
    calcRun ar c (e.words ++ ts) =
      (arithEval ar e).bind fun v => calcRun ar { c with stack := v :: c.stack, last := l } ts := by
  induction e with
  | num ds =>
    intro c
    refine ⟨if ds.length = 1 then c.last else ar.count ds.length, fun ts => ?_⟩
    simp only [Arith.words, List.singleton_append, calcRun, calcStep, arithEval]
    cases ar.number ds <;> rfl
  | plus a b iha ihb =>
    intro c
    obtain ⟨l1, h1⟩ := iha c
    cases ha : arithEval ar a with
    | none => exact ⟨0, fun ts => by simp only [Arith.words, List.append_assoc]; rw [h1]; simp only [arithEval, ha, Option.bind_none]⟩
    | some x =>
      obtain ⟨l2, h2⟩ := ihb { c with stack := x :: c.stack, last := l1 }
      cases hb : arithEval ar b with
      | none =>
        refine ⟨0, fun ts => ?_⟩
        simp only [Arith.words, List.append_assoc]
        rw [h1, ha, Option.bind_some, h2, hb]
        simp only [arithEval, ha, hb, Option.bind_none, Option.bind_some]
      | some y =>
        refine ⟨y, fun ts => ?_⟩
        simp only [Arith.words, List.append_assoc]
        rw [h1, ha, Option.bind_some, h2, hb, Option.bind_some]
        simp only [arithEval, ha, hb, Option.bind_some, List.singleton_append, calcRun, calcStep]
        cases ar.result (x + y) <;> rfl
  | minus a b iha ihb =>
    intro c
    obtain ⟨l1, h1⟩ := iha c
    cases ha : arithEval ar a with
    | none => exact ⟨0, fun ts => by simp only [Arith.words, List.append_assoc]; rw [h1]; simp only [arithEval, ha, Option.bind_none]⟩
    | some x =>
      obtain ⟨l2, h2⟩ := ihb { c with stack := x :: c.stack, last := l1 }
      cases hb : arithEval ar b with
      | none =>
        refine ⟨0, fun ts => ?_⟩
        simp only [Arith.words, List.append_assoc]
        rw [h1, ha, Option.bind_some, h2, hb]
        simp only [arithEval, ha, hb, Option.bind_none, Option.bind_some]
      | some y =>
        refine ⟨y, fun ts => ?_⟩
        simp only [Arith.words, List.append_assoc]
        rw [h1, ha, Option.bind_some, h2, hb, Option.bind_some]
        simp only [arithEval, ha, hb, Option.bind_some, List.singleton_append, calcRun, calcStep]
        cases ar.result (x - y) <;> rfl

/-- If every expression has a value, these are printed. -/
theorem calcRun_printing (ar : Arithmetic) (f : Arith → Int) : ∀ {es : List Arith}, (∀ e ∈ es, arithEval ar e = some (f e)) →
    ∀ c : Calc, ∃ l, calcRun ar c (printing es) = some ⟨c.stack, l, c.error, c.out ++ es.map f⟩ := by
  intro es
  induction es with
  | nil => intro _ c; exact ⟨c.last, by simp [printing, calcRun]⟩
  | cons e es ih =>
    intro h c
    obtain ⟨l, h1⟩ := calcRun_words ar e c
    obtain ⟨l', h2⟩ := ih (fun e' he => h e' (.tail _ he)) ⟨c.stack, f e, c.error, c.out ++ [f e]⟩
    refine ⟨l', ?_⟩
    rw [printing, h1, h e (.head _), Option.bind_some, calcRun]
    simp only [calcStep]
    rw [h2]
    simp

/-- If some expression has none, there is a panic. -/
theorem calcRun_printing_none (ar : Arithmetic) : ∀ {es : List Arith}, (∃ e ∈ es, arithEval ar e = none) →
    ∀ c : Calc, calcRun ar c (printing es) = none := by
  intro es
  induction es with
  | nil => rintro ⟨e, he, -⟩; cases he
  | cons e es ih =>
    intro h c
    obtain ⟨l, h1⟩ := calcRun_words ar e c
    rw [printing, h1]
    cases hv : arithEval ar e with
    | none => rfl
    | some v =>
      obtain ⟨e', he', hn⟩ := h
      rcases List.mem_cons.1 he' with rfl | he'
      · rw [hv] at hn; cases hn
      · rw [Option.bind_some, calcRun]
        simp only [calcStep]
        exact ih ⟨e', he', hn⟩ _

theorem wordResult_release {lo hi : Int} (n : Int) : wordResult lo hi false n = some (lo + (n - lo) % (hi - lo)) := by
  rw [wordResult]
  split
  · next h => rw [Int.emod_eq_of_lt (by omega) (by omega), Option.some.injEq]; omega
  · rfl

theorem arithEval_unsigned_release {e : Arith} (hd : e.Digits (2 ^ 32)) : arithEval (unsigned false) e = some (e.value % 2 ^ 64) := by
  induction e with
  | num ds => rw [arithEval, (C100_release_numbers hd.2).1, Arith.value, Int.natCast_emod]; rfl
  | plus a b iha ihb =>
    rw [arithEval, iha hd.1, ihb hd.2, Option.bind_some, Option.bind_some, Arith.value]
    refine (wordResult_release (lo := 0) (hi := 2 ^ 64) _).trans ?_
    generalize a.value = x; generalize b.value = y
    rw [Option.some.injEq]; omega
  | minus a b iha ihb =>
    rw [arithEval, iha hd.1, ihb hd.2, Option.bind_some, Option.bind_some, Arith.value]
    refine (wordResult_release (lo := 0) (hi := 2 ^ 64) _).trans ?_
    generalize a.value = x; generalize b.value = y
    rw [Option.some.injEq]; omega

theorem arithEval_signed_release {e : Arith} (hd : e.Digits (2 ^ 32)) : arithEval (signed false) e = some (signedWord e.value) := by
  induction e with
  | num ds => rw [arithEval, (C100_release_numbers hd.2).2, Arith.value]
  | plus a b iha ihb =>
    rw [arithEval, iha hd.1, ihb hd.2, Option.bind_some, Option.bind_some, Arith.value]
    refine (wordResult_release (lo := -(2 ^ 63)) (hi := 2 ^ 63) _).trans ?_
    generalize a.value = x; generalize b.value = y
    rw [Option.some.injEq, show (2 : Int) ^ 63 - -(2 ^ 63) = 2 ^ 64 by decide]; simp only [signedWord]; omega
  | minus a b iha ihb =>
    rw [arithEval, iha hd.1, ihb hd.2, Option.bind_some, Option.bind_some, Arith.value]
    refine (wordResult_release (lo := -(2 ^ 63)) (hi := 2 ^ 63) _).trans ?_
    generalize a.value = x; generalize b.value = y
    rw [Option.some.injEq, show (2 : Int) ^ 63 - -(2 ^ 63) = 2 ^ 64 by decide]; simp only [signedWord]; omega

/-- **C106**, builds without overflow checks: whatever happens in between, exactly the values modulo `2 ^ 64` are printed (by
`stack_based_math` and `rust_defined_rules` read as two's complement words). -/
theorem C106_release {ho0 : HashOrder} {fuel0 : Nat} {cc : CharClass} {es : List Arith} (hne : es ≠ [])
    (hd : ∀ e ∈ es, e.Digits (2 ^ 32)) :
    (∀ P, Parser.newFromText ho0 fuel0 cc (simpleStackVm false) Examples.simpleMathText = .ok P →
      ∃ N, ∀ fuel, N ≤ fuel → ∀ (ho : HashOrder) (s : SState),
        ∃ t ctx, Parser.parse ho fuel (simpleStackVm false) P (scriptText (printing es)) s = (.ok t, ctx) ∧ ctx.proc.rest = [] ∧
          ctx.state.stack = s.stack ∧ ctx.state.out.map Int.ofNat = s.out.map Int.ofNat ++ es.map (fun e => e.value % 2 ^ 64) ∧
          ctx.state.error = s.error) ∧
    (∀ P, (Parser.newFromText ho0 fuel0 cc (stackVm cc false) Examples.mathText = .ok P ∨
        Parser.newFromParserData ho0 fuel0 Examples.rustData.1 Examples.rustData.2 = .ok P) →
      ∃ N, ∀ fuel, N ≤ fuel → ∀ (ho : HashOrder) (s : VState),
        ∃ t ctx, Parser.parse ho fuel (stackVm cc false) P (scriptText (printing es)) s = (.ok t, ctx) ∧ ctx.proc.rest = [] ∧
          ctx.state.stack = s.stack ∧ ctx.state.out = s.out ++ es.map (fun e => signedWord e.value) ∧
          ctx.state.error = s.error) := by
  constructor
  · intro P h
    obtain ⟨N, hN⟩ := C100_simple h (printing_ne hne) (printing_ok hd)
    refine ⟨N, fun fuel hf ho s => ?_⟩
    obtain ⟨l, h1⟩ := calcRun_printing (unsigned false) (fun e => e.value % 2 ^ 64) (fun e he => arithEval_unsigned_release (hd e he))
      ⟨s.stack.map Int.ofNat, s.reg, s.error, s.out.map Int.ofNat⟩
    obtain ⟨t, ctx, g1, g2, g3⟩ := (hN fuel hf ho s).1 _ h1
    injection g3 with g3 g4 g5 g6
    exact ⟨t, ctx, g1, g2, (List.map_inj_right (fun _ _ h => Int.ofNat.inj h)).1 g3, g6, g5⟩
  · intro P h
    obtain ⟨N, hN⟩ := C100_stack h (printing_ne hne) (printing_ok hd)
    refine ⟨N, fun fuel hf ho s => ?_⟩
    obtain ⟨l, h1⟩ := calcRun_printing (signed false) (fun e => signedWord e.value) (fun e he => arithEval_signed_release (hd e he))
      ⟨s.stack, s.reg, s.error, s.out⟩
    obtain ⟨t, ctx, g1, g2, g3⟩ := (hN fuel hf ho s).1 _ h1
    injection g3 with g3 g4 g5 g6
    exact ⟨t, ctx, g1, g2, g3, g6, g5⟩

theorem arithEval_checked {ar : Arithmetic} {lo hi : Int} {n : Nat} (hr : ar.result = wordResult lo hi true)
    (hn : ∀ ds : List (Fin 10), ds ≠ [] → ds.length ≤ n → ar.number ds = if lo ≤ decimal ds ∧ (decimal ds : Int) < hi then some (decimal ds : Int) else none)
    {e : Arith} (hd : e.Digits n) :
    (e.Fits lo hi → arithEval ar e = some e.value) ∧ (¬ e.Fits lo hi → arithEval ar e = none) := by
  induction e with
  | num ds =>
    rw [arithEval, hn ds hd.1 hd.2]
    exact ⟨fun h => if_pos h, fun h => if_neg h⟩
  | plus a b iha ihb =>
    obtain ⟨a1, a2⟩ := iha hd.1
    obtain ⟨b1, b2⟩ := ihb hd.2
    refine ⟨fun h => ?_, fun h => ?_⟩
    · rw [arithEval, a1 h.1, b1 h.2.1, Option.bind_some, Option.bind_some, hr, wordResult, if_pos h.2.2, Arith.value]
    · by_cases ha : a.Fits lo hi
      · by_cases hb : b.Fits lo hi
        · rw [arithEval, a1 ha, b1 hb, Option.bind_some, Option.bind_some, hr, wordResult, if_neg (fun hc => h ⟨ha, hb, hc⟩), if_pos rfl]
        · rw [arithEval, a1 ha, b2 hb]; rfl
      · rw [arithEval, a2 ha]; rfl
  | minus a b iha ihb =>
    obtain ⟨a1, a2⟩ := iha hd.1
    obtain ⟨b1, b2⟩ := ihb hd.2
    refine ⟨fun h => ?_, fun h => ?_⟩
    · rw [arithEval, a1 h.1, b1 h.2.1, Option.bind_some, Option.bind_some, hr, wordResult, if_pos h.2.2, Arith.value]
    · by_cases ha : a.Fits lo hi
      · by_cases hb : b.Fits lo hi
        · rw [arithEval, a1 ha, b1 hb, Option.bind_some, Option.bind_some, hr, wordResult, if_neg (fun hc => h ⟨ha, hb, hc⟩), if_pos rfl]
        · rw [arithEval, a1 ha, b2 hb]; rfl
      · rw [arithEval, a2 ha]; rfl

/-- **C106**, builds with overflow checks: if the value of some part of some expression does not fit the machine word, the
calculators panic (numbers of at most 20, for `isize` 19, digits). -/
theorem C106_checked_panics {ho0 : HashOrder} {fuel0 : Nat} {cc : CharClass} {es : List Arith} :
    ((∀ e ∈ es, e.Digits 20) → (∃ e ∈ es, ¬ e.Fits 0 (2 ^ 64)) →
      ∀ P, Parser.newFromText ho0 fuel0 cc (simpleStackVm true) Examples.simpleMathText = .ok P →
      ∃ N, ∀ fuel, N ≤ fuel → ∀ (ho : HashOrder) (s : SState),
        (Parser.parse ho fuel (simpleStackVm true) P (scriptText (printing es)) s).1 = .panic) ∧
    ((∀ e ∈ es, e.Digits 19) → (∃ e ∈ es, ¬ e.Fits (-(2 ^ 63)) (2 ^ 63)) →
      ∀ P, (Parser.newFromText ho0 fuel0 cc (stackVm cc true) Examples.mathText = .ok P ∨
        Parser.newFromParserData ho0 fuel0 Examples.rustData.1 Examples.rustData.2 = .ok P) →
      ∃ N, ∀ fuel, N ≤ fuel → ∀ (ho : HashOrder) (s : VState),
        (Parser.parse ho fuel (stackVm cc true) P (scriptText (printing es)) s).1 = .panic) := by
  constructor
  · rintro hd ⟨e, he, hf⟩ P h
    have hne : es ≠ [] := by rintro rfl; cases he
    obtain ⟨N, hN⟩ := C100_simple h (printing_ne hne) (printing_ok hd)
    refine ⟨N, fun fuel hfu ho s => (hN fuel hfu ho s).2 (calcRun_printing_none _ ⟨e, he, ?_⟩ _)⟩
    refine (arithEval_checked (n := 20) rfl (fun ds _ hl => ?_) (hd e he)).2 hf
    simp only [unsigned, if_true]
    generalize decimal ds = v
    by_cases hv : v < 2 ^ 64
    · rw [if_pos ⟨hl, hv⟩, if_pos ⟨by omega, by omega⟩]
    · rw [if_neg (fun hc => hv hc.2), if_neg (by omega)]
  · rintro hd ⟨e, he, hf⟩ P h
    have hne : es ≠ [] := by rintro rfl; cases he
    obtain ⟨N, hN⟩ := C100_stack h (printing_ne hne) (printing_ok hd)
    refine ⟨N, fun fuel hfu ho s => (hN fuel hfu ho s).2 (calcRun_printing_none _ ⟨e, he, ?_⟩ _)⟩
    refine (arithEval_checked (n := 19) rfl (fun ds _ hl => ?_) (hd e he)).2 hf
    have h0 : ds.length - 19 = 0 := by omega
    simp only [signed, if_true, h0, List.drop_zero]
    rw [if_neg (show ¬ (ds.length = 20 ∧ ds.head? = some 1) by omega), if_neg (show ¬ (ds.length = 20 ∧ ds.head? ≠ some 0) by omega)]
    generalize decimal ds = v
    by_cases hv : v < 2 ^ 63
    · rw [if_neg (by omega), if_pos ⟨by omega, by omega⟩]
    · rw [if_pos (by omega), if_neg (by omega)]

/-- The script of the example programs: `((1 + 2) + 3) - 4`, which is 2; and an expression that overflows in between. -/
example :
    scriptText (printing [.minus (.plus (.plus (.num [1]) (.num [2])) (.num [3])) (.num [4])]) = c% "1 2 + 3 + 4 - print" ∧
    Arith.value (.minus (.plus (.plus (.num [1]) (.num [2])) (.num [3])) (.num [4])) = 2 ∧
    Arith.Fits 0 (2 ^ 64) (.minus (.plus (.plus (.num [1]) (.num [2])) (.num [3])) (.num [4])) ∧
    Arith.Digits 20 (.minus (.plus (.plus (.num [1]) (.num [2])) (.num [3])) (.num [4])) ∧
    ¬ Arith.Fits 0 (2 ^ 64) (.plus (.minus (.num [1]) (.num [2])) (.num [3])) ∧
    Arith.value (.plus (.minus (.num [1]) (.num [2])) (.num [3])) = 2 := by
  refine ⟨by decide +kernel, by decide +kernel, ?_, ?_, ?_, by decide +kernel⟩
  · simp [Arith.Fits, Arith.value, decimal]
  · simp [Arith.Digits]
  · simp [Arith.Fits, Arith.value, decimal]

end HPP
