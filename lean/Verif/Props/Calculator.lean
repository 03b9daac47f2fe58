import Verif.Proofs.CalcData
/-
Properties C52, C53 and C56: the calculator examples compute reverse Polish notation.
-/
namespace HPP
open Spec CalcShape

/-! ### C53 -/

/-- **C53**, the example parsers exist: building them succeeds for every hash order. -/
theorem C53_examples_built (ho : HashOrder) (cc : CharClass) (checked : Bool) :
    (∃ fuel P, Parser.newFromText ho fuel cc (simpleStackVm checked) Examples.simpleMathText = .ok P) ∧
    (∃ fuel P, Parser.newFromText ho fuel cc (stackVm cc checked) Examples.mathText = .ok P) ∧
    (∃ fuel P, Parser.newFromParserData ho fuel Examples.rustData.1 Examples.rustData.2 = .ok P) :=
  ⟨Examples.text_built (Examples.simple_text_ok cc checked) (Examples.simple_text cc checked) ho,
    Examples.text_built (Examples.stack_text_ok cc checked) (Examples.stack_text cc checked) ho, Examples.rust_built ho⟩

theorem IsCalc.simple_computes {P : Parser SInstr} (h : IsCalc calcSIns P) {checked : Bool} {toks : List Token} (hne : toks ≠ [])
    (hok : ∀ t ∈ toks, t.Ok) (hd : checked = true → ∀ t ∈ toks, t.digits ≤ 20) {s : SState} {c : Rpn}
    (hr : rpn 0 (2 ^ 64) ⟨s.stack.map Int.ofNat, s.out.map Int.ofNat⟩ toks = some c) :
    ∃ N, ∀ fuel, N ≤ fuel → ∀ ho : HashOrder,
      ∃ t ctx, Parser.parse ho fuel (simpleStackVm checked) P (scriptText toks) s = (.ok t, ctx) ∧ ctx.proc.rest = [] ∧
        ctx.state.stack.map Int.ofNat = c.stack ∧ ctx.state.out.map Int.ofNat = c.out ∧ ctx.state.error = s.error := by
  obtain ⟨N, hN⟩ := h.run calcSIns_plain (simpleStackVm_treePreserving checked) (simple_local checked) hne hok
  refine ⟨N, fun fuel hf ho => ?_⟩
  obtain ⟨s', h1, h2, h3⟩ := simple_steps_ok checked hok hd (s := s) hr
  obtain ⟨t, ctx, g1, g2, g3⟩ := (hN fuel hf ho s).1 s' h1
  exact ⟨t, ctx, g1, g2, by rw [g3, ← h2]; rfl, by rw [g3, ← h2]; rfl, by rw [g3, h3]⟩

theorem IsCalc.stack_computes {P : Parser Instr} (h : IsCalc calcIns P) {cc : CharClass} {checked : Bool} {toks : List Token}
    (hne : toks ≠ []) (hok : ∀ t ∈ toks, t.Ok) (hd : checked = true → ∀ t ∈ toks, t.digits ≤ 20) {s : VState} {c : Rpn}
    (hr : rpn (-(2 ^ 63)) (2 ^ 63) ⟨s.stack, s.out⟩ toks = some c) :
    ∃ N, ∀ fuel, N ≤ fuel → ∀ ho : HashOrder,
      ∃ t ctx, Parser.parse ho fuel (stackVm cc checked) P (scriptText toks) s = (.ok t, ctx) ∧ ctx.proc.rest = [] ∧
        ctx.state.stack = c.stack ∧ ctx.state.out = c.out ∧ ctx.state.error = s.error := by
  obtain ⟨N, hN⟩ := h.run calcIns_plain (stackVm_treePreserving cc checked) (stack_local cc checked) hne hok
  refine ⟨N, fun fuel hf ho => ?_⟩
  obtain ⟨s', h1, h2, h3⟩ := stack_steps_ok checked hok hd (s := s) hr
  obtain ⟨t, ctx, g1, g2, g3⟩ := (hN fuel hf ho s).1 s' h1
  exact ⟨t, ctx, g1, g2, by rw [g3, ← h2]; rfl, by rw [g3, ← h2]; rfl, by rw [g3, h3]⟩

/-- **C53**, `simple_stack_based_math`: for every script of words whose reverse Polish evaluation, starting from the
machine's stack, never misses an operand nor leaves `usize`, the parser reads everything, leaves exactly the evaluated stack,
prints exactly the evaluated output and sets no error.  In builds with overflow checks numbers must have at most 20 digits
(see `C52_long_digits_refuted`). -/
theorem C53_simple {ho0 : HashOrder} {fuel0 : Nat} {cc : CharClass} {checked : Bool} {P : Parser SInstr}
    (h : Parser.newFromText ho0 fuel0 cc (simpleStackVm checked) Examples.simpleMathText = .ok P) {toks : List Token}
    (hne : toks ≠ []) (hok : ∀ t ∈ toks, t.Ok) (hd : checked = true → ∀ t ∈ toks, t.digits ≤ 20) {s : SState} {c : Rpn}
    (hr : rpn 0 (2 ^ 64) ⟨s.stack.map Int.ofNat, s.out.map Int.ofNat⟩ toks = some c) :
    ∃ N, ∀ fuel, N ≤ fuel → ∀ ho : HashOrder,
      ∃ t ctx, Parser.parse ho fuel (simpleStackVm checked) P (scriptText toks) s = (.ok t, ctx) ∧ ctx.proc.rest = [] ∧
        ctx.state.stack.map Int.ofNat = c.stack ∧ ctx.state.out.map Int.ofNat = c.out ∧ ctx.state.error = s.error :=
  (Examples.text_isCalc (Examples.simple_text_ok cc checked) (Examples.simple_text cc checked) h).simple_computes hne hok hd hr

/-- **C53**, `stack_based_math`: the same with `isize` values. -/
theorem C53_stack {ho0 : HashOrder} {fuel0 : Nat} {cc : CharClass} {checked : Bool} {P : Parser Instr}
    (h : Parser.newFromText ho0 fuel0 cc (stackVm cc checked) Examples.mathText = .ok P) {toks : List Token}
    (hne : toks ≠ []) (hok : ∀ t ∈ toks, t.Ok) (hd : checked = true → ∀ t ∈ toks, t.digits ≤ 20) {s : VState} {c : Rpn}
    (hr : rpn (-(2 ^ 63)) (2 ^ 63) ⟨s.stack, s.out⟩ toks = some c) :
    ∃ N, ∀ fuel, N ≤ fuel → ∀ ho : HashOrder,
      ∃ t ctx, Parser.parse ho fuel (stackVm cc checked) P (scriptText toks) s = (.ok t, ctx) ∧ ctx.proc.rest = [] ∧
        ctx.state.stack = c.stack ∧ ctx.state.out = c.out ∧ ctx.state.error = s.error :=
  (Examples.text_isCalc (Examples.stack_text_ok cc checked) (Examples.stack_text cc checked) h).stack_computes hne hok hd hr

/-- **C53**, `rust_defined_rules`: the same for the grammar built in Rust. -/
theorem C53_rust {ho0 : HashOrder} {fuel0 : Nat} {cc : CharClass} {checked : Bool} {P : Parser Instr}
    (h : Parser.newFromParserData ho0 fuel0 Examples.rustData.1 Examples.rustData.2 = .ok P) {toks : List Token}
    (hne : toks ≠ []) (hok : ∀ t ∈ toks, t.Ok) (hd : checked = true → ∀ t ∈ toks, t.digits ≤ 20) {s : VState} {c : Rpn}
    (hr : rpn (-(2 ^ 63)) (2 ^ 63) ⟨s.stack, s.out⟩ toks = some c) :
    ∃ N, ∀ fuel, N ≤ fuel → ∀ ho : HashOrder,
      ∃ t ctx, Parser.parse ho fuel (stackVm cc checked) P (scriptText toks) s = (.ok t, ctx) ∧ ctx.proc.rest = [] ∧
        ctx.state.stack = c.stack ∧ ctx.state.out = c.out ∧ ctx.state.error = s.error :=
  (Examples.rust_isCalc h).stack_computes hne hok hd hr

/-- **C53**, nothing else is accepted: what the example parsers accept begins with a script of words. -/
theorem C53_only_scripts {ho0 : HashOrder} {fuel0 : Nat} {cc : CharClass} {checked : Bool} {ho : HashOrder} {fuel : Nat}
    {text : Str} :
    (∀ P, Parser.newFromText ho0 fuel0 cc (simpleStackVm checked) Examples.simpleMathText = .ok P → ∀ s t c,
      Parser.parse ho fuel (simpleStackVm checked) P text s = (.ok t, c) →
      ∃ toks, toks ≠ [] ∧ (∀ t ∈ toks, t.Ok) ∧ text = scriptText toks ++ c.proc.rest) ∧
    (∀ P, Parser.newFromText ho0 fuel0 cc (stackVm cc checked) Examples.mathText = .ok P → ∀ s t c,
      Parser.parse ho fuel (stackVm cc checked) P text s = (.ok t, c) →
      ∃ toks, toks ≠ [] ∧ (∀ t ∈ toks, t.Ok) ∧ text = scriptText toks ++ c.proc.rest) ∧
    (∀ P, Parser.newFromParserData ho0 fuel0 Examples.rustData.1 Examples.rustData.2 = .ok P → ∀ s t c,
      Parser.parse ho fuel (stackVm cc checked) P text s = (.ok t, c) →
      ∃ toks, toks ≠ [] ∧ (∀ t ∈ toks, t.Ok) ∧ text = scriptText toks ++ c.proc.rest) :=
  ⟨fun _ h _ _ _ hp =>
      (Examples.text_isCalc (Examples.simple_text_ok cc checked) (Examples.simple_text cc checked) h).only hp,
    fun _ h _ _ _ hp => (Examples.text_isCalc (Examples.stack_text_ok cc checked) (Examples.stack_text cc checked) h).only hp,
    fun _ h _ _ _ hp => (Examples.rust_isCalc h).only hp⟩

/-- **C53**, no wrong results: in builds with overflow checks, if `simple_stack_based_math` accepts a script of words and no
error code is set afterwards, the stack and the output are those of reverse Polish evaluation. -/
theorem C53_simple_sound {ho0 : HashOrder} {fuel0 : Nat} {cc : CharClass} {P : Parser SInstr}
    (h : Parser.newFromText ho0 fuel0 cc (simpleStackVm true) Examples.simpleMathText = .ok P) {toks : List Token}
    (hne : toks ≠ []) (hok : ∀ t ∈ toks, t.Ok) :
    ∃ N, ∀ fuel, N ≤ fuel → ∀ (ho : HashOrder) (s : SState) (t : Tree Str) (ctx : Ctx SState),
      Parser.parse ho fuel (simpleStackVm true) P (scriptText toks) s = (.ok t, ctx) → ctx.state.error = 0 →
      rpn 0 (2 ^ 64) ⟨s.stack.map Int.ofNat, s.out.map Int.ofNat⟩ toks =
        some ⟨ctx.state.stack.map Int.ofNat, ctx.state.out.map Int.ofNat⟩ := by
  have hc := Examples.text_isCalc (Examples.simple_text_ok cc true) (Examples.simple_text cc true) h
  obtain ⟨N, hN⟩ := hc.run calcSIns_plain (simpleStackVm_treePreserving true) (simple_local true) hne hok
  refine ⟨N, fun fuel hf ho s t ctx hp he => ?_⟩
  rcases hs : tokenSteps (simpleExecD true) calcSIns toks s with _ | s'
  · have := (hN fuel hf ho s).2 hs
    rw [hp] at this; cases this
  · obtain ⟨t', c', g1, -, g3⟩ := (hN fuel hf ho s).1 s' hs
    rw [hp] at g1
    cases g1
    rw [g3] at he ⊢
    exact (simple_steps_sound hok hs he).1

theorem IsCalc.stack_sound {P : Parser Instr} (hc : IsCalc calcIns P) (cc : CharClass) {toks : List Token}
    (hne : toks ≠ []) (hok : ∀ t ∈ toks, t.Ok) (hd : ∀ t ∈ toks, t.digits ≤ 19) :
    ∃ N, ∀ fuel, N ≤ fuel → ∀ (ho : HashOrder) (s : VState) (t : Tree Str) (ctx : Ctx VState),
      Parser.parse ho fuel (stackVm cc true) P (scriptText toks) s = (.ok t, ctx) → ctx.state.error = 0 →
      rpn (-(2 ^ 63)) (2 ^ 63) ⟨s.stack, s.out⟩ toks = some ⟨ctx.state.stack, ctx.state.out⟩ := by
  obtain ⟨N, hN⟩ := hc.run calcIns_plain (stackVm_treePreserving cc true) (stack_local cc true) hne hok
  refine ⟨N, fun fuel hf ho s t ctx hp he => ?_⟩
  rcases hs : tokenSteps (stackExecD true) calcIns toks s with _ | s'
  · have := (hN fuel hf ho s).2 hs
    rw [hp] at this; cases this
  · obtain ⟨t', c', g1, -, g3⟩ := (hN fuel hf ho s).1 s' hs
    rw [hp] at g1
    cases g1
    rw [g3] at he ⊢
    exact (stack_steps_sound hok hd hs he).1

/-- **C53**, no wrong results of `stack_based_math` and `rust_defined_rules` in builds with overflow checks, for numbers of at
most 19 digits (see `C52_twenty_digits_wrap`). -/
theorem C53_stack_sound {ho0 : HashOrder} {fuel0 : Nat} {cc : CharClass} {P : Parser Instr}
    (h : Parser.newFromText ho0 fuel0 cc (stackVm cc true) Examples.mathText = .ok P ∨
      Parser.newFromParserData ho0 fuel0 Examples.rustData.1 Examples.rustData.2 = .ok P) {toks : List Token}
    (hne : toks ≠ []) (hok : ∀ t ∈ toks, t.Ok) (hd : ∀ t ∈ toks, t.digits ≤ 19) :
    ∃ N, ∀ fuel, N ≤ fuel → ∀ (ho : HashOrder) (s : VState) (t : Tree Str) (ctx : Ctx VState),
      Parser.parse ho fuel (stackVm cc true) P (scriptText toks) s = (.ok t, ctx) → ctx.state.error = 0 →
      rpn (-(2 ^ 63)) (2 ^ 63) ⟨s.stack, s.out⟩ toks = some ⟨ctx.state.stack, ctx.state.out⟩ := by
  rcases h with h | h
  · exact (Examples.text_isCalc (Examples.stack_text_ok cc true) (Examples.stack_text cc true) h).stack_sound cc hne hok hd
  · exact (Examples.rust_isCalc h).stack_sound cc hne hok hd

/-- The script of the three example programs. -/
def Samples.calcScript : List Token := [.num [1], .num [2], .add, .num [3], .add, .num [4], .sub, .print]

/-- The hypotheses of C53 are met by the script of the example programs, which prints 2. -/
example : scriptText Samples.calcScript = c% "1 2 + 3 + 4 - print" ∧ (∀ t ∈ Samples.calcScript, t.Ok) ∧
    (∀ t ∈ Samples.calcScript, t.digits ≤ 19) ∧ rpn 0 (2 ^ 64) ⟨[], []⟩ Samples.calcScript = some ⟨[], [2]⟩ ∧
    rpn (-(2 ^ 63)) (2 ^ 63) ⟨[], []⟩ Samples.calcScript = some ⟨[], [2]⟩ := by
  refine ⟨by decide, ?_, by decide, by decide, by decide⟩
  simp [Samples.calcScript, Token.Ok]

/-! ### C52 -/

/-- The statement of C52 for SimpleStackVm. -/
def Spec.NumbersSimple (checked : Bool) : Prop :=
  ∀ (ho0 : HashOrder) (fuel0 : Nat) (cc : CharClass) (P : Parser SInstr),
    Parser.newFromText ho0 fuel0 cc (simpleStackVm checked) Examples.simpleMathText = .ok P →
    ∀ (ds : List (Fin 10)), ds ≠ [] → decimal ds < 2 ^ 64 → ∀ s : SState,
    ∃ N, ∀ fuel, N ≤ fuel → ∀ ho : HashOrder,
      ∃ t ctx, Parser.parse ho fuel (simpleStackVm checked) P (ds.map figure) s = (.ok t, ctx) ∧ ctx.proc.rest = [] ∧
        ctx.state.stack = decimal ds :: s.stack ∧ ctx.state.out = s.out ∧ ctx.state.error = s.error

theorem only_num {ds : List (Fin 10)} (h : ds ≠ []) : ∀ t ∈ [Token.num ds], t.Ok := by
  intro t ht
  rcases List.mem_singleton.1 ht with rfl
  exact h

theorem rpn_num {lo hi : Int} {ds : List (Fin 10)} {st out : List Int} (h1 : lo ≤ decimal ds) (h2 : (decimal ds : Int) < hi) :
    rpn lo hi ⟨st, out⟩ [.num ds] = some ⟨(decimal ds : Int) :: st, out⟩ := by
  simp only [rpn, rpnStep, h1, h2, and_self, if_true]

theorem map_ofNat_inj {l l' : List Nat} (h : l.map Int.ofNat = l'.map Int.ofNat) : l = l' := by
  have := congrArg (List.map Int.toNat) h
  simpa [List.map_map, Function.comp_def] using this

theorem number_simple {ho0 : HashOrder} {fuel0 : Nat} {cc : CharClass} {checked : Bool} {P : Parser SInstr}
    (h : Parser.newFromText ho0 fuel0 cc (simpleStackVm checked) Examples.simpleMathText = .ok P) {ds : List (Fin 10)}
    (hne : ds ≠ []) (hd : checked = true → ds.length ≤ 20) (hv : decimal ds < 2 ^ 64) (s : SState) :
    ∃ N, ∀ fuel, N ≤ fuel → ∀ ho : HashOrder,
      ∃ t ctx, Parser.parse ho fuel (simpleStackVm checked) P (ds.map figure) s = (.ok t, ctx) ∧ ctx.proc.rest = [] ∧
        ctx.state.stack = decimal ds :: s.stack ∧ ctx.state.out = s.out ∧ ctx.state.error = s.error := by
  obtain ⟨N, hN⟩ := C53_simple h (toks := [.num ds]) (by simp) (only_num hne) (by simpa [Token.digits] using hd) (s := s)
    (c := ⟨(decimal ds : Int) :: s.stack.map Int.ofNat, s.out.map Int.ofNat⟩)
    (rpn_num (by omega) (by omega))
  refine ⟨N, fun fuel hf ho => ?_⟩
  obtain ⟨t, ctx, h1, h2, h3, h4, h5⟩ := hN fuel hf ho
  exact ⟨t, ctx, h1, h2, map_ofNat_inj h3, map_ofNat_inj h4, h5⟩

/-- **C52**, SimpleStackVm without overflow checks (release builds): every digit string whose value fits `usize` is pushed as
its decimal value; nothing else changes. -/
theorem C52_number_simple_release : Spec.NumbersSimple false :=
  fun _ _ _ _ h _ hne hv s => number_simple h hne (fun h => by cases h) hv s

/-- **C52**, SimpleStackVm with overflow checks: holds for digit strings of at most 20 digits.  Missing from the full
statement: longer digit strings (with leading zeros), see `C52_long_digits_refuted`. -/
theorem C52_number_simple_partial {ho0 : HashOrder} {fuel0 : Nat} {cc : CharClass} {checked : Bool} {P : Parser SInstr}
    (h : Parser.newFromText ho0 fuel0 cc (simpleStackVm checked) Examples.simpleMathText = .ok P) {ds : List (Fin 10)}
    (hne : ds ≠ []) (hd : ds.length ≤ 20) (hv : decimal ds < 2 ^ 64) (s : SState) :
    ∃ N, ∀ fuel, N ≤ fuel → ∀ ho : HashOrder,
      ∃ t ctx, Parser.parse ho fuel (simpleStackVm checked) P (ds.map figure) s = (.ok t, ctx) ∧ ctx.proc.rest = [] ∧
        ctx.state.stack = decimal ds :: s.stack ∧ ctx.state.out = s.out ∧ ctx.state.error = s.error :=
  number_simple h hne (fun _ => hd) hv s

/-- **C52**, exactly when SimpleStackVm with overflow checks panics on a number: more than 20 digits, or too big a value. -/
theorem C52_number_simple_panics {ho0 : HashOrder} {fuel0 : Nat} {cc : CharClass} {P : Parser SInstr}
    (h : Parser.newFromText ho0 fuel0 cc (simpleStackVm true) Examples.simpleMathText = .ok P) {ds : List (Fin 10)}
    (hne : ds ≠ []) (s : SState) :
    ∃ N, ∀ fuel, N ≤ fuel → ∀ ho : HashOrder,
      ((Parser.parse ho fuel (simpleStackVm true) P (ds.map figure) s).1 = .panic ↔ 20 < ds.length ∨ 2 ^ 64 ≤ decimal ds) := by
  have hc := Examples.text_isCalc (Examples.simple_text_ok cc true) (Examples.simple_text cc true) h
  obtain ⟨N, hN⟩ := hc.run (toks := [.num ds]) calcSIns_plain (simpleStackVm_treePreserving true) (simple_local true)
    (by simp) (only_num hne)
  obtain ⟨N', hN'⟩ : ∃ N, ¬ (20 < ds.length ∨ 2 ^ 64 ≤ decimal ds) → ∀ fuel, N ≤ fuel → ∀ ho : HashOrder,
      (Parser.parse ho fuel (simpleStackVm true) P (ds.map figure) s).1 ≠ .panic := by
    by_cases hp : 20 < ds.length ∨ 2 ^ 64 ≤ decimal ds
    · exact ⟨0, fun h => absurd hp h⟩
    · obtain ⟨N, hN⟩ := number_simple h hne (fun _ => by omega) (by omega) s
      refine ⟨N, fun _ fuel hf ho hx => ?_⟩
      obtain ⟨t, ctx, h1, -⟩ := hN fuel hf ho
      rw [h1] at hx; cases hx
  refine ⟨max N N', fun fuel hf ho => ⟨fun hp => ?_, fun hp => ?_⟩⟩
  · exact Classical.byContradiction fun hx => hN' hx fuel (by omega) ho hp
  · refine (hN fuel (by omega) ho s).2 ?_
    simp only [tokenSteps, simple_num_panic hne s hp]
    rfl

/-- **C52** is false as stated in builds with overflow checks: 21 zeros have the value 0, yet the machine panics (it
computes `10 ^ 20`). -/
theorem C52_long_digits_refuted : ¬ Spec.NumbersSimple true := by
  intro hall
  obtain ⟨fuel0, P, h⟩ := (C53_examples_built .insertion .ascii true).1
  have hz : decimal (List.replicate 21 0) = 0 := by decide
  obtain ⟨N, hN⟩ := hall .insertion fuel0 .ascii P h (List.replicate 21 0) (by decide) (by rw [hz]; decide) SState.init
  obtain ⟨N', hN'⟩ := C52_number_simple_panics h (ds := List.replicate 21 0) (by decide) SState.init
  obtain ⟨t, ctx, h1, -⟩ := hN (max N N') (by omega) .insertion
  have := (hN' (max N N') (by omega) .insertion).2 (.inl (by decide))
  rw [h1] at this
  cases this

/-- The statement of C52 for StackVm. -/
def Spec.NumbersStack (checked : Bool) : Prop :=
  ∀ (ho0 : HashOrder) (fuel0 : Nat) (cc : CharClass) (P : Parser Instr),
    (Parser.newFromText ho0 fuel0 cc (stackVm cc checked) Examples.mathText = .ok P ∨
      Parser.newFromParserData ho0 fuel0 Examples.rustData.1 Examples.rustData.2 = .ok P) →
    ∀ (ds : List (Fin 10)), ds ≠ [] → decimal ds < 2 ^ 63 → ∀ s : VState,
    ∃ N, ∀ fuel, N ≤ fuel → ∀ ho : HashOrder,
      ∃ t ctx, Parser.parse ho fuel (stackVm cc checked) P (ds.map figure) s = (.ok t, ctx) ∧ ctx.proc.rest = [] ∧
        ctx.state.stack = (decimal ds : Int) :: s.stack ∧ ctx.state.out = s.out ∧ ctx.state.error = s.error

theorem stackExample_isCalc {ho0 : HashOrder} {fuel0 : Nat} {cc : CharClass} {checked : Bool} {P : Parser Instr}
    (h : Parser.newFromText ho0 fuel0 cc (stackVm cc checked) Examples.mathText = .ok P ∨
      Parser.newFromParserData ho0 fuel0 Examples.rustData.1 Examples.rustData.2 = .ok P) : IsCalc calcIns P := by
  rcases h with h | h
  · exact Examples.text_isCalc (Examples.stack_text_ok cc checked) (Examples.stack_text cc checked) h
  · exact Examples.rust_isCalc h

/-- **C52**, StackVm: holds without overflow checks for every digit string whose value fits `isize`, with overflow checks for
those of at most 20 digits.  Missing from the full statement: longer digit strings (with leading zeros) in builds with
overflow checks. -/
theorem C52_number_stack_partial {ho0 : HashOrder} {fuel0 : Nat} {cc : CharClass} {checked : Bool} {P : Parser Instr}
    (h : Parser.newFromText ho0 fuel0 cc (stackVm cc checked) Examples.mathText = .ok P ∨
      Parser.newFromParserData ho0 fuel0 Examples.rustData.1 Examples.rustData.2 = .ok P) {ds : List (Fin 10)}
    (hne : ds ≠ []) (hd : checked = true → ds.length ≤ 20) (hv : decimal ds < 2 ^ 63) (s : VState) :
    ∃ N, ∀ fuel, N ≤ fuel → ∀ ho : HashOrder,
      ∃ t ctx, Parser.parse ho fuel (stackVm cc checked) P (ds.map figure) s = (.ok t, ctx) ∧ ctx.proc.rest = [] ∧
        ctx.state.stack = (decimal ds : Int) :: s.stack ∧ ctx.state.out = s.out ∧ ctx.state.error = s.error :=
  (stackExample_isCalc h).stack_computes (toks := [.num ds]) (by simp) (only_num hne) (by simpa [Token.digits] using hd)
    (c := ⟨(decimal ds : Int) :: s.stack, s.out⟩) (rpn_num (by omega) (by omega))

/-- **C52**, StackVm without overflow checks. -/
theorem C52_number_stack_release : Spec.NumbersStack false :=
  fun _ _ _ _ h _ hne hv s => C52_number_stack_partial h hne (fun h => by cases h) hv s

/-- **C52**, StackVm: twenty digits beginning with 1 do not fit `isize` and are silently pushed as a negative number, even in
builds with overflow checks (the power is computed in `usize` and cast). -/
theorem C52_twenty_digits_wrap {ho0 : HashOrder} {fuel0 : Nat} {cc : CharClass} {checked : Bool} {P : Parser Instr}
    (h : Parser.newFromText ho0 fuel0 cc (stackVm cc checked) Examples.mathText = .ok P ∨
      Parser.newFromParserData ho0 fuel0 Examples.rustData.1 Examples.rustData.2 = .ok P) {ds : List (Fin 10)}
    (hl : ds.length = 19) (hv : decimal ds < 2 ^ 63) (s : VState) :
    ∃ N, ∀ fuel, N ≤ fuel → ∀ ho : HashOrder,
      ∃ t ctx, Parser.parse ho fuel (stackVm cc checked) P ('1' :: ds.map figure) s = (.ok t, ctx) ∧ ctx.proc.rest = [] ∧
        ctx.state.stack = ((decimal (1 :: ds) : Int) - 2 ^ 64) :: s.stack ∧ ctx.state.out = s.out ∧
        ctx.state.error = s.error := by
  obtain ⟨N, hN⟩ := (stackExample_isCalc h).run (toks := [.num (1 :: ds)]) calcIns_plain (stackVm_treePreserving cc checked)
    (stack_local cc checked) (by simp) (by simp [Token.Ok])
  refine ⟨N, fun fuel hf ho => ?_⟩
  obtain ⟨r, r2, hs⟩ := stack_num_wrapped checked hl hv s
  obtain ⟨t, ctx, g1, g2, g3⟩ := (hN fuel hf ho s).1 _ (show tokenSteps _ _ [.num (1 :: ds)] s = some _ by
    rw [tokenSteps, hs, Option.bind_some, tokenSteps])
  exact ⟨t, ctx, g1, g2, by rw [g3], by rw [g3], by rw [g3]⟩

/-- The hypotheses of C52 are met by 12345678901234567890 (SimpleStackVm) and 9223372036854775807 (StackVm). -/
example : decimal [1, 2, 3, 4, 5, 6, 7, 8, 9, 0, 1, 2, 3, 4, 5, 6, 7, 8, 9, 0] = 12345678901234567890 ∧
    12345678901234567890 < 2 ^ 64 ∧ decimal [9, 2, 2, 3, 3, 7, 2, 0, 3, 6, 8, 5, 4, 7, 7, 5, 8, 0, 7] = 2 ^ 63 - 1 ∧
    [9, 2, 2, 3, 3, 7, 2, 0, 3, 6, 8, 5, 4, 7, 7, 5, 8, 0, 7].map figure = c% "9223372036854775807" := by decide

/-! ### C56 -/

/-- **C56** is false for SimpleStackVm with overflow checks: whenever a subtraction's result would be negative, parsing the
script panics, whatever follows. -/
theorem C56_negative_refuted {ho0 : HashOrder} {fuel0 : Nat} {cc : CharClass} {P : Parser SInstr}
    (h : Parser.newFromText ho0 fuel0 cc (simpleStackVm true) Examples.simpleMathText = .ok P) {pre post : List Token}
    (hpre : ∀ t ∈ pre, t.Ok ∧ t.digits ≤ 20) (hpost : ∀ t ∈ post, t.Ok) {s : SState} {a b : Int} {st out : List Int}
    (hr : rpn 0 (2 ^ 64) ⟨s.stack.map Int.ofNat, s.out.map Int.ofNat⟩ pre = some ⟨b :: a :: st, out⟩) (hab : a < b) :
    ∃ N, ∀ fuel, N ≤ fuel → ∀ ho : HashOrder,
      (Parser.parse ho fuel (simpleStackVm true) P (scriptText (pre ++ .sub :: post)) s).1 = .panic := by
  have hc := Examples.text_isCalc (Examples.simple_text_ok cc true) (Examples.simple_text cc true) h
  obtain ⟨N, hN⟩ := hc.run (toks := pre ++ .sub :: post) calcSIns_plain (simpleStackVm_treePreserving true) (simple_local true)
    (by simp) (by
      intro t ht
      simp only [List.mem_append, List.mem_cons] at ht
      rcases ht with ht | rfl | ht
      · exact (hpre t ht).1
      · trivial
      · exact hpost t ht)
  refine ⟨N, fun fuel hf ho => (hN fuel hf ho s).2 ?_⟩
  obtain ⟨s1, g1, g2, -⟩ := simple_steps_ok true (fun t ht => (hpre t ht).1) (fun _ t ht => (hpre t ht).2) (s := s) hr
  rw [tokenSteps_append, g1, Option.bind_some, tokenSteps]
  simp only [SState.rpn, Rpn.mk.injEq] at g2
  have g2 := g2.1
  rcases hst : s1.stack with _ | ⟨b', _ | ⟨a', st'⟩⟩
  · rw [hst] at g2; cases g2
  · rw [hst] at g2; cases g2
  · rw [hst] at g2
    simp only [List.map_cons, List.cons.injEq, Int.ofNat_eq_natCast] at g2
    rw [simple_sub true hst, uRes_over (.inl (by omega)), Option.map_none, Option.bind_none]

/-- **C56**, SimpleStackVm without overflow checks: the difference wraps around. -/
theorem C56_negative_wraps {ho0 : HashOrder} {fuel0 : Nat} {cc : CharClass} {P : Parser SInstr}
    (h : Parser.newFromText ho0 fuel0 cc (simpleStackVm false) Examples.simpleMathText = .ok P) {pre : List Token}
    (hpre : ∀ t ∈ pre, t.Ok) {s : SState} {a b : Int} {st out : List Int}
    (hr : rpn 0 (2 ^ 64) ⟨s.stack.map Int.ofNat, s.out.map Int.ofNat⟩ pre = some ⟨b :: a :: st, out⟩) (hab : a < b) :
    ∃ N, ∀ fuel, N ≤ fuel → ∀ ho : HashOrder,
      ∃ t ctx, Parser.parse ho fuel (simpleStackVm false) P (scriptText (pre ++ [.sub])) s = (.ok t, ctx) ∧
        ctx.state.stack.map Int.ofNat = ((a - b) % 2 ^ 64) :: st := by
  have hc := Examples.text_isCalc (Examples.simple_text_ok cc false) (Examples.simple_text cc false) h
  obtain ⟨N, hN⟩ := hc.run (toks := pre ++ [.sub]) calcSIns_plain (simpleStackVm_treePreserving false) (simple_local false)
    (by simp) (by
      intro t ht
      simp only [List.mem_append, List.mem_cons, List.not_mem_nil, or_false] at ht
      rcases ht with ht | rfl
      · exact hpre t ht
      · trivial)
  refine ⟨N, fun fuel hf ho => ?_⟩
  obtain ⟨s1, g1, g2, -⟩ := simple_steps_ok false hpre (fun h => by cases h) (s := s) hr
  simp only [SState.rpn, Rpn.mk.injEq] at g2
  have g2 := g2.1
  rcases hst : s1.stack with _ | ⟨b', _ | ⟨a', st'⟩⟩
  · rw [hst] at g2; cases g2
  · rw [hst] at g2; cases g2
  · rw [hst] at g2
    simp only [List.map_cons, List.cons.injEq, Int.ofNat_eq_natCast] at g2
    have hu : uRes false ((a' : Int) - b') = some (((a' : Int) - b') % 2 ^ 64).toNat := by
      rw [uRes, if_neg (by omega)]
      rfl
    obtain ⟨t, ctx, k1, k2, k3⟩ := (hN fuel hf ho s).1 { s1 with stack := (((a' : Int) - b') % 2 ^ 64).toNat :: st', reg := b' } (by
      rw [tokenSteps_append, g1, Option.bind_some, tokenSteps, simple_sub false hst, hu, Option.map_some, Option.bind_some,
        tokenSteps])
    refine ⟨t, ctx, k1, ?_⟩
    rw [k3]
    simp only [List.map_cons, List.cons.injEq, Int.ofNat_eq_natCast]
    refine ⟨?_, g2.2.2⟩
    rw [g2.1, g2.2.1]
    exact Int.toNat_of_nonneg (Int.emod_nonneg _ (by decide))

/-- **C56**, StackVm: a negative intermediate result is computed (as long as it fits `isize`); parsing succeeds. -/
theorem C56_stack_negative_partial {ho0 : HashOrder} {fuel0 : Nat} {cc : CharClass} {checked : Bool} {P : Parser Instr}
    (h : Parser.newFromText ho0 fuel0 cc (stackVm cc checked) Examples.mathText = .ok P ∨
      Parser.newFromParserData ho0 fuel0 Examples.rustData.1 Examples.rustData.2 = .ok P) {toks : List Token}
    (hne : toks ≠ []) (hok : ∀ t ∈ toks, t.Ok) (hd : ∀ t ∈ toks, t.digits ≤ 20) {s : VState} {c : Rpn}
    (hr : rpn (-(2 ^ 63)) (2 ^ 63) ⟨s.stack, s.out⟩ toks = some c) :
    ∃ N, ∀ fuel, N ≤ fuel → ∀ ho : HashOrder,
      ∃ t ctx, Parser.parse ho fuel (stackVm cc checked) P (scriptText toks) s = (.ok t, ctx) ∧ ctx.proc.rest = [] ∧
        ctx.state.stack = c.stack ∧ ctx.state.out = c.out ∧ ctx.state.error = s.error :=
  (stackExample_isCalc h).stack_computes hne hok (fun _ => hd) hr

/-- **C56 is false**, a closed instance: the example calculator exists, and in a checked build the script `1 2 -`, started in
any state, panics. -/
theorem C56_one_minus_two_refuted (ho0 : HashOrder) (cc : CharClass) :
    ∃ fuel0 P, Parser.newFromText ho0 fuel0 cc (simpleStackVm true) Examples.simpleMathText = .ok P ∧
      ∀ s : SState, ∃ N, ∀ fuel, N ≤ fuel → ∀ ho : HashOrder,
        (Parser.parse ho fuel (simpleStackVm true) P (c% "1 2 -") s).1 = .panic := by
  obtain ⟨fuel0, P, h⟩ := (C53_examples_built ho0 cc true).1
  refine ⟨fuel0, P, h, fun s => ?_⟩
  have hr : rpn 0 (2 ^ 64) ⟨s.stack.map Int.ofNat, s.out.map Int.ofNat⟩ [.num [1], .num [2]] =
      some ⟨2 :: 1 :: s.stack.map Int.ofNat, s.out.map Int.ofNat⟩ := by
    have d1 : decimal [1] = 1 := rfl
    have d2 : decimal [2] = 2 := rfl
    simp only [rpn, rpnStep, d1, d2]
    rw [if_pos (by decide)]
    simp only
    rw [if_pos (by decide)]
    rfl
  exact C56_negative_refuted h (pre := [.num [1], .num [2]]) (post := []) (by simp [Token.Ok, Token.digits]) (by simp) hr (by decide)

/-- The hypotheses of C56 are met by the script `1 2 -`. -/
example : scriptText [.num [1], .num [2], .sub] = c% "1 2 -" ∧
    rpn 0 (2 ^ 64) ⟨[], []⟩ [.num [1], .num [2]] = some ⟨[2, 1], []⟩ ∧
    rpn (-(2 ^ 63)) (2 ^ 63) ⟨[], []⟩ [.num [1], .num [2], .sub] = some ⟨[-1], []⟩ := by decide

end HPP
