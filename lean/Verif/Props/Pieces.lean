import Verif.Spec.Pieces
import Verif.Props.CalcTotal
/-
C120: a calculator script may be run in pieces.
-/
namespace HPP
open Spec

theorem scriptText_append {ts us : List Token} (h1 : ts ≠ []) (h2 : us ≠ []) :
    scriptText (ts ++ us) = scriptText ts ++ ' ' :: scriptText us := by
  induction ts with
  | nil => exact absurd rfl h1
  | cons t ts ih =>
    cases ts with
    | nil =>
      cases us with
      | nil => exact absurd rfl h2
      | cons u us => rfl
    | cons t' ts =>
      have := ih (by simp)
      simp only [List.cons_append] at this ⊢
      simp only [scriptText, this, List.append_assoc, List.cons_append]

theorem calcRun_append (ar : Arithmetic) (c : Calc) (ts us : List Token) :
    calcRun ar c (ts ++ us) = (calcRun ar c ts).bind fun d => calcRun ar d us := by
  induction ts generalizing c with
  | nil => rfl
  | cons t ts ih =>
    simp only [List.cons_append, calcRun]
    cases calcStep ar c t with
    | none => rfl
    | some d => exact ih d

/-- The run does what `calcRun` says. -/
def Runs120 {S : Type} (ar : Arithmetic) (obs : S → Calc) (ts : List Token) (run : S → Res PErr (Tree Str) × Ctx S) : Prop :=
  ∀ s, (∀ c, calcRun ar (obs s) ts = some c → ∃ t ctx, run s = (.ok t, ctx) ∧ ctx.proc.rest = [] ∧ obs ctx.state = c) ∧
    (calcRun ar (obs s) ts = none → (run s).1 = .panic)

theorem inPieces_of_runs {S α : Type} {shown : S → α} {ar : Arithmetic} {obs : S → Calc} {ts us : List Token}
    {whole first second : S → Res PErr (Tree Str) × Ctx S} (hobs : ∀ a b, obs a = obs b → shown a = shown b)
    (hw : Runs120 ar obs (ts ++ us) whole) (hf : Runs120 ar obs ts first) (hg : Runs120 ar obs us second) (s : S) :
    InPieces shown (whole s) (first s) second := by
  obtain ⟨w1, w2⟩ := hw s
  obtain ⟨f1, f2⟩ := hf s
  rw [calcRun_append] at w1 w2
  cases hf : calcRun ar (obs s) ts with
  | none =>
    rw [hf] at w2
    exact .inl ⟨w2 rfl, .inl (f2 hf)⟩
  | some c =>
    rw [hf] at w1 w2
    simp only [Option.bind_some] at w1 w2
    obtain ⟨t1, ctx1, e1, r1, o1⟩ := f1 c hf
    obtain ⟨g1, g2⟩ := hg ctx1.state
    rw [o1] at g1 g2
    have hs : (first s).2.state = ctx1.state := by rw [e1]
    cases hg : calcRun ar c us with
    | none => exact .inl ⟨w2 hg, .inr ⟨⟨t1, by rw [e1]⟩, by rw [hs]; exact g2 hg⟩⟩
    | some d =>
      obtain ⟨t, ctx, e, r, o⟩ := w1 d hg
      obtain ⟨t2, ctx2, e2, r2, o2⟩ := g1 d hg
      refine .inr ⟨t, t1, t2, by rw [e], by rw [e1], by rw [hs, e2], by rw [e]; exact r, by rw [e1]; exact r1,
        by rw [hs, e2]; exact r2, ?_⟩
      rw [hs, e2, e]
      exact hobs _ _ (by rw [o, o2])

theorem mem_append_ok {ts us : List Token} (k1 : ∀ t ∈ ts, t.Ok) (k2 : ∀ t ∈ us, t.Ok) : ∀ t ∈ ts ++ us, t.Ok := by
  intro t ht
  rcases List.mem_append.1 ht with ht | ht
  · exact k1 t ht
  · exact k2 t ht

/-- **C120**, `simple_stack_based_math`: a script cut between two words and run in two pieces, the second from the state in which the
first ended, does the same as the script run at once: it panics if the whole panics, and otherwise ends with the same stack, register,
error code and output. -/
theorem C120_simple {ho0 : HashOrder} {fuel0 : Nat} {cc : CharClass} {checked : Bool} {P : Parser SInstr}
    (h : Parser.newFromText ho0 fuel0 cc (simpleStackVm checked) Examples.simpleMathText = .ok P) {u v : Str}
    (hu : IsScript u) (hv : IsScript v) :
    ∃ N, ∀ fuel, N ≤ fuel → ∀ (ho1 ho2 ho3 : HashOrder) (s : SState),
      InPieces SState.shown (Parser.parse ho1 fuel (simpleStackVm checked) P (u ++ ' ' :: v) s)
        (Parser.parse ho2 fuel (simpleStackVm checked) P u s) (fun s' => Parser.parse ho3 fuel (simpleStackVm checked) P v s') := by
  obtain ⟨ts, n1, k1, rfl⟩ := hu
  obtain ⟨us, n2, k2, rfl⟩ := hv
  obtain ⟨N1, h1⟩ := C100_simple h n1 k1
  obtain ⟨N2, h2⟩ := C100_simple h n2 k2
  obtain ⟨N3, h3⟩ := C100_simple h (toks := ts ++ us) (by simp [n1]) (mem_append_ok k1 k2)
  refine ⟨max N1 (max N2 N3), fun fuel hN ho1 ho2 ho3 s => ?_⟩
  rw [← scriptText_append n1 n2]
  refine inPieces_of_runs (ar := unsigned checked)
    (obs := fun s : SState => ⟨s.stack.map Int.ofNat, s.reg, s.error, s.out.map Int.ofNat⟩)
    (whole := fun s' => Parser.parse ho1 fuel (simpleStackVm checked) P (scriptText (ts ++ us)) s')
    (first := fun s' => Parser.parse ho2 fuel (simpleStackVm checked) P (scriptText ts) s') ?_
    (fun s' => h3 fuel (by omega) ho1 s') (fun s' => h1 fuel (by omega) ho2 s') (fun s' => h2 fuel (by omega) ho3 s') s
  intro a b hab
  simp only [Calc.mk.injEq] at hab
  obtain ⟨a1, a2, a3, a4⟩ := hab
  simp only [SState.shown, map_ofNat_inj a1, map_ofNat_inj a4, a3, Prod.mk.injEq, true_and, and_true]
  exact Int.ofNat.inj a2

/-- **C120**, `stack_based_math` and `rust_defined_rules`. -/
theorem C120_stack {ho0 : HashOrder} {fuel0 : Nat} {cc : CharClass} {checked : Bool} {P : Parser Instr}
    (h : Parser.newFromText ho0 fuel0 cc (stackVm cc checked) Examples.mathText = .ok P ∨
      Parser.newFromParserData ho0 fuel0 Examples.rustData.1 Examples.rustData.2 = .ok P) {u v : Str}
    (hu : IsScript u) (hv : IsScript v) :
    ∃ N, ∀ fuel, N ≤ fuel → ∀ (ho1 ho2 ho3 : HashOrder) (s : VState),
      InPieces VState.shown (Parser.parse ho1 fuel (stackVm cc checked) P (u ++ ' ' :: v) s)
        (Parser.parse ho2 fuel (stackVm cc checked) P u s) (fun s' => Parser.parse ho3 fuel (stackVm cc checked) P v s') := by
  obtain ⟨ts, n1, k1, rfl⟩ := hu
  obtain ⟨us, n2, k2, rfl⟩ := hv
  obtain ⟨N1, h1⟩ := C100_stack h n1 k1
  obtain ⟨N2, h2⟩ := C100_stack h n2 k2
  obtain ⟨N3, h3⟩ := C100_stack h (toks := ts ++ us) (by simp [n1]) (mem_append_ok k1 k2)
  refine ⟨max N1 (max N2 N3), fun fuel hN ho1 ho2 ho3 s => ?_⟩
  rw [← scriptText_append n1 n2]
  refine inPieces_of_runs (ar := signed checked)
    (obs := fun s : VState => ⟨s.stack, s.reg, s.error, s.out⟩)
    (whole := fun s' => Parser.parse ho1 fuel (stackVm cc checked) P (scriptText (ts ++ us)) s')
    (first := fun s' => Parser.parse ho2 fuel (stackVm cc checked) P (scriptText ts) s') ?_
    (fun s' => h3 fuel (by omega) ho1 s') (fun s' => h1 fuel (by omega) ho2 s') (fun s' => h2 fuel (by omega) ho3 s') s
  intro a b hab
  simp only [Calc.mk.injEq] at hab
  obtain ⟨a1, a2, a3, a4⟩ := hab
  simp only [VState.shown, a1, a2, a3, a4]

/-- **C120**, scripts are put together from scripts: two scripts with a blank between them are a script, and every script of several
words is one of a word and a script. -/
theorem C120_scripts (u v : Str) : (IsScript u → IsScript v → IsScript (u ++ ' ' :: v)) ∧
    (IsScript u → (∃ t : Token, t.Ok ∧ u = t.text) ∨ ∃ (t : Token) (w : Str), t.Ok ∧ IsScript w ∧ u = t.text ++ ' ' :: w) := by
  constructor
  · rintro ⟨ts, n1, k1, rfl⟩ ⟨us, n2, k2, rfl⟩
    exact ⟨ts ++ us, by simp [n1], mem_append_ok k1 k2, (scriptText_append n1 n2).symm⟩
  · rintro ⟨ts, n1, k1, rfl⟩
    cases ts with
    | nil => exact absurd rfl n1
    | cons t ts =>
      cases ts with
      | nil => exact .inl ⟨t, k1 t (by simp), rfl⟩
      | cons t' ts =>
        exact .inr ⟨t, scriptText (t' :: ts), k1 t (by simp), ⟨t' :: ts, by simp, fun x hx => k1 x (by simp [hx]), rfl⟩, rfl⟩

/-- `1 2` and `+ print` are scripts, and so is `1 2 + print`; the calculators exist. -/
example : IsScript (c% "1 2") ∧ IsScript (c% "+ print") ∧ IsScript (c% "1 2" ++ ' ' :: c% "+ print") := by
  have h1 : IsScript (c% "1 2") := ⟨[.num [1], .num [2]], by simp, by simp [Token.Ok], rfl⟩
  have h2 : IsScript (c% "+ print") := ⟨[.add, .print], by simp, by simp [Token.Ok], rfl⟩
  exact ⟨h1, h2, (C120_scripts _ _).1 h1 h2⟩

/-- The calculators exist, and C120_simple and C120_stack apply to them and the pieces `1 2` and `+ print`. -/
example (cc : CharClass) (checked : Bool) : ∃ (P1 : Parser SInstr) (P2 : Parser Instr) (N : Nat), ∀ fuel, N ≤ fuel → ∀ s s',
    InPieces SState.shown (Parser.parse .insertion fuel (simpleStackVm checked) P1 (c% "1 2 + print") s)
      (Parser.parse .insertion fuel (simpleStackVm checked) P1 (c% "1 2") s)
      (fun x => Parser.parse .insertion fuel (simpleStackVm checked) P1 (c% "+ print") x) ∧
    InPieces VState.shown (Parser.parse .insertion fuel (stackVm cc checked) P2 (c% "1 2 + print") s')
      (Parser.parse .insertion fuel (stackVm cc checked) P2 (c% "1 2") s')
      (fun x => Parser.parse .insertion fuel (stackVm cc checked) P2 (c% "+ print") x) := by
  have h1 : IsScript (c% "1 2") := ⟨[.num [1], .num [2]], by simp, by simp [Token.Ok], rfl⟩
  have h2 : IsScript (c% "+ print") := ⟨[.add, .print], by simp, by simp [Token.Ok], rfl⟩
  obtain ⟨⟨f1, P1, k1⟩, ⟨f2, P2, k2⟩, -⟩ := C53_examples_built .insertion cc checked
  obtain ⟨N1, g1⟩ := C120_simple k1 h1 h2
  obtain ⟨N2, g2⟩ := C120_stack (.inl k2) h1 h2
  exact ⟨P1, P2, max N1 N2, fun fuel hN s s' => ⟨g1 fuel (by omega) _ _ _ s, g2 fuel (by omega) _ _ _ s'⟩⟩

end HPP
