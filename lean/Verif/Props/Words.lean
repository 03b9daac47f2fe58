import Verif.Proofs.Words
import Verif.Props.Effects
import Verif.Props.SameCalc
/-
C119: without overflow checks, SimpleStackVm and StackVm compute the same words; the three calculators that come with the project
agree in everything but the reading of the sign bit.
-/
namespace HPP
open Spec

theorem words_kept {D : Str → Prop} (h : ∀ d, D d → ReadAlike d) : KeptByAdding D (fun t => TreeOk t ∧ AllTexts ReadAlike t) := by
  refine ⟨⟨⟨[], .new⟩, ?_⟩, fun t d p hd ht => ⟨ht.1.addNode _ _, ht.2.addNode (h d hd)⟩⟩
  intro n hn
  simp [Tree.new] at hn

/-- **C119.** Two grammars that differ in nothing but their sections, the one with instructions of SimpleStackVm, the other with the
same instructions of StackVm, and with no terminal that the two machines read differently as a number: without overflow checks, from
states with the same words, the two parses give the same tree or the same error (up to the order of the expected characters), leave
the same text unread, and end in states with the same words, having printed the same words. -/
theorem C119_same_words {pd : ParserData SInstr} {pd' : ParserData Instr} (hw : WellFormed pd) (hw' : WellFormed pd')
    (h : SameSyntax pd pd') {start : Nat} {ho1 ho2 : HashOrder} {fuel1 fuel2 : Nat} {P1 : Parser SInstr} {P2 : Parser Instr}
    (h1 : Parser.newFromParserData ho1 fuel1 pd start = .ok P1) (h2 : Parser.newFromParserData ho2 fuel2 pd' start = .ok P2)
    (hst : StartSymbol pd start) (hi : ∀ A, instrOf pd' A = (instrOf pd A).map SInstr.signed)
    (hc : ∀ A, ∀ i ∈ instrOf pd A, SInstr.ConstUnsigned i) (hr : ∀ d, NodeText pd d → ReadAlike d)
    (cc : CharClass) (ho3 ho4 : HashOrder) (fuel : Nat) (script : Str) {s1 : SState} {s2 : VState} (hs : SameWords s1 s2) :
    SameRes (Parser.parse ho3 fuel (simpleStackVm false) P1 script s1).1 (Parser.parse ho4 fuel (stackVm cc false) P2 script s2).1 ∧
    (Parser.parse ho3 fuel (simpleStackVm false) P1 script s1).2.proc = (Parser.parse ho4 fuel (stackVm cc false) P2 script s2).2.proc ∧
    SameWords (Parser.parse ho3 fuel (simpleStackVm false) P1 script s1).2.state
      (Parser.parse ho4 fuel (stackVm cc false) P2 script s2).2.state := by
  have hm := C118_shipped_machines cc
  have hd : ∀ d, NodeText pd' d → ReadAlike d := by
    rintro d (rfl | ⟨e, g1, g2⟩)
    · exact hr _ (.inl rfl)
    · rw [h.types] at g1
      rw [h.data] at g2
      exact hr d (.inr ⟨e, g1, g2⟩)
  rcases C118_parse hw hw' h h1 h2 (words_kept hd)
    (fun A => by rw [hi A]; exact sameEffect_words cc _ (hc A)) ho3 ho4 fuel script hs with ⟨a, -⟩ | g
  · exact absurd a (parse_grown_no_panic hw h1 hst hm.2.2.1.1 hm.2.2.1.2 ho3 fuel script s1)
  · exact g

/-- A text without sign that is no number beyond 2^63 - 1 is read alike. -/
theorem C119_small_texts {d : Str} (h1 : d.head? ≠ some '-') (h2 : ∀ s, (d = s ∨ d = '+' :: s) → IsNumeral s → decimalValue s < 2 ^ 63) :
    ReadAlike d := by
  have key : ∀ ds : Str, (IsNumeral ds → decimalValue ds < 2 ^ 63) →
      (if IsNumeral ds ∧ decimalValue ds < 2 ^ 64 then some ((decimalValue ds : Nat) : Int) else none) =
      (if IsNumeral ds ∧ -(2 ^ 63) ≤ ((decimalValue ds : Nat) : Int) ∧ ((decimalValue ds : Nat) : Int) < 2 ^ 63 then
        some ((decimalValue ds : Nat) : Int) else none) := by
    intro ds hd
    generalize decimalValue ds = v at hd
    by_cases hn : IsNumeral ds
    · have := hd hn
      rw [if_pos ⟨hn, by omega⟩, if_pos ⟨hn, by omega, by omega⟩]
    · rw [if_neg (fun h => hn h.1), if_neg (fun h => hn h.1)]
  simp only [ReadAlike, readUnsigned, readSigned, h1, or_false, if_false]
  by_cases hp : d.head? = some '+'
  · simp only [if_pos hp]
    cases d with
    | nil => cases hp
    | cons c s =>
      simp only [List.head?_cons, Option.some.injEq] at hp
      subst hp
      exact key s (h2 s (.inr rfl))
  · simp only [if_neg hp]
    exact key d (h2 d (.inl rfl))

/-- Fresh machines hold the same words. -/
theorem C119_fresh : SameWords SState.init VState.init := by
  refine ⟨rfl, by decide +kernel, by decide +kernel, rfl, rfl, ?_, by decide +kernel, by decide +kernel, ?_, by decide⟩
  · intro n h; cases h
  · intro n h; cases h

/-! ### the calculators that come with the project -/

theorem Examples.signed_instr (A : Nat) :
    instrOf (Examples.data calcIns) A = (instrOf (Examples.data calcSIns) A).map SInstr.signed := by
  have h : (Examples.data calcIns).rules.map (fun x => (x.1, x.2.instr)) =
      (Examples.data calcSIns).rules.map (fun x => (x.1, x.2.instr.map SInstr.signed)) := by decide +kernel
  have key : ∀ {K L : Type} (f : List K → List L), f [] = [] → ∀ l : AMap Nat (NTRule K),
      f (match AMap.get l A with | some r => r.instr | none => []) =
        (AMap.get (l.map (fun x => (x.1, f x.2.instr))) A).getD [] := by
    intro K L f hf l
    induction l with
    | nil => exact hf
    | cons x l ih =>
      obtain ⟨k, v⟩ := x
      simp only [AMap.get, List.map_cons]
      by_cases hk : k = A
      · simp only [if_pos hk]; rfl
      · simp only [if_neg hk]; exact ih
  have k1 := key (fun l : List Instr => l) rfl (Examples.data calcIns).rules
  have k2 := key (List.map SInstr.signed) rfl (Examples.data calcSIns).rules
  rw [h, ← k2] at k1
  exact k1

/-- A computable check of `ConstUnsigned`. -/
def constWord : SInstr → Bool
  | .regAddConst c | .pushConst c => decide (c < 2 ^ 64)
  | _ => true

theorem constWord_iff (i : SInstr) (h : constWord i = true) : SInstr.ConstUnsigned i := by
  cases i with
  | regAddConst c => simpa only [constWord, decide_eq_true_eq, SInstr.ConstUnsigned] using h
  | pushConst c => simpa only [constWord, decide_eq_true_eq, SInstr.ConstUnsigned] using h
  | _ => trivial

theorem Examples.unsigned_instr (A : Nat) : ∀ i ∈ instrOf (Examples.data calcSIns) A, SInstr.ConstUnsigned i := by
  have h : (Examples.data calcSIns).rules.all (fun x => x.2.instr.all constWord) = true := by decide +kernel
  intro i hi
  simp only [instrOf] at hi
  cases hg : AMap.get (Examples.data calcSIns).rules A with
  | none => rw [hg] at hi; cases hi
  | some r =>
    rw [hg] at hi
    exact constWord_iff i (List.all_eq_true.1 (List.all_eq_true.1 h _ (Samples.mem_of_get' hg)) i hi)

instance (d : Str) : Decidable (ReadAlike d) := inferInstanceAs (Decidable (_ = _))

theorem Examples.texts_alike (d : Str) (h : NodeText (Examples.data calcSIns) d) : ReadAlike d := by
  have h0 : (Examples.data calcSIns).elementData.all (fun x => decide (ReadAlike x.name)) = true := by decide +kernel
  rcases h with rfl | ⟨e, -, h2⟩
  · decide +kernel
  · cases hx : (Examples.data calcSIns).elementData[e]? with
    | none => rw [hx] at h2; cases h2
    | some x =>
      rw [hx] at h2
      cases h2
      exact of_decide_eq_true (List.all_eq_true.1 h0 _ (List.mem_of_getElem? hx))

/-- **C119**, the calculators of `examples/simple_stack_based_math` and `examples/stack_based_math`, without overflow checks, on every
text, whether it is a script or not, and from all states with the same words. -/
theorem C119_calculators {ho1 ho2 : HashOrder} {fuel1 fuel2 : Nat} {cc : CharClass} {P1 : Parser SInstr} {P2 : Parser Instr}
    (h1 : Parser.newFromText ho1 fuel1 cc (simpleStackVm false) Examples.simpleMathText = .ok P1)
    (h2 : Parser.newFromText ho2 fuel2 cc (stackVm cc false) Examples.mathText = .ok P2)
    (ho3 ho4 : HashOrder) (fuel : Nat) (text : Str) {s1 : SState} {s2 : VState} (hs : SameWords s1 s2) :
    SameRes (Parser.parse ho3 fuel (simpleStackVm false) P1 text s1).1 (Parser.parse ho4 fuel (stackVm cc false) P2 text s2).1 ∧
    (Parser.parse ho3 fuel (simpleStackVm false) P1 text s1).2.proc = (Parser.parse ho4 fuel (stackVm cc false) P2 text s2).2.proc ∧
    SameWords (Parser.parse ho3 fuel (simpleStackVm false) P1 text s1).2.state
      (Parser.parse ho4 fuel (stackVm cc false) P2 text s2).2.state := by
  obtain ⟨pd, a1, a2, a3, a4, a5, a6⟩ := textParser_data (Examples.simple_text_ok cc false) (Examples.simple_text cc false) h1
  obtain ⟨pd', b1, b2, b3, b4, b5, b6⟩ := textParser_data (Examples.stack_text_ok cc false) (Examples.stack_text cc false) h2
  refine C119_same_words a1 b1 ⟨?_, ?_, fun A => ?_⟩ a3 b3 a2 (fun A => ?_) (fun A => ?_) (fun d hd => ?_) cc ho3 ho4 fuel text hs
  · rw [a4, b4]; rfl
  · rw [a5, b5]; rfl
  · rw [a6, b6]; exact Examples.data_prods _ _ A
  · have := Examples.signed_instr A
    simpa only [instrOf, a6, b6] using this
  · have := Examples.unsigned_instr A
    simpa only [instrOf, a6] using this
  · refine Examples.texts_alike d ?_
    rcases hd with rfl | ⟨e, g1, g2⟩
    · exact .inl rfl
    · rw [a4] at g1
      rw [a5] at g2
      exact .inr ⟨e, g1, g2⟩

/-- **C119**, the calculator of `examples/simple_stack_based_math` and that of `examples/rust_defined_rules`. -/
theorem C119_rust_calculator {ho1 ho2 : HashOrder} {fuel1 fuel2 : Nat} {cc : CharClass} {P1 : Parser SInstr} {P2 : Parser Instr}
    (h1 : Parser.newFromText ho1 fuel1 cc (simpleStackVm false) Examples.simpleMathText = .ok P1)
    (h2 : Parser.newFromParserData ho2 fuel2 Examples.rustData.1 Examples.rustData.2 = .ok P2)
    (ho3 ho4 : HashOrder) (fuel : Nat) (text : Str) {s1 : SState} {s2 : VState} (hs : SameWords s1 s2) :
    (∀ t, (Parser.parse ho3 fuel (simpleStackVm false) P1 text s1).1 = .ok t ↔
      (Parser.parse ho4 fuel (stackVm cc false) P2 text s2).1 = .ok t) ∧
    (Parser.parse ho3 fuel (simpleStackVm false) P1 text s1).2.proc = (Parser.parse ho4 fuel (stackVm cc false) P2 text s2).2.proc ∧
    SameWords (Parser.parse ho3 fuel (simpleStackVm false) P1 text s1).2.state
      (Parser.parse ho4 fuel (stackVm cc false) P2 text s2).2.state := by
  obtain ⟨-, ⟨f, P, hP⟩, -⟩ := C53_examples_built .insertion cc false
  obtain ⟨a1, a2, a3⟩ := C119_calculators h1 hP ho3 ho4 fuel text hs
  obtain ⟨b1, b2⟩ := C117_same_calculator hP h2 ho4 ho4 fuel (stackVm cc false) text s2
  rw [b1] at a2 a3
  refine ⟨fun t => ?_, a2, a3⟩
  generalize (Parser.parse ho3 fuel (simpleStackVm false) P1 text s1).1 = x at a1
  generalize (Parser.parse ho4 fuel (stackVm cc false) P text s2).1 = y at a1 b2
  generalize (Parser.parse ho4 fuel (stackVm cc false) P2 text s2).1 = z at b2
  cases x <;> cases y <;> cases z <;> simp only [SameRes] at a1 b2 <;> simp_all

/-- Both calculators exist; from fresh machines and on every text they print the same words. -/
example (cc : CharClass) : ∃ (P1 : Parser SInstr) (P2 : Parser Instr), ∀ fuel text,
    (Parser.parse .insertion fuel (stackVm cc false) P2 text VState.init).2.state.out =
      (Parser.parse .insertion fuel (simpleStackVm false) P1 text SState.init).2.state.out.map (fun (n : Nat) => signed64 n) := by
  obtain ⟨⟨f1, P1, h1⟩, ⟨f2, P2, h2⟩, -⟩ := C53_examples_built .insertion cc false
  exact ⟨P1, P2, fun fuel text => (C119_calculators h1 h2 .insertion .insertion fuel text C119_fresh).2.2.out⟩

/-- The same with the calculator built by calls. -/
example (cc : CharClass) : ∃ (P1 : Parser SInstr) (P2 : Parser Instr), ∀ fuel text,
    (Parser.parse .insertion fuel (stackVm cc false) P2 text VState.init).2.state.error =
      (Parser.parse .insertion fuel (simpleStackVm false) P1 text SState.init).2.state.error := by
  obtain ⟨⟨f1, P1, h1⟩, -, ⟨f2, P2, h2⟩⟩ := C53_examples_built .insertion cc false
  exact ⟨P1, P2, fun fuel text => (C119_rust_calculator h1 h2 .insertion .insertion fuel text C119_fresh).2.2.error⟩

/-- States with the same words: three below zero is the unsigned 2^64 - 3. -/
example : SameWords ⟨[18446744073709551613, 5], 7, 0, 1, [2]⟩ ⟨[-3, 5], 7, 0, 1, 0, [], [2]⟩ := by
  refine ⟨by decide +kernel, by decide +kernel, by decide +kernel, rfl, by decide +kernel, ?_, by decide +kernel, by decide +kernel,
    ?_, by decide⟩
  · intro n h
    simp only [List.mem_cons, List.not_mem_nil, or_false] at h
    rcases h with rfl | rfl <;> decide +kernel
  · intro n h
    simp only [List.mem_cons, List.not_mem_nil, or_false] at h
    subst h
    decide +kernel

/-- C119_small_texts: digits and the other terminals of the calculators are read alike, and so is `+12`; `-1` and 2^63 are not. -/
example : ReadAlike (c% "+12") ∧ ReadAlike [] ∧ ¬ ReadAlike (c% "-1") ∧ ¬ ReadAlike (c% "9223372036854775808") := by
  refine ⟨C119_small_texts (by decide) ?_, C119_small_texts (by decide) ?_, by decide +kernel, by decide +kernel⟩
  · rintro s (rfl | h) hn
    · exact absurd (hn.2 '+' (by decide)) (by decide)
    · have : s = c% "12" := by
        have := congrArg List.tail h
        exact this.symm
      subst this
      decide +kernel
  · rintro s (rfl | h) hn
    · exact absurd rfl hn.1
    · cases h

end HPP
