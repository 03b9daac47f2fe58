import Verif.Props.TextParser
import Verif.Props.StackMachine
import Verif.Proofs.Ideal
import Verif.Props.Calculator
/-
Properties C65 and C66: the numbers of the stack machines compared with numbers of unlimited size, and panics.
-/
namespace HPP
open Spec

/-! ### the instructions of a parser -/

/-- Every instruction of the parser has the property. -/
def Spec.EveryInstr {I : Type} (P : Parser I) (Q : I → Prop) : Prop :=
  ∀ A r, AMap.get P.rules A = some r → ∀ i ∈ r.instr, Q i

theorem everyInstr_data {I : Type} {pd : ParserData I} {P : Parser I} {ho : HashOrder} {fuel st : Nat} (hw : WellFormed pd)
    (hP : Parser.newFromParserData ho fuel pd st = .ok P) {Q : I → Prop}
    (h : ∀ A r, pd.getRuleByKey A = some r → ∀ i ∈ r.instr, Q i) : EveryInstr P Q := by
  obtain ⟨-, hpf⟩ := newFromParserData_ok hw hP
  intro A R hR i hi
  have := hpf.rules A
  cases hg : AMap.get pd.rules A with
  | none => rw [hg] at this; simp only at this; rw [hR] at this; cases this
  | some r =>
    rw [hg] at this
    obtain ⟨R', h1, h2, -⟩ := this
    rw [hR] at h1; cases h1
    exact h A r hg i (h2 ▸ hi)

theorem ruleMeaning_instr {I : Type} {keys : List ElementVerbose} {rs : List (WrittenRule I)} {n : Str} {r : NTRule I}
    (h : ruleMeaning keys rs n = some r) : ∃ d ∈ rs, r.instr = d.instr := by
  simp only [ruleMeaning] at h
  cases hf : rs.filter (fun r => decide (r.name = n)) with
  | nil => rw [hf] at h; cases h
  | cons d ds =>
    rw [hf] at h
    simp only [Option.some.injEq] at h
    exact ⟨d, (List.mem_filter.1 (hf ▸ List.mem_cons_self : d ∈ rs.filter _)).1, by rw [← h]⟩

theorem Spec.RulesText.instr {I : Type} {cc : CharClass} {Sec : Str → Str → List I → Prop} {rs : List (WrittenRule I)}
    {text : Str} (h : RulesText cc Sec rs text) : ∀ d ∈ rs, d.instr = [] ∨ ∃ name body, Sec name body d.instr := by
  induction h with
  | nil => intro d hd; cases hd
  | cons _ hr _ ih =>
    intro d hd
    rcases List.mem_cons.1 hd with rfl | hd
    · cases hr with
      | mk _ _ _ _ _ _ _ hs _ =>
        cases hs with
        | absent => exact .inl rfl
        | given _ _ h => exact .inr ⟨_, _, h⟩
    · exact ih d hd

theorem everyInstr_text {I S : Type} {vm : VM I S} (hvm : OnlyReads vm) {ho : HashOrder} {fuel : Nat} {cc : CharClass}
    {text : Str} {P : Parser I} (h : Parser.newFromText ho fuel cc vm text = .ok P) {Q : I → Prop}
    (hq : ∀ name body instr, ReadsSectionIn vm name body instr → ∀ i ∈ instr, Q i) : EveryInstr P Q := by
  obtain ⟨rs, pd, st, h1, h2, h3, -, h5, -⟩ := C59_text_parser hvm h
  refine everyInstr_data h3 h5 ?_
  have key : ∀ n r, ruleMeaning (elementsOf rs) rs n = some r → ∀ i ∈ r.instr, Q i := by
    intro n r hr i hi
    obtain ⟨d, hd, he⟩ := ruleMeaning_instr hr
    rw [he] at hi
    rcases h1.instr d hd with h0 | ⟨nm, bd, hs⟩
    · rw [h0] at hi; cases hi
    · exact hq _ _ _ hs i hi
  intro A r hr i hi
  by_cases hn : ∃ n, (elementsOf rs)[A]? = some ⟨n, .nonTerminal⟩
  · obtain ⟨n, hn⟩ := hn
    cases hm : ruleMeaning (elementsOf rs) rs n with
    | none => rw [h2.undefined A n hn hm] at hr; cases hr
    | some r0 =>
      cases ho' : overrideOf rs n with
      | none =>
        rw [h2.plain A n r0 hn hm ho'] at hr
        cases hr; exact key n _ hm i hi
      | some j =>
        by_cases hu : NameUsesStar rs j n
        · rw [h2.own A n r0 j hn hm ho' hu] at hr
          cases hr; exact key n _ hm i hi
        · rw [h2.woven A n r0 j hn hm ho' hu] at hr
          cases hr; exact key n _ hm i hi
  · rw [h2.noName A (fun n hn' => hn ⟨n, hn'⟩)] at hr; cases hr

theorem asSigned_range {v : Nat} (h : v < 2 ^ 64) : -(2 ^ 63) ≤ asSigned v ∧ asSigned v < 2 ^ 63 := by
  simp only [asSigned]
  by_cases hv : v < 2 ^ 63
  · rw [if_pos hv]; omega
  · rw [if_neg hv]; omega

theorem instrText_const {cc : CharClass} {is : List Instr} {t : Str} (h : InstrText cc is t) :
    ∀ i ∈ is, Instr.ConstSigned i := by
  cases h with
  | plain hm =>
    intro i hi
    rw [List.mem_singleton] at hi
    subst hi
    simp only [plainTable, List.mem_cons, Prod.mk.injEq, List.not_mem_nil, or_false] at hm
    rcases hm with ⟨-, rfl⟩ | ⟨-, rfl⟩ | ⟨-, rfl⟩ | ⟨-, rfl⟩ | ⟨-, rfl⟩ | ⟨-, rfl⟩ | ⟨-, rfl⟩ | ⟨-, rfl⟩ | ⟨-, rfl⟩ |
      ⟨-, rfl⟩ | ⟨-, rfl⟩ | ⟨-, rfl⟩ <;> exact trivial
  | @const n g ds mk hm _ _ _ _ hv =>
    intro i hi
    rw [List.mem_singleton] at hi
    subst hi
    generalize decimalValue ds = v at hv
    simp only [constTable, List.mem_cons, Prod.mk.injEq, List.not_mem_nil, or_false] at hm
    rcases hm with ⟨-, rfl⟩ | ⟨-, rfl⟩ | ⟨-, rfl⟩
    · exact asSigned_range hv
    · exact asSigned_range hv
    · exact trivial
  | unknown => intro i hi; cases hi

theorem stackSection_const {cc : CharClass} {is : List Instr} {t : Str} (h : StackSection cc is t) :
    ∀ i ∈ is, Instr.ConstSigned i := by
  obtain ⟨g, t, -, -, h⟩ := h
  induction h with
  | nil => intro i hi; cases hi
  | cons h1 _ _ ih =>
    intro i hi
    rcases List.mem_append.1 hi with hi | hi
    · exact instrText_const h1 i hi
    · exact ih i hi

theorem simpleInstr_const (name : Str) : ∀ i ∈ simpleInstr name, SInstr.ConstUnsigned i := by
  have h1 : SInstr.ConstUnsigned (.pushConst 1) := by show 1 < 2 ^ 64; omega
  have h2 : SInstr.ConstUnsigned (.regAddConst 1) := by show 1 < 2 ^ 64; omega
  intro i hi
  simp only [simpleInstr] at hi
  by_cases e1 : name = c% "add"
  · rw [if_pos e1] at hi
    simp only [List.mem_cons, List.not_mem_nil, or_false] at hi
    rcases hi with rfl | rfl <;> exact trivial
  rw [if_neg e1] at hi
  by_cases e2 : name = c% "sub"
  · rw [if_pos e2] at hi
    simp only [List.mem_cons, List.not_mem_nil, or_false] at hi
    rcases hi with rfl | rfl <;> exact trivial
  rw [if_neg e2] at hi
  by_cases e3 : name = c% "number"
  · rw [if_pos e3] at hi
    simp only [List.mem_cons, List.not_mem_nil, or_false] at hi
    subst hi; exact trivial
  rw [if_neg e3] at hi
  by_cases e4 : name = c% "digit"
  · rw [if_pos e4] at hi
    simp only [List.mem_cons, List.not_mem_nil, or_false] at hi
    rcases hi with rfl | rfl
    · exact trivial
    · exact h1
  rw [if_neg e4] at hi
  by_cases e5 : name = c% "number_s_"
  · rw [if_pos e5] at hi
    simp only [List.mem_cons, List.not_mem_nil, or_false] at hi
    rcases hi with rfl | rfl | rfl | rfl | rfl | rfl
    · exact trivial
    · exact trivial
    · exact trivial
    · exact trivial
    · exact h2
    · exact trivial
  rw [if_neg e5] at hi
  by_cases e6 : name = c% "print"
  · rw [if_pos e6] at hi
    simp only [List.mem_cons, List.not_mem_nil, or_false] at hi
    rcases hi with rfl | rfl <;> exact trivial
  rw [if_neg e6] at hi
  cases hi

/-! ### C65 -/

/-- The two parses end alike: same outcome (tree or error), same unread text and position, related states. -/
def Spec.SameParse {S1 S2 : Type} (R : S1 → S2 → Prop) (x : Res PErr (Tree Str) × Ctx S1) (y : Res PErr (Tree Str) × Ctx S2) :
    Prop :=
  x.1 = y.1 ∧ x.2.proc = y.2.proc ∧ R x.2.state y.2.state

/-- Neither parse panics or both do, and then nothing else is said. -/
def Spec.PanicTogether {S1 S2 : Type} (x : Res PErr (Tree Str) × Ctx S1) (y : Res PErr (Tree Str) × Ctx S2) : Prop :=
  x.1 = .panic ∧ y.1 = .panic

theorem simConv {S1 S2 : Type} {R : S1 → S2 → Prop} {x : Res PErr (Tree Str) × Ctx S1} {y : Res PErr (Tree Str) × Ctx S2}
    (h : (x.1 = .panic ∧ (False ∨ y.1 = .panic)) ∨ (x.1 = y.1 ∧ x.2.proc = y.2.proc ∧ R x.2.state y.2.state)) :
    PanicTogether x y ∨ SameParse R x y := by
  rcases h with ⟨h1, h | h2⟩ | h
  · exact h.elim
  · exact .inl ⟨h1, h2⟩
  · exact .inr h

theorem simConvTrue {S1 S2 : Type} {R : S1 → S2 → Prop} {x : Res PErr (Tree Str) × Ctx S1}
    {y : Res PErr (Tree Str) × Ctx S2}
    (h : (x.1 = .panic ∧ (True ∨ y.1 = .panic)) ∨ (x.1 = y.1 ∧ x.2.proc = y.2.proc ∧ R x.2.state y.2.state)) :
    x.1 = .panic ∨ SameParse R x y :=
  h.imp (fun h => h.1) (fun h => h)

/-- **C65**, StackVm without overflow checks: any parser whose constants are 64-bit numbers behaves on any text like the
one with numbers of unlimited size, every number being reduced modulo 2^64. -/
theorem C65_stack_release (cc : CharClass) (P : Parser Instr) (hP : EveryInstr P Instr.ConstSigned) (ho : HashOrder)
    (fuel : Nat) (text : Str) {s : VState} {S : Ideal} (hs : SignedModulo s S) :
    PanicTogether (Parser.parse ho fuel (stackVm cc false) P text s) (Parser.parse ho fuel (idealStackVm cc) P text S) ∨
    SameParse SignedModulo (Parser.parse ho fuel (stackVm cc false) P text s)
      (Parser.parse ho fuel (idealStackVm cc) P text S) :=
  simConv (RSim.parse ho P (fun A r hr i hi => exec_stack_unchecked cc (hP A r hr i hi)) fuel text hs)

/-- **C65**, StackVm with overflow checks: it panics or gives the same numbers modulo 2^64. -/
theorem C65_stack_debug (cc : CharClass) (P : Parser Instr) (hP : EveryInstr P Instr.ConstSigned) (ho : HashOrder)
    (fuel : Nat) (text : Str) {s : VState} {S : Ideal} (hs : SignedModulo s S) :
    (Parser.parse ho fuel (stackVm cc true) P text s).1 = .panic ∨
    SameParse SignedModulo (Parser.parse ho fuel (stackVm cc true) P text s)
      (Parser.parse ho fuel (idealStackVm cc) P text S) :=
  simConvTrue (RSim.parse ho P (fun A r hr i hi => exec_stack_checked cc (hP A r hr i hi)) fuel text hs)

/-- **C65**, StackVm with overflow checks and without `Pow`: it panics exactly when a sum or difference leaves the signed
range, and otherwise gives exactly the numbers of unlimited size. -/
theorem C65_stack_debug_exact (cc : CharClass) (P : Parser Instr) (hP : EveryInstr P (fun i => Instr.isPow i = false))
    (ho : HashOrder) (fuel : Nat) (text : Str) {s : VState} {S : Ideal} (hs : SignedExact s S) :
    PanicTogether (Parser.parse ho fuel (stackVm cc true) P text s)
      (Parser.parse ho fuel (guardVm (idealStackVm cc) (fun S i => S.fits isSigned64 i)) P text S) ∨
    SameParse SignedExact (Parser.parse ho fuel (stackVm cc true) P text s)
      (Parser.parse ho fuel (guardVm (idealStackVm cc) (fun S i => S.fits isSigned64 i)) P text S) :=
  simConv (RSim.parse ho P (fun A r hr i hi => (exec_stack_exact cc (hP A r hr i hi)).guard
    (fun t id s1 s2 hj h => exec_stack_panics cc (hP A r hr i hi) t id s1 s2 hj h)) fuel text hs)

/-- **C65**, SimpleStackVm without overflow checks: like the machine with numbers of unlimited size, modulo 2^64. -/
theorem C65_simple_release (P : Parser SInstr) (hP : EveryInstr P SInstr.ConstUnsigned) (ho : HashOrder)
    (fuel : Nat) (text : Str) {s : SState} {S : Ideal} (hs : UnsignedModulo s S) :
    PanicTogether (Parser.parse ho fuel (simpleStackVm false) P text s) (Parser.parse ho fuel idealSimpleVm P text S) ∨
    SameParse UnsignedModulo (Parser.parse ho fuel (simpleStackVm false) P text s)
      (Parser.parse ho fuel idealSimpleVm P text S) :=
  simConv (RSim.parse ho P (fun A r hr i hi => exec_simple_unchecked (hP A r hr i hi)) fuel text hs)

/-- **C65**, SimpleStackVm with overflow checks: it panics exactly when a number leaves the unsigned range, and otherwise
gives exactly the numbers of unlimited size. -/
theorem C65_simple_debug_exact (P : Parser SInstr) (ho : HashOrder) (fuel : Nat) (text : Str) {s : SState} {S : Ideal}
    (hs : UnsignedExact s S) :
    PanicTogether (Parser.parse ho fuel (simpleStackVm true) P text s)
      (Parser.parse ho fuel (guardVm idealSimpleVm (fun S i => S.fits isUnsigned64 (SInstr.general i))) P text S) ∨
    SameParse UnsignedExact (Parser.parse ho fuel (simpleStackVm true) P text s)
      (Parser.parse ho fuel (guardVm idealSimpleVm (fun S i => S.fits isUnsigned64 (SInstr.general i))) P text S) :=
  simConv (RSim.parse ho P (fun _ _ _ i _ => (exec_simple_checked i).guard
    (fun t id s1 s2 hj h => exec_simple_panics i t id s1 s2 hj h)) fuel text hs)

/-- **C65**, the constants of a parser made from a rule text are always in range. -/
theorem C65_text_constants {ho : HashOrder} {fuel : Nat} {cc : CharClass} {checked : Bool} {text : Str} :
    (∀ P, Parser.newFromText ho fuel cc (stackVm cc checked) text = .ok P → EveryInstr P Instr.ConstSigned) ∧
    (∀ P, Parser.newFromText ho fuel cc (simpleStackVm checked) text = .ok P → EveryInstr P SInstr.ConstUnsigned) := by
  constructor
  · intro P h
    exact everyInstr_text (stackVm_onlyReads cc checked) h fun n b is hs => stackSection_const (stackVm_reads_sound hs)
  · intro P h
    refine everyInstr_text (simpleStackVm_onlyReads checked) h fun n b is hs => ?_
    rw [(simpleInstr_iff _ _).1 ((simpleStackVm_reads checked n b is).1 ((simpleStackVm_reads_in checked n b is).1 hs)).1]
    exact simpleInstr_const n

/-- The fresh states are related. -/
theorem C65_fresh : SignedModulo VState.init ⟨[], 0, 0, 0, []⟩ ∧ SignedExact VState.init ⟨[], 0, 0, 0, []⟩ ∧
    UnsignedModulo SState.init ⟨[], 0, 0, 0, []⟩ ∧ UnsignedExact SState.init ⟨[], 0, 0, 0, []⟩ :=
  ⟨⟨rfl, rfl, rfl, rfl, rfl, Nat.zero_le 2⟩, ⟨rfl, rfl, rfl, rfl, rfl⟩, ⟨rfl, rfl, rfl, rfl, rfl, Nat.zero_le 2⟩,
    ⟨rfl, rfl, rfl, rfl, rfl⟩⟩

/-! ### C66 -/

/-- **C66.** A parser without overflow checks never panics while parsing, whatever its rules, the text and the state; the
only errors are an unexpected character or the end of the text. -/
theorem C66_stack_release_never_panics {pd : ParserData Instr} {P : Parser Instr} {ho0 : HashOrder} {fuel0 start : Nat}
    (hw : WellFormed pd) (hP : Parser.newFromParserData ho0 fuel0 pd start = .ok P) (hs : StartSymbol pd start)
    (cc : CharClass) (ho : HashOrder) (fuel : Nat) (text : Str) (s : VState) :
    (Parser.parse ho fuel (stackVm cc false) P text s).1 ≠ .panic ∧
    ∀ e, (Parser.parse ho fuel (stackVm cc false) P text s).1 = .err e →
      (∃ chr pos exp, e = .unexpectedChar chr pos exp) ∨ (∃ pos, e = .endOfChars pos) :=
  parse_calm hw hP hs _ (stackVm_treePreserving cc false) (fun i t id s h => exec_stack_release cc i t id s h) ho fuel text s

/-- **C66** for SimpleStackVm. -/
theorem C66_simple_release_never_panics {pd : ParserData SInstr} {P : Parser SInstr} {ho0 : HashOrder} {fuel0 start : Nat}
    (hw : WellFormed pd) (hP : Parser.newFromParserData ho0 fuel0 pd start = .ok P) (hs : StartSymbol pd start)
    (ho : HashOrder) (fuel : Nat) (text : Str) (s : SState) :
    (Parser.parse ho fuel (simpleStackVm false) P text s).1 ≠ .panic ∧
    ∀ e, (Parser.parse ho fuel (simpleStackVm false) P text s).1 = .err e →
      (∃ chr pos exp, e = .unexpectedChar chr pos exp) ∨ (∃ pos, e = .endOfChars pos) :=
  parse_calm hw hP hs _ (simpleStackVm_treePreserving false) (fun i t id s h => exec_simple_release i t id s h) ho fuel
    text s

/-- **C66** for parsers made from rule texts: nothing has to be assumed about the text of the rules. -/
theorem C66_text_release_never_panics {ho0 : HashOrder} {fuel0 : Nat} {cc : CharClass} {rules : Str} (ho : HashOrder)
    (fuel : Nat) (text : Str) :
    (∀ P, Parser.newFromText ho0 fuel0 cc (stackVm cc false) rules = .ok P → ∀ s,
      (Parser.parse ho fuel (stackVm cc false) P text s).1 ≠ .panic ∧
      ∀ e, (Parser.parse ho fuel (stackVm cc false) P text s).1 = .err e →
        (∃ chr pos exp, e = .unexpectedChar chr pos exp) ∨ (∃ pos, e = .endOfChars pos)) ∧
    (∀ P, Parser.newFromText ho0 fuel0 cc (simpleStackVm false) rules = .ok P → ∀ s,
      (Parser.parse ho fuel (simpleStackVm false) P text s).1 ≠ .panic ∧
      ∀ e, (Parser.parse ho fuel (simpleStackVm false) P text s).1 = .err e →
        (∃ chr pos exp, e = .unexpectedChar chr pos exp) ∨ (∃ pos, e = .endOfChars pos)) := by
  constructor
  · intro P h s
    obtain ⟨rs, pd, st, -, -, h3, h4, h5, -⟩ := C59_text_parser (stackVm_onlyReads cc false) h
    exact C66_stack_release_never_panics h3 h5 h4 cc ho fuel text s
  · intro P h s
    obtain ⟨rs, pd, st, -, -, h3, h4, h5, -⟩ := C59_text_parser (simpleStackVm_onlyReads false) h
    exact C66_simple_release_never_panics h3 h5 h4 ho fuel text s

/-- A text whose machine leaves the signed range. -/
def Examples.overflowText : Str :=
  c% "start -> \"a\" {PushConst 9223372036854775807; PopToReg; RegAddConst 1; PrintReg;};"

/-- What the parser of a text does with the script `a`: the number printed with unlimited numbers, by a release build,
whether a debug build panics, whether no instruction is a `Pow`. -/
def Examples.overflowRun (x : Res PErr (Parser Instr)) : Option (List Int × List Int × Bool × Bool) :=
  match x with
  | .ok P => some
    ((Parser.parse .insertion 50 (idealStackVm .ascii) P (c% "a") ⟨[], 0, 0, 0, []⟩).2.state.out,
      (Parser.parse .insertion 50 (stackVm .ascii false) P (c% "a") VState.init).2.state.out,
      (match (Parser.parse .insertion 50 (stackVm .ascii true) P (c% "a") VState.init).1 with
        | .panic => true
        | _ => false),
      P.rules.all (fun x => x.2.instr.all (fun i => !Instr.isPow i)))
  | _ => none

/-- A concrete case: the parser exists; unlimited numbers print 2^63, a release build prints -2^63, a debug build
panics; no instruction is a `Pow`. -/
example : Examples.overflowRun (Parser.newFromText .insertion 50 .ascii (stackVm .ascii false) Examples.overflowText) =
    some ([2 ^ 63], [-(2 ^ 63)], true, true) := by
  decide +kernel

end HPP
