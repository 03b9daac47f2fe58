import Verif.Proofs.VmPanic
/-
Properties C51 and C60: instructions of the stack machines one by one; panics of instructions.
-/
namespace HPP
open Spec
variable {I S : Type}

/-! ### C51 -/

/-- The instructions of SimpleStackVm that take an operand from the stack. -/
def Spec.SInstr.takes : SInstr → Bool
  | .add | .sub | .popToReg | .popToReg2 | .popDiscard | .pow _ => true
  | .regAddConst _ | .digit | .pushConst _ | .pushFromTree | .pushReg | .pushReg2 | .printReg | .printReg2
  | .printError => false

/-- The instructions of StackVm that take an operand from the stack. -/
def Spec.Instr.takes : Instr → Bool
  | .add | .sub | .popToReg | .popToReg2 | .popDiscard | .pow _ => true
  | .regAddConst _ | .digit | .pushConst _ | .pushFromTree | .pushReg | .pushReg2 | .printReg | .printReg2
  | .printError => false

/-- **C51**, SimpleStackVm: an instruction that takes an operand, run on an empty stack, sets the error code to 1 and
changes nothing else. -/
theorem C51_underflow_simple (checked : Bool) (t : Tree Str) (id : NodeId) {i : SInstr} {s : SState}
    (hs : s.stack = []) (hi : Spec.SInstr.takes i = true) :
    (simpleStackVm checked).execute t id i s = some (t, { s with error := 1 }) := by
  cases i <;> first | (simp [simpleStackVm, simpleExec, hs]; done) | exact absurd hi Bool.false_ne_true

/-- **C51**, StackVm. -/
theorem C51_underflow (cc : CharClass) (checked : Bool) (t : Tree Str) (id : NodeId) {i : Instr} {s : VState}
    (hs : s.stack = []) (hi : Spec.Instr.takes i = true) :
    (stackVm cc checked).execute t id i s = some (t, { s with error := 1 }) := by
  cases i <;> first | (simp [stackVm, stackExec, hs]; done) | exact absurd hi Bool.false_ne_true

/-- **C51**, SimpleStackVm: no instruction resets the error code; it only changes when an operand or a tree node is
missing (to 1) or the text of the node is no number (to 2). -/
theorem C51_error_kept_simple (checked : Bool) {t t' : Tree Str} {id : NodeId} {i : SInstr} {s s' : SState}
    (h : (simpleStackVm checked).execute t id i s = some (t', s')) :
    t' = t ∧ (s'.error = s.error ∨ s'.error = 1 ∧ (s.stack = [] ∧ Spec.SInstr.takes i = true ∨ i = .pushFromTree) ∨
      s'.error = 2 ∧ i = .pushFromTree) := by
  simp only [simpleStackVm, Option.map_eq_some_iff, Prod.mk.injEq] at h
  obtain ⟨s1, h, rfl, rfl⟩ := h
  refine ⟨rfl, ?_⟩
  cases i with
  | pushFromTree =>
    simp only [simpleExec] at h
    rcases hd : firstChildData t id with _ | _ | d
    · rw [hd] at h; cases h
    · rw [hd] at h
      simp only [Option.some.injEq] at h
      subst h
      exact .inr (.inl ⟨rfl, .inr rfl⟩)
    · rw [hd] at h
      simp only at h
      rcases hu : strToUsize d with _ | v
      · rw [hu] at h
        simp only [Option.some.injEq] at h
        subst h
        exact .inr (.inr ⟨rfl, rfl⟩)
      · rw [hu] at h
        simp only [Option.some.injEq] at h
        subst h
        exact .inl rfl
  | regAddConst c =>
    simp only [simpleExec, Option.map_eq_some_iff] at h
    obtain ⟨r, -, rfl⟩ := h
    exact .inl rfl
  | digit => simp only [simpleExec, Option.some.injEq] at h; subst h; exact .inl rfl
  | pushConst c => simp only [simpleExec, Option.some.injEq] at h; subst h; exact .inl rfl
  | pushReg => simp only [simpleExec, Option.some.injEq] at h; subst h; exact .inl rfl
  | pushReg2 => simp only [simpleExec, Option.some.injEq] at h; subst h; exact .inl rfl
  | printReg => simp only [simpleExec, Option.some.injEq] at h; subst h; exact .inl rfl
  | printReg2 => simp only [simpleExec, Option.some.injEq] at h; subst h; exact .inl rfl
  | printError => simp only [simpleExec, Option.some.injEq] at h; subst h; exact .inl rfl
  | add =>
    cases hst : s.stack with
    | nil => simp only [simpleExec, hst, Option.some.injEq] at h; subst h; exact .inr (.inl ⟨rfl, .inl ⟨rfl, rfl⟩⟩)
    | cons v st =>
      simp only [simpleExec, hst, Option.map_eq_some_iff] at h
      obtain ⟨r, -, rfl⟩ := h
      exact .inl rfl
  | sub =>
    cases hst : s.stack with
    | nil => simp only [simpleExec, hst, Option.some.injEq] at h; subst h; exact .inr (.inl ⟨rfl, .inl ⟨rfl, rfl⟩⟩)
    | cons v st =>
      simp only [simpleExec, hst, Option.map_eq_some_iff] at h
      obtain ⟨r, -, rfl⟩ := h
      exact .inl rfl
  | popToReg =>
    cases hst : s.stack with
    | nil => simp only [simpleExec, hst, Option.some.injEq] at h; subst h; exact .inr (.inl ⟨rfl, .inl ⟨rfl, rfl⟩⟩)
    | cons v st => simp only [simpleExec, hst, Option.some.injEq] at h; subst h; exact .inl rfl
  | popToReg2 =>
    cases hst : s.stack with
    | nil => simp only [simpleExec, hst, Option.some.injEq] at h; subst h; exact .inr (.inl ⟨rfl, .inl ⟨rfl, rfl⟩⟩)
    | cons v st => simp only [simpleExec, hst, Option.some.injEq] at h; subst h; exact .inl rfl
  | popDiscard =>
    cases hst : s.stack with
    | nil => simp only [simpleExec, hst, Option.some.injEq] at h; subst h; exact .inr (.inl ⟨rfl, .inl ⟨rfl, rfl⟩⟩)
    | cons v st => simp only [simpleExec, hst, Option.some.injEq] at h; subst h; exact .inl rfl
  | pow b =>
    cases hst : s.stack with
    | nil => simp only [simpleExec, hst, Option.some.injEq] at h; subst h; exact .inr (.inl ⟨rfl, .inl ⟨rfl, rfl⟩⟩)
    | cons v st =>
      simp only [simpleExec, hst, Option.bind_eq_bind, Option.bind_eq_some_iff, Option.some.injEq] at h
      obtain ⟨p, -, m, -, r, -, rfl⟩ := h
      exact .inl rfl

/-- **C51**, StackVm: no instruction resets the error code; it only changes when an operand or a tree node is missing
(to 1) or the text of the node is no number (to 2). -/
theorem C51_error_kept (cc : CharClass) (checked : Bool) {t t' : Tree Str} {id : NodeId} {i : Instr} {s s' : VState}
    (h : (stackVm cc checked).execute t id i s = some (t', s')) :
    t' = t ∧ (s'.error = s.error ∨ s'.error = 1 ∧ (s.stack = [] ∧ Spec.Instr.takes i = true ∨ i = .pushFromTree) ∨
      s'.error = 2 ∧ i = .pushFromTree) := by
  simp only [stackVm, Option.map_eq_some_iff, Prod.mk.injEq] at h
  obtain ⟨s1, h, rfl, rfl⟩ := h
  refine ⟨rfl, ?_⟩
  cases i with
  | pushFromTree =>
    simp only [stackExec] at h
    rcases hd : firstChildData t id with _ | _ | d
    · rw [hd] at h; cases h
    · rw [hd] at h
      simp only [Option.some.injEq] at h
      subst h
      exact .inr (.inl ⟨rfl, .inr rfl⟩)
    · rw [hd] at h
      simp only at h
      rcases hu : strToIsize d with _ | v
      · rw [hu] at h
        simp only [Option.some.injEq] at h
        subst h
        exact .inr (.inr ⟨rfl, rfl⟩)
      · rw [hu] at h
        simp only [Option.some.injEq] at h
        subst h
        exact .inl rfl
  | regAddConst c =>
    simp only [stackExec, Option.map_eq_some_iff] at h
    obtain ⟨r, -, rfl⟩ := h
    exact .inl rfl
  | digit => simp only [stackExec, Option.some.injEq] at h; subst h; exact .inl rfl
  | pushConst c => simp only [stackExec, Option.some.injEq] at h; subst h; exact .inl rfl
  | pushReg => simp only [stackExec, Option.some.injEq] at h; subst h; exact .inl rfl
  | pushReg2 => simp only [stackExec, Option.some.injEq] at h; subst h; exact .inl rfl
  | printReg => simp only [stackExec, Option.some.injEq] at h; subst h; exact .inl rfl
  | printReg2 => simp only [stackExec, Option.some.injEq] at h; subst h; exact .inl rfl
  | printError => simp only [stackExec, Option.some.injEq] at h; subst h; exact .inl rfl
  | add =>
    cases hst : s.stack with
    | nil => simp only [stackExec, hst, Option.some.injEq] at h; subst h; exact .inr (.inl ⟨rfl, .inl ⟨rfl, rfl⟩⟩)
    | cons v st =>
      simp only [stackExec, hst, Option.map_eq_some_iff] at h
      obtain ⟨r, -, rfl⟩ := h
      exact .inl rfl
  | sub =>
    cases hst : s.stack with
    | nil => simp only [stackExec, hst, Option.some.injEq] at h; subst h; exact .inr (.inl ⟨rfl, .inl ⟨rfl, rfl⟩⟩)
    | cons v st =>
      simp only [stackExec, hst, Option.map_eq_some_iff] at h
      obtain ⟨r, -, rfl⟩ := h
      exact .inl rfl
  | popToReg =>
    cases hst : s.stack with
    | nil => simp only [stackExec, hst, Option.some.injEq] at h; subst h; exact .inr (.inl ⟨rfl, .inl ⟨rfl, rfl⟩⟩)
    | cons v st => simp only [stackExec, hst, Option.some.injEq] at h; subst h; exact .inl rfl
  | popToReg2 =>
    cases hst : s.stack with
    | nil => simp only [stackExec, hst, Option.some.injEq] at h; subst h; exact .inr (.inl ⟨rfl, .inl ⟨rfl, rfl⟩⟩)
    | cons v st => simp only [stackExec, hst, Option.some.injEq] at h; subst h; exact .inl rfl
  | popDiscard =>
    cases hst : s.stack with
    | nil => simp only [stackExec, hst, Option.some.injEq] at h; subst h; exact .inr (.inl ⟨rfl, .inl ⟨rfl, rfl⟩⟩)
    | cons v st => simp only [stackExec, hst, Option.some.injEq] at h; subst h; exact .inl rfl
  | pow b =>
    cases hst : s.stack with
    | nil => simp only [stackExec, hst, Option.some.injEq] at h; subst h; exact .inr (.inl ⟨rfl, .inl ⟨rfl, rfl⟩⟩)
    | cons v st =>
      simp only [stackExec, hst, Option.bind_eq_bind, Option.bind_eq_some_iff, Option.some.injEq] at h
      obtain ⟨p, -, m, -, r, -, rfl⟩ := h
      exact .inl rfl

theorem simpleStackVm_treePreserving (checked : Bool) : TreePreserving (simpleStackVm checked) :=
  fun _ _ _ _ _ _ h => (C51_error_kept_simple checked h).1

theorem stackVm_treePreserving (cc : CharClass) (checked : Bool) : TreePreserving (stackVm cc checked) :=
  fun _ _ _ _ _ _ h => (C51_error_kept cc checked h).1

/-- **C51** over whole parses, SimpleStackVm: an error code that is set before a parse is still set after it, whatever the
parser, the script and the outcome of the parse. -/
theorem C51_error_kept_parse_simple (checked : Bool) (ho : HashOrder) (fuel : Nat) (P : Parser SInstr) (text : Str)
    (s : SState) (h : s.error ≠ 0) : (Parser.parse ho fuel (simpleStackVm checked) P text s).2.state.error ≠ 0 :=
  Keeps.parse (R := fun (a b : SState) => a.error ≠ 0 → b.error ≠ 0) (fun _ h => h) (fun _ _ _ h1 h2 h => h2 (h1 h))
    (fun _ _ _ _ _ _ he h => by
      rcases (C51_error_kept_simple checked he).2 with h1 | ⟨h1, -⟩ | ⟨h1, -⟩ <;> rw [h1]
      · exact h
      · decide
      · decide) ho P fuel text s h

/-- **C51** over whole parses, StackVm. -/
theorem C51_error_kept_parse (cc : CharClass) (checked : Bool) (ho : HashOrder) (fuel : Nat) (P : Parser Instr) (text : Str)
    (s : VState) (h : s.error ≠ 0) : (Parser.parse ho fuel (stackVm cc checked) P text s).2.state.error ≠ 0 :=
  Keeps.parse (R := fun (a b : VState) => a.error ≠ 0 → b.error ≠ 0) (fun _ h => h) (fun _ _ _ h1 h2 h => h2 (h1 h))
    (fun _ _ _ _ _ _ he h => by
      rcases (C51_error_kept cc checked he).2 with h1 | ⟨h1, -⟩ | ⟨h1, -⟩ <;> rw [h1]
      · exact h
      · decide
      · decide) ho P fuel text s h

/-- The hypotheses are met: the fresh state has an empty stack, `Add` takes an operand, and running it gives a state with
the error code set, in which pushing a constant leaves the code as it is. -/
example : (stackVm .ascii true).execute Tree.new ⟨0, 0⟩ .add VState.init = some (Tree.new, { VState.init with error := 1 }) ∧
    (stackVm .ascii true).execute Tree.new ⟨0, 0⟩ (.pushConst 7) { VState.init with error := 1 } =
      some (Tree.new, { VState.init with error := 1, stack := [7] }) ∧
    (simpleStackVm true).execute Tree.new ⟨0, 0⟩ (.pow 10) SState.init = some (Tree.new, { SState.init with error := 1 }) :=
  ⟨C51_underflow _ _ _ _ rfl rfl, rfl, C51_underflow_simple _ _ _ rfl rfl⟩

/-! ### C60 -/

/-- **C60.** A script of the language is accepted and read to its end, unless one of the instructions that its own parse
tree asks for panics: then the instructions of all earlier occurrences (in post-order) were run, and the panicking run is
that of the next one. -/
theorem C60_accepts_or_vm_panics {pd : ParserData I} {P : Parser I} {ho0 : HashOrder} {fuel0 start : Nat}
    (hw : WellFormed pd) (hP : Parser.newFromParserData ho0 fuel0 pd start = .ok P) (hs : StartSymbol pd start)
    (vm : VM I S) (htp : TreePreserving vm) {text : Str} {f : Forest} (hf : IsForest pd [start] f text) :
    ∃ N, ∀ fuel, N ≤ fuel → ∀ (ho : HashOrder) (s : S),
      (∃ t c, Parser.parse ho fuel vm P text s = (.ok t, c) ∧ c.proc.rest = [] ∧ Runs vm pd (events pd 0 f) s c.state) ∨
      (∃ c evs1 ev evs2 s1 τ, Parser.parse ho fuel vm P text s = (.panic, c) ∧ events pd 0 f = evs1 ++ ev :: evs2 ∧
        Runs vm pd evs1 s s1 ∧ Shows τ ⟨ev.num, ev.num⟩ ev.sub ∧
        ExecPanics vm ⟨ev.num, ev.num⟩ (instrOf pd ev.nt) (τ, s1)) :=
  parse_valid hw hP hs vm htp hf

/-- **C60**, any script: with a VM that does not edit the tree, `parse` never panics by itself; if it panics, then because
the VM panics on some instruction. -/
theorem C60_only_vm_panics {pd : ParserData I} {P : Parser I} {ho0 : HashOrder} {fuel0 start : Nat}
    (hw : WellFormed pd) (hP : Parser.newFromParserData ho0 fuel0 pd start = .ok P) (hs : StartSymbol pd start)
    (vm : VM I S) (htp : TreePreserving vm) {ho : HashOrder} {fuel : Nat} {text : Str} {s : S}
    (h : (Parser.parse ho fuel vm P text s).1 = .panic) : ∃ τ id i s', vm.execute τ id i s' = none := by
  refine Classical.byContradiction fun hn => ?_
  have htot : Total vm := fun t id i s he => hn ⟨t, id, i, s, he⟩
  exact (C29_only_syntax_errors (ho := ho) (fuel := fuel) hw hP hs vm htp htot text s).1 h

end HPP
