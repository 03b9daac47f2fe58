import Verif.Props.StackMachine
import Verif.Props.Counting
/-
C109: new machines, and what parsing never touches.
-/
namespace HPP
open Spec

/-- **C109**, new machines: the states made by `create_new_state` have an empty stack, and printing either register or the error
code of a new machine prints 0 as the only output; a new counter counts from 0. -/
theorem C109_new_machine (cc : CharClass) (checked : Bool) (t : Tree Str) (id : NodeId) :
    ((simpleStackVm checked).init.stack = [] ∧ ∀ i, i = .printReg ∨ i = .printReg2 ∨ i = .printError →
      ∃ s, (simpleStackVm checked).execute t id i (simpleStackVm checked).init = some (t, s) ∧ s.out = [0]) ∧
    ((stackVm cc checked).init.stack = [] ∧ ∀ i, i = .printReg ∨ i = .printReg2 ∨ i = .printError →
      ∃ s, (stackVm cc checked).execute t id i (stackVm cc checked).init = some (t, s) ∧ s.out = [0]) := by
  refine ⟨⟨rfl, ?_⟩, rfl, ?_⟩
  · rintro i (rfl | rfl | rfl) <;> exact ⟨_, rfl, rfl⟩
  · rintro i (rfl | rfl | rfl) <;> exact ⟨_, rfl, rfl⟩

/-- **C109**, CountingVm from a new counter: after a successful parse the state is the number of occurrences of names with
sections (modulo `2 ^ 64`). -/
theorem C109_new_counter {cc : CharClass} (hcc : SpaceOk cc) {checked0 checked : Bool} {rs : List (WrittenRule Nat)} {text : Str}
    (h : RulesText cc (ReadsSection (countingVm checked0)) rs text) {ho0 : HashOrder} {fuel0 : Nat} {P : Parser Nat}
    (hP : Parser.newFromText ho0 fuel0 cc (countingVm checked0) text = .ok P) {ho : HashOrder} {fuel : Nat} {script : Str}
    {t : Tree Str} {c : Ctx Nat} (hp : Parser.parse ho fuel (countingVm checked) P script (countingVm checked).init = (.ok t, c)) :
    ∃ consumed ns, script = consumed ++ c.proc.rest ∧ Occurring rs [⟨c% "start", .nonTerminal⟩] ns consumed ∧
      c.state = sectionsAmong rs ns % 2 ^ 64 := by
  obtain ⟨x, ns, h1, h2, h3, -⟩ := C54_text_counts hcc h hP (s := (countingVm checked).init) (show 0 < 2 ^ 64 by decide) hp
  refine ⟨x, ns, h1, h2, ?_⟩
  rw [h3]
  exact congrArg (· % 2 ^ 64) (Nat.zero_add _)

theorem simpleExec_out {checked : Bool} {t : Tree Str} {id : NodeId} {i : SInstr} {s s' : SState}
    (h : simpleExec checked t id i s = some s') : s.out <+: s'.out := by
  unfold simpleExec at h
  cases i <;> simp only at h
  case pow base =>
    split at h
    · simp only [Option.bind_eq_bind, Option.bind_eq_some_iff, Option.some.injEq] at h
      obtain ⟨_, _, _, _, _, _, rfl⟩ := h
      exact List.prefix_rfl
    · cases h; exact List.prefix_rfl
  case pushFromTree =>
    split at h
    · cases h
    · cases h; exact List.prefix_rfl
    · split at h <;> (cases h; exact List.prefix_rfl)
  all_goals first
    | (simp only [Option.some.injEq] at h; subst h; exact List.prefix_rfl)
    | (simp only [Option.some.injEq] at h; subst h; exact List.prefix_append _ _)
    | (simp only [Option.map_eq_some_iff] at h; obtain ⟨_, -, rfl⟩ := h; exact List.prefix_rfl)
    | (split at h
       · first
         | (simp only [Option.some.injEq] at h; subst h; exact List.prefix_rfl)
         | (simp only [Option.map_eq_some_iff] at h; obtain ⟨_, -, rfl⟩ := h; exact List.prefix_rfl)
       · simp only [Option.some.injEq] at h; subst h; exact List.prefix_rfl)

theorem stackExec_keeps {checked : Bool} {t : Tree Str} {id : NodeId} {i : Instr} {s s' : VState}
    (h : stackExec checked t id i s = some s') :
    s.out <+: s'.out ∧ s'.instructionCounter = s.instructionCounter ∧ s'.instructions = s.instructions := by
  unfold stackExec at h
  cases i <;> simp only at h
  case pow base =>
    split at h
    · simp only [Option.bind_eq_bind, Option.bind_eq_some_iff, Option.some.injEq] at h
      obtain ⟨_, _, _, _, _, _, rfl⟩ := h
      exact ⟨List.prefix_rfl, rfl, rfl⟩
    · cases h; exact ⟨List.prefix_rfl, rfl, rfl⟩
  case pushFromTree =>
    split at h
    · cases h
    · cases h; exact ⟨List.prefix_rfl, rfl, rfl⟩
    · split at h <;> (cases h; exact ⟨List.prefix_rfl, rfl, rfl⟩)
  all_goals first
    | (simp only [Option.some.injEq] at h; subst h; exact ⟨List.prefix_rfl, rfl, rfl⟩)
    | (simp only [Option.some.injEq] at h; subst h; exact ⟨List.prefix_append _ _, rfl, rfl⟩)
    | (simp only [Option.map_eq_some_iff] at h; obtain ⟨_, -, rfl⟩ := h; exact ⟨List.prefix_rfl, rfl, rfl⟩)
    | (split at h
       · first
         | (simp only [Option.some.injEq] at h; subst h; exact ⟨List.prefix_rfl, rfl, rfl⟩)
         | (simp only [Option.map_eq_some_iff] at h; obtain ⟨_, -, rfl⟩ := h; exact ⟨List.prefix_rfl, rfl, rfl⟩)
       · simp only [Option.some.injEq] at h; subst h; exact ⟨List.prefix_rfl, rfl, rfl⟩)

/-- **C109**, output is only added: whatever the parser, the script, the state and the outcome, what had been printed before a
parse is still the beginning of what has been printed after it; StackVm's instruction counter and instruction list stay as they
are. -/
theorem C109_output_only_grows (cc : CharClass) (checked : Bool) (ho : HashOrder) (fuel : Nat) (text : Str) :
    (∀ (P : Parser SInstr) (s : SState), s.out <+: (Parser.parse ho fuel (simpleStackVm checked) P text s).2.state.out) ∧
    (∀ (P : Parser Instr) (s : VState), s.out <+: (Parser.parse ho fuel (stackVm cc checked) P text s).2.state.out ∧
      (Parser.parse ho fuel (stackVm cc checked) P text s).2.state.instructionCounter = s.instructionCounter ∧
      (Parser.parse ho fuel (stackVm cc checked) P text s).2.state.instructions = s.instructions) := by
  refine ⟨fun P s => ?_, fun P s => ?_⟩
  · refine Keeps.parse (R := fun (a b : SState) => a.out <+: b.out) (fun _ => List.prefix_rfl) (fun _ _ _ h1 h2 => h1.trans h2)
      (fun _ _ _ _ _ _ he => ?_) ho P fuel text s
    obtain ⟨s', h1, h2⟩ := Option.map_eq_some_iff.1 he
    cases h2
    exact simpleExec_out h1
  · refine Keeps.parse (R := fun (a b : VState) => a.out <+: b.out ∧ b.instructionCounter = a.instructionCounter ∧
        b.instructions = a.instructions) (fun _ => ⟨List.prefix_rfl, rfl, rfl⟩)
      (fun _ _ _ h1 h2 => ⟨h1.1.trans h2.1, h2.2.1.trans h1.2.1, h2.2.2.trans h1.2.2⟩)
      (fun _ _ _ _ _ _ he => ?_) ho P fuel text s
    obtain ⟨s', h1, h2⟩ := Option.map_eq_some_iff.1 he
    cases h2
    exact stackExec_keeps h1

/-- A new counter after the sample script of C54: three names with sections were parsed. -/
example {ho0 : HashOrder} {fuel0 : Nat} {P : Parser Nat}
    (hP : Parser.newFromText ho0 fuel0 .ascii (countingVm true) Samples.countText = .ok P) :
    ∃ N, ∀ fuel, N ≤ fuel → ∀ ho : HashOrder, ∃ t c,
      Parser.parse ho fuel (countingVm true) P (c% "axx") (countingVm true).init = (.ok t, c) ∧ c.state = 3 := by
  obtain ⟨N, hN⟩ := C54_text_counts_or_panics (checked := true) Samples.ruleText_reads.1 (Samples.countText_rules true) hP
    Samples.count_occurring
  refine ⟨N, fun fuel hf ho => ?_⟩
  obtain ⟨t, c, h1, -, h2⟩ := (hN fuel hf ho (countingVm true).init (show 0 < 2 ^ 64 by decide)).1
    (.inr (show 0 + 3 < 2 ^ 64 by decide))
  exact ⟨t, c, h1, h2⟩

end HPP
