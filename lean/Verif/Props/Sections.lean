import Verif.Proofs.Sections
import Verif.Proofs.RuleSound
/-
C48-C50: instruction sections.
-/
namespace HPP
open Spec
variable {I S : Type}

/-! ### C48 -/

/-- **C48.** A section that starts with `{`, white space `g` and the text `w` (which does not start with white space) is
handed to the VM as the process `sectionProcess w`, at the position of `w`, together with the rule's name, and the VM is
called only this once: the result is the VM's error, or its instructions, if the outer process then stands on `}` (which
is consumed).  (What reading such a process yields is C03: exactly the text up to the first unescaped `}`.) -/
theorem C48_vm_sees_section (vm : VM I S) (name g w : Str) (k : Nat) (pd : ParserData I) (hg : IsSpace g)
    (hw : ∀ c r, w = c :: r → CharClass.isWhitespace c = false) :
    parseInstructionSection vm name ⟨Proc.at ('{' :: (g ++ w)) k, pd⟩ =
      match vm.parseInstructions name (sectionProcess w (k + 1 + g.length)) with
      | (.ok instr, p) => (match parseSymbol '}' p.src with
        | (.ok _, q) => (.ok instr, ⟨q, pd⟩)
        | (.err e, q) => (.err e, ⟨q, pd⟩)
        | (.panic, q) => (.panic, ⟨q, pd⟩)
        | (.timeout, q) => (.timeout, ⟨q, pd⟩))
      | (.err e, p) => (.err e, ⟨p.src, pd⟩)
      | (.panic, p) => (.panic, ⟨p.src, pd⟩)
      | (.timeout, p) => (.timeout, ⟨p.src, pd⟩) := by
  rw [parseInstructionSection]
  have h1 : smTry (rpSymbol '{') (⟨Proc.at ('{' :: (g ++ w)) k, pd⟩ : RP I) = (.ok (some ()), ⟨Proc.at (g ++ w) (k + 1), pd⟩) :=
    smTry_ok (rpSymbol_ok '{' (g ++ w) k pd)
  rw [smBind_ok h1]
  simp only
  rw [smBind_ok (rpWhitespace_ok hg hw (k + 1) pd)]
  have h2 : rpProc (runSection vm name) (⟨Proc.at w (k + 1 + g.length), pd⟩ : RP I) =
      ((vm.parseInstructions name (sectionProcess w (k + 1 + g.length))).1,
        ⟨(vm.parseInstructions name (sectionProcess w (k + 1 + g.length))).2.src, pd⟩) := rfl
  rw [SM.bind_apply, h2]
  rcases vm.parseInstructions name (sectionProcess w (k + 1 + g.length)) with ⟨r, p⟩
  cases r with
  | ok instr =>
    simp only
    rw [SM.bind_apply]
    simp only [rpSymbol, rpProc]
    rcases parseSymbol '}' p.src with ⟨r2, q⟩
    cases r2 <;> rfl
  | err e => rfl
  | panic => rfl
  | timeout => rfl

/-- **C48**, without a section the VM is not asked and there are no instructions. -/
theorem C48_no_section (vm : VM I S) (name w : Str) (k : Nat) (pd : ParserData I) (hw : w.head? ≠ some '{') :
    parseInstructionSection vm name ⟨Proc.at w k, pd⟩ = (.ok [], ⟨Proc.at w k, pd⟩) := by
  rw [parseInstructionSection]
  rcases rpSymbol_cases '{' w k pd with ⟨w', rfl, -⟩ | ⟨-, e, he⟩
  · exact absurd rfl hw
  · rw [smBind_ok (smTry_err he)]
    rfl

/-! ### The built-in VMs only read their sections -/

theorem nullVm_section (name w : Str) (k : Nat) : ∃ p', nullVm.parseInstructions name (sectionProcess w k) = (.ok [0], p') ∧
    p'.src = Proc.at (w.drop (sectionOf '}' '\\' w).length) (k + (sectionOf '}' '\\' w).length) ∧
    ∃ ops, p' = (runReads ops (sectionProcess w k)).2 := by
  obtain ⟨p', h1, h2⟩ := drain_section w k
  refine ⟨p', ?_, h2⟩
  simp only [nullVm, h1]

theorem simpleStackVm_section (checked : Bool) (name w : Str) (k : Nat) :
    ∃ p', (simpleStackVm checked).parseInstructions name (sectionProcess w k) = (.ok (simpleInstr name), p') ∧
    p'.src = Proc.at (w.drop (sectionOf '}' '\\' w).length) (k + (sectionOf '}' '\\' w).length) ∧
    ∃ ops, p' = (runReads ops (sectionProcess w k)).2 := by
  obtain ⟨p', h1, h2⟩ := drain_section w k
  refine ⟨p', ?_, h2⟩
  simp only [simpleStackVm, h1]

/-- NullVm only reads. -/
theorem nullVm_onlyReads : OnlyReads nullVm where
  reads := by
    intro name w k
    obtain ⟨p', h1, -, ops, h2⟩ := nullVm_section name w k
    exact ⟨ops, by rw [h1]; exact h2⟩
  returns := by
    intro name w k
    obtain ⟨p', h1, -⟩ := nullVm_section name w k
    exact .inl ⟨_, by rw [h1]⟩

/-- CountingVm only reads (it reads nothing). -/
theorem countingVm_onlyReads (checked : Bool) : OnlyReads (countingVm checked) where
  reads := fun _ _ _ => ⟨[], rfl⟩
  returns := fun _ _ _ => .inl ⟨[0], rfl⟩

/-- SimpleStackVm only reads. -/
theorem simpleStackVm_onlyReads (checked : Bool) : OnlyReads (simpleStackVm checked) where
  reads := by
    intro name w k
    obtain ⟨p', h1, -, ops, h2⟩ := simpleStackVm_section checked name w k
    exact ⟨ops, by rw [h1]; exact h2⟩
  returns := by
    intro name w k
    obtain ⟨p', h1, -⟩ := simpleStackVm_section checked name w k
    exact .inl ⟨_, by rw [h1]⟩

/-- StackVm only reads. -/
theorem stackVm_onlyReads (cc : CharClass) (checked : Bool) : OnlyReads (stackVm cc checked) where
  reads := by
    intro name t k
    obtain ⟨w, tail, rfl, hw, ht⟩ := brace_split t
    obtain ⟨u, w', -, ⟨-, -, ops, h⟩, -⟩ := stackParse_sound cc w tail hw ht k
    exact ⟨ops, h⟩
  returns := by
    intro name t k
    obtain ⟨w, tail, rfl, hw, ht⟩ := brace_split t
    obtain ⟨u, w', -, -, ⟨a, ha, -⟩ | ⟨e, he, -⟩⟩ := stackParse_sound cc w tail hw ht k
    · exact .inl ⟨a, ha⟩
    · exact .inr ⟨e, he⟩

/-! ### What the built-in VMs accept -/

/-- NullVm accepts every section. -/
theorem nullVm_reads (name body : Str) (instr : List Nat) :
    ReadsSection nullVm name body instr ↔ instr = [0] ∧ sectionOf '}' '\\' (body ++ ['}']) = body := by
  constructor
  · intro h
    obtain ⟨p, h1, h2⟩ := h [] 0
    obtain ⟨p', h3, h4, -⟩ := nullVm_section name (body ++ ['}']) 0
    rw [h3] at h1
    simp only [Prod.mk.injEq, Res.ok.injEq] at h1
    obtain ⟨rfl, rfl⟩ := h1
    refine ⟨rfl, ?_⟩
    rw [h4] at h2
    exact (section_at_body rfl).1 h2
  · rintro ⟨rfl, h⟩ rest k
    obtain ⟨p', h3, h4, -⟩ := nullVm_section name (body ++ '}' :: rest) k
    exact ⟨p', h3, h4.trans ((section_at_body rfl).2 h)⟩

theorem nullVm_reads_in (name body : Str) (instr : List Nat) :
    ReadsSectionIn nullVm name body instr ↔ ReadsSection nullVm name body instr := by
  constructor
  · rintro ⟨rest, k, p, h1, h2⟩
    obtain ⟨p', h3, h4, -⟩ := nullVm_section name (body ++ '}' :: rest) k
    rw [h3] at h1
    simp only [Prod.mk.injEq, Res.ok.injEq] at h1
    obtain ⟨rfl, rfl⟩ := h1
    rw [h4] at h2
    exact (nullVm_reads _ _ _).2 ⟨rfl, (section_at_body rfl).1 h2⟩
  · intro h
    obtain ⟨p, h1, h2⟩ := h [] 0
    exact ⟨[], 0, p, h1, h2⟩

/-- The instructions of SimpleStackVm are those of the table. -/
theorem simpleInstr_iff (name : Str) (instr : List SInstr) : SimpleMeaning name instr ↔ instr = simpleInstr name := by
  simp only [SimpleMeaning, simpleTable, simpleInstr, List.mem_cons, Prod.mk.injEq, List.not_mem_nil, or_false]
  by_cases h1 : name = c% "add"
  · subst h1; simp
  by_cases h2 : name = c% "sub"
  · subst h2; simp
  by_cases h3 : name = c% "number"
  · subst h3; simp
  by_cases h4 : name = c% "digit"
  · subst h4; simp
  by_cases h5 : name = c% "number_s_"
  · subst h5; simp
  by_cases h6 : name = c% "print"
  · subst h6; simp
  simp [h1, h2, h3, h4, h5, h6]

/-- SimpleStackVm ignores the section text; its instructions depend on the name of the rule. -/
theorem simpleStackVm_reads (checked : Bool) (name body : Str) (instr : List SInstr) :
    ReadsSection (simpleStackVm checked) name body instr ↔
      SimpleMeaning name instr ∧ sectionOf '}' '\\' (body ++ ['}']) = body := by
  rw [simpleInstr_iff]
  constructor
  · intro h
    obtain ⟨p, h1, h2⟩ := h [] 0
    obtain ⟨p', h3, h4, -⟩ := simpleStackVm_section checked name (body ++ ['}']) 0
    rw [h3] at h1
    simp only [Prod.mk.injEq, Res.ok.injEq] at h1
    obtain ⟨rfl, rfl⟩ := h1
    refine ⟨rfl, ?_⟩
    rw [h4] at h2
    exact (section_at_body rfl).1 h2
  · rintro ⟨rfl, h⟩ rest k
    obtain ⟨p', h3, h4, -⟩ := simpleStackVm_section checked name (body ++ '}' :: rest) k
    exact ⟨p', h3, h4.trans ((section_at_body rfl).2 h)⟩

theorem simpleStackVm_reads_in (checked : Bool) (name body : Str) (instr : List SInstr) :
    ReadsSectionIn (simpleStackVm checked) name body instr ↔ ReadsSection (simpleStackVm checked) name body instr := by
  constructor
  · rintro ⟨rest, k, p, h1, h2⟩
    obtain ⟨p', h3, h4, -⟩ := simpleStackVm_section checked name (body ++ '}' :: rest) k
    rw [h3] at h1
    simp only [Prod.mk.injEq, Res.ok.injEq] at h1
    obtain ⟨rfl, rfl⟩ := h1
    rw [h4] at h2
    exact (simpleStackVm_reads _ _ _ _).2 ⟨(simpleInstr_iff _ _).2 rfl, (section_at_body rfl).1 h2⟩
  · intro h
    obtain ⟨p, h1, h2⟩ := h [] 0
    exact ⟨[], 0, p, h1, h2⟩

/-- CountingVm accepts only sections without text. -/
theorem countingVm_reads (checked : Bool) (name body : Str) (instr : List Nat) :
    ReadsSection (countingVm checked) name body instr ↔ instr = [0] ∧ body = [] := by
  constructor
  · intro h
    obtain ⟨p, h1, h2⟩ := h [] 0
    simp only [countingVm, Prod.mk.injEq, Res.ok.injEq] at h1
    obtain ⟨rfl, rfl⟩ := h1
    refine ⟨rfl, ?_⟩
    simp only [sectionProcess, PP.newNested, PP.mk.injEq] at h2
    exact List.eq_nil_of_length_eq_zero (by omega)
  · rintro ⟨rfl, rfl⟩ rest k
    exact ⟨_, rfl, rfl⟩

theorem countingVm_reads_in (checked : Bool) (name body : Str) (instr : List Nat) :
    ReadsSectionIn (countingVm checked) name body instr ↔ ReadsSection (countingVm checked) name body instr := by
  constructor
  · rintro ⟨rest, k, p, h1, h2⟩
    simp only [countingVm, Prod.mk.injEq, Res.ok.injEq] at h1
    obtain ⟨rfl, rfl⟩ := h1
    simp only [sectionProcess, PP.newNested, PP.mk.injEq] at h2
    exact (countingVm_reads _ _ _ _).2 ⟨rfl, List.eq_nil_of_length_eq_zero (by omega)⟩
  · intro h
    obtain ⟨p, h1, h2⟩ := h [] 0
    exact ⟨[], 0, p, h1, h2⟩

theorem stackVm_reads_sound {cc : CharClass} {checked : Bool} {name body : Str} {instr : List Instr}
    (h : ReadsSectionIn (stackVm cc checked) name body instr) : StackSection cc instr body := by
  obtain ⟨rest, k, p, h1, h2⟩ := h
  obtain ⟨w, tail, hwt, hw, ht⟩ := brace_split (body ++ '}' :: rest)
  rw [hwt] at h1
  have h1' : stackParse cc (sectionProcess (w ++ tail) k) = (.ok instr, p) := h1
  obtain ⟨u, w', e1, ⟨-, ⟨e, e2, -⟩, -⟩, e3⟩ := stackParse_sound cc w tail hw ht k
  rw [h1'] at e2 e3
  rcases e3 with ⟨a, ha, rfl, hs⟩ | ⟨er, he, -⟩
  · simp only [Res.ok.injEq] at ha
    subst ha
    rw [List.append_nil] at e1
    subst e1
    simp only at e2
    rw [e2] at h2
    simp only [Proc.at, PP.mk.injEq] at h2
    have hl : w.length = body.length := by omega
    have : w = body := by
      have := congrArg (List.take w.length) hwt
      rw [List.take_left, hl, List.take_left] at this
      exact this.symm
    rw [← this]; exact hs
  · cases he

/-- StackVm accepts exactly the sections of its instruction language. -/
theorem stackVm_reads {cc : CharClass} (hcc : SpaceOk cc) (checked : Bool) (name body : Str) (instr : List Instr) :
    ReadsSection (stackVm cc checked) name body instr ↔ StackSection cc instr body := by
  constructor
  · intro h
    obtain ⟨p, h1, h2⟩ := h [] 0
    exact stackVm_reads_sound ⟨[], 0, p, h1, h2⟩
  · intro h rest k
    obtain ⟨p, h1, h2⟩ := stackParse_complete (tail := '}' :: rest) hcc h h.noBrace.1 (.inr ⟨rest, rfl⟩) k
    exact ⟨p, h1, h2⟩

theorem stackVm_reads_in {cc : CharClass} (hcc : SpaceOk cc) (checked : Bool) (name body : Str) (instr : List Instr) :
    ReadsSectionIn (stackVm cc checked) name body instr ↔ ReadsSection (stackVm cc checked) name body instr :=
  ⟨fun h => (stackVm_reads hcc checked name body instr).2 (stackVm_reads_sound h),
    fun h => by obtain ⟨p, h1, h2⟩ := h [] 0; exact ⟨[], 0, p, h1, h2⟩⟩

end HPP
