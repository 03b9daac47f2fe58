import Verif.Spec.Ideal
import Verif.Proofs.VmSim
import Verif.Proofs.CalcStack
import Verif.Proofs.CalcSimple
import Verif.Props.Text
namespace HPP
open Spec

theorem iWrap_eq (n : Int) : iWrap n = signed64 n := by
  simp only [iWrap, signed64, Int.bmod]
  omega

theorem s64_add (a b : Int) : signed64 (signed64 a + signed64 b) = signed64 (a + b) := by
  simp only [signed64, Int.bmod_add_bmod, Int.add_bmod_bmod]

theorem s64_sub (a b : Int) : signed64 (signed64 a - signed64 b) = signed64 (a - b) := by
  simp only [signed64, Int.bmod_sub_bmod, Int.sub_bmod_bmod]

theorem s64_mul (a b : Int) : signed64 (signed64 a * signed64 b) = signed64 (a * b) := by
  simp only [signed64, Int.bmod_mul_bmod, Int.mul_bmod_bmod]

theorem s64_fit {n : Int} (h1 : -(2 ^ 63) ≤ n) (h2 : n < 2 ^ 63) : signed64 n = n := by
  rw [← iWrap_eq, iWrap_fit h1 h2]

theorem s64_self (n : Int) : signed64 (signed64 n) = signed64 n := by
  simp only [signed64, Int.bmod_bmod]

theorem s64_mod32 (n : Int) : signed64 n % 2 ^ 32 = n % 2 ^ 32 := by
  rw [← iWrap_eq]; simp only [iWrap]; omega

theorem s64_emod (n : Int) : signed64 (n % 2 ^ 64) = signed64 n := by
  rw [← iWrap_eq, ← iWrap_eq]; simp only [iWrap]; omega

theorem uRes_false (n : Int) : uRes false n = some (unsigned64 n) := by
  simp only [uRes, unsigned64]
  by_cases h : 0 ≤ n ∧ n < 2 ^ 64
  · rw [if_pos h, Int.emod_eq_of_lt h.1 h.2]
  · rw [if_neg h]; rfl

theorem uRes_true {n : Int} {r : Nat} (h : uRes true n = some r) : (r : Int) = n := by
  simp only [uRes] at h
  by_cases hn : 0 ≤ n ∧ n < 2 ^ 64
  · rw [if_pos hn] at h; cases h; omega
  · rw [if_neg hn] at h; cases h

theorem iRes_true {n r : Int} (h : iRes true n = some r) : r = n ∧ -(2 ^ 63) ≤ n ∧ n < 2 ^ 63 := by
  simp only [iRes] at h
  by_cases hn : -(2 ^ 63) ≤ n ∧ n < 2 ^ 63
  · rw [if_pos hn] at h; cases h; exact ⟨rfl, hn⟩
  · rw [if_neg hn] at h; cases h

theorem u64_cast (n : Int) : ((unsigned64 n : Nat) : Int) = n % 2 ^ 64 := by
  simp only [unsigned64]; omega

theorem u64_congr {a b : Int} (h : a % 2 ^ 64 = b % 2 ^ 64) : unsigned64 a = unsigned64 b := by
  simp only [unsigned64, h]

theorem u64_fit {n : Nat} (h : n < 2 ^ 64) : unsigned64 (n : Int) = n := by
  simp only [unsigned64]; omega

theorem u64_mod32 (n : Int) : unsigned64 n % 2 ^ 32 = (n % 2 ^ 32).toNat := by
  simp only [unsigned64]; omega

theorem isAsciiDigit_all (ds : Str) : ds.all CharClass.isAsciiDigit = true ↔ ∀ c ∈ ds, IsDigit c := by
  have h : ∀ c : Char, CharClass.isAsciiDigit c = true ↔ IsDigit c := by
    intro c
    simp only [CharClass.isAsciiDigit, decide_eq_true_eq, IsDigit]
    exact Iff.rfl
  simp only [List.all_eq_true, h]

theorem strToUsize_read (s : Str) : (strToUsize s).map (fun (n : Nat) => (n : Int)) = readUnsigned s := by
  have hb : stripPlus s = if s.head? = some '+' then s.tail else s := by
    match s with
    | [] => rfl
    | c :: cs =>
      by_cases hc : c = '+'
      · subst hc; rfl
      · rw [if_neg (by simpa using hc)]
        simp only [stripPlus]
        split
        · next h => cases h; exact absurd rfl hc
        · rfl
  simp only [strToUsize, readUnsigned, hb, isAsciiDigit_all, digitsVal_eq]
  generalize (if s.head? = some '+' then s.tail else s) = ds
  by_cases h : IsNumeral ds ∧ decimalValue ds < 2 ^ 64
  · rw [if_pos h, if_pos ⟨h.1.1, h.1.2, h.2⟩]; rfl
  · rw [if_neg h, if_neg (fun h' => h ⟨⟨h'.1, h'.2.1⟩, h'.2.2⟩)]; rfl

theorem readUnsigned_range {s : Str} {v : Int} (h : readUnsigned s = some v) : ∃ n : Nat, v = n ∧ n < 2 ^ 64 := by
  simp only [readUnsigned] at h
  generalize (if s.head? = some '+' then s.tail else s) = ds at h
  by_cases hd : IsNumeral ds ∧ decimalValue ds < 2 ^ 64
  · rw [if_pos hd] at h; cases h; exact ⟨_, rfl, hd.2⟩
  · rw [if_neg hd] at h; cases h

theorem strToIsize_read (s : Str) : strToIsize s = readSigned s := by
  match s with
  | [] => rfl
  | c :: cs =>
    by_cases h1 : c = '-'
    · subst h1
      have e : readSigned ('-' :: cs) = if IsNumeral cs ∧ -(2 ^ 63) ≤ -(decimalValue cs : Int) ∧
        -(decimalValue cs : Int) < 2 ^ 63 then some (-(decimalValue cs : Int)) else none := rfl
      rw [e]
      simp only [strToIsize, isAsciiDigit_all, digitsVal_eq]
      by_cases h : IsNumeral cs ∧ (decimalValue cs) ≤ 2 ^ 63
      · rw [if_pos ⟨h.1.1, h.1.2, h.2⟩, if_pos ⟨h.1, by omega, by omega⟩]
      · rw [if_neg (fun h' => h ⟨⟨h'.1, h'.2.1⟩, h'.2.2⟩), if_neg (fun h' => h ⟨h'.1, by omega⟩)]
    · by_cases h2 : c = '+'
      · subst h2
        have e : readSigned ('+' :: cs) = if IsNumeral cs ∧ -(2 ^ 63) ≤ (decimalValue cs : Int) ∧
          (decimalValue cs : Int) < 2 ^ 63 then some (decimalValue cs : Int) else none := rfl
        rw [e]
        simp only [strToIsize, isAsciiDigit_all, digitsVal_eq]
        by_cases h : IsNumeral cs ∧ (decimalValue cs) < 2 ^ 63
        · rw [if_pos ⟨h.1.1, h.1.2, h.2⟩, if_pos ⟨h.1, by omega, by omega⟩]
        · rw [if_neg (fun h' => h ⟨⟨h'.1, h'.2.1⟩, h'.2.2⟩), if_neg (fun h' => h ⟨h'.1, by omega⟩)]
      · have e : strToIsize (c :: cs) = if (c :: cs) ≠ [] ∧ (c :: cs).all CharClass.isAsciiDigit = true ∧
            digitsVal (c :: cs) < 2 ^ 63 then some (digitsVal (c :: cs) : Int) else none := by
          simp only [strToIsize]
          split
          · next h => cases h; exact absurd rfl h1
          · next h => cases h; exact absurd rfl h2
          · rfl
        have e' : readSigned (c :: cs) = if IsNumeral (c :: cs) ∧ -(2 ^ 63) ≤ (decimalValue (c :: cs) : Int) ∧
            (decimalValue (c :: cs) : Int) < 2 ^ 63 then some (decimalValue (c :: cs) : Int) else none := by
          simp only [readSigned, List.head?_cons, Option.some.injEq, h1, h2, or_self, if_false]
        rw [e, e']
        generalize (c :: cs) = ds
        simp only [isAsciiDigit_all, digitsVal_eq]
        by_cases h : IsNumeral ds ∧ (decimalValue ds) < 2 ^ 63
        · rw [if_pos ⟨h.1.1, h.1.2, h.2⟩, if_pos ⟨h.1, by omega, by omega⟩]
        · rw [if_neg (fun h' => h ⟨⟨h'.1, h'.2.1⟩, h'.2.2⟩), if_neg (fun h' => h ⟨h'.1, by omega⟩)]

theorem readSigned_range {s : Str} {v : Int} (h : readSigned s = some v) : -(2 ^ 63) ≤ v ∧ v < 2 ^ 63 := by
  simp only [readSigned] at h
  generalize (if s.head? = some '+' ∨ s.head? = some '-' then s.tail else s) = ds at h
  generalize (if s.head? = some '-' then -(decimalValue ds : Int) else (decimalValue ds : Int)) = w at h
  by_cases hd : IsNumeral ds ∧ -(2 ^ 63) ≤ w ∧ w < 2 ^ 63
  · rw [if_pos hd] at h; cases h; exact hd.2
  · rw [if_neg hd] at h; cases h

theorem firstChild_eq (t : Tree Str) (id : NodeId) : firstChildData t id = firstChildText t id := by
  simp only [firstChildData, firstChildText]
  rcases t.getByPathOrNone id [0] with (_ | _) | _ | _ | _ <;> rfl

/-! ### one instruction -/

theorem modmul (W a b c : Int) : ((a % W * (b % W)) % W + c % W) % W = (a * b + c) % W := by
  rw [← Int.mul_emod, ← Int.add_emod]

theorem arith {σ τ : Type} {Rel : σ → τ → Prop} {a : Prop} {t : Tree Str} {x : Option σ} {s : σ} {S' : τ} (hx : x = some s)
    (h : Rel s S') : (Option.map (fun s' => (t, s')) x = none ∧ (a ∨ some (t, S') = none)) ∨
      ∃ s1' s2', Option.map (fun s' => (t, s')) x = some (t, s1') ∧ some (t, S') = some (t, s2') ∧ Rel s1' s2' := by
  subst hx
  exact .inr ⟨s, S', rfl, rfl, h⟩

theorem arithI {σ τ : Type} {Rel : σ → τ → Prop} {a : Prop} {t : Tree Str} {n : Int} {f : Int → σ} {S' : τ}
    (h : Rel (f (iWrap n)) S') :
    (Option.map (fun s' => (t, s')) (Option.map f (iRes false n)) = none ∧ (a ∨ some (t, S') = none)) ∨
      ∃ s1' s2', Option.map (fun s' => (t, s')) (Option.map f (iRes false n)) = some (t, s1') ∧
        some (t, S') = some (t, s2') ∧ Rel s1' s2' :=
  arith (by rw [iRes_wrap]; rfl) h

theorem exec_stack_unchecked (cc : CharClass) {i : Instr} (hc : Instr.ConstSigned i) :
    ExecSim SignedModulo False (stackVm cc false) (idealStackVm cc) i := by
  rintro t id ⟨st, r, r2, e, ic, isx, o⟩ ⟨ST, R, R2, E, O⟩ hj ⟨h1, h2, h3, h4, h5, h6⟩
  simp only at h1 h2 h3 h4 h5 h6
  subst h1 h2 h3 h4 h5
  cases i with
  | pushFromTree =>
    simp only [stackVm, stackExec, idealStackVm, Ideal.execute, Instr.looks, if_true, firstChild_eq]
    rcases firstChildText t id with _ | _ | d
    · exact .inl ⟨rfl, .inr rfl⟩
    · exact .inr ⟨_, _, rfl, rfl, ⟨rfl, rfl, rfl, rfl, rfl, by exact Nat.le_succ 1⟩⟩
    · simp only [strToIsize_read]
      rcases hr : readSigned d with _ | v
      · refine .inr ⟨_, _, rfl, rfl, ?_⟩
        simp only [Ideal.step, hr]
        exact ⟨rfl, rfl, rfl, rfl, rfl, by exact Nat.le_refl 2⟩
      · refine .inr ⟨_, _, rfl, rfl, ?_⟩
        simp only [Ideal.step, hr]
        obtain ⟨g1, g2⟩ := readSigned_range hr
        exact ⟨by simp only [List.map_cons, s64_fit g1 g2], rfl, rfl, rfl, rfl, h6⟩
  | digit => exact .inr ⟨_, _, rfl, rfl, ⟨rfl, rfl, rfl, rfl, rfl, h6⟩⟩
  | pushReg => exact .inr ⟨_, _, rfl, rfl, ⟨rfl, rfl, rfl, rfl, rfl, h6⟩⟩
  | pushReg2 => exact .inr ⟨_, _, rfl, rfl, ⟨rfl, rfl, rfl, rfl, rfl, h6⟩⟩
  | pushConst c =>
    exact .inr ⟨_, _, rfl, rfl, ⟨by simp only [Ideal.step, List.map_cons, s64_fit hc.1 hc.2], rfl, rfl, rfl, rfl, h6⟩⟩
  | printReg => exact .inr ⟨_, _, rfl, rfl, ⟨rfl, rfl, rfl, rfl, by simp [Ideal.step], h6⟩⟩
  | printReg2 => exact .inr ⟨_, _, rfl, rfl, ⟨rfl, rfl, rfl, rfl, by simp [Ideal.step], h6⟩⟩
  | printError =>
    refine .inr ⟨_, _, rfl, rfl, ⟨rfl, rfl, rfl, rfl, ?_, h6⟩⟩
    simp only [Ideal.step, List.map_append, List.map_cons, List.map_nil]
    rw [s64_fit (by omega) (by omega)]
  | regAddConst c =>
    refine arithI ?_
    · refine ⟨rfl, ?_, rfl, rfl, rfl, h6⟩
      simp only [Ideal.step, iWrap_eq]
      have := s64_add R c
      rw [s64_fit hc.1 hc.2] at this
      exact this
  | popToReg =>
    cases ST with
    | nil => exact .inr ⟨_, _, rfl, rfl, ⟨rfl, rfl, rfl, rfl, rfl, by exact Nat.le_succ 1⟩⟩
    | cons v ST => exact .inr ⟨_, _, rfl, rfl, ⟨rfl, rfl, rfl, rfl, rfl, h6⟩⟩
  | popToReg2 =>
    cases ST with
    | nil => exact .inr ⟨_, _, rfl, rfl, ⟨rfl, rfl, rfl, rfl, rfl, by exact Nat.le_succ 1⟩⟩
    | cons v ST => exact .inr ⟨_, _, rfl, rfl, ⟨rfl, rfl, rfl, rfl, rfl, h6⟩⟩
  | popDiscard =>
    cases ST with
    | nil => exact .inr ⟨_, _, rfl, rfl, ⟨rfl, rfl, rfl, rfl, rfl, by exact Nat.le_succ 1⟩⟩
    | cons v ST => exact .inr ⟨_, _, rfl, rfl, ⟨rfl, rfl, rfl, rfl, rfl, h6⟩⟩
  | add =>
    cases ST with
    | nil => exact .inr ⟨_, _, rfl, rfl, ⟨rfl, rfl, rfl, rfl, rfl, by exact Nat.le_succ 1⟩⟩
    | cons v ST =>
      refine arithI ?_
      · refine ⟨?_, rfl, rfl, rfl, rfl, h6⟩
        simp only [Ideal.step, Ideal.top, List.map_cons, iWrap_eq, s64_add, Int.add_comm]
  | sub =>
    cases ST with
    | nil => exact .inr ⟨_, _, rfl, rfl, ⟨rfl, rfl, rfl, rfl, rfl, by exact Nat.le_succ 1⟩⟩
    | cons v ST =>
      refine arithI ?_
      · refine ⟨?_, rfl, rfl, rfl, rfl, h6⟩
        simp only [Ideal.step, Ideal.top, List.map_cons, iWrap_eq, s64_sub]
  | pow b =>
    cases ST with
    | nil => exact .inr ⟨_, _, rfl, rfl, ⟨rfl, rfl, rfl, rfl, rfl, by exact Nat.le_succ 1⟩⟩
    | cons v ST =>
      have hx : stackExec false t id (.pow b) ⟨signed64 v :: ST.map signed64, signed64 R, signed64 R2, e, ic, isx,
          O.map signed64⟩ = some ⟨iWrap (iWrap (signed64 v * iWrap (unsigned64 ((b ^ (signed64 R % 2 ^ 32).toNat : Nat) : Int))) +
            signed64 R2) :: ST.map signed64, signed64 R, signed64 R2, e, ic, isx, O.map signed64⟩ := by
        simp only [stackExec, iRes_wrap, uRes_false, Option.bind_eq_bind, Option.bind_some]
      simp only [List.map_cons, stackVm]
      rw [hx]
      refine .inr ⟨_, _, rfl, rfl, ?_⟩
      · refine ⟨?_, rfl, rfl, rfl, rfl, h6⟩
        simp only [Ideal.step, Ideal.top, List.map_cons, iWrap_eq, s64_mod32, u64_cast, s64_emod, s64_mul, s64_add,
          Int.natCast_pow]

theorem exec_stack_checked (cc : CharClass) {i : Instr} (hc : Instr.ConstSigned i) :
    ExecSim SignedModulo True (stackVm cc true) (idealStackVm cc) i := by
  intro t id s S hj h
  by_cases hn : (stackVm cc true).execute t id i s = none
  · exact .inl ⟨hn, .inl trivial⟩
  · have hsame : (stackVm cc true).execute t id i s = (stackVm cc false).execute t id i s := by
      have hu : ∀ n, uRes true n ≠ none → uRes true n = uRes false n := by
        intro n hn
        simp only [uRes] at hn ⊢
        by_cases h : 0 ≤ n ∧ n < 2 ^ 64
        · rw [if_pos h, if_pos h]
        · rw [if_neg h] at hn; exact absurd rfl hn
      have hi : ∀ n, iRes true n ≠ none → iRes true n = iRes false n := by
        intro n hn
        simp only [iRes] at hn ⊢
        by_cases h : -(2 ^ 63) ≤ n ∧ n < 2 ^ 63
        · rw [if_pos h, if_pos h]
        · rw [if_neg h] at hn; exact absurd rfl hn
      obtain ⟨st, r, r2, e, ic, isx, o⟩ := s
      simp only [stackVm] at hn ⊢
      have key : ∀ n (f : Int → VState), Option.map (fun s' => (t, s')) (Option.map f (iRes true n)) ≠ none →
          Option.map f (iRes true n) = Option.map f (iRes false n) := by
        intro n f hne
        rw [hi n (fun h => hne (by rw [h]; rfl))]
      cases i with
      | regAddConst c => exact congrArg _ (key _ _ hn)
      | add =>
        cases st with
        | nil => rfl
        | cons v st => exact congrArg _ (key _ _ hn)
      | sub =>
        cases st with
        | nil => rfl
        | cons v st => exact congrArg _ (key _ _ hn)
      | pow b =>
        cases st with
        | nil => rfl
        | cons v st =>
          simp only [stackExec] at hn ⊢
          refine congrArg _ ?_
          cases hp : uRes true ((b ^ (r % 2 ^ 32).toNat : Nat) : Int) with
          | none => rw [hp] at hn; exact absurd rfl hn
          | some p =>
            rw [← hu _ (by rw [hp]; exact Option.some_ne_none _), hp]
            rw [hp] at hn
            simp only [Option.bind_eq_bind, Option.bind_some] at hn ⊢
            cases hm : iRes true (v * iWrap p) with
            | none => rw [hm] at hn; exact absurd rfl hn
            | some m =>
              rw [← hi _ (by rw [hm]; exact Option.some_ne_none _), hm]
              rw [hm] at hn
              simp only [Option.bind_some] at hn ⊢
              cases hr : iRes true (m + r2) with
              | none => rw [hr] at hn; exact absurd rfl hn
              | some x => rw [← hi _ (by rw [hr]; exact Option.some_ne_none _), hr]
      | _ => rfl
    rcases exec_stack_unchecked cc hc t id s S hj h with ⟨h1, -⟩ | ⟨s1', s2', h1, h2, h3⟩
    · rw [hsame] at hn; exact absurd h1 hn
    · exact .inr ⟨s1', s2', by rw [hsame]; exact h1, h2, h3⟩

theorem exec_stack_exact (cc : CharClass) {i : Instr} (hp : Instr.isPow i = false) :
    ExecSim SignedExact True (stackVm cc true) (idealStackVm cc) i := by
  rintro t id ⟨st, r, r2, e, ic, isx, o⟩ ⟨ST, R, R2, E, O⟩ hj ⟨h1, h2, h3, h4, h5⟩
  simp only at h1 h2 h3 h4 h5
  subst h1 h2 h3 h4 h5
  have key : ∀ n (f : Int → VState) (S' : Ideal), SignedExact (f n) S' →
      ((Option.map (fun s' => (t, s')) (Option.map f (iRes true n)) = none ∧
        (True ∨ some (t, S') = none)) ∨
      ∃ s1' s2', Option.map (fun s' => (t, s')) (Option.map f (iRes true n)) = some (t, s1') ∧
        some (t, S') = some (t, s2') ∧ SignedExact s1' s2') := by
    intro n f S' hS
    cases hr : iRes true n with
    | none => exact .inl ⟨rfl, .inl trivial⟩
    | some x =>
      obtain ⟨rfl, -⟩ := iRes_true hr
      exact .inr ⟨_, _, rfl, rfl, hS⟩
  cases i with
  | pushFromTree =>
    simp only [stackVm, stackExec, idealStackVm, Ideal.execute, Instr.looks, if_true, firstChild_eq]
    rcases firstChildText t id with _ | _ | d
    · exact .inl ⟨rfl, .inr rfl⟩
    · exact .inr ⟨_, _, rfl, rfl, ⟨rfl, rfl, rfl, rfl, rfl⟩⟩
    · simp only [strToIsize_read]
      rcases hr : readSigned d with _ | v
      · refine .inr ⟨_, _, rfl, rfl, ?_⟩
        simp only [Ideal.step, hr]
        exact ⟨rfl, rfl, rfl, rfl, rfl⟩
      · refine .inr ⟨_, _, rfl, rfl, ?_⟩
        simp only [Ideal.step, hr]
        exact ⟨rfl, rfl, rfl, rfl, rfl⟩
  | pow b => cases hp
  | regAddConst c => exact key _ _ _ ⟨rfl, rfl, rfl, rfl, rfl⟩
  | add =>
    cases st with
    | nil => exact .inr ⟨_, _, rfl, rfl, ⟨rfl, rfl, rfl, rfl, rfl⟩⟩
    | cons v st => exact key _ _ _ ⟨by simp only [Ideal.step, Ideal.top, Int.add_comm], rfl, rfl, rfl, rfl⟩
  | sub =>
    cases st with
    | nil => exact .inr ⟨_, _, rfl, rfl, ⟨rfl, rfl, rfl, rfl, rfl⟩⟩
    | cons v st => exact key _ _ _ ⟨rfl, rfl, rfl, rfl, rfl⟩
  | popToReg => cases st <;> exact .inr ⟨_, _, rfl, rfl, ⟨rfl, rfl, rfl, rfl, rfl⟩⟩
  | popToReg2 => cases st <;> exact .inr ⟨_, _, rfl, rfl, ⟨rfl, rfl, rfl, rfl, rfl⟩⟩
  | popDiscard => cases st <;> exact .inr ⟨_, _, rfl, rfl, ⟨rfl, rfl, rfl, rfl, rfl⟩⟩
  | _ => exact .inr ⟨_, _, rfl, rfl, ⟨rfl, rfl, rfl, rfl, rfl⟩⟩

theorem exec_simple_unchecked {i : SInstr} (hc : SInstr.ConstUnsigned i) :
    ExecSim UnsignedModulo False (simpleStackVm false) idealSimpleVm i := by
  rintro t id ⟨st, r, r2, e, o⟩ ⟨ST, R, R2, E, O⟩ hj ⟨h1, h2, h3, h4, h5, h6⟩
  simp only at h1 h2 h3 h4 h5 h6
  subst h1 h2 h3 h4 h5
  cases i with
  | pushFromTree =>
    simp only [simpleStackVm, simpleExec, idealSimpleVm, SInstr.general, Ideal.execute, Instr.looks, if_true,
      firstChild_eq]
    rcases firstChildText t id with _ | _ | d
    · exact .inl ⟨rfl, .inr rfl⟩
    · exact .inr ⟨_, _, rfl, rfl, ⟨rfl, rfl, rfl, rfl, rfl, by exact Nat.le_succ 1⟩⟩
    · have hr := strToUsize_read d
      rcases hu : strToUsize d with _ | v
      · rw [hu] at hr
        simp only [Option.map_none] at hr
        simp only [hu]
        refine .inr ⟨_, _, rfl, rfl, ?_⟩
        simp only [Ideal.step, ← hr]
        exact ⟨rfl, rfl, rfl, rfl, rfl, by exact Nat.le_refl 2⟩
      · rw [hu] at hr
        simp only [Option.map_some] at hr
        simp only [hu]
        refine .inr ⟨_, _, rfl, rfl, ?_⟩
        simp only [Ideal.step, ← hr]
        obtain ⟨n, hn, hlt⟩ := readUnsigned_range hr.symm
        have : v = n := by omega
        subst this
        exact ⟨by simp only [List.map_cons, u64_fit hlt], rfl, rfl, rfl, rfl, h6⟩
  | digit => exact .inr ⟨_, _, rfl, rfl, ⟨rfl, rfl, rfl, rfl, rfl, h6⟩⟩
  | pushReg => exact .inr ⟨_, _, rfl, rfl, ⟨rfl, rfl, rfl, rfl, rfl, h6⟩⟩
  | pushReg2 => exact .inr ⟨_, _, rfl, rfl, ⟨rfl, rfl, rfl, rfl, rfl, h6⟩⟩
  | pushConst c =>
    exact .inr ⟨_, _, rfl, rfl, ⟨by simp only [Ideal.step, SInstr.general, List.map_cons, u64_fit hc],
      rfl, rfl, rfl, rfl, h6⟩⟩
  | printReg => exact .inr ⟨_, _, rfl, rfl, ⟨rfl, rfl, rfl, rfl, by simp [Ideal.step, SInstr.general], h6⟩⟩
  | printReg2 => exact .inr ⟨_, _, rfl, rfl, ⟨rfl, rfl, rfl, rfl, by simp [Ideal.step, SInstr.general], h6⟩⟩
  | printError =>
    refine .inr ⟨_, _, rfl, rfl, ⟨rfl, rfl, rfl, rfl, ?_, h6⟩⟩
    simp only [Ideal.step, SInstr.general, List.map_append, List.map_cons, List.map_nil]
    rw [u64_fit (by omega)]
  | regAddConst c =>
    have hx : simpleExec false t id (.regAddConst c) ⟨ST.map unsigned64, unsigned64 R, unsigned64 R2, e,
        O.map unsigned64⟩ = some ⟨ST.map unsigned64, unsigned64 (((unsigned64 R : Nat) : Int) + ((c : Nat) : Int)),
          unsigned64 R2, e, O.map unsigned64⟩ := by
      simp only [simpleExec, uRes_false, Option.map_some]
    simp only [simpleStackVm]
    rw [hx]
    refine .inr ⟨_, _, rfl, rfl, ?_⟩
    · refine ⟨rfl, ?_, rfl, rfl, rfl, h6⟩
      simp only [Ideal.step, SInstr.general]
      refine u64_congr ?_
      rw [u64_cast]
      omega
  | popToReg =>
    cases ST with
    | nil => exact .inr ⟨_, _, rfl, rfl, ⟨rfl, rfl, rfl, rfl, rfl, by exact Nat.le_succ 1⟩⟩
    | cons v ST => exact .inr ⟨_, _, rfl, rfl, ⟨rfl, rfl, rfl, rfl, rfl, h6⟩⟩
  | popToReg2 =>
    cases ST with
    | nil => exact .inr ⟨_, _, rfl, rfl, ⟨rfl, rfl, rfl, rfl, rfl, by exact Nat.le_succ 1⟩⟩
    | cons v ST => exact .inr ⟨_, _, rfl, rfl, ⟨rfl, rfl, rfl, rfl, rfl, h6⟩⟩
  | popDiscard =>
    cases ST with
    | nil => exact .inr ⟨_, _, rfl, rfl, ⟨rfl, rfl, rfl, rfl, rfl, by exact Nat.le_succ 1⟩⟩
    | cons v ST => exact .inr ⟨_, _, rfl, rfl, ⟨rfl, rfl, rfl, rfl, rfl, h6⟩⟩
  | add =>
    cases ST with
    | nil => exact .inr ⟨_, _, rfl, rfl, ⟨rfl, rfl, rfl, rfl, rfl, by exact Nat.le_succ 1⟩⟩
    | cons v ST =>
      have hx : simpleExec false t id .add ⟨unsigned64 v :: ST.map unsigned64, unsigned64 R, unsigned64 R2, e,
          O.map unsigned64⟩ = some ⟨unsigned64 (((unsigned64 R : Nat) : Int) + ((unsigned64 v : Nat) : Int)) ::
            ST.map unsigned64, unsigned64 R, unsigned64 R2, e, O.map unsigned64⟩ := by
        simp only [simpleExec, uRes_false, Option.map_some]
      simp only [List.map_cons, simpleStackVm]
      rw [hx]
      refine .inr ⟨_, _, rfl, rfl, ?_⟩
      · refine ⟨?_, rfl, rfl, rfl, rfl, h6⟩
        simp only [Ideal.step, SInstr.general, Ideal.top, List.map_cons]
        rw [u64_congr (a := _ + _) (b := v + R) (by rw [u64_cast, u64_cast]; omega)]
  | sub =>
    cases ST with
    | nil => exact .inr ⟨_, _, rfl, rfl, ⟨rfl, rfl, rfl, rfl, rfl, by exact Nat.le_succ 1⟩⟩
    | cons v ST =>
      have hx : simpleExec false t id .sub ⟨unsigned64 v :: ST.map unsigned64, unsigned64 R, unsigned64 R2, e,
          O.map unsigned64⟩ = some ⟨unsigned64 (((unsigned64 v : Nat) : Int) - ((unsigned64 R : Nat) : Int)) ::
            ST.map unsigned64, unsigned64 R, unsigned64 R2, e, O.map unsigned64⟩ := by
        simp only [simpleExec, uRes_false, Option.map_some]
      simp only [List.map_cons, simpleStackVm]
      rw [hx]
      refine .inr ⟨_, _, rfl, rfl, ?_⟩
      · refine ⟨?_, rfl, rfl, rfl, rfl, h6⟩
        simp only [Ideal.step, SInstr.general, Ideal.top, List.map_cons]
        rw [u64_congr (a := _ - _) (b := v - R) (by rw [u64_cast, u64_cast]; omega)]
  | pow b =>
    cases ST with
    | nil => exact .inr ⟨_, _, rfl, rfl, ⟨rfl, rfl, rfl, rfl, rfl, by exact Nat.le_succ 1⟩⟩
    | cons v ST =>
      have hx : simpleExec false t id (.pow b) ⟨unsigned64 v :: ST.map unsigned64, unsigned64 R, unsigned64 R2, e,
          O.map unsigned64⟩ = some ⟨unsigned64 ((unsigned64 ((unsigned64 v : Int) *
            (unsigned64 ((b ^ (unsigned64 R % 2 ^ 32) : Nat) : Int) : Nat)) : Int) + (unsigned64 R2 : Nat)) ::
              ST.map unsigned64, unsigned64 R, unsigned64 R2, e, O.map unsigned64⟩ := by
        simp only [simpleExec, uRes_false, Option.bind_eq_bind, Option.bind_some]
      simp only [List.map_cons, simpleStackVm]
      rw [hx]
      refine .inr ⟨_, _, rfl, rfl, ?_⟩
      · refine ⟨?_, rfl, rfl, rfl, rfl, h6⟩
        simp only [Ideal.step, SInstr.general, Ideal.top, List.map_cons, u64_mod32, u64_cast]
        rw [u64_congr (modmul (2 ^ 64) _ _ _), Int.natCast_pow]

theorem powExact {x v p m b k r2 : Nat} (h1 : (p : Int) = ((b ^ k : Nat) : Int)) (h2 : (m : Int) = v * p)
    (h3 : (x : Int) = m + r2) : (x : Int) = v * (b : Int) ^ k + r2 := by
  rw [h3, h2, h1, Int.natCast_pow]

theorem powSim (U : Int → Option Nat) (hU : ∀ n r, U n = some r → (r : Int) = n) (t : Tree Str) (st : List Nat) (r2 v b k : Nat) (f : List Nat → SState) (S' : Ideal)
    (h : ∀ x : Nat, (x : Int) = v * (b : Int) ^ k + r2 → UnsignedExact (f (x :: st)) S') :
    (Option.map (fun s' => (t, s')) ((U ((b ^ k : Nat) : Int)).bind fun p => (U ((v : Int) * p)).bind fun m =>
          (U ((m : Int) + r2)).bind fun x => some (f (x :: st))) = none ∧ (True ∨ some (t, S') = none)) ∨
      ∃ s1' s2', Option.map (fun s' => (t, s')) ((U ((b ^ k : Nat) : Int)).bind fun p =>
          (U ((v : Int) * p)).bind fun m =>
          (U ((m : Int) + r2)).bind fun x => some (f (x :: st))) = some (t, s1') ∧
        some (t, S') = some (t, s2') ∧ UnsignedExact s1' s2' := by
  cases hp : U ((b ^ k : Nat) : Int) with
  | none => exact .inl ⟨rfl, .inl trivial⟩
  | some p =>
    simp only [Option.bind_some]
    cases hm : U ((v : Int) * p) with
    | none => exact .inl ⟨rfl, .inl trivial⟩
    | some m =>
      simp only [Option.bind_some]
      cases hr : U ((m : Int) + r2) with
      | none => exact .inl ⟨rfl, .inl trivial⟩
      | some x => exact .inr ⟨_, _, rfl, rfl, h x (powExact (hU _ _ hp) (hU _ _ hm) (hU _ _ hr))⟩

theorem exec_simple_checked (i : SInstr) :
    ExecSim UnsignedExact True (simpleStackVm true) idealSimpleVm i := by
  rintro t id ⟨st, r, r2, e, o⟩ ⟨ST, R, R2, E, O⟩ hj ⟨h1, h2, h3, h4, h5⟩
  simp only at h1 h2 h3 h4 h5
  subst h1 h2 h3 h4 h5
  cases i with
  | pushFromTree =>
    simp only [simpleStackVm, simpleExec, idealSimpleVm, SInstr.general, Ideal.execute, Instr.looks, if_true,
      firstChild_eq]
    rcases firstChildText t id with _ | _ | d
    · exact .inl ⟨rfl, .inr rfl⟩
    · exact .inr ⟨_, _, rfl, rfl, ⟨rfl, rfl, rfl, rfl, rfl⟩⟩
    · have hr := strToUsize_read d
      rcases hu : strToUsize d with _ | v
      · rw [hu] at hr
        simp only [Option.map_none] at hr
        simp only [hu]
        refine .inr ⟨_, _, rfl, rfl, ?_⟩
        simp only [Ideal.step, ← hr]
        exact ⟨rfl, rfl, rfl, rfl, rfl⟩
      · rw [hu] at hr
        simp only [Option.map_some] at hr
        simp only [hu]
        refine .inr ⟨_, _, rfl, rfl, ?_⟩
        simp only [Ideal.step, ← hr]
        exact ⟨rfl, rfl, rfl, rfl, rfl⟩
  | regAddConst c =>
    simp only [simpleStackVm, simpleExec]
    cases hr : uRes true ((r : Int) + c) with
    | none => exact .inl ⟨rfl, .inl trivial⟩
    | some x => exact .inr ⟨_, _, rfl, rfl, ⟨rfl, uRes_true hr, rfl, rfl, rfl⟩⟩
  | add =>
    cases st with
    | nil => exact .inr ⟨_, _, rfl, rfl, ⟨rfl, rfl, rfl, rfl, rfl⟩⟩
    | cons v st =>
      simp only [simpleStackVm, simpleExec]
      cases hr : uRes true ((r : Int) + v) with
      | none => exact .inl ⟨rfl, .inl trivial⟩
      | some x =>
        have hx := uRes_true hr
        refine .inr ⟨_, _, rfl, rfl, ⟨?_, rfl, rfl, rfl, rfl⟩⟩
        simp only [Ideal.step, SInstr.general, Ideal.top, List.map_cons, hx, Int.add_comm]
  | sub =>
    cases st with
    | nil => exact .inr ⟨_, _, rfl, rfl, ⟨rfl, rfl, rfl, rfl, rfl⟩⟩
    | cons v st =>
      simp only [simpleStackVm, simpleExec]
      cases hr : uRes true ((v : Int) - r) with
      | none => exact .inl ⟨rfl, .inl trivial⟩
      | some x =>
        have hx := uRes_true hr
        refine .inr ⟨_, _, rfl, rfl, ⟨?_, rfl, rfl, rfl, rfl⟩⟩
        simp only [Ideal.step, SInstr.general, Ideal.top, List.map_cons, hx]
  | pow b =>
    cases st with
    | nil => exact .inr ⟨_, _, rfl, rfl, ⟨rfl, rfl, rfl, rfl, rfl⟩⟩
    | cons v st =>
      have hx : simpleExec true t id (.pow b) ⟨v :: st, r, r2, e, o⟩ =
          (uRes true ((b ^ (r % 2 ^ 32) : Nat) : Int)).bind fun p => (uRes true ((v : Int) * p)).bind fun m =>
          (uRes true ((m : Int) + r2)).bind fun x => some ⟨x :: st, r, r2, e, o⟩ := by
        simp only [simpleExec, Option.bind_eq_bind]
      simp only [simpleStackVm]
      rw [hx]
      have h4 : r % 2 ^ 32 = ((r : Int) % 2 ^ 32).toNat := by omega
      rw [h4]
      exact powSim (uRes true) (fun _ _ h => uRes_true h) t st r2 v b _ (fun q => ⟨q, r, r2, e, o⟩) _ fun x hx => by
        refine ⟨?_, rfl, rfl, rfl, rfl⟩
        simp only [Ideal.step, SInstr.general, Ideal.top, List.map_cons]
        rw [hx]
  | popToReg => cases st <;> exact .inr ⟨_, _, rfl, rfl, ⟨rfl, rfl, rfl, rfl, rfl⟩⟩
  | popToReg2 => cases st <;> exact .inr ⟨_, _, rfl, rfl, ⟨rfl, rfl, rfl, rfl, rfl⟩⟩
  | popDiscard => cases st <;> exact .inr ⟨_, _, rfl, rfl, ⟨rfl, rfl, rfl, rfl, rfl⟩⟩
  | printReg => exact .inr ⟨_, _, rfl, rfl, ⟨rfl, rfl, rfl, rfl, by simp [Ideal.step, SInstr.general]⟩⟩
  | printReg2 => exact .inr ⟨_, _, rfl, rfl, ⟨rfl, rfl, rfl, rfl, by simp [Ideal.step, SInstr.general]⟩⟩
  | printError => exact .inr ⟨_, _, rfl, rfl, ⟨rfl, rfl, rfl, rfl, by simp [Ideal.step, SInstr.general]⟩⟩
  | _ => exact .inr ⟨_, _, rfl, rfl, ⟨rfl, rfl, rfl, rfl, rfl⟩⟩

/-! ### when a checked machine panics -/

theorem ExecSim.guard {I S1 S2 : Type} {R : S1 → S2 → Prop} {vm1 : VM I S1} {vm2 : VM I S2} {i : I}
    {allowed : S2 → I → Bool} (h : ExecSim R True vm1 vm2 i)
    (hg : ∀ t id s1 s2, TreeOk t → R s1 s2 → (vm1.execute t id i s1 = none ↔ allowed s2 i = false)) :
    ExecSim R False vm1 (guardVm vm2 allowed) i := by
  intro t id s1 s2 hj hr
  have hg := hg t id s1 s2 hj hr
  cases ha : allowed s2 i with
  | false =>
    refine .inl ⟨hg.2 ha, .inr ?_⟩
    simp only [guardVm, ha, Bool.false_eq_true, if_false]
  | true =>
    rcases h t id s1 s2 hj hr with ⟨h1, -⟩ | ⟨s1', s2', h1, h2, h3⟩
    · rw [hg.1 h1] at ha; cases ha
    · refine .inr ⟨s1', s2', h1, ?_, h3⟩
      simp only [guardVm, ha, if_true, h2]

theorem uRes_none (n : Int) : uRes true n = none ↔ isUnsigned64 n = false := by
  simp only [uRes, isUnsigned64]
  by_cases h : 0 ≤ n ∧ n < 2 ^ 64
  · rw [if_pos h, decide_eq_true h]; exact ⟨fun h => (by cases h), fun h => (by cases h)⟩
  · rw [if_neg h, decide_eq_false h]; exact ⟨fun _ => rfl, fun _ => rfl⟩

theorem iRes_none (n : Int) : iRes true n = none ↔ isSigned64 n = false := by
  simp only [iRes, isSigned64]
  by_cases h : -(2 ^ 63) ≤ n ∧ n < 2 ^ 63
  · rw [if_pos h, decide_eq_true h]; exact ⟨fun h => (by cases h), fun h => (by cases h)⟩
  · rw [if_neg h, decide_eq_false h]; exact ⟨fun _ => rfl, fun _ => rfl⟩

theorem pow_none (U : Int → Option Nat) (Ok : Int → Bool) (hU : ∀ n r, U n = some r → (r : Int) = n)
    (hN : ∀ n, U n = none ↔ Ok n = false) (f : Nat → SState) (v b k r2 : Nat) :
    ((U ((b ^ k : Nat) : Int)).bind fun p => (U ((v : Int) * p)).bind fun m =>
      (U ((m : Int) + r2)).bind fun x => some (f x)) = none ↔
    (Ok ((b : Int) ^ k) && Ok ((v : Int) * (b : Int) ^ k) && Ok ((v : Int) * (b : Int) ^ k + r2)) = false := by
  have h0 : (((b ^ k : Nat) : Nat) : Int) = (b : Int) ^ k := Int.natCast_pow b k
  rw [h0]
  generalize (b : Int) ^ k = q
  have hN' : ∀ n r, U n = some r → Ok n = true := by
    intro n r h
    cases ho : Ok n with
    | true => rfl
    | false => rw [(hN n).2 ho] at h; cases h
  cases hp : U q with
  | none => simp [(hN _).1 hp]
  | some p =>
    have hpq := hU _ _ hp
    simp only [Option.bind_some, hpq, hN' _ _ hp, Bool.true_and]
    cases hm : U ((v : Int) * q) with
    | none => simp [(hN _).1 hm]
    | some m =>
      have hmq := hU _ _ hm
      simp only [Option.bind_some, hmq, hN' _ _ hm, Bool.true_and]
      cases hr : U ((v : Int) * q + r2) with
      | none => simp [(hN _).1 hr]
      | some x => simp [hN' _ _ hr]

theorem fits_pow (Ok : Int → Bool) (v : Int) (ST : List Int) (R R2 : Int) (E : Nat) (O : List Int) (b k : Nat)
    (h : k = (R % 2 ^ 32).toNat) : Ideal.fits Ok ⟨v :: ST, R, R2, E, O⟩ (.pow b) =
      (Ok ((b : Int) ^ k) && Ok (v * (b : Int) ^ k) && Ok (v * (b : Int) ^ k + R2)) := by
  subst h; rfl

theorem map_none {α β : Type} {f : α → β} {x : Option α} : x.map f = none ↔ x = none := by
  cases x <;> simp

theorem exec_simple_pow_panics (b : Nat) (t : Tree Str) (id : NodeId) (st : List Nat) (r r2 e : Nat) (o : List Nat) :
    (simpleStackVm true).execute t id (.pow b) ⟨st, r, r2, e, o⟩ = none ↔
      Ideal.fits isUnsigned64 ⟨st.map (fun (n : Nat) => (n : Int)), r, r2, e, o.map (fun (n : Nat) => (n : Int))⟩
        (.pow b) = false := by
  cases st with
  | nil => exact ⟨fun h => (by cases h), fun h => (by cases h)⟩
  | cons v st =>
    have hx : (simpleStackVm true).execute t id (.pow b) ⟨v :: st, r, r2, e, o⟩ =
        ((uRes true ((b ^ (r % 2 ^ 32) : Nat) : Int)).bind fun p => (uRes true ((v : Int) * p)).bind fun m =>
          (uRes true ((m : Int) + r2)).bind fun x => some (⟨x :: st, r, r2, e, o⟩ : SState)).map (fun s => (t, s)) := by
      simp only [simpleStackVm, simpleExec, Option.bind_eq_bind]
    rw [hx, map_none]
    simp only [List.map_cons]
    have h4 : r % 2 ^ 32 = ((r : Int) % 2 ^ 32).toNat := by omega
    rw [fits_pow isUnsigned64 _ _ _ _ _ _ b _ h4]
    generalize r % 2 ^ 32 = k
    exact pow_none (uRes true) isUnsigned64 (fun _ _ h => uRes_true h) uRes_none
      (fun x => ⟨x :: st, r, r2, e, o⟩) v b k r2

theorem exec_simple_panics (i : SInstr) (t : Tree Str) (id : NodeId) (s : SState) (S : Ideal) (ht : TreeOk t)
    (h : UnsignedExact s S) :
    (simpleStackVm true).execute t id i s = none ↔ S.fits isUnsigned64 (SInstr.general i) = false := by
  obtain ⟨st, r, r2, e, o⟩ := s
  obtain ⟨ST, R, R2, E, O⟩ := S
  obtain ⟨h1, h2, h3, h4, h5⟩ := h
  simp only at h1 h2 h3 h4 h5
  subst h1 h2 h3 h4 h5
  have triv : ∀ {x : Option (Tree Str × SState)}, x ≠ none → (x = none ↔ true = false) :=
    fun h => ⟨fun h' => absurd h' h, fun h' => (by cases h')⟩
  cases i with
  | pushFromTree =>
    refine triv ?_
    simp only [simpleStackVm, simpleExec]
    rcases hf : firstChildData t id with _ | _ | d
    · exact absurd hf (ht.firstChild id)
    · intro h; cases h
    · rcases hs : strToUsize d with _ | v
      · simp only [hs]; intro h; cases h
      · simp only [hs]; intro h; cases h
  | regAddConst c =>
    simp only [simpleStackVm, simpleExec, map_none, SInstr.general, Ideal.fits]
    exact uRes_none _
  | add =>
    cases st with
    | nil => exact triv (fun h => by cases h)
    | cons v st =>
      have hc : (v : Int) + r = r + v := Int.add_comm _ _
      have hx : (simpleStackVm true).execute t id .add ⟨v :: st, r, r2, e, o⟩ =
          ((uRes true ((r : Int) + v)).map (fun q => (⟨q :: st, r, r2, e, o⟩ : SState))).map (fun s => (t, s)) := by
        simp only [simpleStackVm, simpleExec]
      have hf : ∀ (Ok : Int → Bool) (R V : Int) (ST : List Int) (R2 : Int) (E : Nat) (O : List Int),
          Ideal.fits Ok ⟨V :: ST, R, R2, E, O⟩ (SInstr.general .add) = Ok (V + R) := fun _ _ _ _ _ _ _ => rfl
      rw [hx, map_none, map_none, List.map_cons, hf isUnsigned64, hc]
      exact uRes_none _
  | sub =>
    cases st with
    | nil => exact triv (fun h => by cases h)
    | cons v st =>
      simp only [simpleStackVm, simpleExec, map_none, SInstr.general, Ideal.fits, List.map_cons, List.head?_cons,
        Option.all_some]
      exact uRes_none _
  | pow b =>
    have := exec_simple_pow_panics b t id st r r2 e o
    generalize (simpleStackVm true).execute t id (.pow b) ⟨st, r, r2, e, o⟩ = x at this ⊢
    simp only [SInstr.general]
    exact this
  | popToReg => cases st <;> exact triv (fun h => by cases h)
  | popToReg2 => cases st <;> exact triv (fun h => by cases h)
  | popDiscard => cases st <;> exact triv (fun h => by cases h)
  | _ => exact triv (fun h => by cases h)

theorem exec_stack_panics (cc : CharClass) {i : Instr} (hp : Instr.isPow i = false) (t : Tree Str) (id : NodeId)
    (s : VState) (S : Ideal) (ht : TreeOk t) (h : SignedExact s S) :
    (stackVm cc true).execute t id i s = none ↔ S.fits isSigned64 i = false := by
  obtain ⟨st, r, r2, e, ic, isx, o⟩ := s
  obtain ⟨ST, R, R2, E, O⟩ := S
  obtain ⟨h1, h2, h3, h4, h5⟩ := h
  simp only at h1 h2 h3 h4 h5
  subst h1 h2 h3 h4 h5
  have triv : ∀ {x : Option (Tree Str × VState)}, x ≠ none → (x = none ↔ true = false) :=
    fun h => ⟨fun h' => absurd h' h, fun h' => (by cases h')⟩
  cases i with
  | pushFromTree =>
    refine triv ?_
    simp only [stackVm, stackExec]
    rcases hf : firstChildData t id with _ | _ | d
    · exact absurd hf (ht.firstChild id)
    · intro h; cases h
    · rcases hs : strToIsize d with _ | v
      · simp only [hs]; intro h; cases h
      · simp only [hs]; intro h; cases h
  | pow b => cases hp
  | regAddConst c =>
    simp only [stackVm, stackExec, map_none, Ideal.fits]
    exact iRes_none _
  | add =>
    cases st with
    | nil => exact triv (fun h => by cases h)
    | cons v st =>
      simp only [stackVm, stackExec, map_none, Ideal.fits, List.head?_cons, Option.all_some]
      rw [Int.add_comm]
      exact iRes_none _
  | sub =>
    cases st with
    | nil => exact triv (fun h => by cases h)
    | cons v st =>
      simp only [stackVm, stackExec, map_none, Ideal.fits, List.head?_cons, Option.all_some]
      exact iRes_none _
  | popToReg => cases st <;> exact triv (fun h => by cases h)
  | popToReg2 => cases st <;> exact triv (fun h => by cases h)
  | popDiscard => cases st <;> exact triv (fun h => by cases h)
  | _ => exact triv (fun h => by cases h)

/-! ### a release build never panics -/

theorem exec_simple_release (i : SInstr) (t : Tree Str) (id : NodeId) (s : SState) (ht : TreeOk t) :
    (simpleStackVm false).execute t id i s ≠ none := by
  obtain ⟨st, r, r2, e, o⟩ := s
  cases i with
  | pushFromTree =>
    simp only [simpleStackVm, simpleExec]
    rcases hf : firstChildData t id with _ | _ | d
    · exact absurd hf (ht.firstChild id)
    · intro h; cases h
    · rcases hs : strToUsize d with _ | v
      · simp only [hs]; intro h; cases h
      · simp only [hs]; intro h; cases h
  | regAddConst c => simp only [simpleStackVm, simpleExec, uRes_false]; intro h; cases h
  | add =>
    cases st with
    | nil => intro h; cases h
    | cons v st => simp only [simpleStackVm, simpleExec, uRes_false]; intro h; cases h
  | sub =>
    cases st with
    | nil => intro h; cases h
    | cons v st => simp only [simpleStackVm, simpleExec, uRes_false]; intro h; cases h
  | pow b =>
    cases st with
    | nil => intro h; cases h
    | cons v st =>
      simp only [simpleStackVm, simpleExec, uRes_false, Option.bind_eq_bind, Option.bind_some]; intro h; cases h
  | popToReg => cases st <;> exact fun h => by cases h
  | popToReg2 => cases st <;> exact fun h => by cases h
  | popDiscard => cases st <;> exact fun h => by cases h
  | _ => exact fun h => by cases h

theorem exec_stack_release (cc : CharClass) (i : Instr) (t : Tree Str) (id : NodeId) (s : VState) (ht : TreeOk t) :
    (stackVm cc false).execute t id i s ≠ none := by
  obtain ⟨st, r, r2, e, ic, isx, o⟩ := s
  cases i with
  | pushFromTree =>
    simp only [stackVm, stackExec]
    rcases hf : firstChildData t id with _ | _ | d
    · exact absurd hf (ht.firstChild id)
    · intro h; cases h
    · rcases hs : strToIsize d with _ | v
      · simp only [hs]; intro h; cases h
      · simp only [hs]; intro h; cases h
  | regAddConst c => simp only [stackVm, stackExec, iRes_wrap]; intro h; cases h
  | add =>
    cases st with
    | nil => intro h; cases h
    | cons v st => simp only [stackVm, stackExec, iRes_wrap]; intro h; cases h
  | sub =>
    cases st with
    | nil => intro h; cases h
    | cons v st => simp only [stackVm, stackExec, iRes_wrap]; intro h; cases h
  | pow b =>
    cases st with
    | nil => intro h; cases h
    | cons v st =>
      simp only [stackVm, stackExec, uRes_false, iRes_wrap, Option.bind_eq_bind, Option.bind_some]; intro h; cases h
  | popToReg => cases st <;> exact fun h => by cases h
  | popToReg2 => cases st <;> exact fun h => by cases h
  | popDiscard => cases st <;> exact fun h => by cases h
  | _ => exact fun h => by cases h

/-- The VM that does nothing instead of panicking. -/
def calmVm {I S : Type} (vm : VM I S) : VM I S where
  parseInstructions := vm.parseInstructions
  execute t id i s := some ((vm.execute t id i s).getD (t, s))
  init := vm.init

/-- A parser built from rule data with a VM that does not panic on the trees of a parse does not panic. -/
theorem parse_calm {I S : Type} {pd : ParserData I} {P : Parser I} {ho0 : HashOrder} {fuel0 start : Nat}
    (hw : WellFormed pd) (hP : Parser.newFromParserData ho0 fuel0 pd start = .ok P) (hs : StartSymbol pd start)
    (vm : VM I S) (htp : TreePreserving vm) (hn : ∀ i t id s, TreeOk t → vm.execute t id i s ≠ none)
    (ho : HashOrder) (fuel : Nat) (text : Str) (s : S) :
    (Parser.parse ho fuel vm P text s).1 ≠ .panic ∧
    ∀ e, (Parser.parse ho fuel vm P text s).1 = .err e →
      (∃ chr pos exp, e = .unexpectedChar chr pos exp) ∨ (∃ pos, e = .endOfChars pos) := by
  have ht1 : TreePreserving (calmVm vm) := by
    intro t id i s t' s' h
    simp only [calmVm, Option.some.injEq] at h
    rcases hx : vm.execute t id i s with _ | ⟨t1, s1⟩
    · rw [hx] at h; cases h; rfl
    · rw [hx] at h; cases h; exact htp _ _ _ _ _ _ hx
  have ht2 : Total (calmVm vm) := fun t id i s h => by cases h
  have h29 := C29_only_syntax_errors (ho := ho) (fuel := fuel) hw hP hs (calmVm vm) ht1 ht2 text s
  have hsim := RSim.parse (R := Eq) (a := False) (vm1 := vm) (vm2 := calmVm vm) ho P (fun A r _ i _ t id s1 s2 hj hr => by
    subst hr
    rcases hx : vm.execute t id i s1 with _ | ⟨t1, s1'⟩
    · exact absurd hx (hn i t id s1 hj)
    · have := htp _ _ _ _ _ _ hx
      subst this
      refine .inr ⟨s1', s1', rfl, ?_, rfl⟩
      simp only [calmVm, hx, Option.getD_some]) fuel text (s1 := s) (s2 := s) rfl
  rcases hsim with ⟨-, h | h⟩ | ⟨h, -⟩
  · exact h.elim
  · exact absurd h h29.1
  · rw [h]; exact h29

end HPP
