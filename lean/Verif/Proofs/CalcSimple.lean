import Verif.Proofs.CalcShape
import Verif.Props.StackMachine
/-
The calculator rules on SimpleStackVm.
-/
namespace HPP
open Spec CalcShape

/-! ### decimal values -/

theorem decimal_from (ds : List (Fin 10)) : ∀ v, ds.foldl (fun v (d : Fin 10) => 10 * v + d.val) v = v * 10 ^ ds.length + decimal ds := by
  induction ds with
  | nil => intro v; simp [decimal]
  | cons d ds ih =>
    intro v
    rw [decimal, List.foldl_cons, List.foldl_cons, ih, ih (10 * 0 + d.val), List.length_cons, Nat.pow_succ]
    rw [Nat.add_mul, Nat.mul_zero, Nat.zero_add, ← Nat.add_assoc]
    congr 2
    rw [Nat.mul_comm 10 v, Nat.mul_assoc, Nat.mul_comm 10]

theorem decimal_cons (d : Fin 10) (ds : List (Fin 10)) : decimal (d :: ds) = d.val * 10 ^ ds.length + decimal ds := by
  rw [decimal, List.foldl_cons, decimal_from]; simp

theorem pow_lt_word {k : Nat} (h : k ≤ 19) : 10 ^ k < 2 ^ 64 :=
  Nat.lt_of_le_of_lt (Nat.pow_le_pow_right (by decide) h) (by decide)

theorem pow_ge_word {k : Nat} (h : 20 ≤ k) : 2 ^ 64 ≤ 10 ^ k :=
  Nat.le_trans (by decide) (Nat.pow_le_pow_right (by decide) h)

theorem uRes_fit (checked : Bool) {n : Nat} (h : n < 2 ^ 64) : uRes checked (n : Int) = some n := by
  have : (0 : Int) ≤ n ∧ (n : Int) < 2 ^ 64 := ⟨by omega, by exact_mod_cast h⟩
  rw [uRes, if_pos this]; simp

theorem uRes_wrap (n : Nat) : uRes false (n : Int) = some (n % 2 ^ 64) := by
  by_cases h : n < 2 ^ 64
  · rw [uRes_fit false h, Nat.mod_eq_of_lt h]
  · have : ¬ ((0 : Int) ≤ n ∧ (n : Int) < 2 ^ 64) := by omega
    rw [uRes, if_neg this]
    simp only [Bool.false_eq_true, if_false, Option.some.injEq]
    omega

theorem uRes_over {n : Int} (h : n < 0 ∨ 2 ^ 64 ≤ n) : uRes true n = none := by
  have : ¬ ((0 : Int) ≤ n ∧ n < 2 ^ 64) := by omega
  rw [uRes, if_neg this]; rfl

/-! ### the machine -/

/-- `simpleExec` given the text of the first child. -/
def simpleExecD (checked : Bool) (d : Option Str) (i : SInstr) (s : SState) : Option SState :=
  match i with
  | .pushFromTree =>
    match d with
    | none => some { s with error := 1 }
    | some d =>
      match strToUsize d with
      | some v => some { s with stack := v :: s.stack }
      | none => some { s with error := 2 }
  | i => simpleExec checked Tree.new ⟨0, 0⟩ i s

theorem simple_local (checked : Bool) : LocalVm (simpleStackVm checked) (simpleExecD checked) := by
  intro τ id i s d hd
  cases i with
  | pushFromTree =>
    simp only [simpleStackVm, simpleExec, hd, simpleExecD]
    cases d <;> rfl
  | _ => simp only [simpleStackVm, simpleExec, simpleExecD]

theorem runData_one {I S : Type} {E : Option Str → I → S → Option S} {d : Option Str} {i : I} {s : S} {r : Option S}
    (h : E d i s = r) : runData E d [i] s = r := by
  subst h
  simp only [runData]
  cases E d i s <;> rfl

theorem runData_two {I S : Type} {E : Option Str → I → S → Option S} {d : Option Str} {i j : I} {s s1 : S} {r : Option S}
    (h1 : E d i s = some s1) (h2 : E d j s1 = r) : runData E d [i, j] s = r := by
  subst h2
  simp only [runData, h1, Option.bind_some]
  cases E d j s1 <;> rfl

theorem iter_snoc {I S : Type} (E : Option Str → I → S → Option S) (ins : CalcNT → List I) (T : S → Option S)
    (d : Fin 10) (ds : List (Fin 10)) (s s1 : S) (h : runData E (some [figure d]) (ins .digit) s = some s1) :
    (digitSteps E ins (d :: ds) s).bind (iter T (d :: ds).length) =
      ((digitSteps E ins ds s1).bind (iter T ds.length)).bind T := by
  simp only [digitSteps, h, Option.bind_some, List.length_cons]
  cases digitSteps E ins ds s1 <;> rfl

/-- The instructions of the calculator rules on SimpleStackVm. -/
def calcSIns : CalcNT → List SInstr
  | .add => [.popToReg, .add]
  | .sub => [.popToReg, .sub]
  | .print => [.popToReg, .printReg]
  | .number => [.popDiscard]
  | .numberT => [.popToReg, .popToReg2, .popDiscard, .pow 10, .regAddConst 1, .pushReg]
  | .digit => [.pushFromTree, .pushConst 1]
  | .start | .terms | .termsS | .term | .numberS | .space => []

theorem calcSIns_plain : Plain calcSIns := by
  intro x hx
  rcases hx with rfl | rfl | rfl | rfl | rfl | rfl <;> rfl

theorem strToUsize_digit (d : Fin 10) : strToUsize [figure d] = some d.val := by
  match d with
  | 0 | 1 | 2 | 3 | 4 | 5 | 6 | 7 | 8 | 9 => decide +kernel

theorem simple_digit (checked : Bool) (d : Fin 10) (s : SState) :
    runData (simpleExecD checked) (some [figure d]) (calcSIns .digit) s =
      some { s with stack := 1 :: d.val :: s.stack } := by
  simp only [calcSIns, runData, simpleExecD, strToUsize_digit, Option.bind_some, simpleExec]

/-- The step of `number_s_`. -/
abbrev simpleTail (checked : Bool) : SState → Option SState := runData (simpleExecD checked) (some []) (calcSIns .numberT)

theorem runData_six {I S : Type} {E : Option Str → I → S → Option S} {d : Option Str} {i1 i2 i3 i4 i5 i6 : I} {s s1 s2 s3 : S}
    {R : Option S} (h1 : E d i1 s = some s1) (h2 : E d i2 s1 = some s2) (h3 : E d i3 s2 = some s3) (h4 : E d i4 s3 = R) :
    runData E d [i1, i2, i3, i4, i5, i6] s = R.bind fun s4 => (E d i5 s4).bind fun s5 => E d i6 s5 := by
  subst h4
  simp only [runData, h1, h2, h3, Option.bind_some]
  cases E d i4 s3 with
  | none => rfl
  | some s4 =>
    simp only [Option.bind_some]
    cases E d i5 s4 with
    | none => rfl
    | some s5 =>
      simp only [Option.bind_some]
      cases E d i6 s5 <;> rfl

theorem tail_bind {A S : Type} (U : A → Option Nat) (P Q : A) (M : Nat → A) (V : Nat → A) (mk : Nat → S) (fin : Nat → Nat → S)
    (G : S → Option S) (hG : ∀ r, G (mk r) = (U Q).map (fin r)) :
    ((U P).bind fun p => (U (M p)).bind fun m => (U (V m)).bind fun r => some (mk r)).bind G =
      (U P).bind fun p => (U (M p)).bind fun m => (U (V m)).bind fun r => (U Q).bind fun k => some (fin r k) := by
  cases U P with
  | none => rfl
  | some p =>
    simp only [Option.bind_some]
    cases U (M p) with
    | none => rfl
    | some m =>
      simp only [Option.bind_some]
      cases U (V m) with
      | none => rfl
      | some r =>
        simp only [Option.bind_some, hG]
        cases U Q <;> rfl

theorem simple_pow (checked : Bool) {d : Nat} {st : List Nat} (s : SState) (hs : s.stack = d :: st) :
    simpleExecD checked (some []) (.pow 10) s =
      (uRes checked ((10 ^ (s.reg % 2 ^ 32) : Nat) : Int)).bind fun p =>
      (uRes checked ((d : Int) * p)).bind fun m =>
      (uRes checked ((m : Int) + s.reg2)).bind fun r => some { s with stack := r :: st } := by
  simp only [simpleExecD, simpleExec, hs, Option.bind_eq_bind]

theorem simple_inc (checked : Bool) (s : SState) : simpleExecD checked (some []) (.regAddConst 1) s =
      (uRes checked ((s.reg : Int) + 1)).map fun r => { s with reg := r } := by
  simp only [simpleExecD, simpleExec]
  rfl

theorem simple_tail (checked : Bool) {k v x d : Nat} {st : List Nat} {s : SState} (hs : s.stack = k :: v :: x :: d :: st) :
    simpleTail checked s =
      (uRes checked ((10 ^ (k % 2 ^ 32) : Nat) : Int)).bind fun p =>
      (uRes checked ((d : Int) * p)).bind fun m =>
      (uRes checked ((m : Int) + v)).bind fun r =>
      (uRes checked ((k : Int) + 1)).bind fun k' =>
        some { s with stack := k' :: r :: st, reg := k', reg2 := v } := by
  have h1 : simpleExecD checked (some []) .popToReg s = some { s with stack := v :: x :: d :: st, reg := k } := by
    simp only [simpleExecD, simpleExec, hs]
  have h2 : simpleExecD checked (some []) .popToReg2 { s with stack := v :: x :: d :: st, reg := k } =
      some { s with stack := x :: d :: st, reg := k, reg2 := v } := by
    simp only [simpleExecD, simpleExec]
  have h3 : simpleExecD checked (some []) .popDiscard { s with stack := x :: d :: st, reg := k, reg2 := v } =
      some { s with stack := d :: st, reg := k, reg2 := v } := by
    simp only [simpleExecD, simpleExec]
  have h4 := simple_pow checked (d := d) (st := st) { s with stack := d :: st, reg := k, reg2 := v } rfl
  simp only at h4
  generalize ((10 ^ (k % 2 ^ 32) : Nat) : Int) = P at h4 ⊢
  have h6 := runData_six (i5 := SInstr.regAddConst 1) (i6 := SInstr.pushReg) h1 h2 h3 h4
  have h7 : simpleTail checked s = runData (simpleExecD checked) (some [])
    [.popToReg, .popToReg2, .popDiscard, .pow 10, .regAddConst 1, .pushReg] s := by simp only [simpleTail, calcSIns]
  rw [h7, h6]
  have hG : ∀ r, ((fun s4 => (simpleExecD checked (some []) (SInstr.regAddConst 1) s4).bind fun s5 =>
        simpleExecD checked (some []) SInstr.pushReg s5) { s with stack := r :: st, reg := k, reg2 := v }) =
      (uRes checked ((k : Int) + 1)).map fun k' => { s with stack := k' :: r :: st, reg := k', reg2 := v } := by
    intro r
    simp only [simple_inc]
    cases uRes checked ((k : Int) + 1) with
    | none => rfl
    | some k' => simp only [Option.bind_some, Option.map_some, simpleExecD, simpleExec]
  clear h1 h2 h3 h4 h6 h7
  generalize (fun s4 => (simpleExecD checked (some []) (SInstr.regAddConst 1) s4).bind fun s5 =>
        simpleExecD checked (some []) SInstr.pushReg s5) = G at hG ⊢
  generalize uRes checked = U at hG ⊢
  generalize ((k : Int) + 1) = Q at hG ⊢
  exact tail_bind U P Q (fun p => (d : Int) * p) (fun m => (m : Int) + v)
    (fun r => { s with stack := r :: st, reg := k, reg2 := v })
    (fun r k' => { s with stack := k' :: r :: st, reg := k', reg2 := v }) G hG

theorem simple_tail_some (checked : Bool) {k v x d : Nat} {st : List Nat} {s : SState} (hs : s.stack = k :: v :: x :: d :: st)
    {p m r k' : Nat} (hp : uRes checked ((10 ^ (k % 2 ^ 32) : Nat) : Int) = some p)
    (hm : uRes checked ((d : Int) * p) = some m) (hr : uRes checked ((m : Int) + v) = some r)
    (hk : uRes checked ((k : Int) + 1) = some k') :
    simpleTail checked s = some { s with stack := k' :: r :: st, reg := k', reg2 := v } := by
  rw [simple_tail checked hs, hp, Option.bind_some, hm, Option.bind_some, hr, Option.bind_some, hk, Option.bind_some]

theorem simple_tail_none1 (checked : Bool) {k v x d : Nat} {st : List Nat} {s : SState} (hs : s.stack = k :: v :: x :: d :: st)
    (hp : uRes checked ((10 ^ (k % 2 ^ 32) : Nat) : Int) = none) : simpleTail checked s = none := by
  rw [simple_tail checked hs, hp, Option.bind_none]

theorem simple_tail_none2 (checked : Bool) {k v x d : Nat} {st : List Nat} {s : SState} (hs : s.stack = k :: v :: x :: d :: st)
    {p : Nat} (hp : uRes checked ((10 ^ (k % 2 ^ 32) : Nat) : Int) = some p)
    (hm : uRes checked ((d : Int) * p) = none) : simpleTail checked s = none := by
  rw [simple_tail checked hs, hp, Option.bind_some, hm, Option.bind_none]

theorem simple_tail_none3 (checked : Bool) {k v x d : Nat} {st : List Nat} {s : SState} (hs : s.stack = k :: v :: x :: d :: st)
    {p m : Nat} (hp : uRes checked ((10 ^ (k % 2 ^ 32) : Nat) : Int) = some p)
    (hm : uRes checked ((d : Int) * p) = some m) (hr : uRes checked ((m : Int) + v) = none) : simpleTail checked s = none := by
  rw [simple_tail checked hs, hp, Option.bind_some, hm, Option.bind_some, hr, Option.bind_none]

/-- The digits after the first digit `d`. -/
def simpleRest (checked : Bool) (ds : List (Fin 10)) (s : SState) : Option SState :=
  (digitSteps (simpleExecD checked) calcSIns ds s).bind (iter (simpleTail checked) ds.length)

theorem simpleRest_nil (checked : Bool) (s : SState) : simpleRest checked [] s = some s := by
  simp only [simpleRest, digitSteps, iter, List.length_nil, Option.bind_some]

theorem simpleRest_cons (checked : Bool) (d : Fin 10) (ds : List (Fin 10)) (s : SState) :
    simpleRest checked (d :: ds) s =
      (simpleRest checked ds { s with stack := 1 :: d.val :: s.stack }).bind (simpleTail checked) := by
  rw [simpleRest, iter_snoc (simpleExecD checked) calcSIns (simpleTail checked) d ds s _ (simple_digit checked d s)]
  rfl

/-- The exponent used for the `n`-th power is right as long as it fits 32 bits. -/
theorem exp_mod {k n : Nat} (hk : k = n % 2 ^ 64) (hn : n < 2 ^ 32) : k % 2 ^ 32 = n := by omega

/-- One more digit: the number computed and the count of digits. -/
theorem simple_tail_ok (checked : Bool) {k v x d n : Nat} {st : List Nat} {s : SState} (hs : s.stack = k :: v :: x :: d :: st)
    (hk : k = n % 2 ^ 64) (hc : checked = true → n < 20) (hv : d * 10 ^ n + v < 2 ^ 64) :
    ∃ k' r2, k' = (n + 1) % 2 ^ 64 ∧
      simpleTail checked s = some { s with stack := k' :: (d * 10 ^ n + v) :: st, reg := k', reg2 := r2 } := by
  have hk' : ∃ k', uRes checked ((k : Int) + 1) = some k' ∧ k' = (n + 1) % 2 ^ 64 := by
    rw [show ((k : Int) + 1) = ((k + 1 : Nat) : Int) by omega]
    cases checked with
    | false => exact ⟨_, uRes_wrap _, by omega⟩
    | true =>
      have := hc rfl
      exact ⟨_, uRes_fit true (by omega), by omega⟩
  obtain ⟨k', hk1, hk2⟩ := hk'
  refine ⟨k', v, hk2, ?_⟩
  by_cases hd : d = 0
  · have hp : ∃ p, uRes checked ((10 ^ (k % 2 ^ 32) : Nat) : Int) = some p := by
      cases checked with
      | false => exact ⟨_, uRes_wrap _⟩
      | true =>
        have := hc rfl
        rw [exp_mod hk (by omega)]
        exact ⟨_, uRes_fit true (pow_lt_word (by omega))⟩
    obtain ⟨p, hp⟩ := hp
    have hv' : d * 10 ^ n + v = v := by rw [hd, Nat.zero_mul, Nat.zero_add]
    rw [hv'] at hv ⊢
    refine simple_tail_some checked hs hp (m := 0) ?_ ?_ hk1
    · rw [show ((d : Int) * p) = ((0 : Nat) : Int) by rw [hd]; simp]
      exact uRes_fit checked (Nat.lt_of_le_of_lt (Nat.zero_le v) hv)
    · rw [show (((0 : Nat) : Int) + v) = (v : Int) by simp]
      exact uRes_fit checked hv
  · have hlt : 10 ^ n < 2 ^ 64 :=
      Nat.lt_of_le_of_lt (Nat.le_trans (Nat.le_mul_of_pos_left _ (by omega)) (Nat.le_add_right _ _)) hv
    have hlen : n < 20 := by
      apply Classical.byContradiction
      intro hn
      exact absurd (Nat.lt_of_lt_of_le hlt (pow_ge_word (k := n) (by omega))) (Nat.lt_irrefl _)
    refine simple_tail_some checked hs (p := 10 ^ n) (m := d * 10 ^ n) ?_ ?_ ?_ hk1
    · rw [exp_mod hk (by omega)]
      exact uRes_fit checked hlt
    · rw [← Int.natCast_mul]
      exact uRes_fit checked (Nat.lt_of_le_of_lt (Nat.le_add_right _ _) hv)
    · rw [← Int.natCast_add]
      exact uRes_fit checked hv

/-- One more digit, checked builds: too many digits, or too big a value. -/
theorem simple_tail_panic {k v x d n : Nat} {st : List Nat} {s : SState} (hs : s.stack = k :: v :: x :: d :: st)
    (hk : k = n % 2 ^ 64) (hn : n ≤ 20) (h : 20 ≤ n ∨ 2 ^ 64 ≤ d * 10 ^ n + v) : simpleTail true s = none := by
  have hm : k % 2 ^ 32 = n := exp_mod hk (by omega)
  by_cases hl : 20 ≤ n
  · refine simple_tail_none1 true hs ?_
    rw [hm]
    exact uRes_over (.inr (by exact_mod_cast pow_ge_word hl))
  · have hp : uRes true ((10 ^ (k % 2 ^ 32) : Nat) : Int) = some (10 ^ n) := by
      rw [hm]
      exact uRes_fit true (pow_lt_word (by omega))
    have h : 2 ^ 64 ≤ d * 10 ^ n + v := h.resolve_left hl
    by_cases hmul : d * 10 ^ n < 2 ^ 64
    · refine simple_tail_none3 true hs hp (m := d * 10 ^ n) ?_ ?_
      · rw [← Int.natCast_mul]
        exact uRes_fit true hmul
      · rw [← Int.natCast_add]
        exact uRes_over (.inr (by exact_mod_cast h))
    · refine simple_tail_none2 true hs hp ?_
      rw [← Int.natCast_mul]
      exact uRes_over (.inr (by exact_mod_cast Nat.not_lt.1 hmul))

theorem decimal_one (d : Fin 10) : decimal [d] = d.val := by simp [decimal]

/-- Success: the value is computed. -/
theorem simpleRest_ok (checked : Bool) (ds : List (Fin 10)) : ∀ (d : Fin 10) (st : List Nat) (s : SState),
    s.stack = 1 :: d.val :: st → (checked = true → ds.length + 1 ≤ 20) → decimal (d :: ds) < 2 ^ 64 →
    ∃ k r r2, k = (ds.length + 1) % 2 ^ 64 ∧ simpleRest checked ds s =
      some { s with stack := k :: decimal (d :: ds) :: st, reg := r, reg2 := r2 } := by
  induction ds with
  | nil =>
    intro d st s hs _ _
    refine ⟨1, s.reg, s.reg2, rfl, ?_⟩
    rw [simpleRest_nil, decimal_one, ← hs]
  | cons e ds ih =>
    intro d st s hs hc hv
    rw [decimal_cons] at hv
    rw [decimal_cons d]
    obtain ⟨k, r, r2, hk, h⟩ := ih e (1 :: d.val :: st) { s with stack := 1 :: e.val :: s.stack } (by simp only [hs])
      (fun h => by have := hc h; simp only [List.length_cons] at this; omega) (Nat.lt_of_le_of_lt (Nat.le_add_left _ _) hv)
    rw [simpleRest_cons, h, Option.bind_some]
    simp only [List.length_cons] at hc hv ⊢
    obtain ⟨k', r2', hk', g⟩ := simple_tail_ok checked (n := ds.length + 1) (st := st) (x := 1) (d := d.val) (v := decimal (e :: ds))
      (s := { s with stack := k :: decimal (e :: ds) :: 1 :: d.val :: st, reg := r, reg2 := r2 }) rfl hk
      (fun h => by have := hc h; omega) hv
    exact ⟨k', k', r2', hk', g⟩

/-- Failure in checked builds. -/
theorem simpleRest_panic (ds : List (Fin 10)) : ∀ (d : Fin 10) (st : List Nat) (s : SState),
    s.stack = 1 :: d.val :: st → (20 < ds.length + 1 ∨ 2 ^ 64 ≤ decimal (d :: ds)) → simpleRest true ds s = none := by
  induction ds with
  | nil =>
    intro d st s hs h
    rw [decimal_one] at h
    have := d.isLt
    simp only [List.length_nil] at h
    omega
  | cons e ds ih =>
    intro d st s hs h
    rw [simpleRest_cons]
    by_cases hi : 20 < ds.length + 1 ∨ 2 ^ 64 ≤ decimal (e :: ds)
    · rw [ih e (1 :: d.val :: st) { s with stack := 1 :: e.val :: s.stack } (by simp only [hs]) hi, Option.bind_none]
    · have h1 : ds.length + 1 ≤ 20 := by omega
      have h2 : decimal (e :: ds) < 2 ^ 64 := by omega
      obtain ⟨k, r, r2, hk, g⟩ := simpleRest_ok true ds e (1 :: d.val :: st) { s with stack := 1 :: e.val :: s.stack }
        (by simp only [hs]) (fun _ => h1) h2
      rw [g, Option.bind_some]
      rw [decimal_cons d] at h
      simp only [List.length_cons] at h
      exact simple_tail_panic (n := ds.length + 1) (st := st) (x := 1) (d := d.val) (v := decimal (e :: ds))
        (s := { s with stack := k :: decimal (e :: ds) :: 1 :: d.val :: st, reg := r, reg2 := r2 }) rfl hk h1
        (h.imp (fun h => by omega) id)

/-! ### words -/

theorem simple_num_eq (checked : Bool) (d : Fin 10) (ds : List (Fin 10)) (s : SState) :
    tokenStep (simpleExecD checked) calcSIns s (.num (d :: ds)) =
      (simpleRest checked ds { s with stack := 1 :: d.val :: s.stack }).bind
        (runData (simpleExecD checked) (some []) (calcSIns .number)) := by
  simp only [tokenStep, digitSteps, simple_digit, Option.bind_some, List.length_cons, Nat.add_sub_cancel, simpleRest]

theorem simple_num_ok (checked : Bool) {ds : List (Fin 10)} (hne : ds ≠ []) (s : SState)
    (hc : checked = true → ds.length ≤ 20) (hv : decimal ds < 2 ^ 64) :
    ∃ r r2, tokenStep (simpleExecD checked) calcSIns s (.num ds) =
      some { s with stack := decimal ds :: s.stack, reg := r, reg2 := r2 } := by
  cases ds with
  | nil => exact absurd rfl hne
  | cons d ds =>
    obtain ⟨k, r, r2, _, h⟩ := simpleRest_ok checked ds d s.stack { s with stack := 1 :: d.val :: s.stack } rfl hc hv
    refine ⟨r, r2, ?_⟩
    rw [simple_num_eq, h]
    simp only [Option.bind_some, calcSIns, runData, simpleExecD, simpleExec]

theorem simple_num_panic {ds : List (Fin 10)} (hne : ds ≠ []) (s : SState) (h : 20 < ds.length ∨ 2 ^ 64 ≤ decimal ds) :
    tokenStep (simpleExecD true) calcSIns s (.num ds) = none := by
  cases ds with
  | nil => exact absurd rfl hne
  | cons d ds =>
    rw [simple_num_eq, simpleRest_panic ds d s.stack { s with stack := 1 :: d.val :: s.stack } rfl h]
    rfl

theorem token_add {I S : Type} (E : Option Str → I → S → Option S) (ins : CalcNT → List I) (s : S) {i j : I} (h : ins .add = [i, j]) :
    tokenStep E ins s .add = runData E (some (c% "+")) [i, j] s := by
  simp only [tokenStep, h]

theorem token_sub {I S : Type} (E : Option Str → I → S → Option S) (ins : CalcNT → List I) (s : S) {i j : I} (h : ins .sub = [i, j]) :
    tokenStep E ins s .sub = runData E (some (c% "-")) [i, j] s := by
  simp only [tokenStep, h]

theorem token_print {I S : Type} (E : Option Str → I → S → Option S) (ins : CalcNT → List I) (s : S) {i j : I}
    (h : ins .print = [i, j]) :
    tokenStep E ins s .print = runData E (some (c% "print")) [i, j] s := by
  simp only [tokenStep, h]

theorem simple_add (checked : Bool) {a b : Nat} {st : List Nat} {s : SState} (hs : s.stack = b :: a :: st) :
    tokenStep (simpleExecD checked) calcSIns s .add =
      (uRes checked ((b : Int) + a)).map fun r => { s with stack := r :: st, reg := b } := by
  rw [token_add (simpleExecD checked) calcSIns s (i := SInstr.popToReg) (j := SInstr.add) (by simp only [calcSIns])]
  exact runData_two (E := simpleExecD checked) (s1 := { s with stack := a :: st, reg := b })
    (by simp only [simpleExecD, simpleExec, hs]) (by simp only [simpleExecD, simpleExec])

theorem simple_sub (checked : Bool) {a b : Nat} {st : List Nat} {s : SState} (hs : s.stack = b :: a :: st) :
    tokenStep (simpleExecD checked) calcSIns s .sub =
      (uRes checked ((a : Int) - b)).map fun r => { s with stack := r :: st, reg := b } := by
  rw [token_sub (simpleExecD checked) calcSIns s (i := SInstr.popToReg) (j := SInstr.sub) (by simp only [calcSIns])]
  exact runData_two (E := simpleExecD checked) (s1 := { s with stack := a :: st, reg := b })
    (by simp only [simpleExecD, simpleExec, hs]) (by simp only [simpleExecD, simpleExec])

theorem simple_print (checked : Bool) {a : Nat} {st : List Nat} {s : SState} (hs : s.stack = a :: st) :
    tokenStep (simpleExecD checked) calcSIns s .print = some { s with stack := st, reg := a, out := s.out ++ [a] } := by
  rw [token_print (simpleExecD checked) calcSIns s (i := SInstr.popToReg) (j := SInstr.printReg) (by simp only [calcSIns])]
  exact runData_two (E := simpleExecD checked) (s1 := { s with stack := st, reg := a })
    (by simp only [simpleExecD, simpleExec, hs]) (by simp only [simpleExecD, simpleExec])

/-- A missing operand sets the error code (and an operand that is there is lost). -/
theorem simple_missing (checked : Bool) {s : SState} {t : Token}
    (h : s.stack = [] ∧ (t = .add ∨ t = .sub ∨ t = .print) ∨ (∃ a, s.stack = [a]) ∧ (t = .add ∨ t = .sub)) :
    ∃ s', tokenStep (simpleExecD checked) calcSIns s t = some s' ∧ s'.error = 1 := by
  rcases h with ⟨hs, rfl | rfl | rfl⟩ | ⟨⟨a, hs⟩, rfl | rfl⟩
  · refine ⟨{ s with error := 1 }, ?_, rfl⟩
    rw [token_add (simpleExecD checked) calcSIns s (i := SInstr.popToReg) (j := SInstr.add) (by simp only [calcSIns])]
    exact runData_two (E := simpleExecD checked) (s1 := { s with error := 1 })
      (by simp only [simpleExecD, simpleExec, hs]) (by simp only [simpleExecD, simpleExec, hs])
  · refine ⟨{ s with error := 1 }, ?_, rfl⟩
    rw [token_sub (simpleExecD checked) calcSIns s (i := SInstr.popToReg) (j := SInstr.sub) (by simp only [calcSIns])]
    exact runData_two (E := simpleExecD checked) (s1 := { s with error := 1 })
      (by simp only [simpleExecD, simpleExec, hs]) (by simp only [simpleExecD, simpleExec, hs])
  · refine ⟨{ s with error := 1, out := s.out ++ [s.reg] }, ?_, rfl⟩
    rw [token_print (simpleExecD checked) calcSIns s (i := SInstr.popToReg) (j := SInstr.printReg) (by simp only [calcSIns])]
    exact runData_two (E := simpleExecD checked) (s1 := { s with error := 1 })
      (by simp only [simpleExecD, simpleExec, hs]) (by simp only [simpleExecD, simpleExec])
  · refine ⟨{ s with error := 1, stack := [], reg := a }, ?_, rfl⟩
    rw [token_add (simpleExecD checked) calcSIns s (i := SInstr.popToReg) (j := SInstr.add) (by simp only [calcSIns])]
    exact runData_two (E := simpleExecD checked) (s1 := { s with stack := [], reg := a })
      (by simp only [simpleExecD, simpleExec, hs]) (by simp only [simpleExecD, simpleExec])
  · refine ⟨{ s with error := 1, stack := [], reg := a }, ?_, rfl⟩
    rw [token_sub (simpleExecD checked) calcSIns s (i := SInstr.popToReg) (j := SInstr.sub) (by simp only [calcSIns])]
    exact runData_two (E := simpleExecD checked) (s1 := { s with stack := [], reg := a })
      (by simp only [simpleExecD, simpleExec, hs]) (by simp only [simpleExecD, simpleExec])

/-- The calculation a state stands for. -/
def SState.rpn (s : SState) : Rpn := ⟨s.stack.map Int.ofNat, s.out.map Int.ofNat⟩

theorem simple_step_ok (checked : Bool) {t : Token} (ht : t.Ok) (hd : checked = true → t.digits ≤ 20) {s : SState} {c : Rpn}
    (h : rpnStep 0 (2 ^ 64) s.rpn t = some c) :
    ∃ s', tokenStep (simpleExecD checked) calcSIns s t = some s' ∧ s'.rpn = c ∧ s'.error = s.error := by
  cases t with
  | num ds =>
    simp only [rpnStep] at h
    split at h
    · next hr =>
      obtain ⟨r, r2, g⟩ := simple_num_ok checked ht s hd (by exact_mod_cast hr.2)
      refine ⟨_, g, ?_, rfl⟩
      simp only [Option.some.injEq] at h
      rw [← h]
      rfl
    · cases h
  | add =>
    rcases hst : s.stack with _ | ⟨b, _ | ⟨a, st⟩⟩
    · simp [rpnStep, SState.rpn, hst] at h
    · simp [rpnStep, SState.rpn, hst] at h
    · simp only [rpnStep, SState.rpn, hst, List.map_cons] at h
      split at h
      · next hr =>
        simp only [Option.some.injEq] at h
        have hlt : b + a < 2 ^ 64 := by have := hr.2; simp only [Int.ofNat_eq_natCast] at this; omega
        refine ⟨{ s with stack := (b + a) :: st, reg := b }, ?_, ?_, rfl⟩
        · rw [simple_add checked hst, ← Int.natCast_add, uRes_fit checked hlt, Option.map_some]
        · rw [← h]
          simp only [SState.rpn, List.map_cons, Rpn.mk.injEq, List.cons.injEq, and_true]
          simp only [Int.ofNat_eq_natCast]
          omega
      · cases h
  | sub =>
    rcases hst : s.stack with _ | ⟨b, _ | ⟨a, st⟩⟩
    · simp [rpnStep, SState.rpn, hst] at h
    · simp [rpnStep, SState.rpn, hst] at h
    · simp only [rpnStep, SState.rpn, hst, List.map_cons] at h
      split at h
      · next hr =>
        simp only [Option.some.injEq] at h
        simp only [Int.ofNat_eq_natCast] at hr
        refine ⟨{ s with stack := (a - b) :: st, reg := b }, ?_, ?_, rfl⟩
        · rw [simple_sub checked hst, show ((a : Int) - (b : Int)) = ((a - b : Nat) : Int) by omega,
            uRes_fit checked (by omega), Option.map_some]
        · rw [← h]
          simp only [SState.rpn, List.map_cons, Rpn.mk.injEq, List.cons.injEq, and_true]
          simp only [Int.ofNat_eq_natCast]
          omega
      · cases h
  | print =>
    rcases hst : s.stack with _ | ⟨b, st⟩
    · simp [rpnStep, SState.rpn, hst] at h
    · simp only [rpnStep, SState.rpn, hst, List.map_cons, Option.some.injEq] at h
      refine ⟨{ s with stack := st, reg := b, out := s.out ++ [b] }, ?_, ?_, rfl⟩
      · exact simple_print checked hst
      · rw [← h]
        simp [SState.rpn]

theorem simple_steps_ok (checked : Bool) {ts : List Token} (ht : ∀ t ∈ ts, t.Ok) (hd : checked = true → ∀ t ∈ ts, t.digits ≤ 20) :
    ∀ {s : SState} {c : Rpn}, rpn 0 (2 ^ 64) s.rpn ts = some c →
    ∃ s', tokenSteps (simpleExecD checked) calcSIns ts s = some s' ∧ s'.rpn = c ∧ s'.error = s.error := by
  induction ts with
  | nil => intro s c h; exact ⟨s, rfl, by simpa [rpn] using h, rfl⟩
  | cons t ts ih =>
    intro s c h
    simp only [rpn] at h
    split at h
    · next c1 h1 =>
      obtain ⟨s1, g1, g2, g3⟩ := simple_step_ok checked (ht t (by simp)) (fun hc => hd hc t (by simp)) h1
      rw [← g2] at h
      obtain ⟨s2, k1, k2, k3⟩ := ih (fun u hu => ht u (by simp [hu])) (fun hc u hu => hd hc u (by simp [hu])) h
      exact ⟨s2, by rw [tokenSteps, g1]; exact k1, k2, by rw [k3, g3]⟩
    · cases h

/-- Checked builds compute nothing wrong: if the steps of a word succeed and the error code is unset, they were those of
reverse Polish evaluation. -/
theorem simple_step_sound {t : Token} (ht : t.Ok) {s s' : SState}
    (h : tokenStep (simpleExecD true) calcSIns s t = some s') (he : s'.error = 0) :
    rpnStep 0 (2 ^ 64) s.rpn t = some s'.rpn ∧ t.digits ≤ 20 ∧ s.error = 0 := by
  cases t with
  | num ds =>
    by_cases hp : 20 < ds.length ∨ 2 ^ 64 ≤ decimal ds
    · rw [simple_num_panic ht s hp] at h; cases h
    · obtain ⟨r, r2, g⟩ := simple_num_ok true ht s (fun _ => by omega) (by omega)
      rw [g] at h
      simp only [Option.some.injEq] at h
      subst h
      refine ⟨?_, by simp only [Token.digits]; omega, he⟩
      rw [rpnStep, if_pos ⟨by omega, by omega⟩]
      rfl
  | add =>
    rcases hst : s.stack with _ | ⟨b, _ | ⟨a, st⟩⟩
    · obtain ⟨s1, g1, g2⟩ := simple_missing true (s := s) (t := .add) (.inl ⟨hst, by simp⟩)
      rw [h] at g1; cases g1; omega
    · obtain ⟨s1, g1, g2⟩ := simple_missing true (s := s) (t := .add) (.inr ⟨⟨b, hst⟩, by simp⟩)
      rw [h] at g1; cases g1; omega
    · rw [simple_add true hst, ← Int.natCast_add] at h
      by_cases hlt : b + a < 2 ^ 64
      · rw [uRes_fit true hlt] at h
        simp only [Option.map_some, Option.some.injEq] at h
        subst h
        refine ⟨?_, by simp [Token.digits], he⟩
        simp only [rpnStep, SState.rpn, hst, List.map_cons, Int.ofNat_eq_natCast]
        rw [if_pos ⟨by omega, by omega⟩]
        congr 3
        omega
      · rw [uRes_over (.inr (by omega))] at h; cases h
  | sub =>
    rcases hst : s.stack with _ | ⟨b, _ | ⟨a, st⟩⟩
    · obtain ⟨s1, g1, g2⟩ := simple_missing true (s := s) (t := .sub) (.inl ⟨hst, by simp⟩)
      rw [h] at g1; cases g1; omega
    · obtain ⟨s1, g1, g2⟩ := simple_missing true (s := s) (t := .sub) (.inr ⟨⟨b, hst⟩, by simp⟩)
      rw [h] at g1; cases g1; omega
    · rw [simple_sub true hst] at h
      by_cases hlt : 0 ≤ (a : Int) - b ∧ (a : Int) - b < 2 ^ 64
      · rw [show ((a : Int) - (b : Int)) = ((a - b : Nat) : Int) by omega, uRes_fit true (by omega)] at h
        simp only [Option.map_some, Option.some.injEq] at h
        subst h
        refine ⟨?_, by simp [Token.digits], he⟩
        simp only [rpnStep, SState.rpn, hst, List.map_cons, Int.ofNat_eq_natCast]
        rw [if_pos ⟨by omega, by omega⟩]
        congr 3
        omega
      · rw [uRes_over (by omega)] at h; cases h
  | print =>
    rcases hst : s.stack with _ | ⟨b, st⟩
    · obtain ⟨s1, g1, g2⟩ := simple_missing true (s := s) (t := .print) (.inl ⟨hst, by simp⟩)
      rw [h] at g1; cases g1; omega
    · rw [simple_print true hst] at h
      simp only [Option.some.injEq] at h
      subst h
      refine ⟨?_, by simp [Token.digits], he⟩
      simp [rpnStep, SState.rpn, hst]

theorem simple_steps_sound {ts : List Token} (ht : ∀ t ∈ ts, t.Ok) : ∀ {s s' : SState},
    tokenSteps (simpleExecD true) calcSIns ts s = some s' → s'.error = 0 →
    rpn 0 (2 ^ 64) s.rpn ts = some s'.rpn ∧ (∀ t ∈ ts, t.digits ≤ 20) ∧ s.error = 0 := by
  induction ts with
  | nil => intro s s' h he; simp only [tokenSteps, Option.some.injEq] at h; subst h; exact ⟨rfl, by simp, he⟩
  | cons t ts ih =>
    intro s s' h he
    simp only [tokenSteps, Option.bind_eq_some_iff] at h
    obtain ⟨s1, h1, h2⟩ := h
    obtain ⟨k1, k2, k3⟩ := ih (fun u hu => ht u (by simp [hu])) h2 he
    obtain ⟨g1, g2, g3⟩ := simple_step_sound (ht t (by simp)) h1 k3
    refine ⟨by rw [rpn, g1]; exact k1, ?_, g3⟩
    intro u hu
    rcases List.mem_cons.1 hu with rfl | hu
    · exact g2
    · exact k2 u hu

end HPP
