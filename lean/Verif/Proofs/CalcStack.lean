import Verif.Proofs.CalcSimple
/-
The calculator rules on StackVm.
-/
namespace HPP
open Spec CalcShape

theorem iWrap_fit {n : Int} (h1 : -(2 ^ 63) ≤ n) (h2 : n < 2 ^ 63) : iWrap n = n := by
  simp only [iWrap]; omega

theorem iRes_fit (checked : Bool) {n : Int} (h1 : -(2 ^ 63) ≤ n) (h2 : n < 2 ^ 63) : iRes checked n = some n := by
  rw [iRes, if_pos ⟨h1, h2⟩]

theorem iRes_wrap (n : Int) : iRes false n = some (iWrap n) := by
  by_cases h : -(2 ^ 63) ≤ n ∧ n < 2 ^ 63
  · rw [iRes_fit false h.1 h.2, iWrap_fit h.1 h.2]
  · rw [iRes, if_neg h]; rfl

theorem iRes_over {n : Int} (h : n < -(2 ^ 63) ∨ 2 ^ 63 ≤ n) : iRes true n = none := by
  have : ¬ (-(2 ^ 63) ≤ n ∧ n < 2 ^ 63) := by omega
  rw [iRes, if_neg this]; rfl

theorem iWrap_succ {k : Int} {n : Nat} (hk : k = iWrap n) : iWrap (k + 1) = iWrap ((n + 1 : Nat) : Int) := by
  simp only [iWrap] at *; omega

theorem iexp_mod {k : Int} {n : Nat} (hk : k = iWrap n) (hn : n < 2 ^ 32) : (k % 2 ^ 32).toNat = n := by
  simp only [iWrap] at hk; omega

theorem pow_lt_half {k : Nat} (h : k ≤ 18) : 10 ^ k < 2 ^ 63 :=
  Nat.lt_of_le_of_lt (Nat.pow_le_pow_right (by decide) h) (by decide)

theorem pow_ge_half {k : Nat} (h : 19 ≤ k) : 2 ^ 63 ≤ 10 ^ k :=
  Nat.le_trans (by decide) (Nat.pow_le_pow_right (by decide) h)

/-! ### the machine -/

/-- `stackExec` given the text of the first child. -/
def stackExecD (checked : Bool) (d : Option Str) (i : Instr) (s : VState) : Option VState :=
  match i with
  | .pushFromTree =>
    match d with
    | none => some { s with error := 1 }
    | some d =>
      match strToIsize d with
      | some v => some { s with stack := v :: s.stack }
      | none => some { s with error := 2 }
  | i => stackExec checked Tree.new ⟨0, 0⟩ i s

theorem stack_local (cc : CharClass) (checked : Bool) : LocalVm (stackVm cc checked) (stackExecD checked) := by
  intro τ id i s d hd
  cases i with
  | pushFromTree =>
    simp only [stackVm, stackExec, hd, stackExecD]
    cases d <;> rfl
  | _ => simp only [stackVm, stackExec, stackExecD]

/-- The instructions of the calculator rules on StackVm. -/
def calcIns : CalcNT → List Instr
  | .add => [.popToReg, .add]
  | .sub => [.popToReg, .sub]
  | .print => [.popToReg, .printReg]
  | .number => [.popDiscard]
  | .numberT => [.popToReg, .popToReg2, .popDiscard, .pow 10, .regAddConst 1, .pushReg]
  | .digit => [.pushFromTree, .pushConst 1]
  | .start | .terms | .termsS | .term | .numberS | .space => []

theorem calcIns_plain : Plain calcIns := by
  intro x hx
  rcases hx with rfl | rfl | rfl | rfl | rfl | rfl <;> rfl

theorem strToIsize_digit (d : Fin 10) : strToIsize [figure d] = some (d.val : Int) := by
  match d with
  | 0 | 1 | 2 | 3 | 4 | 5 | 6 | 7 | 8 | 9 => decide +kernel

theorem stack_digit (checked : Bool) (d : Fin 10) (s : VState) :
    runData (stackExecD checked) (some [figure d]) (calcIns .digit) s =
      some { s with stack := 1 :: (d.val : Int) :: s.stack } := by
  simp only [calcIns, runData, stackExecD, strToIsize_digit, Option.bind_some, stackExec]

/-- The step of `number_s_`. -/
abbrev stackTail (checked : Bool) : VState → Option VState := runData (stackExecD checked) (some []) (calcIns .numberT)

theorem tail_bind2 {S : Type} (U : Int → Option Nat) (V : Int → Option Int) (P Q : Int) (M : Nat → Int) (W : Int → Int)
    (mk : Int → S) (fin : Int → Int → S) (G : S → Option S) (hG : ∀ r, G (mk r) = (V Q).map (fin r)) :
    ((U P).bind fun p => (V (M p)).bind fun m => (V (W m)).bind fun r => some (mk r)).bind G =
      (U P).bind fun p => (V (M p)).bind fun m => (V (W m)).bind fun r => (V Q).bind fun k => some (fin r k) := by
  cases U P with
  | none => rfl
  | some p =>
    simp only [Option.bind_some]
    cases V (M p) with
    | none => rfl
    | some m =>
      simp only [Option.bind_some]
      cases V (W m) with
      | none => rfl
      | some r =>
        simp only [Option.bind_some, hG]
        cases V Q <;> rfl

theorem stack_pow (checked : Bool) {d : Int} {st : List Int} (s : VState) (hs : s.stack = d :: st) :
    stackExecD checked (some []) (.pow 10) s =
      (uRes checked ((10 ^ (s.reg % 2 ^ 32).toNat : Nat) : Int)).bind fun p =>
      (iRes checked (d * iWrap p)).bind fun m =>
      (iRes checked (m + s.reg2)).bind fun r => some { s with stack := r :: st } := by
  simp only [stackExecD, stackExec, hs, Option.bind_eq_bind]

theorem stack_inc (checked : Bool) (s : VState) : stackExecD checked (some []) (.regAddConst 1) s =
      (iRes checked (s.reg + 1)).map fun r => { s with reg := r } := by
  simp only [stackExecD, stackExec]

theorem stack_tail (checked : Bool) {k v x d : Int} {st : List Int} {s : VState} (hs : s.stack = k :: v :: x :: d :: st) :
    stackTail checked s =
      (uRes checked ((10 ^ (k % 2 ^ 32).toNat : Nat) : Int)).bind fun p =>
      (iRes checked (d * iWrap p)).bind fun m =>
      (iRes checked (m + v)).bind fun r =>
      (iRes checked (k + 1)).bind fun k' =>
        some { s with stack := k' :: r :: st, reg := k', reg2 := v } := by
  have h1 : stackExecD checked (some []) .popToReg s = some { s with stack := v :: x :: d :: st, reg := k } := by
    simp only [stackExecD, stackExec, hs]
  have h2 : stackExecD checked (some []) .popToReg2 { s with stack := v :: x :: d :: st, reg := k } =
      some { s with stack := x :: d :: st, reg := k, reg2 := v } := by
    simp only [stackExecD, stackExec]
  have h3 : stackExecD checked (some []) .popDiscard { s with stack := x :: d :: st, reg := k, reg2 := v } =
      some { s with stack := d :: st, reg := k, reg2 := v } := by
    simp only [stackExecD, stackExec]
  have h4 := stack_pow checked (d := d) (st := st) { s with stack := d :: st, reg := k, reg2 := v } rfl
  simp only at h4
  generalize ((10 ^ (k % 2 ^ 32).toNat : Nat) : Int) = P at h4 ⊢
  have h6 := runData_six (i5 := Instr.regAddConst 1) (i6 := Instr.pushReg) h1 h2 h3 h4
  have h7 : stackTail checked s = runData (stackExecD checked) (some [])
    [.popToReg, .popToReg2, .popDiscard, .pow 10, .regAddConst 1, .pushReg] s := by simp only [stackTail, calcIns]
  rw [h7, h6]
  have hG : ∀ r, ((fun s4 => (stackExecD checked (some []) (Instr.regAddConst 1) s4).bind fun s5 =>
        stackExecD checked (some []) Instr.pushReg s5) { s with stack := r :: st, reg := k, reg2 := v }) =
      (iRes checked (k + 1)).map fun k' => { s with stack := k' :: r :: st, reg := k', reg2 := v } := by
    intro r
    simp only [stack_inc]
    cases iRes checked (k + 1) with
    | none => rfl
    | some k' => simp only [Option.bind_some, Option.map_some, stackExecD, stackExec]
  clear h1 h2 h3 h4 h6 h7
  generalize (fun s4 => (stackExecD checked (some []) (Instr.regAddConst 1) s4).bind fun s5 =>
        stackExecD checked (some []) Instr.pushReg s5) = G at hG ⊢
  generalize uRes checked = U
  generalize iRes checked = V at hG ⊢
  generalize k + 1 = Q at hG ⊢
  generalize hI : (fun p : Nat => d * iWrap p) = M
  have hI' : ∀ p : Nat, d * iWrap p = M p := fun p => congrFun hI p
  simp only [hI']
  exact tail_bind2 U V P Q M (fun m => m + v)
    (fun r => { s with stack := r :: st, reg := k, reg2 := v })
    (fun r k' => { s with stack := k' :: r :: st, reg := k', reg2 := v }) G hG

theorem stack_tail_some (checked : Bool) {k v x d : Int} {st : List Int} {s : VState} (hs : s.stack = k :: v :: x :: d :: st)
    {p : Nat} {m r k' : Int} (hp : uRes checked ((10 ^ (k % 2 ^ 32).toNat : Nat) : Int) = some p)
    (hm : iRes checked (d * iWrap p) = some m) (hr : iRes checked (m + v) = some r)
    (hk : iRes checked (k + 1) = some k') :
    stackTail checked s = some { s with stack := k' :: r :: st, reg := k', reg2 := v } := by
  rw [stack_tail checked hs, hp, Option.bind_some, hm, Option.bind_some, hr, Option.bind_some, hk, Option.bind_some]

theorem stack_tail_none1 (checked : Bool) {k v x d : Int} {st : List Int} {s : VState} (hs : s.stack = k :: v :: x :: d :: st)
    (hp : uRes checked ((10 ^ (k % 2 ^ 32).toNat : Nat) : Int) = none) : stackTail checked s = none := by
  rw [stack_tail checked hs, hp, Option.bind_none]

theorem stack_tail_none2 (checked : Bool) {k v x d : Int} {st : List Int} {s : VState} (hs : s.stack = k :: v :: x :: d :: st)
    {p : Nat} (hp : uRes checked ((10 ^ (k % 2 ^ 32).toNat : Nat) : Int) = some p)
    (hm : iRes checked (d * iWrap p) = none) : stackTail checked s = none := by
  rw [stack_tail checked hs, hp, Option.bind_some, hm, Option.bind_none]

theorem stack_tail_none3 (checked : Bool) {k v x d : Int} {st : List Int} {s : VState} (hs : s.stack = k :: v :: x :: d :: st)
    {p : Nat} {m : Int} (hp : uRes checked ((10 ^ (k % 2 ^ 32).toNat : Nat) : Int) = some p)
    (hm : iRes checked (d * iWrap p) = some m) (hr : iRes checked (m + v) = none) : stackTail checked s = none := by
  rw [stack_tail checked hs, hp, Option.bind_some, hm, Option.bind_some, hr, Option.bind_none]

/-- The digits after the first digit `d`. -/
def stackRest (checked : Bool) (ds : List (Fin 10)) (s : VState) : Option VState :=
  (digitSteps (stackExecD checked) calcIns ds s).bind (iter (stackTail checked) ds.length)

theorem stackRest_nil (checked : Bool) (s : VState) : stackRest checked [] s = some s := by
  simp only [stackRest, digitSteps, iter, List.length_nil, Option.bind_some]

theorem stackRest_cons (checked : Bool) (d : Fin 10) (ds : List (Fin 10)) (s : VState) :
    stackRest checked (d :: ds) s =
      (stackRest checked ds { s with stack := 1 :: (d.val : Int) :: s.stack }).bind (stackTail checked) := by
  rw [stackRest, iter_snoc (stackExecD checked) calcIns (stackTail checked) d ds s _ (stack_digit checked d s)]
  rfl

theorem stack_count (checked : Bool) {k : Int} {n : Nat} (hk : k = iWrap n) (hc : checked = true → n < 20) :
    iRes checked (k + 1) = some (iWrap ((n + 1 : Nat) : Int)) := by
  rw [← iWrap_succ hk]
  cases checked with
  | false => exact iRes_wrap _
  | true =>
    have := hc rfl
    rw [iWrap_fit (by omega) (by omega)] at hk
    rw [iWrap_fit (by omega) (by omega), iRes_fit true (by omega) (by omega)]

/-- One more digit: the number computed and the count of digits. -/
theorem stack_tail_ok (checked : Bool) {k x : Int} {v d n : Nat} {st : List Int} {s : VState}
    (hs : s.stack = k :: (v : Int) :: x :: (d : Int) :: st)
    (hk : k = iWrap n) (hc : checked = true → n < 20) (hv : d * 10 ^ n + v < 2 ^ 63) :
    ∃ r r2, stackTail checked s =
      some { s with stack := iWrap ((n + 1 : Nat) : Int) :: ((d * 10 ^ n + v : Nat) : Int) :: st, reg := r, reg2 := r2 } := by
  have hk1 := stack_count checked hk hc
  refine ⟨iWrap ((n + 1 : Nat) : Int), v, ?_⟩
  by_cases hd : d = 0
  · have hp : ∃ p, uRes checked ((10 ^ (k % 2 ^ 32).toNat : Nat) : Int) = some p := by
      cases checked with
      | false => exact ⟨_, uRes_wrap _⟩
      | true =>
        have := hc rfl
        rw [iexp_mod hk (by omega)]
        exact ⟨_, uRes_fit true (pow_lt_word (by omega))⟩
    obtain ⟨p, hp⟩ := hp
    have hv' : d * 10 ^ n + v = v := by rw [hd, Nat.zero_mul, Nat.zero_add]
    rw [hv'] at hv ⊢
    refine stack_tail_some checked hs hp (m := 0) ?_ ?_ hk1
    · rw [hd, show (((0 : Nat) : Int) * iWrap p) = 0 by simp]
      exact iRes_fit checked (by omega) (by omega)
    · rw [Int.zero_add]
      exact iRes_fit checked (by omega) (by omega)
  · have hlt : 10 ^ n < 2 ^ 63 :=
      Nat.lt_of_le_of_lt (Nat.le_trans (Nat.le_mul_of_pos_left _ (by omega)) (Nat.le_add_right _ _)) hv
    have hlen : n < 19 := by
      apply Classical.byContradiction
      intro hn
      exact absurd (Nat.lt_of_lt_of_le hlt (pow_ge_half (k := n) (by omega))) (Nat.lt_irrefl _)
    refine stack_tail_some checked hs (p := 10 ^ n) (m := ((d * 10 ^ n : Nat) : Int)) ?_ ?_ ?_ hk1
    · rw [iexp_mod hk (by omega)]
      exact uRes_fit checked (pow_lt_word (by omega))
    · rw [iWrap_fit (Int.le_trans (by decide) (Int.natCast_nonneg _)) (by exact_mod_cast hlt), ← Int.natCast_mul]
      exact iRes_fit checked (by omega) (by omega)
    · rw [← Int.natCast_add]
      exact iRes_fit checked (by omega) (by omega)

/-- One more digit, checked builds: too many digits, or too big a value with at most 19 digits. -/
theorem stack_tail_panic {k x : Int} {v d n : Nat} {st : List Int} {s : VState}
    (hs : s.stack = k :: (v : Int) :: x :: (d : Int) :: st)
    (hk : k = iWrap n) (hn : n ≤ 20) (h : n = 20 ∨ n ≤ 18 ∧ 2 ^ 63 ≤ d * 10 ^ n + v) : stackTail true s = none := by
  have hm : (k % 2 ^ 32).toNat = n := iexp_mod hk (by omega)
  by_cases hl : n = 20
  · refine stack_tail_none1 true hs ?_
    rw [hm]
    exact uRes_over (.inr (by exact_mod_cast pow_ge_word (by omega)))
  · have h := h.resolve_left hl
    have hp : uRes true ((10 ^ (k % 2 ^ 32).toNat : Nat) : Int) = some (10 ^ n) := by
      rw [hm]
      exact uRes_fit true (pow_lt_word (by omega))
    have hlt := pow_lt_half (k := n) h.1
    have hw : iWrap ((10 ^ n : Nat) : Int) = ((10 ^ n : Nat) : Int) :=
      iWrap_fit (Int.le_trans (by decide) (Int.natCast_nonneg _)) (by exact_mod_cast hlt)
    by_cases hmul : d * 10 ^ n < 2 ^ 63
    · refine stack_tail_none3 true hs hp (m := ((d * 10 ^ n : Nat) : Int)) ?_ ?_
      · rw [hw, ← Int.natCast_mul]
        exact iRes_fit true (by omega) (by omega)
      · rw [← Int.natCast_add]
        exact iRes_over (.inr (by omega))
    · refine stack_tail_none2 true hs hp ?_
      rw [hw, ← Int.natCast_mul]
      exact iRes_over (.inr (by omega))

/-- Success: the value is computed. -/
theorem stackRest_ok (checked : Bool) (ds : List (Fin 10)) : ∀ (d : Fin 10) (st : List Int) (s : VState),
    s.stack = 1 :: (d.val : Int) :: st → (checked = true → ds.length + 1 ≤ 20) → decimal (d :: ds) < 2 ^ 63 →
    ∃ k r r2, k = iWrap ((ds.length + 1 : Nat) : Int) ∧ stackRest checked ds s =
      some { s with stack := k :: (decimal (d :: ds) : Int) :: st, reg := r, reg2 := r2 } := by
  induction ds with
  | nil =>
    intro d st s hs _ _
    refine ⟨1, s.reg, s.reg2, by decide, ?_⟩
    rw [stackRest_nil, decimal_one, ← hs]
  | cons e ds ih =>
    intro d st s hs hc hv
    rw [decimal_cons] at hv
    rw [decimal_cons d]
    obtain ⟨k, r, r2, hk, h⟩ := ih e (1 :: (d.val : Int) :: st) { s with stack := 1 :: (e.val : Int) :: s.stack } (by simp only [hs])
      (fun h => by have := hc h; simp only [List.length_cons] at this; omega) (Nat.lt_of_le_of_lt (Nat.le_add_left _ _) hv)
    rw [stackRest_cons, h, Option.bind_some]
    simp only [List.length_cons] at hc hv ⊢
    obtain ⟨r', r2', g⟩ := stack_tail_ok checked (n := ds.length + 1) (st := st) (x := 1) (d := d.val) (v := decimal (e :: ds))
      (s := { s with stack := k :: (decimal (e :: ds) : Int) :: 1 :: (d.val : Int) :: st, reg := r, reg2 := r2 }) rfl hk
      (fun h => by have := hc h; omega) hv
    exact ⟨_, r', r2', rfl, g⟩

/-- Failure in checked builds: a value that does not fit in at most 19 digits. -/
theorem stackRest_panic (ds : List (Fin 10)) : ∀ (d : Fin 10) (st : List Int) (s : VState),
    s.stack = 1 :: (d.val : Int) :: st → ds.length + 1 ≤ 19 → 2 ^ 63 ≤ decimal (d :: ds) → stackRest true ds s = none := by
  induction ds with
  | nil =>
    intro d st s hs _ h
    rw [decimal_one] at h
    have := d.isLt
    omega
  | cons e ds ih =>
    intro d st s hs hl h
    simp only [List.length_cons] at hl
    rw [stackRest_cons]
    by_cases hi : 2 ^ 63 ≤ decimal (e :: ds)
    · rw [ih e (1 :: (d.val : Int) :: st) { s with stack := 1 :: (e.val : Int) :: s.stack } (by simp only [hs]) (by omega) hi,
        Option.bind_none]
    · obtain ⟨k, r, r2, hk, g⟩ := stackRest_ok true ds e (1 :: (d.val : Int) :: st)
        { s with stack := 1 :: (e.val : Int) :: s.stack } (by simp only [hs]) (fun _ => by omega) (by omega)
      rw [g, Option.bind_some]
      rw [decimal_cons d] at h
      exact stack_tail_panic (n := ds.length + 1) (st := st) (x := 1) (d := d.val) (v := decimal (e :: ds))
        (s := { s with stack := k :: (decimal (e :: ds) : Int) :: 1 :: (d.val : Int) :: st, reg := r, reg2 := r2 }) rfl hk
        (by omega) (.inr ⟨by omega, h⟩)

/-! ### words -/

theorem stack_num_eq (checked : Bool) (d : Fin 10) (ds : List (Fin 10)) (s : VState) :
    tokenStep (stackExecD checked) calcIns s (.num (d :: ds)) =
      (stackRest checked ds { s with stack := 1 :: (d.val : Int) :: s.stack }).bind
        (runData (stackExecD checked) (some []) (calcIns .number)) := by
  simp only [tokenStep, digitSteps, stack_digit, Option.bind_some, List.length_cons, Nat.add_sub_cancel, stackRest]

theorem stack_num_ok (checked : Bool) {ds : List (Fin 10)} (hne : ds ≠ []) (s : VState)
    (hc : checked = true → ds.length ≤ 20) (hv : decimal ds < 2 ^ 63) :
    ∃ r r2, tokenStep (stackExecD checked) calcIns s (.num ds) =
      some { s with stack := (decimal ds : Int) :: s.stack, reg := r, reg2 := r2 } := by
  cases ds with
  | nil => exact absurd rfl hne
  | cons d ds =>
    obtain ⟨k, r, r2, _, h⟩ := stackRest_ok checked ds d s.stack { s with stack := 1 :: (d.val : Int) :: s.stack } rfl hc hv
    refine ⟨r, r2, ?_⟩
    rw [stack_num_eq, h]
    simp only [Option.bind_some, calcIns, runData, stackExecD, stackExec]

theorem stack_num_panic {ds : List (Fin 10)} (hne : ds ≠ []) (s : VState) (hl : ds.length ≤ 19) (h : 2 ^ 63 ≤ decimal ds) :
    tokenStep (stackExecD true) calcIns s (.num ds) = none := by
  cases ds with
  | nil => exact absurd rfl hne
  | cons d ds =>
    rw [stack_num_eq, stackRest_panic ds d s.stack { s with stack := 1 :: (d.val : Int) :: s.stack } rfl hl h]
    rfl

theorem stack_add (checked : Bool) {a b : Int} {st : List Int} {s : VState} (hs : s.stack = b :: a :: st) :
    tokenStep (stackExecD checked) calcIns s .add =
      (iRes checked (b + a)).map fun r => { s with stack := r :: st, reg := b } := by
  rw [token_add (stackExecD checked) calcIns s (i := Instr.popToReg) (j := Instr.add) (by simp only [calcIns])]
  exact runData_two (E := stackExecD checked) (s1 := { s with stack := a :: st, reg := b })
    (by simp only [stackExecD, stackExec, hs]) (by simp only [stackExecD, stackExec])

theorem stack_sub (checked : Bool) {a b : Int} {st : List Int} {s : VState} (hs : s.stack = b :: a :: st) :
    tokenStep (stackExecD checked) calcIns s .sub =
      (iRes checked (a - b)).map fun r => { s with stack := r :: st, reg := b } := by
  rw [token_sub (stackExecD checked) calcIns s (i := Instr.popToReg) (j := Instr.sub) (by simp only [calcIns])]
  exact runData_two (E := stackExecD checked) (s1 := { s with stack := a :: st, reg := b })
    (by simp only [stackExecD, stackExec, hs]) (by simp only [stackExecD, stackExec])

theorem stack_print (checked : Bool) {a : Int} {st : List Int} {s : VState} (hs : s.stack = a :: st) :
    tokenStep (stackExecD checked) calcIns s .print = some { s with stack := st, reg := a, out := s.out ++ [a] } := by
  rw [token_print (stackExecD checked) calcIns s (i := Instr.popToReg) (j := Instr.printReg) (by simp only [calcIns])]
  exact runData_two (E := stackExecD checked) (s1 := { s with stack := st, reg := a })
    (by simp only [stackExecD, stackExec, hs]) (by simp only [stackExecD, stackExec])

/-- A missing operand sets the error code (and an operand that is there is lost). -/
theorem stack_missing (checked : Bool) {s : VState} {t : Token}
    (h : s.stack = [] ∧ (t = .add ∨ t = .sub ∨ t = .print) ∨ (∃ a, s.stack = [a]) ∧ (t = .add ∨ t = .sub)) :
    ∃ s', tokenStep (stackExecD checked) calcIns s t = some s' ∧ s'.error = 1 := by
  rcases h with ⟨hs, rfl | rfl | rfl⟩ | ⟨⟨a, hs⟩, rfl | rfl⟩
  · refine ⟨{ s with error := 1 }, ?_, rfl⟩
    rw [token_add (stackExecD checked) calcIns s (i := Instr.popToReg) (j := Instr.add) (by simp only [calcIns])]
    exact runData_two (E := stackExecD checked) (s1 := { s with error := 1 })
      (by simp only [stackExecD, stackExec, hs]) (by simp only [stackExecD, stackExec, hs])
  · refine ⟨{ s with error := 1 }, ?_, rfl⟩
    rw [token_sub (stackExecD checked) calcIns s (i := Instr.popToReg) (j := Instr.sub) (by simp only [calcIns])]
    exact runData_two (E := stackExecD checked) (s1 := { s with error := 1 })
      (by simp only [stackExecD, stackExec, hs]) (by simp only [stackExecD, stackExec, hs])
  · refine ⟨{ s with error := 1, out := s.out ++ [s.reg] }, ?_, rfl⟩
    rw [token_print (stackExecD checked) calcIns s (i := Instr.popToReg) (j := Instr.printReg) (by simp only [calcIns])]
    exact runData_two (E := stackExecD checked) (s1 := { s with error := 1 })
      (by simp only [stackExecD, stackExec, hs]) (by simp only [stackExecD, stackExec])
  · refine ⟨{ s with error := 1, stack := [], reg := a }, ?_, rfl⟩
    rw [token_add (stackExecD checked) calcIns s (i := Instr.popToReg) (j := Instr.add) (by simp only [calcIns])]
    exact runData_two (E := stackExecD checked) (s1 := { s with stack := [], reg := a })
      (by simp only [stackExecD, stackExec, hs]) (by simp only [stackExecD, stackExec])
  · refine ⟨{ s with error := 1, stack := [], reg := a }, ?_, rfl⟩
    rw [token_sub (stackExecD checked) calcIns s (i := Instr.popToReg) (j := Instr.sub) (by simp only [calcIns])]
    exact runData_two (E := stackExecD checked) (s1 := { s with stack := [], reg := a })
      (by simp only [stackExecD, stackExec, hs]) (by simp only [stackExecD, stackExec])

/-- The calculation a state stands for. -/
def VState.rpn (s : VState) : Rpn := ⟨s.stack, s.out⟩

theorem stack_step_ok (checked : Bool) {t : Token} (ht : t.Ok) (hd : checked = true → t.digits ≤ 20) {s : VState} {c : Rpn}
    (h : rpnStep (-(2 ^ 63)) (2 ^ 63) s.rpn t = some c) :
    ∃ s', tokenStep (stackExecD checked) calcIns s t = some s' ∧ s'.rpn = c ∧ s'.error = s.error := by
  cases t with
  | num ds =>
    simp only [rpnStep] at h
    split at h
    · next hr =>
      obtain ⟨r, r2, g⟩ := stack_num_ok checked ht s hd (by exact_mod_cast hr.2)
      refine ⟨_, g, ?_, rfl⟩
      simp only [Option.some.injEq] at h
      rw [← h]
      rfl
    · cases h
  | add =>
    rcases hst : s.stack with _ | ⟨b, _ | ⟨a, st⟩⟩
    · simp [rpnStep, VState.rpn, hst] at h
    · simp [rpnStep, VState.rpn, hst] at h
    · simp only [rpnStep, VState.rpn, hst] at h
      split at h
      · next hr =>
        simp only [Option.some.injEq] at h
        refine ⟨{ s with stack := (b + a) :: st, reg := b }, ?_, ?_, rfl⟩
        · rw [stack_add checked hst, iRes_fit checked (by omega) (by omega), Option.map_some]
        · rw [← h]
          simp only [VState.rpn, Int.add_comm]
      · cases h
  | sub =>
    rcases hst : s.stack with _ | ⟨b, _ | ⟨a, st⟩⟩
    · simp [rpnStep, VState.rpn, hst] at h
    · simp [rpnStep, VState.rpn, hst] at h
    · simp only [rpnStep, VState.rpn, hst] at h
      split at h
      · next hr =>
        simp only [Option.some.injEq] at h
        refine ⟨{ s with stack := (a - b) :: st, reg := b }, ?_, ?_, rfl⟩
        · rw [stack_sub checked hst, iRes_fit checked (by omega) (by omega), Option.map_some]
        · rw [← h]
          simp only [VState.rpn]
      · cases h
  | print =>
    rcases hst : s.stack with _ | ⟨b, st⟩
    · simp [rpnStep, VState.rpn, hst] at h
    · simp only [rpnStep, VState.rpn, hst, Option.some.injEq] at h
      refine ⟨{ s with stack := st, reg := b, out := s.out ++ [b] }, ?_, ?_, rfl⟩
      · exact stack_print checked hst
      · rw [← h]
        simp [VState.rpn]

theorem stack_steps_ok (checked : Bool) {ts : List Token} (ht : ∀ t ∈ ts, t.Ok) (hd : checked = true → ∀ t ∈ ts, t.digits ≤ 20) :
    ∀ {s : VState} {c : Rpn}, rpn (-(2 ^ 63)) (2 ^ 63) s.rpn ts = some c →
    ∃ s', tokenSteps (stackExecD checked) calcIns ts s = some s' ∧ s'.rpn = c ∧ s'.error = s.error := by
  induction ts with
  | nil => intro s c h; exact ⟨s, rfl, by simpa [rpn] using h, rfl⟩
  | cons t ts ih =>
    intro s c h
    simp only [rpn] at h
    split at h
    · next c1 h1 =>
      obtain ⟨s1, g1, g2, g3⟩ := stack_step_ok checked (ht t (by simp)) (fun hc => hd hc t (by simp)) h1
      rw [← g2] at h
      obtain ⟨s2, k1, k2, k3⟩ := ih (fun u hu => ht u (by simp [hu])) (fun hc u hu => hd hc u (by simp [hu])) h
      exact ⟨s2, by rw [tokenSteps, g1]; exact k1, k2, by rw [k3, g3]⟩
    · cases h

/-- Checked builds compute nothing wrong for numbers of at most 19 digits: if the steps of a word succeed and the error
code is unset, they were those of reverse Polish evaluation. -/
theorem stack_step_sound {t : Token} (ht : t.Ok) (hd : t.digits ≤ 19) {s s' : VState}
    (h : tokenStep (stackExecD true) calcIns s t = some s') (he : s'.error = 0) :
    rpnStep (-(2 ^ 63)) (2 ^ 63) s.rpn t = some s'.rpn ∧ s.error = 0 := by
  cases t with
  | num ds =>
    simp only [Token.digits] at hd
    by_cases hp : 2 ^ 63 ≤ decimal ds
    · rw [stack_num_panic ht s hd hp] at h; cases h
    · obtain ⟨r, r2, g⟩ := stack_num_ok true ht s (fun _ => by omega) (by omega)
      rw [g] at h
      simp only [Option.some.injEq] at h
      subst h
      refine ⟨?_, he⟩
      rw [rpnStep, if_pos ⟨by omega, by omega⟩]
      rfl
  | add =>
    rcases hst : s.stack with _ | ⟨b, _ | ⟨a, st⟩⟩
    · obtain ⟨s1, g1, g2⟩ := stack_missing true (s := s) (t := .add) (.inl ⟨hst, by simp⟩)
      rw [h] at g1; cases g1; omega
    · obtain ⟨s1, g1, g2⟩ := stack_missing true (s := s) (t := .add) (.inr ⟨⟨b, hst⟩, by simp⟩)
      rw [h] at g1; cases g1; omega
    · rw [stack_add true hst] at h
      by_cases hlt : -(2 ^ 63) ≤ b + a ∧ b + a < 2 ^ 63
      · rw [iRes_fit true hlt.1 hlt.2] at h
        simp only [Option.map_some, Option.some.injEq] at h
        subst h
        refine ⟨?_, he⟩
        simp only [rpnStep, VState.rpn, hst]
        rw [if_pos ⟨by omega, by omega⟩, Int.add_comm]
      · rw [iRes_over (by omega)] at h; cases h
  | sub =>
    rcases hst : s.stack with _ | ⟨b, _ | ⟨a, st⟩⟩
    · obtain ⟨s1, g1, g2⟩ := stack_missing true (s := s) (t := .sub) (.inl ⟨hst, by simp⟩)
      rw [h] at g1; cases g1; omega
    · obtain ⟨s1, g1, g2⟩ := stack_missing true (s := s) (t := .sub) (.inr ⟨⟨b, hst⟩, by simp⟩)
      rw [h] at g1; cases g1; omega
    · rw [stack_sub true hst] at h
      by_cases hlt : -(2 ^ 63) ≤ a - b ∧ a - b < 2 ^ 63
      · rw [iRes_fit true hlt.1 hlt.2] at h
        simp only [Option.map_some, Option.some.injEq] at h
        subst h
        refine ⟨?_, he⟩
        simp only [rpnStep, VState.rpn, hst]
        rw [if_pos ⟨by omega, by omega⟩]
      · rw [iRes_over (by omega)] at h; cases h
  | print =>
    rcases hst : s.stack with _ | ⟨b, st⟩
    · obtain ⟨s1, g1, g2⟩ := stack_missing true (s := s) (t := .print) (.inl ⟨hst, by simp⟩)
      rw [h] at g1; cases g1; omega
    · rw [stack_print true hst] at h
      simp only [Option.some.injEq] at h
      subst h
      refine ⟨?_, he⟩
      simp [rpnStep, VState.rpn, hst]

theorem stack_steps_sound {ts : List Token} (ht : ∀ t ∈ ts, t.Ok) (hd : ∀ t ∈ ts, t.digits ≤ 19) : ∀ {s s' : VState},
    tokenSteps (stackExecD true) calcIns ts s = some s' → s'.error = 0 →
    rpn (-(2 ^ 63)) (2 ^ 63) s.rpn ts = some s'.rpn ∧ s.error = 0 := by
  induction ts with
  | nil => intro s s' h he; simp only [tokenSteps, Option.some.injEq] at h; subst h; exact ⟨rfl, he⟩
  | cons t ts ih =>
    intro s s' h he
    simp only [tokenSteps, Option.bind_eq_some_iff] at h
    obtain ⟨s1, h1, h2⟩ := h
    obtain ⟨k1, k3⟩ := ih (fun u hu => ht u (by simp [hu])) (fun u hu => hd u (by simp [hu])) h2 he
    obtain ⟨g1, g3⟩ := stack_step_sound (ht t (by simp)) (hd t (by simp)) h1 k3
    exact ⟨by rw [rpn, g1]; exact k1, g3⟩

/-- Twenty digits beginning with 1: `10 ^ 19` fits `usize` but not `isize`, and the cast wraps silently. -/
theorem stack_num_wrapped (checked : Bool) {ds : List (Fin 10)} (hl : ds.length = 19) (hv : decimal ds < 2 ^ 63) (s : VState) :
    ∃ r r2, tokenStep (stackExecD checked) calcIns s (.num (1 :: ds)) =
      some { s with stack := ((decimal (1 :: ds) : Int) - 2 ^ 64) :: s.stack, reg := r, reg2 := r2 } := by
  obtain ⟨e, ds, rfl⟩ : ∃ e ds', ds = e :: ds' := by
    cases ds with
    | nil => cases hl
    | cons e ds => exact ⟨e, ds, rfl⟩
  simp only [List.length_cons] at hl
  obtain ⟨k, r, r2, hk, g⟩ := stackRest_ok checked ds e (1 :: 1 :: s.stack)
    { s with stack := 1 :: (e.val : Int) :: 1 :: 1 :: s.stack } rfl (fun _ => by omega) hv
  have hm : (k % 2 ^ 32).toNat = 19 := by rw [iexp_mod hk (by omega), hl]
  have hk1 := stack_count checked hk (fun _ => by omega)
  rw [decimal_cons, List.length_cons, hl]
  have ht := stack_tail_some checked (k := k) (v := (decimal (e :: ds) : Int)) (x := 1) (d := 1) (st := s.stack)
    (s := { s with stack := k :: (decimal (e :: ds) : Int) :: 1 :: 1 :: s.stack, reg := r, reg2 := r2 }) rfl
    (p := 10 ^ 19) (m := 10 ^ 19 - 2 ^ 64) (r := (((1 : Fin 10).val * 10 ^ 19 + decimal (e :: ds) : Nat) : Int) - 2 ^ 64)
    (by rw [hm]; exact uRes_fit checked (pow_lt_word (by omega)))
    (by
      rw [show ((1 : Int) * iWrap ((10 ^ 19 : Nat) : Int)) = 10 ^ 19 - 2 ^ 64 by decide]
      exact iRes_fit checked (by decide) (by decide))
    (by
      rw [show ((10 ^ 19 - 2 ^ 64 : Int) + (decimal (e :: ds) : Int)) =
        (((1 : Fin 10).val * 10 ^ 19 + decimal (e :: ds) : Nat) : Int) - 2 ^ 64 by
          rw [show ((1 : Fin 10).val) = 1 from rfl]; omega]
      rw [show ((1 : Fin 10).val) = 1 from rfl]
      exact iRes_fit checked (by omega) (by omega))
    hk1
  refine ⟨iWrap ((ds.length + 1 + 1 : Nat) : Int), (decimal (e :: ds) : Int), ?_⟩
  · rw [stack_num_eq, stackRest_cons]
    simp only [show (((1 : Fin 10).val : Nat) : Int) = 1 from rfl]
    rw [g, Option.bind_some, ht, Option.bind_some]
    simp only [calcIns, runData, stackExecD, stackExec, Option.bind_some]

end HPP
