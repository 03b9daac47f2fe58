import Verif.Proofs.CalcStack
import Verif.Spec.CalcTotal
/-
The calculator rules on both stack machines, for every script and in every state.
-/
namespace HPP
open Spec CalcShape

/-! ### digit strings -/

/-- For digit strings of at most `2 ^ 32` digits the weighted sum is the decimal value. -/
theorem weighted_decimal {ds : List (Fin 10)} (h : ds.length ≤ 2 ^ 32) : weighted ds = decimal ds := by
  induction ds with
  | nil => rfl
  | cons d ds ih =>
    simp only [List.length_cons] at h
    rw [weighted, decimal_cons, ih (by omega), Nat.mod_eq_of_lt (by omega)]

theorem weighted_one (d : Fin 10) : weighted [d] = d.val := by simp [weighted]

/-- The value computed by SimpleStackVm, digit by digit. -/
def valU (checked : Bool) : List (Fin 10) → Option Nat
  | [] => none
  | [d] => some d.val
  | d :: e :: ds => (valU checked (e :: ds)).bind fun v =>
      (uRes checked ((10 ^ ((ds.length + 1) % 2 ^ 32) : Nat) : Int)).bind fun p =>
      (uRes checked ((d.val : Int) * p)).bind fun m => uRes checked ((m : Int) + v)

/-- The value computed by StackVm, digit by digit. -/
def valI (checked : Bool) : List (Fin 10) → Option Int
  | [] => none
  | [d] => some d.val
  | d :: e :: ds => (valI checked (e :: ds)).bind fun v =>
      (uRes checked ((10 ^ ((ds.length + 1) % 2 ^ 32) : Nat) : Int)).bind fun p =>
      (iRes checked ((d.val : Int) * iWrap p)).bind fun m => iRes checked (m + v)

theorem valU_long {ds : List (Fin 10)} {v : Nat} (h : valU true ds = some v) : ds.length ≤ 20 := by
  induction ds generalizing v with
  | nil => simp [valU] at h
  | cons d ds ih =>
    cases ds with
    | nil => simp
    | cons e ds =>
      simp only [valU, Option.bind_eq_some_iff] at h
      obtain ⟨w, hw, p, hp, -⟩ := h
      have hl := ih hw
      simp only [List.length_cons] at hl ⊢
      apply Classical.byContradiction
      intro hc
      have h20 : ds.length + 1 = 20 := by omega
      rw [h20, Nat.mod_eq_of_lt (by decide), uRes_over (.inr (by exact_mod_cast pow_ge_word (Nat.le_refl 20)))] at hp
      cases hp

theorem valI_long {ds : List (Fin 10)} {v : Int} (h : valI true ds = some v) : ds.length ≤ 20 := by
  induction ds generalizing v with
  | nil => simp [valI] at h
  | cons d ds ih =>
    cases ds with
    | nil => simp
    | cons e ds =>
      simp only [valI, Option.bind_eq_some_iff] at h
      obtain ⟨w, hw, p, hp, -⟩ := h
      have hl := ih hw
      simp only [List.length_cons] at hl ⊢
      apply Classical.byContradiction
      intro hc
      have h20 : ds.length + 1 = 20 := by omega
      rw [h20, Nat.mod_eq_of_lt (by decide), uRes_over (.inr (by exact_mod_cast pow_ge_word (Nat.le_refl 20)))] at hp
      cases hp

theorem bind3_map {A B C D S : Type} (U : Option A) (f : A → Option B) (g : B → Option C) (K : Option D) {k : D} (hK : K = some k)
    (mk : C → D → S) :
    (U.bind fun p => (f p).bind fun m => (g m).bind fun r => K.bind fun k => some (mk r k)) =
      (U.bind fun p => (f p).bind fun m => g m).map fun r => mk r k := by
  subst hK
  cases U with
  | none => rfl
  | some p =>
    simp only [Option.bind_some]
    cases f p with
    | none => rfl
    | some m =>
      simp only [Option.bind_some]
      cases g m <;> rfl

theorem simple_tail_exact (checked : Bool) {k v x d k' e : Nat} {st : List Nat} {s : SState}
    (hs : s.stack = k :: v :: x :: d :: st) (hk : uRes checked ((k : Int) + 1) = some k') (he : k % 2 ^ 32 = e) :
    simpleTail checked s =
      ((uRes checked ((10 ^ e : Nat) : Int)).bind fun p => (uRes checked ((d : Int) * p)).bind fun m =>
        uRes checked ((m : Int) + v)).map fun r => { s with stack := k' :: r :: st, reg := k', reg2 := v } := by
  rw [simple_tail checked hs, he]
  generalize ((10 ^ e : Nat) : Int) = P
  generalize uRes checked = U at hk ⊢
  generalize ((k : Int) + 1) = Q at hk ⊢
  exact bind3_map (U P) (fun p => U ((d : Int) * p)) (fun m => U ((m : Int) + v)) (U Q) hk
    (fun r k' => { s with stack := k' :: r :: st, reg := k', reg2 := v })

theorem stack_tail_exact (checked : Bool) {k v x d k' : Int} {e : Nat} {st : List Int} {s : VState}
    (hs : s.stack = k :: v :: x :: d :: st) (hk : iRes checked (k + 1) = some k') (he : (k % 2 ^ 32).toNat = e) :
    stackTail checked s =
      ((uRes checked ((10 ^ e : Nat) : Int)).bind fun p => (iRes checked (d * iWrap p)).bind fun m =>
        iRes checked (m + v)).map fun r => { s with stack := k' :: r :: st, reg := k', reg2 := v } := by
  rw [stack_tail checked hs, he]
  generalize ((10 ^ e : Nat) : Int) = P
  generalize uRes checked = U
  generalize iRes checked = V at hk ⊢
  generalize k + 1 = Q at hk ⊢
  exact bind3_map (U P) (fun p => V (d * iWrap p)) (fun m => V (m + v)) (V Q) hk
    (fun r k' => { s with stack := k' :: r :: st, reg := k', reg2 := v })

/-- A number of digits as `usize`. -/
def cntU (n : Nat) : Nat := n % 2 ^ 64

theorem cntU_one : cntU 1 = 1 := by decide

theorem cntU_mod (n : Nat) : cntU n % 2 ^ 32 = n % 2 ^ 32 := by simp only [cntU]; omega

theorem cntU_succ (checked : Bool) {n : Nat} (hc : checked = true → n ≤ 20) :
    uRes checked ((cntU n : Nat) + 1 : Int) = some (cntU (n + 1)) := by
  simp only [cntU]
  rw [show (((n % 2 ^ 64 : Nat) : Int) + 1) = ((n % 2 ^ 64 + 1 : Nat) : Int) by omega]
  cases checked with
  | false => rw [uRes_wrap, Option.some.injEq]; omega
  | true =>
    have := hc rfl
    rw [uRes_fit true (by omega), Option.some.injEq]; omega

theorem cntI_mod (n : Nat) : (iWrap (n : Int) % 2 ^ 32).toNat = n % 2 ^ 32 := by simp only [iWrap]; omega

theorem cntI_succ (checked : Bool) {n : Nat} (hc : checked = true → n ≤ 20) :
    iRes checked (iWrap (n : Int) + 1) = some (iWrap ((n + 1 : Nat) : Int)) := by
  cases checked with
  | false => rw [iRes_wrap, iWrap_succ rfl]
  | true =>
    have := hc rfl
    rw [iWrap_fit (n := (n : Int)) (by omega) (by omega), iRes_fit true (by omega) (by omega),
      iWrap_fit (by omega) (by omega), Option.some.injEq]
    omega

theorem iWrap_one : iWrap ((1 : Nat) : Int) = 1 := by decide

section
attribute [local irreducible] cntU iWrap uRes iRes

/-- SimpleStackVm, the digits after the first: exactly the value computed digit by digit. -/
theorem simpleRest_exact (checked : Bool) (ds : List (Fin 10)) : ∀ (d : Fin 10) (st : List Nat) (s : SState),
    s.stack = 1 :: d.val :: st →
    (valU checked (d :: ds) = none → simpleRest checked ds s = none) ∧
    (∀ v, valU checked (d :: ds) = some v → ∃ r2, simpleRest checked ds s =
      some { s with stack := cntU (ds.length + 1) :: v :: st,
                    reg := if ds = [] then s.reg else cntU (ds.length + 1), reg2 := r2 }) := by
  induction ds with
  | nil =>
    intro d st s hs
    refine ⟨fun h => (by simp [valU] at h), fun v h => ⟨s.reg2, ?_⟩⟩
    simp only [valU, Option.some.injEq] at h
    subst h
    rw [simpleRest_nil, if_pos rfl]
    simp only [List.length_nil, Nat.zero_add]
    rw [cntU_one, ← hs]
  | cons e ds ih =>
    intro d st s hs
    obtain ⟨ih1, ih2⟩ := ih e (1 :: d.val :: st) { s with stack := 1 :: e.val :: s.stack } (by simp only [hs])
    rw [simpleRest_cons]
    cases hv : valU checked (e :: ds) with
    | none =>
      refine ⟨fun _ => (by rw [ih1 hv, Option.bind_none]), fun v h => ?_⟩
      rw [valU, hv, Option.bind_none] at h
      cases h
    | some w =>
      obtain ⟨r2, h⟩ := ih2 w hv
      rw [h, Option.bind_some]
      have ht := simple_tail_exact checked (k := cntU (ds.length + 1)) (v := w) (x := 1) (d := d.val) (st := st)
        (s := { s with stack := cntU (ds.length + 1) :: w :: 1 :: d.val :: st,
                       reg := if ds = [] then s.reg else cntU (ds.length + 1), reg2 := r2 }) rfl
        (cntU_succ checked (fun hc => (by subst hc; simpa using valU_long hv))) (cntU_mod _)
      rw [ht]
      rw [valU, hv, Option.bind_some]
      generalize (Option.bind _ _ : Option Nat) = X
      cases X with
      | none => exact ⟨fun _ => rfl, fun v h => (by cases h)⟩
      | some r =>
        refine ⟨fun h => (by cases h), fun v h => ⟨w, ?_⟩⟩
        cases h
        simp only [Option.map_some, List.length_cons, reduceCtorEq, if_false]

/-- StackVm, the digits after the first: exactly the value computed digit by digit. -/
theorem stackRest_exact (checked : Bool) (ds : List (Fin 10)) : ∀ (d : Fin 10) (st : List Int) (s : VState),
    s.stack = 1 :: (d.val : Int) :: st →
    (valI checked (d :: ds) = none → stackRest checked ds s = none) ∧
    (∀ v, valI checked (d :: ds) = some v → ∃ r2, stackRest checked ds s =
      some { s with stack := iWrap ((ds.length + 1 : Nat) : Int) :: v :: st,
                    reg := if ds = [] then s.reg else iWrap ((ds.length + 1 : Nat) : Int), reg2 := r2 }) := by
  induction ds with
  | nil =>
    intro d st s hs
    refine ⟨fun h => (by simp [valI] at h), fun v h => ⟨s.reg2, ?_⟩⟩
    simp only [valI, Option.some.injEq] at h
    subst h
    rw [stackRest_nil, if_pos rfl]
    simp only [List.length_nil, Nat.zero_add]
    rw [iWrap_one, ← hs]
  | cons e ds ih =>
    intro d st s hs
    obtain ⟨ih1, ih2⟩ := ih e (1 :: (d.val : Int) :: st) { s with stack := 1 :: (e.val : Int) :: s.stack } (by simp only [hs])
    rw [stackRest_cons]
    cases hv : valI checked (e :: ds) with
    | none =>
      refine ⟨fun _ => (by rw [ih1 hv, Option.bind_none]), fun v h => ?_⟩
      rw [valI, hv, Option.bind_none] at h
      cases h
    | some w =>
      obtain ⟨r2, h⟩ := ih2 w hv
      rw [h, Option.bind_some]
      have ht := stack_tail_exact checked (k := iWrap ((ds.length + 1 : Nat) : Int)) (v := w) (x := 1) (d := (d.val : Int)) (st := st)
        (s := { s with stack := iWrap ((ds.length + 1 : Nat) : Int) :: w :: 1 :: (d.val : Int) :: st,
                       reg := if ds = [] then s.reg else iWrap ((ds.length + 1 : Nat) : Int), reg2 := r2 }) rfl
        (cntI_succ checked (fun hc => (by subst hc; simpa using valI_long hv))) (cntI_mod _)
      rw [ht]
      rw [valI, hv, Option.bind_some]
      generalize (Option.bind _ _ : Option Int) = X
      cases X with
      | none => exact ⟨fun _ => rfl, fun v h => (by cases h)⟩
      | some r =>
        refine ⟨fun h => (by cases h), fun v h => ⟨w, ?_⟩⟩
        cases h
        simp only [Option.map_some, List.length_cons, reduceCtorEq, if_false]

end

/-! ### the values -/

theorem weighted_cons (d : Fin 10) (ds : List (Fin 10)) :
    weighted (d :: ds) = d.val * 10 ^ (ds.length % 2 ^ 32) + weighted ds := rfl

theorem mod_step {P d w M : Nat} : (d * (P % M) % M + w % M) % M = (d * P + w) % M := by
  rw [← Nat.add_mod, Nat.add_mod (d * (P % M)), Nat.mul_mod d (P % M), Nat.mod_mod, ← Nat.mul_mod, ← Nat.add_mod]

theorem valU_release (ds : List (Fin 10)) (hne : ds ≠ []) : valU false ds = some (weighted ds % 2 ^ 64) := by
  induction ds with
  | nil => exact absurd rfl hne
  | cons d ds ih =>
    cases ds with
    | nil =>
      rw [valU, weighted_one]
      have := d.isLt
      congr 1
      omega
    | cons e ds =>
      rw [valU, ih (by simp), Option.bind_some, weighted_cons d (e :: ds), List.length_cons, uRes_wrap, Option.bind_some, ← Int.natCast_mul,
        uRes_wrap, Option.bind_some, ← Int.natCast_add, uRes_wrap]
      generalize 10 ^ ((ds.length + 1) % 2 ^ 32) = P
      generalize weighted (e :: ds) = w
      congr 1
      generalize (2 : Nat) ^ 64 = M
      exact mod_step

theorem valU_checked (ds : List (Fin 10)) (hne : ds ≠ []) :
    valU true ds = if ds.length ≤ 20 ∧ decimal ds < 2 ^ 64 then some (decimal ds) else none := by
  induction ds with
  | nil => exact absurd rfl hne
  | cons d ds ih =>
    cases ds with
    | nil =>
      rw [valU, decimal_one, if_pos ⟨by simp, by have := d.isLt; omega⟩]
    | cons e ds =>
      rw [valU, ih (by simp), decimal_cons d (e :: ds)]
      simp only [List.length_cons]
      by_cases h1 : ds.length + 1 ≤ 20 ∧ decimal (e :: ds) < 2 ^ 64
      · rw [if_pos h1, Option.bind_some, Nat.mod_eq_of_lt (a := ds.length + 1) (by omega)]
        by_cases h2 : ds.length + 1 = 20
        · rw [if_neg (by omega), h2, uRes_over (.inr (by exact_mod_cast pow_ge_word (Nat.le_refl 20))), Option.bind_none]
        · rw [uRes_fit true (pow_lt_word (by omega)), Option.bind_some, ← Int.natCast_mul]
          generalize 10 ^ (ds.length + 1) = P
          by_cases h3 : d.val * P < 2 ^ 64
          · rw [uRes_fit true h3, Option.bind_some, ← Int.natCast_add]
            by_cases h4 : d.val * P + decimal (e :: ds) < 2 ^ 64
            · rw [uRes_fit true h4, if_pos ⟨by omega, h4⟩]
            · rw [uRes_over (.inr (by exact_mod_cast Nat.not_lt.1 h4)), if_neg (fun h => h4 h.2)]
          · rw [uRes_over (.inr (by exact_mod_cast Nat.not_lt.1 h3)), Option.bind_none,
              if_neg (fun h => h3 (Nat.lt_of_le_of_lt (Nat.le_add_right _ _) h.2))]
      · rw [if_neg h1, Option.bind_none, if_neg]
        intro h
        exact h1 ⟨by omega, Nat.lt_of_le_of_lt (Nat.le_add_left _ _) h.2⟩

theorem valU_number (checked : Bool) {ds : List (Fin 10)} (hne : ds ≠ []) :
    (valU checked ds).map Int.ofNat = (unsigned checked).number ds := by
  cases checked with
  | false => rw [valU_release ds hne]; rfl
  | true =>
    rw [valU_checked ds hne]
    simp only [unsigned, if_true]
    split <;> rfl

theorem iWrap_signed (n : Int) : iWrap n = signedWord n := by
  simp only [iWrap, signedWord]; omega

theorem iWrap_mod_add {n m : Int} (h : ∃ k : Int, n = m + k * 2 ^ 64) : iWrap n = iWrap m := by
  obtain ⟨k, rfl⟩ := h
  simp only [iWrap]
  congr 1
  rw [Int.add_right_comm, Int.add_mul_emod_self_right]

theorem iWrap_eq_add (n : Int) : ∃ k : Int, iWrap n = n + k * 2 ^ 64 := by
  refine ⟨-((n + 2 ^ 63) / 2 ^ 64), ?_⟩
  simp only [iWrap]
  omega

theorem iWrap_step {P d : Nat} {w : Int} :
    iWrap (iWrap ((d : Int) * iWrap ((P % 2 ^ 64 : Nat) : Int)) + iWrap w) = iWrap ((d : Int) * (P : Int) + w) := by
  obtain ⟨a, ha⟩ := iWrap_eq_add w
  obtain ⟨b, hb⟩ := iWrap_eq_add ((P % 2 ^ 64 : Nat) : Int)
  obtain ⟨c, hc⟩ := iWrap_eq_add ((d : Int) * iWrap ((P % 2 ^ 64 : Nat) : Int))
  rw [hc, hb, ha]
  obtain ⟨e, he⟩ : ∃ e : Int, ((P % 2 ^ 64 : Nat) : Int) = P + e * 2 ^ 64 := ⟨-((P : Int) / 2 ^ 64), by omega⟩
  rw [he]
  refine iWrap_mod_add ⟨d * e + d * b + c + a, ?_⟩
  generalize (2 : Int) ^ 64 = M
  simp only [Int.mul_add, Int.add_mul, Int.mul_assoc]
  omega

theorem valI_release (ds : List (Fin 10)) (hne : ds ≠ []) : valI false ds = some (signedWord (weighted ds)) := by
  rw [← iWrap_signed]
  induction ds with
  | nil => exact absurd rfl hne
  | cons d ds ih =>
    cases ds with
    | nil =>
      rw [valI, weighted_one, iWrap_fit]
      · have := d.isLt; omega
      · have := d.isLt; omega
    | cons e ds =>
      rw [valI, ih (by simp), Option.bind_some, weighted_cons d (e :: ds), List.length_cons, uRes_wrap, Option.bind_some,
        iRes_wrap, Option.bind_some, iRes_wrap]
      generalize 10 ^ ((ds.length + 1) % 2 ^ 32) = P
      generalize weighted (e :: ds) = w
      rw [iWrap_step, Int.natCast_add, Int.natCast_mul]

/-- At most 19 digits. -/
theorem valI_short (ds : List (Fin 10)) (hne : ds ≠ []) (hl : ds.length ≤ 19) :
    valI true ds = if decimal ds < 2 ^ 63 then some (decimal ds : Int) else none := by
  induction ds with
  | nil => exact absurd rfl hne
  | cons d ds ih =>
    cases ds with
    | nil =>
      rw [valI, decimal_one, if_pos (by have := d.isLt; omega)]
    | cons e ds =>
      simp only [List.length_cons] at hl
      rw [valI, ih (by simp) (by simp only [List.length_cons]; omega), decimal_cons d (e :: ds)]
      simp only [List.length_cons]
      by_cases h1 : decimal (e :: ds) < 2 ^ 63
      · rw [if_pos h1, Option.bind_some, Nat.mod_eq_of_lt (a := ds.length + 1) (by omega),
          uRes_fit true (pow_lt_word (by omega)), Option.bind_some]
        have hlt := pow_lt_half (k := ds.length + 1) (by omega)
        generalize 10 ^ (ds.length + 1) = P at hlt ⊢
        rw [iWrap_fit (by omega) (by omega), ← Int.natCast_mul]
        by_cases h3 : d.val * P < 2 ^ 63
        · rw [iRes_fit true (by omega) (by omega), Option.bind_some, ← Int.natCast_add]
          by_cases h4 : d.val * P + decimal (e :: ds) < 2 ^ 63
          · rw [iRes_fit true (by omega) (by omega), if_pos h4]
          · rw [iRes_over (.inr (by omega)), if_neg h4]
        · rw [iRes_over (.inr (by omega)), Option.bind_none,
            if_neg (fun h => h3 (Nat.lt_of_le_of_lt (Nat.le_add_right _ _) h))]
      · rw [if_neg h1, Option.bind_none, if_neg (fun h => h1 (Nat.lt_of_le_of_lt (Nat.le_add_left _ _) h))]

theorem iWrap_10_19 : iWrap ((10 ^ 19 : Nat) : Int) = -8446744073709551616 := by decide

/-- Twenty digits. -/
theorem valI_twenty (d : Fin 10) (ds : List (Fin 10)) (hl : ds.length = 19) :
    valI true (d :: ds) = if decimal ds < 2 ^ 63 then
      (if d = 0 then some (decimal (d :: ds) : Int)
       else if d = 1 then some ((decimal (d :: ds) : Int) - 2 ^ 64) else none) else none := by
  cases ds with
  | nil => cases hl
  | cons e ds =>
    have hl' : ds.length + 1 = 19 := by simpa using hl
    rw [valI, valI_short (e :: ds) (by simp) (by omega), decimal_cons d, hl, hl']
    by_cases h1 : decimal (e :: ds) < 2 ^ 63
    · rw [if_pos h1, if_pos h1, Option.bind_some, Nat.mod_eq_of_lt (a := 19) (by decide), uRes_fit true (pow_lt_word (Nat.le_refl 19)),
        Option.bind_some, iWrap_10_19]
      generalize decimal (e :: ds) = w at h1
      by_cases h2 : d = 0
      · subst h2
        rw [if_pos rfl]
        rw [show (((0 : Fin 10).val : Nat) : Int) = 0 from rfl, Int.zero_mul, iRes_fit true (by decide) (by decide),
          Option.bind_some, iRes_fit true (by omega) (by omega)]
        rw [show (0 : Fin 10).val = 0 from rfl, Nat.zero_mul, Nat.zero_add, Int.zero_add]
      · rw [if_neg h2]
        by_cases h3 : d = 1
        · subst h3
          rw [if_pos rfl]
          rw [show (((1 : Fin 10).val : Nat) : Int) = 1 from rfl, Int.one_mul,
            iRes_fit true (by decide) (by decide), Option.bind_some, iRes_fit true (by omega) (by omega)]
          rw [show (1 : Fin 10).val = 1 from rfl]
          rw [Option.some.injEq]
          omega
        · rw [if_neg h3]
          have hd : 2 ≤ d.val := by
            have h2' : d.val ≠ 0 := fun h => h2 (Fin.ext h)
            have h3' : d.val ≠ 1 := fun h => h3 (Fin.ext h)
            omega
          rw [iRes_over (.inl (by omega)), Option.bind_none]
    · rw [if_neg h1, if_neg h1, Option.bind_none]

theorem valI_number (checked : Bool) {ds : List (Fin 10)} (hne : ds ≠ []) :
    valI checked ds = (signed checked).number ds := by
  cases checked with
  | false => rw [valI_release ds hne]; rfl
  | true =>
    simp only [signed, if_true]
    by_cases h20 : 20 < ds.length
    · rw [if_pos (.inl h20)]
      cases h : valI true ds with
      | none => rfl
      | some v => exact absurd (valI_long h) (by omega)
    · by_cases hl : ds.length = 20
      · obtain ⟨d, es, rfl⟩ : ∃ d es, ds = d :: es := by
          cases ds with
          | nil => exact absurd rfl hne
          | cons d es => exact ⟨d, es, rfl⟩
        have hes : es.length = 19 := by simpa using hl
        rw [valI_twenty d es hes]
        simp only [hl, List.head?_cons, Option.some.injEq, true_and, ne_eq, Nat.lt_irrefl, false_or]
        rw [show List.drop (20 - 19) (d :: es) = es from rfl]
        by_cases h1 : decimal es < 2 ^ 63
        · rw [if_pos h1, if_neg (show ¬ 2 ^ 63 ≤ decimal es by omega)]
          by_cases h2 : d = 0
          · subst h2
            rw [if_pos rfl, if_neg (by decide), if_neg (by simp)]
          · rw [if_neg h2]
            by_cases h3 : d = 1
            · rw [if_pos h3, if_pos h3]
            · rw [if_neg h3, if_neg h3, if_pos h2]
        · rw [if_neg h1, if_pos (by omega)]
      · have hl19 : ds.length ≤ 19 := by omega
        rw [valI_short ds hne hl19]
        simp only [hl, false_and, if_false]
        rw [show ds.length - 19 = 0 by omega, List.drop_zero]
        by_cases h1 : decimal ds < 2 ^ 63
        · rw [if_pos h1, if_neg (by omega)]
        · rw [if_neg h1, if_pos (by omega)]

/-! ### words -/

/-- What can be observed of the state of SimpleStackVm. -/
def SState.observed (s : SState) : Calc := ⟨s.stack.map Int.ofNat, s.reg, s.error, s.out.map Int.ofNat⟩

/-- What can be observed of the state of StackVm. -/
def VState.observed (s : VState) : Calc := ⟨s.stack, s.reg, s.error, s.out⟩

theorem uRes_word (checked : Bool) (n : Int) : (uRes checked n).map Int.ofNat = wordResult 0 (2 ^ 64) checked n := by
  rw [uRes, wordResult]
  by_cases h : 0 ≤ n ∧ n < 2 ^ 64
  · rw [if_pos h, if_pos h, Option.map_some]
    congr 1
    simp only [Int.ofNat_eq_natCast]
    omega
  · rw [if_neg h, if_neg h]
    cases checked with
    | true => rfl
    | false =>
      simp only [Bool.false_eq_true, if_false, Option.map_some, Int.ofNat_eq_natCast, Option.some.injEq]
      omega

theorem iRes_word (checked : Bool) (n : Int) : iRes checked n = wordResult (-(2 ^ 63)) (2 ^ 63) checked n := by
  rw [iRes, wordResult]
  by_cases h : -(2 ^ 63) ≤ n ∧ n < 2 ^ 63
  · rw [if_pos h, if_pos h]
  · rw [if_neg h, if_neg h]
    cases checked with
    | true => rfl
    | false =>
      simp only [Bool.false_eq_true, if_false, Option.some.injEq, iWrap]
      rw [show (2 ^ 63 - -(2 ^ 63) : Int) = 2 ^ 64 by decide]
      omega

theorem simple_step_exact (checked : Bool) (s : SState) {t : Token} (ht : t.Ok) :
    (tokenStep (simpleExecD checked) calcSIns s t).map SState.observed = calcStep (unsigned checked) s.observed t := by
  cases t with
  | num ds =>
    cases ds with
    | nil => exact absurd rfl ht
    | cons d ds =>
      rw [simple_num_eq, calcStep, ← valU_number checked (by simp)]
      obtain ⟨h1, h2⟩ := simpleRest_exact checked ds d s.stack { s with stack := 1 :: d.val :: s.stack } rfl
      cases hv : valU checked (d :: ds) with
      | none => rw [h1 hv]; rfl
      | some v =>
        obtain ⟨r2, h⟩ := h2 v hv
        rw [h]
        simp only [Option.bind_some, calcSIns, runData, simpleExecD, simpleExec, Option.map_some, SState.observed, List.map_cons,
          unsigned, List.length_cons]
        congr 2
        by_cases hd : ds = []
        · subst hd; rfl
        · have : ds.length + 1 ≠ 1 := by
            have : ds.length ≠ 0 := fun h => hd (List.eq_nil_of_length_eq_zero h)
            omega
          rw [if_neg hd, if_neg this]; rfl
  | add =>
    rcases hst : s.stack with _ | ⟨b, _ | ⟨a, st⟩⟩
    · rw [token_add (simpleExecD checked) calcSIns s (i := SInstr.popToReg) (j := SInstr.add) (by simp only [calcSIns])]
      rw [runData_two (E := simpleExecD checked) (s1 := { s with error := 1 }) (r := some { s with error := 1 })
        (by simp only [simpleExecD, simpleExec, hst]) (by simp only [simpleExecD, simpleExec, hst])]
      simp only [Option.map_some, calcStep, SState.observed, hst, List.map_nil]
    · rw [token_add (simpleExecD checked) calcSIns s (i := SInstr.popToReg) (j := SInstr.add) (by simp only [calcSIns])]
      rw [runData_two (E := simpleExecD checked) (s1 := { s with stack := [], reg := b })
        (r := some { s with stack := [], reg := b, error := 1 })
        (by simp only [simpleExecD, simpleExec, hst]) (by simp only [simpleExecD, simpleExec])]
      simp only [Option.map_some, calcStep, SState.observed, hst, List.map_nil, List.map_cons]
      rfl
    · rw [simple_add checked hst]
      simp only [calcStep, SState.observed, hst, List.map_cons, unsigned, ← uRes_word, Int.ofNat_eq_natCast]
      rw [Int.add_comm (b : Int) a]
      cases uRes checked ((a : Int) + b) with
      | none => rfl
      | some r => rfl
  | sub =>
    rcases hst : s.stack with _ | ⟨b, _ | ⟨a, st⟩⟩
    · rw [token_sub (simpleExecD checked) calcSIns s (i := SInstr.popToReg) (j := SInstr.sub) (by simp only [calcSIns])]
      rw [runData_two (E := simpleExecD checked) (s1 := { s with error := 1 }) (r := some { s with error := 1 })
        (by simp only [simpleExecD, simpleExec, hst]) (by simp only [simpleExecD, simpleExec, hst])]
      simp only [Option.map_some, calcStep, SState.observed, hst, List.map_nil]
    · rw [token_sub (simpleExecD checked) calcSIns s (i := SInstr.popToReg) (j := SInstr.sub) (by simp only [calcSIns])]
      rw [runData_two (E := simpleExecD checked) (s1 := { s with stack := [], reg := b })
        (r := some { s with stack := [], reg := b, error := 1 })
        (by simp only [simpleExecD, simpleExec, hst]) (by simp only [simpleExecD, simpleExec])]
      simp only [Option.map_some, calcStep, SState.observed, hst, List.map_nil, List.map_cons]
      rfl
    · rw [simple_sub checked hst]
      simp only [calcStep, SState.observed, hst, List.map_cons, unsigned, ← uRes_word, Int.ofNat_eq_natCast]
      cases uRes checked ((a : Int) - b) with
      | none => rfl
      | some r => rfl
  | print =>
    rcases hst : s.stack with _ | ⟨b, st⟩
    · rw [token_print (simpleExecD checked) calcSIns s (i := SInstr.popToReg) (j := SInstr.printReg) (by simp only [calcSIns])]
      rw [runData_two (E := simpleExecD checked) (s1 := { s with error := 1 }) (r := some { s with error := 1, out := s.out ++ [s.reg] })
        (by simp only [simpleExecD, simpleExec, hst]) (by simp only [simpleExecD, simpleExec])]
      simp only [Option.map_some, calcStep, SState.observed, hst, List.map_nil, List.map_append, List.map_cons]
      rfl
    · rw [simple_print checked hst]
      simp only [Option.map_some, calcStep, SState.observed, hst, List.map_append, List.map_cons, List.map_nil]
      rfl

theorem stack_step_exact (checked : Bool) (s : VState) {t : Token} (ht : t.Ok) :
    (tokenStep (stackExecD checked) calcIns s t).map VState.observed = calcStep (signed checked) s.observed t := by
  cases t with
  | num ds =>
    cases ds with
    | nil => exact absurd rfl ht
    | cons d ds =>
      rw [stack_num_eq, calcStep, ← valI_number checked (by simp)]
      obtain ⟨h1, h2⟩ := stackRest_exact checked ds d s.stack { s with stack := 1 :: (d.val : Int) :: s.stack } rfl
      cases hv : valI checked (d :: ds) with
      | none => rw [h1 hv]; rfl
      | some v =>
        obtain ⟨r2, h⟩ := h2 v hv
        rw [h]
        simp only [Option.bind_some, calcIns, runData, stackExecD, stackExec, Option.map_some, VState.observed,
          signed, List.length_cons, iWrap_signed]
        congr 2
        by_cases hd : ds = []
        · subst hd; rfl
        · have : ds.length + 1 ≠ 1 := by
            have : ds.length ≠ 0 := fun h => hd (List.eq_nil_of_length_eq_zero h)
            omega
          rw [if_neg hd, if_neg this]
  | add =>
    rcases hst : s.stack with _ | ⟨b, _ | ⟨a, st⟩⟩
    · rw [token_add (stackExecD checked) calcIns s (i := Instr.popToReg) (j := Instr.add) (by simp only [calcIns])]
      rw [runData_two (E := stackExecD checked) (s1 := { s with error := 1 }) (r := some { s with error := 1 })
        (by simp only [stackExecD, stackExec, hst]) (by simp only [stackExecD, stackExec, hst])]
      simp only [Option.map_some, calcStep, VState.observed, hst]
    · rw [token_add (stackExecD checked) calcIns s (i := Instr.popToReg) (j := Instr.add) (by simp only [calcIns])]
      rw [runData_two (E := stackExecD checked) (s1 := { s with stack := [], reg := b })
        (r := some { s with stack := [], reg := b, error := 1 })
        (by simp only [stackExecD, stackExec, hst]) (by simp only [stackExecD, stackExec])]
      simp only [Option.map_some, calcStep, VState.observed, hst]
    · rw [stack_add checked hst]
      simp only [calcStep, VState.observed, hst, signed, ← iRes_word]
      rw [Int.add_comm b a]
      cases iRes checked (a + b) with
      | none => rfl
      | some r => rfl
  | sub =>
    rcases hst : s.stack with _ | ⟨b, _ | ⟨a, st⟩⟩
    · rw [token_sub (stackExecD checked) calcIns s (i := Instr.popToReg) (j := Instr.sub) (by simp only [calcIns])]
      rw [runData_two (E := stackExecD checked) (s1 := { s with error := 1 }) (r := some { s with error := 1 })
        (by simp only [stackExecD, stackExec, hst]) (by simp only [stackExecD, stackExec, hst])]
      simp only [Option.map_some, calcStep, VState.observed, hst]
    · rw [token_sub (stackExecD checked) calcIns s (i := Instr.popToReg) (j := Instr.sub) (by simp only [calcIns])]
      rw [runData_two (E := stackExecD checked) (s1 := { s with stack := [], reg := b })
        (r := some { s with stack := [], reg := b, error := 1 })
        (by simp only [stackExecD, stackExec, hst]) (by simp only [stackExecD, stackExec])]
      simp only [Option.map_some, calcStep, VState.observed, hst]
    · rw [stack_sub checked hst]
      simp only [calcStep, VState.observed, hst, signed, ← iRes_word]
      cases iRes checked (a - b) with
      | none => rfl
      | some r => rfl
  | print =>
    rcases hst : s.stack with _ | ⟨b, st⟩
    · rw [token_print (stackExecD checked) calcIns s (i := Instr.popToReg) (j := Instr.printReg) (by simp only [calcIns])]
      rw [runData_two (E := stackExecD checked) (s1 := { s with error := 1 }) (r := some { s with error := 1, out := s.out ++ [s.reg] })
        (by simp only [stackExecD, stackExec, hst]) (by simp only [stackExecD, stackExec])]
      simp only [Option.map_some, calcStep, VState.observed, hst]
    · rw [stack_print checked hst]
      simp only [Option.map_some, calcStep, VState.observed, hst]

theorem steps_exact {I S : Type} {E : Option Str → I → S → Option S} {ins : CalcNT → List I} {obs : S → Calc} {ar : Arithmetic}
    (h : ∀ s t, t.Ok → (tokenStep E ins s t).map obs = calcStep ar (obs s) t) {ts : List Token} (ht : ∀ t ∈ ts, t.Ok) :
    ∀ s, (tokenSteps E ins ts s).map obs = calcRun ar (obs s) ts := by
  induction ts with
  | nil => intro s; rfl
  | cons t ts ih =>
    intro s
    rw [tokenSteps, calcRun, ← h s t (ht t (by simp))]
    cases tokenStep E ins s t with
    | none => rfl
    | some s' => exact ih (fun u hu => ht u (by simp [hu])) s'
end HPP
