import Verif.Props.Text
/-
C61: the conditional reads of a process (`next_if`, `next_if_eq`, `peek_mut`) at any nesting depth.
-/
namespace HPP
open Spec

theorem nextIf_is_guarded_next : ∀ (n : Nat) (f : Char → Bool) (p : Nest n),
    (∀ c, (TPeekable.next p).1 = some c → f c = true → TPeekable.nextIf f p = TPeekable.next p) ∧
    (∀ c, (TPeekable.next p).1 = some c → f c = false → (TPeekable.nextIf f p).1 = none) ∧
    ((TPeekable.next p).1 = none → (TPeekable.nextIf f p).1 = none)
  | 0, f, p => by
    obtain ⟨w⟩ := p
    cases w with
    | nil => exact ⟨fun c (h : none = some c) => (by cases h), fun c (h : none = some c) => (by cases h), fun _ => rfl⟩
    | cons x w =>
      have e1 : TPeekable.next (σ := Nest 0) (CharSource.mk (x :: w)) = (some x, CharSource.mk w) := rfl
      have e2 : TPeekable.nextIf (σ := Nest 0) f (CharSource.mk (x :: w)) =
        if f x then (some x, CharSource.mk w) else (none, CharSource.mk (x :: w)) := rfl
      rw [e1, e2]
      refine ⟨fun c h hf => ?_, fun c h hf => ?_, fun h => by cases h⟩
      · cases h; rw [if_pos hf]
      · cases h; rw [if_neg (by rw [hf]; decide)]
  | n + 1, f, p => by
    have e1 : TPeekable.next (σ := Nest (n + 1)) p = guarded TPeekable.next p := next_guarded (σ := Nest n) p
    have e2 : TPeekable.nextIf (σ := Nest (n + 1)) f p = guarded (TPeekable.nextIf f) p := nextIf_guarded (σ := Nest n) f p
    rw [e1, e2]
    unfold guarded
    rcases PP.checkAllowed (σ := Nest n) p with ⟨b, p1⟩
    cases b with
    | false => exact ⟨fun c (h : none = some c) => (by cases h), fun c (h : none = some c) => (by cases h), fun _ => rfl⟩
    | true =>
      obtain ⟨i1, i2, i3⟩ := nextIf_is_guarded_next n f p1.src
      simp only
      rcases hn : TPeekable.next p1.src with ⟨r, s⟩
      rw [hn] at i1 i2 i3
      rcases hm : TPeekable.nextIf f p1.src with ⟨r', s'⟩
      rw [hm] at i1 i2 i3
      cases r with
      | none =>
        have := i3 rfl
        simp only at this; subst this
        exact ⟨fun c (h : none = some c) => (by cases h), fun c (h : none = some c) => (by cases h), fun _ => rfl⟩
      | some x =>
        refine ⟨fun c h hf => ?_, fun c h hf => ?_, fun h => by cases h⟩
        · cases h; have := i1 _ rfl hf; cases this; rfl
        · cases h; have := i2 _ rfl hf; simp only at this; subst this; rfl

theorem nextIfEq_is_nextIf : ∀ (n : Nat) (x : Char) (p : Nest n),
    TPeekable.nextIfEq x p = TPeekable.nextIf (fun c => decide (c = x)) p
  | 0, x, p => by
    obtain ⟨w⟩ := p
    cases w with
    | nil => rfl
    | cons y w =>
      have e1 : TPeekable.nextIfEq (σ := Nest 0) x (CharSource.mk (y :: w)) =
        if y = x then (some y, CharSource.mk w) else (none, CharSource.mk (y :: w)) := rfl
      have e2 : TPeekable.nextIf (σ := Nest 0) (fun c => decide (c = x)) (CharSource.mk (y :: w)) =
        if decide (y = x) then (some y, CharSource.mk w) else (none, CharSource.mk (y :: w)) := rfl
      rw [e1, e2]
      by_cases h : y = x <;> simp [h] <;> rfl
  | n + 1, x, p => by
    have e1 : TPeekable.nextIfEq (σ := Nest (n + 1)) x p = guarded (TPeekable.nextIfEq x) p :=
      nextIfEq_guarded (σ := Nest n) x p
    have e2 : TPeekable.nextIf (σ := Nest (n + 1)) (fun c => decide (c = x)) p =
      guarded (TPeekable.nextIf (fun c => decide (c = x))) p := nextIf_guarded (σ := Nest n) _ p
    rw [e1, e2]
    unfold guarded
    rcases PP.checkAllowed (σ := Nest n) p with ⟨b, p1⟩
    cases b with
    | false => rfl
    | true => simp only [nextIfEq_is_nextIf n x p1.src]; rfl

/-- **C61.** On a process at any nesting depth, `next_if` is `next` guarded by a test of the character `next` would
return: passed, it answers and moves like `next`; failed, or at the end, it answers nothing (and then, by C01,
consumes nothing). -/
theorem C61_next_if (n : Nat) (f : Char → Bool) (p : Nest n) :
    (∀ c, (TPeekable.next p).1 = some c → f c = true → TPeekable.nextIf f p = TPeekable.next p) ∧
    (∀ c, (TPeekable.next p).1 = some c → f c = false → (TPeekable.nextIf f p).1 = none ∧
      TPeekable.rest (TPeekable.nextIf f p).2 = TPeekable.rest p) ∧
    ((TPeekable.next p).1 = none → (TPeekable.nextIf f p).1 = none ∧
      TPeekable.rest (TPeekable.nextIf f p).2 = TPeekable.rest p) := by
  obtain ⟨h1, h2, h3⟩ := nextIf_is_guarded_next n f p
  have hr : (TPeekable.nextIf f p).1 = none → TPeekable.rest (TPeekable.nextIf f p).2 = TPeekable.rest p := by
    intro h
    have h4 := (read_step_ok n (.nextIf f) p).1
    have e : ((ReadOp.nextIf f).run p) = TPeekable.nextIf f p := rfl
    rw [e, h] at h4
    exact h4.symm
  exact ⟨h1, fun c h hf => ⟨h2 c h hf, hr (h2 c h hf)⟩, fun h => ⟨h3 h, hr (h3 h)⟩⟩

/-- **C61**, `next_if_eq`: the same with the test "is the given character". -/
theorem C61_next_if_eq (n : Nat) (x : Char) (p : Nest n) :
    ((TPeekable.next p).1 = some x → TPeekable.nextIfEq x p = TPeekable.next p) ∧
    ((TPeekable.next p).1 ≠ some x → (TPeekable.nextIfEq x p).1 = none ∧
      TPeekable.rest (TPeekable.nextIfEq x p).2 = TPeekable.rest p) := by
  obtain ⟨h1, h2, h3⟩ := C61_next_if n (fun c => decide (c = x)) p
  rw [nextIfEq_is_nextIf n x p]
  refine ⟨fun h => h1 x h (by simp), fun h => ?_⟩
  cases hn : (TPeekable.next p).1 with
  | none => exact h3 hn
  | some c =>
    refine h2 c hn ?_
    have : c ≠ x := by rintro rfl; exact h hn
    simp [this]

/-- **C61**, `peek_mut`: it shows the next unread character of the innermost source, whatever the stop characters
of the processes around it. -/
theorem C61_peek_mut : ∀ (n : Nat) (p : Nest n), TPeekable.peekMut p = (TPeekable.rest p).head?
  | 0, _ => rfl
  | n + 1, p => C61_peek_mut n (PP.src (σ := Nest n) p)

/-- At the end of a section `next` and `next_if` answer nothing but `peek_mut` still shows the stop character. -/
example : let p : Nest 2 := PP.newNested (Proc.at (c% "}c") 7) (some '}') (some '\\') 7
    (TPeekable.next p).1 = none ∧ (TPeekable.nextIf (fun _ => true) p).1 = none ∧ TPeekable.peekMut p = some '}' :=
  ⟨rfl, rfl, rfl⟩

/-- Both outcomes of the test happen. -/
example : let p : Nest 2 := PP.newNested (Proc.at (c% "ab") 0) (some '}') (some '\\') 0
    (TPeekable.nextIfEq 'a' p).1 = some 'a' ∧ (TPeekable.nextIfEq 'b' p).1 = none := ⟨rfl, rfl⟩

end HPP
