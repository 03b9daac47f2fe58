import Verif.Props.Text
namespace HPP
open Spec
/-- **C03**, the other settings: with an escape character that equals the stop character, or without an escape character,
or without a stop character, nothing ends the section: it is the whole remaining text. -/
theorem C03_never_ends (stop esc : Option Char) (hs : stop = esc ∨ esc = none ∨ stop = none) (w : Str) (j k m : Nat) :
    let r := reads (w.length + m) (PP.newNested (Proc.at w j) stop esc k)
    r.1 = w.map some ++ List.replicate m none ∧ r.2.src = Proc.at [] (j + w.length) ∧ r.2.curPos = k + w.length := by
  have key : ∀ (w : Str) (e : Bool) (j k : Nat),
      let r := reads (w.length + m) (⟨Proc.at w j, k, stop, esc, e⟩ : PP Proc)
      r.1 = w.map some ++ List.replicate m none ∧ r.2.src = Proc.at [] (j + w.length) ∧ r.2.curPos = k + w.length := by
    intro w
    induction w with
    | nil =>
      intro e j k
      simp only [List.length_nil, Nat.zero_add, List.map_nil, List.nil_append, Nat.add_zero]
      induction m with
      | zero => exact ⟨rfl, rfl, rfl⟩
      | succ m ih =>
        have hn : (⟨Proc.at [] j, k, stop, esc, e⟩ : PP Proc).next = (none, ⟨Proc.at [] j, k, stop, esc, e⟩) := by
          cases stop <;> cases esc <;> rfl
        simp only [reads, hn, List.replicate_succ]
        exact ⟨by rw [ih.1], ih.2⟩
    | cons c w ih =>
      intro e j k
      have hn : ∃ e', (⟨Proc.at (c :: w) j, k, stop, esc, e⟩ : PP Proc).next =
          (some c, ⟨Proc.at w (j + 1), k + 1, stop, esc, e'⟩) := by
        rcases hs with rfl | rfl | rfl
        · cases stop with
          | none => exact ⟨e, rfl⟩
          | some x =>
            by_cases hx : c = x
            · subst hx
              exact ⟨true, by simp [PP.next, PP.checkAllowed, TPeekable.peek, TPeekable.next, PP.peek, Proc.at]⟩
            · exact ⟨false, by simp [PP.next, PP.checkAllowed, TPeekable.peek, TPeekable.next, PP.peek, Proc.at, hx]⟩
        · cases stop <;> exact ⟨e, rfl⟩
        · cases esc <;> exact ⟨e, rfl⟩
      obtain ⟨e', hn⟩ := hn
      have := ih e' (j + 1) (k + 1)
      simp only [List.length_cons, Nat.succ_add, reads, hn, List.map_cons, List.cons_append] at this ⊢
      exact ⟨by rw [this.1], by rw [this.2.1]; congr 1, by rw [this.2.2]; omega⟩
  exact key w false j k

/-- With the quote as stop and as escape character the quotes are part of the section. -/
example : (reads 4 (PP.newNested (Proc.at (c% "a\"b") 0) (some '"') (some '"') 0)).1 = [some 'a', some '"', some 'b', none] :=
  (C03_never_ends (some '"') (some '"') (.inl rfl) (c% "a\"b") 0 0 1).1
end HPP
