import Verif.Spec.Writing
import Verif.Props.Reader
import Verif.Spec.RuleText
/-
C104: writing through `peek_mut`.
-/
namespace HPP
open Spec

theorem rest_withText : ∀ (n : Nat) (p : Nest n) (w : Str), TPeekable.rest (withText n p w) = w
  | 0, _, _ => rfl
  | n + 1, p, w => rest_withText n (PP.src (σ := Nest n) p) w

theorem withText_rest : ∀ (n : Nat) (p : Nest n), withText n p (TPeekable.rest p) = p
  | 0, ⟨_⟩ => rfl
  | n + 1, p => by
    have h := withText_rest n (PP.src (σ := Nest n) p)
    obtain ⟨src, a, b, c, d⟩ := p
    exact congrArg (fun s => (⟨s, a, b, c, d⟩ : PP (Nest n))) h

theorem positions_withText : ∀ (n : Nat) (p : Nest n) (w : Str), Nest.positions n (withText n p w) = Nest.positions n p
  | 0, _, _ => rfl
  | n + 1, p, w => congrArg (_ :: ·) (positions_withText n (PP.src (σ := Nest n) p) w)

theorem withText_withText : ∀ (n : Nat) (p : Nest n) (w w' : Str), withText n (withText n p w) w' = withText n p w'
  | 0, _, _, _ => rfl
  | n + 1, ⟨src, a, b, c, d⟩, w, w' =>
    congrArg (fun s => (⟨s, a, b, c, d⟩ : PP (Nest n))) (withText_withText n src w w')

/-- **C104.** On a process of any nesting depth, writing through `peek_mut` replaces the next character of the text, also
if it is the stop character of one of the processes, and changes nothing else: not the rest of the text, not the
positions, not what the processes know about stop and escape characters.  At the end of the text nothing happens. -/
theorem C104_write_changes_next_character : ∀ (n : Nat) (p : Nest n) (f : Char → Char),
    (∀ c r, TPeekable.rest p = c :: r → TWrite.write f p = withText n p (f c :: r)) ∧
    (TPeekable.rest p = [] → TWrite.write f p = p)
  | 0, ⟨w⟩, f => by
    constructor
    · intro c r h
      change w = c :: r at h
      subst h; rfl
    · intro h
      change w = [] at h
      subst h; rfl
  | n + 1, ⟨src, a, b, c, d⟩, f => by
    obtain ⟨h1, h2⟩ := C104_write_changes_next_character n src f
    exact ⟨fun x r h => congrArg (fun s => (⟨s, a, b, c, d⟩ : PP (Nest n))) (h1 x r h),
      fun h => congrArg (fun s => (⟨s, a, b, c, d⟩ : PP (Nest n))) (h2 h)⟩

/-- **C104**, read back: `peek_mut` shows what was written, the text behind it is the same, and the positions are. -/
theorem C104_write_read_back (n : Nat) (p : Nest n) (f : Char → Char) :
    TPeekable.peekMut (TWrite.write f p) = (TPeekable.peekMut p).map f ∧
    (TPeekable.rest (TWrite.write f p)).tail = (TPeekable.rest p).tail ∧
    Nest.positions n (TWrite.write f p) = Nest.positions n p := by
  obtain ⟨h1, h2⟩ := C104_write_changes_next_character n p f
  have hpk := C61_peek_mut n
  cases h : TPeekable.rest p with
  | nil => rw [h2 h, hpk, h]; exact ⟨rfl, rfl, rfl⟩
  | cons c r => rw [h1 c r h, hpk, hpk, rest_withText, positions_withText, h]; exact ⟨rfl, rfl, rfl⟩

/-- What `check_allowed` decides from the next character and the settings: whether to go on, and the new flag. -/
def verdict (nxt esc stop : Option Char) (e : Bool) : Bool × Bool :=
  match nxt, esc, stop with
  | some c, some ec, some sc => if c = ec then (true, true) else if c = sc ∧ e = false then (false, e) else (true, false)
  | _, _, _ => (true, e)

theorem checkAllowed_verdict {σ : Type} [TPeekable σ] (q : PP σ) :
    q.checkAllowed = ((verdict (TPeekable.peek q.src).1 q.escapeChar q.stopOn q.escape).1,
      { q with src := (TPeekable.peek q.src).2
               escape := (verdict (TPeekable.peek q.src).1 q.escapeChar q.stopOn q.escape).2 }) := by
  obtain ⟨src, pos, st, es, e⟩ := q
  unfold PP.checkAllowed verdict
  simp only
  rcases TPeekable.peek src with ⟨r, s'⟩
  cases r <;> cases es <;> cases st <;> try rfl
  simp only
  split
  · rfl
  · split <;> rfl

theorem peek_verdict {σ : Type} [TPeekable σ] (q : PP σ) :
    q.peek = (if (verdict (TPeekable.peek q.src).1 q.escapeChar q.stopOn q.escape).1 then
        ((TPeekable.peek (TPeekable.peek q.src).2).1, { q with
            src := (TPeekable.peek (TPeekable.peek q.src).2).2
            escape := (verdict (TPeekable.peek q.src).1 q.escapeChar q.stopOn q.escape).2 })
      else (none, { q with
            src := (TPeekable.peek q.src).2
            escape := (verdict (TPeekable.peek q.src).1 q.escapeChar q.stopOn q.escape).2 })) := by
  unfold PP.peek
  rw [checkAllowed_verdict]
  cases (verdict (TPeekable.peek q.src).1 q.escapeChar q.stopOn q.escape).1 <;> rfl

theorem peek_withText : ∀ (n : Nat) (p : Nest n) (x : Char) (t t' : Str), TPeekable.rest p = x :: t →
    TPeekable.rest (TPeekable.peek p).2 = x :: t ∧
    TPeekable.peek (withText n p (x :: t')) = ((TPeekable.peek p).1, withText n (TPeekable.peek p).2 (x :: t'))
  | 0, ⟨w⟩, x, t, t', h => by
    change w = x :: t at h
    subst h; exact ⟨rfl, rfl⟩
  | n + 1, ⟨src, pos, st, es, e⟩, x, t, t', h => by
    obtain ⟨i1, i2⟩ := peek_withText n src x t t' h
    obtain ⟨j1, j2⟩ := peek_withText n (TPeekable.peek src).2 x t t' i1
    change TPeekable.rest (PP.peek (σ := Nest n) ⟨src, pos, st, es, e⟩).2.src = x :: t ∧
      PP.peek (σ := Nest n) ⟨withText n src (x :: t'), pos, st, es, e⟩ =
        ((PP.peek (σ := Nest n) ⟨src, pos, st, es, e⟩).1,
          ({ (PP.peek (σ := Nest n) ⟨src, pos, st, es, e⟩).2 with
            src := withText n (PP.peek (σ := Nest n) ⟨src, pos, st, es, e⟩).2.src (x :: t') } : PP (Nest n)))
    rw [peek_verdict, peek_verdict]
    simp only [i2, j2]
    split
    · exact ⟨j1, rfl⟩
    · exact ⟨i1, rfl⟩

theorem next_withText : ∀ (n : Nat) (p : Nest n) (x y : Char) (t t' : Str) (p' : Nest n), TPeekable.rest p = x :: t →
    TPeekable.next p = (some y, p') →
    y = x ∧ TPeekable.rest p' = t ∧ TPeekable.next (withText n p (x :: t')) = (some x, withText n p' t')
  | 0, ⟨w⟩, x, y, t, t', p', h, hn => by
    change w = x :: t at h
    subst h
    cases hn; exact ⟨rfl, rfl, rfl⟩
  | n + 1, ⟨src, pos, st, es, e⟩, x, y, t, t', p', h, hn => by
    obtain ⟨i1, i2⟩ := peek_withText n src x t t' h
    change PP.next (σ := Nest n) ⟨src, pos, st, es, e⟩ = (some y, p') at hn
    change _ ∧ _ ∧ PP.next (σ := Nest n) ⟨withText n src (x :: t'), pos, st, es, e⟩ = _
    rw [next_guarded] at hn ⊢
    unfold guarded at hn ⊢
    rw [checkAllowed_verdict] at hn ⊢
    simp only [i2] at hn ⊢
    cases hv : (verdict (TPeekable.peek src).1 es st e).1 with
    | false => rw [hv] at hn; cases hn
    | true =>
      rw [hv] at hn
      simp only at hn ⊢
      rcases hm : TPeekable.next (TPeekable.peek src).2 with ⟨r, s'⟩
      rw [hm] at hn
      cases r with
      | none => cases hn
      | some z =>
        cases hn
        obtain ⟨rfl, k1, k2⟩ := next_withText n _ x _ t t' s' i1 hm
        rw [k2]
        exact ⟨rfl, k1, rfl⟩

theorem readsAll_rest {n : Nat} {p p' : Nest n} {u : Str} (h : ReadsAll p u p') :
    TPeekable.rest p = u ++ TPeekable.rest p' ∧
    ∀ w, ReadsAll (withText n p (u ++ w)) u (withText n p' w) := by
  induction h with
  | nil p => exact ⟨rfl, fun w => .nil _⟩
  | @cons p p1 p2 c u hn _ ih =>
    obtain ⟨i1, i2⟩ := ih
    have hr := C01_answers_are_next_characters n p .next c (by change (TPeekable.next p).1 = _; rw [hn])
    cases hp : TPeekable.rest p with
    | nil => rw [hp] at hr; cases hr
    | cons x t =>
      obtain ⟨rfl, k1, _⟩ := next_withText n p x c t t p1 hp hn
      refine ⟨by rw [← k1, i1]; rfl, fun w => ?_⟩
      exact .cons (next_withText n p _ _ t (u ++ w) p1 hp hn).2.2 (i2 w)

/-- **C104**, as if the text had been different: let a process of any depth, in any state, have handed out `u` by
successful calls of `next`, and let `c` be the next character.  Writing `f c` then leads to exactly the process one gets
by reading `u` from the same process over the text with `f c` in place of `c`. -/
theorem C104_as_if_written_before {n : Nat} {p p' : Nest n} {u r : Str} {c : Char} (f : Char → Char)
    (h : ReadsAll p u p') (hp : TPeekable.rest p = u ++ c :: r) :
    ReadsAll (withText n p (u ++ f c :: r)) u (TWrite.write f p') := by
  obtain ⟨h1, h2⟩ := readsAll_rest h
  have : TPeekable.rest p' = c :: r := List.append_cancel_left (h1.symm.trans hp)
  rw [(C104_write_changes_next_character n p' f).1 c r this]
  exact h2 _

/-- A section `a\\}b}c` of which three characters were read; the fourth becomes an `x`. -/
example : ∃ p', ReadsAll (n := 2) (sectionProcess (c% "a\\}b}c") 4) (c% "a\\}") p' ∧
    (TPeekable.next (σ := Nest 2) (TWrite.write (σ := Nest 2) (fun _ => 'x') p')).1 = some 'x' :=
  ⟨_, .cons rfl (.cons rfl (.cons rfl (.nil _))), rfl⟩

theorem section_next (c : Char) (hc : c ≠ '}') (t : Str) (k k' : Nat) (e : Bool) :
    PP.next (σ := Proc) ⟨⟨⟨c :: t⟩, k, none, none, false⟩, k', some '}', some '\\', e⟩ =
      (some c, ⟨⟨⟨t⟩, k + 1, none, none, false⟩, k' + 1, some '}', some '\\', decide (c = '\\')⟩) := by
  rw [next_guarded]
  unfold guarded
  rw [checkAllowed_verdict]
  have hpk : TPeekable.peek (σ := Proc) ⟨⟨c :: t⟩, k, none, none, false⟩ = (some c, ⟨⟨c :: t⟩, k, none, none, false⟩) := rfl
  have hnx : TPeekable.next (σ := Proc) ⟨⟨c :: t⟩, k, none, none, false⟩ = (some c, ⟨⟨t⟩, k + 1, none, none, false⟩) := rfl
  have hv : verdict (some c) (some '\\') (some '}') e = (true, decide (c = '\\')) := by
    unfold verdict
    simp only
    by_cases h : c = '\\'
    · simp [h]
    · simp [h, hc]
  simp only [hpk, hv, hnx]

/-- **C104**, the end of a section does not bind `peek_mut`: when a section is read to its end, writing another character
over the stop character opens it again, and `next` hands out what was written and the text behind the section. -/
theorem C104_section_end_can_be_overwritten (x : Char) (hx : x ≠ '}') (y : Char) (hy : y ≠ '}') (r : Str) (k : Nat) :
    (TPeekable.next (σ := Nest 2) (sectionProcess ('}' :: y :: r) k)).1 = none ∧
    ∃ p' p'', TPeekable.next (σ := Nest 2) (TWrite.write (σ := Nest 2) (fun _ => x) (sectionProcess ('}' :: y :: r) k)) = (some x, p') ∧
      TPeekable.next p' = (some y, p'') := by
  refine ⟨rfl, _, _, section_next x hx (y :: r) k k false, section_next y hy r _ _ _⟩

/-- What matters in `C104_as_if_written_before`: only `next` was called.  After a `peek` at an escape character the process
remembers it, so that a stop character written over it is handed out, while a section that starts with the stop character
is at its end. -/
theorem C104_peeked_escape_is_remembered (r : Str) (k : Nat) :
    (TPeekable.next (σ := Nest 2) (TWrite.write (σ := Nest 2) (fun _ => '}')
      (TPeekable.peek (σ := Nest 2) (sectionProcess ('\\' :: r) k)).2)).1 = some '}' ∧
    (TPeekable.next (σ := Nest 2) (sectionProcess ('}' :: r) k)).1 = none := ⟨rfl, rfl⟩

end HPP
