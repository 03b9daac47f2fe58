import Verif.Proofs.StackParse
/-
Section processes as read by the built-in VMs.
-/
namespace HPP
open Spec

theorem sectionFrom_prefix (stop esc : Char) : ∀ (e : Bool) (w : Str),
    sectionFrom stop esc e w = w.take (sectionFrom stop esc e w).length
  | _, [] => rfl
  | e, c :: w => by
    simp only [sectionFrom]
    split
    · simp
    · rw [List.length_cons, List.take_succ_cons, ← sectionFrom_prefix stop esc _ w]

theorem sectionFrom_body (stop esc : Char) (rest : Str) : ∀ (e : Bool) (body : Str),
    sectionFrom stop esc e (body ++ stop :: rest) = body ↔ sectionFrom stop esc e (body ++ [stop]) = body
  | e, [] => by
    simp only [List.nil_append, sectionFrom]
    cases e <;> simp
  | e, c :: body => by
    simp only [List.cons_append, sectionFrom]
    split
    · exact Iff.rfl
    · have := sectionFrom_body stop esc rest (decide (c = esc)) body
      constructor
      · intro h; injection h with _ h; rw [this.1 h]
      · intro h; injection h with _ h; rw [this.2 h]

/-- Reading a section to its end. -/
theorem drainLoop_spec : ∀ (w : Str) (e : Bool) (j k fuel : Nat), w.length < fuel →
    ∃ p', drainLoop fuel (⟨Proc.at w j, k, some '}', some '\\', e⟩ : PP Proc) = (.ok (), p') ∧
      p'.src = Proc.at (w.drop (sectionFrom '}' '\\' e w).length) (j + (sectionFrom '}' '\\' e w).length) ∧
      ∃ ops, p' = (runReads ops (⟨Proc.at w j, k, some '}', some '\\', e⟩ : PP Proc)).2
  | _, _, _, _, 0, h => by omega
  | [], e, j, k, fuel + 1, _ => ⟨_, rfl, rfl, [], rfl⟩
  | c :: w, e, j, k, fuel + 1, h => by
    by_cases hc : c = '}' ∧ e = false
    · obtain ⟨rfl, rfl⟩ := hc
      exact ⟨_, rfl, rfl, [], rfl⟩
    · have hn : (⟨Proc.at (c :: w) j, k, some '}', some '\\', e⟩ : PP Proc).next =
          (some c, ⟨Proc.at w (j + 1), k + 1, some '}', some '\\', decide (c = '\\')⟩) := by
        by_cases hb : c = '\\'
        · subst hb
          simp [PP.next, PP.checkAllowed, TPeekable.peek, TPeekable.next, Proc.at, PP.peek]
        · simp [PP.next, PP.checkAllowed, TPeekable.peek, TPeekable.next, Proc.at, PP.peek, hb, hc]
      obtain ⟨p', h1, h2, ops, h3⟩ := drainLoop_spec w (decide (c = '\\')) (j + 1) (k + 1) fuel (by simpa using h)
      refine ⟨p', ?_, ?_, .next :: ops, ?_⟩
      · simp only [drainLoop, hn, h1]
      · simp only [sectionFrom]
        rw [if_neg hc, h2, List.length_cons, List.drop_succ_cons]
        congr 1
        omega
      · have : ((ReadOp.next).run (⟨Proc.at (c :: w) j, k, some '}', some '\\', e⟩ : PP Proc)) = _ := hn
        simp only [runReads, this]
        exact h3

theorem drain_section (w : Str) (k : Nat) : ∃ p', drain (sectionProcess w k) = (.ok (), p') ∧
    p'.src = Proc.at (w.drop (sectionOf '}' '\\' w).length) (k + (sectionOf '}' '\\' w).length) ∧
    ∃ ops, p' = (runReads ops (sectionProcess w k)).2 :=
  drainLoop_spec w false k k _ (by simp [sectionProcess, PP.newNested, PP.rest, TPeekable.rest])

theorem section_at_body {w body rest : Str} {k : Nat} (hw : w = body ++ '}' :: rest) :
    Proc.at (w.drop (sectionOf '}' '\\' w).length) (k + (sectionOf '}' '\\' w).length) = Proc.at ('}' :: rest) (k + body.length) ↔
      sectionOf '}' '\\' (body ++ ['}']) = body := by
  subst hw
  rw [sectionOf, sectionOf, ← sectionFrom_body '}' '\\' rest false body]
  constructor
  · intro h
    simp only [Proc.at, PP.mk.injEq] at h
    rw [sectionFrom_prefix, show (sectionFrom '}' '\\' false (body ++ '}' :: rest)).length = body.length by omega]
    simp
  · intro h
    rw [h]
    simp

end HPP
