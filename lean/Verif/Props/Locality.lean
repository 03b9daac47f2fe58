import Verif.Proofs.Locality
import Verif.Props.Parse
/-
C62: one character of lookahead.
-/
namespace HPP
open Spec
variable {I S : Type}

/-- **C62.** A parse depends on the characters it consumes and on the first unread character only: if parsing
`consumed ++ x :: r` stops (with success, an error or a panic) leaving `x :: r` unread, then whatever text `r'` follows
`x` instead of `r`, the result, the VM state, the tree and the position are the same, and `x :: r'` is left unread. -/
theorem C62_one_character_lookahead (ho : HashOrder) (fuel : Nat) (vm : VM I S) (P : Parser I) (s : S)
    {consumed : Str} {x : Char} {r : Str}
    (h : (Parser.parse ho fuel vm P (consumed ++ x :: r) s).2.proc.rest = x :: r) (r' : Str) :
    (Parser.parse ho fuel vm P (consumed ++ x :: r') s).1 = (Parser.parse ho fuel vm P (consumed ++ x :: r) s).1 ∧
    (Parser.parse ho fuel vm P (consumed ++ x :: r') s).2.state =
      (Parser.parse ho fuel vm P (consumed ++ x :: r) s).2.state ∧
    (Parser.parse ho fuel vm P (consumed ++ x :: r') s).2.tree =
      (Parser.parse ho fuel vm P (consumed ++ x :: r) s).2.tree ∧
    (Parser.parse ho fuel vm P (consumed ++ x :: r') s).2.proc.curPos = consumed.length ∧
    (Parser.parse ho fuel vm P (consumed ++ x :: r') s).2.proc.rest = x :: r' := by
  simp only [Parser.parse] at h ⊢
  cases hpo : positionOf ⟨c% "start", .nonTerminal⟩ P.elements with
  | none =>
    rw [hpo] at h
    simp only at h ⊢
    have hc : consumed = [] := by
      have : consumed ++ x :: r = x :: r := h
      simpa using this
    subst hc
    exact ⟨trivial, trivial, trivial, rfl, rfl⟩
  | some ix =>
    rw [hpo] at h
    simp only at h ⊢
    obtain ⟨res, u, w1, s1, t1, hw, e1, l1⟩ :=
      Local.production ho vm P fuel ix none 0 (consumed ++ x :: r) s Tree.new
    have hc : ∀ w : Str, (⟨Proc.ofText w, s, Tree.new⟩ : Ctx S) = ctxAt 0 w s Tree.new := fun _ => rfl
    rw [hc] at h ⊢
    rw [hc]
    have hrest : w1 = x :: r := by
      rw [e1] at h
      cases res <;> exact h
    subst hrest
    have hu : u = consumed := (List.append_cancel_right hw).symm
    subst hu
    have h2 := l1 [] x r r' rfl
    simp only [List.nil_append] at h2
    rw [e1, h2]
    cases res <;> exact ⟨rfl, rfl, rfl, by simp [ctxAt, PP.curPos], rfl⟩

/-- The hypothesis is met, both by a success with trailing text and by an error: with `start -> "a"` the script `ab`
is accepted leaving `b`, with the list grammar `ab;c` fails at `;`. -/
example : (Parser.parse .insertion 9 nullVm Samples.twoParser (c% "a" ++ 'b' :: c% "") 0).2.proc.rest = c% "b" := by
  decide +kernel

example : (Parser.parse .insertion 9 nullVm Samples.listParser (c% "ab" ++ ';' :: c% "c") 0).2.proc.rest = c% ";c" := by
  decide +kernel

end HPP
