import Verif.Spec.Element
import Verif.Props.Parts
/-
C94: reading one element.
-/
namespace HPP
open Spec

theorem noNameAhead_iff {cc : CharClass} {w : Str} :
    NoNameAhead cc w ↔ ∀ c r, w = c :: r → cc.isAlphanumeric c = false ∧ c ≠ '_' := by
  simp only [NoNameAhead, Bool.or_eq_false_iff, beq_eq_false_iff_ne]

theorem elem_outcome {cc : CharClass} {w : Str} {k : Nat} {r : Res PErr (Option ElementVerbose)} {w' : Str} {k' : Nat}
    (h : ElemOutcome cc w k r w' k') : parseElement cc (Proc.at w k) = (r, Proc.at w' k') := by
  cases h with
  | hash w k =>
    simp only [parseElement, plainReader.peek _ k trivial, List.head?_cons, if_true, plainReader.next '#' _ k trivial]
  | @quoted w b r k hq =>
    have hE : parseElement cc (Proc.at ('"' :: w) k) =
        (do let n ← parseQuoted; return some ⟨n, .terminal⟩ : SM Proc PErr _) (Proc.at ('"' :: w) k) := by
      simp only [parseElement, plainReader.peek _ k trivial, List.head?_cons]
      rw [if_neg (by decide), if_pos trivial]
    rw [hE, SM.bind_apply, (C07_quoted w k).1 b _ hq]
    rfl
  | @unclosed w k hq =>
    have hE : parseElement cc (Proc.at ('"' :: w) k) =
        (do let n ← parseQuoted; return some ⟨n, .terminal⟩ : SM Proc PErr _) (Proc.at ('"' :: w) k) := by
      simp only [parseElement, plainReader.peek _ k trivial, List.head?_cons]
      rw [if_neg (by decide), if_pos trivial]
    rw [hE, SM.bind_apply, (C07_quoted w k).2 hq]
  | name k hn hw => exact parseElement_ok (.name hn) (fun _ => noNameAhead_iff.2 hw) k
  | other k h1 h2 h3 =>
    simp only [parseElement, plainReader.peek _ k trivial, List.head?_cons, h1, h2, h3, if_false, plainReader.pos]
    rfl
  | ended k => simp only [parseElement, plainReader.peek _ k trivial, List.head?_nil, plainReader.pos]

theorem elem_total (cc : CharClass) (w : Str) (k : Nat) : ∃ r w' k', ElemOutcome cc w k r w' k' := by
  cases w with
  | nil => exact ⟨_, _, _, .ended k⟩
  | cons c w =>
    by_cases h1 : c = '#'
    · subst h1; exact ⟨_, _, _, .hash w k⟩
    · by_cases h2 : c = '"'
      · subst h2
        cases hq : quotedFrom false w with
        | none => exact ⟨_, _, _, .unclosed k hq⟩
        | some x => exact ⟨_, _, _, .quoted k hq⟩
      · by_cases h3 : cc.isAlphabetic c = true
        · rcases varName_cases cc (c :: w) k with ⟨n, w', v1, v2, v3, -⟩ | ⟨e, v⟩
          · rw [v1]; exact ⟨_, _, _, .name k v2 (noNameAhead_iff.1 v3)⟩
          · rw [plainReader.varName_ok cc trivial k h3] at v
            cases v
        · exact ⟨_, _, _, .other k h1 h2 (by simpa using h3)⟩

theorem proc_at_inj {w w' : Str} {k k' : Nat} (h : Proc.at w k = Proc.at w' k') : w = w' ∧ k = k' := by
  simp only [Proc.at, PP.mk.injEq] at h
  obtain ⟨h1, h2, -⟩ := h
  exact ⟨by simpa using h1, h2⟩

/-- **C94.** `parse_element`, called where the text `w` is ahead and `k` characters were read, gives exactly the outcome, the
text left and the position that the rules for elements say: it always returns, and never anything else. -/
theorem C94_element (cc : CharClass) (w : Str) (k : Nat) (r : Res PErr (Option ElementVerbose)) (p : Proc) :
    parseElement cc (Proc.at w k) = (r, p) ↔ ∃ w' k', ElemOutcome cc w k r w' k' ∧ p = Proc.at w' k' := by
  constructor
  · intro h
    obtain ⟨r1, w1, k1, h1⟩ := elem_total cc w k
    rw [elem_outcome h1] at h
    cases h
    exact ⟨w1, k1, h1, rfl⟩
  · rintro ⟨w', k', h, rfl⟩
    exact elem_outcome h

/-- **C94**: the outcome is one only. -/
theorem C94_unique {cc : CharClass} {w : Str} {k : Nat} {r r1 : Res PErr (Option ElementVerbose)} {w' w1 : Str} {k' k1 : Nat}
    (h : ElemOutcome cc w k r w' k') (h1 : ElemOutcome cc w k r1 w1 k1) : r = r1 ∧ w' = w1 ∧ k' = k1 := by
  have := (elem_outcome h).symm.trans (elem_outcome h1)
  simp only [Prod.mk.injEq] at this
  exact ⟨this.1, proc_at_inj this.2⟩

/-- All kinds of outcomes occur. -/
example : ElemOutcome .ascii (c% "#x") 3 (.ok none) (c% "x") 4 ∧
    ElemOutcome .ascii (c% "\"a\\\"b\" c") 3 (.ok (some ⟨c% "a\\\"b", .terminal⟩)) (c% " c") 9 ∧
    ElemOutcome .ascii (c% "\"ab") 3 (.err (.endOfChars 6)) [] 6 ∧
    ElemOutcome .ascii (c% "a_1-") 3 (.ok (some ⟨c% "a_1", .nonTerminal⟩)) (c% "-") 6 := by
  refine ⟨.hash _ _, .quoted 3 (by decide +kernel), .unclosed 3 (by decide +kernel), .name (n := c% "a_1") 3 ?_ ?_⟩
  · exact ⟨'a', c% "_1", rfl, by decide, by decide⟩
  · intro c r h; cases h; exact ⟨by decide, by decide⟩

end HPP
