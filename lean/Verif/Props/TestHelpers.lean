import Verif.Model.TestHelpers
import Verif.Proofs.Basic
/-
Property C99: the set builders of test_helpers.rs.
-/
namespace HPP

namespace Spec

/-- What a character stands for in the text of a set with the empty word. -/
def standsFor (x : Char) : SetMemberE :=
  if x = '#' then .empty else if x = '!' then .terminate else .char x

/-- What a character stands for in the text of a set without the empty word: here `#` is an ordinary character. -/
def standsForNoEmpty (x : Char) : SetMember := if x = '!' then .terminate else .char x

end Spec
open Spec

theorem memberSetLoop_eq : ∀ (t : Str) (s : List SetMemberE), memberSetLoop t s = setExtend s (t.map standsFor)
  | [], s => rfl
  | x :: xs, s => by
    simp only [memberSetLoop, List.map_cons, standsFor]
    split
    · rw [memberSetLoop_eq xs]; rfl
    · split <;> (rw [memberSetLoop_eq xs]; rfl)

theorem memberSetNoEmptyLoop_eq : ∀ (t : Str) (s : List SetMember),
    memberSetNoEmptyLoop t s = setExtend s (t.map standsForNoEmpty)
  | [], s => rfl
  | x :: xs, s => by
    simp only [memberSetNoEmptyLoop, List.map_cons, standsForNoEmpty]
    split <;> (rw [memberSetNoEmptyLoop_eq xs]; rfl)

theorem nodup_setExtend' {α : Type} [DecidableEq α] : ∀ (xs s : List α), s.Nodup → (setExtend s xs).Nodup
  | [], s, h => h
  | x :: xs, s, h => by
    refine nodup_setExtend' xs (setInsert s x) ?_
    simp only [setInsert]
    split
    · exact h
    · next hx =>
      rw [List.nodup_append]
      exact ⟨h, by simp, fun a ha b hb he => hx (by simp at hb; subst hb; subst he; exact ha)⟩

theorem mem_setExtend' {α : Type} [DecidableEq α] (m : α) : ∀ (xs s : List α), m ∈ setExtend s xs ↔ m ∈ s ∨ m ∈ xs
  | [], s => by simp [setExtend]
  | x :: xs, s => by
    have := mem_setExtend' m xs (setInsert s x)
    simp only [setExtend, List.foldl_cons] at this ⊢
    rw [this]
    simp only [setInsert]
    split
    · next hx =>
      rw [List.mem_cons]
      constructor
      · rintro (h | h)
        · exact .inl h
        · exact .inr (.inr h)
      · rintro (h | rfl | h)
        · exact .inl h
        · exact .inl hx
        · exact .inr h
    · simp [or_assoc]

/-- **C99**, contents: `make_memberset` gives the set of the members its characters stand for, `#` standing for the empty
word and `!` for the end; `make_memberset_no_empty` takes `#` literally. -/
theorem C99_members (t : Str) :
    (makeMemberSet t).Nodup ∧ (makeMemberSetNoEmpty t).Nodup ∧
    (∀ m, m ∈ makeMemberSet t ↔ ∃ x ∈ t, standsFor x = m) ∧
    (∀ m, m ∈ makeMemberSetNoEmpty t ↔ ∃ x ∈ t, standsForNoEmpty x = m) := by
  refine ⟨?_, ?_, fun m => ?_, fun m => ?_⟩
  · rw [makeMemberSet, memberSetLoop_eq]; exact nodup_setExtend' _ _ .nil
  · rw [makeMemberSetNoEmpty, memberSetNoEmptyLoop_eq]; exact nodup_setExtend' _ _ .nil
  · rw [makeMemberSet, memberSetLoop_eq, mem_setExtend']; simp
  · rw [makeMemberSetNoEmpty, memberSetNoEmptyLoop_eq, mem_setExtend']; simp

/-- **C99**, what can be written: a finite set can be written for `make_memberset` exactly if it contains neither `#` nor `!`
as a character, for `make_memberset_no_empty` exactly if it does not contain `!` as a character. -/
theorem C99_expressible :
    (∀ L : List SetMemberE, (∃ t, ∀ m, m ∈ makeMemberSet t ↔ m ∈ L) ↔ .char '#' ∉ L ∧ .char '!' ∉ L) ∧
    (∀ L : List SetMember, (∃ t, ∀ m, m ∈ makeMemberSetNoEmpty t ↔ m ∈ L) ↔ .char '!' ∉ L) := by
  refine ⟨fun L => ⟨?_, ?_⟩, fun L => ⟨?_, ?_⟩⟩
  · rintro ⟨t, ht⟩
    have h := (C99_members t).2.2.1
    refine ⟨fun hc => ?_, fun hc => ?_⟩ <;>
    · obtain ⟨x, -, hx⟩ := (h _).1 ((ht _).2 hc)
      unfold standsFor at hx
      split at hx
      · cases hx
      · split at hx
        · cases hx
        · next h1 h2 => cases hx; first | exact h1 rfl | exact h2 rfl
  · rintro ⟨h1, h2⟩
    refine ⟨L.map fun m => match m with | .char x => x | .empty => '#' | .terminate => '!', fun m => ?_⟩
    rw [(C99_members _).2.2.1]
    constructor
    · rintro ⟨x, hx, rfl⟩
      obtain ⟨m, hm, rfl⟩ := List.mem_map.1 hx
      cases m with
      | empty => exact hm
      | terminate => exact hm
      | char y =>
        have e1 : y ≠ '#' := by rintro rfl; exact h1 hm
        have e2 : y ≠ '!' := by rintro rfl; exact h2 hm
        simpa [standsFor, e1, e2] using hm
    · intro hm
      refine ⟨_, List.mem_map_of_mem hm, ?_⟩
      cases m with
      | empty => rfl
      | terminate => rfl
      | char y =>
        have e1 : y ≠ '#' := by rintro rfl; exact h1 hm
        have e2 : y ≠ '!' := by rintro rfl; exact h2 hm
        simp [standsFor, e1, e2]
  · rintro ⟨t, ht⟩ hc
    obtain ⟨x, -, hx⟩ := ((C99_members t).2.2.2 _).1 ((ht _).2 hc)
    unfold standsForNoEmpty at hx
    split at hx
    · cases hx
    · next h1 => cases hx; exact h1 rfl
  · intro h2
    refine ⟨L.map fun m => match m with | .char x => x | .terminate => '!', fun m => ?_⟩
    rw [(C99_members _).2.2.2]
    constructor
    · rintro ⟨x, hx, rfl⟩
      obtain ⟨m, hm, rfl⟩ := List.mem_map.1 hx
      cases m with
      | terminate => exact hm
      | char y =>
        have e2 : y ≠ '!' := by rintro rfl; exact h2 hm
        simpa [standsForNoEmpty, e2] using hm
    · intro hm
      refine ⟨_, List.mem_map_of_mem hm, ?_⟩
      cases m with
      | terminate => rfl
      | char y =>
        have e2 : y ≠ '!' := by rintro rfl; exact h2 hm
        simp [standsForNoEmpty, e2]

/-- The sets of the crate's own examples. -/
example : makeMemberSet (c% "ab!#a") = [.char 'a', .char 'b', .terminate, .empty] ∧
    makeMemberSetNoEmpty (c% "ab!#a") = [.char 'a', .char 'b', .terminate, .char '#'] := ⟨rfl, rfl⟩

end HPP
