import Verif.Proofs.Cfg
/-
The textbook FOLLOW sets as the least solution of the FOLLOW equations.
-/
namespace HPP
open Spec Relation
variable {G : Grammar}

/-- The FOLLOW equations. -/
inductive FollowG (G : Grammar) (start : Nat) : Nat → SetMember → Prop where
  | start : FollowG G start start .terminate
  | first {B A : Nat} {u v : Form} {c : Char} : G B (u ++ .nt A :: v) → FirstChar G v c →
      FollowG G start A (.char c)
  | prop {B A : Nat} {u v : Form} {m : SetMember} : G B (u ++ .nt A :: v) → Nullable G v →
      FollowG G start B m → FollowG G start A m

theorem followG_char_sound {start A : Nat} {c : Char} (h : FollowG G start A (.char c)) :
    FollowChar G A c := by
  generalize hm : SetMember.char c = m at h
  induction h with
  | start => cases hm
  | @first B A u v c' hr hf =>
    cases hm
    obtain ⟨w, hw⟩ := hf
    have h2 := Derives.append_left (u ++ [.nt A]) hw
    refine ⟨B, u, w, ⟨_, hr⟩, (Derives.of_rule hr).trans ?_⟩
    simpa using h2
  | @prop B A u v m hr hn _ ih =>
    obtain ⟨B', x, y, hB', hd⟩ := ih hm
    refine ⟨B', x ++ u, y, hB', hd.trans ?_⟩
    have h1 : Derives G (x ++ .nt B :: .ch c :: y) (x ++ (u ++ .nt A :: v) ++ (.ch c :: y)) := by
      have := Derives.append_left x ((Derives.of_rule hr).append_right (.ch c :: y))
      simpa using this
    refine h1.trans ?_
    have h2 := Derives.append_left (x ++ (u ++ [.nt A])) (Derives.append_right (.ch c :: y) hn)
    simpa using h2

theorem followG_end_sound {start A : Nat} (h : FollowG G start A .terminate) :
    FollowEnd G start A := by
  generalize hm : SetMember.terminate = m at h
  induction h with
  | start => exact ⟨[], .refl⟩
  | first => cases hm
  | @prop B A u v m hr hn _ ih =>
    obtain ⟨x, hd⟩ := ih hm
    refine ⟨x ++ u, hd.trans ?_⟩
    have h1 := Derives.append_left x (Derives.of_rule hr)
    refine h1.trans ?_
    have h2 := Derives.append_left (x ++ (u ++ [.nt A])) hn
    simpa using h2

/-- Every occurrence of a non-terminal in a form derived from `[nt B0]` is accounted for. -/
theorem follow_occurrence {start B0 : Nat} {w : Form} (h : Derives G [.nt B0] w) :
    ∀ x A v, w = x ++ .nt A :: v →
      (∀ c, FirstChar G v c → FollowG G start A (.char c)) ∧
      (B0 = start → Nullable G v → FollowG G start A .terminate) := by
  induction h with
  | refl =>
    intro x A v hw
    have : x = [] ∧ A = B0 ∧ v = [] := by
      cases x with
      | nil => simp at hw; exact ⟨rfl, hw.1.symm, hw.2⟩
      | cons a x => simp at hw
    obtain ⟨rfl, rfl, rfl⟩ := this
    refine ⟨fun c hc => absurd hc not_firstChar_nil, ?_⟩
    rintro rfl _
    exact .start
  | tail _ hs ih =>
    intro x A v hw
    cases hs with
    | @mk p q B r hr =>
      have ihB := ih p B q rfl
      have stepq : ∀ t, Derives G (t ++ .nt B :: q) (t ++ r ++ q) := fun t =>
        ReflTransGen.single (Step.mk t q hr)
      rw [List.append_assoc, List.append_eq_append_iff] at hw
      rcases hw with ⟨a, rfl, ha⟩ | ⟨a, rfl, ha⟩
      · -- x = p ++ a, so A lies in r ++ q
        rw [List.append_eq_append_iff] at ha
        rcases ha with ⟨b, rfl, hb⟩ | ⟨b, hb1, hb2⟩
        · -- A in q
          have := ih (p ++ .nt B :: b) A v (by rw [hb]; simp)
          exact this
        · -- A in r, or at the start of q
          cases b with
          | nil =>
            simp only [List.append_nil] at hb1
            simp only [List.nil_append] at hb2
            have := ih (p ++ [.nt B]) A v (by rw [← hb2]; simp)
            exact this
          | cons s b =>
            simp only [List.cons_append, List.cons.injEq] at hb2
            obtain ⟨rfl, rfl⟩ := hb2
            subst hb1
            refine ⟨?_, ?_⟩
            · intro c hc
              rcases firstChar_append.mp hc with hc | ⟨hn, hc⟩
              · exact .first hr hc
              · exact .prop hr hn (ihB.1 c hc)
            · intro hst hn
              obtain ⟨hn1, hn2⟩ := nullable_append.mp hn
              exact .prop hr hn1 (ihB.2 hst hn2)
      · -- p = x ++ a
        cases a with
        | nil =>
          simp only [List.append_nil] at ih ihB
          simp only [List.nil_append] at ha
          -- A at the start of r ++ q
          cases r with
          | nil =>
            simp only [List.nil_append] at ha
            have := ih (x ++ [.nt B]) A v (by rw [← ha]; simp)
            exact this
          | cons s r =>
            simp only [List.cons_append, List.cons.injEq] at ha
            obtain ⟨rfl, rfl⟩ := ha
            refine ⟨?_, ?_⟩
            · intro c hc
              rcases firstChar_append.mp hc with hc | ⟨hn, hc⟩
              · exact .first (u := []) hr hc
              · exact .prop (u := []) hr hn (ihB.1 c hc)
            · intro hst hn
              obtain ⟨hn1, hn2⟩ := nullable_append.mp hn
              exact .prop (u := []) hr hn1 (ihB.2 hst hn2)
        | cons s a =>
          simp only [List.cons_append, List.cons.injEq] at ha
          obtain ⟨rfl, rfl⟩ := ha
          have ihA := ih x A (a ++ .nt B :: q) (by simp)
          refine ⟨?_, ?_⟩
          · rintro c ⟨y, hy⟩
            exact ihA.1 c ⟨y, (stepq a).trans (by simpa using hy)⟩
          · intro hst hn
            exact ihA.2 hst ((stepq a).trans (by simpa [Nullable] using hn))

theorem followG_char_iff {start A : Nat} {c : Char} :
    FollowG G start A (.char c) ↔ FollowChar G A c := by
  refine ⟨followG_char_sound, ?_⟩
  rintro ⟨B, u, v, -, hd⟩
  exact (follow_occurrence hd u A _ rfl).1 c ⟨v, .refl⟩

theorem followG_end_iff {start A : Nat} : FollowG G start A .terminate ↔ FollowEnd G start A := by
  refine ⟨followG_end_sound, ?_⟩
  rintro ⟨u, hd⟩
  exact (follow_occurrence hd u A [] rfl).2 rfl .refl

end HPP
