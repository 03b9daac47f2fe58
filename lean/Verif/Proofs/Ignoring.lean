import Verif.Spec.Ignoring
/-
Lemmas for C92.
-/
namespace HPP
open Spec
variable {I : Type} {rs : List (WrittenRule I)} {J : Str → Prop}

theorem Spec.Sprinkled.append {ts ts' : List Str} {s s' : Str} (h : Sprinkled J ts s) (h' : Sprinkled J ts' s') :
    Sprinkled J (ts ++ ts') (s ++ s') := by
  induction h with
  | nil => exact h'
  | token _ ih => rw [List.append_assoc]; exact .token ih
  | ignored hx _ ih => rw [List.append_assoc]; exact .ignored hx ih

/-- `es` is `a` with names of overrides put in. -/
inductive Put (rs : List (WrittenRule I)) : List ElementVerbose → List ElementVerbose → Prop where
  | nil : Put rs [] []
  | keep {e : ElementVerbose} {es a : List ElementVerbose} : Put rs es a → Put rs (e :: es) (e :: a)
  | put {n j : Str} {es a : List ElementVerbose} : overrideOf rs n = some j → Put rs es a → Put rs (⟨j, .nonTerminal⟩ :: es) a

theorem put_refl : ∀ a : List ElementVerbose, Put rs a a
  | [] => .nil
  | _ :: a => .keep (put_refl a)

theorem put_between {n j : Str} (h : overrideOf rs n = some j) : ∀ a : List ElementVerbose, Put rs (between ⟨j, .nonTerminal⟩ a) a
  | [] => .nil
  | [_] => .keep .nil
  | _ :: y :: xs => .keep (.put h (put_between h (y :: xs)))

theorem Spec.FinalAlt.put {n : Str} {a : List ElementVerbose} (h : FinalAlt rs n a) : ∃ a0 ∈ altsOf rs n, Put rs a a0 := by
  cases h with
  | plain _ ha => exact ⟨_, ha, put_refl _⟩
  | own _ _ ha => exact ⟨_, ha, put_refl _⟩
  | woven ho _ ha => exact ⟨_, ha, put_between ho _⟩

theorem Spec.Spells.sprinkled {es : List ElementVerbose} {s : Str} (h : Spells rs es s) :
    ∀ {a}, Put rs es a → ∃ ts, Tokens rs a ts ∧ Sprinkled (IgnoredText rs) ts s := by
  induction h with
  | nil => intro a ha; cases ha; exact ⟨[], .nil, .nil⟩
  | terminal _ ih =>
    intro a ha
    cases ha with
    | keep ha =>
      obtain ⟨ts, h1, h2⟩ := ih ha
      exact ⟨_, .terminal h1, .token h2⟩
  | @name n a1 es s s' hf hs _ ih1 ih2 =>
    intro a ha
    cases ha with
    | keep ha =>
      obtain ⟨a0, h0, hp⟩ := hf.put
      obtain ⟨ts1, h1, h2⟩ := ih1 hp
      obtain ⟨ts2, h3, h4⟩ := ih2 ha
      exact ⟨_, .name h0 h1 h3, h2.append h4⟩
    | @put n' _ _ _ ho ha =>
      obtain ⟨ts2, h3, h4⟩ := ih2 ha
      refine ⟨_, h3, .ignored ⟨n', n, ho, ?_⟩ h4⟩
      have := Spells.name hf hs .nil
      rwa [List.append_nil] at this

theorem Spec.Spells.append {es es' : List ElementVerbose} {s s' : Str} (h : Spells rs es s) (h' : Spells rs es' s') :
    Spells rs (es ++ es') (s ++ s') := by
  induction h with
  | nil => exact h'
  | terminal _ ih => rw [List.append_assoc]; exact .terminal ih
  | name hf hs _ _ ih => rw [List.append_assoc]; exact .name hf hs ih

theorem Spec.Spells.between_empty {j : Str} (hj : Spells rs [⟨j, .nonTerminal⟩] []) : ∀ {a : List ElementVerbose} {s : Str},
    Spells rs a s → Spells rs (between ⟨j, .nonTerminal⟩ a) s
  | [], _, h => h
  | [_], _, h => h
  | e :: y :: xs, s, h => by
    have key : ∀ {s1 s2}, Spells rs [e] s1 → Spells rs (y :: xs) s2 →
        Spells rs (between ⟨j, .nonTerminal⟩ (e :: y :: xs)) (s1 ++ s2) := by
      intro s1 s2 h1 h2
      have := h1.append (hj.append (Spells.between_empty hj h2))
      simpa [between] using this
    cases h with
    | @terminal b _ s h =>
      have := key (.terminal (b := b) .nil) h
      simpa using this
    | name hf hs h =>
      have := key (.name hf hs .nil) h
      simpa using this

/-- With overrides by names that can stand for nothing, texts without ignored text are still spelled. -/
theorem Spec.Tokens.spells (he : ∀ n j, overrideOf rs n = some j → Spells rs [⟨j, .nonTerminal⟩] []) {es : List ElementVerbose}
    {ts : List Str} (h : Tokens rs es ts) : Spells rs es ts.flatten := by
  induction h with
  | nil => exact .nil
  | terminal _ ih => exact .terminal ih
  | @name n a es ts ts' ha _ _ ih1 ih2 =>
    rw [List.flatten_append]
    by_cases ho : overrideOf rs n = none
    · exact .name (.plain ho ha) ih1 ih2
    · obtain ⟨j, hj⟩ := Option.ne_none_iff_exists'.1 ho
      by_cases hu : NameUsesStar rs j n
      · exact .name (.own hj hu ha) ih1 ih2
      · exact .name (.woven hj hu ha) (Spells.between_empty (he n j hj) ih1) ih2

theorem Spec.Separated.split (hJ : J []) : ∀ {ts ts' : List Str} {s : Str}, Separated J (ts ++ ts') s →
    ∃ s1 x s2, Separated J ts s1 ∧ J x ∧ Separated J ts' s2 ∧ s = s1 ++ x ++ s2
  | [], ts', s, h => ⟨[], [], s, .nil, hJ, h, rfl⟩
  | [t], [], s, h => ⟨s, [], [], h, hJ, .nil, by simp⟩
  | [t], t' :: ts', s, h => by
    cases h with
    | @cons _ x _ s hx _ h => exact ⟨t, x, s, .one t, hx, h, rfl⟩
  | t :: t1 :: ts, ts', s, h => by
    cases h with
    | @cons _ x _ s hx _ h =>
      obtain ⟨s1, y, s2, h1, h2, h3, rfl⟩ := Separated.split hJ (ts := t1 :: ts) h
      exact ⟨t ++ x ++ s1, y, s2, .cons hx (by simp) h1, h2, h3, by simp [List.append_assoc]⟩

/-- The elements of a sequence are terminals or names in `U`. -/
def InU (U : Str → Prop) (es : List ElementVerbose) : Prop := ∀ n, (⟨n, .nonTerminal⟩ : ElementVerbose) ∈ es → U n

theorem Spec.AllIgnore.spells {j : Str} {U : Str → Prop} (h : AllIgnore rs j U) (he : Spells rs [⟨j, .nonTerminal⟩] [])
    {es : List ElementVerbose} {ts : List Str} (ht : Tokens rs es ts) (hu : InU U es) :
    ∀ {s}, Separated (fun x => Spells rs [⟨j, .nonTerminal⟩] x) ts s → Spells rs (between ⟨j, .nonTerminal⟩ es) s := by
  induction ht with
  | nil => intro s hs; cases hs; exact .nil
  | @terminal b es ts ht ih =>
    intro s hs
    have hu' : InU U es := fun n hn => hu n (.tail _ hn)
    cases es with
    | nil =>
      cases ht
      have hb : s = b := by cases hs with
        | one => rfl
        | cons _ hne _ => exact absurd rfl hne
      subst hb
      have := Spells.terminal (b := s) (.nil (rs := rs))
      simpa [between] using this
    | cons y ys =>
      obtain ⟨s1, x, s2, h1, h2, h3, rfl⟩ := Separated.split (ts := [b]) he hs
      have hb : s1 = b := by cases h1 with
        | one => rfl
        | cons _ hne _ => exact absurd rfl hne
      subst hb
      have := ih hu' h3
      have := Spells.append (.terminal (b := s1) .nil) (h2.append this)
      simpa [between] using this
  | @name n a es ts ts' ha hta htes ih1 ih2 =>
    intro s hs
    have hun : U n := hu n (.head _)
    have hu' : InU U es := fun m hm => hu m (.tail _ hm)
    have hua : InU U a := fun m hm => h.closed n m hun ⟨a, ha, hm⟩
    have hf : FinalAlt rs n (between ⟨j, .nonTerminal⟩ a) := .woven (h.override n hun) (h.outside n hun) ha
    cases es with
    | nil =>
      cases htes
      rw [List.append_nil] at hs
      have := Spells.name hf (ih1 hua hs) .nil
      simpa [between] using this
    | cons y ys =>
      obtain ⟨s1, x, s2, h1, h2, h3, rfl⟩ := Separated.split he hs
      have := Spells.append (.name hf (ih1 hua h1) .nil) (h2.append (ih2 hu' h3))
      simpa [between] using this

end HPP
