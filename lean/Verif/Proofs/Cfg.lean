import Verif.Spec.Cfg
/-
Lemmas about derivations.
-/
namespace HPP.Spec
open Relation
variable {G : Grammar}

theorem Step.append_left (x : Form) {u v : Form} (h : Step G u v) : Step G (x ++ u) (x ++ v) := by
  cases h with
  | mk a b hr =>
    have := Step.mk (G := G) (x ++ a) b hr
    simpa [List.append_assoc] using this

theorem Step.append_right (x : Form) {u v : Form} (h : Step G u v) : Step G (u ++ x) (v ++ x) := by
  cases h with
  | mk a b hr =>
    have := Step.mk (G := G) a (b ++ x) hr
    simpa [List.append_assoc] using this

theorem Derives.append_left (x : Form) {u v : Form} (h : Derives G u v) :
    Derives G (x ++ u) (x ++ v) :=
  ReflTransGen.lift (x ++ ·) (fun _ _ => Step.append_left x) _ _ h

theorem Derives.append_right (x : Form) {u v : Form} (h : Derives G u v) :
    Derives G (u ++ x) (v ++ x) :=
  ReflTransGen.lift (· ++ x) (fun _ _ => Step.append_right x) _ _ h

theorem Derives.append {u u' v v' : Form} (h : Derives G u u') (h' : Derives G v v') :
    Derives G (u ++ v) (u' ++ v') :=
  (h.append_right v).trans (h'.append_left u')

theorem Derives.of_rule {A : Nat} {w : Form} (h : G A w) : Derives G [.nt A] w := by
  have := Step.mk (G := G) [] [] h
  exact ReflTransGen.single (by simpa using this)

/-- A step in a concatenation happens in one of the parts. -/
theorem Step.append_inv {u v w : Form} (h : Step G (u ++ v) w) :
    (∃ u', Step G u u' ∧ w = u' ++ v) ∨ (∃ v', Step G v v' ∧ w = u ++ v') := by
  generalize hx : u ++ v = x at h
  cases h with
  | mk a b hr =>
    rename_i A r
    rcases List.append_eq_append_iff.mp hx with ⟨c, hc1, hc2⟩ | ⟨c, hc1, hc2⟩
    · right
      subst hc1
      refine ⟨c ++ r ++ b, ?_, by simp⟩
      rw [hc2]; exact Step.mk c b hr
    · cases c with
      | nil =>
        right
        simp only [List.append_nil] at hc1
        simp only [List.nil_append] at hc2
        subst hc1
        refine ⟨r ++ b, ?_, by simp⟩
        rw [← hc2]; simpa using Step.mk (G := G) [] b hr
      | cons s c =>
        left
        simp only [List.cons_append, List.cons.injEq] at hc2
        obtain ⟨rfl, rfl⟩ := hc2
        subst hc1
        exact ⟨a ++ r ++ c, Step.mk a c hr, by simp⟩

theorem Derives.append_inv {u v w : Form} (h : Derives G (u ++ v) w) :
    ∃ u' v', w = u' ++ v' ∧ Derives G u u' ∧ Derives G v v' := by
  generalize hx : u ++ v = x at h
  induction h with
  | refl => exact ⟨u, v, hx.symm, .refl, .refl⟩
  | tail _ hs ih =>
    obtain ⟨u', v', rfl, hu, hv⟩ := ih
    rcases hs.append_inv with ⟨u'', h1, rfl⟩ | ⟨v'', h1, rfl⟩
    · exact ⟨_, _, rfl, hu.tail h1, hv⟩
    · exact ⟨_, _, rfl, hu, hv.tail h1⟩

theorem Step.not_nil {w : Form} : ¬ Step G [] w := by
  intro h
  generalize hx : ([] : Form) = x at h
  cases h with
  | mk a b _ => simp at hx

theorem Step.ofText_inv {s : Str} {w : Form} : ¬ Step G (ofText s) w := by
  intro h
  generalize hx : ofText s = x at h
  cases h with
  | mk a b _ =>
    rename_i A _ _
    have : Sym.nt A ∈ ofText s := by rw [hx]; simp
    simp [ofText] at this

theorem Derives.ofText_inv {s : Str} {w : Form} (h : Derives G (ofText s) w) : w = ofText s := by
  rcases ReflTransGen.cases_head h with h | ⟨_, h, _⟩
  · exact h.symm
  · exact absurd h Step.ofText_inv

theorem Derives.nil_inv {w : Form} (h : Derives G [] w) : w = [] := Derives.ofText_inv (s := []) h

theorem Derives.ch_inv {c : Char} {w : Form} (h : Derives G [.ch c] w) : w = [.ch c] :=
  Derives.ofText_inv (s := [c]) h

theorem Step.nt_inv {A : Nat} {w : Form} (h : Step G [.nt A] w) : G A w := by
  generalize hx : [Sym.nt A] = x at h
  cases h with
  | mk a b hr =>
    cases a with
    | nil =>
      simp only [List.nil_append, List.cons.injEq, Sym.nt.injEq] at hx
      obtain ⟨rfl, rfl⟩ := hx
      simpa using hr
    | cons s a => simp at hx

theorem Derives.nt_inv {A : Nat} {w : Form} (h : Derives G [.nt A] w) :
    w = [.nt A] ∨ ∃ r, G A r ∧ Derives G r w := by
  rcases ReflTransGen.cases_head h with h | ⟨r, h1, h2⟩
  · exact .inl h.symm
  · exact .inr ⟨r, h1.nt_inv, h2⟩

theorem derivesPlus_nt_iff {A : Nat} {w : Form} :
    DerivesPlus G [.nt A] w ↔ ∃ r, G A r ∧ Derives G r w := by
  constructor
  · intro h
    obtain ⟨r, h1, h2⟩ := TransGen.head'_iff.mp h
    exact ⟨r, h1.nt_inv, h2⟩
  · rintro ⟨r, h1, h2⟩
    refine TransGen.head'_iff.mpr ⟨r, ?_, h2⟩
    simpa using Step.mk (G := G) [] [] h1

/-! ### Nullable -/

theorem nullable_nil : Nullable G [] := .refl

theorem nullable_append {u v : Form} : Nullable G (u ++ v) ↔ Nullable G u ∧ Nullable G v := by
  constructor
  · intro h
    obtain ⟨u', v', he, hu, hv⟩ := Derives.append_inv h
    obtain ⟨rfl, rfl⟩ := List.append_eq_nil_iff.mp he.symm
    exact ⟨hu, hv⟩
  · rintro ⟨hu, hv⟩
    exact Derives.append hu hv

theorem nullable_cons {x : Sym} {v : Form} : Nullable G (x :: v) ↔ Nullable G [x] ∧ Nullable G v :=
  nullable_append (u := [x])

theorem nullable_ofText {s : Str} : Nullable G (ofText s) ↔ s = [] := by
  constructor
  · intro h
    have := Derives.ofText_inv h
    simpa [ofText] using this.symm
  · rintro rfl; exact .refl

theorem not_nullable_ch {c : Char} : ¬ Nullable G [.ch c] := by
  intro h; simpa using Derives.ch_inv h

theorem nullable_nt {A : Nat} : Nullable G [.nt A] ↔ ∃ r, G A r ∧ Nullable G r := by
  constructor
  · intro h
    rcases Derives.nt_inv h with h | h
    · simp at h
    · exact h
  · rintro ⟨r, h1, h2⟩
    exact (Derives.of_rule h1).trans h2

/-! ### FIRST -/

theorem not_firstChar_nil {c : Char} : ¬ FirstChar G [] c := by
  rintro ⟨v, h⟩; simpa using Derives.nil_inv h

theorem firstChar_append {u v : Form} {c : Char} :
    FirstChar G (u ++ v) c ↔ FirstChar G u c ∨ (Nullable G u ∧ FirstChar G v c) := by
  constructor
  · rintro ⟨w, h⟩
    obtain ⟨u', v', he, hu, hv⟩ := Derives.append_inv h
    cases u' with
    | nil => exact .inr ⟨hu, w, by rw [he]; exact hv⟩
    | cons s u' =>
      simp only [List.cons_append, List.cons.injEq] at he
      obtain ⟨rfl, rfl⟩ := he
      exact .inl ⟨u', hu⟩
  · rintro (⟨w, h⟩ | ⟨hu, w, hv⟩)
    · exact ⟨w ++ v, h.append_right v⟩
    · exact ⟨w, Derives.append hu hv⟩

theorem firstChar_cons {x : Sym} {v : Form} {c : Char} :
    FirstChar G (x :: v) c ↔ FirstChar G [x] c ∨ (Nullable G [x] ∧ FirstChar G v c) :=
  firstChar_append (u := [x])

theorem firstChar_ofText {s : Str} {c : Char} : FirstChar G (ofText s) c ↔ s.head? = some c := by
  constructor
  · rintro ⟨v, h⟩
    have h := Derives.ofText_inv h
    cases s with
    | nil => simp [ofText] at h
    | cons a s => simp [ofText] at h; simp [h.1]
  · intro h
    cases s with
    | nil => simp at h
    | cons a s =>
      simp at h; subst h
      exact ⟨ofText s, .refl⟩

theorem firstChar_ch {a c : Char} : FirstChar G [.ch a] c ↔ a = c := by
  have := firstChar_ofText (G := G) (s := [a]) (c := c)
  simpa [ofText] using this

theorem firstChar_nt {A : Nat} {c : Char} : FirstChar G [.nt A] c ↔ ∃ r, G A r ∧ FirstChar G r c := by
  constructor
  · rintro ⟨v, h⟩
    rcases Derives.nt_inv h with h | ⟨r, h1, h2⟩
    · simp at h
    · exact ⟨r, h1, v, h2⟩
  · rintro ⟨r, h1, v, h2⟩
    exact ⟨v, (Derives.of_rule h1).trans h2⟩

/-! ### Left corners -/

/-- `B` is a direct left corner of `A`: an alternative of `A` has `B` after a nullable beginning. -/
def LeftCorner (G : Grammar) (A B : Nat) : Prop :=
  ∃ u v, G A (u ++ .nt B :: v) ∧ Nullable G u

theorem derives_head_nt {u : Form} {B : Nat} {v : Form} (h : Derives G u (.nt B :: v)) :
    ∃ a x b w, u = a ++ x :: b ∧ Nullable G a ∧ Derives G [x] (.nt B :: w) := by
  induction u generalizing v with
  | nil => simpa using Derives.nil_inv h
  | cons s u ih =>
    obtain ⟨u', v', he, hu, hv⟩ := Derives.append_inv (u := [s]) h
    cases u' with
    | nil =>
      simp only [List.nil_append] at he
      subst he
      obtain ⟨a, x, b, w, rfl, ha, hx⟩ := ih hv
      exact ⟨s :: a, x, b, w, rfl, nullable_cons.mpr ⟨hu, ha⟩, hx⟩
    | cons t u' =>
      simp only [List.cons_append, List.cons.injEq] at he
      obtain ⟨rfl, rfl⟩ := he
      exact ⟨[], s, u, u', rfl, nullable_nil, hu⟩

/-- Number-of-steps version of `Derives`, for inductions on length. -/
inductive DerivesN (G : Grammar) : Nat → Form → Form → Prop where
  | refl (u : Form) : DerivesN G 0 u u
  | head {n : Nat} {u v w : Form} : Step G u v → DerivesN G n v w → DerivesN G (n + 1) u w

theorem Derives.toN {u v : Form} (h : Derives G u v) : ∃ n, DerivesN G n u v := by
  induction h using ReflTransGen.head_induction_on with
  | refl => exact ⟨0, .refl _⟩
  | head hs _ ih =>
    obtain ⟨n, hn⟩ := ih
    exact ⟨n + 1, .head hs hn⟩

theorem DerivesN.toDerives {n : Nat} {u v : Form} (h : DerivesN G n u v) : Derives G u v := by
  induction h with
  | refl => exact .refl
  | head hs _ ih => exact ReflTransGen.head hs ih

theorem DerivesN.append_inv {n : Nat} {u v w : Form} (h : DerivesN G n (u ++ v) w) :
    ∃ n1 n2 u' v', n = n1 + n2 ∧ w = u' ++ v' ∧ DerivesN G n1 u u' ∧ DerivesN G n2 v v' := by
  generalize hx : u ++ v = x at h
  induction h generalizing u v with
  | refl => exact ⟨0, 0, u, v, rfl, hx.symm, .refl _, .refl _⟩
  | head hs _ ih =>
    subst hx
    rcases hs.append_inv with ⟨u'', h1, rfl⟩ | ⟨v'', h1, rfl⟩
    · obtain ⟨n1, n2, u', v', rfl, rfl, hu, hv⟩ := ih rfl
      exact ⟨n1 + 1, n2, u', v', by omega, rfl, .head h1 hu, hv⟩
    · obtain ⟨n1, n2, u', v', rfl, rfl, hu, hv⟩ := ih rfl
      exact ⟨n1, n2 + 1, u', v', by omega, rfl, hu, .head h1 hv⟩

theorem DerivesN.head_nt {n : Nat} {u : Form} {B : Nat} {v : Form} (h : DerivesN G n u (.nt B :: v)) :
    ∃ a x b w m, u = a ++ x :: b ∧ Nullable G a ∧ m ≤ n ∧ DerivesN G m [x] (.nt B :: w) := by
  induction u generalizing v n with
  | nil => simpa using Derives.nil_inv h.toDerives
  | cons s u ih =>
    obtain ⟨n1, n2, u', v', rfl, he, hu, hv⟩ := DerivesN.append_inv (u := [s]) h
    cases u' with
    | nil =>
      simp only [List.nil_append] at he
      subst he
      obtain ⟨a, x, b, w, m, rfl, ha, hm, hx⟩ := ih hv
      exact ⟨s :: a, x, b, w, m, rfl, nullable_cons.mpr ⟨hu.toDerives, ha⟩, by omega, hx⟩
    | cons t u' =>
      simp only [List.cons_append, List.cons.injEq] at he
      obtain ⟨rfl, rfl⟩ := he
      exact ⟨[], s, u, u', n1, rfl, nullable_nil, by omega, hu⟩

theorem leftCorner_derives {A B : Nat} (h : LeftCorner G A B) :
    ∃ v, DerivesPlus G [.nt A] (.nt B :: v) := by
  obtain ⟨u, v, h1, h2⟩ := h
  exact ⟨v, derivesPlus_nt_iff.mpr ⟨_, h1, by simpa using Derives.append_right (.nt B :: v) h2⟩⟩

theorem transGen_leftCorner_derives {A B : Nat} (h : TransGen (LeftCorner G) A B) :
    ∃ v, DerivesPlus G [.nt A] (.nt B :: v) := by
  induction h with
  | single h => exact leftCorner_derives h
  | tail _ h2 ih =>
    obtain ⟨v, hv⟩ := ih
    obtain ⟨w, hw⟩ := leftCorner_derives h2
    refine ⟨w ++ v, hv.trans ?_⟩
    have := TransGen.lift (· ++ v) (fun _ _ => Step.append_right (G := G) v) _ _ hw
    simpa [Function.onFun] using this

theorem derivesN_leftCorner {n : Nat} : ∀ {A B : Nat} {v : Form}, DerivesN G n [.nt A] (.nt B :: v) →
    A = B ∨ TransGen (LeftCorner G) A B := by
  induction n using Nat.strongRecOn with
  | _ n ih =>
    intro A B v h
    cases h with
    | refl => exact .inl rfl
    | head hs hr =>
      rename_i n r
      right
      have hG := hs.nt_inv
      obtain ⟨a, x, b, w, m, rfl, ha, hm, hx⟩ := hr.head_nt
      cases x with
      | ch c => simpa using Derives.ch_inv hx.toDerives
      | nt C =>
        have hlc : LeftCorner G A C := ⟨a, b, hG, ha⟩
        rcases ih m (by omega) hx with rfl | h
        · exact .single hlc
        · exact TransGen.head hlc h

/-- Left recursion in terms of derivations and in terms of left corners. -/
theorem leftRecursive_iff {A : Nat} : LeftRecursive G A ↔ TransGen (LeftCorner G) A A := by
  constructor
  · rintro ⟨v, h⟩
    obtain ⟨r, h1, h2⟩ := derivesPlus_nt_iff.mp h
    obtain ⟨n, hn⟩ := Derives.toN h2
    obtain ⟨a, x, b, w, m, rfl, ha, hm, hx⟩ := hn.head_nt
    cases x with
    | ch c => simpa using Derives.ch_inv hx.toDerives
    | nt C =>
      have hlc : LeftCorner G A C := ⟨a, b, h1, ha⟩
      rcases derivesN_leftCorner hx with rfl | h
      · exact .single hlc
      · exact TransGen.head hlc h
  · intro h
    exact transGen_leftCorner_derives h

end HPP.Spec
