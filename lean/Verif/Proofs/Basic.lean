import Verif.Model.Basic
/-
Lemmas about the hash containers and outcomes.
-/
namespace HPP

namespace Res

instance {ε : Type} : LawfulMonad (Res ε) := LawfulMonad.mk'
  (id_map := by intro α x; cases x <;> rfl)
  (pure_bind := by intros; rfl)
  (bind_assoc := by intro α β γ x f g; cases x <;> rfl)
variable {ε ε' α β : Type}

theorem bind_eq_ok {r : Res ε α} {f : α → Res ε β} {b : β} :
    (r >>= f) = .ok b ↔ ∃ a, r = .ok a ∧ f a = .ok b := by
  cases r <;> simp

theorem bind_eq_timeout {r : Res ε α} {f : α → Res ε β} :
    (r >>= f) = .timeout ↔ r = .timeout ∨ ∃ a, r = .ok a ∧ f a = .timeout := by
  cases r <;> simp

theorem bind_eq_panic {r : Res ε α} {f : α → Res ε β} :
    (r >>= f) = .panic ↔ r = .panic ∨ ∃ a, r = .ok a ∧ f a = .panic := by
  cases r <;> simp

theorem bind_eq_err {r : Res ε α} {f : α → Res ε β} {e : ε} :
    (r >>= f) = .err e ↔ r = .err e ∨ ∃ a, r = .ok a ∧ f a = .err e := by
  cases r <;> simp

theorem ofOption_eq_ok {o : Option α} {e : ε} {a : α} : ofOption o e = .ok a ↔ o = some a := by
  cases o <;> simp [ofOption]

theorem unwrapO_eq_ok {o : Option α} {a : α} : (unwrapO o : Res ε α) = .ok a ↔ o = some a := by
  cases o <;> simp [unwrapO]

theorem unwrap_eq_ok {r : Res ε α} {a : α} : (unwrap r : Res ε' α) = .ok a ↔ r = .ok a := by
  cases r <;> simp [unwrap]

@[simp] theorem ofOption_some (a : α) (e : ε) : ofOption (some a) e = .ok a := rfl
@[simp] theorem ofOption_none (e : ε) : (ofOption none e : Res ε α) = .err e := rfl
@[simp] theorem unwrapO_some (a : α) : (unwrapO (some a) : Res ε α) = .ok a := rfl
@[simp] theorem unwrapO_none : (unwrapO none : Res ε α) = .panic := rfl
@[simp] theorem unwrap_ok (a : α) : (unwrap (.ok a : Res ε α) : Res ε' α) = .ok a := rfl

theorem ofOption_ne_timeout {o : Option α} {e : ε} : ofOption o e ≠ .timeout := by
  cases o <;> simp [ofOption]

theorem unwrapO_ne_timeout {o : Option α} : (unwrapO o : Res ε α) ≠ .timeout := by
  cases o <;> simp [unwrapO]

end Res

namespace AMap
variable {κ ν : Type} [DecidableEq κ]

@[simp] theorem get_nil (q : κ) : get ([] : AMap κ ν) q = none := rfl

theorem get_cons (k : κ) (v : ν) (m : AMap κ ν) (q : κ) :
    get ((k, v) :: m) q = if k = q then some v else get m q := rfl

theorem get_insert (m : AMap κ ν) (k : κ) (v : ν) (q : κ) :
    get (insert m k v) q = if k = q then some v else get m q := by
  induction m with
  | nil => simp [insert, get]
  | cons p m ih =>
    obtain ⟨k', v'⟩ := p
    by_cases h : k' = k
    · subst h; simp [insert, get]; split <;> simp_all
    · simp only [insert, h, if_false, get, ih]
      by_cases h2 : k' = q
      · subst h2; simp [Ne.symm h]
      · simp [h2]

@[simp] theorem get_insert_self (m : AMap κ ν) (k : κ) (v : ν) : get (insert m k v) k = some v := by
  simp [get_insert]

theorem get_insert_ne (m : AMap κ ν) {k q : κ} (v : ν) (h : k ≠ q) :
    get (insert m k v) q = get m q := by
  simp [get_insert, h]

/-- No key occurs twice. -/
def NodupKeys (m : AMap κ ν) : Prop := (keys m).Nodup

theorem mem_keys_iff {m : AMap κ ν} {k : κ} : k ∈ keys m ↔ ∃ v, get m k = some v := by
  induction m with
  | nil => simp [keys]
  | cons p m ih =>
    obtain ⟨k', v'⟩ := p
    have ih' : k ∈ m.map (·.1) ↔ ∃ v, get m k = some v := ih
    by_cases h : k' = k
    · subst h; simp [keys, get]
    · simp only [keys, List.map_cons, List.mem_cons, Ne.symm h, false_or, get, h, if_false]
      exact ih'

theorem get_eq_none_iff {m : AMap κ ν} {k : κ} : get m k = none ↔ k ∉ keys m := by
  rw [mem_keys_iff]
  cases get m k <;> simp

theorem mem_of_get {m : AMap κ ν} {k : κ} {v : ν} (h : get m k = some v) : (k, v) ∈ m := by
  induction m with
  | nil => simp at h
  | cons p m ih =>
    obtain ⟨k', v'⟩ := p
    by_cases hk : k' = k
    · subst hk; simp [get] at h; simp [h]
    · simp only [get, hk, if_false] at h
      exact List.mem_cons_of_mem _ (ih h)

theorem get_of_mem {m : AMap κ ν} (hn : NodupKeys m) {k : κ} {v : ν} (h : (k, v) ∈ m) :
    get m k = some v := by
  induction m with
  | nil => simp at h
  | cons p m ih =>
    obtain ⟨k', v'⟩ := p
    simp only [NodupKeys, keys, List.map_cons, List.nodup_cons] at hn
    rcases List.mem_cons.mp h with h | h
    · cases h; simp [get]
    · have hk : k' ≠ k := by
        rintro rfl
        exact hn.1 (List.mem_map.mpr ⟨_, h, rfl⟩)
      simp only [get, hk, if_false]
      exact ih hn.2 h

theorem get_eq_some_iff {m : AMap κ ν} (hn : NodupKeys m) {k : κ} {v : ν} :
    get m k = some v ↔ (k, v) ∈ m := ⟨mem_of_get, get_of_mem hn⟩

theorem mem_keys_insert {m : AMap κ ν} {k q : κ} {v : ν} :
    q ∈ keys (insert m k v) ↔ q = k ∨ q ∈ keys m := by
  rw [mem_keys_iff, mem_keys_iff, ]
  by_cases h : k = q
  · subst h; simp
  · simp [get_insert_ne m v h, Ne.symm h]

theorem keys_insert_of_mem {m : AMap κ ν} {k : κ} {v : ν} (h : k ∈ keys m) :
    keys (insert m k v) = keys m := by
  induction m with
  | nil => simp [keys] at h
  | cons p m ih =>
    obtain ⟨k', v'⟩ := p
    by_cases hk : k' = k
    · subst hk; simp [insert, keys]
    · have h' : k ∈ keys m := by
        simp only [keys, List.map_cons, List.mem_cons] at h
        rcases h with h | h
        · exact absurd h.symm hk
        · exact h
      have := ih h'
      simp only [keys] at this
      simp [insert, hk, keys, this]

theorem keys_insert_of_not_mem {m : AMap κ ν} {k : κ} {v : ν} (h : k ∉ keys m) :
    insert m k v = m ++ [(k, v)] := by
  induction m with
  | nil => rfl
  | cons p m ih =>
    obtain ⟨k', v'⟩ := p
    simp only [keys, List.map_cons, List.mem_cons, not_or] at h
    simp only [insert, Ne.symm h.1, if_false, List.cons_append]
    rw [ih h.2]

theorem NodupKeys.insert {m : AMap κ ν} (hn : NodupKeys m) (k : κ) (v : ν) :
    NodupKeys (insert m k v) := by
  by_cases h : k ∈ keys m
  · simp only [NodupKeys, keys_insert_of_mem h]; exact hn
  · simp only [NodupKeys, keys_insert_of_not_mem h, keys, List.map_append, List.map_cons,
      List.map_nil]
    rw [List.nodup_append]
    refine ⟨hn, by simp, ?_⟩
    intro a ha b hb
    simp at hb
    subst hb
    rintro rfl
    exact h ha

omit [DecidableEq κ] in
theorem NodupKeys.nil : NodupKeys ([] : AMap κ ν) := by simp [NodupKeys, keys]

omit [DecidableEq κ] in
theorem NodupKeys.perm {m m' : AMap κ ν} (hn : NodupKeys m) (h : m'.Perm m) : NodupKeys m' :=
  (h.map _).nodup_iff.mpr hn

theorem get_perm {m m' : AMap κ ν} (hn : NodupKeys m) (h : m'.Perm m) (k : κ) :
    get m' k = get m k := by
  have hn' := hn.perm h
  apply Option.ext
  intro v
  rw [get_eq_some_iff hn', get_eq_some_iff hn, h.mem_iff]

end AMap

section sets
variable {α : Type} [DecidableEq α]

@[simp] theorem mem_setInsert {s : List α} {x y : α} : y ∈ setInsert s x ↔ y = x ∨ y ∈ s := by
  unfold setInsert
  split
  · constructor
    · exact Or.inr
    · rintro (rfl | h)
      · assumption
      · exact h
  · simp [or_comm]

@[simp] theorem mem_setExtend {s xs : List α} {y : α} : y ∈ setExtend s xs ↔ y ∈ s ∨ y ∈ xs := by
  induction xs generalizing s with
  | nil => simp [setExtend]
  | cons x xs ih =>
    simp only [setExtend, List.foldl_cons] at ih ⊢
    rw [ih]
    simp only [mem_setInsert, List.mem_cons]
    constructor
    · rintro ((h | h) | h) <;> simp [h]
    · rintro (h | h | h) <;> simp [h]

@[simp] theorem mem_setRemove {s : List α} {x y : α} : y ∈ setRemove s x ↔ y ∈ s ∧ y ≠ x := by
  simp [setRemove]

theorem nodup_setInsert {s : List α} (h : s.Nodup) (x : α) : (setInsert s x).Nodup := by
  unfold setInsert
  split
  · exact h
  · rw [List.nodup_append]
    refine ⟨h, by simp, ?_⟩
    intro a ha b hb
    simp at hb
    subst hb
    rintro rfl
    contradiction

theorem nodup_setExtend {s : List α} (h : s.Nodup) (xs : List α) : (setExtend s xs).Nodup := by
  induction xs generalizing s with
  | nil => exact h
  | cons x xs ih => exact ih (nodup_setInsert h x)

theorem nodup_setRemove {s : List α} (h : s.Nodup) (x : α) : (setRemove s x).Nodup :=
  h.filter _

end sets

end HPP
