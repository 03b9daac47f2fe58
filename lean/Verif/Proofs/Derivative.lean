import Verif.Proofs.Basic
import Verif.Spec.Edit
import Verif.Spec.Grammar
import Verif.Model.RuleParsing
/-
The derivative check is a depth-first search.
-/
namespace HPP
open Spec
variable {I : Type}

/-- `vis'` extends `vis` by nodes whose successors have all been looked at without finding `right`. -/
def Closed (types : List ElementType) (rules : AMap Nat (NTRule I)) (right : Nat) (vis vis' : List Nat) : Prop :=
  ∀ x ∈ vis', x ∈ vis ∨ (x ≠ right ∧ ∀ e, Uses rules x e → e ≠ right ∧ (types[e]? = some .terminal ∨ e ∈ vis'))

/-- What a call of the worker guarantees. -/
structure DerivOk (types : List ElementType) (rules : AMap Nat (NTRule I)) (right left : Nat) (vis : List Nat)
    (out : Res PErr (Bool × List Nat)) : Prop where
  noPanic : out ≠ .panic
  yes : ∀ vis', out = .ok (true, vis') → UsesStar rules left right ∧ vis ⊆ vis'
  no : ∀ vis', out = .ok (false, vis') → vis ⊆ vis' ∧ (types[left]? = some .terminal ∨ (left ≠ right ∧ left ∈ vis')) ∧
    Closed types rules right vis vis'
  bad : ∀ e, out = .err e → ∃ B, UsesStar rules left B ∧ types[B]? = some .nonTerminal ∧ AMap.get rules B = none

theorem Closed.trans {types : List ElementType} {rules : AMap Nat (NTRule I)} {right : Nat} {a b c : List Nat}
    (h1 : Closed types rules right a b) (h2 : Closed types rules right b c) (hbc : b ⊆ c) :
    Closed types rules right a c := by
  intro x hx
  rcases h2 x hx with h | h
  · rcases h1 x h with h | ⟨h, h'⟩
    · exact .inl h
    · refine .inr ⟨h, fun e he => ?_⟩
      obtain ⟨e1, e2⟩ := h' e he
      exact ⟨e1, e2.imp id (fun h => hbc h)⟩
  · exact .inr h

/-- The loop over the elements of a production of `A`. -/
theorem derivElems_spec {types : List ElementType} {rules : AMap Nat (NTRule I)} {right A : Nat} {rec : DerivRec}
    (els : List Nat) (hu : ∀ e ∈ els, Uses rules A e) (hr : ∀ e ∈ els, ∀ vis, DerivOk types rules right e vis (rec e vis)) :
    ∀ (d : Bool) (vis : List Nat), (d = true → UsesStar rules A right) →
    derivElems rec right els d vis ≠ .panic ∧
    (∀ vis', derivElems rec right els d vis = .ok (none, vis') → UsesStar rules A right ∧ vis ⊆ vis') ∧
    (∀ vis', derivElems rec right els d vis = .ok (some true, vis') → UsesStar rules A right ∧ vis ⊆ vis') ∧
    (∀ vis', derivElems rec right els d vis = .ok (some false, vis') → d = false ∧ vis ⊆ vis' ∧
      Closed types rules right vis vis' ∧ ∀ e ∈ els, e ≠ right ∧ (types[e]? = some .terminal ∨ e ∈ vis')) ∧
    (∀ e, derivElems rec right els d vis = .err e → ∃ B, UsesStar rules A B ∧ types[B]? = some .nonTerminal ∧
      AMap.get rules B = none) := by
  induction els with
  | nil =>
    intro d vis hd
    refine ⟨by simp [derivElems], ?_, ?_, ?_, ?_⟩ <;> intro vis' h <;> simp only [derivElems] at h
    · cases h
    · cases h; exact ⟨hd rfl, fun _ h => h⟩
    · cases h
      exact ⟨rfl, fun _ h => h, fun x hx => .inl hx, by simp⟩
    · cases h
  | cons el els ih =>
    have ih := ih (fun e he => hu e (by simp [he])) (fun e he => hr e (by simp [he]))
    have hel := hu el (by simp)
    intro d vis hd
    unfold derivElems
    by_cases h1 : el = right
    · rw [if_pos h1]
      subst h1
      refine ⟨by simp, ?_, ?_, ?_, ?_⟩
      · intro vis' h; cases h; exact ⟨.single hel, fun _ h => h⟩
      · intro vis' h; cases h
      · intro vis' h; cases h
      · intro vis' h; cases h
    · rw [if_neg h1]
      cases d with
      | true =>
        rw [if_pos rfl]
        obtain ⟨i0, i1, i2, i3, i4⟩ := ih true vis (fun _ => hd rfl)
        refine ⟨i0, i1, i2, ?_, i4⟩
        intro vis' h
        exact absurd (i3 vis' h).1 (by simp)
      | false =>
        rw [if_neg (by simp)]
        have ho := hr el (by simp) vis
        cases hrec : rec el vis with
        | panic => exact absurd hrec ho.noPanic
        | timeout =>
          simp only [Res.bind_timeout]
          refine ⟨by simp, ?_, ?_, ?_, ?_⟩ <;> intro _ h <;> cases h
        | err e =>
          simp only [Res.bind_err]
          refine ⟨by simp, ?_, ?_, ?_, ?_⟩
          · intro _ h; cases h
          · intro _ h; cases h
          · intro _ h; cases h
          · intro e' h
            obtain ⟨B, hB, hB'⟩ := ho.bad e hrec
            exact ⟨B, Relation.ReflTransGen.head hel hB, hB'⟩
        | ok p =>
          obtain ⟨b, vis1⟩ := p
          simp only [Res.bind_ok]
          have hsub : vis ⊆ vis1 := by
            cases b with
            | true => exact (ho.yes vis1 hrec).2
            | false => exact (ho.no vis1 hrec).1
          have hb : b = true → UsesStar rules A right := by
            rintro rfl
            exact Relation.ReflTransGen.head hel (ho.yes vis1 hrec).1
          obtain ⟨i0, i1, i2, i3, i4⟩ := ih b vis1 hb
          refine ⟨i0, ?_, ?_, ?_, i4⟩
          · intro vis' h; exact ⟨(i1 vis' h).1, fun x hx => (i1 vis' h).2 (hsub hx)⟩
          · intro vis' h; exact ⟨(i2 vis' h).1, fun x hx => (i2 vis' h).2 (hsub hx)⟩
          · intro vis' h
            obtain ⟨rfl, k2, k3, k4⟩ := i3 vis' h
            obtain ⟨n1, n2, n3⟩ := ho.no vis1 hrec
            refine ⟨by simp, fun x hx => k2 (hsub hx), n3.trans k3 k2, ?_⟩
            intro e he
            rcases List.mem_cons.1 he with rfl | he
            · exact ⟨h1, n2.imp id (fun h => k2 h.2)⟩
            · exact k4 e he

/-- The loop over the productions of `A`. -/
theorem derivProds_spec {types : List ElementType} {rules : AMap Nat (NTRule I)} {right A : Nat} {rec : DerivRec}
    (ps : List Production) (hu : ∀ p ∈ ps, ∀ e ∈ prodElems p, Uses rules A e)
    (hr : ∀ p ∈ ps, ∀ e ∈ prodElems p, ∀ vis, DerivOk types rules right e vis (rec e vis)) :
    ∀ (d : Bool) (vis : List Nat), (d = true → UsesStar rules A right) →
    derivProds rec right ps d vis ≠ .panic ∧
    (∀ vis', derivProds rec right ps d vis = .ok (true, vis') → UsesStar rules A right ∧ vis ⊆ vis') ∧
    (∀ vis', derivProds rec right ps d vis = .ok (false, vis') → d = false ∧ vis ⊆ vis' ∧
      Closed types rules right vis vis' ∧
      ∀ p ∈ ps, ∀ e ∈ prodElems p, e ≠ right ∧ (types[e]? = some .terminal ∨ e ∈ vis')) ∧
    (∀ e, derivProds rec right ps d vis = .err e → ∃ B, UsesStar rules A B ∧ types[B]? = some .nonTerminal ∧
      AMap.get rules B = none) := by
  induction ps with
  | nil =>
    intro d vis hd
    refine ⟨by simp [derivProds], ?_, ?_, ?_⟩ <;> intro vis' h <;> simp only [derivProds] at h
    · cases h; exact ⟨hd rfl, fun _ h => h⟩
    · cases h; exact ⟨rfl, fun _ h => h, fun x hx => .inl hx, by simp⟩
    · cases h
  | cons p ps ih =>
    have ih := ih (fun p hp => hu p (by simp [hp])) (fun p hp => hr p (by simp [hp]))
    intro d vis hd
    cases p with
    | empty =>
      simp only [derivProds]
      obtain ⟨i0, i1, i2, i3⟩ := ih d vis hd
      refine ⟨i0, i1, ?_, i3⟩
      intro vis' h
      obtain ⟨k1, k2, k3, k4⟩ := i2 vis' h
      refine ⟨k1, k2, k3, ?_⟩
      intro p hp e he
      rcases List.mem_cons.1 hp with rfl | hp
      · simp [prodElems] at he
      · exact k4 p hp e he
    | notEmpty els =>
      simp only [derivProds]
      have he := derivElems_spec (types := types) (rules := rules) (right := right) (A := A) (rec := rec) els
        (hu (.notEmpty els) (by simp)) (hr (.notEmpty els) (by simp)) d vis hd
      generalize derivElems rec right els d vis = o at he
      obtain ⟨e0, e1, e2, e3, e4⟩ := he
      cases o with
      | panic => exact absurd rfl e0
      | timeout => simp only [Res.bind_timeout]; refine ⟨by simp, ?_, ?_, ?_⟩ <;> intro _ h <;> cases h
      | err er =>
        simp only [Res.bind_err]
        refine ⟨by simp, ?_, ?_, ?_⟩
        · intro _ h; cases h
        · intro _ h; cases h
        · intro e' _; exact e4 er rfl
      | ok q =>
        obtain ⟨r, vis1⟩ := q
        simp only [Res.bind_ok]
        cases r with
        | none =>
          obtain ⟨a1, a2⟩ := e1 vis1 rfl
          refine ⟨by simp, ?_, ?_, ?_⟩
          · intro vis' h
            cases h
            exact ⟨a1, a2⟩
          · intro vis' h; cases h
          · intro e' h; cases h
        | some b =>
          have hsub : vis ⊆ vis1 := by
            cases b with
            | true => exact (e2 vis1 rfl).2
            | false => exact (e3 vis1 rfl).2.1
          obtain ⟨i0, i1, i2, i3⟩ := ih b vis1 (by rintro rfl; exact (e2 vis1 rfl).1)
          refine ⟨i0, ?_, ?_, i3⟩
          · intro vis' h; exact ⟨(i1 vis' h).1, fun x hx => (i1 vis' h).2 (hsub hx)⟩
          · intro vis' h
            obtain ⟨rfl, k2, k3, k4⟩ := i2 vis' h
            obtain ⟨d1, d2, d3, d4⟩ := e3 vis1 rfl
            refine ⟨d1, fun x hx => k2 (hsub hx), d3.trans k3 k2, ?_⟩
            intro p hp e he
            rcases List.mem_cons.1 hp with rfl | hp
            · exact ⟨(d4 e he).1, (d4 e he).2.imp id (fun h => k2 h)⟩
            · exact k4 p hp e he

/-- The worker is correct for every fuel. -/
theorem checkDerivativeRec_ok {types : List ElementType} {rules : AMap Nat (NTRule I)} (right : Nat)
    (hin : ∀ A r, AMap.get rules A = some r → ∀ p ∈ r.prods, ∀ e ∈ prodElems p, e < types.length) :
    ∀ (fuel left : Nat) (vis : List Nat), left < types.length →
      DerivOk types rules right left vis (checkDerivativeRec types rules right fuel left vis)
  | 0, left, vis, _ => by
    constructor <;> simp [checkDerivativeRec]
  | fuel + 1, left, vis, hl => by
    unfold checkDerivativeRec
    have ht : types[left]? = some types[left] := List.getElem?_eq_getElem hl
    rw [ht]
    simp only [Res.unwrapO, Res.bind_ok]
    by_cases h1 : types[left] = .terminal
    · rw [if_pos h1]
      constructor
      · simp
      · intro vis' h; cases h
      · intro vis' h; cases h
        exact ⟨fun _ h => h, .inl (by rw [ht, h1]), fun x hx => .inl hx⟩
      · intro e h; cases h
    · rw [if_neg h1]
      have hnt : types[left]? = some .nonTerminal := by
        rw [ht]; cases hx : types[left]
        · exact absurd hx h1
        · rfl
      cases hg : AMap.get rules left with
      | none =>
        simp only [Res.ofOption, Res.bind_err]
        constructor
        · simp
        · intro vis' h; cases h
        · intro vis' h; cases h
        · intro e h; exact ⟨left, .refl, hnt, hg⟩
      | some r =>
        simp only [Res.ofOption, Res.bind_ok]
        by_cases h2 : left = right
        · rw [if_pos h2]
          subst h2
          constructor
          · simp
          · intro vis' h; cases h; exact ⟨.refl, fun _ h => h⟩
          · intro vis' h; cases h
          · intro e h; cases h
        · rw [if_neg h2]
          by_cases h3 : left ∈ vis
          · rw [if_pos h3]
            constructor
            · simp
            · intro vis' h; cases h
            · intro vis' h; cases h
              exact ⟨fun _ h => h, .inr ⟨h2, h3⟩, fun x hx => .inl hx⟩
            · intro e h; cases h
          · rw [if_neg h3]
            have hu : ∀ p ∈ r.prods, ∀ e ∈ prodElems p, Uses rules left e := fun p hp e he => ⟨r, hg, p, hp, he⟩
            obtain ⟨i0, i1, i2, i3⟩ := derivProds_spec (types := types) (rules := rules) (right := right) (A := left)
              (rec := checkDerivativeRec types rules right fuel) r.prods hu
              (fun p hp e he vis => checkDerivativeRec_ok right hin fuel e vis (hin left r hg p hp e he))
              false (setInsert vis left) (by simp)
            have hins : ∀ x, x ∈ setInsert vis left ↔ x ∈ vis ∨ x = left := by
              intro x; simp only [setInsert]; rw [if_neg h3]; simp
            refine ⟨i0, ?_, ?_, i3⟩
            · intro vis' h
              exact ⟨(i1 vis' h).1, fun x hx => (i1 vis' h).2 ((hins x).2 (.inl hx))⟩
            · intro vis' h
              obtain ⟨-, k2, k3, k4⟩ := i2 vis' h
              have hmem : left ∈ vis' := k2 ((hins left).2 (.inr rfl))
              refine ⟨fun x hx => k2 ((hins x).2 (.inl hx)), .inr ⟨h2, hmem⟩, ?_⟩
              intro x hx
              rcases k3 x hx with h | h
              · rcases (hins x).1 h with h | rfl
                · exact .inl h
                · refine .inr ⟨h2, ?_⟩
                  rintro e ⟨r', hr', p, hp, he⟩
                  rw [hg] at hr'; cases hr'
                  exact k4 p hp e he
              · exact .inr h

/-! ### Termination -/

/-- Rules not visited yet. -/
def unvisited (rules : AMap Nat (NTRule I)) (vis : List Nat) : Nat :=
  ((AMap.keys rules).filter (fun A => decide (A ∉ vis))).length

theorem unvisited_mono (rules : AMap Nat (NTRule I)) {vis vis' : List Nat} (h : vis ⊆ vis') :
    unvisited rules vis' ≤ unvisited rules vis := by
  have : ∀ l : List Nat, (l.filter (fun A => decide (A ∉ vis'))).length ≤ (l.filter (fun A => decide (A ∉ vis))).length := by
    intro l
    induction l with
    | nil => simp
    | cons a l ih =>
      by_cases h1 : a ∈ vis
      · have h2 := h h1
        simp [h1, h2]
        simpa using ih
      · by_cases h2 : a ∈ vis'
        · simp [h1, h2]
          have : _ ≤ _ := ih
          simp at this
          omega
        · simp [h1, h2]
          simpa using ih
  exact this _

theorem unvisited_lt (rules : AMap Nat (NTRule I)) {vis vis' : List Nat} (h : vis ⊆ vis') {A : Nat}
    (hA : A ∈ AMap.keys rules) (h1 : A ∉ vis) (h2 : A ∈ vis') : unvisited rules vis' < unvisited rules vis := by
  have : ∀ l : List Nat, A ∈ l →
      (l.filter (fun A => decide (A ∉ vis'))).length < (l.filter (fun A => decide (A ∉ vis))).length := by
    intro l
    induction l with
    | nil => simp
    | cons a l ih =>
      intro hm
      have hle := unvisited_mono (I := I) (l.map (fun x => (x, ⟨[], none, []⟩))) h
      simp only [unvisited, AMap.keys, List.map_map] at hle
      have hid : l.map ((fun x => x.1) ∘ (fun x => (x, (⟨[], none, []⟩ : NTRule I)))) = l := by
        rw [show ((fun x : Nat × NTRule I => x.1) ∘ (fun x => (x, (⟨[], none, []⟩ : NTRule I)))) = id from rfl]; simp
      rw [hid] at hle
      by_cases ha : a = A
      · subst ha
        simp only [List.filter_cons, h1, h2, not_true_eq_false, decide_false, not_false_eq_true, decide_true, if_true,
          Bool.false_eq_true, if_false, List.length_cons]
        omega
      · have hm' : A ∈ l := by
          rcases List.mem_cons.1 hm with h | h
          · exact absurd h.symm ha
          · exact h
        have ih := ih hm'
        by_cases h3 : a ∈ vis
        · have h4 := h h3
          simp only [List.filter_cons, h3, h4, not_true_eq_false, decide_false, Bool.false_eq_true, if_false]
          exact ih
        · by_cases h4 : a ∈ vis'
          · simp only [List.filter_cons, h3, h4, not_true_eq_false, decide_false, not_false_eq_true, decide_true, if_true,
              Bool.false_eq_true, if_false, List.length_cons]
            omega
          · simp only [List.filter_cons, h3, h4, not_false_eq_true, decide_true, if_true, List.length_cons]
            omega
  exact this _ hA

/-- The visited set only grows. -/
theorem derivElems_term {rec : DerivRec} {right : Nat} {M : Nat} {rules : AMap Nat (NTRule I)}
    (hr : ∀ e vis, unvisited rules vis < M → rec e vis ≠ .timeout ∧ ∀ b vis', rec e vis = .ok (b, vis') → vis ⊆ vis') :
    ∀ (els : List Nat) (d : Bool) (vis : List Nat), unvisited rules vis < M →
      derivElems rec right els d vis ≠ .timeout ∧ ∀ b vis', derivElems rec right els d vis = .ok (b, vis') → vis ⊆ vis'
  | [], d, vis, _ => by
    refine ⟨by simp [derivElems], ?_⟩
    intro b vis' h; simp only [derivElems] at h; cases h; exact fun _ h => h
  | el :: els, d, vis, hM => by
    unfold derivElems
    split
    · refine ⟨by simp, ?_⟩
      intro b vis' h; cases h; exact fun _ h => h
    · split
      · exact derivElems_term hr els true vis hM
      · obtain ⟨h1, h2⟩ := hr el vis hM
        cases hrec : rec el vis with
        | panic => simp only [Res.bind_panic]; exact ⟨by simp, by intro b vis' h; cases h⟩
        | timeout => exact absurd hrec h1
        | err e => simp only [Res.bind_err]; exact ⟨by simp, by intro b vis' h; cases h⟩
        | ok q =>
          obtain ⟨b, vis1⟩ := q
          simp only [Res.bind_ok]
          have hs := h2 b vis1 hrec
          obtain ⟨i1, i2⟩ := derivElems_term hr els b vis1 (Nat.lt_of_le_of_lt (unvisited_mono rules hs) hM)
          exact ⟨i1, fun b' vis' h x hx => i2 b' vis' h (hs hx)⟩

theorem derivProds_term {rec : DerivRec} {right : Nat} {M : Nat} {rules : AMap Nat (NTRule I)}
    (hr : ∀ e vis, unvisited rules vis < M → rec e vis ≠ .timeout ∧ ∀ b vis', rec e vis = .ok (b, vis') → vis ⊆ vis') :
    ∀ (ps : List Production) (d : Bool) (vis : List Nat), unvisited rules vis < M →
      derivProds rec right ps d vis ≠ .timeout ∧ ∀ b vis', derivProds rec right ps d vis = .ok (b, vis') → vis ⊆ vis'
  | [], d, vis, _ => by
    refine ⟨by simp [derivProds], ?_⟩
    intro b vis' h; simp only [derivProds] at h; cases h; exact fun _ h => h
  | .empty :: ps, d, vis, hM => by
    simp only [derivProds]; exact derivProds_term hr ps d vis hM
  | .notEmpty els :: ps, d, vis, hM => by
    simp only [derivProds]
    obtain ⟨h1, h2⟩ := derivElems_term (right := right) hr els d vis hM
    generalize derivElems rec right els d vis = o at h1 h2
    cases o with
    | panic => simp only [Res.bind_panic]; exact ⟨by simp, by intro b vis' h; cases h⟩
    | timeout => exact absurd rfl h1
    | err e => simp only [Res.bind_err]; exact ⟨by simp, by intro b vis' h; cases h⟩
    | ok q =>
      obtain ⟨b, vis1⟩ := q
      simp only [Res.bind_ok]
      have hs := h2 b vis1 rfl
      cases b with
      | none =>
        refine ⟨by simp, ?_⟩
        intro b' vis' h
        cases h
        exact hs
      | some b =>
        obtain ⟨i1, i2⟩ := derivProds_term hr ps b vis1 (Nat.lt_of_le_of_lt (unvisited_mono rules hs) hM)
        exact ⟨i1, fun b' vis' h x hx => i2 b' vis' h (hs hx)⟩

theorem checkDerivativeRec_term (types : List ElementType) (rules : AMap Nat (NTRule I)) (right : Nat) :
    ∀ (fuel left : Nat) (vis : List Nat), unvisited rules vis < fuel →
      checkDerivativeRec types rules right fuel left vis ≠ .timeout ∧
      ∀ b vis', checkDerivativeRec types rules right fuel left vis = .ok (b, vis') → vis ⊆ vis'
  | 0, _, _, h => by omega
  | fuel + 1, left, vis, hM => by
    unfold checkDerivativeRec
    cases ht : types[left]? with
    | none => simp only [Res.unwrapO, Res.bind_panic]; exact ⟨by simp, by intro b vis' h; cases h⟩
    | some et =>
      simp only [Res.unwrapO, Res.bind_ok]
      split
      · exact ⟨by simp, by intro b vis' h; cases h; exact fun _ h => h⟩
      · cases hg : AMap.get rules left with
        | none => simp only [Res.ofOption, Res.bind_err]; exact ⟨by simp, by intro b vis' h; cases h⟩
        | some r =>
          simp only [Res.ofOption, Res.bind_ok]
          split
          · exact ⟨by simp, by intro b vis' h; cases h; exact fun _ h => h⟩
          · split
            · exact ⟨by simp, by intro b vis' h; cases h; exact fun _ h => h⟩
            · next h3 =>
              have hsub : vis ⊆ setInsert vis left := by
                intro x hx; simp only [setInsert]; rw [if_neg h3]; simp [hx]
              have hmem : left ∈ setInsert vis left := by simp only [setInsert]; rw [if_neg h3]; simp
              have hlt := unvisited_lt rules hsub (AMap.mem_keys_iff.2 ⟨r, hg⟩) h3 hmem
              obtain ⟨i1, i2⟩ := derivProds_term (rules := rules) (M := fuel) (right := right)
                (rec := checkDerivativeRec types rules right fuel)
                (fun e vis h => checkDerivativeRec_term types rules right fuel e vis h) r.prods false
                (setInsert vis left) (by omega)
              exact ⟨i1, fun b vis' h x hx => i2 b vis' h (hsub hx)⟩

theorem unvisited_le (rules : AMap Nat (NTRule I)) (vis : List Nat) : unvisited rules vis ≤ rules.length := by
  unfold unvisited
  refine Nat.le_trans (List.length_filter_le _ _) ?_
  simp [AMap.keys]

/-- The check: always an answer, right whenever it is `Ok`; an error only if an undefined non-terminal is used. -/
theorem checkIsDerivative_spec {types : List ElementType} {rules : AMap Nat (NTRule I)} {left right : Nat}
    (hin : ∀ A r, AMap.get rules A = some r → ∀ p ∈ r.prods, ∀ e ∈ prodElems p, e < types.length)
    (hnt : ∀ A r, AMap.get rules A = some r → types[A]? = some .nonTerminal)
    (hl : types[left]? = some .nonTerminal) :
    (∃ b, checkIsDerivative types rules left right = .ok b ∧ (b = true ↔ UsesStar rules left right)) ∨
    (∃ e, checkIsDerivative types rules left right = .err e ∧
      ∃ B, UsesStar rules left B ∧ types[B]? = some .nonTerminal ∧ AMap.get rules B = none) := by
  have hlen : left < types.length := (List.getElem?_eq_some_iff.1 hl).1
  have hok := checkDerivativeRec_ok (types := types) (rules := rules) right hin (rules.length + 2) left [] hlen
  have hterm := (checkDerivativeRec_term types rules right (rules.length + 2) left []
    (by have := unvisited_le rules []; omega)).1
  unfold checkIsDerivative
  generalize checkDerivativeRec types rules right (rules.length + 2) left [] = o at hok hterm
  cases o with
  | panic => exact absurd rfl hok.noPanic
  | timeout => exact absurd rfl hterm
  | err e => exact .inr ⟨e, rfl, hok.bad e rfl⟩
  | ok q =>
    obtain ⟨b, vis⟩ := q
    refine .inl ⟨b, rfl, ?_⟩
    cases b with
    | true => simp only [true_iff]; exact (hok.yes vis rfl).1
    | false =>
      simp only [Bool.false_eq_true, false_iff]
      obtain ⟨-, h2, h3⟩ := hok.no vis rfl
      have hleft : left ≠ right ∧ left ∈ vis := by
        rcases h2 with h | h
        · rw [hl] at h; cases h
        · exact h
      intro hreach
      have key : ∀ x, UsesStar rules left x → x ≠ right ∧ (types[x]? = some .terminal ∨ x ∈ vis) := by
        intro x hx
        induction hx with
        | refl => exact ⟨hleft.1, .inr hleft.2⟩
        | tail _ hu ih =>
          rcases ih.2 with ht | hv
          · obtain ⟨r, hr, -⟩ := hu
            rw [hnt _ r hr] at ht; cases ht
          · rcases h3 _ hv with h | ⟨-, h⟩
            · cases h
            · exact h _ hu
      exact (key right hreach).1 rfl

end HPP
