import Verif.Proofs.Derivative
/-
`edit_rules`: what becomes of every rule.
-/
namespace HPP
open Spec
variable {I : Type}

theorem between_eq (w : Nat) (els : List Nat) : (els.flatMap (fun e => [e, w])).dropLast = between w els := by
  induction els with
  | nil => rfl
  | cons x xs ih =>
    cases xs with
    | nil => rfl
    | cons y ys =>
      rw [between, ← ih]
      simp [List.dropLast]

theorem weaveProduction_eq (w : Nat) (p : Production) : weaveProduction w p = betweenAlt w p := by
  cases p with
  | empty => rfl
  | notEmpty els => simp [weaveProduction, betweenAlt, between_eq]

/-- What `edit_rules` makes of the rule `r` of `A`. -/
noncomputable def edited (rules : AMap Nat (NTRule I)) (A : Nat) (r : NTRule I) : NTRule I :=
  open Classical in
  match r.ignore with
  | none => r
  | some i => if UsesStar rules i A then { r with ignore := none } else { r with prods := r.prods.map (betweenAlt i) }

/-- An undefined non-terminal used by an ignore production. -/
def BadIgnore (pd : ParserData I) : Prop :=
  ∃ A r i B, AMap.get pd.rules A = some r ∧ r.ignore = some i ∧ UsesStar pd.rules i B ∧
    pd.elementTypes[B]? = some .nonTerminal ∧ AMap.get pd.rules B = none

/-- Every ignore override names a non-terminal. -/
def IgnoresNT (pd : ParserData I) : Prop :=
  ∀ A r i, AMap.get pd.rules A = some r → r.ignore = some i → pd.elementTypes[i]? = some .nonTerminal

/-- The flag the first pass computes for a rule. -/
def weaveFlag (pd : ParserData I) (ix : Nat) (rule : NTRule I) : Res PErr Bool :=
  match rule.ignore with
  | some ign => do
    let d ← checkIsDerivative pd.elementTypes pd.rules ign ix
    Res.ok (!d)
  | none => Res.ok false

theorem editActions_cons (pd : ParserData I) (ix : Nat) (rule : NTRule I) (rest : List (Nat × NTRule I))
    (acc : AMap Nat Bool) : editActions pd ((ix, rule) :: rest) acc =
      (weaveFlag pd ix rule).bind (fun b => editActions pd rest (AMap.insert acc ix b)) := by
  simp only [editActions, weaveFlag]
  cases rule.ignore with
  | none => rfl
  | some i =>
    simp only
    cases checkIsDerivative pd.elementTypes pd.rules i ix <;> rfl

theorem editActions_spec (pd : ParserData I) : ∀ (l : List (Nat × NTRule I)) (acc : AMap Nat Bool),
    (l.map (·.1)).Nodup → (∀ x ∈ l, weaveFlag pd x.1 x.2 ≠ .panic ∧ weaveFlag pd x.1 x.2 ≠ .timeout) →
    (∃ m, editActions pd l acc = .ok m ∧ (∀ x ∈ l, ∃ b, weaveFlag pd x.1 x.2 = .ok b ∧ AMap.get m x.1 = some b) ∧
      ∀ q, q ∉ l.map (·.1) → AMap.get m q = AMap.get acc q) ∨
    (∃ e, editActions pd l acc = .err e ∧ ∃ x ∈ l, weaveFlag pd x.1 x.2 = .err e)
  | [], acc, _, _ => .inl ⟨acc, rfl, by simp, by simp⟩
  | (ix, rule) :: rest, acc, hn, hf => by
    rw [editActions_cons]
    have hn' : ix ∉ rest.map (·.1) ∧ (rest.map (·.1)).Nodup := by simpa using hn
    have h0 := hf (ix, rule) (by simp)
    cases hw : weaveFlag pd ix rule with
    | panic => exact absurd hw h0.1
    | timeout => exact absurd hw h0.2
    | err e => exact .inr ⟨e, rfl, (ix, rule), by simp, hw⟩
    | ok b =>
      simp only [Res.bind]
      rcases editActions_spec pd rest (AMap.insert acc ix b) hn'.2 (fun x hx => hf x (by simp [hx])) with
        ⟨m, h1, h2, h3⟩ | ⟨e, h1, x, hx, h2⟩
      · refine .inl ⟨m, h1, ?_, ?_⟩
        · intro x hx
          rcases List.mem_cons.1 hx with rfl | hx
          · refine ⟨b, hw, ?_⟩
            rw [h3 ix hn'.1]; simp
          · exact h2 x hx
        · intro q hq
          have hq' : ix ≠ q ∧ q ∉ rest.map (·.1) := by
            constructor
            · rintro rfl; exact hq (by simp)
            · intro h; exact hq (by rw [List.map_cons]; exact List.mem_cons_of_mem _ h)
          rw [h3 q hq'.2, AMap.get_insert, if_neg hq'.1]
      · exact .inr ⟨e, h1, x, by simp [hx], h2⟩

theorem editApply_spec (actions : AMap Nat Bool) : ∀ (l : List (Nat × NTRule I)) (acc : AMap Nat (NTRule I)),
    (l.map (·.1)).Nodup → AMap.NodupKeys acc → (∀ x ∈ l, ∃ b, AMap.get actions x.1 = some b) →
    ∃ m, editApply actions l acc = .ok m ∧ AMap.NodupKeys m ∧
      (∀ x ∈ l, ∀ b, AMap.get actions x.1 = some b → AMap.get m x.1 = some (editRule x.2 b)) ∧
      ∀ q, q ∉ l.map (·.1) → AMap.get m q = AMap.get acc q
  | [], acc, _, hk, _ => ⟨acc, rfl, hk, by simp, by simp⟩
  | (ix, rule) :: rest, acc, hn, hk, hf => by
    have hn' : ix ∉ rest.map (·.1) ∧ (rest.map (·.1)).Nodup := by simpa using hn
    obtain ⟨b, hb⟩ := hf (ix, rule) (by simp)
    simp only at hb
    obtain ⟨m, h1, hkm, h2, h3⟩ := editApply_spec actions rest (AMap.insert acc ix (editRule rule b)) hn'.2 (hk.insert _ _)
      (fun x hx => hf x (by simp [hx]))
    refine ⟨m, ?_, hkm, ?_, ?_⟩
    · simp only [editApply, hb, Res.ofOption, Res.bind_ok]; exact h1
    · intro x hx b' hb'
      rcases List.mem_cons.1 hx with rfl | hx
      · simp only at hb' ⊢
        rw [hb] at hb'; cases hb'
        rw [h3 ix hn'.1]; simp
      · exact h2 x hx b' hb'
    · intro q hq
      have hq' : ix ≠ q ∧ q ∉ rest.map (·.1) := by
        constructor
        · rintro rfl; exact hq (by simp)
        · intro h; exact hq (by rw [List.map_cons]; exact List.mem_cons_of_mem _ h)
      rw [h3 q hq'.2, AMap.get_insert, if_neg hq'.1]

/-- What the flag means. -/
theorem weaveFlag_spec {pd : ParserData I} (hw : WellFormed pd) (hi : IgnoresNT pd) {A : Nat} {r : NTRule I}
    (hr : AMap.get pd.rules A = some r) :
    (∃ b, weaveFlag pd A r = .ok b ∧ editRule r b = edited pd.rules A r) ∨
    (∃ e, weaveFlag pd A r = .err e ∧ BadIgnore pd) := by
  unfold weaveFlag edited
  cases hig : r.ignore with
  | none =>
    refine .inl ⟨false, rfl, ?_⟩
    simp only [editRule, hig]
    rw [← hig]
  | some i =>
    rcases checkIsDerivative_spec (right := A) hw.inRange hw.keysNT (hi A r i hr hig) with ⟨b, hb, hiff⟩ | ⟨e, he, B, hB⟩
    · refine .inl ⟨!b, by simp only [hb]; rfl, ?_⟩
      simp only [editRule, hig]
      cases b with
      | true =>
        have := hiff.1 rfl
        simp only [this, if_true, Bool.not_true, Bool.false_eq_true, if_false]
      | false =>
        have : ¬ UsesStar pd.rules i A := fun h => absurd (hiff.2 h) (by simp)
        simp only [this, if_false, Bool.not_false, if_true, weaveRule]
        have hfun : weaveProduction i = betweenAlt i := funext (weaveProduction_eq i)
        rw [hfun]
    · exact .inr ⟨e, by simp only [he]; rfl, A, r, i, B, hr, hig, hB⟩

/-- `edit_rules` either edits every rule or reports an undefined non-terminal used by an ignore production. -/
theorem editRules_spec (ho : HashOrder) {pd : ParserData I} (hw : WellFormed pd) (hi : IgnoresNT pd) :
    (∃ pd', editRules ho pd = .ok pd' ∧ pd'.elementTypes = pd.elementTypes ∧ pd'.elementData = pd.elementData ∧
      pd'.verboseMap = pd.verboseMap ∧ pd'.ignore = pd.ignore ∧ AMap.NodupKeys pd'.rules ∧
      ∀ A, AMap.get pd'.rules A = (AMap.get pd.rules A).map (edited pd.rules A)) ∨
    (∃ e, editRules ho pd = .err e ∧ BadIgnore pd) := by
  have hp10 := ho.perm 10 (Nat × NTRule I) pd.rules
  have hp11 := ho.perm 11 (Nat × NTRule I) pd.rules
  have hn : AMap.NodupKeys pd.rules := hw.rulesNodup
  have hn10 : ((ho.iter 10 (Nat × NTRule I) pd.rules).map (·.1)).Nodup := AMap.NodupKeys.perm hn hp10
  have hn11 : ((ho.iter 11 (Nat × NTRule I) pd.rules).map (·.1)).Nodup := AMap.NodupKeys.perm hn hp11
  have hget : ∀ x ∈ pd.rules, AMap.get pd.rules x.1 = some x.2 := fun x hx => AMap.get_of_mem hn hx
  unfold editRules
  rcases editActions_spec pd (ho.iter 10 (Nat × NTRule I) pd.rules) [] hn10 (fun x hx => by
      rcases weaveFlag_spec hw hi (hget x (hp10.mem_iff.1 hx)) with ⟨b, hb, -⟩ | ⟨e, he, -⟩
      · rw [hb]; simp
      · rw [he]; simp) with ⟨m, h1, h2, -⟩ | ⟨e, h1, x, hx, h2⟩
  · have hall : ∀ x ∈ pd.rules, ∃ b, weaveFlag pd x.1 x.2 = .ok b ∧ AMap.get m x.1 = some b :=
      fun x hx => h2 x (hp10.mem_iff.2 hx)
    obtain ⟨m', a1, a2, a3, a4⟩ := editApply_spec m (ho.iter 11 (Nat × NTRule I) pd.rules) [] hn11 AMap.NodupKeys.nil
      (fun x hx => (hall x (hp11.mem_iff.1 hx)).imp fun b hb => hb.2)
    refine .inl ⟨{ pd with rules := m' }, by rw [h1, Res.bind_ok, a1]; rfl, rfl, rfl, rfl, rfl, a2, ?_⟩
    intro A
    cases hA : AMap.get pd.rules A with
    | none =>
      have : A ∉ (ho.iter 11 (Nat × NTRule I) pd.rules).map (·.1) := by
        intro hm
        obtain ⟨x, hx, rfl⟩ := List.mem_map.1 hm
        rw [hget x (hp11.mem_iff.1 hx)] at hA
        cases hA
      simp only [Option.map_none]
      rw [a4 A this]; rfl
    | some r =>
      have hmem := AMap.mem_of_get hA
      obtain ⟨b, hb, hb'⟩ := hall (A, r) hmem
      have := a3 (A, r) (hp11.mem_iff.2 hmem) b hb'
      simp only at this hb
      simp only [Option.map_some]
      rw [this]
      rcases weaveFlag_spec hw hi hA with ⟨b', e1, e2⟩ | ⟨e, e1, -⟩
      · rw [hb] at e1; cases e1; rw [e2]
      · rw [hb] at e1; cases e1
  · refine .inr ⟨e, by rw [h1]; rfl, ?_⟩
    rcases weaveFlag_spec hw hi (hget x (hp10.mem_iff.1 hx)) with ⟨b, hb, -⟩ | ⟨e', he, hbad⟩
    · rw [hb] at h2; cases h2
    · exact hbad

end HPP
