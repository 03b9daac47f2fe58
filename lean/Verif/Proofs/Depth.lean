import Verif.Proofs.ParseTop
/-
Explicit bounds on the depth of recursion.
-/
namespace HPP
open Spec Relation
variable {I S : Type}

/-- A list without repetitions inside another one is not longer. -/
theorem nodup_length_le {l m : List Nat} (hn : l.Nodup) (h : ∀ x ∈ l, x ∈ m) : l.length ≤ m.length := by
  induction l generalizing m with
  | nil => exact Nat.zero_le _
  | cons a l ih =>
    obtain ⟨p, q, rfl⟩ := List.append_of_mem (h a (by simp))
    rw [List.nodup_cons] at hn
    have := ih (m := p ++ q) hn.2 (by
      intro x hx
      have h1 := h x (by simp [hx])
      have h2 : x ≠ a := fun e => hn.1 (e ▸ hx)
      simp only [List.mem_append, List.mem_cons] at h1 ⊢
      rcases h1 with h1 | h1 | h1
      · exact .inl h1
      · exact absurd h1 h2
      · exact .inr h1)
    simp only [List.length_append, List.length_cons] at this ⊢
    omega

/-- A chain of left corners: non-terminals with rules, each of which leads to `e`. -/
structure LeftChain (pd : ParserData I) (seen : List Nat) (e : Nat) : Prop where
  nodup : seen.Nodup
  keys : ∀ B ∈ seen, B ∈ AMap.keys pd.rules
  leads : ∀ B ∈ seen, TransGen (LeftCorner (grammarOf pd)) B e

theorem LeftChain.nil (pd : ParserData I) (e : Nat) : LeftChain pd [] e :=
  ⟨List.nodup_nil, fun _ h => (by cases h), fun _ h => (by cases h)⟩

theorem LeftChain.cons {pd : ParserData I} {seen : List Nat} {A e : Nat} (hlr : ∀ A, ¬ LeftRecursive (grammarOf pd) A)
    (h : LeftChain pd seen A) (hA : A ∈ AMap.keys pd.rules) (hc : LeftCorner (grammarOf pd) A e) : LeftChain pd (A :: seen) e := by
  refine ⟨List.nodup_cons.2 ⟨fun hm => hlr A (leftRecursive_iff.2 (h.leads A hm)), h.nodup⟩, ?_, ?_⟩
  · intro B hB
    rcases List.mem_cons.1 hB with rfl | hB
    · exact hA
    · exact h.keys B hB
  · intro B hB
    rcases List.mem_cons.1 hB with rfl | hB
    · exact .single hc
    · exact .tail (h.leads B hB) hc

theorem LeftChain.short {pd : ParserData I} {seen : List Nat} {A : Nat} (hlr : ∀ A, ¬ LeftRecursive (grammarOf pd) A)
    (h : LeftChain pd seen A) (hA : A ∈ AMap.keys pd.rules) : seen.length + 1 ≤ pd.rules.length := by
  have h1 : (A :: seen).Nodup := List.nodup_cons.2 ⟨fun hm => hlr A (leftRecursive_iff.2 (h.leads A hm)), h.nodup⟩
  have := nodup_length_le (m := AMap.keys pd.rules) h1 (by
    intro B hB
    rcases List.mem_cons.1 hB with rfl | hB
    · exact hA
    · exact h.keys B hB)
  simpa [AMap.keys] using this

/-- A direct left corner in terms of element lists. -/
theorem leftCorner_of {pd : ParserData I} {A e : Nat} {r : NTRule I} (hr : AMap.get pd.rules A = some r) {p : Production}
    (hp : p ∈ r.prods) {a b : List Nat} (hab : prodElems p = a ++ e :: b) (hna : Nullable (grammarOf pd) (formOf pd a))
    (hT : pd.elementTypes[e]? = some .nonTerminal) : LeftCorner (grammarOf pd) A e := by
  refine ⟨formOf pd a, formOf pd b, ⟨r, hr, p, hp, ?_⟩, hna⟩
  rw [hab]; simp [elemForm_nonTerminal hT]

/-! ### FIRST -/

theorem firstOfProdLoop_depth {pd : ParserData I} {fuel : Nat} (els : List Nat) :
    (∀ a e b, els = a ++ e :: b → Nullable (grammarOf pd) (formOf pd a) → Succeeds pd e fuel) →
    ∀ M fs, FInv pd fs → ∃ r, firstOfProdLoop (getSetFirstSetOfElement pd fuel) els M fs = .ok r := by
  induction els with
  | nil => intro _ M fs _; exact ⟨_, rfl⟩
  | cons e es ih =>
    intro h M fs hfs
    obtain ⟨⟨S, fs1⟩, hr⟩ := h [] e es rfl nullable_nil fuel (Nat.le_refl _) fs hfs
    obtain ⟨hC, hfs1, -⟩ := getSet_sound pd fuel _ _ _ _ hfs hr
    by_cases hne : Nullable (grammarOf pd) (elemForm pd e)
    · obtain ⟨r, hr2⟩ := ih (fun a e' b hab hna =>
        h (e :: a) e' b (by simp [hab]) (by simp [nullable_append, hne, hna])) (setExtend M S) fs1 hfs1
      have hem := hC.empty.mpr hne
      exact ⟨r, by simp [firstOfProdLoop, hr, hem, hr2]⟩
    · have hem : SetMemberE.empty ∉ S := fun h => hne (hC.empty.mp h)
      exact ⟨_, by simp [firstOfProdLoop, hr, hem]; rfl⟩

theorem firstOfProd_depth {pd : ParserData I} {fuel : Nat} {p : Production} (hp : p ≠ .notEmpty [])
    (h : ∀ a e b, prodElems p = a ++ e :: b → Nullable (grammarOf pd) (formOf pd a) → Succeeds pd e fuel) :
    ∀ fs, FInv pd fs → ∃ r, firstOfProd (getSetFirstSetOfElement pd fuel) p fs = .ok r := by
  match p, hp, h with
  | .empty, _, _ => intro fs _; exact ⟨_, rfl⟩
  | .notEmpty (e :: es), _, h =>
    intro fs hfs
    obtain ⟨⟨S, fs1⟩, hr⟩ := h [] e es rfl nullable_nil fuel (Nat.le_refl _) fs hfs
    obtain ⟨hC, hfs1, -⟩ := getSet_sound pd fuel _ _ _ _ hfs hr
    by_cases hne : Nullable (grammarOf pd) (elemForm pd e)
    · obtain ⟨r, hr2⟩ := firstOfProdLoop_depth es (fun a e' b hab hna =>
        h (e :: a) e' b (by simp [prodElems, hab]) (by simp [nullable_append, hne, hna])) S fs1 hfs1
      have hem := hC.empty.mpr hne
      exact ⟨r, by simp [firstOfProd, hr, hem, hr2]⟩
    · have hem : SetMemberE.empty ∉ S := fun h => hne (hC.empty.mp h)
      exact ⟨_, by simp [firstOfProd, hr, hem]; rfl⟩

theorem firstOfProds_depth {pd : ParserData I} {fuel : Nat} (ps : List Production) :
    (∀ p ∈ ps, p ≠ .notEmpty []) →
    (∀ p ∈ ps, ∀ a e b, prodElems p = a ++ e :: b → Nullable (grammarOf pd) (formOf pd a) → Succeeds pd e fuel) →
    ∀ S fs, FInv pd fs → ∃ r, firstOfProds (getSetFirstSetOfElement pd fuel) ps S fs = .ok r := by
  induction ps with
  | nil => intro _ _ S fs _; exact ⟨_, rfl⟩
  | cons p ps ih =>
    intro h h' S fs hfs
    obtain ⟨⟨M, fs1⟩, hr⟩ := firstOfProd_depth (h p (by simp)) (h' p (by simp)) fs hfs
    obtain ⟨-, hfs1, -⟩ := firstOfProd_sound (getSet_sound pd fuel) hfs hr
    obtain ⟨r, hr2⟩ := ih (fun q hq => h q (by simp [hq])) (fun q hq => h' q (by simp [hq])) (setExtend S M) fs1 hfs1
    exact ⟨r, by simp [firstOfProds, hr, hr2]⟩

theorem getSet_depth {pd : ParserData I} (hw : WellFormed pd) (hd : AllDefined pd)
    (hlr : ∀ A, ¬ LeftRecursive (grammarOf pd) A) (k : Nat) : ∀ (seen : List Nat) (A : Nat), LeftChain pd seen A →
      A ∈ AMap.keys pd.rules → seen.length + k = pd.rules.length → Succeeds pd A (k + 1) := by
  induction k with
  | zero =>
    intro seen A hc hA hk
    have := hc.short hlr hA
    omega
  | succ k ih =>
    intro seen A hc hA hk fuel hf fs hfs
    obtain ⟨r, hr⟩ := AMap.mem_keys_iff.mp hA
    obtain ⟨f, rfl⟩ : ∃ f, fuel = f + 1 := ⟨fuel - 1, by omega⟩
    have hty := hw.keysNT A r hr
    cases hg : AMap.get fs A with
    | some x => exact ⟨_, by simp [getSetFirstSetOfElement, getFirstSetOfElement, hty, hg]; rfl⟩
    | none =>
      obtain ⟨⟨S, fs1⟩, h2⟩ := firstOfProds_depth (pd := pd) (fuel := f) r.prods (hw.nonEmpty A r hr) (by
        intro p hp a e b hab hna
        have hmem : e ∈ prodElems p := by rw [hab]; simp
        rcases WellFormed.element hw (hw.inRange A r hr p hp e hmem) with ⟨d, h1, h2⟩ | h1
        · intro fuel hf fs hfs
          obtain ⟨k', rfl⟩ : ∃ k', fuel = k' + 1 := ⟨fuel - 1, by omega⟩
          cases hh : d.name.head? with
          | none =>
            exact ⟨_, by simp [getSetFirstSetOfElement, getFirstSetOfElement, h1,
              ParserData.getElementData, h2, hh]; rfl⟩
          | some ch =>
            exact ⟨_, by simp [getSetFirstSetOfElement, getFirstSetOfElement, h1,
              ParserData.getElementData, h2, hh]; rfl⟩
        · obtain ⟨r', hr'⟩ := hd A r hr p hp e hmem h1
          exact (ih (A :: seen) e (hc.cons hlr hA (leftCorner_of hr hp hab hna h1))
            (AMap.mem_keys_iff.mpr ⟨r', hr'⟩) (by simp only [List.length_cons]; omega)).mono (by omega)) [] fs hfs
      exact ⟨_, by simp [getSetFirstSetOfElement, getFirstSetOfElement, hty, hg, hr, h2]; rfl⟩

/-- A recursion depth of one more than the number of rules suffices for FIRST. -/
theorem getFirstSets_depth {pd : ParserData I} (hw : WellFormed pd) (hd : AllDefined pd)
    (hlr : ∀ A, ¬ LeftRecursive (grammarOf pd) A) (ho : HashOrder) {fuel : Nat} (hf : pd.rules.length + 1 ≤ fuel) :
    ∃ fs, getFirstSets ho fuel pd = .ok fs := by
  apply getFirstSetsLoop_complete _ _ _ FInv.nil
  intro e he
  exact (getSet_depth hw hd hlr pd.rules.length [] e (.nil _ _) ((ho.perm 1 Nat _).mem_iff.mp he) (by simp)).mono hf

/-! ### parsing -/

variable {pd : ParserData I} {start : Nat} {P : Parser I}

theorem parseProduction_depth (hw : WellFormed pd) (ha : Acceptable pd start) (hP : ParserFor pd start P) (n : Nat) :
    ∀ (k : Nat) (seen : List Nat) (A : Nat), LeftChain pd seen A → A ∈ AMap.keys pd.rules →
      seen.length + k = pd.rules.length → ∀ fuel, n * pd.rules.length + k ≤ fuel → TermAt S P fuel n A := by
  induction n using Nat.strongRecOn with
  | _ n ihn =>
    intro k
    induction k with
    | zero =>
      intro seen A hc hA hk
      have := hc.short ha.noLeftRec hA
      omega
    | succ j ihk =>
      intro seen A hc hA hk fuel hf ho vm c parent pre rest hcp hl
      obtain ⟨f, rfl⟩ : ∃ f, fuel = f + 1 := ⟨fuel - 1, by omega⟩
      obtain ⟨r, hr⟩ := AMap.mem_keys_iff.mp hA
      rw [parseProduction_succ f A hcp]
      have hmA := hP.rules A
      rw [hr] at hmA
      obtain ⟨R, hR, -, -, hmap⟩ := hmA
      rw [hR]
      simp only
      cases hp : AMap.get R.steuermap (SetMember.ofPeek rest.head?) with
      | none => simp
      | some p =>
        obtain ⟨hpm, -⟩ := (hmap _ _).mp hp
        simp only
        have hadd := addNode_ne_timeout c.tree [] parent
        generalize c.tree.addNode [] parent = x at hadd
        obtain ⟨ra, t⟩ := x
        cases ra with
        | timeout => simp at hadd
        | err _ => simp
        | panic => simp
        | ok id =>
          simp only
          have hel := parseElements_ne_timeout hw ha hP (fuel := f) (n := n) ho vm id (prodElems p) [] pre rest
            { c with tree := t } hcp hl (.inr nullable_nil) (hw.inRange A r hr p hpm)
            (fun e he hTe m hm => by
              obtain ⟨r', hr'⟩ := ha.defined A r hr p hpm e he hTe
              have hmul : (m + 1) * pd.rules.length ≤ n * pd.rules.length := Nat.mul_le_mul_right _ hm
              rw [Nat.succ_mul] at hmul
              exact ihn m hm pd.rules.length [] e (.nil _ _) (AMap.mem_keys_iff.mpr ⟨r', hr'⟩) (by simp) f (by omega))
            (fun a' e b' hab hna hTe => by
              have he : e ∈ prodElems p := by rw [List.nil_append] at hab; rw [hab]; simp
              obtain ⟨r', hr'⟩ := ha.defined A r hr p hpm e he hTe
              exact ihk (A :: seen) e (hc.cons ha.noLeftRec hA (leftCorner_of hr hpm (by simpa using hab) hna hTe))
                (AMap.mem_keys_iff.mpr ⟨r', hr'⟩) (by simp only [List.length_cons]; omega) f (by omega))
          rw [SM.bind_apply]
          rcases hpe : parseElements P (parseProduction ho vm P f) id (prodElems p) { c with tree := t } with ⟨r1, c1⟩
          rw [hpe] at hel
          cases r1 with
          | timeout => simp at hel
          | err _ => simp
          | panic => simp
          | ok _ =>
            simp only [runInstructionsM]
            split <;> simp

theorem parse_depth (hw : WellFormed pd) (ha : Acceptable pd start) (hP : ParserFor pd start P)
    (hs : StartSymbol pd st0) (ho : HashOrder) (vm : VM I S) (text : Str) (s : S) {fuel : Nat}
    (hf : (text.length + 1) * pd.rules.length + 1 ≤ fuel) : (Parser.parse ho fuel vm P text s).1 ≠ .timeout := by
  have key : TermAt S P fuel text.length st0 := by
    cases hr : AMap.get pd.rules st0 with
    | none =>
      intro ho vm c parent pre rest hc hl
      obtain ⟨k, rfl⟩ : ∃ k, fuel = k + 1 := ⟨fuel - 1, by omega⟩
      rw [parseProduction_succ k st0 hc]
      have := hP.rules st0
      rw [hr] at this
      rw [this]; simp
    | some r =>
      rw [Nat.succ_mul] at hf
      exact parseProduction_depth hw ha hP text.length pd.rules.length [] st0 (.nil _ _) (AMap.mem_keys_iff.mpr ⟨r, hr⟩)
        (by simp) fuel (by omega)
  have := key ho vm (ctx0 text s) none [] text rfl (Nat.le_refl _)
  rw [parse_eq hP hs]
  generalize parseProduction ho vm P fuel st0 none (ctx0 text s) = x at this
  obtain ⟨r, c⟩ := x
  cases r <;> simp at this ⊢

end HPP
