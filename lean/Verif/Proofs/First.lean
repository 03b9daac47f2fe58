import Verif.Model.First
import Verif.Proofs.Basic
import Verif.Proofs.Cfg
/-
Partial correctness, success conditions and termination of the FIRST computation.
-/
namespace HPP
open Spec
variable {I : Type}

theorem exists_assoc_form {α β : Type} {l : List α} {f : α → β} {P : β → Prop} :
    (∃ r, (∃ p, p ∈ l ∧ r = f p) ∧ P r) ↔ ∃ p, p ∈ l ∧ P (f p) := by
  constructor
  · rintro ⟨r, ⟨p, hp, rfl⟩, h⟩; exact ⟨p, hp, h⟩
  · rintro ⟨p, hp, h⟩; exact ⟨_, ⟨p, hp, rfl⟩, h⟩

/-- `S` is exactly FIRST of the form `w` (with `Empty` for nullability). -/
structure IsFirst (G : Grammar) (w : Form) (S : List SetMemberE) : Prop where
  char : ∀ c, .char c ∈ S ↔ FirstChar G w c
  empty : .empty ∈ S ↔ Nullable G w
  noTerm : SetMemberE.terminate ∉ S
  nodup : S.Nodup

theorem elemForm_nonTerminal {pd : ParserData I} {e : Nat}
    (h : pd.elementTypes[e]? = some .nonTerminal) : elemForm pd e = [.nt e] := by
  simp [elemForm, h]

theorem elemForm_terminal {pd : ParserData I} {e : Nat} {d : ElementData}
    (h : pd.elementTypes[e]? = some .terminal) (hd : pd.elementData[e]? = some d) :
    elemForm pd e = ofText d.name := by
  simp [elemForm, h, hd]

@[simp] theorem formOf_nil {pd : ParserData I} : formOf pd [] = [] := rfl
@[simp] theorem formOf_cons {pd : ParserData I} {e : Nat} {es : List Nat} :
    formOf pd (e :: es) = elemForm pd e ++ formOf pd es := rfl
@[simp] theorem formOf_append {pd : ParserData I} {a b : List Nat} :
    formOf pd (a ++ b) = formOf pd a ++ formOf pd b := by simp [formOf]

theorem isFirst_terminal {G : Grammar} (name : Str) :
    IsFirst G (ofText name) (match name.head? with
      | none => [.empty]
      | some ch => [.char ch]) := by
  cases name with
  | nil =>
    refine ⟨?_, ?_, by simp, by simp⟩
    · intro c; simp [firstChar_ofText]
    · simp [nullable_ofText]
  | cons a s =>
    refine ⟨?_, ?_, by simp, by simp⟩
    · intro c
      simp [firstChar_ofText, eq_comm]
    · simp [nullable_ofText]

/-- The conditions under which the FIRST set of an element can be computed: everything looked at has a
rule, and the left-corner relation below it is well founded. -/
inductive FirstGood (pd : ParserData I) : Nat → Prop where
  | term {e : Nat} {d : ElementData} : pd.elementTypes[e]? = some .terminal →
      pd.elementData[e]? = some d → FirstGood pd e
  | nt {A : Nat} {r : NTRule I} : pd.elementTypes[A]? = some .nonTerminal →
      AMap.get pd.rules A = some r → (∀ p ∈ r.prods, p ≠ .notEmpty []) →
      (∀ p ∈ r.prods, ∀ a e b, prodElems p = a ++ e :: b →
        Nullable (grammarOf pd) (formOf pd a) → FirstGood pd e) → FirstGood pd A

/-- Memo table invariant. -/
def FInv (pd : ParserData I) (fs : NamedSets) : Prop :=
  ∀ A S, AMap.get fs A = some S →
    IsFirst (grammarOf pd) [.nt A] S ∧ FirstGood pd A ∧ pd.elementTypes[A]? = some .nonTerminal ∧
      A ∈ AMap.keys pd.rules

theorem FInv.nil {pd : ParserData I} : FInv pd [] := by intro A S h; simp at h

/-- What a successful call of the worker guarantees. -/
def RecSound (pd : ParserData I) (rec : FirstRec) : Prop :=
  ∀ el fs S fs', FInv pd fs → rec el fs = .ok (S, fs') →
    IsFirst (grammarOf pd) (elemForm pd el) S ∧ FInv pd fs' ∧ FirstGood pd el ∧
    (∀ A, A ∈ AMap.keys fs → A ∈ AMap.keys fs') ∧
    (pd.elementTypes[el]? = some .nonTerminal → el ∈ AMap.keys fs')

theorem isFirst_append_stop {G : Grammar} {u x y : Form} {M C : List SetMemberE}
    (hc : ∀ c, .char c ∈ M ↔ FirstChar G u c) (hu : Nullable G u)
    (hnt : SetMemberE.terminate ∉ M) (hnd : M.Nodup) (hC : IsFirst G x C) (hx : .empty ∉ C) :
    IsFirst G (u ++ (x ++ y)) (setRemove (setExtend M C) .empty) := by
  have hx' : ¬ Nullable G x := fun h => hx (hC.empty.mpr h)
  refine ⟨?_, ?_, ?_, nodup_setRemove (nodup_setExtend hnd _) _⟩
  · intro c
    simp [firstChar_append, hc, hC.char, hu, hx']
  · simp [nullable_append, hx']
  · simp [hnt, hC.noTerm]

theorem firstOfProdLoop_sound {pd : ParserData I} {rec : FirstRec} (hrec : RecSound pd rec)
    (els : List Nat) : ∀ (u : Form) (M : List SetMemberE) (fs : NamedSets) (S : List SetMemberE)
      (fs' : NamedSets), FInv pd fs → IsFirst (grammarOf pd) u M → Nullable (grammarOf pd) u →
      firstOfProdLoop rec els M fs = .ok (S, fs') →
      IsFirst (grammarOf pd) (u ++ formOf pd els) S ∧ FInv pd fs' ∧
      (∀ A, A ∈ AMap.keys fs → A ∈ AMap.keys fs') ∧
      (∀ a e b, els = a ++ e :: b → Nullable (grammarOf pd) (formOf pd a) → FirstGood pd e) := by
  induction els with
  | nil =>
    intro u M fs S fs' hfs hM hu h
    simp only [firstOfProdLoop, Res.ok.injEq, Prod.mk.injEq] at h
    obtain ⟨rfl, rfl⟩ := h
    simp [hM, hfs]
  | cons e es ih =>
    intro u M fs S fs' hfs hM hu h
    simp only [firstOfProdLoop] at h
    obtain ⟨⟨cur, fs1⟩, h1, h2⟩ := Res.bind_eq_ok.mp h
    obtain ⟨hC, hfs1, hg, hk, -⟩ := hrec _ _ _ _ hfs h1
    by_cases hem : SetMemberE.empty ∈ cur
    · simp only [hem, decide_true, Bool.not_true, Bool.false_eq_true, if_false] at h2
      have hne := hC.empty.mp hem
      have hM' : IsFirst (grammarOf pd) (u ++ elemForm pd e) (setExtend M cur) := by
        refine ⟨?_, ?_, ?_, nodup_setExtend hM.nodup _⟩
        · intro c; simp [firstChar_append, hM.char, hC.char, hu]
        · simp [nullable_append, hu, hne, hem]
        · simp [hM.noTerm, hC.noTerm]
      obtain ⟨r1, r2, r3, r4⟩ := ih _ _ _ _ _ hfs1 hM' (nullable_append.mpr ⟨hu, hne⟩) h2
      refine ⟨by simpa using r1, r2, fun A hA => r3 A (hk A hA), ?_⟩
      intro a e' b hab hna
      cases a with
      | nil => simp at hab; rw [← hab.1]; exact hg
      | cons a0 a =>
        simp at hab
        obtain ⟨rfl, rfl⟩ := hab
        simp [nullable_append] at hna
        exact r4 a e' b rfl hna.2
    · simp only [hem, decide_false, Bool.not_false, if_true, Res.pure_def, Res.ok.injEq,
        Prod.mk.injEq] at h2
      obtain ⟨rfl, rfl⟩ := h2
      refine ⟨by simpa using isFirst_append_stop hM.char hu hM.noTerm hM.nodup hC hem, hfs1, hk, ?_⟩
      intro a e' b hab hna
      cases a with
      | nil => simp at hab; rw [← hab.1]; exact hg
      | cons a0 a =>
        simp at hab
        obtain ⟨rfl, rfl⟩ := hab
        simp [nullable_append] at hna
        exact absurd (hC.empty.mpr hna.1) hem

theorem firstOfProd_sound {pd : ParserData I} {rec : FirstRec} (hrec : RecSound pd rec)
    {p : Production} {fs : NamedSets} {S : List SetMemberE} {fs' : NamedSets}
    (hfs : FInv pd fs) (h : firstOfProd rec p fs = .ok (S, fs')) :
    IsFirst (grammarOf pd) (formOf pd (prodElems p)) S ∧ FInv pd fs' ∧ p ≠ .notEmpty [] ∧
      (∀ A, A ∈ AMap.keys fs → A ∈ AMap.keys fs') ∧
      (∀ a e b, prodElems p = a ++ e :: b → Nullable (grammarOf pd) (formOf pd a) →
        FirstGood pd e) := by
  match p, h with
  | .empty, h =>
    simp only [firstOfProd, Res.ok.injEq, Prod.mk.injEq] at h
    obtain ⟨rfl, rfl⟩ := h
    refine ⟨⟨?_, ?_, by simp, by simp⟩, hfs, by simp, fun _ h => h, ?_⟩
    · intro c; simp [prodElems, not_firstChar_nil]
    · simp [prodElems, nullable_nil]
    · intro a e b hab; simp [prodElems] at hab
  | .notEmpty (el :: els), h =>
    simp only [firstOfProd] at h
    obtain ⟨⟨M, fs1⟩, h1, h2⟩ := Res.bind_eq_ok.mp h
    obtain ⟨hM, hfs1, hg, hk, -⟩ := hrec _ _ _ _ hfs h1
    by_cases hem : SetMemberE.empty ∈ M
    · simp only [hem, if_true] at h2
      obtain ⟨r1, r2, r3, r4⟩ :=
        firstOfProdLoop_sound hrec els _ _ _ _ _ hfs1 hM (hM.empty.mp hem) h2
      refine ⟨r1, r2, by simp, fun A hA => r3 A (hk A hA), ?_⟩
      intro a e' b hab hna
      cases a with
      | nil => simp [prodElems] at hab; rw [← hab.1]; exact hg
      | cons a0 a =>
        simp [prodElems] at hab
        obtain ⟨rfl, rfl⟩ := hab
        simp [nullable_append] at hna
        exact r4 a e' b rfl hna.2
    · simp only [hem, if_false, Res.pure_def, Res.ok.injEq, Prod.mk.injEq] at h2
      obtain ⟨rfl, rfl⟩ := h2
      have hne : ¬ Nullable (grammarOf pd) (elemForm pd el) := fun h => hem (hM.empty.mpr h)
      refine ⟨⟨?_, ?_, hM.noTerm, hM.nodup⟩, hfs1, by simp, hk, ?_⟩
      · intro c; simp [prodElems, firstChar_append, hM.char, hne]
      · simp [prodElems, nullable_append, hM.empty, hne]
      · intro a e' b hab hna
        cases a with
        | nil => simp [prodElems] at hab; rw [← hab.1]; exact hg
        | cons a0 a =>
          simp [prodElems] at hab
          obtain ⟨rfl, rfl⟩ := hab
          simp [nullable_append] at hna
          exact absurd hna.1 hne

theorem firstOfProds_sound {pd : ParserData I} {rec : FirstRec} (hrec : RecSound pd rec)
    (ps : List Production) : ∀ (S0 : List SetMemberE) (fs : NamedSets) (S : List SetMemberE)
      (fs' : NamedSets), FInv pd fs → SetMemberE.terminate ∉ S0 → S0.Nodup →
      firstOfProds rec ps S0 fs = .ok (S, fs') →
      (∀ c, .char c ∈ S ↔ .char c ∈ S0 ∨ ∃ p ∈ ps, FirstChar (grammarOf pd) (formOf pd (prodElems p)) c) ∧
      (.empty ∈ S ↔ .empty ∈ S0 ∨ ∃ p ∈ ps, Nullable (grammarOf pd) (formOf pd (prodElems p))) ∧
      SetMemberE.terminate ∉ S ∧ S.Nodup ∧ FInv pd fs' ∧
      (∀ A, A ∈ AMap.keys fs → A ∈ AMap.keys fs') ∧
      (∀ p ∈ ps, p ≠ .notEmpty []) ∧
      (∀ p ∈ ps, ∀ a e b, prodElems p = a ++ e :: b → Nullable (grammarOf pd) (formOf pd a) →
        FirstGood pd e) := by
  induction ps with
  | nil =>
    intro S0 fs S fs' hfs ht hn h
    simp only [firstOfProds, Res.ok.injEq, Prod.mk.injEq] at h
    obtain ⟨rfl, rfl⟩ := h
    simp [hfs, ht, hn]
  | cons p ps ih =>
    intro S0 fs S fs' hfs ht hn h
    simp only [firstOfProds] at h
    obtain ⟨⟨M, fs1⟩, h1, h2⟩ := Res.bind_eq_ok.mp h
    obtain ⟨hM, hfs1, hpne, hk, hg⟩ := firstOfProd_sound hrec hfs h1
    obtain ⟨r1, r2, r3, r4, r5, r6, r7, r8⟩ := ih _ _ _ _ hfs1
      (by simp [ht, hM.noTerm]) (nodup_setExtend hn _) h2
    refine ⟨?_, ?_, r3, r4, r5, fun A hA => r6 A (hk A hA), ?_, ?_⟩
    · intro c; rw [r1 c]; simp [hM.char, or_assoc]
    · rw [r2]; simp [hM.empty, or_assoc]
    · intro q hq
      rcases List.mem_cons.mp hq with rfl | hq
      · exact hpne
      · exact r7 q hq
    · intro q hq
      rcases List.mem_cons.mp hq with rfl | hq
      · exact hg
      · exact r8 q hq

theorem getFirstSetOfElement_ok {pd : ParserData I} {fs : NamedSets} {el : Nat}
    {o : Option (List SetMemberE)} (h : getFirstSetOfElement pd fs el = .ok o) :
    (pd.elementTypes[el]? = some .nonTerminal ∧ o = AMap.get fs el) ∨
    (∃ d, pd.elementTypes[el]? = some .terminal ∧ pd.elementData[el]? = some d ∧
      o = some (match d.name.head? with
        | none => [.empty]
        | some ch => [.char ch])) := by
  simp only [getFirstSetOfElement] at h
  obtain ⟨et, h1, h2⟩ := Res.bind_eq_ok.mp h
  rw [Res.unwrapO_eq_ok] at h1
  cases et with
  | nonTerminal => simp at h2; exact .inl ⟨h1, h2.symm⟩
  | terminal =>
    right
    simp only at h2
    obtain ⟨d, h3, h4⟩ := Res.bind_eq_ok.mp h2
    rw [Res.unwrapO_eq_ok] at h3
    refine ⟨d, h1, h3, ?_⟩
    cases hd : d.name.head? <;> simp [hd] at h4 <;> simp [← h4]

theorem getSet_sound (pd : ParserData I) (fuel : Nat) : RecSound pd (getSetFirstSetOfElement pd fuel) := by
  induction fuel with
  | zero => intro el fs S fs' _ h; simp [getSetFirstSetOfElement] at h
  | succ fuel ih =>
    intro el fs S fs' hfs h
    simp only [getSetFirstSetOfElement] at h
    obtain ⟨o, h1, h2⟩ := Res.bind_eq_ok.mp h
    rcases getFirstSetOfElement_ok h1 with ⟨hty, rfl⟩ | ⟨d, hty, hd, rfl⟩
    · cases hg : AMap.get fs el with
      | some x =>
        simp [hg] at h2
        obtain ⟨rfl, rfl⟩ := h2
        obtain ⟨a1, a2, a3, a4⟩ := hfs el x hg
        refine ⟨by rw [elemForm_nonTerminal hty]; exact a1, hfs, a2, fun _ h => h, fun _ => ?_⟩
        exact AMap.mem_keys_iff.mpr ⟨x, hg⟩
      | none =>
        simp only [hg] at h2
        cases hr : AMap.get pd.rules el with
        | none => simp [hr] at h2
        | some r =>
          simp only [hr] at h2
          obtain ⟨⟨S1, fs1⟩, h3, h4⟩ := Res.bind_eq_ok.mp h2
          simp at h4
          obtain ⟨rfl, rfl⟩ := h4
          obtain ⟨r1, r2, r3, r4, r5, r6, r7, r8⟩ :=
            firstOfProds_sound ih r.prods [] fs _ _ hfs (by simp) (by simp) h3
          have hF : IsFirst (grammarOf pd) [.nt el] S1 := by
            refine ⟨?_, ?_, r3, r4⟩
            · intro c
              rw [r1 c, firstChar_nt]
              simp [grammarOf, hr, exists_assoc_form]
            · rw [r2, nullable_nt]
              simp [grammarOf, hr, exists_assoc_form]
          have hG : FirstGood pd el := .nt hty hr r7 r8
          refine ⟨by rw [elemForm_nonTerminal hty]; exact hF, ?_, hG, ?_, ?_⟩
          · intro A S hA
            rw [AMap.get_insert] at hA
            split at hA
            · rename_i heq; subst heq
              simp at hA; subst hA
              exact ⟨hF, hG, hty, AMap.mem_keys_iff.mpr ⟨r, hr⟩⟩
            · exact r5 A S hA
          · intro A hA
            exact AMap.mem_keys_insert.mpr (.inr (r6 A hA))
          · intro _
            exact AMap.mem_keys_insert.mpr (.inl rfl)
    · simp at h2
      obtain ⟨rfl, rfl⟩ := h2
      refine ⟨by rw [elemForm_terminal hty hd]; exact isFirst_terminal _, hfs, .term hty hd,
        fun _ h => h, ?_⟩
      intro h; rw [hty] at h; simp at h

theorem getFirstSetsLoop_sound {pd : ParserData I} {fuel : Nat} (els : List Nat) :
    ∀ (fs fs' : NamedSets), FInv pd fs → getFirstSetsLoop pd fuel els fs = .ok fs' →
      FInv pd fs' ∧ (∀ A, A ∈ AMap.keys fs → A ∈ AMap.keys fs') ∧
      (∀ e ∈ els, FirstGood pd e ∧
        (pd.elementTypes[e]? = some .nonTerminal → e ∈ AMap.keys fs')) := by
  induction els with
  | nil =>
    intro fs fs' hfs h
    simp [getFirstSetsLoop] at h
    subst h
    simp [hfs]
  | cons e els ih =>
    intro fs fs' hfs h
    simp only [getFirstSetsLoop] at h
    obtain ⟨⟨S, fs1⟩, h1, h2⟩ := Res.bind_eq_ok.mp h
    obtain ⟨-, hfs1, hg, hk, hin⟩ := getSet_sound pd fuel _ _ _ _ hfs h1
    obtain ⟨r1, r2, r3⟩ := ih _ _ hfs1 h2
    refine ⟨r1, fun A hA => r2 A (hk A hA), ?_⟩
    intro e' he'
    rcases List.mem_cons.mp he' with rfl | he'
    · exact ⟨hg, fun h => r2 _ (hin h)⟩
    · exact r3 e' he'

theorem getFirstSets_sound {ho : HashOrder} {fuel : Nat} {pd : ParserData I} {fs : NamedSets}
    (h : getFirstSets ho fuel pd = .ok fs) :
    FInv pd fs ∧ ∀ A ∈ AMap.keys pd.rules, FirstGood pd A ∧
      (pd.elementTypes[A]? = some .nonTerminal → A ∈ AMap.keys fs) := by
  obtain ⟨h1, -, h3⟩ := getFirstSetsLoop_sound _ _ _ FInv.nil h
  refine ⟨h1, fun A hA => h3 A ?_⟩
  exact (ho.perm 1 Nat _).mem_iff.mpr hA

/-! ### Success with enough fuel -/

/-- With enough fuel the worker succeeds on `e` whatever (correct) table it starts from. -/
def Succeeds (pd : ParserData I) (e N : Nat) : Prop :=
  ∀ fuel, N ≤ fuel → ∀ fs, FInv pd fs → ∃ r, getSetFirstSetOfElement pd fuel e fs = .ok r

theorem Succeeds.mono {pd : ParserData I} {e N M : Nat} (h : Succeeds pd e N) (hNM : N ≤ M) :
    Succeeds pd e M := fun fuel hf => h fuel (Nat.le_trans hNM hf)

theorem firstOfProdLoop_complete {pd : ParserData I} (els : List Nat) :
    (∀ a e b, els = a ++ e :: b → Nullable (grammarOf pd) (formOf pd a) → ∃ N, Succeeds pd e N) →
    ∃ N, ∀ fuel, N ≤ fuel → ∀ M fs, FInv pd fs →
      ∃ r, firstOfProdLoop (getSetFirstSetOfElement pd fuel) els M fs = .ok r := by
  induction els with
  | nil => intro _; exact ⟨0, fun fuel _ M fs _ => ⟨_, rfl⟩⟩
  | cons e es ih =>
    intro h
    obtain ⟨N1, h1⟩ := h [] e es rfl nullable_nil
    by_cases hne : Nullable (grammarOf pd) (elemForm pd e)
    · obtain ⟨N2, h2⟩ := ih (fun a e' b hab hna =>
        h (e :: a) e' b (by simp [hab]) (by simp [nullable_append, hne, hna]))
      refine ⟨max N1 N2, fun fuel hf M fs hfs => ?_⟩
      obtain ⟨⟨S, fs1⟩, hr⟩ := h1 fuel (by omega) fs hfs
      obtain ⟨hC, hfs1, -⟩ := getSet_sound pd fuel _ _ _ _ hfs hr
      obtain ⟨r, hr2⟩ := h2 fuel (by omega) (setExtend M S) fs1 hfs1
      refine ⟨r, ?_⟩
      have hem := hC.empty.mpr hne
      simp [firstOfProdLoop, hr, hem, hr2]
    · refine ⟨N1, fun fuel hf M fs hfs => ?_⟩
      obtain ⟨⟨S, fs1⟩, hr⟩ := h1 fuel hf fs hfs
      obtain ⟨hC, hfs1, -⟩ := getSet_sound pd fuel _ _ _ _ hfs hr
      have hem : SetMemberE.empty ∉ S := fun h => hne (hC.empty.mp h)
      exact ⟨_, by simp [firstOfProdLoop, hr, hem]; rfl⟩

theorem firstOfProd_complete {pd : ParserData I} {p : Production} (hp : p ≠ .notEmpty []) :
    (∀ a e b, prodElems p = a ++ e :: b → Nullable (grammarOf pd) (formOf pd a) →
      ∃ N, Succeeds pd e N) →
    ∃ N, ∀ fuel, N ≤ fuel → ∀ fs, FInv pd fs →
      ∃ r, firstOfProd (getSetFirstSetOfElement pd fuel) p fs = .ok r := by
  match p, hp with
  | .empty, _ => intro _; exact ⟨0, fun fuel _ fs _ => ⟨_, rfl⟩⟩
  | .notEmpty (e :: es), _ =>
    intro h
    obtain ⟨N1, h1⟩ := h [] e es rfl nullable_nil
    by_cases hne : Nullable (grammarOf pd) (elemForm pd e)
    · obtain ⟨N2, h2⟩ := firstOfProdLoop_complete es (fun a e' b hab hna =>
        h (e :: a) e' b (by simp [prodElems, hab]) (by simp [nullable_append, hne, hna]))
      refine ⟨max N1 N2, fun fuel hf fs hfs => ?_⟩
      obtain ⟨⟨S, fs1⟩, hr⟩ := h1 fuel (by omega) fs hfs
      obtain ⟨hC, hfs1, -⟩ := getSet_sound pd fuel _ _ _ _ hfs hr
      obtain ⟨r, hr2⟩ := h2 fuel (by omega) S fs1 hfs1
      refine ⟨r, ?_⟩
      have hem := hC.empty.mpr hne
      simp [firstOfProd, hr, hem, hr2]
    · refine ⟨N1, fun fuel hf fs hfs => ?_⟩
      obtain ⟨⟨S, fs1⟩, hr⟩ := h1 fuel hf fs hfs
      obtain ⟨hC, hfs1, -⟩ := getSet_sound pd fuel _ _ _ _ hfs hr
      have hem : SetMemberE.empty ∉ S := fun h => hne (hC.empty.mp h)
      exact ⟨_, by simp [firstOfProd, hr, hem]; rfl⟩

theorem firstOfProds_complete {pd : ParserData I} (ps : List Production) :
    (∀ p ∈ ps, p ≠ .notEmpty []) →
    (∀ p ∈ ps, ∀ a e b, prodElems p = a ++ e :: b → Nullable (grammarOf pd) (formOf pd a) →
      ∃ N, Succeeds pd e N) →
    ∃ N, ∀ fuel, N ≤ fuel → ∀ S fs, FInv pd fs →
      ∃ r, firstOfProds (getSetFirstSetOfElement pd fuel) ps S fs = .ok r := by
  induction ps with
  | nil => intro _ _; exact ⟨0, fun fuel _ S fs _ => ⟨_, rfl⟩⟩
  | cons p ps ih =>
    intro h h'
    obtain ⟨N1, h1⟩ := firstOfProd_complete (h p (by simp)) (h' p (by simp))
    obtain ⟨N2, h2⟩ := ih (fun q hq => h q (by simp [hq])) (fun q hq => h' q (by simp [hq]))
    refine ⟨max N1 N2, fun fuel hf S fs hfs => ?_⟩
    obtain ⟨⟨M, fs1⟩, hr⟩ := h1 fuel (by omega) fs hfs
    obtain ⟨-, hfs1, -⟩ := firstOfProd_sound (getSet_sound pd fuel) hfs hr
    obtain ⟨r, hr2⟩ := h2 fuel (by omega) (setExtend S M) fs1 hfs1
    exact ⟨r, by simp [firstOfProds, hr, hr2]⟩

theorem FirstGood.succeeds {pd : ParserData I} {e : Nat} (h : FirstGood pd e) :
    ∃ N, Succeeds pd e N := by
  induction h with
  | @term e d hty hd =>
    refine ⟨1, fun fuel hf fs _ => ?_⟩
    obtain ⟨k, rfl⟩ : ∃ k, fuel = k + 1 := ⟨fuel - 1, by omega⟩
    cases hh : d.name.head? with
    | none =>
      exact ⟨_, by simp [getSetFirstSetOfElement, getFirstSetOfElement, hty,
        ParserData.getElementData, hd, hh]; rfl⟩
    | some ch =>
      exact ⟨_, by simp [getSetFirstSetOfElement, getFirstSetOfElement, hty,
        ParserData.getElementData, hd, hh]; rfl⟩
  | @nt A r hty hr hne _ ih =>
    obtain ⟨N, hN⟩ := firstOfProds_complete r.prods hne ih
    refine ⟨N + 1, fun fuel hf fs hfs => ?_⟩
    obtain ⟨k, rfl⟩ : ∃ k, fuel = k + 1 := ⟨fuel - 1, by omega⟩
    cases hg : AMap.get fs A with
    | some x => exact ⟨_, by simp [getSetFirstSetOfElement, getFirstSetOfElement, hty, hg]; rfl⟩
    | none =>
      obtain ⟨⟨S, fs1⟩, h2⟩ := hN k (by omega) [] fs hfs
      exact ⟨_, by simp [getSetFirstSetOfElement, getFirstSetOfElement, hty, hg, hr, h2]; rfl⟩

theorem exists_uniform {α : Type} {P : α → Nat → Prop} (hmono : ∀ a m n, m ≤ n → P a m → P a n)
    (l : List α) (h : ∀ a ∈ l, ∃ N, P a N) : ∃ N, ∀ a ∈ l, P a N := by
  induction l with
  | nil => exact ⟨0, by simp⟩
  | cons a l ih =>
    obtain ⟨N1, h1⟩ := h a (by simp)
    obtain ⟨N2, h2⟩ := ih (fun b hb => h b (by simp [hb]))
    refine ⟨max N1 N2, fun b hb => ?_⟩
    rcases List.mem_cons.mp hb with rfl | hb
    · exact hmono _ _ _ (by omega) h1
    · exact hmono _ _ _ (by omega) (h2 b hb)

theorem getFirstSetsLoop_complete {pd : ParserData I} {fuel : Nat} (els : List Nat)
    (h : ∀ e ∈ els, Succeeds pd e fuel) :
    ∀ fs, FInv pd fs → ∃ fs', getFirstSetsLoop pd fuel els fs = .ok fs' := by
  induction els with
  | nil => intro fs _; exact ⟨fs, rfl⟩
  | cons e els ih =>
    intro fs hfs
    obtain ⟨⟨S, fs1⟩, hr⟩ := h e (by simp) fuel (Nat.le_refl _) fs hfs
    obtain ⟨-, hfs1, -⟩ := getSet_sound pd fuel _ _ _ _ hfs hr
    obtain ⟨fs2, hr2⟩ := ih (fun e' he' => h e' (by simp [he'])) fs1 hfs1
    exact ⟨fs2, by simp [getFirstSetsLoop, hr, hr2]⟩

/-- With enough fuel (independent of the hash order) `get_first_sets` succeeds. -/
theorem getFirstSets_complete {pd : ParserData I} (h : ∀ A ∈ AMap.keys pd.rules, FirstGood pd A) :
    ∃ N, ∀ fuel, N ≤ fuel → ∀ ho : HashOrder, ∃ fs, getFirstSets ho fuel pd = .ok fs := by
  obtain ⟨N, hN⟩ := exists_uniform (P := fun e N => Succeeds pd e N)
    (fun a m n hmn h => h.mono hmn) (AMap.keys pd.rules) (fun A hA => (h A hA).succeeds)
  refine ⟨N, fun fuel hf ho => ?_⟩
  apply getFirstSetsLoop_complete _ _ _ FInv.nil
  intro e he
  exact (hN e ((ho.perm 1 Nat _).mem_iff.mp he)).mono hf

end HPP
