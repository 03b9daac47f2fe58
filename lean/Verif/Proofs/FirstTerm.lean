import Verif.Proofs.First
import Verif.Spec.Grammar
import Mathlib.Data.Fintype.Card
import Mathlib.Data.Fintype.EquivFin
/-
Termination of the FIRST computation in terms of left recursion.
-/
namespace HPP
open Spec Relation
variable {I : Type}

theorem WellFormed.element {pd : ParserData I} (hw : WellFormed pd) {e : Nat}
    (he : e < pd.elementTypes.length) :
    (∃ d, pd.elementTypes[e]? = some .terminal ∧ pd.elementData[e]? = some d) ∨
      pd.elementTypes[e]? = some .nonTerminal := by
  have h2 : e < pd.elementData.length := hw.lengths ▸ he
  rw [List.getElem?_eq_getElem he, List.getElem?_eq_getElem h2]
  cases pd.elementTypes[e] <;> simp

/-- Splitting the form of an element list at a non-terminal. -/
theorem formOf_split {pd : ParserData I} {els : List Nat} {u v : Form} {B : Nat}
    (h : formOf pd els = u ++ .nt B :: v) :
    ∃ a b, els = a ++ B :: b ∧ formOf pd a = u ∧ formOf pd b = v ∧ elemForm pd B = [.nt B] := by
  induction els generalizing u with
  | nil => simp at h
  | cons e es ih =>
    have hcase : (∃ s, elemForm pd e = ofText s) ∨ elemForm pd e = [.nt e] := by
      unfold elemForm
      split
      · exact .inl ⟨_, rfl⟩
      · exact .inr rfl
    rcases hcase with ⟨s, hs⟩ | hs
    · simp only [formOf_cons, hs] at h
      rcases List.append_eq_append_iff.mp h with ⟨c, hc1, hc2⟩ | ⟨c, hc1, hc2⟩
      · obtain ⟨a, b, rfl, h1, h2, h3⟩ := ih hc2
        exact ⟨e :: a, b, rfl, by simp [hs, h1, hc1], h2, h3⟩
      · cases c with
        | nil =>
          simp at hc2
          obtain ⟨a, b, rfl, h1, h2, h3⟩ := ih (u := []) (by simp [hc2])
          refine ⟨e :: a, b, rfl, ?_, h2, h3⟩
          simp at hc1
          simp [hs, h1, hc1]
        | cons x c =>
          simp at hc2
          have : Sym.nt B ∈ ofText s := by rw [hc1, hc2.1]; simp
          simp [ofText] at this
    · simp only [formOf_cons, hs] at h
      cases u with
      | nil =>
        simp at h
        obtain ⟨rfl, h⟩ := h
        exact ⟨[], es, rfl, rfl, h, hs⟩
      | cons x u =>
        simp at h
        obtain ⟨rfl, h⟩ := h
        obtain ⟨a, b, rfl, h1, h2, h3⟩ := ih h
        exact ⟨e :: a, b, rfl, by simp [hs, h1], h2, h3⟩

theorem FirstGood.no_leftRec {pd : ParserData I} {A : Nat} (h : FirstGood pd A) :
    Acc (fun B A => LeftCorner (grammarOf pd) A B ∧ pd.elementTypes[A]? = some .nonTerminal) A := by
  induction h with
  | @term e d hty hd =>
    constructor
    rintro B ⟨-, h⟩
    rw [hty] at h; simp at h
  | @nt A r hty hr hne _ ih =>
    constructor
    rintro B ⟨⟨u, v, ⟨r', hr', p, hp, hpf⟩, hu⟩, -⟩
    rw [hr] at hr'
    cases hr'
    obtain ⟨a, b, hab, ha, hb, hB⟩ := formOf_split hpf.symm
    exact ih p hp a B b hab (by rw [ha]; exact hu)

theorem acc_irrefl {α : Type} {r : α → α → Prop} {a : α} (h : Acc r a) : ¬ r a a := by
  induction h with
  | intro x _ ih => exact fun hx => ih x hx hx

theorem transGen_swap {α : Type} {r : α → α → Prop} {x y : α}
    (h : TransGen (fun x y => r y x) x y) : TransGen r y x := by
  induction h with
  | single h => exact .single h
  | tail _ h ih => exact TransGen.head h ih

/-- A non-terminal whose FIRST set can be computed is not left recursive. -/
theorem FirstGood.not_leftRecursive {pd : ParserData I} (hw : ∀ A r, AMap.get pd.rules A = some r →
    pd.elementTypes[A]? = some .nonTerminal) {A : Nat} (h : FirstGood pd A) :
    ¬ LeftRecursive (grammarOf pd) A := by
  rw [leftRecursive_iff]
  intro hlc
  have hacc := h.no_leftRec.transGen
  refine acc_irrefl hacc (transGen_swap (TransGen.mono ?_ _ _ hlc))
  intro x y hxy
  have hxy' := hxy
  obtain ⟨u, v, ⟨r, hr, -⟩, -⟩ := hxy
  exact ⟨hxy', hw x r hr⟩

/-- Without left recursion and undefined symbols every FIRST set can be computed. -/
theorem firstGood_of_not_leftRecursive {pd : ParserData I} (hw : WellFormed pd) (hd : AllDefined pd)
    (hlr : ∀ A, ¬ LeftRecursive (grammarOf pd) A) :
    ∀ A ∈ AMap.keys pd.rules, FirstGood pd A := by
  let T := {A // A ∈ AMap.keys pd.rules}
  let R : T → T → Prop := fun B A => TransGen (LeftCorner (grammarOf pd)) A.1 B.1
  have : Finite T := 
    Finite.of_injective (fun x : T => (⟨(AMap.keys pd.rules).idxOf x.1,
      List.idxOf_lt_length_of_mem x.2⟩ : Fin (AMap.keys pd.rules).length)) (by
        intro x y hxy
        simp only [Fin.mk.injEq] at hxy
        exact Subtype.ext (List.idxOf_inj x.2 |>.mp hxy))
  have ht : IsTrans T R := ⟨fun a b c hab hbc => TransGen.trans hbc hab⟩
  have hi : Std.Irrefl R := ⟨fun a h => hlr a.1 (leftRecursive_iff.mpr h)⟩
  have hwf : WellFounded R := Finite.wellFounded_of_trans_of_irrefl R
  intro A hA
  suffices h : ∀ x : T, FirstGood pd x.1 from h ⟨A, hA⟩
  intro x
  induction x using hwf.induction with
  | _ x ih =>
    obtain ⟨A, hA⟩ := x
    obtain ⟨r, hr⟩ := AMap.mem_keys_iff.mp hA
    refine .nt (hw.keysNT A r hr) hr (hw.nonEmpty A r hr) ?_
    intro p hp a e b hab hna
    have hmem : e ∈ prodElems p := by rw [hab]; simp
    rcases WellFormed.element hw (hw.inRange A r hr p hp e hmem) with ⟨d, h1, h2⟩ | h1
    · exact .term h1 h2
    · obtain ⟨r', hr'⟩ := hd A r hr p hp e hmem h1
      refine ih ⟨e, AMap.mem_keys_iff.mpr ⟨r', hr'⟩⟩ (TransGen.single ?_)
      refine ⟨formOf pd a, formOf pd b, ⟨r, hr, p, hp, ?_⟩, hna⟩
      rw [hab]; simp [elemForm_nonTerminal h1]

/-! ### No errors on complete grammars -/

/-- Neither an error nor a panic. -/
def Clean {ε α : Type} (r : Res ε α) : Prop := (∃ a, r = .ok a) ∨ r = .timeout

theorem Clean.bind {ε α β : Type} {r : Res ε α} {f : α → Res ε β} (h : Clean r)
    (hf : ∀ a, r = .ok a → Clean (f a)) : Clean (r >>= f) := by
  rcases h with ⟨a, rfl⟩ | rfl
  · exact hf a rfl
  · exact .inr rfl

theorem Clean.ok {ε α : Type} (a : α) : Clean (.ok a : Res ε α) := .inl ⟨a, rfl⟩

/-- Elements that exist, and have a rule if they are non-terminals. -/
def Usable (pd : ParserData I) (e : Nat) : Prop :=
  (∃ d, pd.elementTypes[e]? = some .terminal ∧ pd.elementData[e]? = some d) ∨
    (pd.elementTypes[e]? = some .nonTerminal ∧ ∃ r, AMap.get pd.rules e = some r)

theorem usable_of_mem {pd : ParserData I} (hw : WellFormed pd) (hd : AllDefined pd) {A : Nat}
    {r : NTRule I} (hr : AMap.get pd.rules A = some r) {p : Production} (hp : p ∈ r.prods) {e : Nat}
    (he : e ∈ prodElems p) : Usable pd e := by
  rcases WellFormed.element hw (hw.inRange A r hr p hp e he) with h | h
  · exact .inl h
  · exact .inr ⟨h, hd A r hr p hp e he h⟩

theorem firstOfProdLoop_clean {pd : ParserData I} {rec : FirstRec}
    (hrec : ∀ e fs, Usable pd e → Clean (rec e fs)) (els : List Nat) (hels : ∀ e ∈ els, Usable pd e) :
    ∀ M fs, Clean (firstOfProdLoop rec els M fs) := by
  induction els with
  | nil => intro M fs; exact .ok _
  | cons e es ih =>
    intro M fs
    refine (hrec e fs (hels e (by simp))).bind ?_
    intro a _
    dsimp only
    split
    · exact .ok _
    · exact ih (fun e' he' => hels e' (by simp [he'])) _ _

theorem firstOfProds_clean {pd : ParserData I} {rec : FirstRec}
    (hrec : ∀ e fs, Usable pd e → Clean (rec e fs)) (ps : List Production)
    (hne : ∀ p ∈ ps, p ≠ .notEmpty [])
    (hels : ∀ p ∈ ps, ∀ e ∈ prodElems p, Usable pd e) :
    ∀ S fs, Clean (firstOfProds rec ps S fs) := by
  induction ps with
  | nil => intro S fs; exact .ok _
  | cons p ps ih =>
    intro S fs
    refine Clean.bind ?_ (fun a _ => ih (fun q hq => hne q (by simp [hq]))
      (fun q hq => hels q (by simp [hq])) _ _)
    have hp := hne p (by simp)
    have he := hels p (by simp)
    match p, hp, he with
    | .empty, _, _ => exact .ok _
    | .notEmpty (e :: es), _, he =>
      refine (hrec e fs (he e (by simp [prodElems]))).bind ?_
      intro a _
      dsimp only
      split
      · exact firstOfProdLoop_clean hrec es (fun e' he' => he e' (by simp [prodElems, he'])) _ _
      · exact .ok _

theorem getSet_clean {pd : ParserData I} (hw : WellFormed pd) (hd : AllDefined pd) (fuel : Nat) :
    ∀ e fs, Usable pd e → Clean (getSetFirstSetOfElement pd fuel e fs) := by
  induction fuel with
  | zero => intro e fs _; exact .inr rfl
  | succ fuel ih =>
    intro e fs he
    rcases he with ⟨d, h1, h2⟩ | ⟨h1, r, hr⟩
    · simp only [getSetFirstSetOfElement, getFirstSetOfElement, h1, ParserData.getElementData, h2,
        Res.unwrapO_some, Res.bind_ok]
      cases d.name.head? <;> exact .ok _
    · simp only [getSetFirstSetOfElement, getFirstSetOfElement, h1, Res.unwrapO_some, Res.bind_ok,
        Res.pure_def, hr]
      cases AMap.get fs e with
      | some x => exact .ok _
      | none =>
        refine Clean.bind (firstOfProds_clean ih r.prods (hw.nonEmpty e r hr)
          (fun p hp e' he' => usable_of_mem hw hd hr hp he') _ _) (fun a _ => .ok _)

theorem getFirstSets_clean {pd : ParserData I} (hw : WellFormed pd) (hd : AllDefined pd)
    (ho : HashOrder) (fuel : Nat) : Clean (getFirstSets ho fuel pd) := by
  have key : ∀ els : List Nat, (∀ e ∈ els, Usable pd e) → ∀ fs,
      Clean (getFirstSetsLoop pd fuel els fs) := by
    intro els
    induction els with
    | nil => intro _ fs; exact .ok _
    | cons e es ih =>
      intro h fs
      exact (getSet_clean hw hd fuel e fs (h e (by simp))).bind
        (fun a _ => ih (fun e' he' => h e' (by simp [he'])) _)
  refine key _ ?_ _
  intro e he
  obtain ⟨r, hr⟩ := AMap.mem_keys_iff.mp ((ho.perm 1 Nat _).mem_iff.mp he)
  exact .inr ⟨hw.keysNT e r hr, r, hr⟩

/-! ### FIRST of a sequence -/

theorem firstSetOfPartialLoop_exact {pd : ParserData I} {fs : NamedSets} (hfs : FInv pd fs)
    (els : List Nat) : ∀ (u : Form) (M S : List SetMemberE),
      (∀ c, .char c ∈ M ↔ FirstChar (grammarOf pd) u c) → Nullable (grammarOf pd) u →
      SetMemberE.terminate ∉ M → M.Nodup → (.empty ∈ M ∨ els ≠ []) →
      firstSetOfPartialLoop pd fs els M = .ok S →
      IsFirst (grammarOf pd) (u ++ formOf pd els) S := by
  induction els with
  | nil =>
    intro u M S hc hu ht hn he h
    simp [firstSetOfPartialLoop] at h
    subst h
    have he' : SetMemberE.empty ∈ M := by simpa using he
    exact ⟨by simpa using hc, by simp [he', hu], ht, hn⟩
  | cons e es ih =>
    intro u M S hc hu ht hn he h
    simp only [firstSetOfPartialLoop] at h
    obtain ⟨o, h1, h2⟩ := Res.bind_eq_ok.mp h
    obtain ⟨C, h3, h4⟩ := Res.bind_eq_ok.mp h2
    rw [Res.ofOption_eq_ok] at h3
    subst h3
    have hC : IsFirst (grammarOf pd) (elemForm pd e) C := by
      rcases getFirstSetOfElement_ok h1 with ⟨hty, ho⟩ | ⟨d, hty, hd, ho⟩
      · rw [elemForm_nonTerminal hty]; exact (hfs e C ho.symm).1
      · rw [elemForm_terminal hty hd]
        simp at ho
        rw [ho]
        exact isFirst_terminal _
    by_cases hem : SetMemberE.empty ∈ C
    · simp only [hem, decide_true, Bool.not_true, Bool.false_eq_true, if_false] at h4
      have hne := hC.empty.mp hem
      have := ih (u ++ elemForm pd e) _ _ ?_ (nullable_append.mpr ⟨hu, hne⟩) ?_
        (nodup_setExtend hn _) (.inl (by simp [hem])) h4
      · simpa using this
      · intro c; simp [firstChar_append, hc, hC.char, hu]
      · simp [ht, hC.noTerm]
    · simp only [hem, decide_false, Bool.not_false, if_true, Res.pure_def, Res.ok.injEq] at h4
      subst h4
      simpa using isFirst_append_stop hc hu ht hn hC hem

theorem firstSetOfPartial_exact {pd : ParserData I} {fs : NamedSets} (hfs : FInv pd fs)
    {els : List Nat} {S : List SetMemberE} (hne : els ≠ [])
    (h : firstSetOfPartial pd fs els = .ok S) :
    IsFirst (grammarOf pd) (formOf pd els) S := by
  have := firstSetOfPartialLoop_exact hfs els [] [] S (by simp [not_firstChar_nil]) nullable_nil
    (by simp) (by simp) (.inr hne) h
  simpa using this

theorem firstSetOfPartial_succeeds {pd : ParserData I} {fs : NamedSets} {els : List Nat}
    (h : ∀ e ∈ els, (∃ d, pd.elementTypes[e]? = some .terminal ∧ pd.elementData[e]? = some d) ∨
      (pd.elementTypes[e]? = some .nonTerminal ∧ e ∈ AMap.keys fs)) :
    ∃ S, firstSetOfPartial pd fs els = .ok S := by
  have key : ∀ els : List Nat, (∀ e ∈ els, (∃ d, pd.elementTypes[e]? = some .terminal ∧
      pd.elementData[e]? = some d) ∨ (pd.elementTypes[e]? = some .nonTerminal ∧ e ∈ AMap.keys fs)) →
      ∀ M, ∃ S, firstSetOfPartialLoop pd fs els M = .ok S := by
    intro els
    induction els with
    | nil => intro _ M; exact ⟨M, rfl⟩
    | cons e es ih =>
      intro h M
      have : ∃ C, getFirstSetOfElement pd fs e = .ok (some C) := by
        rcases h e (by simp) with ⟨d, h1, h2⟩ | ⟨h1, h2⟩
        · cases hh : d.name.head? with
          | none => exact ⟨_, by simp [getFirstSetOfElement, h1, ParserData.getElementData, h2, hh]; rfl⟩
          | some ch => exact ⟨_, by simp [getFirstSetOfElement, h1, ParserData.getElementData, h2, hh]; rfl⟩
        · obtain ⟨S, hS⟩ := AMap.mem_keys_iff.mp h2
          exact ⟨S, by simp [getFirstSetOfElement, h1, hS]⟩
      obtain ⟨C, hC⟩ := this
      simp only [firstSetOfPartialLoop, hC, Res.bind_ok, Res.ofOption_some]
      split
      · exact ⟨_, rfl⟩
      · exact ih (fun e' he' => h e' (by simp [he'])) _
  exact key els h []

end HPP
