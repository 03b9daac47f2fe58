import Verif.Spec.Factor
import Verif.Proofs.EndMark
namespace HPP
open Spec
set_option linter.unusedSectionVars false
variable {I S : Type} {pd pd' : ParserData I} {st x : Nat} {body : List Nat}

/-- The form with `B` in the place of the non-terminal `x`. -/
def unForm (x : Nat) (B : Form) (w : Form) : Form := w.flatMap fun
  | .ch c => [.ch c]
  | .nt A => if A = x then B else [.nt A]

theorem unForm_append {B u v : Form} : unForm x B (u ++ v) = unForm x B u ++ unForm x B v := List.flatMap_append

theorem unForm_free {B w : Form} (h : Sym.nt x ∉ w) : unForm x B w = w := by
  induction w with
  | nil => rfl
  | cons a w ih =>
    have h1 : Sym.nt x ∉ w := fun hx => h (.tail _ hx)
    have h2 : Sym.nt x ≠ a := fun hx => h (hx ▸ .head _)
    have ih := ih h1
    unfold unForm at ih ⊢
    rw [List.flatMap_cons, ih]
    cases a with
    | ch c => rfl
    | nt A =>
      have : A ≠ x := fun hA => h2 (by rw [hA])
      simp [this]

theorem unForm_ofText {B : Form} (s : Str) : unForm x B (ofText s) = ofText s :=
  unForm_free (by simp [ofText])

theorem unForm_nt_ne {B : Form} {A : Nat} (h : A ≠ x) : unForm x B [.nt A] = [.nt A] := unForm_free (by simpa using h.symm)

theorem unForm_nt {B : Form} : unForm x B [.nt x] = B := by simp [unForm]

theorem unForm_cons_nt {B w : Form} {A : Nat} (h : A ≠ x) : unForm x B (.nt A :: w) = .nt A :: unForm x B w := by
  simp [unForm, h]

theorem unForm_cons_ch {B w : Form} {c : Char} : unForm x B (.ch c :: w) = .ch c :: unForm x B w := by
  simp [unForm]

theorem inlineEls_cons_self {els : List Nat} : inlineEls x body (x :: els) = body ++ inlineEls x body els := by
  simp [inlineEls]

theorem inlineEls_cons_ne {i : Nat} {els : List Nat} (h : i ≠ x) : inlineEls x body (i :: els) = i :: inlineEls x body els := by
  simp [inlineEls, h]

theorem inlineEls_append {u v : List Nat} : inlineEls x body (u ++ v) = inlineEls x body u ++ inlineEls x body v :=
  List.flatMap_append

theorem inlineEls_free {els : List Nat} (h : x ∉ els) : inlineEls x body els = els := by
  induction els with
  | nil => rfl
  | cons i els ih =>
    have hi : i ≠ x := by
      rintro rfl
      exact h (.head _)
    rw [inlineEls_cons_ne hi, ih fun hx => h (.tail _ hx)]

theorem mem_inlineEls {i : Nat} {els : List Nat} :
    i ∈ inlineEls x body els ↔ (i ∈ els ∧ i ≠ x) ∨ (x ∈ els ∧ i ∈ body) := by
  simp only [inlineEls, List.mem_flatMap]
  constructor
  · rintro ⟨j, hj, hi⟩
    split at hi
    · rename_i e; subst e; exact .inr ⟨hj, hi⟩
    · rename_i e
      simp only [List.mem_singleton] at hi
      subst hi; exact .inl ⟨hj, e⟩
  · rintro (⟨h1, h2⟩ | ⟨h1, h2⟩)
    · exact ⟨i, h1, by simp [h2]⟩
    · exact ⟨x, h1, by simp [h2]⟩

theorem prodElems_inline (p : Production) : prodElems (inlineAlt x body p) = inlineEls x body (prodElems p) := by
  cases p <;> rfl

namespace Fac
variable (h : Named pd pd' x body)
include h

theorem kind_eq {i : Nat} (hi : i < pd.elementTypes.length) : pd'.elementTypes[i]? = pd.elementTypes[i]? :=
  prefix_getElem?_lt h.kinds hi

theorem typeX (hw' : WellFormed pd') : pd'.elementTypes[x]? = some .nonTerminal := hw'.keysNT x _ h.bodyRule

theorem ne_of_old {i : Nat} (hi : i < pd.elementTypes.length) : i ≠ x := by have := h.new; omega

theorem bodyFree : x ∉ body := fun hx => ne_of_old h (h.bodyOld x hx) rfl

/-- A rule of `pd'` for another name. -/
theorem down_rule {A : Nat} {r : NTRule I} (hA : A ≠ x) (hr : AMap.get pd'.rules A = some r) :
    AMap.get pd.rules A = some ⟨r.prods.map (inlineAlt x body), r.ignore, r.instr⟩ := by
  rw [h.others A hA, hr]; rfl

theorem up_rule (hw : WellFormed pd) {A : Nat} {r : NTRule I} (hr : AMap.get pd.rules A = some r) :
    A ≠ x ∧ ∃ r', AMap.get pd'.rules A = some r' ∧ r = ⟨r'.prods.map (inlineAlt x body), r'.ignore, r'.instr⟩ := by
  have hA := ne_of_old h (List.getElem?_eq_some_iff.1 (hw.keysNT A r hr)).1
  refine ⟨hA, ?_⟩
  rw [h.others A hA] at hr
  cases hx : AMap.get pd'.rules A with
  | none => rw [hx] at hr; cases hr
  | some r' =>
    rw [hx] at hr
    simp only [Option.map_some, Option.some.injEq] at hr
    exact ⟨r', rfl, hr.symm⟩

/-- The elements of the alternatives of `pd'` are old ones and `x`. -/
theorem elems' (hw : WellFormed pd) {A : Nat} {r : NTRule I} (hr : AMap.get pd'.rules A = some r) {p : Production}
    (hp : p ∈ r.prods) : ∀ i ∈ prodElems p, i < pd.elementTypes.length ∨ i = x := by
  intro i hi
  by_cases hA : A = x
  · subst hA
    rw [h.bodyRule] at hr; cases hr
    simp only [List.mem_singleton] at hp
    subst hp
    exact .inl (h.bodyOld i hi)
  · by_cases hix : i = x
    · exact .inr hix
    · refine .inl (hw.inRange A _ (down_rule h hA hr) _ (List.mem_map_of_mem hp) i ?_)
      rw [prodElems_inline, mem_inlineEls]
      exact .inl ⟨hi, hix⟩

variable (hw : WellFormed pd) (hw' : WellFormed pd')
include hw hw'

theorem elemForm_eq {i : Nat} (hi : i < pd.elementTypes.length) : elemForm pd' i = elemForm pd i := by
  have hk := kind_eq h hi
  have ht := h.texts i
  have hi' : i < pd'.elementTypes.length := by
    have := h.kinds.length_le; omega
  have hi2 : i < pd.elementData.length := hw.lengths ▸ hi
  have hi3 : i < pd'.elementData.length := hw'.lengths ▸ hi'
  simp only [elemForm, hk]
  rw [List.getElem?_eq_getElem hi]
  cases hty : pd.elementTypes[i] with
  | nonTerminal => rfl
  | terminal =>
    have := ht (by rw [List.getElem?_eq_getElem hi, hty])
    rw [List.getElem?_eq_getElem hi2, List.getElem?_eq_getElem hi3] at this ⊢
    simp only [Option.map_some, Option.some.injEq] at this
    simp only [this]

theorem text_eq {i : Nat} {d : ElementData} (hT : pd.elementTypes[i]? = some .terminal) (hD : pd'.elementData[i]? = some d) :
    ∃ d0, pd.elementData[i]? = some d0 ∧ d0.name = d.name := by
  have hx := h.texts i hT
  have hi := (List.getElem?_eq_some_iff.1 hT).1
  have e1 := List.getElem?_eq_getElem (hw.lengths ▸ hi)
  rw [hD, e1] at hx
  simp only [Option.map_some, Option.some.injEq] at hx
  exact ⟨_, e1, hx.symm⟩

theorem text_eq' {i : Nat} {d : ElementData} (hT : pd.elementTypes[i]? = some .terminal) (hD : pd.elementData[i]? = some d) :
    ∃ d0, pd'.elementData[i]? = some d0 ∧ d0.name = d.name := by
  have hx := h.texts i hT
  have hi := (List.getElem?_eq_some_iff.1 hT).1
  have hi' : i < pd'.elementTypes.length := by
    have := h.kinds.length_le; omega
  have e1 := List.getElem?_eq_getElem (hw'.lengths ▸ hi')
  rw [hD, e1] at hx
  simp only [Option.map_some, Option.some.injEq] at hx
  exact ⟨_, e1, hx⟩

omit hw' in
theorem formX (hw' : WellFormed pd') : elemForm pd' x = [.nt x] := by simp only [elemForm, typeX h hw']

theorem formOf_inline {els : List Nat} (he : ∀ i ∈ els, i < pd.elementTypes.length ∨ i = x) :
    formOf pd (inlineEls x body els) = unForm x (formOf pd body) (formOf pd' els) := by
  induction els with
  | nil => rfl
  | cons i els ih =>
    have ih := ih fun j hj => he j (.tail _ hj)
    have hsplit : formOf pd' (i :: els) = elemForm pd' i ++ formOf pd' els := by simp [formOf]
    rw [hsplit, unForm_append, ← ih]
    by_cases hx : i = x
    · subst hx
      rw [inlineEls_cons_self, formX h hw hw', unForm_nt]
      simp [formOf]
    · have hi := (he i (.head _)).resolve_right hx
      rw [inlineEls_cons_ne hx, elemForm_eq h hw hw' hi, unForm_free]
      · simp [formOf]
      · intro hm
        unfold elemForm at hm
        split at hm
        · simp [ofText] at hm
        · simp only [List.mem_singleton, Sym.nt.injEq] at hm
          exact hx hm.symm

theorem bodyForm : formOf pd' body = formOf pd body := by
  have := formOf_inline h hw hw' (els := body) fun i hi => .inl (h.bodyOld i hi)
  rw [inlineEls_free (bodyFree h)] at this
  rw [this, unForm_free]
  intro hm
  simp only [formOf, List.mem_flatMap] at hm
  obtain ⟨i, hi, hm⟩ := hm
  have hio := h.bodyOld i hi
  rw [elemForm_eq h hw hw' hio] at hm
  unfold elemForm at hm
  split at hm
  · simp [ofText] at hm
  · simp only [List.mem_singleton, Sym.nt.injEq] at hm
    exact ne_of_old h hio hm.symm

theorem body_free : Sym.nt x ∉ formOf pd body := by
  intro hm
  simp only [formOf, List.mem_flatMap] at hm
  obtain ⟨i, hi, hm⟩ := hm
  have hio := h.bodyOld i hi
  unfold elemForm at hm
  split at hm
  · simp [ofText] at hm
  · simp only [List.mem_singleton, Sym.nt.injEq] at hm
    exact ne_of_old h hio hm.symm

theorem grammar_x {w : Form} : grammarOf pd' x w ↔ w = formOf pd body := by
  constructor
  · rintro ⟨r, hr, p, hp, rfl⟩
    rw [h.bodyRule] at hr; cases hr
    simp only [List.mem_singleton] at hp
    subst hp
    exact bodyForm h hw hw'
  · rintro rfl
    exact ⟨_, h.bodyRule, .notEmpty body, by simp, (bodyForm h hw hw').symm⟩

theorem grammar_down {A : Nat} (hA : A ≠ x) {w : Form} (hg : grammarOf pd' A w) :
    grammarOf pd A (unForm x (formOf pd body) w) := by
  obtain ⟨r, hr, p, hp, rfl⟩ := hg
  exact ⟨_, down_rule h hA hr, inlineAlt x body p, List.mem_map_of_mem hp, by
    rw [prodElems_inline, formOf_inline h hw hw' (elems' h hw hr hp)]⟩

theorem grammar_up {A : Nat} {w : Form} (hg : grammarOf pd A w) :
    A ≠ x ∧ ∃ w', grammarOf pd' A w' ∧ w = unForm x (formOf pd body) w' := by
  obtain ⟨r, hr, p, hp, rfl⟩ := hg
  obtain ⟨hA, r', hr', rfl⟩ := up_rule h hw hr
  refine ⟨hA, ?_⟩
  simp only [List.mem_map] at hp
  obtain ⟨p', hp', rfl⟩ := hp
  exact ⟨_, ⟨r', hr', p', hp', rfl⟩, by rw [prodElems_inline, formOf_inline h hw hw' (elems' h hw hr' hp')]⟩

/-- `x` can be replaced everywhere. -/
theorem derives_un (w : Form) : Derives (grammarOf pd') w (unForm x (formOf pd body) w) := by
  induction w with
  | nil => exact .refl
  | cons a w ih =>
    have h1 : Derives (grammarOf pd') [a] (unForm x (formOf pd body) [a]) := by
      cases a with
      | ch c => exact .refl
      | nt A =>
        by_cases hA : A = x
        · subst hA
          rw [unForm_nt]
          exact Derives.of_rule ((grammar_x h hw hw').2 rfl)
        · rw [unForm_nt_ne hA]
    have := Derives.append h1 ih
    rwa [← unForm_append] at this

theorem step_up {u v : Form} (hs : Step (grammarOf pd) u v) : Derives (grammarOf pd') u v := by
  cases hs with
  | @mk a b A w hg =>
    obtain ⟨-, w', hg', rfl⟩ := grammar_up h hw hw' hg
    have h1 : Derives (grammarOf pd') [.nt A] (unForm x (formOf pd body) w') :=
      (Derives.of_rule hg').trans (derives_un h hw hw' w')
    have := Derives.append_left a (Derives.append_right b h1)
    simpa using this

theorem derives_up {u v : Form} (hd : Derives (grammarOf pd) u v) : Derives (grammarOf pd') u v := by
  induction hd with
  | refl => exact .refl
  | tail _ hs ih => exact ih.trans (step_up h hw hw' hs)

theorem derives_down {u v : Form} (hd : Derives (grammarOf pd') u v) :
    Derives (grammarOf pd) (unForm x (formOf pd body) u) (unForm x (formOf pd body) v) := by
  induction hd with
  | refl => exact .refl
  | tail _ hs ih =>
    refine ih.trans ?_
    cases hs with
    | @mk a b A w hg =>
      have e : unForm x (formOf pd body) (a ++ .nt A :: b) =
          unForm x (formOf pd body) a ++ (unForm x (formOf pd body) [.nt A] ++ unForm x (formOf pd body) b) := by
        rw [← unForm_append, ← unForm_append]; simp
      rw [e, unForm_append, unForm_append, List.append_assoc]
      refine Derives.append_left _ (Derives.append_right _ ?_)
      by_cases hA : A = x
      · subst hA
        rw [(grammar_x h hw hw').1 hg, unForm_nt, unForm_free (body_free h hw hw')]
      · rw [unForm_nt_ne hA]
        exact Derives.of_rule (grammar_down h hw hw' hA hg)

theorem nullable_iff {A : Nat} (hA : A ≠ x) : Nullable (grammarOf pd') [.nt A] ↔ Nullable (grammarOf pd) [.nt A] := by
  constructor
  · intro hd
    have := derives_down h hw hw' hd
    rwa [unForm_nt_ne hA] at this
  · exact derives_up h hw hw'

theorem first_iff {A : Nat} {c : Char} (hA : A ≠ x) : FirstChar (grammarOf pd') [.nt A] c ↔ FirstChar (grammarOf pd) [.nt A] c := by
  constructor
  · rintro ⟨v, hd⟩
    have := derives_down h hw hw' hd
    rw [unForm_nt_ne hA, unForm_cons_ch] at this
    exact ⟨_, this⟩
  · rintro ⟨v, hd⟩
    exact ⟨v, derives_up h hw hw' hd⟩

theorem body_not_nullable : ¬ Nullable (grammarOf pd) (formOf pd body) := by
  obtain ⟨i, is, rfl, hn⟩ := h.leads
  have : formOf pd (i :: is) = elemForm pd i ++ formOf pd is := by simp [formOf]
  rw [this, nullable_append]
  exact fun hx => hn hx.1

theorem x_not_nullable : ¬ Nullable (grammarOf pd') [.nt x] := by
  intro hd
  have := derives_down h hw hw' hd
  rw [unForm_nt] at this
  exact body_not_nullable h hw hw' this

theorem first_x {i : Nat} {is : List Nat} (hb : body = i :: is) {c : Char} :
    FirstChar (grammarOf pd') [.nt x] c ↔ FirstChar (grammarOf pd) (elemForm pd i) c := by
  have hform : formOf pd body = elemForm pd i ++ formOf pd is := by simp [formOf, hb]
  have hn : ¬ Nullable (grammarOf pd) (elemForm pd i) := by
    obtain ⟨j, js, hj, hn⟩ := h.leads
    rw [hb] at hj
    simp only [List.cons.injEq] at hj
    rw [hj.1]; exact hn
  have key : FirstChar (grammarOf pd) (formOf pd body) c ↔ FirstChar (grammarOf pd) (elemForm pd i) c := by
    rw [hform, firstChar_append]
    constructor
    · rintro (hx | ⟨hx, -⟩)
      · exact hx
      · exact absurd hx hn
    · exact .inl
  rw [← key]
  constructor
  · rintro ⟨v, hd⟩
    have := derives_down h hw hw' hd
    rw [unForm_nt, unForm_cons_ch] at this
    exact ⟨_, this⟩
  · rintro ⟨v, hd⟩
    exact ⟨v, (Derives.of_rule ((grammar_x h hw hw').2 rfl)).trans (derives_up h hw hw' hd)⟩

/-- Some old name derives a form in which `body` stands. -/
theorem body_occurs : ∃ A u v, A ≠ x ∧ (∃ w, grammarOf pd A w) ∧ Derives (grammarOf pd) [.nt A] (u ++ formOf pd body ++ v) := by
  obtain ⟨A, r, p, hA, hr, hp, hx⟩ := h.used
  obtain ⟨a, b, hab⟩ := List.append_of_mem hx
  have hg : grammarOf pd A (formOf pd (inlineEls x body (prodElems p))) :=
    ⟨_, down_rule h hA hr, inlineAlt x body p, List.mem_map_of_mem hp, by rw [prodElems_inline]⟩
  rw [hab, inlineEls_append, inlineEls_cons_self] at hg
  have e : formOf pd (inlineEls x body a ++ (body ++ inlineEls x body b)) =
      formOf pd (inlineEls x body a) ++ formOf pd body ++ formOf pd (inlineEls x body b) := by
    simp [formOf]
  rw [e] at hg
  exact ⟨A, _, _, hA, ⟨_, hg⟩, Derives.of_rule hg⟩

theorem followChar_iff {A : Nat} {c : Char} (hA : A ≠ x) : FollowChar (grammarOf pd') A c ↔ FollowChar (grammarOf pd) A c := by
  constructor
  · rintro ⟨B, u, v, ⟨w, hg⟩, hd⟩
    have hd' := derives_down h hw hw' hd
    rw [unForm_append, unForm_cons_nt hA, unForm_cons_ch] at hd'
    by_cases hB : B = x
    · subst hB
      rw [unForm_nt] at hd'
      obtain ⟨C, a, b, -, hC, hd2⟩ := body_occurs h hw hw'
      have h3 := hd2.trans (Derives.append_right b (Derives.append_left a hd'))
      refine ⟨C, a ++ unForm B (formOf pd body) u, unForm B (formOf pd body) v ++ b, hC, ?_⟩
      simpa using h3
    · rw [unForm_nt_ne hB] at hd'
      exact ⟨B, _, _, ⟨_, grammar_down h hw hw' hB hg⟩, hd'⟩
  · rintro ⟨B, u, v, ⟨w, hg⟩, hd⟩
    obtain ⟨-, w', hg', -⟩ := grammar_up h hw hw' hg
    exact ⟨B, u, v, ⟨w', hg'⟩, derives_up h hw hw' hd⟩

theorem followEnd_iff {A : Nat} (hA : A ≠ x) (hst : st ≠ x) : FollowEnd (grammarOf pd') st A ↔ FollowEnd (grammarOf pd) st A := by
  constructor
  · rintro ⟨u, hd⟩
    have := derives_down h hw hw' hd
    rw [unForm_append, unForm_nt_ne hst, unForm_nt_ne hA] at this
    exact ⟨_, this⟩
  · rintro ⟨u, hd⟩
    exact ⟨u, derives_up h hw hw' hd⟩

theorem followMember_iff {A : Nat} {m : SetMember} (hA : A ≠ x) (hst : st ≠ x) :
    FollowMember (grammarOf pd') st A m ↔ FollowMember (grammarOf pd) st A m := by
  cases m with
  | char c => exact followChar_iff h hw hw' hA
  | terminate => exact followEnd_iff h hw hw' hA hst

theorem steuer_iff {A : Nat} {m : SetMember} (hA : A ≠ x) (hst : st ≠ x) :
    SteuerMember (grammarOf pd') st A m ↔ SteuerMember (grammarOf pd) st A m := by
  simp only [SteuerMember, first_iff h hw hw' hA, nullable_iff h hw hw' hA, followMember_iff h hw hw' hA hst]

theorem steuer_x {i : Nat} {is : List Nat} (hb : body = i :: is) {m : SetMember} :
    SteuerMember (grammarOf pd') st x m ↔ ∃ c, m = .char c ∧ FirstChar (grammarOf pd) (elemForm pd i) c := by
  simp only [SteuerMember, first_x h hw hw' hb, x_not_nullable h hw hw', false_and, or_false]

omit h hw' in
/-- The control set of an alternative with a leading element that cannot derive the empty text. -/
theorem control_lead {A i : Nat} {is : List Nat} {m : SetMember} (hi : i < pd.elementTypes.length)
    (hn : ¬ Nullable (grammarOf pd) (elemForm pd i)) :
    Control pd st A (.notEmpty (i :: is)) m ↔ ∃ c, m = .char c ∧ FirstChar (grammarOf pd) (elemForm pd i) c := by
  have hD := List.getElem?_eq_getElem (hw.lengths ▸ hi)
  cases hty : pd.elementTypes[i]? with
  | none => rw [List.getElem?_eq_getElem hi] at hty; cases hty
  | some ty =>
    cases ty with
    | terminal =>
      have hf : elemForm pd i = ofText (pd.elementData[i]'(hw.lengths ▸ hi)).name := by simp only [elemForm, hty, hD]
      rw [hf]
      simp only [Control, hty, hD, firstChar_ofText, true_and, reduceCtorEq, false_and, or_false, Option.some.injEq]
      constructor
      · rintro ⟨d, c, rfl, hc, hm⟩; exact ⟨c, hm, hc⟩
      · rintro ⟨c, hm, hc⟩; exact ⟨_, c, rfl, hc, hm⟩
    | nonTerminal =>
      have hf : elemForm pd i = [.nt i] := by simp only [elemForm, hty]
      rw [hf] at hn ⊢
      simp only [Control, hty, SteuerMember, hn, false_and, or_false, true_and]
      constructor
      · rintro (⟨h1, -⟩ | h1)
        · cases h1
        · exact h1
      · exact .inr

theorem control_iff {A : Nat} {p : Production} {m : SetMember} (hA : A ≠ x) (hst : st ≠ x)
    (hp : ∀ i ∈ prodElems p, i < pd.elementTypes.length ∨ i = x) :
    Control pd' st A p m ↔ Control pd st A (inlineAlt x body p) m := by
  cases p with
  | empty => exact followMember_iff h hw hw' hA hst
  | notEmpty els =>
    cases els with
    | nil => exact Iff.rfl
    | cons i is =>
      by_cases hx : i = x
      · subst hx
        obtain ⟨j, js, hb, hn⟩ := h.leads
        simp only [inlineAlt, inlineEls_cons_self]
        have hj : j < pd.elementTypes.length := h.bodyOld j (by simp [hb])
        have e : body ++ inlineEls i body is = j :: (js ++ inlineEls i body is) := by rw [hb]; rfl
        rw [e, control_lead hw hj hn, ← steuer_x h hw hw' (st := st) hb]
        simp only [Control, typeX h hw', true_and]
        constructor
        · rintro (⟨h1, -⟩ | h1)
          · cases h1
          · exact h1
        · exact .inr
      · have hi : i < pd.elementTypes.length := (hp i (by simp [prodElems])).resolve_right hx
        simp only [inlineAlt, inlineEls_cons_ne hx, Control, kind_eq h hi, steuer_iff h hw hw' hx hst]
        refine or_congr (and_congr_right fun ht => ?_) Iff.rfl
        constructor
        · rintro ⟨d, c, hd, hc, hm⟩
          obtain ⟨d0, h1, h2⟩ := text_eq h hw hw' ht hd
          exact ⟨d0, c, h1, h2 ▸ hc, hm⟩
        · rintro ⟨d, c, hd, hc, hm⟩
          obtain ⟨d0, h1, h2⟩ := text_eq' h hw hw' ht hd
          exact ⟨d0, c, h1, h2 ▸ hc, hm⟩

theorem language_iff (hst : st ≠ x) (s : Str) : Language (grammarOf pd') st s ↔ Language (grammarOf pd) st s := by
  constructor
  · intro hl
    have := derives_down h hw hw' hl
    rwa [unForm_nt_ne hst, unForm_ofText] at this
  · exact derives_up h hw hw'

theorem acceptable (hst : st ≠ x) (ha : Acceptable pd st) : Acceptable pd' st where
  startDefined := by
    obtain ⟨r, hr⟩ := ha.startDefined
    obtain ⟨-, r', hr', -⟩ := up_rule h hw hr
    exact ⟨r', hr'⟩
  defined := by
    have up : ∀ {i : Nat}, i < pd.elementTypes.length → pd'.elementTypes[i]? = some .nonTerminal →
        (pd.elementTypes[i]? = some .nonTerminal → ∃ r, AMap.get pd.rules i = some r) → ∃ r', AMap.get pd'.rules i = some r' := by
      intro i hi ht hd
      obtain ⟨r, hr⟩ := hd (by rw [← kind_eq h hi]; exact ht)
      obtain ⟨-, r', hr', -⟩ := up_rule h hw hr
      exact ⟨r', hr'⟩
    intro A r hr p hp i hi ht
    by_cases hA : A = x
    · subst hA
      rw [h.bodyRule] at hr; cases hr
      simp only [List.mem_singleton] at hp
      subst hp
      refine up (h.bodyOld i hi) ht fun ht => ?_
      obtain ⟨B, rB, q, hB, hrB, hq, hx⟩ := h.used
      refine ha.defined B _ (down_rule h hB hrB) _ (List.mem_map_of_mem hq) i ?_ ht
      rw [prodElems_inline, mem_inlineEls]
      exact .inr ⟨hx, hi⟩
    · rcases elems' h hw hr hp i hi with hio | rfl
      · refine up hio ht fun ht => ?_
        refine ha.defined A _ (down_rule h hA hr) _ (List.mem_map_of_mem hp) i ?_ ht
        rw [prodElems_inline, mem_inlineEls]
        exact .inl ⟨hi, ne_of_old h hio⟩
      · exact ⟨_, h.bodyRule⟩
  noLeftRec := by
    have old : ∀ A, A ≠ x → ¬ LeftRecursive (grammarOf pd') A := by
      rintro A hA ⟨v, hv⟩
      rw [derivesPlus_nt_iff] at hv
      obtain ⟨w, hx, hd⟩ := hv
      have := derives_down h hw hw' hd
      rw [unForm_cons_nt hA] at this
      exact ha.noLeftRec A ⟨_, derivesPlus_nt_iff.2 ⟨_, grammar_down h hw hw' hA hx, this⟩⟩
    intro A
    by_cases hA : A = x
    · subst hA
      rw [leftRecursive_iff]
      intro hx
      have hself : ∀ C, LeftCorner (grammarOf pd') A C → C ≠ A := by
        rintro C ⟨u, v, hg, -⟩ rfl
        have := (grammar_x h hw hw').1 hg
        exact body_free h hw hw' (by rw [← this]; simp)
      rcases Relation.TransGen.head'_iff.1 hx with ⟨C, h1, h2⟩
      refine old C (hself C h1) ?_
      rw [leftRecursive_iff]
      exact Relation.TransGen.tail' h2 h1
    · exact old A hA
  noEmptyTerminal := by
    intro A r hr i is hp ht d hd
    by_cases hA : A = x
    · subst hA
      rw [h.bodyRule] at hr; cases hr
      simp only [List.mem_singleton, Production.notEmpty.injEq] at hp
      subst hp
      obtain ⟨j, js, hb, hn⟩ := h.leads
      simp only [List.cons.injEq] at hb
      obtain ⟨rfl, rfl⟩ := hb
      have hi := h.bodyOld i (by simp)
      rw [kind_eq h hi] at ht
      obtain ⟨d0, h1, h2⟩ := text_eq h hw hw' ht hd
      rw [← h2]
      intro h0
      refine hn ?_
      have : elemForm pd i = ofText d0.name := by simp only [elemForm, ht, h1]
      rw [this, nullable_ofText]
      exact h0
    · rcases elems' h hw hr hp i (by simp [prodElems]) with hi | rfl
      · rw [kind_eq h hi] at ht
        obtain ⟨d0, h1, h2⟩ := text_eq h hw hw' ht hd
        rw [← h2]
        refine ha.noEmptyTerminal A _ (down_rule h hA hr) i (inlineEls x body is) ?_ ht _ h1
        have := List.mem_map_of_mem (f := inlineAlt x body) hp
        rwa [inlineAlt, inlineEls_cons_ne (ne_of_old h hi)] at this
      · rw [typeX h hw'] at ht; cases ht
  disjoint := by
    intro A r hr
    by_cases hA : A = x
    · subst hA
      rw [h.bodyRule] at hr; cases hr
      simp
    · have := ha.disjoint A _ (down_rule h hA hr)
      simp only [List.pairwise_map] at this
      refine List.Pairwise.imp_of_mem ?_ this
      intro p q hp hq hpq m hm
      exact hpq m ⟨(control_iff h hw hw' hA hst (elems' h hw hr hp)).1 hm.1, (control_iff h hw hw' hA hst (elems' h hw hr hq)).1 hm.2⟩

theorem acceptable_back (hst : st ≠ x) (ha : Acceptable pd' st) : Acceptable pd st where
  startDefined := by
    obtain ⟨r, hr⟩ := ha.startDefined
    exact ⟨_, down_rule h hst hr⟩
  defined := by
    have down : ∀ {i : Nat}, i < pd.elementTypes.length → pd.elementTypes[i]? = some .nonTerminal →
        (pd'.elementTypes[i]? = some .nonTerminal → ∃ r, AMap.get pd'.rules i = some r) → ∃ r', AMap.get pd.rules i = some r' := by
      intro i hi ht hd
      obtain ⟨r, hr⟩ := hd (by rw [kind_eq h hi]; exact ht)
      exact ⟨_, down_rule h (ne_of_old h hi) hr⟩
    intro A r hr p hp i hi ht
    have hio := hw.inRange A r hr p hp i hi
    obtain ⟨hA, r', hr', rfl⟩ := up_rule h hw hr
    simp only [List.mem_map] at hp
    obtain ⟨p', hp', rfl⟩ := hp
    refine down hio ht fun ht => ?_
    rw [prodElems_inline, mem_inlineEls] at hi
    rcases hi with ⟨hi, -⟩ | ⟨-, hi⟩
    · exact ha.defined A r' hr' p' hp' i hi ht
    · exact ha.defined x _ h.bodyRule _ (List.mem_singleton.2 rfl) i hi ht
  noLeftRec := by
    rintro A ⟨v, hv⟩
    rw [derivesPlus_nt_iff] at hv
    obtain ⟨w, hx, hd⟩ := hv
    obtain ⟨hA, w', hg', rfl⟩ := grammar_up h hw hw' hx
    exact ha.noLeftRec A ⟨v, derivesPlus_nt_iff.2 ⟨w', hg', (derives_un h hw hw' w').trans (derives_up h hw hw' hd)⟩⟩
  noEmptyTerminal := by
    intro A r hr i is hp ht d hd
    obtain ⟨hA, r', hr', rfl⟩ := up_rule h hw hr
    simp only [List.mem_map] at hp
    obtain ⟨p', hp', he⟩ := hp
    have hi := (List.getElem?_eq_some_iff.1 ht).1
    obtain ⟨d0, h1, h2⟩ := text_eq' h hw hw' ht hd
    rw [← h2]
    cases p' with
    | empty => cases he
    | notEmpty els =>
      simp only [inlineAlt, Production.notEmpty.injEq] at he
      cases els with
      | nil => cases he
      | cons j js =>
        by_cases hj : j = x
        · subst hj
          rw [inlineEls_cons_self] at he
          obtain ⟨k, ks, hb, hn⟩ := h.leads
          have hk : k = i := by
            rw [hb] at he
            simp only [List.cons_append, List.cons.injEq] at he
            exact he.1
          subst hk
          exact ha.noEmptyTerminal _ _ h.bodyRule k ks (by simp [hb]) (by rw [kind_eq h hi]; exact ht) _ h1
        · rw [inlineEls_cons_ne hj] at he
          simp only [List.cons.injEq] at he
          obtain ⟨rfl, -⟩ := he
          exact ha.noEmptyTerminal A r' hr' j js hp' (by rw [kind_eq h hi]; exact ht) _ h1
  disjoint := by
    intro A r hr
    obtain ⟨hA, r', hr', rfl⟩ := up_rule h hw hr
    simp only [List.pairwise_map]
    refine List.Pairwise.imp_of_mem ?_ (ha.disjoint A r' hr')
    intro p q hp hq hpq m hm
    exact hpq m ⟨(control_iff h hw hw' hA hst (elems' h hw hr' hp)).2 hm.1, (control_iff h hw hw' hA hst (elems' h hw hr' hq)).2 hm.2⟩

end Fac

/-! ### reading -/

theorem topDown_append {els els2 : List Nat} {w w1 r : Str} {f g : Forest} (h1 : TopDown pd st els w f w1)
    (h2 : TopDown pd st els2 w1 g r) : TopDown pd st (els ++ els2) w (splice.join f g) r := by
  induction h1 with
  | nil => exact h2
  | leaf a b _ ih => exact .leaf a b (ih h2)
  | node a b c d e _ _ ih => exact .node a b c d e (ih h2)

theorem join_assoc (f g k : Forest) : splice.join (splice.join f g) k = splice.join f (splice.join g k) := by
  induction f with
  | nil => rfl
  | leaf i f ih => simp only [splice.join, ih]
  | node A p k f _ ih => simp only [splice.join, ih]

theorem splice_join (f g : Forest) : splice x body (splice.join f g) = splice.join (splice x body f) (splice x body g) := by
  induction f with
  | nil => rfl
  | leaf i f ih => simp only [splice.join, splice, ih]
  | node A p k f _ ih =>
    simp only [splice.join, splice]
    split
    · rw [ih, join_assoc]
    · simp only [splice.join, ih]

theorem formOf_single (i : Nat) : formOf pd [i] = elemForm pd i := by simp [formOf]

/-- Reading the elements of `body` from the front of a text: the lookahead is in the control set of the new rule. -/
theorem Fac.control_body (h : Named pd pd' x body) (hw : WellFormed pd) (hw' : WellFormed pd') {w w1 : Str} {f : Forest}
    (ht : TopDown pd st body w f w1) : Control pd' st x (.notEmpty body) (SetMember.ofPeek w.head?) := by
  obtain ⟨s, rfl, hf⟩ := ht.isForest
  have hd : Derives (grammarOf pd) (formOf pd body) (ofText s) := hf.derives
  have hs : s ≠ [] := by
    rintro rfl
    exact Fac.body_not_nullable h hw hw' hd
  obtain ⟨c, s, rfl⟩ := List.exists_cons_of_ne_nil hs
  obtain ⟨i, is, hb, hn⟩ := h.leads
  have hi : i < pd.elementTypes.length := h.bodyOld i (by simp [hb])
  have hfirst : FirstChar (grammarOf pd) (formOf pd body) c := ⟨ofText s, hd⟩
  have hform : formOf pd body = elemForm pd i ++ formOf pd is := by simp [formOf, hb]
  rw [hform, firstChar_append] at hfirst
  have hfirst := hfirst.resolve_right fun hx => hn hx.1
  have hi' : i < pd'.elementTypes.length := by
    have := h.kinds.length_le; omega
  have he := Fac.elemForm_eq h hw hw' hi
  have hn' : ¬ Nullable (grammarOf pd') (elemForm pd' i) := by
    rw [he]
    intro hx
    have := Fac.derives_down h hw hw' hx
    rw [unForm_free, ← formOf_single] at this
    · exact hn (by rw [← formOf_single]; exact this)
    · intro hm
      refine Fac.body_free h hw hw' ?_
      rw [hform]
      exact List.mem_append_left _ hm
  rw [hb]
  refine (Fac.control_lead hw' hi' hn').2 ⟨c, rfl, ?_⟩
  rw [he]
  obtain ⟨v, hv⟩ := hfirst
  exact ⟨v, Fac.derives_up h hw hw' hv⟩

namespace Fac
variable (h : Named pd pd' x body) (hw : WellFormed pd) (hw' : WellFormed pd')
include h hw hw'

theorem topDown_down (hst : st ≠ x) {els : List Nat} {w r : Str} {f : Forest} (ht : TopDown pd' st els w f r) :
    (∀ i ∈ els, i < pd.elementTypes.length ∨ i = x) → TopDown pd st (inlineEls x body els) w (splice x body f) r := by
  induction ht with
  | nil => intro _; exact .nil
  | @leaf i es d w r f h1 h2 _ ih =>
    intro he
    rcases he i (.head _) with hi | rfl
    · rw [kind_eq h hi] at h1
      obtain ⟨d0, k1, k2⟩ := text_eq h hw hw' h1 h2
      rw [inlineEls_cons_ne (ne_of_old h hi), ← k2]
      exact .leaf h1 k1 (ih fun j hj => he j (.tail _ hj))
    · rw [typeX h hw'] at h1; cases h1
  | @node A es rule p w w1 r kids f h1 h2 h3 h4 _ _ ih1 ih2 =>
    intro he
    have hk := ih1 (elems' h hw h2 h3)
    have hf := ih2 fun j hj => he j (.tail _ hj)
    by_cases hA : A = x
    · subst hA
      rw [h.bodyRule] at h2; cases h2
      simp only [List.mem_singleton] at h3
      subst h3
      rw [prodElems, inlineEls_free (bodyFree h)] at hk
      rw [inlineEls_cons_self, splice, if_pos rfl]
      exact topDown_append hk hf
    · have hi := (he A (.head _)).resolve_right hA
      rw [kind_eq h hi] at h1
      rw [inlineEls_cons_ne hA, splice, if_neg hA]
      refine .node h1 (down_rule h hA h2) (List.mem_map_of_mem h3) ((control_iff h hw hw' hA hst (elems' h hw h2 h3)).1 h4) ?_ hf
      rw [prodElems_inline]
      exact hk

theorem topDown_up_split (hst : st ≠ x) {elsA : List Nat} {w r : Str} {f : Forest} (ht : TopDown pd st elsA w f r) :
    ∀ els1 els2, elsA = els1 ++ inlineEls x body els2 → (∀ i ∈ els1, i < pd.elementTypes.length) →
      (∀ i ∈ els2, i < pd.elementTypes.length ∨ i = x) →
      ∃ f1 f2 w1, TopDown pd' st els1 w f1 w1 ∧ TopDown pd' st els2 w1 f2 r ∧
        f = splice.join (splice x body f1) (splice x body f2) := by
  obtain ⟨b0, bs, hbody, -⟩ := h.leads
  -- from the case with a nonempty first part to the general case
  have gen : ∀ {elsA : List Nat} {w r : Str} {f : Forest}, elsA ≠ [] → TopDown pd st elsA w f r →
      (∀ i es els2, elsA = i :: es ++ inlineEls x body els2 → (∀ j ∈ i :: es, j < pd.elementTypes.length) →
        (∀ i ∈ els2, i < pd.elementTypes.length ∨ i = x) →
        ∃ f1 f2 w1, TopDown pd st (i :: es) w (splice x body f1) w1 ∧ TopDown pd' st (i :: es) w f1 w1 ∧ TopDown pd' st els2 w1 f2 r ∧
          f = splice.join (splice x body f1) (splice x body f2)) →
      ∀ els1 els2, elsA = els1 ++ inlineEls x body els2 → (∀ i ∈ els1, i < pd.elementTypes.length) →
      (∀ i ∈ els2, i < pd.elementTypes.length ∨ i = x) →
      ∃ f1 f2 w1, TopDown pd' st els1 w f1 w1 ∧ TopDown pd' st els2 w1 f2 r ∧
        f = splice.join (splice x body f1) (splice x body f2) := by
    intro elsA w r f hne ht key els1 els2 he h1 h2
    cases els1 with
    | cons i es =>
      obtain ⟨f1, f2, w1, -, a, b, c⟩ := key i es els2 he h1 h2
      exact ⟨f1, f2, w1, a, b, c⟩
    | nil =>
      cases els2 with
      | nil => exact absurd he hne
      | cons j js =>
        rcases h2 j (.head _) with hj | rfl
        · rw [List.nil_append, inlineEls_cons_ne (ne_of_old h hj)] at he
          obtain ⟨f1, f2, w1, -, a, b, c⟩ := key j [] js he (by simpa using hj) (fun i hi => h2 i (.tail _ hi))
          refine ⟨.nil, splice.join f1 f2, w, .nil, topDown_append a b, ?_⟩
          rw [c]
          simp only [splice, splice.join]
          exact (splice_join f1 f2).symm
        · rw [List.nil_append, inlineEls_cons_self, hbody] at he
          obtain ⟨f1, f2, w1, a0, a, b, c⟩ := key b0 bs js (by rw [he, hbody])
            (fun i hi => h.bodyOld i (by rw [hbody]; exact hi)) (fun i hi => h2 i (.tail _ hi))
          rw [← hbody] at a0 a
          refine ⟨.nil, .node j (.notEmpty body) f1 f2, w, .nil, ?_, ?_⟩
          · exact .node (typeX h hw') h.bodyRule (by simp) (control_body h hw hw' a0) a b
          · rw [c, splice, splice.join, splice, if_pos rfl]
  induction ht with
  | nil =>
    intro els1 els2 he h1 h2
    have h0 := List.append_eq_nil_iff.1 he.symm
    obtain ⟨rfl, h0⟩ := h0
    cases els2 with
    | nil => exact ⟨.nil, .nil, _, .nil, .nil, rfl⟩
    | cons j js =>
      rcases h2 j (.head _) with hj | rfl
      · rw [inlineEls_cons_ne (ne_of_old h hj)] at h0; cases h0
      · rw [inlineEls_cons_self, hbody] at h0; cases h0
  | @leaf i es d w r f k1 k2 k3 ih =>
    refine gen (by simp) (.leaf k1 k2 k3) ?_
    intro j js els2 he h1 h2
    simp only [List.cons_append, List.cons.injEq] at he
    obtain ⟨rfl, he⟩ := he
    obtain ⟨f1, f2, w1, a, b, rfl⟩ := ih js els2 he (fun i hi => h1 i (.tail _ hi)) h2
    have hi := h1 i (.head _)
    obtain ⟨d0, e1, e2⟩ := text_eq' h hw hw' k1 k2
    have hT : pd'.elementTypes[i]? = some .terminal := by rw [kind_eq h hi]; exact k1
    have hlow := topDown_down h hw hw' hst a (fun j hj => .inl (h1 j (.tail _ hj)))
    rw [inlineEls_free fun hx => ne_of_old h (h1 x (.tail _ hx)) rfl] at hlow
    refine ⟨.leaf i f1, f2, w1, .leaf k1 k2 hlow, ?_, b, rfl⟩
    rw [← e2]
    exact .leaf hT e1 a
  | @node A es rule p w w0 r kids f k1 k2 k3 k4 k5 k6 ih1 ih2 =>
    refine gen (by simp) (.node k1 k2 k3 k4 k5 k6) ?_
    intro j js els2 he h1 h2
    simp only [List.cons_append, List.cons.injEq] at he
    obtain ⟨rfl, he⟩ := he
    obtain ⟨f1, f2, w1, a, b, rfl⟩ := ih2 js els2 he (fun i hi => h1 i (.tail _ hi)) h2
    have hi := h1 A (.head _)
    obtain ⟨hA, r', hr', rfl⟩ := up_rule h hw k2
    simp only [List.mem_map] at k3
    obtain ⟨p', hp', rfl⟩ := k3
    obtain ⟨g0, g, w2, a2, b2, hg⟩ := ih1 [] (prodElems p') (by rw [prodElems_inline]; rfl) (by simp) (elems' h hw hr' hp')
    cases a2
    simp only [splice, splice.join] at hg
    subst hg
    have hT : pd'.elementTypes[A]? = some .nonTerminal := by rw [kind_eq h hi]; exact k1
    have hlow := topDown_down h hw hw' hst a (fun j hj => .inl (h1 j (.tail _ hj)))
    rw [inlineEls_free fun hx => ne_of_old h (h1 x (.tail _ hx)) rfl] at hlow
    refine ⟨.node A p' g f1, f2, w1, ?_, .node hT hr' hp' ((control_iff h hw hw' hA hst (elems' h hw hr' hp')).2 k4) b2 a, b, ?_⟩
    · rw [splice, if_neg hA]
      exact .node k1 k2 (List.mem_map_of_mem hp') k4 k5 hlow
    · simp only [splice, if_neg hA, splice.join]

theorem topDown_up (hst : st ≠ x) {els : List Nat} {w r : Str} {f : Forest} (ht : TopDown pd st (inlineEls x body els) w f r)
    (he : ∀ i ∈ els, i < pd.elementTypes.length ∨ i = x) : ∃ f', TopDown pd' st els w f' r ∧ f = splice x body f' := by
  obtain ⟨f1, f2, w1, a, b, c⟩ := topDown_up_split h hw hw' hst ht [] els rfl (by simp) he
  cases a
  exact ⟨f2, b, c⟩

end Fac
end HPP
