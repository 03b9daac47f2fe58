import Verif.Spec.EndMark
import Verif.Proofs.Unused
import Verif.Props.Breaking
namespace HPP
open Spec
variable {I S : Type} {pd pd' : ParserData I} {st s e : Nat}

namespace Mark
variable (h : EndMarked pd st pd' s e)
include h

theorem ruleUp (hw : WellFormed pd) {A : Nat} {r : NTRule I} (hr : AMap.get pd.rules A = some r) :
    AMap.get pd'.rules A = some r := by
  rw [h.kept A (List.getElem?_eq_some_iff.1 (hw.keysNT A r hr)).1]; exact hr

theorem kind_eq {i : Nat} (hi : i < pd.elementTypes.length) : pd'.elementTypes[i]? = pd.elementTypes[i]? :=
  prefix_getElem?_lt h.kinds hi

theorem elemForm_eq (hw : WellFormed pd) (hw' : WellFormed pd') {i : Nat} (hi : i < pd.elementTypes.length) :
    elemForm pd' i = elemForm pd i := by
  have hk := kind_eq h hi
  have ht := h.texts i
  have hi' : i < pd'.elementTypes.length := by
    have := h.kinds.length_le; omega
  have hi2 : i < pd.elementData.length := hw.lengths ▸ hi
  have hi3 : i < pd'.elementData.length := hw'.lengths ▸ hi'
  simp only [elemForm, hk]
  rw [List.getElem?_eq_getElem hi]
  cases hty : pd.elementTypes[i] with
  | nonTerminal => rfl
  | terminal =>
    have := ht (by rw [List.getElem?_eq_getElem hi, hty])
    rw [List.getElem?_eq_getElem hi2, List.getElem?_eq_getElem hi3] at this ⊢
    simp only [Option.map_some, Option.some.injEq] at this
    simp only [this]

theorem formOf_eq (hw : WellFormed pd) (hw' : WellFormed pd') {es : List Nat} (he : ∀ i ∈ es, i < pd.elementTypes.length) :
    formOf pd' es = formOf pd es := by
  induction es with
  | nil => rfl
  | cons i es ih =>
    simp only [formOf, List.flatMap_cons] at ih ⊢
    rw [elemForm_eq h hw hw' (he i (.head _)), ih (fun x hx => he x (.tail _ hx))]

theorem typeS (hw' : WellFormed pd') : pd'.elementTypes[s]? = some .nonTerminal := hw'.keysNT s _ h.startRule
theorem typeE (hw' : WellFormed pd') : pd'.elementTypes[e]? = some .nonTerminal := hw'.keysNT e _ h.endRule

theorem grammar_old (hw : WellFormed pd) (hw' : WellFormed pd') {A : Nat} (hA : A < pd.elementTypes.length) {w : Form} :
    grammarOf pd' A w ↔ grammarOf pd A w := by
  constructor
  · rintro ⟨r, hr, p, hp, rfl⟩
    rw [h.kept A hA] at hr
    exact ⟨r, hr, p, hp, formOf_eq h hw hw' (hw.inRange A r hr p hp)⟩
  · rintro ⟨r, hr, p, hp, rfl⟩
    exact ⟨r, ruleUp h hw hr, p, hp, (formOf_eq h hw hw' (hw.inRange A r hr p hp)).symm⟩

theorem grammar_end {w : Form} : grammarOf pd' e w ↔ w = [] := by
  constructor
  · rintro ⟨r, hr, p, hp, rfl⟩
    rw [h.endRule] at hr; cases hr
    simp only [List.mem_singleton] at hp
    subst hp; rfl
  · rintro rfl
    exact ⟨_, h.endRule, .empty, by simp, rfl⟩

theorem startForm (hw' : WellFormed pd') (hst : pd.elementTypes[st]? = some .nonTerminal) :
    formOf pd' [st, e] = [.nt st, .nt e] := by
  have h1 : elemForm pd' st = [.nt st] := by
    simp only [elemForm, kind_eq h h.old, hst]
  have h2 : elemForm pd' e = [.nt e] := by
    simp only [elemForm, typeE h hw']
  simp [formOf, h1, h2]

theorem grammar_start (hw' : WellFormed pd') (hst : pd.elementTypes[st]? = some .nonTerminal) {w : Form} :
    grammarOf pd' s w ↔ w = [.nt st, .nt e] := by
  constructor
  · rintro ⟨r, hr, p, hp, rfl⟩
    rw [h.startRule] at hr; cases hr
    simp only [List.mem_singleton] at hp
    subst hp
    exact startForm h hw' hst
  · rintro rfl
    exact ⟨_, h.startRule, .notEmpty [st, e], by simp, (startForm h hw' hst).symm⟩

theorem grammar_none {A : Nat} (h1 : pd.elementTypes.length ≤ A) (h2 : A ≠ s) (h3 : A ≠ e) {w : Form} : ¬ grammarOf pd' A w := by
  rintro ⟨r, hr, -⟩
  rw [h.noMore A h1 h2 h3] at hr; cases hr

end Mark

/-- Only old names occur in the form. -/
def OldForm (pd : ParserData I) (w : Form) : Prop := ∀ B, Sym.nt B ∈ w → B < pd.elementTypes.length

theorem oldForm_of_grammar (hw : WellFormed pd) {A : Nat} {w : Form} (hg : grammarOf pd A w) : OldForm pd w := by
  obtain ⟨r, hr, p, hp, rfl⟩ := hg
  intro B hB
  simp only [formOf, List.mem_flatMap] at hB
  obtain ⟨i, hi, hBi⟩ := hB
  have : B = i := by
    unfold elemForm at hBi
    split at hBi
    · simp [ofText] at hBi
    · simpa using hBi
  rw [this]
  exact hw.inRange A r hr p hp i hi

theorem oldForm_derives (hw : WellFormed pd) {u v : Form} (hu : OldForm pd u) (hd : Derives (grammarOf pd) u v) : OldForm pd v := by
  induction hd with
  | refl => exact hu
  | tail _ hst ih =>
    cases hst with
    | @mk a b A w hg =>
      intro B hB
      simp only [List.mem_append] at hB
      rcases hB with (hB | hB) | hB
      · exact ih B (by simp [hB])
      · exact oldForm_of_grammar hw hg B hB
      · exact ih B (by simp [hB])

theorem oldForm_nt {A : Nat} (hA : A < pd.elementTypes.length) : OldForm pd [.nt A] := by
  intro B hB
  simp only [List.mem_singleton, Sym.nt.injEq] at hB
  rw [hB]; exact hA

namespace Mark
variable (h : EndMarked pd st pd' s e) (hw : WellFormed pd) (hw' : WellFormed pd')
include h hw hw'

theorem step_up {u v : Form} (hs : Step (grammarOf pd) u v) : Step (grammarOf pd') u v := by
  cases hs with
  | @mk a b A w hg =>
    have hA : A < pd.elementTypes.length := by
      obtain ⟨r, hr, -⟩ := hg
      exact (List.getElem?_eq_some_iff.1 (hw.keysNT A r hr)).1
    exact .mk a b ((grammar_old h hw hw' hA).2 hg)

theorem derives_up {u v : Form} (hs : Derives (grammarOf pd) u v) : Derives (grammarOf pd') u v :=
  Relation.ReflTransGen.mono (fun _ _ => step_up h hw hw') _ _ hs

theorem derives_down {u v : Form} (hu : OldForm pd u) (hd : Derives (grammarOf pd') u v) :
    Derives (grammarOf pd) u v ∧ OldForm pd v := by
  induction hd with
  | refl => exact ⟨.refl, hu⟩
  | tail _ hst ih =>
    obtain ⟨h1, h2⟩ := ih
    cases hst with
    | @mk a b A w hg =>
      have hg' := (grammar_old h hw hw' (h2 A (by simp))).1 hg
      have h3 := h1.tail (.mk a b hg')
      exact ⟨h3, oldForm_derives hw hu h3⟩

theorem derives_iff {A : Nat} (hA : A < pd.elementTypes.length) {v : Form} :
    Derives (grammarOf pd') [.nt A] v ↔ Derives (grammarOf pd) [.nt A] v :=
  ⟨fun hd => (derives_down h hw hw' (oldForm_nt hA) hd).1, derives_up h hw hw'⟩

omit hw hw' in
theorem derives_end {w : Form} (hd : Derives (grammarOf pd') [.nt e] w) : w = [.nt e] ∨ w = [] := by
  rcases hd.nt_inv with rfl | ⟨x, hx, hd⟩
  · exact .inl rfl
  · rw [(grammar_end h).1 hx] at hd
    exact .inr hd.nil_inv

/-- What the new start symbol derives. -/
theorem derives_start (hst : pd.elementTypes[st]? = some .nonTerminal) {w : Form} (hd : Derives (grammarOf pd') [.nt s] w) :
    w = [.nt s] ∨ ∃ x, Derives (grammarOf pd) [.nt st] x ∧ OldForm pd x ∧ (w = x ++ [.nt e] ∨ w = x) := by
  rcases hd.nt_inv with rfl | ⟨x, hx, hd⟩
  · exact .inl rfl
  · rw [(grammar_start h hw' hst).1 hx] at hd
    obtain ⟨x, y, rfl, h1, h2⟩ := Derives.append_inv (u := [.nt st]) (v := [.nt e]) hd
    obtain ⟨h3, h4⟩ := derives_down h hw hw' (oldForm_nt h.old) h1
    refine .inr ⟨x, h3, h4, ?_⟩
    rcases derives_end h h2 with rfl | rfl
    · exact .inl rfl
    · exact .inr (by simp)

theorem start_derives (hst : pd.elementTypes[st]? = some .nonTerminal) {x : Form} (hd : Derives (grammarOf pd) [.nt st] x) :
    Derives (grammarOf pd') [.nt s] (x ++ [.nt e]) ∧ Derives (grammarOf pd') [.nt s] x := by
  have h1 : Derives (grammarOf pd') [.nt s] (x ++ [.nt e]) :=
    (Derives.of_rule ((grammar_start h hw' hst).2 rfl)).trans (Derives.append_right [.nt e] (derives_up h hw hw' hd))
  refine ⟨h1, h1.trans ?_⟩
  have := Derives.append_left x (Derives.of_rule ((grammar_end h).2 rfl))
  simpa using this

theorem followEnd_iff (hst : pd.elementTypes[st]? = some .nonTerminal) {A : Nat} (hA : A < pd.elementTypes.length) :
    FollowEnd (grammarOf pd') s A ↔ FollowEnd (grammarOf pd) st A := by
  have hAs : A ≠ s := by have := h.newStart; omega
  have hAe : A ≠ e := by have := h.newEnd; omega
  constructor
  · rintro ⟨u, hu⟩
    rcases derives_start h hw hw' hst hu with h1 | ⟨x, h1, h2, h3 | rfl⟩
    · exfalso
      rcases List.append_eq_singleton_iff.1 h1 with ⟨-, h1⟩ | ⟨-, h1⟩
      · simp only [List.cons.injEq, Sym.nt.injEq, and_true] at h1; exact hAs h1
      · cases h1
    · have := (List.append_inj' h3 rfl).2
      simp only [List.cons.injEq, Sym.nt.injEq, and_true] at this
      exact absurd this hAe
    · exact ⟨u, h1⟩
  · rintro ⟨u, hu⟩
    exact ⟨u, (start_derives h hw hw' hst hu).2⟩

theorem followChar_iff (hst : pd.elementTypes[st]? = some .nonTerminal) {A : Nat} {c : Char} (hA : A < pd.elementTypes.length) :
    FollowChar (grammarOf pd') A c ↔ FollowChar (grammarOf pd) A c := by
  have hAs : A ≠ s := by have := h.newStart; omega
  have hAe : A ≠ e := by have := h.newEnd; omega
  constructor
  · rintro ⟨B, u, v, ⟨w, hg⟩, hd⟩
    by_cases hB : B < pd.elementTypes.length
    · exact ⟨B, u, v, ⟨w, (grammar_old h hw hw' hB).1 hg⟩, (derives_iff h hw hw' hB).1 hd⟩
    · by_cases hBs : B = s
      · subst hBs
        have fin : ∀ {u v : Form}, Derives (grammarOf pd) [.nt st] (u ++ .nt A :: .ch c :: v) → FollowChar (grammarOf pd) A c := by
          intro u v hd
          rcases hd.nt_inv with h1 | ⟨r, hr, -⟩
          · exfalso
            have := congrArg List.length h1
            simp at this
            omega
          · exact ⟨st, u, v, ⟨r, hr⟩, hd⟩
        rcases derives_start h hw hw' hst hd with h1 | ⟨x, h1, h2, h3 | rfl⟩
        · exfalso
          have := congrArg List.length h1
          simp at this
          omega
        · rcases List.eq_nil_or_concat v with rfl | ⟨v, y, rfl⟩
          · exfalso
            have h4 : (u ++ [.nt A]) ++ [.ch c] = x ++ [.nt e] := by simpa using h3
            have := (List.append_inj' h4 rfl).2
            simp at this
          · have h4 : (u ++ .nt A :: .ch c :: v) ++ [y] = x ++ [.nt e] := by simpa using h3
            have := (List.append_inj' h4 rfl).1
            subst this
            exact fin h1
        · exact fin h1
      · by_cases hBe : B = e
        · subst hBe
          exfalso
          rcases derives_end h hd with h1 | h1
          · have := congrArg List.length h1
            simp at this
            omega
          · simp at h1
        · exact absurd hg (grammar_none h (by omega) hBs hBe)
  · rintro ⟨B, u, v, ⟨w, hg⟩, hd⟩
    have hB : B < pd.elementTypes.length := by
      obtain ⟨r, hr, -⟩ := hg
      exact (List.getElem?_eq_some_iff.1 (hw.keysNT B r hr)).1
    exact ⟨B, u, v, ⟨w, (grammar_old h hw hw' hB).2 hg⟩, derives_up h hw hw' hd⟩

theorem followMember_iff (hst : pd.elementTypes[st]? = some .nonTerminal) {A : Nat} {m : SetMember} (hA : A < pd.elementTypes.length) :
    FollowMember (grammarOf pd') s A m ↔ FollowMember (grammarOf pd) st A m := by
  cases m with
  | char c => exact followChar_iff h hw hw' hst hA
  | terminate => exact followEnd_iff h hw hw' hst hA

theorem steuer_iff (hst : pd.elementTypes[st]? = some .nonTerminal) {A : Nat} {m : SetMember} (hA : A < pd.elementTypes.length) :
    SteuerMember (grammarOf pd') s A m ↔ SteuerMember (grammarOf pd) st A m := by
  have hf : ∀ c, FirstChar (grammarOf pd') [.nt A] c ↔ FirstChar (grammarOf pd) [.nt A] c := fun c =>
    ⟨fun ⟨v, hv⟩ => ⟨v, (derives_iff h hw hw' hA).1 hv⟩, fun ⟨v, hv⟩ => ⟨v, derives_up h hw hw' hv⟩⟩
  simp only [SteuerMember, hf, Nullable, derives_iff h hw hw' hA, followMember_iff h hw hw' hst hA]

theorem control_iff (hst : pd.elementTypes[st]? = some .nonTerminal) {A : Nat} {p : Production} {m : SetMember}
    (hA : A < pd.elementTypes.length) (hp : ∀ i ∈ prodElems p, i < pd.elementTypes.length) :
    Control pd' s A p m ↔ Control pd st A p m := by
  cases p with
  | empty => exact followMember_iff h hw hw' hst hA
  | notEmpty els =>
    cases els with
    | nil => exact Iff.rfl
    | cons i is =>
      have hi : i < pd.elementTypes.length := hp i (by simp [prodElems])
      have hi' : i < pd'.elementTypes.length := by
        have := h.kinds.length_le; omega
      simp only [Control, kind_eq h hi, steuer_iff h hw hw' hst hi]
      refine or_congr (and_congr_right fun ht => ?_) Iff.rfl
      have hx := h.texts i ht
      have hi2 : i < pd.elementData.length := hw.lengths ▸ hi
      have hi3 : i < pd'.elementData.length := hw'.lengths ▸ hi'
      have e1 := List.getElem?_eq_getElem hi2
      have e2 := List.getElem?_eq_getElem hi3
      rw [e1, e2] at hx
      simp only [Option.map_some, Option.some.injEq] at hx
      rw [e1, e2]
      constructor
      · rintro ⟨d, c, hd, hc, hm⟩
        cases hd
        exact ⟨_, c, rfl, hx ▸ hc, hm⟩
      · rintro ⟨d, c, hd, hc, hm⟩
        cases hd
        exact ⟨_, c, rfl, hx ▸ hc, hm⟩

theorem acceptable (hst : pd.elementTypes[st]? = some .nonTerminal) (ha : Acceptable pd st) : Acceptable pd' s where
  startDefined := ⟨_, h.startRule⟩
  defined := by
    intro A r hr p hp i hi ht
    by_cases hA : A < pd.elementTypes.length
    · rw [h.kept A hA] at hr
      have hil := hw.inRange A r hr p hp i hi
      obtain ⟨r', hr'⟩ := ha.defined A r hr p hp i hi (by rw [← kind_eq h hil]; exact ht)
      exact ⟨r', ruleUp h hw hr'⟩
    · by_cases hs : A = s
      · subst hs
        rw [h.startRule] at hr; cases hr
        simp only [List.mem_singleton] at hp
        subst hp
        simp only [prodElems, List.mem_cons, List.not_mem_nil, or_false] at hi
        rcases hi with rfl | rfl
        · obtain ⟨r, hr⟩ := ha.startDefined
          exact ⟨r, ruleUp h hw hr⟩
        · exact ⟨_, h.endRule⟩
      · by_cases he : A = e
        · subst he
          rw [h.endRule] at hr; cases hr
          simp only [List.mem_singleton] at hp
          subst hp
          simp [prodElems] at hi
        · rw [h.noMore A (by omega) hs he] at hr; cases hr
  noLeftRec := by
    rintro A ⟨v, hv⟩
    rw [derivesPlus_nt_iff] at hv
    obtain ⟨x, hx, hd⟩ := hv
    by_cases hA : A < pd.elementTypes.length
    · have hx' := (grammar_old h hw hw' hA).1 hx
      obtain ⟨h1, -⟩ := derives_down h hw hw' (oldForm_of_grammar hw hx') hd
      exact ha.noLeftRec A ⟨v, derivesPlus_nt_iff.2 ⟨x, hx', h1⟩⟩
    · by_cases hs : A = s
      · subst hs
        have hd' : Derives (grammarOf pd') [.nt A] (.nt A :: v) := (Derives.of_rule hx).trans hd
        rw [(grammar_start h hw' hst).1 hx] at hd
        obtain ⟨x, y, hxy, h1, h2⟩ := Derives.append_inv (u := [.nt st]) (v := [.nt e]) hd
        obtain ⟨-, h4⟩ := derives_down h hw hw' (oldForm_nt h.old) h1
        cases x with
        | nil =>
          rcases derives_end h h2 with rfl | rfl
          · simp only [List.nil_append, List.cons.injEq, Sym.nt.injEq] at hxy
            exact h.different hxy.1
          · simp at hxy
        | cons z x =>
          simp only [List.cons_append, List.cons.injEq] at hxy
          exact hA (h4 A (by rw [← hxy.1]; simp))
      · by_cases he : A = e
        · subst he
          rw [(grammar_end h).1 hx] at hd
          have := hd.nil_inv
          cases this
        · exact grammar_none h (by omega) hs he hx
  noEmptyTerminal := by
    intro A r hr i is hp ht d hd
    by_cases hA : A < pd.elementTypes.length
    · rw [h.kept A hA] at hr
      have hil := hw.inRange A r hr _ hp i (by simp [prodElems])
      rw [kind_eq h hil] at ht
      have hx := h.texts i ht
      have e1 := List.getElem?_eq_getElem (hw.lengths ▸ hil)
      rw [hd, e1] at hx
      simp only [Option.map_some, Option.some.injEq] at hx
      rw [hx]
      exact ha.noEmptyTerminal A r hr i is hp ht _ e1
    · by_cases hs : A = s
      · subst hs
        rw [h.startRule] at hr; cases hr
        simp only [List.mem_singleton, Production.notEmpty.injEq, List.cons.injEq] at hp
        obtain ⟨rfl, -⟩ := hp
        rw [kind_eq h h.old, hst] at ht
        cases ht
      · by_cases he : A = e
        · subst he
          rw [h.endRule] at hr; cases hr
          simp at hp
        · rw [h.noMore A (by omega) hs he] at hr; cases hr
  disjoint := by
    intro A r hr
    by_cases hA : A < pd.elementTypes.length
    · rw [h.kept A hA] at hr
      refine (List.Pairwise.imp_of_mem ?_ (ha.disjoint A r hr))
      intro p q hp hq hpq m hm
      exact hpq m ⟨(control_iff h hw hw' hst hA (hw.inRange A r hr p hp)).1 hm.1,
        (control_iff h hw hw' hst hA (hw.inRange A r hr q hq)).1 hm.2⟩
    · by_cases hs : A = s
      · subst hs
        rw [h.startRule] at hr; cases hr
        simp
      · by_cases he : A = e
        · subst he
          rw [h.endRule] at hr; cases hr
          simp
        · rw [h.noMore A (by omega) hs he] at hr; cases hr

theorem acceptable_back (hst : pd.elementTypes[st]? = some .nonTerminal) (ha : Acceptable pd' s) : Acceptable pd st where
  startDefined := by
    obtain ⟨r, hr⟩ := ha.defined s _ h.startRule (.notEmpty [st, e]) (by simp) st (by simp [prodElems])
      (by rw [kind_eq h h.old]; exact hst)
    exact ⟨r, by rw [← h.kept st h.old]; exact hr⟩
  defined := by
    intro A r hr p hp i hi ht
    have hil := hw.inRange A r hr p hp i hi
    obtain ⟨r', hr'⟩ := ha.defined A r (ruleUp h hw hr) p hp i hi (by rw [kind_eq h hil]; exact ht)
    exact ⟨r', by rw [← h.kept i hil]; exact hr'⟩
  noLeftRec := by
    rintro A ⟨v, hv⟩
    exact ha.noLeftRec A ⟨v, Relation.TransGen.mono (fun _ _ => step_up h hw hw') _ _ hv⟩
  noEmptyTerminal := by
    intro A r hr i is hp ht d hd
    have hil := hw.inRange A r hr _ hp i (by simp [prodElems])
    have hi' : i < pd'.elementTypes.length := by
      have := h.kinds.length_le; omega
    have hx := h.texts i ht
    have e2 := List.getElem?_eq_getElem (hw'.lengths ▸ hi')
    rw [hd, e2] at hx
    simp only [Option.map_some, Option.some.injEq] at hx
    rw [← hx]
    exact ha.noEmptyTerminal A r (ruleUp h hw hr) i is hp (by rw [kind_eq h hil]; exact ht) _ e2
  disjoint := by
    intro A r hr
    have hA := (List.getElem?_eq_some_iff.1 (hw.keysNT A r hr)).1
    refine (List.Pairwise.imp_of_mem ?_ (ha.disjoint A r (ruleUp h hw hr)))
    intro p q hp hq hpq m hm
    exact hpq m ⟨(control_iff h hw hw' hst hA (hw.inRange A r hr p hp)).2 hm.1,
      (control_iff h hw hw' hst hA (hw.inRange A r hr q hq)).2 hm.2⟩

theorem language_iff (hst : pd.elementTypes[st]? = some .nonTerminal) (x : Str) :
    Language (grammarOf pd') s x ↔ Language (grammarOf pd) st x := by
  constructor
  · intro hl
    rcases derives_start h hw hw' hst hl with h1 | ⟨y, h1, -, h3 | h3⟩
    · cases x <;> simp [ofText] at h1
    · have : Sym.nt e ∈ ofText x := by rw [h3]; simp
      simp [ofText] at this
    · rw [Language, h3]; exact h1
  · intro hl
    exact (start_derives h hw hw' hst hl).2

/-- Reading old elements. -/
theorem topDown_iff (hst : pd.elementTypes[st]? = some .nonTerminal) :
    ∀ {els : List Nat} {w : Str} {f : Forest} {r : Str}, (∀ i ∈ els, i < pd.elementTypes.length) →
      (TopDown pd' s els w f r ↔ TopDown pd st els w f r) := by
  intro els w f r hels
  constructor
  · intro ht
    induction ht with
    | nil => exact .nil
    | @leaf i es d w r f h1 h2 _ ih =>
      have hi := hels i (by simp)
      rw [kind_eq h hi] at h1
      have hx := h.texts i h1
      have e1 := List.getElem?_eq_getElem (hw.lengths ▸ hi)
      rw [h2, e1] at hx
      simp only [Option.map_some, Option.some.injEq] at hx
      rw [hx]
      exact .leaf h1 e1 (ih fun j hj => hels j (by simp [hj]))
    | @node A es rule p w w1 r kids f h1 h2 h3 h4 _ _ ih1 ih2 =>
      have hA := hels A (by simp)
      rw [h.kept A hA] at h2
      have hp := hw.inRange A rule h2 p h3
      rw [kind_eq h hA] at h1
      exact .node h1 h2 h3 ((control_iff h hw hw' hst hA hp).1 h4) (ih1 hp) (ih2 fun j hj => hels j (by simp [hj]))
  · intro ht
    induction ht with
    | nil => exact .nil
    | @leaf i es d w r f h1 h2 _ ih =>
      have hi := hels i (by simp)
      have hi' : i < pd'.elementTypes.length := by
        have := h.kinds.length_le; omega
      have hx := h.texts i h1
      have e2 := List.getElem?_eq_getElem (hw'.lengths ▸ hi')
      rw [h2, e2] at hx
      simp only [Option.map_some, Option.some.injEq] at hx
      rw [← hx]
      exact .leaf (by rw [kind_eq h hi]; exact h1) e2 (ih fun j hj => hels j (by simp [hj]))
    | @node A es rule p w w1 r kids f h1 h2 h3 h4 _ _ ih1 ih2 =>
      have hA := hels A (by simp)
      have hp := hw.inRange A rule h2 p h3
      exact .node (by rw [kind_eq h hA]; exact h1) (ruleUp h hw h2) h3 ((control_iff h hw hw' hst hA hp).2 h4) (ih1 hp)
        (ih2 fun j hj => hels j (by simp [hj]))

end Mark

/-! ### walking at another place -/

/-- The two grammars give the leaves of the forest the same texts and its nodes the same instructions. -/
def SameOn (pd pd' : ParserData I) : Forest → Prop
  | .nil => True
  | .leaf i f => nameOf pd' i = nameOf pd i ∧ SameOn pd pd' f
  | .node A _ k f => instrOf pd' A = instrOf pd A ∧ SameOn pd pd' k ∧ SameOn pd pd' f

theorem SameOn.symm {f : Forest} (h : SameOn pd pd' f) : SameOn pd' pd f := by
  induction f with
  | nil => trivial
  | leaf i f ih => exact ⟨h.1.symm, ih h.2⟩
  | node A p k f ih1 ih2 => exact ⟨h.1.symm, ih1 h.2.1, ih2 h.2.2⟩

theorem SameOn.roses {f : Forest} (h : SameOn pd pd' f) : roses pd' f = roses pd f := by
  induction f with
  | nil => rfl
  | leaf i f ih => simp only [Spec.roses, h.1, ih h.2]
  | node A p k f ih1 ih2 => simp only [Spec.roses, ih1 h.2.1, ih2 h.2.2]

theorem sameOn_topDown (h : EndMarked pd st pd' s e) (hw : WellFormed pd) (hw' : WellFormed pd') {els : List Nat} {w : Str}
    {f : Forest} {r : Str} {a : Nat} (ht : TopDown pd a els w f r) (hels : ∀ i ∈ els, i < pd.elementTypes.length) :
    SameOn pd pd' f := by
  induction ht with
  | nil => trivial
  | @leaf i es d w r f h1 h2 _ ih =>
    have hi := hels i (by simp)
    have hi' : i < pd'.elementTypes.length := by
      have := h.kinds.length_le; omega
    have hx := h.texts i h1
    have e2 := List.getElem?_eq_getElem (hw'.lengths ▸ hi')
    rw [h2, e2] at hx
    simp only [Option.map_some, Option.some.injEq] at hx
    refine ⟨?_, ih fun j hj => hels j (by simp [hj])⟩
    simp only [nameOf, h2, e2, hx]
  | @node A es rule p w w1 r kids f h1 h2 h3 h4 _ _ ih1 ih2 =>
    have hp := hw.inRange A rule h2 p h3
    refine ⟨?_, ih1 hp, ih2 fun j hj => hels j (by simp [hj])⟩
    simp only [instrOf, h2, Mark.ruleUp h hw h2]

theorem executes_moved {vm : VM I S} (htp : TreePreserving vm) (hb : SeesOnlyShown vm) {id id' : NodeId} {r : Rose}
    {is : List I} {τ τ' : Tree Str} (h1 : Shows τ id r) (h2 : Shows τ' id' r) : ∀ {u : S} {y : Tree Str × S},
    Executes vm id is (τ, u) y → Executes vm id' is (τ', u) (τ', y.2) := by
  induction is with
  | nil => intro u y a; cases a; exact .nil
  | cons i is ih =>
    intro u y a
    cases a with
    | @cons _ _ _ z _ a1 a2 =>
      obtain ⟨t1, u1⟩ := z
      have e1 := htp _ _ _ _ _ _ a1
      simp only at e1 a1
      subst e1
      have hx := hb _ _ _ _ _ h1 h2 i u
      rw [a1] at hx
      simp only [Option.map_some] at hx
      cases hy : vm.execute τ' id' i u with
      | none => rw [hy] at hx; cases hx
      | some q =>
        obtain ⟨t2, u2⟩ := q
        have e2 := htp _ _ _ _ _ _ hy
        subst e2
        rw [hy] at hx
        simp only [Option.map_some, Option.some.injEq] at hx
        subst hx
        exact .cons hy (ih a2)

/-- A walk in one tree can be done in another tree, below another node. -/
theorem walk_moved {vm : VM I S} (htp : TreePreserving vm) (hb : SeesOnlyShown vm) {parent : Option NodeId} {f : Forest}
    {x y : Tree Str × S} (h : Walk vm pd parent f x y) (hf : SameOn pd pd' f) :
    ∀ hist par, TRep x.1 hist → ParOk hist parent par →
    ∀ (t' : Tree Str) hist' parent' par', TRep t' hist' → ParOk hist' parent' par' →
      ∃ t2, Walk vm pd' parent' f (t', x.2) (t2, y.2) := by
  induction h with
  | nil => intro hist par _ _ t' hist' parent' par' _ _; exact ⟨t', .nil⟩
  | @leaf parent i f t t1 u r y h1 h2 _ ih =>
    intro hist par hr hp t' hist' parent' par' hr' hp'
    obtain ⟨ta, g1, g2⟩ := hr.addNode_par (nameOf pd i) hp.1 hp.2
    simp only at hr g1
    rw [g1] at h1
    simp only [Prod.mk.injEq] at h1
    obtain ⟨-, rfl⟩ := h1
    obtain ⟨tb, k1, k2⟩ := hr'.addNode_par (nameOf pd' i) hp'.1 hp'.2
    obtain ⟨t2, hwk⟩ := ih hf.2 (hist ++ [(par, nameOf pd i)]) par g2
      ⟨hp.1, fun q hq => by have := hp.2 q hq; simp; omega⟩ tb _ parent' par' k2
      ⟨hp'.1, fun q hq => by have := hp'.2 q hq; simp; omega⟩
    exact ⟨t2, .leaf k1 (.inl ⟨_, rfl⟩) hwk⟩
  | @node parent A p kids f t t1 u id x y z h1 hk h3 _ ih1 ih2 =>
    intro hist par hr hp t' hist' parent' par' hr' hp'
    obtain ⟨hf1, hf2, hf3⟩ := hf
    obtain ⟨ta, g1, g2⟩ := hr.addNode_par ([] : Str) hp.1 hp.2
    simp only at hr g1
    rw [g1] at h1
    simp only [Prod.mk.injEq, Res.ok.injEq] at h1
    obtain ⟨rfl, rfl⟩ := h1
    obtain ⟨tb, k1, k2⟩ := hr'.addNode_par ([] : Str) hp'.1 hp'.2
    have po : ParOk (hist ++ [(par, [])]) (some ⟨hist.length, hist.length⟩) (some hist.length) :=
      ⟨rfl, fun q hq => by cases hq; simp⟩
    have po' : ParOk (hist' ++ [(par', [])]) (some ⟨hist'.length, hist'.length⟩) (some hist'.length) :=
      ⟨rfl, fun q hq => by cases hq; simp⟩
    obtain ⟨t2, hwk⟩ := ih1 hf2 _ _ g2 po tb _ _ _ k2 po'
    obtain ⟨a, -⟩ := walk_runs htp hk _ _ g2 po
    obtain ⟨a', -⟩ := walk_runs htp hwk _ _ k2 po'
    simp only [List.length_append, List.length_singleton] at a a'
    obtain ⟨tx, sx⟩ := x
    obtain ⟨ty, sy⟩ := y
    have he := (executes_iff vm _ _ _ _).1 h3
    have ht := runInstructions_tree htp _ _ he
    simp only at ht a he
    subst ht
    have hh : TRep ty (hist ++ histOf pd par hist.length (.node A p kids .nil)) := by
      simpa [histOf] using a
    have hh' : TRep t2 (hist' ++ histOf pd' par' hist'.length (.node A p kids .nil)) := by
      simpa [histOf] using a'
    have hsh := hh.shows_node hp.2
    have hsh' := hh'.shows_node hp'.2
    rw [hf2.roses] at hsh'
    have hex := executes_moved htp hb hsh hsh' h3
    rw [← hf1] at hex
    obtain ⟨t3, hw3⟩ := ih2 hf3 _ par hh ⟨hp.1, fun q hq => by have := hp.2 q hq; simp; omega⟩ t2 _ parent' par' hh'
      ⟨hp'.1, fun q hq => by have := hp'.2 q hq; simp; omega⟩
    exact ⟨t3, .node k1 hwk hex hw3⟩

end HPP
