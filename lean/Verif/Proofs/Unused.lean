import Verif.Spec.Unused
import Verif.Spec.Walk
import Verif.Proofs.Cfg
import Verif.Proofs.ParseTop
namespace HPP
open Spec
variable {I S : Type} {K : Nat → Prop} {pd pd' : ParserData I}

theorem prefix_getElem? {α : Type} {l l' : List α} (h : l' <+: l) {i : Nat} {x : α} (hx : l'[i]? = some x) :
    l[i]? = some x := by
  obtain ⟨t, rfl⟩ := h
  obtain ⟨hi, -⟩ := List.getElem?_eq_some_iff.mp hx
  rw [List.getElem?_append_left hi]; exact hx

theorem prefix_getElem?_lt {α : Type} {l l' : List α} (h : l' <+: l) {i : Nat} (hi : i < l'.length) : l[i]? = l'[i]? := by
  obtain ⟨t, rfl⟩ := h
  rw [List.getElem?_append_left hi]

namespace Unu
variable (h : Restricted K pd pd')
include h

theorem ruleUp {A : Nat} {r : NTRule I} (hr : AMap.get pd'.rules A = some r) : K A ∧ AMap.get pd.rules A = some r := by
  by_cases hk : K A
  · exact ⟨hk, by rw [← h.kept A hk]; exact hr⟩
  · rw [h.dropped A hk] at hr; cases hr

theorem ruleDown {A : Nat} (hk : K A) {r : NTRule I} (hr : AMap.get pd.rules A = some r) : AMap.get pd'.rules A = some r := by
  rw [h.kept A hk]; exact hr

theorem elemForm_eq (hw' : WellFormed pd') {e : Nat} (he : e < pd'.elementTypes.length) : elemForm pd e = elemForm pd' e := by
  simp only [elemForm, prefix_getElem?_lt h.kinds he, prefix_getElem?_lt h.data (hw'.lengths ▸ he)]

theorem formOf_eq (hw' : WellFormed pd') {es : List Nat} (he : ∀ e ∈ es, e < pd'.elementTypes.length) :
    formOf pd es = formOf pd' es := by
  induction es with
  | nil => rfl
  | cons e es ih =>
    simp only [formOf, List.flatMap_cons] at ih ⊢
    rw [elemForm_eq h hw' (he e (.head _)), ih (fun x hx => he x (.tail _ hx))]

theorem grammar_up (hw' : WellFormed pd') {A : Nat} {w : Form} (hg : grammarOf pd' A w) : grammarOf pd A w := by
  obtain ⟨r, hr, p, hp, rfl⟩ := hg
  exact ⟨r, (ruleUp h hr).2, p, hp, (formOf_eq h hw' fun e he => hw'.inRange A r hr p hp e he).symm⟩

theorem grammar_down (hw' : WellFormed pd') {A : Nat} {w : Form} (hk : K A) (hg : grammarOf pd A w) :
    grammarOf pd' A w ∧ ∀ B, Sym.nt B ∈ w → (pd.elementTypes[B]? = some .nonTerminal) → K B := by
  obtain ⟨r, hr, p, hp, rfl⟩ := hg
  have hr' := ruleDown h hk hr
  have hin := fun e he => hw'.inRange A r hr' p hp e he
  refine ⟨⟨r, hr', p, hp, formOf_eq h hw' hin⟩, ?_⟩
  intro B hB ht
  refine h.closed A r hk hr p hp B ?_ ht
  simp only [formOf, List.mem_flatMap] at hB
  obtain ⟨e, he, hBe⟩ := hB
  have : B = e := by
    unfold elemForm at hBe
    split at hBe
    · simp [ofText] at hBe
    · simpa using hBe
  rw [this]; exact he

theorem step_up (hw' : WellFormed pd') {u v : Form} (hs : Step (grammarOf pd') u v) : Step (grammarOf pd) u v := by
  cases hs with
  | mk a b hg => exact .mk a b (grammar_up h hw' hg)

theorem derives_up (hw' : WellFormed pd') {u v : Form} (hs : Derives (grammarOf pd') u v) : Derives (grammarOf pd) u v :=
  Relation.ReflTransGen.mono (fun _ _ => step_up h hw') _ _ hs

theorem derives_down (hw : WellFormed pd) (hw' : WellFormed pd') {u v : Form}
    (hu : ∀ B, Sym.nt B ∈ u → (pd.elementTypes[B]? = some .nonTerminal) → K B) (hs : Derives (grammarOf pd) u v) :
    Derives (grammarOf pd') u v ∧ ∀ B, Sym.nt B ∈ v → (pd.elementTypes[B]? = some .nonTerminal) → K B := by
  induction hs with
  | refl => exact ⟨.refl, hu⟩
  | tail _ hst ih =>
    obtain ⟨h1, h2⟩ := ih
    cases hst with
    | @mk a b A w hg =>
      have hnt : pd.elementTypes[A]? = some .nonTerminal := by
        obtain ⟨r, hr, -⟩ := hg
        exact hw.keysNT A r hr
      obtain ⟨k1, k2⟩ := grammar_down h hw' (h2 A (by simp) hnt) hg
      refine ⟨h1.tail (.mk a b k1), fun B hB ht => ?_⟩
      simp only [List.mem_append] at hB
      rcases hB with (hB | hB) | hB
      · exact h2 B (by simp [hB]) ht
      · exact k2 B hB ht
      · exact h2 B (by simp [hB]) ht

theorem derives_iff (hw : WellFormed pd) (hw' : WellFormed pd') {start : Nat} (hk : K start) {v : Form} :
    Derives (grammarOf pd') [.nt start] v ↔ Derives (grammarOf pd) [.nt start] v :=
  ⟨derives_up h hw', fun hd => (derives_down h hw hw' (fun B hB _ => by
    simp only [List.mem_singleton, Sym.nt.injEq] at hB; rw [hB]; exact hk) hd).1⟩

theorem followMember_up (hw' : WellFormed pd') {start A : Nat} {m : SetMember}
    (hm : FollowMember (grammarOf pd') start A m) : FollowMember (grammarOf pd) start A m := by
  cases m with
  | char c =>
    obtain ⟨B, u, v, ⟨w, hg⟩, hd⟩ := hm
    exact ⟨B, u, v, ⟨w, grammar_up h hw' hg⟩, derives_up h hw' hd⟩
  | terminate =>
    obtain ⟨u, hd⟩ := hm
    exact ⟨u, derives_up h hw' hd⟩

theorem control_up (hw' : WellFormed pd') {start A : Nat} {p : Production} {m : SetMember}
    (hm : Control pd' start A p m) : Control pd start A p m := by
  cases p with
  | empty => exact followMember_up h hw' hm
  | notEmpty els =>
    cases els with
    | nil => exact hm
    | cons e es =>
      rcases hm with ⟨h1, d, c, h2, h3, h4⟩ | ⟨h1, h2⟩
      · exact .inl ⟨prefix_getElem? h.kinds h1, d, c, prefix_getElem? h.data h2, h3, h4⟩
      · refine .inr ⟨prefix_getElem? h.kinds h1, ?_⟩
        rcases h2 with ⟨c, hc, v, hv⟩ | ⟨h2, h3⟩
        · exact .inl ⟨c, hc, v, derives_up h hw' hv⟩
        · exact .inr ⟨derives_up h hw' h2, followMember_up h hw' h3⟩

theorem acceptable (hw' : WellFormed pd') {start : Nat} (hk : K start) (ha : Acceptable pd start) :
    Acceptable pd' start where
  startDefined := by
    obtain ⟨r, hr⟩ := ha.startDefined
    exact ⟨r, ruleDown h hk hr⟩
  defined := by
    intro A r hr p hp e he ht
    obtain ⟨k1, k2⟩ := ruleUp h hr
    have ht' := prefix_getElem? h.kinds ht
    obtain ⟨r', hr'⟩ := ha.defined A r k2 p hp e he ht'
    exact ⟨r', ruleDown h (h.closed A r k1 k2 p hp e he ht') hr'⟩
  noLeftRec := by
    rintro A ⟨v, hv⟩
    exact ha.noLeftRec A ⟨v, Relation.TransGen.mono (fun _ _ => step_up h hw') _ _ hv⟩
  noEmptyTerminal := by
    intro A r hr e es hp ht d hd
    exact ha.noEmptyTerminal A r (ruleUp h hr).2 e es hp (prefix_getElem? h.kinds ht) d (prefix_getElem? h.data hd)
  disjoint := by
    intro A r hr
    exact (ha.disjoint A r (ruleUp h hr).2).imp fun {p q} hpq m hm => hpq m ⟨control_up h hw' hm.1, control_up h hw' hm.2⟩

theorem topDown_up (hw' : WellFormed pd') {start : Nat} {els : List Nat} {w r : Str} {f : Forest}
    (ht : TopDown pd' start els w f r) : TopDown pd start els w f r := by
  induction ht with
  | nil => exact .nil
  | leaf h1 h2 _ ih => exact .leaf (prefix_getElem? h.kinds h1) (prefix_getElem? h.data h2) ih
  | node h1 h2 h3 h4 _ _ ih1 ih2 =>
    exact .node (prefix_getElem? h.kinds h1) (ruleUp h h2).2 h3 (control_up h hw' h4) ih1 ih2

theorem instrOf_eq {A : Nat} {r : NTRule I} (hr : AMap.get pd'.rules A = some r) : instrOf pd' A = instrOf pd A := by
  simp only [instrOf, hr, (ruleUp h hr).2]

theorem walk_up (vm : VM I S) {start : Nat} {els : List Nat} {w r : Str} {f : Forest}
    (ht : TopDown pd' start els w f r) : ∀ {par : Option NodeId} {x y : Tree Str × S}, Walk vm pd' par f x y →
      Walk vm pd par f x y := by
  induction ht with
  | nil => intro par x y hx; cases hx; exact .nil
  | @leaf e es d w r f h1 h2 _ ih =>
    intro par x y hx
    cases hx with
    | leaf k1 k2 k3 =>
      have : nameOf pd e = nameOf pd' e := by simp only [nameOf, h2, prefix_getElem? h.data h2]
      exact .leaf (this ▸ k1) k2 (ih k3)
  | node h1 h2 h3 h4 _ _ ih1 ih2 =>
    intro par x y hx
    cases hx with
    | node k1 k2 k3 k4 => exact .node k1 (ih1 k2) (instrOf_eq h h2 ▸ k3) (ih2 k4)

end Unu
end HPP
