import Verif.Spec.Parse
import Verif.Proofs.Predict
/-
Parse trees and derivations; uniqueness of parse trees.
-/
namespace HPP
open Spec
variable {I S : Type}

theorem ofText_append (s t : Str) : ofText (s ++ t) = ofText s ++ ofText t := by simp [ofText]

theorem _root_.HPP.Spec.IsForest.derives {pd : ParserData I} {els : List Nat} {f : Forest} {s : Str}
    (h : IsForest pd els f s) : Derives (grammarOf pd) (formOf pd els) (ofText s) := by
  induction h with
  | nil => exact .refl
  | leaf h1 h2 _ ih =>
    rw [formOf_cons, elemForm_terminal h1 h2, ofText_append]
    exact Derives.append_left _ ih
  | @node A es r p kids f s1 s2 h1 h2 h3 _ _ ih1 ih2 =>
    rw [formOf_cons, elemForm_nonTerminal h1, ofText_append]
    exact Derives.append ((Derives.of_rule ⟨r, h2, p, h3, rfl⟩).trans ih1) ih2

theorem ofText_eq_append {s : Str} {u v : Form} (h : ofText s = u ++ v) :
    ∃ s1 s2, s = s1 ++ s2 ∧ u = ofText s1 ∧ v = ofText s2 := by
  obtain ⟨s1, s2, h1, h2, h3⟩ := List.map_eq_append_iff.mp h
  exact ⟨s1, s2, h1, h2.symm, h3.symm⟩

theorem ofText_inj {s t : Str} (h : ofText s = ofText t) : s = t :=
  List.map_injective_iff.mpr (fun a b hab => by cases hab; rfl) h

/-- Derivation-length induction: from a derivation of a text to a parse forest. -/
theorem exists_forest_aux {pd : ParserData I} (hw : WellFormed pd) (n : Nat) :
    ∀ (els : List Nat) (s : Str), (∀ e ∈ els, e < pd.elementTypes.length) →
      DerivesN (grammarOf pd) n (formOf pd els) (ofText s) → ∃ f, IsForest pd els f s := by
  induction n using Nat.strongRecOn with
  | _ n ih =>
    intro els
    induction els generalizing n with
    | nil =>
      intro s _ h
      have := Derives.nil_inv h.toDerives
      have hs : s = [] := by simpa [ofText] using this
      subst hs
      exact ⟨.nil, .nil⟩
    | cons e es ihe =>
      intro s hr h
      rw [formOf_cons] at h
      obtain ⟨n1, n2, u, v, rfl, huv, h1, h2⟩ := DerivesN.append_inv h
      obtain ⟨s1, s2, rfl, rfl, rfl⟩ := ofText_eq_append huv
      obtain ⟨f2, hf2⟩ := ihe n2 (fun m hm => ih m (by omega)) s2 (fun x hx => hr x (by simp [hx])) h2
      rcases WellFormed.element hw (hr e (by simp)) with ⟨d, hT, hD⟩ | hT
      · rw [elemForm_terminal hT hD] at h1
        have := ofText_inj (Derives.ofText_inv h1.toDerives)
        subst this
        exact ⟨_, .leaf hT hD hf2⟩
      · rw [elemForm_nonTerminal hT] at h1
        generalize hx : ofText s1 = x at h1
        cases h1 with
        | refl =>
          cases s1 with
          | nil => simp [ofText] at hx
          | cons c s1 => simp [ofText] at hx
        | @head m _ w _ hs hr1 =>
          subst hx
          obtain ⟨r, hr', p, hp, rfl⟩ := hs.nt_inv
          obtain ⟨f1, hf1⟩ := ih m (by omega) (prodElems p) s1 (hw.inRange e r hr' p hp) hr1
          exact ⟨_, .node hT hr' hp hf1 hf2⟩

theorem exists_forest {pd : ParserData I} (hw : WellFormed pd) {els : List Nat} {s : Str}
    (hr : ∀ e ∈ els, e < pd.elementTypes.length)
    (h : Derives (grammarOf pd) (formOf pd els) (ofText s)) : ∃ f, IsForest pd els f s := by
  obtain ⟨n, hn⟩ := h.toN
  exact exists_forest_aux hw n els s hr hn

/-- Disjoint control sets: at most one alternative is possible. -/
theorem control_unique {pd : ParserData I} {start : Nat} (hdis : ControlDisjoint pd start) {A : Nat}
    {r : NTRule I} (hr : AMap.get pd.rules A = some r) {p q : Production} (hp : p ∈ r.prods)
    (hq : q ∈ r.prods) {m : SetMember} (h1 : Control pd start A p m) (h2 : Control pd start A q m) :
    p = q := by
  by_contra hne
  have := hdis A r hr
  have hpw := List.pairwise_iff_getElem.mp this
  obtain ⟨i, hi, rfl⟩ := List.getElem_of_mem hp
  obtain ⟨j, hj, rfl⟩ := List.getElem_of_mem hq
  rcases Nat.lt_trichotomy i j with h | h | h
  · exact hpw i j hi hj h m ⟨h1, h2⟩
  · subst h; exact hne rfl
  · exact hpw j i hj hi h m ⟨h2, h1⟩

/-! ### lookahead of a form -/

/-- The lookahead a form presents. -/
def look : Form → SetMember
  | .ch c :: _ => .char c
  | _ => .terminate

/-- The form is empty (only allowed when counting from the start symbol) or begins with a character. -/
def Headed (atStart : Prop) (z : Form) : Prop := (z = [] ∧ atStart) ∨ ∃ c w, z = .ch c :: w

theorem Headed.text_append {P : Prop} {z : Form} (h : Headed P z) (s : Str) : Headed P (ofText s ++ z) := by
  cases s with
  | nil => exact h
  | cons c s => exact .inr ⟨c, ofText s ++ z, rfl⟩

theorem follow_of_context {G : Grammar} {start B0 A : Nat} {u K z : Form}
    (hc : Derives G [.nt B0] (u ++ .nt A :: K)) (hK : Derives G K z) (hz : Headed (B0 = start) z) :
    FollowMember G start A (look z) := by
  obtain ⟨h1, h2⟩ := follow_occurrence (start := start) hc u A K rfl
  rcases hz with ⟨rfl, hs⟩ | ⟨c, w, rfl⟩
  · exact followG_iff.mp (h2 hs hK)
  · exact followG_iff.mp (h1 c ⟨w, hK⟩)

/-- The lookahead of what is derived lies in the PREDICT set of the alternative used. -/
theorem predict_of_context {pd : ParserData I} {start B0 A : Nat} {u K x y : Form} {p : Production}
    (hc : Derives (grammarOf pd) [.nt B0] (u ++ .nt A :: K))
    (hx : Derives (grammarOf pd) (formOf pd (prodElems p)) x) (hy : Derives (grammarOf pd) K y)
    (hz : Headed (B0 = start) (x ++ y)) : Predict pd start A p (look (x ++ y)) := by
  cases x with
  | nil => exact .inr ⟨hx, follow_of_context hc hy hz⟩
  | cons a x =>
    rcases hz with ⟨h, -⟩ | ⟨c, w, h⟩
    · simp at h
    · simp only [List.cons_append, List.cons.injEq] at h
      obtain ⟨rfl, rfl⟩ := h
      exact .inl ⟨c, rfl, x, hx⟩

/-- Two parse forests of the same elements over texts that agree (up to what follows) are equal. -/
theorem forest_unique {pd : ParserData I} {start : Nat} (hw : WellFormed pd) (ha : Acceptable pd start)
    {els : List Nat} {f : Forest} {s : Str} (h : IsForest pd els f s) :
    ∀ {f' : Forest} {s' : Str} {B0 : Nat} {u K z z' : Form}, IsForest pd els f' s' →
      Derives (grammarOf pd) [.nt B0] (u ++ (formOf pd els ++ K)) →
      Derives (grammarOf pd) K z → Derives (grammarOf pd) K z' →
      Headed (B0 = start) z → Headed (B0 = start) z' → ofText s ++ z = ofText s' ++ z' →
      f = f' ∧ s = s' := by
  induction h with
  | nil =>
    intro f' s' B0 u K z z' h' _ _ _ _ _ _
    cases h'; exact ⟨rfl, rfl⟩
  | @leaf e es d f s h1 h2 _ ih =>
    intro f' s' B0 u K z z' h' hc hK hK' hz hz' he
    cases h' with
    | @leaf _ _ d' f' s' h1' h2' h3' =>
      rw [h2] at h2'; cases h2'
      rw [ofText_append, ofText_append, List.append_assoc, List.append_assoc] at he
      have he := List.append_cancel_left he
      rw [formOf_cons, elemForm_terminal h1 h2] at hc
      obtain ⟨rfl, rfl⟩ := ih h3' (u := u ++ ofText d.name) (by simpa using hc) hK hK' hz hz' he
      exact ⟨rfl, rfl⟩
    | node h1' => rw [h1] at h1'; cases h1'
  | @node A es r p kids f s1 s2 h1 h2 h3 hk hf ih1 ih2 =>
    intro f' s' B0 u K z z' h' hc hK hK' hz hz' he
    cases h' with
    | leaf h1' => rw [h1] at h1'; cases h1'
    | @node _ _ r' p' kids' f' s1' s2' h1' h2' h3' hk' hf' =>
      rw [h2] at h2'; cases h2'
      rw [formOf_cons, elemForm_nonTerminal h1] at hc
      have hc' : Derives (grammarOf pd) [.nt B0] (u ++ .nt A :: (formOf pd es ++ K)) := by simpa using hc
      rw [ofText_append, ofText_append, List.append_assoc, List.append_assoc] at he
      have hd : Derives (grammarOf pd) (formOf pd es ++ K) (ofText s2 ++ z) := hf.derives.append hK
      have hd' : Derives (grammarOf pd) (formOf pd es ++ K) (ofText s2' ++ z') := hf'.derives.append hK'
      have hp := predict_of_context (start := start) hc' hk.derives hd ((hz.text_append s2).text_append s1)
      have hp' := predict_of_context (start := start) hc' hk'.derives hd' ((hz'.text_append s2').text_append s1')
      rw [← he] at hp'
      have := control_unique ha.disjoint h2 h3 h3' (predict_control hw ha.noEmptyTerminal h2 h3 hp)
        (predict_control hw ha.noEmptyTerminal h2 h3' hp')
      subst this
      have hG : grammarOf pd A (formOf pd (prodElems p)) := ⟨r, h2, p, h3, rfl⟩
      have hc1 : Derives (grammarOf pd) [.nt B0]
          (u ++ (formOf pd (prodElems p) ++ (formOf pd es ++ K))) :=
        hc'.trans (Derives.append_left u ((Derives.of_rule hG).append_right _))
      obtain ⟨rfl, rfl⟩ := ih1 hk' hc1 hd hd' (hz.text_append s2) (hz'.text_append s2') he
      have he := List.append_cancel_left he
      have hc2 : Derives (grammarOf pd) [.nt B0] ((u ++ ofText s1) ++ (formOf pd es ++ K)) := by
        have := hc1.trans (Derives.append_left u (hk.derives.append_right _))
        simpa using this
      obtain ⟨rfl, rfl⟩ := ih2 hf' hc2 hK hK' hz hz' he
      exact ⟨rfl, rfl⟩

end HPP
