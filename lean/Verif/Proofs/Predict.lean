import Verif.Spec.LL1
import Verif.Proofs.Steuer
/-
Control sets and PREDICT sets.
-/
namespace HPP
open Spec
variable {I : Type}

theorem formOf_leading_nt {pd : ParserData I} {e : Nat} {es : List Nat}
    (hT : pd.elementTypes[e]? = some .nonTerminal) :
    formOf pd (e :: es) = .nt e :: formOf pd es := by
  rw [formOf_cons, elemForm_nonTerminal hT]; rfl

/-- The textbook PREDICT set is contained in the control set that the code uses. -/
theorem predict_control {pd : ParserData I} (hw : WellFormed pd) (hne : NoLeadingEmptyTerminal pd)
    {start A : Nat} {r : NTRule I} (hr : AMap.get pd.rules A = some r) {p : Production} (hp : p ∈ r.prods)
    {m : SetMember} (h : Predict pd start A p m) : Control pd start A p m := by
  cases p with
  | empty =>
    rcases h with ⟨c, rfl, hc⟩ | ⟨_, h⟩
    · exact absurd hc not_firstChar_nil
    · exact h
  | notEmpty els =>
    cases els with
    | nil => exact absurd rfl (hw.nonEmpty A r hr _ hp)
    | cons e es =>
      have hlt := hw.inRange A r hr _ hp e (by simp [prodElems])
      have hT := List.getElem?_eq_getElem hlt
      have hD := List.getElem?_eq_getElem (hw.lengths ▸ hlt)
      cases htt : pd.elementTypes[e] with
      | terminal =>
        rw [htt] at hT
        have hnm := hne A r hr e es hp hT _ hD
        left
        refine ⟨hT, ?_⟩
        simp only [Predict, prodElems, formOf_cons, elemForm_terminal hT hD, firstChar_append,
          nullable_append, nullable_ofText, firstChar_ofText, hnm, false_and, or_false] at h
        obtain ⟨c, rfl, hc⟩ := h
        exact ⟨_, c, hD, hc, rfl⟩
      | nonTerminal =>
        rw [htt] at hT
        right
        refine ⟨hT, ?_⟩
        have hG : grammarOf pd A ([] ++ .nt e :: formOf pd es) :=
          ⟨r, hr, _, hp, by simp [prodElems, elemForm_nonTerminal hT]⟩
        simp only [Predict, prodElems, formOf_leading_nt hT] at h
        rcases h with ⟨c, rfl, hc⟩ | ⟨hn, hf⟩
        · rcases firstChar_cons.mp hc with hc | ⟨hn, hc⟩
          · exact .inl ⟨c, rfl, hc⟩
          · exact .inr ⟨hn, followG_iff.mp (FollowG.first (start := start) hG hc)⟩
        · obtain ⟨h1, h2⟩ := nullable_cons.mp hn
          exact .inr ⟨h1, followG_iff.mp (FollowG.prop hG h2 (followG_iff.mpr hf))⟩

/-- If no alternative begins with a nullable non-terminal, the two sets agree. -/
theorem control_predict {pd : ParserData I} (hnl : NoLeadingNullable pd)
    {start A : Nat} {r : NTRule I} (hr : AMap.get pd.rules A = some r) {p : Production} (hp : p ∈ r.prods)
    {m : SetMember} (h : Control pd start A p m) : Predict pd start A p m := by
  cases p with
  | empty => exact .inr ⟨nullable_nil, h⟩
  | notEmpty els =>
    cases els with
    | nil => exact h.elim
    | cons e es =>
      rcases h with ⟨hT, d, c, hD, hc, rfl⟩ | ⟨hT, h⟩
      · refine .inl ⟨c, rfl, ?_⟩
        simp only [prodElems, formOf_cons, elemForm_terminal hT hD, firstChar_append, firstChar_ofText]
        exact .inl hc
      · rcases h with ⟨c, rfl, hc⟩ | ⟨hn, -⟩
        · refine .inl ⟨c, rfl, ?_⟩
          simp only [prodElems, formOf_leading_nt hT]
          exact firstChar_cons.mpr (.inl hc)
        · exact absurd hn (hnl A r hr e es hp hT)

end HPP
