import Verif.Props.ParserData
/-
C64: all ways of looking something up in grammar data agree.
-/
namespace HPP
open Spec
variable {I : Type}

theorem elementsVerboseFrom_eq {ε : Type} (keys pre : List ElementVerbose) :
    (ParserData.elementsVerboseFrom ((pre ++ keys).map (·.et)) pre.length (keys.map (fun k => ⟨false, k.name⟩)) :
      Res ε _) = .ok keys := by
  induction keys generalizing pre with
  | nil => rfl
  | cons k ks ih =>
    have h := ih (pre ++ [k])
    rw [List.append_assoc, List.length_append] at h
    simp only [List.cons_append, List.nil_append, List.length_cons, List.length_nil, Nat.zero_add] at h
    simp only [List.map_cons, ParserData.elementsVerboseFrom]
    have hg : ((pre ++ k :: ks).map (·.et))[pre.length]? = some k.et := by
      rw [List.getElem?_map, List.getElem?_append_right (Nat.le_refl _)]
      simp
    rw [hg]
    show (ParserData.elementsVerboseFrom _ _ _ >>= fun r => pure (_ :: r)) = _
    rw [h]
    rfl

/-- **C64**, elements: after any history of calls, the kind (`get_element`), the data (`get_element_data`), the list of
all elements (`get_elements_verbose`, which does not panic) and the index by name and kind (`get_element_nt_index`,
`get_element_t_index`) all say the same as `get_element_verbose`; data is never marked to be kept. -/
theorem C64_elements (ops : List (BuildOp I)) :
    (∀ i e, (build ops).getElement i = some e ↔
      e.ix = i ∧ ∃ name, (build ops).getElementVerbose i = some ⟨name, e.et⟩) ∧
    (∀ i d, (build ops).getElementData i = some d ↔
      d.keepData = false ∧ ∃ et, (build ops).getElementVerbose i = some ⟨d.name, et⟩) ∧
    (∃ l : List ElementVerbose, ((build ops).getElementsVerbose : Res PErr _) = .ok l ∧
      ∀ i : Nat, l[i]? = (build ops).getElementVerbose i) ∧
    (∀ n i, (build ops).getElementNtIndex n = some i ↔ (build ops).getElementVerbose i = some ⟨n, .nonTerminal⟩) ∧
    (∀ n i, (build ops).getElementTIndex n = some i ↔ (build ops).getElementVerbose i = some ⟨n, .terminal⟩) := by
  have hi := build_intern ops
  refine ⟨fun i e => ?_, fun i d => ?_, ⟨_, ?_, fun i => (hi.verbose i).symm⟩, fun n i => ?_, fun n i => ?_⟩
  · obtain ⟨ix, et⟩ := e
    simp only [ParserData.getElement, hi.types, hi.verbose, List.getElem?_map]
    cases h : (firstOccurrences (requested ops))[i]? with
    | none => simp
    | some k =>
      obtain ⟨n, kt⟩ := k
      simp only [Option.map_some, Option.some.injEq, Element.mk.injEq, ElementVerbose.mk.injEq]
      constructor
      · rintro ⟨rfl, rfl⟩; exact ⟨rfl, n, rfl, rfl⟩
      · rintro ⟨rfl, m, -, rfl⟩; exact ⟨rfl, rfl⟩
  · obtain ⟨kd, dn⟩ := d
    simp only [ParserData.getElementData, hi.data, hi.verbose, List.getElem?_map]
    cases h : (firstOccurrences (requested ops))[i]? with
    | none => simp
    | some k =>
      obtain ⟨n, kt⟩ := k
      simp only [Option.map_some, Option.some.injEq, ElementData.mk.injEq, ElementVerbose.mk.injEq]
      constructor
      · rintro ⟨rfl, rfl⟩; exact ⟨rfl, kt, rfl, rfl⟩
      · rintro ⟨rfl, m, rfl, -⟩; exact ⟨rfl, rfl⟩
  · simp only [ParserData.getElementsVerbose, hi.types, hi.data]
    exact elementsVerboseFrom_eq (firstOccurrences (requested ops)) []
  · rw [C08_lookup]; exact hi.map _ i
  · rw [C08_lookup]; exact hi.map _ i

/-- **C64**, rules: the rule of an element, by index, by element or by name, is the same; a rule is found by name
exactly if the non-terminal of that name has one.  Building never sets an ignore override. -/
theorem C64_rules (ops : List (BuildOp I)) :
    (∀ i e, (build ops).getElement i = some e → (build ops).getRuleByElement e = (build ops).getRuleByKey i) ∧
    (∀ n r, (build ops).getRuleByElementVerbose n = some r ↔
      ∃ i, (build ops).getElementVerbose i = some ⟨n, .nonTerminal⟩ ∧ (build ops).getRuleByKey i = some r) ∧
    (build ops).ignore = none ∧
    (∀ i r, (build ops).getRuleByKey i = some r → r.ignore = none) := by
  refine ⟨fun i e h => ?_, fun n r => ?_, ?_⟩
  · have := (((C64_elements ops).1 i e).1 h).1
    simp only [ParserData.getRuleByElement, ParserData.getRuleByKey, this]
  · simp only [ParserData.getRuleByElementVerbose]
    have hi := (C08_bijection ops).1 ⟨n, .nonTerminal⟩
    cases h : (build ops).getElementIndex ⟨n, .nonTerminal⟩ with
    | none =>
      simp only [reduceCtorEq, false_iff]
      rintro ⟨i, h1, -⟩
      rw [(hi i).2 h1] at h
      cases h
    | some j =>
      constructor
      · intro hr; exact ⟨j, (hi j).1 h, hr⟩
      · rintro ⟨i, h1, h2⟩
        have := (hi i).2 h1
        rw [h] at this
        cases this
        exact h2
  · induction ops using list_snoc_induction with
    | h0 => exact ⟨rfl, fun i r h => by simp [build, ParserData.new, ParserData.getRuleByKey] at h⟩
    | h1 ops op ih =>
      obtain ⟨ih1, ih2⟩ := ih
      rw [build_snoc]
      simp only [ParserData.getRuleByKey] at ih2 ⊢
      cases op with
      | request k =>
        have hr : ((build ops).getOrAddElementKey k).2.rules = (build ops).rules ∧
            ((build ops).getOrAddElementKey k).2.ignore = (build ops).ignore := by
          simp only [ParserData.getOrAddElementKey]; split <;> exact ⟨rfl, rfl⟩
        simp only [BuildOp.run, hr.1, hr.2]
        exact ⟨ih1, ih2⟩
      | addProduction idx ts =>
        refine ⟨by rw [← ih1]; exact (addProduction_tables _ _ _).2.2.2, fun i r h => ?_⟩
        rw [BuildOp.run, addProduction_get] at h
        by_cases hx : idx = i
        · rw [if_pos hx] at h
          cases hg : AMap.get (build ops).rules i with
          | none => rw [hg] at h; cases h; rfl
          | some r0 => rw [hg] at h; cases h; exact ih2 i r0 hg
        · rw [if_neg hx] at h; exact ih2 i r h
      | setProductions idx tss =>
        refine ⟨by rw [← ih1]; exact (setProductions_tables _ _ _).2.2.2, fun i r h => ?_⟩
        rw [BuildOp.run, setProductions_get] at h
        by_cases hx : idx = i
        · rw [if_pos hx] at h
          cases hg : AMap.get (build ops).rules i with
          | none =>
            rw [hg] at h
            by_cases ht : tss = []
            · simp [ht] at h
            · simp only [if_neg ht] at h; cases h; rfl
          | some r0 => rw [hg] at h; cases h; exact ih2 i r0 hg
        · rw [if_neg hx] at h; exact ih2 i r h
      | addInstructions idx is =>
        refine ⟨by rw [← ih1]; exact (addInstructions_tables _ _ _).2.2.2, fun i r h => ?_⟩
        rw [BuildOp.run, addInstructions_get] at h
        by_cases hx : idx = i
        · rw [if_pos hx] at h
          cases hg : AMap.get (build ops).rules i with
          | none => rw [hg] at h; cases h; rfl
          | some r0 => rw [hg] at h; cases h; exact ih2 i r0 hg
        · rw [if_neg hx] at h; exact ih2 i r h

/-- A terminal and a non-terminal of the same name are told apart, and the rule is found by name. -/
example : (build ([.request ⟨c% "a", .terminal⟩, .request ⟨c% "a", .nonTerminal⟩, .addProduction 1 [0]] :
      List (BuildOp Nat))).getElementTIndex (c% "a") = some 0 ∧
    (build ([.request ⟨c% "a", .terminal⟩, .request ⟨c% "a", .nonTerminal⟩, .addProduction 1 [0]] :
      List (BuildOp Nat))).getElementNtIndex (c% "a") = some 1 ∧
    ((build ([.request ⟨c% "a", .terminal⟩, .request ⟨c% "a", .nonTerminal⟩, .addProduction 1 [0]] :
      List (BuildOp Nat))).getRuleByElementVerbose (c% "a")).map (·.prods) = some [.notEmpty [0]] := ⟨rfl, rfl, rfl⟩

end HPP
