import Verif.Proofs.EndMark
import Verif.Proofs.UnusedText
import Verif.Spec.EndMark
/-
Rule texts with an end marker.
-/
namespace HPP
open Spec
variable {I S : Type} {rs us : List (WrittenRule I)} {pd pd' : ParserData I} {g h : Str}

theorem swapStart_inj (g m n : Str) (he : swapStart g m = swapStart g n) : m = n := by
  unfold swapStart at he
  split at he <;> split at he <;> try split at he
  all_goals try split at he
  all_goals simp_all

theorem swapStart_start (g : Str) : swapStart g (c% "start") = g := if_pos rfl

theorem swapStart_new (hg : g ≠ c% "start") : swapStart g g = c% "start" := by
  rw [swapStart, if_neg hg, if_pos rfl]

theorem swapStart_other {n : Str} (h1 : n ≠ c% "start") (h2 : n ≠ g) : swapStart g n = n := by
  rw [swapStart, if_neg h1, if_neg h2]

theorem renamedRules_map {ρ : Str → Str} (hρ : ∀ m n, ρ m = ρ n → m = n) (rs : List (WrittenRule I)) :
    RenamedRules ρ rs (rs.map (WrittenRule.rename ρ)) where
  injective := hρ
  definitions := by
    intro n
    induction rs with
    | nil => exact .nil
    | cons r rs ih =>
      simp only [List.map_cons, List.filter_cons]
      by_cases hr : r.name = n
      · have h2 : (WrittenRule.rename ρ r).name = ρ n := by rw [← hr]; rfl
        rw [if_pos (by simpa using hr), if_pos (by simpa using h2)]
        exact .cons ⟨rfl, rfl, rfl, List.Perm.refl _⟩ ih
      · have h2 : ¬ (WrittenRule.rename ρ r).name = ρ n := fun hc => hr (hρ _ _ hc)
        rw [if_neg (by simpa using hr), if_neg (by simpa using h2)]
        exact ih
  noMore := by
    intro r' hr'
    obtain ⟨r, -, rfl⟩ := List.mem_map.1 hr'
    exact ⟨r.name, rfl⟩

/-- The two rules of the end marker. -/
abbrev endRules (g h : Str) : List (WrittenRule I) :=
  [⟨c% "start", none, [[⟨g, .nonTerminal⟩, ⟨h, .nonTerminal⟩]], []⟩, ⟨h, none, [[]], []⟩]

/-- The rules with `start` and `g` exchanged. -/
abbrev swapped (g : Str) (rs : List (WrittenRule I)) : List (WrittenRule I) := rs.map (WrittenRule.rename (swapStart g))

theorem swapped_renamed (g : Str) (rs : List (WrittenRule I)) : RenamedRules (swapStart g) rs (swapped g rs) :=
  renamedRules_map (swapStart_inj g) rs

section
variable (hn : NewNames g h rs)
include hn

theorem Spec.NewNames.not_g : (⟨g, .nonTerminal⟩ : ElementVerbose) ∉ elementsOf rs := by
  rw [mem_elementsOf_iff]; rintro ⟨r, hr, hm⟩; exact (hn.unused r hr).1 hm

theorem Spec.NewNames.not_h : (⟨h, .nonTerminal⟩ : ElementVerbose) ∉ elementsOf rs := by
  rw [mem_elementsOf_iff]; rintro ⟨r, hr, hm⟩; exact (hn.unused r hr).2 hm

theorem Spec.NewNames.start_mid : (⟨c% "start", .nonTerminal⟩ : ElementVerbose) ∉ elementsOf (swapped g rs) := by
  intro hc
  rw [← swapStart_new hn.notStart, ← renamed_nt, (swapped_renamed g rs).mem_iff] at hc
  exact hn.not_g hc

theorem Spec.NewNames.h_mid : (⟨h, .nonTerminal⟩ : ElementVerbose) ∉ elementsOf (swapped g rs) := by
  intro hc
  have e : swapStart g h = h := swapStart_other hn.notStart' hn.different.symm
  rw [← e, ← renamed_nt, (swapped_renamed g rs).mem_iff] at hc
  exact hn.not_h hc

theorem Spec.NewNames.untouched : Untouched (swapped g rs) (endRules g h : List (WrittenRule I)) := by
  intro u hu r hr hm
  have hm := mem_elementsOf hr hm
  simp only [endRules, List.mem_cons, List.not_mem_nil, or_false] at hu
  rcases hu with rfl | rfl
  · exact hn.start_mid hm
  · exact hn.h_mid hm

theorem Spec.NewNames.elements (hst : (⟨c% "start", .nonTerminal⟩ : ElementVerbose) ∈ elementsOf rs) :
    elementsOf (endMarked g h rs) = elementsOf (swapped g rs) ++ [⟨c% "start", .nonTerminal⟩, ⟨h, .nonTerminal⟩] := by
  have hg : (⟨g, .nonTerminal⟩ : ElementVerbose) ∈ elementsOf (swapped g rs) := by
    have := ((swapped_renamed g rs).mem_iff _).2 hst
    rwa [renamed_nt, swapStart_start] at this
  have e : endMarked g h rs = swapped g rs ++ endRules g h := rfl
  rw [e, Untouched.elements_eq]
  have e2 : (endRules g h : List (WrittenRule I)).flatMap WrittenRule.mentions =
      [⟨c% "start", .nonTerminal⟩, ⟨g, .nonTerminal⟩, ⟨h, .nonTerminal⟩, ⟨h, .nonTerminal⟩] := by
    simp [endRules, WrittenRule.mentions]
  rw [e2]
  have n1 := hn.start_mid
  have n2 := hn.h_mid
  have n3 := hn.notStart'
  generalize elementsOf (swapped g rs) = E at hg n1 n2
  rw [addAll_cons, addAll_single, if_neg n1, addAll_cons, addAll_single, if_pos (by simp [hg]), addAll_cons, addAll_single (E ++ _),
    if_neg (by simp [n2, n3]), addAll_single, if_pos (by simp)]
  simp

theorem Spec.NewNames.ignoresDefined (hd : IgnoresDefined (swapped g rs)) : IgnoresDefined (endMarked g h rs) := by
  have hu := hn.untouched
  intro n j m ho hs
  have e : endMarked g h rs = swapped g rs ++ endRules g h := rfl
  rw [e] at ho hs
  have hnm : (⟨n, .nonTerminal⟩ : ElementVerbose) ∈ elementsOf (swapped g rs) := by
    unfold overrideOf at ho
    split at ho
    · cases ho
    · next d ds hf =>
      have : d ∈ (swapped g rs ++ endRules g h).filter (fun r : WrittenRule I => decide (r.name = n)) := by rw [hf]; simp
      obtain ⟨h1, h2⟩ := List.mem_filter.1 this
      have := of_decide_eq_true h2
      subst this
      rcases List.mem_append.1 h1 with h1 | h1
      · exact mem_elementsOf h1 (by simp [WrittenRule.mentions])
      · simp only [endRules, List.mem_cons, List.not_mem_nil, or_false] at h1
        rcases h1 with rfl | rfl <;> cases ho
  rw [hu.overrideOf_eq hnm] at ho
  have hj := mem_elementsOf_override ho
  obtain ⟨r, hr, h1⟩ := hd n j m ho ((hu.star_iff hj).1 hs)
  exact ⟨r, List.mem_append_left _ hr, h1⟩

theorem Spec.NewNames.filter_start :
    (endMarked g h rs).filter (fun r => decide (r.name = c% "start")) = [⟨c% "start", none, [[⟨g, .nonTerminal⟩, ⟨h, .nonTerminal⟩]], []⟩] := by
  have e : endMarked g h rs = swapped g rs ++ endRules g h := rfl
  rw [e, List.filter_append]
  have : (swapped g rs).filter (fun r => decide (r.name = c% "start")) = [] := by
    rw [List.filter_eq_nil_iff]
    intro r hr hc
    have hc := of_decide_eq_true hc
    exact hn.start_mid (mem_elementsOf hr (by rw [← hc]; simp [WrittenRule.mentions]))
  rw [this, List.nil_append, List.filter_cons, if_pos (by simp), List.filter_cons, if_neg (by simpa using hn.notStart')]
  rfl

theorem Spec.NewNames.filter_end :
    (endMarked g h rs).filter (fun r => decide (r.name = h)) = [⟨h, none, [[]], []⟩] := by
  have e : endMarked g h rs = swapped g rs ++ endRules g h := rfl
  rw [e, List.filter_append]
  have : (swapped g rs).filter (fun r => decide (r.name = h)) = [] := by
    rw [List.filter_eq_nil_iff]
    intro r hr hc
    have hc := of_decide_eq_true hc
    exact hn.h_mid (mem_elementsOf hr (by rw [← hc]; simp [WrittenRule.mentions]))
  rw [this, List.nil_append, List.filter_cons, if_neg (by simpa using hn.notStart'.symm), List.filter_cons, if_pos (by simp)]
  rfl

/-- The data of the swapped rules, but with the name of the old start symbol. -/
def backNamed (pd : ParserData I) (i : Nat) : ParserData I := { pd with elementData := pd.elementData.set i ⟨false, c% "start"⟩ }

omit hn in
theorem backNamed_wf (hw : WellFormed pd) (i : Nat) : WellFormed (backNamed pd i) :=
  ⟨hw.rulesNodup, by simpa [backNamed] using hw.lengths, hw.keysNT, hw.inRange, hw.nonEmpty⟩

theorem backNamed_start (hin : InternOk pd (elementsOf (swapped g rs)))
    (hst : (⟨c% "start", .nonTerminal⟩ : ElementVerbose) ∈ elementsOf rs) :
    StartSymbol (backNamed pd ((elementsOf (swapped g rs)).idxOf ⟨g, .nonTerminal⟩)) ((elementsOf (swapped g rs)).idxOf ⟨g, .nonTerminal⟩) := by
  have hg : (⟨g, .nonTerminal⟩ : ElementVerbose) ∈ elementsOf (swapped g rs) := by
    have := ((swapped_renamed g rs).mem_iff _).2 hst
    rwa [renamed_nt, swapStart_start] at this
  obtain ⟨h1, h2⟩ := hin.at_idx hg
  have n1 := hn.start_mid
  generalize (elementsOf (swapped g rs)).idxOf ⟨g, .nonTerminal⟩ = i at h1 h2
  have hi : i < pd.elementData.length := (List.getElem?_eq_some_iff.1 h2).1
  constructor
  · simp only [ParserData.getElementVerbose, backNamed, List.getElem?_set_self hi, h1]
  · intro j hj
    by_cases hji : j = i
    · exact hji
    · exfalso
      have : pd.getElementVerbose j = some ⟨c% "start", .nonTerminal⟩ := by
        rw [← hj]
        simp only [ParserData.getElementVerbose, backNamed, List.getElem?_set_ne (Ne.symm hji)]
      rw [hin.verbose] at this
      exact n1 (List.mem_of_getElem? this)

omit hn in
theorem renumbered_backNamed {φ : Nat → Nat} {pdm : ParserData I} (hr : Renumbered φ pd pdm)
    {i : Nat} (hi : pdm.elementTypes[i]? = some .nonTerminal) : Renumbered φ pd (backNamed pdm i) where
  injective := hr.injective
  kinds := hr.kinds
  texts := by
    intro e he ht
    rw [← hr.texts e he ht]
    have : i ≠ φ e := by
      rintro rfl
      rw [hr.kinds e he, ht] at hi; cases hi
    simp only [backNamed, List.getElem?_set_ne this]
  rules := hr.rules
  noMore := hr.noMore

theorem endMarked_data {pdm : ParserData I} (hm : MeansWoven (swapped g rs) pdm) (hin : InternOk pdm (elementsOf (swapped g rs)))
    (hw : WellFormed pdm) (hm' : MeansWoven (endMarked g h rs) pd') (hin' : InternOk pd' (elementsOf (endMarked g h rs)))
    (hst : (⟨c% "start", .nonTerminal⟩ : ElementVerbose) ∈ elementsOf rs) :
    EndMarked (backNamed pdm ((elementsOf (swapped g rs)).idxOf ⟨g, .nonTerminal⟩)) ((elementsOf (swapped g rs)).idxOf ⟨g, .nonTerminal⟩)
      pd' (elementsOf (swapped g rs)).length ((elementsOf (swapped g rs)).length + 1) := by
  have hg : (⟨g, .nonTerminal⟩ : ElementVerbose) ∈ elementsOf (swapped g rs) := by
    have := ((swapped_renamed g rs).mem_iff _).2 hst
    rwa [renamed_nt, swapStart_start] at this
  have hE := hn.elements hst
  have hR := hn.untouched.restricted hm' hin' hm hin hw
  have hL : pdm.elementTypes.length = (elementsOf (swapped g rs)).length := by rw [hin.types, List.length_map]
  have hS : (elementsOf (endMarked g h rs))[(elementsOf (swapped g rs)).length]? = some ⟨c% "start", .nonTerminal⟩ := by
    rw [hE]; simp
  have hH : (elementsOf (endMarked g h rs))[(elementsOf (swapped g rs)).length + 1]? = some ⟨h, .nonTerminal⟩ := by
    rw [hE]; simp
  have igH : (elementsOf (endMarked g h rs)).idxOf ⟨h, .nonTerminal⟩ = (elementsOf (swapped g rs)).length + 1 := hin'.idx hH
  have igG : (elementsOf (endMarked g h rs)).idxOf ⟨g, .nonTerminal⟩ = (elementsOf (swapped g rs)).idxOf ⟨g, .nonTerminal⟩ := by
    rw [hE, List.idxOf_append, if_pos hg]
  obtain ⟨g1, g2⟩ := hin.at_idx hg
  refine ⟨hR.kinds, ?_, ?_, ?_, ?_, ?_, ?_, ?_, ?_, ?_⟩
  · intro j hj
    obtain ⟨t, ht⟩ := hR.data
    have hjl : j < pdm.elementData.length := by
      rw [← hw.lengths]; exact (List.getElem?_eq_some_iff.1 hj).1
    have hne : (elementsOf (swapped g rs)).idxOf ⟨g, .nonTerminal⟩ ≠ j := by
      rintro rfl
      have hj' : pdm.elementTypes[(elementsOf (swapped g rs)).idxOf ⟨g, .nonTerminal⟩]? = some .terminal := hj
      rw [g1] at hj'; cases hj'
    rw [← ht, List.getElem?_append_left hjl]
    simp only [backNamed, List.getElem?_set_ne hne]
  · exact (List.getElem?_eq_some_iff.1 g1).1
  · exact Nat.le_of_eq hL
  · exact Nat.le_succ_of_le (Nat.le_of_eq hL)
  · omega
  · intro A hA
    have hA' : A < pdm.elementTypes.length := hA
    rw [hL] at hA'
    exact (hR.kept A hA').symm
  · have := hm'.plain _ (c% "start") ⟨[.notEmpty [(elementsOf (swapped g rs)).idxOf ⟨g, .nonTerminal⟩, (elementsOf (swapped g rs)).length + 1]], none, []⟩ hS
      (by
        rw [ruleMeaning, hn.filter_start]
        simp [altMeaning, productionOf, igH, igG])
      (by rw [overrideOf, hn.filter_start])
    exact this
  · have := hm'.plain _ h ⟨[.empty], none, []⟩ hH
      (by
        rw [ruleMeaning, hn.filter_end]
        simp [altMeaning, productionOf])
      (by rw [overrideOf, hn.filter_end])
    exact this
  · intro A hA hA1 hA2
    have hA' : pdm.elementTypes.length ≤ A := hA
    refine hm'.noName A fun n hc => ?_
    have := (List.getElem?_eq_some_iff.1 hc).1
    rw [hE, List.length_append] at this
    simp at this
    omega

/-- When the marked rules give a parser, `start` was defined. -/
theorem endMarked_start (hm' : MeansWoven (endMarked g h rs) pd') (hin' : InternOk pd' (elementsOf (endMarked g h rs)))
    {s : Nat} (hs : (elementsOf (endMarked g h rs))[s]? = some ⟨c% "start", .nonTerminal⟩) (ha : AllDefined pd') :
    (⟨c% "start", .nonTerminal⟩ : ElementVerbose) ∈ elementsOf rs := by
  have hr := hm'.plain _ (c% "start") ⟨[.notEmpty [(elementsOf (endMarked g h rs)).idxOf ⟨g, .nonTerminal⟩, (elementsOf (endMarked g h rs)).idxOf ⟨h, .nonTerminal⟩]], none, []⟩ hs
      (by
        rw [ruleMeaning, hn.filter_start]
        simp [altMeaning, productionOf])
      (by rw [overrideOf, hn.filter_start])
  have hgm : (⟨g, .nonTerminal⟩ : ElementVerbose) ∈ elementsOf (endMarked g h rs) := by
    refine mem_elementsOf (r := ⟨c% "start", none, [[⟨g, .nonTerminal⟩, ⟨h, .nonTerminal⟩]], []⟩) (by simp [endMarked]) ?_
    simp [WrittenRule.mentions]
  obtain ⟨r', hr'⟩ := ha s _ hr (.notEmpty _) (List.mem_singleton.2 rfl) ((elementsOf (endMarked g h rs)).idxOf ⟨g, .nonTerminal⟩)
    (by simp [prodElems]) (hin'.at_idx hgm).1
  by_contra hc
  have hnone : ruleMeaning (elementsOf (endMarked g h rs)) (endMarked g h rs) g = none := by
    have : (endMarked g h rs).filter (fun r => decide (r.name = g)) = [] := by
      rw [List.filter_eq_nil_iff]
      intro r hr hx
      have hx := of_decide_eq_true hx
      rcases List.mem_append.1 (show r ∈ swapped g rs ++ endRules g h from hr) with h1 | h1
      · have h2 := mem_elementsOf h1 (e := ⟨g, .nonTerminal⟩) (by rw [← hx]; simp [WrittenRule.mentions])
        have e : (⟨g, .nonTerminal⟩ : ElementVerbose) = renamed (swapStart g) ⟨c% "start", .nonTerminal⟩ := by
          rw [renamed_nt, swapStart_start]
        rw [e, (swapped_renamed g rs).mem_iff] at h2
        exact hc h2
      · simp only [endRules, List.mem_cons, List.not_mem_nil, or_false] at h1
        rcases h1 with rfl | rfl
        · exact hn.notStart hx.symm
        · exact hn.different hx.symm
    rw [ruleMeaning, this]
  have := hm'.undefined _ g (getElem?_idxOf hgm) hnone
  have hr2 : pd'.getRuleByKey ((elementsOf (endMarked g h rs)).idxOf ⟨g, .nonTerminal⟩) = some r' := hr'
  rw [this] at hr2; cases hr2

end
end HPP
