import Verif.Proofs.Unused
import Verif.Proofs.SameRules
namespace HPP
open Spec
variable {I S : Type} {rs us : List (WrittenRule I)} {pd pd' : ParserData I}

/-- No rule of `rs` mentions a name defined in `us`. -/
def Untouched (rs us : List (WrittenRule I)) : Prop :=
  ∀ u ∈ us, ∀ r ∈ rs, (⟨u.name, .nonTerminal⟩ : ElementVerbose) ∉ r.mentions

namespace Untouched
variable (h : Untouched rs us)
include h

theorem not_mem {u : WrittenRule I} (hu : u ∈ us) : (⟨u.name, .nonTerminal⟩ : ElementVerbose) ∉ elementsOf rs := by
  rw [mem_elementsOf_iff]
  rintro ⟨r, hr, hm⟩
  exact h u hu r hr hm

theorem filter_eq {n : Str} (hn : (⟨n, .nonTerminal⟩ : ElementVerbose) ∈ elementsOf rs) :
    (rs ++ us).filter (fun r => decide (r.name = n)) = rs.filter (fun r => decide (r.name = n)) := by
  have : us.filter (fun r => decide (r.name = n)) = [] := by
    rw [List.filter_eq_nil_iff]
    intro u hu hc
    have := of_decide_eq_true hc
    subst this
    exact h.not_mem hu hn
  rw [List.filter_append, this, List.append_nil]

theorem altsOf_eq {n : Str} (hn : (⟨n, .nonTerminal⟩ : ElementVerbose) ∈ elementsOf rs) : altsOf (rs ++ us) n = altsOf rs n := by
  simp only [altsOf, h.filter_eq hn]

theorem overrideOf_eq {n : Str} (hn : (⟨n, .nonTerminal⟩ : ElementVerbose) ∈ elementsOf rs) :
    overrideOf (rs ++ us) n = overrideOf rs n := by
  simp only [overrideOf, h.filter_eq hn]

theorem uses_iff {n m : Str} (hn : (⟨n, .nonTerminal⟩ : ElementVerbose) ∈ elementsOf rs) :
    NameUses (rs ++ us) n m ↔ NameUses rs n m := by
  simp only [NameUses, h.altsOf_eq hn]

theorem star_iff {n m : Str} (hn : (⟨n, .nonTerminal⟩ : ElementVerbose) ∈ elementsOf rs) :
    NameUsesStar (rs ++ us) n m ↔ NameUsesStar rs n m := by
  constructor
  · intro hs
    suffices NameUsesStar rs n m ∧ (⟨m, .nonTerminal⟩ : ElementVerbose) ∈ elementsOf rs from this.1
    induction hs with
    | refl => exact ⟨.refl, hn⟩
    | tail _ hst ih =>
      have h1 := (h.uses_iff ih.2).1 hst
      refine ⟨ih.1.tail h1, ?_⟩
      obtain ⟨a, ha, hx⟩ := h1
      exact mem_elementsOf_alt ha hx
  · intro hs
    suffices NameUsesStar (rs ++ us) n m ∧ (⟨m, .nonTerminal⟩ : ElementVerbose) ∈ elementsOf rs from this.1
    induction hs with
    | refl => exact ⟨.refl, hn⟩
    | tail _ hst ih =>
      refine ⟨ih.1.tail ((h.uses_iff ih.2).2 hst), ?_⟩
      obtain ⟨a, ha, hx⟩ := hst
      exact mem_elementsOf_alt ha hx

omit h in
theorem elements_eq (rs us : List (WrittenRule I)) : elementsOf (rs ++ us) = addAll (elementsOf rs) (us.flatMap WrittenRule.mentions) := by
  rw [elementsOf_eq, elementsOf_eq, List.flatMap_append, addAll_append]

theorem meaning_eq {n : Str} (hn : (⟨n, .nonTerminal⟩ : ElementVerbose) ∈ elementsOf rs) :
    ruleMeaning (elementsOf (rs ++ us)) (rs ++ us) n = ruleMeaning (elementsOf rs) rs n := by
  have h1 : ∀ keys, ruleMeaning keys (rs ++ us) n = ruleMeaning keys rs n := by
    intro keys
    simp only [ruleMeaning, h.filter_eq hn]
  rw [h1, elements_eq rs us]
  exact ruleMeaning_addAll fun r hr e he => mem_elementsOf hr he

theorem ignoresDefined (hd : IgnoresDefined (rs ++ us)) : IgnoresDefined rs := by
  intro n j m ho hu
  have hj := mem_elementsOf_override ho
  have hn : (⟨n, .nonTerminal⟩ : ElementVerbose) ∈ elementsOf rs := by
    unfold overrideOf at ho
    split at ho
    · cases ho
    · next d ds hf =>
      have : d ∈ rs.filter (fun r => decide (r.name = n)) := by rw [hf]; simp
      obtain ⟨h1, h2⟩ := List.mem_filter.1 this
      have := of_decide_eq_true h2
      subst this
      exact mem_elementsOf h1 (by simp [WrittenRule.mentions])
  obtain ⟨r, hr, hrm⟩ := hd n j m (by rw [h.overrideOf_eq hn]; exact ho) ((h.star_iff hj).2 hu)
  have hm : (⟨m, .nonTerminal⟩ : ElementVerbose) ∈ elementsOf rs := by
    induction hu with
    | refl => exact hj
    | tail _ hst _ =>
      obtain ⟨a, ha, hx⟩ := hst
      exact mem_elementsOf_alt ha hx
  rcases List.mem_append.1 hr with hr | hr
  · exact ⟨r, hr, hrm⟩
  · subst hrm
    exact absurd hm (h.not_mem hr)

theorem restricted (hm : MeansWoven (rs ++ us) pd) (hin : InternOk pd (elementsOf (rs ++ us))) (hm' : MeansWoven rs pd')
    (hin' : InternOk pd' (elementsOf rs)) (hw' : WellFormed pd') :
    Restricted (fun i => i < (elementsOf rs).length) pd pd' := by
  obtain ⟨more, hmore⟩ := addAll_prefix (elementsOf rs) (us.flatMap WrittenRule.mentions)
  rw [← elements_eq rs us] at hmore
  have hat : ∀ {i : Nat}, i < (elementsOf rs).length → (elementsOf (rs ++ us))[i]? = (elementsOf rs)[i]? := by
    intro i hi
    rw [hmore, List.getElem?_append_left hi]
  have hidx : ∀ {j : Str}, (⟨j, .nonTerminal⟩ : ElementVerbose) ∈ elementsOf rs →
      (elementsOf (rs ++ us)).idxOf ⟨j, .nonTerminal⟩ = (elementsOf rs).idxOf ⟨j, .nonTerminal⟩ := by
    intro j hj
    rw [hmore, List.idxOf_append, if_pos hj]
  have hkept : ∀ i, i < (elementsOf rs).length → AMap.get pd'.rules i = AMap.get pd.rules i := by
    intro i hi
    show pd'.getRuleByKey i = pd.getRuleByKey i
    by_cases hx : ∃ n, (elementsOf rs)[i]? = some ⟨n, .nonTerminal⟩
    · obtain ⟨n, hn⟩ := hx
      have hN : (elementsOf (rs ++ us))[i]? = some ⟨n, .nonTerminal⟩ := by rw [hat hi]; exact hn
      have hmem := List.mem_of_getElem? hn
      have he := h.meaning_eq hmem
      have hov := h.overrideOf_eq hmem
      cases hq : ruleMeaning (elementsOf rs) rs n with
      | none => rw [hm'.undefined i n hn hq, hm.undefined i n hN (he.trans hq)]
      | some q =>
        cases hj : overrideOf rs n with
        | none => rw [hm'.plain i n q hn hq hj, hm.plain i n q hN (he.trans hq) (hov.trans hj)]
        | some j =>
          have hjm := mem_elementsOf_override hj
          by_cases hu : NameUsesStar rs j n
          · rw [hm'.own i n q j hn hq hj hu, hm.own i n q j hN (he.trans hq) (hov.trans hj) ((h.star_iff hjm).2 hu)]
          · rw [hm'.woven i n q j hn hq hj hu,
              hm.woven i n q j hN (he.trans hq) (hov.trans hj) (fun hc => hu ((h.star_iff hjm).1 hc)), hidx hjm]
    · have hx' : ∀ n, (elementsOf rs)[i]? ≠ some ⟨n, .nonTerminal⟩ := fun n hn => hx ⟨n, hn⟩
      rw [hm'.noName i hx', hm.noName i (fun n hn => hx' n (by rw [← hat hi]; exact hn))]
  refine ⟨?_, ?_, ?_, hkept, ?_⟩
  · rw [hin.types, hin'.types, hmore, List.map_append]; exact List.prefix_append _ _
  · rw [hin.data, hin'.data, hmore, List.map_append]; exact List.prefix_append _ _
  · intro A r hA hr p hp e he _
    rw [← hkept A hA] at hr
    have := hw'.inRange A r hr p hp e he
    rw [hin'.types, List.length_map] at this
    exact this
  · intro A hA
    exact hm'.noName A fun n hn => hA (List.getElem?_eq_some_iff.1 hn).1

end Untouched

/-- Every list of rules that have texts has a text. -/
theorem Spec.RulesText.each {cc : CharClass} {Sec : Str → Str → List I → Prop} {text : Str} (h : RulesText cc Sec rs text) :
    ∀ r ∈ rs, ∃ t, RuleText cc Sec r t := by
  induction h with
  | nil => simp
  | cons _ hr _ ih =>
    intro r' hr'
    rcases List.mem_cons.1 hr' with rfl | hr'
    · exact ⟨_, hr⟩
    · exact ih r' hr'

theorem rulesText_of_each {cc : CharClass} {Sec : Str → Str → List I → Prop} (h : ∀ r ∈ rs, ∃ t, RuleText cc Sec r t) :
    ∃ text, RulesText cc Sec rs text := by
  induction rs with
  | nil => exact ⟨[], .nil (by intro c hc; simp at hc)⟩
  | cons r rs ih =>
    obtain ⟨t, ht⟩ := h r (by simp)
    obtain ⟨t', ht'⟩ := ih fun r hr => h r (by simp [hr])
    exact ⟨[] ++ (t ++ t'), .cons (by intro c hc; simp at hc) ht ht'⟩

end HPP
