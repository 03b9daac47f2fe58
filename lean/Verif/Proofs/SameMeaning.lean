import Verif.Spec.SameMeaning
import Verif.Proofs.SameRules
namespace HPP
open Spec
variable {I S : Type} {ρ : Str → Str} {rs rs' : List (WrittenRule I)}

theorem Spec.SameRules.sameMeaning (h : SameRules ρ rs rs') : SameMeaning ρ rs rs' where
  injective := h.injective
  start := h.start
  defined := by
    intro n
    constructor
    · rintro ⟨r', hr', hn⟩
      obtain ⟨r, hr, h1⟩ := h.backward hr'
      exact ⟨r, hr, h.injective _ _ (h1.name.symm.trans hn)⟩
    · rintro ⟨r, hr, rfl⟩
      obtain ⟨r', hr', h1⟩ := h.forward hr
      exact ⟨r', hr', h1.name⟩
  noMore := h.noMore
  alts := h.alts
  override := h.override
  instr := by
    intro n
    have := h.definitions n
    simp only [instrFor]
    generalize rs.filter (fun r => decide (r.name = n)) = l at this
    generalize rs'.filter (fun r => decide (r.name = ρ n)) = l' at this
    cases this with
    | nil => rfl
    | cons h1 _ => exact h1.instr

theorem overrideOf_defined {n j : Str} (ho : overrideOf rs n = some j) : ∃ r ∈ rs, r.name = n := by
  unfold overrideOf at ho
  split at ho
  · cases ho
  · next d ds hf =>
    have : d ∈ rs.filter (fun r => decide (r.name = n)) := by rw [hf]; simp
    obtain ⟨h1, h2⟩ := List.mem_filter.1 this
    exact ⟨d, h1, by simpa using h2⟩

theorem mem_elementsOf_name {r : WrittenRule I} (hr : r ∈ rs) : (⟨r.name, .nonTerminal⟩ : ElementVerbose) ∈ elementsOf rs :=
  mem_elementsOf hr (by simp [WrittenRule.mentions])

theorem ruleMeaning_instrFor {keys : List ElementVerbose} {n : Str} {q : NTRule I} (hq : ruleMeaning keys rs n = some q) :
    q.instr = instrFor rs n := by
  unfold ruleMeaning at hq
  unfold instrFor
  split at hq
  · cases hq
  · next d ds hf => cases hq; rw [hf]

namespace SM2
variable (h : SameMeaning ρ rs rs')
include h

theorem uses (n : Str) (m' : Str) : NameUses rs' (ρ n) m' ↔ ∃ m, m' = ρ m ∧ NameUses rs n m := by
  constructor
  · rintro ⟨a', ha', hm⟩
    obtain ⟨a, ha, rfl⟩ := List.mem_map.1 ((h.alts n).mem_iff.1 ha')
    obtain ⟨e, he, h1⟩ := List.mem_map.1 hm
    obtain ⟨m, t⟩ := e
    cases t
    · simp [renamed] at h1
    · simp [renamed] at h1
      exact ⟨m, h1.symm, a, ha, he⟩
  · rintro ⟨m, rfl, a, ha, hm⟩
    exact ⟨_, (h.alts n).mem_iff.2 (List.mem_map.2 ⟨a, ha, rfl⟩), List.mem_map.2 ⟨_, hm, rfl⟩⟩

theorem usesStar (n : Str) (m' : Str) : NameUsesStar rs' (ρ n) m' ↔ ∃ m, m' = ρ m ∧ NameUsesStar rs n m := by
  constructor
  · intro hu
    induction hu with
    | refl => exact ⟨n, rfl, .refl⟩
    | tail _ h1 ih =>
      obtain ⟨m, rfl, h2⟩ := ih
      obtain ⟨k, rfl, h3⟩ := (uses h m _).1 h1
      exact ⟨k, rfl, h2.tail h3⟩
  · rintro ⟨m, rfl, hu⟩
    induction hu with
    | refl => exact .refl
    | tail _ h1 ih => exact ih.tail ((uses h _ _).2 ⟨_, rfl, h1⟩)

theorem usesStar_iff (n m : Str) : NameUsesStar rs' (ρ n) (ρ m) ↔ NameUsesStar rs n m := by
  rw [usesStar h]
  constructor
  · rintro ⟨k, hk, hu⟩; rwa [h.injective _ _ hk]
  · intro hu; exact ⟨m, rfl, hu⟩

theorem ignoresDefined (hd : IgnoresDefined rs) : IgnoresDefined rs' := by
  intro n' j' m' ho hu
  obtain ⟨d, hd1, hd2⟩ := overrideOf_defined ho
  obtain ⟨n, hn⟩ := h.noMore d hd1
  have hnn : n' = ρ n := hd2.symm.trans hn
  subst hnn
  rw [h.override] at ho
  cases hj : overrideOf rs n with
  | none => rw [hj] at ho; cases ho
  | some j =>
    rw [hj] at ho
    cases ho
    obtain ⟨m, rfl, hu1⟩ := (usesStar h j m').1 hu
    exact (h.defined m).2 (hd n j m hj hu1)

theorem ignoresDefined_iff : IgnoresDefined rs' ↔ IgnoresDefined rs := by
  refine ⟨fun hd => ?_, ignoresDefined h⟩
  intro n j m ho hu
  exact (h.defined m).1 (hd (ρ n) (ρ j) (ρ m) (by rw [h.override, ho]; rfl) ((usesStar_iff h j m).2 hu))

/-- Elements in alternatives. -/
theorem mem_alt {n : Str} {a : List ElementVerbose} (ha : a ∈ altsOf rs n) {e : ElementVerbose} (he : e ∈ a) :
    renamed ρ e ∈ elementsOf rs' :=
  mem_elementsOf_alt (n := ρ n) ((h.alts n).mem_iff.2 (List.mem_map.2 ⟨a, ha, rfl⟩)) (List.mem_map.2 ⟨e, he, rfl⟩)

theorem mem_override {n j : Str} (ho : overrideOf rs n = some j) : (⟨ρ j, .nonTerminal⟩ : ElementVerbose) ∈ elementsOf rs' :=
  mem_elementsOf_override (n := ρ n) (by rw [h.override, ho]; rfl)

theorem mem_name {n : Str} (hn : ∃ r ∈ rs, r.name = n) : (⟨ρ n, .nonTerminal⟩ : ElementVerbose) ∈ elementsOf rs' := by
  obtain ⟨r', hr', he⟩ := (h.defined n).2 hn
  rw [← he]; exact mem_elementsOf_name hr'

end SM2

/-- The renumbering: the number of the renamed element; elements that `rs'` does not mention get new numbers. -/
def renum (ρ : Str → Str) (rs rs' : List (WrittenRule I)) (i : Nat) : Nat :=
  match (elementsOf rs)[i]? with
  | some e => if renamed ρ e ∈ elementsOf rs' then (elementsOf rs').idxOf (renamed ρ e) else i + (elementsOf rs').length
  | none => i + (elementsOf rs').length

theorem renum_at {i : Nat} {e : ElementVerbose} (hi : (elementsOf rs)[i]? = some e) (he : renamed ρ e ∈ elementsOf rs') :
    renum ρ rs rs' i = (elementsOf rs').idxOf (renamed ρ e) ∧ (elementsOf rs')[renum ρ rs rs' i]? = some (renamed ρ e) := by
  have : renum ρ rs rs' i = (elementsOf rs').idxOf (renamed ρ e) := by simp [renum, hi, he]
  exact ⟨this, by rw [this]; exact getElem?_idxOf he⟩

theorem renum_cases (ρ : Str → Str) (rs rs' : List (WrittenRule I)) (i : Nat) :
    (∃ e, (elementsOf rs)[i]? = some e ∧ (elementsOf rs')[renum ρ rs rs' i]? = some (renamed ρ e)) ∨
    renum ρ rs rs' i = i + (elementsOf rs').length := by
  cases hi : (elementsOf rs)[i]? with
  | none => exact .inr (by simp [renum, hi])
  | some e =>
    by_cases he : renamed ρ e ∈ elementsOf rs'
    · exact .inl ⟨e, rfl, (renum_at hi he).2⟩
    · exact .inr (by simp [renum, hi, he])

theorem renum_alt {a : List ElementVerbose} (ha : ∀ e ∈ a, e ∈ elementsOf rs) (ha' : ∀ e ∈ a, renamed ρ e ∈ elementsOf rs') :
    altMeaning (elementsOf rs') (a.map (renamed ρ)) = renumber (renum ρ rs rs') (altMeaning (elementsOf rs) a) := by
  unfold altMeaning productionOf
  by_cases hn : a = []
  · subst hn; rfl
  · rw [if_neg (by simpa using hn), if_neg (by simpa using hn)]
    simp only [renumber, List.map_map]
    congr 1
    refine List.map_congr_left fun e he => ?_
    simp only [Function.comp_apply]
    rw [(renum_at (getElem?_idxOf (ha e he)) (ha' e he)).1]

section
variable {pd pd' : ParserData I}

theorem MeansWoven.rule_name (hm : MeansWoven rs pd) {A : Nat} {r : NTRule I} (hr : AMap.get pd.rules A = some r) :
    ∃ n q, (elementsOf rs)[A]? = some ⟨n, .nonTerminal⟩ ∧ ruleMeaning (elementsOf rs) rs n = some q := by
  have hr' : pd.getRuleByKey A = some r := hr
  by_cases hx : ∃ n, (elementsOf rs)[A]? = some ⟨n, .nonTerminal⟩
  · obtain ⟨n, hn⟩ := hx
    cases hq : ruleMeaning (elementsOf rs) rs n with
    | none => rw [hm.undefined A n hn hq] at hr'; cases hr'
    | some q => exact ⟨n, q, hn, hq⟩
  · rw [hm.noName A (fun n hn => hx ⟨n, hn⟩)] at hr'; cases hr'

theorem ruleMeaning_isDefined {keys : List ElementVerbose} {n : Str} {q : NTRule I} (hq : ruleMeaning keys rs n = some q) :
    ∃ r ∈ rs, r.name = n := by
  apply Classical.byContradiction
  intro hno
  rw [ruleMeaning_none (fun r hr hn => hno ⟨r, hr, hn⟩)] at hq
  cases hq

theorem Spec.SameMeaning.renumbered (h : SameMeaning ρ rs rs') (hm : MeansWoven rs pd) (hm' : MeansWoven rs' pd')
    (hin : InternOk pd (elementsOf rs)) (hin' : InternOk pd' (elementsOf rs')) :
    Renumbered (renum ρ rs rs') pd pd' := by
  -- every element that occurs is mentioned on both sides
  have hocc : ∀ e, Occurs pd e → ∃ k, (elementsOf rs)[e]? = some k ∧ renamed ρ k ∈ elementsOf rs' := by
    rintro e ⟨A, r, p, hr, hp, he⟩
    obtain ⟨n, q, hn, hq⟩ := MeansWoven.rule_name hm hr
    obtain ⟨a, ha, hpe⟩ := (finalAlt_iff hm hn (prodElems p)).1 ⟨r, hr, p, hp, rfl⟩
    rw [hpe] at he
    obtain ⟨k, hk, rfl⟩ := List.mem_map.1 he
    refine ⟨k, getElem?_idxOf (finalAlt_elements ha k hk), ?_⟩
    cases ha with
    | plain _ ha => exact SM2.mem_alt h ha hk
    | own _ _ ha => exact SM2.mem_alt h ha hk
    | @woven j a ho _ ha =>
      have hmem : ∀ (l : List ElementVerbose) (x : ElementVerbose), x ∈ between ⟨j, .nonTerminal⟩ l → x = ⟨j, .nonTerminal⟩ ∨ x ∈ l := by
        intro l
        induction l with
        | nil => intro x hx; simp [between] at hx
        | cons y ys ih =>
          cases ys with
          | nil => intro x hx; simp [between] at hx; simp [hx]
          | cons z zs =>
            intro x hx
            simp only [between, List.mem_cons] at hx
            rcases hx with rfl | rfl | hx
            · simp
            · simp
            · rcases ih x hx with rfl | hx
              · simp
              · exact .inr (List.mem_cons_of_mem _ hx)
      rcases hmem a k hk with rfl | hk
      · exact SM2.mem_override h ho
      · exact SM2.mem_alt h ha hk
  refine ⟨?_, ?_, ?_, ?_, ?_⟩
  · intro a b hab
    have hlt : ∀ {i : Nat} {e : ElementVerbose}, (elementsOf rs')[i]? = some e → i < (elementsOf rs').length :=
      fun hi => (List.getElem?_eq_some_iff.1 hi).1
    rcases renum_cases ρ rs rs' a with ⟨e, h1, h2⟩ | h1
    · rcases renum_cases ρ rs rs' b with ⟨e', k1, k2⟩ | k1
      · rw [hab, k2] at h2
        have := renamed_inj h.injective (Option.some.inj h2)
        subst this
        exact hin.inj h1 k1
      · have := hlt h2; omega
    · rcases renum_cases ρ rs rs' b with ⟨e', k1, k2⟩ | k1
      · have := hlt k2; omega
      · omega
  · intro e ho
    obtain ⟨k, hk, hk'⟩ := hocc e ho
    rw [hin.types, hin'.types, List.getElem?_map, List.getElem?_map, hk, (renum_at hk hk').2]
    simp [renamed_et]
  · intro e ho hT
    obtain ⟨k, hk, hk'⟩ := hocc e ho
    rw [hin.types, List.getElem?_map, hk] at hT
    rw [hin.data, hin'.data, List.getElem?_map, List.getElem?_map, hk, (renum_at hk hk').2]
    obtain ⟨n, t⟩ := k
    simp at hT
    subst hT
    rfl
  · intro A r hr
    obtain ⟨n, q, hn, hq⟩ := MeansWoven.rule_name hm hr
    have hdef := ruleMeaning_isDefined hq
    have hA' := (renum_at hn (by rw [renamed_nt]; exact SM2.mem_name h hdef)).2
    rw [renamed_nt] at hA'
    obtain ⟨r1, hr1, hrn1⟩ := (h.defined n).2 hdef
    obtain ⟨q', hq'⟩ := ruleMeaning_defined (keys := elementsOf rs') hr1 hrn1
    have hinstr : q'.instr = q.instr := by rw [ruleMeaning_instrFor hq', ruleMeaning_instrFor hq, h.instr]
    obtain ⟨hp, -⟩ := ruleMeaning_some hq
    obtain ⟨hp', -⟩ := ruleMeaning_some hq'
    have hperm : q'.prods.Perm (q.prods.map (renumber (renum ρ rs rs'))) := by
      rw [hp, hp']
      refine ((h.alts n).map _).trans ?_
      rw [List.map_map, List.map_map]
      refine List.Perm.of_eq (List.map_congr_left fun a ha => ?_)
      exact renum_alt (fun e he => mem_elementsOf_alt ha he) (fun e he => SM2.mem_alt h ha he)
    cases ho : overrideOf rs n with
    | none =>
      have h1 := hm.plain A n q hn hq ho
      rw [ParserData.getRuleByKey, hr] at h1
      cases h1
      exact ⟨q', hm'.plain _ _ q' hA' hq' (by rw [h.override, ho]; rfl), hinstr, hperm⟩
    | some j =>
      have ho' : overrideOf rs' (ρ n) = some (ρ j) := by rw [h.override, ho]; rfl
      by_cases hu : NameUsesStar rs j n
      · have h1 := hm.own A n q j hn hq ho hu
        rw [ParserData.getRuleByKey, hr] at h1
        cases h1
        exact ⟨_, hm'.own _ _ q' _ hA' hq' ho' ((SM2.usesStar_iff h j n).2 hu), hinstr, hperm⟩
      · have h1 := hm.woven A n q j hn hq ho hu
        rw [ParserData.getRuleByKey, hr] at h1
        cases h1
        refine ⟨_, hm'.woven _ _ q' _ hA' hq' ho' (fun hc => hu ((SM2.usesStar_iff h j n).1 hc)), hinstr, ?_⟩
        refine (hperm.map _).trans (List.Perm.of_eq ?_)
        simp only [List.map_map]
        refine List.map_congr_left fun p _ => ?_
        simp only [Function.comp_apply]
        rw [renumber_betweenAlt, (renum_at (getElem?_idxOf (mem_elementsOf_override ho))
          (by rw [renamed_nt]; exact SM2.mem_override h ho)).1, renamed_nt]
  · intro A' r' hr'
    obtain ⟨n', q', hn', hq'⟩ := MeansWoven.rule_name hm' hr'
    obtain ⟨r1, hr1, hrn1⟩ := ruleMeaning_isDefined hq'
    obtain ⟨n, hn1⟩ := h.noMore r1 hr1
    have hnn : n' = ρ n := hrn1.symm.trans hn1
    subst hnn
    have hdef := (h.defined n).1 ⟨r1, hr1, hn1⟩
    obtain ⟨r0, hr0, hrn0⟩ := hdef
    have he : (⟨n, .nonTerminal⟩ : ElementVerbose) ∈ elementsOf rs := by rw [← hrn0]; exact mem_elementsOf_name hr0
    have hi := getElem?_idxOf he
    have hA := (renum_at (ρ := ρ) (rs' := rs') hi (by rw [renamed_nt]; exact SM2.mem_name h ⟨r0, hr0, hrn0⟩)).2
    have hAA := hin'.inj hn' hA
    obtain ⟨q, hq⟩ := ruleMeaning_defined (keys := elementsOf rs) hr0 hrn0
    refine ⟨(elementsOf rs).idxOf ⟨n, .nonTerminal⟩, ?_⟩
    cases ho : overrideOf rs n with
    | none => exact ⟨_, hAA, hm.plain _ n q hi hq ho⟩
    | some j =>
      by_cases hu : NameUsesStar rs j n
      · exact ⟨_, hAA, hm.own _ n q j hi hq ho hu⟩
      · exact ⟨_, hAA, hm.woven _ n q j hi hq ho hu⟩

end
end HPP
