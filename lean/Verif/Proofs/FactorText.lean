import Verif.Proofs.FactorWalk
import Verif.Props.EndMark
import Verif.Proofs.RuleParserApi
/-
Rule texts in which a sequence of elements has got a name: their data is, up to renumbering, the data of the original rules with a name
for the sequence.
-/
namespace HPP
open Spec
variable {I S : Type} {pd pd' : ParserData I} {ψ : Nat → Nat}

/-- The data with its elements renumbered and with other tables. -/
def permuted (ψ : Nat → Nat) (types : List ElementType) (data : List ElementData) (pd : ParserData I) : ParserData I :=
  { pd with
    elementTypes := types
    elementData := data
    rules := pd.rules.map fun q => (ψ q.1, ⟨q.2.prods.map (renumber ψ), q.2.ignore.map ψ, q.2.instr⟩) }

theorem get_map_inj {α β : Type} (hψ : ∀ a b, ψ a = ψ b → a = b) (f : α → β) (m : AMap Nat α) (A : Nat) :
    AMap.get (m.map fun q => (ψ q.1, f q.2) : AMap Nat β) (ψ A) = (AMap.get m A).map f := by
  induction m with
  | nil => rfl
  | cons q m ih =>
    obtain ⟨k, v⟩ := q
    simp only [List.map_cons, AMap.get]
    by_cases hk : k = A
    · subst hk; simp
    · rw [if_neg (fun e => hk (hψ _ _ e)), if_neg hk, ih]

section
variable {types : List ElementType} {data : List ElementData} (hψ : ∀ a b, ψ a = ψ b → a = b)
  (hk : ∀ e, types[ψ e]? = pd.elementTypes[e]?)
include hψ

theorem permuted_get (A : Nat) : AMap.get (permuted ψ types data pd).rules (ψ A) =
    (AMap.get pd.rules A).map fun r => ⟨r.prods.map (renumber ψ), r.ignore.map ψ, r.instr⟩ :=
  get_map_inj hψ (fun r : NTRule I => (⟨r.prods.map (renumber ψ), r.ignore.map ψ, r.instr⟩ : NTRule I)) pd.rules A

theorem permuted_image {A' : Nat} {r' : NTRule I} (h : AMap.get (permuted ψ types data pd).rules A' = some r') :
    ∃ A r, A' = ψ A ∧ AMap.get pd.rules A = some r ∧ r' = ⟨r.prods.map (renumber ψ), r.ignore.map ψ, r.instr⟩ := by
  obtain ⟨q, -, hq⟩ := List.mem_map.1 (Samples.mem_of_get' h)
  have h1 : ψ q.1 = A' := congrArg Prod.fst hq
  subst h1
  rw [permuted_get hψ] at h
  cases hg : AMap.get pd.rules q.1 with
  | none => rw [hg] at h; cases h
  | some r => rw [hg] at h; exact ⟨_, r, rfl, hg, (Option.some.inj h).symm⟩

include hk

theorem permuted_renumbered (hd : ∀ e, (data[ψ e]?).map (·.name) = (pd.elementData[e]?).map (·.name)) :
    Renumbered ψ pd (permuted ψ types data pd) where
  injective := hψ
  kinds e _ := hk e
  texts e _ _ := hd e
  rules A r hr := ⟨⟨r.prods.map (renumber ψ), r.ignore.map ψ, r.instr⟩, by rw [permuted_get hψ, hr]; rfl, rfl, List.Perm.refl _⟩
  noMore A' r' h := by
    obtain ⟨A, r, h1, h2, -⟩ := permuted_image hψ h
    exact ⟨A, r, h1, h2⟩

theorem permuted_wf (hw : WellFormed pd) (hl : types.length = data.length) : WellFormed (permuted ψ types data pd) where
  rulesNodup := by
    have : (permuted ψ types data pd).rules.map (·.1) = (pd.rules.map (·.1)).map ψ := by simp [permuted]
    rw [this]
    exact hw.rulesNodup.map fun a b => hψ a b
  lengths := hl
  keysNT A' r' h := by
    obtain ⟨A, r, rfl, h2, -⟩ := permuted_image hψ h
    exact (hk A).trans (hw.keysNT A r h2)
  inRange A' r' h p hp e he := by
    obtain ⟨A, r, rfl, h2, rfl⟩ := permuted_image hψ h
    obtain ⟨q, hq, rfl⟩ := List.mem_map.1 hp
    cases q with
    | empty => simp [renumber, prodElems] at he
    | notEmpty els =>
      obtain ⟨i, hi, rfl⟩ := List.mem_map.1 (show e ∈ els.map ψ from he)
      have := List.getElem?_eq_getElem (hw.inRange A r h2 _ hq i hi)
      rw [← hk] at this
      exact (List.getElem?_eq_some_iff.1 this).1
  nonEmpty A' r' h p hp := by
    obtain ⟨A, r, rfl, h2, rfl⟩ := permuted_image hψ h
    obtain ⟨q, hq, rfl⟩ := List.mem_map.1 hp
    have := hw.nonEmpty A r h2 q hq
    cases q with
    | empty => simp [renumber]
    | notEmpty els =>
      intro hc
      simp only [renumber, Production.notEmpty.injEq, List.map_eq_nil_iff] at hc
      exact this (by rw [hc])

end

/-! ### the elements of the two texts -/

theorem mem_mentions' {r : WrittenRule I} {e : ElementVerbose} : e ∈ r.mentions ↔
    e = ⟨r.name, .nonTerminal⟩ ∨ (∃ j, r.ignore = some j ∧ e = ⟨j, .nonTerminal⟩) ∨ ∃ a ∈ r.alts, e ∈ a := by
  obtain ⟨n, ign, alts, instr⟩ := r
  cases ign <;> simp [WrittenRule.mentions]

section
variable {g : Str} {b : List ElementVerbose} {rs rs' : List (WrittenRule I)} (h : NamedText g b rs rs')
include h

theorem Spec.NamedText.def_mem : (⟨g, none, [b], []⟩ : WrittenRule I) ∈ rs' := by
  have : (⟨g, none, [b], []⟩ : WrittenRule I) ∈ rs'.filter fun r => decide (r.name = g) := by rw [h.definition]; simp
  exact (List.mem_filter.1 this).1

theorem Spec.NamedText.def_only {r : WrittenRule I} (hr : r ∈ rs') (hn : r.name = g) : r = ⟨g, none, [b], []⟩ := by
  have : r ∈ rs'.filter fun r => decide (r.name = g) := List.mem_filter.2 ⟨hr, decide_eq_true hn⟩
  rw [h.definition] at this
  exact List.mem_singleton.1 this

theorem Spec.NamedText.mem_old {r : WrittenRule I} (hr : r ∈ rs') (hn : r.name ≠ g) :
    (⟨r.name, r.ignore, r.alts.map (inlineName g b), r.instr⟩ : WrittenRule I) ∈ rs := by
  rw [h.rules]
  exact List.mem_map.2 ⟨r, List.mem_filter.2 ⟨hr, decide_eq_true hn⟩, rfl⟩

omit h in
theorem mem_inlineName {a : List ElementVerbose} {e : ElementVerbose} :
    e ∈ inlineName g b a ↔ (e ∈ a ∧ e ≠ ⟨g, .nonTerminal⟩) ∨ (⟨g, .nonTerminal⟩ ∈ a ∧ e ∈ b) := by
  unfold inlineName
  rw [List.mem_flatMap]
  constructor
  · rintro ⟨x, hx, he⟩
    split at he
    · next hg => exact .inr ⟨hg ▸ hx, he⟩
    · next hg =>
      cases List.mem_singleton.1 he
      exact .inl ⟨hx, hg⟩
  · rintro (⟨h1, h2⟩ | ⟨h1, h2⟩)
    · exact ⟨e, h1, by rw [if_neg h2]; simp⟩
    · exact ⟨_, h1, by rw [if_pos rfl]; exact h2⟩

theorem Spec.NamedText.mem_of_alt {r : WrittenRule I} (hr : r ∈ rs') (hn : r.name ≠ g) {a : List ElementVerbose} (ha : a ∈ r.alts)
    {e : ElementVerbose} (he : e ∈ inlineName g b a) : e ∈ elementsOf rs := by
  refine mem_elementsOf (h.mem_old hr hn) ?_
  simp only [WrittenRule.mentions, List.mem_cons, List.mem_append, List.mem_flatten]
  exact .inr (.inr ⟨_, List.mem_map.2 ⟨a, ha, rfl⟩, he⟩)

theorem Spec.NamedText.body_old {e : ElementVerbose} (he : e ∈ b) : e ∈ elementsOf rs := by
  obtain ⟨r, hr, hn, a, ha, hg⟩ := h.used
  exact h.mem_of_alt hr hn ha (mem_inlineName.2 (.inr ⟨hg, he⟩))

theorem Spec.NamedText.new : (⟨g, .nonTerminal⟩ : ElementVerbose) ∉ elementsOf rs := by
  rw [mem_elementsOf_iff]
  rintro ⟨r, hr, hm⟩
  rw [h.rules] at hr
  obtain ⟨q, hq, rfl⟩ := List.mem_map.1 hr
  obtain ⟨h1, h2⟩ := List.mem_filter.1 hq
  have h2 := of_decide_eq_true h2
  rcases mem_mentions'.1 hm with hm | ⟨j, hj, hm⟩ | ⟨l, hl, hm⟩
  · exact h2 (congrArg ElementVerbose.name hm).symm
  · exact h.notIgnored q h1 (hj.trans (congrArg some (congrArg ElementVerbose.name hm).symm))
  obtain ⟨a, -, rfl⟩ := List.mem_map.1 hl
  rcases mem_inlineName.1 hm with ⟨-, h3⟩ | ⟨-, h3⟩
  · exact h3 rfl
  · exact h.notSelf h3

theorem Spec.NamedText.mem_iff (e : ElementVerbose) : e ∈ elementsOf rs' ↔ e ∈ elementsOf rs ∨ e = ⟨g, .nonTerminal⟩ := by
  constructor
  · intro he
    obtain ⟨r, hr, hm⟩ := mem_elementsOf_iff.1 he
    by_cases hg : e = ⟨g, .nonTerminal⟩
    · exact .inr hg
    left
    by_cases hn : r.name = g
    · cases h.def_only hr hn
      rcases mem_mentions'.1 hm with hm | ⟨j, hj, -⟩ | ⟨a, ha, hm⟩
      · exact absurd hm hg
      · cases hj
      · cases List.mem_singleton.1 ha; exact h.body_old hm
    · rcases mem_mentions'.1 hm with rfl | ⟨j, hj, rfl⟩ | ⟨a, ha, hm⟩
      · exact mem_elementsOf (h.mem_old hr hn) (by simp [WrittenRule.mentions])
      · exact mem_elementsOf (h.mem_old hr hn) (mem_mentions'.2 (.inr (.inl ⟨j, hj, rfl⟩)))
      · exact h.mem_of_alt hr hn ha (mem_inlineName.2 (.inl ⟨hm, hg⟩))
  · rintro (he | rfl)
    · obtain ⟨r, hr, hm⟩ := mem_elementsOf_iff.1 he
      rw [h.rules] at hr
      obtain ⟨q, hq, rfl⟩ := List.mem_map.1 hr
      have h1 := (List.mem_filter.1 hq).1
      rcases mem_mentions'.1 hm with rfl | ⟨j, hj, rfl⟩ | ⟨l, hl, hm⟩
      · exact mem_elementsOf h1 (by simp [WrittenRule.mentions])
      · exact mem_elementsOf h1 (mem_mentions'.2 (.inr (.inl ⟨j, hj, rfl⟩)))
      · obtain ⟨a, ha, rfl⟩ := List.mem_map.1 hl
        rcases mem_inlineName.1 hm with ⟨h3, -⟩ | ⟨-, h3⟩
        · exact mem_elementsOf h1 (mem_mentions'.2 (.inr (.inr ⟨a, ha, h3⟩)))
        · exact mem_elementsOf h.def_mem (by simp [WrittenRule.mentions, h3])
    · exact mem_elementsOf h.def_mem (by simp [WrittenRule.mentions])

theorem Spec.NamedText.definitions {n : Str} (hn : n ≠ g) : rs.filter (fun r => decide (r.name = n)) =
    (rs'.filter fun r => decide (r.name = n)).map fun r => ⟨r.name, r.ignore, r.alts.map (inlineName g b), r.instr⟩ := by
  rw [h.rules, List.filter_map, List.filter_filter]
  congr 1
  refine List.filter_congr fun r _ => ?_
  by_cases h1 : r.name = n
  · simp [h1, hn]
  · simp [h1]

theorem Spec.NamedText.override_eq {n : Str} (hn : n ≠ g) : overrideOf rs n = overrideOf rs' n := by
  unfold overrideOf
  rw [h.definitions hn]
  cases rs'.filter (fun r => decide (r.name = n)) <;> rfl

theorem Spec.NamedText.override_new : overrideOf rs' g = none := by
  unfold overrideOf; rw [h.definition]

theorem Spec.NamedText.no_def {r : WrittenRule I} (hr : r ∈ rs) : r.name ≠ g := by
  rw [h.rules] at hr
  obtain ⟨q, hq, rfl⟩ := List.mem_map.1 hr
  exact of_decide_eq_true (List.mem_filter.1 hq).2

theorem Spec.NamedText.override_old : overrideOf rs g = none := by
  have : rs.filter (fun r => decide (r.name = g)) = [] :=
    List.filter_eq_nil_iff.2 fun r hr hc => h.no_def hr (of_decide_eq_true hc)
  unfold overrideOf; rw [this]

omit h in
theorem override_def {n j : Str} (ho : overrideOf rs' n = some j) : ∃ r ∈ rs', r.name = n ∧ r.ignore = some j := by
  unfold overrideOf at ho
  split at ho
  · cases ho
  · next d ds hf =>
    have : d ∈ rs'.filter fun r : WrittenRule I => decide (r.name = n) := by rw [hf]; simp
    obtain ⟨h1, h2⟩ := List.mem_filter.1 this
    exact ⟨d, h1, of_decide_eq_true h2, ho⟩

theorem Spec.NamedText.ignore_ne {n j : Str} (ho : overrideOf rs' n = some j) : j ≠ g := by
  obtain ⟨r, hr, -, hj⟩ := override_def ho
  rintro rfl
  exact h.notIgnored r hr hj

theorem Spec.NamedText.alts_eq {n : Str} (hn : n ≠ g) : altsOf rs n = (altsOf rs' n).map (inlineName g b) := by
  unfold altsOf
  rw [h.definitions hn, List.flatMap_map, List.map_flatMap]

theorem Spec.NamedText.alts_new : altsOf rs' g = [b] := by
  unfold altsOf; rw [h.definition]; rfl

theorem Spec.NamedText.star_up {n m : Str} (hs : NameUsesStar rs n m) : NameUsesStar rs' n m := by
  induction hs with
  | refl => exact .refl
  | @tail k m _ hu ih =>
    refine ih.trans ?_
    obtain ⟨a, ha, hm⟩ := hu
    have hk : k ≠ g := by
      obtain ⟨r, hr, rfl, -⟩ := mem_altsOf.1 ha
      exact h.no_def hr
    rw [h.alts_eq hk] at ha
    obtain ⟨c, hc, rfl⟩ := List.mem_map.1 ha
    rcases mem_inlineName.1 hm with ⟨h1, -⟩ | ⟨h1, h2⟩
    · exact .single ⟨c, hc, h1⟩
    · exact (Relation.ReflTransGen.single (⟨c, hc, h1⟩ : NameUses rs' k g)).tail ⟨b, by rw [h.alts_new]; simp, h2⟩

theorem Spec.NamedText.star_down {n m : Str} (hm : m ≠ g) (hs : NameUsesStar rs' n m) :
    (n ≠ g → NameUsesStar rs n m) ∧ (n = g → ∃ k, (⟨k, .nonTerminal⟩ : ElementVerbose) ∈ b ∧ NameUsesStar rs k m) := by
  induction hs using Relation.ReflTransGen.head_induction_on with
  | refl => exact ⟨fun _ => .refl, fun hc => absurd hc hm⟩
  | @head n k hu _ ih =>
    obtain ⟨a, ha, hk⟩ := hu
    constructor
    · intro hn
      have step : ∀ k', (⟨k', .nonTerminal⟩ : ElementVerbose) ∈ inlineName g b a → NameUses rs n k' := fun k' hk' =>
        ⟨_, by rw [h.alts_eq hn]; exact List.mem_map.2 ⟨a, ha, rfl⟩, hk'⟩
      by_cases hkg : k = g
      · obtain ⟨k', h1, h2⟩ := ih.2 hkg
        exact .head (step k' (mem_inlineName.2 (.inr ⟨hkg ▸ hk, h1⟩))) h2
      · exact .head (step k (mem_inlineName.2 (.inl ⟨hk, fun hc => hkg (congrArg ElementVerbose.name hc)⟩))) (ih.1 hkg)
    · rintro rfl
      rw [h.alts_new, List.mem_singleton] at ha
      subst ha
      have hkn : k ≠ n := by rintro rfl; exact h.notSelf hk
      exact ⟨k, hk, ih.1 hkn⟩

theorem Spec.NamedText.star_iff {n m : Str} (hn : n ≠ g) (hm : m ≠ g) : NameUsesStar rs n m ↔ NameUsesStar rs' n m :=
  ⟨h.star_up, fun hs => (h.star_down hm hs).1 hn⟩

theorem Spec.NamedText.ignoresDefined_iff : IgnoresDefined rs ↔ IgnoresDefined rs' := by
  constructor
  · intro hd n j m ho hs
    by_cases hmg : m = g
    · exact ⟨_, h.def_mem, hmg.symm⟩
    have hn : n ≠ g := by rintro rfl; rw [h.override_new] at ho; cases ho
    have hj := h.ignore_ne ho
    rw [← h.override_eq hn] at ho
    obtain ⟨r, hr, rfl⟩ := hd n j m ho ((h.star_iff hj hmg).2 hs)
    rw [h.rules] at hr
    obtain ⟨q, hq, rfl⟩ := List.mem_map.1 hr
    exact ⟨q, (List.mem_filter.1 hq).1, rfl⟩
  · intro hd n j m ho hs
    have hn : n ≠ g := by rintro rfl; rw [h.override_old] at ho; cases ho
    have ho' := ho
    rw [h.override_eq hn] at ho'
    have hj := h.ignore_ne ho'
    have hmg : m ≠ g := by
      rintro rfl
      rcases Relation.ReflTransGen.cases_tail hs with hc | ⟨k, -, a, ha, hk⟩
      · exact hj hc.symm
      · exact h.new (mem_elementsOf_alt ha hk)
    obtain ⟨r, hr, rfl⟩ := hd n j m ho' (h.star_up hs)
    exact ⟨_, h.mem_old hr hmg, rfl⟩

end

/-! ### the numbers -/

/-- The number in `L0` of what has the number in `L`. -/
def reindex (L L0 : List ElementVerbose) (i : Nat) : Nat :=
  match L[i]? with
  | some e => L0.idxOf e
  | none => i

section
variable {L L0 : List ElementVerbose} (hp : L.Perm L0)
include hp

theorem reindex_lookup (i : Nat) : L0[reindex L L0 i]? = L[i]? := by
  unfold reindex
  cases hi : L[i]? with
  | none =>
    rw [List.getElem?_eq_none_iff] at hi
    simp only []
    rw [List.getElem?_eq_none_iff, ← hp.length_eq]; exact hi
  | some e => exact getElem?_idxOf (hp.mem_iff.1 (List.mem_of_getElem? hi))

omit hp in
theorem reindex_out {i : Nat} (hi : L[i]? = none) : reindex L L0 i = i := by
  unfold reindex; rw [hi]

omit hp in
theorem nodup_inj {l : List ElementVerbose} (hn : l.Nodup) {i j : Nat} {e : ElementVerbose} (hi : l[i]? = some e) (hj : l[j]? = some e) :
    i = j := by
  obtain ⟨h1, h2⟩ := List.getElem?_eq_some_iff.1 hi
  obtain ⟨h3, h4⟩ := List.getElem?_eq_some_iff.1 hj
  exact (hn.getElem_inj_iff).1 (h2.trans h4.symm)

theorem reindex_inj (hn : L.Nodup) (i j : Nat) (hij : reindex L L0 i = reindex L L0 j) : i = j := by
  have hl := (reindex_lookup hp i).symm.trans ((congrArg (fun k => L0[k]?) hij).trans (reindex_lookup hp j))
  cases hi : L[i]? with
  | none =>
    have hj := hl.symm.trans hi
    rwa [reindex_out hi, reindex_out hj] at hij
  | some e => exact nodup_inj hn hi (hl.symm.trans hi)

theorem reindex_surj (hn : L0.Nodup) (A : Nat) : ∃ i, reindex L L0 i = A := by
  cases hA : L0[A]? with
  | none =>
    refine ⟨A, reindex_out ?_⟩
    rw [List.getElem?_eq_none_iff] at hA ⊢
    rw [hp.length_eq]; exact hA
  | some e =>
    have hm := hp.mem_iff.2 (List.mem_of_getElem? hA)
    refine ⟨L.idxOf e, ?_⟩
    have := reindex_lookup hp (L.idxOf e)
    rw [getElem?_idxOf hm] at this
    exact nodup_inj hn this hA

omit hp in
theorem reindex_at {e : ElementVerbose} (he : e ∈ L) : reindex L L0 (L.idxOf e) = L0.idxOf e := by
  unfold reindex; rw [getElem?_idxOf he]

omit hp in
theorem altMeaning_reindex {a : List ElementVerbose} (ha : ∀ e ∈ a, e ∈ L) :
    renumber (reindex L L0) (altMeaning L a) = altMeaning L0 a := by
  unfold altMeaning productionOf
  by_cases hn : a = []
  · subst hn; rfl
  · rw [if_neg (by simpa using hn), if_neg (by simpa using hn)]
    simp only [renumber, List.map_map]
    congr 1
    exact List.map_congr_left fun e he => reindex_at (ha e he)

end

section
variable {rs rs' : List (WrittenRule I)}

open Classical in
/-- The rule of a name, the override applied. -/
noncomputable def finalRule (keys : List ElementVerbose) (rs : List (WrittenRule I)) (n : Str) : Option (NTRule I) :=
  (ruleMeaning keys rs n).map fun r =>
    match overrideOf rs n with
    | none => r
    | some j => if NameUsesStar rs j n then ⟨r.prods, none, r.instr⟩
      else ⟨r.prods.map (betweenAlt (keys.idxOf ⟨j, .nonTerminal⟩)), r.ignore, r.instr⟩

theorem Spec.MeansWoven.get_final (hm : MeansWoven rs pd) (A : Nat) :
    AMap.get pd.rules A = match (elementsOf rs)[A]? with
      | some ⟨n, .nonTerminal⟩ => finalRule (elementsOf rs) rs n
      | _ => none := by
  split
  · next n hn =>
    cases hq : ruleMeaning (elementsOf rs) rs n with
    | none => rw [finalRule, hq]; exact hm.undefined A n hn hq
    | some q =>
      rw [finalRule, hq]
      cases ho : overrideOf rs n with
      | none => exact hm.plain A n q hn hq ho
      | some j =>
        by_cases hu : NameUsesStar rs j n
        · simp only [Option.map_some, if_pos hu]
          exact hm.own A n q j hn hq ho hu
        · simp only [Option.map_some, if_neg hu]
          exact hm.woven A n q j hn hq ho hu
  · next hx =>
    exact hm.noName A fun n hn => hx n hn

theorem ruleMeaning_reindex {L L0 : List ElementVerbose}
    (hL : ∀ r ∈ rs', ∀ e ∈ r.mentions, e ∈ L) (n : Str) :
    (ruleMeaning L rs' n).map (fun r => (⟨r.prods.map (renumber (reindex L L0)), r.ignore.map (reindex L L0), r.instr⟩ : NTRule I)) =
      ruleMeaning L0 rs' n := by
  have hsub : ∀ r ∈ rs'.filter (fun r => decide (r.name = n)), r ∈ rs' := fun r hr => (List.mem_filter.1 hr).1
  unfold ruleMeaning
  generalize rs'.filter (fun r => decide (r.name = n)) = l at hsub
  cases l with
  | nil => rfl
  | cons d ds =>
    simp only [Option.map_some, Option.some.injEq, NTRule.mk.injEq]
    refine ⟨?_, ?_, trivial⟩
    · rw [List.map_flatMap]
      refine List.flatMap_congr fun r hr => ?_
      rw [List.map_map]
      exact List.map_congr_left fun a ha => altMeaning_reindex fun e he =>
        hL r (hsub r hr) e (mem_mentions'.2 (.inr (.inr ⟨a, ha, he⟩)))
    · cases hd : d.ignore with
      | none => rfl
      | some j =>
        simp only [Option.map_some, Option.some.injEq]
        exact reindex_at (hL d (hsub d (.head _)) _ (mem_mentions'.2 (.inr (.inl ⟨j, hd, rfl⟩))))

theorem finalRule_reindex {L L0 : List ElementVerbose}
    (hL : ∀ r ∈ rs', ∀ e ∈ r.mentions, e ∈ L) (n : Str) :
    (finalRule L rs' n).map (fun r => (⟨r.prods.map (renumber (reindex L L0)), r.ignore.map (reindex L L0), r.instr⟩ : NTRule I)) =
      finalRule L0 rs' n := by
  unfold finalRule
  rw [← ruleMeaning_reindex hL n (L0 := L0)]
  cases ruleMeaning L rs' n with
  | none => rfl
  | some q =>
    simp only [Option.map_some, Option.some.injEq]
    cases ho : overrideOf rs' n with
    | none => rfl
    | some j =>
      by_cases hu : NameUsesStar rs' j n
      · simp only [if_pos hu, Option.map_none]
      · simp only [if_neg hu, NTRule.mk.injEq, and_true]
        obtain ⟨d, hd, -, hj⟩ := override_def ho
        rw [List.map_map, List.map_map]
        refine List.map_congr_left fun p _ => ?_
        simp only [Function.comp_apply]
        rw [renumber_betweenAlt, reindex_at (hL d hd _ (mem_mentions'.2 (.inr (.inl ⟨j, hj, rfl⟩))))]

end

/-! ### the data of the two texts -/

section
variable {g : Str} {b : List ElementVerbose} {rs rs' : List (WrittenRule I)}

/-- The elements of the original rules and, at the end, the name. -/
abbrev withName (g : Str) (rs : List (WrittenRule I)) : List ElementVerbose := elementsOf rs ++ [⟨g, .nonTerminal⟩]

/-- The renumbering of the elements. -/
abbrev nameLast (g : Str) (rs rs' : List (WrittenRule I)) : Nat → Nat := reindex (elementsOf rs') (withName g rs)

/-- The data of the rules with the name, numbered like the original ones, the name being the last. -/
abbrev namedLast (g : Str) (rs rs' : List (WrittenRule I)) (pd pd' : ParserData I) : ParserData I :=
  permuted (nameLast g rs rs') (pd.elementTypes ++ [.nonTerminal]) (pd.elementData ++ [⟨false, g⟩]) pd'

variable (h : NamedText g b rs rs') (hm : MeansWoven rs pd) (hin : InternOk pd (elementsOf rs)) (hw : WellFormed pd)
  (hm' : MeansWoven rs' pd') (hin' : InternOk pd' (elementsOf rs')) (hw' : WellFormed pd')
include h hin

theorem Spec.NamedText.nodup0 : (withName g rs).Nodup := by
  have hn : (elementsOf rs).Nodup := nodup_of_getElem_inj fun _ _ _ hi hj => hin.inj hi hj
  rw [List.nodup_append]
  exact ⟨hn, List.nodup_singleton _, fun a ha c hc hac => by
    cases List.mem_singleton.1 hc; subst hac; exact h.new ha⟩

include hin'

theorem Spec.NamedText.perm : (elementsOf rs').Perm (withName g rs) := by
  have hn' : (elementsOf rs').Nodup := nodup_of_getElem_inj fun _ _ _ hi hj => hin'.inj hi hj
  rw [List.perm_ext_iff_of_nodup hn' (h.nodup0 hin)]
  intro e
  rw [h.mem_iff]; simp

theorem Spec.NamedText.inj (i j : Nat) (hij : nameLast g rs rs' i = nameLast g rs rs' j) : i = j :=
  reindex_inj (h.perm hin hin') (nodup_of_getElem_inj fun _ _ _ hi hj => hin'.inj hi hj) i j hij

omit h hin' in
theorem namedLast_types : pd.elementTypes ++ [.nonTerminal] = (withName g rs).map (·.et) := by
  rw [hin.types]; simp [withName]

omit h hin' in
theorem namedLast_data : pd.elementData ++ [⟨false, g⟩] = (withName g rs).map (fun k => (⟨false, k.name⟩ : ElementData)) := by
  rw [hin.data]; simp [withName]

theorem Spec.NamedText.kinds0 (e : Nat) : (pd.elementTypes ++ [.nonTerminal])[nameLast g rs rs' e]? = pd'.elementTypes[e]? := by
  rw [namedLast_types (g := g) hin, hin'.types, List.getElem?_map, List.getElem?_map, reindex_lookup (h.perm hin hin')]

theorem Spec.NamedText.renumbered0 : Renumbered (nameLast g rs rs') pd' (namedLast g rs rs' pd pd') := by
  refine permuted_renumbered (h.inj hin hin') (h.kinds0 hin hin') fun e => ?_
  rw [namedLast_data hin, hin'.data, List.getElem?_map, List.getElem?_map, reindex_lookup (h.perm hin hin')]

include hw'
theorem Spec.NamedText.wf0 : WellFormed (namedLast g rs rs' pd pd') := by
  refine permuted_wf (h.inj hin hin') (h.kinds0 hin hin') hw' ?_
  rw [namedLast_types (g := g) hin, namedLast_data hin, List.length_map, List.length_map]

omit h hin' hw' in
theorem namedLast_verbose (j : Nat) : (namedLast g rs rs' pd pd').getElementVerbose j = (withName g rs)[j]? := by
  simp only [ParserData.getElementVerbose, namedLast, permuted]
  rw [namedLast_types (g := g) hin, namedLast_data hin, List.getElem?_map, List.getElem?_map]
  cases (withName g rs)[j]? <;> rfl

omit hin' hw' in
theorem Spec.NamedText.start0 {st : Nat} (hst : (elementsOf rs)[st]? = some ⟨c% "start", .nonTerminal⟩) :
    StartSymbol (namedLast g rs rs' pd pd') st := by
  have h1 : (withName g rs)[st]? = some ⟨c% "start", .nonTerminal⟩ := by
    rw [List.getElem?_append_left (List.getElem?_eq_some_iff.1 hst).1]; exact hst
  refine ⟨(namedLast_verbose hin st).trans h1, fun j hj => ?_⟩
  rw [namedLast_verbose hin] at hj
  exact nodup_inj (h.nodup0 hin) hj h1

omit hw' in
include hm' in
theorem Spec.NamedText.get0 (A : Nat) : AMap.get (namedLast g rs rs' pd pd').rules A = match (withName g rs)[A]? with
      | some ⟨n, .nonTerminal⟩ => finalRule (withName g rs) rs' n
      | _ => none := by
  obtain ⟨i, rfl⟩ := reindex_surj (h.perm hin hin') (h.nodup0 hin) A
  rw [permuted_get (h.inj hin hin'), hm'.get_final i, reindex_lookup (h.perm hin hin')]
  split
  · exact finalRule_reindex (fun r hr e he => mem_elementsOf hr he) _
  · rfl

end

section
variable {g : Str} {b : List ElementVerbose} {rs rs' : List (WrittenRule I)} (h : NamedText g b rs rs')
include h

theorem Spec.NamedText.alt_inline {a : List ElementVerbose} (ha : ∀ e ∈ a, e ∈ elementsOf rs ∨ e = ⟨g, .nonTerminal⟩) :
    altMeaning (elementsOf rs) (inlineName g b a) =
      inlineAlt (elementsOf rs).length (b.map fun e => (elementsOf rs).idxOf e) (altMeaning (withName g rs) a) := by
  have hb : b ≠ [] := by
    obtain ⟨e, es, hb, -⟩ := h.leads
    rw [hb]; simp
  have key : (inlineName g b a).map (fun e => (elementsOf rs).idxOf e) =
      inlineEls (elementsOf rs).length (b.map fun e => (elementsOf rs).idxOf e) (a.map fun e => (withName g rs).idxOf e) := by
    induction a with
    | nil => rfl
    | cons e a ih =>
      have ih := ih fun e he => ha e (.tail _ he)
      have e1 : inlineName g b (e :: a) = (if e = ⟨g, .nonTerminal⟩ then b else [e]) ++ inlineName g b a := rfl
      rw [e1, List.map_append, ih, List.map_cons]
      by_cases hg : e = ⟨g, .nonTerminal⟩
      · subst hg
        have : (withName g rs).idxOf ⟨g, .nonTerminal⟩ = (elementsOf rs).length := by
          rw [withName, List.idxOf_append, if_neg h.new]; simp
        rw [this, inlineEls_cons_self, if_pos rfl]
      · have he := (ha e (.head _)).resolve_right hg
        have : (withName g rs).idxOf e = (elementsOf rs).idxOf e := by
          rw [withName, List.idxOf_append, if_pos he]
        have hlt := List.idxOf_lt_length_of_mem he
        rw [this, inlineEls_cons_ne (by omega), if_neg hg]
        rfl
  unfold altMeaning
  rw [key]
  cases a with
  | nil => rfl
  | cons e a =>
    have hne : inlineEls (elementsOf rs).length (b.map fun e => (elementsOf rs).idxOf e)
        ((e :: a).map fun e => (withName g rs).idxOf e) ≠ [] := by
      rw [← key]
      simp only [ne_eq, List.map_eq_nil_iff]
      have e1 : inlineName g b (e :: a) = (if e = ⟨g, .nonTerminal⟩ then b else [e]) ++ inlineName g b a := rfl
      rw [e1]
      split <;> simp [hb]
    simp only [productionOf]
    rw [if_neg (by simpa using hne), if_neg (by simp)]
    rfl

omit h in
theorem withName_idx {e : ElementVerbose} (he : e ∈ elementsOf rs) : (withName g rs).idxOf e = (elementsOf rs).idxOf e := by
  rw [withName, List.idxOf_append, if_pos he]

theorem Spec.NamedText.idx_ne {e : ElementVerbose} (he : e ∈ elementsOf rs') (hg : e ≠ ⟨g, .nonTerminal⟩) :
    (withName g rs).idxOf e ≠ (elementsOf rs).length := by
  have hm := ((h.mem_iff e).1 he).resolve_right hg
  rw [withName_idx hm]
  exact (List.idxOf_lt_length_of_mem hm).ne

theorem Spec.NamedText.meaning_inline {n : Str} (hn : n ≠ g) : ruleMeaning (elementsOf rs) rs n =
    (ruleMeaning (withName g rs) rs' n).map fun r =>
      (⟨r.prods.map (inlineAlt (elementsOf rs).length (b.map fun e => (elementsOf rs).idxOf e)), r.ignore, r.instr⟩ : NTRule I) := by
  have hsub : ∀ r ∈ rs'.filter (fun r => decide (r.name = n)), r ∈ rs' := fun r hr => (List.mem_filter.1 hr).1
  unfold ruleMeaning
  rw [h.definitions hn]
  generalize rs'.filter (fun r => decide (r.name = n)) = l at hsub
  cases l with
  | nil => rfl
  | cons d ds =>
    simp only [List.map_cons, Option.map_some, Option.some.injEq, NTRule.mk.injEq]
    refine ⟨?_, ?_, trivial⟩
    · rw [← List.map_cons (f := fun r : WrittenRule I => (⟨r.name, r.ignore, r.alts.map (inlineName g b), r.instr⟩ : WrittenRule I)),
        List.map_flatMap, List.flatMap_map]
      refine List.flatMap_congr fun r hr => ?_
      rw [List.map_map, List.map_map]
      refine List.map_congr_left fun a ha => h.alt_inline fun e he => ?_
      rw [← h.mem_iff]
      exact mem_elementsOf (hsub r hr) (mem_mentions'.2 (.inr (.inr ⟨a, ha, he⟩)))
    · cases hd : d.ignore with
      | none => rfl
      | some j =>
        simp only [Option.map_some, Option.some.injEq]
        refine (withName_idx ?_).symm
        have hd1 := hsub d (.head _)
        refine ((h.mem_iff _).1 (mem_elementsOf hd1 (mem_mentions'.2 (.inr (.inl ⟨j, hd, rfl⟩))))).resolve_right fun hc => ?_
        exact h.notIgnored d hd1 (hd.trans (congrArg some (congrArg ElementVerbose.name hc)))

omit h in
theorem inlineAlt_free {x : Nat} {body : List Nat} {p : Production} (hx : x ∉ prodElems p) : inlineAlt x body p = p := by
  cases p with
  | empty => rfl
  | notEmpty els => exact congrArg Production.notEmpty (inlineEls_free hx)

/-- Only rules without an override in force mention the name. -/
theorem Spec.NamedText.mentions_free {n : Str} {q : NTRule I} (hq : ruleMeaning (withName g rs) rs' n = some q) {p : Production}
    (hp : p ∈ q.prods) (hx : (elementsOf rs).length ∈ prodElems p) :
    ∃ r ∈ rs', r.name = n ∧ (∃ a ∈ r.alts, ⟨g, .nonTerminal⟩ ∈ a) ∧ overrideOf rs' n = none := by
  rw [(ruleMeaning_some hq).1] at hp
  obtain ⟨a, ha, rfl⟩ := List.mem_map.1 hp
  obtain ⟨r, hr, rfl, hra⟩ := mem_altsOf.1 ha
  rw [prodElems_altMeaning] at hx
  obtain ⟨e, he, hex⟩ := List.mem_map.1 hx
  have hg : e = ⟨g, .nonTerminal⟩ := by
    by_contra hne
    exact h.idx_ne (mem_elementsOf hr (mem_mentions'.2 (.inr (.inr ⟨a, hra, he⟩)))) hne hex
  subst hg
  exact ⟨r, hr, rfl, ⟨a, hra, he⟩, h.noOverride r hr a hra he⟩

theorem Spec.NamedText.ignore_idx {n j : Str} (ho : overrideOf rs' n = some j) : (⟨j, .nonTerminal⟩ : ElementVerbose) ∈ elementsOf rs ∧
    (elementsOf rs).length ≠ (withName g rs).idxOf ⟨j, .nonTerminal⟩ := by
  obtain ⟨d, hd, -, hj⟩ := override_def ho
  have h1 := mem_elementsOf hd (mem_mentions'.2 (.inr (.inl ⟨j, hj, rfl⟩)))
  have h2 : (⟨j, .nonTerminal⟩ : ElementVerbose) ≠ ⟨g, .nonTerminal⟩ := fun hc => h.ignore_ne ho (congrArg ElementVerbose.name hc)
  exact ⟨((h.mem_iff _).1 h1).resolve_right h2, (h.idx_ne h1 h2).symm⟩

theorem Spec.NamedText.final_inline {n : Str} (hn : n ≠ g) : finalRule (elementsOf rs) rs n =
    (finalRule (withName g rs) rs' n).map fun r =>
      (⟨r.prods.map (inlineAlt (elementsOf rs).length (b.map fun e => (elementsOf rs).idxOf e)), r.ignore, r.instr⟩ : NTRule I) := by
  unfold finalRule
  rw [h.meaning_inline hn, h.override_eq hn]
  cases hq : ruleMeaning (withName g rs) rs' n with
  | none => rfl
  | some q =>
    simp only [Option.map_some, Option.some.injEq]
    cases ho : overrideOf rs' n with
    | none => rfl
    | some j =>
      have hs := h.star_iff (h.ignore_ne ho) hn
      by_cases hu : NameUsesStar rs' j n
      · simp only [if_pos hu, if_pos (hs.2 hu)]
      · simp only [if_neg hu, if_neg (fun hc => hu (hs.1 hc)), NTRule.mk.injEq, and_true]
        obtain ⟨hj1, hj2⟩ := h.ignore_idx ho
        rw [List.map_map, List.map_map]
        refine List.map_congr_left fun p hp => ?_
        have hfree : (elementsOf rs).length ∉ prodElems p := fun hx => by
          obtain ⟨-, -, -, -, hc⟩ := h.mentions_free hq hp hx
          rw [ho] at hc; cases hc
        simp only [Function.comp_apply]
        rw [inlineAlt_free hfree, withName_idx hj1, inlineAlt_free]
        intro hx
        rcases mem_betweenAlt hx with hx | hx
        · exact hfree hx
        · rw [withName_idx hj1] at hj2; exact hj2 hx

variable (hm : MeansWoven rs pd) (hin : InternOk pd (elementsOf rs)) (hw : WellFormed pd)
  (hm' : MeansWoven rs' pd') (hin' : InternOk pd' (elementsOf rs'))
include hm hin hw

theorem Spec.NamedText.leads0 : ∃ i is, (b.map fun e => (elementsOf rs).idxOf e) = i :: is ∧ ¬ Nullable (grammarOf pd) (elemForm pd i) := by
  obtain ⟨e, es, hb, hs⟩ := h.leads
  refine ⟨_, _, by rw [hb]; rfl, fun hc => hs ?_⟩
  have he : e ∈ elementsOf rs := h.body_old (by rw [hb]; exact .head _)
  obtain ⟨h1, h2⟩ := hin.at_idx he
  obtain ⟨n, t⟩ := e
  cases t with
  | terminal =>
    have : elemForm pd ((elementsOf rs).idxOf ⟨n, .terminal⟩) = ofText n := by
      simp only [elemForm, h1, h2]
    rw [this, nullable_ofText] at hc
    subst hc
    exact .terminal (s := []) .nil
  | nonTerminal =>
    rw [elemForm_nonTerminal h1] at hc
    exact (spells_iff_forest hm hin (getElem?_idxOf he) []).1 ((C19_tree_iff_language hw h1 []).2 hc)

include hm' hin'

theorem Spec.NamedText.named : Named pd (namedLast g rs rs' pd pd') (elementsOf rs).length (b.map fun e => (elementsOf rs).idxOf e) := by
  have hL : pd.elementTypes.length = (elementsOf rs).length := by rw [hin.types, List.length_map]
  have hb : b ≠ [] := by
    obtain ⟨e, es, hb, -⟩ := h.leads
    rw [hb]; simp
  refine ⟨List.prefix_append _ _, ?_, hL.le, ?_, h.leads0 hm hin hw, ?_, ?_, ?_⟩
  · intro i hi
    have : i < pd.elementData.length := hw.lengths ▸ (List.getElem?_eq_some_iff.1 hi).1
    simp only [namedLast, permuted, List.getElem?_append_left this]
  · intro i hi
    obtain ⟨e, he, rfl⟩ := List.mem_map.1 hi
    rw [hL]
    exact List.idxOf_lt_length_of_mem (h.body_old he)
  · rw [h.get0 hin hm' hin']
    have e1 : (withName g rs)[(elementsOf rs).length]? = some ⟨g, .nonTerminal⟩ := by simp [withName]
    rw [e1]
    simp only [finalRule, ruleMeaning, h.definition, h.override_new, Option.map_some]
    have e2 : b.map (fun e => (withName g rs).idxOf e) = b.map fun e => (elementsOf rs).idxOf e :=
      List.map_congr_left fun e he => by rw [withName, List.idxOf_append, if_pos (h.body_old he)]
    simp only [List.flatMap_cons, List.flatMap_nil, List.append_nil, List.map_cons, List.map_nil, altMeaning, e2, Option.map_none]
    rw [productionOf, if_neg (by simpa using hb)]
  · intro A hA
    rw [hm.get_final, h.get0 hin hm' hin']
    by_cases hlt : A < (elementsOf rs).length
    · rw [List.getElem?_append_left hlt]
      split
      · next n hn =>
        rw [h.final_inline (n := n) ?_]
        rintro rfl
        exact h.new (List.mem_of_getElem? hn)
      · rfl
    · have e1 : (elementsOf rs)[A]? = none := List.getElem?_eq_none_iff.2 (by omega)
      have e2 : (withName g rs)[A]? = none := List.getElem?_eq_none_iff.2 (by simp only [withName, List.length_append, List.length_singleton]; omega)
      rw [e1, e2]; rfl
  · obtain ⟨r, hr, hn, a, ha, hg⟩ := h.used
    have hne : (⟨r.name, .nonTerminal⟩ : ElementVerbose) ∈ elementsOf rs :=
      mem_elementsOf (h.mem_old hr hn) (by simp [WrittenRule.mentions])
    have hlt := List.idxOf_lt_length_of_mem hne
    obtain ⟨q, hq⟩ := ruleMeaning_defined (keys := withName g rs) hr rfl
    refine ⟨(elementsOf rs).idxOf ⟨r.name, .nonTerminal⟩, q, altMeaning (withName g rs) a, by omega, ?_, ?_, ?_⟩
    · rw [h.get0 hin hm' hin', List.getElem?_append_left hlt, getElem?_idxOf hne]
      simp only [finalRule, hq, h.noOverride r hr a ha hg, Option.map_some]
    · rw [(ruleMeaning_some hq).1]
      exact List.mem_map.2 ⟨a, mem_altsOf.2 ⟨r, hr, rfl, ha⟩, rfl⟩
    · rw [prodElems_altMeaning]
      refine List.mem_map.2 ⟨_, hg, ?_⟩
      rw [withName, List.idxOf_append, if_neg h.new]; simp

omit hm hw in
theorem Spec.NamedText.blind0 {vm : VM I S} (hb : NameBlind vm g rs') :
    MentionsBlind vm (namedLast g rs rs' pd pd') (elementsOf rs).length := by
  intro A r p hr hp hx i hi
  rw [h.get0 hin hm' hin'] at hr
  split at hr
  · next n hn =>
    unfold finalRule at hr
    cases hq : ruleMeaning (withName g rs) rs' n with
    | none => rw [hq] at hr; cases hr
    | some q =>
      rw [hq] at hr
      have key : ∃ p' ∈ q.prods, (elementsOf rs).length ∈ prodElems p' := by
        cases ho : overrideOf rs' n with
        | none =>
          simp only [ho, Option.map_some, Option.some.injEq] at hr
          subst hr
          exact ⟨p, hp, hx⟩
        | some j =>
          by_cases hu : NameUsesStar rs' j n
          · simp only [ho, Option.map_some, Option.some.injEq, if_pos hu] at hr
            subst hr
            exact ⟨p, hp, hx⟩
          · simp only [ho, Option.map_some, Option.some.injEq, if_neg hu] at hr
            subst hr
            obtain ⟨p', hp', rfl⟩ := List.mem_map.1 hp
            exact ⟨p', hp', (mem_betweenAlt hx).resolve_right (h.ignore_idx ho).2⟩
      obtain ⟨p', hp', hx'⟩ := key
      obtain ⟨d0, hd0, hdn, ⟨a, ha, hga⟩, ho⟩ := h.mentions_free hq hp' hx'
      simp only [ho, Option.map_some, Option.some.injEq] at hr
      subst hr
      unfold ruleMeaning at hq
      split at hq
      · cases hq
      · next d ds hf =>
        cases hq
        have hd : d ∈ rs'.filter fun r : WrittenRule I => decide (r.name = n) := by rw [hf]; simp
        obtain ⟨hd1, hd2⟩ := List.mem_filter.1 hd
        exact hb d0 hd0 a ha hga d hd1 ((of_decide_eq_true hd2).trans hdn.symm) i hi
  · cases hr

end

end HPP
