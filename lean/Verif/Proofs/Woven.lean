import Verif.Proofs.RuleSound
import Verif.Spec.Woven
import Verif.Spec.Parse
/-
From rule texts to woven grammar data.
-/
namespace HPP
open Spec
variable {I S : Type}

theorem mem_altsOf {rs : List (WrittenRule I)} {n : Str} {a : List ElementVerbose} :
    a ∈ altsOf rs n ↔ ∃ r ∈ rs, r.name = n ∧ a ∈ r.alts := by
  simp only [altsOf, List.mem_flatMap, List.mem_filter, decide_eq_true_eq]
  constructor
  · rintro ⟨r, ⟨h1, h2⟩, h3⟩; exact ⟨r, h1, h2, h3⟩
  · rintro ⟨r, h1, h2, h3⟩; exact ⟨r, ⟨h1, h2⟩, h3⟩

/-- The rule of `n` in terms of `altsOf` and `overrideOf`. -/
theorem ruleMeaning_some {keys : List ElementVerbose} {rs : List (WrittenRule I)} {n : Str} {q : NTRule I}
    (h : ruleMeaning keys rs n = some q) :
    q.prods = (altsOf rs n).map (altMeaning keys) ∧
    q.ignore = (overrideOf rs n).map fun j => keys.idxOf ⟨j, .nonTerminal⟩ := by
  unfold ruleMeaning at h
  split at h
  · cases h
  · next d ds hf =>
    cases h
    simp only [altsOf, overrideOf, hf]
    refine ⟨?_, trivial⟩
    rw [List.flatMap_def, List.flatMap_def, List.map_flatten, List.map_map]
    rfl

theorem ruleMeaning_defined {keys : List ElementVerbose} {rs : List (WrittenRule I)} {n : Str} {r : WrittenRule I}
    (hr : r ∈ rs) (hn : r.name = n) : ∃ q, ruleMeaning keys rs n = some q := by
  unfold ruleMeaning
  split
  · next hf =>
    have : r ∈ rs.filter (fun r => decide (r.name = n)) := List.mem_filter.2 ⟨hr, by simpa using hn⟩
    rw [hf] at this; cases this
  · exact ⟨_, rfl⟩

theorem ruleMeaning_none_iff {keys : List ElementVerbose} {rs : List (WrittenRule I)} {n : Str} :
    ruleMeaning keys rs n = none ↔ ∀ r ∈ rs, r.name ≠ n := by
  constructor
  · intro h r hr hn
    obtain ⟨q, hq⟩ := ruleMeaning_defined (keys := keys) hr hn
    rw [h] at hq; cases hq
  · exact ruleMeaning_none

theorem mem_elementsOf_alt {rs : List (WrittenRule I)} {n : Str} {a : List ElementVerbose} (ha : a ∈ altsOf rs n)
    {x : ElementVerbose} (hx : x ∈ a) : x ∈ elementsOf rs := by
  obtain ⟨r, hr, -, ha⟩ := mem_altsOf.1 ha
  refine mem_elementsOf hr ?_
  simp only [WrittenRule.mentions, List.mem_cons, List.mem_append, List.mem_flatten]
  exact .inr (.inr ⟨a, ha, hx⟩)

theorem mem_elementsOf_override {rs : List (WrittenRule I)} {n j : Str} (h : overrideOf rs n = some j) :
    (⟨j, .nonTerminal⟩ : ElementVerbose) ∈ elementsOf rs := by
  unfold overrideOf at h
  split at h
  · cases h
  · next d ds hf =>
    have : d ∈ rs := by
      have : d ∈ d :: ds := by simp
      rw [← hf] at this; exact (List.mem_filter.1 this).1
    exact mem_elementsOf this (by simp [WrittenRule.mentions, h])

section
variable {pd : ParserData I} {rs : List (WrittenRule I)}

theorem MeansOk.rule_of (h : MeansOk pd rs) {A : Nat} {q : NTRule I} (hq : AMap.get pd.rules A = some q) :
    ∃ n, (elementsOf rs)[A]? = some ⟨n, .nonTerminal⟩ ∧ ruleMeaning (elementsOf rs) rs n = some q := by
  rw [h.rules] at hq
  obtain ⟨n, h1, h2⟩ := Option.bind_eq_some_iff.1 hq
  exact ⟨n, ntName_eq.1 h1, h2⟩

theorem MeansOk.rule_at (h : MeansOk pd rs) {A : Nat} {n : Str} (hA : (elementsOf rs)[A]? = some ⟨n, .nonTerminal⟩) :
    AMap.get pd.rules A = ruleMeaning (elementsOf rs) rs n := by
  rw [h.rules, ntName_eq.2 hA]; rfl

theorem MeansOk.uses_iff (h : MeansOk pd rs) {A e : Nat} {n : Str} (hA : (elementsOf rs)[A]? = some ⟨n, .nonTerminal⟩) :
    Uses pd.rules A e ↔ ∃ a ∈ altsOf rs n, ∃ x ∈ a, e = (elementsOf rs).idxOf x := by
  constructor
  · rintro ⟨q, hq, p, hp, he⟩
    rw [h.rule_at hA] at hq
    rw [(ruleMeaning_some hq).1] at hp
    obtain ⟨a, ha, rfl⟩ := List.mem_map.1 hp
    rw [prodElems_altMeaning] at he
    obtain ⟨x, hx, rfl⟩ := List.mem_map.1 he
    exact ⟨a, ha, x, hx, rfl⟩
  · rintro ⟨a, ha, x, hx, rfl⟩
    obtain ⟨r, hr, hn, -⟩ := mem_altsOf.1 ha
    obtain ⟨q, hq⟩ := ruleMeaning_defined (keys := elementsOf rs) hr hn
    refine ⟨q, by rw [h.rule_at hA, hq], altMeaning (elementsOf rs) a, ?_, ?_⟩
    · rw [(ruleMeaning_some hq).1]; exact List.mem_map.2 ⟨a, ha, rfl⟩
    · rw [prodElems_altMeaning]; exact List.mem_map.2 ⟨x, hx, rfl⟩

theorem MeansOk.star_name (h : MeansOk pd rs) {A B : Nat} {n : Str} (hA : (elementsOf rs)[A]? = some ⟨n, .nonTerminal⟩)
    (hu : UsesStar pd.rules A B) : ∀ {m : Str}, (elementsOf rs)[B]? = some ⟨m, .nonTerminal⟩ → NameUsesStar rs n m := by
  induction hu with
  | refl => intro m hm; rw [hA] at hm; cases hm; exact .refl
  | @tail C B _ hCB ih =>
    intro m hm
    obtain ⟨q, hq, -⟩ := id hCB
    obtain ⟨c, hc, -⟩ := h.rule_of hq
    obtain ⟨a, ha, x, hx, rfl⟩ := (h.uses_iff hc).1 hCB
    rw [getElem?_idxOf (mem_elementsOf_alt ha hx)] at hm
    cases hm
    exact (ih hc).tail ⟨a, ha, hx⟩

theorem MeansOk.star_of_name (h : MeansOk pd rs) {A : Nat} {n m : Str} (hA : (elementsOf rs)[A]? = some ⟨n, .nonTerminal⟩)
    (hu : NameUsesStar rs n m) : ∃ B, (elementsOf rs)[B]? = some ⟨m, .nonTerminal⟩ ∧ UsesStar pd.rules A B := by
  induction hu with
  | refl => exact ⟨A, hA, .refl⟩
  | tail _ hlast ih =>
    obtain ⟨B, hB, hAB⟩ := ih
    obtain ⟨a, ha, hx⟩ := hlast
    exact ⟨_, getElem?_idxOf (mem_elementsOf_alt ha hx), hAB.tail ((h.uses_iff hB).2 ⟨a, ha, _, hx, rfl⟩)⟩

theorem MeansOk.star_iff (h : MeansOk pd rs) {A B : Nat} {n m : Str} (hA : (elementsOf rs)[A]? = some ⟨n, .nonTerminal⟩)
    (hB : (elementsOf rs)[B]? = some ⟨m, .nonTerminal⟩) : UsesStar pd.rules A B ↔ NameUsesStar rs n m := by
  constructor
  · intro hu; exact h.star_name hA hu hB
  · intro hu
    obtain ⟨B', hB', hu'⟩ := h.star_of_name hA hu
    rw [h.ok.inj hB hB']; exact hu'

/-- A missing definition in an ignore production shows in the text. -/
theorem MeansOk.badIgnore (h : MeansOk pd rs) (hb : BadIgnore pd) : ¬ IgnoresDefined rs := by
  intro hd
  obtain ⟨A, q, i, B, hq, hi, hu, hB, hnone⟩ := hb
  obtain ⟨n, hn, hm⟩ := h.rule_of hq
  rw [(ruleMeaning_some hm).2] at hi
  obtain ⟨j, hj, rfl⟩ := Option.map_eq_some_iff.1 hi
  have hkj := getElem?_idxOf (mem_elementsOf_override hj)
  obtain ⟨⟨m, t⟩, hk, ht⟩ : ∃ k, (elementsOf rs)[B]? = some k ∧ k.et = .nonTerminal := by
    rw [h.ok.types, List.getElem?_map] at hB
    exact Option.map_eq_some_iff.1 hB
  simp only at ht; subst ht
  obtain ⟨r, hr, hrm⟩ := hd n j m hj (h.star_name hkj hu hk)
  obtain ⟨q', hq'⟩ := ruleMeaning_defined (keys := elementsOf rs) hr hrm
  rw [h.rule_at hk, hq'] at hnone
  cases hnone

/-- The data after `edit_rules`. -/
theorem MeansOk.woven (h : MeansOk pd rs) {ho : HashOrder} {pd' : ParserData I} (he : editRules ho pd = .ok pd') :
    MeansWoven rs pd' ∧ WellFormed pd' ∧ InternOk pd' (elementsOf rs) := by
  rcases editRules_spec ho h.wellFormed h.ignoresNT with ⟨pd1, h1, h2, h3, h4, h5, h6, h7⟩ | ⟨e, h1, -⟩
  rotate_left
  · rw [h1] at he; cases he
  rw [h1] at he
  cases he
  have hin : InternOk pd' (elementsOf rs) := h.ok.of_tables h2 h3 h4
  have hedit : ∀ {i n r}, (elementsOf rs)[i]? = some ⟨n, .nonTerminal⟩ → ruleMeaning (elementsOf rs) rs n = some r →
      pd'.getRuleByKey i = some (edited pd.rules i r) := by
    intro i n r hi hr
    rw [ParserData.getRuleByKey, h7, h.rule_at hi, hr]; rfl
  refine ⟨⟨hin.verbose, hin.map, ?_, ?_, ?_, ?_, ?_⟩, ?_, hin⟩
  · intro i hi
    rw [ParserData.getRuleByKey, h7, h.rules]
    have : ntName (elementsOf rs) i = none := by
      cases hn : ntName (elementsOf rs) i with
      | none => rfl
      | some n => exact absurd (ntName_eq.1 hn) (hi n)
    rw [this]; rfl
  · intro i n hi hr
    rw [ParserData.getRuleByKey, h7, h.rule_at hi, hr]; rfl
  · intro i n r hi hr ho
    rw [hedit hi hr]
    have : r.ignore = none := by rw [(ruleMeaning_some hr).2, ho]; rfl
    simp [edited, this]
  · intro i n r j hi hr ho hu
    rw [hedit hi hr]
    have : r.ignore = some ((elementsOf rs).idxOf ⟨j, .nonTerminal⟩) := by rw [(ruleMeaning_some hr).2, ho]; rfl
    have hs := (h.star_iff (getElem?_idxOf (mem_elementsOf_override ho)) hi).2 hu
    simp [edited, this, hs]
  · intro i n r j hi hr ho hu
    rw [hedit hi hr]
    have : r.ignore = some ((elementsOf rs).idxOf ⟨j, .nonTerminal⟩) := by rw [(ruleMeaning_some hr).2, ho]; rfl
    have hs : ¬ UsesStar pd.rules ((elementsOf rs).idxOf ⟨j, .nonTerminal⟩) i :=
      fun hx => hu ((h.star_iff (getElem?_idxOf (mem_elementsOf_override ho)) hi).1 hx)
    simp [edited, this, hs]
  · have hw := h.wellFormed
    have hget : ∀ {A q}, AMap.get pd'.rules A = some q → ∃ r, AMap.get pd.rules A = some r ∧ q = edited pd.rules A r := by
      intro A q hq
      rw [h7] at hq
      obtain ⟨r, hr, rfl⟩ := Option.map_eq_some_iff.1 hq
      exact ⟨r, hr, rfl⟩
    have hprods : ∀ {A r}, AMap.get pd.rules A = some r → ∀ p ∈ (edited pd.rules A r).prods, p ∈ r.prods ∨
        ∃ i p0, r.ignore = some i ∧ p0 ∈ r.prods ∧ p = betweenAlt i p0 := by
      intro A r hr p hp
      unfold edited at hp
      split at hp
      · exact .inl hp
      · next i hi =>
        split at hp
        · exact .inl hp
        · obtain ⟨p0, hp0, rfl⟩ := List.mem_map.1 hp
          exact .inr ⟨i, p0, hi, hp0, rfl⟩
    refine ⟨h6, by rw [h2, h3]; exact hw.lengths, ?_, ?_, ?_⟩
    · intro A q hq
      obtain ⟨r, hr, -⟩ := hget hq
      rw [h2]; exact hw.keysNT A r hr
    · intro A q hq p hp e he
      obtain ⟨r, hr, rfl⟩ := hget hq
      rw [h2]
      rcases hprods hr p hp with hp | ⟨i, p0, hi, hp0, rfl⟩
      · exact hw.inRange A r hr p hp e he
      · cases p0 with
        | empty => simp [betweenAlt, prodElems] at he
        | notEmpty els =>
          have hmem : ∀ (l : List Nat) (x : Nat), x ∈ between i l → x = i ∨ x ∈ l := by
            intro l
            induction l with
            | nil => intro x hx; simp [between] at hx
            | cons y ys ih =>
              cases ys with
              | nil => intro x hx; simp [between] at hx; simp [hx]
              | cons z zs =>
                intro x hx
                simp only [between, List.mem_cons] at hx
                rcases hx with rfl | rfl | hx
                · simp
                · simp
                · rcases ih x hx with rfl | hx
                  · simp
                  · exact .inr (List.mem_cons_of_mem _ hx)
          rcases hmem els e he with rfl | he
          · exact (List.getElem?_eq_some_iff.1 (h.ignoresNT A r e hr hi)).1
          · exact hw.inRange A r hr _ hp0 e he
    · intro A q hq p hp
      obtain ⟨r, hr, rfl⟩ := hget hq
      rcases hprods hr p hp with hp | ⟨i, p0, hi, hp0, rfl⟩
      · exact hw.nonEmpty A r hr p hp
      · have := hw.nonEmpty A r hr p0 hp0
        cases p0 with
        | empty => simp [betweenAlt]
        | notEmpty els =>
          match els, this with
          | [x], _ => simp [betweenAlt, between]
          | x :: y :: zs, _ => simp [betweenAlt, between]

/-- `parse_rules` on data whose ignore productions are defined. -/
theorem MeansOk.edit_ok (h : MeansOk pd rs) (hd : IgnoresDefined rs) (ho : HashOrder) :
    ∃ pd', editRules ho pd = .ok pd' := by
  rcases editRules_spec ho h.wellFormed h.ignoresNT with ⟨pd1, h1, -⟩ | ⟨e, h1, hb⟩
  · exact ⟨pd1, h1⟩
  · exact absurd hd (h.badIgnore hb)

/-! ### The language -/

theorem between_map {α β : Type} (f : α → β) (i : α) (l : List α) : (between i l).map f = between (f i) (l.map f) := by
  induction l with
  | nil => rfl
  | cons x xs ih =>
    cases xs with
    | nil => rfl
    | cons y ys => simp only [between, List.map_cons] at ih ⊢; rw [ih]

/-- The alternatives of the data are the final alternatives of the text. -/
theorem finalAlt_iff (h : MeansWoven rs pd) {A : Nat} {n : Str} (hA : (elementsOf rs)[A]? = some ⟨n, .nonTerminal⟩)
    (els : List Nat) :
    (∃ q, AMap.get pd.rules A = some q ∧ ∃ p ∈ q.prods, prodElems p = els) ↔
    ∃ a, FinalAlt rs n a ∧ els = a.map fun x => (elementsOf rs).idxOf x := by
  have hbt : ∀ (j : Str) (a : List ElementVerbose),
      prodElems (betweenAlt ((elementsOf rs).idxOf ⟨j, .nonTerminal⟩) (altMeaning (elementsOf rs) a)) =
      (between ⟨j, .nonTerminal⟩ a).map fun x => (elementsOf rs).idxOf x := by
    intro j a
    rw [between_map]
    cases a with
    | nil => rfl
    | cons x xs => rfl
  constructor
  · rintro ⟨q, hq, p, hp, rfl⟩
    have hq : pd.getRuleByKey A = some q := hq
    cases hr : ruleMeaning (elementsOf rs) rs n with
    | none => rw [h.undefined A n hA hr] at hq; cases hq
    | some r =>
      cases ho : overrideOf rs n with
      | none =>
        rw [h.plain A n r hA hr ho] at hq
        cases hq
        rw [(ruleMeaning_some hr).1] at hp
        obtain ⟨a, ha, rfl⟩ := List.mem_map.1 hp
        exact ⟨a, .plain ho ha, prodElems_altMeaning _ _⟩
      | some j =>
        by_cases hu : NameUsesStar rs j n
        · rw [h.own A n r j hA hr ho hu] at hq
          cases hq
          simp only [(ruleMeaning_some hr).1] at hp
          obtain ⟨a, ha, rfl⟩ := List.mem_map.1 hp
          exact ⟨a, .own ho hu ha, prodElems_altMeaning _ _⟩
        · rw [h.woven A n r j hA hr ho hu] at hq
          cases hq
          simp only [(ruleMeaning_some hr).1] at hp
          obtain ⟨p0, hp0, rfl⟩ := List.mem_map.1 hp
          obtain ⟨a, ha, rfl⟩ := List.mem_map.1 hp0
          exact ⟨_, .woven ho hu ha, hbt j a⟩
  · rintro ⟨a, ha, rfl⟩
    have hdef : ∀ {a}, a ∈ altsOf rs n → ∃ r, ruleMeaning (elementsOf rs) rs n = some r ∧
        altMeaning (elementsOf rs) a ∈ r.prods := by
      intro a ha
      obtain ⟨r, hr, hn, -⟩ := mem_altsOf.1 ha
      obtain ⟨q, hq⟩ := ruleMeaning_defined (keys := elementsOf rs) hr hn
      exact ⟨q, hq, by rw [(ruleMeaning_some hq).1]; exact List.mem_map.2 ⟨a, ha, rfl⟩⟩
    cases ha with
    | plain ho ha =>
      obtain ⟨r, hr, hm⟩ := hdef ha
      exact ⟨_, h.plain A n r hA hr ho, _, hm, prodElems_altMeaning _ _⟩
    | @own j _ ho hu ha =>
      obtain ⟨r, hr, hm⟩ := hdef ha
      exact ⟨_, h.own A n r j hA hr ho hu, _, hm, prodElems_altMeaning _ _⟩
    | @woven j a ho hu ha =>
      obtain ⟨r, hr, hm⟩ := hdef ha
      exact ⟨_, h.woven A n r j hA hr ho hu, _, List.mem_map.2 ⟨_, hm, rfl⟩, hbt j a⟩

theorem finalAlt_elements {n : Str} {a : List ElementVerbose} (ha : FinalAlt rs n a) : ∀ x ∈ a, x ∈ elementsOf rs := by
  have hmem : ∀ (i : ElementVerbose) (l : List ElementVerbose) (x : ElementVerbose), x ∈ between i l → x = i ∨ x ∈ l := by
    intro i l
    induction l with
    | nil => intro x hx; simp [between] at hx
    | cons y ys ih =>
      cases ys with
      | nil => intro x hx; simp [between] at hx; simp [hx]
      | cons z zs =>
        intro x hx
        simp only [between, List.mem_cons] at hx
        rcases hx with rfl | rfl | hx
        · simp
        · simp
        · rcases ih x hx with rfl | hx
          · simp
          · exact .inr (List.mem_cons_of_mem _ hx)
  intro x hx
  cases ha with
  | plain _ ha => exact mem_elementsOf_alt ha hx
  | own _ _ ha => exact mem_elementsOf_alt ha hx
  | woven ho _ ha =>
    rcases hmem _ _ x hx with rfl | hx
    · exact mem_elementsOf_override ho
    · exact mem_elementsOf_alt ha hx

/-- The index of an element in the tables of the data. -/
theorem InternOk.at_idx (hin : InternOk pd (elementsOf rs)) {x : ElementVerbose} (hx : x ∈ elementsOf rs) :
    pd.elementTypes[(elementsOf rs).idxOf x]? = some x.et ∧ pd.elementData[(elementsOf rs).idxOf x]? = some ⟨false, x.name⟩ := by
  rw [hin.types, hin.data, List.getElem?_map, List.getElem?_map, getElem?_idxOf hx]
  exact ⟨rfl, rfl⟩

theorem spells_of_forest (h : MeansWoven rs pd) (hin : InternOk pd (elementsOf rs)) {els : List Nat} {f : Forest} {s : Str}
    (hf : IsForest pd els f s) : ∀ a : List ElementVerbose, (∀ x ∈ a, x ∈ elementsOf rs) →
    els = (a.map fun x => (elementsOf rs).idxOf x) → Spells rs a s := by
  induction hf with
  | nil =>
    intro a _ ha
    cases a with
    | nil => exact .nil
    | cons x xs => cases ha
  | @leaf e es d f s ht hd _ ih =>
    intro a hel ha
    cases a with
    | nil => cases ha
    | cons x xs =>
      simp only [List.map_cons, List.cons.injEq] at ha
      obtain ⟨rfl, rfl⟩ := ha
      have hx := hin.at_idx (hel x (by simp))
      rw [ht] at hx; rw [hd] at hx
      obtain ⟨b, t⟩ := x
      simp only [Option.some.injEq] at hx
      obtain ⟨rfl, rfl⟩ := hx
      exact .terminal (ih xs (fun y hy => hel y (by simp [hy])) rfl)
  | @node A es r p kids f s1 s2 ht hr hp _ _ ih1 ih2 =>
    intro a hel ha
    cases a with
    | nil => cases ha
    | cons x xs =>
      simp only [List.map_cons, List.cons.injEq] at ha
      obtain ⟨rfl, rfl⟩ := ha
      have hx := hin.at_idx (hel x (by simp))
      rw [ht] at hx
      obtain ⟨n, t⟩ := x
      simp only [Option.some.injEq] at hx
      obtain ⟨rfl, -⟩ := hx
      obtain ⟨b, hb, hb'⟩ := (finalAlt_iff h (getElem?_idxOf (hel ⟨n, .nonTerminal⟩ (by simp))) (prodElems p)).1 ⟨r, hr, p, hp, rfl⟩
      exact .name hb (ih1 b (finalAlt_elements hb) hb') (ih2 xs (fun y hy => hel y (by simp [hy])) rfl)

theorem forest_of_spells (h : MeansWoven rs pd) (hin : InternOk pd (elementsOf rs)) {a : List ElementVerbose} {s : Str}
    (hs : Spells rs a s) : (∀ x ∈ a, x ∈ elementsOf rs) → ∃ f, IsForest pd (a.map fun x => (elementsOf rs).idxOf x) f s := by
  induction hs with
  | nil => intro _; exact ⟨.nil, .nil⟩
  | @terminal b es s _ ih =>
    intro hel
    obtain ⟨f, hf⟩ := ih (fun y hy => hel y (by simp [hy]))
    have hx := hin.at_idx (hel ⟨b, .terminal⟩ (by simp))
    exact ⟨_, .leaf hx.1 hx.2 hf⟩
  | @name n b es s s' hb _ _ ih1 ih2 =>
    intro hel
    obtain ⟨f, hf⟩ := ih2 (fun y hy => hel y (by simp [hy]))
    obtain ⟨k, hk⟩ := ih1 (finalAlt_elements hb)
    have hm := hel ⟨n, .nonTerminal⟩ (by simp)
    have hx := hin.at_idx hm
    obtain ⟨q, hq, p, hp, he⟩ := (finalAlt_iff h (getElem?_idxOf hm) _).2 ⟨b, hb, rfl⟩
    rw [← he] at hk
    exact ⟨_, .node hx.1 hq hp hk hf⟩

/-- The grammar read from a text describes the texts that the rules spell. -/
theorem spells_iff_forest (h : MeansWoven rs pd) (hin : InternOk pd (elementsOf rs)) {x : ElementVerbose} {i : Nat}
    (hi : (elementsOf rs)[i]? = some x) (s : Str) : (∃ f, IsForest pd [i] f s) ↔ Spells rs [x] s := by
  have hm : x ∈ elementsOf rs := List.mem_of_getElem? hi
  have : i = (elementsOf rs).idxOf x := hin.inj hi (getElem?_idxOf hm)
  subst this
  constructor
  · rintro ⟨f, hf⟩
    exact spells_of_forest h hin hf [x] (by simpa using hm) rfl
  · intro hs
    exact forest_of_spells h hin hs (by simpa using hm)

/-- The construction from a text is the construction from the data read from it. -/
theorem newFromText_ok {ho : HashOrder} {fuel : Nat} {cc : CharClass} {vm : VM I S} {text : Str} {P : Parser I}
    (h : Parser.newFromText ho fuel cc vm text = .ok P) :
    ∃ pd st, parseRules ho cc vm text = .ok pd ∧ pd.getElementNtIndex (c% "start") = some st ∧
      Parser.newFromParserData ho fuel pd st = .ok P := by
  simp only [Parser.newFromText] at h
  obtain ⟨pd, hpd, h⟩ := Res.bind_eq_ok.mp h
  obtain ⟨els, hels, h⟩ := Res.bind_eq_ok.mp h
  obtain ⟨fs, hfs, h⟩ := Res.bind_eq_ok.mp h
  obtain ⟨st, hst, h⟩ := Res.bind_eq_ok.mp h
  obtain ⟨fo, hfo, h⟩ := Res.bind_eq_ok.mp h
  obtain ⟨maps, hmaps, h⟩ := Res.bind_eq_ok.mp h
  refine ⟨pd, st, Res.unwrap_eq_ok.1 hpd, ?_, ?_⟩
  · cases hs : pd.getElementNtIndex (c% "start") with
    | none => rw [hs] at hst; cases hst
    | some x => rw [hs] at hst; cases hst; rfl
  · simp only [Parser.newFromParserData, hfs, hfo, hels, hmaps, Res.bind_ok]; exact h

/-- The converse. -/
theorem newFromText_eq {ho : HashOrder} {fuel : Nat} {cc : CharClass} {vm : VM I S} {text : Str} {pd : ParserData I}
    {st : Nat} {P : Parser I} (h : parseRules ho cc vm text = .ok pd) (hst : pd.getElementNtIndex (c% "start") = some st)
    (hP : Parser.newFromParserData ho fuel pd st = .ok P) : Parser.newFromText ho fuel cc vm text = .ok P := by
  simp only [Parser.newFromParserData] at hP
  obtain ⟨fs, hfs, hP⟩ := Res.bind_eq_ok.mp hP
  obtain ⟨fo, hfo, hP⟩ := Res.bind_eq_ok.mp hP
  obtain ⟨els, hels, hP⟩ := Res.bind_eq_ok.mp hP
  obtain ⟨maps, hmaps, hP⟩ := Res.bind_eq_ok.mp hP
  have hu : ((Res.ok pd : Res PErr (ParserData I)).unwrap : Res PErr (ParserData I)) = .ok pd := rfl
  simp only [Parser.newFromText, h, hu, hfs, hfo, hels, hmaps, hst, Res.unwrapO, Res.bind_ok]; exact hP

end
end HPP
