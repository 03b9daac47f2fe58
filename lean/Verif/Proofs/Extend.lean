import Verif.Spec.Extend
import Verif.Proofs.UnusedText
import Verif.Proofs.SameMeaning
import Mathlib.Data.List.Dedup
namespace HPP
open Spec
variable {I S : Type}

theorem Spec.Among.subset {α : Type} {a b : List α} (h : Among a b) {x : α} (hx : x ∈ a) : x ∈ b := by
  obtain ⟨l, h1, h2⟩ := h
  exact h2.mem_iff.1 (h1.subset hx)

theorem Spec.Among.map {α β : Type} {a b : List α} (h : Among a b) (f : α → β) : Among (a.map f) (b.map f) := by
  obtain ⟨l, h1, h2⟩ := h
  exact ⟨l.map f, h1.map f, h2.map f⟩

theorem Spec.Among.refl {α : Type} (a : List α) : Among a a := ⟨a, List.Sublist.refl _, List.Perm.refl _⟩

/-- What is missing. -/
theorem Spec.Among.rest {α : Type} {a b : List α} (h : Among a b) : ∃ d, (a ++ d).Perm b := by
  obtain ⟨l, h1, h2⟩ := h
  suffices ∃ d, (a ++ d).Perm l by
    obtain ⟨d, hd⟩ := this
    exact ⟨d, hd.trans h2⟩
  clear h2
  induction h1 with
  | slnil => exact ⟨[], List.Perm.refl _⟩
  | @cons l1 l2 x _ ih =>
    obtain ⟨d, hd⟩ := ih
    exact ⟨x :: d, List.perm_middle.trans (hd.cons x)⟩
  | @cons_cons l1 l2 x _ ih =>
    obtain ⟨d, hd⟩ := ih
    exact ⟨d, hd.cons x⟩

theorem among_append {α : Type} (a d : List α) : Among a (a ++ d) :=
  ⟨a ++ d, List.sublist_append_left _ _, List.Perm.refl _⟩

namespace Ext
variable {pd pd' : ParserData I} (h : Extends pd pd')
include h

theorem elemForm_eq (hw : WellFormed pd) {e : Nat} (he : e < pd.elementTypes.length) : elemForm pd' e = elemForm pd e := by
  simp only [elemForm, prefix_getElem?_lt h.kinds he, prefix_getElem?_lt h.data (hw.lengths ▸ he)]

theorem formOf_eq (hw : WellFormed pd) {es : List Nat} (he : ∀ e ∈ es, e < pd.elementTypes.length) :
    formOf pd' es = formOf pd es := by
  induction es with
  | nil => rfl
  | cons e es ih =>
    simp only [formOf, List.flatMap_cons] at ih ⊢
    rw [elemForm_eq h hw (he e (.head _)), ih (fun x hx => he x (.tail _ hx))]

theorem grammar_up (hw : WellFormed pd) {A : Nat} {w : Form} (hg : grammarOf pd A w) : grammarOf pd' A w := by
  obtain ⟨r, hr, p, hp, rfl⟩ := hg
  obtain ⟨r', hr', -, hs⟩ := h.rules A r hr
  exact ⟨r', hr', p, hs.subset hp, (formOf_eq h hw fun e he => hw.inRange A r hr p hp e he).symm⟩

theorem step_up (hw : WellFormed pd) {u v : Form} (hs : Step (grammarOf pd) u v) : Step (grammarOf pd') u v := by
  cases hs with
  | mk a b hg => exact .mk a b (grammar_up h hw hg)

theorem derives_up (hw : WellFormed pd) {u v : Form} (hs : Derives (grammarOf pd) u v) : Derives (grammarOf pd') u v :=
  Relation.ReflTransGen.mono (fun _ _ => step_up h hw) _ _ hs

theorem followMember_up (hw : WellFormed pd) {start A : Nat} {m : SetMember}
    (hm : FollowMember (grammarOf pd) start A m) : FollowMember (grammarOf pd') start A m := by
  cases m with
  | char c =>
    obtain ⟨B, u, v, ⟨w, hg⟩, hd⟩ := hm
    exact ⟨B, u, v, ⟨w, grammar_up h hw hg⟩, derives_up h hw hd⟩
  | terminate =>
    obtain ⟨u, hd⟩ := hm
    exact ⟨u, derives_up h hw hd⟩

theorem control_up (hw : WellFormed pd) {start A : Nat} {p : Production} {m : SetMember}
    (hm : Control pd start A p m) : Control pd' start A p m := by
  cases p with
  | empty => exact followMember_up h hw hm
  | notEmpty els =>
    cases els with
    | nil => exact hm
    | cons e es =>
      rcases hm with ⟨h1, d, c, h2, h3, h4⟩ | ⟨h1, h2⟩
      · exact .inl ⟨prefix_getElem? h.kinds h1, d, c, prefix_getElem? h.data h2, h3, h4⟩
      · refine .inr ⟨prefix_getElem? h.kinds h1, ?_⟩
        rcases h2 with ⟨c, hc, v, hv⟩ | ⟨h2, h3⟩
        · exact .inl ⟨c, hc, v, derives_up h hw hv⟩
        · exact .inr ⟨derives_up h hw h2, followMember_up h hw h3⟩

theorem acceptable (hw : WellFormed pd) {start : Nat} (hst : ∃ r, AMap.get pd.rules start = some r) (hd : AllDefined pd)
    (ha : Acceptable pd' start) : Acceptable pd start where
  startDefined := hst
  defined := hd
  noLeftRec := by
    rintro A ⟨v, hv⟩
    exact ha.noLeftRec A ⟨v, Relation.TransGen.mono (fun _ _ => step_up h hw) _ _ hv⟩
  noEmptyTerminal := by
    intro A r hr e es hp ht d hd
    obtain ⟨r', hr', -, hs⟩ := h.rules A r hr
    exact ha.noEmptyTerminal A r' hr' e es (hs.subset hp) (prefix_getElem? h.kinds ht) d (prefix_getElem? h.data hd)
  disjoint := by
    intro A r hr
    obtain ⟨r', hr', -, l, hl, hp⟩ := h.rules A r hr
    have h1 := ha.disjoint A r' hr'
    have h2 := (hp.pairwise_iff (R := fun p q => ∀ m, ¬ (Control pd' start A p m ∧ Control pd' start A q m))
      (fun {p q} hpq m hm => hpq m ⟨hm.2, hm.1⟩)).2 h1
    exact (h2.sublist hl).imp fun {p q} hpq m hm => hpq m ⟨control_up h hw hm.1, control_up h hw hm.2⟩

theorem topDown_up (hw : WellFormed pd) {start : Nat} {els : List Nat} {w r : Str} {f : Forest}
    (ht : TopDown pd start els w f r) : TopDown pd' start els w f r := by
  induction ht with
  | nil => exact .nil
  | leaf h1 h2 _ ih => exact .leaf (prefix_getElem? h.kinds h1) (prefix_getElem? h.data h2) ih
  | @node A _ rule p _ _ _ _ _ h1 h2 h3 h4 _ _ ih1 ih2 =>
    obtain ⟨r', hr', -, hs⟩ := h.rules A rule h2
    exact .node (prefix_getElem? h.kinds h1) hr' (hs.subset h3) (control_up h hw h4) ih1 ih2

theorem instrOf_eq {A : Nat} {r : NTRule I} (hr : AMap.get pd.rules A = some r) : instrOf pd' A = instrOf pd A := by
  obtain ⟨r', hr', hi, -⟩ := h.rules A r hr
  simp only [instrOf, hr, hr', hi]

theorem walk_up (vm : VM I S) {start : Nat} {els : List Nat} {w r : Str} {f : Forest}
    (ht : TopDown pd start els w f r) : ∀ {par : Option NodeId} {x y : Tree Str × S}, Walk vm pd par f x y →
      Walk vm pd' par f x y := by
  induction ht with
  | nil => intro par x y hx; cases hx; exact .nil
  | @leaf e es d w r f h1 h2 _ ih =>
    intro par x y hx
    cases hx with
    | leaf k1 k2 k3 =>
      have : nameOf pd' e = nameOf pd e := by simp only [nameOf, h2, prefix_getElem? h.data h2]
      exact .leaf (this ▸ k1) k2 (ih k3)
  | node h1 h2 h3 h4 _ _ ih1 ih2 =>
    intro par x y hx
    cases hx with
    | node k1 k2 k3 k4 => exact .node k1 (ih1 k2) (instrOf_eq h h2 ▸ k3) (ih2 k4)

end Ext

/-! ### Rule texts -/

section
variable {rs rs' us : List (WrittenRule I)} {pd pd' : ParserData I}

theorem filter_append_head {n : Str} {r : WrittenRule I} (hr : r ∈ rs) (hn : r.name = n) :
    ∃ d ds, rs.filter (fun r => decide (r.name = n)) = d :: ds := by
  have : r ∈ rs.filter (fun r => decide (r.name = n)) := List.mem_filter.2 ⟨hr, by simpa using hn⟩
  cases hf : rs.filter (fun r => decide (r.name = n)) with
  | nil => rw [hf] at this; cases this
  | cons d ds => exact ⟨d, ds, rfl⟩

theorem overrideOf_append {n : Str} {r : WrittenRule I} (hr : r ∈ rs) (hn : r.name = n) :
    overrideOf (rs ++ us) n = overrideOf rs n := by
  obtain ⟨d, ds, hf⟩ := filter_append_head hr hn
  simp only [overrideOf, List.filter_append, hf, List.cons_append]

theorem instrFor_append {n : Str} {r : WrittenRule I} (hr : r ∈ rs) (hn : r.name = n) :
    instrFor (rs ++ us) n = instrFor rs n := by
  obtain ⟨d, ds, hf⟩ := filter_append_head hr hn
  simp only [instrFor, List.filter_append, hf, List.cons_append]

theorem altsOf_append (n : Str) : altsOf (rs ++ us) n = altsOf rs n ++ altsOf us n := by
  simp only [altsOf, List.filter_append, List.flatMap_append]

theorem nameUses_append {n m : Str} (h : NameUses rs n m) : NameUses (rs ++ us) n m := by
  obtain ⟨a, ha, hm⟩ := h
  exact ⟨a, by rw [altsOf_append]; simp [ha], hm⟩

theorem nameUsesStar_append {n m : Str} (h : NameUsesStar rs n m) : NameUsesStar (rs ++ us) n m :=
  Relation.ReflTransGen.mono (fun _ _ => nameUses_append) _ _ h

/-- The data of a text and of the text with rules added at the end. -/
theorem extends_append (hign : ∀ n j, overrideOf rs n = some j → NameUsesStar (rs ++ us) j n → NameUsesStar rs j n)
    (hm : MeansWoven rs pd) (hin : InternOk pd (elementsOf rs)) (hm' : MeansWoven (rs ++ us) pd')
    (hin' : InternOk pd' (elementsOf (rs ++ us))) : Extends pd pd' := by
  obtain ⟨more, hmore⟩ := addAll_prefix (elementsOf rs) (us.flatMap WrittenRule.mentions)
  rw [← Untouched.elements_eq rs us] at hmore
  have hidx : ∀ {e : ElementVerbose}, e ∈ elementsOf rs → (elementsOf (rs ++ us)).idxOf e = (elementsOf rs).idxOf e := by
    intro e he
    rw [hmore, List.idxOf_append, if_pos he]
  refine ⟨?_, ?_, ?_⟩
  · rw [hin.types, hin'.types, hmore, List.map_append]; exact List.prefix_append _ _
  · rw [hin.data, hin'.data, hmore, List.map_append]; exact List.prefix_append _ _
  · intro A r hr
    obtain ⟨n, q, hn, hq⟩ := MeansWoven.rule_name hm hr
    have hn' : (elementsOf (rs ++ us))[A]? = some ⟨n, .nonTerminal⟩ := by
      rw [hmore, List.getElem?_append_left (List.getElem?_eq_some_iff.1 hn).1]; exact hn
    obtain ⟨d, hd, hdn⟩ := ruleMeaning_isDefined hq
    obtain ⟨q', hq'⟩ := ruleMeaning_defined (keys := elementsOf (rs ++ us)) (rs := rs ++ us) (List.mem_append.2 (.inl hd)) hdn
    have hinstr : q'.instr = q.instr := by
      rw [ruleMeaning_instrFor hq', ruleMeaning_instrFor hq, instrFor_append hd hdn]
    obtain ⟨hp, -⟩ := ruleMeaning_some hq
    obtain ⟨hp', -⟩ := ruleMeaning_some hq'
    have hprods : Among q.prods q'.prods := by
      rw [hp, hp', altsOf_append, List.map_append]
      have : (altsOf rs n).map (altMeaning (elementsOf (rs ++ us))) = (altsOf rs n).map (altMeaning (elementsOf rs)) := by
        refine List.map_congr_left fun a ha => ?_
        simp only [altMeaning]
        congr 1
        exact List.map_congr_left fun e he => hidx (mem_elementsOf_alt ha he)
      rw [this]
      exact among_append _ _
    have hr' : pd.getRuleByKey A = some r := hr
    cases ho : overrideOf rs n with
    | none =>
      have h1 := hm.plain A n q hn hq ho
      rw [hr'] at h1
      cases h1
      exact ⟨q', hm'.plain A n q' hn' hq' (by rw [overrideOf_append hd hdn, ho]), hinstr, hprods⟩
    | some j =>
      have ho' : overrideOf (rs ++ us) n = some j := by rw [overrideOf_append hd hdn, ho]
      by_cases hu : NameUsesStar rs j n
      · have h1 := hm.own A n q j hn hq ho hu
        rw [hr'] at h1
        cases h1
        exact ⟨_, hm'.own A n q' j hn' hq' ho' (nameUsesStar_append hu), hinstr, hprods⟩
      · have h1 := hm.woven A n q j hn hq ho hu
        rw [hr'] at h1
        cases h1
        refine ⟨_, hm'.woven A n q' j hn' hq' ho' (fun hc => hu (hign n j ho hc)), hinstr, ?_⟩
        rw [hidx (mem_elementsOf_override ho)]
        exact hprods.map _

/-! Any extension is, up to `SameMeaning`, an extension at the end. -/

/-- Definitions with one alternative each. -/
def singles (d : Str → List (List ElementVerbose)) (names : List Str) : List (WrittenRule I) :=
  names.flatMap fun n => (d n).map fun a => ⟨n, none, [a], []⟩

theorem altsOf_singles (d : Str → List (List ElementVerbose)) {names : List Str} (hn : names.Nodup) (m : Str) :
    altsOf (singles d names : List (WrittenRule I)) m = if m ∈ names then d m else [] := by
  have hone : ∀ n, altsOf ((d n).map fun a => (⟨n, none, [a], []⟩ : WrittenRule I)) m = if n = m then d n else [] := by
    intro n
    generalize d n = l
    unfold altsOf
    by_cases hnm : n = m
    · rw [if_pos hnm, List.filter_eq_self.2 (by simp [hnm])]
      induction l with
      | nil => rfl
      | cons a l ih => simp only [List.map_cons, List.flatMap_cons, ih]; rfl
    · rw [if_neg hnm, List.filter_eq_nil_iff.2 (by simp [hnm])]; rfl
  induction names with
  | nil => rfl
  | cons n names ih =>
    rw [List.nodup_cons] at hn
    have : (singles d (n :: names) : List (WrittenRule I)) = (d n).map (fun a => ⟨n, none, [a], []⟩) ++ singles d names := by
      simp [singles]
    rw [this, altsOf_append, hone, ih hn.2]
    by_cases hnm : n = m
    · subst hnm
      rw [if_pos rfl, if_neg hn.1]
      simp
    · rw [if_neg hnm]
      simp only [List.nil_append, List.mem_cons]
      by_cases hm : m ∈ names
      · rw [if_pos hm, if_pos (.inr hm)]
      · rw [if_neg hm, if_neg (by rintro (h | h); exact hnm h.symm; exact hm h)]

theorem mem_singles {d : Str → List (List ElementVerbose)} {names : List Str} {r : WrittenRule I} (hr : r ∈ singles d names) :
    ∃ n ∈ names, ∃ a ∈ d n, r = ⟨n, none, [a], []⟩ := by
  obtain ⟨n, hn, hr⟩ := List.mem_flatMap.1 hr
  obtain ⟨a, ha, rfl⟩ := List.mem_map.1 hr
  exact ⟨n, hn, a, ha, rfl⟩

theorem altsText_each {cc : CharClass} {alts : List (List ElementVerbose)} {t : Str} (h : AltsText cc alts t) :
    ∀ a ∈ alts, ∃ u, AltText cc a u := by
  induction h with
  | one h1 => intro a ha; rw [List.mem_singleton] at ha; subst ha; exact ⟨_, h1⟩
  | cons h1 _ _ _ ih =>
    intro a ha
    rcases List.mem_cons.1 ha with rfl | ha
    · exact ⟨_, h1⟩
    · exact ih a ha

theorem isSpace_empty : IsSpace [] := by intro c hc; cases hc

/-- Every alternative of a rule with a text can be a rule of its own. -/
theorem Spec.RuleText.single {cc : CharClass} {Sec : Str → Str → List I → Prop} {r : WrittenRule I} {t : Str}
    (h : RuleText cc Sec r t) : ∀ a ∈ r.alts, ∃ u, RuleText cc Sec ⟨r.name, none, [a], []⟩ u := by
  cases h with
  | mk h1 _ _ _ _ h6 _ _ _ =>
    intro a ha
    obtain ⟨u, hu⟩ := altsText_each h6 a ha
    exact ⟨_, .mk h1 isSpace_empty isSpace_empty .absent isSpace_empty (.one hu) isSpace_empty .absent isSpace_empty⟩

theorem renamed_id' (e : ElementVerbose) : renamed id e = e := by
  obtain ⟨n, t⟩ := e
  cases t <;> rfl

theorem map_renamed_id (l : List (List ElementVerbose)) : l.map (List.map (renamed id)) = l := by
  have : renamed id = (id : ElementVerbose → _) := funext renamed_id'
  rw [this]; simp

/-- An extension of `rs` has the same meaning as `rs` with rules added at the end, and these have texts. -/
theorem Spec.ExtendsRules.append (h : ExtendsRules rs rs') {cc : CharClass} {Sec : Str → Str → List I → Prop}
    (hr : ∀ r ∈ rs, ∃ t, RuleText cc Sec r t) (hr' : ∀ r ∈ rs', ∃ t, RuleText cc Sec r t) :
    ∃ us, SameMeaning id rs' (rs ++ us) ∧ ∀ u ∈ us, ∃ t, RuleText cc Sec u t := by
  classical
  obtain ⟨d, hd⟩ := Classical.axiomOfChoice (fun n => (h.alts n).rest)
  let isDef : Str → Prop := fun n => ∃ r ∈ rs, r.name = n
  let news := rs'.filter fun r => decide (¬ isDef r.name)
  let names := (rs.map (·.name)).dedup
  have hmem : ∀ n, n ∈ names ↔ isDef n := by
    intro n
    simp only [names, List.mem_dedup, List.mem_map, isDef]
  have hnews1 : ∀ n, isDef n → news.filter (fun r => decide (r.name = n)) = [] := by
    intro n hn
    rw [List.filter_eq_nil_iff]
    intro r hr hc
    have := of_decide_eq_true hc
    subst this
    exact (of_decide_eq_true (List.mem_filter.1 hr).2) hn
  have hnews2 : ∀ n, ¬ isDef n → news.filter (fun r => decide (r.name = n)) = rs'.filter (fun r => decide (r.name = n)) := by
    intro n hn
    simp only [news, List.filter_filter]
    refine List.filter_congr fun r _ => ?_
    by_cases hrn : r.name = n
    · subst hrn; simp [hn]
    · simp [hrn]
  have hrs : ∀ n, ¬ isDef n → rs.filter (fun r => decide (r.name = n)) = [] := by
    intro n hn
    rw [List.filter_eq_nil_iff]
    intro r hr hc
    exact hn ⟨r, hr, of_decide_eq_true hc⟩
  have hsing : ∀ n, ¬ isDef n → (singles d names : List (WrittenRule I)).filter (fun r => decide (r.name = n)) = [] := by
    intro n hn
    rw [List.filter_eq_nil_iff]
    intro r hr hc
    obtain ⟨m, hm, a, -, rfl⟩ := mem_singles hr
    have := of_decide_eq_true hc
    simp only at this
    subst this
    exact hn ((hmem _).1 hm)
  have hfil : ∀ n, ¬ isDef n → (rs ++ (news ++ singles d names)).filter (fun r => decide (r.name = n)) =
      rs'.filter (fun r => decide (r.name = n)) := by
    intro n hn
    rw [List.filter_append, List.filter_append, hrs n hn, hnews2 n hn, hsing n hn]
    simp
  refine ⟨news ++ singles d names, ⟨fun _ _ hx => hx, rfl, ?_, fun r _ => ⟨r.name, rfl⟩, ?_, ?_, ?_⟩, ?_⟩
  · intro n
    simp only [id_eq]
    by_cases hn : isDef n
    · refine ⟨fun _ => ?_, fun _ => ?_⟩
      · obtain ⟨r, hr, rfl⟩ := hn
        exact h.defined r hr
      · obtain ⟨r, hr, hrn⟩ := hn
        exact ⟨r, by simp [hr], hrn⟩
    · have := hfil n hn
      constructor
      · rintro ⟨r, hr, hrn⟩
        have hx : r ∈ rs'.filter (fun r => decide (r.name = n)) := by
          rw [← this]; exact List.mem_filter.2 ⟨hr, by simpa using hrn⟩
        exact ⟨r, (List.mem_filter.1 hx).1, hrn⟩
      · rintro ⟨r, hr, hrn⟩
        have hx : r ∈ (rs ++ (news ++ (singles d names : List (WrittenRule I)))).filter (fun r : WrittenRule I => decide (r.name = n)) := by
          rw [this]; exact List.mem_filter.2 ⟨hr, by simpa using hrn⟩
        exact ⟨r, (List.mem_filter.1 hx).1, hrn⟩
  · intro n
    rw [map_renamed_id, id_eq]
    by_cases hn : isDef n
    · rw [altsOf_append, altsOf_append, altsOf_singles d (List.nodup_dedup _), if_pos ((hmem n).2 hn)]
      have : altsOf news n = [] := by simp only [altsOf, hnews1 n hn]; rfl
      rw [this, List.nil_append]
      exact hd n
    · simp only [altsOf, hfil n hn]
      exact List.Perm.refl _
  · intro n
    simp only [id_eq, Option.map_id_fun]
    by_cases hn : isDef n
    · obtain ⟨r, hr, rfl⟩ := hn
      rw [overrideOf_append hr rfl, h.override r hr]
    · simp only [overrideOf, hfil n hn]
  · intro n
    simp only [id_eq]
    by_cases hn : isDef n
    · obtain ⟨r, hr, rfl⟩ := hn
      rw [instrFor_append hr rfl, h.instr r hr]
    · simp only [instrFor, hfil n hn]
  · intro u hu
    rcases List.mem_append.1 hu with hu | hu
    · exact hr' u (List.mem_filter.1 hu).1
    · obtain ⟨n, hn, a, ha, rfl⟩ := mem_singles hu
      have : a ∈ altsOf rs' n := (hd n).mem_iff.1 (List.mem_append.2 (.inr ha))
      obtain ⟨r, hr, har⟩ := List.mem_flatMap.1 this
      obtain ⟨hr1, hr2⟩ := List.mem_filter.1 hr
      have hrn := of_decide_eq_true hr2
      obtain ⟨t, ht⟩ := hr' r hr1
      have := ht.single a har
      rwa [hrn] at this

end
end HPP
