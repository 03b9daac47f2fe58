import Verif.Spec.Printing
import Verif.Spec.Renaming
import Verif.Proofs.SameRules
namespace HPP
open Spec
variable {I S : Type} {cc : CharClass}

theorem blank_isSpace : IsSpace (c% " ") := by
  intro c hc
  simp only [List.mem_cons, List.not_mem_nil, or_false] at hc
  subst hc; decide

theorem newline_isSpace : IsSpace (c% "\n") := by
  intro c hc
  simp only [List.mem_cons, List.not_mem_nil, or_false] at hc
  subst hc; decide

theorem showElem_text {e : ElementVerbose} (h : WritableElem cc e) : ElemText cc e (showElem e) := by
  obtain ⟨n, t⟩ := e
  cases t with
  | terminal => exact .terminal h
  | nonTerminal => exact .name h

theorem showSeq_text : ∀ {es : List ElementVerbose}, es ≠ [] → (∀ e ∈ es, WritableElem cc e) → SeqText cc es (showSeq es)
  | [], h, _ => absurd rfl h
  | [e], _, h => .one (showElem_text (h e (.head _)))
  | e :: e' :: es, _, h =>
    .cons (showElem_text (h e (.head _))) blank_isSpace (fun _ _ => by simp)
      (showSeq_text (by simp) fun x hx => h x (.tail _ hx))

theorem showAlt_text {a : List ElementVerbose} (h : ∀ e ∈ a, WritableElem cc e) : AltText cc a (showAlt a) := by
  unfold showAlt
  by_cases ha : a = []
  · subst ha; rw [if_pos rfl]; exact .empty
  · rw [if_neg ha]; exact .seq (showSeq_text ha h)

theorem showAlts_text : ∀ {as : List (List ElementVerbose)}, as ≠ [] → (∀ a ∈ as, ∀ e ∈ a, WritableElem cc e) →
    AltsText cc as (showAlts as)
  | [], h, _ => absurd rfl h
  | [a], _, h => .one (showAlt_text (h a (.head _)))
  | a :: a' :: as, _, h =>
    .cons (showAlt_text (h a (.head _))) blank_isSpace blank_isSpace
      (showAlts_text (by simp) fun x hx => h x (.tail _ hx))

theorem showRule_text {Sec : Str → Str → List I → Prop} {sec : Str → List I → Str} {r : WrittenRule I}
    (h : WritableRule cc Sec sec r) : RuleText cc Sec r (showRule sec r) := by
  obtain ⟨n, ign, alts, instr⟩ := r
  obtain ⟨h1, h2, h3, h4, h5⟩ := h
  unfold showRule
  refine .mk h1 blank_isSpace blank_isSpace ?_ blank_isSpace (showAlts_text h3 h4) blank_isSpace ?_ isSpace_nil
  · cases ign with
    | none => exact .absent
    | some m => exact .name isSpace_nil (h2 m rfl)
  · cases instr with
    | nil => exact .absent
    | cons i is =>
      obtain ⟨a, b⟩ := h5 (by simp)
      exact .given isSpace_nil b a

theorem showRules_text {Sec : Str → Str → List I → Prop} {sec : Str → List I → Str} {rs : List (WrittenRule I)}
    (h : ∀ r ∈ rs, WritableRule cc Sec sec r) : RulesText cc Sec rs (showRules sec rs) := by
  induction rs with
  | nil => exact .nil newline_isSpace
  | cons r rs ih => exact .cons newline_isSpace (showRule_text (h r (.head _))) (ih fun x hx => h x (.tail _ hx))

/-! ### grammar data and their text -/

section data
variable {pd pd' : ParserData I}

theorem keyOf_some {e : Nat} {k : ElementVerbose} (h : pd.getElementVerbose e = some k) : keyOf pd e = k := by
  simp [keyOf, h]

theorem verbose_of_lt (hl : pd.elementTypes.length = pd.elementData.length) {e : Nat} (he : e < pd.elementTypes.length) :
    pd.getElementVerbose e = some (keyOf pd e) ∧ pd.elementTypes[e]? = some (keyOf pd e).et ∧
    (pd.elementData[e]?).map (·.name) = some (keyOf pd e).name := by
  have he' : e < pd.elementData.length := by omega
  have : pd.getElementVerbose e = some ⟨pd.elementData[e].name, pd.elementTypes[e]⟩ := by
    simp [ParserData.getElementVerbose, List.getElem?_eq_getElem he, List.getElem?_eq_getElem he']
  rw [keyOf_some this]
  exact ⟨this, by rw [List.getElem?_eq_getElem he], by rw [List.getElem?_eq_getElem he']; rfl⟩

theorem verbose_lt {e : Nat} {k : ElementVerbose} (h : pd.getElementVerbose e = some k) : e < pd.elementTypes.length := by
  simp only [ParserData.getElementVerbose] at h
  cases h1 : pd.elementTypes[e]? with
  | none => rw [h1] at h; cases h2 : pd.elementData[e]? <;> simp [h2] at h
  | some t => exact (List.getElem?_eq_some_iff.1 h1).1

theorem mem_rulesOf {r : WrittenRule I} : r ∈ rulesOf pd ↔ ∃ A q, (A, q) ∈ pd.rules ∧
    r = ⟨(keyOf pd A).name, none, q.prods.map fun p => (prodElems p).map (keyOf pd), q.instr⟩ := by
  simp only [rulesOf, List.mem_map, Prod.exists]
  constructor
  · rintro ⟨A, q, h, rfl⟩; exact ⟨A, q, h, rfl⟩
  · rintro ⟨A, q, h, rfl⟩; exact ⟨A, q, h, rfl⟩

/-- The number an element gets when the text of the data is read. -/
def showNumber (pd : ParserData I) (e : Nat) : Nat :=
  if keyOf pd e ∈ elementsOf (rulesOf pd) ∧ e < pd.elementTypes.length then (elementsOf (rulesOf pd)).idxOf (keyOf pd e)
  else (elementsOf (rulesOf pd)).length + e

theorem overrideOf_rulesOf (n : Str) : overrideOf (rulesOf pd) n = none := by
  unfold overrideOf
  split
  · rfl
  · next d ds h =>
    have hd : d ∈ rulesOf pd := by
      have : d ∈ (rulesOf pd).filter (fun r => decide (r.name = n)) := by rw [h]; exact .head _
      exact (List.mem_filter.1 this).1
    obtain ⟨A, q, -, rfl⟩ := mem_rulesOf.1 hd
    rfl

theorem ignoresDefined_rulesOf : IgnoresDefined (rulesOf pd) := by
  intro n j m h
  rw [overrideOf_rulesOf] at h; cases h

variable (hw : WellFormed pd) (hd : DistinctElements pd)
include hw hd

/-- The definitions of the name of a rule: just that rule. -/
theorem filter_rulesOf {A : Nat} {q : NTRule I} (hq : AMap.get pd.rules A = some q) :
    (rulesOf pd).filter (fun r => decide (r.name = (keyOf pd A).name)) =
      [⟨(keyOf pd A).name, none, q.prods.map fun p => (prodElems p).map (keyOf pd), q.instr⟩] := by
  have key : ∀ l : List (Nat × NTRule I), (∀ x ∈ l, AMap.get pd.rules x.1 = some x.2) → (l.map (·.1)).Nodup →
      ((l.map fun x => (⟨(keyOf pd x.1).name, none, x.2.prods.map fun p => (prodElems p).map (keyOf pd), x.2.instr⟩ : WrittenRule I)).filter
        (fun r => decide (r.name = (keyOf pd A).name))) =
      if A ∈ l.map (·.1) then
        [⟨(keyOf pd A).name, none, q.prods.map fun p => (prodElems p).map (keyOf pd), q.instr⟩] else [] := by
    intro l
    induction l with
    | nil => intros; rfl
    | cons x l ih =>
      intro hm hn
      rw [List.map_cons, List.nodup_cons] at hn
      have ih := ih (fun y hy => hm y (.tail _ hy)) hn.2
      have hx := hm x (.head _)
      by_cases hxA : x.1 = A
      · have hA : A ∉ l.map (·.1) := by rw [← hxA]; exact hn.1
        rw [if_neg hA] at ih
        rw [List.map_cons, List.filter_cons, ih]
        rw [hxA, hq] at hx
        cases hx
        rw [hxA, if_pos (decide_eq_true rfl), if_pos (List.mem_map.2 ⟨x, .head _, hxA⟩)]
      · have hne : (keyOf pd x.1).name ≠ (keyOf pd A).name := by
          intro he
          have h1 := hw.keysNT _ _ hx
          have h2 := hw.keysNT _ _ hq
          obtain ⟨a1, a2, -⟩ := verbose_of_lt hw.lengths (List.getElem?_eq_some_iff.1 h1).1
          obtain ⟨b1, b2, -⟩ := verbose_of_lt hw.lengths (List.getElem?_eq_some_iff.1 h2).1
          rw [h1] at a2; rw [h2] at b2
          have : keyOf pd x.1 = keyOf pd A := by
            generalize keyOf pd x.1 = k1 at *
            generalize keyOf pd A = k2 at *
            obtain ⟨n1, t1⟩ := k1
            obtain ⟨n2, t2⟩ := k2
            simp only [Option.some.injEq] at a2 b2 he
            rw [← a2, ← b2, he]
          rw [this] at a1
          exact hxA (hd _ _ _ a1 b1)
        rw [List.map_cons, List.filter_cons, if_neg (by simpa using hne), ih]
        have : (A ∈ (x :: l).map (·.1)) ↔ A ∈ l.map (·.1) := by
          rw [List.map_cons, List.mem_cons]
          exact ⟨fun h => h.resolve_left fun h => hxA h.symm, .inr⟩
        by_cases hA : A ∈ l.map (·.1)
        · rw [if_pos hA, if_pos (this.2 hA)]
        · rw [if_neg hA, if_neg fun h => hA (this.1 h)]
  have := key pd.rules (fun x hx => AMap.get_of_mem hw.rulesNodup hx) hw.rulesNodup
  rw [if_pos] at this
  · exact this
  · exact AMap.mem_keys_iff.2 ⟨q, hq⟩

theorem ruleMeaning_rulesOf {A : Nat} {q : NTRule I} (hq : AMap.get pd.rules A = some q) (keys : List ElementVerbose) :
    ruleMeaning keys (rulesOf pd) (keyOf pd A).name =
      some ⟨q.prods.map fun p => altMeaning keys ((prodElems p).map (keyOf pd)), none, q.instr⟩ := by
  unfold ruleMeaning
  rw [filter_rulesOf hw hd hq]
  simp [List.map_map, Function.comp_def]

theorem rule_key {A : Nat} {q : NTRule I} (hq : AMap.get pd.rules A = some q) :
    keyOf pd A = ⟨(keyOf pd A).name, .nonTerminal⟩ ∧ A < pd.elementTypes.length ∧ keyOf pd A ∈ elementsOf (rulesOf pd) := by
  have h1 := hw.keysNT _ _ hq
  have hlt := (List.getElem?_eq_some_iff.1 h1).1
  obtain ⟨a1, a2, -⟩ := verbose_of_lt hw.lengths hlt
  rw [h1] at a2
  have he : keyOf pd A = ⟨(keyOf pd A).name, .nonTerminal⟩ := by
    generalize keyOf pd A = k at *
    obtain ⟨n, t⟩ := k
    simp only [Option.some.injEq] at a2
    rw [← a2]
  refine ⟨he, hlt, ?_⟩
  have hm : (A, q) ∈ pd.rules := AMap.mem_of_get hq
  refine mem_elementsOf (mem_rulesOf.2 ⟨A, q, hm, rfl⟩) ?_
  rw [he]
  exact .head _

theorem occurs_key {e : Nat} (h : Occurs pd e) : e < pd.elementTypes.length ∧ keyOf pd e ∈ elementsOf (rulesOf pd) := by
  obtain ⟨A, q, p, hq, hp, he⟩ := h
  refine ⟨hw.inRange A q hq p hp e he, ?_⟩
  refine mem_elementsOf (mem_rulesOf.2 ⟨A, q, AMap.mem_of_get hq, rfl⟩) ?_
  simp only [WrittenRule.mentions, List.mem_cons, List.mem_append, List.mem_flatten]
  exact .inr (.inr ⟨_, List.mem_map.2 ⟨p, hp, rfl⟩, List.mem_map.2 ⟨e, he, rfl⟩⟩)

theorem showNumber_at {e : Nat} (hlt : e < pd.elementTypes.length) (hk : keyOf pd e ∈ elementsOf (rulesOf pd)) :
    showNumber pd e = (elementsOf (rulesOf pd)).idxOf (keyOf pd e) ∧
    (elementsOf (rulesOf pd))[showNumber pd e]? = some (keyOf pd e) := by
  have : showNumber pd e = (elementsOf (rulesOf pd)).idxOf (keyOf pd e) := by
    unfold showNumber; rw [if_pos ⟨hk, hlt⟩]
  exact ⟨this, by rw [this]; exact getElem?_idxOf hk⟩

theorem showNumber_inj (a b : Nat) (hab : showNumber pd a = showNumber pd b) : a = b := by
  by_cases ha : keyOf pd a ∈ elementsOf (rulesOf pd) ∧ a < pd.elementTypes.length
  · obtain ⟨-, h1⟩ := showNumber_at hw hd ha.2 ha.1
    by_cases hb : keyOf pd b ∈ elementsOf (rulesOf pd) ∧ b < pd.elementTypes.length
    · obtain ⟨-, h2⟩ := showNumber_at hw hd hb.2 hb.1
      rw [hab, h2] at h1
      have h3 := (verbose_of_lt hw.lengths ha.2).1
      have h4 := (verbose_of_lt hw.lengths hb.2).1
      rw [Option.some.inj h1] at h4
      exact hd _ _ _ h3 h4
    · have h2 : showNumber pd b = (elementsOf (rulesOf pd)).length + b := by unfold showNumber; rw [if_neg hb]
      rw [hab, h2] at h1
      rw [List.getElem?_eq_none (by omega)] at h1; cases h1
  · have h1 : showNumber pd a = (elementsOf (rulesOf pd)).length + a := by unfold showNumber; rw [if_neg ha]
    by_cases hb : keyOf pd b ∈ elementsOf (rulesOf pd) ∧ b < pd.elementTypes.length
    · obtain ⟨-, h2⟩ := showNumber_at hw hd hb.2 hb.1
      rw [← hab, h1, List.getElem?_eq_none (by omega)] at h2; cases h2
    · have h2 : showNumber pd b = (elementsOf (rulesOf pd)).length + b := by unfold showNumber; rw [if_neg hb]
      omega

theorem prod_shown {A : Nat} {q : NTRule I} (hq : AMap.get pd.rules A = some q) {p : Production} (hp : p ∈ q.prods) :
    altMeaning (elementsOf (rulesOf pd)) ((prodElems p).map (keyOf pd)) = renumber (showNumber pd) p := by
  have hmap : ((prodElems p).map (keyOf pd)).map (fun e => (elementsOf (rulesOf pd)).idxOf e) = (prodElems p).map (showNumber pd) := by
    rw [List.map_map]
    apply List.map_congr_left
    intro e he
    obtain ⟨h1, h2⟩ := occurs_key hw hd ⟨A, q, p, hq, hp, he⟩
    exact (showNumber_at hw hd h1 h2).1.symm
  unfold altMeaning
  rw [hmap]
  have hne := hw.nonEmpty A q hq p hp
  cases p with
  | empty => rfl
  | notEmpty els =>
    cases els with
    | nil => exact absurd rfl hne
    | cons e es => rfl

/-- Reading the text of the data gives the data back, up to numbering. -/
theorem show_renumbered (hm : MeansWoven (rulesOf pd) pd') (hin : InternOk pd' (elementsOf (rulesOf pd))) :
    Renumbered (showNumber pd) pd pd' := by
  refine ⟨showNumber_inj hw hd, ?_, ?_, ?_, ?_⟩
  · intro e ho
    obtain ⟨h1, h2⟩ := occurs_key hw hd ho
    rw [hin.types, List.getElem?_map, (showNumber_at hw hd h1 h2).2, (verbose_of_lt hw.lengths h1).2.1]
    rfl
  · intro e ho _
    obtain ⟨h1, h2⟩ := occurs_key hw hd ho
    rw [hin.data, List.getElem?_map, (showNumber_at hw hd h1 h2).2, (verbose_of_lt hw.lengths h1).2.2]
    rfl
  · intro A q hq
    obtain ⟨h1, h2, h3⟩ := rule_key hw hd hq
    have hat := (showNumber_at hw hd h2 h3).2
    rw [h1] at hat
    refine ⟨_, hm.plain _ _ _ hat (ruleMeaning_rulesOf hw hd hq _) (overrideOf_rulesOf _), rfl, ?_⟩
    apply List.Perm.of_eq
    apply List.map_congr_left
    intro p hp
    exact prod_shown hw hd hq hp
  · intro A' r' hr'
    have hr2 : pd'.getRuleByKey A' = some r' := hr'
    have hx : ∃ n, (elementsOf (rulesOf pd))[A']? = some ⟨n, .nonTerminal⟩ := by
      apply Classical.byContradiction
      intro hx
      rw [hm.noName A' (fun n hn => hx ⟨n, hn⟩)] at hr2; cases hr2
    obtain ⟨n, hn⟩ := hx
    cases hf : (rulesOf pd).filter (fun r => decide (r.name = n)) with
    | nil =>
      have : ruleMeaning (elementsOf (rulesOf pd)) (rulesOf pd) n = none := by simp only [ruleMeaning, hf]
      rw [hm.undefined A' n hn this] at hr2; cases hr2
    | cons d ds =>
      have hd' : d ∈ (rulesOf pd).filter (fun r => decide (r.name = n)) := by rw [hf]; exact .head _
      obtain ⟨h1, h2⟩ := List.mem_filter.1 hd'
      obtain ⟨A, q, hq, rfl⟩ := mem_rulesOf.1 h1
      have hq' := AMap.get_of_mem hw.rulesNodup hq
      simp only [decide_eq_true_eq] at h2
      obtain ⟨k1, k2, k3⟩ := rule_key hw hd hq'
      have hat := (showNumber_at hw hd k2 k3).2
      rw [k1, h2] at hat
      exact ⟨A, q, hin.inj hn hat, hq'⟩

end data
end HPP
