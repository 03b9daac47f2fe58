import Verif.Proofs.RuleComplete
import Verif.Proofs.Edit
/-
Merging rules; the loop over rules.
-/
namespace HPP
open Spec
variable {I S : Type}

theorem elementsOf_eq (rs : List (WrittenRule I)) : elementsOf rs = addAll [] (rs.flatMap WrittenRule.mentions) :=
  firstOccurrences_eq _

theorem elementsOf_snoc (rs : List (WrittenRule I)) (r : WrittenRule I) :
    elementsOf (rs ++ [r]) = addAll (elementsOf rs) r.mentions := by
  rw [elementsOf_eq, elementsOf_eq, List.flatMap_append, addAll_append]
  simp

theorem mem_elementsOf {rs : List (WrittenRule I)} {r : WrittenRule I} (hr : r ∈ rs) {e : ElementVerbose}
    (he : e ∈ r.mentions) : e ∈ elementsOf rs := by
  rw [elementsOf_eq]
  exact mem_addAll.2 (.inr (List.mem_flatMap.2 ⟨r, hr, he⟩))

/-- The name of a non-terminal number. -/
def ntName (keys : List ElementVerbose) (i : Nat) : Option Str :=
  match keys[i]? with
  | some ⟨n, .nonTerminal⟩ => some n
  | _ => none

theorem ntName_eq {keys : List ElementVerbose} {i : Nat} {n : Str} :
    ntName keys i = some n ↔ keys[i]? = some ⟨n, .nonTerminal⟩ := by
  unfold ntName
  split
  · next m h => rw [h]; simp
  · next h =>
    constructor
    · intro h'; cases h'
    · intro h'; exact absurd h' (h n)

/-- `pd` holds what the rules `rs` mean, before weaving. -/
structure MeansOk (pd : ParserData I) (rs : List (WrittenRule I)) : Prop where
  ok : InternOk pd (elementsOf rs)
  ignore : pd.ignore = none
  nodup : AMap.NodupKeys pd.rules
  rules : ∀ i, AMap.get pd.rules i = (ntName (elementsOf rs) i).bind (ruleMeaning (elementsOf rs) rs)

theorem MeansOk.new : MeansOk (ParserData.new : ParserData I) [] :=
  ⟨InternOk.new, rfl, AMap.NodupKeys.nil, by intro i; simp [ParserData.new, ntName, elementsOf, firstOccurrences]⟩

theorem ruleMeaning_none {keys : List ElementVerbose} {rs : List (WrittenRule I)} {n : Str}
    (h : ∀ r ∈ rs, r.name ≠ n) : ruleMeaning keys rs n = none := by
  have : rs.filter (fun r => decide (r.name = n)) = [] := by
    rw [List.filter_eq_nil_iff]
    intro r hr
    simpa using h r hr
  simp [ruleMeaning, this]

theorem ruleMeaning_addAll {keys ks : List ElementVerbose} {rs : List (WrittenRule I)} {n : Str}
    (h : ∀ r ∈ rs, ∀ e ∈ r.mentions, e ∈ keys) : ruleMeaning (addAll keys ks) rs n = ruleMeaning keys rs n := by
  unfold ruleMeaning
  split
  · rfl
  · next d ds hf =>
    have hall : ∀ r ∈ d :: ds, written (addAll keys ks) r = written keys r := by
      intro r hr
      have : r ∈ rs := by rw [← hf] at hr; exact (List.mem_filter.1 hr).1
      exact written_addAll (h r this) ks
    congr 2
    · rw [List.flatMap_def, List.flatMap_def]
      congr 1
      exact List.map_congr_left fun r hr => congrArg NTRule.prods (hall r hr)
    · exact congrArg NTRule.ignore (hall d (by simp))

theorem ruleMeaning_snoc_ne {keys : List ElementVerbose} {rs : List (WrittenRule I)} {r : WrittenRule I} {n : Str}
    (h : r.name ≠ n) : ruleMeaning keys (rs ++ [r]) n = ruleMeaning keys rs n := by
  have : (rs ++ [r]).filter (fun r => decide (r.name = n)) = rs.filter (fun r => decide (r.name = n)) := by
    rw [List.filter_append]; simp [h]
  simp only [ruleMeaning, this]

theorem ruleMeaning_snoc {keys : List ElementVerbose} {rs : List (WrittenRule I)} {r : WrittenRule I} :
    ruleMeaning keys (rs ++ [r]) r.name = match ruleMeaning keys rs r.name with
      | some old => some { old with prods := old.prods ++ r.alts.map (altMeaning keys) }
      | none => some (written keys r) := by
  have : (rs ++ [r]).filter (fun r' => decide (r'.name = r.name)) = rs.filter (fun r' => decide (r'.name = r.name)) ++ [r] := by
    rw [List.filter_append]; simp
  simp only [ruleMeaning, this]
  generalize rs.filter (fun r' => decide (r'.name = r.name)) = l
  cases l with
  | nil => simp [written, ignMeaning]
  | cons d ds => simp

theorem MeansOk.merge {pd pd1 : ParserData I} {rs : List (WrittenRule I)} (h : MeansOk pd rs) {r : WrittenRule I}
    (hI : Interned pd (elementsOf rs) r.mentions pd1) :
    MeansOk (mergeRule pd1 ((elementsOf (rs ++ [r])).idxOf ⟨r.name, .nonTerminal⟩) (written (elementsOf (rs ++ [r])) r))
      (rs ++ [r]) := by
  have hk := elementsOf_snoc rs r
  have hok : InternOk pd1 (elementsOf (rs ++ [r])) := by rw [hk]; exact hI.ok
  obtain ⟨more, hm⟩ := addAll_prefix (elementsOf rs) r.mentions
  have hpre : ∀ {i : Nat} {k : ElementVerbose}, (elementsOf rs)[i]? = some k → (elementsOf (rs ++ [r]))[i]? = some k := by
    intro i k hi
    rw [hk, hm, List.getElem?_append_left (List.getElem?_eq_some_iff.1 hi).1]; exact hi
  have hment : ∀ r' ∈ rs, ∀ e ∈ r'.mentions, e ∈ elementsOf rs := fun r' hr' e he => mem_elementsOf hr' he
  -- the old rule at a number of the new table
  have hold : ∀ {i : Nat} {n : Str}, (elementsOf (rs ++ [r]))[i]? = some ⟨n, .nonTerminal⟩ →
      AMap.get pd1.rules i = ruleMeaning (elementsOf (rs ++ [r])) rs n := by
    intro i n hi
    rw [hI.rules, h.rules, hk, ruleMeaning_addAll hment]
    cases ho : (elementsOf rs)[i]? with
    | some k =>
      have := hpre ho
      rw [hi] at this
      cases this
      rw [ntName_eq.2 ho]; rfl
    | none =>
      have : ntName (elementsOf rs) i = none := by simp [ntName, ho]
      rw [this]
      refine (ruleMeaning_none fun r' hr' hn => ?_).symm
      subst hn
      obtain ⟨j, hj⟩ := List.getElem?_of_mem (mem_elementsOf hr' (e := ⟨r'.name, .nonTerminal⟩) (by simp [WrittenRule.mentions]))
      have := hok.inj (hpre hj) hi
      subst this
      rw [ho] at hj; cases hj
  have hmem : (⟨r.name, .nonTerminal⟩ : ElementVerbose) ∈ elementsOf (rs ++ [r]) :=
    mem_elementsOf (r := r) (by simp) (by simp [WrittenRule.mentions])
  have hix := getElem?_idxOf hmem
  generalize hixd : (elementsOf (rs ++ [r])).idxOf ⟨r.name, .nonTerminal⟩ = ix at hix ⊢
  have hrest : ∀ i, ix ≠ i → AMap.get pd1.rules i =
      (ntName (elementsOf (rs ++ [r])) i).bind (ruleMeaning (elementsOf (rs ++ [r])) (rs ++ [r])) := by
    intro i hne
    cases hn : ntName (elementsOf (rs ++ [r])) i with
    | some n =>
      have hi := ntName_eq.1 hn
      rw [hold hi, Option.bind_some, ruleMeaning_snoc_ne]
      rintro rfl
      exact hne (hok.inj hix hi)
    | none =>
      rw [hI.rules, h.rules]
      cases hn' : ntName (elementsOf rs) i with
      | none => rfl
      | some n => rw [ntName_eq.2 (hpre (ntName_eq.1 hn'))] at hn; cases hn
  have hself := hold hix
  have hnm := ntName_eq.2 hix
  have hnd : AMap.NodupKeys pd1.rules := by rw [hI.rules]; exact h.nodup
  have hsn := ruleMeaning_snoc (keys := elementsOf (rs ++ [r])) (rs := rs) (r := r)
  simp only [mergeRule]
  split
  · next old ho =>
    refine ⟨⟨hok.types, hok.data, hok.map⟩, hI.ignore.trans h.ignore, hnd.insert _ _, ?_⟩
    intro i
    simp only [AMap.get_insert]
    by_cases hi : ix = i
    · subst hi
      rw [hself] at ho
      rw [ho] at hsn
      rw [if_pos rfl, hnm, Option.bind_some, hsn]
      rfl
    · rw [if_neg hi]; exact hrest i hi
  · next ho =>
    refine ⟨⟨hok.types, hok.data, hok.map⟩, hI.ignore.trans h.ignore, hnd.insert _ _, ?_⟩
    intro i
    simp only [AMap.get_insert]
    by_cases hi : ix = i
    · subst hi
      rw [hself] at ho
      rw [ho] at hsn
      rw [if_pos rfl, hnm, Option.bind_some, hsn]
    · rw [if_neg hi]; exact hrest i hi

/-! ### Consequences of `MeansOk` -/

theorem MeansOk.means {pd : ParserData I} {rs : List (WrittenRule I)} (h : MeansOk pd rs) : Means rs pd := by
  refine ⟨h.ok.verbose, h.ok.map, ?_⟩
  intro i
  rw [ParserData.getRuleByKey, h.rules]
  unfold ntName
  split <;> simp_all

theorem ruleMeaning_cases {keys : List ElementVerbose} {rs : List (WrittenRule I)} {n : Str} {q : NTRule I}
    (h : ruleMeaning keys rs n = some q) :
    (∀ p ∈ q.prods, ∃ r ∈ rs, ∃ a ∈ r.alts, p = altMeaning keys a) ∧
    (∀ i, q.ignore = some i → ∃ r ∈ rs, ∃ m, r.ignore = some m ∧ i = keys.idxOf ⟨m, .nonTerminal⟩) := by
  unfold ruleMeaning at h
  split at h
  · cases h
  · next d ds hf =>
    cases h
    have hin : ∀ r ∈ d :: ds, r ∈ rs := by intro r hr; rw [← hf] at hr; exact (List.mem_filter.1 hr).1
    constructor
    · intro p hp
      obtain ⟨r, hr, hp⟩ := List.mem_flatMap.1 hp
      obtain ⟨a, ha, rfl⟩ := List.mem_map.1 hp
      exact ⟨r, hin r hr, a, ha, rfl⟩
    · intro i hi
      obtain ⟨m, hm, rfl⟩ := Option.map_eq_some_iff.1 hi
      exact ⟨d, hin d (by simp), m, hm, rfl⟩

theorem prodElems_altMeaning (keys a : List ElementVerbose) : prodElems (altMeaning keys a) = a.map fun e => keys.idxOf e := by
  cases a <;> rfl

theorem MeansOk.wellFormed {pd : ParserData I} {rs : List (WrittenRule I)} (h : MeansOk pd rs) : WellFormed pd := by
  have hlen : pd.elementTypes.length = (elementsOf rs).length := by rw [h.ok.types, List.length_map]
  have hget : ∀ {A r}, AMap.get pd.rules A = some r → ∃ n, (elementsOf rs)[A]? = some ⟨n, .nonTerminal⟩ ∧
      ruleMeaning (elementsOf rs) rs n = some r := by
    intro A r hr
    rw [h.rules] at hr
    obtain ⟨n, h1, h2⟩ := Option.bind_eq_some_iff.1 hr
    exact ⟨n, ntName_eq.1 h1, h2⟩
  refine ⟨h.nodup, by rw [h.ok.types, h.ok.data]; simp, ?_, ?_, ?_⟩
  · intro A r hr
    obtain ⟨n, h1, -⟩ := hget hr
    rw [h.ok.types, List.getElem?_map, h1]; rfl
  · intro A r hr p hp e he
    obtain ⟨n, -, h2⟩ := hget hr
    obtain ⟨r', hr', a, ha, rfl⟩ := (ruleMeaning_cases h2).1 p hp
    rw [prodElems_altMeaning] at he
    obtain ⟨x, hx, rfl⟩ := List.mem_map.1 he
    rw [hlen]
    refine List.idxOf_lt_length_of_mem (mem_elementsOf hr' ?_)
    simp only [WrittenRule.mentions, List.mem_cons, List.mem_append, List.mem_flatten]
    exact .inr (.inr ⟨a, ha, hx⟩)
  · intro A r hr p hp
    obtain ⟨n, -, h2⟩ := hget hr
    obtain ⟨r', hr', a, ha, rfl⟩ := (ruleMeaning_cases h2).1 p hp
    cases a with
    | nil => simp [altMeaning_nil]
    | cons e a => simp [altMeaning_ne]

theorem MeansOk.ignoresNT {pd : ParserData I} {rs : List (WrittenRule I)} (h : MeansOk pd rs) : IgnoresNT pd := by
  intro A r i hr hi
  rw [h.rules] at hr
  obtain ⟨n, h1, h2⟩ := Option.bind_eq_some_iff.1 hr
  obtain ⟨r', hr', m, hm, rfl⟩ := (ruleMeaning_cases h2).2 i hi
  have hmem : (⟨m, .nonTerminal⟩ : ElementVerbose) ∈ elementsOf rs :=
    mem_elementsOf hr' (by simp [WrittenRule.mentions, hm])
  rw [h.ok.types, List.getElem?_map, getElem?_idxOf hmem]; rfl

/-! ### The loop -/

theorem Spec.RuleText.head {cc : CharClass} {Sec : Str → Str → List I → Prop} {r : WrittenRule I} {t : Str}
    (h : RuleText cc Sec r t) : ∃ c u, t = c :: u ∧ cc.isAlphabetic c = true := by
  cases h with
  | mk hn => obtain ⟨c, cs, rfl, hc, -⟩ := hn; exact ⟨c, _, rfl, hc⟩

theorem alpha_noSpace {cc : CharClass} (hcc : SpaceOk cc) {c : Char} (h : cc.isAlphabetic c = true) (w : Str) :
    NoSpaceAhead (c :: w) := by
  intro d r he
  cases he
  cases hx : CharClass.isWhitespace c with
  | false => rfl
  | true =>
    have := hcc c hx
    simp [CharClass.isAlphanumeric, h] at this

theorem rpPeek_eq (w : Str) (k : Nat) (pd : ParserData I) : rpPeek ⟨Proc.at w k, pd⟩ = (.ok w.head?, ⟨Proc.at w k, pd⟩) := by
  simp only [rpPeek, rpProc, plainReader.peek w k trivial]

theorem rulesLoop_end (cc : CharClass) (vm : VM I S) {g : Str} (hg : IsSpace g) (fuel k : Nat) (pd : ParserData I) :
    parseRulesLoop cc vm (fuel + 1) ⟨Proc.at g k, pd⟩ = (.ok (), ⟨Proc.at [] (k + g.length), pd⟩) := by
  have := rpWhitespace_ok (w := []) hg (by intro c r h; cases h) k pd
  rw [List.append_nil] at this
  rw [parseRulesLoop, smBind_ok this, smBind_ok (rpPeek_eq [] _ pd)]
  rfl

theorem rulesLoop_step (cc : CharClass) (vm : VM I S) {g : Str} (hg : IsSpace g) {c : Char} {w : Str}
    (hc : CharClass.isWhitespace c = false) (fuel k : Nat) (pd : ParserData I) :
    parseRulesLoop cc vm (fuel + 1) ⟨Proc.at (g ++ c :: w) k, pd⟩ =
      (parseRule cc vm >>= fun x => rpMerge x.1 x.2 >>= fun _ => parseRulesLoop cc vm fuel) ⟨Proc.at (c :: w) (k + g.length), pd⟩ := by
  rw [parseRulesLoop, smBind_ok (rpWhitespace_ok hg (by intro d r h; cases h; exact hc) k pd), smBind_ok (rpPeek_eq _ _ pd)]
  rfl

/-- The loop over a rule text. -/
theorem rulesLoop_complete {cc : CharClass} (hcc : SpaceOk cc) {vm : VM I S} {rs' : List (WrittenRule I)} {text : Str}
    (h : RulesText cc (ReadsSection vm) rs' text) : ∀ (fuel k : Nat) (pd : ParserData I) (rs : List (WrittenRule I)),
    text.length < fuel → MeansOk pd rs →
    ∃ k' pd', parseRulesLoop cc vm fuel ⟨Proc.at text k, pd⟩ = (.ok (), ⟨Proc.at [] k', pd'⟩) ∧ MeansOk pd' (rs ++ rs') := by
  induction h with
  | @nil g hg =>
    intro fuel k pd rs hf hm
    obtain ⟨fuel, rfl⟩ : ∃ f, fuel = f + 1 := ⟨fuel - 1, by omega⟩
    exact ⟨k + g.length, pd, rulesLoop_end cc vm hg fuel k pd, by simpa using hm⟩
  | @cons r rs' g t t' hg hr hrs ih =>
    intro fuel k pd rs hf hm
    obtain ⟨fuel, rfl⟩ : ∃ f, fuel = f + 1 := ⟨fuel - 1, by omega⟩
    obtain ⟨c, u, rfl, hc⟩ := hr.head
    have hns := alpha_noSpace hcc hc (u ++ t') c (u ++ t') rfl
    obtain ⟨k1, pd1, h1, h2⟩ := parseRule_complete hcc hr t' (k + g.length) hm.ok hm.ignore
    rw [← elementsOf_snoc] at h1
    obtain ⟨k2, pd2, h3, h4⟩ := ih fuel k1 _ (rs ++ [r])
      (by simp only [List.length_append, List.length_cons] at hf; omega) (hm.merge h2)
    refine ⟨k2, pd2, ?_, by simpa using h4⟩
    rw [show g ++ (c :: u ++ t') = g ++ c :: (u ++ t') by simp, rulesLoop_step cc vm hg hns]
    rw [List.cons_append] at h1
    rw [smBind_ok h1]
    exact h3

/-- Before weaving. -/
theorem parseRules_complete {cc : CharClass} (hcc : SpaceOk cc) {vm : VM I S} {rs : List (WrittenRule I)} {text : Str}
    (h : RulesText cc (ReadsSection vm) rs text) (ho : HashOrder) :
    ∃ pd, MeansOk pd rs ∧ parseRules ho cc vm text = editRules ho pd := by
  obtain ⟨k', pd', h1, h2⟩ := rulesLoop_complete hcc h (text.length + 1) 0 ParserData.new [] (by omega) .new
  refine ⟨pd', h2, ?_⟩
  have : parseRulesLoop cc vm (text.length + 1) (RP.new text) = (.ok (), ⟨Proc.at [] k', pd'⟩) := h1
  simp only [parseRules, this]

end HPP
