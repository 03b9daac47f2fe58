import Verif.Spec.Simple
import Verif.Props.Extend
import Verif.Props.Ignoring
/-
C93: simple grammars.
-/
namespace HPP
open Spec
variable {I S S' : Type} {cc : CharClass} {rs : List (WrittenRule I)} {text : Str} {pd : ParserData I}

/-- The character a production begins with. -/
def leadChar (pd : ParserData I) : Production → Option Char
  | .notEmpty (e :: _) =>
    match pd.elementTypes[e]?, pd.elementData[e]? with
    | some .terminal, some d => d.name.head?
    | _, _ => none
  | _ => none

theorem leadChar_some {p : Production} {c : Char} (h : leadChar pd p = some c) :
    ∃ e es d, p = .notEmpty (e :: es) ∧ pd.elementTypes[e]? = some .terminal ∧ pd.elementData[e]? = some d ∧
      d.name.head? = some c := by
  unfold leadChar at h
  split at h
  · next e es =>
    split at h
    · next d h1 h2 => exact ⟨e, es, d, rfl, h1, h2, h⟩
    · cases h
  · cases h

theorem control_lead {start A : Nat} {p : Production} {c : Char} (h : leadChar pd p = some c) (m : SetMember) :
    Control pd start A p m ↔ m = .char c := by
  obtain ⟨e, es, d, rfl, h1, h2, h3⟩ := leadChar_some h
  simp only [Control, h1, h2]
  constructor
  · rintro (⟨-, d', c', hd, hc, rfl⟩ | ⟨hx, -⟩)
    · cases hd; rw [h3] at hc; cases hc; rfl
    · cases hx
  · rintro rfl
    exact .inl ⟨trivial, d, c, rfl, h3, rfl⟩

theorem formOf_lead {p : Production} {c : Char} (h : leadChar pd p = some c) : ∃ v, formOf pd (prodElems p) = .ch c :: v := by
  obtain ⟨e, es, d, rfl, h1, h2, h3⟩ := leadChar_some h
  obtain ⟨cs, hcs⟩ : ∃ cs, d.name = c :: cs := by
    cases hd : d.name with
    | nil => rw [hd] at h3; cases h3
    | cons a l => rw [hd] at h3; cases h3; exact ⟨l, rfl⟩
  exact ⟨ofText cs ++ formOf pd es, by simp [prodElems, formOf, elemForm, h1, h2, hcs, ofText]⟩

theorem nullable_ch_cons {G : Grammar} {c : Char} {u : Form} (h : Nullable G (.ch c :: u)) : False := by
  exact not_nullable_ch (nullable_cons.1 h).1

/-- Grammar data in which all alternatives begin with a character is acceptable iff it is complete and the characters differ. -/
theorem acceptable_of_leads {start : Nat} (hl : ∀ A r, AMap.get pd.rules A = some r → ∀ p ∈ r.prods, ∃ c, leadChar pd p = some c) :
    Acceptable pd start ↔ (∃ r, AMap.get pd.rules start = some r) ∧ AllDefined pd ∧
      ∀ A r, AMap.get pd.rules A = some r → r.prods.Pairwise fun p q => leadChar pd p ≠ leadChar pd q := by
  have hdis : ∀ A r, AMap.get pd.rules A = some r → ∀ p ∈ r.prods, ∀ q ∈ r.prods,
      ((∀ m, ¬ (Control pd start A p m ∧ Control pd start A q m)) ↔ leadChar pd p ≠ leadChar pd q) := by
    intro A r hr p hp q hq
    obtain ⟨c, hc⟩ := hl A r hr p hp
    obtain ⟨d, hd⟩ := hl A r hr q hq
    simp only [control_lead hc, control_lead hd, hc, hd]
    constructor
    · rintro h hx
      cases hx
      exact h _ ⟨rfl, rfl⟩
    · rintro h m ⟨rfl, hx⟩
      cases hx
      exact h rfl
  have hpw : ∀ A r, AMap.get pd.rules A = some r →
      (r.prods.Pairwise (fun p q => ∀ m, ¬ (Control pd start A p m ∧ Control pd start A q m)) ↔
        r.prods.Pairwise fun p q => leadChar pd p ≠ leadChar pd q) := by
    intro A r hr
    exact List.Pairwise.iff_of_mem fun {p q} hp hq => hdis A r hr p hp q hq
  constructor
  · intro h
    exact ⟨h.startDefined, h.defined, fun A r hr => (hpw A r hr).1 (h.disjoint A r hr)⟩
  · rintro ⟨h1, h2, h3⟩
    refine ⟨h1, h2, ?_, ?_, fun A r hr => (hpw A r hr).2 (h3 A r hr)⟩
    · intro A hA
      have hlc : ∀ A B, ¬ LeftCorner (grammarOf pd) A B := by
        rintro A B ⟨u, v, ⟨r, hr, p, hp, hw⟩, hu⟩
        obtain ⟨c, hc⟩ := hl A r hr p hp
        obtain ⟨w, hw'⟩ := formOf_lead hc
        rw [hw'] at hw
        cases u with
        | nil => cases hw
        | cons x u' =>
          cases hw
          exact nullable_ch_cons hu
      obtain hx := leftRecursive_iff.1 hA
      cases hx with
      | single h => exact hlc _ _ h
      | tail _ h => exact hlc _ _ h
    · intro A r hr e es hp ht d hd hn
      obtain ⟨c, hc⟩ := hl A r hr _ hp
      obtain ⟨e', es', d', he, h1, h2, h3⟩ := leadChar_some hc
      cases he
      rw [hd] at h2; cases h2
      rw [hn] at h3; cases h3

theorem leadChar_between (i : Nat) (p : Production) : leadChar pd (betweenAlt i p) = leadChar pd p := by
  cases p with
  | empty => rfl
  | notEmpty els =>
    rcases els with _ | ⟨x, _ | ⟨y, ys⟩⟩ <;> rfl

theorem leadChar_altMeaning (hin : InternOk pd (elementsOf rs)) {a : List ElementVerbose} (ha : ∀ e ∈ a, e ∈ elementsOf rs) :
    leadChar pd (altMeaning (elementsOf rs) a) = leadOf a := by
  cases a with
  | nil => rfl
  | cons e es =>
    have he := getElem?_idxOf (ha e (.head _))
    obtain ⟨b, et⟩ := e
    have h1 : pd.elementTypes[(elementsOf rs).idxOf ⟨b, et⟩]? = some et := by rw [hin.types, List.getElem?_map, he]; rfl
    have h2 : pd.elementData[(elementsOf rs).idxOf ⟨b, et⟩]? = some ⟨false, b⟩ := by rw [hin.data, List.getElem?_map, he]; rfl
    simp only [altMeaning, productionOf, List.map_cons, reduceCtorEq, if_false, leadChar, h1, h2]
    cases et <;> rfl

/-- The productions of a name, up to the characters they begin with. -/
theorem meansWoven_leads (hm : MeansWoven rs pd) (hin : InternOk pd (elementsOf rs)) {A : Nat} {r : NTRule I}
    (hr : AMap.get pd.rules A = some r) :
    ∃ n, (elementsOf rs)[A]? = some ⟨n, .nonTerminal⟩ ∧ r.prods.map (leadChar pd) = (altsOf rs n).map leadOf := by
  obtain ⟨n, q, hn, hq⟩ := MeansWoven.rule_name hm hr
  obtain ⟨hp, -⟩ := ruleMeaning_some hq
  have hq' : q.prods.map (leadChar pd) = (altsOf rs n).map leadOf := by
    rw [hp, List.map_map]
    exact List.map_congr_left fun a ha => leadChar_altMeaning hin fun e he => mem_elementsOf_alt ha he
  have hr' : pd.getRuleByKey A = some r := hr
  refine ⟨n, hn, ?_⟩
  cases ho : overrideOf rs n with
  | none =>
    have h1 := hm.plain A n q hn hq ho
    rw [hr'] at h1
    cases h1
    exact hq'
  | some j =>
    by_cases hu : NameUsesStar rs j n
    · have h1 := hm.own A n q j hn hq ho hu
      rw [hr'] at h1
      cases h1
      exact hq'
    · have h1 := hm.woven A n q j hn hq ho hu
      rw [hr'] at h1
      cases h1
      rw [List.map_map, ← hq']
      exact List.map_congr_left fun p _ => leadChar_between _ p

/-- **C93.** If every alternative of a complete rule text begins with a character, a parser is built from the text exactly
if no two alternatives of the same name begin with the same character. -/
theorem C93_built_iff (hcc : SpaceOk cc) (vm : VM I S) (h : RulesText cc (ReadsSection vm) rs text) (hc : Complete rs)
    (hst : ∃ r ∈ rs, r.name = c% "start") (hl : LeadsEverywhere rs) (ho : HashOrder) :
    (∃ fuel P, Parser.newFromText ho fuel cc vm text = .ok P) ↔ LeadsDiffer rs := by
  obtain ⟨pd, hpd, b1, b2, b3⟩ := parseRules_means hcc h hc.ignoresDefined ho
  have hmem : (⟨c% "start", .nonTerminal⟩ : ElementVerbose) ∈ elementsOf rs := by
    obtain ⟨r, hr, hn⟩ := hst
    rw [← hn]; exact mem_elementsOf_name hr
  have hi := getElem?_idxOf hmem
  generalize (elementsOf rs).idxOf ⟨c% "start", .nonTerminal⟩ = st at hi
  have hix : pd.getElementNtIndex (c% "start") = some st := (b3.map _ _).2 hi
  have hleads : ∀ A r, AMap.get pd.rules A = some r → ∀ p ∈ r.prods, ∃ c, leadChar pd p = some c := by
    intro A r hr p hp
    obtain ⟨n, -, he⟩ := meansWoven_leads b1 b3 hr
    have : leadChar pd p ∈ (altsOf rs n).map leadOf := by rw [← he]; exact List.mem_map_of_mem hp
    obtain ⟨a, ha, hx⟩ := List.mem_map.1 this
    obtain ⟨r', hr', har⟩ := List.mem_flatMap.1 ha
    obtain ⟨c, hc⟩ := hl r' (List.mem_filter.1 hr').1 a har
    exact ⟨c, by rw [← hx, hc]⟩
  have hbuilt : (∃ fuel P, Parser.newFromText ho fuel cc vm text = .ok P) ↔
      ∃ fuel P, Parser.newFromParserData ho fuel pd st = .ok P := by
    constructor
    · rintro ⟨fuel, P, hP⟩
      obtain ⟨q, st', e1, e2, e3⟩ := newFromText_ok hP
      rw [hpd] at e1; cases e1
      rw [hix] at e2; cases e2
      exact ⟨fuel, P, e3⟩
    · rintro ⟨fuel, P, hP⟩
      exact ⟨fuel, P, newFromText_eq hpd hix hP⟩
  rw [hbuilt, C16_parser_built_iff b2 ho st, acceptable_of_leads hleads]
  constructor
  · rintro ⟨-, -, h3⟩ n
    by_cases hn : ∃ r ∈ rs, r.name = n
    · obtain ⟨r0, hr0, hrn⟩ := hn
      have hm0 : (⟨n, .nonTerminal⟩ : ElementVerbose) ∈ elementsOf rs := by rw [← hrn]; exact mem_elementsOf_name hr0
      have hi0 := getElem?_idxOf hm0
      obtain ⟨r, hr⟩ := meansWoven_rule b1 hi0 ⟨r0, hr0, hrn⟩
      obtain ⟨n', hn', he⟩ := meansWoven_leads b1 b3 hr
      rw [hi0] at hn'
      cases hn'
      have := h3 _ r hr
      rw [← List.pairwise_map (f := leadChar pd) (R := (· ≠ ·)), he, List.pairwise_map] at this
      exact this
    · have : altsOf rs n = [] := by
        unfold altsOf
        rw [List.filter_eq_nil_iff.2 (fun r hr hx => hn ⟨r, hr, of_decide_eq_true hx⟩)]
        rfl
      rw [this]; exact .nil
  · intro hd
    refine ⟨meansWoven_rule b1 hi hst, hc.allDefined b1 b3, fun A r hr => ?_⟩
    obtain ⟨n, -, he⟩ := meansWoven_leads b1 b3 hr
    have := hd n
    rw [← List.pairwise_map (f := leadOf) (R := (· ≠ ·)), ← he, List.pairwise_map] at this
    exact this

/-! ### a concrete case -/

def Samples.simpleText : Str := c% "start -> \"ab\" b | \"c\"; b -> \"x\" start | \"a\";"
/-- The second alternative of `b` begins like the first. -/
def Samples.clashText : Str := c% "start -> \"ab\" b | \"c\"; b -> \"x\" start | \"xa\";"

def Samples.simpleRules (last : Str) : List (WrittenRule Nat) :=
  [⟨c% "start", none, [[⟨c% "ab", .terminal⟩, ⟨c% "b", .nonTerminal⟩], [⟨c% "c", .terminal⟩]], []⟩,
   ⟨c% "b", none, [[⟨c% "x", .terminal⟩, ⟨c% "start", .nonTerminal⟩], [⟨last, .terminal⟩]], []⟩]

theorem Samples.simpleText_rules : RulesText .ascii (ReadsSection nullVm) (Samples.simpleRules (c% "a")) Samples.simpleText ∧
    RulesText .ascii (ReadsSection nullVm) (Samples.simpleRules (c% "xa")) Samples.clashText := by
  have sp : IsSpace [' '] := Samples.isSpace_one (by decide)
  have nb : IsName .ascii (c% "b") := Samples.isName_letter (by decide)
  have r1 := RuleText.mk (cc := .ascii) (Sec := ReadsSection nullVm) (isName_start .ascii) sp sp .absent isSpace_nil
    (.cons (.seq (.cons (.terminal (b := c% "ab") rfl) sp (by simp) (.one (.name nb)))) sp sp
      (.one (.seq (.one (.terminal (b := c% "c") rfl))))) isSpace_nil
    (.absent (name := c% "start")) isSpace_nil
  have r2 := RuleText.mk (cc := .ascii) (Sec := ReadsSection nullVm) nb sp sp .absent isSpace_nil
    (.cons (.seq (.cons (.terminal (b := c% "x") rfl) sp (by simp) (.one (.name (isName_start .ascii))))) sp sp
      (.one (.seq (.one (.terminal (b := c% "a") rfl))))) isSpace_nil (.absent (name := c% "b")) isSpace_nil
  have r3 := RuleText.mk (cc := .ascii) (Sec := ReadsSection nullVm) nb sp sp .absent isSpace_nil
    (.cons (.seq (.cons (.terminal (b := c% "x") rfl) sp (by simp) (.one (.name (isName_start .ascii))))) sp sp
      (.one (.seq (.one (.terminal (b := c% "xa") rfl))))) isSpace_nil (.absent (name := c% "b")) isSpace_nil
  exact ⟨.cons isSpace_nil r1 (.cons sp r2 (.nil isSpace_nil)), .cons isSpace_nil r1 (.cons sp r3 (.nil isSpace_nil))⟩

/-- The hypotheses of C93 are met by both texts; the leads differ in the first only, from which a parser is built. -/
example : SpaceOk .ascii ∧
    (∀ last, last ≠ [] → LeadsEverywhere (Samples.simpleRules last)) ∧ (∀ last, Complete (Samples.simpleRules last)) ∧
    (∀ last, ∃ r ∈ Samples.simpleRules last, r.name = c% "start") ∧ ¬ LeadsDiffer (Samples.simpleRules (c% "xa")) ∧
    Samples.built (Parser.newFromText .insertion 99 .ascii nullVm Samples.simpleText) = some true ∧
    Samples.built (Parser.newFromText .insertion 99 .ascii nullVm Samples.clashText) = some false := by
  refine ⟨Samples.ruleText_reads.1, ?_, ?_, fun _ => ⟨_, .head _, rfl⟩, ?_, by decide +kernel, by decide +kernel⟩
  · intro last hl r hr a ha
    simp only [Samples.simpleRules, List.mem_cons, List.not_mem_nil, or_false] at hr
    rcases hr with rfl | rfl <;> simp only [List.mem_cons, List.not_mem_nil, or_false] at ha <;> rcases ha with rfl | rfl
    · exact ⟨_, rfl⟩
    · exact ⟨_, rfl⟩
    · exact ⟨_, rfl⟩
    · cases last with
      | nil => exact absurd rfl hl
      | cons c cs => exact ⟨c, rfl⟩
  · intro last r hr n hn
    simp only [Samples.simpleRules, List.mem_cons, List.not_mem_nil, or_false] at hr
    rcases hr with rfl | rfl <;>
      simp only [WrittenRule.mentions, Option.map_none, Option.toList_none, List.nil_append, List.flatten_cons, List.flatten_nil,
        List.append_nil, List.cons_append, List.mem_cons, ElementVerbose.mk.injEq, and_true, List.not_mem_nil, or_false,
        reduceCtorEq, and_false, false_or] at hn <;> rcases hn with rfl | rfl
    · exact ⟨_, .head _, rfl⟩
    · exact ⟨_, .tail _ (.head _), rfl⟩
    · exact ⟨_, .tail _ (.head _), rfl⟩
    · exact ⟨_, .head _, rfl⟩
  · intro h
    have h1 : altsOf (Samples.simpleRules (c% "xa")) (c% "b") =
        [[⟨c% "x", .terminal⟩, ⟨c% "start", .nonTerminal⟩], [⟨c% "xa", .terminal⟩]] := by decide
    have h2 := h (c% "b")
    rw [h1] at h2
    cases h2 with
    | cons h3 _ => exact h3 _ (.head _) rfl

end HPP
