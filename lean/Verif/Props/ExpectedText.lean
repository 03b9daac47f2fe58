import Verif.Props.Expected
import Verif.Props.Breaking
/-
C112 for rule texts: what the list of an unexpected-character error says, told by the rule text.
-/
namespace HPP
open Spec
variable {I S S' : Type} {cc : CharClass} {rs : List (WrittenRule I)} {text : Str} {P : Parser I} {ho0 ho : HashOrder}
  {fuel0 fuel : Nat}

/-- **C112**, rule texts in which every name stands for some text, but not for the empty one: the list of an
unexpected-character error has exactly the characters (or the end) that can come next. -/
theorem C112_expected_text_partial (hcc : SpaceOk cc) {vm : VM I S} (h : RulesText cc (ReadsSection vm) rs text)
    (hP : Parser.newFromText ho0 fuel0 cc vm text = .ok P)
    (hp : ∀ r ∈ rs, (∃ s, Spells rs [⟨r.name, .nonTerminal⟩] s) ∧ ¬ Spells rs [⟨r.name, .nonTerminal⟩] [])
    (vm' : VM I S') {script : Str} {s : S'} {chr : Char} {pos : Nat} {exp : Str}
    (he : (Parser.parse ho fuel vm' P script s).1 = .err (.unexpectedChar chr pos exp)) :
    ∃ L, exp = expectedText L ∧ L.Nodup ∧
      ∀ m, m ∈ L ↔ CanComeNext (Spells rs [⟨c% "start", .nonTerminal⟩]) (script.take pos) m := by
  obtain ⟨pd, st, a1, a2, a3, a4, a5, a6⟩ := newFromText_means hcc h hP
  have hty : ∀ {A : Nat} {n : Str}, (elementsOf rs)[A]? = some ⟨n, .nonTerminal⟩ → pd.elementTypes[A]? = some .nonTerminal :=
    fun hA => by rw [a3.types, List.getElem?_map, hA]; rfl
  have hlang : ∀ {A : Nat} {n : Str}, (elementsOf rs)[A]? = some ⟨n, .nonTerminal⟩ → ∀ s,
      Language (grammarOf pd) A s ↔ Spells rs [⟨n, .nonTerminal⟩] s :=
    fun hA s => by rw [← C19_tree_iff_language a2 (hty hA), spells_iff_forest a1 a3 hA]
  have hprod : ∀ A r, AMap.get pd.rules A = some r → (∃ s, Language (grammarOf pd) A s) ∧ ¬ Language (grammarOf pd) A [] := by
    intro A r hr
    obtain ⟨n, q, hn, hq⟩ := MeansWoven.rule_name a1 hr
    obtain ⟨d, hd, hdn⟩ := ruleMeaning_isDefined hq
    obtain ⟨⟨s, hs⟩, hn0⟩ := hp d hd
    exact ⟨⟨s, (hlang hn s).2 (hdn ▸ hs)⟩, fun hx => hn0 (hdn ▸ (hlang hn []).1 hx)⟩
  have hff : FollowFits pd st := by
    intro u A v m _ hnull _
    obtain ⟨w, ⟨r, hr, -⟩, -⟩ := nullable_nt.1 hnull
    exact absurd hnull (hprod A r hr).2
  obtain ⟨L, h1, h2, h3⟩ := C112_expected_exact_partial a2 a6 (a3.start a5) (fun A r hr => (hprod A r hr).1) hff vm' he
  refine ⟨L, h1, h2, fun m => (h3 m).trans ?_⟩
  cases m with
  | char x =>
    constructor
    · rintro ⟨y, hy⟩; exact ⟨y, (hlang a5 _).1 hy⟩
    · rintro ⟨y, hy⟩; exact ⟨y, (hlang a5 _).2 hy⟩
  | terminate => exact hlang a5 _

/-! ### a concrete case -/

theorem Samples.again_alt {n : Str} {a : List ElementVerbose} (h : FinalAlt Samples.againRules n a) :
    a ∈ altsOf Samples.againRules n := by
  have key : ∀ n, overrideOf Samples.againRules n = none := by
    intro n
    by_cases h1 : n = c% "start"
    · subst h1; decide
    · by_cases h2 : n = c% "b"
      · subst h2; decide
      · simp [overrideOf, Samples.againRules, Ne.symm h1, Ne.symm h2]
  cases h with
  | plain _ h2 => exact h2
  | own h1 => rw [key] at h1; cases h1
  | woven h1 => rw [key] at h1; cases h1

theorem Samples.again_b {s : Str} : Spells Samples.againRules [⟨c% "b", .nonTerminal⟩] s ↔ s = c% "x" := by
  constructor
  · intro h
    cases h with
    | name h1 h2 h3 =>
      cases h3
      have h4 := Samples.again_alt h1
      have h5 : altsOf Samples.againRules (c% "b") = [[⟨c% "x", .terminal⟩]] := by decide
      rw [h5] at h4
      cases List.mem_singleton.1 h4
      cases h2 with
      | terminal h6 => cases h6; rfl
  · rintro rfl
    have ha : [⟨c% "x", .terminal⟩] ∈ altsOf Samples.againRules (c% "b") := by decide
    exact .name (s' := []) (.plain (by decide) ha) (.terminal .nil) .nil

theorem Samples.again_start {s : Str} : Spells Samples.againRules [⟨c% "start", .nonTerminal⟩] s ↔ s = c% "xx" := by
  constructor
  · intro h
    cases h with
    | name h1 h2 h3 =>
      cases h3
      have h4 := Samples.again_alt h1
      have h5 : altsOf Samples.againRules (c% "start") = [[⟨c% "b", .nonTerminal⟩, ⟨c% "b", .nonTerminal⟩]] := by decide
      rw [h5] at h4
      cases List.mem_singleton.1 h4
      cases h2 with
      | @name _ a es s1 s2 h6 h7 h8 =>
        have e1 := Samples.again_b.1 (.name (s' := []) h6 h7 .nil)
        have e2 := Samples.again_b.1 h8
        rw [List.append_nil] at e1
        subst e1 e2
        rfl
  · rintro rfl
    have ha : [⟨c% "b", .nonTerminal⟩, ⟨c% "b", .nonTerminal⟩] ∈ altsOf Samples.againRules (c% "start") := by decide
    have hb : [⟨c% "x", .terminal⟩] ∈ altsOf Samples.againRules (c% "b") := by decide
    exact .name (s := c% "xx") (s' := []) (.plain (by decide) ha)
      (.name (s := c% "x") (s' := c% "x") (.plain (by decide) hb) (.terminal .nil) (Samples.again_b.2 rfl)) .nil

/-- The list of the error for `xy` has `x` and nothing else, since exactly `x` can come next after `x`. -/
example : ∃ L : List SetMember, L.Nodup ∧ c% "x" = expectedText L ∧
    ∀ m, m ∈ L ↔ CanComeNext (Spells Samples.againRules [⟨c% "start", .nonTerminal⟩]) (c% "x") m := by
  obtain ⟨P, c, h1, h2, -, -⟩ := Samples.againRun_err
    (show Samples.againRun (c% "xy") 5 = some (some (.unexpectedChar 'y' 1 (c% "x")), c% "y", 6) by decide +kernel)
  obtain ⟨L, g1, g2, g3⟩ := C112_expected_text_partial (ho := .insertion) (fuel := 99) (vm' := countingVm true) (script := c% "xy") (s := 5) (pos := 1)
    (exp := c% "x") (chr := 'y') Samples.ruleText_reads.1 (Samples.againText_rules true) h1
    (by
      intro r hr
      simp only [Samples.againRules, List.mem_cons, List.not_mem_nil, or_false] at hr
      rcases hr with rfl | rfl
      · exact ⟨⟨_, Samples.again_start.2 rfl⟩, fun h => by cases Samples.again_start.1 h⟩
      · exact ⟨⟨_, Samples.again_b.2 rfl⟩, fun h => by cases Samples.again_b.1 h⟩) (by rw [h2])
  exact ⟨L, g2, g1, g3⟩

end HPP
