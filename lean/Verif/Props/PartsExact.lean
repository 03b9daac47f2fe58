import Verif.Props.Parts
import Verif.Proofs.RuleExact
/-
C102: exactly what `parse_production` and `parse_possible_productions` read.
-/
namespace HPP
open Spec
variable {I S : Type}

/-- **C102**, one alternative: after any history, `parse_production` returns `q` and leaves the text `w` exactly when the
specification reads an alternative with that meaning off the unread text and leaves `w`; the elements of the alternative are
then known. -/
theorem C102_alternative {cc : CharClass} (hcc : SpaceOk cc) {vm : VM I S} (hvm : OnlyReads vm) {text : Str}
    {ks : List ElementVerbose} {rules : AMap Nat (NTRule I)} {dflt : Option Nat} {s : RP I}
    (h : PartRun cc vm (preparedParser text (prepared ks rules dflt)) s) {E : List ElementVerbose} (hE : Holds s.pd E)
    (q : Production) (w : Str) (F : List ElementVerbose) :
    (∃ s', parseProd cc s = (.ok q, s') ∧ s'.proc.rest = w ∧ Holds s'.pd F) ↔
      ∃ a, AltReads cc s.proc.rest a w ∧ F = firstOccurrences (E ++ a) ∧ q = altMeaning F a := by
  obtain ⟨p, pd⟩ := s
  obtain ⟨u, v, E', h1, h2, h3, h4⟩ := h.stands hvm
  simp only at h2 h3 h4 hE
  subst h2
  have : E = E' := hE.unique h3.holds
  subst this
  simp only [rest_at]
  constructor
  · rintro ⟨s', hc, rfl, hF⟩
    obtain ⟨u1, w1, pd1, ks1, g1, g2, g3, g4⟩ := reads_prod_exact (vm := vm) (w := v) (k := u.length) h3 cc
    rw [hc] at g1 g4
    simp only at g1 g4
    subst g1
    rcases g4 with ⟨x, hx, a, ha, rfl, rfl⟩ | ⟨e, he, -⟩
    · cases hx
      have hF' : F = firstOccurrences (E ++ ks1) := by rw [← addAll_eq_first h3]; exact hF.unique g3.ok.holds
      refine ⟨ks1, by rw [g2, rest_at]; exact ha, hF', ?_⟩
      rw [hF', ← addAll_eq_first h3]
    · cases he
  · rintro ⟨a, ha, rfl, rfl⟩
    obtain ⟨k', pd', g1, g2⟩ := ha.parse hcc u.length h3
    rw [addAll_eq_first h3] at g1
    refine ⟨_, g1, rfl, ?_⟩
    rw [← addAll_eq_first h3]; exact g2.ok.holds

/-- **C102**, alternatives: the same for `parse_possible_productions`. -/
theorem C102_alternatives {cc : CharClass} (hcc : SpaceOk cc) {vm : VM I S} (hvm : OnlyReads vm) {text : Str}
    {ks : List ElementVerbose} {rules : AMap Nat (NTRule I)} {dflt : Option Nat} {s : RP I}
    (h : PartRun cc vm (preparedParser text (prepared ks rules dflt)) s) {E : List ElementVerbose} (hE : Holds s.pd E)
    (qs : List Production) (w : Str) (F : List ElementVerbose) :
    (∃ s', parseAlts cc s = (.ok qs, s') ∧ s'.proc.rest = w ∧ Holds s'.pd F) ↔
      ∃ as, AltsReads cc s.proc.rest as w ∧ F = firstOccurrences (E ++ as.flatten) ∧ qs = as.map (altMeaning F) := by
  obtain ⟨p, pd⟩ := s
  obtain ⟨u, v, E', h1, h2, h3, h4⟩ := h.stands hvm
  simp only at h2 h3 h4 hE
  subst h2
  have : E = E' := hE.unique h3.holds
  subst this
  simp only [rest_at]
  constructor
  · rintro ⟨s', hc, rfl, hF⟩
    obtain ⟨u1, w1, pd1, ks1, g1, g2, g3, g4⟩ := reads_alts_exact (vm := vm) (w := v) (k := u.length) h3 cc
    rw [hc] at g1 g4
    simp only at g1 g4
    subst g1
    rcases g4 with ⟨x, hx, as, ha, rfl, rfl⟩ | ⟨e, he, -⟩
    · cases hx
      have hF' : F = firstOccurrences (E ++ as.flatten) := by rw [← addAll_eq_first h3]; exact hF.unique g3.ok.holds
      refine ⟨as, by rw [g2, rest_at]; exact ha, hF', ?_⟩
      rw [hF', ← addAll_eq_first h3]
    · cases he
  · rintro ⟨as, ha, rfl, rfl⟩
    obtain ⟨k', pd', g1, g2⟩ := ha.parse hcc u.length h3
    rw [addAll_eq_first h3] at g1
    refine ⟨_, g1, rfl, ?_⟩
    rw [← addAll_eq_first h3]; exact g2.ok.holds

/-- **C102**: where the specification reads nothing, both calls return an error. -/
theorem C102_otherwise_error {cc : CharClass} (hcc : SpaceOk cc) {vm : VM I S} (hvm : OnlyReads vm) {text : Str}
    {ks : List ElementVerbose} {rules : AMap Nat (NTRule I)} {dflt : Option Nat} {s : RP I}
    (h : PartRun cc vm (preparedParser text (prepared ks rules dflt)) s) :
    ((∃ e, (parseProd cc s).1 = .err e) ↔ ¬ ∃ a w, AltReads cc s.proc.rest a w) ∧
    ((∃ e, (parseAlts cc s).1 = .err e) ↔ ¬ ∃ as w, AltsReads cc s.proc.rest as w) := by
  obtain ⟨p, pd⟩ := s
  obtain ⟨u, v, E, h1, h2, h3, h4⟩ := h.stands hvm
  simp only at h2 h3 h4
  subst h2
  simp only [rest_at]
  refine ⟨⟨?_, ?_⟩, ?_, ?_⟩
  · rintro ⟨e, he⟩ ⟨a, w, ha⟩
    obtain ⟨k', pd', g1, -⟩ := ha.parse hcc u.length h3
    rw [g1] at he; cases he
  · intro hno
    obtain ⟨u1, w1, pd1, ks1, g1, g2, g3, ⟨x, hx, a, ha, -⟩ | ⟨e, he, -⟩⟩ :=
      reads_prod_exact (vm := vm) (w := v) (k := u.length) h3 cc
    · exact absurd ⟨a, w1, by rw [g2]; exact ha⟩ hno
    · exact ⟨e, he⟩
  · rintro ⟨e, he⟩ ⟨as, w, ha⟩
    obtain ⟨k', pd', g1, -⟩ := ha.parse hcc u.length h3
    rw [g1] at he; cases he
  · intro hno
    obtain ⟨u1, w1, pd1, ks1, g1, g2, g3, ⟨x, hx, as, ha, -⟩ | ⟨e, he, -⟩⟩ :=
      reads_alts_exact (vm := vm) (w := v) (k := u.length) h3 cc
    · exact absurd ⟨as, w1, by rw [g2]; exact ha⟩ hno
    · exact ⟨e, he⟩

/-- **C102**: text is lost in one way only.  What was read is the text of alternatives with white space around it, or it is
followed by an unfinished terminal that reaches to the end of the text. -/
theorem C102_lost {cc : CharClass} {v w : Str} {as : List (List ElementVerbose)} (h : AltsReads cc v as w) :
    ∃ g0 t g b, v = g0 ++ (t ++ (g ++ (b ++ w))) ∧ IsSpace g0 ∧ IsSpace g ∧ AltsText cc as t ∧
      (b = [] ∨ (w = [] ∧ ∃ b', b = '"' :: b' ∧ quotedFrom false b' = none)) := by
  have one : ∀ {v w : Str} {a : List ElementVerbose}, AltReads cc v a w →
      ∃ g0 t g b, v = g0 ++ (t ++ (g ++ (b ++ w))) ∧ IsSpace g0 ∧ IsSpace g ∧ AltText cc a t ∧
        (b = [] ∨ (w = [] ∧ ∃ b', b = '"' :: b' ∧ quotedFrom false b' = none)) := by
    intro v w a h
    cases h with
    | empty w hg => exact ⟨_, c% "#", [], [], by simp, hg, isSpace_nil, .empty, .inl rfl⟩
    | elements hg0 hs hg _ hL =>
      cases hL with
      | other _ => exact ⟨_, _, _, [], rfl, hg0, hg, .seq hs, .inl rfl⟩
      | @unfinished b hq => exact ⟨_, _, _, '"' :: b, by simp, hg0, hg, .seq hs, .inr ⟨rfl, b, rfl, hq⟩⟩
  induction h with
  | last ha hg hw =>
    obtain ⟨g0, t, g', b, rfl, hg0, hg', ht, rfl | ⟨hn, hb⟩⟩ := one ha
    · exact ⟨g0, t, _, [], by rw [List.nil_append, List.nil_append, ← List.append_assoc g'], hg0, isSpace_append hg' hg,
        .one ht, .inl rfl⟩
    · simp only [List.append_eq_nil_iff] at hn
      obtain ⟨rfl, rfl⟩ := hn
      exact ⟨g0, t, g', b, by simp, hg0, hg', .one ht, .inr ⟨rfl, hb⟩⟩
  | more ha hg _ ih =>
    obtain ⟨g0, t, g', b, rfl, hg0, hg', ht, rfl | ⟨hn, hb⟩⟩ := one ha
    · obtain ⟨g1, t1, g1', b1, rfl, hg1, hg1', ht1, hb1⟩ := ih
      exact ⟨g0, _, g1', b1, by simp, hg0, hg1', .cons ht (isSpace_append hg' hg) hg1 ht1, hb1⟩
    · simp at hn

/-- The state of `C82_refuted`: the specification reads `a` and loses the rest. -/
example : AltReads .ascii (c% "a \"b | c;") [⟨c% "a", .nonTerminal⟩] [] := by
  have := AltReads.elements (cc := .ascii) (g0 := []) (t := c% "a") (g := c% " ") (v := c% "\"b | c;") (w := [])
    (es := [⟨c% "a", .nonTerminal⟩]) isSpace_nil (.one (.name ⟨_, _, rfl, by decide, by simp⟩)) (by intro c h; simp at h; subst h; decide)
    (by intro e he _ c r hc; cases hc; decide) (.unfinished (by decide +kernel))
  exact this

/-- Two alternatives, read up to the `;`. -/
example : AltsReads .ascii (c% "a | #;") [[⟨c% "a", .nonTerminal⟩], []] (c% ";") := by
  refine .more (g := []) (v' := c% " #;") ?_ isSpace_nil (.last (g := []) ?_ isSpace_nil ?_)
  · have := AltReads.elements (cc := .ascii) (g0 := []) (t := c% "a") (g := c% " ") (v := c% "| #;") (w := c% "| #;")
      (es := [⟨c% "a", .nonTerminal⟩]) isSpace_nil (.one (.name ⟨_, _, rfl, by decide, by simp⟩)) (by intro c h; simp at h; subst h; decide)
      (by intro e he _ c r hc; cases hc; decide) (.other (by intro c r hc; cases hc; decide))
    exact this
  · exact AltReads.empty (cc := .ascii) (g := c% " ") (c% ";") (by intro c h; simp at h; subst h; decide)
  · intro c r hc; cases hc; decide

end HPP
