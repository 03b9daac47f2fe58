import Verif.Props.Earliest
import Verif.Proofs.StackFails
/-
Errors in the sections of StackVm are reported as early as possible, too.
-/
namespace HPP
open Spec
variable {I S : Type}

/-- **C116**, for any VM that reads and fails in turn: an error (without `H`) is reported at the earliest possible place. -/
theorem C116_any_vm {cc : CharClass} (hcc : SpaceOk cc) {vm : VM I S} {H : PErr → Prop} (hvm : ReadsInTurn vm) (hfl : FailsInTurn vm H)
    {ho : HashOrder} {text : Str} {e : PErr} (h : parseRules ho cc vm text = .err e) :
    (H e ∧ FromSection vm text e) ∨
    ((∃ i, e = .internal i) ∧ ∃ rs, RulesText cc (ReadsSection vm) rs text ∧ ¬ IgnoresDefined rs) ∨
    ∃ u v, text = u ++ v ∧ ReportedIn u v e ∧ Viable cc vm u ∧ ¬ FollowsSyntax cc vm text ∧
      ∀ c r, v = c :: r → ¬ Viable cc vm (u ++ [c]) := by
  have hgo : ∀ t, rulesGo cc vm (⟨Proc.at t 0, ParserData.new⟩ : RP I) = parseRulesLoop cc vm (t.length + 1) (RP.new t) := fun _ => rfl
  have hfail : ∀ t e, (rulesGo cc vm (⟨Proc.at t 0, ParserData.new⟩ : RP I)).1 = .err e → ¬ FollowsSyntax cc vm t := by
    rintro t e he ⟨rs, hrs⟩
    obtain ⟨k', pd', h1, -⟩ := rulesLoop_complete hcc hrs (t.length + 1) 0 ParserData.new [] (by omega) .new
    rw [hgo] at he
    have h1' : parseRulesLoop cc vm (t.length + 1) (RP.new t) = _ := h1
    rw [h1'] at he
    cases he
  have herr : ∀ e', (rulesGo cc vm (⟨Proc.at text 0, ParserData.new⟩ : RP I)).1 = .err e' → e' = e := by
    intro e' he'
    rw [hgo] at he'
    rw [parseRules] at h
    rcases hx : parseRulesLoop cc vm (text.length + 1) (RP.new text) with ⟨r, s⟩
    rw [hx] at h he'
    simp only at he'
    subst he'
    cases h
    rfl
  cases ends_rulesGo (H := H) hvm hfl cc (text.length + 1) text 0 ParserData.new (by omega) with
  | @ok u v a pd' h1 h2 h3 =>
    obtain ⟨rfl, rs, hrs⟩ := h2
    rw [List.append_nil] at h1
    subst h1
    refine .inr (.inl ?_)
    obtain ⟨pd0, hm, he⟩ := parseRules_complete hcc hrs ho
    rw [h] at he
    rcases editRules_spec ho hm.wellFormed hm.ignoresNT with ⟨pd', h4, -⟩ | ⟨e', h4, h5⟩
    · rw [h4] at he; cases he
    · exact ⟨editRules_err he.symm, rs, hrs, hm.badIgnore h5⟩
  | @err u v e' h1 h2 h3 h4 =>
    have h5 := h4 v rfl
    rw [← h1] at h5
    obtain rfl := herr e' h5
    refine .inr (.inr ⟨u, v, h1, .inl h3, h2, hfail _ _ h5, ?_⟩)
    rintro c r rfl ⟨more, hv⟩
    refine hfail _ _ (h4 (c :: more) rfl) ?_
    rw [List.append_assoc] at hv
    exact hv
  | @sec u r e' g1 g2 g3 h1 g5 =>
    have h2 := g5 r
    rw [← g1] at h2
    obtain rfl := herr _ h2
    rw [Nat.zero_add] at g3
    refine .inr (.inr ⟨u, '}' :: r, g1, .inr ⟨r, rfl, g3⟩, g2, hfail _ _ h2, ?_⟩)
    rintro c r' hr ⟨more, hv⟩
    cases hr
    refine hfail _ _ (g5 more) ?_
    rw [List.append_assoc] at hv
    exact hv
  | vm h0 h1 h2 =>
    obtain rfl := herr _ h2
    obtain ⟨u, v, name, rfl, h3⟩ := h1
    rw [Nat.zero_add] at h3
    exact .inl ⟨h0, u, v, name, rfl, h3⟩

/-- **C116.** Every error of rule parsing with StackVm, inside or outside of sections, is reported at the earliest possible
place, except for a constant that does not fit into a machine word and for an undefined name in an ignore production of a text
that follows the syntax. -/
theorem C116_stackVm {cc : CharClass} (hcc : SpaceOk cc) {checked : Bool} {ho : HashOrder} {text : Str} {e : PErr}
    (h : parseRules ho cc (stackVm cc checked) text = .err e) :
    (e = .impossible ∧ BigConst text) ∨
    ((∃ i, e = .internal i) ∧ ∃ rs, RulesText cc (ReadsSection (stackVm cc checked)) rs text ∧ ¬ IgnoresDefined rs) ∨
    ∃ u v, text = u ++ v ∧ ReportedIn u v e ∧ Viable cc (stackVm cc checked) u ∧ ¬ FollowsSyntax cc (stackVm cc checked) text ∧
      ∀ c r, v = c :: r → ¬ Viable cc (stackVm cc checked) (u ++ [c]) := by
  rcases C116_any_vm hcc (stackVm_inTurn hcc checked) (stackVm_failsInTurn hcc checked) h with ⟨rfl, u, v, name, rfl, h1⟩ | h1 | h1
  · exact .inl ⟨rfl, (stackVm_impossible h1).suffix⟩
  · exact .inr (.inl h1)
  · exact .inr (.inr h1)

/-- **C116**, input that is merely unfinished: an error for a text that can be continued to one that follows the syntax says that
the text ended or that an element is missing at its end. -/
theorem C116_unfinished {cc : CharClass} (hcc : SpaceOk cc) {checked : Bool} {ho : HashOrder} {text : Str} {e : PErr}
    (h : parseRules ho cc (stackVm cc checked) text = .err e) (hv : Viable cc (stackVm cc checked) text)
    (hf : ¬ FollowsSyntax cc (stackVm cc checked) text) :
    (e = .impossible ∧ BigConst text) ∨ e = .endOfChars text.length ∨ e = .gram (.unexpectedElement false text.length) := by
  rcases C116_stackVm hcc h with h1 | ⟨-, rs, h1, -⟩ | ⟨u, v, rfl, h2, -, -, h4⟩
  · exact .inl h1
  · exact absurd ⟨rs, h1⟩ hf
  · refine .inr ?_
    cases v with
    | cons c r =>
      obtain ⟨more, hm⟩ := hv
      exact absurd ⟨r ++ more, by simpa using hm⟩ (h4 c r rfl)
    | nil =>
      rw [List.append_nil]
      rcases h2 with h2 | ⟨r, hr, -⟩
      · cases h2 with
        | ended => rw [Nat.zero_add]; exact .inl rfl
        | missing => rw [Nat.zero_add]; exact .inr rfl
      · cases hr

namespace Samples

/-- A misspelt separator inside a section. -/
def stackBad : Str := c% "s -> \"a\" {Add, Sub;};"

end Samples

/-- A comma instead of a semicolon: the text before it is the beginning of a rule text, with the comma it is not. -/
example : Viable .ascii (stackVm .ascii true) (c% "s -> \"a\" {Add") ∧ ¬ Viable .ascii (stackVm .ascii true) (c% "s -> \"a\" {Add,") := by
  have h : parseRules .insertion .ascii (stackVm .ascii true) Samples.stackBad = .err (.unexpectedChar ',' 13 (c% ";")) :=
    Samples.showErr_eq (by decide +kernel)
  rcases C116_stackVm Samples.ruleText_reads.1 h with ⟨h1, -⟩ | ⟨⟨i, h1⟩, -⟩ | ⟨u, v, h1, h2, h3, -, h4⟩
  · cases h1
  · cases h1
  · rcases h2 with h2 | ⟨r, -, h2⟩
    · cases v with
      | nil => cases h2
      | cons c r =>
        have hlen : u.length = 13 := by
          generalize he : PErr.unexpectedChar ',' 13 (c% ";") = e at h2
          cases h2 with
          | char =>
            simp only [PErr.unexpectedChar.injEq] at he
            omega
          | missing => cases he
          | misplaced => cases he
        have hu : u = c% "s -> \"a\" {Add" := by
          have := congrArg (List.take u.length) h1
          rw [List.take_left, hlen] at this
          exact this.symm
        subst hu
        cases h1
        exact ⟨h3, h4 _ _ rfl⟩
    · cases h2

/-- A section that is closed before its last instruction is finished. -/
example : ¬ Viable .ascii (stackVm .ascii true) (c% "s -> \"a\" {Pow };") := by
  have h : parseRules .insertion .ascii (stackVm .ascii true) (c% "s -> \"a\" {Pow };") = .err (.endOfChars 14) :=
    Samples.showErr_eq (by decide +kernel)
  intro hv
  have hf : ¬ FollowsSyntax .ascii (stackVm .ascii true) (c% "s -> \"a\" {Pow };") := by
    rintro ⟨rs, hrs⟩
    obtain ⟨pd, -, he⟩ := parseRules_complete Samples.ruleText_reads.1 hrs .insertion
    rw [h] at he
    have := editRules_err he.symm
    obtain ⟨i, hi⟩ := this
    cases hi
  rcases C116_unfinished Samples.ruleText_reads.1 h hv hf with ⟨h1, -⟩ | h1 | h1
  · cases h1
  · cases h1
  · cases h1

/-- A constant that is too large. -/
example : parseRules .insertion .ascii (stackVm .ascii true) (c% "s -> \"a\" {Pow 18446744073709551616;};") = .err .impossible :=
  Samples.showErr_eq (by decide +kernel)

end HPP
