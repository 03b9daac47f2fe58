import Verif.Proofs.EarliestRule
import Verif.Props.RuleText
import Verif.Props.Sections
/-
C103: errors of rule texts are found as early as possible.
-/
namespace HPP
open Spec
variable {I S : Type}

/-! ### The built-in VMs -/

theorem sectionFrom_rest (stop esc : Char) : ∀ (e : Bool) (w : Str), ∃ v, w = sectionFrom stop esc e w ++ v ∧
    (v = [] ∨ ∃ r, v = stop :: r ∧ sectionFrom stop esc e (sectionFrom stop esc e w ++ [stop]) = sectionFrom stop esc e w)
  | _, [] => ⟨[], rfl, .inl rfl⟩
  | e, c :: w => by
    simp only [sectionFrom]
    split
    · next h =>
      obtain ⟨rfl, rfl⟩ := h
      exact ⟨c :: w, rfl, .inr ⟨w, rfl, by simp [sectionFrom]⟩⟩
    · next h =>
      obtain ⟨v, h1, h2⟩ := sectionFrom_rest stop esc (decide (c = esc)) w
      refine ⟨v, by rw [List.cons_append, ← h1], ?_⟩
      rcases h2 with h2 | ⟨r, h2, h3⟩
      · exact .inl h2
      · refine .inr ⟨r, h2, ?_⟩
        simp only [List.cons_append, sectionFrom, if_neg h, h3]

/-- A section text that has not ended can be continued and closed. -/
theorem sectionFrom_close : ∀ (e : Bool) (w : Str), sectionFrom '}' '\\' e w = w →
    ∃ x, sectionFrom '}' '\\' e (w ++ x ++ ['}']) = w ++ x ∧ (w = [] → e = false → x = [])
  | false, [], _ => ⟨[], by decide, fun _ _ => rfl⟩
  | true, [], _ => ⟨['a'], by decide, fun _ h => by cases h⟩
  | e, c :: w, h => by
    simp only [sectionFrom] at h
    split at h
    · cases h
    · next hc =>
      obtain ⟨x, hx, -⟩ := sectionFrom_close (decide (c = '\\')) w (by simpa using h)
      refine ⟨x, ?_, fun h => by cases h⟩
      simp only [List.cons_append, sectionFrom, if_neg hc, hx]

/-- A VM that reads every section to its end and does not look at it. -/
theorem drains_inTurn {vm : VM I S} {f : Str → List I}
    (h : ∀ name w k, ∃ p', vm.parseInstructions name (sectionProcess w k) = (.ok (f name), p') ∧
      p'.src = Proc.at (w.drop (sectionOf '}' '\\' w).length) (k + (sectionOf '}' '\\' w).length)) : ReadsInTurn vm where
  returns := by
    intro name w k
    obtain ⟨p', h1, -⟩ := h name w k
    exact .inl ⟨_, by rw [h1]⟩
  turn := by
    intro name w k is hw his
    obtain ⟨p', h1, h2⟩ := h name w k
    rw [h1] at his
    simp only [Res.ok.injEq] at his
    subst his
    have hreads : ∀ body, sectionOf '}' '\\' (body ++ ['}']) = body → ReadsSection vm name body (f name) := by
      intro body hb rest k
      obtain ⟨p, h3, h4⟩ := h name (body ++ '}' :: rest) k
      exact ⟨p, h3, h4.trans ((section_at_body rfl).2 hb)⟩
    obtain ⟨v, hv, hcase⟩ := sectionFrom_rest '}' '\\' false w
    refine ⟨sectionOf '}' '\\' w, v, hv, ?_, ?_, ?_⟩
    · intro v' hv'
      obtain ⟨p, h3, h4⟩ := h name (sectionOf '}' '\\' w ++ v') k
      refine ⟨p, h3, h4.trans ?_⟩
      rcases hcase with rfl | ⟨r, rfl, hc⟩
      · cases v' with
        | cons c r => cases hv'
        | nil =>
          rw [List.append_nil] at hv ⊢
          have : sectionOf '}' '\\' (sectionOf '}' '\\' w) = sectionOf '}' '\\' w := congrArg _ hv.symm
          rw [this, List.drop_length]
          rfl
      · cases v' with
        | nil => cases hv'
        | cons c r' =>
          cases hv'
          exact (section_at_body rfl).2 hc
    · rintro r rfl
      rcases hcase with hc | ⟨r', -, hc⟩
      · cases hc
      · exact hreads _ hc
    · rcases hcase with rfl | ⟨r, rfl, hc⟩
      · rw [List.append_nil] at hv
        obtain ⟨x, hx1, hx2⟩ := sectionFrom_close false (sectionOf '}' '\\' w) (congrArg _ hv.symm)
        refine ⟨x, _, ?_, hreads _ hx1⟩
        have hs : sectionOf '}' '\\' w = w := hv.symm
        rw [hs] at hx2 ⊢
        intro c r hc
        cases w with
        | nil => rw [hx2 rfl rfl] at hc; cases hc
        | cons d w => cases hc; exact hw _ _ rfl
      · refine ⟨[], _, ?_, by rw [List.append_nil]; exact hreads _ hc⟩
        rw [List.append_nil]
        intro c r' hr'
        refine hw c (r' ++ '}' :: r) ?_
        have hv2 : w = sectionOf '}' '\\' w ++ '}' :: r := hv
        rw [hr'] at hv2
        exact hv2

theorem nullVm_inTurn : ReadsInTurn nullVm :=
  drains_inTurn (f := fun _ => [0]) fun name w k => by
    obtain ⟨p', h1, h2, -⟩ := nullVm_section name w k
    exact ⟨p', h1, h2⟩

theorem simpleStackVm_inTurn (checked : Bool) : ReadsInTurn (simpleStackVm checked) :=
  drains_inTurn (f := simpleInstr) fun name w k => by
    obtain ⟨p', h1, h2, -⟩ := simpleStackVm_section checked name w k
    exact ⟨p', h1, h2⟩

theorem countingVm_inTurn (checked : Bool) : ReadsInTurn (countingVm checked) where
  returns := fun _ _ _ => .inl ⟨[0], rfl⟩
  turn := by
    intro name w k is hw his
    have his' : [0] = is := by cases his; rfl
    subst his'
    refine ⟨[], w, rfl, fun v' _ => ⟨_, rfl, rfl⟩, fun r _ => (countingVm_reads checked name [] _).2 ⟨rfl, rfl⟩, [], [0], ?_,
      (countingVm_reads checked name [] _).2 ⟨rfl, rfl⟩⟩
    intro c r h; cases h

theorem stackVm_inTurn {cc : CharClass} (hcc : SpaceOk cc) (checked : Bool) : ReadsInTurn (stackVm cc checked) where
  returns := (stackVm_onlyReads cc checked).returns
  turn := by
    intro name t k is hw his
    obtain ⟨w, tail, rfl, hb, ht⟩ := brace_split t
    obtain ⟨u, w', h1, -, h3⟩ := stackParse_sound cc w tail hb ht k
    rcases h3 with ⟨a, ha, rfl, hs⟩ | ⟨e, he, -⟩
    · have : (stackParse cc (sectionProcess (w ++ tail) k)).1 = .ok is := his
      rw [ha] at this
      cases this
      rw [List.append_nil] at h1
      subst h1
      refine ⟨w, tail, rfl, ?_, ?_, [], is, ?_, ?_⟩
      · intro v' hv'
        refine stackParse_complete hcc hs hb ?_ k
        rcases ht with rfl | ⟨r, rfl⟩
        · cases v' with
          | nil => exact .inl rfl
          | cons c r => cases hv'
        · cases v' with
          | nil => cases hv'
          | cons c r => cases hv'; exact .inr ⟨r, rfl⟩
      · exact fun _ _ => (stackVm_reads hcc checked name w is).2 hs
      · rw [List.append_nil]
        rintro c r rfl
        exact hw c (r ++ tail) rfl
      · rw [List.append_nil]
        exact (stackVm_reads hcc checked name w is).2 hs
    · have : (stackParse cc (sectionProcess (w ++ tail) k)).1 = .ok is := his
      rw [he] at this
      cases this

/-! ### C103 -/

/-- **C103.** An error of rule parsing that does not come from a section, or from an undefined name in an ignore production of
a text that follows the syntax, is reported at the earliest possible place: what stands before that place can be continued to
a text that follows the syntax, and, unless the text ends there, with the character that stands there no continuation
can. -/
theorem C103_earliest {cc : CharClass} (hcc : SpaceOk cc) {vm : VM I S} (hvm : ReadsInTurn vm) {ho : HashOrder} {text : Str} {e : PErr}
    (h : parseRules ho cc vm text = .err e) :
    FromSection vm text e ∨
    ((∃ i, e = .internal i) ∧ ∃ rs, RulesText cc (ReadsSection vm) rs text ∧ ¬ IgnoresDefined rs) ∨
    ∃ u v, text = u ++ v ∧ ReportedAt 0 u v e ∧ Viable cc vm u ∧ ¬ FollowsSyntax cc vm text ∧
      ∀ c r, v = c :: r → ¬ Viable cc vm (u ++ [c]) := by
  have hgo : ∀ t, rulesGo cc vm (⟨Proc.at t 0, ParserData.new⟩ : RP I) = parseRulesLoop cc vm (t.length + 1) (RP.new t) := fun _ => rfl
  have hfail : ∀ t e, (rulesGo cc vm (⟨Proc.at t 0, ParserData.new⟩ : RP I)).1 = .err e → ¬ FollowsSyntax cc vm t := by
    rintro t e he ⟨rs, hrs⟩
    obtain ⟨k', pd', h1, -⟩ := rulesLoop_complete hcc hrs (t.length + 1) 0 ParserData.new [] (by omega) .new
    rw [hgo] at he
    have h1' : parseRulesLoop cc vm (t.length + 1) (RP.new t) = _ := h1
    rw [h1'] at he
    cases he
  have herr : ∀ e', (rulesGo cc vm (⟨Proc.at text 0, ParserData.new⟩ : RP I)).1 = .err e' → e' = e := by
    intro e' he'
    rw [hgo] at he'
    rw [parseRules] at h
    rcases hx : parseRulesLoop cc vm (text.length + 1) (RP.new text) with ⟨r, s⟩
    rw [hx] at h he'
    simp only at he'
    subst he'
    cases h
    rfl
  cases ends_rulesGo (H := fun _ => True) hvm (fun _ _ _ _ _ _ => .inl trivial) cc (text.length + 1) text 0 ParserData.new (by omega) with
  | @ok u v a pd' h1 h2 h3 =>
    obtain ⟨rfl, rs, hrs⟩ := h2
    rw [List.append_nil] at h1
    subst h1
    refine .inr (.inl ?_)
    obtain ⟨pd0, hm, he⟩ := parseRules_complete hcc hrs ho
    rw [h] at he
    rcases editRules_spec ho hm.wellFormed hm.ignoresNT with ⟨pd', h4, -⟩ | ⟨e', h4, h5⟩
    · rw [h4] at he; cases he
    · exact ⟨editRules_err he.symm, rs, hrs, hm.badIgnore h5⟩
  | @err u v e' h1 h2 h3 h4 =>
    have h5 := h4 v rfl
    rw [← h1] at h5
    obtain rfl := herr e' h5
    refine .inr (.inr ⟨u, v, h1, h3, h2, hfail _ _ h5, ?_⟩)
    rintro c r rfl ⟨more, hv⟩
    refine hfail _ _ (h4 (c :: more) rfl) ?_
    rw [List.append_assoc] at hv
    exact hv
  | @sec u r e' g1 g2 g3 h1 g5 =>
    have h2 := g5 r
    rw [← g1] at h2
    obtain rfl := herr _ h2
    obtain ⟨u, v, name, rfl, h3⟩ := h1
    rw [Nat.zero_add] at h3
    exact .inl ⟨u, v, name, rfl, h3⟩
  | vm _ h1 h2 =>
    obtain rfl := herr _ h2
    obtain ⟨u, v, name, rfl, h3⟩ := h1
    rw [Nat.zero_add] at h3
    exact .inl ⟨u, v, name, rfl, h3⟩

/-- **C103**, input that is merely unfinished: if the text can be continued to one that follows the syntax, an error (which
does not come from a section or an ignore production) says that the text ended, or that an element is missing at its end. -/
theorem C103_unfinished {cc : CharClass} (hcc : SpaceOk cc) {vm : VM I S} (hvm : ReadsInTurn vm) {ho : HashOrder} {text : Str} {e : PErr}
    (h : parseRules ho cc vm text = .err e) (hv : Viable cc vm text) :
    FromSection vm text e ∨ FollowsSyntax cc vm text ∨
    e = .endOfChars text.length ∨ e = .gram (.unexpectedElement false text.length) := by
  rcases C103_earliest hcc hvm h with h1 | ⟨-, rs, h1, -⟩ | ⟨u, v, rfl, h2, -, -, h4⟩
  · exact .inl h1
  · exact .inr (.inl ⟨rs, h1⟩)
  · refine .inr (.inr ?_)
    cases v with
    | cons c r =>
      obtain ⟨more, hm⟩ := hv
      exact absurd ⟨r ++ more, by simpa using hm⟩ (h4 c r rfl)
    | nil =>
      rw [List.append_nil]
      cases h2 with
      | ended => rw [Nat.zero_add]; exact .inl rfl
      | missing => rw [Nat.zero_add]; exact .inr rfl

/-- **C103**, conversely: an error that says that the text ended, and does not come from a section, means that the text can be
continued to one that follows the syntax. -/
theorem C103_ended {cc : CharClass} (hcc : SpaceOk cc) {vm : VM I S} (hvm : ReadsInTurn vm) {ho : HashOrder} {text : Str} {n : Nat}
    (h : parseRules ho cc vm text = .err (.endOfChars n)) :
    FromSection vm text (.endOfChars n) ∨ (n = text.length ∧ Viable cc vm text ∧ ¬ FollowsSyntax cc vm text) := by
  rcases C103_earliest hcc hvm h with h1 | ⟨⟨i, h1⟩, -⟩ | ⟨u, v, rfl, h2, h3, h4, -⟩
  · exact .inl h1
  · cases h1
  · cases h2
    rw [List.append_nil] at h4 ⊢
    exact .inr ⟨by simp, h3, h4⟩

/-- A VM that never rejects a section reports nothing from one. -/
theorem nullVm_noSectionErr {text : Str} {e : PErr} : ¬ FromSection nullVm text e := by
  rintro ⟨u, v, name, -, h⟩
  obtain ⟨p, h1, -⟩ := nullVm_section name v u.length
  rw [h1] at h
  cases h

/-- `#` behind an element: what stands before it is the beginning of a rule text, with the `#` it is not. -/
example : Viable .ascii nullVm (c% "s -> a ") ∧ ¬ Viable .ascii nullVm (c% "s -> a #") := by
  have h : parseRules .insertion .ascii nullVm (c% "s -> a # ;") = .err (.gram (.unexpectedElement true 8)) :=
    Samples.showErr_eq (by decide +kernel)
  rcases C103_earliest Samples.ruleText_reads.1 nullVm_inTurn h with h1 | ⟨⟨i, h1⟩, -⟩ | ⟨u, v, h1, h2, h3, -, h4⟩
  · exact absurd h1 nullVm_noSectionErr
  · cases h1
  · cases v with
    | nil => cases h2
    | cons c r =>
      have hlen : u.length = 7 := by
        generalize he : PErr.gram (.unexpectedElement true 8) = e at h2
        cases h2 with
        | char => cases he
        | missing => cases he
        | misplaced =>
          simp only [PErr.gram.injEq, GErr.unexpectedElement.injEq, true_and] at he
          omega
      have hu : u = c% "s -> a " := by
        have := congrArg (List.take u.length) h1
        rw [List.take_left, hlen] at this
        exact this.symm
      subst hu
      cases h1
      exact ⟨h3, h4 _ _ rfl⟩

/-- An unfinished terminal: more text can repair it. -/
example : Viable .ascii nullVm (c% "s -> a \"b ; {x}") := by
  have h : parseRules .insertion .ascii nullVm (c% "s -> a \"b ; {x}") = .err (.endOfChars 15) :=
    Samples.showErr_eq (by decide +kernel)
  rcases C103_ended Samples.ruleText_reads.1 nullVm_inTurn h with h1 | ⟨-, h1, -⟩
  · exact absurd h1 nullVm_noSectionErr
  · exact h1

end HPP
