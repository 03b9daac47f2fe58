import Verif.Proofs.Earliest
/-
Alternatives, overrides, sections, rules and rule texts: what was read before an error can be continued.
-/
namespace HPP
open Spec
variable {I S : Type}

section
variable {vm : VM I S} {H : PErr → Prop} {w : Str} {k : Nat} {pd : ParserData I} {α β : Type}

theorem smBind_congr {σ ε α β : Type} {x : SM σ ε α} {f f' : α → SM σ ε β} {s : σ}
    (h : ∀ a s1, x s = (.ok a, s1) → f a s1 = f' a s1) : (x >>= f) s = (x >>= f') s := by
  rw [SM.bind_apply, SM.bind_apply]
  rcases hx : x s with ⟨r, s1⟩
  cases r with
  | ok a => exact h a s1 hx
  | err e => rfl
  | panic => rfl
  | timeout => rfl

/-- The state after a successful part. -/
theorem Ends.state {x : SM (RP I) PErr α} {Q : α → Str → Str → Prop} {R : Str → Prop} (h : Ends vm H x w k pd Q R) {a : α} {s : RP I}
    (hx : x ⟨Proc.at w k, pd⟩ = (.ok a, s)) : ∃ u v pd', w = u ++ v ∧ Q a u v ∧ s = ⟨Proc.at v (k + u.length), pd'⟩ := by
  cases h with
  | @ok u v a' pd' h1 h2 h3 =>
    have := h3 v rfl
    rw [← h1, hx] at this
    simp only [Prod.mk.injEq, Res.ok.injEq] at this
    obtain ⟨rfl, rfl⟩ := this
    exact ⟨u, v, pd', h1, h2, rfl⟩
  | @err u v e h1 h2 h3 h4 =>
    have := h4 v rfl
    rw [← h1, hx] at this
    cases this
  | @sec u r e h1 h2 h3 h4 h5 =>
    have := h5 r
    rw [← h1, hx] at this
    cases this
  | vm _ _ h2 => rw [hx] at h2; cases h2

/-! ### Alternatives -/

theorem altsLoop_bar' (cc : CharClass) (fuel : Nat) (acc : List Production) {g g' w : Str} (hg : IsSpace g)
    (hg' : IsSpace g') (hw : NoSpaceAhead w) (k : Nat) (pd : ParserData I) :
    parseAltsLoop cc (fuel + 1) acc ⟨Proc.at (g ++ '|' :: (g' ++ w)) k, pd⟩ =
      (parseProd cc >>= fun p => parseAltsLoop cc fuel (acc ++ [p])) ⟨Proc.at w (k + g.length + 1 + g'.length), pd⟩ := by
  have hb : NoSpaceAhead ('|' :: (g' ++ w)) := by intro c r he; cases he; decide
  obtain ⟨e, he⟩ := rpSymbol_err (c := '\n') (w := '|' :: (g' ++ w)) (by simp) (k + g.length) pd
  rw [parseAltsLoop, smBind_ok (rpWhitespace_ok hg hb k pd), smBind_ok (smTry_err he),
    smBind_ok (rpWhitespace_none hb _ pd), smBind_ok (smTry_ok (rpSymbol_ok '|' _ _ pd))]
  exact smBind_ok (rpWhitespace_ok hg' hw _ pd)

theorem altsLoop_ends' (cc : CharClass) (fuel : Nat) (acc : List Production) {g w : Str} (hg : IsSpace g)
    (hw : ∀ c r, w = c :: r → CharClass.isWhitespace c = false ∧ c ≠ '|') (k : Nat) (pd : ParserData I) :
    parseAltsLoop cc (fuel + 1) acc ⟨Proc.at (g ++ w) k, pd⟩ = (.ok acc, ⟨Proc.at w (k + g.length), pd⟩) := by
  have hb : NoSpaceAhead w := fun c r h => (hw c r h).1
  have h1 : w.head? ≠ some '\n' := by
    cases w with
    | nil => simp
    | cons c r =>
      simp only [List.head?_cons, ne_eq, Option.some.injEq]
      rintro rfl
      exact absurd (hb _ _ rfl) (by decide)
  have h2 : w.head? ≠ some '|' := by
    cases w with
    | nil => simp
    | cons c r => simpa using (hw c r rfl).2
  obtain ⟨e, he⟩ := rpSymbol_err h1 (k + g.length) pd
  obtain ⟨e', he'⟩ := rpSymbol_err h2 (k + g.length) pd
  rw [parseAltsLoop, smBind_ok (rpWhitespace_ok hg hb k pd), smBind_ok (smTry_err he),
    smBind_ok (rpWhitespace_none hb _ pd), smBind_ok (smTry_err he')]
  rfl

theorem altsLoop_fuel (vm : VM I S) (cc : CharClass) : ∀ (n n' : Nat) (acc : List Production) (w : Str) (k : Nat) (pd : ParserData I),
    w.length < n → w.length < n' →
    parseAltsLoop cc n acc ⟨Proc.at w k, pd⟩ = parseAltsLoop cc n' acc ⟨Proc.at w k, pd⟩
  | 0, _, _, _, _, _, h, _ => by omega
  | _ + 1, 0, _, _, _, _, _, h => by omega
  | n + 1, n' + 1, acc, w, k, pd, h, h' => by
    obtain ⟨g, v, rfl, hg, hv, -⟩ := space_split w
    by_cases hb : v.head? = some '|'
    · obtain ⟨v1, rfl⟩ : ∃ r, v = '|' :: r := by
        cases v with
        | nil => cases hb
        | cons c r => cases hb; exact ⟨r, rfl⟩
      obtain ⟨g', v2, rfl, hg', hv2, -⟩ := space_split v1
      rw [altsLoop_bar' cc n acc hg hg' hv2, altsLoop_bar' cc n' acc hg hg' hv2]
      refine smBind_congr fun p s hs => ?_
      obtain ⟨u, v3, pd', rfl, -, rfl⟩ := (ends_prod (vm := vm) (H := fun _ => True) cc).state hs
      simp only [List.length_append, List.length_cons] at h h'
      exact altsLoop_fuel vm cc n n' _ v3 _ _ (by omega) (by omega)
    · have hw : ∀ c r, v = c :: r → CharClass.isWhitespace c = false ∧ c ≠ '|' := by
        rintro c r rfl
        exact ⟨hv c r rfl, fun hc => hb (by rw [hc]; rfl)⟩
      rw [altsLoop_ends' cc n acc hg hw, altsLoop_ends' cc n' acc hg hw]

/-- The loop over alternatives with enough fuel. -/
def altsGo (cc : CharClass) (acc : List Production) : SM (RP I) PErr (List Production) := fun s =>
  parseAltsLoop cc (s.proc.rest.length + 1) acc s

/-- Alternatives with white space around them. -/
def AltsSpaced (cc : CharClass) (y : Str) : Prop :=
  ∃ g0 t g as, y = g0 ++ (t ++ g) ∧ IsSpace g0 ∧ IsSpace g ∧ AltsText cc as t

/-- What may follow after an alternative. -/
def AltsMore (cc : CharClass) (y : Str) : Prop :=
  IsSpace y ∨ ∃ g y', y = g ++ '|' :: y' ∧ IsSpace g ∧ AltsSpaced cc y'

theorem AltSpaced.more {cc : CharClass} {u y : Str} (hu : AltSpaced cc u) (hy : AltsMore cc y) : AltsSpaced cc (u ++ y) := by
  obtain ⟨g0, t, g, a, rfl, hg0, hg, ha⟩ := hu
  rcases hy with hy | ⟨g1, y', rfl, hg1, g2, t2, g3, as, rfl, hg2, hg3, has⟩
  · exact ⟨g0, t, g ++ y, [a], by simp, hg0, isSpace_append hg hy, .one ha⟩
  · exact ⟨g0, t ++ ((g ++ g1) ++ '|' :: (g2 ++ t2)), g3, a :: as, by simp, hg0, hg3, .cons ha (isSpace_append hg hg1) hg2 has⟩

theorem AltsSpaced.space {cc : CharClass} {g y : Str} (hg : IsSpace g) (h : AltsSpaced cc y) : AltsSpaced cc (g ++ y) := by
  obtain ⟨g0, t, g1, as, rfl, hg0, hg1, has⟩ := h
  exact ⟨g ++ g0, t, g1, as, by simp, isSpace_append hg hg0, hg1, has⟩

theorem AltSpaced.one {cc : CharClass} {u : Str} (hu : AltSpaced cc u) : AltsSpaced cc u := by
  have := hu.more (y := []) (.inl isSpace_nil)
  simpa using this

/-- An alternative and then the loop. -/
theorem ends_altsFrom (cc : CharClass) (f : Production → List Production)
    (ih : ∀ acc u v k (pd : ParserData I), w = u ++ v → Ends vm H (altsGo cc acc) v k pd
      (fun _ u v => ∃ x, (x = [] ∨ v = []) ∧ AltsMore cc (u ++ x)) (fun u => ∃ x, AltsMore cc (u ++ x))) :
    Ends vm H (parseProd cc >>= fun p => altsGo cc (f p)) w k pd
      (fun _ u v => ∃ x, (x = [] ∨ v = []) ∧ AltsSpaced cc (u ++ x)) (fun u => ∃ x, AltsSpaced cc (u ++ x)) := by
  refine Ends.bind ((ends_prod cc).mono (fun _ _ _ _ h => h) (fun u v _ ⟨x, hx⟩ => ⟨x, hx.one⟩)) ?_
  rintro p u v pd' rfl ⟨x, hx, hP⟩
  refine (ih (f p) u v (k + u.length) pd' rfl).mono ?_ ?_
  · rintro _ u' v' rfl ⟨x', hx', hm⟩
    rcases hx with rfl | hx
    · rw [List.append_nil] at hP
      exact ⟨x', hx', by simpa using hP.more hm⟩
    · obtain ⟨rfl, rfl⟩ := nil_of_append hx
      exact ⟨x, .inr rfl, by simpa using hP.one⟩
  · rintro u' v' rfl ⟨x', hm⟩
    rcases hx with rfl | hx
    · rw [List.append_nil] at hP
      exact ⟨x', by simpa using hP.more hm⟩
    · obtain ⟨rfl, rfl⟩ := nil_of_append hx
      exact ⟨x, by simpa using hP.one⟩

theorem ends_altsGo (cc : CharClass) : ∀ (n : Nat) (acc : List Production) (w : Str) (k : Nat) (pd : ParserData I), w.length < n →
    Ends vm H (altsGo cc acc) w k pd (fun _ u v => ∃ x, (x = [] ∨ v = []) ∧ AltsMore cc (u ++ x)) (fun u => ∃ x, AltsMore cc (u ++ x))
  | 0, _, _, _, _, h => by omega
  | n + 1, acc, w, k, pd, h => by
    obtain ⟨g, v, rfl, hg, hv, -⟩ := space_split w
    by_cases hb : v.head? = some '|'
    · obtain ⟨v1, rfl⟩ : ∃ r, v = '|' :: r := by
        cases v with
        | nil => cases hb
        | cons c r => cases hb; exact ⟨r, rfl⟩
      obtain ⟨g', v2, rfl, hg', hv2, -⟩ := space_split v1
      refine Ends.step (p := g ++ '|' :: g') (v := v2) (pd1 := pd) (y := parseProd cc >>= fun p => altsGo cc (acc ++ [p]))
        (by simp) (fun v' hv' => ?_) ((ends_altsFrom cc _ ?_).mono ?_ ?_)
      · show parseAltsLoop cc ((g ++ '|' :: g' ++ v').length + 1) acc _ = _
        rw [show g ++ '|' :: g' ++ v' = g ++ '|' :: (g' ++ v') by simp,
          altsLoop_bar' cc _ acc hg hg' (ahead_congr hv' hv2),
          show k + (g ++ '|' :: g').length = k + g.length + 1 + g'.length by simp only [List.length_append, List.length_cons]; omega]
        refine smBind_congr fun p s hs => ?_
        obtain ⟨u, v3, pd', rfl, -, rfl⟩ := (ends_prod (vm := vm) (H := H) cc).state hs
        refine altsLoop_fuel vm cc _ _ _ _ _ _ ?_ ?_
        · simp only [List.length_append, List.length_cons]; omega
        · show v3.length < v3.length + 1; omega
      · rintro acc' u v k' pd' rfl
        refine ends_altsGo cc n acc' v k' pd' ?_
        simp only [List.length_append, List.length_cons] at h
        omega
      · rintro _ u v _ ⟨x, hx, hs⟩
        exact ⟨x, hx, .inr ⟨g, g' ++ (u ++ x), by simp, hg, hs.space hg'⟩⟩
      · rintro u v _ ⟨x, hs⟩
        exact ⟨x, .inr ⟨g, g' ++ (u ++ x), by simp, hg, hs.space hg'⟩⟩
    · have hw : ∀ c r, v = c :: r → CharClass.isWhitespace c = false ∧ c ≠ '|' := by
        rintro c r rfl
        exact ⟨hv c r rfl, fun hc => hb (by rw [hc]; rfl)⟩
      refine .ok (u := g) (v := v) (a := acc) (pd' := pd) rfl ⟨[], .inl rfl, .inl (by simpa using hg)⟩ fun v' hv' => ?_
      exact altsLoop_ends' cc _ acc hg (ahead_congr hv' hw) k pd

/-- `parse_possible_productions`. -/
theorem ends_alts (cc : CharClass) : Ends vm H (parseAlts cc) w k pd
    (fun _ u v => ∃ x, (x = [] ∨ v = []) ∧ AltsSpaced cc (u ++ x)) (fun u => ∃ x, AltsSpaced cc (u ++ x)) :=
  ends_altsFrom cc (fun p => [p]) (fun acc _ v k pd _ => ends_altsGo cc (v.length + 1) acc v k pd (by omega))

/-! ### Overrides -/

theorem ends_overrideValue (cc : CharClass) (v : Str) (dflt : Option Nat) :
    Ends vm H (overrideValue cc v dflt) w k pd (fun _ u _ =>
      (v = c% "IGNORE" ∧ u = ['#']) ∨ (v = c% "IGNORE" ∧ IsName cc u) ∨ (v ≠ c% "IGNORE" ∧ u = []))
      (fun u => v = c% "IGNORE" ∧ u = []) := by
  by_cases hv : v = c% "IGNORE"
  · rw [overrideValue, if_pos hv]
    refine Ends.bind (ends_trySymbol '#') ?_
    rintro o u1 w1 pd1 rfl h1
    rcases h1 with ⟨rfl, rfl⟩ | ⟨rfl, rfl, -⟩
    · exact Ends.pure (.inl ⟨hv, rfl⟩)
    · simp only
      refine Ends.bind (ends_varName cc ⟨hv, rfl⟩) ?_
      rintro n u2 w2 pd2 rfl ⟨rfl, hn, -⟩
      refine Ends.bind (ends_intern ⟨u2, .nonTerminal⟩) ?_
      rintro ix u3 w3 pd3 rfl rfl
      exact Ends.pure (.inr (.inl ⟨hv, by simpa using hn⟩))
  · rw [overrideValue, if_neg hv]
    exact Ends.pure (.inr (.inr ⟨hv, rfl⟩))

theorem isName_IGNORE (cc : CharClass) : IsName cc (c% "IGNORE") := isName_ignore cc

/-- Overrides. -/
theorem ends_overrides (cc : CharClass) : Ends vm H (parseOverrides cc) w k pd (fun _ u _ => ∃ o, OverrideText cc o u)
    (fun u => ∃ x o, OverrideText cc o (u ++ x)) := by
  have hany : ∀ {v g : Str}, IsName cc v → IsSpace g → ∃ x o, OverrideText cc o ((c% "$[" ++ (v ++ g)) ++ x) := by
    intro v g hv hg
    by_cases h : v = c% "IGNORE"
    · subst h
      exact ⟨c% ":#]", none, by have := OverrideText.off (cc := cc) hg; simpa using this⟩
    · exact ⟨c% ":]", none, by have := OverrideText.unknown hv h hg; simpa using this⟩
  rw [parseOverrides]
  have hi : ∀ w' k', rpIgnore (⟨Proc.at w' k', pd⟩ : RP I) = (.ok pd.ignore, ⟨Proc.at w' k', pd⟩) := fun _ _ => rfl
  refine Ends.step (p := []) (v := w) (pd1 := pd) rfl (fun v' _ => smBind_ok (hi v' k)) ?_
  refine Ends.bind (ends_trySymbol '$') ?_
  rintro o u1 w1 pd1 rfl h1
  rcases h1 with ⟨rfl, rfl⟩ | ⟨rfl, rfl, -⟩
  · simp only
    refine Ends.bind (ends_symbol '[' ?_) ?_
    · exact ⟨c% "[IGNORE:#]", none, by have := OverrideText.off (cc := cc) isSpace_nil; simpa using this⟩
    rintro _ u2 w2 pd2 rfl rfl
    refine Ends.bind (ends_varName cc ?_) ?_
    · exact ⟨c% "IGNORE:#]", none, by have := OverrideText.off (cc := cc) isSpace_nil; simpa using this⟩
    rintro v u3 w3 pd3 rfl ⟨rfl, hn, -⟩
    refine Ends.bind ends_whitespace ?_
    rintro _ g w4 pd4 rfl ⟨hg, -⟩
    refine Ends.bind (ends_symbol ':' ?_) ?_
    · simpa using hany hn hg
    rintro _ u5 w5 pd5 rfl rfl
    refine Ends.bind ((ends_overrideValue cc u3 _).mono (fun _ _ _ _ h => h) ?_) ?_
    · rintro u v' - ⟨rfl, rfl⟩
      exact ⟨c% "#]", none, by have := OverrideText.off (cc := cc) hg; simpa using this⟩
    rintro i u6 w6 pd6 rfl h6
    have hfin : ∃ o, OverrideText cc o (c% "$[" ++ (u3 ++ (g ++ ':' :: (u6 ++ c% "]")))) := by
      rcases h6 with ⟨rfl, rfl⟩ | ⟨rfl, hn'⟩ | ⟨hv, rfl⟩
      · exact ⟨none, by have := OverrideText.off (cc := cc) hg; simpa using this⟩
      · exact ⟨some u6, by have := OverrideText.name hg hn'; simpa using this⟩
      · exact ⟨none, by have := OverrideText.unknown hn hv hg; simpa using this⟩
    refine Ends.bind (ends_symbol ']' ?_) ?_
    · exact ⟨c% "]", by simpa using hfin⟩
    rintro _ u7 w7 pd7 rfl rfl
    exact Ends.pure (by simpa using hfin)
  · exact Ends.pure ⟨none, .absent⟩

/-! ### Sections -/

theorem ends_runSection (hvm : ReadsInTurn vm) (hfl : FailsInTurn vm H) (hw : NoSpaceAhead w) (name : Str) {R : Str → Prop}
    (hR : ∀ u x is', NoSpaceAhead (u ++ x) → ReadsSection vm name (u ++ x) is' → R u) :
    Ends vm H (rpProc (runSection vm name)) w k pd (fun is u v => (∀ r, v = '}' :: r → ReadsSection vm name u is) ∧
      ∃ x is', NoSpaceAhead (u ++ x) ∧ ReadsSection vm name (u ++ x) is') R := by
  rcases hvm.returns name w k with ⟨is, his⟩ | ⟨e, he⟩
  · obtain ⟨u, v, rfl, h1, h2, x, is', h3, h4⟩ := hvm.turn name w k is hw his
    refine .ok (u := u) (v := v) (a := is) (pd' := pd) rfl ⟨h2, x, is', h3, h4⟩ fun v' hv' => ?_
    obtain ⟨p, hp1, hp2⟩ := h1 v' hv'
    have hrun : runSection vm name (Proc.at (u ++ v') k) = (.ok is, Proc.at v' (k + u.length)) := by
      show ((vm.parseInstructions name (sectionProcess (u ++ v') k)).1, (vm.parseInstructions name (sectionProcess (u ++ v') k)).2.src) = _
      rw [hp1]
      simp only [hp2]
      rfl
    exact rpProc_eq hrun pd
  · have hfrom : FromVm vm w k e := ⟨[], w, name, rfl, he⟩
    rcases hfl name w k e hw he with h | ⟨u, v, rfl, h1, h2, x, is', h3, h4⟩
    · exact .vm h hfrom he
    · rcases h1 with h1 | ⟨r, rfl, h1⟩
      · exact .err rfl (hR u x is' h3 h4) h1 h2
      · exact .sec rfl (hR u x is' h3 h4) h1 hfrom fun r' => h2 _ rfl

theorem ends_section (hvm : ReadsInTurn vm) (hfl : FailsInTurn vm H) (name : Str) :
    Ends vm H (parseInstructionSection vm name) w k pd (fun is u _ => SectionText (ReadsSection vm) name is u)
      (fun u => u ≠ [] ∧ ∃ x is', SectionText (ReadsSection vm) name is' (u ++ x)) := by
  rw [parseInstructionSection]
  refine Ends.bind (ends_trySymbol '{') ?_
  rintro o u1 w1 pd1 rfl h1
  rcases h1 with ⟨rfl, rfl⟩ | ⟨rfl, rfl, -⟩
  · simp only
    refine Ends.bind ends_whitespace ?_
    rintro _ g w2 pd2 rfl ⟨hg, hns⟩
    refine Ends.bind (ends_runSection hvm hfl hns name ?_) ?_
    · intro u x is' hx hs'
      have := SectionText.given (Sec := ReadsSection vm) (name := name) hg hx hs'
      exact ⟨by simp, x ++ ['}'], is', by simpa using this⟩
    rintro is body w3 pd3 rfl ⟨hs, x, is', hx, hs'⟩
    refine Ends.bind (ends_symbol '}' ⟨by simp, x ++ ['}'], is', ?_⟩) ?_
    · have := SectionText.given (Sec := ReadsSection vm) (name := name) hg hx hs'
      simpa using this
    rintro _ u4 w4 pd4 rfl rfl
    refine Ends.pure ?_
    have := SectionText.given (Sec := ReadsSection vm) (name := name) hg
      (fun c r h => hns c (r ++ (['}'] ++ w4)) (by rw [h]; rfl)) (hs w4 rfl)
    simpa using this
  · exact Ends.pure .absent

/-! ### Rules -/

theorem ends_rule (hvm : ReadsInTurn vm) (hfl : FailsInTurn vm H) (cc : CharClass) :
    Ends vm H (parseRule cc vm) w k pd (fun _ u _ => ∃ r, RuleText cc (ReadsSection vm) r u)
      (fun u => ∃ x r, RuleText cc (ReadsSection vm) r (u ++ x)) := by
  have hash : AltsText cc [[]] (c% "#") := .one .empty
  have hnil := isSpace_nil
  rw [parseRule]
  refine Ends.bind (ends_varName cc ?_) ?_
  · exact ⟨c% "IGNORE->#;", _, by
      have := RuleText.mk (Sec := ReadsSection vm) (isName_ignore cc) hnil hnil .absent hnil hash hnil .absent hnil
      simpa using this⟩
  rintro n u1 w1 pd1 rfl ⟨rfl, hn, -⟩
  refine Ends.bind (ends_intern ⟨u1, .nonTerminal⟩) ?_
  rintro key u2 w2 pd2 rfl rfl
  refine Ends.bind ends_whitespace ?_
  rintro _ g1 w3 pd3 rfl ⟨hg1, -⟩
  refine Ends.bind (ends_symbol '-' ?_) ?_
  · exact ⟨c% "->#;", _, by
      have := RuleText.mk (Sec := ReadsSection vm) hn hg1 hnil .absent hnil hash hnil .absent hnil
      simpa using this⟩
  rintro _ u4 w4 pd4 rfl rfl
  refine Ends.bind (ends_symbol '>' ?_) ?_
  · exact ⟨c% ">#;", _, by
      have := RuleText.mk (Sec := ReadsSection vm) hn hg1 hnil .absent hnil hash hnil .absent hnil
      simpa using this⟩
  rintro _ u5 w5 pd5 rfl rfl
  refine Ends.bind ends_whitespace ?_
  rintro _ g2 w6 pd6 rfl ⟨hg2, -⟩
  refine Ends.bind ((ends_overrides cc).mono (fun _ _ _ _ h => h) ?_) ?_
  · rintro u v rfl ⟨x, o, hx⟩
    exact ⟨x ++ c% "#;", _, by
      have := RuleText.mk (Sec := ReadsSection vm) hn hg1 hg2 hx hnil hash hnil .absent hnil
      simpa using this⟩
  rintro ign u7 w7 pd7 rfl ⟨o, ho⟩
  refine Ends.bind ((ends_alts cc).mono (fun _ _ _ _ h => h) ?_) ?_
  · rintro u v rfl ⟨x, g3, t, g4, as, hx, hg3, hg4, has⟩
    exact ⟨x ++ c% ";", _, by
      have := RuleText.mk (Sec := ReadsSection vm) hn hg1 hg2 ho hg3 has hg4 .absent hnil
      rw [show u1 ++ (g1 ++ (c% "->" ++ (g2 ++ (u7 ++ (g3 ++ (t ++ (g4 ++ ([] ++ ([] ++ c% ";"))))))))) =
        u1 ++ (g1 ++ (c% "->" ++ (g2 ++ (u7 ++ ((g3 ++ (t ++ g4)) ++ c% ";"))))) by simp, ← hx] at this
      simpa using this⟩
  rintro ps u8 w8 pd8 rfl ⟨x, hx, g3, t, g4, as, h8, hg3, hg4, has⟩
  have hall : ∀ {s g5 : Str} {is : List I}, x = [] → SectionText (ReadsSection vm) u1 is s → IsSpace g5 →
      RuleText cc (ReadsSection vm) ⟨u1, o, as, is⟩
        (u1 ++ (g1 ++ (c% "->" ++ (g2 ++ (u7 ++ (u8 ++ (s ++ (g5 ++ c% ";")))))))) := by
    intro s g5 is hxe hs hg5
    subst hxe
    rw [List.append_nil] at h8
    have := RuleText.mk (Sec := ReadsSection vm) hn hg1 hg2 ho hg3 has hg4 hs hg5
    rw [h8]
    simpa using this
  refine Ends.bind ((ends_section hvm hfl u1).mono (fun _ _ _ _ h => h) ?_) ?_
  · rintro u v rfl ⟨hne, x', is', hs⟩
    have hxe : x = [] := by
      rcases hx with hx | hx
      · exact hx
      · exact absurd (nil_of_append hx).1 hne
    exact ⟨x' ++ c% ";", _, by simpa using hall hxe hs hnil⟩
  rintro is u9 w9 pd9 rfl h9
  refine Ends.bind ends_whitespace ?_
  rintro _ g5 w10 pd10 rfl ⟨hg5, -⟩
  refine Ends.bind (ends_symbol ';' ?_) ?_
  · rcases hx with hx | hx
    · exact ⟨c% ";", _, by simpa using hall hx h9 hg5⟩
    · obtain ⟨rfl, hx2⟩ := nil_of_append hx
      obtain ⟨rfl, rfl⟩ := nil_of_append hx2
      exact ⟨x ++ c% ";", _, by
        have := RuleText.mk (Sec := ReadsSection vm) hn hg1 hg2 ho hg3 has hg4 .absent hnil
        rw [show u1 ++ (g1 ++ (c% "->" ++ (g2 ++ (u7 ++ (g3 ++ (t ++ (g4 ++ ([] ++ ([] ++ c% ";"))))))))) =
          u1 ++ (g1 ++ (c% "->" ++ (g2 ++ (u7 ++ ((g3 ++ (t ++ g4)) ++ c% ";"))))) by simp, ← h8] at this
        simpa using this⟩
  rintro _ u11 w11 pd11 rfl rfl
  have hxe : x = [] := by
    rcases hx with hx | hx
    · exact hx
    · simp at hx
  exact Ends.pure ⟨_, by simpa using hall hxe h9 hg5⟩

theorem rulesLoop_fuel (hvm : ReadsInTurn vm) (hfl : FailsInTurn vm H) (cc : CharClass) : ∀ (n n' : Nat) (w : Str) (k : Nat) (pd : ParserData I),
    w.length < n → w.length < n' →
    parseRulesLoop cc vm n ⟨Proc.at w k, pd⟩ = parseRulesLoop cc vm n' ⟨Proc.at w k, pd⟩
  | 0, _, _, _, _, h, _ => by omega
  | _ + 1, 0, _, _, _, _, h => by omega
  | n + 1, n' + 1, w, k, pd, h, h' => by
    obtain ⟨g, v, rfl, hg, hv, -⟩ := space_split w
    cases v with
    | nil => rw [List.append_nil, rulesLoop_end cc vm hg, rulesLoop_end cc vm hg]
    | cons c v =>
      rw [rulesLoop_step cc vm hg (hv c v rfl), rulesLoop_step cc vm hg (hv c v rfl)]
      refine smBind_congr fun x s hs => ?_
      obtain ⟨u, v1, pd', h1, ⟨r, hr⟩, rfl⟩ := (ends_rule hvm hfl cc).state hs
      obtain ⟨d, u', rfl, -⟩ := hr.head
      have := congrArg List.length h1
      simp only [List.length_append, List.length_cons] at this h h'
      exact rulesLoop_fuel hvm hfl cc n n' v1 _ _ (by omega) (by omega)

/-- The loop over rules with enough fuel. -/
def rulesGo (cc : CharClass) (vm : VM I S) : SM (RP I) PErr Unit := fun s =>
  parseRulesLoop cc vm (s.proc.rest.length + 1) s

theorem ends_rulesGo (hvm : ReadsInTurn vm) (hfl : FailsInTurn vm H) (cc : CharClass) : ∀ (n : Nat) (w : Str) (k : Nat) (pd : ParserData I), w.length < n →
    Ends vm H (rulesGo cc vm) w k pd (fun _ u v => v = [] ∧ FollowsSyntax cc vm u) (fun u => Viable cc vm u)
  | 0, _, _, _, h => by omega
  | n + 1, w, k, pd, h => by
    obtain ⟨g, v, rfl, hg, hv, -⟩ := space_split w
    cases v with
    | nil =>
      refine .ok (u := g) (v := []) (a := ()) (pd' := pd) rfl ⟨rfl, [], .nil hg⟩ fun v' hv' => ?_
      cases v' with
      | cons c r => cases hv'
      | nil => rw [List.append_nil]; exact rulesLoop_end cc vm hg _ k pd
    | cons c v =>
      refine Ends.step (p := g) (v := c :: v) (pd1 := pd) rfl
        (y := parseRule cc vm >>= fun x => rpMerge x.1 x.2 >>= fun _ => rulesGo cc vm) (fun v' hv' => ?_) ?_
      · cases v' with
        | nil => cases hv'
        | cons d v' =>
          cases hv'
          refine (rulesLoop_step cc vm hg (hv c v rfl) _ k pd).trans ?_
          refine smBind_congr fun x s hs => ?_
          obtain ⟨u, v1, pd', h1, ⟨r, hr⟩, rfl⟩ := (ends_rule hvm hfl cc).state hs
          refine rulesLoop_fuel hvm hfl cc _ _ _ _ _ ?_ ?_
          · obtain ⟨d, u', rfl, -⟩ := hr.head
            have := congrArg List.length h1
            simp only [rest_at, List.length_append, List.length_cons] at this ⊢
            omega
          · show v1.length < v1.length + 1; omega
      · refine Ends.bind ((ends_rule hvm hfl cc).mono (fun _ _ _ _ h => h) ?_) ?_
        · rintro u v' - ⟨x, r, hr⟩
          exact ⟨x, _, by
            have := RulesText.cons hg hr (.nil isSpace_nil)
            simpa using this⟩
        · rintro x u v' pd' h1 ⟨r, hr⟩
          refine Ends.step (p := []) (v := v') (pd1 := mergeRule pd' x.1 x.2) rfl (fun v'' _ => (smBind_ok rfl)) ?_
          refine (ends_rulesGo hvm hfl cc n v' _ _ ?_).mono ?_ ?_
          · obtain ⟨d, u', rfl, -⟩ := hr.head
            have := congrArg List.length h1
            simp only [List.length_append, List.length_cons] at this h
            omega
          · rintro _ u' v'' - ⟨rfl, rs, hy⟩
            exact ⟨rfl, _, by
              have := RulesText.cons hg hr hy
              simpa using this⟩
          · rintro u' v'' - ⟨y, rs, hy⟩
            exact ⟨y, _, by
              have := RulesText.cons hg hr hy
              simpa using this⟩

end
end HPP
