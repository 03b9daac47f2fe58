import Verif.Proofs.RuleParserApi
import Verif.Spec.Prepared
/-
Reading rules into prepared grammar data.
-/
namespace HPP
open Spec
variable {I S : Type}

theorem rpIgnore_eq (pd : ParserData I) (p : Proc) : rpIgnore ⟨p, pd⟩ = (.ok pd.ignore, ⟨p, pd⟩) := rfl

/-- What a written rule means, elements being numbered as in `keys`. -/
def readMeaning (keys : List ElementVerbose) (dflt : Option Nat) (r : ReadRule I) : NTRule I :=
  ⟨r.alts.map (altMeaning keys), r.choice.select keys dflt, r.instr⟩

theorem Choice.select_addAll {keys : List ElementVerbose} {ch : Choice} (h : ∀ e ∈ ch.mentions, e ∈ keys)
    (ks : List ElementVerbose) (dflt : Option Nat) : ch.select (addAll keys ks) dflt = ch.select keys dflt := by
  cases ch with
  | default => rfl
  | off => rfl
  | use n => simp only [Choice.select]; rw [idxOf_addAll (h _ (by simp [Choice.mentions]))]

theorem parseChoice_given {cc : CharClass} (hcc : SpaceOk cc) {v g w : Str} (hv : IsName cc v) (hg : IsSpace g)
    (k : Nat) {pd : ParserData I} :
    ∃ k', parseOverrides cc ⟨Proc.at (c% "$[" ++ (v ++ (g ++ ':' :: w))) k, pd⟩ =
      (overrideValue cc v pd.ignore >>= fun i => rpSymbol ']' >>= fun _ => pure i) ⟨Proc.at w k', pd⟩ := by
  have hb : NoSpaceAhead (':' :: w) := by intro c r he; cases he; decide
  have hn : NoNameAhead cc (g ++ ':' :: w) :=
    noName_space cc hg (fun _ => by intro c r he; cases he; rfl) hcc
  refine ⟨k + 1 + 1 + v.length + g.length + 1, ?_⟩
  rw [parseOverrides]
  rw [smBind_ok (rpIgnore_eq pd _)]
  rw [show (c% "$[" ++ (v ++ (g ++ ':' :: w)) : Str) = '$' :: '[' :: (v ++ (g ++ ':' :: w)) from rfl,
    smBind_ok (smTry_ok (rpSymbol_ok '$' _ k pd))]
  simp only
  rw [smBind_ok (rpSymbol_ok '[' _ _ pd), smBind_ok (rpVarName_ok hv hn _ pd), smBind_ok (rpWhitespace_ok hg hb _ pd),
    smBind_ok (rpSymbol_ok ':' _ _ pd)]

theorem parseChoice_absent (cc : CharClass) {w : Str} (h : w.head? ≠ some '$') (k : Nat) {pd : ParserData I} : parseOverrides cc ⟨Proc.at w k, pd⟩ = (.ok pd.ignore, ⟨Proc.at w k, pd⟩) := by
  rw [parseOverrides]
  rw [smBind_ok (rpIgnore_eq pd _)]
  obtain ⟨e, he⟩ := rpSymbol_err h k pd
  rw [smBind_ok (smTry_err he)]
  rfl

/-- `parse_overrides`. -/
theorem parseChoice_complete {cc : CharClass} (hcc : SpaceOk cc) {ch : Choice} {o : Str} (h : ChoiceText cc ch o)
    {w : Str} (hw : w.head? ≠ some '$') (k : Nat) {pd : ParserData I} {keys : List ElementVerbose} (hin : InternOk pd keys)
    :
    ∃ k' pd', parseOverrides cc ⟨Proc.at (o ++ w) k, pd⟩ =
        (.ok (ch.select (addAll keys ch.mentions) pd.ignore), ⟨Proc.at w k', pd'⟩) ∧ Interned pd keys ch.mentions pd' := by
  cases h with
  | absent => exact ⟨k, pd, parseChoice_absent cc hw k, .refl hin⟩
  | @off g hg =>
    obtain ⟨k1, h1⟩ := parseChoice_given hcc (w := '#' :: ']' :: w) (isName_ignore cc) hg k (pd := pd)
    refine ⟨k1 + 1 + 1, pd, ?_, .refl hin⟩
    rw [show c% "$[IGNORE" ++ (g ++ c% ":#]") ++ w = c% "$[" ++ (c% "IGNORE" ++ (g ++ ':' :: '#' :: ']' :: w)) by simp, h1]
    have : overrideValue cc (c% "IGNORE") pd.ignore ⟨Proc.at ('#' :: ']' :: w) k1, pd⟩ = (.ok none, ⟨Proc.at (']' :: w) (k1 + 1), pd⟩) := by
      rw [overrideValue, if_pos rfl, smBind_ok (smTry_ok (rpSymbol_ok '#' _ _ pd))]; rfl
    rw [smBind_ok this, smBind_ok (rpSymbol_ok ']' _ _ pd)]
    rfl
  | @name g n hg hn =>
    obtain ⟨k1, h1⟩ := parseChoice_given hcc (w := n ++ ']' :: w) (isName_ignore cc) hg k (pd := pd)
    obtain ⟨pd', hi, hI⟩ := rpIntern_eq hin (Proc.at (']' :: w) (k1 + n.length)) ⟨n, .nonTerminal⟩
    refine ⟨k1 + n.length + 1, pd', ?_, hI⟩
    rw [show c% "$[IGNORE" ++ (g ++ ':' :: (n ++ c% "]")) ++ w = c% "$[" ++ (c% "IGNORE" ++ (g ++ ':' :: (n ++ ']' :: w))) by simp, h1]
    have hh : (n ++ ']' :: w).head? ≠ some '#' := by
      obtain ⟨c, cs, rfl, hc, -⟩ := hn
      have := alpha_ne hc (d := '#') rfl
      simpa using this
    obtain ⟨e, he⟩ := rpSymbol_err hh k1 pd
    have hnn : NoNameAhead cc (']' :: w) := by intro c r h; cases h; rfl
    have : overrideValue cc (c% "IGNORE") pd.ignore ⟨Proc.at (n ++ ']' :: w) k1, pd⟩ =
        (.ok (some ((addAll keys [⟨n, .nonTerminal⟩]).idxOf ⟨n, .nonTerminal⟩)), ⟨Proc.at (']' :: w) (k1 + n.length), pd'⟩) := by
      rw [overrideValue, if_pos rfl, smBind_ok (smTry_err he)]
      simp only
      rw [smBind_ok (rpVarName_ok hn hnn k1 pd), smBind_ok hi]
      rfl
    rw [smBind_ok this, smBind_ok (rpSymbol_ok ']' _ _ pd')]
    rfl
  | @unknown v g hv hne hg =>
    obtain ⟨k1, h1⟩ := parseChoice_given hcc (w := ']' :: w) hv hg k (pd := pd)
    refine ⟨k1 + 1, pd, ?_, .refl hin⟩
    rw [show c% "$[" ++ (v ++ (g ++ c% ":]")) ++ w = c% "$[" ++ (v ++ (g ++ ':' :: ']' :: w)) by simp, h1]
    have : overrideValue cc v pd.ignore ⟨Proc.at (']' :: w) k1, pd⟩ = (.ok pd.ignore, ⟨Proc.at (']' :: w) k1, pd⟩) := by
      rw [overrideValue, if_neg hne]; rfl
    rw [smBind_ok this, smBind_ok (rpSymbol_ok ']' _ _ pd)]
    rfl


/-- `parse_rule`. -/
theorem parseRule_complete_in {cc : CharClass} (hcc : SpaceOk cc) {vm : VM I S} {r : ReadRule I} {t : Str}
    (h : ReadRuleText cc (ReadsSection vm) r t) (w : Str) (k : Nat) {pd : ParserData I} {keys : List ElementVerbose}
    (hin : InternOk pd keys) :
    ∃ k' pd', parseRule cc vm ⟨Proc.at (t ++ w) k, pd⟩ =
        (.ok ((addAll keys r.mentions).idxOf ⟨r.name, .nonTerminal⟩, readMeaning (addAll keys r.mentions) pd.ignore r), ⟨Proc.at w k', pd'⟩) ∧
      Interned pd keys r.mentions pd' := by
  cases h with
  | @mk n o a s g1 g2 g3 g4 g5 ch alts instr hn hg1 hg2 ho hg3 ha hg4 hs hg5 =>
    -- the text after each part
    let w5 : Str := s ++ (g5 ++ (';' :: w))
    let w4 : Str := g3 ++ (a ++ (g4 ++ w5))
    have htext : n ++ (g1 ++ (c% "->" ++ (g2 ++ (o ++ (g3 ++ (a ++ (g4 ++ (s ++ (g5 ++ c% ";"))))))))) ++ w =
        n ++ (g1 ++ '-' :: '>' :: (g2 ++ (o ++ w4))) := by simp [w4, w5]
    have hnn : NoNameAhead cc (g1 ++ '-' :: '>' :: (g2 ++ (o ++ w4))) :=
      noName_space cc hg1 (fun _ => by intro c r he; cases he; rfl) hcc
    have hns1 : NoSpaceAhead ('-' :: '>' :: (g2 ++ (o ++ w4))) := by intro c r he; cases he; decide
    obtain ⟨pd1, hi, hI⟩ := rpIntern_eq hin (Proc.at (g1 ++ '-' :: '>' :: (g2 ++ (o ++ w4))) (k + n.length)) ⟨n, .nonTerminal⟩
    have hA := ha.head_noSpace hcc (g4 ++ w5)
    -- after the arrow
    obtain ⟨g3', k2, pd2, hg3', h2, hI2⟩ : ∃ g3' k2 pd2, IsSpace g3' ∧
        (rpWhitespace >>= fun _ => parseOverrides cc) ⟨Proc.at (g2 ++ (o ++ w4)) (k + n.length + g1.length + 1 + 1), pd1⟩ =
          (.ok (ch.select (addAll (addAll keys [⟨n, .nonTerminal⟩]) ch.mentions) pd.ignore), ⟨Proc.at (g3' ++ (a ++ (g4 ++ w5))) k2, pd2⟩) ∧
        Interned pd1 (addAll keys [⟨n, .nonTerminal⟩]) ch.mentions pd2 := by
      have hpd1 : pd1.ignore = pd.ignore := hI.ignore
      rw [← hpd1]
      by_cases hoe : o = []
      · subst hoe
        have hign : ch = .default := by cases ho; rfl
        subst hign
        refine ⟨[], k + n.length + g1.length + 1 + 1 + (g2 ++ g3).length, pd1, isSpace_nil, ?_, .refl hI.ok⟩
        rw [show g2 ++ ([] ++ w4) = (g2 ++ g3) ++ (a ++ (g4 ++ w5)) by simp [w4],
          smBind_ok (rpWhitespace_ok (isSpace_append hg2 hg3) hA _ pd1)]
        exact parseChoice_absent cc (ha.head_ne _) _
      · have hns : NoSpaceAhead (o ++ w4) := by
          intro c r he
          cases ho with
          | absent => exact absurd rfl hoe
          | off => cases he; decide
          | name => cases he; decide
          | unknown => cases he; decide
        have hd : w4.head? ≠ some '$' := by
          cases g3 with
          | nil => exact ha.head_ne _
          | cons c g3 =>
            have := hg3 c (by simp)
            simp only [w4, List.cons_append, List.head?_cons, ne_eq, Option.some.injEq]
            rintro rfl
            exact absurd this (by decide)
        obtain ⟨k', pd', h1, h2⟩ := parseChoice_complete hcc ho hd (k + n.length + g1.length + 1 + 1 + g2.length) hI.ok
        refine ⟨g3, k', pd', hg3, ?_, h2⟩
        rw [smBind_ok (rpWhitespace_ok hg2 hns _ pd1)]
        exact h1
    -- alternatives
    obtain ⟨g5', k3, pd3, hg5', h3, hI3⟩ : ∃ g5' k3 pd3, IsSpace g5' ∧
        (parseAlts cc >>= fun ps => parseInstructionSection vm n >>= fun is => pure (ps, is))
          ⟨Proc.at (g3' ++ (a ++ (g4 ++ w5))) k2, pd2⟩ =
          (.ok (alts.map (altMeaning (addAll (addAll (addAll keys [⟨n, .nonTerminal⟩]) ch.mentions) alts.flatten)), instr),
            ⟨Proc.at (g5' ++ (';' :: w)) k3, pd3⟩) ∧
        Interned pd2 (addAll (addAll keys [⟨n, .nonTerminal⟩]) ch.mentions) alts.flatten pd3 := by
      by_cases hse : s = []
      · subst hse
        have hie : instr = [] := by cases hs; rfl
        subst hie
        obtain ⟨k', pd', h1, h2⟩ := parseAlts_complete hcc ha (w := ';' :: w) k2 hg3' (isSpace_append hg4 hg5)
          (.cons (.inr rfl)) hI2.ok
        obtain ⟨k'', h3⟩ := parseSection_complete (vm := vm) (n := n) (w := ';' :: w) .absent (by simp) k' pd'
        rw [List.nil_append] at h3
        refine ⟨[], k'', pd', isSpace_nil, ?_, h2⟩
        rw [show a ++ (g4 ++ w5) = a ++ ((g4 ++ g5) ++ (';' :: w)) by simp [w5], smBind_ok h1, smBind_ok h3]
        rfl
      · have hst : StopAhead w5 := by
          cases hs with
          | absent => exact absurd rfl hse
          | given => exact .cons (.inl rfl)
        obtain ⟨k', pd', h1, h2⟩ := parseAlts_complete hcc ha (w := w5) k2 hg3' hg4 hst hI2.ok
        obtain ⟨k'', h3⟩ := parseSection_complete (w := g5 ++ (';' :: w)) hs (fun h => absurd h hse) k' pd'
        refine ⟨g5, k'', pd', hg5, ?_, h2⟩
        rw [smBind_ok h1, smBind_ok h3]
        rfl
    have hns5 : NoSpaceAhead (';' :: w) := by intro c r he; cases he; decide
    refine ⟨k3 + g5'.length + 1, pd3, ?_, ?_⟩
    · rw [htext, parseRule, smBind_ok (rpVarName_ok hn hnn k pd), smBind_ok hi,
        smBind_ok (rpWhitespace_ok hg1 hns1 _ pd1), smBind_ok (rpSymbol_ok '-' _ _ pd1), smBind_ok (rpSymbol_ok '>' _ _ pd1)]
      have assoc1 : ∀ {α : Type} (f : Option Nat → SM (RP I) PErr α) s, (rpWhitespace >>= fun _ => parseOverrides cc >>= f) s =
          ((rpWhitespace >>= fun _ => parseOverrides cc) >>= f) s := by
        intro α f s
        simp only [SM.bind_apply]
        rcases rpWhitespace s with ⟨r, s1⟩
        cases r <;> rfl
      have assoc2 : ∀ {α : Type} (f : List Production → List I → SM (RP I) PErr α) s,
          (parseAlts cc >>= fun ps => parseInstructionSection vm n >>= fun is => f ps is) s =
          ((parseAlts cc >>= fun ps => parseInstructionSection vm n >>= fun is => pure (ps, is)) >>= fun x => f x.1 x.2) s := by
        intro α f s
        simp only [SM.bind_apply]
        rcases parseAlts cc s with ⟨r, s1⟩
        cases r with
        | ok a => simp only; rcases parseInstructionSection vm n s1 with ⟨r, s2⟩; cases r <;> rfl
        | err => rfl
        | panic => rfl
        | timeout => rfl
      rw [assoc1, smBind_ok h2, assoc2, smBind_ok h3, smBind_ok (rpWhitespace_ok hg5' hns5 _ pd3),
        smBind_ok (rpSymbol_ok ';' _ _ pd3)]
      simp only [SM.pure_apply, Prod.mk.injEq, Res.ok.injEq, and_true]
      have hm : addAll keys (ReadRule.mentions (⟨n, ch, alts, instr⟩ : ReadRule I)) =
          addAll (addAll (addAll keys [⟨n, .nonTerminal⟩]) ch.mentions) alts.flatten := by
        rw [← addAll_append, ← addAll_append]; rfl
      rw [hm]
      refine ⟨?_, ?_⟩
      · have : (⟨n, .nonTerminal⟩ : ElementVerbose) ∈ addAll keys [⟨n, .nonTerminal⟩] := mem_addAll.2 (.inr (by simp))
        rw [idxOf_addAll (mem_addAll.2 (.inl this)), idxOf_addAll this]
      · rw [readMeaning, Choice.select_addAll (fun e he => mem_addAll.2 (.inr he))]
    · have := (hI.trans hI2).trans hI3
      exact this


section
variable {vm : VM I S} {keys : List ElementVerbose} {pd : ParserData I} {w : Str} {k : Nat}

theorem reads_choiceValue (hin : InternOk pd keys) (cc : CharClass) (v : Str) (dflt : Option Nat) :
    Reads vm keys pd w k (overrideValue cc v dflt ⟨Proc.at w k, pd⟩) (fun i u ks _ =>
      ∃ o : Choice, ks = o.mentions ∧ i = o.select (addAll keys o.mentions) dflt ∧
        ((v = c% "IGNORE" ∧ o = .off ∧ u = ['#']) ∨ (v = c% "IGNORE" ∧ ∃ n, IsName cc n ∧ o = .use n ∧ u = n) ∨
         (v ≠ c% "IGNORE" ∧ o = .default ∧ u = []))) := by
  by_cases hv : v = c% "IGNORE"
  · rw [overrideValue, if_pos hv]
    refine Reads.bind (reads_trySymbol hin '#') ?_
    rintro o u1 ks1 w1 pd1 rfl ⟨rfl, h1⟩ hI1
    rcases h1 with ⟨rfl, rfl⟩ | ⟨rfl, rfl, -⟩
    · refine Reads.pure hI1.ok ⟨.off, rfl, rfl, .inl ⟨hv, rfl, rfl⟩⟩
    · simp only
      refine Reads.bind (reads_varName hI1.ok cc) ?_
      rintro n u2 ks2 w2 pd2 rfl ⟨rfl, hn, -, rfl⟩ hI2
      refine Reads.bind (reads_intern hI2.ok ⟨u2, .nonTerminal⟩) ?_
      rintro ix u3 ks3 w3 pd3 rfl ⟨rfl, rfl, rfl⟩ hI3
      refine Reads.pure hI3.ok ⟨.use u2, rfl, rfl, .inr (.inl ⟨hv, u2, hn, rfl, by simp⟩)⟩
  · rw [overrideValue, if_neg hv]
    exact Reads.pure hin ⟨.default, rfl, rfl, .inr (.inr ⟨hv, rfl, rfl⟩)⟩

theorem reads_choice (hin : InternOk pd keys) (cc : CharClass) :
    Reads vm keys pd w k (parseOverrides cc ⟨Proc.at w k, pd⟩) (fun i u ks _ =>
      ∃ o, ChoiceText cc o u ∧ ks = o.mentions ∧ i = o.select (addAll keys o.mentions) pd.ignore) := by
  rw [parseOverrides, smBind_ok (rpIgnore_eq pd _)]
  refine Reads.bind (reads_trySymbol hin '$') ?_
  rintro o u1 ks1 w1 pd1 rfl ⟨rfl, h1⟩ hI1
  rcases h1 with ⟨rfl, rfl⟩ | ⟨rfl, rfl, -⟩
  · simp only
    refine Reads.bind (reads_symbol hI1.ok '[') ?_
    rintro _ u2 ks2 w2 pd2 rfl ⟨rfl, rfl⟩ hI2
    refine Reads.bind (reads_varName hI2.ok cc) ?_
    rintro v u3 ks3 w3 pd3 rfl ⟨rfl, hn, -, rfl⟩ hI3
    refine Reads.bind (reads_whitespace hI3.ok) ?_
    rintro _ g ks4 w4 pd4 rfl ⟨hg, -, rfl⟩ hI4
    refine Reads.bind (reads_symbol hI4.ok ':') ?_
    rintro _ u5 ks5 w5 pd5 rfl ⟨rfl, rfl⟩ hI5
    refine Reads.bind (reads_choiceValue hI5.ok cc u3 pd.ignore) ?_
    rintro i u6 ks6 w6 pd6 rfl ⟨o, rfl, rfl, h6⟩ hI6
    refine Reads.bind (reads_symbol hI6.ok ']') ?_
    rintro _ u7 ks7 w7 pd7 rfl ⟨rfl, rfl⟩ hI7
    refine Reads.pure hI7.ok ⟨o, ?_, by simp, rfl⟩
    rcases h6 with ⟨rfl, rfl, rfl⟩ | ⟨rfl, n, hn', rfl, rfl⟩ | ⟨hv, rfl, rfl⟩
    · have := ChoiceText.off (cc := cc) hg
      simpa using this
    · have := ChoiceText.name hg hn'
      simpa using this
    · have := ChoiceText.unknown hn hv hg
      simpa using this
  · exact Reads.pure hI1.ok ⟨.default, .absent, rfl, rfl⟩


theorem reads_rule_in (hvm : OnlyReads vm) (hin : InternOk pd keys) (cc : CharClass) :
    Reads vm keys pd w k (parseRule cc vm ⟨Proc.at w k, pd⟩) (fun x u ks _ =>
      ∃ r, ReadRuleText cc (ReadsSectionIn vm) r u ∧ ks = r.mentions ∧ x.1 = (addAll keys r.mentions).idxOf ⟨r.name, .nonTerminal⟩ ∧
        x.2 = readMeaning (addAll keys r.mentions) pd.ignore r) := by
  rw [parseRule]
  refine Reads.bind (reads_varName hin cc) ?_
  rintro n u1 ks1 w1 pd1 rfl ⟨rfl, hn, -, rfl⟩ hI1
  refine Reads.bind (reads_intern hI1.ok ⟨u1, .nonTerminal⟩) ?_
  rintro key u2 ks2 w2 pd2 rfl ⟨rfl, rfl, rfl⟩ hI2
  refine Reads.bind (reads_whitespace hI2.ok) ?_
  rintro _ g1 ks3 w3 pd3 rfl ⟨hg1, -, rfl⟩ hI3
  refine Reads.bind (reads_symbol hI3.ok '-') ?_
  rintro _ u4 ks4 w4 pd4 rfl ⟨rfl, rfl⟩ hI4
  refine Reads.bind (reads_symbol hI4.ok '>') ?_
  rintro _ u5 ks5 w5 pd5 rfl ⟨rfl, rfl⟩ hI5
  refine Reads.bind (reads_whitespace hI5.ok) ?_
  rintro _ g2 ks6 w6 pd6 rfl ⟨hg2, -, rfl⟩ hI6
  have hig : pd6.ignore = pd.ignore := by
    rw [hI6.ignore, hI5.ignore, hI4.ignore, hI3.ignore, hI2.ignore, hI1.ignore]
  refine Reads.bind (reads_choice hI6.ok cc) ?_
  rintro ign u7 ks7 w7 pd7 rfl ⟨o, ho, rfl, rfl⟩ hI7
  refine Reads.bind (reads_alts hI7.ok cc) ?_
  rintro ps u8 ks8 w8 pd8 rfl h8 hI8
  refine Reads.bind (reads_section hvm hI8.ok u1) ?_
  rintro is u9 ks9 w9 pd9 rfl ⟨rfl, h9⟩ hI9
  refine Reads.bind (reads_whitespace hI9.ok) ?_
  rintro _ g5 ks10 w10 pd10 rfl ⟨hg5, -, rfl⟩ hI10
  refine Reads.bind (reads_symbol hI10.ok ';') ?_
  rintro _ u11 ks11 w11 pd11 rfl ⟨rfl, rfl⟩ hI11
  rcases h8 with ⟨g3, t, g4, as, rfl, hg3, hg4, has, rfl, rfl⟩ | h8
  · refine Reads.pure hI11.ok ⟨⟨u1, o, as, is⟩, ?_, ?_, ?_, ?_⟩
    · have := ReadRuleText.mk (Sec := ReadsSectionIn vm) hn hg1 hg2 ho hg3 has hg4 h9 hg5
      simpa using this
    · simp [ReadRule.mentions]
    · have hm : addAll keys (ReadRule.mentions (⟨u1, o, as, is⟩ : ReadRule I)) =
          addAll (addAll (addAll keys [⟨u1, .nonTerminal⟩]) o.mentions) as.flatten := by
        rw [← addAll_append, ← addAll_append]; rfl
      rw [hm]
      have : (⟨u1, .nonTerminal⟩ : ElementVerbose) ∈ addAll keys [⟨u1, .nonTerminal⟩] := mem_addAll.2 (.inr (by simp))
      rw [idxOf_addAll (mem_addAll.2 (.inl this)), idxOf_addAll this]
      simp
    · have hm : addAll keys (ReadRule.mentions (⟨u1, o, as, is⟩ : ReadRule I)) =
          addAll (addAll (addAll keys [⟨u1, .nonTerminal⟩]) o.mentions) as.flatten := by
        rw [← addAll_append, ← addAll_append]; rfl
      rw [hm, readMeaning, hig, Choice.select_addAll (fun e he => mem_addAll.2 (.inr he))]
      simp
  · exfalso
    simp at h8

end

/-! ### Merging -/

theorem elementsAfter_eq {pd0 : ParserData I} {keys0 : List ElementVerbose} (h : InternOk pd0 keys0) (rs : List (ReadRule I)) :
    elementsAfter keys0 rs = addAll keys0 (rs.flatMap ReadRule.mentions) := by
  have h0 : addAll [] keys0 = keys0 := by
    have key : ∀ (l acc : List ElementVerbose), (acc ++ l).Nodup → addAll acc l = acc ++ l := by
      intro l
      induction l with
      | nil => intro acc _; simp
      | cons a l ih =>
        intro acc hn
        have ha : a ∉ acc := by
          intro ha
          have := (List.nodup_append.1 hn).2.2 a ha a (by simp)
          exact this rfl
        rw [addAll_cons, addAll_single, if_neg ha, ih _ (by simpa using hn)]
        simp
    have hnd : keys0.Nodup := by
      rw [List.nodup_iff_pairwise_ne, List.pairwise_iff_getElem]
      intro i j hi hj hij heq
      have := h.inj (i := i) (j := j) (k := keys0[i]) (by simp) (by rw [heq]; simp)
      omega
    simpa using key keys0 [] (by simpa using hnd)
  rw [elementsAfter, firstOccurrences_eq, addAll_append, h0]

/-- `pd` is `pd0` with the rules `rs` read into it. -/
structure IntoOk (pd0 : ParserData I) (keys0 : List ElementVerbose) (rs : List (ReadRule I)) (pd : ParserData I) : Prop where
  ok : InternOk pd (addAll keys0 (rs.flatMap ReadRule.mentions))
  ignore : pd.ignore = pd0.ignore
  nodup : AMap.NodupKeys pd.rules
  rules : ∀ i, AMap.get pd.rules i = ruleAfter (addAll keys0 (rs.flatMap ReadRule.mentions)) pd0.ignore (AMap.get pd0.rules i)
    (defsOf (addAll keys0 (rs.flatMap ReadRule.mentions)) rs i)

theorem IntoOk.start {pd0 : ParserData I} {keys0 : List ElementVerbose} (h : InternOk pd0 keys0) (hn : AMap.NodupKeys pd0.rules) :
    IntoOk pd0 keys0 [] pd0 := by
  refine ⟨by simpa using h, rfl, hn, ?_⟩
  intro i
  cases hi : AMap.get pd0.rules i <;> simp [ruleAfter, defsOf]

theorem ruleAfter_congr {keys keys' : List ElementVerbose} {dflt : Option Nat} {old : Option (NTRule I)} {ds : List (ReadRule I)}
    (h : ∀ r ∈ ds, readMeaning keys dflt r = readMeaning keys' dflt r) : ruleAfter keys dflt old ds = ruleAfter keys' dflt old ds := by
  have hp : ∀ l : List (ReadRule I), (∀ r ∈ l, r ∈ ds) →
      (l.flatMap fun r => r.alts.map (altMeaning keys)) = (l.flatMap fun r => r.alts.map (altMeaning keys')) := by
    intro l hl
    rw [List.flatMap_def, List.flatMap_def]
    congr 1
    exact List.map_congr_left fun r hr => congrArg NTRule.prods (h r (hl r hr))
  cases old with
  | some q => simp only [ruleAfter, hp ds (fun _ h => h)]
  | none =>
    cases ds with
    | nil => rfl
    | cons d ds =>
      have : d.choice.select keys dflt = d.choice.select keys' dflt := congrArg NTRule.ignore (h d (by simp))
      simp only [ruleAfter, hp (d :: ds) (fun _ h => h), this]

theorem ruleAfter_snoc (keys : List ElementVerbose) (dflt : Option Nat) (old : Option (NTRule I)) (ds : List (ReadRule I))
    (r : ReadRule I) : ruleAfter keys dflt old (ds ++ [r]) = match ruleAfter keys dflt old ds with
      | some q => some { q with prods := q.prods ++ (readMeaning keys dflt r).prods }
      | none => some (readMeaning keys dflt r) := by
  cases old with
  | some q => simp [ruleAfter, readMeaning]
  | none =>
    cases ds with
    | nil => simp [ruleAfter, readMeaning]
    | cons d ds => simp [ruleAfter, readMeaning]

theorem readMeaning_addAll {keys : List ElementVerbose} {r : ReadRule I} (h : ∀ e ∈ r.mentions, e ∈ keys)
    (ks : List ElementVerbose) (dflt : Option Nat) : readMeaning (addAll keys ks) dflt r = readMeaning keys dflt r := by
  simp only [readMeaning]
  rw [Choice.select_addAll (fun e he => h e (by simp only [ReadRule.mentions, List.mem_cons, List.mem_append]; exact .inr (.inl he)))]
  congr 1
  refine List.map_congr_left fun a ha => altMeaning_addAll (fun e he => h e ?_) _
  simp only [ReadRule.mentions, List.mem_cons, List.mem_append, List.mem_flatten]
  exact .inr (.inr ⟨a, ha, he⟩)

theorem IntoOk.merge {pd0 pd pd1 : ParserData I} {keys0 : List ElementVerbose} {rs : List (ReadRule I)} (h : IntoOk pd0 keys0 rs pd)
    {r : ReadRule I} (hI : Interned pd (addAll keys0 (rs.flatMap ReadRule.mentions)) r.mentions pd1) :
    IntoOk pd0 keys0 (rs ++ [r])
      (mergeRule pd1 ((addAll (addAll keys0 (rs.flatMap ReadRule.mentions)) r.mentions).idxOf ⟨r.name, .nonTerminal⟩)
        (readMeaning (addAll (addAll keys0 (rs.flatMap ReadRule.mentions)) r.mentions) pd.ignore r)) := by
  have hk : addAll keys0 ((rs ++ [r]).flatMap ReadRule.mentions) = addAll (addAll keys0 (rs.flatMap ReadRule.mentions)) r.mentions := by
    rw [List.flatMap_append, addAll_append]; simp
  have hment : ∀ r' ∈ rs, ∀ e ∈ r'.mentions, e ∈ addAll keys0 (rs.flatMap ReadRule.mentions) := fun r' hr' e he =>
    mem_addAll.2 (.inr (List.mem_flatMap.2 ⟨r', hr', he⟩))
  obtain ⟨hok, hig, hnd, hru⟩ := h
  generalize addAll keys0 (rs.flatMap ReadRule.mentions) = K at *
  have hok1 : InternOk pd1 (addAll K r.mentions) := hI.ok
  obtain ⟨more, hm⟩ := addAll_prefix K r.mentions
  have hpre : ∀ {i : Nat} {k : ElementVerbose}, K[i]? = some k → (addAll K r.mentions)[i]? = some k := by
    intro i k hi
    rw [hm, List.getElem?_append_left (List.getElem?_eq_some_iff.1 hi).1]; exact hi
  -- the definitions read before
  have hdefs : ∀ i, defsOf (addAll K r.mentions) rs i = defsOf K rs i := by
    intro i
    refine List.filter_congr fun r' hr' => ?_
    obtain ⟨j, hj⟩ := List.getElem?_of_mem (hment r' hr' ⟨r'.name, .nonTerminal⟩ (by simp [ReadRule.mentions]))
    refine decide_eq_decide.2 ⟨fun hi => ?_, fun hi => hpre hi⟩
    have := hok1.inj (hpre hj) hi
    subst this; exact hj
  have hold : ∀ i, AMap.get pd1.rules i =
      ruleAfter (addAll K r.mentions) pd0.ignore (AMap.get pd0.rules i) (defsOf (addAll K r.mentions) rs i) := by
    intro i
    rw [hI.rules, hru, hdefs]
    exact ruleAfter_congr fun r' hr' => (readMeaning_addAll (hment r' (List.mem_filter.1 hr').1) _ _).symm
  have hmem : (⟨r.name, .nonTerminal⟩ : ElementVerbose) ∈ addAll K r.mentions :=
    mem_addAll.2 (.inr (by simp [ReadRule.mentions]))
  have hix := getElem?_idxOf hmem
  generalize hixd : (addAll K r.mentions).idxOf ⟨r.name, .nonTerminal⟩ = ix at hix ⊢
  have hsnoc : ∀ i, defsOf (addAll K r.mentions) (rs ++ [r]) i =
      defsOf (addAll K r.mentions) rs i ++ (if ix = i then [r] else []) := by
    intro i
    simp only [defsOf, List.filter_append]
    congr 1
    by_cases hi : ix = i
    · subst hi; simp [hix]
    · rw [if_neg hi, List.filter_eq_nil_iff]
      intro r' hr'
      simp only [List.mem_singleton] at hr'
      subst hr'
      simp only [decide_eq_true_eq]
      intro h'
      exact hi (hok1.inj hix h')
  have hnd1 : AMap.NodupKeys pd1.rules := by rw [hI.rules]; exact hnd
  rw [hig]
  have hself := hold ix
  have hsn := ruleAfter_snoc (addAll K r.mentions) pd0.ignore (AMap.get pd0.rules ix) (defsOf (addAll K r.mentions) rs ix) r
  unfold mergeRule
  split
  · next old ho =>
    refine ⟨by rw [hk]; exact ⟨hok1.types, hok1.data, hok1.map⟩, hI.ignore.trans hig, hnd1.insert _ _, ?_⟩
    intro i
    rw [hk]
    simp only [AMap.get_insert]
    by_cases hi : ix = i
    · subst hi
      rw [hself] at ho
      rw [ho] at hsn
      rw [if_pos rfl, hsnoc, if_pos rfl, hsn]
    · rw [if_neg hi, hsnoc, if_neg hi, List.append_nil]; exact hold i
  · next ho =>
    refine ⟨by rw [hk]; exact ⟨hok1.types, hok1.data, hok1.map⟩, hI.ignore.trans hig, hnd1.insert _ _, ?_⟩
    intro i
    rw [hk]
    simp only [AMap.get_insert]
    by_cases hi : ix = i
    · subst hi
      rw [hself] at ho
      rw [ho] at hsn
      rw [if_pos rfl, hsnoc, if_pos rfl, hsn]
    · rw [if_neg hi, hsnoc, if_neg hi, List.append_nil]; exact hold i

theorem IntoOk.readInto {pd0 pd : ParserData I} {keys0 : List ElementVerbose} {rs : List (ReadRule I)} (h0 : InternOk pd0 keys0)
    (h : IntoOk pd0 keys0 rs pd) : ReadInto pd0 keys0 rs pd := by
  have hk := elementsAfter_eq h0 rs
  refine ⟨?_, ?_, h.ignore, ?_⟩
  · rw [hk]; exact h.ok.verbose
  · rw [hk]; exact h.ok.map
  · rw [hk]; exact h.rules

/-! ### The loop -/

theorem Spec.ReadRuleText.head {cc : CharClass} {Sec : Str → Str → List I → Prop} {r : ReadRule I} {t : Str}
    (h : ReadRuleText cc Sec r t) : ∃ c u, t = c :: u ∧ cc.isAlphabetic c = true := by
  cases h with
  | mk hn => obtain ⟨c, cs, rfl, hc, -⟩ := hn; exact ⟨c, _, rfl, hc⟩

theorem flatMap_snoc_addAll (keys0 : List ElementVerbose) (rs : List (ReadRule I)) (r : ReadRule I) :
    addAll keys0 ((rs ++ [r]).flatMap ReadRule.mentions) = addAll (addAll keys0 (rs.flatMap ReadRule.mentions)) r.mentions := by
  rw [List.flatMap_append, addAll_append]; simp

theorem rulesLoop_complete_in {cc : CharClass} (hcc : SpaceOk cc) {vm : VM I S} {rs' : List (ReadRule I)} {text : Str}
    (h : ReadRulesText cc (ReadsSection vm) rs' text) {pd0 : ParserData I} {keys0 : List ElementVerbose} :
    ∀ (fuel k : Nat) (pd : ParserData I) (rs : List (ReadRule I)),
    text.length < fuel → IntoOk pd0 keys0 rs pd →
    ∃ k' pd', parseRulesLoop cc vm fuel ⟨Proc.at text k, pd⟩ = (.ok (), ⟨Proc.at [] k', pd'⟩) ∧ IntoOk pd0 keys0 (rs ++ rs') pd' := by
  induction h with
  | @nil g hg =>
    intro fuel k pd rs hf hm
    obtain ⟨fuel, rfl⟩ : ∃ f, fuel = f + 1 := ⟨fuel - 1, by omega⟩
    exact ⟨k + g.length, pd, rulesLoop_end cc vm hg fuel k pd, by simpa using hm⟩
  | @cons r rs' g t t' hg hr hrs ih =>
    intro fuel k pd rs hf hm
    obtain ⟨fuel, rfl⟩ : ∃ f, fuel = f + 1 := ⟨fuel - 1, by omega⟩
    obtain ⟨c, u, rfl, hc⟩ := hr.head
    have hns := alpha_noSpace hcc hc (u ++ t') c (u ++ t') rfl
    obtain ⟨k1, pd1, h1, h2⟩ := parseRule_complete_in hcc hr t' (k + g.length) hm.ok
    obtain ⟨k2, pd2, h3, h4⟩ := ih fuel k1 _ (rs ++ [r])
      (by simp only [List.length_append, List.length_cons] at hf; omega) (hm.merge h2)
    refine ⟨k2, pd2, ?_, by simpa using h4⟩
    rw [show g ++ (c :: u ++ t') = g ++ c :: (u ++ t') by simp, rulesLoop_step cc vm hg hns]
    rw [List.cons_append] at h1
    rw [smBind_ok h1]
    exact h3

theorem rulesLoop_sound_in {vm : VM I S} (hvm : OnlyReads vm) (cc : CharClass) {pd0 : ParserData I} {keys0 : List ElementVerbose} :
    ∀ (fuel : Nat) (w : Str) (k : Nat) (pd : ParserData I) (rs : List (ReadRule I)), w.length < fuel → IntoOk pd0 keys0 rs pd →
    (∃ rs' pd', parseRulesLoop cc vm fuel ⟨Proc.at w k, pd⟩ = (.ok (), ⟨Proc.at [] (k + w.length), pd'⟩) ∧
      ReadRulesText cc (ReadsSectionIn vm) rs' w ∧ IntoOk pd0 keys0 (rs ++ rs') pd') ∨
    (∃ e s, parseRulesLoop cc vm fuel ⟨Proc.at w k, pd⟩ = (.err e, s) ∧ RErr vm w k e)
  | 0, w, _, _, _, h, _ => by omega
  | fuel + 1, w, k, pd, rs, hf, hm => by
    obtain ⟨g, v, rfl, hg, hv, -⟩ := space_split w
    cases v with
    | nil =>
      rw [List.append_nil]
      exact .inl ⟨[], pd, rulesLoop_end cc vm hg fuel k pd, .nil hg, by simpa using hm⟩
    | cons c v =>
      rw [rulesLoop_step cc vm hg (hv c v rfl)]
      obtain ⟨u, w', pd1, ks, h1, h2, h3, h4⟩ := reads_rule_in (w := c :: v) (k := k + g.length) hvm hm.ok cc
      rcases hr : parseRule cc vm ⟨Proc.at (c :: v) (k + g.length), pd⟩ with ⟨res, s⟩
      rw [hr] at h1 h4
      simp only at h1 h4
      subst h1
      rcases h4 with ⟨x, rfl, r, ht, rfl, hx1, hx2⟩ | ⟨e, rfl, hE⟩
      · rw [smBind_ok hr, hx1, hx2]
        have hlen : w'.length < fuel := by
          obtain ⟨d, u', rfl, -⟩ := ht.head
          have := congrArg List.length h2
          simp only [List.length_append, List.length_cons] at this hf
          omega
        have hmerge : ∀ key (rule : NTRule I), rpMerge key rule ⟨Proc.at w' (k + g.length + u.length), pd1⟩ =
            (.ok (), ⟨Proc.at w' (k + g.length + u.length), mergeRule pd1 key rule⟩) := fun _ _ => rfl
        rw [smBind_ok (hmerge _ _)]
        rcases rulesLoop_sound_in hvm cc fuel w' (k + g.length + u.length) _ (rs ++ [r]) hlen (hm.merge h3) with
          ⟨rs', pd', i1, i2, i3⟩ | ⟨e, s, i1, i2⟩
        · refine .inl ⟨r :: rs', pd', ?_, ?_, by simpa using i3⟩
          · rw [i1, h2]; simp only [List.length_append, Nat.add_assoc]
          · rw [h2]; exact .cons hg ht i2
        · refine .inr ⟨e, s, i1, ?_⟩
          rw [h2]
          exact RErr.suffix (u := g) (RErr.suffix (u := u) i2)
      · refine .inr ⟨e, ⟨Proc.at w' (k + g.length + u.length), pd1⟩, by rw [SM.bind_apply, hr], ?_⟩
        exact RErr.suffix (u := g) hE

/-! ### What was read is in order -/

theorem ruleAfter_cases {keys : List ElementVerbose} {dflt : Option Nat} {old : Option (NTRule I)} {ds : List (ReadRule I)} {q : NTRule I}
    (h : ruleAfter keys dflt old ds = some q) :
    (old ≠ none ∨ ds ≠ []) ∧
    (∀ p ∈ q.prods, (∃ q0, old = some q0 ∧ p ∈ q0.prods) ∨ ∃ r ∈ ds, ∃ a ∈ r.alts, p = altMeaning keys a) ∧
    (∀ j, q.ignore = some j → (∃ q0, old = some q0 ∧ q0.ignore = some j) ∨ dflt = some j ∨
      ∃ d ∈ ds, ∃ n, d.choice = .use n ∧ j = keys.idxOf ⟨n, .nonTerminal⟩) := by
  have hp : ∀ {l : List (ReadRule I)} {p}, p ∈ (l.flatMap fun r => r.alts.map (altMeaning keys)) →
      ∃ r ∈ l, ∃ a ∈ r.alts, p = altMeaning keys a := by
    intro l p hp
    obtain ⟨r, hr, hp⟩ := List.mem_flatMap.1 hp
    obtain ⟨a, ha, rfl⟩ := List.mem_map.1 hp
    exact ⟨r, hr, a, ha, rfl⟩
  cases old with
  | some q0 =>
    simp only [ruleAfter, Option.some.injEq] at h
    subst h
    refine ⟨.inl (by simp), ?_, fun j hj => .inl ⟨q0, rfl, hj⟩⟩
    intro p h
    rcases List.mem_append.1 h with h | h
    · exact .inl ⟨q0, rfl, h⟩
    · exact .inr (hp h)
  | none =>
    cases ds with
    | nil => simp [ruleAfter] at h
    | cons d ds =>
      simp only [ruleAfter, Option.some.injEq] at h
      subst h
      refine ⟨.inr (by simp), fun p h => .inr (hp h), ?_⟩
      intro j hj
      cases hc : d.choice with
      | default => simp only [hc, Choice.select] at hj; exact .inr (.inl hj)
      | off => simp [hc, Choice.select] at hj
      | use n =>
        simp only [hc, Choice.select, Option.some.injEq] at hj
        exact .inr (.inr ⟨d, by simp, n, hc, hj.symm⟩)

section
variable {pd0 pd : ParserData I} {keys0 : List ElementVerbose} {rs : List (ReadRule I)}

theorem IntoOk.types_prefix (h0 : InternOk pd0 keys0) (h : IntoOk pd0 keys0 rs pd) :
    ∃ more, pd.elementTypes = pd0.elementTypes ++ more := by
  obtain ⟨m, hm⟩ := addAll_prefix keys0 (rs.flatMap ReadRule.mentions)
  exact ⟨m.map (·.et), by rw [h.ok.types, hm, List.map_append, h0.types]⟩

theorem IntoOk.wellFormed (h0 : InternOk pd0 keys0) (hw : WellFormed pd0) (h : IntoOk pd0 keys0 rs pd) : WellFormed pd := by
  obtain ⟨more, hmore⟩ := h.types_prefix h0
  refine ⟨h.nodup, by rw [h.ok.types, h.ok.data]; simp, ?_, ?_, ?_⟩
  · intro A r hr
    rw [h.rules] at hr
    rcases (ruleAfter_cases hr).1 with h1 | h1
    · obtain ⟨q0, hq0⟩ := Option.ne_none_iff_exists'.1 h1
      have := hw.keysNT A q0 hq0
      rw [hmore, List.getElem?_append_left (List.getElem?_eq_some_iff.1 this).1]; exact this
    · obtain ⟨d, hd⟩ := List.exists_mem_of_ne_nil _ h1
      have := (List.mem_filter.1 hd).2
      simp only [decide_eq_true_eq] at this
      rw [h.ok.types, List.getElem?_map, this]; rfl
  · intro A r hr p hp e he
    rw [h.rules] at hr
    rcases (ruleAfter_cases hr).2.1 p hp with ⟨q0, hq0, hpq⟩ | ⟨r', hr', a, ha, rfl⟩
    · have := hw.inRange A q0 hq0 p hpq e he
      rw [hmore, List.length_append]; omega
    · rw [prodElems_altMeaning] at he
      obtain ⟨x, hx, rfl⟩ := List.mem_map.1 he
      rw [h.ok.types, List.length_map]
      refine List.idxOf_lt_length_of_mem (mem_addAll.2 (.inr (List.mem_flatMap.2 ⟨r', (List.mem_filter.1 hr').1, ?_⟩)))
      simp only [ReadRule.mentions, List.mem_cons, List.mem_append, List.mem_flatten]
      exact .inr (.inr ⟨a, ha, hx⟩)
  · intro A r hr p hp
    rw [h.rules] at hr
    rcases (ruleAfter_cases hr).2.1 p hp with ⟨q0, hq0, hpq⟩ | ⟨r', hr', a, ha, rfl⟩
    · exact hw.nonEmpty A q0 hq0 p hpq
    · cases a with
      | nil => simp [altMeaning_nil]
      | cons e a => simp [altMeaning_ne]

theorem IntoOk.ignoresNT (h0 : InternOk pd0 keys0) (hi : IgnoresNT pd0)
    (hd : ∀ j, pd0.ignore = some j → pd0.elementTypes[j]? = some .nonTerminal) (h : IntoOk pd0 keys0 rs pd) : IgnoresNT pd := by
  obtain ⟨more, hmore⟩ := h.types_prefix h0
  have hold : ∀ {j : Nat}, pd0.elementTypes[j]? = some .nonTerminal → pd.elementTypes[j]? = some .nonTerminal := by
    intro j hj
    rw [hmore, List.getElem?_append_left (List.getElem?_eq_some_iff.1 hj).1]; exact hj
  intro A r j hr hj
  rw [h.rules] at hr
  rcases (ruleAfter_cases hr).2.2 j hj with ⟨q0, hq0, hq⟩ | hdj | ⟨d, hdd, n, hn, rfl⟩
  · exact hold (hi A q0 j hq0 hq)
  · exact hold (hd j hdj)
  · have hmem : (⟨n, .nonTerminal⟩ : ElementVerbose) ∈ addAll keys0 (rs.flatMap ReadRule.mentions) := by
      refine mem_addAll.2 (.inr (List.mem_flatMap.2 ⟨d, (List.mem_filter.1 hdd).1, ?_⟩))
      simp [ReadRule.mentions, hn, Choice.mentions]
    rw [h.ok.types, List.getElem?_map, getElem?_idxOf hmem]; rfl

end

end HPP
