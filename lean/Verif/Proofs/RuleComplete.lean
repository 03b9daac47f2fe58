import Verif.Proofs.RuleElem
/-
Rule texts that follow the syntax are accepted.
-/
namespace HPP
open Spec
variable {I S : Type}

theorem smBind_ok {σ ε α β : Type} {x : SM σ ε α} {f : α → SM σ ε β} {s s1 : σ} {a : α} (h : x s = (.ok a, s1)) :
    (x >>= f) s = f a s1 := by rw [SM.bind_apply, h]

theorem rest_at (w : Str) (k : Nat) : (Proc.at w k).rest = w := rfl

theorem isSpace_nil : IsSpace [] := by intro c hc; simp at hc

theorem isSpace_append {a b : Str} (ha : IsSpace a) (hb : IsSpace b) : IsSpace (a ++ b) := by
  intro c hc
  rcases List.mem_append.1 hc with h | h
  · exact ha c h
  · exact hb c h

theorem rpWhitespace_none {w : Str} (hw : NoSpaceAhead w) (k : Nat) (pd : ParserData I) :
    rpWhitespace ⟨Proc.at w k, pd⟩ = (.ok (), ⟨Proc.at w k, pd⟩) := rpWhitespace_ok (g := []) isSpace_nil hw k pd

/-- Numbers of known elements do not change. -/
theorem altMeaning_addAll {keys a : List ElementVerbose} (h : ∀ e ∈ a, e ∈ keys) (ks : List ElementVerbose) :
    altMeaning (addAll keys ks) a = altMeaning keys a := by
  simp only [altMeaning]
  congr 1
  exact List.map_congr_left fun e he => idxOf_addAll (h e he)

theorem altMeaning_nil (keys : List ElementVerbose) : altMeaning keys [] = .empty := rfl

theorem altMeaning_ne {keys a : List ElementVerbose} (h : a ≠ []) :
    altMeaning keys a = .notEmpty (a.map fun e => keys.idxOf e) := by
  cases a with
  | nil => exact absurd rfl h
  | cons e a => rfl

/-- One alternative. -/
theorem parseProd_complete {cc : CharClass} (hcc : SpaceOk cc) {es : List ElementVerbose} {t : Str} (h : AltText cc es t)
    {g0 g w : Str} (hg0 : IsSpace g0) (hg : IsSpace g) (hw : EndAhead w) (k : Nat) {pd : ParserData I}
    {keys : List ElementVerbose} (hin : InternOk pd keys) :
    ∃ g' k' pd', IsSpace g' ∧ parseProd cc ⟨Proc.at (g0 ++ (t ++ (g ++ w))) k, pd⟩ =
        (.ok (altMeaning (addAll keys es) es), ⟨Proc.at (g' ++ w) k', pd'⟩) ∧ Interned pd keys es pd' := by
  cases h with
  | empty =>
    refine ⟨g, k + g0.length + 1, pd, hg, ?_, .refl hin⟩
    have hns : NoSpaceAhead (c% "#" ++ (g ++ w)) := by intro c r he; cases he; decide
    have hpk : parseElement cc (Proc.at ('#' :: (g ++ w)) (k + g0.length)) = (.ok none, Proc.at (g ++ w) (k + g0.length + 1)) := by
      simp only [parseElement, plainReader.peek ('#' :: (g ++ w)) _ trivial, List.head?_cons, if_true,
        plainReader.next '#' (g ++ w) _ trivial]
    simp only [parseProd]
    rw [prodLoop_step, rpWhitespace_ok hg0 hns]
    simp only [List.cons_append, List.nil_append, rpProc_eq hpk]
    rfl
  | seq h =>
    obtain ⟨k', pd', h1, h2⟩ := prodLoop_complete hcc h ((Proc.at (g0 ++ (t ++ (g ++ w))) k).rest.length + 1) [] g0 g w k pd keys
      (by rw [rest_at]; simp only [List.length_append]; omega) hg0 hg hw hin
    refine ⟨[], k', pd', isSpace_nil, ?_, h2⟩
    rw [altMeaning_ne h.ne_nil]
    simpa [parseProd] using h1

/-- Where the alternatives end. -/
def StopAhead (w : Str) : Prop := ∀ c r, w = c :: r → (c = '{' ∨ c = ';')

theorem StopAhead.cons {c : Char} {r : Str} (h : c = '{' ∨ c = ';') : StopAhead (c :: r) := by
  intro d r' he; cases he; exact h

theorem StopAhead.endAhead {w : Str} (h : StopAhead w) : EndAhead w := by
  exact fun c r he => .inr (h c r he)

/-- A step of the loop over alternatives. -/
theorem altsLoop_bar (cc : CharClass) (fuel : Nat) (acc : List Production) {g g' w : Str} (hg : IsSpace g)
    (hg' : IsSpace g') (hw : NoSpaceAhead w) (k : Nat) (pd : ParserData I) :
    ∃ k', parseAltsLoop cc (fuel + 1) acc ⟨Proc.at (g ++ '|' :: (g' ++ w)) k, pd⟩ =
      (parseProd cc >>= fun p => parseAltsLoop cc fuel (acc ++ [p])) ⟨Proc.at w k', pd⟩ := by
  have hb : NoSpaceAhead ('|' :: (g' ++ w)) := by intro c r he; cases he; decide
  refine ⟨k + g.length + 1 + g'.length, ?_⟩
  obtain ⟨e, he⟩ := rpSymbol_err (c := '\n') (w := '|' :: (g' ++ w)) (by simp) (k + g.length) pd
  rw [parseAltsLoop, smBind_ok (rpWhitespace_ok hg hb k pd), smBind_ok (smTry_err he),
    smBind_ok (rpWhitespace_none hb _ pd), smBind_ok (smTry_ok (rpSymbol_ok '|' _ _ pd))]
  exact smBind_ok (rpWhitespace_ok hg' hw _ pd)

theorem altsLoop_stop (cc : CharClass) (fuel : Nat) (acc : List Production) {g w : Str} (hg : IsSpace g)
    (hw : StopAhead w) (k : Nat) (pd : ParserData I) :
    ∃ k', parseAltsLoop cc (fuel + 1) acc ⟨Proc.at (g ++ w) k, pd⟩ = (.ok acc, ⟨Proc.at w k', pd⟩) := by
  have hb := hw.endAhead.noSpace
  refine ⟨k + g.length, ?_⟩
  have h1 : w.head? ≠ some '\n' := by
    cases w with
    | nil => simp
    | cons c r => rcases hw c r rfl with rfl | rfl <;> simp
  have h2 : w.head? ≠ some '|' := by
    cases w with
    | nil => simp
    | cons c r => rcases hw c r rfl with rfl | rfl <;> simp
  obtain ⟨e, he⟩ := rpSymbol_err h1 (k + g.length) pd
  obtain ⟨e', he'⟩ := rpSymbol_err h2 (k + g.length) pd
  rw [parseAltsLoop, smBind_ok (rpWhitespace_ok hg hb k pd), smBind_ok (smTry_err he),
    smBind_ok (rpWhitespace_none hb _ pd), smBind_ok (smTry_err he')]
  rfl

theorem Spec.AltText.head_noSpace {cc : CharClass} (hcc : SpaceOk cc) {es : List ElementVerbose} {t : Str}
    (h : AltText cc es t) (w : Str) : NoSpaceAhead (t ++ w) := by
  cases h with
  | empty => intro c r he; cases he; decide
  | seq h => exact h.head_noSpace hcc w

theorem Spec.AltsText.head_noSpace {cc : CharClass} (hcc : SpaceOk cc) {as : List (List ElementVerbose)} {t : Str}
    (h : AltsText cc as t) (w : Str) : NoSpaceAhead (t ++ w) := by
  cases h with
  | one h => exact h.head_noSpace hcc w
  | cons h _ _ _ => rw [List.append_assoc]; exact h.head_noSpace hcc _

theorem bar_endAhead (w : Str) : EndAhead ('|' :: w) := by intro c r he; cases he; exact .inl rfl

/-- The first alternative and the rest, from after white space. -/
theorem altsFrom_complete {cc : CharClass} (hcc : SpaceOk cc) {as : List (List ElementVerbose)} {t : Str}
    (h : AltsText cc as t) : ∀ (fuel : Nat) (acc : List Production) (g0 g w : Str) (k : Nat) (pd : ParserData I)
    (keys : List ElementVerbose), as.length ≤ fuel → IsSpace g0 → IsSpace g → StopAhead w → InternOk pd keys →
    ∃ k' pd', (parseProd cc >>= fun p => parseAltsLoop cc fuel (acc ++ [p])) ⟨Proc.at (g0 ++ (t ++ (g ++ w))) k, pd⟩ =
        (.ok (acc ++ as.map (altMeaning (addAll keys as.flatten))), ⟨Proc.at w k', pd'⟩) ∧
      Interned pd keys as.flatten pd' := by
  induction h with
  | @one a t ha =>
    intro fuel acc g0 g w k pd keys hf hg0 hg hw hin
    obtain ⟨fuel, rfl⟩ : ∃ f, fuel = f + 1 := ⟨fuel - 1, by simp at hf; omega⟩
    obtain ⟨g', k1, pd1, hg', h1, h2⟩ := parseProd_complete hcc ha hg0 hg hw.endAhead k hin
    obtain ⟨k2, h3⟩ := altsLoop_stop cc fuel (acc ++ [altMeaning (addAll keys a) a]) hg' hw k1 pd1
    refine ⟨k2, pd1, ?_, by simpa using h2⟩
    rw [smBind_ok h1, h3]
    simp
  | @cons a as t g1 g1' t' ha hg1 hg1' hs ih =>
    intro fuel acc g0 g w k pd keys hf hg0 hg hw hin
    obtain ⟨fuel, rfl⟩ : ∃ f, fuel = f + 1 := ⟨fuel - 1, by simp at hf; omega⟩
    obtain ⟨g', k1, pd1, hg', h1, h2⟩ := parseProd_complete hcc ha hg0 hg1
      (bar_endAhead (g1' ++ (t' ++ (g ++ w)))) k hin
    obtain ⟨k2, h3⟩ := altsLoop_bar cc fuel (acc ++ [altMeaning (addAll keys a) a]) hg' hg1'
      (hs.head_noSpace hcc (g ++ w)) k1 pd1
    obtain ⟨k3, pd3, h4, h5⟩ := ih fuel (acc ++ [altMeaning (addAll keys a) a]) [] g w k2 pd1 (addAll keys a)
      (by simp only [List.length_cons] at hf; omega) isSpace_nil hg hw h2.ok
    refine ⟨k3, pd3, ?_, h2.trans h5⟩
    rw [show g0 ++ (t ++ (g1 ++ '|' :: (g1' ++ t')) ++ (g ++ w)) = g0 ++ (t ++ (g1 ++ '|' :: (g1' ++ (t' ++ (g ++ w))))) by simp,
      smBind_ok h1, h3]
    rw [List.nil_append] at h4
    rw [h4, List.flatten_cons, addAll_append]
    have : altMeaning (addAll (addAll keys a) as.flatten) a = altMeaning (addAll keys a) a :=
      altMeaning_addAll (fun e he => mem_addAll.2 (.inr he)) _
    simp [this]

theorem Spec.AltsText.length_le {cc : CharClass} {as : List (List ElementVerbose)} {t : Str} (h : AltsText cc as t) :
    as.length ≤ t.length := by
  have key : ∀ {a t}, AltText cc a t → 0 < t.length := by
    intro a t h
    cases h with
    | empty => simp
    | seq h =>
      cases h with
      | one h => exact h.length_pos
      | cons h _ _ _ => have := h.length_pos; rw [List.length_append]; omega
  induction h with
  | one h => have := key h; simp only [List.length_cons, List.length_nil]; omega
  | cons h _ _ _ ih => have := key h; simp only [List.length_cons, List.length_append]; omega

/-- `parse_possible_productions`. -/
theorem parseAlts_complete {cc : CharClass} (hcc : SpaceOk cc) {as : List (List ElementVerbose)} {t : Str}
    (h : AltsText cc as t) {g0 g w : Str} (k : Nat) {pd : ParserData I} {keys : List ElementVerbose}
    (hg0 : IsSpace g0) (hg : IsSpace g) (hw : StopAhead w) (hin : InternOk pd keys) :
    ∃ k' pd', parseAlts cc ⟨Proc.at (g0 ++ (t ++ (g ++ w))) k, pd⟩ =
        (.ok (as.map (altMeaning (addAll keys as.flatten))), ⟨Proc.at w k', pd'⟩) ∧
      Interned pd keys as.flatten pd' := by
  cases h with
  | @one a t ha =>
    obtain ⟨g', k1, pd1, hg', h1, h2⟩ := parseProd_complete hcc ha hg0 hg hw.endAhead k hin
    obtain ⟨k2, h3⟩ := altsLoop_stop cc (Proc.at (g' ++ w) k1).rest.length [altMeaning (addAll keys a) a] hg' hw k1 pd1
    refine ⟨k2, pd1, ?_, by simpa using h2⟩
    refine (smBind_ok h1).trans ?_
    simp only [List.flatten_cons, List.flatten_nil, List.append_nil, List.map_cons, List.map_nil]
    exact h3
  | @cons a as t g1 g1' t' ha hg1 hg1' hs =>
    obtain ⟨g', k1, pd1, hg', h1, h2⟩ := parseProd_complete hcc ha hg0 hg1
      (bar_endAhead (g1' ++ (t' ++ (g ++ w)))) k hin
    obtain ⟨k2, h3⟩ := altsLoop_bar cc (Proc.at (g' ++ '|' :: (g1' ++ (t' ++ (g ++ w)))) k1).rest.length
      [altMeaning (addAll keys a) a] hg' hg1' (hs.head_noSpace hcc (g ++ w)) k1 pd1
    obtain ⟨k3, pd3, h4, h5⟩ := altsFrom_complete hcc hs (Proc.at (g' ++ '|' :: (g1' ++ (t' ++ (g ++ w)))) k1).rest.length
      [altMeaning (addAll keys a) a] [] g w k2 pd1 (addAll keys a)
      (by have := hs.length_le; rw [rest_at]; simp only [List.length_append, List.length_cons]; omega) isSpace_nil hg hw h2.ok
    refine ⟨k3, pd3, ?_, h2.trans h5⟩
    rw [show g0 ++ (t ++ (g1 ++ '|' :: (g1' ++ t')) ++ (g ++ w)) = g0 ++ (t ++ (g1 ++ '|' :: (g1' ++ (t' ++ (g ++ w))))) by simp]
    refine (smBind_ok h1).trans ?_
    rw [List.nil_append] at h4
    show parseAltsLoop cc _ _ _ = _
    rw [h3, h4, List.flatten_cons, addAll_append]
    have : altMeaning (addAll (addAll keys a) as.flatten) a = altMeaning (addAll keys a) a :=
      altMeaning_addAll (fun e he => mem_addAll.2 (.inr he)) _
    simp [this]

/-! ### Overrides, sections, rules -/

/-- The elements an override mentions. -/
def ignElems (ign : Option Str) : List ElementVerbose := (ign.map fun n => ⟨n, .nonTerminal⟩).toList

/-- What an override means. -/
def ignMeaning (keys : List ElementVerbose) (ign : Option Str) : Option Nat := ign.map fun i => keys.idxOf ⟨i, .nonTerminal⟩

theorem isName_ignore (cc : CharClass) : IsName cc (c% "IGNORE") :=
  ⟨'I', c% "GNORE", rfl, rfl, by
    intro d hd
    left
    simp only [List.mem_cons, List.not_mem_nil, or_false] at hd
    rcases hd with rfl | rfl | rfl | rfl | rfl <;> rfl⟩

theorem rpIgnore_none {pd : ParserData I} (h : pd.ignore = none) {p : Proc} : rpIgnore ⟨p, pd⟩ = (.ok none, ⟨p, pd⟩) := by
  simp [rpIgnore, h]

theorem parseOverrides_given {cc : CharClass} (hcc : SpaceOk cc) {v g w : Str} (hv : IsName cc v) (hg : IsSpace g)
    (k : Nat) {pd : ParserData I} (hpd : pd.ignore = none) :
    ∃ k', parseOverrides cc ⟨Proc.at (c% "$[" ++ (v ++ (g ++ ':' :: w))) k, pd⟩ =
      (overrideValue cc v none >>= fun i => rpSymbol ']' >>= fun _ => pure i) ⟨Proc.at w k', pd⟩ := by
  have hb : NoSpaceAhead (':' :: w) := by intro c r he; cases he; decide
  have hn : NoNameAhead cc (g ++ ':' :: w) :=
    noName_space cc hg (fun _ => by intro c r he; cases he; rfl) hcc
  refine ⟨k + 1 + 1 + v.length + g.length + 1, ?_⟩
  rw [parseOverrides]
  rw [smBind_ok (rpIgnore_none hpd)]
  rw [show (c% "$[" ++ (v ++ (g ++ ':' :: w)) : Str) = '$' :: '[' :: (v ++ (g ++ ':' :: w)) from rfl,
    smBind_ok (smTry_ok (rpSymbol_ok '$' _ k pd))]
  simp only
  rw [smBind_ok (rpSymbol_ok '[' _ _ pd), smBind_ok (rpVarName_ok hv hn _ pd), smBind_ok (rpWhitespace_ok hg hb _ pd),
    smBind_ok (rpSymbol_ok ':' _ _ pd)]

theorem parseOverrides_absent (cc : CharClass) {w : Str} (h : w.head? ≠ some '$') (k : Nat) {pd : ParserData I}
    (hpd : pd.ignore = none) : parseOverrides cc ⟨Proc.at w k, pd⟩ = (.ok none, ⟨Proc.at w k, pd⟩) := by
  rw [parseOverrides]
  rw [smBind_ok (rpIgnore_none hpd)]
  obtain ⟨e, he⟩ := rpSymbol_err h k pd
  rw [smBind_ok (smTry_err he)]
  rfl

/-- `parse_overrides`. -/
theorem parseOverrides_complete {cc : CharClass} (hcc : SpaceOk cc) {ign : Option Str} {o : Str} (h : OverrideText cc ign o)
    {w : Str} (hw : w.head? ≠ some '$') (k : Nat) {pd : ParserData I} {keys : List ElementVerbose} (hin : InternOk pd keys)
    (hpd : pd.ignore = none) :
    ∃ k' pd', parseOverrides cc ⟨Proc.at (o ++ w) k, pd⟩ =
        (.ok (ignMeaning (addAll keys (ignElems ign)) ign), ⟨Proc.at w k', pd'⟩) ∧ Interned pd keys (ignElems ign) pd' := by
  cases h with
  | absent => exact ⟨k, pd, parseOverrides_absent cc hw k hpd, .refl hin⟩
  | @off g hg =>
    obtain ⟨k1, h1⟩ := parseOverrides_given hcc (w := '#' :: ']' :: w) (isName_ignore cc) hg k hpd
    refine ⟨k1 + 1 + 1, pd, ?_, .refl hin⟩
    rw [show c% "$[IGNORE" ++ (g ++ c% ":#]") ++ w = c% "$[" ++ (c% "IGNORE" ++ (g ++ ':' :: '#' :: ']' :: w)) by simp, h1]
    have : overrideValue cc (c% "IGNORE") none ⟨Proc.at ('#' :: ']' :: w) k1, pd⟩ = (.ok none, ⟨Proc.at (']' :: w) (k1 + 1), pd⟩) := by
      rw [overrideValue, if_pos rfl, smBind_ok (smTry_ok (rpSymbol_ok '#' _ _ pd))]; rfl
    rw [smBind_ok this, smBind_ok (rpSymbol_ok ']' _ _ pd)]
    rfl
  | @name g n hg hn =>
    obtain ⟨k1, h1⟩ := parseOverrides_given hcc (w := n ++ ']' :: w) (isName_ignore cc) hg k hpd
    obtain ⟨pd', hi, hI⟩ := rpIntern_eq hin (Proc.at (']' :: w) (k1 + n.length)) ⟨n, .nonTerminal⟩
    refine ⟨k1 + n.length + 1, pd', ?_, hI⟩
    rw [show c% "$[IGNORE" ++ (g ++ ':' :: (n ++ c% "]")) ++ w = c% "$[" ++ (c% "IGNORE" ++ (g ++ ':' :: (n ++ ']' :: w))) by simp, h1]
    have hh : (n ++ ']' :: w).head? ≠ some '#' := by
      obtain ⟨c, cs, rfl, hc, -⟩ := hn
      have := alpha_ne hc (d := '#') rfl
      simpa using this
    obtain ⟨e, he⟩ := rpSymbol_err hh k1 pd
    have hnn : NoNameAhead cc (']' :: w) := by intro c r h; cases h; rfl
    have : overrideValue cc (c% "IGNORE") none ⟨Proc.at (n ++ ']' :: w) k1, pd⟩ =
        (.ok (some ((addAll keys [⟨n, .nonTerminal⟩]).idxOf ⟨n, .nonTerminal⟩)), ⟨Proc.at (']' :: w) (k1 + n.length), pd'⟩) := by
      rw [overrideValue, if_pos rfl, smBind_ok (smTry_err he)]
      simp only
      rw [smBind_ok (rpVarName_ok hn hnn k1 pd), smBind_ok hi]
      rfl
    rw [smBind_ok this, smBind_ok (rpSymbol_ok ']' _ _ pd')]
    rfl
  | @unknown v g hv hne hg =>
    obtain ⟨k1, h1⟩ := parseOverrides_given hcc (w := ']' :: w) hv hg k hpd
    refine ⟨k1 + 1, pd, ?_, .refl hin⟩
    rw [show c% "$[" ++ (v ++ (g ++ c% ":]")) ++ w = c% "$[" ++ (v ++ (g ++ ':' :: ']' :: w)) by simp, h1]
    have : overrideValue cc v none ⟨Proc.at (']' :: w) k1, pd⟩ = (.ok none, ⟨Proc.at (']' :: w) k1, pd⟩) := by
      rw [overrideValue, if_neg hne]; rfl
    rw [smBind_ok this, smBind_ok (rpSymbol_ok ']' _ _ pd)]
    rfl

/-- `parse_instruction_section`. -/
theorem parseSection_complete {vm : VM I S} {n : Str} {instr : List I} {s : Str}
    (h : SectionText (ReadsSection vm) n instr s) {w : Str} (hw : s = [] → w.head? ≠ some '{') (k : Nat) (pd : ParserData I) :
    ∃ k', parseInstructionSection vm n ⟨Proc.at (s ++ w) k, pd⟩ = (.ok instr, ⟨Proc.at w k', pd⟩) := by
  cases h with
  | absent =>
    obtain ⟨e, he⟩ := rpSymbol_err (hw rfl) k pd
    refine ⟨k, ?_⟩
    rw [parseInstructionSection, List.nil_append, smBind_ok (smTry_err he)]
    rfl
  | @given instr g body hg hb hs =>
    obtain ⟨p, h1, h2⟩ := hs w (k + 1 + g.length)
    have hns : NoSpaceAhead (body ++ '}' :: w) := by
      intro c r he
      cases body with
      | nil => cases he; decide
      | cons d body => cases he; exact hb c body rfl
    have h3 : rpProc (runSection vm n) ⟨Proc.at (body ++ '}' :: w) (k + 1 + g.length), pd⟩ =
        (.ok instr, ⟨Proc.at ('}' :: w) (k + 1 + g.length + body.length), pd⟩) := by
      refine rpProc_eq ?_ pd
      have : vm.parseInstructions n (PP.newNested (Proc.at (body ++ '}' :: w) (k + 1 + g.length)) (some '}') (some '\\')
          (Proc.at (body ++ '}' :: w) (k + 1 + g.length)).curPos) = (.ok instr, p) := h1
      simp only [runSection, this, h2]
      rfl
    refine ⟨k + 1 + g.length + body.length + 1, ?_⟩
    rw [parseInstructionSection, show '{' :: (g ++ (body ++ c% "}")) ++ w = '{' :: (g ++ (body ++ '}' :: w)) by simp,
      smBind_ok (smTry_ok (rpSymbol_ok '{' _ k pd))]
    simp only
    rw [smBind_ok (rpWhitespace_ok hg hns _ pd), smBind_ok h3, smBind_ok (rpSymbol_ok '}' w _ pd)]
    rfl

theorem Spec.AltsText.head_ne {cc : CharClass} {as : List (List ElementVerbose)} {t : Str} (h : AltsText cc as t) (w : Str)
    : (t ++ w).head? ≠ some '$' := by
  have k1 : ∀ {e t}, ElemText cc e t → ∀ w : Str, (t ++ w).head? ≠ some '$' := by
    intro e t h w
    cases h with
    | terminal => simp
    | name hn =>
      obtain ⟨c, cs, rfl, hc, -⟩ := hn
      have := alpha_ne hc (d := '$') rfl
      simpa using this
  have k2 : ∀ {a t}, AltText cc a t → ∀ w : Str, (t ++ w).head? ≠ some '$' := by
    intro a t h w
    cases h with
    | empty => simp
    | seq h =>
      cases h with
      | one h => exact k1 h w
      | cons h _ _ _ => rw [List.append_assoc]; exact k1 h _
  cases h with
  | one h => exact k2 h w
  | cons h _ _ _ => rw [List.append_assoc]; exact k2 h _

/-- What a written rule means, elements being numbered as in `keys`. -/
def written (keys : List ElementVerbose) (r : WrittenRule I) : NTRule I :=
  ⟨r.alts.map (altMeaning keys), ignMeaning keys r.ignore, r.instr⟩

theorem ignMeaning_addAll {keys : List ElementVerbose} {ign : Option Str} (h : ∀ e ∈ ignElems ign, e ∈ keys)
    (ks : List ElementVerbose) : ignMeaning (addAll keys ks) ign = ignMeaning keys ign := by
  cases ign with
  | none => rfl
  | some n => simp only [ignMeaning, Option.map_some]; rw [idxOf_addAll (h _ (by simp [ignElems]))]

theorem written_addAll {keys : List ElementVerbose} {r : WrittenRule I} (h : ∀ e ∈ r.mentions, e ∈ keys)
    (ks : List ElementVerbose) : written (addAll keys ks) r = written keys r := by
  simp only [written]
  rw [ignMeaning_addAll (fun e he => h e (by simp only [WrittenRule.mentions, List.mem_cons, List.mem_append]; exact .inr (.inl he)))]
  congr 1
  refine List.map_congr_left fun a ha => altMeaning_addAll (fun e he => h e ?_) _
  simp only [WrittenRule.mentions, List.mem_cons, List.mem_append, List.mem_flatten]
  exact .inr (.inr ⟨a, ha, he⟩)

/-- `parse_rule`. -/
theorem parseRule_complete {cc : CharClass} (hcc : SpaceOk cc) {vm : VM I S} {r : WrittenRule I} {t : Str}
    (h : RuleText cc (ReadsSection vm) r t) (w : Str) (k : Nat) {pd : ParserData I} {keys : List ElementVerbose}
    (hin : InternOk pd keys) (hpd : pd.ignore = none) :
    ∃ k' pd', parseRule cc vm ⟨Proc.at (t ++ w) k, pd⟩ =
        (.ok ((addAll keys r.mentions).idxOf ⟨r.name, .nonTerminal⟩, written (addAll keys r.mentions) r), ⟨Proc.at w k', pd'⟩) ∧
      Interned pd keys r.mentions pd' := by
  cases h with
  | @mk n o a s g1 g2 g3 g4 g5 ign alts instr hn hg1 hg2 ho hg3 ha hg4 hs hg5 =>
    -- the text after each part
    let w5 : Str := s ++ (g5 ++ (';' :: w))
    let w4 : Str := g3 ++ (a ++ (g4 ++ w5))
    have htext : n ++ (g1 ++ (c% "->" ++ (g2 ++ (o ++ (g3 ++ (a ++ (g4 ++ (s ++ (g5 ++ c% ";"))))))))) ++ w =
        n ++ (g1 ++ '-' :: '>' :: (g2 ++ (o ++ w4))) := by simp [w4, w5]
    have hnn : NoNameAhead cc (g1 ++ '-' :: '>' :: (g2 ++ (o ++ w4))) :=
      noName_space cc hg1 (fun _ => by intro c r he; cases he; rfl) hcc
    have hns1 : NoSpaceAhead ('-' :: '>' :: (g2 ++ (o ++ w4))) := by intro c r he; cases he; decide
    obtain ⟨pd1, hi, hI⟩ := rpIntern_eq hin (Proc.at (g1 ++ '-' :: '>' :: (g2 ++ (o ++ w4))) (k + n.length)) ⟨n, .nonTerminal⟩
    have hA := ha.head_noSpace hcc (g4 ++ w5)
    -- after the arrow
    obtain ⟨g3', k2, pd2, hg3', h2, hI2⟩ : ∃ g3' k2 pd2, IsSpace g3' ∧
        (rpWhitespace >>= fun _ => parseOverrides cc) ⟨Proc.at (g2 ++ (o ++ w4)) (k + n.length + g1.length + 1 + 1), pd1⟩ =
          (.ok (ignMeaning (addAll (addAll keys [⟨n, .nonTerminal⟩]) (ignElems ign)) ign), ⟨Proc.at (g3' ++ (a ++ (g4 ++ w5))) k2, pd2⟩) ∧
        Interned pd1 (addAll keys [⟨n, .nonTerminal⟩]) (ignElems ign) pd2 := by
      have hpd1 : pd1.ignore = none := hI.ignore.trans hpd
      by_cases hoe : o = []
      · subst hoe
        have hign : ign = none := by cases ho; rfl
        subst hign
        refine ⟨[], k + n.length + g1.length + 1 + 1 + (g2 ++ g3).length, pd1, isSpace_nil, ?_, .refl hI.ok⟩
        rw [show g2 ++ ([] ++ w4) = (g2 ++ g3) ++ (a ++ (g4 ++ w5)) by simp [w4],
          smBind_ok (rpWhitespace_ok (isSpace_append hg2 hg3) hA _ pd1)]
        exact parseOverrides_absent cc (ha.head_ne _) _ hpd1
      · have hns : NoSpaceAhead (o ++ w4) := by
          intro c r he
          cases ho with
          | absent => exact absurd rfl hoe
          | off => cases he; decide
          | name => cases he; decide
          | unknown => cases he; decide
        have hd : w4.head? ≠ some '$' := by
          cases g3 with
          | nil => exact ha.head_ne _
          | cons c g3 =>
            have := hg3 c (by simp)
            simp only [w4, List.cons_append, List.head?_cons, ne_eq, Option.some.injEq]
            rintro rfl
            exact absurd this (by decide)
        obtain ⟨k', pd', h1, h2⟩ := parseOverrides_complete hcc ho hd (k + n.length + g1.length + 1 + 1 + g2.length) hI.ok hpd1
        refine ⟨g3, k', pd', hg3, ?_, h2⟩
        rw [smBind_ok (rpWhitespace_ok hg2 hns _ pd1)]
        exact h1
    -- alternatives
    obtain ⟨g5', k3, pd3, hg5', h3, hI3⟩ : ∃ g5' k3 pd3, IsSpace g5' ∧
        (parseAlts cc >>= fun ps => parseInstructionSection vm n >>= fun is => pure (ps, is))
          ⟨Proc.at (g3' ++ (a ++ (g4 ++ w5))) k2, pd2⟩ =
          (.ok (alts.map (altMeaning (addAll (addAll (addAll keys [⟨n, .nonTerminal⟩]) (ignElems ign)) alts.flatten)), instr),
            ⟨Proc.at (g5' ++ (';' :: w)) k3, pd3⟩) ∧
        Interned pd2 (addAll (addAll keys [⟨n, .nonTerminal⟩]) (ignElems ign)) alts.flatten pd3 := by
      by_cases hse : s = []
      · subst hse
        have hie : instr = [] := by cases hs; rfl
        subst hie
        obtain ⟨k', pd', h1, h2⟩ := parseAlts_complete hcc ha (w := ';' :: w) k2 hg3' (isSpace_append hg4 hg5)
          (.cons (.inr rfl)) hI2.ok
        obtain ⟨k'', h3⟩ := parseSection_complete (vm := vm) (n := n) (w := ';' :: w) .absent (by simp) k' pd'
        rw [List.nil_append] at h3
        refine ⟨[], k'', pd', isSpace_nil, ?_, h2⟩
        rw [show a ++ (g4 ++ w5) = a ++ ((g4 ++ g5) ++ (';' :: w)) by simp [w5], smBind_ok h1, smBind_ok h3]
        rfl
      · have hst : StopAhead w5 := by
          cases hs with
          | absent => exact absurd rfl hse
          | given => exact .cons (.inl rfl)
        obtain ⟨k', pd', h1, h2⟩ := parseAlts_complete hcc ha (w := w5) k2 hg3' hg4 hst hI2.ok
        obtain ⟨k'', h3⟩ := parseSection_complete (w := g5 ++ (';' :: w)) hs (fun h => absurd h hse) k' pd'
        refine ⟨g5, k'', pd', hg5, ?_, h2⟩
        rw [smBind_ok h1, smBind_ok h3]
        rfl
    have hns5 : NoSpaceAhead (';' :: w) := by intro c r he; cases he; decide
    refine ⟨k3 + g5'.length + 1, pd3, ?_, ?_⟩
    · rw [htext, parseRule, smBind_ok (rpVarName_ok hn hnn k pd), smBind_ok hi,
        smBind_ok (rpWhitespace_ok hg1 hns1 _ pd1), smBind_ok (rpSymbol_ok '-' _ _ pd1), smBind_ok (rpSymbol_ok '>' _ _ pd1)]
      have assoc1 : ∀ {α : Type} (f : Option Nat → SM (RP I) PErr α) s, (rpWhitespace >>= fun _ => parseOverrides cc >>= f) s =
          ((rpWhitespace >>= fun _ => parseOverrides cc) >>= f) s := by
        intro α f s
        simp only [SM.bind_apply]
        rcases rpWhitespace s with ⟨r, s1⟩
        cases r <;> rfl
      have assoc2 : ∀ {α : Type} (f : List Production → List I → SM (RP I) PErr α) s,
          (parseAlts cc >>= fun ps => parseInstructionSection vm n >>= fun is => f ps is) s =
          ((parseAlts cc >>= fun ps => parseInstructionSection vm n >>= fun is => pure (ps, is)) >>= fun x => f x.1 x.2) s := by
        intro α f s
        simp only [SM.bind_apply]
        rcases parseAlts cc s with ⟨r, s1⟩
        cases r with
        | ok a => simp only; rcases parseInstructionSection vm n s1 with ⟨r, s2⟩; cases r <;> rfl
        | err => rfl
        | panic => rfl
        | timeout => rfl
      rw [assoc1, smBind_ok h2, assoc2, smBind_ok h3, smBind_ok (rpWhitespace_ok hg5' hns5 _ pd3),
        smBind_ok (rpSymbol_ok ';' _ _ pd3)]
      simp only [SM.pure_apply, Prod.mk.injEq, Res.ok.injEq, and_true]
      have hm : addAll keys (WrittenRule.mentions (⟨n, ign, alts, instr⟩ : WrittenRule I)) =
          addAll (addAll (addAll keys [⟨n, .nonTerminal⟩]) (ignElems ign)) alts.flatten := by
        rw [← addAll_append, ← addAll_append]; rfl
      rw [hm]
      refine ⟨?_, ?_⟩
      · have : (⟨n, .nonTerminal⟩ : ElementVerbose) ∈ addAll keys [⟨n, .nonTerminal⟩] := mem_addAll.2 (.inr (by simp))
        rw [idxOf_addAll (mem_addAll.2 (.inl this)), idxOf_addAll this]
      · rw [written, ignMeaning_addAll (fun e he => mem_addAll.2 (.inr he))]
    · have := (hI.trans hI2).trans hI3
      exact this

end HPP
