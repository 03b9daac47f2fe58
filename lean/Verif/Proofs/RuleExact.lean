import Verif.Proofs.RuleSound
/-
Reading alternatives: what the specification allows is what is read.
-/
namespace HPP
open Spec
variable {I S : Type}

theorem Spec.NoMore.noSpace {cc : CharClass} {v w : Str} (h : NoMore cc v w) : NoSpaceAhead v := by
  intro c r hc
  cases h with
  | other h => exact (h c r hc).1
  | unfinished h => cases hc; decide

/-- Where no more elements follow, `parse_element` fails. -/
theorem Spec.NoMore.element {cc : CharClass} {v w : Str} (h : NoMore cc v w) (k : Nat) :
    ∃ e k', parseElement cc (Proc.at v k) = (.err e, Proc.at w k') := by
  cases h with
  | other h =>
    rcases parseElement_cases cc v k with ⟨w', he, -⟩ | ⟨e, t, w', he, ht, -⟩ | ⟨-, e, h'⟩ | ⟨w0, e, he, -⟩
    · exact absurd rfl (h _ _ he).2.1
    · exfalso
      cases ht with
      | terminal => exact absurd rfl (h _ _ he).2.2.1
      | name hn =>
        obtain ⟨d, ds, rfl, hd, -⟩ := hn
        rw [(h d _ he).2.2.2] at hd
        cases hd
    · exact ⟨e, k, h'⟩
    · exact absurd rfl (h _ _ he).2.2.1
  | @unfinished b hq =>
    rcases parseElement_cases cc ('"' :: b) k with ⟨w', he, -⟩ | ⟨e, t, w', he, ht, -⟩ | ⟨h, -⟩ | ⟨w0, e, he, -, h'⟩
    · cases he
    · exfalso
      cases ht with
      | @terminal b' hb =>
        simp only [List.cons_append, List.append_assoc, List.cons.injEq, true_and, List.nil_append] at he
        rw [he, quotedFrom_extend hb w'] at hq
        cases hq
      | name hn =>
        obtain ⟨d, ds, rfl, hd, -⟩ := hn
        cases he
        exact absurd hd (by simp [CharClass.isAlphabetic])
    · exact absurd rfl (h _ _ rfl).2.1
    · cases he; exact ⟨e, _, h'⟩

/-- The production loop reads all elements. -/
theorem prodLoop_reads {cc : CharClass} (hcc : SpaceOk cc) {es : List ElementVerbose} {t : Str} (h : SeqText cc es t) :
    ∀ (fuel : Nat) (acc : List Nat) (g0 g v w : Str) (k : Nat) (pd : ParserData I) (keys : List ElementVerbose),
    t.length < fuel → IsSpace g0 → IsSpace g →
    (∀ e, es.getLast? = some e → e.et = .nonTerminal → NoNameAhead cc (g ++ v)) → NoMore cc v w → InternOk pd keys →
    ∃ k' pd', parseProductionLoop cc fuel acc ⟨Proc.at (g0 ++ (t ++ (g ++ v))) k, pd⟩ =
        (.ok (.notEmpty (acc ++ es.map fun e => (addAll keys es).idxOf e)), ⟨Proc.at w k', pd'⟩) ∧
      Interned pd keys es pd' := by
  induction h with
  | @one e t he =>
    intro fuel acc g0 g v w k pd keys hf hg0 hg hN hw hin
    obtain ⟨fuel, rfl⟩ : ∃ f, fuel = f + 2 := ⟨fuel - 2, by have := he.length_pos; omega⟩
    have hns : NoSpaceAhead (t ++ (g ++ v)) := SeqText.head_noSpace hcc (.one he) _
    have hnn : e.et = .nonTerminal → NoNameAhead cc (g ++ v) := hN e (by simp)
    obtain ⟨pd', hi, hI⟩ := rpIntern_eq hin (Proc.at (g ++ v) (k + g0.length + t.length)) e
    obtain ⟨er, k', hend⟩ := hw.element (k + g0.length + t.length + g.length)
    refine ⟨k', pd', ?_, hI⟩
    rw [prodLoop_step, rpWhitespace_ok hg0 hns]
    simp only [rpProc_eq (parseElement_ok he hnn (k + g0.length)), SM.bind_apply, hi]
    rw [prodLoop_step, rpWhitespace_ok hg hw.noSpace]
    simp only [rpProc_eq hend]
    simp [finishProduction]
  | @cons e e' es t g1 t' he hg1 hsep hs ih =>
    intro fuel acc g0 g v w k pd keys hf hg0 hg hN hw hin
    obtain ⟨fuel, rfl⟩ : ∃ f, fuel = f + 1 := ⟨fuel - 1, by omega⟩
    have hns : NoSpaceAhead (t ++ (g1 ++ t') ++ (g ++ v)) := SeqText.head_noSpace hcc (.cons he hg1 hsep hs) _
    have hnn : e.et = .nonTerminal → NoNameAhead cc (g1 ++ (t' ++ (g ++ v))) := by
      intro hnt
      refine noName_space cc hg1 (fun hgn => ?_) hcc
      have ht : e'.et = .terminal := by
        cases h : e'.et with
        | terminal => rfl
        | nonTerminal => exact absurd hgn (hsep hnt h)
      cases hs with
      | one h => exact h.terminal_noName ht _
      | cons h _ _ _ => rw [List.append_assoc]; exact h.terminal_noName ht _
    obtain ⟨pd1, hi, hI⟩ := rpIntern_eq hin (Proc.at (g1 ++ (t' ++ (g ++ v))) (k + g0.length + t.length)) e
    have hlen : t'.length < fuel := by
      have := he.length_pos
      simp only [List.length_append] at hf
      omega
    obtain ⟨k', pd', h1, h2⟩ := ih fuel (acc ++ [(addAll keys [e]).idxOf e]) g1 g v w (k + g0.length + t.length) pd1
      (addAll keys [e]) hlen hg1 hg (by rw [List.getLast?_cons_of_ne_nil (by simp)] at hN; exact hN) hw hI.ok
    refine ⟨k', pd', ?_, hI.trans h2⟩
    rw [prodLoop_step, rpWhitespace_ok hg0 hns]
    have he' := parseElement_ok he hnn (k + g0.length)
    rw [show t ++ (g1 ++ t') ++ (g ++ v) = t ++ (g1 ++ (t' ++ (g ++ v))) by simp]
    simp only [rpProc_eq he', SM.bind_apply, hi]
    rw [h1, addAll_cons keys e (e' :: es)]
    have hidx : (addAll (addAll keys [e]) (e' :: es)).idxOf e = (addAll keys [e]).idxOf e :=
      idxOf_addAll (mem_addAll.2 (.inr (by simp)))
    simp [hidx]

/-- `parse_production` reads what the specification reads. -/
theorem Spec.AltReads.parse {cc : CharClass} (hcc : SpaceOk cc) {v w : Str} {a : List ElementVerbose} (h : AltReads cc v a w)
    (k : Nat) {pd : ParserData I} {keys : List ElementVerbose} (hin : InternOk pd keys) :
    ∃ k' pd', parseProd cc ⟨Proc.at v k, pd⟩ = (.ok (altMeaning (addAll keys a) a), ⟨Proc.at w k', pd'⟩) ∧
      Interned pd keys a pd' := by
  cases h with
  | @empty g0 w hg0 =>
    refine ⟨k + g0.length + 1, pd, ?_, .refl hin⟩
    have hns : NoSpaceAhead ('#' :: w) := by intro c r he; cases he; decide
    have hpk : parseElement cc (Proc.at ('#' :: w) (k + g0.length)) = (.ok none, Proc.at w (k + g0.length + 1)) := by
      simp only [parseElement, plainReader.peek ('#' :: w) _ trivial, List.head?_cons, if_true,
        plainReader.next '#' w _ trivial]
    simp only [parseProd]
    rw [prodLoop_step, rpWhitespace_ok hg0 hns]
    simp only [rpProc_eq hpk]
    rfl
  | @elements g0 t g v w es hg0 hs hg hN hw =>
    obtain ⟨k', pd', h1, h2⟩ := prodLoop_reads hcc hs ((Proc.at (g0 ++ (t ++ (g ++ v))) k).rest.length + 1) [] g0 g v w k pd keys
      (by rw [rest_at]; simp only [List.length_append]; omega) hg0 hg (fun e h1 h2 => NoNameAhead.iff.2 (hN e h1 h2)) hw hin
    refine ⟨k', pd', ?_, h2⟩
    rw [altMeaning_ne hs.ne_nil]
    simpa [parseProd] using h1

/-- The loop over alternatives stops. -/
theorem altsLoop_ends (cc : CharClass) (fuel : Nat) (acc : List Production) {g w : Str} (hg : IsSpace g)
    (hw : ∀ c r, w = c :: r → CharClass.isWhitespace c = false ∧ c ≠ '|') (k : Nat) (pd : ParserData I) :
    ∃ k', parseAltsLoop cc (fuel + 1) acc ⟨Proc.at (g ++ w) k, pd⟩ = (.ok acc, ⟨Proc.at w k', pd⟩) := by
  have hb : NoSpaceAhead w := fun c r h => (hw c r h).1
  refine ⟨k + g.length, ?_⟩
  have h1 : w.head? ≠ some '\n' := by
    cases w with
    | nil => simp
    | cons c r =>
      simp only [List.head?_cons, ne_eq, Option.some.injEq]
      rintro rfl
      exact absurd (hb _ _ rfl) (by decide)
  have h2 : w.head? ≠ some '|' := by
    cases w with
    | nil => simp
    | cons c r => simpa using (hw c r rfl).2
  obtain ⟨e, he⟩ := rpSymbol_err h1 (k + g.length) pd
  obtain ⟨e', he'⟩ := rpSymbol_err h2 (k + g.length) pd
  rw [parseAltsLoop, smBind_ok (rpWhitespace_ok hg hb k pd), smBind_ok (smTry_err he),
    smBind_ok (rpWhitespace_none hb _ pd), smBind_ok (smTry_err he')]
  rfl

/-- Skipping the white space before an alternative. -/
theorem Spec.AltReads.skip {cc : CharClass} (hcc : SpaceOk cc) {g v w : Str} {a : List ElementVerbose} (hg : IsSpace g)
    (h : AltReads cc (g ++ v) a w) : AltReads cc v a w := by
  generalize hx : g ++ v = x at h
  have key : ∀ {g0 y : Str}, IsSpace g0 → NoSpaceAhead y → g ++ v = g0 ++ y → ∃ g1, IsSpace g1 ∧ v = g1 ++ y := by
    intro g0 y hg0 hy he
    rcases List.append_eq_append_iff.1 he with ⟨z, h1, h2⟩ | ⟨z, h1, h2⟩
    · exact ⟨z, fun c hc => hg0 c (by rw [h1]; simp [hc]), h2⟩
    · cases z with
      | nil => exact ⟨[], isSpace_nil, by simpa using h2.symm⟩
      | cons c z =>
        have := hy c _ h2
        rw [hg c (by rw [h1]; simp)] at this
        cases this
  cases h with
  | empty w hg0 =>
    obtain ⟨g1, hg1, rfl⟩ := key hg0 (by intro c r he; cases he; decide) hx
    exact .empty w hg1
  | elements hg0 hs hg' hN hw =>
    obtain ⟨g1, hg1, rfl⟩ := key hg0 (hs.head_noSpace hcc _) hx
    exact .elements hg1 hs hg' hN hw

theorem Spec.AltReads.length_le {cc : CharClass} {v w : Str} {a : List ElementVerbose} (h : AltReads cc v a w) :
    w.length ≤ v.length := by
  cases h with
  | empty w hg => simp only [List.length_append, List.length_cons]; omega
  | elements hg0 hs hg _ hL =>
    cases hL with
    | other _ => simp only [List.length_append]; omega
    | unfinished _ => simp

/-- The first alternative and the others, from behind white space. -/
theorem altsFrom_reads {cc : CharClass} (hcc : SpaceOk cc) {as : List (List ElementVerbose)} {v w : Str}
    (h : AltsReads cc v as w) : ∀ (g0 v0 : Str) (fuel : Nat) (acc : List Production) (k : Nat) (pd : ParserData I)
    (keys : List ElementVerbose), v = g0 ++ v0 → IsSpace g0 → v0.length < fuel → InternOk pd keys →
    ∃ k' pd', (parseProd cc >>= fun p => parseAltsLoop cc fuel (acc ++ [p])) ⟨Proc.at v0 k, pd⟩ =
        (.ok (acc ++ as.map (altMeaning (addAll keys as.flatten))), ⟨Proc.at w k', pd'⟩) ∧
      Interned pd keys as.flatten pd' := by
  induction h with
  | @last v g w a ha hg hw =>
    rintro g0 v0 fuel acc k pd keys rfl hg0 hf hin
    obtain ⟨fuel, rfl⟩ : ∃ f, fuel = f + 1 := ⟨fuel - 1, by omega⟩
    obtain ⟨k1, pd1, h1, h2⟩ := (ha.skip hcc hg0).parse hcc k hin
    obtain ⟨k2, h3⟩ := altsLoop_ends cc fuel (acc ++ [altMeaning (addAll keys a) a]) hg hw k1 pd1
    refine ⟨k2, pd1, ?_, by simpa using h2⟩
    rw [smBind_ok h1, h3]
    simp
  | @more v g v' w a as ha hg hs ih =>
    rintro g0 v0 fuel acc k pd keys rfl hg0 hf hin
    obtain ⟨fuel, rfl⟩ : ∃ f, fuel = f + 1 := ⟨fuel - 1, by omega⟩
    have hl := (ha.skip hcc hg0).length_le
    obtain ⟨k1, pd1, h1, h2⟩ := (ha.skip hcc hg0).parse hcc k hin
    obtain ⟨g', v'', hv', hg', hv'', -⟩ := space_split v'
    obtain ⟨k2, h3⟩ := altsLoop_bar cc fuel (acc ++ [altMeaning (addAll keys a) a]) hg hg' hv'' k1 pd1
    obtain ⟨k3, pd3, h4, h5⟩ := ih g' v'' fuel (acc ++ [altMeaning (addAll keys a) a]) k2 pd1 (addAll keys a) hv' hg'
      (by rw [hv'] at hl; simp only [List.length_append, List.length_cons] at hl; omega) h2.ok
    refine ⟨k3, pd3, ?_, h2.trans h5⟩
    rw [smBind_ok h1, hv', h3, h4, List.flatten_cons, addAll_append]
    have : altMeaning (addAll (addAll keys a) as.flatten) a = altMeaning (addAll keys a) a :=
      altMeaning_addAll (fun e he => mem_addAll.2 (.inr he)) _
    simp [this]

/-- `parse_possible_productions`: the first alternative, then the loop. -/
theorem parseAlts_eq {cc : CharClass} {s : RP I} {p : Production} {v : Str} {k : Nat} {pd : ParserData I}
    (h : parseProd cc s = (.ok p, ⟨Proc.at v k, pd⟩)) :
    parseAlts cc s = parseAltsLoop cc (v.length + 1) [p] ⟨Proc.at v k, pd⟩ := (smBind_ok h).trans rfl

/-- `parse_possible_productions` reads what the specification reads. -/
theorem Spec.AltsReads.parse {cc : CharClass} (hcc : SpaceOk cc) {v w : Str} {as : List (List ElementVerbose)}
    (h : AltsReads cc v as w) (k : Nat) {pd : ParserData I} {keys : List ElementVerbose} (hin : InternOk pd keys) :
    ∃ k' pd', parseAlts cc ⟨Proc.at v k, pd⟩ =
        (.ok (as.map (altMeaning (addAll keys as.flatten))), ⟨Proc.at w k', pd'⟩) ∧ Interned pd keys as.flatten pd' := by
  cases h with
  | @last _ g _ a ha hg hw =>
    obtain ⟨k1, pd1, h1, h2⟩ := ha.parse hcc k hin
    obtain ⟨k2, h3⟩ := altsLoop_ends cc (g ++ w).length [altMeaning (addAll keys a) a] hg hw k1 pd1
    refine ⟨k2, pd1, ?_, by simpa using h2⟩
    rw [parseAlts_eq h1, h3]
    simp
  | @more _ g v' _ a as ha hg hs =>
    obtain ⟨k1, pd1, h1, h2⟩ := ha.parse hcc k hin
    obtain ⟨g', v'', hv', hg', hv'', -⟩ := space_split v'
    obtain ⟨k2, h3⟩ := altsLoop_bar cc (g ++ '|' :: v').length [altMeaning (addAll keys a) a] hg hg' hv'' k1 pd1
    obtain ⟨k3, pd3, h4, h5⟩ := altsFrom_reads hcc hs g' v'' (g ++ '|' :: v').length [altMeaning (addAll keys a) a] k2 pd1
      (addAll keys a) hv' hg' (by rw [hv']; simp only [List.length_append, List.length_cons]; omega) h2.ok
    refine ⟨k3, pd3, ?_, h2.trans h5⟩
    rw [← hv'] at h3
    rw [parseAlts_eq h1, h3, h4, List.flatten_cons, addAll_append]
    have : altMeaning (addAll (addAll keys a) as.flatten) a = altMeaning (addAll keys a) a :=
      altMeaning_addAll (fun e he => mem_addAll.2 (.inr he)) _
    simp [this]

end HPP
