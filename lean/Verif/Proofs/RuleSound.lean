import Verif.Proofs.RuleMerge
import Verif.Spec.Reading
import Verif.Spec.Element
/-
Whatever the rule parser accepts follows the syntax; it always returns; its errors point into the text.
-/
namespace HPP
open Spec
variable {I S : Type}

/-- `PointsInto` for the text `w` that starts at position `k`. -/
def ErrAt (w : Str) (k : Nat) : PErr → Prop
  | .unexpectedChar c p _ => k ≤ p ∧ w[p - k]? = some c
  | .endOfChars p => p = k + w.length
  | .gram (.unexpectedElement _ p) => k ≤ p ∧ p ≤ k + w.length
  | _ => False

theorem ErrAt.pointsInto {w : Str} {e : PErr} (h : ErrAt w 0 e) : PointsInto w e := by
  unfold ErrAt at h
  split at h
  · simpa [PointsInto] using h.2
  · simpa [PointsInto] using h
  · simpa [PointsInto] using h.2
  · exact h.elim

theorem ErrAt.suffix {u w : Str} {k : Nat} {e : PErr} (h : ErrAt w (k + u.length) e) : ErrAt (u ++ w) k e := by
  unfold ErrAt at h ⊢
  split at h
  · next c p x =>
    refine ⟨by omega, ?_⟩
    rw [List.getElem?_append_right (by omega)]
    rw [show p - k - u.length = p - (k + u.length) by omega]
    exact h.2
  · simp only [List.length_append]; omega
  · simp only [List.length_append]; omega
  · exact h.elim

/-- The error points into the text or came from the VM. -/
def RErr (vm : VM I S) (w : Str) (k : Nat) (e : PErr) : Prop :=
  ErrAt w k e ∨ ∃ u v name, w = u ++ v ∧
    (vm.parseInstructions name (PP.newNested (Proc.at v (k + u.length)) (some '}') (some '\\') (k + u.length))).1 = .err e

theorem RErr.suffix {vm : VM I S} {u w : Str} {k : Nat} {e : PErr} (h : RErr vm w (k + u.length) e) : RErr vm (u ++ w) k e := by
  rcases h with h | ⟨u', v, name, rfl, h⟩
  · exact .inl h.suffix
  · refine .inr ⟨u ++ u', v, name, by simp, ?_⟩
    rw [List.length_append, ← Nat.add_assoc]; exact h

/-- What is known after running a part of the rule parser on the text `w` at position `k`, `keys` being the elements
of `pd`: it stands behind a part `u` of the text, has requested the elements `ks`, and has returned. -/
def Reads (vm : VM I S) (keys : List ElementVerbose) (pd : ParserData I) (w : Str) (k : Nat) {α : Type}
    (res : Res PErr α × RP I) (Q : α → Str → List ElementVerbose → Str → Prop) : Prop :=
  ∃ u w' pd' ks, res.2 = ⟨Proc.at w' (k + u.length), pd'⟩ ∧ w = u ++ w' ∧ Interned pd keys ks pd' ∧
    ((∃ a, res.1 = .ok a ∧ Q a u ks w') ∨ (∃ e, res.1 = .err e ∧ RErr vm w k e))

section
variable {vm : VM I S} {keys : List ElementVerbose} {pd : ParserData I} {w : Str} {k : Nat} {α β : Type}

theorem Reads.bind {x : SM (RP I) PErr α} {f : α → SM (RP I) PErr β}
    {Q : α → Str → List ElementVerbose → Str → Prop} {R : β → Str → List ElementVerbose → Str → Prop}
    (hx : Reads vm keys pd w k (x ⟨Proc.at w k, pd⟩) Q)
    (hf : ∀ a u ks w' pd', w = u ++ w' → Q a u ks w' → Interned pd keys ks pd' →
      Reads vm (addAll keys ks) pd' w' (k + u.length) (f a ⟨Proc.at w' (k + u.length), pd'⟩)
        (fun b u' ks' w'' => R b (u ++ u') (ks ++ ks') w'')) :
    Reads vm keys pd w k ((x >>= f) ⟨Proc.at w k, pd⟩) R := by
  obtain ⟨u, w', pd', ks, h1, h2, h3, h4⟩ := hx
  rcases hxs : x ⟨Proc.at w k, pd⟩ with ⟨r, s⟩
  rw [hxs] at h1 h4
  simp only at h1 h4
  rw [SM.bind_apply, hxs]
  rcases h4 with ⟨a, rfl, hQ⟩ | ⟨e, rfl, he⟩
  · simp only
    rw [h1]
    obtain ⟨u', w'', pd'', ks', g1, g2, g3, g4⟩ := hf a u ks w' pd' h2 hQ h3
    refine ⟨u ++ u', w'', pd'', ks ++ ks', ?_, ?_, h3.trans g3, ?_⟩
    · rw [g1, List.length_append, Nat.add_assoc]
    · rw [h2, g2, List.append_assoc]
    · rcases g4 with ⟨b, hb, hR⟩ | ⟨e, he, hE⟩
      · exact .inl ⟨b, hb, hR⟩
      · exact .inr ⟨e, he, by rw [h2]; exact hE.suffix⟩
  · exact ⟨u, w', pd', ks, h1, h2, h3, .inr ⟨e, rfl, he⟩⟩

theorem Reads.mono {res : Res PErr α × RP I} {Q R : α → Str → List ElementVerbose → Str → Prop}
    (h : Reads vm keys pd w k res Q) (hQ : ∀ a u ks w', w = u ++ w' → Q a u ks w' → R a u ks w') :
    Reads vm keys pd w k res R := by
  obtain ⟨u, w', pd', ks, h1, h2, h3, h4⟩ := h
  refine ⟨u, w', pd', ks, h1, h2, h3, ?_⟩
  rcases h4 with ⟨a, ha, hq⟩ | h4
  · exact .inl ⟨a, ha, hQ a u ks w' h2 hq⟩
  · exact .inr h4

/-- Something that reads nothing. -/
theorem Reads.pure' (hin : InternOk pd keys) {a : α} {Q : α → Str → List ElementVerbose → Str → Prop} (h : Q a [] [] w) :
    Reads vm keys pd w k (.ok a, ⟨Proc.at w k, pd⟩) Q :=
  ⟨[], w, pd, [], rfl, rfl, .refl hin, .inl ⟨a, rfl, h⟩⟩

theorem Reads.pure (hin : InternOk pd keys) {a : α} {Q : α → Str → List ElementVerbose → Str → Prop} (h : Q a [] [] w) :
    Reads vm keys pd w k ((Pure.pure a : SM (RP I) PErr α) ⟨Proc.at w k, pd⟩) Q := Reads.pure' hin h

theorem Reads.err (hin : InternOk pd keys) {e : PErr} {Q : α → Str → List ElementVerbose → Str → Prop} (h : RErr vm w k e) :
    Reads vm keys pd w k (.err e, ⟨Proc.at w k, pd⟩) Q :=
  ⟨[], w, pd, [], rfl, rfl, .refl hin, .inr ⟨e, rfl, h⟩⟩

/-! ### Tokens -/

theorem reads_whitespace (hin : InternOk pd keys) : Reads vm keys pd w k (rpWhitespace ⟨Proc.at w k, pd⟩)
    (fun _ u ks w' => IsSpace u ∧ NoSpaceAhead w' ∧ ks = []) := by
  obtain ⟨g, w', rfl, h1, h2, -⟩ := space_split w
  rw [rpWhitespace_ok h1 h2]
  exact ⟨g, w', pd, [], rfl, rfl, .refl hin, .inl ⟨(), rfl, h1, h2, rfl⟩⟩

theorem symbol_err_at {c : Char} {w : Str} (h : w.head? ≠ some c) (k : Nat) (pd : ParserData I) :
    ∃ e, rpSymbol c ⟨Proc.at w k, pd⟩ = (.err e, ⟨Proc.at w k, pd⟩) ∧ ErrAt w k e := by
  cases w with
  | nil => exact ⟨.endOfChars k, by simp only [rpSymbol, rpProc, plainReader.symbol_end trivial], by simp [ErrAt]⟩
  | cons d w =>
    have : d ≠ c := fun hd => h (by rw [hd]; rfl)
    exact ⟨.unexpectedChar d k [c], by simp only [rpSymbol, rpProc, plainReader.symbol_err trivial k this], by simp [ErrAt]⟩

theorem reads_symbol (hin : InternOk pd keys) (c : Char) : Reads vm keys pd w k (rpSymbol c ⟨Proc.at w k, pd⟩)
    (fun _ u ks _ => u = [c] ∧ ks = []) := by
  rcases rpSymbol_cases c w k pd with ⟨w', rfl, h⟩ | ⟨h, -⟩
  · rw [h]
    exact ⟨[c], w', pd, [], rfl, rfl, .refl hin, .inl ⟨(), rfl, rfl, rfl⟩⟩
  · obtain ⟨e, he, hE⟩ := symbol_err_at h k pd
    rw [he]
    exact .err hin (.inl hE)

theorem reads_trySymbol (hin : InternOk pd keys) (c : Char) : Reads vm keys pd w k (smTry (rpSymbol c) ⟨Proc.at w k, pd⟩)
    (fun o u ks w' => ks = [] ∧ ((o = some () ∧ u = [c]) ∨ (o = none ∧ u = [] ∧ w'.head? ≠ some c))) := by
  rcases rpSymbol_cases c w k pd with ⟨w', rfl, h⟩ | ⟨h, e, he⟩
  · rw [smTry_ok h]
    exact ⟨[c], w', pd, [], rfl, rfl, .refl hin, .inl ⟨_, rfl, rfl, .inl ⟨rfl, rfl⟩⟩⟩
  · rw [smTry_err he]
    exact .pure' hin ⟨rfl, .inr ⟨rfl, rfl, h⟩⟩

theorem reads_varName (hin : InternOk pd keys) (cc : CharClass) : Reads vm keys pd w k (rpVarName cc ⟨Proc.at w k, pd⟩)
    (fun n u ks w' => u = n ∧ IsName cc n ∧ NoNameAhead cc w' ∧ ks = []) := by
  rcases rpVarName_cases cc w k pd with ⟨n, w', rfl, h1, h2, h3⟩ | ⟨e, he⟩
  · rw [h3]
    exact ⟨n, w', pd, [], rfl, rfl, .refl hin, .inl ⟨n, rfl, rfl, h1, h2, rfl⟩⟩
  · have hE : ErrAt w k e := by
      simp only [rpVarName, rpProc] at he
      cases w with
      | nil =>
        rw [plainReader.varName_end cc trivial k] at he
        simp only [Prod.mk.injEq, Res.err.injEq] at he
        rw [← he.1]; simp [ErrAt]
      | cons c w =>
        by_cases hc : cc.isAlphabetic c = true
        · rw [plainReader.varName_ok cc trivial k hc] at he
          simp at he
        · rw [plainReader.varName_err cc trivial k (by simpa using hc)] at he
          simp only [Prod.mk.injEq, Res.err.injEq] at he
          rw [← he.1]; simp [ErrAt]
    rw [he]
    exact .err hin (.inl hE)

theorem reads_intern (hin : InternOk pd keys) (e : ElementVerbose) : Reads vm keys pd w k (rpIntern e ⟨Proc.at w k, pd⟩)
    (fun ix u ks _ => u = [] ∧ ks = [e] ∧ ix = (addAll keys [e]).idxOf e) := by
  obtain ⟨pd', h1, h2⟩ := rpIntern_eq hin (Proc.at w k) e
  rw [h1]
  exact ⟨[], w, pd', [e], rfl, rfl, h2, .inl ⟨_, rfl, rfl, rfl, rfl⟩⟩

/-! ### Productions -/

theorem prodLoop_sound (cc : CharClass) : ∀ (fuel : Nat) (acc : List Nat) (w : Str) (k : Nat) (pd : ParserData I)
    (keys : List ElementVerbose), w.length < fuel → InternOk pd keys →
    Reads vm keys pd w k (parseProductionLoop cc fuel acc ⟨Proc.at w k, pd⟩) (fun p u ks w' =>
      (∃ g0 t g es b, u = g0 ++ (t ++ (g ++ b)) ∧ IsSpace g0 ∧ IsSpace g ∧ SeqText cc es t ∧
        (∀ e, es.getLast? = some e → e.et = .nonTerminal → NoNameAhead cc (g ++ (b ++ w'))) ∧
        NoMore cc (b ++ w') w' ∧ ks = es ∧
        p = .notEmpty (acc ++ es.map fun e => (addAll keys es).idxOf e)) ∨
      (acc = [] ∧ p = .empty ∧ ks = [] ∧ ∃ g0, u = g0 ++ ['#'] ∧ IsSpace g0) ∨
      (acc ≠ [] ∧ p = .notEmpty acc ∧ ks = [] ∧ ∃ g b, u = g ++ b ∧ IsSpace g ∧ NoMore cc (b ++ w') w'))
  | 0, _, w, _, _, _, h, _ => by omega
  | fuel + 1, acc, w, k, pd, keys, hf, hin => by
    obtain ⟨g, v, rfl, hg, hv, -⟩ := space_split w
    rw [prodLoop_step, rpWhitespace_ok hg hv]
    simp only
    -- the end of the production, from a state at `[]` or unchanged
    have hfin : ∀ b v' k', v = b ++ v' → k' = k + (g ++ b).length → NoMore cc v v' →
        Reads vm keys pd (g ++ v) k (finishProduction acc ⟨Proc.at v' k', pd⟩) (fun p u ks w' =>
          (acc ≠ [] ∧ p = .notEmpty acc ∧ ks = [] ∧ ∃ g b, u = g ++ b ∧ IsSpace g ∧ NoMore cc (b ++ w') w')) := by
      rintro b v' k' rfl rfl hL
      simp only [finishProduction]
      refine ⟨g ++ b, v', pd, [], ?_, by simp, .refl hin, ?_⟩
      · split <;> rfl
      · split
        · refine .inr ⟨_, rfl, .inl ?_⟩
          simp only [ErrAt, PP.curPos, Proc.at, List.length_append]; omega
        · next h => exact .inl ⟨_, rfl, by simpa using h, rfl, rfl, g, b, rfl, hg, hL⟩
    rcases parseElement_cases cc v (k + g.length) with ⟨v', rfl, he⟩ | ⟨e, t, v', rfl, ht, hnn, he⟩ | ⟨hno, e, he⟩ | ⟨v0, e, rfl, hq, he⟩
    · simp only [rpProc_eq he]
      refine ⟨g ++ ['#'], v', pd, [], ?_, by simp, .refl hin, ?_⟩
      · rw [List.length_append]; split <;> rfl
      · split
        · next h => exact .inl ⟨_, rfl, .inr (.inl ⟨by simpa using h, rfl, rfl, g, rfl, hg⟩)⟩
        · refine .inr ⟨_, rfl, .inl ?_⟩
          simp only [ErrAt, PP.curPos, Proc.at, List.length_append, List.length_cons]; omega
    · simp only [rpProc_eq he]
      have hlen : v'.length < fuel := by
        have := ht.length_pos
        simp only [List.length_append] at hf
        omega
      have hb : Reads vm keys pd v' (k + g.length + t.length)
          ((rpIntern e >>= fun ix => parseProductionLoop cc fuel (acc ++ [ix])) ⟨Proc.at v' (k + g.length + t.length), pd⟩)
          (fun p u ks w' => (∃ g1 g es t' b, IsSpace g1 ∧ IsSpace g ∧ t ++ u = t' ++ (g ++ b) ∧ SeqText cc es t' ∧
            (∀ e, es.getLast? = some e → e.et = .nonTerminal → NoNameAhead cc (g ++ (b ++ w'))) ∧
            NoMore cc (b ++ w') w' ∧ ks = es ∧ p = .notEmpty (acc ++ es.map fun e => (addAll keys es).idxOf e))) := by
        refine Reads.bind (reads_intern hin e) ?_
        rintro ix u ks w' pd' hw ⟨rfl, rfl, rfl⟩ hI
        rw [List.nil_append] at hw
        subst hw
        refine (prodLoop_sound cc fuel _ _ _ _ _ hlen hI.ok).mono ?_
        rintro p u ks w'' hw (⟨g1, t', g2, es, b, rfl, hg1, hg2, hs, hN, hL, rfl, rfl⟩ | ⟨h, -⟩ | ⟨-, rfl, rfl, g1, b, rfl, hsp, hL⟩)
        · have hne := hs.ne_nil
          refine ⟨g1, g2, e :: ks, t ++ (g1 ++ t'), b, hg1, hg2, by simp, ?_, ?_, hL, rfl, ?_⟩
          · cases ks with
            | nil => exact absurd rfl hne
            | cons e' es =>
              refine .cons ht hg1 (fun hnt hnt' hg1e => ?_) hs
              subst hg1e
              have h1 := hnn hnt
              rw [hw] at h1
              cases hs with
              | one h => exact h.nonTerminal_name hnt' _ (by simpa using h1)
              | cons h _ _ _ => exact h.nonTerminal_name hnt' _ (by simpa using h1)
          · rw [List.getLast?_cons_of_ne_nil hne]; exact hN
          · have hidx : (addAll (addAll keys [e]) ks).idxOf e = (addAll keys [e]).idxOf e :=
              idxOf_addAll (mem_addAll.2 (.inr (by simp)))
            rw [addAll_cons keys e ks]
            simp [hidx]
        · exact absurd h (by simp)
        · refine ⟨[], g1, [e], t, b, isSpace_nil, hsp, by simp, .one ht, ?_, hL, rfl, by simp⟩
          rintro e' he' hnt
          simp only [List.getLast?_singleton, Option.some.injEq] at he'
          subst he'
          have := hnn hnt
          rw [hw] at this
          simpa using this
      obtain ⟨u, w', pd', ks, h1, h2, h3, h4⟩ := hb
      refine ⟨g ++ (t ++ u), w', pd', ks, ?_, by rw [h2]; simp, h3, ?_⟩
      · rw [h1]; simp only [List.length_append, Nat.add_assoc]
      · rcases h4 with ⟨p, hp, h⟩ | ⟨er, her, hE⟩
        · refine .inl ⟨p, hp, ?_⟩
          obtain ⟨g1, g2, es, t', b, hg1, hg2, heq, hs, hN, hL, rfl, rfl⟩ := h
          exact .inl ⟨g, t', g2, ks, b, by rw [heq], hg, hg2, hs, hN, hL, rfl, rfl⟩
        · refine .inr ⟨er, her, ?_⟩
          refine RErr.suffix (u := g) (RErr.suffix (u := t) hE)
    · simp only [rpProc_eq he]
      refine (hfin [] v (k + g.length) rfl (by simp) (.other fun c r hc => ⟨hv c r hc, hno c r hc⟩)).mono ?_
      exact fun p u ks w' _ h => .inr (.inr h)
    · simp only [rpProc_eq he]
      refine (hfin ('"' :: v0) [] _ (by simp) (by simp only [List.length_append, List.length_cons]; omega)
        (.unfinished hq)).mono ?_
      exact fun p u ks w' _ h => .inr (.inr h)

theorem NoNameAhead.iff {cc : CharClass} {w : Str} :
    NoNameAhead cc w ↔ ∀ c r, w = c :: r → cc.isAlphanumeric c = false ∧ c ≠ '_' := by
  simp only [NoNameAhead, Bool.or_eq_false_iff, beq_eq_false_iff_ne]

/-- `parse_production`, exactly. -/
theorem reads_prod_exact (hin : InternOk pd keys) (cc : CharClass) : Reads vm keys pd w k (parseProd cc ⟨Proc.at w k, pd⟩)
    (fun p u ks w' => ∃ a, AltReads cc (u ++ w') a w' ∧ ks = a ∧ p = altMeaning (addAll keys a) a) := by
  refine (prodLoop_sound cc (w.length + 1) [] w k pd keys (by omega) hin).mono ?_
  rintro p u ks w' - (⟨g0, t, g, es, b, rfl, hg0, hg, hs, hN, hL, rfl, rfl⟩ | ⟨-, rfl, rfl, g0, rfl, hg0⟩ | ⟨h, -⟩)
  · refine ⟨ks, ?_, rfl, by rw [altMeaning_ne hs.ne_nil]; simp⟩
    have := AltReads.elements hg0 hs hg (fun e h1 h2 => NoNameAhead.iff.1 (hN e h1 h2)) hL
    simpa using this
  · refine ⟨[], ?_, rfl, rfl⟩
    have := AltReads.empty (cc := cc) w' hg0
    simpa using this
  · exact absurd rfl h

/-- What was read is an alternative, unless the text is used up. -/
theorem Spec.AltReads.text {cc : CharClass} {v w : Str} {a : List ElementVerbose} (h : AltReads cc v a w) :
    (∃ g0 t g, v = g0 ++ (t ++ (g ++ w)) ∧ IsSpace g0 ∧ IsSpace g ∧ AltText cc a t) ∨ w = [] := by
  cases h with
  | empty w hg => exact .inl ⟨_, c% "#", [], by simp, hg, isSpace_nil, .empty⟩
  | elements hg0 hs hg _ hL =>
    cases hL with
    | other _ => exact .inl ⟨_, _, _, rfl, hg0, hg, .seq hs⟩
    | unfinished _ => exact .inr rfl

theorem Spec.AltsReads.text {cc : CharClass} {v w : Str} {as : List (List ElementVerbose)} (h : AltsReads cc v as w) :
    (∃ g0 t g, v = g0 ++ (t ++ (g ++ w)) ∧ IsSpace g0 ∧ IsSpace g ∧ AltsText cc as t) ∨ w = [] := by
  induction h with
  | last ha hg _ =>
    rcases ha.text with ⟨g0, t, g', rfl, hg0, hg', ht⟩ | hn
    · exact .inl ⟨g0, t, _, by rw [← List.append_assoc g'], hg0, isSpace_append hg' hg, .one ht⟩
    · simp only [List.append_eq_nil_iff] at hn
      exact .inr hn.2
  | more ha hg _ ih =>
    rcases ha.text with ⟨g0, t, g', rfl, hg0, hg', ht⟩ | hn
    · rcases ih with ⟨g1, t1, g1', rfl, hg1, hg1', ht1⟩ | hn
      · exact .inl ⟨g0, _, g1', by simp, hg0, hg1', .cons ht (isSpace_append hg' hg) hg1 ht1⟩
      · exact .inr hn
    · simp at hn

theorem reads_prod (hin : InternOk pd keys) (cc : CharClass) : Reads vm keys pd w k (parseProd cc ⟨Proc.at w k, pd⟩)
    (fun p u ks w' => (∃ g0 t g a, u = g0 ++ (t ++ g) ∧ IsSpace g0 ∧ IsSpace g ∧ AltText cc a t ∧ ks = a ∧
      p = altMeaning (addAll keys a) a) ∨ w' = []) := by
  refine (reads_prod_exact hin cc).mono ?_
  rintro p u ks w' - ⟨a, h, rfl, rfl⟩
  rcases h.text with ⟨g0, t, g, hu, hg0, hg, ha⟩ | h
  · exact .inl ⟨g0, t, g, ks, List.append_cancel_right (by rw [hu]; simp), hg0, hg, ha, rfl, rfl⟩
  · exact .inr h

/-! ### Alternatives -/

theorem space_prefix {cc : CharClass} {g v w : Str} {a : List ElementVerbose} (hg : IsSpace g) (h : AltReads cc v a w) :
    AltReads cc (g ++ v) a w := by
  cases h with
  | empty w hg' => rw [← List.append_assoc]; exact .empty w (isSpace_append hg hg')
  | elements hg0 hs hg' hN hL => rw [← List.append_assoc]; exact .elements (isSpace_append hg hg0) hs hg' hN hL

theorem space_prefixes {cc : CharClass} {g v w : Str} {as : List (List ElementVerbose)} (hg : IsSpace g)
    (h : AltsReads cc v as w) : AltsReads cc (g ++ v) as w := by
  cases h with
  | last ha hg' hw => exact .last (space_prefix hg ha) hg' hw
  | more ha hg' hs => exact .more (space_prefix hg ha) hg' hs

theorem altsLoop_exact (cc : CharClass) : ∀ (fuel : Nat) (acc : List Production) (w : Str) (k : Nat) (pd : ParserData I)
    (keys : List ElementVerbose), w.length < fuel → InternOk pd keys →
    Reads vm keys pd w k (parseAltsLoop cc fuel acc ⟨Proc.at w k, pd⟩) (fun ps u ks w' =>
      (ps = acc ∧ ks = [] ∧ IsSpace u ∧ ∀ c r, w' = c :: r → CharClass.isWhitespace c = false ∧ c ≠ '|') ∨
      (∃ g v as, u ++ w' = g ++ '|' :: v ∧ IsSpace g ∧ AltsReads cc v as w' ∧
        ks = as.flatten ∧ ps = acc ++ as.map (altMeaning (addAll keys as.flatten))))
  | 0, _, w, _, _, _, h, _ => by omega
  | fuel + 1, acc, w, k, pd, keys, hf, hin => by
    rw [parseAltsLoop]
    refine Reads.bind (reads_whitespace hin) ?_
    rintro _ u1 ks1 w1 pd1 rfl ⟨hu1, hns, rfl⟩ hI1
    refine Reads.bind (reads_trySymbol hI1.ok '\n') ?_
    rintro o u2 ks2 w2 pd2 rfl ⟨rfl, h2⟩ hI2
    have hu2 : u2 = [] := by
      rcases h2 with ⟨-, rfl⟩ | ⟨-, rfl, -⟩
      · exact absurd (hns '\n' w2 rfl) (by decide)
      · rfl
    subst hu2
    clear h2
    refine Reads.bind (reads_whitespace hI2.ok) ?_
    rintro _ u3 ks3 w3 pd3 rfl ⟨hu3, hns3, rfl⟩ hI3
    refine Reads.bind (reads_trySymbol hI3.ok '|') ?_
    rintro o u4 ks4 w4 pd4 rfl ⟨rfl, h4⟩ hI4
    have hsp : IsSpace (u1 ++ u3) := isSpace_append hu1 hu3
    rcases h4 with ⟨rfl, rfl⟩ | ⟨rfl, rfl, hbar⟩
    · simp only
      refine Reads.bind (reads_whitespace hI4.ok) ?_
      rintro _ u5 ks5 w5 pd5 rfl ⟨hu5, -, rfl⟩ hI5
      refine Reads.bind (reads_prod_exact hI5.ok cc) ?_
      rintro p u6 ks6 w6 pd6 rfl hp hI6
      refine (altsLoop_exact cc fuel _ _ _ _ _ ?_ hI6.ok).mono ?_
      · simp only [List.length_append, List.length_cons, List.nil_append] at hf
        omega
      · rintro ps u ks w' rfl h
        obtain ⟨a, ha, rfl, rfl⟩ := hp
        simp only [addAll_nil, List.nil_append] at h ⊢
        have ha' := space_prefix hu5 ha
        rcases h with ⟨rfl, rfl, hu, hw⟩ | ⟨g, v, as, hv, hg, has, rfl, rfl⟩
        · exact .inr ⟨u1 ++ u3, u5 ++ (u6 ++ (u ++ w')), [ks6], by simp, hsp, .last ha' hu hw, by simp, by simp⟩
        · rw [hv] at ha'
          refine .inr ⟨u1 ++ u3, _, ks6 :: as, ?_, hsp, .more ha' hg has, by simp, ?_⟩
          · rw [← hv]; simp
          rw [List.flatten_cons, addAll_append]
          have : altMeaning (addAll (addAll keys ks6) as.flatten) ks6 = altMeaning (addAll keys ks6) ks6 :=
            altMeaning_addAll (fun e he => mem_addAll.2 (.inr he)) _
          simp [this]
    · refine Reads.pure hI4.ok ?_
      simp only [List.nil_append, List.append_nil]
      refine .inl ⟨trivial, trivial, hsp, fun c r hc => ⟨hns3 c r hc, ?_⟩⟩
      rintro rfl
      rw [hc] at hbar
      exact hbar rfl

/-- `parse_possible_productions`, exactly. -/
theorem reads_alts_exact (hin : InternOk pd keys) (cc : CharClass) : Reads vm keys pd w k (parseAlts cc ⟨Proc.at w k, pd⟩)
    (fun ps u ks w' => ∃ as, AltsReads cc (u ++ w') as w' ∧ ks = as.flatten ∧
      ps = as.map (altMeaning (addAll keys as.flatten))) := by
  refine Reads.bind (f := fun p s => parseAltsLoop cc (s.proc.rest.length + 1) [p] s) (reads_prod_exact hin cc) ?_
  rintro p u1 ks1 w1 pd1 rfl hp hI1
  refine (altsLoop_exact cc (w1.length + 1) [p] w1 _ pd1 _ (by omega) hI1.ok).mono ?_
  rintro ps u ks w' rfl h
  obtain ⟨a, ha, rfl, rfl⟩ := hp
  rw [List.append_assoc]
  rcases h with ⟨rfl, rfl, hu, hw⟩ | ⟨g, v, as, hv, hg, has, rfl, rfl⟩
  · exact ⟨[ks1], .last ha hu hw, by simp, by simp⟩
  · refine ⟨ks1 :: as, ?_, by simp, ?_⟩
    · rw [hv] at ha ⊢; exact .more ha hg has
    rw [List.flatten_cons, addAll_append]
    have : altMeaning (addAll (addAll keys ks1) as.flatten) ks1 = altMeaning (addAll keys ks1) ks1 :=
      altMeaning_addAll (fun e he => mem_addAll.2 (.inr he)) _
    simp [this]

theorem reads_alts (hin : InternOk pd keys) (cc : CharClass) : Reads vm keys pd w k (parseAlts cc ⟨Proc.at w k, pd⟩)
    (fun ps u ks w' => (∃ g0 t g as, u = g0 ++ (t ++ g) ∧ IsSpace g0 ∧ IsSpace g ∧ AltsText cc as t ∧ ks = as.flatten ∧
      ps = as.map (altMeaning (addAll keys as.flatten))) ∨ w' = []) := by
  refine (reads_alts_exact hin cc).mono ?_
  rintro p u ks w' - ⟨as, h, rfl, rfl⟩
  rcases h.text with ⟨g0, t, g, hu, hg0, hg, ha⟩ | h
  · exact .inl ⟨g0, t, g, as, List.append_cancel_right (by rw [hu]; simp), hg0, hg, ha, rfl, rfl⟩
  · exact .inr h

theorem reads_overrideValue (hin : InternOk pd keys) (cc : CharClass) (v : Str) :
    Reads vm keys pd w k (overrideValue cc v none ⟨Proc.at w k, pd⟩) (fun i u ks _ =>
      ∃ o, ks = ignElems o ∧ i = ignMeaning (addAll keys (ignElems o)) o ∧
        ((v = c% "IGNORE" ∧ o = none ∧ u = ['#']) ∨ (v = c% "IGNORE" ∧ ∃ n, IsName cc n ∧ o = some n ∧ u = n) ∨
         (v ≠ c% "IGNORE" ∧ o = none ∧ u = []))) := by
  by_cases hv : v = c% "IGNORE"
  · rw [overrideValue, if_pos hv]
    refine Reads.bind (reads_trySymbol hin '#') ?_
    rintro o u1 ks1 w1 pd1 rfl ⟨rfl, h1⟩ hI1
    rcases h1 with ⟨rfl, rfl⟩ | ⟨rfl, rfl, -⟩
    · refine Reads.pure hI1.ok ⟨none, rfl, rfl, .inl ⟨hv, rfl, rfl⟩⟩
    · simp only
      refine Reads.bind (reads_varName hI1.ok cc) ?_
      rintro n u2 ks2 w2 pd2 rfl ⟨rfl, hn, -, rfl⟩ hI2
      refine Reads.bind (reads_intern hI2.ok ⟨u2, .nonTerminal⟩) ?_
      rintro ix u3 ks3 w3 pd3 rfl ⟨rfl, rfl, rfl⟩ hI3
      refine Reads.pure hI3.ok ⟨some u2, rfl, rfl, .inr (.inl ⟨hv, u2, hn, rfl, by simp⟩)⟩
  · rw [overrideValue, if_neg hv]
    exact Reads.pure hin ⟨none, rfl, rfl, .inr (.inr ⟨hv, rfl, rfl⟩)⟩

theorem reads_overrides (hin : InternOk pd keys) (hpd : pd.ignore = none) (cc : CharClass) :
    Reads vm keys pd w k (parseOverrides cc ⟨Proc.at w k, pd⟩) (fun i u ks _ =>
      ∃ o, OverrideText cc o u ∧ ks = ignElems o ∧ i = ignMeaning (addAll keys (ignElems o)) o) := by
  rw [parseOverrides, smBind_ok (rpIgnore_none hpd)]
  refine Reads.bind (reads_trySymbol hin '$') ?_
  rintro o u1 ks1 w1 pd1 rfl ⟨rfl, h1⟩ hI1
  rcases h1 with ⟨rfl, rfl⟩ | ⟨rfl, rfl, -⟩
  · simp only
    refine Reads.bind (reads_symbol hI1.ok '[') ?_
    rintro _ u2 ks2 w2 pd2 rfl ⟨rfl, rfl⟩ hI2
    refine Reads.bind (reads_varName hI2.ok cc) ?_
    rintro v u3 ks3 w3 pd3 rfl ⟨rfl, hn, -, rfl⟩ hI3
    refine Reads.bind (reads_whitespace hI3.ok) ?_
    rintro _ g ks4 w4 pd4 rfl ⟨hg, -, rfl⟩ hI4
    refine Reads.bind (reads_symbol hI4.ok ':') ?_
    rintro _ u5 ks5 w5 pd5 rfl ⟨rfl, rfl⟩ hI5
    refine Reads.bind (reads_overrideValue hI5.ok cc u3) ?_
    rintro i u6 ks6 w6 pd6 rfl ⟨o, rfl, rfl, h6⟩ hI6
    refine Reads.bind (reads_symbol hI6.ok ']') ?_
    rintro _ u7 ks7 w7 pd7 rfl ⟨rfl, rfl⟩ hI7
    refine Reads.pure hI7.ok ⟨o, ?_, by simp, rfl⟩
    rcases h6 with ⟨rfl, rfl, rfl⟩ | ⟨rfl, n, hn', rfl, rfl⟩ | ⟨hv, rfl, rfl⟩
    · have := OverrideText.off (cc := cc) hg
      simpa using this
    · have := OverrideText.name hg hn'
      simpa using this
    · have := OverrideText.unknown hn hv hg
      simpa using this
  · exact Reads.pure hI1.ok ⟨none, .absent, rfl, rfl⟩

/-! ### Sections -/

/-- One reading call on a section process over a plain process. -/
theorem readOp_src (op : ReadOp) (v : Str) (k pos : Nat) (so ec : Option Char) (e : Bool) :
    ∃ u v' pos' e', (op.run (⟨Proc.at v k, pos, so, ec, e⟩ : PP Proc)).2 = ⟨Proc.at v' (k + u.length), pos', so, ec, e'⟩ ∧
      v = u ++ v' := by
  have hpk : TPeekable.peek (Proc.at v k) = (v.head?, Proc.at v k) := plainReader.peek v k trivial
  have hca : ∃ b e', (⟨Proc.at v k, pos, so, ec, e⟩ : PP Proc).checkAllowed = (b, ⟨Proc.at v k, pos, so, ec, e'⟩) := by
    simp only [PP.checkAllowed, hpk]
    split
    · split
      · exact ⟨_, _, rfl⟩
      · split
        · exact ⟨_, _, rfl⟩
        · exact ⟨_, _, rfl⟩
    · exact ⟨_, _, rfl⟩
  obtain ⟨b, e', hb⟩ := hca
  have htriv : ∃ u v', Proc.at v k = Proc.at v' (k + u.length) ∧ v = u ++ v' := ⟨[], v, rfl, rfl⟩
  have hcons : ∀ c v', v = c :: v' → ∃ u v'', Proc.at v' (k + 1) = Proc.at v'' (k + u.length) ∧ v = u ++ v'' :=
    fun c v' h => ⟨[c], v', rfl, h⟩
  cases b with
  | false =>
    refine ⟨[], v, pos, e', ?_, rfl⟩
    cases op <;> simp [ReadOp.run, TPeekable.peek, TPeekable.next, TPeekable.nextIf, TPeekable.nextIfEq, PP.peek, PP.next, PP.nextIf, PP.nextIfEq, hb]
  | true =>
    cases op with
    | peek =>
      refine ⟨[], v, pos, e', ?_, rfl⟩
      have : PP.peek (⟨Proc.at v k, pos, so, ec, e⟩ : PP Proc) = (v.head?, ⟨Proc.at v k, pos, so, ec, e'⟩) := by
        unfold PP.peek
        rw [hb]
        simp only [hpk]
      exact congrArg Prod.snd this
    | next =>
      have hr : ∃ u v', (TPeekable.next (Proc.at v k)).2 = Proc.at v' (k + u.length) ∧ v = u ++ v' := by
        cases v with
        | nil => exact htriv
        | cons c v => exact hcons c v rfl
      obtain ⟨u, v', h1, h2⟩ := hr
      simp only [ReadOp.run]
      show ∃ u v' pos' e', (PP.next _).2 = _ ∧ _
      unfold PP.next
      rcases hx : TPeekable.next (Proc.at v k) with ⟨o, s⟩
      rw [hx] at h1
      simp only at h1
      subst h1
      rw [hb]
      simp only [hx]
      cases o
      · exact ⟨u, v', pos, e', rfl, h2⟩
      · exact ⟨u, v', pos + 1, e', rfl, h2⟩
    | nextIf f =>
      have hr : ∃ u v', (TPeekable.nextIf f (Proc.at v k)).2 = Proc.at v' (k + u.length) ∧ v = u ++ v' := by
        cases v with
        | nil => exact htriv
        | cons c v =>
          have : TPeekable.nextIf f (Proc.at (c :: v) k) = if f c then (some c, Proc.at v (k + 1)) else (none, Proc.at (c :: v) k) := by
            show PP.nextIf f _ = _
            simp only [PP.nextIf, PP.checkAllowed, Proc.at, TPeekable.peek, TPeekable.nextIf]
            by_cases hf : f c = true <;> simp [hf]
          rw [this]
          split
          · exact hcons c v rfl
          · exact htriv
      obtain ⟨u, v', h1, h2⟩ := hr
      simp only [ReadOp.run]
      show ∃ u v' pos' e', (PP.nextIf f _).2 = _ ∧ _
      unfold PP.nextIf
      rcases hx : TPeekable.nextIf f (Proc.at v k) with ⟨o, s⟩
      rw [hx] at h1
      simp only at h1
      subst h1
      rw [hb]
      simp only [hx]
      cases o
      · exact ⟨u, v', pos, e', rfl, h2⟩
      · exact ⟨u, v', pos + 1, e', rfl, h2⟩
    | nextIfEq x =>
      have hr : ∃ u v', (TPeekable.nextIfEq x (Proc.at v k)).2 = Proc.at v' (k + u.length) ∧ v = u ++ v' := by
        cases v with
        | nil => exact htriv
        | cons c v =>
          have : TPeekable.nextIfEq x (Proc.at (c :: v) k) = if c = x then (some c, Proc.at v (k + 1)) else (none, Proc.at (c :: v) k) := by
            show PP.nextIfEq x _ = _
            simp only [PP.nextIfEq, PP.checkAllowed, Proc.at, TPeekable.peek, TPeekable.nextIfEq]
            by_cases hf : c = x <;> simp [hf]
          rw [this]
          split
          · exact hcons c v rfl
          · exact htriv
      obtain ⟨u, v', h1, h2⟩ := hr
      simp only [ReadOp.run]
      show ∃ u v' pos' e', (PP.nextIfEq x _).2 = _ ∧ _
      unfold PP.nextIfEq
      rcases hx : TPeekable.nextIfEq x (Proc.at v k) with ⟨o, s⟩
      rw [hx] at h1
      simp only at h1
      subst h1
      rw [hb]
      simp only [hx]
      cases o
      · exact ⟨u, v', pos, e', rfl, h2⟩
      · exact ⟨u, v', pos + 1, e', rfl, h2⟩

theorem runReads_src : ∀ (ops : List ReadOp) (v : Str) (k pos : Nat) (so ec : Option Char) (e : Bool),
    ∃ u v', (runReads ops (⟨Proc.at v k, pos, so, ec, e⟩ : PP Proc)).2.src = Proc.at v' (k + u.length) ∧ v = u ++ v'
  | [], v, k, _, _, _, _ => ⟨[], v, rfl, rfl⟩
  | op :: ops, v, k, pos, so, ec, e => by
    obtain ⟨u, v', pos', e', h1, rfl⟩ := readOp_src op v k pos so ec e
    obtain ⟨u2, v2, h2, rfl⟩ := runReads_src ops v' (k + u.length) pos' so ec e'
    refine ⟨u ++ u2, v2, ?_, by simp⟩
    simp only [runReads]
    rw [h1, h2, List.length_append, Nat.add_assoc]

theorem reads_runSection (hvm : OnlyReads vm) (hin : InternOk pd keys) (name : Str) :
    Reads vm keys pd w k (rpProc (runSection vm name) ⟨Proc.at w k, pd⟩) (fun is u ks w' =>
      ks = [] ∧ (∀ r, w' = '}' :: r → ReadsSectionIn vm name u is)) := by
  obtain ⟨ops, hops⟩ := hvm.reads name w k
  obtain ⟨u, w', h1, h2⟩ := runReads_src ops w k k (some '}') (some '\\') false
  have hret := hvm.returns name w k
  rcases hv : vm.parseInstructions name (PP.newNested (Proc.at w k) (some '}') (some '\\') k) with ⟨r, p⟩
  have hsp : sectionProcess w k = PP.newNested (Proc.at w k) (some '}') (some '\\') k := rfl
  rw [hsp, hv] at hops hret
  simp only at hops hret
  have hsrc : p.src = Proc.at w' (k + u.length) := by rw [hops]; exact h1
  have hrun : runSection vm name (Proc.at w k) = (r, Proc.at w' (k + u.length)) := by
    show ((vm.parseInstructions name (PP.newNested (Proc.at w k) (some '}') (some '\\') k)).1,
      (vm.parseInstructions name (PP.newNested (Proc.at w k) (some '}') (some '\\') k)).2.src) = _
    rw [hv, ← hsrc]
  rw [rpProc_eq hrun]
  refine ⟨u, w', pd, [], rfl, h2, .refl hin, ?_⟩
  rcases hret with ⟨is, rfl⟩ | ⟨e, rfl⟩
  · refine .inl ⟨is, rfl, rfl, ?_⟩
    rintro r rfl
    exact ⟨r, k, p, by rw [h2] at hv; exact hv, hsrc⟩
  · exact .inr ⟨e, rfl, .inr ⟨[], w, name, rfl, by show (vm.parseInstructions name _).1 = _; rw [List.length_nil, Nat.add_zero, hv]⟩⟩

theorem reads_section (hvm : OnlyReads vm) (hin : InternOk pd keys) (name : Str) :
    Reads vm keys pd w k (parseInstructionSection vm name ⟨Proc.at w k, pd⟩) (fun is u ks _ =>
      ks = [] ∧ SectionText (ReadsSectionIn vm) name is u) := by
  rw [parseInstructionSection]
  refine Reads.bind (reads_trySymbol hin '{') ?_
  rintro o u1 ks1 w1 pd1 rfl ⟨rfl, h1⟩ hI1
  rcases h1 with ⟨rfl, rfl⟩ | ⟨rfl, rfl, -⟩
  · simp only
    refine Reads.bind (reads_whitespace hI1.ok) ?_
    rintro _ g ks2 w2 pd2 rfl ⟨hg, hns, rfl⟩ hI2
    refine Reads.bind (reads_runSection hvm hI2.ok name) ?_
    rintro is body ks3 w3 pd3 rfl ⟨rfl, hs⟩ hI3
    refine Reads.bind (reads_symbol hI3.ok '}') ?_
    rintro _ u4 ks4 w4 pd4 rfl ⟨rfl, rfl⟩ hI4
    refine Reads.pure hI4.ok ⟨by simp, ?_⟩
    have := SectionText.given (Sec := ReadsSectionIn vm) (name := name) hg
      (fun c r h => hns c (r ++ (['}'] ++ w4)) (by rw [h]; rfl)) (hs w4 rfl)
    simpa using this
  · exact Reads.pure hI1.ok ⟨rfl, .absent⟩

/-! ### Rules -/

theorem nil_of_append {u w : Str} (h : u ++ w = []) : u = [] ∧ w = [] := by simpa using h

theorem reads_rule (hvm : OnlyReads vm) (hin : InternOk pd keys) (hpd : pd.ignore = none) (cc : CharClass) :
    Reads vm keys pd w k (parseRule cc vm ⟨Proc.at w k, pd⟩) (fun x u ks _ =>
      ∃ r, RuleText cc (ReadsSectionIn vm) r u ∧ ks = r.mentions ∧ x.1 = (addAll keys r.mentions).idxOf ⟨r.name, .nonTerminal⟩ ∧
        x.2 = written (addAll keys r.mentions) r) := by
  rw [parseRule]
  refine Reads.bind (reads_varName hin cc) ?_
  rintro n u1 ks1 w1 pd1 rfl ⟨rfl, hn, -, rfl⟩ hI1
  refine Reads.bind (reads_intern hI1.ok ⟨u1, .nonTerminal⟩) ?_
  rintro key u2 ks2 w2 pd2 rfl ⟨rfl, rfl, rfl⟩ hI2
  refine Reads.bind (reads_whitespace hI2.ok) ?_
  rintro _ g1 ks3 w3 pd3 rfl ⟨hg1, -, rfl⟩ hI3
  refine Reads.bind (reads_symbol hI3.ok '-') ?_
  rintro _ u4 ks4 w4 pd4 rfl ⟨rfl, rfl⟩ hI4
  refine Reads.bind (reads_symbol hI4.ok '>') ?_
  rintro _ u5 ks5 w5 pd5 rfl ⟨rfl, rfl⟩ hI5
  refine Reads.bind (reads_whitespace hI5.ok) ?_
  rintro _ g2 ks6 w6 pd6 rfl ⟨hg2, -, rfl⟩ hI6
  have hig : pd6.ignore = none := by
    rw [hI6.ignore, hI5.ignore, hI4.ignore, hI3.ignore, hI2.ignore, hI1.ignore, hpd]
  refine Reads.bind (reads_overrides hI6.ok hig cc) ?_
  rintro ign u7 ks7 w7 pd7 rfl ⟨o, ho, rfl, rfl⟩ hI7
  refine Reads.bind (reads_alts hI7.ok cc) ?_
  rintro ps u8 ks8 w8 pd8 rfl h8 hI8
  refine Reads.bind (reads_section hvm hI8.ok u1) ?_
  rintro is u9 ks9 w9 pd9 rfl ⟨rfl, h9⟩ hI9
  refine Reads.bind (reads_whitespace hI9.ok) ?_
  rintro _ g5 ks10 w10 pd10 rfl ⟨hg5, -, rfl⟩ hI10
  refine Reads.bind (reads_symbol hI10.ok ';') ?_
  rintro _ u11 ks11 w11 pd11 rfl ⟨rfl, rfl⟩ hI11
  rcases h8 with ⟨g3, t, g4, as, rfl, hg3, hg4, has, rfl, rfl⟩ | h8
  · refine Reads.pure hI11.ok ⟨⟨u1, o, as, is⟩, ?_, ?_, ?_, ?_⟩
    · have := RuleText.mk (Sec := ReadsSectionIn vm) hn hg1 hg2 ho hg3 has hg4 h9 hg5
      simpa using this
    · simp [WrittenRule.mentions, ignElems]
    · have hm : addAll keys (WrittenRule.mentions (⟨u1, o, as, is⟩ : WrittenRule I)) =
          addAll (addAll (addAll keys [⟨u1, .nonTerminal⟩]) (ignElems o)) as.flatten := by
        rw [← addAll_append, ← addAll_append]; rfl
      rw [hm]
      have : (⟨u1, .nonTerminal⟩ : ElementVerbose) ∈ addAll keys [⟨u1, .nonTerminal⟩] := mem_addAll.2 (.inr (by simp))
      rw [idxOf_addAll (mem_addAll.2 (.inl this)), idxOf_addAll this]
      simp
    · have hm : addAll keys (WrittenRule.mentions (⟨u1, o, as, is⟩ : WrittenRule I)) =
          addAll (addAll (addAll keys [⟨u1, .nonTerminal⟩]) (ignElems o)) as.flatten := by
        rw [← addAll_append, ← addAll_append]; rfl
      rw [hm, written, ignMeaning_addAll (fun e he => mem_addAll.2 (.inr he))]
      simp
  · exfalso
    simp at h8

/-- The loop over rules, on any text. -/
theorem rulesLoop_sound (hvm : OnlyReads vm) (cc : CharClass) : ∀ (fuel : Nat) (w : Str) (k : Nat) (pd : ParserData I)
    (rs : List (WrittenRule I)), w.length < fuel → MeansOk pd rs →
    (∃ rs' pd', parseRulesLoop cc vm fuel ⟨Proc.at w k, pd⟩ = (.ok (), ⟨Proc.at [] (k + w.length), pd'⟩) ∧
      RulesText cc (ReadsSectionIn vm) rs' w ∧ MeansOk pd' (rs ++ rs')) ∨
    (∃ e s, parseRulesLoop cc vm fuel ⟨Proc.at w k, pd⟩ = (.err e, s) ∧ RErr vm w k e)
  | 0, w, _, _, _, h, _ => by omega
  | fuel + 1, w, k, pd, rs, hf, hm => by
    obtain ⟨g, v, rfl, hg, hv, -⟩ := space_split w
    cases v with
    | nil =>
      rw [List.append_nil]
      exact .inl ⟨[], pd, rulesLoop_end cc vm hg fuel k pd, .nil hg, by simpa using hm⟩
    | cons c v =>
      rw [rulesLoop_step cc vm hg (hv c v rfl)]
      obtain ⟨u, w', pd1, ks, h1, h2, h3, h4⟩ := reads_rule (w := c :: v) (k := k + g.length) hvm hm.ok hm.ignore cc
      rcases hr : parseRule cc vm ⟨Proc.at (c :: v) (k + g.length), pd⟩ with ⟨res, s⟩
      rw [hr] at h1 h4
      simp only at h1 h4
      subst h1
      rcases h4 with ⟨x, rfl, r, ht, rfl, hx1, hx2⟩ | ⟨e, rfl, hE⟩
      · rw [smBind_ok hr, hx1, hx2, ← elementsOf_snoc]
        have hlen : w'.length < fuel := by
          obtain ⟨d, u', rfl, -⟩ := ht.head
          have := congrArg List.length h2
          simp only [List.length_append, List.length_cons] at this hf
          omega
        have hmerge : rpMerge ((elementsOf (rs ++ [r])).idxOf ⟨r.name, .nonTerminal⟩) (written (elementsOf (rs ++ [r])) r)
            ⟨Proc.at w' (k + g.length + u.length), pd1⟩ = (.ok (), ⟨Proc.at w' (k + g.length + u.length),
              mergeRule pd1 ((elementsOf (rs ++ [r])).idxOf ⟨r.name, .nonTerminal⟩) (written (elementsOf (rs ++ [r])) r)⟩) := rfl
        rw [smBind_ok hmerge]
        rcases rulesLoop_sound hvm cc fuel w' (k + g.length + u.length) _ (rs ++ [r]) hlen (hm.merge h3) with
          ⟨rs', pd', i1, i2, i3⟩ | ⟨e, s, i1, i2⟩
        · refine .inl ⟨r :: rs', pd', ?_, ?_, by simpa using i3⟩
          · rw [i1, h2]; simp only [List.length_append, Nat.add_assoc]
          · rw [h2]; exact .cons hg ht i2
        · refine .inr ⟨e, s, i1, ?_⟩
          rw [h2]
          exact RErr.suffix (u := g) (RErr.suffix (u := u) i2)
      · refine .inr ⟨e, ⟨Proc.at w' (k + g.length + u.length), pd1⟩, by rw [SM.bind_apply, hr], ?_⟩
        exact RErr.suffix (u := g) hE

end

/-- `parse_rules` on any text. -/
theorem parseRules_sound {vm : VM I S} (hvm : OnlyReads vm) (ho : HashOrder) (cc : CharClass) (text : Str) :
    (∃ rs pd, RulesText cc (ReadsSectionIn vm) rs text ∧ MeansOk pd rs ∧ parseRules ho cc vm text = editRules ho pd) ∨
    (∃ e, parseRules ho cc vm text = .err e ∧ RErr vm text 0 e) := by
  rcases rulesLoop_sound hvm cc (text.length + 1) text 0 ParserData.new [] (by omega) .new with
    ⟨rs', pd', h1, h2, h3⟩ | ⟨e, s, h1, h2⟩
  · have : parseRulesLoop cc vm (text.length + 1) (RP.new text) = (.ok (), ⟨Proc.at [] (0 + text.length), pd'⟩) := h1
    exact .inl ⟨rs', pd', h2, h3, by simp only [parseRules, this]⟩
  · have : parseRulesLoop cc vm (text.length + 1) (RP.new text) = (.err e, s) := h1
    exact .inr ⟨e, by simp only [parseRules, this], h2⟩

end HPP
