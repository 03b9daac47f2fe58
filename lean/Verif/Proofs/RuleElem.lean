import Verif.Proofs.RuleBase
import Verif.Props.Text
/-
Elements and productions.
-/
namespace HPP
open Spec
variable {I S : Type}

theorem quotedFrom_extend {b : Str} : ∀ {e : Bool}, quotedFrom e (b ++ ['"']) = some (b, []) → ∀ r : Str,
    quotedFrom e (b ++ '"' :: r) = some (b, r) := by
  induction b with
  | nil =>
    intro e h r
    simp only [List.nil_append, quotedFrom] at h ⊢
    split at h
    · next hc => rw [if_pos hc]
    · simp at h
  | cons c b ih =>
    intro e h r
    simp only [List.cons_append, quotedFrom] at h ⊢
    split at h
    · simp at h
    · next hc =>
      rw [if_neg hc]
      obtain ⟨x, hx, he⟩ := Option.map_eq_some_iff.1 h
      obtain ⟨x1, x2⟩ := x
      simp only [Prod.mk.injEq, List.cons.injEq, true_and] at he
      obtain ⟨rfl, rfl⟩ := he
      rw [ih hx r]; rfl

theorem quotedFrom_split : ∀ (w : Str) (e : Bool) {b r : Str}, quotedFrom e w = some (b, r) →
    w = b ++ '"' :: r ∧ quotedFrom e (b ++ ['"']) = some (b, [])
  | [], e, b, r, h => by simp [quotedFrom] at h
  | c :: w, e, b, r, h => by
    simp only [quotedFrom] at h
    split at h
    · next hc =>
      cases h
      refine ⟨by rw [hc.1]; rfl, ?_⟩
      simp [quotedFrom, hc.2]
    · next hc =>
      obtain ⟨x, hx, he⟩ := Option.map_eq_some_iff.1 h
      obtain ⟨x1, x2⟩ := x
      simp only [Prod.mk.injEq] at he
      obtain ⟨rfl, rfl⟩ := he
      obtain ⟨i1, i2⟩ := quotedFrom_split w _ hx
      refine ⟨by rw [i1]; rfl, ?_⟩
      simp only [List.cons_append, quotedFrom]
      rw [if_neg hc, i2]; rfl

theorem alpha_ne {cc : CharClass} {c d : Char} (hc : cc.isAlphabetic c = true) (hd : cc.isAlphabetic d = false) : c ≠ d := by
  rintro rfl; rw [hc] at hd; cases hd

theorem smMap_ok {σ ε α β : Type} {f : SM σ ε α} {s s1 : σ} {a : α} (h : f s = (.ok a, s1)) (g : α → β) :
    (f >>= fun n => pure (g n)) s = (.ok (g a), s1) := by rw [SM.bind_apply, h]; rfl

/-- `parse_element` decides. -/
theorem parseElement_cases (cc : CharClass) (w : Str) (k : Nat) :
    (∃ w', w = '#' :: w' ∧ parseElement cc (Proc.at w k) = (.ok none, Proc.at w' (k + 1))) ∨
    (∃ e t w', w = t ++ w' ∧ ElemText cc e t ∧ (e.et = .nonTerminal → NoNameAhead cc w') ∧
      parseElement cc (Proc.at w k) = (.ok (some e), Proc.at w' (k + t.length))) ∨
    ((∀ c r, w = c :: r → c ≠ '#' ∧ c ≠ '"' ∧ cc.isAlphabetic c = false) ∧
      ∃ e, parseElement cc (Proc.at w k) = (.err e, Proc.at w k)) ∨
    (∃ w0 e, w = '"' :: w0 ∧ quotedFrom false w0 = none ∧
      parseElement cc (Proc.at w k) = (.err e, Proc.at [] (k + 1 + w0.length))) := by
  have hpk := plainReader.peek w k trivial
  cases w with
  | nil =>
    refine .inr (.inr (.inl ⟨(by intro c r h; cases h), .endOfChars k, ?_⟩))
    simp only [parseElement, hpk, List.head?_nil, plainReader.pos]
  | cons c w =>
    by_cases h1 : c = '#'
    · subst h1
      refine .inl ⟨w, rfl, ?_⟩
      simp only [parseElement, hpk, List.head?_cons, if_true, plainReader.next '#' w k trivial]
    · by_cases h2 : c = '"'
      · subst h2
        have hE : parseElement cc (Proc.at ('"' :: w) k) =
            (do let n ← parseQuoted; return some ⟨n, .terminal⟩ : SM Proc PErr _) (Proc.at ('"' :: w) k) := by
          simp only [parseElement, hpk, List.head?_cons, if_true, h1, if_false]
        cases hq : quotedFrom false w with
        | none =>
          obtain ⟨e, he⟩ : ∃ e, parseQuoted (Proc.at ('"' :: w) k) = (.err e, Proc.at [] (k + 1 + w.length)) :=
            ⟨_, (C07_quoted w k).2 hq⟩
          refine .inr (.inr (.inr ⟨w, e, rfl, hq, ?_⟩))
          · rw [hE, SM.bind_apply, he]
        | some x =>
          obtain ⟨b, r⟩ := x
          obtain ⟨s1, s2⟩ := quotedFrom_split w false hq
          refine .inr (.inl ⟨⟨b, .terminal⟩, '"' :: (b ++ ['"']), r, ?_, .terminal s2, (by intro h; cases h), ?_⟩)
          · rw [s1]; simp
          · rw [hE, SM.bind_apply, (C07_quoted w k).1 b r hq]
            simp only [SM.pure_apply, List.length_cons, List.length_append, List.length_nil]
            congr 2
            omega
      · by_cases h3 : cc.isAlphabetic c = true
        · rcases varName_cases cc (c :: w) k with ⟨n, w', v1, v2, v3, v4⟩ | ⟨e, v⟩
          · refine .inr (.inl ⟨⟨n, .nonTerminal⟩, n, w', v1, .name v2, fun _ => v3, ?_⟩)
            simp only [parseElement, hpk, List.head?_cons, h1, h2, h3, if_false, if_true]
            exact smMap_ok (f := parseVarName cc) v4 _
          · rw [plainReader.varName_ok cc trivial k h3] at v
            cases v
        · have h3' : cc.isAlphabetic c = false := by simpa using h3
          refine .inr (.inr (.inl ⟨?_, .unexpectedChar c k (c% "char # for empty, \" for terminal ort alphabetic for element"), ?_⟩))
          · intro d r h; cases h; exact ⟨h1, h2, h3'⟩
          · simp only [parseElement, hpk, List.head?_cons, h1, h2, h3', if_false, plainReader.pos]
            rfl

/-- `parse_element` on an element. -/
theorem parseElement_ok {cc : CharClass} {e : ElementVerbose} {t w : Str} (h : ElemText cc e t)
    (hw : e.et = .nonTerminal → NoNameAhead cc w) (k : Nat) :
    parseElement cc (Proc.at (t ++ w) k) = (.ok (some e), Proc.at w (k + t.length)) := by
  cases h with
  | @terminal b hb =>
    have hpk := plainReader.peek ('"' :: (b ++ ['"'] ++ w)) k trivial
    have hq : quotedFrom false (b ++ '"' :: w) = some (b, w) := quotedFrom_extend hb w
    have := (C07_quoted (b ++ '"' :: w) k).1 b w hq
    rw [List.cons_append]
    simp only [parseElement, hpk, List.head?_cons]
    rw [if_neg (by decide), if_pos trivial, SM.bind_apply]
    rw [show ('"' :: (b ++ ['"'] ++ w) : Str) = '"' :: (b ++ '"' :: w) by simp, this]
    simp only [SM.pure_apply, List.length_cons, List.length_append, List.length_nil]
    congr 2
    omega
  | name hn =>
    have hv := rpVarName_ok (pd := (ParserData.new : ParserData Nat)) hn (hw rfl) k
    obtain ⟨c, cs, rfl, hc, -⟩ := hn
    have hpk := plainReader.peek (c :: (cs ++ w)) k trivial
    have h1 : c ≠ '#' := alpha_ne hc rfl
    have h2 : c ≠ '"' := alpha_ne hc rfl
    rw [List.cons_append]
    simp only [parseElement, hpk, List.head?_cons, h1, h2, hc, if_false, if_true]
    simp only [rpVarName, rpProc, List.cons_append] at hv
    have hv' : parseVarName cc (Proc.at (c :: (cs ++ w)) k) = (.ok (c :: cs), Proc.at w (k + (c :: cs).length)) := by
      rcases hx : parseVarName cc (Proc.at (c :: (cs ++ w)) k) with ⟨r, p⟩
      rw [hx] at hv
      simp only [Prod.mk.injEq, RP.mk.injEq] at hv
      rw [hv.1, hv.2.1]
    exact smMap_ok (f := parseVarName cc) hv' _

/-! ### Productions -/

/-- Where a production may end: at `|`, `{` or `;`, or at the end of the text. -/
def EndAhead (w : Str) : Prop := ∀ c r, w = c :: r → (c = '|' ∨ c = '{' ∨ c = ';')

theorem EndAhead.noSpace {w : Str} (h : EndAhead w) : NoSpaceAhead w := by
  intro d r' he
  rcases h d r' he with rfl | rfl | rfl <;> decide

theorem EndAhead.noName {w : Str} (cc : CharClass) (h : EndAhead w) : NoNameAhead cc w := by
  intro d r' he
  rcases h d r' he with rfl | rfl | rfl <;> rfl

theorem noName_space (cc : CharClass) {g w : Str} (hg : IsSpace g) (h : g = [] → NoNameAhead cc w)
    (hcc : ∀ c, CharClass.isWhitespace c = true → (cc.isAlphanumeric c || c == '_') = false) :
    NoNameAhead cc (g ++ w) := by
  intro c r he
  cases g with
  | nil => exact h rfl c r he
  | cons d g => cases he; exact hcc c (hg c (by simp))

theorem parseElement_end (cc : CharClass) {w : Str} (h : EndAhead w) (k : Nat) :
    ∃ e, parseElement cc (Proc.at w k) = (.err e, Proc.at w k) := by
  rcases parseElement_cases cc w k with ⟨w', he, -⟩ | ⟨e, t, w', he, ht, -⟩ | ⟨-, h'⟩ | ⟨w0, e, he, -⟩
  · rcases h _ _ he with h | h | h <;> cases h
  · exfalso
    cases ht with
    | terminal => rcases h _ _ he with h | h | h <;> cases h
    | name hn =>
      obtain ⟨d, ds, rfl, hd, -⟩ := hn
      rcases h d _ he with rfl | rfl | rfl <;> exact absurd hd (by simp [CharClass.isAlphabetic])
  · exact h'
  · rcases h _ _ he with h | h | h <;> cases h

theorem smTry_ok {σ ε α : Type} {f : SM σ ε α} {s s1 : σ} {a : α} (h : f s = (.ok a, s1)) :
    smTry f s = (.ok (some a), s1) := by simp [smTry, h]

theorem smTry_err {σ ε α : Type} {f : SM σ ε α} {s s1 : σ} {e : ε} (h : f s = (.err e, s1)) :
    smTry f s = (.ok none, s1) := by simp [smTry, h]

theorem rpProc_eq {α : Type} {f : SM Proc PErr α} {p p1 : Proc} {r : Res PErr α} (h : f p = (r, p1)) (pd : ParserData I) :
    rpProc f ⟨p, pd⟩ = (r, ⟨p1, pd⟩) := by simp [rpProc, h]

/-- No white space character is a name character (true of the Unicode tables). -/
def SpaceOk (cc : CharClass) : Prop := ∀ c, CharClass.isWhitespace c = true → (cc.isAlphanumeric c || c == '_') = false

/-- One iteration of the production loop. -/
theorem prodLoop_step (cc : CharClass) (fuel : Nat) (acc : List Nat) (s : RP I) :
    parseProductionLoop cc (fuel + 1) acc s =
      match rpWhitespace s with
      | (.ok _, s1) => (match rpProc (parseElement cc) s1 with
        | (.ok none, s2) => if acc.isEmpty then (.ok .empty, s2)
            else (.err (.gram (.unexpectedElement true s2.proc.curPos)), s2)
        | (.ok (some el), s2) => (rpIntern el >>= fun ix => parseProductionLoop cc fuel (acc ++ [ix])) s2
        | (.err _, s2) => finishProduction acc s2
        | (.panic, s2) => (.panic, s2)
        | (.timeout, s2) => (.timeout, s2))
      | (.err e, s1) => (.err e, s1)
      | (.panic, s1) => (.panic, s1)
      | (.timeout, s1) => (.timeout, s1) := by
  simp only [parseProductionLoop, SM.bind_apply]
  rcases rpWhitespace s with ⟨r, s1⟩
  cases r with
  | ok a =>
    simp only [smTry]
    rcases rpProc (parseElement cc) s1 with ⟨r, s2⟩
    cases r with
    | ok o =>
      cases o with
      | none =>
        simp only
        cases acc with
        | nil => rfl
        | cons a acc => rfl
      | some el => rfl
    | err e => rfl
    | panic => rfl
    | timeout => rfl
  | err e => rfl
  | panic => rfl
  | timeout => rfl

theorem Spec.SeqText.head_noSpace {cc : CharClass} (hcc : SpaceOk cc) {es : List ElementVerbose} {t : Str} (h : SeqText cc es t)
    (w : Str) : NoSpaceAhead (t ++ w) := by
  have key : ∀ {e t}, ElemText cc e t → ∀ w, NoSpaceAhead (t ++ w) := by
    intro e t h w c r he
    cases h with
    | terminal => cases he; decide
    | name hn =>
      obtain ⟨d, ds, rfl, hd, -⟩ := hn
      cases he
      cases hx : CharClass.isWhitespace c with
      | false => rfl
      | true =>
        have := hcc c hx
        simp [CharClass.isAlphanumeric, hd] at this
  cases h with
  | one h => exact key h w
  | cons h _ _ _ => rw [List.append_assoc]; exact key h _

theorem Spec.SeqText.ne_nil {cc : CharClass} {es : List ElementVerbose} {t : Str} (h : SeqText cc es t) : es ≠ [] := by
  cases h <;> simp

theorem Spec.ElemText.length_pos {cc : CharClass} {e : ElementVerbose} {t : Str} (h : ElemText cc e t) : 0 < t.length := by
  cases h with
  | terminal => simp
  | name hn => obtain ⟨d, ds, rfl, -⟩ := hn; simp

/-- The first element of a sequence that starts with a name character is a name. -/
theorem Spec.ElemText.terminal_noName {cc : CharClass} {e : ElementVerbose} {t : Str} (h : ElemText cc e t)
    (he : e.et = .terminal) (w : Str) : NoNameAhead cc (t ++ w) := by
  cases h with
  | terminal => intro c r hc; cases hc; rfl
  | name => cases he

theorem Spec.ElemText.nonTerminal_name {cc : CharClass} {e : ElementVerbose} {t : Str} (h : ElemText cc e t)
    (he : e.et = .nonTerminal) (w : Str) : ¬ NoNameAhead cc (t ++ w) := by
  cases h with
  | terminal => cases he
  | name hn =>
    obtain ⟨d, ds, rfl, hd, -⟩ := hn
    intro h
    have := h d (ds ++ w) rfl
    simp [CharClass.isAlphanumeric, hd] at this

/-- Completeness of the production loop. -/
theorem prodLoop_complete {cc : CharClass} (hcc : SpaceOk cc) {es : List ElementVerbose} {t : Str} (h : SeqText cc es t) :
    ∀ (fuel : Nat) (acc : List Nat) (g0 g w : Str) (k : Nat) (pd : ParserData I) (keys : List ElementVerbose),
    t.length < fuel → IsSpace g0 → IsSpace g → EndAhead w → InternOk pd keys →
    ∃ k' pd', parseProductionLoop cc fuel acc ⟨Proc.at (g0 ++ (t ++ (g ++ w))) k, pd⟩ =
        (.ok (.notEmpty (acc ++ es.map fun e => (addAll keys es).idxOf e)), ⟨Proc.at w k', pd'⟩) ∧
      Interned pd keys es pd' := by
  induction h with
  | @one e t he =>
    intro fuel acc g0 g w k pd keys hf hg0 hg hw hin
    obtain ⟨fuel, rfl⟩ : ∃ f, fuel = f + 2 := ⟨fuel - 2, by have := he.length_pos; omega⟩
    have hns : NoSpaceAhead (t ++ (g ++ w)) := SeqText.head_noSpace hcc (.one he) _
    have hnn : e.et = .nonTerminal → NoNameAhead cc (g ++ w) := fun _ => noName_space cc hg (fun _ => hw.noName cc) hcc
    obtain ⟨pd', hi, hI⟩ := rpIntern_eq hin (Proc.at (g ++ w) (k + g0.length + t.length)) e
    obtain ⟨er, hend⟩ := parseElement_end cc hw (k + g0.length + t.length + g.length)
    refine ⟨k + g0.length + t.length + g.length, pd', ?_, hI⟩
    rw [prodLoop_step, rpWhitespace_ok hg0 hns]
    simp only [rpProc_eq (parseElement_ok he hnn (k + g0.length)), SM.bind_apply, hi]
    rw [prodLoop_step, rpWhitespace_ok hg hw.noSpace]
    simp only [rpProc_eq hend]
    simp [finishProduction]
  | @cons e e' es t g1 t' he hg1 hsep hs ih =>
    intro fuel acc g0 g w k pd keys hf hg0 hg hw hin
    obtain ⟨fuel, rfl⟩ : ∃ f, fuel = f + 1 := ⟨fuel - 1, by omega⟩
    have hns : NoSpaceAhead (t ++ (g1 ++ t') ++ (g ++ w)) := SeqText.head_noSpace hcc (.cons he hg1 hsep hs) _
    have hnn : e.et = .nonTerminal → NoNameAhead cc (g1 ++ (t' ++ (g ++ w))) := by
      intro hnt
      refine noName_space cc hg1 (fun hgn => ?_) hcc
      have ht : e'.et = .terminal := by
        cases h : e'.et with
        | terminal => rfl
        | nonTerminal => exact absurd hgn (hsep hnt h)
      cases hs with
      | one h => exact h.terminal_noName ht _
      | cons h _ _ _ => rw [List.append_assoc]; exact h.terminal_noName ht _
    obtain ⟨pd1, hi, hI⟩ := rpIntern_eq hin (Proc.at (g1 ++ (t' ++ (g ++ w))) (k + g0.length + t.length)) e
    have hlen : t'.length < fuel := by
      have := he.length_pos
      simp only [List.length_append] at hf
      omega
    obtain ⟨k', pd', h1, h2⟩ := ih fuel (acc ++ [(addAll keys [e]).idxOf e]) g1 g w (k + g0.length + t.length) pd1
      (addAll keys [e]) hlen hg1 hg hw hI.ok
    refine ⟨k', pd', ?_, hI.trans h2⟩
    rw [prodLoop_step, rpWhitespace_ok hg0 hns]
    have he' := parseElement_ok he hnn (k + g0.length)
    rw [show t ++ (g1 ++ t') ++ (g ++ w) = t ++ (g1 ++ (t' ++ (g ++ w))) by simp]
    simp only [rpProc_eq he', SM.bind_apply, hi]
    rw [h1, addAll_cons keys e (e' :: es)]
    have hidx : (addAll (addAll keys [e]) (e' :: es)).idxOf e = (addAll keys [e]).idxOf e :=
      idxOf_addAll (mem_addAll.2 (.inr (by simp)))
    simp [hidx]

end HPP
