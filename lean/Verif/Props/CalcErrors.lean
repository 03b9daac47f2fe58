import Verif.Proofs.Fits
import Verif.Proofs.CalcNext
import Verif.Props.Expected
import Verif.Props.Whole
/-
C113: the error messages of the calculator examples.
-/
namespace HPP
open Spec
variable {I S : Type} {pd : ParserData I} {start : Nat} {P : Parser I} {ho0 ho : HashOrder} {fuel0 fuel : Nat}

/-! ### terminals that stand alone -/

/-- Letters inside `print`. -/
def isInner (x : Char) : Bool := x == 'r' || x == 'i' || x == 'n' || x == 't'

/-- Terminals stand alone in their alternatives, blanks are single terminals, letters inside `print` are inside terminals. -/
structure AloneTerminals (pd : ParserData I) : Prop where
  single : ∀ A r, AMap.get pd.rules A = some r → ∀ p ∈ r.prods, ∀ e ∈ prodElems p, pd.elementTypes[e]? = some .terminal →
    prodElems p = [e]
  blanks : ∀ (e : Nat) (d : ElementData), pd.elementTypes[e]? = some .terminal → pd.elementData[e]? = some d → ' ' ∈ d.name → d.name.length ≤ 1
  inner : ∀ B w, grammarOf pd B w → ∀ a x b, w = a ++ .ch x :: b → isInner x = true → ∃ a' y, a = a' ++ [.ch y]

/-- A letter inside `print` never comes first, nor after a name. -/
theorem AloneTerminals.forms (h : AloneTerminals pd) {B : Nat} {f : Form} (hd : Derives (grammarOf pd) [.nt B] f) :
    ∀ a x b, f = a ++ .ch x :: b → isInner x = true → ∃ a' y, a = a' ++ [.ch y] := by
  induction hd with
  | refl =>
    intro a x b hf
    cases a with
    | nil => cases hf
    | cons c a => simp at hf
  | tail _ hs ih =>
    cases hs with
    | @mk u v A w hr =>
      intro a x b hf hx
      rw [List.append_assoc] at hf
      rcases List.append_eq_append_iff.1 hf with ⟨c, rfl, h2⟩ | ⟨c, rfl, h2⟩
      · rcases List.append_eq_append_iff.1 h2 with ⟨d, rfl, h3⟩ | ⟨d, rfl, h3⟩
        · obtain ⟨a', y, k⟩ := ih (u ++ .nt A :: d) x b (by rw [h3]; simp) hx
          rcases List.eq_nil_or_concat d with rfl | ⟨d, z, rfl⟩
          · obtain ⟨-, k⟩ := List.append_inj' k rfl
            cases k
          · rw [List.concat_eq_append] at k ⊢
            have k' : (u ++ .nt A :: d) ++ [z] = a' ++ [.ch y] := by rw [← k]; simp
            obtain ⟨-, k'⟩ := List.append_inj' k' rfl
            cases k'
            exact ⟨u ++ (w ++ d), y, by simp⟩
        · cases d with
          | nil =>
            rw [List.nil_append] at h3
            obtain ⟨a', y, k⟩ := ih (u ++ [.nt A]) x b (by rw [← h3]; simp) hx
            obtain ⟨-, k⟩ := List.append_inj' k rfl
            cases k
          | cons z d =>
            injection h3 with h3 h4
            subst h3
            obtain ⟨a', y, rfl⟩ := h.inner A _ hr c x d rfl hx
            exact ⟨u ++ a', y, by simp⟩
      · cases c with
        | nil =>
          rw [List.nil_append] at h2
          cases w with
          | nil =>
            rw [List.nil_append] at h2
            obtain ⟨a', y, k⟩ := ih (a ++ [] ++ [.nt A]) x b (by rw [← h2]; simp) hx
            obtain ⟨-, k⟩ := List.append_inj' k rfl
            cases k
          | cons z w =>
            injection h2 with h2 h3
            subst h2
            obtain ⟨a', y, k⟩ := h.inner A _ hr [] x w rfl hx
            simp at k
        | cons z c =>
          injection h2 with h2 h3
          subst h2
          exact ih a x (c ++ .nt A :: v) (by simp) hx

theorem AloneTerminals.not_control (h : AloneTerminals pd) {A : Nat} {r : NTRule I} (hr : AMap.get pd.rules A = some r)
    {p : Production} (hp : p ∈ r.prods) {x : Char} (hx : isInner x = true) : ¬ Control pd start A p (.char x) := by
  have nofollow : ∀ B, ¬ FollowMember (grammarOf pd) start B (.char x) := by
    rintro B ⟨C, u, v, -, hd⟩
    obtain ⟨a', y, k⟩ := h.forms hd (u ++ [.nt B]) x v (by simp) hx
    obtain ⟨-, k⟩ := List.append_inj' k rfl
    cases k
  intro hc
  cases p with
  | empty => exact nofollow A hc
  | notEmpty els =>
    cases els with
    | nil => exact hc
    | cons e es =>
      rcases hc with ⟨k1, d, x', k2, k3, k4⟩ | ⟨-, ⟨c, k2, v, k3⟩ | ⟨-, k3⟩⟩
      · cases k4
        cases hn : d.name with
        | nil => rw [hn] at k3; cases k3
        | cons z l =>
          rw [hn] at k3
          cases k3
          obtain ⟨a', y, k⟩ := h.inner A _ ⟨r, hr, _, hp, rfl⟩ [] x (ofText l ++ formOf pd es)
            (by simp [prodElems, elemForm_terminal k1 k2, hn, ofText]) hx
          simp at k
      · cases k2
        obtain ⟨a', y, k⟩ := h.forms k3 [] x v rfl hx
        simp at k
      · exact nofollow e k3

/-- Where the end of the text is reported, there is a beginning of a terminal before. -/
theorem AloneTerminals.ended (h : AloneTerminals pd) {vm : VM I S} {k : Nat} {par : Option NodeId} {els : List Nat} {w : Str}
    {x : Tree Str × S} {st : Stop S} (hst : Stops vm pd start k par els w x st) {s : S} (hs : st = .ended s)
    (hels : (∀ e ∈ els, pd.elementTypes[e]? ≠ some .terminal) ∨ ((∃ e, els = [e]) ∧ w ≠ [])) :
    ∃ (e : Nat) (d : ElementData) (u : Str) (c : Char) (v t : Str), pd.elementTypes[e]? = some .terminal ∧ pd.elementData[e]? = some d ∧ d.name = u ++ c :: v ∧ u ≠ [] ∧
      w = t ++ u := by
  induction hst with
  | wrongChar _ _ _ _ => cases hs
  | noAlternative _ _ _ => cases hs
  | noParent _ _ _ _ _ => cases hs
  | leafPanics _ _ _ => cases hs
  | nodePanics _ _ _ _ _ => cases hs
  | machinePanics _ _ _ _ _ _ _ _ _ => cases hs
  | @ended k par e es d w v c' t s h1 h2 h3 =>
    rcases hels with hels | ⟨-, hw⟩
    · exact absurd h1 (hels e (by simp))
    · exact ⟨e, d, w, c', v, [], h1, h2, h3, hw, rfl⟩
  | @inside k par A es rule p w t t1 s id st h1 h2 h3 h4 h5 h6 ih =>
    refine ih hs ?_
    by_cases hx : ∃ e ∈ prodElems p, pd.elementTypes[e]? = some .terminal
    · obtain ⟨e, he, hty⟩ := hx
      have hsing := h.single A rule h2 p h3 e he hty
      refine .inr ⟨⟨e, hsing⟩, ?_⟩
      cases p with
      | empty => cases hsing
      | notEmpty els =>
        have hsing : els = [e] := hsing
        subst hsing
        rcases h4 with ⟨-, d, c, -, -, h4⟩ | ⟨h4, -⟩
        · intro hw
          rw [hw] at h4
          cases h4
        · rw [hty] at h4; cases h4
    · exact .inl fun e he hty => hx ⟨e, he, hty⟩
  | @after k par e es w w1 f x y st h1 h2 h3 h4 ih =>
    rcases hels with hels | ⟨⟨e', he⟩, -⟩
    · obtain ⟨e, d, u, c, v, t, q1, q2, q3, q4, rfl⟩ := ih hs (.inl fun e he => hels e (by simp [he]))
      obtain ⟨s', rfl⟩ := h1.sub
      exact ⟨e, d, u, c, v, s' ++ t, q1, q2, q3, q4, by simp⟩
    · injection he with he1 he2
      subst he2
      cases h4

/-- There is a wrong character only if the text has not ended. -/
theorem stops_wrongChar {vm : VM I S} {k : Nat} {par : Option NodeId} {els : List Nat} {w : Str}
    {x : Tree Str × S} {st : Stop S} (hst : Stops vm pd start k par els w x st) {a b : Char} {r : Str} {s : S}
    (hs : st = .wrongChar a b r s) : r ≠ [] := by
  induction hst with
  | wrongChar _ _ _ _ => cases hs; simp
  | ended _ _ _ => cases hs
  | noAlternative _ _ _ => cases hs
  | noParent _ _ _ _ _ => cases hs
  | leafPanics _ _ _ => cases hs
  | nodePanics _ _ _ _ _ => cases hs
  | machinePanics _ _ _ _ _ _ _ _ _ => cases hs
  | inside _ _ _ _ _ _ ih => exact ih hs
  | after _ _ _ _ ih => exact ih hs

/-- Whether inner letters come after letters. -/
def innerOk : Bool → Form → Bool
  | _, [] => true
  | prev, .ch x :: l => (prev || !isInner x) && innerOk true l
  | _, .nt _ :: l => innerOk false l

theorem innerOk_sound {f : Form} {prev : Bool} (h : innerOk prev f = true) {a : Form} {x : Char} {b : Form}
    (hf : f = a ++ .ch x :: b) (hx : isInner x = true) : (a = [] ∧ prev = true) ∨ ∃ a' y, a = a' ++ [.ch y] := by
  induction a generalizing f prev with
  | nil =>
    subst hf
    simp only [List.nil_append, innerOk, hx, Bool.not_true, Bool.or_false, Bool.and_eq_true] at h
    exact .inl ⟨rfl, h.1⟩
  | cons z a ih =>
    subst hf
    cases z with
    | ch y =>
      simp only [List.cons_append, innerOk, Bool.and_eq_true] at h
      rcases ih h.2 rfl with ⟨rfl, -⟩ | ⟨a', y', rfl⟩
      · exact .inr ⟨[], y, rfl⟩
      · exact .inr ⟨.ch y :: a', y', rfl⟩
    | nt B =>
      simp only [List.cons_append, innerOk] at h
      rcases ih h rfl with ⟨-, k⟩ | ⟨a', y', rfl⟩
      · cases k
      · exact .inr ⟨.nt B :: a', y', rfl⟩

/-- `AloneTerminals` for concrete grammars. -/
def aloneCheck (pd : ParserData I) : Bool :=
  (pd.rules.all fun x => x.2.prods.all fun p => innerOk false (formOf pd (prodElems p)) &&
    (prodElems p).all fun e => pd.elementTypes[e]? != some .terminal || prodElems p == [e]) &&
  (pd.elementTypes.zip pd.elementData).all fun x => x.1 != .terminal || (!x.2.name.contains ' ' || x.2.name.length ≤ 1)

theorem alone_of_check (h : aloneCheck pd = true) : AloneTerminals pd := by
  simp only [aloneCheck, Bool.and_eq_true] at h
  obtain ⟨h1, h2⟩ := h
  have h1' : ∀ A r, AMap.get pd.rules A = some r → ∀ p ∈ r.prods, innerOk false (formOf pd (prodElems p)) = true ∧
      ∀ e ∈ prodElems p, pd.elementTypes[e]? = some .terminal → prodElems p = [e] := by
    intro A r hr p hp
    have := List.all_eq_true.1 (List.all_eq_true.1 h1 _ (AMap.mem_of_get hr)) p hp
    simp only [Bool.and_eq_true, List.all_eq_true, Bool.or_eq_true, bne_iff_ne, beq_iff_eq] at this
    exact ⟨this.1, fun e he hty => (this.2 e he).resolve_left fun h => h hty⟩
  refine ⟨fun A r hr p hp => (h1' A r hr p hp).2, fun e d hty hd hb => ?_, ?_⟩
  · have hm : (ElementType.terminal, d) ∈ pd.elementTypes.zip pd.elementData := by
      refine List.mem_of_getElem? (i := e) ?_
      rw [List.getElem?_zip_eq_some]
      exact ⟨hty, hd⟩
    have := List.all_eq_true.1 h2 _ hm
    simp only [Bool.or_eq_true, bne_iff_ne, Bool.not_eq_true', decide_eq_true_eq] at this
    rcases this with h | h | h
    · exact absurd rfl h
    · simp [hb] at h
    · exact h
  · rintro B w ⟨r, hr, p, hp, rfl⟩ a x b hw hx
    rcases innerOk_sound (h1' B r hr p hp).1 hw hx with ⟨-, k⟩ | k
    · cases k
    · exact k

/-! ### the calculators -/

/-- `P` is a calculator parser whose error messages are exact. -/
def ExactCalc (ins : CalcNT → List I) (P : Parser I) : Prop :=
  ∃ pd ho fuel st, WellFormed pd ∧ Parser.newFromParserData ho fuel pd st = .ok P ∧ StartSymbol pd st ∧
    Productive pd ∧ FollowFits pd st ∧ AloneTerminals pd ∧ ∃ sh : CalcShape pd ins, sh.nt .start = st

set_option maxRecDepth 100000 in
theorem Examples.data_fits (ins : CalcNT → List I) : FollowFits (Examples.data ins) 0 :=
  fits_of_check (T := [0, 1, 2, 3, 7, 13, 14, 25, 26]) (Examples.data_wf ins) (by kernel_rfl)

set_option maxRecDepth 100000 in
theorem Examples.rust_fits : FollowFits Examples.rustData.1 0 :=
  fits_of_check (T := [0, 1, 2, 3, 6, 8, 9, 12, 13]) Examples.rust_wf (by kernel_rfl)

set_option maxRecDepth 100000 in
theorem Examples.data_productive (ins : CalcNT → List I) : Productive (Examples.data ins) :=
  productive_of_check (Examples.data_wf ins) 9 (by kernel_rfl)

set_option maxRecDepth 100000 in
theorem Examples.rust_productive : Productive Examples.rustData.1 :=
  productive_of_check Examples.rust_wf 9 (by kernel_rfl)

set_option maxRecDepth 100000 in
theorem Examples.data_alone (ins : CalcNT → List I) : AloneTerminals (Examples.data ins) := alone_of_check (by kernel_rfl)

set_option maxRecDepth 100000 in
theorem Examples.rust_alone : AloneTerminals Examples.rustData.1 := alone_of_check (by kernel_rfl)

theorem Examples.text_exact {vm : VM I S} {ins : CalcNT → List I} {cc : CharClass} {text : Str}
    (h1 : (parseRulesLoop cc vm (text.length + 1) (RP.new text)).1 = .ok ())
    (h2 : (parseRulesLoop cc vm (text.length + 1) (RP.new text)).2.pd = Examples.data ins) {ho : HashOrder} {fuel : Nat}
    {P : Parser I} (h : Parser.newFromText ho fuel cc vm text = .ok P) : ExactCalc ins P := by
  obtain ⟨pd, g1, g2, g3, g4, g5, g6⟩ := editRules_plain ho (Examples.data_wf ins) (Examples.data_noIgnore ins)
  obtain ⟨pd', k1, k2, k3, k4, k5, k6⟩ := Examples.of_text h1 h2 ho
  have hpd : parseRules ho cc vm text = .ok pd := by
    unfold parseRules
    rcases hx : parseRulesLoop cc vm (text.length + 1) (RP.new text) with ⟨a, b⟩
    rw [hx] at h1 h2
    simp only at h1 h2
    subst h1
    simp only [h2]
    exact g1
  rw [hpd] at k1
  cases k1
  obtain ⟨pd', st, m1, m2, m3⟩ := newFromText_ok h
  rw [hpd] at m1
  cases m1
  rw [k5] at m2
  cases m2
  have hG := grammarOf_congr g2 g3 g6
  refine ⟨pd, ho, fuel, 0, k2, m3, k3, ?_, ?_, ?_, k6⟩
  · intro A r hr
    rw [g6] at hr
    rw [hG]
    exact Examples.data_productive ins A r hr
  · have := Examples.data_fits ins
    unfold FollowFits at this ⊢
    rw [hG]
    exact this
  · have := Examples.data_alone ins
    exact ⟨by intro A r; rw [g6, g2]; exact this.single A r, by rw [g2, g3]; exact this.blanks, by rw [hG]; exact this.inner⟩

theorem Examples.rust_exact {ho : HashOrder} {fuel : Nat} {P : Parser Instr}
    (h : Parser.newFromParserData ho fuel Examples.rustData.1 Examples.rustData.2 = .ok P) : ExactCalc calcIns P :=
  ⟨Examples.rustData.1, ho, fuel, 0, Examples.rust_wf, h, Examples.rust_start, Examples.rust_productive, Examples.rust_fits,
    Examples.rust_alone, Examples.rustShape⟩

/-- The language of a calculator grammar. -/
theorem calc_language {ins : CalcNT → List I} (hw : WellFormed pd) (sh : CalcShape pd ins) :
    Language (grammarOf pd) (sh.nt .start) = IsWords := by
  funext text
  refine propext ⟨fun h => ClosedCalc.language hw sh rfl h, ?_⟩
  rintro ⟨toks, h1, h2, rfl⟩
  cases toks with
  | nil => exact absurd rfl h1
  | cons t ts => exact (C19_tree_iff_language hw (sh.ntType .start) _).1 ⟨_, sh.scriptF_forest h2⟩

/-- Within a word that has begun, the end cannot come only in `print`. -/
theorem nextIn_inner {w : Str} (hw : w ≠ []) (h : SetMember.terminate ∉ nextIn w) : ∃ x, isInner x = true ∧ .char x ∈ nextIn w := by
  rcases nextIn_t hw h with rfl | rfl | rfl | rfl
  · exact ⟨'r', rfl, by decide +kernel⟩
  · exact ⟨'i', rfl, by decide +kernel⟩
  · exact ⟨'n', rfl, by decide +kernel⟩
  · exact ⟨'t', rfl, by decide +kernel⟩

theorem ExactCalc.message {ins : CalcNT → List I} (hc : ExactCalc ins P) (vm : VM I S) {text : Str} {s : S} {e : PErr}
    (he : (Parser.parse ho fuel vm P text s).1 = .err e) (hsyn : SyntaxError e) : CalcMessage text e := by
  obtain ⟨pd, ho0, fuel0, st, h1, h2, h3, h4, h5, ha, sh, rfl⟩ := hc
  have hL := calc_language h1 sh
  have hdef := (newFromParserData_ok h1 h2).1.startDefined
  have hpos : ∃ pos, ErrorAt e pos := by
    rcases hsyn with ⟨c, pos, exp, rfl⟩ | ⟨pos, rfl⟩
    · exact ⟨pos, .inl ⟨_, _, rfl⟩⟩
    · exact ⟨pos, .inr rfl⟩
  obtain ⟨pos, hpos⟩ := hpos
  obtain ⟨⟨g1, g2, g3⟩, g4⟩ := C111_error_position h1 h2 h3 h4 vm he hpos
  rw [hL] at g2 g3 g4
  obtain ⟨q, w, k1, k2, k3⟩ := completable_words.1 g2
  have htext : text = q ++ w ++ text.drop pos := by rw [← k1, List.take_append_drop]
  have hlen : (q ++ w).length = pos := by rw [← k1, List.length_take]; omega
  have hnot : SetMember.ofPeek (text.drop pos).head? ∉ nextIn w := by
    rw [← next_words k2 k3, ← k1]
    cases hd : text.drop pos with
    | nil =>
      intro h
      have : text.take pos = text := by
        have := List.take_append_drop pos text
        rw [hd, List.append_nil] at this
        exact this
      rw [this] at h
      exact g4 h
    | cons x r =>
      intro h
      have hlt : pos < text.length := by
        have := congrArg List.length hd
        simp at this
        omega
      refine g3 (pos + 1) (by omega) (by omega) ?_
      have hx : text.take (pos + 1) = text.take pos ++ [x] := by
        have : text = text.take pos ++ x :: r := by rw [← hd, List.take_append_drop]
        rw [this]
        have hp : (text.take pos).length = pos := by rw [List.length_take]; omega
        rw [List.take_append, List.take_append, hp]
        simp [List.take_take]
      rw [hx]
      exact h
  refine ⟨q, w, text.drop pos, htext, k2, k3, hnot, ?_⟩
  rcases hr : Parser.parse ho fuel vm P text s with ⟨r, c⟩
  have he' : r = .err e := by rw [hr] at he; exact he
  subst he'
  rcases hsyn with ⟨ch, pos', exp, rfl⟩ | ⟨pos', rfl⟩
  · have hp : pos' = pos := ErrorAt.unique (.inl ⟨_, _, rfl⟩) hpos
    subst hp
    obtain ⟨L, m1, m2, m3⟩ := C112_expected_exact_partial h1 h2 h3 h4 h5 vm he
    rw [hL, k1] at m3
    have m3' : ∀ m, m ∈ L ↔ m ∈ nextIn w := fun m => (m3 m).trans (next_words k2 k3 m)
    have hchr := (C27_error_positions ho fuel vm P text s).1 _ _ _ he
    have hchr : ch = (text.drop pos').head?.getD '#' := by
      rw [List.head?_drop]
      rcases hchr with h | ⟨h, rfl⟩
      · rw [h]; rfl
      · rw [h, List.getElem?_eq_none (Nat.le_refl _)]; rfl
    refine .inr ⟨?_, L, ?_, by rw [hlen, m1, hchr]⟩
    · rintro ⟨n1, n2⟩
      rw [n1] at hnot
      obtain ⟨x, hx1, hx2⟩ := nextIn_inner n2 hnot
      obtain ⟨st', L', E, r1, r2, r3, r4, r5⟩ := parse_unexpected_stop h1 h2 h3 vm hr
      obtain ⟨u, r6, r7, -⟩ := C31_expected_list_exact h1 h2 h3 vm hr
      have hrest : c.proc.rest = [] := by
        have e1 := congrArg List.length n1
        have e2 := congrArg List.length r6
        simp at e1 e2
        exact List.eq_nil_of_length_eq_zero (by omega)
      rcases r2 with ⟨a, b, s', t1, -⟩ | ⟨A, rule, s', t1, t2, rfl⟩
      · rw [hrest] at t1
        exact stops_wrongChar r1 t1 rfl
      · have : L' = L := C70_expected_list_readable (r3.symm.trans m1)
        subst this
        obtain ⟨p, hp1, hp2⟩ := (r5 _).1 ((m3' _).2 hx2)
        exact ha.not_control t2 hp1 hx1 hp2
    · exact (List.perm_ext_iff_of_nodup m2 (nextIn_nodup w)).2 m3'
  · have hp : pos' = pos := ErrorAt.unique (.inr rfl) hpos
    subst hp
    have hend := (C27_error_positions ho fuel vm P text s).2 _ he
    subst hend
    refine .inl ⟨by simp, ?_, rfl⟩
    rintro rfl
    obtain ⟨st', v1, v2⟩ := C95_failed_parse_stops h1 h2 h3 hdef vm text s hr
    cases st' with
    | wrongChar => obtain ⟨a, -⟩ := v2; cases a
    | noAlternative => obtain ⟨-, -, _, _, -, -, -, a⟩ := v2; cases a
    | noParent => obtain ⟨a, -⟩ := v2; cases a
    | panicked => exact v2
    | ended s' =>
      obtain ⟨el, d, u, x, v, t, z1, z2, z3, z4, z5⟩ := ha.ended v1 rfl (.inl fun e he hty => by
        rw [List.mem_singleton.1 he, sh.ntType] at hty
        cases hty)
      have hq : q = t ++ u := by
        rw [← z5, htext]
        simp
      rcases List.eq_nil_or_concat u with rfl | ⟨u', y, rfl⟩
      · exact z4 rfl
      · rw [List.concat_eq_append] at hq z3
        rcases wordBegins_end k2 with hq' | ⟨q', hq'⟩
        · rw [hq'] at hq
          simp at hq
        · rw [hq', ← List.append_assoc] at hq
          obtain ⟨-, hy⟩ := List.append_inj' hq rfl
          cases hy
          have := ha.blanks el d z1 z2 (by rw [z3]; simp)
          rw [z3] at this
          simp at this
          omega

/-- **C113.** The error messages of the calculator examples, for any text and whatever the state: if a syntax error is reported,
then it says, by `CalcMessage`, where the text ceases to be the beginning of a script of words, and what can come next there. -/
theorem C113_calculator_messages {cc : CharClass} {checked : Bool} {text : Str} {e : PErr} (hsyn : SyntaxError e) :
    (∀ P, Parser.newFromText ho0 fuel0 cc (simpleStackVm checked) Examples.simpleMathText = .ok P → ∀ s,
      (Parser.parse ho fuel (simpleStackVm checked) P text s).1 = .err e → CalcMessage text e) ∧
    (∀ P, (Parser.newFromText ho0 fuel0 cc (stackVm cc checked) Examples.mathText = .ok P ∨
        Parser.newFromParserData ho0 fuel0 Examples.rustData.1 Examples.rustData.2 = .ok P) → ∀ s,
      (Parser.parse ho fuel (stackVm cc checked) P text s).1 = .err e → CalcMessage text e) := by
  refine ⟨fun P h s he => ?_, fun P h s he => ?_⟩
  · exact (Examples.text_exact (Examples.simple_text_ok cc checked) (Examples.simple_text cc checked) h).message _ he hsyn
  · rcases h with h | h
    · exact (Examples.text_exact (Examples.stack_text_ok cc checked) (Examples.stack_text cc checked) h).message _ he hsyn
    · exact (Examples.rust_exact h).message _ he hsyn

/-- **C113**, every text that is no script of words gets such a message, unless the machine panics first. -/
theorem C113_every_other_text (text : Str) (hno : ¬ IsWords text) {cc : CharClass} {checked : Bool} :
    (∀ P, Parser.newFromText ho0 fuel0 cc (simpleStackVm checked) Examples.simpleMathText = .ok P →
      ∃ N, ∀ fuel, N ≤ fuel → ∀ ho s,
        (∃ e, (Parser.parse ho fuel (simpleStackVm checked) P text s).1 = .err e ∧ CalcMessage text e) ∨
        (Parser.parse ho fuel (simpleStackVm checked) P text s).1 = .panic) ∧
    (∀ P, (Parser.newFromText ho0 fuel0 cc (stackVm cc checked) Examples.mathText = .ok P ∨
        Parser.newFromParserData ho0 fuel0 Examples.rustData.1 Examples.rustData.2 = .ok P) →
      ∃ N, ∀ fuel, N ≤ fuel → ∀ ho s,
        (∃ e, (Parser.parse ho fuel (stackVm cc checked) P text s).1 = .err e ∧ CalcMessage text e) ∨
        (Parser.parse ho fuel (stackVm cc checked) P text s).1 = .panic) := by
  obtain ⟨h1, h2⟩ := C101_calculators_any_text text (ho0 := ho0) (fuel0 := fuel0) (cc := cc) (checked := checked)
  refine ⟨fun P hP => ?_, fun P hP => ?_⟩
  · obtain ⟨N, hN⟩ := h1 P hP
    refine ⟨N, fun fuel hf ho s => ?_⟩
    rcases (hN fuel hf ho s).1 hno with ⟨e, k1, k2⟩ | k
    · exact .inl ⟨e, k1, (C113_calculator_messages k2).1 P hP s k1⟩
    · exact .inr k
  · obtain ⟨N, hN⟩ := h2 P hP
    refine ⟨N, fun fuel hf ho s => ?_⟩
    rcases (hN fuel hf ho s).1 hno with ⟨e, k1, k2⟩ | k
    · exact .inl ⟨e, k1, (C113_calculator_messages k2).2 P hP s k1⟩
    · exact .inr k

theorem message_place {q w r q' w' r' : Str} (k2 : WordBegins q) (k3 : WordPart w) (k4 : SetMember.ofPeek r.head? ∉ nextIn w)
    (l2 : WordBegins q') (l3 : WordPart w') (h : q ++ w ++ r = q' ++ w' ++ r') : (q' ++ w').length ≤ (q ++ w).length := by
  rcases List.append_eq_append_iff.1 h with ⟨c, h1, h2⟩ | ⟨c, h1, h2⟩
  · cases c with
    | nil => rw [h1]; simp
    | cons x c =>
      exfalso
      apply k4
      rw [h2]
      refine (next_words k2 k3 (.char x)).1 ?_
      obtain ⟨y, hy⟩ := completable_part l2 l3
      exact ⟨c ++ y, by rw [h1] at hy; simpa using hy⟩
  · rw [h1]; simp

/-- **C113**, the text determines the message, up to the order of the list; and there is none for a script of words. -/
theorem C113_determined {text : Str} {e e' : PErr} (h : CalcMessage text e) (h' : CalcMessage text e') :
    ¬ IsWords text ∧ (e = e' ∨ ∃ x pos L L', List.Perm L L' ∧ e = .unexpectedChar x pos (expectedText L) ∧
      e' = .unexpectedChar x pos (expectedText L')) := by
  obtain ⟨q, w, r, k1, k2, k3, k4, k5⟩ := h
  obtain ⟨q', w', r', l1, l2, l3, l4, l5⟩ := h'
  constructor
  · intro hw
    apply k4
    cases r with
    | nil =>
      refine (next_words k2 k3 .terminate).1 ?_
      rw [k1, List.append_nil] at hw
      exact hw
    | cons x r => exact (next_words k2 k3 (.char x)).1 ⟨r, by rw [k1] at hw; simpa using hw⟩
  · have hE : q ++ w ++ r = q' ++ w' ++ r' := by rw [← k1, ← l1]
    have hlen : (q ++ w).length = (q' ++ w').length :=
      Nat.le_antisymm (message_place l2 l3 l4 k2 k3 hE.symm) (message_place k2 k3 k4 l2 l3 hE)
    obtain ⟨h1, rfl⟩ := List.append_inj hE hlen
    obtain ⟨rfl, rfl⟩ := split_unique (wordBegins_end k2) (wordBegins_end l2) (wordPart_noBlank k3) (wordPart_noBlank l3) h1
    rcases k5 with ⟨a1, a2, rfl⟩ | ⟨a1, L, a2, rfl⟩
    · rcases l5 with ⟨b1, b2, rfl⟩ | ⟨b1, L', b2, rfl⟩
      · exact .inl rfl
      · exact absurd ⟨a1, a2⟩ b1
    · rcases l5 with ⟨b1, b2, rfl⟩ | ⟨b1, L', b2, rfl⟩
      · exact absurd ⟨b1, b2⟩ a1
      · exact .inr ⟨_, _, L, L', a2.trans b2.symm, rfl, rfl⟩

theorem Samples.words_one : IsWords (c% "1") := ⟨[.num [1]], by simp, by simp [Token.Ok], by decide⟩

theorem Samples.message_end : CalcMessage (c% "1 pr") (.endOfChars 4) :=
  ⟨c% "1 ", c% "pr", [], by decide, .inr ⟨_, Samples.words_one, by decide⟩, ⟨.print, c% "int", trivial, by decide⟩,
    by decide +kernel, .inl ⟨rfl, by decide, by decide⟩⟩

theorem Samples.message_letter : CalcMessage (c% "1 prxnt") (.unexpectedChar 'x' 4 (c% "i")) :=
  ⟨c% "1 ", c% "pr", c% "xnt", by decide, .inr ⟨_, Samples.words_one, by decide⟩, ⟨.print, c% "int", trivial, by decide⟩,
    by decide +kernel, .inr ⟨by decide, [.char 'i'], by decide +kernel, by decide⟩⟩

theorem Samples.message_blank : CalcMessage (c% "1 ") (.unexpectedChar '#' 2 (c% "0;1;2;3;4;5;6;7;8;9;+;-;p")) :=
  ⟨c% "1 ", [], [], by decide, .inr ⟨_, Samples.words_one, by decide⟩, ⟨.print, c% "print", trivial, by decide⟩,
    by decide +kernel, .inr ⟨by decide, nextIn [], .refl _, by decide +kernel⟩⟩

/-- C113 on `1 pr`, `1 prxnt` and `1 `: with any state of the machine of `stack_based_math`, these are the messages (for the
last one, up to the order of the list). -/
example {cc : CharClass} {checked : Bool} {P : Parser Instr}
    (hP : Parser.newFromText ho0 fuel0 cc (stackVm cc checked) Examples.mathText = .ok P) (s : VState) :
    (∀ e, SyntaxError e → (Parser.parse ho fuel (stackVm cc checked) P (c% "1 pr") s).1 = .err e → e = .endOfChars 4) ∧
    (∀ e, SyntaxError e → (Parser.parse ho fuel (stackVm cc checked) P (c% "1 prxnt") s).1 = .err e →
      e = .unexpectedChar 'x' 4 (c% "i")) ∧
    (∀ e, SyntaxError e → (Parser.parse ho fuel (stackVm cc checked) P (c% "1 ") s).1 = .err e →
      ∃ L, List.Perm L (figures ++ [.char '+', .char '-', .char 'p']) ∧ e = .unexpectedChar '#' 2 (expectedText L)) := by
  refine ⟨fun e he h => ?_, fun e he h => ?_, fun e he h => ?_⟩
  · obtain ⟨-, h | ⟨_, _, _, _, -, -, h⟩⟩ := C113_determined ((C113_calculator_messages he).2 P (.inl hP) s h) Samples.message_end
    · exact h
    · cases h
  · obtain ⟨-, h | ⟨x, pos, L, L', k1, k2, k3⟩⟩ :=
      C113_determined ((C113_calculator_messages he).2 P (.inl hP) s h) Samples.message_letter
    · exact h
    · rw [PErr.unexpectedChar.injEq] at k3
      obtain ⟨a, b, c⟩ := k3
      have : L' = [.char 'i'] := C70_expected_list_readable (c.symm.trans rfl)
      subst this
      rw [List.perm_singleton.1 k1] at k2
      rw [k2, ← a, ← b]
      rfl
  · obtain ⟨-, h | ⟨x, pos, L, L', k1, k2, k3⟩⟩ :=
      C113_determined ((C113_calculator_messages he).2 P (.inl hP) s h) Samples.message_blank
    · exact ⟨_, .refl _, by rw [h]; decide +kernel⟩
    · rw [PErr.unexpectedChar.injEq] at k3
      obtain ⟨a, b, c⟩ := k3
      have : L' = nextIn [] := C70_expected_list_readable (c.symm.trans (by decide +kernel))
      subst this
      have hn : nextIn [] = figures ++ [.char '+', .char '-', .char 'p'] := if_pos rfl
      exact ⟨L, hn ▸ k1, by rw [k2, ← a, ← b]⟩

end HPP
