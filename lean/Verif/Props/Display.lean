import Verif.Model.Display
import Verif.Props.Text
import Verif.Props.Parse
/-
C70: what the texts of errors tell.
-/
namespace HPP
open Spec
variable {I S : Type}

/-! ### numbers -/

theorem showNatFrom_eq (fuel : Nat) : ∀ n acc, n < fuel → showNatFrom fuel n acc = numeral n ++ acc := by
  induction fuel with
  | zero => intro n acc h; omega
  | succ fuel ih =>
    intro n acc h
    rw [numeral]
    simp only [showNatFrom]
    by_cases hn : n < 10
    · rw [if_pos (by omega), if_pos hn, Nat.mod_eq_of_lt hn]
      rfl
    · rw [if_neg (by omega), if_neg hn, ih (n / 10) _ (by omega)]
      simp only [List.append_assoc]
      rfl

/-- **C70**, numbers are shown in decimal. -/
theorem C70_numbers_in_decimal (n : Nat) : showNat n = numeral n := by
  rw [showNat, showNatFrom_eq _ _ _ (by omega), List.append_nil]

theorem numeral_injective {n m : Nat} (h : numeral n = numeral m) : n = m := by
  rw [← (numeral_spec n).2.2, ← (numeral_spec m).2.2, h]

/-- Two splits at the end of the leading digits are the same. -/
theorem digits_unique {a b r s : Str} (ha : ∀ c ∈ a, IsDigit c) (hb : ∀ c ∈ b, IsDigit c)
    (hr : ∀ c t, r = c :: t → ¬ IsDigit c) (hs : ∀ c t, s = c :: t → ¬ IsDigit c) (h : a ++ r = b ++ s) : a = b ∧ r = s := by
  induction a generalizing b with
  | nil =>
    cases b with
    | nil => exact ⟨rfl, h⟩
    | cons y b => exact absurd (hb y (by simp)) (hr y (b ++ s) (by simpa using h))
  | cons x a ih =>
    cases b with
    | nil => exact absurd (ha x (by simp)) (hs x (a ++ r) (by simpa using h.symm))
    | cons y b =>
      simp only [List.cons_append, List.cons.injEq] at h
      obtain ⟨rfl, h⟩ := h
      obtain ⟨rfl, rfl⟩ := ih (fun c hc => ha c (by simp [hc])) (fun c hc => hb c (by simp [hc])) h
      exact ⟨rfl, rfl⟩

theorem showNat_append {n m : Nat} {r s : Str} (hr : ∀ c t, r = c :: t → ¬ IsDigit c)
    (hs : ∀ c t, s = c :: t → ¬ IsDigit c) (h : showNat n ++ r = showNat m ++ s) : n = m ∧ r = s := by
  rw [C70_numbers_in_decimal, C70_numbers_in_decimal] at h
  obtain ⟨h1, h2⟩ := digits_unique (numeral_spec n).2.1 (numeral_spec m).2.1 hr hs h
  exact ⟨numeral_injective h1, h2⟩

theorem notDigit_cons {x : Char} {l : Str} (h : ¬ IsDigit x) : ∀ c t, x :: l = c :: t → ¬ IsDigit c := by
  intro c t e
  cases e
  exact h

theorem notDigit_nil : ∀ c t, ([] : Str) = c :: t → ¬ IsDigit c := by intro c t e; cases e

/-- A text beginning with a numeral begins with a digit. -/
theorem showNat_cons (n : Nat) : ∃ c t, showNat n = c :: t ∧ IsDigit c := by
  rw [C70_numbers_in_decimal]
  obtain ⟨h1, h2, -⟩ := numeral_spec n
  cases h : numeral n with
  | nil => exact absurd h h1
  | cons c t => exact ⟨c, t, rfl, h2 c (by rw [h]; simp)⟩

/-! ### errors of `parse` -/

/-- The errors `parse` can return (C29). -/
def SyntaxError (e : PErr) : Prop := (∃ c pos exp, e = .unexpectedChar c pos exp) ∨ ∃ pos, e = .endOfChars pos

/-- **C70.** The text of a syntax error determines the error: its kind, the character, the position and what was
expected. -/
theorem C70_syntax_error_text {e e' : PErr} (he : SyntaxError e) (he' : SyntaxError e') (h : e.display = e'.display) :
    e = e' := by
  rcases he with ⟨c, pos, exp, rfl⟩ | ⟨pos, rfl⟩ <;> rcases he' with ⟨c', pos', exp', rfl⟩ | ⟨pos', rfl⟩
  · simp only [PErr.display, List.append_cancel_left_eq, List.cons.injEq] at h
    obtain ⟨rfl, h⟩ := h
    obtain ⟨rfl, h2⟩ := showNat_append (notDigit_cons (by decide)) (notDigit_cons (by decide)) h
    have h' : c% " was not expected. Expected " ++ exp = c% " was not expected. Expected " ++ exp' := h2
    rw [List.append_cancel_left h']
  · simp [PErr.display] at h
  · simp [PErr.display] at h
  · simp only [PErr.display, List.append_cancel_left_eq] at h
    have := showNat_append (r := []) (s := []) notDigit_nil notDigit_nil (by simpa using h)
    rw [this.1]

/-- **C70.** The message of a failed parse, in full: it names the character at which the parse stopped (`#` for the
end of the script) and its position, counted in characters, in decimal. -/
theorem C70_parse_message {pd : ParserData I} {start : Nat} {P : Parser I} {ho0 ho : HashOrder} {fuel0 fuel : Nat}
    (hw : WellFormed pd) (hP : Parser.newFromParserData ho0 fuel0 pd start = .ok P) (hs : StartSymbol pd start)
    (vm : VM I S) (htp : TreePreserving vm) (htot : Total vm) {text : Str} {s : S} {e : PErr}
    (h : (Parser.parse ho fuel vm P text s).1 = .err e) :
    (∃ x pos exp, e.display = c% " \"" ++ [x] ++ c% "\" at pos " ++ numeral pos ++ c% " was not expected. Expected " ++ exp ∧
      (text[pos]? = some x ∨ (pos = text.length ∧ x = '#'))) ∨
    e.display = c% "There was a char expected but there was none at pos " ++ numeral text.length := by
  obtain ⟨h1, h2⟩ := C27_error_positions ho fuel vm P text s
  rcases (C29_only_syntax_errors (ho := ho) (fuel := fuel) hw hP hs vm htp htot text s).2 e h with ⟨x, pos, exp, rfl⟩ | ⟨pos, rfl⟩
  · refine .inl ⟨x, pos, exp, ?_, h1 _ _ _ h⟩
    simp only [PErr.display, C70_numbers_in_decimal, List.append_assoc]
    rfl
  · right
    rw [← h2 _ h]
    simp only [PErr.display, C70_numbers_in_decimal]

/-! ### the list of expected lookaheads -/

theorem joinSemi_cons_inj {m m' : SetMember} {r r' : Str} (hr : ∀ c t, r = c :: t → c = ';')
    (hr' : ∀ c t, r' = c :: t → c = ';') (h : m.toStr ++ r = m'.toStr ++ r') : m = m' ∧ r = r' := by
  cases m with
  | char x =>
    cases m' with
    | char y => simp only [SetMember.toStr, List.cons_append, List.nil_append, List.cons.injEq] at h; exact ⟨by rw [h.1], h.2⟩
    | terminate =>
      simp only [SetMember.toStr, List.cons_append, List.nil_append, List.cons.injEq] at h
      exact absurd (hr _ _ h.2) (by decide)
  | terminate =>
    cases m' with
    | char y =>
      simp only [SetMember.toStr, List.cons_append, List.nil_append, List.cons.injEq] at h
      exact absurd (hr' _ _ h.2.symm) (by decide)
    | terminate => exact ⟨rfl, List.append_cancel_left h⟩

/-- What `joinSemi` puts after the first entry. -/
theorem joinSemi_map_cons (m : SetMember) (L : List SetMember) : ∃ r, joinSemi ((m :: L).map SetMember.toStr) = m.toStr ++ r ∧
    (∀ c t, r = c :: t → c = ';') ∧ (L = [] → r = []) ∧ (L ≠ [] → r = ';' :: joinSemi (L.map SetMember.toStr)) := by
  cases L with
  | nil => exact ⟨[], by simp [joinSemi], (fun c t e => by cases e), fun _ => rfl, fun h => absurd rfl h⟩
  | cons x L => exact ⟨_, rfl, (fun c t e => by cases e; rfl), (fun e => by cases e), fun _ => rfl⟩

/-- **C70.** The list of expected lookaheads can be read back from the message: no two different lists have the same
text, even if `;` is itself an expected character. -/
theorem C70_expected_list_readable {L L' : List SetMember}
    (h : expectedText L = expectedText L') : L = L' := by
  rw [expectedText_eq, expectedText_eq] at h
  have hne : ∀ m M, joinSemi (((m : SetMember) :: M).map SetMember.toStr) ≠ [] := by
    intro m M e
    obtain ⟨r, h1, -⟩ := joinSemi_map_cons m M
    rw [h1] at e
    cases m <;> simp [SetMember.toStr] at e
  induction L generalizing L' with
  | nil =>
    cases L' with
    | nil => rfl
    | cons m M => exact absurd h.symm (hne m M)
  | cons m L ih =>
    cases L' with
    | nil => exact absurd h (hne m L)
    | cons m' L' =>
      obtain ⟨r, h1, h2, h3, h4⟩ := joinSemi_map_cons m L
      obtain ⟨r', h1', h2', h3', h4'⟩ := joinSemi_map_cons m' L'
      rw [h1, h1'] at h
      obtain ⟨rfl, rfl⟩ := joinSemi_cons_inj h2 h2' h
      by_cases hL : L = []
      · by_cases hL' : L' = []
        · rw [hL, hL']
        · have := h3 hL; rw [h4' hL'] at this; cases this
      · by_cases hL' : L' = []
        · have := h3' hL'; rw [h4 hL] at this; cases this
        · have e := h4 hL
          rw [h4' hL'] at e
          rw [ih (List.cons.inj e).2.symm]

/-! ### the other texts -/

/-- **C70.** Texts of set members, node ids and tree errors determine them. -/
theorem C70_display_injective :
    (∀ m m' : SetMember, m.display = m'.display → m = m') ∧ (∀ m m' : SetMember, m.toStr = m'.toStr → m = m') ∧
    (∀ m m' : SetMemberE, m.display = m'.display → m = m') ∧ (∀ m m' : SetMemberE, m.toStr = m'.toStr → m = m') ∧
    (∀ i i' : NodeId, i.display = i'.display → i = i') ∧ (∀ e e' : TErr, e.display = e'.display → e = e') := by
  have hid : ∀ (i i' : NodeId) (r r' : Str), (∀ c t, r = c :: t → ¬ IsDigit c) → (∀ c t, r' = c :: t → ¬ IsDigit c) →
      i.display ++ r = i'.display ++ r' → i = i' ∧ r = r' := by
    intro i i' r r' hr hr' h
    simp only [NodeId.display, List.append_assoc, List.append_cancel_left_eq] at h
    obtain ⟨h1, h⟩ := showNat_append (notDigit_cons (by decide)) (notDigit_cons (by decide)) h
    have h' : c% ", pk:" ++ (showNat i.pk ++ r) = c% ", pk:" ++ (showNat i'.pk ++ r') := h
    obtain ⟨h2, h3⟩ := showNat_append hr hr' (List.append_cancel_left h')
    cases i; cases i'
    simp only at h1 h2
    exact ⟨by rw [h1, h2], h3⟩
  have hhead : ∀ (i : NodeId) (r : Str) (n : Nat) (r' : Str), i.display ++ r = showNat n ++ r' → False := by
    intro i r n r' h
    obtain ⟨c, t, h1, h2⟩ := showNat_cons n
    rw [h1] at h
    simp only [NodeId.display, List.cons_append, List.cons.injEq] at h
    rw [← h.1] at h2
    exact absurd h2 (by decide)
  refine ⟨?_, ?_, ?_, ?_, ?_, ?_⟩
  · intro m m' h; cases m <;> cases m' <;> simp [SetMember.display] at h ⊢; exact h
  · intro m m' h; cases m <;> cases m' <;> simp [SetMember.toStr] at h ⊢; exact h
  · intro m m' h; cases m <;> cases m' <;> simp [SetMemberE.display] at h ⊢; exact h
  · intro m m' h; cases m <;> cases m' <;> simp [SetMemberE.toStr] at h ⊢; exact h
  · intro i i' h
    exact (hid i i' [] [] notDigit_nil notDigit_nil (by simpa using h)).1
  · intro e e' h
    cases e with
    | nodeDoesNotExist i =>
      cases e' with
      | nodeDoesNotExist i' => rw [(hid i i' _ _ (notDigit_cons (by decide)) (notDigit_cons (by decide)) h).1]
      | nodeWasRemoved i' => exact absurd (hid i i' _ _ (notDigit_cons (by decide)) (notDigit_cons (by decide)) h).2 (by decide)
      | childDoesNotExist n => exact (hhead _ _ _ _ h).elim
    | nodeWasRemoved i =>
      cases e' with
      | nodeDoesNotExist i' => exact absurd (hid i i' _ _ (notDigit_cons (by decide)) (notDigit_cons (by decide)) h).2 (by decide)
      | nodeWasRemoved i' => rw [(hid i i' _ _ (notDigit_cons (by decide)) (notDigit_cons (by decide)) h).1]
      | childDoesNotExist n => exact (hhead _ _ _ _ h).elim
    | childDoesNotExist n =>
      cases e' with
      | nodeDoesNotExist i' => exact (hhead _ _ _ _ h.symm).elim
      | nodeWasRemoved i' => exact (hhead _ _ _ _ h.symm).elim
      | childDoesNotExist n' => rw [(showNat_append (notDigit_cons (by decide)) (notDigit_cons (by decide)) h).1]

/-- A grammar error without what its text does not show. -/
def GErr.visible : GErr → GErr
  | .steuerSetsNotDistinct _ _ _ => .steuerSetsNotDistinct [] 'x' 0
  | .graphNodeAlreadyExists _ => .graphNodeAlreadyExists 0
  | .graphNodeDoesNotExist _ => .graphNodeDoesNotExist 0
  | .graphIndexOutOfBounds _ => .graphIndexOutOfBounds 0
  | e => e

/-- The index messages. -/
theorem indexText {i j : Nat} {a b : Str} (h : c% " \"" ++ (showNat i ++ '"' :: a) = c% " \"" ++ (showNat j ++ '"' :: b)) :
    i = j ∧ a = b := by
  obtain ⟨h1, h2⟩ := showNat_append (notDigit_cons (by decide)) (notDigit_cons (by decide)) (List.append_cancel_left h)
  exact ⟨h1, (List.cons.inj h2).2⟩

theorem indexText_ne {i : Nat} {a b : Str} {x : Char} (hx : ¬ IsDigit x)
    (h : c% " \"" ++ (showNat i ++ a) = c% " \"" ++ (x :: b)) : False := by
  obtain ⟨c, t, h1, h2⟩ := showNat_cons i
  rw [h1] at h
  have := List.append_cancel_left h
  simp only [List.cons_append, List.cons.injEq] at this
  rw [this.1] at h2
  exact hx h2

theorem elementReason_head (b : Bool) : ∃ x t, elementReason b = x :: t ∧ ¬ IsDigit x := by
  cases b
  · exact ⟨_, _, rfl, by decide⟩
  · exact ⟨_, _, rfl, by decide⟩

theorem reasonText_ne {i pos : Nat} {a : Str} {b : Bool}
    (h : c% " \"" ++ (showNat i ++ a) = GErr.display (.unexpectedElement b pos)) : False := by
  obtain ⟨x, t, h1, h2⟩ := elementReason_head b
  simp only [GErr.display, h1] at h
  exact indexText_ne h2 h

/-- **C70.** The text of a grammar error determines its kind and the index or position it mentions; only the details
of `SteuerSetsNotDistinct` and of the graph errors are not shown. -/
theorem C70_grammar_error_text (e e' : GErr) : e.display = e'.display ↔ e.visible = e'.visible := by
  constructor
  · intro h
    cases e with
    | missingFollowSet i =>
      cases e' with
      | missingFollowSet j => rw [(indexText h).1]
      | missingElementForIndex j => exact absurd (indexText h).2 (by decide)
      | missingFirstSet j => exact absurd (indexText h).2 (by decide)
      | missingSteuerSet j => exact absurd (indexText h).2 (by decide)
      | missingProduction j => exact absurd (indexText h).2 (by decide)
      | unexpectedElement b pos => exact (reasonText_ne h).elim
      | _ => simp [GErr.display] at h
    | missingElementForIndex i =>
      cases e' with
      | missingElementForIndex j => rw [(indexText h).1]
      | missingFollowSet j => exact absurd (indexText h).2 (by decide)
      | missingFirstSet j => exact absurd (indexText h).2 (by decide)
      | missingSteuerSet j => exact absurd (indexText h).2 (by decide)
      | missingProduction j => exact absurd (indexText h).2 (by decide)
      | unexpectedElement b pos => exact (reasonText_ne h).elim
      | _ => simp [GErr.display] at h
    | missingFirstSet i =>
      cases e' with
      | missingFirstSet j => rw [(indexText h).1]
      | missingElementForIndex j => exact absurd (indexText h).2 (by decide)
      | missingFollowSet j => exact absurd (indexText h).2 (by decide)
      | missingSteuerSet j => exact absurd (indexText h).2 (by decide)
      | missingProduction j => exact absurd (indexText h).2 (by decide)
      | unexpectedElement b pos => exact (reasonText_ne h).elim
      | _ => simp [GErr.display] at h
    | missingSteuerSet i =>
      cases e' with
      | missingSteuerSet j => rw [(indexText h).1]
      | missingElementForIndex j => exact absurd (indexText h).2 (by decide)
      | missingFirstSet j => exact absurd (indexText h).2 (by decide)
      | missingFollowSet j => exact absurd (indexText h).2 (by decide)
      | missingProduction j => exact absurd (indexText h).2 (by decide)
      | unexpectedElement b pos => exact (reasonText_ne h).elim
      | _ => simp [GErr.display] at h
    | missingProduction i =>
      cases e' with
      | missingProduction j => rw [(indexText h).1]
      | missingElementForIndex j => exact absurd (indexText h).2 (by decide)
      | missingFirstSet j => exact absurd (indexText h).2 (by decide)
      | missingSteuerSet j => exact absurd (indexText h).2 (by decide)
      | missingFollowSet j => exact absurd (indexText h).2 (by decide)
      | unexpectedElement b pos => exact (reasonText_ne h).elim
      | _ => simp [GErr.display] at h
    | unexpectedElement b pos =>
      cases e' with
      | unexpectedElement b' pos' =>
        have key : ∀ p q : Nat, showNat p ++ c% " was not expected" = showNat q ++ c% " was not expected" → p = q :=
          fun p q h => (showNat_append (notDigit_cons (by decide)) (notDigit_cons (by decide)) h).1
        cases b <;> cases b'
        · simp only [GErr.display, List.append_cancel_left_eq] at h
          rw [key _ _ h]
        · simp [GErr.display, elementReason] at h
        · simp [GErr.display, elementReason] at h
        · simp only [GErr.display, List.append_cancel_left_eq] at h
          rw [key _ _ h]
      | missingFollowSet j => exact (reasonText_ne h.symm).elim
      | missingElementForIndex j => exact (reasonText_ne h.symm).elim
      | missingFirstSet j => exact (reasonText_ne h.symm).elim
      | missingSteuerSet j => exact (reasonText_ne h.symm).elim
      | missingProduction j => exact (reasonText_ne h.symm).elim
      | _ => simp [GErr.display] at h
    | steuerSetsNotDistinct a b c => cases e' <;> first | rfl | (simp [GErr.display] at h)
    | graphNodeAlreadyExists a => cases e' <;> first | rfl | (simp [GErr.display] at h)
    | graphNodeDoesNotExist a => cases e' <;> first | rfl | (simp [GErr.display] at h)
    | graphIndexOutOfBounds a => cases e' <;> first | rfl | (simp [GErr.display] at h)
  · intro h
    have hd : ∀ e : GErr, e.visible.display = e.display := by intro e; cases e <;> rfl
    rw [← hd e, ← hd e', h]

/-- A numeral at the end of a text after a blank can be read back. -/
theorem showNat_suffix {a b : Str} {n m : Nat} (h : a ++ ' ' :: showNat n = b ++ ' ' :: showNat m) : a = b ∧ n = m := by
  have h' := congrArg List.reverse h
  simp only [List.reverse_append, List.reverse_cons, List.append_assoc, List.cons_append, List.nil_append] at h'
  have hd : ∀ n, ∀ c ∈ (showNat n).reverse, IsDigit c := by
    intro n c hc
    rw [C70_numbers_in_decimal] at hc
    exact (numeral_spec n).2.1 c (List.mem_reverse.1 hc)
  obtain ⟨h1, h2⟩ := digits_unique (hd n) (hd m) (notDigit_cons (by decide)) (notDigit_cons (by decide)) h'
  have h3 := List.reverse_injective h1
  rw [C70_numbers_in_decimal, C70_numbers_in_decimal] at h3
  exact ⟨List.reverse_injective (List.cons.inj h2).2, numeral_injective h3⟩

/-- **C70.** The text of an unknown-operation error shows the operation and the position: both can be read back, whatever
characters the operation contains. -/
theorem C70_operation_text {op op' : Str} {pos pos' : Nat}
    (h : PErr.display (.unknownSpecialOperation op pos) = PErr.display (.unknownSpecialOperation op' pos')) :
    op = op' ∧ pos = pos' := by
  simp only [PErr.display, List.append_cancel_left_eq] at h
  have h1 : ((op ++ c% "\" at pos") ++ ' ' :: showNat pos) ++ c% " was not expected" =
      ((op' ++ c% "\" at pos") ++ ' ' :: showNat pos') ++ c% " was not expected" := by simpa using h
  obtain ⟨h2, h3⟩ := showNat_suffix (List.append_cancel_right h1)
  exact ⟨List.append_cancel_right h2, h3⟩

/-- **C70**, on concrete errors: the message for the script `ab;` of the list grammar, and two grammar errors. -/
example : Samples.errOf (Parser.parse .insertion 9 nullVm Samples.listParser (c% "ab;") 0) =
      some (.unexpectedChar ';' 2 (c% ",;terminate")) ∧
    PErr.display (.unexpectedChar ';' 2 (c% ",;terminate")) =
      c% " \";\" at pos 2 was not expected. Expected ,;terminate" ∧
    GErr.display (.missingProduction 12) = c% " \"12\" not in productions" := by
  refine ⟨by decide +kernel, by decide +kernel, by decide +kernel⟩

end HPP
