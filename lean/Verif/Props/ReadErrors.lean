import Verif.Props.Text
/-
C05, C07: which errors the readers of numbers and of quoted texts report, and where.
-/
namespace HPP
open Spec

/-- **C05**, the errors of `parse_usize`: at the end of the text the error is `EndOfChars` with the position; at a character
that is no digit it is `UnexpectedChar` with this character and its position; a run of digits that denotes a number of more
than 64 bits is reported as `Impossible` (and has been consumed). -/
theorem C05_usize_errors (k : Nat) :
    parseUsize (Proc.at [] k) = (.err (.endOfChars k), Proc.at [] k) ∧
    (∀ c w, ¬ IsDigit c →
      parseUsize (Proc.at (c :: w) k) = (.err (.unexpectedChar c k (c% "digit expected")), Proc.at (c :: w) k)) ∧
    (∀ w pre post, MaximalPrefix IsDigit w pre post → 2 ^ 64 ≤ decimalValue pre →
      parseUsize (Proc.at w k) = (.err .impossible, Proc.at post (k + pre.length))) := by
  refine ⟨rfl, ?_, ?_⟩
  · intro c w hc
    have hc' : CharClass.isAsciiDigit c = false := by rw [← isAsciiDigit_iff] at hc; simpa using hc
    have hpk := plainReader.peek (c :: w) k trivial
    simp only [parseUsize, parseRequiredDigits, hpk, List.head?_cons, hc']
    simp [plainReader.pos]
  · intro w pre post h hlt
    have hne : pre ≠ [] := by
      rintro rfl
      simp [decimalValue] at hlt
    obtain ⟨h1, h2⟩ := h.takeWhile isAsciiDigit_iff
    have hr := plainReader.requiredDigits (w := w) trivial k
    rw [h1, h2] at hr
    cases pre with
    | nil => exact absurd rfl hne
    | cons c pre =>
      have : w = c :: (pre ++ post) := h.split
      subst this
      have hc := (isAsciiDigit_iff c).2 (h.all c (by simp))
      have hq : Reader.reqDigits (c :: (pre ++ post)) k = .ok (c :: pre) := by
        rw [← h1]; simp only [Reader.reqDigits, hc, if_true]
      rw [hq] at hr
      simp only [parseUsize, hr, strToUsize_digits hne h.all, if_neg (Nat.not_lt.2 hlt)]
      rfl

/-- **C05**, the errors of `parse_isize`: as for `parse_usize`; a minus sign is consumed before what follows it is looked at,
so an error behind it carries the position behind the sign. -/
theorem C05_isize_errors (k : Nat) :
    parseIsize (Proc.at [] k) = (.err (.endOfChars k), Proc.at [] k) ∧
    (∀ c w, ¬ IsDigit c → c ≠ '-' →
      parseIsize (Proc.at (c :: w) k) = (.err (.unexpectedChar c k (c% "digit or - expected")), Proc.at (c :: w) k)) ∧
    parseIsize (Proc.at ['-'] k) = (.err (.endOfChars (k + 1)), Proc.at [] (k + 1)) ∧
    (∀ c w, ¬ IsDigit c →
      parseIsize (Proc.at ('-' :: c :: w) k) =
        (.err (.unexpectedChar c (k + 1) (c% "digit expected")), Proc.at (c :: w) (k + 1))) ∧
    (∀ w pre post, MaximalPrefix IsDigit w pre post → 2 ^ 63 ≤ decimalValue pre →
      parseIsize (Proc.at w k) = (.err .impossible, Proc.at post (k + pre.length))) ∧
    (∀ w pre post, MaximalPrefix IsDigit w pre post → 2 ^ 63 < decimalValue pre →
      parseIsize (Proc.at ('-' :: w) k) = (.err .impossible, Proc.at post (k + 1 + pre.length))) := by
  have hminus : ∀ w k, parseIsize (Proc.at ('-' :: w) k) = (match parseRequiredDigits (Proc.at w (k + 1)) with
      | (.ok s, p3) => (Res.ofOption (strToIsize ('-' :: s)) .impossible, p3)
      | (.err e, p3) => (.err e, p3)
      | (.panic, p3) => (.panic, p3)
      | (.timeout, p3) => (.timeout, p3)) := by
    intro w k
    have hpk := plainReader.peek ('-' :: w) k trivial
    have hnx := plainReader.next '-' w k trivial
    simp only [parseIsize, hpk, List.head?_cons, hnx]
    simp only [ne_eq, not_true_eq_false, false_and, if_false, if_true, List.cons_append, List.nil_append]
    rcases parseRequiredDigits (Proc.at w (k + 1)) with ⟨r, c⟩
    cases r <;> rfl
  have hdig : ∀ w pre post k, MaximalPrefix IsDigit w pre post → pre ≠ [] →
      parseRequiredDigits (Proc.at w k) = (.ok pre, Proc.at post (k + pre.length)) := by
    intro w pre post k h hne
    obtain ⟨h1, h2⟩ := h.takeWhile isAsciiDigit_iff
    have hr := plainReader.requiredDigits (w := w) trivial k
    rw [h1, h2] at hr
    cases pre with
    | nil => exact absurd rfl hne
    | cons c pre =>
      have : w = c :: (pre ++ post) := h.split
      subst this
      have hc := (isAsciiDigit_iff c).2 (h.all c (by simp))
      have hq : Reader.reqDigits (c :: (pre ++ post)) k = .ok (c :: pre) := by
        rw [← h1]; simp only [Reader.reqDigits, hc, if_true]
      rw [hq] at hr
      exact hr
  have hpos : ∀ pre : Str, 2 ^ 63 ≤ decimalValue pre → pre ≠ [] := by
    rintro pre h rfl
    simp [decimalValue] at h
  refine ⟨rfl, ?_, ?_, ?_, ?_, ?_⟩
  · intro c w hc hm
    have hc' : CharClass.isAsciiDigit c = false := by rw [← isAsciiDigit_iff] at hc; simpa using hc
    have hpk := plainReader.peek (c :: w) k trivial
    simp only [parseIsize, hpk, List.head?_cons]
    rw [if_pos ⟨hm, hc'⟩]
    simp [plainReader.pos]
  · rw [hminus]; rfl
  · intro c w hc
    have hc' : CharClass.isAsciiDigit c = false := by rw [← isAsciiDigit_iff] at hc; simpa using hc
    have hpk := plainReader.peek (c :: w) (k + 1) trivial
    rw [hminus]
    simp only [parseRequiredDigits, hpk, List.head?_cons, hc']
    simp [plainReader.pos]
  · intro w pre post h hlt
    have hne := hpos pre hlt
    have hq := hdig w pre post k h hne
    have hpk := plainReader.peek w k trivial
    cases pre with
    | nil => exact absurd rfl hne
    | cons c pre =>
      have : w = c :: (pre ++ post) := h.split
      subst this
      have hc := (isAsciiDigit_iff c).2 (h.all c (by simp))
      have hm : c ≠ '-' := by rintro rfl; revert hc; decide
      have : parseIsize (Proc.at (c :: (pre ++ post)) k) =
          (Res.ofOption (strToIsize (c :: pre)) .impossible, Proc.at post (k + (c :: pre).length)) := by
        simp only [parseIsize, hpk, List.head?_cons, hm, hc]
        simp [hq]
      rw [this, strToIsize_digits hne h.all, if_neg (Nat.not_lt.2 hlt)]
      rfl
  · intro w pre post h hlt
    have hne := hpos pre (Nat.le_of_lt hlt)
    rw [hminus, hdig w pre post (k + 1) h hne]
    simp only [strToIsize_neg hne h.all, if_neg (Nat.not_le.2 hlt)]
    rfl

/-- **C07**, no opening quote: the error says what stands there and where, and nothing is consumed. -/
theorem C07_quoted_errors (k : Nat) :
    parseQuoted (Proc.at [] k) = (.err (.endOfChars k), Proc.at [] k) ∧
    ∀ c w, c ≠ '"' → parseQuoted (Proc.at (c :: w) k) = (.err (.unexpectedChar c k ['"']), Proc.at (c :: w) k) := by
  refine ⟨?_, fun c w hc => ?_⟩
  · unfold parseQuoted
    rw [plainReader.symbol_end trivial k]
  · unfold parseQuoted
    rw [plainReader.symbol_err trivial k hc]

/-- **C06**, the message of an identifier that does not begin with a letter. -/
theorem C06_var_name_error (cc : CharClass) (k : Nat) (c : Char) (w : Str) (hc : ¬ cc.isAlphabetic c = true) :
    parseVarName cc (Proc.at (c :: w) k) =
      (.err (.unexpectedChar c k (c% "alphabetic character")), Proc.at (c :: w) k) :=
  plainReader.varName_err cc trivial k (by simpa using hc)

/-! Cases: texts of each kind. -/
example : (parseUsize (Proc.at (c% "18446744073709551616;") 3)).1 = .err .impossible := by
  rw [(C05_usize_errors 3).2.2 (c% "18446744073709551616;") (c% "18446744073709551616") (c% ";")
    ⟨rfl, by decide, by intro c r h; cases h; decide⟩ (by decide +kernel)]
example : (parseIsize (Proc.at (c% "-x") 3)).1 = .err (.unexpectedChar 'x' 4 (c% "digit expected")) := by
  rw [(C05_isize_errors 3).2.2.2.1 'x' [] (by decide)]
example : (parseIsize (Proc.at (c% "9223372036854775808") 0)).1 = .err .impossible := by
  rw [(C05_isize_errors 0).2.2.2.2.1 (c% "9223372036854775808") (c% "9223372036854775808") []
    ⟨rfl, by decide, by intro c r h; cases h⟩ (by decide +kernel)]

end HPP
