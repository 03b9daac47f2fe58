import Verif.Model.ParseFuncs
/-
Processes that read a text without surprises: `st w k` is the process with unread text `w` at position `k`.
Covers the plain rule and script processes and instruction sections without escapes.
-/
namespace HPP

/-- `st w k` behaves like a plain reader for all texts satisfying `P`. -/
structure Reader {σ : Type} [TPeekable σ] (P : Str → Prop) (st : Str → Nat → PP σ) : Prop where
  tail : ∀ c w, P (c :: w) → P w
  pos : ∀ w k, (st w k).curPos = k
  peek : ∀ w k, P w → (st w k).peek = (w.head?, st w k)
  next : ∀ c w k, P (c :: w) → (st (c :: w) k).next = (some c, st w (k + 1))
  len : ∀ w k, P w → w.length ≤ (st w k).rest.length

namespace Reader
variable {σ : Type} [TPeekable σ] {P : Str → Prop} {st : Str → Nat → PP σ}

theorem suffix (R : Reader P st) : ∀ (u w : Str), P (u ++ w) → P w
  | [], _, h => h
  | c :: u, w, h => R.suffix u w (R.tail c _ h)

theorem drop (R : Reader P st) {w : Str} (h : P w) (n : Nat) : P (w.drop n) := by
  have : w.take n ++ w.drop n = w := List.take_append_drop n w
  exact R.suffix (w.take n) _ (by rw [this]; exact h)

theorem dropWhile (R : Reader P st) {w : Str} (h : P w) (f : Char → Bool) : P (w.dropWhile f) := by
  have : w.takeWhile f ++ w.dropWhile f = w := List.takeWhile_append_dropWhile
  exact R.suffix (w.takeWhile f) _ (by rw [this]; exact h)

theorem whitespaceLoop (R : Reader P st) : ∀ (w : Str) (fuel k : Nat), P w → w.length < fuel →
    parseWhitespaceLoop fuel (st w k) =
      st (w.dropWhile CharClass.isWhitespace) (k + (w.takeWhile CharClass.isWhitespace).length)
  | _, 0, _, _, hf => by omega
  | [], fuel + 1, k, hP, _ => by
    simp [parseWhitespaceLoop, R.peek [] k hP]
  | c :: w, fuel + 1, k, hP, hf => by
    simp only [parseWhitespaceLoop, R.peek (c :: w) k hP, List.head?_cons]
    by_cases hc : CharClass.isWhitespace c = true
    · simp only [hc, Bool.not_true, Bool.false_eq_true, if_false, R.next c w k hP]
      rw [whitespaceLoop R w fuel (k + 1) (R.tail c w hP) (by simpa using hf)]
      simp only [List.dropWhile_cons, hc, if_true, List.takeWhile_cons, List.length_cons]
      congr 1
      omega
    · simp [hc]

theorem whitespace (R : Reader P st) {w : Str} (hP : P w) (k : Nat) :
    parseWhitespace (st w k) =
      st (w.dropWhile CharClass.isWhitespace) (k + (w.takeWhile CharClass.isWhitespace).length) :=
  R.whitespaceLoop w _ k hP (by have := R.len w k hP; omega)

theorem symbol_ok (R : Reader P st) {c : Char} {w : Str} (hP : P (c :: w)) (k : Nat) :
    parseSymbol c (st (c :: w) k) = (.ok (), st w (k + 1)) := by
  simp [parseSymbol, R.peek (c :: w) k hP, R.next c w k hP]

theorem symbol_err (R : Reader P st) {c d : Char} {w : Str} (hP : P (d :: w)) (k : Nat) (h : d ≠ c) :
    parseSymbol c (st (d :: w) k) = (.err (.unexpectedChar d k [c]), st (d :: w) k) := by
  simp [parseSymbol, R.peek (d :: w) k hP, h, R.pos]

theorem symbol_end (R : Reader P st) {c : Char} (hP : P []) (k : Nat) :
    parseSymbol c (st [] k) = (.err (.endOfChars k), st [] k) := by
  simp [parseSymbol, R.peek [] k hP, R.pos]

theorem digitsLoop (R : Reader P st) : ∀ (w : Str) (fuel : Nat) (acc : Str) (k : Nat), P w → w.length < fuel →
    parseDigitsLoop fuel acc (st w k) = (.ok (acc ++ w.takeWhile CharClass.isAsciiDigit),
      st (w.dropWhile CharClass.isAsciiDigit) (k + (w.takeWhile CharClass.isAsciiDigit).length))
  | _, 0, _, _, _, hf => by omega
  | [], fuel + 1, acc, k, hP, _ => by
    simp [parseDigitsLoop, R.peek [] k hP]
  | c :: w, fuel + 1, acc, k, hP, hf => by
    simp only [parseDigitsLoop, R.peek (c :: w) k hP, List.head?_cons]
    by_cases hc : CharClass.isAsciiDigit c = true
    · simp only [hc, Bool.not_true, Bool.false_eq_true, if_false, R.next c w k hP]
      rw [digitsLoop R w fuel _ (k + 1) (R.tail c w hP) (by simpa using hf)]
      simp only [List.dropWhile_cons, hc, if_true, List.takeWhile_cons, List.length_cons, List.append_assoc,
        List.singleton_append]
      rw [Nat.add_assoc, Nat.add_comm 1]
    · simp [hc]

theorem digits (R : Reader P st) {w : Str} (hP : P w) (k : Nat) :
    parseDigits (st w k) = (.ok (w.takeWhile CharClass.isAsciiDigit),
      st (w.dropWhile CharClass.isAsciiDigit) (k + (w.takeWhile CharClass.isAsciiDigit).length)) := by
  have := R.digitsLoop w ((st w k).rest.length + 1) [] k hP (by have := R.len w k hP; omega)
  simpa [parseDigits] using this

/-- What `parse_required_digits` returns. -/
def reqDigits (w : Str) (k : Nat) : Res PErr Str :=
  match w with
  | [] => .err (.endOfChars k)
  | c :: _ =>
    if CharClass.isAsciiDigit c = true then .ok (w.takeWhile CharClass.isAsciiDigit)
    else .err (.unexpectedChar c k (c% "digit expected"))

theorem requiredDigits (R : Reader P st) {w : Str} (hP : P w) (k : Nat) :
    parseRequiredDigits (st w k) = (reqDigits w k,
      st (w.dropWhile CharClass.isAsciiDigit) (k + (w.takeWhile CharClass.isAsciiDigit).length)) := by
  cases w with
  | nil => simp [parseRequiredDigits, R.peek [] k hP, R.pos, reqDigits]
  | cons c w =>
    simp only [parseRequiredDigits, R.peek (c :: w) k hP, List.head?_cons, R.pos, reqDigits]
    by_cases hc : CharClass.isAsciiDigit c = true
    · simp only [hc, Bool.not_true, Bool.false_eq_true, if_false, R.digits hP, if_true]
    · simp [hc]

theorem varNameLoop (R : Reader P st) (cc : CharClass) : ∀ (w : Str) (fuel : Nat) (acc : Str) (k : Nat), P w →
    w.length < fuel →
    parseVarNameLoop cc fuel acc (st w k) = (.ok (acc ++ w.takeWhile (fun x => cc.isAlphanumeric x || x == '_')),
      st (w.dropWhile (fun x => cc.isAlphanumeric x || x == '_'))
        (k + (w.takeWhile (fun x => cc.isAlphanumeric x || x == '_')).length))
  | _, 0, _, _, _, hf => by omega
  | [], fuel + 1, acc, k, hP, _ => by
    simp [parseVarNameLoop, R.peek [] k hP]
  | c :: w, fuel + 1, acc, k, hP, hf => by
    simp only [parseVarNameLoop, R.peek (c :: w) k hP, List.head?_cons]
    by_cases hc : (cc.isAlphanumeric c || c == '_') = true
    · simp only [hc, Bool.not_true, Bool.false_eq_true, if_false, R.next c w k hP]
      rw [varNameLoop R cc w fuel _ (k + 1) (R.tail c w hP) (by simpa using hf)]
      simp only [List.dropWhile_cons, hc, if_true, List.takeWhile_cons, List.length_cons, List.append_assoc,
        List.singleton_append]
      rw [Nat.add_assoc, Nat.add_comm 1]
    · simp only [hc, Bool.not_false, if_true, List.dropWhile_cons, List.takeWhile_cons]
      simp

/-- `parse_var_name` on an identifier. -/
theorem varName_ok (R : Reader P st) (cc : CharClass) {c : Char} {w : Str} (hP : P (c :: w)) (k : Nat)
    (hc : cc.isAlphabetic c = true) :
    parseVarName cc (st (c :: w) k) = (.ok (c :: w.takeWhile (fun x => cc.isAlphanumeric x || x == '_')),
      st (w.dropWhile (fun x => cc.isAlphanumeric x || x == '_'))
        (k + 1 + (w.takeWhile (fun x => cc.isAlphanumeric x || x == '_')).length)) := by
  have hl := R.varNameLoop cc w ((st w (k + 1)).rest.length + 1) [c] (k + 1) (R.tail c w hP)
    (by have := R.len w (k + 1) (R.tail c w hP); omega)
  simp only [parseVarName, R.peek (c :: w) k hP, List.head?_cons, hc, Bool.not_true, Bool.false_eq_true, if_false,
    R.next c w k hP, hl, List.singleton_append]

theorem varName_err (R : Reader P st) (cc : CharClass) {c : Char} {w : Str} (hP : P (c :: w)) (k : Nat)
    (hc : cc.isAlphabetic c = false) :
    parseVarName cc (st (c :: w) k) = (.err (.unexpectedChar c k (c% "alphabetic character")), st (c :: w) k) := by
  simp only [parseVarName, R.peek (c :: w) k hP, List.head?_cons, hc, Bool.not_false, if_true, R.pos]

theorem varName_end (R : Reader P st) (cc : CharClass) (hP : P []) (k : Nat) :
    parseVarName cc (st [] k) = (.err (.endOfChars k), st [] k) := by
  simp only [parseVarName, R.peek [] k hP, List.head?_nil, R.pos]

end Reader

/-- The plain process over a text. -/
def Proc.at (w : Str) (k : Nat) : Proc := ⟨⟨w⟩, k, none, none, false⟩

theorem plainReader : Reader (fun _ => True) Proc.at where
  tail := fun _ _ _ => trivial
  pos := fun _ _ => rfl
  peek := by intro w k _; cases w <;> rfl
  next := fun _ _ _ _ => rfl
  len := fun w k _ => Nat.le_refl _

end HPP
