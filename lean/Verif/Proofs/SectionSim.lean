import Verif.Proofs.RuleSound
import Verif.Spec.StackText
/-
Reading an instruction section up to its first `}`; escape characters are never consumed by the lexical helpers.
-/
namespace HPP
open Spec

/-- `R w k p`: the process `p` has the unread section text `w` and is at position `k`. -/
structure RReader {σ : Type} [TPeekable σ] (R : Str → Nat → PP σ → Prop) : Prop where
  pos : ∀ {w k p}, R w k p → p.curPos = k
  peek : ∀ {w k p}, R w k p → ∃ p', p.peek = (w.head?, p') ∧ R w k p'
  next : ∀ {c w k p}, R (c :: w) k p → c ≠ '\\' → ∃ p', p.next = (some c, p') ∧ R w (k + 1) p'
  len : ∀ {w k p}, R w k p → w.length ≤ p.rest.length

namespace RReader
variable {σ : Type} [TPeekable σ] {R : Str → Nat → PP σ → Prop}

theorem whitespaceLoop (H : RReader R) : ∀ (w : Str) (fuel k : Nat) (p : PP σ), R w k p → w.length < fuel →
    R (w.dropWhile CharClass.isWhitespace) (k + (w.takeWhile CharClass.isWhitespace).length) (parseWhitespaceLoop fuel p)
  | _, 0, _, _, _, hf => by omega
  | [], fuel + 1, k, p, hP, _ => by
    obtain ⟨p1, h1, h2⟩ := H.peek hP
    simp only [parseWhitespaceLoop, h1, List.head?_nil]
    exact h2
  | c :: w, fuel + 1, k, p, hP, hf => by
    obtain ⟨p1, h1, h2⟩ := H.peek hP
    simp only [parseWhitespaceLoop, h1, List.head?_cons]
    by_cases hc : CharClass.isWhitespace c = true
    · have hne : c ≠ '\\' := by rintro rfl; exact absurd hc (by decide)
      obtain ⟨p2, h3, h4⟩ := H.next h2 hne
      simp only [hc, Bool.not_true, Bool.false_eq_true, if_false, h3]
      have := whitespaceLoop H w fuel (k + 1) p2 h4 (by simpa using hf)
      simp only [List.dropWhile_cons, hc, if_true, List.takeWhile_cons, List.length_cons]
      rw [show k + ((List.takeWhile CharClass.isWhitespace w).length + 1) = k + 1 + (List.takeWhile CharClass.isWhitespace w).length by omega]
      exact this
    · have hc' : CharClass.isWhitespace c = false := by simpa using hc
      simp only [hc', Bool.not_false, if_true, List.dropWhile_cons, List.takeWhile_cons]
      exact h2

theorem whitespace (H : RReader R) {w : Str} {k : Nat} {p : PP σ} (h : R w k p) :
    R (w.dropWhile CharClass.isWhitespace) (k + (w.takeWhile CharClass.isWhitespace).length) (parseWhitespace p) :=
  H.whitespaceLoop w _ k p h (by have := H.len h; omega)

theorem symbol_ok (H : RReader R) {c : Char} (hc : c ≠ '\\') {w : Str} {k : Nat} {p : PP σ} (h : R (c :: w) k p) :
    ∃ p', parseSymbol c p = (.ok (), p') ∧ R w (k + 1) p' := by
  obtain ⟨p1, h1, h2⟩ := H.peek h
  obtain ⟨p2, h3, h4⟩ := H.next h2 hc
  exact ⟨p2, by simp [parseSymbol, h1, h3], h4⟩

theorem symbol_err (H : RReader R) {c : Char} {w : Str} {k : Nat} {p : PP σ} (h : R w k p) (hw : w.head? ≠ some c) :
    ∃ e p', parseSymbol c p = (.err e, p') ∧ R w k p' ∧ ErrAt w k e := by
  obtain ⟨p1, h1, h2⟩ := H.peek h
  cases w with
  | nil => exact ⟨.endOfChars k, p1, by simp [parseSymbol, h1, H.pos h2], h2, by simp [ErrAt]⟩
  | cons d w =>
    have : d ≠ c := fun hd => hw (by rw [hd]; rfl)
    exact ⟨.unexpectedChar d k [c], p1, by simp [parseSymbol, h1, H.pos h2, this], h2, by simp [ErrAt]⟩

theorem digitsLoop (H : RReader R) : ∀ (w : Str) (fuel : Nat) (acc : Str) (k : Nat) (p : PP σ), R w k p → w.length < fuel →
    ∃ p', parseDigitsLoop fuel acc p = (.ok (acc ++ w.takeWhile CharClass.isAsciiDigit), p') ∧
      R (w.dropWhile CharClass.isAsciiDigit) (k + (w.takeWhile CharClass.isAsciiDigit).length) p'
  | _, 0, _, _, _, _, hf => by omega
  | [], fuel + 1, acc, k, p, hP, _ => by
    obtain ⟨p1, h1, h2⟩ := H.peek hP
    exact ⟨p1, by simp [parseDigitsLoop, h1], h2⟩
  | c :: w, fuel + 1, acc, k, p, hP, hf => by
    obtain ⟨p1, h1, h2⟩ := H.peek hP
    simp only [parseDigitsLoop, h1, List.head?_cons]
    by_cases hc : CharClass.isAsciiDigit c = true
    · have hne : c ≠ '\\' := by rintro rfl; exact absurd hc (by decide)
      obtain ⟨p2, h3, h4⟩ := H.next h2 hne
      simp only [hc, Bool.not_true, Bool.false_eq_true, if_false, h3]
      obtain ⟨p3, h5, h6⟩ := digitsLoop H w fuel (acc ++ [c]) (k + 1) p2 h4 (by simpa using hf)
      refine ⟨p3, ?_, ?_⟩
      · rw [h5]
        simp only [hc, if_true, List.takeWhile_cons, List.append_assoc, List.singleton_append]
      · simp only [List.dropWhile_cons, hc, if_true, List.takeWhile_cons, List.length_cons]
        rw [show k + ((List.takeWhile CharClass.isAsciiDigit w).length + 1) = k + 1 + (List.takeWhile CharClass.isAsciiDigit w).length by omega]
        exact h6
    · have hc' : CharClass.isAsciiDigit c = false := by simpa using hc
      simp only [hc', Bool.not_false, if_true, List.dropWhile_cons, List.takeWhile_cons]
      exact ⟨p1, by simp, h2⟩

theorem requiredDigits (H : RReader R) {w : Str} {k : Nat} {p : PP σ} (h : R w k p) :
    ∃ p', parseRequiredDigits p = (Reader.reqDigits w k, p') ∧
      R (w.dropWhile CharClass.isAsciiDigit) (k + (w.takeWhile CharClass.isAsciiDigit).length) p' := by
  obtain ⟨p1, h1, h2⟩ := H.peek h
  cases w with
  | nil => exact ⟨p1, by simp [parseRequiredDigits, h1, H.pos h, Reader.reqDigits], h2⟩
  | cons c w =>
    simp only [parseRequiredDigits, h1, List.head?_cons, H.pos h2, Reader.reqDigits]
    by_cases hc : CharClass.isAsciiDigit c = true
    · obtain ⟨p3, h5, h6⟩ := H.digitsLoop (c :: w) (p1.rest.length + 1) [] k p1 h2 (by have := H.len h2; omega)
      refine ⟨p3, ?_, h6⟩
      simp only [hc, Bool.not_true, Bool.false_eq_true, if_false, if_true, parseDigits, h5]
      simp
    · have hc' : CharClass.isAsciiDigit c = false := by simpa using hc
      simp only [hc', Bool.not_false, if_true, List.dropWhile_cons, List.takeWhile_cons, Bool.false_eq_true, if_false]
      exact ⟨p1, rfl, h2⟩

theorem varNameLoop (H : RReader R) (cc : CharClass) : ∀ (w : Str) (fuel : Nat) (acc : Str) (k : Nat) (p : PP σ), R w k p →
    w.length < fuel →
    ∃ p', parseVarNameLoop cc fuel acc p = (.ok (acc ++ w.takeWhile (fun x => cc.isAlphanumeric x || x == '_')), p') ∧
      R (w.dropWhile (fun x => cc.isAlphanumeric x || x == '_')) (k + (w.takeWhile (fun x => cc.isAlphanumeric x || x == '_')).length) p'
  | _, 0, _, _, _, _, hf => by omega
  | [], fuel + 1, acc, k, p, hP, _ => by
    obtain ⟨p1, h1, h2⟩ := H.peek hP
    exact ⟨p1, by simp [parseVarNameLoop, h1], h2⟩
  | c :: w, fuel + 1, acc, k, p, hP, hf => by
    obtain ⟨p1, h1, h2⟩ := H.peek hP
    simp only [parseVarNameLoop, h1, List.head?_cons]
    by_cases hc : (cc.isAlphanumeric c || c == '_') = true
    · have hne : c ≠ '\\' := by
        rintro rfl
        revert hc
        simp [CharClass.isAlphanumeric, CharClass.isAlphabetic, CharClass.isNumeric, CharClass.isAsciiDigit]
      obtain ⟨p2, h3, h4⟩ := H.next h2 hne
      simp only [hc, Bool.not_true, Bool.false_eq_true, if_false, h3]
      obtain ⟨p3, h5, h6⟩ := varNameLoop H cc w fuel (acc ++ [c]) (k + 1) p2 h4 (by simpa using hf)
      refine ⟨p3, ?_, ?_⟩
      · rw [h5]
        simp only [hc, if_true, List.takeWhile_cons, List.append_assoc, List.singleton_append]
      · simp only [List.dropWhile_cons, hc, if_true, List.takeWhile_cons, List.length_cons]
        rw [show ∀ n, k + (n + 1) = k + 1 + n by intro n; omega]
        exact h6
    · have hc' : (cc.isAlphanumeric c || c == '_') = false := by simpa using hc
      simp only [hc', Bool.not_false, if_true, List.dropWhile_cons, List.takeWhile_cons]
      exact ⟨p1, by simp, h2⟩

theorem varName_ok (H : RReader R) (cc : CharClass) {n w : Str} {k : Nat} {p : PP σ} (h : R (n ++ w) k p) (hn : IsName cc n)
    (hw : NoNameAhead cc w) : ∃ p', parseVarName cc p = (.ok n, p') ∧ R w (k + n.length) p' := by
  obtain ⟨c, cs, rfl, hc, hcs⟩ := hn
  obtain ⟨p1, h1, h2⟩ := H.peek h
  have hne : c ≠ '\\' := by
    rintro rfl
    revert hc
    simp [CharClass.isAlphabetic]
  obtain ⟨p2, h3, h4⟩ := H.next h2 hne
  obtain ⟨p3, h5, h6⟩ := H.varNameLoop cc (cs ++ w) (p2.rest.length + 1) [c] (k + 1) p2 h4 (by
    have := H.len h4
    show (cs ++ w).length < _
    have e : ∀ (l : Str), l = cs ++ w → l.length ≤ p2.rest.length → (cs ++ w).length < p2.rest.length + 1 := by
      rintro l rfl h; omega
    exact e _ rfl this)
  obtain ⟨e1, e2⟩ := dropWhile_append_of (f := fun x => cc.isAlphanumeric x || x == '_') (g := cs) (w := w)
    (fun d hd => by rcases hcs d hd with h | h <;> simp [h]) hw
  rw [e1, e2] at h6
  rw [e2] at h5
  refine ⟨p3, ?_, ?_⟩
  · simp only [parseVarName, h1, List.cons_append, List.head?_cons, hc, Bool.not_true, Bool.false_eq_true, if_false, h3, h5]
    rfl
  · rw [List.length_cons, show k + (cs.length + 1) = k + 1 + cs.length by omega]; exact h6

theorem varName_cases (H : RReader R) (cc : CharClass) {w : Str} {k : Nat} {p : PP σ} (h : R w k p) :
    (∃ n w', w = n ++ w' ∧ IsName cc n ∧ NoNameAhead cc w' ∧ ∃ p', parseVarName cc p = (.ok n, p') ∧ R w' (k + n.length) p') ∨
    (∃ e p', parseVarName cc p = (.err e, p') ∧ R w k p' ∧ ErrAt w k e) := by
  rcases HPP.varName_cases cc w k with ⟨n, w', rfl, h1, h2, -⟩ | ⟨e, he⟩
  · exact .inl ⟨n, w', rfl, h1, h2, H.varName_ok cc h h1 h2⟩
  · right
    obtain ⟨p1, h1, h2⟩ := H.peek h
    cases w with
    | nil => exact ⟨.endOfChars k, p1, by simp [parseVarName, h1, H.pos h], h2, by simp [ErrAt]⟩
    | cons c w =>
      have hc : cc.isAlphabetic c = false := by
        cases hc : cc.isAlphabetic c with
        | false => rfl
        | true => rw [plainReader.varName_ok cc trivial k hc] at he; simp at he
      exact ⟨.unexpectedChar c k (c% "alphabetic character"), p1, by simp only [parseVarName, h1, List.head?_cons, hc, Bool.not_false, if_true, H.pos h2], h2, by simp [ErrAt]⟩

end RReader

/-! ### Section processes -/

/-- `p` was reached from `p0` by reading calls, its unread section text is `w`, followed by `tail`. -/
def SecAt (p0 : PP Proc) (tail : Str) (w : Str) (k : Nat) (p : PP Proc) : Prop :=
  '}' ∉ w ∧ (∃ e, p = ⟨Proc.at (w ++ tail) k, k, some '}', some '\\', e⟩ ∧ (e = true → w.head? = some '\\')) ∧
  ∃ ops, p = (runReads ops p0).2

theorem runReads_snoc {σ : Type} [TPeekable σ] (ops : List ReadOp) (op : ReadOp) (s : σ) :
    (runReads (ops ++ [op]) s).2 = (op.run (runReads ops s).2).2 := by
  induction ops generalizing s with
  | nil => rfl
  | cons o ops ih => exact ih _

theorem secReader (p0 : PP Proc) {tail : Str} (ht : tail = [] ∨ ∃ r, tail = '}' :: r) : RReader (SecAt p0 tail) where
  pos := by rintro w k p ⟨-, ⟨e, rfl, -⟩, -⟩; rfl
  len := by rintro w k p ⟨-, ⟨e, rfl, -⟩, -⟩; simp [PP.rest, TPeekable.rest, Proc.at]
  peek := by
    rintro w k p ⟨h1, ⟨e, hp, he⟩, ops, hops⟩
    have hpk : p.peek = (w.head?, p.peek.2) ∧ ∃ e', p.peek.2 = ⟨Proc.at (w ++ tail) k, k, some '}', some '\\', e'⟩ ∧
        (e' = true → w.head? = some '\\') := by
      subst hp
      cases w with
      | nil =>
        have : e = false := by cases e with
          | false => rfl
          | true => exact absurd (he rfl) (by simp)
        subst this
        rcases ht with rfl | ⟨r, rfl⟩
        · exact ⟨rfl, false, rfl, by simp⟩
        · exact ⟨rfl, false, rfl, by simp⟩
      | cons c w =>
        have hc : c ≠ '}' := fun hc => h1 (by simp [hc])
        by_cases hb : c = '\\'
        · subst hb
          exact ⟨rfl, true, rfl, by simp⟩
        · refine ⟨?_, false, ?_, by simp⟩ <;>
          simp [PP.peek, PP.checkAllowed, TPeekable.peek, Proc.at, hc, hb]
    refine ⟨_, hpk.1, h1, hpk.2, ops ++ [.peek], ?_⟩
    rw [runReads_snoc, ← hops]; rfl
  next := by
    rintro c w k p ⟨h1, ⟨e, hp, he⟩, ops, hops⟩ hb
    have hc : c ≠ '}' := fun hc => h1 (by simp [hc])
    have hn : p.next = (some c, ⟨Proc.at (w ++ tail) (k + 1), k + 1, some '}', some '\\', false⟩) := by
      subst hp
      simp [PP.next, PP.peek, PP.checkAllowed, TPeekable.peek, TPeekable.next, Proc.at, hc, hb]
    refine ⟨_, hn, fun h => h1 (List.mem_cons_of_mem _ h), ⟨false, rfl, by simp⟩, ops ++ [.next], ?_⟩
    rw [runReads_snoc, ← hops]
    exact (congrArg Prod.snd hn).symm

/-- Every section text has a part before its first closing brace. -/
theorem brace_split (t : Str) : ∃ w tail, t = w ++ tail ∧ '}' ∉ w ∧ (tail = [] ∨ ∃ r, tail = '}' :: r) := by
  induction t with
  | nil => exact ⟨[], [], rfl, by simp, .inl rfl⟩
  | cons c t ih =>
    by_cases hc : c = '}'
    · exact ⟨[], c :: t, rfl, by simp, .inr ⟨t, by rw [hc]⟩⟩
    · obtain ⟨w, tail, rfl, h1, h2⟩ := ih
      exact ⟨c :: w, tail, rfl, by simp [h1, Ne.symm hc], h2⟩

theorem secAt_start {w tail : Str} (hw : '}' ∉ w) (k : Nat) : SecAt (sectionProcess (w ++ tail) k) tail w k (sectionProcess (w ++ tail) k) :=
  ⟨hw, ⟨false, rfl, by simp⟩, [], rfl⟩

end HPP
