import Verif.Spec.SectionReading
import Verif.Proofs.SectionSim
import Verif.Props.Text
import Verif.Proofs.CalcData
/-
C97: a section without closing braces inside is read like a text of its own.
-/
namespace HPP
open Spec

theorem PlainBody.suffix {u v : Str} (h : PlainBody (u ++ v)) : PlainBody v := by
  refine ⟨fun hm => h.1 (by simp [hm]), fun hl => ?_⟩
  cases v with
  | nil => cases hl
  | cons c v => exact h.2 (by rw [List.getLast?_append, hl]; rfl)

/-- A process inside a section: the unread body is `w`, at position `k`; the escape flag is off at the end of the body. -/
def InBody (tail w : Str) (k : Nat) (p : PP Proc) : Prop :=
  PlainBody w ∧ ∃ e, p = ⟨Proc.at (w ++ tail) k, k, some '}', some '\\', e⟩ ∧ (w = [] → e = false)

theorem InBody.check {tail w : Str} {k : Nat} {p : PP Proc} (ht : tail = [] ∨ ∃ r, tail = '}' :: r) (h : InBody tail w k p) :
    ∃ e, p.checkAllowed = (w ≠ [] || tail.isEmpty, ⟨Proc.at (w ++ tail) k, k, some '}', some '\\', e⟩) ∧
      (e = true → w.head? = some '\\') := by
  obtain ⟨h1, e, rfl, he⟩ := h
  cases w with
  | nil =>
    rw [he rfl]
    rcases ht with rfl | ⟨r, rfl⟩
    · exact ⟨false, rfl, by simp⟩
    · exact ⟨false, rfl, by simp⟩
  | cons c w =>
    have hc : c ≠ '}' := fun hc => h1.1 (by simp [hc])
    by_cases hb : c = '\\'
    · subst hb
      exact ⟨true, by simp [PP.checkAllowed, PP.peek, TPeekable.peek, Proc.at], by simp⟩
    · exact ⟨false, by simp [PP.checkAllowed, PP.peek, TPeekable.peek, Proc.at, hb, hc], by simp⟩

theorem InBody.next_step {tail w : Str} {c : Char} {k : Nat} (h : PlainBody (c :: w)) {e : Bool} (he : e = true → c = '\\') :
    InBody tail w (k + 1) ⟨Proc.at (w ++ tail) (k + 1), k + 1, some '}', some '\\', e⟩ := by
  refine ⟨PlainBody.suffix (u := [c]) h, e, rfl, ?_⟩
  rintro rfl
  cases e with
  | false => rfl
  | true => exact absurd (by rw [he rfl]; rfl) h.2

theorem InBody.keep {tail w : Str} {k : Nat} (h : PlainBody w) {e : Bool} (he : e = true → w.head? = some '\\') :
    InBody tail w k ⟨Proc.at (w ++ tail) k, k, some '}', some '\\', e⟩ := by
  refine ⟨h, e, rfl, ?_⟩
  rintro rfl
  cases e with
  | false => rfl
  | true => exact absurd (he rfl) (by simp)

theorem InBody.next_cons {tail w : Str} {c : Char} {k : Nat} {p : PP Proc} (ht : tail = [] ∨ ∃ r, tail = '}' :: r)
    (h : InBody tail (c :: w) k p) : ∃ p', p.next = (some c, p') ∧ InBody tail w (k + 1) p' := by
  obtain ⟨e, h1, h2⟩ := h.check ht
  refine ⟨⟨Proc.at (w ++ tail) (k + 1), k + 1, some '}', some '\\', e⟩, ?_, InBody.next_step h.1 (by simpa using h2)⟩
  rw [PP.next, h1]; rfl

theorem InBody.next_nil {tail : Str} {k : Nat} {p : PP Proc} (ht : tail = [] ∨ ∃ r, tail = '}' :: r) (h : InBody tail [] k p) :
    ∃ p', p.next = (none, p') ∧ InBody tail [] k p' := by
  obtain ⟨h1, e, rfl, he⟩ := h
  rw [he rfl]
  rcases ht with rfl | ⟨r, rfl⟩
  · exact ⟨_, rfl, InBody.keep h1 (by simp)⟩
  · exact ⟨_, rfl, InBody.keep h1 (by simp)⟩

theorem bodyReader {tail : Str} (ht : tail = [] ∨ ∃ r, tail = '}' :: r) : RReader (InBody tail) where
  pos := by rintro w k p ⟨-, e, rfl, -⟩; rfl
  len := by rintro w k p ⟨-, e, rfl, -⟩; simp [PP.rest, TPeekable.rest, Proc.at]
  peek := by
    intro w k p h
    obtain ⟨e, h1, h2⟩ := h.check ht
    refine ⟨⟨Proc.at (w ++ tail) k, k, some '}', some '\\', e⟩, ?_, InBody.keep h.1 h2⟩
    cases w with
    | nil =>
      rcases ht with rfl | ⟨r, rfl⟩
      · rw [PP.peek, h1]; rfl
      · rw [PP.peek, h1]; rfl
    | cons c w => rw [PP.peek, h1]; rfl
  next := fun h _ => h.next_cons ht

theorem InBody.nextIf {tail w : Str} {k : Nat} {p : PP Proc} (ht : tail = [] ∨ ∃ r, tail = '}' :: r) (h : InBody tail w k p)
    (f : Char → Bool) :
    (∃ c v p', w = c :: v ∧ f c = true ∧ p.nextIf f = (some c, p') ∧ InBody tail v (k + 1) p') ∨
    ((∀ c v, w = c :: v → f c = false) ∧ ∃ p', p.nextIf f = (none, p') ∧ InBody tail w k p') := by
  obtain ⟨e, h1, h2⟩ := h.check ht
  cases w with
  | nil =>
    right
    refine ⟨by simp, ⟨Proc.at ([] ++ tail) k, k, some '}', some '\\', e⟩, ?_, InBody.keep h.1 h2⟩
    rcases ht with rfl | ⟨r, rfl⟩
    · rw [PP.nextIf, h1]; rfl
    · rw [PP.nextIf, h1]; rfl
  | cons c w =>
    cases hf : f c with
    | true =>
      left
      refine ⟨c, w, ⟨Proc.at (w ++ tail) (k + 1), k + 1, some '}', some '\\', e⟩, rfl, hf, ?_, InBody.next_step h.1 (by simpa using h2)⟩
      rw [PP.nextIf, h1]
      simp [Proc.at, TPeekable.nextIf, PP.nextIf, TPeekable.peek, PP.checkAllowed, hf]
    | false =>
      right
      refine ⟨by simpa using hf, ⟨Proc.at (c :: w ++ tail) k, k, some '}', some '\\', e⟩, ?_, InBody.keep h.1 h2⟩
      rw [PP.nextIf, h1]
      simp [Proc.at, TPeekable.nextIf, PP.nextIf, TPeekable.peek, PP.checkAllowed, hf]

theorem InBody.nextIfEq {tail w : Str} {k : Nat} {p : PP Proc} (ht : tail = [] ∨ ∃ r, tail = '}' :: r) (h : InBody tail w k p)
    (d : Char) :
    (∃ v p', w = d :: v ∧ p.nextIfEq d = (some d, p') ∧ InBody tail v (k + 1) p') ∨
    (w.head? ≠ some d ∧ ∃ p', p.nextIfEq d = (none, p') ∧ InBody tail w k p') := by
  obtain ⟨e, h1, h2⟩ := h.check ht
  cases w with
  | nil =>
    right
    refine ⟨by simp, ⟨Proc.at ([] ++ tail) k, k, some '}', some '\\', e⟩, ?_, InBody.keep h.1 h2⟩
    rcases ht with rfl | ⟨r, rfl⟩
    · rw [PP.nextIfEq, h1]; rfl
    · rw [PP.nextIfEq, h1]; rfl
  | cons c w =>
    by_cases hf : c = d
    · left
      subst hf
      refine ⟨w, ⟨Proc.at (w ++ tail) (k + 1), k + 1, some '}', some '\\', e⟩, rfl, ?_, InBody.next_step h.1 (by simpa using h2)⟩
      rw [PP.nextIfEq, h1]
      simp [Proc.at, TPeekable.nextIfEq, PP.nextIfEq, TPeekable.peek, PP.checkAllowed]
    · right
      refine ⟨by simpa using hf, ⟨Proc.at (c :: w ++ tail) k, k, some '}', some '\\', e⟩, ?_, InBody.keep h.1 h2⟩
      rw [PP.nextIfEq, h1]
      simp [Proc.at, TPeekable.nextIfEq, PP.nextIfEq, TPeekable.peek, PP.checkAllowed, hf]

theorem plain_nextIf (f : Char → Bool) (w : Str) (k : Nat) :
    (Proc.at w k).nextIf f = if w.head?.any f then (Proc.at w k).next else (none, Proc.at w k) := by
  cases w with
  | nil => rfl
  | cons c w =>
    cases hf : f c <;> simp [Proc.at, PP.nextIf, PP.next, PP.checkAllowed, TPeekable.peek, TPeekable.next, TPeekable.nextIf, hf]

theorem plain_nextIfEq (d : Char) (w : Str) (k : Nat) :
    (Proc.at w k).nextIfEq d = if w.head? = some d then (Proc.at w k).next else (none, Proc.at w k) := by
  cases w with
  | nil => rfl
  | cons c w =>
    by_cases hf : c = d <;> simp [Proc.at, PP.nextIfEq, PP.next, PP.checkAllowed, TPeekable.peek, TPeekable.next, TPeekable.nextIfEq, hf]

/-- One call: the same answer, the same part of the body is read. -/
theorem ReadCall.section {α : Type} (c : ReadCall α) {w tail : Str} (ht : tail = [] ∨ ∃ r, tail = '}' :: r) {k : Nat}
    {p : PP Proc} (hp : InBody tail w k p) :
    ∃ a u v p', w = u ++ v ∧ c.run p = (a, p') ∧ InBody tail v (k + u.length) p' ∧
      c.run (Proc.at w k) = (a, Proc.at v (k + u.length)) := by
  have H := bodyReader ht
  have R := plainReader
  have htw : ∀ f : Char → Bool, w = w.takeWhile f ++ w.dropWhile f := fun f => List.takeWhile_append_dropWhile.symm
  have hlen : ∀ (x : Char) (u : Str), k + (x :: u).length = k + 1 + u.length := fun x u => by
    rw [List.length_cons]; omega
  cases c with
  | peek =>
    obtain ⟨p1, h1, h2⟩ := H.peek hp
    exact ⟨w.head?, [], w, p1, rfl, h1, h2, R.peek w k trivial⟩
  | next =>
    cases w with
    | nil =>
      obtain ⟨p1, h1, h2⟩ := hp.next_nil ht
      exact ⟨none, [], [], p1, rfl, h1, h2, rfl⟩
    | cons d w =>
      obtain ⟨p1, h1, h2⟩ := hp.next_cons ht
      exact ⟨some d, [d], w, p1, rfl, h1, h2, R.next d w k trivial⟩
  | nextIf f =>
    rcases hp.nextIf ht f with ⟨d, v, p1, rfl, h0, h1, h2⟩ | ⟨h0, p1, h1, h2⟩
    · exact ⟨some d, [d], v, p1, rfl, h1, h2, by simp [ReadCall.run, plain_nextIf, h0, R.next d v k trivial]⟩
    · refine ⟨none, [], w, p1, rfl, h1, h2, ?_⟩
      cases w with
      | nil => rfl
      | cons d w => simp [ReadCall.run, plain_nextIf, h0 d w rfl]
  | nextIfEq d =>
    rcases hp.nextIfEq ht d with ⟨v, p1, rfl, h1, h2⟩ | ⟨h0, p1, h1, h2⟩
    · exact ⟨some d, [d], v, p1, rfl, h1, h2, by simp [ReadCall.run, plain_nextIfEq, R.next d v k trivial]⟩
    · exact ⟨none, [], w, p1, rfl, h1, h2, by simp [ReadCall.run, plain_nextIfEq, h0]⟩
  | curPos => exact ⟨k, [], w, p, rfl, by simp [ReadCall.run, H.pos hp], hp, rfl⟩
  | whitespace =>
    exact ⟨(), _, _, _, htw CharClass.isWhitespace, rfl, H.whitespace hp, by simp [ReadCall.run, R.whitespace trivial]⟩
  | digits =>
    obtain ⟨p1, h1, h2⟩ := H.digitsLoop w (p.rest.length + 1) [] k p hp (by have := H.len hp; omega)
    exact ⟨_, _, _, p1, htw CharClass.isAsciiDigit, h1, h2, R.digits trivial k⟩
  | requiredDigits =>
    obtain ⟨p1, h1, h2⟩ := H.requiredDigits hp
    exact ⟨_, _, _, p1, htw CharClass.isAsciiDigit, h1, h2, R.requiredDigits trivial k⟩
  | usize =>
    obtain ⟨p1, h1, h2⟩ := H.requiredDigits hp
    refine ⟨(parseUsize (Proc.at w k)).1, _, _, p1, htw CharClass.isAsciiDigit, ?_, h2, ?_⟩ <;>
    · simp only [ReadCall.run, parseUsize, R.requiredDigits trivial k, h1]
      cases Reader.reqDigits w k <;> rfl
  | isize =>
    obtain ⟨p1, h1, h2⟩ := H.peek hp
    cases w with
    | nil =>
      exact ⟨.err (.endOfChars k), [], [], p1, rfl, by simp [ReadCall.run, parseIsize, h1, H.pos hp], h2, rfl⟩
    | cons x w =>
      by_cases hx : x ≠ '-' ∧ CharClass.isAsciiDigit x = false
      · refine ⟨.err (.unexpectedChar x k (c% "digit or - expected")), [], x :: w, p1, rfl, ?_, h2, ?_⟩
        · simp [ReadCall.run, parseIsize, h1, H.pos h2, hx]
        · simp [ReadCall.run, parseIsize, R.peek _ k trivial, R.pos, hx]
      · by_cases hm : x = '-'
        · subst hm
          obtain ⟨p2, h3, h4⟩ := h2.next_cons ht
          obtain ⟨p3, h5, h6⟩ := H.requiredDigits h4
          refine ⟨(parseIsize (Proc.at ('-' :: w) k)).1, '-' :: w.takeWhile CharClass.isAsciiDigit, w.dropWhile CharClass.isAsciiDigit, p3, ?_, ?_, ?_, ?_⟩
          · rw [List.cons_append, List.takeWhile_append_dropWhile]
          rotate_left
          · rw [hlen '-']; exact h6
          all_goals
            simp only [ReadCall.run, parseIsize, R.peek _ k trivial, h1, List.head?_cons, R.pos, hx, if_false, if_true,
              R.next _ w k trivial, h3, h5, R.requiredDigits trivial (k + 1)]
            try rw [hlen '-']
            cases Reader.reqDigits w (k + 1) <;> rfl
        · obtain ⟨p3, h5, h6⟩ := H.requiredDigits h2
          refine ⟨(parseIsize (Proc.at (x :: w) k)).1, _, _, p3, htw CharClass.isAsciiDigit, ?_, h6, ?_⟩
          all_goals
            simp only [ReadCall.run, parseIsize, R.peek _ k trivial, h1, List.head?_cons, R.pos, hx, hm, if_false,
              R.requiredDigits trivial k, h5]
            cases Reader.reqDigits (x :: w) k <;> rfl
  | symbol d =>
    obtain ⟨p1, h1, h2⟩ := H.peek hp
    cases w with
    | nil => exact ⟨.err (.endOfChars k), [], [], p1, rfl, by simp [ReadCall.run, parseSymbol, h1, H.pos h2], h2, R.symbol_end (c := d) trivial k⟩
    | cons x w =>
      by_cases hx : x = d
      · subst hx
        obtain ⟨p2, h3, h4⟩ := h2.next_cons ht
        exact ⟨_, [x], w, p2, rfl, by simp [ReadCall.run, parseSymbol, h1, h3], h4, R.symbol_ok trivial k⟩
      · exact ⟨.err (.unexpectedChar x k [d]), [], x :: w, p1, rfl, by simp [ReadCall.run, parseSymbol, h1, hx, H.pos h2], h2,
          R.symbol_err trivial k hx⟩
  | varName cc =>
    obtain ⟨p1, h1, h2⟩ := H.peek hp
    cases w with
    | nil => exact ⟨.err (.endOfChars k), [], [], p1, rfl, by simp [ReadCall.run, parseVarName, h1, H.pos hp], h2, R.varName_end cc trivial k⟩
    | cons x w =>
      cases hx : cc.isAlphabetic x with
      | false =>
        exact ⟨.err (.unexpectedChar x k (c% "alphabetic character")), [], x :: w, p1, rfl,
          by simp only [ReadCall.run, parseVarName, h1, List.head?_cons, hx, Bool.not_false, if_true, H.pos h2], h2,
          R.varName_err cc trivial k hx⟩
      | true =>
        obtain ⟨p2, h3, h4⟩ := h2.next_cons ht
        obtain ⟨p3, h5, h6⟩ := H.varNameLoop cc w (p2.rest.length + 1) [x] (k + 1) p2 h4 (by have := H.len h4; omega)
        have e2 := R.varName_ok cc (c := x) (w := w) trivial k hx
        rw [← hlen x] at e2 h6
        refine ⟨_, _, _, p3, by rw [List.cons_append, List.takeWhile_append_dropWhile], ?_, h6, e2⟩
        simp only [ReadCall.run, parseVarName, h1, List.head?_cons, hx, Bool.not_true, Bool.false_eq_true, if_false, h3, h5,
          List.singleton_append]

/-- **C97.** Let `body` contain no closing brace and not end in the escape character, and let a section process stand before
`body`, which is followed by the closing brace or by the end of the text.  Whatever program of reading calls runs on it, it
returns the same answer as on a process for the text `body` alone at the same position, it has read the same part `u` of
`body`, and the position is the same afterwards. -/
theorem C97_section_is_a_text {α : Type} (prog : ReadProg α) {tail : Str} (ht : tail = [] ∨ ∃ r, tail = '}' :: r) {body : Str}
    (hb : PlainBody body) (k : Nat) : ∃ a u v p, body = u ++ v ∧
      prog.run (sectionProcess (body ++ tail) k) = (a, p) ∧ p.curPos = k + u.length ∧
      p.src = ⟨⟨v ++ tail⟩, k + u.length, none, none, false⟩ ∧
      prog.run (⟨⟨body⟩, k, none, none, false⟩ : Proc) = (a, ⟨⟨v⟩, k + u.length, none, none, false⟩) := by
  suffices H : ∀ (body : Str) (k : Nat) (q : PP Proc), InBody tail body k q → ∃ a u v p, body = u ++ v ∧
      prog.run q = (a, p) ∧ InBody tail v (k + u.length) p ∧
      prog.run (Proc.at body k) = (a, Proc.at v (k + u.length)) by
    obtain ⟨a, u, v, p, h1, h2, ⟨-, e, rfl, -⟩, h4⟩ := H body k (sectionProcess (body ++ tail) k) ⟨hb, false, rfl, by simp⟩
    exact ⟨a, u, v, _, h1, h2, rfl, rfl, h4⟩
  induction prog with
  | done a => intro body k q hq; exact ⟨a, [], body, q, rfl, rfl, hq, rfl⟩
  | call c next ih =>
    intro body k q hq
    obtain ⟨x, u, v, p, rfl, h1, h2, h3⟩ := ReadCall.section c ht hq
    obtain ⟨a, u', v', p', rfl, h4, h5, h6⟩ := ih x v (k + u.length) p h2
    refine ⟨a, u ++ u', v', p', by simp, ?_, ?_, ?_⟩
    · rw [ReadProg.run, h1, h4]
    · rw [List.length_append, ← Nat.add_assoc]; exact h5
    · rw [ReadProg.run, h3, h6, List.length_append, ← Nat.add_assoc]

/-- **C97**, for the author of a virtual machine: if `parse_instructions` is a program of reading calls, then the machine
accepts the section `{body}` with the instructions `instr` in every rule text exactly if the program, run on the text `body`
alone, reads all of it and returns `instr`. -/
theorem C97_machine_reads_iff {I S : Type} (vm : VM I S) (name : Str) (prog : ReadProg (Res PErr (List I)))
    (hvm : ∀ p, vm.parseInstructions name p = prog.run p) {body : Str} (hb : PlainBody body) (instr : List I) :
    ReadsSection vm name body instr ↔
      ∀ k, ∃ p : Proc, prog.run (⟨⟨body⟩, k, none, none, false⟩ : Proc) = (.ok instr, p) ∧ p.rest = [] := by
  constructor
  · intro h k
    obtain ⟨a, u, v, p, he, h1, -, h2, h3⟩ := C97_section_is_a_text prog (.inr ⟨[], rfl⟩) hb k
    obtain ⟨q, h4, h5⟩ := h [] k
    rw [hvm, h1] at h4
    simp only [Prod.mk.injEq] at h4
    obtain ⟨rfl, rfl⟩ := h4
    refine ⟨_, h3, ?_⟩
    rw [h5] at h2
    simp only [PP.mk.injEq, CharSource.mk.injEq] at h2
    have : (v ++ ['}']).length = 1 := by rw [← h2.1]; rfl
    simp only [List.length_append, List.length_cons, List.length_nil] at this
    show v = []
    exact List.eq_nil_of_length_eq_zero (by omega)
  · intro h rest k
    obtain ⟨a, u, v, p, he, h1, -, h2, h3⟩ := C97_section_is_a_text prog (.inr ⟨rest, rfl⟩) hb k
    obtain ⟨q, h4, h5⟩ := h k
    rw [h3] at h4
    simp only [Prod.mk.injEq] at h4
    obtain ⟨rfl, rfl⟩ := h4
    have hv : v = [] := h5
    subst hv
    rw [List.append_nil] at he
    exact ⟨p, by rw [hvm, h1], by rw [h2, he]; rfl⟩

/-- What is excluded matters: after a body that ends in the escape character the section goes on behind the brace. -/
theorem C97_final_escape : ∃ prog : ReadProg (Option Char × Option Char),
    (prog.run (sectionProcess (c% "\\}") 0)).1 = (some '\\', some '}') ∧
    (prog.run (⟨⟨c% "\\"⟩, 0, none, none, false⟩ : Proc)).1 = (some '\\', none) :=
  ⟨.call .next fun a => .call .peek fun b => .done (a, b), rfl, rfl⟩

/-- A machine of the kind C97 is about: a section holds a name, an equals sign and a name. -/
def Samples.pairProg : ReadProg (Res PErr (List Nat)) :=
  .call (.varName .ascii) fun
    | .ok m => .call .whitespace fun _ => .call (.symbol '=') fun
      | .ok _ => .call .whitespace fun _ => .call (.varName .ascii) fun
        | .ok n => .call .whitespace fun _ => .done (.ok [m.length, n.length])
        | _ => .done (.err .impossible)
      | _ => .done (.err .impossible)
    | _ => .done (.err .impossible)

example : PlainBody (c% "ab = xyz ") ∧ ∀ k, ∃ p : Proc,
    Samples.pairProg.run (⟨⟨c% "ab = xyz "⟩, k, none, none, false⟩ : Proc) = (.ok [2, 3], p) ∧ p.rest = [] :=
  ⟨⟨by decide, by decide⟩, fun k => ⟨⟨⟨[]⟩, k + 9, none, none, false⟩, (by kernel_rfl), rfl⟩⟩

end HPP
