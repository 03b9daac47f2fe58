import Verif.Proofs.Reader
import Verif.Spec.Text
import Verif.Spec.Reading
import Verif.Model.RuleParsing
/-
Properties C01-C07: character sources and lexical helpers.
-/
namespace HPP
open Spec

/-! ### C01 -/

/-- A process nested `n` deep over a character source. -/
def Nest : Nat → Type
  | 0 => CharSource
  | n + 1 => PP (Nest n)

instance instNest : (n : Nat) → TPeekable (Nest n)
  | 0 => inferInstanceAs (TPeekable CharSource)
  | n + 1 => letI := instNest n; inferInstanceAs (TPeekable (PP (Nest n)))

/-- The positions of all nested processes, innermost source last. -/
def Nest.positions : (n : Nat) → Nest n → List Nat
  | 0, _ => []
  | n + 1, p => PP.pos p :: Nest.positions n (PP.src p)

/-- What one call does. -/
def ReadStepOk (n : Nat) (op : ReadOp) (p : Nest n) (r : Option Char) (p' : Nest n) : Prop :=
  TPeekable.rest p = op.consumed r ++ TPeekable.rest p' ∧
  Nest.positions n p' = (Nest.positions n p).map (· + (op.consumed r).length) ∧
  (∀ c, r = some c → (TPeekable.rest p).head? = some c)

/-- The shape shared by `next`, `nextIf` and `nextIfEq`. -/
def guarded {σ : Type} [TPeekable σ] (f : σ → Option Char × σ) (q : PP σ) : Option Char × PP σ :=
  match q.checkAllowed with
  | (false, p1) => (none, p1)
  | (true, p1) =>
    match f p1.src with
    | (some c, src') => (some c, { p1 with src := src', pos := p1.pos + 1 })
    | (none, src') => (none, { p1 with src := src' })

theorem next_guarded {σ : Type} [TPeekable σ] (q : PP σ) : q.next = guarded TPeekable.next q := by
  unfold PP.next guarded
  rcases q.checkAllowed with ⟨b, p1⟩
  cases b
  · rfl
  · simp only
    rcases TPeekable.next p1.src with ⟨o, s⟩
    cases o <;> rfl

theorem nextIf_guarded {σ : Type} [TPeekable σ] (f : Char → Bool) (q : PP σ) :
    q.nextIf f = guarded (TPeekable.nextIf f) q := by
  unfold PP.nextIf guarded
  rcases q.checkAllowed with ⟨b, p1⟩
  cases b
  · rfl
  · simp only
    rcases TPeekable.nextIf f p1.src with ⟨o, s⟩
    cases o <;> rfl

theorem nextIfEq_guarded {σ : Type} [TPeekable σ] (c : Char) (q : PP σ) :
    q.nextIfEq c = guarded (TPeekable.nextIfEq c) q := by
  unfold PP.nextIfEq guarded
  rcases q.checkAllowed with ⟨b, p1⟩
  cases b
  · rfl
  · simp only
    rcases TPeekable.nextIfEq c p1.src with ⟨o, s⟩
    cases o <;> rfl

theorem read_step_ok : ∀ (n : Nat) (op : ReadOp) (p : Nest n), ReadStepOk n op p (op.run p).1 (op.run p).2
  | 0, op, p => by
    obtain ⟨w⟩ : CharSource := p
    cases op with
    | peek =>
      refine ⟨rfl, rfl, ?_⟩
      intro c hc; exact hc
    | next => cases w with
      | nil => exact ⟨rfl, rfl, by intro c hc; cases hc⟩
      | cons x w => exact ⟨rfl, rfl, by intro c hc; cases hc; rfl⟩
    | nextIf f => cases w with
      | nil => exact ⟨rfl, rfl, by intro c hc; cases hc⟩
      | cons x w =>
        have : ReadOp.run (σ := Nest 0) (.nextIf f) (CharSource.mk (x :: w)) =
          if f x then (some x, CharSource.mk w) else (none, CharSource.mk (x :: w)) := rfl
        rw [this]
        by_cases hf : f x = true
        · rw [if_pos hf]; exact ⟨rfl, rfl, by intro c hc; cases hc; rfl⟩
        · rw [if_neg hf]; exact ⟨rfl, rfl, by intro c hc; cases hc⟩
    | nextIfEq y => cases w with
      | nil => exact ⟨rfl, rfl, by intro c hc; cases hc⟩
      | cons x w =>
        have : ReadOp.run (σ := Nest 0) (.nextIfEq y) (CharSource.mk (x :: w)) =
          if x = y then (some x, CharSource.mk w) else (none, CharSource.mk (x :: w)) := rfl
        rw [this]
        by_cases hf : x = y
        · rw [if_pos hf]; exact ⟨rfl, rfl, by intro c hc; cases hc; rfl⟩
        · rw [if_neg hf]; exact ⟨rfl, rfl, by intro c hc; cases hc⟩
  | n + 1, op, p => by
    -- the permission check peeks at the source
    have hca : ∀ q : PP (Nest n), TPeekable.rest q.checkAllowed.2.src = TPeekable.rest q.src ∧
        Nest.positions n q.checkAllowed.2.src = Nest.positions n q.src ∧ q.checkAllowed.2.pos = q.pos := by
      intro q
      have := read_step_ok n .peek q.src
      obtain ⟨h1, h2, -⟩ := this
      simp only [ReadOp.run, ReadOp.consumed, List.nil_append, List.length_nil, Nat.add_zero, List.map_id'] at h1 h2
      simp only [PP.checkAllowed]
      split
      · split
        · exact ⟨h1.symm, h2, rfl⟩
        · split
          · exact ⟨h1.symm, h2, rfl⟩
          · exact ⟨h1.symm, h2, rfl⟩
      · exact ⟨h1.symm, h2, rfl⟩
    have hpos : ∀ (q : PP (Nest n)), Nest.positions (n + 1) q = q.pos :: Nest.positions n q.src := fun _ => rfl
    have hrest : ∀ (q : PP (Nest n)), (TPeekable.rest (σ := Nest (n + 1)) q) = TPeekable.rest q.src := fun _ => rfl
    -- the three consuming calls have the same shape
    have hcons : ∀ (op : ReadOp) (q : PP (Nest n)) (f : Nest n → Option Char × Nest n), (∀ s, f s = op.run s) →
        (∀ r, op.consumed (some r) = [r]) → (op.consumed none = []) →
        ∀ r q', guarded f q = (r, q') →
        ReadStepOk (n + 1) op q r q' := by
      intro op q f hf hs hn r q' heq
      unfold guarded at heq
      obtain ⟨c1, c2, c3⟩ := hca q
      cases hc : q.checkAllowed with
      | mk b p1 =>
        rw [hc] at heq c1 c2 c3
        cases b with
        | false =>
          simp only [Prod.mk.injEq] at heq
          obtain ⟨rfl, rfl⟩ := heq
          refine ⟨?_, ?_, by intro c h; cases h⟩
          · rw [hrest, hrest, hn, c1]; rfl
          · rw [hpos, hpos, hn, c2, c3]; simp
        | true =>
          simp only at heq c1 c2 c3
          have hst := read_step_ok n op p1.src
          rw [hf] at heq
          cases hop : op.run p1.src with
          | mk r0 s0 =>
            rw [hop] at heq hst
            obtain ⟨s1, s2, s3⟩ := hst
            cases r0 with
            | none =>
              simp only [Prod.mk.injEq] at heq
              obtain ⟨rfl, rfl⟩ := heq
              rw [hn] at s1 s2
              refine ⟨?_, ?_, by intro c h; cases h⟩
              · rw [hrest, hrest, hn, ← c1, s1]
              · rw [hpos, hpos, hn, s2, c2, c3]; simp
            | some x =>
              simp only [Prod.mk.injEq] at heq
              obtain ⟨rfl, rfl⟩ := heq
              rw [hs] at s1 s2
              refine ⟨?_, ?_, ?_⟩
              · rw [hrest, hrest, hs, ← c1, s1]
              · rw [hpos, hpos, hs, s2, c2, c3]; simp
              · intro c h; rw [hrest, ← c1]; exact s3 c h
    have hpk : ∀ (q : PP (Nest n)) r q', q.peek = (r, q') → ReadStepOk (n + 1) .peek q r q' := by
      intro q r q' heq
      unfold PP.peek at heq
      obtain ⟨c1, c2, c3⟩ := hca q
      cases hc : q.checkAllowed with
      | mk b p1 =>
        rw [hc] at heq c1 c2 c3
        cases b with
        | false =>
          simp only [Prod.mk.injEq] at heq
          obtain ⟨rfl, rfl⟩ := heq
          refine ⟨?_, ?_, by intro c h; cases h⟩
          · rw [hrest, hrest, ← c1]; rfl
          · rw [hpos, hpos, c2, c3]; simp [ReadOp.consumed]
        | true =>
          simp only at heq c1 c2 c3
          obtain ⟨s1, s2, s3⟩ := read_step_ok n .peek p1.src
          simp only [ReadOp.run, ReadOp.consumed, List.nil_append, List.length_nil, Nat.add_zero, List.map_id'] at s1 s2 s3
          rcases hpk' : TPeekable.peek p1.src with ⟨o, s0⟩
          rw [hpk'] at heq s1 s2 s3
          simp only [Prod.mk.injEq] at heq
          obtain ⟨rfl, rfl⟩ := heq
          refine ⟨?_, ?_, ?_⟩
          · rw [hrest, hrest, ← c1]; simpa [ReadOp.consumed] using s1
          · rw [hpos, hpos]; simp only [ReadOp.consumed, List.length_nil, Nat.add_zero, List.map_id']; rw [s2, c2, c3]
          · intro c h; rw [hrest, ← c1]; exact s3 c h
    cases op with
    | peek => exact hpk p _ _ rfl
    | next => exact hcons .next p (TPeekable.next) (fun _ => rfl) (fun _ => rfl) rfl _ _ (next_guarded (σ := Nest n) p).symm
    | nextIf f => exact hcons (.nextIf f) p (TPeekable.nextIf f) (fun _ => rfl) (fun _ => rfl) rfl _ _ (nextIf_guarded (σ := Nest n) f p).symm
    | nextIfEq c => exact hcons (.nextIfEq c) p (TPeekable.nextIfEq c) (fun _ => rfl) (fun _ => rfl) rfl _ _ (nextIfEq_guarded (σ := Nest n) c p).symm

/-- **C01.** After any sequence of calls on a process at any nesting depth, with any stop and escape settings: the
consumed characters followed by the unread text are the original text, and the position of every process in the
nest has grown by the number of consumed characters. -/
theorem C01_position_counts_characters (n : Nat) (p : Nest n) (ops : List ReadOp) :
    TPeekable.rest p = (runReads ops p).1 ++ TPeekable.rest (runReads ops p).2 ∧
    Nest.positions n (runReads ops p).2 = (Nest.positions n p).map (· + (runReads ops p).1.length) := by
  induction ops generalizing p with
  | nil => simp [runReads]
  | cons op ops ih =>
    obtain ⟨h1, h2, -⟩ := read_step_ok n op p
    obtain ⟨i1, i2⟩ := ih (op.run p).2
    simp only [runReads]
    refine ⟨?_, ?_⟩
    · rw [h1, i1, List.append_assoc]
    · rw [i2, h2, List.map_map]
      apply List.map_congr_left
      intro k _
      simp only [Function.comp, List.length_append]
      omega

/-- **C01**, peeking: every call that returns a character returns the first unread one. -/
theorem C01_answers_are_next_characters (n : Nat) (p : Nest n) (op : ReadOp) (c : Char) (h : (op.run p).1 = some c) :
    (TPeekable.rest p).head? = some c := (read_step_ok n op p).2.2 c h

/-- A section process inside a rule process, read partially. -/
example : runReads [.peek, .next, .nextIfEq 'x', .nextIf (· = 'b'), .next, .next]
    (PP.newNested (Proc.at (c% "ab\\}}c") 3) (some '}') (some '\\') 3 : Nest 2)
    = (c% "ab\\}", (⟨Proc.at (c% "}c") 7, 7, some '}', some '\\', false⟩ : Nest 2)) := rfl

/-! ### C02 -/

/-- **C02.** Without a stop or without an escape character, `peek` changes nothing and announces what `next` returns. -/
theorem C02_peek_predicts_next (p : Proc) (h : p.stopOn = none ∨ p.escapeChar = none) :
    p.peek.2 = p ∧ p.peek.2.next = p.next ∧ p.peek.1 = p.next.1 := by
  obtain ⟨⟨w⟩, k, so, ec, e⟩ := p
  simp only at h
  cases w with
  | nil => exact ⟨rfl, rfl, rfl⟩
  | cons c w =>
    rcases h with rfl | rfl
    · cases ec <;> exact ⟨rfl, rfl, rfl⟩
    · exact ⟨rfl, rfl, rfl⟩

/-- Processes over texts are such processes, and stay so. -/
example (w : Str) : (Proc.ofText w).stopOn = none ∨ (Proc.ofText w).escapeChar = none := .inl rfl

/-! ### C03 -/

/-- The answers of `n` calls of `next`. -/
def reads {σ : Type} [TPeekable σ] : Nat → PP σ → List (Option Char) × PP σ
  | 0, p => ([], p)
  | n + 1, p =>
    let (c, p1) := p.next
    let (cs, p2) := reads n p1
    (c :: cs, p2)

/-- **C03.** Reading a section with `next` yields exactly the section text and then nothing more, however often one
asks; afterwards the outer process stands behind the section text, at a position that has grown by its length. -/
theorem C03_section (stop esc : Char) (hne : stop ≠ esc) (w : Str) (j k m : Nat) :
    let sec := sectionOf stop esc w
    let r := reads (sec.length + m) (PP.newNested (Proc.at w j) (some stop) (some esc) k)
    r.1 = sec.map some ++ List.replicate m none ∧
    r.2.src = Proc.at (w.drop sec.length) (j + sec.length) ∧ r.2.curPos = k + sec.length := by
  have key : ∀ (w : Str) (e : Bool) (j k : Nat),
      let sec := sectionFrom stop esc e w
      let r := reads (sec.length + m) (⟨Proc.at w j, k, some stop, some esc, e⟩ : PP Proc)
      r.1 = sec.map some ++ List.replicate m none ∧
      r.2.src = Proc.at (w.drop sec.length) (j + sec.length) ∧ r.2.curPos = k + sec.length := by
    intro w
    induction w with
    | nil =>
      intro e j k
      simp only [sectionFrom, List.length_nil, Nat.zero_add, List.map_nil, List.nil_append, Nat.add_zero, List.drop_nil]
      induction m with
      | zero => exact ⟨rfl, rfl, rfl⟩
      | succ m ih =>
        have hn : (⟨Proc.at [] j, k, some stop, some esc, e⟩ : PP Proc).next =
          (none, ⟨Proc.at [] j, k, some stop, some esc, e⟩) := rfl
        simp only [reads, hn, List.replicate_succ]
        exact ⟨by rw [ih.1], ih.2⟩
    | cons c w ih =>
      intro e j k
      by_cases hstop : c = stop ∧ e = false
      · obtain ⟨rfl, rfl⟩ := hstop
        simp only [sectionFrom, and_self, if_true, List.length_nil, Nat.zero_add, List.map_nil, List.nil_append,
          Nat.add_zero, List.drop_zero]
        clear ih
        induction m with
        | zero => exact ⟨rfl, rfl, rfl⟩
        | succ m ih =>
          have hn : (⟨Proc.at (c :: w) j, k, some c, some esc, false⟩ : PP Proc).next =
            (none, ⟨Proc.at (c :: w) j, k, some c, some esc, false⟩) := by
            simp [PP.next, PP.checkAllowed, TPeekable.peek, PP.peek, Proc.at, hne]
          simp only [reads, hn, List.replicate_succ]
          exact ⟨by rw [ih.1], ih.2⟩
      · have hn : (⟨Proc.at (c :: w) j, k, some stop, some esc, e⟩ : PP Proc).next =
            (some c, ⟨Proc.at w (j + 1), k + 1, some stop, some esc, decide (c = esc)⟩) := by
          by_cases hce : c = esc
          · subst hce
            simp [PP.next, PP.checkAllowed, TPeekable.peek, TPeekable.next, PP.peek, Proc.at]
          · simp [PP.next, PP.checkAllowed, TPeekable.peek, TPeekable.next, PP.peek, Proc.at, hce, hstop]
        obtain ⟨i1, i2, i3⟩ := ih (decide (c = esc)) (j + 1) (k + 1)
        simp only [sectionFrom, hstop, if_false, List.length_cons, List.map_cons, List.cons_append, List.drop_succ_cons]
        rw [show (sectionFrom stop esc (decide (c = esc)) w).length + 1 + m =
          (sectionFrom stop esc (decide (c = esc)) w).length + m + 1 by omega]
        simp only [reads, hn]
        refine ⟨by rw [i1], ?_, ?_⟩
        · rw [i2]; congr 1; omega
        · rw [i3]; omega
  exact key w false j k

/-- **C03**, what follows: behind the section the text ends or the stop character comes. -/
theorem C03_section_ends_at_stop (stop esc : Char) (w : Str) :
    w.drop (sectionOf stop esc w).length = [] ∨ ∃ r, w.drop (sectionOf stop esc w).length = stop :: r := by
  have : ∀ (w : Str) (e : Bool), w.drop (sectionFrom stop esc e w).length = [] ∨
      ∃ r, w.drop (sectionFrom stop esc e w).length = stop :: r := by
    intro w
    induction w with
    | nil => intro e; exact .inl rfl
    | cons c w ih =>
      intro e
      simp only [sectionFrom]
      by_cases h : c = stop ∧ e = false
      · rw [if_pos h]; exact .inr ⟨w, by rw [h.1]; rfl⟩
      · rw [if_neg h]; exact ih _
  exact this w false

/-- A section with an escaped stop character. -/
example : sectionOf '}' '\\' (c% "a\\}b}c") = c% "a\\}b" := rfl

/-! ### C04 -/

/-- **C04**, except at an escaped stop character: `peek` announces what the following `next` returns unless the next
character is the stop character and directly follows an escape character (the flag `escape` of the process).  At
such a place the property fails, see `C04_refuted`. -/
theorem C04_peek_predicts_next_partial (p : PP Proc) (hsrc : p.src.stopOn = none)
    (h : ¬ (p.rest.head? = p.stopOn ∧ p.escape = true)) : p.peek.2.next.1 = p.peek.1 := by
  obtain ⟨⟨⟨w⟩, j, so', ec', e'⟩, k, so, ec, e⟩ := p
  simp only at hsrc h
  subst hsrc
  cases w with
  | nil => cases ec' <;> rfl
  | cons c w =>
    simp only [PP.rest, TPeekable.rest, List.head?_cons] at h
    cases ec with
    | none => cases ec' <;> rfl
    | some ec =>
      cases so with
      | none => cases ec' <;> rfl
      | some so =>
        by_cases h1 : c = ec
        · cases ec' <;> simp [PP.peek, PP.next, PP.checkAllowed, TPeekable.peek, TPeekable.next, h1]
        · by_cases h2 : c = so
          · have : e = false := by
              cases e
              · rfl
              · exact absurd ⟨by rw [h2], rfl⟩ h
            subst this
            subst h2
            cases ec' <;> simp [PP.peek, PP.next, PP.checkAllowed, TPeekable.peek, h1]
          · cases ec' <;> simp [PP.peek, PP.next, PP.checkAllowed, TPeekable.peek, TPeekable.next, h1, h2]

/-- **C04**, the exact places: in a section with stop character `so` and escape character `ec ≠ so`, `peek` announces what the
following `next` returns if and only if the next character is not a stop character behind an escape character; there, `peek`
announces the stop character, while the following `next` returns nothing and takes nothing. -/
theorem C04_exactly (p : PP Proc) (hsrc : p.src.stopOn = none) {so ec : Char} (hso : p.stopOn = some so)
    (hec : p.escapeChar = some ec) (hne : ec ≠ so) :
    (p.peek.2.next.1 = p.peek.1 ↔ ¬ (p.rest.head? = some so ∧ p.escape = true)) ∧
    (p.rest.head? = some so ∧ p.escape = true →
      p.peek.1 = some so ∧ p.peek.2.next.1 = none ∧ p.peek.2.next.2.rest = p.rest) := by
  have h2 : p.rest.head? = some so ∧ p.escape = true →
      p.peek.1 = some so ∧ p.peek.2.next.1 = none ∧ p.peek.2.next.2.rest = p.rest := by
    obtain ⟨⟨⟨w⟩, j, so', ec', e'⟩, k, so2, ec2, e⟩ := p
    simp only at hsrc hso hec
    subst hsrc hso hec
    rintro ⟨h1, h2⟩
    simp only at h2
    subst h2
    cases w with
    | nil => simp [PP.rest, TPeekable.rest] at h1
    | cons c w =>
      simp only [PP.rest, TPeekable.rest, List.head?_cons, Option.some.injEq] at h1
      subst h1
      cases ec' <;>
        simp [PP.peek, PP.next, PP.checkAllowed, TPeekable.peek, PP.rest, TPeekable.rest, Ne.symm hne]
  refine ⟨⟨fun h hc => ?_, fun h => C04_peek_predicts_next_partial p hsrc (by rw [hso]; exact h)⟩, h2⟩
  obtain ⟨a, b, -⟩ := h2 hc
  rw [a, b] at h
  cases h

/-- The full **C04** is refuted: in the section `\}x}`, after reading the backslash, `peek` announces the escaped brace
and the following `next` returns nothing. -/
theorem C04_refuted : ∃ p : PP Proc,
    p = (reads 1 (PP.newNested (Proc.ofText (c% "\\}x}")) (some '}') (some '\\') 0)).2 ∧
    p.peek.1 = some '}' ∧ p.peek.2.next.1 = none := ⟨_, rfl, rfl, rfl⟩

/-- A place where the hypotheses of the partial theorem hold inside a section. -/
example : let p : PP Proc := (reads 2 (PP.newNested (Proc.ofText (c% "\\}x}")) (some '}') (some '\\') 0)).2
    p.src.stopOn = none ∧ ¬ (p.rest.head? = p.stopOn ∧ p.escape = true) ∧ p.peek.1 = some 'x' := by
  refine ⟨rfl, ?_, rfl⟩
  rintro ⟨h, -⟩
  cases h

/-! ### C05 -/

theorem Spec.MaximalPrefix.takeWhile {P : Char → Prop} {f : Char → Bool} (hf : ∀ c, f c = true ↔ P c)
    {w pre post : Str} (h : MaximalPrefix P w pre post) : w.takeWhile f = pre ∧ w.dropWhile f = post := by
  obtain ⟨rfl, h2, h3⟩ := h
  induction pre with
  | nil =>
    cases post with
    | nil => exact ⟨rfl, rfl⟩
    | cons c r =>
      have : f c = false := by
        have := h3 c r rfl
        rw [← hf] at this
        simpa using this
      simp [this]
  | cons c pre ih =>
    have : f c = true := (hf c).2 (h2 c (by simp))
    have i := ih (fun d hd => h2 d (by simp [hd]))
    simp [this, i.1, i.2]

theorem isAsciiDigit_iff (c : Char) : CharClass.isAsciiDigit c = true ↔ IsDigit c := by
  simp only [CharClass.isAsciiDigit, decide_eq_true_eq, IsDigit, Char.le_def, UInt32.le_iff_toNat_le]
  exact Iff.rfl

theorem digitsVal_eq (s : Str) : digitsVal s = decimalValue s := by
  have : ∀ (s : Str) (n : Nat), s.foldl (fun n c => n * 10 + (c.toNat - 48)) n = n * 10 ^ s.length + decimalValue s := by
    intro s
    induction s with
    | nil => intro n; simp [decimalValue]
    | cons c s ih =>
      intro n
      simp only [List.foldl_cons, ih, decimalValue, List.length_cons, digitValue]
      have : '0'.toNat = 48 := rfl
      rw [this, Nat.pow_succ, Nat.add_mul, Nat.mul_assoc, Nat.mul_comm 10, Nat.add_assoc]
  rw [digitsVal, this s 0]; simp

theorem all_digits {s : Str} (h : ∀ c ∈ s, IsDigit c) : s.all CharClass.isAsciiDigit = true := by
  rw [List.all_eq_true]; intro c hc; exact (isAsciiDigit_iff c).2 (h c hc)

/-- `str::parse::<usize>` on digits. -/
theorem strToUsize_digits {s : Str} (hne : s ≠ []) (h : ∀ c ∈ s, IsDigit c) :
    strToUsize s = if decimalValue s < 2 ^ 64 then some (decimalValue s) else none := by
  cases s with
  | nil => exact absurd rfl hne
  | cons c s =>
    have hc := h c (by simp)
    have hp : c ≠ '+' := by rintro rfl; revert hc; decide
    have hb : stripPlus (c :: s) = c :: s := by
      unfold stripPlus
      split
      · rename_i heq; cases heq; exact absurd rfl hp
      · rfl
    unfold strToUsize
    simp only [hb, digitsVal_eq, all_digits h]
    simp

/-- `str::parse::<isize>` on digits. -/
theorem strToIsize_digits {s : Str} (hne : s ≠ []) (h : ∀ c ∈ s, IsDigit c) :
    strToIsize s = if decimalValue s < 2 ^ 63 then some (decimalValue s : Int) else none := by
  cases s with
  | nil => exact absurd rfl hne
  | cons c s =>
    have hc := h c (by simp)
    have hp : c ≠ '+' := by rintro rfl; revert hc; decide
    have hm : c ≠ '-' := by rintro rfl; revert hc; decide
    unfold strToIsize
    split
    · rename_i heq; cases heq; exact absurd rfl hm
    · rename_i heq; cases heq; exact absurd rfl hp
    · simp only [digitsVal_eq, all_digits h]
      simp

/-- `str::parse::<isize>` on a minus sign and digits. -/
theorem strToIsize_neg {s : Str} (hne : s ≠ []) (h : ∀ c ∈ s, IsDigit c) :
    strToIsize ('-' :: s) = if decimalValue s ≤ 2 ^ 63 then some (-(decimalValue s : Int)) else none := by
  unfold strToIsize
  simp only [digitsVal_eq, all_digits h]
  simp [hne]

/-- **C05**, unsigned: `parse_usize` reads the longest run `pre` of digits and leaves the rest `post`; it fails if there
is no digit (consuming nothing) or the number does not fit, and otherwise returns the denoted number. -/
theorem C05_usize {w pre post : Str} (h : MaximalPrefix IsDigit w pre post) (k : Nat) :
    (pre = [] → ∃ e, parseUsize (Proc.at w k) = (.err e, Proc.at w k)) ∧
    (pre ≠ [] → decimalValue pre < 2 ^ 64 →
      parseUsize (Proc.at w k) = (.ok (decimalValue pre), Proc.at post (k + pre.length))) ∧
    (pre ≠ [] → ¬ decimalValue pre < 2 ^ 64 →
      ∃ e, parseUsize (Proc.at w k) = (.err e, Proc.at post (k + pre.length))) := by
  obtain ⟨h1, h2⟩ := h.takeWhile isAsciiDigit_iff
  have hr := plainReader.requiredDigits (w := w) trivial k
  rw [h1, h2] at hr
  have hd : pre ≠ [] → Reader.reqDigits w k = .ok pre := by
    intro hne
    cases pre with
    | nil => exact absurd rfl hne
    | cons c pre =>
      have : w = c :: (pre ++ post) := h.split
      subst this
      have hc := (isAsciiDigit_iff c).2 (h.all c (by simp))
      rw [← h1]
      simp only [Reader.reqDigits, hc, if_true]
  refine ⟨?_, ?_, ?_⟩
  · rintro rfl
    have hw : w = post := by simpa using h.split
    subst hw
    cases w with
    | nil =>
      refine ⟨.endOfChars k, ?_⟩
      simp only [parseUsize, hr]
      rfl
    | cons c w =>
      have hc : CharClass.isAsciiDigit c = false := by
        have := h.stop c w rfl
        rw [← isAsciiDigit_iff] at this
        simpa using this
      refine ⟨.unexpectedChar c k (c% "digit expected"), ?_⟩
      have hq : Reader.reqDigits (c :: w) k = .err (.unexpectedChar c k (c% "digit expected")) := by
        simp [Reader.reqDigits, hc]
      rw [hq] at hr
      simp only [parseUsize, hr]
      simp
  · intro hne hlt
    rw [hd hne] at hr
    simp only [parseUsize, hr, strToUsize_digits hne h.all, if_pos hlt]
    rfl
  · intro hne hlt
    rw [hd hne] at hr
    exact ⟨.impossible, by simp only [parseUsize, hr, strToUsize_digits hne h.all, if_neg hlt]; rfl⟩

/-- **C05**, signed without sign. -/
theorem C05_isize {w pre post : Str} (h : MaximalPrefix IsDigit w pre post) (k : Nat) :
    (pre = [] → w.head? ≠ some '-' → ∃ e, parseIsize (Proc.at w k) = (.err e, Proc.at w k)) ∧
    (pre ≠ [] → decimalValue pre < 2 ^ 63 →
      parseIsize (Proc.at w k) = (.ok (decimalValue pre : Int), Proc.at post (k + pre.length))) ∧
    (pre ≠ [] → ¬ decimalValue pre < 2 ^ 63 →
      ∃ e, parseIsize (Proc.at w k) = (.err e, Proc.at post (k + pre.length))) := by
  obtain ⟨h1, h2⟩ := h.takeWhile isAsciiDigit_iff
  have hpk := plainReader.peek w k trivial
  have hnil : pre = [] → w.head? ≠ some '-' → ∃ e, parseIsize (Proc.at w k) = (.err e, Proc.at w k) := by
    rintro rfl hm
    have hw : w = post := by simpa using h.split
    subst hw
    cases w with
    | nil => exact ⟨.endOfChars k, rfl⟩
    | cons c w =>
      have hc : CharClass.isAsciiDigit c = false := by
        have := h.stop c w rfl
        rw [← isAsciiDigit_iff] at this
        simpa using this
      have hm' : c ≠ '-' := fun hc => hm (by rw [hc]; rfl)
      refine ⟨.unexpectedChar c k (c% "digit or - expected"), ?_⟩
      simp only [parseIsize, hpk, List.head?_cons]
      rw [if_pos ⟨hm', hc⟩]
      simp [plainReader.pos]
  have hok : pre ≠ [] → parseIsize (Proc.at w k) =
      (Res.ofOption (strToIsize pre) .impossible, Proc.at post (k + pre.length)) := by
    intro hne
    have hr := plainReader.requiredDigits (w := w) trivial k
    rw [h1, h2] at hr
    cases pre with
    | nil => exact absurd rfl hne
    | cons c pre =>
      have : w = c :: (pre ++ post) := h.split
      subst this
      have hc := (isAsciiDigit_iff c).2 (h.all c (by simp))
      have hm : c ≠ '-' := by rintro rfl; revert hc; decide
      have hq : Reader.reqDigits (c :: (pre ++ post)) k = .ok (c :: pre) := by
        rw [← h1]; simp only [Reader.reqDigits, hc, if_true]
      rw [hq] at hr
      simp only [parseIsize, hpk, List.head?_cons, hm, hc]
      simp [hr]
  refine ⟨hnil, ?_, ?_⟩
  · intro hne hlt
    rw [hok hne, strToIsize_digits hne h.all, if_pos hlt]; rfl
  · intro hne hlt
    exact ⟨.impossible, by rw [hok hne, strToIsize_digits hne h.all, if_neg hlt]; rfl⟩

/-- **C05**, signed with a minus sign (which is consumed also when no digit follows). -/
theorem C05_isize_minus {w pre post : Str} (h : MaximalPrefix IsDigit w pre post) (k : Nat) :
    (pre = [] → ∃ e, parseIsize (Proc.at ('-' :: w) k) = (.err e, Proc.at w (k + 1))) ∧
    (pre ≠ [] → decimalValue pre ≤ 2 ^ 63 →
      parseIsize (Proc.at ('-' :: w) k) = (.ok (-(decimalValue pre : Int)), Proc.at post (k + 1 + pre.length))) ∧
    (pre ≠ [] → ¬ decimalValue pre ≤ 2 ^ 63 →
      ∃ e, parseIsize (Proc.at ('-' :: w) k) = (.err e, Proc.at post (k + 1 + pre.length))) := by
  obtain ⟨h1, h2⟩ := h.takeWhile isAsciiDigit_iff
  have hr := plainReader.requiredDigits (w := w) trivial (k + 1)
  rw [h1, h2] at hr
  have hpk := plainReader.peek ('-' :: w) k trivial
  have hnx := plainReader.next '-' w k trivial
  have hgen : parseIsize (Proc.at ('-' :: w) k) = (match parseRequiredDigits (Proc.at w (k + 1)) with
      | (.ok s, p3) => (Res.ofOption (strToIsize ('-' :: s)) .impossible, p3)
      | (.err e, p3) => (.err e, p3)
      | (.panic, p3) => (.panic, p3)
      | (.timeout, p3) => (.timeout, p3)) := by
    simp only [parseIsize, hpk, List.head?_cons, hnx]
    simp only [ne_eq, not_true_eq_false, false_and, if_false, if_true, List.cons_append, List.nil_append]
    rcases parseRequiredDigits (Proc.at w (k + 1)) with ⟨r, c⟩
    cases r <;> rfl
  have hd : pre ≠ [] → Reader.reqDigits w (k + 1) = .ok pre := by
    intro hne
    cases pre with
    | nil => exact absurd rfl hne
    | cons c pre =>
      have : w = c :: (pre ++ post) := h.split
      subst this
      have hc := (isAsciiDigit_iff c).2 (h.all c (by simp))
      rw [← h1]
      simp only [Reader.reqDigits, hc, if_true]
  refine ⟨?_, ?_, ?_⟩
  · rintro rfl
    have hw : w = post := by simpa using h.split
    subst hw
    cases w with
    | nil => exact ⟨.endOfChars (k + 1), by rw [hgen, hr]; rfl⟩
    | cons c w =>
      have hc : CharClass.isAsciiDigit c = false := by
        have := h.stop c w rfl
        rw [← isAsciiDigit_iff] at this
        simpa using this
      have hq : Reader.reqDigits (c :: w) (k + 1) = .err (.unexpectedChar c (k + 1) (c% "digit expected")) := by
        simp [Reader.reqDigits, hc]
      exact ⟨_, by rw [hgen, hr, hq]; rfl⟩
  · intro hne hlt
    rw [hgen, hr, hd hne]
    simp only [strToIsize_neg hne h.all, if_pos hlt]
    rfl
  · intro hne hlt
    refine ⟨.impossible, ?_⟩
    rw [hgen, hr, hd hne]
    simp only [strToIsize_neg hne h.all, if_neg hlt]
    rfl

theorem digitChar_isDigit {n : Nat} (h : n < 10) : IsDigit (digitChar n) ∧ digitValue (digitChar n) = n := by
  match n, h with
  | 0, _ | 1, _ | 2, _ | 3, _ | 4, _ | 5, _ | 6, _ | 7, _ | 8, _ | 9, _ => decide

theorem decimalValue_append (a b : Str) : decimalValue (a ++ b) = decimalValue a * 10 ^ b.length + decimalValue b := by
  induction a with
  | nil => simp [decimalValue]
  | cons c a ih =>
    simp only [List.cons_append, decimalValue, ih, List.length_append, Nat.pow_add, Nat.add_mul]
    rw [Nat.mul_assoc, Nat.add_assoc]

/-- A numeral consists of digits, is not empty and denotes its number. -/
theorem numeral_spec (n : Nat) : numeral n ≠ [] ∧ (∀ c ∈ numeral n, IsDigit c) ∧ decimalValue (numeral n) = n := by
  induction n using Nat.strongRecOn with
  | _ n ih =>
    unfold numeral
    by_cases h : n < 10
    · rw [if_pos h]
      obtain ⟨h1, h2⟩ := digitChar_isDigit h
      refine ⟨by simp, ?_, ?_⟩
      · intro c hc; rw [List.mem_singleton] at hc; rw [hc]; exact h1
      · simp [decimalValue, h2]
    · rw [if_neg h]
      obtain ⟨-, i2, i3⟩ := ih (n / 10) (by omega)
      obtain ⟨h1, h2⟩ := digitChar_isDigit (n := n % 10) (by omega)
      refine ⟨by simp, ?_, ?_⟩
      · intro c hc
        rcases List.mem_append.1 hc with hc | hc
        · exact i2 c hc
        · rw [List.mem_singleton] at hc; rw [hc]; exact h1
      · rw [decimalValue_append, i3]
        simp only [decimalValue, h2, List.length_singleton, List.length_nil]
        omega

/-- **C05**, reading back: every 64-bit number written in decimal is read back unchanged. -/
theorem C05_usize_round_trip (n : Nat) (hn : n < 2 ^ 64) (post : Str) (hpost : ∀ c r, post = c :: r → ¬ IsDigit c)
    (k : Nat) : parseUsize (Proc.at (numeral n ++ post) k) = (.ok n, Proc.at post (k + (numeral n).length)) := by
  obtain ⟨h1, h2, h3⟩ := numeral_spec n
  have := (C05_usize ⟨rfl, h2, hpost⟩ k).2.1 h1 (by rw [h3]; exact hn)
  rw [h3] at this
  exact this

/-- **C05**, reading back: every signed 64-bit number written in decimal is read back unchanged. -/
theorem C05_isize_round_trip (n : Int) (hn : -2 ^ 63 ≤ n ∧ n < 2 ^ 63) (post : Str)
    (hpost : ∀ c r, post = c :: r → ¬ IsDigit c) (k : Nat) :
    parseIsize (Proc.at (intNumeral n ++ post) k) = (.ok n, Proc.at post (k + (intNumeral n).length)) := by
  cases n with
  | ofNat n =>
    obtain ⟨h1, h2, h3⟩ := numeral_spec n
    have hlt : n < 2 ^ 63 := by
      have := hn.2
      have h2 : ((n : Int) < ((2 ^ 63 : Nat) : Int)) := by simpa using this
      exact Int.ofNat_lt.1 h2
    have := (C05_isize ⟨rfl, h2, hpost⟩ k).2.1 h1 (by rw [h3]; exact hlt)
    rw [h3] at this
    exact this
  | negSucc n =>
    obtain ⟨h1, h2, h3⟩ := numeral_spec (n + 1)
    have hlt : n + 1 ≤ 2 ^ 63 := by
      have := hn.1
      rw [Int.negSucc_eq] at this
      have h2 : ((n + 1 : Nat) : Int) ≤ ((2 ^ 63 : Nat) : Int) := by
        have h3 : ((2 ^ 63 : Nat) : Int) = 2 ^ 63 := by simp
        rw [h3]
        omega
      exact Int.ofNat_le.1 h2
    have := (C05_isize_minus ⟨rfl, h2, hpost⟩ k).2.1 h1 (by rw [h3]; exact hlt)
    rw [h3] at this
    simp only [intNumeral, List.cons_append, List.length_cons]
    rw [this, Nat.add_assoc k 1, Nat.add_comm 1]
    rfl

/-- Leading zeros and the first value that does not fit. -/
example : parseUsize (Proc.at (c% "0042;") 7) = (.ok 42, Proc.at (c% ";") 11) ∧
    (∃ e, parseUsize (Proc.at (c% "18446744073709551616 x") 0) = (.err e, Proc.at (c% " x") 20)) ∧
    parseIsize (Proc.at (c% "-9223372036854775808") 0) = (.ok (-9223372036854775808), Proc.at [] 20) := by
  refine ⟨by decide +kernel, ⟨.impossible, by decide +kernel⟩, by decide +kernel⟩

/-! ### C06 -/

/-- **C06**, whitespace: exactly the longest whitespace prefix is removed. -/
theorem C06_whitespace {w pre post : Str} (h : MaximalPrefix (CharClass.isWhitespace · = true) w pre post) (k : Nat) :
    parseWhitespace (Proc.at w k) = Proc.at post (k + pre.length) := by
  obtain ⟨h1, h2⟩ := h.takeWhile (f := CharClass.isWhitespace) (fun _ => Iff.rfl)
  rw [plainReader.whitespace trivial, h1, h2]

/-- The 25 characters with the Unicode property `White_Space`, in order of their code points. -/
def Spec.whiteSpaceCodes : List Nat :=
  [0x0009, 0x000A, 0x000B, 0x000C, 0x000D, 0x0020, 0x0085, 0x00A0, 0x1680, 0x2000, 0x2001, 0x2002, 0x2003, 0x2004,
   0x2005, 0x2006, 0x2007, 0x2008, 0x2009, 0x200A, 0x2028, 0x2029, 0x202F, 0x205F, 0x3000]

/-- **C06**, the character classes: white space is exactly the 25 characters of the Unicode property `White_Space`;
on ASCII a letter is one of the 52 letters and a character of a name is a letter, a digit or an underscore, whatever
classification is used beyond ASCII. -/
theorem C06_character_classes (cc : CharClass) (c : Char) :
    (CharClass.isWhitespace c = true ↔ c.toNat ∈ Spec.whiteSpaceCodes) ∧
    (c.toNat < 128 →
      (cc.isAlphabetic c = true ↔ c ∈ (c% "ABCDEFGHIJKLMNOPQRSTUVWXYZabcdefghijklmnopqrstuvwxyz")) ∧
      (cc.isAlphanumeric c = true ↔
        c ∈ (c% "0123456789ABCDEFGHIJKLMNOPQRSTUVWXYZabcdefghijklmnopqrstuvwxyz"))) := by
  refine ⟨?_, fun hc => ?_⟩
  · simp only [CharClass.isWhitespace, Spec.whiteSpaceCodes, decide_eq_true_eq, List.mem_cons, List.not_mem_nil,
      or_false]
    omega
  · have key : ∀ n, n < 128 → ∀ d : Char, d = Char.ofNat n →
        (cc.isAlphabetic d = true ↔ d ∈ (c% "ABCDEFGHIJKLMNOPQRSTUVWXYZabcdefghijklmnopqrstuvwxyz")) ∧
        (cc.isAlphanumeric d = true ↔
          d ∈ (c% "0123456789ABCDEFGHIJKLMNOPQRSTUVWXYZabcdefghijklmnopqrstuvwxyz")) := by
      intro n hn d hd
      have hdn : d.toNat = n := by
        have : ∀ m, m < 128 → (Char.ofNat m).toNat = m := by decide
        rw [hd, this n hn]
      have h1 : cc.isAlphabetic d = CharClass.ascii.isAlphabetic d := by
        simp [CharClass.isAlphabetic, hdn, hn]
      have h2 : cc.isAlphanumeric d = CharClass.ascii.isAlphanumeric d := by
        simp [CharClass.isAlphanumeric, CharClass.isNumeric, h1, hdn, hn]
      rw [h1, h2, hd]
      clear h1 h2 hdn hd
      revert n
      decide +kernel
    exact key c.toNat hc c (Char.ofNat_toNat c).symm

/-- **C06**, identifiers: a letter followed by the longest run of letters, digits and underscores is read, nothing
more; anything else is an error that consumes nothing and names the offending character and its position. -/
theorem C06_var_name (cc : CharClass) (k : Nat) :
    (∀ (c : Char) (w pre post : Str), cc.isAlphabetic c = true →
      MaximalPrefix (fun x => cc.isAlphanumeric x = true ∨ x = '_') w pre post →
      parseVarName cc (Proc.at (c :: w) k) = (.ok (c :: pre), Proc.at post (k + (c :: pre).length))) ∧
    (∀ (c : Char) (w : Str), ¬ cc.isAlphabetic c = true →
      ∃ msg, parseVarName cc (Proc.at (c :: w) k) = (.err (.unexpectedChar c k msg), Proc.at (c :: w) k)) ∧
    parseVarName cc (Proc.at [] k) = (.err (.endOfChars k), Proc.at [] k) := by
  refine ⟨?_, ?_, ?_⟩
  · intro c w pre post hc h
    obtain ⟨h1, h2⟩ := h.takeWhile (f := fun x => cc.isAlphanumeric x || x == '_') (fun x => by simp)
    rw [plainReader.varName_ok cc trivial k hc, h1, h2]
    simp only [List.length_cons]
    congr 2
    omega
  · intro c w hc
    exact ⟨_, plainReader.varName_err cc trivial k (by simpa using hc)⟩
  · exact plainReader.varName_end cc trivial k

/-- **C06**, symbols: exactly the requested character is consumed; anything else is an error that consumes nothing and
names the offending character, its position and the requested character. -/
theorem C06_symbol (c : Char) (k : Nat) :
    (∀ w, parseSymbol c (Proc.at (c :: w) k) = (.ok (), Proc.at w (k + 1))) ∧
    (∀ d w, d ≠ c → parseSymbol c (Proc.at (d :: w) k) = (.err (.unexpectedChar d k [c]), Proc.at (d :: w) k)) ∧
    parseSymbol c (Proc.at [] k) = (.err (.endOfChars k), Proc.at [] k) :=
  ⟨fun _ => plainReader.symbol_ok trivial k, fun _ _ h => plainReader.symbol_err trivial k h, plainReader.symbol_end trivial k⟩

/-- An identifier with digits and underscore. -/
example : MaximalPrefix (fun x => CharClass.ascii.isAlphanumeric x = true ∨ x = '_') (c% "b_1 c") (c% "b_1") (c% " c") ∧
    CharClass.ascii.isAlphabetic 'a' = true := by
  refine ⟨⟨rfl, by decide, ?_⟩, rfl⟩
  intro c r h
  cases h
  decide

/-! ### C07 -/

theorem quotedLoop_spec : ∀ (w : Str) (c : Char) (e : Bool) (lit : Str) (fuel k : Nat), w.length < fuel →
    parseQuotedLoop fuel c e lit (Proc.at (c :: w) k) =
      match quotedFrom e (c :: w) with
      | some (b, r) => (.ok (lit ++ b), Proc.at r (k + b.length + 1))
      | none => (.err (.endOfChars (k + w.length + 1)), Proc.at [] (k + w.length + 1))
  | _, _, _, _, 0, _, h => by omega
  | w, c, e, lit, fuel + 1, k, h => by
    unfold parseQuotedLoop
    have hnx := plainReader.next c w k trivial
    have hpk := plainReader.peek w (k + 1) trivial
    by_cases hc : c = '"' ∧ e = false
    · have hn : ¬ (c ≠ '"' ∨ e = true) := by
        rintro (h | h)
        · exact h hc.1
        · rw [hc.2] at h; cases h
      rw [if_neg hn, hnx]
      simp only [quotedFrom, if_pos hc]
      simp
    · have hn : c ≠ '"' ∨ e = true := by
        by_cases h1 : c = '"'
        · right
          cases e
          · exact absurd ⟨h1, rfl⟩ hc
          · rfl
        · exact .inl h1
      rw [if_pos hn]
      simp only [hnx]
      simp only [quotedFrom, if_neg hc]
      cases w with
      | nil =>
        simp [hpk, quotedFrom, plainReader.pos]
      | cons d w =>
        simp only [hpk, List.head?_cons]
        rw [quotedLoop_spec w d _ _ fuel (k + 1) (by simpa using h)]
        generalize quotedFrom (decide (c = '\\' ∧ e = false)) (d :: w) = x
        cases x with
        | none => simp only [Option.map_none, List.length_cons, Nat.add_assoc, Nat.add_comm 1]
        | some x =>
          simp only [Option.map_some, List.length_cons, List.append_assoc, List.singleton_append]
          simp only [Nat.add_assoc, Nat.add_comm 1]

/-- **C07.** A quoted text is taken verbatim up to the first active quote, which is consumed, and nothing more. -/
theorem C07_quoted (w : Str) (k : Nat) :
    (∀ b r, quotedFrom false w = some (b, r) →
      parseQuoted (Proc.at ('"' :: w) k) = (.ok b, Proc.at r (k + 1 + b.length + 1))) ∧
    (quotedFrom false w = none →
      parseQuoted (Proc.at ('"' :: w) k) = (.err (.endOfChars (k + 1 + w.length)), Proc.at [] (k + 1 + w.length))) := by
  have key : parseQuoted (Proc.at ('"' :: w) k) =
      match quotedFrom false w with
      | some (b, r) => (.ok b, Proc.at r (k + 1 + b.length + 1))
      | none => (.err (.endOfChars (k + 1 + w.length)), Proc.at [] (k + 1 + w.length)) := by
    unfold parseQuoted
    rw [plainReader.symbol_ok trivial k]
    simp only [plainReader.peek w (k + 1) trivial]
    cases w with
    | nil => rfl
    | cons c w =>
      simp only [List.head?_cons]
      rw [quotedLoop_spec w c false [] _ (k + 1) (by simp [PP.rest, TPeekable.rest, Proc.at]; omega)]
      generalize quotedFrom false (c :: w) = x
      cases x with
      | none => simp only [List.length_cons, Nat.add_assoc]
      | some x => simp
  refine ⟨?_, ?_⟩
  · intro b r h; rw [key, h]
  · intro h; rw [key, h]

/-- **C07**, no opening quote: nothing is consumed. -/
theorem C07_quoted_needs_quote (w : Str) (k : Nat) (h : w.head? ≠ some '"') :
    ∃ e, parseQuoted (Proc.at w k) = (.err e, Proc.at w k) := by
  unfold parseQuoted
  cases w with
  | nil => exact ⟨.endOfChars k, by rw [plainReader.symbol_end trivial k]⟩
  | cons c w =>
    have : c ≠ '"' := fun hc => h (by rw [hc]; rfl)
    exact ⟨.unexpectedChar c k ['"'], by rw [plainReader.symbol_err trivial k this]⟩

/-- An escaped quote and an escaped backslash. -/
example : quotedFrom false (c% "a\\\"b\\\\\"c") = some (c% "a\\\"b\\\\", c% "c") ∧ quotedFrom false (c% "a\\\"") = none :=
  ⟨by decide +kernel, by decide +kernel⟩

end HPP
