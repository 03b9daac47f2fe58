import Verif.Proofs.SectionSim
import Verif.Props.Text
/-
The instruction parser of StackVm on section processes.
-/
namespace HPP
open Spec

/-! ### The instruction tables -/

theorem iWrap_asSigned {v : Nat} (h : v < 2 ^ 64) : iWrap v = asSigned v := by
  simp only [iWrap, asSigned]
  split <;> omega

theorem plainInstr_table (n : Str) (i : Instr) : plainInstr n = some i ↔ (n, i) ∈ plainTable := by
  constructor
  · intro h
    unfold plainInstr at h
    by_cases h0 : n = c% "Add"
    · rw [if_pos h0] at h; subst h0; cases h; simp [plainTable]
    rw [if_neg h0] at h
    by_cases h1 : n = c% "Sub"
    · rw [if_pos h1] at h; subst h1; cases h; simp [plainTable]
    rw [if_neg h1] at h
    by_cases h2 : n = c% "Digit"
    · rw [if_pos h2] at h; subst h2; cases h; simp [plainTable]
    rw [if_neg h2] at h
    by_cases h3 : n = c% "PopToReg"
    · rw [if_pos h3] at h; subst h3; cases h; simp [plainTable]
    rw [if_neg h3] at h
    by_cases h4 : n = c% "PopToReg2"
    · rw [if_pos h4] at h; subst h4; cases h; simp [plainTable]
    rw [if_neg h4] at h
    by_cases h5 : n = c% "PopDiscard"
    · rw [if_pos h5] at h; subst h5; cases h; simp [plainTable]
    rw [if_neg h5] at h
    by_cases h6 : n = c% "PushFromTree"
    · rw [if_pos h6] at h; subst h6; cases h; simp [plainTable]
    rw [if_neg h6] at h
    by_cases h7 : n = c% "PushReg"
    · rw [if_pos h7] at h; subst h7; cases h; simp [plainTable]
    rw [if_neg h7] at h
    by_cases h8 : n = c% "PushReg2"
    · rw [if_pos h8] at h; subst h8; cases h; simp [plainTable]
    rw [if_neg h8] at h
    by_cases h9 : n = c% "PrintReg"
    · rw [if_pos h9] at h; subst h9; cases h; simp [plainTable]
    rw [if_neg h9] at h
    by_cases h10 : n = c% "PrintReg2"
    · rw [if_pos h10] at h; subst h10; cases h; simp [plainTable]
    rw [if_neg h10] at h
    by_cases h11 : n = c% "PrintError"
    · rw [if_pos h11] at h; subst h11; cases h; simp [plainTable]
    rw [if_neg h11] at h
    cases h
  · intro h
    simp only [plainTable, List.mem_cons, Prod.mk.injEq, List.not_mem_nil, or_false] at h
    rcases h with ⟨rfl, rfl⟩ | ⟨rfl, rfl⟩ | ⟨rfl, rfl⟩ | ⟨rfl, rfl⟩ | ⟨rfl, rfl⟩ | ⟨rfl, rfl⟩ | ⟨rfl, rfl⟩ | ⟨rfl, rfl⟩ | ⟨rfl, rfl⟩ | ⟨rfl, rfl⟩ | ⟨rfl, rfl⟩ | ⟨rfl, rfl⟩ <;> rfl

theorem constInstr_cases (n : Str) :
    (∃ mk mk', constInstr n = some mk ∧ (n, mk') ∈ constTable ∧ (∀ v, v < 2 ^ 64 → mk v = mk' v) ∧ (∀ m, (n, m) ∈ constTable → m = mk') ∧ (∀ i, (n, i) ∉ plainTable)) ∨
    (constInstr n = none ∧ ∀ mk, (n, mk) ∉ constTable) := by
  simp only [constInstr, constTable, List.mem_cons, Prod.mk.injEq, List.not_mem_nil, or_false]
  by_cases h1 : n = c% "RegAddConst"
  · subst h1
    left
    refine ⟨_, _, if_pos rfl, .inl ⟨rfl, rfl⟩, fun v hv => by rw [iWrap_asSigned hv], ?_, ?_⟩
    · rintro m (h | h | h)
      · exact h.2
      · exact absurd h.1 (by decide)
      · exact absurd h.1 (by decide)
    · intro i; simp [plainTable]
  rw [if_neg h1]
  by_cases h2 : n = c% "PushConst"
  · subst h2
    left
    refine ⟨_, _, if_pos rfl, .inr (.inl ⟨rfl, rfl⟩), fun v hv => by rw [iWrap_asSigned hv], ?_, ?_⟩
    · rintro m (h | h | h)
      · exact absurd h.1 (by decide)
      · exact h.2
      · exact absurd h.1 (by decide)
    · intro i; simp [plainTable]
  rw [if_neg h2]
  by_cases h3 : n = c% "Pow"
  · subst h3
    left
    refine ⟨_, _, if_pos rfl, .inr (.inr ⟨rfl, rfl⟩), fun v hv => rfl, ?_, ?_⟩
    · rintro m (h | h | h)
      · exact absurd h.1 (by decide)
      · exact absurd h.1 (by decide)
      · exact h.2
    · intro i; simp [plainTable]
  rw [if_neg h3]
  exact .inr ⟨rfl, by simp [h1, h2, h3]⟩

theorem name_of_chars {cc : CharClass} {n : Str} (h : n ≠ [] ∧ (∀ c ∈ n, (65 ≤ c.toNat ∧ c.toNat ≤ 90) ∨ (97 ≤ c.toNat ∧ c.toNat ≤ 122) ∨ (48 ≤ c.toNat ∧ c.toNat ≤ 57)) ∧
    ∀ c r, n = c :: r → (65 ≤ c.toNat ∧ c.toNat ≤ 90) ∨ (97 ≤ c.toNat ∧ c.toNat ≤ 122)) : IsName cc n := by
  obtain ⟨h1, h2, h3⟩ := h
  cases n with
  | nil => exact absurd rfl h1
  | cons c cs =>
    refine ⟨c, cs, rfl, ?_, ?_⟩
    · have := h3 c cs rfl
      rw [CharClass.isAlphabetic, if_pos (by omega)]
      simpa using this
    · intro d hd
      left
      have := h2 d (List.mem_cons_of_mem _ hd)
      simp only [CharClass.isAlphanumeric, CharClass.isAlphabetic, CharClass.isNumeric, CharClass.isAsciiDigit]
      rw [if_pos (by omega), if_pos (by omega)]
      simp only [Bool.or_eq_true, decide_eq_true_eq]
      omega

theorem plainTable_name {cc : CharClass} {n : Str} {i : Instr} (h : (n, i) ∈ plainTable) : IsName cc n := by
  apply name_of_chars
  simp only [plainTable, List.mem_cons, Prod.mk.injEq, List.not_mem_nil, or_false] at h
  rcases h with ⟨rfl, -⟩ | ⟨rfl, -⟩ | ⟨rfl, -⟩ | ⟨rfl, -⟩ | ⟨rfl, -⟩ | ⟨rfl, -⟩ | ⟨rfl, -⟩ | ⟨rfl, -⟩ | ⟨rfl, -⟩ | ⟨rfl, -⟩ | ⟨rfl, -⟩ | ⟨rfl, -⟩ <;>
    exact ⟨by simp, by decide, by intro c r h; injection h with h _; subst h; decide⟩

theorem constTable_name {cc : CharClass} {n : Str} {mk : Nat → Instr} (h : (n, mk) ∈ constTable) : IsName cc n := by
  apply name_of_chars
  simp only [constTable, List.mem_cons, Prod.mk.injEq, List.not_mem_nil, or_false] at h
  rcases h with ⟨rfl, -⟩ | ⟨rfl, -⟩ | ⟨rfl, -⟩ <;>
    exact ⟨by simp, by decide, by intro c r h; injection h with h _; subst h; decide⟩

/-! ### Soundness -/

/-- An error of the StackVm parser reading the section text `w` at position `k`. -/
def SErr (w : Str) (k : Nat) (e : PErr) : Prop := ErrAt w k e ∨ e = .impossible

theorem SErr.suffix {u w : Str} {k : Nat} {e : PErr} (h : SErr w (k + u.length) e) : SErr (u ++ w) k e :=
  h.imp ErrAt.suffix id

section
variable {σ : Type} [TPeekable σ] {R : Str → Nat → PP σ → Prop} {α β : Type}

/-- What is known after running a reading step on the section text `w` at position `k`. -/
def Out (R : Str → Nat → PP σ → Prop) (w : Str) (k : Nat) (res : Res PErr α × PP σ) (Q : α → Str → Str → Prop) : Prop :=
  ∃ u w', w = u ++ w' ∧ R w' (k + u.length) res.2 ∧
    ((∃ a, res.1 = .ok a ∧ Q a u w') ∨ (∃ e, res.1 = .err e ∧ SErr w k e))

theorem Out.bind {w : Str} {k : Nat} {p : PP σ} {x : SM (PP σ) PErr α} {f : α → SM (PP σ) PErr β}
    {Q : α → Str → Str → Prop} {Q' : β → Str → Str → Prop} (hx : Out R w k (x p) Q)
    (hf : ∀ a u w' p', w = u ++ w' → Q a u w' → R w' (k + u.length) p' →
      Out R w' (k + u.length) (f a p') (fun b u' w'' => Q' b (u ++ u') w'')) :
    Out R w k ((x >>= f) p) Q' := by
  obtain ⟨u, w', h1, h2, h3⟩ := hx
  rcases hxp : x p with ⟨r, p'⟩
  rw [hxp] at h2 h3
  simp only at h2 h3
  rw [SM.bind_apply, hxp]
  rcases h3 with ⟨a, rfl, hQ⟩ | ⟨e, rfl, he⟩
  · simp only
    obtain ⟨u', w'', g1, g2, g3⟩ := hf a u w' p' h1 hQ h2
    refine ⟨u ++ u', w'', by rw [h1, g1, List.append_assoc], by rw [List.length_append, ← Nat.add_assoc]; exact g2, ?_⟩
    rcases g3 with ⟨b, hb, hq⟩ | ⟨e, he, hs⟩
    · exact .inl ⟨b, hb, hq⟩
    · exact .inr ⟨e, he, by rw [h1]; exact hs.suffix⟩
  · exact ⟨u, w', h1, h2, .inr ⟨e, rfl, he⟩⟩

theorem Out.pure {w : Str} {k : Nat} {p : PP σ} {a : α} {Q : α → Str → Str → Prop} (hp : R w k p) (h : Q a [] w) :
    Out R w k ((Pure.pure a : SM (PP σ) PErr α) p) Q := ⟨[], w, rfl, hp, .inl ⟨a, rfl, h⟩⟩

theorem Out.mono {w : Str} {k : Nat} {res : Res PErr α × PP σ} {Q Q' : α → Str → Str → Prop} (h : Out R w k res Q)
    (hQ : ∀ a u w', w = u ++ w' → Q a u w' → Q' a u w') : Out R w k res Q' := by
  obtain ⟨u, w', h1, h2, h3⟩ := h
  exact ⟨u, w', h1, h2, h3.imp (fun ⟨a, ha, hq⟩ => ⟨a, ha, hQ a u w' h1 hq⟩) id⟩

theorem out_whitespace (H : RReader R) {w : Str} {k : Nat} {p : PP σ} (h : R w k p) :
    Out R w k (ppWhitespace p) (fun _ u w' => IsSpace u ∧ NoSpaceAhead w') := by
  obtain ⟨g, w', rfl, h1, h2, -⟩ := space_split w
  have := H.whitespace h
  obtain ⟨e1, e2⟩ := dropWhile_append_of (f := CharClass.isWhitespace) h1 h2
  rw [e1, e2] at this
  exact ⟨g, w', rfl, this, .inl ⟨(), rfl, h1, h2⟩⟩

theorem out_symbol (H : RReader R) {c : Char} (hc : c ≠ '\\') {w : Str} {k : Nat} {p : PP σ} (h : R w k p) :
    Out R w k (ppSymbol c p) (fun _ u _ => u = [c]) := by
  by_cases hw : w.head? = some c
  · cases w with
    | nil => simp at hw
    | cons d w =>
      simp only [List.head?_cons, Option.some.injEq] at hw
      subst hw
      obtain ⟨p', h1, h2⟩ := H.symbol_ok hc h
      refine ⟨[d], w, rfl, ?_, .inl ⟨(), ?_, rfl⟩⟩
      · show R w _ (parseSymbol d p).2
        rw [h1]; exact h2
      · show (parseSymbol d p).1 = _
        rw [h1]
  · obtain ⟨e, p', h1, h2, h3⟩ := H.symbol_err h hw
    refine ⟨[], w, rfl, ?_, .inr ⟨e, ?_, .inl h3⟩⟩
    · show R w _ (parseSymbol c p).2
      rw [h1]; exact h2
    · show (parseSymbol c p).1 = _
      rw [h1]

theorem out_varName (H : RReader R) (cc : CharClass) {w : Str} {k : Nat} {p : PP σ} (h : R w k p) :
    Out R w k (ppVarName cc p) (fun n u w' => u = n ∧ IsName cc n ∧ NoNameAhead cc w') := by
  rcases H.varName_cases cc h with ⟨n, w', rfl, h1, h2, p', h3, h4⟩ | ⟨e, p', h1, h2, h3⟩
  · refine ⟨n, w', rfl, ?_, .inl ⟨n, ?_, rfl, h1, h2⟩⟩
    · show R w' _ (parseVarName cc p).2
      rw [h3]; exact h4
    · show (parseVarName cc p).1 = _
      rw [h3]
  · refine ⟨[], w, rfl, ?_, .inr ⟨e, ?_, .inl h3⟩⟩
    · show R w _ (parseVarName cc p).2
      rw [h1]; exact h2
    · show (parseVarName cc p).1 = _
      rw [h1]

theorem takeWhile_all {f : Char → Bool} {w : Str} : ∀ c ∈ w.takeWhile f, f c = true := by
  induction w with
  | nil => simp
  | cons d w ih =>
    intro c hc
    rw [List.takeWhile_cons] at hc
    split at hc
    · rcases List.mem_cons.1 hc with rfl | hc
      · assumption
      · exact ih c hc
    · simp at hc

theorem out_usize (H : RReader R) {w : Str} {k : Nat} {p : PP σ} (h : R w k p) :
    Out R w k (ppUsize p) (fun v u _ => u ≠ [] ∧ (∀ c ∈ u, IsDigit c) ∧ decimalValue u < 2 ^ 64 ∧ v = decimalValue u) := by
  obtain ⟨p', h1, h2⟩ := H.requiredDigits h
  have hp : ppUsize p = (match Reader.reqDigits w k with
      | .ok s => Res.ofOption (strToUsize s) .impossible
      | .err e => .err e
      | .panic => .panic
      | .timeout => .timeout, p') := by
    show parseUsize p = _
    simp only [parseUsize, h1]
    cases Reader.reqDigits w k <;> rfl
  rw [hp]
  refine ⟨_, _, (List.takeWhile_append_dropWhile (p := CharClass.isAsciiDigit)).symm, h2, ?_⟩
  cases w with
  | nil => exact .inr ⟨.endOfChars k, rfl, .inl (by simp [ErrAt])⟩
  | cons c w =>
    by_cases hc : CharClass.isAsciiDigit c = true
    · simp only [Reader.reqDigits, hc, if_true]
      have hne : (c :: w).takeWhile CharClass.isAsciiDigit ≠ [] := by simp [hc]
      have hall : ∀ d ∈ (c :: w).takeWhile CharClass.isAsciiDigit, IsDigit d := fun d hd =>
        (isAsciiDigit_iff d).1 (takeWhile_all d hd)
      rw [strToUsize_digits hne hall]
      split
      · next hlt => exact .inl ⟨_, rfl, hne, hall, hlt, rfl⟩
      · exact .inr ⟨_, rfl, .inr rfl⟩
    · simp only [Reader.reqDigits, hc, if_false, Bool.false_eq_true]
      exact .inr ⟨_, rfl, .inl (by simp [ErrAt])⟩

theorem digit_nameChar {cc : CharClass} {c : Char} (h : IsDigit c) : (cc.isAlphanumeric c || c == '_') = true := by
  have h := (isAsciiDigit_iff c).2 h
  have h2 : c.toNat < 128 := by
    simp only [CharClass.isAsciiDigit, decide_eq_true_eq] at h; omega
  simp [CharClass.isAlphanumeric, CharClass.isNumeric, h2, h]

/-- One instruction behind its name. -/
theorem out_oneInstr (H : RReader R) (cc : CharClass) {n w : Str} {k : Nat} {p : PP σ} (h : R w k p) (hn : IsName cc n)
    (hw : NoNameAhead cc w) :
    Out R w k (parseOneInstr n p) (fun is u _ => InstrText cc is (n ++ (u ++ c% ";"))) := by
  rcases constInstr_cases n with ⟨mk, mk', h1, h2, h3, -, -⟩ | ⟨h1, h2⟩
  · simp only [parseOneInstr, h1]
    refine Out.bind (out_whitespace H h) ?_
    rintro _ g w1 p1 rfl ⟨hg, -⟩ hp1
    refine Out.bind (out_usize H hp1) ?_
    rintro v ds w2 p2 rfl ⟨d1, d2, d3, rfl⟩ hp2
    refine Out.pure hp2 ?_
    rw [List.append_nil, List.append_assoc]
    rw [h3 _ d3]
    refine .const h2 hg ?_ d1 d2 d3
    rintro rfl
    cases ds with
    | nil => exact d1 rfl
    | cons c ds =>
      have := hw c (ds ++ w2) rfl
      rw [digit_nameChar (d2 c (by simp))] at this
      cases this
  · simp only [parseOneInstr, h1]
    refine Out.pure h ?_
    rw [List.nil_append]
    cases hp : plainInstr n with
    | some i => exact .plain ((plainInstr_table n i).1 hp)
    | none =>
      refine .unknown hn (fun i hi => ?_) h2
      rw [(plainInstr_table n i).2 hi] at hp
      cases hp

theorem stackLoop_sound (H : RReader R) (cc : CharClass) : ∀ (fuel : Nat) (acc : List Instr) (w : Str) (k : Nat) (p : PP σ),
    R w k p → w.length < fuel →
    Out R w k (stackParseLoop cc fuel acc p) (fun is u w' => w' = [] ∧ ∃ is', is = acc ++ is' ∧ InstrsText cc is' u)
  | 0, _, _, _, _, _, hf => by omega
  | fuel + 1, acc, w, k, p, h, hf => by
    obtain ⟨p1, h1, h2⟩ := H.peek h
    have hpk : ppPeek p = (.ok w.head?, p1) := by simp only [ppPeek, h1]
    rw [stackParseLoop, SM.bind_apply, hpk]
    simp only
    cases w with
    | nil => exact Out.pure h2 ⟨rfl, [], by simp, .nil⟩
    | cons c w =>
      simp only [List.head?_cons]
      refine Out.bind (out_varName H cc h2) ?_
      rintro n u1 w1 p2 e1 ⟨rfl, hn, hw1⟩ hp2
      refine Out.bind (out_oneInstr H cc hp2 hn hw1) ?_
      rintro is u2 w2 p3 rfl hi hp3
      refine Out.bind (out_symbol H (by decide) hp3) ?_
      rintro _ u3 w3 p4 rfl rfl hp4
      refine Out.bind (out_whitespace H hp4) ?_
      rintro _ g w4 p5 rfl ⟨hg, -⟩ hp5
      refine (stackLoop_sound H cc fuel _ _ _ _ hp5 ?_).mono ?_
      · have := congrArg List.length e1
        simp only [List.length_append, List.length_cons] at this hf ⊢
        simp only [List.length_nil] at this
        omega
      · rintro is2 u w' rfl ⟨rfl, is3, rfl, h3⟩
        refine ⟨rfl, is ++ is3, by simp, ?_⟩
        have := InstrsText.cons hi hg h3
        simpa using this

/-! ### Completeness -/

theorem ppWhitespace_ok (H : RReader R) {g w : Str} {k : Nat} {p : PP σ} (h : R (g ++ w) k p) (hg : IsSpace g) (hw : NoSpaceAhead w) :
    ∃ p', ppWhitespace p = (.ok (), p') ∧ R w (k + g.length) p' := by
  have := H.whitespace h
  obtain ⟨e1, e2⟩ := dropWhile_append_of (f := CharClass.isWhitespace) hg hw
  rw [e1, e2] at this
  exact ⟨_, rfl, this⟩

theorem ppUsize_ok (H : RReader R) {ds w : Str} {k : Nat} {p : PP σ} (h : R (ds ++ w) k p) (h1 : ds ≠ []) (h2 : ∀ c ∈ ds, IsDigit c)
    (h3 : decimalValue ds < 2 ^ 64) (hw : ∀ c r, w = c :: r → CharClass.isAsciiDigit c = false) :
    ∃ p', ppUsize p = (.ok (decimalValue ds), p') ∧ R w (k + ds.length) p' := by
  obtain ⟨p', e1, e2⟩ := H.requiredDigits h
  obtain ⟨e3, e4⟩ := dropWhile_append_of (f := CharClass.isAsciiDigit) (fun c hc => (isAsciiDigit_iff c).2 (h2 c hc)) hw
  have hr : Reader.reqDigits (ds ++ w) k = .ok ds := by
    cases ds with
    | nil => exact absurd rfl h1
    | cons c ds =>
      have hc := (isAsciiDigit_iff c).2 (h2 c (by simp))
      have : Reader.reqDigits (c :: ds ++ w) k = .ok ((c :: ds ++ w).takeWhile CharClass.isAsciiDigit) := by
        simp only [Reader.reqDigits, List.cons_append, hc, if_true]
      rw [this, e4]
  rw [e3, e4] at e2
  refine ⟨p', ?_, e2⟩
  show parseUsize p = _
  simp only [parseUsize, e1, hr, strToUsize_digits h1 h2, if_pos h3, Res.ofOption]

theorem noName_semi (cc : CharClass) (w : Str) : NoNameAhead cc (';' :: w) := by
  rintro c r h
  injection h with h _
  subst h
  simp [CharClass.isAlphanumeric, CharClass.isAlphabetic, CharClass.isNumeric, CharClass.isAsciiDigit]

theorem Spec.InstrText.head {cc : CharClass} {is : List Instr} {t : Str} (h : InstrText cc is t) :
    ∃ c r, t = c :: r ∧ cc.isAlphabetic c = true := by
  have : ∀ n r : Str, IsName cc n → ∃ c r', n ++ r = c :: r' ∧ cc.isAlphabetic c = true := by
    rintro n r ⟨c, cs, rfl, h, -⟩; exact ⟨c, cs ++ r, rfl, h⟩
  cases h with
  | plain h => exact this _ _ (plainTable_name h)
  | const h _ _ _ _ _ => exact this _ _ (constTable_name h)
  | unknown h _ _ => exact this _ _ h

theorem Spec.InstrsText.noSpace {cc : CharClass} (hcc : SpaceOk cc) {is : List Instr} {t : Str} (h : InstrsText cc is t) :
    NoSpaceAhead t := by
  cases h with
  | nil => intro c r h; cases h
  | cons h _ _ =>
    obtain ⟨c, r, rfl, ha⟩ := h.head
    rintro d r' he
    injection he with he _
    subst he
    cases hs : CharClass.isWhitespace c with
    | false => rfl
    | true =>
      have := hcc c hs
      simp [CharClass.isAlphanumeric, ha] at this

/-- One instruction up to its semicolon. -/
theorem oneInstr_ok (H : RReader R) {cc : CharClass} (hcc : SpaceOk cc) {is : List Instr} {t w : Str} (h : InstrText cc is t) {k : Nat} {p : PP σ}
    (hp : R (t ++ w) k p) : ∃ n p1 p2 k', ppVarName cc p = (.ok n, p1) ∧ parseOneInstr n p1 = (.ok is, p2) ∧
      R (';' :: w) k' p2 ∧ k' + 1 = k + t.length := by
  cases h with
  | @plain n i hi =>
    rw [List.append_assoc] at hp
    obtain ⟨p1, h1, h2⟩ := H.varName_ok cc hp (plainTable_name hi) (noName_semi cc w)
    refine ⟨n, p1, p1, _, h1, ?_, h2, by simp; omega⟩
    rcases constInstr_cases n with ⟨mk, mk', -, -, -, -, h3⟩ | ⟨h3, -⟩
    · exact absurd hi (h3 i)
    · simp only [parseOneInstr, h3, (plainInstr_table n i).2 hi]; rfl
  | @unknown n hn hp1 hp2 =>
    rw [List.append_assoc] at hp
    obtain ⟨p1, h1, h2⟩ := H.varName_ok cc hp hn (noName_semi cc w)
    refine ⟨n, p1, p1, _, h1, ?_, h2, by simp; omega⟩
    have h4 : plainInstr n = none := by
      cases h : plainInstr n with
      | none => rfl
      | some i => exact absurd ((plainInstr_table n i).1 h) (hp1 i)
    rcases constInstr_cases n with ⟨mk, mk', -, h3, -, -, -⟩ | ⟨h3, -⟩
    · exact absurd h3 (hp2 mk')
    · simp only [parseOneInstr, h3, h4]; rfl
  | @const n g ds mk hm hg hgne d1 d2 d3 =>
    have hp' : R (n ++ (g ++ (ds ++ (';' :: w)))) k p := by simpa using hp
    have hgn : NoNameAhead cc (g ++ (ds ++ (';' :: w))) := by
      cases g with
      | nil => exact absurd rfl hgne
      | cons c g =>
        rintro d r he
        injection he with he _
        subst he
        exact hcc c (hg c (by simp))
    obtain ⟨p1, h1, h2⟩ := H.varName_ok cc hp' (constTable_name hm) hgn
    have hds : NoSpaceAhead (ds ++ (';' :: w)) := by
      cases ds with
      | nil => exact absurd rfl d1
      | cons c ds =>
        rintro d r he
        injection he with he _
        subst he
        cases hs : CharClass.isWhitespace c with
        | false => rfl
        | true =>
          have := hcc c hs
          rw [digit_nameChar (d2 c (by simp))] at this
          cases this
    obtain ⟨p2, h3, h4⟩ := ppWhitespace_ok H h2 hg hds
    obtain ⟨p3, h5, h6⟩ := ppUsize_ok H h4 d1 d2 d3 (by rintro c r he; injection he with he _; subst he; decide)
    refine ⟨n, p1, p3, _, h1, ?_, h6, by simp; omega⟩
    rcases constInstr_cases n with ⟨mk1, mk', e1, e2, e3, e4, -⟩ | ⟨-, e1⟩
    · simp only [parseOneInstr, e1]
      rw [smBind_ok h3, smBind_ok h5, e3 _ d3, e4 mk hm]
      rfl
    · exact absurd hm (e1 mk)

/-- Reading past a sequence of instructions. -/
theorem stackLoop_prefix (H : RReader R) {cc : CharClass} (hcc : SpaceOk cc) {is : List Instr} {t : Str} (h : InstrsText cc is t)
    {w : Str} (hw : NoSpaceAhead w) :
    ∀ (fuel : Nat) (acc : List Instr) (k : Nat) (p : PP σ), R (t ++ w) k p → (t ++ w).length < fuel →
    ∃ fuel' p', stackParseLoop cc fuel acc p = stackParseLoop cc fuel' (acc ++ is) p' ∧ R w (k + t.length) p' ∧ w.length < fuel' := by
  induction h with
  | nil =>
    intro fuel acc k p hp hf
    exact ⟨fuel, p, by rw [List.append_nil], hp, hf⟩
  | @cons is is' t g t' hi hg hs ih =>
    intro fuel acc k p hp hf
    cases fuel with
    | zero => omega
    | succ fuel =>
      have hp' : R (t ++ (g ++ (t' ++ w))) k p := by simpa using hp
      obtain ⟨p1, h1, h2⟩ := H.peek hp'
      obtain ⟨c, r, ht, -⟩ := hi.head
      have hpk : ppPeek p = (.ok (some c), p1) := by
        simp only [ppPeek, h1]
        rw [ht]; rfl
      obtain ⟨n, p2, p3, k', g1, g2, g3, g4⟩ := oneInstr_ok H hcc hi h2
      obtain ⟨p4, e1, e2⟩ := H.symbol_ok (by decide) g3
      have e1' : ppSymbol ';' p3 = (.ok (), p4) := e1
      rw [g4] at e2
      have hns : NoSpaceAhead (t' ++ w) := by
        cases t' with
        | nil => exact hw
        | cons d t' =>
          rintro x r he
          injection he with he _
          subst he
          exact hs.noSpace hcc d t' rfl
      obtain ⟨p5, e3, e4⟩ := ppWhitespace_ok H e2 hg hns
      have hlen : (t' ++ w).length < fuel := by
        simp only [List.length_append, ht, List.length_cons] at hf ⊢
        omega
      obtain ⟨fuel', p6, e5, e6, e7⟩ := ih fuel (acc ++ is) _ p5 e4 hlen
      refine ⟨fuel', p6, ?_, ?_, e7⟩
      · rw [stackParseLoop, smBind_ok hpk]
        simp only
        rw [smBind_ok g1, smBind_ok g2, smBind_ok e1', smBind_ok e3, e5, List.append_assoc]
      · rw [List.length_append, List.length_append, ← Nat.add_assoc, ← Nat.add_assoc]; exact e6

theorem stackLoop_complete (H : RReader R) {cc : CharClass} (hcc : SpaceOk cc) {is : List Instr} {w : Str} (h : InstrsText cc is w)
    (fuel : Nat) (acc : List Instr) (k : Nat) (p : PP σ) (hp : R w k p) (hf : w.length < fuel) :
    ∃ p', stackParseLoop cc fuel acc p = (.ok (acc ++ is), p') ∧ R [] (k + w.length) p' := by
  obtain ⟨fuel', p', h1, h2, h3⟩ := stackLoop_prefix H hcc h (w := []) (by intro c r h; cases h) fuel acc k p (by simpa using hp)
    (by simpa using hf)
  cases fuel' with
  | zero => simp at h3
  | succ fuel' =>
    obtain ⟨p1, h4, h5⟩ := H.peek h2
    have hpk : ppPeek p' = (.ok none, p1) := by simp only [ppPeek, h4, List.head?_nil]
    refine ⟨p1, ?_, h5⟩
    rw [h1, stackParseLoop, smBind_ok hpk]
    rfl

theorem ppUsize_big (H : RReader R) {ds w : Str} {k : Nat} {p : PP σ} (h : R (ds ++ w) k p) (h1 : ds ≠ []) (h2 : ∀ c ∈ ds, IsDigit c)
    (h3 : 2 ^ 64 ≤ decimalValue ds) (hw : ∀ c r, w = c :: r → CharClass.isAsciiDigit c = false) :
    ∃ p', ppUsize p = (.err .impossible, p') := by
  obtain ⟨p', e1, e2⟩ := H.requiredDigits h
  obtain ⟨e3, e4⟩ := dropWhile_append_of (f := CharClass.isAsciiDigit) (fun c hc => (isAsciiDigit_iff c).2 (h2 c hc)) hw
  have hr : Reader.reqDigits (ds ++ w) k = .ok ds := by
    cases ds with
    | nil => exact absurd rfl h1
    | cons c ds =>
      have hc := (isAsciiDigit_iff c).2 (h2 c (by simp))
      have : Reader.reqDigits (c :: ds ++ w) k = .ok ((c :: ds ++ w).takeWhile CharClass.isAsciiDigit) := by
        simp only [Reader.reqDigits, List.cons_append, hc, if_true]
      rw [this, e4]
  refine ⟨p', ?_⟩
  show parseUsize p = _
  simp only [parseUsize, e1, hr, strToUsize_digits h1 h2, if_neg (Nat.not_lt.2 h3), Res.ofOption]

/-- An instruction whose constant is too large. -/
theorem stackLoop_big (H : RReader R) {cc : CharClass} (hcc : SpaceOk cc) {n g ds w : Str} {mk : Nat → Instr} (hm : (n, mk) ∈ constTable)
    (hg : IsSpace g) (hgne : g ≠ []) (d1 : ds ≠ []) (d2 : ∀ c ∈ ds, IsDigit c) (d3 : 2 ^ 64 ≤ decimalValue ds)
    (hw : ∀ c r, w = c :: r → CharClass.isAsciiDigit c = false) (fuel : Nat) (acc : List Instr) {k : Nat} {p : PP σ}
    (hp : R (n ++ (g ++ (ds ++ w))) k p) : ∃ p', stackParseLoop cc (fuel + 1) acc p = (.err .impossible, p') := by
  obtain ⟨p0, h01, h02⟩ := H.peek hp
  have hpk : ∃ c, ppPeek p = (.ok (some c), p0) := by
    obtain ⟨c, cs, rfl, -⟩ := constTable_name (cc := cc) hm
    exact ⟨c, by simp only [ppPeek, h01, List.cons_append, List.head?_cons]⟩
  obtain ⟨c, hpk⟩ := hpk
  have hgn : NoNameAhead cc (g ++ (ds ++ w)) := by
    cases g with
    | nil => exact absurd rfl hgne
    | cons c g =>
      rintro d r he
      injection he with he _
      subst he
      exact hcc c (hg c (by simp))
  obtain ⟨p1, h1, h2⟩ := H.varName_ok cc h02 (constTable_name hm) hgn
  have h1' : ppVarName cc p0 = (.ok n, p1) := h1
  have hds : NoSpaceAhead (ds ++ w) := by
    cases ds with
    | nil => exact absurd rfl d1
    | cons c ds =>
      rintro d r he
      injection he with he _
      subst he
      cases hs : CharClass.isWhitespace c with
      | false => rfl
      | true =>
        have := hcc c hs
        rw [digit_nameChar (d2 c (by simp))] at this
        cases this
  obtain ⟨p2, h3, h4⟩ := ppWhitespace_ok H h2 hg hds
  obtain ⟨p3, h5⟩ := ppUsize_big H h4 d1 d2 d3 hw
  refine ⟨p3, ?_⟩
  rw [stackParseLoop, smBind_ok hpk]
  simp only
  rw [smBind_ok h1']
  have : parseOneInstr n p1 = (.err .impossible, p3) := by
    rcases constInstr_cases n with ⟨mk1, mk', e1, -⟩ | ⟨-, e1⟩
    · simp only [parseOneInstr, e1]
      rw [smBind_ok h3, SM.bind_apply, h5]
    · exact absurd hm (e1 mk)
  rw [SM.bind_apply, this]

end

/-! ### Sections -/

theorem stackParse_sound (cc : CharClass) (w tail : Str) (hw : '}' ∉ w) (ht : tail = [] ∨ ∃ r, tail = '}' :: r) (k : Nat) :
    Out (SecAt (sectionProcess (w ++ tail) k) tail) w k (stackParse cc (sectionProcess (w ++ tail) k))
      (fun is u w' => w' = [] ∧ StackSection cc is u) := by
  have H := secReader (sectionProcess (w ++ tail) k) ht
  have h0 := secAt_start (tail := tail) hw k
  obtain ⟨g, w', rfl, h1, h2, -⟩ := space_split w
  obtain ⟨p1, e1, e2⟩ := ppWhitespace_ok H h0 h1 h2
  have e1' : parseWhitespace (sectionProcess (g ++ w' ++ tail) k) = p1 := congrArg Prod.snd e1
  have hs := stackLoop_sound H cc (p1.rest.length + 1) [] w' _ p1 e2 (by have := H.len e2; omega)
  have : stackParse cc (sectionProcess (g ++ w' ++ tail) k) = stackParseLoop cc (p1.rest.length + 1) [] p1 := by
    simp only [stackParse, e1']
  rw [this]
  obtain ⟨u, w'', f1, f2, f3⟩ := hs
  refine ⟨g ++ u, w'', by rw [f1, List.append_assoc], by rw [List.length_append, ← Nat.add_assoc]; exact f2, ?_⟩
  rcases f3 with ⟨is, hi, rfl, is', hi', h3⟩ | ⟨e, he, hs⟩
  · rw [List.nil_append] at hi'
    subst hi'
    exact .inl ⟨is, hi, rfl, g, u, rfl, h1, h3⟩
  · exact .inr ⟨e, he, hs.suffix⟩

theorem stackParse_complete {cc : CharClass} (hcc : SpaceOk cc) {is : List Instr} {w tail : Str} (h : StackSection cc is w)
    (hw : '}' ∉ w) (ht : tail = [] ∨ ∃ r, tail = '}' :: r) (k : Nat) :
    ∃ p, stackParse cc (sectionProcess (w ++ tail) k) = (.ok is, p) ∧ p.src = Proc.at tail (k + w.length) := by
  have H := secReader (sectionProcess (w ++ tail) k) ht
  have h0 := secAt_start (tail := tail) hw k
  obtain ⟨g, t, rfl, h1, h2⟩ := h
  obtain ⟨p1, e1, e2⟩ := ppWhitespace_ok H h0 h1 (h2.noSpace hcc)
  have e1' : parseWhitespace (sectionProcess (g ++ t ++ tail) k) = p1 := congrArg Prod.snd e1
  obtain ⟨p2, e3, e4⟩ := stackLoop_complete H hcc h2 (p1.rest.length + 1) [] _ p1 e2 (by have := H.len e2; omega)
  refine ⟨p2, ?_, ?_⟩
  · simp only [stackParse, e1', e3, List.nil_append]
  · obtain ⟨-, ⟨e, rfl, -⟩, -⟩ := e4
    simp only [List.nil_append, List.length_append, Nat.add_assoc]

/-- No instruction text contains a brace. -/
theorem Spec.IsName.noBrace {cc : CharClass} {n : Str} (h : IsName cc n) : '}' ∉ n ∧ '\\' ∉ n := by
  obtain ⟨c, cs, rfl, hc, hcs⟩ := h
  constructor
  all_goals
    intro hm
    rcases List.mem_cons.1 hm with rfl | hm
    · simp [CharClass.isAlphabetic] at hc
    · rcases hcs _ hm with h | h
      · simp [CharClass.isAlphanumeric, CharClass.isAlphabetic, CharClass.isNumeric, CharClass.isAsciiDigit] at h
      · cases h

theorem Spec.IsSpace.noBrace {g : Str} (h : IsSpace g) : '}' ∉ g ∧ '\\' ∉ g :=
  ⟨fun hm => absurd (h _ hm) (by decide), fun hm => absurd (h _ hm) (by decide)⟩

theorem digits_noBrace {g : Str} (h : ∀ c ∈ g, IsDigit c) : '}' ∉ g ∧ '\\' ∉ g :=
  ⟨fun hm => absurd (h _ hm) (by decide), fun hm => absurd (h _ hm) (by decide)⟩

theorem Spec.InstrText.noBrace {cc : CharClass} {is : List Instr} {t : Str} (h : InstrText cc is t) : '}' ∉ t ∧ '\\' ∉ t := by
  cases h with
  | plain h => have := (plainTable_name (cc := cc) h).noBrace; simp [this]
  | const h hg _ _ hd _ => have := (constTable_name (cc := cc) h).noBrace; simp [this, hg.noBrace, digits_noBrace hd]
  | unknown h _ _ => have := h.noBrace; simp [this]

theorem Spec.StackSection.noBrace {cc : CharClass} {is : List Instr} {t : Str} (h : StackSection cc is t) : '}' ∉ t ∧ '\\' ∉ t := by
  obtain ⟨g, t, rfl, hg, h⟩ := h
  have : '}' ∉ t ∧ '\\' ∉ t := by
    induction h with
    | nil => simp
    | cons h hg _ ih => simp [h.noBrace, hg.noBrace, ih]
  simp [this, hg.noBrace]

end HPP
