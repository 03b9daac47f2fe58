import Verif.Spec.AnySection
/-
C114: the lexical helpers on processes nested to any depth, with any stop and escape characters and after any history.
-/
namespace HPP
open Spec
variable {n : Nat}

theorem took_nil {p : PP (Nest n)} : Took p [] p := ⟨rfl, by simp⟩

theorem Spec.Took.trans {p q r : PP (Nest n)} {u v : Str} (h1 : Took p u q) (h2 : Took q v r) : Took p (u ++ v) r := by
  refine ⟨?_, ?_⟩
  · rw [h1.1, h2.1, List.append_assoc]
  · rw [h2.2, h1.2, List.map_map]
    apply List.map_congr_left
    intro k _
    simp only [Function.comp, List.length_append]
    omega

theorem Spec.Took.nil_trans {p q r : PP (Nest n)} {v : Str} (h1 : Took p [] q) (h2 : Took q v r) : Took p v r := h1.trans h2

theorem Spec.Took.trans_nil {p q r : PP (Nest n)} {v : Str} (h1 : Took p v q) (h2 : Took q [] r) : Took p v r := by
  have := h1.trans h2
  rwa [List.append_nil] at this

theorem Spec.Took.pos {p q : PP (Nest n)} {v : Str} (h : Took p v q) : q.curPos = p.curPos + v.length := by
  have h2 := h.2
  simp only [Nest.positions, List.map_cons, List.cons.injEq] at h2
  exact h2.1

theorem took_peek (p : PP (Nest n)) : Took p [] p.peek.2 := by
  obtain ⟨h1, h2, -⟩ := read_step_ok (n + 1) .peek p
  exact ⟨h1, h2⟩

theorem peek_head (p : PP (Nest n)) {c : Char} (h : p.peek.1 = some c) : p.rest.head? = some c :=
  (read_step_ok (n + 1) .peek p).2.2 c h

theorem took_next_none (p : PP (Nest n)) (h : p.next.1 = none) : Took p [] p.next.2 := by
  obtain ⟨h1, h2, -⟩ := read_step_ok (n + 1) .next p
  have e : (ReadOp.next.run (σ := Nest (n + 1)) p).1 = none := h
  rw [e] at h1 h2
  exact ⟨h1, h2⟩

theorem took_next_some (p : PP (Nest n)) {c : Char} (h : p.next.1 = some c) : Took p [c] p.next.2 := by
  obtain ⟨h1, h2, -⟩ := read_step_ok (n + 1) .next p
  have e : (ReadOp.next.run (σ := Nest (n + 1)) p).1 = some c := h
  rw [e] at h1 h2
  exact ⟨h1, h2⟩

theorem next_head (p : PP (Nest n)) {c : Char} (h : p.next.1 = some c) : p.rest.head? = some c :=
  (read_step_ok (n + 1) .next p).2.2 c h

/-- What `next` returns after a `peek` that showed `x` is `x` or nothing. -/
theorem next_after_peek (p : PP (Nest n)) {x d : Char} (h : p.peek.1 = some x) (hn : p.peek.2.next.1 = some d) : d = x := by
  have h1 := peek_head p h
  have h2 := next_head _ hn
  rw [(took_peek p).1, List.nil_append, h2] at h1
  exact Option.some.inj h1

/-! ### Stop characters -/

theorem peek_visible : ∀ (n : Nat) (p : Nest n) (x : Char), (TPeekable.rest p).head? = some x → x ∉ stopChars n p →
    (TPeekable.peek p).1 = some x ∧ (TPeekable.next p).1 = some x ∧ TPeekable.rest (TPeekable.peek p).2 = TPeekable.rest p ∧
      stopChars n (TPeekable.peek p).2 = stopChars n p
  | 0, p, x, hx, _ => by
    rcases p with ⟨w⟩
    cases w with
    | nil => cases hx
    | cons c w => exact ⟨hx, hx, rfl, rfl⟩
  | n + 1, p, x, hx, hs => by
    obtain ⟨hs1, hs2⟩ : x ∉ (PP.stopOn (σ := Nest n) p).toList ∧ x ∉ stopChars n (PP.src p) := by
      simpa [stopChars] using hs
    obtain ⟨i1, -, i3, i4⟩ := peek_visible n (PP.src p) x hx hs2
    obtain ⟨j1, j2, j3, j4⟩ := peek_visible n (TPeekable.peek (PP.src (σ := Nest n) p)).2 x (by rw [i3]; exact hx) (by rw [i4]; exact hs2)
    have hca : ∃ b, PP.checkAllowed (σ := Nest n) p =
        (true, { p with src := (TPeekable.peek (PP.src (σ := Nest n) p)).2, escape := b }) := by
      simp only [PP.checkAllowed]
      rcases hpk : TPeekable.peek (PP.src (σ := Nest n) p) with ⟨o, s⟩
      rw [hpk] at i1
      simp only at i1
      subst i1
      simp only
      cases he : PP.escapeChar (σ := Nest n) p with
      | none => exact ⟨PP.escape (σ := Nest n) p, rfl⟩
      | some ec =>
        cases hso : PP.stopOn (σ := Nest n) p with
        | none => exact ⟨PP.escape (σ := Nest n) p, rfl⟩
        | some so =>
          have hne : x ≠ so := by
            rintro rfl
            rw [hso] at hs1
            simp at hs1
          simp only
          by_cases h1 : x = ec
          · exact ⟨true, by rw [if_pos h1]⟩
          · exact ⟨false, by rw [if_neg h1, if_neg (fun h => hne h.1)]⟩
    obtain ⟨b, hca⟩ := hca
    have hp : TPeekable.peek (σ := Nest (n + 1)) p = (some x, ({ p with
        src := (TPeekable.peek (TPeekable.peek (PP.src (σ := Nest n) p)).2).2, escape := b } : PP (Nest n))) := by
      show PP.peek (σ := Nest n) p = _
      simp only [PP.peek, hca]
      rw [j1]
    have hn : (TPeekable.next (σ := Nest (n + 1)) p).1 = some x := by
      show (PP.next (σ := Nest n) p).1 = _
      simp only [PP.next, hca]
      rcases hnx : TPeekable.next (TPeekable.peek (PP.src (σ := Nest n) p)).2 with ⟨o, s⟩
      rw [hnx] at j2
      simp only at j2
      subst j2
      rfl
    refine ⟨by rw [hp], hn, ?_, ?_⟩
    · rw [hp]
      show TPeekable.rest (TPeekable.peek (TPeekable.peek (PP.src (σ := Nest n) p)).2).2 = TPeekable.rest (PP.src (σ := Nest n) p)
      rw [j3, i3]
    · rw [hp]
      show (PP.stopOn (σ := Nest n) p).toList ++ stopChars n (TPeekable.peek (TPeekable.peek (PP.src (σ := Nest n) p)).2).2 = _
      rw [j4, i4]
      rfl

/-- The stop characters stay. -/
theorem stops_next : ∀ (n : Nat) (p : Nest n), stopChars n (TPeekable.peek p).2 = stopChars n p ∧
    stopChars n (TPeekable.next p).2 = stopChars n p
  | 0, _ => ⟨rfl, rfl⟩
  | n + 1, p => by
    have hca : stopChars n (PP.checkAllowed (σ := Nest n) p).2.src = stopChars n (PP.src (σ := Nest n) p) ∧
        (PP.checkAllowed (σ := Nest n) p).2.stopOn = PP.stopOn (σ := Nest n) p := by
      have := (stops_next n (PP.src (σ := Nest n) p)).1
      simp only [PP.checkAllowed]
      rcases hpk : TPeekable.peek (PP.src (σ := Nest n) p) with ⟨o, s⟩
      rw [hpk] at this
      simp only at this ⊢
      split
      · split
        · exact ⟨this, rfl⟩
        · split <;> exact ⟨this, rfl⟩
      · exact ⟨this, rfl⟩
    refine ⟨?_, ?_⟩
    · show stopChars (n + 1) (PP.peek (σ := Nest n) p).2 = _
      simp only [PP.peek]
      rcases hc : PP.checkAllowed (σ := Nest n) p with ⟨b, q⟩
      rw [hc] at hca
      have hq := (stops_next n q.src).1
      cases b <;> simp only [stopChars] <;> simp only at hca
      · rw [hca.1, hca.2]
      · rw [hq, hca.1, hca.2]
    · show stopChars (n + 1) (PP.next (σ := Nest n) p).2 = _
      simp only [PP.next]
      rcases hc : PP.checkAllowed (σ := Nest n) p with ⟨b, q⟩
      rw [hc] at hca
      have hq := (stops_next n q.src).2
      cases b
      · simp only [stopChars]; simp only at hca
        rw [hca.1, hca.2]
      · simp only at hca ⊢
        rcases hnx : TPeekable.next q.src with ⟨o, s⟩
        rw [hnx] at hq
        simp only at hq
        cases o <;> simp only [stopChars] <;> rw [hq, hca.1, hca.2]

/-- After a `peek` that showed a character no process stops on, `next` returns it. -/
theorem next_of_peek (p : PP (Nest n)) {x : Char} (h : p.peek.1 = some x) (hx : x ∉ stopChars (n + 1) p) :
    p.peek.2.next.1 = some x := by
  have h1 := peek_head p h
  have h2 : p.peek.2.rest.head? = some x := by
    rw [(took_peek p).1, List.nil_append] at h1
    exact h1
  have h3 : stopChars (n + 1) p.peek.2 = stopChars (n + 1) p := (stops_next (n + 1) p).1
  exact (peek_visible (n + 1) p.peek.2 x h2 (by rw [h3]; exact hx)).2.1

/-! ### The end stays the end -/

theorem end_stays : ∀ (n : Nat) (p : Nest n), ((TPeekable.peek p).1 = none → (TPeekable.peek (TPeekable.peek p).2).1 = none) ∧
    ((TPeekable.next p).1 = none → (TPeekable.peek (TPeekable.next p).2).1 = none)
  | 0, p => by
    rcases p with ⟨w⟩
    cases w with
    | nil => exact ⟨fun _ => rfl, fun _ => rfl⟩
    | cons c w => exact ⟨fun h => (by cases h), fun h => (by cases h)⟩
  | n + 1, p => by
    have hsrc : ∀ q : PP (Nest n), (TPeekable.peek q.src).1 = none → q.peek.1 = none := by
      intro q hq
      have ha := (end_stays n q.src).1 hq
      have : q.checkAllowed = (true, { q with src := (TPeekable.peek q.src).2 }) := by
        simp only [PP.checkAllowed]
        rcases hpk : TPeekable.peek q.src with ⟨o, s⟩
        rw [hpk] at hq
        simp only at hq
        subst hq
        rfl
      simp only [PP.peek, this]
      exact ha
    have hdis : ∀ q : PP (Nest n), q.checkAllowed.1 = false → q.checkAllowed.2.peek.1 = none := by
      intro q hq
      have hrest : TPeekable.rest (TPeekable.peek q.src).2 = TPeekable.rest q.src := by
        have := (read_step_ok n .peek q.src).1
        exact this.symm
      have hshow : ∀ c, (TPeekable.peek q.src).1 = some c → (TPeekable.rest q.src).head? = some c :=
        (read_step_ok n .peek q.src).2.2
      have hshow2 : ∀ c, (TPeekable.peek (TPeekable.peek q.src).2).1 = some c → (TPeekable.rest q.src).head? = some c := by
        intro c hc
        rw [← hrest]
        exact (read_step_ok n .peek (TPeekable.peek q.src).2).2.2 c hc
      have key : ∃ so ec : Char, q.checkAllowed.2 = { q with src := (TPeekable.peek q.src).2 } ∧
          (TPeekable.peek q.src).1 = some so ∧ q.escapeChar = some ec ∧ q.stopOn = some so ∧ so ≠ ec ∧ q.escape = false := by
        revert hq
        simp only [PP.checkAllowed]
        rcases hpk : TPeekable.peek q.src with ⟨o, s⟩
        simp only
        cases o with
        | none => intro h; cases h
        | some c =>
          cases he : q.escapeChar with
          | none => intro h; cases h
          | some ec =>
            cases hso : q.stopOn with
            | none => intro h; cases h
            | some so =>
              simp only
              by_cases h1 : c = ec
              · rw [if_pos h1]; intro h; cases h
              · rw [if_neg h1]
                by_cases h2 : c = so ∧ q.escape = false
                · rw [if_pos h2]
                  intro _
                  obtain ⟨rfl, h3⟩ := h2
                  refine ⟨c, ec, ?_, rfl, rfl, rfl, h1, h3⟩
                  rfl
                · rw [if_neg h2]; intro h; cases h
      obtain ⟨so, ec, k1, k2, k3, k4, k5, k6⟩ := key
      rw [k1]
      cases hp2 : (TPeekable.peek (TPeekable.peek q.src).2).1 with
      | none => exact hsrc _ hp2
      | some c =>
        have hc : c = so := by
          have a := hshow2 c hp2
          rw [hshow so k2] at a
          exact (Option.some.inj a).symm
        subst hc
        have : PP.checkAllowed (σ := Nest n) { q with src := (TPeekable.peek q.src).2 } =
            (false, { q with src := (TPeekable.peek (TPeekable.peek q.src).2).2 }) := by
          simp only [PP.checkAllowed]
          rcases hpk : TPeekable.peek (TPeekable.peek q.src).2 with ⟨o, s⟩
          rw [hpk] at hp2
          simp only at hp2
          subst hp2
          simp [k3, k4, k5, k6]
        simp only [PP.peek, this]
    refine ⟨?_, ?_⟩
    · intro h
      have h' : (PP.peek (σ := Nest n) p).1 = none := h
      show (PP.peek (σ := Nest n) (PP.peek (σ := Nest n) p).2).1 = none
      rcases hc : PP.checkAllowed (σ := Nest n) p with ⟨b, q⟩
      have hd := hdis p
      rw [hc] at hd
      cases b with
      | false =>
        have e : PP.peek (σ := Nest n) p = (none, q) := by simp only [PP.peek, hc]
        rw [e]
        exact hd rfl
      | true =>
        have e : PP.peek (σ := Nest n) p = ((TPeekable.peek q.src).1, { q with src := (TPeekable.peek q.src).2 }) := by
          simp only [PP.peek, hc]
        rw [e] at h' ⊢
        exact hsrc _ ((end_stays n q.src).1 h')
    · intro h
      have h' : (PP.next (σ := Nest n) p).1 = none := h
      show (PP.peek (σ := Nest n) (PP.next (σ := Nest n) p).2).1 = none
      rcases hc : PP.checkAllowed (σ := Nest n) p with ⟨b, q⟩
      have hd := hdis p
      rw [hc] at hd
      cases b with
      | false =>
        have e : PP.next (σ := Nest n) p = (none, q) := by simp only [PP.next, hc]
        rw [e]
        exact hd rfl
      | true =>
        rcases hnx : TPeekable.next q.src with ⟨o, s⟩
        have hb := (end_stays n q.src).2
        rw [hnx] at hb
        cases o with
        | none =>
          have e : PP.next (σ := Nest n) p = (none, { q with src := s }) := by simp only [PP.next, hc, hnx]
          rw [e]
          exact hsrc _ (hb rfl)
        | some c =>
          have e : PP.next (σ := Nest n) p = (some c, { q with src := s, pos := q.pos + 1 }) := by simp only [PP.next, hc, hnx]
          rw [e] at h'
          cases h'

/-! ### The readers -/

/-- The loop of `parse_digits`. -/
theorem digitsLoop_any : ∀ (fuel : Nat) (acc : Str) (p : PP (Nest n)), p.rest.length < fuel →
    ∃ u p', (∀ c ∈ u, IsDigit c) ∧ Took p u p' ∧
      (parseDigitsLoop fuel acc p = (.ok (acc ++ u), p') ∧ (∃ q, Took p u q ∧ SawNo IsDigit q p') ∨
       parseDigitsLoop fuel acc p = (.err (.endOfChars p'.curPos), p') ∧
         ∃ c, IsDigit c ∧ c ∈ stopChars (n + 1) p ∧ p'.rest.head? = some c)
  | 0, _, _, h => absurd h (Nat.not_lt_zero _)
  | fuel + 1, acc, p, hf => by
    have tp := took_peek p
    have hstop : stopChars (n + 1) p.peek.2 = stopChars (n + 1) p := (stops_next (n + 1) p).1
    have hnp := fun x (h : p.peek.1 = some x) => next_of_peek p h
    have hap := fun x d (h : p.peek.1 = some x) (h2 : p.peek.2.next.1 = some d) => next_after_peek p h h2
    have hhd := fun x (h : p.peek.1 = some x) => peek_head p h
    have hsaw : (∀ c, p.peek.1 = some c → ¬ IsDigit c) → SawNo IsDigit p p.peek.2 := fun h => ⟨rfl, h⟩
    simp only [parseDigitsLoop]
    rcases hpk : p.peek with ⟨o, p1⟩
    rw [hpk] at tp hstop hnp hap hhd hsaw
    simp only at tp hstop hnp hap hhd hsaw
    cases o with
    | none => exact ⟨[], p1, by simp, tp, Or.inl ⟨by simp, p, took_nil, hsaw (fun c h => (by cases h))⟩⟩
    | some x =>
      simp only
      cases hd : CharClass.isAsciiDigit x with
      | false =>
        have hx : ¬ IsDigit x := by rw [← isAsciiDigit_iff, hd]; decide
        refine ⟨[], p1, by simp, tp, Or.inl ⟨by simp, p, took_nil, hsaw ?_⟩⟩
        intro c h
        cases h
        exact hx
      | true =>
        have hx : IsDigit x := (isAsciiDigit_iff x).1 hd
        simp only [Bool.not_true, Bool.false_eq_true, if_false]
        have tn := took_next_none p1
        have ts := fun d (h : p1.next.1 = some d) => took_next_some p1 h
        have hs1 : stopChars (n + 1) p1.next.2 = stopChars (n + 1) p1 := (stops_next (n + 1) p1).2
        have hnp := hnp x rfl
        have hap := fun d h => hap x d rfl h
        rcases hnx : p1.next with ⟨o2, p2⟩
        rw [hnx] at tn ts hnp hap hs1
        simp only at tn ts hnp hap hs1
        cases o2 with
        | none =>
          have t2 := tp.trans (tn rfl)
          refine ⟨[], p2, by simp, t2, Or.inr ⟨?_, x, hx, ?_, ?_⟩⟩
          · have : p2.curPos = p1.curPos := by rw [(tn rfl).pos]; rfl
            rw [this]
          · by_cases h : x ∈ stopChars (n + 1) p
            · exact h
            · exact absurd (hnp h) (by simp)
          · have := hhd x rfl
            rw [t2.1, List.nil_append] at this
            exact this
        | some d =>
          have hdx : d = x := hap d rfl
          subst hdx
          have t2 : Took p [d] p2 := tp.nil_trans (ts d rfl)
          have hlen : p2.rest.length < fuel := by
            have := congrArg List.length t2.1
            simp only [List.length_append, List.length_cons, List.length_nil] at this
            omega
          obtain ⟨u, p', hu, tu, h⟩ := digitsLoop_any fuel (acc ++ [d]) p2 hlen
          refine ⟨d :: u, p', ?_, t2.trans tu, ?_⟩
          · intro c hc
            rcases List.mem_cons.1 hc with rfl | hc
            · exact hx
            · exact hu c hc
          · rcases h with ⟨h1, q, h2, h3⟩ | ⟨h1, h2⟩
            · exact Or.inl ⟨by simp only; rw [h1]; simp, q, t2.trans h2, h3⟩
            · refine Or.inr ⟨h1, ?_⟩
              rw [hs1, hstop] at h2
              exact h2

/-- The loop of `parse_var_name`. -/
theorem varNameLoop_any (cc : CharClass) : ∀ (fuel : Nat) (acc : Str) (p : PP (Nest n)), p.rest.length < fuel →
    ∃ u p', (∀ c ∈ u, cc.isAlphanumeric c = true ∨ c = '_') ∧ Took p u p' ∧
      (parseVarNameLoop cc fuel acc p = (.ok (acc ++ u), p') ∧
        (∃ q, Took p u q ∧ SawNo (fun c => cc.isAlphanumeric c = true ∨ c = '_') q p') ∨
       parseVarNameLoop cc fuel acc p = (.err (.endOfChars p'.curPos), p') ∧
         ∃ c, (cc.isAlphanumeric c = true ∨ c = '_') ∧ c ∈ stopChars (n + 1) p ∧ p'.rest.head? = some c)
  | 0, _, _, h => absurd h (Nat.not_lt_zero _)
  | fuel + 1, acc, p, hf => by
    have tp := took_peek p
    have hstop : stopChars (n + 1) p.peek.2 = stopChars (n + 1) p := (stops_next (n + 1) p).1
    have hnp := fun x (h : p.peek.1 = some x) => next_of_peek p h
    have hap := fun x d (h : p.peek.1 = some x) (h2 : p.peek.2.next.1 = some d) => next_after_peek p h h2
    have hhd := fun x (h : p.peek.1 = some x) => peek_head p h
    have hsaw : (∀ c, p.peek.1 = some c → ¬ (cc.isAlphanumeric c = true ∨ c = '_')) →
        SawNo (fun c => cc.isAlphanumeric c = true ∨ c = '_') p p.peek.2 := fun h => ⟨rfl, h⟩
    simp only [parseVarNameLoop]
    rcases hpk : p.peek with ⟨o, p1⟩
    rw [hpk] at tp hstop hnp hap hhd hsaw
    simp only at tp hstop hnp hap hhd hsaw
    cases o with
    | none => exact ⟨[], p1, by simp, tp, Or.inl ⟨by simp, p, took_nil, hsaw (fun c h => (by cases h))⟩⟩
    | some x =>
      simp only
      cases hd : (cc.isAlphanumeric x || x == '_') with
      | false =>
        have hx : ¬ (cc.isAlphanumeric x = true ∨ x = '_') := by
          simp only [Bool.or_eq_false_iff, beq_eq_false_iff_ne] at hd
          rintro (h | h)
          · rw [hd.1] at h; cases h
          · exact hd.2 h
        refine ⟨[], p1, by simp, tp, Or.inl ⟨by simp, p, took_nil, hsaw ?_⟩⟩
        intro c h
        cases h
        exact hx
      | true =>
        have hx : cc.isAlphanumeric x = true ∨ x = '_' := by simpa using hd
        simp only [Bool.not_true, Bool.false_eq_true, if_false]
        have tn := took_next_none p1
        have ts := fun d (h : p1.next.1 = some d) => took_next_some p1 h
        have hs1 : stopChars (n + 1) p1.next.2 = stopChars (n + 1) p1 := (stops_next (n + 1) p1).2
        have hnp := hnp x rfl
        have hap := fun d h => hap x d rfl h
        rcases hnx : p1.next with ⟨o2, p2⟩
        rw [hnx] at tn ts hnp hap hs1
        simp only at tn ts hnp hap hs1
        cases o2 with
        | none =>
          have t2 := tp.trans (tn rfl)
          refine ⟨[], p2, by simp, t2, Or.inr ⟨rfl, x, hx, ?_, ?_⟩⟩
          · by_cases h : x ∈ stopChars (n + 1) p
            · exact h
            · exact absurd (hnp h) (by simp)
          · have := hhd x rfl
            rw [t2.1, List.nil_append] at this
            exact this
        | some d =>
          have hdx : d = x := hap d rfl
          subst hdx
          have t2 : Took p [d] p2 := tp.nil_trans (ts d rfl)
          have hlen : p2.rest.length < fuel := by
            have := congrArg List.length t2.1
            simp only [List.length_append, List.length_cons, List.length_nil] at this
            omega
          obtain ⟨u, p', hu, tu, h⟩ := varNameLoop_any cc fuel (acc ++ [d]) p2 hlen
          refine ⟨d :: u, p', ?_, t2.trans tu, ?_⟩
          · intro c hc
            rcases List.mem_cons.1 hc with rfl | hc
            · exact hx
            · exact hu c hc
          · rcases h with ⟨h1, q, h2, h3⟩ | ⟨h1, h2⟩
            · exact Or.inl ⟨by simp only; rw [h1]; simp, q, t2.trans h2, h3⟩
            · refine Or.inr ⟨h1, ?_⟩
              rw [hs1, hstop] at h2
              exact h2

/-- The loop of `parse_whitespace`. -/
theorem whitespaceLoop_any : ∀ (fuel : Nat) (p : PP (Nest n)), p.rest.length + 1 < fuel →
    ∃ u, (∀ c ∈ u, CharClass.isWhitespace c = true) ∧ Took p u (parseWhitespaceLoop fuel p) ∧
      ∃ q, Took p u q ∧ SawNo (CharClass.isWhitespace · = true) q (parseWhitespaceLoop fuel p)
  | 0, _, h => absurd h (Nat.not_lt_zero _)
  | fuel + 1, p, hf => by
    have tp := took_peek p
    have hap := fun x d (h : p.peek.1 = some x) (h2 : p.peek.2.next.1 = some d) => next_after_peek p h h2
    have hhd := fun x (h : p.peek.1 = some x) => peek_head p h
    have hsaw : (∀ c, p.peek.1 = some c → ¬ CharClass.isWhitespace c = true) →
        SawNo (CharClass.isWhitespace · = true) p p.peek.2 := fun h => ⟨rfl, h⟩
    simp only [parseWhitespaceLoop]
    rcases hpk : p.peek with ⟨o, p1⟩
    rw [hpk] at tp hap hsaw hhd
    simp only at tp hap hsaw hhd
    cases o with
    | none => exact ⟨[], by simp, tp, p, took_nil, hsaw (fun c h => (by cases h))⟩
    | some x =>
      simp only
      cases hd : CharClass.isWhitespace x with
      | false =>
        simp only [Bool.not_false, if_true]
        refine ⟨[], by simp, tp, p, took_nil, hsaw ?_⟩
        intro c h
        cases h
        rw [hd]; decide
      | true =>
        simp only [Bool.not_true, Bool.false_eq_true, if_false]
        have tn := took_next_none p1
        have ts := fun d (h : p1.next.1 = some d) => took_next_some p1 h
        have hes : p1.next.1 = none → p1.next.2.peek.1 = none := (end_stays (n + 1) p1).2
        have hap := fun d h => hap x d rfl h
        rcases hnx : p1.next with ⟨o2, p2⟩
        rw [hnx] at tn ts hap hes
        simp only at tn ts hap hes ⊢
        cases o2 with
        | none =>
          have hlen : 0 < p.rest.length := by
            have := hhd x rfl
            cases hr : p.rest with
            | nil => rw [hr] at this; cases this
            | cons a b => simp
          have t2 := tp.nil_trans (tn rfl)
          have he := hes rfl
          obtain ⟨m, rfl⟩ : ∃ m, fuel = m + 1 := ⟨fuel - 1, by omega⟩
          have hl : parseWhitespaceLoop (m + 1) p2 = p2.peek.2 := by
            simp only [parseWhitespaceLoop]
            rcases hp2 : p2.peek with ⟨o3, p3⟩
            rw [hp2] at he
            simp only at he
            subst he
            rfl
          rw [hl]
          refine ⟨[], by simp, t2.trans_nil (took_peek p2), p2, t2, rfl, ?_⟩
          intro c hc
          rw [he] at hc
          cases hc
        | some d =>
          have hdx : d = x := hap d rfl
          subst hdx
          have t2 : Took p [d] p2 := tp.nil_trans (ts d rfl)
          have hlen : p2.rest.length + 1 < fuel := by
            have := congrArg List.length t2.1
            simp only [List.length_append, List.length_cons, List.length_nil] at this
            omega
          obtain ⟨u, hu, tu, q, h2, h3⟩ := whitespaceLoop_any fuel p2 hlen
          refine ⟨d :: u, ?_, t2.trans tu, q, t2.trans h2, h3⟩
          intro c hc
          rcases List.mem_cons.1 hc with rfl | hc
          · exact hd
          · exact hu c hc

/-- **C114**, whitespace: `parse_whitespace` returns, has taken whitespace only, and stopped because a peek showed the end or
a character that is no whitespace. -/
theorem C114_whitespace (p : PP (Nest n)) : ∃ u, (∀ c ∈ u, CharClass.isWhitespace c = true) ∧ Took p u (parseWhitespace p) ∧
    ∃ q, Took p u q ∧ SawNo (CharClass.isWhitespace · = true) q (parseWhitespace p) :=
  whitespaceLoop_any _ p (by omega)

/-- **C114**, digits: `parse_digits` returns the digits it has taken, having stopped because a peek showed the end or no
digit; the only other outcome is `EndOfChars` with the position it stands at, and only if some process around stops on a
digit and this digit is next. -/
theorem C114_digits (p : PP (Nest n)) : ∃ u p', (∀ c ∈ u, IsDigit c) ∧ Took p u p' ∧
    (parseDigits p = (.ok u, p') ∧ (∃ q, Took p u q ∧ SawNo IsDigit q p') ∨
     parseDigits p = (.err (.endOfChars p'.curPos), p') ∧
       ∃ c, IsDigit c ∧ c ∈ stopChars (n + 1) p ∧ p'.rest.head? = some c) := by
  exact digitsLoop_any (p.rest.length + 1) [] p (by omega)

/-- `parse_required_digits`, without the reasons for stopping. -/
theorem requiredDigits_any (p : PP (Nest n)) : ∃ u p', (∀ c ∈ u, IsDigit c) ∧ Took p u p' ∧
    (parseRequiredDigits p = (.ok u, p') ∨ ∃ e, parseRequiredDigits p = (.err e, p') ∧ TellsOf p' e ∧ e ≠ .impossible) := by
  have tp := took_peek p
  have hhd := fun x (h : p.peek.1 = some x) => peek_head p h
  simp only [parseRequiredDigits]
  rcases hpk : p.peek with ⟨o, p1⟩
  rw [hpk] at tp hhd
  simp only at tp hhd
  cases o with
  | none =>
    refine ⟨[], p1, by simp, tp, Or.inr ⟨_, rfl, ?_, by simp⟩⟩
    show p.curPos = p1.curPos
    rw [tp.pos]; rfl
  | some x =>
    simp only
    cases hd : CharClass.isAsciiDigit x with
    | false =>
      simp only [Bool.not_false, if_true]
      refine ⟨[], p1, by simp, tp, Or.inr ⟨_, rfl, ⟨rfl, ?_⟩, by simp⟩⟩
      have := hhd x rfl
      rw [tp.1, List.nil_append] at this
      exact this
    | true =>
      simp only [Bool.not_true, Bool.false_eq_true, if_false]
      obtain ⟨u, p', hu, tu, h⟩ := C114_digits p1
      refine ⟨u, p', hu, tp.nil_trans tu, ?_⟩
      rcases h with ⟨h, -⟩ | ⟨h, -⟩
      · exact Or.inl h
      · exact Or.inr ⟨_, h, rfl, by simp⟩

/-- **C114**, unsigned numbers: whatever the process, `parse_usize` either returns exactly the number denoted by the digits it
has taken, at least one, fitting 64 bits; or one of its three errors, truthful about the place it stands at, having taken
digits only. -/
theorem C114_usize (p : PP (Nest n)) : ∃ u p', (∀ c ∈ u, IsDigit c) ∧ Took p u p' ∧
    (parseUsize p = (.ok (decimalValue u), p') ∧ u ≠ [] ∧ decimalValue u < 2 ^ 64 ∨
     ∃ e, parseUsize p = (.err e, p') ∧ TellsOf p' e) := by
  obtain ⟨u, p', hu, tu, h⟩ := requiredDigits_any p
  refine ⟨u, p', hu, tu, ?_⟩
  rcases h with h | ⟨e, h, he, -⟩
  · by_cases hne : u = []
    · subst hne
      refine Or.inr ⟨.impossible, ?_, trivial⟩
      simp only [parseUsize, h]
      rfl
    · by_cases hlt : decimalValue u < 2 ^ 64
      · refine Or.inl ⟨?_, hne, hlt⟩
        simp only [parseUsize, h, strToUsize_digits hne hu, if_pos hlt]
        rfl
      · refine Or.inr ⟨.impossible, ?_, trivial⟩
        simp only [parseUsize, h, strToUsize_digits hne hu, if_neg hlt]
        rfl
  · exact Or.inr ⟨e, by simp only [parseUsize, h], he⟩

/-- **C114**, signed numbers: as for unsigned numbers, with an optional minus sign before the digits. -/
theorem C114_isize (p : PP (Nest n)) : ∃ sign u p', (sign = [] ∨ sign = ['-']) ∧ (∀ c ∈ u, IsDigit c) ∧ Took p (sign ++ u) p' ∧
    (parseIsize p = (.ok (if sign = [] then (decimalValue u : Int) else -(decimalValue u : Int)), p') ∧ u ≠ [] ∧
       decimalValue u < 2 ^ 63 + sign.length ∨
     ∃ e, parseIsize p = (.err e, p') ∧ TellsOf p' e) := by
  have tp := took_peek p
  have hhd := fun x (h : p.peek.1 = some x) => peek_head p h
  have hap := fun x d (h : p.peek.1 = some x) (h2 : p.peek.2.next.1 = some d) => next_after_peek p h h2
  simp only [parseIsize]
  rcases hpk : p.peek with ⟨o, p1⟩
  rw [hpk] at tp hhd hap
  simp only at tp hhd hap
  cases o with
  | none =>
    refine ⟨[], [], p1, Or.inl rfl, by simp, tp, Or.inr ⟨_, rfl, ?_⟩⟩
    show p.curPos = p1.curPos
    rw [tp.pos]; rfl
  | some x =>
    simp only
    by_cases hx : x = '-'
    · subst hx
      simp only [ne_eq, not_true_eq_false, false_and, if_false, if_true]
      have tn := took_next_none p1
      have ts := fun d (h : p1.next.1 = some d) => took_next_some p1 h
      have hap := fun d h => hap '-' d rfl h
      rcases hnx : p1.next with ⟨o2, p2⟩
      rw [hnx] at tn ts hap
      simp only at tn ts hap ⊢
      have hreq := requiredDigits_any p2
      cases o2 with
      | none =>
        have t2 := tp.nil_trans (tn rfl)
        have hh : p2.rest.head? = some '-' := by
          have := hhd '-' rfl
          rw [t2.1, List.nil_append] at this
          exact this
        obtain ⟨u, p', hu, tu, h⟩ := hreq
        have hu0 : u = [] := by
          cases u with
          | nil => rfl
          | cons a u =>
            have hd := hu a (by simp)
            rw [tu.1] at hh
            have hh' : a = '-' := Option.some.inj hh
            subst hh'
            exact absurd hd (by decide)
        subst hu0
        rcases h with h | ⟨e, h, he, -⟩
        · exact ⟨[], [], p', Or.inl rfl, by simp, t2.trans tu, Or.inr ⟨.impossible, by rw [h]; rfl, trivial⟩⟩
        · exact ⟨[], [], p', Or.inl rfl, by simp, t2.trans tu, Or.inr ⟨e, by rw [h], he⟩⟩
      | some d =>
        have := hap d rfl
        subst this
        have t2 : Took p ['-'] p2 := tp.nil_trans (ts _ rfl)
        obtain ⟨u, p', hu, tu, h⟩ := hreq
        refine ⟨['-'], u, p', Or.inr rfl, hu, t2.trans tu, ?_⟩
        rcases h with h | ⟨e, h, he, -⟩
        · by_cases hne : u = []
          · subst hne
            exact Or.inr ⟨.impossible, by rw [h]; rfl, trivial⟩
          · by_cases hlt : decimalValue u ≤ 2 ^ 63
            · refine Or.inl ⟨?_, hne, Nat.lt_succ_of_le hlt⟩
              rw [h]
              simp only [List.cons_append, List.nil_append, strToIsize_neg hne hu, if_pos hlt]
              rfl
            · refine Or.inr ⟨.impossible, ?_, trivial⟩
              rw [h]
              simp only [List.cons_append, List.nil_append, strToIsize_neg hne hu, if_neg hlt]
              rfl
        · exact Or.inr ⟨e, by rw [h], he⟩
    · cases hd : CharClass.isAsciiDigit x with
      | false =>
        rw [if_pos ⟨hx, rfl⟩]
        refine ⟨[], [], p1, Or.inl rfl, by simp, tp, Or.inr ⟨_, rfl, rfl, ?_⟩⟩
        have := hhd x rfl
        rw [tp.1, List.nil_append] at this
        exact this
      | true =>
        simp only [hx, if_false]
        rw [if_neg (by simp)]
        obtain ⟨u, p', hu, tu, h⟩ := requiredDigits_any p1
        refine ⟨[], u, p', Or.inl rfl, hu, tp.nil_trans tu, ?_⟩
        rcases h with h | ⟨e, h, he, -⟩
        · by_cases hne : u = []
          · subst hne
            exact Or.inr ⟨.impossible, by rw [h]; rfl, trivial⟩
          · by_cases hlt : decimalValue u < 2 ^ 63
            · refine Or.inl ⟨?_, hne, hlt⟩
              rw [h]
              simp only [List.nil_append, strToIsize_digits hne hu, if_pos hlt]
              rfl
            · refine Or.inr ⟨.impossible, ?_, trivial⟩
              rw [h]
              simp only [List.nil_append, strToIsize_digits hne hu, if_neg hlt]
              rfl
        · exact Or.inr ⟨e, by rw [h], he⟩

/-- **C114**, symbols: `parse_symbol` succeeds exactly if a peek shows the symbol, and then has taken it, unless it is a stop
character of some process around (an escaped one: then it may have taken nothing); otherwise it reports, truthfully, what
stands there, and has taken nothing. -/
theorem C114_symbol (sym : Char) (p : PP (Nest n)) :
    (p.peek.1 = some sym ∧ (parseSymbol sym p).1 = .ok () ∧
      (Took p [sym] (parseSymbol sym p).2 ∨ sym ∈ stopChars (n + 1) p ∧ Took p [] (parseSymbol sym p).2)) ∨
    (p.peek.1 ≠ some sym ∧ (∃ e, (parseSymbol sym p).1 = .err e ∧ TellsOf (parseSymbol sym p).2 e ∧ e ≠ .impossible) ∧
      Took p [] (parseSymbol sym p).2) := by
  have tp := took_peek p
  have hhd := fun x (h : p.peek.1 = some x) => peek_head p h
  have hnp := fun x (h : p.peek.1 = some x) => next_of_peek p h
  have hap := fun x d (h : p.peek.1 = some x) (h2 : p.peek.2.next.1 = some d) => next_after_peek p h h2
  simp only [parseSymbol]
  rcases hpk : p.peek with ⟨o, p1⟩
  rw [hpk] at tp hhd hnp hap
  simp only at tp hhd hnp hap
  cases o with
  | none => exact Or.inr ⟨by simp, ⟨_, rfl, rfl, by simp⟩, tp⟩
  | some x =>
    simp only
    by_cases hx : x = sym
    · subst hx
      rw [if_pos rfl]
      refine Or.inl ⟨rfl, rfl, ?_⟩
      cases hnx : p1.next.1 with
      | some d =>
        have := hap x d rfl hnx
        subst this
        exact Or.inl (tp.nil_trans (took_next_some p1 hnx))
      | none =>
        refine Or.inr ⟨?_, tp.nil_trans (took_next_none p1 hnx)⟩
        by_cases h : x ∈ stopChars (n + 1) p
        · exact h
        · rw [hnp x rfl h] at hnx; cases hnx
    · rw [if_neg hx]
      refine Or.inr ⟨by simpa using hx, ⟨_, rfl, ⟨rfl, ?_⟩, by simp⟩, tp⟩
      have := hhd x rfl
      rw [tp.1, List.nil_append] at this
      exact this

/-- **C114**, names: whatever the process, `parse_var_name` returns a letter followed by letters, digits and underscores, and
has taken exactly this name (or, if its first letter is an escaped stop character, has returned this letter alone and taken
nothing); or it reports `EndOfChars` or `UnexpectedChar`, truthful about the place it stands at. -/
theorem C114_var_name (cc : CharClass) (p : PP (Nest n)) : ∃ u p', Took p u p' ∧
    ((∃ c v, parseVarName cc p = (.ok (c :: v), p') ∧ cc.isAlphabetic c = true ∧
        (∀ d ∈ v, cc.isAlphanumeric d = true ∨ d = '_') ∧
        (u = c :: v ∨ u = [] ∧ v = [] ∧ c ∈ stopChars (n + 1) p)) ∨
     ∃ e, parseVarName cc p = (.err e, p') ∧ TellsOf p' e ∧ e ≠ .impossible) := by
  have tp := took_peek p
  have hhd := fun x (h : p.peek.1 = some x) => peek_head p h
  have hnp := fun x (h : p.peek.1 = some x) => next_of_peek p h
  have hap := fun x d (h : p.peek.1 = some x) (h2 : p.peek.2.next.1 = some d) => next_after_peek p h h2
  simp only [parseVarName]
  rcases hpk : p.peek with ⟨o, p1⟩
  rw [hpk] at tp hhd hnp hap
  simp only at tp hhd hnp hap
  cases o with
  | none =>
    refine ⟨[], p1, tp, Or.inr ⟨_, rfl, ?_, by simp⟩⟩
    show p.curPos = p1.curPos
    rw [tp.pos]; rfl
  | some x =>
    simp only
    cases hd : cc.isAlphabetic x with
    | false =>
      simp only [Bool.not_false, if_true]
      refine ⟨[], p1, tp, Or.inr ⟨_, rfl, ⟨rfl, ?_⟩, by simp⟩⟩
      have := hhd x rfl
      rw [tp.1, List.nil_append] at this
      exact this
    | true =>
      simp only [Bool.not_true, Bool.false_eq_true, if_false]
      have tn := took_next_none p1
      have ts := fun d (h : p1.next.1 = some d) => took_next_some p1 h
      have hes : p1.next.1 = none → p1.next.2.peek.1 = none := (end_stays (n + 1) p1).2
      have hnp := hnp x rfl
      have hap := fun d h => hap x d rfl h
      rcases hnx : p1.next with ⟨o2, p2⟩
      rw [hnx] at tn ts hap hes hnp
      simp only at tn ts hap hes hnp ⊢
      cases o2 with
      | none =>
        have t2 := tp.nil_trans (tn rfl)
        have he := hes rfl
        refine ⟨[], p2.peek.2, t2.trans_nil (took_peek p2), Or.inl ⟨x, [], ?_, hd, by simp, Or.inr ⟨rfl, rfl, ?_⟩⟩⟩
        · simp only [parseVarNameLoop]
          rcases hp2 : p2.peek with ⟨o3, p3⟩
          rw [hp2] at he
          simp only at he
          subst he
          rfl
        · by_cases h : x ∈ stopChars (n + 1) p
          · exact h
          · exact absurd (hnp h) (by simp)
      | some d =>
        have := hap d rfl
        subst this
        have t2 : Took p [d] p2 := tp.nil_trans (ts _ rfl)
        obtain ⟨u, p', hu, tu, h⟩ := varNameLoop_any cc (p2.rest.length + 1) [d] p2 (by omega)
        refine ⟨d :: u, p', t2.trans tu, ?_⟩
        rcases h with ⟨h, -⟩ | ⟨h, -⟩
        · exact Or.inl ⟨d, u, h, hd, hu, Or.inl rfl⟩
        · exact Or.inr ⟨_, h, rfl, by simp⟩

/-! Cases: a section that stops on `5` with the escape character `\`, after reading the backslash.  The peek of `parse_digits`
shows the escaped `5`, the read finds the end; `parse_symbol` and `parse_var_name` (with the stop character `b`) succeed
without taking anything. -/

/-- The process after reading the backslash. -/
def escaped (w : Str) (stop : Char) : PP (Nest 1) :=
  ((PP.newNested (Proc.at w 0 : Nest 1) (some stop) (some '\\') 0 : PP (Nest 1)).next).2

example : (parseDigits (escaped (c% "\\57") '5')).1 = .err (.endOfChars 1) := rfl
example : (parseUsize (escaped (c% "\\57") '5')).1 = .err .impossible := rfl
example : (parseUsize (escaped (c% "\\75") '5')).1 = .ok 7 ∧ (parseUsize (escaped (c% "\\75") '5')).2.curPos = 2 := ⟨rfl, rfl⟩
example : (parseIsize (escaped (c% "\\-75") '5')).1 = .ok (-7) := by decide +kernel
example : (parseSymbol '5' (escaped (c% "\\57") '5')).1 = .ok () ∧ (parseSymbol '5' (escaped (c% "\\57") '5')).2.curPos = 1 :=
  ⟨rfl, rfl⟩
example : (parseVarName .ascii (escaped (c% "\\bc") 'b')).1 = .ok ['b'] ∧
    (parseVarName .ascii (escaped (c% "\\bc") 'b')).2.curPos = 1 := ⟨rfl, rfl⟩
example : (parseVarName .ascii (escaped (c% "\\abc") 'b')).1 = .ok ['a'] := rfl
example : (parseWhitespace (escaped (c% "\\  x") ' ')).curPos = 1 := rfl

end HPP
