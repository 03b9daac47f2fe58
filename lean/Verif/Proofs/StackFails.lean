import Verif.Proofs.EarliestRule
import Verif.Proofs.StackParse
import Verif.Props.Sections
/-
The instruction parser of StackVm reports its errors as early as possible.
-/
namespace HPP
open Spec

section
variable {σ : Type} [TPeekable σ] {α β : Type}

theorem Spec.BigConst.suffix {u w : Str} (h : BigConst w) : BigConst (u ++ w) := by
  obtain ⟨a, n, mk, g, ds, b, rfl, h⟩ := h
  exact ⟨u ++ a, n, mk, g, ds, b, by simp, h⟩

/-- How a reading step ends on the section text `w`: with a value or an error that depends only on what it read and on the next
character, or with a constant that is too large. -/
inductive OutL (x : SM (PP σ) PErr α) (w : Str) (k : Nat) (Q : α → Str → Str → Prop) (V W : Str → Prop) :
    Prop where
  | ok {u v : Str} {a : α} : w = u ++ v → Q a u v →
      (∀ R : Str → Nat → PP σ → Prop, RReader R → ∀ (v' : Str) (p : PP σ), v'.head? = v.head? → R (u ++ v') k p →
        ∃ p', x p = (.ok a, p') ∧ R v' (k + u.length) p') → OutL x w k Q V W
  | err {u v : Str} {e : PErr} : w = u ++ v → V u → ReportedAt k u v e →
      (∀ R : Str → Nat → PP σ → Prop, RReader R → ∀ (v' : Str) (p : PP σ), v'.head? = v.head? → R (u ++ v') k p →
        (x p).1 = .err e) → OutL x w k Q V W
  | hard : W w → (∀ R : Str → Nat → PP σ → Prop, RReader R → ∀ p : PP σ, R w k p → (x p).1 = .err .impossible) → OutL x w k Q V W

variable {w : Str} {k : Nat}


theorem OutL.bind {x : SM (PP σ) PErr α} {f : α → SM (PP σ) PErr β} {Q : α → Str → Str → Prop} {Q' : β → Str → Str → Prop}
    {V W : Str → Prop} (hx : OutL x w k Q V W)
    (hf : ∀ a u v, w = u ++ v → Q a u v →
      OutL (f a) v (k + u.length) (fun b u' v' => Q' b (u ++ u') v') (fun u' => V (u ++ u')) (fun v' => W (u ++ v'))) :
    OutL (x >>= f) w k Q' V W := by
  cases hx with
  | @ok u v a h1 h2 h3 =>
    subst h1
    cases hf a u v rfl h2 with
    | @ok u1 v1 b g1 g2 g3 =>
      subst g1
      refine .ok (u := u ++ u1) (v := v1) (by simp) g2 fun R H v' p hv' hp => ?_
      rw [List.append_assoc] at hp
      obtain ⟨p1, e1, e2⟩ := h3 R H _ p (head?_append hv') hp
      obtain ⟨p2, e3, e4⟩ := g3 R H _ p1 hv' e2
      refine ⟨p2, by rw [smBind_ok e1, e3], ?_⟩
      rw [List.length_append, ← Nat.add_assoc]; exact e4
    | @err u1 v1 e g1 g2 g3 g4 =>
      subst g1
      refine .err (u := u ++ u1) (v := v1) (by simp) g2 g3.suffix fun R H v' p hv' hp => ?_
      rw [List.append_assoc] at hp
      obtain ⟨p1, e1, e2⟩ := h3 R H _ p (head?_append hv') hp
      rw [smBind_ok e1]
      exact g4 R H _ p1 hv' e2
    | hard g0 g =>
      refine .hard g0 fun R H p hp => ?_
      obtain ⟨p1, e1, e2⟩ := h3 R H _ p rfl hp
      rw [smBind_ok e1]
      exact g R H p1 e2
  | err h1 h2 h3 h4 => exact .err h1 h2 h3 fun R H v' p hv' hp => smBind_err (h4 R H v' p hv' hp)
  | hard h0 h => exact .hard h0 fun R H p hp => smBind_err (h R H p hp)

theorem OutL.mono {x : SM (PP σ) PErr α} {Q Q' : α → Str → Str → Prop} {V V' W W' : Str → Prop} (h : OutL x w k Q V W)
    (hQ : ∀ a u v, w = u ++ v → Q a u v → Q' a u v) (hV : ∀ u, V u → V' u) (hW : W w → W' w) : OutL x w k Q' V' W' := by
  cases h with
  | ok h1 h2 h3 => exact .ok h1 (hQ _ _ _ h1 h2) h3
  | err h1 h2 h3 h4 => exact .err h1 (hV _ h2) h3 h4
  | hard h0 h => exact .hard (hW h0) h

theorem OutL.pure {a : α} {Q : α → Str → Str → Prop} {V W : Str → Prop} (h : Q a [] w) :
    OutL (Pure.pure a : SM (PP σ) PErr α) w k Q V W :=
  .ok (u := []) rfl h fun _ _ _ p _ hp => ⟨p, rfl, hp⟩

/-- A step that agrees with another on every process. -/
theorem OutL.same {x y : SM (PP σ) PErr α} {Q : α → Str → Str → Prop} {V W : Str → Prop} (h : OutL y w k Q V W)
    (hs : ∀ R : Str → Nat → PP σ → Prop, RReader R → ∀ (w' : Str) (p : PP σ), w'.head? = w.head? → R w' k p →
      ∃ p', R w' k p' ∧ x p = y p') : OutL x w k Q V W := by
  cases h with
  | @ok u v a h1 h2 h3 =>
    refine .ok h1 h2 fun R H v' p hv' hp => ?_
    obtain ⟨p', e1, e2⟩ := hs R H _ p (by rw [h1]; exact head?_append hv') hp
    rw [e2]
    exact h3 R H v' p' hv' e1
  | err h1 h2 h3 h4 =>
    refine .err h1 h2 h3 fun R H v' p hv' hp => ?_
    obtain ⟨p', e1, e2⟩ := hs R H _ p (by rw [h1]; exact head?_append hv') hp
    rw [e2]
    exact h4 R H v' p' hv' e1
  | hard h0 h =>
    refine .hard h0 fun R H p hp => ?_
    obtain ⟨p', e1, e2⟩ := hs R H _ p rfl hp
    rw [e2]
    exact h R H p' e1

/-- A property of the first character carries over to another text with the same first character. -/
theorem ahead_of {P : Char → Prop} {v v' : Str} (h : ∀ c r, v = c :: r → P c) (hv : v'.head? = v.head?) : ∀ c r, v' = c :: r → P c := by
  rintro c r rfl
  cases v with
  | nil => cases hv
  | cons d v => cases hv; exact h _ _ rfl

theorem outL_whitespace {V W : Str → Prop} : OutL (ppWhitespace (σ := σ)) w k (fun _ u v => IsSpace u ∧ NoSpaceAhead v) V W := by
  obtain ⟨g, v, rfl, h1, h2, -⟩ := space_split w
  exact .ok rfl ⟨h1, h2⟩ fun R H v' p hv' hp => ppWhitespace_ok H hp h1 (ahead_of h2 hv')

theorem outL_symbol {V W : Str → Prop} {c : Char} (hc : c ≠ '\\') (hV : V []) : OutL (ppSymbol (σ := σ) c) w k (fun _ u _ => u = [c]) V W := by
  cases w with
  | nil =>
    refine .err (u := []) (v := []) rfl hV .ended fun R H v' p hv' hp => ?_
    cases v' with
    | cons d v' => cases hv'
    | nil =>
      obtain ⟨p1, h1, h2⟩ := H.peek hp
      simp [ppSymbol, parseSymbol, h1, H.pos h2]
  | cons d w =>
    by_cases hd : d = c
    · subst hd
      exact .ok (u := [d]) (v := w) rfl rfl fun R H v' p _ hp => H.symbol_ok hc hp
    · refine .err (u := []) (v := d :: w) rfl hV (.char d w [c]) fun R H v' p hv' hp => ?_
      cases v' with
      | nil => cases hv'
      | cons d' v' =>
        cases hv'
        obtain ⟨p1, h1, h2⟩ := H.peek hp
        simp [ppSymbol, parseSymbol, h1, H.pos h2, hd]

theorem outL_varName (cc : CharClass) {V W : Str → Prop} (hV : V []) :
    OutL (ppVarName (σ := σ) cc) w k (fun n u v => u = n ∧ IsName cc n ∧ NoNameAhead cc v) V W := by
  rcases HPP.varName_cases cc w k with ⟨n, w', rfl, h1, h2, -⟩ | ⟨e, he⟩
  · exact .ok rfl ⟨rfl, h1, h2⟩ fun R H v' p hv' hp => H.varName_ok cc hp h1 (ahead_of h2 hv')
  · cases w with
    | nil =>
      refine .err (u := []) (v := []) rfl hV .ended fun R H v' p hv' hp => ?_
      cases v' with
      | cons d v' => cases hv'
      | nil =>
        obtain ⟨p1, h1, h2⟩ := H.peek hp
        simp [ppVarName, parseVarName, h1, H.pos hp]
    | cons c w =>
      have hc : cc.isAlphabetic c = false := by
        cases hc : cc.isAlphabetic c with
        | false => rfl
        | true => rw [plainReader.varName_ok cc trivial k hc] at he; simp at he
      refine .err (u := []) (v := c :: w) rfl hV (.char c w (c% "alphabetic character")) fun R H v' p hv' hp => ?_
      cases v' with
      | nil => cases hv'
      | cons d' v' =>
        cases hv'
        obtain ⟨p1, h1, h2⟩ := H.peek hp
        simp only [ppVarName, parseVarName, h1, List.nil_append, List.head?_cons, hc, Bool.not_false, if_true, H.pos h2]
        rfl

theorem outL_usize {V W : Str → Prop} (hV : V [])
    (hW : ∀ ds b, w = ds ++ b → ds ≠ [] → (∀ c ∈ ds, IsDigit c) → 2 ^ 64 ≤ decimalValue ds → W w) :
    OutL (ppUsize (σ := σ)) w k (fun v u _ => u ≠ [] ∧ (∀ c ∈ u, IsDigit c) ∧ decimalValue u < 2 ^ 64 ∧ v = decimalValue u) V W := by
  have herr : ∀ (R : Str → Nat → PP σ → Prop), RReader R → ∀ (w : Str) p e, R w k p → Reader.reqDigits w k = .err e → (ppUsize p).1 = .err e := by
    intro R H w p e hp he
    obtain ⟨p', h1, h2⟩ := H.requiredDigits hp
    show (parseUsize p).1 = _
    simp only [parseUsize, h1, he]
  cases w with
  | nil =>
    refine .err (u := []) (v := []) rfl hV .ended fun R H v' p hv' hp => ?_
    cases v' with
    | cons d v' => cases hv'
    | nil => exact herr R H _ p _ hp rfl
  | cons c w =>
    by_cases hc : CharClass.isAsciiDigit c = true
    · have hne : (c :: w).takeWhile CharClass.isAsciiDigit ≠ [] := by simp [hc]
      have hall : ∀ d ∈ (c :: w).takeWhile CharClass.isAsciiDigit, IsDigit d := fun d hd =>
        (isAsciiDigit_iff d).1 (takeWhile_all d hd)
      have hah : ∀ d r, (c :: w).dropWhile CharClass.isAsciiDigit = d :: r → CharClass.isAsciiDigit d = false := by
        intro d r hd
        have h := List.head?_dropWhile_not CharClass.isAsciiDigit (c :: w)
        rw [hd] at h
        simpa using h
      have hsp : c :: w = (c :: w).takeWhile CharClass.isAsciiDigit ++ (c :: w).dropWhile CharClass.isAsciiDigit :=
        (List.takeWhile_append_dropWhile (p := CharClass.isAsciiDigit)).symm
      generalize (c :: w).takeWhile CharClass.isAsciiDigit = ds at *
      generalize (c :: w).dropWhile CharClass.isAsciiDigit = v at *
      by_cases hlt : decimalValue ds < 2 ^ 64
      · exact .ok hsp ⟨hne, hall, hlt, rfl⟩ fun R H v' p hv' hp => ppUsize_ok H hp hne hall hlt (ahead_of hah hv')
      · refine .hard (hW ds v hsp hne hall (Nat.not_lt.1 hlt)) fun R H p hp => ?_
        rw [hsp] at hp
        obtain ⟨p', h⟩ := ppUsize_big H hp hne hall (Nat.not_lt.1 hlt) hah
        rw [h]
    · refine .err (u := []) (v := c :: w) rfl hV (.char c w (c% "digit expected")) fun R H v' p hv' hp => ?_
      cases v' with
      | nil => cases hv'
      | cons d' v' =>
        cases hv'
        exact herr R H _ p _ hp (by simp only [List.nil_append, Reader.reqDigits, hc, if_false, Bool.false_eq_true]; rfl)

/-- One instruction behind its name. -/
theorem outL_oneInstr (cc : CharClass) {n : Str} {V W : Str → Prop} (hn : IsName cc n) (hw : NoNameAhead cc w)
    (hV : ∀ u, (∃ x is, InstrText cc is (n ++ (u ++ x))) → V u) (hW : BigConst (n ++ w) → W w) :
    OutL (parseOneInstr (σ := σ) n) w k (fun is u _ => InstrText cc is (n ++ (u ++ c% ";"))) V W := by
  rcases constInstr_cases n with ⟨mk, mk', h1, h2, h3, -, -⟩ | ⟨h1, h2⟩
  · simp only [parseOneInstr, h1]
    refine OutL.bind outL_whitespace ?_
    rintro _ g w1 rfl ⟨hg, -⟩
    refine OutL.bind (outL_usize ?_ ?_) ?_
    · refine hV _ ⟨c% " 0;", [mk' (decimalValue (c% "0"))], ?_⟩
      have := InstrText.const (cc := cc) (g := g ++ c% " ") (ds := c% "0") h2 ?_ (by simp) (by simp) ?_ (by decide)
      · simpa using this
      · intro c hc
        rcases List.mem_append.1 hc with hc | hc
        · exact hg c hc
        · simp only [List.mem_singleton] at hc
          subst hc
          decide
      · intro c hc
        simp only [List.mem_singleton] at hc
        subst hc
        exact (isAsciiDigit_iff _).1 (by decide)
    · rintro ds b rfl d1 d2 d3
      refine hW ⟨[], n, mk', g, ds, b, rfl, h2, hg, ?_, d1, d2, d3⟩
      rintro rfl
      cases ds with
      | nil => exact d1 rfl
      | cons c ds =>
        have := hw c (ds ++ b) rfl
        rw [digit_nameChar (d2 c (by simp))] at this
        cases this
    rintro v ds w2 rfl ⟨d1, d2, d3, rfl⟩
    refine OutL.pure ?_
    rw [List.append_nil, List.append_assoc]
    rw [h3 _ d3]
    refine .const h2 hg ?_ d1 d2 d3
    rintro rfl
    cases ds with
    | nil => exact d1 rfl
    | cons c ds =>
      have := hw c (ds ++ w2) rfl
      rw [digit_nameChar (d2 c (by simp))] at this
      cases this
  · simp only [parseOneInstr, h1]
    refine OutL.pure ?_
    rw [List.nil_append]
    cases hp : plainInstr n with
    | some i => exact .plain ((plainInstr_table n i).1 hp)
    | none =>
      refine .unknown hn (fun i hi => ?_) h2
      rw [(plainInstr_table n i).2 hi] at hp
      cases hp

/-- The loop, with as many iterations as it may need. -/
def stackGo (cc : CharClass) (acc : List Instr) : SM (PP σ) PErr (List Instr) := fun p => stackParseLoop cc (p.rest.length + 1) acc p

theorem stackLoop_fuel {R : Str → Nat → PP σ → Prop} (H : RReader R) (cc : CharClass) : ∀ (f1 f2 : Nat) (acc : List Instr) (w : Str) (k : Nat) (p : PP σ),
    R w k p → w.length < f1 → w.length < f2 → stackParseLoop cc f1 acc p = stackParseLoop cc f2 acc p
  | 0, _, _, _, _, _, _, h, _ => by omega
  | _ + 1, 0, _, _, _, _, _, _, h => by omega
  | f1 + 1, f2 + 1, acc, w, k, p, hp, h1, h2 => by
    rw [stackParseLoop, stackParseLoop]
    obtain ⟨p1, e1, e2⟩ := H.peek hp
    have hpk : ppPeek p = (.ok w.head?, p1) := by simp only [ppPeek, e1]
    rw [smBind_ok hpk, smBind_ok hpk]
    cases w with
    | nil => rfl
    | cons c w =>
      simp only [List.head?_cons]
      refine smBind_congr fun n p2 g1 => smBind_congr fun is p3 g2 => smBind_congr fun _ p4 g3 => smBind_congr fun _ p5 g4 => ?_
      obtain ⟨u1, w1, a1, a2, a3⟩ := out_varName H cc e2
      rw [g1] at a2 a3
      obtain ⟨a4, a5, a6⟩ : u1 = n ∧ IsName cc n ∧ NoNameAhead cc w1 := by
        rcases a3 with ⟨_, a3, a4⟩ | ⟨_, a3, -⟩
        · cases a3; exact a4
        · cases a3
      obtain ⟨u2, w2, b1, b2, b3⟩ := out_oneInstr H cc a2 a5 a6
      rw [g2] at b2 b3
      obtain ⟨u3, w3, c1, c2, c3⟩ := out_symbol H (c := ';') (by decide) b2
      rw [g3] at c2 c3
      obtain ⟨u4, w4, d1, d2, d3⟩ := out_whitespace H c2
      rw [g4] at d2 d3
      have hl : 1 ≤ u1.length := by
        rw [a4]
        obtain ⟨x, y, rfl, -⟩ := a5
        simp
      have : w4.length < w.length + 1 := by
        have := congrArg List.length a1
        rw [b1, c1, d1] at this
        simp only [List.length_append, List.length_cons] at this
        omega
      simp only [List.length_cons] at h1 h2
      exact stackLoop_fuel H cc f1 f2 _ w4 _ p5 d2 (by omega) (by omega)

/-- The loop, unfolded once. -/
theorem stackGo_cons {R : Str → Nat → PP σ → Prop} (H : RReader R) (cc : CharClass) (acc : List Instr) {c : Char} {w : Str} {k : Nat} {p : PP σ}
    (hp : R (c :: w) k p) : ∃ p', R (c :: w) k p' ∧ stackGo cc acc p = (do
      let name ← ppVarName cc
      let is ← parseOneInstr name
      ppSymbol ';'
      ppWhitespace
      stackGo cc (acc ++ is)) p' := by
  obtain ⟨p1, e1, e2⟩ := H.peek hp
  have hpk : ppPeek p = (.ok (some c), p1) := by simp only [ppPeek, e1, List.head?_cons]
  refine ⟨p1, e2, ?_⟩
  show stackParseLoop cc (p.rest.length + 1) acc p = _
  rw [stackParseLoop, smBind_ok hpk]
  simp only
  refine smBind_congr fun n p2 g1 => smBind_congr fun is p3 g2 => smBind_congr fun _ p4 g3 => smBind_congr fun _ p5 g4 => ?_
  obtain ⟨u1, w1, a1, a2, a3⟩ := out_varName H cc e2
  rw [g1] at a2 a3
  obtain ⟨a4, a5, a6⟩ : u1 = n ∧ IsName cc n ∧ NoNameAhead cc w1 := by
    rcases a3 with ⟨_, a3, a4⟩ | ⟨_, a3, -⟩
    · cases a3; exact a4
    · cases a3
  obtain ⟨u2, w2, b1, b2, b3⟩ := out_oneInstr H cc a2 a5 a6
  rw [g2] at b2 b3
  obtain ⟨u3, w3, c1, c2, c3⟩ := out_symbol H (c := ';') (by decide) b2
  rw [g3] at c2 c3
  obtain ⟨u4, w4, d1, d2, d3⟩ := out_whitespace H c2
  rw [g4] at d2 d3
  have hl : 1 ≤ u1.length := by
    rw [a4]
    obtain ⟨x, y, rfl, -⟩ := a5
    simp
  have hlen : w4.length < w.length + 1 := by
    have := congrArg List.length a1
    rw [b1, c1, d1] at this
    simp only [List.length_append, List.length_cons] at this
    omega
  have h1 := H.len hp
  have h2 := H.len d2
  simp only at h2
  simp only [List.length_cons] at h1
  exact stackLoop_fuel H cc _ _ _ w4 _ p5 d2 (by omega) (by omega)

theorem outL_stackGo (cc : CharClass) : ∀ (n : Nat) (w : Str) (k : Nat) (acc : List Instr), w.length < n →
    OutL (stackGo (σ := σ) cc acc) w k (fun is u v => v = [] ∧ ∃ is', is = acc ++ is' ∧ InstrsText cc is' u)
      (fun u => ∃ x is, InstrsText cc is (u ++ x)) BigConst
  | 0, _, _, _, h => by omega
  | n + 1, [], k, acc, _ => by
    refine .ok (u := []) (v := []) (a := acc) rfl ⟨rfl, [], by simp, .nil⟩ fun R H v' p hv' hp => ?_
    cases v' with
    | cons c v' => cases hv'
    | nil =>
      obtain ⟨p1, e1, e2⟩ := H.peek hp
      have hpk : ppPeek p = (.ok none, p1) := by simp only [ppPeek, e1]; rfl
      refine ⟨p1, ?_, e2⟩
      show stackParseLoop cc (p.rest.length + 1) acc p = _
      rw [stackParseLoop, smBind_ok hpk]
      rfl
  | n + 1, c :: w, k, acc, hn => by
    refine OutL.same (y := do
      let name ← ppVarName cc
      let is ← parseOneInstr name
      ppSymbol ';'
      ppWhitespace
      stackGo cc (acc ++ is)) ?_ ?_
    rotate_left
    · intro R H w' p hw' hp
      cases w' with
      | nil => cases hw'
      | cons d w' => exact stackGo_cons H cc acc hp
    have hone : ∀ {is : List Instr} {t : Str}, InstrText cc is t → InstrsText cc is t := by
      intro is t h
      have := InstrsText.cons (g := []) h (by intro c hc; cases hc) .nil
      simpa using this
    refine OutL.bind (outL_varName cc ⟨[], [], .nil⟩) ?_
    rintro nm u1 w1 e1 ⟨rfl, hnm, hw1⟩
    refine OutL.bind (outL_oneInstr cc hnm hw1 (fun u ⟨x, is, h⟩ => ⟨x, is, hone (by simpa using h)⟩) (fun h => h)) ?_
    rintro is u2 w2 rfl hi
    refine OutL.bind (outL_symbol (by decide) ⟨c% ";", is, hone (by simpa using hi)⟩) ?_
    rintro _ u3 w3 rfl rfl
    refine OutL.bind outL_whitespace ?_
    rintro _ g w4 rfl ⟨hg, -⟩
    refine (outL_stackGo cc n w4 _ (acc ++ is) ?_).mono ?_ ?_ ?_
    · have h1 := congrArg List.length e1
      have h2 : 1 ≤ u1.length := by
        obtain ⟨x, y, rfl, -⟩ := hnm
        simp
      simp only [List.length_append, List.length_cons] at h1 hn
      omega
    · rintro is2 u v rfl ⟨rfl, is3, rfl, h3⟩
      refine ⟨rfl, is ++ is3, by simp, ?_⟩
      have := InstrsText.cons hi hg h3
      simpa using this
    · rintro u ⟨x, is3, h3⟩
      refine ⟨x, is ++ is3, ?_⟩
      have := InstrsText.cons hi hg h3
      simpa using this
    · intro h
      exact h.suffix.suffix.suffix.suffix

end

/-- On a text without leading white space, the parser is the loop. -/
theorem stackParse_go (cc : CharClass) {g w tail : Str} (k : Nat) (hw : '}' ∉ g ++ w) (ht : tail = [] ∨ ∃ r, tail = '}' :: r)
    (hg : IsSpace g) (hs : NoSpaceAhead w) : ∃ p1, SecAt (sectionProcess (g ++ w ++ tail) k) tail w (k + g.length) p1 ∧
      stackParse cc (sectionProcess (g ++ w ++ tail) k) = stackGo cc [] p1 := by
  have H := secReader (sectionProcess (g ++ w ++ tail) k) ht
  have h0 := secAt_start (tail := tail) hw k
  obtain ⟨p1, e1, e2⟩ := ppWhitespace_ok H h0 hg hs
  have e1' : parseWhitespace (sectionProcess (g ++ w ++ tail) k) = p1 := congrArg Prod.snd e1
  exact ⟨p1, e2, by simp only [stackParse, e1', stackGo]⟩

/-- A section is rejected with `impossible` only if it has a constant that is too large. -/
theorem stackVm_impossible {cc : CharClass} {checked : Bool} {name t : Str} {k : Nat}
    (he : ((stackVm cc checked).parseInstructions name (sectionProcess t k)).1 = .err .impossible) : BigConst t := by
  have he' : (stackParse cc (sectionProcess t k)).1 = .err .impossible := he
  obtain ⟨w, tail, rfl, hw, ht⟩ := brace_split t
  obtain ⟨g, w, rfl, hg, hs, -⟩ := space_split w
  obtain ⟨p1, q1, q2⟩ := stackParse_go cc k hw ht hg hs
  rw [q2] at he'
  cases outL_stackGo (σ := Proc) cc (w.length + 1) w (k + g.length) [] (by omega) with
  | @ok u v a h1 h2 h3 =>
    rw [h1] at q1
    obtain ⟨p', g1, -⟩ := h3 _ (secReader _ ht) v p1 rfl q1
    rw [g1] at he'
    cases he'
  | @err u v e' h1 h2 h3 h4 =>
    rw [h1] at q1
    rw [h4 _ (secReader _ ht) v p1 rfl q1] at he'
    cases he'
    cases h3
  | hard h0 h =>
    have h1 : BigConst (g ++ w) := h0.suffix
    obtain ⟨a, n, mk, g, ds, b, h1, h2⟩ := h1
    exact ⟨a, n, mk, g, ds, b ++ tail, by rw [h1]; simp, h2⟩

/-- StackVm reports its errors as early as possible, except for constants that are too large. -/
theorem stackVm_failsInTurn {cc : CharClass} (hcc : SpaceOk cc) (checked : Bool) :
    FailsInTurn (stackVm cc checked) (fun e => e = .impossible) := by
  intro name t k e hsp he
  have he' : (stackParse cc (sectionProcess t k)).1 = .err e := he
  -- on a text without leading white space, the parser is the loop
  have hstart : ∀ (w tail : Str), '}' ∉ w → (tail = [] ∨ ∃ r, tail = '}' :: r) → NoSpaceAhead w →
      ∃ p1, SecAt (sectionProcess (w ++ tail) k) tail w k p1 ∧
        stackParse cc (sectionProcess (w ++ tail) k) = stackGo cc [] p1 := by
    intro w tail hw ht hs
    have H := secReader (sectionProcess (w ++ tail) k) ht
    have h0 := secAt_start (tail := tail) hw k
    obtain ⟨p1, e1, e2⟩ := ppWhitespace_ok H (g := []) h0 (by intro c hc; cases hc) hs
    have e1' : parseWhitespace (sectionProcess (w ++ tail) k) = p1 := congrArg Prod.snd e1
    exact ⟨p1, e2, by simp only [stackParse, e1', stackGo]⟩
  obtain ⟨w, tail, rfl, hw, ht⟩ := brace_split t
  have hws : NoSpaceAhead w := by
    rintro c r rfl
    exact hsp c (r ++ tail) rfl
  obtain ⟨p1, q1, q2⟩ := hstart w tail hw ht hws
  rw [q2] at he'
  have hvi : ∀ u, (∃ x is, InstrsText cc is (u ++ x)) →
      ∃ x is', (∀ c r, u ++ x = c :: r → CharClass.isWhitespace c = false) ∧ ReadsSection (stackVm cc checked) name (u ++ x) is' := by
    rintro u ⟨x, is, h⟩
    exact ⟨x, is, h.noSpace hcc, (stackVm_reads hcc checked name _ is).2 ⟨[], _, rfl, isSpace_nil, h⟩⟩
  cases outL_stackGo (σ := Proc) cc (w.length + 1) w k [] (by omega) with
  | @ok u v a h1 h2 h3 =>
    rw [h1] at q1
    obtain ⟨p', g1, -⟩ := h3 _ (secReader _ ht) v p1 rfl q1
    rw [g1] at he'
    cases he'
  | hard _ h =>
    rw [h _ (secReader _ ht) p1 q1] at he'
    cases he'
    exact .inl rfl
  | @err u v e' h1 h2 h3 h4 =>
    right
    subst h1
    have h5 := h4 _ (secReader _ ht) v p1 rfl q1
    rw [h5] at he'
    cases he'
    refine ⟨u, v ++ tail, by simp, ?_, ?_, hvi u h2⟩
    · cases h3 with
      | char c r x => exact .inl (.char c (r ++ tail) x)
      | misplaced r => exact .inl (.misplaced (r ++ tail))
      | missing => exact .inl (.missing (v ++ tail))
      | ended =>
        rcases ht with rfl | ⟨r, rfl⟩
        · exact .inl .ended
        · exact .inr ⟨r, rfl, rfl⟩
    · intro v' hv'
      have hub : '}' ∉ u := fun h => hw (List.mem_append_left _ h)
      obtain ⟨w2, tail2, rfl, hw2, ht2⟩ : ∃ w2 tail2, v' = w2 ++ tail2 ∧ (w2.head? = v.head? ∧ '}' ∉ w2) ∧
          (tail2 = [] ∨ ∃ r, tail2 = '}' :: r) := by
        cases v with
        | nil =>
          refine ⟨[], v', rfl, ⟨rfl, by simp⟩, ?_⟩
          rcases ht with rfl | ⟨r, rfl⟩
          · cases v' with
            | nil => exact .inl rfl
            | cons c r => cases hv'
          · cases v' with
            | nil => cases hv'
            | cons c r => cases hv'; exact .inr ⟨_, rfl⟩
        | cons c v =>
          cases v' with
          | nil => cases hv'
          | cons d v' =>
            cases hv'
            obtain ⟨w2, tail2, rfl, h6, h7⟩ := brace_split v'
            refine ⟨c :: w2, tail2, rfl, ⟨rfl, ?_⟩, h7⟩
            intro h
            rcases List.mem_cons.1 h with h | h
            · exact hw (by rw [← h]; simp)
            · exact h6 h
      have hb : '}' ∉ u ++ w2 := by
        intro h
        rcases List.mem_append.1 h with h | h
        · exact hub h
        · exact hw2.2 h
      obtain ⟨p2, r1, r2⟩ := hstart (u ++ w2) tail2 hb ht2 (ahead_of hws (head?_append hw2.1))
      show (stackParse cc (sectionProcess (u ++ (w2 ++ tail2)) k)).1 = _
      rw [← List.append_assoc, r2]
      exact h4 _ (secReader _ ht2) w2 p2 hw2.1 r1

end HPP
