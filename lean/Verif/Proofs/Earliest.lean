import Verif.Proofs.RuleExact
import Verif.Spec.Earliest
/-
Errors of rule texts are found as early as possible: what a part of the rule parser does depends only on the text up to the
first character it leaves, and what it has read can be continued.
-/
namespace HPP
open Spec
variable {I S : Type}

/-- The error came from the VM. -/
def FromVm (vm : VM I S) (w : Str) (k : Nat) (e : PErr) : Prop :=
  ∃ u v name, w = u ++ v ∧ (vm.parseInstructions name (sectionProcess v (k + u.length))).1 = .err e

theorem FromVm.suffix {vm : VM I S} {u w : Str} {k : Nat} {e : PErr} (h : FromVm vm w (k + u.length) e) : FromVm vm (u ++ w) k e := by
  obtain ⟨u', v, name, rfl, h⟩ := h
  refine ⟨u ++ u', v, name, by simp, ?_⟩
  rw [List.length_append, ← Nat.add_assoc]; exact h

theorem Spec.ReportedAt.suffix {u u' v : Str} {k : Nat} {e : PErr} (h : ReportedAt (k + u.length) u' v e) :
    ReportedAt k (u ++ u') v e := by
  cases h with
  | char c r x => have := ReportedAt.char (k := k) (u := u ++ u') c r x; rwa [List.length_append, ← Nat.add_assoc] at this
  | ended => have := ReportedAt.ended (k := k) (u := u ++ u'); rwa [List.length_append, ← Nat.add_assoc] at this
  | missing v => have := ReportedAt.missing (k := k) (u := u ++ u') v; rwa [List.length_append, ← Nat.add_assoc] at this
  | misplaced r => have := ReportedAt.misplaced (k := k) (u := u ++ u') r; rwa [List.length_append, ← Nat.add_assoc] at this

/-- How a part of the rule parser ends on the text `w`: with a value or an error that depends only on what it read and on the
next character, or with an error of the VM: one that says that the section is closed too early, or one with `H`. -/
inductive Ends (vm : VM I S) (H : PErr → Prop) {α : Type} (x : SM (RP I) PErr α) (w : Str) (k : Nat) (pd : ParserData I)
    (Q : α → Str → Str → Prop) (R : Str → Prop) : Prop where
  | ok {u v : Str} {a : α} {pd' : ParserData I} : w = u ++ v → Q a u v →
      (∀ v' : Str, v'.head? = v.head? → x ⟨Proc.at (u ++ v') k, pd⟩ = (.ok a, ⟨Proc.at v' (k + u.length), pd'⟩)) → Ends vm H x w k pd Q R
  | err {u v : Str} {e : PErr} : w = u ++ v → R u → ReportedAt k u v e →
      (∀ v' : Str, v'.head? = v.head? → (x ⟨Proc.at (u ++ v') k, pd⟩).1 = .err e) → Ends vm H x w k pd Q R
  | sec {u r : Str} {e : PErr} : w = u ++ '}' :: r → R u → e = .endOfChars (k + u.length) → FromVm vm w k e →
      (∀ r' : Str, (x ⟨Proc.at (u ++ '}' :: r') k, pd⟩).1 = .err e) → Ends vm H x w k pd Q R
  | vm {e : PErr} : H e → FromVm vm w k e → (x ⟨Proc.at w k, pd⟩).1 = .err e → Ends vm H x w k pd Q R

section
variable {vm : VM I S} {H : PErr → Prop} {w : Str} {k : Nat} {pd : ParserData I} {α β : Type}

theorem head?_append {u v v' : Str} (h : v'.head? = v.head?) : (u ++ v').head? = (u ++ v).head? := by
  cases u with
  | nil => exact h
  | cons c u => rfl

theorem smBind_err {σ ε α β : Type} {x : SM σ ε α} {f : α → SM σ ε β} {s : σ} {e : ε} (h : (x s).1 = .err e) :
    ((x >>= f) s).1 = .err e := by
  rcases hx : x s with ⟨r, s1⟩
  rw [hx] at h
  simp only at h
  subst h
  rw [SM.bind_apply, hx]

/-- After a part that surely succeeds. -/
theorem Ends.step {x y : SM (RP I) PErr α} {p v : Str} {pd1 : ParserData I} {Q : α → Str → Str → Prop} {R : Str → Prop}
    (hw : w = p ++ v)
    (hs : ∀ v' : Str, v'.head? = v.head? → x ⟨Proc.at (p ++ v') k, pd⟩ = y ⟨Proc.at v' (k + p.length), pd1⟩)
    (hy : Ends vm H y v (k + p.length) pd1 (fun a u v' => Q a (p ++ u) v') (fun u => R (p ++ u))) : Ends vm H x w k pd Q R := by
  subst hw
  cases hy with
  | @ok u v1 a pd' h1 h2 h3 =>
    subst h1
    refine .ok (u := p ++ u) (v := v1) (pd' := pd') (by simp) h2 fun v' hv' => ?_
    rw [List.append_assoc, hs (u ++ v') (head?_append hv'), h3 v' hv', List.length_append, Nat.add_assoc]
  | @err u v1 e h1 h2 h3 h4 =>
    subst h1
    refine .err (u := p ++ u) (v := v1) (by simp) h2 h3.suffix fun v' hv' => ?_
    rw [List.append_assoc, hs (u ++ v') (head?_append hv'), h4 v' hv']
  | @sec u r e h1 h2 h3 h4 h5 =>
    subst h1
    refine .sec (u := p ++ u) (r := r) (by simp) h2 (by rw [h3, List.length_append, Nat.add_assoc]) h4.suffix fun r' => ?_
    rw [List.append_assoc, hs (u ++ '}' :: r') (head?_append rfl), h5 r']
  | vm h0 h1 h2 => exact .vm h0 h1.suffix (by rw [hs v rfl]; exact h2)

theorem Ends.bind {x : SM (RP I) PErr α} {f : α → SM (RP I) PErr β} {Q : α → Str → Str → Prop} {Q' : β → Str → Str → Prop}
    {R : Str → Prop} (hx : Ends vm H x w k pd Q R)
    (hf : ∀ a u v pd', w = u ++ v → Q a u v →
      Ends vm H (f a) v (k + u.length) pd' (fun b u' v' => Q' b (u ++ u') v') (fun u' => R (u ++ u'))) :
    Ends vm H (x >>= f) w k pd Q' R := by
  cases hx with
  | @ok u v a pd' h1 h2 h3 =>
    refine .step h1 (fun v' hv' => ?_) (hf a u v pd' h1 h2)
    rw [smBind_ok (h3 v' hv')]
  | err h1 h2 h3 h4 => exact .err h1 h2 h3 fun v' hv' => smBind_err (h4 v' hv')
  | sec h1 h2 h3 h4 h5 => exact .sec h1 h2 h3 h4 fun r' => smBind_err (h5 r')
  | vm h0 h1 h2 => exact .vm h0 h1 (smBind_err h2)

theorem Ends.mono {x : SM (RP I) PErr α} {Q Q' : α → Str → Str → Prop} {R R' : Str → Prop} (h : Ends vm H x w k pd Q R)
    (hQ : ∀ a u v, w = u ++ v → Q a u v → Q' a u v) (hR : ∀ u v, w = u ++ v → R u → R' u) : Ends vm H x w k pd Q' R' := by
  cases h with
  | ok h1 h2 h3 => exact .ok h1 (hQ _ _ _ h1 h2) h3
  | err h1 h2 h3 h4 => exact .err h1 (hR _ _ h1 h2) h3 h4
  | sec h1 h2 h3 h4 h5 => exact .sec h1 (hR _ _ h1 h2) h3 h4 h5
  | vm h0 h1 h2 => exact .vm h0 h1 h2

theorem Ends.pure {a : α} {Q : α → Str → Str → Prop} {R : Str → Prop} (h : Q a [] w) :
    Ends vm H (Pure.pure a : SM (RP I) PErr α) w k pd Q R :=
  .ok (u := []) rfl h fun _ _ => rfl

/-! ### Tokens -/

theorem ends_whitespace {R : Str → Prop} : Ends vm H rpWhitespace w k pd (fun _ u v => IsSpace u ∧ NoSpaceAhead v) R := by
  obtain ⟨g, v, rfl, h1, h2, -⟩ := space_split w
  refine .ok rfl ⟨h1, h2⟩ fun v' hv' => rpWhitespace_ok h1 ?_ k pd
  rintro c r rfl
  cases v with
  | nil => cases hv'
  | cons d v => cases hv'; exact h2 _ _ rfl

theorem ends_symbol {R : Str → Prop} (c : Char) (hR : R []) : Ends vm H (rpSymbol c) w k pd (fun _ u _ => u = [c]) R := by
  cases w with
  | nil =>
    refine .err (u := []) (v := []) rfl hR .ended fun v' hv' => ?_
    cases v' with
    | nil => simp only [List.nil_append, rpSymbol, rpProc, plainReader.symbol_end trivial]; rfl
    | cons d v' => cases hv'
  | cons d w =>
    by_cases hd : d = c
    · subst hd
      exact .ok (u := [d]) (v := w) rfl rfl fun v' _ => rpSymbol_ok d v' k pd
    · refine .err (u := []) (v := d :: w) rfl hR (.char d w [c]) fun v' hv' => ?_
      cases v' with
      | nil => cases hv'
      | cons d' v' =>
        cases hv'
        simp only [List.nil_append, rpSymbol, rpProc, plainReader.symbol_err trivial k hd]
        rfl

theorem ends_trySymbol {R : Str → Prop} (c : Char) : Ends vm H (smTry (rpSymbol c)) w k pd
    (fun o u v => (o = some () ∧ u = [c]) ∨ (o = none ∧ u = [] ∧ v.head? ≠ some c)) R := by
  rcases rpSymbol_cases c w k pd with ⟨w', rfl, h⟩ | ⟨h, e, he⟩
  · exact .ok (u := [c]) (v := w') rfl (.inl ⟨rfl, rfl⟩) fun v' _ => smTry_ok (rpSymbol_ok c v' k pd)
  · refine .ok (u := []) (v := w) (pd' := pd) rfl (.inr ⟨rfl, rfl, h⟩) fun v' hv' => ?_
    obtain ⟨e', he'⟩ := rpSymbol_err (w := v') (by rw [hv']; exact h) k pd
    exact smTry_err he'

theorem ends_varName {R : Str → Prop} (cc : CharClass) (hR : R []) :
    Ends vm H (rpVarName cc) w k pd (fun n u v => u = n ∧ IsName cc n ∧ NoNameAhead cc v) R := by
  rcases rpVarName_cases cc w k pd with ⟨n, w', rfl, h1, h2, h3⟩ | ⟨e, he⟩
  · refine .ok rfl ⟨rfl, h1, h2⟩ fun v' hv' => rpVarName_ok h1 ?_ k pd
    rintro c r rfl
    cases w' with
    | nil => cases hv'
    | cons d v => cases hv'; exact h2 _ _ rfl
  · cases w with
    | nil =>
      refine .err (u := []) (v := []) rfl hR .ended fun v' hv' => ?_
      cases v' with
      | nil => simp only [List.nil_append, rpVarName, rpProc, plainReader.varName_end cc trivial k]; rfl
      | cons d v' => cases hv'
    | cons c w =>
      by_cases hc : cc.isAlphabetic c = true
      · simp only [rpVarName, rpProc] at he
        rw [plainReader.varName_ok cc trivial k hc] at he
        simp at he
      · have hc' : cc.isAlphabetic c = false := by simpa using hc
        have : ∃ ex, ∀ r, parseVarName cc (Proc.at (c :: r) k) = (.err (.unexpectedChar c k ex), Proc.at (c :: r) k) :=
          ⟨_, fun r => plainReader.varName_err cc trivial k hc'⟩
        obtain ⟨ex, hex⟩ := this
        refine .err (u := []) (v := c :: w) rfl hR (.char c w ex) fun v' hv' => ?_
        cases v' with
        | nil => cases hv'
        | cons d' v' =>
          cases hv'
          simp only [List.nil_append, rpVarName, rpProc, hex]
          rfl

theorem ends_intern {R : Str → Prop} (e : ElementVerbose) : Ends vm H (rpIntern e) w k pd (fun _ u _ => u = []) R :=
  .ok (u := []) (a := (pd.getOrAddElementKey e).1) (pd' := (pd.getOrAddElementKey e).2) rfl rfl fun _ _ => rfl


/-! ### Productions -/

/-- A quoted terminal can always be closed. -/
theorem quoted_close : ∀ (b : Str) (e : Bool), quotedFrom e b = none →
    ∃ x b', b ++ x = b' ++ ['"'] ∧ quotedFrom e (b' ++ ['"']) = some (b', [])
  | [], false, _ => ⟨['"'], [], rfl, rfl⟩
  | [], true, _ => ⟨['a', '"'], ['a'], rfl, by decide⟩
  | c :: b, e, h => by
    simp only [quotedFrom] at h
    split at h
    · cases h
    · next hc =>
      obtain ⟨x, b', h1, h2⟩ := quoted_close b (decide (c = '\\' ∧ e = false)) (Option.map_eq_none_iff.1 h)
      refine ⟨x, c :: b', by simp [h1], ?_⟩
      simp only [List.cons_append, quotedFrom]
      rw [if_neg hc, h2]
      rfl

theorem elem_other {cc : CharClass} {v : Str} (h : ∀ c r, v = c :: r → c ≠ '#' ∧ c ≠ '"' ∧ cc.isAlphabetic c = false)
    (k : Nat) : ∃ e, parseElement cc (Proc.at v k) = (.err e, Proc.at v k) := by
  rcases parseElement_cases cc v k with ⟨w', he, -⟩ | ⟨e, t, w', he, ht, -⟩ | ⟨-, e, h'⟩ | ⟨w0, e, he, -⟩
  · exact absurd rfl (h _ _ he).1
  · exfalso
    cases ht with
    | terminal => exact absurd rfl (h _ _ he).2.1
    | name hn =>
      obtain ⟨d, ds, rfl, hd, -⟩ := hn
      rw [(h d _ he).2.2] at hd
      cases hd
  · exact ⟨e, h'⟩
  · exact absurd rfl (h _ _ he).2.1

theorem elem_hash (cc : CharClass) (v : Str) (k : Nat) :
    parseElement cc (Proc.at ('#' :: v) k) = (.ok none, Proc.at v (k + 1)) := by
  simp only [parseElement, plainReader.peek ('#' :: v) _ trivial, List.head?_cons, if_true, plainReader.next '#' v _ trivial]

theorem ahead_congr {P : Char → Prop} {v v' : Str} (hv : v'.head? = v.head?) (h : ∀ c r, v = c :: r → P c) :
    ∀ c r, v' = c :: r → P c := by
  rintro c r rfl
  cases v with
  | nil => cases hv
  | cons d v => cases hv; exact h _ _ rfl

/-- More fuel does not matter. -/
theorem prodLoop_fuel (cc : CharClass) : ∀ (n n' : Nat) (acc : List Nat) (w : Str) (k : Nat) (pd : ParserData I),
    w.length < n → w.length < n' →
    parseProductionLoop cc n acc ⟨Proc.at w k, pd⟩ = parseProductionLoop cc n' acc ⟨Proc.at w k, pd⟩
  | 0, _, _, _, _, _, h, _ => by omega
  | _ + 1, 0, _, _, _, _, _, h => by omega
  | n + 1, n' + 1, acc, w, k, pd, h, h' => by
    obtain ⟨g, v, rfl, hg, hv, -⟩ := space_split w
    rw [prodLoop_step, prodLoop_step, rpWhitespace_ok hg hv]
    simp only
    rcases parseElement_cases cc v (k + g.length) with ⟨v', rfl, he⟩ | ⟨e, t, v', rfl, ht, hnn, he⟩ | ⟨hno, e, he⟩ | ⟨v0, e, rfl, hq, he⟩
    · simp only [rpProc_eq he]
    · simp only [rpProc_eq he]
      have := ht.length_pos
      simp only [List.length_append] at h h'
      have hi : rpIntern e (⟨Proc.at v' (k + g.length + t.length), pd⟩ : RP I) =
        (.ok (pd.getOrAddElementKey e).1, ⟨Proc.at v' (k + g.length + t.length), (pd.getOrAddElementKey e).2⟩) := rfl
      rw [smBind_ok hi, smBind_ok hi]
      exact prodLoop_fuel cc n n' _ v' _ _ (by omega) (by omega)
    · simp only [rpProc_eq he]
    · simp only [rpProc_eq he]

/-- The production loop with enough fuel. -/
def prodGo (cc : CharClass) (acc : List Nat) : SM (RP I) PErr Production := fun s =>
  parseProductionLoop cc (s.proc.rest.length + 1) acc s

/-- What may follow in a production when some elements were read. -/
def MoreText (cc : CharClass) (y : Str) : Prop :=
  IsSpace y ∨ ∃ g0 t g es, y = g0 ++ (t ++ g) ∧ IsSpace g0 ∧ IsSpace g ∧ SeqText cc es t

/-- An alternative with white space around it. -/
def AltSpaced (cc : CharClass) (y : Str) : Prop :=
  ∃ g0 t g a, y = g0 ++ (t ++ g) ∧ IsSpace g0 ∧ IsSpace g ∧ AltText cc a t

/-- What may follow in a production. -/
def ProdText (cc : CharClass) (acc : List Nat) (y : Str) : Prop := if acc = [] then AltSpaced cc y else MoreText cc y

theorem ProdText.seq {cc : CharClass} {acc : List Nat} {g0 t g : Str} {es : List ElementVerbose} (hg0 : IsSpace g0) (hg : IsSpace g)
    (h : SeqText cc es t) : ProdText cc acc (g0 ++ (t ++ g)) := by
  unfold ProdText
  split
  · exact ⟨g0, t, g, es, rfl, hg0, hg, .seq h⟩
  · exact .inr ⟨g0, t, g, es, rfl, hg0, hg, h⟩

/-- One more element in front. -/
theorem MoreText.cons {cc : CharClass} {e : ElementVerbose} {t u x v : Str} (ht : ElemText cc e t)
    (hnn : e.et = .nonTerminal → NoNameAhead cc (u ++ v)) (hu : u ≠ []) (h : MoreText cc (u ++ x)) :
    ∃ t' g es, t ++ (u ++ x) = t' ++ g ∧ IsSpace g ∧ SeqText cc es t' := by
  rcases h with h | ⟨g0, t1, g, es, h1, hg0, hg, hs⟩
  · exact ⟨t, u ++ x, [e], rfl, h, .one ht⟩
  · refine ⟨t ++ (g0 ++ t1), g, e :: es, by rw [h1]; simp, hg, ?_⟩
    cases es with
    | nil => exact absurd rfl hs.ne_nil
    | cons e' es =>
      refine .cons ht hg0 (fun hnt hnt' hg0e => ?_) hs
      subst hg0e
      obtain ⟨c, u, rfl⟩ : ∃ c u', u = c :: u' := by
        cases u with
        | nil => exact absurd rfl hu
        | cons c u => exact ⟨c, u, rfl⟩
      have h2 := hnn hnt c (u ++ v) rfl
      refine (?_ : ¬ NoNameAhead cc (t1 ++ g)) ?_
      · cases hs with
        | one h => exact h.nonTerminal_name hnt' _
        | cons h _ _ _ => rw [List.append_assoc]; exact h.nonTerminal_name hnt' _
      · intro d r hd
        rw [List.nil_append] at h1
        rw [← h1] at hd
        cases hd
        exact h2

theorem ends_prodGo (cc : CharClass) : ∀ (n : Nat) (acc : List Nat) (w : Str) (k : Nat) (pd : ParserData I), w.length < n →
    Ends vm H (prodGo cc acc) w k pd (fun _ u v => ∃ x, (x = [] ∨ v = []) ∧ ProdText cc acc (u ++ x))
      (fun u => ∃ x, ProdText cc acc (u ++ x))
  | 0, _, _, _, _, h => by omega
  | n + 1, acc, w, k, pd, h => by
    obtain ⟨g, v, rfl, hg, hv, -⟩ := space_split w
    have hgo : ∀ v' : Str, v'.head? = v.head? → prodGo cc acc ⟨Proc.at (g ++ v') k, pd⟩ =
        (match rpProc (parseElement cc) ⟨Proc.at v' (k + g.length), pd⟩ with
        | (.ok none, s2) => if acc.isEmpty then (.ok .empty, s2)
            else (.err (.gram (.unexpectedElement true s2.proc.curPos)), s2)
        | (.ok (some el), s2) => (rpIntern el >>= fun ix => parseProductionLoop cc (g ++ v').length (acc ++ [ix])) s2
        | (.err _, s2) => finishProduction acc s2
        | (.panic, s2) => (.panic, s2)
        | (.timeout, s2) => (.timeout, s2)) := by
      intro v' hv'
      show parseProductionLoop cc ((g ++ v').length + 1) acc _ = _
      rw [prodLoop_step, rpWhitespace_ok hg (ahead_congr hv' hv)]
      rfl
    have hm : acc ≠ [] → ProdText cc acc (g ++ []) := by
      intro ha
      rw [ProdText, if_neg ha, List.append_nil]
      exact .inl hg
    rcases parseElement_cases cc v (k + g.length) with ⟨v', rfl, he⟩ | ⟨e, t, v', rfl, ht, hnn, he⟩ | ⟨hno, e, he⟩ | ⟨v0, e, rfl, hq, he⟩
    · by_cases ha : acc = []
      · subst ha
        refine .ok (u := g ++ ['#']) (v := v') (a := .empty) (pd' := pd) (by simp) ⟨[], .inl rfl, ?_⟩ fun v'' _ => ?_
        · rw [ProdText, if_pos rfl]
          exact ⟨g, ['#'], [], [], by simp, hg, isSpace_nil, .empty⟩
        · rw [List.append_assoc, List.singleton_append, hgo ('#' :: v'') rfl, rpProc_eq (elem_hash cc v'' _)]
          simp only [List.isEmpty_nil, if_true, List.length_append, List.length_singleton, Nat.add_assoc]
      · refine .err (u := g) (v := '#' :: v') rfl ⟨[], hm ha⟩ (.misplaced v') fun v'' hv'' => ?_
        obtain ⟨v'', rfl⟩ : ∃ r, v'' = '#' :: r := by
          cases v'' with
          | nil => cases hv''
          | cons c r => cases hv''; exact ⟨r, rfl⟩
        rw [hgo ('#' :: v'') rfl, rpProc_eq (elem_hash cc v'' _)]
        have : acc.isEmpty = false := by simpa using ha
        simp only [this, Bool.false_eq_true, if_false]
        rfl
    · have hl : v'.length < n := by
        have := ht.length_pos
        simp only [List.length_append] at h
        omega
      refine Ends.step (p := g ++ t) (v := v') (y := prodGo cc (acc ++ [(pd.getOrAddElementKey e).1]))
        (pd1 := (pd.getOrAddElementKey e).2) (by simp) (fun v'' hv'' => ?_)
        ((ends_prodGo cc n _ v' _ _ hl).mono ?_ ?_)
      · have h1 : (t ++ v'').head? = (t ++ v').head? := head?_append hv''
        have h2 := parseElement_ok (w := v'') ht (fun hnt => ahead_congr hv'' (hnn hnt)) (k + g.length)
        rw [List.append_assoc, hgo _ h1, rpProc_eq h2]
        simp only
        have hi : rpIntern e (⟨Proc.at v'' (k + g.length + t.length), pd⟩ : RP I) =
          (.ok (pd.getOrAddElementKey e).1, ⟨Proc.at v'' (k + g.length + t.length), (pd.getOrAddElementKey e).2⟩) := rfl
        rw [smBind_ok hi, List.length_append (as := g) (bs := t), ← Nat.add_assoc]
        refine prodLoop_fuel cc _ _ _ _ _ _ ?_ ?_
        · have := ht.length_pos
          simp only [List.length_append]
          omega
        · show v''.length < v''.length + 1
          omega
      · rintro p u v1 rfl ⟨x, hx, hP⟩
        by_cases hu : u = []
        · refine ⟨[], .inl rfl, ?_⟩
          subst hu
          have := ProdText.seq (acc := acc) hg isSpace_nil (.one ht)
          simpa using this
        · refine ⟨x, hx, ?_⟩
          rw [ProdText, if_neg (by simp)] at hP
          obtain ⟨t', g', es, h1, h2, h3⟩ := MoreText.cons ht hnn hu hP
          have := ProdText.seq (acc := acc) hg h2 h3
          rw [← h1] at this
          simpa using this
      · rintro u v1 rfl ⟨x, hP⟩
        by_cases hu : u = []
        · refine ⟨[], ?_⟩
          subst hu
          have := ProdText.seq (acc := acc) hg isSpace_nil (.one ht)
          simpa using this
        · refine ⟨x, ?_⟩
          rw [ProdText, if_neg (by simp)] at hP
          obtain ⟨t', g', es, h1, h2, h3⟩ := MoreText.cons ht hnn hu hP
          have := ProdText.seq (acc := acc) hg h2 h3
          rw [← h1] at this
          simpa using this
    · have hno' : ∀ v' : Str, v'.head? = v.head? → ∃ e, parseElement cc (Proc.at v' (k + g.length)) = (.err e, Proc.at v' (k + g.length)) :=
        fun v' hv' => elem_other (ahead_congr hv' hno) _
      by_cases ha : acc = []
      · subst ha
        refine .err (u := g) (v := v) rfl ⟨['#'], ?_⟩ (.missing v) fun v' hv' => ?_
        · rw [ProdText, if_pos rfl]
          exact ⟨g, ['#'], [], [], by simp, hg, isSpace_nil, .empty⟩
        · obtain ⟨e', he'⟩ := hno' v' hv'
          rw [hgo v' hv', rpProc_eq he']
          rfl
      · refine .ok (u := g) (v := v) (a := .notEmpty acc) (pd' := pd) rfl ⟨[], .inl rfl, hm ha⟩ fun v' hv' => ?_
        obtain ⟨e', he'⟩ := hno' v' hv'
        rw [hgo v' hv', rpProc_eq he']
        have : acc.isEmpty = false := by simpa using ha
        simp only [finishProduction, this, Bool.false_eq_true, if_false]
    · obtain ⟨x, b', h1, h2⟩ := quoted_close v0 false hq
      have hP : ProdText cc acc (g ++ '"' :: v0 ++ x) := by
        have := ProdText.seq (cc := cc) (acc := acc) hg isSpace_nil (.one (.terminal h2))
        rw [← h1] at this
        simpa using this
      by_cases ha : acc = []
      · subst ha
        refine .err (u := g ++ '"' :: v0) (v := []) (by simp) ⟨x, hP⟩ (.missing []) fun v' hv' => ?_
        cases v' with
        | cons c r => cases hv'
        | nil =>
          rw [List.append_nil, hgo _ rfl, rpProc_eq he]
          simp only [finishProduction, PP.curPos, Proc.at, List.length_append, List.length_cons, List.isEmpty_nil, if_true]
          rw [show k + g.length + 1 + v0.length = k + (g.length + (v0.length + 1)) by omega]
      · refine .ok (u := g ++ '"' :: v0) (v := []) (a := .notEmpty acc) (pd' := pd) (by simp) ⟨x, .inr rfl, hP⟩ fun v' hv' => ?_
        cases v' with
        | cons c r => cases hv'
        | nil =>
          rw [List.append_nil, hgo _ rfl, rpProc_eq he]
          have : acc.isEmpty = false := by simpa using ha
          simp only [finishProduction, this, Bool.false_eq_true, if_false, List.length_append, List.length_cons]
          rw [show k + g.length + 1 + v0.length = k + (g.length + (v0.length + 1)) by omega]

/-- `parse_production`. -/
theorem ends_prod (cc : CharClass) : Ends vm H (parseProd cc) w k pd (fun _ u v => ∃ x, (x = [] ∨ v = []) ∧ AltSpaced cc (u ++ x))
    (fun u => ∃ x, AltSpaced cc (u ++ x)) := by
  have := ends_prodGo (vm := vm) (H := H) cc (w.length + 1) [] w k pd (by omega)
  simp only [ProdText, if_true] at this
  exact this

end
end HPP
