import Verif.Proofs.Intern
import Verif.Proofs.Reader
import Verif.Spec.RuleText
import Verif.Model.RuleParsing
/-
The rule parser on plain states: tokens and element numbering.
-/
namespace HPP
open Spec
variable {I S : Type}

/-! ### Numbering -/

/-- `keys` extended by the new elements of `ks`. -/
def addAll (keys ks : List ElementVerbose) : List ElementVerbose :=
  ks.foldl (fun acc k => if k ∈ acc then acc else acc ++ [k]) keys

@[simp] theorem addAll_nil (keys : List ElementVerbose) : addAll keys [] = keys := rfl

theorem addAll_append (keys a b : List ElementVerbose) : addAll keys (a ++ b) = addAll (addAll keys a) b := by
  simp [addAll]

theorem addAll_single (keys : List ElementVerbose) (k : ElementVerbose) :
    addAll keys [k] = if k ∈ keys then keys else keys ++ [k] := by
  simp only [addAll, List.foldl_cons, List.foldl_nil]

theorem addAll_cons (keys : List ElementVerbose) (k : ElementVerbose) (ks : List ElementVerbose) :
    addAll keys (k :: ks) = addAll (addAll keys [k]) ks := addAll_append keys [k] ks

theorem firstOccurrences_eq (ks : List ElementVerbose) : firstOccurrences ks = addAll [] ks := by
  induction ks using list_snoc_induction with
  | h0 => rfl
  | h1 l a ih =>
    rw [firstOccurrences_snoc, ih, addAll_append, addAll_single]

theorem addAll_prefix (keys ks : List ElementVerbose) : ∃ more, addAll keys ks = keys ++ more := by
  induction ks generalizing keys with
  | nil => exact ⟨[], by simp⟩
  | cons k ks ih =>
    rw [addAll_cons]
    obtain ⟨m, hm⟩ := ih (addAll keys [k])
    rw [hm, addAll_single]
    split
    · exact ⟨m, rfl⟩
    · exact ⟨[k] ++ m, by simp⟩

theorem mem_addAll {keys ks : List ElementVerbose} {k : ElementVerbose} : k ∈ addAll keys ks ↔ k ∈ keys ∨ k ∈ ks := by
  induction ks generalizing keys with
  | nil => simp
  | cons a ks ih =>
    rw [addAll_cons, ih, addAll_single]
    constructor
    · rintro (h | h)
      · split at h
        · exact .inl h
        · rcases List.mem_append.1 h with h | h
          · exact .inl h
          · rw [List.mem_singleton] at h; subst h; simp
      · exact .inr (by simp [h])
    · rintro (h | h)
      · left; split
        · exact h
        · simp [h]
      · rcases List.mem_cons.1 h with rfl | h
        · left; split
          · next h => exact h
          · simp
        · exact .inr h

theorem idxOf_addAll {keys ks : List ElementVerbose} {k : ElementVerbose} (h : k ∈ keys) :
    (addAll keys ks).idxOf k = keys.idxOf k := by
  obtain ⟨m, hm⟩ := addAll_prefix keys ks
  rw [hm, List.idxOf_append, if_pos h]

theorem getElem?_idxOf {keys : List ElementVerbose} {k : ElementVerbose} (h : k ∈ keys) : keys[keys.idxOf k]? = some k := by
  have := List.idxOf_lt_length_of_mem h
  rw [List.getElem?_eq_getElem this, List.getElem_idxOf]

/-- Requesting `ks` one after the other turns `pd` (with elements `keys`) into `pd'`. -/
structure Interned (pd : ParserData I) (keys : List ElementVerbose) (ks : List ElementVerbose) (pd' : ParserData I) :
    Prop where
  ok : InternOk pd' (addAll keys ks)
  rules : pd'.rules = pd.rules
  ignore : pd'.ignore = pd.ignore

theorem Interned.refl {pd : ParserData I} {keys : List ElementVerbose} (h : InternOk pd keys) : Interned pd keys [] pd :=
  ⟨h, rfl, rfl⟩

theorem Interned.trans {pd pd1 pd2 : ParserData I} {keys ks ks' : List ElementVerbose} (h1 : Interned pd keys ks pd1)
    (h2 : Interned pd1 (addAll keys ks) ks' pd2) : Interned pd keys (ks ++ ks') pd2 :=
  ⟨by rw [addAll_append]; exact h2.ok, h2.rules.trans h1.rules, h2.ignore.trans h1.ignore⟩

theorem InternOk.idx {pd : ParserData I} {keys : List ElementVerbose} (h : InternOk pd keys) {k : ElementVerbose} {i : Nat}
    (hi : keys[i]? = some k) : keys.idxOf k = i :=
  h.inj (getElem?_idxOf (List.mem_of_getElem? hi)) hi

/-- `rpIntern`. -/
theorem rpIntern_eq {pd : ParserData I} {keys : List ElementVerbose} (h : InternOk pd keys) (p : Proc) (k : ElementVerbose) :
    ∃ pd', rpIntern k ⟨p, pd⟩ = (.ok ((addAll keys [k]).idxOf k), ⟨p, pd'⟩) ∧ Interned pd keys [k] pd' := by
  obtain ⟨keys', hk, h1, h2, h3, h4⟩ := h.request k
  refine ⟨(pd.getOrAddElementKey k).2, ?_, ?_⟩
  · simp only [rpIntern]
    have : (addAll keys [k]).idxOf k = (pd.getOrAddElementKey k).1 := by
      rw [addAll_single, ← hk]; exact h1.idx h2
    rw [this]
  · exact ⟨by rw [addAll_single, ← hk]; exact h1, h3, h4⟩

/-! ### Tokens -/

/-- The text does not start with white space. -/
def NoSpaceAhead (w : Str) : Prop := ∀ c r, w = c :: r → CharClass.isWhitespace c = false

/-- The text does not start with a name character. -/
def NoNameAhead (cc : CharClass) (w : Str) : Prop := ∀ c r, w = c :: r → (cc.isAlphanumeric c || c == '_') = false

theorem dropWhile_append_of {f : Char → Bool} {g w : Str} (hg : ∀ c ∈ g, f c = true) (hw : ∀ c r, w = c :: r → f c = false) :
    (g ++ w).dropWhile f = w ∧ (g ++ w).takeWhile f = g := by
  induction g with
  | nil =>
    cases w with
    | nil => exact ⟨rfl, rfl⟩
    | cons c w => simp [hw c w rfl]
  | cons c g ih =>
    have h1 := hg c (by simp)
    have ih := ih (fun d hd => hg d (by simp [hd]))
    simp [h1, ih.1, ih.2]

theorem rpWhitespace_eq (w : Str) (k : Nat) (pd : ParserData I) :
    rpWhitespace ⟨Proc.at w k, pd⟩ = (.ok (), ⟨Proc.at (w.dropWhile CharClass.isWhitespace)
      (k + (w.takeWhile CharClass.isWhitespace).length), pd⟩) := by
  simp only [rpWhitespace, rpProc, plainReader.whitespace trivial]

theorem rpWhitespace_ok {g w : Str} (hg : IsSpace g) (hw : NoSpaceAhead w) (k : Nat) (pd : ParserData I) :
    rpWhitespace ⟨Proc.at (g ++ w) k, pd⟩ = (.ok (), ⟨Proc.at w (k + g.length), pd⟩) := by
  obtain ⟨h1, h2⟩ := dropWhile_append_of hg hw
  rw [rpWhitespace_eq, h1, h2]

/-- White space always splits off. -/
theorem space_split (w : Str) : ∃ g w', w = g ++ w' ∧ IsSpace g ∧ NoSpaceAhead w' ∧
    w.dropWhile CharClass.isWhitespace = w' := by
  refine ⟨w.takeWhile CharClass.isWhitespace, w.dropWhile CharClass.isWhitespace,
    List.takeWhile_append_dropWhile.symm, ?_, ?_, rfl⟩
  · induction w with
    | nil => intro c hc; simp at hc
    | cons x w ih =>
      intro c hc
      rw [List.takeWhile_cons] at hc
      split at hc
      · next hx =>
        rcases List.mem_cons.1 hc with rfl | hc
        · exact hx
        · exact ih c hc
      · simp at hc
  · intro c r h
    induction w with
    | nil => simp at h
    | cons x w ih =>
      rw [List.dropWhile_cons] at h
      split at h
      · exact ih h
      · next hx => cases h; simpa using hx

theorem rpSymbol_ok (c : Char) (w : Str) (k : Nat) (pd : ParserData I) :
    rpSymbol c ⟨Proc.at (c :: w) k, pd⟩ = (.ok (), ⟨Proc.at w (k + 1), pd⟩) := by
  simp only [rpSymbol, rpProc, plainReader.symbol_ok trivial]

theorem rpSymbol_err {c : Char} {w : Str} (h : w.head? ≠ some c) (k : Nat) (pd : ParserData I) :
    ∃ e, rpSymbol c ⟨Proc.at w k, pd⟩ = (.err e, ⟨Proc.at w k, pd⟩) := by
  cases w with
  | nil => exact ⟨.endOfChars k, by simp only [rpSymbol, rpProc, plainReader.symbol_end trivial]⟩
  | cons d w =>
    have : d ≠ c := fun hd => h (by rw [hd]; rfl)
    exact ⟨.unexpectedChar d k [c], by simp only [rpSymbol, rpProc, plainReader.symbol_err trivial k this]⟩

/-- `parse_symbol` decides. -/
theorem rpSymbol_cases (c : Char) (w : Str) (k : Nat) (pd : ParserData I) :
    (∃ w', w = c :: w' ∧ rpSymbol c ⟨Proc.at w k, pd⟩ = (.ok (), ⟨Proc.at w' (k + 1), pd⟩)) ∨
    (w.head? ≠ some c ∧ ∃ e, rpSymbol c ⟨Proc.at w k, pd⟩ = (.err e, ⟨Proc.at w k, pd⟩)) := by
  by_cases h : w.head? = some c
  · cases w with
    | nil => simp at h
    | cons d w =>
      simp only [List.head?_cons, Option.some.injEq] at h
      subst h
      exact .inl ⟨w, rfl, rpSymbol_ok d w k pd⟩
  · exact .inr ⟨h, rpSymbol_err h k pd⟩

theorem rpVarName_ok {cc : CharClass} {n w : Str} (hn : IsName cc n) (hw : NoNameAhead cc w) (k : Nat) (pd : ParserData I) :
    rpVarName cc ⟨Proc.at (n ++ w) k, pd⟩ = (.ok n, ⟨Proc.at w (k + n.length), pd⟩) := by
  obtain ⟨c, cs, rfl, hc, hcs⟩ := hn
  obtain ⟨h1, h2⟩ := dropWhile_append_of (f := fun x => cc.isAlphanumeric x || x == '_') (g := cs) (w := w)
    (fun d hd => by rcases hcs d hd with h | h <;> simp [h]) hw
  simp only [rpVarName, rpProc, List.cons_append, plainReader.varName_ok cc trivial k hc, h1, h2, List.length_cons]
  rw [Nat.add_assoc, Nat.add_comm 1]

/-- `parse_var_name` decides. -/
theorem varName_cases (cc : CharClass) (w : Str) (k : Nat) :
    (∃ n w', w = n ++ w' ∧ IsName cc n ∧ NoNameAhead cc w' ∧
      parseVarName cc (Proc.at w k) = (.ok n, Proc.at w' (k + n.length))) ∨
    (∃ e, parseVarName cc (Proc.at w k) = (.err e, Proc.at w k)) := by
  cases w with
  | nil => exact .inr ⟨_, plainReader.varName_end cc trivial k⟩
  | cons c w =>
    by_cases hc : cc.isAlphabetic c = true
    · refine .inl ⟨c :: w.takeWhile (fun x => cc.isAlphanumeric x || x == '_'),
        w.dropWhile (fun x => cc.isAlphanumeric x || x == '_'), ?_, ⟨c, _, rfl, hc, ?_⟩, ?_, ?_⟩
      · rw [List.cons_append, List.takeWhile_append_dropWhile]
      · intro d hd
        have : (cc.isAlphanumeric d || d == '_') = true := by
          clear hc
          induction w with
          | nil => simp at hd
          | cons x w ih =>
            rw [List.takeWhile_cons] at hd
            split at hd
            · next hx =>
              rcases List.mem_cons.1 hd with rfl | hd
              · exact hx
              · exact ih hd
            · simp at hd
        simpa using this
      · intro d r h
        clear hc
        induction w with
        | nil => simp at h
        | cons x w ih =>
          rw [List.dropWhile_cons] at h
          split at h
          · exact ih h
          · next hx => cases h; simpa using hx
      · rw [plainReader.varName_ok cc trivial k hc]
        simp only [List.length_cons]
        congr 2
        omega
    · exact .inr ⟨_, plainReader.varName_err cc trivial k (by simpa using hc)⟩

theorem rpVarName_cases (cc : CharClass) (w : Str) (k : Nat) (pd : ParserData I) :
    (∃ n w', w = n ++ w' ∧ IsName cc n ∧ NoNameAhead cc w' ∧
      rpVarName cc ⟨Proc.at w k, pd⟩ = (.ok n, ⟨Proc.at w' (k + n.length), pd⟩)) ∨
    (∃ e, rpVarName cc ⟨Proc.at w k, pd⟩ = (.err e, ⟨Proc.at w k, pd⟩)) := by
  rcases varName_cases cc w k with ⟨n, w', h1, h2, h3, h4⟩ | ⟨e, h⟩
  · exact .inl ⟨n, w', h1, h2, h3, by simp only [rpVarName, rpProc, h4]⟩
  · exact .inr ⟨e, by simp only [rpVarName, rpProc, h]⟩

end HPP
