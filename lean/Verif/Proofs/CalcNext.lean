import Verif.Spec.CalcNext
import Verif.Proofs.CalcShape
/-
What can come next in a calculator script.
-/
namespace HPP
open Spec

/-- A string of figures. -/
def AllFig (w : Str) : Prop := ∃ ds : List (Fin 10), w = ds.map figure

theorem figure_mem (d : Fin 10) : SetMember.char (figure d) ∈ figures := by
  match d with | 0 | 1 | 2 | 3 | 4 | 5 | 6 | 7 | 8 | 9 => simp [figures, figure]

theorem mem_figures {m : SetMember} (h : m ∈ figures) : ∃ d, m = .char (figure d) := by
  simp only [figures, List.mem_cons, List.not_mem_nil, or_false] at h
  rcases h with h | h | h | h | h | h | h | h | h | h
  exacts [⟨0, h⟩, ⟨1, h⟩, ⟨2, h⟩, ⟨3, h⟩, ⟨4, h⟩, ⟨5, h⟩, ⟨6, h⟩, ⟨7, h⟩, ⟨8, h⟩, ⟨9, h⟩]

theorem figure_ne (d : Fin 10) : figure d ≠ ' ' ∧ figure d ≠ '+' ∧ figure d ≠ '-' ∧ figure d ≠ 'p' := by
  match d with | 0 | 1 | 2 | 3 | 4 | 5 | 6 | 7 | 8 | 9 => simp [figure]

theorem allFig_snoc {w : Str} {x : Char} : AllFig (w ++ [x]) ↔ AllFig w ∧ .char x ∈ figures := by
  constructor
  · rintro ⟨ds, h⟩
    rcases List.eq_nil_or_concat ds with rfl | ⟨ds, d, rfl⟩
    · simp at h
    · rw [List.concat_eq_append, List.map_append] at h
      obtain ⟨h1, h2⟩ := List.append_inj' h rfl
      simp only [List.map_cons, List.map_nil, List.cons.injEq, and_true] at h2
      exact ⟨⟨ds, h1⟩, h2 ▸ figure_mem d⟩
  · rintro ⟨⟨ds, rfl⟩, h⟩
    obtain ⟨d, hd⟩ := mem_figures h
    injection hd with hd
    exact ⟨ds ++ [d], by simp [hd]⟩

theorem allFig_prefix {w z : Str} (h : AllFig (w ++ z)) : AllFig w := by
  obtain ⟨ds, h⟩ := h
  obtain ⟨a, b, -, h1, -⟩ := List.map_eq_append_iff.1 h.symm
  exact ⟨a, h1.symm⟩

/-- The other parts of words. -/
def letterParts : List Str := [c% "+", c% "-", c% "p", c% "pr", c% "pri", c% "prin", c% "print"]

theorem wordPart_iff {w : Str} : WordPart w ↔ AllFig w ∨ w ∈ letterParts := by
  constructor
  · rintro ⟨t, z, ht, h⟩
    cases t with
    | num ds => exact .inl (allFig_prefix ⟨ds, h.symm⟩)
    | add =>
      rcases w with _ | ⟨a, w⟩
      · exact .inl ⟨[], rfl⟩
      · simp only [Token.text, List.cons_append, List.cons.injEq] at h
        obtain ⟨rfl, h⟩ := h
        obtain ⟨rfl, -⟩ := List.append_eq_nil_iff.1 h.symm
        exact .inr (by simp [letterParts])
    | sub =>
      rcases w with _ | ⟨a, w⟩
      · exact .inl ⟨[], rfl⟩
      · simp only [Token.text, List.cons_append, List.cons.injEq] at h
        obtain ⟨rfl, h⟩ := h
        obtain ⟨rfl, -⟩ := List.append_eq_nil_iff.1 h.symm
        exact .inr (by simp [letterParts])
    | print =>
      have : w = (c% "print").take w.length := by
        have := congrArg (List.take w.length) h
        rw [List.take_left] at this
        exact this.symm
      have hl : w.length ≤ 5 := by
        have := congrArg List.length h
        simp [Token.text] at this
        omega
      generalize w.length = n at this hl
      subst this
      match n, hl with
      | 0, _ => exact .inl ⟨[], rfl⟩
      | 1, _ | 2, _ | 3, _ | 4, _ | 5, _ => exact .inr (by simp [letterParts])
  · rintro (⟨ds, rfl⟩ | h)
    · refine ⟨.num (ds ++ [0]), [figure 0], by simp [Token.Ok], by simp [Token.text]⟩
    · simp only [letterParts, List.mem_cons, List.not_mem_nil, or_false] at h
      rcases h with rfl | rfl | rfl | rfl | rfl | rfl | rfl
      exacts [⟨.add, [], trivial, rfl⟩, ⟨.sub, [], trivial, rfl⟩, ⟨.print, _, trivial, rfl⟩, ⟨.print, _, trivial, rfl⟩,
        ⟨.print, _, trivial, rfl⟩, ⟨.print, _, trivial, rfl⟩, ⟨.print, _, trivial, rfl⟩]

/-- A whole word. -/
def IsWord (w : Str) : Prop := ∃ t : Token, t.Ok ∧ w = t.text

theorem isWord_iff {w : Str} : IsWord w ↔ (w ≠ [] ∧ AllFig w) ∨ w = c% "+" ∨ w = c% "-" ∨ w = c% "print" := by
  constructor
  · rintro ⟨t, ht, rfl⟩
    cases t with
    | num ds => exact .inl ⟨fun h => ht (List.map_eq_nil_iff.1 h), ds, rfl⟩
    | add => exact .inr (.inl rfl)
    | sub => exact .inr (.inr (.inl rfl))
    | print => exact .inr (.inr (.inr rfl))
  · rintro (⟨h, ds, rfl⟩ | rfl | rfl | rfl)
    exacts [⟨.num ds, by simpa [Token.Ok] using h, rfl⟩, ⟨.add, trivial, rfl⟩, ⟨.sub, trivial, rfl⟩, ⟨.print, trivial, rfl⟩]

/-- What can come next in a word. -/
theorem nextIn_iff {w : Str} (hw : WordPart w) (m : SetMember) :
    m ∈ nextIn w ↔ match m with
      | .char x => (x = ' ' ∧ IsWord w) ∨ (x ≠ ' ' ∧ WordPart (w ++ [x]))
      | .terminate => IsWord w := by
  have fig : ∀ x, SetMember.char x ∈ figures → x ≠ ' ' := by
    intro x hx
    obtain ⟨d, hd⟩ := mem_figures hx
    injection hd with hd
    rw [hd]
    exact (figure_ne d).1
  have nofig : ∀ a b : Char, ∀ l : Str, (a = '+' ∨ a = '-' ∨ a = 'p') → ¬ AllFig (a :: l) := by
    rintro a b l h ⟨ds, hds⟩
    cases ds with
    | nil => cases hds
    | cons d ds =>
      injection hds with h1 h2
      have := figure_ne d
      rw [← h1] at this
      rcases h with rfl | rfl | rfl
      · exact this.2.1 rfl
      · exact this.2.2.1 rfl
      · exact this.2.2.2 rfl
  rcases wordPart_iff.1 hw with hf | hl
  · by_cases he : w = []
    · subst he
      simp only [nextIn, if_true]
      have e : ¬ IsWord [] := by
        rw [isWord_iff]; simp
      cases m with
      | terminate => simp [figures, e]
      | char x =>
        have one : AllFig [x] ↔ SetMember.char x ∈ figures := by
          rw [← List.nil_append [x], allFig_snoc]
          simp only [hf, true_and]
        simp only [e, and_false, false_or, wordPart_iff, List.nil_append, one]
        constructor
        · intro h
          rcases List.mem_append.1 h with h | h
          · exact ⟨fig x h, .inl h⟩
          · simp only [List.mem_cons, SetMember.char.injEq, List.not_mem_nil, or_false] at h
            rcases h with rfl | rfl | rfl <;> exact ⟨by decide, .inr (by decide)⟩
        · rintro ⟨-, h | h⟩
          · exact List.mem_append.2 (.inl h)
          · refine List.mem_append.2 (.inr ?_)
            simpa [letterParts] using h
    · have hne : ∀ {a : Char} {l : Str}, (a = '+' ∨ a = '-' ∨ a = 'p') → w ≠ a :: l :=
        fun h h' => nofig _ 'a' _ h (h' ▸ hf)
      have hn : nextIn w = figures ++ [.char ' ', .terminate] := by
        simp only [nextIn, if_neg he]
        rw [if_neg (hne (by simp)), if_neg (hne (by simp)), if_neg (hne (by simp)), if_neg (hne (by simp)), if_neg]
        rintro (h | h | h)
        · exact hne (by simp) h
        · exact hne (by simp) h
        · exact hne (by simp) h
      have hword : IsWord w := isWord_iff.2 (.inl ⟨he, hf⟩)
      rw [hn]
      cases m with
      | terminate => simp [hword]
      | char x =>
        simp only [hword, and_true, wordPart_iff, allFig_snoc, hf, true_and]
        have hlet : w ++ [x] ∉ letterParts := by
          obtain ⟨ds, rfl⟩ := hf
          cases ds with
          | nil => exact absurd rfl he
          | cons d ds =>
            have := figure_ne d
            simp [letterParts, this]
        simp only [hlet, or_false]
        constructor
        · intro h
          rcases List.mem_append.1 h with h | h
          · exact .inr ⟨fig x h, h⟩
          · exact .inl (by simpa using h)
        · rintro (rfl | ⟨-, h⟩)
          · simp
          · exact List.mem_append.2 (.inl h)
  · have hword : IsWord w ↔ w = c% "+" ∨ w = c% "-" ∨ w = c% "print" := by
      rw [isWord_iff]
      constructor
      · rintro (⟨-, h⟩ | h)
        · exfalso
          simp only [letterParts, List.mem_cons, List.not_mem_nil, or_false] at hl
          rcases hl with rfl | rfl | rfl | rfl | rfl | rfl | rfl <;> exact nofig _ 'a' _ (by simp) h
        · exact h
      · exact .inr
    have hpart : ∀ x, WordPart (w ++ [x]) ↔ w ++ [x] ∈ letterParts := by
      intro x
      rw [wordPart_iff]
      refine ⟨fun h => h.resolve_left ?_, .inr⟩
      simp only [letterParts, List.mem_cons, List.not_mem_nil, or_false] at hl
      rcases hl with rfl | rfl | rfl | rfl | rfl | rfl | rfl <;> exact nofig _ 'a' _ (by simp)
    simp only [hpart, hword]
    simp only [letterParts, List.mem_cons, List.not_mem_nil, or_false] at hl
    cases m with
    | terminate => rcases hl with rfl | rfl | rfl | rfl | rfl | rfl | rfl <;> simp [nextIn]
    | char x =>
      rcases hl with rfl | rfl | rfl | rfl | rfl | rfl | rfl <;> simp [nextIn, letterParts] <;> (rintro rfl; decide)

/-! ### scripts -/

theorem word_ne {t : Token} (ht : t.Ok) : t.text ≠ [] := by
  cases t with
  | num ds => exact fun h => ht (List.map_eq_nil_iff.1 h)
  | _ => exact fun h => by cases h

theorem wordPart_noBlank {w : Str} (h : WordPart w) : ' ' ∉ w := by
  rcases wordPart_iff.1 h with ⟨ds, rfl⟩ | h
  · intro h
    obtain ⟨d, -, hd⟩ := List.mem_map.1 h
    exact (figure_ne d).1 hd
  · simp only [letterParts, List.mem_cons, List.not_mem_nil, or_false] at h
    rcases h with rfl | rfl | rfl | rfl | rfl | rfl | rfl <;> decide

theorem IsWord.part {w : Str} (h : IsWord w) : WordPart w := by
  obtain ⟨t, ht, rfl⟩ := h
  exact ⟨t, [], ht, by simp⟩

/-- Where a word begins, it is the beginning or there is a blank before. -/
theorem wordBegins_end {q : Str} (h : WordBegins q) : q = [] ∨ ∃ s, q = s ++ [' '] := by
  rcases h with h | ⟨s, -, h⟩
  · exact .inl h
  · exact .inr ⟨s, h⟩

theorem split_unique {q q' w w' : Str} (hq : q = [] ∨ ∃ s, q = s ++ [' ']) (hq' : q' = [] ∨ ∃ s, q' = s ++ [' '])
    (hw : ' ' ∉ w) (hw' : ' ' ∉ w') (h : q ++ w = q' ++ w') : q = q' ∧ w = w' := by
  have key : ∀ {q c w : Str}, (q ++ c = [] ∨ ∃ s, q ++ c = s ++ [' ']) → ' ' ∉ c ++ w → c = [] := by
    intro q c w h hn
    rcases List.eq_nil_or_concat c with rfl | ⟨c, x, rfl⟩
    · rfl
    · rw [List.concat_eq_append] at h hn
      rcases h with h | ⟨s, h⟩
      · simp at h
      · rw [← List.append_assoc] at h
        obtain ⟨-, h⟩ := List.append_inj' h rfl
        cases h
        exact absurd (by simp) hn
  rcases List.append_eq_append_iff.1 h with ⟨c, rfl, rfl⟩ | ⟨c, rfl, rfl⟩
  · cases key hq' hw
    exact ⟨by simp, by simp⟩
  · cases key hq hw'
    exact ⟨by simp, by simp⟩

theorem scriptText_snoc {toks : List Token} (hne : toks ≠ []) (t : Token) :
    scriptText (toks ++ [t]) = scriptText toks ++ ' ' :: t.text := by
  induction toks with
  | nil => exact absurd rfl hne
  | cons u us ih =>
    cases us with
    | nil => rfl
    | cons v vs =>
      have := ih (by simp)
      simp only [List.cons_append, scriptText] at this ⊢
      rw [this]
      simp

/-- A script is what comes before its last word, and this word. -/
theorem isWords_iff {s : Str} : IsWords s ↔ ∃ q w, WordBegins q ∧ IsWord w ∧ s = q ++ w := by
  constructor
  · rintro ⟨toks, h1, h2, rfl⟩
    rcases List.eq_nil_or_concat toks with rfl | ⟨us, t, rfl⟩
    · exact absurd rfl h1
    · rw [List.concat_eq_append] at h2 ⊢
      refine ⟨if us = [] then [] else scriptText us ++ [' '], t.text, ?_, ⟨t, h2 t (by simp), rfl⟩, ?_⟩
      · split
        · exact .inl rfl
        · next h => exact .inr ⟨_, ⟨us, h, fun x hx => h2 x (by simp [hx]), rfl⟩, rfl⟩
      · split
        · next h => subst h; rfl
        · next h => rw [scriptText_snoc h]; simp
  · rintro ⟨q, w, (rfl | ⟨s, ⟨toks, h1, h2, rfl⟩, rfl⟩), ⟨t, ht, rfl⟩, rfl⟩
    · exact ⟨[t], by simp, by simpa using ht, rfl⟩
    · refine ⟨toks ++ [t], by simp, ?_, by rw [scriptText_snoc h1]; simp⟩
      intro x hx
      rcases List.mem_append.1 hx with hx | hx
      · exact h2 x hx
      · rw [List.mem_singleton.1 hx]; exact ht

theorem completable_part {q w : Str} (hq : WordBegins q) (hw : WordPart w) : Completable IsWords (q ++ w) := by
  obtain ⟨t, z, ht, h⟩ := hw
  exact ⟨z, isWords_iff.2 ⟨q, t.text, hq, ⟨t, ht, rfl⟩, by rw [h, List.append_assoc]⟩⟩

/-- The beginnings of scripts. -/
theorem completable_words {p : Str} : Completable IsWords p ↔ ∃ q w, p = q ++ w ∧ WordBegins q ∧ WordPart w := by
  constructor
  · rintro ⟨y, h⟩
    generalize hn : y.length = n
    induction n generalizing p y with
    | zero =>
      have : y = [] := List.eq_nil_of_length_eq_zero hn
      subst this
      rw [List.append_nil] at h
      obtain ⟨q, w, h1, h2, h3⟩ := isWords_iff.1 h
      exact ⟨q, w, h3, h1, h2.part⟩
    | succ n ih =>
      cases y with
      | nil => cases hn
      | cons x y =>
        obtain ⟨q, w, h1, h2, h3⟩ := ih (p := p ++ [x]) (y := y) (by simpa using h) (by simpa using hn)
        rcases List.eq_nil_or_concat w with rfl | ⟨w', x', rfl⟩
        · rw [List.append_nil] at h1
          rcases h2 with rfl | ⟨s, hs, rfl⟩
          · simp at h1
          · obtain ⟨rfl, -⟩ := List.append_inj' h1 rfl
            obtain ⟨q, w, k1, k2, k3⟩ := isWords_iff.1 hs
            exact ⟨q, w, k3, k1, k2.part⟩
        · rw [List.concat_eq_append] at h1 h3
          rw [← List.append_assoc] at h1
          obtain ⟨rfl, -⟩ := List.append_inj' h1 rfl
          obtain ⟨t, z, ht, hz⟩ := h3
          exact ⟨q, w', rfl, h2, t, x' :: z, ht, by rw [hz]; simp⟩
  · rintro ⟨q, w, rfl, h1, h2⟩
    exact completable_part h1 h2

/-- What can come next in a script of words. -/
theorem next_words {q w : Str} (hq : WordBegins q) (hw : WordPart w) (m : SetMember) :
    CanComeNext IsWords (q ++ w) m ↔ m ∈ nextIn w := by
  rw [nextIn_iff hw]
  have hword : IsWords (q ++ w) ↔ IsWord w := by
    rw [isWords_iff]
    constructor
    · rintro ⟨q', w', h1, h2, h3⟩
      obtain ⟨-, rfl⟩ := split_unique (wordBegins_end hq) (wordBegins_end h1) (wordPart_noBlank hw) (wordPart_noBlank h2.part) h3
      exact h2
    · exact fun h => ⟨q, w, hq, h, rfl⟩
  cases m with
  | terminate => exact hword
  | char x =>
    simp only [CanComeNext]
    rw [completable_words]
    constructor
    · rintro ⟨q', w', h1, h2, h3⟩
      rcases List.eq_nil_or_concat w' with rfl | ⟨v, y, rfl⟩
      · rw [List.append_nil] at h1
        rcases h2 with rfl | ⟨s, hs, rfl⟩
        · simp at h1
        · obtain ⟨h5, h4⟩ := List.append_inj' h1 rfl
          cases h4
          exact .inl ⟨rfl, hword.1 (h5 ▸ hs)⟩
      · rw [List.concat_eq_append] at h1 h3
        have hb := wordPart_noBlank h3
        rw [← List.append_assoc] at h1
        obtain ⟨h5, h4⟩ := List.append_inj' h1 rfl
        cases h4
        obtain ⟨-, rfl⟩ := split_unique (wordBegins_end hq) (wordBegins_end h2) (wordPart_noBlank hw)
          (fun h => hb (List.mem_append.2 (.inl h))) h5
        exact .inr ⟨fun h => hb (by simp [h]), h3⟩
    · rintro (⟨rfl, h⟩ | ⟨-, h⟩)
      · exact ⟨q ++ w ++ [' '], [], by simp, .inr ⟨_, hword.2 h, rfl⟩, ⟨.add, c% "+", trivial, rfl⟩⟩
      · exact ⟨q, w ++ [x], by simp, hq, h⟩

theorem figs1 : List.Nodup (α := SetMember) (figures ++ [.char '+', .char '-', .char 'p']) := by decide +kernel
theorem figs2 : List.Nodup (α := SetMember) (figures ++ [.char ' ', .terminate]) := by decide +kernel

theorem nextIn_nodup (w : Str) : (nextIn w).Nodup := by
  simp only [nextIn]
  by_cases h1 : w = []
  · rw [if_pos h1]; exact figs1
  rw [if_neg h1]
  by_cases h1 : w = c% "p"
  · rw [if_pos h1]; simp
  rw [if_neg h1]
  by_cases h1 : w = c% "pr"
  · rw [if_pos h1]; simp
  rw [if_neg h1]
  by_cases h1 : w = c% "pri"
  · rw [if_pos h1]; simp
  rw [if_neg h1]
  by_cases h1 : w = c% "prin"
  · rw [if_pos h1]; simp
  rw [if_neg h1]
  by_cases h1 : w = c% "+" ∨ w = c% "-" ∨ w = c% "print"
  · rw [if_pos h1]; simp
  · rw [if_neg h1]; exact figs2

theorem nextIn_t {w : Str} (hw : w ≠ []) (h : SetMember.terminate ∉ nextIn w) : w = c% "p" ∨ w = c% "pr" ∨ w = c% "pri" ∨ w = c% "prin" := by
  refine Classical.byContradiction fun hn => h ?_
  have h1 : w ≠ c% "p" := fun h => hn (.inl h)
  have h2 : w ≠ c% "pr" := fun h => hn (.inr (.inl h))
  have h3 : w ≠ c% "pri" := fun h => hn (.inr (.inr (.inl h)))
  have h4 : w ≠ c% "prin" := fun h => hn (.inr (.inr (.inr h)))
  rw [nextIn, if_neg hw, if_neg h1, if_neg h2, if_neg h3, if_neg h4]
  by_cases h1 : w = c% "+" ∨ w = c% "-" ∨ w = c% "print"
  · rw [if_pos h1]; simp
  · rw [if_neg h1]; simp

end HPP
