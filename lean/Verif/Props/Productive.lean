import Verif.Spec.Productive
import Verif.Props.Failing
import Verif.Props.Ignoring
import Verif.Props.Whole
/-
C111: the position of a syntax error is the length of the longest beginning of the script that can be completed.
-/
namespace HPP
open Spec
variable {I S : Type} {pd : ParserData I} {start : Nat} {P : Parser I} {ho0 ho : HashOrder} {fuel0 fuel : Nat}

theorem nt_of_formOf {els : List Nat} {B : Nat} (h : Sym.nt B ∈ formOf pd els) :
    B ∈ els := by
  simp only [formOf, List.mem_flatMap] at h
  obtain ⟨e, he, h⟩ := h
  have : B = e := by
    simp only [elemForm] at h
    split at h
    · simp [ofText] at h
    · simpa using h
  exact this ▸ he

/-- Only non-terminals that have rules turn up in a derivation. -/
theorem derives_defined (hw : WellFormed pd) (hd : AllDefined pd) {u v : Form} (h : Derives (grammarOf pd) u v)
    (hu : ∀ B, Sym.nt B ∈ u → ∃ r, AMap.get pd.rules B = some r) : ∀ B, Sym.nt B ∈ v → ∃ r, AMap.get pd.rules B = some r := by
  induction h with
  | refl => exact hu
  | tail _ hs ih =>
    cases hs with
    | mk a b hr =>
      intro B hB
      obtain ⟨r, h1, p, h2, rfl⟩ := hr
      simp only [List.mem_append] at hB
      rcases hB with (hB | hB) | hB
      · exact ih B (by simp [hB])
      · have hB' := hB
        have hm := nt_of_formOf hB
        refine hd _ r h1 p h2 B hm ?_
        have hlt := hw.inRange _ r h1 p h2 B hm
        obtain ⟨ty, hty⟩ : ∃ ty, pd.elementTypes[B]? = some ty := ⟨_, List.getElem?_eq_getElem hlt⟩
        obtain ⟨d, hdd⟩ : ∃ d, pd.elementData[B]? = some d := ⟨_, List.getElem?_eq_getElem (hw.lengths ▸ hlt)⟩
        cases ty with
        | nonTerminal => exact hty
        | terminal =>
          exfalso
          simp only [formOf, List.mem_flatMap] at hB'
          obtain ⟨e, he, hx⟩ := hB'
          simp only [elemForm] at hx
          split at hx
          · simp [ofText] at hx
          · rename_i hne
            have : B = e := by simpa using hx
            subst this
            exact hne d hty hdd
      · exact ih B (by simp [hB])

/-- A form with productive non-terminals derives a text. -/
theorem derives_text {v : Form} (hv : ∀ B, Sym.nt B ∈ v → ∃ s, Language (grammarOf pd) B s) :
    ∃ y, Derives (grammarOf pd) v (ofText y) := by
  induction v with
  | nil => exact ⟨[], .refl⟩
  | cons x v ih =>
    obtain ⟨y, hy⟩ := ih fun B hB => hv B (by simp [hB])
    cases x with
    | ch c => exact ⟨c :: y, hy.append_left [.ch c]⟩
    | nt B =>
      obtain ⟨s, hs⟩ := hv B (by simp)
      refine ⟨s ++ y, ?_⟩
      have := Derives.append hs hy
      simpa [ofText] using this

/-- A text that begins a form derivable from a symbol with a rule begins a text of its language. -/
theorem completable_of_viable (hw : WellFormed pd) (hd : AllDefined pd) (hp : Productive pd)
    (hs : ∃ r, AMap.get pd.rules start = some r) {u : Str} {v : Form}
    (h : Derives (grammarOf pd) [.nt start] (ofText u ++ v)) : Completable (Language (grammarOf pd) start) u := by
  have hdef := derives_defined hw hd h (by intro B hB; simp only [List.mem_singleton, Sym.nt.injEq] at hB; exact hB ▸ hs)
  obtain ⟨y, hy⟩ := derives_text (pd := pd) (v := v) fun B hB => by
    obtain ⟨r, hr⟩ := hdef B (by simp [hB])
    exact hp B r hr
  refine ⟨y, h.trans ?_⟩
  have := hy.append_left (ofText u)
  simpa [ofText] using this

theorem Spec.ErrorAt.unique {e : PErr} {n m : Nat} (h : ErrorAt e n) (h' : ErrorAt e m) : n = m := by
  rcases h with ⟨x, exp, rfl⟩ | rfl <;> rcases h' with ⟨x', exp', h'⟩ | h' <;> cases h' <;> rfl

theorem Spec.ErrorAt.notTree {e : PErr} {n : Nat} (h : ErrorAt e n) : ¬ IsTreeErr e := by
  rcases h with ⟨x, exp, rfl⟩ | rfl <;> simp [IsTreeErr]

/-- The position of a syntax error is the number of characters read. -/
theorem parse_err_at (hw : WellFormed pd) (hP : Parser.newFromParserData ho0 fuel0 pd start = .ok P)
    (hs : StartSymbol pd start) (vm : VM I S) {text : Str} {s : S} {e : PErr} {c : Ctx S} {pos : Nat}
    (h : Parser.parse ho fuel vm P text s = (.err e, c)) (hat : ErrorAt e pos) : pos = text.length - c.proc.rest.length := by
  have ha := (newFromParserData_ok hw hP).1
  obtain ⟨st, -, h2⟩ := C95_failed_parse_stops hw hP hs ha.startDefined vm text s h
  cases st with
  | wrongChar x x' r s' => obtain ⟨a, b, -⟩ := h2; exact hat.unique (.inl ⟨x, [x'], by rw [a, b]⟩)
  | ended s' => obtain ⟨a, b, -⟩ := h2; exact hat.unique (.inr (by rw [a, b]; rfl))
  | noAlternative A r s' =>
    obtain ⟨b, -, rule, L, -, -, -, a⟩ := h2
    exact hat.unique (.inl ⟨_, _, by rw [a, b]⟩)
  | noParent x r s' =>
    obtain ⟨a, -⟩ := h2
    subst a
    rcases hat with ⟨_, _, h⟩ | h <;> cases h
  | panicked => exact h2.elim

/-- At a syntax error what has been read cannot be continued with what comes next, whatever the virtual machine does. -/
theorem parse_dead (hw : WellFormed pd) (hP : Parser.newFromParserData ho0 fuel0 pd start = .ok P)
    (hs : StartSymbol pd start) (vm : VM I S) {text : Str} {s : S} {e : PErr} {c : Ctx S}
    (h : Parser.parse ho fuel vm P text s = (.err e, c)) (hne : ¬ IsTreeErr e) :
    ∃ consumed, text = consumed ++ c.proc.rest ∧
      (∀ x xs, c.proc.rest = x :: xs → ∀ v, ¬ Derives (grammarOf pd) [.nt start] (ofText (consumed ++ [x]) ++ v)) ∧
      (c.proc.rest = [] → ¬ Language (grammarOf pd) start consumed) := by
  obtain ⟨ha, hpf⟩ := newFromParserData_ok hw hP
  obtain ⟨⟨r, c'⟩, ⟨s', rest', h1, h2, h3⟩, he⟩ := parse_good hw ha hpf hs ho fuel vm text s
  rw [h] at he
  have hform := formOf_start hs
  cases r with
  | ok a => simp [Res.bind] at he
  | panic => simp [Res.bind] at he
  | timeout => simp [Res.bind] at he
  | err e' =>
    simp only [Res.bind, Prod.mk.injEq, Res.err.injEq] at he
    obtain ⟨rfl, rfl⟩ := he
    obtain ⟨v, hv, hsh, hdead, htr⟩ := h3
    have hdead := hdead hne [] []
    have h2' : c.proc = procAt ([] ++ s') rest' := h2
    have hr : c.proc.rest = rest' := by rw [h2']; rfl
    rw [hr]
    rw [hform] at hdead
    refine ⟨s', h1, ?_, ?_⟩
    · rintro x xs rfl v hd
      refine hdead (.ch x :: v) .refl (cont_char _ _ _) ?_
      simpa [ofText] using hd
    · rintro rfl hd
      refine hdead [] .refl (cont_refl []) ?_
      simp only [List.append_nil]; exact hd

theorem take_of_append {text u r : Str} (h : text = u ++ r) : text.take (text.length - r.length) = u := by
  rw [h]; simp

/-- **C111.** If `parse` returns a syntax error, then, whatever the virtual machine does, the position it names is the length
of the longest beginning of the script that can be completed to a text of the language, and the script is not in the language.
(By C29 all errors are syntax errors if the machine does not edit the tree.) -/
theorem C111_error_position (hw : WellFormed pd) (hP : Parser.newFromParserData ho0 fuel0 pd start = .ok P)
    (hs : StartSymbol pd start) (hp : Productive pd) (vm : VM I S) {text : Str} {s : S} {e : PErr} {pos : Nat}
    (h : (Parser.parse ho fuel vm P text s).1 = .err e) (hat : ErrorAt e pos) :
    LongestCompletable (Language (grammarOf pd) start) text pos ∧ ¬ Language (grammarOf pd) start text := by
  have ha := (newFromParserData_ok hw hP).1
  rcases hr : Parser.parse ho fuel vm P text s with ⟨r, c⟩
  have he : r = .err e := by rw [hr] at h; exact h
  subst he
  obtain ⟨u, v, h1, h2⟩ := C28_viable_prefix (ho := ho) (fuel := fuel) hw hP hs vm text s
  rw [hr] at h1
  obtain ⟨u', h3, h4, h5⟩ := parse_dead hw hP hs vm hr hat.notTree
  have hu : u' = u := by
    have hx : u' ++ c.proc.rest = u ++ c.proc.rest := by rw [← h3, ← h1]
    exact List.append_cancel_right hx
  subst hu
  have hno : ∀ x xs, c.proc.rest = x :: xs → ∀ y, ¬ Language (grammarOf pd) start (u' ++ x :: y) := by
    intro x xs hx y hy
    refine h4 x xs hx (ofText y) ?_
    have : ofText (u' ++ x :: y) = ofText (u' ++ [x]) ++ ofText y := by simp [ofText]
    rw [← this]; exact hy
  rw [parse_err_at hw hP hs vm hr hat]
  refine ⟨⟨by omega, ?_, ?_⟩, ?_⟩
  · rw [take_of_append h3]
    exact completable_of_viable hw ha.defined hp ha.startDefined h2
  · intro n h6 h7
    rintro ⟨y, hy⟩
    cases hx : c.proc.rest with
    | nil => rw [hx] at h6; simp at h6; omega
    | cons x xs =>
      have hl : text.length = u'.length + (xs.length + 1) := by rw [h3, hx]; simp
      have hn : u'.length < n := by rw [hx, hl] at h6; simp at h6; omega
      have h8 : text.take n = u' ++ x :: (xs.take (n - u'.length - 1)) := by
        rw [h3, hx, List.take_append, List.take_of_length_le (by omega)]
        obtain ⟨k, hk⟩ : ∃ k, n - u'.length = k + 1 := ⟨n - u'.length - 1, by omega⟩
        rw [hk, List.take_succ_cons]; rfl
      rw [h8, List.append_assoc, List.cons_append] at hy
      exact hno x xs hx _ hy
  · intro hy
    cases hx : c.proc.rest with
    | nil =>
      rw [hx, List.append_nil] at h3
      exact h5 hx (h3 ▸ hy)
    | cons x xs => exact hno x xs hx xs (by rw [hx] at h3; exact h3 ▸ hy)

/-- There is only one such position. -/
theorem Spec.LongestCompletable.unique {L : Str → Prop} {text : Str} {n m : Nat} (h : LongestCompletable L text n)
    (h' : LongestCompletable L text m) : n = m := by
  rcases Nat.lt_trichotomy n m with hl | hl | hl
  · exact absurd h'.2.1 (h.2.2 m hl h'.1)
  · exact hl
  · exact absurd h.2.1 (h'.2.2 n hl h.1)

theorem Spec.LongestCompletable.congr {L L' : Str → Prop} {text : Str} {n : Nat} (hl : ∀ s, L s ↔ L' s)
    (h : LongestCompletable L text n) : LongestCompletable L' text n := by
  rw [show L' = L from funext fun s => propext (hl s).symm]; exact h

/-- **C111**, from a rule text: the position of a syntax error is the length of the longest beginning of the script that can
be completed to a text spelled by `start`. -/
theorem C111_error_position_text {cc : CharClass} {rs : List (WrittenRule I)} {text : Str} {S' : Type} (hcc : SpaceOk cc)
    {vm : VM I S} (h : RulesText cc (ReadsSection vm) rs text) (hP : Parser.newFromText ho0 fuel0 cc vm text = .ok P)
    (hp : ∀ r ∈ rs, ∃ s, Spells rs [⟨r.name, .nonTerminal⟩] s) (vm' : VM I S') {script : Str}
    {s : S'} {e : PErr} {pos : Nat} (he : (Parser.parse ho fuel vm' P script s).1 = .err e) (hat : ErrorAt e pos) :
    LongestCompletable (Spells rs [⟨c% "start", .nonTerminal⟩]) script pos ∧
      ¬ Spells rs [⟨c% "start", .nonTerminal⟩] script := by
  obtain ⟨pd, st, a1, a2, a3, a4, a5, a6⟩ := newFromText_means hcc h hP
  have hty : ∀ {A : Nat} {n : Str}, (elementsOf rs)[A]? = some ⟨n, .nonTerminal⟩ → pd.elementTypes[A]? = some .nonTerminal :=
    fun hA => by rw [a3.types, List.getElem?_map, hA]; rfl
  have hlang : ∀ {A : Nat} {n : Str}, (elementsOf rs)[A]? = some ⟨n, .nonTerminal⟩ → ∀ s,
      Language (grammarOf pd) A s ↔ Spells rs [⟨n, .nonTerminal⟩] s :=
    fun hA s => by rw [← C19_tree_iff_language a2 (hty hA), spells_iff_forest a1 a3 hA]
  have hprod : Productive pd := by
    intro A r hr
    obtain ⟨n, q, hn, hq⟩ := MeansWoven.rule_name a1 hr
    obtain ⟨d, hd, hdn⟩ := ruleMeaning_isDefined hq
    obtain ⟨s, hs⟩ := hp d hd
    exact ⟨s, (hlang hn s).2 (hdn ▸ hs)⟩
  obtain ⟨h2, h3⟩ := C111_error_position a2 a6 (a3.start a5) hprod vm' he hat
  exact ⟨h2.congr (hlang a5), fun hx => h3 ((hlang a5 _).2 hx)⟩

/-- **C111**, so the position does not depend on how the rules are written: two parsers for the same language that both
report an error for a script report it at the same position. -/
theorem C111_same_position {J T : Type} {pd' : ParserData J} {start' : Nat} {P' : Parser J} {ho0' ho' : HashOrder}
    {fuel0' fuel' : Nat} (hw : WellFormed pd) (hP : Parser.newFromParserData ho0 fuel0 pd start = .ok P)
    (hs : StartSymbol pd start) (hp : Productive pd) (vm : VM I S)
    (hw' : WellFormed pd') (hP' : Parser.newFromParserData ho0' fuel0' pd' start' = .ok P')
    (hs' : StartSymbol pd' start') (hp' : Productive pd') (vm' : VM J T)
    (hl : ∀ s, Language (grammarOf pd) start s ↔ Language (grammarOf pd') start' s) {text : Str} {s : S} {s' : T} {e e' : PErr}
    {pos pos' : Nat} (h : (Parser.parse ho fuel vm P text s).1 = .err e) (hat : ErrorAt e pos)
    (h' : (Parser.parse ho' fuel' vm' P' text s').1 = .err e') (hat' : ErrorAt e' pos') : pos = pos' :=
  ((C111_error_position hw hP hs hp vm h hat).1.congr hl).unique (C111_error_position hw' hP' hs' hp' vm' h' hat').1

/-! ### concrete cases -/

/-- `start -> "a" loop | "b"; loop -> "c" loop;` -/
def Samples.loopData : ParserData Nat :=
  let pd : ParserData Nat := ParserData.new
  let (start, pd) := pd.getOrAddNonTerminal (c% "start")
  let (loop, pd) := pd.getOrAddNonTerminal (c% "loop")
  let (a, pd) := pd.getOrAddTerminal (c% "a")
  let (b, pd) := pd.getOrAddTerminal (c% "b")
  let (c, pd) := pd.getOrAddTerminal (c% "c")
  let pd := pd.setProductions start [[a, loop], [b]]
  pd.setProductions loop [[c, loop]]

/-- The parser the code constructs for it. -/
def Samples.loopParser : Parser Nat where
  rules := [(0, ⟨[(.char 'a', .notEmpty [2, 1]), (.char 'b', .notEmpty [3])], none, []⟩),
    (1, ⟨[(.char 'c', .notEmpty [4, 1])], none, []⟩)]
  elements := [⟨c% "start", .nonTerminal⟩, ⟨c% "loop", .nonTerminal⟩, ⟨c% "a", .terminal⟩, ⟨c% "b", .terminal⟩,
    ⟨c% "c", .terminal⟩]

theorem Samples.loop_forest {els : List Nat} {f : Forest} {s : Str} (h : IsForest Samples.loopData els f s) : 1 ∉ els := by
  induction h with
  | nil => simp
  | @leaf e es d f s h1 _ _ ih =>
    intro hm
    rcases List.mem_cons.1 hm with rfl | hm
    · exact absurd h1 (by decide)
    · exact ih hm
  | @node A es r p kids f s1 s2 _ h2 h3 _ _ ih1 ih2 =>
    intro hm
    rcases List.mem_cons.1 hm with rfl | hm
    · have hr : r = ⟨[.notEmpty [4, 1]], none, []⟩ := (Option.some.inj h2).symm
      subst hr
      cases List.mem_singleton.1 h3
      exact ih1 (by decide)
    · exact ih2 hm

theorem Samples.loop_language {s : Str} (h : Language (grammarOf Samples.loopData) 0 s) : s = c% "b" := by
  obtain ⟨f, hf⟩ := (C19_tree_iff_language (Samples.wf_of_check (pd := Samples.loopData) rfl) (A := 0) rfl s).2 h
  cases hf with
  | leaf h1 => exact absurd h1 (by decide)
  | @node _ _ r p kids _ s1 s2 _ h2 h3 h4 h5 =>
    have hr : r = ⟨[.notEmpty [2, 1], .notEmpty [3]], none, []⟩ := (Option.some.inj h2).symm
    subst hr
    cases h5
    rcases List.mem_cons.1 h3 with rfl | h3
    · exact absurd (by decide) (Samples.loop_forest h4)
    · cases List.mem_singleton.1 h3
      cases h4 with
      | node h1 => exact absurd h1 (by decide)
      | leaf _ h6 h7 =>
        cases h7
        rw [← Option.some.inj h6]
        rfl

/-- **C111**, names that stand for no text have to be excluded: in `start -> "a" loop | "b"; loop -> "c" loop;` the script
`ax` is rejected at position 1, but no text of the language begins with `a`. -/
theorem C111_productive_needed :
    ∃ P : Parser Nat, Parser.newFromParserData .insertion 9 Samples.loopData 0 = .ok P ∧
      (Parser.parse .insertion 9 nullVm P (c% "ax") 0).1 = .err (.unexpectedChar 'x' 1 (c% "c")) ∧
      LongestCompletable (Language (grammarOf Samples.loopData) 0) (c% "ax") 0 := by
  obtain ⟨c, h⟩ := Samples.errOf_eq (e := .unexpectedChar 'x' 1 (c% "c"))
    (x := Parser.parse .insertion 9 nullVm Samples.loopParser (c% "ax") 0) (by decide +kernel)
  refine ⟨Samples.loopParser, rfl, by rw [h], by decide, ⟨c% "b", ?_⟩, ?_⟩
  · exact .single (.mk [] [] (A := 0) (w := [.ch 'b']) ⟨_, rfl, .notEmpty [3], by decide, rfl⟩)
  · rintro n h1 h2 ⟨y, hy⟩
    have h3 := Samples.loop_language hy
    obtain ⟨k, rfl⟩ : ∃ k, n = k + 1 := ⟨n - 1, by omega⟩
    exact absurd (List.cons.inj h3).1 (by decide)

/-- The grammar of lists is productive. -/
theorem Samples.list_productive : Productive Samples.listData := by
  have item : Language (grammarOf Samples.listData) 1 (c% "c") :=
    .single (.mk [] [] (A := 1) (w := [.ch 'c']) ⟨_, rfl, .notEmpty [5], by decide, rfl⟩)
  have rest : Language (grammarOf Samples.listData) 2 [] :=
    .single (.mk [] [] (A := 2) (w := []) ⟨_, rfl, .empty, by decide, rfl⟩)
  have all : Derives (grammarOf Samples.listData) [.nt 0] [.nt 1, .nt 2] :=
    .single (.mk [] [] (A := 0) (w := [.nt 1, .nt 2]) ⟨_, rfl, .notEmpty [1, 2], by decide, rfl⟩)
  intro A r hr
  have hm := Samples.mem_of_get' hr
  rw [Samples.listData_rules] at hm
  simp only [List.mem_cons, Prod.mk.injEq, List.not_mem_nil, or_false] at hm
  rcases hm with ⟨rfl, -⟩ | ⟨rfl, -⟩ | ⟨rfl, -⟩
  · exact ⟨c% "c", all.trans (Derives.append item rest)⟩
  · exact ⟨[], rest⟩
  · exact ⟨c% "c", item⟩

/-- C111 for the grammar of lists and the script `ab,ac`: the error is at position 4, and `ab,a` is the longest beginning of
a list. -/
example : ∃ e, (Parser.parse .insertion 9 nullVm Samples.listParser (c% "ab,ac") 0).1 = .err e ∧ ErrorAt e 4 ∧
    LongestCompletable (Language (grammarOf Samples.listData) 0) (c% "ab,ac") 4 := by
  obtain ⟨c, h⟩ := Samples.errOf_eq (e := .unexpectedChar 'c' 4 (c% "b"))
    (x := Parser.parse .insertion 9 nullVm Samples.listParser (c% "ab,ac") 0) (by decide +kernel)
  have he : (Parser.parse .insertion 9 nullVm Samples.listParser (c% "ab,ac") 0).1 = .err (.unexpectedChar 'c' 4 (c% "b")) := by
    rw [h]
  exact ⟨_, he, .inl ⟨_, _, rfl⟩, (C111_error_position Samples.listData_wf Samples.listParser_eq Samples.listData_start
    Samples.list_productive nullVm he (.inl ⟨_, _, rfl⟩)).1⟩

end HPP
