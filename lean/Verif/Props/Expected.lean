import Verif.Proofs.Expected
import Verif.Props.Productive
import Verif.Props.AnyVm
/-
C112: what the list of expected characters tells about the characters that could stand at the position of the error.
-/
namespace HPP
open Spec
variable {I S : Type} {pd : ParserData I} {start : Nat} {P : Parser I} {ho0 ho : HashOrder} {fuel0 fuel : Nat} {vm : VM I S}

/-- Texts of the language can be read top-down. -/
theorem language_topDown (hw : WellFormed pd) (hP : Parser.newFromParserData ho0 fuel0 pd start = .ok P)
    (hs : StartSymbol pd start) {text : Str} (h : Language (grammarOf pd) start text) :
    ∃ f, TopDown pd start [start] text f [] := by
  obtain ⟨N, hN⟩ := C22_parse_complete hw hP hs (idleVm I) idleVm_treePreserving idleVm_total h
  obtain ⟨t, c, h1, h2⟩ := hN N (Nat.le_refl _) .insertion ()
  obtain ⟨f, hf, -⟩ := (parse_topDown hw (newFromParserData_ok hw hP).2 hs idleVm_treePreserving idleVm_total N text []
    ()).1 ⟨t, c, h1, h2⟩
  exact ⟨f, hf⟩

theorem expectedText_single (c : Char) : expectedText [.char c] = [c] := rfl

/-- What an unexpected-character error says, in terms of the stop. -/
theorem parse_unexpected_stop (hw : WellFormed pd) (hP : Parser.newFromParserData ho0 fuel0 pd start = .ok P)
    (hs : StartSymbol pd start) (vm : VM I S) {text : Str} {s : S} {chr : Char} {pos : Nat} {exp : Str} {c : Ctx S}
    (h : Parser.parse ho fuel vm P text s = (.err (.unexpectedChar chr pos exp), c)) :
    ∃ (st : Stop S) (L : List SetMember) (E : SetMember → Prop), Stops vm pd start fuel none [start] text (Tree.new, s) st ∧
      StopAt pd start st c.proc.rest E ∧ exp = expectedText L ∧ L.Nodup ∧ ∀ m, m ∈ L ↔ E m := by
  obtain ⟨st, h1, h2⟩ := C95_failed_parse_stops hw hP hs (newFromParserData_ok hw hP).1.startDefined vm text s h
  cases st with
  | wrongChar x x' r s' =>
    obtain ⟨a, b, -⟩ := h2
    cases a
    subst b
    exact ⟨_, [.char x'], _, h1, .inl ⟨_, x', s', rfl, rfl⟩, rfl, by simp, fun m => by simp⟩
  | ended s' => obtain ⟨a, -⟩ := h2; cases a
  | noAlternative A r s' =>
    obtain ⟨b, -, rule, L, k1, k2, k3, a⟩ := h2
    cases a
    subst b
    exact ⟨_, L, _, h1, .inr ⟨A, rule, s', rfl, k1, rfl⟩, rfl, k2, k3⟩
  | noParent x r s' => obtain ⟨a, -⟩ := h2; cases a
  | panicked => exact h2.elim

/-- **C112**, any grammar whose names all stand for some text: a listed lookahead can come next, or it comes from the FOLLOW
set of a name that can be empty and that stands, in a leftmost derivation, right after what has been read. -/
theorem C112_listed_partial (hw : WellFormed pd) (hP : Parser.newFromParserData ho0 fuel0 pd start = .ok P)
    (hs : StartSymbol pd start) (hp : Productive pd) (vm : VM I S) {text : Str} {s : S} {chr : Char} {pos : Nat} {exp : Str}
    (h : (Parser.parse ho fuel vm P text s).1 = .err (.unexpectedChar chr pos exp)) :
    ∃ L, exp = expectedText L ∧ L.Nodup ∧ ∀ m ∈ L, CanComeNext (Language (grammarOf pd) start) (text.take pos) m ∨
      ∃ B v, LDerives (grammarOf pd) [.nt start] (ofText (text.take pos) ++ .nt B :: v) ∧ Nullable (grammarOf pd) [.nt B] ∧
        FollowMember (grammarOf pd) start B m := by
  have ha := (newFromParserData_ok hw hP).1
  rcases hr : Parser.parse ho fuel vm P text s with ⟨r, c⟩
  have he : r = .err (.unexpectedChar chr pos exp) := by rw [hr] at h; exact h
  subst he
  obtain ⟨st, L, E, q1, q2, q3, q4, q5⟩ := parse_unexpected_stop hw hP hs vm hr
  obtain ⟨u, h1, h2, -⟩ := C31_expected_list_exact hw hP hs vm hr
  have hu : text.take pos = u := by rw [h1, h2]; simp
  rw [hu]
  refine ⟨L, q3, q4, fun m hm => ?_⟩
  have hE := (q5 m).1 hm
  rcases q1.context q2 [] u [] h1 (by rw [formOf_start hs]; exact .refl) with ⟨c', v, h4, rfl⟩ | ⟨B, rule, v, k1, k2, rfl⟩
  · have hE : m = .char c' := hE
    subst hE
    refine .inl (completable_of_viable hw ha.defined hp ha.startDefined (v := v) ?_)
    have := h4.toDerives
    simpa [ofText] using this
  · obtain ⟨p, hp1, hp2⟩ := hE
    rw [List.nil_append] at k2
    have first : ∀ {x : Char}, FirstChar (grammarOf pd) [.nt B] x →
        CanComeNext (Language (grammarOf pd) start) u (.char x) := by
      rintro x ⟨v', hv'⟩
      refine completable_of_viable hw ha.defined hp ha.startDefined (v := v' ++ v) ?_
      have := k2.toDerives.trans ((hv'.append_right v).append_left (ofText u))
      simpa [ofText] using this
    cases p with
    | empty => exact .inr ⟨B, v, k2, nullable_nt.2 ⟨[], ⟨rule, k1, _, hp1, rfl⟩, nullable_nil⟩, hp2⟩
    | notEmpty els =>
      cases els with
      | nil => exact hp2.elim
      | cons e es =>
        have hB : LDerives (grammarOf pd) [.nt start] (ofText u ++ (formOf pd (e :: es) ++ v)) :=
          k2.tail (.mk u v ⟨rule, k1, _, hp1, rfl⟩)
        rcases hp2 with ⟨g1, d, x, g2, g3, rfl⟩ | ⟨g1, ⟨x, rfl, g2⟩ | ⟨g2, g3⟩⟩
        · refine .inl (first (firstChar_nt.2 ⟨_, ⟨rule, k1, _, hp1, rfl⟩, ?_⟩))
          simp only [prodElems, formOf_cons, elemForm_terminal g1 g2]
          exact firstChar_append.2 (.inl (firstChar_ofText.2 g3))
        · refine .inl (first (firstChar_nt.2 ⟨_, ⟨rule, k1, _, hp1, rfl⟩, ?_⟩))
          simp only [prodElems, formOf_cons, elemForm_nonTerminal g1]
          exact firstChar_append.2 (.inl g2)
        · rw [formOf_cons, elemForm_nonTerminal g1] at hB
          exact .inr ⟨e, formOf pd es ++ v, by simpa using hB, g2, g3⟩

/-- **C112**, the part that holds: if every name stands for some text, and all that may follow a name that can be empty
can follow it wherever it stands (for example, if there are no such names), then, whatever the virtual machine does, the list of an
unexpected-character error has exactly the characters (or the end) that can come next after what is before the position of the
error. -/
theorem C112_expected_exact_partial (hw : WellFormed pd) (hP : Parser.newFromParserData ho0 fuel0 pd start = .ok P)
    (hs : StartSymbol pd start) (hp : Productive pd) (hff : FollowFits pd start) (vm : VM I S) {text : Str} {s : S} {chr : Char}
    {pos : Nat} {exp : Str} (h : (Parser.parse ho fuel vm P text s).1 = .err (.unexpectedChar chr pos exp)) :
    ∃ L, exp = expectedText L ∧ L.Nodup ∧
      ∀ m, m ∈ L ↔ CanComeNext (Language (grammarOf pd) start) (text.take pos) m := by
  have ha := (newFromParserData_ok hw hP).1
  obtain ⟨L, h1, h2, h3⟩ := C112_listed_partial hw hP hs hp vm h
  rcases hr : Parser.parse ho fuel vm P text s with ⟨r, c⟩
  have hx : r = .err (.unexpectedChar chr pos exp) := by rw [hr] at h; exact h
  subst hx
  obtain ⟨st, L', E, k1, k2, k3, k4, k5⟩ := parse_unexpected_stop hw hP hs vm hr
  have hL : L = L' := C70_expected_list_readable (by rw [← h1, ← k3])
  subst hL
  obtain ⟨u, g1, g2, -⟩ := C31_expected_list_exact hw hP hs vm hr
  have hu : text.take pos = u := by rw [g1, g2]; simp
  rw [hu] at h3 ⊢
  refine ⟨L, h1, h2, fun m => ⟨fun hm => ?_, fun hm => ?_⟩⟩
  · rcases h3 m hm with hx | ⟨B, v, hd, q3, q4⟩
    · exact hx
    · have hv := viable_of_begins hd.toDerives (begins_append (a := [.nt B]) q3 (hff u B _ m hd q3 q4))
      cases m with
      | char x =>
        obtain ⟨v1, hv⟩ := hv
        exact completable_of_viable hw ha.defined hp ha.startDefined hv
      | terminate => exact hv
  · obtain ⟨u', d1, d2, d3⟩ := parse_dead hw hP hs vm hr (by simp [IsTreeErr])
    have hu' : u' = u := by
      have hx : u' ++ c.proc.rest = u ++ c.proc.rest := by rw [← d1, ← g1]
      exact List.append_cancel_right hx
    subst hu'
    have hdead : ¬ Viable pd start ([] ++ u') (SetMember.ofPeek c.proc.rest.head?) := by
      cases hc : c.proc.rest with
      | nil => exact d3 hc
      | cons x xs => rintro ⟨v, hv⟩; exact d2 x xs hc v hv
    have hnext : ∀ y, Language (grammarOf pd) start (u' ++ y) → SetMember.ofPeek y.head? ∈ L := by
      intro y hy
      obtain ⟨f, hf⟩ := language_topDown hw hP hs hy
      refine (k5 _).2 (k1.next hff ha.disjoint k2 [] u' [] g1 ?_ hdead y f [] hf)
      rw [formOf_start hs]
      exact .refl
    cases m with
    | char z =>
      obtain ⟨y, hy⟩ := hm
      exact hnext (z :: y) (by simpa using hy)
    | terminate => exact hnext [] (by simpa [CanComeNext] using hm)

/-! ### concrete cases -/

/-- `start -> "x" opt "b" | "y" opt "c"; opt -> "a" | #;` -/
def Samples.optData : ParserData Nat :=
  let pd : ParserData Nat := ParserData.new
  let (start, pd) := pd.getOrAddNonTerminal (c% "start")
  let (opt, pd) := pd.getOrAddNonTerminal (c% "opt")
  let (x, pd) := pd.getOrAddTerminal (c% "x")
  let (b, pd) := pd.getOrAddTerminal (c% "b")
  let (y, pd) := pd.getOrAddTerminal (c% "y")
  let (c, pd) := pd.getOrAddTerminal (c% "c")
  let (a, pd) := pd.getOrAddTerminal (c% "a")
  let pd := pd.setProductions start [[x, opt, b], [y, opt, c]]
  pd.setProductions opt [[a], []]

/-- `start -> "a" pair | "b"; pair -> "c" start | "dd";` -/
def Samples.pairData : ParserData Nat :=
  let pd : ParserData Nat := ParserData.new
  let (start, pd) := pd.getOrAddNonTerminal (c% "start")
  let (pair, pd) := pd.getOrAddNonTerminal (c% "pair")
  let (a, pd) := pd.getOrAddTerminal (c% "a")
  let (b, pd) := pd.getOrAddTerminal (c% "b")
  let (c, pd) := pd.getOrAddTerminal (c% "c")
  let (dd, pd) := pd.getOrAddTerminal (c% "dd")
  let pd := pd.setProductions start [[a, pair], [b]]
  pd.setProductions pair [[c, start], [dd]]

/-- The parser the code constructs for `optData`. -/
def Samples.optParser : Parser Nat where
  rules := [(0, ⟨[(.char 'x', .notEmpty [2, 1, 3]), (.char 'y', .notEmpty [4, 1, 5])], none, []⟩),
    (1, ⟨[(.char 'a', .notEmpty [6]), (.char 'b', .empty), (.char 'c', .empty)], none, []⟩)]
  elements := [⟨c% "start", .nonTerminal⟩, ⟨c% "opt", .nonTerminal⟩, ⟨c% "x", .terminal⟩, ⟨c% "b", .terminal⟩,
    ⟨c% "y", .terminal⟩, ⟨c% "c", .terminal⟩, ⟨c% "a", .terminal⟩]

/-- The parser the code constructs for `pairData`. -/
def Samples.pairParser : Parser Nat where
  rules := [(0, ⟨[(.char 'a', .notEmpty [2, 1]), (.char 'b', .notEmpty [3])], none, []⟩),
    (1, ⟨[(.char 'c', .notEmpty [4, 0]), (.char 'd', .notEmpty [5])], none, []⟩)]
  elements := [⟨c% "start", .nonTerminal⟩, ⟨c% "pair", .nonTerminal⟩, ⟨c% "a", .terminal⟩, ⟨c% "b", .terminal⟩,
    ⟨c% "c", .terminal⟩, ⟨c% "dd", .terminal⟩]

theorem Samples.optParser_eq : Parser.newFromParserData .insertion 9 Samples.optData 0 = .ok Samples.optParser := rfl
theorem Samples.pairParser_eq : Parser.newFromParserData .insertion 9 Samples.pairData 0 = .ok Samples.pairParser := rfl

theorem Samples.opt_xab : Language (grammarOf Samples.optData) 0 (c% "xab") := by
  have h1 : Derives (grammarOf Samples.optData) [.nt 0] [.ch 'x', .nt 1, .ch 'b'] :=
    .of_rule ⟨_, rfl, .notEmpty [2, 1, 3], by decide, rfl⟩
  have h2 : Derives (grammarOf Samples.optData) [.nt 1] [.ch 'a'] := .of_rule ⟨_, rfl, .notEmpty [6], by decide, rfl⟩
  exact h1.trans ((h2.append_right [.ch 'b']).append_left [.ch 'x'])

theorem Samples.opt_productive : Productive Samples.optData := by
  intro A r hr
  have hm := Samples.mem_of_get' hr
  have : Samples.optData.rules = [(0, ⟨[.notEmpty [2, 1, 3], .notEmpty [4, 1, 5]], none, []⟩),
    (1, ⟨[.notEmpty [6], .empty], none, []⟩)] := rfl
  rw [this] at hm
  simp only [List.mem_cons, Prod.mk.injEq, List.not_mem_nil, or_false] at hm
  rcases hm with ⟨rfl, -⟩ | ⟨rfl, -⟩
  · exact ⟨_, Samples.opt_xab⟩
  · exact ⟨[], .of_rule ⟨_, rfl, .empty, by decide, rfl⟩⟩

/-- **C112 is false in both directions**: in `start -> "x" opt "b" | "y" opt "c"; opt -> "a" | #;` the error for `xc` lists
only `b`, although `xab` is in the language, and the error for `xz` lists `c`, although nothing in the language begins with
`xc`. -/
theorem C112_expected_refuted :
    ∃ P : Parser Nat, Parser.newFromParserData .insertion 9 Samples.optData 0 = .ok P ∧
      (Parser.parse .insertion 9 nullVm P (c% "xc") 0).1 = .err (.unexpectedChar 'c' 1 (expectedText [.char 'b'])) ∧
      CanComeNext (Language (grammarOf Samples.optData) 0) (c% "x") (.char 'a') ∧
      (Parser.parse .insertion 9 nullVm P (c% "xz") 0).1 =
        .err (.unexpectedChar 'z' 1 (expectedText [.char 'a', .char 'b', .char 'c'])) ∧
      ¬ CanComeNext (Language (grammarOf Samples.optData) 0) (c% "x") (.char 'c') := by
  obtain ⟨c, h⟩ := Samples.errOf_eq (e := .unexpectedChar 'c' 1 (c% "b"))
    (x := Parser.parse .insertion 9 nullVm Samples.optParser (c% "xc") 0) (by decide +kernel)
  obtain ⟨c', h'⟩ := Samples.errOf_eq (e := .unexpectedChar 'z' 1 (c% "a;b;c"))
    (x := Parser.parse .insertion 9 nullVm Samples.optParser (c% "xz") 0) (by decide +kernel)
  refine ⟨Samples.optParser, rfl, by rw [h]; rfl, ⟨c% "b", Samples.opt_xab⟩, by rw [h']; rfl, fun hc => ?_⟩
  have he : (Parser.parse .insertion 9 nullVm Samples.optParser (c% "xc") 0).1 = .err (.unexpectedChar 'c' 1 (c% "b")) := by
    rw [h]
  obtain ⟨k2, -⟩ := C111_error_position (Samples.wf_of_check rfl) Samples.optParser_eq (Samples.start_of_check rfl)
    Samples.opt_productive nullVm he (.inl ⟨_, _, rfl⟩)
  exact k2.2.2 2 (by decide) (by decide) hc

theorem Samples.pair_productive : Productive Samples.pairData := by
  have h0 : Language (grammarOf Samples.pairData) 0 (c% "b") := .of_rule ⟨_, rfl, .notEmpty [3], by decide, rfl⟩
  have h1 : Language (grammarOf Samples.pairData) 1 (c% "dd") := .of_rule ⟨_, rfl, .notEmpty [5], by decide, rfl⟩
  intro A r hr
  have hm := Samples.mem_of_get' hr
  have : Samples.pairData.rules = [(0, ⟨[.notEmpty [2, 1], .notEmpty [3]], none, []⟩),
    (1, ⟨[.notEmpty [4, 0], .notEmpty [5]], none, []⟩)] := rfl
  rw [this] at hm
  simp only [List.mem_cons, Prod.mk.injEq, List.not_mem_nil, or_false] at hm
  rcases hm with ⟨rfl, -⟩ | ⟨rfl, -⟩
  · exact ⟨_, h0⟩
  · exact ⟨_, h1⟩

theorem Samples.pair_emptyFree : EmptyFree Samples.pairData := by
  intro A r hr p hp
  have hm := Samples.mem_of_get' hr
  have : Samples.pairData.rules = [(0, ⟨[.notEmpty [2, 1], .notEmpty [3]], none, []⟩),
    (1, ⟨[.notEmpty [4, 0], .notEmpty [5]], none, []⟩)] := rfl
  rw [this] at hm
  have names : ∀ (e : Nat) (d : ElementData), Samples.pairData.elementData[e]? = some d → d.name ≠ [] := by
    intro e d hd
    have hd' := List.mem_of_getElem? hd
    have : ∀ d ∈ Samples.pairData.elementData, ElementData.name d ≠ [] := by decide
    exact this d hd'
  simp only [List.mem_cons, Prod.mk.injEq, List.not_mem_nil, or_false] at hm
  refine ⟨?_, fun e _ _ d hd => names e d hd⟩
  rcases hm with ⟨rfl, rfl⟩ | ⟨rfl, rfl⟩ <;>
  · simp only [List.mem_cons, List.not_mem_nil, or_false] at hp
    rcases hp with rfl | rfl <;> exact fun h => by cases h

/-- C112 in `start -> "a" pair | "b"; pair -> "c" start | "dd";`: the error for `acax` lists `c` and `d`, so after `aca` there
can be `c` and `d` and nothing else. -/
example : ∃ exp, (Parser.parse .insertion 9 nullVm Samples.pairParser (c% "acax") 0).1 = .err (.unexpectedChar 'x' 3 exp) ∧
    exp = c% "c;d" ∧ ∀ m, m = .char 'c' ∨ m = .char 'd' ↔ CanComeNext (Language (grammarOf Samples.pairData) 0) (c% "aca") m := by
  obtain ⟨c, h⟩ := Samples.errOf_eq (e := .unexpectedChar 'x' 3 (c% "c;d"))
    (x := Parser.parse .insertion 9 nullVm Samples.pairParser (c% "acax") 0) (by decide +kernel)
  have he : (Parser.parse .insertion 9 nullVm Samples.pairParser (c% "acax") 0).1 = .err (.unexpectedChar 'x' 3 (c% "c;d")) := by
    rw [h]
  obtain ⟨L, k1, -, k3⟩ := C112_expected_exact_partial (Samples.wf_of_check rfl) Samples.pairParser_eq
    (Samples.start_of_check rfl) Samples.pair_productive (EmptyFree.followFits (Samples.wf_of_check rfl) Samples.pair_emptyFree) nullVm he
  have hL : L = [.char 'c', .char 'd'] := C70_expected_list_readable (k1.symm.trans rfl)
  subst hL
  refine ⟨_, he, rfl, fun m => ?_⟩
  have k4 : _ ↔ CanComeNext (Language (grammarOf Samples.pairData) 0) (c% "aca") m := k3 m
  rw [← k4]
  simp

theorem Samples.list_grammar {A : Nat} {w : Form} (h : grammarOf Samples.listData A w) :
    (A = 0 ∧ w = [.nt 1, .nt 2]) ∨ (A = 2 ∧ w = [.ch ',', .nt 1, .nt 2]) ∨ (A = 2 ∧ w = []) ∨
    (A = 1 ∧ w = [.ch 'a', .ch 'b']) ∨ (A = 1 ∧ w = [.ch 'c']) := by
  obtain ⟨r, hr, p, hp, rfl⟩ := h
  have hm := Samples.mem_of_get' hr
  rw [Samples.listData_rules] at hm
  simp only [List.mem_cons, Prod.mk.injEq, List.not_mem_nil, or_false] at hm
  rcases hm with ⟨rfl, rfl⟩ | ⟨rfl, rfl⟩ | ⟨rfl, rfl⟩
  · cases List.mem_singleton.1 hp
    exact .inl ⟨rfl, rfl⟩
  · rcases List.mem_cons.1 hp with rfl | hp
    · exact .inr (.inl ⟨rfl, rfl⟩)
    · cases List.mem_singleton.1 hp
      exact .inr (.inr (.inl ⟨rfl, rfl⟩))
  · rcases List.mem_cons.1 hp with rfl | hp
    · exact .inr (.inr (.inr (.inl ⟨rfl, rfl⟩)))
    · cases List.mem_singleton.1 hp
      exact .inr (.inr (.inr (.inr ⟨rfl, rfl⟩)))

/-- Only `item` stands before other symbols. -/
def Samples.ListForm (u : Form) : Prop := ∀ A, Sym.nt A ∈ u.dropLast → A = 1

theorem Samples.listForm_step {u v : Form} (h : Step (grammarOf Samples.listData) u v) (hu : Samples.ListForm u) :
    Samples.ListForm v := by
  cases h with
  | @mk a b A w hr =>
    intro B hB
    have hwd : Sym.nt B ∈ w.dropLast → B = 1 := by
      rcases Samples.list_grammar hr with ⟨-, rfl⟩ | ⟨-, rfl⟩ | ⟨-, rfl⟩ | ⟨-, rfl⟩ | ⟨-, rfl⟩ <;> simp
    cases b with
    | nil =>
      have ha : Sym.nt B ∈ a → B = 1 := fun hx => hu B (by simpa using hx)
      rw [List.append_nil] at hB
      cases w with
      | nil => rw [List.append_nil] at hB; exact ha (List.dropLast_subset _ hB)
      | cons x w =>
        rw [List.dropLast_append_of_ne_nil (by simp)] at hB
        rcases List.mem_append.1 hB with hB | hB
        · exact ha hB
        · exact hwd hB
    | cons y b =>
      rw [List.dropLast_append_of_ne_nil (by simp)] at hB
      have hx : (a ++ Sym.nt A :: y :: b).dropLast = a ++ Sym.nt A :: (y :: b).dropLast := by
        rw [List.dropLast_append_of_ne_nil (by simp)]
        rfl
      have hA : A = 1 := hu A (by rw [hx]; simp)
      rcases List.mem_append.1 hB with hB | hB
      · rcases List.mem_append.1 hB with hB | hB
        · exact hu B (by rw [hx]; simp [hB])
        · subst hA
          rcases Samples.list_grammar hr with ⟨h, -⟩ | ⟨h, -⟩ | ⟨h, -⟩ | ⟨-, rfl⟩ | ⟨-, rfl⟩
          · cases h
          · cases h
          · cases h
          · simp at hB
          · simp at hB
      · exact hu B (by rw [hx]; simp [hB])

theorem Samples.listForm_of {A : Nat} {v : Form} (h : Derives (grammarOf Samples.listData) [.nt A] v) : Samples.ListForm v := by
  induction h with
  | refl => intro B hB; simp at hB
  | tail _ hs ih => exact Samples.listForm_step hs ih

/-- The grammar of lists, in which `rest` can be empty, meets the condition: `rest` is always the last symbol. -/
theorem Samples.list_followFits : FollowFits Samples.listData 0 := by
  intro u A v m hd hn hf
  have h1 : ¬ Nullable (grammarOf Samples.listData) [.nt 1] := by
    intro h
    obtain ⟨w, hw, hw2⟩ := nullable_nt.1 h
    rcases Samples.list_grammar hw with ⟨h, -⟩ | ⟨h, -⟩ | ⟨h, -⟩ | ⟨-, rfl⟩ | ⟨-, rfl⟩
    · cases h
    · cases h
    · cases h
    · exact not_nullable_ch (nullable_cons.1 hw2).1
    · exact not_nullable_ch hw2
  have last : ∀ {B : Nat} {a : Form} {b : Form}, Derives (grammarOf Samples.listData) [.nt B] (a ++ .nt A :: b) → b = [] := by
    intro B a b hd
    cases b with
    | nil => rfl
    | cons y b =>
      have := Samples.listForm_of hd A (by rw [List.dropLast_append_of_ne_nil (by simp)]; simp)
      subst this
      exact absurd hn h1
  cases m with
  | char c =>
    obtain ⟨B, a, b, -, hb⟩ := hf
    cases last hb
  | terminate =>
    cases last hd.toDerives
    exact nullable_nil

/-- C112 in the grammar of lists: the error for `ab;` lists `,` and the end, and nothing else can come after `ab`. -/
example : ∃ exp L, (Parser.parse .insertion 9 nullVm Samples.listParser (c% "ab;") 0).1 = .err (.unexpectedChar ';' 2 exp) ∧
    exp = expectedText L ∧ L = [.char ',', .terminate] ∧
    ∀ m, m ∈ L ↔ CanComeNext (Language (grammarOf Samples.listData) 0) (c% "ab") m := by
  obtain ⟨c, h⟩ := Samples.errOf_eq (e := .unexpectedChar ';' 2 (c% ",;terminate"))
    (x := Parser.parse .insertion 9 nullVm Samples.listParser (c% "ab;") 0) (by decide +kernel)
  have he : (Parser.parse .insertion 9 nullVm Samples.listParser (c% "ab;") 0).1 = .err (.unexpectedChar ';' 2 (c% ",;terminate")) := by
    rw [h]
  obtain ⟨L, k1, -, k3⟩ := C112_expected_exact_partial Samples.listData_wf Samples.listParser_eq
    Samples.listData_start Samples.list_productive Samples.list_followFits nullVm he
  have hL : L = [.char ',', .terminate] := C70_expected_list_readable (k1.symm.trans (by decide))
  exact ⟨_, L, he, k1, hL, k3⟩

end HPP
