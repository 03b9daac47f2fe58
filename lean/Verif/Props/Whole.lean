import Verif.Spec.Whole
import Verif.Props.AnyVm
import Verif.Props.CalcTotal
import Verif.Props.Display
import Verif.Props.Ignoring
/-
Property C101: grammars whose scripts are always read to the end; the calculators are such.
-/
namespace HPP
open Spec CalcShape
variable {I S : Type} {pd : ParserData I} {P : Parser I} {start st0 fuel fuel0 : Nat} {ho ho0 : HashOrder}

/-- In a form, closing non-terminals occur at most at the end. -/
def LastOnly (Z : Nat → Prop) (w : Form) : Prop := ∀ u E v, w = u ++ .nt E :: v → Z E → v = []

theorem Spec.Closing.step {Z : Nat → Prop} (hc : Closing pd start Z) {w w' : Form} (hw : LastOnly Z w)
    (h : Step (grammarOf pd) w w') : LastOnly Z w' := by
  obtain ⟨u, v, hg⟩ := h
  rename_i A x
  obtain ⟨r, hr, p, hp, rfl⟩ := hg
  intro u' E v' he hE
  -- where is the occurrence of `E`?
  rw [List.append_assoc] at he
  rcases List.append_eq_append_iff.1 he with ⟨a, h1, h2⟩ | ⟨a, h1, h2⟩
  · rcases List.append_eq_append_iff.1 h2 with ⟨b, h3, h4⟩ | ⟨b, h3, h4⟩
    · -- in `v`
      exact hw (u ++ .nt A :: b) E v' (by rw [h4]; simp) hE
    · cases b with
      | nil => exact hw (u ++ [.nt A]) E v' (by simp at h4; rw [← h4]; simp) hE
      | cons y b =>
        simp only [List.cons_append, List.cons.injEq] at h4
        obtain ⟨rfl, rfl⟩ := h4
        obtain ⟨pre, post, h5, -, h6, -⟩ := formOf_split h3
        obtain ⟨rfl, hA⟩ := hc.onlyLast A r hr p hp pre E post h5 hE
        have := hw u A v rfl hA
        rw [this, ← h6]
        rfl
  · -- in `u`
    cases a with
    | nil =>
      simp only [List.nil_append] at h2
      -- the occurrence begins the new part
      rcases List.append_eq_cons_iff.1 h2.symm with ⟨h3, h4⟩ | ⟨b, h3, h4⟩
      · exact hw (u ++ [.nt A]) E v' (by rw [h4]; simp) hE
      · obtain ⟨pre, post, h5, -, h6, -⟩ := formOf_split (u := []) h3
        obtain ⟨rfl, hA⟩ := hc.onlyLast A r hr p hp pre E post h5 hE
        have := hw u A v rfl hA
        rw [h4, this, ← h6]
        rfl
    | cons y a =>
      simp only [List.cons_append, List.cons.injEq] at h2
      obtain ⟨rfl, -⟩ := h2
      have := hw u' E (a ++ .nt A :: v) (by rw [h1]; simp) hE
      simp at this

theorem Spec.Closing.derives {Z : Nat → Prop} (hc : Closing pd start Z) {w w' : Form} (hw : LastOnly Z w)
    (h : Derives (grammarOf pd) w w') : LastOnly Z w' := by
  induction h with
  | refl => exact hw
  | tail _ hs ih => exact hc.step ih hs

/-- No character follows a closing non-terminal. -/
theorem Spec.Closing.noFollow {Z : Nat → Prop} (hc : Closing pd start Z) {E : Nat} (hE : Z E) (c : Char) :
    ¬ FollowChar (grammarOf pd) E c := by
  rintro ⟨B, u, v, -, hd⟩
  have : LastOnly Z [.nt B] := by
    intro u E v h _
    cases u with
    | nil => simp at h; exact h.2
    | cons x u => simp at h
  have := hc.derives this hd u E (.ch c :: v) rfl hE
  cases this

theorem Spec.Closing.topDown {Z : Nat → Prop} (hc : Closing pd start Z) {els : List Nat} {w r : Str} {f : Forest}
    (h : TopDown pd start els w f r) : (∃ pre E, els = pre ++ [E] ∧ Z E) → r = [] := by
  induction h with
  | nil => rintro ⟨pre, E, h, -⟩; simp at h
  | @leaf e es d w r f h1 h2 h3 ih =>
    rintro ⟨pre, E, h, hE⟩
    cases pre with
    | nil =>
      simp only [List.nil_append, List.cons.injEq] at h
      obtain ⟨rfl, -⟩ := h
      rw [hc.nonTerminal _ hE] at h1
      cases h1
    | cons x pre =>
      simp only [List.cons_append, List.cons.injEq] at h
      exact ih ⟨pre, E, h.2, hE⟩
  | @node A es rule p w w1 r kids f h1 h2 h3 h4 h5 h6 ih1 ih2 =>
    rintro ⟨pre, E, h, hE⟩
    cases pre with
    | cons x pre =>
      simp only [List.cons_append, List.cons.injEq] at h
      exact ih2 ⟨pre, E, h.2, hE⟩
    | nil =>
      simp only [List.nil_append, List.cons.injEq] at h
      obtain ⟨rfl, rfl⟩ := h
      have hr : w1 = r := by cases h6; rfl
      subst hr
      rcases hc.ends A rule hE h2 p h3 with hp | hp
      · have hw : w = w1 := by rw [hp] at h5; cases h5; rfl
        subst hw
        cases w with
        | nil => rfl
        | cons c w =>
          exfalso
          cases p with
          | empty => exact hc.noFollow hE c h4
          | notEmpty q =>
            simp only [prodElems] at hp
            subst hp
            exact h4
      · exact ih1 hp

/-- The errors of a parse with a virtual machine that does not edit the tree are syntax errors, even if it may panic. -/
theorem parse_err_syntax (hw : WellFormed pd) (hP : Parser.newFromParserData ho0 fuel0 pd start = .ok P)
    (hs : StartSymbol pd start) (vm : VM I S) (htp : TreePreserving vm) {text : Str} {s : S} {e : PErr}
    (h : (Parser.parse ho fuel vm P text s).1 = .err e) : SyntaxError e := by
  obtain ⟨ha, hpf⟩ := newFromParserData_ok hw hP
  obtain ⟨⟨r, c'⟩, ⟨s', rest', h1, h2, h3⟩, he⟩ := parse_good hw ha hpf hs ho fuel vm text s
  rw [he] at h
  cases r with
  | ok a => simp [Res.bind] at h
  | timeout => simp [Res.bind] at h
  | panic => simp [Res.bind] at h
  | err e0 =>
    simp only [Res.bind, Res.err.injEq] at h
    subst h
    obtain ⟨v, hv, hsh, -, htr⟩ := h3
    have htr := htr htp [] none .new parOk_root
    rw [formOf_start hs] at hv
    cases e0 with
    | unexpectedChar chr pos exp => exact .inl ⟨_, _, _, rfl⟩
    | endOfChars pos => exact .inr ⟨_, rfl⟩
    | tree e => exact absurd trivial htr
    | gram g =>
      cases g with
      | missingProduction B =>
        obtain ⟨hB, v', rfl⟩ := hsh
        obtain ⟨r, hr⟩ := occurring_defined hw ha hv rfl
        rw [hB] at hr; cases hr
      | _ => exact hsh.elim
    | unknownSpecialOperation => exact hsh.elim
    | impossible => exact hsh.elim
    | internal => exact hsh.elim
    | vmError => exact hsh.elim

/-- **C101.** In a grammar whose start symbol is closing, `parse` never leaves text unread: whenever it returns `Ok`, for any
virtual machine, the whole script has been read and is in the language. -/
theorem C101_whole_script (hw : WellFormed pd) (hP : Parser.newFromParserData ho0 fuel0 pd start = .ok P)
    (hs : StartSymbol pd start) {Z : Nat → Prop} (hc : Closing pd start Z) (vm : VM I S) {text : Str} {s : S} {t : Tree Str}
    {c : Ctx S} (h : Parser.parse ho fuel vm P text s = (.ok t, c)) :
    c.proc.rest = [] ∧ Language (grammarOf pd) start text := by
  obtain ⟨ha, hpf⟩ := newFromParserData_ok hw hP
  obtain ⟨f, h1, -⟩ := (parse_walk (ho := ho) hw hpf hs vm fuel text c.proc.rest s c.state t).1 ⟨c, h, rfl, rfl⟩
  have hr : c.proc.rest = [] := hc.topDown h1 ⟨[], start, rfl, hc.start⟩
  refine ⟨hr, ?_⟩
  obtain ⟨x, hx, hl⟩ := C21_parse_sound hw hP hs vm h
  rw [hx, hr, List.append_nil]
  exact hl

/-- **C101**, both directions: then a script is accepted exactly if it is in the language (with a virtual machine that
neither edits the tree nor panics). -/
theorem C101_accepts_language (hw : WellFormed pd) (hP : Parser.newFromParserData ho0 fuel0 pd start = .ok P)
    (hs : StartSymbol pd start) {Z : Nat → Prop} (hc : Closing pd start Z) (vm : VM I S) (htp : TreePreserving vm)
    (htot : Total vm) (text : Str) :
    ∃ N, ∀ fuel, N ≤ fuel → ∀ (ho : HashOrder) (s : S),
      ((∃ t c, Parser.parse ho fuel vm P text s = (.ok t, c)) ↔ Language (grammarOf pd) start text) := by
  by_cases hl : Language (grammarOf pd) start text
  · obtain ⟨N, hN⟩ := C22_parse_complete (S := S) hw hP hs vm htp htot hl
    refine ⟨N, fun fuel hf ho s => ⟨fun _ => hl, fun _ => ?_⟩⟩
    obtain ⟨t, c, h, -⟩ := hN fuel hf ho s
    exact ⟨t, c, h⟩
  · exact ⟨0, fun fuel _ ho s => ⟨fun ⟨t, c, h⟩ => (C101_whole_script hw hP hs hc vm h).2, fun h => absurd h hl⟩⟩

/-- **C101**, the other scripts: a script outside the language is rejected with a syntax error, unless the virtual machine
panics on the way. -/
theorem C101_rejects_rest (hw : WellFormed pd) (hP : Parser.newFromParserData ho0 fuel0 pd start = .ok P)
    (hs : StartSymbol pd start) {Z : Nat → Prop} (hc : Closing pd start Z) (vm : VM I S) (htp : TreePreserving vm)
    {text : Str} (hl : ¬ Language (grammarOf pd) start text) :
    ∃ N, ∀ fuel, N ≤ fuel → ∀ (ho : HashOrder) (s : S),
      (∃ e, (Parser.parse ho fuel vm P text s).1 = .err e ∧ SyntaxError e) ∨
      ((Parser.parse ho fuel vm P text s).1 = .panic ∧ ∃ τ id i s', vm.execute τ id i s' = none) := by
  obtain ⟨N, hN⟩ := C24_parse_terminates (S := S) hw hP hs text.length
  refine ⟨N, fun fuel hf ho s => ?_⟩
  have h1 := hN fuel hf ho vm text s (Nat.le_refl _)
  rcases hr : Parser.parse ho fuel vm P text s with ⟨r, c⟩
  rw [hr] at h1
  cases r with
  | ok t => exact absurd (C101_whole_script hw hP hs hc vm hr).2 hl
  | timeout => exact absurd rfl h1
  | panic => exact .inr ⟨rfl, C60_only_vm_panics hw hP hs vm htp (ho := ho) (fuel := fuel) (text := text) (s := s) (by rw [hr])⟩
  | err e => exact .inl ⟨e, rfl, parse_err_syntax hw hP hs vm htp (by rw [hr])⟩

/-! ### checking `Closing` -/

/-- Decides `Closing` for a list of non-terminals. -/
def closingCheck (pd : ParserData I) (start : Nat) (Z : List Nat) : Bool :=
  Z.contains start && Z.all (fun E => pd.elementTypes[E]? == some .nonTerminal) &&
  pd.rules.all (fun q => q.2.prods.all (fun p =>
    (prodElems p).dropLast.all (fun E => !Z.contains E) &&
    match (prodElems p).getLast? with
    | none => true
    | some E => Z.contains E == Z.contains q.1))

theorem closing_of_check {Z : List Nat} (h : closingCheck pd start Z = true) : Closing pd start (· ∈ Z) := by
  simp only [closingCheck, Bool.and_eq_true, List.all_eq_true, List.contains_iff_mem] at h
  obtain ⟨⟨h1, h2⟩, h3⟩ := h
  refine ⟨h1, fun E hE => by simpa using h2 E hE, ?_, ?_⟩
  · intro A r hA hr p hp
    obtain ⟨-, h4⟩ := h3 _ (AMap.mem_of_get hr) p hp
    cases he : (prodElems p).getLast? with
    | none => left; simpa using he
    | some E =>
      rw [he] at h4
      right
      refine ⟨(prodElems p).dropLast, E, (List.dropLast_append_getLast? E he).symm, ?_⟩
      have h5 : Z.contains E = Z.contains A := by simpa using h4
      rw [← List.contains_iff_mem, h5, List.contains_iff_mem]
      exact hA
  · intro A r hr p hp pre E post he hE
    obtain ⟨h5, h4⟩ := h3 _ (AMap.mem_of_get hr) p hp
    rcases List.eq_nil_or_concat post with rfl | ⟨post, x, rfl⟩
    · refine ⟨rfl, ?_⟩
      have : (prodElems p).getLast? = some E := by rw [he]; simp
      rw [this] at h4
      have h6 : Z.contains E = Z.contains A := by simpa using h4
      rw [← List.contains_iff_mem, ← h6, List.contains_iff_mem]
      exact hE
    · have : E ∈ (prodElems p).dropLast := by
        rw [he]
        have : pre ++ E :: (post ++ [x]) = (pre ++ E :: post) ++ [x] := by simp
        rw [List.concat_eq_append, this, List.dropLast_concat]
        simp
      have := h5 E this
      simp [hE] at this

/-! ### rule texts -/

theorem between_last {α : Type} (i : α) : ∀ (pre : List α) (x : α), ∃ pre', between i (pre ++ [x]) = pre' ++ [x]
  | [], x => ⟨[], rfl⟩
  | [y], x => ⟨[y, i], rfl⟩
  | y :: z :: pre, x => by
    obtain ⟨p, hp⟩ := between_last i (z :: pre) x
    refine ⟨y :: i :: p, ?_⟩
    simp only [List.cons_append] at hp
    simp only [List.cons_append, between, hp]

theorem between_split {α : Type} (i : α) : ∀ (l pre post : List α) (x : α), between i l = pre ++ x :: post → x ≠ i →
    ∃ pre' post', l = pre' ++ x :: post' ∧ (post' = [] → post = [])
  | [], pre, post, x, h, _ => by simp [between] at h
  | [y], pre, post, x, h, _ => by
    cases pre with
    | nil =>
      simp only [between, List.nil_append, List.cons.injEq] at h
      exact ⟨[], [], by rw [h.1]; rfl, fun _ => h.2.symm⟩
    | cons z pre => simp [between] at h
  | y :: z :: l, pre, post, x, h, hx => by
    simp only [between] at h
    match pre with
    | [] =>
      simp only [List.nil_append, List.cons.injEq] at h
      exact ⟨[], z :: l, by rw [h.1]; rfl, fun e => by cases e⟩
    | [w] =>
      simp only [List.cons_append, List.nil_append, List.cons.injEq] at h
      exact absurd h.2.1.symm hx
    | w :: v :: pre =>
      simp only [List.cons_append, List.cons.injEq] at h
      obtain ⟨p, q, h1, h2⟩ := between_split i (z :: l) pre post x h.2.2 hx
      exact ⟨y :: p, q, by rw [h1]; rfl, h2⟩

theorem Spec.ClosingNames.final {rs : List (WrittenRule I)} {Z : Str → Prop} (h : ClosingNames rs Z) {n : Str}
    {a : List ElementVerbose} (ha : FinalAlt rs n a) :
    (Z n → a = [] ∨ ∃ pre m, a = pre ++ [⟨m, .nonTerminal⟩] ∧ Z m) ∧
    ∀ pre m post, a = pre ++ ⟨m, .nonTerminal⟩ :: post → Z m → post = [] ∧ Z n := by
  cases ha with
  | plain _ ha => exact ⟨fun hz => h.ends n a hz ha, fun pre m post => h.onlyLast n a pre m post ha⟩
  | own _ _ ha => exact ⟨fun hz => h.ends n a hz ha, fun pre m post => h.onlyLast n a pre m post ha⟩
  | @woven j a0 ho _ ha =>
    refine ⟨fun hz => ?_, fun pre m post he hz => ?_⟩
    · rcases h.ends n a0 hz ha with rfl | ⟨pre, m, rfl, hm⟩
      · exact .inl rfl
      · obtain ⟨p, hp⟩ := between_last (⟨j, .nonTerminal⟩ : ElementVerbose) pre ⟨m, .nonTerminal⟩
        exact .inr ⟨p, m, hp, hm⟩
    · obtain ⟨p, q, h1, h2⟩ := between_split _ _ _ _ _ he (by
        intro e
        simp only [ElementVerbose.mk.injEq, and_true] at e
        exact h.noOverride n j ho (e ▸ hz))
      obtain ⟨h3, h4⟩ := h.onlyLast n a0 p m q ha h1 hz
      exact ⟨h2 h3, h4⟩

theorem Spec.ClosingNames.closing {rs : List (WrittenRule I)} {Z : Str → Prop} (h : ClosingNames rs Z)
    (hm : MeansWoven rs pd) (hin : InternOk pd (elementsOf rs))
    (hs : (elementsOf rs)[start]? = some ⟨c% "start", .nonTerminal⟩) :
    Closing pd start (fun i => ∃ n, (elementsOf rs)[i]? = some ⟨n, .nonTerminal⟩ ∧ Z n) := by
  have key : ∀ {A r}, AMap.get pd.rules A = some r → ∀ p ∈ r.prods, ∃ n a, (elementsOf rs)[A]? = some ⟨n, .nonTerminal⟩ ∧
      FinalAlt rs n a ∧ prodElems p = a.map fun x => (elementsOf rs).idxOf x := by
    intro A r hr p hp
    obtain ⟨n, q, hn, -⟩ := MeansWoven.rule_name hm hr
    obtain ⟨a, ha, he⟩ := (finalAlt_iff hm hn (prodElems p)).1 ⟨r, hr, p, hp, rfl⟩
    exact ⟨n, a, hn, ha, he⟩
  refine ⟨⟨_, hs, h.start⟩, ?_, ?_, ?_⟩
  · rintro E ⟨n, hn, -⟩
    rw [hin.types, List.getElem?_map, hn]
    rfl
  · rintro A r ⟨n, hn, hz⟩ hr p hp
    obtain ⟨n', a, hn', ha, he⟩ := key hr p hp
    rw [hn] at hn'
    cases hn'
    rcases (h.final ha).1 hz with rfl | ⟨pre, m, rfl, hm'⟩
    · exact .inl he
    · refine .inr ⟨_, _, by rw [he, List.map_append]; rfl, m, ?_, hm'⟩
      exact getElem?_idxOf (finalAlt_elements ha _ (by simp))
  · rintro A r hr p hp pre E post he ⟨m, hE, hz⟩
    obtain ⟨n, a, hn, ha, he'⟩ := key hr p hp
    rw [he'] at he
    obtain ⟨l1, l2, rfl, rfl, h2⟩ := List.map_eq_append_iff.1 he
    cases l2 with
    | nil => simp at h2
    | cons x l2 =>
      simp only [List.map_cons, List.cons.injEq] at h2
      obtain ⟨rfl, rfl⟩ := h2
      have hx := getElem?_idxOf (finalAlt_elements ha x (by simp))
      rw [hE] at hx
      cases hx
      obtain ⟨rfl, hzn⟩ := (h.final ha).2 l1 m l2 rfl hz
      exact ⟨rfl, n, hn, hzn⟩

/-- **C101**, rule texts: if the rules of the text close `start` (for example by an end marker, also with overrides), then
whatever the parser accepts, with any virtual machine, is read to its end, and is a text `start` stands for. -/
theorem C101_text_whole_script {cc : CharClass} {rs : List (WrittenRule I)} {text : Str} {S' : Type} (hcc : SpaceOk cc)
    {vm : VM I S} (h : RulesText cc (ReadsSection vm) rs text) (hP : Parser.newFromText ho0 fuel0 cc vm text = .ok P)
    {Z : Str → Prop} (hc : ClosingNames rs Z) (vm' : VM I S') {script : Str} {s : S'} {t : Tree Str} {c : Ctx S'}
    (hr : Parser.parse ho fuel vm' P script s = (.ok t, c)) :
    c.proc.rest = [] ∧ Spells rs [⟨c% "start", .nonTerminal⟩] script := by
  obtain ⟨pd, st, a1, a2, a3, a4, a5, a6⟩ := newFromText_means hcc h hP
  have hty : pd.elementTypes[st]? = some .nonTerminal := by rw [a3.types, List.getElem?_map, a5]; rfl
  obtain ⟨h1, h2⟩ := C101_whole_script a2 a6 (a3.start a5) (hc.closing a1 a3 a5) vm' hr
  exact ⟨h1, (spells_iff_forest a1 a3 a5 _).1 ((C19_tree_iff_language a2 hty _).2 h2)⟩

/-! ### the calculators -/

theorem Spec.Closing.congr {pd' : ParserData I} (ht : pd'.elementTypes = pd.elementTypes)
    (hr : ∀ A, AMap.get pd'.rules A = AMap.get pd.rules A) {Z : Nat → Prop} (hc : Closing pd start Z) : Closing pd' start Z := by
  refine ⟨hc.start, ?_, ?_, ?_⟩
  · rw [ht]; exact hc.nonTerminal
  · intro A r; rw [hr]; exact hc.ends A r
  · intro A r; rw [hr]; exact hc.onlyLast A r

/-- `P` is a calculator parser whose start symbol is closing. -/
def ClosedCalc (ins : CalcNT → List I) (P : Parser I) : Prop :=
  ∃ pd ho fuel st Z, WellFormed pd ∧ Parser.newFromParserData ho fuel pd st = .ok P ∧ StartSymbol pd st ∧
    Closing pd st Z ∧ ∃ sh : CalcShape pd ins, sh.nt .start = st

theorem Examples.data_closing (ins : CalcNT → List I) : Closing (Examples.data ins) 0 (· ∈ [0, 1, 3]) :=
  closing_of_check (by kernel_rfl)

theorem Examples.rust_closing : Closing Examples.rustData.1 0 (· ∈ [0, 1, 2]) :=
  closing_of_check (by kernel_rfl)

theorem Examples.text_closed {vm : VM I S} {ins : CalcNT → List I} {cc : CharClass} {text : Str}
    (h1 : (parseRulesLoop cc vm (text.length + 1) (RP.new text)).1 = .ok ())
    (h2 : (parseRulesLoop cc vm (text.length + 1) (RP.new text)).2.pd = Examples.data ins) {ho : HashOrder} {fuel : Nat}
    {P : Parser I} (h : Parser.newFromText ho fuel cc vm text = .ok P) : ClosedCalc ins P := by
  obtain ⟨pd, g1, g2, g3, g4, g5, g6⟩ := editRules_plain ho (Examples.data_wf ins) (Examples.data_noIgnore ins)
  obtain ⟨pd', k1, k2, k3, k4, k5, k6⟩ := Examples.of_text h1 h2 ho
  have hpd : parseRules ho cc vm text = .ok pd := by
    unfold parseRules
    rcases hx : parseRulesLoop cc vm (text.length + 1) (RP.new text) with ⟨a, b⟩
    rw [hx] at h1 h2
    simp only at h1 h2
    subst h1
    simp only [h2]
    exact g1
  rw [hpd] at k1
  cases k1
  obtain ⟨pd', st, m1, m2, m3⟩ := newFromText_ok h
  rw [hpd] at m1
  cases m1
  rw [k5] at m2
  cases m2
  exact ⟨pd, ho, fuel, 0, _, k2, m3, k3, (Examples.data_closing ins).congr g2 g6, k6⟩

theorem Examples.rust_closed {ho : HashOrder} {fuel : Nat} {P : Parser Instr}
    (h : Parser.newFromParserData ho fuel Examples.rustData.1 Examples.rustData.2 = .ok P) : ClosedCalc calcIns P :=
  ⟨Examples.rustData.1, ho, fuel, 0, _, Examples.rust_wf, h, Examples.rust_start, Examples.rust_closing, Examples.rustShape⟩

/-- Which texts are scripts of words. -/
def IsScript (text : Str) : Prop := ∃ toks, toks ≠ [] ∧ (∀ t ∈ toks, t.Ok) ∧ text = scriptText toks

theorem ClosedCalc.language {ins : CalcNT → List I} {st : Nat} (hw : WellFormed pd) (sh : CalcShape pd ins)
    (hsh : sh.nt .start = st) {text : Str} (h : Language (grammarOf pd) st text) : IsScript text := by
  subst hsh
  obtain ⟨f, hf⟩ := (C19_tree_iff_language hw (sh.ntType .start) text).2 h
  obtain ⟨u, us, h4, -, rfl⟩ := sh.script_inv hf
  exact ⟨u :: us, by simp, h4, rfl⟩

theorem ClosedCalc.exact {ins : CalcNT → List I} (h : ClosedCalc ins P) (vm : VM I S) {text : Str} {s : S} {t : Tree Str}
    {c : Ctx S} (hp : Parser.parse ho fuel vm P text s = (.ok t, c)) : IsScript text ∧ c.proc.rest = [] := by
  obtain ⟨pd, ho0, fuel0, st, Z, h1, h2, h3, h4, sh, h5⟩ := h
  obtain ⟨g1, g2⟩ := C101_whole_script h1 h2 h3 h4 vm hp
  exact ⟨ClosedCalc.language h1 sh h5 g2, g1⟩

theorem ClosedCalc.rejects {ins : CalcNT → List I} (h : ClosedCalc ins P) (hp : Plain ins) {vm : VM I S}
    (htp : TreePreserving vm) {exec : Option Str → I → S → Option S} (hl : LocalVm vm exec) (text : Str) :
    ∃ N, ∀ fuel, N ≤ fuel → ∀ (ho : HashOrder) (s : S),
      (¬ IsScript text → (∃ e, (Parser.parse ho fuel vm P text s).1 = .err e ∧ SyntaxError e) ∨
        (Parser.parse ho fuel vm P text s).1 = .panic) ∧
      (IsScript text → (∃ t c, Parser.parse ho fuel vm P text s = (.ok t, c) ∧ c.proc.rest = []) ∨
        (Parser.parse ho fuel vm P text s).1 = .panic) := by
  obtain ⟨pd, ho0, fuel0, st, Z, h1, h2, h3, h4, sh, h5⟩ := h
  by_cases hs : IsScript text
  · obtain ⟨toks, g1, g2, rfl⟩ := hs
    obtain ⟨N, hN⟩ := IsCalc.run (ins := ins) ⟨pd, ho0, fuel0, st, h1, h2, h3, sh, h5⟩ hp htp hl g1 g2
    refine ⟨N, fun fuel hf ho s => ⟨fun hn => absurd ⟨toks, g1, g2, rfl⟩ hn, fun _ => ?_⟩⟩
    obtain ⟨k1, k2⟩ := hN fuel hf ho s
    cases hx : tokenSteps exec ins toks s with
    | none => exact .inr (k2 hx)
    | some s' => obtain ⟨t, c, m1, m2, -⟩ := k1 s' hx; exact .inl ⟨t, c, m1, m2⟩
  · obtain ⟨N, hN⟩ := C101_rejects_rest h1 h2 h3 h4 vm htp (fun hx => hs (ClosedCalc.language h1 sh h5 hx))
    refine ⟨N, fun fuel hf ho s => ⟨fun _ => ?_, fun hn => absurd hn hs⟩⟩
    rcases hN fuel hf ho s with h | h
    · exact .inl h
    · exact .inr h.1

/-- **C101**, the example programs: what they accept is exactly a script of words, read to its end. -/
theorem C101_calculators_exact {ho0 : HashOrder} {fuel0 : Nat} {cc : CharClass} {checked : Bool} {ho : HashOrder} {fuel : Nat}
    {text : Str} :
    (∀ P, Parser.newFromText ho0 fuel0 cc (simpleStackVm checked) Examples.simpleMathText = .ok P → ∀ s t c,
      Parser.parse ho fuel (simpleStackVm checked) P text s = (.ok t, c) → IsScript text ∧ c.proc.rest = []) ∧
    (∀ P, (Parser.newFromText ho0 fuel0 cc (stackVm cc checked) Examples.mathText = .ok P ∨
        Parser.newFromParserData ho0 fuel0 Examples.rustData.1 Examples.rustData.2 = .ok P) → ∀ s t c,
      Parser.parse ho fuel (stackVm cc checked) P text s = (.ok t, c) → IsScript text ∧ c.proc.rest = []) := by
  refine ⟨fun P h s t c hp => ?_, fun P h s t c hp => ?_⟩
  · exact (Examples.text_closed (Examples.simple_text_ok cc checked) (Examples.simple_text cc checked) h).exact _ hp
  · rcases h with h | h
    · exact (Examples.text_closed (Examples.stack_text_ok cc checked) (Examples.stack_text cc checked) h).exact _ hp
    · exact (Examples.rust_closed h).exact _ hp

/-- **C101**, the example programs on any text: a syntax error or a panic of the machine if it is no script of words, success
or a panic of the machine if it is (when is settled by C100). -/
theorem C101_calculators_any_text (text : Str) {ho0 : HashOrder} {fuel0 : Nat} {cc : CharClass} {checked : Bool} :
    (∀ P, Parser.newFromText ho0 fuel0 cc (simpleStackVm checked) Examples.simpleMathText = .ok P →
      ∃ N, ∀ fuel, N ≤ fuel → ∀ ho s,
        (¬ IsScript text → (∃ e, (Parser.parse ho fuel (simpleStackVm checked) P text s).1 = .err e ∧ SyntaxError e) ∨
          (Parser.parse ho fuel (simpleStackVm checked) P text s).1 = .panic) ∧
        (IsScript text → (∃ t c, Parser.parse ho fuel (simpleStackVm checked) P text s = (.ok t, c) ∧ c.proc.rest = []) ∨
          (Parser.parse ho fuel (simpleStackVm checked) P text s).1 = .panic)) ∧
    (∀ P, (Parser.newFromText ho0 fuel0 cc (stackVm cc checked) Examples.mathText = .ok P ∨
        Parser.newFromParserData ho0 fuel0 Examples.rustData.1 Examples.rustData.2 = .ok P) →
      ∃ N, ∀ fuel, N ≤ fuel → ∀ ho s,
        (¬ IsScript text → (∃ e, (Parser.parse ho fuel (stackVm cc checked) P text s).1 = .err e ∧ SyntaxError e) ∨
          (Parser.parse ho fuel (stackVm cc checked) P text s).1 = .panic) ∧
        (IsScript text → (∃ t c, Parser.parse ho fuel (stackVm cc checked) P text s = (.ok t, c) ∧ c.proc.rest = []) ∨
          (Parser.parse ho fuel (stackVm cc checked) P text s).1 = .panic)) := by
  refine ⟨fun P h => ?_, fun P h => ?_⟩
  · exact (Examples.text_closed (Examples.simple_text_ok cc checked) (Examples.simple_text cc checked) h).rejects
      calcSIns_plain (simpleStackVm_treePreserving checked) (simple_local checked) text
  · have hc : ClosedCalc calcIns P := by
      rcases h with h | h
      · exact Examples.text_closed (Examples.stack_text_ok cc checked) (Examples.stack_text cc checked) h
      · exact Examples.rust_closed h
    exact hc.rejects calcIns_plain (stackVm_treePreserving cc checked) (stack_local cc checked) text

/-! ### an end marker -/

/-- `start -> list end; list -> "a" list | "b"; end -> #;`: a grammar made closing by an end marker. -/
def Samples.endData : ParserData Nat :=
  { rules := [(0, ⟨[.notEmpty [1, 2]], none, []⟩), (1, ⟨[.notEmpty [3, 1], .notEmpty [4]], none, []⟩), (2, ⟨[.empty], none, []⟩)]
    ignore := none
    elementTypes := [.nonTerminal, .nonTerminal, .nonTerminal, .terminal, .terminal]
    verboseMap := []
    elementData := [⟨false, c% "start"⟩, ⟨false, c% "list"⟩, ⟨false, c% "end"⟩, ⟨false, c% "a"⟩, ⟨false, c% "b"⟩] }

/-- The same without the marker: `start -> list; list -> "a" list | "b";`. -/
def Samples.noEndData : ParserData Nat :=
  { Samples.endData with
    rules := [(0, ⟨[.notEmpty [1]], none, []⟩), (1, ⟨[.notEmpty [3, 1], .notEmpty [4]], none, []⟩), (2, ⟨[.empty], none, []⟩)] }

/-- **C101**, its hypotheses are met by the grammar with the end marker, and there trailing text is a syntax error; without
the marker it is silently left unread. -/
example :
    WellFormed Samples.endData ∧ StartSymbol Samples.endData 0 ∧ Closing Samples.endData 0 (· ∈ [0, 2]) ∧
    (∃ P, Parser.newFromParserData .insertion 9 Samples.endData 0 = .ok P ∧
      Samples.okRest (Parser.parse .insertion 9 nullVm P (c% "aab") 0) = some [] ∧
      Samples.errOf (Parser.parse .insertion 9 nullVm P (c% "aab!") 0) = some (.unexpectedChar '!' 3 (c% "terminate"))) ∧
    (∃ P, Parser.newFromParserData .insertion 9 Samples.noEndData 0 = .ok P ∧
      Samples.okRest (Parser.parse .insertion 9 nullVm P (c% "aab!") 0) = some (c% "!")) :=
  ⟨Samples.wf_of_check rfl, Samples.start_of_check rfl, closing_of_check rfl,
    ⟨_, rfl, by decide +kernel, by decide +kernel⟩, _, rfl, by decide +kernel⟩

/-- `start -> $[IGNORE:w] "a" z; z -> #; w -> " " w | #;`: an end marker `z` in a rule text with an override. -/
def Samples.endText : Str := c% "start -> $[IGNORE:w] \"a\" z; z -> #; w -> \" \" w | #;"

def Samples.endRules : List (WrittenRule Nat) :=
  [⟨c% "start", some (c% "w"), [[⟨c% "a", .terminal⟩, ⟨c% "z", .nonTerminal⟩]], []⟩,
   ⟨c% "z", none, [[]], []⟩,
   ⟨c% "w", none, [[⟨c% " ", .terminal⟩, ⟨c% "w", .nonTerminal⟩], []], []⟩]

theorem Samples.endText_rules : RulesText .ascii (ReadsSection nullVm) Samples.endRules Samples.endText := by
  have sp : IsSpace [' '] := Samples.isSpace_one (by decide)
  have nw : IsName .ascii (c% "w") := Samples.isName_letter (by decide)
  have nz : IsName .ascii (c% "z") := Samples.isName_letter (by decide)
  have r1 := RuleText.mk (cc := .ascii) (Sec := ReadsSection nullVm) (isName_start .ascii) sp sp (.name isSpace_nil nw) sp
    (.one (.seq (.cons (.terminal (b := c% "a") rfl) sp (by simp) (.one (.name nz))))) isSpace_nil
    (.absent (name := c% "start")) isSpace_nil
  have r2 := RuleText.mk (cc := .ascii) (Sec := ReadsSection nullVm) nz sp sp .absent isSpace_nil
    (.one .empty) isSpace_nil (.absent (name := c% "z")) isSpace_nil
  have r3 := RuleText.mk (cc := .ascii) (Sec := ReadsSection nullVm) nw sp sp .absent isSpace_nil
    (.cons (.seq (.cons (.terminal (b := c% " ") rfl) sp (by simp) (.one (.name nw)))) sp sp (.one .empty))
    isSpace_nil (.absent (name := c% "w")) isSpace_nil
  exact .cons isSpace_nil r1 (.cons sp r2 (.cons sp r3 (.nil isSpace_nil)))

theorem Samples.endRules_closing : ClosingNames Samples.endRules (fun n => n = c% "start" ∨ n = c% "z") := by
  have key : ∀ n a, a ∈ altsOf Samples.endRules n →
      (n = c% "start" ∧ a = [⟨c% "a", .terminal⟩, ⟨c% "z", .nonTerminal⟩]) ∨ (n = c% "z" ∧ a = []) ∨
      (n = c% "w" ∧ (a = [⟨c% " ", .terminal⟩, ⟨c% "w", .nonTerminal⟩] ∨ a = [])) := by
    intro n a ha
    obtain ⟨r, hr, rfl, hb⟩ := mem_altsOf.1 ha
    simp only [Samples.endRules, List.mem_cons, List.not_mem_nil, or_false] at hr
    rcases hr with rfl | rfl | rfl
    · exact .inl ⟨rfl, by simpa using hb⟩
    · exact .inr (.inl ⟨rfl, by simpa using hb⟩)
    · exact .inr (.inr ⟨rfl, by simpa using hb⟩)
  refine ⟨.inl rfl, ?_, ?_, ?_⟩
  · rintro n a hz ha
    rcases key n a ha with ⟨rfl, rfl⟩ | ⟨rfl, rfl⟩ | ⟨rfl, h⟩
    · exact .inr ⟨[⟨c% "a", .terminal⟩], c% "z", rfl, .inr rfl⟩
    · exact .inl rfl
    · exact absurd hz (by decide)
  · rintro n a pre m post ha he hz
    rcases key n a ha with ⟨rfl, rfl⟩ | ⟨rfl, rfl⟩ | ⟨rfl, rfl | rfl⟩
    · match pre with
      | [] => simp at he
      | [x] => simp at he; exact ⟨he.2.2, .inl rfl⟩
      | x :: y :: pre => simp at he
    · simp at he
    · match pre with
      | [] => simp at he
      | [x] =>
        simp only [List.cons_append, List.nil_append, List.cons.injEq, ElementVerbose.mk.injEq, and_true] at he
        rw [← he.2.1] at hz
        exact absurd hz (by decide)
      | x :: y :: pre => simp at he
    · simp at he
  · intro n j hj hz
    simp only [overrideOf, Samples.endRules, List.filter_cons] at hj
    by_cases h1 : c% "start" = n
    · subst h1; simp at hj; subst hj; exact absurd hz (by decide)
    · by_cases h2 : c% "z" = n
      · subst h2; simp at hj
      · by_cases h3 : c% "w" = n
        · subst h3; simp at hj
        · simp [h1, h2, h3] at hj

/-- **C101**, the hypotheses of the theorem on rule texts are met: the text gives a parser, which reads `a` and blanks after
it, and rejects anything else after it. -/
example : SpaceOk .ascii ∧
    Samples.runText (Parser.newFromText .insertion 99 .ascii nullVm Samples.endText) (c% "a  ") = some [] ∧
    Samples.runText (Parser.newFromText .insertion 99 .ascii nullVm Samples.endText) (c% "a !") = none :=
  ⟨Samples.ruleText_reads.1, by decide +kernel, by decide +kernel⟩

end HPP
