import Verif.Spec.Breaking
import Verif.Props.Executing
import Verif.Props.Failing
import Verif.Props.LL1
/-
C115: what a script that is not accepted has done, told by the rule text.
-/
namespace HPP
open Spec
variable {I S S' : Type} {cc : CharClass} {rs : List (WrittenRule I)} {text : Str} {P : Parser I} {ho0 ho : HashOrder}
  {fuel0 fuel : Nat} {pd : ParserData I} {start : Nat}

/-- A walk with a machine that leaves the tree alone. -/
theorem walk_runs {vm : VM I S} (htp : TreePreserving vm) {parent : Option NodeId} {f : Forest} {x y : Tree Str × S}
    (h : Walk vm pd parent f x y) : ∀ hist par, TRep x.1 hist → ParOk hist parent par →
      TRep y.1 (hist ++ histOf pd par hist.length f) ∧ Runs vm pd (events pd hist.length f) x.2 y.2 := by
  induction h with
  | nil => intro hist par hr _; exact ⟨by simpa [histOf] using hr, .nil⟩
  | @leaf parent e f t t1 s r y h1 h2 _ ih =>
    intro hist par hr hp
    obtain ⟨t', g1, g2⟩ := hr.addNode_par (nameOf pd e) hp.1 hp.2
    simp only at hr g1
    rw [g1] at h1
    simp only [Prod.mk.injEq] at h1
    obtain ⟨-, rfl⟩ := h1
    have hp' : ParOk (hist ++ [(par, nameOf pd e)]) parent par :=
      ⟨hp.1, fun q hq => by have := hp.2 q hq; simp; omega⟩
    obtain ⟨a, b⟩ := ih _ par g2 hp'
    simp only [List.length_append, List.length_singleton] at a b
    exact ⟨by simpa [histOf] using a, b⟩
  | @node parent A p kids f t t1 s id x y z h1 _ h3 _ ih1 ih2 =>
    intro hist par hr hp
    obtain ⟨t', g1, g2⟩ := hr.addNode_par ([] : Str) hp.1 hp.2
    simp only at hr g1
    rw [g1] at h1
    simp only [Prod.mk.injEq, Res.ok.injEq] at h1
    obtain ⟨rfl, rfl⟩ := h1
    obtain ⟨a, b⟩ := ih1 (hist ++ [(par, [])]) (some hist.length) g2
      ⟨rfl, fun q hq => by cases hq; simp⟩
    simp only [List.length_append, List.length_singleton] at a b
    obtain ⟨tx, sx⟩ := x
    obtain ⟨ty, sy⟩ := y
    have he := (executes_iff vm _ _ _ _).1 h3
    have ht := runInstructions_tree htp _ _ he
    simp only at ht a b he
    subst ht
    have hh : TRep ty (hist ++ histOf pd par hist.length (.node A p kids .nil)) := by
      simpa [histOf] using a
    have hsh := hh.shows_node hp.2
    obtain ⟨a2, b2⟩ := ih2 _ par hh ⟨hp.1, fun q hq => by have := hp.2 q hq; simp; omega⟩
    have hlen : (hist ++ histOf pd par hist.length (.node A p kids .nil)).length = hist.length + 1 + kids.size := by
      rw [List.length_append]
      have : (histOf pd par hist.length (.node A p kids .nil)).length = 1 + kids.size := by
        simp [histOf, histOf_length]; omega
      omega
    rw [hlen] at a2 b2
    refine ⟨by simpa [histOf] using a2, ?_⟩
    simp only [events]
    exact b.append (.cons hsh h3 b2)

/-- Reading that stops, by the rule text. -/
theorem breaks_of_stops (hm : MeansWoven rs pd) (hin : InternOk pd (elementsOf rs)) (hw : WellFormed pd)
    (hne : NoLeadingEmptyTerminal pd) {vm : VM I S}
    (htp : TreePreserving vm) {k : Nat} {parent : Option NodeId} {els : List Nat} {w : Str} {x : Tree Str × S} {st : Stop S}
    (h : Stops vm pd start k parent els w x st) : ∀ a : List ElementVerbose, (∀ y ∈ a, y ∈ elementsOf rs) →
    els = (a.map fun y => (elementsOf rs).idxOf y) → ∀ hist par, TRep x.1 hist → ParOk hist parent par →
    ∃ read rest y s', w = read ++ rest ∧ Breaks vm rs a hist.length x.2 read y s' ∧
      ((st = .panicked ∧ ∃ A, y = .instructions A) ∨
       st ≠ .panicked ∧ ∀ pre e r s2, st.Shows pd start (pre ++ w : Str).length e r s2 →
        r = rest ∧ s2 = s' ∧ y.Reports rs (pre ++ read) rest e) := by
  have lenEq : ∀ (pre u v : Str), (pre ++ (u ++ v)).length - v.length = (pre ++ u).length := by
    intro pre u v; simp only [List.length_append]; omega
  induction h with
  | @wrongChar k parent e es d u v r c c' t s hT hD hd hc =>
    intro a hel ha hist par hr hp
    cases a with
    | nil => cases ha
    | cons y ys =>
      simp only [List.map_cons, List.cons.injEq] at ha
      obtain ⟨rfl, rfl⟩ := ha
      have hx := hin.at_idx (hel y (by simp))
      rw [hT, hD] at hx
      obtain ⟨b, ty⟩ := y
      simp only [Option.some.injEq] at hx
      obtain ⟨rfl, rfl⟩ := hx
      simp only at hd
      subst hd
      refine ⟨u, c :: r, .char c', s, rfl, .terminal, .inr ⟨(by intro h; cases h), ?_⟩⟩
      intro pre e r2 s2 hsh
      obtain ⟨h1, rfl, rfl⟩ := hsh
      rw [lenEq] at h1
      exact ⟨rfl, rfl, .inr ⟨c, r, rfl, hc, h1⟩⟩
  | @ended k parent e es d w v c' t s hT hD hd =>
    intro a hel ha hist par hr hp
    cases a with
    | nil => cases ha
    | cons y ys =>
      simp only [List.map_cons, List.cons.injEq] at ha
      obtain ⟨rfl, rfl⟩ := ha
      have hx := hin.at_idx (hel y (by simp))
      rw [hT, hD] at hx
      obtain ⟨b, ty⟩ := y
      simp only [Option.some.injEq] at hx
      obtain ⟨rfl, rfl⟩ := hx
      simp only at hd
      subst hd
      refine ⟨w, [], .char c', s, by simp, .terminal, .inr ⟨(by intro h; cases h), ?_⟩⟩
      intro pre e r2 s2 hsh
      obtain ⟨h1, rfl, rfl⟩ := hsh
      exact ⟨rfl, rfl, .inl ⟨rfl, h1⟩⟩
  | @noAlternative k parent A es rule w t s hT hr0 hno =>
    intro a hel ha hist par hr hp
    cases a with
    | nil => cases ha
    | cons y ys =>
      simp only [List.map_cons, List.cons.injEq] at ha
      obtain ⟨rfl, rfl⟩ := ha
      have hmem := hel y (by simp)
      have hx := hin.at_idx hmem
      rw [hT] at hx
      obtain ⟨b, ty⟩ := y
      simp only [Option.some.injEq] at hx
      obtain ⟨rfl, -⟩ := hx
      refine ⟨[], w, .name b, s, rfl, .name, .inr ⟨(by intro h; cases h), ?_⟩⟩
      intro pre e r2 s2 hsh
      obtain ⟨rfl, rfl, rule', L, h1, h2, h3, h4⟩ := hsh
      rw [hr0] at h1
      cases h1
      refine ⟨rfl, rfl, L, ?_, h2, ?_, ?_⟩
      · rw [h4]; simp
      · intro hm'
        obtain ⟨p, hp1, hp2⟩ := (h3 _).1 hm'
        exact hno p hp1 hp2
      · intro c x hsp
        obtain ⟨f, hf⟩ := (spells_iff_forest hm hin (getElem?_idxOf hmem) (c :: x)).2 hsp
        generalize hcx : c :: x = cx at hf
        cases hf with
        | leaf h1 => rw [hT] at h1; cases h1
        | @node _ _ r p kids f s1 s2 h1 h5 h6 h7 h8 =>
          cases h8
          rw [List.append_nil] at hcx
          subst hcx
          rw [hr0] at h5
          cases h5
          have hd := h7.derives
          exact (h3 _).2 ⟨p, h6, predict_control hw hne hr0 h6 (.inl ⟨c, rfl, ⟨_, hd⟩⟩)⟩
  | @noParent k parent A es rule p w t t1 s e hT hr0 hp0 hc he =>
    intro a hel ha hist par hr hp
    obtain ⟨t', g1, -⟩ := hr.addNode_par ([] : Str) hp.1 hp.2
    simp only at g1
    rw [g1] at he
    cases he
  | @inside k parent A es rule p w t t1 s id st hT hr0 hp0 hc he _ ih =>
    intro a hel ha hist par hr hp
    cases a with
    | nil => cases ha
    | cons y ys =>
      simp only [List.map_cons, List.cons.injEq] at ha
      obtain ⟨rfl, rfl⟩ := ha
      have hmem := hel y (by simp)
      have hx := hin.at_idx hmem
      rw [hT] at hx
      obtain ⟨b, ty⟩ := y
      simp only [Option.some.injEq] at hx
      obtain ⟨rfl, -⟩ := hx
      obtain ⟨t', g1, g2⟩ := hr.addNode_par ([] : Str) hp.1 hp.2
      simp only at g1
      rw [g1] at he
      simp only [Prod.mk.injEq, Res.ok.injEq] at he
      obtain ⟨rfl, rfl⟩ := he
      obtain ⟨a', ha1, ha2⟩ := (finalAlt_iff hm (getElem?_idxOf hmem) (prodElems p)).1 ⟨rule, hr0, p, hp0, rfl⟩
      obtain ⟨read, rest, y, s', q1, q2, q3⟩ := ih a' (finalAlt_elements ha1) ha2 (hist ++ [(par, [])]) (some hist.length) g2
        ⟨rfl, fun q hq => by cases hq; simp⟩
      simp only [List.length_append, List.length_singleton] at q2
      exact ⟨read, rest, y, s', q1, .inside ha1 q2, q3⟩
  | @after k parent e es w w1 f x y st ht _ hwk _ ih =>
    intro a hel ha hist par hr hp
    cases a with
    | nil => cases ha
    | cons z zs =>
      simp only [List.map_cons, List.cons.injEq] at ha
      obtain ⟨rfl, rfl⟩ := ha
      obtain ⟨u, rfl, hf⟩ := ht.isForest
      obtain ⟨g1, g2⟩ := walk_runs htp hwk hist par hr hp
      have hpf := performs_of_forest hm hin hf [z] (by intro y hy; exact hel y (by simp at hy; simp [hy])) rfl _ _ _ g2
      obtain ⟨read, rest, yy, s', q1, q2, q3⟩ := ih zs (fun y hy => hel y (by simp [hy])) rfl _ par g1
        ⟨hp.1, fun q hq => by have := hp.2 q hq; simp; omega⟩
      subst q1
      have hl : (hist ++ histOf pd par hist.length f).length = hist.length + f.size := by simp
      rw [hl] at q2
      refine ⟨u ++ read, rest, yy, s', by simp, .after hpf q2, ?_⟩
      rcases q3 with q3 | ⟨q0, q3⟩
      · exact .inl q3
      · refine .inr ⟨q0, fun pre e r s2 hsh => ?_⟩
        have := q3 (pre ++ u) e r s2 (by simpa using hsh)
        simpa using this
  | @leafPanics k parent e es d w t t1 s hT hD he =>
    intro a hel ha hist par hr hp
    obtain ⟨t', g1, -⟩ := hr.addNode_par d.name hp.1 hp.2
    simp only at g1
    rw [g1] at he
    cases he
  | @nodePanics k parent A es rule p w t t1 s hT hr0 hp0 hc he =>
    intro a hel ha hist par hr hp
    obtain ⟨t', g1, -⟩ := hr.addNode_par ([] : Str) hp.1 hp.2
    simp only at g1
    rw [g1] at he
    cases he
  | @machinePanics k parent A es rule p w w1 kids t t1 s id x hT hr0 hp0 hc he ht _ hwk hno =>
    intro a hel ha hist par hr hp
    cases a with
    | nil => cases ha
    | cons y ys =>
      simp only [List.map_cons, List.cons.injEq] at ha
      obtain ⟨rfl, rfl⟩ := ha
      have hmem := hel y (by simp)
      have hx := hin.at_idx hmem
      rw [hT] at hx
      obtain ⟨b, ty⟩ := y
      simp only [Option.some.injEq] at hx
      obtain ⟨rfl, -⟩ := hx
      obtain ⟨t', g1, g2⟩ := hr.addNode_par ([] : Str) hp.1 hp.2
      simp only at g1
      rw [g1] at he
      simp only [Prod.mk.injEq, Res.ok.injEq] at he
      obtain ⟨rfl, rfl⟩ := he
      obtain ⟨a', ha1, ha2⟩ := (finalAlt_iff hm (getElem?_idxOf hmem) (prodElems p)).1 ⟨rule, hr0, p, hp0, rfl⟩
      obtain ⟨u, rfl, hf⟩ := ht.isForest
      obtain ⟨k1, k2⟩ := walk_runs htp hwk (hist ++ [(par, [])]) (some hist.length) g2 ⟨rfl, fun q hq => by cases hq; simp⟩
      simp only [List.length_append, List.length_singleton] at k1 k2
      have hpf := performs_of_forest hm hin hf a' (finalAlt_elements ha1) ha2 _ _ _ k2
      obtain ⟨tx, sx⟩ := x
      have hh : TRep tx (hist ++ histOf pd par hist.length (.node ((elementsOf rs).idxOf ⟨b, .nonTerminal⟩) p kids .nil)) := by
        simpa [histOf] using k1
      have hsh := hh.shows_node hp.2
      have hpan : ExecPanics vm ⟨hist.length, hist.length⟩ (instructionsOf rs b) (tx, sx) := by
        rw [← instrOf_means hm (getElem?_idxOf hmem)]
        rw [execPanics_iff]
        cases hrun : runInstructions vm ⟨hist.length, hist.length⟩
            (instrOf pd ((elementsOf rs).idxOf ⟨b, .nonTerminal⟩)) tx sx with
        | none => rfl
        | some z => exact absurd ((executes_iff vm _ _ (tx, sx) z).2 hrun) (hno z)
      exact ⟨u, w1, .instructions b, sx, rfl, .instructions ha1 hpf hsh hpan, .inl ⟨rfl, b, rfl⟩⟩

/-- **C115.** A failed parse, by the rule text: what was read before the error was run by the written rules up to a place inside a
terminal or before a name; every name finished by then was performed once and in order, no instruction of an unfinished name was
executed, and nothing was undone.  The error is the one of this place: it has the position right after what was read, and
names the character that was expected or lists all characters with which the name can begin. -/
theorem C115_failed_script (hcc : SpaceOk cc) {vm : VM I S} (h : RulesText cc (ReadsSection vm) rs text)
    (hP : Parser.newFromText ho0 fuel0 cc vm text = .ok P) (vm' : VM I S') (htp : TreePreserving vm') {script : Str} {s : S'}
    {e : PErr} {c : Ctx S'} (hr : Parser.parse ho fuel vm' P script s = (.err e, c)) :
    ∃ read w, script = read ++ c.proc.rest ∧ Breaks vm' rs [⟨c% "start", .nonTerminal⟩] 0 s read w c.state ∧
      w.Reports rs read c.proc.rest e := by
  obtain ⟨pd, st, a1, a2, a3, a4, a5, a6⟩ := newFromText_means hcc h hP
  have hacc := (C16_parser_built_iff a2 ho0 st).1 ⟨_, _, a6⟩
  obtain ⟨stop, h1, h2⟩ := C95_failed_parse_stops a2 a6 (a3.start a5) hacc.startDefined vm' script s hr
  have hm : (⟨c% "start", .nonTerminal⟩ : ElementVerbose) ∈ elementsOf rs := List.mem_of_getElem? a5
  have hi : st = (elementsOf rs).idxOf ⟨c% "start", .nonTerminal⟩ := a3.inj a5 (getElem?_idxOf hm)
  obtain ⟨read, rest, y, s', q1, q2, q3⟩ := breaks_of_stops a1 a3 a2 hacc.noEmptyTerminal htp h1
    [⟨c% "start", .nonTerminal⟩] (by simpa using hm) (by rw [hi]; rfl) [] none TRep.new ⟨rfl, by simp⟩
  rcases q3 with ⟨rfl, -⟩ | ⟨-, q3⟩
  · exact h2.elim
  · obtain ⟨rfl, h4, h5⟩ := q3 [] e _ _ h2
    rw [h4]
    exact ⟨read, y, q1, q2, h5⟩

/-- **C115**, panics: if a parse panics, then an instruction of a name that was just finished panicked; everything before it was
run by the written rules. -/
theorem C115_panicking_script (hcc : SpaceOk cc) {vm : VM I S} (h : RulesText cc (ReadsSection vm) rs text)
    (hP : Parser.newFromText ho0 fuel0 cc vm text = .ok P) (vm' : VM I S') (htp : TreePreserving vm') {script : Str} {s : S'}
    (hr : (Parser.parse ho fuel vm' P script s).1 = .panic) :
    ∃ read rest A s', script = read ++ rest ∧ Breaks vm' rs [⟨c% "start", .nonTerminal⟩] 0 s read (.instructions A) s' := by
  obtain ⟨pd, st, a1, a2, a3, a4, a5, a6⟩ := newFromText_means hcc h hP
  have hacc := (C16_parser_built_iff a2 ho0 st).1 ⟨_, _, a6⟩
  have h1 := (C95_panic_iff a2 a6 (a3.start a5) hacc.startDefined vm' script s).1 hr
  have hm : (⟨c% "start", .nonTerminal⟩ : ElementVerbose) ∈ elementsOf rs := List.mem_of_getElem? a5
  have hi : st = (elementsOf rs).idxOf ⟨c% "start", .nonTerminal⟩ := a3.inj a5 (getElem?_idxOf hm)
  obtain ⟨read, rest, y, s', q1, q2, q3⟩ := breaks_of_stops a1 a3 a2 hacc.noEmptyTerminal htp h1
    [⟨c% "start", .nonTerminal⟩] (by simpa using hm) (by rw [hi]; rfl) [] none TRep.new ⟨rfl, by simp⟩
  rcases q3 with ⟨-, A, rfl⟩ | ⟨q0, -⟩
  · exact ⟨read, rest, A, s', q1, q2⟩
  · exact absurd rfl q0

/-- **C115**, every script: for the scripts up to any length there is an amount of fuel from which on every parse ends in one of
three ways: it succeeds, and what it has read was performed by the written rules; it fails, and it broke off inside a terminal or
before a name, with the error of that place; or it panics, and it broke off at an instruction of a finished name. -/
theorem C115_every_script (hcc : SpaceOk cc) {vm : VM I S} (h : RulesText cc (ReadsSection vm) rs text)
    (hP : Parser.newFromText ho0 fuel0 cc vm text = .ok P) (n : Nat) :
    ∃ N, ∀ fuel, N ≤ fuel → ∀ (ho : HashOrder) (vm' : VM I S'), TreePreserving vm' → ∀ (script : Str) (s : S'),
      script.length ≤ n →
      (∃ t c consumed r m, Parser.parse ho fuel vm' P script s = (.ok t, c) ∧ script = consumed ++ c.proc.rest ∧
        Shows t ⟨0, 0⟩ r ∧ Performs vm' rs [⟨c% "start", .nonTerminal⟩] 0 s consumed [r] m c.state) ∨
      (∃ e c read w, Parser.parse ho fuel vm' P script s = (.err e, c) ∧ script = read ++ c.proc.rest ∧
        Breaks vm' rs [⟨c% "start", .nonTerminal⟩] 0 s read w c.state ∧ w.Reports rs read c.proc.rest e) ∨
      (∃ c read rest A s', Parser.parse ho fuel vm' P script s = (.panic, c) ∧ script = read ++ rest ∧
        Breaks vm' rs [⟨c% "start", .nonTerminal⟩] 0 s read (.instructions A) s') := by
  obtain ⟨pd, st, a1, a2, a3, a4, a5, a6⟩ := newFromText_means hcc h hP
  obtain ⟨N, hN⟩ := C24_parse_terminates a2 a6 (a3.start a5) n (S := S')
  refine ⟨N, fun fuel hf ho vm' htp script s hl => ?_⟩
  have hne := hN fuel hf ho vm' script s hl
  rcases hr : Parser.parse ho fuel vm' P script s with ⟨r, c⟩
  rw [hr] at hne
  cases r with
  | ok t =>
    obtain ⟨x, r, m, g1, g2, g3⟩ := C110_parse_performs hcc h hP vm' htp hr
    exact .inl ⟨t, c, x, r, m, rfl, g1, g2, g3⟩
  | err e =>
    obtain ⟨x, w, g1, g2, g3⟩ := C115_failed_script hcc h hP vm' htp hr
    exact .inr (.inl ⟨e, c, x, w, rfl, g1, g2, g3⟩)
  | panic =>
    obtain ⟨x, rest, A, s', g1, g2⟩ := C115_panicking_script hcc h hP vm' htp (ho := ho) (fuel := fuel) (script := script) (s := s)
      (by rw [hr])
    exact .inr (.inr ⟨c, x, rest, A, s', rfl, g1, g2⟩)
  | timeout => exact absurd rfl hne

/-! ### concrete cases -/

/-- `b` has a section and is read twice. -/
def Samples.againText : Str := c% "start -> b b; b -> \"x\" { };"

def Samples.againRules : List (WrittenRule Nat) :=
  [⟨c% "start", none, [[⟨c% "b", .nonTerminal⟩, ⟨c% "b", .nonTerminal⟩]], []⟩,
   ⟨c% "b", none, [[⟨c% "x", .terminal⟩]], [0]⟩]

theorem Samples.againText_rules (checked : Bool) :
    RulesText .ascii (ReadsSection (countingVm checked)) Samples.againRules Samples.againText := by
  have sp : IsSpace [' '] := Samples.isSpace_one (by decide)
  have nb : IsName .ascii (c% "b") := Samples.isName_letter (by decide)
  have r1 := RuleText.mk (cc := .ascii) (Sec := ReadsSection (countingVm checked)) (isName_start .ascii) sp sp .absent isSpace_nil
    (.one (.seq (.cons (.name nb) sp (by simp) (.one (.name nb))))) isSpace_nil
    (.absent (name := c% "start")) isSpace_nil
  have r2 := RuleText.mk (cc := .ascii) (Sec := ReadsSection (countingVm checked)) nb sp sp .absent isSpace_nil
    (.one (.seq (.one (.terminal (b := c% "x") rfl)))) sp
    ((C54_section_or_not checked (c% "b") [0] (c% "{ }")).2 (.inr ⟨rfl, [' '], sp, rfl⟩)) isSpace_nil
  exact .cons isSpace_nil r1 (.cons sp r2 (.nil isSpace_nil))

/-- What happens to the script `s` from the state `n`. -/
def Samples.againRun (s : Str) (n : Nat) : Option (Option PErr × Str × Nat) :=
  match Parser.newFromText .insertion 99 .ascii (countingVm true) Samples.againText with
  | .ok P =>
    match Parser.parse .insertion 99 (countingVm true) P s n with
    | (.err e, c) => some (some e, c.proc.rest, c.state)
    | (.panic, c) => some (none, c.proc.rest, c.state)
    | _ => none
  | _ => none

theorem Samples.againRun_err {s : Str} {n : Nat} {e : PErr} {r : Str} {k : Nat} (h : Samples.againRun s n = some (some e, r, k)) :
    ∃ P c, Parser.newFromText .insertion 99 .ascii (countingVm true) Samples.againText = .ok P ∧
      Parser.parse .insertion 99 (countingVm true) P s n = (.err e, c) ∧ c.proc.rest = r ∧ c.state = k := by
  unfold Samples.againRun at h
  generalize Parser.newFromText .insertion 99 .ascii (countingVm true) Samples.againText = x at *
  cases x with
  | ok P =>
    refine ⟨P, ?_⟩
    rcases hp : Parser.parse .insertion 99 (countingVm true) P s n with ⟨a, c⟩
    simp only [hp] at h
    cases a <;> simp at h
    obtain ⟨rfl, rfl, rfl⟩ := h
    exact ⟨c, rfl, rfl, rfl, rfl⟩
  | err e => cases h
  | panic => cases h
  | timeout => cases h

theorem Samples.againRun_panic {s : Str} {n : Nat} {r : Str} {k : Nat} (h : Samples.againRun s n = some (none, r, k)) :
    ∃ P, Parser.newFromText .insertion 99 .ascii (countingVm true) Samples.againText = .ok P ∧
      (Parser.parse .insertion 99 (countingVm true) P s n).1 = .panic := by
  unfold Samples.againRun at h
  generalize Parser.newFromText .insertion 99 .ascii (countingVm true) Samples.againText = x at *
  cases x with
  | ok P =>
    refine ⟨P, rfl, ?_⟩
    rcases hp : Parser.parse .insertion 99 (countingVm true) P s n with ⟨a, c⟩
    simp only [hp] at h
    cases a <;> simp at h
    rfl
  | err e => cases h
  | panic => cases h
  | timeout => cases h

/-- `xy` from the state 5: the first `b` is performed, so the state is 6; the second one cannot begin with `y`. -/
example : ∃ w, Breaks (countingVm true) Samples.againRules [⟨c% "start", .nonTerminal⟩] 0 5 (c% "x") w 6 ∧
    w.Reports Samples.againRules (c% "x") (c% "y") (.unexpectedChar 'y' 1 (expectedText [.char 'x'])) := by
  obtain ⟨P, c, h1, h2, h3, h4⟩ := Samples.againRun_err
    (show Samples.againRun (c% "xy") 5 = some (some (.unexpectedChar 'y' 1 (expectedText [.char 'x'])), c% "y", 6) by decide +kernel)
  obtain ⟨read, w, g1, g2, g3⟩ := C115_failed_script Samples.ruleText_reads.1 (Samples.againText_rules true) h1 (countingVm true)
    (countingVm_treePreserving true) h2
  rw [h3] at g1 g3
  rw [h4] at g2
  have : read = c% "x" := List.append_cancel_right (as := read) (bs := c% "y") (cs := c% "x") g1.symm
  subst this
  exact ⟨w, g2, g3⟩

/-- By hand: the same break. -/
example : ∃ s, Breaks (countingVm true) Samples.againRules [⟨c% "b", .nonTerminal⟩] 1 s [] (.name (c% "b")) s := ⟨5, .name⟩

/-- `xx` from the largest state: the increment for the first `b` panics in a checked build. -/
example : ∃ read rest A s', c% "xx" = read ++ rest ∧
    Breaks (countingVm true) Samples.againRules [⟨c% "start", .nonTerminal⟩] 0 18446744073709551615 read (.instructions A) s' := by
  obtain ⟨P, h1, h2⟩ := Samples.againRun_panic
    (show Samples.againRun (c% "xx") 18446744073709551615 = some (none, c% "x", 18446744073709551615) by decide +kernel)
  exact C115_panicking_script Samples.ruleText_reads.1 (Samples.againText_rules true) h1 (countingVm true)
    (countingVm_treePreserving true) h2

end HPP
