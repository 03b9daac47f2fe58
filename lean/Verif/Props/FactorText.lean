import Verif.Proofs.FactorText
import Verif.Props.Factor
import Verif.Props.Layout
import Verif.Props.Limits
/-
C122 for rule texts: naming a part of alternatives.
-/
namespace HPP
open Spec
variable {I S S0 : Type} {cc : CharClass} {vm0 : VM I S0} {g : Str} {b : List ElementVerbose} {rs rs' : List (WrittenRule I)}
  {text text' : Str} {P P' : Parser I} {ho ho' ho0 ho0' : HashOrder} {fuel fuel0 fuel0' : Nat}
  (hcc : SpaceOk cc) (h : RulesText cc (ReadsSection vm0) rs text) (h' : RulesText cc (ReadsSection vm0) rs' text')
  (hn : NamedText g b rs rs')

theorem spells_mentioned {n s : Str} (hs : Spells rs [⟨n, .nonTerminal⟩] s) : (⟨n, .nonTerminal⟩ : ElementVerbose) ∈ elementsOf rs := by
  cases hs with
  | name hf _ _ =>
    have key : ∀ {a : List ElementVerbose}, a ∈ altsOf rs n → (⟨n, .nonTerminal⟩ : ElementVerbose) ∈ elementsOf rs := by
      intro a ha
      obtain ⟨r, hr, rfl, -⟩ := mem_altsOf.1 ha
      exact mem_elementsOf hr (by simp [WrittenRule.mentions])
    cases hf with
    | plain _ ha => exact key ha
    | own _ _ ha => exact key ha
    | woven _ _ ha => exact key ha

section
include hcc h h' hn

/-- **C122**, rule texts, the language: the rules with the name spell the same texts. -/
theorem C122_same_texts (hd : IgnoresDefined rs) {n : Str} (hng : n ≠ g) (s : Str) : Spells rs' [⟨n, .nonTerminal⟩] s ↔ Spells rs [⟨n, .nonTerminal⟩] s := by
  obtain ⟨pd, -, a1, a2, a3⟩ := parseRules_means hcc h hd .insertion
  obtain ⟨pd', -, b1, b2, b3⟩ := parseRules_means hcc h' (hn.ignoresDefined_iff.1 hd) .insertion
  by_cases hmem : (⟨n, .nonTerminal⟩ : ElementVerbose) ∈ elementsOf rs
  · have hmem' := (hn.mem_iff _).2 (.inl hmem)
    have t1 := (a3.at_idx hmem).1
    have t2 := (b3.at_idx hmem').1
    have hr := hn.renumbered0 a3 b3
    have hw0 := hn.wf0 a3 b3 b2
    have e : nameLast g rs rs' ((elementsOf rs').idxOf ⟨n, .nonTerminal⟩) = (elementsOf rs).idxOf ⟨n, .nonTerminal⟩ := by
      exact (reindex_at hmem').trans (by rw [withName, List.idxOf_append, if_pos hmem])
    have hN := hn.named a1 a3 a2 b1 b3
    rw [← spells_iff_forest a1 a3 (getElem?_idxOf hmem), C19_tree_iff_language a2 t1,
      ← spells_iff_forest b1 b3 (getElem?_idxOf hmem'), C19_tree_iff_language b2 t2,
      ← C122_data_language hN a2 hw0 (List.getElem?_eq_some_iff.1 t1).1, Language, Language,
      ← Ren.derives_map_iff hr b2.lengths hw0.lengths, ofText_symMap]
    simp only [List.map_cons, List.map_nil, symMap, e]
  · have hmem' : (⟨n, .nonTerminal⟩ : ElementVerbose) ∉ elementsOf rs' := by
      rw [hn.mem_iff]
      rintro (hc | hc)
      · exact hmem hc
      · cases hc; exact hng rfl
    exact ⟨fun hs => absurd (spells_mentioned hs) hmem', fun hs => absurd (spells_mentioned hs) hmem⟩

/-- **C122**, rule texts, construction: the rules with the name give a parser exactly when the rules without it do. -/
theorem C122_built_iff (ho1 ho2 : HashOrder) :
    (∃ fuel P, Parser.newFromText ho1 fuel cc vm0 text = .ok P) ↔ (∃ fuel P, Parser.newFromText ho2 fuel cc vm0 text' = .ok P) := by
  have hd : ((∃ fuel P, Parser.newFromText ho1 fuel cc vm0 text = .ok P) ∨ (∃ fuel P, Parser.newFromText ho2 fuel cc vm0 text' = .ok P)) →
      IgnoresDefined rs := by
    rintro (⟨fuel, P, hP⟩ | ⟨fuel, P, hP⟩)
    · obtain ⟨_, _, _, _, _, a4, _⟩ := newFromText_means hcc h hP
      exact a4
    · obtain ⟨_, _, _, _, _, a4, _⟩ := newFromText_means hcc h' hP
      exact hn.ignoresDefined_iff.2 a4
  refine (Classical.em (IgnoresDefined rs)).elim (fun hdef => ?_) fun hdef =>
    ⟨fun hc => absurd (hd (.inl hc)) hdef, fun hc => absurd (hd (.inr hc)) hdef⟩
  obtain ⟨pd, hpd, a1, a2, a3⟩ := parseRules_means hcc h hdef ho1
  obtain ⟨pd', hpd', b1, b2, b3⟩ := parseRules_means hcc h' (hn.ignoresDefined_iff.1 hdef) ho2
  have key : ∀ {st st' : Nat}, (elementsOf rs)[st]? = some ⟨c% "start", .nonTerminal⟩ →
      (elementsOf rs')[st']? = some ⟨c% "start", .nonTerminal⟩ →
      ((∃ fuel P, Parser.newFromParserData ho1 fuel pd st = .ok P) ↔ (∃ fuel P, Parser.newFromParserData ho2 fuel pd' st' = .ok P)) := by
    intro st st' c1 c2
    have e : nameLast g rs rs' st' = st := by
      have := reindex_lookup (hn.perm a3 b3) st'
      rw [c2] at this
      refine nodup_inj (hn.nodup0 a3) this ?_
      rw [List.getElem?_append_left (List.getElem?_eq_some_iff.1 c1).1]; exact c1
    have hi : st < pd.elementTypes.length := (List.getElem?_eq_some_iff.1 (Spec.StartSymbol.type (a3.start c1))).1
    rw [C122_data_built_iff (hn.named a1 a3 a2 b1 b3) a2 (hn.wf0 a3 b3 b2) hi ho1 ho2,
      C63_built_iff b2 (hn.wf0 a3 b3 b2) (hn.renumbered0 a3 b3) ho2 ho2, e]
  constructor
  · rintro ⟨fuel, P, hP⟩
    obtain ⟨q, st, h1, h2, h3⟩ := newFromText_ok hP
    rw [hpd] at h1; cases h1
    have c1 := (a3.map _ _).1 h2
    have c2 := getElem?_idxOf ((hn.mem_iff _).2 (.inl (List.mem_of_getElem? c1)))
    obtain ⟨fuel', P', hP'⟩ := (key c1 c2).1 ⟨_, _, h3⟩
    exact ⟨fuel', P', newFromText_eq hpd' ((b3.map _ _).2 c2) hP'⟩
  · rintro ⟨fuel, P, hP⟩
    obtain ⟨q, st, h1, h2, h3⟩ := newFromText_ok hP
    rw [hpd'] at h1; cases h1
    have c2 := (b3.map _ _).1 h2
    have hmem : (⟨c% "start", .nonTerminal⟩ : ElementVerbose) ∈ elementsOf rs := by
      refine ((hn.mem_iff _).1 (List.mem_of_getElem? c2)).resolve_right fun hc => ?_
      have : c% "start" = g := congrArg ElementVerbose.name hc
      exact hn.notStart this.symm
    have c1 := getElem?_idxOf hmem
    obtain ⟨fuel', P', hP'⟩ := (key c1 c2).2 ⟨_, _, h3⟩
    exact ⟨fuel', P', newFromText_eq hpd ((a3.map _ _).2 c1) hP'⟩

/-- Between the two parsers there is one that behaves as the second, and whose data is that of the first with a name. -/
theorem named_bridge (hP : Parser.newFromText ho0 fuel0 cc vm0 text = .ok P) (hP' : Parser.newFromText ho0' fuel0' cc vm0 text' = .ok P') :
    ∃ (pd pd0 : ParserData I) (st x f : Nat) (body : List Nat) (Q : Parser I), Named pd pd0 x body ∧ WellFormed pd ∧ WellFormed pd0 ∧
      Parser.newFromParserData ho0 fuel0 pd st = .ok P ∧ Parser.newFromParserData ho0' f pd0 st = .ok Q ∧ StartSymbol pd st ∧
      StartSymbol pd0 st ∧ ((∀ r ∈ rs, ∃ s, Spells rs [⟨r.name, .nonTerminal⟩] s) → Productive pd) ∧
      (∀ {S : Type} (vm : VM I S), NameBlind vm g rs' → MentionsBlind vm pd0 x) ∧
      ∀ {S : Type} (ho1 ho2 : HashOrder) (fuel : Nat) (vm : VM I S) (script : Str) (u : S),
        (Parser.parse ho1 fuel vm P' script u).2 = (Parser.parse ho2 fuel vm Q script u).2 ∧
        SameRes (Parser.parse ho1 fuel vm P' script u).1 (Parser.parse ho2 fuel vm Q script u).1 := by
  obtain ⟨pd, st, a1, a2, a3, -, a5, a6⟩ := newFromText_means hcc h hP
  obtain ⟨pd', st', b1, b2, b3, -, b5, b6⟩ := newFromText_means hcc h' hP'
  have e : nameLast g rs rs' st' = st := by
    have := reindex_lookup (hn.perm a3 b3) st'
    rw [b5] at this
    refine nodup_inj (hn.nodup0 a3) this ?_
    rw [List.getElem?_append_left (List.getElem?_eq_some_iff.1 a5).1]; exact a5
  have hr := hn.renumbered0 a3 b3
  have hw0 := hn.wf0 a3 b3 b2
  obtain ⟨f, Q, hQ⟩ := (C63_built_iff b2 hw0 hr ho0' ho0').1 ⟨_, _, b6⟩
  rw [e] at hQ
  refine ⟨pd, namedLast g rs rs' pd pd', st, _, f, _, Q, hn.named a1 a3 a2 b1 b3, a2, hw0, a6, hQ, a3.start a5, hn.start0 a3 a5, ?_,
    fun vm hb => hn.blind0 a3 b1 b3 hb, ?_⟩
  · intro hp A r hr
    rw [a1.get_final] at hr
    split at hr
    · next n hA =>
      obtain ⟨q, ha, -⟩ := Option.map_eq_some_iff.1 hr
      unfold ruleMeaning at ha
      split at ha
      · cases ha
      · next d ds hf =>
        have hd : d ∈ rs.filter fun r : WrittenRule I => decide (r.name = n) := by rw [hf]; simp
        obtain ⟨hd1, hd2⟩ := List.mem_filter.1 hd
        have hd2 := of_decide_eq_true hd2
        obtain ⟨s, hs⟩ := hp d hd1
        rw [hd2] at hs
        exact ⟨s, (C19_tree_iff_language a2 (a3.nt hA) s).1 ((spells_iff_forest a1 a3 hA s).2 hs)⟩
    · cases hr
  · intro S ho1 ho2 fuel vm script u
    exact C63_parse_same b2 hw0 hr (b3.start b5) (by rw [e]; exact hn.start0 a3 a5) b6 (by rw [e]; exact hQ) fuel vm script u

section
variable (hP : Parser.newFromText ho0 fuel0 cc vm0 text = .ok P) (hP' : Parser.newFromText ho0' fuel0' cc vm0 text' = .ok P')
include hP hP'

/-- **C122**, rule texts, parsing: what is accepted without the name is accepted with it (if the call depth suffices), with the same
text unread and the same final state; without the nodes for the name the tree is the same. -/
theorem C122_accepts {vm : VM I S} (htp : TreePreserving vm) (hb : SeesOnlyChildTexts vm) (hm : NameBlind vm g rs')
    {script : Str} {u : S} {t : Tree Str} {c : Ctx S} (hr : Parser.parse ho fuel vm P script u = (.ok t, c)) :
    ∃ N, ∀ fuel', N ≤ fuel' → ∀ ho', ∃ t' c', Parser.parse ho' fuel' vm P' script u = (.ok t', c') ∧
      c'.proc.rest = c.proc.rest ∧ c'.state = c.state ∧ ∃ r r', Shows t ⟨0, 0⟩ r ∧ Shows t' ⟨0, 0⟩ r' ∧ Flatter r r' := by
  obtain ⟨pd, pd0, st, x, f, body, Q, k1, k2, k3, k4, k5, k6, k7, -, k9, k10⟩ := named_bridge hcc h h' hn hP hP'
  obtain ⟨N, hN⟩ := C122_data_accepts k1 k2 k3 k4 k5 k6 k7 htp hb (k9 vm hm) hr
  refine ⟨N, fun fuel' hle ho' => ?_⟩
  obtain ⟨t', c', q1, q2, q3, q4⟩ := hN fuel' hle ho'
  obtain ⟨y, z⟩ := k10 ho' ho' fuel' vm script u
  rw [q1] at y z
  exact ⟨t', c', Prod.ext (sameRes_ok_right z) y, q2, q3, q4⟩

/-- **C122**, rule texts, parsing, conversely: what is accepted with the name is accepted without it, with the same call depth. -/
theorem C122_accepts_only {vm : VM I S} (htp : TreePreserving vm) (hb : SeesOnlyChildTexts vm) (hm : NameBlind vm g rs')
    {script : Str} {u : S} {t' : Tree Str} {c' : Ctx S} (hr : Parser.parse ho' fuel vm P' script u = (.ok t', c')) :
    ∃ t c, Parser.parse ho fuel vm P script u = (.ok t, c) ∧
      c.proc.rest = c'.proc.rest ∧ c.state = c'.state ∧ ∃ r r', Shows t ⟨0, 0⟩ r ∧ Shows t' ⟨0, 0⟩ r' ∧ Flatter r r' := by
  obtain ⟨pd, pd0, st, x, f, body, Q, k1, k2, k3, k4, k5, k6, k7, -, k9, k10⟩ := named_bridge hcc h h' hn hP hP'
  obtain ⟨y, z⟩ := k10 ho' ho' fuel vm script u
  rw [hr] at y z
  exact C122_data_accepts_only k1 k2 k3 k4 k5 k6 k7 htp hb (k9 vm hm) (ho' := ho') (Prod.ext (sameRes_ok_left z) y.symm)

/-- **C122**, rule texts, errors: if every defined name stands for some text, and both parsers report a syntax error for a script
(whatever the virtual machines do), it is at the same position. -/
theorem C122_same_position (hp : ∀ r ∈ rs, ∃ s, Spells rs [⟨r.name, .nonTerminal⟩] s) {S1 S2 : Type} (vm : VM I S1) (vm' : VM I S2)
    {script : Str} {s : S1} {s' : S2} {e e' : PErr} {pos pos' : Nat} (hr : (Parser.parse ho fuel vm P script s).1 = .err e)
    (hat : ErrorAt e pos) {fuel' : Nat} (hr' : (Parser.parse ho' fuel' vm' P' script s').1 = .err e') (hat' : ErrorAt e' pos') :
    pos = pos' := by
  obtain ⟨pd, pd0, st, x, f, body, Q, k1, k2, k3, k4, k5, k6, k7, k8, -, k10⟩ := named_bridge hcc h h' hn hP hP'
  obtain ⟨-, z⟩ := k10 ho' ho' fuel' vm' script s'
  rw [hr'] at z
  cases hq : (Parser.parse ho' fuel' vm' Q script s').1 with
  | err e2 =>
    rw [hq] at z
    have hat2 : ErrorAt e2 pos' := by
      rcases hat' with ⟨c, exp, rfl⟩ | rfl
      · cases e2 with
        | unexpectedChar c' p' y =>
          have hz : pos' = p' := z.2.1
          exact .inl ⟨c', y, by rw [hz]⟩
        | _ => cases z
      · cases e2 <;> cases z
        exact .inr rfl
    exact C122_data_same_position k1 k2 k3 k4 k5 k6 k7 (k8 hp) vm vm' hr hat hq hat2
  | ok | panic | timeout => rw [hq] at z; exact z.elim

/-- **C122**, rule texts, outcomes: with a virtual machine that does not panic, both parsers end in the same way on every script once the
call depth suffices: both accept, with the same text unread and the same final state, or both report a syntax error. -/
theorem C122_same_outcome {vm : VM I S} (htp : TreePreserving vm) (htot : Total vm) (hb : SeesOnlyChildTexts vm) (hm : NameBlind vm g rs')
    (script : Str) (u : S) :
    ∃ N, ∀ fuel fuel', N ≤ fuel → N ≤ fuel' → ∀ ho ho',
      (∃ t c t' c', Parser.parse ho fuel vm P script u = (.ok t, c) ∧ Parser.parse ho' fuel' vm P' script u = (.ok t', c') ∧
        c'.proc.rest = c.proc.rest ∧ c'.state = c.state ∧ ∃ r r', Shows t ⟨0, 0⟩ r ∧ Shows t' ⟨0, 0⟩ r' ∧ Flatter r r') ∨
      (∃ e e' pos pos', (Parser.parse ho fuel vm P script u).1 = .err e ∧ (Parser.parse ho' fuel' vm P' script u).1 = .err e' ∧
        ErrorAt e pos ∧ ErrorAt e' pos') := by
  have outcome : ∀ {r0 : List (WrittenRule I)} {tx : Str} {Q : Parser I} {h0 : HashOrder} {f0 : Nat},
      RulesText cc (ReadsSection vm0) r0 tx → Parser.newFromText h0 f0 cc vm0 tx = .ok Q →
      ∃ N, ∀ fuel, N ≤ fuel → ∀ ho, (Parser.parse ho fuel vm Q script u).1 ≠ .timeout ∧
        (Parser.parse ho fuel vm Q script u).1 ≠ .panic ∧
        ∀ e, (Parser.parse ho fuel vm Q script u).1 = .err e → ∃ pos, ErrorAt e pos := by
    intro r0 tx Q h0 f0 hr hQ
    obtain ⟨pd, st, a1, a2, a3, -, a5, a6⟩ := newFromText_means hcc hr hQ
    obtain ⟨N, hN⟩ := C24_parse_terminates (S := S) a2 a6 (a3.start a5) script.length
    refine ⟨N, fun fuel hle ho => ⟨hN fuel hle ho vm script u (Nat.le_refl _), ?_⟩⟩
    obtain ⟨b1, b2⟩ := C29_only_syntax_errors (ho := ho) (fuel := fuel) a2 a6 (a3.start a5) vm htp htot script u
    refine ⟨b1, fun e he => ?_⟩
    rcases b2 e he with ⟨chr, pos, exp, rfl⟩ | ⟨pos, rfl⟩
    · exact ⟨pos, .inl ⟨chr, exp, rfl⟩⟩
    · exact ⟨pos, .inr rfl⟩
  obtain ⟨N1, k1⟩ := outcome h hP
  obtain ⟨N2, k2⟩ := outcome h' hP'
  refine ⟨max N1 N2, fun fuel fuel' hf hf' ho ho' => ?_⟩
  obtain ⟨a1, a2, a3⟩ := k1 fuel (by omega) ho
  obtain ⟨b1, b2, b3⟩ := k2 fuel' (by omega) ho'
  rcases hx : Parser.parse ho fuel vm P script u with ⟨r, c⟩
  rcases hy : Parser.parse ho' fuel' vm P' script u with ⟨r', c'⟩
  rw [hx] at a1 a2 a3
  rw [hy] at b1 b2 b3
  cases r with
  | timeout => exact absurd rfl a1
  | panic => exact absurd rfl a2
  | ok t =>
    obtain ⟨M, hM⟩ := C122_accepts hcc h h' hn hP hP' htp hb hm hx
    obtain ⟨t', c'', q1, q2, q3, q4⟩ := hM (max M fuel') (by omega) ho'
    rw [C89_parse ho' vm P' script u (Nat.le_max_right M fuel') (by rw [hy]; exact b1), hy] at q1
    cases q1
    exact .inl ⟨t, c, t', _, rfl, rfl, q2, q3, q4⟩
  | err e =>
    cases r' with
    | timeout => exact absurd rfl b1
    | panic => exact absurd rfl b2
    | err e' =>
      obtain ⟨pos, p1⟩ := a3 e rfl
      obtain ⟨pos', p2⟩ := b3 e' rfl
      exact .inr ⟨e, e', pos, pos', rfl, rfl, p1, p2⟩
    | ok t' =>
      obtain ⟨t, c2, q1, -⟩ := C122_accepts_only hcc h h' hn hP hP' (ho := ho) htp hb hm hy
      have e1 := C89_parse ho vm P script u (Nat.le_max_left fuel fuel') (by rw [hx]; exact a1)
      have e2 := C89_parse ho vm P script u (Nat.le_max_right fuel fuel') (by rw [q1]; simp)
      rw [e1, hx, q1] at e2
      cases e2

end
end

/-- `Samples.openText` with the name `g` for `"x" b`. -/
def Samples.openNamedText : Str := c% "start -> \"a\" b \"y\"; b -> g | # { }; g -> \"x\" b;"

def Samples.openNamedRules : List (WrittenRule Nat) :=
  [⟨c% "start", none, [[⟨c% "a", .terminal⟩, ⟨c% "b", .nonTerminal⟩, ⟨c% "y", .terminal⟩]], []⟩,
   ⟨c% "b", none, [[⟨c% "g", .nonTerminal⟩], []], [0]⟩,
   ⟨c% "g", none, [[⟨c% "x", .terminal⟩, ⟨c% "b", .nonTerminal⟩]], []⟩]

theorem Samples.openNamedText_rules (checked : Bool) :
    RulesText .ascii (ReadsSection (countingVm checked)) Samples.openNamedRules Samples.openNamedText := by
  have sp : IsSpace [' '] := Samples.isSpace_one (by decide)
  have nb : IsName .ascii (c% "b") := Samples.isName_letter (by decide)
  have ng : IsName .ascii (c% "g") := Samples.isName_letter (by decide)
  have r1 := RuleText.mk (cc := .ascii) (Sec := ReadsSection (countingVm checked)) (isName_start .ascii) sp sp .absent isSpace_nil
    (.one (.seq (.cons (.terminal (b := c% "a") rfl) sp (by simp) (.cons (.name nb) sp (by simp) (.one (.terminal (b := c% "y") rfl))))))
    isSpace_nil (.absent (name := c% "start")) isSpace_nil
  have r2 := RuleText.mk (cc := .ascii) (Sec := ReadsSection (countingVm checked)) nb sp sp .absent isSpace_nil
    (.cons (.seq (.one (.name ng))) sp sp (.one .empty)) sp
    ((C54_section_or_not checked (c% "b") [0] (c% "{ }")).2 (.inr ⟨rfl, [' '], sp, rfl⟩)) isSpace_nil
  have r3 := RuleText.mk (cc := .ascii) (Sec := ReadsSection (countingVm checked)) ng sp sp .absent isSpace_nil
    (.one (.seq (.cons (.terminal (b := c% "x") rfl) sp (by simp) (.one (.name nb)))))
    isSpace_nil (.absent (name := c% "g")) isSpace_nil
  exact .cons isSpace_nil r1 (.cons sp r2 (.cons sp r3 (.nil isSpace_nil)))

theorem Samples.open_named : NamedText (c% "g") [⟨c% "x", .terminal⟩, ⟨c% "b", .nonTerminal⟩] Samples.openRules Samples.openNamedRules where
  rules := rfl
  definition := rfl
  noOverride := by decide
  notIgnored := by decide
  notStart := by decide
  notSelf := by decide
  used := ⟨_, .tail _ (.head _), by decide, _, .head _, .head _⟩
  leads := by
    refine ⟨_, _, rfl, fun hs => ?_⟩
    generalize hL : [(⟨c% "x", .terminal⟩ : ElementVerbose)] = L at hs
    generalize hs0 : ([] : Str) = s0 at hs
    cases hs with
    | nil => cases hL
    | terminal _ => cases hL; cases hs0
    | name _ _ _ => cases hL

/-- Both texts give a parser. -/
example : ∃ fuel P, Parser.newFromText .insertion fuel .ascii (countingVm true) Samples.openNamedText = .ok P := by
  refine (C122_built_iff Samples.ruleText_reads.1 (Samples.openText_rules true) (Samples.openNamedText_rules true)
    Samples.open_named .insertion .insertion).1 ?_
  obtain ⟨P, -, -, h, -⟩ := Samples.runCount_eq (x := Parser.newFromText .insertion 99 .ascii (countingVm true) Samples.openText)
    (s := c% "axxy") (r := []) (k := 8) (by decide +kernel)
  exact ⟨_, P, h⟩

/-- `axxya` is accepted by both, with the same count and the last character unread. -/
example {P' : Parser Nat} (hP' : Parser.newFromText ho0' fuel0' .ascii (countingVm true) Samples.openNamedText = .ok P') :
    ∃ N, ∀ fuel', N ≤ fuel' → ∀ ho', ∃ t' c', Parser.parse ho' fuel' (countingVm true) P' (c% "axxya") 5 = (.ok t', c') ∧
      c'.proc.rest = c% "a" ∧ c'.state = 8 := by
  obtain ⟨P, t, c, h1, h2, h3, h4⟩ := Samples.runCount_eq (x := Parser.newFromText .insertion 99 .ascii (countingVm true) Samples.openText)
    (s := c% "axxya") (r := ['a']) (k := 8) (by decide +kernel)
  obtain ⟨N, k⟩ := C122_accepts Samples.ruleText_reads.1 (Samples.openText_rules true) (Samples.openNamedText_rules true)
    Samples.open_named h1 hP' (countingVm_treePreserving true) (C122_library_machines (cc := .ascii) true).2.1
    (fun _ _ _ _ _ _ _ _ i _ => (C122_blind_instructions (cc := .ascii) true).2.1 i) h2
  refine ⟨N, fun fuel' hle ho' => ?_⟩
  obtain ⟨t', c', k1, k2, k3, -⟩ := k fuel' hle ho'
  exact ⟨t', c', k1, k2.trans h3, k3.trans h4⟩

/-- Conversely. -/
example {P P' : Parser Nat} (hP : Parser.newFromText ho0 fuel0 .ascii (countingVm true) Samples.openText = .ok P)
    (hP' : Parser.newFromText ho0' fuel0' .ascii (countingVm true) Samples.openNamedText = .ok P') {script : Str} {t' : Tree Str}
    {c' : Ctx Nat} (hr : Parser.parse ho' fuel (countingVm true) P' script 5 = (.ok t', c')) :
    ∃ t c, Parser.parse ho fuel (countingVm true) P script 5 = (.ok t, c) ∧ c.proc.rest = c'.proc.rest ∧ c.state = c'.state := by
  obtain ⟨t, c, k1, k2, k3, -⟩ := C122_accepts_only (ho := ho) Samples.ruleText_reads.1 (Samples.openText_rules true)
    (Samples.openNamedText_rules true) Samples.open_named hP hP' (countingVm_treePreserving true)
    (C122_library_machines (cc := .ascii) true).2.1
    (fun _ _ _ _ _ _ _ _ i _ => (C122_blind_instructions (cc := .ascii) true).2.1 i) hr
  exact ⟨t, c, k1, k2, k3⟩

/-- The same texts, among them `axxy`. -/
example : Spells Samples.openNamedRules [⟨c% "start", .nonTerminal⟩] (c% "axxy") := by
  refine (C122_same_texts Samples.ruleText_reads.1 (Samples.openText_rules true) (Samples.openNamedText_rules true)
    Samples.open_named (fun n j m ho _ => by
      obtain ⟨r, hr, -, hj⟩ := override_def ho
      simp only [Samples.openRules, List.mem_cons, List.not_mem_nil, or_false] at hr
      rcases hr with rfl | rfl <;> cases hj) (n := c% "start") (by decide) _).2 ?_
  have ha : FinalAlt Samples.openRules (c% "b") [⟨c% "x", .terminal⟩, ⟨c% "b", .nonTerminal⟩] := .plain rfl (by decide)
  have h0 : Spells Samples.openRules [⟨c% "b", .nonTerminal⟩] [] :=
    Spells.name (s := []) (s' := []) (n := c% "b") (a := []) (.plain rfl (by decide)) .nil .nil
  have h1 : Spells Samples.openRules [⟨c% "b", .nonTerminal⟩] (c% "x") :=
    Spells.name (s := c% "x") (s' := []) ha (.terminal (b := c% "x") h0) .nil
  have hy : Spells Samples.openRules [⟨c% "b", .nonTerminal⟩, ⟨c% "y", .terminal⟩] (c% "xxy") :=
    Spells.name (s := c% "xx") (s' := c% "y") ha (.terminal (b := c% "x") h1) (.terminal (b := c% "y") (s := []) .nil)
  have := Spells.name (rs := Samples.openRules) (n := c% "start") (s' := [])
    (a := [⟨c% "a", .terminal⟩, ⟨c% "b", .nonTerminal⟩, ⟨c% "y", .terminal⟩]) (.plain rfl (by decide)) (.terminal (b := c% "a") hy) .nil
  simpa using this

/-- The two parsers report syntax errors at the same positions. -/
example {P P' : Parser Nat} (hP : Parser.newFromText ho0 fuel0 .ascii (countingVm true) Samples.openText = .ok P)
    (hP' : Parser.newFromText ho0' fuel0' .ascii (countingVm true) Samples.openNamedText = .ok P') {script : Str} {e e' : PErr}
    {pos pos' : Nat} (hr : (Parser.parse ho fuel (countingVm true) P script 5).1 = .err e) (hat : ErrorAt e pos)
    (hr' : (Parser.parse ho' fuel (countingVm true) P' script 5).1 = .err e') (hat' : ErrorAt e' pos') : pos = pos' := by
  have h0 : Spells Samples.openRules [⟨c% "b", .nonTerminal⟩] [] :=
    Spells.name (s := []) (s' := []) (n := c% "b") (a := []) (.plain rfl (by decide)) .nil .nil
  refine C122_same_position Samples.ruleText_reads.1 (Samples.openText_rules true) (Samples.openNamedText_rules true)
    Samples.open_named hP hP' ?_ (countingVm true) (countingVm true) hr hat hr' hat'
  intro r hr
  simp only [Samples.openRules, List.mem_cons, List.not_mem_nil, or_false] at hr
  rcases hr with rfl | rfl
  · refine ⟨c% "ay", Spells.name (s := c% "ay") (s' := []) (n := c% "start")
      (a := [⟨c% "a", .terminal⟩, ⟨c% "b", .nonTerminal⟩, ⟨c% "y", .terminal⟩]) (.plain rfl (by decide))
      (.terminal (b := c% "a") (s := c% "y") ?_) .nil⟩
    exact Spells.name (s := []) (s' := c% "y") (n := c% "b") (a := []) (.plain rfl (by decide)) .nil
      (.terminal (b := c% "y") (s := []) .nil)
  · exact ⟨[], h0⟩

/-- The two parsers end in the same way on every script. -/
example {P P' : Parser Nat} (hP : Parser.newFromText ho0 fuel0 .ascii (countingVm false) Samples.openText = .ok P)
    (hP' : Parser.newFromText ho0' fuel0' .ascii (countingVm false) Samples.openNamedText = .ok P') (script : Str) (u : Nat) :
    ∃ N, ∀ fuel fuel', N ≤ fuel → N ≤ fuel' → ∀ ho ho',
      ((∃ t c, Parser.parse ho fuel (countingVm false) P script u = (.ok t, c)) ↔
        ∃ t c, Parser.parse ho' fuel' (countingVm false) P' script u = (.ok t, c)) := by
  obtain ⟨N, hN⟩ := C122_same_outcome Samples.ruleText_reads.1 (Samples.openText_rules false) (Samples.openNamedText_rules false)
    Samples.open_named hP hP' (countingVm_treePreserving false) (countingVm_total) (C122_library_machines (cc := .ascii) false).2.1
    (fun _ _ _ _ _ _ _ _ i _ => (C122_blind_instructions (cc := .ascii) false).2.1 i) script u
  refine ⟨N, fun fuel fuel' h1 h2 ho ho' => ?_⟩
  rcases hN fuel fuel' h1 h2 ho ho' with ⟨t, c, t', c', q1, q2, -⟩ | ⟨e, e', -, -, q1, q2, -⟩
  · exact ⟨fun _ => ⟨_, _, q2⟩, fun _ => ⟨_, _, q1⟩⟩
  · refine ⟨fun ⟨t, c, hc⟩ => ?_, fun ⟨t, c, hc⟩ => ?_⟩
    · rw [hc] at q1; cases q1
    · rw [hc] at q2; cases q2

/-- The name can be used in rules without override while others have one: `start -> $[IGNORE: w] "a" b; b -> g | #; g -> "x" b; w -> " ";`. -/
example : NamedText (I := Nat) (c% "g") [⟨c% "x", .terminal⟩, ⟨c% "b", .nonTerminal⟩]
    [⟨c% "start", some (c% "w"), [[⟨c% "a", .terminal⟩, ⟨c% "b", .nonTerminal⟩]], []⟩,
     ⟨c% "b", none, [[⟨c% "x", .terminal⟩, ⟨c% "b", .nonTerminal⟩], []], []⟩,
     ⟨c% "w", none, [[⟨c% " ", .terminal⟩]], []⟩]
    [⟨c% "start", some (c% "w"), [[⟨c% "a", .terminal⟩, ⟨c% "b", .nonTerminal⟩]], []⟩,
     ⟨c% "b", none, [[⟨c% "g", .nonTerminal⟩], []], []⟩,
     ⟨c% "g", none, [[⟨c% "x", .terminal⟩, ⟨c% "b", .nonTerminal⟩]], []⟩,
     ⟨c% "w", none, [[⟨c% " ", .terminal⟩]], []⟩] where
  rules := rfl
  definition := rfl
  noOverride := by decide
  notIgnored := by decide
  notStart := by decide
  notSelf := by decide
  used := ⟨_, .tail _ (.head _), by decide, _, .head _, .head _⟩
  leads := by
    refine ⟨_, _, rfl, fun hs => ?_⟩
    generalize hL : [(⟨c% "x", .terminal⟩ : ElementVerbose)] = L at hs
    generalize hs0 : ([] : Str) = s0 at hs
    cases hs with
    | nil => cases hL
    | terminal _ => cases hL; cases hs0
    | name _ _ _ => cases hL

end HPP
