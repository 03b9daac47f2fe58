import Verif.Proofs.SameRules
import Verif.Props.Renaming
import Verif.Props.TextParser
/-
C72: the layout of a rule text, the order of its rules and of the alternatives of a rule and the choice of names have no
influence on whether a parser is built nor on what it does.
-/
namespace HPP
open Spec
variable {I S S' : Type} {cc : CharClass} {ρ : Str → Str} {rs rs' : List (WrittenRule I)} {text text' : Str}

/-- What a built parser says about the text it was built from. -/
theorem newFromText_means (hcc : SpaceOk cc) {vm : VM I S} (h : RulesText cc (ReadsSection vm) rs text) {ho : HashOrder}
    {fuel : Nat} {P : Parser I} (hP : Parser.newFromText ho fuel cc vm text = .ok P) :
    ∃ pd st, MeansWoven rs pd ∧ WellFormed pd ∧ InternOk pd (elementsOf rs) ∧ IgnoresDefined rs ∧
      (elementsOf rs)[st]? = some ⟨c% "start", .nonTerminal⟩ ∧ Parser.newFromParserData ho fuel pd st = .ok P := by
  obtain ⟨pd, st, h1, h2, h3⟩ := newFromText_ok hP
  obtain ⟨pd0, m, he⟩ := parseRules_complete hcc h ho
  rw [h1] at he
  obtain ⟨a, b, c⟩ := m.woven he.symm
  have hacc := (C16_parser_built_iff b ho st).1 ⟨fuel, P, h3⟩
  exact ⟨pd, st, a, b, c, m.ignoresDefined he.symm hacc.defined, (c.map _ _).1 h2, h3⟩

/-- A text whose ignore productions are defined is read. -/
theorem parseRules_means (hcc : SpaceOk cc) {vm : VM I S} (h : RulesText cc (ReadsSection vm) rs text)
    (hd : IgnoresDefined rs) (ho : HashOrder) :
    ∃ pd, parseRules ho cc vm text = .ok pd ∧ MeansWoven rs pd ∧ WellFormed pd ∧ InternOk pd (elementsOf rs) := by
  obtain ⟨pd0, m, he⟩ := parseRules_complete hcc h ho
  obtain ⟨pd, hpd⟩ := m.edit_ok hd ho
  exact ⟨pd, by rw [he, hpd], m.woven hpd⟩

theorem Spec.SameRules.start_at (hs : SameRules ρ rs rs') {st : Nat}
    (h : (elementsOf rs)[st]? = some ⟨c% "start", .nonTerminal⟩) :
    (elementsOf rs')[renumbering ρ rs rs' st]? = some ⟨c% "start", .nonTerminal⟩ := by
  rw [hs.at_renumbering h, renamed_nt, hs.start]

/-- **C72**, construction: of two rule texts that say the same, either both give a parser or none does, whatever the
hash orders. -/
theorem C72_built_iff (hcc : SpaceOk cc) (vm : VM I S) (h : RulesText cc (ReadsSection vm) rs text)
    (h' : RulesText cc (ReadsSection vm) rs' text') (hs : SameRules ρ rs rs') (ho1 ho2 : HashOrder) :
    (∃ fuel P, Parser.newFromText ho1 fuel cc vm text = .ok P) ↔
    (∃ fuel P, Parser.newFromText ho2 fuel cc vm text' = .ok P) := by
  constructor
  · rintro ⟨fuel, P, hP⟩
    obtain ⟨pd, st, a1, a2, a3, a4, a5, a6⟩ := newFromText_means hcc h hP
    obtain ⟨pd', hpd', b1, b2, b3⟩ := parseRules_means hcc h' (hs.ignoresDefined a4) ho2
    obtain ⟨fuel', P', hP'⟩ := (C63_built_iff a2 b2 (hs.renumbered a1 b1 a3 b3) ho1 ho2).1 ⟨fuel, P, a6⟩
    exact ⟨fuel', P', newFromText_eq hpd' ((b3.map _ _).2 (hs.start_at a5)) hP'⟩
  · rintro ⟨fuel, P, hP⟩
    obtain ⟨pd', st', a1, a2, a3, a4, a5, a6⟩ := newFromText_means hcc h' hP
    obtain ⟨pd, hpd, b1, b2, b3⟩ := parseRules_means hcc h (hs.ignoresDefined_iff.1 a4) ho1
    have hmem : (⟨c% "start", .nonTerminal⟩ : ElementVerbose) ∈ elementsOf rs := by
      rw [← hs.mem_iff, renamed_nt, hs.start]
      exact List.mem_of_getElem? a5
    have hst := getElem?_idxOf hmem
    have heq := a3.inj a5 (hs.start_at hst)
    rw [heq] at a6
    obtain ⟨fuel', P', hP'⟩ := (C63_built_iff b2 a2 (hs.renumbered b1 a1 b3 a3) ho1 ho2).2 ⟨fuel, P, a6⟩
    exact ⟨fuel', P', newFromText_eq hpd ((b3.map _ _).2 hst) hP'⟩

/-- **C72**, behaviour: the parsers built from two such texts give, on every script, VM, VM state and call depth, the same
outcome (the same tree; the same error, up to the order of the expected characters; the same panic), leave the same text
unread and the VM in the same state. -/
theorem C72_parse_same (hcc : SpaceOk cc) {vm : VM I S} (h : RulesText cc (ReadsSection vm) rs text)
    (h' : RulesText cc (ReadsSection vm) rs' text') (hs : SameRules ρ rs rs') {ho1 ho2 : HashOrder} {fuel1 fuel2 : Nat}
    {P1 P2 : Parser I} (h1 : Parser.newFromText ho1 fuel1 cc vm text = .ok P1)
    (h2 : Parser.newFromText ho2 fuel2 cc vm text' = .ok P2)
    (ho3 ho4 : HashOrder) (fuel : Nat) (vm' : VM I S') (script : Str) (s : S') :
    (Parser.parse ho3 fuel vm' P1 script s).2 = (Parser.parse ho4 fuel vm' P2 script s).2 ∧
    SameRes (Parser.parse ho3 fuel vm' P1 script s).1 (Parser.parse ho4 fuel vm' P2 script s).1 := by
  obtain ⟨pd, st, a1, a2, a3, a4, a5, a6⟩ := newFromText_means hcc h h1
  obtain ⟨pd', st', b1, b2, b3, b4, b5, b6⟩ := newFromText_means hcc h' h2
  have heq := b3.inj b5 (hs.start_at a5)
  rw [heq] at b5 b6
  exact C63_parse_same a2 b2 (hs.renumbered a1 b1 a3 b3) (a3.start a5) (b3.start b5) a6 b6 fuel vm' script s

/-! ### special cases -/

theorem renamed_id (e : ElementVerbose) : renamed id e = e := by
  obtain ⟨n, t⟩ := e
  cases t <;> rfl

theorem Spec.SameRule.refl (r : WrittenRule I) : SameRule id r r where
  name := rfl
  ignore := by simp
  instr := rfl
  alts := by
    have : (List.map (renamed id)) = (id : List ElementVerbose → _) := by
      funext l
      have : renamed id = (id : ElementVerbose → _) := funext renamed_id
      rw [this]; simp
    rw [this]; simp

theorem forall₂_self {α : Type} {R : α → α → Prop} (h : ∀ a, R a a) : ∀ l : List α, List.Forall₂ R l l
  | [] => .nil
  | a :: l => .cons (h a) (forall₂_self h l)

/-- The same rules in an order that keeps the order among the definitions of the same name. -/
theorem Spec.SameRules.of_filters (h : ∀ n, rs'.filter (fun r => decide (r.name = n)) = rs.filter (fun r => decide (r.name = n))) :
    SameRules id rs rs' where
  injective := fun _ _ h => h
  start := rfl
  definitions := by
    intro n
    rw [id_eq, h]
    exact forall₂_self .refl _
  noMore := fun r' _ => ⟨r'.name, rfl⟩

/-- **C72**, layout: two texts of the same rules, however they are laid out, are equivalent. -/
theorem C72_layout (hcc : SpaceOk cc) {vm : VM I S} (h : RulesText cc (ReadsSection vm) rs text)
    (h' : RulesText cc (ReadsSection vm) rs text') (ho1 ho2 : HashOrder) :
    ((∃ fuel P, Parser.newFromText ho1 fuel cc vm text = .ok P) ↔ (∃ fuel P, Parser.newFromText ho2 fuel cc vm text' = .ok P)) ∧
    ∀ fuel1 fuel2 P1 P2, Parser.newFromText ho1 fuel1 cc vm text = .ok P1 →
      Parser.newFromText ho2 fuel2 cc vm text' = .ok P2 → ∀ (ho3 ho4 : HashOrder) (fuel : Nat) (vm' : VM I S) (script : Str) (s : S),
      (Parser.parse ho3 fuel vm' P1 script s).2 = (Parser.parse ho4 fuel vm' P2 script s).2 ∧
      SameRes (Parser.parse ho3 fuel vm' P1 script s).1 (Parser.parse ho4 fuel vm' P2 script s).1 := by
  have hs : SameRules id rs rs := .of_filters fun _ => rfl
  exact ⟨C72_built_iff hcc vm h h' hs ho1 ho2, fun _ _ _ _ h1 h2 => C72_parse_same hcc h h' hs h1 h2⟩

theorem filter_name_of_nodup {l : List (WrittenRule I)} (hn : (l.map (·.name)).Nodup) {n : Str} :
    (l.filter fun r => decide (r.name = n)) = [] ∨ ∃ r, (l.filter fun r => decide (r.name = n)) = [r] := by
  induction l with
  | nil => exact .inl rfl
  | cons a l ih =>
    rw [List.map_cons, List.nodup_cons] at hn
    rw [List.filter_cons]
    by_cases ha : a.name = n
    · have : l.filter (fun r => decide (r.name = n)) = [] := by
        rw [List.filter_eq_nil_iff]
        intro r hr hc
        apply hn.1
        rw [ha, ← of_decide_eq_true hc]
        exact List.mem_map.2 ⟨r, hr, rfl⟩
      right
      exact ⟨a, by rw [if_pos (by simpa using ha), this]⟩
    · rw [if_neg (by simpa using ha)]
      exact ih hn.2

/-- **C72**, order: when no name is defined twice, the rules can be listed in any order. -/
theorem C72_order (hcc : SpaceOk cc) {vm : VM I S} (h : RulesText cc (ReadsSection vm) rs text)
    (h' : RulesText cc (ReadsSection vm) rs' text') (hp : rs'.Perm rs) (hn : (rs.map (·.name)).Nodup) (ho1 ho2 : HashOrder) :
    ((∃ fuel P, Parser.newFromText ho1 fuel cc vm text = .ok P) ↔ (∃ fuel P, Parser.newFromText ho2 fuel cc vm text' = .ok P)) ∧
    ∀ fuel1 fuel2 P1 P2, Parser.newFromText ho1 fuel1 cc vm text = .ok P1 →
      Parser.newFromText ho2 fuel2 cc vm text' = .ok P2 → ∀ (ho3 ho4 : HashOrder) (fuel : Nat) (vm' : VM I S) (script : Str) (s : S),
      (Parser.parse ho3 fuel vm' P1 script s).2 = (Parser.parse ho4 fuel vm' P2 script s).2 ∧
      SameRes (Parser.parse ho3 fuel vm' P1 script s).1 (Parser.parse ho4 fuel vm' P2 script s).1 := by
  have hs : SameRules id rs rs' := .of_filters fun n => by
    have h1 := hp.filter (fun r => decide (r.name = n))
    rcases filter_name_of_nodup hn (n := n) with h2 | ⟨r, h2⟩
    · rw [h2] at h1 ⊢; exact h1.eq_nil
    · rw [h2] at h1 ⊢; exact List.perm_singleton.1 h1
  exact ⟨C72_built_iff hcc vm h h' hs ho1 ho2, fun _ _ _ _ h1 h2 => C72_parse_same hcc h h' hs h1 h2⟩

/-! ### a concrete case -/

/-- A rule text. -/
def Samples.textA : Str := c% "start -> a b; a -> \"x\" | \"y\"; b -> \"z\";"
/-- The same with other names, layout and order. -/
def Samples.textB : Str := c% "b->\"z\" ; start\n->  p b;p -> \"y\"|\"x\";\n"

def Samples.rulesA : List (WrittenRule Nat) :=
  [⟨c% "start", none, [[⟨c% "a", .nonTerminal⟩, ⟨c% "b", .nonTerminal⟩]], []⟩,
   ⟨c% "a", none, [[⟨c% "x", .terminal⟩], [⟨c% "y", .terminal⟩]], []⟩,
   ⟨c% "b", none, [[⟨c% "z", .terminal⟩]], []⟩]

def Samples.rulesB : List (WrittenRule Nat) :=
  [⟨c% "b", none, [[⟨c% "z", .terminal⟩]], []⟩,
   ⟨c% "start", none, [[⟨c% "p", .nonTerminal⟩, ⟨c% "b", .nonTerminal⟩]], []⟩,
   ⟨c% "p", none, [[⟨c% "y", .terminal⟩], [⟨c% "x", .terminal⟩]], []⟩]

/-- `a` becomes `p` and `p` becomes `a`. -/
def Samples.swapNames (n : Str) : Str := if n = c% "a" then c% "p" else if n = c% "p" then c% "a" else n

theorem Samples.isName_letter {c : Char} (hc : CharClass.ascii.isAlphabetic c = true) : IsName .ascii [c] :=
  ⟨c, [], rfl, hc, by simp⟩

theorem Samples.isSpace_one {c : Char} (hc : CharClass.isWhitespace c = true) : IsSpace [c] := by
  intro d hd; simp at hd; subst hd; exact hc

theorem Samples.textA_rules : RulesText .ascii (ReadsSection nullVm) Samples.rulesA Samples.textA := by
  have sp : IsSpace [' '] := Samples.isSpace_one (by decide)
  have na : IsName .ascii (c% "a") := Samples.isName_letter (by decide)
  have nb : IsName .ascii (c% "b") := Samples.isName_letter (by decide)
  have r1 := RuleText.mk (cc := .ascii) (Sec := ReadsSection nullVm) (isName_start .ascii) sp sp .absent isSpace_nil
    (.one (.seq (.cons (.name na) sp (by simp) (.one (.name nb))))) isSpace_nil (.absent (name := c% "start")) isSpace_nil
  have r2 := RuleText.mk (cc := .ascii) (Sec := ReadsSection nullVm) na sp sp .absent isSpace_nil
    (.cons (.seq (.one (.terminal (b := c% "x") rfl))) sp sp (.one (.seq (.one (.terminal (b := c% "y") rfl))))) isSpace_nil
    (.absent (name := c% "a")) isSpace_nil
  have r3 := RuleText.mk (cc := .ascii) (Sec := ReadsSection nullVm) nb sp sp .absent isSpace_nil
    (.one (.seq (.one (.terminal (b := c% "z") rfl)))) isSpace_nil (.absent (name := c% "b")) isSpace_nil
  exact .cons isSpace_nil r1 (.cons sp r2 (.cons sp r3 (.nil isSpace_nil)))

theorem Samples.textB_rules : RulesText .ascii (ReadsSection nullVm) Samples.rulesB Samples.textB := by
  have sp : IsSpace [' '] := Samples.isSpace_one (by decide)
  have nl : IsSpace ['\n'] := Samples.isSpace_one (by decide)
  have sp2 : IsSpace [' ', ' '] := by intro c hc; simp at hc; subst hc; decide
  have np : IsName .ascii (c% "p") := Samples.isName_letter (by decide)
  have nb : IsName .ascii (c% "b") := Samples.isName_letter (by decide)
  have r1 := RuleText.mk (cc := .ascii) (Sec := ReadsSection nullVm) (isName_start .ascii) nl sp2 .absent isSpace_nil
    (.one (.seq (.cons (.name np) sp (by simp) (.one (.name nb))))) isSpace_nil (.absent (name := c% "start")) isSpace_nil
  have r2 := RuleText.mk (cc := .ascii) (Sec := ReadsSection nullVm) np sp sp .absent isSpace_nil
    (.cons (.seq (.one (.terminal (b := c% "y") rfl))) isSpace_nil isSpace_nil
      (.one (.seq (.one (.terminal (b := c% "x") rfl))))) isSpace_nil (.absent (name := c% "p")) isSpace_nil
  have r3 := RuleText.mk (cc := .ascii) (Sec := ReadsSection nullVm) nb isSpace_nil isSpace_nil .absent isSpace_nil
    (.one (.seq (.one (.terminal (b := c% "z") rfl)))) isSpace_nil (.absent (name := c% "b")) sp
  exact .cons isSpace_nil r3 (.cons sp r1 (.cons isSpace_nil r2 (.nil nl)))

theorem Samples.swapNames_swapNames (n : Str) : Samples.swapNames (Samples.swapNames n) = n := by
  unfold Samples.swapNames
  by_cases h1 : n = c% "a"
  · subst h1; rfl
  · by_cases h2 : n = c% "p"
    · subst h2; rfl
    · simp only [if_neg h1, if_neg h2]

theorem Samples.sameRules : SameRules Samples.swapNames Samples.rulesA Samples.rulesB where
  injective := by
    intro m n h
    rw [← Samples.swapNames_swapNames m, h, Samples.swapNames_swapNames]
  start := rfl
  definitions := by
    intro n
    by_cases h1 : n = c% "start"
    · subst h1; exact .cons ⟨rfl, rfl, rfl, List.Perm.refl _⟩ .nil
    · by_cases h2 : n = c% "a"
      · subst h2; exact .cons ⟨rfl, rfl, rfl, List.Perm.swap _ _ _⟩ .nil
      · by_cases h3 : n = c% "b"
        · subst h3; exact .cons ⟨rfl, rfl, rfl, List.Perm.refl _⟩ .nil
        · have e1 : Samples.rulesA.filter (fun r => decide (r.name = n)) = [] := by
            rw [List.filter_eq_nil_iff]
            intro r hr hc
            have hc := of_decide_eq_true hc
            simp only [Samples.rulesA, List.mem_cons, List.not_mem_nil, or_false] at hr
            rcases hr with rfl | rfl | rfl
            · exact h1 hc.symm
            · exact h2 hc.symm
            · exact h3 hc.symm
          have e2 : Samples.rulesB.filter (fun r => decide (r.name = Samples.swapNames n)) = [] := by
            rw [List.filter_eq_nil_iff]
            intro r hr hc
            have hc := of_decide_eq_true hc
            simp only [Samples.rulesB, List.mem_cons, List.not_mem_nil, or_false] at hr
            have hc' := congrArg Samples.swapNames hc
            rw [Samples.swapNames_swapNames] at hc'
            rcases hr with rfl | rfl | rfl
            · exact h3 hc'.symm
            · exact h1 hc'.symm
            · exact h2 hc'.symm
          rw [e1, e2]; exact .nil
  noMore := by
    intro r hr
    exact ⟨Samples.swapNames r.name, (Samples.swapNames_swapNames _).symm⟩

/-- The hypotheses of C72 are met by the two texts, and both give a parser, which reads `xz`. -/
example : SpaceOk .ascii ∧ RulesText .ascii (ReadsSection nullVm) Samples.rulesA Samples.textA ∧
    RulesText .ascii (ReadsSection nullVm) Samples.rulesB Samples.textB ∧
    SameRules Samples.swapNames Samples.rulesA Samples.rulesB ∧
    Samples.runText (Parser.newFromText .insertion 99 .ascii nullVm Samples.textA) (c% "xzq") = some (c% "q") ∧
    Samples.runText (Parser.newFromText .insertion 99 .ascii nullVm Samples.textB) (c% "xzq") = some (c% "q") :=
  ⟨ascii_spaceOk, Samples.textA_rules, Samples.textB_rules, Samples.sameRules, by decide +kernel, by decide +kernel⟩

end HPP
