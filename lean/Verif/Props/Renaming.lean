import Verif.Proofs.Renaming
import Verif.Props.Steuer
import Verif.Props.Parse
/-
C63: how elements are numbered and non-terminals are called, and the order in which rules and alternatives are listed,
have no influence on whether a parser is built nor on what it does.
-/
namespace HPP
open Spec
variable {I S : Type} {φ : Nat → Nat} {pd pd' : ParserData I} {start : Nat}

/-- **C63**, construction: two grammars that differ only in numbering, names of non-terminals and the order of rules and
alternatives are either both accepted or both refused, whatever the hash orders. -/
theorem C63_built_iff (hw : WellFormed pd) (hw' : WellFormed pd') (h : Renumbered φ pd pd') (ho1 ho2 : HashOrder) :
    (∃ fuel P, Parser.newFromParserData ho1 fuel pd start = .ok P) ↔
    (∃ fuel P, Parser.newFromParserData ho2 fuel pd' (φ start) = .ok P) := by
  rw [C16_parser_built_iff hw ho1, C16_parser_built_iff hw' ho2]
  exact Ren.acceptable_iff h hw hw'

/-- **C63**, behaviour: the parsers built from two such grammars give, on every script, VM, VM state and call depth, the
same outcome (the same tree; the same error, up to the order of the expected characters; the same panic), leave the same
text unread and the VM in the same state. -/
theorem C63_parse_same (hw : WellFormed pd) (hw' : WellFormed pd') (h : Renumbered φ pd pd')
    (hs : StartSymbol pd start) (hs' : StartSymbol pd' (φ start))
    {ho1 ho2 ho3 ho4 : HashOrder} {fuel1 fuel2 : Nat} {P1 P2 : Parser I}
    (h1 : Parser.newFromParserData ho1 fuel1 pd start = .ok P1)
    (h2 : Parser.newFromParserData ho2 fuel2 pd' (φ start) = .ok P2)
    (fuel : Nat) (vm : VM I S) (text : Str) (s : S) :
    (Parser.parse ho3 fuel vm P1 text s).2 = (Parser.parse ho4 fuel vm P2 text s).2 ∧
    SameRes (Parser.parse ho3 fuel vm P1 text s).1 (Parser.parse ho4 fuel vm P2 text s).1 := by
  obtain ⟨ha, p1⟩ := newFromParserData_ok hw h1
  obtain ⟨-, p2⟩ := newFromParserData_ok hw' h2
  obtain ⟨r, hr⟩ := ha.startDefined
  have a := p1.rules start
  rw [hr] at a
  obtain ⟨R, hR, -⟩ := a
  exact Sim.parseVia (AgreeVia.of_parsers h hw hw' ha p1 p2) p1 p2 hs hs' hR ho3 ho4 vm fuel text s

/-! ### a concrete case -/

/-- The grammar of `listData` entered in another order and with other names. -/
def Samples.shuffledData : ParserData Nat :=
  let pd : ParserData Nat := ParserData.new
  let (c, pd) := pd.getOrAddTerminal (c% "c")
  let (ab, pd) := pd.getOrAddTerminal (c% "ab")
  let (tail, pd) := pd.getOrAddNonTerminal (c% "tail")
  let (start, pd) := pd.getOrAddNonTerminal (c% "start")
  let (entry, pd) := pd.getOrAddNonTerminal (c% "entry")
  let (comma, pd) := pd.getOrAddTerminal (c% ",")
  let pd := pd.setProductions entry [[c], [ab]]
  let pd := pd.setProductions tail [[], [comma, entry, tail]]
  let pd := pd.addProduction start [entry, tail]
  let pd := pd.addInstructions start [1, 2]
  pd.addInstructions tail [7]

/-- The renumbering from `listData` to `shuffledData`. -/
def Samples.shuffle : Nat → Nat
  | 0 => 3 | 1 => 4 | 2 => 2 | 3 => 5 | 4 => 1 | 5 => 0 | n => n

theorem Samples.shuffledData_rules : Samples.shuffledData.rules =
    [(4, ⟨[.notEmpty [0], .notEmpty [1]], none, []⟩), (2, ⟨[.empty, .notEmpty [5, 4, 2]], none, [7]⟩),
      (3, ⟨[.notEmpty [4, 2]], none, [1, 2]⟩)] := rfl

theorem Samples.shuffledData_wf : WellFormed Samples.shuffledData := Samples.wf_of_check (by decide)

theorem Samples.listData_wf' : WellFormed Samples.listData := Samples.wf_of_check (by decide)

theorem Samples.renumbered : Renumbered Samples.shuffle Samples.listData Samples.shuffledData where
  injective := by
    have hinv : ∀ n, (fun | 3 => 0 | 4 => 1 | 2 => 2 | 5 => 3 | 1 => 4 | 0 => 5 | n => n : Nat → Nat)
        (Samples.shuffle n) = n := by
      intro n
      match n with
      | 0 | 1 | 2 | 3 | 4 | 5 | n + 6 => rfl
    intro a b hab
    rw [← hinv a, ← hinv b, hab]
  kinds := by
    intro n _
    match n with
    | 0 | 1 | 2 | 3 | 4 | 5 | n + 6 => rfl
  texts := by
    intro n _
    match n with
    | 0 | 3 | 4 | 5 | n + 6 => intro _; rfl
    | 1 | 2 => intro h; cases h
  rules := by
    intro A r hr
    have hm := Samples.mem_of_get' hr
    rw [Samples.listData_rules] at hm
    simp only [List.mem_cons, Prod.mk.injEq, List.not_mem_nil, or_false] at hm
    rcases hm with ⟨rfl, rfl⟩ | ⟨rfl, rfl⟩ | ⟨rfl, rfl⟩
    · exact ⟨_, rfl, rfl, List.Perm.refl _⟩
    · exact ⟨_, rfl, rfl, List.Perm.swap _ _ _⟩
    · exact ⟨_, rfl, rfl, List.Perm.swap _ _ _⟩
  noMore := by
    intro A r hr
    have hm := Samples.mem_of_get' hr
    rw [Samples.shuffledData_rules] at hm
    simp only [List.mem_cons, Prod.mk.injEq, List.not_mem_nil, or_false] at hm
    rcases hm with ⟨rfl, rfl⟩ | ⟨rfl, rfl⟩ | ⟨rfl, rfl⟩
    · exact ⟨1, _, rfl, rfl⟩
    · exact ⟨2, _, rfl, rfl⟩
    · exact ⟨0, _, rfl, rfl⟩

/-- The hypotheses of C63 are met: both grammars are accepted, and the theorem applies to the two parsers. -/
example {P1 P2 : Parser Nat} (h1 : Parser.newFromParserData .insertion 5 Samples.listData 0 = .ok P1)
    (h2 : Parser.newFromParserData .insertion 5 Samples.shuffledData 3 = .ok P2) (fuel : Nat) (text : Str) (s : Nat) :
    (Parser.parse .insertion fuel nullVm P1 text s).2 = (Parser.parse .insertion fuel nullVm P2 text s).2 :=
  (C63_parse_same (φ := Samples.shuffle) (start := 0) Samples.listData_wf' Samples.shuffledData_wf Samples.renumbered
    (Samples.start_of_check rfl) (Samples.start_of_check (i := 3) rfl) h1 h2 fuel nullVm text s).1

example : (∃ P, Parser.newFromParserData .insertion 5 Samples.listData 0 = .ok P) ∧
    ∃ P, Parser.newFromParserData .insertion 5 Samples.shuffledData 3 = .ok P := ⟨⟨_, rfl⟩, ⟨_, rfl⟩⟩

end HPP
