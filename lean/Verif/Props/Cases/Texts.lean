import Verif.Props.ReadErrors
import Verif.Props.Reader
import Verif.Props.Writing
import Verif.Props.SectionReading
import Verif.Props.StackText
import Verif.Props.AnySection
/-
Concrete cases of the theorems about reading texts: each `example` applies the theorem named in its comment.
-/
namespace HPP
open Spec

namespace Samples

/-- A section `ab\}}c` that starts at position 3. -/
def nested : Nest 2 := PP.newNested (Proc.at (c% "ab\\}}c") 3) (some '}') (some '\\') 3

theorem maximal {P : Char → Prop} {w pre post : Str} (h1 : w = pre ++ post) (h2 : ∀ c ∈ pre, P c)
    (h3 : ∀ c ∈ post.head?, ¬ P c) : MaximalPrefix P w pre post :=
  ⟨h1, h2, by rintro c r rfl; exact h3 c rfl⟩

end Samples
open Samples

/-- `C01_position_counts_characters`: six read calls on a section; four characters are read. -/
example : let ops : List ReadOp := [.peek, .next, .nextIfEq 'x', .nextIf (· = 'b'), .next, .next]
    c% "ab\\}}c" = c% "ab\\}" ++ TPeekable.rest (runReads ops nested).2 ∧
    Nest.positions 2 (runReads ops nested).2 = (Nest.positions 2 nested).map (· + 4) :=
  C01_position_counts_characters 2 nested [.peek, .next, .nextIfEq 'x', .nextIf (· = 'b'), .next, .next]

/-- `C01_answers_are_next_characters`. -/
example : (TPeekable.rest nested).head? = some 'a' :=
  C01_answers_are_next_characters 2 nested (.nextIfEq 'a') 'a' rfl

/-- `C02_peek_predicts_next`: with a stop character and no escape character, at the stop character. -/
example : let p : Proc := ⟨⟨c% "}x"⟩, 4, some '}', none, false⟩
    p.peek.2 = p ∧ p.peek.2.next = p.next ∧ p.peek.1 = p.next.1 :=
  C02_peek_predicts_next _ (.inr rfl)

/-- `C03_section`, `C03_section_ends_at_stop`: the section of `a\}b}c` and what follows it. -/
example : (c% "a\\}b}c").drop (sectionOf '}' '\\' (c% "a\\}b}c")).length = c% "}c" ∧
    ((c% "a\\}b}c").drop (sectionOf '}' '\\' (c% "a\\}b}c")).length = [] ∨
      ∃ r, (c% "a\\}b}c").drop (sectionOf '}' '\\' (c% "a\\}b}c")).length = '}' :: r) :=
  ⟨rfl, C03_section_ends_at_stop '}' '\\' (c% "a\\}b}c")⟩

/-- `C04_peek_predicts_next_partial`: inside a section, after an escaped stop character. -/
example : let p : PP Proc := (reads 2 (PP.newNested (Proc.ofText (c% "\\}x}")) (some '}') (some '\\') 0)).2
    p.peek.2.next.1 = p.peek.1 :=
  C04_peek_predicts_next_partial _ rfl (by rintro ⟨h, -⟩; cases h)

/-- `C04_exactly`: at the escaped stop character `peek` announces it and `next` refuses it. -/
example : let p : PP Proc := (reads 1 (PP.newNested (Proc.ofText (c% "\\}x}")) (some '}') (some '\\') 0)).2
    p.peek.1 = some '}' ∧ p.peek.2.next.1 = none :=
  let p : PP Proc := (reads 1 (PP.newNested (Proc.ofText (c% "\\}x}")) (some '}') (some '\\') 0)).2
  have h := (C04_exactly p rfl (so := '}') (ec := '\\') rfl rfl (by decide)).2 ⟨rfl, rfl⟩
  ⟨h.1, h.2.1⟩

/-- `C05_usize`: leading zeros; no digits. -/
example : parseUsize (Proc.at (c% "0042;") 7) = (.ok 42, Proc.at (c% ";") 11) ∧
    ∃ e, parseUsize (Proc.at (c% "x1") 7) = (.err e, Proc.at (c% "x1") 7) :=
  ⟨(C05_usize (maximal (pre := c% "0042") (post := c% ";") rfl (by decide) (by decide)) 7).2.1 (by decide) (by decide),
    (C05_usize (maximal (pre := []) (post := c% "x1") rfl (by decide) (by decide)) 7).1 rfl⟩

/-- `C05_isize`, `C05_isize_minus`. -/
example : parseIsize (Proc.at (c% "12+") 0) = (.ok 12, Proc.at (c% "+") 2) ∧
    parseIsize (Proc.at (c% "-12+") 0) = (.ok (-12), Proc.at (c% "+") 3) ∧
    ∃ e, parseIsize (Proc.at (c% "-x") 0) = (.err e, Proc.at (c% "x") 1) :=
  ⟨(C05_isize (maximal (pre := c% "12") (post := c% "+") rfl (by decide) (by decide)) 0).2.1 (by decide) (by decide),
    (C05_isize_minus (maximal (pre := c% "12") (post := c% "+") rfl (by decide) (by decide)) 0).2.1 (by decide) (by decide),
    (C05_isize_minus (maximal (pre := []) (post := c% "x") rfl (by decide) (by decide)) 0).1 rfl⟩

/-- `C05_usize_round_trip`, `C05_isize_round_trip`. -/
example : parseUsize (Proc.at (numeral 407 ++ c% " x") 1) = (.ok 407, Proc.at (c% " x") (1 + (numeral 407).length)) ∧
    parseIsize (Proc.at (intNumeral (-407) ++ c% " x") 1) = (.ok (-407), Proc.at (c% " x") (1 + (intNumeral (-407)).length)) :=
  ⟨C05_usize_round_trip 407 (by decide) (c% " x") (by intro c r h; cases h; decide) 1,
    C05_isize_round_trip (-407) (by decide) (c% " x") (by intro c r h; cases h; decide) 1⟩

/-- `C06_whitespace`. -/
example : parseWhitespace (Proc.at (c% " \n\ta ") 2) = Proc.at (c% "a ") 5 :=
  C06_whitespace (maximal (pre := c% " \n\t") (post := c% "a ") rfl (by decide) (by decide)) 2

/-- `C06_var_name`. -/
example : parseVarName .ascii (Proc.at (c% "ab_1 c") 5) = (.ok (c% "ab_1"), Proc.at (c% " c") 9) :=
  (C06_var_name .ascii 5).1 'a' (c% "b_1 c") (c% "b_1") (c% " c") rfl (maximal rfl (by decide) (by decide))

/-- `C06_symbol`. -/
example : parseSymbol ':' (Proc.at (c% ":x") 5) = (.ok (), Proc.at (c% "x") 6) ∧
    parseSymbol ':' (Proc.at (c% ";x") 5) = (.err (.unexpectedChar ';' 5 (c% ":")), Proc.at (c% ";x") 5) :=
  ⟨(C06_symbol ':' 5).1 (c% "x"), (C06_symbol ':' 5).2.1 ';' (c% "x") (by decide)⟩

/-- `C06_var_name_error`. -/
example : parseVarName .ascii (Proc.at (c% "1a") 5) =
    (.err (.unexpectedChar '1' 5 (c% "alphabetic character")), Proc.at (c% "1a") 5) :=
  C06_var_name_error .ascii 5 '1' (c% "a") (by decide)

/-- `C07_quoted`: an escaped quote stays in the text; a missing final quote is an error at the end of the text. -/
example : parseQuoted (Proc.at ('"' :: c% "a\\\"b\"c") 3) = (.ok (c% "a\\\"b"), Proc.at (c% "c") 9) ∧
    parseQuoted (Proc.at ('"' :: c% "a\\\"") 3) = (.err (.endOfChars 7), Proc.at [] 7) :=
  ⟨(C07_quoted (c% "a\\\"b\"c") 3).1 (c% "a\\\"b") (c% "c") (by decide +kernel),
    (C07_quoted (c% "a\\\"") 3).2 (by decide +kernel)⟩

/-- `C07_quoted_needs_quote`, `C07_quoted_errors`. -/
example : (∃ e, parseQuoted (Proc.at (c% "a\"") 3) = (.err e, Proc.at (c% "a\"") 3)) ∧
    parseQuoted (Proc.at (c% "a\"") 3) = (.err (.unexpectedChar 'a' 3 (c% "\"")), Proc.at (c% "a\"") 3) :=
  ⟨C07_quoted_needs_quote (c% "a\"") 3 (by decide), (C07_quoted_errors 3).2 'a' (c% "\"") (by decide)⟩

/-- `C48_vm_sees_section`: the section `{ x\}}` handed to `NullVm`. -/
example : parseInstructionSection nullVm (c% "r") ⟨Proc.at (c% "{ x\\}} ;") 4, ParserData.new⟩ =
    (.ok [0], ⟨Proc.at (c% " ;") 10, ParserData.new⟩) :=
  (C48_vm_sees_section nullVm (c% "r") (c% " ") (c% "x\\}} ;") 4 ParserData.new
    (by unfold IsSpace; decide) (by intro c r h; cases h; decide)).trans (by kernel_rfl)

/-- `C48_no_section`. -/
example : parseInstructionSection nullVm (c% "r") ⟨Proc.at (c% ": a;") 4, ParserData.new⟩ =
    (.ok [], ⟨Proc.at (c% ": a;") 4, ParserData.new⟩) :=
  C48_no_section nullVm (c% "r") (c% ": a;") 4 ParserData.new (by decide)

/-- `C61_next_if`, `C61_next_if_eq`, `C61_peek_mut`, on the section. -/
example : TPeekable.nextIf (· = 'a') nested = TPeekable.next nested ∧
    (TPeekable.nextIf (· = 'b') nested).1 = none ∧ (TPeekable.nextIfEq 'x' nested).1 = none ∧
    TPeekable.nextIfEq 'a' nested = TPeekable.next nested ∧ TPeekable.peekMut nested = some 'a' :=
  ⟨(C61_next_if 2 (· = 'a') nested).1 'a' rfl rfl, ((C61_next_if 2 (· = 'b') nested).2.1 'a' rfl rfl).1,
    ((C61_next_if_eq 2 'x' nested).2 (by intro h; cases h)).1, (C61_next_if_eq 2 'a' nested).1 rfl, C61_peek_mut 2 nested⟩

/-- `C97_section_is_a_text`: the machine of `SectionReading` reads a section as it would read its text alone. -/
example : ∃ a u v p, c% "ab = xyz " = u ++ v ∧
    Samples.pairProg.run (sectionProcess (c% "ab = xyz " ++ c% "} ;") 7) = (a, p) ∧ p.curPos = 7 + u.length ∧
    p.src = ⟨⟨v ++ c% "} ;"⟩, 7 + u.length, none, none, false⟩ ∧
    Samples.pairProg.run (⟨⟨c% "ab = xyz "⟩, 7, none, none, false⟩ : Proc) = (a, ⟨⟨v⟩, 7 + u.length, none, none, false⟩) :=
  C97_section_is_a_text Samples.pairProg (.inr ⟨_, rfl⟩) ⟨by decide, by decide⟩ 7

/-- `C104_write_changes_next_character`, `C104_write_read_back`. -/
example : TWrite.write (fun _ => 'x') nested = withText 2 nested (c% "xb\\}}c") ∧
    TPeekable.peekMut (TWrite.write (fun _ => 'x') nested) = some 'x' :=
  ⟨(C104_write_changes_next_character 2 nested (fun _ => 'x')).1 'a' (c% "b\\}}c") rfl,
    (C104_write_read_back 2 nested (fun _ => 'x')).1⟩

/-- `C104_as_if_written_before`: the fourth character of a section becomes an `x` after three were read. -/
example : ∃ p', ReadsAll (n := 2) (sectionProcess (c% "a\\}b}c") 4) (c% "a\\}") p' ∧
    ReadsAll (n := 2) (withText 2 (sectionProcess (c% "a\\}b}c") 4) (c% "a\\}x}c")) (c% "a\\}")
      (TWrite.write (σ := Nest 2) (fun _ => 'x') p') := by
  have h : ReadsAll (n := 2) (sectionProcess (c% "a\\}b}c") 4) (c% "a\\}") _ := .cons rfl (.cons rfl (.cons rfl (.nil _)))
  exact ⟨_, h, C104_as_if_written_before (c := 'b') (r := c% "}c") (fun _ => 'x') h rfl⟩

/-- `C114_whitespace`, `C114_digits`, `C114_usize`, `C114_isize`, `C114_symbol`, `C114_var_name`, on the section. -/
example : (∃ u, (∀ c ∈ u, CharClass.isWhitespace c = true) ∧ Took nested u (parseWhitespace nested)) ∧
    ((parseSymbol 'a' nested).1 = .ok () ∧ ¬ (parseSymbol 'b' nested).1 = .ok ()) := by
  obtain ⟨u, h1, h2, -⟩ := C114_whitespace (n := 1) nested
  refine ⟨⟨u, h1, h2⟩, ?_, ?_⟩
  · rcases C114_symbol (n := 1) 'a' nested with ⟨-, h, -⟩ | ⟨h, -⟩
    · exact h
    · exact absurd rfl h
  · rcases C114_symbol (n := 1) 'b' nested with ⟨h, -⟩ | ⟨-, ⟨e, h, -⟩, -⟩
    · exact absurd h (by intro h; cases h)
    · rw [h]; intro h; cases h

end HPP
