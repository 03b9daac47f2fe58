import Verif.Model.Peekables
import Verif.Model.Errors
/-
Model of src/parse_funcs.rs.  Every function takes the process and returns its new state.
Loops are bounded by the number of remaining characters plus a constant; the lemmas of Proofs/Reader.lean
show that the bound is never the reason for stopping.
-/
namespace HPP
variable {σ : Type} [TPeekable σ]

/-- Loop of `parse_whitespace` (parse_funcs.rs 15-20). -/
def parseWhitespaceLoop : Nat → PP σ → PP σ
  | 0, p => p
  | fuel + 1, p =>
    match p.peek with
    | (some x, p1) => if !CharClass.isWhitespace x then p1 else parseWhitespaceLoop fuel p1.next.2
    | (none, p1) => p1

/-- `parse_whitespace` (parse_funcs.rs 11-21). -/
def parseWhitespace (p : PP σ) : PP σ := parseWhitespaceLoop (p.rest.length + 2) p

/-- Loop of `parse_digits` (parse_funcs.rs 27-36), `acc` = `number_string`; the loop condition peeks. -/
def parseDigitsLoop : Nat → Str → PP σ → Res PErr Str × PP σ
  | 0, acc, p => (.ok acc, p)
  | fuel + 1, acc, p =>
    match p.peek with
    | (none, p1) => (.ok acc, p1)
    | (some x, p1) =>
      if !CharClass.isAsciiDigit x then (.ok acc, p1)
      else
        let pos := p1.curPos
        match p1.next with
        | (none, p2) => (.err (.endOfChars pos), p2)
        | (some d, p2) => parseDigitsLoop fuel (acc ++ [d]) p2

/-- `parse_digits` (parse_funcs.rs 23-38). -/
def parseDigits (p : PP σ) : Res PErr Str × PP σ := parseDigitsLoop (p.rest.length + 1) [] p

/-- `parse_required_digits` (parse_funcs.rs 40-55). -/
def parseRequiredDigits (p : PP σ) : Res PErr Str × PP σ :=
  let pos := p.curPos
  match p.peek with
  | (none, p1) => (.err (.endOfChars pos), p1)
  | (some c, p1) =>
    if !CharClass.isAsciiDigit c then
      (.err (.unexpectedChar c p1.curPos (c% "digit expected")), p1)
    else parseDigits p1

/-- Value of a digit string, most significant digit first (`str::parse` of `core::num`, called in parse_funcs.rs 62, 86). -/
def digitsVal (s : Str) : Nat := s.foldl (fun n c => n * 10 + (c.toNat - 48)) 0

/-- `s` without an optional leading `+` (`core::num`, `from_str_radix`; parse_funcs.rs 62, 86). -/
def stripPlus : Str → Str
  | '+' :: r => r
  | r => r

/-- Rust `str::parse::<usize>` (64 bit): optional `+`, at least one ASCII digit, no overflow. -/
def strToUsize (s : Str) : Option Nat :=
  let body := stripPlus s
  if body ≠ [] ∧ body.all CharClass.isAsciiDigit = true ∧ digitsVal body < 2 ^ 64 then
    some (digitsVal body)
  else none

/-- Rust `str::parse::<isize>` (64 bit): optional sign, at least one ASCII digit, in range. -/
def strToIsize (s : Str) : Option Int :=
  match s with
  | '-' :: r =>
    if r ≠ [] ∧ r.all CharClass.isAsciiDigit = true ∧ digitsVal r ≤ 2 ^ 63 then
      some (-(digitsVal r : Int))
    else none
  | '+' :: r =>
    if r ≠ [] ∧ r.all CharClass.isAsciiDigit = true ∧ digitsVal r < 2 ^ 63 then
      some (digitsVal r : Int)
    else none
  | r =>
    if r ≠ [] ∧ r.all CharClass.isAsciiDigit = true ∧ digitsVal r < 2 ^ 63 then
      some (digitsVal r : Int)
    else none

/-- `parse_usize` (parse_funcs.rs 57-64). -/
def parseUsize (p : PP σ) : Res PErr Nat × PP σ :=
  match parseRequiredDigits p with
  | (.ok s, p1) => (Res.ofOption (strToUsize s) .impossible, p1)
  | (.err e, p1) => (.err e, p1)
  | (.panic, p1) => (.panic, p1)
  | (.timeout, p1) => (.timeout, p1)

/-- `parse_isize` (parse_funcs.rs 66-87). -/
def parseIsize (p : PP σ) : Res PErr Int × PP σ :=
  let pos := p.curPos
  match p.peek with
  | (none, p1) => (.err (.endOfChars pos), p1)
  | (some c, p1) =>
    if c ≠ '-' ∧ CharClass.isAsciiDigit c = false then
      (.err (.unexpectedChar c p1.curPos (c% "digit or - expected")), p1)
    else
      let p2 := if c = '-' then p1.next.2 else p1
      let sign : Str := if c = '-' then ['-'] else []
      match parseRequiredDigits p2 with
      | (.ok s, p3) => (Res.ofOption (strToIsize (sign ++ s)) .impossible, p3)
      | (.err e, p3) => (.err e, p3)
      | (.panic, p3) => (.panic, p3)
      | (.timeout, p3) => (.timeout, p3)

/-- `parse_symbol` (parse_funcs.rs 88-107). -/
def parseSymbol (sym : Char) (p : PP σ) : Res PErr Unit × PP σ :=
  match p.peek with
  | (some c, p1) =>
    if c = sym then (.ok (), p1.next.2)
    else (.err (.unexpectedChar c p1.curPos [sym]), p1)
  | (none, p1) => (.err (.endOfChars p1.curPos), p1)

/-- Loop of `parse_var_name` (parse_funcs.rs 124-133). -/
def parseVarNameLoop (cc : CharClass) : Nat → Str → PP σ → Res PErr Str × PP σ
  | 0, acc, p => (.ok acc, p)
  | fuel + 1, acc, p =>
    match p.peek with
    | (none, p1) => (.ok acc, p1)
    | (some x, p1) =>
      if !(cc.isAlphanumeric x || x == '_') then (.ok acc, p1)
      else
        match p1.next with
        | (none, p2) => (.err (.endOfChars p2.curPos), p2)
        | (some d, p2) => parseVarNameLoop cc fuel (acc ++ [d]) p2

/-- `parse_var_name` (parse_funcs.rs 109-135). -/
def parseVarName (cc : CharClass) (p : PP σ) : Res PErr Str × PP σ :=
  let pos := p.curPos
  match p.peek with
  | (none, p1) => (.err (.endOfChars pos), p1)
  | (some c, p1) =>
    if !cc.isAlphabetic c then
      (.err (.unexpectedChar c p1.curPos (c% "alphabetic character")), p1)
    else
      let p2 := p1.next.2
      parseVarNameLoop cc (p2.rest.length + 1) [c] p2

end HPP
