import Verif.Model.Basic
/-
Model of src/peekables.rs.
-/
namespace HPP

/-- `trait TPeekable: Iterator` with `Item = char` (peekables.rs 10-18).  A method taking `&mut self`
returns its result together with the new state.  `rest` is not a Rust method: it is the text that
the innermost character source has not yet handed out (used to state specifications and to bound
loops).  `peek_mut` is modelled here for reading; writing through the handle is in Model/PeekMut. -/
class TPeekable (σ : Type) where
  peek : σ → Option Char × σ
  next : σ → Option Char × σ
  nextIf : (Char → Bool) → σ → Option Char × σ
  nextIfEq : Char → σ → Option Char × σ
  peekMut : σ → Option Char
  rest : σ → Str

/-- `PeekableWrapper<Chars>` (peekables.rs 20-77): the characters still to come. -/
structure CharSource where
  chars : Str
  deriving DecidableEq, Repr

/-- `impl TPeekable for PeekableWrapper` (peekables.rs 28-60): `std::iter::Peekable`. -/
instance : TPeekable CharSource where
  peek s := (s.chars.head?, s)
  next s :=
    match s.chars with
    | [] => (none, s)
    | c :: r => (some c, ⟨r⟩)
  nextIf f s :=
    match s.chars with
    | [] => (none, s)
    | c :: r => if f c then (some c, ⟨r⟩) else (none, s)
  nextIfEq x s :=
    match s.chars with
    | [] => (none, s)
    | c :: r => if c = x then (some c, ⟨r⟩) else (none, s)
  peekMut s := s.chars.head?
  rest s := s.chars

/-- `ParseProcess<'a, T>` (peekables.rs 79-88).  The borrow `&'a mut T` is modelled by containing the
borrowed source; when the borrow ends the owner continues with the field `src`. -/
structure PP (σ : Type) where
  src : σ
  pos : Nat
  stopOn : Option Char
  escapeChar : Option Char
  escape : Bool
  deriving DecidableEq, Repr

namespace PP
variable {σ : Type} [TPeekable σ]

/-- `ParseProcess::new` (peekables.rs 94-106). -/
def new (src : σ) (stopOn escapeChar : Option Char) : PP σ := ⟨src, 0, stopOn, escapeChar, false⟩

/-- `ParseProcess::new_nested` (peekables.rs 109-122). -/
def newNested (src : σ) (stopOn escapeChar : Option Char) (globalPosition : Nat) : PP σ :=
  ⟨src, globalPosition, stopOn, escapeChar, false⟩

/-- `ParseProcess::cur_pos` (peekables.rs 123-125). -/
def curPos (p : PP σ) : Nat := p.pos

/-- `ParseProcess::check_allowed` (peekables.rs 185-200). -/
def checkAllowed (p : PP σ) : Bool × PP σ :=
  let (nxt, src') := TPeekable.peek p.src
  let p := { p with src := src' }
  match nxt, p.escapeChar, p.stopOn with
  | some c, some ec, some sc =>
    if c = ec then (true, { p with escape := true })
    else if c = sc ∧ p.escape = false then (false, p)
    else (true, { p with escape := false })
  | _, _, _ => (true, p)

/-- `ParseProcess::peek` (peekables.rs 151-156). -/
def peek (p : PP σ) : Option Char × PP σ :=
  match p.checkAllowed with
  | (false, p1) => (none, p1)
  | (true, p1) =>
    let (c, src') := TPeekable.peek p1.src
    (c, { p1 with src := src' })

/-- `ParseProcess::next` (peekables.rs 133-142). -/
def next (p : PP σ) : Option Char × PP σ :=
  match p.checkAllowed with
  | (false, p1) => (none, p1)
  | (true, p1) =>
    match TPeekable.next p1.src with
    | (some c, src') => (some c, { p1 with src := src', pos := p1.pos + 1 })
    | (none, src') => (none, { p1 with src := src' })

/-- `ParseProcess::next_if` (peekables.rs 161-170). -/
def nextIf (f : Char → Bool) (p : PP σ) : Option Char × PP σ :=
  match p.checkAllowed with
  | (false, p1) => (none, p1)
  | (true, p1) =>
    match TPeekable.nextIf f p1.src with
    | (some c, src') => (some c, { p1 with src := src', pos := p1.pos + 1 })
    | (none, src') => (none, { p1 with src := src' })

/-- `ParseProcess::next_if_eq` (peekables.rs 172-181). -/
def nextIfEq (x : Char) (p : PP σ) : Option Char × PP σ :=
  match p.checkAllowed with
  | (false, p1) => (none, p1)
  | (true, p1) =>
    match TPeekable.nextIfEq x p1.src with
    | (some c, src') => (some c, { p1 with src := src', pos := p1.pos + 1 })
    | (none, src') => (none, { p1 with src := src' })

/-- `ParseProcess::peek_mut` (peekables.rs 158-160), read through (Model/PeekMut has writing): no permission check. -/
def peekMut (p : PP σ) : Option Char := TPeekable.peekMut p.src

/-- The text not yet handed out by the innermost source (reached through the field `to_parse`, peekables.rs 84; not a method). -/
def rest (p : PP σ) : Str := TPeekable.rest p.src

end PP

/-- `impl TPeekable for ParseProcess` (peekables.rs 128-182): processes nest. -/
instance {σ : Type} [TPeekable σ] : TPeekable (PP σ) where
  peek := PP.peek
  next := PP.next
  nextIf := PP.nextIf
  nextIfEq := PP.nextIfEq
  peekMut := PP.peekMut
  rest := PP.rest

/-- The process type used for rule and script texts, `Ppp` (parser_data.rs 193). -/
abbrev Proc := PP CharSource

/-- A fresh top-level process over a text (rule_parsing.rs 43, script_parser.rs 205-206). -/
def Proc.ofText (s : Str) : Proc := PP.new ⟨s⟩ none none

end HPP
