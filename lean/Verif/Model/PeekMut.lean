import Verif.Model.Peekables
/-
Model of writing through `peek_mut` (src/peekables.rs 13, 47-49 and 158-160).  `peek_mut` hands out a `&mut char`; what a
user can do with it is to replace the character `c` by some `f c`.  (For reading see `TPeekable.peekMut`.)
-/
namespace HPP

/-- `if let Some(c) = x.peek_mut() { *c = f(*c) }` for a source `x` of type `σ` (peekables.rs 13). -/
class TWrite (σ : Type) where
  write : (Char → Char) → σ → σ

/-- `PeekableWrapper::peek_mut` (peekables.rs 47-49): `std::iter::Peekable::peek_mut` gives access to the peeked
character, which is the one handed out next. -/
instance : TWrite CharSource where
  write f s :=
    match s.chars with
    | [] => s
    | c :: r => ⟨f c :: r⟩

/-- `ParseProcess::peek_mut` (peekables.rs 158-160): the reference of the borrowed source is passed on, without asking
`check_allowed` and without changing the process itself. -/
instance {σ : Type} [TWrite σ] : TWrite (PP σ) where
  write f p := { p with src := TWrite.write f p.src }

end HPP
