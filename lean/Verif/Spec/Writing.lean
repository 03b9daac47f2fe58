import Verif.Props.Text
import Verif.Model.PeekMut
/-
What writing through `peek_mut` means: the same process, of any nesting depth, over a changed text.
-/
namespace HPP.Spec
open HPP

/-- Processes of any nesting depth can be written to. -/
instance instWriteNest : (n : Nat) → TWrite (Nest n)
  | 0 => inferInstanceAs (TWrite CharSource)
  | n + 1 => letI := instWriteNest n; inferInstanceAs (TWrite (PP (Nest n)))

/-- The process `p` with `w` as the text still to come; positions, stop and escape characters and what the processes
remember of the last character stay. -/
def withText : (n : Nat) → Nest n → Str → Nest n
  | 0, _, w => CharSource.mk w
  | n + 1, p, w => ({ p with src := withText n p.src w } : PP (Nest n))

/-- `p'` is `p` after successful calls of `next` that returned the characters `u` one after the other. -/
inductive ReadsAll {n : Nat} : Nest n → Str → Nest n → Prop where
  | nil (p) : ReadsAll p [] p
  | cons {p p1 p2 c u} : TPeekable.next p = (some c, p1) → ReadsAll p1 u p2 → ReadsAll p (c :: u) p2

end HPP.Spec
