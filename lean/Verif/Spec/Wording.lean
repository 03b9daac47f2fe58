import Verif.Spec.Text
import Verif.Model.Basic
/-
Message templates, as a user reads them in the documentation of the errors: `{}` is a place to fill in.
-/
namespace HPP.Spec

/-- The template with its places filled in, from left to right. -/
def fill : List Char → List (List Char) → List Char
  | [], _ => []
  | '{' :: '}' :: t, a :: as => a ++ fill t as
  | c :: t, as => c :: fill t as

end HPP.Spec
