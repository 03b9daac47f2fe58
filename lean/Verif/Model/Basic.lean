/-
Basic vocabulary of the model: outcomes of Rust functions, text, hash containers.
-/
namespace HPP

/-- Text.  Rust `String`/`&str` seen as the sequence of its `char`s (Unicode scalar values), as
`Parser::parse` and `RuleParser::new` read them through `chars()` (script_parser.rs 205, rule_parsing.rs 39-50). -/
abbrev Str := List Char

/-- `c% "abc"` is the list literal `['a','b','c']` (kernel-friendly text literals). -/
macro "c% " s:str : term => do
  let mut r ← `(List.nil)
  for c in s.getString.toList.reverse do
    r ← `(List.cons $(Lean.Syntax.mkCharLit c) $r)
  return r

/-- Outcome of a Rust function returning `Result<α, ε>`:
`ok`/`err` are the two `Result` variants, `panic` is a Rust panic (failed `unwrap`, index out of
bounds, arithmetic overflow in a checked build), `timeout` means "the fuel (bound on recursion
depth / loop iterations) was used up", i.e. the call has not returned yet.  (All of /repo/src; the error types are
errors.rs 12-42, 90-118 and tree.rs 293-299, here `PErr`, `GErr`, `TErr`.) -/
inductive Res (ε α : Type) where
  | ok (a : α)
  | err (e : ε)
  | panic
  | timeout
  deriving DecidableEq, Repr

namespace Res
variable {ε ε' α β : Type}

/-- Sequencing, the `?` operator of Rust (errors, panics and non-termination propagate), e.g. script_parser.rs 254-262. -/
@[inline] def bind (r : Res ε α) (f : α → Res ε β) : Res ε β :=
  match r with
  | ok a => f a
  | err e => err e
  | panic => panic
  | timeout => timeout

instance : Monad (Res ε) where
  pure := ok
  bind := bind

@[simp] theorem pure_def (a : α) : (pure a : Res ε α) = ok a := rfl
@[simp] theorem bind_ok (a : α) (f : α → Res ε β) : ((ok a : Res ε α) >>= f) = f a := rfl
@[simp] theorem bind_err (e : ε) (f : α → Res ε β) : ((err e : Res ε α) >>= f) = err e := rfl
@[simp] theorem bind_panic (f : α → Res ε β) : ((panic : Res ε α) >>= f) = panic := rfl
@[simp] theorem bind_timeout (f : α → Res ε β) : ((timeout : Res ε α) >>= f) = timeout := rfl

/-- `Result::unwrap`: an error becomes a panic (first_sets.rs 94, follow_sets.rs 142, steuer_sets.rs 21, main.rs 28). -/
def unwrap (r : Res ε α) : Res ε' α :=
  match r with
  | ok a => ok a
  | err _ => panic
  | panic => panic
  | timeout => timeout

/-- `Result::map_err` with a constant (parse_funcs.rs 63, 86) or a conversion (`From::from` inserted by `?`, e.g.
script_parser.rs 262). -/
def mapErr (f : ε → ε') (r : Res ε α) : Res ε' α :=
  match r with
  | ok a => ok a
  | err e => err (f e)
  | panic => panic
  | timeout => timeout

/-- `Option::ok_or` (e.g. first_sets.rs 33, follow_sets.rs 122, steuer_map.rs 81, script_parser.rs 229, 258). -/
def ofOption (o : Option α) (e : ε) : Res ε α :=
  match o with
  | some a => ok a
  | none => err e

/-- `Option::unwrap` / slice indexing: `None` is a panic (e.g. first_sets.rs 117, simple_graph.rs 63,
script_parser.rs 213, 268). -/
def unwrapO (o : Option α) : Res ε α :=
  match o with
  | some a => ok a
  | none => panic

end Res

/-! ### Functions on `&mut` state -/

/-- A Rust function that mutates a state `σ` through `&mut` and returns `Result<α, ε>`.  The state is
returned also when the result is an error: Rust keeps the effects made before a `?` returned (e.g.
script_parser.rs 246-295, rule_parsing.rs 195-245). -/
def SM (σ ε α : Type) := σ → Res ε α × σ

namespace SM
variable {σ ε α β : Type}

/-- Sequencing with `?`: the second part runs only after `Ok`, in the state left by the first (e.g.
script_parser.rs 259-262). -/
@[inline] def bind (x : SM σ ε α) (f : α → SM σ ε β) : SM σ ε β := fun s =>
  match x s with
  | (.ok a, s1) => f a s1
  | (.err e, s1) => (.err e, s1)
  | (.panic, s1) => (.panic, s1)
  | (.timeout, s1) => (.timeout, s1)

instance : Monad (SM σ ε) where
  pure a := fun s => (.ok a, s)
  bind := bind

/-- The outcome `r` without touching the state (an early `return`, e.g. rule_parsing.rs 270-276). -/
def lift (r : Res ε α) : SM σ ε α := fun s => (r, s)

theorem bind_apply (x : SM σ ε α) (f : α → SM σ ε β) (s : σ) :
    (x >>= f) s = match x s with
      | (.ok a, s1) => f a s1
      | (.err e, s1) => (.err e, s1)
      | (.panic, s1) => (.panic, s1)
      | (.timeout, s1) => (.timeout, s1) := rfl

@[simp] theorem pure_apply (a : α) (s : σ) : (pure a : SM σ ε α) s = (.ok a, s) := rfl
@[simp] theorem lift_apply (r : Res ε α) (s : σ) : (lift r : SM σ ε α) s = (r, s) := rfl

end SM

/-! ### Hash maps and hash sets

`std::collections::HashMap` is modelled by an association list without duplicate keys and
`HashSet` by a list without duplicates.  Iteration over a hash container always goes through a
`HashOrder`. -/

/-- Arbitrary iteration orders.  `iter site α l` is the order in which the entries `l` of a hash
container are visited at iteration site `site`; the only thing known is that every entry is visited
exactly once.  (Rust: `RandomState`, unspecified order; the iterations of first_sets.rs 48-54, follow_sets.rs 41-142,
steuer_sets.rs 17-20, steuer_map.rs 39-130, script_parser.rs 235-241, rule_parsing.rs 75-118.) -/
structure HashOrder where
  iter : Nat → (α : Type) → List α → List α
  perm : ∀ site α l, (iter site α l).Perm l

/-- One particular order: insertion order (an instance for examples; no code). -/
def HashOrder.insertion : HashOrder := ⟨fun _ _ l => l, fun _ _ l => List.Perm.refl l⟩

/-- Another particular order: reverse insertion order (an instance for examples; no code). -/
def HashOrder.reversed : HashOrder := ⟨fun _ _ l => l.reverse, fun _ _ l => List.reverse_perm l⟩

/-- `HashMap<κ, ν>` (sets.rs 70-72, parser_data.rs 27, 191, script_parser.rs 60, named_graph.rs 43). -/
abbrev AMap (κ ν : Type) := List (κ × ν)

namespace AMap
variable {κ ν : Type} [DecidableEq κ]

/-- `HashMap::get` (e.g. first_sets.rs 67, 92, steuer_map.rs 80-105, script_parser.rs 228, rule_parsing.rs 94, 387). -/
def get : AMap κ ν → κ → Option ν
  | [], _ => none
  | (k, v) :: m, q => if k = q then some v else get m q

/-- `HashMap::insert` (the new map; the previous value is `get` of the old map; e.g. first_sets.rs 74, steuer_map.rs 53, 86,
rule_parsing.rs 88, 115, 129). -/
def insert : AMap κ ν → κ → ν → AMap κ ν
  | [], q, w => [(q, w)]
  | (k, v) :: m, q, w => if k = q then (q, w) :: m else (k, v) :: insert m q w

/-- `HashMap::keys` (before ordering; first_sets.rs 49, script_parser.rs 237). -/
def keys (m : AMap κ ν) : List κ := m.map (·.1)

end AMap

/-- `HashSet::insert` (e.g. follow_sets.rs 40, 100, steuer_sets.rs 28, steuer_map.rs 122, rule_parsing.rs 399). -/
def setInsert {α : Type} [DecidableEq α] (s : List α) (x : α) : List α :=
  if x ∈ s then s else s ++ [x]

/-- `HashSet::extend` (first_sets.rs 35, 72, 122, follow_sets.rs 96, 140, steuer_sets.rs 26). -/
def setExtend {α : Type} [DecidableEq α] (s : List α) (xs : List α) : List α :=
  xs.foldl setInsert s

/-- `HashSet::remove` (first_sets.rs 37, 124, follow_sets.rs 134). -/
def setRemove {α : Type} [DecidableEq α] (s : List α) (x : α) : List α :=
  s.filter (fun y => decide (y ≠ x))

/-! ### Character classes -/

/-- `char::is_alphabetic` and `char::is_numeric` outside ASCII, left arbitrary (the Unicode tables
of the Rust standard library are one instance); used by parse_funcs.rs 115, 126 and rule_parsing.rs 311. -/
structure CharClass where
  extAlphabetic : Char → Bool
  extNumeric : Char → Bool

namespace CharClass

/-- `char::is_ascii_digit` (parse_funcs.rs 30, 46, 77). -/
def isAsciiDigit (c : Char) : Bool := decide (48 ≤ c.toNat ∧ c.toNat ≤ 57)

/-- `char::is_alphabetic` (fixed on ASCII, arbitrary elsewhere; parse_funcs.rs 115, rule_parsing.rs 311). -/
def isAlphabetic (cc : CharClass) (c : Char) : Bool :=
  if c.toNat < 128 then
    decide ((65 ≤ c.toNat ∧ c.toNat ≤ 90) ∨ (97 ≤ c.toNat ∧ c.toNat ≤ 122))
  else cc.extAlphabetic c

/-- `char::is_numeric` (fixed on ASCII, arbitrary elsewhere; part of `is_alphanumeric`, parse_funcs.rs 126). -/
def isNumeric (cc : CharClass) (c : Char) : Bool :=
  if c.toNat < 128 then isAsciiDigit c else cc.extNumeric c

/-- `char::is_alphanumeric` = alphabetic or numeric (parse_funcs.rs 126). -/
def isAlphanumeric (cc : CharClass) (c : Char) : Bool :=
  cc.isAlphabetic c || cc.isNumeric c

/-- `char::is_whitespace`: the Unicode property `White_Space` (parse_funcs.rs 16). -/
def isWhitespace (c : Char) : Bool :=
  let n := c.toNat
  decide ((9 ≤ n ∧ n ≤ 13) ∨ n = 32 ∨ n = 0x85 ∨ n = 0xA0 ∨ n = 0x1680 ∨
    (0x2000 ≤ n ∧ n ≤ 0x200A) ∨ n = 0x2028 ∨ n = 0x2029 ∨ n = 0x202F ∨ n = 0x205F ∨ n = 0x3000)

/-- The class in which nothing outside ASCII is a letter or number (an instance for examples; no code). -/
def ascii : CharClass := ⟨fun _ => false, fun _ => false⟩

end CharClass

end HPP
