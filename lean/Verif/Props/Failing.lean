import Verif.Proofs.Failing
import Verif.Props.AnyVm
/-
C95: what a parse has done when it does not succeed.
-/
namespace HPP
open Spec
variable {I S : Type} {pd : ParserData I} {start st0 : Nat} {P : Parser I} {ho0 ho : HashOrder} {fuel0 fuel : Nat}

/-- **C95**, every error: if `parse` returns an error then reading the text stops, after walking the trees of everything
finished before, and the error, the unread text and the state of the virtual machine are those of this stop: the
instructions of exactly the finished nodes have been executed, in their order, and nothing is undone. -/
theorem C95_failed_parse_stops (hw : WellFormed pd) (hP : Parser.newFromParserData ho0 fuel0 pd start = .ok P)
    (hs : StartSymbol pd st0) (hdef : ∃ r, AMap.get pd.rules st0 = some r) (vm : VM I S) (text : Str) (s : S) {e : PErr}
    {c : Ctx S} (h : Parser.parse ho fuel vm P text s = (.err e, c)) :
    ∃ st, Stops vm pd start fuel none [st0] text (Tree.new, s) st ∧ st.Shows pd start text.length e c.proc.rest c.state :=
  have ⟨ha, hpf⟩ := newFromParserData_ok hw hP
  (parse_stops hw ha.defined hpf hs hdef vm fuel text s).1 e c h

/-- **C95**, conversely: wherever reading the text stops (other than by a panic), `parse` returns the error of this stop. -/
theorem C95_stop_is_reported (hw : WellFormed pd) (hP : Parser.newFromParserData ho0 fuel0 pd start = .ok P)
    (hs : StartSymbol pd st0) (hdef : ∃ r, AMap.get pd.rules st0 = some r) (vm : VM I S) (text : Str) (s : S) {st : Stop S}
    (h : Stops vm pd start fuel none [st0] text (Tree.new, s) st) (hne : st ≠ .panicked) :
    ∃ e c, Parser.parse ho fuel vm P text s = (.err e, c) ∧ st.Shows pd start text.length e c.proc.rest c.state :=
  have ⟨ha, hpf⟩ := newFromParserData_ok hw hP
  (parse_stops hw ha.defined hpf hs hdef vm fuel text s).2.1 st h hne

/-- **C95**, panics: `parse` panics exactly if, while the text is read and the trees are walked, adding a node or executing
the instructions of a finished node panics. -/
theorem C95_panic_iff (hw : WellFormed pd) (hP : Parser.newFromParserData ho0 fuel0 pd start = .ok P)
    (hs : StartSymbol pd st0) (hdef : ∃ r, AMap.get pd.rules st0 = some r) (vm : VM I S) (text : Str) (s : S) :
    (Parser.parse ho fuel vm P text s).1 = .panic ↔ Stops vm pd start fuel none [st0] text (Tree.new, s) .panicked :=
  have ⟨ha, hpf⟩ := newFromParserData_ok hw hP
  (parse_stops hw ha.defined hpf hs hdef vm fuel text s).2.2

/-- **C95**, nothing else can happen: with enough call depth, for every virtual machine, state and script up to the given
length, either the whole parse tree is read and walked, or reading stops. -/
theorem C95_walk_or_stop (hw : WellFormed pd) (hP : Parser.newFromParserData ho0 fuel0 pd start = .ok P)
    (hs : StartSymbol pd st0) (hdef : ∃ r, AMap.get pd.rules st0 = some r) (n : Nat) : ∃ N, ∀ fuel, N ≤ fuel →
      ∀ (vm : VM I S) (text : Str) (s : S), text.length ≤ n →
      (∃ f rest t s', TopDown pd start [st0] text f rest ∧ f.height ≤ fuel ∧ Walk vm pd none f (Tree.new, s) (t, s')) ∨
      ∃ st, Stops vm pd start fuel none [st0] text (Tree.new, s) st := by
  obtain ⟨ha, hpf⟩ := newFromParserData_ok hw hP
  obtain ⟨N, hN⟩ := C24_parse_terminates (S := S) hw hP hs n
  refine ⟨N, fun fuel hf vm text s hn => ?_⟩
  have hnt := hN fuel hf .insertion vm text s hn
  obtain ⟨h1, -, h3⟩ := parse_stops (ho := .insertion) hw ha.defined hpf hs hdef vm fuel text s
  rcases hx : Parser.parse .insertion fuel vm P text s with ⟨r, c⟩
  rw [hx] at hnt h1 h3
  cases r with
  | ok t =>
    obtain ⟨f, k1, k2, k3⟩ := (parse_walk hw hpf hs vm fuel text c.proc.rest s c.state t).1 ⟨c, hx, rfl, rfl⟩
    exact .inl ⟨f, _, _, _, k1, k2, k3⟩
  | err e =>
    obtain ⟨st, k, -⟩ := h1 e c rfl
    exact .inr ⟨st, k⟩
  | panic => exact .inr ⟨_, h3.1 rfl⟩
  | timeout => exact absurd rfl hnt

/-! ### samples -/

/-- Counts the executed instructions by adding them up. -/
def Samples.sumVm : VM Nat Nat where
  parseInstructions _ p := (.ok [], p)
  execute t _ i s := some (t, s + i)
  init := 0

/-- The error, unread text and state of a failed parse. -/
def Samples.failOf {S α : Type} (x : Res PErr α × Ctx S) : Option (PErr × Str × S) :=
  match x.1 with
  | .err e => some (e, x.2.proc.rest, x.2.state)
  | _ => none

theorem Samples.failOf_eq {S α : Type} {x : Res PErr α × Ctx S} {e : PErr} {r : Str} {s : S}
    (h : Samples.failOf x = some (e, r, s)) : ∃ c, x = (.err e, c) ∧ c.proc.rest = r ∧ c.state = s := by
  obtain ⟨a, c⟩ := x
  unfold Samples.failOf at h
  split at h
  · next e' he =>
    simp only at he
    subst he
    simp only [Option.some.injEq, Prod.mk.injEq] at h
    obtain ⟨rfl, rfl, rfl⟩ := h
    exact ⟨c, rfl, rfl, rfl⟩
  · cases h

theorem Samples.pruneData_defined : ∃ r, AMap.get Samples.pruneData.rules 0 = some r := by
  have h : (AMap.get Samples.pruneData.rules 0).isSome = true := by decide +kernel
  exact Option.isSome_iff_exists.1 h

/-- In `start -> a b; a -> "x" {7}; b -> "y" c; c -> "z";` the script `xyq` fails at `q`, but the node for `a` is finished,
and its instruction has been executed: the state is 10 + 7. -/
example : ∃ c, Parser.parse .insertion 9 Samples.sumVm Samples.pruneParser (c% "xyq") 10 =
    (.err (.unexpectedChar 'q' 2 (c% "z")), c) ∧ c.proc.rest = c% "q" ∧ c.state = 17 :=
  Samples.failOf_eq (by decide +kernel)

/-- The same stop, from the definition: `a` is finished and walked, then, inside `b` and after `y`, there is no alternative
of `c` for `q`. -/
example : ∃ st, Stops Samples.sumVm Samples.pruneData 0 9 none [0] (c% "xyq") (Tree.new, 10) st ∧
    st.Shows Samples.pruneData 0 3 (.unexpectedChar 'q' 2 (c% "z")) (c% "q") 17 := by
  obtain ⟨c, h1, h2, h3⟩ := Samples.failOf_eq
    (x := Parser.parse .insertion 9 Samples.sumVm Samples.pruneParser (c% "xyq") 10)
    (e := .unexpectedChar 'q' 2 (c% "z")) (r := c% "q") (s := 17) (by decide +kernel)
  obtain ⟨st, k1, k2⟩ := C95_failed_parse_stops Samples.pruneData_wf Samples.pruneParser_eq Samples.pruneData_start
    Samples.pruneData_defined Samples.sumVm (c% "xyq") 10 h1
  rw [h2, h3] at k2
  exact ⟨st, k1, k2⟩

/-- With the machine that prunes, `xyz` stops because the parent of `c` is gone (compare C85). -/
example : ∃ s, Stops Samples.pruneVm Samples.pruneData 0 9 none [0] (c% "xyz") (Tree.new, 0)
    (.noParent (.nodeDoesNotExist ⟨2, 3⟩) (c% "z") s) := by
  obtain ⟨c, h1, h2, -⟩ := Samples.failOf_eq
    (x := Parser.parse .insertion 9 Samples.pruneVm Samples.pruneParser (c% "xyz") 0)
    (e := .tree (.nodeDoesNotExist ⟨2, 3⟩)) (r := c% "z") (s := 0) (by decide +kernel)
  obtain ⟨st, k1, k2⟩ := C95_failed_parse_stops Samples.pruneData_wf Samples.pruneParser_eq Samples.pruneData_start
    Samples.pruneData_defined Samples.pruneVm (c% "xyz") 0 h1
  rw [h2] at k2
  cases st with
  | wrongChar => obtain ⟨h, -⟩ := k2; cases h
  | ended => obtain ⟨h, -⟩ := k2; cases h
  | noAlternative => obtain ⟨-, -, _, _, -, -, -, h⟩ := k2; cases h
  | noParent e r s =>
    obtain ⟨h, rfl, -⟩ := k2
    cases h
    exact ⟨s, k1⟩
  | panicked => exact k2.elim

/-- A machine that panics when it is asked to execute 7. -/
def Samples.brokenVm : VM Nat Nat where
  parseInstructions _ p := (.ok [], p)
  execute t _ i s := if i = 7 then none else some (t, s + i)
  init := 0

/-- Whether a parse panics. -/
def Samples.panics {S α : Type} (x : Res PErr α × Ctx S) : Bool :=
  match x.1 with
  | .panic => true
  | _ => false

theorem Samples.panics_eq {S α : Type} {x : Res PErr α × Ctx S} (h : Samples.panics x = true) : x.1 = .panic := by
  obtain ⟨a, c⟩ := x
  cases a <;> first | rfl | cases h

example : Stops Samples.brokenVm Samples.pruneData 0 9 none [0] (c% "xyq") (Tree.new, 0) .panicked :=
  (C95_panic_iff (ho := .insertion) Samples.pruneData_wf Samples.pruneParser_eq Samples.pruneData_start Samples.pruneData_defined
    Samples.brokenVm (c% "xyq") 0).1 (Samples.panics_eq (by decide +kernel))

end HPP
