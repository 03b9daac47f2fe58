import Verif.Props.Parse
import Verif.Props.Counting
import Verif.Props.LL1
import Verif.Props.TopDown
import Verif.Props.Failing
/-
Concrete cases of the theorems on constructing parsers and parsing (C13 - C31, C54, C55, C60, C67, C68, C95): the hypotheses
of each are met by the grammar `start -> item rest; rest -> "," item rest | #; item -> "ab" | "c";` and scripts for it.
-/
namespace HPP
open Spec

/-- `C21_parse_sound`: the script `ab,c` is accepted and read completely, so it is in the language. -/
theorem Samples.list_language : Language (grammarOf Samples.listData) 0 (c% "ab,c") := by
  obtain ⟨t, c, h, hr⟩ := Samples.okRest_eq (r := [])
    (x := Parser.parse .insertion 9 nullVm Samples.listParser (c% "ab,c") 0) (by decide +kernel)
  obtain ⟨x, h1, h2⟩ := C21_parse_sound Samples.listData_wf Samples.listParser_eq Samples.listData_start nullVm h
  rw [hr, List.append_nil] at h1
  rwa [h1]

/-- `C22_parse_complete`: the script `ab,c` is accepted for all hash orders and states. -/
example : ∃ N, ∀ fuel, N ≤ fuel → ∀ (ho : HashOrder) (s : Nat),
    ∃ t c, Parser.parse ho fuel nullVm Samples.listParser (c% "ab,c") s = (.ok t, c) ∧ c.proc.rest = [] :=
  C22_parse_complete Samples.listData_wf Samples.listParser_eq Samples.listData_start nullVm nullVm_treePreserving nullVm_total
    Samples.list_language

/-- `C23_consumed_all_partial`: `ab,` is not in the language, as no parse of it succeeds and reads it completely. -/
example : ¬ Language (grammarOf Samples.listData) 0 (c% "ab,") := by
  intro hl
  obtain ⟨N, hN⟩ := C23_consumed_all_partial (S := Nat) Samples.listData_wf Samples.listParser_eq Samples.listData_start nullVm
    nullVm_treePreserving nullVm_total (c% "ab,")
  obtain ⟨t, c, h, -⟩ := (hN (N + 9) (by omega) .insertion 0).1 hl
  obtain ⟨c', h'⟩ := Samples.errOf_eq (e := .unexpectedChar '#' 3 (c% "a;c"))
    (x := Parser.parse .insertion 9 nullVm Samples.listParser (c% "ab,") 0) (by decide +kernel)
  obtain ⟨x, h1, h2⟩ := C28_fails_at_first_bad_character Samples.listData_wf Samples.listParser_eq Samples.listData_start nullVm
    nullVm_treePreserving h'
  have hr : c'.proc.rest = [] := by
    have : Samples.failOf (Parser.parse .insertion 9 nullVm Samples.listParser (c% "ab,") 0) =
      some (.unexpectedChar '#' 3 (c% "a;c"), [], 0) := by decide +kernel
    rw [h'] at this
    simp only [Samples.failOf, Option.some.injEq, Prod.mk.injEq] at this
    exact this.2.1
  rw [hr, List.append_nil] at h1
  rw [h1] at hl
  exact h2.2 hr hl

/-- `C24_parse_terminates`: for the scripts of at most 1000 characters. -/
example : ∃ N, ∀ fuel, N ≤ fuel → ∀ (ho : HashOrder) (vm : VM Nat Nat) (text : Str) (s : Nat), text.length ≤ 1000 →
    (Parser.parse ho fuel vm Samples.listParser text s).1 ≠ .timeout :=
  C24_parse_terminates Samples.listData_wf Samples.listParser_eq Samples.listData_start 1000

/-- `C28_viable_prefix`: in the failing parse of `ab,x` the text `ab,` is read, which begins a sentential form. -/
example : ∃ v, Derives (grammarOf Samples.listData) [.nt 0] (ofText (c% "ab,") ++ v) := by
  obtain ⟨x, v, h1, h2⟩ := C28_viable_prefix (ho := .insertion) (fuel := 9) Samples.listData_wf Samples.listParser_eq
    Samples.listData_start nullVm (c% "ab,x") 0
  have hr : (Parser.parse .insertion 9 nullVm Samples.listParser (c% "ab,x") 0).2.proc.rest = c% "x" := by decide +kernel
  rw [hr] at h1
  have hx : x = c% "ab," := List.append_cancel_right (bs := c% "x") h1.symm
  subst hx
  exact ⟨v, h2⟩

/-- `C29_only_syntax_errors`: no parse of `ab,x` panics or fails with another error. -/
example (ho : HashOrder) (fuel s : Nat) : (Parser.parse ho fuel nullVm Samples.listParser (c% "ab,x") s).1 ≠ .panic :=
  (C29_only_syntax_errors Samples.listData_wf Samples.listParser_eq Samples.listData_start nullVm nullVm_treePreserving
    nullVm_total (c% "ab,x") s).1

/-- `C31_expected_list_exact`: the error of `ab,x` lists the lookaheads of a non-terminal that is expected behind `ab,`. -/
example : ∃ B r v L, AMap.get Samples.listData.rules B = some r ∧
    Derives (grammarOf Samples.listData) [.nt 0] (ofText (c% "ab,") ++ .nt B :: v) ∧ c% "a;c" = expectedText L ∧
    ∀ m, m ∈ L ↔ ∃ p ∈ r.prods, Control Samples.listData 0 B p m := by
  obtain ⟨c', h'⟩ := Samples.errOf_eq (e := .unexpectedChar 'x' 3 (c% "a;c"))
    (x := Parser.parse .insertion 9 nullVm Samples.listParser (c% "ab,x") 0) (by decide +kernel)
  have hr : c'.proc.rest = c% "x" := by
    have : (Parser.parse .insertion 9 nullVm Samples.listParser (c% "ab,x") 0).2.proc.rest = c% "x" := by decide +kernel
    rw [h'] at this
    exact this
  obtain ⟨x, h1, -, h3⟩ := C31_expected_list_exact Samples.listData_wf Samples.listParser_eq Samples.listData_start nullVm h'
  rw [hr] at h1
  have hx : x = c% "ab," := List.append_cancel_right (bs := c% "x") h1.symm
  subst hx
  rcases h3 with ⟨c', v, h4, -⟩ | ⟨B, r, v, L, a1, a2, a3, a4, a5, a6⟩
  · cases h4
  · exact ⟨B, r, v, L, a1, a2, a3, a5⟩

/-- `C13_follow_sets_exact`: `rest` stands at the end of a form of `start`, and a comma follows `item`. -/
example : FollowEnd (grammarOf Samples.listData) 0 2 ∧ FollowChar (grammarOf Samples.listData) 1 ',' := by
  obtain ⟨-, h2⟩ := C13_follow_sets_exact (pd := Samples.listData) rfl Samples.listData_first Samples.listData_follow
  exact ⟨(h2 2 _ rfl).2.1 (by decide), ((h2 1 _ rfl).1 ',').1 (by decide)⟩

/-- `C14_follow_returns`: for any table of FIRST sets. -/
example (ho : HashOrder) (fs : NamedSets) : ∃ N, ∀ fuel, N ≤ fuel →
    (∃ r, getFollowSets ho fuel 0 fs Samples.listData = .ok r) ∨ ∃ e, getFollowSets ho fuel 0 fs Samples.listData = .err e :=
  C14_follow_returns Samples.listData_wf ho 0 fs

/-- `C16_conflict_detection_exact`: the control sets of the sample are disjoint, so the maps are built. -/
example (ho : HashOrder) : ∃ fs fo maps, getSteuermaps ho fs fo Samples.listData = .ok maps := by
  have ha := Samples.listData_acceptable
  obtain ⟨maps, h, -⟩ := (C16_conflict_detection_exact Samples.listData_wf Samples.listData_defined ha.noEmptyTerminal
    Samples.listData_first Samples.listData_follow ho).1 ha.disjoint
  exact ⟨_, _, maps, h⟩

/-- `C19_unambiguous_nt`: `rest`, which stands at the end of scripts, is unambiguous. -/
example {f f' : Forest} {s : Str} (h : IsForest Samples.listData [2] f s) (h' : IsForest Samples.listData [2] f' s) : f = f' := by
  obtain ⟨-, h2⟩ := C13_follow_sets_exact (pd := Samples.listData) rfl Samples.listData_first Samples.listData_follow
  exact C19_unambiguous_nt Samples.listData_wf Samples.listParser_eq rfl (.inl ((h2 2 _ rfl).2.1 (by decide))) h h'

/-- `C54_counts`: parsing `ab,c` with CountingVm adds 4: two instructions of `start`, one for each of two `rest`. -/
example : ∃ t c, Parser.parse .insertion 9 (countingVm true) Samples.listParser (c% "ab,c") 5 = (.ok t, c) ∧ c.state = 9 ∧
    ∃ p k, IsForest Samples.listData [0] (.node 0 p k .nil) (c% "ab,c") ∧
      5 + ((occurrences (.node 0 p k .nil)).map fun A => (instrOf Samples.listData A).length).sum = 9 := by
  obtain ⟨t, c, h, hr⟩ := Samples.okRest_eq (r := [])
    (x := Parser.parse .insertion 9 (countingVm true) Samples.listParser (c% "ab,c") 5) (by decide +kernel)
  have hst : (Parser.parse .insertion 9 (countingVm true) Samples.listParser (c% "ab,c") 5).2.state = 9 := by decide +kernel
  rw [h] at hst
  simp only at hst
  obtain ⟨x, p, k, h1, h2, -, h4⟩ := C54_counts Samples.listData_wf Samples.listParser_eq Samples.listData_start h
  rw [hr, List.append_nil] at h1
  subst h1
  exact ⟨t, c, h, hst, p, k, h2, h4 ▸ hst⟩

/-- `C55_null_state`: for the parse of `ab,x`. -/
example (ho : HashOrder) : (Parser.parse ho 9 nullVm Samples.listParser (c% "ab,x") 3).2.state = 3 :=
  C55_null_state ho 9 Samples.listParser (c% "ab,x") 3

/-- `C60_only_vm_panics`: a parse with a machine that fails at the second instruction of `start`, and the panic it is for. -/
example : (Parser.parse .insertion 9 Samples.brokenVm Samples.pruneParser (c% "xyz") 0).1 ≠ .panic ∨
    ∃ τ id i s', Samples.brokenVm.execute τ id i s' = none := by
  by_cases h : (Parser.parse .insertion 9 Samples.brokenVm Samples.pruneParser (c% "xyz") 0).1 = .panic
  · exact .inr (C60_only_vm_panics Samples.pruneData_wf Samples.pruneParser_eq Samples.pruneData_start Samples.brokenVm
      (by intro t id i s t' s' h; simp only [Samples.brokenVm] at h; split at h <;> cases h <;> rfl) h)
  · exact .inl h

end HPP
