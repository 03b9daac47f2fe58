import Verif.Props.Cases.Parsing
import Verif.Props.AnyVm
import Verif.Props.Rounds
import Verif.Props.Limits
import Verif.Props.Cost
import Verif.Props.Renaming
import Verif.Props.Locality
import Verif.Props.StackMachine
/-
Concrete cases of further theorems on constructing parsers and parsing (C14 - C18, C20, C25 - C27, C30, C54, C55, C60, C62,
C63, C67, C68, C83, C86, C87, C89), mostly for `start -> item rest; rest -> "," item rest | #; item -> "ab" | "c";`.
-/
namespace HPP
open Spec

/-- The tree of `ab,c`. -/
def Samples.listForest : Forest :=
  .node 0 (.notEmpty [1, 2]) (.node 1 (.notEmpty [4]) (.leaf 4 .nil)
      (.node 2 (.notEmpty [3, 1, 2]) (.leaf 3 (.node 1 (.notEmpty [5]) (.leaf 5 .nil)
        (.node 2 .empty .nil .nil))) .nil)) .nil

theorem Samples.listForest_isForest : IsForest Samples.listData [0] Samples.listForest (c% "ab,c") := by
  refine .node (s1 := c% "ab,c") (s2 := []) rfl rfl (.head _) ?_ .nil
  refine .node (s1 := c% "ab") (s2 := c% ",c") rfl rfl (.head _) (.leaf (d := ⟨false, c% "ab"⟩) rfl rfl .nil) ?_
  refine .node (s1 := c% ",c") (s2 := []) rfl rfl (.head _) ?_ .nil
  refine .leaf (d := ⟨false, c% ","⟩) (s := c% "c") rfl rfl ?_
  refine .node (s1 := c% "c") (s2 := []) rfl rfl (.tail _ (.head _)) (.leaf (d := ⟨false, c% "c"⟩) rfl rfl .nil) ?_
  exact .node (s1 := []) (s2 := []) rfl rfl (.tail _ (.head _)) .nil .nil

theorem Samples.list_parse : ∃ t c, Parser.parse .insertion 9 nullVm Samples.listParser (c% "ab,c") 0 = (.ok t, c) ∧
    c.proc.rest = [] := Samples.okRest_eq (by decide +kernel)

/-- `C14_follow_terminates`, also for the left-recursive grammar. -/
example : ∃ N r, r ≠ .timeout ∧ ∀ fuel, N ≤ fuel → getFollowSets .reversed fuel 0 [] Samples.leftRecData = r :=
  C14_follow_terminates .reversed 0 [] Samples.leftRecData

/-- `C14_follow_succeeds`: for all orders of the hash tables. -/
example (ho : HashOrder) : ∃ fs, getFirstSets .insertion 5 Samples.listData = .ok fs ∧
    ∃ N, ∀ fuel, N ≤ fuel → ∃ r, getFollowSets ho fuel 0 fs Samples.listData = .ok r :=
  ⟨_, Samples.listData_first, C14_follow_succeeds Samples.listData_wf Samples.listData_defined rfl Samples.listData_first ho⟩

/-- `C15_steuer_sets`: both cases of the tables. -/
example (ho : HashOrder) : (∃ r, getSteuerSets ho [(0, [.char 'a', .empty])] [(0, [.terminate])] = .ok r) ∧
    getSteuerSets ho [(1, [.empty])] [(0, [.terminate])] = .err (.missingFollowSet 1) := by
  refine ⟨?_, ?_⟩
  · obtain ⟨r, h, -⟩ := (C15_steuer_sets ho (first := [(0, [.char 'a', .empty])]) (follow := [(0, [.terminate])])
      (by simp) (by
        intro n S h
        have := AMap.mem_of_get h
        simp only [List.mem_singleton, Prod.mk.injEq] at this
        rw [this.2]; decide)).1 (by
        intro n f h _
        have := AMap.mem_of_get h
        simp only [List.mem_singleton, Prod.mk.injEq] at this
        exact ⟨_, by rw [this.1]; rfl⟩)
    exact ⟨r, h⟩
  · obtain ⟨n, f, h1, -, -, h4⟩ := (C15_steuer_sets ho (first := [(1, [.empty])]) (follow := [(0, [.terminate])])
      (by simp) (by
        intro n S h
        have := AMap.mem_of_get h
        simp only [List.mem_singleton, Prod.mk.injEq] at this
        rw [this.2]; decide)).2 ⟨1, [.empty], rfl, by simp, rfl⟩
    have := AMap.mem_of_get h1
    simp only [List.mem_singleton, Prod.mk.injEq] at this
    rw [h4, this.1]

/-- `C15_steuer_sets_grammar`: for all orders of the hash tables. -/
example (ho : HashOrder) : ∃ fs fo st, getFirstSets .insertion 5 Samples.listData = .ok fs ∧
    getFollowSets .insertion 5 0 fs Samples.listData = .ok fo ∧ getSteuerSets ho fs fo = .ok st := by
  obtain ⟨st, h, -⟩ := C15_steuer_sets_grammar rfl Samples.listData_first Samples.listData_follow ho
  exact ⟨_, _, st, Samples.listData_first, Samples.listData_follow, h⟩

/-- `C16_empty_terminal_rejected`: the sample has maps, so no alternative begins with the empty terminal. -/
example : NoLeadingEmptyTerminal Samples.listData := by
  have ha := Samples.listData_acceptable
  obtain ⟨maps, h, -⟩ := (C16_conflict_detection_exact Samples.listData_wf Samples.listData_defined ha.noEmptyTerminal
    Samples.listData_first Samples.listData_follow .insertion).1 ha.disjoint
  exact C16_empty_terminal_rejected h

/-- `C16_parser_built_iff`: a conflict is never accepted, whatever the hash order and the limits. -/
example (ho : HashOrder) (fuel : Nat) (P : Parser Nat) : Parser.newFromParserData ho fuel Samples.conflictData 0 ≠ .ok P := by
  intro h
  have hw : WellFormed Samples.conflictData := Samples.wf_of_check rfl
  have ha := (C16_parser_built_iff hw ho 0).1 ⟨fuel, P, h⟩
  have := List.rel_of_pairwise_cons (ha.disjoint 0 ⟨[.notEmpty [1], .notEmpty [2]], none, []⟩ rfl)
    (a' := .notEmpty [2]) (by simp)
  exact this (.char 'a') ⟨.inl ⟨rfl, ⟨false, c% "ab"⟩, 'a', rfl, rfl, rfl⟩, .inl ⟨rfl, ⟨false, c% "ac"⟩, 'a', rfl, rfl, rfl⟩⟩

/-- `C17_undefined_rejected`. -/
example (ho : HashOrder) (fuel : Nat) (P : Parser Nat) : Parser.newFromParserData ho fuel Samples.undefinedData 0 ≠ .ok P :=
  C17_undefined_rejected rfl (.inl ⟨0, _, .notEmpty [1, 2], 2, rfl, .head _, .tail _ (.head _), rfl, rfl⟩) ho fuel P

/-- `C18_construction_deterministic` and `C18_parse_deterministic`: two hash orders at construction, two while parsing. -/
example : ∃ P1 P2, Parser.newFromParserData .insertion 9 Samples.listData 0 = .ok P1 ∧
    Parser.newFromParserData .reversed 9 Samples.listData 0 = .ok P2 ∧
    (Parser.parse .insertion 9 nullVm P1 (c% "ab,x") 0).2 = (Parser.parse .reversed 9 nullVm P2 (c% "ab,x") 0).2 :=
  ⟨_, _, rfl, rfl, (C18_parse_deterministic (start := 0) Samples.listData_wf (ho1 := .insertion) (ho2 := .reversed) (fuel1 := 9)
    (fuel2 := 9) rfl rfl nullVm _ 0).1⟩

example : (∃ fuel P, Parser.newFromParserData .insertion fuel Samples.listData 0 = .ok P) ↔
    ∃ fuel P, Parser.newFromParserData .reversed fuel Samples.listData 0 = .ok P :=
  C18_construction_deterministic Samples.listData_wf _ _

/-- `C20_rejection_explained_partial`: the textbook LL(1) grammar that is rejected; the explanation is the alternative
`a "x"` of `start`, which begins with the name `a` that can be empty. -/
example : ∃ pd : ParserData Nat, ∃ A r e es q m, AMap.get pd.rules A = some r ∧ Production.notEmpty (e :: es) ∈ r.prods ∧
    q ∈ r.prods ∧ Nullable (grammarOf pd) [.nt e] ∧ FollowMember (grammarOf pd) 0 e m ∧ Control pd 0 A q m := by
  obtain ⟨pd, hw, hd, hs, hlr, hne, hll, hno⟩ := C20_refuted
  obtain ⟨A, r, e, es, q, m, h1, h2, h3, -, h5, h6, h7, -⟩ :=
    C20_rejection_explained_partial hw hd hs hlr hne hll .insertion (hno .insertion)
  exact ⟨pd, A, r, e, es, q, m, h1, h2, h3, h5, h6, h7⟩

/-- `C25_tree_is_derivation_tree` and `C26_instructions_in_post_order`: the parse of `ab,c`. -/
example : ∃ t p k, Shows t ⟨0, 0⟩ (.node [] (roses Samples.listData k)) ∧
    IsForest Samples.listData [0] (.node 0 p k .nil) (c% "ab,c") ∧
    Rose.text (.node [] (roses Samples.listData k)) = c% "ab,c" := by
  obtain ⟨t, c, h, hr⟩ := Samples.list_parse
  obtain ⟨x, p, k, h1, h2, h3, h4, -⟩ := C25_tree_is_derivation_tree Samples.listData_wf Samples.listParser_eq
    Samples.listData_start nullVm nullVm_treePreserving h
  rw [hr, List.append_nil] at h1
  subst h1
  exact ⟨t, p, k, h3, h2, h4⟩

example : ∃ p k s, Runs nullVm Samples.listData (events Samples.listData 0 (.node 0 p k .nil)) 0 s := by
  obtain ⟨t, c, h, hr⟩ := Samples.list_parse
  obtain ⟨x, p, k, -, -, -, h4⟩ := C26_instructions_in_post_order Samples.listData_wf Samples.listParser_eq
    Samples.listData_start nullVm nullVm_treePreserving h
  exact ⟨p, k, _, h4⟩

/-- `C27_error_positions`: the error of `ab;c` names the character at its position. -/
example : (c% "ab;c")[2]? = some ';' := by
  have h : (Parser.parse .insertion 9 nullVm Samples.listParser (c% "ab;c") 0).1 =
    .err (.unexpectedChar ';' 2 (c% ",;terminate")) := by decide +kernel
  rcases (C27_error_positions .insertion 9 nullVm Samples.listParser (c% "ab;c") 0).1 _ _ _ h with h | ⟨h, -⟩
  · exact h
  · exact absurd h (by decide)

/-- `C30_parses_from_start_partial`: a parser built with another start index still reads from `start`. -/
example : ∃ t c, Parser.parse .insertion 9 nullVm Samples.listParser (c% "ab,c") 0 = (.ok t, c) ∧
    ∃ x, c% "ab,c" = x ++ c.proc.rest ∧ Language (grammarOf Samples.listData) 0 x := by
  obtain ⟨t, c, h, -⟩ := Samples.list_parse
  exact ⟨t, c, h, (C30_parses_from_start_partial Samples.listData_wf Samples.listParser_eq Samples.listData_start nullVm
    (c% "ab,c") [] 0).1 t c h⟩

/-- `C54_counts_sections`: at most one instruction per rule, as CountingVm makes them. -/
example (f : Forest) : ((occurrences f).map fun A => (instrOf Samples.nestData A).length).sum =
    (occurrences f).countP (fun A => decide (instrOf Samples.nestData A ≠ [])) :=
  C54_counts_sections (fun A => by
    unfold instrOf
    cases h : AMap.get Samples.nestData.rules A with
    | none => simp
    | some r =>
      have := AMap.mem_of_get h
      have hr : (A, r) ∈ [((0 : Nat), (⟨[.notEmpty [1, 0, 2], .empty], none, []⟩ : NTRule Nat))] := this
      simp only [List.mem_singleton, Prod.mk.injEq] at hr
      rw [hr.2]
      simp) f

/-- `C55_outcome_independent`: CountingVm accepts what NullVm accepts. -/
example : (Parser.parse .insertion 9 (countingVm true) Samples.listParser (c% "ab,x") 5).1 =
    (Parser.parse .insertion 9 nullVm Samples.listParser (c% "ab,x") 0).1 ∨ ¬ Total (countingVm true) := by
  by_cases h : Total (countingVm true)
  · exact .inl (C55_outcome_independent .insertion 9 Samples.listParser (c% "ab,x") 0 (countingVm true)
      (countingVm_treePreserving true) h 5).1
  · exact .inr h

/-- `C60_accepts_or_vm_panics`: the script `ab,c`. -/
example : ∃ N, ∀ fuel, N ≤ fuel → ∀ (ho : HashOrder) (s : Nat),
    (∃ t c, Parser.parse ho fuel (countingVm true) Samples.listParser (c% "ab,c") s = (.ok t, c) ∧ c.proc.rest = []) ∨
    (∃ c, Parser.parse ho fuel (countingVm true) Samples.listParser (c% "ab,c") s = (.panic, c)) := by
  obtain ⟨N, hN⟩ := C60_accepts_or_vm_panics Samples.listData_wf Samples.listParser_eq Samples.listData_start (countingVm true)
    (countingVm_treePreserving true) Samples.listForest_isForest
  refine ⟨N, fun fuel hf ho s => ?_⟩
  rcases hN fuel hf ho s with ⟨t, c, h1, h2, -⟩ | ⟨c, -, -, -, -, -, h, -⟩
  · exact .inl ⟨t, c, h1, h2⟩
  · exact .inr ⟨c, h⟩

/-- `C62_one_character_lookahead`: whatever follows the offending `;`, the error is the same. -/
example (r : Str) : (Parser.parse .insertion 9 nullVm Samples.listParser (c% "ab" ++ ';' :: r) 0).1 =
    .err (.unexpectedChar ';' 2 (c% ",;terminate")) := by
  have h := (C62_one_character_lookahead .insertion 9 nullVm Samples.listParser 0 (consumed := c% "ab") (x := ';') (r := c% "c")
    (by decide +kernel) r).1
  have h2 : (Parser.parse .insertion 9 nullVm Samples.listParser (c% "ab" ++ ';' :: c% "c") 0).1 =
    .err (.unexpectedChar ';' 2 (c% ",;terminate")) := by decide +kernel
  rw [h, h2]

/-- `C63_built_iff`: the sample and its renumbering. -/
example : (∃ fuel P, Parser.newFromParserData .reversed fuel Samples.shuffledData (Samples.shuffle 0) = .ok P) :=
  (C63_built_iff Samples.listData_wf Samples.shuffledData_wf Samples.renumbered .insertion .reversed).1 ⟨9, _, Samples.listParser_eq⟩

/-- `C67_first_depth`: three rules, four nested calls. -/
example (ho : HashOrder) : ∃ fs, getFirstSets ho 4 Samples.listData = .ok fs :=
  C67_first_depth Samples.listData_wf Samples.listData_defined Samples.listData_acceptable.noLeftRec ho
    (by rw [Samples.listData_rules]; decide)

/-- `C67_parse_depth`: a script of four characters needs at most 16 nested calls. -/
example (ho : HashOrder) (vm : VM Nat Nat) : (Parser.parse ho 16 vm Samples.listParser (c% "ab,x") 0).1 ≠ .timeout :=
  C67_parse_depth Samples.listData_wf Samples.listParser_eq Samples.listData_start vm _ 0
    (by rw [Samples.listData_rules]; decide)

/-- `C67_depth_is_tree_height`: the tree of `ab,c` has height 3. -/
example (ho : HashOrder) : (∃ t c, Parser.parse ho 3 nullVm Samples.listParser (c% "ab,c") 0 = (.ok t, c) ∧ c.proc.rest = []) ∧
    (Parser.parse ho 2 nullVm Samples.listParser (c% "ab,c") 0).1 = .timeout :=
  ⟨(C67_depth_is_tree_height (fuel := 3) Samples.listData_wf Samples.listParser_eq Samples.listData_start nullVm
      nullVm_treePreserving nullVm_total Samples.listForest_isForest 0).1 (by decide),
   (C67_depth_is_tree_height (fuel := 2) Samples.listData_wf Samples.listParser_eq Samples.listData_start nullVm
      nullVm_treePreserving nullVm_total Samples.listForest_isForest 0).2 (by decide)⟩

/-- `C68_stops_only_when_forced`: after `a` of `ab`, nothing that goes on with `b` is in the language. -/
example : ∀ z, ¬ Language (grammarOf Samples.twoData) 0 (c% "a" ++ 'b' :: z) := by
  obtain ⟨t, c, h, hr⟩ := Samples.okRest_eq (r := c% "b")
    (x := Parser.parse .insertion 9 nullVm Samples.twoParser (c% "ab") 0) (by decide +kernel)
  obtain ⟨x, h1, -, h3⟩ := C68_stops_only_when_forced (ho0 := .insertion) (fuel0 := 9) (start := 0) Samples.twoData_wf rfl
    Samples.twoData_start nullVm h hr
  have hx : x = c% "a" := List.append_cancel_right (bs := c% "b") h1.symm
  subst hx
  exact h3

/-- `C83_parse_is_walk`: the parse of `ab,c` with `NullVm` is a walk. -/
example (t : Tree Str) (s' : Nat) (c : Ctx Nat) (h : Parser.parse .insertion 9 nullVm Samples.listParser (c% "ab,c") 0 = (.ok t, c))
    (hr : c.proc.rest = []) (hs : c.state = s') :
    ∃ f, TopDown Samples.listData 0 [0] (c% "ab,c") f [] ∧ f.height ≤ 9 ∧ Walk nullVm Samples.listData none f (Tree.new, 0) (t, s') :=
  (C83_parse_is_walk Samples.listData_wf Samples.listParser_eq Samples.listData_start nullVm (c% "ab,c") [] 0 s' t).1
    ⟨c, h, hr, hs⟩

/-- `C87_construction_bound` and `C87_decides`: with four nested calls the construction decides. -/
example (ho : HashOrder) : ∃ P, Parser.newFromParserData ho 4 Samples.listData 0 = .ok P :=
  (C87_decides Samples.listData_wf ho 0 (by rw [Samples.listData_rules]; decide)).2 Samples.listData_acceptable

example (ho : HashOrder) : (∃ P, Parser.newFromParserData ho 4 Samples.listData 1 = .ok P) ∨
    Parser.newFromParserData ho 4 Samples.listData 1 = .panic := by
  rcases C87_construction_bound Samples.listData_wf Samples.listData_acceptable.noLeftRec ho 1 (fuel := 4)
    (by rw [Samples.listData_rules]; decide) with ⟨-, h⟩ | ⟨-, h⟩
  · exact .inl h
  · exact .inr h

/-- `C87_follow_rounds`: three rounds suffice. -/
example (ho : HashOrder) : ∃ fs r, getFirstSets .insertion 5 Samples.listData = .ok fs ∧ r ≠ .timeout ∧
    ∀ fuel, 3 ≤ fuel → getFollowSets ho fuel 0 fs Samples.listData = r := by
  obtain ⟨r, h1, h2⟩ := C87_follow_rounds Samples.listData_first ho 0
  exact ⟨_, r, Samples.listData_first, h1, fun fuel hf => h2 fuel (by rw [Samples.listData_rules]; exact hf) (by omega)⟩

/-- `C89_parse` and `C89_construction`: larger limits change nothing. -/
example (fuel : Nat) (h : 3 ≤ fuel) : ∃ t c, Parser.parse .insertion fuel nullVm Samples.listParser (c% "ab,c") 0 = (.ok t, c) ∧
    c.proc.rest = [] := by
  obtain ⟨t, c, h1, hr⟩ := Samples.okRest_eq (r := [])
    (x := Parser.parse .insertion 3 nullVm Samples.listParser (c% "ab,c") 0) (by decide +kernel)
  exact ⟨t, c, (C89_parse .insertion nullVm Samples.listParser (c% "ab,c") 0 h (by rw [h1]; simp)).trans h1, hr⟩

example (fuel : Nat) (h : 9 ≤ fuel) : Parser.newFromParserData .insertion fuel Samples.listData 0 = .ok Samples.listParser :=
  (C89_construction .insertion Samples.listData 0 h (by rw [Samples.listParser_eq]; simp)).trans Samples.listParser_eq

/-- `C89_sets`: for the FIRST sets of the sample. -/
example (fuel : Nat) (h : 5 ≤ fuel) : ∃ fs, getFirstSets .insertion fuel Samples.listData = .ok fs :=
  ⟨_, ((C89_sets .insertion Samples.listData 0 [] h).1 (by rw [Samples.listData_first]; simp)).trans Samples.listData_first⟩

/-- `C89_one_outcome`: the outcome of `ab,x`. -/
example : ∃ out : Res PErr (Tree Str) × Ctx Nat, out.1 ≠ .timeout ∧
    ∃ N, ∀ fuel, N ≤ fuel → Parser.parse .insertion fuel nullVm Samples.listParser (c% "ab,x") 0 = out := by
  obtain ⟨out, h1, h2, -⟩ := C89_one_outcome Samples.listData_wf Samples.listParser_eq Samples.listData_start .insertion nullVm
    (c% "ab,x") 0
  exact ⟨out, h1, h2⟩

end HPP
