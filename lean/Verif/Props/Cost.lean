import Verif.Proofs.Cost
import Verif.Props.Parse
/-
C86: what a parse does is linear in the length of the script.
-/
namespace HPP
open Spec
variable {I S : Type} {pd : ParserData I} {start st0 : Nat} {P : Parser I} {ho0 ho : HashOrder} {fuel0 fuel : Nat}

/-- **C86**, executions: for a parser made from `R` rules with at most `B` elements per alternative and at most `L`
instructions per rule, whatever the virtual machine does and whether or not the script is accepted, at most
`L (B+1)^R (1 + R B n)` instructions are executed for a script of `n` characters. -/
theorem C86_executions (hw : WellFormed pd) (hP : Parser.newFromParserData ho0 fuel0 pd start = .ok P)
    (hs : StartSymbol pd st0) {B L : Nat} (hB : WidthAtMost pd B) (hL : InstrAtMost pd L) (vm : VM I S) (μ : S → Nat)
    (hμ : Meters vm μ) (text : Str) (s : S) :
    μ (Parser.parse ho fuel vm P text s).2.state ≤ μ s + L * ((B + 1) ^ pd.rules.length * (1 + pd.rules.length * B * text.length)) := by
  obtain ⟨ha, hpf⟩ := newFromParserData_ok hw hP
  exact parse_costs hμ hw ha hpf hB hL hs fuel text s

theorem roses_size (pd : ParserData I) (f : Forest) : Rose.sizes (roses pd f) = f.size := by
  induction f with
  | nil => rfl
  | leaf e r ih => simp [roses, Rose.sizes, Rose.size, Forest.size, ih]
  | node A p k r ihk ihr => simp [roses, Rose.sizes, Rose.size, Forest.size, ihk, ihr]

/-- **C86**, nodes: the tree returned for a script (by a machine that does not edit it) has at most `(B+1)^R (1 + R B n)`
nodes, `n` being the number of characters read. -/
theorem C86_nodes (hw : WellFormed pd) (hP : Parser.newFromParserData ho0 fuel0 pd start = .ok P)
    (hs : StartSymbol pd st0) {B : Nat} (hB : WidthAtMost pd B) (vm : VM I S) (htp : TreePreserving vm) {text : Str} {s : S}
    {t : Tree Str} {c : Ctx S} (h : Parser.parse ho fuel vm P text s = (.ok t, c)) :
    ∃ consumed shown, text = consumed ++ c.proc.rest ∧ Shows t ⟨0, 0⟩ shown ∧
      Rose.size shown ≤ (B + 1) ^ pd.rules.length * (1 + pd.rules.length * B * consumed.length) := by
  obtain ⟨ha, -⟩ := newFromParserData_ok hw hP
  obtain ⟨x, p, k, h1, h2, h3, -⟩ := C25_tree_is_derivation_tree hw hP hs vm htp h
  refine ⟨x, _, h1, h3, ?_⟩
  have := tree_bound ha.defined ha.noLeftRec hB h2
  simp only [Forest.size, Nat.add_zero, nodeBound] at this
  simpa [Rose.size, roses_size] using this

theorem le_foldr_max (l : List Nat) : ∀ x ∈ l, x ≤ l.foldr max 0 := by
  induction l with
  | nil => intro x h; cases h
  | cons a l ih =>
    intro x h
    simp only [List.foldr_cons]
    rcases List.mem_cons.1 h with rfl | h
    · exact Nat.le_max_left _ _
    · exact Nat.le_trans (ih x h) (Nat.le_max_right _ _)

theorem width_exists (pd : ParserData I) : ∃ B, WidthAtMost pd B := by
  refine ⟨(pd.rules.flatMap (fun x => x.2.prods.map (fun p => (prodElems p).length))).foldr max 0, ?_⟩
  intro A r hr p hp
  exact le_foldr_max _ _ (List.mem_flatMap.2 ⟨_, AMap.mem_of_get hr, List.mem_map.2 ⟨p, hp, rfl⟩⟩)

theorem instr_exists (pd : ParserData I) : ∃ L, InstrAtMost pd L := by
  refine ⟨(pd.rules.map (fun x => x.2.instr.length)).foldr max 0, ?_⟩
  intro A r hr
  exact le_foldr_max _ _ (List.mem_map.2 ⟨_, AMap.mem_of_get hr, rfl⟩)

/-- **C86**, in short: every parser has a constant `K` such that no parse of a script of `n` characters, with any virtual
machine, accepted or not, executes more than `K (n + 1)` instructions. -/
theorem C86_linear (hw : WellFormed pd) (hP : Parser.newFromParserData ho0 fuel0 pd start = .ok P)
    (hs : StartSymbol pd st0) : ∃ K, ∀ (ho : HashOrder) (fuel : Nat) (S : Type) (vm : VM I S) (μ : S → Nat), Meters vm μ →
      ∀ (text : Str) (s : S), μ (Parser.parse ho fuel vm P text s).2.state ≤ μ s + K * (text.length + 1) := by
  obtain ⟨B, hB⟩ := width_exists pd
  obtain ⟨L, hL⟩ := instr_exists pd
  refine ⟨L * ((B + 1) ^ pd.rules.length * (1 + pd.rules.length * B)), fun ho fuel S vm μ hμ text s => ?_⟩
  refine Nat.le_trans (C86_executions hw hP hs hB hL vm μ hμ text s) (Nat.add_le_add_left ?_ _)
  rw [Nat.mul_assoc L, Nat.mul_assoc ((B + 1) ^ pd.rules.length)]
  refine Nat.mul_le_mul_left _ (Nat.mul_le_mul_left _ ?_)
  rw [Nat.add_mul, Nat.one_mul, Nat.mul_add, Nat.mul_one]
  have h1 := Nat.zero_le text.length
  omega

/-- The counting machine meters itself. -/
theorem countingVm_meters (checked : Bool) : Meters (countingVm checked) id := by
  intro t id' i s t' s' h
  simp only [countingVm, Option.map_eq_some_iff, Prod.mk.injEq] at h
  obtain ⟨a, ha, -, rfl⟩ := h
  simp only [uRes] at ha
  split at ha
  · cases ha; simp only [id]; omega
  · split at ha
    · cases ha
    · cases ha
      simp only [id]
      have : ((s : Int) + 1) % 2 ^ 64 ≤ (s : Int) + 1 := by
        have := Int.emod_nonneg ((s : Int) + 1) (b := 2 ^ 64) (by decide)
        have h2 := Int.emod_add_mul_ediv ((s : Int) + 1) (2 ^ 64)
        have h3 : 0 ≤ ((s : Int) + 1) / 2 ^ 64 := Int.ediv_nonneg (by omega) (by decide)
        have h4 : 0 ≤ 2 ^ 64 * (((s : Int) + 1) / 2 ^ 64) := Int.mul_nonneg (by decide) h3
        omega
      omega

/-- C86 on the list grammar: at most three elements per alternative and two instructions per rule. -/
example : WidthAtMost Samples.listData 3 ∧ InstrAtMost Samples.listData 2 := by
  constructor
  · intro A r hr p hp
    have h : ∀ x ∈ Samples.listData.rules, ∀ p ∈ x.2.prods, (prodElems p).length ≤ 3 := by decide +kernel
    exact h _ (AMap.mem_of_get hr) p hp
  · intro A r hr
    have h : ∀ x ∈ Samples.listData.rules, x.2.instr.length ≤ 2 := by decide +kernel
    exact h _ (AMap.mem_of_get hr)

/-! ### the factor really grows exponentially with the number of rules -/

/-- Names: `start`, `a`, `aa`, ... -/
def Samples.doublingName (i : Nat) : Str := if i = 0 then c% "start" else List.replicate i 'a'

/-- `start -> a a; a -> aa aa; ...`, and the last of the `n + 1` rules has only the empty alternative. -/
def Samples.doublingData (n : Nat) : ParserData Nat where
  rules := (List.range (n + 1)).map (fun i => (i, ⟨[if i = n then .empty else .notEmpty [i + 1, i + 1]], none, [0]⟩))
  ignore := none
  elementTypes := List.replicate (n + 1) .nonTerminal
  verboseMap := (List.range (n + 1)).map (fun i => (⟨Samples.doublingName i, .nonTerminal⟩, i))
  elementData := (List.range (n + 1)).map (fun i => ⟨false, Samples.doublingName i⟩)

theorem Samples.doubling_nodup (n : Nat) : ((Samples.doublingData n).rules.map (·.1)).Nodup := by
  have : (Samples.doublingData n).rules.map (·.1) = List.range (n + 1) := by
    simp only [Samples.doublingData, List.map_map]
    exact List.map_id _
  rw [this]
  exact List.nodup_range

theorem Samples.doubling_get {n A : Nat} {r : NTRule Nat} : AMap.get (Samples.doublingData n).rules A = some r ↔
    A ≤ n ∧ r = ⟨[if A = n then .empty else .notEmpty [A + 1, A + 1]], none, [0]⟩ := by
  rw [AMap.get_eq_some_iff (Samples.doubling_nodup n)]
  simp only [Samples.doublingData, List.mem_map, List.mem_range, Prod.mk.injEq]
  constructor
  · rintro ⟨i, h1, rfl, rfl⟩; exact ⟨by omega, rfl⟩
  · rintro ⟨h1, rfl⟩; exact ⟨A, by omega, rfl, rfl⟩

theorem Samples.doubling_type {n A : Nat} (h : A ≤ n) : (Samples.doublingData n).elementTypes[A]? = some .nonTerminal := by
  simp only [Samples.doublingData]
  rw [List.getElem?_replicate_of_lt (by omega)]

theorem Samples.doubling_wf (n : Nat) : WellFormed (Samples.doublingData n) := by
  refine ⟨Samples.doubling_nodup n, by simp [Samples.doublingData], ?_, ?_, ?_⟩
  · intro A r hr
    exact Samples.doubling_type (Samples.doubling_get.1 hr).1
  · intro A r hr p hp e he
    obtain ⟨h1, rfl⟩ := Samples.doubling_get.1 hr
    simp only [List.mem_singleton] at hp
    subst hp
    have hl : (Samples.doublingData n).elementTypes.length = n + 1 := by simp [Samples.doublingData]
    rw [hl]
    split at he
    · cases he
    · simp only [prodElems, List.mem_cons, List.not_mem_nil, or_false, or_self] at he
      omega
  · intro A r hr p hp
    obtain ⟨h1, rfl⟩ := Samples.doubling_get.1 hr
    simp only [List.mem_singleton] at hp
    subst hp
    split <;> simp

theorem Samples.doubling_start (n : Nat) : StartSymbol (Samples.doublingData n) 0 := by
  have key : ∀ j, (Samples.doublingData n).getElementVerbose j = some ⟨c% "start", .nonTerminal⟩ → j = 0 := by
    intro j h
    simp only [ParserData.getElementVerbose, Samples.doublingData, List.getElem?_map] at h
    by_cases hj : j < n + 1
    · rw [List.getElem?_range hj, List.getElem?_replicate_of_lt hj] at h
      simp only [Option.map_some, Option.some.injEq, ElementVerbose.mk.injEq, and_true, Samples.doublingName] at h
      by_cases h0 : j = 0
      · exact h0
      · rw [if_neg h0] at h
        obtain ⟨k, rfl⟩ : ∃ k, j = k + 1 := ⟨j - 1, by omega⟩
        rw [List.replicate_succ] at h
        exact absurd (List.cons.inj h).1 (by decide)
    · rw [List.getElem?_eq_none (by simpa using hj)] at h
      cases h
  refine ⟨?_, key⟩
  simp only [ParserData.getElementVerbose, Samples.doublingData, List.getElem?_map]
  rw [List.getElem?_range (by omega), List.getElem?_replicate_of_lt (by omega)]
  rfl

theorem Samples.doubling_corner {n A B : Nat} (h : LeftCorner (grammarOf (Samples.doublingData n)) A B) : A < B := by
  obtain ⟨u, v, ⟨r, hr, p, hp, hf⟩, -⟩ := h
  obtain ⟨h1, rfl⟩ := Samples.doubling_get.1 hr
  simp only [List.mem_singleton] at hp
  subst hp
  split at hf
  · simp [prodElems] at hf
  · rename_i hne
    have hT := Samples.doubling_type (n := n) (A := A + 1) (by omega)
    simp only [prodElems, formOf_cons, formOf_nil, elemForm_nonTerminal hT] at hf
    have : Sym.nt B ∈ ([.nt (A + 1)] ++ ([.nt (A + 1)] ++ []) : Form) := by rw [← hf]; simp
    simp at this
    omega

theorem Samples.doubling_acceptable (n : Nat) : Acceptable (Samples.doublingData n) 0 where
  startDefined := ⟨_, Samples.doubling_get.2 ⟨by omega, rfl⟩⟩
  defined := by
    intro A r hr p hp e he _
    obtain ⟨h1, rfl⟩ := Samples.doubling_get.1 hr
    simp only [List.mem_singleton] at hp
    subst hp
    split at he
    · cases he
    · simp only [prodElems, List.mem_cons, List.not_mem_nil, or_false, or_self] at he
      exact ⟨_, Samples.doubling_get.2 ⟨by omega, rfl⟩⟩
  noLeftRec := by
    intro A h
    rw [leftRecursive_iff] at h
    have : ∀ B, Relation.TransGen (LeftCorner (grammarOf (Samples.doublingData n))) A B → A < B := by
      intro B hB
      induction hB with
      | single h => exact Samples.doubling_corner h
      | tail _ h ih => exact Nat.lt_trans ih (Samples.doubling_corner h)
    exact absurd (this A h) (Nat.lt_irrefl _)
  noEmptyTerminal := by
    intro A r hr e es hp hT
    obtain ⟨h1, rfl⟩ := Samples.doubling_get.1 hr
    simp only [List.mem_singleton] at hp
    split at hp
    · cases hp
    · rename_i hne
      simp only [Production.notEmpty.injEq, List.cons.injEq] at hp
      rw [hp.1, Samples.doubling_type (by omega)] at hT
      cases hT
  disjoint := by
    intro A r hr
    obtain ⟨h1, rfl⟩ := Samples.doubling_get.1 hr
    exact List.pairwise_singleton _ _

/-- The parse tree of the empty text for the non-terminal `A`, `d` rules before the last, followed by `rest`. -/
def Samples.doublingTree : Nat → Nat → Forest → Forest
  | 0, A, rest => .node A .empty .nil rest
  | d + 1, A, rest =>
    .node A (.notEmpty [A + 1, A + 1]) (Samples.doublingTree d (A + 1) (Samples.doublingTree d (A + 1) .nil)) rest

theorem Samples.doublingTree_isForest {n : Nat} (d : Nat) : ∀ (A : Nat) (els : List Nat) (rest : Forest), A + d = n →
    IsForest (Samples.doublingData n) els rest [] →
    IsForest (Samples.doublingData n) (A :: els) (Samples.doublingTree d A rest) [] := by
  induction d with
  | zero =>
    intro A els rest hA hr
    exact IsForest.node (s1 := []) (s2 := []) (p := .empty) (Samples.doubling_type (by omega)) (Samples.doubling_get.2 ⟨by omega, rfl⟩)
      (by simp only [List.mem_singleton]; rw [if_pos (by omega)]) .nil hr
  | succ d ih =>
    intro A els rest hA hr
    exact IsForest.node (s1 := []) (s2 := []) (p := .notEmpty [A + 1, A + 1]) (Samples.doubling_type (by omega))
      (Samples.doubling_get.2 ⟨by omega, rfl⟩)
      (by simp only [List.mem_singleton]; rw [if_neg (by omega)])
      (ih _ _ _ (by omega) (ih _ _ _ (by omega) .nil)) hr

theorem Samples.doublingTree_size (d : Nat) : ∀ (A : Nat) (rest : Forest),
    (Samples.doublingTree d A rest).size + 1 = 2 ^ (d + 1) + rest.size := by
  induction d with
  | zero => intro A rest; simp only [Samples.doublingTree, Forest.size]; omega
  | succ d ih =>
    intro A rest
    have h1 := ih (A + 1) (Samples.doublingTree d (A + 1) .nil)
    have h2 := ih (A + 1) .nil
    simp only [Forest.size] at h2
    simp only [Samples.doublingTree, Forest.size]
    rw [Nat.pow_succ]
    omega

/-- **C86**, the factor is exponential in the number of rules for some grammars: for every `n` there is a parser made from
`n + 1` rules with at most two elements per alternative whose tree for the empty script has `2^(n+1) - 1` nodes. -/
theorem C86_exponential_in_rules (n : Nat) : ∃ (pd : ParserData Nat) (P : Parser Nat) (fuel0 : Nat), pd.rules.length = n + 1 ∧
    WellFormed pd ∧ StartSymbol pd 0 ∧ WidthAtMost pd 2 ∧ Parser.newFromParserData .insertion fuel0 pd 0 = .ok P ∧
    ∃ N, ∀ fuel, N ≤ fuel → ∀ ho, ∃ t c shown, Parser.parse ho fuel nullVm P [] 0 = (.ok t, c) ∧
      Shows t ⟨0, 0⟩ shown ∧ Rose.size shown + 1 = 2 ^ (n + 1) := by
  have hw := Samples.doubling_wf n
  have ha := Samples.doubling_acceptable n
  obtain ⟨fuel0, P, hP⟩ := (C16_parser_built_iff hw .insertion 0).2 ha
  have hf := Samples.doublingTree_isForest (n := n) n 0 [] .nil (by omega) .nil
  have hl : Language (grammarOf (Samples.doublingData n)) 0 [] := by
    have := hf.derives
    rwa [formOf_start (Samples.doubling_start n)] at this
  obtain ⟨N, hN⟩ := C22_parse_complete hw hP (Samples.doubling_start n) nullVm nullVm_treePreserving nullVm_total hl
  refine ⟨_, P, fuel0, by simp [Samples.doublingData], hw, Samples.doubling_start n, ?_, hP, N, fun fuel hfu ho => ?_⟩
  · intro A r hr p hp
    obtain ⟨h1, rfl⟩ := Samples.doubling_get.1 hr
    simp only [List.mem_singleton] at hp
    subst hp
    split <;> simp [prodElems]
  · obtain ⟨t, c, h1, h2⟩ := hN fuel hfu ho 0
    obtain ⟨x, p, k, h3, h4, h5, -⟩ := C25_tree_is_derivation_tree hw hP (Samples.doubling_start n) nullVm
      nullVm_treePreserving h1
    rw [h2, List.append_nil] at h3
    subst h3
    have he := C19_unambiguous hw hP h4 hf
    refine ⟨t, c, _, h1, h5, ?_⟩
    have hsz := Samples.doublingTree_size n 0 .nil
    rw [← he] at hsz
    simp only [Forest.size, Nat.add_zero] at hsz
    simpa [Rose.size, roses_size] using hsz

end HPP
