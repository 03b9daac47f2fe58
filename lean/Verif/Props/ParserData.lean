import Verif.Proofs.Intern
import Verif.Props.Samples
/-
Properties C08, C09 and C57: building grammar data with calls.
-/
namespace HPP
open Spec
variable {I : Type}

/-! ### C08 -/

theorem firstOccurrences_mem (ks : List ElementVerbose) (k : ElementVerbose) : k ∈ firstOccurrences ks ↔ k ∈ ks := by
  induction ks using list_snoc_induction with
  | h0 => simp [firstOccurrences]
  | h1 ks a ih =>
    rw [firstOccurrences_snoc]
    split
    · next h =>
      rw [ih, List.mem_append, List.mem_singleton]
      constructor
      · exact .inl
      · rintro (h' | rfl)
        · exact h'
        · exact ih.1 h
    · rw [List.mem_append, List.mem_append, ih]

theorem firstOccurrences_prefix (a b : List ElementVerbose) {i : Nat} {k : ElementVerbose}
    (h : (firstOccurrences a)[i]? = some k) : (firstOccurrences (a ++ b))[i]? = some k := by
  induction b using list_snoc_induction with
  | h0 => simpa using h
  | h1 b x ih =>
    rw [← List.append_assoc, firstOccurrences_snoc]
    split
    · exact ih
    · rw [List.getElem?_append_left (List.getElem?_eq_some_iff.1 ih).1]; exact ih

theorem requested_append (a b : List (BuildOp I)) : requested (a ++ b) = requested a ++ requested b := by
  simp [requested]

/-- Looking an index up yields the element of that number among the different requested elements. -/
theorem C08_lookup (ops : List (BuildOp I)) (i : Nat) :
    (build ops).getElementVerbose i = (firstOccurrences (requested ops))[i]? := (build_intern ops).verbose i

/-- The index issued for `k` after `ops`, seen after any further calls: it still belongs to `k`. -/
theorem C08_index_stable (ops more : List (BuildOp I)) (k : ElementVerbose) :
    (build (ops ++ .request k :: more)).getElementVerbose ((build ops).getOrAddElementKey k).1 = some k := by
  obtain ⟨keys', hk, -, h2, -⟩ := (build_intern ops).request k
  rw [C08_lookup, requested_append]
  have : requested (.request k :: more) = [k] ++ requested more := rfl
  rw [this, ← List.append_assoc]
  refine firstOccurrences_prefix _ _ ?_
  rw [firstOccurrences_snoc, ← hk]
  exact h2

/-- **C08.** Asking again for the same element yields the same index, whatever was called in between. -/
theorem C08_same_index (ops more : List (BuildOp I)) (k : ElementVerbose) :
    ((build (ops ++ .request k :: more)).getOrAddElementKey k).1 = ((build ops).getOrAddElementKey k).1 := by
  have h := C08_index_stable ops more k
  rw [C08_lookup] at h
  rw [(build_intern _).known h]

/-- **C08.** Elements that differ in name or kind have different indices. -/
theorem C08_different_index (ops more : List (BuildOp I)) (k k' : ElementVerbose) (hne : k ≠ k') :
    ((build (ops ++ .request k :: more)).getOrAddElementKey k').1 ≠ ((build ops).getOrAddElementKey k).1 := by
  intro he
  have h1 := C08_index_stable ops (more ++ [.request k']) k
  have h2 := C08_index_stable (ops ++ .request k :: more) [] k'
  rw [he] at h2
  rw [show ops ++ .request k :: (more ++ [BuildOp.request k']) = ops ++ .request k :: more ++ [.request k'] by simp] at h1
  rw [h1] at h2
  exact hne (Option.some.inj h2)

/-- **C08.** The index of an element by name, and the element of an index, are inverse to each other; exactly the
requested elements have an index; the indices are `0, 1, 2, ..` without gaps. -/
theorem C08_bijection (ops : List (BuildOp I)) :
    (∀ k i, (build ops).getElementIndex k = some i ↔ (build ops).getElementVerbose i = some k) ∧
    (∀ k, (∃ i, (build ops).getElementIndex k = some i) ↔ k ∈ requested ops) ∧
    (∀ i j, i ≤ j → (build ops).getElementVerbose j ≠ none → (build ops).getElementVerbose i ≠ none) := by
  refine ⟨fun k i => ?_, fun k => ?_, fun i j hij h => ?_⟩
  · rw [C08_lookup]; exact (build_intern ops).map k i
  · rw [← firstOccurrences_mem]
    constructor
    · rintro ⟨i, hi⟩
      exact List.mem_of_getElem? (((build_intern ops).map k i).1 hi)
    · intro h
      obtain ⟨i, hi⟩ := List.getElem?_of_mem h
      exact ⟨i, ((build_intern ops).map k i).2 hi⟩
  · rw [C08_lookup] at h ⊢
    rw [ne_eq, List.getElem?_eq_none_iff, Nat.not_le] at h ⊢
    omega

/-- **C08.** A request for an element that was not requested before gets the next free index. -/
theorem C08_new_index (ops : List (BuildOp I)) (k : ElementVerbose) (h : k ∉ requested ops) :
    (build ops).getElementVerbose ((build ops).getOrAddElementKey k).1 = none ∧
    ∀ i < ((build ops).getOrAddElementKey k).1, (build ops).getElementVerbose i ≠ none := by
  rw [← firstOccurrences_mem] at h
  obtain ⟨h1, -⟩ := (build_intern ops).add h
  rw [h1]
  refine ⟨?_, fun i hi => ?_⟩
  · rw [C08_lookup, List.getElem?_eq_none_iff]; exact Nat.le_refl _
  · rw [C08_lookup, ne_eq, List.getElem?_eq_none_iff, Nat.not_le]; exact hi

/-- **C08**, requests by name: `get_or_add_terminal` and `get_or_add_non_terminal` are requests of the terminal and of the
non-terminal with the given name, and the index they return belongs to it. -/
theorem C08_by_name (ops : List (BuildOp I)) (name : Str) :
    ((build ops).getOrAddTerminal name).2 = build (ops ++ [.request ⟨name, .terminal⟩]) ∧
    ((build ops).getOrAddTerminal name).2.getElementVerbose ((build ops).getOrAddTerminal name).1 = some ⟨name, .terminal⟩ ∧
    ((build ops).getOrAddNonTerminal name).2 = build (ops ++ [.request ⟨name, .nonTerminal⟩]) ∧
    ((build ops).getOrAddNonTerminal name).2.getElementVerbose ((build ops).getOrAddNonTerminal name).1 =
      some ⟨name, .nonTerminal⟩ := by
  have key : ∀ k, ((build ops).getOrAddElementKey k).2 = build (ops ++ [.request k]) := fun k => by
    simp [build, BuildOp.run]
  refine ⟨key _, ?_, key _, ?_⟩
  · show ((build ops).getOrAddElementKey ⟨name, .terminal⟩).2.getElementVerbose _ = _
    rw [key]; exact C08_index_stable ops [] _
  · show ((build ops).getOrAddElementKey ⟨name, .nonTerminal⟩).2.getElementVerbose _ = _
    rw [key]; exact C08_index_stable ops [] _

/-- A terminal and a non-terminal of the same name. -/
example : (build ([.request ⟨c% "a", .terminal⟩, .addProduction 0 [0], .request ⟨c% "a", .nonTerminal⟩,
      .request ⟨c% "a", .terminal⟩] : List (BuildOp Nat))).getElementIndex ⟨c% "a", .nonTerminal⟩ = some 1 := rfl

/-! ### C09 -/

/-- The productions stored for an index (none without a rule). -/
def storedProductions (pd : ParserData I) (idx : Nat) : List Production :=
  match pd.getRuleByKey idx with
  | some r => r.prods
  | none => []

/-- The instructions stored for an index (none without a rule). -/
def storedInstructions (pd : ParserData I) (idx : Nat) : List I :=
  match pd.getRuleByKey idx with
  | some r => r.instr
  | none => []

theorem stored_run (pd : ParserData I) (op : BuildOp I) (idx : Nat) :
    storedProductions (op.run pd) idx = (match op with
      | .addProduction i ts => if i = idx then storedProductions pd idx ++ [productionOf ts] else storedProductions pd idx
      | .setProductions i tss => if i = idx then tss.map productionOf else storedProductions pd idx
      | _ => storedProductions pd idx) ∧
    storedInstructions (op.run pd) idx = (match op with
      | .addInstructions i is => if i = idx then is else storedInstructions pd idx
      | _ => storedInstructions pd idx) := by
  simp only [storedProductions, storedInstructions, ParserData.getRuleByKey]
  cases op with
  | request k =>
    have hr : (pd.getOrAddElementKey k).2.rules = pd.rules := by
      simp only [ParserData.getOrAddElementKey]; split <;> rfl
    simp [BuildOp.run, hr]
  | addProduction i ts =>
    simp only [BuildOp.run, addProduction_get]
    by_cases h : i = idx
    · simp only [if_pos h]
      cases AMap.get pd.rules idx <;> simp
    · simp [h]
  | setProductions i tss =>
    simp only [BuildOp.run, setProductions_get]
    by_cases h : i = idx
    · simp only [if_pos h]
      cases AMap.get pd.rules idx with
      | none => by_cases ht : tss = [] <;> simp [ht]
      | some r => simp
    · simp [h]
  | addInstructions i is =>
    simp only [BuildOp.run, addInstructions_get]
    by_cases h : i = idx
    · simp only [if_pos h]
      cases AMap.get pd.rules idx <;> simp
    · simp [h]

theorem foldl_productions (idx : Nat) (post : List (BuildOp I)) (h : ∀ op ∈ post, ¬ op.SetsProductions idx)
    (pd : ParserData I) :
    storedProductions (post.foldl BuildOp.run pd) idx = storedProductions pd idx ++ addedTo idx post := by
  induction post generalizing pd with
  | nil => simp [addedTo]
  | cons op post ih =>
    rw [List.foldl_cons, ih (fun o ho => h o (by simp [ho])), (stored_run pd op idx).1]
    have := h op (by simp)
    cases op with
    | addProduction i ts =>
      by_cases hi : i = idx <;> simp [addedTo, hi]
    | setProductions i ts =>
      have hi : i ≠ idx := this
      simp [addedTo, hi]
    | request k => simp [addedTo]
    | addInstructions i is => simp [addedTo]

/-- **C09**, productions: those of the last `set_productions`, followed by all later `add_production`s. -/
theorem C09_productions (idx : Nat) (pre post : List (BuildOp I)) (tss : List (List Nat))
    (h : ∀ op ∈ post, ¬ op.SetsProductions idx) :
    storedProductions (build (pre ++ .setProductions idx tss :: post)) idx =
      tss.map productionOf ++ addedTo idx post := by
  rw [build, List.foldl_append, List.foldl_cons, foldl_productions idx post h, (stored_run _ _ idx).1]
  simp

/-- **C09**, productions: without any `set_productions` all `add_production`s. -/
theorem C09_productions_never_set (idx : Nat) (ops : List (BuildOp I)) (h : ∀ op ∈ ops, ¬ op.SetsProductions idx) :
    storedProductions (build ops) idx = addedTo idx ops := by
  rw [build, foldl_productions idx ops h]
  rfl

/-- **C09**, instructions: those of the last `add_instructions`. -/
theorem C09_instructions (idx : Nat) (pre post : List (BuildOp I)) (is : List I)
    (h : ∀ op ∈ post, ¬ op.SetsInstructions idx) :
    storedInstructions (build (pre ++ .addInstructions idx is :: post)) idx = is := by
  have key : ∀ (post : List (BuildOp I)), (∀ op ∈ post, ¬ op.SetsInstructions idx) → ∀ pd,
      storedInstructions (post.foldl BuildOp.run pd) idx = storedInstructions pd idx := by
    intro post
    induction post with
    | nil => intro _ pd; rfl
    | cons op post ih =>
      intro h pd
      rw [List.foldl_cons, ih (fun o ho => h o (by simp [ho])), (stored_run pd op idx).2]
      have := h op (by simp)
      cases op with
      | addInstructions i is =>
        have hi : i ≠ idx := this
        simp [hi]
      | _ => rfl
  rw [build, List.foldl_append, List.foldl_cons, key post h, (stored_run _ _ idx).2]
  simp

/-- **C09**, instructions: none without any `add_instructions`. -/
theorem C09_instructions_never_set (idx : Nat) (ops : List (BuildOp I)) (h : ∀ op ∈ ops, ¬ op.SetsInstructions idx) :
    storedInstructions (build ops) idx = [] := by
  induction ops using list_snoc_induction with
  | h0 => rfl
  | h1 ops op ih =>
    rw [build_snoc, (stored_run _ op idx).2]
    have h1 := ih (fun o ho => h o (by simp [ho]))
    have := h op (by simp)
    cases op with
    | addInstructions i is =>
      have hi : i ≠ idx := this
      simp [hi, h1]
    | _ => exact h1

/-- **C09**, existence: an index has a rule exactly if one of the calls defined it. -/
theorem C09_defined_iff (idx : Nat) (ops : List (BuildOp I)) :
    (∃ r, (build ops).getRuleByKey idx = some r) ↔ ∃ op ∈ ops, op.Defines idx := by
  induction ops using list_snoc_induction with
  | h0 => simp [build, ParserData.new, ParserData.getRuleByKey]
  | h1 ops op ih =>
    have hsplit : (∃ o ∈ ops ++ [op], o.Defines idx) ↔ (∃ o ∈ ops, o.Defines idx) ∨ op.Defines idx := by
      constructor
      · rintro ⟨o, ho, hd⟩
        rcases List.mem_append.1 ho with ho | ho
        · exact .inl ⟨o, ho, hd⟩
        · rw [List.mem_singleton] at ho; subst ho; exact .inr hd
      · rintro (⟨o, ho, hd⟩ | hd)
        · exact ⟨o, by simp [ho], hd⟩
        · exact ⟨op, by simp, hd⟩
    rw [hsplit, ← ih, build_snoc]
    simp only [ParserData.getRuleByKey]
    cases op with
    | request k =>
      have hr : ((build ops).getOrAddElementKey k).2.rules = (build ops).rules := by
        simp only [ParserData.getOrAddElementKey]; split <;> rfl
      simp [BuildOp.run, hr, BuildOp.Defines]
    | addProduction i ts =>
      simp only [BuildOp.run, addProduction_get, BuildOp.Defines]
      by_cases h : i = idx <;> simp [h]
    | setProductions i tss =>
      simp only [BuildOp.run, setProductions_get, BuildOp.Defines]
      by_cases h : i = idx
      · simp only [h, if_true, true_and]
        cases AMap.get (build ops).rules idx with
        | none => by_cases ht : tss = [] <;> simp [ht]
        | some r => simp
      · simp [h]
    | addInstructions i is =>
      simp only [BuildOp.run, addInstructions_get, BuildOp.Defines]
      by_cases h : i = idx <;> simp [h]

/-- **C09**, independence: a call for another index changes nothing for this one. -/
theorem C09_independent (pd : ParserData I) (op : BuildOp I) (idx : Nat) (h1 : ¬ op.Defines idx)
    (h2 : ¬ op.SetsProductions idx) : (op.run pd).getRuleByKey idx = pd.getRuleByKey idx := by
  simp only [ParserData.getRuleByKey]
  cases op with
  | request k =>
    have hr : (pd.getOrAddElementKey k).2.rules = pd.rules := by
      simp only [ParserData.getOrAddElementKey]; split <;> rfl
    simp [BuildOp.run, hr]
  | addProduction i ts =>
    have : i ≠ idx := h1
    simp [BuildOp.run, addProduction_get, this]
  | setProductions i tss =>
    have : i ≠ idx := h2
    simp [BuildOp.run, setProductions_get, this]
  | addInstructions i is =>
    have : i ≠ idx := h1
    simp [BuildOp.run, addInstructions_get, this]

/-- A history with both kinds of calls for two indices. -/
example : storedProductions (build ([.addProduction 0 [1], .setProductions 0 [[2], []], .addProduction 1 [0],
      .addProduction 0 [3, 3]] : List (BuildOp Nat))) 0 = [.notEmpty [2], .empty, .notEmpty [3, 3]] := rfl

/-! ### C57 -/

theorem build_rulesNodup (ops : List (BuildOp I)) : ((build ops).rules.map (·.1)).Nodup := by
  induction ops using list_snoc_induction with
  | h0 => simp [build, ParserData.new]
  | h1 ops op ih =>
    rw [build_snoc]
    have hadd : ∀ (pd : ParserData I) i ts, AMap.NodupKeys pd.rules → AMap.NodupKeys (pd.addProduction i ts).rules := by
      intro pd i ts h
      simp only [ParserData.addProduction]
      split <;> exact h.insert _ _
    cases op with
    | request k =>
      have hr : ((build ops).getOrAddElementKey k).2.rules = (build ops).rules := by
        simp only [ParserData.getOrAddElementKey]; split <;> rfl
      simp only [BuildOp.run, hr]; exact ih
    | addProduction i ts => exact hadd _ _ _ ih
    | setProductions i tss =>
      have hfold : ∀ (tss : List (List Nat)) (pd : ParserData I), AMap.NodupKeys pd.rules →
          AMap.NodupKeys (tss.foldl (fun pd t => pd.addProduction i t) pd).rules := by
        intro tss
        induction tss with
        | nil => intro pd h; exact h
        | cons t tss ih => intro pd h; exact ih _ (hadd _ _ _ h)
      simp only [BuildOp.run, ParserData.setProductions]
      split
      · exact hfold _ _ (AMap.NodupKeys.insert ih _ _)
      · exact hfold _ _ ih
    | addInstructions i is =>
      simp only [BuildOp.run, ParserData.addInstructions]
      split <;> exact AMap.NodupKeys.insert ih _ _

theorem productionOf_elems (ts : List Nat) : prodElems (productionOf ts) = ts := by
  cases ts <;> simp [productionOf, prodElems]

theorem productionOf_ne (ts : List Nat) : productionOf ts ≠ .notEmpty [] := by
  cases ts <;> simp [productionOf]

/-- **C57.** Data built by any history of calls that use only issued indices is well-formed, and if a non-terminal
`start` was requested, its index is the start symbol.  So every theorem stated for well-formed data applies to every
grammar a program can build through the interface. -/
theorem C57_built_data_wellFormed (ops : List (BuildOp I)) (h : ValidHistory ops) :
    WellFormed (build ops) ∧
    ∀ i, (build ops).getElementNtIndex (c% "start") = some i → StartSymbol (build ops) i := by
  have hin := build_intern ops
  have key : (∀ A r, AMap.get (build ops).rules A = some r →
      (∃ n, (firstOccurrences (requested ops))[A]? = some ⟨n, .nonTerminal⟩) ∧
      ∀ p ∈ r.prods, (∀ e ∈ prodElems p, e < (firstOccurrences (requested ops)).length) ∧ p ≠ .notEmpty []) := by
    clear hin
    induction ops using list_snoc_induction with
    | h0 => intro A r hr; simp [build, ParserData.new] at hr
    | h1 ops op ih =>
      have hv : ValidHistory ops := by
        intro pre o post he
        exact h pre o (post ++ [op]) (by rw [he]; simp)
      have hu : op.Uses (firstOccurrences (requested ops)) := h ops op [] rfl
      have ih := ih hv
      intro A r hr
      rw [build_snoc] at hr
      -- the keys only grow
      have hgrow : ∀ {i : Nat} {k : ElementVerbose}, (firstOccurrences (requested ops))[i]? = some k →
          (firstOccurrences (requested (ops ++ [op])))[i]? = some k := by
        intro i k hk
        rw [requested_append]
        exact firstOccurrences_prefix _ _ hk
      have hlen : (firstOccurrences (requested ops)).length ≤ (firstOccurrences (requested (ops ++ [op]))).length := by
        apply Classical.byContradiction
        intro hc
        have hlt : (firstOccurrences (requested (ops ++ [op]))).length < (firstOccurrences (requested ops)).length := by omega
        have := hgrow (List.getElem?_eq_getElem hlt)
        exact absurd (List.getElem?_eq_some_iff.1 this).1 (by omega)
      have hold : ∀ r, AMap.get (build ops).rules A = some r →
          (∃ n, (firstOccurrences (requested (ops ++ [op])))[A]? = some ⟨n, .nonTerminal⟩) ∧
          ∀ p ∈ r.prods, (∀ e ∈ prodElems p, e < (firstOccurrences (requested (ops ++ [op]))).length) ∧
            p ≠ .notEmpty [] := by
        intro r hr
        obtain ⟨⟨n, hn⟩, hp⟩ := ih A r hr
        exact ⟨⟨n, hgrow hn⟩, fun p hpm => ⟨fun e he => Nat.lt_of_lt_of_le ((hp p hpm).1 e he) hlen, (hp p hpm).2⟩⟩
      have hnew : ∀ ts : List Nat, (∀ t ∈ ts, t < (firstOccurrences (requested ops)).length) →
          (∀ e ∈ prodElems (productionOf ts), e < (firstOccurrences (requested (ops ++ [op]))).length) ∧
            productionOf ts ≠ .notEmpty [] := by
        intro ts hts
        refine ⟨fun e he => ?_, productionOf_ne ts⟩
        rw [productionOf_elems] at he
        exact Nat.lt_of_lt_of_le (hts e he) hlen
      cases op with
      | request k =>
        have hrr : ((build ops).getOrAddElementKey k).2.rules = (build ops).rules := by
          simp only [ParserData.getOrAddElementKey]; split <;> rfl
        simp only [BuildOp.run, hrr] at hr
        exact hold r hr
      | addProduction i ts =>
        simp only [BuildOp.run, addProduction_get] at hr
        by_cases hi : i = A
        · subst hi
          rw [if_pos rfl] at hr
          obtain ⟨⟨n, hn⟩, hts⟩ := hu
          refine ⟨⟨n, hgrow hn⟩, ?_⟩
          cases hg : AMap.get (build ops).rules i with
          | none =>
            rw [hg] at hr; cases hr
            intro p hp
            rw [List.mem_singleton] at hp; subst hp
            exact hnew ts hts
          | some r0 =>
            rw [hg] at hr; cases hr
            intro p hp
            rcases List.mem_append.1 hp with hp | hp
            · exact (hold r0 hg).2 p hp
            · rw [List.mem_singleton] at hp; subst hp; exact hnew ts hts
        · rw [if_neg hi] at hr; exact hold r hr
      | setProductions i tss =>
        simp only [BuildOp.run, setProductions_get] at hr
        by_cases hi : i = A
        · subst hi
          rw [if_pos rfl] at hr
          obtain ⟨⟨n, hn⟩, hts⟩ := hu
          refine ⟨⟨n, hgrow hn⟩, ?_⟩
          have hall : ∀ p ∈ tss.map productionOf,
              (∀ e ∈ prodElems p, e < (firstOccurrences (requested (ops ++ [.setProductions i tss]))).length) ∧
                p ≠ .notEmpty [] := by
            intro p hp
            obtain ⟨ts, hm, rfl⟩ := List.mem_map.1 hp
            exact hnew ts (hts ts hm)
          cases hg : AMap.get (build ops).rules i with
          | none =>
            rw [hg] at hr
            simp only at hr
            split at hr
            · cases hr
            · cases hr; exact hall
          | some r0 => rw [hg] at hr; cases hr; exact hall
        · rw [if_neg hi] at hr; exact hold r hr
      | addInstructions i is =>
        simp only [BuildOp.run, addInstructions_get] at hr
        by_cases hi : i = A
        · subst hi
          rw [if_pos rfl] at hr
          obtain ⟨n, hn⟩ := hu
          refine ⟨⟨n, hgrow hn⟩, ?_⟩
          cases hg : AMap.get (build ops).rules i with
          | none => rw [hg] at hr; cases hr; intro p hp; cases hp
          | some r0 => rw [hg] at hr; cases hr; exact (hold r0 hg).2
        · rw [if_neg hi] at hr; exact hold r hr
  refine ⟨⟨build_rulesNodup ops, by rw [hin.types, hin.data, List.length_map, List.length_map], ?_, ?_, ?_⟩, ?_⟩
  · intro A r hr
    obtain ⟨⟨n, hn⟩, -⟩ := key A r hr
    exact hin.nt hn
  · intro A r hr p hp e he
    rw [hin.types, List.length_map]
    exact ((key A r hr).2 p hp).1 e he
  · intro A r hr p hp
    exact ((key A r hr).2 p hp).2
  · intro i hi
    exact hin.start ((hin.map _ i).1 hi)

/-- `ValidHistory` call by call. -/
def ValidFrom : List (BuildOp I) → List (BuildOp I) → Prop
  | _, [] => True
  | pre, op :: ops => op.Uses (firstOccurrences (requested pre)) ∧ ValidFrom (pre ++ [op]) ops

theorem ValidFrom.valid {ops : List (BuildOp I)} (h : ValidFrom [] ops) : ValidHistory ops := by
  have : ∀ (ops pre0 : List (BuildOp I)), ValidFrom pre0 ops → ∀ pre op post, ops = pre ++ op :: post →
      op.Uses (firstOccurrences (requested (pre0 ++ pre))) := by
    intro ops
    induction ops with
    | nil => intro pre0 _ pre op post he; simp at he
    | cons o ops ih =>
      intro pre0 h pre op post he
      cases pre with
      | nil => cases he; simpa using h.1
      | cons x pre =>
        cases he
        have := ih (pre0 ++ [o]) h.2 pre op post rfl
        simpa using this
  intro pre op post he
  exact this ops [] h pre op post he

/-- The list grammar is such a history. -/
example : ∃ ops : List (BuildOp Nat), ValidHistory ops ∧ build ops = Samples.listData := by
  refine ⟨[.request ⟨c% "start", .nonTerminal⟩, .request ⟨c% "item", .nonTerminal⟩, .request ⟨c% "rest", .nonTerminal⟩,
    .request ⟨c% ",", .terminal⟩, .request ⟨c% "ab", .terminal⟩, .request ⟨c% "c", .terminal⟩,
    .addProduction 0 [1, 2], .addProduction 2 [3, 1, 2], .addProduction 2 [], .setProductions 1 [[4], [5]],
    .addInstructions 2 [7], .addInstructions 0 [1, 2]], ?_, rfl⟩
  refine ValidFrom.valid ⟨trivial, trivial, trivial, trivial, trivial, trivial, ⟨⟨_, rfl⟩, ?_⟩, ⟨⟨_, rfl⟩, ?_⟩,
    ⟨⟨_, rfl⟩, ?_⟩, ⟨⟨_, rfl⟩, ?_⟩, ⟨_, rfl⟩, ⟨_, rfl⟩, trivial⟩ <;> decide

end HPP
