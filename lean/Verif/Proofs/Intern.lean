import Verif.Proofs.Basic
import Verif.Spec.Construction
import Verif.Spec.Grammar
import Verif.Spec.Parse
/-
The element tables of `ParserData` are an injective numbering of the requested elements.
-/
namespace HPP
open Spec
variable {I : Type}

/-- The tables hold exactly the elements `keys`, numbered in order. -/
structure InternOk (pd : ParserData I) (keys : List ElementVerbose) : Prop where
  types : pd.elementTypes = keys.map (·.et)
  data : pd.elementData = keys.map (fun k => ⟨false, k.name⟩)
  map : ∀ k i, AMap.get pd.verboseMap k = some i ↔ keys[i]? = some k

namespace InternOk
variable {pd : ParserData I} {keys : List ElementVerbose}

theorem new : InternOk (ParserData.new : ParserData I) [] :=
  ⟨rfl, rfl, by intro k i; simp [ParserData.new]⟩

theorem inj (h : InternOk pd keys) {k : ElementVerbose} {i j : Nat} (hi : keys[i]? = some k) (hj : keys[j]? = some k) :
    i = j := by
  have h1 := (h.map k i).2 hi
  have h2 := (h.map k j).2 hj
  rw [h1] at h2
  exact Option.some.inj h2

theorem verbose (h : InternOk pd keys) (i : Nat) : pd.getElementVerbose i = keys[i]? := by
  simp only [ParserData.getElementVerbose, h.types, h.data, List.getElem?_map]
  cases keys[i]? <;> rfl

theorem known (h : InternOk pd keys) {k : ElementVerbose} {i : Nat} (hi : keys[i]? = some k) :
    pd.getOrAddElementKey k = (i, pd) := by
  simp [ParserData.getOrAddElementKey, (h.map k i).2 hi]

theorem unknown (h : InternOk pd keys) {k : ElementVerbose} (hk : k ∉ keys) : AMap.get pd.verboseMap k = none := by
  cases hg : AMap.get pd.verboseMap k with
  | none => rfl
  | some i => exact absurd (List.mem_of_getElem? ((h.map k i).1 hg)) hk

theorem add (h : InternOk pd keys) {k : ElementVerbose} (hk : k ∉ keys) :
    (pd.getOrAddElementKey k).1 = keys.length ∧ InternOk (pd.getOrAddElementKey k).2 (keys ++ [k]) ∧
    (pd.getOrAddElementKey k).2.rules = pd.rules ∧ (pd.getOrAddElementKey k).2.ignore = pd.ignore := by
  simp only [ParserData.getOrAddElementKey, h.unknown hk]
  have hl : pd.elementData.length = keys.length := by rw [h.data, List.length_map]
  refine ⟨hl, ⟨?_, ?_, ?_⟩, by simp, by simp⟩
  · simp [h.types]
  · simp [h.data]
  · intro k' i
    simp only [AMap.get_insert, hl]
    by_cases hkk : k = k'
    · subst hkk
      rw [if_pos rfl]
      constructor
      · intro hi; cases hi; simp
      · intro hi
        by_cases hlt : i < keys.length
        · rw [List.getElem?_append_left hlt] at hi
          exact absurd (List.mem_of_getElem? hi) hk
        · have : i < (keys ++ [k]).length := (List.getElem?_eq_some_iff.1 hi).1
          rw [List.length_append, List.length_singleton] at this
          have : i = keys.length := by omega
          rw [this]
    · rw [if_neg hkk, h.map]
      by_cases hlt : i < keys.length
      · rw [List.getElem?_append_left hlt]
      · constructor
        · intro hi; exact absurd (List.getElem?_eq_some_iff.1 hi).1 hlt
        · intro hi
          rw [List.getElem?_append_right (by omega)] at hi
          cases hx : i - keys.length with
          | zero => rw [hx] at hi; simp at hi; exact absurd hi hkk
          | succ n => rw [hx] at hi; simp at hi

/-- What a request does, in one statement: `keys'` extends `keys`. -/
theorem request (h : InternOk pd keys) (k : ElementVerbose) :
    ∃ keys', keys' = (if k ∈ keys then keys else keys ++ [k]) ∧ InternOk (pd.getOrAddElementKey k).2 keys' ∧
      keys'[(pd.getOrAddElementKey k).1]? = some k ∧
      (pd.getOrAddElementKey k).2.rules = pd.rules ∧ (pd.getOrAddElementKey k).2.ignore = pd.ignore := by
  by_cases hk : k ∈ keys
  · obtain ⟨i, hi⟩ := List.getElem?_of_mem hk
    rw [h.known hi]
    exact ⟨keys, by rw [if_pos hk], h, hi, rfl, rfl⟩
  · obtain ⟨h1, h2, h3, h4⟩ := h.add hk
    refine ⟨keys ++ [k], by rw [if_neg hk], h2, ?_, h3, h4⟩
    rw [h1]; simp

theorem of_tables {pd' : ParserData I} (h : InternOk pd keys) (h1 : pd'.elementTypes = pd.elementTypes)
    (h2 : pd'.elementData = pd.elementData) (h3 : pd'.verboseMap = pd.verboseMap) : InternOk pd' keys :=
  ⟨by rw [h1, h.types], by rw [h2, h.data], by rw [h3]; exact h.map⟩

theorem nt (h : InternOk pd keys) {i : Nat} {n : Str} (hi : keys[i]? = some ⟨n, .nonTerminal⟩) :
    pd.elementTypes[i]? = some .nonTerminal := by
  rw [h.types, List.getElem?_map, hi]; rfl

/-- A requested `start` is the start symbol. -/
theorem start (h : InternOk pd keys) {i : Nat} (hi : keys[i]? = some ⟨c% "start", .nonTerminal⟩) : StartSymbol pd i := by
  refine ⟨by rw [h.verbose]; exact hi, fun j hj => ?_⟩
  rw [h.verbose] at hj
  exact h.inj hj hi

end InternOk

theorem addProduction_tables (pd : ParserData I) (idx : Nat) (ts : List Nat) :
    (pd.addProduction idx ts).elementTypes = pd.elementTypes ∧ (pd.addProduction idx ts).elementData = pd.elementData ∧
    (pd.addProduction idx ts).verboseMap = pd.verboseMap ∧ (pd.addProduction idx ts).ignore = pd.ignore := by
  simp only [ParserData.addProduction]
  split <;> exact ⟨rfl, rfl, rfl, rfl⟩

theorem addInstructions_tables (pd : ParserData I) (idx : Nat) (is : List I) :
    (pd.addInstructions idx is).elementTypes = pd.elementTypes ∧
    (pd.addInstructions idx is).elementData = pd.elementData ∧
    (pd.addInstructions idx is).verboseMap = pd.verboseMap ∧ (pd.addInstructions idx is).ignore = pd.ignore := by
  simp only [ParserData.addInstructions]
  split <;> exact ⟨rfl, rfl, rfl, rfl⟩

theorem foldl_addProduction_tables (idx : Nat) (tss : List (List Nat)) (pd : ParserData I) :
    (tss.foldl (fun pd t => pd.addProduction idx t) pd).elementTypes = pd.elementTypes ∧
    (tss.foldl (fun pd t => pd.addProduction idx t) pd).elementData = pd.elementData ∧
    (tss.foldl (fun pd t => pd.addProduction idx t) pd).verboseMap = pd.verboseMap ∧
    (tss.foldl (fun pd t => pd.addProduction idx t) pd).ignore = pd.ignore := by
  induction tss generalizing pd with
  | nil => exact ⟨rfl, rfl, rfl, rfl⟩
  | cons t tss ih =>
    obtain ⟨h1, h2, h3, h4⟩ := addProduction_tables pd idx t
    obtain ⟨i1, i2, i3, i4⟩ := ih (pd.addProduction idx t)
    exact ⟨i1.trans h1, i2.trans h2, i3.trans h3, i4.trans h4⟩

theorem setProductions_tables (pd : ParserData I) (idx : Nat) (tss : List (List Nat)) :
    (pd.setProductions idx tss).elementTypes = pd.elementTypes ∧
    (pd.setProductions idx tss).elementData = pd.elementData ∧
    (pd.setProductions idx tss).verboseMap = pd.verboseMap ∧ (pd.setProductions idx tss).ignore = pd.ignore := by
  simp only [ParserData.setProductions]
  split <;> exact foldl_addProduction_tables _ _ _

/-- The rule of `q` after `add_production`. -/
theorem addProduction_get (pd : ParserData I) (idx : Nat) (ts : List Nat) (q : Nat) :
    AMap.get (pd.addProduction idx ts).rules q =
      if idx = q then some (match AMap.get pd.rules q with
        | some r => { r with prods := r.prods ++ [productionOf ts] }
        | none => ⟨[productionOf ts], none, []⟩)
      else AMap.get pd.rules q := by
  have hp : (if ts.length > 0 then Production.notEmpty ts else Production.empty) = productionOf ts := by
    cases ts <;> simp [productionOf]
  simp only [ParserData.addProduction, hp]
  by_cases h : idx = q
  · subst h
    rw [if_pos rfl]
    cases AMap.get pd.rules idx <;> simp
  · rw [if_neg h]
    split <;> simp [AMap.get_insert, h]

theorem addInstructions_get (pd : ParserData I) (idx : Nat) (is : List I) (q : Nat) :
    AMap.get (pd.addInstructions idx is).rules q =
      if idx = q then some (match AMap.get pd.rules q with
        | some r => { r with instr := is }
        | none => ⟨[], none, is⟩)
      else AMap.get pd.rules q := by
  simp only [ParserData.addInstructions]
  by_cases h : idx = q
  · subst h
    rw [if_pos rfl]
    cases AMap.get pd.rules idx <;> simp
  · rw [if_neg h]
    split <;> simp [AMap.get_insert, h]

theorem foldl_addProduction_get (idx q : Nat) (tss : List (List Nat)) (pd : ParserData I) :
    AMap.get (tss.foldl (fun pd t => pd.addProduction idx t) pd).rules q =
      if idx = q ∧ tss ≠ [] then some (match AMap.get pd.rules q with
        | some r => { r with prods := r.prods ++ tss.map productionOf }
        | none => ⟨tss.map productionOf, none, []⟩)
      else AMap.get pd.rules q := by
  induction tss generalizing pd with
  | nil => simp
  | cons t tss ih =>
    rw [List.foldl_cons, ih, addProduction_get]
    by_cases h : idx = q
    · subst h
      simp only [true_and, if_true]
      by_cases ht : tss = []
      · subst ht
        simp
      · simp only [ne_eq, ht, not_false_eq_true, if_true, reduceCtorEq]
        cases AMap.get pd.rules idx <;> simp
    · simp [h]

theorem setProductions_get (pd : ParserData I) (idx : Nat) (tss : List (List Nat)) (q : Nat) :
    AMap.get (pd.setProductions idx tss).rules q =
      if idx = q then (match AMap.get pd.rules q with
        | some r => some { r with prods := tss.map productionOf }
        | none => if tss = [] then none else some ⟨tss.map productionOf, none, []⟩)
      else AMap.get pd.rules q := by
  simp only [ParserData.setProductions, foldl_addProduction_get]
  by_cases h : idx = q
  · subst h
    simp only [true_and, if_true]
    cases hr : AMap.get pd.rules idx with
    | none =>
      simp only [hr]
      by_cases ht : tss = []
      · simp [ht]
      · simp [ht]
    | some r =>
      simp only [AMap.get_insert, if_true]
      by_cases ht : tss = []
      · simp [ht]
      · simp [ht]
  · simp only [h, false_and, if_false]
    cases hr : AMap.get pd.rules idx with
    | none => simp
    | some r => simp [AMap.get_insert, h]

theorem build_snoc (ops : List (BuildOp I)) (op : BuildOp I) : build (ops ++ [op]) = op.run (build ops) := by
  simp [build]

theorem requested_snoc (ops : List (BuildOp I)) (op : BuildOp I) :
    requested (ops ++ [op]) = requested ops ++ (match op with | .request k => [k] | _ => []) := by
  simp only [requested, List.filterMap_append]
  cases op <;> rfl

theorem firstOccurrences_snoc (ks : List ElementVerbose) (k : ElementVerbose) :
    firstOccurrences (ks ++ [k]) =
      if k ∈ firstOccurrences ks then firstOccurrences ks else firstOccurrences ks ++ [k] := by
  simp only [firstOccurrences, List.foldl_append, List.foldl_cons, List.foldl_nil]
  split <;> simp_all

/-- Induction on the last call of a history. -/
theorem list_snoc_induction {α : Type} {P : List α → Prop} (h0 : P []) (h1 : ∀ l a, P l → P (l ++ [a])) (l : List α) :
    P l := by
  have : ∀ l : List α, P l.reverse := by
    intro l
    induction l with
    | nil => exact h0
    | cons a l ih => rw [List.reverse_cons]; exact h1 _ _ ih
  have := this l.reverse
  rwa [List.reverse_reverse] at this

theorem build_intern (ops : List (BuildOp I)) : InternOk (build ops) (firstOccurrences (requested ops)) := by
  induction ops using list_snoc_induction with
  | h0 => exact InternOk.new
  | h1 ops op ih =>
    rw [build_snoc, requested_snoc]
    cases op with
    | request k =>
      simp only [firstOccurrences_snoc, BuildOp.run]
      obtain ⟨keys', rfl, h, -⟩ := ih.request k
      exact h
    | addProduction i ts =>
      simp only [List.append_nil, BuildOp.run]
      obtain ⟨h1, h2, h3, -⟩ := addProduction_tables (build ops) i ts
      exact ih.of_tables h1 h2 h3
    | setProductions i ts =>
      simp only [List.append_nil, BuildOp.run]
      obtain ⟨h1, h2, h3, -⟩ := setProductions_tables (build ops) i ts
      exact ih.of_tables h1 h2 h3
    | addInstructions i ts =>
      simp only [List.append_nil, BuildOp.run]
      obtain ⟨h1, h2, h3, -⟩ := addInstructions_tables (build ops) i ts
      exact ih.of_tables h1 h2 h3

end HPP
