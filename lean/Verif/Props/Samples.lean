import Verif.Model.Follow
import Verif.Model.Steuer
import Verif.Model.Script
import Verif.Spec.Grammar
/-
Concrete grammars, built through the modelled interface, used to show that the hypotheses of the
theorems are met by non-trivial cases.
-/
namespace HPP.Samples
open Spec

/-- The grammar `start -> item rest; rest -> "," item rest | #; item -> "ab" | "c";` built with the
calls of `ParserData`; `rest` and `start` carry instructions. -/
def listData : ParserData Nat :=
  let pd : ParserData Nat := ParserData.new
  let (start, pd) := pd.getOrAddNonTerminal (c% "start")
  let (item, pd) := pd.getOrAddNonTerminal (c% "item")
  let (rest, pd) := pd.getOrAddNonTerminal (c% "rest")
  let (comma, pd) := pd.getOrAddTerminal (c% ",")
  let (ab, pd) := pd.getOrAddTerminal (c% "ab")
  let (c, pd) := pd.getOrAddTerminal (c% "c")
  let pd := pd.addProduction start [item, rest]
  let pd := pd.addProduction rest [comma, item, rest]
  let pd := pd.addProduction rest []
  let pd := pd.setProductions item [[ab], [c]]
  let pd := pd.addInstructions rest [7]
  pd.addInstructions start [1, 2]

theorem listData_rules : listData.rules =
    [(0, ⟨[.notEmpty [1, 2]], none, [1, 2]⟩), (2, ⟨[.notEmpty [3, 1, 2], .empty], none, [7]⟩),
      (1, ⟨[.notEmpty [4], .notEmpty [5]], none, []⟩)] := rfl

theorem listData_types : listData.elementTypes =
    [.nonTerminal, .nonTerminal, .nonTerminal, .terminal, .terminal, .terminal] := rfl

/-- The left-recursive grammar `start -> start "a" | "b";`. -/
def leftRecData : ParserData Nat :=
  let pd : ParserData Nat := ParserData.new
  let (start, pd) := pd.getOrAddNonTerminal (c% "start")
  let (a, pd) := pd.getOrAddTerminal (c% "a")
  let (b, pd) := pd.getOrAddTerminal (c% "b")
  pd.setProductions start [[start, a], [b]]

/-- Well-formedness is decidable for concrete data: a computable check. -/
def checkWF {I : Type} (pd : ParserData I) : Bool :=
  decide (pd.rules.map (·.1)).Nodup && decide (pd.elementTypes.length = pd.elementData.length) &&
  pd.rules.all (fun (A, r) => decide (pd.elementTypes[A]? = some .nonTerminal) &&
    r.prods.all (fun p => decide (p ≠ .notEmpty []) &&
      (prodElems p).all (fun e => decide (e < pd.elementTypes.length))))

theorem mem_of_get' {κ ν : Type} [DecidableEq κ] {m : AMap κ ν} {k : κ} {v : ν}
    (h : AMap.get m k = some v) : (k, v) ∈ m := by
  induction m with
  | nil => simp [AMap.get] at h
  | cons p m ih =>
    obtain ⟨k', v'⟩ := p
    simp only [AMap.get] at h
    split at h
    · simp_all
    · exact List.mem_cons_of_mem _ (ih h)

theorem wf_of_check {I : Type} {pd : ParserData I} (h : checkWF pd = true) : WellFormed pd := by
  simp only [checkWF, Bool.and_eq_true, decide_eq_true_eq, List.all_eq_true] at h
  obtain ⟨⟨h1, h2⟩, h3⟩ := h
  refine ⟨h1, h2, ?_, ?_, ?_⟩
  · intro A r hr; exact (h3 _ (mem_of_get' hr)).1
  · intro A r hr p hp e he; exact ((h3 _ (mem_of_get' hr)).2 p hp).2 e he
  · intro A r hr p hp; exact ((h3 _ (mem_of_get' hr)).2 p hp).1

/-- A computable check of `AllDefined`. -/
def checkDefined {I : Type} (pd : ParserData I) : Bool :=
  pd.rules.all (fun (_, r) => r.prods.all (fun p => (prodElems p).all (fun e =>
    decide (pd.elementTypes[e]? ≠ some .nonTerminal) || (AMap.get pd.rules e).isSome)))

theorem defined_of_check {I : Type} {pd : ParserData I} (h : checkDefined pd = true) :
    AllDefined pd := by
  simp only [checkDefined, List.all_eq_true, Bool.or_eq_true, decide_eq_true_eq] at h
  intro A r hr p hp e he hty
  rcases h _ (mem_of_get' hr) p hp e he with h | h
  · exact absurd hty h
  · exact Option.isSome_iff_exists.mp h

theorem listData_wf : WellFormed listData := wf_of_check rfl
theorem listData_defined : AllDefined listData := defined_of_check rfl
theorem leftRecData_wf : WellFormed leftRecData := wf_of_check rfl
theorem leftRecData_defined : AllDefined leftRecData := defined_of_check rfl

/-- The FIRST sets the code computes for `listData`. -/
theorem listData_first : getFirstSets .insertion 5 listData =
    .ok [(1, [.char 'a', .char 'c']), (0, [.char 'a', .char 'c']), (2, [.char ',', .empty])] := rfl

end HPP.Samples
