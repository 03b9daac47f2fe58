import Verif.Proofs.VmPanic
import Verif.Spec.Calc
/-
Parse trees of the calculator grammar, and the machine steps they cause.
-/
namespace HPP
open Spec
variable {I S : Type}

/-! ### VMs that only look at the text of the first child -/

/-- The text of the first child of a data tree. -/
def Spec.Rose.firstText : Rose → Option Str
  | .node _ [] => none
  | .node _ (.node d _ :: _) => some d

theorem firstChildData_of_shows {τ : Tree Str} {id : NodeId} {r : Rose} (h : Shows τ id r) :
    firstChildData τ id = some r.firstText := by
  cases h with
  | @mk _ nd cs d ks h1 h2 h3 h4 =>
    obtain ⟨N, hN⟩ := h3
    have h3 := hN (N + 1) (Nat.le_succ _)
    have hn : τ.nodes[id.ptr]? = some nd := by
      simp only [Tree.getNode] at h1
      split at h1
      · cases h1
      · next n hn =>
        split at h1
        · cases h1
        · split at h1
          · cases h1
          · simp only [Res.ok.injEq] at h1; rw [hn, h1]
    have hc : (Tree.childrenFrom τ (N + 1) nd.firstChild : Res TErr _) = .ok cs := by
      rw [Tree.getChildren, hn] at h3
      exact h3
    simp only [firstChildData, Tree.getByPathOrNone, h1]
    cases hf : nd.firstChild with
    | none =>
      rw [hf] at hc
      simp only [Tree.childrenFrom, Res.ok.injEq] at hc
      subst hc
      cases h4
      simp only [Res.bind_ok, Tree.byPathFrom, Tree.getNthChildOrNone, hf, Tree.nthFrom]
      rfl
    | some ix =>
      rw [hf] at hc
      simp only [Tree.childrenFrom] at hc
      cases hix : τ.nodes[ix]? with
      | none => rw [hix] at hc; cases hc
      | some n =>
        rw [hix] at hc
        simp only [Res.unwrapO, Res.bind_ok] at hc
        cases hr : (Tree.childrenFrom τ N n.nextSibling : Res TErr _) with
        | ok r =>
          rw [hr] at hc
          simp only [Res.bind_ok] at hc
          cases hc
          cases h4 with
          | @cons _ r0 _ rs g1 g2 =>
            cases g1 with
            | @mk _ nd' cs' d' ks' k1 k2 k3 k4 =>
              have hnd : nd' = n := by
                simp only [Tree.getNode, hix] at k1
                split at k1
                · cases k1
                · split at k1
                  · cases k1
                  · simp only [Res.ok.injEq] at k1; exact k1.symm
              subst hnd
              simp only [Res.bind_ok, Tree.byPathFrom, Tree.getNthChildOrNone, hf, Tree.nthFrom, hix, Res.unwrapO]
              simp only [Rose.firstText, ← k2]
              rfl
        | err e => rw [hr] at hc; cases hc
        | panic => rw [hr] at hc; cases hc
        | timeout => rw [hr] at hc; cases hc

/-- The VM reads nothing of the tree but the text of the first child of the current node. -/
def LocalVm (vm : VM I S) (exec : Option Str → I → S → Option S) : Prop :=
  ∀ τ id i s d, firstChildData τ id = some d → vm.execute τ id i s = (exec d i s).map (fun s' => (τ, s'))

/-- Running instructions, given the text of the first child. -/
def runData (exec : Option Str → I → S → Option S) (d : Option Str) : List I → S → Option S
  | [], s => some s
  | i :: is, s => (exec d i s).bind (runData exec d is)

/-- Running what the events ask for. -/
def runEvents (exec : Option Str → I → S → Option S) (pd : ParserData I) : List Event → S → Option S
  | [], s => some s
  | ev :: evs, s => (runData exec ev.sub.firstText (instrOf pd ev.nt) s).bind (runEvents exec pd evs)

theorem runInstructions_local {vm : VM I S} {exec : Option Str → I → S → Option S} (hl : LocalVm vm exec) {τ : Tree Str}
    {id : NodeId} {d : Option Str} (hd : firstChildData τ id = some d) (is : List I) :
    ∀ s, runInstructions vm id is τ s = (runData exec d is s).map (fun s' => (τ, s')) := by
  induction is with
  | nil => intro s; rfl
  | cons i is ih =>
    intro s
    simp only [runInstructions, runData, hl τ id i s d hd]
    cases exec d i s with
    | none => rfl
    | some s' => exact ih s'

theorem Runs.local {vm : VM I S} {exec : Option Str → I → S → Option S} (hl : LocalVm vm exec) {pd : ParserData I}
    {evs : List Event} {s s' : S} (h : Runs vm pd evs s s') : runEvents exec pd evs s = some s' := by
  induction h with
  | nil => rfl
  | @cons ev evs τ s s1 s2 h1 h2 _ ih =>
    rw [executes_iff, runInstructions_local hl (firstChildData_of_shows h1)] at h2
    simp only [Option.map_eq_some_iff, Prod.mk.injEq] at h2
    obtain ⟨x, hx, -, rfl⟩ := h2
    rw [runEvents, hx]
    exact ih

theorem runEvents_append (exec : Option Str → I → S → Option S) (pd : ParserData I) (e1 e2 : List Event) :
    ∀ s, runEvents exec pd (e1 ++ e2) s = (runEvents exec pd e1 s).bind (runEvents exec pd e2) := by
  induction e1 with
  | nil => intro s; rfl
  | cons ev e1 ih =>
    intro s
    simp only [List.cons_append, runEvents]
    cases runData exec ev.sub.firstText (instrOf pd ev.nt) s with
    | none => rfl
    | some s' => exact ih s'

/-- With a local VM the outcome on a valid script is decided by the events. -/
theorem parse_local {pd : ParserData I} {P : Parser I} {ho0 : HashOrder} {fuel0 start : Nat} (hw : WellFormed pd)
    (hP : Parser.newFromParserData ho0 fuel0 pd start = .ok P) (hs : StartSymbol pd start) {vm : VM I S}
    (htp : TreePreserving vm) {exec : Option Str → I → S → Option S} (hl : LocalVm vm exec) {text : Str} {f : Forest}
    (hf : IsForest pd [start] f text) :
    ∃ N, ∀ fuel, N ≤ fuel → ∀ (ho : HashOrder) (s : S),
      (∀ s', runEvents exec pd (events pd 0 f) s = some s' →
        ∃ t c, Parser.parse ho fuel vm P text s = (.ok t, c) ∧ c.proc.rest = [] ∧ c.state = s') ∧
      (runEvents exec pd (events pd 0 f) s = none → (Parser.parse ho fuel vm P text s).1 = .panic) := by
  obtain ⟨N, hN⟩ := parse_valid hw hP hs vm htp hf
  refine ⟨N, fun fuel hfu ho s => ?_⟩
  rcases hN fuel hfu ho s with ⟨t, c, h1, h2, h3⟩ | ⟨c, evs1, ev, evs2, s1, τ, h1, h2, h3, h4, h5⟩
  · have h3 := Runs.local hl h3
    refine ⟨fun s' hs' => ⟨t, c, h1, h2, ?_⟩, fun hn => ?_⟩
    · rw [h3] at hs'; simpa using hs'
    · rw [h3] at hn; cases hn
  · have h3 := Runs.local hl h3
    rw [execPanics_iff, runInstructions_local hl (firstChildData_of_shows h4)] at h5
    simp only [Option.map_eq_none_iff] at h5
    have : runEvents exec pd (events pd 0 f) s = none := by
      rw [h2, runEvents_append, h3]
      simp only [Option.bind_some, runEvents, h5]
      rfl
    refine ⟨fun s' hs' => ?_, fun _ => by rw [h1]⟩
    rw [this] at hs'; cases hs'

end HPP
