import Verif.Proofs.Script
/-
Error positions, for arbitrary parsers.
-/
namespace HPP
open Spec
variable {I S : Type}

/-- What an error says about the position, `pre` having been read and `rest` not. -/
def ErrPos (pre rest : Str) : PErr → Prop
  | .unexpectedChar c pos _ => pos = pre.length ∧ (rest.head? = some c ∨ (rest = [] ∧ c = '#'))
  | .endOfChars pos => pos = pre.length ∧ rest = []
  | _ => True

/-- A computation that reads the script from left to right and reports positions truthfully. -/
def PosGood {α : Type} (m : SM (Ctx S) PErr α) : Prop := ∀ pre rest c, c.proc = procAt pre rest →
  ∃ s rest', rest = s ++ rest' ∧ (m c).2.proc = procAt (pre ++ s) rest' ∧
    ∀ e, (m c).1 = .err e → ErrPos (pre ++ s) rest' e

theorem PosGood.stay {α : Type} {m : SM (Ctx S) PErr α} (h : ∀ c, (m c).2.proc = c.proc)
    (he : ∀ pre rest c e, c.proc = procAt pre rest → (m c).1 = .err e → ErrPos pre rest e) : PosGood m := by
  intro pre rest c hc
  exact ⟨[], rest, rfl, by simp [h, hc], fun e h' => by simpa using he pre rest c e hc h'⟩

theorem PosGood.bind {α β : Type} {m : SM (Ctx S) PErr α} {f : α → SM (Ctx S) PErr β} (h : PosGood m)
    (hf : ∀ a, PosGood (f a)) : PosGood (m >>= f) := by
  intro pre rest c hc
  obtain ⟨s, rest', h1, h2, h3⟩ := h pre rest c hc
  rw [SM.bind_apply]
  rcases hm : m c with ⟨r, c1⟩
  rw [hm] at h2 h3
  cases r with
  | ok a =>
    obtain ⟨s2, rest2, rfl, h5, h6⟩ := hf a (pre ++ s) rest' c1 h2
    exact ⟨s ++ s2, rest2, by simp [h1], by simpa using h5, fun e he => by simpa using h6 e he⟩
  | err e => exact ⟨s, rest', h1, h2, fun e' he' => by simp at he'; subst he'; exact h3 e rfl⟩
  | panic => exact ⟨s, rest', h1, h2, fun e' he' => by simp at he'⟩
  | timeout => exact ⟨s, rest', h1, h2, fun e' he' => by simp at he'⟩

theorem PosGood.terminal (name : Str) : PosGood (onProc (S := S) (parseScriptTerminal name)) := by
  intro pre rest c hc
  simp only [onProc, parseScriptTerminal, SM.bind_apply, hc]
  rcases parseTerminalLoop_spec name pre rest with ⟨r, rfl, h⟩ | ⟨s, c', n2, x, r, hn, rfl, hne, h⟩ | ⟨c', n2, hn, h⟩
  · rw [h]; exact ⟨name, r, rfl, rfl, by simp⟩
  · rw [h]
    refine ⟨s, x :: r, rfl, rfl, fun e he => ?_⟩
    simp at he; subst he; simp [ErrPos]
  · rw [h]
    refine ⟨rest, [], by simp, rfl, fun e he => ?_⟩
    simp at he; subst he; simp [ErrPos]

theorem PosGood.addTreeNode (d : Str) (parent : Option NodeId) : PosGood (addTreeNode (S := S) d parent) := by
  refine .stay (fun c => rfl) (fun pre rest c e _ he => ?_)
  simp only [HPP.addTreeNode] at he
  generalize c.tree.addNode d parent = x at he
  obtain ⟨r, t⟩ := x
  cases r <;> simp [Res.mapErr] at he
  subst he; trivial

theorem PosGood.addTreeNodeIgnore (d : Str) (parent : Option NodeId) :
    PosGood (addTreeNodeIgnore (S := S) d parent) := by
  refine .stay (fun c => rfl) (fun pre rest c e _ he => ?_)
  simp only [HPP.addTreeNodeIgnore] at he
  generalize c.tree.addNode d parent = x at he
  obtain ⟨r, t⟩ := x
  cases r <;> simp at he

theorem PosGood.lift_panic {α : Type} {r : Res PErr α} (h : ∀ e, r ≠ .err e) :
    PosGood (S := S) (SM.lift r) :=
  .stay (fun _ => rfl) (fun _ _ _ e _ he => absurd he (h e))

theorem PosGood.elements (P : Parser I) {rec : Nat → Option NodeId → SM (Ctx S) PErr Unit}
    (hrec : ∀ e p, PosGood (rec e p)) (id : NodeId) (els : List Nat) :
    PosGood (parseElements P rec id els) := by
  induction els with
  | nil => exact .stay (fun _ => rfl) (fun _ _ _ _ _ h => by simp [parseElements] at h)
  | cons e es ih =>
    simp only [parseElements]
    refine .bind (.lift_panic (by cases P.elements[e]? <;> simp [Res.unwrapO])) (fun el => ?_)
    cases el.et with
    | terminal => exact .bind (.terminal _) (fun s => .bind (.addTreeNodeIgnore _ _) (fun _ => ih))
    | nonTerminal => exact .bind (hrec _ _) (fun _ => ih)

theorem PosGood.production (ho : HashOrder) (vm : VM I S) (P : Parser I) (fuel : Nat) :
    ∀ e parent, PosGood (parseProduction ho vm P fuel e parent) := by
  induction fuel with
  | zero => intro e parent; exact .lift_panic (by simp)
  | succ fuel ih =>
    intro el parent pre rest c hc
    rw [parseProduction_succ fuel el hc]
    cases hR : AMap.get P.rules el with
    | none => exact ⟨[], rest, rfl, by simpa using hc, fun e he => by simp at he; subst he; trivial⟩
    | some R =>
      simp only
      cases hp : AMap.get R.steuermap (SetMember.ofPeek rest.head?) with
      | none =>
        refine ⟨[], rest, rfl, by simpa using hc, fun e he => ?_⟩
        simp at he; subst he
        cases rest <;> simp [ErrPos]
      | some p =>
        simp only
        rcases c.tree.addNode [] parent with ⟨ra, t⟩
        cases ra with
        | err e => exact ⟨[], rest, rfl, by simpa using hc, fun e he => by simp at he; subst he; trivial⟩
        | panic => exact ⟨[], rest, rfl, by simpa using hc, fun e he => by simp at he⟩
        | timeout => exact ⟨[], rest, rfl, by simpa using hc, fun e he => by simp at he⟩
        | ok id =>
          simp only
          refine (PosGood.bind (PosGood.elements P (ih) id _) (fun _ => ?_)) pre rest { c with tree := t } hc
          refine .stay (fun c => ?_) (fun _ _ c e _ he => ?_)
          · simp only [runInstructionsM]; split <;> rfl
          · simp only [runInstructionsM] at he; split at he <;> simp at he

end HPP
