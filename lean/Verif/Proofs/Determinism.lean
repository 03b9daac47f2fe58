import Verif.Proofs.ParseTop
import Verif.Spec.Same
/-
Parsers for the same data behave the same.
-/
namespace HPP
open Spec
variable {I S : Type} {pd : ParserData I} {start : Nat} {P P1 P2 : Parser I}

theorem _root_.HPP.Spec.SameErr.refl (e : PErr) : SameErr e e := by
  cases e <;> simp [SameErr]

theorem _root_.HPP.Spec.SameRes.refl {α : Type} (r : Res PErr α) : SameRes r r := by
  cases r <;> simp [SameRes, SameErr.refl]

/-- Two computations that do the same. -/
def Sim {α : Type} (m1 m2 : SM (Ctx S) PErr α) : Prop := ∀ c, (m1 c).2 = (m2 c).2 ∧ SameRes (m1 c).1 (m2 c).1

theorem Sim.refl {α : Type} (m : SM (Ctx S) PErr α) : Sim m m := fun _ => ⟨rfl, .refl _⟩

theorem Sim.bind {α β : Type} {m1 m2 : SM (Ctx S) PErr α} {f1 f2 : α → SM (Ctx S) PErr β} (h : Sim m1 m2)
    (hf : ∀ a, Sim (f1 a) (f2 a)) : Sim (m1 >>= f1) (m2 >>= f2) := by
  intro c
  have := h c
  simp only [SM.bind_apply]
  rcases h1 : m1 c with ⟨r1, c1⟩
  rcases h2 : m2 c with ⟨r2, c2⟩
  rw [h1, h2] at this
  obtain ⟨h3, h4⟩ := this
  simp only at h3 h4
  subst h3
  cases r1 <;> cases r2 <;> simp only [SameRes] at h4
  · subst h4; exact hf _ _
  · exact ⟨rfl, h4⟩
  · exact ⟨rfl, trivial⟩
  · exact ⟨rfl, trivial⟩

/-- Two parsers with the same lookahead maps, instructions and elements. -/
structure Agree (P1 P2 : Parser I) : Prop where
  elements : P1.elements = P2.elements
  rules : ∀ A, (AMap.get P1.rules A = none ∧ AMap.get P2.rules A = none) ∨
    ∃ R1 R2, AMap.get P1.rules A = some R1 ∧ AMap.get P2.rules A = some R2 ∧ R1.instr = R2.instr ∧
      (∀ m, AMap.get R1.steuermap m = AMap.get R2.steuermap m) ∧
      (AMap.keys R1.steuermap).Perm (AMap.keys R2.steuermap)

theorem ParserFor.agree (h1 : ParserFor pd start P1) (h2 : ParserFor pd start P2) : Agree P1 P2 := by
  refine ⟨List.ext_getElem? fun i => by rw [h1.elements.2, h2.elements.2], fun A => ?_⟩
  have a := h1.rules A
  have b := h2.rules A
  cases hr : AMap.get pd.rules A with
  | none => rw [hr] at a b; exact .inl ⟨a, b⟩
  | some r =>
    rw [hr] at a b
    obtain ⟨R1, g1, g2, g3, g4⟩ := a
    obtain ⟨R2, g5, g6, g7, g8⟩ := b
    have hm : ∀ m, AMap.get R1.steuermap m = AMap.get R2.steuermap m := by
      intro m
      apply Option.ext
      intro p
      rw [g4 m p, g8 m p]
    refine .inr ⟨R1, R2, g1, g5, by rw [g2, g6], hm, ?_⟩
    rw [List.perm_ext_iff_of_nodup (h1.nodup A R1 g1) (h2.nodup A R2 g5)]
    intro k
    rw [AMap.mem_keys_iff, AMap.mem_keys_iff, hm]

theorem Sim.elements {rec1 rec2 : Nat → Option NodeId → SM (Ctx S) PErr Unit} (ha : Agree P1 P2)
    (hr : ∀ e p, Sim (rec1 e p) (rec2 e p)) (id : NodeId) (els : List Nat) :
    Sim (parseElements P1 rec1 id els) (parseElements P2 rec2 id els) := by
  induction els with
  | nil => exact .refl _
  | cons e es ih =>
    simp only [parseElements, ha.elements]
    refine .bind (.refl _) (fun el => ?_)
    cases el.et with
    | terminal => exact .bind (.refl _) (fun s => .bind (.refl _) (fun _ => ih))
    | nonTerminal => exact .bind (hr _ _) (fun _ => ih)

theorem Sim.fitting (ha : Agree P1 P2) (ho1 ho2 : HashOrder) (el : Nat) (cur : SetMember) :
    Sim (S := S) (onProc (getFittingProduction ho1 P1 el cur)) (onProc (getFittingProduction ho2 P2 el cur)) := by
  intro c
  rcases ha.rules el with ⟨h1, h2⟩ | ⟨R1, R2, h1, h2, -, hm, hk⟩
  · simp [onProc, getFittingProduction, h1, h2, SameRes, SameErr.refl]
  · simp only [onProc, getFittingProduction, h1, h2, hm]
    cases AMap.get R2.steuermap cur with
    | some p => simp [SameRes]
    | none =>
      simp only [SameRes, SameErr, true_and]
      exact .inr ⟨_, _, (ho1.perm _ _ _).trans (hk.trans (ho2.perm _ _ _).symm), (expectedText_eq _).symm,
        (expectedText_eq _).symm⟩

theorem Sim.production (ha : Agree P1 P2) (ho1 ho2 : HashOrder) (vm : VM I S) (fuel : Nat) :
    ∀ e p, Sim (parseProduction ho1 vm P1 fuel e p) (parseProduction ho2 vm P2 fuel e p) := by
  induction fuel with
  | zero => intro e p; exact .refl _
  | succ fuel ih =>
    intro e p
    simp only [parseProduction]
    refine .bind (.refl _) (fun cur => ?_)
    rcases ha.rules e with ⟨h1, h2⟩ | ⟨R1, R2, h1, h2, hi, -⟩
    · rw [h1, h2]
      exact fun c => ⟨rfl, .refl _⟩
    · rw [h1, h2]
      intro c
      simp only [SM.bind_apply, SM.lift_apply, Res.ofOption]
      refine Sim.bind (.fitting ha ho1 ho2 e cur) (fun prod => ?_) c
      refine .bind (.refl _) (fun id => ?_)
      rw [hi]
      cases prod with
      | notEmpty els => exact .bind (.elements ha ih id els) (fun _ => .refl _)
      | empty => exact .refl _

theorem Sim.parse (ha : Agree P1 P2) (ho1 ho2 : HashOrder) (vm : VM I S) (fuel : Nat) (text : Str) (s : S) :
    (Parser.parse ho1 fuel vm P1 text s).2 = (Parser.parse ho2 fuel vm P2 text s).2 ∧
    SameRes (Parser.parse ho1 fuel vm P1 text s).1 (Parser.parse ho2 fuel vm P2 text s).1 := by
  simp only [Parser.parse, ha.elements]
  cases positionOf ⟨c% "start", .nonTerminal⟩ P2.elements with
  | none => simp [SameRes]
  | some ix =>
    have := Sim.production ha ho1 ho2 vm fuel ix none ⟨Proc.ofText text, s, Tree.new⟩
    simp only
    generalize parseProduction ho1 vm P1 fuel ix none ⟨Proc.ofText text, s, Tree.new⟩ = x1 at this
    generalize parseProduction ho2 vm P2 fuel ix none ⟨Proc.ofText text, s, Tree.new⟩ = x2 at this
    obtain ⟨r1, c1⟩ := x1
    obtain ⟨r2, c2⟩ := x2
    obtain ⟨rfl, h4⟩ := this
    cases r1 <;> cases r2 <;> simp [SameRes] at h4 ⊢
    exact h4

end HPP
