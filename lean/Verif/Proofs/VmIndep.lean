import Verif.Proofs.ParseTop
import Verif.Model.VMs
/-
The virtual machine cannot influence a parse, and NullVm leaves its state alone.
-/
namespace HPP
open Spec
variable {I S S1 S2 : Type}

/-- Two computations over different VM states that do the same to process and tree. -/
def VSim {α : Type} (m1 : SM (Ctx S1) PErr α) (m2 : SM (Ctx S2) PErr α) : Prop :=
  ∀ c1 c2, c1.proc = c2.proc → c1.tree = c2.tree →
    (m1 c1).1 = (m2 c2).1 ∧ (m1 c1).2.proc = (m2 c2).2.proc ∧ (m1 c1).2.tree = (m2 c2).2.tree

theorem VSim.bind {α β : Type} {m1 : SM (Ctx S1) PErr α} {m2 : SM (Ctx S2) PErr α}
    {f1 : α → SM (Ctx S1) PErr β} {f2 : α → SM (Ctx S2) PErr β} (h : VSim m1 m2)
    (hf : ∀ a, VSim (f1 a) (f2 a)) : VSim (m1 >>= f1) (m2 >>= f2) := by
  intro c1 c2 hp ht
  have := h c1 c2 hp ht
  simp only [SM.bind_apply]
  rcases h1 : m1 c1 with ⟨r1, d1⟩
  rcases h2 : m2 c2 with ⟨r2, d2⟩
  rw [h1, h2] at this
  obtain ⟨h3, h4, h5⟩ := this
  simp only at h3 h4 h5
  subst h3
  cases r1 with
  | ok a => exact hf a d1 d2 h4 h5
  | err e => exact ⟨rfl, h4, h5⟩
  | panic => exact ⟨rfl, h4, h5⟩
  | timeout => exact ⟨rfl, h4, h5⟩

theorem VSim.lift {α : Type} (r : Res PErr α) : VSim (S1 := S1) (S2 := S2) (SM.lift r) (SM.lift r) :=
  fun _ _ h1 h2 => ⟨rfl, h1, h2⟩

theorem VSim.onProc {α : Type} (f : SM Proc PErr α) :
    VSim (S1 := S1) (S2 := S2) (HPP.onProc f) (HPP.onProc f) := by
  intro c1 c2 h1 h2
  simp [HPP.onProc, h1, h2]

theorem VSim.addTreeNode (d : Str) (p : Option NodeId) :
    VSim (S1 := S1) (S2 := S2) (HPP.addTreeNode d p) (HPP.addTreeNode d p) := by
  intro c1 c2 h1 h2
  simp [HPP.addTreeNode, h1, h2]

theorem VSim.addTreeNodeIgnore (d : Str) (p : Option NodeId) :
    VSim (S1 := S1) (S2 := S2) (HPP.addTreeNodeIgnore d p) (HPP.addTreeNodeIgnore d p) := by
  intro c1 c2 h1 h2
  simp [HPP.addTreeNodeIgnore, h1, h2]

theorem VSim.elements {rec1 : Nat → Option NodeId → SM (Ctx S1) PErr Unit}
    {rec2 : Nat → Option NodeId → SM (Ctx S2) PErr Unit} (P : Parser I)
    (hr : ∀ e p, VSim (rec1 e p) (rec2 e p)) (id : NodeId) (els : List Nat) :
    VSim (parseElements P rec1 id els) (parseElements P rec2 id els) := by
  induction els with
  | nil => exact fun _ _ h1 h2 => ⟨rfl, h1, h2⟩
  | cons e es ih =>
    simp only [parseElements]
    refine .bind (.lift _) (fun el => ?_)
    cases el.et with
    | terminal => exact .bind (.onProc _) (fun s => .bind (.addTreeNodeIgnore _ _) (fun _ => ih))
    | nonTerminal => exact .bind (hr _ _) (fun _ => ih)

theorem VSim.run {vm1 : VM I S1} {vm2 : VM I S2} (t1 : TreePreserving vm1) (t2 : TreePreserving vm2)
    (o1 : Total vm1) (o2 : Total vm2) (id : NodeId) (is : List I) :
    VSim (runInstructionsM vm1 id is) (runInstructionsM vm2 id is) := by
  intro c1 c2 h1 h2
  simp only [runInstructionsM]
  cases g1 : runInstructions vm1 id is c1.tree c1.state with
  | none => exact absurd g1 (runInstructions_total o1 id is)
  | some x1 =>
    cases g2 : runInstructions vm2 id is c2.tree c2.state with
    | none => exact absurd g2 (runInstructions_total o2 id is)
    | some x2 =>
      obtain ⟨a1, b1⟩ := x1
      obtain ⟨a2, b2⟩ := x2
      have e1 := runInstructions_tree t1 id is g1
      have e2 := runInstructions_tree t2 id is g2
      simp [h1, e1, e2, h2]

theorem VSim.production {vm1 : VM I S1} {vm2 : VM I S2} (t1 : TreePreserving vm1) (t2 : TreePreserving vm2)
    (o1 : Total vm1) (o2 : Total vm2) (ho : HashOrder) (P : Parser I) (fuel : Nat) :
    ∀ e p, VSim (parseProduction ho vm1 P fuel e p) (parseProduction ho vm2 P fuel e p) := by
  induction fuel with
  | zero => intro e p; exact .lift _
  | succ fuel ih =>
    intro e p
    simp only [parseProduction]
    refine .bind (.onProc _) (fun cur => .bind (.lift _) (fun r => .bind (.onProc _) (fun prod =>
      .bind (.addTreeNode _ _) (fun id => ?_))))
    cases prod with
    | notEmpty els => exact .bind (.elements P ih id els) (fun _ => .run t1 t2 o1 o2 _ _)
    | empty => exact .bind (fun _ _ h1 h2 => ⟨rfl, h1, h2⟩) (fun _ => .run t1 t2 o1 o2 _ _)

theorem VSim.parse {vm1 : VM I S1} {vm2 : VM I S2} (t1 : TreePreserving vm1) (t2 : TreePreserving vm2)
    (o1 : Total vm1) (o2 : Total vm2) (ho : HashOrder) (P : Parser I) (fuel : Nat) (text : Str) (s1 : S1) (s2 : S2) :
    (Parser.parse ho fuel vm1 P text s1).1 = (Parser.parse ho fuel vm2 P text s2).1 ∧
    (Parser.parse ho fuel vm1 P text s1).2.proc = (Parser.parse ho fuel vm2 P text s2).2.proc := by
  simp only [Parser.parse]
  cases positionOf ⟨c% "start", .nonTerminal⟩ P.elements with
  | none => simp
  | some ix =>
    have := VSim.production t1 t2 o1 o2 ho P fuel ix none ⟨Proc.ofText text, s1, Tree.new⟩
      ⟨Proc.ofText text, s2, Tree.new⟩ rfl rfl
    simp only
    generalize parseProduction ho vm1 P fuel ix none ⟨Proc.ofText text, s1, Tree.new⟩ = x1 at this
    generalize parseProduction ho vm2 P fuel ix none ⟨Proc.ofText text, s2, Tree.new⟩ = x2 at this
    obtain ⟨r1, c1⟩ := x1
    obtain ⟨r2, c2⟩ := x2
    obtain ⟨rfl, h4, h5⟩ := this
    cases r1 <;> simp_all

/-! ### state invariants -/

/-- A computation that keeps a relation between the state before and after. -/
def Keeps (R : S → S → Prop) {α : Type} (m : SM (Ctx S) PErr α) : Prop := ∀ c, R c.state (m c).2.state

theorem Keeps.same {R : S → S → Prop} (hr : ∀ s, R s s) {α : Type} {m : SM (Ctx S) PErr α}
    (h : ∀ c, (m c).2.state = c.state) : Keeps R m := fun c => by rw [h]; exact hr _

theorem Keeps.bind {R : S → S → Prop} (htr : ∀ a b c, R a b → R b c → R a c) {α β : Type}
    {m : SM (Ctx S) PErr α} {f : α → SM (Ctx S) PErr β} (h : Keeps R m) (hf : ∀ a, Keeps R (f a)) :
    Keeps R (m >>= f) := by
  intro c
  have h1 := h c
  rw [SM.bind_apply]
  rcases hm : m c with ⟨r, c1⟩
  rw [hm] at h1
  cases r with
  | ok a => exact htr _ _ _ h1 (hf a c1)
  | err e => exact h1
  | panic => exact h1
  | timeout => exact h1

theorem Keeps.elements {R : S → S → Prop} (hr : ∀ s, R s s) (htr : ∀ a b c, R a b → R b c → R a c)
    {rec : Nat → Option NodeId → SM (Ctx S) PErr Unit} (P : Parser I)
    (hrec : ∀ e p, Keeps R (rec e p)) (id : NodeId) (els : List Nat) : Keeps R (parseElements P rec id els) := by
  induction els with
  | nil => exact .same hr (fun _ => rfl)
  | cons e es ih =>
    simp only [parseElements]
    refine .bind htr (.same hr (fun _ => rfl)) (fun el => ?_)
    cases el.et with
    | terminal =>
      exact .bind htr (.same hr (fun _ => rfl)) (fun s => .bind htr (.same hr (fun _ => rfl)) (fun _ => ih))
    | nonTerminal => exact .bind htr (hrec _ _) (fun _ => ih)

theorem Keeps.runL {vm : VM I S} {R : S → S → Prop} (hr : ∀ s, R s s) (htr : ∀ a b c, R a b → R b c → R a c)
    (hx : ∀ t id i s t' s', vm.execute t id i s = some (t', s') → R s s') (id : NodeId) (is : List I) :
    ∀ t s t' s', runInstructions vm id is t s = some (t', s') → R s s' := by
  induction is with
  | nil => intro t s t' s' h; simp [runInstructions] at h; rw [h.2]; exact hr _
  | cons i is ih =>
    intro t s t' s' h
    simp only [runInstructions] at h
    split at h
    · cases h
    · next t1 s1 he => exact htr _ _ _ (hx _ _ _ _ _ _ he) (ih _ _ _ _ h)

/-- Whatever relation every single instruction keeps, a whole parse keeps. -/
theorem Keeps.production {vm : VM I S} {R : S → S → Prop} (hr : ∀ s, R s s) (htr : ∀ a b c, R a b → R b c → R a c)
    (hx : ∀ t id i s t' s', vm.execute t id i s = some (t', s') → R s s')
    (ho : HashOrder) (P : Parser I) (fuel : Nat) :
    ∀ e p, Keeps R (parseProduction ho vm P fuel e p) := by
  have hrun : ∀ id is, Keeps R (runInstructionsM vm id is) := by
    intro id is c
    simp only [runInstructionsM]
    split
    · exact hr _
    · next h => exact Keeps.runL hr htr hx _ _ _ _ _ _ h
  induction fuel with
  | zero => intro e p; exact .same hr (fun _ => rfl)
  | succ fuel ih =>
    intro e p
    simp only [parseProduction]
    refine .bind htr (.same hr (fun _ => rfl)) (fun cur => .bind htr (.same hr (fun _ => rfl)) (fun r =>
      .bind htr (.same hr (fun _ => rfl)) (fun prod => .bind htr (.same hr (fun _ => rfl)) (fun id => ?_))))
    cases prod with
    | notEmpty els => exact .bind htr (.elements hr htr P ih id els) (fun _ => hrun _ _)
    | empty => exact .bind htr (.same hr (fun _ => rfl)) (fun _ => hrun _ _)

theorem Keeps.parse {vm : VM I S} {R : S → S → Prop} (hr : ∀ s, R s s) (htr : ∀ a b c, R a b → R b c → R a c)
    (hx : ∀ t id i s t' s', vm.execute t id i s = some (t', s') → R s s')
    (ho : HashOrder) (P : Parser I) (fuel : Nat) (text : Str) (s : S) :
    R s (Parser.parse ho fuel vm P text s).2.state := by
  simp only [Parser.parse]
  cases positionOf ⟨c% "start", .nonTerminal⟩ P.elements with
  | none => exact hr _
  | some ix =>
    have := Keeps.production hr htr hx ho P fuel ix none ⟨Proc.ofText text, s, Tree.new⟩
    simp only
    generalize parseProduction ho vm P fuel ix none ⟨Proc.ofText text, s, Tree.new⟩ = x at this
    obtain ⟨r, c⟩ := x
    cases r <;> exact this

end HPP
