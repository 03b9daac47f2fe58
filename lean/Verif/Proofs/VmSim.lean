import Verif.Proofs.VmPanic
import Verif.Proofs.TreeRem
import Verif.Model.VMs
/-
Two VMs whose instructions keep a relation between their states keep it over whole parses.
-/
namespace HPP
open Spec
variable {I S1 S2 : Type}

/-- The tree has a history of insertions. -/
def TreeOk (t : Tree Str) : Prop := ∃ h, TRep t h

theorem TreeOk.addNode {t : Tree Str} (h : TreeOk t) (d : Str) (p : Option NodeId) : TreeOk (t.addNode d p).2 := by
  obtain ⟨h, hr⟩ := h
  cases p with
  | none => obtain ⟨t', h1, h2⟩ := hr.addNode_root d; rw [h1]; exact ⟨_, h2⟩
  | some id =>
    by_cases hb : id.ptr = id.pk ∧ id.ptr < h.length
    · obtain ⟨q, k⟩ := id
      obtain ⟨h1, h2⟩ := hb
      simp only at h1 h2
      subst h1
      obtain ⟨t', h3, h4⟩ := hr.addNode_child d h2
      rw [h3]; exact ⟨_, h4⟩
    · rw [hr.addNode_bad d hb]; exact ⟨h, hr⟩

/-- Looking at the first child of a node never panics. -/
theorem TreeOk.firstChild {t : Tree Str} (h : TreeOk t) (id : NodeId) : firstChildData t id ≠ none := by
  obtain ⟨h, hr⟩ := h
  have hm := hr.rem
  by_cases hb : id.ptr = id.pk ∧ id.ptr < h.length ∧ ¬ Dead h [] id.ptr
  · obtain ⟨q, k⟩ := id
    obtain ⟨h1, h2, h3⟩ := hb
    simp only at h1 h2 h3
    subst h1
    obtain ⟨nd, g1, -, g2, -⟩ := hm.getNode (List.getElem?_eq_getElem h2) h3
    have hp := hm.byPathFrom [0] h2 h3 g2
    simp only [firstChildData, Tree.getByPathOrNone, g1, Res.bind_ok, hp]
    rcases (followPath (kidsLeft h []) [0] q).bind fun j => t.nodes[j]? with _ | n
    · intro h; cases h
    · intro h; cases h
  · obtain ⟨⟨e, he⟩, -⟩ := hm.getNode_bad hb
    simp only [firstChildData, Tree.getByPathOrNone, he]
    intro h; cases h

/-- Computations with two VMs: both end alike in related states, or the first panics (and then, unless `a`, the second
too). -/
def RSim (R : S1 → S2 → Prop) (a : Prop) {α : Type} (m1 : SM (Ctx S1) PErr α) (m2 : SM (Ctx S2) PErr α) : Prop :=
  ∀ c1 c2, c1.proc = c2.proc → c1.tree = c2.tree → TreeOk c2.tree → R c1.state c2.state →
    ((m1 c1).1 = .panic ∧ (a ∨ (m2 c2).1 = .panic)) ∨
    ((m1 c1).1 = (m2 c2).1 ∧ (m1 c1).2.proc = (m2 c2).2.proc ∧ (m1 c1).2.tree = (m2 c2).2.tree ∧
      TreeOk (m2 c2).2.tree ∧ R (m1 c1).2.state (m2 c2).2.state)

variable {R : S1 → S2 → Prop} {a : Prop}

theorem RSim.bind {α β : Type} {m1 : SM (Ctx S1) PErr α} {m2 : SM (Ctx S2) PErr α}
    {f1 : α → SM (Ctx S1) PErr β} {f2 : α → SM (Ctx S2) PErr β} (h : RSim R a m1 m2)
    (hf : ∀ x, RSim R a (f1 x) (f2 x)) : RSim R a (m1 >>= f1) (m2 >>= f2) := by
  intro c1 c2 hp ht hj hs
  have := h c1 c2 hp ht hj hs
  simp only [SM.bind_apply]
  rcases hm1 : m1 c1 with ⟨r1, d1⟩
  rcases hm2 : m2 c2 with ⟨r2, d2⟩
  rw [hm1, hm2] at this
  rcases this with ⟨h1, h2⟩ | ⟨h1, h2, h3, h4, h5⟩
  · replace h1 : r1 = .panic := h1
    replace h2 : a ∨ r2 = .panic := h2
    subst h1
    refine .inl ⟨rfl, h2.imp id fun h2 => ?_⟩
    subst h2; rfl
  · replace h1 : r1 = r2 := h1
    subst h1
    cases r1 with
    | ok x => exact hf x d1 d2 h2 h3 h4 h5
    | err e => exact .inr ⟨rfl, h2, h3, h4, h5⟩
    | panic => exact .inr ⟨rfl, h2, h3, h4, h5⟩
    | timeout => exact .inr ⟨rfl, h2, h3, h4, h5⟩

theorem RSim.lift {α : Type} (r : Res PErr α) : RSim R a (SM.lift r) (SM.lift r) :=
  fun _ _ h1 h2 h3 h4 => .inr ⟨rfl, h1, h2, h3, h4⟩

theorem RSim.liftBind {α β : Type} {r : Res PErr α} {f1 : α → SM (Ctx S1) PErr β} {f2 : α → SM (Ctx S2) PErr β}
    (hf : ∀ x, r = .ok x → RSim R a (f1 x) (f2 x)) : RSim R a (SM.lift r >>= f1) (SM.lift r >>= f2) := by
  intro c1 c2 hp ht hj hs
  cases r with
  | ok x => exact hf x rfl c1 c2 hp ht hj hs
  | err e => exact .inr ⟨rfl, hp, ht, hj, hs⟩
  | panic => exact .inr ⟨rfl, hp, ht, hj, hs⟩
  | timeout => exact .inr ⟨rfl, hp, ht, hj, hs⟩

theorem RSim.onProc {α : Type} (f : SM Proc PErr α) : RSim R a (HPP.onProc f) (HPP.onProc f) := by
  intro c1 c2 h1 h2 h3 h4
  simp only [HPP.onProc, h1]
  exact .inr ⟨trivial, trivial, h2, h3, h4⟩

theorem RSim.addTreeNode (d : Str) (p : Option NodeId) : RSim R a (HPP.addTreeNode d p) (HPP.addTreeNode d p) := by
  intro c1 c2 h1 h2 h3 h4
  simp only [HPP.addTreeNode, h2]
  exact .inr ⟨trivial, h1, trivial, h3.addNode _ _, h4⟩

theorem RSim.addTreeNodeIgnore (d : Str) (p : Option NodeId) :
    RSim R a (HPP.addTreeNodeIgnore d p) (HPP.addTreeNodeIgnore d p) := by
  intro c1 c2 h1 h2 h3 h4
  simp only [HPP.addTreeNodeIgnore, h2]
  exact .inr ⟨trivial, h1, trivial, h3.addNode _ _, h4⟩

theorem RSim.elements {rec1 : Nat → Option NodeId → SM (Ctx S1) PErr Unit}
    {rec2 : Nat → Option NodeId → SM (Ctx S2) PErr Unit} (P : Parser I)
    (hr : ∀ e p, RSim R a (rec1 e p) (rec2 e p)) (id : NodeId) (els : List Nat) :
    RSim R a (parseElements P rec1 id els) (parseElements P rec2 id els) := by
  induction els with
  | nil => exact fun _ _ h1 h2 h3 h4 => .inr ⟨rfl, h1, h2, h3, h4⟩
  | cons e es ih =>
    simp only [parseElements]
    refine .bind (.lift _) (fun el => ?_)
    cases el.et with
    | terminal => exact .bind (.onProc _) (fun s => .bind (.addTreeNodeIgnore _ _) (fun _ => ih))
    | nonTerminal => exact .bind (hr _ _) (fun _ => ih)

/-- One instruction with two VMs. -/
def ExecSim (R : S1 → S2 → Prop) (a : Prop) (vm1 : VM I S1) (vm2 : VM I S2) (i : I) : Prop :=
  ∀ t id s1 s2, TreeOk t → R s1 s2 →
    (vm1.execute t id i s1 = none ∧ (a ∨ vm2.execute t id i s2 = none)) ∨
    (∃ s1' s2', vm1.execute t id i s1 = some (t, s1') ∧ vm2.execute t id i s2 = some (t, s2') ∧ R s1' s2')

theorem ExecSim.run {vm1 : VM I S1} {vm2 : VM I S2} (id : NodeId) : ∀ (is : List I), (∀ i ∈ is, ExecSim R a vm1 vm2 i) →
    ∀ t s1 s2, TreeOk t → R s1 s2 →
    (runInstructions vm1 id is t s1 = none ∧ (a ∨ runInstructions vm2 id is t s2 = none)) ∨
    (∃ s1' s2', runInstructions vm1 id is t s1 = some (t, s1') ∧ runInstructions vm2 id is t s2 = some (t, s2') ∧
      R s1' s2')
  | [], _, t, s1, s2, _, h => .inr ⟨s1, s2, rfl, rfl, h⟩
  | i :: is, hi, t, s1, s2, hj, h => by
    simp only [runInstructions]
    rcases hi i (by simp) t id s1 s2 hj h with ⟨h1, h2⟩ | ⟨s1', s2', h1, h2, h3⟩
    · rw [h1]
      refine .inl ⟨rfl, h2.imp (fun x => x) fun h2 => ?_⟩
      rw [h2]
    · rw [h1, h2]
      exact ExecSim.run id is (fun j hj => hi j (by simp [hj])) t s1' s2' hj h3

theorem RSim.run {vm1 : VM I S1} {vm2 : VM I S2} {is : List I} (h : ∀ i ∈ is, ExecSim R a vm1 vm2 i) (id : NodeId) :
    RSim R a (runInstructionsM vm1 id is) (runInstructionsM vm2 id is) := by
  intro c1 c2 h1 h2 hj h3
  simp only [runInstructionsM]
  rw [h2]
  rcases ExecSim.run id is h c2.tree c1.state c2.state hj h3 with ⟨g1, g2⟩ | ⟨s1', s2', g1, g2, g3⟩
  · rw [g1]
    refine .inl ⟨rfl, g2.imp (fun x => x) fun g2 => ?_⟩
    rw [g2]
  · rw [g1, g2]
    exact .inr ⟨rfl, h1, rfl, hj, g3⟩

theorem RSim.production {vm1 : VM I S1} {vm2 : VM I S2} (ho : HashOrder) (P : Parser I)
    (h : ∀ A r, AMap.get P.rules A = some r → ∀ i ∈ r.instr, ExecSim R a vm1 vm2 i) (fuel : Nat) :
    ∀ e p, RSim R a (parseProduction ho vm1 P fuel e p) (parseProduction ho vm2 P fuel e p) := by
  induction fuel with
  | zero => intro e p; exact .lift _
  | succ fuel ih =>
    intro e p
    simp only [parseProduction]
    refine .bind (.onProc _) (fun cur => .liftBind (fun r hr => .bind (.onProc _) (fun prod =>
      .bind (.addTreeNode _ _) (fun id => ?_))))
    have hr' : AMap.get P.rules e = some r := by
      cases hg : AMap.get P.rules e with
      | none => rw [hg] at hr; cases hr
      | some r' => rw [hg] at hr; cases hr; rfl
    cases prod with
    | notEmpty els => exact .bind (.elements P ih id els) (fun _ => .run (h e r hr') _)
    | empty => exact .bind (fun _ _ h1 h2 h3 h4 => .inr ⟨rfl, h1, h2, h3, h4⟩) (fun _ => .run (h e r hr') _)

/-- Whole parses with two VMs. -/
theorem RSim.parse {vm1 : VM I S1} {vm2 : VM I S2} (ho : HashOrder) (P : Parser I)
    (h : ∀ A r, AMap.get P.rules A = some r → ∀ i ∈ r.instr, ExecSim R a vm1 vm2 i) (fuel : Nat) (text : Str)
    {s1 : S1} {s2 : S2} (hs : R s1 s2) :
    ((Parser.parse ho fuel vm1 P text s1).1 = .panic ∧ (a ∨ (Parser.parse ho fuel vm2 P text s2).1 = .panic)) ∨
    ((Parser.parse ho fuel vm1 P text s1).1 = (Parser.parse ho fuel vm2 P text s2).1 ∧
      (Parser.parse ho fuel vm1 P text s1).2.proc = (Parser.parse ho fuel vm2 P text s2).2.proc ∧
      R (Parser.parse ho fuel vm1 P text s1).2.state (Parser.parse ho fuel vm2 P text s2).2.state) := by
  simp only [Parser.parse]
  cases positionOf ⟨c% "start", .nonTerminal⟩ P.elements with
  | none => exact .inr ⟨rfl, rfl, hs⟩
  | some ix =>
    have := RSim.production ho P h fuel ix none ⟨Proc.ofText text, s1, Tree.new⟩ ⟨Proc.ofText text, s2, Tree.new⟩
      rfl rfl ⟨[], .new⟩ hs
    simp only
    generalize parseProduction ho vm1 P fuel ix none ⟨Proc.ofText text, s1, Tree.new⟩ = x1 at this
    generalize parseProduction ho vm2 P fuel ix none ⟨Proc.ofText text, s2, Tree.new⟩ = x2 at this
    obtain ⟨r1, c1⟩ := x1
    obtain ⟨r2, c2⟩ := x2
    rcases this with ⟨h1, h2⟩ | ⟨h1, h2, h3, h5, h4⟩
    · simp only at h1 h2
      subst h1
      refine .inl ⟨rfl, h2.imp (fun x => x) fun h2 => ?_⟩
      subst h2; rfl
    · simp only at h1 h2 h3 h4
      subst h1
      cases r1 with
      | ok u => exact .inr ⟨congrArg Res.ok h3, h2, h4⟩
      | err e => exact .inr ⟨rfl, h2, h4⟩
      | panic => exact .inr ⟨rfl, h2, h4⟩
      | timeout => exact .inr ⟨rfl, h2, h4⟩

end HPP
