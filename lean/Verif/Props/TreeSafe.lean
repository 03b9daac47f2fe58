import Verif.Proofs.TreeSafe
import Verif.Props.Tree
/-
Properties C78 and C79: any history of tree calls.
-/
namespace HPP
open Spec
variable {T : Type} {t t' : Tree T} {log : List (NodeId × T)}

/-- A call comes back with a value or with an error. -/
def Spec.Returns {ε α : Type} (r : Res ε α) : Prop := (∃ a, r = .ok a) ∨ ∃ e, r = .err e

/-! ### C78 -/

/-- **C78**, returning: after any history of `add_node` and `remove_branch` calls with any ids, every `add_node`,
`get_node`, `get_node_mut`, `get_nth_child`, `get_nth_child_or_none` and `get_by_path_or_none` call returns. -/
theorem C78_returns (hrun : TRun t log) :
    (∀ d par, Returns (t.addNode d par).1) ∧
    (∀ id, Returns (t.getNode id)) ∧ (∀ id, Returns (t.getNodeMut id)) ∧
    (∀ id nd, t.getNode id = .ok nd ∨ t.getNodeMut id = .ok nd → ∀ n,
      Returns (t.getNthChild nd n) ∧ Returns (t.getNthChildOrNone nd n : Res TErr _)) ∧
    (∀ id ns, Returns (t.getByPathOrNone id ns)) := by
  have h := hrun.arena
  refine ⟨fun d par => ?_, fun id => getNode_returns t id, fun id => getNodeMut_returns t id, ?_, ?_⟩
  · rcases h.addNode d par with ⟨id, t1, h1, -⟩ | ⟨e, t1, h1, -⟩
    · rw [h1]; exact .inl ⟨_, rfl⟩
    · rw [h1]; exact .inr ⟨_, rfl⟩
  · intro id nd hnd n
    have hat : t.nodes[id.ptr]? = some nd := by
      rcases hnd with h1 | h1
      · exact (getNode_at h1).1
      · exact (getNodeMut_at h1).1
    have hf := (h.links _ _ hat).first
    simp only [Tree.getNthChild, Tree.getNthChildOrNone]
    rcases h.nthFrom (ε := TErr) n _ hf with ⟨j, c, -, h2⟩ | h2
    · rw [h2]; exact ⟨.inl ⟨_, rfl⟩, .inl ⟨_, rfl⟩⟩
    · rw [h2]; exact ⟨.inr ⟨_, rfl⟩, .inl ⟨_, rfl⟩⟩
  · intro id ns
    simp only [Tree.getByPathOrNone]
    rcases getNode_returns t id with ⟨nd, h1⟩ | ⟨e, h1⟩
    · rw [h1]
      simp only [Res.bind_ok]
      rcases h.byPathFrom ns _ nd (getNode_at h1).1 with ⟨j, c, -, h2⟩ | h2
      · rw [h2]; exact .inl ⟨_, rfl⟩
      · rw [h2]; exact .inl ⟨_, rfl⟩
    · rw [h1]; exact .inr ⟨_, rfl⟩

/-- **C78**, no panic: `remove_branch` never panics, whatever id it is given; `get_children` and `get_descendants`
panic exactly for ids whose slot was never handed out. -/
theorem C78_never_panics (hrun : TRun t log) (id : NodeId) :
    (∀ fuel, (t.removeBranch fuel id).1 ≠ .panic) ∧
    (∀ fuel, (t.getChildren fuel id : Res TErr _) = .panic ↔ ∀ x ∈ log, x.1.ptr ≠ id.ptr) ∧
    (∀ fuel, (t.getDescendants (fuel + 1) id : Res TErr _) = .panic ↔ ∀ x ∈ log, x.1.ptr ≠ id.ptr) := by
  have h := hrun.arena
  refine ⟨fun fuel => (h.removeBranch fuel id).1, fun fuel => ?_, fun fuel => ?_⟩
  all_goals
    by_cases hlt : id.ptr < t.nodes.length
    · have hs := h.slot _ _ (List.getElem?_eq_getElem hlt)
      constructor
      · intro hp
        exfalso
        first
          | (rcases h.getChildren (ε := TErr) fuel id hlt with ⟨L, h1, -⟩ | h1 <;> rw [hp] at h1 <;> cases h1; done)
          | (rcases h.getDescendants (ε := TErr) (fuel + 1) id hlt with ⟨L, h1, -⟩ | h1 <;>
              rw [hp] at h1 <;> cases h1; done)
      · intro hx
        exact absurd rfl (hx _ hs)
    · have hn : t.nodes[id.ptr]? = none := List.getElem?_eq_none (Nat.le_of_not_lt hlt)
      constructor
      · intro _ x hx hxe
        exact hlt (hxe ▸ h.issued x hx)
      · intro _
        first
          | (simp only [Tree.getChildren, hn, Res.unwrapO]; rfl)
          | (simp only [Tree.getDescendants, Tree.getChildren, hn, Res.unwrapO]; rfl)

/-- **C78**, foreign ids: an id that was never issued is refused by every lookup. -/
theorem C78_only_issued (hrun : TRun t log) (id : NodeId) (hid : ∀ x ∈ log, x.1 ≠ id) :
    (∃ e, t.getNode id = .err e) ∧ (∃ e, t.getNodeMut id = .err e) ∧ t.nodeExists id = false ∧
    (∀ fuel, ∃ e, t.removeBranch fuel id = (.err e, t)) ∧ ∀ ns, ∃ e, t.getByPathOrNone id ns = .err e := by
  have h := hrun.arena
  have hno : ∀ nd, t.nodes[id.ptr]? = some nd → nd.pk ≠ id.pk := by
    intro nd hn he
    refine hid _ (h.slot _ _ hn) ?_
    rw [he]
  have hg : ∃ e, t.getNode id = .err e := by
    rcases getNode_returns t id with ⟨nd, h1⟩ | h1
    · exact absurd (getNode_at h1).2 (hno _ (getNode_at h1).1)
    · exact h1
  refine ⟨hg, ?_, ?_, ?_, ?_⟩
  · rcases getNodeMut_returns t id with ⟨nd, h1⟩ | h1
    · exact absurd (getNodeMut_at h1).2 (hno _ (getNodeMut_at h1).1)
    · exact h1
  · simp only [Tree.nodeExists]
    cases hn : t.nodes[id.ptr]? with
    | none => rfl
    | some nd => simp [hno nd hn]
  · obtain ⟨e, he⟩ := hg
    intro fuel
    exact ⟨e, by simp only [Tree.removeBranch, he]⟩
  · obtain ⟨e, he⟩ := hg
    intro ns
    exact ⟨e, by simp only [Tree.getByPathOrNone, he]; rfl⟩

/-- A history with a removal, a reused slot and a failed call: an id that was never issued, in an issued slot. -/
example : ∃ t : Tree Nat, ∃ log, TRun t log ∧ (∀ x ∈ log, x.1 ≠ (⟨1, 9⟩ : NodeId)) ∧ (∃ x ∈ log, x.1.ptr = 1) ∧
    ∀ x ∈ log, x.1.ptr ≠ 7 :=
  ⟨_, [(⟨0, 0⟩, 10), (⟨1, 1⟩, 11), (⟨1, 2⟩, 12)],
    .addErr (d := 13) (par := some ⟨7, 7⟩) (e := .nodeDoesNotExist ⟨7, 7⟩)
      (.add (d := 12) (par := some ⟨0, 0⟩) (.remove (fuel := 9) (id := ⟨1, 1⟩)
        (.add (d := 11) (par := some ⟨0, 0⟩) (.add (d := 10) (par := none) .new rfl) rfl) rfl) rfl) rfl,
    by simp, by simp, by simp⟩

/-! ### C79 -/

/-- **C79**, for removals after all insertions (the full property is refuted below): listing the children or the
descendants of a node and removing it come to an end.  What is missing: histories that insert after a removal. -/
theorem C79_traversals_end_partial {h : Hist T} {ds : List Nat} (hp : TPhases t h ds) {i : Nat} (ha : Alive h ds i) :
    ∃ N, ∀ fuel, N ≤ fuel → Returns (t.getChildren fuel ⟨i, i⟩ : Res TErr _) ∧
      Returns (t.getDescendants fuel ⟨i, i⟩ : Res TErr _) ∧ Returns (t.removeBranch fuel ⟨i, i⟩).1 := by
  have ho := hp.rem.observes
  obtain ⟨N1, h1⟩ := ho.children i ha
  obtain ⟨L, -, -, N2, h2⟩ := ho.descendants i ha
  obtain ⟨N3, h3⟩ := C34_removed_partial hp ha
  refine ⟨max N1 (max N2 N3), fun fuel hf => ⟨.inl ⟨_, h1 fuel (by omega)⟩, .inl ⟨_, h2 fuel (by omega)⟩, ?_⟩⟩
  obtain ⟨t', h4, -⟩ := h3 fuel (by omega)
  rw [h4]
  exact .inl ⟨_, rfl⟩

theorem childrenFrom_cycle {ε : Type} {nd : TNode T} {i : Nat} (hn : t.nodes[i]? = some nd)
    (hs : nd.nextSibling = some i) : ∀ fuel, (t.childrenFrom fuel (some i) : Res ε _) = .timeout
  | 0 => rfl
  | fuel + 1 => by
    simp only [Tree.childrenFrom, hn, Res.unwrapO_some, Res.bind_ok, hs, childrenFrom_cycle hn hs fuel]
    rfl

/-- The full **C79** is refuted.  Nine calls that all succeed, each with an id that was issued and not removed, and
then listing the children of the root never ends; neither does listing its descendants or removing it. -/
theorem C79_refuted (p a b x y u : T) : ∃ t1 t2 t3 t4 t5 t6 t7 t8 t9 : Tree T,
    (Tree.new : Tree T).addNode p none = (.ok ⟨0, 0⟩, t1) ∧
    t1.addNode a (some ⟨0, 0⟩) = (.ok ⟨1, 1⟩, t2) ∧
    t2.removeBranch 1 ⟨1, 1⟩ = (.ok (), t3) ∧
    t3.addNode b (some ⟨0, 0⟩) = (.ok ⟨1, 2⟩, t4) ∧
    t4.addNode x (some ⟨0, 0⟩) = (.ok ⟨1, 3⟩, t5) ∧
    t5.addNode y (some ⟨0, 0⟩) = (.ok ⟨2, 4⟩, t6) ∧
    t6.removeBranch 1 ⟨1, 3⟩ = (.ok (), t7) ∧
    t7.addNode u (some ⟨0, 0⟩) = (.ok ⟨1, 5⟩, t8) ∧
    t8.removeBranch 1 ⟨2, 4⟩ = (.ok (), t9) ∧
    (∃ nd, t9.getNode ⟨0, 0⟩ = .ok nd ∧ nd.data = p) ∧
    ∀ fuel, (t9.getChildren fuel ⟨0, 0⟩ : Res TErr _) = .timeout ∧
      (t9.getDescendants fuel ⟨0, 0⟩ : Res TErr _) = .timeout ∧
      t9.removeBranch fuel ⟨0, 0⟩ = (.timeout, t9) := by
  refine ⟨⟨[⟨none, none, none, none, none, 0, p⟩], [], 1⟩,
    ⟨[⟨none, none, none, some 1, some 1, 0, p⟩, ⟨some 0, none, none, none, none, 1, a⟩], [], 2⟩,
    ⟨[⟨none, none, none, none, none, 0, p⟩, ⟨some 0, none, none, none, none, 1, a⟩], [1, 1], 2⟩,
    ⟨[⟨none, none, none, some 1, some 1, 0, p⟩, ⟨some 0, none, none, none, none, 2, b⟩], [1], 3⟩,
    ⟨[⟨none, none, none, some 1, some 1, 0, p⟩, ⟨some 0, some 1, none, none, none, 3, x⟩], [], 4⟩,
    ⟨[⟨none, none, none, some 1, some 2, 0, p⟩, ⟨some 0, some 1, some 2, none, none, 3, x⟩, ⟨some 0, some 1, none, none, none, 4, y⟩], [], 5⟩,
    ⟨[⟨none, none, none, some 2, some 2, 0, p⟩, ⟨some 0, some 1, some 2, none, none, 3, x⟩, ⟨some 0, some 1, none, none, none, 4, y⟩], [1, 1], 5⟩,
    ⟨[⟨none, none, none, some 2, some 1, 0, p⟩, ⟨some 0, some 2, none, none, none, 5, u⟩, ⟨some 0, some 1, some 1, none, none, 4, y⟩], [1], 6⟩,
    ⟨[⟨none, none, none, some 1, some 1, 0, p⟩, ⟨some 0, some 1, some 1, none, none, 5, u⟩, ⟨some 0, some 1, some 1, none, none, 4, y⟩], [2, 2, 1], 6⟩,
    rfl, rfl, rfl, rfl, rfl, rfl, rfl, rfl, rfl, ⟨_, rfl, rfl⟩, fun fuel => ?_⟩
  have hc : ∀ fuel, (Tree.getChildren (ε := TErr) (T := T) ⟨[⟨none, none, none, some 1, some 1, 0, p⟩,
      ⟨some 0, some 1, some 1, none, none, 5, u⟩, ⟨some 0, some 1, some 1, none, none, 4, y⟩], [2, 2, 1], 6⟩
      fuel ⟨0, 0⟩) = .timeout := by
    intro fuel
    simp only [Tree.getChildren, List.getElem?_cons_zero, Res.unwrapO_some, Res.bind_ok]
    exact childrenFrom_cycle rfl rfl fuel
  have hd : ∀ fuel, (Tree.getDescendants (ε := TErr) (T := T) ⟨[⟨none, none, none, some 1, some 1, 0, p⟩,
      ⟨some 0, some 1, some 1, none, none, 5, u⟩, ⟨some 0, some 1, some 1, none, none, 4, y⟩], [2, 2, 1], 6⟩
      fuel ⟨0, 0⟩) = .timeout := by
    intro fuel
    cases fuel with
    | zero => rfl
    | succ fuel =>
      simp only [Tree.getDescendants, hc]
      rfl
  refine ⟨hc fuel, hd fuel, ?_⟩
  have : ∀ t : Tree T, (t.getDescendants fuel ⟨0, 0⟩ : Res TErr _) = .timeout →
      (∃ nd, t.getNode ⟨0, 0⟩ = .ok nd) → t.removeBranch fuel ⟨0, 0⟩ = (.timeout, t) := by
    rintro t h1 ⟨nd, h2⟩
    simp only [Tree.removeBranch, h2, h1]
  exact this _ (hd fuel) ⟨_, rfl⟩

/-- **C78**: `node_exists` says of every id, in every tree, exactly whether `get_node` would give a node for it. -/
theorem C78_exists_iff_readable {T : Type} (t : Tree T) (id : NodeId) :
    t.nodeExists id = true ↔ ∃ nd, t.getNode id = .ok nd := by
  simp only [Tree.nodeExists, Tree.getNode]
  cases t.nodes[id.ptr]? with
  | none => simp
  | some n =>
    by_cases h1 : id.pk ∈ t.free
    · simp [h1]
    · by_cases h2 : n.pk ≠ id.pk
      · simp [h1, h2]
      · simp only [h1, h2, if_false, true_iff]
        exact ⟨n, rfl⟩

/-- One id that is there, one whose number is in the free list although its slot is not. -/
example : (⟨[⟨none, none, none, none, none, 0, 'a'⟩, ⟨none, none, none, none, none, 5, 'b'⟩], [1], 6⟩ : Tree Char).nodeExists ⟨0, 0⟩ = true ∧
    (⟨[⟨none, none, none, none, none, 0, 'a'⟩, ⟨none, none, none, none, none, 5, 'b'⟩], [5], 6⟩ : Tree Char).nodeExists ⟨1, 5⟩ = false := by
  decide

end HPP
