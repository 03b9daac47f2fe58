import Verif.Props.TreeReuse
import Verif.Props.TreeSafe
/-
Concrete cases of the tree theorems: each `example` applies the theorem named in its comment.
-/
namespace HPP
open Spec

namespace Samples

/-- Four insertions: a root `0`, its children `1`, `2` and the child `3` of `1`; one of the calls fails. -/
def treeCalls : List (Nat × Option NodeId) :=
  [(10, none), (11, some ⟨0, 0⟩), (12, some ⟨0, 0⟩), (77, some ⟨9, 9⟩), (13, some ⟨1, 1⟩)]

/-- The history these calls describe. -/
abbrev treeHist : Hist Nat := [(none, 10), (some 0, 11), (some 0, 12), (some 1, 13)]

/-- The tree after the calls. -/
def addedTree : Tree Nat := treeCalls.foldl (fun t c => (t.addNode c.1 c.2).2) Tree.new

theorem added_phases : TPhases addedTree treeHist [] := .adds treeCalls

/-- The tree after removing the branch at node 1. -/
def cutTree : Tree Nat := (addedTree.removeBranch 9 ⟨1, 1⟩).2

theorem alive_nil {h : Hist Nat} {i : Nat} (hi : i < h.length) : Alive h [] i :=
  ⟨hi, by rintro ⟨r, hr, -⟩; cases hr⟩

theorem cut_phases : TPhases cutTree treeHist [1] :=
  .remove (fuel := 9) (i := 1) added_phases (alive_nil (by decide)) rfl

theorem not_descendant : ¬ Descendant treeHist 1 2 ∧ ¬ Descendant treeHist 1 0 := by
  have key : ∀ j, Descendant treeHist 1 j → j = 3 := by
    intro j h
    induction h with
    | child hj => simpa [kids, kidsFrom] using hj
    | step _ hk ih => subst ih; simp [kids, kidsFrom] at hk
  exact ⟨fun h => by have := key _ h; omega, fun h => by have := key _ h; omega⟩

theorem cut_alive : Alive treeHist [1] 2 ∧ Alive treeHist [1] 0 := by
  refine ⟨⟨by decide, ?_⟩, ⟨by decide, ?_⟩⟩
  · rintro ⟨r, hr, h⟩
    simp only [List.mem_singleton] at hr
    subst hr
    rcases h with h | h
    · omega
    · exact not_descendant.1 h
  · rintro ⟨r, hr, h⟩
    simp only [List.mem_singleton] at hr
    subst hr
    rcases h with h | h
    · omega
    · exact not_descendant.2 h

/-- A tree in which the slot of a removed node has been used again. -/
def reusedTree : Tree Nat := (cutTree.addNode 14 (some ⟨2, 2⟩)).2

theorem cut_run : TRun cutTree [(⟨0, 0⟩, 10), (⟨1, 1⟩, 11), (⟨2, 2⟩, 12), (⟨3, 3⟩, 13)] :=
  .remove (fuel := 9) (id := ⟨1, 1⟩) (.add (d := 13) (par := some ⟨1, 1⟩) (.addErr (d := 77) (par := some ⟨9, 9⟩)
    (e := .nodeDoesNotExist ⟨9, 9⟩) (.add (d := 12) (par := some ⟨0, 0⟩) (.add (d := 11) (par := some ⟨0, 0⟩)
      (.add (d := 10) (par := none) .new rfl) rfl) rfl) rfl) rfl) rfl

theorem reused_run : TRun reusedTree [(⟨0, 0⟩, 10), (⟨1, 1⟩, 11), (⟨2, 2⟩, 12), (⟨3, 3⟩, 13), (⟨1, 4⟩, 14)] :=
  .add (d := 14) (par := some ⟨2, 2⟩) cut_run rfl

end Samples
open Samples

/-- `C32_add_results`: the ids returned by five calls, one of which names a node that was never inserted. -/
example : (addResults treeCalls Tree.new).map okId =
    [some (some ⟨0, 0⟩), some (some ⟨1, 1⟩), some (some ⟨2, 2⟩), some none, some (some ⟨3, 3⟩)] :=
  C32_add_results treeCalls

/-- `C32_tree_is_forest`: reading the tree shows the children of the root in insertion order. -/
example : Observes addedTree treeHist [] ∧
    ∃ N, ∀ fuel, N ≤ fuel → (addedTree.getChildren fuel ⟨0, 0⟩ : Res TErr _) = .ok [⟨1, 1⟩, ⟨2, 2⟩] :=
  have h : Observes addedTree treeHist [] := C32_tree_is_forest treeCalls
  ⟨h, h.children 0 (alive_nil (by decide))⟩

/-- `C32_failed_add_changes_nothing`. -/
example : addedTree.addNode 5 (some ⟨2, 3⟩) = (.err (.nodeDoesNotExist ⟨2, 3⟩), addedTree) :=
  C32_failed_add_changes_nothing treeCalls 5 ⟨2, 3⟩ (by decide)

/-- `C33_ids_never_alias`: after a removal and the reuse of the slot, the old id never reads the new data. -/
example : ∀ nd, (reusedTree.getNode ⟨1, 1⟩ = .ok nd ∨ reusedTree.getNodeMut ⟨1, 1⟩ = .ok nd) → nd.data = 11 :=
  (C33_ids_never_alias reused_run).2 ⟨1, 1⟩ 11 (by decide)

/-- `C34_removed_partial`: removing node 1 of the tree takes node 3 with it and keeps nodes 0 and 2. -/
example : ∃ N, ∀ fuel, N ≤ fuel → ∃ t', addedTree.removeBranch fuel ⟨1, 1⟩ = (.ok (), t') ∧
    (∃ e, t'.getNode ⟨1, 1⟩ = .err e) ∧ (∃ e, t'.getNode ⟨3, 3⟩ = .err e) ∧
    (∃ nd, t'.getNode ⟨2, 2⟩ = .ok nd ∧ nd.data = 12) ∧ Observes t' treeHist [1] := by
  obtain ⟨N, hN⟩ := C34_removed_partial added_phases (i := 1) (alive_nil (by decide))
  refine ⟨N, fun fuel hf => ?_⟩
  obtain ⟨t', h1, h2, h3, h4, h5⟩ := hN fuel hf
  exact ⟨t', h1, h2, h3 3 (.child (by decide)),
    (h4 2 (some 0) 12 rfl (alive_nil (by decide)) (by decide) not_descendant.1).1, h5⟩

/-- `C34_get_node_mut_refuses_partial`. -/
example : cutTree.getNodeMut ⟨1, 1⟩ = .err (.nodeWasRemoved ⟨1, 1⟩) :=
  (C34_get_node_mut_refuses_partial (t := addedTree) (fuel := 9) rfl).1

/-- `C35_undamaged_partial`: inserting under node 2 after the removal of node 1. -/
example : ∃ id t', cutTree.addNode 14 (some ⟨2, 2⟩) = (.ok id, t') ∧ (∃ nd, t'.getNode id = .ok nd ∧ nd.data = 14) ∧
    ∃ nd, t'.getNode ⟨0, 0⟩ = .ok nd ∧ nd.data = 10 := by
  obtain ⟨-, id, t', h1, -, h2, h3⟩ := C35_undamaged_partial cut_phases 14 (some 2)
    (by rintro q hq; cases hq; exact cut_alive.1)
  exact ⟨id, t', h1, h2, h3 0 none 10 rfl cut_alive.2⟩

/-- `C78_returns`, `C78_never_panics`: calls on the tree with a reused slot; only an index that was never issued panics. -/
example : Returns (reusedTree.addNode 5 (some ⟨1, 1⟩)).1 ∧ (reusedTree.removeBranch 7 ⟨1, 1⟩).1 ≠ .panic ∧
    (reusedTree.getChildren 7 ⟨8, 8⟩ : Res TErr _) = .panic ∧ (reusedTree.getChildren 7 ⟨1, 1⟩ : Res TErr _) ≠ .panic :=
  ⟨(C78_returns reused_run).1 5 (some ⟨1, 1⟩), (C78_never_panics reused_run ⟨1, 1⟩).1 7,
    ((C78_never_panics reused_run ⟨8, 8⟩).2.1 7).mpr (by decide),
    fun h => absurd (((C78_never_panics reused_run ⟨1, 1⟩).2.1 7).mp h) (by decide)⟩

/-- `C78_only_issued`: the id with slot 1 and key 3 was never issued. -/
example : (∃ e, reusedTree.getNode ⟨1, 3⟩ = .err e) ∧ reusedTree.nodeExists ⟨1, 3⟩ = false :=
  have h := C78_only_issued reused_run ⟨1, 3⟩ (by decide)
  ⟨h.1, h.2.2.1⟩

/-- `C78_exists_iff_readable`. -/
example : ∃ nd, reusedTree.getNode ⟨1, 4⟩ = .ok nd := (C78_exists_iff_readable reusedTree ⟨1, 4⟩).mp (by decide)

/-- `C79_traversals_end_partial`: after the removal of node 1 the root can be listed and removed. -/
example : ∃ N, ∀ fuel, N ≤ fuel → Returns (cutTree.getChildren fuel ⟨0, 0⟩ : Res TErr _) ∧
    Returns (cutTree.getDescendants fuel ⟨0, 0⟩ : Res TErr _) ∧ Returns (cutTree.removeBranch fuel ⟨0, 0⟩).1 :=
  C79_traversals_end_partial cut_phases cut_alive.2

/-- `C80_failed_remove`: removing a removed node. -/
example : ∀ t' e, cutTree.removeBranch 9 ⟨1, 1⟩ = (.err e, t') → t' = cutTree := fun _ _ h => C80_failed_remove h

example : ∃ t', cutTree.removeBranch 9 ⟨1, 1⟩ = (.err (.nodeWasRemoved ⟨1, 1⟩), t') := ⟨_, rfl⟩

/-- `C80_failed_add_partial`: a failed insertion into the tree with free slots leaves node 2 readable. -/
example : ∃ t', cutTree.addNode 5 (some ⟨9, 9⟩) = (.err (.nodeDoesNotExist ⟨9, 9⟩), t') ∧
    (∃ nd, t'.getNode ⟨2, 2⟩ = .ok nd) ∧ (t'.getChildren 9 ⟨0, 0⟩ : Res TErr _) = cutTree.getChildren 9 ⟨0, 0⟩ := by
  refine ⟨_, rfl, ⟨_, (C80_failed_add_partial (t := cutTree) (d := 5) (par := some ⟨9, 9⟩) rfl).1 ⟨2, 2⟩ _ rfl⟩,
    (C80_failed_add_partial (t := cutTree) (d := 5) (par := some ⟨9, 9⟩) rfl).2.2.2.1 9 ⟨0, 0⟩⟩

/-- `C80_failed_add_brings_back_partial`: only slot 1 can be affected. -/
example : ∃ t', cutTree.addNode 5 (some ⟨9, 9⟩) = (.err (.nodeDoesNotExist ⟨9, 9⟩), t') ∧
    ∀ id, t'.nodeExists id = true → cutTree.nodeExists id = true ∨ id.pk = 1 :=
  ⟨_, rfl, (C80_failed_add_brings_back_partial (t := cutTree) (d := 5) (par := some ⟨9, 9⟩) (d0 := 6) rfl rfl).2.2⟩

/-- `C98_insertion`: inserting into the tree with a reused slot makes exactly the node of that slot unreadable. -/
example : ∃ t', reusedTree.addNode 15 none = (.ok ⟨1, 5⟩, t') ∧ (∃ e, t'.getNode ⟨1, 4⟩ = .err e) ∧
    ∃ nd, t'.getNode ⟨2, 2⟩ = .ok nd ∧ nd.data = 12 :=
  have h := (C98_insertion reused_run (d := 15) (par := none) (new := ⟨1, 5⟩) rfl).2
  ⟨_, rfl, (h ⟨1, 4⟩ 14 ⟨_, rfl, rfl⟩).2 rfl, (h ⟨2, 2⟩ 12 ⟨_, rfl, rfl⟩).1.mpr (by decide)⟩

/-- `C98_removal`: removing node 2 of the tree with a reused slot. -/
example : ∃ t' L, reusedTree.removeBranch 9 ⟨2, 2⟩ = (.ok (), t') ∧
    (reusedTree.getDescendants 9 ⟨2, 2⟩ : Res TErr _) = .ok L ∧
    ((∃ nd, t'.getNode ⟨0, 0⟩ = .ok nd ∧ nd.data = 10) ↔ ∀ y ∈ ⟨2, 2⟩ :: L, (0 : Nat) ≠ y.ptr) := by
  obtain ⟨L, h1, h2, -⟩ := C98_removal (t := reusedTree) (fuel := 9) (gone := ⟨2, 2⟩) rfl
  exact ⟨_, L, rfl, h1, h2 ⟨0, 0⟩ 10 ⟨_, rfl, rfl⟩⟩

/-- `C98_slot_shared`: two insertions after removing node 2 share its slot. -/
example : ∃ t1 t2 id1 id2, (addedTree.removeBranch 9 ⟨1, 1⟩).2.addNode 20 none = (.ok id1, t1) ∧
    t1.addNode 21 none = (.ok id2, t2) ∧ id1.ptr = 1 ∧ id2.ptr = 1 ∧ id1 ≠ id2 ∧ t2.nodeExists id1 = false :=
  have hrun : TRun addedTree [(⟨0, 0⟩, 10), (⟨1, 1⟩, 11), (⟨2, 2⟩, 12), (⟨3, 3⟩, 13)] :=
    .add (d := 13) (par := some ⟨1, 1⟩) (.addErr (d := 77) (par := some ⟨9, 9⟩)
      (e := .nodeDoesNotExist ⟨9, 9⟩) (.add (d := 12) (par := some ⟨0, 0⟩) (.add (d := 11) (par := some ⟨0, 0⟩)
        (.add (d := 10) (par := none) .new rfl) rfl) rfl) rfl) rfl
  have h := C98_slot_shared hrun (fuel := 9) (gone := ⟨1, 1⟩) (d1 := 20) (d2 := 21) (par1 := none) (par2 := none) rfl rfl rfl
  ⟨_, _, _, _, rfl, rfl, h.1, h.2.1, h.2.2.1, h.2.2.2.2.2.2⟩

end HPP
