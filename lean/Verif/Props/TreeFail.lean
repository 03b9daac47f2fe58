import Verif.Props.TreeSafe
/-
More about removals in any history (C34), and property C80: failed tree calls.
-/
namespace HPP
open Spec
variable {T : Type} {t t' : Tree T} {log : List (NodeId × T)}

theorem unlink_shape {ptr : Nat} {nd : TNode T} {L : List Nat} (h : t.unlink ptr nd L = some t') :
    t'.free = (L ++ [ptr, ptr]).reverse ++ t.free ∧ t'.nodes.length = t.nodes.length ∧
      ∀ (i : Nat) (x : TNode T), t.nodes[i]? = some x → ∃ y, t'.nodes[i]? = some y ∧ y.pk = x.pk ∧ y.data = x.data := by
  have hopt : ∀ (o : Option Nat) (f : TNode T → TNode T) (t t' : Tree T),
      (hf : ∀ n, (f n).pk = n.pk ∧ (f n).data = n.data) →
      (ho : (match o with | some s => t.updNode s f | none => some t) = some t') →
      t'.free = t.free ∧ t'.nodes.length = t.nodes.length ∧
      ∀ (i : Nat) (x : TNode T), t.nodes[i]? = some x → ∃ y, t'.nodes[i]? = some y ∧ y.pk = x.pk ∧ y.data = x.data := by
    intro o f t t' hf ho
    cases o with
    | none => simp only [Option.some.injEq] at ho; subst ho; exact ⟨rfl, rfl, fun i x hx => ⟨x, hx, rfl, rfl⟩⟩
    | some s =>
      simp only at ho
      cases hs : t.nodes[s]? with
      | none => simp [Tree.updNode, hs] at ho
      | some n =>
        obtain ⟨t1, h1, h2, -, h4, h5⟩ := updNode_some hs f
        rw [h1] at ho; cases ho
        refine ⟨h2, h4, fun i x hx => ?_⟩
        rw [h5]
        split
        · next hi => subst hi; rw [hs] at hx; cases hx; exact ⟨_, rfl, (hf _).1, (hf _).2⟩
        · exact ⟨x, hx, rfl, rfl⟩
  rw [unlink_eq] at h
  obtain ⟨t1, g1, h⟩ := Option.bind_eq_some_iff.mp h
  obtain ⟨t2, g2, h⟩ := Option.bind_eq_some_iff.mp h
  obtain ⟨t3, g3, h⟩ := Option.bind_eq_some_iff.mp h
  simp only [Option.some.injEq] at h
  subst h
  obtain ⟨a1, a2, a3⟩ := hopt (ho := g1) (hf := by intro n; exact ⟨rfl, rfl⟩)
  obtain ⟨b1, b2, b3⟩ := hopt (ho := g2) (hf := by intro n; exact ⟨rfl, rfl⟩)
  obtain ⟨c1, c2, c3⟩ := hopt (ho := g3) (hf := by intro n; exact ⟨rfl, rfl⟩)
  refine ⟨by simp only [c1, b1, a1], by simp only [c2, b2, a2], fun i x hx => ?_⟩
  obtain ⟨y, y1, y2, y3⟩ := a3 i x hx
  obtain ⟨z, z1, z2, z3⟩ := b3 i y y1
  obtain ⟨w, w1, w2, w3⟩ := c3 i z z1
  exact ⟨w, w1, w2.trans (z2.trans y2), w3.trans (z3.trans y3)⟩

/-- What a removal that succeeds did. -/
theorem removeBranch_shape {fuel : Nat} {id : NodeId} (h : t.removeBranch fuel id = (.ok (), t')) :
    ∃ nd L, t.getNode id = .ok nd ∧ (t.getDescendants fuel id : Res TErr _) = .ok L ∧
      t.unlink id.ptr nd (L.map (·.ptr)) = some t' := by
  simp only [Tree.removeBranch] at h
  split at h
  · cases h
  · cases h
  · cases h
  · next nd hn =>
    split at h
    · cases h
    · cases h
    · cases h
    · next L hL =>
      split at h
      · cases h
      · next t2 hu => cases h; exact ⟨nd, L, hn, hL, hu⟩

/-- **C34**, in any history, for the writing access: right after a `remove_branch` that succeeds, `get_node_mut`
refuses the removed id and the ids of all nodes `get_descendants` listed below it, whatever calls came before.  What
is missing for C34: `get_node` and `node_exists` (refuted below) and later insertions. -/
theorem C34_get_node_mut_refuses_partial {fuel : Nat} {id : NodeId} (h : t.removeBranch fuel id = (.ok (), t')) :
    t'.getNodeMut id = .err (.nodeWasRemoved id) ∧
    ∃ L, (t.getDescendants fuel id : Res TErr _) = .ok L ∧ ∀ x ∈ L, ∃ e, t'.getNodeMut x = .err e := by
  obtain ⟨nd, L, h1, h2, h3⟩ := removeBranch_shape h
  obtain ⟨f1, -, f3⟩ := unlink_shape h3
  have hmem : ∀ i, i ∈ (L.map (·.ptr) ++ [id.ptr, id.ptr]) → i ∈ t'.free := by
    intro i hi
    rw [f1]
    exact List.mem_append_left _ (List.mem_reverse.2 hi)
  have hbad : ∀ x : NodeId, x.ptr ∈ t'.free → ∃ e, t'.getNodeMut x = .err e := by
    intro x hx
    simp only [Tree.getNodeMut, hx, if_true]
    split
    · exact ⟨_, rfl⟩
    · exact ⟨_, rfl⟩
  refine ⟨?_, L, h2, fun x hx => hbad x (hmem _ ?_)⟩
  · obtain ⟨y, y1, -, -⟩ := f3 _ _ (getNode_at h1).1
    have : id.ptr ∈ t'.free := hmem _ (by simp)
    simp only [Tree.getNodeMut, y1, this, if_true]
  · exact List.mem_append_left _ (List.mem_map_of_mem hx)

/-- A removal of a branch with a child, after a slot was reused. -/
example : ∃ t t' : Tree Nat, ∃ log, TRun t log ∧ t.removeBranch 9 ⟨1, 2⟩ = (.ok (), t') ∧
    (t.getDescendants 9 ⟨1, 2⟩ : Res TErr _) = .ok [⟨3, 4⟩] := by
  exact ⟨_, _, _, .add (d := 15) (par := some ⟨1, 2⟩) (id := ⟨3, 4⟩) (.add (d := 14) (par := some ⟨0, 0⟩) (id := ⟨2, 3⟩)
    (.addErr (d := 13) (par := some ⟨7, 7⟩) (e := .nodeDoesNotExist ⟨7, 7⟩)
      (.add (d := 12) (par := some ⟨0, 0⟩) (id := ⟨1, 2⟩) (.remove (fuel := 9) (id := ⟨1, 1⟩)
        (.add (d := 11) (par := some ⟨0, 0⟩) (.add (d := 10) (par := none) .new rfl) rfl) rfl) rfl) rfl) rfl) rfl, rfl, rfl⟩

/-! ### C80 -/

/-- **C80** for `remove_branch`: a call that fails leaves the tree as it was. -/
theorem C80_failed_remove {fuel : Nat} {id : NodeId} {e : TErr} (h : t.removeBranch fuel id = (.err e, t')) : t' = t := by
  simp only [Tree.removeBranch] at h
  split at h
  · cases h; rfl
  · cases h
  · cases h
  · split at h
    · cases h; rfl
    · cases h
    · cases h
    · split at h <;> cases h

/-- A failed `add_node` only takes an index off the free list and may use up a key. -/
theorem addNode_err_shape {d : T} {par : Option NodeId} {e : TErr} (h : t.addNode d par = (.err e, t')) :
    t'.nodes = t.nodes ∧ t'.free = t.free.tail := by
  rw [addNode_at] at h
  simp only [addAt] at h
  split at h
  · split at h <;> cases h
  · split at h
    · cases h; exact ⟨rfl, rfl⟩
    · split at h
      · cases h; exact ⟨rfl, rfl⟩
      · cases h
      · cases h
      · split at h
        · cases h
        · split at h
          · cases h
          · split at h <;> cases h

theorem childrenFrom_nodes {ε : Type} (hn : t'.nodes = t.nodes) : ∀ (fuel : Nat) (o : Option Nat),
    (t'.childrenFrom fuel o : Res ε _) = t.childrenFrom fuel o
  | fuel, none => by cases fuel <;> rfl
  | 0, some _ => rfl
  | fuel + 1, some i => by
    simp only [Tree.childrenFrom, hn, childrenFrom_nodes hn fuel]

theorem getDescendants_nodes {ε : Type} (hn : t'.nodes = t.nodes) : ∀ (fuel : Nat) (id : NodeId),
    (t'.getDescendants fuel id : Res ε _) = t.getDescendants fuel id
  | 0, _ => rfl
  | fuel + 1, id => by
    have : (t'.getDescendants fuel : NodeId → Res ε _) = t.getDescendants fuel :=
      funext fun c => getDescendants_nodes hn fuel c
    simp only [Tree.getDescendants, Tree.getChildren, hn, childrenFrom_nodes hn, this]

theorem nthFrom_nodes {ε : Type} (hn : t'.nodes = t.nodes) : ∀ (k : Nat) (o : Option Nat),
    (t'.nthFrom k o : Res ε _) = t.nthFrom k o
  | k, none => by cases k <;> rfl
  | 0, some i => by simp only [Tree.nthFrom, hn]
  | k + 1, some i => by simp only [Tree.nthFrom, hn, nthFrom_nodes hn k]

/-- **C80** for `add_node` (the full claim is refuted below): after a call that fails, everything that could be read
still reads the same: nodes, lists of children and descendants, children by position.  What is missing: an id that
was refused before may be accepted afterwards. -/
theorem C80_failed_add_partial {d : T} {par : Option NodeId} {e : TErr} (h : t.addNode d par = (.err e, t')) :
    (∀ id nd, t.getNode id = .ok nd → t'.getNode id = .ok nd) ∧
    (∀ id nd, t.getNodeMut id = .ok nd → t'.getNodeMut id = .ok nd) ∧
    (∀ id, t.nodeExists id = true → t'.nodeExists id = true) ∧
    (∀ fuel id, (t'.getChildren fuel id : Res TErr _) = t.getChildren fuel id) ∧
    (∀ fuel id, (t'.getDescendants fuel id : Res TErr _) = t.getDescendants fuel id) ∧
    (∀ nd n, t'.getNthChild nd n = t.getNthChild nd n ∧
      (t'.getNthChildOrNone nd n : Res TErr _) = t.getNthChildOrNone nd n) := by
  obtain ⟨hn, hf⟩ := addNode_err_shape h
  have hsub : ∀ i, i ∈ t'.free → i ∈ t.free := fun i hi => List.mem_of_mem_tail (hf ▸ hi)
  refine ⟨fun id nd hg => ?_, fun id nd hg => ?_, fun id hg => ?_, fun fuel id => ?_,
    fun fuel id => getDescendants_nodes hn fuel id, fun nd n => ⟨?_, nthFrom_nodes hn n _⟩⟩
  · simp only [Tree.getNode, hn] at hg ⊢
    split at hg
    · cases hg
    · split at hg
      · cases hg
      · next hfr => rw [if_neg (fun hc => hfr (hsub _ hc))]; exact hg
  · simp only [Tree.getNodeMut, hn] at hg ⊢
    split at hg
    · cases hg
    · split at hg
      · cases hg
      · next hfr => rw [if_neg (fun hc => hfr (hsub _ hc))]; exact hg
  · simp only [Tree.nodeExists, hn] at hg ⊢
    split at hg
    · cases hg
    · split at hg
      · cases hg
      · next hfr => rw [if_neg (fun hc => hfr (hsub _ hc))]; exact hg
  · simp only [Tree.getChildren, hn, childrenFrom_nodes hn]
  · simp only [Tree.getNthChild, nthFrom_nodes hn]

/-- **C80** for `add_node` while nothing was removed yet: see `C32_failed_add_changes_nothing`.  The full claim is
refuted: two failed `add_node` calls bring a removed node back. -/
theorem C80_failed_add_refuted (p a b : T) : ∃ t1 t2 t3 t4 t5 : Tree T, ∃ nd : TNode T, ∃ e : TErr,
    (Tree.new : Tree T).addNode p none = (.ok ⟨0, 0⟩, t1) ∧
    t1.addNode a (some ⟨0, 0⟩) = (.ok ⟨1, 1⟩, t2) ∧
    t2.removeBranch 1 ⟨1, 1⟩ = (.ok (), t3) ∧
    t3.addNode b (some ⟨7, 7⟩) = (.err e, t4) ∧
    t4.addNode b (some ⟨7, 7⟩) = (.err e, t5) ∧
    t3.nodeExists ⟨1, 1⟩ = false ∧ t4.nodeExists ⟨1, 1⟩ = false ∧
    (t3.getNodeMut ⟨1, 1⟩ = .err (.nodeWasRemoved ⟨1, 1⟩)) ∧
    t5.nodeExists ⟨1, 1⟩ = true ∧ t5.getNode ⟨1, 1⟩ = .ok nd ∧ t5.getNodeMut ⟨1, 1⟩ = .ok nd ∧ nd.data = a :=
  ⟨_, _, _, _, _, _, _, rfl, rfl, rfl, rfl, rfl, rfl, rfl, rfl, rfl, rfl, rfl, rfl⟩

/-- Failed calls in a tree with a reused slot. -/
example : ∃ t t' : Tree Nat, ∃ log, TRun t log ∧
    t.addNode 13 (some ⟨7, 7⟩) = (.err (.nodeDoesNotExist ⟨7, 7⟩), t') ∧ t' ≠ t ∧
    t.removeBranch 9 ⟨1, 1⟩ = (.err (.nodeWasRemoved ⟨1, 1⟩), t) := by
  refine ⟨_, _, _, .add (d := 12) (par := some ⟨0, 0⟩) (id := ⟨1, 2⟩) (.remove (fuel := 9) (id := ⟨1, 1⟩)
    (.add (d := 11) (par := some ⟨0, 0⟩) (.add (d := 10) (par := none) .new rfl) rfl) rfl) rfl, rfl, ?_, rfl⟩
  intro h
  have := congrArg Tree.free h
  simp at this

end HPP
