import Verif.Props.TreeFail
/-
Property C98: exactly which nodes an insertion or a removal makes unreadable, in any history.
-/
namespace HPP
open Spec
variable {T : Type} {t t' : Tree T} {log : List (NodeId × T)}

/-- Key and data of the node in slot `i`. -/
def slotOf (t : Tree T) (i : Nat) : Option (Nat × T) := (t.nodes[i]?).map fun n => (n.pk, n.data)

/-- `t'` holds in every slot what `t` holds, up to links. -/
def SameSlots (t' t : Tree T) : Prop := t'.free = t.free ∧ t'.counter = t.counter ∧ t'.nodes.length = t.nodes.length ∧
  ∀ i, slotOf t' i = slotOf t i

theorem SameSlots.refl (t : Tree T) : SameSlots t t := ⟨rfl, rfl, rfl, fun _ => rfl⟩

theorem SameSlots.trans {t1 t2 t3 : Tree T} (h : SameSlots t3 t2) (h' : SameSlots t2 t1) : SameSlots t3 t1 :=
  ⟨h.1.trans h'.1, h.2.1.trans h'.2.1, h.2.2.1.trans h'.2.2.1, fun i => (h.2.2.2 i).trans (h'.2.2.2 i)⟩

theorem updNode_slots {i : Nat} {f : TNode T → TNode T} (hf : ∀ n, (f n).pk = n.pk ∧ (f n).data = n.data)
    (h : t.updNode i f = some t') : SameSlots t' t := by
  cases hs : t.nodes[i]? with
  | none => simp [Tree.updNode, hs] at h
  | some n =>
    obtain ⟨t1, h1, h2, h3, h4, h5⟩ := updNode_some hs f
    rw [h1] at h; cases h
    refine ⟨h2, h3, h4, fun j => ?_⟩
    simp only [slotOf, h5]
    split
    · next hj => subst hj; rw [hs]; simp [hf n]
    · rfl

/-- Storing a node in a slot. -/
theorem placeNode_slots {re : Bool} {ix : Nat} {n : TNode T} (hix : re = false → ix = t.nodes.length)
    (h : t.placeNode re ix n = some t') : t'.free = t.free ∧ t'.counter = t.counter ∧
      t'.nodes.length ≤ t.nodes.length + 1 ∧ slotOf t' ix = some (n.pk, n.data) ∧ ∀ i, i ≠ ix → slotOf t' i = slotOf t i := by
  cases re with
  | true =>
    simp only [Tree.placeNode, if_true] at h
    cases hs : t.nodes[ix]? with
    | none => simp [Tree.updNode, hs] at h
    | some m =>
      obtain ⟨t1, h1, h2, h3, h4, h5⟩ := updNode_some hs (fun _ => n)
      rw [h1] at h; cases h
      exact ⟨h2, h3, by omega, by simp [slotOf, h5], fun i hi => by simp [slotOf, h5, hi]⟩
  | false =>
    simp only [Tree.placeNode, Bool.false_eq_true, if_false, Option.some.injEq] at h
    subst h
    have := hix rfl
    subst this
    refine ⟨rfl, rfl, by simp, by simp [slotOf], fun i hi => ?_⟩
    simp only [slotOf]
    rcases Nat.lt_or_ge i t.nodes.length with hlt | hge
    · rw [List.getElem?_append_left hlt]
    · rw [List.getElem?_eq_none (by simp; omega), List.getElem?_eq_none hge]

/-- What an insertion that succeeds did. -/
theorem addNode_shape {d : T} {par : Option NodeId} {id : NodeId} (h : t.addNode d par = (.ok id, t')) :
    id.ptr = t.free.headD t.nodes.length ∧ id.pk = t.counter ∧ t'.free = t.free.tail ∧ t'.counter = t.counter + 1 ∧
    t'.nodes.length ≤ t.nodes.length + 1 ∧ slotOf t' id.ptr = some (id.pk, d) ∧
    ∀ i, i ≠ id.ptr → slotOf t' i = slotOf t i := by
  have hre : ∀ nx, t.free.headD t.nodes.length = nx → (!t.free.isEmpty) = false → nx = t.nodes.length := by
    intro nx hn he
    cases hf : t.free with
    | nil => rw [hf] at hn; exact hn.symm
    | cons a b => rw [hf] at he; simp at he
  have hat : t.addNode d par = addAt t (!t.free.isEmpty) (t.free.headD t.nodes.length) d par := by
    rw [addNode_at]
    cases t.free <;> rfl
  rw [hat] at h
  generalize hn : t.free.headD t.nodes.length = nx at h hre ⊢
  generalize hr : (!t.free.isEmpty) = re at h hre
  replace hre := hre nx rfl
  -- the last step
  have key : ∀ (t1 t2 : Tree T) (n : TNode T), SameSlots t1 ⟨t.nodes, t.free.tail, t.counter + 1⟩ →
      t1.placeNode re nx n = some t2 → n.pk = t.counter → n.data = d → id = ⟨nx, t.counter⟩ → t2 = t' →
      id.ptr = nx ∧ id.pk = t.counter ∧ t'.free = t.free.tail ∧ t'.counter = t.counter + 1 ∧
      t'.nodes.length ≤ t.nodes.length + 1 ∧ slotOf t' id.ptr = some (id.pk, d) ∧
      ∀ i, i ≠ id.ptr → slotOf t' i = slotOf t i := by
    rintro t1 t2 n ⟨s1, s2, s3, s4⟩ hp hpk hd rfl rfl
    simp only at s1 s2 s3
    obtain ⟨p1, p2, p3, p4, p5⟩ := placeNode_slots (by rw [s3]; exact hre) hp
    refine ⟨rfl, rfl, p1.trans s1, p2.trans s2, by omega, by rw [p4, hpk, hd], fun i hi => ?_⟩
    rw [p5 i hi, s4]; rfl
  cases par with
  | none =>
    simp only [addAt] at h
    split at h
    · cases h
    · next t2 hp =>
      cases h
      exact key _ _ _ (.refl _) hp rfl rfl rfl rfl
  | some pid =>
    simp only [addAt] at h
    split at h
    · cases h
    · split at h
      · cases h
      · cases h
      · cases h
      · next pn hpn =>
        split at h
        · cases h
        · next t2 h2 =>
          have s2 := updNode_slots (by intro n; exact ⟨rfl, rfl⟩) h2
          split at h
          · cases h
          · next t3 h3 =>
            have s3 : SameSlots t3 t2 := by
              cases hl : pn.lastChild with
              | none => rw [hl] at h3; simp only [Option.some.injEq] at h3; subst h3; exact .refl _
              | some l => rw [hl] at h3; exact updNode_slots (by intro n; exact ⟨rfl, rfl⟩) h3
            split at h
            · cases h
            · next t4 h4 =>
              cases h
              exact key _ _ _ (s3.trans s2) h4 rfl rfl rfl rfl

/-- What a removal that succeeds did to the slots. -/
theorem removeBranch_slots {fuel : Nat} {id : NodeId} (h : t.removeBranch fuel id = (.ok (), t')) :
    ∃ L, (t.getDescendants fuel id : Res TErr _) = .ok L ∧
      t'.free = (L.map (·.ptr) ++ [id.ptr, id.ptr]).reverse ++ t.free ∧
      t'.counter = t.counter ∧ t'.nodes.length = t.nodes.length ∧ ∀ i, slotOf t' i = slotOf t i := by
  obtain ⟨nd, L, -, hL, hu⟩ := removeBranch_shape h
  have hopt : ∀ (o : Option Nat) (f : TNode T → TNode T) (t t' : Tree T),
      (hf : ∀ n, (f n).pk = n.pk ∧ (f n).data = n.data) →
      (ho : (match o with | some s => t.updNode s f | none => some t) = some t') → SameSlots t' t := by
    intro o f t t' hf ho
    cases o with
    | none => simp only [Option.some.injEq] at ho; subst ho; exact .refl _
    | some s => exact updNode_slots hf ho
  rw [unlink_eq] at hu
  obtain ⟨t1, g1, hu⟩ := Option.bind_eq_some_iff.mp hu
  obtain ⟨t2, g2, hu⟩ := Option.bind_eq_some_iff.mp hu
  obtain ⟨t3, g3, hu⟩ := Option.bind_eq_some_iff.mp hu
  simp only [Option.some.injEq] at hu
  subst hu
  have a := hopt (ho := g1) (hf := by intro n; exact ⟨rfl, rfl⟩)
  have b := hopt (ho := g2) (hf := by intro n; exact ⟨rfl, rfl⟩)
  have c := hopt (ho := g3) (hf := by intro n; exact ⟨rfl, rfl⟩)
  have s := c.trans (b.trans a)
  exact ⟨L, hL, by simp only [s.1], s.2.1, s.2.2.1, s.2.2.2⟩

theorem addNode_err_counter {d : T} {par : Option NodeId} {e : TErr} (h : t.addNode d par = (.err e, t')) :
    t.counter ≤ t'.counter := by
  rw [addNode_at] at h
  simp only [addAt] at h
  split at h
  · split at h <;> cases h
  · split at h
    · cases h; exact Nat.le_refl _
    · split at h
      · cases h; exact Nat.le_succ _
      · cases h
      · cases h
      · split at h
        · cases h
        · split at h
          · cases h
          · split at h <;> cases h

/-- Keys and slots are below the counter, released slots below the number of slots. -/
theorem Spec.TRun.keys (hrun : TRun t log) : t.nodes.length ≤ t.counter ∧
    ∀ i k d, slotOf t i = some (k, d) → k < t.counter := by
  induction hrun with
  | new => exact ⟨Nat.le_refl _, fun i k d h => by simp [Tree.new, slotOf] at h⟩
  | @add t t' log d par id hr h ih =>
    obtain ⟨-, h2, -, h4, h5, h6, h7⟩ := addNode_shape h
    refine ⟨by omega, fun i k x hx => ?_⟩
    by_cases hi : i = id.ptr
    · subst hi; rw [h6] at hx; cases hx; omega
    · rw [h7 i hi] at hx
      have := ih.2 i k x hx
      omega
  | @addErr t t' log d par e hr h ih =>
    obtain ⟨h1, -⟩ := addNode_err_shape h
    have h2 := addNode_err_counter h
    exact ⟨by rw [h1]; omega, fun i k x hx => by
      simp only [slotOf, h1] at hx
      have := ih.2 i k x hx
      omega⟩
  | @remove t t' log fuel id hr h ih =>
    obtain ⟨L, -, -, h2, h3, h4⟩ := removeBranch_slots h
    exact ⟨by omega, fun i k x hx => by rw [h4] at hx; have := ih.2 i k x hx; omega⟩
  | removeErr hr h ih => rw [C80_failed_remove h]; exact ih

/-- Reading by slots. -/
theorem getNode_slot {id : NodeId} {d : T} : (∃ nd, t.getNode id = .ok nd ∧ nd.data = d) ↔
    slotOf t id.ptr = some (id.pk, d) ∧ id.pk ∉ t.free := by
  simp only [Tree.getNode, slotOf]
  cases hn : t.nodes[id.ptr]? with
  | none => simp
  | some n =>
    by_cases h1 : id.pk ∈ t.free
    · simp [h1]
    · by_cases h2 : n.pk = id.pk
      · simp [h1, h2]
      · simp [h1, h2]

/-- Reading for writing by slots. -/
theorem getNodeMut_slot {id : NodeId} {d : T} : (∃ nd, t.getNodeMut id = .ok nd ∧ nd.data = d) ↔
    slotOf t id.ptr = some (id.pk, d) ∧ id.ptr ∉ t.free := by
  simp only [Tree.getNodeMut, slotOf]
  cases hn : t.nodes[id.ptr]? with
  | none => simp
  | some n =>
    by_cases h1 : id.ptr ∈ t.free
    · simp [h1]
    · by_cases h2 : n.pk = id.pk
      · simp [h1, h2]
      · simp [h1, h2]

/-- **C98**, insertions: in any history, after a successful `add_node` the new node is readable, and of the nodes that
were readable before exactly the one that held the same slot (if there is one) is lost. -/
theorem C98_insertion (hrun : TRun t log) {d : T} {par : Option NodeId} {new : NodeId}
    (h : t.addNode d par = (.ok new, t')) :
    (∃ nd, t'.getNode new = .ok nd ∧ nd.data = d) ∧
    ∀ id x, (∃ nd, t.getNode id = .ok nd ∧ nd.data = x) →
      ((∃ nd, t'.getNode id = .ok nd ∧ nd.data = x) ↔ id.ptr ≠ new.ptr) ∧
      (id.ptr = new.ptr → ∃ e, t'.getNode id = .err e) := by
  obtain ⟨h1, h2, h3, h4, h5, h6, h7⟩ := addNode_shape h
  obtain ⟨k1, k2⟩ := hrun.keys
  refine ⟨getNode_slot.2 ⟨h6, ?_⟩, fun id x hx => ?_⟩
  · intro hc
    rw [h3] at hc
    have := hrun.arena.free _ (List.mem_of_mem_tail hc)
    omega
  · obtain ⟨g1, g2⟩ := getNode_slot.1 hx
    have hk := k2 _ _ _ g1
    have hlost : id.ptr = new.ptr → slotOf t' id.ptr ≠ some (id.pk, x) := by
      intro he hc
      rw [he, h6] at hc
      have : new.pk = id.pk := by simpa using congrArg (Option.map Prod.fst) hc
      omega
    refine ⟨⟨fun hr he => hlost he (getNode_slot.1 hr).1, fun hne => getNode_slot.2 ⟨?_, ?_⟩⟩, fun he => ?_⟩
    · rw [h7 _ hne]; exact g1
    · rw [h3]; exact fun hc => g2 (List.mem_of_mem_tail hc)
    · rcases getNode_returns t' id with ⟨nd, hn⟩ | hE
      · have hs := (getNode_slot.1 ⟨nd, hn, rfl⟩).1
        rw [he, h6] at hs
        have : new.pk = id.pk := by simpa using congrArg (Option.map Prod.fst) hs
        omega
      · exact hE

/-- **C98**, removals: in any history, after a successful `remove_branch` a node that was readable before is still readable
exactly if its *key* is not the slot number of the removed node or of one of the descendants listed below it; for
`get_node_mut` it is exactly if its *slot* is not. -/
theorem C98_removal {fuel : Nat} {gone : NodeId} (h : t.removeBranch fuel gone = (.ok (), t')) :
    ∃ L, (t.getDescendants fuel gone : Res TErr _) = .ok L ∧
    (∀ id x, (∃ nd, t.getNode id = .ok nd ∧ nd.data = x) →
      ((∃ nd, t'.getNode id = .ok nd ∧ nd.data = x) ↔ ∀ y ∈ gone :: L, id.pk ≠ y.ptr)) ∧
    ∀ id x, (∃ nd, t.getNodeMut id = .ok nd ∧ nd.data = x) →
      ((∃ nd, t'.getNodeMut id = .ok nd ∧ nd.data = x) ↔ ∀ y ∈ gone :: L, id.ptr ≠ y.ptr) := by
  obtain ⟨L, hL, h1, -, -, h4⟩ := removeBranch_slots h
  have hmem : ∀ k, k ∈ t'.free ↔ (∃ y ∈ gone :: L, k = y.ptr) ∨ k ∈ t.free := by
    intro k
    rw [h1]
    simp only [List.mem_append, List.mem_reverse, List.mem_map, List.mem_cons, List.not_mem_nil, or_false, or_self]
    constructor
    · rintro ((⟨y, h1, h2⟩ | h) | h)
      · exact .inl ⟨y, .inr h1, h2.symm⟩
      · exact .inl ⟨gone, .inl rfl, h⟩
      · exact .inr h
    · rintro (⟨y, (h1 | h1), h2⟩ | h)
      · subst h1; exact .inl (.inr h2)
      · exact .inl (.inl ⟨y, h1, h2.symm⟩)
      · exact .inr h
  refine ⟨L, hL, fun id x hx => ?_, fun id x hx => ?_⟩
  · obtain ⟨g1, g2⟩ := getNode_slot.1 hx
    rw [getNode_slot, h4]
    constructor
    · rintro ⟨-, hn⟩ y hy he
      exact hn ((hmem _).2 (.inl ⟨y, hy, he⟩))
    · intro hy
      refine ⟨g1, fun hc => ?_⟩
      rcases (hmem _).1 hc with ⟨y, hy', he⟩ | hc
      · exact hy y hy' he
      · exact g2 hc
  · obtain ⟨g1, g2⟩ := getNodeMut_slot.1 hx
    rw [getNodeMut_slot, h4]
    constructor
    · rintro ⟨-, hn⟩ y hy he
      exact hn ((hmem _).2 (.inl ⟨y, hy, he⟩))
    · intro hy
      refine ⟨g1, fun hc => ?_⟩
      rcases (hmem _).1 hc with ⟨y, hy', he⟩ | hc
      · exact hy y hy' he
      · exact g2 hc

/-- **C98**, two insertions after a removal, in any history: they take the slot of the removed node both, so that the first
of the two new nodes is lost -- whatever the parents are. -/
theorem C98_slot_shared (hrun : TRun t log) {fuel : Nat} {gone id1 id2 : NodeId} {t1 t2 : Tree T} {d1 d2 : T}
    {par1 par2 : Option NodeId} (h : t.removeBranch fuel gone = (.ok (), t')) (h1 : t'.addNode d1 par1 = (.ok id1, t1))
    (h2 : t1.addNode d2 par2 = (.ok id2, t2)) :
    id1.ptr = gone.ptr ∧ id2.ptr = gone.ptr ∧ id1 ≠ id2 ∧ (∃ nd, t1.getNode id1 = .ok nd ∧ nd.data = d1) ∧
      (∃ e, t2.getNode id1 = .err e) ∧ (∃ e, t2.getNodeMut id1 = .err e) ∧ t2.nodeExists id1 = false := by
  obtain ⟨L, -, f1, -, -, -⟩ := removeBranch_slots h
  obtain ⟨a1, a2, a3, a4, -, a6, -⟩ := addNode_shape h1
  obtain ⟨b1, b2, b3, b4, -, b6, -⟩ := addNode_shape h2
  have hf : t'.free = gone.ptr :: gone.ptr :: ((L.map (·.ptr)).reverse ++ t.free) := by
    rw [f1]; simp
  rw [hf] at a1 a3
  simp only [List.headD_cons, List.tail_cons] at a1 a3
  rw [a3] at b1
  simp only [List.headD_cons] at b1
  have hr1 := (hrun.remove h)
  have hr2 := hr1.add h1
  have hp : id1.ptr = id2.ptr := a1.trans b1.symm
  have hread := (C98_insertion hr1 h1).1
  have hlost := ((C98_insertion hr2 h2).2 id1 d1 hread).2 hp
  refine ⟨a1, b1, ?_, hread, hlost, ?_, ?_⟩
  · intro he
    rw [he] at a2
    omega
  · rcases getNodeMut_returns t2 id1 with ⟨nd, hn⟩ | hE
    · have hs := (getNodeMut_slot.1 ⟨nd, hn, rfl⟩).1
      rw [hp, b6] at hs
      have : id2.pk = id1.pk := by simpa using congrArg (Option.map Prod.fst) hs
      omega
    · exact hE
  · have hiff := C78_exists_iff_readable t2 id1
    cases hx : t2.nodeExists id1 with
    | false => rfl
    | true =>
      obtain ⟨e, he⟩ := hlost
      obtain ⟨nd, hn⟩ := hiff.1 hx
      rw [he] at hn; cases hn

/-- A removal makes an unrelated node unreadable: `c`, which has the id `(1, 3)`, is alive, and removing the leaf `e` in
slot 3 makes `get_node` refuse `c`. -/
theorem C98_unrelated_node_lost (r a b c d e : T) : ∃ t1 t2 t3 t4 t5 t6 t7 t8 : Tree T, ∃ nd : TNode T,
    (Tree.new : Tree T).addNode r none = (.ok ⟨0, 0⟩, t1) ∧
    t1.addNode a (some ⟨0, 0⟩) = (.ok ⟨1, 1⟩, t2) ∧
    t2.removeBranch 1 ⟨1, 1⟩ = (.ok (), t3) ∧
    t3.addNode b (some ⟨0, 0⟩) = (.ok ⟨1, 2⟩, t4) ∧
    t4.addNode c none = (.ok ⟨1, 3⟩, t5) ∧
    t5.addNode d (some ⟨1, 3⟩) = (.ok ⟨2, 4⟩, t6) ∧
    t6.addNode e none = (.ok ⟨3, 5⟩, t7) ∧
    t7.getNode ⟨1, 3⟩ = .ok nd ∧ nd.data = c ∧
    t7.removeBranch 1 ⟨3, 5⟩ = (.ok (), t8) ∧
    t8.getNode ⟨1, 3⟩ = .err (.nodeWasRemoved ⟨1, 3⟩) :=
  ⟨_, _, _, _, _, _, _, _, _, rfl, rfl, rfl, rfl, rfl, rfl, rfl, rfl, rfl, rfl, rfl⟩

/-- A history with a removal and two later insertions under the remaining root. -/
example : ∃ (t t' t1 t2 : Tree Nat) (log : List (NodeId × Nat)), TRun t log ∧
    t.removeBranch 9 ⟨1, 1⟩ = (.ok (), t') ∧ t'.addNode 12 (some ⟨0, 0⟩) = (.ok ⟨1, 3⟩, t1) ∧
    t1.addNode 13 (some ⟨2, 2⟩) = (.ok ⟨1, 4⟩, t2) :=
  ⟨_, _, _, _, _, .add (d := 14) (par := some ⟨0, 0⟩) (.add (d := 11) (par := some ⟨0, 0⟩)
    (.add (d := 10) (par := none) .new rfl) rfl) rfl, rfl, rfl, rfl⟩

/-- **C80**, what a failed `add_node` can bring back: let `new` be the id that inserting a root would have given instead.
An id that `get_node` accepts after the failed call was accepted before, or it was refused as removed and its *key* is
the slot number of `new`; for `get_node_mut` its *slot* is.  So at most one slot is affected. -/
theorem C80_failed_add_brings_back_partial {d d0 : T} {par : Option NodeId} {e : TErr} {new : NodeId} {t0 : Tree T}
    (h : t.addNode d par = (.err e, t')) (h0 : t.addNode d0 none = (.ok new, t0)) :
    (∀ id nd, t'.getNode id = .ok nd →
      t.getNode id = .ok nd ∨ t.getNode id = .err (.nodeWasRemoved id) ∧ id.pk = new.ptr) ∧
    (∀ id nd, t'.getNodeMut id = .ok nd →
      t.getNodeMut id = .ok nd ∨ t.getNodeMut id = .err (.nodeWasRemoved id) ∧ id.ptr = new.ptr) ∧
    (∀ id, t'.nodeExists id = true → t.nodeExists id = true ∨ id.pk = new.ptr) := by
  obtain ⟨hn, hf⟩ := addNode_err_shape h
  have hptr : ∀ i, i ∈ t.free → i ∉ t'.free → i = new.ptr := by
    intro i hi hi'
    rw [hf] at hi'
    cases hfr : t.free with
    | nil => rw [hfr] at hi; cases hi
    | cons a l =>
      rw [hfr] at hi hi'
      have ha : i = a := by
        rcases List.mem_cons.1 hi with h | h
        · exact h
        · exact absurd h hi'
      have : new.ptr = a := by
        simp only [Tree.addNode, hfr] at h0
        split at h0
        · cases h0
        · cases h0; rfl
      rw [ha, this]
  refine ⟨fun id nd hg => ?_, fun id nd hg => ?_, fun id hg => ?_⟩
  · simp only [Tree.getNode, hn] at hg ⊢
    cases hx : t.nodes[id.ptr]? with
    | none => rw [hx] at hg; cases hg
    | some x =>
      rw [hx] at hg
      simp only at hg ⊢
      by_cases hm : id.pk ∈ t'.free
      · rw [if_pos hm] at hg; cases hg
      · rw [if_neg hm] at hg
        by_cases hm' : id.pk ∈ t.free
        · exact .inr ⟨by rw [if_pos hm'], hptr _ hm' hm⟩
        · exact .inl (by rw [if_neg hm']; exact hg)
  · simp only [Tree.getNodeMut, hn] at hg ⊢
    cases hx : t.nodes[id.ptr]? with
    | none => rw [hx] at hg; cases hg
    | some x =>
      rw [hx] at hg
      simp only at hg ⊢
      by_cases hm : id.ptr ∈ t'.free
      · rw [if_pos hm] at hg; cases hg
      · rw [if_neg hm] at hg
        by_cases hm' : id.ptr ∈ t.free
        · exact .inr ⟨by rw [if_pos hm'], hptr _ hm' hm⟩
        · exact .inl (by rw [if_neg hm']; exact hg)
  · simp only [Tree.nodeExists, hn] at hg ⊢
    cases hx : t.nodes[id.ptr]? with
    | none => rw [hx] at hg; cases hg
    | some x =>
      rw [hx] at hg
      simp only at hg ⊢
      by_cases hm : id.pk ∈ t'.free
      · rw [if_pos hm] at hg; cases hg
      · rw [if_neg hm] at hg
        by_cases hm' : id.pk ∈ t.free
        · exact .inr (hptr _ hm' hm)
        · exact .inl (by rw [if_neg hm']; exact hg)

end HPP
