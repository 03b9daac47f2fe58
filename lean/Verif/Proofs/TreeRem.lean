import Verif.Proofs.Tree
/-
The arena after insertions followed by removals.
-/
namespace HPP
open Spec
variable {T ε : Type}

/-! ### facts about histories -/

section
variable {h : Hist T}

theorem Spec.Descendant.lt (ho : HOrdered h) {i j : Nat} (hd : Descendant h i j) : i < j := by
  induction hd with
  | child hj => obtain ⟨d, hd⟩ := mem_kids.mp hj; exact ho _ _ _ hd
  | step _ hj ih => obtain ⟨d, hd⟩ := mem_kids.mp hj; exact Nat.lt_trans ih (ho _ _ _ hd)

theorem Spec.Descendant.len {i j : Nat} (hd : Descendant h i j) : j < h.length := by
  cases hd with
  | child hj => obtain ⟨d, hd⟩ := mem_kids.mp hj; exact (List.getElem?_eq_some_iff.mp hd).1
  | step _ hj => obtain ⟨d, hd⟩ := mem_kids.mp hj; exact (List.getElem?_eq_some_iff.mp hd).1

theorem Spec.Descendant.trans {i j k : Nat} (h1 : Descendant h i j) (h2 : Descendant h j k) : Descendant h i k := by
  induction h2 with
  | child hj => exact .step h1 hj
  | step _ hj ih => exact .step ih hj

theorem Spec.Descendant.head {i j k : Nat} (h1 : j ∈ kids h i) (h2 : Descendant h j k) : Descendant h i k :=
  Spec.Descendant.trans (.child h1) h2

/-- A child has one parent. -/
theorem kids_parent {i i' j : Nat} (h1 : j ∈ kids h i) (h2 : j ∈ kids h i') : i = i' := by
  obtain ⟨d, hd⟩ := mem_kids.mp h1
  obtain ⟨d', hd'⟩ := mem_kids.mp h2
  rw [hd] at hd'
  simp at hd'
  exact hd'.1

/-- A descendant is a child or a descendant of a child. -/
theorem Spec.Descendant.inv {i k : Nat} (hd : Descendant h i k) :
    ∃ j ∈ kids h i, k = j ∨ Descendant h j k := by
  induction hd with
  | child hj => exact ⟨_, hj, .inl rfl⟩
  | step _ hk ih =>
    obtain ⟨j, hj, h1 | hd⟩ := ih
    · subst h1; exact ⟨_, hj, .inr (.child hk)⟩
    · exact ⟨j, hj, .inr (.step hd hk)⟩

/-- The branches of two children of the same node are disjoint. -/
theorem branch_disjoint (ho : HOrdered h) {i a b : Nat} (ha : a ∈ kids h i) (hb : b ∈ kids h i) :
    ∀ x, (x = a ∨ Descendant h a x) → (x = b ∨ Descendant h b x) → a = b := by
  intro x
  induction x using Nat.strongRecOn with
  | ind x ih =>
    rintro (rfl | h1) (rfl | h2)
    · rfl
    · -- the parent of x is i, so b ≤ i
      exfalso
      have hbi : i < b := by obtain ⟨d, hd⟩ := mem_kids.mp hb; exact ho _ _ _ hd
      cases h2 with
      | child hj => have := kids_parent hj ha; omega
      | step hd hj => have := kids_parent hj ha; subst this; have := hd.lt ho; omega
    · exfalso
      have hai : i < a := by obtain ⟨d, hd⟩ := mem_kids.mp ha; exact ho _ _ _ hd
      cases h1 with
      | child hj => have := kids_parent hj hb; omega
      | step hd hj => have := kids_parent hj hb; subst this; have := hd.lt ho; omega
    · have par : ∀ c, Descendant h c x → ∃ y, x ∈ kids h y ∧ (y = c ∨ Descendant h c y) := by
        intro c hc
        cases hc with
        | child hj => exact ⟨c, hj, .inl rfl⟩
        | step hd hj => exact ⟨_, hj, .inr hd⟩
      obtain ⟨y, hy, h1⟩ := par a h1
      obtain ⟨y', hy', h2⟩ := par b h2
      have := kids_parent hy hy'
      subst this
      obtain ⟨d, hd⟩ := mem_kids.mp hy
      exact ih y (ho _ _ _ hd) h1 h2

/-! ### removed nodes -/

variable {ds : List Nat}

theorem mem_kidsLeft {i j : Nat} : j ∈ kidsLeft h ds i ↔ j ∈ kids h i ∧ j ∉ ds := by
  simp [kidsLeft]

theorem kidsLeft_nodup (h : Hist T) (ds : List Nat) (i : Nat) : (kidsLeft h ds i).Nodup :=
  (kids_nodup h i).filter _

theorem dead_child {i j : Nat} (hd : Dead h ds i) (hj : j ∈ kids h i) : Dead h ds j := by
  obtain ⟨r, hr, rfl | hd⟩ := hd
  · exact ⟨i, hr, .inr (.child hj)⟩
  · exact ⟨r, hr, .inr (.step hd hj)⟩

theorem alive_kidsLeft {i j : Nat} (ha : ¬ Dead h ds i) : j ∈ kidsLeft h ds i ↔ j ∈ kids h i ∧ ¬ Dead h ds j := by
  rw [mem_kidsLeft]
  refine and_congr_right fun hj => not_congr ⟨fun hd => ⟨j, hd, .inl rfl⟩, ?_⟩
  rintro ⟨r, hr, rfl | hd⟩
  · exact hr
  · exfalso
    apply ha
    cases hd with
    | child hj' => rw [kids_parent hj hj']; exact ⟨r, hr, .inl rfl⟩
    | step hd hj' => rw [kids_parent hj hj']; exact ⟨r, hr, .inr hd⟩

theorem dead_cons {i x : Nat} : Dead h (i :: ds) x ↔ Dead h ds x ∨ x = i ∨ Descendant h i x := by
  constructor
  · rintro ⟨r, hr, hx⟩
    rcases List.mem_cons.mp hr with rfl | hr
    · exact .inr hx
    · exact .inl ⟨r, hr, hx⟩
  · rintro (⟨r, hr, hx⟩ | hx)
    · exact ⟨r, List.mem_cons_of_mem _ hr, hx⟩
    · exact ⟨i, List.mem_cons_self, hx⟩

theorem kidsLeft_cons (i q : Nat) : kidsLeft h (i :: ds) q = (kidsLeft h ds q).filter (fun j => decide (j ≠ i)) := by
  simp only [kidsLeft, List.filter_filter]
  apply List.filter_congr
  intro j _
  simp [List.mem_cons]

theorem kidsLeft_split {i q : Nat} {pre post : List Nat} (hk : kidsLeft h ds q = pre ++ i :: post) :
    kidsLeft h (i :: ds) q = pre ++ post := by
  have hn := kidsLeft_nodup h ds q
  rw [kidsLeft_cons, hk]
  rw [hk] at hn
  have h1 : i ∉ pre := fun hc => (List.nodup_append.mp hn).2.2 i hc i List.mem_cons_self rfl
  have h2 : i ∉ post := (List.nodup_cons.mp (List.nodup_append.mp hn).2.1).1
  rw [List.filter_append, List.filter_cons]
  simp only [ne_eq, not_true_eq_false, decide_false, Bool.false_eq_true, if_false]
  rw [List.filter_eq_self.mpr, List.filter_eq_self.mpr]
  · intro a ha; simp; rintro rfl; exact h2 ha
  · intro a ha; simp; rintro rfl; exact h1 ha

theorem kidsLeft_other {i q : Nat} (hk : i ∉ kids h q) : kidsLeft h (i :: ds) q = kidsLeft h ds q := by
  rw [kidsLeft_cons, List.filter_eq_self]
  intro a ha
  simp
  rintro rfl
  exact hk (mem_kidsLeft.mp ha).1

end

/-! ### the invariant -/

/-- The arena `t` represents the history `h` after removing the branches at `ds`. -/
structure TRem (t : Tree T) (h : Hist T) (ds : List Nat) : Prop where
  ordered : HOrdered h
  counter : t.counter = h.length
  len : t.nodes.length = h.length
  free : ∀ x, x ∈ t.free ↔ Dead h ds x
  pks : ∀ (i : Nat) (nd : TNode T), t.nodes[i]? = some nd → nd.pk = i
  node : ∀ i p d, h[i]? = some (p, d) → ¬ Dead h ds i → ∃ nd, t.nodes[i]? = some nd ∧ nd.data = d ∧
    nd.parent = p ∧ nd.firstChild = (kidsLeft h ds i).head? ∧ nd.lastChild = (kidsLeft h ds i).getLast? ∧
    (∀ q pre post, p = some q → kidsLeft h ds q = pre ++ i :: post →
      nd.nextSibling = post.head? ∧ nd.prevSibling = pre.getLast?) ∧
    (p = none → nd.nextSibling = none ∧ nd.prevSibling = none)

theorem kidsLeft_nil (h : Hist T) (i : Nat) : kidsLeft h [] i = kids h i := by
  simp [kidsLeft]

theorem not_dead_nil (h : Hist T) (i : Nat) : ¬ Dead h [] i := by
  rintro ⟨r, hr, -⟩; cases hr

theorem TRep.rem {t : Tree T} {h : Hist T} (hr : TRep t h) : TRem t h [] := by
  refine ⟨hr.ordered, hr.counter, hr.len, fun x => ?_, fun i nd hi => ?_, fun i p d hi _ => ?_⟩
  · rw [hr.free]; simp [not_dead_nil]
  · have hlt : i < h.length := by rw [← hr.len]; exact (List.getElem?_eq_some_iff.mp hi).1
    obtain ⟨nd', h1, h2, -⟩ := hr.node i _ _ (List.getElem?_eq_getElem hlt)
    rw [hi] at h1; cases h1; exact h2
  · obtain ⟨nd, h1, h2, h3, h4, h5, h6, h7⟩ := hr.node i p d hi
    simp only [kidsLeft_nil]
    refine ⟨nd, h1, h3, h4, h5, h6, h7, ?_⟩
    rintro rfl
    exact hr.roots i d nd hi h1

namespace TRem
variable {t : Tree T} {h : Hist T} {ds : List Nat}

theorem getNode (hr : TRem t h ds) {i : Nat} {p : Option Nat} {d : T} (hi : h[i]? = some (p, d))
    (ha : ¬ Dead h ds i) : ∃ nd, t.getNode ⟨i, i⟩ = .ok nd ∧ t.getNodeMut ⟨i, i⟩ = .ok nd ∧
      t.nodes[i]? = some nd ∧ nd.data = d ∧ nd.parent = p := by
  obtain ⟨nd, h1, h2, h3, -⟩ := hr.node i p d hi ha
  have hf : i ∉ t.free := fun hc => ha ((hr.free i).mp hc)
  exact ⟨nd, by simp [Tree.getNode, h1, hf, hr.pks i nd h1], by simp [Tree.getNodeMut, h1, hf, hr.pks i nd h1],
    h1, h2, h3⟩

/-- Every other id is refused. -/
theorem getNode_bad (hr : TRem t h ds) {id : NodeId}
    (hb : ¬ (id.ptr = id.pk ∧ id.ptr < h.length ∧ ¬ Dead h ds id.ptr)) :
    (∃ e, t.getNode id = .err e) ∧ (∃ e, t.getNodeMut id = .err e) ∧ t.nodeExists id = false := by
  obtain ⟨ptr, pk⟩ := id
  simp only at hb
  simp only [Tree.getNode, Tree.getNodeMut, Tree.nodeExists]
  cases hn : t.nodes[ptr]? with
  | none => exact ⟨⟨_, rfl⟩, ⟨_, rfl⟩, rfl⟩
  | some nd =>
    have hpk := hr.pks ptr nd hn
    have hlt : ptr < h.length := by rw [← hr.len]; exact (List.getElem?_eq_some_iff.mp hn).1
    simp only [hpk]
    by_cases he : ptr = pk
    · subst he
      have hd : ptr ∈ t.free := by
        rw [hr.free]
        exact Classical.byContradiction fun hd => hb ⟨rfl, hlt, hd⟩
      simp [hd]
    · by_cases hf : pk ∈ t.free <;> by_cases hf' : ptr ∈ t.free <;> simp [he, hf, hf']

theorem childrenFrom (hr : TRem t h ds) {q : Nat} (ha : ¬ Dead h ds q) (post : List Nat) :
    ∀ (pre : List Nat), kidsLeft h ds q = pre ++ post → ∀ fuel, post.length ≤ fuel →
      (t.childrenFrom fuel post.head? : Res ε _) = .ok (post.map fun j => ⟨j, j⟩) := by
  induction post with
  | nil => intro pre _ fuel _; cases fuel <;> rfl
  | cons j post ih =>
    intro pre hk fuel hf
    cases fuel with
    | zero => simp at hf
    | succ fuel =>
      have hj : j ∈ kidsLeft h ds q := by rw [hk]; simp
      obtain ⟨hj1, hj2⟩ := (alive_kidsLeft ha).mp hj
      obtain ⟨d, hd⟩ := mem_kids.mp hj1
      obtain ⟨nd, h1, -, -, -, -, h7, -⟩ := hr.node j _ _ hd hj2
      obtain ⟨h8, -⟩ := h7 q pre post rfl hk
      have := ih (pre ++ [j]) (by simpa using hk) fuel (by simpa using hf)
      simp [Tree.childrenFrom, h1, hr.pks j nd h1, h8, this]

theorem getChildren (hr : TRem t h ds) {i : Nat} (hi : i < h.length) (ha : ¬ Dead h ds i) {fuel : Nat}
    (hf : (kidsLeft h ds i).length ≤ fuel) :
    (t.getChildren fuel ⟨i, i⟩ : Res ε _) = .ok ((kidsLeft h ds i).map fun j => ⟨j, j⟩) := by
  obtain ⟨nd, h1, -, -, h5, -⟩ := hr.node i _ _ (List.getElem?_eq_getElem hi) ha
  have := hr.childrenFrom (ε := ε) ha (kidsLeft h ds i) [] rfl fuel hf
  simp only [Tree.getChildren, h1, Res.unwrapO_some, Res.bind_ok, h5, this]

theorem kidsLeft_len (h : Hist T) (ds : List Nat) (i : Nat) : (kidsLeft h ds i).length ≤ h.length := by
  have h1 : ∀ (n : Nat) (h : Hist T), (kidsFrom n h i).length ≤ h.length := by
    intro n h
    induction h generalizing n with
    | nil => simp [kidsFrom]
    | cons x h ih =>
      have := ih (n + 1)
      simp only [kidsFrom]
      split <;> simp <;> omega
  exact Nat.le_trans (List.length_filter_le _ _) (h1 0 h)

/-- `get_descendants` lists every remaining proper descendant once. -/
theorem getDescendants (hr : TRem t h ds) (n : Nat) : ∀ i, h.length - i ≤ n → i < h.length → ¬ Dead h ds i →
    ∃ L : List Nat, L.Nodup ∧ (∀ j, j ∈ L ↔ Descendant h i j ∧ ¬ Dead h ds j) ∧
      ∀ fuel, h.length + n ≤ fuel → (t.getDescendants fuel ⟨i, i⟩ : Res ε _) = .ok (L.map fun j => ⟨j, j⟩) := by
  induction n with
  | zero => intro i h1 h2; omega
  | succ n ih =>
    intro i h1 h2 ha
    -- the descendants of the children
    have hloop : ∀ cs : List Nat, (∀ c ∈ cs, c ∈ kidsLeft h ds i) → cs.Nodup →
        ∃ L : List Nat, L.Nodup ∧ (∀ j, j ∈ L ↔ (∃ c ∈ cs, Descendant h c j) ∧ ¬ Dead h ds j) ∧
          ∀ fuel, h.length + n ≤ fuel →
            (Tree.descendantsOf (t.getDescendants fuel) (cs.map fun j => ⟨j, j⟩) : Res ε _) =
              .ok (L.map fun j => ⟨j, j⟩) := by
      intro cs
      induction cs with
      | nil => intro _ _; exact ⟨[], by simp, by simp, fun fuel _ => rfl⟩
      | cons c cs ihc =>
        intro hc hn
        obtain ⟨hck, hca⟩ := (alive_kidsLeft ha).mp (hc c List.mem_cons_self)
        obtain ⟨dd, hd⟩ := mem_kids.mp hck
        have hlt := hr.ordered _ _ _ hd
        have hcl := (List.getElem?_eq_some_iff.mp hd).1
        obtain ⟨L1, a1, a2, a3⟩ := ih c (by omega) hcl hca
        obtain ⟨L2, b1, b2, b3⟩ := ihc (fun c' hc' => hc c' (List.mem_cons_of_mem _ hc')) (List.nodup_cons.mp hn).2
        refine ⟨L1 ++ L2, ?_, ?_, ?_⟩
        · rw [List.nodup_append]
          refine ⟨a1, b1, ?_⟩
          rintro x hx y hy rfl
          obtain ⟨hx1, -⟩ := (a2 x).mp hx
          obtain ⟨⟨c', hc', hx2⟩, -⟩ := (b2 x).mp hy
          have := branch_disjoint hr.ordered hck (mem_kidsLeft.mp (hc c' (List.mem_cons_of_mem _ hc'))).1 x
            (.inr hx1) (.inr hx2)
          subst this
          exact (List.nodup_cons.mp hn).1 hc'
        · intro j
          rw [List.mem_append, a2, b2]
          constructor
          · rintro (⟨g1, g2⟩ | ⟨⟨c', g1, g3⟩, g2⟩)
            · exact ⟨⟨c, List.mem_cons_self, g1⟩, g2⟩
            · exact ⟨⟨c', List.mem_cons_of_mem _ g1, g3⟩, g2⟩
          · rintro ⟨⟨c', g1, g3⟩, g2⟩
            rcases List.mem_cons.mp g1 with rfl | g1
            · exact .inl ⟨g3, g2⟩
            · exact .inr ⟨⟨c', g1, g3⟩, g2⟩
        · intro fuel hf
          simp [Tree.descendantsOf, a3 fuel hf, b3 fuel hf]
    obtain ⟨L, l1, l2, l3⟩ := hloop (kidsLeft h ds i) (fun _ h => h) (kidsLeft_nodup h ds i)
    refine ⟨kidsLeft h ds i ++ L, ?_, ?_, ?_⟩
    · rw [List.nodup_append]
      refine ⟨kidsLeft_nodup h ds i, l1, ?_⟩
      rintro x hx y hy rfl
      obtain ⟨⟨c, hc, hd⟩, -⟩ := (l2 x).mp hy
      have hxk := (mem_kidsLeft.mp hx).1
      have hck := (mem_kidsLeft.mp hc).1
      have := branch_disjoint hr.ordered hck hxk x (.inr hd) (.inl rfl)
      subst this
      have := hd.lt hr.ordered
      omega
    · intro j
      rw [List.mem_append, l2]
      constructor
      · rintro (hj | ⟨⟨c, hc, hd⟩, hj⟩)
        · obtain ⟨g1, g2⟩ := (alive_kidsLeft ha).mp hj
          exact ⟨.child g1, g2⟩
        · exact ⟨Spec.Descendant.head (mem_kidsLeft.mp hc).1 hd, hj⟩
      · rintro ⟨hd, hj⟩
        obtain ⟨c, hc, rfl | hd⟩ := hd.inv
        · exact .inl ((alive_kidsLeft ha).mpr ⟨hc, hj⟩)
        · refine .inr ⟨⟨c, (alive_kidsLeft ha).mpr ⟨hc, fun hcd => hj ?_⟩, hd⟩, hj⟩
          clear hj
          rename_i hd0
          clear hd0
          induction hd with
          | child hk => exact dead_child hcd hk
          | step _ hk ih => exact dead_child ih hk
    · intro fuel hf
      cases fuel with
      | zero => omega
      | succ fuel =>
        have hch := hr.getChildren (ε := ε) h2 ha (fuel := fuel + 1) (by have := kidsLeft_len h ds i; omega)
        simp [Tree.getDescendants, hch, l3 fuel (by omega)]

/-- The `Children` iterator. -/
theorem nthFrom (hr : TRem t h ds) {q : Nat} (ha : ¬ Dead h ds q) (post : List Nat) :
    ∀ (pre : List Nat), kidsLeft h ds q = pre ++ post → ∀ n,
      (t.nthFrom n post.head? : Res ε _) = .ok (post[n]?.bind fun j => t.nodes[j]?) := by
  induction post with
  | nil => intro pre _ n; cases n <;> rfl
  | cons j post ih =>
    intro pre hk n
    have hj : j ∈ kidsLeft h ds q := by rw [hk]; simp
    obtain ⟨hj1, hj2⟩ := (alive_kidsLeft ha).mp hj
    obtain ⟨d, hd⟩ := mem_kids.mp hj1
    obtain ⟨nd, h1, -, -, -, -, h7, -⟩ := hr.node j _ _ hd hj2
    obtain ⟨h8, -⟩ := h7 q pre post rfl hk
    cases n with
    | zero => simp [Tree.nthFrom, h1]
    | succ n =>
      have := ih (pre ++ [j]) (by simpa using hk) n
      simp [Tree.nthFrom, h1, h8, this]

/-- `get_nth_child_or_none` of an existing node. -/
theorem getNthChildOrNone (hr : TRem t h ds) {q : Nat} (hq : q < h.length) (ha : ¬ Dead h ds q) {nd : TNode T}
    (hn : t.nodes[q]? = some nd) (n : Nat) :
    (t.getNthChildOrNone nd n : Res ε _) = .ok ((kidsLeft h ds q)[n]?.bind fun j => t.nodes[j]?) := by
  obtain ⟨nd', h1, -, -, h5, -⟩ := hr.node q _ _ (List.getElem?_eq_getElem hq) ha
  rw [hn] at h1; cases h1
  rw [Tree.getNthChildOrNone, h5]
  exact hr.nthFrom ha _ [] rfl n

theorem alive_lt (hr : TRem t h ds) {q j : Nat} (ha : ¬ Dead h ds q) (hj : j ∈ kidsLeft h ds q) :
    j < h.length ∧ ¬ Dead h ds j ∧ ∃ nd, t.nodes[j]? = some nd := by
  obtain ⟨hj1, hj2⟩ := (alive_kidsLeft ha).mp hj
  obtain ⟨d, hd⟩ := mem_kids.mp hj1
  obtain ⟨nd, h1, -⟩ := hr.node j _ _ hd hj2
  exact ⟨(List.getElem?_eq_some_iff.mp hd).1, hj2, nd, h1⟩

theorem byPathFrom (hr : TRem t h ds) (ns : List Nat) : ∀ {q : Nat}, q < h.length → ¬ Dead h ds q →
    ∀ {nd : TNode T}, t.nodes[q]? = some nd →
    t.byPathFrom ns nd = .ok ((followPath (kidsLeft h ds) ns q).bind fun j => t.nodes[j]?) := by
  induction ns with
  | nil => intro q _ _ nd hn; simp [Tree.byPathFrom, followPath, hn]
  | cons n ns ih =>
    intro q hq ha nd hn
    simp only [Tree.byPathFrom, hr.getNthChildOrNone hq ha hn, followPath, Res.bind_ok]
    cases hk : (kidsLeft h ds q)[n]? with
    | none => simp
    | some j =>
      obtain ⟨h1, h2, nd', h3⟩ := hr.alive_lt ha (List.mem_of_getElem? hk)
      simp only [Option.bind_some, h3]
      exact ih h1 h2 h3

end TRem
end HPP
