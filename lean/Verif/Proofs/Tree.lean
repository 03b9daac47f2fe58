import Verif.Spec.Tree
import Verif.Model.Tree
import Verif.Proofs.Basic
/-
The arena of `tree.rs` without removals refines the insertion history.
-/
namespace HPP
open Spec
variable {T ε : Type}

theorem kidsFrom_append (n : Nat) (h h' : Hist T) (i : Nat) :
    kidsFrom n (h ++ h') i = kidsFrom n h i ++ kidsFrom (n + h.length) h' i := by
  induction h generalizing n with
  | nil => simp [kidsFrom]
  | cons x h ih =>
    obtain ⟨p, d⟩ := x
    simp only [List.cons_append, kidsFrom, ih, List.length_cons]
    have : n + 1 + h.length = n + (h.length + 1) := by omega
    rw [this]
    split <;> simp

theorem kids_append (h h' : Hist T) (i : Nat) : kids (h ++ h') i = kids h i ++ kidsFrom h.length h' i := by
  simp [kids, kidsFrom_append]

theorem mem_kidsFrom {n : Nat} {h : Hist T} {i j : Nat} :
    j ∈ kidsFrom n h i ↔ ∃ d, n ≤ j ∧ h[j - n]? = some (some i, d) := by
  induction h generalizing n with
  | nil => simp [kidsFrom]
  | cons x h ih =>
    obtain ⟨p, d⟩ := x
    have key : j ∈ kidsFrom (n + 1) h i ↔ ∃ d', n ≤ j ∧ j ≠ n ∧ ((p, d) :: h)[j - n]? = some (some i, d') := by
      rw [ih]
      constructor
      · rintro ⟨d', h1, h2⟩
        refine ⟨d', by omega, by omega, ?_⟩
        have : j - n = (j - (n + 1)) + 1 := by omega
        rw [this]; simpa using h2
      · rintro ⟨d', h1, h2, h3⟩
        refine ⟨d', by omega, ?_⟩
        have : j - n = (j - (n + 1)) + 1 := by omega
        rw [this] at h3; simpa using h3
    simp only [kidsFrom]
    split
    · next hp =>
      rw [List.mem_cons, key]
      constructor
      · rintro (rfl | ⟨d', h1, _, h3⟩)
        · exact ⟨d, Nat.le_refl _, by simp [hp]⟩
        · exact ⟨d', h1, h3⟩
      · rintro ⟨d', h1, h2⟩
        by_cases hj : j = n
        · exact .inl hj
        · exact .inr ⟨d', h1, hj, h2⟩
    · next hp =>
      rw [key]
      constructor
      · rintro ⟨d', h1, _, h3⟩; exact ⟨d', h1, h3⟩
      · rintro ⟨d', h1, h2⟩
        refine ⟨d', h1, ?_, h2⟩
        rintro rfl
        simp at h2
        exact hp h2.1

theorem mem_kids {h : Hist T} {i j : Nat} : j ∈ kids h i ↔ ∃ d, h[j]? = some (some i, d) := by
  simp [kids, mem_kidsFrom]

theorem kidsFrom_pairwise (n : Nat) (h : Hist T) (i : Nat) : (kidsFrom n h i).Pairwise (· < ·) := by
  induction h generalizing n with
  | nil => simp [kidsFrom]
  | cons x h ih =>
    obtain ⟨p, d⟩ := x
    simp only [kidsFrom]
    split
    · rw [List.pairwise_cons]
      refine ⟨fun j hj => ?_, ih _⟩
      obtain ⟨_, h1, -⟩ := mem_kidsFrom.mp hj
      omega
    · exact ih _

theorem kids_nodup (h : Hist T) (i : Nat) : (kids h i).Nodup :=
  (kidsFrom_pairwise 0 h i).imp (fun h => Nat.ne_of_lt h)

/-- Every parent was inserted before its child. -/
def HOrdered (h : Hist T) : Prop := ∀ (i p : Nat) (d : T), h[i]? = some (some p, d) → p < i

/-- The arena `t` represents the history `h`. -/
structure TRep (t : Tree T) (h : Hist T) : Prop where
  ordered : HOrdered h
  free : t.free = []
  counter : t.counter = h.length
  len : t.nodes.length = h.length
  node : ∀ i p d, h[i]? = some (p, d) → ∃ nd, t.nodes[i]? = some nd ∧ nd.pk = i ∧ nd.data = d ∧
    nd.parent = p ∧ nd.firstChild = (kids h i).head? ∧ nd.lastChild = (kids h i).getLast? ∧
    (∀ q pre post, p = some q → kids h q = pre ++ i :: post →
      nd.nextSibling = post.head? ∧ nd.prevSibling = pre.getLast?)
  roots : ∀ (i : Nat) (d : T) (nd : TNode T), h[i]? = some (none, d) → t.nodes[i]? = some nd →
    nd.nextSibling = none ∧ nd.prevSibling = none

namespace TRep
variable {t : Tree T} {h : Hist T}

theorem new : TRep (Tree.new : Tree T) [] :=
  ⟨by intro i p d h; simp at h, rfl, rfl, rfl, by intro i p d h; simp at h, by intro i d nd h; simp at h⟩

theorem kids_ge (hr : TRep t h) {i : Nat} (hi : h.length ≤ i) : kids h i = [] := by
  rw [List.eq_nil_iff_forall_not_mem]
  intro j hj
  obtain ⟨d, hd⟩ := mem_kids.mp hj
  have := hr.ordered j i d hd
  have := (List.getElem?_eq_some_iff.mp hd).1
  omega

theorem kids_lt (hr : TRep t h) {i j : Nat} (hj : j ∈ kids h i) : i < j ∧ j < h.length := by
  obtain ⟨d, hd⟩ := mem_kids.mp hj
  exact ⟨hr.ordered j i d hd, (List.getElem?_eq_some_iff.mp hd).1⟩

theorem ordered_snoc (hr : TRep t h) {p : Option Nat} {d : T} (hp : ∀ q, p = some q → q < h.length) :
    HOrdered (h ++ [(p, d)]) := by
  intro i q d' hi
  by_cases hlt : i < h.length
  · rw [List.getElem?_append_left hlt] at hi
    exact hr.ordered i q d' hi
  · have hi' := (List.getElem?_eq_some_iff.mp hi).1
    simp at hi'
    have : i = h.length := by omega
    subst this
    simp at hi
    exact hp q hi.1

theorem kids_snoc (h : Hist T) (p : Option Nat) (d : T) (i : Nat) :
    kids (h ++ [(p, d)]) i = if p = some i then kids h i ++ [h.length] else kids h i := by
  rw [kids_append]
  simp only [kidsFrom]
  split <;> simp

/-- Adding a root. -/
theorem addNode_root (hr : TRep t h) (d : T) :
    ∃ t', t.addNode d none = (.ok ⟨h.length, h.length⟩, t') ∧ TRep t' (h ++ [(none, d)]) := by
  refine ⟨⟨t.nodes ++ [TNode.new none d h.length none], [], h.length + 1⟩, ?_, ?_⟩
  · simp [Tree.addNode, Tree.placeNode, hr.free, hr.counter, hr.len]
  · refine ⟨hr.ordered_snoc (by simp), rfl, by simp, by simp [hr.len], ?_, ?_⟩
    rotate_left
    · intro i d' nd hi hn
      by_cases hlt : i < h.length
      · rw [List.getElem?_append_left hlt] at hi
        simp only at hn
        rw [List.getElem?_append_left (by rw [hr.len]; exact hlt)] at hn
        exact hr.roots i d' nd hi hn
      · have hi' := (List.getElem?_eq_some_iff.mp hi).1
        simp at hi'
        have : i = t.nodes.length := by rw [hr.len]; omega
        subst this
        simp at hn
        subst hn
        simp [TNode.new]
    intro i p d' hi
    simp only [kids_snoc]
    by_cases hlt : i < h.length
    · rw [List.getElem?_append_left hlt] at hi
      obtain ⟨nd, h1, h2⟩ := hr.node i p d' hi
      refine ⟨nd, ?_, by simpa using h2⟩
      rw [List.getElem?_append_left (by rw [hr.len]; exact hlt)]
      exact h1
    · have hi' := (List.getElem?_eq_some_iff.mp hi).1
      simp at hi'
      have : i = h.length := by omega
      subst this
      simp at hi
      obtain ⟨rfl, rfl⟩ := hi
      refine ⟨TNode.new none d h.length none, ?_, ?_⟩
      · simp [← hr.len]
      · simp [TNode.new, hr.kids_ge]

/-- `node_exists` accepts exactly the issued ids. -/
theorem nodeExists (hr : TRep t h) (id : NodeId) :
    t.nodeExists id = decide (id.ptr = id.pk ∧ id.ptr < h.length) := by
  obtain ⟨ptr, pk⟩ := id
  simp only [Tree.nodeExists, hr.free, List.not_mem_nil, if_false]
  by_cases hlt : ptr < h.length
  · obtain ⟨nd, h1, h2, -⟩ := hr.node ptr _ _ (List.getElem?_eq_getElem hlt)
    rw [h1]
    simp only [h2]
    by_cases he : ptr = pk
    · simp [he] ; omega
    · simp [he]
  · rw [List.getElem?_eq_none (by rw [hr.len]; omega)]
    simp [hlt]

/-- `get_node` succeeds exactly for the issued ids and returns the data of the insertion. -/
theorem getNode (hr : TRep t h) {i : Nat} {p : Option Nat} {d : T} (hi : h[i]? = some (p, d)) :
    ∃ nd, t.getNode ⟨i, i⟩ = .ok nd ∧ t.nodes[i]? = some nd ∧ nd.data = d ∧ nd.parent = p := by
  obtain ⟨nd, h1, h2, h3, h4, -⟩ := hr.node i p d hi
  exact ⟨nd, by simp [Tree.getNode, h1, hr.free, h2], h1, h3, h4⟩

theorem getNode_bad (hr : TRep t h) {id : NodeId} (hb : ¬ (id.ptr = id.pk ∧ id.ptr < h.length)) :
    t.getNode id = .err (.nodeDoesNotExist id) := by
  obtain ⟨ptr, pk⟩ := id
  simp only [Tree.getNode, hr.free, List.not_mem_nil, if_false]
  by_cases hlt : ptr < h.length
  · obtain ⟨nd, h1, h2, -⟩ := hr.node ptr _ _ (List.getElem?_eq_getElem hlt)
    rw [h1]
    simp only [h2]
    rw [if_pos]
    rintro rfl
    exact hb ⟨rfl, hlt⟩
  · rw [List.getElem?_eq_none (by rw [hr.len]; omega)]

/-- Adding under an unknown id fails and changes nothing. -/
theorem addNode_bad (hr : TRep t h) (d : T) {id : NodeId} (hb : ¬ (id.ptr = id.pk ∧ id.ptr < h.length)) :
    t.addNode d (some id) = (.err (.nodeDoesNotExist id), t) := by
  have h0 : ({ t with free := t.free.tail } : Tree T) = t := by
    have := hr.free
    cases t; simp_all
  simp only [Tree.addNode]
  rw [h0, hr.nodeExists]
  simp [hb]

/-- Adding under an existing node. -/
theorem addNode_child (hr : TRep t h) (d : T) {q : Nat} (hq : q < h.length) :
    ∃ t', t.addNode d (some ⟨q, q⟩) = (.ok ⟨h.length, h.length⟩, t') ∧ TRep t' (h ++ [(some q, d)]) := by
  obtain ⟨pn, hp1, hp2, hp3, hp4, hp5, hp6, hp7⟩ := hr.node q _ _ (List.getElem?_eq_getElem hq)
  have h0 : ({ t with free := t.free.tail } : Tree T) = t := by
    have := hr.free
    cases t; simp_all
  have hnx : (match t.free with | [] => t.nodes.length | i :: _ => i) = h.length := by
    rw [hr.free, hr.len]
  have hre : (!t.free.isEmpty) = false := by rw [hr.free]; rfl
  have hex : t.nodeExists ⟨q, q⟩ = true := by rw [hr.nodeExists]; simpa using hq
  have hmut : ({ t with counter := t.counter + 1 } : Tree T).getNodeMut ⟨q, q⟩ = .ok pn := by
    simp [Tree.getNodeMut, hp1, hr.free, hp2]
  -- the nodes after updating the parent
  let pn' : TNode T := { pn with
      firstChild := (match pn.firstChild with | none => some h.length | some c => some c)
      lastChild := some h.length }
  have hqn : q < t.nodes.length := by rw [hr.len]; exact hq
  have hlast : ∀ lci, pn.lastChild = some lci → lci ∈ kids h q := by
    intro lci hl
    rw [hp6] at hl
    exact List.mem_of_getLast? hl
  let N2 := t.nodes.set q pn'
  let N3 := match pn.lastChild with
    | none => N2
    | some lci => match t.nodes[lci]? with
      | none => N2
      | some n => N2.set lci { n with nextSibling := some h.length }
  let newNode : TNode T := TNode.new (some q) d h.length pn.lastChild
  refine ⟨⟨N3 ++ [newNode], [], h.length + 1⟩, ?_, ?_⟩
  · obtain ⟨nodes, free, counter⟩ := t
    have hfr : free = [] := hr.free
    subst hfr
    have hcl : nodes.length = h.length := hr.len
    have hcc : counter = h.length := hr.counter
    subst hcc
    simp only [Tree.addNode, List.tail_nil, List.isEmpty_nil, hex, hmut, hcl]
    simp only [Bool.not_true, Bool.false_eq_true, if_false, Tree.updNode, hp1]
    simp only at hp1
    cases hl : pn.lastChild with
    | none =>
      simp only [Tree.placeNode, Bool.false_eq_true, if_false]
      simp only [N3, N2, hl, newNode, pn']
      cases pn.firstChild <;> rfl
    | some lci =>
      have hmem := hlast lci hl
      obtain ⟨h1, h2⟩ := hr.kids_lt hmem
      have hne : q ≠ lci := by omega
      have hnl : nodes[lci]? = some (nodes[lci]'(by rw [hcl]; exact h2)) :=
        List.getElem?_eq_getElem _
      simp only
      rw [List.getElem?_set_ne hne, hnl]
      simp only [Tree.placeNode, Bool.false_eq_true, if_false]
      simp only [N3, N2, hl, newNode, pn', hnl]
      cases pn.firstChild <;> rfl
  · have hN2l : N2.length = h.length := by simp [N2, hr.len]
    have hN3l : N3.length = h.length := by
      simp only [N3]
      split
      · exact hN2l
      · split
        · exact hN2l
        · simp [hN2l]
    -- what N3 holds
    have hN3 : ∀ i nd, i < h.length → t.nodes[i]? = some nd → ∃ nd', N3[i]? = some nd' ∧
        nd'.pk = nd.pk ∧ nd'.data = nd.data ∧ nd'.parent = nd.parent ∧ nd'.prevSibling = nd.prevSibling ∧
        nd'.firstChild = (if i = q then (match pn.firstChild with | none => some h.length | some c => some c) else nd.firstChild) ∧
        nd'.lastChild = (if i = q then some h.length else nd.lastChild) ∧
        nd'.nextSibling = (if pn.lastChild = some i then some h.length else nd.nextSibling) := by
      intro i nd hi hnd
      have hN2i : N2[i]? = some (if i = q then pn' else nd) := by
        simp only [N2]
        by_cases hiq : i = q
        · subst hiq; simp [List.getElem?_set_self hqn]
        · rw [List.getElem?_set_ne (Ne.symm hiq), if_neg hiq, hnd]
      have hqlast : pn.lastChild ≠ some q := by
        intro hc
        have := (hr.kids_lt (hlast q hc)).1
        omega
      simp only [N3]
      cases hl : pn.lastChild with
      | none =>
        refine ⟨_, hN2i, ?_⟩
        by_cases hiq : i = q
        · subst hiq
          rw [hp1] at hnd; cases hnd
          simp [pn']
        · simp [hiq]
      | some lci =>
        have hmem := hlast lci hl
        obtain ⟨h1, h2⟩ := hr.kids_lt hmem
        have hnl : t.nodes[lci]? = some (t.nodes[lci]'(by rw [hr.len]; exact h2)) :=
          List.getElem?_eq_getElem _
        simp only [hnl]
        by_cases hil : lci = i
        · subst hil
          rw [hnl] at hnd; cases hnd
          refine ⟨_, List.getElem?_set_self (by rw [hN2l]; exact h2), ?_⟩
          have : lci ≠ q := by omega
          simp [this]
        · rw [List.getElem?_set_ne hil]
          refine ⟨_, hN2i, ?_⟩
          by_cases hiq : i = q
          · subst hiq
            rw [hp1] at hnd; cases hnd
            simp [pn', hil]
          · simp [hiq, hil]
    refine ⟨hr.ordered_snoc (by simpa using hq), rfl, by simp, by simp [hN3l], ?_, ?_⟩
    rotate_left
    · intro i d' nd' hi hn
      have hlt : i < h.length := by
        rcases Nat.lt_or_ge i h.length with hlt | hge
        · exact hlt
        · have hi' := (List.getElem?_eq_some_iff.mp hi).1
          simp at hi'
          have : i = h.length := by omega
          subst this
          simp at hi
      rw [List.getElem?_append_left hlt] at hi
      simp only at hn
      rw [List.getElem?_append_left (by rw [hN3l]; exact hlt)] at hn
      obtain ⟨nd, h1, -⟩ := hr.node i _ _ hi
      obtain ⟨nd2, g1, g2, g3, g4, g5, g6, g7, g8⟩ := hN3 i nd hlt h1
      rw [g1] at hn; cases hn
      obtain ⟨r1, r2⟩ := hr.roots i d' nd hi h1
      rw [g8, g5, if_neg, r1, r2]
      · exact ⟨rfl, rfl⟩
      · intro hc
        obtain ⟨d1, hd1⟩ := mem_kids.mp (hlast i hc)
        rw [hi] at hd1
        simp at hd1
    intro i p d' hi
    by_cases hlt : i < h.length
    · rw [List.getElem?_append_left hlt] at hi
      obtain ⟨nd, h1, h2, h3, h4, h5, h6, h7⟩ := hr.node i p d' hi
      obtain ⟨nd', g1, g2, g3, g4, g5, g6, g7, g8⟩ := hN3 i nd hlt h1
      refine ⟨nd', ?_, g2.trans h2, g3.trans h3, g4.trans h4, ?_, ?_, ?_⟩
      · simp only; rw [List.getElem?_append_left (by rw [hN3l]; exact hlt)]; exact g1
      · rw [g6, kids_snoc]
        by_cases hiq : i = q
        · subst hiq
          rw [hp5]
          cases hk : kids h i <;> simp
        · simp [hiq, Ne.symm hiq, h5]
      · rw [g7, kids_snoc]
        by_cases hiq : i = q
        · subst hiq; simp
        · simp [hiq, Ne.symm hiq, h6]
      · intro q' pre post hpq hk
        rw [g8, g5]
        rw [kids_snoc] at hk
        by_cases hqq : q = q'
        · subst hqq
          simp only [if_true] at hk
          have hnd := kids_nodup h q
          -- split off the last element
          rcases List.eq_nil_or_concat post with rfl | ⟨post', x, rfl⟩
          · have := List.append_inj' (s₁ := kids h q) (t₁ := [h.length]) (s₂ := pre) (t₂ := [i]) (by simpa using hk) rfl
            simp at this
            omega
          · have hk' : kids h q ++ [h.length] = (pre ++ i :: post') ++ [x] := by simpa using hk
            obtain ⟨hk1, hk2⟩ := List.append_inj' hk' rfl
            simp at hk2; subst hk2
            obtain ⟨e1, e2⟩ := h7 q pre post' hpq hk1
            refine ⟨?_, e2⟩
            rw [e1, hp6, hk1]
            cases post' with
            | nil => simp
            | cons y ys =>
              rw [if_neg]
              · simp
              · intro hc
                have hmem : i ∈ y :: ys := by
                  have hc' : (y :: ys).getLast? = some i := by simpa [List.getLast?_append] using hc
                  exact List.mem_of_getLast? hc'
                rw [hk1] at hnd
                have := (List.nodup_append.mp hnd).2.1
                simp only [List.nodup_cons] at this
                exact this.1 hmem
        · rw [if_neg (by simpa using hqq)] at hk
          obtain ⟨e1, e2⟩ := h7 q' pre post hpq hk
          refine ⟨?_, e2⟩
          rw [if_neg, e1]
          intro hc
          obtain ⟨d1, hd1⟩ := mem_kids.mp (hlast i hc)
          have hd2 := hi
          rw [hd1] at hd2
          simp at hd2
          rw [hpq] at hd2
          simp at hd2
          exact hqq hd2.1
    · have hi' := (List.getElem?_eq_some_iff.mp hi).1
      simp at hi'
      have hin : i = h.length := by omega
      subst hin
      simp at hi
      obtain ⟨rfl, rfl⟩ := hi
      refine ⟨newNode, ?_, rfl, rfl, rfl, ?_, ?_, ?_⟩
      · simp [← hN3l]
      · simp only [newNode, TNode.new, kids_snoc, hr.kids_ge (Nat.le_refl _)]
        have : q ≠ h.length := by omega
        simp [this]
      · simp only [newNode, TNode.new, kids_snoc, hr.kids_ge (Nat.le_refl _)]
        have : q ≠ h.length := by omega
        simp [this]
      · intro q' pre post hpq hk
        simp at hpq
        subst hpq
        rw [kids_snoc] at hk
        simp only [if_true] at hk
        have hnot : h.length ∉ kids h q := fun hc => by
          have := (hr.kids_lt hc).2; omega
        rcases List.eq_nil_or_concat post with rfl | ⟨post', x, rfl⟩
        · obtain ⟨hk1, -⟩ := List.append_inj' (s₁ := kids h q) (t₁ := [h.length]) (s₂ := pre) (t₂ := [h.length]) (by simpa using hk) rfl
          simp only [newNode, TNode.new, ← hk1]
          exact ⟨by simp, hp6⟩
        · exfalso
          have hk' : kids h q ++ [h.length] = (pre ++ h.length :: post') ++ [x] := by simpa using hk
          obtain ⟨hk1, -⟩ := List.append_inj' hk' rfl
          exact hnot (by rw [hk1]; simp)

theorem childrenFrom (hr : TRep t h) {q : Nat} (post : List Nat) : ∀ (pre : List Nat), kids h q = pre ++ post →
    ∀ fuel, post.length ≤ fuel →
      (t.childrenFrom fuel post.head? : Res ε _) = .ok (post.map fun j => ⟨j, j⟩) := by
  induction post with
  | nil => intro pre _ fuel _; cases fuel <;> rfl
  | cons j post ih =>
    intro pre hk fuel hf
    cases fuel with
    | zero => simp at hf
    | succ fuel =>
      have hj : j ∈ kids h q := by rw [hk]; simp
      obtain ⟨d, hd⟩ := mem_kids.mp hj
      obtain ⟨nd, h1, h2, -, -, -, -, h7⟩ := hr.node j _ _ hd
      obtain ⟨h8, -⟩ := h7 q pre post rfl hk
      have := ih (pre ++ [j]) (by simpa using hk) fuel (by simpa using hf)
      simp [Tree.childrenFrom, h1, h2, h8, this]

/-- `get_children` of an issued id lists the children in insertion order. -/
theorem getChildren (hr : TRep t h) {i : Nat} (hi : i < h.length) {fuel : Nat} (hf : (kids h i).length ≤ fuel) :
    (t.getChildren fuel ⟨i, i⟩ : Res ε _) = .ok ((kids h i).map fun j => ⟨j, j⟩) := by
  obtain ⟨nd, h1, h2, -, -, h5, -, h7⟩ := hr.node i _ _ (List.getElem?_eq_getElem hi)
  have := hr.childrenFrom (ε := ε) (kids h i) [] rfl fuel hf
  simp only [Tree.getChildren, h1, Res.unwrapO_some, Res.bind_ok, h5, this]

end TRep
end HPP
