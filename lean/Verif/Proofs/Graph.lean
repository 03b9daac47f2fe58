import Verif.Model.Graph
import Verif.Proofs.Basic
import Mathlib.Data.List.Nodup
import Mathlib.Data.List.Perm.Subperm
import Mathlib.Logic.Function.Basic
/-
The linked edge lists of the graph: every node owns a finite chain of edges with strictly decreasing ids,
chains of different nodes share no edge.
-/
namespace HPP
open Function
variable {α ε : Type}

/-- The edge indices met when following `nextOut` from `o`. -/
inductive Chain (edges : List GEdge) : Option Nat → List Nat → Prop where
  | nil : Chain edges none []
  | cons {i : Nat} {e : GEdge} {l : List Nat} : edges[i]? = some e → Chain edges e.nextOut l →
      Chain edges (some i) (i :: l)

/-- `(id, target)` of an edge index. -/
def eInfo (edges : List GEdge) (i : Nat) : Nat × Nat :=
  match edges[i]? with
  | some e => (e.id, e.target)
  | none => (0, 0)

theorem eInfo_of {edges : List GEdge} {i : Nat} {e : GEdge} (h : edges[i]? = some e) :
    eInfo edges i = (e.id, e.target) := by simp [eInfo, h]

theorem Chain.mem_lt {edges : List GEdge} {o : Option Nat} {l : List Nat} (h : Chain edges o l) :
    ∀ i ∈ l, i < edges.length := by
  induction h with
  | nil => simp
  | cons he _ ih =>
    intro j hj
    rcases List.mem_cons.mp hj with rfl | hj
    · exact (List.getElem?_eq_some_iff.mp he).1
    · exact ih j hj

theorem Chain.append {edges : List GEdge} {o : Option Nat} {l : List Nat} (h : Chain edges o l)
    (more : List GEdge) : Chain (edges ++ more) o l := by
  induction h with
  | nil => exact .nil
  | cons he _ ih => exact .cons (List.getElem?_append_left (List.getElem?_eq_some_iff.mp he).1 ▸ he) ih

theorem Chain.set {edges : List GEdge} {o : Option Nat} {l : List Nat} (h : Chain edges o l)
    {j : Nat} (hj : j ∉ l) (e' : GEdge) : Chain (edges.set j e') o l := by
  induction h with
  | nil => exact .nil
  | @cons i e l he _ ih =>
    simp only [List.mem_cons, not_or] at hj
    exact .cons (by rw [List.getElem?_set_ne (by omega)]; exact he) (ih hj.2)

theorem Chain.det {edges : List GEdge} {o : Option Nat} {l l' : List Nat} (h : Chain edges o l)
    (h' : Chain edges o l') : l = l' := by
  induction h generalizing l' with
  | nil => cases h'; rfl
  | cons he _ ih =>
    cases h' with
    | cons he' h' => rw [he] at he'; cases he'; rw [ih h']

theorem Chain.head {edges : List GEdge} {o : Option Nat} {l : List Nat} (h : Chain edges o l) :
    o = l.head? := by cases h <;> rfl

theorem eInfo_append {edges more : List GEdge} {i : Nat} (h : i < edges.length) :
    eInfo (edges ++ more) i = eInfo edges i := by
  simp [eInfo, List.getElem?_append_left h]

theorem walk_chain {edges : List GEdge} {o : Option Nat} {l : List Nat} (h : Chain edges o l) :
    ∀ fuel, l.length ≤ fuel → (Graph.walk edges fuel o : Res ε (List Nat)) = .ok l := by
  induction h with
  | nil => intro fuel _; cases fuel <;> rfl
  | cons he _ ih =>
    intro fuel hf
    cases fuel with
    | zero => simp at hf
    | succ fuel =>
      simp only [List.length_cons, Nat.add_le_add_iff_right] at hf
      simp [Graph.walk, he, ih fuel hf]

theorem length_le_of_nodup_lt {l : List Nat} {n : Nat} (hn : l.Nodup) (h : ∀ i ∈ l, i < n) :
    l.length ≤ n := by
  have hs : l ⊆ List.range n := fun i hi => List.mem_range.mpr (h i hi)
  simpa using (List.subperm_of_subset hn hs).length_le

/-- The graph invariant: `L n` is the chain of edge indices of node `n`. -/
structure GInv (g : Graph α) (L : Nat → List Nat) : Prop where
  chain : ∀ n node, g.nodes[n]? = some node → Chain g.edges node.firstOut (L n)
  out : ∀ n, g.nodes.length ≤ n → L n = []
  disj : ∀ n m i, i ∈ L n → i ∈ L m → n = m
  sorted : ∀ n, (L n).Pairwise (fun i j => (eInfo g.edges j).1 < (eInfo g.edges i).1)

/-- The outgoing edges of a node as `(id, target)` pairs, largest id first. -/
def outs (g : Graph α) (L : Nat → List Nat) (n : Nat) : List (Nat × Nat) := (L n).map (eInfo g.edges)

/-- `g` represents the graph with node data `data` and outgoing edges `out n` (largest id first). -/
structure GRep (g : Graph α) (data : List α) (out : Nat → List (Nat × Nat)) : Prop where
  exInv : ∃ L, GInv g L ∧ ∀ n, out n = (L n).map (eInfo g.edges)
  data : g.nodes.map (·.data) = data

namespace GInv

theorem mem_lt {g : Graph α} {L : Nat → List Nat} (h : GInv g L) {n i : Nat} (hi : i ∈ L n) :
    i < g.edges.length ∧ n < g.nodes.length := by
  by_cases hn : n < g.nodes.length
  · exact ⟨(h.chain n _ (List.getElem?_eq_getElem hn)).mem_lt i hi, hn⟩
  · rw [h.out n (by omega)] at hi; simp at hi

theorem nodup {g : Graph α} {L : Nat → List Nat} (h : GInv g L) (n : Nat) : (L n).Nodup := by
  refine (h.sorted n).imp ?_
  intro a b hab heq
  subst heq
  exact absurd hab (Nat.lt_irrefl _)

theorem connected {g : Graph α} {L : Nat → List Nat} (h : GInv g L) {n : Nat}
    (hn : n < g.nodes.length) : (g.connectedEdges n : Res ε (List Nat)) = .ok (L n) := by
  have hc := h.chain n _ (List.getElem?_eq_getElem hn)
  simp only [Graph.connectedEdges, List.getElem?_eq_getElem hn, Res.unwrapO_some, Res.bind_ok]
  exact walk_chain hc _ (length_le_of_nodup_lt (h.nodup n) hc.mem_lt)

end GInv

theorem connectedEdges_none {g : Graph α} {n : Nat} (hn : g.nodes.length ≤ n) :
    (g.connectedEdges n : Res ε (List Nat)) = .panic := by
  simp [Graph.connectedEdges, List.getElem?_eq_none hn]

namespace GRep
variable {g : Graph α} {data : List α} {out : Nat → List (Nat × Nat)}

theorem length (h : GRep g data out) : data.length = g.nodes.length := by
  rw [← h.data]; simp

theorem sorted (h : GRep g data out) (n : Nat) : (out n).Pairwise (fun x y => y.1 < x.1) := by
  obtain ⟨L, hL, ho⟩ := h.exInv
  rw [ho, List.pairwise_map]
  exact hL.sorted n

theorem out_nil (h : GRep g data out) {n : Nat} (hn : data.length ≤ n) : out n = [] := by
  obtain ⟨L, hL, ho⟩ := h.exInv
  rw [ho, hL.out n (h.length ▸ hn)]; rfl

theorem new : GRep (Graph.new : Graph α) [] (fun _ => []) := by
  refine ⟨⟨fun _ => [], ⟨?_, ?_, ?_, ?_⟩, ?_⟩, rfl⟩ <;> simp [Graph.new]

/-- `successors` yields the targets in decreasing id order. -/
theorem successors (h : GRep g data out) {n : Nat} (hn : n < data.length) :
    (g.successors n : Res ε (List Nat)) = .ok ((out n).map (·.2)) := by
  obtain ⟨L, hL, ho⟩ := h.exInv
  rw [h.length] at hn
  have hc := hL.chain n _ (List.getElem?_eq_getElem hn)
  simp only [Graph.successors, hL.connected hn, Res.bind_ok]
  rw [ho]
  have key : ∀ l : List Nat, (∀ i ∈ l, i < g.edges.length) →
      (l.mapM (fun i => do
        let e ← Res.unwrapO g.edges[i]?
        return e.target) : Res ε (List Nat)) = .ok ((l.map (eInfo g.edges)).map (·.2)) := by
    intro l
    induction l with
    | nil => intro _; rfl
    | cons i l ih =>
      intro hl
      have hi := hl i (by simp)
      have := ih (fun j hj => hl j (by simp [hj]))
      rw [List.mapM_cons, this]
      simp [List.getElem?_eq_getElem hi, eInfo]
  exact key _ hc.mem_lt

theorem successors_none (h : GRep g data out) {n : Nat} (hn : data.length ≤ n) :
    (g.successors n : Res ε (List Nat)) = .panic := by
  rw [h.length] at hn
  simp [Graph.successors, connectedEdges_none hn]

end GRep

/-- Lookup of an id in an edge list. -/
def lookupId (l : List (Nat × Nat)) (id : Nat) : Option Nat := (l.find? (fun p => p.1 = id)).map (·.2)

theorem findLoop_eq {edges : List GEdge} {id : Nat} (l : List Nat) (hl : ∀ i ∈ l, i < edges.length)
    (hs : l.Pairwise (fun i j => (eInfo edges j).1 < (eInfo edges i).1)) :
    (Graph.findLoop edges id l : Res ε (Option Nat)) = .ok (lookupId (l.map (eInfo edges)) id) := by
  induction l with
  | nil => rfl
  | cons i l ih =>
    have hi := hl i (by simp)
    have he : edges[i]? = some edges[i] := List.getElem?_eq_getElem hi
    rw [List.pairwise_cons] at hs
    have ih := ih (fun j hj => hl j (by simp [hj])) hs.2
    have hinfo := eInfo_of he
    simp only [Graph.findLoop, he, Res.unwrapO_some, Res.bind_ok]
    by_cases h1 : edges[i].id = id
    · simp [h1, lookupId, hinfo]
    · by_cases h2 : edges[i].id < id
      · simp only [h1, h2, ↓reduceIte, Res.pure_def, Res.ok.injEq]
        symm
        simp only [lookupId, Option.map_eq_none_iff, List.find?_eq_none, List.mem_map,
          decide_eq_true_eq]
        rintro _ ⟨j, hj, rfl⟩
        rcases List.mem_cons.mp hj with rfl | hj
        · rw [hinfo]; exact h1
        · have := hs.1 j hj
          rw [hinfo] at this
          simp only at this
          omega
      · simp only [h1, h2, ↓reduceIte, ih]
        simp [lookupId, hinfo, h1]

namespace GRep
variable {g : Graph α} {data : List α} {out : Nat → List (Nat × Nat)}

/-- `find_node_index` is lookup in the edge list. -/
theorem findNodeIndex (h : GRep g data out) {n : Nat} (hn : n < data.length) (id : Nat) :
    (g.findNodeIndex n id : Res ε (Option Nat)) = .ok (lookupId (out n) id) := by
  obtain ⟨L, hL, ho⟩ := h.exInv
  rw [h.length] at hn
  have hc := hL.chain n _ (List.getElem?_eq_getElem hn)
  simp only [Graph.findNodeIndex, hL.connected hn, Res.bind_ok]
  rw [ho]
  exact findLoop_eq _ hc.mem_lt (hL.sorted n)

theorem addNode (h : GRep g data out) (d : α) :
    (g.addNode d).1 = data.length ∧ GRep (g.addNode d).2 (data ++ [d]) out := by
  obtain ⟨L, hL, ho⟩ := h.exInv
  refine ⟨h.length.symm, ⟨L, ⟨?_, ?_, hL.disj, hL.sorted⟩, ho⟩, ?_⟩
  · intro n node hn
    simp only [Graph.addNode] at hn ⊢
    by_cases hlt : n < g.nodes.length
    · rw [List.getElem?_append_left hlt] at hn
      exact hL.chain n node hn
    · rw [List.getElem?_append_right (by omega)] at hn
      have hn0 : n - g.nodes.length = 0 := by
        have := (List.getElem?_eq_some_iff.mp hn).1
        simp at this; omega
      rw [hn0] at hn
      simp only [List.getElem?_cons_zero, Option.some.injEq] at hn
      subst hn
      rw [hL.out n (by omega)]
      exact .nil
  · intro n hn
    simp only [Graph.addNode, List.length_append, List.length_singleton] at hn
    exact hL.out n (by omega)
  · simp [Graph.addNode, h.data]

/-- The id the next `add_edge` uses: one above the largest id. -/
def nextId (l : List (Nat × Nat)) : Nat :=
  match l with
  | [] => 0
  | p :: _ => p.1 + 1

theorem set_node {nodes : List (GNode α)} {n k : Nat} {nd x : GNode α}
    (h : (nodes.set k x)[n]? = some nd) (hk : k < nodes.length) :
    (n = k ∧ nd = x) ∨ (n ≠ k ∧ nodes[n]? = some nd) := by
  by_cases hnk : n = k
  · subst hnk
    rw [List.getElem?_set_self hk] at h
    exact .inl ⟨rfl, (Option.some.inj h).symm⟩
  · rw [List.getElem?_set_ne (by omega)] at h
    exact .inr ⟨hnk, h⟩

theorem map_data_set {nodes : List (GNode α)} {k : Nat} {nd x : GNode α} (hk : nodes[k]? = some nd)
    (hx : x.data = nd.data) : (nodes.set k x).map (·.data) = nodes.map (·.data) := by
  rw [List.map_set]
  apply List.ext_getElem?
  intro i
  by_cases hi : i = k
  · subst hi
    have hlt := (List.getElem?_eq_some_iff.mp hk).1
    rw [List.getElem?_set_self (by simpa using hlt)]
    simp [hk, hx]
  · rw [List.getElem?_set_ne (by omega)]

/-- Prepending a fresh edge to the chain of `s`. -/
theorem prepend {g : Graph α} {L : Nat → List Nat} (hL : GInv g L) {s t id : Nat} {node : GNode α}
    (hs : g.nodes[s]? = some node) (hid : ∀ i ∈ L s, (eInfo g.edges i).1 < id) :
    GInv (Graph.mk (g.nodes.set s { node with firstOut := some g.edges.length })
        (g.edges ++ [⟨t, id, node.firstOut⟩])) (update L s (g.edges.length :: L s)) ∧
    ∀ n, (update L s (g.edges.length :: L s) n).map (eInfo (g.edges ++ [⟨t, id, node.firstOut⟩])) =
      update (fun n => (L n).map (eInfo g.edges)) s ((id, t) :: (L s).map (eInfo g.edges)) n := by
  have hlt := (List.getElem?_eq_some_iff.mp hs).1
  have hnew : (g.edges ++ [(⟨t, id, node.firstOut⟩ : GEdge)])[g.edges.length]? =
      some ⟨t, id, node.firstOut⟩ := by simp
  have hmap : ∀ n, (L n).map (eInfo (g.edges ++ [⟨t, id, node.firstOut⟩])) =
      (L n).map (eInfo g.edges) :=
    fun n => List.map_congr_left (fun i hi => eInfo_append (hL.mem_lt hi).1)
  refine ⟨⟨?_, ?_, ?_, ?_⟩, ?_⟩
  · intro n nd hn
    rcases set_node hn hlt with ⟨rfl, rfl⟩ | ⟨hne, hn⟩
    · simp only [update_self]
      exact .cons hnew ((hL.chain n node hs).append _)
    · rw [update_of_ne hne]
      exact (hL.chain n nd hn).append _
  · intro n hn
    simp only [List.length_set] at hn
    rw [update_of_ne (by omega)]
    exact hL.out n hn
  · intro n m i hin him
    have key : ∀ n, i ∈ update L s (g.edges.length :: L s) n →
        (i = g.edges.length ∧ n = s) ∨ i ∈ L n := by
      intro n h
      by_cases hns : n = s
      · subst hns
        rw [update_self] at h
        rcases List.mem_cons.mp h with h | h
        · exact .inl ⟨h, rfl⟩
        · exact .inr h
      · rw [update_of_ne hns] at h; exact .inr h
    rcases key n hin with ⟨h1, h2⟩ | h1 <;> rcases key m him with ⟨h3, h4⟩ | h3
    · omega
    · have := (hL.mem_lt h3).1; omega
    · have := (hL.mem_lt h1).1; omega
    · exact hL.disj n m i h1 h3
  · intro n
    have hso : ∀ n, (L n).Pairwise (fun i j => (eInfo (g.edges ++ [⟨t, id, node.firstOut⟩]) j).1 <
        (eInfo (g.edges ++ [⟨t, id, node.firstOut⟩]) i).1) := by
      intro n
      refine (hL.sorted n).imp_of_mem ?_
      intro i j hi hj h
      rw [eInfo_append (hL.mem_lt hi).1, eInfo_append (hL.mem_lt hj).1]
      exact h
    by_cases hns : n = s
    · subst hns
      rw [update_self, List.pairwise_cons]
      refine ⟨?_, hso n⟩
      intro j hj
      rw [eInfo_append (hL.mem_lt hj).1, eInfo_of hnew]
      exact hid j hj
    · rw [update_of_ne hns]; exact hso n
  · intro n
    by_cases hns : n = s
    · subst hns
      simp [update_self, hmap, eInfo_of hnew]
    · rw [update_of_ne hns, update_of_ne hns, hmap]

/-- `add_edge` prepends the edge with the next id. -/
theorem addEdge (h : GRep g data out) {s : Nat} (hs : s < data.length) (t : Nat) :
    ∃ g', (g.addEdge s t : Res ε (Graph α)) = .ok g' ∧
      GRep g' data (update out s ((nextId (out s), t) :: out s)) := by
  obtain ⟨L, hL, ho⟩ := h.exInv
  rw [h.length] at hs
  have hnode : g.nodes[s]? = some g.nodes[s] := List.getElem?_eq_getElem hs
  have hc := hL.chain s _ hnode
  have heq : (g.addEdge s t : Res ε (Graph α)) =
      .ok (Graph.mk (g.nodes.set s { g.nodes[s] with firstOut := some g.edges.length })
        (g.edges ++ [⟨t, nextId (out s), g.nodes[s].firstOut⟩])) := by
    rw [ho]
    simp only [Graph.addEdge, hnode, Res.unwrapO_some, Res.bind_ok]
    generalize g.nodes[s].firstOut = o at hc
    generalize L s = l at hc
    cases hc with
    | nil => rfl
    | cons he _ => simp [he, nextId, eInfo_of he]
  refine ⟨_, heq, ⟨?_, ?_⟩⟩
  · obtain ⟨h1, h2⟩ := prepend hL (t := t) hnode (id := nextId (out s)) (by
      rw [ho]
      have hso := hL.sorted s
      cases hl : L s with
      | nil => simp
      | cons i l =>
        rw [hl, List.pairwise_cons] at hso
        intro j hj
        have hnx : nextId (List.map (eInfo g.edges) (i :: l)) = (eInfo g.edges i).1 + 1 := rfl
        rw [hnx]
        rcases List.mem_cons.mp hj with rfl | hj
        · omega
        · have := hso.1 j hj; omega)
    refine ⟨_, h1, ?_⟩
    intro n
    rw [h2]
    have : out = fun n => (L n).map (eInfo g.edges) := funext ho
    rw [this]
  · rw [← h.data]; exact map_data_set hnode rfl

theorem addEdge_none (h : GRep g data out) {s : Nat} (hs : data.length ≤ s) (t : Nat) :
    (g.addEdge s t : Res ε (Graph α)) = .panic := by
  rw [h.length] at hs
  simp [Graph.addEdge, List.getElem?_eq_none hs]

end GRep

/-! ### `try_add_edge_with_id` -/

/-- Insert `(id, t)` into a list sorted by decreasing id. -/
def insertId (id t : Nat) : List (Nat × Nat) → List (Nat × Nat)
  | [] => [(id, t)]
  | p :: l => if p.1 > id then p :: insertId id t l else (id, t) :: p :: l

theorem trySearch_spec {edges : List GEdge} {id : Nat} : ∀ (l : List Nat) (prev : Graph.ThingWithNextEdge)
    (nxt : Option Nat), Chain edges nxt l →
    (l.Pairwise (fun i j => (eInfo edges j).1 < (eInfo edges i).1)) →
    ((Graph.trySearch edges id l prev nxt : Res ε Graph.TrySearch) = .ok .taken ∧
      ∃ i ∈ l, (eInfo edges i).1 = id) ∨
    ∃ l1 l2 nxt', l = l1 ++ l2 ∧ Chain edges nxt' l2 ∧
      (∀ i ∈ l1, id < (eInfo edges i).1) ∧ (∀ i ∈ l2, (eInfo edges i).1 < id) ∧
      (Graph.trySearch edges id l prev nxt : Res ε Graph.TrySearch) =
        .ok (.insertAfter (match l1.getLast? with
          | none => prev
          | some i => .edge i) nxt') := by
  intro l
  induction l with
  | nil =>
    intro prev nxt hc hs
    exact .inr ⟨[], [], nxt, rfl, hc, by simp, by simp, rfl⟩
  | cons i l ih =>
    intro prev nxt hc hs
    cases hc with
    | @cons _ e _ he hc =>
      rw [List.pairwise_cons] at hs
      have hinfo := eInfo_of he
      simp only [Graph.trySearch, he, Res.unwrapO_some, Res.bind_ok]
      by_cases h1 : e.id = id
      · left
        refine ⟨by simp [h1], i, by simp, by rw [hinfo]; exact h1⟩
      · by_cases h2 : e.id > id
        · simp only [h1, ↓reduceIte, h2]
          rcases ih (.edge i) e.nextOut hc hs.2 with ⟨h3, j, hj, hj'⟩ | ⟨l1, l2, nxt', hl, hc', ha, hb, hr⟩
          · exact .inl ⟨h3, j, by simp [hj], hj'⟩
          · right
            refine ⟨i :: l1, l2, nxt', by simp [hl], hc', ?_, hb, ?_⟩
            · intro j hj
              rcases List.mem_cons.mp hj with rfl | hj
              · rw [hinfo]; exact h2
              · exact ha j hj
            · rw [hr]
              cases l1 with
              | nil => rfl
              | cons a l1 =>
                simp only [List.getLast?_cons_cons]
                cases hlast : (a :: l1).getLast? with
                | none => simp at hlast
                | some z => rfl
        · right
          refine ⟨[], i :: l, some i, rfl, .cons he hc, by simp, ?_, ?_⟩
          · intro j hj
            rcases List.mem_cons.mp hj with rfl | hj
            · rw [hinfo]; simp only; omega
            · have := hs.1 j hj; rw [hinfo] at this; simp only at this; omega
          · simp [h1, h2]

/-- Inserting a fresh edge directly after the edge `e` of a chain. -/
theorem Chain.insert_after {edges : List GEdge} {ed : GEdge} {o nxt : Option Nat} {l1 l2 : List Nat}
    {j t id : Nat} (h : Chain edges o (l1 ++ j :: l2)) (hn : (l1 ++ j :: l2).Nodup)
    (hj : edges[j]? = some ed) (hnxt : Chain edges nxt l2) :
    Chain (edges.set j { ed with nextOut := some edges.length } ++ [⟨t, id, nxt⟩]) o
      (l1 ++ j :: edges.length :: l2) := by
  have hlt := (List.getElem?_eq_some_iff.mp hj).1
  induction l1 generalizing o with
  | nil =>
    cases h with
    | cons he hc =>
      simp only [List.nil_append, List.nodup_cons] at hn
      refine .cons (e := { ed with nextOut := some edges.length }) ?_ (.cons (e := ⟨t, id, nxt⟩) ?_ ?_)
      · rw [List.getElem?_append_left (by simpa using hlt)]
        simp [hlt]
      · simp
      · exact (hnxt.set hn.1 _).append _
  | cons i l1 ih =>
    cases h with
    | @cons _ e _ he hc =>
      simp only [List.cons_append, List.nodup_cons, List.mem_append, List.mem_cons, not_or] at hn
      refine .cons (e := e) ?_ (ih hc hn.2)
      have hilt := (List.getElem?_eq_some_iff.mp he).1
      rw [List.getElem?_append_left (by simpa using hilt), List.getElem?_set_ne (by omega)]
      exact he

theorem map_insertId {edges edges' : List GEdge} {l1 l2 : List Nat} {id t k : Nat}
    (h1 : ∀ i ∈ l1, id < (eInfo edges i).1) (h2 : ∀ i ∈ l2, (eInfo edges i).1 < id)
    (h : ∀ i ∈ l1 ++ l2, eInfo edges' i = eInfo edges i) (hk : eInfo edges' k = (id, t)) :
    (l1 ++ k :: l2).map (eInfo edges') = insertId id t ((l1 ++ l2).map (eInfo edges)) := by
  induction l1 with
  | nil =>
    simp only [List.nil_append, List.map_cons, hk]
    have hm : l2.map (eInfo edges') = l2.map (eInfo edges) :=
      List.map_congr_left (fun i hi => h i (by simpa using hi))
    rw [hm]
    cases l2 with
    | nil => rfl
    | cons a l2 =>
      have := h2 a (by simp)
      simp only [List.map_cons, insertId]
      rw [if_neg (by omega)]
  | cons i l1 ih =>
    have hi := h1 i (by simp)
    have he := h i (by simp)
    simp only [List.cons_append, List.map_cons, insertId, he]
    rw [if_pos hi, ih (fun j hj => h1 j (by simp [hj])) (fun j hj => h j (by
      simp only [List.cons_append, List.mem_cons]; exact .inr hj))]

theorem eInfo_set {edges : List GEdge} {j i : Nat} {ed : GEdge} (hj : edges[j]? = some ed)
    (x : Option Nat) : eInfo (edges.set j { ed with nextOut := x }) i = eInfo edges i := by
  have hlt := (List.getElem?_eq_some_iff.mp hj).1
  unfold eInfo
  by_cases h : i = j
  · subst h; rw [List.getElem?_set_self hlt, hj]
  · rw [List.getElem?_set_ne (by omega)]

namespace GRep
variable {g : Graph α} {data : List α} {out : Nat → List (Nat × Nat)}

theorem tryAdd_taken (h : GRep g data out) {s : Nat} (hs : s < data.length) (t : Nat) {id : Nat}
    (hid : ∃ p ∈ out s, p.1 = id) :
    (g.tryAddEdgeWithId s t id : Res ε (Bool × Graph α)) = .ok (false, g) := by
  obtain ⟨L, hL, ho⟩ := h.exInv
  rw [h.length] at hs
  have hnode : g.nodes[s]? = some g.nodes[s] := List.getElem?_eq_getElem hs
  have hc := hL.chain s _ hnode
  rcases trySearch_spec (ε := ε) (id := id) (L s) (.node s) _ hc (hL.sorted s) with ⟨h1, -⟩ | ⟨l1, l2, nxt', hl, -, ha, hb, -⟩
  · simp [Graph.tryAddEdgeWithId, hL.connected hs, hnode, h1]
  · exfalso
    obtain ⟨p, hp, hpid⟩ := hid
    rw [ho, hl] at hp
    obtain ⟨i, hi, rfl⟩ := List.mem_map.mp hp
    rcases List.mem_append.mp hi with hi | hi
    · have := ha i hi; omega
    · have := hb i hi; omega

theorem tryAdd_free (h : GRep g data out) {s : Nat} (hs : s < data.length) (t : Nat) {id : Nat}
    (hid : ∀ p ∈ out s, p.1 ≠ id) :
    ∃ g', (g.tryAddEdgeWithId s t id : Res ε (Bool × Graph α)) = .ok (true, g') ∧
      GRep g' data (update out s (insertId id t (out s))) := by
  obtain ⟨L, hL, ho⟩ := h.exInv
  rw [h.length] at hs
  have hnode : g.nodes[s]? = some g.nodes[s] := List.getElem?_eq_getElem hs
  have hc := hL.chain s _ hnode
  have hfun : out = fun n => (L n).map (eInfo g.edges) := funext ho
  rcases trySearch_spec (ε := ε) (id := id) (L s) (.node s) _ hc (hL.sorted s) with
    ⟨-, i, hi, hi'⟩ | ⟨l1, l2, nxt', hl, hc2, ha, hb, hr⟩
  · exact absurd hi' (hid _ (by rw [ho]; exact List.mem_map_of_mem hi))
  · rcases List.eq_nil_or_concat l1 with rfl | ⟨l0, j, rfl⟩
    · -- insertion at the front
      simp only [List.nil_append, List.getLast?_nil] at hl hr
      have hnn : nxt' = g.nodes[s].firstOut := by
        rw [hc2.head, ← hl, hc.head]
      subst hnn
      refine ⟨?w, ?eq, ⟨?inv, ?dat⟩⟩
      case eq =>
        simp only [Graph.tryAddEdgeWithId, hL.connected hs, hnode, Res.bind_ok, Res.unwrapO_some, hr]
        rfl
      · obtain ⟨h1, h2⟩ := prepend hL (t := t) (id := id) hnode (by rw [hl]; exact hb)
        refine ⟨_, h1, ?_⟩
        intro n
        rw [h2, hfun]
        congr 1
        have := map_insertId (edges := g.edges) (edges' := g.edges ++ [⟨t, id, none⟩]) (l1 := [])
          (l2 := L s) (id := id) (t := t) (k := g.edges.length) (by simp) (by rw [hl]; exact hb)
          (fun i hi => eInfo_append (hL.mem_lt (by simpa using hi)).1)
          (by simp [eInfo])
        simp only [List.nil_append, List.map_cons] at this
        rw [← this]
        congr 1
        · simp [eInfo]
        · exact List.map_congr_left (fun i hi => eInfo_append (hL.mem_lt hi).1)
      · rw [← h.data]; exact map_data_set hnode rfl
    · -- insertion after edge `j`
      simp only [List.getLast?_append, List.getLast?_singleton, Option.some_or, List.concat_eq_append] at hr
      have hlj : L s = l0 ++ j :: l2 := by rw [hl]; simp
      have hjL : j ∈ L s := by rw [hlj]; simp
      have hjlt := (hL.mem_lt hjL).1
      have hj : g.edges[j]? = some g.edges[j] := List.getElem?_eq_getElem hjlt
      let edges' := g.edges.set j { g.edges[j] with nextOut := some g.edges.length } ++ [⟨t, id, nxt'⟩]
      have hinfo : ∀ i, i < g.edges.length → eInfo edges' i = eInfo g.edges i := by
        intro i hi
        rw [eInfo_append (by simpa using hi), eInfo_set hj]
      have hnewinfo : eInfo edges' g.edges.length = (id, t) := by simp [edges', eInfo]
      have hmap := map_insertId (edges := g.edges) (edges' := edges') (l1 := l0 ++ [j]) (l2 := l2) (id := id)
        (t := t) (k := g.edges.length) (by simpa using ha) hb
        (fun i hi => hinfo i (hL.mem_lt (by rw [hl]; simpa using hi)).1) hnewinfo
      have hmemL : ∀ i, i ∈ l0 ++ j :: g.edges.length :: l2 → i = g.edges.length ∨ i ∈ L s := by
        intro i hi
        rw [hlj]
        simp only [List.mem_append, List.mem_cons] at hi ⊢
        tauto
      refine ⟨?w2, ?eq2, ⟨?inv2, ?dat2⟩⟩
      case eq2 =>
        simp only [Graph.tryAddEdgeWithId, hL.connected hs, hnode, Res.bind_ok, Res.unwrapO_some, hr, hj]
        rfl
      · refine ⟨update L s (l0 ++ j :: g.edges.length :: l2), ⟨?_, ?_, ?_, ?_⟩, ?_⟩
        · intro n nd hn
          by_cases hns : n = s
          · subst hns
            rw [update_self]
            have hc' := hL.chain n nd hn
            have hnd := hL.nodup n
            rw [hlj] at hc' hnd
            exact hc'.insert_after hnd hj hc2
          · rw [update_of_ne hns]
            refine ((hL.chain n nd hn).set ?_ _).append _
            exact fun hjn => hns (hL.disj n s j hjn hjL)
        · intro n hn
          rw [update_of_ne (by simp only at hn; omega)]
          exact hL.out n hn
        · intro n m i hin him
          have key : ∀ n, i ∈ update L s (l0 ++ j :: g.edges.length :: l2) n →
              (i = g.edges.length ∧ n = s) ∨ i ∈ L n := by
            intro n h
            by_cases hns : n = s
            · subst hns
              rw [update_self] at h
              rcases hmemL i h with h | h
              · exact .inl ⟨h, rfl⟩
              · exact .inr h
            · rw [update_of_ne hns] at h; exact .inr h
          rcases key n hin with ⟨h1, h2⟩ | h1 <;> rcases key m him with ⟨h3, h4⟩ | h3
          · omega
          · have := (hL.mem_lt h3).1; omega
          · have := (hL.mem_lt h1).1; omega
          · exact hL.disj n m i h1 h3
        · intro n
          by_cases hns : n = s
          · subst hns
            rw [update_self]
            have hso := hL.sorted n
            rw [hlj] at hso
            have hl0 : ∀ i, i ∈ l0 → i < g.edges.length := fun i hi => (hL.mem_lt (n := n) (by rw [hlj]; simp [hi])).1
            have hl2 : ∀ i, i ∈ l2 → i < g.edges.length := fun i hi => (hL.mem_lt (n := n) (by rw [hlj]; simp [hi])).1
            have hso' : (l0 ++ j :: l2).Pairwise (fun i k => (eInfo edges' k).1 < (eInfo edges' i).1) := by
              refine hso.imp_of_mem ?_
              intro i k hi hk hik
              rw [hinfo i (hL.mem_lt (n := n) (by rw [hlj]; exact hi)).1,
                hinfo k (hL.mem_lt (n := n) (by rw [hlj]; exact hk)).1]
              exact hik
            rw [List.pairwise_append, List.pairwise_cons] at hso' ⊢
            rw [List.pairwise_cons]
            refine ⟨hso'.1, ⟨?_, ?_, hso'.2.1.2⟩, ?_⟩
            · intro k hk
              rcases List.mem_cons.mp hk with rfl | hk
              · show (eInfo edges' g.edges.length).1 < (eInfo edges' j).1
                rw [hnewinfo, hinfo j hjlt]
                exact ha j (by simp)
              · exact hso'.2.1.1 k hk
            · intro k hk
              show (eInfo edges' k).1 < (eInfo edges' g.edges.length).1
              rw [hnewinfo, hinfo k (hl2 k hk)]
              exact hb k hk
            · intro i hi k hk
              rcases List.mem_cons.mp hk with rfl | hk
              · exact hso'.2.2 i hi _ (by simp)
              · rcases List.mem_cons.mp hk with rfl | hk
                · show (eInfo edges' g.edges.length).1 < (eInfo edges' i).1
                  rw [hnewinfo, hinfo i (hl0 i hi)]
                  exact ha i (by simp [hi])
                · exact hso'.2.2 i hi k (by simp [hk])
          · rw [update_of_ne hns]
            refine (hL.sorted n).imp_of_mem ?_
            intro i k hi hk hik
            show (eInfo edges' k).1 < (eInfo edges' i).1
            rw [hinfo i (hL.mem_lt hi).1, hinfo k (hL.mem_lt hk).1]
            exact hik
        · intro n
          by_cases hns : n = s
          · subst hns
            rw [update_self, update_self]
            show _ = List.map (eInfo edges') _
            have e1 : l0 ++ j :: g.edges.length :: l2 = l0 ++ [j] ++ g.edges.length :: l2 := by simp
            rw [e1, hmap, ho, hlj]
            simp
          · rw [update_of_ne hns, update_of_ne hns, ho]
            exact (List.map_congr_left (fun i hi => hinfo i (hL.mem_lt hi).1)).symm
      · exact h.data

theorem tryAdd_none (h : GRep g data out) {s : Nat} (hs : data.length ≤ s) (t id : Nat) :
    (g.tryAddEdgeWithId s t id : Res ε (Bool × Graph α)) = .panic := by
  rw [h.length] at hs
  simp [Graph.tryAddEdgeWithId, connectedEdges_none hs]

/-- Changing node data. -/
theorem setData (h : GRep g data out) {n : Nat} {nd : GNode α} (hn : g.nodes[n]? = some nd) (d : α) :
    GRep { g with nodes := g.nodes.set n { nd with data := d } } (data.set n d) out := by
  obtain ⟨L, hL, ho⟩ := h.exInv
  have hlt := (List.getElem?_eq_some_iff.mp hn).1
  refine ⟨⟨L, ⟨?_, ?_, hL.disj, hL.sorted⟩, ho⟩, ?_⟩
  · intro m node hm
    rcases set_node hm hlt with ⟨rfl, rfl⟩ | ⟨_, hm⟩
    · exact hL.chain m nd hn
    · exact hL.chain m node hm
  · intro m hm; simp only [List.length_set] at hm; exact hL.out m hm
  · simp [List.map_set, h.data]

end GRep
end HPP
