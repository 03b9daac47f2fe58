import Verif.Proofs.NamedGraph
import Verif.Spec.Graph
/-
Properties C36-C39: the edge-list graph and the named graph.
-/
namespace HPP
open Spec Function
variable {α ε : Type}

/-! ### helper facts -/

theorem lookupId_cons (id t : Nat) (l : List (Nat × Nat)) (k : Nat) :
    lookupId ((id, t) :: l) k = if k = id then some t else lookupId l k := by
  simp only [lookupId, List.find?_cons]
  by_cases h : k = id
  · subst h; simp
  · have : ¬ id = k := fun hc => h hc.symm
    simp [h, this]

theorem lookupId_insertId {id t : Nat} : ∀ {l : List (Nat × Nat)} (_ : ∀ p ∈ l, p.1 ≠ id) (k : Nat),
    lookupId (insertId id t l) k = if k = id then some t else lookupId l k
  | [], _, k => lookupId_cons _ _ _ _
  | p :: l, h, k => by
    simp only [insertId]
    split
    · obtain ⟨pi, pt⟩ := p
      rw [lookupId_cons, lookupId_cons, lookupId_insertId (fun q hq => h q (List.mem_cons_of_mem _ hq))]
      have hne := h (pi, pt) List.mem_cons_self
      by_cases h1 : k = pi
      · subst h1; simp [hne]
      · simp [h1]
    · rw [lookupId_cons]

theorem lookupId_none {l : List (Nat × Nat)} {k : Nat} : lookupId l k = none ↔ ∀ p ∈ l, p.1 ≠ k := by
  simp [lookupId, List.find?_eq_none]

theorem lookupId_map (f : Nat → Nat) (l : List (Nat × Nat)) (k : Nat) :
    lookupId (l.map fun p => (p.1, f p.2)) k = (lookupId l k).map f := by
  induction l with
  | nil => rfl
  | cons p l ih =>
    obtain ⟨i, t⟩ := p
    rw [List.map_cons, lookupId_cons, lookupId_cons, ih]
    split <;> rfl

/-- In a list with strictly decreasing ids, lookup finds every entry. -/
theorem lookupId_mem : ∀ {l : List (Nat × Nat)}, l.Pairwise (fun x y => y.1 < x.1) → ∀ {p}, p ∈ l →
    lookupId l p.1 = some p.2
  | q :: l, hs, p, hp => by
    obtain ⟨i, t⟩ := q
    rw [List.pairwise_cons] at hs
    rw [lookupId_cons]
    rcases List.mem_cons.mp hp with rfl | hp
    · simp
    · have := hs.1 p hp
      rw [if_neg (by simp only at this; omega)]
      exact lookupId_mem hs.2 hp

/-- What links the chains to the abstract graph. -/
def GLink (g : Graph α) (a : AGraph α) : Prop :=
  ∃ out, GRep g a.data out ∧ ∀ n id, a.edge n id = lookupId (out n) id

theorem nextId_spec {a : AGraph α} {out : Nat → List (Nat × Nat)} {s : Nat}
    (hs : (out s).Pairwise (fun x y => y.1 < x.1)) (he : ∀ n id, a.edge n id = lookupId (out n) id) (id : Nat) :
    a.NextId s id ↔ id = GRep.nextId (out s) := by
  have hex : a.NextId s (GRep.nextId (out s)) := by
    cases ho : out s with
    | nil => exact .inl ⟨rfl, fun k => by rw [he, ho]; rfl⟩
    | cons p l =>
      obtain ⟨i, t⟩ := p
      rw [ho, List.pairwise_cons] at hs
      refine .inr ⟨i, rfl, ?_, ?_⟩
      · rw [he, ho, lookupId_cons]; simp
      · intro k hk
        rw [he, ho, lookupId_none]
        intro p hp
        rcases List.mem_cons.mp hp with rfl | hp
        · simp only; omega
        · have := hs.1 p hp; simp only at this; omega
  constructor
  · intro h
    rcases h with ⟨h1, h2⟩ | ⟨m, h1, h2, h3⟩ <;> rcases hex with ⟨e1, e2⟩ | ⟨m', e1, e2, e3⟩
    · omega
    · exact absurd (h2 m') e2
    · exact absurd (e2 m) h2
    · have : m = m' := by
        rcases Nat.lt_trichotomy m m' with hlt | heq | hgt
        · exact absurd (h3 m' hlt) e2
        · exact heq
        · exact absurd (e3 m hgt) h2
      omega
  · rintro rfl; exact hex

/-- The graph with `o` put beside `g`, as in `add_graph_at_node`. -/
theorem GRep.beside {g o : Graph α} {data data' : List α} {out out' : Nat → List (Nat × Nat)}
    (h : GRep g data out) (h' : GRep o data' out') :
    GRep ⟨g.nodes ++ o.nodes.map (fun n => ⟨n.firstOut.map (fun ei => g.edges.length + ei), n.data⟩),
        g.edges ++ o.edges.map (fun e => ⟨g.nodes.length + e.target, e.id,
          e.nextOut.map (fun ei => g.edges.length + ei)⟩)⟩
      (data ++ data') (fun n => if n < data.length then out n
        else (out' (n - data.length)).map fun p => (p.1, data.length + p.2)) := by
  obtain ⟨L, hL, ho⟩ := h.exInv
  obtain ⟨L', hL', ho'⟩ := h'.exInv
  have hlen := h.length
  have hchain : ∀ {ofs l}, Chain o.edges ofs l →
      Chain (g.edges ++ o.edges.map (fun e => (⟨g.nodes.length + e.target, e.id,
          e.nextOut.map (fun ei => g.edges.length + ei)⟩ : GEdge))) (ofs.map fun ei => g.edges.length + ei)
        (l.map fun ei => g.edges.length + ei) := by
    intro ofs l hc
    induction hc with
    | nil => exact .nil
    | @cons i e l he _ ih =>
      refine .cons (e := ⟨g.nodes.length + e.target, e.id, e.nextOut.map (fun ei => g.edges.length + ei)⟩) ?_ ih
      simp only
      rw [List.getElem?_append_right (by omega)]
      simp [he]
  have hinfo : ∀ i, i < o.edges.length →
      eInfo (g.edges ++ o.edges.map (fun e => (⟨g.nodes.length + e.target, e.id,
          e.nextOut.map (fun ei => g.edges.length + ei)⟩ : GEdge))) (g.edges.length + i) =
        ((eInfo o.edges i).1, data.length + (eInfo o.edges i).2) := by
    intro i hi
    have hi' := List.getElem?_eq_getElem hi
    rw [eInfo_of (e := ⟨g.nodes.length + o.edges[i].target, o.edges[i].id,
      o.edges[i].nextOut.map (fun ei => g.edges.length + ei)⟩), eInfo_of hi', hlen]
    rw [List.getElem?_append_right (by omega)]
    simp [hi']
  refine ⟨⟨fun n => if n < data.length then L n else (L' (n - data.length)).map fun ei => g.edges.length + ei,
    ⟨?_, ?_, ?_, ?_⟩, ?_⟩, ?_⟩
  · intro n node hn
    by_cases hlt : n < data.length
    · simp only [if_pos hlt]
      rw [List.getElem?_append_left (by omega)] at hn
      exact (hL.chain n node hn).append _
    · simp only [if_neg hlt]
      rw [List.getElem?_append_right (by omega), ← hlen] at hn
      simp only [List.getElem?_map, Option.map_eq_some_iff] at hn
      obtain ⟨nd, h1, rfl⟩ := hn
      exact hchain (hL'.chain _ nd h1)
  · intro n hn
    simp only [List.length_append, List.length_map] at hn
    rw [if_neg (by omega), hL'.out _ (by omega)]
    rfl
  · intro n m i hn hm
    by_cases h1 : n < data.length <;> by_cases h2 : m < data.length
    · simp only [if_pos h1, if_pos h2] at hn hm
      exact hL.disj n m i hn hm
    · simp only [if_pos h1, if_neg h2] at hn hm
      have := (hL.mem_lt hn).1
      obtain ⟨j, _, rfl⟩ := List.mem_map.mp hm
      omega
    · simp only [if_neg h1, if_pos h2] at hn hm
      have := (hL.mem_lt hm).1
      obtain ⟨j, _, rfl⟩ := List.mem_map.mp hn
      omega
    · simp only [if_neg h1, if_neg h2] at hn hm
      obtain ⟨j, hj, rfl⟩ := List.mem_map.mp hn
      obtain ⟨k, hk, hkj⟩ := List.mem_map.mp hm
      have : k = j := by omega
      subst this
      have := hL'.disj _ _ _ hj hk
      omega
  · intro n
    by_cases hlt : n < data.length
    · simp only [if_pos hlt]
      refine (hL.sorted n).imp_of_mem ?_
      intro a b ha hb hab
      rw [eInfo_append (hL.mem_lt ha).1, eInfo_append (hL.mem_lt hb).1]
      exact hab
    · simp only [if_neg hlt]
      rw [List.pairwise_map]
      refine (hL'.sorted _).imp_of_mem ?_
      intro a b ha hb hab
      rw [hinfo a (hL'.mem_lt ha).1, hinfo b (hL'.mem_lt hb).1]
      exact hab
  · intro n
    by_cases hlt : n < data.length
    · simp only [if_pos hlt]
      rw [ho]
      apply List.map_congr_left
      intro i hi
      rw [eInfo_append (hL.mem_lt hi).1]
    · simp only [if_neg hlt]
      rw [ho', List.map_map, List.map_map]
      apply List.map_congr_left
      intro i hi
      simp only [Function.comp]
      rw [hinfo i (hL'.mem_lt hi).1]
  · simp [← h.data, ← h'.data]

theorem lookup_update {out : Nat → List (Nat × Nat)} {s id t : Nat} {l : List (Nat × Nat)} {a : AGraph α}
    (he : ∀ n id, a.edge n id = lookupId (out n) id)
    (hl : ∀ k, lookupId l k = if k = id then some t else lookupId (out s) k) :
    ∀ n k, (a.addEdge s id t).edge n k = lookupId (update out s l n) k := by
  intro n k
  simp only [AGraph.addEdge]
  by_cases hn : n = s
  · subst hn; rw [update_self, hl, he]; simp
  · rw [update_of_ne hn, he]; simp [hn]

theorem Spec.GraphOf.link {g : Graph α} {a : AGraph α} (hg : GraphOf g a) : GLink g a := by
  induction hg with
  | new => exact ⟨_, .new, fun _ _ => rfl⟩
  | node d _ ih =>
    obtain ⟨out, hr, he⟩ := ih
    exact ⟨out, (hr.addNode d).2, he⟩
  | @edge g g' a s t id _ hok hid ih =>
    obtain ⟨out, hr, he⟩ := ih
    by_cases hs : s < a.data.length
    · obtain ⟨g2, h1, h2⟩ := hr.addEdge (ε := Empty) hs t
      rw [h1] at hok; cases hok
      rw [nextId_spec (hr.sorted s) he] at hid
      subst hid
      exact ⟨_, h2, lookup_update he (lookupId_cons _ _ _)⟩
    · rw [hr.addEdge_none (by omega)] at hok; cases hok
  | @edgeWithId g g' a s t id _ hok ih =>
    obtain ⟨out, hr, he⟩ := ih
    by_cases hs : s < a.data.length
    · by_cases hid : ∃ p ∈ out s, p.1 = id
      · rw [hr.tryAdd_taken hs t hid] at hok; cases hok
      · have hid' : ∀ p ∈ out s, p.1 ≠ id := fun p hp hc => hid ⟨p, hp, hc⟩
        obtain ⟨g2, h1, h2⟩ := hr.tryAdd_free (ε := Empty) hs t hid'
        rw [h1] at hok; cases hok
        exact ⟨_, h2, lookup_update he (lookupId_insertId hid')⟩
    · rw [hr.tryAdd_none (by omega)] at hok; cases hok
  | @edgeRefused g g' a s t id _ hok ih =>
    obtain ⟨out, hr, he⟩ := ih
    by_cases hs : s < a.data.length
    · by_cases hid : ∃ p ∈ out s, p.1 = id
      · rw [hr.tryAdd_taken hs t hid] at hok; cases hok; exact ⟨out, hr, he⟩
      · have hid' : ∀ p ∈ out s, p.1 ≠ id := fun p hp hc => hid ⟨p, hp, hc⟩
        obtain ⟨g2, h1, h2⟩ := hr.tryAdd_free (ε := Empty) hs t hid'
        rw [h1] at hok; cases hok
    · rw [hr.tryAdd_none (by omega)] at hok; cases hok
  | @merge g o g' a b this other id _ _ hok hid ih ih' =>
    obtain ⟨out, hr, he⟩ := ih
    obtain ⟨out', hr', he'⟩ := ih'
    have hb := hr.beside hr'
    have heb : ∀ n id, (a.beside b).edge n id = lookupId ((fun n => if n < a.data.length then out n
        else (out' (n - a.data.length)).map fun p => (p.1, a.data.length + p.2)) n) id := by
      intro n id
      simp only [AGraph.beside]
      by_cases hn : n < a.data.length
      · simp only [if_pos hn, he]
      · simp only [if_neg hn, he', lookupId_map]
    simp only [Graph.addGraphAtNode] at hok
    by_cases hs : this < (a.beside b).data.length
    · obtain ⟨g2, h1, h2⟩ := GRep.addEdge (ε := Empty) (data := (a.beside b).data) hb hs (other + g.nodes.length)
      rw [h1] at hok; cases hok
      rw [nextId_spec (hb.sorted this) heb] at hid
      subst hid
      rw [← hr.length] at h2
      exact ⟨_, h2, lookup_update heb (lookupId_cons _ _ _)⟩
    · rw [GRep.addEdge_none (data := (a.beside b).data) hb (by omega)] at hok; cases hok

/-! ### C36 -/

/-- **C36**, reading: `find_node_index` is the edge map; `successors` lists the targets of all edges of the node,
largest edge id first. -/
theorem C36_reads {g : Graph α} {a : AGraph α} (hg : GraphOf g a) {n : Nat} (hn : n < a.data.length) :
    (∀ id, (g.findNodeIndex n id : Res ε _) = .ok (a.edge n id)) ∧
    (∃ ids : List Nat, ids.Pairwise (· > ·) ∧ (∀ id, id ∈ ids ↔ a.edge n id ≠ none) ∧
      ∃ ts, (g.successors n : Res ε _) = .ok ts ∧ ts.map some = ids.map (a.edge n)) ∧
    (∃ nd, g.nodes[n]? = some nd ∧ a.data[n]? = some nd.data) := by
  obtain ⟨out, hr, he⟩ := hg.link
  have hs := hr.sorted n
  refine ⟨fun id => by rw [hr.findNodeIndex hn, he], ⟨(out n).map (·.1), ?_, ?_, ?_⟩, ?_⟩
  · rw [List.pairwise_map]; exact hs
  · intro id
    rw [he, ne_eq, lookupId_none]
    constructor
    · intro h hc
      obtain ⟨p, hp, rfl⟩ := List.mem_map.mp h
      exact hc p hp rfl
    · intro h
      refine Classical.byContradiction fun hc => h fun p hp hpe => hc ?_
      exact List.mem_map.mpr ⟨p, hp, hpe⟩
  · refine ⟨_, hr.successors hn, ?_⟩
    rw [List.map_map, List.map_map]
    apply List.map_congr_left
    intro p hp
    simp only [Function.comp, he]
    exact (lookupId_mem hs hp).symm
  · have := hr.length
    have hlt : n < g.nodes.length := by omega
    refine ⟨_, List.getElem?_eq_getElem hlt, ?_⟩
    rw [← hr.data, List.getElem?_map, List.getElem?_eq_getElem hlt]
    rfl

/-- **C36**, writing: what the calls return.  `add_node` returns the next number; `add_edge` and
`try_add_edge_with_id` panic for an unknown source; otherwise `add_edge` succeeds with the next id, and
`try_add_edge_with_id` returns `false` and leaves the graph as it is if the id is taken, and otherwise adds the edge. -/
theorem C36_calls {g : Graph α} {a : AGraph α} (hg : GraphOf g a) :
    (∀ d, (g.addNode d).1 = a.data.length) ∧
    (∀ s t, s < a.data.length → ∃ g' id, (g.addEdge s t : Res Empty _) = .ok g' ∧ a.NextId s id ∧
      GraphOf g' (a.addEdge s id t)) ∧
    (∀ s t id, s < a.data.length → a.edge s id ≠ none →
      (g.tryAddEdgeWithId s t id : Res Empty _) = .ok (false, g)) ∧
    (∀ s t id, s < a.data.length → a.edge s id = none →
      ∃ g', (g.tryAddEdgeWithId s t id : Res Empty _) = .ok (true, g') ∧ GraphOf g' (a.addEdge s id t)) ∧
    (∀ s t id, a.data.length ≤ s → (g.addEdge s t : Res Empty _) = .panic ∧
      (g.tryAddEdgeWithId s t id : Res Empty _) = .panic) := by
  obtain ⟨out, hr, he⟩ := hg.link
  refine ⟨fun d => (hr.addNode d).1, ?_, ?_, ?_, ?_⟩
  · intro s t hs
    obtain ⟨g', h1, -⟩ := hr.addEdge (ε := Empty) hs t
    have hn := (nextId_spec (hr.sorted s) he _).mpr rfl
    exact ⟨g', _, h1, hn, .edge hg h1 hn⟩
  · intro s t id hs hid
    refine hr.tryAdd_taken hs t ?_
    refine Classical.byContradiction fun hc => hid ?_
    rw [he, lookupId_none]
    exact fun p hp hpe => hc ⟨p, hp, hpe⟩
  · intro s t id hs hid
    rw [he, lookupId_none] at hid
    obtain ⟨g', h1, -⟩ := hr.tryAdd_free (ε := Empty) hs t hid
    exact ⟨g', h1, .edgeWithId hg h1⟩
  · intro s t id hs
    exact ⟨hr.addEdge_none hs t, hr.tryAdd_none hs t id⟩

/-- The id `add_edge` uses is determined. -/
theorem C36_nextId_unique {g : Graph α} {a : AGraph α} (hg : GraphOf g a) (s : Nat) : ∃ id, ∀ k, a.NextId s k ↔ k = id := by
  obtain ⟨out, hr, he⟩ := hg.link
  exact ⟨_, nextId_spec (hr.sorted s) he⟩

/-- Two nodes, edges with ids 3 and 1 inserted by id, then a plain `add_edge`, which gets id 4. -/
example : ∃ g, GraphOf (α := Nat) g (((((AGraph.empty.addNode 7).addNode 8).addEdge 0 3 1).addEdge 0 1 0).addEdge 0 4 1) ∧
    (g.successors 0 : Res Empty _) = .ok [1, 1, 0] := by
  refine ⟨_, .edge (.edgeWithId (.edgeWithId (.node 8 (.node 7 .new)) rfl) rfl) rfl (.inr ⟨3, rfl, ?_, ?_⟩), rfl⟩
  · simp [AGraph.addEdge]
  · intro k hk
    have h1 : k ≠ 1 := by omega
    have h3 : k ≠ 3 := by omega
    simp [AGraph.addEdge, AGraph.addNode, AGraph.empty, h1, h3]

/-! ### C37 -/

/-- **C37.** Path lookup follows the edge ids one after the other; the code visits only nodes reached by proper
prefixes of the path, which must exist (edges may be given targets that do not exist; looking at such a node panics).
`find_node` and `find_node_by_path` give the data of the node found. -/
theorem C37_path_lookup {g : Graph α} {a : AGraph α} (hg : GraphOf g a) (n : Nat) (ids : List Nat)
    (hv : ∀ pre id post m, ids = pre ++ id :: post → a.follow n pre = some m → m < a.data.length) :
    (g.findNodeIndexByPath n ids : Res ε _) = .ok (a.follow n ids) ∧
    (∀ m d, a.follow n ids = some m → a.data[m]? = some d →
      ∃ nd, (g.findNodeByPath n ids : Res ε _) = .ok (some nd) ∧ nd.data = d) ∧
    (a.follow n ids = none → (g.findNodeByPath n ids : Res ε _) = .ok none) := by
  have key : (g.findNodeIndexByPath n ids : Res ε _) = .ok (a.follow n ids) := by
    simp only [Graph.findNodeIndexByPath]
    induction ids generalizing n with
    | nil => rfl
    | cons id ids ih =>
      have hn : n < a.data.length := hv [] id ids n rfl rfl
      simp only [Graph.findByPathLoop, (C36_reads (ε := ε) hg hn).1, Res.bind_ok, AGraph.follow]
      cases he : a.edge n id with
      | none => cases ids <;> rfl
      | some m =>
        refine ih m ?_
        intro pre k post m' h1 h2
        refine hv (id :: pre) k post m' (by rw [h1]; rfl) ?_
        simp only [AGraph.follow, he, h2]
  refine ⟨key, ?_, ?_⟩
  · intro m d h1 h2
    have hm : m < a.data.length := (List.getElem?_eq_some_iff.mp h2).1
    obtain ⟨nd, h3, h4⟩ := (C36_reads (ε := ε) hg hm).2.2
    rw [h2] at h4; cases h4
    refine ⟨nd, ?_, rfl⟩
    simp [Graph.findNodeByPath, key, h1, h3]
  · intro h1
    simp [Graph.findNodeByPath, key, h1]

/-- **C37**, one step. -/
theorem C37_find_node {g : Graph α} {a : AGraph α} (hg : GraphOf g a) {n : Nat} (hn : n < a.data.length) (id : Nat) :
    (∀ m d, a.edge n id = some m → a.data[m]? = some d →
      ∃ nd, (g.findNode n id : Res ε _) = .ok (some nd) ∧ nd.data = d) ∧
    (a.edge n id = none → (g.findNode n id : Res ε _) = .ok none) := by
  have key := (C36_reads (ε := ε) hg hn).1 id
  constructor
  · intro m d h1 h2
    have hm : m < a.data.length := (List.getElem?_eq_some_iff.mp h2).1
    obtain ⟨nd, h3, h4⟩ := (C36_reads (ε := ε) hg hm).2.2
    rw [h2] at h4; cases h4
    refine ⟨nd, ?_, rfl⟩
    simp [Graph.findNode, key, h1, h3]
  · intro h1
    simp [Graph.findNode, key, h1]

/-- The graph of the example above satisfies the hypothesis for a path of length two. -/
example : ∃ (g : Graph Nat) (a : AGraph Nat), GraphOf g a ∧ a.follow 0 [1, 3] = some 1 ∧
    (∀ pre id post m, [1, 3] = pre ++ id :: post → a.follow 0 pre = some m → m < a.data.length) := by
  refine ⟨_, (((AGraph.empty.addNode 7).addNode 8).addEdge 0 3 1).addEdge 0 1 0,
    .edgeWithId (.edgeWithId (.node 8 (.node 7 .new)) rfl) rfl, rfl, ?_⟩
  intro pre id post m h1 h2
  match pre, h1 with
  | [], _ => cases h2; decide
  | [x], h1 => cases h1; cases h2; decide
  | x :: y :: zs, h1 => simp at h1

/-! ### C38 -/

/-- **C38.** Merging: nothing of either graph is lost, the nodes of `o` come after those of `g`, and exactly one edge
is new: from `this` (with the next id) to the copy of `other`. -/
theorem C38_merge {g o : Graph α} {a b : AGraph α} (hg : GraphOf g a) (ho : GraphOf o b) {this : Nat}
    (hthis : this < a.data.length) (other : Nat) :
    ∃ g' new, (g.addGraphAtNode o this other : Res Empty _) = .ok g' ∧ a.NextId this new ∧
      (∀ n id, n < a.data.length → (n, id) ≠ (this, new) → (g'.findNodeIndex n id : Res ε _) = g.findNodeIndex n id) ∧
      (∀ n id m, n < b.data.length → (o.findNodeIndex n id : Res ε _) = .ok m →
        (g'.findNodeIndex (a.data.length + n) id : Res ε _) = .ok (m.map (a.data.length + ·))) ∧
      (g'.findNodeIndex this new : Res ε _) = .ok (some (other + a.data.length)) ∧
      g'.nodes.map (·.data) = a.data ++ b.data ∧
      GraphOf g' ((a.beside b).addEdge this new (other + a.data.length)) := by
  obtain ⟨out, hr, he⟩ := hg.link
  obtain ⟨out', hr', he'⟩ := ho.link
  have hb := hr.beside hr'
  have hs : this < (a.data ++ b.data).length := by simp; omega
  obtain ⟨g', h1, -⟩ := hb.addEdge (ε := Empty) hs (other + g.nodes.length)
  have hnx := (nextId_spec (hr.sorted this) he _).mpr rfl
  have hnx' : (a.beside b).NextId this (GRep.nextId (out this)) := by
    have : ∀ k, (a.beside b).edge this k = a.edge this k := by
      intro k; simp only [AGraph.beside, if_pos hthis]
    simpa only [AGraph.NextId, this] using hnx
  have hok : (g.addGraphAtNode o this other : Res Empty _) = .ok g' := h1
  have hG := GraphOf.merge hg ho hok hnx'
  have hread := fun (n : Nat) (hn : n < (a.data ++ b.data).length) => (C36_reads (ε := ε) hG hn).1
  refine ⟨g', _, hok, hnx, ?_, ?_, ?_, ?_, hG⟩
  · intro n id hn hne
    rw [hread n (by simp; omega), (C36_reads hg hn).1]
    have : ¬ (n = this ∧ id = GRep.nextId (out this)) := fun hc => hne (by rw [hc.1, hc.2])
    simp only [AGraph.addEdge, AGraph.beside, if_neg this, if_pos hn]
  · intro n id m hn hm
    rw [(C36_reads ho hn).1] at hm
    cases hm
    rw [hread _ (by simp; omega)]
    have h3 : ¬ (a.data.length + n = this ∧ id = GRep.nextId (out this)) := by omega
    have h4 : ¬ (a.data.length + n < a.data.length) := by omega
    simp only [AGraph.addEdge, AGraph.beside, if_neg h3, if_neg h4, Nat.add_sub_cancel_left]
  · rw [hread _ hs]
    simp [AGraph.addEdge]
  · obtain ⟨out2, hr2, -⟩ := hG.link
    exact hr2.data

/-- Merging a two-node graph with a one-node graph. -/
example : ∃ g' : Graph Nat, ((Graph.new.addNode 5).2.addNode 6).2.addGraphAtNode (Graph.new.addNode 9).2 1 0
    = (.ok g' : Res Empty _) ∧ (g'.findNodeIndex 1 0 : Res Empty _) = .ok (some 2) := ⟨_, rfl, rfl⟩

/-! ### C39 -/

/-- What links the named graph to its abstract view. -/
structure NLink (g : NamedGraph α) (a : ANamed α) (data : List α) (out : Nat → List (Nat × Nat)) : Prop where
  rep : NRep g data out
  names : ∀ n i : Nat, AMap.get g.names n = some i ↔ a.names[i]? = some n
  len : a.names.length = data.length
  stored : ∀ i n : Nat, a.names[i]? = some n → a.data n = data[i]?
  noData : ∀ n, n ∉ a.names → a.data n = none
  ends : ∀ e ∈ a.edges, e.1 ∈ a.names
  edges : ∀ i n : Nat, a.names[i]? = some n → (out i).map (fun p => a.names[p.2]?) = (a.targets n).map some

namespace NLink
variable {g : NamedGraph α} {a : ANamed α} {data : List α} {out : Nat → List (Nat × Nat)}

theorem notMem (h : NLink g a data out) {n : Nat} : n ∉ a.names ↔ AMap.get g.names n = none := by
  constructor
  · intro hn
    cases hg : AMap.get g.names n with
    | none => rfl
    | some i => exact absurd (List.mem_of_getElem? ((h.names n i).mp hg)) hn
  · intro hg hn
    obtain ⟨i, hi⟩ := List.mem_iff_getElem?.mp hn
    rw [(h.names n i).mpr hi] at hg
    cases hg

theorem mem (h : NLink g a data out) {n : Nat} (hn : n ∈ a.names) :
    ∃ i d, AMap.get g.names n = some i ∧ a.names[i]? = some n ∧ i < data.length ∧ data[i]? = some d ∧
      a.data n = some d := by
  obtain ⟨i, hi⟩ := List.mem_iff_getElem?.mp hn
  have hlt : i < data.length := by rw [← h.len]; exact (List.getElem?_eq_some_iff.mp hi).1
  have hd := List.getElem?_eq_getElem hlt
  exact ⟨i, _, (h.names n i).mpr hi, hi, hlt, hd, by rw [h.stored i n hi, hd]⟩

theorem inj (h : NLink g a data out) {i j n : Nat} (hi : a.names[i]? = some n) (hj : a.names[j]? = some n) : i = j := by
  have h1 := (h.names n i).mpr hi
  have h2 := (h.names n j).mpr hj
  rw [h1] at h2
  cases h2; rfl

theorem addNode (h : NLink g a data out) {n : Nat} (hn : n ∉ a.names) (d : α) :
    ∃ g', g.addNode n d = .ok (a.names.length, g') ∧ NLink g' (a.addNode n d) (data ++ [d]) out := by
  obtain ⟨g', h1, h2, h3⟩ := h.rep.addNode_new (h.notMem.mp hn) d
  rw [← h.len] at h1
  have hget : ∀ q, AMap.get g'.names q = if q = n then some a.names.length else AMap.get g.names q := by
    intro q
    have hins := AMap.get_insert g.names n a.names.length q
    have hk := AMap.get_eq_none_iff.mp (h.notMem.mp hn)
    rw [AMap.keys_insert_of_not_mem hk, h.len] at hins
    rw [h3, hins, h.len]
    by_cases hq : q = n
    · subst hq; simp
    · rw [if_neg (fun hc => hq hc.symm), if_neg hq]
  have hnam : ∀ i, (a.names ++ [n])[i]? = if i = a.names.length then some n else a.names[i]? := by
    intro i
    by_cases hi : i = a.names.length
    · subst hi; simp
    · rw [if_neg hi]
      by_cases hlt : i < a.names.length
      · rw [List.getElem?_append_left hlt]
      · rw [List.getElem?_eq_none (by simp; omega), List.getElem?_eq_none (by omega)]
  refine ⟨g', h1, ⟨h2, ?_, by simp [ANamed.addNode, h.len], ?_, ?_, ?_, ?_⟩⟩
  · intro q i
    simp only [ANamed.addNode]
    rw [hget, hnam]
    by_cases hq : q = n
    · subst hq
      rw [if_pos rfl]
      constructor
      · intro hi; cases hi; simp
      · intro hi
        by_cases hil : i = a.names.length
        · rw [hil]
        · rw [if_neg hil] at hi; exact absurd (List.mem_of_getElem? hi) hn
    · rw [if_neg hq, h.names]
      by_cases hil : i = a.names.length
      · subst hil; simp [Ne.symm hq]
      · rw [if_neg hil]
  · intro i q hi
    simp only [ANamed.addNode] at hi ⊢
    rw [hnam] at hi
    by_cases hil : i = a.names.length
    · subst hil; simp only [if_true, Option.some.injEq] at hi; subst hi
      rw [h.len]; simp
    · rw [if_neg hil] at hi
      have hlt := (List.getElem?_eq_some_iff.mp hi).1
      have hq : q ≠ n := by rintro rfl; exact hn (List.mem_of_getElem? hi)
      rw [if_neg hq, h.stored i q hi, List.getElem?_append_left (by rw [← h.len]; exact hlt)]
  · intro q hq
    simp only [ANamed.addNode, List.mem_append, List.mem_singleton, not_or] at hq ⊢
    rw [if_neg hq.2]
    exact h.noData q hq.1
  · intro e he
    simp only [ANamed.addNode, List.mem_append]
    exact .inl (h.ends e he)
  · intro i q hi
    simp only [ANamed.addNode] at hi ⊢
    rw [hnam] at hi
    by_cases hil : i = a.names.length
    · subst hil; simp only [if_true, Option.some.injEq] at hi; subst hi
      have ho : out a.names.length = [] := h.rep.rep.out_nil (by rw [h.len]; exact Nat.le_refl _)
      have ht : (a.edges.filter fun e => decide (e.1 = n)) = [] := by
        rw [List.filter_eq_nil_iff]
        intro e he
        have := h.ends e he
        simp only [decide_eq_true_eq]
        rintro rfl
        exact hn this
      rw [ho]
      simp [ANamed.targets, ht]
    · rw [if_neg hil] at hi
      have hx := h.edges i q hi
      have : (out i).map (fun p => (a.names ++ [n])[p.2]?) = (out i).map (fun p => a.names[p.2]?) := by
        apply List.map_congr_left
        intro p hp
        have := h.rep.tgt i p hp
        rw [List.getElem?_append_left (by rw [h.len]; exact this)]
      rw [this, hx]
      rfl

theorem addEdge (h : NLink g a data out) {x y : Nat} (hx : x ∈ a.names) (hy : y ∈ a.names) :
    ∃ g' out', g.addEdge x y = .ok g' ∧ NLink g' (a.addEdge x y) data out' := by
  obtain ⟨i, _, i1, i2, i3, -⟩ := h.mem hx
  obtain ⟨j, _, j1, j2, j3, -⟩ := h.mem hy
  obtain ⟨g', h1, h2, h3⟩ := h.rep.addEdge i1 j1
  refine ⟨g', _, h1, ⟨h2, ?_, h.len, h.stored, h.noData, ?_, ?_⟩⟩
  · intro n k; rw [h3]; exact h.names n k
  · intro e he
    simp only [ANamed.addEdge, List.mem_append, List.mem_singleton] at he ⊢
    rcases he with he | rfl
    · exact h.ends e he
    · exact hx
  · intro k n hk
    simp only [ANamed.addEdge] at hk
    by_cases hki : k = i
    · subst hki
      have hnx : n = x := by rw [i2] at hk; cases hk; rfl
      subst hnx
      rw [update_self]
      simp only [List.map_cons, ANamed.addEdge, ANamed.targets, List.filter_append, List.map_append, j2]
      have := h.edges k n hk
      simp only [ANamed.targets] at this
      simp [this]
    · rw [update_of_ne hki]
      have hnx : x ≠ n := by rintro rfl; exact hki (h.inj hk i2)
      have := h.edges k n hk
      simp only [ANamed.targets] at this
      simp [ANamed.addEdge, ANamed.targets, List.filter_append, hnx, this]

theorem setData (h : NLink g a data out) {n i : Nat} {d : α} {f : α → α} {g' : NamedGraph α}
    (hi : a.names[i]? = some n) (hd : data[i]? = some d) (hr : NRep g' (data.set i (f d)) out)
    (hn : g'.names = g.names) : NLink g' (a.modify n f) (data.set i (f d)) out := by
  have hlt := (List.getElem?_eq_some_iff.mp hd).1
  refine ⟨hr, by intro q k; rw [hn]; exact h.names q k, by simp [ANamed.modify, h.len], ?_, ?_, h.ends, h.edges⟩
  · intro k q hk
    simp only [ANamed.modify] at hk ⊢
    by_cases hq : q = n
    · subst hq
      have := h.inj hk hi
      subst this
      rw [if_pos rfl, h.stored k q hk, hd, List.getElem?_set_self hlt]
      rfl
    · rw [if_neg hq, h.stored k q hk, List.getElem?_set_ne]
      rintro rfl
      rw [hi] at hk; cases hk; exact hq rfl
  · intro q hq
    have hne : q ≠ n := by rintro rfl; exact hq (List.mem_of_getElem? hi)
    simp only [ANamed.modify, if_neg hne]
    exact h.noData q hq

end NLink

theorem Spec.NamedOf.link {g : NamedGraph α} {a : ANamed α} (hg : NamedOf g a) : ∃ data out, NLink g a data out := by
  induction hg with
  | new => exact ⟨_, _, .new, by simp [NamedGraph.new, ANamed.empty], rfl, by simp [ANamed.empty], fun _ _ => rfl,
      by simp [ANamed.empty], by simp [ANamed.empty]⟩
  | @node g g' a n i d _ hok ih =>
    obtain ⟨data, out, h⟩ := ih
    by_cases hn : n ∈ a.names
    · obtain ⟨k, _, h1, -⟩ := h.mem hn
      simp [NamedGraph.addNode, h1] at hok
    · obtain ⟨g2, h1, h2⟩ := h.addNode hn d
      rw [h1] at hok; cases hok
      exact ⟨_, _, h2⟩
  | @edge g g' a x y _ hok ih =>
    obtain ⟨data, out, h⟩ := ih
    by_cases hx : x ∈ a.names
    · by_cases hy : y ∈ a.names
      · obtain ⟨g2, out', h1, h2⟩ := h.addEdge hx hy
        rw [h1] at hok; cases hok
        exact ⟨_, _, h2⟩
      · obtain ⟨e, he⟩ := NRep.addEdge_err (a := x) (.inr (h.notMem.mp hy))
        rw [he] at hok; cases hok
    · obtain ⟨e, he⟩ := NRep.addEdge_err (b := y) (.inl (h.notMem.mp hx))
      rw [he] at hok; cases hok
  | @modify g g' a n f _ hok ih =>
    obtain ⟨data, out, h⟩ := ih
    by_cases hn : n ∈ a.names
    · obtain ⟨i, d, h1, h2, h3, h4, -⟩ := h.mem hn
      obtain ⟨g2, k1, k2, k3⟩ := h.rep.modifyNode h1 h4 f
      rw [k1] at hok; cases hok
      exact ⟨_, _, h.setData h2 h4 k2 k3⟩
    · rw [NRep.modifyNode_none (h.notMem.mp hn)] at hok; cases hok
  | @modifyByIndex g g' a i n f _ hi hok ih =>
    obtain ⟨data, out, h⟩ := ih
    have hlt : i < data.length := by rw [← h.len]; exact (List.getElem?_eq_some_iff.mp hi).1
    have h4 := List.getElem?_eq_getElem hlt
    obtain ⟨g2, k1, k2, k3⟩ := h.rep.modifyNodeByIndex h4 f
    rw [k1] at hok; cases hok
    exact ⟨_, _, h.setData hi h4 k2 k3⟩

/-- **C39**, writing: `add_node` fails exactly for a name already present, `add_edge` exactly when an end point has no
name, `get_node_mut` exactly for an unknown name, `get_node_mut_by_index` exactly for an index out of range (and panics on a
graph without nodes); otherwise they do what they should. -/
theorem C39_calls {g : NamedGraph α} {a : ANamed α} (hg : NamedOf g a) :
    (∀ n d, n ∈ a.names → g.addNode n d = .err (.graphNodeAlreadyExists n)) ∧
    (∀ n d, n ∉ a.names → ∃ g', g.addNode n d = .ok (a.names.length, g') ∧ NamedOf g' (a.addNode n d)) ∧
    (∀ x y, x ∈ a.names → y ∈ a.names → ∃ g', g.addEdge x y = .ok g' ∧ NamedOf g' (a.addEdge x y)) ∧
    (∀ x y, x ∉ a.names → g.addEdge x y = .err (.graphNodeDoesNotExist x)) ∧
    (∀ x y, x ∈ a.names → y ∉ a.names → g.addEdge x y = .err (.graphNodeDoesNotExist y)) ∧
    (∀ n f, n ∈ a.names → ∃ g', g.modifyNode n f = .ok g' ∧ NamedOf g' (a.modify n f)) ∧
    (∀ n f, n ∉ a.names → g.modifyNode n f = .err (.graphNodeDoesNotExist n)) ∧
    (∀ i n f, a.names[i]? = some n → ∃ g', g.modifyNodeByIndex i f = .ok g' ∧ NamedOf g' (a.modify n f)) ∧
    (∀ i f, a.names ≠ [] → a.names.length ≤ i → g.modifyNodeByIndex i f = .err (.graphIndexOutOfBounds i)) ∧
    (a.names = [] → ∀ i f, g.modifyNodeByIndex i f = .panic) := by
  obtain ⟨data, out, h⟩ := hg.link
  have hlen : g.graph.nodes.length = a.names.length := by rw [h.len, h.rep.rep.length]
  refine ⟨?_, ?_, ?_, ?_, ?_, ?_, ?_, ?_, ?_, ?_⟩
  · intro n d hn
    obtain ⟨k, _, h1, -⟩ := h.mem hn
    simp [NamedGraph.addNode, h1]
  · intro n d hn
    obtain ⟨g', h1, -⟩ := h.addNode hn d
    exact ⟨g', h1, .node hg h1⟩
  · intro x y hx hy
    obtain ⟨g', _, h1, -⟩ := h.addEdge hx hy
    exact ⟨g', h1, .edge hg h1⟩
  · intro x y hx
    simp [NamedGraph.addEdge, NamedGraph.getIndexOfNode, h.notMem.mp hx]
  · intro x y hx hy
    obtain ⟨k, _, h1, -⟩ := h.mem hx
    simp [NamedGraph.addEdge, NamedGraph.getIndexOfNode, h1, h.notMem.mp hy]
  · intro n f hn
    obtain ⟨i, d, h1, h2, h3, h4, -⟩ := h.mem hn
    obtain ⟨g', k1, -⟩ := h.rep.modifyNode h1 h4 f
    exact ⟨g', k1, .modify hg k1⟩
  · intro n f hn
    exact NRep.modifyNode_none (h.notMem.mp hn) f
  · intro i n f hi
    have hlt : i < data.length := by rw [← h.len]; exact (List.getElem?_eq_some_iff.mp hi).1
    obtain ⟨g', k1, -⟩ := h.rep.modifyNodeByIndex (List.getElem?_eq_getElem hlt) f
    exact ⟨g', k1, .modifyByIndex hg hi k1⟩
  · intro i f hne hi
    have hpos : 0 < a.names.length := List.length_pos_iff.mpr hne
    simp only [NamedGraph.modifyNodeByIndex, hlen]
    rw [if_neg (by omega), if_pos (by omega)]
  · intro hnil i f
    simp only [NamedGraph.modifyNodeByIndex, hlen, hnil, List.length_nil, if_true]

/-- **C39**, reading: names are distinct; `get_node` and `get_node_by_index` return the data stored under the name;
unknown names and indices are refused (on a graph without nodes, reading by index panics); `successors` lists the
targets of the edges added from the name, newest first, with their data. -/
theorem C39_reads {g : NamedGraph α} {a : ANamed α} (hg : NamedOf g a) :
    a.names.Nodup ∧
    (∀ n, n ∈ a.names → ∃ nd, g.getNode n = .ok nd ∧ a.data n = some nd.data) ∧
    (∀ n, n ∉ a.names → g.getNode n = .err (.graphNodeDoesNotExist n) ∧
      g.successorIndices n = .err (.graphNodeDoesNotExist n) ∧ g.successors n = .err (.graphNodeDoesNotExist n)) ∧
    (∀ i n, a.names[i]? = some n → g.getIndexOfNode n = .ok i ∧
      ∃ nd, g.getNodeByIndex i = .ok nd ∧ a.data n = some nd.data) ∧
    (∀ i, a.names ≠ [] → a.names.length ≤ i → g.getNodeByIndex i = .err (.graphIndexOutOfBounds i)) ∧
    (a.names = [] → ∀ i, g.getNodeByIndex i = .panic) ∧
    (∀ n, n ∈ a.names → ∃ is ss, g.successorIndices n = .ok is ∧ g.successors n = .ok ss ∧
      is.map (fun i => a.names[i]?) = (a.targets n).map some ∧
      ss.map (·.1) = is ∧ ss.map (fun s => some s.2.data) = (a.targets n).map a.data) := by
  obtain ⟨data, out, h⟩ := hg.link
  have hlen : g.graph.nodes.length = a.names.length := by rw [h.len, h.rep.rep.length]
  refine ⟨?_, ?_, ?_, ?_, ?_, ?_, ?_⟩
  · rw [List.nodup_iff_pairwise_ne, List.pairwise_iff_getElem]
    intro i j hi hj hij heq
    have := h.inj (List.getElem?_eq_getElem hi) (by rw [List.getElem?_eq_getElem hj, heq])
    omega
  · intro n hn
    obtain ⟨i, d, h1, h2, h3, h4, h5⟩ := h.mem hn
    obtain ⟨nd, k1, k2⟩ := h.rep.node h4
    refine ⟨nd, ?_, by rw [h5, k2]⟩
    simp [NamedGraph.getNode, NamedGraph.getIndexOfNode, h1, k1]
  · intro n hn
    have := h.notMem.mp hn
    simp [NamedGraph.getNode, NamedGraph.successorIndices, NamedGraph.successors, NamedGraph.getIndexOfNode, this]
  · intro i n hi
    have hlt : i < data.length := by rw [← h.len]; exact (List.getElem?_eq_some_iff.mp hi).1
    have h4 := List.getElem?_eq_getElem hlt
    refine ⟨by simp [NamedGraph.getIndexOfNode, (h.names n i).mpr hi], ?_⟩
    obtain ⟨nd, k1, k2⟩ := h.rep.getNodeByIndex h4
    exact ⟨nd, k1, by rw [h.stored i n hi, h4, k2]⟩
  · intro i hne hi
    have hpos : 0 < a.names.length := List.length_pos_iff.mpr hne
    simp only [NamedGraph.getNodeByIndex, hlen]
    rw [if_neg (by omega), if_pos (by omega)]
  · intro hnil i
    simp only [NamedGraph.getNodeByIndex, hlen, hnil, List.length_nil, if_true]
  · intro n hn
    obtain ⟨i, d, h1, h2, h3, h4, h5⟩ := h.mem hn
    have hsi := h.rep.rep.successors (ε := GErr) h3
    obtain ⟨ss, k1, k2⟩ := h.rep.successors h1
    have hed := h.edges i n h2
    have hall : ∀ p ∈ out i, ∃ q dq, a.names[p.2]? = some q ∧ data[p.2]? = some dq ∧ a.data q = some dq := by
      intro p hp
      have hlt := h.rep.tgt i p hp
      have hq := List.getElem?_eq_getElem (l := a.names) (i := p.2) (by rw [h.len]; exact hlt)
      exact ⟨_, _, hq, List.getElem?_eq_getElem hlt, by rw [h.stored _ _ hq, List.getElem?_eq_getElem hlt]⟩
    have hsn : g.successorIndices n = .ok ((out i).map (·.2)) := by
      simp only [NamedGraph.successorIndices, NamedGraph.getIndexOfNode, h1, Res.ofOption_some, Res.bind_ok]
      exact hsi
    refine ⟨_, ss, hsn, k1, by rw [List.map_map]; exact hed, ?_, ?_⟩
    · have := congrArg (List.map (·.1)) k2
      rw [List.map_map] at this
      refine this.trans ?_
      have : ∀ l : List (Nat × Nat), (∀ p ∈ l, ∃ dq, data[p.2]? = some dq) →
          (l.filterMap fun p => data[p.2]?.map fun d => (p.2, d)).map (·.1) = l.map (·.2) := by
        intro l hl
        induction l with
        | nil => rfl
        | cons p l ih =>
          obtain ⟨dq, hdq⟩ := hl p List.mem_cons_self
          simp [hdq, ih (fun q hq => hl q (List.mem_cons_of_mem _ hq))]
      exact this _ fun p hp => by obtain ⟨q, dq, -, hh, -⟩ := hall p hp; exact ⟨dq, hh⟩
    · have h6 := congrArg (List.map fun x : Nat × α => some x.2) k2
      rw [List.map_map] at h6
      refine Eq.trans h6 ?_
      have h7 : ∀ (l : List (Nat × Nat)) (ts : List Nat), (∀ p ∈ l, ∃ q dq, a.names[p.2]? = some q ∧ data[p.2]? = some dq ∧
          a.data q = some dq) → l.map (fun p => a.names[p.2]?) = ts.map some →
          (l.filterMap fun p => data[p.2]?.map fun d => (p.2, d)).map (fun x => some x.2) = ts.map a.data := by
        intro l
        induction l with
        | nil => intro ts _ hts; cases ts <;> simp_all
        | cons p l ih =>
          intro ts hl hts
          obtain ⟨q, dq, e1, e2, e3⟩ := hl p List.mem_cons_self
          cases ts with
          | nil => simp at hts
          | cons t ts =>
            simp only [List.map_cons, List.cons.injEq, e1, Option.some.injEq] at hts
            obtain ⟨rfl, hts⟩ := hts
            simp [e2, e3, ih ts (fun q hq => hl q (List.mem_cons_of_mem _ hq)) hts]
      exact h7 _ _ hall hed

/-- A named graph with two nodes, two edges and changed data. -/
example : ∃ g, NamedOf (α := Nat) g (((((ANamed.empty.addNode 4 10).addNode 2 20).addEdge 4 2).addEdge 4 4).modify 2 (· + 1)) ∧
    g.successorIndices 4 = .ok [0, 1] :=
  ⟨_, .modify (.edge (.edge (.node (.node .new rfl) rfl) rfl) rfl) rfl, rfl⟩

end HPP
