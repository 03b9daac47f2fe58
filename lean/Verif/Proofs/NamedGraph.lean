import Verif.Proofs.Graph
import Mathlib.Logic.Relation
/-
The named graph: names and node indices are in bijection.
-/
namespace HPP
open Function Relation
variable {α : Type}

/-- `g` represents node data `data`, edges `out` and the names `g.names` in bijection with the nodes. -/
structure NRep (g : NamedGraph α) (data : List α) (out : Nat → List (Nat × Nat)) : Prop where
  rep : GRep g.graph data out
  keysNodup : AMap.NodupKeys g.names
  lt : ∀ n i, AMap.get g.names n = some i → i < data.length
  inj : ∀ a b i, AMap.get g.names a = some i → AMap.get g.names b = some i → a = b
  surj : ∀ i, i < data.length → ∃ n, AMap.get g.names n = some i
  tgt : ∀ n p, p ∈ out n → p.2 < data.length

/-- There is an edge from node index `i` to node index `j`. -/
def EdgeI (out : Nat → List (Nat × Nat)) (i j : Nat) : Prop := ∃ id, (id, j) ∈ out i

namespace NRep
variable {g : NamedGraph α} {data : List α} {out : Nat → List (Nat × Nat)}

theorem new : NRep (NamedGraph.new : NamedGraph α) [] (fun _ => []) := by
  refine ⟨GRep.new, AMap.NodupKeys.nil, ?_, ?_, ?_, ?_⟩ <;> simp [NamedGraph.new]

theorem node (h : NRep g data out) {i : Nat} {d : α} (hi : data[i]? = some d) :
    ∃ nd, g.graph.nodes[i]? = some nd ∧ nd.data = d := by
  rw [← h.rep.data, List.getElem?_map] at hi
  cases hn : g.graph.nodes[i]? with
  | none => simp [hn] at hi
  | some nd => simp [hn] at hi; exact ⟨nd, rfl, hi⟩

theorem addNode_new (h : NRep g data out) {n : Nat} (hn : AMap.get g.names n = none) (d : α) :
    ∃ g', g.addNode n d = .ok (data.length, g') ∧ NRep g' (data ++ [d]) out ∧
      g'.names = g.names ++ [(n, data.length)] := by
  have hk := AMap.get_eq_none_iff.mp hn
  obtain ⟨h1, h2⟩ := h.rep.addNode d
  have hget : ∀ q, AMap.get (AMap.insert g.names n (g.graph.addNode d).1) q =
      if n = q then some data.length else AMap.get g.names q := by
    intro q; rw [AMap.get_insert, h1]
  refine ⟨⟨(g.graph.addNode d).2, AMap.insert g.names n (g.graph.addNode d).1⟩, ?_, ?_, ?_⟩
  · simp [NamedGraph.addNode, hn, ← h1]
  · refine ⟨h2, h.keysNodup.insert _ _, ?_, ?_, ?_, ?_⟩
    · intro q i hq
      rw [hget] at hq
      split at hq
      · simp at hq ⊢; omega
      · have := h.lt q i hq; simp; omega
    · intro a b i ha hb
      rw [hget] at ha hb
      split at ha <;> split at hb
      · omega
      · simp at ha; have := h.lt b i hb; omega
      · simp at hb; have := h.lt a i ha; omega
      · exact h.inj a b i ha hb
    · intro i hi
      simp only [List.length_append, List.length_singleton] at hi
      by_cases hi' : i = data.length
      · exact ⟨n, by rw [hget, hi']; simp⟩
      · obtain ⟨q, hq⟩ := h.surj i (by omega)
        refine ⟨q, ?_⟩
        rw [hget, if_neg, hq]
        rintro rfl
        rw [hn] at hq; simp at hq
    · intro m p hp
      have := h.tgt m p hp
      simp; omega
  · simp only
    rw [AMap.keys_insert_of_not_mem hk, h1]

theorem modifyNode (h : NRep g data out) {n i : Nat} (hn : AMap.get g.names n = some i) {d : α}
    (hd : data[i]? = some d) (f : α → α) :
    ∃ g', g.modifyNode n f = .ok g' ∧ NRep g' (data.set i (f d)) out ∧ g'.names = g.names := by
  obtain ⟨nd, hnd, hdd⟩ := h.node hd
  refine ⟨{ g with graph := { g.graph with nodes := g.graph.nodes.set i { nd with data := f d } } }, ?_, ⟨h.rep.setData hnd (f d), h.keysNodup, ?_, h.inj, ?_, ?_⟩, ?_⟩
  · simp only [NamedGraph.modifyNode, NamedGraph.getIndexOfNode, hn, Res.ofOption_some, Res.bind_ok,
      hnd, Res.unwrapO_some, hdd]
    rfl
  · intro q j hq; simpa using h.lt q j hq
  · intro j hj; exact h.surj j (by simpa using hj)
  · intro m p hp; simpa using h.tgt m p hp
  · rfl

theorem modifyNode_none {n : Nat} (hn : AMap.get g.names n = none) (f : α → α) :
    g.modifyNode n f = .err (.graphNodeDoesNotExist n) := by
  simp [NamedGraph.modifyNode, NamedGraph.getIndexOfNode, hn]

theorem modifyNodeByIndex (h : NRep g data out) {i : Nat} {d : α}
    (hd : data[i]? = some d) (f : α → α) :
    ∃ g', g.modifyNodeByIndex i f = .ok g' ∧ NRep g' (data.set i (f d)) out ∧ g'.names = g.names := by
  obtain ⟨nd, hnd, hdd⟩ := h.node hd
  have hlt := (List.getElem?_eq_some_iff.mp hnd).1
  refine ⟨{ g with graph := { g.graph with nodes := g.graph.nodes.set i { nd with data := f d } } }, ?_, ⟨h.rep.setData hnd (f d), h.keysNodup, ?_, h.inj, ?_, ?_⟩, ?_⟩
  · simp only [NamedGraph.modifyNodeByIndex]
    rw [if_neg (by omega), if_neg (by omega)]
    simp only [hnd, Res.unwrapO_some, Res.bind_ok, hdd]
    rfl
  · intro q j hq; simpa using h.lt q j hq
  · intro j hj; exact h.surj j (by simpa using hj)
  · intro m p hp; simpa using h.tgt m p hp
  · rfl

theorem getNodeByIndex (h : NRep g data out) {i : Nat} {d : α} (hd : data[i]? = some d) :
    ∃ nd, g.getNodeByIndex i = .ok nd ∧ nd.data = d := by
  obtain ⟨nd, hnd, hdd⟩ := h.node hd
  have hlt := (List.getElem?_eq_some_iff.mp hnd).1
  refine ⟨nd, ?_, hdd⟩
  simp only [NamedGraph.getNodeByIndex]
  rw [if_neg (by omega), if_neg (by omega), hnd]
  rfl

theorem addEdge (h : NRep g data out) {a b i j : Nat} (ha : AMap.get g.names a = some i)
    (hb : AMap.get g.names b = some j) :
    ∃ g', g.addEdge a b = .ok g' ∧
      NRep g' data (update out i ((GRep.nextId (out i), j) :: out i)) ∧ g'.names = g.names := by
  obtain ⟨g1, hg1, hr⟩ := h.rep.addEdge (ε := GErr) (h.lt a i ha) j
  refine ⟨{ g with graph := g1 }, ?_, ⟨hr, h.keysNodup, h.lt, h.inj, h.surj, ?_⟩, rfl⟩
  · simp [NamedGraph.addEdge, NamedGraph.getIndexOfNode, ha, hb, hg1]
  · intro n p hp
    by_cases hn : n = i
    · subst hn
      rw [update_self] at hp
      rcases List.mem_cons.mp hp with rfl | hp
      · exact h.lt b j hb
      · exact h.tgt n p hp
    · rw [update_of_ne hn] at hp
      exact h.tgt n p hp

theorem addEdge_err {a b : Nat} (hab : AMap.get g.names a = none ∨ AMap.get g.names b = none) :
    ∃ e, g.addEdge a b = .err e := by
  cases ha : AMap.get g.names a with
  | none => exact ⟨.graphNodeDoesNotExist a, by simp [NamedGraph.addEdge, NamedGraph.getIndexOfNode, ha]⟩
  | some i =>
    cases hb : AMap.get g.names b with
    | none => exact ⟨.graphNodeDoesNotExist b, by simp [NamedGraph.addEdge, NamedGraph.getIndexOfNode, ha, hb]⟩
    | some j => rw [ha, hb] at hab; simp at hab

theorem edgeI_update {i j x y id : Nat} :
    EdgeI (update out i ((id, j) :: out i)) x y ↔ EdgeI out x y ∨ (x = i ∧ y = j) := by
  unfold EdgeI
  by_cases hx : x = i
  · subst hx
    rw [update_self]
    constructor
    · rintro ⟨k, hk⟩
      rcases List.mem_cons.mp hk with hk | hk
      · cases hk; exact .inr ⟨rfl, rfl⟩
      · exact .inl ⟨k, hk⟩
    · rintro (⟨k, hk⟩ | ⟨_, rfl⟩)
      · exact ⟨k, List.mem_cons_of_mem _ hk⟩
      · exact ⟨id, List.mem_cons_self⟩
  · rw [update_of_ne hx]; simp [hx]

/-- `successors`, as pairs of index and node. -/
theorem successors (h : NRep g data out) {n i : Nat} (hn : AMap.get g.names n = some i) :
    ∃ l, g.successors n = .ok l ∧ l.map (fun p => (p.1, p.2.data)) =
      (out i).filterMap (fun p => data[p.2]?.map (fun d => (p.2, d))) := by
  have hs := h.rep.successors (ε := GErr) (h.lt n i hn)
  have key : ∀ l : List Nat, (∀ t ∈ l, t < data.length) →
      ∃ r, (l.mapM (fun t => do
        let n ← Res.unwrapO g.graph.nodes[t]?
        return (t, n)) : Res GErr (List (Nat × GNode α))) = .ok r ∧
        r.map (fun p => (p.1, p.2.data)) = l.filterMap (fun t => data[t]?.map (fun d => (t, d))) := by
    intro l
    induction l with
    | nil => intro _; exact ⟨[], rfl, rfl⟩
    | cons t l ih =>
      intro hl
      obtain ⟨r, hr, hr'⟩ := ih (fun t ht => hl t (by simp [ht]))
      have ht := hl t (by simp)
      obtain ⟨nd, hnd, hdd⟩ := h.node (List.getElem?_eq_getElem ht)
      refine ⟨(t, nd) :: r, ?_, ?_⟩
      · rw [List.mapM_cons, hr]; simp [hnd]
      · simp [List.getElem?_eq_getElem ht, hdd, hr']
  obtain ⟨r, hr, hr'⟩ := key ((out i).map (·.2)) (by
    intro t ht
    obtain ⟨p, hp, rfl⟩ := List.mem_map.mp ht
    exact h.tgt i p hp)
  refine ⟨r, ?_, ?_⟩
  · simp only [NamedGraph.successors, NamedGraph.getIndexOfNode, hn, Res.ofOption_some, Res.bind_ok, hs]
    exact hr
  · rw [hr', List.filterMap_map]; rfl

end NRep
end HPP
