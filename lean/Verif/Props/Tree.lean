import Verif.Proofs.TreeRemove
import Verif.Spec.TreeObs
/-
Properties C32-C35: the tree arena.
-/
namespace HPP
open Spec
variable {T : Type} {t t' : Tree T} {h : Hist T} {ds : List Nat}

theorem TRem.observes (hr : TRem t h ds) : Observes t h ds where
  node := by
    intro i p d hi ha
    obtain ⟨nd, h1, h2, -, h3, -⟩ := hr.getNode hi ha.2
    exact ⟨nd, h1, h2, h3⟩
  refused := fun id hid => hr.getNode_bad (fun ⟨h1, h2, h3⟩ => hid ⟨h1, h2, h3⟩)
  children := fun i ha => ⟨h.length, fun fuel hf =>
    hr.getChildren ha.1 ha.2 (Nat.le_trans (TRem.kidsLeft_len h ds i) hf)⟩
  descendants := by
    intro i ha
    obtain ⟨L, l1, l2, l3⟩ := hr.getDescendants (ε := TErr) (h.length - i) i (Nat.le_refl _) ha.1 ha.2
    exact ⟨L, l1, l2, _, l3⟩
  nth := by
    intro i nd hn n
    have hal : Alive h ds i := by
      refine Classical.byContradiction fun hb => ?_
      obtain ⟨⟨e, he⟩, -⟩ := hr.getNode_bad (id := ⟨i, i⟩) (fun ⟨_, h2, h3⟩ => hb ⟨h2, h3⟩)
      rw [hn] at he; cases he
    obtain ⟨nd', g1, -, g2, -⟩ := hr.getNode (List.getElem?_eq_getElem hal.1) hal.2
    rw [hn] at g1; cases g1
    have hor := fun (ε : Type) => hr.getNthChildOrNone (ε := ε) hal.1 hal.2 g2 n
    have hget : t.getNthChild nd n = (match (kidsLeft h ds i)[n]?.bind fun j => t.nodes[j]? with
        | some c => .ok c
        | none => .err (.childDoesNotExist n)) := by
      have := hor TErr
      simp only [Tree.getNthChildOrNone] at this
      simp only [Tree.getNthChild, this, Res.bind_ok]
      cases (kidsLeft h ds i)[n]?.bind fun j => t.nodes[j]? <;> rfl
    constructor
    · intro j hj
      obtain ⟨h1, h2, c, h3⟩ := hr.alive_lt hal.2 (List.mem_of_getElem? hj)
      obtain ⟨c', g3, -, g4, -⟩ := hr.getNode (List.getElem?_eq_getElem h1) h2
      rw [h3] at g4; cases g4
      refine ⟨c, g3, ?_, ?_⟩
      · rw [hget, hj]; simp [h3]
      · rw [hor, hj]; simp [h3]
    · intro hj
      exact ⟨by rw [hget, hj]; rfl, by rw [hor, hj]; rfl⟩
  path := by
    intro i ha ns
    obtain ⟨nd, g1, -, g2, -⟩ := hr.getNode (List.getElem?_eq_getElem ha.1) ha.2
    have hp := hr.byPathFrom ns ha.1 ha.2 g2
    have hal : ∀ (ns : List Nat) (i j : Nat), Alive h ds i → followPath (kidsLeft h ds) ns i = some j →
        Alive h ds j := by
      intro ns
      induction ns with
      | nil => intro i j hi hf; simp [followPath] at hf; exact hf ▸ hi
      | cons n ns ih =>
        intro i j hi hf
        simp only [followPath] at hf
        split at hf
        · cases hf
        · next k hk =>
          obtain ⟨h1, h2, -⟩ := hr.alive_lt hi.2 (List.mem_of_getElem? hk)
          exact ih k j ⟨h1, h2⟩ hf
    constructor
    · intro j hj
      have haj := hal ns i j ha hj
      obtain ⟨c, g3, -, g4, -⟩ := hr.getNode (List.getElem?_eq_getElem haj.1) haj.2
      refine ⟨c, g3, ?_⟩
      simp only [Tree.getByPathOrNone, g1, Res.bind_ok, hp, hj, Option.bind_some, g4]
    · intro hj
      simp only [Tree.getByPathOrNone, g1, Res.bind_ok, hp, hj, Option.bind_none]

/-! ### C32 -/

theorem adds_rep (calls : List (T × Option NodeId)) : ∀ {t : Tree T} {h : Hist T}, TRep t h →
    TRep (calls.foldl (fun t c => (t.addNode c.1 c.2).2) t) (insertions calls h).1 := by
  induction calls with
  | nil => intro t h hr; exact hr
  | cons c cs ih =>
    intro t h hr
    obtain ⟨d, par⟩ := c
    simp only [List.foldl_cons]
    cases par with
    | none =>
      obtain ⟨t', h1, h2⟩ := hr.addNode_root d
      simp only [insertions, h1]
      exact ih h2
    | some id =>
      simp only [insertions]
      by_cases hb : id.ptr = id.pk ∧ id.ptr < h.length
      · obtain ⟨ptr, pk⟩ := id
        obtain ⟨hb1, hlt⟩ := hb
        simp only at hb1 hlt
        subst hb1
        obtain ⟨t', h1, h2⟩ := hr.addNode_child d hlt
        simp only [numberOf, hlt, and_self, if_true, h1]
        exact ih h2
      · simp only [numberOf, hb, if_false, hr.addNode_bad d hb]
        exact ih hr

/-- The results of the calls. -/
def addResults : List (T × Option NodeId) → Tree T → List (Res TErr NodeId)
  | [], _ => []
  | c :: cs, t => (t.addNode c.1 c.2).1 :: addResults cs (t.addNode c.1 c.2).2

/-- **C32**, what is returned: the calls of any sequence of `add_node` calls return what the specification says:
the `n`-th node ever inserted gets the id `(n, n)`, a call with an unknown parent id fails. -/
theorem C32_add_results (calls : List (T × Option NodeId)) :
    (addResults calls Tree.new).map okId = (insertions calls []).2.map some := by
  have : ∀ (calls : List (T × Option NodeId)) {t : Tree T} {h : Hist T}, TRep t h →
      (addResults calls t).map okId = (insertions calls h).2.map some := by
    intro calls
    induction calls with
    | nil => intro t h _; rfl
    | cons c cs ih =>
      intro t h hr
      obtain ⟨d, par⟩ := c
      simp only [addResults, List.map_cons]
      cases par with
      | none =>
        obtain ⟨t', h1, h2⟩ := hr.addNode_root d
        simp only [insertions, h1, okId, List.map_cons]
        rw [ih h2]
      | some id =>
        simp only [insertions]
        by_cases hb : id.ptr = id.pk ∧ id.ptr < h.length
        · obtain ⟨ptr, pk⟩ := id
          obtain ⟨hb1, hlt⟩ := hb
          simp only at hb1 hlt
          subst hb1
          obtain ⟨t', h1, h2⟩ := hr.addNode_child d hlt
          simp only [numberOf, hlt, and_self, if_true, h1, okId, List.map_cons]
          rw [ih h2]
        · simp only [numberOf, hb, if_false, hr.addNode_bad d hb, okId, List.map_cons]
          rw [ih hr]
  exact this calls .new

/-- **C32**, what is read: after any sequence of `add_node` calls all read functions show the inserted forest. -/
theorem C32_tree_is_forest (calls : List (T × Option NodeId)) :
    Observes (calls.foldl (fun t c => (t.addNode c.1 c.2).2) Tree.new) (insertions calls []).1 [] :=
  (adds_rep calls .new).rem.observes

/-- **C32**, failing calls: adding under an unknown id fails and leaves the tree as it was. -/
theorem C32_failed_add_changes_nothing (calls : List (T × Option NodeId)) (d : T) (id : NodeId)
    (hid : numberOf (insertions calls []).1 id = none) :
    (calls.foldl (fun t c => (t.addNode c.1 c.2).2) Tree.new).addNode d (some id) =
      (.err (.nodeDoesNotExist id), calls.foldl (fun t c => (t.addNode c.1 c.2).2) Tree.new) := by
  refine (adds_rep calls .new).addNode_bad d (fun hb => ?_)
  simp only [numberOf, if_pos hb] at hid
  cases hid

/-- A forest with a branch of depth two, and one failed call. -/
example : (insertions [(c% "r", none), (c% "a", some ⟨0, 0⟩), (c% "b", some ⟨0, 0⟩), (c% "x", some ⟨7, 7⟩),
    (c% "c", some ⟨1, 1⟩)] []) =
    ([(none, c% "r"), (some 0, c% "a"), (some 0, c% "b"), (some 1, c% "c")],
      [some ⟨0, 0⟩, some ⟨1, 1⟩, some ⟨2, 2⟩, none, some ⟨3, 3⟩]) := rfl

/-! ### C33 -/

/-- What the log says about the nodes of the arena. -/
structure LogInv (t : Tree T) (log : List (NodeId × T)) : Prop where
  bound : ∀ x ∈ log, x.1.pk < t.counter
  distinct : (log.map (·.1.pk)).Nodup
  nodes : ∀ nd ∈ t.nodes, ∃ x ∈ log, x.1.pk = nd.pk ∧ x.2 = nd.data

theorem updNode_keeps {t t' : Tree T} {i : Nat} {f : TNode T → TNode T} (hf : ∀ n, (f n).pk = n.pk ∧ (f n).data = n.data)
    (h : t.updNode i f = some t') : t'.counter = t.counter ∧
      ∀ nd ∈ t'.nodes, ∃ nd' ∈ t.nodes, nd'.pk = nd.pk ∧ nd'.data = nd.data := by
  simp only [Tree.updNode] at h
  split at h
  · cases h
  · next n hn =>
    simp only [Option.some.injEq] at h
    subst h
    refine ⟨rfl, fun nd hnd => ?_⟩
    rcases List.mem_or_eq_of_mem_set hnd with hm | rfl
    · exact ⟨nd, hm, rfl, rfl⟩
    · exact ⟨n, List.mem_of_getElem? hn, (hf n).1.symm, (hf n).2.symm⟩

/-- All nodes of `t'` are old (up to links). -/
def NodesLe (t' t : Tree T) : Prop := t'.counter = t.counter ∧
  ∀ nd ∈ t'.nodes, ∃ nd' ∈ t.nodes, nd'.pk = nd.pk ∧ nd'.data = nd.data

theorem NodesLe.refl (t : Tree T) : NodesLe t t := ⟨rfl, fun nd h => ⟨nd, h, rfl, rfl⟩⟩

theorem NodesLe.trans {t1 t2 t3 : Tree T} (h1 : NodesLe t1 t2) (h2 : NodesLe t2 t3) : NodesLe t1 t3 := by
  refine ⟨h1.1.trans h2.1, fun nd h => ?_⟩
  obtain ⟨n1, a, b, c⟩ := h1.2 nd h
  obtain ⟨n2, a', b', c'⟩ := h2.2 n1 a
  exact ⟨n2, a', b'.trans b, c'.trans c⟩

theorem LogInv.le {t t' : Tree T} {log : List (NodeId × T)} (h : LogInv t log) (hl : NodesLe t' t) : LogInv t' log := by
  refine ⟨fun x hx => by rw [hl.1]; exact h.bound x hx, h.distinct, fun nd hn => ?_⟩
  obtain ⟨n', a, b, c⟩ := hl.2 nd hn
  obtain ⟨x, a', b', c'⟩ := h.nodes n' a
  exact ⟨x, a', b'.trans b, c'.trans c⟩

theorem LogInv.weaken {t : Tree T} {log : List (NodeId × T)} (h : LogInv t log) (fr : List Nat) (n : Nat) :
    LogInv { t with free := fr, counter := t.counter + n } log :=
  ⟨fun x hx => Nat.lt_of_lt_of_le (h.bound x hx) (Nat.le_add_right _ _), h.distinct, h.nodes⟩

/-- Storing a new node with the fresh key. -/
theorem LogInv.place {t t' : Tree T} {log : List (NodeId × T)} {pk : Nat} {re : Bool} {ix : Nat} {n : TNode T}
    (h : LogInv t log) (hpk : t.counter = pk + 1) (hlog : ∀ x ∈ log, x.1.pk < pk) (hn : n.pk = pk)
    (hp : t.placeNode re ix n = some t') : LogInv t' (log ++ [(⟨ix, pk⟩, n.data)]) := by
  have hnew : t'.counter = t.counter ∧ ∀ nd ∈ t'.nodes, nd ∈ t.nodes ∨ nd = n := by
    simp only [Tree.placeNode] at hp
    split at hp
    · simp only [Tree.updNode] at hp
      split at hp
      · cases hp
      · simp only [Option.some.injEq] at hp
        subst hp
        exact ⟨rfl, fun nd hnd => List.mem_or_eq_of_mem_set hnd⟩
    · simp only [Option.some.injEq] at hp
      subst hp
      exact ⟨rfl, fun nd hnd => by simpa using hnd⟩
  refine ⟨?_, ?_, ?_⟩
  · intro x hx
    rcases List.mem_append.mp hx with hx | hx
    · rw [hnew.1]; exact h.bound x hx
    · simp at hx; subst hx; rw [hnew.1, hpk]; exact Nat.lt_succ_self _
  · rw [List.map_append, List.nodup_append]
    refine ⟨h.distinct, by simp, ?_⟩
    rintro a ha b hb rfl
    obtain ⟨x, hx, rfl⟩ := List.mem_map.mp ha
    simp at hb
    have := hlog x hx
    omega
  · intro nd hnd
    rcases hnew.2 nd hnd with hm | rfl
    · obtain ⟨x, a, b, c⟩ := h.nodes nd hm
      exact ⟨x, List.mem_append_left _ a, b, c⟩
    · exact ⟨(⟨ix, pk⟩, nd.data), by simp, hn.symm, rfl⟩

theorem LogInv.addNode {t t' : Tree T} {log : List (NodeId × T)} {d : T} {par : Option NodeId}
    {r : Res TErr NodeId} (h : LogInv t log) (ha : t.addNode d par = (r, t')) :
    match r with
    | .ok id => LogInv t' (log ++ [(id, d)])
    | .err _ => LogInv t' log
    | _ => True := by
  simp only [Tree.addNode] at ha
  generalize hnx : (match t.free with | [] => t.nodes.length | i :: _ => i) = next at ha
  cases par with
  | none =>
    simp only at ha
    split at ha
    · cases ha; trivial
    · next t2 hp =>
      cases ha
      simp only
      have h1 := h.weaken t.free.tail 1
      exact h1.place (n := TNode.new none d t.counter none) rfl h.bound rfl hp
  | some pid =>
    simp only at ha
    split at ha
    · cases ha
      exact h.weaken t.free.tail 0
    · split at ha
      · cases ha
        exact h.weaken t.free.tail 1
      · cases ha; trivial
      · cases ha; trivial
      · next pn hpn =>
        split at ha
        · cases ha; trivial
        · next t2 hu =>
          have hle2 : NodesLe t2 { t with free := t.free.tail, counter := t.counter + 1 } :=
            updNode_keeps (h := hu) (hf := by intro n; exact ⟨rfl, rfl⟩)
          split at ha
          · cases ha; trivial
          · next t3 h3 =>
            have hle3 : NodesLe t3 t2 := by
              cases hl : pn.lastChild with
              | none =>
                rw [hl] at h3
                simp only [Option.some.injEq] at h3
                subst h3
                exact .refl _
              | some lci =>
                rw [hl] at h3
                exact updNode_keeps (h := h3) (hf := by intro n; exact ⟨rfl, rfl⟩)
            split at ha
            · cases ha; trivial
            · next t4 h4 =>
              cases ha
              simp only
              have h1 := (h.weaken t.free.tail 1).le (hle3.trans hle2)
              have hc : t3.counter = t.counter + 1 := by rw [hle3.1, hle2.1]
              exact h1.place (n := TNode.new (some pid.ptr) d t.counter pn.lastChild) hc h.bound rfl h4

theorem LogInv.removeBranch {t t' : Tree T} {log : List (NodeId × T)} {fuel : Nat} {id : NodeId}
    {r : Res TErr Unit} (h : LogInv t log) (ha : t.removeBranch fuel id = (r, t')) : LogInv t' log := by
  simp only [Tree.removeBranch] at ha
  split at ha
  · cases ha; exact h
  · cases ha; exact h
  · cases ha; exact h
  · next node hn =>
    split at ha
    · cases ha; exact h
    · cases ha; exact h
    · cases ha; exact h
    · next L hL =>
      split at ha
      · cases ha; exact h
      · next t2 hu =>
        cases ha
        rw [unlink_eq] at hu
        have hopt : ∀ (o : Option Nat) (f : TNode T → TNode T) (t t' : Tree T),
            (hf : ∀ n, (f n).pk = n.pk ∧ (f n).data = n.data) →
            (ho : (match o with | some s => t.updNode s f | none => some t) = some t') → NodesLe t' t := by
          intro o f t t' hf ho
          cases o with
          | none => simp only [Option.some.injEq] at ho; subst ho; exact .refl _
          | some s => exact updNode_keeps hf ho
        obtain ⟨t1, g1, hu⟩ := Option.bind_eq_some_iff.mp hu
        obtain ⟨t3, g2, hu⟩ := Option.bind_eq_some_iff.mp hu
        obtain ⟨t4, g3, hu⟩ := Option.bind_eq_some_iff.mp hu
        simp only [Option.some.injEq] at hu
        subst hu
        have l1 := hopt (ho := g1) (hf := by intro n; exact ⟨rfl, rfl⟩)
        have l2 := hopt (ho := g2) (hf := by intro n; exact ⟨rfl, rfl⟩)
        have l3 := hopt (ho := g3) (hf := by intro n; exact ⟨rfl, rfl⟩)
        exact (h.le (l3.trans (l2.trans l1))).weaken _ 0

theorem inj_of_nodup_map {α β : Type} (f : α → β) : ∀ {l : List α}, (l.map f).Nodup → ∀ {x y}, x ∈ l → y ∈ l →
    f x = f y → x = y
  | [], _, _, _, hx, _, _ => by cases hx
  | a :: l, hn, x, y, hx, hy, hf => by
    rw [List.map_cons, List.nodup_cons] at hn
    rcases List.mem_cons.mp hx with rfl | hx' <;> rcases List.mem_cons.mp hy with rfl | hy'
    · rfl
    · exact absurd (hf ▸ List.mem_map_of_mem hy') hn.1
    · exact absurd (hf ▸ List.mem_map_of_mem hx') hn.1
    · exact inj_of_nodup_map f hn.2 hx' hy' hf

/-- **C33.** For any history of `add_node` and `remove_branch` calls (in any order, failing ones included): no two
`add_node` calls return the same id, and an id never resolves to anything but the node it was issued for. -/
theorem C33_ids_never_alias {log : List (NodeId × T)} (hrun : TRun t log) :
    (log.map (·.1)).Nodup ∧
    ∀ id d, (id, d) ∈ log → ∀ nd, (t.getNode id = .ok nd ∨ t.getNodeMut id = .ok nd) → nd.data = d := by
  have hinv : LogInv t log := by
    induction hrun with
    | new => exact ⟨by simp, by simp, by simp [Tree.new]⟩
    | add _ ha ih => exact ih.addNode ha
    | addErr _ ha ih => exact ih.addNode ha
    | remove _ ha ih => exact ih.removeBranch ha
    | removeErr _ ha ih => exact ih.removeBranch ha
  constructor
  · have := hinv.distinct
    rw [show (log.map (·.1.pk)) = (log.map (·.1)).map (·.pk) by simp] at this
    exact List.Pairwise.of_map (·.pk) (fun a b h hab => h (by rw [hab])) this
  · intro id d hmem nd hnd
    have hfind : nd ∈ t.nodes ∧ nd.pk = id.pk := by
      rcases hnd with h | h
      · simp only [Tree.getNode] at h
        split at h
        · cases h
        · next n hn =>
          split at h
          · cases h
          · split at h
            · cases h
            · next h1 => cases h; exact ⟨List.mem_of_getElem? hn, by simpa using h1⟩
      · simp only [Tree.getNodeMut] at h
        split at h
        · cases h
        · next n hn =>
          split at h
          · cases h
          · split at h
            · cases h
            · next h1 => cases h; exact ⟨List.mem_of_getElem? hn, by simpa using h1⟩
    obtain ⟨x, hx, hx1, hx2⟩ := hinv.nodes nd hfind.1
    have hxe : x = (id, d) := by
      have hd := hinv.distinct
      have hpk : x.1.pk = id.pk := hx1.trans hfind.2
      exact inj_of_nodup_map _ hd hx hmem hpk
    rw [← hx2, hxe]

/-- A history with removal and reuse of a slot. -/
example : ∃ t, TRun (T := Nat) t [(⟨0, 0⟩, 10), (⟨1, 1⟩, 11), (⟨1, 2⟩, 12)] :=
  ⟨_, .add (d := 12) (par := some ⟨0, 0⟩) (.remove (fuel := 9) (id := ⟨1, 1⟩)
    (.add (d := 11) (par := some ⟨0, 0⟩) (.add (d := 10) (par := none) .new rfl) rfl) rfl) rfl⟩

/-! ### C34, C35 -/

/-! The number bounding the loops does not change what is returned. -/

section
variable {ε : Type}

theorem childrenFrom_mono {t : Tree T} : ∀ {f f' : Nat} {o : Option Nat} {L : List NodeId}, f ≤ f' →
    (t.childrenFrom f o : Res ε _) = .ok L → (t.childrenFrom f' o : Res ε _) = .ok L
  | f, f', none, L, _, h => by
    cases f <;> cases f' <;> exact h
  | 0, _, some _, L, _, h => by simp [Tree.childrenFrom] at h
  | f + 1, 0, some _, L, hf, _ => by omega
  | f + 1, f' + 1, some ix, L, hf, h => by
    simp only [Tree.childrenFrom] at h ⊢
    cases hn : t.nodes[ix]? with
    | none => simp [hn, Res.unwrapO] at h
    | some n =>
      simp only [hn, Res.unwrapO_some, Res.bind_ok] at h ⊢
      cases hc : (t.childrenFrom f n.nextSibling : Res ε _) with
      | ok L' => rw [hc] at h; rw [childrenFrom_mono (Nat.le_of_succ_le_succ hf) hc]; exact h
      | err e => simp [hc] at h
      | panic => simp [hc] at h
      | timeout => simp [hc] at h

theorem descendantsOf_mono {r r' : NodeId → Res ε (List NodeId)} (hr : ∀ c L, r c = .ok L → r' c = .ok L) :
    ∀ {cs L : List NodeId}, Tree.descendantsOf r cs = .ok L → Tree.descendantsOf r' cs = .ok L
  | [], L, h => h
  | c :: cs, L, h => by
    simp only [Tree.descendantsOf] at h ⊢
    cases hc : r c with
    | ok D =>
      rw [hr c D hc]
      rw [hc] at h
      simp only [Res.bind_ok] at h ⊢
      cases hd : Tree.descendantsOf r cs with
      | ok L' => rw [hd] at h; rw [descendantsOf_mono hr hd]; exact h
      | err e => simp [hd] at h
      | panic => simp [hd] at h
      | timeout => simp [hd] at h
    | err e => simp [hc] at h
    | panic => simp [hc] at h
    | timeout => simp [hc] at h

theorem getDescendants_mono {t : Tree T} : ∀ {f f' : Nat} {id : NodeId} {L : List NodeId}, f ≤ f' →
    (t.getDescendants f id : Res ε _) = .ok L → (t.getDescendants f' id : Res ε _) = .ok L
  | 0, _, _, _, _, h => by simp [Tree.getDescendants] at h
  | f + 1, 0, _, _, hf, _ => by omega
  | f + 1, f' + 1, id, L, hf, h => by
    simp only [Tree.getDescendants] at h ⊢
    have hch : ∀ C, (t.getChildren (f + 1) id : Res ε _) = .ok C → (t.getChildren (f' + 1) id : Res ε _) = .ok C := by
      intro C hC
      simp only [Tree.getChildren] at hC ⊢
      cases hn : t.nodes[id.ptr]? with
      | none => simp [hn, Res.unwrapO] at hC
      | some n =>
        simp only [hn, Res.unwrapO_some, Res.bind_ok] at hC ⊢
        exact childrenFrom_mono hf hC
    cases hc : (t.getChildren (f + 1) id : Res ε _) with
    | ok C =>
      rw [hch C hc]
      rw [hc] at h
      simp only [Res.bind_ok] at h ⊢
      cases hd : Tree.descendantsOf (t.getDescendants f : NodeId → Res ε _) C with
      | ok D =>
        rw [hd] at h
        rw [descendantsOf_mono (fun c L hL => getDescendants_mono (Nat.le_of_succ_le_succ hf) hL) hd]
        exact h
      | err e => simp [hd] at h
      | panic => simp [hd] at h
      | timeout => simp [hd] at h
    | err e => simp [hc] at h
    | panic => simp [hc] at h
    | timeout => simp [hc] at h

end

theorem removeBranch_mono {f f' : Nat} {id : NodeId} (hf : f ≤ f')
    (h : t.removeBranch f id = (.ok (), t')) : t.removeBranch f' id = (.ok (), t') := by
  simp only [Tree.removeBranch] at h ⊢
  cases hn : t.getNode id with
  | ok nd =>
    simp only [hn] at h ⊢
    cases hd : (t.getDescendants f id : Res TErr _) with
    | ok L =>
      rw [getDescendants_mono hf hd]
      rw [hd] at h
      exact h
    | err e => simp [hd] at h
    | panic => simp [hd] at h
    | timeout => simp [hd] at h
  | err e => simp [hn] at h
  | panic => simp [hn] at h
  | timeout => simp [hn] at h

theorem Spec.TPhases.rem (hp : TPhases t h ds) : TRem t h ds := by
  induction hp with
  | adds calls => exact (adds_rep calls .new).rem
  | @remove t t' h ds fuel i hp ha hrem ih =>
    obtain ⟨t1, h1, h2⟩ := ih.removeBranch ha.1 ha.2 (Nat.le_max_left (2 * h.length) fuel)
    have := removeBranch_mono (Nat.le_max_right (2 * h.length) fuel) hrem
    rw [h1] at this
    cases this
    exact h2

/-- **C34**, for removals after all insertions (the full property is refuted below): removing a branch whose root is
still there succeeds; afterwards its id and the ids of all its descendants are refused, every other node is still
there, and the children of every remaining node are the previous ones without the removed one.  What is missing:
histories that insert after a removal. -/
theorem C34_removed_partial (hp : TPhases t h ds) {i : Nat} (ha : Alive h ds i) :
    ∃ N, ∀ fuel, N ≤ fuel → ∃ t', t.removeBranch fuel ⟨i, i⟩ = (.ok (), t') ∧
      (∃ e, t'.getNode ⟨i, i⟩ = .err e) ∧
      (∀ j, Descendant h i j → ∃ e, t'.getNode ⟨j, j⟩ = .err e) ∧
      (∀ j p d, h[j]? = some (p, d) → Alive h ds j → j ≠ i → ¬ Descendant h i j →
        (∃ nd, t'.getNode ⟨j, j⟩ = .ok nd ∧ nd.data = d) ∧
        ∃ M, ∀ f, M ≤ f → ∃ before after, (t.getChildren f ⟨j, j⟩ : Res TErr _) = .ok before ∧
          (t'.getChildren f ⟨j, j⟩ : Res TErr _) = .ok after ∧ after = before.filter (fun c => decide (c ≠ ⟨i, i⟩))) ∧
      Observes t' h (i :: ds) := by
  have hr := hp.rem
  refine ⟨2 * h.length, fun fuel hf => ?_⟩
  obtain ⟨t', h1, h2⟩ := hr.removeBranch ha.1 ha.2 hf
  refine ⟨t', h1, ?_, ?_, ?_, h2.observes⟩
  · exact (h2.getNode_bad (id := ⟨i, i⟩) (fun hb => hb.2.2 (dead_cons.mpr (.inr (.inl rfl))))).1
  · intro j hj
    exact (h2.getNode_bad (id := ⟨j, j⟩) (fun hb => hb.2.2 (dead_cons.mpr (.inr (.inr hj))))).1
  · intro j p d hjd haj hne hnd
    have hal : ¬ Dead h (i :: ds) j := by
      rw [dead_cons]
      rintro (hc | hc | hc)
      · exact haj.2 hc
      · exact hne hc
      · exact hnd hc
    obtain ⟨nd, g1, -, -, g2, -⟩ := h2.getNode hjd hal
    refine ⟨⟨nd, g1, g2⟩, h.length, fun f hf => ?_⟩
    refine ⟨_, _, hr.getChildren haj.1 haj.2 (Nat.le_trans (TRem.kidsLeft_len h ds j) hf),
      h2.getChildren haj.1 hal (Nat.le_trans (TRem.kidsLeft_len h (i :: ds) j) hf), ?_⟩
    rw [kidsLeft_cons, List.filter_map]
    congr 1
    apply List.filter_congr
    intro a _
    simp

/-- The full **C34** is refuted: with insertions after a removal, a removed node can still be read.  After inserting
`a`, removing it, inserting `b` (which gets the id `(0, 1)`) and removing `b`, reading `b` still succeeds. -/
theorem C34_refuted (a b : T) : ∃ t1 t2 t3 t4 : Tree T, ∃ nd : TNode T,
    (Tree.new : Tree T).addNode a none = (.ok ⟨0, 0⟩, t1) ∧
    t1.removeBranch 1 ⟨0, 0⟩ = (.ok (), t2) ∧
    t2.addNode b none = (.ok ⟨0, 1⟩, t3) ∧
    t3.removeBranch 1 ⟨0, 1⟩ = (.ok (), t4) ∧
    t4.getNode ⟨0, 1⟩ = .ok nd ∧ nd.data = b :=
  ⟨_, _, _, _, _, rfl, rfl, rfl, rfl, rfl, rfl⟩

/-- A removal of a branch with two nodes below a root with two children. -/
example : ∃ t, TPhases (T := Nat) t [(none, 0), (some 0, 1), (some 0, 2), (some 1, 3)] [1] ∧
    (t.getChildren 5 ⟨0, 0⟩ : Res TErr _) = .ok [⟨2, 2⟩] := by
  refine ⟨_, .remove (fuel := 9) (i := 1) (.adds [(0, none), (1, some ⟨0, 0⟩), (2, some ⟨0, 0⟩), (3, some ⟨1, 1⟩)]) ?_ rfl,
    rfl⟩
  exact ⟨by decide, by rintro ⟨r, hr, -⟩; cases hr⟩

/-- Inserting after removals. -/
theorem TRem.addNode_once (hr : TRem t h ds) (hds : ∀ r ∈ ds, r < h.length) (d : T) (par : Option Nat)
    (hpar : ∀ q, par = some q → Alive h ds q) :
    ∃ x t', t.addNode d (par.map fun q => ⟨q, q⟩) = (.ok ⟨x, h.length⟩, t') ∧
      (x = h.length ∨ Dead h ds x) ∧ t'.free = t.free.tail ∧
      (∃ nd, t'.nodes[x]? = some nd ∧ nd.pk = h.length ∧ nd.data = d ∧ nd.nextSibling = none ∧ nd.firstChild = none) ∧
      (∀ j nd, t.nodes[j]? = some nd → j ≠ x → ∃ nd', t'.nodes[j]? = some nd' ∧ nd'.pk = nd.pk ∧ nd'.data = nd.data ∧
        (nd'.nextSibling = if (par.bind fun q => (kidsLeft h ds q).getLast?) = some j then some x else nd.nextSibling) ∧
        (nd'.firstChild = if par = some j then some (nd.firstChild.getD x) else nd.firstChild)) := by
  have hdlt : ∀ y, Dead h ds y → y < h.length := by
    rintro y ⟨r, h1, rfl | h2⟩
    · exact hds _ h1
    · exact h2.len
  -- storing the node
  have hplace : ∀ (t1 : Tree T) (n : TNode T), t1.nodes.length = t.nodes.length →
      ∃ x t2, (match t.free with | [] => t.nodes.length | i :: _ => i) = x ∧ (x = h.length ∨ Dead h ds x) ∧
        t1.placeNode (!t.free.isEmpty) x n = some t2 ∧ t2.free = t1.free ∧ t2.nodes[x]? = some n ∧
        ∀ j nd, t1.nodes[j]? = some nd → j ≠ x → t2.nodes[j]? = some nd := by
    intro t1 n hlen
    cases hf : t.free with
    | nil =>
      refine ⟨_, _, rfl, .inl hr.len, rfl, rfl, ?_, ?_⟩
      · simp [hlen]
      · intro j nd hj _
        have := (List.getElem?_eq_some_iff.mp hj).1
        simp only [List.getElem?_append_left this, hj]
    | cons i fr =>
      have hd : Dead h ds i := (hr.free i).mp (by rw [hf]; simp)
      have hlt : i < t1.nodes.length := by rw [hlen, hr.len]; exact hdlt i hd
      obtain ⟨t2, h1, h2, h3, h4, h5⟩ := updNode_some (List.getElem?_eq_getElem hlt) (fun _ => n)
      refine ⟨i, t2, rfl, .inr hd, by simpa [Tree.placeNode] using h1, h2, by rw [h5]; simp, ?_⟩
      intro j nd hj hne
      rw [h5]; simp [hne, hj]
  cases par with
  | none =>
    obtain ⟨x, t2, h1, h2, h3, h4, h5, h6⟩ :=
      hplace ⟨t.nodes, t.free.tail, t.counter + 1⟩ (TNode.new none d t.counter none) rfl
    refine ⟨x, t2, ?_, h2, h4, ⟨_, h5, hr.counter, rfl, rfl, rfl⟩, ?_⟩
    · have hc := hr.counter
      clear hplace hr
      obtain ⟨nodes, free, counter⟩ := t
      simp only at hc
      cases free <;> (simp only at h1; subst h1; simp only [Tree.addNode, Option.map_none]; rw [h3]; simp only [hc])
    · intro j nd hj hne
      exact ⟨nd, h6 j nd hj hne, rfl, rfl, by simp, by simp⟩
  | some q =>
    have hq := hpar q rfl
    obtain ⟨pn, g1, g2, g3, g4, -⟩ := hr.getNode (List.getElem?_eq_getElem hq.1) hq.2
    obtain ⟨pn', p1, -, -, p4, p5, -⟩ := hr.node q _ _ (List.getElem?_eq_getElem hq.1) hq.2
    rw [g3] at p1; cases p1
    have hqf : q ∉ t.free.tail := fun hc => hq.2 ((hr.free q).mp (List.mem_of_mem_tail hc))
    generalize hnx : (match t.free with | [] => t.nodes.length | i :: _ => i) = x
    obtain ⟨t2, u1, u2, u3, u4, u5⟩ := updNode_some (t := ⟨t.nodes, t.free.tail, t.counter + 1⟩) g3
      (fun p => { p with
            firstChild := (match p.firstChild with
              | none => some x
              | some c => some c)
            lastChild := some x })
    have hlast : ∀ l, pn.lastChild = some l → ∃ n, t2.nodes[l]? = some n := by
      intro l hl
      rw [p5] at hl
      have hm := List.mem_of_getLast? hl
      obtain ⟨h1, h2, c, h3⟩ := hr.alive_lt hq.2 hm
      rw [u5]
      split
      · exact ⟨_, rfl⟩
      · exact ⟨c, h3⟩
    obtain ⟨t3, v1, v2, v3, v4, v5⟩ := updOpt (t := t2) pn.lastChild (fun n => { n with nextSibling := some x }) hlast
    obtain ⟨x', t4, w1, w2, w3, w4, w5, w6⟩ := hplace t3 (TNode.new (some q) d t.counter pn.lastChild)
      (by rw [v4, u4])
    have hxx : x = x' := hnx.symm.trans w1
    subst hxx
    refine ⟨x, t4, ?_, w2, by rw [w4, v2, u2], ⟨_, w5, hr.counter, rfl, rfl, rfl⟩, ?_⟩
    · have hex : (⟨t.nodes, t.free.tail, t.counter⟩ : Tree T).nodeExists ⟨q, q⟩ = true := by
        simp [Tree.nodeExists, g3, hqf, hr.pks q pn g3]
      have hmut : (⟨t.nodes, t.free.tail, t.counter + 1⟩ : Tree T).getNodeMut ⟨q, q⟩ = .ok pn := by
        simp [Tree.getNodeMut, g3, hqf, hr.pks q pn g3]
      have hc := hr.counter
      clear hplace hr g1 g2 g3 hqf hlast
      obtain ⟨nodes, free, counter⟩ := t
      simp only at hc
      cases free <;>
        (simp only at hnx; subst hnx
         simp only [Tree.addNode, Option.map_some]
         rw [hex]
         simp only [Bool.not_true, Bool.false_eq_true, if_false]
         rw [hmut]
         simp only
         erw [u1]
         simp only
         clear v5 p5
         cases hl : pn.lastChild with
         | none =>
           rw [hl] at v1 w3
           simp only [Option.some.injEq] at v1
           subst v1
           simp only
           rw [w3]
           simp only [hc]
         | some l =>
           rw [hl] at v1 w3
           simp only at v1 ⊢
           rw [v1]
           simp only
           rw [w3]
           simp only [hc])
    · intro j nd hj hne
      have hj2 := u5 j
      by_cases hjq : j = q
      · subst hjq
        rw [g3] at hj; cases hj
        -- a node is not its own last child
        have hnl : pn.lastChild ≠ some j := by
          intro hc
          rw [p5] at hc
          have hm := (mem_kidsLeft.mp (List.mem_of_getLast? hc)).1
          obtain ⟨d', hd'⟩ := mem_kids.mp hm
          exact Nat.lt_irrefl _ (hr.ordered _ _ _ hd')
        have h3 := v5 j
        rw [if_neg hnl, hj2, if_pos rfl] at h3
        refine ⟨_, w6 _ _ h3 hne, rfl, rfl, ?_, ?_⟩
        · simp only [Option.bind_some]
          rw [if_neg (by rw [← p5]; exact hnl)]
        · simp only [if_true]
          cases pn.firstChild <;> rfl
      · simp only [hjq, if_false] at hj2
        rw [hj] at hj2
        have h3 := v5 j
        rw [hj2] at h3
        simp only [Option.bind_some, ← p5]
        have hpq : ¬ (some q = some j) := by simpa using Ne.symm hjq
        by_cases hl : pn.lastChild = some j
        · rw [if_pos hl] at h3
          refine ⟨_, w6 _ _ h3 hne, rfl, rfl, by simp [hl], by simp [hpq]⟩
        · rw [if_neg hl] at h3
          refine ⟨_, w6 _ _ h3 hne, rfl, rfl, by simp [hl], by simp [hpq]⟩

theorem Spec.TPhases.lt (hp : TPhases t h ds) : ∀ r ∈ ds, r < h.length := by
  induction hp with
  | adds calls => simp
  | remove hp ha _ ih =>
    intro r hr
    rcases List.mem_cons.mp hr with rfl | hr
    · exact ha.1
    · exact ih r hr

/-- **C35**, for one insertion after the removals (the full property is refuted below): after insertions followed by
removals every node that was not removed is still retrievable with its data, and a node can be added as a root or
under any such node: the call succeeds, the new id was not issued before and resolves to the new data, and all
remaining nodes keep their data.  What is missing: a second insertion after a removal. -/
theorem C35_undamaged_partial (hp : TPhases t h ds) (d : T) (par : Option Nat)
    (hpar : ∀ q, par = some q → Alive h ds q) :
    (∀ i p e, h[i]? = some (p, e) → Alive h ds i → ∃ nd, t.getNode ⟨i, i⟩ = .ok nd ∧ nd.data = e) ∧
    ∃ id t', t.addNode d (par.map fun q => ⟨q, q⟩) = (.ok id, t') ∧
      (∀ i, i < h.length → id ≠ ⟨i, i⟩) ∧
      (∃ nd, t'.getNode id = .ok nd ∧ nd.data = d) ∧
      (∀ i p e, h[i]? = some (p, e) → Alive h ds i → ∃ nd, t'.getNode ⟨i, i⟩ = .ok nd ∧ nd.data = e) := by
  have hr := hp.rem
  refine ⟨fun i p e hi ha => ?_, ?_⟩
  · obtain ⟨nd, g1, -, -, g2, -⟩ := hr.getNode hi ha.2
    exact ⟨nd, g1, g2⟩
  · obtain ⟨x, t', h1, h2, h3, ⟨nd, n1, n2, n3, -⟩, h5⟩ := hr.addNode_once hp.lt d par hpar
    have hdlt : ∀ y, Dead h ds y → y < h.length := by
      rintro y ⟨r, h1, rfl | h2⟩
      · exact hp.lt _ h1
      · exact h2.len
    have hfr : ∀ y, y ∈ t'.free → Dead h ds y := fun y hy => by
      rw [h3] at hy; exact (hr.free y).mp (List.mem_of_mem_tail hy)
    refine ⟨⟨x, h.length⟩, t', h1, ?_, ⟨nd, ?_, n3⟩, ?_⟩
    · intro i hi he
      have := congrArg NodeId.pk he
      simp only at this
      omega
    · have : h.length ∉ t'.free := fun hc => Nat.lt_irrefl _ (hdlt _ (hfr _ hc))
      simp [Tree.getNode, n1, n2, this]
    · intro i p e hi ha
      obtain ⟨nd, g1, -, g2, g3, -⟩ := hr.getNode hi ha.2
      have hne : i ≠ x := by
        rintro rfl
        rcases h2 with h2 | h2
        · exact absurd ha.1 (by omega)
        · exact ha.2 h2
      obtain ⟨nd', k1, k2, k3, -⟩ := h5 i nd g2 hne
      have : i ∉ t'.free := fun hc => ha.2 (hfr _ hc)
      refine ⟨nd', ?_, k3.trans g3⟩
      simp [Tree.getNode, k1, k2, hr.pks i nd g2, this]

/-- The full **C35** is refuted.  Removing a node releases its slot twice: after inserting and removing `a`, the
nodes `b` and `c` inserted next share one slot, so that `b`, which was never removed, is lost; and no child can be
added under `b` before that. -/
theorem C35_refuted (a b c : T) : ∃ t1 t2 t3 t4 t5 : Tree T,
    (Tree.new : Tree T).addNode a none = (.ok ⟨0, 0⟩, t1) ∧
    t1.removeBranch 1 ⟨0, 0⟩ = (.ok (), t2) ∧
    t2.addNode b none = (.ok ⟨0, 1⟩, t3) ∧
    (t3.addNode c (some ⟨0, 1⟩) = (.ok ⟨0, 2⟩, t5) ∧ t5.getNode ⟨0, 1⟩ = .err (.nodeDoesNotExist ⟨0, 1⟩)) ∧
    t3.addNode c none = (.ok ⟨0, 2⟩, t4) ∧
    t4.getNode ⟨0, 1⟩ = .err (.nodeDoesNotExist ⟨0, 1⟩) :=
  ⟨_, _, _, _, _, rfl, rfl, rfl, ⟨rfl, rfl⟩, rfl, rfl⟩

end HPP
