import Verif.Proofs.TreeRemove
import Verif.Spec.TreeObs
/-
The arena stays closed under any history of calls: every stored index denotes a slot.
-/
namespace HPP
open Spec
variable {T : Type} {t t' : Tree T} {log : List (NodeId × T)} {n : Nat}

/-- All links of a node are below `n`. -/
structure Linked (n : Nat) (nd : TNode T) : Prop where
  parent : ∀ i, nd.parent = some i → i < n
  prev : ∀ i, nd.prevSibling = some i → i < n
  next : ∀ i, nd.nextSibling = some i → i < n
  first : ∀ i, nd.firstChild = some i → i < n
  last : ∀ i, nd.lastChild = some i → i < n

theorem Linked.le {m : Nat} {nd : TNode T} (h : Linked n nd) (hm : n ≤ m) : Linked m nd :=
  ⟨fun i hi => Nat.lt_of_lt_of_le (h.parent i hi) hm, fun i hi => Nat.lt_of_lt_of_le (h.prev i hi) hm,
   fun i hi => Nat.lt_of_lt_of_le (h.next i hi) hm, fun i hi => Nat.lt_of_lt_of_le (h.first i hi) hm,
   fun i hi => Nat.lt_of_lt_of_le (h.last i hi) hm⟩

/-- The arena: every slot holds a node that was issued with the number of the slot. -/
structure Arena (n : Nat) (t : Tree T) (log : List (NodeId × T)) : Prop where
  free : ∀ i ∈ t.free, i < t.nodes.length
  links : ∀ (i : Nat) nd, t.nodes[i]? = some nd → Linked n nd
  slot : ∀ (i : Nat) nd, t.nodes[i]? = some nd → ((⟨i, nd.pk⟩ : NodeId), nd.data) ∈ log
  issued : ∀ x ∈ log, x.1.ptr < t.nodes.length

theorem Arena.le {m : Nat} (h : Arena n t log) (hm : n ≤ m) : Arena m t log :=
  ⟨h.free, fun i nd hi => (h.links i nd hi).le hm, h.slot, h.issued⟩

theorem Arena.weaken (h : Arena n t log) {fr : List Nat} (hfr : ∀ i ∈ fr, i < t.nodes.length) (c : Nat) :
    Arena n { t with free := fr, counter := c } log :=
  ⟨hfr, h.links, h.slot, h.issued⟩

theorem Arena.upd (h : Arena n t log) {i : Nat} (hi : i < t.nodes.length) {f : TNode T → TNode T}
    (hk : ∀ nd, (f nd).pk = nd.pk ∧ (f nd).data = nd.data) (hf : ∀ nd, Linked n nd → Linked n (f nd)) :
    ∃ t', t.updNode i f = some t' ∧ Arena n t' log ∧ t'.nodes.length = t.nodes.length := by
  obtain ⟨t', h1, h2, h3, h4, h5⟩ := updNode_some (List.getElem?_eq_getElem hi) f
  refine ⟨t', h1, ⟨?_, ?_, ?_, ?_⟩, h4⟩
  · rw [h2, h4]; exact h.free
  · intro j nd hj
    rw [h5] at hj
    split at hj
    · cases hj
      exact hf _ (h.links _ _ (List.getElem?_eq_getElem hi))
    · exact h.links j nd hj
  · intro j nd hj
    rw [h5] at hj
    split at hj
    · next hji =>
      cases hj
      subst hji
      rw [(hk _).1, (hk _).2]
      exact h.slot _ _ (List.getElem?_eq_getElem hi)
    · exact h.slot j nd hj
  · rw [h4]; exact h.issued

theorem Arena.updOpt (h : Arena n t log) {o : Option Nat} (ho : ∀ i, o = some i → i < t.nodes.length)
    {f : TNode T → TNode T} (hk : ∀ nd, (f nd).pk = nd.pk ∧ (f nd).data = nd.data)
    (hf : ∀ nd, Linked n nd → Linked n (f nd)) :
    ∃ t', (match o with | some s => t.updNode s f | none => some t) = some t' ∧ Arena n t' log ∧
      t'.nodes.length = t.nodes.length := by
  cases o with
  | none => exact ⟨t, rfl, h, rfl⟩
  | some i => exact h.upd (ho i rfl) hk hf

/-- The slot for the next node. -/
theorem Arena.place (h : Arena n t log) {re : Bool} {ix : Nat} {nd : TNode T} (hnd : Linked n nd)
    (hre : re = true → ix < t.nodes.length ∧ n = t.nodes.length)
    (hfr : re = false → ix = t.nodes.length ∧ n = t.nodes.length + 1) :
    ∃ t', t.placeNode re ix nd = some t' ∧ Arena t'.nodes.length t' (log ++ [(⟨ix, nd.pk⟩, nd.data)]) := by
  cases re with
  | true =>
    obtain ⟨hlt, rfl⟩ := hre rfl
    obtain ⟨t', h1, h2, h3, h4, h5⟩ := updNode_some (List.getElem?_eq_getElem hlt) (fun _ => nd)
    refine ⟨t', by simpa [Tree.placeNode] using h1, ⟨?_, ?_, ?_, ?_⟩⟩
    · rw [h2, h4]; exact h.free
    · intro j nd' hj
      rw [h5] at hj
      rw [h4]
      split at hj
      · cases hj; exact hnd
      · exact h.links j nd' hj
    · intro j nd' hj
      rw [h5] at hj
      split at hj
      · next hji => cases hj; subst hji; simp
      · exact List.mem_append_left _ (h.slot j nd' hj)
    · intro x hx
      rw [h4]
      rcases List.mem_append.1 hx with hx | hx
      · exact h.issued x hx
      · simp only [List.mem_singleton] at hx; subst hx; exact hlt
  | false =>
    obtain ⟨rfl, rfl⟩ := hfr rfl
    refine ⟨{ t with nodes := t.nodes ++ [nd] }, rfl, ⟨?_, ?_, ?_, ?_⟩⟩
    · intro i hi
      simp only [List.length_append, List.length_singleton]
      exact Nat.lt_succ_of_lt (h.free i hi)
    · intro j nd' hj
      simp only [List.length_append, List.length_singleton]
      simp only [List.getElem?_append] at hj
      split at hj
      · exact h.links j nd' hj
      · have := List.mem_of_getElem? hj
        simp only [List.mem_singleton] at this
        subst this; exact hnd
    · intro j nd' hj
      simp only [List.getElem?_append] at hj
      split at hj
      · exact List.mem_append_left _ (h.slot j nd' hj)
      · next hji =>
        have hm := List.mem_of_getElem? hj
        simp only [List.mem_singleton] at hm
        subst hm
        have hlt := (List.getElem?_eq_some_iff.1 hj).1
        simp only [List.length_singleton] at hlt
        have : j = t.nodes.length := by omega
        subst this; simp
    · intro x hx
      simp only [List.length_append, List.length_singleton]
      rcases List.mem_append.1 hx with hx | hx
      · exact Nat.lt_succ_of_lt (h.issued x hx)
      · simp only [List.mem_singleton] at hx; subst hx; exact Nat.lt_succ_self _

theorem getNode_at {id : NodeId} {nd : TNode T} (h : t.getNode id = .ok nd) :
    t.nodes[id.ptr]? = some nd ∧ nd.pk = id.pk := by
  simp only [Tree.getNode] at h
  split at h
  · cases h
  · next m hm =>
    split at h
    · cases h
    · split at h
      · cases h
      · next h1 => cases h; exact ⟨hm, by simpa using h1⟩

theorem getNodeMut_at {id : NodeId} {nd : TNode T} (h : t.getNodeMut id = .ok nd) :
    t.nodes[id.ptr]? = some nd ∧ nd.pk = id.pk := by
  simp only [Tree.getNodeMut] at h
  split at h
  · cases h
  · next m hm =>
    split at h
    · cases h
    · split at h
      · cases h
      · next h1 => cases h; exact ⟨hm, by simpa using h1⟩

theorem getNodeMut_returns (t : Tree T) (id : NodeId) :
    (∃ nd, t.getNodeMut id = .ok nd) ∨ ∃ e, t.getNodeMut id = .err e := by
  simp only [Tree.getNodeMut]
  split
  · exact .inr ⟨_, rfl⟩
  · split
    · exact .inr ⟨_, rfl⟩
    · split
      · exact .inr ⟨_, rfl⟩
      · exact .inl ⟨_, rfl⟩

theorem getNode_returns (t : Tree T) (id : NodeId) :
    (∃ nd, t.getNode id = .ok nd) ∨ ∃ e, t.getNode id = .err e := by
  simp only [Tree.getNode]
  split
  · exact .inr ⟨_, rfl⟩
  · split
    · exact .inr ⟨_, rfl⟩
    · split
      · exact .inr ⟨_, rfl⟩
      · exact .inl ⟨_, rfl⟩

/-- The body of `add_node` for a given slot. -/
def addAt (t : Tree T) (reused : Bool) (next : Nat) (data : T) (parent : Option NodeId) : Res TErr NodeId × Tree T :=
  let t0 : Tree T := { t with free := t.free.tail }
  match parent with
  | none =>
    let pk := t0.counter
    let t1 := { t0 with counter := t0.counter + 1 }
    match t1.placeNode reused next (TNode.new none data pk none) with
    | none => (.panic, t1)
    | some t2 => (.ok ⟨next, pk⟩, t2)
  | some pid =>
    if !t0.nodeExists pid then (.err (.nodeDoesNotExist pid), t0)
    else
      let pk := t0.counter
      let t1 := { t0 with counter := t0.counter + 1 }
      match t1.getNodeMut pid with
      | .err e => (.err e, t1)
      | .panic => (.panic, t1)
      | .timeout => (.timeout, t1)
      | .ok pn =>
        match t1.updNode pid.ptr (fun p =>
          { p with
            firstChild := (match p.firstChild with
              | none => some next
              | some c => some c)
            lastChild := some next }) with
        | none => (.panic, t1)
        | some t2 =>
          match (match pn.lastChild with
            | some lci => t2.updNode lci (fun n => { n with nextSibling := some next })
            | none => some t2) with
          | none => (.panic, t2)
          | some t3 =>
            match t3.placeNode reused next (TNode.new (some pid.ptr) data pk pn.lastChild) with
            | none => (.panic, t3)
            | some t4 => (.ok ⟨next, pk⟩, t4)

theorem addNode_at (t : Tree T) (d : T) (par : Option NodeId) :
    t.addNode d par = addAt t (!t.free.isEmpty) (match t.free with | [] => t.nodes.length | i :: _ => i) d par := by
  obtain ⟨nodes, free, counter⟩ := t
  cases free <;> cases par <;> rfl

/-- `add_node` keeps the arena closed, and returns. -/
theorem Arena.addNode (h : Arena t.nodes.length t log) (d : T) (par : Option NodeId) :
    (∃ id t', t.addNode d par = (.ok id, t') ∧ Arena t'.nodes.length t' (log ++ [(id, d)])) ∨
    (∃ e t', t.addNode d par = (.err e, t') ∧ Arena t'.nodes.length t' log) := by
  have htail : ∀ i ∈ t.free.tail, i < t.nodes.length := fun i hi => h.free i (List.mem_of_mem_tail hi)
  have hslot : ∃ (re : Bool) (next n : Nat), (!t.free.isEmpty) = re ∧
      (match t.free with | [] => t.nodes.length | i :: _ => i) = next ∧ t.nodes.length ≤ n ∧ next < n ∧
      (re = true → next < t.nodes.length ∧ n = t.nodes.length) ∧
      (re = false → next = t.nodes.length ∧ n = t.nodes.length + 1) := by
    cases hf : t.free with
    | nil => exact ⟨false, _, t.nodes.length + 1, rfl, rfl, by omega, by simp, by simp, by simp⟩
    | cons i fr =>
      have := h.free i (by rw [hf]; simp)
      exact ⟨true, _, t.nodes.length, rfl, rfl, by omega, this, by simp [this], by simp⟩
  obtain ⟨re, next, n, hre, hnx, hn1, hn2, hp1, hp2⟩ := hslot
  rw [addNode_at, hre, hnx]
  simp only [addAt]
  cases par with
  | none =>
    have h1 := (h.weaken htail (t.counter + 1)).le hn1
    obtain ⟨t', q1, q2⟩ := h1.place (nd := TNode.new none d t.counter none) (re := re) (ix := next)
      (by constructor <;> (intro i hi; cases hi)) hp1 hp2
    refine .inl ⟨⟨next, t.counter⟩, t', ?_, q2⟩
    simp only
    rw [q1]
  | some pid =>
    simp only
    split
    · exact .inr ⟨_, _, rfl, h.weaken htail _⟩
    · rcases getNodeMut_returns ⟨t.nodes, t.free.tail, t.counter + 1⟩ pid with ⟨pn, hpn⟩ | ⟨e, he⟩
      · rw [hpn]
        simp only
        obtain ⟨hpt, -⟩ := getNodeMut_at hpn
        simp only at hpt
        have hplt := (List.getElem?_eq_some_iff.1 hpt).1
        have hpl := h.links _ _ hpt
        have h1 := (h.weaken htail (t.counter + 1)).le hn1
        obtain ⟨t2, u1, u2, u3⟩ := h1.upd (i := pid.ptr) (f := fun p : TNode T => { p with
            firstChild := (match p.firstChild with
              | none => some next
              | some c => some c)
            lastChild := some next }) hplt (fun _ => ⟨rfl, rfl⟩) (by
          intro p hp
          refine ⟨hp.parent, hp.prev, hp.next, ?_, ?_⟩
          · intro i hi
            simp only at hi
            cases hc : p.firstChild with
            | none => rw [hc] at hi; simp only [Option.some.injEq] at hi; omega
            | some c => rw [hc] at hi; exact hp.first i (hc.trans hi)
          · intro i hi
            simp only [Option.some.injEq] at hi; omega)
        rw [u1]
        simp only
        obtain ⟨t3, v1, v2, v3⟩ := u2.updOpt (o := pn.lastChild)
          (f := fun p : TNode T => { p with nextSibling := some next })
          (by intro i hi; rw [u3]; exact hpl.last i hi) (fun _ => ⟨rfl, rfl⟩) (by
          intro p hp
          refine ⟨hp.parent, hp.prev, ?_, hp.first, hp.last⟩
          intro i hi
          simp only [Option.some.injEq] at hi; omega)
        have hlen : t3.nodes.length = t.nodes.length := v3.trans u3
        obtain ⟨t4, w1, w2⟩ := v2.place (nd := TNode.new (some pid.ptr) d t.counter pn.lastChild) (re := re)
          (ix := next) (by
            constructor
            · intro i hi; cases hi; exact Nat.lt_of_lt_of_le hplt hn1
            · intro i hi; exact Nat.lt_of_lt_of_le (hpl.last i hi) hn1
            all_goals (intro i hi; cases hi)) (by rw [hlen]; exact hp1) (by rw [hlen]; exact hp2)
        refine .inl ⟨⟨next, t.counter⟩, t4, ?_, w2⟩
        cases hl : pn.lastChild with
        | none =>
          rw [hl] at v1 w1
          simp only [Option.some.injEq] at v1
          subst v1
          simp only
          rw [w1]
        | some l =>
          rw [hl] at v1 w1
          simp only at v1 ⊢
          rw [v1]
          simp only
          rw [w1]
      · rw [he]
        exact .inr ⟨_, _, rfl, h.weaken htail _⟩

section
variable {ε : Type}

/-- What the children loop returns. -/
theorem Arena.childrenFrom (h : Arena t.nodes.length t log) : ∀ (fuel : Nat) (o : Option Nat),
    (∀ i, o = some i → i < t.nodes.length) →
    (∃ L : List NodeId, (t.childrenFrom fuel o : Res ε _) = .ok L ∧ ∀ c ∈ L, c.ptr < t.nodes.length) ∨
      (t.childrenFrom fuel o : Res ε _) = .timeout
  | fuel, none, _ => .inl ⟨[], by cases fuel <;> rfl, by simp⟩
  | 0, some _, _ => .inr rfl
  | fuel + 1, some i, ho => by
    have hi := ho i rfl
    have hg := List.getElem?_eq_getElem hi
    simp only [Tree.childrenFrom, hg, Res.unwrapO_some, Res.bind_ok]
    rcases h.childrenFrom fuel _ (h.links _ _ hg).next with ⟨L, h1, h2⟩ | h1
    · rw [h1]
      refine .inl ⟨_, rfl, ?_⟩
      intro c hc
      rcases List.mem_cons.1 hc with rfl | hc
      · exact hi
      · exact h2 c hc
    · rw [h1]; exact .inr rfl

theorem Arena.getChildren (h : Arena t.nodes.length t log) (fuel : Nat) (id : NodeId) (hid : id.ptr < t.nodes.length) :
    (∃ L : List NodeId, (t.getChildren fuel id : Res ε _) = .ok L ∧ ∀ c ∈ L, c.ptr < t.nodes.length) ∨
      (t.getChildren fuel id : Res ε _) = .timeout := by
  have hg := List.getElem?_eq_getElem hid
  simp only [Tree.getChildren, hg, Res.unwrapO_some, Res.bind_ok]
  exact h.childrenFrom fuel _ (h.links _ _ hg).first

theorem descendantsOf_closed {m : Nat} {r : NodeId → Res ε (List NodeId)}
    (hr : ∀ c : NodeId, c.ptr < m → (∃ L : List NodeId, r c = .ok L ∧ ∀ x ∈ L, x.ptr < m) ∨ r c = .timeout) :
    ∀ cs : List NodeId, (∀ c ∈ cs, c.ptr < m) →
      (∃ L : List NodeId, Tree.descendantsOf r cs = .ok L ∧ ∀ x ∈ L, x.ptr < m) ∨ Tree.descendantsOf r cs = .timeout
  | [], _ => .inl ⟨[], rfl, by simp⟩
  | c :: cs, hc => by
    simp only [Tree.descendantsOf]
    rcases hr c (hc c (by simp)) with ⟨L, h1, h2⟩ | h1
    · rw [h1]
      simp only [Res.bind_ok]
      rcases descendantsOf_closed hr cs (fun x hx => hc x (List.mem_cons_of_mem _ hx)) with ⟨L', h3, h4⟩ | h3
      · rw [h3]
        refine .inl ⟨_, rfl, fun x hx => ?_⟩
        rcases List.mem_append.1 hx with hx | hx
        · exact h2 x hx
        · exact h4 x hx
      · rw [h3]; exact .inr rfl
    · rw [h1]; exact .inr rfl

theorem Arena.getDescendants (h : Arena t.nodes.length t log) : ∀ (fuel : Nat) (id : NodeId),
    id.ptr < t.nodes.length →
    (∃ L : List NodeId, (t.getDescendants fuel id : Res ε _) = .ok L ∧ ∀ c ∈ L, c.ptr < t.nodes.length) ∨
      (t.getDescendants fuel id : Res ε _) = .timeout
  | 0, _, _ => .inr rfl
  | fuel + 1, id, hid => by
    simp only [Tree.getDescendants]
    rcases h.getChildren (ε := ε) (fuel + 1) id hid with ⟨C, h1, h2⟩ | h1
    · rw [h1]
      simp only [Res.bind_ok]
      rcases descendantsOf_closed (fun c hc => h.getDescendants fuel c hc) C h2 with ⟨L, h3, h4⟩ | h3
      · rw [h3]
        refine .inl ⟨_, rfl, fun x hx => ?_⟩
        rcases List.mem_append.1 hx with hx | hx
        · exact h2 x hx
        · exact h4 x hx
      · rw [h3]; exact .inr rfl
    · rw [h1]; exact .inr rfl

theorem Arena.nthFrom (h : Arena t.nodes.length t log) : ∀ (k : Nat) (o : Option Nat),
    (∀ i, o = some i → i < t.nodes.length) →
    (∃ (i : Nat) (nd : TNode T), t.nodes[i]? = some nd ∧ (t.nthFrom k o : Res ε _) = .ok (some nd)) ∨
      (t.nthFrom k o : Res ε _) = .ok none
  | k, none, _ => .inr (by cases k <;> rfl)
  | k, some i, ho => by
    have hi := ho i rfl
    have hg := List.getElem?_eq_getElem hi
    cases k with
    | zero =>
      simp only [Tree.nthFrom, hg, Res.unwrapO_some, Res.bind_ok]
      exact .inl ⟨_, _, hg, rfl⟩
    | succ k =>
      simp only [Tree.nthFrom, hg, Res.unwrapO_some, Res.bind_ok]
      exact h.nthFrom k _ (h.links _ _ hg).next

end

theorem Arena.byPathFrom (h : Arena t.nodes.length t log) : ∀ (ns : List Nat) (i : Nat) (nd : TNode T),
    t.nodes[i]? = some nd →
    (∃ (j : Nat) (nd' : TNode T), t.nodes[j]? = some nd' ∧ t.byPathFrom ns nd = .ok (some nd')) ∨ t.byPathFrom ns nd = .ok none
  | [], i, nd, hi => .inl ⟨i, nd, hi, rfl⟩
  | k :: ns, i, nd, hi => by
    simp only [Tree.byPathFrom, Tree.getNthChildOrNone]
    rcases h.nthFrom (ε := TErr) k _ (h.links _ _ hi).first with ⟨j, c, h1, h2⟩ | h2
    · rw [h2]
      simp only [Res.bind_ok]
      exact h.byPathFrom ns j c h1
    · rw [h2]
      exact .inr rfl

/-- Taking a node out of the arena keeps it closed. -/
theorem Arena.unlink (h : Arena t.nodes.length t log) {ptr : Nat} {nd : TNode T} {L : List Nat}
    (hp : t.nodes[ptr]? = some nd) (hL : ∀ i ∈ L, i < t.nodes.length) :
    ∃ t', t.unlink ptr nd L = some t' ∧ Arena t'.nodes.length t' log := by
  have hl := h.links _ _ hp
  have hlt := (List.getElem?_eq_some_iff.1 hp).1
  rw [unlink_eq]
  obtain ⟨t1, a1, a2, a3⟩ := h.updOpt (o := nd.parent) (f := fun pn : TNode T =>
        { pn with
          firstChild := if pn.firstChild = some ptr then nd.nextSibling else pn.firstChild
          lastChild := if pn.lastChild = some ptr then nd.prevSibling else pn.lastChild }) hl.parent
    (fun _ => ⟨rfl, rfl⟩) (by
      intro p hp
      refine ⟨hp.parent, hp.prev, hp.next, ?_, ?_⟩
      · intro i hi
        simp only at hi
        split at hi
        · exact hl.next i hi
        · exact hp.first i hi
      · intro i hi
        simp only at hi
        split at hi
        · exact hl.prev i hi
        · exact hp.last i hi)
  obtain ⟨t2, b1, b2, b3⟩ := a2.updOpt (o := nd.prevSibling)
    (f := fun p : TNode T => { p with nextSibling := nd.nextSibling })
    (by rw [a3]; exact hl.prev) (fun _ => ⟨rfl, rfl⟩)
    (fun p hp => ⟨hp.parent, hp.prev, hl.next, hp.first, hp.last⟩)
  obtain ⟨t3, c1, c2, c3⟩ := b2.updOpt (o := nd.nextSibling)
    (f := fun p : TNode T => { p with prevSibling := nd.prevSibling })
    (by rw [b3, a3]; exact hl.next) (fun _ => ⟨rfl, rfl⟩)
    (fun p hp => ⟨hp.parent, hl.prev, hp.next, hp.first, hp.last⟩)
  have hlen : t3.nodes.length = t.nodes.length := c3.trans (b3.trans a3)
  refine ⟨{ t3 with free := (L ++ [ptr, ptr]).reverse ++ t3.free }, ?_, ?_⟩
  · refine Option.bind_eq_some_iff.2 ⟨t1, ?_, Option.bind_eq_some_iff.2 ⟨t2, ?_,
      Option.bind_eq_some_iff.2 ⟨t3, ?_, rfl⟩⟩⟩
    · rw [← a1]; cases nd.parent <;> rfl
    · rw [← b1]; cases nd.prevSibling <;> rfl
    · rw [← c1]; cases nd.nextSibling <;> rfl
  · refine (c2.le (by rw [hlen]; exact Nat.le_refl _)).weaken (c := t3.counter) (fun i hi => ?_)
    rw [List.mem_append, List.mem_reverse, List.mem_append] at hi
    rw [hlen]
    rcases hi with (hi | hi) | hi
    · exact hL i hi
    · simp only [List.mem_cons, List.not_mem_nil, or_false, or_self] at hi
      subst hi; exact hlt
    · rw [← hlen]; exact c2.free i hi

/-- `remove_branch` keeps the arena closed. -/
theorem Arena.removeBranch (h : Arena t.nodes.length t log) (fuel : Nat) (id : NodeId) :
    (t.removeBranch fuel id).1 ≠ .panic ∧
      Arena (t.removeBranch fuel id).2.nodes.length (t.removeBranch fuel id).2 log := by
  simp only [Tree.removeBranch]
  rcases getNode_returns t id with ⟨nd, hn⟩ | ⟨e, he⟩
  · rw [hn]
    obtain ⟨hp, -⟩ := getNode_at hn
    have hlt := (List.getElem?_eq_some_iff.1 hp).1
    simp only
    rcases h.getDescendants (ε := TErr) fuel id hlt with ⟨L, h1, h2⟩ | h1
    · rw [h1]
      simp only
      obtain ⟨t', u1, u2⟩ := h.unlink (L := L.map (·.ptr)) hp (by
        intro i hi
        obtain ⟨c, hc, rfl⟩ := List.mem_map.1 hi
        exact h2 c hc)
      rw [u1]
      exact ⟨by simp, u2⟩
    · rw [h1]
      exact ⟨by simp, h⟩
  · rw [he]
    exact ⟨by simp, h⟩

theorem Spec.TRun.arena (hrun : TRun t log) : Arena t.nodes.length t log := by
  induction hrun with
  | new => exact ⟨by simp [Tree.new], by simp [Tree.new], by simp [Tree.new], by simp⟩
  | @add t t' log d par id _ ha ih =>
    rcases ih.addNode d par with ⟨id', t1, h1, h2⟩ | ⟨e, t1, h1, -⟩
    · rw [ha] at h1; cases h1; exact h2
    · rw [ha] at h1; cases h1
  | @addErr t t' log d par e _ ha ih =>
    rcases ih.addNode d par with ⟨id', t1, h1, -⟩ | ⟨e, t1, h1, h2⟩
    · rw [ha] at h1; cases h1
    · rw [ha] at h1; cases h1; exact h2
  | @remove t t' log fuel id _ ha ih =>
    have := (ih.removeBranch fuel id).2
    rw [ha] at this; exact this
  | @removeErr t t' log fuel id e _ ha ih =>
    have := (ih.removeBranch fuel id).2
    rw [ha] at this; exact this

end HPP
