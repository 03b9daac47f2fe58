import Verif.Spec.Walk
import Verif.Proofs.TreeSafe
import Verif.Proofs.VmIndep
/-
The parse without tree and virtual machine, and how far a virtual machine can influence a parse.
-/
namespace HPP
open Spec
variable {I S : Type}

/-! ### reading only -/

/-- The loop over the elements, without tree. -/
def readElements (P : Parser I) (rec : Nat → SM Proc PErr Unit) : List Nat → SM Proc PErr Unit
  | [] => pure ()
  | e :: es => do
    let el ← SM.lift (Res.unwrapO P.elements[e]?)
    match el.et with
    | .terminal => do
      let _ ← parseScriptTerminal el.name
      readElements P rec es
    | .nonTerminal => do
      rec e
      readElements P rec es

/-- `parse_production` without tree and VM. -/
def readProduction (ho : HashOrder) (P : Parser I) : Nat → Nat → SM Proc PErr Unit
  | 0, _ => SM.lift .timeout
  | fuel + 1, el => do
    let cur ← (fun p => let (c, p1) := p.peek; (.ok (SetMember.ofPeek c), p1) : SM Proc PErr SetMember)
    let _ ← (SM.lift (Res.ofOption (AMap.get P.rules el) (PErr.gram (.missingProduction el))) : SM Proc PErr (NTRules I))
    let prod ← getFittingProduction ho P el cur
    match prod with
    | .notEmpty els => readElements P (readProduction ho P fuel) els
    | .empty => pure ()

/-! ### trees without free slots -/

/-- No slot is free and all links stay inside. -/
def Full (t : Tree Str) : Prop := t.free = [] ∧ ∃ log, Arena t.nodes.length t log

/-- What is there stays there. -/
def Stay (t t' : Tree Str) : Prop := ∀ id, t.nodeExists id = true → t'.nodeExists id = true

theorem Stay.refl (t : Tree Str) : Stay t t := fun _ h => h
theorem Stay.trans {a b c : Tree Str} (h1 : Stay a b) (h2 : Stay b c) : Stay a c := fun id h => h2 id (h1 id h)

theorem Full.new : Full (Tree.new : Tree Str) :=
  ⟨rfl, [], ⟨by simp [Tree.new], by simp [Tree.new], by simp [Tree.new], by simp⟩⟩

theorem exists_iff {t : Tree Str} (h : t.free = []) (id : NodeId) :
    t.nodeExists id = true ↔ (t.nodes.map (·.pk))[id.ptr]? = some id.pk := by
  simp only [Tree.nodeExists, h, List.getElem?_map]
  cases t.nodes[id.ptr]? with
  | none => simp
  | some n => simp

theorem stay_of_pks {t t' : Tree Str} (h : t.free = []) (h' : t'.free = []) {l : List Nat}
    (hp : t'.nodes.map (·.pk) = t.nodes.map (·.pk) ++ l) : Stay t t' := by
  intro id hid
  rw [exists_iff h] at hid
  rw [exists_iff h', hp, List.getElem?_append_left (List.getElem?_eq_some_iff.1 hid).1]
  exact hid

theorem updNode_pks {t t' : Tree Str} {i : Nat} {f : TNode Str → TNode Str} (hf : ∀ nd, (f nd).pk = nd.pk)
    (h : t.updNode i f = some t') : t'.nodes.map (·.pk) = t.nodes.map (·.pk) ∧ t'.free = t.free ∧
      t'.nodes.length = t.nodes.length := by
  simp only [Tree.updNode] at h
  split at h
  · cases h
  · next n hn =>
    cases h
    refine ⟨?_, rfl, by simp⟩
    simp only
    rw [List.map_set, hf]
    apply List.ext_getElem?
    intro j
    rw [List.getElem?_set]
    split
    · next hj =>
      subst hj
      rw [List.getElem?_map, hn]
      simp [(List.getElem?_eq_some_iff.1 hn).1]
    · rfl

theorem addFull {t : Tree Str} (hf : t.free = []) (d : Str) (par : Option NodeId) :
    ((t.addNode d par).1 = .ok ⟨t.nodes.length, t.counter⟩ ∧ (t.addNode d par).2.free = [] ∧
      (t.addNode d par).2.nodes.map (·.pk) = t.nodes.map (·.pk) ++ [t.counter]) ∨
    ((∃ e, (t.addNode d par).1 = .err e) ∧ (t.addNode d par).2.free = [] ∧
      (t.addNode d par).2.nodes = t.nodes ∧ ∃ pid, par = some pid ∧ t.nodeExists pid = false) ∨
    (t.addNode d par).1 = .panic := by
  rw [addNode_at]
  obtain ⟨nodes, free, counter⟩ := t
  simp only at hf
  subst hf
  simp only [List.isEmpty_nil, Bool.not_true]
  cases par with
  | none =>
    left
    simp [addAt, Tree.placeNode, TNode.new]
  | some pid =>
    simp only [addAt, List.tail_nil]
    by_cases hex : (⟨nodes, [], counter⟩ : Tree Str).nodeExists pid = true
    · simp only [hex, Bool.not_true, Bool.false_eq_true, if_false]
      split
      · next e he =>
        exfalso
        rw [exists_iff rfl, List.getElem?_map] at hex
        simp only [Tree.getNodeMut, List.not_mem_nil, if_false] at he
        cases hn : nodes[pid.ptr]? with
        | none => rw [hn] at hex; cases hex
        | some n =>
          rw [hn] at hex he
          simp only [Option.map_some, Option.some.injEq] at hex
          simp [hex] at he
      · exact .inr (.inr rfl)
      · next he =>
        exfalso
        rcases getNodeMut_returns (⟨nodes, [], counter + 1⟩ : Tree Str) pid with ⟨nd, h⟩ | ⟨e, h⟩
        · rw [h] at he; cases he
        · rw [h] at he; cases he
      · next pn hpn =>
        split
        · exact .inr (.inr rfl)
        · next t2 h2 =>
          obtain ⟨k1, k2, k3⟩ := updNode_pks (f := fun p => { p with
            firstChild := (match p.firstChild with
              | none => some nodes.length
              | some c => some c)
            lastChild := some nodes.length }) (fun _ => rfl) h2
          split
          · exact .inr (.inr rfl)
          · next t3 h3 =>
            have h3' : t3.nodes.map (·.pk) = t2.nodes.map (·.pk) ∧ t3.free = t2.free := by
              split at h3
              · obtain ⟨a, b, -⟩ := updNode_pks (f := fun n => { n with nextSibling := some nodes.length }) (fun _ => rfl) h3
                exact ⟨a, b⟩
              · cases h3; exact ⟨rfl, rfl⟩
            simp only [Tree.placeNode, Bool.false_eq_true, if_false]
            left
            refine ⟨trivial, ?_, ?_⟩
            · rw [h3'.2, k2]
            · simp only [List.map_append, List.map_cons, List.map_nil, TNode.new]
              rw [h3'.1, k1]
    · have hex' : (⟨nodes, [], counter⟩ : Tree Str).nodeExists pid = false := by simpa using hex
      simp only [hex', Bool.not_false, if_true]
      exact .inr (.inl ⟨⟨_, rfl⟩, trivial, trivial, pid, rfl, hex'⟩)

/-- Adding to a full tree. -/
theorem Full.addNode {t : Tree Str} (h : Full t) (d : Str) (par : Option NodeId) :
    (∃ id t', t.addNode d par = (.ok id, t') ∧ Full t' ∧ Stay t t' ∧ t'.nodeExists id = true) ∨
    (∃ e t', t.addNode d par = (.err e, t') ∧ Full t' ∧ Stay t t' ∧ ∃ pid, par = some pid ∧ t.nodeExists pid = false) := by
  obtain ⟨hf, log, ha⟩ := h
  have hsafe := ha.addNode d par
  have hadd := addFull hf d par
  rcases hsafe with ⟨id, t', h1, h2⟩ | ⟨e, t', h1, h2⟩
  · left
    rw [h1] at hadd
    rcases hadd with ⟨k1, k2, k3⟩ | ⟨⟨e, k1⟩, -⟩ | k1
    · simp only [Res.ok.injEq] at k1 k2 k3
      refine ⟨id, t', h1, ⟨k2, _, h2⟩, stay_of_pks hf k2 k3, ?_⟩
      rw [exists_iff k2, k3, k1, List.getElem?_append_right (by simp)]
      simp
    · cases k1
    · cases k1
  · right
    rw [h1] at hadd
    rcases hadd with ⟨k1, -⟩ | ⟨⟨e', k1⟩, k2, k3, k4⟩ | k1
    · cases k1
    · simp only at k2 k3
      exact ⟨e, t', h1, ⟨k2, _, h2⟩, stay_of_pks hf k2 (l := []) (by rw [k3, List.append_nil]), k4⟩
    · cases k1

/-- Changing data in a full tree. -/
theorem Full.setData {t : Tree Str} (h : Full t) {id : NodeId} {nd : TNode Str} (hg : t.getNodeMut id = .ok nd) (d : Str) :
    Full { t with nodes := t.nodes.set id.ptr { nd with data := d } } ∧
    Stay t { t with nodes := t.nodes.set id.ptr { nd with data := d } } := by
  obtain ⟨hf, log, ha⟩ := h
  obtain ⟨h1, h2⟩ := getNodeMut_at hg
  have hlt := (List.getElem?_eq_some_iff.1 h1).1
  refine ⟨⟨hf, log ++ [(id, d)], ?_⟩, ?_⟩
  · refine ⟨?_, ?_, ?_, ?_⟩
    · intro i hi; simp only [hf] at hi; cases hi
    · intro i m hm
      simp only [List.length_set] at hm ⊢
      rw [List.getElem?_set] at hm
      split at hm
      · simp only [Option.some.injEq] at hm
        subst hm
        have := ha.links _ _ h1
        exact ⟨this.parent, this.prev, this.next, this.first, this.last⟩
      · exact ha.links i m hm
    · intro i m hm
      simp only at hm
      rw [List.getElem?_set] at hm
      split at hm
      · next hi =>
        simp only [Option.some.injEq] at hm
        subst hm
        simp only
        rw [h2, ← hi]
        exact List.mem_append_right _ (List.mem_singleton.2 rfl)
      · exact List.mem_append_left _ (ha.slot i m hm)
    · intro x hx
      simp only [List.length_set]
      rcases List.mem_append.1 hx with hx | hx
      · exact ha.issued x hx
      · rw [List.mem_singleton] at hx
        subst hx
        exact hlt
  · refine stay_of_pks hf hf (l := []) ?_
    rw [List.append_nil]
    simp only
    rw [List.map_set]
    apply List.ext_getElem?
    intro j
    rw [List.getElem?_set]
    split
    · next hj =>
      subst hj
      rw [List.getElem?_map, h1]
      simp [hlt]
    · rfl

theorem Full.grown {t t' : Tree Str} (h : Full t) (hg : Grown t t') : Full t' ∧ Stay t t' := by
  induction hg with
  | refl => exact ⟨h, .refl _⟩
  | @add t1 t2 d par r _ ha ih =>
    obtain ⟨f1, s1⟩ := ih
    rcases f1.addNode d par with ⟨id, t', k1, k2, k3, -⟩ | ⟨e, t', k1, k2, k3, -⟩
    · rw [ha] at k1; cases k1; exact ⟨k2, s1.trans k3⟩
    · rw [ha] at k1; cases k1; exact ⟨k2, s1.trans k3⟩
  | @set t1 id nd d _ hm ih =>
    obtain ⟨f1, s1⟩ := ih
    obtain ⟨f2, s2⟩ := f1.setData hm d
    exact ⟨f2, s1.trans s2⟩

/-! ### the simulation -/

/-- What a virtual machine can cause: a panic or a tree error. -/
def VmTrouble {α : Type} : Res PErr α → Prop
  | .panic => True
  | .err (.tree _) => True
  | _ => False

theorem vmTrouble_err {α β : Type} {e : PErr} (h : VmTrouble (.err e : Res PErr α)) : VmTrouble (.err e : Res PErr β) := by
  cases e <;> first | exact trivial | exact h.elim

/-- The same outcome and the same text read. -/
def SameOut {α β : Type} (o : Res PErr α × Ctx S) (o' : Res PErr β × Proc) : Prop :=
  outcome o.1 = outcome o'.1 ∧ o.2.proc = o'.2

/-- The part of the parse `m`, adding under `par`, reads like `q`, if the VM does not interfere. -/
def ASim (g : Prop) (par : Option NodeId) {α β : Type} (m : SM (Ctx S) PErr α) (q : SM Proc PErr β) : Prop :=
  ∀ c, (VmTrouble (m c).1 ∨ SameOut (m c) (q c.proc)) ∧
    (g → Full c.tree → (∀ id, par = some id → c.tree.nodeExists id = true) →
      SameOut (m c) (q c.proc) ∧ Full (m c).2.tree ∧ Stay c.tree (m c).2.tree)

theorem ASim.bindEq {g : Prop} {par : Option NodeId} {α β : Type} {m : SM (Ctx S) PErr α} {q : SM Proc PErr α}
    {f : α → SM (Ctx S) PErr β} {k : α → SM Proc PErr Unit} (h : ASim g par m q)
    (hv : ∀ c a b, (m c).1 = .ok a → (q c.proc).1 = .ok b → a = b)
    (hf : ∀ a, ASim g par (f a) (k a)) : ASim g par (m >>= f) (q >>= k) := by
  intro c
  obtain ⟨h1, h2⟩ := h c
  have hv := hv c
  simp only [SM.bind_apply]
  rcases hm : m c with ⟨r, c1⟩
  rcases hq : q c.proc with ⟨r', p1⟩
  rw [hm, hq] at h1 h2
  rw [hm, hq] at hv
  simp only at hv
  cases r with
  | ok a =>
    have hs : SameOut (Res.ok a, c1) (r', p1) := by
      rcases h1 with h1 | h1
      · exact h1.elim
      · exact h1
    obtain ⟨k1, k2⟩ := hs
    simp only at k1 k2
    cases r' with
    | ok b =>
      have := hv a b rfl rfl
      subst this
      subst k2
      simp only
      obtain ⟨f1, f2⟩ := hf a c1
      refine ⟨f1, fun hg hfu hpar => ?_⟩
      obtain ⟨-, h4, h5⟩ := h2 hg hfu hpar
      simp only at h4 h5
      obtain ⟨f3, f4, f5⟩ := f2 hg h4 (fun id hid => h5 id (hpar id hid))
      exact ⟨f3, f4, h5.trans f5⟩
    | err e => cases k1
    | panic => cases k1
    | timeout => cases k1
  | err e =>
    refine ⟨?_, fun hg hfu hpar => ?_⟩
    · rcases h1 with h1 | ⟨k1, k2⟩
      · exact .inl (vmTrouble_err h1)
      · right
        cases r' <;> simp [outcome] at k1
        subst k1
        exact ⟨rfl, k2⟩
    · obtain ⟨⟨k1, k2⟩, h4, h5⟩ := h2 hg hfu hpar
      cases r' <;> simp [outcome] at k1
      subst k1
      exact ⟨⟨rfl, k2⟩, h4, h5⟩
  | panic =>
    refine ⟨.inl trivial, fun hg hfu hpar => ?_⟩
    obtain ⟨⟨k1, k2⟩, h4, h5⟩ := h2 hg hfu hpar
    cases r' <;> simp [outcome] at k1
    exact ⟨⟨rfl, k2⟩, h4, h5⟩
  | timeout =>
    refine ⟨?_, fun hg hfu hpar => ?_⟩
    · rcases h1 with h1 | ⟨k1, k2⟩
      · exact h1.elim
      · right
        cases r' <;> simp [outcome] at k1
        exact ⟨rfl, k2⟩
    · obtain ⟨⟨k1, k2⟩, h4, h5⟩ := h2 hg hfu hpar
      cases r' <;> simp [outcome] at k1
      exact ⟨⟨rfl, k2⟩, h4, h5⟩

theorem ASim.onProc {g : Prop} {par : Option NodeId} {α : Type} (f : SM Proc PErr α) :
    ASim (S := S) g par (HPP.onProc f) f :=
  fun c => ⟨.inr ⟨rfl, rfl⟩, fun _ h _ => ⟨⟨rfl, rfl⟩, h, .refl _⟩⟩

theorem ASim.onProcBind {g : Prop} {par : Option NodeId} {α β : Type} {f : SM Proc PErr α}
    {m : α → SM (Ctx S) PErr β} {k : α → SM Proc PErr Unit} (h : ∀ a, ASim g par (m a) (k a)) :
    ASim g par (HPP.onProc f >>= m) (f >>= k) := by
  refine ASim.bindEq (.onProc f) (fun c a b h1 h2 => ?_) h
  have h1' : (f c.proc).1 = .ok a := h1
  rw [h1'] at h2
  exact Res.ok.inj h2

theorem ASim.liftBind {g : Prop} {par : Option NodeId} {α β : Type} {r : Res PErr α}
    {m : α → SM (Ctx S) PErr β} {k : α → SM Proc PErr Unit} (h : ∀ a, ASim g par (m a) (k a)) :
    ASim g par (SM.lift r >>= m) (SM.lift r >>= k) := by
  refine ASim.bindEq (m := SM.lift r) (q := SM.lift r)
    (fun _ => ⟨.inr ⟨rfl, rfl⟩, fun _ h _ => ⟨⟨rfl, rfl⟩, h, .refl _⟩⟩) (fun _ a b h1 h2 => ?_) h
  have h1' : r = .ok a := h1
  have h2' : r = .ok b := h2
  rw [h1'] at h2'
  exact Res.ok.inj h2'

theorem ASim.bindUnit {g : Prop} {par : Option NodeId} {β : Type} {m : SM (Ctx S) PErr Unit} {q : SM Proc PErr Unit}
    {f : Unit → SM (Ctx S) PErr β} {k : SM Proc PErr Unit} (h : ASim g par m q)
    (hf : ASim g par (f ()) k) : ASim g par (m >>= f) (q >>= fun _ => k) :=
  ASim.bindEq h (fun _ _ _ _ _ => rfl) (fun _ => hf)

/-- A part that reads nothing, after `q`. -/
theorem ASim.after {g : Prop} {par : Option NodeId} {β : Type} {m : SM (Ctx S) PErr Unit} {q : SM Proc PErr Unit}
    {f : Unit → SM (Ctx S) PErr β} (h : ASim g par m q) (hf : ASim g par (f ()) (pure () : SM Proc PErr Unit)) :
    ASim g par (m >>= f) q := by
  have := ASim.bindUnit h hf
  have he : (q >>= fun _ => (pure () : SM Proc PErr Unit)) = q := by
    funext p
    simp only [SM.bind_apply, SM.pure_apply]
    rcases q p with ⟨r, p1⟩
    cases r <;> rfl
  rwa [he] at this

theorem addNode_noTimeout (t : Tree Str) (d : Str) (par : Option NodeId) : (t.addNode d par).1 ≠ .timeout := by
  rw [addNode_at]
  generalize (!t.free.isEmpty) = re
  generalize (match t.free with | [] => t.nodes.length | i :: _ => i) = next
  cases par with
  | none =>
    simp only [addAt]
    split <;> simp
  | some pid =>
    simp only [addAt]
    split
    · simp
    · split
      · simp
      · simp
      · next he =>
        rcases getNodeMut_returns (⟨t.nodes, t.free.tail, t.counter + 1⟩ : Tree Str) pid with ⟨nd, h⟩ | ⟨e, h⟩
        · rw [h] at he; cases he
        · rw [h] at he; cases he
      · split
        · simp
        · split
          · simp
          · split <;> simp

theorem ASim.addIgnore {g : Prop} (d : Str) (id : NodeId) :
    ASim (S := S) g (some id) (addTreeNodeIgnore d (some id)) (pure () : SM Proc PErr Unit) := by
  intro c
  refine ⟨?_, fun _ hfu hpar => ?_⟩
  · simp only [addTreeNodeIgnore]
    rcases hadd : c.tree.addNode d (some id) with ⟨r, t⟩
    have hret := addNode_noTimeout c.tree d (some id)
    rw [hadd] at hret
    cases r with
    | ok i => exact .inr ⟨rfl, rfl⟩
    | err e => exact .inr ⟨rfl, rfl⟩
    | panic => exact .inl trivial
    | timeout => exact absurd rfl hret
  · simp only [addTreeNodeIgnore]
    rcases hfu.addNode d (some id) with ⟨i, t', h1, h2, h3, -⟩ | ⟨e, t', h1, h2, h3, -⟩
    · rw [h1]; exact ⟨⟨rfl, rfl⟩, h2, h3⟩
    · rw [h1]; exact ⟨⟨rfl, rfl⟩, h2, h3⟩

theorem ASim.mono {g g' : Prop} {par : Option NodeId} {α β : Type} {m : SM (Ctx S) PErr α} {q : SM Proc PErr β}
    (hg : g' → g) (h : ASim g par m q) : ASim g' par m q :=
  fun c => ⟨(h c).1, fun a => (h c).2 (hg a)⟩

/-- Adding the node of a non-terminal, and going on below it. -/
theorem ASim.addBind {g : Prop} {pid : NodeId} {β : Type} {f : NodeId → SM (Ctx S) PErr β} {q : SM Proc PErr Unit}
    (h : ∀ id : NodeId, ASim (g ∧ id ≠ ⟨0, 0⟩) (some id) (f id) q) : ASim g (some pid) (addTreeNode [] (some pid) >>= f) q := by
  intro c
  refine ⟨?_, fun hg hfu hpar => ?_⟩
  · simp only [SM.bind_apply, addTreeNode]
    rcases hadd : c.tree.addNode [] (some pid) with ⟨r, t⟩
    have hret := addNode_noTimeout c.tree [] (some pid)
    rw [hadd] at hret
    cases r with
    | ok i => exact (h i { c with tree := t }).1
    | err e => exact .inl trivial
    | panic => exact .inl trivial
    | timeout => exact absurd rfl hret
  · simp only [SM.bind_apply, addTreeNode]
    rcases hfu.addNode [] (some pid) with ⟨i, t', h1, h2, h3, h4⟩ | ⟨e, t', h1, h2, h3, pid', h4, h5⟩
    · rw [h1]
      have hi : i ≠ ⟨0, 0⟩ := by
        have hex := hpar pid rfl
        rw [exists_iff hfu.1] at hex
        have hlt := (List.getElem?_eq_some_iff.1 hex).1
        rw [List.length_map] at hlt
        have := addFull hfu.1 [] (some pid)
        rw [h1] at this
        rcases this with ⟨k1, -⟩ | ⟨⟨e, k1⟩, -⟩ | k1
        · simp only [Res.ok.injEq] at k1
          rw [k1]
          intro h0
          have := congrArg NodeId.ptr h0
          simp only at this
          omega
        · cases k1
        · cases k1
      obtain ⟨k1, k2, k3⟩ := (h i { c with tree := t' }).2 ⟨hg, hi⟩ h2 (fun j hj => by cases hj; exact h4)
      exact ⟨k1, k2, h3.trans k3⟩
    · have := hpar pid' h4
      rw [h5] at this
      cases this

theorem ASim.run {vm : VM I S} (id : NodeId) (is : List I) :
    ASim ((OnlyGrowsBelowRoot vm ∧ Total vm) ∧ id ≠ ⟨0, 0⟩) (some id) (runInstructionsM vm id is) (pure () : SM Proc PErr Unit) := by
  intro c
  simp only [runInstructionsM]
  refine ⟨?_, fun hg hfu hpar => ?_⟩
  · cases runInstructions vm id is c.tree c.state with
    | none => exact .inl trivial
    | some x => exact .inr ⟨rfl, rfl⟩
  · have : ∀ (is : List I) (t : Tree Str) (s : S), Full t → ∃ x, runInstructions vm id is t s = some x ∧ Full x.1 ∧ Stay t x.1 := by
      intro is
      induction is with
      | nil => intro t s h; exact ⟨_, rfl, h, .refl _⟩
      | cons i is ih =>
        intro t s h
        simp only [runInstructions]
        cases hx : vm.execute t id i s with
        | none => exact absurd hx (hg.1.2 _ _ _ _)
        | some y =>
          obtain ⟨t1, s1⟩ := y
          obtain ⟨f1, st1⟩ := h.grown (hg.1.1 _ _ _ _ _ _ hg.2 hx)
          obtain ⟨x, k1, k2, k3⟩ := ih t1 s1 f1
          exact ⟨x, k1, k2, st1.trans k3⟩
    obtain ⟨x, k1, k2, k3⟩ := this is c.tree c.state hfu
    rw [k1]
    exact ⟨⟨rfl, rfl⟩, k2, k3⟩

theorem ASim.elements {g : Prop} {rec : Nat → Option NodeId → SM (Ctx S) PErr Unit} {rec' : Nat → SM Proc PErr Unit}
    (P : Parser I) (id : NodeId) (hr : ∀ e, ASim g (some id) (rec e (some id)) (rec' e)) (els : List Nat) :
    ASim g (some id) (parseElements P rec id els) (readElements P rec' els) := by
  induction els with
  | nil => exact fun c => ⟨.inr ⟨rfl, rfl⟩, fun _ h _ => ⟨⟨rfl, rfl⟩, h, .refl _⟩⟩
  | cons e es ih =>
    simp only [parseElements, readElements]
    refine .liftBind (fun el => ?_)
    cases el.et with
    | terminal =>
      refine .onProcBind (fun s => ?_)
      have := ASim.bindUnit (f := fun _ => parseElements P rec id es) (ASim.addIgnore (S := S) (g := g) s id) ih
      exact this
    | nonTerminal => exact .bindUnit (hr e) ih

theorem ASim.production (ho : HashOrder) (vm : VM I S) (P : Parser I) (fuel : Nat) :
    ∀ e pid, ASim (OnlyGrowsBelowRoot vm ∧ Total vm) (some pid) (parseProduction ho vm P fuel e (some pid))
      (readProduction ho P fuel e) := by
  induction fuel with
  | zero => intro e par c; exact ⟨.inr ⟨rfl, rfl⟩, fun _ h _ => ⟨⟨rfl, rfl⟩, h, .refl _⟩⟩
  | succ fuel ih =>
    intro e par
    simp only [parseProduction, readProduction]
    refine .onProcBind (fun cur => .liftBind (fun r => .onProcBind (fun prod => .addBind (fun id => ?_))))
    cases prod with
    | notEmpty els => exact .after (.mono And.left (.elements P id (fun e => ih e id) els)) (.run id _)
    | empty => exact .after (fun c => ⟨.inr ⟨rfl, rfl⟩, fun _ h _ => ⟨⟨rfl, rfl⟩, h, .refl _⟩⟩) (.run id _)

/-- A part of the parse at the root: like `ASim`, but nothing is said about the tree afterwards. -/
def RSimTop (g : Prop) {α β : Type} (m : SM (Ctx S) PErr α) (q : SM Proc PErr β) : Prop :=
  ∀ c, (VmTrouble (m c).1 ∨ SameOut (m c) (q c.proc)) ∧ (g → c.tree = Tree.new → SameOut (m c) (q c.proc))

theorem RSimTop.onProcBind {g : Prop} {α β : Type} {f : SM Proc PErr α}
    {m : α → SM (Ctx S) PErr β} {k : α → SM Proc PErr Unit} (h : ∀ a, RSimTop g (m a) (k a)) :
    RSimTop g (HPP.onProc f >>= m) (f >>= k) := by
  intro c
  simp only [SM.bind_apply, HPP.onProc]
  rcases f c.proc with ⟨r, p⟩
  cases r with
  | ok a => exact h a { c with proc := p }
  | err e => exact ⟨.inr ⟨rfl, rfl⟩, fun _ _ => ⟨rfl, rfl⟩⟩
  | panic => exact ⟨.inl trivial, fun _ _ => ⟨rfl, rfl⟩⟩
  | timeout => exact ⟨.inr ⟨rfl, rfl⟩, fun _ _ => ⟨rfl, rfl⟩⟩

theorem RSimTop.liftBind {g : Prop} {α β : Type} {r : Res PErr α}
    {m : α → SM (Ctx S) PErr β} {k : α → SM Proc PErr Unit} (h : ∀ a, RSimTop g (m a) (k a)) :
    RSimTop g (SM.lift r >>= m) (SM.lift r >>= k) := by
  intro c
  cases r with
  | ok a => exact h a c
  | err e => exact ⟨.inr ⟨rfl, rfl⟩, fun _ _ => ⟨rfl, rfl⟩⟩
  | panic => exact ⟨.inl trivial, fun _ _ => ⟨rfl, rfl⟩⟩
  | timeout => exact ⟨.inr ⟨rfl, rfl⟩, fun _ _ => ⟨rfl, rfl⟩⟩

/-- The node of the root, its children, and its instructions. -/
theorem RSimTop.node {g : Prop} {vm : VM I S} (hg : g → Total vm) {is : List I} {m : NodeId → SM (Ctx S) PErr Unit}
    {q : SM Proc PErr Unit} (h : ∀ id, ASim g (some id) (m id) q) :
    RSimTop g (addTreeNode [] none >>= fun id => m id >>= fun _ => runInstructionsM vm id is) q := by
  have hrun : ∀ id (c : Ctx S), (VmTrouble (runInstructionsM vm id is c).1 ∨
      SameOut (runInstructionsM vm id is c) ((.ok (), c.proc) : Res PErr Unit × Proc)) ∧
      (Total vm → SameOut (runInstructionsM vm id is c) ((.ok (), c.proc) : Res PErr Unit × Proc)) := by
    intro id c
    simp only [runInstructionsM]
    cases hr : runInstructions vm id is c.tree c.state with
    | none => exact ⟨.inl trivial, fun ht => absurd hr (runInstructions_total ht id is)⟩
    | some x => exact ⟨.inr ⟨rfl, rfl⟩, fun _ => ⟨rfl, rfl⟩⟩
  have hseq : ∀ id (c : Ctx S) (o : Res PErr Unit × Proc), SameOut (m id c) o →
      (VmTrouble ((m id >>= fun _ => runInstructionsM vm id is) c).1 ∨
        SameOut ((m id >>= fun _ => runInstructionsM vm id is) c) o) ∧
      (Total vm → SameOut ((m id >>= fun _ => runInstructionsM vm id is) c) o) := by
    rintro id c ⟨r', p'⟩ ⟨h1, h2⟩
    simp only [SM.bind_apply]
    rcases hm : m id c with ⟨r, c1⟩
    rw [hm] at h1 h2
    simp only at h1 h2
    subst h2
    cases r <;> cases r' <;> simp only [outcome, reduceCtorEq, Res.err.injEq] at h1
    · exact hrun id c1
    · subst h1
      exact ⟨.inr ⟨rfl, rfl⟩, fun _ => ⟨rfl, rfl⟩⟩
    · exact ⟨.inl trivial, fun _ => ⟨rfl, rfl⟩⟩
    · exact ⟨.inr ⟨rfl, rfl⟩, fun _ => ⟨rfl, rfl⟩⟩
  intro c
  rw [SM.bind_apply]
  simp only [addTreeNode]
  refine ⟨?_, fun hgg htree => ?_⟩
  · rcases hadd : c.tree.addNode [] none with ⟨r, t⟩
    have hret := addNode_noTimeout c.tree [] none
    rw [hadd] at hret
    cases r with
    | err e => exact .inl trivial
    | panic => exact .inl trivial
    | timeout => exact absurd rfl hret
    | ok id =>
      simp only [Res.mapErr]
      rcases (h id { c with tree := t }).1 with h1 | h1
      · left
        rw [SM.bind_apply]
        rcases hm : m id { c with tree := t } with ⟨r, c1⟩
        rw [hm] at h1
        cases r with
        | ok u => exact h1.elim
        | err e => exact h1
        | panic => trivial
        | timeout => exact h1.elim
      · exact (hseq id { c with tree := t } _ h1).1
  · rcases (htree ▸ Full.new : Full c.tree).addNode [] none with ⟨id, t', h1, h2, h3, h4⟩ | ⟨e, t', h1, h2, h3, pid, h4, h5⟩
    · rw [h1]
      simp only [Res.mapErr]
      exact (hseq id { c with tree := t' } _ ((h id { c with tree := t' }).2 hgg h2 (fun j hj => by cases hj; exact h4)).1).2 (hg hgg)
    · cases h4

theorem RSimTop.production (ho : HashOrder) (vm : VM I S) (P : Parser I) (fuel e : Nat) :
    RSimTop (OnlyGrowsBelowRoot vm ∧ Total vm) (parseProduction ho vm P fuel e none) (readProduction ho P fuel e) := by
  cases fuel with
  | zero => intro c; exact ⟨.inr ⟨rfl, rfl⟩, fun _ _ => ⟨rfl, rfl⟩⟩
  | succ fuel =>
    simp only [parseProduction, readProduction]
    refine .onProcBind (fun cur => .liftBind (fun r => .onProcBind (fun prod => ?_)))
    cases prod with
    | notEmpty els =>
      exact .node And.right (m := fun id => parseElements P (parseProduction ho vm P fuel) id els)
        (fun id => .elements P id (fun e => .production ho vm P fuel e id) els)
    | empty =>
      exact .node And.right (m := fun _ => pure ())
        (fun id c => ⟨.inr ⟨rfl, rfl⟩, fun _ h _ => ⟨⟨rfl, rfl⟩, h, .refl _⟩⟩)

/-- `parse` without tree and virtual machine: the outcome and the process afterwards. -/
def readAll (ho : HashOrder) (fuel : Nat) (P : Parser I) (text : Str) : Res PErr Unit × Proc :=
  match positionOf ⟨c% "start", .nonTerminal⟩ P.elements with
  | none => (.panic, Proc.ofText text)
  | some ix => readProduction ho P fuel ix (Proc.ofText text)

theorem outcome_unit (r : Res PErr Unit) : outcome r = r := by cases r <;> rfl

/-- Any virtual machine. -/
theorem parse_anyVm (ho : HashOrder) (vm : VM I S) (P : Parser I) (fuel : Nat) (text : Str) (s : S) :
    (VmTrouble (Parser.parse ho fuel vm P text s).1 ∨
      (outcome (Parser.parse ho fuel vm P text s).1 = (readAll ho fuel P text).1 ∧
        (Parser.parse ho fuel vm P text s).2.proc = (readAll ho fuel P text).2)) ∧
    (OnlyGrowsBelowRoot vm → Total vm → outcome (Parser.parse ho fuel vm P text s).1 = (readAll ho fuel P text).1 ∧
        (Parser.parse ho fuel vm P text s).2.proc = (readAll ho fuel P text).2) := by
  simp only [Parser.parse, readAll]
  cases positionOf ⟨c% "start", .nonTerminal⟩ P.elements with
  | none => exact ⟨.inl trivial, fun _ _ => ⟨rfl, rfl⟩⟩
  | some ix =>
    have := RSimTop.production ho vm P fuel ix ⟨Proc.ofText text, s, Tree.new⟩
    simp only at this ⊢
    rw [show ∀ x : Res PErr Unit × Proc, x.1 = outcome x.1 from fun x => (outcome_unit x.1).symm]
    obtain ⟨h1, h2⟩ := this
    have h2 := fun a b => h2 ⟨a, b⟩ trivial
    rcases hx : parseProduction ho vm P fuel ix none ⟨Proc.ofText text, s, Tree.new⟩ with ⟨r, c⟩
    rw [hx] at h1 h2
    cases r with
    | ok u => exact ⟨h1, h2⟩
    | err e =>
      refine ⟨?_, h2⟩
      rcases h1 with h1 | h1
      · exact .inl (vmTrouble_err h1)
      · exact .inr h1
    | panic => exact ⟨.inl trivial, h2⟩
    | timeout =>
      refine ⟨?_, h2⟩
      rcases h1 with h1 | h1
      · exact h1.elim
      · exact .inr h1

/-! ### no panics -/

/-- The links stay inside. -/
def ClosedTree (t : Tree Str) : Prop := ∃ log, Arena t.nodes.length t log

theorem ClosedTree.setData {t : Tree Str} (h : ClosedTree t) {id : NodeId} {nd : TNode Str} (hg : t.getNodeMut id = .ok nd) (d : Str) :
    ClosedTree { t with nodes := t.nodes.set id.ptr { nd with data := d } } := by
  obtain ⟨log, ha⟩ := h
  obtain ⟨h1, h2⟩ := getNodeMut_at hg
  have hlt := (List.getElem?_eq_some_iff.1 h1).1
  refine ⟨log ++ [(id, d)], ?_⟩
  refine ⟨?_, ?_, ?_, ?_⟩
  · intro i hi; simp only [List.length_set]; exact ha.free i hi
  · intro i m hm
    simp only [List.length_set] at hm ⊢
    rw [List.getElem?_set] at hm
    split at hm
    · simp only [Option.some.injEq] at hm
      subst hm
      have := ha.links _ _ h1
      exact ⟨this.parent, this.prev, this.next, this.first, this.last⟩
    · exact ha.links i m hm
  · intro i m hm
    simp only at hm
    rw [List.getElem?_set] at hm
    split at hm
    · next hi =>
      simp only [Option.some.injEq] at hm
      subst hm
      simp only
      rw [h2, ← hi]
      exact List.mem_append_right _ (List.mem_singleton.2 rfl)
    · exact List.mem_append_left _ (ha.slot i m hm)
  · intro x hx
    simp only [List.length_set]
    rcases List.mem_append.1 hx with hx | hx
    · exact ha.issued x hx
    · rw [List.mem_singleton] at hx
      subst hx
      exact hlt

theorem ClosedTree.edited {t t' : Tree Str} (h : ClosedTree t) (he : Edited t t') : ClosedTree t' := by
  induction he with
  | refl => exact h
  | @add t1 t2 d par r _ ha ih =>
    obtain ⟨log, ih⟩ := ih
    rcases ih.addNode d par with ⟨id, t', k1, k2⟩ | ⟨e, t', k1, k2⟩
    · rw [ha] at k1; cases k1; exact ⟨_, k2⟩
    · rw [ha] at k1; cases k1; exact ⟨_, k2⟩
  | @remove t1 t2 fuel id r _ ha ih =>
    obtain ⟨log, ih⟩ := ih
    have := (ih.removeBranch fuel id).2
    rw [ha] at this
    exact ⟨_, this⟩
  | @set t1 id nd d _ hm ih => exact ih.setData hm d
  | replace hr => exact ⟨_, hr.arena⟩

/-- A tree error. -/
def TreeTrouble {α : Type} (r : Res PErr α) : Prop := ∃ e, r = .err (.tree e)

/-- The part of the parse `m` reads like `q`, or fails with a tree error. -/
def NSim {α β : Type} (m : SM (Ctx S) PErr α) (q : SM Proc PErr β) : Prop :=
  ∀ c, ClosedTree c.tree → (TreeTrouble (m c).1 ∨ SameOut (m c) (q c.proc)) ∧ ClosedTree (m c).2.tree

theorem NSim.bindEq {α β : Type} {m : SM (Ctx S) PErr α} {q : SM Proc PErr α}
    {f : α → SM (Ctx S) PErr β} {k : α → SM Proc PErr Unit} (h : NSim m q)
    (hv : ∀ c a b, (m c).1 = .ok a → (q c.proc).1 = .ok b → a = b)
    (hf : ∀ a, NSim (f a) (k a)) : NSim (m >>= f) (q >>= k) := by
  intro c hc
  obtain ⟨h1, h2⟩ := h c hc
  have hv := hv c
  simp only [SM.bind_apply]
  rcases hm : m c with ⟨r, c1⟩
  rcases hq : q c.proc with ⟨r', p1⟩
  rw [hm, hq] at h1 hv
  rw [hm] at h2
  simp only at hv h2
  cases r with
  | ok a =>
    have hs : SameOut (Res.ok a, c1) (r', p1) := by
      rcases h1 with ⟨e, h1⟩ | h1
      · cases h1
      · exact h1
    obtain ⟨k1, k2⟩ := hs
    simp only at k1 k2
    cases r' with
    | ok b =>
      have := hv a b rfl rfl
      subst this
      subst k2
      exact hf a c1 h2
    | err e => cases k1
    | panic => cases k1
    | timeout => cases k1
  | err e =>
    refine ⟨?_, h2⟩
    rcases h1 with ⟨e', h1⟩ | ⟨k1, k2⟩
    · left
      simp only [Res.err.injEq] at h1
      exact ⟨e', by rw [h1]⟩
    · right
      cases r' <;> simp [outcome] at k1
      subst k1
      exact ⟨rfl, k2⟩
  | panic =>
    refine ⟨?_, h2⟩
    rcases h1 with ⟨e', h1⟩ | ⟨k1, k2⟩
    · cases h1
    · right
      cases r' <;> simp [outcome] at k1
      exact ⟨rfl, k2⟩
  | timeout =>
    refine ⟨?_, h2⟩
    rcases h1 with ⟨e', h1⟩ | ⟨k1, k2⟩
    · cases h1
    · right
      cases r' <;> simp [outcome] at k1
      exact ⟨rfl, k2⟩

theorem NSim.onProcBind {α β : Type} {f : SM Proc PErr α}
    {m : α → SM (Ctx S) PErr β} {k : α → SM Proc PErr Unit} (h : ∀ a, NSim (m a) (k a)) :
    NSim (HPP.onProc f >>= m) (f >>= k) := by
  refine NSim.bindEq (m := HPP.onProc f) (fun c hc => ⟨.inr ⟨rfl, rfl⟩, hc⟩) (fun c a b h1 h2 => ?_) h
  have h1' : (f c.proc).1 = .ok a := h1
  rw [h1'] at h2
  exact Res.ok.inj h2

theorem NSim.liftBind {α β : Type} {r : Res PErr α}
    {m : α → SM (Ctx S) PErr β} {k : α → SM Proc PErr Unit} (h : ∀ a, NSim (m a) (k a)) :
    NSim (SM.lift r >>= m) (SM.lift r >>= k) := by
  refine NSim.bindEq (m := SM.lift r) (q := SM.lift r) (fun _ hc => ⟨.inr ⟨rfl, rfl⟩, hc⟩) (fun _ a b h1 h2 => ?_) h
  have h1' : r = .ok a := h1
  have h2' : r = .ok b := h2
  rw [h1'] at h2'
  exact Res.ok.inj h2'

theorem NSim.bindUnit {β : Type} {m : SM (Ctx S) PErr Unit} {q : SM Proc PErr Unit}
    {f : Unit → SM (Ctx S) PErr β} {k : SM Proc PErr Unit} (h : NSim m q)
    (hf : NSim (f ()) k) : NSim (m >>= f) (q >>= fun _ => k) :=
  NSim.bindEq h (fun _ _ _ _ _ => rfl) (fun _ => hf)

theorem NSim.after {β : Type} {m : SM (Ctx S) PErr Unit} {q : SM Proc PErr Unit}
    {f : Unit → SM (Ctx S) PErr β} (h : NSim m q) (hf : NSim (f ()) (pure () : SM Proc PErr Unit)) :
    NSim (m >>= f) q := by
  have := NSim.bindUnit h hf
  have he : (q >>= fun _ => (pure () : SM Proc PErr Unit)) = q := by
    funext p
    simp only [SM.bind_apply, SM.pure_apply]
    rcases q p with ⟨r, p1⟩
    cases r <;> rfl
  rwa [he] at this

theorem NSim.addIgnore (d : Str) (par : Option NodeId) :
    NSim (S := S) (addTreeNodeIgnore d par) (pure () : SM Proc PErr Unit) := by
  intro c hc
  obtain ⟨log, hc⟩ := hc
  simp only [addTreeNodeIgnore]
  rcases hc.addNode d par with ⟨i, t', h1, h2⟩ | ⟨e, t', h1, h2⟩
  · rw [h1]; exact ⟨.inr ⟨rfl, rfl⟩, _, h2⟩
  · rw [h1]; exact ⟨.inr ⟨rfl, rfl⟩, _, h2⟩

theorem NSim.addBind {par : Option NodeId} {β : Type} {f : NodeId → SM (Ctx S) PErr β} {q : SM Proc PErr Unit}
    (h : ∀ id : NodeId, NSim (f id) q) : NSim (addTreeNode [] par >>= f) q := by
  intro c hc
  obtain ⟨log, hc⟩ := hc
  simp only [SM.bind_apply, addTreeNode]
  rcases hc.addNode [] par with ⟨i, t', h1, h2⟩ | ⟨e, t', h1, h2⟩
  · rw [h1]; exact h i { c with tree := t' } ⟨_, h2⟩
  · rw [h1]; exact ⟨.inl ⟨e, rfl⟩, _, h2⟩

theorem NSim.run {vm : VM I S} (he : EditsTree vm) (ht : Total vm) (id : NodeId) (is : List I) :
    NSim (runInstructionsM vm id is) (pure () : SM Proc PErr Unit) := by
  intro c hc
  simp only [runInstructionsM]
  have : ∀ (is : List I) (t : Tree Str) (s : S), ClosedTree t → ∃ x, runInstructions vm id is t s = some x ∧ ClosedTree x.1 := by
    intro is
    induction is with
    | nil => intro t s h; exact ⟨_, rfl, h⟩
    | cons i is ih =>
      intro t s h
      simp only [runInstructions]
      cases hx : vm.execute t id i s with
      | none => exact absurd hx (ht _ _ _ _)
      | some y =>
        obtain ⟨t1, s1⟩ := y
        exact ih t1 s1 (h.edited (he _ _ _ _ _ _ hx))
  obtain ⟨x, k1, k2⟩ := this is c.tree c.state hc
  rw [k1]
  exact ⟨.inr ⟨rfl, rfl⟩, k2⟩

theorem NSim.elements {rec : Nat → Option NodeId → SM (Ctx S) PErr Unit} {rec' : Nat → SM Proc PErr Unit}
    (P : Parser I) (hr : ∀ e par, NSim (rec e par) (rec' e)) (id : NodeId) (els : List Nat) :
    NSim (parseElements P rec id els) (readElements P rec' els) := by
  induction els with
  | nil => exact fun c hc => ⟨.inr ⟨rfl, rfl⟩, hc⟩
  | cons e es ih =>
    simp only [parseElements, readElements]
    refine .liftBind (fun el => ?_)
    cases el.et with
    | terminal =>
      refine .onProcBind (fun s => ?_)
      have := NSim.bindUnit (f := fun _ => parseElements P rec id es) (NSim.addIgnore (S := S) s (some id)) ih
      exact this
    | nonTerminal => exact .bindUnit (hr e _) ih

theorem NSim.production (ho : HashOrder) {vm : VM I S} (he : EditsTree vm) (ht : Total vm) (P : Parser I) (fuel : Nat) :
    ∀ e par, NSim (parseProduction ho vm P fuel e par) (readProduction ho P fuel e) := by
  induction fuel with
  | zero => intro e par c hc; exact ⟨.inr ⟨rfl, rfl⟩, hc⟩
  | succ fuel ih =>
    intro e par
    simp only [parseProduction, readProduction]
    refine .onProcBind (fun cur => .liftBind (fun r => .onProcBind (fun prod => .addBind (fun id => ?_))))
    cases prod with
    | notEmpty els => exact .after (.elements P ih id els) (.run he ht id _)
    | empty => exact .after (fun c hc => ⟨.inr ⟨rfl, rfl⟩, hc⟩) (.run he ht id _)

/-- Any virtual machine that edits the tree through its functions and does not panic. -/
theorem parse_editingVm (ho : HashOrder) {vm : VM I S} (he : EditsTree vm) (ht : Total vm) (P : Parser I) (fuel : Nat)
    (text : Str) (s : S) :
    TreeTrouble (Parser.parse ho fuel vm P text s).1 ∨
      (outcome (Parser.parse ho fuel vm P text s).1 = (readAll ho fuel P text).1 ∧
        (Parser.parse ho fuel vm P text s).2.proc = (readAll ho fuel P text).2) := by
  simp only [Parser.parse, readAll]
  cases positionOf ⟨c% "start", .nonTerminal⟩ P.elements with
  | none => exact .inr ⟨rfl, rfl⟩
  | some ix =>
    have := (NSim.production ho he ht P fuel ix none ⟨Proc.ofText text, s, Tree.new⟩ ⟨_, Full.new.2.choose_spec⟩).1
    simp only at this ⊢
    rw [show ∀ x : Res PErr Unit × Proc, x.1 = outcome x.1 from fun x => (outcome_unit x.1).symm]
    rcases hx : parseProduction ho vm P fuel ix none ⟨Proc.ofText text, s, Tree.new⟩ with ⟨r, c⟩
    rw [hx] at this
    rcases this with ⟨e, h⟩ | h
    · simp only at h
      subst h
      exact .inl ⟨e, rfl⟩
    · right
      cases r <;> exact h

end HPP
