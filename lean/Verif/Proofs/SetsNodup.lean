import Verif.Proofs.FollowFinal
import Verif.Model.Steuer
/-
The lists standing for hash sets never contain duplicates: FIRST sets, FOLLOW sets, steuer sets.
-/
namespace HPP
open Spec
variable {I : Type}

/-- All sets in a table are duplicate free. -/
def SetsNodup {α : Type} (t : AMap Nat (List α)) : Prop := ∀ n S, AMap.get t n = some S → S.Nodup

theorem SetsNodup.nil {α : Type} : SetsNodup ([] : AMap Nat (List α)) := by intro n S h; simp at h

theorem SetsNodup.insert {α : Type} {t : AMap Nat (List α)} (h : SetsNodup t) {n : Nat} {S : List α}
    (hS : S.Nodup) : SetsNodup (AMap.insert t n S) := by
  intro m T hT
  rw [AMap.get_insert] at hT
  split at hT
  · cases hT; exact hS
  · exact h m T hT

/-! ### FIRST -/

theorem getFirstSetOfElement_nodup {pd : ParserData I} {fs : NamedSets} (h : SetsNodup fs) {el : Nat}
    {S : List SetMemberE} (heq : getFirstSetOfElement pd fs el = .ok (some S)) : S.Nodup := by
  simp only [getFirstSetOfElement] at heq
  obtain ⟨t, _, heq⟩ := Res.bind_eq_ok.mp heq
  cases t with
  | nonTerminal =>
    simp only [Res.pure_def, Res.ok.injEq] at heq
    exact h el S heq
  | terminal =>
    simp only at heq
    obtain ⟨d, _, heq⟩ := Res.bind_eq_ok.mp heq
    split at heq <;> simp at heq <;> subst heq <;> simp

/-- The worker keeps tables and results duplicate free. -/
def RecNodup (rec : FirstRec) : Prop :=
  ∀ el fs S fs', SetsNodup fs → rec el fs = .ok (S, fs') → S.Nodup ∧ SetsNodup fs'

theorem firstOfProdLoop_nodup {rec : FirstRec} (hrec : RecNodup rec) (els : List Nat) :
    ∀ M fs S fs', M.Nodup → SetsNodup fs → firstOfProdLoop rec els M fs = .ok (S, fs') →
      S.Nodup ∧ SetsNodup fs' := by
  induction els with
  | nil =>
    intro M fs S fs' hM h heq
    simp only [firstOfProdLoop, Res.ok.injEq, Prod.mk.injEq] at heq
    exact ⟨heq.1 ▸ hM, heq.2 ▸ h⟩
  | cons e es ih =>
    intro M fs S fs' hM h heq
    simp only [firstOfProdLoop] at heq
    obtain ⟨⟨cur, fs1⟩, h1, heq⟩ := Res.bind_eq_ok.mp heq
    obtain ⟨hc, hf⟩ := hrec _ _ _ _ h h1
    have hx := nodup_setExtend hM cur
    simp only at heq
    split at heq
    · simp only [Res.pure_def, Res.ok.injEq, Prod.mk.injEq] at heq
      exact ⟨heq.1 ▸ nodup_setRemove hx _, heq.2 ▸ hf⟩
    · exact ih _ _ _ _ hx hf heq

theorem firstOfProd_nodup {rec : FirstRec} (hrec : RecNodup rec) {p : Production} {fs fs' : NamedSets}
    {S : List SetMemberE} (h : SetsNodup fs) (heq : firstOfProd rec p fs = .ok (S, fs')) :
    S.Nodup ∧ SetsNodup fs' := by
  cases p with
  | empty =>
    simp only [firstOfProd, Res.ok.injEq, Prod.mk.injEq] at heq
    exact ⟨heq.1 ▸ (by simp), heq.2 ▸ h⟩
  | notEmpty els =>
    cases els with
    | nil => simp [firstOfProd] at heq
    | cons e es =>
      simp only [firstOfProd] at heq
      obtain ⟨⟨M, fs1⟩, h1, heq⟩ := Res.bind_eq_ok.mp heq
      obtain ⟨hc, hf⟩ := hrec _ _ _ _ h h1
      simp only at heq
      split at heq
      · exact firstOfProdLoop_nodup hrec _ _ _ _ _ hc hf heq
      · simp only [Res.pure_def, Res.ok.injEq, Prod.mk.injEq] at heq
        exact ⟨heq.1 ▸ hc, heq.2 ▸ hf⟩

theorem firstOfProds_nodup {rec : FirstRec} (hrec : RecNodup rec) (ps : List Production) :
    ∀ M fs S fs', M.Nodup → SetsNodup fs → firstOfProds rec ps M fs = .ok (S, fs') →
      S.Nodup ∧ SetsNodup fs' := by
  induction ps with
  | nil =>
    intro M fs S fs' hM h heq
    simp only [firstOfProds, Res.ok.injEq, Prod.mk.injEq] at heq
    exact ⟨heq.1 ▸ hM, heq.2 ▸ h⟩
  | cons p ps ih =>
    intro M fs S fs' hM h heq
    simp only [firstOfProds] at heq
    obtain ⟨⟨R, fs1⟩, h1, heq⟩ := Res.bind_eq_ok.mp heq
    exact ih _ _ _ _ (nodup_setExtend hM R) (firstOfProd_nodup hrec h h1).2 heq

theorem getSet_nodup (pd : ParserData I) (fuel : Nat) : RecNodup (getSetFirstSetOfElement pd fuel) := by
  induction fuel with
  | zero => intro el fs S fs' _ h; simp [getSetFirstSetOfElement] at h
  | succ fuel ih =>
    intro el fs S fs' h heq
    simp only [getSetFirstSetOfElement] at heq
    obtain ⟨o, h1, heq⟩ := Res.bind_eq_ok.mp heq
    cases o with
    | some x =>
      simp only [Res.pure_def, Res.ok.injEq, Prod.mk.injEq] at heq
      exact ⟨heq.1 ▸ getFirstSetOfElement_nodup h h1, heq.2 ▸ h⟩
    | none =>
      simp only at heq
      split at heq
      · simp at heq
      · obtain ⟨⟨R, fs1⟩, h2, heq⟩ := Res.bind_eq_ok.mp heq
        simp only [Res.pure_def, Res.ok.injEq, Prod.mk.injEq] at heq
        obtain ⟨hR, hf⟩ := firstOfProds_nodup ih _ _ _ _ _ (by simp) h h2
        exact ⟨heq.1 ▸ hR, heq.2 ▸ hf.insert hR⟩

theorem getFirstSets_nodup {ho : HashOrder} {fuel : Nat} {pd : ParserData I} {fs : NamedSets}
    (h : getFirstSets ho fuel pd = .ok fs) : SetsNodup fs := by
  have key : ∀ (els : List Nat) fs fs', SetsNodup fs → getFirstSetsLoop pd fuel els fs = .ok fs' →
      SetsNodup fs' := by
    intro els
    induction els with
    | nil => intro fs fs' h heq; simp only [getFirstSetsLoop, Res.ok.injEq] at heq; exact heq ▸ h
    | cons e es ih =>
      intro fs fs' h heq
      simp only [getFirstSetsLoop] at heq
      obtain ⟨⟨R, fs1⟩, h2, heq⟩ := Res.bind_eq_ok.mp heq
      exact ih _ _ (getSet_nodup pd fuel _ _ _ _ h h2).2 heq
  exact key _ _ _ SetsNodup.nil h

/-! ### FIRST keys are distinct -/

theorem getFirstSets_nodupKeys {ho : HashOrder} {fuel : Nat} {pd : ParserData I} {fs : NamedSets}
    (h : getFirstSets ho fuel pd = .ok fs) : AMap.NodupKeys fs := by
  let Q (rec : FirstRec) : Prop :=
    ∀ el fs S fs', AMap.NodupKeys fs → rec el fs = .ok (S, fs') → AMap.NodupKeys fs'
  have hl : ∀ rec, Q rec → ∀ els M fs S fs', AMap.NodupKeys fs →
      firstOfProdLoop rec els M fs = .ok (S, fs') → AMap.NodupKeys fs' := by
    intro rec hrec els
    induction els with
    | nil =>
      intro M fs S fs' h heq
      simp only [firstOfProdLoop, Res.ok.injEq, Prod.mk.injEq] at heq
      exact heq.2 ▸ h
    | cons e es ih =>
      intro M fs S fs' h heq
      simp only [firstOfProdLoop] at heq
      obtain ⟨⟨cur, fs1⟩, h1, heq⟩ := Res.bind_eq_ok.mp heq
      have hf := hrec _ _ _ _ h h1
      simp only at heq
      split at heq
      · simp only [Res.pure_def, Res.ok.injEq, Prod.mk.injEq] at heq
        exact heq.2 ▸ hf
      · exact ih _ _ _ _ hf heq
  have hp : ∀ rec, Q rec → ∀ p fs S fs', AMap.NodupKeys fs →
      firstOfProd rec p fs = .ok (S, fs') → AMap.NodupKeys fs' := by
    intro rec hrec p fs S fs' h heq
    cases p with
    | empty =>
      simp only [firstOfProd, Res.ok.injEq, Prod.mk.injEq] at heq
      exact heq.2 ▸ h
    | notEmpty els =>
      cases els with
      | nil => simp [firstOfProd] at heq
      | cons e es =>
        simp only [firstOfProd] at heq
        obtain ⟨⟨M, fs1⟩, h1, heq⟩ := Res.bind_eq_ok.mp heq
        have hf := hrec _ _ _ _ h h1
        simp only at heq
        split at heq
        · exact hl rec hrec _ _ _ _ _ hf heq
        · simp only [Res.pure_def, Res.ok.injEq, Prod.mk.injEq] at heq
          exact heq.2 ▸ hf
  have hps : ∀ rec, Q rec → ∀ ps M fs S fs', AMap.NodupKeys fs →
      firstOfProds rec ps M fs = .ok (S, fs') → AMap.NodupKeys fs' := by
    intro rec hrec ps
    induction ps with
    | nil =>
      intro M fs S fs' h heq
      simp only [firstOfProds, Res.ok.injEq, Prod.mk.injEq] at heq
      exact heq.2 ▸ h
    | cons p ps ih =>
      intro M fs S fs' h heq
      simp only [firstOfProds] at heq
      obtain ⟨⟨R, fs1⟩, h1, heq⟩ := Res.bind_eq_ok.mp heq
      exact ih _ _ _ _ (hp rec hrec _ _ _ _ h h1) heq
  have hr : ∀ fuel, Q (getSetFirstSetOfElement pd fuel) := by
    intro fuel
    induction fuel with
    | zero => intro el fs S fs' _ h; simp [getSetFirstSetOfElement] at h
    | succ fuel ih =>
      intro el fs S fs' h heq
      simp only [getSetFirstSetOfElement] at heq
      obtain ⟨o, h1, heq⟩ := Res.bind_eq_ok.mp heq
      cases o with
      | some x =>
        simp only [Res.pure_def, Res.ok.injEq, Prod.mk.injEq] at heq
        exact heq.2 ▸ h
      | none =>
        simp only at heq
        split at heq
        · simp at heq
        · obtain ⟨⟨R, fs1⟩, h2, heq⟩ := Res.bind_eq_ok.mp heq
          simp only [Res.pure_def, Res.ok.injEq, Prod.mk.injEq] at heq
          exact heq.2 ▸ (hps _ ih _ _ _ _ _ h h2).insert _ _
  have key : ∀ (els : List Nat) fs fs', AMap.NodupKeys fs → getFirstSetsLoop pd fuel els fs = .ok fs' →
      AMap.NodupKeys fs' := by
    intro els
    induction els with
    | nil => intro fs fs' h heq; simp only [getFirstSetsLoop, Res.ok.injEq] at heq; exact heq ▸ h
    | cons e es ih =>
      intro fs fs' h heq
      simp only [getFirstSetsLoop] at heq
      obtain ⟨⟨R, fs1⟩, h2, heq⟩ := Res.bind_eq_ok.mp heq
      exact ih _ _ (hr fuel _ _ _ _ h h2) heq
  exact key _ _ _ AMap.NodupKeys.nil h

/-! ### FOLLOW -/

/-- All node sets of the follow graph are duplicate free. -/
def GNodup (g : FollowGraph) : Prop := ∀ nd ∈ g.graph.nodes, nd.data.Nodup

theorem GNodup.set {g : FollowGraph} (h : GNodup g) {i : Nat} {nd : GNode (List SetMember)}
    (hnd : nd.data.Nodup) {es : List GEdge} {nm : AMap Nat Nat} :
    GNodup ⟨⟨g.graph.nodes.set i nd, es⟩, nm⟩ := by
  intro x hx
  rcases List.mem_or_eq_of_mem_set hx with hx | rfl
  · exact h x hx
  · exact hnd

theorem GNodup.modifyNode {g g' : FollowGraph} (h : GNodup g) {n : Nat}
    {f : List SetMember → List SetMember} (hf : ∀ d, d.Nodup → (f d).Nodup)
    (heq : g.modifyNode n f = .ok g') : GNodup g' := by
  simp only [NamedGraph.modifyNode] at heq
  obtain ⟨i, _, heq⟩ := Res.bind_eq_ok.mp heq
  obtain ⟨nd, hnd, heq⟩ := Res.bind_eq_ok.mp heq
  simp only [Res.pure_def, Res.ok.injEq] at heq
  subst heq
  exact h.set (hf _ (h nd (List.mem_of_getElem? (Res.unwrapO_eq_ok.mp hnd))))

theorem GNodup.modifyNodeByIndex {g g' : FollowGraph} (h : GNodup g) {n : Nat}
    {f : List SetMember → List SetMember} (hf : ∀ d, d.Nodup → (f d).Nodup)
    (heq : g.modifyNodeByIndex n f = .ok g') : GNodup g' := by
  simp only [NamedGraph.modifyNodeByIndex] at heq
  split at heq
  · simp at heq
  · split at heq
    · simp at heq
    · obtain ⟨nd, hnd, heq⟩ := Res.bind_eq_ok.mp heq
      simp only [Res.pure_def, Res.ok.injEq] at heq
      subst heq
      exact h.set (hf _ (h nd (List.mem_of_getElem? (Res.unwrapO_eq_ok.mp hnd))))

theorem GNodup.addEdge {g g' : FollowGraph} (h : GNodup g) {a b : Nat}
    (heq : g.addEdge a b = .ok g') : GNodup g' := by
  simp only [NamedGraph.addEdge] at heq
  obtain ⟨i, _, heq⟩ := Res.bind_eq_ok.mp heq
  obtain ⟨j, _, heq⟩ := Res.bind_eq_ok.mp heq
  obtain ⟨gr, hg, heq⟩ := Res.bind_eq_ok.mp heq
  simp only [Res.pure_def, Res.ok.injEq] at heq
  subst heq
  simp only [Graph.addEdge] at hg
  obtain ⟨nd, hnd, hg⟩ := Res.bind_eq_ok.mp hg
  have hd := h nd (List.mem_of_getElem? (Res.unwrapO_eq_ok.mp hnd))
  split at hg
  · simp only [Res.bind_ok, Res.pure_def, Res.ok.injEq] at hg
    subst hg
    refine h.set ?_
    exact hd
  · obtain ⟨id, _, hg⟩ := Res.bind_eq_ok.mp hg
    simp only [Res.bind_ok, Res.pure_def, Res.ok.injEq] at hg
    subst hg
    refine h.set ?_
    exact hd

theorem GNodup.markFollowing {pd : ParserData I} {fs : NamedSets} {e : Nat} {es : List Nat}
    {g g' : FollowGraph} {a : Bool} (h : GNodup g) (heq : markFollowing pd fs e es g = .ok (g', a)) :
    GNodup g' := by
  simp only [HPP.markFollowing] at heq
  split at heq
  · simp only [Res.ok.injEq, Prod.mk.injEq] at heq
    exact heq.1 ▸ h
  · obtain ⟨S, _, heq⟩ := Res.bind_eq_ok.mp heq
    obtain ⟨ms, _, heq⟩ := Res.bind_eq_ok.mp heq
    obtain ⟨g1, hg1, heq⟩ := Res.bind_eq_ok.mp heq
    simp only [Res.ok.injEq, Prod.mk.injEq] at heq
    exact heq.1 ▸ h.modifyNode (fun d hd => nodup_setExtend hd _) hg1

theorem GNodup.linkIf {a : Bool} {l e : Nat} {g g' : FollowGraph} (h : GNodup g)
    (heq : linkIf a l e g = .ok g') : GNodup g' := by
  simp only [HPP.linkIf] at heq
  split at heq
  · exact h.addEdge heq
  · simp only [Res.ok.injEq] at heq
    exact heq ▸ h

theorem GNodup.graphMarking {pd : ParserData I} {fs : NamedSets} {left : Nat} (els : List Nat) :
    ∀ {g g' : FollowGraph}, GNodup g → graphMarking pd fs left els g = .ok g' → GNodup g' := by
  induction els with
  | nil => intro g g' h heq; simp only [HPP.graphMarking, Res.ok.injEq] at heq; exact heq ▸ h
  | cons e es ih =>
    intro g g' h heq
    simp only [HPP.graphMarking] at heq
    obtain ⟨el, _, heq⟩ := Res.bind_eq_ok.mp heq
    cases hel : el.et with
    | terminal => rw [hel] at heq; exact ih h heq
    | nonTerminal =>
      rw [hel] at heq
      obtain ⟨⟨g1, a⟩, hg1, heq⟩ := Res.bind_eq_ok.mp heq
      obtain ⟨g2, hg2, heq⟩ := Res.bind_eq_ok.mp heq
      exact ih ((h.markFollowing hg1).linkIf hg2) heq

theorem GNodup.markProductions {pd : ParserData I} {fs : NamedSets} {left : Nat} (ps : List Production) :
    ∀ {g g' : FollowGraph}, GNodup g → markProductions pd fs left ps g = .ok g' → GNodup g' := by
  induction ps with
  | nil => intro g g' h heq; simp only [HPP.markProductions, Res.ok.injEq] at heq; exact heq ▸ h
  | cons p ps ih =>
    intro g g' h heq
    cases p with
    | empty => exact ih h heq
    | notEmpty els =>
      simp only [HPP.markProductions] at heq
      obtain ⟨g1, hg1, heq⟩ := Res.bind_eq_ok.mp heq
      exact ih (h.graphMarking _ hg1) heq

theorem GNodup.markRules {pd : ParserData I} {fs : NamedSets} (rs : List (Nat × NTRule I)) :
    ∀ {g g' : FollowGraph}, GNodup g → markRules pd fs rs g = .ok g' → GNodup g' := by
  induction rs with
  | nil => intro g g' h heq; simp only [HPP.markRules, Res.ok.injEq] at heq; exact heq ▸ h
  | cons p rs ih =>
    intro g g' h heq
    simp only [HPP.markRules] at heq
    obtain ⟨g1, hg1, heq⟩ := Res.bind_eq_ok.mp heq
    exact ih (h.markProductions _ hg1) heq

theorem GNodup.makeGraphLoop (ns : List Nat) :
    ∀ {g g' : FollowGraph}, GNodup g → makeGraphLoop ns g = .ok g' → GNodup g' := by
  induction ns with
  | nil => intro g g' h heq; simp only [HPP.makeGraphLoop, Res.ok.injEq] at heq; exact heq ▸ h
  | cons n ns ih =>
    intro g g' h heq
    simp only [HPP.makeGraphLoop] at heq
    obtain ⟨⟨i, g1⟩, hg1, heq⟩ := Res.bind_eq_ok.mp heq
    refine ih ?_ heq
    simp only [NamedGraph.addNode] at hg1
    split at hg1
    · simp at hg1
    · simp only [Res.ok.injEq, Prod.mk.injEq] at hg1
      rw [← hg1.2]
      intro nd hnd
      simp only [Graph.addNode, List.mem_append, List.mem_singleton] at hnd
      rcases hnd with hnd | rfl
      · exact h nd hnd
      · simp

theorem GNodup.applyRound (todo : List (Nat × List SetMember)) :
    ∀ {g g' : FollowGraph}, GNodup g → applyRound todo g = .ok g' → GNodup g' := by
  induction todo with
  | nil => intro g g' h heq; simp only [HPP.applyRound, Res.ok.injEq] at heq; exact heq ▸ h
  | cons p rs ih =>
    intro g g' h heq
    obtain ⟨ix, ms⟩ := p
    simp only [HPP.applyRound] at heq
    obtain ⟨g1, hg1, heq⟩ := Res.bind_eq_ok.mp heq
    exact ih (h.modifyNodeByIndex (fun d hd => nodup_setExtend hd _) hg1) heq

theorem GNodup.propagate {ho : HashOrder} (fuel : Nat) :
    ∀ {g g' : FollowGraph}, GNodup g → propagate ho fuel g = .ok g' → GNodup g' := by
  induction fuel with
  | zero => intro g g' h heq; simp [HPP.propagate] at heq
  | succ fuel ih =>
    intro g g' h heq
    simp only [HPP.propagate] at heq
    obtain ⟨todo, _, heq⟩ := Res.bind_eq_ok.mp heq
    obtain ⟨g1, hg1, heq⟩ := Res.bind_eq_ok.mp heq
    split at heq
    · simp only [Res.pure_def, Res.ok.injEq] at heq
      exact heq ▸ h.applyRound _ hg1
    · exact ih (h.applyRound _ hg1) heq

theorem GNodup.collectFollow {g : FollowGraph} (h : GNodup g) (items : List (Nat × Nat)) :
    ∀ {acc r}, SetsNodup acc → collectFollow g items acc = .ok r → SetsNodup r := by
  induction items with
  | nil => intro acc r ha heq; simp only [HPP.collectFollow, Res.ok.injEq] at heq; exact heq ▸ ha
  | cons p items ih =>
    intro acc r ha heq
    obtain ⟨name, ix⟩ := p
    simp only [HPP.collectFollow] at heq
    obtain ⟨nd, hnd, heq⟩ := Res.bind_eq_ok.mp heq
    refine ih (ha.insert (h nd ?_)) heq
    simp only [NamedGraph.getNodeByIndex] at hnd
    split at hnd
    · simp at hnd
    · split at hnd
      · simp at hnd
      · exact List.mem_of_getElem? (Res.unwrapO_eq_ok.mp hnd)

theorem getFollowSets_nodup {ho : HashOrder} {fuel start : Nat} {fs : NamedSets} {pd : ParserData I}
    {r : NamedSetsNoEmpty} (h : getFollowSets ho fuel start fs pd = .ok r) : SetsNodup r := by
  simp only [getFollowSets, makeGraphWithIndex] at h
  obtain ⟨g1, hg1, h⟩ := Res.bind_eq_ok.mp h
  obtain ⟨g2, hg2, h⟩ := Res.bind_eq_ok.mp h
  obtain ⟨g3, hg3, h⟩ := Res.bind_eq_ok.mp h
  simp only [makeFollowSets] at h
  obtain ⟨g4, hg4, h⟩ := Res.bind_eq_ok.mp h
  have h0 : GNodup (NamedGraph.new : FollowGraph) := by
    intro nd hnd; simp [NamedGraph.new, Graph.new] at hnd
  have h3 := ((h0.makeGraphLoop _ hg1).modifyNode (fun d hd => nodup_setInsert hd _) hg2).markRules _ hg3
  exact (h3.propagate _ hg4).collectFollow _ SetsNodup.nil h

/-! ### steuer sets -/

theorem toSetMembers_nodup {ε : Type} (l : List SetMemberE) : ∀ {r}, l.Nodup →
    (toSetMembers l : Res ε _) = .ok r → r.Nodup ∧ ∀ m, m ∈ r ↔ ∃ e ∈ l, SetMember.tryFrom e = some m := by
  induction l with
  | nil => intro r _ h; simp [toSetMembers] at h; subst h; simp
  | cons x xs ih =>
    intro r hn h
    simp only [toSetMembers] at h
    obtain ⟨y, hy, h⟩ := Res.bind_eq_ok.mp h
    obtain ⟨ys, hys, h⟩ := Res.bind_eq_ok.mp h
    simp only [Res.pure_def, Res.ok.injEq] at h
    subst h
    simp only [List.nodup_cons] at hn
    obtain ⟨h1, h2⟩ := ih hn.2 hys
    have hy' := Res.unwrapO_eq_ok.mp hy
    constructor
    · rw [List.nodup_cons]
      refine ⟨fun hc => ?_, h1⟩
      obtain ⟨e, he, hey⟩ := (h2 y).mp hc
      have : e = x := by
        have hxy := hy'.trans hey.symm
        clear h2 hn hc hy hys ih he
        cases e <;> cases x <;> simp [SetMember.tryFrom] at hxy <;> simp [hxy]
      exact hn.1 (this ▸ he)
    · intro m
      simp only [List.mem_cons, h2, exists_eq_or_imp, hy', Option.some.injEq]
      constructor
      · rintro (rfl | h) <;> simp_all
      · rintro (rfl | h) <;> simp_all

end HPP
