import Verif.Proofs.FollowFinal
/-
`get_follow_sets` never panics on data whose elements exist.
-/
namespace HPP
open Spec Function Relation
variable {I : Type}

/-- Not a panic. -/
def NP {ε α : Type} (r : Res ε α) : Prop := r ≠ .panic

theorem NP.bind {ε α β : Type} {r : Res ε α} {f : α → Res ε β} (h : NP r)
    (hf : ∀ a, r = .ok a → NP (f a)) : NP (r >>= f) := by
  cases r with
  | ok a => exact hf a rfl
  | err e => simp [NP]
  | panic => exact absurd rfl h
  | timeout => simp [NP]

theorem NP.ok {ε α : Type} (a : α) : NP (.ok a : Res ε α) := by simp [NP]
theorem NP.err {ε α : Type} (e : ε) : NP (.err e : Res ε α) := by simp [NP]
theorem NP.ofOption {ε α : Type} (o : Option α) (e : ε) : NP (Res.ofOption o e) := by
  cases o <;> simp [NP, Res.ofOption]

theorem firstSetOfPartial_np {pd : ParserData I} {fs : NamedSets}
    (hlen : pd.elementTypes.length = pd.elementData.length) (els : List Nat)
    (hels : ∀ e ∈ els, e < pd.elementTypes.length) : NP (firstSetOfPartial pd fs els) := by
  have key : ∀ (els : List Nat), (∀ e ∈ els, e < pd.elementTypes.length) →
      ∀ S, NP (firstSetOfPartialLoop pd fs els S) := by
    intro els
    induction els with
    | nil => intro _ S; exact .ok _
    | cons e es ih =>
      intro hels S
      have he := hels e (by simp)
      simp only [firstSetOfPartialLoop]
      refine NP.bind ?_ (fun o _ => NP.bind (.ofOption _ _) (fun c _ => ?_))
      · simp only [getFirstSetOfElement, List.getElem?_eq_getElem he, Res.unwrapO_some, Res.bind_ok]
        cases pd.elementTypes[e] with
        | nonTerminal => exact .ok _
        | terminal =>
          simp only [ParserData.getElementData, List.getElem?_eq_getElem (hlen ▸ he), Res.unwrapO_some,
            Res.bind_ok]
          split <;> exact .ok _
      · split
        · exact .ok _
        · exact ih (fun x hx => hels x (by simp [hx])) _
  exact key els hels []

theorem Valid.modifyNode_np {g : FollowGraph} (h : Valid g) {n : Nat}
    {f : List SetMember → List SetMember} : NP (g.modifyNode n f) := by
  obtain ⟨data, out, h⟩ := h
  cases hn : AMap.get g.names n with
  | none => rw [NRep.modifyNode_none hn]; exact .err _
  | some i =>
    obtain ⟨g2, hg2, _⟩ := h.modifyNode hn (List.getElem?_eq_getElem (h.lt n i hn)) f
    rw [hg2]; exact .ok _

theorem Valid.addEdge_np {g : FollowGraph} (h : Valid g) {a b : Nat} : NP (g.addEdge a b) := by
  obtain ⟨data, out, h⟩ := h
  cases ha : AMap.get g.names a with
  | none => obtain ⟨e, he⟩ := NRep.addEdge_err (g := g) (b := b) (.inl ha); rw [he]; exact .err _
  | some i =>
    cases hb : AMap.get g.names b with
    | none => obtain ⟨e, he⟩ := NRep.addEdge_err (g := g) (a := a) (.inr hb); rw [he]; exact .err _
    | some j => obtain ⟨g2, hg2, _⟩ := h.addEdge ha hb; rw [hg2]; exact .ok _

theorem markFollowing_np {pd : ParserData I} {fs : NamedSets} {e : Nat} {es : List Nat}
    (hlen : pd.elementTypes.length = pd.elementData.length)
    (hes : ∀ x ∈ es, x < pd.elementTypes.length)
    {g : FollowGraph} (h : Valid g) : NP (markFollowing pd fs e es g) := by
  simp only [markFollowing]
  split
  · exact .ok _
  · refine NP.bind (firstSetOfPartial_np hlen _ hes) (fun S _ => NP.bind ?_ (fun ms _ =>
      NP.bind h.modifyNode_np (fun _ _ => .ok _)))
    obtain ⟨ms, hms, _⟩ := toSetMembers_ok (ε := GErr)
      (if decide (SetMemberE.empty ∈ S) = true then setRemove S .empty else S) (by
        split
        · simp
        · next hc => simpa using hc)
    rw [hms]; exact .ok _

theorem graphMarking_np {pd : ParserData I} {fs : NamedSets} {left : Nat}
    (hlen : pd.elementTypes.length = pd.elementData.length) (els : List Nat)
    (hels : ∀ e ∈ els, e < pd.elementTypes.length) :
    ∀ {g : FollowGraph}, Valid g → NP (graphMarking pd fs left els g) := by
  induction els with
  | nil => intro g _; exact .ok _
  | cons e es ih =>
    intro g h
    have ih := @ih (fun x hx => hels x (by simp [hx]))
    simp only [graphMarking]
    refine NP.bind (.ofOption _ _) (fun el _ => ?_)
    cases el.et with
    | terminal => exact ih h
    | nonTerminal =>
      obtain ⟨-, h2⟩ := markFollowing_valid (pd := pd) (fs := fs) (e := e) (es := es) h
      refine NP.bind (markFollowing_np hlen (fun x hx => hels x (by simp [hx])) h) (fun r hr => ?_)
      obtain ⟨g1, a⟩ := r
      have hv := h2 g1 a hr
      cases a with
      | false => exact ih hv
      | true => exact NP.bind hv.addEdge_np (fun g2 hg2 => ih (hv.addEdge hg2))

theorem markRules_np {pd : ParserData I} {fs : NamedSets}
    (hlen : pd.elementTypes.length = pd.elementData.length) (rs : List (Nat × NTRule I))
    (hels : ∀ q ∈ rs, ∀ p ∈ q.2.prods, ∀ e ∈ prodElems p, e < pd.elementTypes.length) :
    ∀ {g : FollowGraph}, Valid g → NP (markRules pd fs rs g) := by
  have hps : ∀ left (ps : List Production), (∀ p ∈ ps, ∀ e ∈ prodElems p, e < pd.elementTypes.length) →
      ∀ {g : FollowGraph}, Valid g → NP (markProductions pd fs left ps g) := by
    intro left ps
    induction ps with
    | nil => intro _ g _; exact .ok _
    | cons p ps ih =>
      intro hp g h
      have ih := @ih (fun q hq => hp q (by simp [hq]))
      cases p with
      | empty => exact ih h
      | notEmpty els =>
        refine NP.bind (graphMarking_np hlen els (hp (.notEmpty els) (by simp)) h) (fun g1 hg1 => ?_)
        exact ih ((graphMarking_valid els h).2 g1 hg1)
  induction rs with
  | nil => intro g _; exact .ok _
  | cons q rs ih =>
    intro g h
    obtain ⟨el, rule⟩ := q
    refine NP.bind (hps el rule.prods (hels (el, rule) (by simp)) h) (fun g1 hg1 => ?_)
    exact ih (fun q hq => hels q (by simp [hq])) ((markProductions_valid _ h).2 g1 hg1)

theorem markedGraph_np (ho : HashOrder) (start : Nat) (fs : NamedSets) {pd : ParserData I}
    (hw : WellFormed pd) : NP (markedGraph ho start fs pd) := by
  simp only [markedGraph, makeGraphWithIndex]
  obtain ⟨g0, hg0⟩ := makeGraphLoop_succeeds (ho.iter 2 Nat (AMap.keys pd.rules))
    (g := NamedGraph.new) ((ho.perm 2 Nat _).nodup_iff.mpr hw.rulesNodup) (by simp [NamedGraph.new])
  have hv := (makeGraphLoop_valid (ho.iter 2 Nat (AMap.keys pd.rules)) (g := NamedGraph.new)
    ⟨_, _, NRep.new⟩).2 g0 hg0
  rw [hg0, Res.bind_ok]
  refine NP.bind hv.modifyNode_np (fun g1 hg1 => ?_)
  refine markRules_np hw.lengths _ ?_ (hv.modifyNode hg1)
  intro q hq p hp e he
  have := (ho.perm 3 _ _).mem_iff.mp hq
  exact hw.inRange q.1 q.2 (AMap.get_of_mem hw.rulesNodup this) p hp e he

end HPP
