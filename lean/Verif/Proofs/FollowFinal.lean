import Verif.Proofs.FollowMark
/-
The complete FOLLOW computation: exactness, termination, success.
-/
namespace HPP
open Spec Function Relation
variable {I : Type}

theorem markProductions_ok {pd : ParserData I} {fs : NamedSets} (hfs : FInv pd fs) {left : Nat}
    (ps : List Production) : ∀ {g g' : FollowGraph} {D : Nat → SetMember → Prop} {E : Nat → Nat → Prop}
      {K : Nat → Prop}, NView g D E K → markProductions pd fs left ps g = .ok g' →
      NView g' (fun n m => D n m ∨ ∃ p ∈ ps, Marks pd (prodElems p) n m)
        (fun a b => E a b ∨ (a = left ∧ ∃ p ∈ ps, Links pd (prodElems p) b)) K ∧
      ∀ p ∈ ps, ∀ e ∈ prodElems p, e < pd.elementTypes.length ∧
        (pd.elementTypes[e]? = some .nonTerminal → K e) := by
  induction ps with
  | nil =>
    intro g g' D E K h heq
    simp only [markProductions, Res.ok.injEq] at heq
    subst heq
    refine ⟨h.congr ?_ ?_, by simp⟩ <;> simp
  | cons p ps ih =>
    intro g g' D E K h heq
    cases p with
    | empty =>
      simp only [markProductions] at heq
      obtain ⟨h1, h2⟩ := ih h heq
      refine ⟨h1.congr ?_ ?_, ?_⟩
      · intro n m; simp [prodElems, Marks]
      · intro a b; simp [prodElems, Links]
      · intro q hq
        rcases List.mem_cons.mp hq with rfl | hq
        · simp [prodElems]
        · exact h2 q hq
    | notEmpty els =>
      simp only [markProductions] at heq
      obtain ⟨g1, hg1, heq⟩ := Res.bind_eq_ok.mp heq
      obtain ⟨h1, h2⟩ := graphMarking_ok hfs els h hg1
      obtain ⟨h3, h4⟩ := ih h1 heq
      refine ⟨h3.congr ?_ ?_, ?_⟩
      · intro n m; simp [prodElems, or_assoc]
      · intro a b; simp [prodElems, or_assoc, and_or_left]
      · intro q hq
        rcases List.mem_cons.mp hq with rfl | hq
        · exact h2
        · exact h4 q hq

theorem markProductions_succeeds {pd : ParserData I} {fs : NamedSets} (hfs : FInv pd fs)
    (hlen : pd.elementTypes.length = pd.elementData.length) {left : Nat}
    (ps : List Production) : ∀ {g : FollowGraph} {D : Nat → SetMember → Prop} {E : Nat → Nat → Prop}
      {K : Nat → Prop}, NView g D E K → K left →
      (∀ p ∈ ps, ∀ e ∈ prodElems p, e < pd.elementTypes.length ∧
        (pd.elementTypes[e]? = some .nonTerminal → K e)) →
      (∀ n, K n → pd.elementTypes[n]? = some .nonTerminal → n ∈ AMap.keys fs) →
      ∃ g', markProductions pd fs left ps g = .ok g' := by
  induction ps with
  | nil => intro g D E K _ _ _ _; exact ⟨g, rfl⟩
  | cons p ps ih =>
    intro g D E K h hl hps hk
    have hps' := fun q (hq : q ∈ ps) => hps q (List.mem_cons_of_mem _ hq)
    cases p with
    | empty => exact ih h hl hps' hk
    | notEmpty els =>
      obtain ⟨g1, hg1⟩ := graphMarking_succeeds hfs hlen els h hl
        (hps (.notEmpty els) (by simp)) hk
      obtain ⟨h1, -⟩ := graphMarking_ok hfs els h hg1
      simp only [markProductions, hg1, Res.bind_ok]
      exact ih h1 hl hps' hk

theorem markRules_ok {pd : ParserData I} {fs : NamedSets} (hfs : FInv pd fs)
    (rs : List (Nat × NTRule I)) : ∀ {g g' : FollowGraph} {D : Nat → SetMember → Prop}
      {E : Nat → Nat → Prop} {K : Nat → Prop}, NView g D E K → markRules pd fs rs g = .ok g' →
      NView g' (fun n m => D n m ∨ ∃ q ∈ rs, ∃ p ∈ q.2.prods, Marks pd (prodElems p) n m)
        (fun a b => E a b ∨ ∃ q ∈ rs, a = q.1 ∧ ∃ p ∈ q.2.prods, Links pd (prodElems p) b) K ∧
      ∀ q ∈ rs, ∀ p ∈ q.2.prods, ∀ e ∈ prodElems p, e < pd.elementTypes.length ∧
        (pd.elementTypes[e]? = some .nonTerminal → K e) := by
  induction rs with
  | nil =>
    intro g g' D E K h heq
    simp only [markRules, Res.ok.injEq] at heq
    subst heq
    refine ⟨h.congr ?_ ?_, by simp⟩ <;> simp
  | cons q rs ih =>
    intro g g' D E K h heq
    obtain ⟨el, rule⟩ := q
    simp only [markRules] at heq
    obtain ⟨g1, hg1, heq⟩ := Res.bind_eq_ok.mp heq
    obtain ⟨h1, h2⟩ := markProductions_ok hfs _ h hg1
    obtain ⟨h3, h4⟩ := ih h1 heq
    refine ⟨h3.congr ?_ ?_, ?_⟩
    · intro n m; simp [or_assoc]
    · intro a b; simp [or_assoc]
    · intro q hq
      rcases List.mem_cons.mp hq with rfl | hq
      · exact h2
      · exact h4 q hq

theorem markRules_succeeds {pd : ParserData I} {fs : NamedSets} (hfs : FInv pd fs)
    (hlen : pd.elementTypes.length = pd.elementData.length)
    (rs : List (Nat × NTRule I)) : ∀ {g : FollowGraph} {D : Nat → SetMember → Prop}
      {E : Nat → Nat → Prop} {K : Nat → Prop}, NView g D E K → (∀ q ∈ rs, K q.1) →
      (∀ q ∈ rs, ∀ p ∈ q.2.prods, ∀ e ∈ prodElems p, e < pd.elementTypes.length ∧
        (pd.elementTypes[e]? = some .nonTerminal → K e)) →
      (∀ n, K n → pd.elementTypes[n]? = some .nonTerminal → n ∈ AMap.keys fs) →
      ∃ g', markRules pd fs rs g = .ok g' := by
  induction rs with
  | nil => intro g D E K _ _ _ _; exact ⟨g, rfl⟩
  | cons q rs ih =>
    intro g D E K h hl hps hk
    obtain ⟨el, rule⟩ := q
    obtain ⟨g1, hg1⟩ := markProductions_succeeds hfs hlen rule.prods h (hl (el, rule) (by simp))
        (hps (el, rule) (by simp)) hk
    obtain ⟨h1, -⟩ := markProductions_ok hfs _ h hg1
    simp only [markRules, hg1, Res.bind_ok]
    exact ih h1 (fun q hq => hl q (List.mem_cons_of_mem _ hq))
      (fun q hq => hps q (List.mem_cons_of_mem _ hq)) hk

/-! ### Building the initial graph -/

theorem makeGraphLoop_ok (ns : List Nat) : ∀ {g g' : FollowGraph} {D : Nat → SetMember → Prop}
      {E : Nat → Nat → Prop} {K : Nat → Prop}, NView g D E K → makeGraphLoop ns g = .ok g' →
      NView g' D E (fun n => K n ∨ n ∈ ns) ∧ ns.Nodup := by
  induction ns with
  | nil =>
    intro g g' D E K h heq
    simp only [makeGraphLoop, Res.ok.injEq] at heq
    subst heq
    refine ⟨⟨h.ex, ?_⟩, by simp⟩
    intro n; simp [h.keys]
  | cons x ns ih =>
    intro g g' D E K h heq
    simp only [makeGraphLoop] at heq
    obtain ⟨⟨ix, g1⟩, hg1, heq⟩ := Res.bind_eq_ok.mp heq
    obtain ⟨⟨data, out, h1, h2, h3⟩, h4⟩ := h
    have hx : AMap.get g.names x = none := by
      cases hx : AMap.get g.names x with
      | none => rfl
      | some i => simp [NamedGraph.addNode, hx] at hg1
    obtain ⟨g2, hg2, hr2, hn2⟩ := h1.addNode_new hx ([] : List SetMember)
    rw [hg2] at hg1
    simp only [Res.ok.injEq, Prod.mk.injEq] at hg1
    obtain ⟨-, rfl⟩ := hg1
    have hget : ∀ n, AMap.get g2.names n = if n = x then some data.length else AMap.get g.names n := by
      intro n
      have := AMap.keys_insert_of_not_mem (m := g.names) (k := x) (v := data.length)
        (AMap.get_eq_none_iff.mp hx)
      rw [hn2, ← this, AMap.get_insert]
      by_cases hnx : n = x
      · subst hnx; simp
      · rw [if_neg (fun h => hnx h.symm), if_neg hnx]
    have hv : NView g2 D E (fun n => K n ∨ n = x) := by
      refine ⟨⟨data ++ [[]], out, hr2, ?_, ?_⟩, ?_⟩
      · intro n m
        rw [h2, hget]
        by_cases hnx : n = x
        · subst hnx
          rw [hx]
          simp only [↓reduceIte]
          constructor
          · rintro ⟨i, h5, _⟩; simp at h5
          · rintro ⟨i, h5, d, h6, h7⟩
            cases h5
            simp at h6
            subst h6
            simp at h7
        · rw [if_neg hnx]
          constructor
          · rintro ⟨i, h5, d, h6, h7⟩
            exact ⟨i, h5, d, by rw [List.getElem?_append_left (h1.lt n i h5)]; exact h6, h7⟩
          · rintro ⟨i, h5, d, h6, h7⟩
            exact ⟨i, h5, d, by rw [List.getElem?_append_left (h1.lt n i h5)] at h6; exact h6, h7⟩
      · intro a b
        rw [h3]
        constructor
        · rintro ⟨i, j, h5, h6, h7⟩
          refine ⟨i, j, ?_, ?_, h7⟩
          · rw [hget, if_neg, h5]; rintro rfl; rw [hx] at h5; cases h5
          · rw [hget, if_neg, h6]; rintro rfl; rw [hx] at h6; cases h6
        · rintro ⟨i, j, h5, h6, h7⟩
          rw [hget] at h5 h6
          have hi : a ≠ x := by
            rintro rfl
            simp only [↓reduceIte, Option.some.injEq] at h5
            obtain ⟨id, hid⟩ := h7
            rw [← h5, h1.rep.out_nil (Nat.le_refl _)] at hid
            simp at hid
          have hj : b ≠ x := by
            rintro rfl
            simp only [↓reduceIte, Option.some.injEq] at h6
            obtain ⟨id, hid⟩ := h7
            have := h1.tgt i _ hid
            simp only at this
            omega
          rw [if_neg hi] at h5
          rw [if_neg hj] at h6
          exact ⟨i, j, h5, h6, h7⟩
      · intro n
        rw [h4, hget]
        by_cases hnx : n = x
        · simp [hnx]
        · simp [hnx]
    obtain ⟨h5, h6⟩ := ih hv heq
    refine ⟨⟨h5.ex, ?_⟩, ?_⟩
    · intro n
      rw [← h5.keys]
      simp [or_assoc]
    · rw [List.nodup_cons]
      refine ⟨?_, h6⟩
      intro hxn
      -- a repeated name would have been rejected
      have hex : ∀ (ns : List Nat) (g g' : FollowGraph), makeGraphLoop ns g = .ok g' →
          (∃ i, AMap.get g.names x = some i) → x ∉ ns := by
        intro ns
        induction ns with
        | nil => simp
        | cons y ns ih2 =>
          intro g g' hok ⟨i, hi⟩ hmem
          simp only [makeGraphLoop] at hok
          obtain ⟨⟨ix, g1⟩, hg1, hok⟩ := Res.bind_eq_ok.mp hok
          rcases List.mem_cons.mp hmem with rfl | hmem
          · simp [NamedGraph.addNode, hi] at hg1
          · refine ih2 g1 g' hok ?_ hmem
            cases hy : AMap.get g.names y with
            | some _ => simp [NamedGraph.addNode, hy] at hg1
            | none =>
              simp only [NamedGraph.addNode, hy, Res.ok.injEq, Prod.mk.injEq] at hg1
              rw [← hg1.2]
              simp only
              rw [AMap.get_insert]
              split
              · exact ⟨_, rfl⟩
              · exact ⟨i, hi⟩
      exact hex ns g2 g' heq ⟨data.length, by rw [hget]; simp⟩ hxn

theorem makeGraphLoop_succeeds (ns : List Nat) : ∀ {g : FollowGraph},
      ns.Nodup → (∀ n ∈ ns, AMap.get g.names n = none) → ∃ g', makeGraphLoop ns g = .ok g' := by
  induction ns with
  | nil => intro g _ _; exact ⟨g, rfl⟩
  | cons x ns ih =>
    intro g hn hk
    rw [List.nodup_cons] at hn
    have hx := hk x (by simp)
    simp only [makeGraphLoop, NamedGraph.addNode, hx, Res.bind_ok]
    apply ih hn.2
    intro n hn'
    simp only
    rw [AMap.get_insert_ne]
    · exact hk n (by simp [hn'])
    · rintro rfl; exact hn.1 hn'

theorem NView.new : NView (NamedGraph.new : FollowGraph) (fun _ _ => False) (fun _ _ => False)
    (fun _ => False) := by
  refine ⟨⟨[], fun _ => [], NRep.new, ?_, ?_⟩, ?_⟩ <;> simp [NamedGraph.new]

/-! ### The whole computation -/

/-- The state of the graph when propagation starts. -/
def InitMark (pd : ParserData I) (start : Nat) (n : Nat) (m : SetMember) : Prop :=
  (n = start ∧ m = .terminate) ∨ ∃ q ∈ pd.rules, ∃ p ∈ q.2.prods, Marks pd (prodElems p) n m

def InitEdge (pd : ParserData I) (a b : Nat) : Prop :=
  ∃ q ∈ pd.rules, a = q.1 ∧ ∃ p ∈ q.2.prods, Links pd (prodElems p) b

/-- Everything before propagation, as one step. -/
def markedGraph (ho : HashOrder) (start : Nat) (fs : NamedSets) (pd : ParserData I) :
    Res GErr FollowGraph := do
  let g ← makeGraphWithIndex ho pd
  let g ← g.modifyNode start (fun d => setInsert d .terminate)
  markRules pd fs (ho.iter 3 (Nat × NTRule I) pd.rules) g

theorem getFollowSets_eq (ho : HashOrder) (fuel start : Nat) (fs : NamedSets) (pd : ParserData I) :
    getFollowSets ho fuel start fs pd = markedGraph ho start fs pd >>= makeFollowSets ho fuel := by
  simp only [getFollowSets, markedGraph, bind_assoc]

theorem markedGraph_ok {ho : HashOrder} {start : Nat} {fs : NamedSets} {pd : ParserData I}
    (hfs : FInv pd fs) {g : FollowGraph} (h : markedGraph ho start fs pd = .ok g) :
    NView g (InitMark pd start) (InitEdge pd) (fun n => n ∈ AMap.keys pd.rules) ∧
      start ∈ AMap.keys pd.rules ∧ AMap.NodupKeys pd.rules ∧
      ∀ q ∈ pd.rules, ∀ p ∈ q.2.prods, ∀ e ∈ prodElems p, e < pd.elementTypes.length ∧
        (pd.elementTypes[e]? = some .nonTerminal → e ∈ AMap.keys pd.rules) := by
  simp only [markedGraph, makeGraphWithIndex] at h
  obtain ⟨g0, hg0, h⟩ := Res.bind_eq_ok.mp h
  obtain ⟨hv0, hnd⟩ := makeGraphLoop_ok _ NView.new hg0
  have hv0' : NView g0 (fun _ _ => False) (fun _ _ => False) (fun n => n ∈ AMap.keys pd.rules) := by
    refine ⟨hv0.ex, ?_⟩
    intro n
    rw [← hv0.keys, (ho.perm 2 Nat _).mem_iff]
    simp
  obtain ⟨g1, hg1, h⟩ := Res.bind_eq_ok.mp h
  have hst : start ∈ AMap.keys pd.rules := by
    by_contra hc
    obtain ⟨e, he⟩ := hv0'.modify_none hc (fun d => setInsert d .terminate)
    rw [he] at hg1; simp at hg1
  obtain ⟨g1', hg1', hv1⟩ := hv0'.modify hst (fun d => setInsert d .terminate) (· = .terminate)
    (fun d m => by rw [mem_setInsert, or_comm])
  rw [hg1] at hg1'
  cases hg1'
  obtain ⟨hv2, h2⟩ := markRules_ok hfs _ hv1 h
  have hmem : ∀ q, q ∈ ho.iter 3 (Nat × NTRule I) pd.rules ↔ q ∈ pd.rules :=
    fun q => (ho.perm 3 _ _).mem_iff
  refine ⟨hv2.congr ?_ ?_, hst, ?_, ?_⟩
  · intro n m; simp only [InitMark, hmem, false_or]
  · intro a b; simp only [InitEdge, hmem, false_or]
  · exact (ho.perm 2 Nat _).nodup_iff.mp hnd
  · intro q hq; exact h2 q ((hmem q).mpr hq)

theorem markedGraph_succeeds {ho : HashOrder} {start : Nat} {fs : NamedSets} {pd : ParserData I}
    (hfs : FInv pd fs) (hw : WellFormed pd) (hd : AllDefined pd) (hst : start ∈ AMap.keys pd.rules)
    (hk : ∀ n ∈ AMap.keys pd.rules, n ∈ AMap.keys fs) :
    ∃ g, markedGraph ho start fs pd = .ok g := by
  obtain ⟨g0, hg0⟩ := makeGraphLoop_succeeds (ho.iter 2 Nat (AMap.keys pd.rules))
    (g := NamedGraph.new) ((ho.perm 2 Nat _).nodup_iff.mpr hw.rulesNodup) (by simp [NamedGraph.new])
  obtain ⟨hv0, -⟩ := makeGraphLoop_ok _ NView.new hg0
  have hv0' : NView g0 (fun _ _ => False) (fun _ _ => False) (fun n => n ∈ AMap.keys pd.rules) := by
    refine ⟨hv0.ex, ?_⟩
    intro n
    rw [← hv0.keys, (ho.perm 2 Nat _).mem_iff]
    simp
  obtain ⟨g1, hg1, hv1⟩ := hv0'.modify hst (fun d => setInsert d .terminate) (· = .terminate)
    (fun d m => by rw [mem_setInsert, or_comm])
  have hmem : ∀ q, q ∈ ho.iter 3 (Nat × NTRule I) pd.rules ↔ q ∈ pd.rules :=
    fun q => (ho.perm 3 _ _).mem_iff
  obtain ⟨g2, hg2⟩ := markRules_succeeds hfs hw.lengths (ho.iter 3 (Nat × NTRule I) pd.rules) hv1
    (by
      intro q hq
      exact List.mem_map_of_mem (f := (·.1)) ((hmem q).mp hq))
    (by
      intro q hq p hp e he
      have hget : AMap.get pd.rules q.1 = some q.2 := AMap.get_of_mem hw.rulesNodup ((hmem q).mp hq)
      exact ⟨hw.inRange _ _ hget p hp e he, fun ht => AMap.mem_keys_iff.mpr (hd _ _ hget p hp e he ht)⟩)
    (fun n hn _ => hk n hn)
  exact ⟨g2, by simp [markedGraph, makeGraphWithIndex, hg0, hg1, hg2]⟩

/-- The least solution of the FOLLOW equations is the closure of the initial marks under the edges. -/
theorem followG_iff_closure {pd : ParserData I} {start : Nat} (hn : AMap.NodupKeys pd.rules)
    (hel : ∀ q ∈ pd.rules, ∀ p ∈ q.2.prods, ∀ e ∈ prodElems p, e < pd.elementTypes.length ∧
        (pd.elementTypes[e]? = some .nonTerminal → e ∈ AMap.keys pd.rules))
    (hlen : pd.elementTypes.length = pd.elementData.length) {A : Nat} {m : SetMember} :
    FollowG (grammarOf pd) start A m ↔
      ∃ x, ReflTransGen (InitEdge pd) x A ∧ InitMark pd start x m := by
  have hsplit : ∀ B u A v, grammarOf pd B (u ++ .nt A :: v) →
      ∃ q ∈ pd.rules, q.1 = B ∧ ∃ p ∈ q.2.prods, ∃ a b, prodElems p = a ++ A :: b ∧
        formOf pd b = v ∧ pd.elementTypes[A]? = some .nonTerminal := by
    rintro B u A v ⟨r, hr, p, hp, he⟩
    obtain ⟨a, b, h1, -, h3, h4⟩ := formOf_split he.symm
    refine ⟨(B, r), AMap.mem_of_get hr, rfl, p, hp, a, b, h1, h3, ?_⟩
    have hlt := (hel (B, r) (AMap.mem_of_get hr) p hp A (by rw [h1]; simp)).1
    have hlt2 : A < pd.elementData.length := hlen ▸ hlt
    rw [List.getElem?_eq_getElem hlt]
    cases ht : pd.elementTypes[A] with
    | nonTerminal => rfl
    | terminal =>
      exfalso
      rw [elemForm_terminal (d := pd.elementData[A]) (by rw [List.getElem?_eq_getElem hlt, ht])
        (List.getElem?_eq_getElem hlt2)] at h4
      cases hname : pd.elementData[A].name with
      | nil => rw [hname] at h4; simp [ofText] at h4
      | cons c cs => rw [hname] at h4; simp [ofText] at h4
  constructor
  · intro h
    induction h with
    | start => exact ⟨start, .refl, .inl ⟨rfl, rfl⟩⟩
    | @first B A u v c hr hf =>
      obtain ⟨q, hq, -, p, hp, a, b, h1, rfl, h3⟩ := hsplit _ _ _ _ hr
      exact ⟨A, .refl, .inr ⟨q, hq, p, hp, a, b, c, h1, h3, rfl, hf⟩⟩
    | @prop B A u v m hr hnl _ ih =>
      obtain ⟨q, hq, rfl, p, hp, a, b, h1, rfl, h3⟩ := hsplit _ _ _ _ hr
      obtain ⟨x, hx, hm⟩ := ih
      exact ⟨x, hx.tail ⟨q, hq, rfl, p, hp, a, b, h1, h3, hnl⟩, hm⟩
  · rintro ⟨x, hx, hm⟩
    have hrule : ∀ q ∈ pd.rules, ∀ p ∈ q.2.prods, ∀ a b n, prodElems p = a ++ n :: b →
        pd.elementTypes[n]? = some .nonTerminal →
        grammarOf pd q.1 (formOf pd a ++ .nt n :: formOf pd b) := by
      intro q hq p hp a b n h1 h2
      refine ⟨q.2, AMap.get_of_mem hn hq, p, hp, ?_⟩
      rw [h1]
      simp [formOf_append, elemForm_nonTerminal h2]
    induction hx with
    | refl =>
      rcases hm with ⟨rfl, rfl⟩ | ⟨q, hq, p, hp, a, b, c, h1, h2, rfl, hf⟩
      · exact .start
      · exact .first (hrule q hq p hp a b x h1 h2) hf
    | tail _ he ih =>
      obtain ⟨q, hq, rfl, p, hp, a, b, h1, h2, hnl⟩ := he
      exact .prop (hrule q hq p hp a b _ h1 h2) hnl ih

/-- Propagation on a marked graph always finishes; the result is the closure. -/
theorem makeFollowSets_spec {g : FollowGraph} {D : Nat → SetMember → Prop} {E : Nat → Nat → Prop}
    {K : Nat → Prop} (h : NView g D E K) (ho : HashOrder) :
    ∃ N r, (∀ fuel, N ≤ fuel → makeFollowSets ho fuel g = .ok r) ∧
      (∀ n, (∃ S, AMap.get r n = some S) ↔ K n) ∧
      ∀ n S, AMap.get r n = some S → ∀ m, m ∈ S ↔ ∃ x, ReflTransGen E x n ∧ D x m := by
  obtain ⟨⟨data, out, h1, h2, h3⟩, h4⟩ := h
  obtain ⟨g', data', hp, hr, hnm, hl, hm⟩ := propagate_spec (out := out) ho data.flatten
    (missingCount data.flatten data) h1 (by
      rintro j m ⟨d, hd, hm⟩
      exact List.mem_flatten.mpr ⟨d, List.mem_of_getElem? hd, hm⟩) (Nat.le_refl _)
  obtain ⟨r, hr1, hr2⟩ := collectFollow_spec hr (ho.iter 5 (Nat × Nat) g'.names) (by
    intro p hp
    have := AMap.get_of_mem hr.keysNodup ((ho.perm 5 _ g'.names).mem_iff.mp hp)
    exact hr.lt _ _ this) ((hr.keysNodup).perm (ho.perm 5 _ _)) []
  have hget : ∀ n, AMap.get r n = (AMap.get g.names n).bind (fun i => data'[i]?) := by
    intro n
    rw [hr2, AMap.get_perm hr.keysNodup (ho.perm 5 _ _), hnm]
    cases AMap.get g.names n <;> rfl
  refine ⟨missingCount data.flatten data + 1, r, ?_, ?_, ?_⟩
  · intro fuel hf
    simp only [makeFollowSets, hp fuel (by omega), Res.bind_ok]
    exact hr1
  · intro n
    rw [h4, hget]
    constructor
    · rintro ⟨S, hS⟩
      cases hg : AMap.get g.names n with
      | none => simp [hg] at hS
      | some i => exact ⟨i, rfl⟩
    · rintro ⟨i, hi⟩
      have hlt := h1.lt n i hi
      exact ⟨_, by rw [hi]; exact List.getElem?_eq_getElem (hl ▸ hlt)⟩
  · intro n S hS m
    rw [hget] at hS
    cases hg : AMap.get g.names n with
    | none => simp [hg] at hS
    | some j =>
      rw [hg] at hS
      simp only [Option.bind_some] at hS
      have hin : m ∈ S ↔ InD data' j m := by
        constructor
        · intro h; exact ⟨S, hS, h⟩
        · rintro ⟨d, hd, h⟩; rw [hS] at hd; cases hd; exact h
      rw [hin, hm]
      constructor
      · rintro ⟨i, hpath, hi⟩
        obtain ⟨x, hx⟩ := h1.surj i hi.lt
        refine ⟨x, ?_, (h2 x m).mpr ⟨i, hx, hi⟩⟩
        clear hin hi hS hm
        induction hpath generalizing n with
        | refl => rw [h1.inj x n i hx hg]
        | @tail b c _ he ih =>
          have hb : b < data.length := by
            by_contra hc
            obtain ⟨id, hid⟩ := he
            rw [h1.rep.out_nil (by omega)] at hid
            simp at hid
          obtain ⟨y, hy⟩ := h1.surj b hb
          exact (ih y hy).tail ((h3 y n).mpr ⟨b, c, hy, hg, he⟩)
      · rintro ⟨x, hpath, hx⟩
        obtain ⟨i, hi, hin'⟩ := (h2 x m).mp hx
        refine ⟨i, ?_, hin'⟩
        clear hin hS hm
        induction hpath generalizing j with
        | refl => rw [hi] at hg; cases hg; exact .refl
        | tail _ he ih =>
          obtain ⟨a, b, ha, hb, he⟩ := (h3 _ _).mp he
          rw [hg] at hb; cases hb
          exact (ih a ha).tail he

end HPP

namespace HPP
open Spec Function Relation
variable {I : Type}

/-! ### Termination for arbitrary (also ill-formed) data -/

/-- The graph is a valid named graph. -/
def Valid (g : FollowGraph) : Prop := ∃ data out, NRep g data out

theorem Valid.modifyNode {g g' : FollowGraph} (h : Valid g) {n : Nat} {f : List SetMember → List SetMember}
    (heq : g.modifyNode n f = .ok g') : Valid g' := by
  obtain ⟨data, out, h⟩ := h
  cases hn : AMap.get g.names n with
  | none => rw [NRep.modifyNode_none hn] at heq; simp at heq
  | some i =>
    obtain ⟨g2, hg2, hr, _⟩ := h.modifyNode hn (List.getElem?_eq_getElem (h.lt n i hn)) f
    rw [hg2] at heq; cases heq
    exact ⟨_, _, hr⟩

theorem Valid.addEdge {g g' : FollowGraph} (h : Valid g) {a b : Nat}
    (heq : g.addEdge a b = .ok g') : Valid g' := by
  obtain ⟨data, out, h⟩ := h
  cases ha : AMap.get g.names a with
  | none => obtain ⟨e, he⟩ := NRep.addEdge_err (g := g) (b := b) (.inl ha); rw [he] at heq; simp at heq
  | some i =>
    cases hb : AMap.get g.names b with
    | none => obtain ⟨e, he⟩ := NRep.addEdge_err (g := g) (a := a) (.inr hb); rw [he] at heq; simp at heq
    | some j =>
      obtain ⟨g2, hg2, hr, _⟩ := h.addEdge ha hb
      rw [hg2] at heq; cases heq
      exact ⟨_, _, hr⟩

theorem modifyNode_ne_timeout {g : FollowGraph} {n : Nat} {f : List SetMember → List SetMember} :
    g.modifyNode n f ≠ .timeout := by
  intro h
  simp only [NamedGraph.modifyNode, NamedGraph.getIndexOfNode] at h
  rcases Res.bind_eq_timeout.mp h with h | ⟨_, _, h⟩
  · exact Res.ofOption_ne_timeout h
  · rcases Res.bind_eq_timeout.mp h with h | ⟨_, _, h⟩
    · exact Res.unwrapO_ne_timeout h
    · simp at h

theorem Valid.addEdge_ne_timeout {g : FollowGraph} (h : Valid g) {a b : Nat} :
    g.addEdge a b ≠ .timeout := by
  obtain ⟨data, out, h⟩ := h
  cases ha : AMap.get g.names a with
  | none => obtain ⟨e, he⟩ := NRep.addEdge_err (g := g) (b := b) (.inl ha); rw [he]; simp
  | some i =>
    cases hb : AMap.get g.names b with
    | none => obtain ⟨e, he⟩ := NRep.addEdge_err (g := g) (a := a) (.inr hb); rw [he]; simp
    | some j => obtain ⟨g2, hg2, _⟩ := h.addEdge ha hb; rw [hg2]; simp

theorem getFirstSetOfElement_ne_timeout {pd : ParserData I} {fs : NamedSets} {e : Nat} :
    getFirstSetOfElement pd fs e ≠ .timeout := by
  intro h
  simp only [getFirstSetOfElement] at h
  rcases Res.bind_eq_timeout.mp h with h | ⟨t, _, h⟩
  · exact Res.unwrapO_ne_timeout h
  · cases t with
    | nonTerminal => simp at h
    | terminal =>
      simp only at h
      rcases Res.bind_eq_timeout.mp h with h | ⟨d, _, h⟩
      · exact Res.unwrapO_ne_timeout h
      · split at h <;> simp at h

theorem firstSetOfPartial_ne_timeout {pd : ParserData I} {fs : NamedSets} (els : List Nat) :
    firstSetOfPartial pd fs els ≠ .timeout := by
  have key : ∀ (els : List Nat) S, firstSetOfPartialLoop pd fs els S ≠ .timeout := by
    intro els
    induction els with
    | nil => intro S; simp [firstSetOfPartialLoop]
    | cons e es ih =>
      intro S h
      simp only [firstSetOfPartialLoop] at h
      rcases Res.bind_eq_timeout.mp h with h | ⟨o, _, h⟩
      · exact getFirstSetOfElement_ne_timeout h
      · rcases Res.bind_eq_timeout.mp h with h | ⟨c, _, h⟩
        · exact Res.ofOption_ne_timeout h
        · split at h
          · simp at h
          · exact ih _ h
  exact key els []

theorem markFollowing_valid {pd : ParserData I} {fs : NamedSets} {e : Nat} {es : List Nat}
    {g : FollowGraph} (h : Valid g) : markFollowing pd fs e es g ≠ .timeout ∧
      ∀ g' a, markFollowing pd fs e es g = .ok (g', a) → Valid g' := by
  simp only [markFollowing]
  split
  · refine ⟨by simp, ?_⟩
    intro g' a heq
    simp only [Res.ok.injEq, Prod.mk.injEq] at heq
    rw [← heq.1]; exact h
  · constructor
    · intro heq
      rcases Res.bind_eq_timeout.mp heq with heq | ⟨S, _, heq⟩
      · exact firstSetOfPartial_ne_timeout _ heq
      · rcases Res.bind_eq_timeout.mp heq with heq | ⟨ms, _, heq⟩
        · exact toSetMembers_ne_timeout _ heq
        · rcases Res.bind_eq_timeout.mp heq with heq | ⟨ms, _, heq⟩
          · exact modifyNode_ne_timeout heq
          · simp at heq
    · intro g' a heq
      obtain ⟨S, _, heq⟩ := Res.bind_eq_ok.mp heq
      obtain ⟨ms, _, heq⟩ := Res.bind_eq_ok.mp heq
      obtain ⟨g1, hg1, heq⟩ := Res.bind_eq_ok.mp heq
      simp only [Res.ok.injEq, Prod.mk.injEq] at heq
      rw [← heq.1]; exact h.modifyNode hg1

theorem graphMarking_valid {pd : ParserData I} {fs : NamedSets} {left : Nat} (els : List Nat) :
    ∀ {g : FollowGraph}, Valid g → graphMarking pd fs left els g ≠ .timeout ∧
      ∀ g', graphMarking pd fs left els g = .ok g' → Valid g' := by
  induction els with
  | nil =>
    intro g h
    refine ⟨by simp [graphMarking], fun g' heq => ?_⟩
    simp only [graphMarking, Res.ok.injEq] at heq
    exact heq ▸ h
  | cons e es ih =>
    intro g h
    simp only [graphMarking]
    cases hel : pd.getElement e with
    | none => simp
    | some element =>
      simp only [Res.ofOption_some, Res.bind_ok]
      cases element.et with
      | terminal => exact ih h
      | nonTerminal =>
        obtain ⟨h1, h2⟩ := markFollowing_valid (pd := pd) (fs := fs) (e := e) (es := es) h
        have h3 : ∀ a g, Valid g → linkIf a left e g ≠ .timeout ∧ ∀ g', linkIf a left e g = .ok g' → Valid g' := by
          intro a g hg
          simp only [linkIf]
          split
          · exact ⟨hg.addEdge_ne_timeout, fun g' heq => hg.addEdge heq⟩
          · refine ⟨by simp, fun g' heq => ?_⟩
            simp only [Res.ok.injEq] at heq
            exact heq ▸ hg
        constructor
        · intro heq
          rcases Res.bind_eq_timeout.mp heq with heq | ⟨⟨g1, a⟩, hg1, heq⟩
          · exact h1 heq
          · rcases Res.bind_eq_timeout.mp heq with heq | ⟨g2, hg2, heq⟩
            · exact (h3 a g1 (h2 g1 a hg1)).1 heq
            · exact (ih ((h3 a g1 (h2 g1 a hg1)).2 g2 hg2)).1 heq
        · intro g' heq
          obtain ⟨⟨g1, a⟩, hg1, heq⟩ := Res.bind_eq_ok.mp heq
          obtain ⟨g2, hg2, heq⟩ := Res.bind_eq_ok.mp heq
          exact (ih ((h3 a g1 (h2 g1 a hg1)).2 g2 hg2)).2 g' heq

theorem markProductions_valid {pd : ParserData I} {fs : NamedSets} {left : Nat} (ps : List Production) :
    ∀ {g : FollowGraph}, Valid g → markProductions pd fs left ps g ≠ .timeout ∧
      ∀ g', markProductions pd fs left ps g = .ok g' → Valid g' := by
  induction ps with
  | nil =>
    intro g h
    refine ⟨by simp [markProductions], fun g' heq => ?_⟩
    simp only [markProductions, Res.ok.injEq] at heq
    exact heq ▸ h
  | cons p ps ih =>
    intro g h
    cases p with
    | empty => exact ih h
    | notEmpty els =>
      simp only [markProductions]
      obtain ⟨h1, h2⟩ := graphMarking_valid (pd := pd) (fs := fs) (left := left) els h
      constructor
      · intro heq
        rcases Res.bind_eq_timeout.mp heq with heq | ⟨g1, hg1, heq⟩
        · exact h1 heq
        · exact (ih (h2 g1 hg1)).1 heq
      · intro g' heq
        obtain ⟨g1, hg1, heq⟩ := Res.bind_eq_ok.mp heq
        exact (ih (h2 g1 hg1)).2 g' heq

theorem markRules_valid {pd : ParserData I} {fs : NamedSets} (rs : List (Nat × NTRule I)) :
    ∀ {g : FollowGraph}, Valid g → markRules pd fs rs g ≠ .timeout ∧
      ∀ g', markRules pd fs rs g = .ok g' → Valid g' := by
  induction rs with
  | nil =>
    intro g h
    refine ⟨by simp [markRules], fun g' heq => ?_⟩
    simp only [markRules, Res.ok.injEq] at heq
    exact heq ▸ h
  | cons q rs ih =>
    intro g h
    obtain ⟨el, rule⟩ := q
    simp only [markRules]
    obtain ⟨h1, h2⟩ := markProductions_valid (pd := pd) (fs := fs) (left := el) rule.prods h
    constructor
    · intro heq
      rcases Res.bind_eq_timeout.mp heq with heq | ⟨g1, hg1, heq⟩
      · exact h1 heq
      · exact (ih (h2 g1 hg1)).1 heq
    · intro g' heq
      obtain ⟨g1, hg1, heq⟩ := Res.bind_eq_ok.mp heq
      exact (ih (h2 g1 hg1)).2 g' heq

theorem makeGraphLoop_valid (ns : List Nat) : ∀ {g : FollowGraph}, Valid g →
    makeGraphLoop ns g ≠ .timeout ∧ ∀ g', makeGraphLoop ns g = .ok g' → Valid g' := by
  induction ns with
  | nil =>
    intro g h
    refine ⟨by simp [makeGraphLoop], fun g' heq => ?_⟩
    simp only [makeGraphLoop, Res.ok.injEq] at heq
    exact heq ▸ h
  | cons x ns ih =>
    intro g h
    simp only [makeGraphLoop]
    cases hx : AMap.get g.names x with
    | some i => simp [NamedGraph.addNode, hx]
    | none =>
      obtain ⟨data, out, h⟩ := h
      obtain ⟨g1, hg1, hr, _⟩ := h.addNode_new hx ([] : List SetMember)
      simp only [hg1, Res.bind_ok]
      exact ih ⟨_, _, hr⟩

theorem markedGraph_valid (ho : HashOrder) (start : Nat) (fs : NamedSets) (pd : ParserData I) :
    markedGraph ho start fs pd ≠ .timeout ∧ ∀ g, markedGraph ho start fs pd = .ok g → Valid g := by
  simp only [markedGraph, makeGraphWithIndex]
  obtain ⟨h1, h2⟩ := makeGraphLoop_valid (ho.iter 2 Nat (AMap.keys pd.rules)) (g := NamedGraph.new)
    ⟨_, _, NRep.new⟩
  constructor
  · intro heq
    rcases Res.bind_eq_timeout.mp heq with heq | ⟨g1, hg1, heq⟩
    · exact h1 heq
    · rcases Res.bind_eq_timeout.mp heq with heq | ⟨g2, hg2, heq⟩
      · exact modifyNode_ne_timeout heq
      · exact (markRules_valid _ ((h2 g1 hg1).modifyNode hg2)).1 heq
  · intro g heq
    obtain ⟨g1, hg1, heq⟩ := Res.bind_eq_ok.mp heq
    obtain ⟨g2, hg2, heq⟩ := Res.bind_eq_ok.mp heq
    exact (markRules_valid _ ((h2 g1 hg1).modifyNode hg2)).2 g heq

theorem Valid.view {g : FollowGraph} (h : Valid g) : ∃ D E K, NView g D E K := by
  obtain ⟨data, out, h⟩ := h
  exact ⟨_, _, _, ⟨⟨data, out, h, fun _ _ => Iff.rfl, fun _ _ => Iff.rfl⟩, fun _ => Iff.rfl⟩⟩

/-- `get_follow_sets` has, for every iteration order, one definite outcome that is not divergence. -/
theorem getFollowSets_terminates (ho : HashOrder) (start : Nat) (fs : NamedSets) (pd : ParserData I) :
    ∃ N r, r ≠ .timeout ∧ ∀ fuel, N ≤ fuel → getFollowSets ho fuel start fs pd = r := by
  obtain ⟨h1, h2⟩ := markedGraph_valid ho start fs pd
  cases hm : markedGraph ho start fs pd with
  | ok g =>
    obtain ⟨D, E, K, hv⟩ := (h2 g hm).view
    obtain ⟨N, r, hr, _⟩ := makeFollowSets_spec hv ho
    refine ⟨N, .ok r, by simp, fun fuel hf => ?_⟩
    rw [getFollowSets_eq, hm]
    exact hr fuel hf
  | err e => exact ⟨0, .err e, by simp, fun fuel _ => by rw [getFollowSets_eq, hm]; rfl⟩
  | panic => exact ⟨0, .panic, by simp, fun fuel _ => by rw [getFollowSets_eq, hm]; rfl⟩
  | timeout => exact absurd hm h1

theorem propagate_mono (ho : HashOrder) : ∀ fuel (g g' : FollowGraph), propagate ho fuel g = .ok g' → ∀ fuel', fuel ≤ fuel' →
    propagate ho fuel' g = .ok g' := by
  intro fuel
  induction fuel with
  | zero => intro g g' h; simp [propagate] at h
  | succ fuel ih =>
    intro g g' h fuel' hf
    obtain ⟨k, rfl⟩ : ∃ k, fuel' = k + 1 := ⟨fuel' - 1, by omega⟩
    simp only [propagate] at h ⊢
    obtain ⟨todo, h1, h⟩ := Res.bind_eq_ok.mp h
    obtain ⟨g1, h2, h⟩ := Res.bind_eq_ok.mp h
    simp only [h1, h2, Res.bind_ok]
    split at h
    · next hc => rw [if_pos hc]; exact h
    · next hc => rw [if_neg hc]; exact ih _ _ h k (by omega)

theorem makeFollowSets_mono {g : FollowGraph} (ho : HashOrder) {fuel : Nat} {r : NamedSetsNoEmpty}
    (h : makeFollowSets ho fuel g = .ok r) : ∀ fuel', fuel ≤ fuel' → makeFollowSets ho fuel' g = .ok r := by
  intro fuel' hf
  simp only [makeFollowSets] at h ⊢
  obtain ⟨g1, h1, h⟩ := Res.bind_eq_ok.mp h
  simp only [propagate_mono ho _ _ _ h1 fuel' hf, Res.bind_ok]
  exact h

/-- A successful `get_follow_sets` computes exactly the solution of the FOLLOW equations, and shows that
the grammar is complete. -/
theorem getFollowSets_ok {ho : HashOrder} {fuel start : Nat} {fs : NamedSets} {pd : ParserData I}
    (hfs : FInv pd fs) (hlen : pd.elementTypes.length = pd.elementData.length) {r : NamedSetsNoEmpty}
    (h : getFollowSets ho fuel start fs pd = .ok r) :
    (∀ n, (∃ S, AMap.get r n = some S) ↔ n ∈ AMap.keys pd.rules) ∧
    (∀ n S, AMap.get r n = some S → ∀ m, m ∈ S ↔ FollowG (grammarOf pd) start n m) ∧
    start ∈ AMap.keys pd.rules ∧ AMap.NodupKeys pd.rules ∧
    (∀ q ∈ pd.rules, ∀ p ∈ q.2.prods, ∀ e ∈ prodElems p, e < pd.elementTypes.length ∧
        (pd.elementTypes[e]? = some .nonTerminal → e ∈ AMap.keys pd.rules)) := by
  rw [getFollowSets_eq] at h
  obtain ⟨g, hg, h⟩ := Res.bind_eq_ok.mp h
  obtain ⟨hv, h1, h2, h3⟩ := markedGraph_ok hfs hg
  obtain ⟨N, r', hr, hk, hm⟩ := makeFollowSets_spec hv ho
  have := makeFollowSets_mono ho h (max N fuel) (by omega)
  rw [hr (max N fuel) (by omega)] at this
  cases this
  refine ⟨hk, ?_, h1, h2, h3⟩
  intro n S hS m
  rw [hm n S hS, followG_iff_closure h2 h3 hlen]

theorem getFollowSets_succeeds {start : Nat} {fs : NamedSets} {pd : ParserData I}
    (hfs : FInv pd fs) (hw : WellFormed pd) (hd : AllDefined pd) (hst : start ∈ AMap.keys pd.rules)
    (hk : ∀ n ∈ AMap.keys pd.rules, n ∈ AMap.keys fs) (ho : HashOrder) :
    ∃ N, ∀ fuel, N ≤ fuel → ∃ r, getFollowSets ho fuel start fs pd = .ok r := by
  obtain ⟨g, hg⟩ := markedGraph_succeeds (ho := ho) hfs hw hd hst hk
  obtain ⟨hv, -⟩ := markedGraph_ok hfs hg
  obtain ⟨N, r, hr, -⟩ := makeFollowSets_spec hv ho
  refine ⟨N, fun fuel hf => ⟨r, ?_⟩⟩
  rw [getFollowSets_eq, hg]
  exact hr fuel hf

end HPP
