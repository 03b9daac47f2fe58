import Verif.Proofs.Determinism
import Verif.Proofs.SameMeaning
import Verif.Spec.Effects
/-
Parsers that agree in everything but their sections, which have the same effect, do the same.
-/
namespace HPP
open Spec
variable {I J S1 S2 : Type} {D : Str → Prop} {T : Tree Str → Prop} {R : S1 → S2 → Prop}

/-! ### the grammar -/

section
variable {pd : ParserData I} {pd' : ParserData J}

theorem _root_.HPP.Spec.SameSyntax.symm (h : SameSyntax pd pd') : SameSyntax pd' pd :=
  ⟨h.types.symm, h.data.symm, fun A => (h.alternatives A).symm⟩

theorem _root_.HPP.Spec.SameSyntax.rule (h : SameSyntax pd pd') {A : Nat} {r' : NTRule J}
    (hr : AMap.get pd'.rules A = some r') : ∃ r, AMap.get pd.rules A = some r ∧ r.prods = r'.prods := by
  have := h.alternatives A
  rw [hr] at this
  cases hg : AMap.get pd.rules A with
  | none => rw [hg] at this; cases this
  | some r =>
    rw [hg] at this
    simp only [Option.map_some, Option.some.injEq] at this
    exact ⟨r, rfl, this.symm⟩

theorem _root_.HPP.Spec.SameSyntax.grammar (h : SameSyntax pd pd') : grammarOf pd' = grammarOf pd := by
  have hs : elemForm pd' = elemForm pd := by
    funext i
    simp only [elemForm, h.types, h.data]
  have hs' : formOf pd' = formOf pd := by
    funext l
    simp only [formOf, hs]
  funext A w
  apply propext
  constructor
  · rintro ⟨r', hr', p, hp, hw⟩
    obtain ⟨r, hr, e⟩ := h.rule hr'
    exact ⟨r, hr, p, by rw [e]; exact hp, by rw [← hs']; exact hw⟩
  · rintro ⟨r, hr, p, hp, hw⟩
    obtain ⟨r', hr', e⟩ := h.symm.rule hr
    exact ⟨r', hr', p, by rw [e]; exact hp, by rw [hs']; exact hw⟩

theorem _root_.HPP.Spec.SameSyntax.control (h : SameSyntax pd pd') (start A : Nat) (p : Production) (m : SetMember) :
    Control pd' start A p m ↔ Control pd start A p m := by
  cases p with
  | empty => simp only [Control, h.grammar]
  | notEmpty els =>
    cases els with
    | nil => simp only [Control]
    | cons e es => simp only [Control, h.grammar, h.types, h.data]

theorem _root_.HPP.Spec.SameSyntax.acceptable (h : SameSyntax pd pd') {start : Nat} (ha : Acceptable pd start) :
    Acceptable pd' start := by
  refine ⟨?_, ?_, ?_, ?_, ?_⟩
  · obtain ⟨r, hr⟩ := ha.startDefined
    obtain ⟨r', hr', -⟩ := h.symm.rule hr
    exact ⟨r', hr'⟩
  · intro A r' hr' p hp e he ht
    obtain ⟨r, hr, hq⟩ := h.rule hr'
    rw [← hq] at hp
    rw [h.types] at ht
    obtain ⟨q, hg⟩ := ha.defined A r hr p hp e he ht
    obtain ⟨q', hg', -⟩ := h.symm.rule hg
    exact ⟨q', hg'⟩
  · intro A
    rw [h.grammar]
    exact ha.noLeftRec A
  · intro A r' hr' e es hp ht d hd
    obtain ⟨r, hr, hq⟩ := h.rule hr'
    rw [← hq] at hp
    rw [h.types] at ht
    rw [h.data] at hd
    exact ha.noEmptyTerminal A r hr e es hp ht d hd
  · intro A r' hr'
    obtain ⟨r, hr, hq⟩ := h.rule hr'
    rw [← hq]
    refine (ha.disjoint A r hr).imp fun hd m => ?_
    rw [h.control, h.control]
    exact hd m

/-! ### the parsers -/

/-- Two parsers with the same lookahead maps and elements, and sections that have the same effect. -/
structure AgreeX (T : Tree Str → Prop) (R : S1 → S2 → Prop) (vm1 : VM I S1) (vm2 : VM J S2) (P1 : Parser I) (P2 : Parser J) : Prop where
  elements : P1.elements = P2.elements
  rules : ∀ A, (AMap.get P1.rules A = none ∧ AMap.get P2.rules A = none) ∨
    ∃ R1 R2, AMap.get P1.rules A = some R1 ∧ AMap.get P2.rules A = some R2 ∧ SameEffect T R vm1 vm2 R1.instr R2.instr ∧
      (∀ m, AMap.get R1.steuermap m = AMap.get R2.steuermap m) ∧
      (AMap.keys R1.steuermap).Perm (AMap.keys R2.steuermap)

theorem ParserFor.agreeX {start : Nat} {P1 : Parser I} {P2 : Parser J} {vm1 : VM I S1} {vm2 : VM J S2}
    (h : SameSyntax pd pd') (h1 : ParserFor pd start P1) (h2 : ParserFor pd' start P2)
    (hx : ∀ A r r', AMap.get pd.rules A = some r → AMap.get pd'.rules A = some r' → SameEffect T R vm1 vm2 r.instr r'.instr) :
    AgreeX T R vm1 vm2 P1 P2 := by
  refine ⟨List.ext_getElem? fun i => by
    rw [h1.elements.2, h2.elements.2]; simp only [ParserData.getElementVerbose, h.types, h.data], fun A => ?_⟩
  have a := h1.rules A
  have b := h2.rules A
  cases hr : AMap.get pd.rules A with
  | none =>
    cases hr' : AMap.get pd'.rules A with
    | none => rw [hr] at a; rw [hr'] at b; exact .inl ⟨a, b⟩
    | some r' => obtain ⟨r, hr2, -⟩ := h.rule hr'; rw [hr] at hr2; cases hr2
  | some r =>
    obtain ⟨r', hr', hq⟩ := h.symm.rule hr
    rw [hr] at a
    rw [hr'] at b
    obtain ⟨R1, g1, g2, g3, g4⟩ := a
    obtain ⟨R2, g5, g6, g7, g8⟩ := b
    have hm : ∀ m, AMap.get R1.steuermap m = AMap.get R2.steuermap m := by
      intro m
      apply Option.ext
      intro p
      rw [g4 m p, g8 m p, h.control, hq]
    refine .inr ⟨R1, R2, g1, g5, by rw [g2, g6]; exact hx A r r' hr hr', hm, ?_⟩
    rw [List.perm_ext_iff_of_nodup (h1.nodup A R1 g1) (h2.nodup A R2 g5)]
    intro k
    rw [AMap.mem_keys_iff, AMap.mem_keys_iff, hm]
end

theorem ParserFor.nodeText {pd : ParserData I} {start : Nat} {P : Parser I} (h : ParserFor pd start P) (e : Nat) (el : ElementVerbose)
    (he : P.elements[e]? = some el) (ht : el.et = .terminal) : NodeText pd el.name := by
  rw [h.elements.2] at he
  simp only [ParserData.getElementVerbose] at he
  refine .inr ⟨e, ?_⟩
  cases h1 : pd.elementTypes[e]? with
  | none => rw [h1] at he; revert he; cases pd.elementData[e]? <;> simp
  | some y =>
    cases h2 : pd.elementData[e]? with
    | none => rw [h1, h2] at he; simp at he
    | some z =>
      rw [h1, h2] at he
      simp at he
      subst he
      exact ⟨by rw [← ht], rfl⟩

/-- Both panic, or both do the same, up to the order of expected lists, and end in related states. -/
def XSim (T : Tree Str → Prop) (R : S1 → S2 → Prop) {α : Type} (m1 : SM (Ctx S1) PErr α) (m2 : SM (Ctx S2) PErr α) : Prop :=
  ∀ c1 c2, c1.proc = c2.proc → c1.tree = c2.tree → T c2.tree → R c1.state c2.state →
    ((m1 c1).1 = .panic ∧ (m2 c2).1 = .panic) ∨
    (SameRes (m1 c1).1 (m2 c2).1 ∧ (m1 c1).2.proc = (m2 c2).2.proc ∧ (m1 c1).2.tree = (m2 c2).2.tree ∧
      T (m2 c2).2.tree ∧ R (m1 c1).2.state (m2 c2).2.state)

theorem XSim.bind {α β : Type} {m1 : SM (Ctx S1) PErr α} {m2 : SM (Ctx S2) PErr α}
    {f1 : α → SM (Ctx S1) PErr β} {f2 : α → SM (Ctx S2) PErr β} (h : XSim T R m1 m2)
    (hf : ∀ x, (∃ c, (m2 c).1 = .ok x) → XSim T R (f1 x) (f2 x)) : XSim T R (m1 >>= f1) (m2 >>= f2) := by
  intro c1 c2 hp ht hj hs
  have := h c1 c2 hp ht hj hs
  simp only [SM.bind_apply]
  rcases hm1 : m1 c1 with ⟨r1, d1⟩
  rcases hm2 : m2 c2 with ⟨r2, d2⟩
  rw [hm1, hm2] at this
  rcases this with ⟨h1, h2⟩ | ⟨h1, h2, h3, h4, h5⟩
  · replace h1 : r1 = .panic := h1
    replace h2 : r2 = .panic := h2
    subst h1; subst h2
    exact .inl ⟨rfl, rfl⟩
  · replace h1 : SameRes r1 r2 := h1
    cases r1 <;> cases r2 <;> simp only [SameRes] at h1
    · subst h1; exact hf _ ⟨c2, by rw [hm2]⟩ d1 d2 h2 h3 h4 h5
    · exact .inr ⟨h1, h2, h3, h4, h5⟩
    · exact .inr ⟨trivial, h2, h3, h4, h5⟩
    · exact .inr ⟨trivial, h2, h3, h4, h5⟩

theorem XSim.lift {α : Type} (r : Res PErr α) : XSim T R (SM.lift r) (SM.lift r) :=
  fun _ _ h1 h2 h3 h4 => .inr ⟨.refl _, h1, h2, h3, h4⟩

theorem XSim.onProc {α : Type} (f : SM Proc PErr α) : XSim T R (HPP.onProc f) (HPP.onProc f) := by
  intro c1 c2 h1 h2 h3 h4
  simp only [HPP.onProc, h1]
  exact .inr ⟨.refl _, trivial, h2, h3, h4⟩

theorem XSim.addTreeNode (hT : KeptByAdding D T) {d : Str} (hd : D d) (p : Option NodeId) : XSim T R (HPP.addTreeNode d p) (HPP.addTreeNode d p) := by
  intro c1 c2 h1 h2 h3 h4
  simp only [HPP.addTreeNode, h2]
  exact .inr ⟨.refl _, h1, trivial, hT.add _ _ _ hd h3, h4⟩

theorem XSim.addTreeNodeIgnore (hT : KeptByAdding D T) {d : Str} (hd : D d) (p : Option NodeId) :
    XSim T R (HPP.addTreeNodeIgnore d p) (HPP.addTreeNodeIgnore d p) := by
  intro c1 c2 h1 h2 h3 h4
  simp only [HPP.addTreeNodeIgnore, h2]
  exact .inr ⟨.refl _, h1, trivial, hT.add _ _ _ hd h3, h4⟩

variable {vm1 : VM I S1} {vm2 : VM J S2} {P1 : Parser I} {P2 : Parser J}

theorem XSim.elements {rec1 : Nat → Option NodeId → SM (Ctx S1) PErr Unit}
    {rec2 : Nat → Option NodeId → SM (Ctx S2) PErr Unit} (hT : KeptByAdding D T) (ha : P1.elements = P2.elements)
    (hD : ∀ (e : Nat) (el : ElementVerbose), P2.elements[e]? = some el → el.et = .terminal → D el.name)
    (hr : ∀ e p, XSim T R (rec1 e p) (rec2 e p)) (id : NodeId) (els : List Nat) :
    XSim T R (parseElements P1 rec1 id els) (parseElements P2 rec2 id els) := by
  induction els with
  | nil => exact fun _ _ h1 h2 h3 h4 => .inr ⟨.refl _, h1, h2, h3, h4⟩
  | cons e es ih =>
    simp only [parseElements, ha]
    refine .bind (.lift _) (fun el hel => ?_)
    obtain ⟨c0, hel⟩ := hel
    have hel : P2.elements[e]? = some el := by
      simp only [SM.lift_apply] at hel
      cases hx : P2.elements[e]? with
      | none => rw [hx] at hel; cases hel
      | some y => rw [hx] at hel; cases hel; rfl
    cases het : el.et with
    | terminal =>
      refine .bind (.onProc _) (fun s hs => ?_)
      have hs : s = el.name := by
        obtain ⟨c, hs⟩ := hs
        simp only [HPP.onProc, parseScriptTerminal, SM.bind_apply] at hs
        rcases hy : parseTerminalLoop el.name c.proc with ⟨r, q⟩
        rw [hy] at hs
        cases r with
        | ok v => cases hs; rfl
        | err v => cases hs
        | panic => cases hs
        | timeout => cases hs
      exact .bind (.addTreeNodeIgnore hT (by rw [hs]; exact hD e el hel het) _) (fun _ _ => ih)
    | nonTerminal => exact .bind (hr _ _) (fun _ _ => ih)

theorem XSim.fitting (ha : AgreeX T R vm1 vm2 P1 P2) (ho1 ho2 : HashOrder) (el : Nat) (cur : SetMember) :
    XSim T R (HPP.onProc (getFittingProduction ho1 P1 el cur)) (HPP.onProc (getFittingProduction ho2 P2 el cur)) := by
  intro c1 c2 hp ht hj hs
  refine .inr ?_
  rcases ha.rules el with ⟨h1, h2⟩ | ⟨R1, R2, h1, h2, -, hm, hk⟩
  · simp only [HPP.onProc, getFittingProduction, h1, h2]
    exact ⟨.refl _, hp, ht, hj, hs⟩
  · simp only [HPP.onProc, getFittingProduction, h1, h2, hm]
    cases AMap.get R2.steuermap cur with
    | some p => exact ⟨rfl, hp, ht, hj, hs⟩
    | none =>
      simp only [SameRes, SameErr, hp]
      exact ⟨⟨trivial, trivial, .inr ⟨_, _, (ho1.perm _ _ _).trans (hk.trans (ho2.perm _ _ _).symm), (expectedText_eq _).symm,
        (expectedText_eq _).symm⟩⟩, trivial, ht, hj, hs⟩

theorem XSim.run {is1 : List I} {is2 : List J} (h : SameEffect T R vm1 vm2 is1 is2) (id : NodeId) :
    XSim T R (runInstructionsM vm1 id is1) (runInstructionsM vm2 id is2) := by
  intro c1 c2 h1 h2 hj h3
  simp only [runInstructionsM]
  rw [h2]
  rcases h c2.tree id c1.state c2.state hj h3 with ⟨g1, g2⟩ | ⟨t', s1', s2', g1, g2, gt, g3⟩
  · have k1 : runInstructions vm1 id is1 c2.tree c1.state = none := by
      cases hk : runInstructions vm1 id is1 c2.tree c1.state with
      | none => rfl
      | some y => exact absurd ((executes_iff vm1 id is1 (c2.tree, c1.state) y).2 hk) (g1 y)
    have k2 : runInstructions vm2 id is2 c2.tree c2.state = none := by
      cases hk : runInstructions vm2 id is2 c2.tree c2.state with
      | none => rfl
      | some y => exact absurd ((executes_iff vm2 id is2 (c2.tree, c2.state) y).2 hk) (g2 y)
    rw [k1, k2]
    exact .inl ⟨rfl, rfl⟩
  · have k1 : runInstructions vm1 id is1 c2.tree c1.state = some (t', s1') := (executes_iff vm1 id is1 (c2.tree, c1.state) (t', s1')).1 g1
    have k2 : runInstructions vm2 id is2 c2.tree c2.state = some (t', s2') := (executes_iff vm2 id is2 (c2.tree, c2.state) (t', s2')).1 g2
    rw [k1, k2]
    exact .inr ⟨rfl, h1, rfl, gt, g3⟩

theorem XSim.production (hT : KeptByAdding D T) (h0 : D [])
    (hD : ∀ (e : Nat) (el : ElementVerbose), P2.elements[e]? = some el → el.et = .terminal → D el.name) (ha : AgreeX T R vm1 vm2 P1 P2) (ho1 ho2 : HashOrder) (fuel : Nat) :
    ∀ e p, XSim T R (parseProduction ho1 vm1 P1 fuel e p) (parseProduction ho2 vm2 P2 fuel e p) := by
  induction fuel with
  | zero => intro e p; exact .lift _
  | succ fuel ih =>
    intro e p
    simp only [parseProduction]
    refine .bind (.onProc _) (fun cur _ => ?_)
    rcases ha.rules e with ⟨h1, h2⟩ | ⟨R1, R2, h1, h2, hi, -⟩
    · rw [h1, h2]
      exact fun c1 c2 g1 g2 gt g3 => .inr ⟨.refl _, g1, g2, gt, g3⟩
    · rw [h1, h2]
      intro c1 c2
      simp only [SM.bind_apply, SM.lift_apply, Res.ofOption]
      refine XSim.bind (.fitting ha ho1 ho2 e cur) (fun prod _ => ?_) c1 c2
      refine .bind (.addTreeNode hT h0 _) (fun id _ => ?_)
      cases prod with
      | notEmpty els => exact .bind (.elements hT ha.elements hD ih id els) (fun _ _ => .run hi id)
      | empty => exact .bind (.lift (.ok ())) (fun _ _ => .run hi id)

/-- Whole parses. -/
theorem XSim.parse (hT : KeptByAdding D T) (h0 : D [])
    (hD : ∀ (e : Nat) (el : ElementVerbose), P2.elements[e]? = some el → el.et = .terminal → D el.name) (ha : AgreeX T R vm1 vm2 P1 P2) (ho1 ho2 : HashOrder) (fuel : Nat) (text : Str) {s1 : S1} {s2 : S2}
    (hs : R s1 s2) :
    ((Parser.parse ho1 fuel vm1 P1 text s1).1 = .panic ∧ (Parser.parse ho2 fuel vm2 P2 text s2).1 = .panic) ∨
    (SameRes (Parser.parse ho1 fuel vm1 P1 text s1).1 (Parser.parse ho2 fuel vm2 P2 text s2).1 ∧
      (Parser.parse ho1 fuel vm1 P1 text s1).2.proc = (Parser.parse ho2 fuel vm2 P2 text s2).2.proc ∧
      (Parser.parse ho1 fuel vm1 P1 text s1).2.tree = (Parser.parse ho2 fuel vm2 P2 text s2).2.tree ∧
      R (Parser.parse ho1 fuel vm1 P1 text s1).2.state (Parser.parse ho2 fuel vm2 P2 text s2).2.state) := by
  simp only [Parser.parse, ha.elements]
  cases positionOf ⟨c% "start", .nonTerminal⟩ P2.elements with
  | none => exact .inl ⟨rfl, rfl⟩
  | some ix =>
    have := XSim.production hT h0 hD ha ho1 ho2 fuel ix none ⟨Proc.ofText text, s1, Tree.new⟩ ⟨Proc.ofText text, s2, Tree.new⟩
      rfl rfl hT.new hs
    simp only
    generalize parseProduction ho1 vm1 P1 fuel ix none ⟨Proc.ofText text, s1, Tree.new⟩ = x1 at this
    generalize parseProduction ho2 vm2 P2 fuel ix none ⟨Proc.ofText text, s2, Tree.new⟩ = x2 at this
    obtain ⟨r1, c1⟩ := x1
    obtain ⟨r2, c2⟩ := x2
    rcases this with ⟨h1, h2⟩ | ⟨h1, h2, h3, -, h4⟩
    · simp only at h1 h2
      subst h1; subst h2
      exact .inl ⟨rfl, rfl⟩
    · simp only at h1 h2 h3 h4
      cases r1 <;> cases r2 <;> simp only [SameRes] at h1
      · exact .inr ⟨h3, h2, h3, h4⟩
      · exact .inr ⟨h1, h2, h3, h4⟩
      · exact .inl ⟨rfl, rfl⟩
      · exact .inr ⟨trivial, h2, h3, h4⟩

end HPP
