import Verif.Spec.TopDown
import Verif.Proofs.ParseTop
/-
`parse` is predictive top-down reading, and its call depth is the height of the parse tree.
-/
namespace HPP
open Spec
variable {I S : Type} {pd : ParserData I} {start st0 : Nat} {P : Parser I} {ho : HashOrder} {vm : VM I S}

theorem Spec.TopDown.isForest {els : List Nat} {w r : Str} {f : Forest} (h : TopDown pd start els w f r) :
    ∃ s, w = s ++ r ∧ IsForest pd els f s := by
  induction h with
  | nil => exact ⟨[], rfl, .nil⟩
  | leaf h1 h2 _ ih =>
    obtain ⟨s, rfl, hs⟩ := ih
    exact ⟨_, by simp, .leaf h1 h2 hs⟩
  | node h1 h2 h3 _ _ _ ih1 ih2 =>
    obtain ⟨s1, rfl, hs1⟩ := ih1
    obtain ⟨s2, rfl, hs2⟩ := ih2
    exact ⟨_, by simp, .node h1 h2 h3 hs1 hs2⟩

/-- Adding the steps of one element in front. -/
theorem Spec.TopDown.cons_single {e : Nat} {es : List Nat} {w w1 r : Str} {f g : Forest}
    (h : TopDown pd start [e] w f w1) (h2 : TopDown pd start es w1 g r) :
    TopDown pd start (e :: es) w (Forest.append f g) r ∧
      (Forest.append f g).height = max f.height g.height := by
  cases h with
  | leaf a b t =>
    cases t
    exact ⟨.leaf a b h2, by simp [Forest.append, Forest.height]⟩
  | node a b c d k t =>
    cases t
    exact ⟨.node a b c d k h2, by simp [Forest.append, Forest.height]⟩

/-! ### soundness -/

/-- The result of reading `els` with call depth `fuel`. -/
def ReadOk (pd : ParserData I) (start : Nat) (els : List Nat) (fuel : Nat) (rest : Str)
    (out : Res PErr Unit × Ctx S) : Prop :=
  ∀ a, out.1 = .ok a → ∃ pre' rest' f, out.2.proc = procAt pre' rest' ∧ TopDown pd start els rest f rest' ∧
    f.height ≤ fuel

theorem readOk_terminal {e : Nat} {d : ElementData} (hT : pd.elementTypes[e]? = some .terminal)
    (hD : pd.elementData[e]? = some d) {c : Ctx S} {pre rest : Str} (hc : c.proc = procAt pre rest) (id : NodeId)
    (fuel : Nat) : ReadOk pd start [e] fuel rest (termStep d.name id c) := by
  intro a ha
  simp only [termStep, SM.bind_apply, onProc, parseScriptTerminal, hc, SM.pure_apply] at ha ⊢
  rcases parseTerminalLoop_spec d.name pre rest with ⟨r, rfl, h⟩ | ⟨s, c', n2, x, r, hn, rfl, hne, h⟩ | ⟨c', n2, hn, h⟩
  · rw [h] at ha ⊢
    simp only [addTreeNodeIgnore] at ha ⊢
    exact ⟨_, r, .leaf e .nil, rfl, .leaf hT hD .nil, Nat.zero_le _⟩
  · rw [h] at ha; simp at ha
  · rw [h] at ha; simp at ha

theorem readOk_elements (hw : WellFormed pd) (hP : ParserFor pd start P) {fuel : Nat}
    (hrec : ∀ (A : Nat) (parent : Option NodeId) (pre rest : Str) (c : Ctx S), pd.elementTypes[A]? = some .nonTerminal →
      c.proc = procAt pre rest → ReadOk pd start [A] fuel rest (parseProduction ho vm P fuel A parent c))
    (id : NodeId) (els : List Nat) : (∀ e ∈ els, e < pd.elementTypes.length) → ∀ (pre rest : Str) (c : Ctx S),
      c.proc = procAt pre rest → ReadOk pd start els fuel rest (parseElements P (parseProduction ho vm P fuel) id els c) := by
  induction els with
  | nil => intro _ pre rest c hc a _; exact ⟨pre, rest, .nil, hc, .nil, Nat.zero_le _⟩
  | cons e es ih =>
    intro hrange pre rest c hc
    have hlt := hrange e (by simp)
    have hT := List.getElem?_eq_getElem hlt
    have hD := List.getElem?_eq_getElem (hw.lengths ▸ hlt)
    have key : ∀ (step : SM (Ctx S) PErr Unit), ReadOk pd start [e] fuel rest (step c) →
        ReadOk pd start (e :: es) fuel rest ((step >>= fun _ => parseElements P (parseProduction ho vm P fuel) id es) c) := by
      intro step hg a ha
      rw [SM.bind_apply] at ha ⊢
      rcases hs : step c with ⟨r, c1⟩
      rw [hs] at hg ha
      cases r with
      | timeout => simp at ha
      | err x => simp at ha
      | panic => simp at ha
      | ok u =>
        obtain ⟨pre1, rest1, f, hp1, ht1, hh1⟩ := hg u rfl
        simp only at ha hp1 ⊢
        obtain ⟨pre2, rest2, g, hp2, ht2, hh2⟩ := ih (fun x hx => hrange x (by simp [hx])) pre1 rest1 c1 hp1 a ha
        obtain ⟨h1, h2⟩ := ht1.cons_single ht2
        exact ⟨pre2, rest2, _, hp2, h1, by rw [h2]; omega⟩
    cases htt : pd.elementTypes[e] with
    | terminal =>
      rw [htt] at hT
      rw [parseElements_cons_terminal (elements_get hP.elements hT hD)]
      exact key _ (readOk_terminal hT hD hc id fuel)
    | nonTerminal =>
      rw [htt] at hT
      rw [parseElements_cons_nonTerminal (elements_get hP.elements hT hD)]
      exact key _ (hrec e (some id) pre rest c hT hc)

theorem readOk_production (hw : WellFormed pd) (hP : ParserFor pd start P) (fuel : Nat) :
    ∀ (A : Nat) (parent : Option NodeId) (pre rest : Str) (c : Ctx S), pd.elementTypes[A]? = some .nonTerminal →
      c.proc = procAt pre rest → ReadOk pd start [A] fuel rest (parseProduction ho vm P fuel A parent c) := by
  induction fuel with
  | zero => intro A parent pre rest c _ _ a ha; simp [parseProduction] at ha
  | succ fuel ih =>
    intro A parent pre rest c hT hc
    rw [parseProduction_succ fuel A hc]
    have hmA := hP.rules A
    cases hr : AMap.get pd.rules A with
    | none => rw [hr] at hmA; rw [hmA]; intro a ha; simp at ha
    | some r =>
      rw [hr] at hmA
      obtain ⟨R, hR, -, -, hmap⟩ := hmA
      rw [hR]
      simp only
      cases hp : AMap.get R.steuermap (SetMember.ofPeek rest.head?) with
      | none => intro a ha; simp at ha
      | some p =>
        obtain ⟨hpm, hctl⟩ := (hmap _ _).mp hp
        simp only
        rcases c.tree.addNode [] parent with ⟨ra, t⟩
        cases ra with
        | err e => intro a ha; simp at ha
        | panic => intro a ha; simp at ha
        | timeout => intro a ha; simp at ha
        | ok id =>
          simp only
          have hel := readOk_elements (c := { c with tree := t }) hw hP ih id (prodElems p) (hw.inRange A r hr p hpm) pre rest hc
          rw [SM.bind_apply]
          rcases hpe : parseElements P (parseProduction ho vm P fuel) id (prodElems p) { c with tree := t } with ⟨r1, c1⟩
          rw [hpe] at hel
          cases r1 with
          | err e => intro a ha; simp at ha
          | panic => intro a ha; simp at ha
          | timeout => intro a ha; simp at ha
          | ok u =>
            obtain ⟨pre1, rest1, k, hp1, ht1, hh1⟩ := hel u rfl
            simp only [runInstructionsM]
            cases hri : runInstructions vm id R.instr c1.tree c1.state with
            | none => intro a ha; simp at ha
            | some ts =>
              intro a _
              exact ⟨pre1, rest1, .node A p k .nil, hp1, .node hT hr hpm hctl ht1 .nil, by simp [Forest.height]; omega⟩

/-! ### completeness -/

theorem production_of_elements (hP : ParserFor pd start P) (htp : TreePreserving vm) (htot : Total vm) {A : Nat}
    {rule : NTRule I} {p : Production} {w w1 : Str} {fuel : Nat} (hr : AMap.get pd.rules A = some rule)
    (hp : p ∈ rule.prods) (hctl : Control pd start A p (SetMember.ofPeek w.head?))
    (hin : ∀ id par pre (c : Ctx S) h, c.proc = procAt pre w → TRep c.tree h → ParOk h (some id) par →
      ∃ pre' c' h', parseElements P (parseProduction ho vm P fuel) id (prodElems p) c = (.ok (), c') ∧
        c'.proc = procAt pre' w1 ∧ TRep c'.tree h' ∧ h.length ≤ h'.length) :
    ∀ parent par pre (c : Ctx S) h, c.proc = procAt pre w → TRep c.tree h → ParOk h parent par →
      ∃ pre' c' h', parseProduction ho vm P (fuel + 1) A parent c = (.ok (), c') ∧
        c'.proc = procAt pre' w1 ∧ TRep c'.tree h' ∧ h.length ≤ h'.length := by
  intro parent par pre c h hc ht hpo
  rw [parseProduction_succ fuel A hc]
  have hmA := hP.rules A
  rw [hr] at hmA
  obtain ⟨R, hR, -, -, hmap⟩ := hmA
  rw [hR]
  simp only
  rw [(hmap _ _).mpr ⟨hp, hctl⟩]
  simp only
  obtain ⟨t', h1, h2⟩ := ht.addNode_par [] hpo.1 hpo.2
  rw [h1]
  simp only
  obtain ⟨pre', c', h', g1, g2, g3, g4⟩ := hin ⟨h.length, h.length⟩ (some h.length) pre { c with tree := t' } _ hc h2
    ⟨rfl, fun q hq => by simp at hq; simp; omega⟩
  rw [SM.bind_apply, g1]
  simp only [runInstructionsM]
  cases hri : runInstructions vm ⟨h.length, h.length⟩ R.instr c'.tree c'.state with
  | none => exact absurd hri (runInstructions_total htot _ _)
  | some ts =>
    obtain ⟨t2, s2⟩ := ts
    have := runInstructions_tree htp _ _ hri
    subst this
    refine ⟨pre', _, h', rfl, g2, g3, ?_⟩
    simp at g4; omega

theorem elements_complete (hw : WellFormed pd) (hP : ParserFor pd start P) (htp : TreePreserving vm) (htot : Total vm) {els : List Nat}
    {w r : Str} {f : Forest} (hd : TopDown pd start els w f r) : ∀ fuel, f.height ≤ fuel →
      ∀ id par pre (c : Ctx S) h, c.proc = procAt pre w → TRep c.tree h → ParOk h (some id) par →
      ∃ pre' c' h', parseElements P (parseProduction ho vm P fuel) id els c = (.ok (), c') ∧
        c'.proc = procAt pre' r ∧ TRep c'.tree h' ∧ h.length ≤ h'.length := by
  induction hd with
  | nil => intro fuel _ id par pre c h hc ht _; exact ⟨pre, c, h, rfl, hc, ht, Nat.le_refl _⟩
  | @leaf e es d w r f hT hD _ ih =>
    intro fuel hf id par pre c h hc ht hpo
    rw [parseElements_cons_terminal (elements_get hP.elements hT hD), SM.bind_apply]
    have hl : parseTerminalLoop d.name (procAt pre (d.name ++ w)) = (.ok (), procAt (pre ++ d.name) w) := by
      rcases parseTerminalLoop_spec d.name pre (d.name ++ w) with ⟨r, hr, h⟩ | ⟨s, c', n2, x, r, hn, hr, hne, h⟩ | ⟨c', n2, hn, h⟩
      · rw [h, List.append_cancel_left hr]
      · rw [hn, List.append_assoc] at hr
        have := List.append_cancel_left hr
        simp at this
        exact absurd this.1.symm hne
      · have := congrArg List.length hn
        simp at this
    obtain ⟨t', h1, h2⟩ := ht.addNode_par d.name hpo.1 hpo.2
    have hstep : termStep d.name id c = (.ok (), { c with proc := procAt (pre ++ d.name) w, tree := t' }) := by
      simp only [termStep, SM.bind_apply, onProc, parseScriptTerminal, hc, SM.pure_apply, hl, addTreeNodeIgnore, h1]
    rw [hstep]
    obtain ⟨pre', c', h', g1, g2, g3, g4⟩ := ih fuel hf id par (pre ++ d.name)
      { c with proc := procAt (pre ++ d.name) w, tree := t' } (h ++ [(par, d.name)]) rfl h2
      ⟨hpo.1, fun q hq => by have := hpo.2 q hq; simp; omega⟩
    exact ⟨pre', c', h', g1, g2, g3, by simp at g4; omega⟩
  | @node A es rule p w w1 r kids f hT hr hp hctl _ _ ih1 ih2 =>
    intro fuel hf id par pre c h hc ht hpo
    simp only [Forest.height] at hf
    obtain ⟨k, rfl⟩ : ∃ k, fuel = k + 1 := ⟨fuel - 1, by omega⟩
    have hlt : A < pd.elementTypes.length := (List.getElem?_eq_some_iff.1 hT).1
    have hD := List.getElem?_eq_getElem (hw.lengths ▸ hlt)
    rw [parseElements_cons_nonTerminal (elements_get hP.elements hT hD), SM.bind_apply]
    obtain ⟨pre1, c1, h1, g1, g2, g3, g4⟩ := production_of_elements hP htp htot hr hp hctl (ih1 k (by omega)) (some id) par pre c h hc ht hpo
    rw [g1]
    obtain ⟨pre2, c2, h2, k1, k2, k3, k4⟩ := ih2 (k + 1) (by omega) id par pre1 c1 h1 g2 g3
      ⟨hpo.1, fun q hq => by have := hpo.2 q hq; omega⟩
    exact ⟨pre2, c2, h2, k1, k2, k3, by omega⟩

theorem parse_topDown (hw : WellFormed pd) (hP : ParserFor pd start P) (hs : StartSymbol pd st0)
    (htp : TreePreserving vm) (htot : Total vm) (fuel : Nat) (text rest : Str) (s : S) :
    (∃ t c, Parser.parse ho fuel vm P text s = (.ok t, c) ∧ c.proc.rest = rest) ↔
      ∃ f, TopDown pd start [st0] text f rest ∧ f.height ≤ fuel := by
  rw [parse_eq hP hs]
  constructor
  · rintro ⟨t, c, h, hr⟩
    have := readOk_production (ho := ho) (vm := vm) hw hP fuel st0 none [] text (ctx0 text s) (Spec.StartSymbol.type hs) rfl
    rcases hx : parseProduction ho vm P fuel st0 none (ctx0 text s) with ⟨r, c'⟩
    rw [hx] at h this
    cases r with
    | ok a =>
      obtain ⟨pre', rest', f, h1, h2, h3⟩ := this a rfl
      simp only [Prod.mk.injEq] at h
      obtain ⟨-, rfl⟩ := h
      simp only at h1
      rw [h1] at hr
      have : rest' = rest := hr
      subst this
      exact ⟨f, h2, h3⟩
    | err e => simp at h
    | panic => simp at h
    | timeout => simp at h
  · rintro ⟨f, hf, hh⟩
    cases hf with
    | leaf h1 _ _ => rw [Spec.StartSymbol.type hs] at h1; cases h1
    | @node A es rule p w w1 r kids f hT hr hp hctl hk ht =>
      cases ht
      simp only [Forest.height] at hh
      obtain ⟨k, rfl⟩ : ∃ k, fuel = k + 1 := ⟨fuel - 1, by omega⟩
      obtain ⟨pre1, c1, h1, g1, g2, g3, g4⟩ := production_of_elements (ho := ho) hP htp htot hr hp hctl
        (elements_complete hw hP htp htot hk k (by omega)) none none [] (ctx0 text s) [] rfl .new parOk_root
      rw [g1]
      exact ⟨_, _, rfl, by rw [g2]; rfl⟩

end HPP
