import Verif.Spec.Walk
import Verif.Proofs.TopDown
/-
Parsing is reading top-down and walking the trees read, for every virtual machine.
-/
namespace HPP
open Spec
variable {I S : Type} {pd : ParserData I} {start st0 : Nat} {P : Parser I} {ho : HashOrder} {vm : VM I S}

theorem Spec.Walk.append_single {par : Option NodeId} {f g : Forest} {x y z : Tree Str × S}
    (h1 : Walk vm pd par f x y) (h2 : Walk vm pd par g y z) : Walk vm pd par (Forest.append f g) x z := by
  induction h1 with
  | nil => exact h2
  | leaf a b _ ih => exact .leaf a b (ih h2)
  | node a b c _ _ ih => exact .node a b c (ih h2)

theorem nameOf_eq {e : Nat} {d : ElementData} (h : pd.elementData[e]? = some d) : nameOf pd e = d.name := by
  simp [nameOf, h]

/-! ### soundness -/

/-- The result of reading `els` with call depth `fuel` below `par`. -/
def WalkOk (vm : VM I S) (pd : ParserData I) (start : Nat) (els : List Nat) (fuel : Nat) (par : Option NodeId) (rest : Str)
    (c : Ctx S) (out : Res PErr Unit × Ctx S) : Prop :=
  ∀ a, out.1 = .ok a → ∃ pre' rest' f, out.2.proc = procAt pre' rest' ∧ TopDown pd start els rest f rest' ∧
    f.height ≤ fuel ∧ Walk vm pd par f (c.tree, c.state) (out.2.tree, out.2.state)

theorem walkOk_terminal {e : Nat} {d : ElementData} (hT : pd.elementTypes[e]? = some .terminal)
    (hD : pd.elementData[e]? = some d) {c : Ctx S} {pre rest : Str} (hc : c.proc = procAt pre rest) (id : NodeId)
    (fuel : Nat) : WalkOk vm pd start [e] fuel (some id) rest c (termStep d.name id c) := by
  intro a ha
  simp only [termStep, SM.bind_apply, onProc, parseScriptTerminal, hc, SM.pure_apply] at ha ⊢
  rcases parseTerminalLoop_spec d.name pre rest with ⟨r, rfl, h⟩ | ⟨s, c', n2, x, r, hn, rfl, hne, h⟩ | ⟨c', n2, hn, h⟩
  · rw [h] at ha ⊢
    simp only [addTreeNodeIgnore] at ha ⊢
    rcases hadd : c.tree.addNode d.name (some id) with ⟨ra, t1⟩
    rw [hadd] at ha
    refine ⟨_, r, .leaf e .nil, rfl, .leaf hT hD .nil, Nat.zero_le _, .leaf (r := ra) (t1 := t1) ?_ ?_ .nil⟩
    · rw [nameOf_eq hD]; exact hadd
    · cases ra with
      | ok i => exact .inl ⟨i, rfl⟩
      | err i => exact .inr ⟨i, rfl⟩
      | panic => cases ha
      | timeout => cases ha
  · rw [h] at ha; simp at ha
  · rw [h] at ha; simp at ha

theorem walkOk_elements (hw : WellFormed pd) (hP : ParserFor pd start P) {fuel : Nat}
    (hrec : ∀ (A : Nat) (parent : Option NodeId) (pre rest : Str) (c : Ctx S), pd.elementTypes[A]? = some .nonTerminal →
      c.proc = procAt pre rest → WalkOk vm pd start [A] fuel parent rest c (parseProduction ho vm P fuel A parent c))
    (id : NodeId) (els : List Nat) : (∀ e ∈ els, e < pd.elementTypes.length) → ∀ (pre rest : Str) (c : Ctx S),
      c.proc = procAt pre rest →
      WalkOk vm pd start els fuel (some id) rest c (parseElements P (parseProduction ho vm P fuel) id els c) := by
  induction els with
  | nil => intro _ pre rest c hc a _; exact ⟨pre, rest, .nil, hc, .nil, Nat.zero_le _, .nil⟩
  | cons e es ih =>
    intro hrange pre rest c hc
    have hlt := hrange e (by simp)
    have hT := List.getElem?_eq_getElem hlt
    have hD := List.getElem?_eq_getElem (hw.lengths ▸ hlt)
    have key : ∀ (step : SM (Ctx S) PErr Unit), WalkOk vm pd start [e] fuel (some id) rest c (step c) →
        WalkOk vm pd start (e :: es) fuel (some id) rest c
          ((step >>= fun _ => parseElements P (parseProduction ho vm P fuel) id es) c) := by
      intro step hg a ha
      rw [SM.bind_apply] at ha ⊢
      rcases hs : step c with ⟨r, c1⟩
      rw [hs] at hg ha
      cases r with
      | timeout => simp at ha
      | err x => simp at ha
      | panic => simp at ha
      | ok u =>
        obtain ⟨pre1, rest1, f, hp1, ht1, hh1, hw1⟩ := hg u rfl
        simp only at ha hp1 hw1 ⊢
        obtain ⟨pre2, rest2, g, hp2, ht2, hh2, hw2⟩ := ih (fun x hx => hrange x (by simp [hx])) pre1 rest1 c1 hp1 a ha
        obtain ⟨h1, h2⟩ := ht1.cons_single ht2
        exact ⟨pre2, rest2, _, hp2, h1, by rw [h2]; omega, hw1.append_single hw2⟩
    cases htt : pd.elementTypes[e] with
    | terminal =>
      rw [htt] at hT
      rw [parseElements_cons_terminal (elements_get hP.elements hT hD)]
      exact key _ (walkOk_terminal hT hD hc id fuel)
    | nonTerminal =>
      rw [htt] at hT
      rw [parseElements_cons_nonTerminal (elements_get hP.elements hT hD)]
      exact key _ (hrec e (some id) pre rest c hT hc)

theorem walkOk_production (hw : WellFormed pd) (hP : ParserFor pd start P) (fuel : Nat) :
    ∀ (A : Nat) (parent : Option NodeId) (pre rest : Str) (c : Ctx S), pd.elementTypes[A]? = some .nonTerminal →
      c.proc = procAt pre rest → WalkOk vm pd start [A] fuel parent rest c (parseProduction ho vm P fuel A parent c) := by
  induction fuel with
  | zero => intro A parent pre rest c _ _ a ha; simp [parseProduction] at ha
  | succ fuel ih =>
    intro A parent pre rest c hT hc
    rw [parseProduction_succ fuel A hc]
    have hmA := hP.rules A
    cases hr : AMap.get pd.rules A with
    | none => rw [hr] at hmA; rw [hmA]; intro a ha; simp at ha
    | some r =>
      rw [hr] at hmA
      obtain ⟨R, hR, hin, -, hmap⟩ := hmA
      rw [hR]
      simp only
      cases hp : AMap.get R.steuermap (SetMember.ofPeek rest.head?) with
      | none => intro a ha; simp at ha
      | some p =>
        obtain ⟨hpm, hctl⟩ := (hmap _ _).mp hp
        simp only
        rcases hadd : c.tree.addNode [] parent with ⟨ra, t⟩
        cases ra with
        | err e => intro a ha; simp at ha
        | panic => intro a ha; simp at ha
        | timeout => intro a ha; simp at ha
        | ok id =>
          simp only
          have hel := walkOk_elements (c := { c with tree := t }) hw hP ih id (prodElems p) (hw.inRange A r hr p hpm) pre rest hc
          rw [SM.bind_apply]
          rcases hpe : parseElements P (parseProduction ho vm P fuel) id (prodElems p) { c with tree := t } with ⟨r1, c1⟩
          rw [hpe] at hel
          cases r1 with
          | err e => intro a ha; simp at ha
          | panic => intro a ha; simp at ha
          | timeout => intro a ha; simp at ha
          | ok u =>
            obtain ⟨pre1, rest1, k, hp1, ht1, hh1, hw1⟩ := hel u rfl
            simp only [runInstructionsM]
            cases hri : runInstructions vm id R.instr c1.tree c1.state with
            | none => intro a ha; simp at ha
            | some ts =>
              intro a _
              refine ⟨pre1, rest1, .node A p k .nil, hp1, .node hT hr hpm hctl ht1 .nil, by simp [Forest.height]; omega,
                .node hadd hw1 (y := ts) ?_ .nil⟩
              rw [executes_iff]
              simp only [instrOf, hr, ← hin]
              exact hri

/-! ### completeness -/

theorem walk_production_of_elements (hP : ParserFor pd start P) {A : Nat}
    {rule : NTRule I} {p : Production} {w w1 : Str} {fuel : Nat} (hr : AMap.get pd.rules A = some rule)
    (hp : p ∈ rule.prods) (hctl : Control pd start A p (SetMember.ofPeek w.head?)) {t t1 : Tree Str} {s : S} {id : NodeId}
    {parent : Option NodeId} {x y : Tree Str × S} (hadd : t.addNode [] parent = (.ok id, t1))
    (hx : Executes vm id (instrOf pd A) x y)
    (hin : ∀ pre (c : Ctx S), c.proc = procAt pre w → c.tree = t1 → c.state = s →
      ∃ pre', parseElements P (parseProduction ho vm P fuel) id (prodElems p) c = (.ok (), ⟨procAt pre' w1, x.2, x.1⟩)) :
    ∀ pre (c : Ctx S), c.proc = procAt pre w → c.tree = t → c.state = s →
      ∃ pre', parseProduction ho vm P (fuel + 1) A parent c = (.ok (), ⟨procAt pre' w1, y.2, y.1⟩) := by
  intro pre c hc ht hst
  rw [parseProduction_succ fuel A hc]
  have hmA := hP.rules A
  rw [hr] at hmA
  obtain ⟨R, hR, hri, -, hmap⟩ := hmA
  rw [hR]
  simp only
  rw [(hmap _ _).mpr ⟨hp, hctl⟩]
  simp only
  rw [ht, hadd]
  simp only
  obtain ⟨pre', g1⟩ := hin pre { c with tree := t1 } hc rfl hst
  rw [SM.bind_apply, g1]
  rw [executes_iff] at hx
  simp only [instrOf, hr] at hx
  simp only [runInstructionsM, hri, hx]
  exact ⟨pre', rfl⟩

theorem walk_elements_complete (hw : WellFormed pd) (hP : ParserFor pd start P) {els : List Nat}
    {w r : Str} {f : Forest} (hd : TopDown pd start els w f r) : ∀ fuel, f.height ≤ fuel →
      ∀ id pre (c : Ctx S) y, c.proc = procAt pre w → Walk vm pd (some id) f (c.tree, c.state) y →
      ∃ pre', parseElements P (parseProduction ho vm P fuel) id els c = (.ok (), ⟨procAt pre' r, y.2, y.1⟩) := by
  induction hd with
  | nil =>
    intro fuel _ id pre c y hc hwk
    cases hwk
    exact ⟨pre, by rw [← hc]; rfl⟩
  | @leaf e es d w r f hT hD _ ih =>
    intro fuel hf id pre c y hc hwk
    rw [parseElements_cons_terminal (elements_get hP.elements hT hD), SM.bind_apply]
    have hl : parseTerminalLoop d.name (procAt pre (d.name ++ w)) = (.ok (), procAt (pre ++ d.name) w) := by
      rcases parseTerminalLoop_spec d.name pre (d.name ++ w) with ⟨r, hr, h⟩ | ⟨s, c', n2, x, r, hn, hr, hne, h⟩ | ⟨c', n2, hn, h⟩
      · rw [h, List.append_cancel_left hr]
      · rw [hn, List.append_assoc] at hr
        have := List.append_cancel_left hr
        simp at this
        exact absurd this.1.symm hne
      · have := congrArg List.length hn
        simp at this
    obtain ⟨proc, state, tree⟩ := c
    simp only at hc hwk
    cases hwk with
    | @leaf _ _ _ _ t' _ ra _ h1 h2 h3 =>
      rw [nameOf_eq hD] at h1
      have hstep : termStep d.name id ⟨proc, state, tree⟩ = (.ok (), ⟨procAt (pre ++ d.name) w, state, t'⟩) := by
        simp only [termStep, SM.bind_apply, onProc, parseScriptTerminal, hc, SM.pure_apply, hl, addTreeNodeIgnore, h1]
        rcases h2 with ⟨i, rfl⟩ | ⟨i, rfl⟩ <;> rfl
      rw [hstep]
      exact ih fuel hf id (pre ++ d.name) ⟨procAt (pre ++ d.name) w, state, t'⟩ y rfl h3
  | @node A es rule p w w1 r kids f hT hr hp hctl _ _ ih1 ih2 =>
    intro fuel hf id pre c z hc hwk
    simp only [Forest.height] at hf
    obtain ⟨k, rfl⟩ : ∃ k, fuel = k + 1 := ⟨fuel - 1, by omega⟩
    have hlt : A < pd.elementTypes.length := (List.getElem?_eq_some_iff.1 hT).1
    have hD := List.getElem?_eq_getElem (hw.lengths ▸ hlt)
    rw [parseElements_cons_nonTerminal (elements_get hP.elements hT hD), SM.bind_apply]
    obtain ⟨proc, state, tree⟩ := c
    simp only at hc hwk
    cases hwk with
    | @node _ _ _ _ _ _ t1 _ nid x y _ h1 h2 h3 h4 =>
      obtain ⟨pre1, g1⟩ := walk_production_of_elements (ho := ho) (fuel := k) hP hr hp hctl h1 h3
        (fun pre c hc ht hs => ih1 k (by omega) nid pre c x hc (by rw [ht, hs]; exact h2)) pre ⟨proc, state, tree⟩ hc rfl rfl
      rw [g1]
      exact ih2 (k + 1) (by omega) id pre1 ⟨procAt pre1 w1, y.2, y.1⟩ z rfl h4

theorem parse_walk (hw : WellFormed pd) (hP : ParserFor pd start P) (hs : StartSymbol pd st0)
    (vm : VM I S) (fuel : Nat) (text rest : Str) (s s' : S) (t : Tree Str) :
    (∃ c, Parser.parse ho fuel vm P text s = (.ok t, c) ∧ c.proc.rest = rest ∧ c.state = s') ↔
      ∃ f, TopDown pd start [st0] text f rest ∧ f.height ≤ fuel ∧ Walk vm pd none f (Tree.new, s) (t, s') := by
  rw [parse_eq hP hs]
  constructor
  · rintro ⟨c, h, hr, hst⟩
    have := walkOk_production (ho := ho) (vm := vm) hw hP fuel st0 none [] text (ctx0 text s) (Spec.StartSymbol.type hs) rfl
    rcases hx : parseProduction ho vm P fuel st0 none (ctx0 text s) with ⟨r, c'⟩
    rw [hx] at h this
    cases r with
    | ok a =>
      obtain ⟨pre', rest', f, h1, h2, h3, h4⟩ := this a rfl
      simp only [Prod.mk.injEq, Res.ok.injEq] at h
      obtain ⟨rfl, rfl⟩ := h
      simp only at h1 h4
      rw [h1] at hr
      have : rest' = rest := hr
      subst this
      subst hst
      exact ⟨f, h2, h3, h4⟩
    | err e => simp at h
    | panic => simp at h
    | timeout => simp at h
  · rintro ⟨f, hf, hh, hwk⟩
    cases hf with
    | leaf h1 _ _ => rw [Spec.StartSymbol.type hs] at h1; cases h1
    | @node A es rule p w w1 r kids f hT hr hp hctl hk ht =>
      cases ht
      simp only [Forest.height] at hh
      obtain ⟨k, rfl⟩ : ∃ k, fuel = k + 1 := ⟨fuel - 1, by omega⟩
      cases hwk with
      | @node _ _ _ _ _ _ t1 _ nid x y _ h1 h2 h3 h4 =>
        cases h4
        obtain ⟨pre1, g1⟩ := walk_production_of_elements (ho := ho) (fuel := k) hP hr hp hctl h1 h3
          (fun pre c hc ht hs => walk_elements_complete hw hP hk k (by omega) nid pre c x hc (by rw [ht, hs]; exact h2))
          [] (ctx0 text s) rfl rfl rfl
        rw [g1]
        exact ⟨_, rfl, rfl, rfl⟩

end HPP
