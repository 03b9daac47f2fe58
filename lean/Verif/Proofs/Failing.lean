import Verif.Spec.Failing
import Verif.Proofs.Walk
import Verif.Proofs.ScriptPos
import Verif.Proofs.AnyVm
/-
Parsing without success is stopping, for every virtual machine.
-/
namespace HPP
open Spec
variable {I S : Type} {pd : ParserData I} {start st0 : Nat} {P : Parser I} {ho : HashOrder} {vm : VM I S}

theorem procAt_rest_inj {p q r s : Str} (h : procAt p r = procAt q s) : r = s := congrArg (fun p => p.rest) h

/-- What a computation that did not succeed says. -/
def StopOk (vm : VM I S) (pd : ParserData I) (start n : Nat) (els : List Nat) (fuel : Nat) (par : Option NodeId) (rest : Str)
    (c : Ctx S) (out : Res PErr Unit × Ctx S) : Prop :=
  (∀ e, out.1 = .err e → ∃ st, Stops vm pd start fuel par els rest (c.tree, c.state) st ∧
    st.Shows pd start n e out.2.proc.rest out.2.state) ∧
  (out.1 = .panic → Stops vm pd start fuel par els rest (c.tree, c.state) .panicked)

theorem stopOk_terminal {e : Nat} {d : ElementData} (hT : pd.elementTypes[e]? = some .terminal)
    (hD : pd.elementData[e]? = some d) {c : Ctx S} {pre rest : Str} {n : Nat} (hc : c.proc = procAt pre rest)
    (hn : pre.length + rest.length = n) (id : NodeId)
    (fuel : Nat) (es : List Nat) : StopOk vm pd start n (e :: es) fuel (some id) rest c (termStep d.name id c) := by
  obtain ⟨proc, state, tree⟩ := c
  simp only at hc
  simp only [StopOk, termStep, SM.bind_apply, onProc, parseScriptTerminal, hc, SM.pure_apply]
  rcases parseTerminalLoop_spec d.name pre rest with ⟨r, rfl, h⟩ | ⟨s, c', n2, x, r, hnm, rfl, hne, h⟩ | ⟨c', n2, hnm, h⟩
  · rw [h]
    simp only [addTreeNodeIgnore]
    rcases hadd : tree.addNode d.name (some id) with ⟨ra, t1⟩
    cases ra with
    | ok i => simp
    | err i => simp
    | panic => simp; exact .leafPanics hT hD hadd
    | timeout => simp
  · rw [h]
    simp only [Res.err.injEq, forall_eq', reduceCtorEq, IsEmpty.forall_iff, and_true]
    refine ⟨_, .wrongChar hT hD hnm hne, ?_, rfl, rfl⟩
    simp at hn ⊢
    omega
  · rw [h]
    simp only [Res.err.injEq, forall_eq', reduceCtorEq, IsEmpty.forall_iff, and_true]
    refine ⟨_, .ended hT hD hnm, ?_, rfl, rfl⟩
    simp [hn]

theorem stopOk_elements (hw : WellFormed pd) (hP : ParserFor pd start P) {fuel n : Nat}
    (hrec : ∀ (A : Nat) (parent : Option NodeId) (pre rest : Str) (c : Ctx S) (es : List Nat),
      pd.elementTypes[A]? = some .nonTerminal → (∃ r, AMap.get pd.rules A = some r) → c.proc = procAt pre rest →
      pre.length + rest.length = n →
      StopOk vm pd start n (A :: es) fuel parent rest c (parseProduction ho vm P fuel A parent c))
    (id : NodeId) (els : List Nat) : (∀ e ∈ els, e < pd.elementTypes.length) →
      (∀ e ∈ els, pd.elementTypes[e]? = some .nonTerminal → ∃ r, AMap.get pd.rules e = some r) →
      ∀ (pre rest : Str) (c : Ctx S), c.proc = procAt pre rest → pre.length + rest.length = n →
      StopOk vm pd start n els fuel (some id) rest c (parseElements P (parseProduction ho vm P fuel) id els c) := by
  induction els with
  | nil => intro _ _ pre rest c hc hn; simp [StopOk, parseElements]
  | cons e es ih =>
    intro hrange hdef pre rest c hc hn
    have hlt := hrange e (by simp)
    have hT := List.getElem?_eq_getElem hlt
    have hD := List.getElem?_eq_getElem (hw.lengths ▸ hlt)
    have key : ∀ (step : SM (Ctx S) PErr Unit), PosGood step → WalkOk vm pd start [e] fuel (some id) rest c (step c) →
        StopOk vm pd start n (e :: es) fuel (some id) rest c (step c) →
        StopOk vm pd start n (e :: es) fuel (some id) rest c
          ((step >>= fun _ => parseElements P (parseProduction ho vm P fuel) id es) c) := by
      intro step hpos hg hst
      obtain ⟨u, rest', h1, h2, -⟩ := hpos pre rest c hc
      rw [SM.bind_apply]
      rcases hs : step c with ⟨r, c1⟩
      rw [hs] at hg hst h2
      cases r with
      | timeout => exact hst
      | err x => exact hst
      | panic => exact hst
      | ok a =>
        obtain ⟨pre1, rest1, f, hp1, ht1, hh1, hw1⟩ := hg a rfl
        simp only at hp1 hw1 h2 ⊢
        have : rest' = rest1 := procAt_rest_inj (h2.symm.trans hp1)
        subst this
        obtain ⟨g1, g2⟩ := ih (fun x hx => hrange x (by simp [hx])) (fun x hx => hdef x (by simp [hx])) _ _ c1 h2
          (by rw [← hn, h1]; simp; omega)
        refine ⟨fun x hx => ?_, fun hx => .after ht1 hh1 hw1 (g2 hx)⟩
        obtain ⟨st, k1, k2⟩ := g1 x hx
        exact ⟨st, .after ht1 hh1 hw1 k1, k2⟩
    cases htt : pd.elementTypes[e] with
    | terminal =>
      rw [htt] at hT
      rw [parseElements_cons_terminal (elements_get hP.elements hT hD)]
      exact key _ (.bind (.terminal _) (fun s => .addTreeNodeIgnore _ _)) (walkOk_terminal hT hD hc id fuel)
        (stopOk_terminal hT hD hc hn id fuel es)
    | nonTerminal =>
      rw [htt] at hT
      rw [parseElements_cons_nonTerminal (elements_get hP.elements hT hD)]
      exact key _ (PosGood.production ho vm P fuel e (some id))
        (walkOk_production hw hP fuel e (some id) pre rest c hT hc)
        (hrec e (some id) pre rest c es hT (hdef e (by simp) hT) hc hn)

theorem stopOk_production (hw : WellFormed pd) (hd : AllDefined pd) (hP : ParserFor pd start P) (n fuel : Nat) :
    ∀ (A : Nat) (parent : Option NodeId) (pre rest : Str) (c : Ctx S) (es : List Nat),
      pd.elementTypes[A]? = some .nonTerminal → (∃ r, AMap.get pd.rules A = some r) → c.proc = procAt pre rest →
      pre.length + rest.length = n →
      StopOk vm pd start n (A :: es) fuel parent rest c (parseProduction ho vm P fuel A parent c) := by
  induction fuel with
  | zero => intro A parent pre rest c es _ _ _ _; simp [StopOk, parseProduction]
  | succ fuel ih =>
    intro A parent pre rest c es hT ⟨r, hr⟩ hc hn
    rw [parseProduction_succ fuel A hc]
    have hmA := hP.rules A
    rw [hr] at hmA
    obtain ⟨R, hR, hin, -, hmap⟩ := hmA
    rw [hR]
    simp only
    cases hp : AMap.get R.steuermap (SetMember.ofPeek rest.head?) with
    | none =>
      have hpr : c.proc.rest = rest := by rw [hc]; rfl
      simp only [StopOk, Res.err.injEq, forall_eq', reduceCtorEq, IsEmpty.forall_iff, and_true]
      refine ⟨.noAlternative A rest c.state, .noAlternative hT hr ?_, hpr, rfl, r,
        ho.iter 9 SetMember (AMap.keys R.steuermap), hr, ((ho.perm _ _ _).nodup_iff).mpr (hP.nodup A R hR), ?_, ?_⟩
      · intro p hpm hctl
        have := (hmap _ _).mpr ⟨hpm, hctl⟩
        rw [hp] at this; cases this
      · intro m
        rw [(ho.perm _ _ _).mem_iff, AMap.mem_keys_iff]
        exact ⟨fun ⟨p, hp⟩ => ⟨p, (hmap m p).mp hp⟩, fun ⟨p, hp⟩ => ⟨p, (hmap m p).mpr hp⟩⟩
      · have : pre.length = n - rest.length := by omega
        rw [this, expectedText_eq]
    | some p =>
      obtain ⟨hpm, hctl⟩ := (hmap _ _).mp hp
      simp only
      rcases hadd : c.tree.addNode [] parent with ⟨ra, t⟩
      cases ra with
      | err e =>
        simp only [StopOk, Res.err.injEq, forall_eq', reduceCtorEq, IsEmpty.forall_iff, and_true]
        exact ⟨.noParent e rest c.state, .noParent hT hr hpm hctl hadd, rfl, by rw [hc]; rfl, rfl⟩
      | panic =>
        simp only [StopOk, reduceCtorEq, IsEmpty.forall_iff, implies_true, true_and, forall_const]
        exact .nodePanics hT hr hpm hctl hadd
      | timeout => simp [StopOk]
      | ok id =>
        simp only
        have hwk := walkOk_elements (c := { c with tree := t }) (ho := ho) (vm := vm) hw hP (fuel := fuel)
          (walkOk_production hw hP fuel) id (prodElems p) (hw.inRange A r hr p hpm) pre rest hc
        obtain ⟨h1, h2⟩ := stopOk_elements (c := { c with tree := t }) (ho := ho) (vm := vm) hw hP ih id (prodElems p)
          (hw.inRange A r hr p hpm) (hd A r hr p hpm) pre rest hc hn
        rw [SM.bind_apply]
        rcases hpe : parseElements P (parseProduction ho vm P fuel) id (prodElems p) { c with tree := t } with ⟨r1, c1⟩
        rw [hpe] at hwk h1 h2
        cases r1 with
        | timeout => simp [StopOk]
        | err e =>
          refine ⟨fun x hx => ?_, by simp⟩
          obtain ⟨st, k1, k2⟩ := h1 x hx
          exact ⟨st, .inside hT hr hpm hctl hadd k1, k2⟩
        | panic => exact ⟨by simp, fun _ => .inside hT hr hpm hctl hadd (h2 rfl)⟩
        | ok u =>
          obtain ⟨pre1, rest1, k, hp1, ht1, hh1, hw1⟩ := hwk u rfl
          simp only [runInstructionsM]
          cases hri : runInstructions vm id R.instr c1.tree c1.state with
          | some ts => simp [StopOk]
          | none =>
            refine ⟨by simp, fun _ => .machinePanics hT hr hpm hctl hadd ht1 hh1 hw1 (fun y hy => ?_)⟩
            rw [executes_iff] at hy
            simp only [instrOf, hr, ← hin] at hy
            rw [hri] at hy; cases hy

/-! ### the other direction -/

/-- The computation ends as the stop says. -/
def EndsAt (pd : ParserData I) (start n : Nat) (st : Stop S) (out : Res PErr Unit × Ctx S) : Prop :=
  (out.1 = .panic ∧ st = .panicked) ∨ ∃ e, out.1 = .err e ∧ st.Shows pd start n e out.2.proc.rest out.2.state

theorem EndsAt.bind {n : Nat} {st : Stop S} {m : SM (Ctx S) PErr Unit} {f : Unit → SM (Ctx S) PErr Unit} {c : Ctx S}
    (h : EndsAt pd start n st (m c)) : EndsAt pd start n st ((m >>= f) c) := by
  rw [SM.bind_apply]
  rcases hm : m c with ⟨r, c1⟩
  rw [hm] at h
  cases r with
  | ok a => rcases h with ⟨h, -⟩ | ⟨e, h, -⟩ <;> cases h
  | err e => exact h
  | panic => exact h
  | timeout => rcases h with ⟨h, -⟩ | ⟨e, h, -⟩ <;> cases h

/-- Reading the whole forest of one production, as `walk_elements_complete`, with the position. -/
theorem walk_elements_pos (hw : WellFormed pd) (hP : ParserFor pd start P) {els : List Nat}
    {w r : Str} {f : Forest} (hd : TopDown pd start els w f r) {fuel : Nat} (hf : f.height ≤ fuel) {id : NodeId} {pre : Str}
    {c : Ctx S} {y : Tree Str × S} (hc : c.proc = procAt pre w) (hk : Walk vm pd (some id) f (c.tree, c.state) y) :
    ∃ pre', parseElements P (parseProduction ho vm P fuel) id els c = (.ok (), ⟨procAt pre' r, y.2, y.1⟩) ∧
      pre'.length + r.length = pre.length + w.length := by
  obtain ⟨pre', h⟩ := walk_elements_complete (ho := ho) hw hP hd fuel hf id pre c y hc hk
  obtain ⟨s, rest', h1, h2, -⟩ := PosGood.elements P (PosGood.production ho vm P fuel) id els pre w c hc
  rw [h] at h2
  simp only at h2
  have : r = rest' := procAt_rest_inj h2
  subst this
  refine ⟨pre ++ s, by rw [h, h2], by rw [h1]; simp; omega⟩

theorem stops_complete (hw : WellFormed pd) (hP : ParserFor pd start P) {n k : Nat} {par : Option NodeId} {els : List Nat}
    {w : Str} {x : Tree Str × S} {st : Stop S} (h : Stops vm pd start k par els w x st) :
    (∀ id pre (c : Ctx S), par = some id → c.proc = procAt pre w → pre.length + w.length = n → (c.tree, c.state) = x →
      EndsAt pd start n st (parseElements P (parseProduction ho vm P k) id els c)) ∧
    (∀ A pre (c : Ctx S), els = [A] → pd.elementTypes[A]? = some .nonTerminal → c.proc = procAt pre w →
      pre.length + w.length = n → (c.tree, c.state) = x →
      EndsAt pd start n st (parseProduction ho vm P k A par c)) := by
  have hnt : ∀ {k : Nat} {par : Option NodeId} {A : Nat} {es : List Nat} {w : Str} {x : Tree Str × S} {st : Stop S},
      pd.elementTypes[A]? = some .nonTerminal →
      (∀ pre (c : Ctx S), c.proc = procAt pre w → pre.length + w.length = n → (c.tree, c.state) = x →
        EndsAt pd start n st (parseProduction ho vm P k A par c)) →
      (∀ id pre (c : Ctx S), par = some id → c.proc = procAt pre w → pre.length + w.length = n → (c.tree, c.state) = x →
        EndsAt pd start n st (parseElements P (parseProduction ho vm P k) id (A :: es) c)) ∧
      (∀ B pre (c : Ctx S), A :: es = [B] → pd.elementTypes[B]? = some .nonTerminal → c.proc = procAt pre w →
        pre.length + w.length = n → (c.tree, c.state) = x →
        EndsAt pd start n st (parseProduction ho vm P k B par c)) := by
    intro k par A es w x st hT hprod
    have hlt : A < pd.elementTypes.length := (List.getElem?_eq_some_iff.1 hT).1
    have hD := List.getElem?_eq_getElem (hw.lengths ▸ hlt)
    refine ⟨?_, ?_⟩
    · rintro id pre c rfl hc hn hx
      rw [parseElements_cons_nonTerminal (elements_get hP.elements hT hD)]
      exact EndsAt.bind (hprod pre c hc hn hx)
    · rintro B pre c hB _ hc hn hx
      simp only [List.cons.injEq] at hB
      obtain ⟨rfl, -⟩ := hB
      exact hprod pre c hc hn hx
  have hnotT : ∀ {e : Nat} {es : List Nat} {B : Nat}, e :: es = [B] → pd.elementTypes[e]? = some .terminal →
      pd.elementTypes[B]? = some .nonTerminal → False := by
    intro e es B h1 h2 h3
    simp only [List.cons.injEq] at h1
    obtain ⟨rfl, -⟩ := h1
    rw [h2] at h3; cases h3
  induction h with
  | @wrongChar k par e es d u v r c c' t s hT hD hnm hne =>
    refine ⟨?_, fun B _ _ h1 h2 => (hnotT h1 hT h2).elim⟩
    rintro id pre ⟨proc, state, tree⟩ rfl hc hn hx
    simp only [Prod.mk.injEq] at hx hc
    obtain ⟨rfl, rfl⟩ := hx
    rw [parseElements_cons_terminal (elements_get hP.elements hT hD)]
    refine EndsAt.bind (.inr ?_)
    simp only [termStep, SM.bind_apply, onProc, parseScriptTerminal, hc, SM.pure_apply]
    rcases parseTerminalLoop_spec d.name pre (u ++ c :: r) with ⟨r2, h1, h⟩ | ⟨s2, c2, n2, x2, r2, h1, h2, h3, h⟩ | ⟨c2, n2, h1, h⟩
    · rw [hnm, List.append_assoc] at h1
      have := List.append_cancel_left h1
      simp at this
      exact absurd this.1 hne
    · rw [h]
      obtain ⟨rfl, e1, e2, e3⟩ : u = s2 ∧ c' = c2 ∧ c = x2 ∧ r = r2 := by
        rw [hnm] at h1
        clear h hn hc hnm hT hD
        induction u generalizing s2 with
        | nil =>
          cases s2 with
          | nil => simp at h1 h2; exact ⟨rfl, h1.1, h2.1, h2.2⟩
          | cons a s2 =>
            simp at h1 h2
            exact absurd (h2.1.trans h1.1.symm) hne
        | cons b u ih =>
          cases s2 with
          | nil => simp at h1 h2; exact absurd (h2.1.symm.trans h1.1) h3
          | cons a s2 =>
            simp at h1 h2
            obtain ⟨rfl, e1⟩ := ih s2 h1.2 h2.2
            exact ⟨by rw [h1.1], e1⟩
      subst e1 e2 e3
      refine ⟨_, rfl, ?_, rfl, rfl⟩
      simp at hn ⊢
      omega
    · rw [hnm, List.append_assoc] at h1
      have := List.append_cancel_left h1
      simp at this
      exact absurd this.1.symm hne
  | @ended k par e es d w v c' t s hT hD hnm =>
    refine ⟨?_, fun B _ _ h1 h2 => (hnotT h1 hT h2).elim⟩
    rintro id pre ⟨proc, state, tree⟩ rfl hc hn hx
    simp only [Prod.mk.injEq] at hx hc
    obtain ⟨rfl, rfl⟩ := hx
    rw [parseElements_cons_terminal (elements_get hP.elements hT hD)]
    refine EndsAt.bind (.inr ?_)
    simp only [termStep, SM.bind_apply, onProc, parseScriptTerminal, hc, SM.pure_apply]
    rcases parseTerminalLoop_spec d.name pre w with ⟨r2, h1, h⟩ | ⟨s2, c2, n2, x2, r2, h1, h2, h3, h⟩ | ⟨c2, n2, h1, h⟩
    · have h1 := congrArg List.length h1
      have h2 := congrArg List.length hnm
      simp at h1 h2
      omega
    · rw [hnm, h2, List.append_assoc] at h1
      have := List.append_cancel_left h1
      simp at this
      exact absurd this.1 h3
    · rw [h]
      exact ⟨_, rfl, by simp [hn], rfl, rfl⟩
  | @noAlternative k par A es rule w t s hT hr hno =>
    refine hnt hT ?_
    rintro pre ⟨proc, state, tree⟩ hc hn hx
    simp only [Prod.mk.injEq] at hx hc
    obtain ⟨rfl, rfl⟩ := hx
    rw [parseProduction_succ (pre := pre) (rest := w) k A hc]
    have hmA := hP.rules A
    rw [hr] at hmA
    obtain ⟨R, hR, hin, -, hmap⟩ := hmA
    rw [hR]
    simp only
    cases hp : AMap.get R.steuermap (SetMember.ofPeek w.head?) with
    | some p => exact absurd ((hmap _ _).mp hp).2 (hno p ((hmap _ _).mp hp).1)
    | none =>
      refine .inr ⟨_, rfl, by rw [hc]; rfl, rfl, rule, ho.iter 9 SetMember (AMap.keys R.steuermap), hr,
        ((ho.perm _ _ _).nodup_iff).mpr (hP.nodup A R hR), ?_, ?_⟩
      · intro m
        rw [(ho.perm _ _ _).mem_iff, AMap.mem_keys_iff]
        exact ⟨fun ⟨p, hp⟩ => ⟨p, (hmap m p).mp hp⟩, fun ⟨p, hp⟩ => ⟨p, (hmap m p).mpr hp⟩⟩
      · have : pre.length = n - w.length := by omega
        rw [this, expectedText_eq]
  | @noParent k par A es rule p w t t1 s e hT hr hpm hctl hadd =>
    refine hnt hT ?_
    rintro pre ⟨proc, state, tree⟩ hc hn hx
    simp only [Prod.mk.injEq] at hx hc
    obtain ⟨rfl, rfl⟩ := hx
    rw [parseProduction_succ (pre := pre) (rest := w) k A hc]
    have hmA := hP.rules A
    rw [hr] at hmA
    obtain ⟨R, hR, hin, -, hmap⟩ := hmA
    rw [hR]
    simp only
    rw [(hmap _ _).mpr ⟨hpm, hctl⟩]
    simp only
    rw [hadd]
    exact .inr ⟨_, rfl, rfl, by rw [hc]; rfl, rfl⟩
  | @inside k par A es rule p w t t1 s id st hT hr hpm hctl hadd _ ih =>
    refine hnt hT ?_
    rintro pre ⟨proc, state, tree⟩ hc hn hx
    simp only [Prod.mk.injEq] at hx hc
    obtain ⟨rfl, rfl⟩ := hx
    rw [parseProduction_succ (pre := pre) (rest := w) k A hc]
    have hmA := hP.rules A
    rw [hr] at hmA
    obtain ⟨R, hR, hin, -, hmap⟩ := hmA
    rw [hR]
    simp only
    rw [(hmap _ _).mpr ⟨hpm, hctl⟩]
    simp only
    rw [hadd]
    exact EndsAt.bind (ih.1 id pre ⟨proc, state, t1⟩ rfl hc hn rfl)
  | @after k par e es w w1 f x y st htd hh hwk hst ih =>
    refine ⟨?_, ?_⟩
    · rintro id pre c rfl hc hn rfl
      obtain ⟨pre', h1, h2⟩ := walk_elements_pos (ho := ho) hw hP htd hh hc hwk
      have hcons : parseElements P (parseProduction ho vm P k) id (e :: es) c =
          (parseElements P (parseProduction ho vm P k) id [e] >>= fun _ =>
            parseElements P (parseProduction ho vm P k) id es) c := by
        have hlt : ∃ el, P.elements[e]? = some el := by
          cases htd with
          | leaf hT hD _ => exact ⟨_, elements_get hP.elements hT hD⟩
          | node hT _ _ _ _ _ =>
            have hlt : e < pd.elementTypes.length := (List.getElem?_eq_some_iff.1 hT).1
            exact ⟨_, elements_get hP.elements hT (List.getElem?_eq_getElem (hw.lengths ▸ hlt))⟩
        obtain ⟨⟨nm, et⟩, hel⟩ := hlt
        cases et with
        | terminal =>
          rw [SM.bind_apply, parseElements_cons_terminal hel, parseElements_cons_terminal hel, SM.bind_apply, SM.bind_apply]
          rcases termStep nm id c with ⟨r, c1⟩
          cases r <;> rfl
        | nonTerminal =>
          rw [SM.bind_apply, parseElements_cons_nonTerminal hel, parseElements_cons_nonTerminal hel, SM.bind_apply, SM.bind_apply]
          rcases parseProduction ho vm P k e (some id) c with ⟨r, c1⟩
          cases r <;> rfl
      rw [hcons, SM.bind_apply, h1]
      exact ih.1 id pre' ⟨procAt pre' w1, y.2, y.1⟩ rfl rfl (by omega) rfl
    · intro B pre c hB
      simp only [List.cons.injEq] at hB
      obtain ⟨-, rfl⟩ := hB
      cases hst
  | @leafPanics k par e es d w t t1 s hT hD hadd =>
    refine ⟨?_, fun B _ _ h1 h2 => (hnotT h1 hT h2).elim⟩
    rintro id pre ⟨proc, state, tree⟩ rfl hc hn hx
    simp only [Prod.mk.injEq] at hx hc
    obtain ⟨rfl, rfl⟩ := hx
    rw [parseElements_cons_terminal (elements_get hP.elements hT hD)]
    refine EndsAt.bind (.inl ⟨?_, rfl⟩)
    simp only [termStep, SM.bind_apply, onProc, parseScriptTerminal, hc, SM.pure_apply]
    rcases parseTerminalLoop_spec d.name pre (d.name ++ w) with ⟨r2, h1, h⟩ | ⟨s2, c2, n2, x2, r2, h1, h2, h3, h⟩ | ⟨c2, n2, h1, h⟩
    · rw [h]
      simp only [addTreeNodeIgnore, hadd]
    · rw [h1, List.append_assoc] at h2
      have := List.append_cancel_left h2
      simp at this
      exact absurd this.1.symm h3
    · have := congrArg List.length h1
      simp at this
  | @nodePanics k par A es rule p w t t1 s hT hr hpm hctl hadd =>
    refine hnt hT ?_
    rintro pre ⟨proc, state, tree⟩ hc hn hx
    simp only [Prod.mk.injEq] at hx hc
    obtain ⟨rfl, rfl⟩ := hx
    rw [parseProduction_succ (pre := pre) (rest := w) k A hc]
    have hmA := hP.rules A
    rw [hr] at hmA
    obtain ⟨R, hR, hin, -, hmap⟩ := hmA
    rw [hR]
    simp only
    rw [(hmap _ _).mpr ⟨hpm, hctl⟩]
    simp only
    rw [hadd]
    exact .inl ⟨rfl, rfl⟩
  | @machinePanics k par A es rule p w w1 kids t t1 s id x hT hr hpm hctl hadd htd hh hwk hno =>
    refine hnt hT ?_
    rintro pre ⟨proc, state, tree⟩ hc hn hx
    simp only [Prod.mk.injEq] at hx hc
    obtain ⟨rfl, rfl⟩ := hx
    rw [parseProduction_succ (pre := pre) (rest := w) k A hc]
    have hmA := hP.rules A
    rw [hr] at hmA
    obtain ⟨R, hR, hin, -, hmap⟩ := hmA
    rw [hR]
    simp only
    rw [(hmap _ _).mpr ⟨hpm, hctl⟩]
    simp only
    rw [hadd]
    obtain ⟨pre', h1, -⟩ := walk_elements_pos (ho := ho) (c := ⟨proc, state, t1⟩) hw hP htd hh hc hwk
    simp only
    rw [SM.bind_apply, h1]
    simp only [runInstructionsM]
    cases hri : runInstructions vm id R.instr x.1 x.2 with
    | none => exact .inl ⟨rfl, rfl⟩
    | some ts =>
      refine absurd ?_ (hno ts)
      rw [executes_iff]
      simp only [instrOf, hr, ← hin]
      exact hri

/-! ### parse -/

theorem parse_stops (hw : WellFormed pd) (hd : AllDefined pd) (hP : ParserFor pd start P) (hs : StartSymbol pd st0)
    (hdef : ∃ r, AMap.get pd.rules st0 = some r) (vm : VM I S) (fuel : Nat) (text : Str) (s : S) :
    (∀ e c, Parser.parse ho fuel vm P text s = (.err e, c) →
      ∃ st, Stops vm pd start fuel none [st0] text (Tree.new, s) st ∧ st.Shows pd start text.length e c.proc.rest c.state) ∧
    (∀ st, Stops vm pd start fuel none [st0] text (Tree.new, s) st → st ≠ .panicked →
      ∃ e c, Parser.parse ho fuel vm P text s = (.err e, c) ∧ st.Shows pd start text.length e c.proc.rest c.state) ∧
    ((Parser.parse ho fuel vm P text s).1 = .panic ↔ Stops vm pd start fuel none [st0] text (Tree.new, s) .panicked) := by
  rw [parse_eq hP hs]
  obtain ⟨h1, h2⟩ := stopOk_production (ho := ho) (vm := vm) hw hd hP text.length fuel st0 none [] text (ctx0 text s) []
    (Spec.StartSymbol.type hs) hdef rfl (by simp)
  have h3 : ∀ st, Stops vm pd start fuel none [st0] text (Tree.new, s) st →
      EndsAt pd start text.length st (parseProduction ho vm P fuel st0 none (ctx0 text s)) :=
    fun st hst => (stops_complete hw hP hst).2 st0 [] (ctx0 text s) rfl (Spec.StartSymbol.type hs) rfl (by simp) rfl
  rcases hx : parseProduction ho vm P fuel st0 none (ctx0 text s) with ⟨r, c⟩
  rw [hx] at h1 h2 h3
  have hpan : r ≠ .panic → ¬ Stops vm pd start fuel none [st0] text (Tree.new, s) .panicked := by
    intro hr hst
    rcases h3 _ hst with ⟨h, -⟩ | ⟨e, -, h⟩
    · exact hr h
    · exact h
  cases r with
  | ok a =>
    refine ⟨by simp, fun st hst _ => ?_, by simpa using hpan (by simp)⟩
    rcases h3 st hst with ⟨h, -⟩ | ⟨e, h, -⟩ <;> cases h
  | timeout =>
    refine ⟨by simp, fun st hst _ => ?_, by simpa using hpan (by simp)⟩
    rcases h3 st hst with ⟨h, -⟩ | ⟨e, h, -⟩ <;> cases h
  | panic =>
    refine ⟨by simp, fun st hst hne => ?_, by simpa using (show Stops vm pd start fuel none [st0] text (Tree.new, s) .panicked from h2 rfl)⟩
    rcases h3 st hst with ⟨-, h⟩ | ⟨e, h, -⟩
    · exact absurd h hne
    · cases h
  | err x =>
    refine ⟨?_, fun st hst hne => ?_, by simpa using hpan (by simp)⟩
    · rintro e c' hec
      simp only [Prod.mk.injEq, Res.err.injEq] at hec
      obtain ⟨rfl, rfl⟩ := hec
      exact h1 x rfl
    · rcases h3 st hst with ⟨h, -⟩ | ⟨e, h, h'⟩
      · cases h
      · cases h
        exact ⟨_, _, rfl, h'⟩

end HPP
