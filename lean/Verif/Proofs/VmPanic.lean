import Verif.Props.Parse
/-
VMs whose instructions may panic: such a VM is compared with a total one that remembers the panic in its state.
-/
namespace HPP
open Spec
variable {I S : Type}

/-- The VM that, instead of panicking, goes to the state `none` and stays there. -/
def flagVm (vm : VM I S) : VM I (Option S) where
  parseInstructions := vm.parseInstructions
  execute t id i s :=
    match s with
    | none => some (t, none)
    | some s =>
      match vm.execute t id i s with
      | none => some (t, none)
      | some (t', s') => some (t', some s')
  init := some vm.init

theorem flagVm_total (vm : VM I S) : Total (flagVm vm) := by
  intro t id i s
  simp only [flagVm]
  cases s with
  | none => simp
  | some s =>
    simp only
    rcases vm.execute t id i s with _ | ⟨t', s'⟩
    · exact fun h => by cases h
    · exact fun h => by cases h

theorem flagVm_treePreserving {vm : VM I S} (h : TreePreserving vm) : TreePreserving (flagVm vm) := by
  intro t id i s t' s' he
  simp only [flagVm] at he
  cases s with
  | none => simp at he; exact he.1.symm
  | some s =>
    simp only at he
    rcases hx : vm.execute t id i s with _ | ⟨t1, s1⟩
    · rw [hx] at he; simp at he; exact he.1.symm
    · rw [hx] at he
      simp only [Option.some.injEq, Prod.mk.injEq] at he
      rw [← he.1]
      exact h _ _ _ _ _ _ hx

/-- Once panicked, always panicked. -/
def StaysNone : Option S → Option S → Prop := fun a b => a = none → b = none

theorem flagVm_stays (vm : VM I S) : ∀ t id i s t' s', (flagVm vm).execute t id i s = some (t', s') → StaysNone s s' := by
  intro t id i s t' s' h hs
  subst hs
  simp only [flagVm, Option.some.injEq, Prod.mk.injEq] at h
  exact h.2.symm

theorem StaysNone.rfl (s : Option S) : StaysNone s s := fun h => h
theorem StaysNone.trans (a b c : Option S) (h1 : StaysNone a b) (h2 : StaysNone b c) : StaysNone a c :=
  fun h => h2 (h1 h)

theorem runInstructions_flag_none (vm : VM I S) (id : NodeId) (is : List I) (t : Tree Str) :
    runInstructions (flagVm vm) id is t none = some (t, none) := by
  induction is with
  | nil => rfl
  | cons i is ih => simp only [runInstructions, flagVm]; exact ih

theorem runInstructions_flag (vm : VM I S) (id : NodeId) (is : List I) : ∀ (t : Tree Str) (s : S),
    (runInstructions vm id is t s = none ∧ ∃ t', runInstructions (flagVm vm) id is t (some s) = some (t', none)) ∨
    (∃ t' s', runInstructions vm id is t s = some (t', s') ∧
      runInstructions (flagVm vm) id is t (some s) = some (t', some s')) := by
  induction is with
  | nil => intro t s; exact .inr ⟨t, s, rfl, rfl⟩
  | cons i is ih =>
    intro t s
    rcases hx : vm.execute t id i s with _ | ⟨t1, s1⟩
    · refine .inl ⟨by simp only [runInstructions, hx], t, ?_⟩
      have h : (flagVm vm).execute t id i (some s) = some (t, none) := by simp only [flagVm, hx]
      simp only [runInstructions, h]
      exact runInstructions_flag_none vm id is t
    · have h : (flagVm vm).execute t id i (some s) = some (t1, some s1) := by simp only [flagVm, hx]
      simp only [runInstructions, h, hx]
      exact ih t1 s1

/-- The context of the flagged VM. -/
def Ctx.flag (c : Ctx S) : Ctx (Option S) := ⟨c.proc, some c.state, c.tree⟩

/-- A computation with a VM and the same with its flagged version. -/
def PSim {α : Type} (m : SM (Ctx S) PErr α) (m' : SM (Ctx (Option S)) PErr α) : Prop :=
  Keeps StaysNone m' ∧
  ∀ c, ((m c).1 = .panic ∧ (m' c.flag).2.state = none) ∨ (m' c.flag = ((m c).1, (m c).2.flag))

theorem PSim.bind {α β : Type} {m : SM (Ctx S) PErr α} {m' : SM (Ctx (Option S)) PErr α}
    {f : α → SM (Ctx S) PErr β} {f' : α → SM (Ctx (Option S)) PErr β} (h : PSim m m') (hf : ∀ a, PSim (f a) (f' a)) :
    PSim (m >>= f) (m' >>= f') := by
  refine ⟨Keeps.bind StaysNone.trans h.1 (fun a => (hf a).1), fun c => ?_⟩
  simp only [SM.bind_apply]
  have h1 := h.2 c
  rcases hm : m c with ⟨r, d⟩
  rcases hm' : m' c.flag with ⟨r', d'⟩
  rw [hm, hm'] at h1
  rcases h1 with ⟨h1, h2⟩ | h1
  · simp only at h1 h2
    subst h1
    refine .inl ⟨rfl, ?_⟩
    cases r' with
    | ok a => exact (hf a).1 d' h2
    | err e => exact h2
    | panic => exact h2
    | timeout => exact h2
  · simp only [Prod.mk.injEq] at h1
    obtain ⟨rfl, rfl⟩ := h1
    cases r' with
    | ok a => exact (hf a).2 d
    | err e => exact .inr rfl
    | panic => exact .inr rfl
    | timeout => exact .inr rfl

theorem PSim.same {α : Type} {m : SM (Ctx S) PErr α} {m' : SM (Ctx (Option S)) PErr α}
    (h1 : ∀ c, (m' c).2.state = c.state) (h2 : ∀ c, m' c.flag = ((m c).1, (m c).2.flag)) : PSim m m' :=
  ⟨.same StaysNone.rfl h1, fun c => .inr (h2 c)⟩

theorem PSim.onProc {α : Type} (f : SM Proc PErr α) : PSim (S := S) (HPP.onProc f) (HPP.onProc f) :=
  .same (fun _ => rfl) (fun _ => rfl)

theorem PSim.elements {rec : Nat → Option NodeId → SM (Ctx S) PErr Unit}
    {rec' : Nat → Option NodeId → SM (Ctx (Option S)) PErr Unit} (P : Parser I)
    (hr : ∀ e p, PSim (rec e p) (rec' e p)) (id : NodeId) (els : List Nat) :
    PSim (parseElements P rec id els) (parseElements P rec' id els) := by
  induction els with
  | nil => exact .same (fun _ => rfl) (fun _ => rfl)
  | cons e es ih =>
    simp only [parseElements]
    refine .bind (.same (fun _ => rfl) (fun _ => rfl)) (fun el => ?_)
    cases el.et with
    | terminal => exact .bind (.onProc _) (fun s => .bind (.same (fun _ => rfl) (fun _ => rfl)) (fun _ => ih))
    | nonTerminal => exact .bind (hr _ _) (fun _ => ih)

theorem PSim.run (vm : VM I S) (id : NodeId) (is : List I) :
    PSim (runInstructionsM vm id is) (runInstructionsM (flagVm vm) id is) := by
  constructor
  · intro c
    simp only [runInstructionsM]
    split
    · exact StaysNone.rfl _
    · next h => exact Keeps.runL StaysNone.rfl StaysNone.trans (flagVm_stays vm) _ _ _ _ _ _ h
  · intro c
    simp only [runInstructionsM]
    rcases runInstructions_flag vm id is c.tree c.state with ⟨h1, t', h2⟩ | ⟨t', s', h1, h2⟩
    · refine .inl ?_
      have h2' : runInstructions (flagVm vm) id is c.flag.tree c.flag.state = some (t', none) := h2
      rw [h1, h2']
      exact ⟨rfl, rfl⟩
    · have h2' : runInstructions (flagVm vm) id is c.flag.tree c.flag.state = some (t', some s') := h2
      rw [h1, h2']
      exact .inr rfl

theorem PSim.production (vm : VM I S) (ho : HashOrder) (P : Parser I) (fuel : Nat) :
    ∀ e p, PSim (parseProduction ho vm P fuel e p) (parseProduction ho (flagVm vm) P fuel e p) := by
  induction fuel with
  | zero => intro e p; exact .same (fun _ => rfl) (fun _ => rfl)
  | succ fuel ih =>
    intro e p
    simp only [parseProduction]
    refine .bind (.onProc _) (fun cur => .bind (.same (fun _ => rfl) (fun _ => rfl)) (fun r => .bind (.onProc _) (fun prod =>
      .bind (.same (fun _ => rfl) (fun _ => rfl)) (fun id => ?_))))
    cases prod with
    | notEmpty els => exact .bind (.elements P ih id els) (fun _ => .run vm _ _)
    | empty => exact .bind (.same (fun _ => rfl) (fun _ => rfl)) (fun _ => .run vm _ _)

/-- A parse with a VM either panics, and then the flagged VM ends in the state `none`, or does the same as the parse with
the flagged VM. -/
theorem PSim.parse (vm : VM I S) (ho : HashOrder) (P : Parser I) (fuel : Nat) (text : Str) (s : S) :
    ((Parser.parse ho fuel vm P text s).1 = .panic ∧
      (Parser.parse ho fuel (flagVm vm) P text (some s)).2.state = none) ∨
    Parser.parse ho fuel (flagVm vm) P text (some s) =
      ((Parser.parse ho fuel vm P text s).1, (Parser.parse ho fuel vm P text s).2.flag) := by
  simp only [Parser.parse]
  cases positionOf ⟨c% "start", .nonTerminal⟩ P.elements with
  | none => exact .inr rfl
  | some ix =>
    have := (PSim.production vm ho P fuel ix none).2 ⟨Proc.ofText text, s, Tree.new⟩
    simp only [Ctx.flag] at this ⊢
    generalize parseProduction ho vm P fuel ix none ⟨Proc.ofText text, s, Tree.new⟩ = x1 at this
    generalize parseProduction ho (flagVm vm) P fuel ix none ⟨Proc.ofText text, some s, Tree.new⟩ = x2 at this
    obtain ⟨r1, c1⟩ := x1
    obtain ⟨r2, c2⟩ := x2
    rcases this with ⟨h1, h2⟩ | h1
    · simp only at h1 h2
      subst h1
      exact .inl ⟨rfl, by cases r2 <;> exact h2⟩
    · simp only [Prod.mk.injEq] at h1
      obtain ⟨rfl, rfl⟩ := h1
      cases r2 <;> exact .inr rfl

/-- A run of the flagged VM is a run of the VM, or some instruction panicked. -/
theorem Runs.flag {vm : VM I S} {pd : ParserData I} {evs : List Event} {x y : Option S}
    (h : Runs (flagVm vm) pd evs x y) : ∀ {s : S}, x = some s →
    (∃ s', y = some s' ∧ Runs vm pd evs s s') ∨
    (y = none ∧ ∃ evs1 ev evs2 s1 τ, evs = evs1 ++ ev :: evs2 ∧ Runs vm pd evs1 s s1 ∧
      Shows τ ⟨ev.num, ev.num⟩ ev.sub ∧ ExecPanics vm ⟨ev.num, ev.num⟩ (instrOf pd ev.nt) (τ, s1)) := by
  induction h with
  | nil => intro s hs; exact .inl ⟨s, hs, .nil⟩
  | @cons ev evs τ a b y h1 h2 h3 ih =>
    intro s hs
    subst hs
    rw [executes_iff] at h2
    simp only at h2
    rcases runInstructions_flag vm ⟨ev.num, ev.num⟩ (instrOf pd ev.nt) τ s with ⟨g1, t', g2⟩ | ⟨t', s', g1, g2⟩
    · refine .inr ⟨?_, [], ev, evs, s, τ, rfl, .nil, h1, (execPanics_iff _ _ _ _).2 g1⟩
      rw [h2] at g2
      simp only [Option.some.injEq, Prod.mk.injEq] at g2
      have hb := g2.2
      clear ih h2 g2
      induction h3 with
      | nil => exact hb
      | @cons ev' evs' τ' a' b' c' _ k2 _ ih' =>
        subst hb
        rw [executes_iff, runInstructions_flag_none] at k2
        simp only [Option.some.injEq, Prod.mk.injEq] at k2
        exact ih' k2.2.symm
    · rw [h2] at g2
      simp only [Option.some.injEq, Prod.mk.injEq] at g2
      obtain ⟨rfl, rfl⟩ := g2
      rcases ih rfl with ⟨s2, k1, k2⟩ | ⟨k1, evs1, ev', evs2, s1, τ', k2, k3, k4, k5⟩
      · exact .inl ⟨s2, k1, .cons h1 ((executes_iff _ _ _ _ _).2 g1) k2⟩
      · exact .inr ⟨k1, ev :: evs1, ev', evs2, s1, τ', by rw [k2]; rfl, .cons h1 ((executes_iff _ _ _ _ _).2 g1) k3, k4, k5⟩

/-- A script of the language is accepted, with the instructions of its parse tree run in post-order, unless one of those
instructions panics. -/
theorem parse_valid {pd : ParserData I} {P : Parser I} {ho0 : HashOrder} {fuel0 start : Nat} (hw : WellFormed pd)
    (hP : Parser.newFromParserData ho0 fuel0 pd start = .ok P) (hs : StartSymbol pd start) (vm : VM I S)
    (htp : TreePreserving vm) {text : Str} {f : Forest} (hf : IsForest pd [start] f text) :
    ∃ N, ∀ fuel, N ≤ fuel → ∀ (ho : HashOrder) (s : S),
      (∃ t c, Parser.parse ho fuel vm P text s = (.ok t, c) ∧ c.proc.rest = [] ∧ Runs vm pd (events pd 0 f) s c.state) ∨
      (∃ c evs1 ev evs2 s1 τ, Parser.parse ho fuel vm P text s = (.panic, c) ∧ events pd 0 f = evs1 ++ ev :: evs2 ∧
        Runs vm pd evs1 s s1 ∧ Shows τ ⟨ev.num, ev.num⟩ ev.sub ∧
        ExecPanics vm ⟨ev.num, ev.num⟩ (instrOf pd ev.nt) (τ, s1)) := by
  have hl : Language (grammarOf pd) start text := (C19_tree_iff_language hw (Spec.StartSymbol.type hs) _).1 ⟨f, hf⟩
  obtain ⟨N, hN⟩ := C22_parse_complete hw hP hs (flagVm vm) (flagVm_treePreserving htp) (flagVm_total vm) hl
  refine ⟨N, fun fuel hfu ho s => ?_⟩
  obtain ⟨t, c, h1, h2⟩ := hN fuel hfu ho (some s)
  obtain ⟨x, p, k, g1, g2, -, -, g3⟩ := C25_tree_is_derivation_tree hw hP hs (flagVm vm) (flagVm_treePreserving htp) h1
  rw [h2, List.append_nil] at g1
  subst g1
  have hff := C19_unambiguous hw hP hf g2
  rw [← hff] at g3
  rcases PSim.parse vm ho P fuel text s with ⟨k1, k2⟩ | k1
  · rw [h1] at k2
    rcases Runs.flag g3 rfl with ⟨s', j1, j2⟩ | ⟨-, j⟩
    · simp only at k2
      rw [k2] at j1; cases j1
    · obtain ⟨evs1, ev, evs2, s1, τ, j⟩ := j
      exact .inr ⟨(Parser.parse ho fuel vm P text s).2, evs1, ev, evs2, s1, τ, Prod.ext k1 rfl, j⟩
  · rw [h1] at k1
    simp only [Prod.mk.injEq] at k1
    obtain ⟨k1, rfl⟩ := k1
    rcases Runs.flag g3 rfl with ⟨s', j1, j2⟩ | ⟨j1, -⟩
    · simp only [Ctx.flag, Option.some.injEq] at j1
      subst j1
      exact .inl ⟨t, _, Prod.ext k1.symm rfl, h2, j2⟩
    · simp [Ctx.flag] at j1

end HPP
