import Verif.Spec.Repeats
import Verif.Props.Executing
import Verif.Props.EndMark
import Verif.Props.Limits
/-
C123: scripts that are sequences of statements may be run in pieces.
-/
namespace HPP
open Spec
variable {I S S' : Type} {cc : CharClass} {rs : List (WrittenRule I)} {text : Str} {P : Parser I} {ho0 : HashOrder} {fuel0 : Nat}
variable {pd : ParserData I}

/-! ### every forest is shown by some tree, with any numbers -/

theorem trep_roots (n : Nat) : ∃ t : Tree Str, TRep t (List.replicate n (none, [])) := by
  induction n with
  | zero => exact ⟨_, TRep.new⟩
  | succ n ih =>
    obtain ⟨t, ht⟩ := ih
    obtain ⟨t', -, h⟩ := ht.addNode_par (parent := none) (par := none) [] rfl (by simp)
    exact ⟨t', by rw [List.replicate_succ']; exact h⟩

theorem trep_forest (f : Forest) : ∀ {t : Tree Str} {h : Hist Str} {par : Option Nat}, TRep t h → (∀ q, par = some q → q < h.length) →
    ∃ t', TRep t' (h ++ histOf pd par h.length f) := by
  induction f with
  | nil => intro t h par ht _; exact ⟨t, by simpa [histOf] using ht⟩
  | leaf e r ih =>
    intro t h par ht hp
    obtain ⟨t1, -, h1⟩ := ht.addNode_par (parent := par.map fun q => ⟨q, q⟩) (nameOf pd e) rfl hp
    obtain ⟨t2, h2⟩ := ih (par := par) h1 (by intro q hq; have := hp q hq; simp; omega)
    exact ⟨t2, by simpa [histOf] using h2⟩
  | node A p k r ih1 ih2 =>
    intro t h par ht hp
    obtain ⟨t1, -, h1⟩ := ht.addNode_par (parent := par.map fun q => ⟨q, q⟩) [] rfl hp
    obtain ⟨t2, h2⟩ := ih1 (par := some h.length) h1 (by intro q hq; cases hq; simp)
    obtain ⟨t3, h3⟩ := ih2 (par := par) h2 (by intro q hq; have := hp q hq; simp; omega)
    refine ⟨t3, ?_⟩
    simp only [List.length_append, List.append_assoc, List.singleton_append, List.length_cons, List.length_nil, Nat.zero_add, histOf_length] at h3
    rw [show h.length + (k.size + 1) = h.length + 1 + k.size by omega] at h3
    simpa only [histOf, List.cons_append] using h3

theorem shown_somewhere (f : Forest) (n : Nat) : ∃ τ : Tree Str, Shows τ ⟨n, n⟩ (.node [] (roses pd f)) := by
  obtain ⟨t, ht⟩ := trep_roots n
  obtain ⟨t', ht'⟩ := trep_forest (pd := pd) (.node 0 .empty f .nil) (par := none) ht (by simp)
  have := ht'.shows_node (by simp)
  rw [List.length_replicate] at this
  exact ⟨t', this⟩

/-! ### performing with other numbers, and one after the other -/

theorem final_start (hr : RepeatsStart rs) {a : List ElementVerbose} (ha : FinalAlt rs (c% "start") a) :
    a = [] ∨ ∃ es, a = es ++ [⟨c% "start", .nonTerminal⟩] := by
  have key : ∀ {a : List ElementVerbose}, a ∈ altsOf rs (c% "start") → a = [] ∨ ∃ es, a = es ++ [⟨c% "start", .nonTerminal⟩] := by
    intro a ha
    obtain ⟨r, hr1, hr2, hr3⟩ := mem_altsOf.1 ha
    exact hr.alternatives r hr1 hr2 a hr3
  have hbt : ∀ (i z : ElementVerbose) (es : List ElementVerbose), ∃ es', between i (es ++ [z]) = es' ++ [z] := by
    intro i z es
    induction es with
    | nil => exact ⟨[], rfl⟩
    | cons e es ih =>
      obtain ⟨es', he⟩ := ih
      cases es with
      | nil => exact ⟨[e, i], rfl⟩
      | cons e2 es => exact ⟨e :: i :: es', by rw [List.cons_append, List.cons_append, between, ← List.cons_append, he]; rfl⟩
  cases ha with
  | plain _ ha => exact key ha
  | own _ _ ha => exact key ha
  | woven _ _ ha =>
    rcases key ha with rfl | ⟨es, rfl⟩
    · exact .inl rfl
    · exact .inr (hbt _ _ es)

section
variable (h : MeansWoven rs pd) (hin : InternOk pd (elementsOf rs)) {vm : VM I S} (htp : TreePreserving vm) (hb : SeesOnlyShown vm)
include h hin htp hb

theorem performs_moved {a : List ElementVerbose} {n m : Nat} {s s' : S} {x : Str} {us : List Rose}
    (hp : Performs vm rs a n s x us m s') : (∀ y ∈ a, y ∈ elementsOf rs) → ∀ n', ∃ m', Performs vm rs a n' s x us m' s' := by
  induction hp with
  | nil => intro _ n'; exact ⟨n', .nil⟩
  | terminal _ ih =>
    intro hel n'
    obtain ⟨m', k⟩ := ih (fun y hy => hel y (by simp [hy])) (n' + 1)
    exact ⟨m', .terminal k⟩
  | @name A x y b es vs us n m m' s s1 s2 s' τ ha hp1 hsh hex _ ih1 ih2 =>
    intro hel n'
    obtain ⟨m1, k1⟩ := ih1 (finalAlt_elements ha) (n' + 1)
    obtain ⟨m2, k2⟩ := ih2 (fun y hy => hel y (by simp [hy])) m1
    obtain ⟨f, -, rfl, -⟩ := forest_of_performs h hin hp1 (finalAlt_elements ha)
    obtain ⟨τ', hτ⟩ := shown_somewhere (pd := pd) f n'
    exact ⟨m2, .name ha k1 hτ (executes_moved htp hb hsh hτ hex) k2⟩

theorem performs_continued (hr : RepeatsStart rs) {y : Str} {k k' : Nat} {s1 s2 : S} {r' : Rose}
    (hy : Performs vm rs [⟨c% "start", .nonTerminal⟩] k s1 y [r'] k' s2) {es : List ElementVerbose} {n m : Nat} {s : S} {x : Str}
    {us : List Rose} (hx : Performs vm rs es n s x us m s1) : ∀ pre, es = pre ++ [⟨c% "start", .nonTerminal⟩] →
    (∀ y ∈ es, y ∈ elementsOf rs) →
    ∃ us0 u u' m', us = us0 ++ [u] ∧ Continued r' u u' ∧ Performs vm rs es n s (x ++ y) (us0 ++ [u']) m' s2 := by
  induction hx with
  | nil => intro pre he _; exact absurd he (by simp)
  | @terminal b x es us n m s s' _ ih =>
    intro pre he hel
    cases pre with
    | nil => cases he
    | cons e pre =>
      simp only [List.cons_append, List.cons.injEq] at he
      obtain ⟨us0, u, u', m', rfl, hc, hp⟩ := ih hy pre he.2 (fun y hy => hel y (by simp [hy]))
      exact ⟨_ :: us0, u, u', m', rfl, hc, by rw [List.append_assoc]; exact .terminal hp⟩
  | @name A x z b es vs us n m m' s sa sb s' τ ha hp1 hsh hex hp2 ih1 ih2 =>
    intro pre he hel
    cases pre with
    | cons e pre =>
      simp only [List.cons_append, List.cons.injEq] at he
      obtain ⟨us0, u, u', m', rfl, hc, hp⟩ := ih2 hy pre he.2 (fun y hy => hel y (by simp [hy]))
      exact ⟨_ :: us0, u, u', m', rfl, hc, by rw [List.append_assoc]; exact .name ha hp1 hsh hex hp⟩
    | nil =>
      simp only [List.nil_append, List.cons.injEq, ElementVerbose.mk.injEq, and_true] at he
      obtain ⟨rfl, rfl⟩ := he
      cases hp2
      rw [hr.silent] at hex
      cases hex
      rcases final_start hr ha with rfl | ⟨pre, rfl⟩
      · cases hp1
        obtain ⟨m2, hm2⟩ := performs_moved h hin htp hb hy (fun y hy => hel y hy) n
        exact ⟨[], _, _, m2, rfl, .here, hm2⟩
      · obtain ⟨us0, u, u', m1, rfl, hc, hp⟩ := ih1 hy pre rfl (finalAlt_elements ha)
        obtain ⟨f, -, hf, -⟩ := forest_of_performs h hin hp (finalAlt_elements ha)
        obtain ⟨τ', hτ⟩ := shown_somewhere (pd := pd) f n
        rw [hf] at hτ
        refine ⟨[], _, _, m1, rfl, .last hc, ?_⟩
        have := Performs.name ha hp hτ (by rw [hr.silent]; exact .nil) (Performs.nil (vm := vm) (rs := rs) (n := m1) (s := s2))
        simpa using this

end

/-! ### a machine that goes on after a panic -/

/-- The machine `vm` with one more state, `none`, which it enters instead of panicking and does not leave. (Not a model of code: a
tool of the proof.) -/
def goingOn (vm : VM I S) : VM I (Option S) where
  parseInstructions := vm.parseInstructions
  execute t id i s := match s with
    | none => some (t, none)
    | some u => match vm.execute t id i u with
      | none => some (t, none)
      | some (_, u') => some (t, some u')
  init := some vm.init

theorem goingOn_treePreserving (vm : VM I S) : TreePreserving (goingOn vm) := by
  intro t id i s t' s' he
  simp only [goingOn] at he
  split at he
  · cases he; rfl
  · split at he <;> cases he <;> rfl

theorem goingOn_total (vm : VM I S) : Total (goingOn vm) := by
  intro t id i s he
  simp only [goingOn] at he
  split at he
  · cases he
  · split at he <;> cases he

theorem goingOn_seesOnlyShown {vm : VM I S} (hb : SeesOnlyShown vm) : SeesOnlyShown (goingOn vm) := by
  intro τ τ' id id' r h1 h2 i s
  cases s with
  | none => rfl
  | some u =>
    have := hb τ τ' id id' r h1 h2 i u
    simp only [goingOn]
    cases hx : vm.execute τ id i u with
    | none =>
      rw [hx] at this
      cases hy : vm.execute τ' id' i u with
      | none => rfl
      | some q => rw [hy] at this; cases this
    | some p =>
      rw [hx] at this
      cases hy : vm.execute τ' id' i u with
      | none => rw [hy] at this; cases this
      | some q =>
        rw [hy] at this
        simp only [Option.map_some, Option.some.injEq] at this
        simp only [Option.map_some, this]

theorem executes_goingOn {vm : VM I S} (htp : TreePreserving vm) {id : NodeId} {is : List I} {τ : Tree Str} : ∀ {u : S} {y : Tree Str × S},
    Executes vm id is (τ, u) y → Executes (goingOn vm) id is (τ, some u) (τ, some y.2) := by
  induction is with
  | nil => intro u y a; cases a; exact .nil
  | cons i is ih =>
    intro u y a
    cases a with
    | @cons _ _ _ z _ a1 a2 =>
      obtain ⟨t1, u1⟩ := z
      have e1 := htp _ _ _ _ _ _ a1
      simp only at e1 a1
      subst e1
      exact .cons (y := (t1, some u1)) (by simp only [goingOn, a1]) (ih a2)

theorem executes_of_goingOn {vm : VM I S} (htp : TreePreserving vm) {id : NodeId} {is : List I} {τ : Tree Str} : ∀ {σ : Option S}
    {τ' : Tree Str} {u' : S}, Executes (goingOn vm) id is (τ, σ) (τ', some u') → ∃ u, σ = some u ∧ Executes vm id is (τ, u) (τ, u') := by
  induction is with
  | nil => intro σ τ' u' a; cases a; exact ⟨u', rfl, .nil⟩
  | cons i is ih =>
    intro σ τ' u' a
    cases a with
    | @cons _ _ _ z _ a1 a2 =>
      obtain ⟨t1, σ1⟩ := z
      have e1 := goingOn_treePreserving vm _ _ _ _ _ _ a1
      simp only at e1
      subst e1
      obtain ⟨u1, rfl, h1⟩ := ih a2
      cases σ with
      | none => cases a1
      | some u =>
        simp only [goingOn] at a1
        cases hx : vm.execute t1 id i u with
        | none => rw [hx] at a1; cases a1
        | some q =>
          obtain ⟨t2, u2⟩ := q
          have e2 := htp _ _ _ _ _ _ hx
          subst e2
          rw [hx] at a1
          cases a1
          exact ⟨u, rfl, .cons hx h1⟩

theorem performs_goingOn {vm : VM I S} (htp : TreePreserving vm) {a : List ElementVerbose} {n m : Nat} {s s' : S} {x : Str}
    {us : List Rose} (hp : Performs vm rs a n s x us m s') : Performs (goingOn vm) rs a n (some s) x us m (some s') := by
  induction hp with
  | nil => exact .nil
  | terminal _ ih => exact .terminal ih
  | name ha _ hsh hex _ ih1 ih2 => exact .name ha ih1 hsh (executes_goingOn htp hex) ih2

theorem performs_of_goingOn {vm : VM I S} (htp : TreePreserving vm) {a : List ElementVerbose} {n m : Nat} {σ σ' : Option S} {x : Str}
    {us : List Rose} (hp : Performs (goingOn vm) rs a n σ x us m σ') : ∀ s', σ' = some s' →
    ∃ s, σ = some s ∧ Performs vm rs a n s x us m s' := by
  induction hp with
  | nil => intro s' e; exact ⟨s', e, .nil⟩
  | terminal _ ih =>
    intro s' e
    obtain ⟨s, e1, h1⟩ := ih s' e
    exact ⟨s, e1, .terminal h1⟩
  | name ha _ hsh hex _ ih1 ih2 =>
    intro s' e
    obtain ⟨s2, rfl, h2⟩ := ih2 s' e
    obtain ⟨s1, rfl, h1⟩ := executes_of_goingOn htp hex
    obtain ⟨s0, rfl, h0⟩ := ih1 s1 rfl
    exact ⟨s0, rfl, .name ha h0 hsh h1 h2⟩

/-! ### the property -/

/-- **C123**, texts: what is spelled by rules that repeat `start` may be continued by more. -/
theorem C123_texts (hr : RepeatsStart rs) {x y : Str} (hx : Spells rs [⟨c% "start", .nonTerminal⟩] x)
    (hy : Spells rs [⟨c% "start", .nonTerminal⟩] y) : Spells rs [⟨c% "start", .nonTerminal⟩] (x ++ y) := by
  have key : ∀ {es : List ElementVerbose} {x : Str}, Spells rs es x → ∀ pre, es = pre ++ [⟨c% "start", .nonTerminal⟩] →
      Spells rs es (x ++ y) := by
    intro es x hx
    induction hx with
    | nil => intro pre he; exact absurd he (by simp)
    | terminal _ ih =>
      intro pre he
      cases pre with
      | nil => cases he
      | cons e pre =>
        simp only [List.cons_append, List.cons.injEq] at he
        rw [List.append_assoc]
        exact .terminal (ih pre he.2)
    | @name A a es s s' ha h1 h2 ih1 ih2 =>
      intro pre he
      cases pre with
      | cons e pre =>
        simp only [List.cons_append, List.cons.injEq] at he
        rw [List.append_assoc]
        exact .name ha h1 (ih2 pre he.2)
      | nil =>
        simp only [List.nil_append, List.cons.injEq, ElementVerbose.mk.injEq, and_true] at he
        obtain ⟨rfl, rfl⟩ := he
        cases h2
        rcases final_start hr ha with rfl | ⟨pre, rfl⟩
        · cases h1; exact hy
        · simpa using Spells.name ha (ih1 pre rfl) .nil
  exact key hx [] rfl

section
variable (hcc : SpaceOk cc) {vm0 : VM I S'} (h : RulesText cc (ReadsSection vm0) rs text) (hr : RepeatsStart rs)
  (hP : Parser.newFromText ho0 fuel0 cc vm0 text = .ok P) {vm : VM I S} (htp : TreePreserving vm) (hb : SeesOnlyShown vm)
include hcc h hr hP htp hb

/-- **C123**, two pieces: if one script is accepted and read to its end, and another one, run from the state in which the first left
the machine, too, then the two in one are accepted and read to the end, with the same final state. The tree is the tree of the first,
continued by that of the second. -/
theorem C123_pieces {ho1 ho2 : HashOrder} {fuel1 fuel2 : Nat} {x y : Str} {s : S} {t1 t2 : Tree Str} {c1 c2 : Ctx S}
    (h1 : Parser.parse ho1 fuel1 vm P x s = (.ok t1, c1)) (r1 : c1.proc.rest = [])
    (h2 : Parser.parse ho2 fuel2 vm P y c1.state = (.ok t2, c2)) (r2 : c2.proc.rest = []) :
    ∃ N, ∀ fuel, N ≤ fuel → ∀ ho, ∃ t c, Parser.parse ho fuel vm P (x ++ y) s = (.ok t, c) ∧ c.proc.rest = [] ∧
      c.state = c2.state ∧ ∃ u1 u2 u, Shows t1 ⟨0, 0⟩ u1 ∧ Shows t2 ⟨0, 0⟩ u2 ∧ Shows t ⟨0, 0⟩ u ∧ Continued u2 u1 u := by
  obtain ⟨x', u1, m1, e1, g1, p1⟩ := C110_parse_performs hcc h hP vm htp h1
  obtain ⟨y', u2, m2, e2, g2, p2⟩ := C110_parse_performs hcc h hP vm htp h2
  rw [r1, List.append_nil] at e1
  rw [r2, List.append_nil] at e2
  subst e1 e2
  obtain ⟨pd, st, a1, -, a3, -, a5, -⟩ := newFromText_means hcc h hP
  have hm : (⟨c% "start", .nonTerminal⟩ : ElementVerbose) ∈ elementsOf rs := List.mem_of_getElem? a5
  obtain ⟨us0, u, u', m', e, hc, p3⟩ := performs_continued a1 a3 htp hb hr p2 p1 [] rfl (by simpa using hm)
  cases us0 with
  | cons v vs => exact absurd (congrArg List.length e) (by simp)
  | nil =>
    simp only [List.nil_append, List.cons.injEq, and_true] at e
    subst e
    obtain ⟨N, hN⟩ := C110_performed_is_parsed hcc h hP vm htp (fun τ τ' id r k1 k2 => hb τ τ' id id r k1 k2) p3
    refine ⟨N, fun fuel hf ho => ?_⟩
    obtain ⟨t, c, q1, q2, q3, q4⟩ := hN fuel hf ho
    exact ⟨t, c, q1, q2, q4, _, _, _, g1, g2, q3, hc⟩

/-- **C123**, any number of pieces: scripts that are accepted one after the other are accepted in one. -/
theorem C123_many {x : Str} {xs : List Str} {s s' : S} (ht : InTurn vm P (x :: xs) s s') :
    ∃ N, ∀ fuel, N ≤ fuel → ∀ ho, ∃ t c, Parser.parse ho fuel vm P (x ++ xs.flatten) s = (.ok t, c) ∧ c.proc.rest = [] ∧ c.state = s' := by
  induction xs generalizing x s with
  | nil =>
    cases ht with
    | cons h1 h2 h3 =>
      cases h3
      obtain ⟨x', u1, m1, e1, g1, p1⟩ := C110_parse_performs hcc h hP vm htp h1
      rw [h2, List.append_nil] at e1
      subst e1
      obtain ⟨N, hN⟩ := C110_performed_is_parsed hcc h hP vm htp (fun τ τ' id r k1 k2 => hb τ τ' id id r k1 k2) p1
      refine ⟨N, fun fuel hf ho => ?_⟩
      obtain ⟨t, c, q1, q2, -, q4⟩ := hN fuel hf ho
      exact ⟨t, c, by simpa using q1, q2, q4⟩
  | cons y ys ih =>
    cases ht with
    | cons h1 h2 h3 =>
      obtain ⟨N, hN⟩ := ih h3
      obtain ⟨t2, c2, q1, q2, rfl⟩ := hN N (Nat.le_refl _) .insertion
      obtain ⟨M, hM⟩ := C123_pieces hcc h hr hP htp hb h1 h2 q1 q2
      refine ⟨M, fun fuel hf ho => ?_⟩
      obtain ⟨t, c, k1, k2, k3, -⟩ := hM fuel hf ho
      exact ⟨t, c, k1, k2, k3⟩

/-- **C123**, if the machine never panics: two scripts of the language can be run one after the other or in one, from every state, with
the same final state. -/
theorem C123_whole (htot : Total vm) {x y : Str} (hx : Spells rs [⟨c% "start", .nonTerminal⟩] x)
    (hy : Spells rs [⟨c% "start", .nonTerminal⟩] y) :
    ∃ N, ∀ fuel, N ≤ fuel → ∀ (ho1 ho2 ho3 : HashOrder) (s : S), ∃ t1 c1 t2 c2 t c,
      Parser.parse ho1 fuel vm P x s = (.ok t1, c1) ∧ c1.proc.rest = [] ∧
      Parser.parse ho2 fuel vm P y c1.state = (.ok t2, c2) ∧ c2.proc.rest = [] ∧
      Parser.parse ho3 fuel vm P (x ++ y) s = (.ok t, c) ∧ c.proc.rest = [] ∧ c.state = c2.state := by
  obtain ⟨pd, st, a1, a2, a3, -, a5, a6⟩ := newFromText_means hcc h hP
  have run : ∀ {z : Str}, Spells rs [⟨c% "start", .nonTerminal⟩] z → ∃ N, ∀ fuel, N ≤ fuel → ∀ (ho : HashOrder) (s : S),
      ∃ t c, Parser.parse ho fuel vm P z s = (.ok t, c) ∧ c.proc.rest = [] := by
    intro z hz
    obtain ⟨f, hf⟩ := (spells_iff_forest a1 a3 a5 z).2 hz
    exact C22_parse_complete a2 a6 (a3.start a5) vm htp htot ((C19_tree_iff_language a2 (Spec.StartSymbol.type (a3.start a5)) z).1 ⟨f, hf⟩)
  obtain ⟨N1, k1⟩ := run hx
  obtain ⟨N2, k2⟩ := run hy
  obtain ⟨N3, k3⟩ := run (C123_texts hr hx hy)
  refine ⟨max N1 (max N2 N3), fun fuel hf ho1 ho2 ho3 s => ?_⟩
  obtain ⟨t1, c1, p1, q1⟩ := k1 fuel (by omega) ho1 s
  obtain ⟨t2, c2, p2, q2⟩ := k2 fuel (by omega) ho2 c1.state
  obtain ⟨t, c, p3, q3⟩ := k3 fuel (by omega) ho3 s
  obtain ⟨N, hN⟩ := C123_pieces hcc h hr hP htp hb p1 q1 p2 q2
  obtain ⟨t', c', g1, -, g3, -⟩ := hN (max N fuel) (by omega) ho3
  rw [C89_parse ho3 vm P (x ++ y) s (Nat.le_max_right N fuel) (by rw [p3]; simp), p3] at g1
  cases g1
  exact ⟨t1, c1, t2, c2, t, _, p1, q1, p2, q2, p3, q3, g3⟩

/-- **C123**, conversely: if two scripts are spelled by the rules, and the two in one are accepted and read to the end, then they are
accepted one after the other, too, with the same final state: cutting a script brings no panic. -/
theorem C123_conversely {x y : Str} (hx : Spells rs [⟨c% "start", .nonTerminal⟩] x) (hy : Spells rs [⟨c% "start", .nonTerminal⟩] y)
    {ho : HashOrder} {fuel : Nat} {s : S} {t : Tree Str} {c : Ctx S}
    (hw : Parser.parse ho fuel vm P (x ++ y) s = (.ok t, c)) (hrest : c.proc.rest = []) :
    ∃ N, ∀ fuel, N ≤ fuel → ∀ ho1 ho2, ∃ t1 c1 t2 c2, Parser.parse ho1 fuel vm P x s = (.ok t1, c1) ∧ c1.proc.rest = [] ∧
      Parser.parse ho2 fuel vm P y c1.state = (.ok t2, c2) ∧ c2.proc.rest = [] ∧ c2.state = c.state := by
  have hb' : SeesOnlyBelow vm := fun τ τ' id r k1 k2 => hb τ τ' id id r k1 k2
  have gtp := goingOn_treePreserving vm
  have gb := goingOn_seesOnlyShown hb
  have performed : ∀ {z : Str} {σ : Option S} {ho : HashOrder} {fuel : Nat} {t : Tree Str} {c : Ctx (Option S)} {s' : S},
      Parser.parse ho fuel (goingOn vm) P z σ = (.ok t, c) → c.proc.rest = [] → c.state = some s' →
      ∃ s, σ = some s ∧ ∃ r m, Performs vm rs [⟨c% "start", .nonTerminal⟩] 0 s z [r] m s' := by
    intro z σ ho fuel t c s' h1 h2 h3
    obtain ⟨x', u, m, e1, -, p1⟩ := C110_parse_performs hcc h hP (goingOn vm) gtp h1
    rw [h2, List.append_nil] at e1
    subst e1
    obtain ⟨s, e, p⟩ := performs_of_goingOn htp p1 s' h3
    exact ⟨s, e, u, m, p⟩
  obtain ⟨x', u, m, e1, -, p1⟩ := C110_parse_performs hcc h hP vm htp hw
  rw [hrest, List.append_nil] at e1
  subst e1
  obtain ⟨M, hM⟩ := C110_performed_is_parsed hcc h hP (goingOn vm) gtp (fun τ τ' id r k1 k2 => gb τ τ' id id r k1 k2)
    (performs_goingOn htp p1)
  obtain ⟨K, hK⟩ := C123_whole hcc h hr hP gtp gb (goingOn_total vm) hx hy
  obtain ⟨t1, c1, t2, c2, t3, c3, q1, q2, q3, q4, q5, q6, q7⟩ := hK (max M K) (by omega) .insertion .insertion .insertion (some s)
  obtain ⟨t4, c4, k1, -, -, k4⟩ := hM (max M K) (by omega) .insertion
  rw [q5] at k1
  cases k1
  obtain ⟨sm, es, r2, m2, p2⟩ := performed q3 q4 (q7.symm.trans k4)
  obtain ⟨s0, e0, r1, m1, p1'⟩ := performed q1 q2 es
  cases e0
  obtain ⟨N1, g1⟩ := C110_performed_is_parsed hcc h hP vm htp hb' p1'
  obtain ⟨N2, g2⟩ := C110_performed_is_parsed hcc h hP vm htp hb' p2
  refine ⟨max N1 N2, fun fuel hf ho1 ho2 => ?_⟩
  obtain ⟨ta, ca, a1, a2, -, a4⟩ := g1 fuel (by omega) ho1
  obtain ⟨tb, cb, b1, b2, -, b4⟩ := g2 fuel (by omega) ho2
  exact ⟨ta, ca, tb, cb, a1, a2, by rw [a4]; exact b1, b2, b4⟩

end

/-! ### a concrete case -/

def Samples.statementsText : Str := c% "start -> b start | #; b -> \"x\" { };"

def Samples.statementsRules : List (WrittenRule Nat) :=
  [⟨c% "start", none, [[⟨c% "b", .nonTerminal⟩, ⟨c% "start", .nonTerminal⟩], []], []⟩, ⟨c% "b", none, [[⟨c% "x", .terminal⟩]], [0]⟩]

theorem Samples.statementsText_rules (checked : Bool) :
    RulesText .ascii (ReadsSection (countingVm checked)) Samples.statementsRules Samples.statementsText := by
  have sp : IsSpace [' '] := Samples.isSpace_one (by decide)
  have nb : IsName .ascii (c% "b") := Samples.isName_letter (by decide)
  have r1 := RuleText.mk (cc := .ascii) (Sec := ReadsSection (countingVm checked)) (isName_start .ascii) sp sp .absent isSpace_nil
    (.cons (.seq (.cons (.name nb) sp (by simp) (.one (.name (isName_start .ascii))))) sp sp (.one .empty))
    isSpace_nil (.absent (name := c% "start")) isSpace_nil
  have r2 := RuleText.mk (cc := .ascii) (Sec := ReadsSection (countingVm checked)) nb sp sp .absent isSpace_nil
    (.one (.seq (.one (.terminal (b := c% "x") rfl)))) sp
    ((C54_section_or_not checked (c% "b") [0] (c% "{ }")).2 (.inr ⟨rfl, [' '], sp, rfl⟩)) isSpace_nil
  exact .cons isSpace_nil r1 (.cons sp r2 (.nil isSpace_nil))

theorem Samples.statements_repeat : RepeatsStart Samples.statementsRules where
  alternatives := by
    intro r hr hn a ha
    simp only [Samples.statementsRules, List.mem_cons, List.not_mem_nil, or_false] at hr
    rcases hr with rfl | rfl
    · simp only [List.mem_cons, List.not_mem_nil, or_false] at ha
      rcases ha with rfl | rfl
      · exact .inr ⟨[⟨c% "b", .nonTerminal⟩], rfl⟩
      · exact .inl rfl
    · exact absurd hn (by decide)
  silent := rfl

/-- `x` and then `xx`, from 5, counts as `xxx` does: to 8. -/
example {P : Parser Nat} (hP : Parser.newFromText ho0 fuel0 .ascii (countingVm true) Samples.statementsText = .ok P)
    {ho1 ho2 : HashOrder} {fuel1 fuel2 : Nat} {t1 t2 : Tree Str} {c1 c2 : Ctx Nat}
    (h1 : Parser.parse ho1 fuel1 (countingVm true) P (c% "x") 5 = (.ok t1, c1)) (r1 : c1.proc.rest = [])
    (h2 : Parser.parse ho2 fuel2 (countingVm true) P (c% "xx") c1.state = (.ok t2, c2)) (r2 : c2.proc.rest = []) :
    ∃ N, ∀ fuel, N ≤ fuel → ∀ ho, ∃ t c, Parser.parse ho fuel (countingVm true) P (c% "xxx") 5 = (.ok t, c) ∧
      c.proc.rest = [] ∧ c.state = c2.state := by
  obtain ⟨N, hN⟩ := C123_pieces Samples.ruleText_reads.1 (Samples.statementsText_rules true) Samples.statements_repeat hP
    (countingVm_treePreserving true) (C121_library_machines (cc := .ascii) true).2.1 h1 r1 h2 r2
  refine ⟨N, fun fuel hf ho => ?_⟩
  obtain ⟨t, c, k1, k2, k3, -⟩ := hN fuel hf ho
  exact ⟨t, c, k1, k2, k3⟩

def Samples.piecesRun (x : Res PErr (Parser Nat)) : Bool :=
  match x with
  | .ok P =>
    match Parser.parse .insertion 99 (countingVm true) P (c% "x") 5 with
    | (.ok _, c1) =>
      match Parser.parse .insertion 99 (countingVm true) P (c% "xx") c1.state with
      | (.ok _, c2) => decide (c1.proc.rest = [] ∧ c1.state = 6 ∧ c2.proc.rest = [] ∧ c2.state = 8)
      | _ => false
    | _ => false
  | _ => false

/-- The two runs: 5, 6, 8. -/
theorem Samples.two_runs : ∃ P t1 c1 t2 c2,
    Parser.newFromText .insertion 99 .ascii (countingVm true) Samples.statementsText = .ok P ∧
    Parser.parse .insertion 99 (countingVm true) P (c% "x") 5 = (.ok t1, c1) ∧
    Parser.parse .insertion 99 (countingVm true) P (c% "xx") c1.state = (.ok t2, c2) ∧
    (c1.proc.rest = [] ∧ c1.state = 6 ∧ c2.proc.rest = [] ∧ c2.state = 8) := by
  have hx : Samples.piecesRun (Parser.newFromText .insertion 99 .ascii (countingVm true) Samples.statementsText) = true := by decide +kernel
  unfold Samples.piecesRun at hx
  split at hx
  · next P hP =>
    split at hx
    · next t1 c1 h1 =>
      split at hx
      · next t2 c2 h2 => exact ⟨P, t1, c1, t2, c2, hP, h1, h2, of_decide_eq_true hx⟩
      · cases hx
    · cases hx
  · cases hx

/-- So the two scripts are accepted in turn, and in one: from 5 to 8. -/
example : ∃ P N, Parser.newFromText .insertion 99 .ascii (countingVm true) Samples.statementsText = .ok P ∧
    InTurn (countingVm true) P [c% "x", c% "xx"] 5 8 ∧
    ∀ fuel, N ≤ fuel → ∀ ho, ∃ t c, Parser.parse ho fuel (countingVm true) P (c% "xxx") 5 = (.ok t, c) ∧ c.state = 8 := by
  obtain ⟨P, t1, c1, t2, c2, hP, h1, h2, k1, -, k3, k4⟩ := Samples.two_runs
  have ht : InTurn (countingVm true) P [c% "x", c% "xx"] 5 8 := .cons h1 k1 (.cons h2 k3 (k4 ▸ .nil))
  obtain ⟨N, hN⟩ := C123_many Samples.ruleText_reads.1 (Samples.statementsText_rules true) Samples.statements_repeat hP
    (countingVm_treePreserving true) (C121_library_machines (cc := .ascii) true).2.1 ht
  refine ⟨P, N, hP, ht, fun fuel hf ho => ?_⟩
  obtain ⟨t, c, q1, -, q3⟩ := hN fuel hf ho
  exact ⟨t, c, q1, q3⟩

theorem Samples.statements_x : Spells Samples.statementsRules [⟨c% "start", .nonTerminal⟩] (c% "x") := by
  have h0 : Spells Samples.statementsRules [⟨c% "start", .nonTerminal⟩] [] :=
    Spells.name (s := []) (s' := []) (a := []) (.plain rfl (by decide)) .nil .nil
  have h1 : Spells Samples.statementsRules [⟨c% "b", .nonTerminal⟩, ⟨c% "start", .nonTerminal⟩] (c% "x") :=
    Spells.name (s := c% "x") (s' := []) (a := [⟨c% "x", .terminal⟩]) (.plain rfl (by decide)) (.terminal (b := c% "x") (s := []) .nil) h0
  exact Spells.name (s := c% "x") (s' := []) (.plain rfl (by decide)) h1 .nil

/-- Conversely: where `xx` can be counted without overflow, `x` can be counted twice. -/
example {P : Parser Nat} (hP : Parser.newFromText ho0 fuel0 .ascii (countingVm true) Samples.statementsText = .ok P)
    {ho : HashOrder} {fuel s : Nat} {t : Tree Str} {c : Ctx Nat} (hw : Parser.parse ho fuel (countingVm true) P (c% "xx") s = (.ok t, c))
    (hrest : c.proc.rest = []) :
    ∃ N, ∀ fuel, N ≤ fuel → ∀ ho1 ho2, ∃ t1 c1 t2 c2, Parser.parse ho1 fuel (countingVm true) P (c% "x") s = (.ok t1, c1) ∧
      c1.proc.rest = [] ∧ Parser.parse ho2 fuel (countingVm true) P (c% "x") c1.state = (.ok t2, c2) ∧ c2.proc.rest = [] ∧
      c2.state = c.state :=
  C123_conversely Samples.ruleText_reads.1 (Samples.statementsText_rules true) Samples.statements_repeat hP
    (countingVm_treePreserving true) (C121_library_machines (cc := .ascii) true).2.1 Samples.statements_x Samples.statements_x hw hrest

/-- The scripts of the sample, with a machine that does not panic. -/
example {P : Parser Nat} (hP : Parser.newFromText ho0 fuel0 .ascii (countingVm false) Samples.statementsText = .ok P) :
    ∃ N, ∀ fuel, N ≤ fuel → ∀ (ho1 ho2 ho3 : HashOrder) (s : Nat), ∃ t1 c1 t2 c2 t c,
      Parser.parse ho1 fuel (countingVm false) P (c% "x") s = (.ok t1, c1) ∧ c1.proc.rest = [] ∧
      Parser.parse ho2 fuel (countingVm false) P (c% "x") c1.state = (.ok t2, c2) ∧ c2.proc.rest = [] ∧
      Parser.parse ho3 fuel (countingVm false) P (c% "xx") s = (.ok t, c) ∧ c.proc.rest = [] ∧ c.state = c2.state := by
  have hx := Samples.statements_x
  exact C123_whole Samples.ruleText_reads.1 (Samples.statementsText_rules false) Samples.statements_repeat hP
    (countingVm_treePreserving false) (C121_library_machines (cc := .ascii) false).2.1 countingVm_total hx hx

/-- Several kinds of statements, and an override: `start -> $[IGNORE: w] a "=" a start | "p" a start | #; a -> "a"; w -> " ";`. -/
example : RepeatsStart (I := Nat)
    [⟨c% "start", some (c% "w"), [[⟨c% "a", .nonTerminal⟩, ⟨c% "=", .terminal⟩, ⟨c% "a", .nonTerminal⟩, ⟨c% "start", .nonTerminal⟩],
       [⟨c% "p", .terminal⟩, ⟨c% "a", .nonTerminal⟩, ⟨c% "start", .nonTerminal⟩], []], []⟩,
     ⟨c% "a", none, [[⟨c% "a", .terminal⟩]], [0]⟩, ⟨c% "w", none, [[⟨c% " ", .terminal⟩]], []⟩] where
  alternatives := by
    intro r hr hn a ha
    simp only [List.mem_cons, List.not_mem_nil, or_false] at hr
    rcases hr with rfl | rfl | rfl
    · simp only [List.mem_cons, List.not_mem_nil, or_false] at ha
      rcases ha with rfl | rfl | rfl
      · exact .inr ⟨[⟨c% "a", .nonTerminal⟩, ⟨c% "=", .terminal⟩, ⟨c% "a", .nonTerminal⟩], rfl⟩
      · exact .inr ⟨[⟨c% "p", .terminal⟩, ⟨c% "a", .nonTerminal⟩], rfl⟩
      · exact .inl rfl
    · exact absurd hn (by decide)
    · exact absurd hn (by decide)
  silent := rfl

end HPP
