import Verif.Spec.Executing
import Verif.Props.StackMachine
import Verif.Props.TextTree
import Verif.Proofs.Calc
import Verif.Props.Counting
/-
C110: what executing a script does, told by the rule text.
-/
namespace HPP
open Spec
variable {I S S' : Type} {cc : CharClass} {rs : List (WrittenRule I)} {text : Str} {P : Parser I} {ho0 : HashOrder} {fuel0 : Nat}
variable {pd : ParserData I}

theorem instrOf_means (hm : MeansWoven rs pd) {i : Nat} {n : Str} (hi : (elementsOf rs)[i]? = some ⟨n, .nonTerminal⟩) :
    instrOf pd i = instructionsOf rs n := by
  have key : ∀ q, ruleMeaning (elementsOf rs) rs n = some q → q.instr = instructionsOf rs n := by
    intro q hq
    simp only [ruleMeaning] at hq
    simp only [instructionsOf]
    split at hq
    · cases hq
    · next d ds hd =>
      simp only [Option.some.injEq] at hq
      subst hq
      rw [hd]
  cases hq : ruleMeaning (elementsOf rs) rs n with
  | none =>
    have h1 : AMap.get pd.rules i = none := hm.undefined i n hi hq
    simp only [instrOf, h1]
    simp only [ruleMeaning] at hq
    simp only [instructionsOf]
    split at hq
    · next hd => rw [hd]
    · cases hq
  | some q =>
    by_cases ho : overrideOf rs n = none
    · have h1 : AMap.get pd.rules i = some q := hm.plain i n q hi hq ho
      simp only [instrOf, h1]; exact key q hq
    · obtain ⟨j, hj⟩ := Option.ne_none_iff_exists'.1 ho
      by_cases hu : NameUsesStar rs j n
      · have h1 : AMap.get pd.rules i = _ := hm.own i n q j hi hq hj hu
        simp only [instrOf, h1]; exact key q hq
      · have h1 : AMap.get pd.rules i = _ := hm.woven i n q j hi hq hj hu
        simp only [instrOf, h1]; exact key q hq

theorem Spec.Runs.split {vm : VM I S} {l1 l2 : List Event} {s s' : S} (h : Runs vm pd (l1 ++ l2) s s') :
    ∃ s1, Runs vm pd l1 s s1 ∧ Runs vm pd l2 s1 s' := by
  induction l1 generalizing s with
  | nil => exact ⟨s, .nil, h⟩
  | cons e l ih =>
    cases h with
    | cons h1 h2 h3 =>
      obtain ⟨s1, a, b⟩ := ih h3
      exact ⟨s1, .cons h1 h2 a, b⟩

theorem Spec.Runs.join {vm : VM I S} {l1 l2 : List Event} {s s1 s' : S} (h1 : Runs vm pd l1 s s1) (h2 : Runs vm pd l2 s1 s') :
    Runs vm pd (l1 ++ l2) s s' := by
  induction h1 with
  | nil => exact h2
  | cons a b _ ih => exact .cons a b (ih h2)

theorem performs_of_forest (h : MeansWoven rs pd) (hin : InternOk pd (elementsOf rs)) {vm : VM I S} {els : List Nat} {f : Forest}
    {x : Str} (hf : IsForest pd els f x) : ∀ a : List ElementVerbose, (∀ y ∈ a, y ∈ elementsOf rs) →
    els = (a.map fun y => (elementsOf rs).idxOf y) → ∀ n s s', Runs vm pd (events pd n f) s s' →
    Performs vm rs a n s x (roses pd f) (n + f.size) s' := by
  induction hf with
  | nil =>
    intro a _ ha n s s' hr
    cases a with
    | nil => cases hr; exact .nil
    | cons x xs => cases ha
  | @leaf e es d f x ht hd _ ih =>
    intro a hel ha n s s' hr
    cases a with
    | nil => cases ha
    | cons y ys =>
      simp only [List.map_cons, List.cons.injEq] at ha
      obtain ⟨rfl, rfl⟩ := ha
      have hx := hin.at_idx (hel y (by simp))
      rw [ht] at hx
      obtain ⟨b, t⟩ := y
      simp only [Option.some.injEq] at hx
      obtain ⟨rfl, hx2⟩ := hx
      have hb : nameOf pd ((elementsOf rs).idxOf ⟨b, .terminal⟩) = b := by simp only [nameOf, hx2]
      rw [hd] at hx2
      simp only [Option.some.injEq] at hx2
      subst hx2
      have := ih ys (fun y hy => hel y (by simp [hy])) rfl (n + 1) s s' hr
      simp only [roses, Forest.size, hb]
      rw [← Nat.add_assoc]
      exact .terminal this
  | @node A es r p kids f s1 s2 ht hr hp _ _ ih1 ih2 =>
    intro a hel ha n s s' hrun
    cases a with
    | nil => cases ha
    | cons x xs =>
      simp only [List.map_cons, List.cons.injEq] at ha
      obtain ⟨rfl, rfl⟩ := ha
      have hx := hin.at_idx (hel x (by simp))
      rw [ht] at hx
      obtain ⟨nm, t⟩ := x
      simp only [Option.some.injEq] at hx
      obtain ⟨rfl, -⟩ := hx
      have hA := getElem?_idxOf (hel ⟨nm, .nonTerminal⟩ (by simp))
      obtain ⟨b, hb, hb'⟩ := (finalAlt_iff h hA (prodElems p)).1 ⟨r, hr, p, hp, rfl⟩
      simp only [events] at hrun
      obtain ⟨t1, g1, g2⟩ := hrun.split
      cases g2 with
      | cons k1 k2 k3 =>
        simp only at k1 k2
        rw [instrOf_means h hA] at k2
        have a1 := ih1 b (finalAlt_elements hb) hb' (n + 1) _ _ g1
        have a2 := ih2 xs (fun y hy => hel y (by simp [hy])) rfl _ _ _ k3
        simp only [roses, Forest.size]
        rw [show n + (1 + kids.size + f.size) = n + 1 + kids.size + f.size by omega]
        exact .name hb a1 k1 k2 a2

theorem forest_of_performs (h : MeansWoven rs pd) (hin : InternOk pd (elementsOf rs)) {vm : VM I S} {a : List ElementVerbose}
    {n m : Nat} {s s' : S} {x : Str} {us : List Rose} (hp : Performs vm rs a n s x us m s') : (∀ y ∈ a, y ∈ elementsOf rs) →
    ∃ f, IsForest pd (a.map fun y => (elementsOf rs).idxOf y) f x ∧ roses pd f = us ∧ m = n + f.size ∧
      Runs vm pd (events pd n f) s s' := by
  induction hp with
  | nil => intro _; exact ⟨.nil, .nil, rfl, rfl, .nil⟩
  | @terminal b x es us n m s s' _ ih =>
    intro hel
    obtain ⟨f, hf, rfl, rfl, hr⟩ := ih (fun y hy => hel y (by simp [hy]))
    have hx := hin.at_idx (hel ⟨b, .terminal⟩ (by simp))
    have hb : nameOf pd ((elementsOf rs).idxOf ⟨b, .terminal⟩) = b := by simp only [nameOf, hx.2]
    refine ⟨_, .leaf hx.1 hx.2 hf, ?_, ?_, hr⟩
    · simp only [roses, hb]
    · simp only [Forest.size]; omega
  | @name A x y b es vs us n m m' s s1 s2 s' τ hb _ hsh hex _ ih1 ih2 =>
    intro hel
    obtain ⟨f, hf, rfl, rfl, hr⟩ := ih2 (fun y hy => hel y (by simp [hy]))
    obtain ⟨k, hk, rfl, rfl, hr1⟩ := ih1 (finalAlt_elements hb)
    have hm := hel ⟨A, .nonTerminal⟩ (by simp)
    have hx := hin.at_idx hm
    have hA := getElem?_idxOf hm
    obtain ⟨q, hq, p, hp, he⟩ := (finalAlt_iff h hA _).2 ⟨b, hb, rfl⟩
    rw [← he] at hk
    refine ⟨_, .node hx.1 hq hp hk hf, rfl, ?_, ?_⟩
    · simp only [Forest.size]; omega
    · simp only [events]
      rw [← instrOf_means h hA] at hex
      exact hr1.join (.cons hsh hex hr)

theorem Spec.Executes.unique_state {vm : VM I S} (htp : TreePreserving vm) (hb : SeesOnlyBelow vm) {id : NodeId} {r : Rose}
    {is : List I} {τ τ' : Tree Str} (h1 : Shows τ id r) (h2 : Shows τ' id r) : ∀ {s : S} {y y' : Tree Str × S},
    Executes vm id is (τ, s) y → Executes vm id is (τ', s) y' → y.2 = y'.2 := by
  induction is with
  | nil => intro s y y' a b; cases a; cases b; rfl
  | cons i is ih =>
    intro s y y' a b
    cases a with
    | @cons _ _ _ z _ a1 a2 =>
      cases b with
      | @cons _ _ _ z' _ b1 b2 =>
        obtain ⟨t1, u1⟩ := z
        obtain ⟨t2, u2⟩ := z'
        have e1 := htp _ _ _ _ _ _ a1
        have e2 := htp _ _ _ _ _ _ b1
        simp only at e1 e2 a1 b1
        subst e1 e2
        have := hb _ _ _ _ h1 h2 i s
        rw [a1, b1] at this
        simp only [Option.map_some, Option.some.injEq] at this
        subst this
        exact ih a2 b2

theorem Spec.Executes.not_panics {vm : VM I S} (htp : TreePreserving vm) (hb : SeesOnlyBelow vm) {id : NodeId} {r : Rose}
    {is : List I} {τ τ' : Tree Str} (h1 : Shows τ id r) (h2 : Shows τ' id r) {s : S} {y : Tree Str × S}
    (h : Executes vm id is (τ, s) y) (hp : ExecPanics vm id is (τ', s)) : False := by
  obtain ⟨is1, i, is2, z, rfl, hz, hn⟩ := hp
  induction is1 generalizing s with
  | nil =>
    cases hz
    cases h with
    | @cons _ _ _ z _ a1 a2 =>
      have := hb _ _ _ _ h1 h2 i s
      simp only at a1 hn
      rw [a1, hn] at this
      cases this
  | cons j js ih =>
    cases h with
    | @cons _ _ _ w _ a1 a2 =>
      cases hz with
      | @cons _ _ _ w' _ b1 b2 =>
        obtain ⟨t1, u1⟩ := w
        obtain ⟨t2, u2⟩ := w'
        have e1 := htp _ _ _ _ _ _ a1
        have e2 := htp _ _ _ _ _ _ b1
        simp only at e1 e2 a1 b1
        subst e1 e2
        have := hb _ _ _ _ h1 h2 j s
        rw [a1, b1] at this
        simp only [Option.map_some, Option.some.injEq] at this
        subst this
        exact ih a2 b2

theorem Spec.Runs.unique {vm : VM I S} (htp : TreePreserving vm) (hb : SeesOnlyBelow vm) {evs : List Event} :
    ∀ {s s1 s2 : S}, Runs vm pd evs s s1 → Runs vm pd evs s s2 → s1 = s2 := by
  induction evs with
  | nil => intro s s1 s2 a b; cases a; cases b; rfl
  | cons e es ih =>
    intro s s1 s2 a b
    cases a with
    | cons a1 a2 a3 =>
      cases b with
      | cons b1 b2 b3 =>
        have := Executes.unique_state htp hb a1 b1 a2 b2
        simp only at this
        subst this
        exact ih a3 b3

/-- **C110.** What a successful parse does, by the rule text: if a parser built from a rule text accepts a script, then what it
has read is performed by the written rules, from the given state to the state afterwards: whenever the text of a name is
finished, the instructions of its first definition are executed, once and in order, with the node of that occurrence. -/
theorem C110_parse_performs (hcc : SpaceOk cc) {vm : VM I S} (h : RulesText cc (ReadsSection vm) rs text)
    (hP : Parser.newFromText ho0 fuel0 cc vm text = .ok P) (vm' : VM I S') (htp : TreePreserving vm') {ho : HashOrder}
    {fuel : Nat} {script : Str} {s : S'} {t : Tree Str} {c : Ctx S'} (hr : Parser.parse ho fuel vm' P script s = (.ok t, c)) :
    ∃ consumed r m, script = consumed ++ c.proc.rest ∧ Shows t ⟨0, 0⟩ r ∧
      Performs vm' rs [⟨c% "start", .nonTerminal⟩] 0 s consumed [r] m c.state := by
  obtain ⟨pd, st, a1, a2, a3, a4, a5, a6⟩ := newFromText_means hcc h hP
  obtain ⟨x, p, k, h1, h2, h3, h4⟩ := C26_instructions_in_post_order a2 a6 (a3.start a5) vm' htp hr
  have hm : (⟨c% "start", .nonTerminal⟩ : ElementVerbose) ∈ elementsOf rs := List.mem_of_getElem? a5
  have hi : st = (elementsOf rs).idxOf ⟨c% "start", .nonTerminal⟩ := a3.inj a5 (getElem?_idxOf hm)
  exact ⟨x, _, _, h1, h3, performs_of_forest a1 a3 h2 [⟨c% "start", .nonTerminal⟩] (by simpa using hm) (by rw [hi]; rfl) 0 _ _ h4⟩

/-- **C110**, conversely: if a script can be performed by the written rules from the state `s` to the state `s'`, and the
instructions see of the tree only what their node shows, then the parser accepts the script, reads all of it, shows the tree,
and ends in the state `s'`. -/
theorem C110_performed_is_parsed (hcc : SpaceOk cc) {vm : VM I S} (h : RulesText cc (ReadsSection vm) rs text)
    (hP : Parser.newFromText ho0 fuel0 cc vm text = .ok P) (vm' : VM I S') (htp : TreePreserving vm')
    (hb : SeesOnlyBelow vm') {script : Str} {s s' : S'} {r : Rose} {m : Nat}
    (hp : Performs vm' rs [⟨c% "start", .nonTerminal⟩] 0 s script [r] m s') :
    ∃ N, ∀ fuel, N ≤ fuel → ∀ ho : HashOrder, ∃ t c, Parser.parse ho fuel vm' P script s = (.ok t, c) ∧ c.proc.rest = [] ∧
      Shows t ⟨0, 0⟩ r ∧ c.state = s' := by
  obtain ⟨pd, st, a1, a2, a3, a4, a5, a6⟩ := newFromText_means hcc h hP
  have hm : (⟨c% "start", .nonTerminal⟩ : ElementVerbose) ∈ elementsOf rs := List.mem_of_getElem? a5
  have hi : st = (elementsOf rs).idxOf ⟨c% "start", .nonTerminal⟩ := a3.inj a5 (getElem?_idxOf hm)
  obtain ⟨f, hf, hro, -, hrun⟩ := forest_of_performs a1 a3 hp (by simpa using hm)
  simp only [List.map_cons, List.map_nil, ← hi] at hf
  obtain ⟨N, hN⟩ := C60_accepts_or_vm_panics a2 a6 (a3.start a5) vm' htp hf
  refine ⟨N, fun fuel hfu ho => ?_⟩
  rcases hN fuel hfu ho s with ⟨t, c, h1, h2, h3⟩ | ⟨c, e1, e, e2, s1, τ, h1, h2, h3, h4, h5⟩
  · obtain ⟨x, p, k, g1, g2, g3, g4⟩ := C26_instructions_in_post_order a2 a6 (a3.start a5) vm' htp h1
    rw [h2, List.append_nil] at g1
    subst g1
    have := C19_unambiguous a2 a6 hf g2
    subst this
    simp only [roses, List.cons.injEq, and_true] at hro
    subst hro
    exact ⟨t, c, h1, h2, g3, Runs.unique htp hb h3 hrun⟩
  · exfalso
    rw [h2] at hrun
    obtain ⟨s2, k1, k2⟩ := hrun.split
    cases k2 with
    | cons q1 q2 q3 =>
      have := Runs.unique htp hb h3 k1
      subst this
      exact Executes.not_panics htp hb q1 h4 q2 h5

/-- **C110**, one meaning: for a rule text that gives a parser, a script that can be performed is performed in one way only:
the tree and the state afterwards are determined by the script and the state before. -/
theorem C110_one_meaning (hcc : SpaceOk cc) {vm : VM I S} (h : RulesText cc (ReadsSection vm) rs text)
    (hP : Parser.newFromText ho0 fuel0 cc vm text = .ok P) (vm' : VM I S') (htp : TreePreserving vm')
    (hb : SeesOnlyBelow vm') {script : Str} {s s1 s2 : S'} {us1 us2 : List Rose} {m1 m2 n : Nat}
    (h1 : Performs vm' rs [⟨c% "start", .nonTerminal⟩] n s script us1 m1 s1)
    (h2 : Performs vm' rs [⟨c% "start", .nonTerminal⟩] n s script us2 m2 s2) : us1 = us2 ∧ m1 = m2 ∧ s1 = s2 := by
  obtain ⟨pd, st, a1, a2, a3, a4, a5, a6⟩ := newFromText_means hcc h hP
  have hm : (⟨c% "start", .nonTerminal⟩ : ElementVerbose) ∈ elementsOf rs := List.mem_of_getElem? a5
  obtain ⟨f1, hf1, rfl, rfl, hr1⟩ := forest_of_performs a1 a3 h1 (by simpa using hm)
  obtain ⟨f2, hf2, rfl, rfl, hr2⟩ := forest_of_performs a1 a3 h2 (by simpa using hm)
  have hi : st = (elementsOf rs).idxOf ⟨c% "start", .nonTerminal⟩ := a3.inj a5 (getElem?_idxOf hm)
  simp only [List.map_cons, List.map_nil, ← hi] at hf1 hf2
  have := C19_unambiguous a2 a6 hf1 hf2
  subst this
  exact ⟨rfl, rfl, Runs.unique htp hb hr1 hr2⟩

/-- The four machines of the library see of the tree only what their node shows (they leave the tree alone, C55 and others). -/
theorem C110_library_machines (checked : Bool) : SeesOnlyBelow nullVm ∧ SeesOnlyBelow (countingVm checked) ∧
    SeesOnlyBelow (simpleStackVm checked) ∧ SeesOnlyBelow (stackVm cc checked) := by
  refine ⟨fun _ _ _ _ _ _ _ _ => rfl, fun _ _ _ _ _ _ _ _ => ?_, fun τ τ' id r h1 h2 i s => ?_, fun τ τ' id r h1 h2 i s => ?_⟩
  · simp only [countingVm, Option.map_map]; rfl
  · have e : simpleExec checked τ id i s = simpleExec checked τ' id i s := by
      have a := firstChildData_of_shows h1
      have b := firstChildData_of_shows h2
      cases i <;> simp only [simpleExec, a, b]
    simp only [simpleStackVm, Option.map_map, e]; rfl
  · have e : stackExec checked τ id i s = stackExec checked τ' id i s := by
      have a := firstChildData_of_shows h1
      have b := firstChildData_of_shows h2
      cases i <;> simp only [stackExec, a, b]
    simp only [stackVm, Option.map_map, e]; rfl

/-! ### a concrete case -/

/-- The script `axx` can be performed by the rules of the sample, from the state 5 to the state 8. -/
theorem Samples.count_performs {P : Parser Nat}
    (hP : Parser.newFromText ho0 fuel0 .ascii (countingVm true) Samples.countText = .ok P) :
    ∃ r m, Performs (countingVm true) Samples.countRules [⟨c% "start", .nonTerminal⟩] 0 5 (c% "axx") [r] m 8 := by
  obtain ⟨N, hN⟩ := C54_text_counts_or_panics Samples.ruleText_reads.1 (Samples.countText_rules true) hP Samples.count_occurring
  obtain ⟨t, c, h1, h2, h3⟩ := (hN N (Nat.le_refl _) .insertion 5 (by decide)).1 (.inr (by decide))
  obtain ⟨x, r, m, g1, -, g3⟩ := C110_parse_performs Samples.ruleText_reads.1 (Samples.countText_rules true) hP
    (countingVm true) (countingVm_treePreserving true) h1
  rw [h2, List.append_nil] at g1
  rw [h3, ← g1] at g3
  exact ⟨r, m, g3⟩

/-- So the hypotheses of the converse are met, and every parse of `axx` from the state 5 ends in the state 8. -/
example {P : Parser Nat} (hP : Parser.newFromText ho0 fuel0 .ascii (countingVm true) Samples.countText = .ok P) :
    ∃ N, ∀ fuel, N ≤ fuel → ∀ ho : HashOrder, ∃ t c, Parser.parse ho fuel (countingVm true) P (c% "axx") 5 = (.ok t, c) ∧
      c.proc.rest = [] ∧ c.state = 8 := by
  obtain ⟨r, m, hp⟩ := Samples.count_performs hP
  obtain ⟨N, hN⟩ := C110_performed_is_parsed Samples.ruleText_reads.1 (Samples.countText_rules true) hP (countingVm true)
    (countingVm_treePreserving true) (C110_library_machines (cc := .ascii) true).2.1 hp
  refine ⟨N, fun fuel h ho => ?_⟩
  obtain ⟨t, c, h1, h2, -, h4⟩ := hN fuel h ho
  exact ⟨t, c, h1, h2, h4⟩

/-- There are such parsers. -/
example : Samples.built (Parser.newFromText .insertion 99 .ascii (countingVm true) Samples.countText) = some true := by
  decide +kernel

end HPP
