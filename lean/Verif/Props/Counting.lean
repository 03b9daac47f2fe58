import Verif.Spec.Counting
import Verif.Props.StackMachine
import Verif.Props.TextTree
import Verif.Props.Sections
import Verif.Props.Unused
/-
C54 continued: CountingVm with parsers built from rule texts, in checked and in wrapping builds, and when it panics.
-/
namespace HPP
open Spec
variable {I S : Type} {cc : CharClass} {rs : List (WrittenRule Nat)} {text : Str} {ho0 : HashOrder} {fuel0 : Nat}
  {P : Parser Nat}

/-- What a section that CountingVm accepts looks like: it is missing, or it is empty but for white space. -/
theorem C54_section_or_not (checked : Bool) (n : Str) (instr : List Nat) (s : Str) :
    SectionText (ReadsSection (countingVm checked)) n instr s ↔
      (instr = [] ∧ s = []) ∨ (instr = [0] ∧ ∃ g, IsSpace g ∧ s = '{' :: (g ++ c% "}")) := by
  constructor
  · intro h
    cases h with
    | absent => exact .inl ⟨rfl, rfl⟩
    | @given _ g body hg hb hs =>
      obtain ⟨h1, h2⟩ := (countingVm_reads _ _ _ _).1 hs
      subst h1 h2
      exact .inr ⟨rfl, g, hg, rfl⟩
  · rintro (⟨rfl, rfl⟩ | ⟨rfl, g, hg, rfl⟩)
    · exact .absent
    · exact .given (body := []) hg (by simp) ((countingVm_reads _ _ _ _).2 ⟨rfl, rfl⟩)

theorem Spec.RulesText.counting_instr {checked : Bool} (h : RulesText cc (ReadsSection (countingVm checked)) rs text) :
    ∀ r ∈ rs, r.instr = [] ∨ r.instr = [0] := by
  induction h with
  | nil _ => simp
  | cons _ hr _ ih =>
    intro r hm
    rcases List.mem_cons.1 hm with rfl | hm
    · cases hr with
      | mk _ _ _ _ _ _ _ hsec _ =>
        rcases (C54_section_or_not checked _ _ _).1 hsec with h | h
        · exact .inl h.1
        · exact .inr h.1
    · exact ih r hm

theorem instrFor_counting (h : ∀ r ∈ rs, r.instr = [] ∨ r.instr = [0]) (n : Str) : instrFor rs n = [] ∨ instrFor rs n = [0] := by
  unfold instrFor
  cases hf : rs.filter fun r => decide (r.name = n) with
  | nil => exact .inl rfl
  | cons d ds => exact h d (List.mem_filter.1 (hf ▸ List.mem_cons_self)).1

/-- The instructions of a name in the data read from a text. -/
theorem Spec.MeansWoven.instrOf_eq {rs : List (WrittenRule I)} {pd : ParserData I} (hm : MeansWoven rs pd) {A : Nat} {n : Str}
    (hn : (elementsOf rs)[A]? = some ⟨n, .nonTerminal⟩) : instrOf pd A = instrFor rs n := by
  cases hq : ruleMeaning (elementsOf rs) rs n with
  | none =>
    have h1 : AMap.get pd.rules A = none := hm.undefined A n hn hq
    unfold ruleMeaning at hq
    split at hq
    · next hf => simp only [Spec.instrOf, h1, instrFor, hf]
    · cases hq
  | some q =>
    rw [← ruleMeaning_instrFor hq]
    cases ho : overrideOf rs n with
    | none =>
      have h1 : AMap.get pd.rules A = some q := hm.plain A n q hn hq ho
      simp only [Spec.instrOf, h1]
    | some j =>
      by_cases hu : NameUsesStar rs j n
      · have h1 : AMap.get pd.rules A = _ := hm.own A n q j hn hq ho hu
        simp only [Spec.instrOf, h1]
      · have h1 : AMap.get pd.rules A = _ := hm.woven A n q j hn hq ho hu
        simp only [Spec.instrOf, h1]

theorem occurring_of_forest {rs : List (WrittenRule I)} {pd : ParserData I} (h : MeansWoven rs pd)
    (hin : InternOk pd (elementsOf rs)) {els : List Nat} {f : Forest} {s : Str}
    (hf : IsForest pd els f s) : ∀ a : List ElementVerbose, (∀ x ∈ a, x ∈ elementsOf rs) →
    els = (a.map fun x => (elementsOf rs).idxOf x) → ∃ ns, Occurring rs a ns s ∧
      (∀ n ∈ ns, (⟨n, .nonTerminal⟩ : ElementVerbose) ∈ elementsOf rs) ∧
      occurrences f = ns.map fun n => (elementsOf rs).idxOf ⟨n, .nonTerminal⟩ := by
  induction hf with
  | nil =>
    intro a _ ha
    cases a with
    | nil => exact ⟨[], .nil, by simp, rfl⟩
    | cons x xs => cases ha
  | @leaf e es d f s ht hd _ ih =>
    intro a hel ha
    cases a with
    | nil => cases ha
    | cons x xs =>
      simp only [List.map_cons, List.cons.injEq] at ha
      obtain ⟨rfl, rfl⟩ := ha
      have hx := hin.at_idx (hel x (by simp))
      rw [ht] at hx; rw [hd] at hx
      obtain ⟨b, t⟩ := x
      simp only [Option.some.injEq] at hx
      obtain ⟨rfl, rfl⟩ := hx
      obtain ⟨ns, h1, h2, h3⟩ := ih xs (fun y hy => hel y (by simp [hy])) rfl
      exact ⟨ns, .terminal h1, h2, h3⟩
  | @node A es r p kids f s1 s2 ht hr hp _ _ ih1 ih2 =>
    intro a hel ha
    cases a with
    | nil => cases ha
    | cons x xs =>
      simp only [List.map_cons, List.cons.injEq] at ha
      obtain ⟨rfl, rfl⟩ := ha
      have hx := hin.at_idx (hel x (by simp))
      rw [ht] at hx
      obtain ⟨n, t⟩ := x
      simp only [Option.some.injEq] at hx
      obtain ⟨rfl, -⟩ := hx
      obtain ⟨b, hb, hb'⟩ := (finalAlt_iff h (getElem?_idxOf (hel ⟨n, .nonTerminal⟩ (by simp))) (prodElems p)).1 ⟨r, hr, p, hp, rfl⟩
      obtain ⟨ns, h1, h2, h3⟩ := ih1 b (finalAlt_elements hb) hb'
      obtain ⟨ns', h1', h2', h3'⟩ := ih2 xs (fun y hy => hel y (by simp [hy])) rfl
      refine ⟨n :: (ns ++ ns'), .name hb h1 h1', ?_, ?_⟩
      · intro m hm
        simp only [List.mem_cons, List.mem_append] at hm
        rcases hm with rfl | hm | hm
        · exact hel _ (by simp)
        · exact h2 m hm
        · exact h2' m hm
      · simp [occurrences, h3, h3']

theorem forest_of_occurring {rs : List (WrittenRule I)} {pd : ParserData I} (h : MeansWoven rs pd)
    (hin : InternOk pd (elementsOf rs)) {a : List ElementVerbose} {ns : List Str} {s : Str}
    (hs : Occurring rs a ns s) : (∀ x ∈ a, x ∈ elementsOf rs) →
    ∃ f, IsForest pd (a.map fun x => (elementsOf rs).idxOf x) f s ∧
      (∀ n ∈ ns, (⟨n, .nonTerminal⟩ : ElementVerbose) ∈ elementsOf rs) ∧
      occurrences f = ns.map fun n => (elementsOf rs).idxOf ⟨n, .nonTerminal⟩ := by
  induction hs with
  | nil => intro _; exact ⟨.nil, .nil, by simp, rfl⟩
  | @terminal b es ns s _ ih =>
    intro hel
    obtain ⟨f, hf, h2, h3⟩ := ih (fun y hy => hel y (by simp [hy]))
    have hx := hin.at_idx (hel ⟨b, .terminal⟩ (by simp))
    exact ⟨_, .leaf hx.1 hx.2 hf, h2, h3⟩
  | @name n b es ns ns' s s' hb _ _ ih1 ih2 =>
    intro hel
    obtain ⟨f, hf, h2', h3'⟩ := ih2 (fun y hy => hel y (by simp [hy]))
    obtain ⟨k, hk, h2, h3⟩ := ih1 (finalAlt_elements hb)
    have hm := hel ⟨n, .nonTerminal⟩ (by simp)
    have hx := hin.at_idx hm
    obtain ⟨q, hq, p, hp, he⟩ := (finalAlt_iff h (getElem?_idxOf hm) _).2 ⟨b, hb, rfl⟩
    rw [← he] at hk
    refine ⟨_, .node hx.1 hq hp hk hf, ?_, ?_⟩
    · intro m hm'
      simp only [List.mem_cons, List.mem_append] at hm'
      rcases hm' with rfl | hm' | hm'
      · exact hm
      · exact h2 m hm'
      · exact h2' m hm'
    · simp [occurrences, h3, h3']

theorem sum_instr {pd : ParserData Nat} (hm : MeansWoven rs pd) (hi : ∀ r ∈ rs, r.instr = [] ∨ r.instr = [0]) (ns : List Str)
    (hns : ∀ n ∈ ns, (⟨n, .nonTerminal⟩ : ElementVerbose) ∈ elementsOf rs) :
    ((ns.map fun n => (elementsOf rs).idxOf (⟨n, .nonTerminal⟩ : ElementVerbose)).map fun A => (instrOf pd A).length).sum =
      sectionsAmong rs ns := by
  induction ns with
  | nil => rfl
  | cons n ns ih =>
    have h1 := ih (fun m hm => hns m (by simp [hm]))
    rw [List.map_cons, List.map_cons, List.sum_cons, h1, hm.instrOf_eq (getElem?_idxOf (hns n (by simp)))]
    simp only [sectionsAmong, List.countP_cons]
    rcases instrFor_counting hi n with h | h <;> (simp [h]; try omega)

/-- Running instructions with CountingVm, in either build. -/
theorem Spec.Executes.counting {checked : Bool} {id : NodeId} {is : List Nat} {x y : Tree Str × Nat}
    (h : Executes (countingVm checked) id is x y) (hx : x.2 < 2 ^ 64) :
    y.1 = x.1 ∧ y.2 = (x.2 + is.length) % 2 ^ 64 ∧ (checked = true → y.2 = x.2 + is.length) := by
  induction h with
  | nil => exact ⟨rfl, by simp [Nat.mod_eq_of_lt hx], fun _ => by simp⟩
  | @cons i is x y z he _ ih =>
    simp only [countingVm, Option.map_eq_some_iff] at he
    obtain ⟨m, hm, rfl⟩ := he
    have key : m = (x.2 + 1) % 2 ^ 64 ∧ (checked = true → m = x.2 + 1) := by
      unfold uRes at hm
      generalize hM : (2 : Nat) ^ 64 = M at *
      have hMi : (2 : Int) ^ 64 = (M : Int) := by rw [← hM]; norm_cast
      rw [hMi] at hm
      split at hm
      · next hlt =>
        simp only [Option.some.injEq] at hm
        have : m = x.2 + 1 := by omega
        exact ⟨by rw [Nat.mod_eq_of_lt (by omega)]; exact this, fun _ => this⟩
      · next hge =>
        split at hm
        · cases hm
        · next hc =>
          simp only [Option.some.injEq] at hm
          have h1 : x.2 + 1 = M := by omega
          refine ⟨?_, fun h => absurd h hc⟩
          rw [h1, Nat.mod_self]
          have : (x.2 : Int) + 1 = M := by omega
          rw [this, Int.emod_self] at hm
          simpa using hm.symm
    have hm' : m < 2 ^ 64 := by rw [key.1]; exact Nat.mod_lt _ (Nat.pow_pos (by omega))
    obtain ⟨h1, h2, h3⟩ := ih hm'
    refine ⟨h1, ?_, fun hc => ?_⟩
    · have key1 := key.1
      simp only at h2
      generalize (2 : Nat) ^ 64 = M at *
      rw [h2, key1, List.length_cons, Nat.mod_add_mod, Nat.add_assoc, Nat.add_comm 1]
    · have := h3 hc
      simp only at this
      rw [this, key.2 hc, List.length_cons]; omega

theorem Spec.Runs.counting {checked : Bool} {pd : ParserData Nat} {evs : List Event} {s s' : Nat}
    (h : Runs (countingVm checked) pd evs s s') (hs : s < 2 ^ 64) :
    s' = (s + (evs.map fun ev => (instrOf pd ev.nt).length).sum) % 2 ^ 64 ∧
    (checked = true → s' = s + (evs.map fun ev => (instrOf pd ev.nt).length).sum) := by
  induction h with
  | nil => exact ⟨by simp [Nat.mod_eq_of_lt hs], fun _ => by simp⟩
  | @cons ev evs τ s s1 s2 _ g2 _ ih =>
    obtain ⟨-, h2, h3⟩ := g2.counting hs
    simp only at h2 h3
    obtain ⟨h4, h5⟩ := ih (by rw [h2]; exact Nat.mod_lt _ (Nat.pow_pos (by omega)))
    simp only [List.map_cons, List.sum_cons]
    refine ⟨?_, fun hc => ?_⟩
    · generalize (2 : Nat) ^ 64 = M at *
      rw [h4, h2, Nat.mod_add_mod, Nat.add_assoc]
    · rw [h5 hc, h3 hc]; omega

/-- CountingVm panics only in a checked build, when the count is at its maximum. -/
theorem countingVm_panics {checked : Bool} {t : Tree Str} {id : NodeId} {i s : Nat}
    (h : (countingVm checked).execute t id i s = none) : checked = true ∧ 2 ^ 64 ≤ s + 1 := by
  simp only [countingVm, Option.map_eq_none_iff] at h
  unfold uRes at h
  generalize hM : (2 : Nat) ^ 64 = M at *
  have hMi : (2 : Int) ^ 64 = (M : Int) := by rw [← hM]; norm_cast
  rw [hMi] at h
  split at h
  · cases h
  · split at h
    · next h1 => exact ⟨h1, by omega⟩
    · cases h

theorem sum_events (pd : ParserData Nat) (f : Forest) :
    ((events pd 0 f).map fun ev => (instrOf pd ev.nt).length).sum =
      ((occurrences f).map fun A => (instrOf pd A).length).sum := by
  rw [← ((events_occurrences pd f 0).map fun A => (instrOf pd A).length).sum_nat, List.map_map]
  rfl

/-- **C54**, parsers from rule texts.  A successful parse adds the number of occurrences of names whose (first)
definition has an instruction section; in a build without overflow checks the count wraps at `2 ^ 64`. -/
theorem C54_text_counts (hcc : SpaceOk cc) {checked0 checked : Bool}
    (h : RulesText cc (ReadsSection (countingVm checked0)) rs text)
    (hP : Parser.newFromText ho0 fuel0 cc (countingVm checked0) text = .ok P) {ho : HashOrder} {fuel : Nat} {script : Str}
    {s : Nat} (hs : s < 2 ^ 64) {t : Tree Str} {c : Ctx Nat}
    (hp : Parser.parse ho fuel (countingVm checked) P script s = (.ok t, c)) :
    ∃ consumed ns, script = consumed ++ c.proc.rest ∧ Occurring rs [⟨c% "start", .nonTerminal⟩] ns consumed ∧
      c.state = (s + sectionsAmong rs ns) % 2 ^ 64 ∧ (checked = true → c.state = s + sectionsAmong rs ns) := by
  obtain ⟨pd, st, hm, hw, hin, -, hst, hQ⟩ := newFromText_means hcc h hP
  have hsel := List.mem_of_getElem? hst
  have hidx : st = (elementsOf rs).idxOf ⟨c% "start", .nonTerminal⟩ := hin.inj hst (getElem?_idxOf hsel)
  obtain ⟨x, p, k, h1, h2, -, h4⟩ := C26_instructions_in_post_order hw hQ (hin.start hst) _ (countingVm_treePreserving checked) hp
  obtain ⟨ns, g1, g2, g3⟩ := occurring_of_forest hm hin h2 [⟨c% "start", .nonTerminal⟩] (by simpa using hsel) (by simp [hidx])
  have h5 := h4.counting hs
  rw [sum_events, g3, sum_instr hm h.counting_instr ns g2] at h5
  exact ⟨x, ns, h1, g1, h5⟩

/-- **C54**, which scripts are counted and when the count overflows: a script that `start` stands for is read completely
and its names with sections are counted, unless the build checks for overflow and the sum does not fit in 64 bits: then the
parse panics. -/
theorem C54_text_counts_or_panics (hcc : SpaceOk cc) {checked0 checked : Bool}
    (h : RulesText cc (ReadsSection (countingVm checked0)) rs text)
    (hP : Parser.newFromText ho0 fuel0 cc (countingVm checked0) text = .ok P) {script : Str} {ns : List Str}
    (ho : Occurring rs [⟨c% "start", .nonTerminal⟩] ns script) :
    ∃ N, ∀ fuel, N ≤ fuel → ∀ (ho : HashOrder) (s : Nat), s < 2 ^ 64 →
      ((checked = false ∨ s + sectionsAmong rs ns < 2 ^ 64) → ∃ t c,
        Parser.parse ho fuel (countingVm checked) P script s = (.ok t, c) ∧ c.proc.rest = [] ∧
          c.state = (s + sectionsAmong rs ns) % 2 ^ 64) ∧
      (checked = true → 2 ^ 64 ≤ s + sectionsAmong rs ns →
        (Parser.parse ho fuel (countingVm checked) P script s).1 = .panic) := by
  obtain ⟨pd, st, hm, hw, hin, -, hst, hQ⟩ := newFromText_means hcc h hP
  have hsel := List.mem_of_getElem? hst
  have hidx : st = (elementsOf rs).idxOf ⟨c% "start", .nonTerminal⟩ := hin.inj hst (getElem?_idxOf hsel)
  obtain ⟨f, hf, g2, g3⟩ := forest_of_occurring hm hin ho (by simpa using hsel)
  simp only [List.map_cons, List.map_nil, ← hidx] at hf
  obtain ⟨N, hN⟩ := C60_accepts_or_vm_panics hw hQ (hin.start hst) (countingVm checked) (countingVm_treePreserving checked) hf
  have hsum : ((events pd 0 f).map fun ev => (instrOf pd ev.nt).length).sum = sectionsAmong rs ns := by
    rw [sum_events, g3, sum_instr hm h.counting_instr ns g2]
  refine ⟨N, fun fuel hfu ho s hs => ?_⟩
  rcases hN fuel hfu ho s with ⟨t, c, k1, k2, k3⟩ | ⟨c, evs1, ev, evs2, s1, τ, k1, k2, k3, -, k5⟩
  · have k4 := k3.counting hs
    rw [hsum] at k4
    refine ⟨fun _ => ⟨t, c, k1, k2, k4.1⟩, fun hc hge => ?_⟩
    have e1 := k4.1
    rw [k4.2 hc] at e1
    have := Nat.mod_lt (s + sectionsAmong rs ns) (Nat.pow_pos (n := 64) (show 0 < 2 by omega))
    exact absurd (e1 ▸ this) (Nat.not_lt.2 hge)
  · obtain ⟨is1, i, is2, y, e1, e2, e3⟩ := k5
    obtain ⟨hc, hbig⟩ := countingVm_panics e3
    refine ⟨fun hor => ?_, fun _ _ => by rw [k1]⟩
    exfalso
    have r1 := k3.counting hs
    have hs1 : s1 < 2 ^ 64 := by
      rw [r1.1]; exact Nat.mod_lt _ (Nat.pow_pos (by omega))
    have r2 := (e2.counting hs1).2.2 hc
    have r3 := r1.2 hc
    rw [← hsum, k2] at hor
    simp only [List.map_append, List.map_cons, List.sum_append, List.sum_cons, e1, List.length_append, List.length_cons, hc] at hor
    simp only at r2
    generalize (2 : Nat) ^ 64 = M at *
    rcases hor with h | h
    · cases h
    · omega

/-! ### a concrete case -/

/-- `start` has no section, `b` has one. -/
def Samples.countText : Str := c% "start -> \"a\" b; b -> \"x\" b | # { };"

def Samples.countRules : List (WrittenRule Nat) :=
  [⟨c% "start", none, [[⟨c% "a", .terminal⟩, ⟨c% "b", .nonTerminal⟩]], []⟩,
   ⟨c% "b", none, [[⟨c% "x", .terminal⟩, ⟨c% "b", .nonTerminal⟩], []], [0]⟩]

theorem Samples.countText_rules (checked : Bool) :
    RulesText .ascii (ReadsSection (countingVm checked)) Samples.countRules Samples.countText := by
  have sp : IsSpace [' '] := Samples.isSpace_one (by decide)
  have nb : IsName .ascii (c% "b") := Samples.isName_letter (by decide)
  have r1 := RuleText.mk (cc := .ascii) (Sec := ReadsSection (countingVm checked)) (isName_start .ascii) sp sp .absent isSpace_nil
    (.one (.seq (.cons (.terminal (b := c% "a") rfl) sp (by simp) (.one (.name nb))))) isSpace_nil
    (.absent (name := c% "start")) isSpace_nil
  have r2 := RuleText.mk (cc := .ascii) (Sec := ReadsSection (countingVm checked)) nb sp sp .absent isSpace_nil
    (.cons (.seq (.cons (.terminal (b := c% "x") rfl) sp (by simp) (.one (.name nb)))) sp sp (.one .empty)) sp
    ((C54_section_or_not checked (c% "b") [0] (c% "{ }")).2 (.inr ⟨rfl, [' '], sp, rfl⟩)) isSpace_nil
  exact .cons isSpace_nil r1 (.cons sp r2 (.nil isSpace_nil))

/-- `axx` uses `start` once and `b` three times. -/
theorem Samples.count_occurring : Occurring Samples.countRules [⟨c% "start", .nonTerminal⟩]
    [c% "start", c% "b", c% "b", c% "b"] (c% "axx") := by
  have h0 : Occurring Samples.countRules [⟨c% "b", .nonTerminal⟩] [c% "b"] [] :=
    .name (ns := []) (ns' := []) (s := []) (s' := []) (.plain (by decide) (by decide : ([] : List ElementVerbose) ∈ _)) .nil .nil
  have ha : [⟨c% "x", .terminal⟩, ⟨c% "b", .nonTerminal⟩] ∈ altsOf Samples.countRules (c% "b") := by decide
  have hs : [⟨c% "a", .terminal⟩, ⟨c% "b", .nonTerminal⟩] ∈ altsOf Samples.countRules (c% "start") := by decide
  have h1 : Occurring Samples.countRules [⟨c% "b", .nonTerminal⟩] [c% "b", c% "b"] (c% "x") :=
    .name (s' := []) (.plain (by decide) ha) (.terminal h0) .nil
  have h2 : Occurring Samples.countRules [⟨c% "b", .nonTerminal⟩] [c% "b", c% "b", c% "b"] (c% "xx") :=
    .name (s' := []) (.plain (by decide) ha) (.terminal h1) .nil
  exact .name (s' := []) (.plain (by decide) hs) (.terminal h2) .nil

/-- So every parser built from this text adds three for `axx`, and a checked build panics if that does not fit. -/
example {P : Parser Nat} (hP : Parser.newFromText ho0 fuel0 .ascii (countingVm true) Samples.countText = .ok P) :
    ∃ N, ∀ fuel, N ≤ fuel → ∀ (ho : HashOrder) (s : Nat), s < 2 ^ 64 →
      ((true = false ∨ s + 3 < 2 ^ 64) → ∃ t c,
        Parser.parse ho fuel (countingVm true) P (c% "axx") s = (.ok t, c) ∧ c.proc.rest = [] ∧ c.state = (s + 3) % 2 ^ 64) ∧
      (true = true → 2 ^ 64 ≤ s + 3 → (Parser.parse ho fuel (countingVm true) P (c% "axx") s).1 = .panic) :=
  C54_text_counts_or_panics Samples.ruleText_reads.1 (Samples.countText_rules true) hP Samples.count_occurring

/-- There are such parsers. -/
example : Samples.built (Parser.newFromText .insertion 99 .ascii (countingVm true) Samples.countText) = some true := by
  decide +kernel

end HPP
