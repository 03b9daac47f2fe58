import Verif.Proofs.Depth
import Verif.Spec.Cost
/-
The number of nodes and of executions is linear in the script.
-/
namespace HPP
open Spec Relation
variable {I S : Type}

/-- The bound for a non-terminal that may begin chains of `k` left corners, when `m` characters are read below it. -/
def ntBound (R B k m : Nat) : Nat :=
  (B + 1) ^ k + if m = 0 then 0 else k * B * (B + 1) ^ R + (m - 1) * (R * B * (B + 1) ^ R)

/-- The bound for `l` elements after some text was read. -/
def freshBound (R B l m : Nat) : Nat := l * (B + 1) ^ R + m * (R * B * (B + 1) ^ R)

/-- The bound for `l` elements before any text was read. -/
def startBound (R B j l m : Nat) : Nat :=
  l * (B + 1) ^ j + if m = 0 then 0 else j * B * (B + 1) ^ R + (m - 1) * (R * B * (B + 1) ^ R) + l * (B + 1) ^ R

theorem ntBound_fresh (R B m : Nat) : ntBound R B R m = (B + 1) ^ R + m * (R * B * (B + 1) ^ R) := by
  simp only [ntBound]
  cases m with
  | zero => simp
  | succ m => simp only [Nat.add_sub_cancel, Nat.succ_mul]; simp; omega

theorem ntBound_final (R B m : Nat) : ntBound R B R m = nodeBound R B m := by
  rw [ntBound_fresh, nodeBound, Nat.mul_add, Nat.mul_one]
  congr 1
  rw [Nat.mul_comm ((B + 1) ^ R), Nat.mul_comm m, Nat.mul_right_comm]

theorem pow_step (B j : Nat) : 1 + B * (B + 1) ^ j ≤ (B + 1) ^ (j + 1) := by
  rw [Nat.pow_succ, Nat.mul_add, Nat.mul_one, Nat.mul_comm B]
  have : 0 < (B + 1) ^ j := Nat.pow_pos (by omega)
  omega

theorem pow_pos' (B j : Nat) : 1 ≤ (B + 1) ^ j := Nat.pow_pos (by omega)

theorem startBound_nt {R B j l m : Nat} (hl : l ≤ B) : 1 + startBound R B j l m ≤ ntBound R B (j + 1) m := by
  simp only [startBound, ntBound]
  have h1 := pow_step B j
  have h2 : l * (B + 1) ^ j ≤ B * (B + 1) ^ j := Nat.mul_le_mul_right _ hl
  have h3 : l * (B + 1) ^ R ≤ B * (B + 1) ^ R := Nat.mul_le_mul_right _ hl
  have h4 : (j + 1) * B * (B + 1) ^ R = j * B * (B + 1) ^ R + B * (B + 1) ^ R := by
    rw [Nat.succ_mul, Nat.add_mul]
  split <;> omega

theorem ntBound_start {R B j l m : Nat} : ntBound R B j m ≤ startBound R B j (l + 1) m := by
  simp only [startBound, ntBound, Nat.succ_mul]
  split <;> omega

theorem startBound_zero {R B j l m : Nat} : ntBound R B j 0 + startBound R B j l m ≤ startBound R B j (l + 1) m := by
  simp only [startBound, ntBound, Nat.succ_mul]
  by_cases h : m = 0
  · simp only [h, if_true]; omega
  · simp only [h, if_false, if_true]; omega

theorem startBound_pos {R B j l m1 m2 : Nat} (h : m1 ≠ 0) :
    ntBound R B j m1 + freshBound R B l m2 ≤ startBound R B j (l + 1) (m1 + m2) := by
  simp only [startBound, ntBound, freshBound, Nat.succ_mul]
  have h1 : ¬ (m1 + m2 = 0) := by omega
  simp only [h, h1, if_false]
  have h2 : m1 + m2 - 1 = (m1 - 1) + m2 := by omega
  rw [h2, Nat.add_mul]
  omega

theorem freshBound_cons {R B l m1 m2 : Nat} : ntBound R B R m1 + freshBound R B l m2 ≤ freshBound R B (l + 1) (m1 + m2) := by
  rw [ntBound_fresh]
  simp only [freshBound, Nat.succ_mul, Nat.add_mul]
  omega

theorem leaf_nt (R B j m : Nat) : 1 ≤ ntBound R B j m := by
  simp only [ntBound]
  have := pow_pos' B j
  omega

/-! ### trees -/


variable {pd : ParserData I}

/-- The elements have rules, and before any text is read they are left corners of the non-terminals `seen`. -/
def Corners (pd : ParserData I) (seen els : List Nat) : Prop :=
  ∀ a e b, els = a ++ e :: b → Nullable (grammarOf pd) (formOf pd a) → pd.elementTypes[e]? = some .nonTerminal →
    LeftChain pd seen e

def HaveRules (pd : ParserData I) (els : List Nat) : Prop :=
  ∀ e ∈ els, pd.elementTypes[e]? = some .nonTerminal → e ∈ AMap.keys pd.rules

theorem Corners.nilChain (pd : ParserData I) (els : List Nat) : Corners pd [] els := fun _ _ _ _ _ _ => .nil _ _

theorem Corners.tail {seen : List Nat} {e : Nat} {es : List Nat} (h : Corners pd seen (e :: es))
    (hn : Nullable (grammarOf pd) (elemForm pd e)) : Corners pd seen es := by
  intro a x b hab hna hT
  refine h (e :: a) x b (by rw [hab]; rfl) ?_ hT
  simp [nullable_append, hn, hna]

theorem Corners.prod (hlr : ∀ A, ¬ LeftRecursive (grammarOf pd) A) {seen : List Nat} {A : Nat} {r : NTRule I}
    {p : Production} (hc : LeftChain pd seen A) (hr : AMap.get pd.rules A = some r) (hp : p ∈ r.prods) :
    Corners pd (A :: seen) (prodElems p) := by
  intro a e b hab hna hT
  exact hc.cons hlr (AMap.mem_keys_iff.mpr ⟨r, hr⟩) (leftCorner_of hr hp hab hna hT)

theorem HaveRules.prod (hd : AllDefined pd) {A : Nat} {r : NTRule I} {p : Production}
    (hr : AMap.get pd.rules A = some r) (hp : p ∈ r.prods) : HaveRules pd (prodElems p) := by
  intro e he hT
  obtain ⟨r', hr'⟩ := hd A r hr p hp e he hT
  exact AMap.mem_keys_iff.mpr ⟨r', hr'⟩

theorem forest_bound (hd : AllDefined pd) (hlr : ∀ A, ¬ LeftRecursive (grammarOf pd) A) {B : Nat}
    (hB : WidthAtMost pd B) {els : List Nat} {f : Forest} {s : Str} (h : IsForest pd els f s) (hr : HaveRules pd els) :
    f.size ≤ freshBound pd.rules.length B els.length s.length ∧
    ∀ j seen, Corners pd seen els → seen.length + j = pd.rules.length →
      f.size ≤ startBound pd.rules.length B j els.length s.length := by
  induction h with
  | nil => simp [Forest.size]
  | @leaf e es d f s hT hD _ ih =>
    obtain ⟨h1, h2⟩ := ih (fun x hx => hr x (by simp [hx]))
    simp only [Forest.size, List.length_cons, List.length_append]
    refine ⟨Nat.le_trans (Nat.add_le_add (leaf_nt _ _ _ _) h1) freshBound_cons, ?_⟩
    intro j seen hc hj
    by_cases he : d.name = []
    · have hn : Nullable (grammarOf pd) (elemForm pd e) := by
        rw [elemForm_terminal hT hD, he]; exact nullable_nil
      have := h2 j seen (hc.tail hn) hj
      rw [he]
      simp only [List.length_nil, Nat.zero_add]
      exact Nat.le_trans (Nat.add_le_add (leaf_nt _ _ _ _) this) startBound_zero
    · exact Nat.le_trans (Nat.add_le_add (leaf_nt _ _ _ _) h1)
        (startBound_pos (fun h => he (List.length_eq_zero_iff.1 h)))
  | @node A es r p kids f s1 s2 hT hA hp hk _ ihk ihf =>
    obtain ⟨-, hk2⟩ := ihk (.prod hd hA hp)
    obtain ⟨h1, h2⟩ := ihf (fun x hx => hr x (by simp [hx]))
    have hkey : A ∈ AMap.keys pd.rules := AMap.mem_keys_iff.mpr ⟨r, hA⟩
    have hnode : ∀ j seen, LeftChain pd seen A → seen.length + j = pd.rules.length →
        1 + kids.size ≤ ntBound pd.rules.length B j s1.length := by
      intro j seen hc hj
      have hs := hc.short hlr hkey
      obtain ⟨j, rfl⟩ : ∃ i, j = i + 1 := ⟨j - 1, by omega⟩
      have := hk2 j (A :: seen) (Corners.prod hlr hc hA hp) (by simp only [List.length_cons]; omega)
      exact Nat.le_trans (Nat.add_le_add_left this 1) (startBound_nt (hB A r hA p hp))
    simp only [Forest.size, List.length_cons, List.length_append]
    refine ⟨Nat.le_trans (Nat.add_le_add (hnode _ [] (.nil _ _) (by simp)) h1) freshBound_cons, ?_⟩
    intro j seen hc hj
    have hn := hnode j seen (hc [] A es rfl nullable_nil hT) hj
    cases s1 with
    | nil =>
      have hnl : Nullable (grammarOf pd) (elemForm pd A) := by
        have hder := (IsForest.node hT hA hp hk .nil).derives
        simp only [formOf_cons, formOf_nil, List.append_nil, ofText, List.map_nil] at hder
        exact hder
      have := h2 j seen (hc.tail hnl) hj
      simp only [List.length_nil, Nat.zero_add] at hn ⊢
      exact Nat.le_trans (Nat.add_le_add hn this) startBound_zero
    | cons x s1 =>
      exact Nat.le_trans (Nat.add_le_add hn h1) (startBound_pos (by simp))

theorem tree_bound (hd : AllDefined pd) (hlr : ∀ A, ¬ LeftRecursive (grammarOf pd) A) {B : Nat}
    (hB : WidthAtMost pd B) {A : Nat} {p : Production} {k : Forest} {s : Str} (h : IsForest pd [A] (.node A p k .nil) s) :
    (Forest.node A p k .nil).size ≤ nodeBound pd.rules.length B s.length := by
  have hr : HaveRules pd [A] := by
    intro e he hT
    cases h with
    | node hT hA hp hk hn =>
      rw [List.mem_singleton.1 he]
      exact AMap.mem_keys_iff.mpr ⟨_, hA⟩
  have := (forest_bound hd hlr hB h hr).1
  rw [← ntBound_final, ntBound_fresh]
  simpa [freshBound] using this

/-! ### runs -/

/-- From `c`, with `rest` to come, the meter rises by at most `W m`, where `m` is the number of characters read (at most
so many if the run fails). -/
def Costs (μ : S → Nat) (W : Nat → Nat) (rest : Str) (c : Ctx S) (out : Res PErr Unit × Ctx S) : Prop :=
  ∃ m, m ≤ rest.length ∧ μ out.2.state ≤ μ c.state + W m ∧
    ∀ u, out.1 = .ok u → out.2.proc.rest.length + m = rest.length

theorem Costs.mono {μ : S → Nat} {W W' : Nat → Nat} {rest : Str} {c : Ctx S} {out : Res PErr Unit × Ctx S}
    (h : Costs μ W rest c out) (hW : ∀ m, W m ≤ W' m) : Costs μ W' rest c out := by
  obtain ⟨m, h1, h2, h3⟩ := h
  exact ⟨m, h1, Nat.le_trans h2 (Nat.add_le_add_left (hW m) _), h3⟩

theorem runInstructions_meter {vm : VM I S} {μ : S → Nat} (hμ : Meters vm μ) (id : NodeId) (is : List I) :
    ∀ t s t' s', runInstructions vm id is t s = some (t', s') → μ s' ≤ μ s + is.length := by
  induction is with
  | nil => intro t s t' s' h; simp only [runInstructions, Option.some.injEq, Prod.mk.injEq] at h; simp [h.2]
  | cons i is ih =>
    intro t s t' s' h
    simp only [runInstructions] at h
    cases he : vm.execute t id i s with
    | none => rw [he] at h; cases h
    | some x =>
      obtain ⟨t1, s1⟩ := x
      rw [he] at h
      have h1 := hμ _ _ _ _ _ _ he
      have h2 := ih _ _ _ _ h
      simp only [List.length_cons]
      omega

theorem termStep_state (name : Str) (id : NodeId) (c : Ctx S) : (termStep name id c).2.state = c.state := by
  simp only [termStep, SM.bind_apply, onProc]
  rcases parseScriptTerminal name c.proc with ⟨r, p⟩
  cases r with
  | ok a =>
    simp only [addTreeNodeIgnore]
  | err e => rfl
  | panic => rfl
  | timeout => rfl

variable {start : Nat} {P : Parser I}

/-- What a step for one element does, with the elements after it. -/
theorem costs_cons {ho : HashOrder} {vm : VM I S} {μ : S → Nat} {id : NodeId} {e : Nat} {step next : SM (Ctx S) PErr Unit}
    {W1 W : Nat → Nat} {pre rest : Str} {c : Ctx S}
    (hg : Good ho vm pd start P [e] (some id) pre rest c (step c)) (hstep : Costs μ W1 rest c (step c))
    (hfail : ∀ m, W1 m ≤ W m)
    (hnext : ∀ s rest' c1, c1.proc = procAt (pre ++ s) rest' →
      (s = [] → Nullable (grammarOf pd) (elemForm pd e)) →
      ∃ W2, Costs μ W2 rest' c1 (next c1) ∧ ∀ m2, W1 s.length + W2 m2 ≤ W (s.length + m2)) :
    Costs μ W rest c ((step >>= fun _ => next) c) := by
  rw [SM.bind_apply]
  rcases hs : step c with ⟨r, c1⟩
  rw [hs] at hg hstep
  obtain ⟨m, hm1, hm2, hm3⟩ := hstep
  cases r with
  | err x => exact ⟨m, hm1, Nat.le_trans hm2 (Nat.add_le_add_left (hfail m) _), fun u h => by cases h⟩
  | panic => exact ⟨m, hm1, Nat.le_trans hm2 (Nat.add_le_add_left (hfail m) _), fun u h => by cases h⟩
  | timeout => exact ⟨m, hm1, Nat.le_trans hm2 (Nat.add_le_add_left (hfail m) _), fun u h => by cases h⟩
  | ok u =>
    obtain ⟨s, rest', rfl, hproc, f, hf, -⟩ := hg
    have hm := hm3 u rfl
    simp only at hproc hm2 hm ⊢
    have hrest : c1.proc.rest = rest' := by rw [hproc]; rfl
    have hlen : m = s.length := by rw [hrest, List.length_append] at hm; omega
    subst hlen
    obtain ⟨W2, ⟨m2, h1, h2, h3⟩, hW⟩ := hnext s rest' c1 hproc (by
      rintro rfl
      have hder := hf.derives
      simp only [formOf_cons, formOf_nil, List.append_nil, ofText, List.map_nil] at hder
      exact hder)
    refine ⟨s.length + m2, by rw [List.length_append]; omega, ?_, ?_⟩
    · have := hW m2
      omega
    · intro u' hu
      have := h3 u' hu
      rw [List.length_append]; omega

theorem costs_done {μ : S → Nat} {W : Nat → Nat} {pre rest : Str} {c : Ctx S} (hc : c.proc = procAt pre rest) :
    Costs μ W rest c (.ok (), c) :=
  ⟨0, Nat.zero_le _, by simp, fun _ _ => by rw [hc]; rfl⟩

theorem termStep_costs {ho : HashOrder} {vm : VM I S} {μ : S → Nat} {W : Nat → Nat} {name : Str} {id : NodeId} {c : Ctx S}
    {pre rest : Str} {e : Nat} (hg : Good ho vm pd start P [e] (some id) pre rest c (termStep name id c)) :
    Costs μ W rest c (termStep name id c) := by
  obtain ⟨s, rest', rfl, hproc, -⟩ := hg
  refine ⟨s.length, by simp, by rw [termStep_state]; simp, fun u _ => ?_⟩
  rw [hproc, List.length_append]
  simp only [procAt]
  exact Nat.add_comm _ _

/-- What holds of the recursive calls. -/
def RecCosts (pd : ParserData I) (μ : S → Nat) (L B : Nat) (rec : Nat → Option NodeId → SM (Ctx S) PErr Unit) : Prop :=
  ∀ k seen A, LeftChain pd seen A → A ∈ AMap.keys pd.rules → seen.length + k = pd.rules.length →
    ∀ parent pre rest (c : Ctx S), c.proc = procAt pre rest →
      Costs μ (fun m => L * ntBound pd.rules.length B k m) rest c (rec A parent c)

theorem elements_fresh {ho : HashOrder} {vm : VM I S} {μ : S → Nat} {L B : Nat} (hw : WellFormed pd)
    (hP : ParserFor pd start P) {rec : Nat → Option NodeId → SM (Ctx S) PErr Unit} (hrec : RecGood ho vm pd start P rec)
    (hcost : RecCosts pd μ L B rec) (id : NodeId) (els : List Nat) : HaveRules pd els →
    (∀ e ∈ els, e < pd.elementTypes.length) → ∀ pre rest (c : Ctx S), c.proc = procAt pre rest →
      Costs μ (fun m => L * freshBound pd.rules.length B els.length m) rest c (parseElements P rec id els c) := by
  induction els with
  | nil => intro _ _ pre rest c hc; exact costs_done hc
  | cons e es ih =>
    intro hr hrange pre rest c hc
    have hlt := hrange e (by simp)
    have hT := List.getElem?_eq_getElem hlt
    obtain ⟨d, hD⟩ : ∃ d, pd.elementData[e]? = some d := ⟨_, List.getElem?_eq_getElem (hw.lengths ▸ hlt)⟩
    have key : ∀ (step : SM (Ctx S) PErr Unit), Good ho vm pd start P [e] (some id) pre rest c (step c) →
        Costs μ (fun m => L * ntBound pd.rules.length B pd.rules.length m) rest c (step c) →
        Costs μ (fun m => L * freshBound pd.rules.length B (e :: es).length m) rest c
          ((step >>= fun _ => parseElements P rec id es) c) := by
      intro step hg hs
      refine costs_cons hg hs (fun m => Nat.mul_le_mul_left _ ?_) ?_
      · have := freshBound_cons (R := pd.rules.length) (B := B) (l := es.length) (m1 := m) (m2 := 0)
        simp only [Nat.add_zero] at this
        exact Nat.le_trans (Nat.le_add_right _ _) this
      · intro s rest' c1 hc1 _
        refine ⟨_, ih (fun x hx => hr x (by simp [hx])) (fun x hx => hrange x (by simp [hx])) _ _ _ hc1, fun m2 => ?_⟩
        rw [← Nat.mul_add]
        exact Nat.mul_le_mul_left _ freshBound_cons
    cases htt : pd.elementTypes[e] with
    | terminal =>
      rw [htt] at hT
      rw [parseElements_cons_terminal (elements_get hP.elements hT hD)]
      have hg : Good ho vm pd start P [e] (some id) pre rest c (termStep d.name id c) := Good.terminal hT hD hc id
      exact key _ hg (termStep_costs hg)
    | nonTerminal =>
      rw [htt] at hT
      rw [parseElements_cons_nonTerminal (elements_get hP.elements hT hD)]
      exact key _ (hrec e (some id) pre rest c hT hc) (hcost _ [] e (.nil _ _) (hr e (by simp) hT) (by simp) _ pre rest c hc)

theorem elements_start {ho : HashOrder} {vm : VM I S} {μ : S → Nat} {L B : Nat} (hw : WellFormed pd)
    (hP : ParserFor pd start P) {rec : Nat → Option NodeId → SM (Ctx S) PErr Unit} (hrec : RecGood ho vm pd start P rec)
    (hcost : RecCosts pd μ L B rec) (id : NodeId) {j : Nat} {seen : List Nat} (hj : seen.length + j = pd.rules.length)
    (els : List Nat) : Corners pd seen els → HaveRules pd els →
    (∀ e ∈ els, e < pd.elementTypes.length) → ∀ pre rest (c : Ctx S), c.proc = procAt pre rest →
      Costs μ (fun m => L * startBound pd.rules.length B j els.length m) rest c (parseElements P rec id els c) := by
  induction els with
  | nil => intro _ _ _ pre rest c hc; exact costs_done hc
  | cons e es ih =>
    intro hco hr hrange pre rest c hc
    have hlt := hrange e (by simp)
    have hT := List.getElem?_eq_getElem hlt
    obtain ⟨d, hD⟩ : ∃ d, pd.elementData[e]? = some d := ⟨_, List.getElem?_eq_getElem (hw.lengths ▸ hlt)⟩
    have key : ∀ (step : SM (Ctx S) PErr Unit), Good ho vm pd start P [e] (some id) pre rest c (step c) →
        Costs μ (fun m => L * ntBound pd.rules.length B j m) rest c (step c) →
        Costs μ (fun m => L * startBound pd.rules.length B j (e :: es).length m) rest c
          ((step >>= fun _ => parseElements P rec id es) c) := by
      intro step hg hs
      refine costs_cons hg hs (fun m => Nat.mul_le_mul_left _ ntBound_start) ?_
      intro s rest' c1 hc1 hn
      cases s with
      | nil =>
        refine ⟨_, ih (hco.tail (hn rfl)) (fun x hx => hr x (by simp [hx])) (fun x hx => hrange x (by simp [hx])) _ _ _ hc1,
          fun m2 => ?_⟩
        simp only [List.length_nil, Nat.zero_add]
        rw [← Nat.mul_add]
        exact Nat.mul_le_mul_left _ startBound_zero
      | cons x s =>
        refine ⟨_, elements_fresh hw hP hrec hcost id es (fun x hx => hr x (by simp [hx])) (fun x hx => hrange x (by simp [hx])) _ _ _ hc1,
          fun m2 => ?_⟩
        rw [← Nat.mul_add]
        exact Nat.mul_le_mul_left _ (startBound_pos (by simp))
    cases htt : pd.elementTypes[e] with
    | terminal =>
      rw [htt] at hT
      rw [parseElements_cons_terminal (elements_get hP.elements hT hD)]
      have hg : Good ho vm pd start P [e] (some id) pre rest c (termStep d.name id c) := Good.terminal hT hD hc id
      exact key _ hg (termStep_costs hg)
    | nonTerminal =>
      rw [htt] at hT
      rw [parseElements_cons_nonTerminal (elements_get hP.elements hT hD)]
      exact key _ (hrec e (some id) pre rest c hT hc)
        (hcost _ seen e (hco [] e es rfl nullable_nil hT) (hr e (by simp) hT) hj _ pre rest c hc)

theorem production_costs {ho : HashOrder} {vm : VM I S} {μ : S → Nat} (hμ : Meters vm μ) {L B : Nat} (hw : WellFormed pd)
    (ha : Acceptable pd start) (hP : ParserFor pd start P) (hB : WidthAtMost pd B) (hL : InstrAtMost pd L) (fuel : Nat) :
    RecCosts pd μ L B (parseProduction ho vm P fuel) := by
  induction fuel with
  | zero =>
    intro k seen A _ _ _ parent pre rest c _
    exact ⟨0, Nat.zero_le _, Nat.le_add_right _ _, fun u h => by cases h⟩
  | succ fuel ih =>
    intro k seen A hc hA hk parent pre rest c hcp
    have hs := hc.short ha.noLeftRec hA
    obtain ⟨j, rfl⟩ : ∃ j, k = j + 1 := ⟨k - 1, by omega⟩
    obtain ⟨r, hr⟩ := AMap.mem_keys_iff.mp hA
    rw [parseProduction_succ fuel A hcp]
    have hmA := hP.rules A
    rw [hr] at hmA
    obtain ⟨R, hR, hinstr, -, hmap⟩ := hmA
    rw [hR]
    simp only
    cases hp : AMap.get R.steuermap (SetMember.ofPeek rest.head?) with
    | none => exact ⟨0, Nat.zero_le _, Nat.le_add_right _ _, fun u h => by cases h⟩
    | some p =>
      obtain ⟨hpm, -⟩ := (hmap _ _).mp hp
      simp only
      rcases c.tree.addNode [] parent with ⟨ra, t⟩
      cases ra with
      | timeout => exact ⟨0, Nat.zero_le _, Nat.le_add_right _ _, fun u h => by cases h⟩
      | err _ => exact ⟨0, Nat.zero_le _, Nat.le_add_right _ _, fun u h => by cases h⟩
      | panic => exact ⟨0, Nat.zero_le _, Nat.le_add_right _ _, fun u h => by cases h⟩
      | ok id =>
        simp only
        have hel := elements_start (ho := ho) (vm := vm) (μ := μ) (L := L) (B := B) (start := start) (P := P) hw hP
          (Good.production hw ha hP fuel) ih id (j := j) (seen := A :: seen) (by simp only [List.length_cons]; omega)
          (prodElems p) (Corners.prod ha.noLeftRec hc hr hpm) (.prod ha.defined hr hpm) (hw.inRange A r hr p hpm)
          pre rest { c with tree := t } hcp
        have hb : ∀ m, L + L * startBound pd.rules.length B j (prodElems p).length m ≤ L * ntBound pd.rules.length B (j + 1) m := by
          intro m
          have h1 := startBound_nt (R := pd.rules.length) (j := j) (m := m) (hB A r hr p hpm)
          have h2 := Nat.mul_le_mul_left L h1
          rw [Nat.mul_add, Nat.mul_one] at h2
          exact h2
        rw [SM.bind_apply]
        rcases hpe : parseElements P (parseProduction ho vm P fuel) id (prodElems p) { c with tree := t } with ⟨r1, c1⟩
        rw [hpe] at hel
        obtain ⟨m, hm1, hm2, hm3⟩ := hel
        have hbm := hb m
        simp only at hm2
        cases r1 with
        | timeout => exact ⟨m, hm1, by simp only; omega, fun u h => by cases h⟩
        | err _ => exact ⟨m, hm1, by simp only; omega, fun u h => by cases h⟩
        | panic => exact ⟨m, hm1, by simp only; omega, fun u h => by cases h⟩
        | ok u =>
          simp only [runInstructionsM]
          cases hri : runInstructions vm id R.instr c1.tree c1.state with
          | none => exact ⟨m, hm1, by simp only; omega, fun u h => by cases h⟩
          | some x =>
            obtain ⟨t', s'⟩ := x
            have h1 := runInstructions_meter hμ id R.instr _ _ _ _ hri
            have h2 := hL A r hr
            refine ⟨m, hm1, ?_, fun u' _ => hm3 u rfl⟩
            rw [hinstr] at h1
            simp only
            omega

theorem parse_costs {ho : HashOrder} {vm : VM I S} {μ : S → Nat} (hμ : Meters vm μ) {L B : Nat} (hw : WellFormed pd)
    (ha : Acceptable pd start) (hP : ParserFor pd start P) (hB : WidthAtMost pd B) (hL : InstrAtMost pd L)
    (hs : StartSymbol pd st0) (fuel : Nat) (text : Str) (s : S) :
    μ (Parser.parse ho fuel vm P text s).2.state ≤ μ s + L * nodeBound pd.rules.length B text.length := by
  have key : Costs μ (fun m => L * ntBound pd.rules.length B pd.rules.length m) text (ctx0 text s)
      (parseProduction ho vm P fuel st0 none (ctx0 text s)) := by
    cases hr : AMap.get pd.rules st0 with
    | none =>
      cases fuel with
      | zero => exact ⟨0, Nat.zero_le _, Nat.le_add_right _ _, fun u h => by cases h⟩
      | succ k =>
        rw [parseProduction_succ k st0 (c := ctx0 text s) (pre := []) (rest := text) rfl]
        have := hP.rules st0
        rw [hr] at this
        rw [this]
        exact ⟨0, Nat.zero_le _, Nat.le_add_right _ _, fun u h => by cases h⟩
    | some r =>
      exact production_costs hμ hw ha hP hB hL fuel _ [] st0 (.nil _ _) (AMap.mem_keys_iff.mpr ⟨r, hr⟩) (by simp) none [] text
        (ctx0 text s) rfl
  rw [parse_eq hP hs]
  obtain ⟨m, h1, h2, -⟩ := key
  have h3 : L * ntBound pd.rules.length B pd.rules.length m ≤ L * nodeBound pd.rules.length B text.length := by
    rw [ntBound_final, nodeBound, nodeBound]
    exact Nat.mul_le_mul_left _ (Nat.mul_le_mul_left _ (Nat.add_le_add_left (Nat.mul_le_mul_left _ h1) _))
  have h0 : (ctx0 text s).state = s := rfl
  rw [h0] at h2
  have h4 := Nat.le_trans h2 (Nat.add_le_add_left h3 _)
  generalize parseProduction ho vm P fuel st0 none (ctx0 text s) = x at h4
  obtain ⟨r, c⟩ := x
  cases r <;> exact h4

end HPP
