import Verif.Spec.Renaming
import Verif.Spec.Control
import Verif.Proofs.Cfg
import Verif.Proofs.Determinism
import Verif.Proofs.ParseTop
namespace HPP
open Spec
variable {I S : Type} {φ : Nat → Nat} {pd pd' : ParserData I}

/-- Renumbering of a symbol. -/
def symMap (φ : Nat → Nat) : Sym → Sym
  | .ch c => .ch c
  | .nt A => .nt (φ A)

theorem ofText_symMap (s : Str) : (ofText s).map (symMap φ) = ofText s := by
  simp [ofText, Function.comp_def, symMap]

theorem prodElems_renumber (p : Production) : prodElems (renumber φ p) = (prodElems p).map φ := by cases p <;> rfl

namespace Ren
variable (h : Renumbered φ pd pd')
include h

theorem elemForm_eq (hl : pd.elementTypes.length = pd.elementData.length)
    (hl' : pd'.elementTypes.length = pd'.elementData.length) {e : Nat} (ho : Occurs pd e) :
    elemForm pd' (φ e) = (elemForm pd e).map (symMap φ) := by
  have hk := h.kinds e ho
  have ht := h.texts e ho
  unfold elemForm
  rw [hk]
  cases h1 : pd.elementTypes[e]? with
  | none => rfl
  | some et =>
    cases et with
    | nonTerminal => rfl
    | terminal =>
      have hlt : e < pd.elementData.length := by
        rw [← hl]; exact (List.getElem?_eq_some_iff.mp h1).1
      rw [h1] at hk
      have hlt' : φ e < pd'.elementData.length := by
        rw [← hl']; exact (List.getElem?_eq_some_iff.mp hk).1
      have := ht h1
      rw [List.getElem?_eq_getElem hlt, List.getElem?_eq_getElem hlt'] at this ⊢
      simp only [Option.map_some, Option.some.injEq] at this
      simp only [this, ofText_symMap]

theorem formOf_eq (hl : pd.elementTypes.length = pd.elementData.length)
    (hl' : pd'.elementTypes.length = pd'.elementData.length) {es : List Nat} (ho : ∀ e ∈ es, Occurs pd e) :
    formOf pd' (es.map φ) = (formOf pd es).map (symMap φ) := by
  induction es with
  | nil => rfl
  | cons e es ih =>
    simp only [formOf, List.map_cons, List.flatMap_cons, List.map_append] at ih ⊢
    rw [elemForm_eq h hl hl' (ho e (.head _)), ih (fun x hx => ho x (.tail _ hx))]

theorem sym_inj {x y : Sym} (hxy : symMap φ x = symMap φ y) : x = y := by
  cases x <;> cases y <;> simp only [symMap, Sym.ch.injEq, Sym.nt.injEq, reduceCtorEq] at hxy
  · rw [hxy]
  · rw [h.injective _ _ hxy]

theorem form_inj {u v : Form} (huv : u.map (symMap φ) = v.map (symMap φ)) : u = v := by
  induction u generalizing v with
  | nil => cases v with
    | nil => rfl
    | cons => simp at huv
  | cons x u ih => cases v with
    | nil => simp at huv
    | cons y v =>
      simp only [List.map_cons, List.cons.injEq] at huv
      rw [sym_inj h huv.1, ih huv.2]

theorem grammar_iff (hl : pd.elementTypes.length = pd.elementData.length)
    (hl' : pd'.elementTypes.length = pd'.elementData.length) {A : Nat} {w' : Form} :
    grammarOf pd' (φ A) w' ↔ ∃ w, w' = w.map (symMap φ) ∧ grammarOf pd A w := by
  constructor
  · rintro ⟨r', hr', p', hp', rfl⟩
    obtain ⟨A1, r, hA, hr⟩ := h.noMore _ _ hr'
    have := h.injective _ _ hA
    subst this
    obtain ⟨r1, hr1, -, hperm⟩ := h.rules _ _ hr
    rw [hr1] at hr'; cases hr'
    obtain ⟨p, hp, rfl⟩ := List.mem_map.mp (hperm.mem_iff.mp hp')
    exact ⟨formOf pd (prodElems p), by rw [prodElems_renumber, formOf_eq h hl hl' fun e he => ⟨_, r, p, hr, hp, he⟩], r, hr, p, hp, rfl⟩
  · rintro ⟨w, rfl, r, hr, p, hp, rfl⟩
    obtain ⟨r1, hr1, -, hperm⟩ := h.rules _ _ hr
    exact ⟨r1, hr1, renumber φ p, hperm.mem_iff.mpr (List.mem_map.mpr ⟨p, hp, rfl⟩),
      by rw [prodElems_renumber, formOf_eq h hl hl' fun e he => ⟨_, r, p, hr, hp, he⟩]⟩

theorem grammar_image (A' : Nat) (w' : Form) (hg : grammarOf pd' A' w') : ∃ A, A' = φ A := by
  obtain ⟨r', hr', -⟩ := hg
  obtain ⟨A, -, hA, -⟩ := h.noMore _ _ hr'
  exact ⟨A, hA⟩

theorem step_iff (hl : pd.elementTypes.length = pd.elementData.length)
    (hl' : pd'.elementTypes.length = pd'.elementData.length) {u w' : Form} :
    Step (grammarOf pd') (u.map (symMap φ)) w' ↔ ∃ w, w' = w.map (symMap φ) ∧ Step (grammarOf pd) u w := by
  constructor
  · intro hs
    generalize hu : u.map (symMap φ) = x at hs
    cases hs with
    | @mk a b A' w1 hg =>
      obtain ⟨a0, y, rfl, rfl, hy⟩ := List.map_eq_append_iff.mp hu
      obtain ⟨z, b0, rfl, hz, rfl⟩ := List.map_eq_cons_iff.mp hy
      cases z with
      | ch c => simp [symMap] at hz
      | nt A =>
        simp only [symMap, Sym.nt.injEq] at hz
        subst hz
        obtain ⟨w, rfl, hw⟩ := (grammar_iff h hl hl').mp hg
        exact ⟨a0 ++ w ++ b0, by simp, .mk a0 b0 hw⟩
  · rintro ⟨w, rfl, hs⟩
    cases hs with
    | @mk a b A w1 hg =>
      have := Step.mk (G := grammarOf pd') (a.map (symMap φ)) (b.map (symMap φ))
        ((grammar_iff h hl hl').mpr ⟨w1, rfl, hg⟩)
      simpa [symMap] using this

theorem derives_iff (hl : pd.elementTypes.length = pd.elementData.length)
    (hl' : pd'.elementTypes.length = pd'.elementData.length) {u w' : Form} :
    Derives (grammarOf pd') (u.map (symMap φ)) w' ↔ ∃ w, w' = w.map (symMap φ) ∧ Derives (grammarOf pd) u w := by
  constructor
  · intro hd
    induction hd with
    | refl => exact ⟨u, rfl, .refl⟩
    | tail _ hs ih =>
      obtain ⟨w, rfl, hw⟩ := ih
      obtain ⟨w2, rfl, hw2⟩ := (step_iff h hl hl').mp hs
      exact ⟨w2, rfl, hw.tail hw2⟩
  · rintro ⟨w, rfl, hd⟩
    induction hd with
    | refl => exact .refl
    | tail _ hs ih => exact ih.tail ((step_iff h hl hl').mpr ⟨_, rfl, hs⟩)

theorem derives_map_iff (hl : pd.elementTypes.length = pd.elementData.length)
    (hl' : pd'.elementTypes.length = pd'.elementData.length) {u w : Form} :
    Derives (grammarOf pd') (u.map (symMap φ)) (w.map (symMap φ)) ↔ Derives (grammarOf pd) u w := by
  rw [derives_iff h hl hl']
  constructor
  · rintro ⟨w2, hw, hd⟩; rwa [form_inj h hw]
  · intro hd; exact ⟨w, rfl, hd⟩

theorem derivesPlus_map_iff (hl : pd.elementTypes.length = pd.elementData.length)
    (hl' : pd'.elementTypes.length = pd'.elementData.length) {u w : Form} :
    DerivesPlus (grammarOf pd') (u.map (symMap φ)) (w.map (symMap φ)) ↔ DerivesPlus (grammarOf pd) u w := by
  constructor
  · intro hd
    obtain ⟨x, hs, hr⟩ := Relation.TransGen.head'_iff.mp hd
    obtain ⟨y, rfl, hy⟩ := (step_iff h hl hl').mp hs
    exact .head' hy ((derives_map_iff h hl hl').mp hr)
  · intro hd
    obtain ⟨x, hs, hr⟩ := Relation.TransGen.head'_iff.mp hd
    exact .head' ((step_iff h hl hl').mpr ⟨x, rfl, hs⟩) ((derives_map_iff h hl hl').mpr hr)

theorem nullable_iff (hl : pd.elementTypes.length = pd.elementData.length)
    (hl' : pd'.elementTypes.length = pd'.elementData.length) {A : Nat} :
    Nullable (grammarOf pd') [.nt (φ A)] ↔ Nullable (grammarOf pd) [.nt A] :=
  derives_map_iff h hl hl' (u := [.nt A]) (w := [])

theorem firstChar_iff (hl : pd.elementTypes.length = pd.elementData.length)
    (hl' : pd'.elementTypes.length = pd'.elementData.length) {A : Nat} {c : Char} :
    FirstChar (grammarOf pd') [.nt (φ A)] c ↔ FirstChar (grammarOf pd) [.nt A] c := by
  constructor
  · rintro ⟨v, hv⟩
    obtain ⟨w, hw, hd⟩ := (derives_iff h hl hl' (u := [.nt A])).mp hv
    obtain ⟨z, v0, rfl, hz, -⟩ := List.map_eq_cons_iff.mp hw.symm
    cases z with
    | nt B => simp [symMap] at hz
    | ch c' => simp only [symMap, Sym.ch.injEq] at hz; subst hz; exact ⟨v0, hd⟩
  · rintro ⟨v, hv⟩
    exact ⟨v.map (symMap φ), (derives_map_iff h hl hl' (u := [.nt A]) (w := .ch c :: v)).mpr hv⟩

theorem followEnd_iff (hl : pd.elementTypes.length = pd.elementData.length)
    (hl' : pd'.elementTypes.length = pd'.elementData.length) {start A : Nat} :
    FollowEnd (grammarOf pd') (φ start) (φ A) ↔ FollowEnd (grammarOf pd) start A := by
  constructor
  · rintro ⟨u, hu⟩
    obtain ⟨w, hw, hd⟩ := (derives_iff h hl hl' (u := [.nt start])).mp hu
    obtain ⟨u0, y, rfl, -, hy⟩ := List.map_eq_append_iff.mp hw.symm
    have : y = [.nt A] := form_inj h (v := [.nt A]) hy
    subst this
    exact ⟨u0, hd⟩
  · rintro ⟨u, hu⟩
    refine ⟨u.map (symMap φ), ?_⟩
    have := (derives_map_iff h hl hl' (u := [.nt start]) (w := u ++ [.nt A])).mpr hu
    simpa [symMap] using this

theorem followChar_iff (hl : pd.elementTypes.length = pd.elementData.length)
    (hl' : pd'.elementTypes.length = pd'.elementData.length) {A : Nat} {c : Char} :
    FollowChar (grammarOf pd') (φ A) c ↔ FollowChar (grammarOf pd) A c := by
  constructor
  · rintro ⟨B', u, v, ⟨x, hx⟩, hu⟩
    obtain ⟨B, rfl⟩ := grammar_image h _ _ hx
    obtain ⟨x0, -, hx0⟩ := (grammar_iff h hl hl').mp hx
    obtain ⟨w, hw, hd⟩ := (derives_iff h hl hl' (u := [.nt B])).mp hu
    obtain ⟨u0, y, rfl, -, hy⟩ := List.map_eq_append_iff.mp hw.symm
    obtain ⟨z, y1, rfl, hz, hy1⟩ := List.map_eq_cons_iff.mp hy
    obtain ⟨z2, v0, rfl, hz2, -⟩ := List.map_eq_cons_iff.mp hy1
    have e1 : z = .nt A := sym_inj h (y := .nt A) hz
    have e2 : z2 = .ch c := sym_inj h (y := .ch c) hz2
    subst e1 e2
    exact ⟨B, u0, v0, ⟨x0, hx0⟩, hd⟩
  · rintro ⟨B, u, v, ⟨x, hx⟩, hu⟩
    refine ⟨φ B, u.map (symMap φ), v.map (symMap φ), ⟨_, (grammar_iff h hl hl').mpr ⟨x, rfl, hx⟩⟩, ?_⟩
    have := (derives_map_iff h hl hl' (u := [.nt B]) (w := u ++ .nt A :: .ch c :: v)).mpr hu
    simpa [symMap] using this

theorem followMember_iff (hl : pd.elementTypes.length = pd.elementData.length)
    (hl' : pd'.elementTypes.length = pd'.elementData.length) {start A : Nat} {m : SetMember} :
    FollowMember (grammarOf pd') (φ start) (φ A) m ↔ FollowMember (grammarOf pd) start A m := by
  cases m with
  | char c => exact followChar_iff h hl hl'
  | terminate => exact followEnd_iff h hl hl'

theorem control_iff (hl : pd.elementTypes.length = pd.elementData.length)
    (hl' : pd'.elementTypes.length = pd'.elementData.length) {start A : Nat} {p : Production} {m : SetMember}
    (ho : ∀ e ∈ prodElems p, Occurs pd e) :
    Control pd' (φ start) (φ A) (renumber φ p) m ↔ Control pd start A p m := by
  cases p with
  | empty => exact followMember_iff h hl hl'
  | notEmpty els =>
    cases els with
    | nil => exact Iff.rfl
    | cons e es =>
      have ho1 : Occurs pd e := ho e (.head _)
      simp only [renumber, List.map_cons, Control, h.kinds e ho1]
      apply or_congr
      · refine and_congr_right fun ht => ?_
        have hx := h.texts e ho1 ht
        constructor
        · rintro ⟨d, c, h1, h2, h3⟩
          rw [h1] at hx
          cases h4 : pd.elementData[e]? with
          | none => rw [h4] at hx; simp at hx
          | some d0 =>
            rw [h4] at hx
            simp only [Option.map_some, Option.some.injEq] at hx
            exact ⟨d0, c, rfl, by rw [← hx]; exact h2, h3⟩
        · rintro ⟨d, c, h1, h2, h3⟩
          rw [h1] at hx
          cases h4 : pd'.elementData[φ e]? with
          | none => rw [h4] at hx; simp at hx
          | some d0 =>
            rw [h4] at hx
            simp only [Option.map_some, Option.some.injEq] at hx
            exact ⟨d0, c, rfl, by rw [hx]; exact h2, h3⟩
      · refine and_congr_right fun ht => ?_
        simp only [SteuerMember, firstChar_iff h hl hl', nullable_iff h hl hl', followMember_iff h hl hl']

theorem acceptable (hw : WellFormed pd) (hw' : WellFormed pd') {start : Nat} (ha : Acceptable pd start) :
    Acceptable pd' (φ start) where
  startDefined := by
    obtain ⟨r, hr⟩ := ha.startDefined
    obtain ⟨r', hr', -⟩ := h.rules _ _ hr
    exact ⟨r', hr'⟩
  defined := by
    intro A' r' hr' p' hp' e' he' ht'
    obtain ⟨A, r, rfl, hr⟩ := h.noMore _ _ hr'
    obtain ⟨r1, hr1, -, hperm⟩ := h.rules _ _ hr
    rw [hr1] at hr'; cases hr'
    obtain ⟨p, hp, rfl⟩ := List.mem_map.mp (hperm.mem_iff.mp hp')
    rw [prodElems_renumber] at he'
    obtain ⟨e, he, rfl⟩ := List.mem_map.mp he'
    rw [h.kinds e ⟨A, r, p, hr, hp, he⟩] at ht'
    obtain ⟨r2, hr2⟩ := ha.defined A r hr p hp e he ht'
    obtain ⟨r3, hr3, -⟩ := h.rules _ _ hr2
    exact ⟨r3, hr3⟩
  noLeftRec := by
    rintro A' ⟨v', hv'⟩
    obtain ⟨x, hs, hr⟩ := Relation.TransGen.head'_iff.mp hv'
    have : ∃ A, A' = φ A := by
      generalize hu : [Sym.nt A'] = u at hs
      cases hs with
      | @mk a b B w hg =>
        cases a with
        | nil => simp only [List.nil_append, List.cons.injEq, Sym.nt.injEq] at hu; rw [hu.1]; exact grammar_image h _ _ hg
        | cons => simp at hu
    obtain ⟨A, rfl⟩ := this
    obtain ⟨w, hw2, -⟩ := (derives_iff h hw.lengths hw'.lengths (u := [.nt A])).mp hv'.to_reflTransGen
    obtain ⟨z, v, rfl, hz, rfl⟩ := List.map_eq_cons_iff.mp hw2.symm
    have e1 : z = .nt A := sym_inj h (y := .nt A) hz
    subst e1
    exact ha.noLeftRec A ⟨v, (derivesPlus_map_iff h hw.lengths hw'.lengths (u := [.nt A]) (w := .nt A :: v)).mp hv'⟩
  noEmptyTerminal := by
    intro A' r' hr' e' es' hp' ht' d' hd' hd0
    obtain ⟨A, r, rfl, hr⟩ := h.noMore _ _ hr'
    obtain ⟨r1, hr1, -, hperm⟩ := h.rules _ _ hr
    rw [hr1] at hr'; cases hr'
    obtain ⟨p, hp, hpe⟩ := List.mem_map.mp (hperm.mem_iff.mp hp')
    cases p with
    | empty => cases hpe
    | notEmpty els =>
      cases els with
      | nil => cases hpe
      | cons e es =>
        cases hpe
        have ho : Occurs pd e := ⟨A, r, _, hr, hp, .head _⟩
        rw [h.kinds e ho] at ht'
        have hx := h.texts e ho ht'
        rw [hd'] at hx
        cases h4 : pd.elementData[e]? with
        | none => rw [h4] at hx; simp at hx
        | some d0 =>
          rw [h4] at hx
          simp only [Option.map_some, Option.some.injEq] at hx
          exact ha.noEmptyTerminal A r hr e es hp ht' d0 h4 (by rw [← hx]; exact hd0)
  disjoint := by
    intro A' r' hr'
    obtain ⟨A, r, rfl, hr⟩ := h.noMore _ _ hr'
    obtain ⟨r1, hr1, -, hperm⟩ := h.rules _ _ hr
    rw [hr1] at hr'; cases hr'
    have hd := ha.disjoint A r hr
    have h2 : (r.prods.map (renumber φ)).Pairwise
        (fun p q => ∀ m, ¬ (Control pd' (φ start) (φ A) p m ∧ Control pd' (φ start) (φ A) q m)) := by
      rw [List.pairwise_map]
      refine hd.imp_of_mem ?_
      intro p q hp hq hpq m
      rw [control_iff h hw.lengths hw'.lengths fun e he => ⟨A, r, p, hr, hp, he⟩,
        control_iff h hw.lengths hw'.lengths fun e he => ⟨A, r, q, hr, hq, he⟩]
      exact hpq m
    exact (hperm.symm.pairwise_iff (fun {p q} hpq m hm => hpq m ⟨hm.2, hm.1⟩)).mp h2

/-- Renumbering backwards. -/
theorem acceptable_iff (hw : WellFormed pd) (hw' : WellFormed pd') {start : Nat} :
    Acceptable pd start ↔ Acceptable pd' (φ start) := by
  refine ⟨acceptable h hw hw', fun ha => ?_⟩
  refine ⟨?_, ?_, ?_, ?_, ?_⟩
  · obtain ⟨r', hr'⟩ := ha.startDefined
    obtain ⟨A, r, hA, hr⟩ := h.noMore _ _ hr'
    rw [h.injective _ _ hA]
    exact ⟨r, hr⟩
  · intro A r hr p hp e he ht
    obtain ⟨r1, hr1, -, hperm⟩ := h.rules _ _ hr
    obtain ⟨r2, hr2⟩ := ha.defined (φ A) r1 hr1 (renumber φ p) (hperm.mem_iff.mpr (List.mem_map.mpr ⟨p, hp, rfl⟩)) (φ e)
      (by rw [prodElems_renumber]; exact List.mem_map.mpr ⟨e, he, rfl⟩) (by rw [h.kinds e ⟨A, r, p, hr, hp, he⟩]; exact ht)
    obtain ⟨B, r3, hB, hr3⟩ := h.noMore _ _ hr2
    rw [h.injective _ _ hB]
    exact ⟨r3, hr3⟩
  · rintro A ⟨v, hv⟩
    exact ha.noLeftRec (φ A) ⟨v.map (symMap φ),
      (derivesPlus_map_iff h hw.lengths hw'.lengths (u := [.nt A]) (w := .nt A :: v)).mpr hv⟩
  · intro A r hr e es hp ht d hd hd0
    obtain ⟨r1, hr1, -, hperm⟩ := h.rules _ _ hr
    have ho : Occurs pd e := ⟨A, r, _, hr, hp, .head _⟩
    have hx := h.texts e ho ht
    rw [hd] at hx
    cases h4 : pd'.elementData[φ e]? with
    | none => rw [h4] at hx; simp at hx
    | some d0 =>
      rw [h4] at hx
      simp only [Option.map_some, Option.some.injEq] at hx
      exact ha.noEmptyTerminal (φ A) r1 hr1 (φ e) (es.map φ)
        (hperm.mem_iff.mpr (List.mem_map.mpr ⟨_, hp, rfl⟩)) (by rw [h.kinds e ho]; exact ht) d0 h4 (by rw [hx]; exact hd0)
  · intro A r hr
    obtain ⟨r1, hr1, -, hperm⟩ := h.rules _ _ hr
    have hd := ha.disjoint (φ A) r1 hr1
    have h2 := (hperm.pairwise_iff (fun {p q} hpq m hm => hpq m ⟨hm.2, hm.1⟩)).mp hd
    rw [List.pairwise_map] at h2
    refine h2.imp_of_mem ?_
    intro p q hp hq hpq m
    rw [← control_iff h hw.lengths hw'.lengths fun e he => ⟨A, r, p, hr, hp, he⟩,
      ← control_iff h hw.lengths hw'.lengths fun e he => ⟨A, r, q, hr, hq, he⟩]
    exact hpq m

end Ren

/-! ### running renumbered parsers -/

variable {P1 P2 : Parser I}

/-- Two parsers with the same lookahead maps, instructions and elements, up to renumbering. -/
structure AgreeVia (φ : Nat → Nat) (P1 P2 : Parser I) : Prop where
  elements : ∀ A R1 m p, AMap.get P1.rules A = some R1 → AMap.get R1.steuermap m = some p → ∀ e ∈ prodElems p, (P1.elements[e]? = none ∧ P2.elements[φ e]? = none) ∨
    ∃ v1 v2, P1.elements[e]? = some v1 ∧ P2.elements[φ e]? = some v2 ∧ v1.et = v2.et ∧
      (v1.et = .terminal → v1.name = v2.name)
  rules : ∀ A R1, AMap.get P1.rules A = some R1 → ∃ R2, AMap.get P2.rules (φ A) = some R2 ∧ R1.instr = R2.instr ∧
      (∀ m, AMap.get R2.steuermap m = (AMap.get R1.steuermap m).map (renumber φ)) ∧
      (AMap.keys R1.steuermap).Perm (AMap.keys R2.steuermap)
  closed : ∀ A R1 m p, AMap.get P1.rules A = some R1 → AMap.get R1.steuermap m = some p → ∀ e ∈ prodElems p,
    ∀ v, P1.elements[e]? = some v → v.et = .nonTerminal → ∃ R, AMap.get P1.rules e = some R

theorem AgreeVia.of_parsers {start : Nat} (h : Renumbered φ pd pd') (hw : WellFormed pd) (hw' : WellFormed pd')
    (ha : Acceptable pd start) (h1 : ParserFor pd start P1) (h2 : ParserFor pd' (φ start) P2) : AgreeVia φ P1 P2 where
  elements := by
    intro A R1 m p hR1 hp e he
    have ho : Occurs pd e := by
      have a := h1.rules A
      cases hr : AMap.get pd.rules A with
      | none => rw [hr] at a; rw [a] at hR1; cases hR1
      | some r =>
        rw [hr] at a
        obtain ⟨R, g1, -, -, g4⟩ := a
        rw [g1] at hR1; cases hR1
        exact ⟨A, r, p, hr, ((g4 m p).mp hp).1, he⟩
    rw [h1.elements.2, h2.elements.2]
    simp only [ParserData.getElementVerbose]
    have hk := h.kinds e ho
    have ht := h.texts e ho
    cases h3 : pd.elementTypes[e]? with
    | none =>
      rw [h3] at hk
      rw [hk]
      left
      constructor
      · cases pd.elementData[e]? <;> rfl
      · cases pd'.elementData[φ e]? <;> rfl
    | some et =>
      rw [h3] at hk
      rw [hk]
      have hlt : e < pd.elementData.length := by rw [← hw.lengths]; exact (List.getElem?_eq_some_iff.mp h3).1
      have hlt' : φ e < pd'.elementData.length := by rw [← hw'.lengths]; exact (List.getElem?_eq_some_iff.mp hk).1
      rw [List.getElem?_eq_getElem hlt, List.getElem?_eq_getElem hlt'] at ht ⊢
      right
      refine ⟨_, _, rfl, rfl, rfl, ?_⟩
      intro he
      simp only at he
      subst he
      have := ht h3
      simp only [Option.map_some, Option.some.injEq] at this
      exact this.symm
  rules := by
    intro A R1 hR1
    have a := h1.rules A
    cases hr : AMap.get pd.rules A with
    | none => rw [hr] at a; rw [a] at hR1; cases hR1
    | some r =>
      rw [hr] at a
      obtain ⟨R, g1, g2, -, g4⟩ := a
      rw [g1] at hR1; cases hR1
      obtain ⟨r', hr', hi, hperm⟩ := h.rules _ _ hr
      have b := h2.rules (φ A)
      rw [hr'] at b
      obtain ⟨R2, k1, k2, -, k4⟩ := b
      have hm : ∀ m, AMap.get R2.steuermap m = (AMap.get R1.steuermap m).map (renumber φ) := by
        intro m
        apply Option.ext
        intro p'
        rw [k4 m p', Option.map_eq_some_iff]
        constructor
        · rintro ⟨hp', hc⟩
          obtain ⟨p, hp, rfl⟩ := List.mem_map.mp (hperm.mem_iff.mp hp')
          exact ⟨p, (g4 m p).mpr ⟨hp, (Ren.control_iff h hw.lengths hw'.lengths fun e he => ⟨A, r, p, hr, hp, he⟩).mp hc⟩, rfl⟩
        · rintro ⟨p, hp, rfl⟩
          obtain ⟨hp, hc⟩ := (g4 m p).mp hp
          exact ⟨hperm.mem_iff.mpr (List.mem_map.mpr ⟨p, hp, rfl⟩), (Ren.control_iff h hw.lengths hw'.lengths fun e he => ⟨A, r, p, hr, hp, he⟩).mpr hc⟩
      refine ⟨R2, k1, by rw [g2, k2, hi], hm, ?_⟩
      rw [List.perm_ext_iff_of_nodup (h1.nodup A R1 g1) (h2.nodup _ R2 k1)]
      intro k
      rw [AMap.mem_keys_iff, AMap.mem_keys_iff, hm]
      cases AMap.get R1.steuermap k <;> simp
  closed := by
    intro A R1 m p hR1 hp e he v hv het
    have a := h1.rules A
    cases hr : AMap.get pd.rules A with
    | none => rw [hr] at a; rw [a] at hR1; cases hR1
    | some r =>
      rw [hr] at a
      obtain ⟨R, g1, -, -, g4⟩ := a
      rw [g1] at hR1; cases hR1
      have hmem := ((g4 m p).mp hp).1
      rw [h1.elements.2] at hv
      have hte : pd.elementTypes[e]? = some .nonTerminal := by
        simp only [ParserData.getElementVerbose] at hv
        cases h5 : pd.elementTypes[e]? with
        | none => rw [h5] at hv; cases h6 : pd.elementData[e]? <;> simp [h6] at hv
        | some et =>
          rw [h5] at hv
          cases h6 : pd.elementData[e]? with
          | none => rw [h6] at hv; simp at hv
          | some d => rw [h6] at hv; simp only [Option.some.injEq] at hv; subst hv; simp only at het; rw [het]
      obtain ⟨r2, hr2⟩ := ha.defined A r hr p hmem e he hte
      have b := h1.rules e
      rw [hr2] at b
      obtain ⟨R3, hR3, -⟩ := b
      exact ⟨R3, hR3⟩

theorem Sim.elementsVia {rec1 rec2 : Nat → Option NodeId → SM (Ctx S) PErr Unit}
    (hr : ∀ e R, AMap.get P1.rules e = some R → ∀ p, Sim (rec1 e p) (rec2 (φ e) p)) (id : NodeId) (els : List Nat)
    (he : ∀ e ∈ els, (P1.elements[e]? = none ∧ P2.elements[φ e]? = none) ∨
      ∃ v1 v2, P1.elements[e]? = some v1 ∧ P2.elements[φ e]? = some v2 ∧ v1.et = v2.et ∧
        (v1.et = .terminal → v1.name = v2.name))
    (hc : ∀ e ∈ els, ∀ v, P1.elements[e]? = some v → v.et = .nonTerminal → ∃ R, AMap.get P1.rules e = some R) :
    Sim (parseElements P1 rec1 id els) (parseElements P2 rec2 id (els.map φ)) := by
  induction els with
  | nil => exact .refl _
  | cons e es ih =>
    have ih := ih (fun e h => he e (List.mem_cons_of_mem _ h)) (fun e he => hc e (List.mem_cons_of_mem _ he))
    simp only [parseElements, List.map_cons]
    rcases he e (.head _) with ⟨h1, h2⟩ | ⟨v1, v2, h1, h2, h3, h4⟩
    · rw [h1, h2]
      exact fun c => ⟨rfl, .refl _⟩
    · rw [h1, h2]
      have hsimp : ∀ (g : ElementVerbose → SM (Ctx S) PErr Unit) (v : ElementVerbose),
          (SM.lift (Res.unwrapO (some v)) >>= g) = g v := fun _ _ => rfl
      rw [hsimp, hsimp]
      cases het : v1.et with
      | terminal =>
        have het2 := h3.symm.trans het
        rw [het2, h4 het]
        exact .bind (.refl _) (fun s => .bind (.refl _) (fun _ => ih))
      | nonTerminal =>
        have het2 := h3.symm.trans het
        rw [het2]
        obtain ⟨R, hR⟩ := hc e (.head _) v1 h1 het
        exact .bind (hr e R hR _) (fun _ => ih)

theorem Sim.fittingVia (ha : AgreeVia φ P1 P2) (ho1 ho2 : HashOrder) (el : Nat) (cur : SetMember) {R1 : NTRules I}
    (hR : AMap.get P1.rules el = some R1) (c : Ctx S) :
    (∃ p c', onProc (getFittingProduction ho1 P1 el cur) c = (.ok p, c') ∧ AMap.get R1.steuermap cur = some p ∧
      onProc (getFittingProduction ho2 P2 (φ el) cur) c = (.ok (renumber φ p), c')) ∨
    (∃ e e' c', onProc (getFittingProduction ho1 P1 el cur) c = (.err e, c') ∧
      onProc (getFittingProduction ho2 P2 (φ el) cur) c = (.err e', c') ∧ SameErr e e') := by
  obtain ⟨R2, h2, -, hm, hk⟩ := ha.rules el R1 hR
  simp only [onProc, getFittingProduction, hR, h2, hm]
  cases AMap.get R1.steuermap cur with
  | some p => exact .inl ⟨p, _, rfl, rfl, rfl⟩
  | none =>
    refine .inr ⟨_, _, _, rfl, rfl, ?_⟩
    simp only [SameErr, true_and]
    exact .inr ⟨_, _, (ho1.perm _ _ _).trans (hk.trans (ho2.perm _ _ _).symm), (expectedText_eq _).symm,
      (expectedText_eq _).symm⟩

theorem Sim.productionVia (ha : AgreeVia φ P1 P2) (ho1 ho2 : HashOrder) (vm : VM I S) (fuel : Nat) :
    ∀ e R, AMap.get P1.rules e = some R → ∀ p,
      Sim (parseProduction ho1 vm P1 fuel e p) (parseProduction ho2 vm P2 fuel (φ e) p) := by
  induction fuel with
  | zero => intro e R _ p; exact .refl _
  | succ fuel ih =>
    intro e R hR p
    simp only [parseProduction]
    refine .bind (.refl _) (fun cur => ?_)
    obtain ⟨R2, h2, hi, -, -⟩ := ha.rules e R hR
    rw [hR, h2]
    intro c
    simp only [SM.bind_apply, SM.lift_apply, Res.ofOption]
    rcases Sim.fittingVia ha ho1 ho2 e cur hR c with ⟨q, c', e1, hq, e2⟩ | ⟨x, x', c', e1, e2, hx⟩
    · rw [e1, e2]
      simp only
      have hcl := ha.closed e R cur q hR hq
      have key : Sim
          (addTreeNode [] p >>= fun id =>
            (match q with
              | .notEmpty els => parseElements P1 (parseProduction ho1 vm P1 fuel) id els
              | .empty => pure ()) >>= fun _ => runInstructionsM vm id R.instr)
          (addTreeNode [] p >>= fun id =>
            (match renumber φ q with
              | .notEmpty els => parseElements P2 (parseProduction ho2 vm P2 fuel) id els
              | .empty => pure ()) >>= fun _ => runInstructionsM vm id R2.instr) := by
        refine .bind (.refl _) (fun id => ?_)
        rw [← hi]
        cases q with
        | notEmpty els => exact .bind (.elementsVia ih id els (ha.elements e R cur _ hR hq) hcl) (fun _ => .refl _)
        | empty => exact .bind (.refl _) (fun _ => .refl _)
      have := key c'
      cases q with
      | notEmpty els => exact this
      | empty => exact this
    · rw [e1, e2]
      exact ⟨rfl, hx⟩

theorem Sim.parseVia (ha : AgreeVia φ P1 P2) {start st : Nat} (h1 : ParserFor pd start P1)
    (h2 : ParserFor pd' (φ start) P2) (hs : StartSymbol pd st) (hs' : StartSymbol pd' (φ st))
    {R : NTRules I} (hR : AMap.get P1.rules st = some R)
    (ho1 ho2 : HashOrder) (vm : VM I S) (fuel : Nat) (text : Str) (s : S) :
    (Parser.parse ho1 fuel vm P1 text s).2 = (Parser.parse ho2 fuel vm P2 text s).2 ∧
    SameRes (Parser.parse ho1 fuel vm P1 text s).1 (Parser.parse ho2 fuel vm P2 text s).1 := by
  rw [parse_eq h1 hs, parse_eq h2 hs']
  have := Sim.productionVia ha ho1 ho2 vm fuel st R hR none (ctx0 text s)
  generalize parseProduction ho1 vm P1 fuel st none (ctx0 text s) = x1 at this
  generalize parseProduction ho2 vm P2 fuel (φ st) none (ctx0 text s) = x2 at this
  obtain ⟨r1, c1⟩ := x1
  obtain ⟨r2, c2⟩ := x2
  obtain ⟨h3, h4⟩ := this
  simp only at h3
  subst h3
  cases r1 <;> cases r2 <;> simp [SameRes] at h4 ⊢
  exact h4

end HPP
