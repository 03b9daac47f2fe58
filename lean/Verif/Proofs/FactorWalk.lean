import Verif.Proofs.Factor
/-
Naming a part of alternatives: trees and states.
-/
namespace HPP
open Spec
set_option linter.unusedSectionVars false
variable {I S : Type} {pd pd' : ParserData I} {st x : Nat} {body : List Nat}

theorem roses_join (f g : Forest) : roses pd (splice.join f g) = roses pd f ++ roses pd g := by
  induction f with
  | nil => rfl
  | leaf i f ih => simp only [splice.join, roses, ih, List.cons_append]
  | node A p k f _ ih => simp only [splice.join, roses, ih, List.cons_append]

/-- The texts at the roots. -/
def rootTexts (rs : List Rose) : List Str := rs.map fun | .node d _ => d

theorem childTexts_node (d : Str) (ks : List Rose) : (Rose.node d ks).childTexts = rootTexts ks := rfl

/-- Leaves have the same texts in both grammars, nodes the same instructions; a node with instructions that are not blind has no
child for `x`. -/
def FacOn (vm : VM I S) (pd pd' : ParserData I) (x : Nat) (body : List Nat) : Forest → Prop
  | .nil => True
  | .leaf i f => nameOf pd' i = nameOf pd i ∧ FacOn vm pd pd' x body f
  | .node A _ k f => (A = x → instrOf pd' x = []) ∧
      (A ≠ x → instrOf pd' A = instrOf pd A ∧
        (rootTexts (roses pd (splice x body k)) = rootTexts (roses pd' k) ∨ ∀ i ∈ instrOf pd A, BlindInstr vm i)) ∧
      FacOn vm pd pd' x body k ∧ FacOn vm pd pd' x body f

theorem FacOn.flatter {vm : VM I S} {f : Forest} (h : FacOn vm pd pd' x body f) :
    FlatterAll (roses pd (splice x body f)) (roses pd' f) := by
  induction f with
  | nil => exact .nil
  | leaf i f ih =>
    simp only [splice, roses, h.1]
    exact .keep (.node .nil) (ih h.2)
  | node A p k f ih1 ih2 =>
    simp only [splice]
    split
    · rw [roses_join]
      exact .dissolve (ih1 h.2.2.1) (ih2 h.2.2.2)
    · simp only [roses]
      exact .keep (.node (ih1 h.2.2.1)) (ih2 h.2.2.2)

theorem walk_join {vm : VM I S} {par : Option NodeId} {f g : Forest} {a c : Tree Str × S} :
    Walk vm pd par (splice.join f g) a c ↔ ∃ b, Walk vm pd par f a b ∧ Walk vm pd par g b c := by
  constructor
  · intro h
    induction f generalizing a with
    | nil => exact ⟨a, .nil, h⟩
    | leaf i f ih =>
      cases h with
      | leaf h1 h2 h3 =>
        obtain ⟨b, k1, k2⟩ := ih h3
        exact ⟨b, .leaf h1 h2 k1, k2⟩
    | node A p k f _ ih =>
      cases h with
      | node h1 h2 h3 h4 =>
        obtain ⟨b, k1, k2⟩ := ih h4
        exact ⟨b, .node h1 h2 h3 k1, k2⟩
  · rintro ⟨b, h1, h2⟩
    induction f generalizing a with
    | nil => cases h1; exact h2
    | leaf i f ih =>
      cases h1 with
      | leaf a1 a2 a3 => exact .leaf a1 a2 (ih a3)
    | node A p k f _ ih =>
      cases h1 with
      | node a1 a2 a3 a4 => exact .node a1 a2 a3 (ih a4)

theorem executes_transfer {vm : VM I S} (htp : TreePreserving vm) {id id' : NodeId} {is : List I} {τ τ' : Tree Str}
    (hi : ∀ i ∈ is, ∀ u, (vm.execute τ id i u).map Prod.snd = (vm.execute τ' id' i u).map Prod.snd) : ∀ {u : S} {y : Tree Str × S},
    Executes vm id is (τ, u) y → Executes vm id' is (τ', u) (τ', y.2) := by
  induction is with
  | nil => intro u y a; cases a; exact .nil
  | cons i is ih =>
    intro u y a
    cases a with
    | @cons _ _ _ z _ a1 a2 =>
      obtain ⟨t1, u1⟩ := z
      have e1 := htp _ _ _ _ _ _ a1
      simp only at e1 a1
      subst e1
      have hx := hi i (.head _) u
      rw [a1] at hx
      simp only [Option.map_some] at hx
      cases hy : vm.execute τ' id' i u with
      | none => rw [hy] at hx; cases hx
      | some q =>
        obtain ⟨t2, u2⟩ := q
        have e2 := htp _ _ _ _ _ _ hy
        subst e2
        rw [hy] at hx
        simp only [Option.map_some, Option.some.injEq] at hx
        subst hx
        exact .cons hy (ih (fun j hj => hi j (.tail _ hj)) a2)

theorem executes_tree {vm : VM I S} (htp : TreePreserving vm) {id : NodeId} {is : List I} {a b : Tree Str × S}
    (h : Executes vm id is a b) : b.1 = a.1 := by
  have he := (executes_iff vm _ _ _ _).1 h
  obtain ⟨t, s⟩ := a
  obtain ⟨t', s'⟩ := b
  exact runInstructions_tree htp _ _ he

theorem parOk_snoc {h : Hist Str} {parent : Option NodeId} {par : Option Nat} (hp : ParOk h parent par) (l : Hist Str) :
    ParOk (h ++ l) parent par := ⟨hp.1, fun q hq => by have := hp.2 q hq; simp; omega⟩

theorem parOk_child (h : Hist Str) (a : Option Nat × Str) : ParOk (h ++ [a]) (some ⟨h.length, h.length⟩) (some h.length) :=
  ⟨rfl, fun q hq => by cases hq; simp⟩

/-- The walk with the name and the walk without it. -/
theorem walk_splice {vm : VM I S} (htp : TreePreserving vm) (hb : SeesOnlyChildTexts vm) {f : Forest} :
    FacOn vm pd pd' x body f → ∀ {u u2 : S} {t t' : Tree Str} {hist hist' : Hist Str} {parent parent' : Option NodeId}
      {par par' : Option Nat}, TRep t hist → ParOk hist parent par → TRep t' hist' → ParOk hist' parent' par' →
      ((∃ t2, Walk vm pd' parent' f (t', u) (t2, u2)) ↔ ∃ t2, Walk vm pd parent (splice x body f) (t, u) (t2, u2)) := by
  induction f with
  | nil =>
    intro _ u u2 t t' hist hist' parent parent' par par' _ _ _ _
    constructor
    · rintro ⟨t2, h⟩; cases h; exact ⟨t, .nil⟩
    · rintro ⟨t2, h⟩; cases h; exact ⟨t', .nil⟩
  | leaf i f ih =>
    intro hf u u2 t t' hist hist' parent parent' par par' hr hp hr' hp'
    obtain ⟨ta, g1, g2⟩ := hr.addNode_par (nameOf pd i) hp.1 hp.2
    obtain ⟨tb, k1, k2⟩ := hr'.addNode_par (nameOf pd' i) hp'.1 hp'.2
    have := ih hf.2 (u := u) (u2 := u2) g2 (parOk_snoc hp _) k2 (parOk_snoc hp' _)
    constructor
    · rintro ⟨t2, h⟩
      cases h with
      | leaf a1 a2 a3 =>
        rw [k1] at a1
        simp only [Prod.mk.injEq] at a1
        obtain ⟨-, rfl⟩ := a1
        obtain ⟨t3, h3⟩ := this.1 ⟨_, a3⟩
        exact ⟨t3, .leaf g1 (.inl ⟨_, rfl⟩) h3⟩
    · rintro ⟨t2, h⟩
      cases h with
      | leaf a1 a2 a3 =>
        rw [g1] at a1
        simp only [Prod.mk.injEq] at a1
        obtain ⟨-, rfl⟩ := a1
        obtain ⟨t3, h3⟩ := this.2 ⟨_, a3⟩
        exact ⟨t3, .leaf k1 (.inl ⟨_, rfl⟩) h3⟩
  | node A p k f ih1 ih2 =>
    intro hf u u2 t t' hist hist' parent parent' par par' hr hp hr' hp'
    obtain ⟨hf1, hf2, hf3, hf4⟩ := hf
    obtain ⟨tb, k1, k2⟩ := hr'.addNode_par ([] : Str) hp'.1 hp'.2
    by_cases hA : A = x
    · subst hA
      have hE := hf1 rfl
      simp only [splice, if_pos]
      constructor
      · rintro ⟨t2, h⟩
        cases h with
        | @node _ _ _ _ _ _ _ _ _ q1 q2 _ a1 a2 a3 a4 =>
          rw [k1] at a1
          simp only [Prod.mk.injEq, Res.ok.injEq] at a1
          obtain ⟨rfl, rfl⟩ := a1
          rw [hE] at a3
          cases a3
          obtain ⟨t3, h3⟩ := (ih1 hf3 hr hp k2 (parOk_child _ _)).1 ⟨_, a2⟩
          obtain ⟨b1, -⟩ := walk_runs htp h3 _ _ hr hp
          obtain ⟨b2, -⟩ := walk_runs htp a2 _ _ k2 (parOk_child _ _)
          rw [List.append_assoc] at b2
          obtain ⟨t4, h4⟩ := (ih2 hf4 (u := q1.2) (u2 := u2) b1 (parOk_snoc hp _) b2 (parOk_snoc hp' _)).1 ⟨_, a4⟩
          exact ⟨t4, walk_join.2 ⟨_, h3, h4⟩⟩
      · rintro ⟨t2, h⟩
        obtain ⟨⟨tm, um⟩, h3, h4⟩ := walk_join.1 h
        obtain ⟨t3, a2⟩ := (ih1 hf3 (u := u) (u2 := um) hr hp k2 (parOk_child _ _)).2 ⟨_, h3⟩
        obtain ⟨b1, -⟩ := walk_runs htp h3 _ _ hr hp
        obtain ⟨b2, -⟩ := walk_runs htp a2 _ _ k2 (parOk_child _ _)
        rw [List.append_assoc] at b2
        obtain ⟨t4, a4⟩ := (ih2 hf4 (u := um) (u2 := u2) b1 (parOk_snoc hp _) b2 (parOk_snoc hp' _)).2 ⟨_, h4⟩
        exact ⟨t4, .node k1 a2 (by rw [hE]; exact .nil) a4⟩
    · obtain ⟨hI, hB⟩ := hf2 hA
      simp only [splice, if_neg hA]
      obtain ⟨ta, g1, g2⟩ := hr.addNode_par ([] : Str) hp.1 hp.2
      -- after the children, the instructions do the same
      have key : ∀ {um : S} {tm tm' : Tree Str},
          Walk vm pd (some ⟨hist.length, hist.length⟩) (splice x body k) (ta, u) (tm, um) →
          Walk vm pd' (some ⟨hist'.length, hist'.length⟩) k (tb, u) (tm', um) →
          (∃ h1 h2, TRep tm (hist ++ h1) ∧ TRep tm' (hist' ++ h2)) ∧
          ∀ i ∈ instrOf pd A, ∀ v, (vm.execute tm ⟨hist.length, hist.length⟩ i v).map Prod.snd =
            (vm.execute tm' ⟨hist'.length, hist'.length⟩ i v).map Prod.snd := by
        intro um tm tm' h3 a2
        obtain ⟨b1, -⟩ := walk_runs htp h3 _ _ g2 (parOk_child _ _)
        obtain ⟨b2, -⟩ := walk_runs htp a2 _ _ k2 (parOk_child _ _)
        simp only [List.length_append, List.length_singleton] at b1 b2
        have hh : TRep tm (hist ++ histOf pd par hist.length (.node A (inlineAlt x body p) (splice x body k) .nil)) := by
          simpa [histOf] using b1
        have hh' : TRep tm' (hist' ++ histOf pd' par' hist'.length (.node A p k .nil)) := by
          simpa [histOf] using b2
        refine ⟨⟨_, _, hh, hh'⟩, fun i hi v => ?_⟩
        rcases hB with hB | hB
        · exact hb _ _ _ _ _ _ (hh.shows_node hp.2) (hh'.shows_node hp'.2) (by rw [childTexts_node, childTexts_node]; exact hB) i v
        · exact hB i hi _ _ _ _ v
      constructor
      · rintro ⟨t2, h⟩
        cases h with
        | @node _ _ _ _ _ _ _ _ _ q1 q2 _ a1 a2 a3 a4 =>
          rw [k1] at a1
          simp only [Prod.mk.injEq, Res.ok.injEq] at a1
          obtain ⟨rfl, rfl⟩ := a1
          obtain ⟨tm', um⟩ := q1
          obtain ⟨tm2, um2⟩ := q2
          obtain ⟨t3, h3⟩ := (ih1 hf3 g2 (parOk_child _ _) k2 (parOk_child _ _)).1 ⟨_, a2⟩
          obtain ⟨⟨h1, h2, b1, b2⟩, hx⟩ := key h3 a2
          have he := executes_tree htp a3
          simp only at he
          subst he
          rw [hI] at a3
          have h5 := executes_transfer htp (fun i hi v => (hx i hi v).symm) a3
          obtain ⟨t4, h4⟩ := (ih2 hf4 (u := um2) (u2 := u2) b1 (parOk_snoc hp _) b2 (parOk_snoc hp' _)).1 ⟨_, a4⟩
          exact ⟨t4, .node g1 h3 h5 h4⟩
      · rintro ⟨t2, h⟩
        cases h with
        | @node _ _ _ _ _ _ _ _ _ q1 q2 _ a1 h3 a3 h4 =>
          rw [g1] at a1
          simp only [Prod.mk.injEq, Res.ok.injEq] at a1
          obtain ⟨rfl, rfl⟩ := a1
          obtain ⟨tm', um⟩ := q1
          obtain ⟨tm2, um2⟩ := q2
          obtain ⟨t3, a2⟩ := (ih1 hf3 g2 (parOk_child _ _) k2 (parOk_child _ _)).2 ⟨_, h3⟩
          obtain ⟨⟨h1, h2, b1, b2⟩, hx⟩ := key h3 a2
          have he := executes_tree htp a3
          simp only at he
          subst he
          have h5 := executes_transfer htp hx a3
          obtain ⟨t4, a4⟩ := (ih2 hf4 (u := um2) (u2 := u2) b1 (parOk_snoc hp _) b2 (parOk_snoc hp' _)).2 ⟨_, h4⟩
          exact ⟨t4, .node k1 a2 (by rw [hI]; exact h5) a4⟩

/-! ### the forests of a parse -/

theorem Spec.Forest.height_join (f g : Forest) : (splice.join f g).height = max f.height g.height := by
  induction f with
  | nil => simp [splice.join, Forest.height]
  | leaf i f ih => simp only [splice.join, Forest.height, ih]
  | node A p k f _ ih => simp only [splice.join, Forest.height, ih]; omega

theorem splice_height (f : Forest) : (splice x body f).height ≤ f.height := by
  induction f with
  | nil => simp [splice]
  | leaf i f ih => simpa only [splice, Forest.height] using ih
  | node A p k f ih1 ih2 =>
    simp only [splice]
    split
    · rw [Forest.height_join]; simp only [Forest.height]; omega
    · simp only [Forest.height]; omega

namespace Fac
variable (h : Named pd pd' x body) (hw : WellFormed pd) (hw' : WellFormed pd')
include h hw hw'

/-- Reading elements without `x`: at the roots nothing is spliced. -/
theorem rootTexts_eq {els : List Nat} {w r : Str} {f : Forest} (ht : TopDown pd' st els w f r) (hx : x ∉ els)
    (he : ∀ i ∈ els, i < pd.elementTypes.length ∨ i = x) :
    rootTexts (roses pd (splice x body f)) = rootTexts (roses pd' f) := by
  induction ht with
  | nil => rfl
  | @leaf i es d w r f h1 h2 _ ih =>
    have hi := (he i (.head _)).resolve_right fun e => hx (e ▸ .head _)
    rw [kind_eq h hi] at h1
    obtain ⟨d0, k1, k2⟩ := text_eq h hw hw' h1 h2
    have hn : nameOf pd' i = nameOf pd i := by simp only [nameOf, h2, k1, k2]
    have := ih (fun hm => hx (.tail _ hm)) fun j hj => he j (.tail _ hj)
    simp only [rootTexts] at this
    simp only [splice, roses, rootTexts, List.map_cons, hn, this]
  | @node A es rule p w w1 r kids f h1 h2 h3 h4 _ _ ih1 ih2 =>
    have hA : A ≠ x := fun e => hx (e ▸ .head _)
    have := ih2 (fun hm => hx (.tail _ hm)) fun j hj => he j (.tail _ hj)
    simp only [rootTexts] at this
    simp only [splice, if_neg hA, roses, rootTexts, List.map_cons, this]

theorem facOn {vm : VM I S} (hm : MentionsBlind vm pd' x) {els : List Nat} {w r : Str} {f : Forest}
    (ht : TopDown pd' st els w f r) : (∀ i ∈ els, i < pd.elementTypes.length ∨ i = x) → FacOn vm pd pd' x body f := by
  induction ht with
  | nil => intro _; trivial
  | @leaf i es d w r f h1 h2 _ ih =>
    intro he
    rcases he i (.head _) with hi | rfl
    · rw [kind_eq h hi] at h1
      obtain ⟨d0, k1, k2⟩ := text_eq h hw hw' h1 h2
      exact ⟨by simp only [nameOf, h2, k1, k2], ih fun j hj => he j (.tail _ hj)⟩
    · rw [typeX h hw'] at h1; cases h1
  | @node A es rule p w w1 r kids f h1 h2 h3 h4 hk _ ih1 ih2 =>
    intro he
    refine ⟨fun _ => by simp only [instrOf, h.bodyRule], fun hA => ?_, ih1 (elems' h hw h2 h3), ih2 fun j hj => he j (.tail _ hj)⟩
    have hi' : instrOf pd' A = instrOf pd A := by simp only [instrOf, h2, down_rule h hA h2]
    refine ⟨hi', ?_⟩
    by_cases hx : x ∈ prodElems p
    · refine .inr ?_
      rw [← hi']
      simp only [instrOf, h2]
      exact hm A rule p h2 h3 hx
    · exact .inl (rootTexts_eq h hw hw' hk hx (elems' h hw h2 h3))

end Fac
end HPP
