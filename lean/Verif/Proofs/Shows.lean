import Verif.Spec.Parse
import Verif.Proofs.Tree
/-
The insertion history of a parse, and what the resulting tree shows.
-/
namespace HPP
open Spec
variable {I S : Type}

/-- The insertions made for a forest under `par`, the first having number `n`. -/
def histOf (pd : ParserData I) (par : Option Nat) : Nat → Forest → Hist Str
  | _, .nil => []
  | n, .leaf e r => (par, nameOf pd e) :: histOf pd par (n + 1) r
  | n, .node _ _ k r =>
    (par, []) :: (histOf pd (some n) (n + 1) k ++ histOf pd par (n + 1 + k.size) r)

/-- Numbers of the roots of a forest. -/
def rootIds : Nat → Forest → List Nat
  | _, .nil => []
  | n, .leaf _ r => n :: rootIds (n + 1) r
  | n, .node _ _ k r => n :: rootIds (n + 1 + k.size) r

variable {pd : ParserData I}

@[simp] theorem histOf_length (par : Option Nat) (n : Nat) (f : Forest) :
    (histOf pd par n f).length = f.size := by
  induction f generalizing par n with
  | nil => rfl
  | leaf e r ih => simp [histOf, Forest.size, ih]; omega
  | node A p k r ih1 ih2 => simp [histOf, Forest.size, ih1, ih2]; omega

theorem kidsFrom_histOf_out {par : Option Nat} {n i : Nat} {f : Forest} (hp : par ≠ some i)
    (hi : i < n ∨ n + f.size ≤ i) : kidsFrom n (histOf pd par n f) i = [] := by
  induction f generalizing par n with
  | nil => rfl
  | leaf e r ih =>
    simp only [Forest.size] at hi
    simp only [histOf, kidsFrom, hp, if_false]
    exact ih hp (by omega)
  | node A p k r ih1 ih2 =>
    simp only [Forest.size] at hi
    simp only [histOf, kidsFrom, hp, if_false, kidsFrom_append, histOf_length]
    rw [ih1 (by simp; omega) (by omega), ih2 hp (by omega)]
    rfl

theorem kidsFrom_histOf_roots {n i : Nat} {f : Forest} (hi : i < n) :
    kidsFrom n (histOf pd (some i) n f) i = rootIds n f := by
  induction f generalizing n with
  | nil => rfl
  | leaf e r ih => simp [histOf, kidsFrom, rootIds, ih (n := n + 1) (by omega)]
  | node A p k r ih1 ih2 =>
    simp only [histOf, kidsFrom, rootIds, if_true, kidsFrom_append, histOf_length]
    rw [kidsFrom_histOf_out (by simp; omega) (by omega), ih2 (by omega)]
    rfl

/-- A tree whose history contains the insertions of a forest, with nothing added later under its nodes, shows
the forest. -/
theorem TRep.showsAll {t : Tree Str} {h : Hist Str} (hr : TRep t h) (f : Forest) :
    ∀ (par : Option Nat) (h1 h2 : Hist Str), h = h1 ++ histOf pd par h1.length f ++ h2 →
      (∀ i, h1.length ≤ i → i < h1.length + f.size → kidsFrom (h1.length + f.size) h2 i = []) →
      (∀ q, par = some q → q < h1.length) →
      ShowsAll t ((rootIds h1.length f).map fun j => ⟨j, j⟩) (roses pd f) := by
  have hord : HOrdered h := hr.ordered
  -- nothing before a node is attached to it
  have hpre : ∀ (h1 h2 : Hist Str) (i : Nat), h = h1 ++ h2 → h1.length ≤ i → kids h1 i = [] := by
    intro h1 h2 i hh hi
    rw [List.eq_nil_iff_forall_not_mem]
    intro j hj
    obtain ⟨d, hd⟩ := mem_kids.mp hj
    have hlt := (List.getElem?_eq_some_iff.mp hd).1
    have := hord j i d (by rw [hh, List.getElem?_append_left hlt]; exact hd)
    omega
  induction f with
  | nil => intro _ _ _ _ _ _; exact .nil
  | leaf e r ih =>
    intro par h1 h2 hh hk hp
    simp only [rootIds, List.map_cons, roses]
    have hget : h[h1.length]? = some (par, nameOf pd e) := by
      rw [hh]; simp [histOf]
    have hlt : h1.length < h.length := (List.getElem?_eq_some_iff.mp hget).1
    have hne : par ≠ some h1.length := fun hc => Nat.lt_irrefl _ (hp _ hc)
    have hkids : kids h h1.length = [] := by
      have h0 := hpre h1 (histOf pd par h1.length (.leaf e r) ++ h2) h1.length (by rw [hh]; simp) (Nat.le_refl _)
      have h3 := hk h1.length (Nat.le_refl _) (by simp [Forest.size]; omega)
      rw [hh, kids_append, kids_append, h0]
      simp only [List.length_append, histOf_length, h3, List.nil_append, List.append_nil]
      simp only [histOf, kidsFrom, hne, if_false]
      exact kidsFrom_histOf_out hne (by omega)
    refine .cons ?_ ?_
    · obtain ⟨nd, g1, g2, g3, -⟩ := hr.getNode hget
      refine .mk (cs := []) g1 g3 ⟨0, fun fuel _ => ?_⟩ .nil
      have := hr.getChildren (ε := TErr) hlt (fuel := fuel) (by simp [hkids])
      rw [this, hkids]; rfl
    · have := ih par (h1 ++ [(par, nameOf pd e)]) h2 (by rw [hh]; simp [histOf]) (by
        intro i hi1 hi2
        simp only [List.length_append, List.length_singleton] at hi1 hi2 ⊢
        have := hk i (by omega) (by simp [Forest.size]; omega)
        simp only [Forest.size] at this
        rwa [show h1.length + 1 + r.size = h1.length + (1 + r.size) by omega]) (by
        intro q hq; have := hp q hq; simp; omega)
      simpa using this
  | node A p k r ih1 ih2 =>
    intro par h1 h2 hh hk hp
    simp only [rootIds, List.map_cons, roses]
    have hget : h[h1.length]? = some (par, []) := by
      rw [hh]; simp [histOf]
    have hlt : h1.length < h.length := (List.getElem?_eq_some_iff.mp hget).1
    have hne : par ≠ some h1.length := fun hc => Nat.lt_irrefl _ (hp _ hc)
    have hkids : kids h h1.length = rootIds (h1.length + 1) k := by
      have h0 := hpre h1 (histOf pd par h1.length (.node A p k r) ++ h2) h1.length (by rw [hh]; simp) (Nat.le_refl _)
      have h3 := hk h1.length (Nat.le_refl _) (by simp [Forest.size]; omega)
      rw [hh, kids_append, kids_append, h0]
      simp only [List.length_append, histOf_length, h3, List.nil_append, List.append_nil]
      simp only [histOf, kidsFrom, hne, if_false, kidsFrom_append, histOf_length]
      rw [kidsFrom_histOf_roots (by omega), kidsFrom_histOf_out hne (by omega)]
      simp
    have hs1 := ih1 (some h1.length) (h1 ++ [(par, [])])
      (histOf pd par (h1.length + 1 + k.size) r ++ h2) (by rw [hh]; simp [histOf]) (by
        intro i hi1 hi2
        simp only [List.length_append, List.length_singleton] at hi1 hi2 ⊢
        rw [kidsFrom_append]
        have hpi : par ≠ some i := fun hc => by have := hp _ hc; omega
        rw [kidsFrom_histOf_out hpi (by omega)]
        have := hk i (by omega) (by simp [Forest.size]; omega)
        simp only [Forest.size] at this
        simp only [histOf_length, List.nil_append]
        rwa [show h1.length + 1 + k.size + r.size = h1.length + (1 + k.size + r.size) by omega]) (by
        intro q hq; simp at hq; simp; omega)
    have hs2 := ih2 par (h1 ++ (par, []) :: histOf pd (some h1.length) (h1.length + 1) k) h2
      (by rw [hh]; simp [histOf, Nat.add_assoc, Nat.add_comm]) (by
        intro i hi1 hi2
        simp only [List.length_append, List.length_cons, histOf_length] at hi1 hi2 ⊢
        have := hk i (by omega) (by simp [Forest.size]; omega)
        simp only [Forest.size] at this
        rwa [show h1.length + (k.size + 1) + r.size = h1.length + (1 + k.size + r.size) by omega]) (by
        intro q hq; have := hp q hq; simp; omega)
    refine .cons ?_ ?_
    · obtain ⟨nd, g1, g2, g3, -⟩ := hr.getNode hget
      refine .mk (cs := (rootIds (h1.length + 1) k).map fun j => ⟨j, j⟩) g1 g3
        ⟨(kids h h1.length).length, fun fuel hf => ?_⟩ ?_
      · rw [hr.getChildren (ε := TErr) hlt hf, hkids]
      · simpa using hs1
    · simp only [List.length_append, List.length_cons, histOf_length] at hs2
      rwa [show h1.length + (k.size + 1) = h1.length + 1 + k.size by omega] at hs2

/-- A node just finished shows its subtree. -/
theorem TRep.shows_node {t : Tree Str} {h1 : Hist Str} {par : Option Nat} {A : Nat} {p : Production}
    {k : Forest} (hr : TRep t (h1 ++ histOf pd par h1.length (.node A p k .nil)))
    (hp : ∀ q, par = some q → q < h1.length) :
    Shows t ⟨h1.length, h1.length⟩ (.node [] (roses pd k)) := by
  have := hr.showsAll (pd := pd) (.node A p k .nil) par h1 [] (by simp) (by intro i _ _; rfl) hp
  simp only [rootIds, List.map_cons, roses, List.map_nil] at this
  cases this with
  | cons h _ => exact h

end HPP
