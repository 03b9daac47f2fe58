import Verif.Proofs.Edit
/-
The only error of `edit_rules` is the internal one.
-/
namespace HPP
open Spec
variable {I : Type}

theorem derivElems_err {rec : DerivRec} {right : Nat} (hrec : ∀ l v e, rec l v = .err e → ∃ i, e = .internal i) :
    ∀ (els : List Nat) (b : Bool) (vis : List Nat) (e : PErr), derivElems rec right els b vis = .err e → ∃ i, e = .internal i
  | [], _, _, _, h => by simp [derivElems] at h
  | el :: els, b, vis, e, h => by
    rw [derivElems] at h
    split at h
    · cases h
    · split at h
      · exact derivElems_err hrec els true vis e h
      · cases hr : rec el vis with
        | ok x =>
          rw [hr] at h
          exact derivElems_err hrec els _ _ e h
        | err e' => rw [hr] at h; cases h; exact hrec _ _ _ hr
        | panic => rw [hr] at h; cases h
        | timeout => rw [hr] at h; cases h

theorem derivProds_err {rec : DerivRec} {right : Nat} (hrec : ∀ l v e, rec l v = .err e → ∃ i, e = .internal i) :
    ∀ (ps : List Production) (b : Bool) (vis : List Nat) (e : PErr), derivProds rec right ps b vis = .err e → ∃ i, e = .internal i
  | [], _, _, _, h => by simp [derivProds] at h
  | .empty :: ps, b, vis, e, h => by
    rw [derivProds] at h
    exact derivProds_err hrec ps b vis e h
  | .notEmpty els :: ps, b, vis, e, h => by
    rw [derivProds] at h
    cases hr : derivElems rec right els b vis with
    | ok x =>
      obtain ⟨o, v⟩ := x
      rw [hr] at h
      cases o with
      | none => cases h
      | some d => exact derivProds_err hrec ps d v e h
    | err e' => rw [hr] at h; cases h; exact derivElems_err hrec _ _ _ _ hr
    | panic => rw [hr] at h; cases h
    | timeout => rw [hr] at h; cases h

theorem checkDerivativeRec_err (types : List ElementType) (rules : AMap Nat (NTRule I)) (right : Nat) :
    ∀ (fuel l : Nat) (v : List Nat) (e : PErr), checkDerivativeRec types rules right fuel l v = .err e → ∃ i, e = .internal i
  | 0, _, _, _, h => by simp [checkDerivativeRec] at h
  | fuel + 1, l, v, e, h => by
    rw [checkDerivativeRec] at h
    cases ht : types[l]? with
    | none => rw [ht] at h; cases h
    | some t =>
      rw [ht] at h
      simp only [Res.unwrapO, Res.bind_ok] at h
      split at h
      · cases h
      · cases hr : AMap.get rules l with
        | none => rw [hr] at h; cases h; exact ⟨l, rfl⟩
        | some r =>
          rw [hr] at h
          simp only [Res.ofOption, Res.bind_ok] at h
          split at h
          · cases h
          · split at h
            · cases h
            · exact derivProds_err (checkDerivativeRec_err types rules right fuel) _ _ _ _ h

theorem weaveFlag_err {pd : ParserData I} {ix : Nat} {r : NTRule I} {e : PErr} (h : weaveFlag pd ix r = .err e) :
    ∃ i, e = .internal i := by
  unfold weaveFlag at h
  split at h
  · next ign _ =>
    unfold checkIsDerivative at h
    cases hc : checkDerivativeRec pd.elementTypes pd.rules ix (pd.rules.length + 2) ign [] with
    | ok x => rw [hc] at h; cases h
    | err e' => rw [hc] at h; cases h; exact checkDerivativeRec_err _ _ _ _ _ _ _ hc
    | panic => rw [hc] at h; cases h
    | timeout => rw [hc] at h; cases h
  · cases h

theorem editActions_err {pd : ParserData I} : ∀ (l : List (Nat × NTRule I)) (acc : AMap Nat Bool) (e : PErr),
    editActions pd l acc = .err e → ∃ i, e = .internal i
  | [], _, _, h => by simp [editActions] at h
  | (ix, rule) :: rest, acc, e, h => by
    rw [editActions_cons] at h
    cases hw : weaveFlag pd ix rule with
    | ok b => rw [hw] at h; exact editActions_err rest _ e h
    | err e' => rw [hw] at h; cases h; exact weaveFlag_err hw
    | panic => rw [hw] at h; cases h
    | timeout => rw [hw] at h; cases h

theorem editApply_err (actions : AMap Nat Bool) : ∀ (l : List (Nat × NTRule I)) (acc : AMap Nat (NTRule I)) (e : PErr),
    editApply actions l acc = .err e → ∃ i, e = .internal i
  | [], _, _, h => by simp [editApply] at h
  | (ix, rule) :: rest, acc, e, h => by
    rw [editApply] at h
    cases hw : AMap.get actions ix with
    | some b => rw [hw] at h; exact editApply_err actions rest _ e h
    | none => rw [hw] at h; cases h; exact ⟨ix, rfl⟩

theorem editRules_err {ho : HashOrder} {pd : ParserData I} {e : PErr} (h : editRules ho pd = .err e) : ∃ i, e = .internal i := by
  unfold editRules at h
  cases ha : editActions pd (ho.iter 10 (Nat × NTRule I) pd.rules) [] with
  | ok m =>
    rw [ha, Res.bind_ok] at h
    cases hb : editApply m (ho.iter 11 (Nat × NTRule I) pd.rules) [] with
    | ok x => rw [hb] at h; cases h
    | err e' => rw [hb] at h; cases h; exact editApply_err _ _ _ _ hb
    | panic => rw [hb] at h; cases h
    | timeout => rw [hb] at h; cases h
  | err e' => rw [ha] at h; cases h; exact editActions_err _ _ _ ha
  | panic => rw [ha] at h; cases h
  | timeout => rw [ha] at h; cases h

end HPP
