import Verif.Model.RuleParserApi
import Verif.Proofs.Woven
/-
Histories of `parse_rules` calls on one rule parser.
-/
namespace HPP
open Spec
variable {I S : Type}

theorem Proc.at_rest (w : Str) (k : Nat) : (Proc.at w k).rest = w := rfl

theorem rpParseRules_at (ho : HashOrder) (cc : CharClass) (vm : VM I S) (w : Str) (k : Nat) (pd : ParserData I) :
    rpParseRules ho cc vm ⟨Proc.at w k, pd⟩ =
      (parseRulesLoop cc vm (w.length + 1) >>= fun _ => rpEditRules ho) ⟨Proc.at w k, pd⟩ := rfl

/-- Editing in an object, related to editing data. -/
theorem rpEditRules_ok {ho : HashOrder} {s : RP I} {pd' : ParserData I} (h : editRules ho s.pd = .ok pd') :
    rpEditRules ho s = (.ok (), { s with pd := pd' }) := by
  unfold editRules at h
  unfold rpEditRules
  cases ha : editActions s.pd (ho.iter 10 (Nat × NTRule I) s.pd.rules) [] with
  | ok m =>
    rw [ha, Res.bind_ok] at h
    cases hb : editApply m (ho.iter 11 (Nat × NTRule I) s.pd.rules) [] with
    | ok x => rw [hb, Res.bind_ok] at h; cases h; simp only [hb]
    | err e' => rw [hb] at h; cases h
    | panic => rw [hb] at h; cases h
    | timeout => rw [hb] at h; cases h
  | err e' => rw [ha] at h; cases h
  | panic => rw [ha] at h; cases h
  | timeout => rw [ha] at h; cases h

/-- The second pass cannot fail. -/
theorem rpEditRules_err {ho : HashOrder} {s : RP I} {e : PErr} (hw : WellFormed s.pd) (hi : IgnoresNT s.pd)
    (h : editRules ho s.pd = .err e) : rpEditRules ho s = (.err e, s) := by
  have hp10 := ho.perm 10 (Nat × NTRule I) s.pd.rules
  have hp11 := ho.perm 11 (Nat × NTRule I) s.pd.rules
  have hn : AMap.NodupKeys s.pd.rules := hw.rulesNodup
  have hn10 : ((ho.iter 10 (Nat × NTRule I) s.pd.rules).map (·.1)).Nodup := AMap.NodupKeys.perm hn hp10
  have hn11 : ((ho.iter 11 (Nat × NTRule I) s.pd.rules).map (·.1)).Nodup := AMap.NodupKeys.perm hn hp11
  have hget : ∀ x ∈ s.pd.rules, AMap.get s.pd.rules x.1 = some x.2 := fun x hx => AMap.get_of_mem hn hx
  unfold editRules at h
  unfold rpEditRules
  rcases editActions_spec s.pd (ho.iter 10 (Nat × NTRule I) s.pd.rules) [] hn10 (fun x hx => by
      rcases weaveFlag_spec hw hi (hget x (hp10.mem_iff.1 hx)) with ⟨b, hb, -⟩ | ⟨e, he, -⟩
      · rw [hb]; simp
      · rw [he]; simp) with ⟨m, h1, h2, -⟩ | ⟨e', h1, -⟩
  · exfalso
    have hall : ∀ x ∈ s.pd.rules, ∃ b, weaveFlag s.pd x.1 x.2 = .ok b ∧ AMap.get m x.1 = some b :=
      fun x hx => h2 x (hp10.mem_iff.2 hx)
    obtain ⟨m', a1, -⟩ := editApply_spec m (ho.iter 11 (Nat × NTRule I) s.pd.rules) [] hn11 AMap.NodupKeys.nil
      (fun x hx => (hall x (hp11.mem_iff.1 hx)).imp fun b hb => hb.2)
    rw [h1, Res.bind_ok, a1] at h
    cases h
  · rw [h1] at h ⊢
    cases h
    rfl

/-- One call on a fresh object is `parseRules`. -/
theorem rpParseRules_ok_iff {ho : HashOrder} {cc : CharClass} {vm : VM I S} {text : Str} {pd : ParserData I} :
    parseRules ho cc vm text = .ok pd ↔ ∃ p, rpParseRules ho cc vm (RP.new text) = (.ok (), ⟨p, pd⟩) := by
  have h0 : rpParseRules ho cc vm (RP.new text : RP I) =
      (parseRulesLoop cc vm (text.length + 1) >>= fun _ => rpEditRules ho) (RP.new text) := rfl
  rw [h0, SM.bind_apply]
  unfold parseRules
  rcases hl : parseRulesLoop cc vm (text.length + 1) (RP.new text) with ⟨r, s⟩
  cases r with
  | ok u =>
    simp only
    constructor
    · intro h; exact ⟨s.proc, rpEditRules_ok h⟩
    · rintro ⟨p, h⟩
      unfold rpEditRules at h
      unfold editRules
      cases ha : editActions s.pd (ho.iter 10 (Nat × NTRule I) s.pd.rules) [] with
      | ok m =>
        rw [ha] at h
        rw [Res.bind_ok]
        simp only at h
        cases hb : editApply m (ho.iter 11 (Nat × NTRule I) s.pd.rules) [] with
        | ok x => rw [hb] at h; cases h; rfl
        | err e' => rw [hb] at h; cases h
        | panic => rw [hb] at h; cases h
        | timeout => rw [hb] at h; cases h
      | err e' => rw [ha] at h; cases h
      | panic => rw [ha] at h; cases h
      | timeout => rw [ha] at h; cases h
  | err e => simp
  | panic => simp
  | timeout => simp

/-- The loop over rules on any text, with the state it leaves after a failure. -/
theorem rulesLoop_states {vm : VM I S} (hvm : OnlyReads vm) (cc : CharClass) : ∀ (fuel : Nat) (w : Str) (k : Nat)
    (pd : ParserData I) (rs : List (WrittenRule I)), w.length < fuel → MeansOk pd rs →
    (∃ rs' pd', parseRulesLoop cc vm fuel ⟨Proc.at w k, pd⟩ = (.ok (), ⟨Proc.at [] (k + w.length), pd'⟩) ∧
      RulesText cc (ReadsSectionIn vm) rs' w ∧ MeansOk pd' (rs ++ rs')) ∨
    (∃ e rs' good c bad u w' pd0 pd' ks, parseRulesLoop cc vm fuel ⟨Proc.at w k, pd⟩ = (.err e, ⟨Proc.at w' (k + good.length + u.length), pd'⟩) ∧
      w = good ++ c :: bad ∧ c :: bad = u ++ w' ∧ RulesText cc (ReadsSectionIn vm) rs' good ∧ CharClass.isWhitespace c = false ∧
      MeansOk pd0 (rs ++ rs') ∧ Interned pd0 (elementsOf (rs ++ rs')) ks pd' ∧
      (parseRule cc vm ⟨Proc.at (c :: bad) (k + good.length), pd0⟩).1 = .err e)
  | 0, w, _, _, _, h, _ => by omega
  | fuel + 1, w, k, pd, rs, hf, hm => by
    obtain ⟨g, v, rfl, hg, hv, -⟩ := space_split w
    cases v with
    | nil =>
      rw [List.append_nil]
      exact .inl ⟨[], pd, rulesLoop_end cc vm hg fuel k pd, .nil hg, by simpa using hm⟩
    | cons c v =>
      rw [rulesLoop_step cc vm hg (hv c v rfl)]
      obtain ⟨u, w', pd1, ks, h1, h2, h3, h4⟩ := reads_rule (w := c :: v) (k := k + g.length) hvm hm.ok hm.ignore cc
      rcases hr : parseRule cc vm ⟨Proc.at (c :: v) (k + g.length), pd⟩ with ⟨res, s⟩
      rw [hr] at h1 h4
      simp only at h1 h4
      subst h1
      rcases h4 with ⟨x, rfl, r, ht, rfl, hx1, hx2⟩ | ⟨e, rfl, hE⟩
      · rw [smBind_ok hr, hx1, hx2, ← elementsOf_snoc]
        have hlen : w'.length < fuel := by
          obtain ⟨d, u', rfl, -⟩ := ht.head
          have := congrArg List.length h2
          simp only [List.length_append, List.length_cons] at this hf
          omega
        have hmerge : rpMerge ((elementsOf (rs ++ [r])).idxOf ⟨r.name, .nonTerminal⟩) (written (elementsOf (rs ++ [r])) r)
            ⟨Proc.at w' (k + g.length + u.length), pd1⟩ = (.ok (), ⟨Proc.at w' (k + g.length + u.length),
              mergeRule pd1 ((elementsOf (rs ++ [r])).idxOf ⟨r.name, .nonTerminal⟩) (written (elementsOf (rs ++ [r])) r)⟩) := rfl
        rw [smBind_ok hmerge]
        rcases rulesLoop_states hvm cc fuel w' (k + g.length + u.length) _ (rs ++ [r]) hlen (hm.merge h3) with
          ⟨rs', pd', i1, i2, i3⟩ | ⟨e, rs', good, c', bad, u', w'', pd0, pd', ks, i1, i2, i3, i4, i5, i6, i7, i8⟩
        · refine .inl ⟨r :: rs', pd', ?_, ?_, by simpa using i3⟩
          · rw [i1, h2]; simp only [List.length_append, Nat.add_assoc]
          · rw [h2]; exact .cons hg ht i2
        · refine .inr ⟨e, r :: rs', g ++ (u ++ good), c', bad, u', w'', pd0, pd', ks, ?_, ?_, i3, .cons hg ht i4, i5, ?_, ?_, ?_⟩
          · rw [i1]; simp only [List.length_append, Nat.add_assoc]
          · rw [h2, i2]; simp
          · simpa using i6
          · simpa using i7
          · rw [← i8]; simp only [List.length_append, Nat.add_assoc]
      · refine .inr ⟨e, [], g, c, v, u, w', pd, pd1, ks, by rw [SM.bind_apply, hr], rfl, h2, .nil hg, hv c v rfl,
          by simpa using hm, by simpa using h3, by rw [hr]⟩

/-! ### The answer `false` of the derivative check -/

section
variable {rules : AMap Nat (NTRule I)}

/-- Everything visited has a rule. -/
def VisOk (rules : AMap Nat (NTRule I)) (vis vis' : List Nat) : Prop :=
  ∀ x ∈ vis', x ∈ vis ∨ ∃ r, AMap.get rules x = some r

theorem VisOk.refl (vis : List Nat) : VisOk rules vis vis := fun _ h => .inl h

theorem VisOk.trans {a b c : List Nat} (h1 : VisOk rules a b) (h2 : VisOk rules b c) : VisOk rules a c := by
  intro x hx
  rcases h2 x hx with h | h
  · exact h1 x h
  · exact .inr h

theorem derivElems_vis {rec : DerivRec} {right : Nat}
    (hr : ∀ e vis b vis', rec e vis = .ok (b, vis') → VisOk rules vis vis') :
    ∀ (els : List Nat) (d : Bool) (vis : List Nat) b vis', derivElems rec right els d vis = .ok (b, vis') → VisOk rules vis vis'
  | [], d, vis, b, vis', h => by
    simp only [derivElems] at h; cases h; exact .refl _
  | el :: els, d, vis, b, vis', h => by
    unfold derivElems at h
    split at h
    · cases h; exact .refl _
    · split at h
      · exact derivElems_vis hr els true vis b vis' h
      · cases hrec : rec el vis with
        | panic => rw [hrec] at h; cases h
        | timeout => rw [hrec] at h; cases h
        | err e => rw [hrec] at h; cases h
        | ok q =>
          obtain ⟨b1, vis1⟩ := q
          rw [hrec, Res.bind_ok] at h
          exact (hr el vis b1 vis1 hrec).trans (derivElems_vis hr els b1 vis1 b vis' h)

theorem derivProds_vis {rec : DerivRec} {right : Nat}
    (hr : ∀ e vis b vis', rec e vis = .ok (b, vis') → VisOk rules vis vis') :
    ∀ (ps : List Production) (d : Bool) (vis : List Nat) b vis', derivProds rec right ps d vis = .ok (b, vis') → VisOk rules vis vis'
  | [], d, vis, b, vis', h => by
    simp only [derivProds] at h; cases h; exact .refl _
  | .empty :: ps, d, vis, b, vis', h => by
    simp only [derivProds] at h; exact derivProds_vis hr ps d vis b vis' h
  | .notEmpty els :: ps, d, vis, b, vis', h => by
    simp only [derivProds] at h
    have h2 := derivElems_vis (right := right) hr els d vis
    generalize derivElems rec right els d vis = o at h h2
    cases o with
    | panic => cases h
    | timeout => cases h
    | err e => cases h
    | ok q =>
      obtain ⟨b1, vis1⟩ := q
      rw [Res.bind_ok] at h
      have hs := h2 b1 vis1 rfl
      cases b1 with
      | none => cases h; exact hs
      | some b1 => exact hs.trans (derivProds_vis hr ps b1 vis1 b vis' h)

theorem checkDerivativeRec_vis (types : List ElementType) (right : Nat) :
    ∀ (fuel left : Nat) (vis : List Nat) b vis',
      checkDerivativeRec types rules right fuel left vis = .ok (b, vis') → VisOk rules vis vis'
  | 0, _, _, _, _, h => by simp [checkDerivativeRec] at h
  | fuel + 1, left, vis, b, vis', h => by
    unfold checkDerivativeRec at h
    cases ht : types[left]? with
    | none => rw [ht] at h; cases h
    | some et =>
      rw [ht] at h
      simp only [Res.unwrapO, Res.bind_ok] at h
      split at h
      · cases h; exact .refl _
      · cases hg : AMap.get rules left with
        | none => rw [hg] at h; cases h
        | some r =>
          rw [hg] at h
          simp only [Res.ofOption, Res.bind_ok] at h
          split at h
          · cases h; exact .refl _
          · split at h
            · cases h; exact .refl _
            · next h3 =>
              have h0 : VisOk rules vis (setInsert vis left) := by
                intro x hx
                simp only [setInsert] at hx
                rw [if_neg h3] at hx
                rcases List.mem_append.1 hx with hx | hx
                · exact .inl hx
                · simp at hx; subst hx; exact .inr ⟨r, hg⟩
              exact h0.trans (derivProds_vis (fun e v b v' => checkDerivativeRec_vis types right fuel e v b v') _ _ _ _ _ h)

/-- The answer `false` is only given if everything used has a rule. -/
theorem checkIsDerivative_false {types : List ElementType} {left right : Nat}
    (hin : ∀ A r, AMap.get rules A = some r → ∀ p ∈ r.prods, ∀ e ∈ prodElems p, e < types.length)
    (hnt : ∀ A r, AMap.get rules A = some r → types[A]? = some .nonTerminal)
    (hl : types[left]? = some .nonTerminal) (h : checkIsDerivative types rules left right = .ok false) :
    ∀ B, UsesStar rules left B → types[B]? = some .nonTerminal → ∃ r, AMap.get rules B = some r := by
  have hlen : left < types.length := (List.getElem?_eq_some_iff.1 hl).1
  have hok := checkDerivativeRec_ok (types := types) (rules := rules) right hin (rules.length + 2) left [] hlen
  have hv := checkDerivativeRec_vis (rules := rules) types right (rules.length + 2) left []
  unfold checkIsDerivative at h
  generalize checkDerivativeRec types rules right (rules.length + 2) left [] = o at hok hv h
  cases o with
  | panic => cases h
  | timeout => cases h
  | err e => cases h
  | ok q =>
    obtain ⟨b, vis⟩ := q
    rw [Res.bind_ok] at h
    cases h
    obtain ⟨-, h2, h3⟩ := hok.no vis rfl
    have hleft : left ≠ right ∧ left ∈ vis := by
      rcases h2 with h | h
      · rw [hl] at h; cases h
      · exact h
    have key : ∀ x, UsesStar rules left x → x ≠ right ∧ (types[x]? = some .terminal ∨ x ∈ vis) := by
      intro x hx
      induction hx with
      | refl => exact ⟨hleft.1, .inr hleft.2⟩
      | tail _ hu ih =>
        rcases ih.2 with ht | hv
        · obtain ⟨r, hr, -⟩ := hu
          rw [hnt _ r hr] at ht; cases ht
        · rcases h3 _ hv with h | ⟨-, h⟩
          · cases h
          · exact h _ hu
    intro B hB hBn
    rcases (key B hB).2 with ht | hm
    · rw [hBn] at ht; cases ht
    · rcases hv false vis rfl B hm with h | h
      · cases h
      · exact h

end

/-! ### Editing edited rules -/

theorem mem_of_between {α : Type} {i x : α} : ∀ {l : List α}, x ∈ between i l → x ∈ l ∨ x = i
  | [], h => by simp [between] at h
  | [y], h => by simp only [between] at h; exact .inl h
  | y :: z :: l, h => by
    simp only [between, List.mem_cons] at h
    rcases h with rfl | rfl | h
    · exact .inl (by simp)
    · exact .inr rfl
    · rcases mem_of_between (l := z :: l) h with h | h
      · exact .inl (by simp [List.mem_cons.1 h])
      · exact .inr h

theorem mem_betweenAlt {i x : Nat} {p : Production} (h : x ∈ prodElems (betweenAlt i p)) : x ∈ prodElems p ∨ x = i := by
  cases p with
  | empty => exact .inl h
  | notEmpty els => exact mem_of_between h

section
variable {pd pd' : ParserData I}

theorem edited_uses (hg : ∀ A, AMap.get pd'.rules A = (AMap.get pd.rules A).map (edited pd.rules A)) {A e : Nat}
    (h : Uses pd'.rules A e) : Uses pd.rules A e ∨
      ∃ r, AMap.get pd.rules A = some r ∧ r.ignore = some e ∧ ¬ UsesStar pd.rules e A := by
  obtain ⟨q, hq, p, hp, he⟩ := h
  rw [hg] at hq
  obtain ⟨r, hr, rfl⟩ := Option.map_eq_some_iff.1 hq
  unfold edited at hp
  split at hp
  · exact .inl ⟨r, hr, p, hp, he⟩
  · next i hi =>
    split at hp
    · exact .inl ⟨r, hr, p, hp, he⟩
    · next hnu =>
      obtain ⟨p0, hp0, rfl⟩ := List.mem_map.1 hp
      rcases mem_betweenAlt he with he | rfl
      · exact .inl ⟨r, hr, p0, hp0, he⟩
      · exact .inr ⟨r, hr, hi, hnu⟩

theorem edited_ignore {rules : AMap Nat (NTRule I)} {A i : Nat} {r : NTRule I} (h : (edited rules A r).ignore = some i) :
    r.ignore = some i ∧ ¬ UsesStar rules i A := by
  unfold edited at h
  split at h
  · next hn => rw [hn] at h; cases h
  · next j hj =>
    split at h
    · cases h
    · next hu => simp only [hj, Option.some.injEq] at h; subst h; exact ⟨hj, hu⟩

theorem edited_instr (rules : AMap Nat (NTRule I)) (A : Nat) (r : NTRule I) : (edited rules A r).instr = r.instr := by
  unfold edited
  split
  · rfl
  · split <;> rfl

/-- Overrides that survive editing use defined names only. -/
def GoodOverrides (pd : ParserData I) : Prop :=
  ∀ A r i, AMap.get pd.rules A = some r → r.ignore = some i → ¬ UsesStar pd.rules i A →
    ∀ B, UsesStar pd.rules i B → pd.elementTypes[B]? = some .nonTerminal → ∃ r', AMap.get pd.rules B = some r'

/-- What a surviving override uses in the edited rules is used by a surviving override of the rules. -/
theorem edited_star (hg : ∀ A, AMap.get pd'.rules A = (AMap.get pd.rules A).map (edited pd.rules A)) {A i B : Nat}
    {r : NTRule I} (hr : AMap.get pd.rules A = some r) (hi : r.ignore = some i) (hn : ¬ UsesStar pd.rules i A)
    (h : UsesStar pd'.rules i B) :
    ∃ A' r' i', AMap.get pd.rules A' = some r' ∧ r'.ignore = some i' ∧ ¬ UsesStar pd.rules i' A' ∧ UsesStar pd.rules i' B := by
  induction h with
  | refl => exact ⟨A, r, i, hr, hi, hn, .refl⟩
  | tail _ hl ih =>
    obtain ⟨A', r', i', h1, h2, h3, h4⟩ := ih
    rcases edited_uses hg hl with hu | ⟨r2, hr2, hi2, hn2⟩
    · exact ⟨A', r', i', h1, h2, h3, h4.tail hu⟩
    · exact ⟨_, r2, _, hr2, hi2, hn2, .refl⟩

theorem edited_notBad (ht : pd'.elementTypes = pd.elementTypes)
    (hg : ∀ A, AMap.get pd'.rules A = (AMap.get pd.rules A).map (edited pd.rules A)) (hb : GoodOverrides pd) : ¬ BadIgnore pd' := by
  rintro ⟨A, q, i, B, hq, hi, hu, hB, hn⟩
  rw [hg] at hq
  obtain ⟨r, hr, rfl⟩ := Option.map_eq_some_iff.1 hq
  obtain ⟨A', r', i', h1, h2, h3, h4⟩ := edited_star hg hr (edited_ignore hi).1 (edited_ignore hi).2 hu
  obtain ⟨r2, hr2⟩ := hb A' r' i' h1 h2 h3 B h4 (by rw [← ht]; exact hB)
  rw [hg, hr2] at hn
  cases hn

theorem edited_ignoresNT (ht : pd'.elementTypes = pd.elementTypes)
    (hg : ∀ A, AMap.get pd'.rules A = (AMap.get pd.rules A).map (edited pd.rules A)) (hi : IgnoresNT pd) : IgnoresNT pd' := by
  intro A q i hq hqi
  rw [hg] at hq
  obtain ⟨r, hr, rfl⟩ := Option.map_eq_some_iff.1 hq
  rw [ht]
  exact hi A r i hr (edited_ignore hqi).1

/-- Successful editing has checked the surviving overrides. -/
theorem goodOverrides_of_edit (hw : WellFormed pd) (hi : IgnoresNT pd) {ho : HashOrder} (h : editRules ho pd = .ok pd') :
    GoodOverrides pd := by
  have hp10 := ho.perm 10 (Nat × NTRule I) pd.rules
  have hn : AMap.NodupKeys pd.rules := hw.rulesNodup
  have hn10 : ((ho.iter 10 (Nat × NTRule I) pd.rules).map (·.1)).Nodup := AMap.NodupKeys.perm hn hp10
  have hget : ∀ x ∈ pd.rules, AMap.get pd.rules x.1 = some x.2 := fun x hx => AMap.get_of_mem hn hx
  unfold editRules at h
  rcases editActions_spec pd (ho.iter 10 (Nat × NTRule I) pd.rules) [] hn10 (fun x hx => by
      rcases weaveFlag_spec hw hi (hget x (hp10.mem_iff.1 hx)) with ⟨b, hb, -⟩ | ⟨e, he, -⟩
      · rw [hb]; simp
      · rw [he]; simp) with ⟨m, h1, h2, -⟩ | ⟨e', h1, -⟩
  · intro A r i hr hri hnu
    obtain ⟨b, hb, -⟩ := h2 (A, r) (hp10.mem_iff.2 (AMap.mem_of_get hr))
    rcases checkIsDerivative_spec (right := A) hw.inRange hw.keysNT (hi A r i hr hri) with ⟨b', hb', hiff⟩ | ⟨e, he, -⟩
    · have : b' = false := by
        cases b' with
        | false => rfl
        | true => exact absurd (hiff.1 rfl) hnu
      subst this
      exact checkIsDerivative_false hw.inRange hw.keysNT (hi A r i hr hri) hb'
    · simp only [weaveFlag, hri, he] at hb
      cases hb
  · rw [h1] at h; cases h

theorem between_eq_nil {α : Type} {i : α} : ∀ {l : List α}, between i l = [] → l = []
  | [], _ => rfl
  | [y], h => by simp [between] at h
  | y :: z :: l, h => by simp [between] at h

theorem edited_wellFormed (hw : WellFormed pd) (hi : IgnoresNT pd) (ht : pd'.elementTypes = pd.elementTypes)
    (hd : pd'.elementData = pd.elementData) (hn : AMap.NodupKeys pd'.rules)
    (hg : ∀ A, AMap.get pd'.rules A = (AMap.get pd.rules A).map (edited pd.rules A)) : WellFormed pd' := by
  have key : ∀ A q, AMap.get pd'.rules A = some q → ∃ r, AMap.get pd.rules A = some r ∧ q = edited pd.rules A r := by
    intro A q hq
    rw [hg] at hq
    obtain ⟨r, hr, rfl⟩ := Option.map_eq_some_iff.1 hq
    exact ⟨r, hr, rfl⟩
  refine ⟨hn, by rw [ht, hd]; exact hw.lengths, ?_, ?_, ?_⟩
  · intro A q hq
    obtain ⟨r, hr, -⟩ := key A q hq
    rw [ht]; exact hw.keysNT A r hr
  · intro A q hq p hp e he
    rw [ht]
    rcases edited_uses hg ⟨q, hq, p, hp, he⟩ with ⟨r, hr, p', hp', he'⟩ | ⟨r, hr, hie⟩
    · exact hw.inRange A r hr p' hp' e he'
    · exact (List.getElem?_eq_some_iff.1 (hi A r e hr hie.1)).1
  · intro A q hq p hp hpe
    obtain ⟨r, hr, rfl⟩ := key A q hq
    subst hpe
    unfold edited at hp
    split at hp
    · exact hw.nonEmpty A r hr _ hp rfl
    · next i hi =>
      split at hp
      · exact hw.nonEmpty A r hr _ hp rfl
      · obtain ⟨p0, hp0, h0⟩ := List.mem_map.1 hp
        cases p0 with
        | empty => cases h0
        | notEmpty els =>
          simp only [betweenAlt, Production.notEmpty.injEq] at h0
          rw [between_eq_nil h0] at hp0
          exact hw.nonEmpty A r hr _ hp0 rfl

end

end HPP
