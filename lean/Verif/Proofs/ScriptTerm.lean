import Verif.Proofs.Script
import Verif.Proofs.FirstTerm
/-
`parse` terminates.
-/
namespace HPP
open Spec
variable {I S : Type}

theorem addNode_ne_timeout {T : Type} (t : Tree T) (d : T) (parent : Option NodeId) :
    (t.addNode d parent).1 ≠ .timeout := by
  simp only [Tree.addNode]
  split
  · split <;> simp
  · split
    · simp
    · split
      · simp
      · simp
      · next h =>
        exfalso
        simp only [Tree.getNodeMut] at h
        split at h
        · cases h
        · split at h
          · cases h
          · split at h <;> cases h
      · split
        · simp
        · split
          · simp
          · split <;> simp

theorem parseTerminalLoop_ne_timeout (name : Str) (pre rest : Str) :
    (parseTerminalLoop name (procAt pre rest)).1 ≠ .timeout := by
  rcases parseTerminalLoop_spec name pre rest with ⟨r, rfl, h⟩ | ⟨s, c', n2, x, r, hn, rfl, hne, h⟩ | ⟨c', n2, hn, h⟩ <;>
  · rw [h]; simp

theorem termStep_ne_timeout {name : Str} {id : NodeId} {c : Ctx S} {pre rest : Str}
    (hc : c.proc = procAt pre rest) : (termStep name id c).1 ≠ .timeout := by
  have h1 := parseTerminalLoop_ne_timeout name pre rest
  simp only [termStep, SM.bind_apply, onProc, parseScriptTerminal, hc, SM.pure_apply]
  generalize parseTerminalLoop name (procAt pre rest) = x at h1
  obtain ⟨r, p⟩ := x
  cases r with
  | ok a =>
    simp only [addTreeNodeIgnore]
    have h2 := addNode_ne_timeout c.tree name (some id)
    generalize c.tree.addNode name (some id) = x at h2
    obtain ⟨ra, t⟩ := x
    cases ra <;> simp at h2 ⊢
  | err e => simp
  | panic => simp
  | timeout => simp at h1

/-- With call depth `fuel`, `parse_production` for `e` returns whenever at most `n` characters are left. -/
def TermAt (S : Type) (P : Parser I) (fuel n e : Nat) : Prop :=
  ∀ (ho : HashOrder) (vm : VM I S) (c : Ctx S) (parent : Option NodeId) (pre rest : Str),
    c.proc = procAt pre rest → rest.length ≤ n → (parseProduction ho vm P fuel e parent c).1 ≠ .timeout

theorem TermAt.mono {P : Parser I} {fuel n m e : Nat} (h : TermAt S P fuel n e) (hm : m ≤ n) :
    TermAt S P fuel m e :=
  fun ho vm c parent pre rest hc hl => h ho vm c parent pre rest hc (by omega)

variable {pd : ParserData I} {start : Nat} {P : Parser I}

theorem parseElements_ne_timeout (hw : WellFormed pd) (ha : Acceptable pd start) (hP : ParserFor pd start P)
    {fuel n : Nat} (ho : HashOrder) (vm : VM I S) (id : NodeId) (b : List Nat) :
    ∀ (a : List Nat) (pre rest : Str) (c : Ctx S), c.proc = procAt pre rest → rest.length ≤ n →
      (rest.length < n ∨ Nullable (grammarOf pd) (formOf pd a)) →
      (∀ e ∈ b, e < pd.elementTypes.length) →
      (∀ e ∈ b, pd.elementTypes[e]? = some .nonTerminal → ∀ m, m < n → TermAt S P fuel m e) →
      (∀ a' e b', a ++ b = a' ++ e :: b' → Nullable (grammarOf pd) (formOf pd a') →
        pd.elementTypes[e]? = some .nonTerminal → TermAt S P fuel n e) →
      (parseElements P (parseProduction ho vm P fuel) id b c).1 ≠ .timeout := by
  induction b with
  | nil => intro a pre rest c _ _ _ _ _ _; simp [parseElements]
  | cons e es ih =>
    intro a pre rest c hc hl hcons hrange h1 h2
    have hlt := hrange e (by simp)
    have hT := List.getElem?_eq_getElem hlt
    have hD := List.getElem?_eq_getElem (hw.lengths ▸ hlt)
    have key : ∀ (step : SM (Ctx S) PErr Unit),
        Good ho vm pd start P [e] (some id) pre rest c (step c) → (step c).1 ≠ .timeout →
        ((step >>= fun _ => parseElements P (parseProduction ho vm P fuel) id es) c).1 ≠ .timeout := by
      intro step hg hne
      rw [SM.bind_apply]
      rcases hs : step c with ⟨r, c1⟩
      rw [hs] at hg hne
      cases r with
      | timeout => simp at hne
      | err x => simp
      | panic => simp
      | ok u =>
        obtain ⟨s, rest', rfl, hproc, f, hf, -⟩ := hg
        simp only
        simp only [List.length_append] at hl
        refine ih (a ++ [e]) _ rest' c1 hproc (by omega) ?_ (fun x hx => hrange x (by simp [hx]))
          (fun x hx => h1 x (by simp [hx])) ?_
        · cases s with
          | cons x s => left; simp at hl; omega
          | nil =>
            rcases hcons with h | h
            · left; simpa using h
            · right
              rw [formOf_append, nullable_append]
              exact ⟨h, hf.derives⟩
        · intro a' e' b' hab
          exact h2 a' e' b' (by simpa using hab)
    cases htt : pd.elementTypes[e] with
    | terminal =>
      rw [htt] at hT
      rw [parseElements_cons_terminal (elements_get hP.elements hT hD)]
      exact key _ (Good.terminal hT hD hc id) (termStep_ne_timeout hc)
    | nonTerminal =>
      rw [htt] at hT
      rw [parseElements_cons_nonTerminal (elements_get hP.elements hT hD)]
      refine key _ (Good.production hw ha hP fuel e (some id) pre rest c hT hc) ?_
      rcases hcons with h | h
      · exact h1 e (by simp) hT rest.length h ho vm c _ pre rest hc (Nat.le_refl _)
      · exact h2 a e es rfl h hT ho vm c _ pre rest hc hl

theorem parseProduction_terminates (hw : WellFormed pd) (ha : Acceptable pd start) (hP : ParserFor pd start P)
    (n : Nat) : ∀ e, pd.elementTypes[e]? = some .nonTerminal → ∃ N, ∀ fuel, N ≤ fuel → TermAt S P fuel n e := by
  induction n using Nat.strongRecOn with
  | _ n ihn =>
    intro e hT
    cases hr : AMap.get pd.rules e with
    | none =>
      refine ⟨1, fun fuel hf ho vm c parent pre rest hc hl => ?_⟩
      obtain ⟨k, rfl⟩ := Nat.exists_eq_add_of_le hf
      rw [Nat.add_comm, parseProduction_succ k e hc]
      have := hP.rules e
      rw [hr] at this
      rw [this]; simp
    | some r0 =>
      have hfg := firstGood_of_not_leftRecursive hw ha.defined ha.noLeftRec e (AMap.mem_keys_iff.mpr ⟨r0, hr⟩)
      clear hr r0
      induction hfg with
      | term h => rw [hT] at h; cases h
      | @nt A r _ hr _ hsub ih =>
        let L := r.prods.flatMap prodElems
        -- elements reached after some text was read
        obtain ⟨N1, hN1⟩ := exists_uniform (P := fun e N => pd.elementTypes[e]? = some .nonTerminal →
            ∀ fuel, N ≤ fuel → ∀ m, m < n → TermAt S P fuel m e)
          (fun e a b hab h hTe fuel hf => h hTe fuel (by omega)) L (by
            intro e _
            by_cases hTe : pd.elementTypes[e]? = some .nonTerminal
            · cases n with
              | zero => exact ⟨0, fun _ _ _ m hm => absurd hm (by omega)⟩
              | succ n =>
                obtain ⟨N, hN⟩ := ihn n (by omega) e hTe
                exact ⟨N, fun _ fuel hf m hm => (hN fuel hf).mono (by omega)⟩
            · exact ⟨0, fun h => absurd h hTe⟩)
        -- elements that may be reached without reading
        obtain ⟨N2, hN2⟩ := exists_uniform (P := fun e N => (∃ p ∈ r.prods, ∃ a b, prodElems p = a ++ e :: b ∧
              Nullable (grammarOf pd) (formOf pd a)) → pd.elementTypes[e]? = some .nonTerminal →
            ∀ fuel, N ≤ fuel → TermAt S P fuel n e)
          (fun e a b hab h hx hTe fuel hf => h hx hTe fuel (by omega)) L (by
            intro e _
            by_cases hx : ∃ p ∈ r.prods, ∃ a b, prodElems p = a ++ e :: b ∧
              Nullable (grammarOf pd) (formOf pd a)
            · by_cases hTe : pd.elementTypes[e]? = some .nonTerminal
              · obtain ⟨p, hp, a, b, hab, hna⟩ := hx
                obtain ⟨N, hN⟩ := ih p hp a e b hab hna hTe
                exact ⟨N, fun _ _ => hN⟩
              · exact ⟨0, fun _ h => absurd h hTe⟩
            · exact ⟨0, fun h => absurd h hx⟩)
        refine ⟨max N1 N2 + 1, fun fuel hf ho vm c parent pre rest hc hl => ?_⟩
        obtain ⟨k, rfl⟩ : ∃ k, fuel = k + 1 := ⟨fuel - 1, by omega⟩
        rw [parseProduction_succ k A hc]
        have hmA := hP.rules A
        rw [hr] at hmA
        obtain ⟨R, hR, -, -, hmap⟩ := hmA
        rw [hR]
        simp only
        cases hp : AMap.get R.steuermap (SetMember.ofPeek rest.head?) with
        | none => simp
        | some p =>
          obtain ⟨hpm, -⟩ := (hmap _ _).mp hp
          simp only
          have hadd := addNode_ne_timeout c.tree [] parent
          generalize c.tree.addNode [] parent = x at hadd
          obtain ⟨ra, t⟩ := x
          cases ra with
          | timeout => simp at hadd
          | err _ => simp
          | panic => simp
          | ok id =>
            simp only
            have hmem : ∀ e ∈ prodElems p, e ∈ L := fun e he => List.mem_flatMap.mpr ⟨p, hpm, he⟩
            have hel := parseElements_ne_timeout hw ha hP (fuel := k) (n := n) ho vm id (prodElems p) [] pre rest
              { c with tree := t } hc hl (.inr nullable_nil) (hw.inRange A r hr p hpm)
              (fun e he hTe m hm => hN1 e (hmem e he) hTe k (by omega) m hm)
              (fun a' e b' hab hna hTe => hN2 e (hmem e (by
                rw [List.nil_append] at hab; rw [hab]; simp)) ⟨p, hpm, a', b', by simpa using hab, hna⟩ hTe k (by omega))
            rw [SM.bind_apply]
            rcases hpe : parseElements P (parseProduction ho vm P k) id (prodElems p) { c with tree := t } with ⟨r1, c1⟩
            rw [hpe] at hel
            cases r1 with
            | timeout => simp at hel
            | err _ => simp
            | panic => simp
            | ok _ =>
              simp only [runInstructionsM]
              split <;> simp

end HPP
