import Verif.Proofs.ScriptTerm
/-
`Parser::parse` as a whole.
-/
namespace HPP
open Spec
variable {I S : Type} {pd : ParserData I} {start st0 : Nat} {P : Parser I}

theorem positionOf_eq {x : ElementVerbose} {l : List ElementVerbose} {i : Nat} (h1 : l[i]? = some x)
    (h2 : ∀ j, l[j]? = some x → j = i) : positionOf x l = some i := by
  induction l generalizing i with
  | nil => simp at h1
  | cons y ys ih =>
    simp only [positionOf]
    split
    · next h =>
      subst h
      rw [← h2 0 rfl]
    · next h =>
      cases i with
      | zero => simp at h1; exact absurd h1 h
      | succ i =>
        rw [ih (i := i) (by simpa using h1) (fun j hj => by
          have := h2 (j + 1) (by simpa using hj)
          omega)]
        rfl

theorem positionOf_start (hP : ParserFor pd start P) (hs : StartSymbol pd st0) :
    positionOf ⟨c% "start", .nonTerminal⟩ P.elements = some st0 :=
  positionOf_eq (by rw [hP.elements.2]; exact hs.1) (fun j hj => hs.2 j (by rw [← hP.elements.2]; exact hj))

theorem _root_.HPP.Spec.StartSymbol.type (hs : StartSymbol pd st0) : pd.elementTypes[st0]? = some .nonTerminal := by
  have := hs.1
  simp only [ParserData.getElementVerbose] at this
  split at this
  · next h => simp at this; rw [h, this.2]
  · cases this

/-- The initial context of `parse`. -/
def ctx0 (text : Str) (s : S) : Ctx S := ⟨Proc.ofText text, s, Tree.new⟩

/-- The outcome of `parse` without the tree. -/
theorem parse_eq (hP : ParserFor pd start P) (hs : StartSymbol pd st0) (ho : HashOrder) (fuel : Nat)
    (vm : VM I S) (text : Str) (s : S) :
    Parser.parse ho fuel vm P text s =
      match parseProduction ho vm P fuel st0 none (ctx0 text s) with
      | (.ok (), c) => (.ok c.tree, c)
      | (.err e, c) => (.err e, c)
      | (.panic, c) => (.panic, c)
      | (.timeout, c) => (.timeout, c) := by
  simp only [Parser.parse, positionOf_start hP hs]
  simp only [ctx0]
  rcases parseProduction ho vm P fuel st0 none ⟨Proc.ofText text, s, Tree.new⟩ with ⟨r, c⟩
  cases r <;> rfl

theorem parse_good (hw : WellFormed pd) (ha : Acceptable pd start) (hP : ParserFor pd start P)
    (hs : StartSymbol pd st0) (ho : HashOrder) (fuel : Nat) (vm : VM I S) (text : Str) (s : S) :
    ∃ out : Res PErr Unit × Ctx S, Good ho vm pd start P [st0] none [] text (ctx0 text s) out ∧
      Parser.parse ho fuel vm P text s = (out.1.bind (fun _ => .ok out.2.tree), out.2) := by
  refine ⟨_, Good.production hw ha hP fuel st0 none [] text (ctx0 text s) (Spec.StartSymbol.type hs) rfl, ?_⟩
  rw [parse_eq hP hs]
  rcases parseProduction ho vm P fuel st0 none (ctx0 text s) with ⟨r, c⟩
  cases r <;> rfl

theorem parOk_root : ParOk [] none none := ⟨rfl, by simp⟩

theorem formOf_start (hs : StartSymbol pd st0) : formOf pd [st0] = [.nt st0] := by
  simp [elemForm_nonTerminal (Spec.StartSymbol.type hs)]

/-- The leaves of the data tree of a forest spell the text. -/
theorem texts_roses {els : List Nat} {f : Forest} {s : Str} (h : IsForest pd els f s) :
    Rose.texts (roses pd f) = s := by
  induction h with
  | nil => rfl
  | @leaf e es d f s h1 h2 _ ih => simp [roses, Rose.texts, Rose.text, nameOf, h2, ih]
  | @node A es r p kids f s1 s2 _ _ _ _ _ ih1 ih2 =>
    simp only [roses, Rose.texts, ih2]
    congr 1
    cases hk : roses pd kids with
    | nil => rw [hk] at ih1; simp only [Rose.texts] at ih1; simp [Rose.text, ← ih1]
    | cons k ks => rw [hk] at ih1; simpa [Rose.text, Rose.texts] using ih1

theorem cont_refl (rest : Str) : Cont rest (ofText rest) := by
  cases rest with
  | nil => exact ⟨.inl ⟨rfl, trivial⟩, rfl⟩
  | cons c r => exact ⟨.inr ⟨c, ofText r, rfl⟩, rfl⟩

theorem cont_char (c : Char) (r : Str) (v : Form) : Cont (c :: r) (.ch c :: v) := ⟨.inr ⟨c, v, rfl⟩, rfl⟩

theorem parse_terminates (hw : WellFormed pd) (ha : Acceptable pd start) (hP : ParserFor pd start P)
    (hs : StartSymbol pd st0) (n : Nat) : ∃ N, ∀ fuel, N ≤ fuel → ∀ (ho : HashOrder) (vm : VM I S)
      (text : Str) (s : S), text.length ≤ n → (Parser.parse ho fuel vm P text s).1 ≠ .timeout := by
  obtain ⟨N, hN⟩ := parseProduction_terminates (S := S) hw ha hP n st0 (Spec.StartSymbol.type hs)
  refine ⟨N, fun fuel hf ho vm text s hl => ?_⟩
  have := hN fuel hf ho vm (ctx0 text s) none [] text rfl hl
  rw [parse_eq hP hs]
  generalize parseProduction ho vm P fuel st0 none (ctx0 text s) = x at this
  obtain ⟨r, c⟩ := x
  cases r <;> simp at this ⊢

end HPP
