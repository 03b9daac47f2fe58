import Verif.Model.RuleParsing
/-
The limits of the model (call depth, iterations) are not observable: raising a limit that was not hit changes nothing.
-/
namespace HPP.Lim
variable {I S T ε ε' α β σ : Type}

/-- The limit was hit, or it makes no difference. -/
def RLe (r r' : Res ε α) : Prop := r = .timeout ∨ r = r'

theorem RLe.refl (r : Res ε α) : RLe r r := .inr rfl

theorem RLe.bind {r r' : Res ε α} {f f' : α → Res ε β} (h : RLe r r') (hf : ∀ a, RLe (f a) (f' a)) :
    RLe (r >>= f) (r' >>= f') := by
  rcases h with rfl | rfl
  · exact .inl rfl
  · cases r with
    | ok a => exact hf a
    | err e => exact .inr rfl
    | panic => exact .inr rfl
    | timeout => exact .inl rfl

theorem RLe.unwrap {r r' : Res ε α} (h : RLe r r') : RLe (r.unwrap : Res ε' α) r'.unwrap := by
  rcases h with rfl | rfl
  · exact .inl rfl
  · exact .refl _

/-- The same for functions on a mutable state. -/
def SLe (m m' : SM σ ε α) : Prop := ∀ c, (m c).1 = .timeout ∨ m c = m' c

theorem SLe.refl (m : SM σ ε α) : SLe m m := fun _ => .inr rfl

theorem SLe.bind {m m' : SM σ ε α} {f f' : α → SM σ ε β} (h : SLe m m') (hf : ∀ a, SLe (f a) (f' a)) :
    SLe (m >>= f) (m' >>= f') := by
  intro c
  simp only [SM.bind_apply]
  rcases hm : m c with ⟨r, d⟩
  have := h c
  rw [hm] at this
  rcases this with hr | hr
  · left
    simp only at hr
    subst hr
    rfl
  · rw [← hr]
    cases r with
    | ok a => exact hf a d
    | err e => exact .inr rfl
    | panic => exact .inr rfl
    | timeout => exact .inl rfl

/-! ### parse -/

theorem parseElements_le (P : Parser I) {rec rec' : Nat → Option NodeId → SM (Ctx S) PErr Unit}
    (h : ∀ e p, SLe (rec e p) (rec' e p)) (id : NodeId) : ∀ els, SLe (parseElements P rec id els) (parseElements P rec' id els)
  | [] => .refl _
  | e :: es => by
    unfold parseElements
    refine .bind (.refl _) fun el => ?_
    cases el.et with
    | terminal => exact .bind (.refl _) fun _ => .bind (.refl _) fun _ => parseElements_le P h id es
    | nonTerminal => exact .bind (h e (some id)) fun _ => parseElements_le P h id es

theorem parseProduction_le (ho : HashOrder) (vm : VM I S) (P : Parser I) : ∀ fuel fuel', fuel ≤ fuel' → ∀ el par,
    SLe (parseProduction ho vm P fuel el par) (parseProduction ho vm P fuel' el par)
  | 0, _, _, _, _ => fun _ => .inl rfl
  | fuel + 1, 0, h, _, _ => absurd h (by omega)
  | fuel + 1, fuel' + 1, h, el, par => by
    unfold parseProduction
    refine .bind (.refl _) fun cur => .bind (.refl _) fun r => .bind (.refl _) fun prod => .bind (.refl _) fun id => ?_
    cases prod with
    | empty => exact .refl _
    | notEmpty els =>
      exact .bind (parseElements_le P (fun e p => parseProduction_le ho vm P fuel fuel' (by omega) e p) id els) fun _ => .refl _

theorem parse_le (ho : HashOrder) (vm : VM I S) (P : Parser I) {fuel fuel' : Nat} (hf : fuel ≤ fuel') (text : Str) (s : S) :
    (Parser.parse ho fuel vm P text s).1 = .timeout ∨
    Parser.parse ho fuel vm P text s = Parser.parse ho fuel' vm P text s := by
  unfold Parser.parse
  cases positionOf ⟨c% "start", .nonTerminal⟩ P.elements with
  | none => exact .inr rfl
  | some ix =>
    have := parseProduction_le ho vm P fuel fuel' hf ix none ⟨Proc.ofText text, s, Tree.new⟩
    simp only
    rcases this with h | h
    · left
      rcases hm : parseProduction ho vm P fuel ix none ⟨Proc.ofText text, s, Tree.new⟩ with ⟨r, c⟩
      rw [hm] at h
      simp only at h
      subst h
      rfl
    · rw [h]; exact .inr rfl

theorem parse_fuel_err {ho : HashOrder} {vm : VM I S} {P : Parser I} {fuel fuel' : Nat} {text : Str} {s : S} {e : PErr}
    {c : Ctx S} (h : Parser.parse ho fuel vm P text s = (.err e, c)) (hf : fuel ≤ fuel') :
    Parser.parse ho fuel' vm P text s = (.err e, c) := by
  rcases parse_le ho vm P hf text s with h1 | h1
  · rw [h] at h1; cases h1
  · rw [← h1]; exact h

/-! ### construction -/

theorem firstOfProdLoop_le {rec rec' : FirstRec} (h : ∀ e fs, RLe (rec e fs) (rec' e fs)) :
    ∀ els menge fs, RLe (firstOfProdLoop rec els menge fs) (firstOfProdLoop rec' els menge fs)
  | [], _, _ => .refl _
  | el :: els, menge, fs => by
    unfold firstOfProdLoop
    refine .bind (h el fs) fun x => ?_
    simp only
    split
    · exact .refl _
    · exact firstOfProdLoop_le h els _ _

theorem firstOfProd_le {rec rec' : FirstRec} (h : ∀ e fs, RLe (rec e fs) (rec' e fs)) (p : Production) (fs : NamedSets) :
    RLe (firstOfProd rec p fs) (firstOfProd rec' p fs) := by
  match p with
  | .empty => exact .refl _
  | .notEmpty [] => exact .refl _
  | .notEmpty (el :: els) =>
    simp only [firstOfProd]
    refine .bind (h el fs) fun x => ?_
    split
    · exact firstOfProdLoop_le h els _ _
    · exact .refl _

theorem firstOfProds_le {rec rec' : FirstRec} (h : ∀ e fs, RLe (rec e fs) (rec' e fs)) :
    ∀ ps set fs, RLe (firstOfProds rec ps set fs) (firstOfProds rec' ps set fs)
  | [], _, _ => .refl _
  | p :: ps, set, fs => by
    unfold firstOfProds
    exact .bind (firstOfProd_le h p fs) fun x => firstOfProds_le h ps _ _

theorem getSetFirstSetOfElement_le (pd : ParserData I) : ∀ fuel fuel', fuel ≤ fuel' → ∀ el fs,
    RLe (getSetFirstSetOfElement pd fuel el fs) (getSetFirstSetOfElement pd fuel' el fs)
  | 0, _, _, _, _ => .inl rfl
  | fuel + 1, 0, h, _, _ => absurd h (by omega)
  | fuel + 1, fuel' + 1, h, el, fs => by
    unfold getSetFirstSetOfElement
    refine .bind (.refl _) fun x => ?_
    cases x with
    | some x => exact .refl _
    | none =>
      simp only
      cases AMap.get pd.rules el with
      | none => exact .refl _
      | some rule =>
        exact .bind (firstOfProds_le (fun e fs => getSetFirstSetOfElement_le pd fuel fuel' (by omega) e fs) _ _ _) fun _ => .refl _

theorem getFirstSets_le (ho : HashOrder) {fuel fuel' : Nat} (hf : fuel ≤ fuel') (pd : ParserData I) :
    RLe (getFirstSets ho fuel pd) (getFirstSets ho fuel' pd) := by
  unfold getFirstSets
  generalize ho.iter 1 Nat (AMap.keys pd.rules) = l
  generalize ([] : NamedSets) = fs
  induction l generalizing fs with
  | nil => exact .refl _
  | cons el l ih => exact .bind (getSetFirstSetOfElement_le pd fuel fuel' hf el fs) fun x => ih x.2

theorem propagate_le (ho : HashOrder) : ∀ fuel fuel', fuel ≤ fuel' → ∀ g, RLe (propagate ho fuel g) (propagate ho fuel' g)
  | 0, _, _, _ => .inl rfl
  | fuel + 1, 0, h, _ => absurd h (by omega)
  | fuel + 1, fuel' + 1, h, g => by
    unfold propagate
    refine .bind (.refl _) fun todo => .bind (.refl _) fun g' => ?_
    split
    · exact .refl _
    · exact propagate_le ho fuel fuel' (by omega) g'

theorem getFollowSets_le (ho : HashOrder) {fuel fuel' : Nat} (hf : fuel ≤ fuel') (start : Nat) (fs : NamedSets) (pd : ParserData I) :
    RLe (getFollowSets ho fuel start fs pd) (getFollowSets ho fuel' start fs pd) := by
  unfold getFollowSets makeFollowSets
  exact .bind (.refl _) fun g => .bind (.refl _) fun g => .bind (.refl _) fun g =>
    .bind (propagate_le ho fuel fuel' hf g) fun _ => .refl _

theorem newFromParserData_le (ho : HashOrder) {fuel fuel' : Nat} (hf : fuel ≤ fuel') (pd : ParserData I) (start : Nat) :
    RLe (Parser.newFromParserData ho fuel pd start) (Parser.newFromParserData ho fuel' pd start) := by
  unfold Parser.newFromParserData
  exact .bind (getFirstSets_le ho hf pd).unwrap fun fs => .bind (getFollowSets_le ho hf start fs pd).unwrap fun fo => .refl _

theorem newFromText_le (ho : HashOrder) {fuel fuel' : Nat} (hf : fuel ≤ fuel') (cc : CharClass) (vm : VM I S) (text : Str) :
    RLe (Parser.newFromText ho fuel cc vm text) (Parser.newFromText ho fuel' cc vm text) := by
  unfold Parser.newFromText
  exact .bind (.refl _) fun pd => .bind (.refl _) fun els => .bind (getFirstSets_le ho hf pd).unwrap fun fs =>
    .bind (.refl _) fun st => .bind (getFollowSets_le ho hf st fs pd).unwrap fun fo => .refl _

/-! ### trees -/

theorem childrenFrom_le (t : Tree T) : ∀ fuel fuel', fuel ≤ fuel' → ∀ o,
    RLe (t.childrenFrom fuel o : Res ε _) (t.childrenFrom fuel' o)
  | 0, 0, _, none => .inr rfl
  | 0, _ + 1, _, none => .inr rfl
  | 0, _, _, some _ => .inl rfl
  | fuel + 1, 0, h, _ => absurd h (by omega)
  | fuel + 1, fuel' + 1, _, none => .inr rfl
  | fuel + 1, fuel' + 1, h, some ix => by
    unfold Tree.childrenFrom
    exact .bind (.refl _) fun n => .bind (childrenFrom_le t fuel fuel' (by omega) _) fun _ => .refl _

theorem getChildren_le (t : Tree T) {fuel fuel' : Nat} (hf : fuel ≤ fuel') (id : NodeId) :
    RLe (t.getChildren fuel id : Res ε _) (t.getChildren fuel' id) := by
  unfold Tree.getChildren
  exact .bind (.refl _) fun n => childrenFrom_le t fuel fuel' hf _

theorem descendantsOf_le {rec rec' : NodeId → Res ε (List NodeId)} (h : ∀ id, RLe (rec id) (rec' id)) :
    ∀ l, RLe (Tree.descendantsOf rec l) (Tree.descendantsOf rec' l)
  | [] => .refl _
  | c :: cs => by
    unfold Tree.descendantsOf
    exact .bind (h c) fun _ => .bind (descendantsOf_le h cs) fun _ => .refl _

theorem getDescendants_le (t : Tree T) : ∀ fuel fuel', fuel ≤ fuel' → ∀ id,
    RLe (t.getDescendants fuel id : Res ε _) (t.getDescendants fuel' id)
  | 0, _, _, _ => .inl rfl
  | fuel + 1, 0, h, _ => absurd h (by omega)
  | fuel + 1, fuel' + 1, h, id => by
    unfold Tree.getDescendants
    exact .bind (getChildren_le t h id) fun _ =>
      .bind (descendantsOf_le (fun id => getDescendants_le t fuel fuel' (by omega) id) _) fun _ => .refl _

theorem removeBranch_le (t : Tree T) {fuel fuel' : Nat} (hf : fuel ≤ fuel') (id : NodeId) :
    (t.removeBranch fuel id).1 = .timeout ∨ t.removeBranch fuel id = t.removeBranch fuel' id := by
  unfold Tree.removeBranch
  cases t.getNode id with
  | err e => exact .inr rfl
  | panic => exact .inr rfl
  | timeout => exact .inr rfl
  | ok node =>
    simp only
    rcases getDescendants_le (ε := TErr) t fuel fuel' hf id with h | h
    · rw [h]; exact .inl rfl
    · rw [h]; exact .inr rfl

end HPP.Lim
