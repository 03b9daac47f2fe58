import Verif.Proofs.Expected
import Verif.Props.Follow
/-
A local condition under which the FOLLOW sets of a grammar fit everywhere, and checks for concrete grammars.
-/
namespace HPP
open Spec
variable {I : Type} {pd : ParserData I} {start : Nat} {ho : HashOrder} {fuel : Nat}

theorem begins_left {a b : Form} {m : SetMember} (ha : Begins (grammarOf pd) a m) (hm : m ≠ .terminate) :
    Begins (grammarOf pd) (a ++ b) m := by
  cases m with
  | char x => exact firstChar_append.2 (.inl ha)
  | terminate => exact absurd rfl hm

/-- The place of every name that can be empty fits its FOLLOW set, given that the place of the rule fits. -/
structure LocalFits (pd : ParserData I) (start : Nat) (T : Nat → Prop) : Prop where
  nullable : ∀ A, Nullable (grammarOf pd) [.nt A] → T A
  atStart : T start → ∀ m, FollowMember (grammarOf pd) start start m → m = .terminate
  places : ∀ B a A b m, grammarOf pd B (a ++ .nt A :: b) → T A → FollowMember (grammarOf pd) start A m →
    (m ≠ .terminate ∧ Begins (grammarOf pd) b m) ∨ (Nullable (grammarOf pd) b ∧ T B ∧ FollowMember (grammarOf pd) start B m)

theorem LocalFits.stack {T : Nat → Prop} (h : LocalFits pd start T) {f : Form} (hd : LDerives (grammarOf pd) [.nt start] f) :
    ∀ a A v m, f = a ++ .nt A :: v → T A → FollowMember (grammarOf pd) start A m → Begins (grammarOf pd) v m := by
  induction hd with
  | refl =>
    intro a A v m hf hT hm
    have : a = [] ∧ A = start ∧ v = [] := by
      cases a with
      | nil =>
        rw [List.nil_append] at hf
        injection hf with h1 h2
        injection h1 with h1
        exact ⟨rfl, h1.symm, h2.symm⟩
      | cons x a => simp at hf
    obtain ⟨rfl, rfl, rfl⟩ := this
    cases h.atStart hT m hm
    exact nullable_nil
  | tail _ hs ih =>
    cases hs with
    | @mk u w B r hr =>
      intro a A v m hf hT hm
      obtain ⟨c, rfl, h2⟩ : ∃ c, a = ofText u ++ c ∧ r ++ w = c ++ .nt A :: v := by
        rcases List.append_eq_append_iff.1 hf with ⟨c, h1, h2⟩ | ⟨c, h1, h2⟩
        · exact ⟨c, h1, h2⟩
        · cases c with
          | nil => exact ⟨[], by rw [h1]; simp, by rw [List.nil_append] at h2 ⊢; exact h2.symm⟩
          | cons x c =>
            injection h2 with h2 h3
            subst h2
            have : Sym.nt A ∈ ofText u := by rw [h1]; simp
            simp [ofText] at this
      rcases List.append_eq_append_iff.1 h2 with ⟨d, rfl, h3⟩ | ⟨d, h1, h3⟩
      · exact ih (ofText u ++ .nt B :: d) A v m (by rw [h3]; simp) hT hm
      · cases d with
        | nil =>
          rw [List.append_nil] at h1
          subst h1
          rw [List.nil_append] at h3
          exact ih (ofText u ++ [.nt B]) A v m (by rw [← h3]; simp) hT hm
        | cons x d =>
          injection h3 with h3 h4
          subst h3
          subst h4
          rw [h1] at hr
          rcases h.places B c A d m hr hT hm with ⟨k1, k2⟩ | ⟨k1, k2, k3⟩
          · exact begins_left k2 k1
          · exact begins_append k1 (ih (ofText u) B w m rfl k2 k3)

theorem LocalFits.followFits {T : Nat → Prop} (h : LocalFits pd start T) : FollowFits pd start :=
  fun u A v m hd hn hm => h.stack hd (ofText u) A v m rfl (h.nullable A hn) hm

/-! ### checks -/

/-- Whether the elements can begin with the lookahead. -/
def beginsCheck (pd : ParserData I) (fs : NamedSets) (els : List Nat) : SetMember → Bool
  | .char c =>
    match firstSetOfPartial pd fs els with
    | .ok S => S.contains (.char c)
    | _ => false
  | .terminate => false

/-- Whether the elements can be empty. -/
def nullCheck (pd : ParserData I) (fs : NamedSets) (els : List Nat) : Bool :=
  match firstSetOfPartial pd fs els with
  | .ok S => els.isEmpty || S.contains .empty
  | _ => false

/-- `LocalFits` for the places in an alternative of `B`. -/
def placesCheck (pd : ParserData I) (T : List Nat) (fs : NamedSets) (fo : NamedSetsNoEmpty) (B : Nat) : List Nat → Bool
  | [] => true
  | A :: es =>
    (!T.contains A ||
      match AMap.get fo A with
      | some S => S.all fun m => beginsCheck pd fs es m ||
          (nullCheck pd fs es && T.contains B &&
            match AMap.get fo B with
            | some S' => S'.contains m
            | none => false)
      | none => false) && placesCheck pd T fs fo B es

/-- `LocalFits` for given FIRST and FOLLOW sets. -/
def setsCheck (pd : ParserData I) (start : Nat) (T : List Nat) (fs : NamedSets) (fo : NamedSetsNoEmpty) : Bool :=
  fs.all (fun x => !x.2.contains .empty || T.contains x.1) &&
  (match AMap.get fo start with
    | some S => S.all (· == .terminate)
    | none => false) &&
  pd.rules.all fun x => x.2.prods.all fun p => placesCheck pd T fs fo x.1 (prodElems p)

/-- `LocalFits` for concrete grammars. -/
def fitsCheck (pd : ParserData I) (start : Nat) (T : List Nat) : Bool :=
  match getFirstSets .insertion 99 pd with
  | .ok fs =>
    match getFollowSets .insertion 99 start fs pd with
    | .ok fo => setsCheck pd start T fs fo
    | _ => false
  | _ => false

theorem beginsCheck_sound {fs : NamedSets} (hfs : getFirstSets ho fuel pd = .ok fs) {els : List Nat} {m : SetMember}
    (h : beginsCheck pd fs els m = true) : m ≠ .terminate ∧ Begins (grammarOf pd) (formOf pd els) m := by
  cases m with
  | terminate => cases h
  | char c =>
    refine ⟨by simp, ?_⟩
    simp only [beginsCheck] at h
    split at h
    · next S hS => exact ((C11_first_of_sequence hfs hS).1 c).1 (by simpa using h)
    · cases h

theorem nullCheck_sound {fs : NamedSets} (hfs : getFirstSets ho fuel pd = .ok fs) {els : List Nat}
    (h : nullCheck pd fs els = true) : Nullable (grammarOf pd) (formOf pd els) := by
  simp only [nullCheck] at h
  split at h
  · next S hS =>
    cases els with
    | nil => exact nullable_nil
    | cons e es => exact ((C11_first_of_sequence hfs hS).2.1.1 (by simpa using h)).2
  · cases h

theorem placesCheck_sound {T : List Nat} {fs : NamedSets} {fo : NamedSetsNoEmpty} {B : Nat} {els : List Nat}
    (h : placesCheck pd T fs fo B els = true) {a b : List Nat} {A : Nat} (he : els = a ++ A :: b) (hT : A ∈ T) :
    ∃ S, AMap.get fo A = some S ∧ ∀ m ∈ S, beginsCheck pd fs b m = true ∨
      (nullCheck pd fs b = true ∧ B ∈ T ∧ ∃ S', AMap.get fo B = some S' ∧ m ∈ S') := by
  induction a generalizing els with
  | cons x a ih =>
    subst he
    simp only [List.cons_append, placesCheck, Bool.and_eq_true] at h
    exact ih h.2 rfl
  | nil =>
    subst he
    simp only [List.nil_append, placesCheck, Bool.and_eq_true, Bool.or_eq_true] at h
    rcases h.1 with h | h
    · simp [hT] at h
    · split at h
      · next S hS =>
        refine ⟨S, hS, fun m hm => ?_⟩
        have := List.all_eq_true.1 h m hm
        simp only [Bool.or_eq_true, Bool.and_eq_true] at this
        rcases this with h | ⟨⟨h1, h2⟩, h3⟩
        · exact .inl h
        · refine .inr ⟨h1, by simpa using h2, ?_⟩
          split at h3
          · next S' hS' => exact ⟨S', hS', by simpa using h3⟩
          · cases h3
      · cases h

theorem fits_of_check {T : List Nat} (hw : WellFormed pd) (h : fitsCheck pd start T = true) : FollowFits pd start := by
  simp only [fitsCheck] at h
  split at h
  · next fs hfs =>
    split at h
    · next fo hfo =>
      obtain ⟨k1, k2⟩ := C13_follow_sets_exact hw.lengths hfs hfo
      have mem : ∀ {A S m}, AMap.get fo A = some S → (m ∈ S ↔ FollowMember (grammarOf pd) start A m) := by
        intro A S m hS
        cases m with
        | char c => exact (k2 A S hS).1 c
        | terminate => exact (k2 A S hS).2
      simp only [setsCheck, Bool.and_eq_true] at h
      obtain ⟨⟨g1, g2⟩, g3⟩ := h
      refine LocalFits.followFits (T := (· ∈ T)) ⟨fun A hA => ?_, fun _ m hm => ?_, fun B a A b m hr hT hm => ?_⟩
      · obtain ⟨w, ⟨r, hr, -⟩, -⟩ := nullable_nt.1 hA
        obtain ⟨f1, f2⟩ := C10_first_sets_exact hw.keysNT hfs
        obtain ⟨S, hS⟩ := (f1 A).2 ⟨r, hr⟩
        have := List.all_eq_true.1 g1 _ (AMap.mem_of_get hS)
        simp only [Bool.or_eq_true] at this
        have he : .empty ∈ S := (f2 A S hS).2.1.2 hA
        rcases this with h | h
        · simp [he] at h
        · simpa using h
      · split at g2
        · next S hS => simpa using List.all_eq_true.1 g2 m ((mem hS).2 hm)
        · cases g2
      · obtain ⟨r, h1, p, h2, h3⟩ := hr
        obtain ⟨a', b', e1, -, e3, -⟩ := formOf_split h3.symm
        have := List.all_eq_true.1 (List.all_eq_true.1 g3 _ (AMap.mem_of_get h1)) p h2
        obtain ⟨S, hS, hall⟩ := placesCheck_sound this e1 hT
        rw [← e3]
        rcases hall m ((mem hS).2 hm) with h | ⟨q1, q2, S', q3, q4⟩
        · exact .inl (beginsCheck_sound hfs h)
        · exact .inr ⟨nullCheck_sound hfs q1, q2, (mem q3).1 q4⟩
    · cases h
  · cases h

/-! ### productive names -/

/-- Names found productive in `n` rounds. -/
def productiveRounds (pd : ParserData I) : Nat → List Nat
  | 0 => []
  | n + 1 =>
    let l := productiveRounds pd n
    (pd.rules.filter fun x => x.2.prods.any fun p => (prodElems p).all fun e =>
      pd.elementTypes[e]? == some .terminal || l.contains e).map (·.1)

theorem productiveRounds_sound (hw : WellFormed pd) (n : Nat) : ∀ A ∈ productiveRounds pd n, ∃ s, Language (grammarOf pd) A s := by
  induction n with
  | zero => intro A h; cases h
  | succ n ih =>
    intro A h
    simp only [productiveRounds, List.mem_map, List.mem_filter, List.any_eq_true, List.all_eq_true] at h
    obtain ⟨⟨A', r⟩, ⟨h1, p, h2, h3⟩, rfl⟩ := h
    have hr : AMap.get pd.rules A' = some r := AMap.get_of_mem hw.rulesNodup h1
    have : ∃ s, Derives (grammarOf pd) (formOf pd (prodElems p)) (ofText s) := by
      generalize prodElems p = els at h3
      induction els with
      | nil => exact ⟨[], .refl⟩
      | cons e es ih2 =>
        obtain ⟨s, hs⟩ := ih2 fun x hx => h3 x (by simp [hx])
        obtain ⟨s', hs'⟩ : ∃ s', Derives (grammarOf pd) (elemForm pd e) (ofText s') := by
          have := h3 e (by simp)
          by_cases hc : ∃ d, pd.elementTypes[e]? = some .terminal ∧ pd.elementData[e]? = some d
          · obtain ⟨d, q1, q2⟩ := hc
            exact ⟨d.name, by rw [elemForm_terminal q1 q2]⟩
          · have q : pd.elementTypes[e]? ≠ some .terminal := by
              intro q
              have hlt : e < pd.elementTypes.length := by
                rcases Nat.lt_or_ge e pd.elementTypes.length with hh | hh
                · exact hh
                · rw [List.getElem?_eq_none hh] at q; cases q
              exact hc ⟨_, q, List.getElem?_eq_getElem (hw.lengths ▸ hlt)⟩
            simp only [Bool.or_eq_true, beq_iff_eq, q, false_or] at this
            obtain ⟨s', hs'⟩ := ih e (by simpa using this)
            refine ⟨s', ?_⟩
            have : elemForm pd e = [.nt e] := by
              simp only [elemForm]
              split
              · next h _ => exact absurd h q
              · rfl
            rw [this]
            exact hs'
        refine ⟨s' ++ s, ?_⟩
        rw [formOf_cons]
        simpa [ofText] using hs'.append hs
    obtain ⟨s, hs⟩ := this
    exact ⟨s, (Derives.of_rule ⟨r, hr, p, h2, rfl⟩).trans hs⟩

theorem productive_of_check (hw : WellFormed pd) (n : Nat)
    (h : pd.rules.all (fun x => (productiveRounds pd n).contains x.1) = true) : Productive pd := by
  intro A r hr
  have := List.all_eq_true.1 h _ (AMap.mem_of_get hr)
  exact productiveRounds_sound hw n A (by simpa using this)

end HPP
