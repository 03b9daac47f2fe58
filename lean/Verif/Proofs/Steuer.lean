import Verif.Spec.Control
import Verif.Proofs.SetsNodup
import Verif.Model.Script
/-
Steuer sets, conflict detection, parser construction.
-/
namespace HPP
open Spec
variable {I : Type}

theorem followG_iff {G : Grammar} {start A : Nat} {m : SetMember} :
    FollowG G start A m ↔ FollowMember G start A m := by
  cases m with
  | char c => exact followG_char_iff
  | terminate => exact followG_end_iff

/-! ### steuer sets, table level -/

/-- What `get_steuer_sets` computes for one entry. -/
def SteuerOf (follow : NamedSetsNoEmpty) (n : Nat) (first : List SetMemberE) (m : SetMember) : Prop :=
  (∃ e ∈ first, SetMember.tryFrom e = some m) ∨
    (SetMemberE.empty ∈ first ∧ ∃ F, AMap.get follow n = some F ∧ m ∈ F)

theorem steuerEntry {ε : Type} {first : List SetMemberE} (hn : first.Nodup) :
    ∃ s, (toSetMembers (first.filter (fun m => decide (m ≠ SetMemberE.empty))) : Res ε _) = .ok s ∧
      s.Nodup ∧ ∀ m, m ∈ s ↔ ∃ e ∈ first, SetMember.tryFrom e = some m := by
  obtain ⟨ms, h1, -⟩ := toSetMembers_ok (ε := ε) (first.filter (fun m => decide (m ≠ SetMemberE.empty)))
    (by simp)
  obtain ⟨h2, h3⟩ := toSetMembers_nodup _ (hn.filter _) h1
  refine ⟨ms, h1, h2, fun m => (h3 m).trans ?_⟩
  constructor
  · rintro ⟨e, he, h⟩; exact ⟨e, List.mem_of_mem_filter he, h⟩
  · rintro ⟨e, he, h⟩
    refine ⟨e, List.mem_filter.mpr ⟨he, ?_⟩, h⟩
    cases e <;> simp_all [SetMember.tryFrom]

theorem getSteuerSetsLoop_spec {follow : NamedSetsNoEmpty}
    (items : List (Nat × List SetMemberE)) :
    (items.map (·.1)).Nodup → (∀ p ∈ items, p.2.Nodup) → ∀ acc : NamedSetsNoEmpty,
    ((∀ p ∈ items, SetMemberE.empty ∈ p.2 → ∃ F, AMap.get follow p.1 = some F) →
      ∃ r, getSteuerSetsLoop follow items acc = .ok r ∧
        ∀ n, match AMap.get items n with
          | some f => ∃ S, AMap.get r n = some S ∧ (S.Nodup) ∧ ∀ m, m ∈ S ↔ SteuerOf follow n f m
          | none => AMap.get r n = AMap.get acc n) ∧
    ((∃ p ∈ items, SetMemberE.empty ∈ p.2 ∧ AMap.get follow p.1 = none) →
      ∃ n f, (n, f) ∈ items ∧ SetMemberE.empty ∈ f ∧ AMap.get follow n = none ∧
        getSteuerSetsLoop follow items acc = .err (.missingFollowSet n)) := by
  induction items with
  | nil =>
    intro _ _ acc
    exact ⟨fun _ => ⟨acc, rfl, fun n => rfl⟩, by rintro ⟨p, hp, _⟩; simp at hp⟩
  | cons q items ih =>
    intro hk hn acc
    obtain ⟨name, first⟩ := q
    simp only [List.map_cons, List.nodup_cons] at hk
    have hf : first.Nodup := hn (name, first) (by simp)
    obtain ⟨s, hs1, hs2, hs3⟩ := steuerEntry (ε := GErr) hf
    have ih := ih hk.2 (fun p hp => hn p (by simp [hp]))
    by_cases he : SetMemberE.empty ∈ first
    · cases hfo : AMap.get follow name with
      | none =>
        refine ⟨fun h => ?_, fun _ => ?_⟩
        · obtain ⟨F, hF⟩ := h (name, first) (by simp) he
          simp [hfo] at hF
        · refine ⟨name, first, by simp, he, hfo, ?_⟩
          simp only [getSteuerSetsLoop, hs1, Res.bind_ok]
          rw [if_pos he, hfo]; rfl
      | some F =>
        have hstep : ∀ acc, getSteuerSetsLoop follow ((name, first) :: items) acc =
            getSteuerSetsLoop follow items (AMap.insert acc name (setExtend s F)) := by
          intro acc
          simp only [getSteuerSetsLoop, hs1, Res.bind_ok]
          rw [if_pos he, hfo]; rfl
        obtain ⟨ih1, ih2⟩ := ih (AMap.insert acc name (setExtend s F))
        refine ⟨fun h => ?_, fun h => ?_⟩
        · obtain ⟨r, hr1, hr2⟩ := ih1 (fun p hp => h p (by simp [hp]))
          refine ⟨r, (hstep acc).trans hr1, fun n => ?_⟩
          have := hr2 n
          rw [AMap.get_cons]
          by_cases hnn : name = n
          · subst hnn
            rw [AMap.get_eq_none_iff.mpr hk.1] at this
            simp only [if_true]
            refine ⟨setExtend s F, by rw [this]; simp, nodup_setExtend hs2 F, fun m => ?_⟩
            rw [mem_setExtend, hs3, SteuerOf]
            simp [he, hfo]
          · rw [if_neg hnn]
            cases hg : AMap.get items n with
            | some f => rw [hg] at this; exact this
            | none => rw [hg] at this; rw [this, AMap.get_insert_ne _ _ hnn]
        · obtain ⟨p, hp, hpe, hpf⟩ := h
          have hp' : p ∈ items := by
            rcases List.mem_cons.mp hp with rfl | hp
            · simp [hfo] at hpf
            · exact hp
          obtain ⟨n, f, h1, h2, h3, h4⟩ := ih2 ⟨p, hp', hpe, hpf⟩
          exact ⟨n, f, by simp [h1], h2, h3, (hstep acc).trans h4⟩
    · have hstep : ∀ acc, getSteuerSetsLoop follow ((name, first) :: items) acc =
          getSteuerSetsLoop follow items (AMap.insert acc name s) := by
        intro acc
        simp only [getSteuerSetsLoop, hs1, Res.bind_ok]
        rw [if_neg he]
      obtain ⟨ih1, ih2⟩ := ih (AMap.insert acc name s)
      refine ⟨fun h => ?_, fun h => ?_⟩
      · obtain ⟨r, hr1, hr2⟩ := ih1 (fun p hp => h p (by simp [hp]))
        refine ⟨r, (hstep acc).trans hr1, fun n => ?_⟩
        have := hr2 n
        rw [AMap.get_cons]
        by_cases hnn : name = n
        · subst hnn
          rw [AMap.get_eq_none_iff.mpr hk.1] at this
          simp only [if_true]
          refine ⟨s, by rw [this]; simp, hs2, fun m => ?_⟩
          rw [hs3, SteuerOf]
          simp [he]
        · rw [if_neg hnn]
          cases hg : AMap.get items n with
          | some f => rw [hg] at this; exact this
          | none => rw [hg] at this; rw [this, AMap.get_insert_ne _ _ hnn]
      · obtain ⟨p, hp, hpe, hpf⟩ := h
        have hp' : p ∈ items := by
          rcases List.mem_cons.mp hp with rfl | hp
          · exact absurd hpe he
          · exact hp
        obtain ⟨n, f, h1, h2, h3, h4⟩ := ih2 ⟨p, hp', hpe, hpf⟩
        exact ⟨n, f, by simp [h1], h2, h3, (hstep acc).trans h4⟩

theorem getSteuerSets_spec {ho : HashOrder} {first : NamedSets} {follow : NamedSetsNoEmpty}
    (hk : AMap.NodupKeys first) (hn : SetsNodup first) :
    ((∀ n f, AMap.get first n = some f → SetMemberE.empty ∈ f → ∃ F, AMap.get follow n = some F) →
      ∃ r, getSteuerSets ho first follow = .ok r ∧
        ∀ n, match AMap.get first n with
          | some f => ∃ S, AMap.get r n = some S ∧ (S.Nodup) ∧ ∀ m, m ∈ S ↔ SteuerOf follow n f m
          | none => AMap.get r n = none) ∧
    ((∃ n f, AMap.get first n = some f ∧ SetMemberE.empty ∈ f ∧ AMap.get follow n = none) →
      ∃ n f, AMap.get first n = some f ∧ SetMemberE.empty ∈ f ∧ AMap.get follow n = none ∧
        getSteuerSets ho first follow = .err (.missingFollowSet n)) := by
  have hp := ho.perm 6 (Nat × List SetMemberE) first
  have hmem : ∀ p, p ∈ ho.iter 6 (Nat × List SetMemberE) first ↔ AMap.get first p.1 = some p.2 := by
    intro p
    rw [hp.mem_iff, AMap.get_eq_some_iff hk]
  obtain ⟨h1, h2⟩ := getSteuerSetsLoop_spec (follow := follow) (ho.iter 6 (Nat × List SetMemberE) first)
    (hk.perm hp) (fun p hp => hn p.1 p.2 ((hmem p).mp hp)) []
  constructor
  · intro h
    obtain ⟨r, hr1, hr2⟩ := h1 (fun p hp he => h p.1 p.2 ((hmem p).mp hp) he)
    refine ⟨r, hr1, fun n => ?_⟩
    have := hr2 n
    rw [AMap.get_perm hk hp] at this
    exact this
  · rintro ⟨n, f, hnf, he, hfo⟩
    obtain ⟨n', f', h3, h4, h5, h6⟩ := h2 ⟨(n, f), (hmem _).mpr hnf, he, hfo⟩
    exact ⟨n', f', (hmem (n', f')).mp h3, h4, h5, h6⟩

/-! ### filling the map -/

theorem fillLoop_spec (prod : Production) (rule : Nat) (xs : List SetMember) : xs.Nodup →
    ∀ m : Steuermap,
    ((∀ x ∈ xs, AMap.get m x = none) → ∃ m', fillLoop prod rule xs m = .ok m' ∧
      ∀ x q, AMap.get m' x = some q ↔ AMap.get m x = some q ∨ (q = prod ∧ x ∈ xs)) ∧
    ((∃ x ∈ xs, AMap.get m x ≠ none) → ∃ t c, fillLoop prod rule xs m = .err (.steuerSetsNotDistinct t c rule)) := by
  induction xs with
  | nil =>
    intro _ m
    exact ⟨fun _ => ⟨m, rfl, by simp⟩, by simp⟩
  | cons a xs ih =>
    intro hn m
    simp only [List.nodup_cons] at hn
    cases ha : AMap.get m a with
    | some p =>
      refine ⟨fun h => ?_, fun _ => ?_⟩
      · have := h a (by simp); rw [ha] at this; simp at this
      · simp only [fillLoop, ha]; exact ⟨_, _, rfl⟩
    | none =>
      have hstep : fillLoop prod rule (a :: xs) m = fillLoop prod rule xs (AMap.insert m a prod) := by
        simp only [fillLoop, ha]
      have hne : ∀ x ∈ xs, a ≠ x := fun x hx hax => hn.1 (hax ▸ hx)
      obtain ⟨ih1, ih2⟩ := ih hn.2 (AMap.insert m a prod)
      refine ⟨fun h => ?_, fun h => ?_⟩
      · obtain ⟨m', h1, h2⟩ := ih1 (fun x hx => by
          rw [AMap.get_insert_ne _ _ (hne x hx)]; exact h x (by simp [hx]))
        refine ⟨m', hstep.trans h1, fun x q => ?_⟩
        rw [h2, AMap.get_insert]
        by_cases hax : a = x
        · subst hax
          simp [ha, eq_comm, hn.1]
        · rw [if_neg hax]
          simp [Ne.symm hax]
      · obtain ⟨x, hx, hxm⟩ := h
        have hx' : x ∈ xs := by
          rcases List.mem_cons.mp hx with rfl | hx
          · exact absurd ha hxm
          · exact hx
        obtain ⟨t, c, h1⟩ := ih2 ⟨x, hx', by rw [AMap.get_insert_ne _ _ (hne x hx')]; exact hxm⟩
        exact ⟨t, c, hstep.trans h1⟩

theorem fillWithSteuerSet_spec {ho : HashOrder} (prod : Production) (rule : Nat) {xs : List SetMember}
    (hn : xs.Nodup) (m : Steuermap) :
    ((∀ x ∈ xs, AMap.get m x = none) → ∃ m', fillWithSteuerSet ho xs m prod rule = .ok m' ∧
      ∀ x q, AMap.get m' x = some q ↔ AMap.get m x = some q ∨ (q = prod ∧ x ∈ xs)) ∧
    ((∃ x ∈ xs, AMap.get m x ≠ none) →
      ∃ t c, fillWithSteuerSet ho xs m prod rule = .err (.steuerSetsNotDistinct t c rule)) := by
  have hp := ho.perm 8 SetMember xs
  have := fillLoop_spec prod rule (ho.iter 8 SetMember xs) (hp.nodup_iff.mpr hn) m
  simp only [hp.mem_iff] at this
  exact this

/-- One production is entered correctly into the map. -/
def StepOk (step : Steuermap → Res GErr Steuermap) (rule : Nat) (p : Production)
    (C : SetMember → Prop) : Prop := ∀ m : Steuermap,
  ((∀ x, C x → AMap.get m x = none) → ∃ m', step m = .ok m' ∧
    ∀ x q, AMap.get m' x = some q ↔ AMap.get m x = some q ∨ (q = p ∧ C x)) ∧
  ((∃ x, C x ∧ AMap.get m x ≠ none) → ∃ t c, step m = .err (.steuerSetsNotDistinct t c rule))

theorem steuermapOfRule_spec {ho : HashOrder} {steuer follow : NamedSetsNoEmpty} {rule : Nat}
    {types : List ElementType} {data : List ElementData} {C : Production → SetMember → Prop}
    (ps : List Production) (hstep : ∀ p ∈ ps,
      StepOk (fun m => steuermapOfProduction ho steuer follow m p rule types data) rule p (C p)) :
    ∀ m : Steuermap,
    (((∀ p ∈ ps, ∀ x, C p x → AMap.get m x = none) ∧ ps.Pairwise (fun p q => ∀ x, ¬ (C p x ∧ C q x))) →
      ∃ m', steuermapOfRule ho steuer follow rule types data ps m = .ok m' ∧
        ∀ x q, AMap.get m' x = some q ↔ AMap.get m x = some q ∨ (q ∈ ps ∧ C q x)) ∧
    (¬ ((∀ p ∈ ps, ∀ x, C p x → AMap.get m x = none) ∧ ps.Pairwise (fun p q => ∀ x, ¬ (C p x ∧ C q x))) →
      ∃ t c, steuermapOfRule ho steuer follow rule types data ps m = .err (.steuerSetsNotDistinct t c rule)) := by
  induction ps with
  | nil =>
    intro m
    exact ⟨fun _ => ⟨m, rfl, by simp⟩, fun h => by simp at h⟩
  | cons p ps ih =>
    intro m
    obtain ⟨s1, s2⟩ := hstep p (by simp) m
    have ih := ih (fun q hq => hstep q (by simp [hq]))
    simp only at s1 s2
    by_cases hfree : ∀ x, C p x → AMap.get m x = none
    · obtain ⟨m1, hm1, hm1'⟩ := s1 hfree
      have heq : steuermapOfRule ho steuer follow rule types data (p :: ps) m =
          steuermapOfRule ho steuer follow rule types data ps m1 := by
        simp only [steuermapOfRule]; rw [hm1]; rfl
      have hnone : ∀ x, AMap.get m1 x = none ↔ AMap.get m x = none ∧ ¬ C p x := by
        intro x
        constructor
        · intro h
          constructor
          · cases hx : AMap.get m x with
            | none => rfl
            | some q => have := (hm1' x q).mpr (.inl hx); rw [h] at this; simp at this
          · intro hc
            have := (hm1' x p).mpr (.inr ⟨rfl, hc⟩); rw [h] at this; simp at this
        · rintro ⟨h1, h2⟩
          cases hx : AMap.get m1 x with
          | none => rfl
          | some q =>
            rcases (hm1' x q).mp hx with h | ⟨_, h⟩
            · rw [h1] at h; simp at h
            · exact absurd h h2
      have hcond : ((∀ q ∈ ps, ∀ x, C q x → AMap.get m1 x = none) ∧
            ps.Pairwise (fun p q => ∀ x, ¬ (C p x ∧ C q x))) ↔
          ((∀ q ∈ p :: ps, ∀ x, C q x → AMap.get m x = none) ∧
            (p :: ps).Pairwise (fun p q => ∀ x, ¬ (C p x ∧ C q x))) := by
        rw [List.pairwise_cons]
        constructor
        · rintro ⟨h1, h2⟩
          refine ⟨?_, ?_, h2⟩
          · intro q hq x hx
            rcases List.mem_cons.mp hq with rfl | hq
            · exact hfree x hx
            · exact ((hnone x).mp (h1 q hq x hx)).1
          · intro q hq x hx
            exact ((hnone x).mp (h1 q hq x hx.2)).2 hx.1
        · rintro ⟨h1, h2, h3⟩
          refine ⟨fun q hq x hx => (hnone x).mpr ⟨h1 q (by simp [hq]) x hx, fun hc => h2 q hq x ⟨hc, hx⟩⟩, h3⟩
      obtain ⟨ih1, ih2⟩ := ih m1
      rw [heq, ← hcond]
      refine ⟨fun h => ?_, ih2⟩
      obtain ⟨m', h1, h2⟩ := ih1 h
      refine ⟨m', h1, fun x q => ?_⟩
      rw [h2, hm1']
      simp only [List.mem_cons]
      constructor
      · rintro ((h | ⟨rfl, h⟩) | ⟨h, h'⟩)
        · exact .inl h
        · exact .inr ⟨.inl rfl, h⟩
        · exact .inr ⟨.inr h, h'⟩
      · rintro (h | ⟨rfl | h, h'⟩)
        · exact .inl (.inl h)
        · exact .inl (.inr ⟨rfl, h'⟩)
        · exact .inr ⟨h, h'⟩
    · constructor
      · rintro ⟨h1, -⟩
        exact absurd (h1 p (by simp)) hfree
      · intro _
        have : ∃ x, C p x ∧ AMap.get m x ≠ none := by
          by_contra hc
          exact hfree (fun x hx => by
            by_contra hne
            exact hc ⟨x, hx, hne⟩)
        obtain ⟨t, c, h⟩ := s2 this
        refine ⟨t, c, ?_⟩
        simp only [steuermapOfRule]
        rw [h]; rfl

theorem steuermapOfRule_ok {ho : HashOrder} {steuer follow : NamedSetsNoEmpty} {rule : Nat}
    {types : List ElementType} {data : List ElementData} (ps : List Production) :
    ∀ {m m' : Steuermap}, steuermapOfRule ho steuer follow rule types data ps m = .ok m' →
      ∀ p ∈ ps, ∃ m1 m2, steuermapOfProduction ho steuer follow m1 p rule types data = .ok m2 := by
  induction ps with
  | nil => intro m m' _ p hp; simp at hp
  | cons q ps ih =>
    intro m m' h p hp
    simp only [steuermapOfRule] at h
    obtain ⟨m1, h1, h⟩ := Res.bind_eq_ok.mp h
    rcases List.mem_cons.mp hp with rfl | hp
    · exact ⟨m, m1, h1⟩
    · exact ih h p hp

/-! ### the whole table -/

/-- Correct and complete FIRST and FOLLOW tables. -/
structure Tables (pd : ParserData I) (start : Nat) (fs : NamedSets) (fo : NamedSetsNoEmpty) : Prop where
  finv : FInv pd fs
  fkeys : AMap.NodupKeys fs
  fnodup : SetsNodup fs
  fall : ∀ A ∈ AMap.keys pd.rules, pd.elementTypes[A]? = some .nonTerminal → A ∈ AMap.keys fs
  okeys : ∀ n, (∃ S, AMap.get fo n = some S) ↔ n ∈ AMap.keys pd.rules
  omem : ∀ n S, AMap.get fo n = some S → ∀ m, m ∈ S ↔ FollowMember (grammarOf pd) start n m
  onodup : SetsNodup fo

theorem tables_of {ho1 ho2 : HashOrder} {fuel1 fuel2 start : Nat} {pd : ParserData I} {fs : NamedSets}
    {fo : NamedSetsNoEmpty} (hlen : pd.elementTypes.length = pd.elementData.length)
    (hfs : getFirstSets ho1 fuel1 pd = .ok fs) (hfo : getFollowSets ho2 fuel2 start fs pd = .ok fo) :
    Tables pd start fs fo := by
  obtain ⟨h1, h2, -⟩ := getFollowSets_ok (getFirstSets_sound hfs).1 hlen hfo
  exact ⟨(getFirstSets_sound hfs).1, getFirstSets_nodupKeys hfs, getFirstSets_nodup hfs,
    fun A hA => ((getFirstSets_sound hfs).2 A hA).2, h1,
    fun n S hS m => (h2 n S hS m).trans followG_iff, getFollowSets_nodup hfo⟩

namespace Tables
variable {pd : ParserData I} {start : Nat} {fs : NamedSets} {fo : NamedSetsNoEmpty}

theorem steuer (t : Tables pd start fs fo) (ho : HashOrder) :
    ∃ st, getSteuerSets ho fs fo = .ok st ∧
      (∀ n, (∃ S, AMap.get st n = some S) ↔ ∃ S, AMap.get fs n = some S) ∧
      ∀ n S, AMap.get st n = some S → S.Nodup ∧
        ∀ m, m ∈ S ↔ SteuerMember (grammarOf pd) start n m := by
  obtain ⟨r, hr, hr2⟩ := (getSteuerSets_spec (ho := ho) (follow := fo) t.fkeys t.fnodup).1
    (fun n f hf _ => (t.okeys n).mpr (t.finv n f hf).2.2.2)
  refine ⟨r, hr, fun n => ?_, fun n S hS => ?_⟩
  · have := hr2 n
    cases hg : AMap.get fs n with
    | none => rw [hg] at this; simp [this]
    | some f => rw [hg] at this; obtain ⟨S, hS, -⟩ := this; simp [hS]
  · have := hr2 n
    cases hg : AMap.get fs n with
    | none => rw [hg] at this; simp [this] at hS
    | some f =>
      rw [hg] at this
      obtain ⟨S', hS', hn, hm⟩ := this
      rw [hS] at hS'; cases hS'
      refine ⟨hn, fun m => (hm m).trans ?_⟩
      obtain ⟨hF, -, -, hk⟩ := t.finv n f hg
      obtain ⟨F, hfo⟩ := (t.okeys n).mpr hk
      rw [SteuerOf, SteuerMember, hF.empty]
      refine or_congr ?_ (and_congr_right fun _ => ?_)
      · constructor
        · rintro ⟨e, he, hem⟩
          cases e with
          | char c =>
            simp only [SetMember.tryFrom, Option.some.injEq] at hem
            exact ⟨c, hem.symm, (hF.char c).mp he⟩
          | empty => simp [SetMember.tryFrom] at hem
          | terminate => exact absurd he hF.noTerm
        · rintro ⟨c, rfl, hc⟩
          exact ⟨.char c, (hF.char c).mpr hc, rfl⟩
      · rw [hfo]
        simp [t.omem n F hfo]

end Tables

theorem steuermapOfProduction_stepOk {pd : ParserData I} {start : Nat} {fs : NamedSets}
    {fo st : NamedSetsNoEmpty} (t : Tables pd start fs fo) (hw : WellFormed pd) (hd : AllDefined pd)
    {ho : HashOrder}
    (hst1 : ∀ n, (∃ S, AMap.get st n = some S) ↔ ∃ S, AMap.get fs n = some S)
    (hst2 : ∀ n S, AMap.get st n = some S → S.Nodup ∧
        ∀ m, m ∈ S ↔ SteuerMember (grammarOf pd) start n m)
    {A : Nat} {r : NTRule I} (hr : AMap.get pd.rules A = some r) {p : Production} (hp : p ∈ r.prods)
    (hne : ∀ e es d, p = .notEmpty (e :: es) → pd.elementTypes[e]? = some .terminal →
      pd.elementData[e]? = some d → d.name ≠ []) :
    StepOk (fun m => steuermapOfProduction ho st fo m p A pd.elementTypes pd.elementData) A p
      (Control pd start A p) := by
  intro m
  cases p with
  | empty =>
    obtain ⟨F, hF⟩ := (t.okeys A).mpr (AMap.mem_keys_iff.mpr ⟨r, hr⟩)
    obtain ⟨h1, h2⟩ := fillWithSteuerSet_spec (ho := ho) .empty A (t.onodup A F hF) m
    simp only [t.omem A F hF] at h1 h2
    simp only [steuermapOfProduction, hF, Res.ofOption_some, Res.bind_ok, Control]
    exact ⟨h1, h2⟩
  | notEmpty els =>
    cases els with
    | nil => exact absurd rfl (hw.nonEmpty A r hr _ hp)
    | cons e es =>
      have hlt := hw.inRange A r hr _ hp e (by simp [prodElems])
      have hT := List.getElem?_eq_getElem hlt
      have hD := List.getElem?_eq_getElem (hw.lengths ▸ hlt)
      cases htt : pd.elementTypes[e] with
      | terminal =>
        rw [htt] at hT
        have hnm := hne e es _ rfl hT hD
        cases hname : (pd.elementData[e]'(hw.lengths ▸ hlt)).name with
        | nil => exact absurd hname hnm
        | cons c cs =>
          have hC : ∀ x, Control pd start A (.notEmpty (e :: es)) x ↔ x = .char c := by
            intro x
            simp [Control, hT, hD, hname]
          have hstep : steuermapOfProduction ho st fo m (.notEmpty (e :: es)) A pd.elementTypes pd.elementData =
              match AMap.get m (.char c) with
              | some _ => .err (.steuerSetsNotDistinct (c :: cs) c A)
              | none => .ok (AMap.insert m (.char c) (.notEmpty (e :: es))) := by
            simp only [steuermapOfProduction, hT, hD, hname, Res.ofOption_some, Res.bind_ok, Res.unwrapO_some,
              List.head?_cons]
            cases AMap.get m (.char c) <;> rfl
          simp only [hC, hstep]
          constructor
          · intro h
            rw [h _ rfl]
            refine ⟨_, rfl, fun x q => ?_⟩
            rw [AMap.get_insert]
            by_cases hx : SetMember.char c = x
            · subst hx; rw [h _ rfl]; simp [eq_comm]
            · rw [if_neg hx]; simp [Ne.symm hx]
          · rintro ⟨x, rfl, hx⟩
            cases hg : AMap.get m (.char c) with
            | none => exact absurd hg hx
            | some q => exact ⟨_, _, rfl⟩
      | nonTerminal =>
        rw [htt] at hT
        obtain ⟨r', hr'⟩ := hd A r hr _ hp e (by simp [prodElems]) hT
        obtain ⟨S, hS⟩ := (hst1 e).mpr (AMap.mem_keys_iff.mp
          (t.fall e (AMap.mem_keys_iff.mpr ⟨r', hr'⟩) hT))
        obtain ⟨hn, hm⟩ := hst2 e S hS
        obtain ⟨h1, h2⟩ := fillWithSteuerSet_spec (ho := ho) (.notEmpty (e :: es)) A hn m
        have hC : ∀ x, Control pd start A (.notEmpty (e :: es)) x ↔ x ∈ S := by
          intro x
          simp [Control, hT, hm]
        simp only [hC]
        simp only [steuermapOfProduction, hT, hS, Res.ofOption_some, Res.bind_ok]
        exact ⟨h1, h2⟩

/-- The maps built for a grammar are correct: one entry per rule, the lookahead map is the control-set
map, instructions and ignore are copied. -/
def MapsOk (pd : ParserData I) (start : Nat) (maps : AMap Nat (NTRules I)) : Prop :=
  ∀ A, match AMap.get pd.rules A with
    | none => AMap.get maps A = none
    | some r => ∃ R, AMap.get maps A = some R ∧ R.instr = r.instr ∧ R.ignore = r.ignore ∧
        ∀ m p, AMap.get R.steuermap m = some p ↔ p ∈ r.prods ∧ Control pd start A p m

theorem getSteuermapsLoop_spec {pd : ParserData I} {fo st : NamedSetsNoEmpty}
    {ho : HashOrder} {C : Nat → Production → SetMember → Prop} (items : List (Nat × NTRule I)) :
    (items.map (·.1)).Nodup →
    (∀ q ∈ items, ∀ p ∈ q.2.prods,
      StepOk (fun m => steuermapOfProduction ho st fo m p q.1 pd.elementTypes pd.elementData) q.1 p (C q.1 p)) →
    ∀ acc : AMap Nat (NTRules I),
    ((∀ q ∈ items, q.2.prods.Pairwise (fun p p' => ∀ x, ¬ (C q.1 p x ∧ C q.1 p' x))) →
      ∃ maps, getSteuermapsLoop ho st fo pd items acc = .ok maps ∧
        ∀ A, match AMap.get items A with
          | none => AMap.get maps A = AMap.get acc A
          | some r => ∃ R, AMap.get maps A = some R ∧ R.instr = r.instr ∧ R.ignore = r.ignore ∧
              ∀ m p, AMap.get R.steuermap m = some p ↔ p ∈ r.prods ∧ C A p m) ∧
    (¬ (∀ q ∈ items, q.2.prods.Pairwise (fun p p' => ∀ x, ¬ (C q.1 p x ∧ C q.1 p' x))) →
      ∃ t c A, getSteuermapsLoop ho st fo pd items acc = .err (.steuerSetsNotDistinct t c A)) := by
  induction items with
  | nil => intro _ _ acc; exact ⟨fun _ => ⟨acc, rfl, fun A => rfl⟩, fun h => by simp at h⟩
  | cons q items ih =>
    intro hk hs acc
    obtain ⟨name, r⟩ := q
    simp only [List.map_cons, List.nodup_cons] at hk
    obtain ⟨h1, h2⟩ := steuermapOfRule_spec (C := C name) r.prods (hs (name, r) (by simp)) []
    have ih := ih hk.2 (fun q hq => hs q (by simp [hq]))
    by_cases hpw : r.prods.Pairwise (fun p p' => ∀ x, ¬ (C name p x ∧ C name p' x))
    · obtain ⟨m, hm1, hm2⟩ := h1 ⟨by simp, hpw⟩
      obtain ⟨ih1, ih2⟩ := ih (AMap.insert acc name ⟨m, r.ignore, r.instr⟩)
      have heq : getSteuermapsLoop ho st fo pd ((name, r) :: items) acc =
          getSteuermapsLoop ho st fo pd items (AMap.insert acc name ⟨m, r.ignore, r.instr⟩) := by
        simp only [getSteuermapsLoop, hm1, Res.bind_ok]
      rw [heq]
      constructor
      · intro h
        obtain ⟨maps, hmaps, hA⟩ := ih1 (fun q hq => h q (by simp [hq]))
        refine ⟨maps, hmaps, fun A => ?_⟩
        have := hA A
        rw [AMap.get_cons]
        by_cases hn : name = A
        · subst hn
          rw [AMap.get_eq_none_iff.mpr hk.1] at this
          simp only [if_true]
          refine ⟨_, by rw [this]; simp; rfl, rfl, rfl, ?_⟩
          intro x p
          rw [hm2]; simp
        · rw [if_neg hn]
          cases hg : AMap.get items A with
          | some f => rw [hg] at this; exact this
          | none => rw [hg] at this; rw [this, AMap.get_insert_ne _ _ hn]
      · intro h
        exact ih2 (fun hc => h (by
          intro q hq
          rcases List.mem_cons.mp hq with rfl | hq
          · exact hpw
          · exact hc q hq))
    · constructor
      · intro h
        exact absurd (h (name, r) (by simp)) hpw
      · intro _
        obtain ⟨t, c, h⟩ := h2 (fun hc => hpw hc.2)
        exact ⟨t, c, name, by simp only [getSteuermapsLoop, h]; rfl⟩

/-- Conflict detection on correct tables. -/
theorem getSteuermaps_spec {pd : ParserData I} {start : Nat} {fs : NamedSets} {fo : NamedSetsNoEmpty}
    (t : Tables pd start fs fo) (hw : WellFormed pd) (hd : AllDefined pd)
    (hne : NoLeadingEmptyTerminal pd) (ho : HashOrder) :
    (ControlDisjoint pd start → ∃ maps, getSteuermaps ho fs fo pd = .ok maps ∧ MapsOk pd start maps) ∧
    (¬ ControlDisjoint pd start →
      ∃ t c A, getSteuermaps ho fs fo pd = .err (.steuerSetsNotDistinct t c A)) := by
  obtain ⟨st, hst, hst1, hst2⟩ := t.steuer ho
  have hp := ho.perm 7 (Nat × NTRule I) pd.rules
  have hk : AMap.NodupKeys pd.rules := hw.rulesNodup
  have hmem : ∀ q, q ∈ ho.iter 7 (Nat × NTRule I) pd.rules ↔ AMap.get pd.rules q.1 = some q.2 := by
    intro q
    rw [hp.mem_iff, AMap.get_eq_some_iff hk]
  obtain ⟨h1, h2⟩ := getSteuermapsLoop_spec (pd := pd) (fo := fo) (st := st) (ho := ho)
    (C := Control pd start) (ho.iter 7 (Nat × NTRule I) pd.rules) (hk.perm hp)
    (fun q hq p hp => steuermapOfProduction_stepOk t hw hd hst1 hst2 ((hmem q).mp hq) hp
      (fun e es d he hT hD => hne q.1 q.2 ((hmem q).mp hq) e es (he ▸ hp) hT d hD)) []
  have hdis : ControlDisjoint pd start ↔ ∀ q ∈ ho.iter 7 (Nat × NTRule I) pd.rules,
      q.2.prods.Pairwise (fun p p' => ∀ x, ¬ (Control pd start q.1 p x ∧ Control pd start q.1 p' x)) := by
    constructor
    · intro h q hq; exact h q.1 q.2 ((hmem q).mp hq)
    · intro h A r hr; exact h (A, r) ((hmem (A, r)).mpr hr)
  have heq : getSteuermaps ho fs fo pd =
      getSteuermapsLoop ho st fo pd (ho.iter 7 (Nat × NTRule I) pd.rules) [] := by
    simp only [getSteuermaps, hst, Res.bind_ok]
  rw [heq, hdis]
  refine ⟨fun h => ?_, h2⟩
  obtain ⟨maps, hm1, hm2⟩ := h1 h
  refine ⟨maps, hm1, fun A => ?_⟩
  have := hm2 A
  rw [AMap.get_perm hk hp] at this
  exact this

theorem getSteuermapsLoop_ok {pd : ParserData I} {fo st : NamedSetsNoEmpty} {ho : HashOrder}
    (items : List (Nat × NTRule I)) : ∀ {acc maps},
    getSteuermapsLoop ho st fo pd items acc = .ok maps →
    ∀ q ∈ items, ∃ m', steuermapOfRule ho st fo q.1 pd.elementTypes pd.elementData q.2.prods [] = .ok m' := by
  induction items with
  | nil => intro _ _ _ q hq; simp at hq
  | cons x items ih =>
    intro acc maps h q hq
    obtain ⟨name, r⟩ := x
    simp only [getSteuermapsLoop] at h
    obtain ⟨m, hm, h⟩ := Res.bind_eq_ok.mp h
    rcases List.mem_cons.mp hq with rfl | hq
    · exact ⟨m, hm⟩
    · exact ih h q hq

/-- If the maps are built, no alternative begins with the empty terminal. -/
theorem getSteuermaps_ok_noEmpty {pd : ParserData I} {fs : NamedSets} {fo : NamedSetsNoEmpty}
    {ho : HashOrder} {maps : AMap Nat (NTRules I)}
    (h : getSteuermaps ho fs fo pd = .ok maps) : NoLeadingEmptyTerminal pd := by
  intro A r hr e es hp hT d hD hnil
  simp only [getSteuermaps] at h
  obtain ⟨st, _, h⟩ := Res.bind_eq_ok.mp h
  have hmem : (A, r) ∈ ho.iter 7 (Nat × NTRule I) pd.rules := by
    rw [(ho.perm 7 (Nat × NTRule I) pd.rules).mem_iff]
    exact AMap.mem_of_get hr
  obtain ⟨m', hm'⟩ := getSteuermapsLoop_ok _ h (A, r) hmem
  obtain ⟨m1, m2, h1⟩ := steuermapOfRule_ok _ hm' _ hp
  simp [steuermapOfProduction, hT, hD, hnil] at h1

/-! ### construction -/

theorem elementsVerboseFrom_spec {ε : Type} (types : List ElementType) (ds : List ElementData) :
    ∀ ix, ix + ds.length = types.length → ∃ els, (ParserData.elementsVerboseFrom types ix ds : Res ε _) = .ok els ∧
      els.length = ds.length ∧
      ∀ i (d : ElementData), ds[i]? = some d → ∃ et, types[ix + i]? = some et ∧ els[i]? = some ⟨d.name, et⟩ := by
  induction ds with
  | nil => intro ix _; exact ⟨[], rfl, rfl, by simp⟩
  | cons d ds ih =>
    intro ix hl
    simp only [List.length_cons] at hl
    obtain ⟨els, h1, h2, h3⟩ := ih (ix + 1) (by omega)
    have hlt : ix < types.length := by omega
    refine ⟨⟨d.name, types[ix]⟩ :: els, ?_, by simp [h2], ?_⟩
    · simp only [ParserData.elementsVerboseFrom, List.getElem?_eq_getElem hlt, Res.unwrapO_some, Res.bind_ok, h1]
      rfl
    · intro i d' hd'
      cases i with
      | zero =>
        simp at hd'; subst hd'
        exact ⟨types[ix], by simp, by simp⟩
      | succ i =>
        simp at hd'
        obtain ⟨et, h4, h5⟩ := h3 i d' hd'
        refine ⟨et, ?_, by simpa using h5⟩
        rw [← h4]; congr 1; omega

/-- The element table of the parser is the element table of the data. -/
def ElementsOk (pd : ParserData I) (els : List ElementVerbose) : Prop :=
  els.length = pd.elementData.length ∧ ∀ i, els[i]? = pd.getElementVerbose i

theorem getElementsVerbose_spec {ε : Type} {pd : ParserData I} (hw : WellFormed pd) :
    ∃ els, (pd.getElementsVerbose : Res ε _) = .ok els ∧ ElementsOk pd els := by
  obtain ⟨els, h1, h2, h3⟩ := elementsVerboseFrom_spec (ε := ε) pd.elementTypes pd.elementData 0
    (by simp [hw.lengths])
  refine ⟨els, h1, h2, fun i => ?_⟩
  simp only [ParserData.getElementVerbose]
  by_cases hi : i < pd.elementData.length
  · obtain ⟨et, h4, h5⟩ := h3 i _ (List.getElem?_eq_getElem hi)
    simp only [Nat.zero_add] at h4
    rw [h5, List.getElem?_eq_getElem hi, h4]
  · rw [List.getElem?_eq_none (by omega), List.getElem?_eq_none (by omega)]

/-! ### steuer maps have no duplicate keys -/

theorem fillLoop_nodup {prod : Production} {rule : Nat} (xs : List SetMember) :
    ∀ {m m' : Steuermap}, AMap.NodupKeys m → fillLoop prod rule xs m = .ok m' → AMap.NodupKeys m' := by
  induction xs with
  | nil => intro m m' hn h; simp only [fillLoop, Res.ok.injEq] at h; exact h ▸ hn
  | cons x xs ih =>
    intro m m' hn h
    simp only [fillLoop] at h
    split at h
    · cases h
    · exact ih (hn.insert _ _) h

theorem steuermapOfProduction_nodup {ho : HashOrder} {st fo : NamedSetsNoEmpty} {m m' : Steuermap}
    {prod : Production} {rule : Nat} {types : List ElementType} {data : List ElementData}
    (hn : AMap.NodupKeys m) (h : steuermapOfProduction ho st fo m prod rule types data = .ok m') :
    AMap.NodupKeys m' := by
  unfold steuermapOfProduction at h
  split at h
  · cases h
  · obtain ⟨et, -, h⟩ := Res.bind_eq_ok.mp h
    split at h
    · obtain ⟨d, -, h⟩ := Res.bind_eq_ok.mp h
      obtain ⟨ch, -, h⟩ := Res.bind_eq_ok.mp h
      split at h
      · cases h
      · simp only [Res.ok.injEq] at h
        exact h ▸ hn.insert _ _
    · obtain ⟨s, -, h⟩ := Res.bind_eq_ok.mp h
      exact fillLoop_nodup _ hn h
  · obtain ⟨s, -, h⟩ := Res.bind_eq_ok.mp h
    exact fillLoop_nodup _ hn h

theorem steuermapOfRule_nodup {ho : HashOrder} {st fo : NamedSetsNoEmpty}
    {rule : Nat} {types : List ElementType} {data : List ElementData} (ps : List Production) :
    ∀ {m m' : Steuermap}, AMap.NodupKeys m → steuermapOfRule ho st fo rule types data ps m = .ok m' →
    AMap.NodupKeys m' := by
  induction ps with
  | nil => intro m m' hn h; simp only [steuermapOfRule, Res.ok.injEq] at h; exact h ▸ hn
  | cons p ps ih =>
    intro m m' hn h
    simp only [steuermapOfRule] at h
    obtain ⟨m1, h1, h⟩ := Res.bind_eq_ok.mp h
    exact ih (steuermapOfProduction_nodup hn h1) h

theorem getSteuermapsLoop_nodup {ho : HashOrder} {st fo : NamedSetsNoEmpty} {pd : ParserData I}
    (items : List (Nat × NTRule I)) : ∀ {acc maps : AMap Nat (NTRules I)},
    (∀ A R, AMap.get acc A = some R → AMap.NodupKeys R.steuermap) →
    getSteuermapsLoop ho st fo pd items acc = .ok maps →
    ∀ A R, AMap.get maps A = some R → AMap.NodupKeys R.steuermap := by
  induction items with
  | nil => intro acc maps hn h; simp only [getSteuermapsLoop, Res.ok.injEq] at h; exact h ▸ hn
  | cons x items ih =>
    obtain ⟨n, r⟩ := x
    intro acc maps hn h
    simp only [getSteuermapsLoop] at h
    obtain ⟨m1, h1, h⟩ := Res.bind_eq_ok.mp h
    refine ih (fun A R hR => ?_) h
    rw [AMap.get_insert] at hR
    split at hR
    · cases hR
      exact steuermapOfRule_nodup _ AMap.NodupKeys.nil h1
    · exact hn A R hR

theorem getSteuermaps_nodup {ho : HashOrder} {fs : NamedSets} {fo : NamedSetsNoEmpty} {pd : ParserData I}
    {maps : AMap Nat (NTRules I)} (h : getSteuermaps ho fs fo pd = .ok maps) :
    ∀ A R, AMap.get maps A = some R → AMap.NodupKeys R.steuermap := by
  simp only [getSteuermaps] at h
  obtain ⟨st, -, h⟩ := Res.bind_eq_ok.mp h
  exact getSteuermapsLoop_nodup _ (by intro A R h; simp at h) h

/-- A parser that is correct for the data: this is all that later theorems use about it. -/
structure ParserFor (pd : ParserData I) (start : Nat) (P : Parser I) : Prop where
  rules : MapsOk pd start P.rules
  elements : ElementsOk pd P.elements
  nodup : ∀ A R, AMap.get P.rules A = some R → AMap.NodupKeys R.steuermap

theorem leftRecursive_mem_keys {pd : ParserData I} {A : Nat} (h : LeftRecursive (grammarOf pd) A) :
    A ∈ AMap.keys pd.rules := by
  obtain ⟨v, hv⟩ := h
  obtain ⟨w, hw, -⟩ := derivesPlus_nt_iff.mp hv
  obtain ⟨r, hr, -⟩ := hw
  exact AMap.mem_keys_iff.mpr ⟨r, hr⟩

/-! ### more fuel does not change a FIRST table -/

/-- `rec'` succeeds, with the same result, whenever `rec` does. -/
def RecLe (rec rec' : FirstRec) : Prop := ∀ el fs r, rec el fs = .ok r → rec' el fs = .ok r

theorem firstOfProdLoop_le {rec rec' : FirstRec} (h : RecLe rec rec') (els : List Nat) :
    ∀ M fs r, firstOfProdLoop rec els M fs = .ok r → firstOfProdLoop rec' els M fs = .ok r := by
  induction els with
  | nil => intro M fs r heq; exact heq
  | cons e es ih =>
    intro M fs r heq
    simp only [firstOfProdLoop] at heq ⊢
    obtain ⟨⟨c, fs1⟩, h1, heq⟩ := Res.bind_eq_ok.mp heq
    rw [h _ _ _ h1]
    simp only [Res.bind_ok]
    simp only at heq
    split at heq
    · next hc => rw [if_pos hc]; exact heq
    · next hc => rw [if_neg hc]; exact ih _ _ _ heq

theorem firstOfProds_le {rec rec' : FirstRec} (h : RecLe rec rec') (ps : List Production) :
    ∀ M fs r, firstOfProds rec ps M fs = .ok r → firstOfProds rec' ps M fs = .ok r := by
  induction ps with
  | nil => intro M fs r heq; exact heq
  | cons p ps ih =>
    intro M fs r heq
    simp only [firstOfProds] at heq ⊢
    obtain ⟨⟨c, fs1⟩, h1, heq⟩ := Res.bind_eq_ok.mp heq
    have h2 : firstOfProd rec' p fs = .ok (c, fs1) := by
      cases p with
      | empty => exact h1
      | notEmpty els =>
        cases els with
        | nil => exact h1
        | cons e es =>
          simp only [firstOfProd] at h1 ⊢
          obtain ⟨⟨c', fs2⟩, h3, h1⟩ := Res.bind_eq_ok.mp h1
          rw [h _ _ _ h3]
          simp only [Res.bind_ok]
          simp only at h1
          split at h1
          · next hc => rw [if_pos hc]; exact firstOfProdLoop_le h _ _ _ _ h1
          · next hc => rw [if_neg hc]; exact h1
    rw [h2]
    exact ih _ _ _ heq

theorem getSet_le (pd : ParserData I) (fuel : Nat) :
    RecLe (getSetFirstSetOfElement pd fuel) (getSetFirstSetOfElement pd (fuel + 1)) := by
  induction fuel with
  | zero => intro el fs r h; simp [getSetFirstSetOfElement] at h
  | succ fuel ih =>
    intro el fs r h
    rw [getSetFirstSetOfElement] at h ⊢
    obtain ⟨o, h1, h⟩ := Res.bind_eq_ok.mp h
    rw [h1, Res.bind_ok]
    cases o with
    | some x => exact h
    | none =>
      simp only at h ⊢
      split at h
      · simp at h
      · obtain ⟨⟨S, fs1⟩, h2, h⟩ := Res.bind_eq_ok.mp h
        rw [firstOfProds_le ih _ _ _ _ h2]
        exact h

theorem getFirstSets_mono {ho : HashOrder} {fuel : Nat} {pd : ParserData I} {fs : NamedSets}
    (h : getFirstSets ho fuel pd = .ok fs) {fuel' : Nat} (hf : fuel ≤ fuel') :
    getFirstSets ho fuel' pd = .ok fs := by
  induction hf with
  | refl => exact h
  | @step m _ ih =>
    have key : ∀ (els : List Nat) fs0 fs, getFirstSetsLoop pd m els fs0 = .ok fs →
        getFirstSetsLoop pd (m + 1) els fs0 = .ok fs := by
      intro els
      induction els with
      | nil => intro fs0 fs h; exact h
      | cons e es ih =>
        intro fs0 fs h
        simp only [getFirstSetsLoop] at h ⊢
        obtain ⟨⟨S, fs1⟩, h2, h⟩ := Res.bind_eq_ok.mp h
        rw [getSet_le pd m _ _ _ h2]
        exact ih _ _ h
    exact key _ _ _ ih

/-- Everything that construction guarantees. -/
theorem newFromParserData_ok {ho : HashOrder} {fuel start : Nat} {pd : ParserData I} (hw : WellFormed pd)
    {P : Parser I} (h : Parser.newFromParserData ho fuel pd start = .ok P) :
    Acceptable pd start ∧ ParserFor pd start P := by
  simp only [Parser.newFromParserData] at h
  obtain ⟨fs, hfs, h⟩ := Res.bind_eq_ok.mp h
  obtain ⟨fo, hfo, h⟩ := Res.bind_eq_ok.mp h
  obtain ⟨els, hels, h⟩ := Res.bind_eq_ok.mp h
  obtain ⟨maps, hmaps, h⟩ := Res.bind_eq_ok.mp h
  rw [Res.unwrap_eq_ok] at hfs hfo hmaps
  simp only [Res.pure_def, Res.ok.injEq, Parser.new] at h
  subst h
  have t := tables_of hw.lengths hfs hfo
  obtain ⟨-, -, h3, h4, h5⟩ := getFollowSets_ok t.finv hw.lengths hfo
  have hd : AllDefined pd := by
    intro A r hr p hp e he hT
    exact AMap.mem_keys_iff.mp ((h5 (A, r) (AMap.mem_of_get hr) p hp e he).2 hT)
  have hne := getSteuermaps_ok_noEmpty hmaps
  obtain ⟨g1, g2⟩ := getSteuermaps_spec t hw hd hne ho
  have hdis : ControlDisjoint pd start := by
    by_contra hc
    obtain ⟨t, c, A, he⟩ := g2 hc
    rw [hmaps] at he; cases he
  obtain ⟨maps', hm1, hm2⟩ := g1 hdis
  rw [hmaps] at hm1; cases hm1
  refine ⟨⟨AMap.mem_keys_iff.mp h3, hd, ?_, hne, hdis⟩, ?_⟩
  · intro A hlr
    by_cases hA : A ∈ AMap.keys pd.rules
    · exact FirstGood.not_leftRecursive hw.keysNT ((getFirstSets_sound hfs).2 A hA).1 hlr
    · exact hA (leftRecursive_mem_keys hlr)
  · obtain ⟨els', he1, he2⟩ := getElementsVerbose_spec (ε := PErr) hw
    rw [hels] at he1; cases he1
    exact ⟨hm2, he2, getSteuermaps_nodup hmaps⟩

/-- Construction succeeds on every acceptable grammar. -/
theorem newFromParserData_succeeds {start : Nat} {pd : ParserData I} (hw : WellFormed pd)
    (ha : Acceptable pd start) (ho : HashOrder) :
    ∃ N, ∀ fuel, N ≤ fuel → ∃ P, Parser.newFromParserData ho fuel pd start = .ok P := by
  obtain ⟨N1, h1⟩ := getFirstSets_complete (firstGood_of_not_leftRecursive hw ha.defined ha.noLeftRec)
  obtain ⟨fs, hfs⟩ := h1 N1 (Nat.le_refl _) ho
  obtain ⟨r0, hr0⟩ := ha.startDefined
  obtain ⟨N2, h2⟩ := getFollowSets_succeeds (getFirstSets_sound hfs).1 hw ha.defined
    (AMap.mem_keys_iff.mpr ⟨_, hr0⟩) (fun n hn => by
      obtain ⟨r, hr⟩ := AMap.mem_keys_iff.mp hn
      exact ((getFirstSets_sound hfs).2 n hn).2 (hw.keysNT n r hr)) ho
  refine ⟨max N1 N2, fun fuel hf => ?_⟩
  have hfs' := getFirstSets_mono hfs (fuel' := fuel) (by omega)
  obtain ⟨fo, hfo⟩ := h2 fuel (by omega)
  obtain ⟨els, hels, -⟩ := getElementsVerbose_spec (ε := PErr) hw
  obtain ⟨maps, hmaps, -⟩ := (getSteuermaps_spec (tables_of hw.lengths hfs' hfo) hw ha.defined
    ha.noEmptyTerminal ho).1 ha.disjoint
  exact ⟨Parser.new maps els, by
    simp only [Parser.newFromParserData, hfs', hfo, hels, hmaps, Res.unwrap_ok, Res.bind_ok, Res.pure_def]⟩

end HPP
