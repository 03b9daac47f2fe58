import Verif.Model.Follow
import Verif.Proofs.NamedGraph
import Verif.Proofs.FollowSpec
import Verif.Proofs.FirstTerm
/-
Correctness and termination of the FOLLOW computation.
-/
namespace HPP
open Spec Function Relation
variable {I : Type}

/-- `m` is in the data of node index `j`. -/
def InD (data : List (List SetMember)) (j : Nat) (m : SetMember) : Prop :=
  ∃ d, data[j]? = some d ∧ m ∈ d

theorem InD.lt {data : List (List SetMember)} {j : Nat} {m : SetMember} (h : InD data j m) :
    j < data.length := by
  obtain ⟨d, hd, _⟩ := h
  exact (List.getElem?_eq_some_iff.mp hd).1

theorem inD_set {data : List (List SetMember)} {i : Nat} {d x : List SetMember}
    (hi : data[i]? = some d) {j : Nat} {m : SetMember} :
    InD (data.set i x) j m ↔ (j = i ∧ m ∈ x) ∨ (j ≠ i ∧ InD data j m) := by
  have hlt := (List.getElem?_eq_some_iff.mp hi).1
  unfold InD
  by_cases h : j = i
  · subst h; simp [hlt]
  · rw [List.getElem?_set_ne (by omega)]; simp [h]

theorem inD_extend {data : List (List SetMember)} {i : Nat} {d ms : List SetMember}
    (hi : data[i]? = some d) {j : Nat} {m : SetMember} :
    InD (data.set i (setExtend d ms)) j m ↔ InD data j m ∨ (j = i ∧ m ∈ ms) := by
  rw [inD_set hi]
  by_cases h : j = i
  · subst h
    simp only [mem_setExtend, true_and, ne_eq, not_true_eq_false, false_and, or_false]
    simp [InD, hi]
  · simp [h]

/-! ### Propagation -/

theorem missing_mem {data : List SetMember} {j : Nat} {ms : List SetMember}
    (succ : List (Nat × GNode (List SetMember))) :
    (j, ms) ∈ missingInSuccessors data succ ↔
      ∃ nd, (j, nd) ∈ succ ∧ ms = data.filter (fun x => decide (x ∉ nd.data)) ∧ ms ≠ [] := by
  induction succ with
  | nil => simp [missingInSuccessors]
  | cons p succ ih =>
    obtain ⟨si, s⟩ := p
    simp only [missingInSuccessors]
    split
    · next hall =>
      rw [ih]
      constructor
      · rintro ⟨nd, h1, h2⟩; exact ⟨nd, List.mem_cons_of_mem _ h1, h2⟩
      · rintro ⟨nd, h1, h2, h3⟩
        rcases List.mem_cons.mp h1 with h1 | h1
        · exfalso
          cases h1
          apply h3
          rw [h2, List.filter_eq_nil_iff]
          intro x hx
          have := List.all_eq_true.mp hall x hx
          simpa using this
        · exact ⟨nd, h1, h2, h3⟩
    · next hall =>
      rw [List.mem_cons, ih]
      have hne : data.filter (fun x => decide (x ∉ s.data)) ≠ [] := by
        intro hf
        apply hall
        rw [List.filter_eq_nil_iff] at hf
        rw [List.all_eq_true]
        intro x hx
        simpa using hf x hx
      constructor
      · rintro (h | ⟨nd, h1, h2⟩)
        · cases h; exact ⟨s, by simp, rfl, hne⟩
        · exact ⟨nd, List.mem_cons_of_mem _ h1, h2⟩
      · rintro ⟨nd, h1, h2, h3⟩
        rcases List.mem_cons.mp h1 with h1 | h1
        · cases h1; exact .inl (by rw [h2])
        · exact .inr ⟨nd, h1, h2, h3⟩

section
variable {g : FollowGraph} {data : List (List SetMember)} {out : Nat → List (Nat × Nat)}

/-- The outcome of the collection phase. -/
theorem collectRound_spec (h : NRep g data out) (items : List (Nat × Nat))
    (hit : ∀ p ∈ items, AMap.get g.names p.1 = some p.2) :
    ∃ todo, collectRound g items = .ok todo ∧ ∀ j ms, (j, ms) ∈ todo ↔
      ∃ p ∈ items, EdgeI out p.2 j ∧ ∃ d d', data[p.2]? = some d ∧ data[j]? = some d' ∧
        ms = d.filter (fun x => decide (x ∉ d')) ∧ ms ≠ [] := by
  induction items with
  | nil => exact ⟨[], rfl, by simp⟩
  | cons p items ih =>
    obtain ⟨todo, h1, h2⟩ := ih (fun q hq => hit q (by simp [hq]))
    have hp := hit p (by simp)
    obtain ⟨name, i⟩ := p
    simp only at hp
    have hi := h.lt name i hp
    obtain ⟨nd, hnd, hdd⟩ := h.getNodeByIndex (List.getElem?_eq_getElem hi)
    obtain ⟨succ, hs1, hs2⟩ := h.successors hp
    refine ⟨missingInSuccessors nd.data succ ++ todo, ?_, ?_⟩
    · simp [collectRound, hnd, hs1, h1]
    · intro j ms
      rw [List.mem_append, missing_mem, h2, hdd]
      have hsucc : ∀ d', (∃ nd', (j, nd') ∈ succ ∧ nd'.data = d') ↔ EdgeI out i j ∧ data[j]? = some d' := by
        intro d'
        have hmem : (∃ nd', (j, nd') ∈ succ ∧ nd'.data = d') ↔
            (j, d') ∈ succ.map (fun p => (p.1, p.2.data)) := by
          simp only [List.mem_map, Prod.mk.injEq, Prod.exists]
          constructor
          · rintro ⟨nd', h3, h4⟩; exact ⟨j, nd', h3, rfl, h4⟩
          · rintro ⟨j', nd', h3, rfl, h4⟩; exact ⟨nd', h3, h4⟩
        rw [hmem, hs2]
        simp only [List.mem_filterMap, Option.map_eq_some_iff, Prod.mk.injEq]
        constructor
        · rintro ⟨⟨id, j'⟩, h3, d, h4, rfl, rfl⟩
          exact ⟨⟨id, h3⟩, h4⟩
        · rintro ⟨⟨id, h3⟩, h4⟩
          exact ⟨(id, j), h3, d', h4, rfl, rfl⟩
      constructor
      · rintro (⟨nd', h3, h4, h5⟩ | ⟨p, h3, h4⟩)
        · obtain ⟨h6, h7⟩ := (hsucc nd'.data).mp ⟨nd', h3, rfl⟩
          exact ⟨(name, i), by simp, h6, _, _, List.getElem?_eq_getElem hi, h7, h4, h5⟩
        · exact ⟨p, by simp [h3], h4⟩
      · rintro ⟨p, h3, h4, d, d', h5, h6, h7, h8⟩
        rcases List.mem_cons.mp h3 with rfl | h3
        · left
          obtain ⟨nd', h9, rfl⟩ := (hsucc d').mpr ⟨h4, h6⟩
          simp only at h5
          rw [List.getElem?_eq_getElem hi] at h5
          cases h5
          exact ⟨nd', h9, h7, h8⟩
        · exact .inr ⟨p, h3, h4, d, d', h5, h6, h7, h8⟩

/-- The update phase. -/
theorem applyRound_spec (todo : List (Nat × List SetMember)) :
    ∀ {g : FollowGraph} {data : List (List SetMember)}, NRep g data out →
    (∀ p ∈ todo, p.1 < data.length) →
    ∃ g' data', applyRound todo g = .ok g' ∧ NRep g' data' out ∧ g'.names = g.names ∧
      data'.length = data.length ∧
      ∀ j m, InD data' j m ↔ InD data j m ∨ ∃ ms, (j, ms) ∈ todo ∧ m ∈ ms := by
  induction todo with
  | nil => intro g data h _; exact ⟨g, data, rfl, h, rfl, rfl, by simp⟩
  | cons p todo ih =>
    intro g data h hlt
    obtain ⟨i, ms⟩ := p
    have hi : i < data.length := hlt (i, ms) (by simp)
    have hd := List.getElem?_eq_getElem hi
    obtain ⟨g1, hg1, hr1, hn1⟩ := h.modifyNodeByIndex hd (fun d => setExtend d ms)
    obtain ⟨g2, data2, hg2, hr2, hn2, hl2, hm2⟩ := ih hr1 (by
      intro p hp; simpa using hlt p (by simp [hp]))
    refine ⟨g2, data2, ?_, hr2, hn2.trans hn1, by simpa using hl2, ?_⟩
    · simp only [applyRound, hg1, Res.bind_ok]; exact hg2
    · intro j m
      rw [hm2, inD_extend hd]
      constructor
      · rintro ((h3 | ⟨rfl, h3⟩) | ⟨ms', h3, h4⟩)
        · exact .inl h3
        · exact .inr ⟨ms, by simp, h3⟩
        · exact .inr ⟨ms', by simp [h3], h4⟩
      · rintro (h3 | ⟨ms', h3, h4⟩)
        · exact .inl (.inl h3)
        · rcases List.mem_cons.mp h3 with h3 | h3
          · cases h3; exact .inl (.inr ⟨rfl, h4⟩)
          · exact .inr ⟨ms', h3, h4⟩

/-- One complete round. -/
theorem round_spec (h : NRep g data out) (ho : HashOrder) :
    ∃ todo g' data', collectRound g (ho.iter 4 (Nat × Nat) g.names) = .ok todo ∧
      applyRound todo g = .ok g' ∧ NRep g' data' out ∧ g'.names = g.names ∧
      data'.length = data.length ∧
      (∀ j m, InD data' j m ↔ InD data j m ∨ ∃ i, EdgeI out i j ∧ InD data i m) ∧
      (todo = [] → g' = g ∧ ∀ i j m, EdgeI out i j → InD data i m → InD data j m) ∧
      (todo ≠ [] → ∃ j m, InD data' j m ∧ ¬ InD data j m) := by
  obtain ⟨todo, h1, h2⟩ := collectRound_spec h (ho.iter 4 (Nat × Nat) g.names) (by
    intro p hp
    exact AMap.get_of_mem h.keysNodup ((ho.perm 4 _ g.names).mem_iff.mp hp))
  have hlt : ∀ p ∈ todo, p.1 < data.length := by
    intro p hp
    obtain ⟨_, _, ⟨id, hid⟩, _⟩ := (h2 p.1 p.2).mp hp
    exact h.tgt _ _ hid
  obtain ⟨g', data', h3, h4, h5, h6, h7⟩ := applyRound_spec todo h hlt
  have hnew : ∀ j m, (∃ ms, (j, ms) ∈ todo ∧ m ∈ ms) ↔
      (∃ i, EdgeI out i j ∧ InD data i m) ∧ ¬ InD data j m := by
    intro j m
    constructor
    · rintro ⟨ms, h8, h9⟩
      obtain ⟨p, hp, he, d, d', hd, hd', rfl, _⟩ := (h2 j ms).mp h8
      simp only [List.mem_filter, decide_eq_true_eq] at h9
      refine ⟨⟨p.2, he, d, hd, h9.1⟩, ?_⟩
      rintro ⟨d'', hd'', h10⟩
      rw [hd'] at hd''; cases hd''
      exact h9.2 h10
    · rintro ⟨⟨i, he, d, hd, hm⟩, hnot⟩
      have hi := (List.getElem?_eq_some_iff.mp hd).1
      obtain ⟨n, hn⟩ := h.surj i hi
      obtain ⟨id, hid⟩ := he
      have hj := h.tgt i _ hid
      have hdj : data[j]? = some data[j] := List.getElem?_eq_getElem hj
      have hm' : m ∈ d.filter (fun x => decide (x ∉ data[j])) := by
        simp only [List.mem_filter, decide_eq_true_eq]
        exact ⟨hm, fun hc => hnot ⟨_, hdj, hc⟩⟩
      refine ⟨_, (h2 j _).mpr ⟨(n, i), ?_, ⟨id, hid⟩, d, data[j], hd, hdj, rfl, ?_⟩, hm'⟩
      · exact (ho.perm 4 _ g.names).mem_iff.mpr (AMap.mem_of_get hn)
      · exact List.ne_nil_of_mem hm'
  refine ⟨todo, g', data', h1, h3, h4, h5, h6, ?_, ?_, ?_⟩
  · intro j m
    rw [h7, hnew]
    constructor
    · rintro (h8 | ⟨h8, _⟩)
      · exact .inl h8
      · exact .inr h8
    · rintro (h8 | h8)
      · exact .inl h8
      · by_cases h9 : InD data j m
        · exact .inl h9
        · exact .inr ⟨h8, h9⟩
  · rintro rfl
    simp only [applyRound, Res.ok.injEq] at h3
    refine ⟨h3.symm, ?_⟩
    intro i j m he hi
    by_contra hc
    have := (hnew j m).mpr ⟨⟨i, he, hi⟩, hc⟩
    simp at this
  · intro hne
    obtain ⟨⟨j, ms⟩, hp⟩ := List.exists_mem_of_ne_nil _ hne
    obtain ⟨p, _, _, d, d', _, _, _, hms⟩ := (h2 j ms).mp hp
    obtain ⟨m, hm⟩ := List.exists_mem_of_ne_nil _ hms
    have := (hnew j m).mp ⟨ms, hp, hm⟩
    exact ⟨j, m, (h7 j m).mpr (.inr ⟨ms, hp, hm⟩), this.2⟩

/-- Number of (node, member of `U`) pairs that are missing. -/
def missingCount (U : List SetMember) (data : List (List SetMember)) : Nat :=
  (data.map (fun d => (U.filter (fun x => decide (x ∉ d))).length)).sum

theorem filter_le {U d d' : List SetMember} (hs : ∀ m, m ∈ d → m ∈ d') :
    (U.filter (fun x => decide (x ∉ d'))).length ≤ (U.filter (fun x => decide (x ∉ d))).length := by
  induction U with
  | nil => simp
  | cons u U ih =>
    simp only [List.filter_cons]
    by_cases h1 : u ∈ d
    · have := hs u h1
      simpa [h1, this] using ih
    · by_cases h2 : u ∈ d'
      · simp only [h2, not_true_eq_false, decide_false, Bool.false_eq_true, ↓reduceIte, h1,
          not_false_eq_true, decide_true, List.length_cons]
        omega
      · simpa [h1, h2] using ih

theorem filter_lt {U d d' : List SetMember} (hs : ∀ m, m ∈ d → m ∈ d') {m : SetMember}
    (hm : m ∈ U) (hm' : m ∈ d') (hn : m ∉ d) :
    (U.filter (fun x => decide (x ∉ d'))).length < (U.filter (fun x => decide (x ∉ d))).length := by
  induction U with
  | nil => simp at hm
  | cons u U ih =>
    simp only [List.filter_cons]
    rcases List.mem_cons.mp hm with rfl | hm
    · have := filter_le (U := U) hs
      simp only [hm', not_true_eq_false, decide_false, Bool.false_eq_true, ↓reduceIte, hn,
        not_false_eq_true, decide_true, List.length_cons]
      omega
    · have ih := ih hm
      by_cases h1 : u ∈ d
      · have := hs u h1
        simpa [h1, this] using ih
      · by_cases h2 : u ∈ d'
        · simp only [h2, not_true_eq_false, decide_false, Bool.false_eq_true, ↓reduceIte, h1,
            not_false_eq_true, decide_true, List.length_cons]
          omega
        · simpa [h1, h2] using ih

theorem inD_cons_zero {d : List SetMember} {ds : List (List SetMember)} {m : SetMember} :
    InD (d :: ds) 0 m ↔ m ∈ d := by simp [InD]

theorem inD_cons_succ {d : List SetMember} {ds : List (List SetMember)} {j : Nat} {m : SetMember} :
    InD (d :: ds) (j + 1) m ↔ InD ds j m := by simp [InD]

theorem missingCount_le {U : List SetMember} {data data' : List (List SetMember)}
    (hl : data'.length = data.length) (hs : ∀ j m, InD data j m → InD data' j m) :
    missingCount U data' ≤ missingCount U data := by
  induction data generalizing data' with
  | nil => cases data' with
    | nil => simp
    | cons => simp at hl
  | cons d ds ih =>
    cases data' with
    | nil => simp at hl
    | cons d' ds' =>
      have h0 := filter_le (U := U) (d := d) (d' := d') (fun m hm => by
        have := hs 0 m (inD_cons_zero.mpr hm); exact inD_cons_zero.mp this)
      have h1 := ih (data' := ds') (by simpa using hl) (fun j m h => by
        have := hs (j + 1) m (inD_cons_succ.mpr h); exact inD_cons_succ.mp this)
      simp only [missingCount, List.map_cons, List.sum_cons] at h1 ⊢
      omega

theorem missingCount_lt {U : List SetMember} {data data' : List (List SetMember)}
    (hl : data'.length = data.length) (hs : ∀ j m, InD data j m → InD data' j m) {j : Nat} {m : SetMember}
    (hm : m ∈ U) (h1 : InD data' j m) (h2 : ¬ InD data j m) :
    missingCount U data' < missingCount U data := by
  induction data generalizing data' j with
  | nil => cases data' with
    | nil => simp [InD] at h1
    | cons => simp at hl
  | cons d ds ih =>
    cases data' with
    | nil => simp at hl
    | cons d' ds' =>
      have hs0 : ∀ m, m ∈ d → m ∈ d' := fun m hm => by
        have := hs 0 m (inD_cons_zero.mpr hm); exact inD_cons_zero.mp this
      have hs1 : ∀ j m, InD ds j m → InD ds' j m := fun j m h => by
        have := hs (j + 1) m (inD_cons_succ.mpr h); exact inD_cons_succ.mp this
      have hle0 := filter_le (U := U) hs0
      have hle1 := missingCount_le (U := U) (data := ds) (data' := ds') (by simpa using hl) hs1
      cases j with
      | zero =>
        rw [inD_cons_zero] at h1 h2
        have := filter_lt hs0 hm h1 h2
        simp only [missingCount, List.map_cons, List.sum_cons] at hle1 ⊢
        omega
      | succ j =>
        rw [inD_cons_succ] at h1 h2
        have := ih (data' := ds') (by simpa using hl) hs1 h1 h2
        simp only [missingCount, List.map_cons, List.sum_cons] at this ⊢
        omega

/-- Propagation terminates and computes the closure under edges. -/
theorem propagate_spec (ho : HashOrder) (U : List SetMember) (k : Nat) :
    ∀ {g : FollowGraph} {data : List (List SetMember)}, NRep g data out →
    (∀ j m, InD data j m → m ∈ U) → missingCount U data ≤ k →
    ∃ g' data', (∀ fuel, k < fuel → propagate ho fuel g = .ok g') ∧ NRep g' data' out ∧
      g'.names = g.names ∧
      data'.length = data.length ∧
      ∀ j m, InD data' j m ↔ ∃ i, ReflTransGen (EdgeI out) i j ∧ InD data i m := by
  induction k with
  | zero =>
    intro g data h hU hk
    obtain ⟨todo, g1, data1, h1, h2, h3, h4, h5, h6, h7, h8⟩ := round_spec h ho
    have htodo : todo = [] := by
      by_contra hne
      obtain ⟨j, m, hj1, hj2⟩ := h8 hne
      have hmU : m ∈ U := by
        rcases (h6 j m).mp hj1 with h9 | ⟨i, _, h9⟩
        · exact hU _ _ h9
        · exact hU _ _ h9
      have := missingCount_lt h5 (fun j m h => (h6 j m).mpr (.inl h)) hmU hj1 hj2
      omega
    subst htodo
    obtain ⟨rfl, hcl⟩ := h7 rfl
    refine ⟨g1, data1, ?_, h3, h4, h5, ?_⟩
    · intro fuel hf
      obtain ⟨f, rfl⟩ : ∃ f, fuel = f + 1 := ⟨fuel - 1, by omega⟩
      simp [propagate, h1, h2]
    · intro j m
      rw [h6]
      constructor
      · rintro (h9 | ⟨i, he, h9⟩)
        · exact ⟨j, .refl, h9⟩
        · exact ⟨i, .single he, h9⟩
      · rintro ⟨i, hp, h9⟩
        left
        induction hp with
        | refl => exact h9
        | tail _ he ih => exact hcl _ _ m he ih
  | succ k ih =>
    intro g data h hU hk
    obtain ⟨todo, g1, data1, h1, h2, h3, h4, h5, h6, h7, h8⟩ := round_spec h ho
    by_cases htodo : todo = []
    · subst htodo
      obtain ⟨rfl, hcl⟩ := h7 rfl
      refine ⟨g1, data1, ?_, h3, h4, h5, ?_⟩
      · intro fuel hf
        obtain ⟨f, rfl⟩ : ∃ f, fuel = f + 1 := ⟨fuel - 1, by omega⟩
        simp [propagate, h1, h2]
      · intro j m
        rw [h6]
        constructor
        · rintro (h9 | ⟨i, he, h9⟩)
          · exact ⟨j, .refl, h9⟩
          · exact ⟨i, .single he, h9⟩
        · rintro ⟨i, hp, h9⟩
          left
          induction hp with
          | refl => exact h9
          | tail _ he ih => exact hcl _ _ m he ih
    · obtain ⟨j, m, hj1, hj2⟩ := h8 htodo
      have hU1 : ∀ j m, InD data1 j m → m ∈ U := by
        intro j m hj
        rcases (h6 j m).mp hj with h9 | ⟨i, _, h9⟩
        · exact hU _ _ h9
        · exact hU _ _ h9
      have hlt := missingCount_lt h5 (fun j m h => (h6 j m).mpr (.inl h)) (hU1 j m hj1) hj1 hj2
      obtain ⟨g2, data2, hp2, hr2, hn2, hl2, hm2⟩ := ih h3 hU1 (by omega)
      refine ⟨g2, data2, ?_, hr2, hn2.trans h4, hl2.trans h5, ?_⟩
      · intro fuel hf
        obtain ⟨f, rfl⟩ : ∃ f, fuel = f + 1 := ⟨fuel - 1, by omega⟩
        simp only [propagate, h1, h2, Res.bind_ok]
        rw [if_neg (by simpa using htodo)]
        exact hp2 f (by omega)
      · intro j m
        rw [hm2]
        constructor
        · rintro ⟨i, hp, h9⟩
          rcases (h6 i m).mp h9 with h9 | ⟨i', he, h9⟩
          · exact ⟨i, hp, h9⟩
          · exact ⟨i', .head he hp, h9⟩
        · rintro ⟨i, hp, h9⟩
          exact ⟨i, hp, (h6 i m).mpr (.inl h9)⟩

/-- Collecting the result. -/
theorem collectFollow_spec (h : NRep g data out) (items : List (Nat × Nat))
    (hit : ∀ p ∈ items, p.2 < data.length) (hnd : (items.map (·.1)).Nodup) :
    ∀ acc : NamedSetsNoEmpty, ∃ r, collectFollow g items acc = .ok r ∧
      ∀ n, AMap.get r n = match AMap.get items n with
        | some i => data[i]?
        | none => AMap.get acc n := by
  induction items with
  | nil => intro acc; exact ⟨acc, rfl, fun n => rfl⟩
  | cons p items ih =>
    intro acc
    obtain ⟨name, i⟩ := p
    have hi : i < data.length := hit (name, i) (by simp)
    obtain ⟨nd, hnd', hdd⟩ := h.getNodeByIndex (List.getElem?_eq_getElem hi)
    simp only [List.map_cons, List.nodup_cons] at hnd
    obtain ⟨r, hr1, hr2⟩ := ih (fun q hq => hit q (by simp [hq])) hnd.2 (AMap.insert acc name nd.data)
    refine ⟨r, ?_, ?_⟩
    · simp only [collectFollow, hnd', Res.bind_ok]; exact hr1
    · intro n
      rw [hr2, AMap.get_cons]
      by_cases hn : name = n
      · subst hn
        have : AMap.get items name = none := AMap.get_eq_none_iff.mpr hnd.1
        simp [this, hdd, List.getElem?_eq_getElem hi]
      · rw [if_neg hn, AMap.get_insert_ne _ _ hn]

end
end HPP
