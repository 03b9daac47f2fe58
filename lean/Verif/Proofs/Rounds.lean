import Verif.Proofs.Depth
import Verif.Proofs.Steuer
/-
The FOLLOW propagation needs at most as many rounds as there are rules.
-/
namespace HPP
open Spec Function Relation
variable {I : Type}

section
variable {out : Nat → List (Nat × Nat)}

/-- Something is missing for `m`. -/
def Unfinished (out : Nat → List (Nat × Nat)) (data : List (List SetMember)) (m : SetMember) : Prop :=
  ∃ i j, EdgeI out i j ∧ InD data i m ∧ ¬ InD data j m

/-- After `k` rounds every unfinished member has reached more than `k` nodes. -/
def Reached (out : Nat → List (Nat × Nat)) (data : List (List SetMember)) (k : Nat) : Prop :=
  ∀ m, Unfinished out data m → ∃ l : List Nat, l.Nodup ∧ l.length = k + 1 ∧ ∀ x ∈ l, InD data x m

theorem reached_zero (data : List (List SetMember)) : Reached out data 0 := by
  rintro m ⟨i, j, -, hi, -⟩
  exact ⟨[i], by simp, rfl, by simpa using hi⟩

theorem Reached.step {data data' : List (List SetMember)} {k : Nat} (h : Reached out data k)
    (hd : ∀ j m, InD data' j m ↔ InD data j m ∨ ∃ i, EdgeI out i j ∧ InD data i m) : Reached out data' (k + 1) := by
  rintro m ⟨i, j, he, hi, hj⟩
  have hi' : ¬ InD data i m := fun hc => hj ((hd j m).2 (.inr ⟨i, he, hc⟩))
  have hi2 := hi
  rw [hd] at hi2
  rcases hi2 with hc | ⟨x, hx, hxm⟩
  · exact absurd hc hi'
  · obtain ⟨l, h1, h2, h3⟩ := h m ⟨x, i, hx, hxm, hi'⟩
    refine ⟨i :: l, List.nodup_cons.2 ⟨fun hm => hi' (h3 i hm), h1⟩, by simp [h2], ?_⟩
    intro y hy
    rcases List.mem_cons.1 hy with rfl | hy
    · exact hi
    · exact (hd y m).2 (.inl (h3 y hy))

theorem Reached.bound {data : List (List SetMember)} {k : Nat} (h : Reached out data k) {m : SetMember} {i j : Nat}
    (he : EdgeI out i j) (hi : InD data i m) (hj : ¬ InD data j m) (hlt : j < data.length) : k + 2 ≤ data.length := by
  obtain ⟨l, h1, h2, h3⟩ := h m ⟨i, j, he, hi, hj⟩
  have := nodup_length_le (l := j :: l) (m := List.range data.length)
    (List.nodup_cons.2 ⟨fun hm => hj (h3 j hm), h1⟩) (by
      intro x hx
      rw [List.mem_range]
      rcases List.mem_cons.1 hx with rfl | hx
      · exact hlt
      · exact (h3 x hx).lt)
  simp only [List.length_cons, List.length_range] at this
  omega

theorem propagate_rounds (ho : HashOrder) (fuel : Nat) : ∀ (k : Nat) {g : FollowGraph} {data : List (List SetMember)},
    NRep g data out → Reached out data k → data.length ≤ k + fuel → 1 ≤ fuel → ∃ g', propagate ho fuel g = .ok g' := by
  induction fuel with
  | zero => intro k g data _ _ _ h; omega
  | succ fuel ih =>
    intro k g data h hr hk _
    obtain ⟨todo, g1, data1, h1, h2, h3, h4, h5, h6, h7, h8⟩ := round_spec h ho
    by_cases htodo : todo = []
    · subst htodo
      exact ⟨g1, by simp [propagate, h1, h2]⟩
    · obtain ⟨j, m, hj1, hj2⟩ := h8 htodo
      rcases (h6 j m).1 hj1 with hc | ⟨i, he, hi⟩
      · exact absurd hc hj2
      · have hlt : j < data.length := by rw [← h5]; exact hj1.lt
        have hb := hr.bound he hi hj2 hlt
        obtain ⟨g2, hg2⟩ := ih (k + 1) h3 (hr.step h6) (by omega) (by omega)
        refine ⟨g2, ?_⟩
        simp only [propagate, h1, h2, Res.bind_ok]
        rw [if_neg (by simpa using htodo)]
        exact hg2

end

theorem nrep_size {g : FollowGraph} {data : List (List SetMember)} {out : Nat → List (Nat × Nat)} (h : NRep g data out)
    {ks : List Nat} (hk : ∀ n i, AMap.get g.names n = some i → n ∈ ks) : data.length ≤ ks.length := by
  have h1 : data.length ≤ g.names.length := by
    have := nodup_length_le (l := List.range data.length) (m := g.names.map (·.2)) List.nodup_range (by
      intro i hi
      obtain ⟨n, hn⟩ := h.surj i (List.mem_range.1 hi)
      exact List.mem_map.2 ⟨_, AMap.mem_of_get hn, rfl⟩)
    simpa using this
  have h2 := nodup_length_le (l := AMap.keys g.names) (m := ks) h.keysNodup (by
    intro n hn
    obtain ⟨i, hi⟩ := AMap.mem_keys_iff.1 hn
    exact hk n i hi)
  have h3 : (AMap.keys g.names).length = g.names.length := by simp [AMap.keys]
  omega

/-- As many rounds as there are rules suffice for FOLLOW. -/
theorem getFollowSets_rounds {ho : HashOrder} {start : Nat} {fs : NamedSets} {pd : ParserData I} (hfs : FInv pd fs) :
    ∃ r, r ≠ .timeout ∧ ∀ fuel, pd.rules.length ≤ fuel → 1 ≤ fuel → getFollowSets ho fuel start fs pd = r := by
  cases hm : markedGraph ho start fs pd with
  | err e => exact ⟨.err e, by simp, fun fuel _ _ => by rw [getFollowSets_eq, hm]; rfl⟩
  | panic => exact ⟨.panic, by simp, fun fuel _ _ => by rw [getFollowSets_eq, hm]; rfl⟩
  | timeout => exact absurd hm (markedGraph_valid ho start fs pd).1
  | ok g =>
    obtain ⟨hv, -⟩ := markedGraph_ok hfs hm
    have hv' := hv
    obtain ⟨⟨data, out, hn, -, -⟩, hK⟩ := hv
    have hsz : data.length ≤ pd.rules.length := by
      have := nrep_size hn (ks := AMap.keys pd.rules) (fun n i hi => (hK n).2 ⟨i, hi⟩)
      simpa [AMap.keys] using this
    obtain ⟨N, r, hr, -⟩ := makeFollowSets_spec hv' ho
    refine ⟨.ok r, by simp, fun fuel hf h1 => ?_⟩
    obtain ⟨g', hg'⟩ := propagate_rounds ho fuel 0 hn (reached_zero data) (by omega) h1
    have hr2 := hr (max N fuel) (by omega)
    simp only [makeFollowSets] at hr2
    have hmono : propagate ho (max N fuel) g = .ok g' := propagate_mono ho _ _ _ hg' _ (by omega)
    simp only [hmono, Res.bind_ok] at hr2
    rw [getFollowSets_eq, hm]
    simp only [Res.bind_ok, makeFollowSets, hg']
    exact hr2

end HPP
