import Verif.Spec.TextTree
import Verif.Proofs.Ignoring
import Verif.Proofs.Woven
import Verif.Proofs.Script
/-
Lemmas for C96.
-/
namespace HPP
open Spec
variable {I : Type} {rs : List (WrittenRule I)} {pd : ParserData I} {J : Str → Prop}

/-- Which members of a list are kept: all, or every second one, beginning with the first or with the second. -/
inductive Keep where
  | all | this | next

def pick {α : Type} : Keep → List α → List α
  | .all, l => l
  | .this, x :: xs => x :: pick .next xs
  | .next, _ :: xs => pick .this xs
  | _, [] => []

theorem pick_nil {α : Type} (m : Keep) : pick m ([] : List α) = [] := by cases m <;> rfl

theorem everyOther_eq {α : Type} : ∀ l : List α, everyOther l = pick .this l
  | [] => rfl
  | [_] => rfl
  | _ :: _ :: xs => by rw [everyOther, pick, pick, everyOther_eq xs]

/-- `a` is what is kept of `es`; what is left out is `j`. -/
inductive Sel (j : Str) : Keep → List ElementVerbose → List ElementVerbose → Prop where
  | nil {m : Keep} : Sel j m [] []
  | all {x : ElementVerbose} {es a : List ElementVerbose} : Sel j .all es a → Sel j .all (x :: es) (x :: a)
  | this {x : ElementVerbose} {es a : List ElementVerbose} : Sel j .next es a → Sel j .this (x :: es) (x :: a)
  | next {es a : List ElementVerbose} : Sel j .this es a → Sel j .next (⟨j, .nonTerminal⟩ :: es) a

theorem sel_all (j : Str) : ∀ a, Sel j .all a a
  | [] => .nil
  | _ :: a => .all (sel_all j a)

theorem sel_between (j : Str) : ∀ a, Sel j .this (between ⟨j, .nonTerminal⟩ a) a
  | [] => .nil
  | [_] => .this .nil
  | _ :: y :: xs => .this (.next (sel_between j (y :: xs)))

open Classical in
/-- The trees of a forest without the ignored text; the names are those of the rules. -/
noncomputable def cleanF (rs : List (WrittenRule I)) (pd : ParserData I) : Forest → List Rose
  | .nil => []
  | .leaf e r => .node (nameOf pd e) [] :: cleanF rs pd r
  | .node A _ k r =>
    .node [] (if Overridden rs (nameOf pd A) then pick .this (cleanF rs pd k) else cleanF rs pd k) :: cleanF rs pd r

theorem nameOf_some {e : Nat} {d : ElementData} (h : pd.elementData[e]? = some d) : nameOf pd e = d.name := by
  simp [nameOf, h]

theorem roses_length (hf : IsForest pd els f s) : (roses pd f).length = els.length := by
  induction hf with
  | nil => rfl
  | leaf _ _ _ ih => simp [roses, ih]
  | node _ _ _ _ _ _ ih => simp [roses, ih]

theorem between_length {α : Type} (i : α) : ∀ a : List α, (between i a).length = 2 * a.length - 1
  | [] => rfl
  | [_] => rfl
  | _ :: y :: xs => by
    have := between_length i (y :: xs)
    simp only [between, List.length_cons] at this ⊢
    omega

/-- How an alternative that counts comes from a written one. -/
theorem Spec.FinalAlt.cases' {n : Str} {b : List ElementVerbose} (h : FinalAlt rs n b) :
    (¬ Overridden rs n ∧ b ∈ altsOf rs n) ∨
    ∃ j a, overrideOf rs n = some j ∧ ¬ NameUsesStar rs j n ∧ a ∈ altsOf rs n ∧ b = between ⟨j, .nonTerminal⟩ a := by
  cases h with
  | plain ho ha =>
    refine .inl ⟨?_, ha⟩
    rintro ⟨j, hj, -⟩
    rw [ho] at hj; cases hj
  | own ho hu ha =>
    refine .inl ⟨?_, ha⟩
    rintro ⟨j, hj, hn⟩
    rw [ho] at hj; cases hj
    exact hn hu
  | woven ho hu ha => exact .inr ⟨_, _, ho, hu, ha, rfl⟩

/-- The forest of a script, cleaned, is a tree by the rules as they are written. -/
theorem clean_forest (h : MeansWoven rs pd) (hin : InternOk pd (elementsOf rs)) {els : List Nat} {f : Forest} {s : Str}
    (hf : IsForest pd els f s) : ∀ (m : Keep) (j : Str) (es a : List ElementVerbose), (∀ x ∈ es, x ∈ elementsOf rs) →
    els = (es.map fun x => (elementsOf rs).idxOf x) → (∃ n, overrideOf rs n = some j) ∨ (m matches .all) → Sel j m es a →
    Cleaned rs a (pick m (roses pd f)) (pick m (cleanF rs pd f)) ∧
      ∃ ts, WrittenTrees rs a (pick m (cleanF rs pd f)) ts ∧ Sprinkled (IgnoredText rs) ts s := by
  induction hf with
  | nil =>
    intro m j es a _ he _ hs
    cases es with
    | nil =>
      cases hs
      simp only [roses, cleanF, pick_nil]
      exact ⟨.nil, [], .nil, .nil⟩
    | cons x xs => cases he
  | @leaf e es' d f s ht hd _ ih =>
    intro m j es a hel he hj hs
    cases es with
    | nil => cases he
    | cons x xs =>
      simp only [List.map_cons, List.cons.injEq] at he
      obtain ⟨rfl, rfl⟩ := he
      have hx := hin.at_idx (hel x (by simp))
      rw [ht] at hx; rw [hd] at hx
      obtain ⟨b, t⟩ := x
      simp only [Option.some.injEq] at hx
      obtain ⟨rfl, rfl⟩ := hx
      have hxs : ∀ y ∈ xs, y ∈ elementsOf rs := fun y hy => hel y (by simp [hy])
      cases hs with
      | all hs =>
        obtain ⟨h1, ts, h2, h3⟩ := ih .all j xs _ hxs rfl (.inr rfl) hs
        simp only [pick] at h1 h2
        simp only [roses, cleanF, pick, nameOf_some hd]
        exact ⟨.terminal h1, _, .terminal h2, .token h3⟩
      | this hs =>
        obtain ⟨h1, ts, h2, h3⟩ := ih .next j xs _ hxs rfl (hj.imp id (by simp)) hs
        simp only [roses, cleanF, pick, nameOf_some hd]
        exact ⟨.terminal h1, _, .terminal h2, .token h3⟩
  | @node A es' r p kids f s1 s2 ht hr hp hk _ ih1 ih2 =>
    intro m j es a hel he hj hs
    cases es with
    | nil => cases he
    | cons x xs =>
      simp only [List.map_cons, List.cons.injEq] at he
      obtain ⟨rfl, rfl⟩ := he
      have hx := hin.at_idx (hel x (by simp))
      rw [ht] at hx
      obtain ⟨n, t⟩ := x
      simp only [Option.some.injEq] at hx
      obtain ⟨rfl, hxd⟩ := hx
      have hxs : ∀ y ∈ xs, y ∈ elementsOf rs := fun y hy => hel y (by simp [hy])
      have hnm : nameOf pd ((elementsOf rs).idxOf ⟨n, .nonTerminal⟩) = n := by simp [nameOf, hxd]
      obtain ⟨b, hb, hb'⟩ := (finalAlt_iff h (getElem?_idxOf (hel ⟨n, .nonTerminal⟩ (by simp))) (prodElems p)).1 ⟨r, hr, p, hp, rfl⟩
      have hkeep : ∃ vs, cleanF rs pd (.node ((elementsOf rs).idxOf ⟨n, .nonTerminal⟩) p kids f) = .node [] vs :: cleanF rs pd f ∧
          (∀ es1 ts1 us1, Cleaned rs es1 ts1 us1 →
            Cleaned rs (⟨n, .nonTerminal⟩ :: es1) (.node [] (roses pd kids) :: ts1) (.node [] vs :: us1)) ∧
          ∃ a0 ts, a0 ∈ altsOf rs n ∧ WrittenTrees rs a0 vs ts ∧ Sprinkled (IgnoredText rs) ts s1 := by
        rcases hb.cases' with ⟨ho, ha⟩ | ⟨j', a', ho, hu, ha, rfl⟩
        · obtain ⟨h1, ts, h2, h3⟩ := ih1 .all [] b b (finalAlt_elements hb) hb' (.inr rfl) (sel_all _ _)
          simp only [pick] at h1 h2
          refine ⟨cleanF rs pd kids, ?_, fun es1 ts1 us1 hc => .plain ho ha h1 hc, b, ts, ha, h2, h3⟩
          rw [cleanF, hnm, if_neg ho]
        · have hov : Overridden rs n := ⟨j', ho, hu⟩
          obtain ⟨h1, ts, h2, h3⟩ := ih1 .this j' _ a' (finalAlt_elements hb) hb' (.inl ⟨n, ho⟩) (sel_between _ _)
          refine ⟨pick .this (cleanF rs pd kids), ?_, fun es1 ts1 us1 hc => .woven hov ha ?_ ?_ hc, a', ts, ha, h2, h3⟩
          · rw [cleanF, hnm, if_pos hov]
          · rw [roses_length hk, hb', List.length_map, between_length]
          · rw [everyOther_eq]; exact h1
      obtain ⟨vs, hvs, hcl, a0, ts0, ha0, hw0, hsp0⟩ := hkeep
      cases hs with
      | all hs =>
        obtain ⟨h1, ts, h2, h3⟩ := ih2 .all j xs _ hxs rfl (.inr rfl) hs
        simp only [pick] at h1 h2
        rw [hvs]
        simp only [roses, pick]
        exact ⟨hcl _ _ _ h1, _, .name ha0 hw0 h2, hsp0.append h3⟩
      | this hs =>
        obtain ⟨h1, ts, h2, h3⟩ := ih2 .next j xs _ hxs rfl (hj.imp id (by simp)) hs
        rw [hvs]
        simp only [roses, pick]
        exact ⟨hcl _ _ _ h1, _, .name ha0 hw0 h2, hsp0.append h3⟩
      | next hs =>
        obtain ⟨h1, ts, h2, h3⟩ := ih2 .this j xs _ hxs rfl (hj.imp id (by simp)) hs
        rw [hvs]
        simp only [roses, pick]
        refine ⟨h1, ts, h2, ?_⟩
        rcases hj with ⟨n', hn'⟩ | hj
        · refine .ignored ⟨n', j, hn', ?_⟩ h3
          have := Spells.name hb (spells_of_forest h hin hk b (finalAlt_elements hb) hb') .nil
          rwa [List.append_nil] at this
        · simp at hj

/-! ### the other direction -/

/-- There are trees of the elements that spell `s` and are `us` when they are cleaned. -/
def HasClean (rs : List (WrittenRule I)) (pd : ParserData I) (es : List ElementVerbose) (us : List Rose) (s : Str) : Prop :=
  ∃ f, IsForest pd (es.map fun x => (elementsOf rs).idxOf x) f s ∧ cleanF rs pd f = us

theorem cleanF_append (f g : Forest) : cleanF rs pd (Forest.append f g) = cleanF rs pd f ++ cleanF rs pd g := by
  induction f with
  | nil => rfl
  | leaf e r ih => simp [Forest.append, cleanF, ih]
  | node A p k r _ ih => simp [Forest.append, cleanF, ih]

theorem HasClean.append {es es' : List ElementVerbose} {us us' : List Rose} {s s' : Str} (h1 : HasClean rs pd es us s)
    (h2 : HasClean rs pd es' us' s') : HasClean rs pd (es ++ es') (us ++ us') (s ++ s') := by
  obtain ⟨f, hf, rfl⟩ := h1
  obtain ⟨g, hg, rfl⟩ := h2
  exact ⟨Forest.append f g, by rw [List.map_append]; exact hf.append hg, cleanF_append f g⟩

theorem HasClean.nil : HasClean rs pd [] [] [] := ⟨.nil, .nil, rfl⟩

theorem HasClean.terminal (hin : InternOk pd (elementsOf rs)) {b : Str} (hb : ⟨b, .terminal⟩ ∈ elementsOf rs) :
    HasClean rs pd [⟨b, .terminal⟩] [.node b []] b := by
  have hx := hin.at_idx hb
  refine ⟨.leaf ((elementsOf rs).idxOf ⟨b, .terminal⟩) .nil, ?_, ?_⟩
  · have := IsForest.leaf hx.1 hx.2 .nil
    simpa using this
  · simp [cleanF, nameOf_some hx.2]

open Classical in
theorem HasClean.name (h : MeansWoven rs pd) (hin : InternOk pd (elementsOf rs)) {n : Str} {b : List ElementVerbose}
    {ks : List Rose} {s : Str} (hn : ⟨n, .nonTerminal⟩ ∈ elementsOf rs) (hb : FinalAlt rs n b) (hk : HasClean rs pd b ks s) :
    HasClean rs pd [⟨n, .nonTerminal⟩] [.node [] (if Overridden rs n then pick .this ks else ks)] s := by
  have hx := hin.at_idx hn
  obtain ⟨f, hf, rfl⟩ := hk
  obtain ⟨q, hq, p, hp, he⟩ := (finalAlt_iff h (getElem?_idxOf hn) _).2 ⟨b, hb, rfl⟩
  rw [← he] at hf
  refine ⟨.node ((elementsOf rs).idxOf ⟨n, .nonTerminal⟩) p f .nil, ?_, ?_⟩
  · have := IsForest.node hx.1 hq hp hf .nil
    simpa using this
  · simp [cleanF, nameOf_some hx.2]

theorem HasClean.length {es : List ElementVerbose} {us : List Rose} {s : Str} (h : HasClean rs pd es us s) :
    us.length = es.length := by
  obtain ⟨f, hf, rfl⟩ := h
  have := roses_length hf
  rw [List.length_map] at this
  rw [← this]
  clear this hf
  induction f with
  | nil => rfl
  | leaf e r ih => simp [cleanF, roses, ih]
  | node A p k r _ ih => simp [cleanF, roses, ih]

theorem HasClean.split {e : ElementVerbose} {es : List ElementVerbose} {us : List Rose} {s : Str}
    (h : HasClean rs pd (e :: es) us s) : ∃ u us' s1 s2, us = u :: us' ∧ s = s1 ++ s2 ∧ HasClean rs pd [e] [u] s1 ∧
      HasClean rs pd es us' s2 := by
  obtain ⟨f, hf, rfl⟩ := h
  simp only [List.map_cons] at hf
  generalize hi : (elementsOf rs).idxOf e = i at hf
  cases hf with
  | @leaf _ _ d f s ht hd hf =>
    refine ⟨_, _, d.name, s, rfl, rfl, ⟨.leaf i .nil, ?_, rfl⟩, f, hf, rfl⟩
    have := IsForest.leaf ht hd .nil
    simpa [hi] using this
  | @node _ _ r p kids f s1 s2 ht hr hp hk hf =>
    refine ⟨_, _, s1, s2, rfl, rfl, ⟨.node i p kids .nil, ?_, rfl⟩, f, hf, rfl⟩
    have := IsForest.node ht hr hp hk .nil
    simpa [hi] using this

theorem HasClean.between_empty {j : Str} {uj : Rose} (hj : HasClean rs pd [⟨j, .nonTerminal⟩] [uj] []) :
    ∀ {a : List ElementVerbose} {us : List Rose} {s : Str}, HasClean rs pd a us s →
      ∃ us', HasClean rs pd (between ⟨j, .nonTerminal⟩ a) us' s ∧ pick .this us' = us
  | [], us, s, h => ⟨us, h, by
      have := h.length
      cases us with
      | nil => rfl
      | cons u us => simp at this⟩
  | [x], us, s, h => ⟨us, h, by
      have := h.length
      match us, this with
      | [u], _ => rfl⟩
  | e :: y :: xs, us, s, h => by
    obtain ⟨u, us1, s1, s2, rfl, rfl, h1, h2⟩ := h.split
    obtain ⟨us2, h3, h4⟩ := HasClean.between_empty hj h2
    refine ⟨u :: uj :: us2, ?_, by simp [pick, h4]⟩
    have := h1.append (hj.append h3)
    simpa [between] using this

/-- A name that can stand for nothing has a tree for it. -/
theorem HasClean.of_spells (h : MeansWoven rs pd) (hin : InternOk pd (elementsOf rs)) {a : List ElementVerbose} {s : Str}
    (hs : Spells rs a s) (hel : ∀ x ∈ a, x ∈ elementsOf rs) : ∃ us, HasClean rs pd a us s := by
  obtain ⟨f, hf⟩ := forest_of_spells h hin hs hel
  exact ⟨_, f, hf, rfl⟩

/-- If overrides can stand for nothing, every tree by the written rules is the cleaned tree of its tokens. -/
theorem Spec.WrittenTrees.hasClean (h : MeansWoven rs pd) (hin : InternOk pd (elementsOf rs))
    (he : ∀ n j, overrideOf rs n = some j → Spells rs [⟨j, .nonTerminal⟩] []) {es : List ElementVerbose} {us : List Rose}
    {ts : List Str} (hw : WrittenTrees rs es us ts) : (∀ x ∈ es, x ∈ elementsOf rs) → HasClean rs pd es us ts.flatten := by
  induction hw with
  | nil => intro _; exact .nil
  | terminal _ ih =>
    intro hel
    exact (HasClean.terminal hin (hel _ (by simp))).append (ih fun x hx => hel x (by simp [hx]))
  | @name n a es vs us ts ts' ha _ _ ih1 ih2 =>
    intro hel
    rw [List.flatten_append]
    have hn : (⟨n, .nonTerminal⟩ : ElementVerbose) ∈ elementsOf rs := hel _ (by simp)
    have h2 := ih2 fun x hx => hel x (by simp [hx])
    have h1 := ih1 fun x hx => mem_elementsOf_alt ha hx
    have key : HasClean rs pd [⟨n, .nonTerminal⟩] [.node [] vs] ts.flatten := by
      by_cases ho : overrideOf rs n = none
      · have := HasClean.name h hin hn (.plain ho ha) h1
        rwa [if_neg (by rintro ⟨j, hj, -⟩; rw [ho] at hj; cases hj)] at this
      · obtain ⟨j, hj⟩ := Option.ne_none_iff_exists'.1 ho
        by_cases hu : NameUsesStar rs j n
        · have := HasClean.name h hin hn (.own hj hu ha) h1
          rwa [if_neg (by rintro ⟨j', hj', hn'⟩; rw [hj] at hj'; cases hj'; exact hn' hu)] at this
        · obtain ⟨uj, hc⟩ := HasClean.of_spells h hin (he n j hj) (by
            intro x hx
            simp only [List.mem_cons, List.not_mem_nil, or_false] at hx
            subst hx; exact mem_elementsOf_override hj)
          have hl := hc.length
          match uj, hl with
          | [u], _ =>
            obtain ⟨us', k1, k2⟩ := HasClean.between_empty hc h1
            have := HasClean.name h hin hn (.woven hj hu ha) k1
            rw [if_pos ⟨j, hj, hu⟩, k2] at this
            exact this
    exact key.append h2

/-- With one ignore element everywhere, ignored text may stand between neighbouring tokens, and the cleaned tree is the tree
by the written rules. -/
theorem Spec.AllIgnore.hasClean (hm : MeansWoven rs pd) (hin : InternOk pd (elementsOf rs)) {j : Str} {U : Str → Prop}
    (h : AllIgnore rs j U) (hjm : ⟨j, .nonTerminal⟩ ∈ elementsOf rs) (he : Spells rs [⟨j, .nonTerminal⟩] [])
    {es : List ElementVerbose} {us : List Rose} {ts : List Str} (ht : WrittenTrees rs es us ts) (hu : InU U es) :
    (∀ x ∈ es, x ∈ elementsOf rs) → ∀ {s}, Separated (fun x => Spells rs [⟨j, .nonTerminal⟩] x) ts s →
      ∃ us', HasClean rs pd (between ⟨j, .nonTerminal⟩ es) us' s ∧ pick .this us' = us := by
  have hJ : ∀ {x}, Spells rs [⟨j, .nonTerminal⟩] x → ∃ u, HasClean rs pd [⟨j, .nonTerminal⟩] [u] x := by
    intro x hx
    obtain ⟨us, hus⟩ := HasClean.of_spells hm hin hx (by
      intro y hy
      simp only [List.mem_cons, List.not_mem_nil, or_false] at hy
      subst hy; exact hjm)
    have hl := hus.length
    match us, hl with
    | [u], _ => exact ⟨u, hus⟩
  induction ht with
  | nil => intro _ s hs; cases hs; exact ⟨[], .nil, rfl⟩
  | @terminal b es us ts ht ih =>
    intro hel s hs
    have hu' : InU U es := fun n hn => hu n (.tail _ hn)
    have hel' : ∀ x ∈ es, x ∈ elementsOf rs := fun x hx => hel x (by simp [hx])
    cases es with
    | nil =>
      cases ht
      have hb : s = b := by cases hs with
        | one => rfl
        | cons _ hne _ => exact absurd rfl hne
      subst hb
      exact ⟨_, HasClean.terminal hin (hel _ (by simp)), rfl⟩
    | cons y ys =>
      obtain ⟨s1, x, s2, h1, h2, h3, rfl⟩ := Separated.split (ts := [b]) he hs
      have hb : s1 = b := by cases h1 with
        | one => rfl
        | cons _ hne _ => exact absurd rfl hne
      subst hb
      obtain ⟨us', k1, k2⟩ := ih hu' hel' h3
      obtain ⟨u, k3⟩ := hJ h2
      refine ⟨.node s1 [] :: u :: us', ?_, ?_⟩
      · have := (HasClean.terminal hin (hel ⟨s1, .terminal⟩ (by simp))).append (k3.append k1)
        rw [List.append_assoc]
        exact this
      · simp [pick, k2]
  | @name n a es vs us ts ts' ha hta htes ih1 ih2 =>
    intro hel s hs
    have hun : U n := hu n (.head _)
    have hu' : InU U es := fun m hm => hu m (.tail _ hm)
    have hel' : ∀ x ∈ es, x ∈ elementsOf rs := fun x hx => hel x (by simp [hx])
    have hua : InU U a := fun m hm => h.closed n m hun ⟨a, ha, hm⟩
    have hf : FinalAlt rs n (between ⟨j, .nonTerminal⟩ a) := .woven (h.override n hun) (h.outside n hun) ha
    have hnm : (⟨n, .nonTerminal⟩ : ElementVerbose) ∈ elementsOf rs := hel _ (by simp)
    have key : ∀ {s1}, Separated (fun x => Spells rs [⟨j, .nonTerminal⟩] x) ts s1 →
        HasClean rs pd [⟨n, .nonTerminal⟩] [.node [] vs] s1 := by
      intro s1 hs1
      obtain ⟨us', k1, k2⟩ := ih1 hua (fun x hx => mem_elementsOf_alt ha hx) hs1
      have := HasClean.name hm hin hnm hf k1
      rwa [if_pos ⟨j, h.override n hun, h.outside n hun⟩, k2] at this
    cases es with
    | nil =>
      cases htes
      rw [List.append_nil] at hs
      exact ⟨_, key hs, rfl⟩
    | cons y ys =>
      obtain ⟨s1, x, s2, h1, h2, h3, rfl⟩ := Separated.split he hs
      obtain ⟨us', k1, k2⟩ := ih2 hu' hel' h3
      obtain ⟨u, k3⟩ := hJ h2
      refine ⟨.node [] vs :: u :: us', ?_, ?_⟩
      · have := (key h1).append (k3.append k1)
        rw [List.append_assoc]
        exact this
      · simp [pick, k2]

end HPP
