import Verif.Proofs.TreeRem
/-
`remove_branch` on an arena built by insertions and removals.
-/
namespace HPP
open Spec
variable {T : Type} {t : Tree T} {h : Hist T} {ds : List Nat}

theorem updNode_some {t : Tree T} {i : Nat} {n : TNode T} (hn : t.nodes[i]? = some n) (f : TNode T → TNode T) :
    ∃ t', t.updNode i f = some t' ∧ t'.free = t.free ∧ t'.counter = t.counter ∧
      t'.nodes.length = t.nodes.length ∧
      ∀ j, t'.nodes[j]? = if j = i then some (f n) else t.nodes[j]? := by
  refine ⟨{ t with nodes := t.nodes.set i (f n) }, by simp [Tree.updNode, hn], rfl, rfl, by simp, fun j => ?_⟩
  have hlt := (List.getElem?_eq_some_iff.mp hn).1
  by_cases hji : j = i
  · subst hji; simp [List.getElem?_set_self hlt]
  · simp [hji, List.getElem?_set_ne (Ne.symm hji)]

/-- `updNode` at an optional index. -/
theorem updOpt {t : Tree T} (o : Option Nat) (f : TNode T → TNode T)
    (ho : ∀ i, o = some i → ∃ n, t.nodes[i]? = some n) :
    ∃ t', (match o with | some s => t.updNode s f | none => some t) = some t' ∧ t'.free = t.free ∧
      t'.counter = t.counter ∧ t'.nodes.length = t.nodes.length ∧
      ∀ j, t'.nodes[j]? = if o = some j then (t.nodes[j]?).map f else t.nodes[j]? := by
  cases o with
  | none => exact ⟨t, rfl, rfl, rfl, rfl, fun j => by simp⟩
  | some i =>
    obtain ⟨n, hn⟩ := ho i rfl
    obtain ⟨t', h1, h2, h3, h4, h5⟩ := updNode_some hn f
    refine ⟨t', h1, h2, h3, h4, fun j => ?_⟩
    rw [h5]
    by_cases hji : j = i
    · subst hji; simp [hn]
    · simp [hji, Ne.symm hji]

theorem unlink_eq (t : Tree T) (ptr : Nat) (nd : TNode T) (L : List Nat) : t.unlink ptr nd L =
    (match nd.parent with
      | some s => t.updNode s (fun pn =>
        { pn with
          firstChild := if pn.firstChild = some ptr then nd.nextSibling else pn.firstChild
          lastChild := if pn.lastChild = some ptr then nd.prevSibling else pn.lastChild })
      | none => some t).bind fun t1 =>
    (match nd.prevSibling with
      | some s => t1.updNode s (fun n => { n with nextSibling := nd.nextSibling })
      | none => some t1).bind fun t2 =>
    (match nd.nextSibling with
      | some s => t2.updNode s (fun n => { n with prevSibling := nd.prevSibling })
      | none => some t2).bind fun t3 => some { t3 with free := (L ++ [ptr, ptr]).reverse ++ t3.free } := by
  unfold Tree.unlink
  cases nd.parent <;> cases nd.prevSibling <;> cases nd.nextSibling <;> rfl

theorem TRem.removeBranch (hr : TRem t h ds) {i : Nat} (hi : i < h.length) (ha : ¬ Dead h ds i) {fuel : Nat}
    (hf : 2 * h.length ≤ fuel) :
    ∃ t', t.removeBranch fuel ⟨i, i⟩ = (.ok (), t') ∧ TRem t' h (i :: ds) := by
  obtain ⟨⟨p, d⟩, hpd⟩ : ∃ x, h[i]? = some x := ⟨_, List.getElem?_eq_getElem hi⟩
  obtain ⟨nd, g1, -, g2, -⟩ := hr.getNode hpd ha
  obtain ⟨nd', e1, e2, e3, e4, e5, e6, e7⟩ := hr.node i p d hpd ha
  rw [g2] at e1; cases e1
  obtain ⟨L, -, l2, l3⟩ := hr.getDescendants (ε := TErr) (h.length - i) i (Nat.le_refl _) hi ha
  have hdesc := l3 fuel (by omega)
  -- the siblings
  have hsib : ∃ pre post : List Nat, nd.nextSibling = post.head? ∧ nd.prevSibling = pre.getLast? ∧
      (∀ q, p = some q → kidsLeft h ds q = pre ++ i :: post) ∧ (p = none → pre = [] ∧ post = []) := by
    cases p with
    | none =>
      obtain ⟨a, b⟩ := e7 rfl
      exact ⟨[], [], a, b, by simp, fun _ => ⟨rfl, rfl⟩⟩
    | some q =>
      have hik : i ∈ kids h q := mem_kids.mpr ⟨d, hpd⟩
      have hqa : ¬ Dead h ds q := fun hq => ha (dead_child hq hik)
      obtain ⟨pre, post, hk⟩ := List.append_of_mem ((alive_kidsLeft hqa).mpr ⟨hik, ha⟩)
      obtain ⟨a, b⟩ := e6 q pre post rfl hk
      exact ⟨pre, post, a, b, fun q' hq' => by cases hq'; exact hk, by simp⟩
  obtain ⟨pre, post, hnx, hpv, hk, hnone⟩ := hsib
  have hqa : ∀ q, p = some q → ¬ Dead h ds q ∧ q < h.length ∧ i ∈ kids h q := by
    rintro q rfl
    have hik : i ∈ kids h q := mem_kids.mpr ⟨d, hpd⟩
    exact ⟨fun hq => ha (dead_child hq hik), by have := hr.ordered _ _ _ hpd; omega, hik⟩
  have hex : ∀ j, (j ∈ pre ∨ j ∈ post) → ∃ n, t.nodes[j]? = some n := by
    intro j hj
    cases p with
    | none => obtain ⟨rfl, rfl⟩ := hnone rfl; simp at hj
    | some q =>
      refine (hr.alive_lt (hqa q rfl).1 (j := j) ?_).2.2
      rw [hk q rfl]; simp; rcases ‹_ ∨ _› with hh | hh <;> simp [hh]
  have hsome : ∀ {j : Nat} {n : TNode T}, t.nodes[j]? = some n → j < t.nodes.length := fun h =>
    (List.getElem?_eq_some_iff.mp h).1
  -- the three updates
  obtain ⟨t1, u1, u2, u3, u4, u5⟩ := updOpt (t := t) p (fun pn =>
        { pn with
          firstChild := if pn.firstChild = some i then nd.nextSibling else pn.firstChild
          lastChild := if pn.lastChild = some i then nd.prevSibling else pn.lastChild })
        (fun q hq => ⟨_, List.getElem?_eq_getElem (by rw [hr.len]; exact (hqa q hq).2.1)⟩)
  obtain ⟨t2, v1, v2, v3, v4, v5⟩ := updOpt (t := t1) nd.prevSibling
        (fun n => { n with nextSibling := nd.nextSibling }) (fun j hj => by
      rw [hpv] at hj
      obtain ⟨n, hn⟩ := hex j (.inl (List.mem_of_getLast? hj))
      exact ⟨_, List.getElem?_eq_getElem (by rw [u4]; exact hsome hn)⟩)
  obtain ⟨t3, w1, w2, w3, w4, w5⟩ := updOpt (t := t2) nd.nextSibling
        (fun n => { n with prevSibling := nd.prevSibling }) (fun j hj => by
      rw [hnx] at hj
      obtain ⟨n, hn⟩ := hex j (.inr (List.mem_of_head? hj))
      exact ⟨_, List.getElem?_eq_getElem (by rw [v4, u4]; exact hsome hn)⟩)
  have hun : t.unlink i nd L = some { t3 with free := (L ++ [i, i]).reverse ++ t3.free } := by
    rw [unlink_eq, e3, u1, Option.bind_some, v1, Option.bind_some, w1, Option.bind_some]
  have hmap : (L.map fun j => (⟨j, j⟩ : NodeId)).map (·.ptr) = L := by
    rw [List.map_map]; exact List.map_id' L
  refine ⟨{ t3 with free := (L ++ [i, i]).reverse ++ t3.free }, ?_, ?_⟩
  · simp only [Tree.removeBranch, g1, hdesc, hmap, hun]
  · refine ⟨hr.ordered, by rw [w3, v3, u3]; exact hr.counter, by rw [w4, v4, u4]; exact hr.len, ?_, ?_, ?_⟩
    · intro x
      simp only [List.mem_append, List.mem_reverse, List.mem_cons, List.not_mem_nil, or_false, w2, v2, u2, hr.free,
        dead_cons, l2]
      constructor
      · rintro ((⟨a, -⟩ | (a | a)) | a)
        · exact .inr (.inr a)
        · exact .inr (.inl a)
        · exact .inr (.inl a)
        · exact .inl a
      · rintro (a | a | a)
        · exact .inr a
        · exact .inl (.inr (.inl a))
        · by_cases hx : Dead h ds x
          · exact .inr hx
          · exact .inl (.inl ⟨a, hx⟩)
    · intro j n hn
      simp only [w5, v5, u5] at hn
      have key : ∀ n', t.nodes[j]? = some n' → n'.pk = j := fun n' hn' => hr.pks j n' hn'
      cases hj : t.nodes[j]? with
      | none => simp [hj] at hn
      | some n' =>
        have := key n' hj
        rw [hj] at hn
        simp only [Option.map_some] at hn
        split at hn <;> split at hn <;> split at hn <;> simp at hn <;> subst hn <;> exact this
    · intro j pj dj hj hal
      rw [dead_cons] at hal
      simp only [not_or] at hal
      obtain ⟨hal1, hal2, hal3⟩ := hal
      obtain ⟨n, f1, f2, f3, f4, f5, f6, f7⟩ := hr.node j pj dj hj hal1
      -- i is a child of j exactly if j is its parent
      have hchild : ∀ q, i ∈ kids h q → p = some q := by
        intro q hq
        obtain ⟨d', hd'⟩ := mem_kids.mp hq
        rw [hpd] at hd'; simp at hd'; exact hd'.1
      refine ⟨_, (by simp only [w5, v5, u5, f1, Option.map_some, hnx, hpv, ← apply_ite some]; rfl), ?_, ?_, ?_, ?_, ?_, ?_⟩
      · split <;> split <;> split <;> exact f2
      · split <;> split <;> split <;> exact f3
      · have h0 : (if p = some j then (if n.firstChild = some i then post.head? else n.firstChild) else n.firstChild) =
            (kidsLeft h (i :: ds) j).head? := by
          by_cases hp : p = some j
          · rw [if_pos hp, kidsLeft_split (hk j hp), f4, hk j hp]
            cases pre with
            | nil => simp
            | cons x xs =>
              have hn := kidsLeft_nodup h ds j
              rw [hk j hp] at hn
              have : x ≠ i := by rintro rfl; simp at hn
              simp [this]
          · rw [if_neg hp, f4, kidsLeft_other (fun hc => hp (hchild j hc))]
        rw [← h0]
        split <;> split <;> split <;> rfl
      · have h0 : (if p = some j then (if n.lastChild = some i then pre.getLast? else n.lastChild) else n.lastChild) =
            (kidsLeft h (i :: ds) j).getLast? := by
          by_cases hp : p = some j
          · rw [if_pos hp, kidsLeft_split (hk j hp), f5, hk j hp]
            rcases List.eq_nil_or_concat post with rfl | ⟨post', x, rfl⟩
            · simp
            · have hn := kidsLeft_nodup h ds j
              rw [hk j hp] at hn
              have : x ≠ i := by
                rintro rfl
                have := (List.nodup_append.mp hn).2.1
                simp at this
              have e1 : (pre ++ i :: (post' ++ [x])).getLast? = some x := by
                rw [show pre ++ i :: (post' ++ [x]) = (pre ++ i :: post') ++ [x] by simp]
                exact List.getLast?_concat
              have e2 : (pre ++ (post' ++ [x])).getLast? = some x := by
                rw [show pre ++ (post' ++ [x]) = (pre ++ post') ++ [x] by simp]
                exact List.getLast?_concat
              simp only [List.concat_eq_append, e1, e2]
              simp [this]
          · rw [if_neg hp, f5, kidsLeft_other (fun hc => hp (hchild j hc))]
        rw [← h0]
        split <;> split <;> split <;> rfl
      · intro q pre' post' hpq hkq
        have h0 : (if pre.getLast? = some j then post.head? else n.nextSibling) = post'.head? ∧
            (if post.head? = some j then pre.getLast? else n.prevSibling) = pre'.getLast? := by
          by_cases hp : p = some q
          · rw [kidsLeft_split (hk q hp)] at hkq
            have hn := kidsLeft_nodup h ds q
            have hkk := hk q hp
            rw [hkk] at hn
            rw [List.append_eq_append_iff] at hkq
            have hjpre : ∀ mid, pre = pre' ++ j :: mid → j ∉ mid ∧ j ∉ post := by
              rintro mid rfl
              have h1 := (List.nodup_append.mp hn)
              have h2 := (List.nodup_append.mp h1.1).2.1
              exact ⟨(List.nodup_cons.mp h2).1, fun hc => h1.2.2 j (by simp) j (by simp [hc]) rfl⟩
            have hjpost : ∀ mid, post = mid ++ j :: post' → j ∉ mid ∧ j ∉ pre := by
              rintro mid rfl
              have h1 := (List.nodup_append.mp hn)
              have h2 := (List.nodup_append.mp (List.nodup_cons.mp h1.2.1).2)
              exact ⟨fun hc => h2.2.2 j hc j (by simp) rfl, fun hc => h1.2.2 j hc j (by simp) rfl⟩
            rcases hkq with ⟨mid, hm1, hm2⟩ | ⟨mid, hm1, hm2⟩
            · -- j lies in post
              obtain ⟨b1, b2⟩ := hjpost mid hm2
              obtain ⟨c1, c2⟩ := f6 q (pre ++ i :: mid) post' hpq (by rw [hkk, hm2]; simp)
              rw [if_neg (fun hc => b2 (List.mem_of_getLast? hc)), c1, c2, hm1, hm2]
              refine ⟨rfl, ?_⟩
              cases mid with
              | nil => simp
              | cons x xs =>
                have : x ≠ j := by rintro rfl; simp at b1
                simp [this, List.getLast?_append]
            · cases mid with
              | nil =>
                -- j is the head of post
                simp at hm1 hm2
                subst hm1
                obtain ⟨b1, b2⟩ := hjpost [] hm2.symm
                obtain ⟨c1, c2⟩ := f6 q (pre ++ [i]) post' hpq (by rw [hkk, ← hm2]; simp)
                rw [if_neg (fun hc => b2 (List.mem_of_getLast? hc)), c1, c2, ← hm2]
                simp
              | cons y mid =>
                simp at hm2
                obtain ⟨rfl, rfl⟩ := hm2
                obtain ⟨b1, b2⟩ := hjpre mid hm1
                obtain ⟨c1, c2⟩ := f6 q pre' (mid ++ i :: post) hpq (by rw [hkk, hm1]; simp)
                rw [if_neg (c := post.head? = some j) (fun hc => b2 (List.mem_of_head? hc)), c1, c2, hm1]
                refine ⟨?_, rfl⟩
                cases mid with
                | nil => simp
                | cons x xs =>
                  rw [if_neg]
                  · simp
                  · intro hc
                    have : (x :: xs).getLast? = some j := by
                      simpa [List.getLast?_append] using hc
                    exact b1 (List.mem_of_getLast? this)
          · rw [kidsLeft_other (fun hc => hp (hchild q hc))] at hkq
            obtain ⟨c1, c2⟩ := f6 q pre' post' hpq hkq
            have hnot : j ∉ pre ∧ j ∉ post := by
              have hjq : j ∈ kids h q := by rw [mem_kids]; exact ⟨dj, by rw [hj, hpq]⟩
              cases p with
              | none => obtain ⟨rfl, rfl⟩ := hnone rfl; simp
              | some q0 =>
                have : ∀ x, x ∈ pre ∨ x ∈ post → x ≠ j := by
                  rintro x hx rfl
                  have : x ∈ kidsLeft h ds q0 := by rw [hk q0 rfl]; simp; rcases ‹_ ∨ _› with hh | hh <;> simp [hh]
                  exact hp (by rw [kids_parent (mem_kidsLeft.mp this).1 hjq])
                exact ⟨fun hc => this j (.inl hc) rfl, fun hc => this j (.inr hc) rfl⟩
            rw [if_neg (fun hc => hnot.1 (List.mem_of_getLast? hc)), if_neg (fun hc => hnot.2 (List.mem_of_head? hc))]
            exact ⟨c1, c2⟩
        obtain ⟨h1, h2⟩ := h0
        constructor
        · rw [← h1]; split <;> split <;> split <;> rfl
        · rw [← h2]; split <;> split <;> split <;> rfl
      · rintro rfl
        obtain ⟨c1, c2⟩ := f7 rfl
        have hnot : j ∉ pre ∧ j ∉ post := by
          cases p with
          | none => obtain ⟨rfl, rfl⟩ := hnone rfl; simp
          | some q0 =>
            have : ∀ x, x ∈ pre ∨ x ∈ post → x ≠ j := by
              rintro x hx rfl
              have : x ∈ kidsLeft h ds q0 := by rw [hk q0 rfl]; simp; rcases ‹_ ∨ _› with hh | hh <;> simp [hh]
              obtain ⟨d', hd'⟩ := mem_kids.mp (mem_kidsLeft.mp this).1
              rw [hj] at hd'; simp at hd'
            exact ⟨fun hc => this j (.inl hc) rfl, fun hc => this j (.inr hc) rfl⟩
        rw [if_neg (c := pre.getLast? = some j) (fun hc => hnot.1 (List.mem_of_getLast? hc)),
          if_neg (c := post.head? = some j) (fun hc => hnot.2 (List.mem_of_head? hc))]
        split
        · exact ⟨c1, c2⟩
        · exact ⟨c1, c2⟩

end HPP
