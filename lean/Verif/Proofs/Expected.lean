import Verif.Spec.Expected
import Verif.Proofs.Failing
import Verif.Props.LL1
/-
Stops of a parse in grammars in which nothing stands for the empty text.
-/
namespace HPP
open Spec
variable {I S : Type} {pd : ParserData I} {start : Nat} {vm : VM I S}

/-- The terminals of these elements are not empty. -/
def NameOk (pd : ParserData I) (els : List Nat) : Prop :=
  ∀ e ∈ els, pd.elementTypes[e]? = some .terminal → ∀ d, pd.elementData[e]? = some d → d.name ≠ []

theorem elemForm_ne_nil {e : Nat} (h : pd.elementTypes[e]? = some .terminal → ∀ d, pd.elementData[e]? = some d → d.name ≠ []) :
    1 ≤ (elemForm pd e).length := by
  simp only [elemForm]
  split
  · rename_i d h1 h2
    have := h h1 d h2
    cases hd : d.name with
    | nil => exact absurd hd this
    | cons a l => simp [ofText]
  · simp

theorem formOf_length {els : List Nat} (h : NameOk pd els) : els.length ≤ (formOf pd els).length := by
  induction els with
  | nil => simp
  | cons e es ih =>
    have h1 := elemForm_ne_nil (pd := pd) (e := e) fun a d b => h e (by simp) a d b
    have h2 := ih fun x hx => h x (by simp [hx])
    simp only [formOf_cons, List.length_append, List.length_cons]
    omega

theorem EmptyFree.elems (hw : WellFormed pd) (he : EmptyFree pd) {A : Nat} {r : NTRule I} (hr : AMap.get pd.rules A = some r)
    {p : Production} (hp : p ∈ r.prods) : ∃ e es, p = .notEmpty (e :: es) ∧ NameOk pd (e :: es) := by
  obtain ⟨h1, h2⟩ := he A r hr p hp
  cases p with
  | empty => exact absurd rfl h1
  | notEmpty els =>
    cases els with
    | nil => exact absurd rfl (hw.nonEmpty A r hr _ hp)
    | cons e es => exact ⟨e, es, rfl, h2⟩

theorem derives_length (hw : WellFormed pd) (he : EmptyFree pd) {u v : Form} (h : Derives (grammarOf pd) u v) :
    u.length ≤ v.length := by
  induction h with
  | refl => exact Nat.le_refl _
  | tail _ hs ih =>
    cases hs with
    | mk a b hr =>
      obtain ⟨r, h1, p, h2, rfl⟩ := hr
      obtain ⟨e, es, rfl, hn⟩ := EmptyFree.elems hw he h1 h2
      have := formOf_length hn
      simp only [prodElems, List.length_append, List.length_cons] at ih this ⊢
      omega

theorem not_nullable (hw : WellFormed pd) (he : EmptyFree pd) {A : Nat} : ¬ Nullable (grammarOf pd) [.nt A] := fun h => by
  have := derives_length hw he h
  simp at this

theorem EmptyFree.followFits (hw : WellFormed pd) (he : EmptyFree pd) : FollowFits pd start :=
  fun _ _ _ _ _ h _ => absurd h (not_nullable hw he)

theorem Spec.TopDown.sub {els : List Nat} {w r : Str} {f : Forest} (h : TopDown pd start els w f r) : ∃ s, w = s ++ r := by
  obtain ⟨s, h1, -⟩ := h.isForest
  exact ⟨s, h1⟩

theorem head_append {s a b : Str} (h : s ≠ []) : (s ++ a).head? = (s ++ b).head? := by
  cases s with
  | nil => exact absurd rfl h
  | cons => rfl

theorem LStep.toStep {G : Grammar} {u v : Form} (h : LStep G u v) : Step G u v := by
  cases h with
  | mk u v h => rw [← List.append_assoc]; exact .mk _ _ h

theorem Spec.LDerives.toDerives {G : Grammar} {u v : Form} (h : LDerives G u v) : Derives G u v :=
  Relation.ReflTransGen.mono (fun _ _ => LStep.toStep) _ _ h

/-- The leftmost derivation of a text by its parse trees. -/
theorem Spec.IsForest.lderives {els : List Nat} {f : Forest} {s : Str} (h : IsForest pd els f s) : ∀ (u : Str) (K : Form),
    LDerives (grammarOf pd) (ofText u ++ (formOf pd els ++ K)) (ofText (u ++ s) ++ K) := by
  induction h with
  | nil => intro u K; rw [List.append_nil]; exact .refl
  | @leaf e es d f s h1 h2 _ ih =>
    intro u K
    have := ih (u ++ d.name) K
    rw [formOf_cons, elemForm_terminal h1 h2]
    simpa [ofText] using this
  | @node A es r p kids f s1 s2 h1 h2 h3 _ _ ih1 ih2 =>
    intro u K
    rw [formOf_cons, elemForm_nonTerminal h1]
    have k0 : LStep (grammarOf pd) (ofText u ++ .nt A :: (formOf pd es ++ K))
      (ofText u ++ (formOf pd (prodElems p) ++ (formOf pd es ++ K))) := .mk u _ ⟨r, h2, p, h3, rfl⟩
    have k1 := ih1 u (formOf pd es ++ K)
    have k2 := ih2 (u ++ s1) K
    rw [List.append_assoc] at k2
    exact (Relation.ReflTransGen.head k0 k1).trans k2

/-- What comes next can continue the text `u` to a viable prefix (at the end: `u` is in the language). -/
def Viable (pd : ParserData I) (start : Nat) (u : Str) : SetMember → Prop
  | .char x => ∃ v, Derives (grammarOf pd) [.nt start] (ofText (u ++ [x]) ++ v)
  | .terminate => Language (grammarOf pd) start u

theorem viable_of_begins {u : Str} {v : Form} {m : SetMember}
    (h : Derives (grammarOf pd) [.nt start] (ofText u ++ v)) (hb : Begins (grammarOf pd) v m) : Viable pd start u m := by
  cases m with
  | char x =>
    obtain ⟨v', hv⟩ := hb
    have := h.trans (hv.append_left (ofText u))
    exact ⟨v', by simpa [ofText] using this⟩
  | terminate =>
    have := h.trans (Derives.append_left (ofText u) hb)
    simpa [Viable, Language] using this

theorem begins_append {a b : Form} {m : SetMember} (ha : Nullable (grammarOf pd) a) (hb : Begins (grammarOf pd) b m) :
    Begins (grammarOf pd) (a ++ b) m := by
  cases m with
  | char x => exact firstChar_append.2 (.inr ⟨ha, hb⟩)
  | terminate => exact nullable_append.2 ⟨ha, hb⟩

/-- If an alternative is chosen for a lookahead, then the lookahead can come next. -/
theorem viable_of_control (hff : FollowFits pd start) {A : Nat} {rule : NTRule I}
    (hr : AMap.get pd.rules A = some rule) {p : Production} (hp : p ∈ rule.prods) {u : Str} {v : Form} {m : SetMember}
    (h : LDerives (grammarOf pd) [.nt start] (ofText u ++ (.nt A :: v))) (hc : Control pd start A p m) : Viable pd start u m := by
  have hA : grammarOf pd A (formOf pd (prodElems p)) := ⟨rule, hr, p, hp, rfl⟩
  have hd : LDerives (grammarOf pd) [.nt start] (ofText u ++ (formOf pd (prodElems p) ++ v)) := h.tail (.mk u v hA)
  cases p with
  | empty =>
    refine viable_of_begins h.toDerives (begins_append (a := [.nt A]) (nullable_nt.2 ⟨_, hA, nullable_nil⟩) ?_)
    exact hff u A v m h (nullable_nt.2 ⟨_, hA, nullable_nil⟩) hc
  | notEmpty els =>
    cases els with
    | nil => exact hc.elim
    | cons e es =>
      simp only [prodElems, formOf_cons] at hd
      rcases hc with ⟨g1, d, x, g2, g3, rfl⟩ | ⟨g1, ⟨x, rfl, g2⟩ | ⟨g2, g3⟩⟩
      · refine viable_of_begins hd.toDerives (firstChar_append.2 (.inl (firstChar_append.2 (.inl ?_))))
        rw [elemForm_terminal g1 g2]
        exact firstChar_ofText.2 g3
      · refine viable_of_begins hd.toDerives (firstChar_append.2 (.inl (firstChar_append.2 (.inl ?_))))
        rw [elemForm_nonTerminal g1]
        exact g2
      · rw [elemForm_nonTerminal g1, List.append_assoc] at hd
        exact viable_of_begins hd.toDerives (begins_append (a := [.nt e]) g2 (hff u e _ m hd g2 g3))

/-- What comes behind the text read has no influence, if it cannot continue it. -/
theorem Spec.TopDown.change_rest (hff : FollowFits pd start) {els : List Nat} {w r : Str} {f : Forest}
    (h : TopDown pd start els w f r) : ∀ (u0 t u2 r0 : Str) (v : Form), r = u2 ++ r0 → w = t ++ r →
      LDerives (grammarOf pd) [.nt start] (ofText u0 ++ (formOf pd els ++ v)) →
      ¬ Viable pd start (u0 ++ t ++ u2) (SetMember.ofPeek r0.head?) →
      ∀ r', TopDown pd start els (t ++ (u2 ++ r')) f (u2 ++ r') := by
  induction h with
  | nil =>
    intro u0 t u2 r0 v hr ht hd hb r'
    have : t = [] := by
      have := congrArg List.length ht
      rw [List.length_append] at this
      exact List.eq_nil_of_length_eq_zero (by omega)
    subst this
    exact .nil
  | @leaf e es d w r f h1 h2 h3 ih =>
    intro u0 t u2 r0 v hr ht hd hb r'
    obtain ⟨s, rfl⟩ := h3.sub
    rw [← List.append_assoc] at ht
    have := List.append_cancel_right ht
    subst this
    rw [List.append_assoc]
    refine .leaf h1 h2 (ih (u0 ++ d.name) s u2 r0 v hr rfl ?_ ?_ r')
    · rw [formOf_cons, elemForm_terminal h1 h2] at hd
      simpa [ofText] using hd
    · simpa only [List.append_assoc] using hb
  | @node A es rule p w w1 r kids f h1 h2 h3 h4 h5 h6 ih1 ih2 =>
    intro u0 t u2 r0 v hr ht hd hb r'
    obtain ⟨s1, rfl, hk⟩ := h5.isForest
    obtain ⟨s2, rfl⟩ := h6.sub
    rw [← List.append_assoc] at ht
    have := List.append_cancel_right ht
    subst this
    rw [formOf_cons, elemForm_nonTerminal h1] at hd
    have hd1 : LDerives (grammarOf pd) [.nt start] (ofText u0 ++ (formOf pd (prodElems p) ++ (formOf pd es ++ v))) := by
      have hd' : LDerives (grammarOf pd) [.nt start] (ofText u0 ++ (.nt A :: (formOf pd es ++ v))) := by
        simpa using hd
      exact hd'.tail (.mk u0 _ ⟨rule, h2, p, h3, rfl⟩)
    have hd2 : LDerives (grammarOf pd) [.nt start] (ofText (u0 ++ s1) ++ (formOf pd es ++ v)) := hd1.trans (hk.lderives u0 _)
    have hctl : Control pd start A p (SetMember.ofPeek (s1 ++ (s2 ++ (u2 ++ r'))).head?) := by
      by_cases hne : s1 ++ (s2 ++ u2) = []
      · exfalso
        obtain ⟨rfl, hx⟩ := List.append_eq_nil_iff.1 hne
        obtain ⟨rfl, rfl⟩ := List.append_eq_nil_iff.1 hx
        refine hb ?_
        simp only [List.nil_append, List.append_nil] at hr h4 ⊢
        rw [← hr]
        exact viable_of_control hff h2 h3 (by simpa using hd) h4
      · have e1 : s1 ++ (s2 ++ r) = (s1 ++ (s2 ++ u2)) ++ r0 := by rw [hr]; simp only [List.append_assoc]
        have e2 : s1 ++ (s2 ++ (u2 ++ r')) = (s1 ++ (s2 ++ u2)) ++ r' := by simp only [List.append_assoc]
        rw [e2, head_append (b := r0) hne, ← e1]
        exact h4
    have k1 := ih1 u0 s1 (s2 ++ u2) r0 (formOf pd es ++ v) (by rw [hr, List.append_assoc]) rfl hd1
      (by simpa only [List.append_assoc] using hb) r'
    have k2 := ih2 (u0 ++ s1) s2 u2 r0 v hr rfl hd2 (by simpa only [List.append_assoc] using hb) r'
    rw [List.append_assoc s2] at k1
    rw [List.append_assoc s1]
    exact .node h1 h2 h3 hctl k1 k2

theorem alternative_unique (hd : ControlDisjoint pd start) {A : Nat} {r : NTRule I} (hr : AMap.get pd.rules A = some r)
    {p q : Production} (hp : p ∈ r.prods) (hq : q ∈ r.prods) {m : SetMember} (h1 : Control pd start A p m)
    (h2 : Control pd start A q m) : p = q := by
  refine Classical.byContradiction fun hne => ?_
  exact (List.Pairwise.forall_of_forall_of_flip (l := r.prods) (R := fun p q => p ≠ q → ∀ m, ¬ (Control pd start A p m ∧ Control pd start A q m))
    (fun x _ hx => absurd rfl hx)
    ((hd A r hr).imp fun {a b} h (_ : a ≠ b) => h) ((hd A r hr).imp fun {a b} h (_ : b ≠ a) m hm => h m ⟨hm.2, hm.1⟩)) hp hq hne m ⟨h1, h2⟩

/-- There is only one way to read. -/
theorem Spec.TopDown.unique (hd : ControlDisjoint pd start) {els : List Nat} {w r : Str} {f : Forest}
    (h : TopDown pd start els w f r) : ∀ {f' r'}, TopDown pd start els w f' r' → f = f' ∧ r = r' := by
  induction h with
  | nil => intro f' r' h'; cases h'; exact ⟨rfl, rfl⟩
  | @leaf e es d w r f h1 h2 h3 ih =>
    intro f' r' h'
    generalize hw : d.name ++ w = w0 at h'
    cases h' with
    | node k1 => rw [h1] at k1; cases k1
    | leaf k1 k2 k3 =>
      rw [h2] at k2
      cases k2
      have := List.append_cancel_left hw
      subst this
      obtain ⟨a, b⟩ := ih k3
      exact ⟨by rw [a], b⟩
  | node h1 h2 h3 h4 h5 h6 ih1 ih2 =>
    intro f' r' h'
    cases h' with
    | leaf k1 => rw [h1] at k1; cases k1
    | node k1 k2 k3 k4 k5 k6 =>
      rw [h2] at k2
      cases k2
      cases alternative_unique hd h2 h3 k3 h4 k4
      obtain ⟨a, b⟩ := ih1 k5
      subst a b
      obtain ⟨a, b⟩ := ih2 k6
      exact ⟨by rw [a], b⟩

theorem Spec.TopDown.first {e : Nat} {es : List Nat} {w r : Str} {f : Forest} (h : TopDown pd start (e :: es) w f r) :
    ∃ f1 w1 f2, TopDown pd start [e] w f1 w1 ∧ TopDown pd start es w1 f2 r := by
  cases h with
  | leaf h1 h2 h3 => exact ⟨_, _, _, .leaf h1 h2 .nil, h3⟩
  | node h1 h2 h3 h4 h5 h6 => exact ⟨_, _, _, .node h1 h2 h3 h4 h5 .nil, h6⟩

/-- The stop is before `r`, and the lookaheads `E` would have been accepted there. -/
def StopAt (pd : ParserData I) (start : Nat) (st : Stop S) (r : Str) (E : SetMember → Prop) : Prop :=
  (∃ c c' s, st = .wrongChar c c' r s ∧ E = fun m => m = .char c') ∨
  (∃ A rule s, st = .noAlternative A r s ∧ AMap.get pd.rules A = some rule ∧ E = fun m => ∃ p ∈ rule.prods, Control pd start A p m)

theorem Spec.Stops.sub {k : Nat} {par : Option NodeId} {els : List Nat} {w : Str} {x : Tree Str × S} {st : Stop S}
    (h : Stops vm pd start k par els w x st) {r : Str} {E : SetMember → Prop} (hst : StopAt pd start st r E) : ∃ u, w = u ++ r := by
  induction h with
  | wrongChar _ _ _ _ =>
    rcases hst with ⟨_, _, _, h, -⟩ | ⟨_, _, _, h, -⟩ <;> cases h
    exact ⟨_, rfl⟩
  | noAlternative _ _ _ =>
    rcases hst with ⟨_, _, _, h, -⟩ | ⟨_, _, _, h, -⟩ <;> cases h
    exact ⟨[], rfl⟩
  | inside _ _ _ _ _ _ ih => exact ih hst
  | after h1 _ _ _ ih =>
    obtain ⟨u, rfl⟩ := ih hst
    obtain ⟨s, rfl⟩ := h1.sub
    exact ⟨s ++ u, by rw [List.append_assoc]⟩
  | ended _ _ _ => rcases hst with ⟨_, _, _, h, -⟩ | ⟨_, _, _, h, -⟩ <;> cases h
  | noParent _ _ _ _ _ => rcases hst with ⟨_, _, _, h, -⟩ | ⟨_, _, _, h, -⟩ <;> cases h
  | leafPanics _ _ _ => rcases hst with ⟨_, _, _, h, -⟩ | ⟨_, _, _, h, -⟩ <;> cases h
  | nodePanics _ _ _ _ _ => rcases hst with ⟨_, _, _, h, -⟩ | ⟨_, _, _, h, -⟩ <;> cases h
  | machinePanics _ _ _ _ _ _ _ _ _ => rcases hst with ⟨_, _, _, h, -⟩ | ⟨_, _, _, h, -⟩ <;> cases h

/-- If another text with the same beginning can be read, then what comes next there is one of the lookaheads accepted at the
stop. -/
theorem Spec.Stops.next (hff : FollowFits pd start) (hd : ControlDisjoint pd start) {k : Nat} {par : Option NodeId}
    {els : List Nat} {w : Str} {x : Tree Str × S} {st : Stop S} (h : Stops vm pd start k par els w x st) {r : Str}
    {E : SetMember → Prop} (hst : StopAt pd start st r E) :
    ∀ (u0 u : Str) (v : Form), w = u ++ r → LDerives (grammarOf pd) [.nt start] (ofText u0 ++ (formOf pd els ++ v)) →
      ¬ Viable pd start (u0 ++ u) (SetMember.ofPeek r.head?) →
      ∀ y f r', TopDown pd start els (u ++ y) f r' → E (SetMember.ofPeek y.head?) := by
  induction h with
  | @wrongChar k par e es d u1 v r0 c c' t s h1 h2 h3 h4 =>
    intro u0 u v' hu hd' hb y f r' ht
    rcases hst with ⟨_, _, _, h, rfl⟩ | ⟨_, _, _, h, -⟩ <;> cases h
    cases List.append_cancel_right hu
    generalize hx : u1 ++ y = w0 at ht
    cases ht with
    | node k1 => rw [h1] at k1; cases k1
    | leaf k1 k2 k3 =>
      rw [h2] at k2
      cases k2
      rw [h3, List.append_assoc] at hx
      have := List.append_cancel_left hx
      rw [this]
      rfl
  | noAlternative h1 h2 h3 =>
    intro u0 u v' hu hd' hb y f r' ht
    rcases hst with ⟨_, _, _, h, -⟩ | ⟨_, rule, _, h, k, rfl⟩ <;> cases h
    have : u = [] := by
      have := congrArg List.length hu
      rw [List.length_append] at this
      exact List.eq_nil_of_length_eq_zero (by omega)
    subst this
    rw [List.nil_append] at ht
    cases ht with
    | leaf k1 => rw [h1] at k1; cases k1
    | node k1 k2 k3 k4 =>
      rw [k] at k2
      cases k2
      exact ⟨_, k3, k4⟩
  | @inside k par A es rule p w t t1 s id st h1 h2 h3 h4 h5 h6 ih =>
    intro u0 u v' hu hd' hb y f r' ht
    rw [formOf_cons, elemForm_nonTerminal h1, List.append_assoc] at hd'
    cases u with
    | nil =>
      refine absurd (viable_of_control hff h2 h3 hd' h4) ?_
      rw [List.append_nil] at hb
      rw [hu]
      exact hb
    | cons a u =>
      generalize hx : a :: u ++ y = w0 at ht
      cases ht with
      | leaf k1 => rw [h1] at k1; cases k1
      | node k1 k2 k3 k4 k5 =>
        rw [h2] at k2
        cases k2
        subst hx
        rw [hu] at h4
        cases alternative_unique hd h2 h3 k3 h4 k4
        refine ih hst u0 (a :: u) (formOf pd es ++ v') hu ?_ hb y _ _ k5
        exact hd'.tail (.mk u0 _ ⟨rule, h2, p, h3, rfl⟩)
  | @after k par e es w w1 f0 x y0 st h1 h2 h3 h4 ih =>
    intro u0 u v' hu hd' hb y f r' ht
    obtain ⟨u2, hu2⟩ := h4.sub hst
    obtain ⟨t, ht1, hfo⟩ := h1.isForest
    have : u = t ++ u2 := by
      rw [ht1, hu2, ← List.append_assoc] at hu
      exact (List.append_cancel_right hu).symm
    subst this
    have hde : LDerives (grammarOf pd) [.nt start] (ofText u0 ++ (formOf pd [e] ++ (formOf pd es ++ v'))) := by
      simpa using hd'
    have k1 := h1.change_rest hff u0 t u2 r (formOf pd es ++ v') hu2 ht1 hde (by simpa only [List.append_assoc] using hb) y
    rw [List.append_assoc] at ht
    obtain ⟨f1, w', f2, k2, k3⟩ := ht.first
    obtain ⟨-, rfl⟩ := k1.unique hd k2
    refine ih hst (u0 ++ t) u2 v' hu2 ?_ (by simpa only [List.append_assoc] using hb) y _ _ k3
    exact hde.trans (hfo.lderives u0 _)
  | ended _ _ _ => rcases hst with ⟨_, _, _, h, -⟩ | ⟨_, _, _, h, -⟩ <;> cases h
  | noParent _ _ _ _ _ => rcases hst with ⟨_, _, _, h, -⟩ | ⟨_, _, _, h, -⟩ <;> cases h
  | leafPanics _ _ _ => rcases hst with ⟨_, _, _, h, -⟩ | ⟨_, _, _, h, -⟩ <;> cases h
  | nodePanics _ _ _ _ _ => rcases hst with ⟨_, _, _, h, -⟩ | ⟨_, _, _, h, -⟩ <;> cases h
  | machinePanics _ _ _ _ _ _ _ _ _ => rcases hst with ⟨_, _, _, h, -⟩ | ⟨_, _, _, h, -⟩ <;> cases h

/-- What stands at the stop, in a leftmost derivation. -/
theorem Spec.Stops.context {k : Nat} {par : Option NodeId} {els : List Nat} {w : Str} {x : Tree Str × S} {st : Stop S}
    (h : Stops vm pd start k par els w x st) {r : Str} {E : SetMember → Prop} (hst : StopAt pd start st r E) :
    ∀ (u0 u : Str) (v : Form), w = u ++ r → LDerives (grammarOf pd) [.nt start] (ofText u0 ++ (formOf pd els ++ v)) →
      (∃ c' v', LDerives (grammarOf pd) [.nt start] (ofText (u0 ++ u) ++ .ch c' :: v') ∧ E = fun m => m = .char c') ∨
      (∃ A rule v', AMap.get pd.rules A = some rule ∧ LDerives (grammarOf pd) [.nt start] (ofText (u0 ++ u) ++ .nt A :: v') ∧
        E = fun m => ∃ p ∈ rule.prods, Control pd start A p m) := by
  induction h with
  | @wrongChar k par e es d u1 v r0 c c' t s h1 h2 h3 h4 =>
    intro u0 u v' hu hd
    rcases hst with ⟨_, _, _, h, rfl⟩ | ⟨_, _, _, h, -⟩ <;> cases h
    cases List.append_cancel_right hu
    rw [formOf_cons, elemForm_terminal h1 h2, h3] at hd
    exact .inl ⟨c', ofText v ++ (formOf pd es ++ v'), by simpa [ofText] using hd, rfl⟩
  | @noAlternative k par A es rule w t s h1 h2 h3 =>
    intro u0 u v' hu hd
    rcases hst with ⟨_, _, _, h, -⟩ | ⟨_, rule, _, h, k, rfl⟩ <;> cases h
    have : u = [] := by
      have := congrArg List.length hu
      rw [List.length_append] at this
      exact List.eq_nil_of_length_eq_zero (by omega)
    subst this
    rw [formOf_cons, elemForm_nonTerminal h1] at hd
    exact .inr ⟨A, rule, formOf pd es ++ v', k, by simpa using hd, rfl⟩
  | @inside k par A es rule p w t t1 s id st h1 h2 h3 h4 h5 h6 ih =>
    intro u0 u v' hu hd
    rw [formOf_cons, elemForm_nonTerminal h1, List.append_assoc] at hd
    exact ih hst u0 u _ hu (hd.tail (.mk u0 _ ⟨rule, h2, p, h3, rfl⟩))
  | @after k par e es w w1 f0 x y0 st h1 h2 h3 h4 ih =>
    intro u0 u v' hu hd
    obtain ⟨u2, hu2⟩ := h4.sub hst
    obtain ⟨t, ht1, hfo⟩ := h1.isForest
    have : u = t ++ u2 := by
      rw [ht1, hu2, ← List.append_assoc] at hu
      exact (List.append_cancel_right hu).symm
    subst this
    have hde : LDerives (grammarOf pd) [.nt start] (ofText u0 ++ (formOf pd [e] ++ (formOf pd es ++ v'))) := by
      simpa using hd
    have := ih hst (u0 ++ t) u2 v' hu2 (hde.trans (hfo.lderives u0 _))
    rw [List.append_assoc] at this
    exact this
  | ended _ _ _ => rcases hst with ⟨_, _, _, h, -⟩ | ⟨_, _, _, h, -⟩ <;> cases h
  | noParent _ _ _ _ _ => rcases hst with ⟨_, _, _, h, -⟩ | ⟨_, _, _, h, -⟩ <;> cases h
  | leafPanics _ _ _ => rcases hst with ⟨_, _, _, h, -⟩ | ⟨_, _, _, h, -⟩ <;> cases h
  | nodePanics _ _ _ _ _ => rcases hst with ⟨_, _, _, h, -⟩ | ⟨_, _, _, h, -⟩ <;> cases h
  | machinePanics _ _ _ _ _ _ _ _ _ => rcases hst with ⟨_, _, _, h, -⟩ | ⟨_, _, _, h, -⟩ <;> cases h

end HPP
