import Verif.Proofs.Follow
/-
The marking phase of the FOLLOW computation and the complete result.
-/
namespace HPP
open Spec Function Relation
variable {I : Type}

/-- View of the follow graph by names: `D n m` "member `m` is marked at `n`", `E a b` "edge from `a` to `b`",
`K n` "there is a node named `n`". -/
structure NView (g : FollowGraph) (D : Nat → SetMember → Prop) (E : Nat → Nat → Prop) (K : Nat → Prop)
    : Prop where
  ex : ∃ data out, NRep g data out ∧
    (∀ n m, D n m ↔ ∃ i, AMap.get g.names n = some i ∧ InD data i m) ∧
    (∀ a b, E a b ↔ ∃ i j, AMap.get g.names a = some i ∧ AMap.get g.names b = some j ∧ EdgeI out i j)
  keys : ∀ n, K n ↔ ∃ i, AMap.get g.names n = some i

theorem NView.congr {g : FollowGraph} {D D' : Nat → SetMember → Prop} {E E' : Nat → Nat → Prop}
    {K : Nat → Prop} (h : NView g D E K) (hD : ∀ n m, D' n m ↔ D n m) (hE : ∀ a b, E' a b ↔ E a b) :
    NView g D' E' K := by
  obtain ⟨⟨data, out, h1, h2, h3⟩, h4⟩ := h
  exact ⟨⟨data, out, h1, fun n m => (hD n m).trans (h2 n m), fun a b => (hE a b).trans (h3 a b)⟩, h4⟩

theorem NView.modify {g : FollowGraph} {D : Nat → SetMember → Prop} {E : Nat → Nat → Prop}
    {K : Nat → Prop} (h : NView g D E K) {n : Nat} (hn : K n) (f : List SetMember → List SetMember)
    (P : SetMember → Prop) (hf : ∀ d m, m ∈ f d ↔ m ∈ d ∨ P m) :
    ∃ g', g.modifyNode n f = .ok g' ∧ NView g' (fun x m => D x m ∨ (x = n ∧ P m)) E K := by
  obtain ⟨⟨data, out, h1, h2, h3⟩, h4⟩ := h
  obtain ⟨i, hi⟩ := (h4 n).mp hn
  have hlt := h1.lt n i hi
  have hd := List.getElem?_eq_getElem hlt
  obtain ⟨g', hg', hr, hnm⟩ := h1.modifyNode hi hd f
  refine ⟨g', hg', ⟨⟨_, out, hr, ?_, ?_⟩, ?_⟩⟩
  · intro x m
    rw [h2, hnm]
    constructor
    · rintro (⟨j, hj, hm⟩ | ⟨rfl, hm⟩)
      · refine ⟨j, hj, (inD_set hd).mpr ?_⟩
        by_cases hji : j = i
        · left
          subst hji
          obtain ⟨d, hd', hm⟩ := hm
          rw [hd] at hd'; cases hd'
          exact ⟨rfl, (hf _ _).mpr (.inl hm)⟩
        · exact .inr ⟨hji, hm⟩
      · exact ⟨i, hi, (inD_set hd).mpr (.inl ⟨rfl, (hf _ _).mpr (.inr hm)⟩)⟩
    · rintro ⟨j, hj, hm⟩
      rcases (inD_set hd).mp hm with ⟨rfl, hm⟩ | ⟨_, hm⟩
      · have hx := h1.inj x n j hj hi
        subst hx
        rcases (hf _ _).mp hm with hm | hm
        · exact .inl ⟨j, hj, _, hd, hm⟩
        · exact .inr ⟨rfl, hm⟩
      · exact .inl ⟨j, hj, hm⟩
  · intro a b; rw [h3, hnm]
  · intro x; rw [h4, hnm]

theorem NView.modify_none {g : FollowGraph} {D : Nat → SetMember → Prop} {E : Nat → Nat → Prop}
    {K : Nat → Prop} (h : NView g D E K) {n : Nat} (hn : ¬ K n) (f : List SetMember → List SetMember) :
    ∃ e, g.modifyNode n f = .err e := by
  have : AMap.get g.names n = none := by
    cases hg : AMap.get g.names n with
    | none => rfl
    | some i => exact absurd ((h.keys n).mpr ⟨i, hg⟩) hn
  exact ⟨_, NRep.modifyNode_none this f⟩

theorem NView.addEdge {g : FollowGraph} {D : Nat → SetMember → Prop} {E : Nat → Nat → Prop}
    {K : Nat → Prop} (h : NView g D E K) {a b : Nat} (ha : K a) (hb : K b) :
    ∃ g', g.addEdge a b = .ok g' ∧ NView g' D (fun x y => E x y ∨ (x = a ∧ y = b)) K := by
  obtain ⟨⟨data, out, h1, h2, h3⟩, h4⟩ := h
  obtain ⟨i, hi⟩ := (h4 a).mp ha
  obtain ⟨j, hj⟩ := (h4 b).mp hb
  obtain ⟨g', hg', hr, hnm⟩ := h1.addEdge hi hj
  refine ⟨g', hg', ⟨⟨_, _, hr, ?_, ?_⟩, ?_⟩⟩
  · intro x m; rw [h2, hnm]
  · intro x y
    rw [h3, hnm]
    constructor
    · rintro (⟨p, q, hp, hq, he⟩ | ⟨rfl, rfl⟩)
      · exact ⟨p, q, hp, hq, NRep.edgeI_update.mpr (.inl he)⟩
      · exact ⟨i, j, hi, hj, NRep.edgeI_update.mpr (.inr ⟨rfl, rfl⟩)⟩
    · rintro ⟨p, q, hp, hq, he⟩
      rcases NRep.edgeI_update.mp he with he | ⟨rfl, rfl⟩
      · exact .inl ⟨p, q, hp, hq, he⟩
      · exact .inr ⟨h1.inj x a p hp hi, h1.inj y b q hq hj⟩
  · intro x; rw [h4, hnm]

theorem NView.addEdge_none {g : FollowGraph} {D : Nat → SetMember → Prop} {E : Nat → Nat → Prop}
    {K : Nat → Prop} (h : NView g D E K) {a b : Nat} (hab : ¬ (K a ∧ K b)) :
    ∃ e, g.addEdge a b = .err e := by
  apply NRep.addEdge_err
  by_contra hc
  simp only [not_or] at hc
  apply hab
  constructor
  · rw [h.keys]; exact Option.ne_none_iff_exists'.mp hc.1
  · rw [h.keys]; exact Option.ne_none_iff_exists'.mp hc.2

/-! ### Conversion of FIRST sets -/

theorem toSetMembers_ok {ε : Type} (S : List SetMemberE) (h : SetMemberE.empty ∉ S) :
    ∃ ms, (toSetMembers S : Res ε (List SetMember)) = .ok ms ∧
      (∀ c, .char c ∈ ms ↔ .char c ∈ S) ∧ (.terminate ∈ ms ↔ SetMemberE.terminate ∈ S) := by
  induction S with
  | nil => exact ⟨[], rfl, by simp, by simp⟩
  | cons x S ih =>
    simp only [List.mem_cons, not_or] at h
    obtain ⟨ms, h1, h2, h3⟩ := ih h.2
    cases x with
    | char c =>
      refine ⟨.char c :: ms, by simp [toSetMembers, SetMember.tryFrom, h1], ?_, ?_⟩
      · intro c'; simp [h2]
      · simp [h3]
    | empty => simp at h
    | terminate =>
      refine ⟨.terminate :: ms, by simp [toSetMembers, SetMember.tryFrom, h1], ?_, ?_⟩
      · intro c'; simp [h2]
      · simp

theorem toSetMembers_ne_timeout {ε : Type} (S : List SetMemberE) :
    (toSetMembers S : Res ε (List SetMember)) ≠ .timeout := by
  induction S with
  | nil => simp [toSetMembers]
  | cons x S ih =>
    intro h
    simp only [toSetMembers] at h
    rcases Res.bind_eq_timeout.mp h with h | ⟨y, _, h⟩
    · exact Res.unwrapO_ne_timeout h
    · rcases Res.bind_eq_timeout.mp h with h | ⟨ys, _, h⟩
      · exact ih h
      · simp at h

/-! ### Marking -/

/-- The marks made for the elements `els` (the occurrences of non-terminal `n` followed by `b`). -/
def Marks (pd : ParserData I) (els : List Nat) (n : Nat) (m : SetMember) : Prop :=
  ∃ a b c, els = a ++ n :: b ∧ pd.elementTypes[n]? = some .nonTerminal ∧ m = .char c ∧
    FirstChar (grammarOf pd) (formOf pd b) c

/-- The edges made for the elements `els`. -/
def Links (pd : ParserData I) (els : List Nat) (n : Nat) : Prop :=
  ∃ a b, els = a ++ n :: b ∧ pd.elementTypes[n]? = some .nonTerminal ∧
    Nullable (grammarOf pd) (formOf pd b)

theorem split_cons {e n : Nat} {es a b : List Nat} :
    e :: es = a ++ n :: b ↔ (a = [] ∧ n = e ∧ b = es) ∨ (∃ a', a = e :: a' ∧ es = a' ++ n :: b) := by
  cases a with
  | nil => simp; tauto
  | cons x a => simp; tauto

theorem marks_cons {pd : ParserData I} {e : Nat} {es : List Nat} {n : Nat} {m : SetMember} :
    Marks pd (e :: es) n m ↔ (n = e ∧ pd.elementTypes[e]? = some .nonTerminal ∧
      ∃ c, m = .char c ∧ FirstChar (grammarOf pd) (formOf pd es) c) ∨ Marks pd es n m := by
  unfold Marks
  constructor
  · rintro ⟨a, b, c, h1, h2, h3, h4⟩
    rcases split_cons.mp h1 with ⟨rfl, rfl, rfl⟩ | ⟨a', rfl, h⟩
    · exact .inl ⟨rfl, h2, c, h3, h4⟩
    · exact .inr ⟨a', b, c, h, h2, h3, h4⟩
  · rintro (⟨rfl, h2, c, h3, h4⟩ | ⟨a, b, c, h1, h2⟩)
    · exact ⟨[], es, c, rfl, h2, h3, h4⟩
    · exact ⟨e :: a, b, c, by simp [h1], h2⟩

theorem links_cons {pd : ParserData I} {e : Nat} {es : List Nat} {n : Nat} :
    Links pd (e :: es) n ↔ (n = e ∧ pd.elementTypes[e]? = some .nonTerminal ∧
      Nullable (grammarOf pd) (formOf pd es)) ∨ Links pd es n := by
  unfold Links
  constructor
  · rintro ⟨a, b, h1, h2, h3⟩
    rcases split_cons.mp h1 with ⟨rfl, rfl, rfl⟩ | ⟨a', rfl, h⟩
    · exact .inl ⟨rfl, h2, h3⟩
    · exact .inr ⟨a', b, h, h2, h3⟩
  · rintro (⟨rfl, h2, h3⟩ | ⟨a, b, h1, h2⟩)
    · exact ⟨[], es, rfl, h2, h3⟩
    · exact ⟨e :: a, b, by simp [h1], h2⟩

theorem getElement_eq {pd : ParserData I} {e : Nat} {et : ElementType}
    (h : pd.elementTypes[e]? = some et) : pd.getElement e = some ⟨e, et⟩ := by
  simp [ParserData.getElement, h]

/-- Marking what follows one non-terminal. -/
theorem markFollowing_view {pd : ParserData I} {fs : NamedSets} (hfs : FInv pd fs) {e : Nat} {es : List Nat}
    {g : FollowGraph} {D : Nat → SetMember → Prop} {E : Nat → Nat → Prop} {K : Nat → Prop}
    (h : NView g D E K) (hS : es = [] ∨ (K e ∧ ∃ S, firstSetOfPartial pd fs es = .ok S)) :
    ∃ g1 add, markFollowing pd fs e es g = .ok (g1, add) ∧
      NView g1 (fun n m => D n m ∨ (n = e ∧ ∃ c, m = .char c ∧
            FirstChar (grammarOf pd) (formOf pd es) c)) E K ∧
      (add = true ↔ Nullable (grammarOf pd) (formOf pd es)) ∧ (add = true ∨ K e) := by
  rcases hS with rfl | ⟨hKe, S, hS⟩
  · refine ⟨g, true, rfl, h.congr ?_ (fun _ _ => Iff.rfl), by simp [nullable_nil], .inl rfl⟩
    intro n m; simp [not_firstChar_nil]
  · cases es with
    | nil =>
      refine ⟨g, true, rfl, h.congr ?_ (fun _ _ => Iff.rfl), by simp [nullable_nil], .inl rfl⟩
      intro n m; simp [not_firstChar_nil]
    | cons e2 es2 =>
      have hF := firstSetOfPartial_exact hfs (by simp) hS
      have hne : SetMemberE.empty ∉ (if decide (SetMemberE.empty ∈ S) = true then
          setRemove S .empty else S) := by
        split
        · simp
        · next hc => simpa using hc
      obtain ⟨ms, hms1, hms2, hms3⟩ := toSetMembers_ok (ε := GErr) _ hne
      have hmem : ∀ m, m ∈ ms ↔ ∃ c, m = .char c ∧ FirstChar (grammarOf pd) (formOf pd (e2 :: es2)) c := by
        intro m
        cases m with
        | char c =>
          rw [hms2]
          have : (SetMemberE.char c ∈ if decide (SetMemberE.empty ∈ S) = true then
              setRemove S .empty else S) ↔ SetMemberE.char c ∈ S := by
            split
            · simp
            · rfl
          rw [this, hF.char]
          simp
        | terminate =>
          rw [hms3]
          have : SetMemberE.terminate ∉ (if decide (SetMemberE.empty ∈ S) = true then
              setRemove S .empty else S) := by
            split
            · simp [hF.noTerm]
            · exact hF.noTerm
          exact ⟨fun hc => absurd hc this, by rintro ⟨c, hc, _⟩; cases hc⟩
      obtain ⟨g2, hg2, hv⟩ := h.modify hKe (fun d => setExtend d ms) _
        (fun d m => by rw [mem_setExtend, hmem])
      refine ⟨g2, decide (SetMemberE.empty ∈ S), ?_, hv, by simp [hF.empty], .inr hKe⟩
      simp only [markFollowing, List.isEmpty_cons, Bool.false_eq_true, ↓reduceIte, hS, Res.bind_ok, hms1, hg2]

theorem markFollowing_ok_inv {pd : ParserData I} {fs : NamedSets} {e : Nat} {es : List Nat}
    {g : FollowGraph} {D : Nat → SetMember → Prop} {E : Nat → Nat → Prop} {K : Nat → Prop}
    (h : NView g D E K) {r : FollowGraph × Bool} (hr : markFollowing pd fs e es g = .ok r) :
    es = [] ∨ (K e ∧ ∃ S, firstSetOfPartial pd fs es = .ok S) := by
  cases es with
  | nil => exact .inl rfl
  | cons e2 es2 =>
    right
    simp only [markFollowing, List.isEmpty_cons, Bool.false_eq_true, ↓reduceIte] at hr
    cases hS : firstSetOfPartial pd fs (e2 :: es2) with
    | ok S =>
      refine ⟨?_, S, rfl⟩
      rw [hS] at hr
      simp only [Res.bind_ok] at hr
      obtain ⟨ms, _, hr⟩ := Res.bind_eq_ok.mp hr
      by_contra hc
      obtain ⟨er, her⟩ := h.modify_none hc (fun d => setExtend d ms)
      simp [her] at hr
    | err _ => simp [hS] at hr
    | panic => simp [hS] at hr
    | timeout => simp [hS] at hr

/-- What a successful marking of one production guarantees. -/
theorem graphMarking_ok {pd : ParserData I} {fs : NamedSets} (hfs : FInv pd fs) {left : Nat}
    (els : List Nat) : ∀ {g g' : FollowGraph} {D : Nat → SetMember → Prop} {E : Nat → Nat → Prop}
      {K : Nat → Prop}, NView g D E K → graphMarking pd fs left els g = .ok g' →
      NView g' (fun n m => D n m ∨ Marks pd els n m)
        (fun a b => E a b ∨ (a = left ∧ Links pd els b)) K ∧
      ∀ e ∈ els, e < pd.elementTypes.length ∧ (pd.elementTypes[e]? = some .nonTerminal → K e) := by
  induction els with
  | nil =>
    intro g g' D E K h heq
    simp only [graphMarking, Res.ok.injEq] at heq
    subst heq
    refine ⟨h.congr ?_ ?_, by simp⟩
    · intro n m; simp [Marks]
    · intro a b; simp [Links]
  | cons e es ih =>
    intro g g' D E K h heq
    simp only [graphMarking] at heq
    obtain ⟨element, h1, heq⟩ := Res.bind_eq_ok.mp heq
    rw [Res.ofOption_eq_ok] at h1
    have hty : pd.elementTypes[e]? = some element.et := by
      simp only [ParserData.getElement] at h1
      cases ht : pd.elementTypes[e]? with
      | none => simp [ht] at h1
      | some et => simp [ht] at h1; rw [← h1]
    have hlt := (List.getElem?_eq_some_iff.mp hty).1
    cases het : element.et with
    | terminal =>
      rw [het] at hty
      simp only [het] at heq
      obtain ⟨h2, h3⟩ := ih h heq
      refine ⟨h2.congr ?_ ?_, ?_⟩
      · intro n m; rw [marks_cons]; simp [hty]
      · intro a b; rw [links_cons]; simp [hty]
      · intro x hx
        rcases List.mem_cons.mp hx with rfl | hx
        · exact ⟨hlt, by simp [hty]⟩
        · exact h3 x hx
    | nonTerminal =>
      rw [het] at hty
      simp only [het] at heq
      obtain ⟨⟨g1, add⟩, h2, heq⟩ := Res.bind_eq_ok.mp heq
      obtain ⟨g1', add', h2', hv, hadd, hK⟩ := markFollowing_view hfs h (markFollowing_ok_inv h h2)
      rw [h2] at h2'
      simp only [Res.ok.injEq, Prod.mk.injEq] at h2'
      obtain ⟨rfl, rfl⟩ := h2'
      simp only [linkIf] at heq
      have phase2 : ∃ g2, NView g2 (fun n m => D n m ∨ (n = e ∧ ∃ c, m = .char c ∧
            FirstChar (grammarOf pd) (formOf pd es) c))
            (fun a b => E a b ∨ (a = left ∧ b = e ∧ Nullable (grammarOf pd) (formOf pd es))) K ∧ K e ∧
          graphMarking pd fs left es g2 = .ok g' := by
        cases add with
        | false =>
          have hnn : ¬ Nullable (grammarOf pd) (formOf pd es) := fun hc => by simpa using hadd.mpr hc
          refine ⟨g1, hv.congr (fun _ _ => Iff.rfl) ?_, by simpa using hK, by simpa using heq⟩
          intro a b; simp [hnn]
        | true =>
          have hnn := hadd.mp rfl
          simp only [↓reduceIte] at heq
          obtain ⟨g2, hg2, heq⟩ := Res.bind_eq_ok.mp heq
          have hKK : K left ∧ K e := by
            by_contra hc
            obtain ⟨er, her⟩ := hv.addEdge_none hc
            rw [her] at hg2; simp at hg2
          obtain ⟨g3, hg3, hv3⟩ := hv.addEdge hKK.1 hKK.2
          rw [hg3] at hg2
          cases hg2
          refine ⟨_, hv3.congr (fun _ _ => Iff.rfl) ?_, hKK.2, heq⟩
          intro a b; simp [hnn]
      obtain ⟨g2, hv2, hKe, heq⟩ := phase2
      obtain ⟨h2, h3⟩ := ih hv2 heq
      refine ⟨h2.congr ?_ ?_, ?_⟩
      · intro n m; rw [marks_cons]; simp only [hty, true_and, or_assoc]
      · intro a b; rw [links_cons]; simp only [hty, true_and, or_assoc, and_or_left]
      · intro x hx
        rcases List.mem_cons.mp hx with rfl | hx
        · exact ⟨hlt, fun _ => hKe⟩
        · exact h3 x hx

/-- Marking succeeds when all elements exist and all non-terminals have nodes and FIRST sets. -/
theorem graphMarking_succeeds {pd : ParserData I} {fs : NamedSets} (hfs : FInv pd fs)
    (hlen : pd.elementTypes.length = pd.elementData.length) {left : Nat}
    (els : List Nat) : ∀ {g : FollowGraph} {D : Nat → SetMember → Prop} {E : Nat → Nat → Prop}
      {K : Nat → Prop}, NView g D E K → K left →
      (∀ e ∈ els, e < pd.elementTypes.length ∧ (pd.elementTypes[e]? = some .nonTerminal → K e)) →
      (∀ n, K n → pd.elementTypes[n]? = some .nonTerminal → n ∈ AMap.keys fs) →
      ∃ g', graphMarking pd fs left els g = .ok g' := by
  induction els with
  | nil => intro g D E K _ _ _ _; exact ⟨g, rfl⟩
  | cons e es ih =>
    intro g D E K h hl hels hk
    obtain ⟨hlt, hKe⟩ := hels e (by simp)
    have hels' : ∀ x ∈ es, x < pd.elementTypes.length ∧ (pd.elementTypes[x]? = some .nonTerminal → K x) :=
      fun x hx => hels x (by simp [hx])
    have hty := List.getElem?_eq_getElem hlt
    simp only [graphMarking, getElement_eq hty, Res.ofOption_some, Res.bind_ok]
    cases het : pd.elementTypes[e] with
    | terminal => exact ih h hl hels' hk
    | nonTerminal =>
      have hKe := hKe (by rw [hty, het])
      simp only
      have hS : es = [] ∨ (K e ∧ ∃ S, firstSetOfPartial pd fs es = .ok S) := by
        refine .inr ⟨hKe, firstSetOfPartial_succeeds ?_⟩
        intro x hx
        obtain ⟨hx1, hx2⟩ := hels' x hx
        have hx3 : x < pd.elementData.length := hlen ▸ hx1
        cases hxt : pd.elementTypes[x] with
        | terminal =>
          exact .inl ⟨_, by rw [List.getElem?_eq_getElem hx1, hxt], List.getElem?_eq_getElem hx3⟩
        | nonTerminal =>
          have hxt' : pd.elementTypes[x]? = some .nonTerminal := by
            rw [List.getElem?_eq_getElem hx1, hxt]
          exact .inr ⟨hxt', hk x (hx2 hxt') hxt'⟩
      obtain ⟨g1, add, heq, hv, -, -⟩ := markFollowing_view hfs h hS
      rw [heq]
      simp only [Res.bind_ok, linkIf]
      cases add with
      | false =>
        simp only [Bool.false_eq_true, ↓reduceIte, Res.bind_ok]
        exact ih hv hl hels' hk
      | true =>
        obtain ⟨g3, hg3, hv3⟩ := hv.addEdge hl hKe
        simp only [↓reduceIte, hg3, Res.bind_ok]
        exact ih hv3 hl hels' hk

end HPP
