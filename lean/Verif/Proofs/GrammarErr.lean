import Verif.Spec.GrammarErr
import Verif.Proofs.Depth
import Verif.Proofs.FollowPanic
/-
The errors of grammar analysis name a cause that exists.
-/
namespace HPP
open Spec Relation
variable {I : Type}

/-! ### FIRST -/

/-- Neither a panic nor an error other than a used non-terminal without rule. -/
def FirstFine (pd : ParserData I) {α : Type} (r : Res GErr α) : Prop :=
  r ≠ .panic ∧ ∀ e, r = .err e → ∃ X, UndefinedUse pd X ∧ e = .missingProduction X

theorem FirstFine.ok {pd : ParserData I} {α : Type} (a : α) : FirstFine pd (.ok a) :=
  ⟨by simp, fun _ h => by cases h⟩

theorem FirstFine.bind {pd : ParserData I} {α β : Type} {r : Res GErr α} {f : α → Res GErr β}
    (h : FirstFine pd r) (hf : ∀ a, r = .ok a → FirstFine pd (f a)) : FirstFine pd (r >>= f) := by
  cases r with
  | ok a => exact hf a rfl
  | err e => exact ⟨by simp, fun e' he => by cases he; exact h.2 _ rfl⟩
  | panic => exact absurd rfl h.1
  | timeout => exact ⟨by simp, fun e' he => by cases he⟩

/-- An element of an alternative. -/
def UsedIn (pd : ParserData I) (e : Nat) : Prop :=
  e < pd.elementTypes.length ∧ (AMap.get pd.rules e = none → pd.elementTypes[e]? = some .nonTerminal →
    UndefinedUse pd e)

theorem usedIn_of_mem {pd : ParserData I} (hw : WellFormed pd) {A : Nat} {r : NTRule I}
    (hr : AMap.get pd.rules A = some r) {p : Production} (hp : p ∈ r.prods) {e : Nat} (he : e ∈ prodElems p) :
    UsedIn pd e :=
  ⟨hw.inRange A r hr p hp e he, fun h1 h2 => ⟨h2, h1, A, r, p, hr, hp, he⟩⟩

theorem firstOfProdLoop_fine {pd : ParserData I} {rec : FirstRec}
    (hrec : ∀ e fs, UsedIn pd e → FirstFine pd (rec e fs)) (els : List Nat) (hels : ∀ e ∈ els, UsedIn pd e) :
    ∀ M fs, FirstFine pd (firstOfProdLoop rec els M fs) := by
  induction els with
  | nil => intro M fs; exact .ok _
  | cons e es ih =>
    intro M fs
    refine (hrec e fs (hels e (by simp))).bind ?_
    intro a _
    dsimp only
    split
    · exact .ok _
    · exact ih (fun e' he' => hels e' (by simp [he'])) _ _

theorem firstOfProds_fine {pd : ParserData I} {rec : FirstRec}
    (hrec : ∀ e fs, UsedIn pd e → FirstFine pd (rec e fs)) (ps : List Production)
    (hne : ∀ p ∈ ps, p ≠ .notEmpty [])
    (hels : ∀ p ∈ ps, ∀ e ∈ prodElems p, UsedIn pd e) :
    ∀ S fs, FirstFine pd (firstOfProds rec ps S fs) := by
  induction ps with
  | nil => intro S fs; exact .ok _
  | cons p ps ih =>
    intro S fs
    refine FirstFine.bind ?_ (fun a _ => ih (fun q hq => hne q (by simp [hq]))
      (fun q hq => hels q (by simp [hq])) _ _)
    have hp := hne p (by simp)
    have he := hels p (by simp)
    match p, hp, he with
    | .empty, _, _ => exact .ok _
    | .notEmpty (e :: es), _, he =>
      refine (hrec e fs (he e (by simp [prodElems]))).bind ?_
      intro a _
      dsimp only
      split
      · exact firstOfProdLoop_fine hrec es (fun e' he' => he e' (by simp [prodElems, he'])) _ _
      · exact .ok _

theorem getSet_fine {pd : ParserData I} (hw : WellFormed pd) (fuel : Nat) :
    ∀ e fs, UsedIn pd e → FirstFine pd (getSetFirstSetOfElement pd fuel e fs) := by
  induction fuel with
  | zero => intro e fs _; exact ⟨by simp [getSetFirstSetOfElement], fun e' he => by cases he⟩
  | succ fuel ih =>
    intro e fs he
    rcases WellFormed.element hw he.1 with ⟨d, h1, h2⟩ | h1
    · simp only [getSetFirstSetOfElement, getFirstSetOfElement, h1, ParserData.getElementData, h2,
        Res.unwrapO_some, Res.bind_ok]
      cases d.name.head? <;> exact .ok _
    · simp only [getSetFirstSetOfElement, getFirstSetOfElement, h1, Res.unwrapO_some, Res.bind_ok,
        Res.pure_def]
      cases AMap.get fs e with
      | some x => exact .ok _
      | none =>
        cases hr : AMap.get pd.rules e with
        | none => exact ⟨by simp, fun e' h => by cases h; exact ⟨e, he.2 hr h1, rfl⟩⟩
        | some r =>
          refine FirstFine.bind (firstOfProds_fine ih r.prods (hw.nonEmpty e r hr)
            (fun p hp e' he' => usedIn_of_mem hw hr hp he') _ _) (fun a _ => .ok _)

theorem getFirstSets_fine {pd : ParserData I} (hw : WellFormed pd) (ho : HashOrder) (fuel : Nat) :
    FirstFine pd (getFirstSets ho fuel pd) := by
  have key : ∀ els : List Nat, (∀ e ∈ els, UsedIn pd e) → ∀ fs,
      FirstFine pd (getFirstSetsLoop pd fuel els fs) := by
    intro els
    induction els with
    | nil => intro _ fs; exact .ok _
    | cons e es ih =>
      intro h fs
      exact (getSet_fine hw fuel e fs (h e (by simp))).bind
        (fun a _ => ih (fun e' he' => h e' (by simp [he'])) _)
  refine key _ ?_ _
  intro e he
  obtain ⟨r, hr⟩ := AMap.mem_keys_iff.mp ((ho.perm 1 Nat _).mem_iff.mp he)
  refine ⟨(List.getElem?_eq_some_iff.mp (hw.keysNT e r hr)).1, fun h => ?_⟩
  rw [hr] at h; cases h

/-! ### FIRST returns without left recursion, undefined symbols or not -/

/-- `get_set_first_set_of_element` returns at this depth. -/
def Returns (pd : ParserData I) (e fuel : Nat) : Prop :=
  ∀ f, fuel ≤ f → ∀ fs, FInv pd fs → getSetFirstSetOfElement pd f e fs ≠ .timeout

theorem firstOfProdLoop_returns {pd : ParserData I} {fuel : Nat} (els : List Nat) :
    (∀ a e b, els = a ++ e :: b → Nullable (grammarOf pd) (formOf pd a) → Returns pd e fuel) →
    ∀ M fs, FInv pd fs → firstOfProdLoop (getSetFirstSetOfElement pd fuel) els M fs ≠ .timeout := by
  induction els with
  | nil => intro _ M fs _; simp [firstOfProdLoop]
  | cons e es ih =>
    intro h M fs hfs heq
    have hret := h [] e es rfl nullable_nil fuel (Nat.le_refl _) fs hfs
    rcases Res.bind_eq_timeout.mp heq with heq | ⟨⟨S, fs1⟩, hr, heq⟩
    · exact hret heq
    · obtain ⟨hC, hfs1, -⟩ := getSet_sound pd fuel _ _ _ _ hfs hr
      dsimp only at heq
      split at heq
      · cases heq
      · next hne =>
        have hne : Nullable (grammarOf pd) (elemForm pd e) := hC.empty.mp (by simpa using hne)
        exact ih (fun a e' b hab hna =>
          h (e :: a) e' b (by simp [hab]) (by simp [nullable_append, hne, hna])) (setExtend M S) fs1 hfs1 heq

theorem firstOfProd_returns {pd : ParserData I} {fuel : Nat} {p : Production}
    (h : ∀ a e b, prodElems p = a ++ e :: b → Nullable (grammarOf pd) (formOf pd a) → Returns pd e fuel) :
    ∀ fs, FInv pd fs → firstOfProd (getSetFirstSetOfElement pd fuel) p fs ≠ .timeout := by
  match p, h with
  | .empty, _ => intro fs _ h; cases h
  | .notEmpty [], _ => intro fs _ h; cases h
  | .notEmpty (e :: es), h =>
    intro fs hfs heq
    have hret := h [] e es rfl nullable_nil fuel (Nat.le_refl _) fs hfs
    rcases Res.bind_eq_timeout.mp heq with heq | ⟨⟨S, fs1⟩, hr, heq⟩
    · exact hret heq
    · obtain ⟨hC, hfs1, -⟩ := getSet_sound pd fuel _ _ _ _ hfs hr
      dsimp only at heq
      split at heq
      · next hem =>
        have hne : Nullable (grammarOf pd) (elemForm pd e) := hC.empty.mp hem
        exact firstOfProdLoop_returns es (fun a e' b hab hna =>
          h (e :: a) e' b (by simp [prodElems, hab]) (by simp [nullable_append, hne, hna])) S fs1 hfs1 heq
      · cases heq

theorem firstOfProds_returns {pd : ParserData I} {fuel : Nat} (ps : List Production) :
    (∀ p ∈ ps, ∀ a e b, prodElems p = a ++ e :: b → Nullable (grammarOf pd) (formOf pd a) → Returns pd e fuel) →
    ∀ S fs, FInv pd fs → firstOfProds (getSetFirstSetOfElement pd fuel) ps S fs ≠ .timeout := by
  induction ps with
  | nil => intro _ S fs _ h; cases h
  | cons p ps ih =>
    intro h' S fs hfs heq
    rcases Res.bind_eq_timeout.mp heq with heq | ⟨⟨M, fs1⟩, hr, heq⟩
    · exact firstOfProd_returns (h' p (by simp)) fs hfs heq
    · obtain ⟨-, hfs1, -⟩ := firstOfProd_sound (getSet_sound pd fuel) hfs hr
      exact ih (fun q hq => h' q (by simp [hq])) (setExtend S M) fs1 hfs1 heq

theorem Returns.mono {pd : ParserData I} {e n m : Nat} (h : Returns pd e n) (hm : n ≤ m) : Returns pd e m :=
  fun f hf => h f (by omega)

theorem returns_leaf {pd : ParserData I} {e : Nat} (h : AMap.get pd.rules e = none) : Returns pd e 1 := by
  intro f hf fs _ heq
  obtain ⟨k, rfl⟩ : ∃ k, f = k + 1 := ⟨f - 1, by omega⟩
  simp only [getSetFirstSetOfElement, getFirstSetOfElement, h] at heq
  rcases Res.bind_eq_timeout.mp heq with heq | ⟨o, -, heq⟩
  · rcases Res.bind_eq_timeout.mp heq with heq | ⟨t, -, heq⟩
    · exact Res.unwrapO_ne_timeout heq
    · cases t with
      | nonTerminal => cases heq
      | terminal =>
        rcases Res.bind_eq_timeout.mp heq with heq | ⟨d, -, heq⟩
        · exact Res.unwrapO_ne_timeout heq
        · split at heq <;> cases heq
  · cases o <;> cases heq

theorem getSet_returns {pd : ParserData I} (hw : WellFormed pd)
    (hlr : ∀ A, ¬ LeftRecursive (grammarOf pd) A) (k : Nat) : ∀ (seen : List Nat) (A : Nat), LeftChain pd seen A →
      A ∈ AMap.keys pd.rules → seen.length + k = pd.rules.length → Returns pd A (k + 1) := by
  induction k with
  | zero =>
    intro seen A hc hA hk
    have := hc.short hlr hA
    omega
  | succ k ih =>
    intro seen A hc hA hk fuel hf fs hfs heq
    obtain ⟨r, hr⟩ := AMap.mem_keys_iff.mp hA
    obtain ⟨f, rfl⟩ : ∃ f, fuel = f + 1 := ⟨fuel - 1, by omega⟩
    have hty := hw.keysNT A r hr
    simp only [getSetFirstSetOfElement, getFirstSetOfElement, hty, Res.unwrapO_some, Res.bind_ok, Res.pure_def,
      hr] at heq
    cases hg : AMap.get fs A with
    | some x => rw [hg] at heq; cases heq
    | none =>
      rw [hg] at heq
      rcases Res.bind_eq_timeout.mp heq with heq | ⟨o, -, heq⟩
      · refine firstOfProds_returns (pd := pd) (fuel := f) r.prods ?_ [] fs hfs heq
        intro p hp a e b hab hna
        have hmem : e ∈ prodElems p := by rw [hab]; simp
        cases hr' : AMap.get pd.rules e with
        | none => exact (returns_leaf hr').mono (by omega)
        | some r' =>
          exact (ih (A :: seen) e (hc.cons hlr hA (leftCorner_of hr hp hab hna (hw.keysNT e r' hr')))
            (AMap.mem_keys_iff.mpr ⟨r', hr'⟩) (by simp only [List.length_cons]; omega)).mono (by omega)
      · cases heq

theorem getFirstSets_returns {pd : ParserData I} (hw : WellFormed pd)
    (hlr : ∀ A, ¬ LeftRecursive (grammarOf pd) A) (ho : HashOrder) {fuel : Nat} (hf : pd.rules.length + 1 ≤ fuel) :
    getFirstSets ho fuel pd ≠ .timeout := by
  have key : ∀ els : List Nat, (∀ e ∈ els, Returns pd e fuel) → ∀ fs, FInv pd fs →
      getFirstSetsLoop pd fuel els fs ≠ .timeout := by
    intro els
    induction els with
    | nil => intro _ fs _ h; cases h
    | cons e es ih =>
      intro h fs hfs heq
      rcases Res.bind_eq_timeout.mp heq with heq | ⟨⟨S, fs1⟩, hr, heq⟩
      · exact h e (by simp) fuel (Nat.le_refl _) fs hfs heq
      · obtain ⟨-, hfs1, -⟩ := getSet_sound pd fuel _ _ _ _ hfs hr
        exact ih (fun e' he' => h e' (by simp [he'])) fs1 hfs1 heq
  refine key _ ?_ _ FInv.nil
  intro e he
  exact (getSet_returns hw hlr pd.rules.length [] e (.nil _ _) ((ho.perm 1 Nat _).mem_iff.mp he) (by simp)).mono hf

/-! ### FOLLOW -/

/-- An error of FOLLOW computation that tells the truth. -/
def FollowTrue (pd : ParserData I) (start : Nat) (e : GErr) : Prop :=
  (e = .graphNodeDoesNotExist start ∧ AMap.get pd.rules start = none) ∨
    ∃ X, UndefinedUse pd X ∧ (e = .missingFirstSet X ∨ e = .graphNodeDoesNotExist X)

theorem firstSetOfPartial_err {pd : ParserData I} {fs : NamedSets} (els : List Nat) {g : GErr}
    (hels : ∀ e ∈ els, e < pd.elementTypes.length ∧ e < pd.elementData.length) :
    ∀ S, firstSetOfPartialLoop pd fs els S = .err g →
      ∃ X ∈ els, pd.elementTypes[X]? = some .nonTerminal ∧ AMap.get fs X = none ∧ g = .missingFirstSet X := by
  induction els with
  | nil => intro S h; cases h
  | cons e es ih =>
    intro S h
    obtain ⟨h1, h2⟩ := hels e (by simp)
    have h1' := List.getElem?_eq_getElem h1
    have h2' := List.getElem?_eq_getElem h2
    simp only [firstSetOfPartialLoop] at h
    have ih := ih (fun x hx => hels x (by simp [hx]))
    cases ht : pd.elementTypes[e] with
    | nonTerminal =>
      rw [ht] at h1'
      simp only [getFirstSetOfElement, h1', Res.unwrapO_some, Res.bind_ok, Res.pure_def] at h
      cases hg : AMap.get fs e with
      | none =>
        rw [hg] at h
        cases h
        exact ⟨e, by simp, h1', hg, rfl⟩
      | some c =>
        rw [hg] at h
        simp only [Res.ofOption_some, Res.bind_ok] at h
        split at h
        · cases h
        · obtain ⟨X, hX, h⟩ := ih _ h
          exact ⟨X, by simp [hX], h⟩
    | terminal =>
      rw [ht] at h1'
      have hc : ∃ c, getFirstSetOfElement pd fs e = (.ok (some c) : Res GErr _) := by
        simp only [getFirstSetOfElement, h1', ParserData.getElementData, h2', Res.unwrapO_some, Res.bind_ok]
        split <;> exact ⟨_, rfl⟩
      obtain ⟨c, hc⟩ := hc
      rw [hc] at h
      simp only [Res.ofOption_some, Res.bind_ok] at h
      split at h
      · cases h
      · obtain ⟨X, hX, h⟩ := ih _ h
        exact ⟨X, by simp [hX], h⟩

/-- The named nodes of the graph are the rules. -/
def NamesAre (pd : ParserData I) (g : FollowGraph) : Prop :=
  ∀ n, AMap.get g.names n = none → AMap.get pd.rules n = none

theorem modifyNode_names {g g' : FollowGraph} {n : Nat} {f : List SetMember → List SetMember}
    (h : g.modifyNode n f = .ok g') : g'.names = g.names := by
  simp only [NamedGraph.modifyNode] at h
  obtain ⟨i, -, h⟩ := Res.bind_eq_ok.mp h
  obtain ⟨nd, -, h⟩ := Res.bind_eq_ok.mp h
  cases h; rfl

theorem addEdge_names {g g' : FollowGraph} {a b : Nat} (h : g.addEdge a b = .ok g') : g'.names = g.names := by
  simp only [NamedGraph.addEdge] at h
  obtain ⟨i, -, h⟩ := Res.bind_eq_ok.mp h
  obtain ⟨j, -, h⟩ := Res.bind_eq_ok.mp h
  obtain ⟨nd, -, h⟩ := Res.bind_eq_ok.mp h
  cases h; rfl

theorem Valid.modifyNode_err {g : FollowGraph} (h : Valid g) {n : Nat} {f : List SetMember → List SetMember} {e : GErr}
    (he : g.modifyNode n f = .err e) : AMap.get g.names n = none ∧ e = .graphNodeDoesNotExist n := by
  obtain ⟨data, out, h⟩ := h
  cases hn : AMap.get g.names n with
  | none => rw [NRep.modifyNode_none hn] at he; cases he; exact ⟨rfl, rfl⟩
  | some i =>
    obtain ⟨g2, hg2, _⟩ := h.modifyNode hn (List.getElem?_eq_getElem (h.lt n i hn)) f
    rw [hg2] at he; cases he

theorem Valid.addEdge_err {g : FollowGraph} (h : Valid g) {a b : Nat} {e : GErr} (he : g.addEdge a b = .err e) :
    (AMap.get g.names a = none ∧ e = .graphNodeDoesNotExist a) ∨
      (AMap.get g.names b = none ∧ e = .graphNodeDoesNotExist b) := by
  obtain ⟨data, out, h⟩ := h
  cases ha : AMap.get g.names a with
  | none =>
    simp [NamedGraph.addEdge, NamedGraph.getIndexOfNode, ha] at he
    exact .inl ⟨rfl, he.symm⟩
  | some i =>
    cases hb : AMap.get g.names b with
    | none =>
      simp [NamedGraph.addEdge, NamedGraph.getIndexOfNode, ha, hb] at he
      exact .inr ⟨rfl, he.symm⟩
    | some j => obtain ⟨g2, hg2, _⟩ := h.addEdge ha hb; rw [hg2] at he; cases he

theorem graphMarking_err {pd : ParserData I} {fs : NamedSets} {left start : Nat} {r0 : NTRule I}
    (hlen : pd.elementTypes.length = pd.elementData.length) (hleft : AMap.get pd.rules left = some r0)
    (hk : ∀ n, AMap.get fs n = none → pd.elementTypes[n]? = some .nonTerminal → AMap.get pd.rules n = none)
    (els : List Nat) (hels : ∀ e ∈ els, UsedIn pd e) :
    ∀ {g : FollowGraph}, Valid g → NamesAre pd g →
      (∀ e, graphMarking pd fs left els g = .err e → FollowTrue pd start e) ∧
      ∀ g', graphMarking pd fs left els g = .ok g' → NamesAre pd g' := by
  induction els with
  | nil => intro g _ hn; exact ⟨fun e h => (by cases h), fun g' h => (by cases h; exact hn)⟩
  | cons e es ih =>
    intro g h hn
    have ih := @ih (fun x hx => hels x (by simp [hx]))
    obtain ⟨he1, he2⟩ := hels e (by simp)
    have hT := List.getElem?_eq_getElem he1
    have hD := List.getElem?_eq_getElem (hlen ▸ he1)
    have hel : pd.getElement e = some ⟨e, pd.elementTypes[e]⟩ := by
      simp [ParserData.getElement, hT]
    simp only [graphMarking, hel, Res.ofOption_some, Res.bind_ok]
    cases ht : pd.elementTypes[e] with
    | terminal => exact ih h hn
    | nonTerminal =>
      rw [ht] at hT
      have hund : AMap.get pd.rules e = none → UndefinedUse pd e := fun h => he2 h hT
      dsimp only
      have hmf : (∀ er, markFollowing pd fs e es g = .err er → FollowTrue pd start er) ∧
          ∀ g' a, markFollowing pd fs e es g = .ok (g', a) → g'.names = g.names := by
        simp only [markFollowing]
        split
        · exact ⟨fun _ h => (by cases h), fun _ _ h => (by cases h; rfl)⟩
        · constructor
          · intro er her
            rcases Res.bind_eq_err.mp her with her | ⟨S, -, her⟩
            · obtain ⟨X, hX, hX1, hX2, rfl⟩ := firstSetOfPartial_err es (fun x hx => by
                have := (hels x (by simp [hx])).1
                exact ⟨this, hlen ▸ this⟩) [] her
              exact .inr ⟨X, (hels X (by simp [hX])).2 (hk X hX2 hX1) hX1, .inl rfl⟩
            · rcases Res.bind_eq_err.mp her with her | ⟨ms, -, her⟩
              · obtain ⟨ms, hms, _⟩ := toSetMembers_ok (ε := GErr)
                  (if decide (SetMemberE.empty ∈ S) = true then setRemove S .empty else S) (by
                    split
                    · simp
                    · next hc => simpa using hc)
                rw [hms] at her; cases her
              · rcases Res.bind_eq_err.mp her with her | ⟨g1, -, her⟩
                · obtain ⟨h1, rfl⟩ := h.modifyNode_err her
                  exact .inr ⟨e, hund (hn e h1), .inr rfl⟩
                · cases her
          · intro g' a heq
            obtain ⟨S, -, heq⟩ := Res.bind_eq_ok.mp heq
            obtain ⟨ms, -, heq⟩ := Res.bind_eq_ok.mp heq
            obtain ⟨g1, hg1, heq⟩ := Res.bind_eq_ok.mp heq
            cases heq
            exact modifyNode_names hg1
      obtain ⟨-, hv⟩ := markFollowing_valid (pd := pd) (fs := fs) (e := e) (es := es) h
      generalize markFollowing pd fs e es g = x at hmf hv ⊢
      cases x with
      | err er => exact ⟨fun e' he' => (by cases he'; exact hmf.1 _ rfl), fun _ h => by cases h⟩
      | panic => exact ⟨fun e' he' => (by cases he'), fun _ h => by cases h⟩
      | timeout => exact ⟨fun e' he' => (by cases he'), fun _ h => by cases h⟩
      | ok q =>
        obtain ⟨g1, a⟩ := q
        have hv1 := hv g1 a rfl
        have hn1 : NamesAre pd g1 := by
          intro n; rw [hmf.2 g1 a rfl]; exact hn n
        simp only [Res.bind_ok]
        cases a with
        | false => exact ih hv1 hn1
        | true =>
          simp only [linkIf, if_true]
          cases hg2 : g1.addEdge left e with
          | err er =>
            refine ⟨fun e' he' => ?_, fun _ h => by cases h⟩
            cases he'
            rcases hv1.addEdge_err hg2 with ⟨h1, rfl⟩ | ⟨h1, rfl⟩
            · have := hn1 left h1; rw [hleft] at this; cases this
            · exact .inr ⟨e, hund (hn1 e h1), .inr rfl⟩
          | panic => exact ⟨fun e' he' => (by cases he'), fun _ h => by cases h⟩
          | timeout => exact ⟨fun e' he' => (by cases he'), fun _ h => by cases h⟩
          | ok g2 =>
            refine ih (hv1.addEdge hg2) ?_
            intro n; rw [addEdge_names hg2]; exact hn1 n

theorem markProductions_err {pd : ParserData I} {fs : NamedSets} {left start : Nat} {r0 : NTRule I}
    (hlen : pd.elementTypes.length = pd.elementData.length) (hleft : AMap.get pd.rules left = some r0)
    (hk : ∀ n, AMap.get fs n = none → pd.elementTypes[n]? = some .nonTerminal → AMap.get pd.rules n = none)
    (ps : List Production) (hels : ∀ p ∈ ps, ∀ e ∈ prodElems p, UsedIn pd e) :
    ∀ {g : FollowGraph}, Valid g → NamesAre pd g →
      (∀ e, markProductions pd fs left ps g = .err e → FollowTrue pd start e) ∧
      ∀ g', markProductions pd fs left ps g = .ok g' → NamesAre pd g' := by
  induction ps with
  | nil => intro g _ hn; exact ⟨fun e h => (by cases h), fun g' h => (by cases h; exact hn)⟩
  | cons p ps ih =>
    intro g h hn
    have ih := @ih (fun q hq => hels q (by simp [hq]))
    cases p with
    | empty => exact ih h hn
    | notEmpty els =>
      simp only [markProductions]
      have hg := graphMarking_err (start := start) hlen hleft hk els (hels (.notEmpty els) (by simp)) h hn
      have hv := (graphMarking_valid (pd := pd) (fs := fs) (left := left) els h).2
      generalize graphMarking pd fs left els g = x at hg hv ⊢
      cases x with
      | err er => exact ⟨fun e' he' => (by cases he'; exact hg.1 _ rfl), fun _ h => by cases h⟩
      | panic => exact ⟨fun e' he' => (by cases he'), fun _ h => by cases h⟩
      | timeout => exact ⟨fun e' he' => (by cases he'), fun _ h => by cases h⟩
      | ok g1 => exact ih (hv g1 rfl) (hg.2 g1 rfl)

theorem markRules_err {pd : ParserData I} {fs : NamedSets} {start : Nat}
    (hlen : pd.elementTypes.length = pd.elementData.length)
    (hk : ∀ n, AMap.get fs n = none → pd.elementTypes[n]? = some .nonTerminal → AMap.get pd.rules n = none)
    (rs : List (Nat × NTRule I)) (hrs : ∀ q ∈ rs, AMap.get pd.rules q.1 = some q.2)
    (hels : ∀ q ∈ rs, ∀ p ∈ q.2.prods, ∀ e ∈ prodElems p, UsedIn pd e) :
    ∀ {g : FollowGraph}, Valid g → NamesAre pd g →
      ∀ e, markRules pd fs rs g = .err e → FollowTrue pd start e := by
  induction rs with
  | nil => intro g _ hn e h; cases h
  | cons q rs ih =>
    intro g h hn
    obtain ⟨el, rule⟩ := q
    have ih := @ih (fun q hq => hrs q (by simp [hq])) (fun q hq => hels q (by simp [hq]))
    simp only [markRules]
    have hg := markProductions_err (start := start) hlen (hrs (el, rule) (by simp)) hk rule.prods
      (hels (el, rule) (by simp)) h hn
    have hv := (markProductions_valid (pd := pd) (fs := fs) (left := el) rule.prods h).2
    dsimp only at hg
    generalize markProductions pd fs el rule.prods g = x at hg hv ⊢
    cases x with
    | err er => intro e' he'; cases he'; exact hg.1 _ rfl
    | panic => intro e' he'; cases he'
    | timeout => intro e' he'; cases he'
    | ok g1 => exact ih (hv g1 rfl) (hg.2 g1 rfl)

theorem makeGraphLoop_names (ns : List Nat) : ∀ {g g' : FollowGraph}, makeGraphLoop ns g = .ok g' →
    ∀ n, AMap.get g'.names n = none → n ∉ ns ∧ AMap.get g.names n = none := by
  induction ns with
  | nil => intro g g' h n hn; cases h; exact ⟨by simp, hn⟩
  | cons x ns ih =>
    intro g g' h n hn
    simp only [makeGraphLoop] at h
    obtain ⟨⟨i, g1⟩, hg1, h⟩ := Res.bind_eq_ok.mp h
    obtain ⟨h1, h2⟩ := ih h n hn
    simp only [NamedGraph.addNode] at hg1
    split at hg1
    · cases hg1
    · cases hg1
      simp only [AMap.get_insert] at h2
      split at h2
      · cases h2
      · next hxn => exact ⟨by simp [Ne.symm hxn, h1], h2⟩

theorem markedGraph_err {pd : ParserData I} (hw : WellFormed pd) {ho : HashOrder} {start : Nat} {fs : NamedSets}
    (hk : ∀ n, AMap.get fs n = none → pd.elementTypes[n]? = some .nonTerminal → AMap.get pd.rules n = none) {e : GErr}
    (h : markedGraph ho start fs pd = .err e) : FollowTrue pd start e := by
  simp only [markedGraph, makeGraphWithIndex] at h
  obtain ⟨g0, hg0⟩ := makeGraphLoop_succeeds (ho.iter 2 Nat (AMap.keys pd.rules))
    (g := NamedGraph.new) ((ho.perm 2 Nat _).nodup_iff.mpr hw.rulesNodup) (by simp [NamedGraph.new])
  have hv := (makeGraphLoop_valid (ho.iter 2 Nat (AMap.keys pd.rules)) (g := NamedGraph.new)
    ⟨_, _, NRep.new⟩).2 g0 hg0
  have hn : NamesAre pd g0 := by
    intro n hn
    have := (makeGraphLoop_names _ hg0 n hn).1
    rw [(ho.perm 2 Nat _).mem_iff] at this
    exact AMap.get_eq_none_iff.mpr this
  rw [hg0, Res.bind_ok] at h
  rcases Res.bind_eq_err.mp h with h | ⟨g1, hg1, h⟩
  · obtain ⟨h1, rfl⟩ := hv.modifyNode_err h
    exact .inl ⟨rfl, hn start h1⟩
  · refine markRules_err hw.lengths hk _ ?_ ?_ (hv.modifyNode hg1) ?_ e h
    · intro q hq
      exact AMap.get_of_mem hw.rulesNodup ((ho.perm 3 _ _).mem_iff.mp hq)
    · intro q hq p hp x hx
      exact usedIn_of_mem hw (AMap.get_of_mem hw.rulesNodup ((ho.perm 3 _ _).mem_iff.mp hq)) hp hx
    · intro n hn'
      rw [modifyNode_names hg1] at hn'
      exact hn n hn'

theorem propagate_stable {ho : HashOrder} {r : Res GErr FollowGraph} (hr : r ≠ .timeout) (fuel : Nat) :
    ∀ (g : FollowGraph), propagate ho fuel g = r → ∀ fuel', fuel ≤ fuel' → propagate ho fuel' g = r := by
  induction fuel with
  | zero => intro g h; simp only [propagate] at h; exact absurd h.symm hr
  | succ fuel ih =>
    intro g h fuel' hf
    obtain ⟨k, rfl⟩ : ∃ k, fuel' = k + 1 := ⟨fuel' - 1, by omega⟩
    simp only [propagate] at h ⊢
    cases h1 : collectRound g (ho.iter 4 (Nat × Nat) g.names) with
    | err e => rw [h1] at h; exact h
    | panic => rw [h1] at h; exact h
    | timeout => rw [h1] at h; exact h
    | ok todo =>
      rw [h1] at h
      simp only [Res.bind_ok] at h ⊢
      cases h2 : applyRound todo g with
      | err e => rw [h2] at h; exact h
      | panic => rw [h2] at h; exact h
      | timeout => rw [h2] at h; exact h
      | ok g1 =>
        rw [h2] at h
        simp only [Res.bind_ok] at h ⊢
        split at h
        · next ht => rw [if_pos ht]; exact h
        · next ht => rw [if_neg ht]; exact ih g1 h k (by omega)

/-- With enough rounds the outcome does not depend on the bound; with too few it is only "not yet". -/
theorem makeFollowSets_stable {ho : HashOrder} {g : FollowGraph} {r : Res GErr NamedSetsNoEmpty}
    (hr : r ≠ .timeout) {fuel : Nat} (h : makeFollowSets ho fuel g = r) {fuel' : Nat} (hf : fuel ≤ fuel') :
    makeFollowSets ho fuel' g = r := by
  simp only [makeFollowSets] at h ⊢
  cases hp : propagate ho fuel g with
  | ok g1 => rw [propagate_stable (by simp) fuel g hp fuel' hf]; rw [hp] at h; exact h
  | err e => rw [propagate_stable (by simp) fuel g hp fuel' hf]; rw [hp] at h; exact h
  | panic => rw [propagate_stable (by simp) fuel g hp fuel' hf]; rw [hp] at h; exact h
  | timeout => rw [hp] at h; exact absurd h.symm hr

theorem getFollowSets_err {pd : ParserData I} (hw : WellFormed pd) {ho1 ho : HashOrder} {fuel1 fuel start : Nat}
    {fs : NamedSets} (hfs : getFirstSets ho1 fuel1 pd = .ok fs) :
    getFollowSets ho fuel start fs pd ≠ .panic ∧
      ∀ e, getFollowSets ho fuel start fs pd = .err e → FollowTrue pd start e := by
  have hk : ∀ n, AMap.get fs n = none → pd.elementTypes[n]? = some .nonTerminal → AMap.get pd.rules n = none := by
    intro n hn hT
    cases hr : AMap.get pd.rules n with
    | none => rfl
    | some r =>
      have := ((getFirstSets_sound hfs).2 n (AMap.mem_keys_iff.mpr ⟨r, hr⟩)).2 hT
      exact absurd this (AMap.get_eq_none_iff.mp hn)
  rw [getFollowSets_eq]
  have hv := markedGraph_valid ho start fs pd
  have hnp := markedGraph_np ho start fs hw
  have her := fun e => markedGraph_err (e := e) hw (ho := ho) (start := start) hk
  cases hm : markedGraph ho start fs pd with
  | ok g =>
    obtain ⟨D, E, K, hview⟩ := (hv.2 g hm).view
    obtain ⟨M, r', hr', _⟩ := makeFollowSets_spec hview ho
    simp only [Res.bind_ok]
    constructor
    · intro h
      have := makeFollowSets_stable (by simp) h (Nat.le_max_left fuel M)
      rw [hr' _ (Nat.le_max_right _ _)] at this; cases this
    · intro e h
      have := makeFollowSets_stable (by simp) h (Nat.le_max_left fuel M)
      rw [hr' _ (Nat.le_max_right _ _)] at this; cases this
  | err e => exact ⟨by simp, fun e' h => by cases h; exact her _ hm⟩
  | panic => exact absurd hm hnp
  | timeout => exact absurd hm hv.1

/-! ### conflicts -/

theorem fillLoop_err {prod : Production} {rule : Nat} {e : GErr} (xs : List SetMember) : xs.Nodup →
    ∀ m : Steuermap, fillLoop prod rule xs m = .err e →
      ∃ x ∈ xs, AMap.get m x ≠ none ∧ ∃ c, WrittenAs x c ∧ e = .steuerSetsNotDistinct (c% "follow_set") c rule := by
  induction xs with
  | nil => intro _ m h; cases h
  | cons a xs ih =>
    intro hn m h
    rw [List.nodup_cons] at hn
    simp only [fillLoop] at h
    cases ha : AMap.get m a with
    | some p =>
      rw [ha] at h
      refine ⟨a, by simp, by simp [ha], ?_⟩
      cases a <;> (cases h; exact ⟨_, rfl, rfl⟩)
    | none =>
      rw [ha] at h
      obtain ⟨x, hx, h1, h2⟩ := ih hn.2 _ h
      refine ⟨x, by simp [hx], ?_, h2⟩
      rwa [AMap.get_insert_ne _ _ (fun hax : a = x => hn.1 (hax ▸ hx))] at h1

/-- One production: an error reports a lookahead of it that is taken. -/
theorem steuermapOfProduction_err {pd : ParserData I} {start : Nat} {fs : NamedSets}
    {fo st : NamedSetsNoEmpty} (t : Tables pd start fs fo) (hw : WellFormed pd) (hd : AllDefined pd)
    {ho : HashOrder}
    (hst1 : ∀ n, (∃ S, AMap.get st n = some S) ↔ ∃ S, AMap.get fs n = some S)
    (hst2 : ∀ n S, AMap.get st n = some S → S.Nodup ∧
        ∀ m, m ∈ S ↔ SteuerMember (grammarOf pd) start n m)
    {A : Nat} {r : NTRule I} (hr : AMap.get pd.rules A = some r) {p : Production} (hp : p ∈ r.prods)
    {m : Steuermap} {e : GErr}
    (h : steuermapOfProduction ho st fo m p A pd.elementTypes pd.elementData = .err e) :
    ∃ x, Control pd start A p x ∧ AMap.get m x ≠ none ∧
      ∃ tx c, WrittenAs x c ∧ Identifies pd tx p ∧ e = .steuerSetsNotDistinct tx c A := by
  cases p with
  | empty =>
    obtain ⟨F, hF⟩ := (t.okeys A).mpr (AMap.mem_keys_iff.mpr ⟨r, hr⟩)
    simp only [steuermapOfProduction, hF, Res.ofOption_some, Res.bind_ok, fillWithSteuerSet] at h
    have hpm := ho.perm 8 SetMember F
    obtain ⟨x, hx, h1, c, h2, h3⟩ := fillLoop_err _ (hpm.nodup_iff.mpr (t.onodup A F hF)) m h
    exact ⟨x, (t.omem A F hF x).mp (hpm.mem_iff.mp hx), h1, _, c, h2, rfl, h3⟩
  | notEmpty els =>
    cases els with
    | nil => exact absurd rfl (hw.nonEmpty A r hr _ hp)
    | cons el es =>
      have hlt := hw.inRange A r hr _ hp el (by simp [prodElems])
      have hT := List.getElem?_eq_getElem hlt
      have hD := List.getElem?_eq_getElem (hw.lengths ▸ hlt)
      cases htt : pd.elementTypes[el] with
      | terminal =>
        rw [htt] at hT
        simp only [steuermapOfProduction, hT, hD, Res.ofOption_some, Res.bind_ok, Res.unwrapO_some] at h
        obtain h | ⟨ch, hch, h⟩ := Res.bind_eq_err.mp h
        · cases hh : (pd.elementData[el]'(hw.lengths ▸ hlt)).name.head? <;> (rw [hh] at h; cases h)
        · rw [Res.unwrapO_eq_ok] at hch
          refine ⟨.char ch, .inl ⟨hT, _, ch, hD, hch, rfl⟩, ?_, _, ch, rfl, .inl ⟨_, hT, hD, rfl⟩, ?_⟩
          · intro hn
            rw [hn] at h; cases h
          · split at h
            · cases h; rfl
            · cases h
      | nonTerminal =>
        rw [htt] at hT
        obtain ⟨r', hr'⟩ := hd A r hr _ hp el (by simp [prodElems]) hT
        obtain ⟨S, hS⟩ := (hst1 el).mpr (AMap.mem_keys_iff.mp
          (t.fall el (AMap.mem_keys_iff.mpr ⟨r', hr'⟩) hT))
        obtain ⟨hn, hm⟩ := hst2 el S hS
        simp only [steuermapOfProduction, hT, hS, Res.ofOption_some, Res.bind_ok, fillWithSteuerSet] at h
        have hpm := ho.perm 8 SetMember S
        obtain ⟨x, hx, h1, c, h2, h3⟩ := fillLoop_err _ (hpm.nodup_iff.mpr hn) m h
        exact ⟨x, .inr ⟨hT, (hm x).mp (hpm.mem_iff.mp hx)⟩, h1, _, c, h2, .inr ⟨hT, rfl⟩, h3⟩

theorem steuermapOfRule_err {ho : HashOrder} {st fo : NamedSetsNoEmpty} {rule : Nat}
    {types : List ElementType} {data : List ElementData} {C : Production → SetMember → Prop}
    {E : Production → SetMember → GErr → Prop} {e : GErr} (ps : List Production)
    (hok : ∀ p ∈ ps, ∀ m m', steuermapOfProduction ho st fo m p rule types data = .ok m' →
      ∀ x, AMap.get m' x ≠ none → AMap.get m x ≠ none ∨ C p x)
    (herr : ∀ p ∈ ps, ∀ m, steuermapOfProduction ho st fo m p rule types data = .err e →
      ∃ x, C p x ∧ AMap.get m x ≠ none ∧ E p x e) :
    ∀ m : Steuermap, steuermapOfRule ho st fo rule types data ps m = .err e →
      ∃ pre q post x, ps = pre ++ q :: post ∧ C q x ∧ E q x e ∧ (AMap.get m x ≠ none ∨ ∃ p ∈ pre, C p x) := by
  induction ps with
  | nil => intro m h; cases h
  | cons p ps ih =>
    intro m h
    simp only [steuermapOfRule] at h
    rcases Res.bind_eq_err.mp h with h | ⟨m1, hm1, h⟩
    · obtain ⟨x, h1, h2, h3⟩ := herr p (by simp) m h
      exact ⟨[], p, ps, x, rfl, h1, h3, .inl h2⟩
    · obtain ⟨pre, q, post, x, rfl, h1, h2, h3⟩ := ih (fun q hq => hok q (by simp [hq]))
        (fun q hq => herr q (by simp [hq])) m1 h
      refine ⟨p :: pre, q, post, x, rfl, h1, h2, ?_⟩
      rcases h3 with h3 | ⟨p', hp', h3⟩
      · rcases hok p (by simp) m m1 hm1 x h3 with h3 | h3
        · exact .inl h3
        · exact .inr ⟨p, by simp, h3⟩
      · exact .inr ⟨p', by simp [hp'], h3⟩

/-- An `Ok` of one production enters only lookaheads of it. -/
theorem steuermapOfProduction_ok_keys {pd : ParserData I} {start : Nat} {fs : NamedSets}
    {fo st : NamedSetsNoEmpty} (t : Tables pd start fs fo) (hw : WellFormed pd) (hd : AllDefined pd)
    {ho : HashOrder}
    (hst1 : ∀ n, (∃ S, AMap.get st n = some S) ↔ ∃ S, AMap.get fs n = some S)
    (hst2 : ∀ n S, AMap.get st n = some S → S.Nodup ∧
        ∀ m, m ∈ S ↔ SteuerMember (grammarOf pd) start n m)
    {A : Nat} {r : NTRule I} (hr : AMap.get pd.rules A = some r) {p : Production} (hp : p ∈ r.prods)
    {m m' : Steuermap}
    (h : steuermapOfProduction ho st fo m p A pd.elementTypes pd.elementData = .ok m') :
    ∀ x, AMap.get m' x ≠ none → AMap.get m x ≠ none ∨ Control pd start A p x := by
  have hne : ∀ e es d, p = .notEmpty (e :: es) → pd.elementTypes[e]? = some .terminal →
      pd.elementData[e]? = some d → d.name ≠ [] := by
    rintro e es d rfl hT hD hnil
    simp only [steuermapOfProduction, hT, hD, hnil, Res.ofOption_some, Res.bind_ok, Res.unwrapO_some,
      List.head?_nil, Res.unwrapO_none] at h
    cases h
  obtain ⟨h1, h2⟩ := steuermapOfProduction_stepOk t hw hd (ho := ho) hst1 hst2 hr hp hne m
  dsimp only at h1 h2
  by_cases hf : ∀ x, Control pd start A p x → AMap.get m x = none
  · obtain ⟨m2, hm2, h3⟩ := h1 hf
    rw [h] at hm2; cases hm2
    intro x hx
    cases hg : AMap.get m' x with
    | none => exact absurd hg hx
    | some q =>
      rcases (h3 x q).mp hg with h4 | ⟨-, h4⟩
      · exact .inl (by simp [h4])
      · exact .inr h4
  · exfalso
    obtain ⟨x, hx⟩ := Classical.not_forall.mp hf
    obtain ⟨hx1, hx2⟩ := Classical.not_imp.mp hx
    obtain ⟨a, b, hab⟩ := h2 ⟨x, hx1, hx2⟩
    rw [h] at hab; cases hab

theorem getSteuermaps_err {pd : ParserData I} {start : Nat} {fs : NamedSets} {fo : NamedSetsNoEmpty}
    (t : Tables pd start fs fo) (hw : WellFormed pd) (hd : AllDefined pd) {ho : HashOrder} {e : GErr}
    (h : getSteuermaps ho fs fo pd = .err e) :
    ∃ tx c A, e = .steuerSetsNotDistinct tx c A ∧ TrueConflict pd start tx c A := by
  obtain ⟨st, hst, hst1, hst2⟩ := t.steuer ho
  simp only [getSteuermaps, hst, Res.bind_ok] at h
  have key : ∀ (items : List (Nat × NTRule I)) (acc : AMap Nat (NTRules I)),
      (∀ q ∈ items, AMap.get pd.rules q.1 = some q.2) → getSteuermapsLoop ho st fo pd items acc = .err e →
      ∃ q ∈ items, steuermapOfRule ho st fo q.1 pd.elementTypes pd.elementData q.2.prods [] = .err e := by
    intro items
    induction items with
    | nil => intro acc _ h; cases h
    | cons q items ih =>
      intro acc hq h
      obtain ⟨name, r⟩ := q
      simp only [getSteuermapsLoop] at h
      rcases Res.bind_eq_err.mp h with h | ⟨m1, hm1, h⟩
      · exact ⟨(name, r), by simp, h⟩
      · obtain ⟨q, hq1, hq2⟩ := ih _ (fun q hq' => hq q (by simp [hq'])) h
        exact ⟨q, by simp [hq1], hq2⟩
  have hmem : ∀ q ∈ ho.iter 7 (Nat × NTRule I) pd.rules, AMap.get pd.rules q.1 = some q.2 := by
    intro q hq
    exact AMap.get_of_mem hw.rulesNodup ((ho.perm 7 _ _).mem_iff.mp hq)
  obtain ⟨⟨A, r⟩, hq, hrule⟩ := key _ _ hmem h
  have hr := hmem _ hq
  dsimp only at hr hrule
  obtain ⟨pre, q, post, x, hps, h1, ⟨tx, c, hw1, hid, rfl⟩, h3⟩ := steuermapOfRule_err
    (C := Control pd start A)
    (E := fun p x e => ∃ tx c, WrittenAs x c ∧ Identifies pd tx p ∧ e = .steuerSetsNotDistinct tx c A) r.prods
    (fun p hp m m' hm => steuermapOfProduction_ok_keys t hw hd hst1 hst2 hr hp hm)
    (fun p hp m hm => steuermapOfProduction_err t hw hd hst1 hst2 hr hp hm) [] hrule
  rcases h3 with h3 | ⟨p, hp, h3⟩
  · simp at h3
  · obtain ⟨i, hi⟩ := List.getElem?_of_mem hp
    have hlt := (List.getElem?_eq_some_iff.mp hi).1
    refine ⟨tx, c, A, rfl, r, i, pre.length, p, q, x, hr, hlt, ?_, ?_, h3, h1, hw1, hid⟩
    · rw [hps, List.getElem?_append_left hlt]; exact hi
    · rw [hps, List.getElem?_append_right (Nat.le_refl _)]; simp

theorem fillLoop_ne_timeout (prod : Production) (rule : Nat) (xs : List SetMember) :
    ∀ m : Steuermap, fillLoop prod rule xs m ≠ .timeout := by
  induction xs with
  | nil => intro m h; cases h
  | cons a xs ih =>
    intro m h
    simp only [fillLoop] at h
    split at h
    · cases h
    · exact ih _ h

theorem steuermapOfRule_ne_timeout {ho : HashOrder} {st fo : NamedSetsNoEmpty} {rule : Nat}
    {types : List ElementType} {data : List ElementData} (ps : List Production) :
    ∀ m : Steuermap, steuermapOfRule ho st fo rule types data ps m ≠ .timeout := by
  induction ps with
  | nil => intro m h; cases h
  | cons p ps ih =>
    intro m h
    simp only [steuermapOfRule] at h
    rcases Res.bind_eq_timeout.mp h with h | ⟨m1, -, h⟩
    · match p, h with
      | .notEmpty [], h => cases h
      | .empty, h =>
        simp only [steuermapOfProduction] at h
        rcases Res.bind_eq_timeout.mp h with h | ⟨f, -, h⟩
        · exact Res.ofOption_ne_timeout h
        · exact fillLoop_ne_timeout _ _ _ _ h
      | .notEmpty (e :: es), h =>
        simp only [steuermapOfProduction] at h
        rcases Res.bind_eq_timeout.mp h with h | ⟨et, -, h⟩
        · exact Res.ofOption_ne_timeout h
        · cases et with
          | terminal =>
            rcases Res.bind_eq_timeout.mp h with h | ⟨d, -, h⟩
            · exact Res.unwrapO_ne_timeout h
            · rcases Res.bind_eq_timeout.mp h with h | ⟨ch, -, h⟩
              · exact Res.unwrapO_ne_timeout h
              · split at h <;> cases h
          | nonTerminal =>
            rcases Res.bind_eq_timeout.mp h with h | ⟨s, -, h⟩
            · exact Res.ofOption_ne_timeout h
            · exact fillLoop_ne_timeout _ _ _ _ h
    · exact ih m1 h

theorem getSteuermapsLoop_ne_timeout {ho : HashOrder} {st fo : NamedSetsNoEmpty} {pd : ParserData I}
    (items : List (Nat × NTRule I)) :
    ∀ acc : AMap Nat (NTRules I), getSteuermapsLoop ho st fo pd items acc ≠ .timeout := by
  induction items with
  | nil => intro m h; cases h
  | cons q items ih =>
    intro acc h
    obtain ⟨name, r⟩ := q
    simp only [getSteuermapsLoop] at h
    rcases Res.bind_eq_timeout.mp h with h | ⟨m1, -, h⟩
    · exact steuermapOfRule_ne_timeout _ _ h
    · exact ih _ h

end HPP
