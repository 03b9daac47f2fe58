import Verif.Props.RuleText
/-
C75: a rule text can be read in one way only.
-/
namespace HPP
open Spec
variable {I S : Type}

theorem InternOk.keys_unique {pd : ParserData I} {ks ks' : List ElementVerbose} (h : InternOk pd ks) (h' : InternOk pd ks') : ks = ks' := by
  refine List.ext_getElem? fun i => ?_
  rw [← h.verbose, ← h'.verbose]

theorem idxOf_inj {keys : List ElementVerbose} {a b : ElementVerbose} (ha : a ∈ keys) (hb : b ∈ keys)
    (h : keys.idxOf a = keys.idxOf b) : a = b := by
  have h1 := getElem?_idxOf ha
  rw [h, getElem?_idxOf hb] at h1
  exact (Option.some.inj h1).symm

theorem map_idxOf_inj {keys : List ElementVerbose} : ∀ {a b : List ElementVerbose}, (∀ x ∈ a, x ∈ keys) → (∀ x ∈ b, x ∈ keys) →
    a.map (fun e => keys.idxOf e) = b.map (fun e => keys.idxOf e) → a = b
  | [], [], _, _, _ => rfl
  | [], _ :: _, _, _, h => by simp at h
  | _ :: _, [], _, _, h => by simp at h
  | x :: a, y :: b, ha, hb, h => by
    simp only [List.map_cons, List.cons.injEq] at h
    rw [idxOf_inj (ha x (by simp)) (hb y (by simp)) h.1,
      map_idxOf_inj (fun z hz => ha z (by simp [hz])) (fun z hz => hb z (by simp [hz])) h.2]

theorem map_altMeaning_inj {keys : List ElementVerbose} : ∀ {a b : List (List ElementVerbose)},
    (∀ x ∈ a, ∀ e ∈ x, e ∈ keys) → (∀ x ∈ b, ∀ e ∈ x, e ∈ keys) → a.map (altMeaning keys) = b.map (altMeaning keys) → a = b
  | [], [], _, _, _ => rfl
  | [], _ :: _, _, _, h => by simp at h
  | _ :: _, [], _, _, h => by simp at h
  | x :: a, y :: b, ha, hb, h => by
    simp only [List.map_cons, List.cons.injEq] at h
    have hxy : x = y := by
      refine map_idxOf_inj (ha x (by simp)) (hb y (by simp)) ?_
      rw [← prodElems_altMeaning, ← prodElems_altMeaning, h.1]
    rw [hxy, map_altMeaning_inj (fun z hz => ha z (by simp [hz])) (fun z hz => hb z (by simp [hz])) h.2]

theorem written_inj {keys : List ElementVerbose} {r r' : WrittenRule I} (h : ∀ e ∈ r.mentions, e ∈ keys)
    (h' : ∀ e ∈ r'.mentions, e ∈ keys) (hn : keys.idxOf ⟨r.name, .nonTerminal⟩ = keys.idxOf ⟨r'.name, .nonTerminal⟩)
    (hw : written keys r = written keys r') : r = r' := by
  obtain ⟨n, i, a, s⟩ := r
  obtain ⟨n', i', a', s'⟩ := r'
  simp only [written, NTRule.mk.injEq] at hw
  obtain ⟨h1, h2, rfl⟩ := hw
  have e1 := idxOf_inj (h _ (by simp [WrittenRule.mentions])) (h' _ (by simp [WrittenRule.mentions])) hn
  simp only [ElementVerbose.mk.injEq, and_true] at e1
  have e2 := map_altMeaning_inj
    (fun x hx e he => h e (by simp only [WrittenRule.mentions, List.mem_cons, List.mem_append, List.mem_flatten]; exact .inr (.inr ⟨x, hx, he⟩)))
    (fun x hx e he => h' e (by simp only [WrittenRule.mentions, List.mem_cons, List.mem_append, List.mem_flatten]; exact .inr (.inr ⟨x, hx, he⟩)))
    h1
  have e3 : i = i' := by
    cases i with
    | none =>
      cases i' with
      | none => rfl
      | some m => simp [ignMeaning] at h2
    | some m =>
      cases i' with
      | none => simp [ignMeaning] at h2
      | some m' =>
        have := idxOf_inj (h ⟨m, .nonTerminal⟩ (by simp [WrittenRule.mentions])) (h' ⟨m', .nonTerminal⟩ (by simp [WrittenRule.mentions]))
          (by simpa [ignMeaning] using h2)
        simp only [ElementVerbose.mk.injEq, and_true] at this
        rw [this]
  subst e1 e2 e3
  rfl

/-- **C75**, one rule: a rule at the start of a text is determined by the text, and so is where it ends. -/
theorem C75_one_rule {cc : CharClass} (hcc : SpaceOk cc) (vm : VM I S) {r r' : WrittenRule I} {t t' w w' : Str}
    (h : RuleText cc (ReadsSection vm) r t) (h' : RuleText cc (ReadsSection vm) r' t') (he : t ++ w = t' ++ w') :
    r = r' ∧ t = t' ∧ w = w' := by
  obtain ⟨k1, pd1, h1, h2⟩ := parseRule_complete hcc h w 0 (InternOk.new (I := I)) rfl
  obtain ⟨k2, pd2, g1, g2⟩ := parseRule_complete hcc h' w' 0 (InternOk.new (I := I)) rfl
  rw [he, g1] at h1
  simp only [Prod.mk.injEq, Res.ok.injEq, RP.mk.injEq] at h1
  obtain ⟨⟨e1, e2⟩, e3, rfl⟩ := h1
  have hk := g2.ok.keys_unique h2.ok
  have hw : w = w' := by
    have := congrArg PP.rest e3
    exact this.symm
  subst hw
  rw [hk] at e1 e2
  refine ⟨?_, List.append_cancel_right he, rfl⟩
  refine written_inj (keys := addAll [] r.mentions) (fun e hm => mem_addAll.2 (.inr hm)) (fun e hm => ?_) e1.symm e2.symm
  rw [← hk]
  exact mem_addAll.2 (.inr hm)

theorem space_append_inj {g g' v v' : Str} (hg : IsSpace g) (hg' : IsSpace g') (hv : NoSpaceAhead v) (hv' : NoSpaceAhead v')
    (h : g ++ v = g' ++ v') : g = g' ∧ v = v' := by
  induction g generalizing g' with
  | nil =>
    cases g' with
    | nil => exact ⟨rfl, h⟩
    | cons c g' =>
      simp only [List.nil_append, List.cons_append] at h
      have := hv c _ h
      rw [hg' c (by simp)] at this; cases this
  | cons c g ih =>
    cases g' with
    | nil =>
      simp only [List.nil_append, List.cons_append] at h
      have := hv' c _ h.symm
      rw [hg c (by simp)] at this; cases this
    | cons d g' =>
      simp only [List.cons_append, List.cons.injEq] at h
      obtain ⟨rfl, h⟩ := h
      obtain ⟨rfl, rfl⟩ := ih (fun x hx => hg x (by simp [hx])) (fun x hx => hg' x (by simp [hx])) h
      exact ⟨rfl, rfl⟩

/-- **C75.** A rule text denotes one list of rules only: the syntax is unambiguous. -/
theorem C75_one_meaning {cc : CharClass} (hcc : SpaceOk cc) (vm : VM I S) {rs rs' : List (WrittenRule I)} {text : Str}
    (h : RulesText cc (ReadsSection vm) rs text) (h' : RulesText cc (ReadsSection vm) rs' text) : rs = rs' := by
  induction h generalizing rs' with
  | @nil g hg =>
    generalize hx : g = x at h'
    cases h' with
    | nil _ => rfl
    | @cons r rs1 g' t t' hg' hr hrs =>
      exfalso
      obtain ⟨c, u, rfl, hc⟩ := hr.head
      have hw := alpha_noSpace hcc hc (u ++ t') c (u ++ t') rfl
      have := hg c (by rw [hx]; simp)
      rw [hw] at this; cases this
  | @cons r rs g t t' hg hr hrs ih =>
    generalize hx : g ++ (t ++ t') = x at h'
    cases h' with
    | nil hsp =>
      exfalso
      obtain ⟨c, u, rfl, hc⟩ := hr.head
      have hw := alpha_noSpace hcc hc (u ++ t') c (u ++ t') rfl
      have := hsp c (by rw [← hx]; simp)
      rw [hw] at this; cases this
    | @cons r1 rs1 g1 t1 t1' hg1 hr1 hrs1 =>
      have hns : NoSpaceAhead (t ++ t') := by
        obtain ⟨c, u, rfl, hc⟩ := hr.head
        exact alpha_noSpace hcc hc (u ++ t')
      have hns1 : NoSpaceAhead (t1 ++ t1') := by
        obtain ⟨c, u, rfl, hc⟩ := hr1.head
        exact alpha_noSpace hcc hc (u ++ t1')
      obtain ⟨rfl, hx2⟩ := space_append_inj hg hg1 hns hns1 hx
      obtain ⟨rfl, rfl, rfl⟩ := C75_one_rule hcc vm hr hr1 hx2
      rw [ih hrs1]

/-- **C75** for StackVm sections. -/
theorem C75_one_meaning_stackVm {cc : CharClass} (hcc : SpaceOk cc) {rs rs' : List (WrittenRule Instr)} {text : Str}
    (h : RulesText cc (fun _ body instr => StackSection cc instr body) rs text)
    (h' : RulesText cc (fun _ body instr => StackSection cc instr body) rs' text) : rs = rs' :=
  C75_one_meaning hcc (stackVm cc true) (h.mono fun n b i hs => (stackVm_reads hcc true n b i).2 hs)
    (h'.mono fun n b i hs => (stackVm_reads hcc true n b i).2 hs)

/-- The hypotheses are met by the sample text. -/
example : SpaceOk .ascii ∧ ∃ rs, RulesText .ascii (ReadsSection nullVm) rs Samples.ruleText := by
  obtain ⟨h1, -, rs, -, -, h2, -⟩ := Samples.ruleText_reads
  exact ⟨h1, rs, h2⟩

end HPP
