import Verif.Spec.Parts
import Verif.Props.Prepared
import Verif.Props.StackText
/-
C81 and C82: reading a rule text part by part.
-/
namespace HPP
open Spec
variable {I S : Type}

theorem InternOk.holds {pd : ParserData I} {E : List ElementVerbose} (h : InternOk pd E) : Holds pd E :=
  ⟨h.verbose, h.map⟩

theorem Spec.Holds.unique {pd : ParserData I} {E E' : List ElementVerbose} (h : Holds pd E) (h' : Holds pd E') : E = E' :=
  List.ext_getElem? fun i => by rw [← h.elements, h'.elements]

theorem rpEditRules_tables (ho : HashOrder) (s : RP I) : (rpEditRules ho s).2.proc = s.proc ∧
    (rpEditRules ho s).2.pd.elementTypes = s.pd.elementTypes ∧ (rpEditRules ho s).2.pd.elementData = s.pd.elementData ∧
    (rpEditRules ho s).2.pd.verboseMap = s.pd.verboseMap ∧ (rpEditRules ho s).2.pd.ignore = s.pd.ignore := by
  simp only [rpEditRules]
  split
  · split <;> exact ⟨rfl, rfl, rfl, rfl, rfl⟩
  · exact ⟨rfl, rfl, rfl, rfl, rfl⟩
  · exact ⟨rfl, rfl, rfl, rfl, rfl⟩
  · exact ⟨rfl, rfl, rfl, rfl, rfl⟩

/-- Where a rule parser stands, and that its element tables are in order. -/
def Stands (text : Str) (dflt : Option Nat) (s : RP I) : Prop :=
  ∃ u w E, text = u ++ w ∧ s.proc = Proc.at w u.length ∧ InternOk s.pd E ∧ s.pd.ignore = dflt

theorem Reads.stands {vm : VM I S} {keys : List ElementVerbose} {pd : ParserData I} {u0 w : Str} {α : Type}
    {res : Res PErr α × RP I} {Q : α → Str → List ElementVerbose → Str → Prop} {dflt : Option Nat} {text : Str}
    (h : Reads vm keys pd w u0.length res Q) (ht : text = u0 ++ w) (hd : pd.ignore = dflt) : Stands text dflt res.2 := by
  obtain ⟨u, w', pd', ks, h1, h2, h3, -⟩ := h
  refine ⟨u0 ++ u, w', addAll keys ks, by rw [ht, h2, List.append_assoc], ?_, ?_, ?_⟩
  · rw [h1, List.length_append]
  · rw [h1]; exact h3.ok
  · rw [h1]; exact h3.ignore.trans hd

theorem mergeRule_tables (pd : ParserData I) (key : Nat) (rule : NTRule I) :
    (mergeRule pd key rule).elementTypes = pd.elementTypes ∧ (mergeRule pd key rule).elementData = pd.elementData ∧
    (mergeRule pd key rule).verboseMap = pd.verboseMap ∧ (mergeRule pd key rule).ignore = pd.ignore := by
  simp only [mergeRule]
  split <;> exact ⟨rfl, rfl, rfl, rfl⟩

theorem rulesLoop_stands {vm : VM I S} (hvm : OnlyReads vm) (cc : CharClass) {text : Str} {dflt : Option Nat} :
    ∀ (fuel : Nat) (s : RP I), Stands text dflt s → Stands text dflt (parseRulesLoop cc vm fuel s).2
  | 0, s, h => h
  | fuel + 1, s, h => by
    obtain ⟨p, pd⟩ := s
    obtain ⟨u, w, E, ht, hp, hin, hd⟩ := h
    simp only at hp hin hd
    subst hp
    obtain ⟨g, v, rfl, hg, hv, -⟩ := space_split w
    cases v with
    | nil =>
      rw [List.append_nil, rulesLoop_end cc vm hg]
      exact ⟨u ++ g, [], E, by simpa using ht, by rw [List.length_append], hin, hd⟩
    | cons c v =>
      rw [rulesLoop_step cc vm hg (hv c v rfl), SM.bind_apply]
      have hr := reads_rule_in (w := c :: v) (k := u.length + g.length) (keys := E) (pd := pd) hvm hin cc
      have hst := Reads.stands (u0 := u ++ g) (text := text) (by rw [List.length_append]; exact hr) (by rw [ht]; simp) hd
      rcases hm : parseRule cc vm ⟨Proc.at (c :: v) (u.length + g.length), pd⟩ with ⟨res, s1⟩
      rw [hm] at hst
      cases res with
      | ok x =>
        obtain ⟨p1, pd1⟩ := s1
        obtain ⟨u1, w1, E1, k1, k2, k3, k4⟩ := hst
        have hm := mergeRule_tables pd1 x.1 x.2
        exact rulesLoop_stands hvm cc fuel ⟨p1, mergeRule pd1 x.1 x.2⟩
          ⟨u1, w1, E1, k1, k2, k3.of_tables hm.1 hm.2.1 hm.2.2.1, hm.2.2.2.trans k4⟩
      | err e => exact hst
      | panic => exact hst
      | timeout => exact hst

theorem Spec.PartRun.stands {cc : CharClass} {vm : VM I S} (hvm : OnlyReads vm) {text : Str} {ks : List ElementVerbose}
    {rules : AMap Nat (NTRule I)} {dflt : Option Nat} {s : RP I}
    (h : PartRun cc vm (preparedParser text (prepared ks rules dflt)) s) : Stands text dflt s := by
  induction h with
  | start => exact ⟨[], text, firstOccurrences ks, rfl, rfl, prepared_intern ks rules dflt, rfl⟩
  | @rules ho s s' r _ hc ih =>
    have h1 := rulesLoop_stands hvm cc (s.proc.rest.length + 1) s ih
    have hs' : s' = (rpParseRules ho cc vm s).2 := by rw [hc]
    rw [hs']
    simp only [rpParseRules, SM.bind_apply]
    rcases hm : parseRulesLoop cc vm (s.proc.rest.length + 1) s with ⟨res, s1⟩
    rw [hm] at h1
    cases res with
    | ok x =>
      obtain ⟨u, w, E, k1, k2, k3, k4⟩ := h1
      have ht := rpEditRules_tables ho s1
      exact ⟨u, w, E, k1, ht.1.trans k2, k3.of_tables ht.2.1 ht.2.2.1 ht.2.2.2.1, ht.2.2.2.2.trans k4⟩
    | err e => exact h1
    | panic => exact h1
    | timeout => exact h1
  | @rule s s' r _ hc ih =>
    obtain ⟨p, pd⟩ := s
    obtain ⟨u, w, E, k1, k2, k3, k4⟩ := ih
    simp only at k2 k3 k4
    subst k2
    have := (reads_rule_in (w := w) (k := u.length) hvm k3 cc).stands k1 k4
    rw [hc] at this
    exact this
  | @alternatives s s' r _ hc ih =>
    obtain ⟨p, pd⟩ := s
    obtain ⟨u, w, E, k1, k2, k3, k4⟩ := ih
    simp only at k2 k3 k4
    subst k2
    have := (reads_alts (vm := vm) (w := w) (k := u.length) k3 cc).stands k1 k4
    rw [hc] at this
    exact this
  | @alternative s s' r _ hc ih =>
    obtain ⟨p, pd⟩ := s
    obtain ⟨u, w, E, k1, k2, k3, k4⟩ := ih
    simp only at k2 k3 k4
    subst k2
    have := (reads_prod (vm := vm) (w := w) (k := u.length) k3 cc).stands k1 k4
    rw [hc] at this
    exact this

theorem addAll_eq_first {pd : ParserData I} {E : List ElementVerbose} (h : InternOk pd E) (ks : List ElementVerbose) :
    addAll E ks = firstOccurrences (E ++ ks) := by
  have h0 := elementsAfter_eq (I := I) h []
  simp only [elementsAfter, List.flatMap_nil, List.append_nil] at h0
  rw [firstOccurrences_eq, addAll_append, ← firstOccurrences_eq, h0]
  rfl

/-! ### C81 -/

/-- **C81**, where it stands: after any calls the unread text is the rest of the given text, the position counts what was
read, the elements are numbered without gaps or repetition, and the default ignore element is untouched. -/
theorem C81_stands {cc : CharClass} {vm : VM I S} (hvm : OnlyReads vm) {text : Str} {ks : List ElementVerbose}
    {rules : AMap Nat (NTRule I)} {dflt : Option Nat} {s : RP I}
    (h : PartRun cc vm (preparedParser text (prepared ks rules dflt)) s) :
    (∃ u, text = u ++ s.proc.rest ∧ s.proc.curPos = u.length) ∧ (∃ E, Holds s.pd E) ∧ s.pd.ignore = dflt := by
  obtain ⟨u, w, E, h1, h2, h3, h4⟩ := h.stands hvm
  refine ⟨⟨u, ?_, ?_⟩, ⟨E, h3.holds⟩, h4⟩
  · rw [h2]; exact h1
  · rw [h2]; rfl

/-- **C81**, reading: if the unread text starts with a rule, `parse_rule` returns the number and the meaning of that rule,
stops right behind its semicolon, requests exactly the elements it mentions, and stores no rule. -/
theorem C81_rule {cc : CharClass} (hcc : SpaceOk cc) {vm : VM I S} (hvm : OnlyReads vm) {text : Str}
    {ks : List ElementVerbose} {rules : AMap Nat (NTRule I)} {dflt : Option Nat} {s : RP I}
    (h : PartRun cc vm (preparedParser text (prepared ks rules dflt)) s) {E : List ElementVerbose} (hE : Holds s.pd E)
    {r : ReadRule I} {t w : Str} (hr : ReadRuleText cc (ReadsSection vm) r t) (hw : s.proc.rest = t ++ w) :
    ∃ s', parseRule cc vm s = (.ok ((firstOccurrences (E ++ r.mentions)).idxOf ⟨r.name, .nonTerminal⟩,
        ⟨r.alts.map (altMeaning (firstOccurrences (E ++ r.mentions))),
          r.choice.select (firstOccurrences (E ++ r.mentions)) dflt, r.instr⟩), s') ∧
      s'.proc.rest = w ∧ Holds s'.pd (firstOccurrences (E ++ r.mentions)) ∧ KeepsRules s.pd s'.pd := by
  obtain ⟨p, pd⟩ := s
  obtain ⟨u, v, E', h1, h2, h3, h4⟩ := h.stands hvm
  simp only at h2 h3 h4 hE hw
  subst h2
  have : E = E' := hE.unique h3.holds
  subst this
  rw [rest_at] at hw
  subst hw
  obtain ⟨k', pd', g1, g2⟩ := parseRule_complete_in hcc hr w u.length h3
  rw [addAll_eq_first h3, h4] at g1
  refine ⟨_, g1, rfl, ?_, fun i => ?_, g2.ignore⟩
  · rw [← addAll_eq_first h3]; exact g2.ok.holds
  · simp only [ParserData.getRuleByKey, g2.rules]

/-- **C81**, converse: when `parse_rule` returns a rule, what it took off the unread text is one rule, and the result is its
meaning. -/
theorem C81_rule_only {cc : CharClass} {vm : VM I S} (hvm : OnlyReads vm) {text : Str}
    {ks : List ElementVerbose} {rules : AMap Nat (NTRule I)} {dflt : Option Nat} {s s' : RP I}
    (h : PartRun cc vm (preparedParser text (prepared ks rules dflt)) s) {E : List ElementVerbose} (hE : Holds s.pd E)
    {i : Nat} {q : NTRule I} (hc : parseRule cc vm s = (.ok (i, q), s')) :
    ∃ r t, ReadRuleText cc (ReadsSectionIn vm) r t ∧ s.proc.rest = t ++ s'.proc.rest ∧
      i = (firstOccurrences (E ++ r.mentions)).idxOf ⟨r.name, .nonTerminal⟩ ∧
      q = ⟨r.alts.map (altMeaning (firstOccurrences (E ++ r.mentions))),
          r.choice.select (firstOccurrences (E ++ r.mentions)) dflt, r.instr⟩ ∧
      Holds s'.pd (firstOccurrences (E ++ r.mentions)) ∧ KeepsRules s.pd s'.pd := by
  obtain ⟨p, pd⟩ := s
  obtain ⟨u, v, E', h1, h2, h3, h4⟩ := h.stands hvm
  simp only at h2 h3 h4 hE
  subst h2
  have : E = E' := hE.unique h3.holds
  subst this
  obtain ⟨u1, w1, pd1, ks1, g1, g2, g3, g4⟩ := reads_rule_in (w := v) (k := u.length) hvm h3 cc
  rw [hc] at g1 g4
  simp only at g1 g4
  subst g1
  rcases g4 with ⟨x, hx, r, hr, rfl, hi, hq⟩ | ⟨e, he, -⟩
  · cases hx
    simp only at hi hq
    refine ⟨r, u1, hr, g2, ?_, ?_, ?_, fun i => ?_, g3.ignore⟩
    · rw [← addAll_eq_first h3]; exact hi
    · rw [← addAll_eq_first h3, hq, h4]; rfl
    · rw [← addAll_eq_first h3]; exact g3.ok.holds
    · simp only [ParserData.getRuleByKey, g3.rules]
  · cases he

/-- The error of reading the rest points into the text. -/
theorem RErr.text {vm : VM I S} {u w text : Str} {e : PErr} (h : RErr vm w u.length e) (ht : text = u ++ w) :
    PointsInto text e ∨ FromSection vm text e := by
  have h' : RErr vm (u ++ w) 0 e := RErr.suffix (k := 0) (by simpa using h)
  rw [ht]
  rcases h' with h' | ⟨u', v, name, h1, h2⟩
  · exact .inl h'.pointsInto
  · refine .inr ⟨u', v, name, h1, ?_⟩
    rw [Nat.zero_add] at h2
    exact h2

/-- **C81**, totality: every call of a part returns, and its errors point to a place in the given text or come from the
VM. -/
theorem C81_returns {cc : CharClass} {vm : VM I S} (hvm : OnlyReads vm) {text : Str}
    {ks : List ElementVerbose} {rules : AMap Nat (NTRule I)} {dflt : Option Nat} {s : RP I}
    (h : PartRun cc vm (preparedParser text (prepared ks rules dflt)) s) :
    (∀ r s', parseRule cc vm s = (r, s') → (∃ x, r = .ok x) ∨ ∃ e, r = .err e ∧ (PointsInto text e ∨ FromSection vm text e)) ∧
    (∀ r s', parseAlts cc s = (r, s') → (∃ x, r = .ok x) ∨ ∃ e, r = .err e ∧ (PointsInto text e ∨ FromSection vm text e)) ∧
    (∀ r s', parseProd cc s = (r, s') → (∃ x, r = .ok x) ∨ ∃ e, r = .err e ∧ (PointsInto text e ∨ FromSection vm text e)) := by
  obtain ⟨p, pd⟩ := s
  obtain ⟨u, v, E', h1, h2, h3, h4⟩ := h.stands hvm
  simp only at h2 h3 h4
  subst h2
  have key : ∀ {α : Type} {res : Res PErr α × RP I} {Q : α → Str → List ElementVerbose → Str → Prop},
      Reads vm E' pd v u.length res Q → ∀ r s', res = (r, s') → (∃ x, r = .ok x) ∨ ∃ e, r = .err e ∧ (PointsInto text e ∨ FromSection vm text e) := by
    rintro α res Q ⟨u1, w1, pd1, ks1, -, -, -, g4⟩ r s' rfl
    rcases g4 with ⟨x, hx, -⟩ | ⟨e, he, hE⟩
    · exact .inl ⟨x, hx⟩
    · exact .inr ⟨e, he, hE.text h1⟩
  exact ⟨key (reads_rule_in hvm h3 cc), key (reads_alts h3 cc), key (reads_prod h3 cc)⟩

/-! ### C82 -/

/-- **C82**, alternatives: if the unread text starts with a list of alternatives, `parse_possible_productions` returns their
meaning and stops behind them. -/
theorem C82_alternatives {cc : CharClass} (hcc : SpaceOk cc) {vm : VM I S} (hvm : OnlyReads vm) {text : Str}
    {ks : List ElementVerbose} {rules : AMap Nat (NTRule I)} {dflt : Option Nat} {s : RP I}
    (h : PartRun cc vm (preparedParser text (prepared ks rules dflt)) s) {E : List ElementVerbose} (hE : Holds s.pd E)
    {as : List (List ElementVerbose)} {g0 t g w : Str} (ha : AltsText cc as t) (hg0 : IsSpace g0) (hg : IsSpace g)
    (hend : AltsEnd w) (hw : s.proc.rest = g0 ++ (t ++ (g ++ w))) :
    ∃ s', parseAlts cc s = (.ok (as.map (altMeaning (firstOccurrences (E ++ as.flatten)))), s') ∧
      s'.proc.rest = w ∧ Holds s'.pd (firstOccurrences (E ++ as.flatten)) ∧ KeepsRules s.pd s'.pd := by
  obtain ⟨p, pd⟩ := s
  obtain ⟨u, v, E', h1, h2, h3, h4⟩ := h.stands hvm
  simp only at h2 h3 h4 hE hw
  subst h2
  have : E = E' := hE.unique h3.holds
  subst this
  rw [rest_at] at hw
  subst hw
  obtain ⟨k', pd', g1, g2⟩ := parseAlts_complete hcc ha u.length hg0 hg hend h3
  rw [addAll_eq_first h3] at g1
  refine ⟨_, g1, rfl, ?_, fun i => ?_, g2.ignore⟩
  · rw [← addAll_eq_first h3]; exact g2.ok.holds
  · simp only [ParserData.getRuleByKey, g2.rules]

/-- **C82**, one alternative: if the unread text starts with an alternative, `parse_production` returns its meaning and stops
behind it (possibly behind the white space that follows). -/
theorem C82_alternative {cc : CharClass} (hcc : SpaceOk cc) {vm : VM I S} (hvm : OnlyReads vm) {text : Str}
    {ks : List ElementVerbose} {rules : AMap Nat (NTRule I)} {dflt : Option Nat} {s : RP I}
    (h : PartRun cc vm (preparedParser text (prepared ks rules dflt)) s) {E : List ElementVerbose} (hE : Holds s.pd E)
    {a : List ElementVerbose} {g0 t g w : Str} (ha : AltText cc a t) (hg0 : IsSpace g0) (hg : IsSpace g)
    (hend : AltEnds w) (hw : s.proc.rest = g0 ++ (t ++ (g ++ w))) :
    ∃ s' g', parseProd cc s = (.ok (altMeaning (firstOccurrences (E ++ a)) a), s') ∧
      IsSpace g' ∧ s'.proc.rest = g' ++ w ∧ Holds s'.pd (firstOccurrences (E ++ a)) ∧ KeepsRules s.pd s'.pd := by
  obtain ⟨p, pd⟩ := s
  obtain ⟨u, v, E', h1, h2, h3, h4⟩ := h.stands hvm
  simp only at h2 h3 h4 hE hw
  subst h2
  have : E = E' := hE.unique h3.holds
  subst this
  rw [rest_at] at hw
  subst hw
  obtain ⟨g', k', pd', hg', g1, g2⟩ := parseProd_complete hcc ha hg0 hg hend u.length h3
  rw [addAll_eq_first h3] at g1
  refine ⟨_, g', g1, hg', rfl, ?_, fun i => ?_, g2.ignore⟩
  · rw [← addAll_eq_first h3]; exact g2.ok.holds
  · simp only [ParserData.getRuleByKey, g2.rules]

/-- **C82**, converse, restricted: when `parse_production` returns an alternative and has not used up the whole text, what it
took is one alternative (with white space around it) and the result is its meaning.  Missing: the case that the text was
used up, for which the claim is false (`C82_refuted`). -/
theorem C82_alternative_only_partial {cc : CharClass} {vm : VM I S} (hvm : OnlyReads vm) {text : Str}
    {ks : List ElementVerbose} {rules : AMap Nat (NTRule I)} {dflt : Option Nat} {s s' : RP I}
    (h : PartRun cc vm (preparedParser text (prepared ks rules dflt)) s) {E : List ElementVerbose} (hE : Holds s.pd E)
    {q : Production} (hc : parseProd cc s = (.ok q, s')) (hne : s'.proc.rest ≠ []) :
    ∃ a g0 t g, AltText cc a t ∧ IsSpace g0 ∧ IsSpace g ∧ s.proc.rest = g0 ++ (t ++ (g ++ s'.proc.rest)) ∧
      q = altMeaning (firstOccurrences (E ++ a)) a ∧ Holds s'.pd (firstOccurrences (E ++ a)) := by
  obtain ⟨p, pd⟩ := s
  obtain ⟨u, v, E', h1, h2, h3, h4⟩ := h.stands hvm
  simp only at h2 h3 h4 hE
  subst h2
  have : E = E' := hE.unique h3.holds
  subst this
  obtain ⟨u1, w1, pd1, ks1, g1, g2, g3, g4⟩ := reads_prod (vm := vm) (w := v) (k := u.length) h3 cc
  rw [hc] at g1 g4
  simp only at g1 g4
  subst g1
  rcases g4 with ⟨x, hx, ⟨g0, t, g, a, hu, hg0, hg, ha, rfl, rfl⟩ | hn⟩ | ⟨e, he, -⟩
  · cases hx
    refine ⟨ks1, g0, t, g, ha, hg0, hg, ?_, ?_, ?_⟩
    · rw [rest_at, g2, hu]; simp only [rest_at, List.append_assoc]
    · rw [← addAll_eq_first h3]
    · rw [← addAll_eq_first h3]; exact g3.ok.holds
  · exact absurd hn hne
  · cases he

/-- **C82**, converse for `parse_possible_productions`, with the same restriction. -/
theorem C82_alternatives_only_partial {cc : CharClass} {vm : VM I S} (hvm : OnlyReads vm) {text : Str}
    {ks : List ElementVerbose} {rules : AMap Nat (NTRule I)} {dflt : Option Nat} {s s' : RP I}
    (h : PartRun cc vm (preparedParser text (prepared ks rules dflt)) s) {E : List ElementVerbose} (hE : Holds s.pd E)
    {qs : List Production} (hc : parseAlts cc s = (.ok qs, s')) (hne : s'.proc.rest ≠ []) :
    ∃ as g0 t g, AltsText cc as t ∧ IsSpace g0 ∧ IsSpace g ∧ s.proc.rest = g0 ++ (t ++ (g ++ s'.proc.rest)) ∧
      qs = as.map (altMeaning (firstOccurrences (E ++ as.flatten))) ∧ Holds s'.pd (firstOccurrences (E ++ as.flatten)) := by
  obtain ⟨p, pd⟩ := s
  obtain ⟨u, v, E', h1, h2, h3, h4⟩ := h.stands hvm
  simp only at h2 h3 h4 hE
  subst h2
  have : E = E' := hE.unique h3.holds
  subst this
  obtain ⟨u1, w1, pd1, ks1, g1, g2, g3, g4⟩ := reads_alts (vm := vm) (w := v) (k := u.length) h3 cc
  rw [hc] at g1 g4
  simp only at g1 g4
  subst g1
  rcases g4 with ⟨x, hx, ⟨g0, t, g, as, hu, hg0, hg, ha, rfl, rfl⟩ | hn⟩ | ⟨e, he, -⟩
  · cases hx
    refine ⟨as, g0, t, g, ha, hg0, hg, ?_, ?_, ?_⟩
    · rw [rest_at, g2, hu]; simp only [rest_at, List.append_assoc]
    · rw [← addAll_eq_first h3]
    · rw [← addAll_eq_first h3]; exact g3.ok.holds
  · exact absurd hn hne
  · cases he

/-- What a call on a fresh rule parser returns and leaves unread. -/
def Samples.productionOf (text : Str) : Option (Production × Str) :=
  match parseProd .ascii (RP.new text : RP Nat) with
  | (.ok q, s) => some (q, s.proc.rest)
  | _ => none

theorem Samples.alt_last {a : List ElementVerbose} {t : Str} (h : AltText .ascii a t) : t.getLast? ≠ some ';' := by
  have he : ∀ {e : ElementVerbose} {t : Str}, ElemText .ascii e t → t.getLast? ≠ some ';' := by
    intro e t h
    cases h with
    | @terminal b _ =>
      have : ('"' :: (b ++ ['"'])).getLast? = some '"' := by
        rw [← List.cons_append, List.getLast?_append]; rfl
      rw [this]; decide
    | name hn =>
      obtain ⟨c, cs, rfl, hc, hcs⟩ := hn
      intro hl
      rcases List.mem_cons.1 (List.mem_of_getLast? hl) with rfl | hm
      · exact absurd hc (by decide)
      · rcases hcs _ hm with hd | hd
        · exact absurd hd (by decide)
        · exact absurd hd (by decide)
  have hne : ∀ {es : List ElementVerbose} {t : Str}, SeqText .ascii es t → t ≠ [] := by
    intro es t h
    cases h with
    | one h => intro ht; have := h.length_pos; rw [ht] at this; simp at this
    | cons h _ _ _ => intro ht; have := h.length_pos; simp only [List.append_eq_nil_iff] at ht; rw [ht.1] at this; simp at this
  have hs : ∀ {es : List ElementVerbose} {t : Str}, SeqText .ascii es t → t.getLast? ≠ some ';' := by
    intro es t h
    induction h with
    | one h => exact he h
    | @cons e e' es t g t' h _ _ hs' ih =>
      rw [← List.append_assoc, List.getLast?_append]
      cases hx : t'.getLast? with
      | none => exact absurd (List.getLast?_eq_none_iff.1 hx) (hne hs')
      | some x => rw [hx] at ih; exact ih
  cases h with
  | empty => decide
  | seq h => exact hs h

/-- The full **C82** is refuted: an alternative that ends in an unfinished terminal is accepted without that terminal, and
the rest of the text is gone. -/
theorem C82_refuted : Samples.productionOf (c% "a \"b | c;") = some (.notEmpty [0], []) ∧
    ¬ ∃ a g0 t g, AltText .ascii a t ∧ IsSpace g0 ∧ IsSpace g ∧ c% "a \"b | c;" = g0 ++ (t ++ (g ++ [])) := by
  refine ⟨by decide +kernel, ?_⟩
  rintro ⟨a, g0, t, g, ha, hg0, hg, h⟩
  have hl : (c% "a \"b | c;" : Str).getLast? = some ';' := by decide
  rw [h, List.append_nil, ← List.append_assoc, List.getLast?_append] at hl
  cases hgl : g.getLast? with
  | some x =>
    rw [hgl] at hl
    cases hl
    exact absurd (hg _ (List.mem_of_getLast? hgl)) (by decide)
  | none =>
    rw [hgl] at hl
    simp only [Option.none_or] at hl
    rw [List.getLast?_append] at hl
    cases htl : t.getLast? with
    | some x =>
      rw [htl] at hl
      cases hl
      exact Samples.alt_last ha htl
    | none =>
      rw [htl] at hl
      simp only [Option.none_or] at hl
      exact absurd (hg0 _ (List.mem_of_getLast? hl)) (by decide)

/-! ### A sample history -/

/-- The first rule is taken off with `parse_rule`, then `parse_rules` reads the rest, which only uses the first. -/
def Samples.partsText : Str := c% "a -> b \"x\" | #; b -> \"y\" a;"

def Samples.partsHistory : Option (Nat × List Production × List Char × List (Nat × List Production)) :=
  match parseRule .ascii nullVm (RP.new Samples.partsText) with
  | (.ok (i, q), s) =>
    match rpParseRules .insertion .ascii nullVm s with
    | (.ok _, s') => some (i, q.prods, s.proc.rest, s'.pd.rules.map fun x => (x.1, x.2.prods))
    | _ => none
  | _ => none

set_option synthInstance.maxSize 1000 in
set_option synthInstance.maxHeartbeats 200000 in
theorem Samples.partsHistory_eq : Samples.partsHistory =
    some (0, [.notEmpty [1, 2], .empty], c% " b -> \"y\" a;", [(1, [.notEmpty [3, 0]])]) := by
  decide +kernel

/-- A state in the middle of a text, with elements known, at the start of a rule; and one at the start of alternatives. -/
example : ∃ s, PartRun .ascii nullVm (preparedParser (c% "a -> \"x\";a -> b;") (prepared [] [] none)) s ∧
    s.proc.rest = c% "a -> b;" ∧ Holds s.pd [⟨c% "a", .nonTerminal⟩, ⟨c% "x", .terminal⟩] := by
  have hr : ReadRuleText .ascii (ReadsSection nullVm)
      ⟨c% "a", .default, [[⟨c% "x", .terminal⟩]], []⟩ (c% "a -> \"x\";") := by
    have := ReadRuleText.mk (cc := .ascii) (Sec := ReadsSection nullVm) (n := c% "a") (o := []) (a := c% "\"x\"") (s := [])
      (g1 := c% " ") (g2 := c% " ") (g3 := []) (g4 := []) (g5 := []) (ch := .default) (alts := [[⟨c% "x", .terminal⟩]])
      (instr := []) ⟨'a', [], rfl, by decide, by simp⟩ (by intro c h; simp at h; subst h; decide)
      (by intro c h; simp at h; subst h; decide) .absent isSpace_nil
      (.one (.seq (.one (.terminal (b := c% "x") (by decide))))) isSpace_nil .absent isSpace_nil
    exact this
  obtain ⟨s', h1, h2, h3, -⟩ := C81_rule ascii_spaceOk nullVm_onlyReads
    (s := preparedParser (c% "a -> \"x\";a -> b;") (prepared [] [] none)) .start (E := [])
    (prepared_intern [] [] none).holds hr (w := c% "a -> b;") rfl
  exact ⟨s', .rule .start h1, h2, h3⟩

end HPP
