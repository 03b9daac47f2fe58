import Verif.Spec.Keywords
import Verif.Props.Simple
import Verif.Props.TopDown
/-
C107: what parsers for simple grammars accept.
-/
namespace HPP
open Spec
variable {I S S' : Type} {cc : CharClass} {rs : List (WrittenRule I)} {text : Str} {pd : ParserData I}

theorem forest_lead {p : Production} {c : Char} (h : leadChar pd p = some c) {f : Forest} {s : Str}
    (hf : IsForest pd (prodElems p) f s) : ∃ s', s = c :: s' := by
  obtain ⟨e, es, d, rfl, h1, h2, h3⟩ := leadChar_some h
  cases hf with
  | leaf g1 g2 g3 =>
    rw [h2] at g2; cases g2
    cases hd : d.name with
    | nil => rw [hd] at h3; cases h3
    | cons a l => rw [hd] at h3; cases h3; exact ⟨_, rfl⟩
  | node g1 => rw [h1] at g1; cases g1

/-- In simple grammars every parse tree is found from the front, whatever follows its text. -/
theorem forest_topDown {start : Nat}
    (hl : ∀ A r, AMap.get pd.rules A = some r → ∀ p ∈ r.prods, ∃ c, leadChar pd p = some c) {els : List Nat} {f : Forest} {s : Str}
    (h : IsForest pd els f s) : ∀ z, TopDown pd start els (s ++ z) f z := by
  induction h with
  | nil => intro z; exact .nil
  | leaf h1 h2 _ ih => intro z; rw [List.append_assoc]; exact .leaf h1 h2 (ih z)
  | @node A es r p kids f s1 s2 h1 h2 h3 h4 h5 ih1 ih2 =>
    intro z
    rw [List.append_assoc]
    refine .node h1 h2 h3 ?_ (ih1 (s2 ++ z)) (ih2 z)
    obtain ⟨c, hc⟩ := hl A r h2 p h3
    obtain ⟨s', rfl⟩ := forest_lead hc h4
    exact (control_lead hc _).2 rfl

theorem meansWoven_hasLeads (hm : MeansWoven rs pd) (hin : InternOk pd (elementsOf rs)) (hl : LeadsEverywhere rs) :
    ∀ A r, AMap.get pd.rules A = some r → ∀ p ∈ r.prods, ∃ c, leadChar pd p = some c := by
  intro A r hr p hp
  obtain ⟨n, -, he⟩ := meansWoven_leads hm hin hr
  have : leadChar pd p ∈ (altsOf rs n).map leadOf := by rw [← he]; exact List.mem_map_of_mem hp
  obtain ⟨a, ha, hx⟩ := List.mem_map.1 this
  obtain ⟨r', hr', har⟩ := List.mem_flatMap.1 ha
  obtain ⟨c, hc⟩ := hl r' (List.mem_filter.1 hr').1 a har
  exact ⟨c, by rw [← hx, hc]⟩

/-- **C107.** A parser built from a rule text in which every alternative begins with a character accepts exactly the scripts
that begin with a text the rules spell: it reads that text and leaves the rest, whatever that is. -/
theorem C107_accepts_iff (hcc : SpaceOk cc) {vm : VM I S} (h : RulesText cc (ReadsSection vm) rs text) (hl : LeadsEverywhere rs)
    {ho0 : HashOrder} {fuel0 : Nat} {P : Parser I} (hP : Parser.newFromText ho0 fuel0 cc vm text = .ok P) (vm' : VM I S')
    (htp : TreePreserving vm') (htot : Total vm') (script rest : Str) :
    ∃ N, ∀ fuel, N ≤ fuel → ∀ (ho : HashOrder) (s : S'),
      ((∃ t c, Parser.parse ho fuel vm' P script s = (.ok t, c) ∧ c.proc.rest = rest) ↔
        ∃ consumed, script = consumed ++ rest ∧ Spells rs [⟨c% "start", .nonTerminal⟩] consumed) := by
  obtain ⟨pd, st, a1, a2, a3, a4, a5, a6⟩ := newFromText_means hcc h hP
  have hty : pd.elementTypes[st]? = some .nonTerminal := by rw [a3.types, List.getElem?_map, a5]; rfl
  have hsound : ∀ ho fuel s t c, Parser.parse ho fuel vm' P script s = (.ok t, c) → c.proc.rest = rest →
      ∃ consumed, script = consumed ++ rest ∧ Spells rs [⟨c% "start", .nonTerminal⟩] consumed := by
    intro ho fuel s t c hp hr
    obtain ⟨x, hx, hl⟩ := C21_parse_sound a2 a6 (a3.start a5) vm' hp
    exact ⟨x, by rw [hx, hr], (spells_iff_forest a1 a3 a5 x).1 ((C19_tree_iff_language a2 hty x).2 hl)⟩
  by_cases hc : ∃ consumed, script = consumed ++ rest ∧ Spells rs [⟨c% "start", .nonTerminal⟩] consumed
  · obtain ⟨consumed, rfl, hs⟩ := hc
    obtain ⟨f, hf⟩ := (spells_iff_forest a1 a3 a5 consumed).2 hs
    refine ⟨f.height, fun fuel hfu ho s => ⟨fun _ => ⟨consumed, rfl, hs⟩, fun _ => ?_⟩⟩
    exact (C68_accepts_exactly a2 a6 (a3.start a5) vm' htp htot _ rest s).2
      ⟨f, forest_topDown (meansWoven_hasLeads a1 a3 hl) hf rest, hfu⟩
  · exact ⟨0, fun fuel _ ho s => ⟨fun ⟨t, c, hp, hr⟩ => hsound ho fuel s t c hp hr, fun hx => absurd hx hc⟩⟩

/-- **C107**, no text the rules spell begins with another one: what is read is determined by the script. -/
theorem C107_prefix_free (hcc : SpaceOk cc) {vm : VM I S} (h : RulesText cc (ReadsSection vm) rs text) (hc : Complete rs)
    (hst : ∃ r ∈ rs, r.name = c% "start") (hl : LeadsEverywhere rs) (hd : LeadsDiffer rs) {u v : Str}
    (hu : Spells rs [⟨c% "start", .nonTerminal⟩] u) (hv : Spells rs [⟨c% "start", .nonTerminal⟩] (u ++ v)) : v = [] := by
  obtain ⟨fuel, P, hP⟩ := (C93_built_iff hcc vm h hc hst hl .insertion).2 hd
  obtain ⟨pd, st, a1, a2, a3, a4, a5, a6⟩ := newFromText_means hcc h hP
  obtain ⟨f, hf⟩ := (spells_iff_forest a1 a3 a5 _).2 hu
  obtain ⟨g, hg⟩ := (spells_iff_forest a1 a3 a5 _).2 hv
  have hl' := meansWoven_hasLeads a1 a3 hl
  have h1 := forest_topDown (start := st) hl' hf v
  have h2 := forest_topDown (start := st) hl' hg []
  rw [List.append_nil] at h2
  exact (C68_reading_unique a2 a6 h1 h2).2

/-! ### one rule of quoted words -/

theorem spells_terminals (rs : List (WrittenRule I)) (ws : List Str) (s : Str) :
    Spells rs (ws.map fun w => ⟨w, .terminal⟩) s ↔ s = ws.flatten := by
  induction ws generalizing s with
  | nil =>
    constructor
    · intro h; cases h; rfl
    · rintro rfl; exact .nil
  | cons w ws ih =>
    constructor
    · intro h
      cases h with
      | terminal h => rw [(ih _).1 h]; rfl
    · rintro rfl
      exact .terminal ((ih _).2 rfl)

theorem quotedFrom_plain {w : Str} (h : PlainWord w) : quotedFrom false (w ++ ['"']) = some (w, []) := by
  induction w with
  | nil => rfl
  | cons c w ih =>
    have h1 := h c (.head _)
    have h2 := ih fun d hd => h d (.tail _ hd)
    simp [quotedFrom, h1.1, h1.2, h2]

theorem seqText_words (cc : CharClass) : ∀ {ws : List Str}, ws ≠ [] → (∀ w ∈ ws, PlainWord w) →
    SeqText cc (ws.map fun w => ⟨w, .terminal⟩) (wordsText ws) := by
  intro ws
  induction ws with
  | nil => intro h; exact absurd rfl h
  | cons w ws ih =>
    intro _ h
    have h1 := ElemText.terminal (cc := cc) (quotedFrom_plain (h w (.head _)))
    cases ws with
    | nil => exact .one h1
    | cons w' ws =>
      exact .cons h1 (g := [' ']) (Samples.isSpace_one (by decide)) (by intro hx; cases hx)
        (ih (by simp) fun v hv => h v (.tail _ hv))

theorem altsText_choices (cc : CharClass) : ∀ {alts : List (List Str)}, alts ≠ [] →
    (∀ ws ∈ alts, ws ≠ [] ∧ ∀ w ∈ ws, PlainWord w) →
    AltsText cc (alts.map fun ws => ws.map fun w => ⟨w, .terminal⟩) (choicesText alts) := by
  intro alts
  induction alts with
  | nil => intro h; exact absurd rfl h
  | cons ws more ih =>
    intro _ h
    have h1 := AltText.seq (seqText_words cc (h ws (.head _)).1 (h ws (.head _)).2)
    cases more with
    | nil => exact .one h1
    | cons ws' more =>
      exact .cons h1 (g := [' ']) (g' := [' ']) (Samples.isSpace_one (by decide)) (Samples.isSpace_one (by decide))
        (ih (by simp) fun v hv => h v (.tail _ hv))

theorem keywordText_rules (cc : CharClass) (Sec : Str → Str → List I → Prop) {alts : List (List Str)} (hne : alts ≠ [])
    (h : ∀ ws ∈ alts, ws ≠ [] ∧ ∀ w ∈ ws, PlainWord w) : RulesText cc Sec (keywordRules I alts) (keywordText alts) := by
  have sp : IsSpace [' '] := Samples.isSpace_one (by decide)
  have r := RuleText.mk (cc := cc) (Sec := Sec) (isName_start cc) sp sp .absent isSpace_nil (altsText_choices cc hne h) isSpace_nil
    (.absent (name := c% "start")) isSpace_nil
  have h1 := RulesText.cons isSpace_nil r (.nil isSpace_nil)
  rw [List.append_nil, List.nil_append] at h1
  exact h1

theorem altsOf_keyword (alts : List (List Str)) (n : Str) :
    altsOf (keywordRules I alts) n = if n = c% "start" then alts.map (fun ws => ws.map fun w => ⟨w, .terminal⟩) else [] := by
  unfold altsOf keywordRules
  by_cases h : n = c% "start"
  · subst h; simp
  · rw [if_neg h, List.filter_cons_of_neg (by simpa using fun hx => h hx.symm)]; rfl

/-- **C107**, keywords: from a text `start -> "..." "..." | "..." ...;` whose choices begin with different characters a parser is
built (for every virtual machine), and it accepts a script, leaving `rest` unread, exactly if the script is one of the choices
followed by `rest`. -/
theorem C107_keywords (hcc : SpaceOk cc) (vm : VM I S) {alts : List (List Str)} (hne : alts ≠ [])
    (hw : ∀ ws ∈ alts, ws ≠ [] ∧ ∀ w ∈ ws, PlainWord w) (hlead : ∀ ws ∈ alts, ∀ w, ws.head? = some w → w ≠ [])
    (hdiff : alts.Pairwise fun a b => a.flatten.head? ≠ b.flatten.head?) (ho0 : HashOrder) :
    ∃ fuel0 P, Parser.newFromText ho0 fuel0 cc vm (keywordText alts) = .ok P ∧
      ∀ (vm' : VM I S'), TreePreserving vm' → Total vm' → ∀ script rest : Str,
        ∃ N, ∀ fuel, N ≤ fuel → ∀ (ho : HashOrder) (s : S'),
          ((∃ t c, Parser.parse ho fuel vm' P script s = (.ok t, c) ∧ c.proc.rest = rest) ↔
            ∃ ws ∈ alts, script = ws.flatten ++ rest) := by
  have hlo : ∀ ws ∈ alts, leadOf (ws.map fun w => (⟨w, .terminal⟩ : ElementVerbose)) = ws.flatten.head? ∧
      ws.flatten ≠ [] := by
    intro ws hws
    obtain ⟨h1, -⟩ := hw ws hws
    cases ws with
    | nil => exact absurd rfl h1
    | cons w ws =>
      have := hlead _ hws w rfl
      cases w with
      | nil => exact absurd rfl this
      | cons c w => exact ⟨rfl, by simp⟩
  have hrt := keywordText_rules cc (ReadsSection vm) hne hw
  have hl : LeadsEverywhere (keywordRules I alts) := by
    intro r hr a ha
    cases List.mem_singleton.1 hr
    obtain ⟨ws, hws, rfl⟩ := List.mem_map.1 ha
    obtain ⟨h1, h2⟩ := hlo ws hws
    cases hf : ws.flatten with
    | nil => exact absurd hf h2
    | cons c l => exact ⟨c, by rw [h1, hf]; rfl⟩
  have hd : LeadsDiffer (keywordRules I alts) := by
    intro n
    rw [altsOf_keyword]
    split
    · rw [List.pairwise_map]
      refine List.Pairwise.imp_of_mem ?_ hdiff
      intro a b ha hb hab
      rw [(hlo a ha).1, (hlo b hb).1]
      exact hab
    · exact .nil
  have hcomp : Complete (keywordRules I alts) := by
    intro r hr n hn
    cases List.mem_singleton.1 hr
    refine ⟨_, .head _, ?_⟩
    simp only [WrittenRule.mentions, Option.map_none, Option.toList_none, List.nil_append] at hn
    rcases List.mem_cons.1 hn with h | h
    · cases h; rfl
    · obtain ⟨a, ha, h⟩ := List.mem_flatten.1 h
      obtain ⟨ws, -, rfl⟩ := List.mem_map.1 ha
      obtain ⟨w, -, h⟩ := List.mem_map.1 h
      cases h
  obtain ⟨fuel0, P, hP⟩ := (C93_built_iff hcc vm hrt hcomp ⟨_, .head _, rfl⟩ hl ho0).2 hd
  refine ⟨fuel0, P, hP, fun vm' htp htot script rest => ?_⟩
  obtain ⟨N, hN⟩ := C107_accepts_iff hcc hrt hl hP vm' htp htot script rest
  refine ⟨N, fun fuel hf ho s => (hN fuel hf ho s).trans ?_⟩
  have hov : overrideOf (keywordRules I alts) (c% "start") = none := rfl
  constructor
  · rintro ⟨x, rfl, hx⟩
    cases hx with
    | name h1 h2 h3 =>
      cases h3
      cases h1 with
      | plain _ ha =>
        rw [altsOf_keyword, if_pos rfl] at ha
        obtain ⟨ws, hws, rfl⟩ := List.mem_map.1 ha
        exact ⟨ws, hws, by rw [(spells_terminals _ ws _).1 h2, List.append_nil]⟩
      | own h => rw [hov] at h; cases h
      | woven h => rw [hov] at h; cases h
  · rintro ⟨ws, hws, rfl⟩
    refine ⟨ws.flatten, rfl, ?_⟩
    have := Spells.name (rs := keywordRules I alts) (n := c% "start") (es := [])
      (.plain hov (by rw [altsOf_keyword, if_pos rfl]; exact List.mem_map_of_mem hws)) ((spells_terminals _ ws _).2 rfl) .nil
    rwa [List.append_nil] at this

/-- The example in the documentation of the library: the rule text is read, the script is accepted, and so is the script with
text behind it; nothing else is. -/
example (ho0 : HashOrder) : keywordText [[c% "hello", c% "world"]] = c% "start -> \"hello\" \"world\";" ∧
    ∃ fuel0 P, Parser.newFromText ho0 fuel0 .ascii nullVm (c% "start -> \"hello\" \"world\";") = .ok P ∧
      ∀ script rest : Str, ∃ N, ∀ fuel, N ≤ fuel → ∀ (ho : HashOrder) (s : Nat),
        ((∃ t c, Parser.parse ho fuel nullVm P script s = (.ok t, c) ∧ c.proc.rest = rest) ↔ script = c% "helloworld" ++ rest) := by
  refine ⟨by decide, ?_⟩
  obtain ⟨fuel0, P, h1, h2⟩ := C107_keywords (S' := Nat) ascii_spaceOk nullVm (alts := [[c% "hello", c% "world"]]) (by simp)
    (by
      intro ws hws
      cases List.mem_singleton.1 hws
      exact ⟨by simp, by unfold PlainWord; decide⟩)
    (by
      intro ws hws w hw
      cases List.mem_singleton.1 hws
      cases hw
      decide)
    (List.pairwise_singleton _ _) ho0
  refine ⟨fuel0, P, h1, fun script rest => ?_⟩
  obtain ⟨N, hN⟩ := h2 nullVm nullVm_treePreserving nullVm_total script rest
  refine ⟨N, fun fuel hf ho s => (hN fuel hf ho s).trans ⟨?_, ?_⟩⟩
  · rintro ⟨ws, hws, h⟩
    cases List.mem_singleton.1 hws
    exact h
  · intro h
    exact ⟨_, .head _, h⟩

/-- The other hypotheses of C107 are met by the sample text of C93. -/
example : RulesText .ascii (ReadsSection nullVm) (Samples.simpleRules (c% "a")) Samples.simpleText ∧
    LeadsEverywhere (Samples.simpleRules (c% "a")) ∧
    Samples.built (Parser.newFromText .insertion 99 .ascii nullVm Samples.simpleText) = some true := by
  refine ⟨Samples.simpleText_rules.1, ?_, by decide +kernel⟩
  intro r hr a ha
  simp only [Samples.simpleRules, List.mem_cons, List.not_mem_nil, or_false] at hr
  rcases hr with rfl | rfl <;> simp only [List.mem_cons, List.not_mem_nil, or_false] at ha <;> rcases ha with rfl | rfl <;>
    exact ⟨_, rfl⟩

end HPP
