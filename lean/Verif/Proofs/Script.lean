import Verif.Spec.Same
import Verif.Proofs.Forest
import Verif.Proofs.Shows
/-
Correctness of `parse_production`: one induction that yields soundness, prefix determinism, the tree, the
order of the instructions and the shape of errors.
-/
namespace HPP
open Spec
variable {I S : Type}

/-! ### the process over the script -/

/-- The top-level process after reading `pre`, with `rest` to come. -/
def procAt (pre rest : Str) : Proc := ⟨⟨rest⟩, pre.length, none, none, false⟩

theorem ofText_procAt (text : Str) : Proc.ofText text = procAt [] text := rfl

@[simp] theorem peek_procAt (pre rest : Str) : (procAt pre rest).peek = (rest.head?, procAt pre rest) := by
  cases rest <;> rfl

@[simp] theorem next_procAt (pre : Str) (c : Char) (rest : Str) :
    (procAt pre (c :: rest)).next = (some c, procAt (pre ++ [c]) rest) := by
  simp [procAt, PP.next, PP.checkAllowed, TPeekable.peek, TPeekable.next]

@[simp] theorem curPos_procAt (pre rest : Str) : (procAt pre rest).curPos = pre.length := rfl

theorem parseTerminalLoop_spec (name : Str) : ∀ pre rest : Str,
    (∃ r, rest = name ++ r ∧ parseTerminalLoop name (procAt pre rest) = (.ok (), procAt (pre ++ name) r)) ∨
    (∃ s c' n2 c r, name = s ++ c' :: n2 ∧ rest = s ++ c :: r ∧ c ≠ c' ∧
      parseTerminalLoop name (procAt pre rest) =
        (.err (.unexpectedChar c (pre ++ s).length [c']), procAt (pre ++ s) (c :: r))) ∨
    (∃ c' n2, name = rest ++ c' :: n2 ∧
      parseTerminalLoop name (procAt pre rest) =
        (.err (.endOfChars (pre ++ rest).length), procAt (pre ++ rest) [])) := by
  induction name with
  | nil => intro pre rest; exact .inl ⟨rest, rfl, by simp [parseTerminalLoop]⟩
  | cons x name ih =>
    intro pre rest
    cases rest with
    | nil => exact .inr (.inr ⟨x, name, rfl, by simp [parseTerminalLoop]⟩)
    | cons y rest =>
      by_cases hxy : y = x
      · subst hxy
        have hstep : parseTerminalLoop (y :: name) (procAt pre (y :: rest)) =
            parseTerminalLoop name (procAt (pre ++ [y]) rest) := by simp [parseTerminalLoop]
        rw [hstep]
        rcases ih (pre ++ [y]) rest with ⟨r, rfl, h⟩ | ⟨s, c', n2, c, r, rfl, rfl, hne, h⟩ | ⟨c', n2, rfl, h⟩
        · exact .inl ⟨r, rfl, by rw [h]; simp⟩
        · exact .inr (.inl ⟨y :: s, c', n2, c, r, rfl, rfl, hne, by rw [h]; simp⟩)
        · exact .inr (.inr ⟨c', n2, rfl, by rw [h]; simp⟩)
      · exact .inr (.inl ⟨[], x, name, y, rest, rfl, rfl, hxy, by simp [parseTerminalLoop, hxy]⟩)

/-! ### concatenation of forests -/

/-- Concatenation. -/
def Forest.append : Forest → Forest → Forest
  | .nil, g => g
  | .leaf e r, g => .leaf e (Forest.append r g)
  | .node A p k r, g => .node A p k (Forest.append r g)

theorem Forest.size_append (f g : Forest) : (Forest.append f g).size = f.size + g.size := by
  induction f with
  | nil => simp [Forest.append, Forest.size]
  | leaf e r ih => simp [Forest.append, Forest.size, ih]; omega
  | node A p k r _ ih => simp [Forest.append, Forest.size, ih]; omega

theorem histOf_forest_append (pd : ParserData I) (par : Option Nat) (f g : Forest) (n : Nat) :
    histOf pd par n (Forest.append f g) = histOf pd par n f ++ histOf pd par (n + f.size) g := by
  induction f generalizing n with
  | nil => simp [Forest.append, histOf, Forest.size]
  | leaf e r ih => simp [Forest.append, histOf, Forest.size, ih, Nat.add_assoc]
  | node A p k r _ ih => simp [Forest.append, histOf, Forest.size, ih, Nat.add_assoc]

theorem events_forest_append (pd : ParserData I) (f g : Forest) (n : Nat) :
    events pd n (Forest.append f g) = events pd n f ++ events pd (n + f.size) g := by
  induction f generalizing n with
  | nil => simp [Forest.append, events, Forest.size]
  | leaf e r ih => simp [Forest.append, events, Forest.size, ih, Nat.add_assoc]
  | node A p k r _ ih => simp [Forest.append, events, Forest.size, ih, Nat.add_assoc]

theorem _root_.HPP.Spec.IsForest.append {pd : ParserData I} {els els2 : List Nat} {f g : Forest} {s s2 : Str}
    (h : IsForest pd els f s) (h2 : IsForest pd els2 g s2) :
    IsForest pd (els ++ els2) (Forest.append f g) (s ++ s2) := by
  induction h with
  | nil => exact h2
  | leaf a b _ ih => rw [List.append_assoc]; exact .leaf a b ih
  | node a b c hk _ _ ih => rw [List.append_assoc]; exact .node a b c hk ih

theorem _root_.HPP.Spec.Runs.append {vm : VM I S} {pd : ParserData I} {e1 e2 : List Event} {s s1 s2 : S}
    (h : Runs vm pd e1 s s1) (h2 : Runs vm pd e2 s1 s2) : Runs vm pd (e1 ++ e2) s s2 := by
  induction h with
  | nil => exact h2
  | cons a b _ ih => exact .cons a b (ih h2)

/-- What the parser prints as expected is the list of lookaheads. -/
theorem expectedText_eq (L : List SetMember) : expectedText L = joinSemi (L.map SetMember.toStr) := by
  have ht : ∀ m : SetMember, m.toStr = lookaheadText m := by intro m; cases m <;> rfl
  have h0 : ∀ L : List SetMember, L.map SetMember.toStr = L.map lookaheadText := fun L => List.map_congr_left fun m _ => ht m
  rw [h0, expectedText]
  induction L.map lookaheadText with
  | nil => rfl
  | cons x l ih =>
    cases l with
    | nil => simp [joinSemi, List.intercalate]
    | cons y l =>
      rw [joinSemi, ← ih]
      · simp [List.intercalate]
      · simp

theorem executes_iff (vm : VM I S) (id : NodeId) (is : List I) : ∀ (x y : Tree Str × S),
    Executes vm id is x y ↔ runInstructions vm id is x.1 x.2 = some y := by
  induction is with
  | nil =>
    intro x y
    constructor
    · intro h; cases h; rfl
    · intro h
      have : x = y := Option.some.inj h
      subst this
      exact .nil
  | cons i is ih =>
    intro x z
    simp only [runInstructions]
    constructor
    · intro h
      cases h with
      | @cons _ _ _ y _ h1 h2 =>
        rw [h1]
        exact (ih _ _).1 h2
    · intro h
      cases hx : vm.execute x.1 id i x.2 with
      | none => rw [hx] at h; cases h
      | some y =>
        rw [hx] at h
        exact .cons hx ((ih y z).2 h)

theorem execPanics_iff (vm : VM I S) (id : NodeId) (is : List I) : ∀ (x : Tree Str × S),
    ExecPanics vm id is x ↔ runInstructions vm id is x.1 x.2 = none := by
  induction is with
  | nil =>
    intro x
    constructor
    · rintro ⟨is1, i, is2, y, h, -⟩; cases is1 <;> cases h
    · intro h; cases h
  | cons j js ih =>
    intro x
    simp only [runInstructions]
    constructor
    · rintro ⟨is1, i, is2, y, h, h1, h2⟩
      cases is1 with
      | nil =>
        cases h1
        simp only [List.nil_append, List.cons.injEq] at h
        obtain ⟨rfl, rfl⟩ := h
        rw [h2]
      | cons i1 is1 =>
        simp only [List.cons_append, List.cons.injEq] at h
        obtain ⟨rfl, rfl⟩ := h
        cases h1 with
        | @cons _ _ _ z _ h1 h3 =>
          rw [h1]
          exact (ih z).1 ⟨is1, i, is2, y, rfl, h3, h2⟩
    · intro h
      cases hx : vm.execute x.1 id j x.2 with
      | none => exact ⟨[], j, js, x, rfl, .nil, hx⟩
      | some y =>
        rw [hx] at h
        obtain ⟨is1, i, is2, z, h0, h1, h2⟩ := (ih y).2 h
        exact ⟨j :: is1, i, is2, z, by rw [h0]; rfl, .cons hx h1, h2⟩

theorem runInstructions_tree {vm : VM I S} (htp : TreePreserving vm) (id : NodeId) (is : List I) :
    ∀ {t t' : Tree Str} {s s' : S}, runInstructions vm id is t s = some (t', s') → t' = t := by
  induction is with
  | nil => intro t t' s s' h; simp [runInstructions] at h; exact h.1.symm
  | cons i is ih =>
    intro t t' s s' h
    simp only [runInstructions] at h
    split at h
    · cases h
    · next t1 s1 he =>
      have := htp _ _ _ _ _ _ he
      subst this
      exact ih h

theorem runInstructions_total {vm : VM I S} (ht : Total vm) (id : NodeId) (is : List I) :
    ∀ {t : Tree Str} {s : S}, runInstructions vm id is t s ≠ none := by
  induction is with
  | nil => intro t s h; simp [runInstructions] at h
  | cons i is ih =>
    intro t s h
    simp only [runInstructions] at h
    split at h
    · next he => exact ht _ _ _ _ he
    · exact ih h

theorem TRep.addNode_par {T : Type} {t : Tree T} {h : Hist T} (hr : TRep t h) (d : T) {parent : Option NodeId}
    {par : Option Nat} (hp : parent = par.map fun q => ⟨q, q⟩) (hq : ∀ q, par = some q → q < h.length) :
    ∃ t', t.addNode d parent = (.ok ⟨h.length, h.length⟩, t') ∧ TRep t' (h ++ [(par, d)]) := by
  subst hp
  cases par with
  | none => exact hr.addNode_root d
  | some q => exact hr.addNode_child d (hq q rfl)

/-! ### the invariant -/

/-- The form `t` is compatible with the unread text `rest` in its first symbol. -/
def Cont (rest : Str) (t : Form) : Prop := Headed True t ∧ look t = SetMember.ofPeek rest.head?

theorem Cont.text_append {rest : Str} {t : Form} (h : Cont rest t) (s : Str) :
    Cont (s ++ rest) (ofText s ++ t) := by
  cases s with
  | nil => exact h
  | cons c s => exact ⟨h.1.text_append _, rfl⟩

/-- A tree error. -/
def IsTreeErr : PErr → Prop
  | .tree _ => True
  | _ => False

/-- What an error says about the position and the symbol at which the parse stopped. -/
def ErrShape (ho : HashOrder) (pd : ParserData I) (P : Parser I) (pre rest : Str) (v : Form) : PErr → Prop
  | .unexpectedChar c pos exp => pos = pre.length ∧
      ((∃ c' v', exp = [c'] ∧ rest.head? = some c ∧ c ≠ c' ∧ v = .ch c' :: v') ∨
       (∃ B R v', v = .nt B :: v' ∧ AMap.get P.rules B = some R ∧ c = rest.head?.getD '#' ∧
          AMap.get R.steuermap (SetMember.ofPeek rest.head?) = none ∧
          exp = joinSemi ((ho.iter 9 SetMember (AMap.keys R.steuermap)).map SetMember.toStr)))
  | .endOfChars pos => pos = pre.length ∧ rest = [] ∧ ∃ c' v', v = .ch c' :: v'
  | .gram (.missingProduction B) => AMap.get pd.rules B = none ∧ ∃ v', v = .nt B :: v'
  | .tree _ => True
  | _ => False

theorem ErrShape.append {ho : HashOrder} {pd : ParserData I} {P : Parser I} {pre rest : Str} {v : Form}
    {e : PErr} (h : ErrShape ho pd P pre rest v e) (w : Form) : ErrShape ho pd P pre rest (v ++ w) e := by
  cases e with
  | unexpectedChar c pos exp =>
    obtain ⟨h1, ⟨c', v', h2, h3, h4, rfl⟩ | ⟨B, R, v', rfl, h2⟩⟩ := h
    · exact ⟨h1, .inl ⟨c', v' ++ w, h2, h3, h4, rfl⟩⟩
    · exact ⟨h1, .inr ⟨B, R, v' ++ w, rfl, h2⟩⟩
  | endOfChars pos =>
    obtain ⟨h1, h2, c', v', rfl⟩ := h
    exact ⟨h1, h2, c', v' ++ w, rfl⟩
  | gram g =>
    cases g <;> try exact h
    obtain ⟨h1, v', rfl⟩ := h
    exact ⟨h1, v' ++ w, rfl⟩
  | _ => exact h

/-- The parent id used by the code denotes a node of the history. -/
def ParOk (h : Hist Str) (parent : Option NodeId) (par : Option Nat) : Prop :=
  parent = (par.map fun q => ⟨q, q⟩) ∧ ∀ q, par = some q → q < h.length

/-- The result `out` of parsing the elements `els` under `parent`, having read `pre` and with `rest` to
come. -/
def Good (ho : HashOrder) (vm : VM I S) (pd : ParserData I) (start : Nat) (P : Parser I) (els : List Nat)
    (parent : Option NodeId) (pre rest : Str) (c : Ctx S) (out : Res PErr Unit × Ctx S) : Prop :=
  ∃ s rest', rest = s ++ rest' ∧ out.2.proc = procAt (pre ++ s) rest' ∧
  match out.1 with
  | .ok _ => ∃ f, IsForest pd els f s ∧
      (∀ u K t2, Derives (grammarOf pd) [.nt start] (u ++ (formOf pd els ++ K)) → Cont rest' t2 →
        Derives (grammarOf pd) (formOf pd els ++ K) (ofText s ++ t2) → Derives (grammarOf pd) K t2) ∧
      (TreePreserving vm → ∀ h par, TRep c.tree h → ParOk h parent par →
        TRep out.2.tree (h ++ histOf pd par h.length f) ∧
        Runs vm pd (events pd h.length f) c.state out.2.state)
  | .err e => ∃ v, Derives (grammarOf pd) (formOf pd els) (ofText s ++ v) ∧
      ErrShape ho pd P (pre ++ s) rest' v e ∧
      (¬ IsTreeErr e → ∀ u K t2, Derives (grammarOf pd) [.nt start] (u ++ (formOf pd els ++ K)) →
        Cont rest' t2 → ¬ Derives (grammarOf pd) (formOf pd els ++ K) (ofText s ++ t2)) ∧
      (TreePreserving vm → ∀ h par, TRep c.tree h → ParOk h parent par → ¬ IsTreeErr e)
  | .panic => (∃ v, Derives (grammarOf pd) (formOf pd els) (ofText s ++ v)) ∧
      (TreePreserving vm → Total vm → ∀ h par, TRep c.tree h → ¬ ParOk h parent par)
  | .timeout => ∃ v, Derives (grammarOf pd) (formOf pd els) (ofText s ++ v)

section
variable {ho : HashOrder} {vm : VM I S} {pd : ParserData I} {start : Nat} {P : Parser I}
  {els els1 els2 : List Nat} {parent : Option NodeId} {pre rest : Str} {c c1 : Ctx S}
  {out : Res PErr Unit × Ctx S}

/-- Nothing to parse. -/
theorem Good.done (hc : c.proc = procAt pre rest) : Good ho vm pd start P [] parent pre rest c (.ok (), c) := by
  refine ⟨[], rest, rfl, by simpa using hc, .nil, .nil, ?_, ?_⟩
  · intro u K t2 _ _ h; simpa [ofText] using h
  · intro _ h par hr _
    exact ⟨by simpa [histOf] using hr, .nil⟩

/-- A failure of the first part is a failure of the whole. -/
theorem Good.fail (h : Good ho vm pd start P els1 parent pre rest c out) (hne : ∀ a, out.1 ≠ .ok a) :
    Good ho vm pd start P (els1 ++ els2) parent pre rest c out := by
  obtain ⟨s, rest', h1, h2, h3⟩ := h
  refine ⟨s, rest', h1, h2, ?_⟩
  obtain ⟨r, c'⟩ := out
  cases r with
  | ok a => exact absurd rfl (hne a)
  | err e =>
    simp only at h3 ⊢
    obtain ⟨v, g1, g2, g3, g4⟩ := h3
    refine ⟨v ++ formOf pd els2, ?_, g2.append _, ?_, g4⟩
    · have := Derives.append_right (formOf pd els2) g1
      simpa using this
    · intro hnt u K t2 hc hK hd
      refine g3 hnt u (formOf pd els2 ++ K) t2 (by simpa using hc) hK (by simpa using hd)
  | panic =>
    simp only at h3 ⊢
    obtain ⟨⟨v, g1⟩, g2⟩ := h3
    refine ⟨⟨v ++ formOf pd els2, ?_⟩, g2⟩
    have := Derives.append_right (formOf pd els2) g1
    simpa using this
  | timeout =>
    simp only at h3 ⊢
    obtain ⟨v, g1⟩ := h3
    refine ⟨v ++ formOf pd els2, ?_⟩
    have := Derives.append_right (formOf pd els2) g1
    simpa using this

/-- Success of the first part followed by the rest. -/
theorem Good.seq (h : Good ho vm pd start P els1 parent pre rest c (.ok (), c1))
    (h2 : ∀ pre' rest', c1.proc = procAt pre' rest' →
      Good ho vm pd start P els2 parent pre' rest' c1 out) :
    Good ho vm pd start P (els1 ++ els2) parent pre rest c out := by
  obtain ⟨s, rest1, rfl, hp, f, hf, hdet, htree⟩ := h
  obtain ⟨s2, rest2, rfl, hp2, h3⟩ := h2 _ _ hp
  have hd1 := hf.derives
  refine ⟨s ++ s2, rest2, by simp, by simpa using hp2, ?_⟩
  -- the context of the second part
  have hctx : ∀ u K, Derives (grammarOf pd) [.nt start] (u ++ (formOf pd (els1 ++ els2) ++ K)) →
      Derives (grammarOf pd) [.nt start] ((u ++ ofText s) ++ (formOf pd els2 ++ K)) := by
    intro u K hc
    refine hc.trans ?_
    have := Derives.append_left u (Derives.append_right (formOf pd els2 ++ K) hd1)
    simpa using this
  have hpar : ∀ h par g, ParOk h parent par → ParOk (h ++ g) parent par := by
    rintro h par g ⟨a, b⟩
    exact ⟨a, fun q hq => by have := b q hq; simp; omega⟩
  obtain ⟨r, c'⟩ := out
  cases r with
  | ok a =>
    simp only at h3 ⊢
    obtain ⟨f2, hf2, hdet2, htree2⟩ := h3
    refine ⟨_, hf.append hf2, ?_, ?_⟩
    · intro u K t2 hc hK hd
      refine hdet2 _ K t2 (hctx u K hc) hK ?_
      refine hdet u (formOf pd els2 ++ K) (ofText s2 ++ t2) (by simpa using hc) (hK.text_append s2) ?_
      simpa [ofText_append] using hd
    · intro htp h par hr hpo
      obtain ⟨hr1, hruns1⟩ := htree htp h par hr hpo
      obtain ⟨hr2, hruns2⟩ := htree2 htp _ par hr1 (hpar _ _ _ hpo)
      simp only [List.length_append, histOf_length] at hr2 hruns2
      refine ⟨?_, ?_⟩
      · rw [histOf_forest_append, ← List.append_assoc]; exact hr2
      · rw [events_forest_append]; exact hruns1.append hruns2
  | err e =>
    simp only at h3 ⊢
    obtain ⟨v, g1, g2, g3, g4⟩ := h3
    refine ⟨v, ?_, by simpa using g2, ?_, ?_⟩
    · have := hd1.append g1
      simpa [ofText_append] using this
    · intro hnt u K t2 hc hK hd
      refine g3 hnt _ K t2 (hctx u K hc) hK ?_
      refine hdet u (formOf pd els2 ++ K) (ofText s2 ++ t2) (by simpa using hc) (hK.text_append s2) ?_
      simpa [ofText_append] using hd
    · intro htp h par hr hpo
      obtain ⟨hr1, -⟩ := htree htp h par hr hpo
      exact g4 htp _ par hr1 (hpar _ _ _ hpo)
  | panic =>
    simp only at h3 ⊢
    obtain ⟨⟨v, g1⟩, g2⟩ := h3
    refine ⟨⟨v, ?_⟩, ?_⟩
    · have := hd1.append g1
      simpa [ofText_append] using this
    · intro htp htot h par hr hpo
      obtain ⟨hr1, -⟩ := htree htp h par hr hpo
      exact g2 htp htot _ par hr1 (hpar _ _ _ hpo)
  | timeout =>
    simp only at h3 ⊢
    obtain ⟨v, g1⟩ := h3
    refine ⟨v, ?_⟩
    have := hd1.append g1
    simpa [ofText_append] using this

/-! ### terminals -/

/-- Parsing one terminal element and storing it. -/
def termStep (name : Str) (id : NodeId) : SM (Ctx S) PErr Unit := do
  let s ← onProc (parseScriptTerminal name)
  addTreeNodeIgnore s (some id)

theorem parseElements_cons_terminal {rec : Nat → Option NodeId → SM (Ctx S) PErr Unit} {id : NodeId} {e : Nat}
    {es : List Nat} {name : Str} (h : P.elements[e]? = some ⟨name, .terminal⟩) :
    parseElements P rec id (e :: es) c =
      (termStep name id >>= fun _ => parseElements P rec id es) c := by
  simp only [parseElements, h, SM.bind_apply, SM.lift_apply, Res.unwrapO_some, termStep]
  rcases onProc (parseScriptTerminal name) c with ⟨r, c'⟩
  cases r <;> rfl

theorem parseElements_cons_nonTerminal {rec : Nat → Option NodeId → SM (Ctx S) PErr Unit} {id : NodeId}
    {e : Nat} {es : List Nat} {name : Str} (h : P.elements[e]? = some ⟨name, .nonTerminal⟩) :
    parseElements P rec id (e :: es) c =
      (rec e (some id) >>= fun _ => parseElements P rec id es) c := by
  simp only [parseElements, h, SM.bind_apply, SM.lift_apply, Res.unwrapO_some]

theorem ofText_cons (c : Char) (s : Str) : ofText (c :: s) = .ch c :: ofText s := rfl

theorem derives_text_append {G : Grammar} {s : Str} {K t : Form} (h : Derives G (ofText s ++ K) t) :
    ∃ t', t = ofText s ++ t' ∧ Derives G K t' := by
  obtain ⟨a, b, rfl, h1, h2⟩ := h.append_inv
  rw [Derives.ofText_inv h1]
  exact ⟨b, rfl, h2⟩

theorem Good.terminal {e : Nat} {d : ElementData} (hT : pd.elementTypes[e]? = some .terminal)
    (hD : pd.elementData[e]? = some d) (hc : c.proc = procAt pre rest) (id : NodeId) :
    Good ho vm pd start P [e] (some id) pre rest c (termStep d.name id c) := by
  have hform : formOf pd [e] = ofText d.name := by simp [elemForm_terminal hT hD]
  have hrun : termStep d.name id c =
      match parseTerminalLoop d.name (procAt pre rest) with
      | (.ok (), p) => addTreeNodeIgnore d.name (some id) { c with proc := p }
      | (.err e, p) => (.err e, { c with proc := p })
      | (.panic, p) => (.panic, { c with proc := p })
      | (.timeout, p) => (.timeout, { c with proc := p }) := by
    simp only [termStep, SM.bind_apply, onProc, parseScriptTerminal, hc, SM.pure_apply]
    rcases parseTerminalLoop d.name (procAt pre rest) with ⟨r, p⟩
    cases r <;> rfl
  rcases parseTerminalLoop_spec d.name pre rest with ⟨r, rfl, h⟩ | ⟨s, c', n2, x, r, hn, rfl, hne, h⟩ | ⟨c', n2, hn, h⟩
  · rw [hrun, h]
    simp only [addTreeNodeIgnore]
    have hdet : ∀ u K t2, Derives (grammarOf pd) [.nt start] (u ++ (formOf pd [e] ++ K)) → Cont r t2 →
        Derives (grammarOf pd) (formOf pd [e] ++ K) (ofText d.name ++ t2) → Derives (grammarOf pd) K t2 := by
      intro u K t2 _ _ hd
      rw [hform] at hd
      obtain ⟨t', he, hd'⟩ := derives_text_append hd
      rw [List.append_cancel_left he]; exact hd'
    have hfor : IsForest pd [e] (.leaf e .nil) d.name := by
      have := IsForest.leaf hT hD (IsForest.nil (pd := pd))
      simpa using this
    have htree : ∀ h par, TRep c.tree h → ParOk h (some id) par → ∃ t',
        c.tree.addNode d.name (some id) = (.ok ⟨h.length, h.length⟩, t') ∧
        TRep t' (h ++ histOf pd par h.length (.leaf e .nil)) := by
      intro h par hr hpo
      obtain ⟨t', h1, h2⟩ := hr.addNode_par d.name hpo.1 hpo.2
      exact ⟨t', h1, by simpa [histOf, nameOf, hD] using h2⟩
    rcases hadd : c.tree.addNode d.name (some id) with ⟨ra, t⟩
    refine ⟨d.name, r, rfl, rfl, ?_⟩
    cases ra with
    | ok i =>
      simp only
      refine ⟨_, hfor, hdet, fun htp h par hr hpo => ?_⟩
      obtain ⟨t', h1, h2⟩ := htree h par hr hpo
      rw [hadd] at h1; cases h1
      exact ⟨h2, .nil⟩
    | err er =>
      simp only
      refine ⟨_, hfor, hdet, fun htp h par hr hpo => ?_⟩
      obtain ⟨t', h1, h2⟩ := htree h par hr hpo
      rw [hadd] at h1; cases h1
    | panic =>
      simp only
      refine ⟨⟨[], by rw [hform, List.append_nil]⟩, fun htp _ h par hr hpo => ?_⟩
      obtain ⟨t', h1, h2⟩ := htree h par hr hpo
      rw [hadd] at h1; cases h1
    | timeout =>
      simp only
      exact ⟨[], by rw [hform, List.append_nil]⟩
  · rw [hrun, h]
    refine ⟨s, x :: r, rfl, rfl, ?_⟩
    simp only
    refine ⟨.ch c' :: ofText n2, ?_, ⟨rfl, .inl ⟨c', _, rfl, rfl, hne, rfl⟩⟩, ?_, ?_⟩
    · rw [hform, hn, ofText_append]; exact .refl
    · intro _ u K t2 _ hK hd
      rw [hform, hn, ofText_append, ofText_cons] at hd
      obtain ⟨t', he, hd'⟩ := derives_text_append (s := s) (by simpa using hd)
      have he := List.append_cancel_left he
      obtain ⟨t'', he', -⟩ := derives_text_append (s := c' :: n2) (K := K) hd'
      rw [he, he'] at hK
      have := hK.2
      simp only [ofText_cons, List.cons_append, look, List.head?_cons, SetMember.ofPeek,
        SetMember.char.injEq] at this
      exact hne this.symm
    · intro _ _ _ _ _ hf; exact hf
  · rw [hrun, h]
    refine ⟨rest, [], by simp, rfl, ?_⟩
    simp only
    refine ⟨.ch c' :: ofText n2, ?_, ⟨rfl, rfl, c', _, rfl⟩, ?_, ?_⟩
    · rw [hform, hn, ofText_append]; exact .refl
    · intro _ u K t2 _ hK hd
      rw [hform, hn, ofText_append, ofText_cons] at hd
      obtain ⟨t', he, hd'⟩ := derives_text_append (s := rest) (by simpa using hd)
      have he := List.append_cancel_left he
      obtain ⟨t'', he', -⟩ := derives_text_append (s := c' :: n2) (K := K) hd'
      rw [he, he'] at hK
      have := hK.2
      simp [ofText_cons, look, SetMember.ofPeek] at this
    · intro _ _ _ _ _ hf; exact hf

/-! ### element lists -/

/-- What the recursive call guarantees. -/
def RecGood (ho : HashOrder) (vm : VM I S) (pd : ParserData I) (start : Nat) (P : Parser I)
    (rec : Nat → Option NodeId → SM (Ctx S) PErr Unit) : Prop :=
  ∀ e parent pre rest c, pd.elementTypes[e]? = some .nonTerminal → c.proc = procAt pre rest →
    Good ho vm pd start P [e] parent pre rest c (rec e parent c)

theorem elements_get (he : ElementsOk pd P.elements) {e : Nat} {et : ElementType} {d : ElementData}
    (h1 : pd.elementTypes[e]? = some et) (h2 : pd.elementData[e]? = some d) :
    P.elements[e]? = some ⟨d.name, et⟩ := by
  rw [he.2]; simp [ParserData.getElementVerbose, h1, h2]

theorem Good.elements {rec : Nat → Option NodeId → SM (Ctx S) PErr Unit} (hw : WellFormed pd)
    (hel : ElementsOk pd P.elements) (hrec : RecGood ho vm pd start P rec) (id : NodeId) (els : List Nat) :
    (∀ e ∈ els, e < pd.elementTypes.length) → ∀ (pre rest : Str) (c : Ctx S), c.proc = procAt pre rest →
      Good ho vm pd start P els (some id) pre rest c (parseElements P rec id els c) := by
  induction els with
  | nil => intro _ pre rest c hc; exact Good.done hc
  | cons e es ih =>
    intro hr pre rest c hc
    have hlt := hr e (by simp)
    have hT := List.getElem?_eq_getElem hlt
    have hD := List.getElem?_eq_getElem (hw.lengths ▸ hlt)
    have ih := ih (fun x hx => hr x (by simp [hx]))
    -- one element, then the rest
    have key : ∀ (step : SM (Ctx S) PErr Unit), Good ho vm pd start P [e] (some id) pre rest c (step c) →
        Good ho vm pd start P (e :: es) (some id) pre rest c ((step >>= fun _ => parseElements P rec id es) c) := by
      intro step hg
      rw [SM.bind_apply]
      rcases hs : step c with ⟨r, c1⟩
      rw [hs] at hg
      cases r with
      | ok a => exact Good.seq (els1 := [e]) hg (fun pre' rest' hc' => ih pre' rest' c1 hc')
      | err x => exact Good.fail (els1 := [e]) hg (by simp)
      | panic => exact Good.fail (els1 := [e]) hg (by simp)
      | timeout => exact Good.fail (els1 := [e]) hg (by simp)
    cases htt : pd.elementTypes[e] with
    | terminal =>
      rw [htt] at hT
      rw [parseElements_cons_terminal (elements_get hel hT hD)]
      exact key _ (Good.terminal hT hD hc id)
    | nonTerminal =>
      rw [htt] at hT
      rw [parseElements_cons_nonTerminal (elements_get hel hT hD)]
      exact key _ (hrec e (some id) pre rest c hT hc)

/-! ### productions -/

/-- If what is derived from `A` and its continuation is compatible with the unread text, then some alternative
of `A` whose control set contains the lookahead leads to it. -/
theorem chosen_of_derives (hw : WellFormed pd) (hne : NoLeadingEmptyTerminal pd) {A : Nat} {u K t : Form}
    (hc : Derives (grammarOf pd) [.nt start] (u ++ .nt A :: K)) (hK : Cont rest t)
    (hd : Derives (grammarOf pd) (.nt A :: K) t) :
    ∃ r p, AMap.get pd.rules A = some r ∧ p ∈ r.prods ∧
      Control pd start A p (SetMember.ofPeek rest.head?) ∧
      Derives (grammarOf pd) (formOf pd (prodElems p) ++ K) t := by
  obtain ⟨x, y, rfl, h1, h2⟩ := Derives.append_inv (u := [.nt A]) hd
  have hhd : Headed (start = start) (x ++ y) := by
    rcases hK.1 with ⟨h, -⟩ | h
    · exact .inl ⟨h, rfl⟩
    · exact .inr h
  rcases Derives.nt_inv h1 with rfl | ⟨w, ⟨r, hr, p, hp, rfl⟩, hw'⟩
  · rcases hK.1 with ⟨h, -⟩ | ⟨c, w, h⟩ <;> simp at h
  · refine ⟨r, p, hr, hp, ?_, hw'.append h2⟩
    have := predict_of_context (start := start) (B0 := start) hc hw' h2 hhd
    rw [hK.2] at this
    exact predict_control hw hne hr hp this

theorem MapsOk.none_iff (hm : MapsOk pd start P.rules) {A : Nat} :
    AMap.get P.rules A = none ↔ AMap.get pd.rules A = none := by
  have := hm A
  cases h : AMap.get pd.rules A with
  | none => rw [h] at this; simp [this]
  | some r => rw [h] at this; obtain ⟨R, hR, -⟩ := this; simp [hR]

/-- `parse_production` step by step. -/
theorem parseProduction_succ (fuel el : Nat) (hc : c.proc = procAt pre rest) :
    parseProduction ho vm P (fuel + 1) el parent c =
      match AMap.get P.rules el with
      | none => (.err (.gram (.missingProduction el)), c)
      | some R =>
        match AMap.get R.steuermap (SetMember.ofPeek rest.head?) with
        | none => (.err (.unexpectedChar (rest.head?.getD '#') pre.length
            (joinSemi ((ho.iter 9 SetMember (AMap.keys R.steuermap)).map SetMember.toStr))), c)
        | some p =>
          match c.tree.addNode [] parent with
          | (.ok id, t) =>
            (parseElements P (parseProduction ho vm P fuel) id (prodElems p) >>= fun _ =>
              runInstructionsM vm id R.instr) { c with tree := t }
          | (.err e, t) => (.err (.tree e), { c with tree := t })
          | (.panic, t) => (.panic, { c with tree := t })
          | (.timeout, t) => (.timeout, { c with tree := t }) := by
  have hcc : ({ c with proc := procAt pre rest } : Ctx S) = c := by rw [← hc]
  simp only [parseProduction, SM.bind_apply, onProc, hc, peek_procAt, hcc, SM.lift_apply]
  cases hR : AMap.get P.rules el with
  | none => simp [Res.ofOption]
  | some R =>
    simp only [Res.ofOption, getFittingProduction, hR, hc]
    cases hp : AMap.get R.steuermap (SetMember.ofPeek rest.head?) with
    | none => simp [hcc]
    | some p =>
      simp only [addTreeNode]
      rcases c.tree.addNode [] parent with ⟨ra, t⟩
      cases ra with
      | ok id =>
        simp only [Res.mapErr]
        cases p with
        | empty => simp [prodElems, parseElements]
        | notEmpty els => simp [prodElems]
      | err e => rfl
      | panic => rfl
      | timeout => rfl

theorem Good.production (hw : WellFormed pd) (ha : Acceptable pd start) (hP : ParserFor pd start P)
    (fuel : Nat) : RecGood ho vm pd start P (parseProduction ho vm P fuel) := by
  induction fuel with
  | zero =>
    intro e parent pre rest c hT hc
    exact ⟨[], rest, rfl, by simpa [parseProduction] using hc, formOf pd [e], .refl⟩
  | succ fuel ih =>
    intro A parent pre rest c hT hc
    have hform : formOf pd [A] = [.nt A] := by simp [elemForm_nonTerminal hT]
    rw [parseProduction_succ fuel A hc]
    have hmA := hP.rules A
    cases hr : AMap.get pd.rules A with
    | none =>
      rw [hr] at hmA
      rw [hmA]
      refine ⟨[], rest, rfl, by simpa using hc, [.nt A], ?_, ⟨hr, [], rfl⟩, ?_, ?_⟩
      · rw [hform]; exact .refl
      · intro _ u K t2 hcx hK hd
        rw [hform] at hcx hd
        obtain ⟨r, p, hr', -⟩ := chosen_of_derives hw ha.noEmptyTerminal hcx hK (by simpa [ofText] using hd)
        rw [hr] at hr'; cases hr'
      · intro _ _ _ _ _ h; exact h
    | some r =>
      rw [hr] at hmA
      obtain ⟨R, hR, hinstr, -, hmap⟩ := hmA
      rw [hR]
      simp only
      cases hp : AMap.get R.steuermap (SetMember.ofPeek rest.head?) with
      | none =>
        refine ⟨[], rest, rfl, by simpa using hc, [.nt A], ?_,
          ⟨by simp, .inr ⟨A, R, [], rfl, hR, rfl, hp, rfl⟩⟩, ?_, ?_⟩
        · rw [hform]; exact .refl
        · intro _ u K t2 hcx hK hd
          rw [hform] at hcx hd
          obtain ⟨r', p, hr', hpm, hctl, -⟩ := chosen_of_derives hw ha.noEmptyTerminal hcx hK
            (by simpa [ofText] using hd)
          rw [hr] at hr'; cases hr'
          have := (hmap _ _).mpr ⟨hpm, hctl⟩
          rw [hp] at this; cases this
        · intro _ _ _ _ _ h; exact h
      | some p =>
        obtain ⟨hpm, hctl⟩ := (hmap _ _).mp hp
        have hG : grammarOf pd A (formOf pd (prodElems p)) := ⟨r, hr, p, hpm, rfl⟩
        simp only
        have htree : ∀ h par, TRep c.tree h → ParOk h parent par → ∃ t',
            c.tree.addNode [] parent = (.ok ⟨h.length, h.length⟩, t') ∧ TRep t' (h ++ [(par, [])]) :=
          fun h par hr' hpo => hr'.addNode_par [] hpo.1 hpo.2
        rcases hadd : c.tree.addNode [] parent with ⟨ra, t⟩
        cases ra with
        | err e =>
          refine ⟨[], rest, rfl, by simpa using hc, [.nt A], ?_, trivial, ?_, ?_⟩
          · rw [hform]; exact .refl
          · intro h; exact absurd trivial h
          · intro _ h par hr' hpo
            obtain ⟨t', h1, -⟩ := htree h par hr' hpo
            rw [hadd] at h1; cases h1
        | panic =>
          refine ⟨[], rest, rfl, by simpa using hc, ⟨[.nt A], ?_⟩, ?_⟩
          · rw [hform]; exact .refl
          · intro _ _ h par hr' hpo
            obtain ⟨t', h1, -⟩ := htree h par hr' hpo
            rw [hadd] at h1; cases h1
        | timeout =>
          refine ⟨[], rest, rfl, by simpa using hc, [.nt A], ?_⟩
          rw [hform]; exact .refl
        | ok id =>
          simp only
          -- the deterministic choice
          have hchoice : ∀ u K t2 s rest', rest = s ++ rest' →
              Derives (grammarOf pd) [.nt start] (u ++ (formOf pd [A] ++ K)) → Cont rest' t2 →
              Derives (grammarOf pd) (formOf pd [A] ++ K) (ofText s ++ t2) →
              Derives (grammarOf pd) [.nt start] (u ++ (formOf pd (prodElems p) ++ K)) ∧
              Derives (grammarOf pd) (formOf pd (prodElems p) ++ K) (ofText s ++ t2) := by
            intro u K t2 s rest' hs hcx hK hd
            rw [hform] at hcx hd
            subst hs
            obtain ⟨r', q, hr', hq, hctl', hd'⟩ := chosen_of_derives hw ha.noEmptyTerminal hcx
              (hK.text_append s) hd
            rw [hr] at hr'; cases hr'
            have := control_unique ha.disjoint hr hpm hq hctl hctl'
            subst this
            exact ⟨hcx.trans (Derives.append_left u ((Derives.of_rule hG).append_right K)), hd'⟩
          have hinner := Good.elements (c := { c with tree := t }) hw hP.elements ih id (prodElems p)
            (hw.inRange A r hr p hpm) pre rest hc
          rw [SM.bind_apply]
          rcases hel : parseElements P (parseProduction ho vm P fuel) id (prodElems p) { c with tree := t } with ⟨r1, c1⟩
          rw [hel] at hinner
          obtain ⟨s, rest', hs, hproc, hin⟩ := hinner
          have hpo' : ∀ h par, TRep c.tree h → ParOk h parent par →
              TRep t (h ++ [(par, [])]) ∧ id = ⟨h.length, h.length⟩ ∧
              ParOk (h ++ [(par, [])]) (some id) (some h.length) := by
            intro h par hr' hpo
            obtain ⟨t', h1, h2⟩ := htree h par hr' hpo
            rw [hadd] at h1; cases h1
            exact ⟨h2, rfl, rfl, fun q hq => by simp at hq; simp; omega⟩
          have hstep : ∀ v, Derives (grammarOf pd) (formOf pd (prodElems p)) v →
              Derives (grammarOf pd) (formOf pd [A]) v := by
            intro v hv
            rw [hform]; exact (Derives.of_rule hG).trans hv
          cases r1 with
          | err e =>
            simp only at hin ⊢
            obtain ⟨v, g1, g2, g3, g4⟩ := hin
            refine ⟨s, rest', hs, hproc, v, hstep _ g1, g2, ?_, ?_⟩
            · intro hnt u K t2 hcx hK hd
              obtain ⟨h1, h2⟩ := hchoice u K t2 s rest' hs hcx hK hd
              exact g3 hnt u K t2 h1 hK h2
            · intro htp h par hr' hpo
              obtain ⟨h1, h2, h3⟩ := hpo' h par hr' hpo
              exact g4 htp _ _ h1 h3
          | panic =>
            simp only at hin ⊢
            obtain ⟨⟨v, g1⟩, g2⟩ := hin
            refine ⟨s, rest', hs, hproc, ⟨v, hstep _ g1⟩, ?_⟩
            intro htp htot h par hr' hpo
            obtain ⟨h1, h2, h3⟩ := hpo' h par hr' hpo
            exact g2 htp htot _ _ h1 h3
          | timeout =>
            simp only at hin ⊢
            obtain ⟨v, g1⟩ := hin
            exact ⟨s, rest', hs, hproc, v, hstep _ g1⟩
          | ok a =>
            simp only at hin ⊢
            obtain ⟨f, hf, hdet, htr⟩ := hin
            simp only [runInstructionsM]
            cases hrun : runInstructions vm id R.instr c1.tree c1.state with
            | none =>
              refine ⟨s, rest', hs, hproc, ⟨[], hstep _ (by simpa using hf.derives)⟩, ?_⟩
              intro _ htot _ _ _ _
              exact runInstructions_total htot _ _ hrun
            | some ts =>
              obtain ⟨t2, s2⟩ := ts
              refine ⟨s, rest', hs, hproc, .node A p f .nil, ?_, ?_, ?_⟩
              · have := IsForest.node hT hr hpm hf (IsForest.nil (pd := pd))
                simpa using this
              · intro u K t2 hcx hK hd
                obtain ⟨h1, h2⟩ := hchoice u K t2 s rest' hs hcx hK hd
                exact hdet u K t2 h1 hK h2
              · intro htp h par hr' hpo
                obtain ⟨h1, h2, h3⟩ := hpo' h par hr' hpo
                obtain ⟨h4, h5⟩ := htr htp _ _ h1 h3
                have := runInstructions_tree htp _ _ hrun
                subst this
                have h4' : TRep c1.tree (h ++ histOf pd par h.length (.node A p f .nil)) := by
                  simpa [histOf] using h4
                refine ⟨h4', ?_⟩
                simp only [events]
                have hsh := h4'.shows_node hpo.2
                have h5' : Runs vm pd (events pd (h.length + 1) f) c.state c1.state := by simpa using h5
                refine h5'.append (.cons hsh ?_ .nil)
                rw [← h2]
                have : instrOf pd A = R.instr := by simp [instrOf, hr, hinstr]
                rw [this]; exact (executes_iff _ _ _ _ _).2 hrun

end
end HPP
