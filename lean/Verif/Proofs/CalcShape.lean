import Verif.Proofs.Calc
/-
The calculator grammar, its parse trees, and the machine steps they cause.
-/
namespace HPP
open Spec
variable {I S : Type}

/-- The non-terminals of the calculator grammar that scripts can reach. -/
inductive CalcNT where
  | start | terms | termsS | term | add | sub | print | number | numberS | numberT | digit | space
  deriving DecidableEq

/-- The terminals of the calculator grammar. -/
inductive CalcT where
  | plus | minus | print | blank | digit (d : Fin 10)
  deriving DecidableEq

/-- The text of a terminal. -/
def CalcT.text : CalcT → Str
  | .plus => c% "+"
  | .minus => c% "-"
  | .print => c% "print"
  | .blank => c% " "
  | .digit d => [figure d]

/-- The alternatives of the calculator grammar. -/
def calcAlts : CalcNT → List (List (CalcNT ⊕ CalcT))
  | .start => [[.inl .terms]]
  | .terms => [[.inl .term, .inl .termsS]]
  | .termsS => [[.inl .space, .inl .term, .inl .termsS], []]
  | .term => [[.inl .add], [.inl .sub], [.inl .number], [.inl .print]]
  | .add => [[.inr .plus]]
  | .sub => [[.inr .minus]]
  | .print => [[.inr .print]]
  | .number => [[.inl .digit, .inl .numberS]]
  | .numberS => [[.inl .numberT], []]
  | .numberT => [[.inl .digit, .inl .numberS]]
  | .digit => [[.inr (.digit 0)], [.inr (.digit 1)], [.inr (.digit 2)], [.inr (.digit 3)], [.inr (.digit 4)],
      [.inr (.digit 5)], [.inr (.digit 6)], [.inr (.digit 7)], [.inr (.digit 8)], [.inr (.digit 9)]]
  | .space => [[.inr .blank]]

/-- An alternative as the grammar data stores it. -/
def toProd : List Nat → Production
  | [] => .empty
  | x :: xs => .notEmpty (x :: xs)

theorem prodElems_toProd (l : List Nat) : prodElems (toProd l) = l := by cases l <;> rfl

/-- The grammar data contains the calculator grammar, the instructions of its rules being `ins`. -/
structure CalcShape (pd : ParserData I) (ins : CalcNT → List I) where
  nt : CalcNT → Nat
  tm : CalcT → Nat
  ntType : ∀ x, pd.elementTypes[nt x]? = some .nonTerminal
  tmType : ∀ x, pd.elementTypes[tm x]? = some .terminal
  tmName : ∀ x, ∃ d, pd.elementData[tm x]? = some d ∧ d.name = x.text
  rule : ∀ x, ∃ r, AMap.get pd.rules (nt x) = some r ∧ r.prods = (calcAlts x).map (fun a => toProd (a.map (Sum.elim nt tm))) ∧
    r.instr = ins x

namespace CalcShape
variable {pd : ParserData I} {ins : CalcNT → List I}

/-- The number of a symbol. -/
def ix (sh : CalcShape pd ins) : CalcNT ⊕ CalcT → Nat := Sum.elim sh.nt sh.tm

theorem mk_leaf (sh : CalcShape pd ins) (x : CalcT) {es : List Nat} {f : Forest} {s : Str} (h : IsForest pd es f s) :
    IsForest pd (sh.tm x :: es) (.leaf (sh.tm x) f) (x.text ++ s) := by
  obtain ⟨d, h1, h2⟩ := sh.tmName x
  rw [← h2]
  exact .leaf (sh.tmType x) h1 h

theorem mk_node (sh : CalcShape pd ins) (x : CalcNT) {a : List (CalcNT ⊕ CalcT)} (ha : a ∈ calcAlts x) {es : List Nat}
    {k f : Forest} {s1 s2 : Str} (h1 : IsForest pd (a.map sh.ix) k s1) (h2 : IsForest pd es f s2) :
    IsForest pd (sh.nt x :: es) (.node (sh.nt x) (toProd (a.map sh.ix)) k f) (s1 ++ s2) := by
  obtain ⟨r, g1, g2, -⟩ := sh.rule x
  refine .node (sh.ntType x) g1 ?_ (by rw [prodElems_toProd]; exact h1) h2
  rw [g2, List.mem_map]
  exact ⟨a, ha, rfl⟩

theorem inv_leaf (sh : CalcShape pd ins) {x : CalcT} {es : List Nat} {f : Forest} {s : Str}
    (h : IsForest pd (sh.tm x :: es) f s) :
    ∃ f' s', f = .leaf (sh.tm x) f' ∧ s = x.text ++ s' ∧ IsForest pd es f' s' := by
  generalize hw : sh.tm x :: es = w at h
  cases h with
  | nil => cases hw
  | @leaf e es' d f' s' h1 h2 h3 =>
    cases hw
    obtain ⟨d', g1, g2⟩ := sh.tmName x
    rw [g1] at h2; cases h2
    exact ⟨f', s', rfl, by rw [g2], h3⟩
  | @node A es' r p kids f' s1 s2 h1 =>
    cases hw
    rw [sh.tmType] at h1; cases h1

theorem inv_node (sh : CalcShape pd ins) {x : CalcNT} {es : List Nat} {f : Forest} {s : Str}
    (h : IsForest pd (sh.nt x :: es) f s) :
    ∃ a ∈ calcAlts x, ∃ k f' s1 s2, f = .node (sh.nt x) (toProd (a.map sh.ix)) k f' ∧ s = s1 ++ s2 ∧
      IsForest pd (a.map sh.ix) k s1 ∧ IsForest pd es f' s2 := by
  generalize hw : sh.nt x :: es = w at h
  cases h with
  | nil => cases hw
  | @leaf e es' d f' s' h1 =>
    cases hw
    rw [sh.ntType] at h1; cases h1
  | @node A es' r p kids f' s1 s2 h1 h2 h3 h4 h5 =>
    cases hw
    obtain ⟨r', g1, g2, -⟩ := sh.rule x
    rw [g1] at h2; cases h2
    rw [g2, List.mem_map] at h3
    obtain ⟨a, ha, rfl⟩ := h3
    rw [prodElems_toProd] at h4
    exact ⟨a, ha, kids, f', s1, s2, rfl, rfl, h4, h5⟩

theorem inv_nil {f : Forest} {s : Str} (h : IsForest pd [] f s) : f = .nil ∧ s = [] := by
  cases h; exact ⟨rfl, rfl⟩

/-! ### the parse trees -/

/-- The tree of a rule used with the alternative `a`, followed by `rest`. -/
def nd (sh : CalcShape pd ins) (x : CalcNT) (a : List (CalcNT ⊕ CalcT)) (k rest : Forest) : Forest :=
  .node (sh.nt x) (toProd (a.map sh.ix)) k rest

/-- A digit. -/
def digitF (sh : CalcShape pd ins) (d : Fin 10) (rest : Forest) : Forest :=
  sh.nd .digit [.inr (.digit d)] (.leaf (sh.tm (.digit d)) .nil) rest

/-- The digits after the first. -/
def numberSF (sh : CalcShape pd ins) : List (Fin 10) → Forest → Forest
  | [], rest => sh.nd .numberS [] .nil rest
  | d :: ds, rest =>
    sh.nd .numberS [.inl .numberT] (sh.nd .numberT [.inl .digit, .inl .numberS] (sh.digitF d (numberSF sh ds .nil)) .nil) rest

/-- A word. -/
def termF (sh : CalcShape pd ins) (t : Token) (rest : Forest) : Forest :=
  match t with
  | .add => sh.nd .term [.inl .add] (sh.nd .add [.inr .plus] (.leaf (sh.tm .plus) .nil) .nil) rest
  | .sub => sh.nd .term [.inl .sub] (sh.nd .sub [.inr .minus] (.leaf (sh.tm .minus) .nil) .nil) rest
  | .print => sh.nd .term [.inl .print] (sh.nd .print [.inr .print] (.leaf (sh.tm .print) .nil) .nil) rest
  | .num [] => .nil
  | .num (d :: ds) =>
    sh.nd .term [.inl .number] (sh.nd .number [.inl .digit, .inl .numberS] (sh.digitF d (sh.numberSF ds .nil)) .nil) rest

/-- The words after the first. -/
def termsSF (sh : CalcShape pd ins) : List Token → Forest → Forest
  | [], rest => sh.nd .termsS [] .nil rest
  | t :: ts, rest =>
    sh.nd .termsS [.inl .space, .inl .term, .inl .termsS]
      (sh.nd .space [.inr .blank] (.leaf (sh.tm .blank) .nil) (sh.termF t (termsSF sh ts .nil))) rest

/-- A script. -/
def scriptF (sh : CalcShape pd ins) (t : Token) (ts : List Token) : Forest :=
  sh.nd .start [.inl .terms] (sh.nd .terms [.inl .term, .inl .termsS] (sh.termF t (sh.termsSF ts .nil)) .nil) .nil

/-- The words after the first, as text. -/
def tailText : List Token → Str
  | [] => []
  | t :: ts => ' ' :: t.text ++ tailText ts

theorem scriptText_cons (t : Token) (ts : List Token) : scriptText (t :: ts) = t.text ++ tailText ts := by
  induction ts generalizing t with
  | nil => simp [scriptText, tailText]
  | cons u us ih => rw [scriptText, ih u]; rfl

theorem digit_mem (d : Fin 10) : [.inr (.digit d)] ∈ calcAlts .digit := by
  match d with
  | 0 | 1 | 2 | 3 | 4 | 5 | 6 | 7 | 8 | 9 => simp [calcAlts]

theorem digitF_forest (sh : CalcShape pd ins) (d : Fin 10) {es : List Nat} {f : Forest} {s : Str} (h : IsForest pd es f s) :
    IsForest pd (sh.nt .digit :: es) (sh.digitF d f) (figure d :: s) :=
  sh.mk_node .digit (digit_mem d) (s1 := [figure d]) (sh.mk_leaf (.digit d) .nil) h

theorem numberSF_forest (sh : CalcShape pd ins) (ds : List (Fin 10)) : ∀ {es : List Nat} {f : Forest} {s : Str},
    IsForest pd es f s → IsForest pd (sh.nt .numberS :: es) (sh.numberSF ds f) (ds.map figure ++ s) := by
  induction ds with
  | nil => intro es f s h; exact sh.mk_node .numberS (a := []) (by simp [calcAlts]) (s1 := []) .nil h
  | cons d ds ih =>
    intro es f s h
    refine sh.mk_node .numberS (a := [.inl .numberT]) (by simp [calcAlts]) ?_ h
    have := sh.mk_node .numberT (a := [.inl .digit, .inl .numberS]) (by simp [calcAlts])
      (sh.digitF_forest d (ih .nil)) .nil
    rw [List.append_nil, List.append_nil] at this
    exact this

theorem termF_forest (sh : CalcShape pd ins) {t : Token} (ht : t.Ok) {es : List Nat} {f : Forest} {s : Str}
    (h : IsForest pd es f s) : IsForest pd (sh.nt .term :: es) (sh.termF t f) (t.text ++ s) := by
  cases t with
  | add =>
    exact sh.mk_node .term (a := [.inl .add]) (by simp [calcAlts])
      (sh.mk_node .add (a := [.inr .plus]) (s1 := c% "+") (s2 := []) (by simp [calcAlts]) (sh.mk_leaf .plus .nil) .nil) h
  | sub =>
    exact sh.mk_node .term (a := [.inl .sub]) (by simp [calcAlts])
      (sh.mk_node .sub (a := [.inr .minus]) (s1 := c% "-") (s2 := []) (by simp [calcAlts]) (sh.mk_leaf .minus .nil) .nil) h
  | print =>
    exact sh.mk_node .term (a := [.inl .print]) (by simp [calcAlts])
      (sh.mk_node .print (a := [.inr .print]) (s1 := c% "print") (s2 := []) (by simp [calcAlts]) (sh.mk_leaf .print .nil) .nil) h
  | num ds =>
    cases ds with
    | nil => exact absurd rfl ht
    | cons d ds =>
      refine sh.mk_node .term (a := [.inl .number]) (by simp [calcAlts]) ?_ h
      have := sh.mk_node .number (a := [.inl .digit, .inl .numberS]) (by simp [calcAlts])
        (sh.digitF_forest d (sh.numberSF_forest ds .nil)) .nil
      rw [List.append_nil, List.append_nil] at this
      exact this

theorem termsSF_forest (sh : CalcShape pd ins) {ts : List Token} (hts : ∀ t ∈ ts, t.Ok) : ∀ {es : List Nat} {f : Forest} {s : Str},
    IsForest pd es f s → IsForest pd (sh.nt .termsS :: es) (sh.termsSF ts f) (tailText ts ++ s) := by
  induction ts with
  | nil => intro es f s h; exact sh.mk_node .termsS (a := []) (by simp [calcAlts]) (s1 := []) .nil h
  | cons t ts ih =>
    intro es f s h
    refine sh.mk_node .termsS (a := [.inl .space, .inl .term, .inl .termsS]) (by simp [calcAlts]) ?_ h
    have := sh.mk_node .space (a := [.inr .blank]) (s1 := c% " ") (by simp [calcAlts]) (sh.mk_leaf .blank .nil)
      (sh.termF_forest (hts t (by simp)) (ih (fun u hu => hts u (by simp [hu])) .nil))
    rw [List.append_nil] at this
    exact this

/-- Every script of words has a parse tree. -/
theorem scriptF_forest (sh : CalcShape pd ins) {t : Token} {ts : List Token} (hts : ∀ u ∈ t :: ts, u.Ok) :
    IsForest pd [sh.nt .start] (sh.scriptF t ts) (scriptText (t :: ts)) := by
  have := sh.mk_node .start (a := [.inl .terms]) (by simp [calcAlts])
    (sh.mk_node .terms (a := [.inl .term, .inl .termsS]) (by simp [calcAlts])
      (sh.termF_forest (hts t (by simp)) (sh.termsSF_forest (ts := ts) (fun u hu => hts u (by simp [hu])) .nil)) .nil) .nil
  rw [List.append_nil, List.append_nil, List.append_nil] at this
  rw [scriptText_cons]
  exact this

/-! ### nothing else has one -/

theorem digit_inv (sh : CalcShape pd ins) {es : List Nat} {f : Forest} {s : Str} (h : IsForest pd (sh.nt .digit :: es) f s) :
    ∃ d f' s', f = sh.digitF d f' ∧ s = figure d :: s' ∧ IsForest pd es f' s' := by
  obtain ⟨a, ha, k, f', s1, s2, rfl, rfl, h1, h2⟩ := sh.inv_node h
  have : ∃ d, a = [.inr (.digit d)] := by
    simp only [calcAlts, List.mem_cons, List.not_mem_nil, or_false] at ha
    rcases ha with h | h | h | h | h | h | h | h | h | h <;> exact ⟨_, h⟩
  obtain ⟨d, rfl⟩ := this
  obtain ⟨f1, s', rfl, rfl, h3⟩ := sh.inv_leaf (x := .digit d) h1
  obtain ⟨rfl, rfl⟩ := inv_nil h3
  exact ⟨d, f', s2, rfl, rfl, h2⟩

theorem size_pos {f : Forest} {e : Nat} {es : List Nat} {s : Str} (h : IsForest pd (e :: es) f s) : 0 < f.size := by
  cases h <;> simp [Forest.size] <;> omega

theorem numberS_inv (sh : CalcShape pd ins) : ∀ (n : Nat) {es : List Nat} {f : Forest} {s : Str}, f.size ≤ n →
    IsForest pd (sh.nt .numberS :: es) f s →
    ∃ ds f' s', f = sh.numberSF ds f' ∧ s = ds.map figure ++ s' ∧ IsForest pd es f' s' := by
  intro n
  induction n with
  | zero => intro es f s hn h; have := size_pos h; omega
  | succ n ih =>
    intro es f s hn h
    obtain ⟨a, ha, k, f', s1, s2, rfl, rfl, h1, h2⟩ := sh.inv_node h
    simp only [calcAlts, List.mem_cons, List.not_mem_nil, or_false] at ha
    rcases ha with rfl | rfl
    · obtain ⟨a, ha, k1, f1, s3, s4, rfl, rfl, h3, h4⟩ := sh.inv_node (x := .numberT) h1
      simp only [calcAlts, List.mem_cons, List.not_mem_nil, or_false] at ha
      subst ha
      obtain ⟨rfl, rfl⟩ := inv_nil h4
      obtain ⟨d, f2, s5, rfl, rfl, h5⟩ := sh.digit_inv h3
      obtain ⟨ds, f3, s6, rfl, rfl, h6⟩ := ih (by simp [Forest.size, digitF, nd] at hn; omega) h5
      obtain ⟨rfl, rfl⟩ := inv_nil h6
      exact ⟨d :: ds, f', s2, rfl, by simp, h2⟩
    · obtain ⟨rfl, rfl⟩ := inv_nil h1
      exact ⟨[], f', s2, rfl, rfl, h2⟩

theorem term_inv (sh : CalcShape pd ins) {es : List Nat} {f : Forest} {s : Str} (h : IsForest pd (sh.nt .term :: es) f s) :
    ∃ t f' s', t.Ok ∧ f = sh.termF t f' ∧ s = t.text ++ s' ∧ IsForest pd es f' s' := by
  obtain ⟨a, ha, k, f', s1, s2, rfl, rfl, h1, h2⟩ := sh.inv_node h
  simp only [calcAlts, List.mem_cons, List.not_mem_nil, or_false] at ha
  rcases ha with rfl | rfl | rfl | rfl
  · obtain ⟨a, ha, k1, f1, s3, s4, rfl, rfl, h3, h4⟩ := sh.inv_node (x := .add) h1
    simp only [calcAlts, List.mem_cons, List.not_mem_nil, or_false] at ha
    subst ha
    obtain ⟨rfl, rfl⟩ := inv_nil h4
    obtain ⟨f2, s5, rfl, rfl, h5⟩ := sh.inv_leaf (x := .plus) h3
    obtain ⟨rfl, rfl⟩ := inv_nil h5
    exact ⟨.add, f', s2, trivial, rfl, rfl, h2⟩
  · obtain ⟨a, ha, k1, f1, s3, s4, rfl, rfl, h3, h4⟩ := sh.inv_node (x := .sub) h1
    simp only [calcAlts, List.mem_cons, List.not_mem_nil, or_false] at ha
    subst ha
    obtain ⟨rfl, rfl⟩ := inv_nil h4
    obtain ⟨f2, s5, rfl, rfl, h5⟩ := sh.inv_leaf (x := .minus) h3
    obtain ⟨rfl, rfl⟩ := inv_nil h5
    exact ⟨.sub, f', s2, trivial, rfl, rfl, h2⟩
  · obtain ⟨a, ha, k1, f1, s3, s4, rfl, rfl, h3, h4⟩ := sh.inv_node (x := .number) h1
    simp only [calcAlts, List.mem_cons, List.not_mem_nil, or_false] at ha
    subst ha
    obtain ⟨rfl, rfl⟩ := inv_nil h4
    obtain ⟨d, f2, s5, rfl, rfl, h5⟩ := sh.digit_inv h3
    obtain ⟨ds, f3, s6, rfl, rfl, h6⟩ := sh.numberS_inv _ (Nat.le_refl _) h5
    obtain ⟨rfl, rfl⟩ := inv_nil h6
    exact ⟨.num (d :: ds), f', s2, by simp [Token.Ok], rfl, by simp [Token.text], h2⟩
  · obtain ⟨a, ha, k1, f1, s3, s4, rfl, rfl, h3, h4⟩ := sh.inv_node (x := .print) h1
    simp only [calcAlts, List.mem_cons, List.not_mem_nil, or_false] at ha
    subst ha
    obtain ⟨rfl, rfl⟩ := inv_nil h4
    obtain ⟨f2, s5, rfl, rfl, h5⟩ := sh.inv_leaf (x := .print) h3
    obtain ⟨rfl, rfl⟩ := inv_nil h5
    exact ⟨.print, f', s2, trivial, rfl, rfl, h2⟩

theorem termsS_inv (sh : CalcShape pd ins) : ∀ (n : Nat) {es : List Nat} {f : Forest} {s : Str}, f.size ≤ n →
    IsForest pd (sh.nt .termsS :: es) f s →
    ∃ ts f' s', (∀ t ∈ ts, t.Ok) ∧ f = sh.termsSF ts f' ∧ s = tailText ts ++ s' ∧ IsForest pd es f' s' := by
  intro n
  induction n with
  | zero => intro es f s hn h; have := size_pos h; omega
  | succ n ih =>
    intro es f s hn h
    obtain ⟨a, ha, k, f', s1, s2, rfl, rfl, h1, h2⟩ := sh.inv_node h
    simp only [calcAlts, List.mem_cons, List.not_mem_nil, or_false] at ha
    rcases ha with rfl | rfl
    · obtain ⟨a, ha, k1, f1, s3, s4, rfl, rfl, h3, h4⟩ := sh.inv_node (x := .space) h1
      simp only [calcAlts, List.mem_cons, List.not_mem_nil, or_false] at ha
      subst ha
      obtain ⟨f2, s5, rfl, rfl, h5⟩ := sh.inv_leaf (x := .blank) h3
      obtain ⟨rfl, rfl⟩ := inv_nil h5
      obtain ⟨t, f3, s6, ht, rfl, rfl, h6⟩ := sh.term_inv h4
      have hle : f3.size ≤ n := by
        have hle : f3.size ≤ (sh.termF t f3).size := by
          cases t with
          | num ds => cases ds with
            | nil => exact absurd rfl ht
            | cons d ds => simp only [termF, nd, Forest.size]; omega
          | add => simp only [termF, nd, Forest.size]; omega
          | sub => simp only [termF, nd, Forest.size]; omega
          | print => simp only [termF, nd, Forest.size]; omega
        simp only [Forest.size] at hn
        omega
      obtain ⟨ts, f4, s7, hts, rfl, rfl, h7⟩ := ih hle h6
      obtain ⟨rfl, rfl⟩ := inv_nil h7
      refine ⟨t :: ts, f', s2, ?_, rfl, by simp [tailText, CalcT.text], h2⟩
      intro u hu
      rcases List.mem_cons.1 hu with rfl | hu
      · exact ht
      · exact hts u hu
    · obtain ⟨rfl, rfl⟩ := inv_nil h1
      exact ⟨[], f', s2, by simp, rfl, rfl, h2⟩

/-- Only scripts of words have a parse tree. -/
theorem script_inv (sh : CalcShape pd ins) {f : Forest} {s : Str} (h : IsForest pd [sh.nt .start] f s) :
    ∃ t ts, (∀ u ∈ t :: ts, u.Ok) ∧ f = sh.scriptF t ts ∧ s = scriptText (t :: ts) := by
  obtain ⟨a, ha, k, f', s1, s2, rfl, rfl, h1, h2⟩ := sh.inv_node h
  simp only [calcAlts, List.mem_cons, List.not_mem_nil, or_false] at ha
  subst ha
  obtain ⟨rfl, rfl⟩ := inv_nil h2
  obtain ⟨a, ha, k1, f1, s3, s4, rfl, rfl, h3, h4⟩ := sh.inv_node (x := .terms) h1
  simp only [calcAlts, List.mem_cons, List.not_mem_nil, or_false] at ha
  subst ha
  obtain ⟨rfl, rfl⟩ := inv_nil h4
  obtain ⟨t, f3, s6, ht, rfl, rfl, h6⟩ := sh.term_inv h3
  obtain ⟨ts, f4, s7, hts, rfl, rfl, h7⟩ := sh.termsS_inv _ (Nat.le_refl _) h6
  obtain ⟨rfl, rfl⟩ := inv_nil h7
  refine ⟨t, ts, ?_, rfl, by rw [scriptText_cons]; simp⟩
  intro u hu
  rcases List.mem_cons.1 hu with rfl | hu
  · exact ht
  · exact hts u hu

/-! ### machine steps -/

section
variable (exec : Option Str → I → S → Option S) (ins : CalcNT → List I)

/-- Doing a step several times. -/
def iter (step : S → Option S) : Nat → S → Option S
  | 0, s => some s
  | n + 1, s => (iter step n s).bind step

/-- The steps of digits. -/
def digitSteps : List (Fin 10) → S → Option S
  | [], s => some s
  | d :: ds, s => (runData exec (some [figure d]) (ins .digit) s).bind (digitSteps ds)

/-- The steps of one word. -/
def tokenStep (s : S) : Token → Option S
  | .add => runData exec (some (c% "+")) (ins .add) s
  | .sub => runData exec (some (c% "-")) (ins .sub) s
  | .print => runData exec (some (c% "print")) (ins .print) s
  | .num ds =>
    ((digitSteps exec ins ds s).bind (iter (runData exec (some []) (ins .numberT)) (ds.length - 1))).bind
      (runData exec (some []) (ins .number))

/-- The steps of a script. -/
def tokenSteps : List Token → S → Option S
  | [], s => some s
  | t :: ts, s => (tokenStep exec ins s t).bind (tokenSteps ts)
end

/-- The rules without instructions. -/
def Plain (ins : CalcNT → List I) : Prop :=
  ∀ x, x = .start ∨ x = .terms ∨ x = .termsS ∨ x = .term ∨ x = .numberS ∨ x = .space → ins x = []

theorem instr_eq (sh : CalcShape pd ins) (x : CalcNT) : instrOf pd (sh.nt x) = ins x := by
  obtain ⟨r, h1, -, h3⟩ := sh.rule x
  rw [instrOf, h1, ← h3]

theorem events_nd (sh : CalcShape pd ins) (n : Nat) (x : CalcNT) (a : List (CalcNT ⊕ CalcT)) (k rest : Forest) :
    events pd n (sh.nd x a k rest) =
      events pd (n + 1) k ++ ⟨n, sh.nt x, .node [] (roses pd k)⟩ :: events pd (n + 1 + k.size) rest := rfl

theorem nameOf_tm (sh : CalcShape pd ins) (x : CalcT) : nameOf pd (sh.tm x) = x.text := by
  obtain ⟨d, h1, h2⟩ := sh.tmName x
  rw [nameOf, h1, ← h2]

variable {exec : Option Str → I → S → Option S}

theorem events_digit (sh : CalcShape pd ins) (n : Nat) (d : Fin 10) (rest : Forest) (s : S) :
    runEvents exec pd (events pd n (sh.digitF d rest)) s =
      (runData exec (some [figure d]) (ins .digit) s).bind (runEvents exec pd (events pd (n + 2) rest)) := by
  rw [digitF, events_nd]
  simp only [events, List.nil_append, runEvents, Forest.size, roses, Rose.firstText, sh.instr_eq, sh.nameOf_tm, CalcT.text]

theorem firstText_nd (sh : CalcShape pd ins) (x : CalcNT) (a : List (CalcNT ⊕ CalcT)) (k rest : Forest) :
    (Rose.node [] (roses pd (sh.nd x a k rest))).firstText = some [] := rfl

theorem events_numberS (sh : CalcShape pd ins) (hp : Plain ins) (ds : List (Fin 10)) : ∀ (n : Nat) (rest : Forest) (s : S),
    ∃ m, runEvents exec pd (events pd n (sh.numberSF ds rest)) s =
      ((digitSteps exec ins ds s).bind (iter (runData exec (some []) (ins .numberT)) ds.length)).bind
        (runEvents exec pd (events pd m rest)) := by
  induction ds with
  | nil =>
    intro n rest s
    refine ⟨n + 1, ?_⟩
    rw [numberSF, events_nd]
    simp only [events, List.nil_append, runEvents, sh.instr_eq, hp .numberS (by simp), runData, digitSteps, List.length_nil,
      iter, Option.bind_some, Forest.size, Nat.add_zero]
  | cons d ds ih =>
    intro n rest s
    obtain ⟨m, hm⟩ : ∃ m, ∀ s, runEvents exec pd (events pd (n + 4) (sh.numberSF ds .nil)) s =
        ((digitSteps exec ins ds s).bind (iter (runData exec (some []) (ins .numberT)) ds.length)).bind
          (runEvents exec pd (events pd m .nil)) := ⟨0, fun s => by obtain ⟨m, h⟩ := ih (n + 4) .nil s; exact h⟩
    refine ⟨n + 1 + (sh.nd .numberT [.inl .digit, .inl .numberS] (sh.digitF d (sh.numberSF ds .nil)) .nil).size, ?_⟩
    rw [numberSF, events_nd, runEvents_append, events_nd, runEvents_append, events_digit]
    simp only [digitSteps, List.length_cons, iter]
    cases h1 : runData exec (some [figure d]) (ins .digit) s with
    | none => rfl
    | some s1 =>
      simp only [Option.bind_some]
      rw [hm]
      cases h2 : digitSteps exec ins ds s1 with
      | none => rfl
      | some s2 =>
        simp only [Option.bind_some]
        cases h3 : iter (runData exec (some []) (ins .numberT)) ds.length s2 with
        | none => rfl
        | some s3 =>
          simp only [Option.bind_some, events, runEvents, sh.instr_eq, hp .numberS (by simp), runData, digitF, firstText_nd]
          cases runData exec (some []) (ins .numberT) s3 with
          | none => rfl
          | some s4 => rfl

theorem events_term (sh : CalcShape pd ins) (hp : Plain ins) {t : Token} (ht : t.Ok) (n : Nat) (rest : Forest) (s : S) :
    ∃ m, runEvents exec pd (events pd n (sh.termF t rest)) s =
      (tokenStep exec ins s t).bind (runEvents exec pd (events pd m rest)) := by
  have hterm := hp .term (by simp)
  cases t with
  | add =>
    refine ⟨n + 1 + (sh.nd .add [.inr .plus] (.leaf (sh.tm .plus) .nil) .nil).size, ?_⟩
    rw [termF, events_nd, runEvents_append, events_nd, runEvents_append]
    simp only [events, runEvents, Option.bind_some, tokenStep, roses, Rose.firstText, sh.instr_eq, sh.nameOf_tm, CalcT.text,
      hterm, runData]
    cases runData exec (some (c% "+")) (ins .add) s <;> rfl
  | sub =>
    refine ⟨n + 1 + (sh.nd .sub [.inr .minus] (.leaf (sh.tm .minus) .nil) .nil).size, ?_⟩
    rw [termF, events_nd, runEvents_append, events_nd, runEvents_append]
    simp only [events, runEvents, Option.bind_some, tokenStep, roses, Rose.firstText, sh.instr_eq, sh.nameOf_tm, CalcT.text,
      hterm, runData]
    cases runData exec (some (c% "-")) (ins .sub) s <;> rfl
  | print =>
    refine ⟨n + 1 + (sh.nd .print [.inr .print] (.leaf (sh.tm .print) .nil) .nil).size, ?_⟩
    rw [termF, events_nd, runEvents_append, events_nd, runEvents_append]
    simp only [events, runEvents, Option.bind_some, tokenStep, roses, Rose.firstText, sh.instr_eq, sh.nameOf_tm, CalcT.text,
      hterm, runData]
    cases runData exec (some (c% "print")) (ins .print) s <;> rfl
  | num ds =>
    cases ds with
    | nil => exact absurd rfl ht
    | cons d ds =>
      refine ⟨n + 1 + (sh.nd .number [.inl .digit, .inl .numberS] (sh.digitF d (sh.numberSF ds .nil)) .nil).size, ?_⟩
      rw [termF, events_nd, runEvents_append, events_nd, runEvents_append, events_digit]
      simp only [tokenStep, digitSteps, List.length_cons, Nat.add_sub_cancel]
      cases h1 : runData exec (some [figure d]) (ins .digit) s with
      | none => rfl
      | some s1 =>
        simp only [Option.bind_some]
        obtain ⟨m, hm⟩ := sh.events_numberS (exec := exec) hp ds (n + 1 + 1 + 2) .nil s1
        rw [hm]
        cases h2 : digitSteps exec ins ds s1 with
        | none => rfl
        | some s2 =>
          simp only [Option.bind_some]
          cases h3 : iter (runData exec (some []) (ins .numberT)) ds.length s2 with
          | none => rfl
          | some s3 =>
            simp only [Option.bind_some, events, runEvents, sh.instr_eq, hterm, runData, digitF, firstText_nd]
            cases runData exec (some []) (ins .number) s3 with
            | none => rfl
            | some s4 => rfl

theorem events_termsS (sh : CalcShape pd ins) (hp : Plain ins) {ts : List Token} (hts : ∀ t ∈ ts, t.Ok) :
    ∀ (n : Nat) (s : S), runEvents exec pd (events pd n (sh.termsSF ts .nil)) s = tokenSteps exec ins ts s := by
  induction ts with
  | nil =>
    intro n s
    rw [termsSF, events_nd]
    simp only [events, List.nil_append, runEvents, sh.instr_eq, hp .termsS (by simp), runData, Option.bind_some, tokenSteps]
  | cons t ts ih =>
    intro n s
    rw [termsSF, events_nd, runEvents_append, events_nd, runEvents_append]
    simp only [events, runEvents, Option.bind_some, roses, sh.instr_eq, hp .space (by simp), runData, tokenSteps]
    obtain ⟨m, hm⟩ := sh.events_term (exec := exec) hp (hts t (by simp)) (n + 1 + 1 + (Forest.leaf (sh.tm .blank) .nil).size)
      (sh.termsSF ts .nil) s
    rw [hm]
    cases h1 : tokenStep exec ins s t with
    | none => rfl
    | some s1 =>
      simp only [Option.bind_some]
      rw [ih (fun u hu => hts u (by simp [hu]))]
      cases h2 : tokenSteps exec ins ts s1 with
      | none => rfl
      | some s2 => simp [hp .termsS (by simp), runData]

/-- The events of a script do the steps of its words. -/
theorem events_script (sh : CalcShape pd ins) (hp : Plain ins) {t : Token} {ts : List Token} (hts : ∀ u ∈ t :: ts, u.Ok)
    (s : S) : runEvents exec pd (events pd 0 (sh.scriptF t ts)) s = tokenSteps exec ins (t :: ts) s := by
  rw [scriptF, events_nd, runEvents_append, events_nd, runEvents_append]
  obtain ⟨m, hm⟩ := sh.events_term (exec := exec) hp (hts t (by simp)) (0 + 1 + 1) (sh.termsSF ts .nil) s
  rw [hm, tokenSteps]
  cases h1 : tokenStep exec ins s t with
  | none => rfl
  | some s1 =>
    simp only [Option.bind_some]
    rw [sh.events_termsS hp (fun u hu => hts u (by simp [hu]))]
    cases h2 : tokenSteps exec ins ts s1 with
    | none => rfl
    | some s2 => simp [events, runEvents, sh.instr_eq, hp .start (by simp), hp .terms (by simp), runData]

end CalcShape
end HPP
