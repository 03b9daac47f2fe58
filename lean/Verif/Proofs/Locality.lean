import Verif.Model.Script
/-
A parse looks at most one character beyond what it consumes.
-/
namespace HPP
variable {I S : Type}

/-- A context reading the text `w` at position `k`. -/
def ctxAt (k : Nat) (w : Str) (s : S) (t : Tree Str) : Ctx S := ⟨⟨⟨w⟩, k, none, none, false⟩, s, t⟩

/-- The computation consumes a prefix of the text, and what it does stays the same if anything behind the first unread
character is replaced. -/
def Local {α : Type} (f : SM (Ctx S) PErr α) : Prop :=
  ∀ k w s t, ∃ res u w1 s1 t1, w = u ++ w1 ∧ f (ctxAt k w s t) = (res, ctxAt (k + u.length) w1 s1 t1) ∧
    ∀ v1 x r r', w1 = v1 ++ x :: r →
      f (ctxAt k (u ++ (v1 ++ x :: r')) s t) = (res, ctxAt (k + u.length) (v1 ++ x :: r') s1 t1)

theorem Local.bind {α β : Type} {f : SM (Ctx S) PErr α} {g : α → SM (Ctx S) PErr β} (hf : Local f)
    (hg : ∀ a, Local (g a)) : Local (f >>= g) := by
  intro k w s t
  obtain ⟨res, u, w1, s1, t1, rfl, e1, l1⟩ := hf k w s t
  cases res with
  | ok a =>
    obtain ⟨res2, u2, w2, s2, t2, rfl, e2, l2⟩ := hg a (k + u.length) w1 s1 t1
    refine ⟨res2, u ++ u2, w2, s2, t2, by simp, ?_, ?_⟩
    · rw [SM.bind_apply, e1]; simp only; rw [e2, List.length_append, Nat.add_assoc]
    · intro v1 x r r' hw
      subst hw
      have h1 := l1 (u2 ++ v1) x r r' (by simp)
      have h2 := l2 v1 x r r' rfl
      rw [SM.bind_apply]
      simp only [List.append_assoc] at h1 h2 ⊢
      rw [h1]; simp only; rw [h2, List.length_append, Nat.add_assoc]
  | err e =>
    refine ⟨.err e, u, w1, s1, t1, rfl, by rw [SM.bind_apply, e1], fun v1 x r r' hw => ?_⟩
    rw [SM.bind_apply, l1 v1 x r r' hw]
  | panic =>
    refine ⟨.panic, u, w1, s1, t1, rfl, by rw [SM.bind_apply, e1], fun v1 x r r' hw => ?_⟩
    rw [SM.bind_apply, l1 v1 x r r' hw]
  | timeout =>
    refine ⟨.timeout, u, w1, s1, t1, rfl, by rw [SM.bind_apply, e1], fun v1 x r r' hw => ?_⟩
    rw [SM.bind_apply, l1 v1 x r r' hw]

/-- Computations that do not touch the text. -/
theorem Local.of_state {α : Type} {f : SM (Ctx S) PErr α} (g : S → Tree Str → Res PErr α × S × Tree Str)
    (h : ∀ k w s t, f (ctxAt k w s t) = ((g s t).1, ctxAt k w (g s t).2.1 (g s t).2.2)) : Local f := by
  intro k w s t
  exact ⟨(g s t).1, [], w, _, _, rfl, h k w s t, fun v1 x r r' _ => h _ _ _ _⟩

theorem Local.lift {α : Type} (r : Res PErr α) : Local (SM.lift r : SM (Ctx S) PErr α) :=
  .of_state (fun s t => (r, s, t)) (fun _ _ _ _ => rfl)

theorem Local.pure {α : Type} (a : α) : Local (Pure.pure a : SM (Ctx S) PErr α) :=
  .of_state (fun s t => (.ok a, s, t)) (fun _ _ _ _ => rfl)

/-- Computations that only look at the next character. -/
theorem Local.of_peek {α : Type} {f : SM (Ctx S) PErr α} (g : Option Char → Nat → Res PErr α)
    (h : ∀ k w s t, f (ctxAt k w s t) = (g w.head? k, ctxAt k w s t)) : Local f := by
  intro k w s t
  refine ⟨_, [], w, s, t, rfl, h k w s t, fun v1 x r r' hw => ?_⟩
  subst hw
  simp only [List.nil_append]
  rw [h]
  cases v1 <;> rfl

theorem Local.terminalLoop (cs : Str) : Local (onProc (S := S) (parseTerminalLoop cs)) := by
  induction cs with
  | nil => exact .of_state (fun s t => (.ok (), s, t)) (fun _ _ _ _ => rfl)
  | cons c cs ih =>
    intro k w s t
    cases w with
    | nil =>
      exact ⟨.err (.endOfChars k), [], [], s, t, rfl, rfl, fun v1 x r r' h => by cases v1 <;> cases h⟩
    | cons a w =>
      have e : ∀ b w, onProc (S := S) (parseTerminalLoop (c :: cs)) (ctxAt k (b :: w) s t) =
          if b ≠ c then (.err (.unexpectedChar b k [c]), ctxAt k (b :: w) s t)
          else onProc (parseTerminalLoop cs) (ctxAt (k + 1) w s t) := by
        intro b w
        have : parseTerminalLoop (c :: cs) (⟨⟨b :: w⟩, k, none, none, false⟩ : Proc) =
            if b ≠ c then (.err (.unexpectedChar b k [c]), (⟨⟨b :: w⟩, k, none, none, false⟩ : Proc))
            else parseTerminalLoop cs (⟨⟨w⟩, k + 1, none, none, false⟩ : Proc) := rfl
        simp only [onProc, ctxAt]
        rw [this]
        split <;> rfl
      by_cases hac : a = c
      · obtain ⟨res, u, w1, s1, t1, rfl, e1, l1⟩ := ih (k + 1) w s t
        refine ⟨res, a :: u, w1, s1, t1, rfl, ?_, ?_⟩
        · rw [e, if_neg (by simp [hac]), e1, List.length_cons, Nat.add_right_comm, Nat.add_assoc]
        · intro v1 x r r' hw
          rw [List.cons_append, e, if_neg (by simp [hac]), l1 v1 x r r' hw, List.length_cons, Nat.add_right_comm,
            Nat.add_assoc]
      · refine ⟨.err (.unexpectedChar a k [c]), [], a :: w, s, t, rfl, ?_, ?_⟩
        · rw [e, if_pos hac]; rfl
        · intro v1 x r r' hw
          cases v1 with
          | nil => cases hw; simp only [List.nil_append]; rw [e, if_pos hac]; rfl
          | cons b v1 => cases hw; simp only [List.nil_append, List.cons_append]; rw [e, if_pos hac]; rfl

theorem onProc_bind_pure {α β : Type} (f : SM Proc PErr α) (b : β) :
    onProc (S := S) (f >>= fun _ => Pure.pure b) = (onProc f >>= fun _ => Pure.pure b) := by
  funext c
  simp only [onProc, SM.bind_apply]
  rcases f c.proc with ⟨r, p⟩
  cases r <;> rfl

theorem Local.scriptTerminal (name : Str) : Local (onProc (S := S) (parseScriptTerminal name)) := by
  have : onProc (S := S) (parseScriptTerminal name) = (onProc (parseTerminalLoop name) >>= fun _ => Pure.pure name) :=
    onProc_bind_pure _ _
  rw [this]
  exact .bind (.terminalLoop name) (fun _ => .pure _)

theorem Local.elements {P : Parser I} {rec : Nat → Option NodeId → SM (Ctx S) PErr Unit}
    (hr : ∀ e p, Local (rec e p)) (id : NodeId) (els : List Nat) : Local (parseElements P rec id els) := by
  induction els with
  | nil => exact .pure _
  | cons e es ih =>
    simp only [parseElements]
    refine .bind (.lift _) (fun el => ?_)
    cases el.et with
    | terminal =>
      refine .bind (.scriptTerminal _) (fun s => .bind ?_ (fun _ => ih))
      exact .of_state (fun st t => let a := t.addNode s (some id)
        ((match a.1 with
          | .panic => .panic
          | .timeout => .timeout
          | _ => .ok ()), st, a.2)) (fun _ _ _ _ => rfl)
    | nonTerminal => exact .bind (hr _ _) (fun _ => ih)

theorem Local.production (ho : HashOrder) (vm : VM I S) (P : Parser I) (fuel : Nat) :
    ∀ e p, Local (parseProduction ho vm P fuel e p) := by
  induction fuel with
  | zero => intro e p; exact .lift _
  | succ fuel ih =>
    intro e p
    simp only [parseProduction]
    refine .bind (.of_peek (fun c _ => .ok (SetMember.ofPeek c)) ?_) (fun cur => ?_)
    · intro k w s t; cases w <;> rfl
    refine .bind (.lift _) (fun r => .bind ?_ (fun prod => .bind ?_ (fun id => ?_)))
    · refine .of_peek (fun c k => (getFittingProduction ho P e cur ⟨⟨c.toList⟩, k, none, none, false⟩).1) ?_
      intro k w s t
      simp only [onProc, getFittingProduction, ctxAt]
      cases AMap.get P.rules e with
      | none => rfl
      | some R =>
        simp only
        cases AMap.get R.steuermap cur with
        | some fp => rfl
        | none => cases w <;> rfl
    · exact .of_state (fun st t => let a := t.addNode [] p; (a.1.mapErr PErr.tree, st, a.2)) (fun _ _ _ _ => rfl)
    · have hrun : Local (runInstructionsM vm id r.instr) := by
        refine .of_state (fun s t => match runInstructions vm id r.instr t s with
          | none => (.panic, s, t)
          | some (t', s') => (.ok (), s', t')) ?_
        intro k w s t
        simp only [runInstructionsM, ctxAt]
        cases runInstructions vm id r.instr t s with
        | none => rfl
        | some x => rfl
      cases prod with
      | notEmpty els => exact .bind (.elements ih id els) (fun _ => hrun)
      | empty => exact hrun

end HPP
