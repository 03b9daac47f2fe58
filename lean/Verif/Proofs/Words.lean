import Verif.Spec.Words
import Verif.Proofs.Ideal
import Verif.Proofs.Effects
/-
One instruction, and one section, of SimpleStackVm and StackVm without overflow checks.
-/
namespace HPP
open Spec

theorem s64_u64 (x : Int) : signed64 ((unsigned64 x : Nat) : Int) = signed64 x := by rw [u64_cast, s64_emod]

theorem u64_lt (x : Int) : unsigned64 x < 2 ^ 64 := by
  simp only [unsigned64]; omega

theorem sameWords_iff (s1 : SState) (s2 : VState) : SameWords s1 s2 ↔ ∃ S, UnsignedModulo s1 S ∧ SignedModulo s2 S := by
  constructor
  · rintro ⟨h1, h2, h3, h4, h5, h6, h7, h8, h9, h10⟩
    have hl : ∀ l : List Nat, (∀ n ∈ l, n < 2 ^ 64) → l = (l.map (fun (n : Nat) => (n : Int))).map unsigned64 := by
      intro l hl
      rw [List.map_map]
      conv => lhs; rw [← List.map_id l]
      exact List.map_congr_left fun n hn => (u64_fit (hl n hn)).symm
    refine ⟨⟨s1.stack.map (fun (n : Nat) => (n : Int)), s1.reg, s1.reg2, s1.error, s1.out.map (fun (n : Nat) => (n : Int))⟩,
      ⟨hl _ h6, (u64_fit h7).symm, (u64_fit h8).symm, rfl, hl _ h9, h10⟩, ⟨?_, h2, h3, h4, ?_, by rw [h4]; exact h10⟩⟩
    · rw [h1]; simp only [List.map_map, Function.comp_def]
    · rw [h5]; simp only [List.map_map, Function.comp_def]
  · rintro ⟨S, ⟨a1, a2, a3, a4, a5, a6⟩, ⟨b1, b2, b3, b4, b5, b6⟩⟩
    have hl : ∀ l : List Int, l.map signed64 = (l.map unsigned64).map (fun (n : Nat) => signed64 n) := by
      intro l
      simp only [List.map_map, Function.comp_def, s64_u64]
    have hw : ∀ (l : List Int) (n : Nat), n ∈ l.map unsigned64 → n < 2 ^ 64 := by
      intro l n hn
      obtain ⟨x, -, rfl⟩ := List.mem_map.1 hn
      exact u64_lt x
    refine ⟨by rw [b1, a1]; exact hl _, by rw [b2, a2, s64_u64], by rw [b3, a3, s64_u64], by rw [b4, a4], by rw [b5, a5]; exact hl _,
      by rw [a1]; exact hw _, by rw [a2]; exact u64_lt _, by rw [a3]; exact u64_lt _, by rw [a5]; exact hw _, a6⟩

/-- Every node has a text with the property. -/
def AllTexts (D : Str → Prop) (t : Tree Str) : Prop := ∀ n ∈ t.nodes, D n.data

section
variable {D : Str → Prop}

theorem AllTexts.upd {t t' : Tree Str} {i : Nat} {f : TNode Str → TNode Str} (h : AllTexts D t) (hf : ∀ n, D n.data → D (f n).data)
    (hu : t.updNode i f = some t') : AllTexts D t' := by
  simp only [Tree.updNode] at hu
  cases hx : t.nodes[i]? with
  | none => rw [hx] at hu; cases hu
  | some n =>
    rw [hx] at hu
    cases hu
    intro m hm
    rcases List.mem_or_eq_of_mem_set hm with h' | rfl
    · exact h m h'
    · exact hf n (h n (List.mem_of_getElem? hx))

theorem AllTexts.place {t t' : Tree Str} {b : Bool} {i : Nat} {n : TNode Str} (h : AllTexts D t) (hn : D n.data)
    (hu : t.placeNode b i n = some t') : AllTexts D t' := by
  simp only [Tree.placeNode] at hu
  cases b with
  | true => exact h.upd (fun _ _ => hn) hu
  | false =>
    cases hu
    intro m hm
    rcases List.mem_append.1 hm with h' | h'
    · exact h m h'
    · rw [List.mem_singleton.1 h']; exact hn

theorem AllTexts.addNode {t : Tree Str} {d : Str} {p : Option NodeId} (hd : D d) (h : AllTexts D t) : AllTexts D (t.addNode d p).2 := by
  simp only [Tree.addNode]
  cases p with
  | none =>
    simp only
    split
    · exact h
    · next t2 h2 => exact AllTexts.place (t := { t with free := t.free.tail, counter := t.counter + 1 }) h hd h2
  | some pid =>
    simp only
    split
    · exact h
    · split
      · exact h
      · exact h
      · exact h
      · next pn hpn =>
        split
        · exact h
        · next t2 h2 =>
          have k2 : AllTexts D t2 := AllTexts.upd (t := { t with free := t.free.tail, counter := t.counter + 1 }) h
            (by intro n hn; exact hn) h2
          split
          · exact k2
          · next t3 h3 =>
            have k3 : AllTexts D t3 := by
              revert h3
              cases pn.lastChild with
              | none => intro h3; cases h3; exact k2
              | some l => exact fun h3 => k2.upd (by intro n hn; exact hn) h3
            split
            · exact k3
            · next t4 h4 => exact k3.place hd h4

theorem AllTexts.firstChild {t : Tree Str} (h : AllTexts D t) {id : NodeId} {d : Str} (hd : firstChildText t id = some (some d)) :
    D d := by
  simp only [firstChildText, Tree.getByPathOrNone] at hd
  cases hn : t.getNode id with
  | err e => rw [hn] at hd; cases hd
  | panic => rw [hn] at hd; cases hd
  | timeout => rw [hn] at hd; cases hd
  | ok n =>
    rw [hn] at hd
    cases hf : n.firstChild with
    | none =>
      simp only [Res.bind_ok, Tree.byPathFrom, Tree.getNthChildOrNone, hf, Tree.nthFrom] at hd
      cases hd
    | some ix =>
      cases hx : t.nodes[ix]? with
      | none =>
        simp only [Res.bind_ok, Tree.byPathFrom, Tree.getNthChildOrNone, hf, Tree.nthFrom, hx, Res.unwrapO] at hd
        cases hd
      | some m =>
        simp only [Res.bind_ok, Tree.byPathFrom, Tree.getNthChildOrNone, hf, Tree.nthFrom, hx, Res.unwrapO] at hd
        cases hd
        exact h m (List.mem_of_getElem? hx)
end

/-- One instruction. -/
theorem exec_words (cc : CharClass) {i : SInstr} (hc : SInstr.ConstUnsigned i) {t : Tree Str} (id : NodeId) (hj : TreeOk t)
    (ht : AllTexts ReadAlike t) {s1 : SState} {s2 : VState} (hs : SameWords s1 s2) :
    ((simpleStackVm false).execute t id i s1 = none ∧ (stackVm cc false).execute t id (SInstr.signed i) s2 = none) ∨
    ∃ s1' s2', (simpleStackVm false).execute t id i s1 = some (t, s1') ∧
      (stackVm cc false).execute t id (SInstr.signed i) s2 = some (t, s2') ∧ SameWords s1' s2' := by
  obtain ⟨S, hu, hv⟩ := (sameWords_iff s1 s2).1 hs
  have a := exec_simple_unchecked hc t id s1 S hj hu
  have hide : idealSimpleVm.execute t id i S = (idealStackVm cc).execute t id (SInstr.general i) S := by
    show Ideal.execute readUnsigned t id (SInstr.general i) S = Ideal.execute readSigned t id (SInstr.general i) S
    cases i with
    | pushFromTree =>
      simp only [SInstr.general, Ideal.execute, Instr.looks, if_true]
      cases hf : firstChildText t id with
      | none => rfl
      | some o =>
        cases o with
        | none => rfl
        | some d =>
          have : readUnsigned d = readSigned d := ht.firstChild hf
          simp only [Option.map_some, Ideal.step, this]
    | _ => rfl
  have key : ∀ j, Instr.ConstSigned j → SInstr.general i = j → SInstr.signed i = j →
      ((simpleStackVm false).execute t id i s1 = none ∧ (stackVm cc false).execute t id (SInstr.signed i) s2 = none) ∨
      ∃ s1' s2', (simpleStackVm false).execute t id i s1 = some (t, s1') ∧
        (stackVm cc false).execute t id (SInstr.signed i) s2 = some (t, s2') ∧ SameWords s1' s2' := by
    intro j hcs h1 h2
    have b := exec_stack_unchecked cc hcs t id s2 S hj hv
    rw [h2]
    rw [hide, h1] at a
    rcases a with ⟨a1, a2⟩ | ⟨s1', S', a1, a2, a3⟩
    · rcases b with ⟨b1, b2⟩ | ⟨s2', S'', b1, b2, b3⟩
      · exact .inl ⟨a1, b1⟩
      · rcases a2 with a2 | a2
        · exact absurd a2 (by simp)
        · rw [b2] at a2; cases a2
    · rcases b with ⟨b1, b2⟩ | ⟨s2', S'', b1, b2, b3⟩
      · rcases b2 with b2 | b2
        · exact absurd b2 (by simp)
        · rw [a2] at b2; cases b2
      · rw [a2] at b2
        cases b2
        exact .inr ⟨s1', s2', a1, b1, (sameWords_iff _ _).2 ⟨S', a3, b3⟩⟩
  have hr : ∀ c : Nat, ∀ x : Int, iRes false (signed64 x + signed64 c) = some (signed64 (x + c)) := by
    intro c x
    rw [iRes_wrap, iWrap_eq, s64_add]
  cases i with
  | pushConst c =>
    right
    refine ⟨{ s1 with stack := c :: s1.stack }, { s2 with stack := signed64 c :: s2.stack }, rfl, rfl, ?_⟩
    obtain ⟨h1, h2, h3, h4, h5, h6, h7, h8, h9, h10⟩ := hs
    exact ⟨by rw [h1]; rfl, h2, h3, h4, h5, List.forall_mem_cons.2 ⟨hc, h6⟩, h7, h8, h9, h10⟩
  | regAddConst c =>
    right
    refine ⟨{ s1 with reg := unsigned64 (s1.reg + c) }, { s2 with reg := signed64 (s1.reg + c) }, ?_, ?_, ?_⟩
    · simp only [simpleStackVm, simpleExec, uRes_false, Option.map_some]
    · simp only [stackVm, SInstr.signed, stackExec, hs.reg, hr, Option.map_some]
    · obtain ⟨h1, h2, h3, h4, h5, h6, h7, h8, h9, h10⟩ := hs
      exact ⟨h1, by simp only [s64_u64], h3, h4, h5, h6, u64_lt ((s1.reg : Int) + c), h8, h9, h10⟩
  | _ => refine key _ ?_ rfl rfl; exact trivial

theorem sameEffect_words (cc : CharClass) (is : List SInstr) (hc : ∀ i ∈ is, SInstr.ConstUnsigned i) :
    SameEffect (fun t => TreeOk t ∧ AllTexts ReadAlike t) SameWords (simpleStackVm false) (stackVm cc false) is
      (is.map SInstr.signed) := by
  induction is with
  | nil => exact fun t id s1 s2 ht hs => .inr ⟨t, s1, s2, .nil, .nil, ht, hs⟩
  | cons i is ih =>
    intro t id s1 s2 ht hs
    rcases exec_words cc (hc i (List.mem_cons_self ..)) id ht.1 ht.2 hs with ⟨h1, h2⟩ | ⟨s1', s2', h1, h2, h3⟩
    · left
      constructor
      · intro y hy
        cases hy with | cons he _ => rw [h1] at he; cases he
      · intro y hy
        cases hy with | cons he _ => rw [h2] at he; cases he
    · rcases ih (fun j hj => hc j (List.mem_cons_of_mem _ hj)) t id s1' s2' ht h3 with ⟨g1, g2⟩ | ⟨t', u1, u2, g1, g2, g3, g4⟩
      · left
        constructor
        · intro y hy
          cases hy with | cons he hy' => rw [h1] at he; cases he; exact g1 y hy'
        · intro y hy
          cases hy with | cons he hy' => rw [h2] at he; cases he; exact g2 y hy'
      · exact .inr ⟨t', u1, u2, .cons h1 g1, .cons h2 g2, g3, g4⟩

end HPP
