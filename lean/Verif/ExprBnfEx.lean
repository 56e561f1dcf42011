import Verif.ExprBnf
import Verif.ExprWitness

/-
Expressions and the documented grammar: examples, and where the two differ (C102).
-/

namespace Verif

open Spec Ex

theorem strat_ids {os : List OpDef} {t : ETree} (h : Strat os t) : ∀ id ∈ opsOf t, ∃ o ∈ os, o.id = id := by
  induction h with
  | atom => simp [opsOf]
  | tighter _ ih =>
    intro id hid
    obtain ⟨o, h1, h2⟩ := ih id hid
    exact ⟨o, by simp [h1], h2⟩
  | @left o os _ _ _ _ _ ih1 ih2 =>
    intro id hid
    simp only [opsOf, List.mem_cons, List.mem_append] at hid
    rcases hid with rfl | hid | hid
    · exact ⟨_, by simp, rfl⟩
    · exact ih1 id hid
    · obtain ⟨o, h1, h2⟩ := ih2 id hid
      exact ⟨o, by simp [h1], h2⟩
  | right _ _ _ ih1 ih2 =>
    intro id hid
    simp only [opsOf, List.mem_cons, List.mem_append] at hid
    rcases hid with rfl | hid | hid
    · exact ⟨_, by simp, rfl⟩
    · obtain ⟨o, h1, h2⟩ := ih1 id hid
      exact ⟨o, by simp [h1], h2⟩
    · exact ih2 id hid
  | single _ _ _ ih1 ih2 =>
    intro id hid
    simp only [opsOf, List.mem_cons, List.mem_append] at hid
    rcases hid with rfl | hid | hid
    · exact ⟨_, by simp, rfl⟩
    · obtain ⟨o, h1, h2⟩ := ih1 id hid
      exact ⟨o, by simp [h1], h2⟩
    · obtain ⟨o, h1, h2⟩ := ih2 id hid
      exact ⟨o, by simp [h1], h2⟩
  | list _ _ _ ih =>
    intro id hid
    simp only [opsOf, List.mem_cons] at hid
    rcases hid with rfl | hid
    · exact ⟨_, by simp, rfl⟩
    · obtain ⟨t, ht, hid⟩ := opsOfAll_iff.1 hid
      obtain ⟨o, h1, h2⟩ := ih t ht id hid
      exact ⟨o, by simp [h1], h2⟩
  | pre _ _ ih =>
    intro id hid
    simp only [opsOf, List.mem_cons] at hid
    rcases hid with rfl | hid
    · exact ⟨_, by simp, rfl⟩
    · exact ih id hid
  | post _ _ ih =>
    intro id hid
    simp only [opsOf, List.mem_cons] at hid
    rcases hid with rfl | hid
    · exact ⟨_, by simp, rfl⟩
    · exact ih id hid

/-- The operands of an infix operator consist of it and the operations behind it. -/
theorem strat_inf {os : List OpDef} {id : Nat} {l r : ETree} (h : Strat os (.inf id l r)) :
    ∃ pre o os', os = pre ++ o :: os' ∧ o.id = id ∧ Strat (o :: os') l ∧ Strat (o :: os') r := by
  generalize ht : ETree.inf id l r = t at h
  induction h with
  | tighter _ ih =>
    obtain ⟨pre, o, os', h1, h2⟩ := ih ht
    exact ⟨_ :: pre, o, os', by rw [h1]; rfl, h2⟩
  | left _ hl hr => cases ht; exact ⟨[], _, _, rfl, rfl, hl, .tighter hr⟩
  | right _ hl hr => cases ht; exact ⟨[], _, _, rfl, rfl, .tighter hl, hr⟩
  | single _ hl hr => cases ht; exact ⟨[], _, _, rfl, rfl, .tighter hl, .tighter hr⟩
  | _ => cases ht

namespace Ex

/-! ## Postfix operators -/

/-- `*` binds tighter than the postfix operator `!`. -/
def bang : ExprDef where
  atom := digit
  ops := .op ⟨1, .postfix, [opLit [33] 31]⟩ (.op ⟨2, .infixLeft, [opLit [42] 32]⟩ .atom)

theorem bang_ok (s : List Nat) : ExprOk (exprEnv s bang) 0 OpDef.id :=
  expr_ok rfl rfl (by simp [bang, Leveled]) (by decide) rfl

/-! ## Groups -/

/-- `+` or `|`, where the expression is only to consist of `+`. -/
def inGroup : ExprDef where
  atom := digit
  ops := .groups [.op ⟨1, .infixLeft, [opLit [43] 31]⟩ .atom, .op ⟨2, .infixLeft, [opLit [124] 32]⟩ .atom]
  root := some ⟨1, .infixLeft, [opLit [43] 31]⟩

/-- In the first group, the operands of `+` are those of `*` or of `/`. -/
def nestGroup : ExprDef where
  atom := digit
  ops := .groups [.op ⟨1, .infixLeft, [opLit [43] 31]⟩ (.groups [.op ⟨2, .infixLeft, [opLit [42] 32]⟩ .atom,
    .op ⟨3, .infixLeft, [opLit [47] 33]⟩ .atom]), .op ⟨4, .infixLeft, [opLit [124] 34]⟩ .atom]
  groupTag := 43

/-- The operands of `+` and those of `|` are those of `-`. -/
def sharedOp : ExprDef where
  atom := digit
  ops := .groups [.op ⟨1, .infixLeft, [opLit [43] 31]⟩ (.op ⟨3, .prefix, [opLit [45] 33]⟩ .atom),
    .op ⟨2, .infixLeft, [opLit [124] 32]⟩ (.op ⟨3, .prefix, [opLit [45] 33]⟩ .atom)]
  groupTag := 43

end Ex

/-- **C102**, refuted for postfix operators that bind looser than an infix operator: `1!*2` is accepted, where `*` binds tighter
    than `!`, although `1!` is no operand of `*`. (expression.hpp l.74-78 and l.391-403: the binding power of a postfix operator is only
    compared with that of an operator before its operand.) -/
theorem C102_postfix_refuted : ∃ t, value (exprEnv [49, 33, 42, 50] bang) = some (some t, 4, []) ∧
    ∀ x, Start bang x → ∀ c ∈ chains x, ¬ Strat c t := by
  refine ⟨.inf 2 (.post 1 (.atom 0 1)) (.atom 3 4), by decide +kernel, fun x hx c hc h => ?_⟩
  cases hx with
  | sub hr => cases hr
  | whole =>
    simp only [bang, chains, List.map_cons, List.map_nil, List.mem_singleton] at hc
    subst hc
    obtain ⟨pre, o, os', h1, h2, h3, -⟩ := strat_inf h
    obtain ⟨q, h4, h5⟩ := strat_ids h3 1 (by simp [opsOf])
    match pre, h1 with
    | [], h1 => cases h1; cases h2
    | [_], h1 =>
      cases h1
      simp only [List.mem_singleton] at h4
      subst h4
      cases h5
    | _ :: _ :: pre, h1 => simp at h1

/-- **C102**, refuted for subexpressions whose root operation is in a group: the subexpression of `+` also accepts `1|2`, with
    the operator of the other group. (expression.hpp l.533-546: the root operation only gives the minimal binding power.) -/
theorem C102_subexpr_refuted : ∃ t, value (exprEnv [49, 124, 50] inGroup) = some (some t, 3, []) ∧
    ∀ x, Start inGroup x → ∀ c ∈ chains x, ¬ Strat c t := by
  refine ⟨.inf 2 (.atom 0 1) (.atom 2 3), by decide +kernel, fun x hx c hc h => ?_⟩
  cases hx with
  | whole hr => cases hr
  | sub hr hb =>
    cases hr
    obtain ⟨pre, h1⟩ := below_chain hb hc
    simp only [inGroup, chains, chainsAll, List.map_cons, List.map_nil, List.append_nil, List.singleton_append,
      List.mem_cons, List.not_mem_nil, or_false] at h1
    simp only [chains, List.mem_map] at hc
    obtain ⟨c', -, rfl⟩ := hc
    obtain ⟨o, h2, h3⟩ := strat_ids h 2 (by simp [opsOf])
    rcases h1 with h1 | h1
    · have h4 : o ∈ pre ++ ⟨1, .infixLeft, [opLit [43] 31]⟩ :: c' := by simp only [List.mem_append]; exact .inr h2
      rw [h1] at h4
      simp only [List.mem_singleton] at h4
      subst h4
      cases h3
    · cases pre with
      | nil => simp at h1
      | cons _ pre => simp at h1

/-- **C102**, refuted for groups within groups: `1+2*3` is rejected, because `+` and `*` are in different groups, although `2*3`
    is an operand of `+`. (expression.hpp l.131-146: every group within a group is another one.) -/
theorem C102_nested_refuted : ∃ t x c, Start nestGroup x ∧ c ∈ chains x ∧ Strat c t ∧
    yield t = [.atom 0 1, .op 1, .atom 2 3, .op 2, .atom 4 5] ∧
    value (exprEnv [49, 43, 50, 42, 51] nestGroup) = some (some t, 5, [.error 43 3 4]) := by
  refine ⟨.inf 1 (.atom 0 1) (.inf 2 (.atom 2 3) (.atom 4 5)), _, [⟨1, .infixLeft, [opLit [43] 31]⟩,
    ⟨2, .infixLeft, [opLit [42] 32]⟩], .whole rfl, by simp [nestGroup, chains, chainsAll], ?_, rfl, by decide +kernel⟩
  exact .left (o := ⟨1, .infixLeft, [opLit [43] 31]⟩) rfl (.tighter (.tighter (.atom 0 1)))
    (.left (o := ⟨2, .infixLeft, [opLit [42] 32]⟩) rfl (.tighter (.atom 2 3)) (.atom 4 5))

/-- **C102**, refuted for an operation that is the operand of two groups: `1|-2` is rejected, where `-` is the operand of `+` in
    the one group and of `|` in the other. (expression.hpp l.131-146: it only belongs to the first group.) -/
theorem C102_shared_refuted : ∃ t x c, Start sharedOp x ∧ c ∈ chains x ∧ Strat c t ∧
    yield t = [.atom 0 1, .op 2, .op 3, .atom 3 4] ∧
    value (exprEnv [49, 124, 45, 50] sharedOp) = some (some t, 4, [.error 43 2 3]) := by
  refine ⟨.inf 2 (.atom 0 1) (.pre 3 (.atom 3 4)), _, [⟨2, .infixLeft, [opLit [124] 32]⟩,
    ⟨3, .prefix, [opLit [45] 33]⟩], .whole rfl, by simp [sharedOp, chains, chainsAll], ?_, rfl, by decide +kernel⟩
  exact .left (o := ⟨2, .infixLeft, [opLit [124] 32]⟩) rfl (.tighter (.tighter (.atom 0 1)))
    (.pre (o := ⟨3, .prefix, [opLit [45] 33]⟩) rfl (.tighter (.atom 3 4)))

/-! ## Examples -/

/-- The subexpression of `+` and `-`. -/
def Ex.subSum : ExprDef := { arith with root := some opSum }

theorem Ex.subSum_ok (s : List Nat) : ExprOk (exprEnv s subSum) 0 arithLvl where
  lits := (arith_ok s).lits
  lvl := (arith_ok s).lvl
  ids := (arith_ok s).ids
  rules := (arith_ok s).rules
  root := by
    intro o h
    cases h
    simp [exprEnv, subSum, arith, OpTree.all]

/-- The hypotheses of `C102_sound_partial` can be met, also for a subexpression: `1-2*3,4` ends before the comma. -/
example {r : Res} (h : exec (exprEnv [49, 45, 50, 42, 51, 44, 52] subSum) 60 ⟨some space, 0⟩ (.run (.expr 0)) { pos := 0 } = some r)
    (hq : ∀ ev ∈ r.evs, ev.isError = false) : ∃ t, r.st.ex.val = some t ∧ Strat [opSum, opMul, opNeg, opPow, opFac] t := by
  obtain ⟨t, xs, x, c, h1, -, -, h4, h5, h6⟩ := C102_sound_partial (subSum_ok _) (by
    intro p hp hk o ho hk' hne
    simp only [exprEnv, subSum, arith, OpTree.all, List.mem_cons, List.not_mem_nil, or_false] at hp ho
    rcases hp with rfl | rfl | rfl | rfl | rfl | rfl | rfl <;> first | cases hk | skip
    rcases ho with rfl | rfl | rfl | rfl | rfl | rfl | rfl <;> first | exact absurd rfl hne | decide)
    (by intro ro hro; cases hro; decide +kernel) h (by simp) hq
  refine ⟨t, h1, ?_⟩
  cases h4 with
  | whole hr => cases hr
  | sub hr hb =>
    cases hr
    have : c = [opSum, opMul, opNeg, opPow, opFac] := by
      obtain ⟨pre, h7⟩ := below_chain hb h5
      simp only [chains, List.mem_map] at h5
      obtain ⟨c', -, rfl⟩ := h5
      simp only [exprEnv, subSum, arith, chains, List.map_cons, List.map_nil, List.mem_singleton] at h7
      match pre, h7 with
      | [], h7 => simp [opSum, opComma] at h7
      | [_], h7 => simp [opSum, opEq] at h7
      | [_, _], h7 => simp at h7; simp [h7.2.2]
      | [_, _, _], h7 => simp [opSum, opMul] at h7
      | [_, _, _, _], h7 => simp [opSum, opNeg] at h7
      | [_, _, _, _, _], h7 => simp [opSum, opPow] at h7
      | [_, _, _, _, _, _], h7 => simp [opSum, opFac] at h7
      | _ :: _ :: _ :: _ :: _ :: _ :: _ :: pre, h7 => simp at h7
    rwa [this] at h6

example : value (exprEnv [49, 45, 50, 42, 51, 44, 52] subSum) =
    some (some (.inf 5 (.atom 0 1) (.inf 4 (.atom 2 3) (.atom 4 5))), 5, []) := by decide +kernel

/-- The hypotheses of `C102_complete_partial` can be met: `1-2*3`. -/
example : ∃ r, Exec sumIn ⟨some space, 0⟩ (.run (.expr 0)) { pos := 0 } r ∧ r.out = .ok
    ∧ r.st.ex.val = some (.inf 5 (.atom 0 1) (.inf 4 (.atom 2 3) (.atom 4 5))) ∧ r.st.pos = 5
    ∧ ∀ ev ∈ r.evs, ev.isError = false := by
  have hc : [opComma, opEq, opSum, opMul, opNeg, opPow, opFac] ∈ chains arith.ops := by simp [arith, chains]
  have hf : Flat arith.ops := .op (.op (.op (.op (.op (.op (.op .atom))))))
  refine C102_complete_partial (arith_ok _) hf (by decide) (.whole rfl) hc ?_ (.atom (sum_atom (by simp))
    (.op (sum_op (.inl ⟨rfl, rfl⟩)) (.atom (sum_atom (by simp)) (.op (sum_op (.inr ⟨rfl, rfl⟩)) (.atom (sum_atom (by simp))
      (.nil _)))))) ?_ ?_
  · exact .tighter (.tighter (.left (o := opSum) rfl (.tighter (.tighter (.tighter (.tighter (.tighter (.atom 0 1))))))
      (.left (o := opMul) rfl (.tighter (.tighter (.tighter (.tighter (.atom 2 3))))) (.tighter (.tighter (.tighter (.atom 4 5)))))))
  · decide +kernel
  · decide +kernel

end Verif
