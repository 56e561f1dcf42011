import Verif.ExprComplete

/-
Expressions: examples, and where the properties do not hold.
-/

namespace Verif

open Spec

mutual
def ETree.decEq : (a b : ETree) → Decidable (a = b)
  | .atom b e, .atom b' e' => if h : b = b' ∧ e = e' then .isTrue (by rw [h.1, h.2]) else .isFalse (by simpa using h)
  | .pre o t, .pre o' t' =>
    match ETree.decEq t t' with
    | .isTrue h => if h' : o = o' then .isTrue (by rw [h, h']) else .isFalse (by simp [h'])
    | .isFalse h => .isFalse (by simp [h])
  | .post o t, .post o' t' =>
    match ETree.decEq t t' with
    | .isTrue h => if h' : o = o' then .isTrue (by rw [h, h']) else .isFalse (by simp [h'])
    | .isFalse h => .isFalse (by simp [h])
  | .inf o l r, .inf o' l' r' =>
    match ETree.decEq l l', ETree.decEq r r' with
    | .isTrue h, .isTrue h2 => if h' : o = o' then .isTrue (by rw [h, h2, h']) else .isFalse (by simp [h'])
    | .isFalse h, _ => .isFalse (by simp [h])
    | _, .isFalse h => .isFalse (by simp [h])
  | .list o ts, .list o' ts' =>
    match ETree.decEqs ts ts' with
    | .isTrue h => if h' : o = o' then .isTrue (by rw [h, h']) else .isFalse (by simp [h'])
    | .isFalse h => .isFalse (by simp [h])
  | .atom .., .pre .. | .atom .., .post .. | .atom .., .inf .. | .atom .., .list ..
  | .pre .., .atom .. | .pre .., .post .. | .pre .., .inf .. | .pre .., .list ..
  | .post .., .pre .. | .post .., .atom .. | .post .., .inf .. | .post .., .list ..
  | .inf .., .pre .. | .inf .., .post .. | .inf .., .atom .. | .inf .., .list ..
  | .list .., .pre .. | .list .., .post .. | .list .., .inf .. | .list .., .atom .. => .isFalse nofun
def ETree.decEqs : (a b : List ETree) → Decidable (a = b)
  | [], [] => .isTrue rfl
  | [], _ :: _ | _ :: _, [] => .isFalse nofun
  | a :: as, b :: bs =>
    match ETree.decEq a b, ETree.decEqs as bs with
    | .isTrue h, .isTrue h2 => .isTrue (by rw [h, h2])
    | .isFalse h, _ => .isFalse (by simp [h])
    | _, .isFalse h => .isFalse (by simp [h])
end

instance : DecidableEq ETree := ETree.decEq

namespace Ex

theorem noExpr_els : NoExpr .els := ⟨fun r => r = .els, by rintro r rfl; simp [NoExprIn], rfl⟩

/-- Operations with plain literals only. -/
def plainOps (ops : List OpDef) : Bool :=
  ops.all fun o => o.lits.all fun l => l.1.kw.isNone && (match l.2.2 with | .els => true | _ => false)

theorem expr_ok {s : List Nat} {e : ExprDef} {lvl : OpDef → Nat} (hp : plainOps e.ops.all = true) (hf : e.fold = id)
    (hl : Leveled lvl 1 e.ops) (hi : (e.ops.all.map OpDef.id).Nodup) (hr : e.root = none) :
    ExprOk (exprEnv s e) 0 lvl where
  lits := by
    refine ⟨fun _ => by simp [exprEnv, hf], fun _ _ _ _ _ _ => nofun, fun o ho l hl o' ho' l' hl' _ => ?_⟩
    have h1 := List.all_eq_true.1 (List.all_eq_true.1 hp o ho) l hl
    have h2 := List.all_eq_true.1 (List.all_eq_true.1 hp o' ho') l' hl'
    simp only [Bool.and_eq_true, Option.isNone_iff_eq_none] at h1 h2
    rw [h1.1, h2.1]
  lvl := hl
  ids := by
    intro o ho p hpp h
    obtain ⟨m, hm, rfl⟩ := List.mem_iff_getElem.1 ho
    obtain ⟨n, hn, rfl⟩ := List.mem_iff_getElem.1 hpp
    have := (List.getElem_inj (i := m) (j := n) (h₀ := by simpa [exprEnv] using hm) (h₁ := by simpa [exprEnv] using hn) hi).1
      (by rw [List.getElem_map, List.getElem_map]; exact h)
    subst this
    rfl
  rules := by
    intro o ho l hl
    have h1 := List.all_eq_true.1 (List.all_eq_true.1 hp o ho) l hl
    obtain ⟨a, b, c⟩ := l
    simp only [Bool.and_eq_true] at h1
    obtain ⟨_, h2⟩ := h1
    split at h2
    · exact noExpr_els
    · cases h2
  root := by intro o h; simp [exprEnv, hr] at h

/-- The levels of `arith`. -/
def arithLvl (o : OpDef) : Nat := 8 - o.id

theorem arith_ok (s : List Nat) : ExprOk (exprEnv s) 0 arithLvl :=
  expr_ok rfl rfl (by simp [arith, Leveled, arithLvl, opComma, opEq, opSum, opMul, opNeg, opPow, opFac])
    (by decide) rfl

/-- The value of an expression, where it ends, and the errors. -/
def value (E : Env) : Option (Option ETree × Nat × List Ev) :=
  (exec E 60 ⟨some space, 0⟩ (.run (.expr 0)) { pos := 0 }).map fun r => (r.st.ex.val, r.st.pos, r.evs.filter Ev.isError)

/-- `1-2-3*4^5^6!==-7,8 ,9` is nested as `(((1-2)-(3*(4^(5^(6!)))))==-7),8,9`. -/
example : value (exprEnv [49, 45, 50, 45, 51, 42, 52, 94, 53, 94, 54, 33, 61, 61, 45, 55, 44, 56, 32, 44, 57]) =
    some (some (.list 7 [.inf 6 (.inf 5 (.inf 5 (.atom 0 1) (.atom 2 3))
      (.inf 4 (.atom 4 5) (.inf 2 (.atom 6 7) (.inf 2 (.atom 8 9) (.post 1 (.atom 10 11))))))
      (.pre 3 (.atom 15 16)), .atom 17 19, .atom 20 21]), 21, []) := by decide +kernel

/-- `1==2==3`: an error, but the value is nested to the left. -/
example : value (exprEnv [49, 61, 61, 50, 61, 61, 51]) =
    some (some (.inf 6 (.inf 6 (.atom 0 1) (.atom 3 4)) (.atom 6 7)), 7, [.error 42 4 6]) := by decide +kernel

/-- `**` binds looser than `+`, which binds looser than `*`. -/
def munch : ExprDef where
  atom := digit
  ops := .op ⟨1, .infixLeft, [opLit [42, 42] 31]⟩ (.op ⟨2, .infixLeft, [opLit [43] 32]⟩
    (.op ⟨3, .infixLeft, [opLit [42] 33]⟩ .atom))
  nestTag := 41

theorem munch_ok (s : List Nat) : ExprOk (exprEnv s munch) 0 OpDef.id :=
  expr_ok rfl rfl (by simp [munch, Leveled]) (by decide) rfl

/-- `===` binds looser than `==`, which cannot be chained. -/
def equal : ExprDef where
  atom := digit
  ops := .op ⟨1, .infixLeft, [opLit [61, 61, 61] 31]⟩ (.op ⟨2, .infixSingle, [opLit [61, 61] 32]⟩ .atom)
  chainTag := 42

theorem equal_ok (s : List Nat) : ExprOk (exprEnv s equal) 0 OpDef.id :=
  expr_ok rfl rfl (by simp [equal, Leveled]) (by decide) rfl

/-- `-` binds looser than `+`. -/
def loose : ExprDef where
  atom := digit
  ops := .op ⟨1, .prefix, [opLit [45] 31]⟩ (.op ⟨2, .infixLeft, [opLit [43] 32]⟩ .atom)

/-- At most two operators. -/
def two : ExprDef := { arith with maxNest := 2 }

/-- `1+2**3` -/
def munchIn : Env := exprEnv [49, 43, 50, 42, 42, 51] munch

/-- `1==2===3` -/
def equalIn : Env := exprEnv [49, 61, 61, 50, 61, 61, 61, 51] equal

/-- `1*2+3*4` -/
def twoIn : Env := exprEnv [49, 42, 50, 43, 51, 42, 52] two

end Ex

open Ex

/-- **C48**, refuted without the assumption that no other operator matches: `1+2**3` is `(1+2)**3`, and
    `+` and `**` are the longest operators where they are.  But an error is reported.  After the right
    operand of `+` only operators that bind tighter are tried, and `*` does. -/
theorem C48_munch_refuted : ∃ t, Nested (tableOf munch OpDef.id) t ∧ Unchained (tableOf munch OpDef.id) t
    ∧ yield t = [.atom 0 1, .op 2, .atom 2 3, .op 1, .atom 5 6]
    ∧ (parseOperator none id munch.ops.all (munchIn.inp.drop 1)).map (·.map fun x => (x.1.1.id, x.2)) = some (some (2, 1))
    ∧ (parseOperator none id munch.ops.all (munchIn.inp.drop 3)).map (·.map fun x => (x.1.1.id, x.2)) = some (some (1, 2))
    ∧ value munchIn = some (some (.atom 0 1), 4, [.error 14 4 4]) := by
  refine ⟨.inf 1 (.inf 2 (.atom 0 1) (.atom 2 3)) (.atom 5 6), ?_, ?_, rfl, by decide +kernel, by decide +kernel,
    by decide +kernel⟩
  · simp [Nested, hasKind, tableOf, munch, OpTree.all, rightEnd, leftEnd, LeftOk]
    exact ⟨_, _, ⟨rfl, rfl⟩, _, _, ⟨rfl, rfl⟩, by decide⟩
  · simp [Unchained, hasKind, tableOf, munch, OpTree.all]

/-- **C48**, refuted in the same way for operators that cannot be chained: `1==2===3` is `(1==2)===3`,
    but an error is reported that `==` was chained. -/
theorem C48_chain_refuted : ∃ t, Nested (tableOf equal OpDef.id) t ∧ Unchained (tableOf equal OpDef.id) t
    ∧ yield t = [.atom 0 1, .op 2, .atom 3 4, .op 1, .atom 7 8]
    ∧ (parseOperator none id equal.ops.all (equalIn.inp.drop 1)).map (·.map fun x => (x.1.1.id, x.2)) = some (some (2, 2))
    ∧ (parseOperator none id equal.ops.all (equalIn.inp.drop 4)).map (·.map fun x => (x.1.1.id, x.2)) = some (some (1, 3))
    ∧ value equalIn = some (some t, 8, [.error 42 4 6]) := by
  refine ⟨.inf 1 (.inf 2 (.atom 0 1) (.atom 3 4)) (.atom 7 8), ?_, ?_, rfl, by decide +kernel, by decide +kernel,
    by decide +kernel⟩
  · simp [Nested, hasKind, tableOf, equal, OpTree.all, rightEnd, leftEnd, LeftOk]
    exact ⟨_, _, ⟨rfl, rfl⟩, _, _, ⟨rfl, rfl⟩, by decide⟩
  · simp [Unchained, hasKind, tableOf, equal, OpTree.all, rightEnd]

/-- **C49**, refuted: `1*2+3*4` is nested two levels deep, but exceeds a maximal nesting level of 2. -/
theorem C49_refuted : ∃ t, Nested (tableOf two arithLvl) t ∧ height t = two.maxNest
    ∧ yield t = [.atom 0 1, .op 4, .atom 2 3, .op 5, .atom 4 5, .op 4, .atom 6 7]
    ∧ value twoIn = some (some (.inf 4 (.atom 0 1) (.atom 2 3)), 5, [.error two.nestTag 5 6])
    ∧ value (exprEnv twoIn.inp) = some (some t, 7, []) := by
  refine ⟨.inf 5 (.inf 4 (.atom 0 1) (.atom 2 3)) (.inf 4 (.atom 4 5) (.atom 6 7)), ?_, rfl, rfl, by decide +kernel,
    by decide +kernel⟩
  simp [Nested, hasKind, tableOf, two, arith, OpTree.all, rightEnd, leftEnd, LeftOk, RightOk, arithLvl, opComma, opEq, opSum,
    opMul, opNeg, opPow, opFac]
  exact ⟨⟨_, _, ⟨rfl, rfl⟩, _, _, ⟨rfl, rfl⟩, by decide⟩, ⟨_, _, ⟨rfl, rfl⟩, _, _, ⟨rfl, rfl⟩, by decide⟩⟩

/-- **C47** does not hold after an error: `-1+` is recovered with the value `1`; the prefix operator is
    lost. -/
theorem C47_recovery_refuted : value (exprEnv [45, 49, 43] loose) = some (some (.atom 1 2), 3, [.error 14 3 3]) := by
  decide +kernel

instance (l : Lit) (s : List Nat) : Decidable (l.Matches s) := by unfold Lit.Matches; infer_instance
instance (o : OpDef) (f : Nat → Nat) (s : List Nat) : Decidable (o.Hits f s) := by unfold OpDef.Hits; infer_instance
/-- `1-2*3` -/
def Ex.sumIn : Env := exprEnv [49, 45, 50, 42, 51]

theorem Ex.sum_atom {b : Nat} (hb : b = 0 ∨ b = 2 ∨ b = 4) : AtomAt sumIn ⟨some space, 0⟩ 0 {pos := 0} b (b + 1) where
  parse := by
    rintro ⟨p, v, d, w, x, y⟩ rfl ⟨h1, h2, h3⟩
    cases h1; cases h2; cases h3
    rcases hb with h | h | h <;> simp only at h <;> subst h <;>
      exact ⟨_, ⟨30, rfl⟩, rfl, rfl, ⟨rfl, rfl, rfl⟩, by simp [Calm, Ev.isError]⟩
  noOp := by
    rcases hb with rfl | rfl | rfl <;> decide +kernel

theorem Ex.sum_op {o : OpDef} {b : Nat} (ho : o = opSum ∧ b = 1 ∨ o = opMul ∧ b = 3) :
    OpAt sumIn ⟨some space, 0⟩ 0 {pos := 0} o b (b + 1) where
  mem := by rcases ho with ⟨rfl, rfl⟩ | ⟨rfl, rfl⟩ <;> simp [sumIn, exprEnv, arith, OpTree.all]
  only := by
    rcases ho with ⟨rfl, rfl⟩ | ⟨rfl, rfl⟩ <;>
    · intro o ho hk hh
      simp only [sumIn, exprEnv, arith, OpTree.all, List.mem_cons, List.not_mem_nil, or_false] at ho
      rcases ho with rfl | rfl | rfl | rfl | rfl | rfl | rfl <;>
        first | rfl | exact absurd hh (by decide +kernel) | exact absurd hk (by decide)
  lit := by
    rcases ho with ⟨rfl, rfl⟩ | ⟨rfl, rfl⟩
    · refine ⟨{ str := [45] }, .user 33, .els, by simp [opSum, opLit], by decide +kernel, ?_, ?_⟩
      · simp [opSum, opLit, Lit.Matches, sumIn, exprEnv, arith]
      · rintro ⟨p, v, d, w, x, y⟩ rfl ⟨h1, h2, h3⟩
        cases h1; cases h2; cases h3
        exact ⟨_, _, ⟨30, rfl⟩, rfl, ⟨30, rfl⟩, rfl, rfl, ⟨rfl, rfl, rfl⟩, by simp [Calm, Ev.isError]⟩
    · refine ⟨{ str := [42] }, .user 34, .els, by simp [opMul, opLit], by decide +kernel, ?_, ?_⟩
      · simp [opMul, opLit, Lit.Matches, sumIn, exprEnv, arith]
      · rintro ⟨p, v, d, w, x, y⟩ rfl ⟨h1, h2, h3⟩
        cases h1; cases h2; cases h3
        exact ⟨_, _, ⟨30, rfl⟩, rfl, ⟨30, rfl⟩, rfl, rfl, ⟨rfl, rfl, rfl⟩, by simp [Calm, Ev.isError]⟩

/-- The hypotheses of `C48_complete_partial` can be met: `1-2*3` is `1-(2*3)`. -/
example : ∃ r, Exec sumIn ⟨some space, 0⟩ (.run (.expr 0)) { pos := 0 } r ∧ r.out = .ok
    ∧ r.st.ex.val = some (.inf 5 (.atom 0 1) (.inf 4 (.atom 2 3) (.atom 4 5))) ∧ r.st.pos = 5
    ∧ ∀ ev ∈ r.evs, ev.isError = false := by
  refine C48_complete_partial (p := []) (arith_ok _) ?_ ?_ ?_ ?_ (.atom (sum_atom (by simp)) (.op (sum_op (.inl ⟨rfl, rfl⟩))
    (.atom (sum_atom (by simp)) (.op (sum_op (.inr ⟨rfl, rfl⟩)) (.atom (sum_atom (by simp)) (.nil _)))))) ?_ ?_
  · simp [Nested, hasKind, tableOf, exprEnv, arith, OpTree.all, rightEnd, leftEnd, LeftOk, RightOk, arithLvl, opComma, opEq, opSum,
      opMul, opNeg, opPow, opFac]
    exact ⟨_, _, ⟨rfl, rfl⟩, _, _, ⟨rfl, rfl⟩, by decide⟩
  · simp [Unchained, hasKind, tableOf, exprEnv, arith, OpTree.all, opComma, opEq, opSum, opMul, opNeg, opPow, opFac]
  · rintro ro ⟨h1, h2⟩ o ho hid
    simp only [arith, exprEnv, OpTree.all, List.mem_cons, List.not_mem_nil, or_false] at h2 ho
    obtain ⟨_, _, h2⟩ : _ ∧ ∃ t, _ := h2.resolve_left nofun
    cases h2
    rcases ho with rfl | rfl | rfl | rfl | rfl | rfl | rfl <;> first | exact .inr rfl | exact .inl (by decide)
  · decide +kernel
  · decide +kernel
  · decide +kernel

/-- ... and those of `C47_sound` and `C49_bound_partial`. -/
example : value sumIn = some (some (.inf 5 (.atom 0 1) (.inf 4 (.atom 2 3) (.atom 4 5))), 5, []) := by decide +kernel

/-- Either `+` and `*`, or `|` and `&`; `==` outside. -/
def Ex.mixed : ExprDef where
  atom := digit
  ops := .op ⟨1, .infixSingle, [opLit [61, 61] 31]⟩ (.groups [
    .op ⟨2, .infixLeft, [opLit [43] 32]⟩ (.op ⟨3, .infixLeft, [opLit [42] 33]⟩ .atom),
    .op ⟨4, .infixLeft, [opLit [124] 34]⟩ (.op ⟨5, .infixLeft, [opLit [38] 35]⟩ .atom)])
  groupTag := 43

def Ex.mixedLvl (o : OpDef) : Nat := if o.id ≤ 3 then o.id else o.id - 2

theorem Ex.mixed_ok (s : List Nat) : ExprOk (exprEnv s mixed) 0 mixedLvl :=
  expr_ok rfl rfl (by simp [mixed, Leveled, Leveled.LeveledAll, mixedLvl]) (by decide) rfl

/-- The hypotheses of `C68_groups` can be met: `1|2==3&4`. -/
example : value (exprEnv [49, 124, 50, 61, 61, 51, 38, 52] mixed) =
    some (some (.inf 1 (.inf 4 (.atom 0 1) (.atom 2 3)) (.inf 5 (.atom 5 6) (.atom 7 8))), 8, []) := by decide +kernel

/-- `1|2==3+4` is an error. -/
example : value (exprEnv [49, 124, 50, 61, 61, 51, 43, 52] mixed) =
    some (some (.inf 1 (.inf 4 (.atom 0 1) (.atom 2 3)) (.inf 2 (.atom 5 6) (.atom 7 8))), 8, [.error 43 6 7]) := by
  decide +kernel

end Verif
