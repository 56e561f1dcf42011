import Verif.ExprValueProps
import Verif.ExprWitness

/-
Examples for the values of expressions, and the case in which the documented value is not the one computed.
-/

namespace Verif.ExV

open Spec Ex

/-! ## A calculator -/

/-- A digit, or the symbol of an operator. -/
abbrev CalcV := Nat

/-- The value of an operation of `arith`; a list is summed up.  `b` are the values of atoms and operators: the code unit of the
    digit or of the operator. -/
def calcCb : List (CalcV ⊕ Int) → Int
  | [.inl d] => (d : Int) - 48
  | [.inl _, .inr x] => -x
  | [.inr x, .inl _] => 10 * x
  | [.inr x, .inl o, .inr y] => if o = 43 then x + y else if o = 45 then x - y else if o = 42 then x * y
      else if o = 94 then x ^ y.toNat else if x = y then 1 else 0
  | _ => 0

def calcFin (l : List (List (CalcV ⊕ Int))) : Int :=
  l.foldl (fun s a => match a with | [.inr x] => s + x | _ => s) 0

def calcCfg (s : List Nat) : Cfg Int CalcV where
  cb := calcCb
  fin := calcFin
  atomVals st := [s.getD st.pos 0]
  opVals _ _ b _ := [s.getD b 0]

theorem arith_atom (s : List Nat) : NoExpr ((exprEnv s).exprs 0).atom := by
  refine ⟨fun r => r = arith.atom ∨ r = digit ∨ r = .br open_ (.seq (.recu 1 21 true) close) ∨ r = open_ ∨
    r = .seq (.recu 1 21 true) close ∨ r = .recu 1 21 true ∨ r = close ∨ r = .prod 1, ?_, .inl rfl⟩
  rintro r (rfl | rfl | rfl | rfl | rfl | rfl | rfl | rfl) <;> simp [NoExprIn, arith, digit, open_, close]

/-- The hypotheses of `C97_value_partial` can be met. -/
theorem calc_ok (s : List Nat) : ValOk (calcCfg s) (exprEnv s) 0 arithLvl where
  ok := arith_ok s
  atom := arith_atom s
  list := by intros; simp [calcCfg]

/-- The value of an expression, where it ends, and the errors. -/
def calcOf (s : List Nat) : Option (Option Int × Nat × List Ev) :=
  (exprV (calcCfg s) (exprEnv s) 0 ⟨some space, 0⟩ 60 { pos := 0 }).map fun r => (r.val, r.res.st.pos, r.res.evs.filter Ev.isError)

/-- `1-2-3*4`. -/
example : calcOf [49, 45, 50, 45, 51, 42, 52] = some (some (-13), 7, []) := by decide +kernel
/-- `-2^3^1,4 ,5`. -/
example : calcOf [45, 50, 94, 51, 94, 49, 44, 52, 32, 44, 53] = some (some 1, 11, []) := by decide +kernel
/-- `3-2==2,7`. -/
example : calcOf [51, 45, 50, 61, 61, 50, 44, 55] = some (some 7, 8, []) := by decide +kernel
/-- `1+2*`: the second operand of `*` is missing, hence `+` has no second operand either; the value is that of `1`. -/
example : (calcOf [49, 43, 50, 42]).map (fun r => (r.1, r.2.2.length)) = some (some 1, 1) := by decide +kernel
/-- `-2^`: the second operand of `^` is missing, hence `-` has no operand; but the value is that of `2`, not none. -/
example : (calcOf [45, 50, 94]).map (fun r => (r.1, r.2.2.length)) = some (some 2, 1) := by decide +kernel

/-! ## An operator without values -/

/-- Whether the sink is called without arguments. -/
def noArgs : Cfg Bool Nat where
  cb _ := false
  fin l := l.any List.isEmpty
  atomVals _ := [0]
  opVals _ _ _ _ := []

mutual
theorem noArgs_value : ∀ T : VTree Nat, T.value noArgs = false
  | .atom .. => rfl
  | .pre .. => rfl
  | .post .. => rfl
  | .inf .. => rfl
  | .list _ ts rest => by
    show List.any _ List.isEmpty = false
    rw [List.any_append, noArgs_args ts]
    unfold passed
    split <;> simp_all
theorem noArgs_args : ∀ ts : VItems Nat, (ts.args noArgs).any List.isEmpty = false
  | .one t => rfl
  | .snoc ts vs t => by
    show List.any (_ ++ _ ++ _) List.isEmpty = false
    rw [List.any_append, List.any_append, noArgs_args ts]
    unfold passed
    split <;> simp_all [operand, noArgs]
end

/-- **C97** refuted in general: for an operator without values (`dsl::op<void>`), the sink of an `infix_op_list` is called
    without arguments for the first operator (expression.hpp l.291), but not for the others, which are passed with
    `lexy::sink_parser`, that calls the sink only if there are arguments (dsl/base.hpp l.186-187).  With `lexy::as_list`, whose
    `emplace_back()` then inserts an element (callback/container.hpp l.41-46), `1,2,3` has four elements. -/
theorem C97_void_op_refuted : ¬ ∀ (α β : Type) (c : Cfg α β) (E : Env) (i : Nat) (lvl : OpDef → Nat) (cx : Cx) (n : Nat) (st : St)
    (r : R α β), ExprOk E i lvl → NoExpr (E.exprs i).atom → st.pos ≤ E.inp.length → exprV c E i cx n st = some r →
    (∀ ev ∈ r.res.evs, ev.isError = false) → ∃ T : VTree β, r.val = some (T.value c) := by
  intro h
  have key : ((exprV noArgs (exprEnv [49, 44, 50, 44, 51]) 0 ⟨some space, 0⟩ 60 { pos := 0 }).map fun r =>
      (r.val, r.res.evs.all fun ev => !ev.isError)) = some (some true, true) := by decide +kernel
  obtain ⟨r, hr, hv⟩ := Option.map_eq_some_iff.1 key
  simp only [Prod.mk.injEq, List.all_eq_true, Bool.not_eq_true'] at hv
  obtain ⟨T, hT⟩ := h Bool Nat noArgs _ 0 arithLvl _ 60 _ r (arith_ok _) (arith_atom _) (Nat.zero_le _) hr hv.2
  rw [hv.1, noArgs_value] at hT
  cases hT

/-- The calls of the sink for `1,2,3`: one without arguments. -/
example : ((exprV noArgs (exprEnv [49, 44, 50, 44, 51]) 0 ⟨some space, 0⟩ 60 { pos := 0 }).map fun r =>
    r.invs.filterMap fun x => match x with | .sink a => some a.length | _ => none) = some [1, 0, 1, 1] := by decide +kernel

end Verif.ExV
