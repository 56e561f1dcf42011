import Verif.GrammarEx

/-
An example expression grammar.
-/

namespace Verif.Ex

def opLit (w : List Nat) (kind : Nat) (r : Rule := .els) : Lit × Kind × Rule := ({ str := w }, .user kind, r)

/-- `!`: postfix. -/
def opFac : OpDef := ⟨1, .postfix, [opLit [33] 31]⟩
/-- `^`: infix, right associative. -/
def opPow : OpDef := ⟨2, .infixRight, [opLit [94] 32]⟩
/-- `-`: prefix. -/
def opNeg : OpDef := ⟨3, .prefix, [opLit [45] 33]⟩
/-- `*` and `**`: infix, left associative. -/
def opMul : OpDef := ⟨4, .infixLeft, [opLit [42] 34, opLit [42, 42] 35]⟩
/-- `+` and `-`: infix, left associative. -/
def opSum : OpDef := ⟨5, .infixLeft, [opLit [43] 36, opLit [45] 33]⟩
/-- `==`: infix, at most once. -/
def opEq : OpDef := ⟨6, .infixSingle, [opLit [61, 61] 37]⟩
/-- `,`: infix, a list. -/
def opComma : OpDef := ⟨7, .infixList, [opLit [44] 38]⟩

/-- Atoms are digits and expressions in parentheses. -/
def arith : ExprDef where
  atom := .chc [digit, .br open_ (.seq (.recu 1 21 true) close)]
  ops := .op opComma (.op opEq (.op opSum (.op opMul (.op opNeg (.op opPow (.op opFac .atom))))))
  nestTag := 41
  chainTag := 42
  groupTag := 43

def exprEnv (s : List Nat) (e : ExprDef := arith) : Env where
  inp := s
  prods := fun n => match n with
    | 0 => { rule := .prod 1, ws := some space }
    | _ => { rule := .expr 0 }
  exprs := fun _ => e

end Verif.Ex
