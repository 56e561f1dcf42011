import Verif.CalcEval
import Verif.UnicodeClass
import Verif.CharClassProps
import Verif.Config

/-
The calculator example: parsing.

Source: /repo/examples/calculator.cpp l.245-441 (`grammar`), with the algorithm of /repo/include/lexy/dsl/expression.hpp l.50-563

The rules of the example are written out as functions on the remaining input; each is cited.  The input is UTF-8, whose EOF value is
0xFF; it is everything the user enters from here on.  `none` is an error; what is parsed after an error is not modelled.  The flag `nl`
is the current whitespace rule: with newlines inside of `nested_expr` (l.278), without otherwise (l.430).  Numbers bound the steps.
-/

namespace Verif.CalcP

open Verif.Calc (UnOp BinOp CmpOp Name)
open Verif.Em (lit newline isBlank)

/-- The objects that are created, calculator.cpp l.40-242, without their addresses.  `first` and `push` are the steps of `fold_inplace`
    (l.404-408) for a comparison: an operand, and an operator with another operand. -/
inductive Ast
  | literal (v : Nat)
  | name (n : Name)
  | unary (op : UnOp) (rhs : Ast)
  | binary (lhs : Ast) (op : BinOp) (rhs : Ast)
  | first (x : Ast)
  | push (c : Ast) (op : CmpOp) (x : Ast)
  | cond (condition then_ else_ : Ast)
  | call (f : Name) (argument : Ast)
  | assign (lhs rhs : Ast)
  deriving DecidableEq, Repr

/-- Skip whitespace: `ascii::space | escaped_newline` or `ascii::blank | escaped_newline`, calculator.cpp l.249, l.278 and l.430; a
    backslash in front of something else is an error. -/
def skipGo (nl : Bool) : Nat → List Nat → Option (List Nat)
  | 0, _ => none
  | _ + 1, [] => some []
  | n + 1, c :: s =>
    if isBlank c || (nl && Cfg.isSpace c) then skipGo nl n s else if c = 92 then (newline s).bind (skipGo nl n) else some (c :: s)

def skip (nl : Bool) (s : List Nat) : Option (List Nat) := skipGo nl (s.length + 1) s

/-- `dsl::unicode::xid_start_underscore`, `dsl::unicode::xid_continue`, unicode.hpp. -/
def isLead (c : Nat) : Bool := (UClass.cc .xidStartUnderscore).accepts c
def isCont (c : Nat) : Bool := (UClass.cc .xidContinue).accepts c

/-- The characters behind the first one of an identifier, identifier.hpp l.109-150. -/
def identTail : Nat → List Nat → List Nat × List Nat
  | 0, s => ([], s)
  | n + 1, s =>
    if (parseUtf8 s).error = .success ∧ isCont (parseUtf8 s).cp then
      (s.take (parseUtf8 s).len ++ (identTail n (s.drop (parseUtf8 s).len)).1, (identTail n (s.drop (parseUtf8 s).len)).2)
    else ([], s)

/-- `name`, calculator.cpp l.263-269; the whitespace behind it is not skipped yet. -/
def ident (s : List Nat) : Option (List Nat × List Nat) :=
  if (parseUtf8 s).error = .success ∧ isLead (parseUtf8 s).cp then
    some (s.take (parseUtf8 s).len ++ (identTail s.length (s.drop (parseUtf8 s).len)).1, (identTail s.length (s.drop (parseUtf8 s).len)).2)
  else none

/-- `integer<int, Base>`. -/
def number (b : Base) (s : List Nat) : Option (Nat × List Nat) :=
  match matchDigits b s with
  | (true, n) =>
    match boundedParse true (.plain Cfg.int32) b ((s.take n).map Int.ofNat) with
    | some (v, false) => some (v, s.drop n)
    | _ => none
  | (false, _) => none

/-- `integer`, calculator.cpp l.253-259. -/
def integer (s : List Nat) : Option (Nat × List Nat) :=
  match lit [48, 120] s with
  | some r => number .hex r
  | none => number .decimal s

/-- The infix operators, calculator.cpp l.312-398. -/
inductive Op
  | bin (o : BinOp)
  | cmp (o : CmpOp)
  | cond
  | assign
  deriving DecidableEq, Repr

/-- The level of an operation: the number of operations that lead to it from `assignment`, expression.hpp l.118-158. -/
def Op.level : Op → Nat
  | .assign => 1
  | .cond => 2
  | .cmp _ => 3
  | .bin .plus | .bin .minus | .bin .bitOr | .bin .bitXor => 4
  | .bin .times | .bin .div | .bin .bitAnd => 5
  | .bin .pow => 7

/-- The groups `groups<math_sum, bit_or>` are 1 and 2, calculator.cpp l.379; other operations are in no group. -/
def Op.group : Op → Nat
  | .bin .plus | .bin .minus | .bin .times | .bin .div | .bin .pow => 1
  | .bin .bitAnd | .bin .bitOr | .bin .bitXor => 2
  | _ => 0

/-- `binding_power::lhs`, expression.hpp l.59-66 and l.98-107. -/
def Op.lhs (o : Op) : Nat := if o = .bin .pow then 2 * o.level + 1 else 2 * o.level
/-- `binding_power::rhs`. -/
def Op.rhs (o : Op) : Nat := if o = .bin .pow then 2 * o.level else 2 * o.level + 1

/-- `math_prefix` and `bit_prefix`, calculator.cpp l.321-326 and l.353-358. -/
def unGroup : UnOp → Nat
  | .negate => 1
  | .complement => 2
/-- `binding_power::prefix`, expression.hpp l.67-71; the level is 6. -/
def unRhs : Nat := 2 * 6 + 1

/-- The longest literal of an infix operator at the beginning, calculator.cpp l.312-398; `*` and `=` are not followed by another one. -/
def opAt : List Nat → Option (Op × List Nat)
  | 42 :: 42 :: r => some (.bin .pow, r)
  | 42 :: r => some (.bin .times, r)
  | 47 :: r => some (.bin .div, r)
  | 43 :: r => some (.bin .plus, r)
  | 45 :: r => some (.bin .minus, r)
  | 38 :: r => some (.bin .bitAnd, r)
  | 124 :: r => some (.bin .bitOr, r)
  | 94 :: r => some (.bin .bitXor, r)
  | 61 :: 61 :: r => some (.cmp .equal, r)
  | 60 :: r => some (.cmp .less, r)
  | 63 :: r => some (.cond, r)
  | 61 :: r => some (.assign, r)
  | _ => none

/-- `parse_operator` for `post_operation_list_of`, expression.hpp l.213-242 and l.508. -/
def postOp (min : Nat) (s : List Nat) : Option (Op × List Nat) :=
  match opAt s with
  | some (o, r) => if min ≤ o.lhs then some (o, r) else none
  | none => none

/-- `parse_operator` for `pre_operation_list_of`, expression.hpp l.213-242 and l.470. -/
def preOp (min : Nat) (s : List Nat) : Option (UnOp × List Nat) :=
  if unRhs < min then none
  else
    match s with
    | 45 :: r => some (.negate, r)
    | 126 :: r => some (.complement, r)
    | _ => none

/-- `_state`, expression.hpp l.252-256. -/
structure St where
  group : Nat := 0
  nest : Nat := 0
  deriving DecidableEq, Repr

/-- The checks before an operation, expression.hpp l.416-447. -/
def enter (g : Nat) (st : St) : Option St :=
  if 256 ≤ st.nest then none
  else if g = 0 then some ⟨st.group, st.nest + 1⟩
  else if st.group = 0 then some ⟨g, st.nest + 1⟩
  else if st.group = g then some ⟨st.group, st.nest + 1⟩
  else none

mutual
/-- `_parse<min>`, expression.hpp l.487-530. -/
def expr : Nat → Bool → Nat → Nat → St → List Nat → Option (Ast × St × List Nat)
  | 0, _, _, _, _, _ => none
  | n + 1, nl, d, min, st, s => (lhs n nl d min st s).bind fun (e, st, r) => loop n nl d min e st r

/-- `_parse_lhs<min>`, expression.hpp l.453-484. -/
def lhs : Nat → Bool → Nat → Nat → St → List Nat → Option (Ast × St × List Nat)
  | 0, _, _, _, _, _ => none
  | n + 1, nl, d, min, st, s =>
    match preOp min s with
    | some (o, r) => (enter (unGroup o) st).bind fun st => (skip nl r).bind fun r =>
        (expr n nl d unRhs st r).map fun (e, st, r) => (.unary o e, st, r)
    | none => (atom n nl d s).map fun (e, r) => (e, st, r)

/-- The loop of `_parse<min>`, expression.hpp l.506-522. -/
def loop : Nat → Bool → Nat → Nat → Ast → St → List Nat → Option (Ast × St × List Nat)
  | 0, _, _, _, _, _, _ => none
  | n + 1, nl, d, min, e, st, s =>
    match postOp min s with
    | none => some (e, st, s)
    | some (o, r) => (enter o.group st).bind fun st => (skip nl r).bind fun r =>
        (operation n nl d e o st r).bind fun (e, st, r) => loop n nl d min e st r

/-- `_op_cont::parse`, expression.hpp l.264-405; the rule behind `?` is that of calculator.cpp l.387. -/
def operation : Nat → Bool → Nat → Ast → Op → St → List Nat → Option (Ast × St × List Nat)
  | 0, _, _, _, _, _, _ => none
  | n + 1, nl, d, e, o, st, s =>
    match o with
    | .bin b => (expr n nl d (Op.bin b).rhs st s).map fun (x, st, r) => (.binary e b x, st, r)
    | .cmp c => chain n nl d (.first e) c st s
    | .cond =>
      (nested n d s).bind fun (t, r) => (lit [58] r).bind fun r => (skip nl r).bind fun r =>
        (expr n nl d Op.cond.rhs st r).bind fun (f, st, r) =>
          match opAt r with
          | some (.cond, _) => none
          | _ => some (.cond e t f, st, r)
    | .assign =>
      (expr n nl d Op.assign.rhs st s).bind fun (x, st, r) =>
        match opAt r with
        | some (.assign, _) => none
        | _ => some (.assign e x, st, r)

/-- The loop of an `infix_op_list`, expression.hpp l.288-323: `c` is what the sink has got, and the operator `o`. -/
def chain : Nat → Bool → Nat → Ast → CmpOp → St → List Nat → Option (Ast × St × List Nat)
  | 0, _, _, _, _, _, _ => none
  | n + 1, nl, d, c, o, st, s =>
    (expr n nl d (Op.cmp o).rhs st s).bind fun (x, st, r) =>
      match opAt r with
      | some (.cmp o', r') => (skip nl r').bind fun r' => chain n nl d (.push c o x) o' st r'
      | _ => some (.push c o x, st, r)

/-- `atom`, calculator.cpp l.297-306. -/
def atom : Nat → Bool → Nat → List Nat → Option (Ast × List Nat)
  | 0, _, _, _ => none
  | n + 1, nl, d, s =>
    if s.head? = some 40 then
      (skip nl s.tail).bind fun r => (nested n d r).bind fun (e, r) => (lit [41] r).bind fun r => (skip nl r).map fun r => (e, r)
    else
      match ident s with
      | some (x, r) => (skip nl r).bind fun r =>
          if r.head? = some 40 then
            (skip nl r.tail).bind fun r => (nested n d r).bind fun (e, r) => (lit [41] r).bind fun r => (skip nl r).map fun r => (.call x e, r)
          else some (.name x, r)
      | none => (integer s).bind fun (v, r) => (skip nl r).map fun r => (.literal v, r)

/-- `nested_expr`, calculator.cpp l.274-283: whitespace is skipped before it (production.hpp l.60-75), and the depth of the recursion is
    limited (production.hpp l.138-160). -/
def nested : Nat → Nat → List Nat → Option (Ast × List Nat)
  | 0, _, _ => none
  | n + 1, d, s =>
    if 1024 ≤ d then none
    else (skip true s).bind fun r => (expr n true (d + 1) Op.assign.lhs {} r).map fun (e, _, r) => (e, r)
end

/-- An expression of a statement. -/
def topExpr (n : Nat) (s : List Nat) : Option (Ast × List Nat) :=
  (expr n false 0 Op.assign.lhs {} s).map fun (e, _, r) => (e, r)

/-- `peek(eol)`, calculator.cpp l.436. -/
def atEol (s : List Nat) : Bool := peek8 s == 0xFF || (newline s).isSome

/-- The items of the list, calculator.cpp l.437 and list.hpp l.184-298. -/
def items : Nat → List Nat → Option (List Ast)
  | 0, _ => none
  | n + 1, s =>
    (topExpr n s).bind fun (e, r) =>
      if atEol r then some [e]
      else if r.head? = some 59 then (skip false r.tail).bind fun r => (items n r).map (e :: ·)
      else none

/-- `stmt`, calculator.cpp l.424-441, with `n` steps. -/
def stmt (n : Nat) (s : List Nat) : Option (List Ast) :=
  (skip false s).bind fun r => if atEol r then some [] else items n r

end Verif.CalcP
