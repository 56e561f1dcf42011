/-
The calculator example: evaluation.

Source: /repo/examples/calculator.cpp l.15-243 (`ast`), l.449-468 (`main`)

`int` has 32 bits.  A node of the tree carries the address of the object.  Objects are owned by `std::shared_ptr`s: by the
object above, by the vector of statements while it is evaluated, and by the map of functions; so an object exists exactly if
it is part of one of the latter two.  Addresses of objects are not used twice.

Undefined behavior is an outcome of its own: overflow, division by zero, conversion of a `double` that does not fit, and
access to a member of an object that does not exist any more.  The elements of a `std::map` stay where they are, and no
variable is ever removed; `int*` is the name of the variable.

Not modelled: the depth of the stack, memory, what is printed on errors.  `std::pow` is taken to be exact where the result is
an integer below 2^31, and to be of smaller magnitude than 1 where the exact value is.
-/

namespace Verif.Calc

/-- `expr_unary_arithmetic::op_t`, calculator.cpp l.68-72. -/
inductive UnOp
  | negate | complement
  deriving DecidableEq, Repr

/-- `expr_binary_arithmetic::op_t`, l.93-103. -/
inductive BinOp
  | plus | minus | times | div | pow | bitAnd | bitOr | bitXor
  deriving DecidableEq, Repr

/-- `expr_comparison::op_t`, l.140-144. -/
inductive CmpOp
  | equal | less
  deriving DecidableEq, Repr

abbrev Name := List Nat

/-- The classes derived from `expr`, l.40-242; `a` is the address of the object.  The operators and operands of a comparison
    are the first operand and pairs of an operator and an operand. -/
inductive Obj
  | literal (a : Nat) (v : Int)
  | name (a : Nat) (n : Name)
  | unary (a : Nat) (op : UnOp) (rhs : Obj)
  | binary (a : Nat) (lhs : Obj) (op : BinOp) (rhs : Obj)
  | comparison (a : Nat) (first : Obj) (rest : List (CmpOp × Obj))
  | cond (a : Nat) (condition then_ else_ : Obj)
  | call (a : Nat) (f : Name) (argument : Obj)
  | assign (a : Nat) (lhs rhs : Obj)

/-- The address of an object. -/
def Obj.addr : Obj → Nat
  | .literal a _ | .name a _ | .unary a _ _ | .binary a _ _ _ | .comparison a _ _ | .cond a _ _ _ | .call a _ _
  | .assign a _ _ => a

mutual
/-- The objects owned by an object, and itself. -/
def Obj.owned : Obj → List Nat
  | .literal a _ => [a]
  | .name a _ => [a]
  | .unary a _ r => a :: r.owned
  | .binary a l _ r => a :: (l.owned ++ r.owned)
  | .comparison a x xs => a :: (x.owned ++ ownedRest xs)
  | .cond a c t e => a :: (c.owned ++ (t.owned ++ e.owned))
  | .call a _ x => a :: x.owned
  | .assign a l r => a :: (l.owned ++ r.owned)
def ownedRest : List (CmpOp × Obj) → List Nat
  | [] => []
  | (_, x) :: xs => x.owned ++ ownedRest xs
end

/-- `environment`, l.22-32; a missing element is `none`. -/
structure Env where
  vars : Name → Option Int := fun _ => none
  fns : List (Name × Name × Obj) := []

def Env.setVar (e : Env) (n : Name) (v : Int) : Env := { e with vars := fun m => if m = n then some v else e.vars m }

def Env.findFn (e : Env) (f : Name) : Option (Name × Obj) := (e.fns.find? fun x => x.1 == f).map (·.2)

/-- `env.fns[f] = …`: the old element is gone. -/
def Env.setFn (e : Env) (f p : Name) (body : Obj) : Env :=
  { e with fns := (f, p, body) :: e.fns.filter fun x => x.1 != f }

/-- Whether the object at `a` exists; `stmts` are the statements being evaluated. -/
def alive (stmts : List Obj) (e : Env) (a : Nat) : Bool :=
  stmts.any (fun o => o.owned.contains a) || e.fns.any fun x => x.2.2.owned.contains a

def intMin : Int := -2147483648
def intMax : Int := 2147483647

/-- The result of an arithmetic operation; `none` is undefined behavior. -/
def fit (v : Int) : Option Int := if intMin ≤ v ∧ v ≤ intMax then some v else none

/-- l.82-86. -/
def UnOp.eval : UnOp → Int → Option Int
  | .negate, v => fit (-v)
  | .complement, v => some (~~~(BitVec.ofInt 32 v)).toInt

/-- `static_cast<int>(std::pow(lhs, rhs))`, l.125; see above. -/
def powInt (a b : Int) : Option Int :=
  if 0 ≤ b then fit (a ^ b.toNat)
  else if a = 0 then none
  else if a = 1 then some 1
  else if a = -1 then some (if b % 2 = 0 then 1 else -1)
  else some 0

/-- l.114-132. -/
def BinOp.eval : BinOp → Int → Int → Option Int
  | .plus, a, b => fit (a + b)
  | .minus, a, b => fit (a - b)
  | .times, a, b => fit (a * b)
  | .div, a, b => if b = 0 then none else fit (a.tdiv b)
  | .pow, a, b => powInt a b
  | .bitAnd, a, b => some (BitVec.ofInt 32 a &&& BitVec.ofInt 32 b).toInt
  | .bitOr, a, b => some (BitVec.ofInt 32 a ||| BitVec.ofInt 32 b).toInt
  | .bitXor, a, b => some (BitVec.ofInt 32 a ^^^ BitVec.ofInt 32 b).toInt

/-- l.154-164. -/
def CmpOp.eval : CmpOp → Int → Int → Bool
  | .equal, a, b => decide (a = b)
  | .less, a, b => decide (a < b)

/-- The outcome of an evaluation. -/
inductive Out
  | val (v : Int) (e : Env)
  | ub
  | steps

/-- What is evaluated: an object, or the loop of a comparison in the object at `a`. -/
inductive What
  | obj (o : Obj)
  | loop (a : Nat) (lhs : Int) (rest : List (CmpOp × Obj))

/-- Evaluate an operand of the object at `a`, and go on with a member function of that object, which has to exist still. -/
def Out.bind (stmts : List Obj) (a : Nat) (r : Out) (f : Int → Env → Out) : Out :=
  match r with
  | .val v e => if alive stmts e a then f v e else .ub
  | r => r

/-- The result is returned, no matter whether the object exists. -/
def Out.ret (r : Out) (f : Int → Env → Out) : Out :=
  match r with
  | .val v e => f v e
  | r => r

def ofOpt (e : Env) : Option Int → Out
  | some v => .val v e
  | none => .ub

/-- `evaluate` with at most `n` nested calls, l.46-241.  `late`: the compiler evaluates `*param` in l.204 after the other
    argument, not before. -/
def eval (late : Bool) (stmts : List Obj) : Nat → What → Env → Out
  | 0, _, _ => .steps
  | n + 1, w, e =>
    match w with
    | .obj (.literal _ v) => .val v e
    -- l.58-63
    | .obj (.name _ x) => .val ((e.vars x).getD 0) e
    -- l.77-88
    | .obj (.unary a op r) =>
      (eval late stmts n (.obj r) e).bind stmts a fun v e1 => ofOpt e1 (op.eval v)
    -- l.110-135
    | .obj (.binary a l op r) =>
      (eval late stmts n (.obj l) e).bind stmts a fun v e1 =>
        (eval late stmts n (.obj r) e1).bind stmts a fun w e2 => ofOpt e2 (op.eval v w)
    -- l.148-168
    | .obj (.comparison a x xs) =>
      (eval late stmts n (.obj x) e).bind stmts a fun v e1 => eval late stmts n (.loop a v xs) e1
    | .loop _ _ [] => .val 1 e
    | .loop a v ((op, x) :: xs) =>
      (eval late stmts n (.obj x) e).bind stmts a fun w e1 =>
        if op.eval v w then eval late stmts n (.loop a w xs) e1 else .val 0 e1
    -- l.179-185; nothing is read after the second evaluation
    | .obj (.cond a c t f) =>
      (eval late stmts n (.obj c) e).bind stmts a fun v e1 =>
        if v ≠ 0 then eval late stmts n (.obj t) e1 else eval late stmts n (.obj f) e1
    -- l.197-208; `param` and `body` refer to the element of the map, not to this object
    | .obj (.call _ f x) =>
      match e.findFn f with
      | none => .val 0 e
      | some (p, _) =>
        (eval late stmts n (.obj x) e).ret fun v e1 =>
          match e1.findFn f with
          | none => .ub
          | some (p1, body) =>
            let q := if late then p1 else p
            let old := (e1.vars q).getD 0
            (eval late stmts n (.obj body) (e1.setVar q v)).ret fun r e2 =>
              match e2.findFn f with
              | none => .ub
              | some (p2, _) => .val r (e2.setVar p2 old)
    -- l.219-241; `operator[]` of the map is evaluated after the right hand side
    | .obj (.assign a l r) =>
      match l with
      | .name _ x => (eval late stmts n (.obj r) e).bind stmts a fun v e1 => .val v (e1.setVar x v)
      | .call _ f (.name _ p) =>
        .val 0 ((if (e.vars p).isSome then e else e.setVar p 0).setFn f p r)
      | _ => .val 0 e

/-- The statements of one input, l.460-464; the value of the last. -/
def evalList (late : Bool) (stmts : List Obj) (n : Nat) : List Obj → Int → Env → Out
  | [], v, e => .val v e
  | s :: ss, _, e => (eval late stmts n (.obj s) e).ret fun v e1 => evalList late stmts n ss v e1

/-- `main`, l.453-467: the inputs one after the other; the values printed. -/
def session (late : Bool) (n : Nat) : List (List Obj) → Env → Option (List Int × Env)
  | [], e => some ([], e)
  | ss :: rest, e =>
    if ss.isEmpty then session late n rest e
    else
      match evalList late ss n ss 0 e with
      | .val v e1 => (session late n rest e1).map fun r => (v :: r.1, r.2)
      | _ => none

end Verif.Calc
