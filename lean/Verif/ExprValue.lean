import Verif.ExprProps

/-
The values of expressions: which callbacks are called with what, and the value of the production.

Source: /repo/include/lexy/dsl/expression.hpp l.263-558, operator.hpp l.104-131, dsl/base.hpp l.181-193,
action/base.hpp l.106-118 (`final_parser`)

`Verif.exec` (Grammar.lean) builds the shape of the value (`ETree`); here, `context.value` is the value itself.  The
callback and the sink are any functions; the values of an atom and those of an operator (its tag, then the values of the
rule behind) are any functions of the state in which they are parsed; for the rules of Values.lean they are given by C79.
-/

namespace Verif.ExV

/-- A call of the callback of the production, of its sink, or of the `finish` of the sink.  `β` are the values of atoms and
    operators, `α` is the type of the values of the production. -/
inductive Inv (α β : Type)
  | call (args : List (β ⊕ α))
  | sink (args : List (β ⊕ α))
  | finish

/-- The callback of the production, its sink (a function of the arguments of all the calls), whether the type of the value is
    `void`, and the values of atoms and operators. -/
structure Cfg (α β : Type) where
  cb : List (β ⊕ α) → α
  fin : List (List (β ⊕ α)) → α
  void : Bool := false
  atomVals : St → List β
  opVals : Kind → Rule → Nat → St → List β

variable {α β : Type}

/-- The values of an atom or operator as arguments. -/
def own (vs : List β) : List (β ⊕ α) := vs.map .inl

/-- An operand as argument of the callback, expression.hpp l.347-352, l.372-377, l.397-402. -/
def Cfg.opnd (c : Cfg α β) (v : α) : List (β ⊕ α) := if c.void then [] else [.inr v]

/-- An operand is given to the sink, l.286-287 and l.301-302. -/
def Cfg.sinkOpnd (c : Cfg α β) (v : α) : List (List (β ⊕ α)) := if c.void then [] else [[.inr v]]

structure R (α β : Type) where
  res : Res
  val : Option α
  invs : List (Inv α β)

def emitV (evs : List Ev) (x : Option (R α β)) : Option (R α β) :=
  x.map fun r => ⟨⟨r.res.out, r.res.st, evs ++ r.res.evs⟩, r.val, r.invs⟩
def invV (is : List (Inv α β)) (x : Option (R α β)) : Option (R α β) := x.map fun r => ⟨r.res, r.val, is ++ r.invs⟩
def thenV (x : Option (R α β)) (f : Out → St → Option α → Option (R α β)) : Option (R α β) :=
  match x with
  | none => none
  | some r => (f r.res.out r.res.st r.val).map fun r' =>
    ⟨⟨r'.res.out, r'.res.st, r.res.evs ++ r'.res.evs⟩, r'.val, r.invs ++ r'.invs⟩
def onOkV (x : Option (R α β)) (f : St → Option α → Option (R α β)) : Option (R α β) :=
  thenV x fun o st v => match o with
    | .ok => f st v
    | .fail => some ⟨⟨.fail, st, []⟩, v, []⟩
    | .brk => none
def framedV (n : Nat) (x : Option (R α β)) : Option (R α β) :=
  x.map fun r => { r with res := { r.res with st := r.res.st.frame n } }
/-- An atom or the rule of an operator: `context.value` does not change. -/
def ofRes (v : Option α) (x : Option Res) : Option (R α β) := x.map fun r => ⟨r, v, []⟩

/-- The functions of `_expr`. -/
inductive C (α β : Type)
  | parse (min : Nat)
  | lhs (min : Nat)
  | loop (min : Nat)
  | apply (o : OpDef) (k : Kind) (r : Rule) (b : Nat)
  | list (o : OpDef) (items : List ETree) (acc : List (List (β ⊕ α)))

section Step

variable (c : Cfg α β) (E : Env) (i : Nat) (ex : Cx → Cmd → St → Option Res) (cx : Cx)
  (rec : C α β → St → Option α → Option (R α β))

/-- `_op_cont::parse` for infix operators, expression.hpp l.355-390. -/
def infixV (o : OpDef) (single : Bool) (vs : List β) (st : St) (v : Option α) : Option (R α β) :=
  let e := E.exprs i
  thenV (rec (.parse (e.bpOf o).rhs) { st with ex := { st.ex with val := none } } none) fun out st' v' =>
    match out with
    | .brk => none
    -- l.360-365: put it back
    | .fail => some ⟨⟨.fail, { st' with ex := { st'.ex with val := st.ex.val } }, []⟩, v, []⟩
    | .ok =>
      match st.ex.val, st'.ex.val, v, v' with
      | some lhs, some rhs, some l, some r =>
        let st'' := { st' with ex := { st'.ex with val := some (.inf o.id lhs rhs) } }
        let args := c.opnd l ++ own vs ++ c.opnd r
        let done (evs : List Ev) : Option (R α β) := some ⟨⟨.ok, st'', evs ++ [.opOp o.id st'.pos]⟩, some (c.cb args), [.call args]⟩
        if single then
          match parseOperator E.eof e.fold [o] (E.inp.drop st'.pos) with
          | none => none
          | some none => done []
          | some (some (_, n)) => done [.error e.chainTag st'.pos (st'.pos + n)]
        else done []
      | _, _, _, _ => none

/-- `_op_cont::parse`, expression.hpp l.266-407; `vs` are the values of the operator. -/
def contV (o : OpDef) (vs : List β) (st : St) (v : Option α) : Option (R α β) :=
  match o.kind with
  -- l.279-292: the sink is called for the operand and for the operator
  | .infixList =>
    match st.ex.val, v with
    | some t, some w =>
      invV ((c.sinkOpnd w ++ [own vs]).map .sink)
        (rec (.list o [t] (c.sinkOpnd w ++ [own vs])) { st with ex := { st.ex with val := none } } none)
    | _, _ => none
  -- l.338-353
  | .prefix =>
    onOkV (rec (.parse ((E.exprs i).bpOf o).rhs) st v) fun st' v' =>
      match st'.ex.val, v' with
      | some t, some w =>
        some ⟨⟨.ok, { st' with ex := { st'.ex with val := some (.pre o.id t) } }, [.opOp o.id st'.pos]⟩,
          some (c.cb (own vs ++ c.opnd w)), [.call (own vs ++ c.opnd w)]⟩
      | _, _ => none
  -- l.391-403
  | .postfix =>
    match st.ex.val, v with
    | some t, some w =>
      some ⟨⟨.ok, { st with ex := { st.ex with val := some (.post o.id t) } }, [.opOp o.id st.pos]⟩,
        some (c.cb (c.opnd w ++ own vs)), [.call (c.opnd w ++ own vs)]⟩
    | _, _ => none
  | .infixSingle => infixV c E i rec o true vs st v
  | _ => infixV c E i rec o false vs st v

/-- `sink_parser`, dsl/base.hpp l.181-193: the sink is called if there are arguments. -/
def sinkOp (vs : List β) : List (List (β ⊕ α)) := if vs.isEmpty then [] else [own vs]

def stepV (a : C α β) (st : St) (v : Option α) : Option (R α β) :=
  match a with
  -- `_parse`, expression.hpp l.485-525
  | .parse min =>
    if ((E.exprs i).postOps min).isEmpty then rec (.lhs min) st v
    else
      emitV [.opStart st.pos]
        (thenV (onOkV (rec (.lhs min) st v) fun st' v' => rec (.loop min) st' v') fun o st' v' =>
          some ⟨⟨o, st', [.opFinish st'.pos]⟩, v', []⟩)
  | .loop min =>
    match parseOperator E.eof (E.exprs i).fold ((E.exprs i).postOps min) (E.inp.drop st.pos) with
    | none => none
    | some none => some ⟨⟨.ok, st, []⟩, v, []⟩
    | some (some ((o, k, r), n)) =>
      onOkV (framedV st.vars.length (rec (.apply o k r st.pos) { st with pos := st.pos + n } v))
        fun st' v' => rec (.loop min) st' v'
  -- `_parse_lhs`, l.453-483; the atom is parsed with `final_parser`, which calls the callback
  | .lhs min =>
    match parseOperator E.eof (E.exprs i).fold ((E.exprs i).preOps min) (E.inp.drop st.pos) with
    | none => none
    | some none =>
      onOkV (ofRes v (framed st.vars.length (ex cx (.run (E.exprs i).atom) st))) fun st' _ =>
        some ⟨⟨.ok, { st' with ex := { st.ex with val := some (.atom st.pos st'.pos) } }, []⟩,
          some (c.cb (own (c.atomVals st))), [.call (own (c.atomVals st))]⟩
    | some (some ((o, k, r), n)) =>
      emitV [.opStart st.pos]
        (thenV (framedV st.vars.length (rec (.apply o k r st.pos) { st with pos := st.pos + n } v)) fun out st' v' =>
          some ⟨⟨out, st', [.opFinish st'.pos]⟩, v', []⟩)
  -- `_continuation::parse`, l.409-450
  | .apply o k r b =>
    let e := E.exprs i
    let bp := e.bpOf o
    if st.ex.nest ≥ e.maxNest then
      some ⟨⟨.fail, { st with pos := b, ex := { st.ex with nest := st.ex.nest + 1 } }, [.error e.nestTag b st.pos]⟩, v, []⟩
    else
      let group := if bp.group ≠ 0 ∧ st.ex.group = 0 then bp.group else st.ex.group
      let errs : List Ev := if bp.group ≠ 0 ∧ st.ex.group ≠ 0 ∧ st.ex.group ≠ bp.group then
        [.error e.groupTag b st.pos] else []
      let st1 : St := { st with ex := { st.ex with nest := st.ex.nest + 1, group := group } }
      emitV errs (onOkV (ofRes v (opFinish ex cx k r b st1)) fun st' v' => contV c E i rec o (c.opVals k r b st1) st' v')
  -- the loop for `infix_op_list`, l.294-335
  | .list o items acc =>
    let e := E.exprs i
    let done : List ETree → St → ExSt := fun ts st' => { st'.ex with val := some (.list o.id ts) }
    thenV (rec (.parse (e.bpOf o).rhs) st v) fun out st1 v1 =>
      match out with
      | .brk => none
      | .fail => some ⟨⟨.fail, { st1 with ex := done items st1 }, []⟩, some (c.fin acc), [.finish]⟩
      | .ok =>
        match st1.ex.val, v1 with
        | some t, some w =>
          let acc1 := acc ++ c.sinkOpnd w
          invV ((c.sinkOpnd w).map .sink)
            (match parseOperator E.eof e.fold [o] (E.inp.drop st1.pos) with
            | none => none
            | some none =>
              some ⟨⟨.ok, { st1 with ex := done (items ++ [t]) st1 }, [.opOp o.id st1.pos]⟩, some (c.fin acc1), [.finish]⟩
            | some (some ((_, k, r), n)) =>
              let st1' : St := { st1 with pos := st1.pos + n, ex := { st1.ex with val := none } }
              let vs := c.opVals k r st1.pos st1'
              thenV (framedV st1.vars.length (ofRes none (opFinish ex cx k r st1.pos st1'))) fun out st2 v2 =>
                match out with
                | .brk => none
                | .fail => some ⟨⟨.fail, { st2 with ex := done (items ++ [t]) st2 }, []⟩, some (c.fin acc1), [.finish]⟩
                | .ok => invV ((sinkOp vs).map .sink) (rec (.list o (items ++ [t]) (acc1 ++ sinkOp vs)) st2 v2))
        | _, _ => none

end Step

def runV (c : Cfg α β) (E : Env) (i : Nat) (cx : Cx) : Nat → C α β → St → Option α → Option (R α β)
  | 0, _, _, _ => none
  | n + 1, a, st, v => stepV c E i (exec E n) cx (runV c E i cx n) a st v

/-- `_expr::p::parse`, l.527-558: the value of the production and the calls. -/
def exprV (c : Cfg α β) (E : Env) (i : Nat) (cx : Cx) (n : Nat) (st : St) : Option (R α β) :=
  thenV (runV c E i cx n (.parse (E.exprs i).minBP) { st with ex := {} } none) fun o st' v =>
    match o with
    | .brk => none
    | _ => some ⟨⟨if v.isSome then .ok else .fail, st', []⟩, v, []⟩

end Verif.ExV
