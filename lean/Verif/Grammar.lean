import Verif.Trace
import Verif.Digit

/-
Model of the parsing rules (rule combinators), as an interpreter of grammars.

Source: /repo/include/lexy/dsl/*.hpp, /repo/include/lexy/action/base.hpp, /repo/include/lexy/grammar.hpp

The code composes parsers in continuation passing style: `parser_for<Rule, NextParser>::parse` calls
`NextParser::parse` where the rule succeeded.  Apart from `try_` (recover.hpp l.217-281), which observes whether its
continuation was reached, no rule looks at what its continuation did, so the model is in direct style: a rule ends
with `ok` where the code calls the continuation, with `fail` where it returns false and with `brk` where it returns
true without calling the continuation (`break_`).
`try_parse` of a branch is const, so what it remembers for `finish` and `cancel` is recomputed by them.
A grammar is given by tables of productions and expressions; recursion is unrolled by a step counter (`exec`).
Result `none`: the steps do not suffice, or an assertion is violated, or the rule would not compile.

Simplifications
 * values are in Values.lean, except for the shape of expressions, context variables and counts;
 * every token reports exactly one error when it does not match;
 * `cancel()` of a choice after its `finish()` failed (only in `_lstt`, list.hpp l.223-240) would report branches that
   were never tried with null positions, here they get the position of the choice.
-/

namespace Verif

/-- A token rule with its own token parser: `tp::try_parse` and `tp::end`. -/
structure PTok where
  kind : Kind
  tag : Nat
  run : List Nat → TokRes
  le : ∀ s, (run s).2 ≤ s.length

/-- A rule that is not built from other rules: `p::parse` (for the input and a position, the outcome, the final
    position and the events), and `bp::try_parse`/`bp::finish` if it is a branch.
    `ws`: does it skip whitespace afterwards? -/
structure PRule where
  ws : Bool
  parse : List Nat → Nat → Bool × Nat × List Ev
  branch : Option (List Nat → Nat → Bool)
  finish : List Nat → Nat → Bool × Nat × List Ev
  parse_tr : ∀ s p, p ≤ s.length →
    Tr s.length p (if (parse s p).1 then .ok else .fail) (parse s p).2.2 (parse s p).2.1
  finish_tr : ∀ s p, p ≤ s.length →
    Tr s.length p (if (finish s p).1 then .ok else .fail) (finish s p).2.2 (finish s p).2.1
  /-- a branch that is taken goes on like the rule -/
  coh : ∀ f s p, branch = some f → f s p = true → finish s p = parse s p
  /-- a failure is reported -/
  fails : ∀ s p, (parse s p).1 = false → ∃ ev ∈ (parse s p).2.2, ev.isError = true
  finish_fails : ∀ s p, (finish s p).1 = false → ∃ ev ∈ (finish s p).2.2, ev.isError = true
  /-- errors are reported for where the rule begins or behind it -/
  errs : ∀ s p, p ≤ (parse s p).2.1 ∧ ErrOk p (parse s p).2.2
  finish_errs : ∀ s p, p ≤ (finish s p).2.1 ∧ ErrOk p (finish s p).2.2

/-- A trie built from needles and limits (`_look_trie`, lookahead.hpp l.25-45): `some (true, n)` for a needle of
    length `n`, `some (false, n)` for a limit. -/
structure LookFn where
  run : List Nat → Option (Bool × Nat)
  le : ∀ s b n, run s = some (b, n) → n ≤ s.length

/-- The kinds of separators, separator.hpp l.68-127; the tag of `trailing_error`. -/
inductive SepKind
  | sep (tag : Nat) | trailing | ignoreTrailing
  deriving DecidableEq, Repr

/-- A context variable, action/base.hpp l.19-64. -/
inductive Var
  | flag (b : Bool) | counter (i : Int) | ident (w : List Nat)
  deriving DecidableEq, Repr

/-- What a variable is found by, action/base.hpp l.42-50: the address of `parse_context_var<Id, T>::type_id`, so both the
    identifier and the type of the value. -/
inductive VarKey
  | flag (id : Nat) | counter (id : Nat) | ident (id : Nat)
  deriving DecidableEq, Repr

def Var.key (id : Nat) : Var → VarKey
  | .flag _ => .flag id
  | .counter _ => .counter id
  | .ident _ => .ident id

/-- What `try_` does to recover, recover.hpp l.18-203: `_recovery_wrapper`, `_find` and `_reco` with its limit. -/
inductive RecovOf (R : Type)
  | wrap (r : R)
  | find (l : LookFn)
  | reco (limit : List Nat → Bool) (rs : List R)

/-- The `ElseRule` of a combination: `void`, `break_` (`partial_combination`) or an error (`missing_error`),
    combination.hpp l.124-149. -/
inductive CombElse
  | none | brk | err (tag : Nat)
  deriving DecidableEq, Repr

/-- Rules. -/
inductive Rule
  | tok (t : PTok)
  /-- `dsl::token(rule)`, token.hpp l.175-221 -/
  | tokr (kind : Kind) (tag : Nat) (r : Rule)
  | prim (p : PRule)
  /-- `_else`, branch.hpp l.115-122; also the empty sequence -/
  | els
  /-- `operator+`, sequence.hpp -/
  | seq (a b : Rule)
  /-- `operator>>`, branch.hpp l.12-36 -/
  | br (c r : Rule)
  /-- `operator|`, choice.hpp -/
  | chc (rs : List Rule)
  /-- `if_`, if.hpp l.12-33 -/
  | ifR (b : Rule)
  /-- `opt`, option.hpp l.55-76; like `if_`, apart from its value -/
  | opt (b : Rule)
  | loop (r : Rule)
  | brk
  | whl (b : Rule)
  /-- `dsl::error<Tag>(rule)`, error.hpp l.21-61 -/
  | err (tag : Nat) (r : Option Rule)
  /-- `dsl::must`, error.hpp l.70-96 -/
  | must (b e : Rule)
  /-- `dsl::list`, list.hpp l.14-129 -/
  | lst (item : Rule) (sep : Option (Rule × SepKind))
  /-- `terminator.list`, list.hpp l.165-444; the limit of the recovery -/
  | lstt (term item : Rule) (sep : Option (Rule × SepKind)) (limit : List Nat → Bool)
  /-- `terminator.opt`, option.hpp l.94-116 -/
  | optt (term r : Rule)
  /-- `_tryt`, recover.hpp l.217-281 -/
  | tryt (term : Option Rule) (r : Rule) (rec : RecovOf Rule)
  /-- `_tryr`, recover.hpp l.283-326 -/
  | tryr (r : Rule) (rec : RecovOf Rule)
  /-- `dsl::p`, production.hpp l.34-123 -/
  | prod (n : Nat)
  /-- `dsl::recurse` and `dsl::recurse_branch`, production.hpp l.143-245 -/
  | recu (n tag : Nat) (branch : Bool)
  /-- `peek`, `peek_not`, peek.hpp; the tag of the error -/
  | peek (tag : Nat) (r : Rule)
  | peekn (tag : Nat) (r : Rule)
  /-- `lookahead`, lookahead.hpp l.47-126 -/
  | look (tag : Nat) (l : LookFn)
  /-- `no_whitespace`, whitespace.hpp l.237-305 -/
  | wsn (r : Rule)
  /-- `whitespace(rule)`, whitespace.hpp l.197-225 -/
  | wsr (r : Rule)
  /-- `position(rule)`, position.hpp l.26-67 -/
  | posr (r : Rule)
  /-- `repeat(count)(item, sep)`, repeat.hpp; the count is a function of what the rule `c` consumed -/
  | rep (c : Rule) (f : List Nat → Nat) (item : Rule) (sep : Option (Rule × SepKind))
  /-- `_nsep`, separator.hpp l.24-66 -/
  | nsep (tag : Nat) (b : Rule)
  /-- `combination`, `partial_combination`, combination.hpp l.63-149; `els` is the `ElseRule` -/
  | comb (tag : Nat) (rs : List Rule) (els : CombElse)
  /-- `_comb_it<Idx>`, combination.hpp l.40-61 -/
  | combIt (i : Nat)
  /-- `context_flag`, `context_counter`, `context_identifier`: `create()`, context_flag.hpp l.15-31,
      context_counter.hpp l.28-44, context_identifier.hpp l.27-43; unlinking is `framed` -/
  | varCreate (id : Nat) (v : Var)
  /-- `_ctx_fset`, context_flag.hpp l.33-46 -/
  | flagSet (id : Nat) (b : Bool)
  /-- `_ctx_ftoggle`, context_flag.hpp l.48-62 -/
  | flagToggle (id : Nat)
  /-- `_ctx_fis`, context_flag.hpp l.64-89 -/
  | flagIs (id : Nat) (b : Bool)
  /-- `_ctx_cadd`, context_counter.hpp l.46-59 -/
  | cntAdd (id : Nat) (d : Int)
  /-- `_ctx_cpush`, context_counter.hpp l.61-117 -/
  | cntPush (id : Nat) (r : Rule) (sign : Int)
  /-- `_ctx_cis`, context_counter.hpp l.119-144 -/
  | cntIs (id : Nat) (v : Int)
  /-- `_ctx_ceq`, context_counter.hpp l.161-204 -/
  | cntEq (tag id : Nat) (ids : List Nat)
  /-- `context_identifier.capture()`, context_identifier.hpp l.45-63; `len` is the length of the identifier -/
  | idCap (id : Nat) (r : PRule) (len : List Nat → Nat)
  /-- `context_identifier.rematch()`, context_identifier.hpp l.65-145; the identifier pattern -/
  | idRem (id tag : Nat) (t : PTok)
  /-- `_expr`, expression.hpp l.254-552 -/
  | expr (i : Nat)

abbrev Sep := Rule × SepKind
abbrev Recov := RecovOf Rule

/-- A production: its rule, its whitespace rule if it defines one, whether it is a token production, whether it is
    transparent, and whether `_prd<P>` is a branch (`_copy_base<production_rule<P>>`, production.hpp l.34-39). -/
structure ProdDef where
  rule : Rule
  ws : Option Rule := none
  isTok : Bool := false
  transparent : Bool := false
  branch : Bool := true

/-- The kinds of operations, expression.hpp l.37-50. -/
inductive OpKind
  | infixLeft | infixRight | infixList | infixSingle | prefix | postfix
  deriving DecidableEq, Repr

/-- An operation: `op` is `dsl::op(lit >> rule) / ...`, operator.hpp l.104-330: the literals, their token kinds and the
    rules behind. -/
structure OpDef where
  id : Nat
  kind : OpKind
  lits : List (Lit × Kind × Rule)

/-- The `operation`/`operand` types of an expression production, expression.hpp l.23-35. -/
inductive OpTree
  | atom
  | op (o : OpDef) (operand : OpTree)
  | groups (gs : List OpTree)

/-- An expression production, expression.hpp l.582-597; `root` is the `RootOperation` of a subexpression. -/
structure ExprDef where
  atom : Rule
  ops : OpTree
  root : Option OpDef := none
  maxNest : Nat := 256
  fold : Nat → Nat := id
  nestTag : Nat := 0
  chainTag : Nat := 0
  groupTag : Nat := 0

/-- `binding_power`, expression.hpp l.56-96. -/
structure BP where
  group : Nat
  lhs : Nat
  rhs : Nat
  deriving DecidableEq, Repr

/-- `get_binding_power`, expression.hpp l.98-115. -/
def OpKind.bp (k : OpKind) (group level : Nat) : BP :=
  match k with
  | .infixLeft | .infixList | .infixSingle => ⟨group, 2 * level, 2 * level + 1⟩
  | .infixRight => ⟨group, 2 * level + 1, 2 * level⟩
  | .prefix => ⟨group, 0, 2 * level + 1⟩
  | .postfix => ⟨group, 2 * level + 1, 0⟩

def BP.isValid (b : BP) : Bool := b.lhs > 0 || b.rhs > 0

mutual
/-- `_binding_power_of::transition`, expression.hpp l.117-156. -/
def OpTree.bpOf (dest group level : Nat) : OpTree → BP
  | .atom => ⟨group, 0, 0⟩
  | .op o operand =>
    if o.id = dest then o.kind.bp group (level + 1) else operand.bpOf dest group (level + 1)
  | .groups gs => OpTree.bpOfGroups dest group level gs
/-- The fold over the groups, expression.hpp l.132-146. -/
def OpTree.bpOfGroups (dest group level : Nat) : List OpTree → BP
  | [] => ⟨group, 0, 0⟩
  | g :: gs =>
    let r := g.bpOf dest (group + 1) level
    if r.isValid then r else OpTree.bpOfGroups dest r.group level gs
end

mutual
/-- `_operation_list_of<Pre, MinBindingPower>::get<CurLevel>`, expression.hpp l.211-238. -/
def OpTree.opList (pre : Bool) (min level : Nat) : OpTree → List OpDef
  | .atom => []
  | .groups gs => OpTree.opListGroups pre min level gs
  | .op o operand =>
    let tail := operand.opList pre min (level + 1)
    let bp := o.kind.bp 0 level
    let isPrefix := o.kind == .prefix
    if isPrefix = pre ∧ ((isPrefix ∧ bp.rhs ≥ min) ∨ (!isPrefix ∧ bp.lhs ≥ min)) then tail ++ [o] else tail
/-- The fold over the groups. -/
def OpTree.opListGroups (pre : Bool) (min level : Nat) : List OpTree → List OpDef
  | [] => []
  | g :: gs => g.opList pre min level ++ OpTree.opListGroups pre min level gs
end

namespace ExprDef

/-- `binding_power_of<Expr>(Operation)`, expression.hpp l.158-163. -/
def bpOf (e : ExprDef) (o : OpDef) : BP := e.ops.bpOf o.id 0 0

def preOps (e : ExprDef) (min : Nat) : List OpDef := e.ops.opList true min 1
def postOps (e : ExprDef) (min : Nat) : List OpDef := e.ops.opList false min 1

/-- `min_binding_power` of `_expr::p::parse`, expression.hpp l.535-543. `operation` may be `groups` or `atom`: then
    nothing is found and both powers are 0. -/
def minBP (e : ExprDef) : Nat :=
  let b : BP := match e.root with
    | some o => e.bpOf o
    | none => match e.ops with
      | .op o _ => e.bpOf o
      | _ => ⟨0, 0, 0⟩
  if b.lhs = 0 then b.rhs else b.lhs

end ExprDef

/-- The literals of a list of operations with the operation they belong to, `operation_list::ops` and `apply`,
    expression.hpp l.185-209. -/
def flatLits (ops : List OpDef) : List (OpDef × Lit × Kind × Rule) :=
  ops.flatMap fun o => o.lits.map fun l => (o, l)

/-- `op_lit_list::_build_trie`, operator.hpp l.52-64. -/
def buildOps (ls : List Lit) : Trie :=
  (ls.foldl (fun (st : Trie × Nat × Nat) l =>
    (st.1.insertLit l st.2.2 st.2.1, st.2.1 + 1, st.2.2 + (if l.kw.isSome then 1 else 0))) (Trie.empty, 0, 0)).1

/-- `parse_operator`, operator.hpp l.82-91: the operator and the units consumed. -/
def parseOperator (eof : Option Nat) (fold : Nat → Nat) (ops : List OpDef) (s : List Nat) :
    Option (Option ((OpDef × Kind × Rule) × Nat)) :=
  let fl := flatLits ops
  match (buildOps (fl.map (·.2.1))).tryMatch (litClasses (fl.map (·.2.1))) eof fold fold 0 s with
  | none => none
  | some none => some none
  | some (some (idx, n)) =>
    match fl[idx]? with
    | none => some none
    | some (o, _, k, r) => if n ≤ s.length then some (some ((o, k, r), n)) else none

/-- The shape of the value of an expression; atoms by the range they were parsed from. -/
inductive ETree
  | atom (b e : Nat)
  | pre (op : Nat) (t : ETree)
  | post (op : Nat) (t : ETree)
  | inf (op : Nat) (l r : ETree)
  | list (op : Nat) (ts : List ETree)

/-- `_expr::_state` and `context.value`, expression.hpp l.257-261. -/
structure ExSt where
  group : Nat := 0
  nest : Nat := 0
  val : Option ETree := none

/-- The reader and the control block (action/base.hpp l.66-103), plus what belongs to the current production
    context (`ex`) or combination (`idx`). -/
structure St where
  pos : Nat
  vars : List (VarKey × Var) := []
  depth : Nat := 0
  wsOn : Bool := true
  idx : Nat := 0
  ex : ExSt := {}

/-- The context: the whitespace rule (`production_whitespace`) and `max_depth`. -/
structure Cx where
  ws : Option Rule := none
  maxDepth : Nat := 1024

/-- The grammar and the input. -/
structure Env where
  inp : List Nat
  eof : Option Nat := none
  prods : Nat → ProdDef
  exprs : Nat → ExprDef

structure Res where
  out : Out
  st : St
  evs : List Ev

/-- `unlink` of all variables created since there were `n`, action/base.hpp l.34-39: the older ones keep their
    current values. -/
def St.frame (st : St) (n : Nat) : St := { st with vars := st.vars.drop (st.vars.length - n) }

/-- `parse_context_var::get`, action/base.hpp l.54-63. -/
def getVar (key : VarKey) : List (VarKey × Var) → Option Var
  | [] => none
  | (i, v) :: vs => if i = key then some v else getVar key vs

/-- Assignment to the variable found by `get`. -/
def setVar (key : VarKey) (v : Var) : List (VarKey × Var) → List (VarKey × Var)
  | [] => []
  | (i, w) :: vs => if i = key then (i, v) :: vs else (i, w) :: setVar key v vs

def getFlag (id : Nat) (vs : List (VarKey × Var)) : Option Bool :=
  match getVar (.flag id) vs with
  | some (.flag b) => some b
  | _ => none

def getCounter (id : Nat) (vs : List (VarKey × Var)) : Option Int :=
  match getVar (.counter id) vs with
  | some (.counter i) => some i
  | _ => none

def getIdent (id : Nat) (vs : List (VarKey × Var)) : Option (List Nat) :=
  match getVar (.ident id) vs with
  | some (.ident w) => some w
  | _ => none

/-- Sequencing: events are collected. -/
def andThen (x : Option Res) (f : Out → St → Option Res) : Option Res :=
  match x with
  | none => none
  | some r => (f r.out r.st).map fun r' => ⟨r'.out, r'.st, r.evs ++ r'.evs⟩

/-- The continuation is called. -/
def onOk (x : Option Res) (f : St → Option Res) : Option Res :=
  andThen x fun o st => match o with
    | .ok => f st
    | o => some ⟨o, st, []⟩

/-- For continuations that are not reachable for `break_` (it would not compile there). -/
def onOk' (x : Option Res) (f : St → Option Res) : Option Res :=
  andThen x fun o st => match o with
    | .ok => f st
    | .fail => some ⟨.fail, st, []⟩
    | .brk => none

def ret (o : Out) (st : St) : Option Res := some ⟨o, st, []⟩
def emit (evs : List Ev) (x : Option Res) : Option Res := x.map fun r => ⟨r.out, r.st, evs ++ r.evs⟩

/-- Variables created inside are gone afterwards. -/
def framed (n : Nat) (x : Option Res) : Option Res := x.map fun r => { r with st := r.st.frame n }

/-- What the interpreter can be asked to do: parse a rule; the three functions of a branch parser; match as a token;
    skip whitespace; and the loops. -/
inductive Cmd
  | run (r : Rule)
  | btry (r : Rule)
  | bcancel (r : Rule)
  | bfinish (r : Rule)
  | chcTry (rs : List Rule)
  | chcRun (rs : List Rule)
  | chcCancel (rs : List Rule)
  | chcFinish (rs : List Rule)
  | tokTry (r : Rule)
  | ws
  | skip (r : Rule)
  | tokLoop (r : Rule)
  | loopR (r : Rule)
  | whlR (b : Rule)
  | lstLoop (item : Rule) (sep : Option Sep)
  | ltTerm (term item : Rule) (sep : Option Sep) (limit : List Nat → Bool)
  | ltSep (term item : Rule) (sep : Option Sep) (limit : List Nat → Bool)
  | ltTrail (sepPos : Nat) (term item : Rule) (sep : Option Sep) (limit : List Nat → Bool)
  | ltItem (term item : Rule) (sep : Option Sep) (limit : List Nat → Bool)
  | ltRec (begin_ : Nat) (term item : Rule) (sep : Option Sep) (limit : List Nat → Bool)
  | recov (r : Recov)
  | recoLoop (begin_ : Nat) (limit : List Nat → Bool) (rs : List Rule)
  | repTail (k : Nat) (item : Rule) (sep : Option Sep)
  | combLoop (tag : Nat) (rs : List Rule) (n : Nat) (handled : List Nat) (count : Nat)
  | exParse (i min : Nat)
  | exLhs (i min : Nat)
  | exLoop (i min : Nat)
  | exApply (i : Nat) (o : OpDef) (k : Kind) (r : Rule) (b : Nat)
  | exList (i : Nat) (o : OpDef) (items : List ETree)

/-- `lexy::is_unconditional_branch_rule`. -/
def Rule.uncond : Rule → Bool
  | .els | .brk | .err .. => true
  | .br c _ => c.uncond
  | .wsn r | .posr r | .tryr r _ | .cntPush _ r _ => r.uncond
  | .lst item _ => item.uncond
  | .rep c .. => c.uncond
  | _ => false

/-- `lexy::is_branch_rule`. -/
def Rule.isBranch (E : Env) : Rule → Bool
  | .tok _ | .tokr .. | .els | .brk | .err .. | .must .. | .peek .. | .peekn .. | .look .. | .flagIs .. | .cntIs ..
  | .cntEq .. | .idRem .. => true
  | .prim p => p.branch.isSome
  | .idCap .. => true
  | .br c _ => c.isBranch E
  | .chc rs => !rs.any Rule.uncond
  | .lst item _ => item.isBranch E
  | .tryr r _ => r.isBranch E
  | .prod n => (E.prods n).branch && (E.prods n).ws.isNone
  | .recu _ _ b => b
  | .wsn r | .posr r | .cntPush _ r _ => r.isBranch E
  | .rep c .. => c.isBranch E
  | _ => false

/-- The trailing rule of a separator, separator.hpp l.72, 101, 121; `if_` of an unconditional branch is the branch. -/
def trailingRule : Option Sep → Rule
  | none => .els
  | some (r, .sep tag) => .nsep tag r
  | some (r, .trailing) => if r.uncond then r else .ifR r
  | some (_, .ignoreTrailing) => .els

/-- `report_trailing_error`, separator.hpp l.74-82, 103-106, 123-126. -/
def trailingError (k : SepKind) (b e : Nat) : List Ev :=
  match k with
  | .sep tag => [.error tag b e]
  | _ => []

/-- `ws_production::rule`, whitespace.hpp l.23-34; a choice is extended. -/
def wsRule : Rule → Rule
  | .wsr r => wsRule r
  | .chc rs => .loop (.chc (rs ++ [.brk]))
  | r => .loop (.chc [r, .brk])

/-- `lexy::is_token_rule`. -/
def Rule.isToken : Rule → Bool
  | .tok _ | .tokr .. => true
  | _ => false

/-- The choice of a combination, combination.hpp l.66-74. -/
def combRules (rs : List Rule) (els : CombElse) : List Rule :=
  rs.zipIdx.map (fun p => .br p.1 (.combIt p.2)) ++ match els with
    | .none => []
    | .brk => [.brk]
    | .err tag => [.err tag none]

/-- The loop of `lookahead`, lookahead.hpp l.66-85: success and distance of `end`. -/
def lookScan (l : LookFn) (eof : Option Nat) : List Nat → Bool × Nat
  | [] => match l.run [] with
    | some (b, n) => (b, n)
    | none => (false, 0)
  | u :: s => match l.run (u :: s) with
    | some (b, n) => (b, n)
    | none => if peekEof eof (u :: s) then (false, 0) else let r := lookScan l eof s; (r.1, r.2 + 1)

/-- The loop of `_find`, recover.hpp l.80-103: success and distance of the position *before* the needle or limit. -/
def findScan (l : LookFn) (eof : Option Nat) : List Nat → Bool × Nat
  | [] => match l.run [] with
    | some (b, _) => (b, 0)
    | none => (false, 0)
  | u :: s => match l.run (u :: s) with
    | some (b, _) => (b, 0)
    | none => if peekEof eof (u :: s) then (false, 0) else let r := findScan l eof s; (r.1, r.2 + 1)

/-- The context of the sub production, `_pc::sub_context`, action/base.hpp l.135-146. -/
def Cx.sub (cx : Cx) (d : ProdDef) : Cx :=
  { cx with ws := match d.ws with
      | some r => some r
      | none => if d.isTok then none else cx.ws }

section Step

variable (E : Env) (rec : Cx → Cmd → St → Option Res)

/-- A nested action with its own control block (`do_action` with a production without whitespace and
    `max_recursion_depth = 0`): token.hpp l.192-202, error.hpp l.32-45, whitespace.hpp l.150-154.
    The caller keeps its own control block; result: outcome, end, events. -/
def nested (r : Rule) (pos : Nat) : Option (Bool × Nat × List Ev) :=
  match rec ⟨none, 0⟩ (.run r) { pos := pos } with
  | none => none
  | some ⟨.ok, st, evs⟩ => some (true, st.pos, evs)
  | some ⟨.fail, st, evs⟩ => some (false, st.pos, evs)
  | some ⟨.brk, _, _⟩ => none

/-- A token that was matched from `st.pos` to `e`: event, `reader.reset`, whitespace.  token.hpp l.63-70, 97-98, 109-113. -/
def tokenDone (cx : Cx) (k : Kind) (e : Nat) (st : St) : Option Res :=
  emit [.token k st.pos e] (rec cx .ws { st with pos := e })

/-- `token_base::p::parse` for the result `(b, e)` of the token parser, token.hpp l.73-115. -/
def tokenParse (cx : Cx) (k : Kind) (tag : Nat) (b : Bool) (e : Nat) (st : St) : Option Res :=
  if b then tokenDone rec cx k e st
  else some ⟨.fail, { st with pos := e }, [.token .error st.pos e, .error tag st.pos e]⟩

/-- The result of a rule that is not built from others. -/
def primDone (cx : Cx) (ws : Bool) (r : Bool × Nat × List Ev) (st : St) : Option Res :=
  emit r.2.2 (if r.1 then (if ws then rec cx .ws { st with pos := r.2.1 } else ret .ok { st with pos := r.2.1 })
    else ret .fail { st with pos := r.2.1 })

/-- `if (branch.try_parse(...))` -/
def ifTry (cx : Cx) (c : Cmd) (st : St) (yes no : Option Res) : Option Res :=
  match rec cx c st with
  | none => none
  | some ⟨.ok, _, _⟩ => yes
  | some _ => no

/-- `_prd`: the production around `body`, production.hpp l.40-75 and l.100-121. -/
def production (cx : Cx) (n : Nat) (body : Cx → St → Option Res) (st : St) : Option Res :=
  let d := E.prods n
  emit [.prodStart n st.pos]
    (andThen (framed st.vars.length (body (cx.sub d) { st with ex := {} })) fun o st' =>
      match o with
      | .ok => emit [.prodFinish n st'.pos]
          (if d.isTok then rec cx .ws { st' with ex := st.ex } else ret .ok { st' with ex := st.ex })
      | .fail => some ⟨.fail, { st' with ex := st.ex }, [.prodCancel n st'.pos]⟩
      | .brk => none)

/-- `increment_depth`, production.hpp l.149-176, around `body`. -/
def deeper (cx : Cx) (tag : Nat) (st : St) (body : St → Option Res) : Option Res :=
  if cx.maxDepth = 0 then none
  else if st.depth ≥ cx.maxDepth then some ⟨.fail, st, [.error tag st.pos st.pos]⟩
  else onOk' (body { st with depth := st.depth + 1 }) fun st' => ret .ok { st' with depth := st'.depth - 1 }

/-- `parser_for<Rule, NextParser>::parse`. -/
def stepRun (cx : Cx) (st : St) : Rule → Option Res
  | .tok t =>
    let r := t.run (E.inp.drop st.pos)
    tokenParse rec cx t.kind t.tag r.1 (st.pos + r.2) st
  | .tokr k tag r =>
    match rec cx (.tokTry (.tokr k tag r)) st with
    | none => none
    | some r' => tokenParse rec cx k tag (r'.out == .ok) r'.st.pos st
  | .prim p => primDone rec cx p.ws (p.parse E.inp st.pos) st
  | .els => ret .ok st
  | .seq a b => onOk (rec cx (.run a) st) fun st' => rec cx (.run b) st'
  | .br c r => onOk (rec cx (.run c) st) fun st' => rec cx (.run r) st'
  | .chc rs => rec cx (.chcRun rs) st
  | .ifR b | .opt b =>
    ifTry rec cx (.btry b) st (rec cx (.bfinish b) st)
      (onOk' (rec cx (.bcancel b) st) fun st' => ret .ok st')
  | .loop r => rec cx (.loopR r) st
  | .brk => ret .brk st
  | .whl b => rec cx (.whlR b) st
  | .err tag none => some ⟨.fail, st, [.error tag st.pos st.pos]⟩
  | .err tag (some r) =>
    match nested rec r st.pos with
    | none => none
    | some (_, e, _) => some ⟨.fail, st, [.error tag st.pos e]⟩
  | .must b e =>
    ifTry rec cx (.btry b) st (rec cx (.bfinish b) st)
      (onOk' (rec cx (.bcancel b) st) fun st' =>
        andThen (framed st.vars.length (rec cx (.run e) st')) fun o st'' =>
          match o with
          | .fail => ret .fail st''
          | _ => none)
  | .lst item sep =>
    onOk' (framed st.vars.length (rec cx (.run item) st)) fun st' => rec cx (.lstLoop item sep) st'
  | .lstt term item sep limit =>
    onOk' (andThen (framed st.vars.length (rec cx (.run item) st)) fun o st' =>
        match o with
        | .ok => rec cx (.ltTerm term item sep limit) st'
        | .fail => emit [.recStart st'.pos] (rec cx (.ltRec st'.pos term item sep limit) st')
        | .brk => none)
      fun st' => rec cx (.bfinish term) st'
  | .optt term r =>
    ifTry rec cx (.btry term) st (rec cx (.bfinish term) st)
      (onOk' (rec cx (.bcancel term) st) fun st' => rec cx (.run r) st')
  | .tryt term r rc =>
    andThen (rec cx (.run r) st) fun o st' =>
      match o with
      | .ok => match term with
        | none => ret .ok st'
        | some t => rec cx (.run t) st'
      | .fail => rec cx (.recov rc) (st'.frame st.vars.length)
      | .brk => none
  | .tryr r rc =>
    andThen (rec cx (.run r) st) fun o st' =>
      match o with
      | .ok => ret .ok st'
      | .fail => rec cx (.recov rc) (st'.frame st.vars.length)
      | .brk => none
  | .prod n =>
    production E rec cx n (fun cx' st' =>
      if (E.prods n).ws.isSome then onOk' (rec cx' .ws st') fun st'' => rec cx' (.run (E.prods n).rule) st''
      else rec cx' (.run (E.prods n).rule) st') st
  | .recu n tag _ => deeper cx tag st fun st' => rec cx (.run (.prod n)) st'
  | .peek tag r =>
    match rec cx (.tokTry r) st with
    | none => none
    | some r' => some ⟨.ok, st,
        (if r'.out == .ok then [] else [.error tag st.pos r'.st.pos]) ++ [.backtracked st.pos r'.st.pos]⟩
  | .peekn tag r =>
    match rec cx (.tokTry r) st with
    | none => none
    | some r' =>
      if r'.out == .ok then
        some ⟨.ok, { st with pos := r'.st.pos },
          [.error tag st.pos r'.st.pos, .recStart st.pos, .token .error st.pos r'.st.pos, .recFinish r'.st.pos]⟩
      else some ⟨.ok, st, [.backtracked st.pos r'.st.pos]⟩
  | .look tag l =>
    let r := lookScan l E.eof (E.inp.drop st.pos)
    some ⟨.ok, st,
      (if r.1 then [] else [.error tag st.pos (st.pos + r.2)]) ++ [.backtracked st.pos (st.pos + r.2)]⟩
  | .wsn r =>
    if cx.ws.isNone then rec cx (.run r) st
    else onOk (rec cx (.run r) { st with wsOn := false }) fun st' => rec cx .ws { st' with wsOn := true }
  | .wsr r => rec cx (.skip r) st
  | .posr r => emit [.token .position st.pos st.pos] (rec cx (.run r) st)
  | .rep c f item sep =>
    onOk' (rec cx (.run c) st) fun st' =>
      match f ((E.inp.take st'.pos).drop st.pos) with
      | 0 => ret .ok st'
      | n + 1 => onOk' (framed st'.vars.length (rec cx (.run item) st')) fun st'' => rec cx (.repTail n item sep) st''
  | .nsep tag b =>
    ifTry rec cx (.btry b) st
      (onOk' (rec cx (.bfinish b) st) fun st' => emit [.error tag st.pos st'.pos] (ret .ok st'))
      (onOk' (rec cx (.bcancel b) st) fun st' => ret .ok st')
  | .comb tag rs els =>
    onOk' (rec cx (.combLoop tag (combRules rs els) rs.length [] 0) { st with idx := 0 })
      fun st' => ret .ok { st' with idx := st.idx }
  | .combIt i => ret .ok { st with idx := i }
  | .varCreate id v => ret .ok { st with vars := (v.key id, v) :: st.vars }
  | .flagSet id b => (getFlag id st.vars).bind fun _ => ret .ok { st with vars := setVar (.flag id) (.flag b) st.vars }
  | .flagToggle id => (getFlag id st.vars).bind fun b => ret .ok { st with vars := setVar (.flag id) (.flag !b) st.vars }
  | .flagIs .. => ret .ok st
  | .cntAdd id d => (getCounter id st.vars).bind fun i => ret .ok { st with vars := setVar (.counter id) (.counter (i + d)) st.vars }
  | .cntPush id r sign =>
    onOk' (rec cx (.run r) st) fun st' =>
      (getCounter id st'.vars).bind fun i =>
        ret .ok { st' with vars := setVar (.counter id) (.counter (i + (st'.pos - st.pos : Nat) * sign)) st'.vars }
  | .cntIs .. => ret .ok st
  | .cntEq tag id ids =>
    (getCounter id st.vars).bind fun v =>
      if ids.any (fun j => (getCounter j st.vars).isNone) then none
      else some ⟨.ok, st, if ids.any (fun j => getCounter j st.vars != some v) then [.error tag st.pos st.pos] else []⟩
  | .idCap id p len =>
    onOk' (primDone rec cx p.ws (p.parse E.inp st.pos) st) fun st' =>
      (getIdent id st'.vars).bind fun _ =>
        ret .ok { st' with vars := setVar (.ident id) (.ident ((E.inp.drop st.pos).take (len (E.inp.drop st.pos)))) st'.vars }
  | .idRem id tag t =>
    let r := t.run (E.inp.drop st.pos)
    onOk' (tokenParse rec cx t.kind t.tag r.1 (st.pos + r.2) st) fun st' =>
      (getIdent id st'.vars).bind fun w =>
        some ⟨.ok, st', if w = (E.inp.drop st.pos).take r.2 then [] else [.error tag st.pos (st.pos + r.2)]⟩
  | .expr i =>
    andThen (rec cx (.exParse i (E.exprs i).minBP) { st with ex := {} }) fun o st' =>
      match o with
      | .brk => none
      | _ => ret (if st'.ex.val.isSome then .ok else .fail) st'

/-- `bp::try_parse`: `ok` = the branch is taken.  The state does not change. -/
def stepTry (cx : Cx) (st : St) : Rule → Option Res
  | .tok t => ret (if (t.run (E.inp.drop st.pos)).1 then .ok else .fail) st
  | .tokr k tag r =>
    match rec cx (.tokTry (.tokr k tag r)) st with
    | none => none
    | some r' => ret (if r'.out == .ok then .ok else .fail) st
  | .prim p => p.branch.bind fun f => ret (if f E.inp st.pos then .ok else .fail) st
  | .els | .brk | .err .. => ret .ok st
  | .br c _ => rec cx (.btry c) st
  | .chc rs => rec cx (.chcTry rs) st
  | .must b _ => rec cx (.btry b) st
  | .lst item _ => rec cx (.btry item) st
  | .tryr r _ => rec cx (.btry r) st
  | .prod n => if (E.prods n).branch && (E.prods n).ws.isNone then rec cx (.btry (E.prods n).rule) st else none
  | .recu n _ b => if b then rec cx (.btry (.prod n)) st else none
  | .peek _ r =>
    match rec cx (.tokTry r) st with
    | none => none
    | some r' => ret (if r'.out == .ok then .ok else .fail) st
  | .peekn _ r =>
    match rec cx (.tokTry r) st with
    | none => none
    | some r' => ret (if r'.out == .ok then .fail else .ok) st
  | .look _ l => ret (if (lookScan l E.eof (E.inp.drop st.pos)).1 then .ok else .fail) st
  | .wsn r | .posr r | .cntPush _ r _ => rec cx (.btry r) st
  | .rep c .. => rec cx (.btry c) st
  | .flagIs id b => (getFlag id st.vars).bind fun v => ret (if v == b then .ok else .fail) st
  | .cntIs id i => (getCounter id st.vars).bind fun v => ret (if v == i then .ok else .fail) st
  | .cntEq _ id ids =>
    (getCounter id st.vars).bind fun v =>
      if ids.any (fun j => (getCounter j st.vars).isNone) then none
      else ret (if ids.any (fun j => getCounter j st.vars != some v) then .fail else .ok) st
  | .idCap _ p _ => p.branch.bind fun f => ret (if f E.inp st.pos then .ok else .fail) st
  | .idRem id _ t =>
    let r := t.run (E.inp.drop st.pos)
    if r.1 then (getIdent id st.vars).bind fun w =>
      ret (if w = (E.inp.drop st.pos).take r.2 then .ok else .fail) st
    else ret .fail st
  | _ => none

/-- `bp::cancel`, for a branch that was tried at `st.pos`. -/
def stepCancel (cx : Cx) (st : St) : Rule → Option Res
  | .br c _ => rec cx (.bcancel c) st
  | .chc rs => rec cx (.chcCancel rs) st
  | .must b _ => rec cx (.bcancel b) st
  | .lst item _ => rec cx (.bcancel item) st
  | .tryr r _ => rec cx (.bcancel r) st
  | .prod n =>
    emit [.prodStart n st.pos] (andThen (rec cx (.bcancel (E.prods n).rule) st) fun _ _ =>
      some ⟨.ok, st, [.prodCancel n st.pos]⟩)
  | .recu n _ _ => rec cx (.bcancel (.prod n)) st
  | .peek _ r | .peekn _ r =>
    match rec cx (.tokTry r) st with
    | none => none
    | some r' => some ⟨.ok, st, [.backtracked st.pos r'.st.pos]⟩
  | .look _ l => some ⟨.ok, st, [.backtracked st.pos (st.pos + (lookScan l E.eof (E.inp.drop st.pos)).2)]⟩
  | .wsn r | .posr r | .cntPush _ r _ => rec cx (.bcancel r) st
  | .rep c .. => rec cx (.bcancel c) st
  | _ => ret .ok st

/-- `bp::finish`, for a branch that was taken at `st.pos`. -/
def stepFinish (cx : Cx) (st : St) : Rule → Option Res
  | .tok t => tokenDone rec cx t.kind (st.pos + (t.run (E.inp.drop st.pos)).2) st
  | .tokr k tag r =>
    match rec cx (.tokTry (.tokr k tag r)) st with
    | none => none
    | some r' => tokenDone rec cx k r'.st.pos st
  | .prim p => primDone rec cx p.ws (p.finish E.inp st.pos) st
  | .br c r => onOk (rec cx (.bfinish c) st) fun st' => rec cx (.run r) st'
  | .chc rs => rec cx (.chcFinish rs) st
  | .must b _ => rec cx (.bfinish b) st
  | .lst item sep =>
    onOk' (framed st.vars.length (rec cx (.bfinish item) st)) fun st' => rec cx (.lstLoop item sep) st'
  | .tryr r rc =>
    andThen (rec cx (.bfinish r) st) fun o st' =>
      match o with
      | .ok => ret .ok st'
      | .fail => rec cx (.recov rc) (st'.frame st.vars.length)
      | .brk => none
  | .prod n => production E rec cx n (fun cx' st' => rec cx' (.bfinish (E.prods n).rule) st') st
  | .recu n tag _ => deeper cx tag st fun st' => rec cx (.bfinish (.prod n)) st'
  | .peek _ r | .peekn _ r =>
    match rec cx (.tokTry r) st with
    | none => none
    | some r' => some ⟨.ok, st, [.backtracked st.pos r'.st.pos]⟩
  | .look _ l => some ⟨.ok, st, [.backtracked st.pos (st.pos + (lookScan l E.eof (E.inp.drop st.pos)).2)]⟩
  | .wsn r => onOk (rec cx (.bfinish r) { st with wsOn := false }) fun st' => rec cx .ws { st' with wsOn := true }
  | .posr r => emit [.token .position st.pos st.pos] (rec cx (.bfinish r) st)
  | .rep c f item sep =>
    onOk' (rec cx (.bfinish c) st) fun st' =>
      match f ((E.inp.take st'.pos).drop st.pos) with
      | 0 => ret .ok st'
      | n + 1 => onOk' (framed st'.vars.length (rec cx (.run item) st')) fun st'' => rec cx (.repTail n item sep) st''
  | .flagIs .. | .cntIs .. | .cntEq .. => ret .ok st
  | .cntPush id r sign =>
    onOk' (rec cx (.bfinish r) st) fun st' =>
      (getCounter id st'.vars).bind fun i =>
        ret .ok { st' with vars := setVar (.counter id) (.counter (i + (st'.pos - st.pos : Nat) * sign)) st'.vars }
  | .idCap id p len =>
    onOk' (primDone rec cx p.ws (p.finish E.inp st.pos) st) fun st' =>
      (getIdent id st'.vars).bind fun _ =>
        ret .ok { st' with vars := setVar (.ident id) (.ident ((E.inp.drop st.pos).take (len (E.inp.drop st.pos)))) st'.vars }
  | .idRem _ _ t => tokenDone rec cx .identifier (st.pos + (t.run (E.inp.drop st.pos)).2) st
  | .els => rec cx (.run .els) st
  | .brk => rec cx (.run .brk) st
  | .err tag r => rec cx (.run (.err tag r)) st
  | _ => none

/-- The two results of error recovery that skips input, recover.hpp l.84-97, list.hpp l.303-401. -/
def skipped (b : Nat) (st : St) (ok : Bool) : List Ev :=
  [.token .error b st.pos, if ok then .recFinish st.pos else .recCancel st.pos]

/-- `_op::op_finish` up to its continuation, operator.hpp l.110-131. -/
def opFinish (cx : Cx) (k : Kind) (r : Rule) (b : Nat) (st : St) : Option Res :=
  emit [.token k b st.pos] (onOk' (rec cx .ws st) fun st' => rec cx (.run r) st')

/-- `_op_cont::parse` for infix operators, expression.hpp l.355-390; `single` for `infix_op_single`. -/
def opInfix (cx : Cx) (i : Nat) (o : OpDef) (single : Bool) (st : St) : Option Res :=
  let e := E.exprs i
  andThen (rec cx (.exParse i (e.bpOf o).rhs) { st with ex := { st.ex with val := none } }) fun out st' =>
    match out with
    | .brk => none
    | .fail => ret .fail { st' with ex := { st'.ex with val := st.ex.val } }
    | .ok =>
      st.ex.val.bind fun lhs => st'.ex.val.bind fun rhs =>
        let st'' := { st' with ex := { st'.ex with val := some (.inf o.id lhs rhs) } }
        if single then
          match parseOperator E.eof e.fold [o] (E.inp.drop st'.pos) with
          | none => none
          | some none => some ⟨.ok, st'', [.opOp o.id st'.pos]⟩
          | some (some (_, n)) =>
            some ⟨.ok, st'', [.error e.chainTag st'.pos (st'.pos + n), .opOp o.id st'.pos]⟩
        else some ⟨.ok, st'', [.opOp o.id st'.pos]⟩

/-- `_op_cont::parse`, expression.hpp l.266-407. -/
def opCont (cx : Cx) (i : Nat) (o : OpDef) (st : St) : Option Res :=
  match o.kind with
  | .infixList =>
    st.ex.val.bind fun v => rec cx (.exList i o [v]) { st with ex := { st.ex with val := none } }
  | .prefix =>
    onOk' (rec cx (.exParse i ((E.exprs i).bpOf o).rhs) st) fun st' =>
      st'.ex.val.bind fun v =>
        some ⟨.ok, { st' with ex := { st'.ex with val := some (.pre o.id v) } }, [.opOp o.id st'.pos]⟩
  | .postfix =>
    st.ex.val.bind fun v =>
      some ⟨.ok, { st with ex := { st.ex with val := some (.post o.id v) } }, [.opOp o.id st.pos]⟩
  | .infixSingle => opInfix E rec cx i o true st
  | _ => opInfix E rec cx i o false st

/-- One step. -/
def step (cx : Cx) (c : Cmd) (st : St) : Option Res :=
  match c with
  | .run r => stepRun E rec cx st r
  | .btry r => stepTry E rec cx st r
  | .bcancel r => stepCancel E rec cx st r
  | .bfinish r => stepFinish E rec cx st r
  -- choice.hpp l.44-68, 70-75, 77-90, 93-130
  | .chcTry [] => ret .fail st
  | .chcTry (r :: rs) => ifTry rec cx (.btry r) st (ret .ok st) (rec cx (.chcTry rs) st)
  | .chcRun [] => some ⟨.fail, st, [.error 0 st.pos st.pos]⟩
  | .chcRun (r :: rs) =>
    ifTry rec cx (.btry r) st (rec cx (.bfinish r) st)
      (onOk' (rec cx (.bcancel r) st) fun st' => rec cx (.chcRun rs) st')
  | .chcCancel [] => ret .ok st
  | .chcCancel (r :: rs) => onOk' (rec cx (.bcancel r) st) fun st' => rec cx (.chcCancel rs) st'
  | .chcFinish [] => none
  | .chcFinish (r :: rs) =>
    ifTry rec cx (.btry r) st (rec cx (.bfinish r) st)
      (onOk' (rec cx (.bcancel r) st) fun st' => rec cx (.chcFinish rs) st')
  -- `dsl::token(rule)`: its token parser; the handler of `lexy::match` fails if there was an error
  | .tokTry r =>
    match r with
    | .tok t =>
      let x := t.run (E.inp.drop st.pos)
      ret (if x.1 then .ok else .fail) { st with pos := st.pos + x.2 }
    | .tokr _ _ r =>
      match nested rec r st.pos with
      | none => none
      | some (b, e, evs) => ret (if b && !evs.any Ev.isError then .ok else .fail) { st with pos := e }
    | r =>
      match nested rec r st.pos with
      | none => none
      | some (b, e, evs) => ret (if b && !evs.any Ev.isError then .ok else .fail) { st with pos := e }
  -- whitespace.hpp l.174-191
  | .ws =>
    match cx.ws with
    | none => ret .ok st
    | some r => if st.wsOn then rec cx (.skip r) st else ret .ok st
  -- `skip_whitespace`, whitespace.hpp l.111-168
  | .skip r =>
    if r.isToken then
      onOk' (rec cx (.tokLoop r) st) fun st' => some ⟨.ok, st', [.token .whitespace st.pos st'.pos]⟩
    else
      match nested rec (wsRule r) st.pos with
      | none => none
      | some (b, e, evs) =>
        some ⟨if b then .ok else .fail, { st with pos := e },
          evs.filter Ev.isError ++ [.token (if b then .whitespace else .error) st.pos e]⟩
  | .tokLoop r =>
    match rec cx (.tokTry r) st with
    | none => none
    | some r' => if r'.out == .ok then rec cx (.tokLoop r) { st with pos := r'.st.pos } else ret .ok st
  -- loop.hpp l.35-59
  | .loopR r =>
    andThen (framed st.vars.length (rec cx (.run r) st)) fun o st' =>
      match o with
      | .ok => rec cx (.loopR r) st'
      | .fail => ret .fail st'
      | .brk => ret .ok st'
  -- loop.hpp l.71-91
  | .whlR b =>
    ifTry rec cx (.btry b) st
      (onOk' (framed st.vars.length (rec cx (.bfinish b) st)) fun st' => rec cx (.whlR b) st')
      (onOk' (rec cx (.bcancel b) st) fun st' => ret .ok st')
  -- `_lst::_loop`, list.hpp l.17-67
  | .lstLoop item none =>
    if item.isBranch E then
      ifTry rec cx (.btry item) st
        (onOk' (framed st.vars.length (rec cx (.bfinish item) st)) fun st' => rec cx (.lstLoop item none) st')
        (onOk' (rec cx (.bcancel item) st) fun st' => ret .ok st')
    else none
  | .lstLoop item (some (sep, k)) =>
    ifTry rec cx (.btry sep) st
      (onOk' (framed st.vars.length (rec cx (.bfinish sep) st)) fun st1 =>
        if item.isBranch E then
          ifTry rec cx (.btry item) st1
            (onOk' (framed st.vars.length (rec cx (.bfinish item) st1)) fun st2 =>
              rec cx (.lstLoop item (some (sep, k))) st2)
            (onOk' (rec cx (.bcancel item) st1) fun st2 => some ⟨.ok, st2, trailingError k st.pos st1.pos⟩)
        else
          onOk' (framed st.vars.length (rec cx (.run item) st1)) fun st2 =>
            rec cx (.lstLoop item (some (sep, k))) st2)
      (onOk' (rec cx (.bcancel sep) st) fun st' => ret .ok st')
  -- `_lstt::_loop`, list.hpp l.185-412
  | .ltTerm term item sep limit =>
    ifTry rec cx (.btry term) st (ret .ok st)
      (onOk' (rec cx (.bcancel term) st) fun st' => rec cx (.ltSep term item sep limit) st')
  | .ltSep term item none limit => rec cx (.ltItem term item none limit) st
  | .ltSep term item (some (sep, k)) limit =>
    andThen (framed st.vars.length (rec cx (.run sep) st)) fun o st1 =>
      match o with
      | .brk => none
      | .ok => rec cx (.ltTrail st.pos term item (some (sep, k)) limit) st1
      | .fail =>
        if st.pos = st1.pos ∧ item.isBranch E then
          ifTry rec cx (.btry item) st1
            (andThen (framed st.vars.length (rec cx (.bfinish item) st1)) fun o st2 =>
              match o with
              | .brk => none
              | .ok => rec cx (.ltTerm term item (some (sep, k)) limit) st2
              | .fail =>
                -- `item.cancel()`, with the position where it was tried
                andThen (rec cx (.bcancel item) st1) fun _ _ =>
                  emit [.recStart st2.pos] (rec cx (.ltRec st2.pos term item (some (sep, k)) limit) st2))
            (onOk' (rec cx (.bcancel item) st1) fun st2 =>
              emit [.recStart st2.pos] (rec cx (.ltRec st2.pos term item (some (sep, k)) limit) st2))
        else emit [.recStart st1.pos] (rec cx (.ltRec st1.pos term item (some (sep, k)) limit) st1)
  | .ltTrail sepPos term item sep limit =>
    ifTry rec cx (.btry term) st
      (some ⟨.ok, st, match sep with
        | some (_, k) => trailingError k sepPos st.pos
        | none => []⟩)
      (rec cx (.ltItem term item sep limit) st)
  | .ltItem term item sep limit =>
    andThen (framed st.vars.length (rec cx (.run item) st)) fun o st1 =>
      match o with
      | .brk => none
      | .ok => rec cx (.ltTerm term item sep limit) st1
      | .fail => emit [.recStart st1.pos] (rec cx (.ltRec st1.pos term item sep limit) st1)
  | .ltRec b term item sep limit =>
    let giveUp : St → Option Res := fun st' =>
      ifTry rec cx (.btry term) st' (some ⟨.ok, st', skipped b st' true⟩)
        (onOk' (rec cx (.bcancel term) st') fun st2 =>
          if limit (E.inp.drop st2.pos) || peekEof E.eof (E.inp.drop st2.pos) then
            some ⟨.fail, st2, skipped b st2 false⟩
          else rec cx (.ltRec b term item sep limit) { st2 with pos := st2.pos + 1 })
    match sep with
    | some (sp, k) =>
      ifTry rec cx (.btry sp) st
        (emit (skipped b st true)
          (andThen (framed st.vars.length (rec cx (.bfinish sp) st)) fun o st1 =>
            match o with
            | .brk => none
            | .ok => rec cx (.ltTrail st.pos term item (some (sp, k)) limit) st1
            | .fail => emit [.recStart st1.pos] (rec cx (.ltRec st1.pos term item (some (sp, k)) limit) st1)))
        (onOk' (rec cx (.bcancel sp) st) giveUp)
    | none =>
      if item.isBranch E then
        ifTry rec cx (.btry item) st
          (emit (skipped b st true)
            (andThen (framed st.vars.length (rec cx (.bfinish item) st)) fun o st1 =>
              match o with
              | .brk => none
              | .ok => rec cx (.ltTerm term item none limit) st1
              | .fail => emit [.recStart st1.pos] (rec cx (.ltRec st1.pos term item none limit) st1)))
          (onOk' (rec cx (.bcancel item) st) giveUp)
      else giveUp st
  -- recover.hpp l.18-52, 63-107, 142-183
  | .recov (.wrap r) =>
    emit [.recStart st.pos]
      (andThen (onOk' (rec cx (.run r) st) fun st' => rec cx .ws st') fun o st' =>
        match o with
        | .ok => some ⟨.ok, st', [.recFinish st'.pos]⟩
        | .fail => some ⟨.fail, st', [.recCancel st'.pos]⟩
        | .brk => none)
  | .recov (.find l) =>
    let r := findScan l E.eof (E.inp.drop st.pos)
    let st' := { st with pos := st.pos + r.2 }
    some ⟨if r.1 then .ok else .fail, st', .recStart st.pos :: skipped st.pos st' r.1⟩
  | .recov (.reco limit rs) => emit [.recStart st.pos] (rec cx (.recoLoop st.pos limit rs) st)
  | .recoLoop b limit rs =>
    ifTry rec cx (.chcTry rs) st
      (emit (skipped b st true) (rec cx (.chcFinish rs) st))
      (onOk' (rec cx (.chcCancel rs) st) fun st1 =>
        if limit (E.inp.drop st1.pos) || peekEof E.eof (E.inp.drop st1.pos) then
          some ⟨.fail, st1, skipped b st1 false⟩
        else rec cx (.recoLoop b limit rs) { st1 with pos := st1.pos + 1 })
  -- repeat.hpp l.14-72
  | .repTail 0 _ sep => framed st.vars.length (rec cx (.run (trailingRule sep)) st)
  | .repTail (k + 1) item sep =>
    onOk' (match sep with
        | none => ret .ok st
        | some (r, _) => framed st.vars.length (rec cx (.run r) st)) fun st1 =>
      onOk' (framed st.vars.length (rec cx (.run item) st1)) fun st2 => rec cx (.repTail k item sep) st2
  -- combination.hpp l.76-118
  | .combLoop tag rs n handled count =>
    if count ≥ n then ret .ok st
    else
      andThen (framed st.vars.length (rec cx (.chcRun rs) st)) fun o st1 =>
        match o with
        | .fail => ret .fail st1
        | .brk => ret .ok st1
        | .ok =>
          if handled.contains st1.idx then
            emit [.error tag st.pos st1.pos] (rec cx (.combLoop tag rs n handled count) st1)
          else rec cx (.combLoop tag rs n (st1.idx :: handled) (count + 1)) st1
  -- `_parse`, expression.hpp l.485-525
  | .exParse i min =>
    if ((E.exprs i).postOps min).isEmpty then rec cx (.exLhs i min) st
    else
      emit [.opStart st.pos]
        (andThen (onOk' (rec cx (.exLhs i min) st) fun st' => rec cx (.exLoop i min) st') fun o st' =>
          some ⟨o, st', [.opFinish st'.pos]⟩)
  | .exLoop i min =>
    match parseOperator E.eof (E.exprs i).fold ((E.exprs i).postOps min) (E.inp.drop st.pos) with
    | none => none
    | some none => ret .ok st
    | some (some ((o, k, r), n)) =>
      onOk' (framed st.vars.length (rec cx (.exApply i o k r st.pos) { st with pos := st.pos + n }))
        fun st' => rec cx (.exLoop i min) st'
  -- `_parse_lhs`, expression.hpp l.453-483
  | .exLhs i min =>
    let atom : Option Res :=
      onOk' (framed st.vars.length (rec cx (.run (E.exprs i).atom) st)) fun st' =>
        ret .ok { st' with ex := { st.ex with val := some (.atom st.pos st'.pos) } }
    match parseOperator E.eof (E.exprs i).fold ((E.exprs i).preOps min) (E.inp.drop st.pos) with
    | none => none
    | some none => atom
    | some (some ((o, k, r), n)) =>
      emit [.opStart st.pos]
        (andThen (framed st.vars.length (rec cx (.exApply i o k r st.pos) { st with pos := st.pos + n })) fun out st' =>
          some ⟨out, st', [.opFinish st'.pos]⟩)
  -- `_continuation::parse`, expression.hpp l.409-450
  | .exApply i o k r b =>
    let e := E.exprs i
    let bp := e.bpOf o
    if st.ex.nest ≥ e.maxNest then
      some ⟨.fail, { st with pos := b, ex := { st.ex with nest := st.ex.nest + 1 } }, [.error e.nestTag b st.pos]⟩
    else
      let group := if bp.group ≠ 0 ∧ st.ex.group = 0 then bp.group else st.ex.group
      let errs : List Ev := if bp.group ≠ 0 ∧ st.ex.group ≠ 0 ∧ st.ex.group ≠ bp.group then
        [.error e.groupTag b st.pos] else []
      emit errs
        (onOk' (opFinish rec cx k r b { st with ex := { st.ex with nest := st.ex.nest + 1, group := group } })
          fun st' => opCont E rec cx i o st')
  -- the loop for `infix_op_list`, expression.hpp l.293-323
  | .exList i o items =>
    let e := E.exprs i
    let done : List ETree → St → ExSt := fun ts st' => { st'.ex with val := some (.list o.id ts) }
    andThen (rec cx (.exParse i (e.bpOf o).rhs) st) fun out st1 =>
      match out with
      | .brk => none
      | .fail => ret .fail { st1 with ex := done items st1 }
      | .ok =>
        st1.ex.val.bind fun v =>
          match parseOperator E.eof e.fold [o] (E.inp.drop st1.pos) with
          | none => none
          | some none =>
            some ⟨.ok, { st1 with ex := done (items ++ [v]) st1 }, [.opOp o.id st1.pos]⟩
          | some (some ((_, k, r), n)) =>
            andThen (framed st1.vars.length (opFinish rec cx k r st1.pos
                { st1 with pos := st1.pos + n, ex := { st1.ex with val := none } })) fun out st2 =>
              match out with
              | .brk => none
              | .fail => ret .fail { st2 with ex := done (items ++ [v]) st2 }
              | .ok => rec cx (.exList i o (items ++ [v])) st2

end Step

/-- The interpreter with a bound on the number of nested steps. -/
def exec (E : Env) : Nat → Cx → Cmd → St → Option Res
  | 0, _, _, _ => none
  | n + 1, cx, c, st => step E (exec E n) cx c st

/-- `_do_action`, action/base.hpp l.201-225: the whole grammar with entry production `n`, starting at the beginning
    of the input.  The control block of `do_action` (l.227-248). -/
def runGrammar (E : Env) (fuel n maxDepth : Nat) : Option Res :=
  let d := E.prods n
  let cx : Cx := ⟨d.ws, maxDepth⟩
  emit [.grammarStart 0, .prodStart n 0]
    (andThen (onOk' (exec E fuel cx .ws { pos := 0 }) fun st => exec E fuel cx (.run d.rule) st) fun o st =>
      match o with
      | .ok => some ⟨.ok, st, [.prodFinish n st.pos, .grammarFinish st.pos]⟩
      | .fail => some ⟨.fail, st, [.prodCancel n st.pos, .grammarCancel st.pos]⟩
      | .brk => none)

end Verif
