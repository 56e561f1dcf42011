import Verif.Grammar

/-
Model of the values rules produce: parsers in continuation passing style, with the arguments they hand on.

Source: /repo/include/lexy/dsl/base.hpp (l.112-236), /repo/include/lexy/action/base.hpp (l.116-248) and the rules cited
below.

A parser gets the values produced so far (`args`) and hands them, with its own values behind them, to its
continuation (`K`).  The parsers at the end of such a chain are `final_parser` (it calls the callback of the
production), `sink_parser`, `pattern_parser` and `_pas_final_parser`.
Values are terms: what a callback, a sink or a constructor returns is represented by what it was given.
`try_parse` and `cancel` of a branch do not get values: for them, the rule without its values is executed
(`VR.erase`, Grammar.lean).  The same goes for rules that produce no values (`VR.leaf`).

Result `none`: as in Grammar.lean; in particular an assertion is violated, an empty `lazy_init` is dereferenced, or
`return_` is used where the documentation forbids it (inside a list or combination).
-/

namespace Verif.Val

/-- A value handed from parser to parser. -/
inductive Val
  /-- `lexeme(begin, end)` -/
  | lexeme (b e : Nat)
  /-- an iterator: `dsl::position` -/
  | pos (p : Nat)
  | nullopt
  /-- `member<Fn>{}` -/
  | mem (tag : Nat)
  /-- what an effect or the tag of an operator returns -/
  | eff (id : Nat)
  /-- the result of the callback of production `n` for these arguments -/
  | call (n : Nat) (args : List Val)
  /-- the result of `finish()` of a sink of production `n`, for the arguments of each call of the sink -/
  | sink (n : Nat) (calls : List (List Val))
  /-- `construct<T>(args...)` -/
  | made (t : Nat) (args : List Val)
  /-- what is computed from the input or a context variable: an integer, the value of a symbol, a count -/
  | num (i : Int)
  /-- the lexeme of `repeat(...).capture(...)` -/
  | covered (b e : Nat)
  /-- `bool&`: where a parser records that its continuation was reached; not meant for callbacks -/
  | flag
  /-- an iterator: where a parser remembers the position at which it began; not meant for callbacks -/
  | mark (p : Nat)

/-- A value that does not depend on the input: `dsl::nullopt` (option.hpp l.37-48), `member<Fn>{}` (member.hpp l.33-73),
    what an effect returns, the tag of an operator (operator.hpp l.104-194, where it is not constructed from the position
    or the parse state). -/
inductive Atom
  | nullopt
  | mem (tag : Nat)
  | eff (id : Nat)

def Atom.val : Atom → Val
  | .nullopt => .nullopt
  | .mem tag => .mem tag
  | .eff id => .eff id

/-- A value of a rule without parts. -/
inductive PVal
  | lexeme (b e : Nat)
  | num (i : Int)
  /-- what a callback `construct<T>` makes of an integer -/
  | made (t : Nat) (i : Int)

def PVal.val : PVal → Val
  | .lexeme b e => .lexeme b e
  | .num i => .num i
  | .made t i => .made t [.num i]

/-- The lexemes are those of tokens in `evs`, one behind the other, between `lo` and `hi`. -/
def PVals (evs : List Ev) (hi : Nat) : Nat → List PVal → Prop
  | lo, [] => lo ≤ hi
  | lo, .num _ :: vs => PVals evs hi lo vs
  | lo, .made _ _ :: vs => PVals evs hi lo vs
  | lo, .lexeme b e :: vs => lo ≤ b ∧ b ≤ e ∧ (∃ k, .token k b e ∈ evs) ∧ PVals evs hi e vs

/-- A rule without parts that produces values: at each position those it hands on if it succeeds, or (`sink`) those it
    calls the sink with. -/
structure VPrim where
  rule : PRule
  sink : Bool
  vals : List Nat → Nat → List (List PVal)
  ok : ∀ s p, p ≤ s.length → (rule.parse s p).1 = true →
    PVals (rule.parse s p).2.2 (rule.parse s p).2.1 p (vals s p).flatten
  ok' : ∀ s p, p ≤ s.length → (rule.finish s p).1 = true →
    PVals (rule.finish s p).2.2 (rule.finish s p).2.1 p (vals s p).flatten

/-- A rule without parts whose value is a lexeme of the given length. -/
structure VId where
  rule : PRule
  len : List Nat → Nat
  ok : ∀ s p, p ≤ s.length → (rule.parse s p).1 = true →
    PVals (rule.parse s p).2.2 (rule.parse s p).2.1 p [.lexeme p (p + len (s.drop p))]
  ok' : ∀ s p, p ≤ s.length → (rule.finish s p).1 = true →
    PVals (rule.finish s p).2.2 (rule.finish s p).2.1 p [.lexeme p (p + len (s.drop p))]

/-- What `repeat` does with the values of the items: `_repd`, `_repl`, `_repc`, repeat.hpp l.74-128. -/
inductive RepKind
  | discard | list | capture

/-- What `try_` does to recover, recover.hpp l.18-203. -/
inductive VRecovOf (R : Type)
  | wrap (r : R)
  | find (l : LookFn)
  | reco (limit : List Nat → Bool) (rs : List R)

/-- Rules with their values. -/
inductive VR
  /-- a rule without values -/
  | leaf (r : Rule)
  /-- `_cap`, capture.hpp l.13-63 -/
  | cap (t : PTok)
  /-- `_capr` of a token production, capture.hpp l.65-120 -/
  | capp (n : Nat)
  /-- `dsl::nullopt` (option.hpp l.37-48), an effect that returns something (effect.hpp l.15-61) -/
  | val (a : Atom)
  /-- `position(rule)`, position.hpp l.26-67; `position` is `posr` of the empty rule -/
  | posr (r : VR)
  | seq (a b : VR)
  | br (c r : VR)
  | chc (rs : List VR)
  | ifR (b : VR)
  | opt (b : VR)
  | optt (term r : VR)
  | must (b : VR) (e : Rule)
  | lst (item : VR) (sep : Option (VR × SepKind))
  | lstt (term item : VR) (sep : Option (VR × SepKind)) (limit : List Nat → Bool)
  | tryt (term : Option VR) (r : VR) (rec : VRecovOf VR)
  | tryr (r : VR) (rec : VRecovOf VR)
  | prod (n : Nat)
  | recu (n tag : Nat) (branch : Bool)
  | wsn (r : VR)
  /-- a value, then those of a rule: `_mem`, member.hpp l.33-73; `_op`, operator.hpp l.104-194 -/
  | pre (a : Atom) (r : VR)
  /-- `_pas`, parse_as.hpp l.63-146 -/
  | pas (t : Nat) (r : VR)
  | comb (tag : Nat) (rs : List VR) (els : CombElse)
  | combIt (i : Nat)
  /-- `_ret`, return.hpp l.12-17 -/
  | ret
  /-- a rule without parts -/
  | prim (q : VPrim)
  /-- `_rep`, repeat.hpp l.74-131 -/
  | rep (kd : RepKind) (c : VR) (f : List Nat → Nat) (item : VR) (sep : Option (VR × SepKind))
  /-- `_ctx_cpush`, context_counter.hpp l.61-117 -/
  | cntPush (id : Nat) (r : VR) (sign : Int)
  /-- `_ctx_cvalue`, context_counter.hpp l.146-159 -/
  | cntVal (id : Nat)
  /-- `_ctx_icap`, context_identifier.hpp l.45-64 -/
  | idCap (id : Nat) (q : VId)

abbrev VSep := VR × SepKind
abbrev VRecov := VRecovOf VR

/-- The empty rule that is no branch. -/
def noop : PRule where
  ws := false
  parse := fun _ p => (true, p, [])
  branch := none
  finish := fun _ p => (true, p, [])
  parse_tr := fun _ _ _ => TrC.nil
  finish_tr := fun _ _ _ => TrC.nil
  coh := fun _ _ _ h => by cases h
  fails := fun _ _ h => by cases h
  finish_fails := fun _ _ h => by cases h
  errs := fun _ _ => ⟨Nat.le_refl _, ErrOk.nil⟩
  finish_errs := fun _ _ => ⟨Nat.le_refl _, ErrOk.nil⟩

mutual
/-- The rule without its values. -/
def VR.erase : VR → Rule
  | .leaf r => r
  | .cap t => .tok t
  | .capp n => .prod n
  | .val _ => .prim noop
  | .posr r => .posr r.erase
  | .seq a b => .seq a.erase b.erase
  | .br c r => .br c.erase r.erase
  | .chc rs => .chc (VR.eraseL rs)
  | .ifR b => .ifR b.erase
  | .opt b => .opt b.erase
  | .optt t r => .optt t.erase r.erase
  | .must b e => .must b.erase e
  | .lst item none => .lst item.erase none
  | .lst item (some (s, k)) => .lst item.erase (some (s.erase, k))
  | .lstt term item none limit => .lstt term.erase item.erase none limit
  | .lstt term item (some (s, k)) limit => .lstt term.erase item.erase (some (s.erase, k)) limit
  | .tryt none r rc => .tryt none r.erase (VR.eraseRec rc)
  | .tryt (some t) r rc => .tryt (some t.erase) r.erase (VR.eraseRec rc)
  | .tryr r rc => .tryr r.erase (VR.eraseRec rc)
  | .prod n => .prod n
  | .recu n tag b => .recu n tag b
  | .wsn r => .wsn r.erase
  | .pre _ r => r.erase
  | .pas _ r => r.erase
  | .comb tag rs els => .comb tag (VR.eraseL rs) els
  | .combIt i => .combIt i
  | .ret => .prim noop
  | .prim q => .prim q.rule
  | .rep _ c f item none => .rep c.erase f item.erase none
  | .rep _ c f item (some (s, k)) => .rep c.erase f item.erase (some (s.erase, k))
  | .cntPush id r sign => .cntPush id r.erase sign
  | .cntVal _ => .prim noop
  | .idCap id q => .idCap id q.rule q.len
def VR.eraseL : List VR → List Rule
  | [] => []
  | r :: rs => r.erase :: VR.eraseL rs
def VR.eraseRec : VRecovOf VR → Recov
  | .wrap r => .wrap r.erase
  | .find l => .find l
  | .reco limit rs => .reco limit (VR.eraseL rs)
end

def eraseSep : Option VSep → Option Sep
  | none => none
  | some (s, k) => some (s.erase, k)

/-- `member = rule`, member.hpp l.33-73. -/
abbrev VR.mem (tag : Nat) (r : VR) : VR := .pre (.mem tag) r

/-- The trailing rule of a separator, separator.hpp l.72, 101, 121 (see `trailingRule`). -/
def vTrailing : Option VSep → VR
  | none => .leaf .els
  | some (r, .sep tag) => .leaf (.nsep tag r.erase)
  | some (r, .trailing) => if r.erase.uncond then r else .ifR r
  | some (_, .ignoreTrailing) => .leaf .els

/-- A production: as `ProdDef`; does its callback return `void`, does its sink? -/
structure VProd where
  rule : VR
  ws : Option Rule := none
  isTok : Bool := false
  transparent : Bool := false
  branch : Bool := true
  void : Bool := false
  sinkVoid : Bool := false

def VProd.erase (d : VProd) : ProdDef := ⟨d.rule.erase, d.ws, d.isTok, d.transparent, d.branch⟩

/-- The grammar and the input. -/
structure VEnv where
  inp : List Nat
  eof : Option Nat := none
  prods : Nat → VProd
  exprs : Nat → ExprDef

def VEnv.env (V : VEnv) : Env := ⟨V.inp, V.eof, fun n => (V.prods n).erase, V.exprs⟩

/-- The context (`_pc`, action/base.hpp l.116-159): as `Cx`, and the production (for `value_callback`). -/
structure VCx where
  cx : Cx
  cur : Nat

/-- How a chain of parsers ended: it returned false; `break_` was reached (it returns true); `final_parser` was
    reached with these arguments (l.165-173); another parser at the end of a chain was reached with these values. -/
inductive End
  | fail | brk | final (args : List Val) | base (args : List Val)

/-- The result of a chain of parsers.  `calls`: the calls of callbacks, with their production and arguments.
    `hits`: of how many enclosing `try_` or recovery rules was the continuation reached, i.e. how many of their local
    variables `continuation_reached` and `recovery_finished` are now true? -/
structure VRes where
  out : End
  st : St
  evs : List Ev
  calls : List (Nat × List Val)
  hits : Nat

/-- A continuation, `NextParser::parse`. -/
abbrev K := St → List Val → Option VRes

/-- `final_parser`, action/base.hpp l.165-173. -/
def kFinal (cur : Nat) : K := fun st args => some ⟨.final args, st, [], [(cur, args)], 0⟩

/-- `sink_parser` (base.hpp l.184-195), without the call of the sink; `_pas_final_parser` (parse_as.hpp l.40-49);
    `pattern_parser` (base.hpp l.170-182). -/
def kBase : K := fun st args => some ⟨.base args, st, [], [], 0⟩

/-- What happened before. -/
def VRes.pre (evs : List Ev) (calls : List (Nat × List Val)) (r : VRes) : VRes :=
  { r with evs := evs ++ r.evs, calls := calls ++ r.calls }

def emitC (evs : List Ev) (x : Option VRes) : Option VRes := x.map (VRes.pre evs [])

/-- A parser without values, and then its continuation. -/
def viaC (x : Option Res) (k : St → Option VRes) : Option VRes :=
  match x with
  | none => none
  | some r => match r.out with
    | .ok => emitC r.evs (k r.st)
    | .fail => some ⟨.fail, r.st, r.evs, [], 0⟩
    | .brk => some ⟨.brk, r.st, r.evs, [], 0⟩

/-- The same where `break_` is not possible. -/
def viaC' (x : Option Res) (k : St → Option VRes) : Option VRes :=
  match x with
  | none => none
  | some r => match r.out with
    | .ok => emitC r.evs (k r.st)
    | .fail => some ⟨.fail, r.st, r.evs, [], 0⟩
    | .brk => none

/-- `if (branch.try_parse(...))` -/
def choose (x : Option Res) (yes no : Option α) : Option α :=
  match x with
  | none => none
  | some ⟨.ok, _, _⟩ => yes
  | some _ => no

/-- A chain that ends with `kBase`; variables created in it are gone afterwards.  What follows it gets the values. -/
def baseC (n : Nat) (x : Option VRes) (f : List Val → St → Option VRes) : Option VRes :=
  match x with
  | none => none
  | some r => match r.out with
    | .base vs => (f vs (r.st.frame n)).map (VRes.pre r.evs r.calls)
    | .fail => some ⟨.fail, r.st.frame n, r.evs, r.calls, 0⟩
    | _ => none

/-- The same where a failure does not end the chain. -/
def tryBaseC (n : Nat) (x : Option VRes) (f : List Val → St → Option VRes) (g : St → Option VRes) : Option VRes :=
  match x with
  | none => none
  | some r => match r.out with
    | .base vs => (f vs (r.st.frame n)).map (VRes.pre r.evs r.calls)
    | .fail => (g (r.st.frame n)).map (VRes.pre r.evs r.calls)
    | _ => none

/-- `cancel` of a branch parser after its `finish` failed: it only has events. -/
def evsC (x : Option Res) (y : Option VRes) : Option VRes :=
  match x with
  | none => none
  | some r => emitC r.evs y

/-- One call of the sink, if there are values (base.hpp l.190-191, combination.hpp l.52-57). -/
def sinkCall (acc : List (List Val)) (vs : List Val) : List (List Val) :=
  if vs.isEmpty then acc else acc ++ [vs]

/-- The value of the sink, base.hpp l.197-214. -/
def sinkDone (V : VEnv) (cur : Nat) (acc : List (List Val)) : List Val :=
  if (V.prods cur).sinkVoid then [] else [.sink cur acc]

/-- What is collected of the values of an item or separator of `repeat`: `sink_parser` or `pattern_parser`, repeat.hpp
    l.22-23. -/
def repAcc (kd : RepKind) (acc : List (List Val)) (vs : List Val) : List (List Val) :=
  match kd with
  | .list => sinkCall acc vs
  | _ => acc

/-- The value of `repeat`, whose items are from `b` to `e`: repeat.hpp l.87, l.105 and l.124. -/
def repDone (V : VEnv) (cur : Nat) (kd : RepKind) (b e : Nat) (acc : List (List Val)) : List Val :=
  match kd with
  | .discard => []
  | .list => sinkDone V cur acc
  | .capture => [.covered b e]

/-- The values of a rule without parts. -/
def VPrim.values (q : VPrim) (V : VEnv) (cur p : Nat) : List Val :=
  if q.sink then sinkDone V cur ((q.vals V.inp p).map (·.map PVal.val)) else (q.vals V.inp p).flatten.map PVal.val

/-- The states of `_lstt::_loop`, list.hpp l.176-183. -/
inductive LtSt
  | term | sep | trail (sepPos : Nat) | item | reco (begin_ : Nat)

/-- `Cx.sub`, for the production `n`. -/
def VCx.sub (V : VEnv) (cx : VCx) (n : Nat) : VCx := ⟨cx.cx.sub (V.prods n).erase, n⟩

/-- What the interpreter can be asked to do. -/
inductive VCmd
  | run (r : VR)
  | fin (r : VR)
  | chcRun (rs : List VR)
  | chcFin (rs : List VR)
  | lstLoop (item : VR) (sep : Option VSep) (acc : List (List Val))
  | lt (s : LtSt) (term item : VR) (sep : Option VSep) (limit : List Nat → Bool) (acc : List (List Val))
  | repTail (kd : RepKind) (begin_ k : Nat) (item : VR) (sep : Option VSep) (acc : List (List Val))
  | recov (rc : VRecov)
  | recoLoop (begin_ : Nat) (limit : List Nat → Bool) (rs : List VR)
  | combLoop (tag : Nat) (rs : List VR) (n : Nat) (handled : List Nat) (count : Nat) (acc : List (List Val))

/-- The choice of a combination, combination.hpp l.66-74. -/
def combVRules (rs : List VR) (els : CombElse) : List VR :=
  rs.zipIdx.map (fun p => .br p.1 (.combIt p.2)) ++ match els with
    | .none => []
    | .brk => [.leaf .brk]
    | .err tag => [.leaf (.err tag none)]

section Step

variable (V : VEnv) (ex : Cx → Cmd → St → Option Res) (rec : VCx → VCmd → K → St → List Val → Option VRes)

/-- `_prd`, production.hpp l.40-75 and l.100-121, with the result of the chain that ends with `final_parser`, and
    `context_finish_parser`, action/base.hpp l.175-194.  `noWs`: the continuation disables whitespace skipping
    (whitespace.hpp l.170-192). -/
def prodC (cx : VCx) (n : Nat) (noWs : Bool) (body : VCx → K → St → List Val → Option VRes) (k : K) (st : St)
    (args : List Val) : Option VRes :=
  let d := V.prods n
  match body (cx.sub V n) (kFinal n) { st with ex := {} } [] with
  | none => none
  | some r =>
    let st' := { r.st.frame st.vars.length with ex := st.ex }
    match r.out with
    | .final vs =>
      let next : St → Option VRes := fun st' => k st' (args ++ if d.void then [] else [.call n vs])
      ((if d.isTok && !noWs then viaC (ex cx.cx .ws st') next else next st').map
        (VRes.pre ([.prodStart n st.pos] ++ r.evs ++ [.prodFinish n st'.pos]) r.calls))
    | .fail => some ⟨.fail, st', [.prodStart n st.pos] ++ r.evs ++ [.prodCancel n st'.pos], r.calls, 0⟩
    | _ => none

/-- A matched token, then whitespace, then the continuation. -/
def tokC (cx : VCx) (k : Kind) (e : Nat) (st : St) (next : St → Option VRes) : Option VRes :=
  emitC [.token k st.pos e] (viaC (ex cx.cx .ws { st with pos := e }) next)

/-- `_pc::parse` of a captured production, capture.hpp l.68-80: `m` is the number of previous arguments. -/
def captured (cx : VCx) (m : Nat) (k : K) (st : St) (args : List Val) : Option VRes :=
  match args.drop m with
  | .pos b :: vs => viaC (ex cx.cx .ws st) fun st' => k st' (args.take m ++ [.lexeme b st.pos] ++ vs)
  | _ => none

/-- `increment_depth` and the continuation that decrements it, production.hpp l.146-177. -/
def deeperC (cx : VCx) (tag : Nat) (st : St) (k : K) (body : St → K → Option VRes) : Option VRes :=
  if cx.cx.maxDepth = 0 then none
  else if st.depth ≥ cx.cx.maxDepth then some ⟨.fail, st, [.error tag st.pos st.pos], [], 0⟩
  else body { st with depth := st.depth + 1 } fun st' as => k { st' with depth := st'.depth - 1 } as

/-- The continuation of `_tryt` (recover.hpp l.220-235) and `_recovery_wrapper` (l.25-35): the variable that is the
    first argument becomes true. -/
def reached (next : St → List Val → Option VRes) : K := fun st args =>
  match args with
  | .flag :: as => (next st as).map fun r => { r with hits := r.hits + 1 }
  | _ => none

/-- `_tryt::p::parse` and `_tryr::bp::finish` after the rule, recover.hpp l.271-278 and l.311-319; `n` is the number
    of context variables before. -/
def tryC (cx : VCx) (n : Nat) (rc : VRecov) (k : K) (args : List Val) (x : Option VRes) : Option VRes :=
  match x with
  | none => none
  | some r =>
    if r.hits > 0 then some { r with hits := r.hits - 1 }
    else match r.out with
      | .fail => (rec cx (.recov rc) k (r.st.frame n) args).map (VRes.pre r.evs r.calls)
      | _ => none

/-- `_lst` after the first item: the loop, list.hpp l.17-67, and `sink_finish_parser`. -/
def stepLoopC (cx : VCx) (k : K) (st : St) (args : List Val) (item : VR) (acc : List (List Val)) :
    Option VSep → Option VRes
  | none =>
    if item.erase.isBranch V.env then
      choose (ex cx.cx (.btry item.erase) st)
        (baseC st.vars.length (rec cx (.fin item) kBase st []) fun vs st' =>
          rec cx (.lstLoop item none (sinkCall acc vs)) k st' args)
        (viaC' (ex cx.cx (.bcancel item.erase) st) fun st' => k st' (args ++ sinkDone V cx.cur acc))
    else none
  | some (sep, sk) =>
    choose (ex cx.cx (.btry sep.erase) st)
      (baseC st.vars.length (rec cx (.fin sep) kBase st []) fun vs st1 =>
        let acc1 := sinkCall acc vs
        if item.erase.isBranch V.env then
          choose (ex cx.cx (.btry item.erase) st1)
            (baseC st.vars.length (rec cx (.fin item) kBase st1 []) fun vs st2 =>
              rec cx (.lstLoop item (some (sep, sk)) (sinkCall acc1 vs)) k st2 args)
            (viaC' (ex cx.cx (.bcancel item.erase) st1) fun st2 =>
              emitC (trailingError sk st.pos st1.pos) (k st2 (args ++ sinkDone V cx.cur acc1)))
        else
          baseC st.vars.length (rec cx (.run item) kBase st1 []) fun vs st2 =>
            rec cx (.lstLoop item (some (sep, sk)) (sinkCall acc1 vs)) k st2 args)
      (viaC' (ex cx.cx (.bcancel sep.erase) st) fun st' => k st' (args ++ sinkDone V cx.cur acc))

/-- `_lstt::_loop` where no item was found: the terminator, or one more code unit is skipped, list.hpp l.373-404. -/
def ltGiveUpC (cx : VCx) (k : K) (args : List Val) (b : Nat) (term item : VR) (sep : Option VSep)
    (limit : List Nat → Bool) (acc : List (List Val)) (st : St) : Option VRes :=
  choose (ex cx.cx (.btry term.erase) st) (emitC (skipped b st true) (k st (args ++ sinkDone V cx.cur acc)))
    (viaC' (ex cx.cx (.bcancel term.erase) st) fun st2 =>
      if limit (V.inp.drop st2.pos) || peekEof V.eof (V.inp.drop st2.pos) then
        some ⟨.fail, st2, skipped b st2 false, [], 0⟩
      else rec cx (.lt (.reco b) term item sep limit acc) k { st2 with pos := st2.pos + 1 } args)

/-- `_lstt::_loop`, list.hpp l.185-412; its continuation `k` is the rest of `_lstt::p::parse`, l.431-441: the value of the
    sink is handed on, then the terminator is finished. -/
def stepLtC (cx : VCx) (k : K) (st : St) (args : List Val) (term item : VR) (sep : Option VSep)
    (limit : List Nat → Bool) (acc : List (List Val)) : LtSt → Option VRes
  -- l.196-204
  | .term =>
    choose (ex cx.cx (.btry term.erase) st) (k st (args ++ sinkDone V cx.cur acc))
      (viaC' (ex cx.cx (.bcancel term.erase) st) fun st' => rec cx (.lt .sep term item sep limit acc) k st' args)
  -- l.206-265
  | .sep =>
    match sep with
    | none => rec cx (.lt .item term item sep limit acc) k st args
    | some (s, _) =>
      tryBaseC st.vars.length (rec cx (.run s) kBase st [])
        (fun vs st1 => rec cx (.lt (.trail st.pos) term item sep limit (sinkCall acc vs)) k st1 args)
        (fun st1 =>
          if st.pos = st1.pos ∧ item.erase.isBranch V.env then
            choose (ex cx.cx (.btry item.erase) st1)
              (tryBaseC st.vars.length (rec cx (.fin item) kBase st1 [])
                (fun vs st2 => rec cx (.lt .term term item sep limit (sinkCall acc vs)) k st2 args)
                (fun st2 => evsC (ex cx.cx (.bcancel item.erase) st1)
                  (emitC [.recStart st2.pos] (rec cx (.lt (.reco st2.pos) term item sep limit acc) k st2 args))))
              (viaC' (ex cx.cx (.bcancel item.erase) st1) fun st2 =>
                emitC [.recStart st2.pos] (rec cx (.lt (.reco st2.pos) term item sep limit acc) k st2 args))
          else emitC [.recStart st1.pos] (rec cx (.lt (.reco st1.pos) term item sep limit acc) k st1 args))
  -- l.267-286
  | .trail p =>
    choose (ex cx.cx (.btry term.erase) st)
      (emitC (match sep with
        | some (_, sk) => trailingError sk p st.pos
        | none => []) (k st (args ++ sinkDone V cx.cur acc)))
      (rec cx (.lt .item term item sep limit acc) k st args)
  -- l.288-300
  | .item =>
    tryBaseC st.vars.length (rec cx (.run item) kBase st [])
      (fun vs st1 => rec cx (.lt .term term item sep limit (sinkCall acc vs)) k st1 args)
      (fun st1 => emitC [.recStart st1.pos] (rec cx (.lt (.reco st1.pos) term item sep limit acc) k st1 args))
  -- l.302-407
  | .reco b =>
    match sep with
    | some (s, _) =>
      choose (ex cx.cx (.btry s.erase) st)
        (emitC (skipped b st true)
          (tryBaseC st.vars.length (rec cx (.fin s) kBase st [])
            (fun vs st1 => rec cx (.lt (.trail st.pos) term item sep limit (sinkCall acc vs)) k st1 args)
            (fun st1 => emitC [.recStart st1.pos] (rec cx (.lt (.reco st1.pos) term item sep limit acc) k st1 args))))
        (viaC' (ex cx.cx (.bcancel s.erase) st) (ltGiveUpC V ex rec cx k args b term item sep limit acc))
    | none =>
      if item.erase.isBranch V.env then
        choose (ex cx.cx (.btry item.erase) st)
          (emitC (skipped b st true)
            (tryBaseC st.vars.length (rec cx (.fin item) kBase st [])
              (fun vs st1 => rec cx (.lt .term term item sep limit (sinkCall acc vs)) k st1 args)
              (fun st1 => emitC [.recStart st1.pos] (rec cx (.lt (.reco st1.pos) term item sep limit acc) k st1 args))))
          (viaC' (ex cx.cx (.bcancel item.erase) st) (ltGiveUpC V ex rec cx k args b term item sep limit acc))
      else ltGiveUpC V ex rec cx k args b term item sep limit acc st

/-- `_rep` after the number: the first item, repeat.hpp l.25-30 and l.57-62; `p` is where the number begins. -/
def repC (cx : VCx) (k : K) (args : List Val) (kd : RepKind) (f : List Nat → Nat) (item : VR) (sep : Option VSep) (p : Nat)
    (st1 : St) : Option VRes :=
  match f ((V.inp.take st1.pos).drop p) with
  | 0 => k st1 (args ++ repDone V cx.cur kd st1.pos st1.pos [])
  | m + 1 =>
    baseC st1.vars.length (rec cx (.run item) kBase st1 []) fun vs st2 =>
      rec cx (.repTail kd st1.pos m item sep (repAcc kd [] vs)) k st2 args

/-- `_rep_impl::loop` after an item, repeat.hpp l.32-43 and l.64-70, and what follows the loop. -/
def stepRepC (cx : VCx) (k : K) (st : St) (args : List Val) (kd : RepKind) (b : Nat) (item : VR) (sep : Option VSep)
    (acc : List (List Val)) : Nat → Option VRes
  | 0 =>
    baseC st.vars.length (rec cx (.run (vTrailing sep)) kBase st []) fun vs st' =>
      k st' (args ++ repDone V cx.cur kd b st'.pos (repAcc kd acc vs))
  | m + 1 =>
    let next (acc : List (List Val)) (st1 : St) : Option VRes :=
      baseC st.vars.length (rec cx (.run item) kBase st1 []) fun vs st2 =>
        rec cx (.repTail kd b m item sep (repAcc kd acc vs)) k st2 args
    match sep with
    | none => next acc st
    | some (s, _) => baseC st.vars.length (rec cx (.run s) kBase st []) fun vs st1 => next (repAcc kd acc vs) st1

/-- `_ctx_cpush::_pc`, context_counter.hpp l.64-78. -/
def pushed (id : Nat) (sign : Int) (k : K) : K := fun st args =>
  match args with
  | .mark b :: as =>
    (getCounter id st.vars).bind fun i =>
      k { st with vars := setVar (.counter id) (.counter (i + (st.pos - b : Nat) * sign)) st.vars } as
  | _ => none

/-- `_ctx_icap::_pc`, context_identifier.hpp l.48-58: "The last argument will be a lexeme." -/
def capturedId (id : Nat) (k : K) : K := fun st args =>
  match args.getLast? with
  | some (.lexeme b e) =>
    (getIdent id st.vars).bind fun _ =>
      k { st with vars := setVar (.ident id) (.ident ((V.inp.drop b).take (e - b))) st.vars } args
  | _ => none

/-- `parser_for<Rule, NextParser>::parse`. -/
def stepRunC (cx : VCx) (k : K) (st : St) (args : List Val) : VR → Option VRes
  | .leaf r => viaC (step V.env ex cx.cx (.run r) st) fun st' => k st' args
  -- capture.hpp l.47-62
  | .cap t =>
    let r := t.run (V.inp.drop st.pos)
    if r.1 then tokC ex cx t.kind (st.pos + r.2) st fun st' => k st' (args ++ [.lexeme st.pos (st.pos + r.2)])
    else some ⟨.fail, { st with pos := st.pos + r.2 },
      [.token .error st.pos (st.pos + r.2), .error t.tag st.pos (st.pos + r.2)], [], 0⟩
  -- capture.hpp l.109-119
  | .capp n =>
    if (V.prods n).isTok then
      prodC V ex cx n true (fun cx' k' st' as =>
          if (V.prods n).ws.isSome then viaC' (ex cx'.cx .ws st') fun st'' => rec cx' (.run (V.prods n).rule) k' st'' as
          else rec cx' (.run (V.prods n).rule) k' st' as)
        (captured ex cx args.length k) st (args ++ [.pos st.pos])
    else none
  | .val a => k st (args ++ [a.val])
  -- position.hpp l.55-66
  | .posr r => emitC [.token .position st.pos st.pos] (rec cx (.run r) k st (args ++ [.pos st.pos]))
  -- sequence.hpp l.25-30
  | .seq a b => rec cx (.run a) (fun st' as => rec cx (.run b) k st' as) st args
  -- branch.hpp l.25-26
  | .br c r => rec cx (.run c) (fun st' as => rec cx (.run r) k st' as) st args
  | .chc rs => rec cx (.chcRun rs) k st args
  -- if.hpp l.15-32
  | .ifR b =>
    choose (ex cx.cx (.btry b.erase) st) (rec cx (.fin b) k st args)
      (viaC' (ex cx.cx (.bcancel b.erase) st) fun st' => k st' args)
  -- option.hpp l.58-75
  | .opt b =>
    choose (ex cx.cx (.btry b.erase) st) (rec cx (.fin b) k st args)
      (viaC' (ex cx.cx (.bcancel b.erase) st) fun st' => k st' (args ++ [.nullopt]))
  -- option.hpp l.97-115
  | .optt term r =>
    choose (ex cx.cx (.btry term.erase) st) (rec cx (.fin term) k st (args ++ [.nullopt]))
      (viaC' (ex cx.cx (.bcancel term.erase) st) fun st' => rec cx (.run r) k st' args)
  -- error.hpp l.73-91
  | .must b e =>
    choose (ex cx.cx (.btry b.erase) st) (rec cx (.fin b) k st args)
      (viaC' (ex cx.cx (.bcancel b.erase) st) fun st' =>
        match framed st.vars.length (ex cx.cx (.run e) st') with
        | some ⟨.fail, st'', evs⟩ => some ⟨.fail, st'', evs, [], 0⟩
        | _ => none)
  -- list.hpp l.69-90
  | .lst item sep =>
    baseC st.vars.length (rec cx (.run item) kBase st []) fun vs st' =>
      rec cx (.lstLoop item sep (sinkCall [] vs)) k st' args
  -- list.hpp l.414-443
  | .lstt term item sep limit =>
    let finish : K := fun st' as => rec cx (.fin term) k st' as
    tryBaseC st.vars.length (rec cx (.run item) kBase st [])
      (fun vs st' => rec cx (.lt .term term item sep limit (sinkCall [] vs)) finish st' args)
      (fun st' => emitC [.recStart st'.pos] (rec cx (.lt (.reco st'.pos) term item sep limit []) finish st' args))
  -- recover.hpp l.261-280
  | .tryt term r rc =>
    tryC rec cx st.vars.length rc k args
      (rec cx (.run r) (reached fun st' as => match term with
        | none => k st' as
        | some t => rec cx (.run t) k st' as) st (.flag :: args))
  | .tryr r rc =>
    tryC rec cx st.vars.length rc k args (rec cx (.run r) (reached k) st (.flag :: args))
  -- production.hpp l.40-75
  | .prod n =>
    prodC V ex cx n false (fun cx' k' st' as =>
        if (V.prods n).ws.isSome then viaC' (ex cx'.cx .ws st') fun st'' => rec cx' (.run (V.prods n).rule) k' st'' as
        else rec cx' (.run (V.prods n).rule) k' st' as)
      k st args
  -- production.hpp l.209-222
  | .recu n tag _ => deeperC cx tag st k fun st' k' => rec cx (.run (.prod n)) k' st' args
  -- whitespace.hpp l.282-304 and 240-252
  | .wsn r =>
    if cx.cx.ws.isNone then rec cx (.run r) k st args
    else rec cx (.run r) (fun st' as => viaC (ex cx.cx .ws { st' with wsOn := true }) fun st'' => k st'' as)
      { st with wsOn := false } args
  -- member.hpp l.62-72, operator.hpp l.172-193
  | .pre a r => rec cx (.run r) k st (args ++ [a.val])
  -- parse_as.hpp l.114-145
  | .pas t r =>
    baseC st.vars.length (rec cx (.run r) kBase st []) fun vs st' => k st' (args ++ [.made t vs])
  -- combination.hpp l.76-118
  | .comb tag rs els =>
    rec cx (.combLoop tag (combVRules rs els) rs.length [] 0 [])
      (fun st' as => k { st' with idx := st.idx } as) { st with idx := 0 } args
  -- combination.hpp l.40-61; its continuation is always `pattern_parser`
  | .combIt i => k { st with idx := i } args
  -- return.hpp l.12-17
  | .ret => kFinal cx.cur st args
  | .prim q =>
    viaC (primDone ex cx.cx q.rule.ws (q.rule.parse V.inp st.pos) st) fun st' =>
      k st' (args ++ q.values V cx.cur st.pos)
  -- repeat.hpp l.74-131, parse_as.hpp l.114-145
  | .rep kd c f item sep =>
    baseC st.vars.length (rec cx (.run c) kBase st []) fun _ st1 => repC V rec cx k args kd f item sep st.pos st1
  -- context_counter.hpp l.106-116
  | .cntPush id r sign => rec cx (.run r) (pushed id sign k) st (.mark st.pos :: args)
  -- context_counter.hpp l.152-157
  | .cntVal id => (getCounter id st.vars).bind fun i => k st (args ++ [.num i])
  -- context_identifier.hpp l.61-62
  | .idCap id q =>
    viaC' (primDone ex cx.cx q.rule.ws (q.rule.parse V.inp st.pos) st) fun st' =>
      capturedId V id k st' (args ++ [.lexeme st.pos (st.pos + q.len (V.inp.drop st.pos))])

/-- `bp::finish`, for a branch that was taken at `st.pos`. -/
def stepFinC (cx : VCx) (k : K) (st : St) (args : List Val) : VR → Option VRes
  | .leaf r => viaC (step V.env ex cx.cx (.bfinish r) st) fun st' => k st' args
  -- capture.hpp l.33-44
  | .cap t =>
    let e := st.pos + (t.run (V.inp.drop st.pos)).2
    tokC ex cx t.kind e st fun st' => k st' (args ++ [.lexeme st.pos e])
  -- capture.hpp l.99-106
  | .capp n =>
    if (V.prods n).isTok then
      prodC V ex cx n true (fun cx' k' st' as => rec cx' (.fin (V.prods n).rule) k' st' as)
        (captured ex cx args.length k) st (args ++ [.pos st.pos])
    else none
  -- not a branch
  | .val a => k st (args ++ [a.val])
  -- position.hpp l.46-52
  | .posr r => emitC [.token .position st.pos st.pos] (rec cx (.fin r) k st (args ++ [.pos st.pos]))
  -- base.hpp l.163-167, branch.hpp l.17-23
  | .br c r => rec cx (.fin c) (fun st' as => rec cx (.run r) k st' as) st args
  | .chc rs => rec cx (.chcFin rs) k st args
  -- error.hpp l.93-95
  | .must b _ => rec cx (.fin b) k st args
  -- list.hpp l.110-127
  | .lst item sep =>
    baseC st.vars.length (rec cx (.fin item) kBase st []) fun vs st' =>
      rec cx (.lstLoop item sep (sinkCall [] vs)) k st' args
  -- recover.hpp l.305-320
  | .tryr r rc =>
    tryC rec cx st.vars.length rc k args (rec cx (.fin r) (reached k) st (.flag :: args))
  -- production.hpp l.100-121
  | .prod n => prodC V ex cx n false (fun cx' k' st' as => rec cx' (.fin (V.prods n).rule) k' st' as) k st args
  -- production.hpp l.199-206
  | .recu n tag _ => deeperC cx tag st k fun st' k' => rec cx (.fin (.prod n)) k' st' args
  -- whitespace.hpp l.273-279
  | .wsn r =>
    rec cx (.fin r) (fun st' as => viaC (ex cx.cx .ws { st' with wsOn := true }) fun st'' => k st'' as)
      { st with wsOn := false } args
  -- member.hpp l.53-59, operator.hpp l.150-169
  | .pre a r => rec cx (.fin r) k st (args ++ [a.val])
  -- parse_as.hpp l.84-111
  | .pas t r =>
    baseC st.vars.length (rec cx (.fin r) kBase st []) fun vs st' => k st' (args ++ [.made t vs])
  | .prim q =>
    viaC (primDone ex cx.cx q.rule.ws (q.rule.finish V.inp st.pos) st) fun st' =>
      k st' (args ++ q.values V cx.cur st.pos)
  -- repeat.hpp l.74-131, parse_as.hpp l.84-111
  | .rep kd c f item sep =>
    baseC st.vars.length (rec cx (.fin c) kBase st []) fun _ st1 => repC V rec cx k args kd f item sep st.pos st1
  -- context_counter.hpp l.97-103
  | .cntPush id r sign => rec cx (.fin r) (pushed id sign k) st (.mark st.pos :: args)
  -- context_identifier.hpp l.59-60
  | .idCap id q =>
    viaC' (primDone ex cx.cx q.rule.ws (q.rule.finish V.inp st.pos) st) fun st' =>
      capturedId V id k st' (args ++ [.lexeme st.pos (st.pos + q.len (V.inp.drop st.pos))])
  | _ => none

/-- One step. -/
def stepC (cx : VCx) (c : VCmd) (k : K) (st : St) (args : List Val) : Option VRes :=
  match c with
  | .run r => stepRunC V ex rec cx k st args r
  | .fin r => stepFinC V ex rec cx k st args r
  -- choice.hpp l.93-130
  | .chcRun [] => some ⟨.fail, st, [.error 0 st.pos st.pos], [], 0⟩
  | .chcRun (r :: rs) =>
    choose (ex cx.cx (.btry r.erase) st) (rec cx (.fin r) k st args)
      (viaC' (ex cx.cx (.bcancel r.erase) st) fun st' => rec cx (.chcRun rs) k st' args)
  -- choice.hpp l.77-90
  | .chcFin [] => none
  | .chcFin (r :: rs) =>
    choose (ex cx.cx (.btry r.erase) st) (rec cx (.fin r) k st args)
      (viaC' (ex cx.cx (.bcancel r.erase) st) fun st' => rec cx (.chcFin rs) k st' args)
  | .lstLoop item sep acc => stepLoopC V ex rec cx k st args item acc sep
  | .lt s term item sep limit acc => stepLtC V ex rec cx k st args term item sep limit acc s
  | .repTail kd b m item sep acc => stepRepC V rec cx k st args kd b item sep acc m
  -- recover.hpp l.37-50
  | .recov (.wrap r) =>
    match rec cx (.run r) (fun st' as => viaC (ex cx.cx .ws st') fun st'' =>
        reached (fun st'' as => emitC [.recFinish st''.pos] (k st'' as)) st'' as) st (.flag :: args) with
    | none => none
    | some r =>
      if r.hits > 0 then some { r with evs := [.recStart st.pos] ++ r.evs, hits := r.hits - 1 }
      else match r.out with
        | .brk => none
        | o => some { r with out := o, evs := [.recStart st.pos] ++ r.evs ++ [.recCancel r.st.pos] }
  -- recover.hpp l.69-106
  | .recov (.find l) => viaC (step V.env ex cx.cx (.recov (.find l)) st) fun st' => k st' args
  -- recover.hpp l.148-182
  | .recov (.reco limit rs) => emitC [.recStart st.pos] (rec cx (.recoLoop st.pos limit rs) k st args)
  | .recoLoop b limit rs =>
    choose (ex cx.cx (.chcTry (VR.eraseL rs)) st)
      (emitC (skipped b st true) (rec cx (.chcFin rs) k st args))
      (viaC' (ex cx.cx (.chcCancel (VR.eraseL rs)) st) fun st1 =>
        if limit (V.inp.drop st1.pos) || peekEof V.eof (V.inp.drop st1.pos) then
          some ⟨.fail, st1, skipped b st1 false, [], 0⟩
        else rec cx (.recoLoop b limit rs) k { st1 with pos := st1.pos + 1 } args)
  -- combination.hpp l.88-117
  | .combLoop tag rs n handled count acc =>
    if count ≥ n then k st (args ++ sinkDone V cx.cur acc)
    else
      match rec cx (.chcRun rs) kBase st [] with
      | none => none
      | some r =>
        let st1 := r.st.frame st.vars.length
        match r.out with
        | .fail => some ⟨.fail, st1, r.evs, r.calls, 0⟩
        | .brk => (k st1 (args ++ sinkDone V cx.cur acc)).map (VRes.pre r.evs r.calls)
        | .base vs =>
          (if handled.contains st1.idx then
            emitC [.error tag st.pos st1.pos] (rec cx (.combLoop tag rs n handled count acc) k st1 args)
          else rec cx (.combLoop tag rs n (st1.idx :: handled) (count + 1) (sinkCall acc vs)) k st1 args).map
            (VRes.pre r.evs r.calls)
        | .final _ => none

end Step

/-- The interpreter with a bound on the number of nested steps. -/
def cps (V : VEnv) : Nat → VCx → VCmd → K → St → List Val → Option VRes
  | 0, _, _, _, _, _ => none
  | n + 1, cx, c, k, st, args => stepC V (exec V.env n) (cps V n) cx c k st args

/-- `_do_action` and `do_action`, action/base.hpp l.201-248, as used by `lexy::parse`: the result with `context.value`
    (the arguments of the callback of the entry production), if it is there. -/
def parseV (V : VEnv) (fuel n maxDepth : Nat) : Option (VRes × Option Val) :=
  let d := V.prods n
  let cx : VCx := ⟨⟨d.ws, maxDepth⟩, n⟩
  match viaC' (exec V.env fuel cx.cx .ws { pos := 0 }) fun st => cps V fuel cx (.run d.rule) (kFinal n) st [] with
  | none => none
  | some r => match r.out with
    | .final vs => some
        (r.pre [.grammarStart 0, .prodStart n 0] [] |> fun r' =>
          { r' with evs := r'.evs ++ [.prodFinish n r.st.pos, .grammarFinish r.st.pos] }, some (.call n vs))
    | .fail => some
        (r.pre [.grammarStart 0, .prodStart n 0] [] |> fun r' =>
          { r' with evs := r'.evs ++ [.prodCancel n r.st.pos, .grammarCancel r.st.pos] }, none)
    | _ => none

end Verif.Val
