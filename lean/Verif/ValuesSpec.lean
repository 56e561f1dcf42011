import Verif.Values

/-
The values of a rule, as documented: a rule succeeds with a list of values of its own, fails, or ends the production
early (`return_`).  There are no continuations and nobody sees the values of others: the values of a sequence are
those of its parts one after the other (/repo/docs/content/reference/dsl, sections "Values").

`Verif.Val.cps` (Values.lean) is the model of the code; that the two agree is proved in ValuesProps.lean.
-/

namespace Verif.Val

/-- The outcome of a rule.  `ret pre`: `return_` was reached; `pre` are the values that are handed to the callback
    before everything else (there should be none). -/
inductive DOut
  | ok | fail | brk | ret (pre : List Val)

/-- The result of a rule: `vals` are its values (for `return_`, those up to it); `calls` as in `VRes`. -/
structure DRes where
  out : DOut
  st : St
  evs : List Ev
  calls : List (Nat × List Val)
  vals : List Val

def DRes.pre (evs : List Ev) (calls : List (Nat × List Val)) (vals : List Val) (r : DRes) : DRes :=
  { r with evs := evs ++ r.evs, calls := calls ++ r.calls, vals := vals ++ r.vals }

def emitD (evs : List Ev) (x : Option DRes) : Option DRes := x.map (DRes.pre evs [] [])
/-- A value of the rule itself before those of `x`. -/
def valD (vs : List Val) (x : Option DRes) : Option DRes := x.map (DRes.pre [] [] vs)
def okD (st : St) (vs : List Val) : Option DRes := some ⟨.ok, st, [], [], vs⟩

/-- One after the other. -/
def thenD (x : Option DRes) (f : St → Option DRes) : Option DRes :=
  match x with
  | none => none
  | some r => match r.out with
    | .ok => (f r.st).map (DRes.pre r.evs r.calls r.vals)
    | _ => some r

def viaD (x : Option Res) (f : St → Option DRes) : Option DRes :=
  match x with
  | none => none
  | some r => match r.out with
    | .ok => emitD r.evs (f r.st)
    | .fail => some ⟨.fail, r.st, r.evs, [], []⟩
    | .brk => some ⟨.brk, r.st, r.evs, [], []⟩

def viaD' (x : Option Res) (f : St → Option DRes) : Option DRes :=
  match x with
  | none => none
  | some r => match r.out with
    | .ok => emitD r.evs (f r.st)
    | .fail => some ⟨.fail, r.st, r.evs, [], []⟩
    | .brk => none

/-- A rule whose values are given to something else; it must not end the production. -/
def baseD (n : Nat) (x : Option DRes) (f : List Val → St → Option DRes) : Option DRes :=
  match x with
  | none => none
  | some r => match r.out with
    | .ok => (f r.vals (r.st.frame n)).map (DRes.pre r.evs r.calls [])
    | .fail => some ⟨.fail, r.st.frame n, r.evs, r.calls, []⟩
    | _ => none

def tryBaseD (n : Nat) (x : Option DRes) (f : List Val → St → Option DRes) (g : St → Option DRes) : Option DRes :=
  match x with
  | none => none
  | some r => match r.out with
    | .ok => (f r.vals (r.st.frame n)).map (DRes.pre r.evs r.calls [])
    | .fail => (g (r.st.frame n)).map (DRes.pre r.evs r.calls [])
    | _ => none

def evsD (x : Option Res) (y : Option DRes) : Option DRes :=
  match x with
  | none => none
  | some r => emitD r.evs y

/-- A rule for which `begin_` was put in front of all values; they are only removed if the rule succeeds. -/
def frontD (w : Val) (x : Option DRes) (f : St → Option DRes) : Option DRes :=
  match x with
  | none => none
  | some r => match r.out with
    | .ok => (f r.st).map (DRes.pre r.evs r.calls r.vals)
    | .ret pre => some { r with out := .ret (pre ++ [w]) }
    | _ => some r

/-- The arguments of the callback of a production: the values of its rule. -/
def DRes.args (r : DRes) : Option (List Val) :=
  match r.out with
  | .ok => some r.vals
  | .ret pre => some (pre ++ r.vals)
  | _ => none

section Step

variable (V : VEnv) (ex : Cx → Cmd → St → Option Res) (rec : VCx → VCmd → St → Option DRes)

/-- A production: its callback is called once its rule succeeds, and the result is its value. -/
def prodD (cx : VCx) (n : Nat) (capture : Bool) (body : VCx → St → Option DRes) (st : St) : Option DRes :=
  let d := V.prods n
  match body (cx.sub V n) { st with ex := {} } with
  | none => none
  | some r =>
    let st' := { r.st.frame st.vars.length with ex := st.ex }
    match r.out with
    | .fail => some ⟨.fail, st', [.prodStart n st.pos] ++ r.evs ++ [.prodCancel n st'.pos], r.calls, []⟩
    | .brk => none
    | _ => r.args.bind fun vs =>
      ((if d.isTok then viaD (ex cx.cx .ws st') fun st' => okD st' [] else okD st' []).map
        (DRes.pre ([.prodStart n st.pos] ++ r.evs ++ [.prodFinish n st'.pos]) (r.calls ++ [(n, vs)])
          ((if capture then [.lexeme st.pos st'.pos] else []) ++ if d.void then [] else [.call n vs])))

def tokD (cx : VCx) (k : Kind) (e : Nat) (st : St) (vs : List Val) : Option DRes :=
  emitD [.token k st.pos e] (viaD (ex cx.cx .ws { st with pos := e }) fun st' => okD st' vs)

def deeperD (cx : VCx) (tag : Nat) (st : St) (body : St → Option DRes) : Option DRes :=
  if cx.cx.maxDepth = 0 then none
  else if st.depth ≥ cx.cx.maxDepth then some ⟨.fail, st, [.error tag st.pos st.pos], [], []⟩
  else thenD (body { st with depth := st.depth + 1 }) fun st' => okD { st' with depth := st'.depth - 1 } []

/-- Recovery, if the rule failed. -/
def tryD (cx : VCx) (n : Nat) (rc : VRecov) (x : Option DRes) (f : St → Option DRes) : Option DRes :=
  match x with
  | none => none
  | some r => match r.out with
    | .ok => (f r.st).map (DRes.pre r.evs r.calls r.vals)
    | .fail => (rec cx (.recov rc) (r.st.frame n)).map (DRes.pre r.evs r.calls [])
    | _ => none

def stepLoopD (cx : VCx) (st : St) (item : VR) (acc : List (List Val)) : Option VSep → Option DRes
  | none =>
    if item.erase.isBranch V.env then
      choose (ex cx.cx (.btry item.erase) st)
        (baseD st.vars.length (rec cx (.fin item) st) fun vs st' => rec cx (.lstLoop item none (sinkCall acc vs)) st')
        (viaD' (ex cx.cx (.bcancel item.erase) st) fun st' => okD st' (sinkDone V cx.cur acc))
    else none
  | some (sep, sk) =>
    choose (ex cx.cx (.btry sep.erase) st)
      (baseD st.vars.length (rec cx (.fin sep) st) fun vs st1 =>
        let acc1 := sinkCall acc vs
        if item.erase.isBranch V.env then
          choose (ex cx.cx (.btry item.erase) st1)
            (baseD st.vars.length (rec cx (.fin item) st1) fun vs st2 =>
              rec cx (.lstLoop item (some (sep, sk)) (sinkCall acc1 vs)) st2)
            (viaD' (ex cx.cx (.bcancel item.erase) st1) fun st2 =>
              emitD (trailingError sk st.pos st1.pos) (okD st2 (sinkDone V cx.cur acc1)))
        else
          baseD st.vars.length (rec cx (.run item) st1) fun vs st2 =>
            rec cx (.lstLoop item (some (sep, sk)) (sinkCall acc1 vs)) st2)
      (viaD' (ex cx.cx (.bcancel sep.erase) st) fun st' => okD st' (sinkDone V cx.cur acc))

def ltGiveUpD (cx : VCx) (b : Nat) (term item : VR) (sep : Option VSep) (limit : List Nat → Bool)
    (acc : List (List Val)) (st : St) : Option DRes :=
  choose (ex cx.cx (.btry term.erase) st) (emitD (skipped b st true) (okD st (sinkDone V cx.cur acc)))
    (viaD' (ex cx.cx (.bcancel term.erase) st) fun st2 =>
      if limit (V.inp.drop st2.pos) || peekEof V.eof (V.inp.drop st2.pos) then
        some ⟨.fail, st2, skipped b st2 false, [], []⟩
      else rec cx (.lt (.reco b) term item sep limit acc) { st2 with pos := st2.pos + 1 })

def stepLtD (cx : VCx) (st : St) (term item : VR) (sep : Option VSep) (limit : List Nat → Bool)
    (acc : List (List Val)) : LtSt → Option DRes
  | .term =>
    choose (ex cx.cx (.btry term.erase) st) (okD st (sinkDone V cx.cur acc))
      (viaD' (ex cx.cx (.bcancel term.erase) st) fun st' => rec cx (.lt .sep term item sep limit acc) st')
  | .sep =>
    match sep with
    | none => rec cx (.lt .item term item sep limit acc) st
    | some (s, _) =>
      tryBaseD st.vars.length (rec cx (.run s) st)
        (fun vs st1 => rec cx (.lt (.trail st.pos) term item sep limit (sinkCall acc vs)) st1)
        (fun st1 =>
          if st.pos = st1.pos ∧ item.erase.isBranch V.env then
            choose (ex cx.cx (.btry item.erase) st1)
              (tryBaseD st.vars.length (rec cx (.fin item) st1)
                (fun vs st2 => rec cx (.lt .term term item sep limit (sinkCall acc vs)) st2)
                (fun st2 => evsD (ex cx.cx (.bcancel item.erase) st1)
                  (emitD [.recStart st2.pos] (rec cx (.lt (.reco st2.pos) term item sep limit acc) st2))))
              (viaD' (ex cx.cx (.bcancel item.erase) st1) fun st2 =>
                emitD [.recStart st2.pos] (rec cx (.lt (.reco st2.pos) term item sep limit acc) st2))
          else emitD [.recStart st1.pos] (rec cx (.lt (.reco st1.pos) term item sep limit acc) st1))
  | .trail p =>
    choose (ex cx.cx (.btry term.erase) st)
      (emitD (match sep with
        | some (_, sk) => trailingError sk p st.pos
        | none => []) (okD st (sinkDone V cx.cur acc)))
      (rec cx (.lt .item term item sep limit acc) st)
  | .item =>
    tryBaseD st.vars.length (rec cx (.run item) st)
      (fun vs st1 => rec cx (.lt .term term item sep limit (sinkCall acc vs)) st1)
      (fun st1 => emitD [.recStart st1.pos] (rec cx (.lt (.reco st1.pos) term item sep limit acc) st1))
  | .reco b =>
    match sep with
    | some (s, _) =>
      choose (ex cx.cx (.btry s.erase) st)
        (emitD (skipped b st true)
          (tryBaseD st.vars.length (rec cx (.fin s) st)
            (fun vs st1 => rec cx (.lt (.trail st.pos) term item sep limit (sinkCall acc vs)) st1)
            (fun st1 => emitD [.recStart st1.pos] (rec cx (.lt (.reco st1.pos) term item sep limit acc) st1))))
        (viaD' (ex cx.cx (.bcancel s.erase) st) (ltGiveUpD V ex rec cx b term item sep limit acc))
    | none =>
      if item.erase.isBranch V.env then
        choose (ex cx.cx (.btry item.erase) st)
          (emitD (skipped b st true)
            (tryBaseD st.vars.length (rec cx (.fin item) st)
              (fun vs st1 => rec cx (.lt .term term item sep limit (sinkCall acc vs)) st1)
              (fun st1 => emitD [.recStart st1.pos] (rec cx (.lt (.reco st1.pos) term item sep limit acc) st1))))
          (viaD' (ex cx.cx (.bcancel item.erase) st) (ltGiveUpD V ex rec cx b term item sep limit acc))
      else ltGiveUpD V ex rec cx b term item sep limit acc st

def repD (cx : VCx) (kd : RepKind) (f : List Nat → Nat) (item : VR) (sep : Option VSep) (p : Nat) (st1 : St) :
    Option DRes :=
  match f ((V.inp.take st1.pos).drop p) with
  | 0 => okD st1 (repDone V cx.cur kd st1.pos st1.pos [])
  | m + 1 =>
    baseD st1.vars.length (rec cx (.run item) st1) fun vs st2 =>
      rec cx (.repTail kd st1.pos m item sep (repAcc kd [] vs)) st2

def stepRepD (cx : VCx) (st : St) (kd : RepKind) (b : Nat) (item : VR) (sep : Option VSep) (acc : List (List Val)) :
    Nat → Option DRes
  | 0 =>
    baseD st.vars.length (rec cx (.run (vTrailing sep)) st) fun vs st' =>
      okD st' (repDone V cx.cur kd b st'.pos (repAcc kd acc vs))
  | m + 1 =>
    let next (acc : List (List Val)) (st1 : St) : Option DRes :=
      baseD st.vars.length (rec cx (.run item) st1) fun vs st2 =>
        rec cx (.repTail kd b m item sep (repAcc kd acc vs)) st2
    match sep with
    | none => next acc st
    | some (s, _) => baseD st.vars.length (rec cx (.run s) st) fun vs st1 => next (repAcc kd acc vs) st1

/-- The counter after a rule that began at `p`. -/
def pushD (id : Nat) (sign : Int) (p : Nat) (st : St) : Option DRes :=
  (getCounter id st.vars).bind fun i =>
    okD { st with vars := setVar (.counter id) (.counter (i + (st.pos - p : Nat) * sign)) st.vars } []

/-- The identifier `s` is captured, its lexeme is the value. -/
def identD (id : Nat) (s : List Nat) (vs : List Val) (st : St) : Option DRes :=
  (getIdent id st.vars).bind fun _ => okD { st with vars := setVar (.ident id) (.ident s) st.vars } vs

/-- Parse a rule. -/
def stepRunD (cx : VCx) (st : St) : VR → Option DRes
  | .leaf r => viaD (step V.env ex cx.cx (.run r) st) fun st' => okD st' []
  -- capture: "a lexeme whose range covers everything consumed by `token` except any trailing whitespace"
  | .cap t =>
    let r := t.run (V.inp.drop st.pos)
    if r.1 then tokD ex cx t.kind (st.pos + r.2) st [.lexeme st.pos (st.pos + r.2)]
    else some ⟨.fail, { st with pos := st.pos + r.2 },
      [.token .error st.pos (st.pos + r.2), .error t.tag st.pos (st.pos + r.2)], [], []⟩
  | .capp n =>
    if (V.prods n).isTok then
      prodD V ex cx n true (fun cx' st' =>
        if (V.prods n).ws.isSome then viaD' (ex cx'.cx .ws st') fun st'' => rec cx' (.run (V.prods n).rule) st''
        else rec cx' (.run (V.prods n).rule) st') st
    else none
  | .val a => okD st [a.val]
  -- position: "an iterator to the current position", then the values of the rule
  | .posr r => emitD [.token .position st.pos st.pos] (valD [.pos st.pos] (rec cx (.run r) st))
  -- sequence: "all values produced by the rules in the same order as the rules were parsed"
  | .seq a b => thenD (rec cx (.run a) st) fun st' => rec cx (.run b) st'
  | .br c r => thenD (rec cx (.run c) st) fun st' => rec cx (.run r) st'
  | .chc rs => rec cx (.chcRun rs) st
  | .ifR b =>
    choose (ex cx.cx (.btry b.erase) st) (rec cx (.fin b) st)
      (viaD' (ex cx.cx (.bcancel b.erase) st) fun st' => okD st' [])
  | .opt b =>
    choose (ex cx.cx (.btry b.erase) st) (rec cx (.fin b) st)
      (viaD' (ex cx.cx (.bcancel b.erase) st) fun st' => okD st' [.nullopt])
  | .optt term r =>
    choose (ex cx.cx (.btry term.erase) st) (valD [.nullopt] (rec cx (.fin term) st))
      (viaD' (ex cx.cx (.bcancel term.erase) st) fun st' => rec cx (.run r) st')
  | .must b e =>
    choose (ex cx.cx (.btry b.erase) st) (rec cx (.fin b) st)
      (viaD' (ex cx.cx (.bcancel b.erase) st) fun st' =>
        match framed st.vars.length (ex cx.cx (.run e) st') with
        | some ⟨.fail, st'', evs⟩ => some ⟨.fail, st'', evs, [], []⟩
        | _ => none)
  | .lst item sep =>
    baseD st.vars.length (rec cx (.run item) st) fun vs st' => rec cx (.lstLoop item sep (sinkCall [] vs)) st'
  -- list: the value of the sink, "then all values of the terminator" (terminator.adoc)
  | .lstt term item sep limit =>
    thenD (tryBaseD st.vars.length (rec cx (.run item) st)
        (fun vs st' => rec cx (.lt .term term item sep limit (sinkCall [] vs)) st')
        (fun st' => emitD [.recStart st'.pos] (rec cx (.lt (.reco st'.pos) term item sep limit []) st')))
      fun st' => rec cx (.fin term) st'
  | .tryt term r rc =>
    tryD rec cx st.vars.length rc (rec cx (.run r) st) fun st' => match term with
      | none => okD st' []
      | some t => rec cx (.run t) st'
  | .tryr r rc => tryD rec cx st.vars.length rc (rec cx (.run r) st) fun st' => okD st' []
  | .prod n =>
    prodD V ex cx n false (fun cx' st' =>
      if (V.prods n).ws.isSome then viaD' (ex cx'.cx .ws st') fun st'' => rec cx' (.run (V.prods n).rule) st''
      else rec cx' (.run (V.prods n).rule) st') st
  | .recu n tag _ => deeperD cx tag st fun st' => rec cx (.run (.prod n)) st'
  | .wsn r =>
    if cx.cx.ws.isNone then rec cx (.run r) st
    else thenD (rec cx (.run r) { st with wsOn := false }) fun st' =>
      viaD (ex cx.cx .ws { st' with wsOn := true }) fun st'' => okD st'' []
  | .pre a r => valD [a.val] (rec cx (.run r) st)
  | .pas t r => baseD st.vars.length (rec cx (.run r) st) fun vs st' => okD st' [.made t vs]
  | .comb tag rs els =>
    thenD (rec cx (.combLoop tag (combVRules rs els) rs.length [] 0 []) { st with idx := 0 }) fun st' =>
      okD { st' with idx := st.idx } []
  | .combIt i => okD { st with idx := i } []
  | .ret => some ⟨.ret [], st, [], [], []⟩
  | .prim q =>
    viaD (primDone ex cx.cx q.rule.ws (q.rule.parse V.inp st.pos) st) fun st' => okD st' (q.values V cx.cur st.pos)
  -- repeat: the number is not a value; nothing, the value of the sink, or the lexeme
  | .rep kd c f item sep =>
    baseD st.vars.length (rec cx (.run c) st) fun _ st1 => repD V rec cx kd f item sep st.pos st1
  -- "all values produced by `rule`" (context_counter.adoc); the documentation does not say what `return_` does
  | .cntPush id r sign => frontD (.mark st.pos) (rec cx (.run r) st) (pushD id sign st.pos)
  | .cntVal id => (getCounter id st.vars).bind fun i => okD st [.num i]
  | .idCap id q =>
    let n := q.len (V.inp.drop st.pos)
    viaD' (primDone ex cx.cx q.rule.ws (q.rule.parse V.inp st.pos) st)
      (identD id ((V.inp.drop st.pos).take n) [.lexeme st.pos (st.pos + n)])

/-- Parse a branch that was taken. -/
def stepFinD (cx : VCx) (st : St) : VR → Option DRes
  | .leaf r => viaD (step V.env ex cx.cx (.bfinish r) st) fun st' => okD st' []
  | .cap t =>
    let e := st.pos + (t.run (V.inp.drop st.pos)).2
    tokD ex cx t.kind e st [.lexeme st.pos e]
  | .capp n =>
    if (V.prods n).isTok then prodD V ex cx n true (fun cx' st' => rec cx' (.fin (V.prods n).rule) st') st else none
  | .val a => okD st [a.val]
  | .posr r => emitD [.token .position st.pos st.pos] (valD [.pos st.pos] (rec cx (.fin r) st))
  | .br c r => thenD (rec cx (.fin c) st) fun st' => rec cx (.run r) st'
  | .chc rs => rec cx (.chcFin rs) st
  | .must b _ => rec cx (.fin b) st
  | .lst item sep =>
    baseD st.vars.length (rec cx (.fin item) st) fun vs st' => rec cx (.lstLoop item sep (sinkCall [] vs)) st'
  | .tryr r rc => tryD rec cx st.vars.length rc (rec cx (.fin r) st) fun st' => okD st' []
  | .prod n => prodD V ex cx n false (fun cx' st' => rec cx' (.fin (V.prods n).rule) st') st
  | .recu n tag _ => deeperD cx tag st fun st' => rec cx (.fin (.prod n)) st'
  | .wsn r =>
    thenD (rec cx (.fin r) { st with wsOn := false }) fun st' =>
      viaD (ex cx.cx .ws { st' with wsOn := true }) fun st'' => okD st'' []
  | .pre a r => valD [a.val] (rec cx (.fin r) st)
  | .pas t r => baseD st.vars.length (rec cx (.fin r) st) fun vs st' => okD st' [.made t vs]
  | .prim q =>
    viaD (primDone ex cx.cx q.rule.ws (q.rule.finish V.inp st.pos) st) fun st' => okD st' (q.values V cx.cur st.pos)
  | .rep kd c f item sep =>
    baseD st.vars.length (rec cx (.fin c) st) fun _ st1 => repD V rec cx kd f item sep st.pos st1
  | .cntPush id r sign => frontD (.mark st.pos) (rec cx (.fin r) st) (pushD id sign st.pos)
  | .idCap id q =>
    let n := q.len (V.inp.drop st.pos)
    viaD' (primDone ex cx.cx q.rule.ws (q.rule.finish V.inp st.pos) st)
      (identD id ((V.inp.drop st.pos).take n) [.lexeme st.pos (st.pos + n)])
  | _ => none

/-- One step. -/
def stepD (cx : VCx) (c : VCmd) (st : St) : Option DRes :=
  match c with
  | .run r => stepRunD V ex rec cx st r
  | .fin r => stepFinD V ex rec cx st r
  | .chcRun [] => some ⟨.fail, st, [.error 0 st.pos st.pos], [], []⟩
  | .chcRun (r :: rs) =>
    choose (ex cx.cx (.btry r.erase) st) (rec cx (.fin r) st)
      (viaD' (ex cx.cx (.bcancel r.erase) st) fun st' => rec cx (.chcRun rs) st')
  | .chcFin [] => none
  | .chcFin (r :: rs) =>
    choose (ex cx.cx (.btry r.erase) st) (rec cx (.fin r) st)
      (viaD' (ex cx.cx (.bcancel r.erase) st) fun st' => rec cx (.chcFin rs) st')
  | .lstLoop item sep acc => stepLoopD V ex rec cx st item acc sep
  | .lt s term item sep limit acc => stepLtD V ex rec cx st term item sep limit acc s
  | .repTail kd b m item sep acc => stepRepD V rec cx st kd b item sep acc m
  | .recov (.wrap r) =>
    match thenD (rec cx (.run r) st) fun st' => viaD (ex cx.cx .ws st') fun st'' => okD st'' [] with
    | none => none
    | some r => match r.out with
      | .ok => some { r with evs := [.recStart st.pos] ++ r.evs ++ [.recFinish r.st.pos] }
      | .fail => some { r with evs := [.recStart st.pos] ++ r.evs ++ [.recCancel r.st.pos], vals := [] }
      | .brk => none
      -- the documentation does not say so: the callback gets an additional `bool&`
      | .ret pre => some { r with out := .ret (pre ++ [.flag]),
                                  evs := [.recStart st.pos] ++ r.evs ++ [.recCancel r.st.pos] }
  | .recov (.find l) => viaD (step V.env ex cx.cx (.recov (.find l)) st) fun st' => okD st' []
  | .recov (.reco limit rs) => emitD [.recStart st.pos] (rec cx (.recoLoop st.pos limit rs) st)
  | .recoLoop b limit rs =>
    choose (ex cx.cx (.chcTry (VR.eraseL rs)) st)
      (emitD (skipped b st true) (rec cx (.chcFin rs) st))
      (viaD' (ex cx.cx (.chcCancel (VR.eraseL rs)) st) fun st1 =>
        if limit (V.inp.drop st1.pos) || peekEof V.eof (V.inp.drop st1.pos) then
          some ⟨.fail, st1, skipped b st1 false, [], []⟩
        else rec cx (.recoLoop b limit rs) { st1 with pos := st1.pos + 1 })
  | .combLoop tag rs n handled count acc =>
    if count ≥ n then okD st (sinkDone V cx.cur acc)
    else
      match rec cx (.chcRun rs) st with
      | none => none
      | some r =>
        let st1 := r.st.frame st.vars.length
        match r.out with
        | .fail => some ⟨.fail, st1, r.evs, r.calls, []⟩
        | .brk => some ⟨.ok, st1, r.evs, r.calls, sinkDone V cx.cur acc⟩
        | .ok =>
          (if handled.contains st1.idx then
            emitD [.error tag st.pos st1.pos] (rec cx (.combLoop tag rs n handled count acc) st1)
          else rec cx (.combLoop tag rs n (st1.idx :: handled) (count + 1) (sinkCall acc r.vals)) st1).map
            (DRes.pre r.evs r.calls [])
        | .ret _ => none

end Step

/-- The rules with a bound on the number of nested steps. -/
def dv (V : VEnv) : Nat → VCx → VCmd → St → Option DRes
  | 0, _, _, _ => none
  | n + 1, cx, c, st => stepD V (exec V.env n) (dv V n) cx c st

end Verif.Val
