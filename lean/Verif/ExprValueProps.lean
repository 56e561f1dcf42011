import Verif.ExprValue

/-
The value of an expression is that of its tree (C97).
-/

namespace Verif.Spec

/- A tree of operations with the values of the atoms and operators.  A list is its first operand, followed by operators and
   operands; `rest`: an operator behind which there was no operand. -/
mutual
inductive VTree (β : Type)
  | atom (b e : Nat) (vs : List β)
  | pre (op : Nat) (vs : List β) (t : VTree β)
  | post (op : Nat) (t : VTree β) (vs : List β)
  | inf (op : Nat) (l : VTree β) (vs : List β) (r : VTree β)
  | list (op : Nat) (ts : VItems β) (rest : Option (List β))
inductive VItems (β : Type)
  | one (t : VTree β)
  | snoc (ts : VItems β) (vs : List β) (t : VTree β)
end

section

variable {α β : Type} (c : ExV.Cfg α β)

mutual
/-- The tree without the values. -/
def VTree.shape : VTree β → ETree
  | .atom b e _ => .atom b e
  | .pre o _ t => .pre o t.shape
  | .post o t _ => .post o t.shape
  | .inf o l _ r => .inf o l.shape r.shape
  | .list o ts _ => .list o ts.shapes
def VItems.shapes : VItems β → List ETree
  | .one t => [t.shape]
  | .snoc ts _ t => ts.shapes ++ [t.shape]
end

/-- An operand among the arguments: not if values are `void`. -/
def operand (v : α) : List (β ⊕ α) := if c.void then [] else [.inr v]

/-- A call of a sink, unless there is nothing to be passed. -/
def passed (args : List (β ⊕ α)) : List (List (β ⊕ α)) := if args.isEmpty then [] else [args]

mutual
/-- The value, as documented (expression.adoc): "For each instance of the atomic rule, all values it produces are passed to the
    callback.  For an operation, the value of the operands and of the operator are passed to the callback."  For a list, "the
    sink is passed the value of the initial operand, then it is passed all values of the first operator", and so on. -/
def VTree.value : VTree β → α
  | .atom _ _ vs => c.cb (vs.map .inl)
  | .pre _ vs t => c.cb (vs.map .inl ++ operand c t.value)
  | .post _ t vs => c.cb (operand c t.value ++ vs.map .inl)
  | .inf _ l vs r => c.cb (operand c l.value ++ vs.map .inl ++ operand c r.value)
  | .list _ ts rest => c.fin (ts.args ++ passed ((rest.getD []).map .inl))
def VItems.args : VItems β → List (List (β ⊕ α))
  | .one t => passed (operand c t.value)
  | .snoc ts vs t => ts.args ++ passed (vs.map .inl) ++ passed (operand c t.value)
end

mutual
/-- The calls that make the value: first those for the operands, from left to right. -/
def VTree.calls : VTree β → List (ExV.Inv α β)
  | .atom _ _ vs => [.call (vs.map .inl)]
  | .pre _ vs t => t.calls ++ [.call (vs.map .inl ++ operand c (t.value c))]
  | .post _ t vs => t.calls ++ [.call (operand c (t.value c) ++ vs.map .inl)]
  | .inf _ l vs r => l.calls ++ r.calls ++ [.call (operand c (l.value c) ++ vs.map .inl ++ operand c (r.value c))]
  | .list _ ts rest => ts.callsOf ++ (passed ((rest.getD []).map .inl)).map .sink ++ [.finish]
def VItems.callsOf : VItems β → List (ExV.Inv α β)
  | .one t => t.calls ++ (passed (operand c (t.value c))).map .sink
  | .snoc ts vs t => ts.callsOf ++ (passed (vs.map .inl)).map .sink ++ t.calls ++ (passed (operand c (t.value c))).map .sink
end

variable (E : Env) (i : Nat) (cx : Cx)

/-- `vs` are the values of an atom parsed from `b` to `e`. -/
def AtomVal (b e : Nat) (vs : List β) : Prop :=
  ∃ n st r, st.pos = b ∧ exec E n cx (.run (E.exprs i).atom) st = some r ∧ r.out = .ok ∧ r.st.pos = e ∧ vs = c.atomVals st

/-- `vs` are the values of the operation `id` parsed from `b` to `e`: one of its literals matches at `b`; whitespace and the rule
    behind are parsed. -/
def OperAt (id b e : Nat) (vs : List β) : Prop :=
  ∃ o ∈ (E.exprs i).ops.all, o.id = id ∧ ∃ l k ru, (l, k, ru) ∈ o.lits ∧ ∃ st n r,
    l.Matches ((E.inp.drop b).map (E.exprs i).fold) ∧ st.pos = b + l.str.length ∧
    opFinish (exec E n) cx k ru b st = some r ∧ r.out = .ok ∧ r.st.pos = e ∧ vs = c.opVals k ru b st

mutual
/-- The values in the tree are those of atoms and operators that are parsed one after the other, from `b` to `e`. -/
def VTree.Parsed : VTree β → Nat → Nat → Prop
  | .atom b' e' vs, b, e => b' = b ∧ e' = e ∧ AtomVal c E i cx b e vs
  | .pre o vs t, b, e => ∃ p, OperAt c E i cx o b p vs ∧ t.Parsed p e
  | .post o t vs, b, e => ∃ p, t.Parsed b p ∧ OperAt c E i cx o p e vs
  | .inf o l vs r, b, e => ∃ p q, l.Parsed b p ∧ OperAt c E i cx o p q vs ∧ r.Parsed q e
  | .list o ts none, b, e => ts.ParsedAll o b e
  | .list o ts (some vs), b, e => ∃ p, ts.ParsedAll o b p ∧ OperAt c E i cx o p e vs
def VItems.ParsedAll (o : Nat) : VItems β → Nat → Nat → Prop
  | .one t, b, e => t.Parsed b e
  | .snoc ts vs t, b, e => ∃ p q, ts.ParsedAll o b p ∧ OperAt c E i cx o p q vs ∧ t.Parsed q e
end

end

mutual
/-- No operand is missing. -/
def VTree.Whole {β : Type} : VTree β → Prop
  | .atom .. => True
  | .pre _ _ t => t.Whole
  | .post _ t _ => t.Whole
  | .inf _ l _ r => l.Whole ∧ r.Whole
  | .list _ ts rest => ts.WholeAll ∧ rest = none
def VItems.WholeAll {β : Type} : VItems β → Prop
  | .one t => t.Whole
  | .snoc ts _ t => ts.WholeAll ∧ t.Whole
end

end Verif.Spec

namespace Verif.ExV

open Spec

variable {α β : Type}

/-! ## Combinators -/

/-- Both parsers do the same, and the result has the property `P`. -/
def Agree (x : Option Res) (y : Option (R α β)) (P : R α β → Prop) : Prop :=
  (x = none ∧ y = none) ∨ ∃ r, y = some r ∧ x = some r.res ∧ P r

theorem ag_none {P : R α β → Prop} : Agree none none P := .inl ⟨rfl, rfl⟩
theorem ag_some {r : R α β} {P : R α β → Prop} (h : P r) : Agree (some r.res) (some r) P := .inr ⟨r, rfl, rfl, h⟩
theorem ag_some' {x : Res} {r : R α β} {P : R α β → Prop} (hx : x = r.res) (h : P r) : Agree (some x) (some r) P :=
  .inr ⟨r, rfl, by rw [hx], h⟩

theorem Agree.mono {x : Option Res} {y : Option (R α β)} {P Q : R α β → Prop} (h : Agree x y P) (hpq : ∀ r, P r → Q r) :
    Agree x y Q := by
  rcases h with h | ⟨r, h1, h2, h3⟩
  · exact .inl h
  · exact .inr ⟨r, h1, h2, hpq r h3⟩

theorem ag_emit {x : Option Res} {y : Option (R α β)} {P : R α β → Prop} (evs : List Ev)
    (h : Agree x y fun r => P ⟨⟨r.res.out, r.res.st, evs ++ r.res.evs⟩, r.val, r.invs⟩) : Agree (emit evs x) (emitV evs y) P := by
  rcases h with ⟨rfl, rfl⟩ | ⟨r, rfl, rfl, h3⟩
  · exact ag_none
  · exact .inr ⟨_, rfl, rfl, h3⟩

theorem ag_inv {x : Option Res} {y : Option (R α β)} {P : R α β → Prop} (is : List (Inv α β))
    (h : Agree x y fun r => P ⟨r.res, r.val, is ++ r.invs⟩) : Agree x (invV is y) P := by
  rcases h with ⟨rfl, rfl⟩ | ⟨r, rfl, rfl, h3⟩
  · exact ag_none
  · exact .inr ⟨_, rfl, rfl, h3⟩

theorem ag_framed {x : Option Res} {y : Option (R α β)} {P : R α β → Prop} (n : Nat)
    (h : Agree x y fun r => P { r with res := { r.res with st := r.res.st.frame n } }) : Agree (framed n x) (framedV n y) P := by
  rcases h with ⟨rfl, rfl⟩ | ⟨r, rfl, rfl, h3⟩
  · exact ag_none
  · exact .inr ⟨_, rfl, rfl, h3⟩

theorem ag_ofRes {x : Option Res} {v : Option α} {P : R α β → Prop} (h : ∀ r, x = some r → P ⟨r, v, []⟩) : Agree x (ofRes v x) P := by
  cases x with
  | none => exact ag_none
  | some r => exact .inr ⟨⟨r, v, []⟩, rfl, rfl, h r rfl⟩

/-- Two results one after the other. -/
def joined (r r' : R α β) : R α β := ⟨⟨r'.res.out, r'.res.st, r.res.evs ++ r'.res.evs⟩, r'.val, r.invs ++ r'.invs⟩

theorem ag_then {x : Option Res} {y : Option (R α β)} {P Q : R α β → Prop} {f : Out → St → Option Res}
    {g : Out → St → Option α → Option (R α β)} (h : Agree x y P)
    (hf : ∀ r, P r → Agree (f r.res.out r.res.st) (g r.res.out r.res.st r.val) fun r' => Q (joined r r')) :
    Agree (andThen x f) (thenV y g) Q := by
  rcases h with ⟨rfl, rfl⟩ | ⟨r, rfl, rfl, h3⟩
  · exact ag_none
  · simp only [andThen, thenV]
    rcases hf r h3 with ⟨h4, h5⟩ | ⟨r', h4, h5, h6⟩
    · rw [h4, h5]; exact ag_none
    · rw [h4, h5]
      exact .inr ⟨_, rfl, rfl, h6⟩

theorem ag_onOk {x : Option Res} {y : Option (R α β)} {P Q : R α β → Prop} {f : St → Option Res}
    {g : St → Option α → Option (R α β)} (h : Agree x y P)
    (hf : ∀ r, P r → r.res.out = .ok → Agree (f r.res.st) (g r.res.st r.val) fun r' => Q (joined r r'))
    (hq : ∀ r, P r → r.res.out = .fail → Q r) :
    Agree (onOk' x f) (onOkV y g) Q := by
  refine ag_then h fun r hr => ?_
  cases ho : r.res.out with
  | ok => exact hf r hr ho
  | fail =>
    refine ag_some' rfl ?_
    have : joined r ⟨⟨.fail, r.res.st, []⟩, r.val, []⟩ = r := by
      obtain ⟨⟨o, st, evs⟩, v, is⟩ := r
      cases ho
      simp [joined]
    rw [this]
    exact hq r hr ho
  | brk => exact ag_none

/-! ## The invariant -/

section

variable {c : Cfg α β} {E : Env} {i : Nat} {lvl : OpDef → Nat} {cx : Cx}

/-- The tree and the value are those of `T`, parsed from `b` to `e`. -/
structure Holds (c : Cfg α β) (E : Env) (i : Nat) (cx : Cx) (T : VTree β) (b e : Nat) (tr : Option ETree) (v : Option α) : Prop where
  shape : tr = some T.shape
  value : v = some (T.value c)
  parsed : T.Parsed c E i cx b e

/-- What is known afterwards; `made` are the calls made so far. -/
def Built (c : Cfg α β) (E : Env) (i : Nat) (cx : Cx) (b : Nat) (made : List (Inv α β)) (out : Out) (pos : Nat) (tr : Option ETree) (v : Option α) : Prop :=
  out ≠ .brk ∧ ((out = .fail ∧ tr = none ∧ v = none) ∨
    ∃ (T : VTree β) (b' e : Nat), Holds c E i cx T b' e tr v ∧ (out = .ok → b' = b ∧ e = pos ∧ T.Whole ∧ T.calls c = made) ∧
      (T.calls c).Sublist made)

def Post (c : Cfg α β) (E : Env) (i : Nat) (cx : Cx) (b : Nat) (before : List (Inv α β)) (r : R α β) : Prop :=
  Built c E i cx b (before ++ r.invs) r.res.out r.res.st.pos r.res.st.ex.val r.val

/-- There is no value yet. -/
def Fresh (st : St) (v : Option α) (before : List (Inv α β)) : Prop := st.ex.val = none ∧ v = none ∧ before = []

/-- There is the value of a tree parsed from `b` to `e`. -/
def Has (c : Cfg α β) (E : Env) (i : Nat) (cx : Cx) (b e : Nat) (st : St) (v : Option α) (before : List (Inv α β)) : Prop :=
  ∃ T : VTree β, Holds c E i cx T b e st.ex.val v ∧ T.Whole ∧ before = T.calls c

/-- An operator was matched at `b`. -/
structure OpHere (E : Env) (i : Nat) (o : OpDef) (k : Kind) (ru : Rule) (b : Nat) (st : St) : Prop where
  mem : o ∈ (E.exprs i).ops.all
  lit : ∃ l, (l, k, ru) ∈ o.lits ∧ l.Matches ((E.inp.drop b).map (E.exprs i).fold) ∧ st.pos = b + l.str.length

/-- What is required of the state in which one of the functions is called; the expression begins at `b`. -/
def Pre (c : Cfg α β) (E : Env) (i : Nat) (cx : Cx) (b : Nat) : C α β → St → Option α → List (Inv α β) → Prop
  | .parse _, st, v, bf | .lhs _, st, v, bf => Fresh st v bf ∧ b = st.pos
  | .loop _, st, v, bf => Has c E i cx b st.pos st v bf
  | .apply o k r p, st, v, bf => OpHere E i o k r p st ∧
      (o.kind = .prefix ∧ Fresh st v bf ∧ b = p ∨ o.kind ≠ .prefix ∧ Has c E i cx b p st v bf)
  | .list o items acc, st, v, bf => o ∈ (E.exprs i).ops.all ∧ o.kind = .infixList ∧ st.ex.val = none ∧ v = none ∧
      ∃ ts vs p, items = ts.shapes ∧ VItems.ParsedAll c E i cx o.id ts b p ∧ ts.WholeAll ∧ OperAt c E i cx o.id p st.pos vs ∧
        vs ≠ [] ∧ acc = ts.args c ++ [vs.map .inl] ∧ bf = ts.callsOf c ++ [.sink (vs.map .inl)]

def C.cmd (i : Nat) : C α β → Cmd
  | .parse min => .exParse i min
  | .lhs min => .exLhs i min
  | .loop min => .exLoop i min
  | .apply o k r b => .exApply i o k r b
  | .list o items _ => .exList i o items

/-- The statement for all functions, with `n` steps. -/
def AllAgree (c : Cfg α β) (E : Env) (i : Nat) (cx : Cx) (n : Nat) : Prop :=
  ∀ b a st v bf, Pre c E i cx b a st v bf → Agree (exec E n cx (a.cmd i) st) (runV c E i cx n a st v) (Post c E i cx b bf)

theorem sinkOpnd_eq (c : Cfg α β) (v : α) : c.sinkOpnd v = passed (operand c v) := by
  unfold Cfg.sinkOpnd passed operand
  cases c.void <;> rfl

theorem sinkOp_eq (vs : List β) : sinkOp vs = passed (α := α) (vs.map .inl) := by
  cases vs <;> rfl

theorem passed_ne {vs : List β} (h : vs ≠ []) : passed (α := α) (vs.map .inl) = [vs.map .inl] := by
  cases vs with
  | nil => exact absurd rfl h
  | cons v vs => rfl

/-- What is assumed: see `ExprOk`; the atom is no expression without a production (expression.hpp l.530); and the operators of
    lists have values. -/
structure ValOk (c : Cfg α β) (E : Env) (i : Nat) (lvl : OpDef → Nat) : Prop where
  ok : ExprOk E i lvl
  atom : NoExpr (E.exprs i).atom
  list : ∀ o ∈ (E.exprs i).ops.all, o.kind = .infixList → ∀ l k ru, (l, k, ru) ∈ o.lits → ∀ b st, c.opVals k ru b st ≠ []

theorem opFinish_keeps {n : Nat} {cx : Cx} {k : Kind} {ru : Rule} {b : Nat} {st : St} {r : Res} (hru : NoExpr ru)
    (h : opFinish (exec E n) cx k ru b st = some r) : r.st.ex = st.ex := by
  obtain ⟨r0, h0, rfl⟩ := emit_some.1 h
  obtain ⟨r1, r2, h1, h2, rfl⟩ := andThen_some.1 h0
  have hk := exec_ws_keeps n cx _ r1 h1
  cases ho : r1.out with
  | ok => rw [ho] at h2; exact (exec_keeps hru n cx _ r2 h2).trans hk
  | fail => rw [ho] at h2; cases h2; exact hk
  | brk => rw [ho] at h2; cases h2

theorem step_parse (n : Nat) (H : AllAgree c E i cx n) (min b : Nat) (st : St) (v : Option α) (bf : List (Inv α β))
    (hp : Fresh st v bf ∧ b = st.pos) :
    Agree (exec E (n + 1) cx (.exParse i min) st) (runV c E i cx (n + 1) (.parse min) st v) (Post c E i cx b bf) := by
  simp only [exec, step, runV, stepV]
  split
  · exact H b (.lhs min) st v bf hp
  · refine ag_emit _ (ag_then (P := Post c E i cx b bf) (ag_onOk (H b (.lhs min) st v bf hp) (fun r hr ho => ?_) fun r hr _ => hr)
      fun r hr => ag_some' rfl (by simpa [joined, Post] using hr))
    obtain ⟨-, h | ⟨T, b', e, h1, h2, h3⟩⟩ := hr
    · rw [ho] at h; cases h.1
    · obtain ⟨rfl, rfl, h4, h5⟩ := h2 ho
      refine (H _ (.loop min) r.res.st r.val (T.calls c) ⟨T, h1, h4, rfl⟩).mono fun r' hr' => ?_
      rw [h5] at hr'
      simpa [joined, Post] using hr'

theorem step_loop (ok : ExprOk E i lvl) (n : Nat) (H : AllAgree c E i cx n) (min b : Nat) (st : St) (v : Option α)
    (bf : List (Inv α β)) (hp : Has c E i cx b st.pos st v bf) :
    Agree (exec E (n + 1) cx (.exLoop i min) st) (runV c E i cx (n + 1) (.loop min) st v) (Post c E i cx b bf) := by
  simp only [exec, step, runV, stepV]
  generalize hm : parseOperator E.eof (E.exprs i).fold ((E.exprs i).postOps min) (E.inp.drop st.pos) = po
  rcases po with _ | _ | ⟨⟨o, k, ru⟩, m⟩
  · exact ag_none
  · refine ag_some' rfl ?_
    obtain ⟨T, h1, h2, rfl⟩ := hp
    exact ⟨by simp, .inr ⟨T, _, _, h1, fun _ => ⟨rfl, rfl, h2, by simp⟩, by simp⟩⟩
  · obtain ⟨h1, l, h2, h3, h4⟩ := parseOperator_some (ok.postLits min) hm
    obtain ⟨m1, m2, m3⟩ := ok.post_mem.1 h1
    refine ag_onOk (P := Post c E i cx b bf) (ag_framed _ ?_) (fun r hr ho => ?_) fun r hr _ => hr
    · exact H b (.apply o k ru st.pos) { st with pos := st.pos + m } v bf ⟨⟨m1, l, h2, h3, by simp [h4]⟩, .inr ⟨m2, hp⟩⟩
    · obtain ⟨-, h | ⟨T, b', e, h1, h2, h3⟩⟩ := hr
      · rw [ho] at h; cases h.1
      · obtain ⟨rfl, rfl, h4, h5⟩ := h2 ho
        refine (H _ (.loop min) r.res.st r.val (T.calls c) ⟨T, h1, h4, rfl⟩).mono fun r' hr' => ?_
        rw [h5] at hr'
        simpa [joined, Post] using hr'

theorem step_lhs (ok : ValOk c E i lvl) (n : Nat) (H : AllAgree c E i cx n) (min b : Nat) (st : St) (v : Option α)
    (bf : List (Inv α β)) (hp : Fresh st v bf ∧ b = st.pos) :
    Agree (exec E (n + 1) cx (.exLhs i min) st) (runV c E i cx (n + 1) (.lhs min) st v) (Post c E i cx b bf) := by
  simp only [exec, step, runV, stepV]
  generalize hm : parseOperator E.eof (E.exprs i).fold ((E.exprs i).preOps min) (E.inp.drop st.pos) = po
  rcases po with _ | _ | ⟨⟨o, k, ru⟩, m⟩
  · exact ag_none
  · obtain ⟨⟨p1, rfl, rfl⟩, rfl⟩ := hp
    refine ag_onOk (P := fun r => (∃ r0, exec E n cx (.run (E.exprs i).atom) st = some r0 ∧ r0.out = r.res.out ∧
        r0.st.pos = r.res.st.pos) ∧ r.res.st.ex.val = none ∧ r.val = none ∧ r.invs = [])
      (ag_ofRes fun r hr => ?_) (fun r hr ho => ?_) fun r hr ho => ?_
    · obtain ⟨r0, h0, rfl⟩ := framed_some.1 hr
      exact ⟨⟨r0, h0, rfl, rfl⟩, by simpa [St.frame, exec_keeps ok.atom n cx st r0 h0] using p1, rfl, rfl⟩
    · obtain ⟨⟨r0, h0, h1, h2⟩, h3, h4, h5⟩ := hr
      refine ag_some' rfl ⟨by simp [joined], .inr ⟨.atom st.pos r.res.st.pos (c.atomVals st), _, _, ⟨rfl, rfl, rfl, rfl, ?_⟩, ?_, ?_⟩⟩
      · exact ⟨n, st, r0, rfl, h0, by rw [h1, ho], h2, rfl⟩
      · intro _
        exact ⟨rfl, rfl, trivial, by simp [joined, h5, VTree.calls, own]⟩
      · simp [joined, h5, VTree.calls, own]
    · obtain ⟨-, h3, h4, h5⟩ := hr
      exact ⟨by simp [ho], .inl ⟨ho, h3, h4⟩⟩
  · obtain ⟨h1, l, h2, h3, h4⟩ := parseOperator_some (ok.ok.preLits min) hm
    obtain ⟨m1, m2⟩ := ok.ok.pre_mem.1 h1
    obtain ⟨hf, rfl⟩ := hp
    refine ag_emit _ (ag_then (P := Post c E i cx st.pos bf) (ag_framed _ ?_)
      fun r hr => ag_some' rfl (by simpa [joined, Post] using hr))
    exact H st.pos (.apply o k ru st.pos) { st with pos := st.pos + m } v bf
      ⟨⟨m1, l, h2, h3, by simp [h4]⟩, .inl ⟨m2.1, hf, rfl⟩⟩

/-- `_op_cont::parse` for an infix operator. -/
theorem step_infix (n : Nat) (H : AllAgree c E i cx n) {o : OpDef} {vs : List β} {b p : Nat} (single : Bool)
    (st : St) (v : Option α) (bf : List (Inv α β)) (hvs : OperAt c E i cx o.id p st.pos vs) (hp : Has c E i cx b p st v bf) :
    Agree (opInfix E (exec E n) cx i o single st) (infixV c E i (runV c E i cx n) o single vs st v) (Post c E i cx b bf) := by
  unfold opInfix infixV
  obtain ⟨L, ⟨l1, rfl, l3⟩, l4, rfl⟩ := hp
  refine ag_then (H st.pos (.parse ((E.exprs i).bpOf o).rhs) { st with ex := { st.ex with val := none } } none [] ⟨⟨rfl, rfl, rfl⟩, rfl⟩)
    fun r hr => ?_
  obtain ⟨h0, hr⟩ := hr
  cases ho : r.res.out with
  | brk => exact absurd ho h0
  | fail =>
    refine ag_some' rfl ⟨by simp [joined], .inr ⟨L, b, p, ⟨by simp [joined, l1], rfl, l3⟩, by simp [joined], ?_⟩⟩
    simp [joined]
  | ok =>
    rcases hr with ⟨h, -⟩ | ⟨T, b', e, ⟨t1, t2, t3⟩, h2, h3⟩
    · rw [ho] at h; cases h
    · obtain ⟨rfl, rfl, t4, t5⟩ := h2 ho
      simp only [List.nil_append] at t5
      have fin : ∀ st' evs r2, st'.pos = r.res.st.pos → st'.ex.val = some (.inf o.id L.shape T.shape) →
          r2 = (⟨⟨.ok, st', evs⟩, some (c.cb (c.opnd (L.value c) ++ own vs ++ c.opnd (T.value c))),
            [.call (c.opnd (L.value c) ++ own vs ++ c.opnd (T.value c))]⟩ : R α β) →
          Post c E i cx b (L.calls c) (joined r r2) := by
        rintro st' evs r2 hpos hs rfl
        have hc : (VTree.inf o.id L vs T).calls c =
            L.calls c ++ (r.invs ++ [.call (c.opnd (L.value c) ++ own vs ++ c.opnd (T.value c))]) := by
          simp only [VTree.calls, t5, List.append_assoc]
          rfl
        exact ⟨by simp [joined], .inr ⟨.inf o.id L vs T, _, _, ⟨hs, rfl, p, _, l3, hvs, t3⟩, fun _ => ⟨rfl, hpos.symm, ⟨l4, t4⟩, hc⟩,
          by rw [hc]; exact List.Sublist.refl _⟩⟩
      simp only [l1, t1, t2, Option.bind_some]
      cases single with
      | false => exact ag_some' rfl (fin { r.res.st with ex := { r.res.st.ex with val := some (.inf o.id L.shape T.shape) } } _ _ rfl rfl rfl)
      | true =>
        simp only [if_true]
        generalize parseOperator E.eof (E.exprs i).fold [o] (E.inp.drop r.res.st.pos) = po
        rcases po with _ | _ | ⟨_, m⟩
        · exact ag_none
        · exact ag_some' rfl (fin { r.res.st with ex := { r.res.st.ex with val := some (.inf o.id L.shape T.shape) } } _ _ rfl rfl rfl)
        · exact ag_some' rfl (fin { r.res.st with ex := { r.res.st.ex with val := some (.inf o.id L.shape T.shape) } } _ _ rfl rfl rfl)

theorem step_cont (ok : ValOk c E i lvl) (n : Nat) (H : AllAgree c E i cx n) {o : OpDef} {vs : List β} {b p : Nat}
    (hm : o ∈ (E.exprs i).ops.all) (hl : o.kind = .infixList → vs ≠ [])
    (st : St) (v : Option α) (bf : List (Inv α β)) (hvs : OperAt c E i cx o.id p st.pos vs)
    (hp : o.kind = .prefix ∧ Fresh st v bf ∧ b = p ∨ o.kind ≠ .prefix ∧ Has c E i cx b p st v bf) :
    Agree (opCont E (exec E n) cx i o st) (contV c E i (runV c E i cx n) o vs st v) (Post c E i cx b bf) := by
  unfold opCont contV
  cases hk : o.kind with
  | infixList =>
    rw [hk] at hp
    obtain ⟨T, ⟨t1, rfl, t3⟩, t4, rfl⟩ := (hp.resolve_left (fun h => by cases h.1)).2
    simp only [t1, Option.bind_some]
    refine ag_inv _ ((H b (.list o [T.shape] (c.sinkOpnd (T.value c) ++ [own vs])) { st with ex := { st.ex with val := none } } none
      (VItems.callsOf c (.one T) ++ [.sink (vs.map .inl)]) ⟨hm, hk, rfl, rfl, .one T, vs, p, rfl, t3, t4, hvs, hl hk, ?_, rfl⟩).mono
      fun r hr => ?_)
    · rw [sinkOpnd_eq]; rfl
    · simpa [Post, VItems.callsOf, sinkOpnd_eq, own] using hr
  | «prefix» =>
    rw [hk] at hp
    obtain ⟨-, ⟨f1, rfl, rfl⟩, rfl⟩ := hp.resolve_right (fun h => h.1 rfl)
    refine ag_onOk (H st.pos (.parse ((E.exprs i).bpOf o).rhs) st none [] ⟨⟨f1, rfl, rfl⟩, rfl⟩) (fun r hr ho => ?_) fun r hr ho => ?_
    rotate_left
    · obtain ⟨-, ⟨-, h1, h2⟩ | ⟨T, b', e, ht, -, h3⟩⟩ := hr
      · exact ⟨by simp [ho], .inl ⟨ho, h1, h2⟩⟩
      · exact ⟨by simp [ho], .inr ⟨T, b', e, ht, by simp [ho], h3⟩⟩
    obtain ⟨-, h | ⟨T, b', e, ⟨t1, t2, t3⟩, h2, h3⟩⟩ := hr
    · rw [ho] at h; cases h.1
    · obtain ⟨rfl, rfl, t4, t5⟩ := h2 ho
      simp only [t1, t2, Option.bind_some]
      have hc : (VTree.pre o.id vs T).calls c = [] ++ (r.invs ++ [.call (own vs ++ c.opnd (T.value c))]) := by
        simp only [VTree.calls, t5, List.append_assoc]
        rfl
      exact ag_some' rfl ⟨by simp [joined], .inr ⟨.pre o.id vs T, _, _, ⟨rfl, rfl, _, hvs, t3⟩, fun _ => ⟨rfl, rfl, t4, hc⟩,
        by rw [hc]; exact List.Sublist.refl _⟩⟩
  | «postfix» =>
    rw [hk] at hp
    obtain ⟨T, ⟨t1, rfl, t3⟩, t4, rfl⟩ := (hp.resolve_left (fun h => by cases h.1)).2
    simp only [t1, Option.bind_some]
    have hc : (VTree.post o.id T vs).calls c = T.calls c ++ [.call (c.opnd (T.value c) ++ own vs)] := by
      simp only [VTree.calls]
      rfl
    exact ag_some' rfl ⟨by simp, .inr ⟨.post o.id T vs, _, _, ⟨rfl, rfl, p, t3, hvs⟩, fun _ => ⟨rfl, rfl, t4, hc⟩,
        by rw [hc]; exact List.Sublist.refl _⟩⟩
  | infixSingle =>
    rw [hk] at hp
    exact step_infix n H true st v bf hvs (hp.resolve_left (fun h => by cases h.1)).2
  | infixLeft =>
    rw [hk] at hp
    exact step_infix n H false st v bf hvs (hp.resolve_left (fun h => by cases h.1)).2
  | infixRight =>
    rw [hk] at hp
    exact step_infix n H false st v bf hvs (hp.resolve_left (fun h => by cases h.1)).2

theorem step_apply (ok : ValOk c E i lvl) (n : Nat) (H : AllAgree c E i cx n) (o : OpDef) (k : Kind) (ru : Rule) (b p : Nat)
    (st : St) (v : Option α) (bf : List (Inv α β)) (hh : OpHere E i o k ru p st)
    (hp : o.kind = .prefix ∧ Fresh st v bf ∧ b = p ∨ o.kind ≠ .prefix ∧ Has c E i cx b p st v bf) :
    Agree (exec E (n + 1) cx (.exApply i o k ru p) st) (runV c E i cx (n + 1) (.apply o k ru p) st v) (Post c E i cx b bf) := by
  obtain ⟨hm, l, hl, hs, hb⟩ := hh
  have hru := ok.ok.rules o hm _ hl
  -- a failure leaves everything as it was
  have failed : ∀ (r : R α β), r.res.out = .fail → r.res.st.ex.val = st.ex.val → r.val = v → r.invs = [] → Post c E i cx b bf r := by
    intro r h1 h2 h3 h4
    unfold Post
    rw [h1, h2, h3, h4, List.append_nil]
    rcases hp with ⟨-, ⟨p1, p2, rfl⟩, -⟩ | ⟨-, T, t1, t2, rfl⟩
    · exact ⟨by simp, .inl ⟨rfl, p1, p2⟩⟩
    · exact ⟨by simp, .inr ⟨T, b, p, t1, by simp, List.Sublist.refl _⟩⟩
  simp only [exec, step, runV, stepV]
  split
  · exact ag_some' rfl (failed _ rfl rfl rfl rfl)
  · refine ag_emit _ ?_
    refine ag_onOk (P := fun r => opFinish (exec E n) cx k ru p
        { st with ex := { group := if ((E.exprs i).bpOf o).group ≠ 0 ∧ st.ex.group = 0 then ((E.exprs i).bpOf o).group else st.ex.group,
                          nest := st.ex.nest + 1, val := st.ex.val } } = some r.res ∧
        r.res.st.ex.val = st.ex.val ∧ r.val = v ∧ r.invs = []) (ag_ofRes fun r hr => ?_) (fun r hr ho => ?_) fun r hr ho => ?_
    · exact ⟨hr, by rw [opFinish_keeps hru hr], rfl, rfl⟩
    · obtain ⟨h0, h3, rfl, h5⟩ := hr
      refine (step_cont (b := b) ok n H hm (fun hk => ok.list o hm hk l k ru hl p _)
        r.res.st r.val bf ⟨o, hm, rfl, l, k, ru, hl, _, n, r.res, hs, ?_, h0, ho, rfl, rfl⟩ ?_).mono fun r' hr' => ?_
      · exact hb
      · unfold Fresh Has
        rw [h3]
        exact hp
      · simpa [Post, joined, h5] using hr'
    · obtain ⟨-, h3, h4, h5⟩ := hr
      exact failed _ ho h3 h4 h5

theorem step_list (ok : ValOk c E i lvl) (n : Nat) (H : AllAgree c E i cx n) (o : OpDef) (items : List ETree)
    (acc : List (List (β ⊕ α))) (b : Nat) (st : St) (v : Option α) (bf : List (Inv α β)) (hp : Pre c E i cx b (.list o items acc) st v bf) :
    Agree (exec E (n + 1) cx (.exList i o items) st) (runV c E i cx (n + 1) (.list o items acc) st v) (Post c E i cx b bf) := by
  obtain ⟨hm, hk, p1, rfl, ts, vs, p, rfl, ht, hw, hv, hne, rfl, rfl⟩ := hp
  simp only [exec, step, runV, stepV]
  refine ag_then (H st.pos (.parse ((E.exprs i).bpOf o).rhs) st none [] ⟨⟨p1, rfl, rfl⟩, rfl⟩) fun r hr => ?_
  obtain ⟨h0, hr⟩ := hr
  have pv := passed_ne (α := α) hne
  cases ho : r.res.out with
  | brk => exact absurd ho h0
  | fail =>
    refine ag_some' rfl ⟨by simp [joined], .inr ⟨.list o.id ts (some vs), _, _, ⟨rfl, ?_, p, ht, hv⟩, by simp [joined], ?_⟩⟩
    · simp [joined, VTree.value, pv]
    · simp [joined, VTree.calls, pv]
  | ok =>
    rcases hr with ⟨h, -⟩ | ⟨T, b', e, ⟨t1, t2, t3⟩, h2, h3⟩
    · rw [ho] at h; cases h
    · obtain ⟨rfl, rfl, t4, t5⟩ := h2 ho
      simp only [List.nil_append] at t5
      simp only [t1, t2, Option.bind_some]
      refine ag_inv _ ?_
      have hval : (VItems.snoc ts vs T).args c = ts.args c ++ [vs.map .inl] ++ c.sinkOpnd (T.value c) := by
        simp only [VItems.args, pv, sinkOpnd_eq]
      have hcalls : (VItems.snoc ts vs T).callsOf c =
          ts.callsOf c ++ [.sink (vs.map .inl)] ++ (r.invs ++ (c.sinkOpnd (T.value c)).map .sink) := by
        simp [VItems.callsOf, pv, sinkOpnd_eq, t5]
      have fin : ∀ (out : Out) (st' : St) (evs : List Ev), out ≠ .brk → (out = .ok → st'.pos = r.res.st.pos) → st'.ex.val = some (.list o.id (ts.shapes ++ [T.shape])) →
          ∀ r2 : R α β, r2 = ⟨⟨out, st', evs⟩, some (c.fin (ts.args c ++ [vs.map .inl] ++ c.sinkOpnd (T.value c))), [.finish]⟩ →
          Post c E i cx b (ts.callsOf c ++ [.sink (vs.map .inl)]) (joined r ⟨r2.res, r2.val, (c.sinkOpnd (T.value c)).map .sink ++ r2.invs⟩) := by
        rintro out st' evs hout hpos hs r2 rfl
        have hc : (VTree.list o.id (.snoc ts vs T) none).calls c = ts.callsOf c ++ [.sink (vs.map .inl)] ++
            (r.invs ++ ((c.sinkOpnd (T.value c)).map .sink ++ [.finish])) := by
          simp [VTree.calls, hcalls, passed]
        refine ⟨hout, .inr ⟨.list o.id (.snoc ts vs T) none, _, _, ⟨hs, ?_, p, _, ht, hv, t3⟩, fun h => ⟨rfl, (hpos h).symm, ⟨⟨hw, t4⟩, rfl⟩, hc⟩, ?_⟩⟩
        · simp [joined, VTree.value, hval, passed]
        · rw [hc]; exact List.Sublist.refl _
      generalize hpo : parseOperator E.eof (E.exprs i).fold [o] (E.inp.drop r.res.st.pos) = po
      rcases po with _ | _ | ⟨⟨o', k, ru⟩, m⟩
      · exact ag_none
      · exact ag_some' rfl (fin .ok { r.res.st with ex := { r.res.st.ex with val := some (.list o.id (ts.shapes ++ [T.shape])) } } _ (by simp) (fun _ => rfl) rfl _ rfl)
      · obtain ⟨g1, l, g2, g3, g4⟩ := parseOperator_some (ok.ok.oneLits hm) hpo
        obtain rfl := List.mem_singleton.1 g1
        have hru := ok.ok.rules o' hm _ g2
        refine ag_then (P := fun r3 => (∃ r0, opFinish (exec E n) cx k ru r.res.st.pos
            { r.res.st with pos := r.res.st.pos + m, ex := { r.res.st.ex with val := none } } = some r0 ∧ r0.out = r3.res.out ∧ r0.st.pos = r3.res.st.pos) ∧
            r3.res.st.ex.val = none ∧ r3.val = none ∧ r3.invs = []) (ag_framed _ (ag_ofRes fun r0 hr0 => ?_)) fun r3 hr3 => ?_
        · exact ⟨⟨r0, hr0, rfl, rfl⟩, by simp [St.frame, opFinish_keeps hru hr0], rfl, rfl⟩
        · obtain ⟨⟨r0, e0, e1, e5⟩, e2, e3, e4⟩ := hr3
          cases ho3 : r3.res.out with
          | brk => exact ag_none
          | fail =>
            refine ag_some' rfl ?_
            have := fin .fail { r3.res.st with ex := { r3.res.st.ex with val := some (.list o'.id (ts.shapes ++ [T.shape])) } }
              r3.res.evs (by simp) nofun rfl _ rfl
            simpa [joined, e4] using this
          | ok =>
            have hne' := ok.list o' hm hk l k ru g2 r.res.st.pos
              { r.res.st with pos := r.res.st.pos + m, ex := { r.res.st.ex with val := none } }
            generalize hvs' : c.opVals k ru r.res.st.pos
              { r.res.st with pos := r.res.st.pos + m, ex := { r.res.st.ex with val := none } } = vs' at hne' ⊢
            have pv' : sinkOp vs' = [vs'.map (Sum.inl (β := α))] := by rw [sinkOp_eq]; exact passed_ne hne'
            simp only [pv', e3]
            refine ag_inv _ ((H b (.list o' (ts.shapes ++ [T.shape]) _) r3.res.st none
              ((VItems.snoc ts vs T).callsOf c ++ [.sink (vs'.map .inl)])
              ⟨hm, hk, e2, rfl, .snoc ts vs T, vs', _, rfl, ⟨p, _, ht, hv, t3⟩, ⟨hw, t4⟩, ?_, hne', ?_, rfl⟩).mono fun r4 hr4 => ?_)
            · exact ⟨o', hm, rfl, l, k, ru, g2, _, n, r0, g3, by simp [g4], e0, by rw [e1, ho3], e5, hvs'.symm⟩
            · rw [hval]
            · rw [hcalls] at hr4
              simpa [Post, joined, e4] using hr4

theorem allAgree (ok : ValOk c E i lvl) : ∀ n, AllAgree c E i cx n
  | 0 => fun _ a st v bf _ => by cases a <;> exact ag_none
  | n + 1 => fun b a st v bf hp => by
    have H := allAgree ok n
    cases a with
    | parse min => exact step_parse n H min b st v bf hp
    | lhs min => exact step_lhs ok n H min b st v bf hp
    | loop min => exact step_loop ok.ok n H min b st v bf hp
    | apply o k r p => exact step_apply ok n H o k r b p st v bf hp.1 hp.2
    | list o items acc => exact step_list ok n H o items acc b st v bf hp

/-! ## The theorems -/

theorem expr_agree (ok : ValOk c E i lvl) (n : Nat) (st : St) :
    Agree (exec E (n + 1) cx (.run (.expr i)) st) (exprV c E i cx n st)
      (fun r => (r.res.out = .ok ↔ r.val.isSome) ∧
        (r.val.isSome → ∃ (T : VTree β) (b e : Nat), Holds c E i cx T b e r.res.st.ex.val r.val ∧ (T.calls c).Sublist r.invs ∧
          (st.pos ≤ E.inp.length → (∀ ev ∈ r.res.evs, ev.isError = false) → b = st.pos ∧ e = r.res.st.pos ∧ T.Whole ∧ T.calls c = r.invs))) := by
  have key := allAgree (cx := cx) ok n st.pos (.parse (E.exprs i).minBP) { st with ex := {} } none [] ⟨⟨rfl, rfl, rfl⟩, rfl⟩
  -- an inner failure has reported an error
  have calm : st.pos ≤ E.inp.length → ∀ r0 : Res, exec E n cx (.exParse i (E.exprs i).minBP) { st with ex := {} } = some r0 →
      (∀ ev ∈ r0.evs, ev.isError = false) → r0.out ≠ .fail := by
    intro hp r0 h0 hq hf
    obtain ⟨ev, h3, h4⟩ := ((exec_good E n cx (.exParse i (E.exprs i).minBP) { st with ex := {} } hp).1 _ h0).fail_error hf
    rw [hq ev h3] at h4
    cases h4
  simp only [exec, step, stepRun, exprV]
  refine ag_then (P := fun r => Post c E i cx st.pos [] r ∧
    exec E n cx (.exParse i (E.exprs i).minBP) { st with ex := {} } = some r.res) ?_ fun r hr => ?_
  · rcases key with ⟨h1, h2⟩ | ⟨r, h1, h2, h3⟩
    · exact .inl ⟨h1, h2⟩
    · exact .inr ⟨r, h1, h2, h3, h2⟩
  · obtain ⟨⟨h0, hr⟩, hx⟩ := hr
    rcases hr with ⟨h1, h2, h3⟩ | ⟨T, b, e, ⟨t1, t2, t3⟩, h2, h3⟩
    · rw [h1, h2, h3]
      exact ag_some' rfl (by simp [joined])
    · cases ho : r.res.out with
      | brk => exact absurd ho h0
      | ok =>
        rw [t1, t2]
        refine ag_some' rfl ⟨by simp [joined], fun _ => ⟨T, _, _, ⟨t1, rfl, t3⟩, by simpa [joined] using h3, fun _ _ => ?_⟩⟩
        simpa [joined] using h2 ho
      | fail =>
        rw [t1, t2]
        refine ag_some' rfl ⟨by simp [joined], fun _ => ⟨T, _, _, ⟨t1, rfl, t3⟩, by simpa [joined] using h3, fun hp hq => ?_⟩⟩
        exact absurd ho (calm hp _ hx fun ev hev => hq ev (by simp [joined, hev]))

/-- **C97** Computing the values changes nothing about parsing: result, position, tree and events are those of the parser that
    builds only the shape of the tree, about which C47, C48, C68 and C69 speak. -/
theorem C97_same_parse (ok : ValOk c E i lvl) (n : Nat) (st : St) :
    (exprV c E i cx n st).map R.res = exec E (n + 1) cx (.run (.expr i)) st := by
  rcases expr_agree (cx := cx) ok n st with ⟨h1, h2⟩ | ⟨r, h1, h2, -⟩
  · rw [h1, h2]; rfl
  · rw [h1, h2]; rfl

/-- **C97** An expression is parsed exactly if it has a value.  The value is that of a tree of operations, as documented: its
    shape is the tree that was parsed; the values in it are those of the atoms and operators that were parsed; the callback got
    the values of the operands and of the operator of each operation, in their order in the input; and the calls for the tree
    are among the calls made, in that order.  Without an error, they are all the calls made, and no operand is missing.
    Missing: operators of lists that have no values; see `C97_void_op_refuted`. -/
theorem C97_value_partial (ok : ValOk c E i lvl) {n : Nat} {st : St} {r : R α β} (h : exprV c E i cx n st = some r) :
    (r.res.out = .ok ↔ r.val.isSome) ∧ (∀ v, r.val = some v → ∃ (T : VTree β) (b e : Nat), v = T.value c ∧
      r.res.st.ex.val = some T.shape ∧ T.Parsed c E i cx b e ∧ (T.calls c).Sublist r.invs ∧
      (st.pos ≤ E.inp.length → (∀ ev ∈ r.res.evs, ev.isError = false) → b = st.pos ∧ e = r.res.st.pos ∧ T.Whole ∧ T.calls c = r.invs)) := by
  rcases expr_agree (cx := cx) ok n st with ⟨-, h2⟩ | ⟨r', h1, -, h3, h4⟩
  · rw [h] at h2; cases h2
  · cases h.symm.trans h1
    refine ⟨h3, fun v hv => ?_⟩
    obtain ⟨T, b, e, ⟨t1, t2, t3⟩, t4, t5⟩ := h4 (by rw [hv]; rfl)
    rw [hv] at t2
    exact ⟨T, b, e, Option.some.inj t2, t1, t3, t4, t5⟩

/-- **C97** An expression parsed without error: the value is that of a tree whose atoms and operators are, from left to right,
    those of the input, nested by precedence and associativity, and each operation is one call, made after those of its
    operands.  Missing: as above. -/
theorem C97_sound_partial (ok : ValOk c E i lvl) {n : Nat} {st : St} {r : R α β} (h : exprV c E i cx n st = some r)
    (hp : st.pos ≤ E.inp.length) (hq : ∀ ev ∈ r.res.evs, ev.isError = false) :
    ∃ (T : VTree β) (xs : _), r.val = some (T.value c) ∧ T.Parsed c E i cx st.pos r.res.st.pos ∧ T.Whole ∧ r.invs = T.calls c
      ∧ Consumes E i st.pos xs r.res.st.pos ∧ yield T.shape = xs.map Piece.sym
      ∧ Nested (tableOf (E.exprs i) lvl) T.shape ∧ Unchained (tableOf (E.exprs i) lvl) T.shape := by
  have hs := C97_same_parse (cx := cx) ok n st
  rw [h] at hs
  obtain ⟨a0, t, xs, a1, a2, a3, a4, a5, -⟩ := C47_sound ok.ok hs.symm hp hq
  obtain ⟨h1, h2⟩ := C97_value_partial ok h
  obtain ⟨v, hv⟩ := Option.isSome_iff_exists.1 (h1.1 a0)
  obtain ⟨T, b, e, rfl, t1, t2, -, t3⟩ := h2 v hv
  obtain ⟨rfl, rfl, t4, t5⟩ := t3 hp hq
  obtain rfl := Option.some.inj (a1.symm.trans t1)
  exact ⟨T, xs, hv, t2, t4, t5.symm, a2, a3, a4, a5⟩

end

end Verif.ExV
