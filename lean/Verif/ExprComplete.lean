import Verif.ExprGroups

/-
Every expression is parsed (C48).
-/

namespace Verif

open Spec Lean.Order

namespace Spec

/-- States in the same context: context variables, recursion depth and whitespace mode are the same. -/
structure Ctx (st0 st : St) : Prop where
  vars : st.vars = st0.vars
  depth : st.depth = st0.depth
  wsOn : st.wsOn = st0.wsOn

/-- There is an atom from `b` to `e`: it is parsed there, and is not taken for a prefix operator. -/
structure AtomAt (E : Env) (cx : Cx) (i : Nat) (st0 : St) (b e : Nat) : Prop where
  parse : ∀ st, st.pos = b → Ctx st0 st → ∃ r, Exec E cx (.run (E.exprs i).atom) st r ∧ r.out = .ok ∧ r.st.pos = e
    ∧ Ctx st0 (r.st.frame st0.vars.length) ∧ Calm r.evs
  noOp : ∀ o ∈ (E.exprs i).ops.all, o.kind = .prefix → ¬ o.Hits (E.exprs i).fold (E.inp.drop b)

/-- There is the operator `o` from `b` to `e`: one of its literals, whitespace and the rule behind.  It
    is not taken for another one. -/
structure OpAt (E : Env) (cx : Cx) (i : Nat) (st0 : St) (o : OpDef) (b e : Nat) : Prop where
  mem : o ∈ (E.exprs i).ops.all
  only : ∀ o' ∈ (E.exprs i).ops.all, (o'.kind = .prefix ↔ o.kind = .prefix) →
    o'.Hits (E.exprs i).fold (E.inp.drop b) → o' = o
  lit : ∃ l k ru, (l, k, ru) ∈ o.lits ∧ l.Matches ((E.inp.drop b).map (E.exprs i).fold)
    ∧ (∀ l' ∈ o.lits, l'.1.Matches ((E.inp.drop b).map (E.exprs i).fold) → l' ≠ (l, k, ru) →
        l'.1.str.length < l.str.length)
    ∧ ∀ st, st.pos = b + l.str.length → Ctx st0 st → ∃ r1 r2, Exec E cx .ws st r1 ∧ r1.out = .ok
      ∧ Exec E cx (.run ru) r1.st r2 ∧ r2.out = .ok ∧ r2.st.pos = e ∧ Ctx st0 r2.st ∧ Calm (r1.evs ++ r2.evs)

/-- The input from `b` to `e` consists of these symbols. -/
inductive Spell (E : Env) (cx : Cx) (i : Nat) (st0 : St) : List Sym → Nat → Nat → Prop
  | nil (b : Nat) : Spell E cx i st0 [] b b
  | atom {b m e : Nat} {xs : List Sym} (h : AtomAt E cx i st0 b m) (t : Spell E cx i st0 xs m e) :
      Spell E cx i st0 (.atom b m :: xs) b e
  | op {o : OpDef} {b m e : Nat} {xs : List Sym} (h : OpAt E cx i st0 o b m) (t : Spell E cx i st0 xs m e) :
      Spell E cx i st0 (.op o.id :: xs) b e

end Spec

section

variable {E : Env} {i : Nat} {lvl : OpDef → Nat} {cx : Cx} {st0 : St}

theorem Spec.Spell.split {xs ys : List Sym} {b e : Nat} (h : Spell E cx i st0 (xs ++ ys) b e) :
    ∃ m, Spell E cx i st0 xs b m ∧ Spell E cx i st0 ys m e := by
  induction xs generalizing b with
  | nil => exact ⟨b, .nil _, h⟩
  | cons x xs ih =>
    cases h with
    | atom h t =>
      obtain ⟨m, h1, h2⟩ := ih t
      exact ⟨m, .atom h h1, h2⟩
    | op h t =>
      obtain ⟨m, h1, h2⟩ := ih t
      exact ⟨m, .op h h1, h2⟩

theorem Spec.Spell.op_inv {id : Nat} {xs : List Sym} {b e : Nat} (h : Spell E cx i st0 (.op id :: xs) b e) :
    ∃ o m, o.id = id ∧ OpAt E cx i st0 o b m ∧ Spell E cx i st0 xs m e := by
  cases h with
  | op h t => exact ⟨_, _, rfl, h, t⟩

theorem Spec.Spell.atom_inv {b' e' : Nat} {xs : List Sym} {b e : Nat} (h : Spell E cx i st0 (.atom b' e' :: xs) b e) :
    b' = b ∧ AtomAt E cx i st0 b e' ∧ Spell E cx i st0 xs e' e := by
  cases h with
  | atom h t => exact ⟨rfl, h, t⟩

theorem Spec.Spell.nil_inv {b e : Nat} (h : Spell E cx i st0 [] b e) : b = e := by
  cases h; rfl

theorem Spec.Ctx.frame_eq {s : St} (h : Ctx st0 s) : s.frame st0.vars.length = s := by
  unfold St.frame
  rw [h.vars]
  simp only [Nat.sub_self, List.drop_zero]
  rw [← h.vars]

theorem parseOperator_noHit {eof : Option Nat} {fold : Nat → Nat} {ops : List OpDef} (hok : LitsOk eof fold ops)
    {s : List Nat} (h : ∀ o ∈ ops, ¬ o.Hits fold s) : parseOperator eof fold ops s = some none := by
  obtain ⟨r, h1, h2, _⟩ := parseOperator_spec hok s
  rw [h1, h2.2 h]

theorem parseOperator_hit {eof : Option Nat} {fold : Nat → Nat} {ops : List OpDef} (hok : LitsOk eof fold ops)
    {s : List Nat} {o : OpDef} {l : Lit} {k : Kind} {ru : Rule} (ho : o ∈ ops) (hl : (l, k, ru) ∈ o.lits)
    (hm : l.Matches (s.map fold)) (hu : ∀ o' ∈ ops, o'.Hits fold s → o' = o)
    (hb : ∀ l' ∈ o.lits, l'.1.Matches (s.map fold) → l' ≠ (l, k, ru) → l'.1.str.length < l.str.length) :
    parseOperator eof fold ops s = some (some ((o, k, ru), l.str.length)) := by
  obtain ⟨r, h1, h2, h3⟩ := parseOperator_spec hok s
  cases r with
  | none => exact (h2.1 rfl o ho ⟨_, hl, hm⟩).elim
  | some x =>
    obtain ⟨⟨o', k', ru'⟩, n⟩ := x
    obtain ⟨h4, ⟨l', h5, h6, h7⟩, h8⟩ := h3 o' k' ru' n rfl
    have e := hu o' h4 ⟨_, h5, h6⟩
    subst e
    by_cases he : (l', k', ru') = (l, k, ru)
    · simp only [Prod.mk.injEq] at he
      obtain ⟨rfl, rfl, rfl⟩ := he
      rw [h1, h7]
    · have := hb _ h5 h6 he
      have := h8 o' ho _ hl hm
      simp only at *
      omega

theorem exec_le' {n m : Nat} (h : n ≤ m) : (exec E n : Rec) ⊑ exec E m :=
  fun _ _ _ => le_iff.2 fun _ hr => exec_mono h hr

theorem opFinish_mono {n m : Nat} (h : n ≤ m) {k : Kind} {ru : Rule} {b : Nat} {st : St} {r : Res}
    (hr : opFinish (exec E n) cx k ru b st = some r) : opFinish (exec E m) cx k ru b st = some r :=
  le_iff.1 (monotone_opFinish_id cx k ru b st _ _ (exec_le' h)) _ hr

theorem opCont_mono {n m : Nat} (h : n ≤ m) {o : OpDef} {st : St} {r : Res}
    (hr : opCont E (exec E n) cx i o st = some r) : opCont E (exec E m) cx i o st = some r :=
  le_iff.1 (monotone_opCont_id E cx i o st _ _ (exec_le' h)) _ hr

/-- What an operator applied at `b` does: `_continuation::parse` goes on with the operation. -/
theorem apply_go (ok : ExprOk E i lvl) {o : OpDef} {b e g : Nat} (h : OpAt E cx i st0 o b e)
    (hg : ((E.exprs i).bpOf o).group = 0 ∨ ((E.exprs i).bpOf o).group = g) :
    ∃ l k ru, (l, k, ru) ∈ o.lits ∧ l.Matches ((E.inp.drop b).map (E.exprs i).fold)
      ∧ (∀ ops, (∀ q ∈ ops, q ∈ (E.exprs i).ops.all ∧ (q.kind = .prefix ↔ o.kind = .prefix)) → o ∈ ops →
          parseOperator E.eof (E.exprs i).fold ops (E.inp.drop b) = some (some ((o, k, ru), l.str.length)))
      ∧ (∀ st, st.pos = b + l.str.length → Ctx st0 st → ∃ n r, opFinish (exec E n) cx k ru b st = some r
          ∧ r.out = .ok ∧ r.st.pos = e ∧ Ctx st0 r.st ∧ r.st.ex = st.ex ∧ Calm r.evs)
      ∧ ∀ st, st.pos = b + l.str.length → Ctx st0 st → st.ex.nest < (E.exprs i).maxNest →
        (st.ex.group = 0 ∨ st.ex.group = g) →
        ∃ st' evs, st'.pos = e ∧ Ctx st0 st' ∧ st'.ex.val = st.ex.val ∧ st'.ex.nest = st.ex.nest + 1
          ∧ (st'.ex.group = 0 ∨ st'.ex.group = g) ∧ Calm evs
          ∧ ∀ n r, opCont E (exec E n) cx i o st' = some r →
            Exec E cx (.exApply i o k ru b) st ⟨r.out, r.st, evs ++ r.evs⟩ := by
  obtain ⟨l, k, ru, h1, h2, h3, h4⟩ := h.lit
  have fin : ∀ st, st.pos = b + l.str.length → Ctx st0 st → ∃ n r, opFinish (exec E n) cx k ru b st = some r
      ∧ r.out = .ok ∧ r.st.pos = e ∧ Ctx st0 r.st ∧ r.st.ex = st.ex ∧ Calm r.evs := by
    intro st hp hc
    obtain ⟨r1, r2, ⟨n1, a1⟩, a2, ⟨n2, a3⟩, a4, a5, a6, a7⟩ := h4 st hp hc
    have b1 := exec_mono (Nat.le_max_left n1 n2) a1
    have b2 := exec_mono (Nat.le_max_right n1 n2) a3
    have ho : opFinish (exec E (max n1 n2)) cx k ru b st = some ⟨.ok, r2.st, .token k b st.pos :: (r1.evs ++ r2.evs)⟩ := by
      unfold opFinish
      rw [b1]
      obtain ⟨o1, s1, e1⟩ := r1
      simp only at a2
      subst a2
      simp only at b2
      simp [onOk', andThen, b2, emit, a4]
    refine ⟨max n1 n2, _, ho, rfl, a5, a6, ?_, ?_⟩
    · obtain ⟨_, _, _, _, _, _, _, c7⟩ := opFinish_ok (ok.rules o h.mem _ h1) ho rfl
      exact c7
    · simpa [calm_cons, Ev.isError] using a7
  refine ⟨l, k, ru, h1, h2, ?_, fin, ?_⟩
  · intro ops hops ho
    refine parseOperator_hit (ok.lits.sub fun q hq => (hops q hq).1) ho h1 h2 (fun o' ho' hh => ?_) h3
    exact h.only o' (hops o' ho').1 (hops o' ho').2 hh
  · intro st hp hc hn hgr
    let x : ExSt := { st.ex with nest := st.ex.nest + 1,
                                 group := if ((E.exprs i).bpOf o).group ≠ 0 ∧ st.ex.group = 0 then ((E.exprs i).bpOf o).group else st.ex.group }
    obtain ⟨n1, r1, a1, a2, a3, a4, a5, a6⟩ := fin { st with ex := x } hp ⟨hc.vars, hc.depth, hc.wsOn⟩
    refine ⟨r1.st, r1.evs, a3, a4, by rw [a5], by rw [a5], ?_, a6, ?_⟩
    · rw [a5]
      show x.group = 0 ∨ x.group = g
      simp only [x]
      split
      · exact hg
      · exact hgr
    · intro n r hr
      refine ⟨max n n1 + 1, ?_⟩
      simp only [exec_succ, step]
      rw [if_neg (by omega), if_neg (by rcases hg with hg | hg <;> rcases hgr with hgr | hgr <;> simp [hg, hgr])]
      have b1 := opFinish_mono (Nat.le_max_right n n1) a1
      have b2 := opCont_mono (Nat.le_max_left n n1) hr
      rw [b1]
      obtain ⟨o1, s1, e1⟩ := r1
      simp only at a2
      subst a2
      simp only at b2
      simp [onOk', andThen, b2, emit]

/-- Nothing is parsed at `e` that the operators on the right of `t` would consume or complain about. -/
def StopAt (E : Env) (i : Nat) (t : ETree) (e : Nat) : Prop :=
  ∀ o ∈ (E.exprs i).ops.all, o.id ∈ rightEnd t → Closed E i ((E.exprs i).bpOf o).rhs e
    ∧ (o.kind ∈ [.infixSingle, .infixList] → ¬ o.Hits (E.exprs i).fold (E.inp.drop e))

/-- All operators on the left of `t` have at least the power `m`. -/
def LeftFit (E : Env) (i : Nat) (lvl : OpDef → Nat) (t : ETree) (m : Nat) : Prop :=
  ∀ o ∈ (E.exprs i).ops.all, o.id ∈ leftEnd t → m ≤ ExprOk.power lvl o

/-- All operators of `t` are in no group or in `g`. -/
def GroupFit (E : Env) (i : Nat) (t : ETree) (g : Nat) : Prop :=
  ∀ o ∈ (E.exprs i).ops.all, o.id ∈ opsOf t → ((E.exprs i).bpOf o).group = 0 ∨ ((E.exprs i).bpOf o).group = g

/-- The state before an operand. -/
structure Ready (E : Env) (i : Nat) (st0 : St) (g k b : Nat) (st : St) : Prop where
  pos : st.pos = b
  ctx : Ctx st0 st
  nest : st.ex.nest + k ≤ (E.exprs i).maxNest
  group : st.ex.group = 0 ∨ st.ex.group = g

/-- The state after the operand `t`. -/
structure Done (st0 : St) (g e : Nat) (t : ETree) (k : Nat) (st' : St) : Prop where
  pos : st'.pos = e
  ctx : Ctx st0 st'
  val : st'.ex.val = some t
  nest : st'.ex.nest = k
  group : st'.ex.group = 0 ∨ st'.ex.group = g

/-- `_parse_lhs` and the loop of `_parse` get to the loop in the state `st'`. -/
def Reaches (E : Env) (cx : Cx) (i m : Nat) (st st' : St) (evs : List Ev) : Prop :=
  ∀ y, Exec E cx (.exLoop i m) st' y →
    ∃ n, onOk' (exec E n cx (.exLhs i m) st) (fun s => exec E n cx (.exLoop i m) s) = some ⟨y.out, y.st, evs ++ y.evs⟩

theorem loop_stop (ok : ExprOk E i lvl) {m : Nat} {st : St} (h : Closed E i m st.pos) :
    Exec E cx (.exLoop i m) st ⟨.ok, st, []⟩ := by
  refine ⟨1, ?_⟩
  simp only [exec_succ, step]
  rw [parseOperator_noHit (ok.postLits m) h]
  rfl

theorem parse_reaches (ok : ExprOk E i lvl) {m : Nat} {st st' : St} {evs : List Ev} (h : Reaches E cx i m st st' evs)
    (hq : Calm evs) (hc : Closed E i m st'.pos) : ∃ evs', Calm evs' ∧ Exec E cx (.exParse i m) st ⟨.ok, st', evs'⟩ := by
  obtain ⟨n, hn⟩ := h _ (loop_stop ok hc)
  by_cases he : ((E.exprs i).postOps m).isEmpty = true
  · rcases onOk'_some hn with ⟨s1, e1, r3, g1, g2, g3⟩ | ⟨_, g2⟩
    · have e2 := Exec.unique ⟨n, g2⟩ (loop_stop (cx := cx) ok (st := s1) (m := m) (by
        intro o ho
        rw [List.isEmpty_iff.1 he] at ho
        cases ho))
      subst e2
      simp only [Res.mk.injEq, List.append_nil, true_and] at g3
      obtain ⟨rfl, rfl⟩ := g3
      refine ⟨evs, hq, n + 1, ?_⟩
      simp only [exec_succ, step, he, if_true]
      exact g1
    · cases g2
  · refine ⟨.opStart st.pos :: (evs ++ [.opFinish st'.pos]), ?_, n + 1, ?_⟩
    · simp [calm_cons, calm_append, Ev.isError, hq]
      simp [Calm, Ev.isError]
    · simp only [exec_succ, step, he]
      rw [hn]
      simp [andThen, emit]

theorem stop_before (ok : ExprOk E i lvl) {o : OpDef} {b e : Nat} {t : ETree} (h : OpAt E cx i st0 o b e)
    (hk : o.kind ≠ .prefix) (hl : ∀ p ∈ rightEnd t, LeftOk (tableOf (E.exprs i) lvl) o.id p)
    (hn : ∀ p ∈ (E.exprs i).ops.all, p.id ∈ rightEnd t → p.kind ≠ .postfix)
    (hu : o.kind ∈ [.infixSingle, .infixList] → o.id ∉ rightEnd t) : StopAt E i t b := by
  intro p hp hid
  constructor
  · intro q hq hh
    obtain ⟨q1, q2, q3⟩ := ok.post_mem.1 hq
    have := h.only q q1 (by simp [hk, q2]) hh
    subst this
    obtain ⟨ko, lo, kp, lp, a1, a2, a3⟩ := hl _ hid
    rw [ok.table q1] at a1
    rw [ok.table hp] at a2
    simp only [Option.some.injEq, Prod.mk.injEq] at a1 a2
    obtain ⟨rfl, rfl⟩ := a1
    obtain ⟨rfl, rfl⟩ := a2
    rw [ok.rhs_eq hp] at q3
    unfold ExprOk.power at q3
    rw [if_neg hk] at q3
    have hnp := hn p hp hid
    revert hk q3 a3 hnp
    cases q.kind <;> cases p.kind <;> simp [OpKind.bp, leftAssoc] <;> omega
  · intro hks hh
    have hpk : p.kind ≠ .prefix := by intro he; rw [he] at hks; simp at hks
    have := h.only p hp (by simp [hk, hpk]) hh
    subst this
    exact hu hks hid

mutual
/-- Postfix operators have no right operand. -/
theorem nested_right {T : Table} : ∀ t : ETree, Nested T t → ∀ p ∈ rightEnd t, ∃ k l, T p = some (k, l) ∧ k ≠ .postfix
  | .atom _ _, _ => by simp [rightEnd]
  | .pre o t, ⟨⟨k, l, h1, h2⟩, h3, _⟩ => by
    intro p hp
    rcases List.mem_cons.1 hp with rfl | hp
    · exact ⟨k, l, h1, by rintro rfl; simp at h2⟩
    · exact nested_right t h3 p hp
  | .post _ _, _ => by simp [rightEnd]
  | .inf o l r, ⟨⟨k, lv, h1, h2⟩, _, h3, _⟩ => by
    intro p hp
    rcases List.mem_cons.1 hp with rfl | hp
    · exact ⟨k, lv, h1, by rintro rfl; simp at h2⟩
    · exact nested_right r h3 p hp
  | .list o ts, ⟨⟨k, l, h1, h2⟩, _, h3, _⟩ => by
    intro p hp
    rcases List.mem_cons.1 hp with rfl | hp
    · exact ⟨k, l, h1, by rintro rfl; simp at h2⟩
    · exact nestedAll_right ts h3 p hp
theorem nestedAll_right {T : Table} : ∀ ts : List ETree, NestedAll T ts →
    ∀ p ∈ rightEndLast ts, ∃ k l, T p = some (k, l) ∧ k ≠ .postfix
  | [], _ => by simp [rightEndLast]
  | [t], h => by
    simp only [rightEndLast]
    exact nested_right t h.1
  | _ :: t :: ts, h => by
    simp only [rightEndLast]
    exact nestedAll_right (t :: ts) h.2
end

theorem ExprOk.noPost (ok : ExprOk E i lvl) {t : ETree} (h : Nested (tableOf (E.exprs i) lvl) t) :
    ∀ p ∈ (E.exprs i).ops.all, p.id ∈ rightEnd t → p.kind ≠ .postfix := by
  intro p hp hid
  obtain ⟨k, l, h1, h2⟩ := nested_right t h _ hid
  rw [ok.table hp] at h1
  simp only [Option.some.injEq, Prod.mk.injEq] at h1
  rw [h1.1]; exact h2

/-- An operator as in the table. -/
theorem ExprOk.ofKind (ok : ExprOk E i lvl) {o : OpDef} {ks : List OpKind} (ho : o ∈ (E.exprs i).ops.all)
    (h : hasKind (tableOf (E.exprs i) lvl) o.id ks) : o.kind ∈ ks := by
  obtain ⟨k, l, h1, h2⟩ := h
  rw [ok.table ho] at h1
  simp only [Option.some.injEq, Prod.mk.injEq] at h1
  rw [h1.1]; exact h2

theorem ExprOk.leftFit (ok : ExprOk E i lvl) {o : OpDef} {t : ETree} (ho : o ∈ (E.exprs i).ops.all)
    (hk : o.kind ≠ .postfix) (h : ∀ q ∈ leftEnd t, RightOk (tableOf (E.exprs i) lvl) o.id q) :
    LeftFit E i lvl t ((E.exprs i).bpOf o).rhs := by
  intro q hq hid
  obtain ⟨ko, lo, kq, lq, a1, a2, a3⟩ := h _ hid
  rw [ok.table ho] at a1
  rw [ok.table hq] at a2
  simp only [Option.some.injEq, Prod.mk.injEq] at a1 a2
  obtain ⟨rfl, rfl⟩ := a1
  obtain ⟨rfl, rfl⟩ := a2
  rw [ok.rhs_eq ho]
  unfold ExprOk.power
  revert hk a3
  cases o.kind <;> cases q.kind <;> simp [OpKind.bp, leftAssoc] <;> omega

/-- The loop goes on after an operator. -/
theorem post_step {m n : Nat} {sl st1 : St} {o : OpDef} {k : Kind} {ru : Rule} {evs : List Ev}
    (hop : parseOperator E.eof (E.exprs i).fold ((E.exprs i).postOps m) (E.inp.drop sl.pos) = some (some ((o, k, ru), n)))
    (hc : Ctx st0 sl) (ha : Exec E cx (.exApply i o k ru sl.pos) { sl with pos := sl.pos + n } ⟨.ok, st1, evs⟩)
    (hc1 : Ctx st0 st1) {y : Res} (hy : Exec E cx (.exLoop i m) st1 y) :
    Exec E cx (.exLoop i m) sl ⟨y.out, y.st, evs ++ y.evs⟩ := by
  obtain ⟨n1, h1⟩ := ha
  obtain ⟨n2, h2⟩ := hy
  refine ⟨max n1 n2 + 1, ?_⟩
  simp only [exec_succ, step]
  rw [hop]
  simp only
  rw [exec_mono (Nat.le_max_left n1 n2) h1, hc.vars]
  simp only [framed, Option.map_some, onOk', andThen, hc1.frame_eq]
  rw [exec_mono (Nat.le_max_right n1 n2) h2]
  rfl

theorem post_ops (ok : ExprOk E i lvl) {o : OpDef} (hk : o.kind ≠ .prefix) (m : Nat) :
    ∀ q ∈ (E.exprs i).postOps m, q ∈ (E.exprs i).ops.all ∧ (q.kind = .prefix ↔ o.kind = .prefix) := by
  intro q hq
  obtain ⟨q1, q2, _⟩ := ok.post_mem.1 hq
  exact ⟨q1, by simp [hk, q2]⟩

theorem pre_ops (ok : ExprOk E i lvl) {o : OpDef} (hk : o.kind = .prefix) (m : Nat) :
    ∀ q ∈ (E.exprs i).preOps m, q ∈ (E.exprs i).ops.all ∧ (q.kind = .prefix ↔ o.kind = .prefix) := by
  intro q hq
  obtain ⟨q1, q2, _⟩ := ok.pre_mem.1 hq
  exact ⟨q1, by simp [hk, q2]⟩

/-- The whole of an infix operator and its right operand. -/
theorem infix_go (ok : ExprOk E i lvl) {o : OpDef} {l r : ETree} {single : Bool} {g e : Nat} {st' s1 : St} {evs : List Ev}
    (hm : o ∈ (E.exprs i).ops.all) (hv : st'.ex.val = some l)
    (hs : single = true → ¬ o.Hits (E.exprs i).fold (E.inp.drop e)) {k : Nat} (hd : Done st0 g e r k s1) (hq : Calm evs)
    (hp : Exec E cx (.exParse i ((E.exprs i).bpOf o).rhs) { st' with ex := { st'.ex with val := none } } ⟨.ok, s1, evs⟩) :
    ∃ n s2 evs', opInfix E (exec E n) cx i o single st' = some ⟨.ok, s2, evs'⟩ ∧ Done st0 g e (.inf o.id l r) k s2
      ∧ Calm evs' := by
  obtain ⟨n, hn⟩ := hp
  refine ⟨n, { s1 with ex := { s1.ex with val := some (.inf o.id l r) } }, evs ++ [.opOp o.id s1.pos], ?_,
    ⟨hd.pos, ⟨hd.ctx.vars, hd.ctx.depth, hd.ctx.wsOn⟩, rfl, hd.nest, hd.group⟩, ?_⟩
  · unfold opInfix
    simp only
    rw [hn]
    simp only [andThen, hv, hd.val, Option.bind_some]
    cases single with
    | false => simp
    | true =>
      rw [hd.pos, parseOperator_noHit (ok.oneLits hm) (by
        intro q hq; rw [List.mem_singleton.1 hq]; exact hs rfl)]
      simp
  · simp only [calm_append]
    exact ⟨hq, by simp [Calm, Ev.isError]⟩

mutual
theorem complete (ok : ExprOk E i lvl) : ∀ t : ETree, Nested (tableOf (E.exprs i) lvl) t →
    Unchained (tableOf (E.exprs i) lvl) t → ∀ (m b e g : Nat) (st : St), LeftFit E i lvl t m → GroupFit E i t g →
    Spell E cx i st0 (yield t) b e → StopAt E i t e → Ready E i st0 g (size t) b st →
    ∃ st' evs, Done st0 g e t (st.ex.nest + size t) st' ∧ Calm evs ∧ Reaches E cx i m st st' evs
  | .atom b' e', _, _, m, b, e, g, st, hl, hg, hs, hst, hr => by
    obtain ⟨rfl, h2, h3⟩ := Spell.atom_inv hs
    obtain rfl := h3.nil_inv
    obtain ⟨r, ⟨n1, a1⟩, a2, a3, a4, a5⟩ := h2.parse st hr.pos hr.ctx
    refine ⟨{ r.st.frame st0.vars.length with ex := { st.ex with val := some (.atom b' e') } }, r.evs,
      ⟨a3, ⟨a4.vars, a4.depth, a4.wsOn⟩, rfl, rfl, hr.group⟩, a5, ?_⟩
    rintro y ⟨n2, hy⟩
    refine ⟨max n1 n2 + 1, ?_⟩
    have hy' := exec_mono (m := max n1 n2 + 1) (by omega) hy
    simp only [exec_succ E (max n1 n2) cx (.exLhs i m), step]
    rw [hr.pos, parseOperator_noHit (ok.preLits m) (fun o ho => h2.noOp o (ok.pre_mem.1 ho).1 (ok.pre_mem.1 ho).2.1)]
    simp only
    rw [exec_mono (Nat.le_max_left n1 n2) a1, hr.ctx.vars]
    obtain ⟨o1, s1, e1⟩ := r
    simp only at a2 a3
    subst a2 a3
    simp only [framed, Option.map_some, onOk', andThen, ret]
    simp only [St.frame] at hy' ⊢
    rw [hy']
    simp
  | .pre id t, ⟨h1, h2, h3⟩, hu, m, b, e, g, st, hl, hg, hs, hst, hr => by
    obtain ⟨o, m', rfl, a1, a2⟩ := Spell.op_inv hs
    have hk : o.kind = .prefix := by simpa using ok.ofKind a1.mem h1
    have hnp : o.kind ≠ .postfix := by rw [hk]; decide
    obtain ⟨l, k, ru, b1, b2, b3, _, b5⟩ := apply_go ok a1 (hg o a1.mem (by simp [opsOf]))
    have hsz : size (.pre o.id t) = size t + 1 := rfl
    have hnest := hr.nest
    obtain ⟨s1, e1, c1, c2, c3, c4, c5, c6, c7⟩ := b5 { st with pos := st.pos + l.str.length } (by simp [hr.pos])
      ⟨hr.ctx.vars, hr.ctx.depth, hr.ctx.wsOn⟩ (by simp only; omega) hr.group
    simp only at c4
    obtain ⟨s2, e2, d1, d2, d3⟩ := complete ok t h2 hu ((E.exprs i).bpOf o).rhs m' e g s1 (ok.leftFit a1.mem hnp h3)
      (fun q hq hid => hg q hq (by simp [opsOf, hid])) a2 (fun q hq hid => hst q hq (by simp [rightEnd, hid]))
      ⟨c1, c2, by omega, c5⟩
    have hcl : Closed E i ((E.exprs i).bpOf o).rhs s2.pos := by
      rw [d1.pos]
      exact (hst o a1.mem (by simp [rightEnd])).1
    obtain ⟨e3, f1, n1, f2⟩ := parse_reaches ok d3 d2 hcl
    let s3 : St := { s2 with ex := { s2.ex with val := some (.pre o.id t) } }
    have hcont : opCont E (exec E n1) cx i o s1 = some ⟨.ok, s3, e3 ++ [.opOp o.id s2.pos]⟩ := by
      unfold opCont
      rw [hk]
      simp only
      rw [f2]
      simp [onOk', andThen, d1.val, s3]
    obtain ⟨n2, f3⟩ := c7 _ _ hcont
    have hs3 : Done st0 g e (.pre o.id t) (st.ex.nest + size (.pre o.id t)) s3 :=
      ⟨d1.pos, ⟨d1.ctx.vars, d1.ctx.depth, d1.ctx.wsOn⟩, rfl, by show s2.ex.nest = _; rw [d1.nest, c4, hsz]; omega, d1.group⟩
    refine ⟨s3, .opStart st.pos :: (e1 ++ (e3 ++ [.opOp o.id s2.pos]) ++ [.opFinish s3.pos]), hs3, ?_, ?_⟩
    · simp only [calm_cons, calm_append]
      exact ⟨rfl, ⟨c6, f1, by simp [Calm, Ev.isError]⟩, by simp [Calm, Ev.isError]⟩
    · rintro y ⟨n3, hy⟩
      refine ⟨max n2 n3 + 1, ?_⟩
      have hy' := exec_mono (m := max n2 n3 + 1) (by omega) hy
      simp only [exec_succ E (max n2 n3) cx (.exLhs i m), step]
      rw [hr.pos] at f3 ⊢
      rw [b3 _ (pre_ops ok hk m) (ok.pre_mem.2 ⟨a1.mem, hk, hl o a1.mem (by simp [leftEnd])⟩)]
      simp only
      rw [exec_mono (Nat.le_max_left n2 n3) f3, hr.ctx.vars]
      simp only [framed, Option.map_some, andThen, emit, onOk', hs3.ctx.frame_eq]
      rw [hy']
      simp
  | .post id t, ⟨h1, h2, h3⟩, hu, m, b, e, g, st, hl, hg, hs, hst, hr => by
    obtain ⟨b', a1, a2⟩ := Spell.split hs
    obtain ⟨o, m', rfl, a3, a4⟩ := Spell.op_inv a2
    obtain rfl := a4.nil_inv
    have hk : o.kind = .postfix := by simpa using ok.ofKind a3.mem h1
    have hnp : o.kind ≠ .prefix := by rw [hk]; decide
    have hsz : size (.post o.id t) = size t + 1 := rfl
    have hnest := hr.nest
    obtain ⟨s1, e1, d1, d2, d3⟩ := complete ok t h2 hu m b b' g st
      (fun q hq hid => hl q hq (by simp [leftEnd, hid])) (fun q hq hid => hg q hq (by simp [opsOf, hid])) a1
      (stop_before ok a3 hnp h3 (ok.noPost h2) (by rw [hk]; simp)) ⟨hr.pos, hr.ctx, by omega, hr.group⟩
    obtain ⟨l, k, ru, b1, b2, b3, _, b5⟩ := apply_go ok a3 (hg o a3.mem (by simp [opsOf]))
    obtain ⟨s2, e2, c1, c2, c3, c4, c5, c6, c7⟩ := b5 { s1 with pos := s1.pos + l.str.length } (by simp [d1.pos])
      ⟨d1.ctx.vars, d1.ctx.depth, d1.ctx.wsOn⟩ (by simp only [d1.nest]; omega) d1.group
    simp only [d1.nest, d1.val] at c3 c4
    let s3 : St := { s2 with ex := { s2.ex with val := some (.post o.id t) } }
    have hcont : opCont E (exec E 0) cx i o s2 = some ⟨.ok, s3, [.opOp o.id s2.pos]⟩ := by
      unfold opCont
      rw [hk]
      simp [c3, s3]
    have hs3 : Done st0 g m' (.post o.id t) (st.ex.nest + size (.post o.id t)) s3 :=
      ⟨c1, ⟨c2.vars, c2.depth, c2.wsOn⟩, rfl, by show s2.ex.nest = _; rw [c4, hsz]; omega, c5⟩
    have happ := c7 _ _ hcont
    simp only at happ
    refine ⟨s3, e1 ++ (e2 ++ [.opOp o.id s2.pos]), hs3, ?_, ?_⟩
    · simp only [calm_append]
      exact ⟨d2, c6, by simp [Calm, Ev.isError]⟩
    · intro y hy
      rw [← d1.pos] at happ b3
      have := d3 _ (post_step (b3 _ (post_ops ok hnp m) (ok.post_mem.2 ⟨a3.mem, hnp, hl o a3.mem (by simp [leftEnd])⟩))
        d1.ctx happ hs3.ctx hy)
      simpa using this
  | .inf id l r, ⟨h1, h2, h3, h4, h5⟩, ⟨hu1, hu2, hu3⟩, m, b, e, g, st, hl, hg, hs, hst, hr => by
    obtain ⟨b', a1, a2⟩ := Spell.split hs
    obtain ⟨o, m', rfl, a3, a4⟩ := Spell.op_inv a2
    have hk := ok.ofKind a3.mem h1
    have hnp : o.kind ≠ .prefix := by intro he; rw [he] at hk; simp at hk
    have hnq : o.kind ≠ .postfix := by intro he; rw [he] at hk; simp at hk
    have hnl : o.kind ≠ .infixList := by intro he; rw [he] at hk; simp at hk
    have hsz : size (.inf o.id l r) = size l + size r + 1 := rfl
    have hnest := hr.nest
    obtain ⟨s1, e1, d1, d2, d3⟩ := complete ok l h2 hu1 m b b' g st
      (fun q hq hid => hl q hq (by simp [leftEnd, hid])) (fun q hq hid => hg q hq (by simp [opsOf, hid])) a1
      (stop_before ok a3 hnp h4 (ok.noPost h2) (by
        intro hks
        refine hu3 ⟨_, _, ok.table a3.mem, ?_⟩
        simpa [hnl] using hks)) ⟨hr.pos, hr.ctx, by omega, hr.group⟩
    obtain ⟨lt, k, ru, b1, b2, b3, _, b5⟩ := apply_go ok a3 (hg o a3.mem (by simp [opsOf]))
    obtain ⟨s2, e2, c1, c2, c3, c4, c5, c6, c7⟩ := b5 { s1 with pos := s1.pos + lt.str.length } (by simp [d1.pos])
      ⟨d1.ctx.vars, d1.ctx.depth, d1.ctx.wsOn⟩ (by simp only [d1.nest]; omega) d1.group
    simp only [d1.nest, d1.val] at c3 c4
    obtain ⟨s3, e3, f1, f2, f3⟩ := complete ok r h3 hu2 ((E.exprs i).bpOf o).rhs m' e g
      { s2 with ex := { s2.ex with val := none } } (ok.leftFit a3.mem hnq h5)
      (fun q hq hid => hg q hq (by simp [opsOf, hid])) a4 (fun q hq hid => hst q hq (by simp [rightEnd, hid]))
      ⟨c1, ⟨c2.vars, c2.depth, c2.wsOn⟩, by simp only; omega, c5⟩
    have hso := hst o a3.mem (by simp [rightEnd])
    obtain ⟨e4, g1, g2⟩ := parse_reaches ok f3 f2 (by rw [f1.pos]; exact hso.1)
    have hex : ∃ n s4 e5, opCont E (exec E n) cx i o s2 = some ⟨.ok, s4, e5⟩
        ∧ Done st0 g e (.inf o.id l r) (s2.ex.nest + size r) s4 ∧ Calm e5 := by
      have go := fun single hsg => infix_go (st0 := st0) (single := single) (g := g) (e := e) (k := s2.ex.nest + size r)
        ok a3.mem c3 hsg f1 g1 g2
      unfold opCont
      cases hkk : o.kind with
      | «prefix» => exact (hnp hkk).elim
      | «postfix» => exact (hnq hkk).elim
      | infixList => exact (hnl hkk).elim
      | infixLeft => exact go false nofun
      | infixRight => exact go false nofun
      | infixSingle => exact go true fun _ => hso.2 (by simp [hkk])
    obtain ⟨n4, s4, e5, k1, k2, k3⟩ := hex
    have happ := c7 _ _ k1
    simp only at happ
    have hs4 : Done st0 g e (.inf o.id l r) (st.ex.nest + size (.inf o.id l r)) s4 :=
      ⟨k2.pos, k2.ctx, k2.val, by rw [k2.nest, c4, hsz]; omega, k2.group⟩
    refine ⟨s4, e1 ++ (e2 ++ e5), hs4, ?_, ?_⟩
    · simp only [calm_append]
      exact ⟨d2, c6, k3⟩
    · intro y hy
      rw [← d1.pos] at happ b3
      have := d3 _ (post_step (b3 _ (post_ops ok hnp m) (ok.post_mem.2 ⟨a3.mem, hnp, hl o a3.mem (by simp [leftEnd])⟩))
        d1.ctx happ hs4.ctx hy)
      simpa using this
  | .list _ [], ⟨_, h2, _⟩, _, _, _, _, _, _, _, _, _, _, _ => by simp at h2
  | .list _ [_], ⟨_, h2, _⟩, _, _, _, _, _, _, _, _, _, _, _ => by simp at h2
  | .list id (t :: u :: ts), ⟨h1, h2, h3, h4, h5⟩, ⟨hu1, hu2⟩, m, b, e, g, st, hl, hg, hs, hst, hr => by
    obtain ⟨b', a1, a2⟩ := Spell.split hs
    obtain ⟨o, m', rfl, a3, a4⟩ := Spell.op_inv a2
    have hk : o.kind = .infixList := by simpa using ok.ofKind a3.mem h1
    have hnp : o.kind ≠ .prefix := by rw [hk]; decide
    have hnq : o.kind ≠ .postfix := by rw [hk]; decide
    have hsz : size (.list o.id (t :: u :: ts)) = size t + sizeAll (u :: ts) + 1 := rfl
    have hnest := hr.nest
    obtain ⟨s1, e1, d1, d2, d3⟩ := complete ok t h3.1 hu1.1 m b b' g st
      (fun q hq hid => hl q hq (by simp [leftEnd, leftEndHead, hid]))
      (fun q hq hid => hg q hq (by simp [opsOf, opsOfAll, hid])) a1
      (stop_before ok a3 hnp (h4 t (by simp)) (ok.noPost h3.1) fun _ => hu2 t (by simp))
      ⟨hr.pos, hr.ctx, by omega, hr.group⟩
    obtain ⟨lt, k, ru, b1, b2, b3, _, b5⟩ := apply_go ok a3 (hg o a3.mem (by simp [opsOf]))
    obtain ⟨s2, e2, c1, c2, c3, c4, c5, c6, c7⟩ := b5 { s1 with pos := s1.pos + lt.str.length } (by simp [d1.pos])
      ⟨d1.ctx.vars, d1.ctx.depth, d1.ctx.wsOn⟩ (by simp only [d1.nest]; omega) d1.group
    simp only [d1.nest, d1.val] at c3 c4
    obtain ⟨s3, e3, f1, f2, n3, f3⟩ := complete_list ok (u :: ts) (by simp) h3.2 hu1.2 o a3.mem hk
      (fun t' ht' => h4 t' (by
        rw [List.dropLast_cons_cons]
        exact List.mem_cons_of_mem _ ht'))
      (fun t' ht' => hu2 t' (by
        rw [List.dropLast_cons_cons]
        exact List.mem_cons_of_mem _ ht'))
      (fun t' ht' => ok.leftFit a3.mem hnq (h5 t' ht')) [t] m' e g { s2 with ex := { s2.ex with val := none } }
      (fun q hq hid => hg q hq (by
        simp only [opsOf, opsOfAll, List.mem_cons, List.mem_append] at hid ⊢
        rcases hid with hid | hid
        · exact .inl hid
        · exact .inr (.inr hid)))
      (by simpa [yield] using a4)
      (hst o a3.mem (by simp [rightEnd])) (fun q hq hid => hst q hq (by simp [rightEnd, rightEndLast, hid]))
      ⟨c1, ⟨c2.vars, c2.depth, c2.wsOn⟩, by simp only; omega, c5⟩
    have hcont : opCont E (exec E n3) cx i o s2 = some ⟨.ok, s3, e3⟩ := by
      unfold opCont
      rw [hk]
      simp only [c3, Option.bind_some]
      exact f3
    have happ := c7 _ _ hcont
    simp only at happ
    have hs3 : Done st0 g e (.list o.id (t :: u :: ts)) (st.ex.nest + size (.list o.id (t :: u :: ts))) s3 :=
      ⟨f1.pos, f1.ctx, f1.val, by rw [f1.nest, hsz]; simp only; omega, f1.group⟩
    refine ⟨s3, e1 ++ (e2 ++ e3), hs3, ?_, ?_⟩
    · simp only [calm_append]
      exact ⟨d2, c6, f2⟩
    · intro y hy
      rw [← d1.pos] at happ b3
      have := d3 _ (post_step (b3 _ (post_ops ok hnp m) (ok.post_mem.2 ⟨a3.mem, hnp, hl o a3.mem (by simp [leftEnd])⟩))
        d1.ctx happ hs3.ctx hy)
      simpa using this
theorem complete_list (ok : ExprOk E i lvl) : ∀ ts : List ETree, ts ≠ [] → NestedAll (tableOf (E.exprs i) lvl) ts →
    UnchainedAll (tableOf (E.exprs i) lvl) ts → ∀ o ∈ (E.exprs i).ops.all, o.kind = .infixList →
    (∀ t ∈ ts.dropLast, ∀ p ∈ rightEnd t, LeftOk (tableOf (E.exprs i) lvl) o.id p) →
    (∀ t ∈ ts.dropLast, o.id ∉ rightEnd t) → (∀ t ∈ ts, LeftFit E i lvl t ((E.exprs i).bpOf o).rhs) →
    ∀ (items : List ETree) (b e g : Nat) (st : St),
    (∀ q ∈ (E.exprs i).ops.all, q.id ∈ opsOf (.list o.id ts) →
      ((E.exprs i).bpOf q).group = 0 ∨ ((E.exprs i).bpOf q).group = g) →
    Spell E cx i st0 (yield (.list o.id ts)) b e →
    (Closed E i ((E.exprs i).bpOf o).rhs e
      ∧ (o.kind ∈ [.infixSingle, .infixList] → ¬ o.Hits (E.exprs i).fold (E.inp.drop e))) →
    (∀ q ∈ (E.exprs i).ops.all, q.id ∈ rightEndLast ts → Closed E i ((E.exprs i).bpOf q).rhs e
      ∧ (q.kind ∈ [.infixSingle, .infixList] → ¬ q.Hits (E.exprs i).fold (E.inp.drop e))) →
    Ready E i st0 g (sizeAll ts) b st →
    ∃ st' evs, Done st0 g e (.list o.id (items ++ ts)) (st.ex.nest + sizeAll ts) st' ∧ Calm evs
      ∧ Exec E cx (.exList i o items) st ⟨.ok, st', evs⟩
  | [], h, _, _, _, _, _, _, _, _, _, _, _, _, _, _, _, _, _, _ => (h rfl).elim
  | [t], _, h1, hu, o, ho, hk, hlo, hno, hlf, items, b, e, g, st, hg, hs, hcl, hst, hr => by
    have hsz : sizeAll [t] = size t := by simp [sizeAll]
    have hnest := hr.nest
    obtain ⟨s1, e1, d1, d2, d3⟩ := complete ok t h1.1 hu.1 ((E.exprs i).bpOf o).rhs b e g st (hlf t (by simp))
      (fun q hq hid => hg q hq (by simp [opsOf, opsOfAll, hid])) (by simpa [yield, yieldTail] using hs)
      (fun q hq hid => hst q hq (by simpa [rightEndLast] using hid)) ⟨hr.pos, hr.ctx, by omega, hr.group⟩
    obtain ⟨e2, f1, n, f2⟩ := parse_reaches ok d3 d2 (by rw [d1.pos]; exact hcl.1)
    refine ⟨{ s1 with ex := { s1.ex with val := some (.list o.id (items ++ [t])) } }, e2 ++ [.opOp o.id s1.pos],
      ⟨d1.pos, ⟨d1.ctx.vars, d1.ctx.depth, d1.ctx.wsOn⟩, rfl, by rw [hsz]; exact d1.nest, d1.group⟩, ?_, n + 1, ?_⟩
    · simp only [calm_append]
      exact ⟨f1, by simp [Calm, Ev.isError]⟩
    · simp only [exec_succ, step]
      rw [f2]
      simp only [andThen, d1.val, Option.bind_some]
      rw [d1.pos, parseOperator_noHit (ok.oneLits ho) (by
        intro q hq; rw [List.mem_singleton.1 hq]; exact hcl.2 (by simp [hk]))]
      simp
  | t :: u :: ts, _, h1, hu, o, ho, hk, hlo, hno, hlf, items, b, e, g, st, hg, hs, hcl, hst, hr => by
    have hnp : o.kind ≠ .prefix := by rw [hk]; decide
    have hsz : sizeAll (t :: u :: ts) = size t + sizeAll (u :: ts) := rfl
    have hnest := hr.nest
    obtain ⟨b', a1, a2⟩ := Spell.split hs
    obtain ⟨o', m', ho', a3, a4⟩ := Spell.op_inv a2
    have := ok.ids _ a3.mem _ ho ho'
    subst this
    obtain ⟨s1, e1, d1, d2, d3⟩ := complete ok t h1.1 hu.1 ((E.exprs i).bpOf o').rhs b b' g st (hlf t (by simp))
      (fun q hq hid => hg q hq (by simp [opsOf, opsOfAll, hid])) a1
      (stop_before ok a3 hnp (hlo t (by simp)) (ok.noPost h1.1) fun _ => hno t (by simp))
      ⟨hr.pos, hr.ctx, by omega, hr.group⟩
    have hcl' : Closed E i ((E.exprs i).bpOf o').rhs s1.pos := by
      rw [d1.pos]
      intro q hq hh
      have := a3.only q (ok.post_mem.1 hq).1 (by simp [hnp, (ok.post_mem.1 hq).2.1]) hh
      subst this
      have := (ok.post_mem.1 hq).2.2
      rw [ok.rhs_eq ho] at this
      simp [ExprOk.power, hk, OpKind.bp] at this
      omega
    obtain ⟨e2, f1, n1, f2⟩ := parse_reaches ok d3 d2 hcl'
    obtain ⟨lt, k, ru, b1, b2, b3, b4, _⟩ := apply_go ok a3 (hg o' ho (by simp [opsOf]))
    obtain ⟨n2, r2, c1, c2, c3, c4, c5, c6⟩ := b4
      { s1 with pos := s1.pos + lt.str.length, ex := { s1.ex with val := none } } (by simp [d1.pos])
      ⟨d1.ctx.vars, d1.ctx.depth, d1.ctx.wsOn⟩
    obtain ⟨s3, e3, g1, g2, n3, g3⟩ := complete_list ok (u :: ts) (by simp) h1.2 hu.2 o' ho hk
      (fun t' ht' => hlo t' (by
        rw [List.dropLast_cons_cons]
        exact List.mem_cons_of_mem _ ht'))
      (fun t' ht' => hno t' (by
        rw [List.dropLast_cons_cons]
        exact List.mem_cons_of_mem _ ht'))
      (fun t' ht' => hlf t' (List.mem_cons_of_mem _ ht')) (items ++ [t]) m' e g r2.st
      (fun q hq hid => hg q hq (by
        simp only [opsOf, opsOfAll, List.mem_cons, List.mem_append] at hid ⊢
        rcases hid with hid | hid
        · exact .inl hid
        · exact .inr (.inr hid)))
      (by simpa [yield] using a4) hcl
      (fun q hq hid => hst q hq (by simpa [rightEndLast] using hid))
      ⟨c3, c4, by rw [c5]; simp only [d1.nest]; omega, by rw [c5]; exact d1.group⟩
    refine ⟨s3, e2 ++ (r2.evs ++ e3), ⟨g1.pos, g1.ctx, by rw [g1.val]; simp, ?_, g1.group⟩, ?_, ?_⟩
    · rw [g1.nest, c5]
      simp only [d1.nest, hsz]
      omega
    · simp only [calm_append]
      exact ⟨f1, c6, g2⟩
    · refine ⟨max n1 (max n2 n3) + 1, ?_⟩
      simp only [exec_succ, step]
      rw [exec_mono (Nat.le_max_left n1 _) f2]
      simp only [andThen, d1.val, Option.bind_some]
      have := b3 [o'] (by simp [ho]) (by simp)
      rw [← d1.pos] at this c1
      rw [this]
      simp only
      rw [opFinish_mono (Nat.le_trans (Nat.le_max_left n2 n3) (Nat.le_max_right _ _)) c1, d1.ctx.vars]
      simp only [framed, Option.map_some, c4.frame_eq, c2]
      rw [exec_mono (Nat.le_trans (Nat.le_max_right n2 n3) (Nat.le_max_right _ _)) g3]
      simp
end

theorem minBP_none (ok : ExprOk E i lvl) (h : ∀ ro, ¬ Root (E.exprs i) ro) : (E.exprs i).minBP = 0 := by
  unfold ExprDef.minBP
  cases hr : (E.exprs i).root with
  | some o => exact (h o ⟨ok.root o hr, .inl hr⟩).elim
  | none =>
    cases ho : (E.exprs i).ops with
    | op o t => exact (h o ⟨by rw [ho]; simp [OpTree.all], .inr ⟨hr, t, ho⟩⟩).elim
    | _ => simp

theorem leftFit_root (ok : ExprOk E i lvl) {t : ETree}
    (h : ∀ ro, Root (E.exprs i) ro → ∀ o ∈ (E.exprs i).ops.all, o.id ∈ leftEnd t → lvl ro < lvl o ∨ o = ro) :
    LeftFit E i lvl t (E.exprs i).minBP := by
  intro o ho hid
  by_cases hex : ∃ ro, Root (E.exprs i) ro
  · obtain ⟨ro, hro⟩ := hex
    rcases h ro hro o ho hid with hlt | rfl
    · refine Nat.le_trans (minBP_root ok hro).2 ?_
      unfold ExprOk.power
      cases o.kind <;> simp [OpKind.bp] <;> omega
    · have hp : (E.exprs i).minBP = ((E.exprs i).bpOf o).left := by
        unfold ExprDef.minBP BP.left
        rcases hro.2 with h2 | ⟨h2, t, h3⟩
        · simp [h2]
        · simp [h2, h3]
      obtain ⟨g, hb, hl⟩ := ok.bp ho
      rw [hp, hb]
      unfold ExprOk.power
      have e : 2 * lvl o ≠ 0 := by omega
      cases o.kind <;> simp [OpKind.bp, BP.left, e]
  · rw [minBP_none ok fun ro hro => hex ⟨ro, hro⟩]
    exact Nat.zero_le _

/-- **C48** Every expression is parsed and the value is the one meant: for every tree that is nested by
    precedence and associativity, whose operators are at least as tight as the root operation and all
    in one group, and whose symbols are in the input one after the other, up to a position where no
    operator follows.  It must not have more operations than the maximal nesting level. -/
theorem C48_complete_partial (ok : ExprOk E i lvl) {t : ETree} {st : St} {e : Nat} {p : List Nat}
    (hn : Nested (tableOf (E.exprs i) lvl) t) (hu : Unchained (tableOf (E.exprs i) lvl) t)
    (hroot : ∀ ro, Root (E.exprs i) ro → ∀ o ∈ (E.exprs i).ops.all, o.id ∈ leftEnd t → lvl ro < lvl o ∨ o = ro)
    (hg : ∀ id ∈ opsOf t, groupPath id (E.exprs i).ops = some [] ∨ groupPath id (E.exprs i).ops = some p)
    (hs : Spell E cx i st (yield t) st.pos e)
    (hend : ∀ o ∈ (E.exprs i).ops.all, o.kind ≠ .prefix → ¬ o.Hits (E.exprs i).fold (E.inp.drop e))
    (hmax : size t ≤ (E.exprs i).maxNest) :
    ∃ r, Exec E cx (.run (.expr i)) st r ∧ r.out = .ok ∧ r.st.ex.val = some t ∧ r.st.pos = e
      ∧ ∀ ev ∈ r.evs, ev.isError = false := by
  have hcl : ∀ m, Closed E i m e := fun m o ho => hend o (ok.post_mem.1 ho).1 (ok.post_mem.1 ho).2.1
  have hst : StopAt E i t e := fun o ho _ => ⟨hcl _, fun hk => hend o ho (by intro he; rw [he] at hk; simp at hk)⟩
  obtain ⟨g, hgf⟩ : ∃ g, GroupFit E i t g := by
    by_cases hex : ∃ o ∈ (E.exprs i).ops.all, groupPath o.id (E.exprs i).ops = some p ∧ p ≠ []
    · obtain ⟨o, h1, h2, h3⟩ := hex
      refine ⟨((E.exprs i).bpOf o).group, fun q hq hid => ?_⟩
      rcases hg _ hid with h4 | h4
      · have := bpOf_group q.id (E.exprs i).ops 0 0
        rw [h4] at this
        exact .inl (this.2.2.2.1 rfl)
      · exact .inr ((bpOf_same (E.exprs i).ops 0 0 h4 h2).2 rfl)
    · refine ⟨0, fun q hq hid => .inl ?_⟩
      have := bpOf_group q.id (E.exprs i).ops 0 0
      rcases hg _ hid with h4 | h4
      · rw [h4] at this
        exact this.2.2.2.1 rfl
      · rw [h4] at this
        refine this.2.2.2.1 ?_
        by_cases hz : p = []
        · exact hz
        · exact (hex ⟨q, hq, h4, hz⟩).elim
  obtain ⟨s1, e1, d1, d2, d3⟩ := complete ok t hn hu (E.exprs i).minBP st.pos e g { st with ex := {} } (leftFit_root ok hroot) hgf hs hst
    ⟨rfl, ⟨rfl, rfl, rfl⟩, by simpa using hmax, .inl rfl⟩
  obtain ⟨e2, f1, n, f2⟩ := parse_reaches ok d3 d2 (by rw [d1.pos]; exact hcl _)
  refine ⟨⟨.ok, s1, e2⟩, ⟨n + 1, ?_⟩, rfl, d1.val, d1.pos, f1⟩
  simp only [exec_succ, step, stepRun]
  rw [f2]
  simp [andThen, d1.val, ret]

/-- **C49** An expression that is parsed without error does not have more operations than the
    maximal nesting level. -/
theorem C49_bound_partial {n : Nat} {st : St} {r : Res} (ok : ExprOk E i lvl)
    (h : exec E n cx (.run (.expr i)) st = some r) (hp : st.pos ≤ E.inp.length)
    (hq : ∀ ev ∈ r.evs, ev.isError = false) :
    ∃ t, r.st.ex.val = some t ∧ size t ≤ (E.exprs i).maxNest := by
  obtain ⟨_, t, xs, a1, _, _, _, _, _, a7⟩ := expr_calm ok h hp hq
  exact ⟨t, a1, a7⟩

end

end Verif
