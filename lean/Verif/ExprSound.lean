import Verif.ExprSpec
import Verif.ChoiceProps

/-
The tree that an expression produces respects precedence and associativity (C47): for every call of
the functions of expression.hpp.
-/

namespace Verif

open Spec

/-- No error was reported. -/
def Calm (evs : List Ev) : Prop := ∀ ev ∈ evs, ev.isError = false

theorem calm_append {a b : List Ev} : Calm (a ++ b) ↔ Calm a ∧ Calm b := by
  simp [Calm, or_imp, forall_and]

theorem calm_cons {a : Ev} {b : List Ev} : Calm (a :: b) ↔ a.isError = false ∧ Calm b := by
  simp [Calm]

section

variable {E : Env} {i : Nat} {lvl : OpDef → Nat}

/-- `t` may be an operand that is followed by the position `p`, with operators of at least the power `min`. -/
structure Fit (E : Env) (i : Nat) (lvl : OpDef → Nat) (t : ETree) (min p : Nat) : Prop where
  nested : Nested (tableOf (E.exprs i) lvl) t
  left : ∀ id ∈ leftEnd t, ∃ o ∈ (E.exprs i).ops.all, o.id = id ∧ min ≤ ExprOk.power lvl o
  right : ∀ id ∈ rightEnd t, ∃ o ∈ (E.exprs i).ops.all, o.id = id ∧ o.kind ≠ .postfix ∧
    ∀ q ∈ (E.exprs i).postOps ((E.exprs i).bpOf o).rhs, ¬ q.Hits (E.exprs i).fold (E.inp.drop p)

/-- No operator of at least the power `min` follows. -/
def Closed (E : Env) (i : Nat) (min p : Nat) : Prop :=
  ∀ o ∈ (E.exprs i).postOps min, ¬ o.Hits (E.exprs i).fold (E.inp.drop p)

/-- All the operators are in no group or in the group `g`, and none is chained that must not be. -/
structure Neat (E : Env) (i : Nat) (lvl : OpDef → Nat) (t : ETree) (g p : Nat) : Prop where
  groups : ∀ id ∈ opsOf t, ∃ o ∈ (E.exprs i).ops.all, o.id = id ∧
    (((E.exprs i).bpOf o).group = 0 ∨ ((E.exprs i).bpOf o).group = g)
  unchained : Unchained (tableOf (E.exprs i) lvl) t
  single : ∀ id ∈ rightEnd t, ∀ o ∈ (E.exprs i).ops.all, o.id = id → o.kind ∈ [.infixSingle, .infixList] →
    ¬ o.Hits (E.exprs i).fold (E.inp.drop p)

theorem Neat.mono {t : ETree} {g g' p : Nat} (h : Neat E i lvl t g p) (hg : g ≠ 0 → g' = g) : Neat E i lvl t g' p := by
  refine ⟨fun id hid => ?_, h.unchained, h.single⟩
  obtain ⟨o, h1, h2, h3⟩ := h.groups id hid
  refine ⟨o, h1, h2, ?_⟩
  by_cases hz : g = 0
  · exact .inl (by rcases h3 with h3 | h3 <;> omega)
  · rw [hg hz]; exact h3

theorem fit_atom (min p b e : Nat) : Fit E i lvl (.atom b e) min p :=
  ⟨by simp [Nested], by simp [leftEnd], by simp [rightEnd]⟩

theorem neat_atom (g p b e : Nat) : Neat E i lvl (.atom b e) g p :=
  ⟨by simp [opsOf], by simp [Unchained], by simp [rightEnd]⟩

/-- What is known after a tree was parsed from `p`; `pre` was parsed before. -/
def ExParsed (E : Env) (i : Nat) (lvl : OpDef → Nat) (min p : Nat) (pre : List Sym) (c : Nat) (ok : Nat → Prop)
    (x : ExSt) (r : Res) : Prop :=
  ∃ t xs, r.st.ex.val = some t ∧ Consumes E i p xs r.st.pos ∧ yield t = pre ++ xs.map Piece.sym
    ∧ Fit E i lvl t min r.st.pos
    ∧ (r.st.ex.nest + c = x.nest + size t ∧ (x.nest ≤ (E.exprs i).maxNest → r.st.ex.nest ≤ (E.exprs i).maxNest))
    ∧ (Calm r.evs → ok x.group → Neat E i lvl t r.st.ex.group r.st.pos ∧ (x.group ≠ 0 → r.st.ex.group = x.group))

structure Sound (E : Env) (i : Nat) (lvl : OpDef → Nat) (n : Nat) : Prop where
  parse : ∀ cx min st r, exec E n cx (.exParse i min) st = some r → r.out = .ok →
    ExParsed E i lvl min st.pos [] 0 (fun _ => True) st.ex r ∧ Closed E i min r.st.pos
  lhs : ∀ cx min st r, exec E n cx (.exLhs i min) st = some r → r.out = .ok →
    ExParsed E i lvl min st.pos [] 0 (fun _ => True) st.ex r
  loop : ∀ cx min st r t0, st.ex.val = some t0 → Fit E i lvl t0 min st.pos →
    exec E n cx (.exLoop i min) st = some r → r.out = .ok →
    ExParsed E i lvl min st.pos (yield t0) (size t0) (fun g => Neat E i lvl t0 g st.pos) st.ex r ∧ Closed E i min r.st.pos
  pre : ∀ cx min st r o l k ru b, o ∈ (E.exprs i).preOps min → (l, k, ru) ∈ o.lits →
    l.Matches ((E.inp.drop b).map (E.exprs i).fold) → st.pos = b + l.str.length →
    exec E n cx (.exApply i o k ru b) st = some r → r.out = .ok →
    ExParsed E i lvl min b [] 0 (fun _ => True) st.ex r
  post : ∀ cx min st r t0 o l k ru b, o ∈ (E.exprs i).postOps min → (l, k, ru) ∈ o.lits →
    l.Matches ((E.inp.drop b).map (E.exprs i).fold) → st.pos = b + l.str.length →
    st.ex.val = some t0 → Fit E i lvl t0 min b →
    exec E n cx (.exApply i o k ru b) st = some r → r.out = .ok →
    ExParsed E i lvl min b (yield t0) (size t0) (fun g => Neat E i lvl t0 g b) st.ex r
  list : ∀ cx st r o items, o ∈ (E.exprs i).ops.all → o.kind = .infixList →
    exec E n cx (.exList i o items) st = some r → r.out = .ok →
    ∃ new last xs, r.st.ex.val = some (.list o.id (items ++ (new ++ [last]))) ∧ Consumes E i st.pos xs r.st.pos
      ∧ yieldTail o.id (new ++ [last]) = .op o.id :: xs.map Piece.sym
      ∧ (∀ t ∈ new, Nested (tableOf (E.exprs i) lvl) t ∧ (∀ q ∈ leftEnd t, RightOk (tableOf (E.exprs i) lvl) o.id q)
        ∧ ∀ p ∈ rightEnd t, LeftOk (tableOf (E.exprs i) lvl) o.id p)
      ∧ Fit E i lvl last ((E.exprs i).bpOf o).rhs r.st.pos
      ∧ Closed E i ((E.exprs i).bpOf o).rhs r.st.pos
      ∧ (r.st.ex.nest = st.ex.nest + sizeAll (new ++ [last])
        ∧ (st.ex.nest ≤ (E.exprs i).maxNest → r.st.ex.nest ≤ (E.exprs i).maxNest))
      ∧ ¬ o.Hits (E.exprs i).fold (E.inp.drop r.st.pos)
      ∧ (Calm r.evs → (∀ t ∈ new ++ [last], ∃ p, Neat E i lvl t r.st.ex.group p) ∧ (∀ t ∈ new, o.id ∉ rightEnd t)
        ∧ Neat E i lvl last r.st.ex.group r.st.pos ∧ (st.ex.group ≠ 0 → r.st.ex.group = st.ex.group))

theorem Fit.rightOk (ok : ExprOk E i lvl) {t : ETree} {o : OpDef} {p : Nat} (ho : o ∈ (E.exprs i).ops.all)
    (hk : o.kind ≠ .postfix) (h : Fit E i lvl t ((E.exprs i).bpOf o).rhs p) :
    ∀ q ∈ leftEnd t, RightOk (tableOf (E.exprs i) lvl) o.id q := by
  intro q hq
  obtain ⟨o', h1, rfl, h3⟩ := h.left q hq
  exact ok.rightOk ho h1 hk h3

theorem Fit.leftOk (ok : ExprOk E i lvl) {t : ETree} {o : OpDef} {min p : Nat} (ho : o ∈ (E.exprs i).ops.all)
    (hk : o.kind ≠ .prefix) (hh : o.Hits (E.exprs i).fold (E.inp.drop p)) (h : Fit E i lvl t min p) :
    ∀ q ∈ rightEnd t, LeftOk (tableOf (E.exprs i) lvl) o.id q := by
  intro q hq
  obtain ⟨o', h1, rfl, h3, h4⟩ := h.right q hq
  exact ok.leftOk ho h1 hk h3 fun hm => h4 o hm hh

theorem ExprOk.postLits (ok : ExprOk E i lvl) (min : Nat) : LitsOk E.eof (E.exprs i).fold ((E.exprs i).postOps min) :=
  ok.lits.sub fun _ h => (ok.post_mem.1 h).1

theorem ExprOk.preLits (ok : ExprOk E i lvl) (min : Nat) : LitsOk E.eof (E.exprs i).fold ((E.exprs i).preOps min) :=
  ok.lits.sub fun _ h => (ok.pre_mem.1 h).1

theorem ExprOk.oneLits (ok : ExprOk E i lvl) {o : OpDef} (ho : o ∈ (E.exprs i).ops.all) :
    LitsOk E.eof (E.exprs i).fold [o] := ok.lits.sub fun p h => by rw [List.mem_singleton.1 h]; exact ho

theorem opFinish_ok {n : Nat} {cx : Cx} {k : Kind} {ru : Rule} {b : Nat} {st : St} {r : Res} (hru : NoExpr ru)
    (h : opFinish (exec E n) cx k ru b st = some r) (ho : r.out = .ok) :
    ∃ r1 r2, exec E n cx .ws st = some r1 ∧ r1.out = .ok ∧ exec E n cx (.run ru) r1.st = some r2 ∧ r2.out = .ok
      ∧ r.st.pos = r2.st.pos ∧ r.st.ex = st.ex := by
  obtain ⟨r0, h0, rfl⟩ := emit_some.1 h
  obtain ⟨r1, r2, h1, h2, h3, h4, h5⟩ := onOk'_ok h0 ho
  refine ⟨r1, r2, h1, h2, h3, h4, by rw [h5], ?_⟩
  show r0.st.ex = _
  rw [h5, exec_keeps hru n cx _ r2 h3, exec_ws_keeps n cx _ r1 h1]

theorem exec_zero {cx : Cx} {c : Cmd} {st : St} {r : Res} (h : exec E 0 cx c st = some r) : False := by
  simp only [exec] at h
  cases h

theorem sound_zero : Sound E i lvl 0 where
  parse _ _ _ _ h := (exec_zero h).elim
  lhs _ _ _ _ h := (exec_zero h).elim
  loop _ _ _ _ _ _ _ h := (exec_zero h).elim
  pre _ _ _ _ _ _ _ _ _ _ _ _ _ h := (exec_zero h).elim
  post _ _ _ _ _ _ _ _ _ _ _ _ _ _ _ _ h := (exec_zero h).elim
  list _ _ _ _ _ _ _ h := (exec_zero h).elim

theorem sound_parse (ok : ExprOk E i lvl) {n : Nat} (S : Sound E i lvl n) (cx : Cx) (min : Nat) (st : St) (r : Res)
    (h : exec E (n + 1) cx (.exParse i min) st = some r) (ho : r.out = .ok) :
    ExParsed E i lvl min st.pos [] 0 (fun _ => True) st.ex r ∧ Closed E i min r.st.pos := by
  simp only [exec_succ, step] at h
  split at h
  · rename_i he
    refine ⟨S.lhs cx min st r h ho, ?_⟩
    intro o hm
    rw [List.isEmpty_iff.1 he] at hm
    cases hm
  · obtain ⟨r0, h0, rfl⟩ := emit_some.1 h
    obtain ⟨r1, r2, h1, h2, rfl⟩ := andThen_some.1 h0
    simp only [Option.some.injEq] at h2
    subst h2
    simp only at ho h1 ⊢
    rcases onOk'_some h1 with ⟨st1, e1, r3, g1, g2, rfl⟩ | ⟨_, g2⟩
    · obtain ⟨t, xs, a1, a2, a3, a4, ⟨n1, n2⟩, a5⟩ := S.lhs cx min st _ g1 rfl
      simp only at a1 a2 a3 a4 a5 n1 n2 ho
      obtain ⟨⟨t', xs', b1, b2, b3, b4, ⟨n3, n4⟩, b5⟩, b6⟩ := S.loop cx min st1 r3 t a1 a4 g2 ho
      refine ⟨⟨t', xs ++ xs', b1, a2.append b2, ?_, b4, ⟨by simp only; omega, fun h => n4 (n2 h)⟩, ?_⟩, b6⟩
      · rw [b3, a3]; simp
      · intro hq _
        simp only [calm_cons, List.cons_append, calm_append, List.nil_append] at hq
        obtain ⟨c1, c2⟩ := a5 hq.2.1.1 trivial
        obtain ⟨c3, c4⟩ := b5 hq.2.1.2 c1
        refine ⟨c3, fun hg => ?_⟩
        rw [c4 (by rw [c2 hg]; exact hg), c2 hg]
    · rw [ho] at g2; cases g2

theorem sound_lhs (ok : ExprOk E i lvl) {n : Nat} (S : Sound E i lvl n) (cx : Cx) (min : Nat) (st : St) (r : Res)
    (h : exec E (n + 1) cx (.exLhs i min) st = some r) (ho : r.out = .ok) :
    ExParsed E i lvl min st.pos [] 0 (fun _ => True) st.ex r := by
  simp only [exec_succ, step] at h
  split at h
  · cases h
  · rcases onOk'_some h with ⟨st1, e1, r3, g1, g2, rfl⟩ | ⟨_, g2⟩
    · obtain ⟨r4, g3, g4⟩ := framed_some.1 g1
      simp only [Res.mk.injEq] at g4
      obtain ⟨g4, rfl, rfl⟩ := g4
      simp only [ret, Option.some.injEq] at g2
      subst g2
      refine ⟨_, [.atom st.pos r4.st.pos], rfl, ?_, rfl, fit_atom _ _ _ _,
        ⟨by simp [size], fun h => h⟩, fun _ _ => ⟨neat_atom _ _ _ _, fun _ => rfl⟩⟩
      exact .atom g3 g4.symm (.nil _)
    · rw [ho] at g2; cases g2
  · rename_i o k ru m hp
    obtain ⟨h1, l, h2, h3, h4⟩ := parseOperator_some (ok.preLits min) hp
    obtain ⟨r0, h0, rfl⟩ := emit_some.1 h
    obtain ⟨r1, r2, g1, g2, rfl⟩ := andThen_some.1 h0
    simp only [Option.some.injEq] at g2
    subst g2
    simp only at ho
    obtain ⟨r3, g3, rfl⟩ := framed_some.1 g1
    obtain ⟨t, xs, a1, a2, a3, a4, n1, a5⟩ := S.pre cx min { st with pos := st.pos + m } r3 o l k ru st.pos h1 h2 h3
      (by simp [h4]) g3 ho
    refine ⟨t, xs, a1, a2, a3, a4, n1, fun hq _ => a5 ?_ trivial⟩
    simp only [calm_cons, List.cons_append, calm_append, List.nil_append] at hq
    exact hq.2.1

theorem sound_loop (ok : ExprOk E i lvl) {n : Nat} (S : Sound E i lvl n) (cx : Cx) (min : Nat) (st : St) (r : Res)
    (t0 : ETree) (hv : st.ex.val = some t0) (hf : Fit E i lvl t0 min st.pos)
    (h : exec E (n + 1) cx (.exLoop i min) st = some r) (ho : r.out = .ok) :
    ExParsed E i lvl min st.pos (yield t0) (size t0) (fun g => Neat E i lvl t0 g st.pos) st.ex r
      ∧ Closed E i min r.st.pos := by
  simp only [exec_succ, step] at h
  split at h
  · cases h
  · rename_i hp
    simp only [ret, Option.some.injEq] at h
    subst h
    exact ⟨⟨t0, [], hv, .nil _, by simp, hf, ⟨rfl, fun h => h⟩, fun _ hn => ⟨hn, fun _ => rfl⟩⟩, parseOperator_none (ok.postLits min) hp⟩
  · rename_i o k ru m hp
    obtain ⟨h1, l, h2, h3, h4⟩ := parseOperator_some (ok.postLits min) hp
    rcases onOk'_some h with ⟨st1, e1, r3, g1, g2, rfl⟩ | ⟨_, g2⟩
    · obtain ⟨r4, g3, g4⟩ := framed_some.1 g1
      simp only [Res.mk.injEq] at g4
      obtain ⟨g4, rfl, rfl⟩ := g4
      obtain ⟨t, xs, a1, a2, a3, a4, ⟨n1, n2⟩, a5⟩ := S.post cx min { st with pos := st.pos + m } r4 t0 o l k ru st.pos h1 h2 h3
        (by simp [h4]) hv hf g3 g4.symm
      obtain ⟨⟨t', xs', b1, b2, b3, b4, ⟨n3, n4⟩, b5⟩, b6⟩ := S.loop cx min (r4.st.frame st.vars.length) r3 t a1 a4 g2 ho
      have n5 : (r4.st.frame st.vars.length).ex.nest = r4.st.ex.nest := rfl
      rw [n5] at n3 n4
      simp only at n1 n2
      refine ⟨⟨t', xs ++ xs', b1, a2.append b2, ?_, b4, ⟨by simp only; omega, fun h => n4 (n2 h)⟩, ?_⟩, b6⟩
      · rw [b3, a3]; simp
      · intro hq hn
        simp only [calm_append] at hq
        obtain ⟨c1, c2⟩ := a5 hq.1 hn
        obtain ⟨c3, c4⟩ := b5 hq.2 c1
        refine ⟨c3, fun hg => ?_⟩
        have e1 : (r4.st.frame st.vars.length).ex.group = r4.st.ex.group := rfl
        have e2 : r4.st.ex.group = st.ex.group := c2 hg
        rw [c4 (by rw [e1, e2]; exact hg), e1, e2]
    · rw [ho] at g2; cases g2

theorem apply_ok (ok : ExprOk E i lvl) {n : Nat} {cx : Cx} {st : St} {r : Res} {o : OpDef} {l : Lit} {k : Kind} {ru : Rule}
    {b : Nat} (hm : o ∈ (E.exprs i).ops.all) (hl : (l, k, ru) ∈ o.lits)
    (hs : l.Matches ((E.inp.drop b).map (E.exprs i).fold)) (hb : st.pos = b + l.str.length)
    (h : exec E (n + 1) cx (.exApply i o k ru b) st = some r) (ho : r.out = .ok) :
    ∃ st' r', opCont E (exec E n) cx i o st' = some r' ∧ r'.out = .ok ∧ r.st = r'.st ∧ st'.ex.val = st.ex.val
      ∧ Consumes E i b [.op o.id b st'.pos] st'.pos
      ∧ (st'.ex.nest = st.ex.nest + 1 ∧ st'.ex.nest ≤ (E.exprs i).maxNest)
      ∧ (Calm r.evs → Calm r'.evs
        ∧ (((E.exprs i).bpOf o).group = 0 ∨ ((E.exprs i).bpOf o).group = st'.ex.group)
        ∧ (st.ex.group ≠ 0 → st'.ex.group = st.ex.group)) := by
  simp only [exec_succ, step] at h
  split at h
  · simp only [Option.some.injEq] at h
    subst h
    cases ho
  · rename_i hmax
    obtain ⟨r0, h0, rfl⟩ := emit_some.1 h
    rcases onOk'_some h0 with ⟨st1, e1, r3, g1, g2, rfl⟩ | ⟨_, g2⟩
    · obtain ⟨r1, r2, a1, a2, a3, a4, a5, a6⟩ := opFinish_ok (ok.rules o hm _ hl) g1 rfl
      refine ⟨st1, r3, g2, ho, rfl, ?_, ?_, ?_, ?_⟩
      · simp only at a6; rw [a6]
      · simp only at a5
        rw [a5]
        refine .op hm hl hs ?_ a1 a2 a3 a4 (.nil _)
        exact hb
      · simp only at a6
        rw [a6]
        exact ⟨rfl, by simp only; omega⟩
      · intro hq
        simp only [calm_append] at hq
        obtain ⟨q1, q2, q3⟩ := hq
        simp only at a6
        refine ⟨q3, ?_⟩
        rw [a6]
        simp only
        by_cases z1 : ((E.exprs i).bpOf o).group = 0
        · simp [z1]
        · by_cases z2 : st.ex.group = 0
          · simp [z1, z2]
          · by_cases z3 : st.ex.group = ((E.exprs i).bpOf o).group
            · rw [if_neg (by simp [z2])]
              exact ⟨.inr z3.symm, fun _ => rfl⟩
            · rw [if_pos ⟨z1, z2, z3⟩] at q1
              simp [Calm, Ev.isError] at q1
    · simp only at ho
      rw [ho] at g2; cases g2

theorem sound_pre (ok : ExprOk E i lvl) {n : Nat} (S : Sound E i lvl n) (cx : Cx) (min : Nat) (st : St) (r : Res)
    (o : OpDef) (l : Lit) (k : Kind) (ru : Rule) (b : Nat) (hm : o ∈ (E.exprs i).preOps min) (hl : (l, k, ru) ∈ o.lits)
    (hs : l.Matches ((E.inp.drop b).map (E.exprs i).fold)) (hb : st.pos = b + l.str.length)
    (h : exec E (n + 1) cx (.exApply i o k ru b) st = some r) (ho : r.out = .ok) :
    ExParsed E i lvl min b [] 0 (fun _ => True) st.ex r := by
  obtain ⟨m1, m2, m3⟩ := ok.pre_mem.1 hm
  obtain ⟨st', r', h1, h2, h3, h4, h5, ⟨n1, n2⟩, h6⟩ := apply_ok ok m1 hl hs hb h ho
  unfold opCont at h1
  rw [m2] at h1
  simp only at h1
  rcases onOk'_some h1 with ⟨st1, e1, r3, g1, g2, rfl⟩ | ⟨_, g2⟩
  · obtain ⟨⟨t, xs, a1, a2, a3, a4, ⟨n3, n4⟩, a5⟩, a6⟩ := S.parse cx _ st' _ g1 rfl
    simp only at a1 a2 a3 a4 a5 a6 n3 n4
    rw [a1] at g2
    simp only [Option.bind_some, Option.some.injEq] at g2
    subst g2
    unfold ExParsed
    rw [h3]
    have hnp : o.kind ≠ .postfix := by rw [m2]; decide
    refine ⟨.pre o.id t, .op o.id b st'.pos :: xs, rfl, h5.append a2, ?_, ⟨?_, ?_, ?_⟩,
      ⟨by simp only [size]; omega, fun _ => n4 n2⟩, ?_⟩
    · simp [yield, a3, Piece.sym]
    · exact ⟨⟨_, _, ok.table m1, by simp [m2]⟩, a4.nested, a4.rightOk ok m1 hnp⟩
    · intro id hid
      simp only [leftEnd, List.mem_singleton] at hid
      exact ⟨o, m1, hid.symm, m3⟩
    · intro id hid
      rcases List.mem_cons.1 hid with rfl | hid
      · exact ⟨o, m1, rfl, hnp, a6⟩
      · exact a4.right id hid
    · intro hq _
      obtain ⟨q1, q2, q3⟩ := h6 hq
      simp only [calm_append] at q1
      obtain ⟨c1, c2⟩ := a5 q1.1 trivial
      refine ⟨⟨?_, ?_, ?_⟩, fun hg => ?_⟩
      · intro id hid
        rcases List.mem_cons.1 hid with rfl | hid
        · refine ⟨o, m1, rfl, ?_⟩
          by_cases hz : st'.ex.group = 0
          · rw [hz] at q2; exact .inl (by rcases q2 with q2 | q2 <;> exact q2)
          · simp only; rw [c2 hz]; exact q2
        · exact c1.groups id hid
      · simp only [Unchained]; exact c1.unchained
      · intro id hid o' ho' hid' hk
        rcases List.mem_cons.1 hid with rfl | hid
        · have := ok.ids o' ho' o m1 hid'
          subst this
          rw [m2] at hk; simp at hk
        · exact c1.single id hid o' ho' hid' hk
      · simp only
        rw [c2 (by rw [q3 hg]; exact hg), q3 hg]
  · rw [h2] at g2; cases g2

/-- The parts of `ExParsed` for an operator with the left operand `t0`. -/
theorem sound_infix (ok : ExprOk E i lvl) {n : Nat} (S : Sound E i lvl n) {cx : Cx} {min : Nat} {st : St} {r : Res}
    {t0 : ETree} {o : OpDef} {single : Bool} {b : Nat} (hm : o ∈ (E.exprs i).postOps min)
    (hk : o.kind ∈ [.infixLeft, .infixRight, .infixSingle]) (hsg : o.kind = .infixSingle → single = true)
    (hh : o.Hits (E.exprs i).fold (E.inp.drop b))
    (hv : st.ex.val = some t0) (hf : Fit E i lvl t0 min b)
    (h : opInfix E (exec E n) cx i o single st = some r) (ho : r.out = .ok) :
    ∃ t xs, r.st.ex.val = some (.inf o.id t0 t) ∧ Consumes E i st.pos xs r.st.pos
      ∧ yield t = xs.map Piece.sym ∧ Fit E i lvl (.inf o.id t0 t) min r.st.pos
      ∧ (r.st.ex.nest = st.ex.nest + size t
        ∧ (st.ex.nest ≤ (E.exprs i).maxNest → r.st.ex.nest ≤ (E.exprs i).maxNest))
      ∧ (Calm r.evs → (((E.exprs i).bpOf o).group = 0 ∨ ((E.exprs i).bpOf o).group = st.ex.group) →
          Neat E i lvl t0 st.ex.group b → Neat E i lvl (.inf o.id t0 t) r.st.ex.group r.st.pos
            ∧ (st.ex.group ≠ 0 → r.st.ex.group = st.ex.group)) := by
  obtain ⟨m1, m2, m3⟩ := ok.post_mem.1 hm
  have hnp : o.kind ≠ .postfix := by intro he; rw [he] at hk; simp at hk
  unfold opInfix at h
  simp only at h
  obtain ⟨r1, r2, h1, h2, rfl⟩ := andThen_some.1 h
  obtain ⟨out, st1, e1⟩ := r1
  simp only at h2 ho
  cases out with
  | brk => cases h2
  | fail => simp only [ret, Option.some.injEq] at h2; subst h2; cases ho
  | ok =>
    obtain ⟨⟨t, xs, a1, a2, a3, a4, n1, a5⟩, a6⟩ := S.parse cx _ _ _ h1 rfl
    simp only [Nat.add_zero] at a1 a2 a3 a4 a5 a6 n1
    simp only [hv, a1, Option.bind_some] at h2
    have hfit : Fit E i lvl (.inf o.id t0 t) min st1.pos := by
      refine ⟨⟨⟨_, _, ok.table m1, hk⟩, hf.nested, a4.nested, hf.leftOk ok m1 m2 hh, a4.rightOk ok m1 hnp⟩, ?_, ?_⟩
      · intro id hid
        rcases List.mem_cons.1 hid with rfl | hid
        · exact ⟨o, m1, rfl, m3⟩
        · exact hf.left id hid
      · intro id hid
        rcases List.mem_cons.1 hid with rfl | hid
        · exact ⟨o, m1, rfl, hnp, a6⟩
        · exact a4.right id hid
    have hneat : Calm e1 → (single = true → ¬ o.Hits (E.exprs i).fold (E.inp.drop st1.pos)) →
        (((E.exprs i).bpOf o).group = 0 ∨ ((E.exprs i).bpOf o).group = st.ex.group) →
        Neat E i lvl t0 st.ex.group b → Neat E i lvl (.inf o.id t0 t) st1.ex.group st1.pos
            ∧ (st.ex.group ≠ 0 → st1.ex.group = st.ex.group) := by
      intro q1 q2 q3 q4
      obtain ⟨c1, c2⟩ := a5 q1 trivial
      have c3 := q4.mono c2
      refine ⟨⟨?_, ⟨c3.unchained, c1.unchained, ?_⟩, ?_⟩, c2⟩
      · intro id hid
        rcases List.mem_cons.1 hid with rfl | hid
        · refine ⟨o, m1, rfl, ?_⟩
          by_cases hz : st.ex.group = 0
          · rw [hz] at q3; exact .inl (by rcases q3 with q3 | q3 <;> exact q3)
          · rw [c2 hz]; exact q3
        · rcases List.mem_append.1 hid with hid | hid
          · exact c3.groups id hid
          · exact c1.groups id hid
      · rintro ⟨k', l', e', hk'⟩ hmem
        rw [ok.table m1] at e'
        simp only [Option.some.injEq, Prod.mk.injEq] at e'
        obtain ⟨rfl, rfl⟩ := e'
        exact q4.single _ hmem o m1 rfl (List.mem_cons.2 (.inl (by simpa using hk'))) hh
      · intro id hid o' ho' hid' hks
        rcases List.mem_cons.1 hid with rfl | hid
        · have := ok.ids o' ho' o m1 hid'
          subst this
          refine q2 (hsg ?_)
          rcases List.mem_cons.1 hks with hks | hks
          · exact hks
          · rw [List.mem_singleton.1 hks] at hk; simp at hk
        · exact c1.single id hid o' ho' hid' hks
    cases single with
    | false =>
      simp only [Bool.false_eq_true, if_false, Option.some.injEq] at h2
      subst h2
      refine ⟨t, xs, rfl, a2, a3, hfit, n1, fun hq q3 q4 => ?_⟩
      simp only [calm_append] at hq
      exact hneat hq.1 nofun q3 q4
    | true =>
      simp only [if_true] at h2
      split at h2
      · cases h2
      · rename_i hp
        simp only [Option.some.injEq] at h2
        subst h2
        refine ⟨t, xs, rfl, a2, a3, hfit, n1, fun hq q3 q4 => ?_⟩
        simp only [calm_append] at hq
        exact hneat hq.1 (fun _ => parseOperator_none (ok.oneLits m1) hp o (by simp)) q3 q4
      · simp only [Option.some.injEq] at h2
        subst h2
        refine ⟨t, xs, rfl, a2, a3, hfit, n1, fun hq => absurd (calm_append.1 hq).2 ?_⟩
        simp [Calm, Ev.isError]

theorem sound_post (ok : ExprOk E i lvl) {n : Nat} (S : Sound E i lvl n) (cx : Cx) (min : Nat) (st : St) (r : Res)
    (t0 : ETree) (o : OpDef) (l : Lit) (k : Kind) (ru : Rule) (b : Nat) (hm : o ∈ (E.exprs i).postOps min)
    (hl : (l, k, ru) ∈ o.lits)
    (hs : l.Matches ((E.inp.drop b).map (E.exprs i).fold)) (hb : st.pos = b + l.str.length)
    (hv : st.ex.val = some t0) (hf : Fit E i lvl t0 min b)
    (h : exec E (n + 1) cx (.exApply i o k ru b) st = some r) (ho : r.out = .ok) :
    ExParsed E i lvl min b (yield t0) (size t0) (fun g => Neat E i lvl t0 g b) st.ex r := by
  obtain ⟨m1, m2, m3⟩ := ok.post_mem.1 hm
  obtain ⟨st', r', h1, h2, h3, h4, h5, ⟨n1, n2⟩, h6⟩ := apply_ok ok m1 hl hs hb h ho
  have hh : o.Hits (E.exprs i).fold (E.inp.drop b) := ⟨_, hl, hs⟩
  rw [hv] at h4
  unfold ExParsed
  rw [h3]
  have infix_ : ∀ single, o.kind ∈ [OpKind.infixLeft, .infixRight, .infixSingle] →
      (o.kind = .infixSingle → single = true) → opInfix E (exec E n) cx i o single st' = some r' →
      ∃ t xs, r'.st.ex.val = some t ∧ Consumes E i b xs r'.st.pos ∧ yield t = yield t0 ++ xs.map Piece.sym
        ∧ Fit E i lvl t min r'.st.pos
        ∧ (r'.st.ex.nest + size t0 = st.ex.nest + size t
          ∧ (st.ex.nest ≤ (E.exprs i).maxNest → r'.st.ex.nest ≤ (E.exprs i).maxNest))
        ∧ (Calm r.evs → Neat E i lvl t0 st.ex.group b → Neat E i lvl t r'.st.ex.group r'.st.pos
          ∧ (st.ex.group ≠ 0 → r'.st.ex.group = st.ex.group)) := by
    intro single hk hsg hi
    obtain ⟨t, xs, a1, a2, a3, a4, ⟨n3, n4⟩, a5⟩ := sound_infix ok S hm hk hsg hh h4 hf hi h2
    refine ⟨_, _, a1, h5.append a2, ?_, a4, ⟨by simp only [size]; omega, fun _ => n4 n2⟩, fun hq hn => ?_⟩
    · simp [yield, a3, Piece.sym]
    · obtain ⟨q1, q2, q3⟩ := h6 hq
      obtain ⟨c1, c2⟩ := a5 q1 q2 (hn.mono q3)
      exact ⟨c1, fun hg => by rw [c2 (by rw [q3 hg]; exact hg), q3 hg]⟩
  unfold opCont at h1
  cases hk : o.kind with
  | «prefix» => exact (m2 hk).elim
  | infixLeft => rw [hk] at h1; exact infix_ false (by simp [hk]) (by simp [hk]) h1
  | infixRight => rw [hk] at h1; exact infix_ false (by simp [hk]) (by simp [hk]) h1
  | infixSingle => rw [hk] at h1; exact infix_ true (by simp [hk]) (by simp) h1
  | «postfix» =>
    rw [hk] at h1
    simp only [h4, Option.bind_some, Option.some.injEq] at h1
    subst h1
    refine ⟨.post o.id t0, _, rfl, h5, rfl, ⟨⟨⟨_, _, ok.table m1, by simp [hk]⟩, hf.nested, hf.leftOk ok m1 m2 hh⟩, ?_, ?_⟩,
      ⟨by simp only [size]; omega, fun _ => n2⟩, ?_⟩
    · intro id hid
      rcases List.mem_cons.1 hid with rfl | hid
      · exact ⟨o, m1, rfl, m3⟩
      · exact hf.left id hid
    · intro id hid; simp [rightEnd] at hid
    · intro hq hn
      obtain ⟨q1, q2, q3⟩ := h6 hq
      have c3 := hn.mono q3
      refine ⟨⟨?_, c3.unchained, ?_⟩, q3⟩
      · intro id hid
        rcases List.mem_cons.1 hid with rfl | hid
        · exact ⟨o, m1, rfl, q2⟩
        · exact c3.groups id hid
      · intro id hid; simp [rightEnd] at hid
  | infixList =>
    rw [hk] at h1
    simp only [h4, Option.bind_some] at h1
    have hnp : o.kind ≠ .postfix := by rw [hk]; decide
    obtain ⟨new, last, xs, a1, a2, a3, a4, a5, a6, ⟨n3, n4⟩, a8, a7⟩ := S.list cx _ r' o [t0] m1 hk h1 h2
    simp only at a2 a7 n3 n4
    refine ⟨_, _, a1, h5.append a2, ?_, ⟨?_, ?_, ?_⟩, ⟨?_, fun _ => n4 n2⟩, ?_⟩
    · simp [yield, a3, Piece.sym]
    · refine ⟨⟨_, _, ok.table m1, by simp [hk]⟩, by simp, ?_, ?_, ?_⟩
      · rw [nestedAll_iff]
        intro t ht
        simp only [List.cons_append, List.nil_append, List.mem_cons, List.mem_append, List.not_mem_nil,
          or_false] at ht
        rcases ht with rfl | ht | rfl
        · exact hf.nested
        · exact (a4 t ht).1
        · exact a5.nested
      · intro t ht
        have : ([t0] ++ (new ++ [last])).dropLast = t0 :: new := by
          rw [← List.append_assoc, List.dropLast_concat]; rfl
        rw [this] at ht
        rcases List.mem_cons.1 ht with rfl | ht
        · exact hf.leftOk ok m1 m2 hh
        · exact (a4 t ht).2.2
      · intro t ht
        simp only [List.cons_append, List.nil_append, List.tail_cons, List.mem_append, List.mem_cons,
          List.not_mem_nil, or_false] at ht
        rcases ht with ht | rfl
        · exact (a4 t ht).2.1
        · exact a5.rightOk ok m1 hnp
    · intro id hid
      rcases List.mem_cons.1 hid with rfl | hid
      · exact ⟨o, m1, rfl, m3⟩
      · exact hf.left id hid
    · intro id hid
      rcases List.mem_cons.1 hid with rfl | hid
      · exact ⟨o, m1, rfl, hnp, a6⟩
      · rw [← List.append_assoc, rightEndLast_snoc] at hid
        exact a5.right id hid
    · simp only [size, sizeAll, sizeAll_append] at n3 ⊢
      omega
    · intro hq hn
      obtain ⟨q1, q2, q3⟩ := h6 hq
      obtain ⟨c1, c6, c2, c4⟩ := a7 q1
      have c3 := hn.mono q3
      have c5 := c3.mono c4
      refine ⟨⟨?_, ?_, ?_⟩, fun hg => by rw [c4 (by rw [q3 hg]; exact hg), q3 hg]⟩
      · intro id hid
        rcases List.mem_cons.1 hid with rfl | hid
        · refine ⟨o, m1, rfl, ?_⟩
          by_cases hz : st'.ex.group = 0
          · rw [hz] at q2; exact .inl (by rcases q2 with q2 | q2 <;> exact q2)
          · rw [c4 hz]; exact q2
        · obtain ⟨t, ht, hid⟩ := opsOfAll_mem.1 hid
          rcases List.mem_append.1 ht with ht | ht
          · rw [List.mem_singleton.1 ht] at hid
            exact c5.groups id hid
          · obtain ⟨p, hp⟩ := c1 t ht
            exact hp.groups id hid
      · refine ⟨unchainedAll_iff.2 fun t ht => ?_, fun t ht => ?_⟩
        · rcases List.mem_append.1 ht with ht | ht
          · rw [List.mem_singleton.1 ht]; exact c5.unchained
          · obtain ⟨p, hp⟩ := c1 t ht
            exact hp.unchained
        · have : ([t0] ++ (new ++ [last])).dropLast = t0 :: new := by
            rw [← List.append_assoc, List.dropLast_concat]; rfl
          rw [this] at ht
          rcases List.mem_cons.1 ht with rfl | ht
          · exact fun hmem => hn.single _ hmem o m1 rfl (by simp [hk]) hh
          · exact c6 t ht
      · intro id hid o' ho' hid' hks
        rcases List.mem_cons.1 hid with rfl | hid
        · have := ok.ids o' ho' o m1 hid'
          subst this
          exact a8
        · rw [← List.append_assoc, rightEndLast_snoc] at hid
          exact c2.single id hid o' ho' hid' hks

theorem sound_list (ok : ExprOk E i lvl) {n : Nat} (S : Sound E i lvl n) (cx : Cx) (st : St) (r : Res) (o : OpDef)
    (items : List ETree) (hm : o ∈ (E.exprs i).ops.all) (hk : o.kind = .infixList)
    (h : exec E (n + 1) cx (.exList i o items) st = some r) (ho : r.out = .ok) :
    ∃ new last xs, r.st.ex.val = some (.list o.id (items ++ (new ++ [last]))) ∧ Consumes E i st.pos xs r.st.pos
      ∧ yieldTail o.id (new ++ [last]) = .op o.id :: xs.map Piece.sym
      ∧ (∀ t ∈ new, Nested (tableOf (E.exprs i) lvl) t ∧ (∀ q ∈ leftEnd t, RightOk (tableOf (E.exprs i) lvl) o.id q)
        ∧ ∀ p ∈ rightEnd t, LeftOk (tableOf (E.exprs i) lvl) o.id p)
      ∧ Fit E i lvl last ((E.exprs i).bpOf o).rhs r.st.pos
      ∧ Closed E i ((E.exprs i).bpOf o).rhs r.st.pos
      ∧ (r.st.ex.nest = st.ex.nest + sizeAll (new ++ [last])
        ∧ (st.ex.nest ≤ (E.exprs i).maxNest → r.st.ex.nest ≤ (E.exprs i).maxNest))
      ∧ ¬ o.Hits (E.exprs i).fold (E.inp.drop r.st.pos)
      ∧ (Calm r.evs → (∀ t ∈ new ++ [last], ∃ p, Neat E i lvl t r.st.ex.group p) ∧ (∀ t ∈ new, o.id ∉ rightEnd t)
        ∧ Neat E i lvl last r.st.ex.group r.st.pos ∧ (st.ex.group ≠ 0 → r.st.ex.group = st.ex.group)) := by
  simp only [exec_succ, step] at h
  obtain ⟨r1, r2, h1, h2, rfl⟩ := andThen_some.1 h
  obtain ⟨out, st1, e1⟩ := r1
  simp only at h2 ho ⊢
  have hnp : o.kind ≠ .postfix := by rw [hk]; decide
  have hnq : o.kind ≠ .prefix := by rw [hk]; decide
  cases out with
  | brk => cases h2
  | fail => simp only [ret, Option.some.injEq] at h2; subst h2; cases ho
  | ok =>
    obtain ⟨⟨t, xs, a1, a2, a3, a4, ⟨n1, n2⟩, a5⟩, a6⟩ := S.parse cx _ _ _ h1 rfl
    simp only at a1 a2 a3 a4 a5 a6 n1 n2
    simp only [a1, Option.bind_some] at h2
    split at h2
    · cases h2
    · rename_i hp
      simp only [Option.some.injEq] at h2
      subst h2
      refine ⟨[], t, xs, rfl, a2, by simp [yieldTail, a3], nofun, a4, a6, ⟨by simp [sizeAll]; omega, n2⟩,
        parseOperator_none (ok.oneLits hm) hp o (by simp), fun hq => ?_⟩
      simp only [calm_append] at hq
      obtain ⟨c1, c2⟩ := a5 hq.1 trivial
      exact ⟨fun t' ht => by
        simp only [List.nil_append, List.mem_singleton] at ht
        subst ht
        exact ⟨_, c1⟩, nofun, c1, c2⟩
    · rename_i o' k ru m hp
      obtain ⟨g1, l, g2, g3, g4⟩ := parseOperator_some (ok.oneLits hm) hp
      obtain rfl : o' = o := by simpa using g1
      obtain ⟨r3, r4, f1, f2, rfl⟩ := andThen_some.1 h2
      obtain ⟨r5, f3, rfl⟩ := framed_some.1 f1
      simp only at f2 ho ⊢
      cases hf : r5.out with
      | brk => rw [hf] at f2; cases f2
      | fail =>
        rw [hf] at f2
        simp only [ret, Option.some.injEq] at f2
        subst f2
        cases ho
      | ok =>
        rw [hf] at f2
        simp only at f2
        obtain ⟨w1, w2, b1, b2, b3, b4, b5, b6⟩ := opFinish_ok (ok.rules o' hm _ g2) f3 hf
        obtain ⟨new, last, ys, c1, c2, c3, c4, c5, c6, ⟨n3, n4⟩, c8, c7⟩ := S.list cx _ r4 o' _ hm hk f2 ho
        simp only [St.frame] at c2 c7 n3 n4
        rw [b5] at c2
        rw [b6] at n3 n4
        simp only at n3 n4
        have hop : Consumes E i st1.pos [.op o'.id st1.pos w2.st.pos] w2.st.pos := by
          refine .op hm g2 g3 ?_ b1 b2 b3 b4 (.nil _)
          simp [g4]
        refine ⟨t :: new, last, xs ++ (.op o'.id st1.pos w2.st.pos :: ys), ?_, (a2.append (hop.append c2)), ?_, ?_, c5, c6,
          ⟨?_, fun h => n4 (n2 h)⟩, c8, ?_⟩
        · rw [c1]; simp
        · simp [yieldTail, a3, c3, Piece.sym]
        · intro t' ht'
          rcases List.mem_cons.1 ht' with rfl | ht'
          · exact ⟨a4.nested, a4.rightOk ok hm hnp, a4.leftOk ok hm hnq ⟨_, g2, g3⟩⟩
          · exact c4 t' ht'
        · simp only [List.cons_append, sizeAll]
          omega
        · intro hq
          simp only [calm_append] at hq
          obtain ⟨d1, d2⟩ := a5 hq.1 trivial
          obtain ⟨d3, d6, d4, d5⟩ := c7 hq.2.2
          rw [b6] at d5
          simp only at d5
          have hg' : st.ex.group ≠ 0 → r4.st.ex.group = st.ex.group :=
            fun hg => by rw [d5 (by rw [d2 hg]; exact hg), d2 hg]
          refine ⟨fun t' ht' => ?_, fun t' ht' => ?_, d4, hg'⟩
          · rcases List.mem_cons.1 ht' with rfl | ht'
            · exact ⟨_, d1.mono d5⟩
            · exact d3 t' ht'
          · rcases List.mem_cons.1 ht' with rfl | ht'
            · exact fun hmem => d1.single _ hmem o' hm rfl (by simp [hk]) ⟨_, g2, g3⟩
            · exact d6 t' ht'

theorem exec_sound (ok : ExprOk E i lvl) (n : Nat) : Sound E i lvl n := by
  induction n with
  | zero => exact sound_zero
  | succ n S =>
    exact ⟨sound_parse ok S, sound_lhs ok S, sound_loop ok S, sound_pre ok S, sound_post ok S, sound_list ok S⟩

end

end Verif
