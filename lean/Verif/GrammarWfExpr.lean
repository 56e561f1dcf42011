import Verif.GrammarWfList

/-
Expressions terminate, expression.hpp l.254-552.
-/

namespace Verif.Tot

open Verif

variable {E : Env}

theorem parseOperator_le {eof : Option Nat} {fold : Nat → Nat} {ops : List OpDef} {s : List Nat} {x : OpDef × Kind × Rule}
    {n : Nat} (h : parseOperator eof fold ops s = some (some (x, n))) : n ≤ s.length := by
  unfold parseOperator at h
  simp only at h
  split at h
  · cases h
  · cases h
  · split at h
    · cases h
    · split at h
      · cases h; assumption
      · cases h

section

variable {Q Q1 : Out → St → Prop}

theorem TT.weaken {x : RecFn → Option Res} (hx : TT E Q1 x) (h : ∀ o st, Q1 o st → Q o st) : TT E Q x := by
  obtain ⟨r, h1, h2⟩ := hx
  exact ⟨r, h1, h _ _ h2⟩

theorem TT.framed {x : RecFn → Option Res} {k : Nat} (hx : TT E Q1 x) (h : ∀ o st, Q1 o st → Q o (st.frame k)) :
    TT E Q fun rec => framed k (x rec) := by
  obtain ⟨r, ⟨N, h1⟩, h2⟩ := hx
  exact ⟨⟨r.out, r.st.frame k, r.evs⟩, ⟨N, fun n hn => framed_some.2 ⟨r, h1 n hn, rfl⟩⟩, h _ _ h2⟩

theorem TT.andThen2 {x : RecFn → Option Res} {f : RecFn → Out → St → Option Res} (hx : TT E Q1 x)
    (hf : ∀ o st, Q1 o st → TT E Q fun rec => f rec o st) : TT E Q fun rec => Verif.andThen (x rec) (f rec) := by
  obtain ⟨r, h1, h2⟩ := hx
  obtain ⟨r', ⟨M, h3⟩, h4⟩ := hf _ _ h2
  obtain ⟨N, h1⟩ := h1
  exact ⟨⟨r'.out, r'.st, r.evs ++ r'.evs⟩, ⟨max N M, fun n hn =>
    andThen_some.2 ⟨r, r', h1 n (by omega), h3 n (by omega), rfl⟩⟩, h4⟩

theorem TT.onOk2 {x : RecFn → Option Res} {f : RecFn → St → Option Res} (hx : TT E Q1 x)
    (hb : ∀ st, ¬ Q1 .brk st) (hfl : ∀ st, Q1 .fail st → Q .fail st)
    (hf : ∀ st, Q1 .ok st → TT E Q fun rec => f rec st) : TT E Q fun rec => onOk' (x rec) (f rec) := by
  refine TT.andThen2 hx fun o st h => ?_
  cases o with
  | ok => exact hf st h
  | fail => exact TT.pure (hfl st h)
  | brk => exact absurd h (hb st)

end

/-- The result of a part of an expression: where it succeeded there is a value, and the reader moved forward. -/
def ExQ (E : Env) (st0 : St) (o : Out) (st : St) : Prop := o ≠ .brk ∧ (o = .ok → st.ex.val.isSome = true ∧ Fwd E st0 st)

/-- The result of a rule inside of an expression: it leaves the expression alone. -/
def KeepQ (E : Env) (st0 : St) (o : Out) (st : St) : Prop := o ≠ .brk ∧ (o = .ok → st.ex = st0.ex ∧ Fwd E st0 st)

theorem ExQ.not_brk {st0 st : St} : ¬ ExQ E st0 .brk st := fun h => h.1 rfl
theorem KeepQ.not_brk {st0 st : St} : ¬ KeepQ E st0 .brk st := fun h => h.1 rfl
theorem ExQ.fail {st0 st : St} : ExQ E st0 .fail st := ⟨by simp, by simp⟩
theorem KeepQ.fail {st0 st : St} : KeepQ E st0 .fail st := ⟨by simp, by simp⟩
theorem ExQ.mk {st0 st : St} (h1 : st.ex.val.isSome = true) (h2 : Fwd E st0 st) : ExQ E st0 .ok st :=
  ⟨by simp, fun _ => ⟨h1, h2⟩⟩

variable {cx : Cx} {m : Nat} {i : Nat} {V : List VarKey}

/-- All the commands of an expression. -/
structure Ex5 (E : Env) (cx : Cx) (i : Nat) (st : St) : Prop where
  lhs : ∀ min, TotQ E (ExQ E st) cx (.exLhs i min) st
  loop : ∀ min, st.ex.val.isSome = true → TotQ E (ExQ E st) cx (.exLoop i min) st
  parse : ∀ min, TotQ E (ExQ E st) cx (.exParse i min) st
  list : ∀ o ∈ (E.exprs i).ops.all, ∀ items, TotQ E (ExQ E st) cx (.exList i o items) st
  apply : ∀ o ∈ (E.exprs i).ops.all, ∀ l k r b, (l, k, r) ∈ o.lits → (o.kind = .prefix ∨ st.ex.val.isSome = true) →
    TotQ E (ExQ E st) cx (.exApply i o k r b) st

theorem ex_induct
    (h : ∀ k ≤ m, (∀ st, At E V st → mu E cx st < k → Ex5 E cx i st) →
      ∀ st, At E V st → mu E cx st ≤ k → Ex5 E cx i st)
    (st : St) (hl : At E V st) (hm : mu E cx st ≤ m) : Ex5 E cx i st := by
  have : ∀ k, k ≤ m → ∀ st, At E V st → mu E cx st ≤ k → Ex5 E cx i st := by
    intro k
    induction k using Nat.strongRecOn with
    | _ k ih =>
      intro hk st hl hm
      exact h k hk (fun st' hl' hlt => ih _ hlt (by omega) st' hl' (Nat.le_refl _)) st hl hm
  exact this m (Nat.le_refl _) st hl hm

theorem opFinish_tot {k : Kind} {r : Rule} {b : Nat} {st : St} (hws : All E V false cx m .ws) (hr : All E V false cx m (.run r))
    (hn : Spec.NoExpr r) (hl : At E V st) (hm : mu E cx st ≤ m) :
    TT E (KeepQ E st) fun rec => opFinish rec cx k r b st := by
  refine TT.emit ?_
  refine TT.onOk2 (Q1 := KeepQ E st) ?_ (fun _ => KeepQ.not_brk) (fun _ h => KeepQ.fail) fun st1 h1 => ?_
  · obtain ⟨x, hx, hb⟩ := hws st hl hm
    refine TotQ.rec ⟨x, hx, hb rfl, fun _ => ⟨?_, exec_fwd rfl hl.len hx⟩⟩
    obtain ⟨n, hx⟩ := hx
    exact exec_ws_keeps _ _ _ _ hx
  · obtain ⟨_, h1⟩ := h1
    obtain ⟨he, f⟩ := h1 rfl
    obtain ⟨x, hx, hb⟩ := hr st1 (f.at hl) (Nat.le_trans f.mu hm)
    refine TotQ.rec ⟨x, hx, hb rfl, fun _ => ⟨?_, f.trans (exec_fwd rfl f.len hx)⟩⟩
    obtain ⟨n, hx⟩ := hx
    rw [exec_keeps hn _ _ _ _ hx, he]

theorem ops_tot {ops : List OpDef} (ok : OpsOk E (E.exprs i)) (hs : ∀ o ∈ ops, o ∈ (E.exprs i).ops.all) {p : Nat}
    (hl : p ≤ E.inp.length) :
    parseOperator E.eof (E.exprs i).fold ops (E.inp.drop p) = some none ∨
    ∃ o k r n l, parseOperator E.eof (E.exprs i).fold ops (E.inp.drop p) = some (some ((o, k, r), n)) ∧ 0 < n ∧
      p + n ≤ E.inp.length ∧ o ∈ ops ∧ (l, k, r) ∈ o.lits := by
  obtain ⟨x, h1, _, h3⟩ := parseOperator_spec (ok.lits.sub hs) (E.inp.drop p)
  cases x with
  | none => exact .inl h1
  | some x =>
    obtain ⟨⟨o, k, r⟩, n⟩ := x
    obtain ⟨h4, ⟨l, h5, h6, h7⟩, _⟩ := h3 o k r n rfl
    refine .inr ⟨o, k, r, n, l, h1, ?_, ?_, h4, h5⟩
    · have := ok.nonempty o (hs o h4) _ h5
      rw [← h7]
      exact List.length_pos_iff.2 this
    · have := parseOperator_le h1
      rw [List.length_drop] at this
      omega

theorem expr_tot (ok : OpsOk E (E.exprs i)) (hws : All E V false cx m .ws) (ha : All E V false cx m (.run (E.exprs i).atom))
    (ho : ∀ o ∈ (E.exprs i).ops.all, ∀ lt ∈ o.lits, All E V false cx m (.run lt.2.2))
    (st : St) (hl : At E V st) (hm : mu E cx st ≤ m) : Ex5 E cx i st := by
  refine ex_induct (fun k hk ih => ?_) st hl hm
  have bump : ∀ st : St, ∀ n, 0 < n → st.pos + n ≤ E.inp.length → mu E cx st ≤ k →
      mu E cx { st with pos := st.pos + n } < k := by
    intro st n h1 h2 h3
    simp only [mu] at *
    omega
  have bumpF : ∀ st : St, ∀ n, st.pos + n ≤ E.inp.length → Fwd E st { st with pos := st.pos + n } :=
    fun st n h => ⟨Nat.le_add_right _ _, h, Nat.le_refl _, .refl _⟩
  have L : ∀ st, At E V st → mu E cx st ≤ k → ∀ min, TotQ E (ExQ E st) cx (.exLhs i min) st := by
    intro st hl hm min
    refine TT.exec ?_
    simp only [step]
    rcases ops_tot (ops := (E.exprs i).preOps min) ok (fun o h => (opList_sub _ _ h).1) hl.len with h | ⟨o, kd, r, n, l, h, h1, h2, h3, h4⟩
    · simp only [h]
      refine TT.andThen (T.framed (ha st hl (by omega)).rec) fun x hx hxb => ?_
      obtain ⟨f, _⟩ := ends_fwd rfl hl.len (Nat.le_refl _) hx
      cases hxo : x.out with
      | brk => exact absurd hxo (hxb rfl)
      | fail => exact TT.pure ExQ.fail
      | ok => exact TT.pure (r := ⟨_, _, _⟩) (ExQ.mk rfl ⟨f.pos, f.len, f.depth, f.vars⟩)
    · simp only [h]
      refine TT.emit ?_
      refine TT.andThen2 (Q1 := ExQ E st) ?_ fun o st' hq => TT.pure (r := ⟨o, st', [.opFinish st'.pos]⟩) hq
      have := opList_sub _ _ h3
      refine TT.framed ((ih { st with pos := st.pos + n } (hl.pos h2) (bump st n h1 h2 hm)).apply o this.1 l kd r st.pos h4
        (.inl (this.2.2 rfl))).rec ?_
      intro o st' hq
      refine ⟨hq.1, fun hok => ⟨(hq.2 hok).1, ?_⟩⟩
      exact (bumpF st n h2).trans (hq.2 hok).2 |>.frame (Nat.le_refl _)
  have Lp : ∀ st, At E V st → mu E cx st ≤ k → st.ex.val.isSome = true → ∀ min,
      TotQ E (ExQ E st) cx (.exLoop i min) st := by
    intro st hl hm hv min
    refine TT.exec ?_
    simp only [step]
    rcases ops_tot (ops := (E.exprs i).postOps min) ok (fun o h => (opList_sub _ _ h).1) hl.len with h | ⟨o, kd, r, n, l, h, h1, h2, h3, h4⟩
    · simp only [h]
      exact TT.pure (r := ⟨.ok, st, []⟩) (ExQ.mk hv (.refl hl.len))
    · simp only [h]
      have := opList_sub _ _ h3
      refine TT.onOk2 (Q1 := ExQ E { st with pos := st.pos + n }) ?_ (fun _ => ExQ.not_brk) (fun _ _ => ExQ.fail) fun st1 hq => ?_
      · refine TT.framed ((ih { st with pos := st.pos + n } (hl.pos h2) (bump st n h1 h2 hm)).apply o this.1 l kd r st.pos h4
          (.inr hv)).rec ?_
        intro o st' hq
        exact ⟨hq.1, fun hok => ⟨(hq.2 hok).1, (hq.2 hok).2.frame (Nat.le_refl _)⟩⟩
      · obtain ⟨hv1, f1⟩ := hq.2 rfl
        have hlt := Nat.lt_of_le_of_lt (f1.mu (cx := cx)) (bump st n h1 h2 hm)
        refine TT.weaken ((ih st1 (f1.at (hl.pos h2)) hlt).loop min hv1).rec fun o st' hq' => ⟨hq'.1, fun hok => ⟨(hq'.2 hok).1, ?_⟩⟩
        exact ((bumpF st n h2).trans f1).trans (hq'.2 hok).2
  have P : ∀ st, At E V st → mu E cx st ≤ k → ∀ min, TotQ E (ExQ E st) cx (.exParse i min) st := by
    intro st hl hm min
    refine TT.exec ?_
    simp only [step]
    split
    · exact (L st hl hm min).rec
    · refine TT.emit ?_
      refine TT.andThen2 (Q1 := ExQ E st) ?_ fun o st' hq => TT.pure (r := ⟨o, st', [.opFinish st'.pos]⟩) hq
      refine TT.onOk2 (L st hl hm min).rec (fun _ => ExQ.not_brk) (fun _ _ => ExQ.fail) fun st1 hq => ?_
      obtain ⟨hv1, f1⟩ := hq.2 rfl
      refine TT.weaken (Lp st1 (f1.at hl) (Nat.le_trans f1.mu hm) hv1 min).rec fun o st' hq' => ?_
      exact ⟨hq'.1, fun hok => ⟨(hq'.2 hok).1, f1.trans (hq'.2 hok).2⟩⟩
  have Li : ∀ st, At E V st → mu E cx st ≤ k → ∀ o ∈ (E.exprs i).ops.all, ∀ items,
      TotQ E (ExQ E st) cx (.exList i o items) st := by
    intro st hl hm o hoo items
    refine TT.exec ?_
    simp only [step]
    refine TT.andThen2 (P st hl hm _).rec fun out st1 hq => ?_
    cases out with
    | brk => exact absurd hq ExQ.not_brk
    | fail => exact TT.pure (r := ⟨_, _, _⟩) ExQ.fail
    | ok =>
      obtain ⟨hv1, f1⟩ := hq.2 rfl
      obtain ⟨v, hv⟩ := Option.isSome_iff_exists.1 hv1
      simp only [hv, Option.bind_some]
      rcases ops_tot (ops := [o]) ok (fun p h => by rw [List.mem_singleton.1 h]; exact hoo) f1.len with
        h | ⟨o', kd, r, n, l, h, h1, h2, h3, h4⟩
      · simp only [h]
        exact TT.pure (r := ⟨_, _, _⟩) (ExQ.mk rfl ⟨f1.pos, f1.len, f1.depth, f1.vars⟩)
      · simp only [h]
        rw [List.mem_singleton.1 h3] at h4
        have hlt := bump st1 n h1 h2 (Nat.le_trans f1.mu hm)
        have hlt' : mu E cx { st1 with pos := st1.pos + n, ex := { st1.ex with val := none } } < k := hlt
        have fin := opFinish_tot (k := kd) (r := r) (b := st1.pos)
          (st := { st1 with pos := st1.pos + n, ex := { st1.ex with val := none } }) hws (ho o hoo _ h4) (ok.noExpr o hoo _ h4)
          ((f1.at hl).pos h2 |>.ex _)
          (by omega)
        refine TT.andThen2 (Q1 := KeepQ E { st1 with pos := st1.pos + n, ex := { st1.ex with val := none } })
          (TT.framed fin fun _ _ hq => ⟨hq.1, fun hok => ⟨(hq.2 hok).1, (hq.2 hok).2.frame (Nat.le_refl _)⟩⟩) fun out st2 hq2 => ?_
        cases out with
        | brk => exact absurd hq2 KeepQ.not_brk
        | fail => exact TT.pure (r := ⟨_, _, _⟩) ExQ.fail
        | ok =>
          obtain ⟨_, f2⟩ := hq2.2 rfl
          have fT : Fwd E st st2 :=
            ⟨Nat.le_trans f1.pos (Nat.le_trans (Nat.le_add_right _ n) f2.pos), f2.len, Nat.le_trans f1.depth f2.depth, f1.vars.trans f2.vars⟩
          have := (ih st2 (fT.at hl) (Nat.lt_of_le_of_lt f2.mu hlt')).list o hoo (items ++ [v])
          refine TT.weaken this.rec fun out st3 hq3 => ⟨hq3.1, fun hok => ⟨(hq3.2 hok).1, fT.trans (hq3.2 hok).2⟩⟩
  have A : ∀ st, At E V st → mu E cx st ≤ k → ∀ o ∈ (E.exprs i).ops.all, ∀ l kd r b, (l, kd, r) ∈ o.lits →
      (o.kind = .prefix ∨ st.ex.val.isSome = true) → TotQ E (ExQ E st) cx (.exApply i o kd r b) st := by
    intro st hl hm o hoo l kd r b hlt hv
    refine TT.exec ?_
    simp only [step]
    split
    · exact TT.pure (r := ⟨_, _, _⟩) ExQ.fail
    · refine TT.emit ?_
      generalize hg : (if ((E.exprs i).bpOf o).group ≠ 0 ∧ st.ex.group = 0 then ((E.exprs i).bpOf o).group else st.ex.group) = g
      have fin := opFinish_tot (k := kd) (r := r) (b := b)
        (st := { st with ex := { st.ex with nest := st.ex.nest + 1, group := g } }) hws (ho o hoo _ hlt)
        (ok.noExpr o hoo _ hlt) (hl.ex _) (by simp only [mu] at *; omega)
      refine TT.onOk2 fin (fun _ => KeepQ.not_brk) (fun _ _ => ExQ.fail) fun st1 hq => ?_
      obtain ⟨he, f1⟩ := hq.2 rfl
      have f1 : Fwd E st st1 := ⟨f1.pos, f1.len, f1.depth, f1.vars⟩
      have hm1 : mu E cx st1 ≤ k := Nat.le_trans f1.mu hm
      have hv1 : o.kind = .prefix ∨ st1.ex.val.isSome = true := by rw [he]; exact hv
      -- an infix operator
      have inf : st1.ex.val.isSome = true → ∀ single, TT E (ExQ E st) fun rec => opInfix E rec cx i o single st1 := by
        intro hv2 single
        obtain ⟨v, hv2⟩ := Option.isSome_iff_exists.1 hv2
        simp only [opInfix]
        refine TT.andThen2 (P { st1 with ex := { st1.ex with val := none } } ((f1.at hl).ex _) hm1 _).rec fun out st2 hq2 => ?_
        cases out with
        | brk => exact absurd hq2 ExQ.not_brk
        | fail => exact TT.pure (r := ⟨_, _, _⟩) ExQ.fail
        | ok =>
          obtain ⟨hv3, f2⟩ := hq2.2 rfl
          obtain ⟨v', hv3⟩ := Option.isSome_iff_exists.1 hv3
          have fT : Fwd E st st2 := ⟨Nat.le_trans f1.pos f2.pos, f2.len, Nat.le_trans f1.depth f2.depth, f1.vars.trans f2.vars⟩
          simp only [hv2, hv3, Option.bind_some]
          split
          · rcases ops_tot (ops := [o]) ok (fun p h => by rw [List.mem_singleton.1 h]; exact hoo) f2.len with
              h | ⟨o', kd, r, n, l, h, h1, h2, h3, h4⟩
            · simp only [h]
              exact TT.pure (r := ⟨_, _, _⟩) (ExQ.mk rfl ⟨fT.pos, fT.len, fT.depth, fT.vars⟩)
            · simp only [h]
              exact TT.pure (r := ⟨_, _, _⟩) (ExQ.mk rfl ⟨fT.pos, fT.len, fT.depth, fT.vars⟩)
          · exact TT.pure (r := ⟨_, _, _⟩) (ExQ.mk rfl ⟨fT.pos, fT.len, fT.depth, fT.vars⟩)
      unfold opCont
      cases hkd : o.kind with
      | infixList =>
        have hv2 := hv1.resolve_left (by rw [hkd]; simp)
        obtain ⟨v, hv2⟩ := Option.isSome_iff_exists.1 hv2
        simp only [hv2, Option.bind_some]
        refine TT.weaken (Li { st1 with ex := { st1.ex with val := none } } ((f1.at hl).ex _) hm1 o hoo _).rec fun out st2 hq2 =>
          ⟨hq2.1, fun hok => ⟨(hq2.2 hok).1, ?_⟩⟩
        have f2 := (hq2.2 hok).2
        exact ⟨Nat.le_trans f1.pos f2.pos, f2.len, Nat.le_trans f1.depth f2.depth, f1.vars.trans f2.vars⟩
      | «prefix» =>
        simp only
        refine TT.onOk2 (P st1 (f1.at hl) hm1 _).rec (fun _ => ExQ.not_brk) (fun _ _ => ExQ.fail) fun st2 hq2 => ?_
        obtain ⟨hv3, f2⟩ := hq2.2 rfl
        obtain ⟨v', hv3⟩ := Option.isSome_iff_exists.1 hv3
        simp only [hv3, Option.bind_some]
        have fT := f1.trans f2
        exact TT.pure (r := ⟨_, _, _⟩) (ExQ.mk rfl ⟨fT.pos, fT.len, fT.depth, fT.vars⟩)
      | «postfix» =>
        have hv2 := hv1.resolve_left (by rw [hkd]; simp)
        obtain ⟨v, hv2⟩ := Option.isSome_iff_exists.1 hv2
        simp only [hv2, Option.bind_some]
        exact TT.pure (r := ⟨_, _, _⟩) (ExQ.mk rfl ⟨f1.pos, f1.len, f1.depth, f1.vars⟩)
      | infixSingle => exact inf (hv1.resolve_left (by rw [hkd]; simp)) _
      | infixLeft => exact inf (hv1.resolve_left (by rw [hkd]; simp)) _
      | infixRight => exact inf (hv1.resolve_left (by rw [hkd]; simp)) _
  exact fun st hl hm => ⟨L st hl hm, fun min hv => Lp st hl hm hv min, P st hl hm, Li st hl hm, A st hl hm⟩

end Verif.Tot
