import Verif.ParseTreeQuiet
import Verif.ExprKeep

/-
Grammars without expression rules report no chains of operations (expression.hpp l.485-525 is the only
place that does).
-/

namespace Verif

namespace Spec

/-- No beginning or end of a chain of operations. -/
def NoChain (evs : List Ev) : Prop := ∀ ev ∈ evs, match ev with
  | .opStart _ | .opFinish _ => False
  | _ => True

/-- A rule that is not built from others reports none. -/
def PlainPrim (p : PRule) : Prop := ∀ s i, NoChain (p.parse s i).2.2 ∧ NoChain (p.finish s i).2.2

/-- The rule is not an expression, and the rules it consists of, with those of its productions,
    satisfy `P`. -/
def NoExprAt (E : Env) (P : Rule → Prop) (r : Rule) : Prop :=
  NoExprIn P r ∧ match r with
    | .prim p | .idCap _ p _ => PlainPrim p
    | .prod n => P (E.prods n).rule
    | .recu n _ _ => P (.prod n)
    | _ => True

/-- None of the rules that are used by production `n` is an expression. -/
def NoExprs (E : Env) (n : Nat) : Prop :=
  ∃ P : Rule → Prop, (∀ r, P r → NoExprAt E P r) ∧ P (E.prods n).rule

end Spec

section

open Spec

variable {E : Env} {P : Rule → Prop}

/-- The events of the result. -/
def Chainless (x : Option Res) : Prop := ∀ r, x = some r → NoChain r.evs

theorem nc_nil : NoChain [] := by simp [NoChain]

theorem nc_append {a b : List Ev} (h1 : NoChain a) (h2 : NoChain b) : NoChain (a ++ b) := by
  intro ev hev
  rcases List.mem_append.1 hev with h | h
  · exact h1 ev h
  · exact h2 ev h

theorem nc_filter (evs : List Ev) : NoChain (evs.filter Ev.isError) := by
  intro ev hev
  have := (List.mem_filter.1 hev).2
  cases ev <;> simp_all [Ev.isError]

theorem nc_trailing (k : SepKind) (a b : Nat) : NoChain (trailingError k a b) := by
  unfold trailingError
  split <;> simp [NoChain]

theorem nc_skipped (b : Nat) (st : St) (ok : Bool) : NoChain (skipped b st ok) := by
  cases ok <;> simp [NoChain, skipped]

theorem c_none : Chainless none := nofun
theorem c_some {r : Res} (h : NoChain r.evs) : Chainless (some r) := fun r' hr => by cases hr; exact h
theorem c_ret {o : Out} {st : St} : Chainless (ret o st) := c_some nc_nil

theorem c_andThen {x : Option Res} {f : Out → St → Option Res} (h : Chainless x)
    (hf : ∀ o st, Chainless (f o st)) : Chainless (andThen x f) := by
  intro r hr
  obtain ⟨r1, r2, h1, h2, rfl⟩ := andThen_some.1 hr
  exact nc_append (h r1 h1) (hf _ _ r2 h2)

theorem c_onOk {x : Option Res} {f : St → Option Res} (h : Chainless x) (hf : ∀ st, Chainless (f st)) :
    Chainless (onOk x f) := by
  refine c_andThen h fun o st => ?_
  cases o
  · exact hf st
  · exact c_some nc_nil
  · exact c_some nc_nil

theorem c_onOk' {x : Option Res} {f : St → Option Res} (h : Chainless x) (hf : ∀ st, Chainless (f st)) :
    Chainless (onOk' x f) := by
  refine c_andThen h fun o st => ?_
  cases o
  · exact hf st
  · exact c_some nc_nil
  · exact c_none

theorem c_emit {x : Option Res} {evs : List Ev} (he : NoChain evs) (h : Chainless x) : Chainless (emit evs x) := by
  intro r hr
  obtain ⟨r1, h1, rfl⟩ := emit_some.1 hr
  exact nc_append he (h r1 h1)

theorem c_framed {x : Option Res} {n : Nat} (h : Chainless x) : Chainless (framed n x) := by
  intro r hr
  obtain ⟨r1, h1, rfl⟩ := framed_some.1 hr
  exact h r1 h1

theorem c_bind {α : Type} {x : Option α} {f : α → Option Res} (h : ∀ a, Chainless (f a)) : Chainless (x.bind f) := by
  cases x with
  | none => exact c_none
  | some a => exact h a

theorem c_deeper {cx : Cx} {tag : Nat} {st : St} {f : St → Option Res} (hf : ∀ st, Chainless (f st)) :
    Chainless (deeper cx tag st f) := by
  unfold deeper
  split
  · exact c_none
  · split
    · exact c_some (by simp [NoChain])
    · exact c_onOk' (hf _) fun st' => c_ret

variable {rec : Rec} (H : ∀ cx c st, KCmd P c → Chainless (rec cx c st))

theorem c_ifTry {cx : Cx} {c : Cmd} {st : St} {yes no : Option Res} (h1 : Chainless yes) (h2 : Chainless no) :
    Chainless (ifTry rec cx c st yes no) := by
  unfold ifTry
  split
  · exact c_none
  · exact h1
  · exact h2

include H

theorem c_tokenDone {cx : Cx} {k : Kind} {e : Nat} {st : St} : Chainless (tokenDone rec cx k e st) :=
  c_emit (by simp [NoChain]) (H _ _ _ trivial)

theorem c_tokenParse {cx : Cx} {k : Kind} {tag e : Nat} {b : Bool} {st : St} :
    Chainless (tokenParse rec cx k tag b e st) := by
  unfold tokenParse
  split
  · exact c_tokenDone H
  · exact c_some (by simp [NoChain])

theorem c_primDone {cx : Cx} {ws : Bool} {x : Bool × Nat × List Ev} {st : St} (h : NoChain x.2.2) :
    Chainless (primDone rec cx ws x st) := by
  unfold primDone
  refine c_emit h ?_
  split
  · split
    · exact H _ _ _ trivial
    · exact c_ret
  · exact c_ret

theorem c_production {cx : Cx} {n : Nat} {f : Cx → St → Option Res} {st : St} (h : ∀ cx st, Chainless (f cx st)) :
    Chainless (production E rec cx n f st) := by
  unfold production
  refine c_emit (by simp [NoChain]) (c_andThen (c_framed (h _ _)) fun o st' => ?_)
  cases o
  · refine c_emit (by simp [NoChain]) ?_
    split
    · exact H _ _ _ trivial
    · exact c_ret
  · exact c_some (by simp [NoChain])
  · exact c_none

set_option hygiene false in
/-- One step through the combinators. -/
local macro "c_one" H:term : tactic =>
  `(tactic| first
    | exact c_none
    | exact c_ret
    | (refine c_some ?_; simp [NoChain]; done)
    | (refine c_some ?_; dsimp only; split <;> (simp [NoChain]; done))
    | exact c_some (nc_trailing _ _ _)
    | exact c_some (nc_skipped _ _ _)
    | exact $H _ _ _ trivial
    | exact $H _ _ _ hp
    | exact $H _ _ _ (And.left hp)
    | exact $H _ _ _ (And.right hp)
    | exact $H _ _ _ (by simp only [KCmd]; grind)
    | exact c_tokenDone $H
    | exact c_tokenParse $H
    | exact c_primDone $H (by first | exact (hq _ _).1 | exact (hq _ _).2)
    | refine c_production $H fun _ _ => ?_
    | refine c_emit (nc_skipped _ _ _) ?_
    | refine c_emit (by (simp [NoChain]; done)) ?_
    | refine c_framed ?_
    | refine c_onOk ?_ fun _ => ?_
    | refine c_onOk' ?_ fun _ => ?_
    | (refine c_andThen ?_ fun o _ => ?_)
    | refine c_ifTry ?_ ?_
    | refine c_bind fun _ => ?_
    | refine c_deeper fun _ => ?_
    | split)

variable (hP : ∀ r, P r → NoExprAt E P r)
include hP

theorem c_stepRun (cx : Cx) (st : St) (r : Rule) (hr : P r) : Chainless (stepRun E rec cx st r) := by
  obtain ⟨hp, hq⟩ := hP r hr
  cases r
  case err tag r => cases r <;> simp only [stepRun] <;> repeat' (c_one H)
  case expr i => exact hp.elim
  all_goals simp only [NoExprIn] at hp
  all_goals simp only [] at hq
  all_goals simp only [stepRun]
  all_goals repeat' (c_one H)

omit hP in
theorem c_stepTry (cx : Cx) (st : St) (r : Rule) : Chainless (stepTry E rec cx st r) := by
  cases r
  all_goals have hp := trivial
  all_goals simp only [stepTry]
  all_goals repeat' (c_one H)

omit hP in
theorem c_stepCancel (cx : Cx) (st : St) (r : Rule) : Chainless (stepCancel E rec cx st r) := by
  cases r
  all_goals have hp := trivial
  all_goals simp only [stepCancel]
  all_goals repeat' (c_one H)

theorem c_stepFinish (cx : Cx) (st : St) (r : Rule) (hr : P r) : Chainless (stepFinish E rec cx st r) := by
  obtain ⟨hp, hq⟩ := hP r hr
  cases r
  all_goals simp only [NoExprIn] at hp
  all_goals simp only [] at hq
  all_goals simp only [stepFinish]
  all_goals repeat' (c_one H)

theorem c_step (cx : Cx) (c : Cmd) (st : St) (hp : KCmd P c) : Chainless (step E rec cx c st) := by
  cases c
  case run r => exact c_stepRun H hP cx st r hp
  case btry r => exact c_stepTry H cx st r
  case bcancel r => exact c_stepCancel H cx st r
  case bfinish r => exact c_stepFinish H hP cx st r hp
  case chcTry rs => cases rs <;> simp only [step] <;> repeat' (c_one H)
  case chcRun rs => cases rs <;> simp only [KCmd] at hp <;> simp only [step] <;> repeat' (c_one H)
  case chcCancel rs => cases rs <;> simp only [step] <;> repeat' (c_one H)
  case chcFinish rs => cases rs <;> simp only [KCmd] at hp <;> simp only [step] <;> repeat' (c_one H)
  case skip r =>
    simp only [step]
    split
    · repeat' (c_one H)
    · split
      · exact c_none
      · refine c_some (nc_append (nc_filter _) ?_)
        simp [NoChain]
  case lstLoop item sep =>
    cases sep with
    | none => simp only [KCmd] at hp; simp only [step]; repeat' (c_one H)
    | some s => obtain ⟨sp, k⟩ := s; simp only [KCmd] at hp; have hsp : P sp := hp.2 _ rfl; simp only [step]; repeat' (c_one H)
  case ltSep term item sep limit =>
    cases sep with
    | none => simp only [KCmd] at hp; simp only [step]; repeat' (c_one H)
    | some s => obtain ⟨sp, k⟩ := s; simp only [KCmd] at hp; have hsp : P sp := hp.2.2 _ rfl; simp only [step]; repeat' (c_one H)
  case ltTrail b term item sep limit =>
    simp only [KCmd] at hp
    simp only [step]
    refine c_ifTry (c_some ?_) ?_
    · cases sep with
      | none => exact nc_nil
      | some s => exact nc_trailing _ _ _
    · repeat' (c_one H)
  case ltRec b term item sep limit =>
    cases sep with
    | none => simp only [KCmd] at hp; simp only [step]; repeat' (c_one H)
    | some s => obtain ⟨sp, k⟩ := s; simp only [KCmd] at hp; have hsp : P sp := hp.2.2 _ rfl; simp only [step]; repeat' (c_one H)
  case recov r =>
    cases r <;> simp only [KCmd, NoExprIn.RecovIn] at hp <;> simp only [step]
    case find l =>
      refine c_some (nc_append (a := [_]) ?_ (nc_skipped _ _ _))
      simp [NoChain]
    all_goals repeat' (c_one H)
  case repTail k item sep =>
    cases k with
    | zero => simp only [KCmd] at hp; simp only [step]; repeat' (c_one H)
    | succ k =>
      cases sep with
      | none => simp only [KCmd] at hp; simp only [step]; repeat' (c_one H)
      | some s => simp only [KCmd] at hp; simp only [step]; repeat' (c_one H)
  case exParse => exact hp.elim
  case exLoop => exact hp.elim
  case exLhs => exact hp.elim
  case exApply => exact hp.elim
  case exList => exact hp.elim
  all_goals simp only [KCmd] at hp
  all_goals simp only [step]
  all_goals repeat' (c_one H)

end

theorem exec_chainless {E : Env} {P : Rule → Prop} (hP : ∀ r, P r → Spec.NoExprAt E P r) :
    ∀ n cx c st, KCmd P c → Chainless (exec E n cx c st) := by
  intro n
  induction n with
  | zero => intro cx c st _; exact c_none
  | succ n ih => intro cx c st hc; exact c_step ih hP cx c st hc

theorem runGrammar_chainless {E : Env} {fuel n d : Nat} {r : Res} (hE : Spec.NoExprs E n)
    (h : runGrammar E fuel n d = some r) : Spec.NoChain r.evs := by
  obtain ⟨P, hP, hn⟩ := hE
  have key := exec_chainless hP
  refine c_emit ?_ (c_andThen (c_onOk' (key _ _ .ws _ trivial) fun st => key _ _ (.run _) _ hn) fun o st => ?_) r h
  · simp [Spec.NoChain]
  · cases o
    · exact c_some (by simp [Spec.NoChain])
    · exact c_some (by simp [Spec.NoChain])
    · exact c_none

namespace PT

/-- **C33** for grammars without expressions: a parse that succeeds without an error gives a lossless tree.
    Only part: the entry production is not transparent, and no error is reported. -/
theorem C33_lossless_no_expr_partial {z : Sizes} (hz : z.Ok) {E : Env} {N : Names} {fuel n d : Nat} {r : Res}
    (hE : Verif.Spec.NoExprs E n) (hn : (E.prods n).transparent = false) (h : runGrammar E fuel n d = some r)
    (ho : r.out = .ok) (hQ : Spec.Quiet r.evs) :
    ∃ T t, treeOf z E N n r.evs = some (some T)
      ∧ (∀ m, t.size < m → readTree z T.heap m T.root = some t)
      ∧ Adjacent 0 t.leaves r.st.pos
      ∧ remainingInput T = some (r.st.pos, E.inp.length)
      ∧ textOf E.inp t.leaves ++ E.inp.drop r.st.pos = E.inp :=
  C33_lossless_quiet_partial hz hn h ho hQ fun _ hp _ => runGrammar_chainless hE h _ hp

/-! ### Without transparent productions, errors make no difference -/

/-- Neither a transparent production nor a container. -/
def simpleOp : Op → Prop
  | .startProd i => i.transparent = false
  | .startCont | .cancelCont => False
  | _ => True

def NoTrans (st : Spec.St) : Prop := ∀ f ∈ st.frames, f.trans = []

theorem simple_step {st st' : Spec.St} {op : Op} (ho : simpleOp op) (hs : NoTrans st)
    (h : Spec.step st op = some st') : NoTrans st' := by
  obtain ⟨frames, lost⟩ := st
  unfold NoTrans at hs ⊢
  cases frames with
  | nil => cases op <;> simp [Spec.step] at h
  | cons f r =>
    have h1 : f.trans = [] := hs f (by simp)
    have h2 : ∀ g ∈ r, g.trans = [] := fun g hg => hs g (by simp [hg])
    cases op <;> simp only [Spec.step, simpleOp] at h ho <;> grind

theorem simple_fine {ops : List Op} : ∀ {st : Spec.St}, (∀ op ∈ ops, simpleOp op) → NoTrans st →
    Spec.FineRun st ops := by
  induction ops with
  | nil => intro st _ _; trivial
  | cons op ops ih =>
    intro st ho hs
    refine ⟨?_, fun s' h => ih (fun o h => ho o (by simp [h])) (simple_step (ho op (by simp)) hs h)⟩
    have h0 := ho op (by simp)
    cases op <;> simp only [simpleOp] at h0
    case cancelProd =>
      intro f r k ts h1 h2
      rw [hs f (by rw [h1]; simp)] at h2
      cases h2
    all_goals trivial

theorem simple_ops {E : Env} {N : Names} (hT : ∀ n, (E.prods n).transparent = false) : ∀ {evs : List Ev} {st : Spec.St}
    {d : Nat} {bs : List Nat} {ops : List Op} {x : Spec.St × Nat × List Nat}, Verif.Spec.NoChain evs →
    specOps E N st d bs evs = some (ops, x) → ∀ op ∈ ops, simpleOp op := by
  intro evs
  induction evs with
  | nil =>
    intro st d bs ops x _ h
    simp only [specOps, Option.some.injEq, Prod.mk.injEq] at h
    rw [← h.1]; simp
  | cons ev evs ih =>
    intro st d bs ops x hn h
    simp only [specOps, Option.bind_eq_some_iff, Option.map_eq_some_iff] at h
    obtain ⟨⟨o1, d1, bs1⟩, h1, st1, h2, ⟨o2, r2⟩, h3, h4⟩ := h
    simp only [Prod.mk.injEq] at h4
    obtain ⟨rfl, rfl⟩ := h4
    intro op hop
    rcases List.mem_append.1 hop with hop | hop
    · have hev := hn ev (by simp)
      cases ev with
      | opStart p => exact hev.elim
      | opFinish p => exact hev.elim
      | prodStart n p =>
        simp only [evOps, Option.some.injEq, Prod.mk.injEq] at h1
        rw [← h1.1] at hop
        split at hop
        · simp only [List.mem_cons, List.not_mem_nil, or_false] at hop
          rw [hop]; exact hT n
        · cases hop
      | prodFinish n p =>
        cases bs with
        | nil => simp [evOps] at h1
        | cons b bs =>
          simp only [evOps, Option.some.injEq, Prod.mk.injEq] at h1
          rw [← h1.1] at hop
          split at hop
          · split at hop <;> simp only [List.nil_append, List.cons_append, List.mem_cons, List.not_mem_nil, or_false] at hop <;>
              (try rcases hop with rfl | rfl) <;> (try subst hop) <;> trivial
          · cases hop
      | prodCancel n p =>
        cases bs with
        | nil => simp [evOps] at h1
        | cons b bs =>
          simp only [evOps, Option.some.injEq, Prod.mk.injEq] at h1
          rw [← h1.1] at hop
          split at hop
          · simp only [List.mem_cons, List.not_mem_nil, or_false] at hop
            rcases hop with rfl | rfl <;> trivial
          · cases hop
      | _ =>
        simp only [evOps, Option.some.injEq, Prod.mk.injEq] at h1
        rw [← h1.1] at hop
        simp only [List.mem_cons, List.not_mem_nil, or_false] at hop
        try (subst hop; trivial)
    · exact ih (fun e he => hn e (by simp [he])) h3 op hop

theorem body_sub {evs : List Ev} : ∀ ev ∈ body evs, ev ∈ evs := by
  intro ev h
  exact List.mem_of_mem_drop (List.dropLast_subset _ (List.dropLast_subset _ h))

theorem fineEvents_static {E : Env} {N : Names} {fuel n d : Nat} {r : Res} (hE : Verif.Spec.NoExprs E n)
    (hT : ∀ n, (E.prods n).transparent = false) (h : runGrammar E fuel n d = some r) : FineEvents E N n r.evs := by
  intro ops x hx
  refine simple_fine (simple_ops hT (fun ev hev => runGrammar_chainless hE h ev (body_sub ev hev)) hx) ?_
  intro f hf
  simp only [Spec.init, List.mem_cons, List.not_mem_nil, or_false] at hf
  rw [hf]

/-- **C33** for grammars with neither expressions nor transparent productions: every tree is lossless, also if
    errors are reported, and there is a tree if the parse recovers.
    Only part: other grammars. -/
theorem C33_lossless_static_partial {z : Sizes} (hz : z.Ok) {E : Env} {N : Names} {fuel n d : Nat} {r : Res}
    (hE : Verif.Spec.NoExprs E n) (hT : ∀ n, (E.prods n).transparent = false) (h : runGrammar E fuel n d = some r) :
    ∃ x, parseAsTree z E N fuel n d = some (x, validateResult r)
      ∧ (r.out ≠ .ok → x = none)
      ∧ (r.out = .ok → ∃ T t, x = some T
        ∧ (∀ m, t.size < m → readTree z T.heap m T.root = some t)
        ∧ Adjacent 0 t.leaves r.st.pos
        ∧ remainingInput T = some (r.st.pos, E.inp.length)
        ∧ textOf E.inp t.leaves ++ E.inp.drop r.st.pos = E.inp) := by
  have hf := fineEvents_static (N := N) hE hT h
  by_cases ho : r.out = .ok
  · obtain ⟨T, t, h1, h2⟩ := C33_lossless_partial hz (hT n) h ho hf
    exact ⟨some T, by simp [parseAsTree, h, h1], fun hn => absurd ho hn, fun _ => ⟨T, t, rfl, h2⟩⟩
  · have ho' : r.out = .fail := by
      rcases runGrammar_tr h with ⟨evs, q, ht, hr, hq⟩ | ⟨evs, q, ht, hr, hq⟩
      · rw [hr] at ho; exact absurd rfl ho
      · rw [hr]
    have h1 := C33_failure_partial hz (hT n) h ho' hf
    exact ⟨none, by simp [parseAsTree, h, h1], fun _ => rfl, fun hn => absurd hn ho⟩

end PT

end Verif
