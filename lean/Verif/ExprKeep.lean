import Verif.GrammarWs

/-
Rules that do not directly contain an expression rule leave the state of the expression they are
used in alone (expression.hpp l.528-530: `_expr` is only allowed as the rule of a production).
-/

namespace Verif

namespace Spec

/-- The rule is not an expression rule, and the rules it directly consists of, up to productions,
    satisfy `P`. -/
def NoExprIn (P : Rule → Prop) : Rule → Prop
  | .tok _ | .tokr .. | .prim _ | .els | .brk | .err .. | .peek .. | .peekn .. | .look .. | .combIt _ | .varCreate ..
  | .flagSet .. | .flagToggle _ | .flagIs .. | .cntAdd .. | .cntIs .. | .cntEq .. | .prod _ | .wsr _
  | .idCap .. | .idRem .. => True
  | .seq a b | .br a b | .must a b | .optt a b => P a ∧ P b
  | .chc rs => ∀ r ∈ rs, P r
  | .ifR r | .opt r | .loop r | .whl r | .posr r | .nsep _ r | .cntPush _ r _ | .wsn r => P r
  | .lst item sep => P item ∧ ∀ s ∈ sep, P s.1
  | .lstt term item sep _ => P term ∧ P item ∧ ∀ s ∈ sep, P s.1
  | .tryt term r rc => (∀ t ∈ term, P t) ∧ P r ∧ RecovIn rc
  | .tryr r rc => P r ∧ RecovIn rc
  | .rep c _ item sep => P c ∧ P item ∧ P (trailingRule sep) ∧ ∀ s ∈ sep, P s.1
  | .comb _ rs els => ∀ r ∈ combRules rs els, P r
  | .recu n _ _ => P (.prod n)
  | .expr _ => False
where
  RecovIn : Recov → Prop
    | .wrap r => P r
    | .find _ => True
    | .reco _ rs => ∀ r ∈ rs, P r

/-- The same for all the rules it consists of. -/
def NoExpr (r : Rule) : Prop := ∃ P : Rule → Prop, (∀ r, P r → NoExprIn P r) ∧ P r

end Spec

section

open Spec

variable {E : Env} {P : Rule → Prop} {x0 : ExSt}

def KCmd (P : Rule → Prop) : Cmd → Prop
  | .run r | .bfinish r | .loopR r | .whlR r => P r
  | .chcRun rs | .chcFinish rs | .recoLoop _ _ rs | .combLoop _ rs _ _ _ => ∀ r ∈ rs, P r
  | .tokTry _ | .ws | .skip _ | .tokLoop _ | .btry _ | .bcancel _ | .chcTry _ | .chcCancel _ => True
  | .lstLoop item sep => P item ∧ ∀ s ∈ sep, P s.1
  | .ltTerm term item sep _ | .ltSep term item sep _ | .ltTrail _ term item sep _ | .ltItem term item sep _
  | .ltRec _ term item sep _ => P term ∧ P item ∧ ∀ s ∈ sep, P s.1
  | .recov rc => NoExprIn.RecovIn P rc
  | .repTail _ item sep => P item ∧ P (trailingRule sep) ∧ ∀ s ∈ sep, P s.1
  | .exParse .. | .exLhs .. | .exLoop .. | .exApply .. | .exList .. => False

/-- The state of the expression is `x0`. -/
def Keeps (x0 : ExSt) (x : Option Res) : Prop := ∀ r, x = some r → r.st.ex = x0

theorem k_none : Keeps x0 none := nofun
theorem k_some {r : Res} (h : r.st.ex = x0) : Keeps x0 (some r) := fun r' hr => by cases hr; exact h
theorem k_ret {o : Out} {st : St} (h : st.ex = x0) : Keeps x0 (ret o st) := k_some h

theorem k_andThen {x : Option Res} {f : Out → St → Option Res} (h : Keeps x0 x)
    (hf : ∀ o st, st.ex = x0 → Keeps x0 (f o st)) : Keeps x0 (andThen x f) := by
  intro r hr
  obtain ⟨r1, r2, h1, h2, rfl⟩ := andThen_some.1 hr
  exact hf _ _ (h r1 h1) r2 h2

/-- Whatever happened before. -/
theorem k_andThen_any {x : Option Res} {f : Out → St → Option Res} (hf : ∀ o st, Keeps x0 (f o st)) :
    Keeps x0 (andThen x f) := by
  intro r hr
  obtain ⟨r1, r2, h1, h2, rfl⟩ := andThen_some.1 hr
  exact hf _ _ r2 h2

theorem k_onOk {x : Option Res} {f : St → Option Res} (h : Keeps x0 x) (hf : ∀ st, st.ex = x0 → Keeps x0 (f st)) :
    Keeps x0 (onOk x f) := by
  refine k_andThen h fun o st hs => ?_
  cases o
  · exact hf st hs
  · exact k_some hs
  · exact k_some hs

theorem k_onOk' {x : Option Res} {f : St → Option Res} (h : Keeps x0 x) (hf : ∀ st, st.ex = x0 → Keeps x0 (f st)) :
    Keeps x0 (onOk' x f) := by
  refine k_andThen h fun o st hs => ?_
  cases o
  · exact hf st hs
  · exact k_some hs
  · exact k_none

theorem k_emit {x : Option Res} {evs : List Ev} (h : Keeps x0 x) : Keeps x0 (emit evs x) := by
  intro r hr
  obtain ⟨r1, h1, rfl⟩ := emit_some.1 hr
  exact h r1 h1

theorem k_framed {x : Option Res} {n : Nat} (h : Keeps x0 x) : Keeps x0 (framed n x) := by
  intro r hr
  obtain ⟨r1, h1, rfl⟩ := framed_some.1 hr
  exact h r1 h1

theorem k_bind {α : Type} {x : Option α} {f : α → Option Res} (h : ∀ a, x = some a → Keeps x0 (f a)) : Keeps x0 (x.bind f) := by
  cases x with
  | none => exact k_none
  | some a => exact h a rfl

theorem k_deeper {cx : Cx} {tag : Nat} {st : St} {f : St → Option Res} (h : st.ex = x0)
    (hf : Keeps x0 (f { st with depth := st.depth + 1 })) : Keeps x0 (deeper cx tag st f) := by
  unfold deeper
  split
  · exact k_none
  · split
    · exact k_some h
    · exact k_onOk' hf fun st' hs => k_ret hs

variable {rec : Rec} (H : ∀ cx c st, KCmd P c → Keeps st.ex (rec cx c st))

theorem k_ifTry {cx : Cx} {c : Cmd} {st : St} {yes no : Option Res} (h1 : Keeps x0 yes) (h2 : Keeps x0 no) :
    Keeps x0 (ifTry rec cx c st yes no) := by
  unfold ifTry
  split
  · exact k_none
  · exact h1
  · exact h2

include H

theorem k_rec {cx : Cx} {c : Cmd} {st : St} (hc : KCmd P c) (h : st.ex = x0) : Keeps x0 (rec cx c st) := h ▸ H cx c st hc

theorem k_tokenDone {cx : Cx} {k : Kind} {e : Nat} {st : St} (h : st.ex = x0) :
    Keeps x0 (tokenDone rec cx k e st) := k_emit (k_rec H trivial h)

theorem k_tokenParse {cx : Cx} {k : Kind} {tag e : Nat} {b : Bool} {st : St} (h : st.ex = x0) :
    Keeps x0 (tokenParse rec cx k tag b e st) := by
  unfold tokenParse
  split
  · exact k_tokenDone H h
  · exact k_some h

theorem k_primDone {cx : Cx} {ws : Bool} {x : Bool × Nat × List Ev} {st : St} (h : st.ex = x0) :
    Keeps x0 (primDone rec cx ws x st) := by
  unfold primDone
  refine k_emit ?_
  split
  · split
    · exact k_rec H trivial h
    · exact k_ret h
  · exact k_ret h

theorem k_production {cx : Cx} {n : Nat} {f : Cx → St → Option Res} {st : St} (h : st.ex = x0) :
    Keeps x0 (production E rec cx n f st) := by
  unfold production
  refine k_emit (k_andThen_any fun o st' => ?_)
  cases o
  · refine k_emit ?_
    split
    · exact k_rec H trivial h
    · exact k_ret h
  · exact k_some h
  · exact k_none

set_option hygiene false in
/-- One step through the combinators. -/
local macro "k_one" H:term : tactic =>
  `(tactic| first
    | exact k_none
    | exact k_some (by assumption)
    | exact k_ret (by assumption)
    | exact k_rec $H trivial (by assumption)
    | exact k_rec $H hp (by assumption)
    | exact k_rec $H (And.left hp) (by assumption)
    | exact k_rec $H (And.right hp) (by assumption)
    | exact k_rec $H (by simp only [KCmd]; grind) (by assumption)
    | exact k_tokenDone $H (by assumption)
    | exact k_tokenParse $H (by assumption)
    | exact k_primDone $H (by assumption)
    | exact k_production $H (by assumption)
    | refine k_emit ?_
    | refine k_framed ?_
    | refine k_onOk ?_ fun _ _ => ?_
    | refine k_onOk' ?_ fun _ _ => ?_
    | (refine k_andThen ?_ fun o _ _ => ?_)
    | refine k_ifTry ?_ ?_
    | refine k_bind fun _ _ => ?_
    | refine k_deeper (by assumption) ?_
    | split)

variable (hP : ∀ r, P r → NoExprIn P r)
include hP

theorem k_stepRun (cx : Cx) (st : St) (hs : st.ex = x0) (r : Rule) (hr : P r) : Keeps x0 (stepRun E rec cx st r) := by
  have hp := hP r hr
  cases r
  case err tag r => cases r <;> simp only [stepRun] <;> repeat' (k_one H)
  case expr i => exact hp.elim
  all_goals simp only [NoExprIn] at hp
  all_goals simp only [stepRun]
  all_goals repeat' (k_one H)

omit hP in
theorem k_stepTry (cx : Cx) (st : St) (hs : st.ex = x0) (r : Rule) : Keeps x0 (stepTry E rec cx st r) := by
  cases r
  all_goals have hp := trivial
  all_goals simp only [stepTry]
  all_goals repeat' (k_one H)

omit hP in
theorem k_stepCancel (cx : Cx) (st : St) (hs : st.ex = x0) (r : Rule) : Keeps x0 (stepCancel E rec cx st r) := by
  cases r
  all_goals have hp := trivial
  all_goals simp only [stepCancel]
  all_goals repeat' (k_one H)

theorem k_stepFinish (cx : Cx) (st : St) (hs : st.ex = x0) (r : Rule) (hr : P r) : Keeps x0 (stepFinish E rec cx st r) := by
  have hp := hP r hr
  cases r
  all_goals simp only [NoExprIn] at hp
  all_goals simp only [stepFinish]
  all_goals repeat' (k_one H)

theorem k_step (cx : Cx) (c : Cmd) (st : St) (hs : st.ex = x0) (hp : KCmd P c) : Keeps x0 (step E rec cx c st) := by
  cases c
  case run r => exact k_stepRun H hP cx st hs r hp
  case btry r => exact k_stepTry H cx st hs r
  case bcancel r => exact k_stepCancel H cx st hs r
  case bfinish r => exact k_stepFinish H hP cx st hs r hp
  case chcTry rs => cases rs <;> simp only [step] <;> repeat' (k_one H)
  case chcRun rs => cases rs <;> simp only [KCmd] at hp <;> simp only [step] <;> repeat' (k_one H)
  case chcCancel rs => cases rs <;> simp only [step] <;> repeat' (k_one H)
  case chcFinish rs => cases rs <;> simp only [KCmd] at hp <;> simp only [step] <;> repeat' (k_one H)
  case lstLoop item sep =>
    cases sep with
    | none => simp only [KCmd] at hp; simp only [step]; repeat' (k_one H)
    | some s => obtain ⟨sp, k⟩ := s; simp only [KCmd] at hp; have hsp : P sp := hp.2 _ rfl; simp only [step]; repeat' (k_one H)
  case ltSep term item sep limit =>
    cases sep with
    | none => simp only [KCmd] at hp; simp only [step]; repeat' (k_one H)
    | some s => obtain ⟨sp, k⟩ := s; simp only [KCmd] at hp; have hsp : P sp := hp.2.2 _ rfl; simp only [step]; repeat' (k_one H)
  case ltRec b term item sep limit =>
    cases sep with
    | none => simp only [KCmd] at hp; simp only [step]; repeat' (k_one H)
    | some s => obtain ⟨sp, k⟩ := s; simp only [KCmd] at hp; have hsp : P sp := hp.2.2 _ rfl; simp only [step]; repeat' (k_one H)
  case recov r => cases r <;> simp only [KCmd, NoExprIn.RecovIn] at hp <;> simp only [step] <;> repeat' (k_one H)
  case repTail k item sep =>
    cases k with
    | zero => simp only [KCmd] at hp; simp only [step]; repeat' (k_one H)
    | succ k =>
      cases sep with
      | none => simp only [KCmd] at hp; simp only [step]; repeat' (k_one H)
      | some s => simp only [KCmd] at hp; simp only [step]; repeat' (k_one H)
  case exParse => exact hp.elim
  case exLoop => exact hp.elim
  case exLhs => exact hp.elim
  case exApply => exact hp.elim
  case exList => exact hp.elim
  all_goals simp only [KCmd] at hp
  all_goals simp only [step]
  all_goals repeat' (k_one H)

end

/-- A rule without expressions keeps the state of the expression. -/
theorem exec_keeps {E : Env} {r : Rule} (h : Spec.NoExpr r) (n : Nat) (cx : Cx) (st : St) (x : Res)
    (hx : exec E n cx (.run r) st = some x) : x.st.ex = st.ex := by
  obtain ⟨P, hP, hr⟩ := h
  have key : ∀ n cx c st, KCmd P c → Keeps st.ex (exec E n cx c st) := by
    intro n
    induction n with
    | zero => intro cx c st _; exact k_none
    | succ n ih => intro cx c st hc; exact k_step ih hP cx c st rfl hc
  exact key n cx (.run r) st hr x hx

/-- Whitespace keeps it, too. -/
theorem exec_ws_keeps {E : Env} (n : Nat) (cx : Cx) (st : St) (x : Res)
    (hx : exec E n cx .ws st = some x) : x.st.ex = st.ex := by
  have key : ∀ n cx c st, KCmd (fun _ => False) c → Keeps st.ex (exec E n cx c st) := by
    intro n
    induction n with
    | zero => intro cx c st _; exact k_none
    | succ n ih => intro cx c st hc; exact k_step ih (fun _ h => h.elim) cx c st rfl hc
  exact key n cx .ws st trivial x hx

end Verif
