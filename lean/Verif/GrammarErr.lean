import Verif.Grammar

/-
Errors begin inside of their production: for all grammars, inputs, contexts, states and numbers of steps, an error is
reported for a range that does not begin before the innermost production that is being parsed.
-/

set_option linter.unusedVariables false

namespace Verif

namespace ErrOk

theorem cons {lo : Nat} {ev : Ev} {evs : List Ev} (h1 : ErrOk lo [ev]) (h2 : ErrOk lo evs) : ErrOk lo (ev :: evs) :=
  .app (a := [ev]) h1 h2

theorem weaken {lo lo' : Nat} {evs : List Ev} (h : ErrOk lo evs) (hl : lo' ≤ lo) : ErrOk lo' evs := by
  induction h with
  | nil => exact .nil
  | one h1 h2 => exact .one h1 h2
  | err h => exact .err (by omega)
  | app _ _ i1 i2 => exact .app (i1 hl) (i2 hl)
  | prod h1 h2 _ => exact .prod (by omega) h2
  | prodFail h1 h2 _ => exact .prodFail (by omega) h2

theorem mem {lo : Nat} {evs : List Ev} (h : ErrOk lo evs) {tag b e : Nat} (hm : .error tag b e ∈ evs) : lo ≤ b := by
  induction h with
  | nil => cases hm
  | one h1 h2 => rw [← List.mem_singleton.1 hm] at h1; cases h1
  | err h => have := List.mem_singleton.1 hm; cases this; exact h
  | app _ _ i1 i2 =>
    rcases List.mem_append.1 hm with hm | hm
    · exact i1 hm
    · exact i2 hm
  | prod h1 _ ih | prodFail h1 _ ih =>
    simp only [List.mem_cons, List.mem_append, List.not_mem_nil, or_false, reduceCtorEq, false_or] at hm
    have := ih hm
    omega

theorem errors {lo : Nat} {es : List Ev} (h : ∀ ev ∈ es, ∃ tag b e, ev = .error tag b e ∧ lo ≤ b) : ErrOk lo es := by
  induction es with
  | nil => exact .nil
  | cons ev es ih =>
    obtain ⟨tag, b, e, rfl, hb⟩ := h ev (List.mem_cons_self ..)
    exact .cons (.err hb) (ih fun ev hev => h ev (List.mem_cons_of_mem _ hev))

theorem filter {lo : Nat} {evs : List Ev} (h : ErrOk lo evs) : ErrOk lo (evs.filter Ev.isError) := by
  refine .errors fun ev hev => ?_
  obtain ⟨h1, h2⟩ := List.mem_filter.1 hev
  cases ev <;> first | exact ⟨_, _, _, rfl, h.mem h1⟩ | cases h2

end ErrOk

/-- What is proved about a result. -/
def EG (lo : Nat) (x : Option Res) : Prop := ∀ r, x = some r → lo ≤ r.st.pos ∧ ErrOk lo r.evs

namespace EG

variable {lo : Nat}

theorem none : EG lo none := fun _ h => by cases h

theorem some {o : Out} {st : St} {evs : List Ev} (h1 : lo ≤ st.pos) (h2 : ErrOk lo evs) :
    EG lo (some ⟨o, st, evs⟩) := fun _ h => by cases h; exact ⟨h1, h2⟩

theorem ret {o : Out} {st : St} (h1 : lo ≤ st.pos) : EG lo (ret o st) := .some h1 .nil

theorem andThen {x : Option Res} {f : Out → St → Option Res} (hx : EG lo x)
    (hf : ∀ o st, lo ≤ st.pos → EG lo (f o st)) : EG lo (andThen x f) := by
  intro r h
  cases x with
  | none => cases h
  | some y =>
    obtain ⟨z, hz, rfl⟩ := Option.map_eq_some_iff.1 h
    obtain ⟨h1, h2⟩ := hx y rfl
    obtain ⟨h3, h4⟩ := hf _ _ h1 z hz
    exact ⟨h3, .app h2 h4⟩

theorem onOk {x : Option Res} {f : St → Option Res} (hx : EG lo x) (hf : ∀ st, lo ≤ st.pos → EG lo (f st)) :
    EG lo (onOk x f) := by
  refine hx.andThen fun o st h => ?_
  cases o
  · exact hf st h
  · exact .some h .nil
  · exact .some h .nil

theorem onOk' {x : Option Res} {f : St → Option Res} (hx : EG lo x) (hf : ∀ st, lo ≤ st.pos → EG lo (f st)) :
    EG lo (onOk' x f) := by
  refine hx.andThen fun o st h => ?_
  cases o
  · exact hf st h
  · exact .some h .nil
  · exact .none

theorem framed {x : Option Res} {n : Nat} (hx : EG lo x) : EG lo (framed n x) := by
  intro r h
  obtain ⟨y, hy, rfl⟩ := Option.map_eq_some_iff.1 h
  exact hx y hy

theorem emit {x : Option Res} {evs : List Ev} (h : ErrOk lo evs) (hx : EG lo x) : EG lo (emit evs x) := by
  intro r hr
  obtain ⟨y, hy, rfl⟩ := Option.map_eq_some_iff.1 hr
  exact ⟨(hx y hy).1, .app h (hx y hy).2⟩

theorem bind {α : Type} {x : Option α} {f : α → Option Res} (h : ∀ a, EG lo (f a)) : EG lo (x.bind f) := by
  cases x with
  | none => exact .none
  | some a => exact h a

theorem ifTry {rec : Cx → Cmd → St → Option Res} {cx : Cx} {c : Cmd} {st : St} {yes no : Option Res}
    (h1 : EG lo yes) (h2 : EG lo no) : EG lo (ifTry rec cx c st yes no) := by
  unfold Verif.ifTry
  split
  · exact .none
  · exact h1
  · exact h2

end EG

/-- The positions that are part of a command. -/
def CmdLo (lo : Nat) : Cmd → Prop
  | .ltTrail b .. | .exApply _ _ _ _ b => lo ≤ b
  | _ => True

/-- What is assumed of the steps before. -/
def RG (rec : Cx → Cmd → St → Option Res) : Prop := ∀ cx c lo st, lo ≤ st.pos → CmdLo lo c → EG lo (rec cx c st)

variable {E : Env} {rec : Cx → Cmd → St → Option Res}

section
variable (H : RG rec)

include H in
theorem eg_rec {lo : Nat} {cx : Cx} {c : Cmd} {st : St} (h : lo ≤ st.pos) (hc : CmdLo lo c := by trivial) :
    EG lo (rec cx c st) := H cx c lo st h hc

include H in
theorem eg_nested {r : Rule} {p : Nat} {b : Bool} {e : Nat} {evs : List Ev} (h : nested rec r p = some (b, e, evs)) :
    p ≤ e ∧ ErrOk p evs := by
  have := H ⟨none, 0⟩ (.run r) p { pos := p } (Nat.le_refl _) trivial
  unfold nested at h
  split at h
  · cases h
  · cases h; rename_i hx; exact this _ hx
  · cases h; rename_i hx; exact this _ hx
  · cases h

include H in
theorem eg_tokenDone {lo : Nat} {cx : Cx} {k : Kind} {e : Nat} {st : St} (h : lo ≤ e) :
    EG lo (tokenDone rec cx k e st) :=
  .emit (.one rfl rfl) (eg_rec H h)

include H in
theorem eg_tokenParse {lo : Nat} {cx : Cx} {k : Kind} {tag : Nat} {b : Bool} {e : Nat} {st : St} (h : lo ≤ st.pos)
    (he : lo ≤ e) : EG lo (tokenParse rec cx k tag b e st) := by
  unfold tokenParse
  split
  · exact eg_tokenDone H he
  · exact .some he (.cons (.one rfl rfl) (.err h))

include H in
theorem eg_prim {lo : Nat} {cx : Cx} {ws : Bool} {r : Bool × Nat × List Ev} {st : St} (h : lo ≤ r.2.1)
    (he : ErrOk lo r.2.2) : EG lo (primDone rec cx ws r st) := by
  unfold primDone
  refine .emit he ?_
  split
  · split
    · exact eg_rec H h
    · exact .ret h
  · exact .ret h

include H in
theorem eg_production {lo : Nat} {cx : Cx} {n : Nat} {body : Cx → St → Option Res} {st : St} (h : lo ≤ st.pos)
    (hb : ∀ cx st', st'.pos = st.pos → EG st.pos (body cx st')) : EG lo (production E rec cx n body st) := by
  intro r hr
  obtain ⟨x, hx, rfl⟩ := Option.map_eq_some_iff.1 hr
  unfold andThen at hx
  split at hx
  · cases hx
  · rename_i y hy
    obtain ⟨z, hz, rfl⟩ := Option.map_eq_some_iff.1 hx
    obtain ⟨h1, h2⟩ := EG.framed (n := st.vars.length) (hb _ { st with ex := {} } rfl) y hy
    simp only at hz
    obtain ⟨o, ys, ye⟩ := y
    cases o
    · obtain ⟨w, hw, rfl⟩ := Option.map_eq_some_iff.1 hz
      have : EG lo (some w) := by
        rw [← hw]
        split
        · exact eg_rec H (Nat.le_trans h h1)
        · exact .ret (Nat.le_trans h h1)
      obtain ⟨h3, h4⟩ := this w rfl
      refine ⟨h3, ?_⟩
      simpa using ErrOk.app (.prod (n := n) (q := ys.pos) h h2) h4
    · cases hz
      exact ⟨Nat.le_trans h h1, .prodFail h h2⟩
    · cases hz

theorem eg_deeper {lo : Nat} {cx : Cx} {tag : Nat} {st : St} {body : St → Option Res} (h : lo ≤ st.pos)
    (hb : ∀ st', lo ≤ st'.pos → EG lo (body st')) : EG lo (deeper cx tag st body) := by
  unfold deeper
  split
  · exact .none
  · split
    · exact .some h (.err h)
    · exact .onOk' (hb _ h) fun st' h' => .ret h'

include H in
theorem eg_rec_pos {lo : Nat} {cx : Cx} {c : Cmd} {st : St} {r : Res} (hr : rec cx c st = some r) (h : lo ≤ st.pos)
    (hc : CmdLo lo c := by trivial) : lo ≤ r.st.pos := (H cx c lo st h hc r hr).1

include H in
theorem eg_nested' {lo : Nat} {r : Rule} {p : Nat} {b : Bool} {e : Nat} {evs : List Ev}
    (h : nested rec r p = some (b, e, evs)) (hl : lo ≤ p) : lo ≤ e ∧ ErrOk lo (evs.filter Ev.isError) :=
  ⟨Nat.le_trans hl (eg_nested H h).1, ((eg_nested H h).2.weaken hl).filter⟩

end

/-- Goes through the code of a rule. -/
macro "eg" H:ident : tactic => `(tactic| repeat' (first
  | with_reducible assumption
  | with_reducible exact EG.none
  | with_reducible exact ErrOk.nil
  | exact ErrOk.one rfl rfl
  | with_reducible apply EG.ret
  | with_reducible apply EG.onOk'
  | with_reducible apply EG.onOk
  | with_reducible apply EG.andThen
  | with_reducible apply EG.framed
  | with_reducible apply EG.emit
  | with_reducible apply EG.bind
  | with_reducible apply EG.ifTry
  | with_reducible apply eg_tokenParse $H
  | with_reducible apply eg_tokenDone $H
  | with_reducible apply eg_deeper
  | with_reducible apply eg_production $H
  | with_reducible refine eg_rec $H ?_ (by trivial)
  | with_reducible refine eg_rec $H ?_ ?_
  | with_reducible apply EG.some
  | with_reducible apply ErrOk.err
  | with_reducible apply ErrOk.app
  | with_reducible apply ErrOk.cons
  | with_reducible split
  | with_reducible intro _
  | exact (eg_nested' $H (by with_reducible assumption) (by assumption)).1
  | exact (eg_nested' $H (by with_reducible assumption) (by assumption)).2
  | exact eg_rec_pos $H (by with_reducible assumption) (by assumption)
  | (simp only [CmdLo, St.frame]; done)
  | (try simp only [CmdLo, St.frame]); omega))

theorem eg_stepRun (H : RG rec) {lo : Nat} {cx : Cx} {st : St} (h : lo ≤ st.pos) (r : Rule) :
    EG lo (stepRun E rec cx st r) := by
  unfold stepRun
  split
  case h_3 p => exact eg_prim H (Nat.le_trans h (p.errs ..).1) ((p.errs ..).2.weaken h)
  case h_41 id p len =>
    refine (eg_prim H (Nat.le_trans h (p.errs ..).1) ((p.errs ..).2.weaken h)).onOk' ?_
    eg H
  all_goals eg H

theorem eg_stepTry (H : RG rec) {lo : Nat} {cx : Cx} {st : St} (h : lo ≤ st.pos) (r : Rule) :
    EG lo (stepTry E rec cx st r) := by
  unfold stepTry
  split
  case h_25 =>
    dsimp only
    eg H
  all_goals eg H

theorem eg_stepCancel (H : RG rec) {lo : Nat} {cx : Cx} {st : St} (h : lo ≤ st.pos) (r : Rule) :
    EG lo (stepCancel E rec cx st r) := by
  cases r
  case prod n =>
    intro x hx
    obtain ⟨y, hy, rfl⟩ := Option.map_eq_some_iff.1 hx
    unfold andThen at hy
    split at hy
    · cases hy
    · rename_i z hz
      obtain ⟨w, hw, rfl⟩ := Option.map_eq_some_iff.1 hy
      cases hw
      exact ⟨h, .prodFail h (H cx (.bcancel (E.prods n).rule) st.pos st (Nat.le_refl _) trivial z hz).2⟩
  all_goals dsimp only [stepCancel]
  all_goals eg H

theorem eg_stepFinish (H : RG rec) {lo : Nat} {cx : Cx} {st : St} (h : lo ≤ st.pos) (r : Rule) :
    EG lo (stepFinish E rec cx st r) := by
  unfold stepFinish
  split
  case h_3 p => exact eg_prim H (Nat.le_trans h (p.finish_errs ..).1) ((p.finish_errs ..).2.weaken h)
  case h_21 id p len =>
    refine (eg_prim H (Nat.le_trans h (p.finish_errs ..).1) ((p.finish_errs ..).2.weaken h)).onOk' ?_
    eg H
  all_goals eg H

theorem errOk_trailing {lo b e : Nat} (k : SepKind) (h : lo ≤ b) : ErrOk lo (trailingError k b e) := by
  cases k <;> first | exact .err h | exact .nil

theorem errOk_skipped {lo b : Nat} {st : St} {ok : Bool} : ErrOk lo (skipped b st ok) := by
  cases ok <;> exact .cons (.one rfl rfl) (.one rfl rfl)

theorem eg_opFinish (H : RG rec) {lo : Nat} {cx : Cx} {k : Kind} {r : Rule} {b : Nat} {st : St} (h : lo ≤ st.pos) :
    EG lo (opFinish rec cx k r b st) := by
  unfold opFinish
  eg H

theorem eg_opInfix (H : RG rec) {lo : Nat} {cx : Cx} {i : Nat} {o : OpDef} {single : Bool} {st : St} (h : lo ≤ st.pos) :
    EG lo (opInfix E rec cx i o single st) := by
  unfold opInfix
  dsimp only
  eg H

theorem eg_opCont (H : RG rec) {lo : Nat} {cx : Cx} {i : Nat} {o : OpDef} {st : St} (h : lo ≤ st.pos) :
    EG lo (opCont E rec cx i o st) := by
  unfold opCont
  split
  case h_4 => exact eg_opInfix H h
  case h_5 => exact eg_opInfix H h
  all_goals eg H

theorem eg_chcTry (H : RG rec) {lo : Nat} {cx : Cx} {st : St} (h : lo ≤ st.pos) {rs} (hc : CmdLo lo (.chcTry rs)) :
    EG lo (step E rec cx (.chcTry rs) st) := by
  cases rs
  all_goals dsimp only [step]
  all_goals eg H

theorem eg_chcRun (H : RG rec) {lo : Nat} {cx : Cx} {st : St} (h : lo ≤ st.pos) {rs} (hc : CmdLo lo (.chcRun rs)) :
    EG lo (step E rec cx (.chcRun rs) st) := by
  cases rs
  all_goals dsimp only [step]
  all_goals eg H

theorem eg_chcCancel (H : RG rec) {lo : Nat} {cx : Cx} {st : St} (h : lo ≤ st.pos) {rs} (hc : CmdLo lo (.chcCancel rs)) :
    EG lo (step E rec cx (.chcCancel rs) st) := by
  cases rs
  all_goals dsimp only [step]
  all_goals eg H

theorem eg_chcFinish (H : RG rec) {lo : Nat} {cx : Cx} {st : St} (h : lo ≤ st.pos) {rs} (hc : CmdLo lo (.chcFinish rs)) :
    EG lo (step E rec cx (.chcFinish rs) st) := by
  cases rs
  all_goals dsimp only [step]
  all_goals eg H

theorem eg_tokTry (H : RG rec) {lo : Nat} {cx : Cx} {st : St} (h : lo ≤ st.pos) {r} (hc : CmdLo lo (.tokTry r)) :
    EG lo (step E rec cx (.tokTry r) st) := by
  cases r
  all_goals dsimp only [step]
  all_goals eg H

theorem eg_ws (H : RG rec) {lo : Nat} {cx : Cx} {st : St} (h : lo ≤ st.pos)  (hc : CmdLo lo (.ws)) :
    EG lo (step E rec cx (.ws) st) := by
  dsimp only [step]
  all_goals eg H

theorem eg_skip (H : RG rec) {lo : Nat} {cx : Cx} {st : St} (h : lo ≤ st.pos) {r} (hc : CmdLo lo (.skip r)) :
    EG lo (step E rec cx (.skip r) st) := by
  dsimp only [step]
  all_goals eg H

theorem eg_tokLoop (H : RG rec) {lo : Nat} {cx : Cx} {st : St} (h : lo ≤ st.pos) {r} (hc : CmdLo lo (.tokLoop r)) :
    EG lo (step E rec cx (.tokLoop r) st) := by
  dsimp only [step]
  all_goals eg H

theorem eg_loopR (H : RG rec) {lo : Nat} {cx : Cx} {st : St} (h : lo ≤ st.pos) {r} (hc : CmdLo lo (.loopR r)) :
    EG lo (step E rec cx (.loopR r) st) := by
  dsimp only [step]
  all_goals eg H

theorem eg_whlR (H : RG rec) {lo : Nat} {cx : Cx} {st : St} (h : lo ≤ st.pos) {b} (hc : CmdLo lo (.whlR b)) :
    EG lo (step E rec cx (.whlR b) st) := by
  dsimp only [step]
  all_goals eg H

theorem eg_lstLoop (H : RG rec) {lo : Nat} {cx : Cx} {st : St} (h : lo ≤ st.pos) {item} {sep} (hc : CmdLo lo (.lstLoop item sep)) :
    EG lo (step E rec cx (.lstLoop item sep) st) := by
  rcases sep with _ | ⟨sep, k⟩
  all_goals dsimp only [step]
  all_goals try eg H
  all_goals first
    | exact errOk_trailing _ ‹_›
    | exact errOk_skipped
    | exact eg_opFinish H (by simp only; omega)
    | exact eg_opCont H ‹_›
    | (simp only; exact hc)

theorem eg_ltTerm (H : RG rec) {lo : Nat} {cx : Cx} {st : St} (h : lo ≤ st.pos) {term} {item} {sep} {limit} (hc : CmdLo lo (.ltTerm term item sep limit)) :
    EG lo (step E rec cx (.ltTerm term item sep limit) st) := by
  dsimp only [step]
  all_goals eg H

theorem eg_ltSep (H : RG rec) {lo : Nat} {cx : Cx} {st : St} (h : lo ≤ st.pos) {term} {item} {sep} {limit} (hc : CmdLo lo (.ltSep term item sep limit)) :
    EG lo (step E rec cx (.ltSep term item sep limit) st) := by
  rcases sep with _ | ⟨sep, k⟩
  all_goals dsimp only [step]
  all_goals eg H

theorem eg_ltTrail (H : RG rec) {lo : Nat} {cx : Cx} {st : St} (h : lo ≤ st.pos) {b} {term} {item} {sep} {limit} (hc : CmdLo lo (.ltTrail b term item sep limit)) :
    EG lo (step E rec cx (.ltTrail b term item sep limit) st) := by
  dsimp only [step]
  simp only [CmdLo] at hc
  all_goals try eg H
  all_goals first
    | exact errOk_trailing _ ‹_›
    | exact errOk_skipped
    | exact eg_opFinish H (by simp only; omega)
    | exact eg_opCont H ‹_›
    | (simp only; exact hc)

theorem eg_ltItem (H : RG rec) {lo : Nat} {cx : Cx} {st : St} (h : lo ≤ st.pos) {term} {item} {sep} {limit} (hc : CmdLo lo (.ltItem term item sep limit)) :
    EG lo (step E rec cx (.ltItem term item sep limit) st) := by
  dsimp only [step]
  all_goals eg H

theorem eg_ltRec (H : RG rec) {lo : Nat} {cx : Cx} {st : St} (h : lo ≤ st.pos) {b} {term} {item} {sep} {limit} (hc : CmdLo lo (.ltRec b term item sep limit)) :
    EG lo (step E rec cx (.ltRec b term item sep limit) st) := by
  rcases sep with _ | ⟨sep, k⟩
  all_goals dsimp only [step]
  all_goals try eg H
  all_goals first
    | exact errOk_trailing _ ‹_›
    | exact errOk_skipped
    | exact eg_opFinish H (by simp only; omega)
    | exact eg_opCont H ‹_›
    | (simp only; exact hc)

theorem eg_recov (H : RG rec) {lo : Nat} {cx : Cx} {st : St} (h : lo ≤ st.pos) {r} (hc : CmdLo lo (.recov r)) :
    EG lo (step E rec cx (.recov r) st) := by
  cases r
  all_goals dsimp only [step]
  all_goals try eg H
  all_goals first
    | exact errOk_trailing _ ‹_›
    | exact errOk_skipped
    | exact eg_opFinish H (by simp only; omega)
    | exact eg_opCont H ‹_›
    | (simp only; exact hc)

theorem eg_recoLoop (H : RG rec) {lo : Nat} {cx : Cx} {st : St} (h : lo ≤ st.pos) {b} {limit} {rs} (hc : CmdLo lo (.recoLoop b limit rs)) :
    EG lo (step E rec cx (.recoLoop b limit rs) st) := by
  dsimp only [step]
  all_goals try eg H
  all_goals first
    | exact errOk_trailing _ ‹_›
    | exact errOk_skipped
    | exact eg_opFinish H (by simp only; omega)
    | exact eg_opCont H ‹_›
    | (simp only; exact hc)

theorem eg_repTail (H : RG rec) {lo : Nat} {cx : Cx} {st : St} (h : lo ≤ st.pos) {k} {item} {sep} (hc : CmdLo lo (.repTail k item sep)) :
    EG lo (step E rec cx (.repTail k item sep) st) := by
  cases k
  all_goals dsimp only [step]
  all_goals eg H

theorem eg_combLoop (H : RG rec) {lo : Nat} {cx : Cx} {st : St} (h : lo ≤ st.pos) {tag} {rs} {n} {handled} {count} (hc : CmdLo lo (.combLoop tag rs n handled count)) :
    EG lo (step E rec cx (.combLoop tag rs n handled count) st) := by
  dsimp only [step]
  all_goals eg H

theorem eg_exParse (H : RG rec) {lo : Nat} {cx : Cx} {st : St} (h : lo ≤ st.pos) {i} {min} (hc : CmdLo lo (.exParse i min)) :
    EG lo (step E rec cx (.exParse i min) st) := by
  dsimp only [step]
  all_goals eg H

theorem eg_exLhs (H : RG rec) {lo : Nat} {cx : Cx} {st : St} (h : lo ≤ st.pos) {i} {min} (hc : CmdLo lo (.exLhs i min)) :
    EG lo (step E rec cx (.exLhs i min) st) := by
  dsimp only [step]
  all_goals eg H

theorem eg_exLoop (H : RG rec) {lo : Nat} {cx : Cx} {st : St} (h : lo ≤ st.pos) {i} {min} (hc : CmdLo lo (.exLoop i min)) :
    EG lo (step E rec cx (.exLoop i min) st) := by
  dsimp only [step]
  all_goals eg H

theorem eg_exApply (H : RG rec) {lo : Nat} {cx : Cx} {st : St} (h : lo ≤ st.pos) {i} {o} {k} {r} {b} (hc : CmdLo lo (.exApply i o k r b)) :
    EG lo (step E rec cx (.exApply i o k r b) st) := by
  dsimp only [step]
  simp only [CmdLo] at hc
  all_goals try eg H
  all_goals first
    | exact errOk_trailing _ ‹_›
    | exact errOk_skipped
    | exact eg_opFinish H (by simp only; omega)
    | exact eg_opCont H ‹_›
    | (simp only; exact hc)

theorem eg_exList (H : RG rec) {lo : Nat} {cx : Cx} {st : St} (h : lo ≤ st.pos) {i} {o} {items} (hc : CmdLo lo (.exList i o items)) :
    EG lo (step E rec cx (.exList i o items) st) := by
  dsimp only [step]
  all_goals try eg H
  all_goals first
    | exact errOk_trailing _ ‹_›
    | exact errOk_skipped
    | exact eg_opFinish H (by simp only; omega)
    | exact eg_opCont H ‹_›
    | (simp only; exact hc)

theorem eg_step (H : RG rec) : RG (step E rec) := by
  intro cx c lo st h hc
  cases c
  case run r => exact eg_stepRun H h r
  case btry r => exact eg_stepTry H h r
  case bcancel r => exact eg_stepCancel H h r
  case bfinish r => exact eg_stepFinish H h r
  case chcTry => exact eg_chcTry H h hc
  case chcRun => exact eg_chcRun H h hc
  case chcCancel => exact eg_chcCancel H h hc
  case chcFinish => exact eg_chcFinish H h hc
  case tokTry => exact eg_tokTry H h hc
  case ws => exact eg_ws H h hc
  case skip => exact eg_skip H h hc
  case tokLoop => exact eg_tokLoop H h hc
  case loopR => exact eg_loopR H h hc
  case whlR => exact eg_whlR H h hc
  case lstLoop => exact eg_lstLoop H h hc
  case ltTerm => exact eg_ltTerm H h hc
  case ltSep => exact eg_ltSep H h hc
  case ltTrail => exact eg_ltTrail H h hc
  case ltItem => exact eg_ltItem H h hc
  case ltRec => exact eg_ltRec H h hc
  case recov => exact eg_recov H h hc
  case recoLoop => exact eg_recoLoop H h hc
  case repTail => exact eg_repTail H h hc
  case combLoop => exact eg_combLoop H h hc
  case exParse => exact eg_exParse H h hc
  case exLhs => exact eg_exLhs H h hc
  case exLoop => exact eg_exLoop H h hc
  case exApply => exact eg_exApply H h hc
  case exList => exact eg_exList H h hc

/-- Nothing that is parsed ends before it began; every error that is reported begins at or after the start of the
innermost production that is being parsed. -/
theorem exec_err (n : Nat) : RG (exec E n) := by
  induction n with
  | zero => intro cx c lo st _ _; exact EG.none
  | succ n ih => exact eg_step ih

end Verif
