import Verif.GrammarLemmas
import Verif.CtxVars

/-
What the interpreter does to the context variables and to the recursion depth: for every step, relative to two
versions of the recursive calls (they agree on the calls that are made).
-/

namespace Verif

/-- The value of a variable has the type that it is found by. -/
def Var.typed (p : VarKey × Var) : Prop := ∃ id, p.1 = p.2.key id
def Typed (vs : List (VarKey × Var)) : Prop := ∀ p ∈ vs, Var.typed p

/-- The variables `b` are the result of operations on `a`, which keep the types. -/
def Ext (a b : List (VarKey × Var)) : Prop := (∃ ops, b = CtxOp.runAll ops a) ∧ (Typed a → Typed b)

theorem Ext.refl (a : List (VarKey × Var)) : Ext a a := ⟨⟨[], rfl⟩, id⟩

theorem Ext.trans {a b c : List (VarKey × Var)} (h1 : Ext a b) (h2 : Ext b c) : Ext a c := by
  obtain ⟨⟨o1, rfl⟩, t1⟩ := h1
  obtain ⟨⟨o2, rfl⟩, t2⟩ := h2
  exact ⟨⟨o1 ++ o2, (runAll_append _ _ _).symm⟩, fun h => t2 (t1 h)⟩

theorem Ext.length {a b : List (VarKey × Var)} (h : Ext a b) : a.length ≤ b.length := by
  obtain ⟨⟨ops, rfl⟩, _⟩ := h
  obtain ⟨n, o, h, e⟩ := runAll_split ops a
  have := congrArg List.length e
  simp at this
  rw [h]
  simp; omega

/-- Nothing is hidden by the operations: a variable that is there can still be found. -/
theorem Ext.keys {a b : List (VarKey × Var)} (h : Ext a b) {k : VarKey} (hk : k ∈ a.map (·.1)) : k ∈ b.map (·.1) := by
  obtain ⟨⟨ops, rfl⟩, _⟩ := h
  obtain ⟨n, o, h, e⟩ := runAll_split ops a
  rw [h, List.map_append, List.mem_append, e]
  exact .inr hk

theorem Typed.set {vs : List (VarKey × Var)} (h : Typed vs) {key : VarKey} {v : Var} (hk : Var.typed (key, v)) :
    Typed (setVar key v vs) := by
  induction vs with
  | nil => exact h
  | cons p vs ih =>
    obtain ⟨i, w⟩ := p
    unfold setVar
    split
    · rename_i hi
      subst hi
      intro p hp
      rcases List.mem_cons.1 hp with rfl | hp
      · exact hk
      · exact h p (List.mem_cons_of_mem _ hp)
    · intro p hp
      rcases List.mem_cons.1 hp with rfl | hp
      · exact h _ List.mem_cons_self
      · exact ih (fun q hq => h q (List.mem_cons_of_mem _ hq)) p hp

theorem getVar_mem {key : VarKey} {v : Var} {vs : List (VarKey × Var)} (h : getVar key vs = some v) :
    key ∈ vs.map (·.1) := by
  induction vs with
  | nil => cases h
  | cons p vs ih =>
    obtain ⟨i, w⟩ := p
    unfold getVar at h
    split at h
    · rename_i hi
      exact List.mem_cons.2 (.inl hi.symm)
    · exact List.mem_cons_of_mem _ (ih h)

/-- A variable that is there is found, with a value of its type. -/
theorem Typed.get {vs : List (VarKey × Var)} (h : Typed vs) {key : VarKey} (hk : key ∈ vs.map (·.1)) :
    ∃ v, getVar key vs = some v ∧ Var.typed (key, v) := by
  induction vs with
  | nil => cases hk
  | cons p vs ih =>
    obtain ⟨i, w⟩ := p
    unfold getVar
    by_cases hi : i = key
    · subst hi
      exact ⟨w, if_pos rfl, h _ List.mem_cons_self⟩
    · rw [if_neg hi]
      rcases List.mem_cons.1 hk with e | hk
      · exact absurd e.symm hi
      · exact ih (fun q hq => h q (List.mem_cons_of_mem _ hq)) hk

theorem Ext.set {a b : List (VarKey × Var)} (h : Ext a b) (key : VarKey) (v : Var) (hk : Var.typed (key, v)) :
    Ext a (setVar key v b) :=
  h.trans ⟨⟨[.upd key fun _ => v], setVar_eq key v b⟩, fun t => t.set hk⟩

theorem Ext.create {a b : List (VarKey × Var)} (h : Ext a b) (x : VarKey × Var) (hx : Var.typed x) : Ext a (x :: b) :=
  h.trans ⟨⟨[.create x.1 x.2], rfl⟩, fun t p hp => by
    rcases List.mem_cons.1 hp with rfl | hp
    · exact hx
    · exact t p hp⟩

/-- After some of the operations there were `n` variables. -/
theorem runAll_cut (ops : List CtxOp) (a : List (VarKey × Var)) (n : Nat) (h1 : a.length ≤ n)
    (h2 : n ≤ (CtxOp.runAll ops a).length) :
    ∃ o1 o2, ops = o1 ++ o2 ∧ (CtxOp.runAll o1 a).length = n := by
  induction ops generalizing a with
  | nil => exact ⟨[], [], rfl, Nat.le_antisymm h1 h2⟩
  | cons op ops ih =>
    by_cases he : a.length = n
    · exact ⟨[], op :: ops, rfl, he⟩
    · have : (op.run a).length ≤ n := by
        cases op with
        | create id v => simp only [CtxOp.run, List.length_cons]; omega
        | upd id f =>
          have := congrArg List.length (updVar_ids id f a)
          simp only [List.length_map] at this
          simp only [CtxOp.run]; omega
        | prod ops =>
          have := congrArg List.length (reached_ids ops (fun _ => false) a)
          simp only [List.length_map] at this
          rw [run_prod]; omega
      obtain ⟨o1, o2, h3, h4⟩ := ih (op.run a) this h2
      exact ⟨op :: o1, o2, by rw [h3]; rfl, h4⟩

/-- Dropping variables that were created in between. -/
theorem Ext.frame {a b : List (VarKey × Var)} (h : Ext a b) {n : Nat} (hn : a.length ≤ n) :
    Ext a (b.drop (b.length - n)) := by
  by_cases hb : b.length ≤ n
  · rw [Nat.sub_eq_zero_of_le hb]; exact h
  · obtain ⟨⟨ops, rfl⟩, ht⟩ := h
    obtain ⟨o1, o2, rfl, h2⟩ := runAll_cut ops a n hn (by omega)
    refine ⟨⟨o1 ++ [.prod o2], ?_⟩, fun t p hp => ht t p (List.mem_of_mem_drop hp)⟩
    rw [runAll_append, runAll_append, ← h2]
    simp only [CtxOp.runAll, CtxOp.run]

/-- The relation between the states before and after. -/
def Later (a b : St) : Prop := Ext a.vars b.vars ∧ a.depth ≤ b.depth

theorem Later.refl (a : St) : Later a a := ⟨.refl _, Nat.le_refl _⟩
theorem later_frame {a b c : St} (h1 : Later a b) (h2 : Later a c) : Later a (c.frame b.vars.length) :=
  ⟨h2.1.frame h1.1.length, h2.2⟩
theorem Later.trans {a b c : St} (h1 : Later a b) (h2 : Later b c) : Later a c :=
  ⟨h1.1.trans h2.1, Nat.le_trans h1.2 h2.2⟩

/-- If `x` has a result, then `y` has the same, and the state is later than `st`. -/
def Rel (st : St) (x y : Option Res) : Prop := ∀ r, x = some r → y = some r ∧ Later st r.st

section

variable {st0 : St}

theorem rel_none {y : Option Res} : Rel st0 none y := fun _ h => by cases h
theorem rel_some {r : Res} (h : Later st0 r.st) : Rel st0 (some r) (some r) := fun r' hr => by cases hr; exact ⟨rfl, h⟩
theorem rel_ret {o : Out} {st : St} (h : Later st0 st) : Rel st0 (ret o st) (ret o st) := rel_some h

theorem rel_andThen {x y : Option Res} {f g : Out → St → Option Res} (h : Rel st0 x y)
    (hf : ∀ o st, Later st0 st → Rel st0 (f o st) (g o st)) : Rel st0 (andThen x f) (andThen y g) := by
  intro r hr
  obtain ⟨r1, r2, h1, h2, rfl⟩ := andThen_some.1 hr
  obtain ⟨h3, h4⟩ := h r1 h1
  obtain ⟨h5, h6⟩ := hf r1.out r1.st h4 r2 h2
  exact ⟨andThen_some.2 ⟨r1, r2, h3, h5, rfl⟩, h6⟩

theorem rel_onOk {x y : Option Res} {f g : St → Option Res} (h : Rel st0 x y)
    (hf : ∀ st, Later st0 st → Rel st0 (f st) (g st)) : Rel st0 (onOk x f) (onOk y g) := by
  refine rel_andThen h fun o st hs => ?_
  cases o
  · exact hf st hs
  · exact rel_some hs
  · exact rel_some hs

theorem rel_onOk' {x y : Option Res} {f g : St → Option Res} (h : Rel st0 x y)
    (hf : ∀ st, Later st0 st → Rel st0 (f st) (g st)) : Rel st0 (onOk' x f) (onOk' y g) := by
  refine rel_andThen h fun o st hs => ?_
  cases o
  · exact hf st hs
  · exact rel_some hs
  · exact rel_none

theorem rel_emit {x y : Option Res} {evs : List Ev} (h : Rel st0 x y) : Rel st0 (emit evs x) (emit evs y) := by
  intro r hr
  obtain ⟨r1, h1, rfl⟩ := emit_some.1 hr
  obtain ⟨h3, h4⟩ := h r1 h1
  exact ⟨emit_some.2 ⟨r1, h3, rfl⟩, h4⟩

theorem rel_framed {x y : Option Res} {st : St} (hs : Later st0 st) (h : Rel st0 x y) :
    Rel st0 (framed st.vars.length x) (framed st.vars.length y) := by
  intro r hr
  obtain ⟨r1, h1, rfl⟩ := framed_some.1 hr
  obtain ⟨h3, h4⟩ := h r1 h1
  exact ⟨framed_some.2 ⟨r1, h3, rfl⟩, h4.1.frame hs.1.length, h4.2⟩

theorem rel_bind {α : Type} {x : Option α} {f g : α → Option Res} (h : ∀ a, x = some a → Rel st0 (f a) (g a)) :
    Rel st0 (x.bind f) (x.bind g) := by
  cases x with
  | none => exact rel_none
  | some a => exact h a rfl

end

section

variable {E : Env} {rec rec' : Cx → Cmd → St → Option Res} {G : Nat → Nat → Prop}
  (H : ∀ cx c st, G cx.maxDepth st.depth → Rel st (rec cx c st) (rec' cx c st))
  (hG : ∀ m d d', d ≤ d' → G m d → G m d') (hG0 : ∀ d, G 0 d)

include H hG

theorem rel_rec {st0 st : St} {cx : Cx} {c : Cmd} (h : Later st0 st) (hg : G cx.maxDepth st0.depth) :
    Rel st0 (rec cx c st) (rec' cx c st) := by
  intro r hr
  obtain ⟨h1, h2⟩ := H cx c st (hG _ _ _ h.2 hg) r hr
  exact ⟨h1, h.trans h2⟩

theorem rel_match {st0 st : St} {cx : Cx} {c : Cmd} {f g : Res → Option Res} (h : Later st0 st) (hg : G cx.maxDepth st0.depth)
    (hf : ∀ r, Later st0 r.st → Rel st0 (f r) (g r)) {x y : Option Res}
    (hx : x = (rec cx c st).bind f) (hy : y = (rec' cx c st).bind g) : Rel st0 x y := by
  subst hx hy
  intro r hr
  obtain ⟨r', h1, h2⟩ := Option.bind_eq_some_iff.1 hr
  obtain ⟨h3, h4⟩ := rel_rec H hG h hg r' h1
  rw [h3]
  exact hf r' h4 r h2

theorem rel_ifTry {st0 st : St} {cx : Cx} {c : Cmd} {yes no yes' no' : Option Res} (h : Later st0 st)
    (hg : G cx.maxDepth st0.depth) (h1 : Rel st0 yes yes') (h2 : Rel st0 no no') :
    Rel st0 (ifTry rec cx c st yes no) (ifTry rec' cx c st yes' no') := by
  refine rel_match (c := c) (f := fun r => match r with | ⟨.ok, _, _⟩ => yes | _ => no)
    (g := fun r => match r with | ⟨.ok, _, _⟩ => yes' | _ => no') H hG h hg ?_ ?_ ?_
  · rintro ⟨o, s, es⟩ _
    cases o
    · exact h1
    · exact h2
    · exact h2
  · unfold ifTry
    cases rec cx c st with
    | none => rfl
    | some r => obtain ⟨o, s, es⟩ := r; cases o <;> rfl
  · unfold ifTry
    cases rec' cx c st with
    | none => rfl
    | some r => obtain ⟨o, s, es⟩ := r; cases o <;> rfl

include hG0 in
theorem rel_nested_eq {r : Rule} {p : Nat} {v : Bool × Nat × List Ev} (h1 : nested rec r p = some v) :
    nested rec' r p = some v := by
  unfold nested at h1 ⊢
  cases hr : rec ⟨none, 0⟩ (.run r) { pos := p } with
  | none => rw [hr] at h1; cases h1
  | some q =>
    rw [hr] at h1
    rw [(H ⟨none, 0⟩ (.run r) { pos := p } (hG0 _) q hr).1]
    exact h1

theorem rel_tokenDone {st0 st : St} {cx : Cx} {k : Kind} {e : Nat} (h : Later st0 st) (hg : G cx.maxDepth st0.depth) :
    Rel st0 (tokenDone rec cx k e st) (tokenDone rec' cx k e st) := by
  unfold tokenDone
  exact rel_emit (rel_rec H hG h hg)

theorem rel_tokenParse {st0 st : St} {cx : Cx} {k : Kind} {tag e : Nat} {b : Bool} (h : Later st0 st)
    (hg : G cx.maxDepth st0.depth) :
    Rel st0 (tokenParse rec cx k tag b e st) (tokenParse rec' cx k tag b e st) := by
  unfold tokenParse
  split
  · exact rel_tokenDone H hG h hg
  · exact rel_some h

theorem rel_primDone {st0 st : St} {cx : Cx} {ws : Bool} {x : Bool × Nat × List Ev} (h : Later st0 st)
    (hg : G cx.maxDepth st0.depth) : Rel st0 (primDone rec cx ws x st) (primDone rec' cx ws x st) := by
  unfold primDone
  refine rel_emit ?_
  split
  · split
    · exact rel_rec H hG h hg
    · exact rel_some h
  · exact rel_some h

theorem rel_production {st0 st : St} {cx : Cx} {n : Nat} {f g : Cx → St → Option Res} (h : Later st0 st)
    (hg : G cx.maxDepth st0.depth) (hf : Rel st0 (f (cx.sub (E.prods n)) { st with ex := {} }) (g (cx.sub (E.prods n)) { st with ex := {} })) :
    Rel st0 (production E rec cx n f st) (production E rec' cx n g st) := by
  unfold production
  refine rel_emit (rel_andThen (rel_framed h hf) fun o st' hs => ?_)
  cases o
  · refine rel_emit ?_
    split
    · exact rel_rec H hG hs hg
    · exact rel_some hs
  · exact rel_some hs
  · exact rel_none

theorem rel_opFinish {st0 st : St} {cx : Cx} {k : Kind} {r : Rule} {b : Nat} (h : Later st0 st)
    (hg : G cx.maxDepth st0.depth) : Rel st0 (opFinish rec cx k r b st) (opFinish rec' cx k r b st) := by
  unfold opFinish
  exact rel_emit (rel_onOk' (rel_rec H hG h hg) fun st' hs => rel_rec H hG hs hg)

theorem rel_opInfix {st0 st : St} {cx : Cx} {i : Nat} {o : OpDef} {b : Bool} (h : Later st0 st)
    (hg : G cx.maxDepth st0.depth) : Rel st0 (opInfix E rec cx i o b st) (opInfix E rec' cx i o b st) := by
  unfold opInfix
  refine rel_andThen (rel_rec H hG h hg) fun out st' hs => ?_
  cases out
  · refine rel_bind fun lhs _ => rel_bind fun rhs _ => ?_
    simp only
    split
    · split
      · exact rel_none
      · exact rel_some hs
      · exact rel_some hs
    · exact rel_some hs
  · exact rel_some hs
  · exact rel_none

theorem rel_opCont {st0 st : St} {cx : Cx} {i : Nat} {o : OpDef} (h : Later st0 st)
    (hg : G cx.maxDepth st0.depth) : Rel st0 (opCont E rec cx i o st) (opCont E rec' cx i o st) := by
  unfold opCont
  split
  · exact rel_bind fun v _ => rel_rec H hG h hg
  · exact rel_onOk' (rel_rec H hG h hg) fun st' hs => rel_bind fun v _ => rel_some hs
  · exact rel_bind fun v _ => rel_some h
  · exact rel_opInfix H hG h hg
  · exact rel_opInfix H hG h hg

/-- States. -/
local macro "later" : tactic =>
  `(tactic| first
    | assumption
    | exact Later.refl _
    | exact ⟨Ext.set (And.left (by assumption)) _ _ ⟨_, rfl⟩, And.right (by assumption)⟩
    | exact ⟨Ext.create (And.left (by assumption)) _ ⟨_, rfl⟩, And.right (by assumption)⟩
    | exact later_frame (by assumption) (by assumption))

set_option hygiene false in
/-- One step through the combinators. -/
local macro "rel_one" H:term "," hG:term "," hG0:term "," hg:term "," st:term : tactic =>
  `(tactic| first
    | exact rel_none
    | exact rel_some (by later)
    | exact rel_ret (by later)
    | exact rel_rec $H $hG (by later) $hg
    | exact rel_tokenDone $H $hG (by later) $hg
    | exact rel_tokenParse $H $hG (by later) $hg
    | exact rel_primDone $H $hG (by later) $hg
    | exact rel_opFinish $H $hG (by later) $hg
    | exact rel_opCont $H $hG (by later) $hg
    | refine rel_emit ?_
    | refine rel_framed (by later) ?_
    | refine rel_onOk ?_ fun _ _ => ?_
    | refine rel_onOk' ?_ fun _ _ => ?_
    | refine rel_andThen ?_ fun o _ _ => ?_
    | refine rel_ifTry $H $hG (by later) $hg ?_ ?_
    | refine rel_bind fun _ _ => ?_
    | refine rel_production $H $hG (by later) $hg ?_
    | (intro r hr
       try dsimp only at hr ⊢
       split at hr
       · cases hr
       rename_i heq
       obtain ⟨heq', hlater⟩ := rel_rec (st0 := $st) $H $hG (by later) $hg _ heq
       rw [heq']
       try dsimp only
       revert hr
       revert r
       show Rel $st _ _)
    | (intro r hr
       try dsimp only at hr ⊢
       split at hr
       · cases hr
       rename_i heq
       rw [rel_nested_eq $H $hG $hG0 heq]
       try dsimp only
       revert hr
       revert r
       show Rel $st _ _)
    | split)

include hG0

theorem rel_stepRun (cx : Cx) (st : St) (hg : G cx.maxDepth st.depth) (r : Rule) (hr : ∀ n tag b, r ≠ .recu n tag b) :
    Rel st (stepRun E rec cx st r) (stepRun E rec' cx st r) := by
  have hs : Later st st := .refl st
  cases r
  case recu n tag b => exact absurd rfl (hr n tag b)
  case err tag r => cases r <;> simp only [stepRun] <;> repeat' (rel_one H, hG, hG0, hg, st)
  all_goals simp only [stepRun]
  all_goals repeat' (rel_one H, hG, hG0, hg, st)

theorem rel_stepTry (cx : Cx) (st : St) (hg : G cx.maxDepth st.depth) (r : Rule) :
    Rel st (stepTry E rec cx st r) (stepTry E rec' cx st r) := by
  have hs : Later st st := .refl st
  cases r
  all_goals simp only [stepTry]
  all_goals repeat' (rel_one H, hG, hG0, hg, st)

theorem rel_stepCancel (cx : Cx) (st : St) (hg : G cx.maxDepth st.depth) (r : Rule) :
    Rel st (stepCancel E rec cx st r) (stepCancel E rec' cx st r) := by
  have hs : Later st st := .refl st
  cases r
  all_goals simp only [stepCancel]
  all_goals repeat' (rel_one H, hG, hG0, hg, st)

theorem rel_stepFinish (cx : Cx) (st : St) (hg : G cx.maxDepth st.depth) (r : Rule) (hr : ∀ n tag b, r ≠ .recu n tag b) :
    Rel st (stepFinish E rec cx st r) (stepFinish E rec' cx st r) := by
  have hs : Later st st := .refl st
  cases r
  case recu n tag b => exact absurd rfl (hr n tag b)
  all_goals simp only [stepFinish]
  all_goals repeat' (rel_one H, hG, hG0, hg, st)

theorem rel_step (cx : Cx) (st : St) (hg : G cx.maxDepth st.depth) (c : Cmd)
    (h1 : ∀ n tag b, c ≠ .run (.recu n tag b)) (h2 : ∀ n tag b, c ≠ .bfinish (.recu n tag b)) :
    Rel st (step E rec cx c st) (step E rec' cx c st) := by
  have hs : Later st st := .refl st
  cases c
  case run r => exact rel_stepRun H hG hG0 cx st hg r fun n tag b h => h1 n tag b (by rw [h])
  case btry r => exact rel_stepTry H hG hG0 cx st hg r
  case bcancel r => exact rel_stepCancel H hG hG0 cx st hg r
  case bfinish r => exact rel_stepFinish H hG hG0 cx st hg r fun n tag b h => h2 n tag b (by rw [h])
  case chcTry rs => cases rs <;> simp only [step] <;> repeat' (rel_one H, hG, hG0, hg, st)
  case chcRun rs => cases rs <;> simp only [step] <;> repeat' (rel_one H, hG, hG0, hg, st)
  case chcCancel rs => cases rs <;> simp only [step] <;> repeat' (rel_one H, hG, hG0, hg, st)
  case chcFinish rs => cases rs <;> simp only [step] <;> repeat' (rel_one H, hG, hG0, hg, st)
  case tokTry r => cases r <;> simp only [step] <;> repeat' (rel_one H, hG, hG0, hg, st)
  case lstLoop item sep =>
    cases sep with
    | none => simp only [step]; repeat' (rel_one H, hG, hG0, hg, st)
    | some s => obtain ⟨sp, k⟩ := s; simp only [step]; repeat' (rel_one H, hG, hG0, hg, st)
  case ltSep term item sep limit =>
    cases sep with
    | none => simp only [step]; repeat' (rel_one H, hG, hG0, hg, st)
    | some s => obtain ⟨sp, k⟩ := s; simp only [step]; repeat' (rel_one H, hG, hG0, hg, st)
  case ltRec b term item sep limit =>
    cases sep with
    | none => simp only [step]; repeat' (rel_one H, hG, hG0, hg, st)
    | some s => obtain ⟨sp, k⟩ := s; simp only [step]; repeat' (rel_one H, hG, hG0, hg, st)
  case recov r => cases r <;> simp only [step] <;> repeat' (rel_one H, hG, hG0, hg, st)
  case repTail k item sep =>
    cases k with
    | zero => simp only [step]; repeat' (rel_one H, hG, hG0, hg, st)
    | succ k =>
      cases sep with
      | none => simp only [step]; repeat' (rel_one H, hG, hG0, hg, st)
      | some s => simp only [step]; repeat' (rel_one H, hG, hG0, hg, st)
  all_goals simp only [step]
  all_goals repeat' (rel_one H, hG, hG0, hg, st)

end

end Verif
