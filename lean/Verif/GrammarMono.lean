import Verif.Grammar

/-
The number of steps given to the interpreter does not matter: with more steps the result is the same.
-/

namespace Verif

open Lean.Order

section

variable {α : Sort _} [PartialOrder α]

theorem le_iff {β : Type} {x y : Option β} : x ⊑ y ↔ ∀ r, x = some r → y = some r := by
  constructor
  · intro h r hr
    cases h with
    | bot => cases hr
    | refl => exact hr
  · intro h
    cases x with
    | none => exact .bot
    | some r => rw [h r rfl]; exact .refl

/-- Matching on a result that has to exist. -/
theorem monotone_match {β γ : Type} (x : α → Option β) (f : α → β → Option γ) {g : α → Option γ}
    (hg : ∀ a, g a = (x a).bind (f a)) (hx : monotone x) (hf : monotone f) : monotone g := by
  intro a b hab
  rw [hg, hg, le_iff]
  intro r hr
  obtain ⟨r', h1, h2⟩ := Option.bind_eq_some_iff.1 hr
  rw [le_iff.1 (hx a b hab) _ h1]
  exact le_iff.1 (hf a b hab r') _ h2

@[partial_fixpoint_monotone]
theorem monotone_andThen (x : α → Option Res) (f : α → Out → St → Option Res) (hx : monotone x)
    (hf : monotone f) : monotone fun a => andThen (x a) (f a) := by
  refine monotone_match x (fun a r => (f a r.out r.st).map fun r' => ⟨r'.out, r'.st, r.evs ++ r'.evs⟩)
    (fun a => ?_) hx ?_
  · unfold andThen
    cases x a <;> rfl
  · refine monotone_of_monotone_apply _ fun r => ?_
    refine monotone_match (fun a => f a r.out r.st) (fun _ r' => some ⟨r'.out, r'.st, r.evs ++ r'.evs⟩)
      (fun a => ?_) ?_ ?_
    · cases f a r.out r.st <;> rfl
    · exact fun a b hab => hf a b hab _ _
    · monotonicity

@[partial_fixpoint_monotone]
theorem monotone_onOk (x : α → Option Res) (f : α → St → Option Res) (hx : monotone x)
    (hf : monotone f) : monotone fun a => onOk (x a) (f a) := by
  refine monotone_andThen x _ hx ?_
  refine monotone_of_monotone_apply _ fun o => monotone_of_monotone_apply _ fun st => ?_
  cases o
  · exact fun a b hab => hf a b hab _
  · exact fun a b hab => PartialOrder.rel_refl
  · exact fun a b hab => PartialOrder.rel_refl

@[partial_fixpoint_monotone]
theorem monotone_onOk' (x : α → Option Res) (f : α → St → Option Res) (hx : monotone x)
    (hf : monotone f) : monotone fun a => onOk' (x a) (f a) := by
  refine monotone_andThen x _ hx ?_
  refine monotone_of_monotone_apply _ fun o => monotone_of_monotone_apply _ fun st => ?_
  cases o
  · exact fun a b hab => hf a b hab _
  · exact fun a b hab => PartialOrder.rel_refl
  · exact fun a b hab => PartialOrder.rel_refl

@[partial_fixpoint_monotone]
theorem monotone_emit (evs : List Ev) (x : α → Option Res) (hx : monotone x) :
    monotone fun a => emit evs (x a) := by
  refine monotone_match x (fun _ r => some ⟨r.out, r.st, evs ++ r.evs⟩) (fun a => ?_) hx ?_
  · unfold emit
    cases x a <;> rfl
  · monotonicity

@[partial_fixpoint_monotone]
theorem monotone_framed (n : Nat) (x : α → Option Res) (hx : monotone x) :
    monotone fun a => framed n (x a) := by
  refine monotone_match x (fun _ r => some { r with st := r.st.frame n }) (fun a => ?_) hx ?_
  · unfold framed
    cases x a <;> rfl
  · monotonicity

@[partial_fixpoint_monotone]
theorem monotone_optBind {β : Type} (x : Option β) (f : α → β → Option Res) (hf : monotone f) :
    monotone fun a => x.bind (f a) := by
  cases x with
  | none => intro a b hab; exact PartialOrder.rel_refl
  | some r => intro a b hab; exact hf a b hab r

end

/-- The interpreter of the previous steps. -/
abbrev Rec := Cx → Cmd → St → Option Res

@[partial_fixpoint_monotone]
theorem monotone_ifTry {α : Sort _} [PartialOrder α] (rec : α → Rec) (cx : Cx) (c : Cmd) (st : St)
    (y n : α → Option Res) (hr : monotone rec) (hy : monotone y) (hn : monotone n) :
    monotone fun a => ifTry (rec a) cx c st (y a) (n a) := by
  refine monotone_match (fun a => rec a cx c st) (fun a r => if r.out = .ok then y a else n a) (fun a => ?_) ?_ ?_
  · unfold ifTry
    cases rec a cx c st with
    | none => rfl
    | some r =>
      obtain ⟨o, st, evs⟩ := r
      cases o <;> rfl
  · exact fun a b hab => hr a b hab _ _ _
  · refine monotone_of_monotone_apply _ fun r => ?_
    exact monotone_ite _ _ _ hy hn

theorem monotone_nested (r : Rule) (pos : Nat) : monotone fun rec : Rec => nested rec r pos := by
  refine monotone_match (fun rec => rec ⟨none, 0⟩ (.run r) { pos := pos })
    (fun _ r => match r with
      | ⟨.ok, st, evs⟩ => some (true, st.pos, evs)
      | ⟨.fail, st, evs⟩ => some (false, st.pos, evs)
      | ⟨.brk, _, _⟩ => none) (fun rec => ?_) ?_ ?_
  · unfold nested
    cases rec ⟨none, 0⟩ (.run r) { pos := pos } with
    | none => rfl
    | some r => obtain ⟨o, st, evs⟩ := r; cases o <;> rfl
  · exact fun a b hab => hab _ _ _
  · exact fun a b hab _ => PartialOrder.rel_refl

@[partial_fixpoint_monotone]
theorem monotone_resBind {α : Sort _} [PartialOrder α] {β : Type} (x : α → Option β) (f : α → β → Option Res)
    (hx : monotone x) (hf : monotone f) : monotone fun a => Option.bind (x a) (f a) :=
  monotone_match x f (fun _ => rfl) hx hf

theorem monotone_tokenDone_id (cx : Cx) (k : Kind) (e : Nat) (st : St) :
    monotone fun rec : Rec => tokenDone rec cx k e st := by
  unfold tokenDone; repeat' (first | exact monotone_id | monotonicity)

@[partial_fixpoint_monotone]
theorem monotone_tokenDone {α : Sort _} [PartialOrder α] (rec : α → Rec) (cx : Cx) (k : Kind) (e : Nat) (st : St)
    (hr : monotone rec) : monotone fun a => tokenDone (rec a) cx k e st :=
  fun a b hab => monotone_tokenDone_id cx k e st _ _ (hr a b hab)

theorem monotone_tokenParse_id (cx : Cx) (k : Kind) (tag : Nat) (b : Bool) (e : Nat) (st : St) :
    monotone fun rec : Rec => tokenParse rec cx k tag b e st := by
  unfold tokenParse; repeat' (first | exact monotone_id | monotonicity | exact monotone_id)

@[partial_fixpoint_monotone]
theorem monotone_tokenParse {α : Sort _} [PartialOrder α] (rec : α → Rec) (cx : Cx) (k : Kind) (tag : Nat) (b : Bool) (e : Nat) (st : St)
    (hr : monotone rec) : monotone fun a => tokenParse (rec a) cx k tag b e st :=
  fun a a' hab => monotone_tokenParse_id cx k tag b e st _ _ (hr a a' hab)

theorem monotone_primDone_id (cx : Cx) (ws : Bool) (r : Bool × Nat × List Ev) (st : St) :
    monotone fun rec : Rec => primDone rec cx ws r st := by
  unfold primDone; repeat' (first | exact monotone_id | monotonicity | exact monotone_id)

@[partial_fixpoint_monotone]
theorem monotone_primDone {α : Sort _} [PartialOrder α] (rec : α → Rec) (cx : Cx) (ws : Bool) (r : Bool × Nat × List Ev) (st : St)
    (hr : monotone rec) : monotone fun a => primDone (rec a) cx ws r st :=
  fun a b hab => monotone_primDone_id cx ws r st _ _ (hr a b hab)

@[partial_fixpoint_monotone]
theorem monotone_production {α : Sort _} [PartialOrder α] (E : Env) (rec : α → Rec) (cx : Cx) (n : Nat)
    (body : α → Cx → St → Option Res) (st : St) (hr : monotone rec) (hb : monotone body) :
    monotone fun a => production E (rec a) cx n (body a) st := by
  unfold production
  refine monotone_emit _ _ (monotone_andThen _ _ (monotone_framed _ _ fun a b hab => hb a b hab _ _) ?_)
  refine monotone_of_monotone_apply _ fun o => monotone_of_monotone_apply _ fun st' => ?_
  cases o
  · refine monotone_emit _ _ (monotone_ite _ _ _ ?_ ?_)
    · exact fun a b hab => hr a b hab _ _ _
    · exact fun a b hab => PartialOrder.rel_refl
  · exact fun a b hab => PartialOrder.rel_refl
  · exact fun a b hab => PartialOrder.rel_refl

@[partial_fixpoint_monotone]
theorem monotone_deeper {α : Sort _} [PartialOrder α] (cx : Cx) (tag : Nat) (st : St) (body : α → St → Option Res)
    (hb : monotone body) : monotone fun a => deeper cx tag st (body a) := by
  unfold deeper
  refine monotone_ite _ _ _ ?_ (monotone_ite _ _ _ ?_ (monotone_onOk' _ _ ?_ ?_))
  · exact fun a b hab => PartialOrder.rel_refl
  · exact fun a b hab => PartialOrder.rel_refl
  · exact fun a b hab => hb a b hab _
  · exact fun a b hab => PartialOrder.rel_refl

theorem monotone_opFinish_id (cx : Cx) (k : Kind) (r : Rule) (b : Nat) (st : St) :
    monotone fun rec : Rec => opFinish rec cx k r b st := by
  unfold opFinish; repeat' (first | exact monotone_id | monotonicity | exact monotone_id)

@[partial_fixpoint_monotone]
theorem monotone_opFinish {α : Sort _} [PartialOrder α] (rec : α → Rec) (cx : Cx) (k : Kind) (r : Rule) (b : Nat) (st : St)
    (hr : monotone rec) : monotone fun a => opFinish (rec a) cx k r b st :=
  fun a a' hab => monotone_opFinish_id cx k r b st _ _ (hr a a' hab)

theorem monotone_opInfix_id (E : Env) (cx : Cx) (i : Nat) (o : OpDef) (single : Bool) (st : St) :
    monotone fun rec : Rec => opInfix E rec cx i o single st := by
  unfold opInfix; repeat' (first | exact monotone_id | monotonicity | exact monotone_id)

@[partial_fixpoint_monotone]
theorem monotone_opInfix {α : Sort _} [PartialOrder α] (rec : α → Rec) (E : Env) (cx : Cx) (i : Nat) (o : OpDef) (single : Bool) (st : St)
    (hr : monotone rec) : monotone fun a => opInfix E (rec a) cx i o single st :=
  fun a b hab => monotone_opInfix_id E cx i o single st _ _ (hr a b hab)

theorem monotone_opCont_id (E : Env) (cx : Cx) (i : Nat) (o : OpDef) (st : St) :
    monotone fun rec : Rec => opCont E rec cx i o st := by
  unfold opCont; repeat' (first | exact monotone_id | monotonicity | exact monotone_id)

@[partial_fixpoint_monotone]
theorem monotone_opCont {α : Sort _} [PartialOrder α] (rec : α → Rec) (E : Env) (cx : Cx) (i : Nat) (o : OpDef) (st : St)
    (hr : monotone rec) : monotone fun a => opCont E (rec a) cx i o st :=
  fun a b hab => monotone_opCont_id E cx i o st _ _ (hr a b hab)

theorem nested_mono {a b : Rec} (hab : a ⊑ b) {r : Rule} {pos : Nat} {x : Bool × Nat × List Ev}
    (h : nested a r pos = some x) : nested b r pos = some x :=
  le_iff.1 (monotone_nested r pos a b hab) _ h

/-- Matching on a previous result. -/
local macro "mono_rec" : tactic =>
  `(tactic| (intro a b hab
             rw [le_iff]
             intro r hr
             dsimp only at hr ⊢
             split at hr
             · cases hr
             · rename_i heq
               first
                 | rw [le_iff.1 (hab _ _ _) _ heq]
                 | rw [nested_mono hab heq]
               dsimp only
               first
                 | exact hr
                 | exact le_iff.1 (monotone_tokenDone_id _ _ _ _ a b hab) _ hr
                 | exact le_iff.1 (monotone_tokenParse_id _ _ _ _ _ _ a b hab) _ hr
                 | (split at hr
                    · rename_i h; rw [if_pos h]; first | exact le_iff.1 (hab _ _ _) _ hr | exact hr
                    · rename_i h; rw [if_neg h]; first | exact le_iff.1 (hab _ _ _) _ hr | exact hr)))

theorem monotone_stepRun_id (E : Env) (cx : Cx) (st : St) (r : Rule) :
    monotone fun rec : Rec => stepRun E rec cx st r := by
  unfold stepRun
  repeat' (first | exact monotone_id | monotonicity | mono_rec)

@[partial_fixpoint_monotone]
theorem monotone_stepRun {α : Sort _} [PartialOrder α] (rec : α → Rec) (E : Env) (cx : Cx) (st : St) (r : Rule)
    (hr : monotone rec) : monotone fun a => stepRun E (rec a) cx st r :=
  fun a b hab => monotone_stepRun_id E cx st r _ _ (hr a b hab)

theorem monotone_stepTry_id (E : Env) (cx : Cx) (st : St) (r : Rule) :
    monotone fun rec : Rec => stepTry E rec cx st r := by
  unfold stepTry
  repeat' (first | exact monotone_id | monotonicity | mono_rec)

@[partial_fixpoint_monotone]
theorem monotone_stepTry {α : Sort _} [PartialOrder α] (rec : α → Rec) (E : Env) (cx : Cx) (st : St) (r : Rule)
    (hr : monotone rec) : monotone fun a => stepTry E (rec a) cx st r :=
  fun a b hab => monotone_stepTry_id E cx st r _ _ (hr a b hab)

theorem monotone_stepCancel_id (E : Env) (cx : Cx) (st : St) (r : Rule) :
    monotone fun rec : Rec => stepCancel E rec cx st r := by
  unfold stepCancel
  repeat' (first | exact monotone_id | monotonicity | mono_rec)

@[partial_fixpoint_monotone]
theorem monotone_stepCancel {α : Sort _} [PartialOrder α] (rec : α → Rec) (E : Env) (cx : Cx) (st : St) (r : Rule)
    (hr : monotone rec) : monotone fun a => stepCancel E (rec a) cx st r :=
  fun a b hab => monotone_stepCancel_id E cx st r _ _ (hr a b hab)

theorem monotone_stepFinish_id (E : Env) (cx : Cx) (st : St) (r : Rule) :
    monotone fun rec : Rec => stepFinish E rec cx st r := by
  unfold stepFinish
  repeat' (first | exact monotone_id | monotonicity | mono_rec)

@[partial_fixpoint_monotone]
theorem monotone_stepFinish {α : Sort _} [PartialOrder α] (rec : α → Rec) (E : Env) (cx : Cx) (st : St) (r : Rule)
    (hr : monotone rec) : monotone fun a => stepFinish E (rec a) cx st r :=
  fun a b hab => monotone_stepFinish_id E cx st r _ _ (hr a b hab)

theorem monotone_step (E : Env) (cx : Cx) (c : Cmd) (st : St) : monotone fun rec : Rec => step E rec cx c st := by
  unfold step
  repeat' (first | exact monotone_id | monotonicity | mono_rec)

theorem exec_le (E : Env) (n : Nat) : (exec E n : Rec) ⊑ exec E (n + 1) := by
  induction n with
  | zero => exact fun _ _ _ => .bot
  | succ n ih => exact fun cx c st => monotone_step E cx c st _ _ ih

/-- With more steps the result is the same. -/
theorem exec_mono {E : Env} {n m : Nat} (h : n ≤ m) {cx : Cx} {c : Cmd} {st : St} {r : Res}
    (hr : exec E n cx c st = some r) : exec E m cx c st = some r := by
  induction h with
  | refl => exact hr
  | step _ ih => exact le_iff.1 (exec_le E _ cx c st) _ ih

/-- What a command does, given enough steps.  `none` if it never ends, if an assertion is violated or if it would not
    compile. -/
def Exec (E : Env) (cx : Cx) (c : Cmd) (st : St) (r : Res) : Prop := ∃ n, exec E n cx c st = some r

/-- The result is unique. -/
theorem Exec.unique {E : Env} {cx : Cx} {c : Cmd} {st : St} {r r' : Res} (h : Exec E cx c st r)
    (h' : Exec E cx c st r') : r = r' := by
  obtain ⟨n, h⟩ := h
  obtain ⟨m, h'⟩ := h'
  have h1 := exec_mono (Nat.le_max_left n m) h
  have h2 := exec_mono (Nat.le_max_right n m) h'
  rw [h1] at h2
  exact Option.some.inj h2

/-- The result of a whole grammar does not depend on the number of steps. -/
theorem runGrammar_mono {E : Env} {f g n d : Nat} (h : f ≤ g) {r : Res} (hr : runGrammar E f n d = some r) :
    runGrammar E g n d = some r := by
  have hle : (exec E f : Rec) ⊑ exec E g := by
    intro cx c st
    rw [le_iff]
    exact fun r hr => exec_mono h hr
  refine le_iff.1 ?_ r hr
  have hm : monotone fun rec : Rec => emit [.grammarStart 0, .prodStart n 0]
    (andThen (onOk' (rec ⟨(E.prods n).ws, d⟩ .ws { pos := 0 }) fun st => rec ⟨(E.prods n).ws, d⟩ (.run (E.prods n).rule) st)
      fun o st =>
      match o with
      | .ok => some ⟨.ok, st, [.prodFinish n st.pos, .grammarFinish st.pos]⟩
      | .fail => some ⟨.fail, st, [.prodCancel n st.pos, .grammarCancel st.pos]⟩
      | .brk => none) := by
    repeat' (first | exact monotone_id | monotonicity)
  exact hm _ _ hle

end Verif
