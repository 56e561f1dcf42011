import Verif.ChoiceProps
import Verif.GrammarQuiet

/-
Whitespace skipping: what is skipped, and rules in which nothing is skipped.
-/

namespace Verif

/-! ## What is skipped -/

namespace Spec

/-- The token rule `r` matches from `p` to `q`. -/
def MatchTo (E : Env) (r : Rule) (p q : Nat) : Prop :=
  match r with
  | .tok t => t.run (E.inp.drop p) = (true, q - p) ∧ p ≤ q
  | .tokr _ _ r => ∃ z, Exec E ⟨none, 0⟩ (.run r) { pos := p } z ∧ z.out = .ok ∧ (∀ ev ∈ z.evs, ev.isError = false) ∧ z.st.pos = q
  | _ => False

/-- A whitespace token matches again and again until it does not match any more. -/
inductive TokSkip (E : Env) (r : Rule) : Nat → Nat → Prop
  | stop {p} : ¬ MatchesHere E r p → TokSkip E r p p
  | more {p p' q} : MatchTo E r p p' → TokSkip E r p' q → TokSkip E r p q

/-- The alternatives of a whitespace rule. -/
def wsAlts : Rule → List Rule
  | .wsr r => wsAlts r
  | .chc rs => rs
  | r => [r]

/-- The first alternative that matches is parsed, again and again, until none matches. -/
inductive RuleSkip (E : Env) (rs : List Rule) : St → St → Prop
  | stop {st} : (∀ r ∈ rs, Leaves E r st) → RuleSkip E rs st st
  | more {st st' pre b post z} : rs = pre ++ b :: post → (∀ r ∈ pre, Leaves E r st) → Takes E b st →
      Exec E ⟨none, 0⟩ (.bfinish b) st z → z.out = .ok → RuleSkip E rs (z.st.frame st.vars.length) st' → RuleSkip E rs st st'

end Spec

theorem tokTry_to {E : Env} {n : Nat} {cx : Cx} {r : Rule} {st : St} {y : Res} (hr : r.isToken = true)
    (h : exec E n cx (.tokTry r) st = some y) (ho : y.out = .ok) : Spec.MatchTo E r st.pos y.st.pos := by
  cases n with
  | zero => cases h
  | succ n =>
    rw [exec_succ] at h
    cases r <;> try (exact Bool.noConfusion hr)
    · simp only [step, ret, Option.some.injEq] at h
      subst h
      simp only at ho ⊢
      split at ho
      · rename_i hb
        exact ⟨Prod.ext hb (by simp only; omega), by omega⟩
      · cases ho
    · simp only [step] at h
      split at h
      · cases h
      · rename_i b e evs hn
        obtain ⟨z, h1, h2, h3, h4⟩ := nested_some hn
        cases h
        simp only at ho
        split at ho
        · rename_i hb
          simp only [Bool.and_eq_true, Bool.not_eq_true', List.any_eq_false] at hb
          refine ⟨z, ⟨n, h1⟩, ?_, ?_, h2⟩
          · rw [h4, hb.1]; rfl
          · intro ev hev
            rw [h3] at hev
            simpa using hb.2 ev hev
        · cases ho

theorem tokLoop_some {E : Env} {n : Nat} {cx : Cx} {r : Rule} {st : St} {x : Res} (hr : r.isToken = true)
    (h : exec E n cx (.tokLoop r) st = some x) :
    x.out = .ok ∧ x.evs = [] ∧ x.st = { st with pos := x.st.pos } ∧ Spec.TokSkip E r st.pos x.st.pos := by
  induction n generalizing st x with
  | zero => cases h
  | succ n ih =>
    rw [exec_succ] at h
    simp only [step] at h
    split at h
    · cases h
    · rename_i y hy
      split at h
      · rename_i ho
        simp only [beq_iff_eq] at ho
        obtain ⟨h1, h2, h3, h4⟩ := ih h
        exact ⟨h1, h2, h3, .more (tokTry_to hr hy ho) h4⟩
      · rename_i ho
        cases h
        refine ⟨rfl, rfl, rfl, .stop ?_⟩
        rw [← tokTry_spec hy]
        simpa using ho

theorem chcRun_brk {E : Env} {n : Nat} {cx : Cx} {rs : List Rule} {st : St} {x : Res} (hl : st.pos ≤ E.inp.length)
    (h : exec E n cx (.chcRun (rs ++ [.brk])) st = some x) :
    (∃ pre b post r', rs = pre ++ b :: post ∧ (∀ r ∈ pre, Leaves E r st) ∧ Takes E b st ∧
        Exec E cx (.bfinish b) st r' ∧ x.out = r'.out ∧ x.st = r'.st) ∨
    ((∀ r ∈ rs, Leaves E r st) ∧ x.out = .brk ∧ x.st = st) := by
  rcases chcRun_some hl h with ⟨pre, b, post, ce, r', g1, g2, g3, g4, g5, g6, g7⟩ | ⟨g1, ce, g2, g3⟩
  · rcases List.eq_nil_or_concat post with rfl | ⟨post', y, rfl⟩
    · have : rs = pre ∧ Rule.brk = b := by
        have := List.append_inj' g1 rfl
        exact ⟨this.1, by simpa using this.2⟩
      obtain ⟨rfl, rfl⟩ := this
      refine .inr ⟨g2, ?_⟩
      cases n with
      | zero => cases g4
      | succ n =>
        cases n with
        | zero => cases g4
        | succ n =>
          simp only [exec_succ, step, stepFinish, stepRun, ret] at g4
          cases g4
          rw [g6]
          exact ⟨rfl, rfl⟩
    · have : rs = pre ++ b :: post' := by
        rw [List.concat_eq_append, ← List.cons_append, ← List.append_assoc] at g1
        exact (List.append_inj' g1 rfl).1
      exact .inl ⟨pre, b, post', r', this, g2, g3, ⟨n, g4⟩, by rw [g6], by rw [g6]⟩
  · exfalso
    have := g1 .brk (by simp)
    obtain ⟨cx', m, hm⟩ := this
    cases m with
    | zero => cases hm
    | succ m =>
      simp only [exec_succ, step, stepTry, ret] at hm
      cases hm

theorem loop_skip {E : Env} {n : Nat} {rs : List Rule} {st : St} {x : Res} (hl : st.pos ≤ E.inp.length)
    (hb : ∀ r ∈ rs, ∀ st z, Exec E ⟨none, 0⟩ (.bfinish r) st z → z.out ≠ .brk)
    (h : exec E n ⟨none, 0⟩ (.loopR (.chc (rs ++ [.brk]))) st = some x) (ho : x.out = .ok) :
    Spec.RuleSkip E rs st x.st := by
  induction n generalizing st x with
  | zero => cases h
  | succ n ih =>
    rw [exec_succ] at h
    simp only [step] at h
    obtain ⟨r1, r2, h1, h2, rfl⟩ := andThen_some.1 h
    obtain ⟨r3, h3, rfl⟩ := framed_some.1 h1
    cases n with
    | zero => cases h3
    | succ n =>
      have h3' := h3
      rw [exec_succ] at h3
      simp only [step, stepRun] at h3
      rcases chcRun_brk hl h3 with ⟨pre, b, post, r', g1, g2, g3, g4, g5, g6⟩ | ⟨g1, g2, g3⟩
      · simp only at h2 ho ⊢
        rw [g5, g6] at h2
        cases hr : r'.out with
        | ok =>
          rw [hr] at h2
          have hp : (r'.st.frame st.vars.length).pos ≤ E.inp.length := by
            have := (exec_good E (n + 1) ⟨none, 0⟩ (.run (.chc (rs ++ [.brk]))) st hl) r3 h3'
            have := (this.bounds hl).2
            rw [g6] at this
            exact this
          exact .more g1 g2 g3 g4 hr (ih hp h2 ho)
        | fail => rw [hr] at h2; cases h2; cases ho
        | brk =>
          exact absurd hr (hb b (by rw [g1]; simp) _ _ g4)
      · simp only at h2 ho ⊢
        rw [g2, g3] at h2
        cases h2
        rw [show st.frame st.vars.length = st by unfold St.frame; simp]
        exact .stop g1

/-! ## Inside `no_whitespace` -/

mutual
/-- All operations of an expression production. -/
def OpTree.all : OpTree → List OpDef
  | .atom => []
  | .op o operand => o :: operand.all
  | .groups gs => OpTree.allGroups gs
def OpTree.allGroups : List OpTree → List OpDef
  | [] => []
  | g :: gs => g.all ++ OpTree.allGroups gs
end

mutual
theorem opList_all (pre : Bool) (min level : Nat) (t : OpTree) {o : OpDef} (h : o ∈ t.opList pre min level) : o ∈ t.all := by
  match t with
  | .atom => simp [OpTree.opList] at h
  | .op o' t =>
    simp only [OpTree.opList] at h
    simp only [OpTree.all, List.mem_cons]
    split at h
    · rcases List.mem_append.1 h with h | h
      · exact .inr (opList_all pre min (level + 1) t h)
      · exact .inl (by simpa using h)
    · exact .inr (opList_all pre min (level + 1) t h)
  | .groups gs => exact opListGroups_all pre min level gs h
theorem opListGroups_all (pre : Bool) (min level : Nat) (gs : List OpTree) {o : OpDef}
    (h : o ∈ OpTree.opListGroups pre min level gs) : o ∈ OpTree.allGroups gs := by
  match gs with
  | [] => simp [OpTree.opListGroups] at h
  | g :: gs =>
    simp only [OpTree.opListGroups, List.mem_append] at h
    simp only [OpTree.allGroups, List.mem_append]
    rcases h with h | h
    · exact .inl (opList_all pre min level g h)
    · exact .inr (opListGroups_all pre min level gs h)
end

theorem parseOperator_mem {eof : Option Nat} {fold : Nat → Nat} {ops : List OpDef} {s : List Nat} {o : OpDef} {k : Kind}
    {r : Rule} {n : Nat} (h : parseOperator eof fold ops s = some (some ((o, k, r), n))) :
    o ∈ ops ∧ ∃ l, (l, k, r) ∈ o.lits := by
  unfold parseOperator at h
  simp only at h
  split at h
  · cases h
  · cases h
  · split at h
    · cases h
    · rename_i hi
      split at h
      · simp only [Option.some.injEq, Prod.mk.injEq] at h
        obtain ⟨⟨rfl, rfl, rfl⟩, rfl⟩ := h
        have := List.mem_of_getElem? hi
        simp only [flatLits, List.mem_flatMap, List.mem_map, Prod.mk.injEq] at this
        obtain ⟨o', h1, l, h2, h3, h4⟩ := this
        subst h3
        exact ⟨h1, _, by rw [← h4]; exact h2⟩
      · cases h

namespace Spec

/-- A whitespace token. -/
def isWs : Ev → Bool
  | .token .whitespace _ _ => true
  | _ => false

def noWs (evs : List Ev) : Prop := ∀ ev ∈ evs, isWs ev = false

/-- The rule neither is `whitespace(...)` or `no_whitespace(...)` nor are its tokens called whitespace, and the rules it
    directly consists of (apart from those that are only matched, as the content of a token or for lookahead)
    satisfy `P`. -/
def PlainIn (E : Env) (P : Rule → Prop) : Rule → Prop
  | .tok t => t.kind ≠ .whitespace
  | .tokr k _ _ => k ≠ .whitespace
  | .prim p => ∀ s q, noWs (p.parse s q).2.2 ∧ noWs (p.finish s q).2.2
  | .els | .brk | .err .. | .peek .. | .peekn .. | .look .. | .combIt _ | .varCreate .. | .flagSet .. | .flagToggle _
  | .flagIs .. | .cntAdd .. | .cntIs .. | .cntEq .. => True
  | .seq a b | .br a b | .must a b | .optt a b => P a ∧ P b
  | .chc rs => ∀ r ∈ rs, P r
  | .ifR r | .opt r | .loop r | .whl r | .posr r | .nsep _ r | .cntPush _ r _ => P r
  | .lst item sep => P item ∧ ∀ s ∈ sep, P s.1
  | .lstt term item sep _ => P term ∧ P item ∧ ∀ s ∈ sep, P s.1
  | .tryt term r rc => (∀ t ∈ term, P t) ∧ P r ∧ RecovIn rc
  | .tryr r rc => P r ∧ RecovIn rc
  | .prod n => P (E.prods n).rule
  | .recu n _ _ => P (.prod n)
  | .wsn _ | .wsr _ => False
  | .rep c _ item sep => P c ∧ P item ∧ P (trailingRule sep) ∧ ∀ s ∈ sep, P s.1
  | .comb _ rs els => ∀ r ∈ combRules rs els, P r
  | .idCap _ p _ => ∀ s q, noWs (p.parse s q).2.2 ∧ noWs (p.finish s q).2.2
  | .idRem _ _ t => t.kind ≠ .whitespace
  | .expr i => P (E.exprs i).atom ∧ ∀ o ∈ (E.exprs i).ops.all, ∀ l ∈ o.lits, l.2.1 ≠ .whitespace ∧ P l.2.2
where
  RecovIn : Recov → Prop
    | .wrap r => P r
    | .find _ => True
    | .reco _ rs => ∀ r ∈ rs, P r

/-- The same for all the rules it consists of, directly or not. -/
def Plain (E : Env) (r : Rule) : Prop := ∃ P : Rule → Prop, (∀ r, P r → PlainIn E P r) ∧ P r

end Spec

section

open Spec

variable {E : Env} {P : Rule → Prop}

def OpIn (P : Rule → Prop) (o : OpDef) : Prop := ∀ l ∈ o.lits, l.2.1 ≠ .whitespace ∧ P l.2.2
def ExIn (E : Env) (P : Rule → Prop) (i : Nat) : Prop := P (E.exprs i).atom ∧ ∀ o ∈ (E.exprs i).ops.all, OpIn P o

def CmdIn (E : Env) (P : Rule → Prop) : Cmd → Prop
  | .run r | .btry r | .bcancel r | .bfinish r | .loopR r | .whlR r => P r
  | .chcTry rs | .chcRun rs | .chcCancel rs | .chcFinish rs | .recoLoop _ _ rs | .combLoop _ rs _ _ _ => ∀ r ∈ rs, P r
  | .tokTry _ | .ws => True
  | .skip _ | .tokLoop _ => False
  | .lstLoop item sep => P item ∧ ∀ s ∈ sep, P s.1
  | .ltTerm term item sep _ | .ltSep term item sep _ | .ltTrail _ term item sep _ | .ltItem term item sep _
  | .ltRec _ term item sep _ => P term ∧ P item ∧ ∀ s ∈ sep, P s.1
  | .recov rc => PlainIn.RecovIn P rc
  | .repTail _ item sep => P item ∧ P (trailingRule sep) ∧ ∀ s ∈ sep, P s.1
  | .exParse i _ | .exLhs i _ | .exLoop i _ => ExIn E P i
  | .exApply i o k r _ => ExIn E P i ∧ OpIn P o ∧ k ≠ .whitespace ∧ P r
  | .exList i o _ => ExIn E P i ∧ OpIn P o

/-- Whitespace skipping stays off, and no whitespace is reported. -/
def NoWs (x : Option Res) : Prop := ∀ r, x = some r → r.st.wsOn = false ∧ noWs r.evs

theorem noWs_nil : noWs [] := nofun
theorem noWs_append {a b : List Ev} (ha : noWs a) (hb : noWs b) : noWs (a ++ b) := by
  intro ev h
  rcases List.mem_append.1 h with h | h
  · exact ha ev h
  · exact hb ev h
theorem noWs_cons {a : Ev} {b : List Ev} (ha : isWs a = false) (hb : noWs b) : noWs (a :: b) := by
  intro ev h
  rcases List.mem_cons.1 h with h | h
  · subst h; exact ha
  · exact hb ev h
theorem isWs_token {k : Kind} {b e : Nat} (h : k ≠ .whitespace) : isWs (.token k b e) = false := by
  cases k <;> first | rfl | exact absurd rfl h
theorem noWs_trailing (k : SepKind) (b e : Nat) : noWs (trailingError k b e) := by
  cases k <;> simp [trailingError, noWs, isWs]
theorem noWs_skipped (b : Nat) (st : St) (ok : Bool) : noWs (skipped b st ok) := by
  cases ok <;> simp [skipped, noWs, isWs]

theorem n_none : NoWs none := nofun
theorem n_some {r : Res} (h : r.st.wsOn = false) (he : noWs r.evs) : NoWs (some r) := fun r' hr => by cases hr; exact ⟨h, he⟩
theorem n_ret {o : Out} {st : St} (h : st.wsOn = false) : NoWs (ret o st) := n_some h noWs_nil

theorem n_andThen {x : Option Res} {f : Out → St → Option Res} (h : NoWs x) (hf : ∀ o st, st.wsOn = false → NoWs (f o st)) :
    NoWs (andThen x f) := by
  intro r hr
  obtain ⟨r1, r2, h1, h2, rfl⟩ := andThen_some.1 hr
  obtain ⟨h3, h4⟩ := h r1 h1
  obtain ⟨h5, h6⟩ := hf _ _ h3 r2 h2
  exact ⟨h5, noWs_append h4 h6⟩

theorem n_onOk {x : Option Res} {f : St → Option Res} (h : NoWs x) (hf : ∀ st, st.wsOn = false → NoWs (f st)) :
    NoWs (onOk x f) := by
  refine n_andThen h fun o st hs => ?_
  cases o
  · exact hf st hs
  · exact n_some hs noWs_nil
  · exact n_some hs noWs_nil

theorem n_onOk' {x : Option Res} {f : St → Option Res} (h : NoWs x) (hf : ∀ st, st.wsOn = false → NoWs (f st)) :
    NoWs (onOk' x f) := by
  refine n_andThen h fun o st hs => ?_
  cases o
  · exact hf st hs
  · exact n_some hs noWs_nil
  · exact n_none

theorem n_emit {x : Option Res} {evs : List Ev} (he : noWs evs) (h : NoWs x) : NoWs (emit evs x) := by
  intro r hr
  obtain ⟨r1, h1, rfl⟩ := emit_some.1 hr
  obtain ⟨h3, h4⟩ := h r1 h1
  exact ⟨h3, noWs_append he h4⟩

theorem n_framed {x : Option Res} {n : Nat} (h : NoWs x) : NoWs (framed n x) := by
  intro r hr
  obtain ⟨r1, h1, rfl⟩ := framed_some.1 hr
  exact h r1 h1

theorem n_bind {α : Type} {x : Option α} {f : α → Option Res} (h : ∀ a, x = some a → NoWs (f a)) : NoWs (x.bind f) := by
  cases x with
  | none => exact n_none
  | some a => exact h a rfl

variable {rec : Rec} (H : ∀ cx c st, CmdIn E P c → st.wsOn = false → NoWs (rec cx c st))

theorem n_ifTry {cx : Cx} {c : Cmd} {st : St} {yes no : Option Res} (h1 : NoWs yes) (h2 : NoWs no) :
    NoWs (ifTry rec cx c st yes no) := by
  unfold ifTry
  split
  · exact n_none
  · exact h1
  · exact h2

include H

theorem n_tokenDone {cx : Cx} {k : Kind} {e : Nat} {st : St} (hk : k ≠ .whitespace) (h : st.wsOn = false) :
    NoWs (tokenDone rec cx k e st) :=
  n_emit (noWs_cons (isWs_token hk) noWs_nil) (H _ _ _ trivial h)

theorem n_tokenParse {cx : Cx} {k : Kind} {tag e : Nat} {b : Bool} {st : St} (hk : k ≠ .whitespace) (h : st.wsOn = false) :
    NoWs (tokenParse rec cx k tag b e st) := by
  unfold tokenParse
  split
  · exact n_tokenDone H hk h
  · exact n_some h (noWs_cons rfl (noWs_cons rfl noWs_nil))

theorem n_primDone {cx : Cx} {ws : Bool} {x : Bool × Nat × List Ev} {st : St} (hx : noWs x.2.2) (h : st.wsOn = false) :
    NoWs (primDone rec cx ws x st) := by
  unfold primDone
  refine n_emit hx ?_
  split
  · split
    · exact H _ _ _ trivial h
    · exact n_ret h
  · exact n_ret h

theorem n_production {cx : Cx} {n : Nat} {f : Cx → St → Option Res} {st : St} (h : st.wsOn = false)
    (hf : NoWs (f (cx.sub (E.prods n)) { st with ex := {} })) : NoWs (production E rec cx n f st) := by
  unfold production
  refine n_emit (noWs_cons rfl noWs_nil) (n_andThen (n_framed hf) fun o st' hs => ?_)
  cases o
  · refine n_emit (noWs_cons rfl noWs_nil) ?_
    split
    · exact H _ _ _ trivial hs
    · exact n_ret hs
  · exact n_some hs (noWs_cons rfl noWs_nil)
  · exact n_none

omit H in
theorem n_deeper {cx : Cx} {tag : Nat} {st : St} {f : St → Option Res} (h : st.wsOn = false)
    (hf : NoWs (f { st with depth := st.depth + 1 })) : NoWs (deeper cx tag st f) := by
  unfold deeper
  split
  · exact n_none
  · split
    · exact n_some h (noWs_cons rfl noWs_nil)
    · exact n_onOk' hf fun st' hs => n_ret hs

theorem n_opFinish {cx : Cx} {k : Kind} {r : Rule} {b : Nat} {st : St} (hk : k ≠ .whitespace) (hr : P r)
    (h : st.wsOn = false) : NoWs (opFinish rec cx k r b st) :=
  n_emit (noWs_cons (isWs_token hk) noWs_nil) (n_onOk' (H _ _ _ trivial h) fun st' hs => H _ _ _ hr hs)

theorem n_opInfix {cx : Cx} {i : Nat} {o : OpDef} {b : Bool} {st : St} (hi : ExIn E P i)
    (h : st.wsOn = false) : NoWs (opInfix E rec cx i o b st) := by
  unfold opInfix
  refine n_andThen (H _ _ _ hi h) fun out st' hs => ?_
  cases out
  · refine n_bind fun lhs _ => n_bind fun rhs _ => ?_
    simp only
    split
    · split
      · exact n_none
      · exact n_some hs (noWs_cons rfl noWs_nil)
      · exact n_some hs (noWs_cons rfl (noWs_cons rfl noWs_nil))
    · exact n_some hs (noWs_cons rfl noWs_nil)
  · exact n_ret hs
  · exact n_none

theorem n_opCont {cx : Cx} {i : Nat} {o : OpDef} {st : St} (hi : ExIn E P i) (ho : OpIn P o)
    (h : st.wsOn = false) : NoWs (opCont E rec cx i o st) := by
  unfold opCont
  split
  · exact n_bind fun v _ => H _ _ _ ⟨hi, ho⟩ h
  · exact n_onOk' (H _ _ _ hi h) fun st' hs => n_bind fun v _ => n_some hs (noWs_cons rfl noWs_nil)
  · exact n_bind fun v _ => n_some h (noWs_cons rfl noWs_nil)
  · exact n_opInfix H hi h
  · exact n_opInfix H hi h

omit H in
theorem opIn_parse {i : Nat} {eof : Option Nat} {fold : Nat → Nat} {ops : List OpDef} {s : List Nat} {o : OpDef} {k : Kind}
    {r : Rule} {n : Nat} (hi : ExIn E P i) (hops : ∀ o ∈ ops, OpIn P o)
    (h : parseOperator eof fold ops s = some (some ((o, k, r), n))) : CmdIn E P (.exApply i o k r b) := by
  obtain ⟨h1, l, h2⟩ := parseOperator_mem h
  exact ⟨hi, hops o h1, (hops o h1 _ h2).1, (hops o h1 _ h2).2⟩

/-- Events. -/
local macro "nows" : tactic =>
  `(tactic| first
    | exact noWs_nil
    | exact noWs_cons rfl noWs_nil
    | exact noWs_cons rfl (noWs_cons rfl noWs_nil)
    | exact noWs_skipped _ _ _
    | exact noWs_trailing _ _ _
    | exact noWs_cons rfl (noWs_skipped _ _ _)
    | (split <;> first | exact noWs_nil | exact noWs_trailing _ _ _ | exact noWs_cons rfl noWs_nil)
    | (refine noWs_append ?_ (noWs_cons rfl noWs_nil); split <;> first | exact noWs_nil | exact noWs_cons rfl noWs_nil)
    | exact noWs_cons rfl (noWs_cons rfl (noWs_cons rfl (noWs_cons rfl noWs_nil))))

set_option hygiene false in
/-- One step through the combinators. -/
local macro "n_one" H:term : tactic =>
  `(tactic| first
    | exact n_none
    | exact n_some (by assumption) (by nows)
    | exact n_ret (by assumption)
    | exact $H _ _ _ trivial (by assumption)
    | exact $H _ _ _ hp (by assumption)
    | exact $H _ _ _ (And.left hp) (by assumption)
    | exact $H _ _ _ (And.right hp) (by assumption)
    | exact $H _ _ _ (by simp only [CmdIn]; grind) (by assumption)
    | exact n_tokenDone $H (by assumption) (by assumption)
    | exact n_tokenDone $H (fun h => Kind.noConfusion h) (by assumption)
    | exact n_tokenParse $H (by assumption) (by assumption)
    | exact n_primDone $H (And.left (hp _ _)) (by assumption)
    | exact n_primDone $H (And.right (hp _ _)) (by assumption)
    | refine n_emit (by nows) ?_
    | refine n_framed ?_
    | refine n_onOk ?_ fun _ _ => ?_
    | refine n_onOk' ?_ fun _ _ => ?_
    | (refine n_andThen ?_ fun o _ _ => ?_)
    | refine n_ifTry ?_ ?_
    | refine n_bind fun _ _ => ?_
    | refine n_production $H (by assumption) ?_
    | refine n_deeper (by assumption) ?_
    | split)

variable (hP : ∀ r, P r → PlainIn E P r)
include hP

theorem n_stepRun (cx : Cx) (st : St) (hs : st.wsOn = false) (r : Rule) (hr : P r) : NoWs (stepRun E rec cx st r) := by
  have hp := hP r hr
  cases r
  case err tag r => cases r <;> simp only [stepRun] <;> repeat' (n_one H)
  case expr i =>
    simp only [stepRun]
    refine n_andThen (H _ _ _ hp hs) fun o _ _ => ?_
    cases o <;> repeat' (n_one H)
  all_goals simp only [PlainIn] at hp
  all_goals simp only [stepRun]
  all_goals repeat' (n_one H)

theorem n_stepTry (cx : Cx) (st : St) (hs : st.wsOn = false) (r : Rule) (hr : P r) : NoWs (stepTry E rec cx st r) := by
  have hp := hP r hr
  cases r
  all_goals simp only [PlainIn] at hp
  all_goals simp only [stepTry]
  all_goals repeat' (n_one H)

theorem n_stepCancel (cx : Cx) (st : St) (hs : st.wsOn = false) (r : Rule) (hr : P r) : NoWs (stepCancel E rec cx st r) := by
  have hp := hP r hr
  cases r
  all_goals simp only [PlainIn] at hp
  all_goals simp only [stepCancel]
  all_goals repeat' (n_one H)

theorem n_stepFinish (cx : Cx) (st : St) (hs : st.wsOn = false) (r : Rule) (hr : P r) : NoWs (stepFinish E rec cx st r) := by
  have hp := hP r hr
  cases r
  all_goals simp only [PlainIn] at hp
  all_goals simp only [stepFinish]
  all_goals repeat' (n_one H)

theorem n_step (cx : Cx) (c : Cmd) (st : St) (hs : st.wsOn = false) (hp : CmdIn E P c) : NoWs (step E rec cx c st) := by
  cases c
  case run r => exact n_stepRun H hP cx st hs r hp
  case btry r => exact n_stepTry H hP cx st hs r hp
  case bcancel r => exact n_stepCancel H hP cx st hs r hp
  case bfinish r => exact n_stepFinish H hP cx st hs r hp
  case chcTry rs => cases rs <;> simp only [CmdIn] at hp <;> simp only [step] <;> repeat' (n_one H)
  case chcRun rs => cases rs <;> simp only [CmdIn] at hp <;> simp only [step] <;> repeat' (n_one H)
  case chcCancel rs => cases rs <;> simp only [CmdIn] at hp <;> simp only [step] <;> repeat' (n_one H)
  case chcFinish rs => cases rs <;> simp only [CmdIn] at hp <;> simp only [step] <;> repeat' (n_one H)
  case lstLoop item sep =>
    cases sep with
    | none => simp only [CmdIn] at hp; simp only [step]; repeat' (n_one H)
    | some s => obtain ⟨sp, k⟩ := s; simp only [CmdIn] at hp; have hsp : P sp := hp.2 _ rfl; simp only [step]; repeat' (n_one H)
  case ltSep term item sep limit =>
    cases sep with
    | none => simp only [CmdIn] at hp; simp only [step]; repeat' (n_one H)
    | some s => obtain ⟨sp, k⟩ := s; simp only [CmdIn] at hp; have hsp : P sp := hp.2.2 _ rfl; simp only [step]; repeat' (n_one H)
  case ltRec b term item sep limit =>
    cases sep with
    | none => simp only [CmdIn] at hp; simp only [step]; repeat' (n_one H)
    | some s => obtain ⟨sp, k⟩ := s; simp only [CmdIn] at hp; have hsp : P sp := hp.2.2 _ rfl; simp only [step]; repeat' (n_one H)
  case recov r => cases r <;> simp only [CmdIn, PlainIn.RecovIn] at hp <;> simp only [step] <;> repeat' (n_one H)
  case repTail k item sep =>
    cases k with
    | zero => simp only [CmdIn] at hp; simp only [step]; repeat' (n_one H)
    | succ k =>
      cases sep with
      | none => simp only [CmdIn] at hp; simp only [step]; repeat' (n_one H)
      | some s => simp only [CmdIn] at hp; simp only [step]; repeat' (n_one H)
  case ws =>
    simp only [step]
    split
    · exact n_ret hs
    · rw [if_neg (by rw [hs]; exact Bool.noConfusion)]
      exact n_ret hs
  case skip => exact hp.elim
  case tokLoop => exact hp.elim
  case exLoop i min =>
    simp only [step]
    split
    · exact n_none
    · exact n_ret hs
    · rename_i h
      exact n_onOk' (n_framed (H _ _ _ (opIn_parse hp (fun o ho => hp.2 o (opList_all _ _ _ _ ho)) h) hs))
        fun st' hs' => H _ _ _ hp hs'
  case exLhs i min =>
    simp only [step]
    split
    · exact n_none
    · exact n_onOk' (n_framed (H _ (.run _) _ hp.1 hs)) fun st' hs' => n_ret hs'
    · rename_i h
      exact n_emit (by nows) (n_andThen
        (n_framed (H _ _ _ (opIn_parse hp (fun o ho => hp.2 o (opList_all _ _ _ _ ho)) h) hs))
        fun o st' hs' => n_some hs' (by nows))
  case exApply i o k r b =>
    obtain ⟨h1, h2, h3, h4⟩ := hp
    simp only [step]
    split
    · exact n_some hs (by nows)
    · refine n_emit (by nows) (n_onOk' (n_opFinish H h3 h4 hs) fun st' hs' => n_opCont H h1 h2 hs')
  case exList i o items =>
    obtain ⟨h1, h2⟩ := hp
    simp only [step]
    refine n_andThen (H _ _ _ h1 hs) fun out st1 hs1 => ?_
    cases out
    · refine n_bind fun v _ => ?_
      split
      · exact n_none
      · exact n_some hs1 (by nows)
      · rename_i h
        obtain ⟨g1, l, g2⟩ := parseOperator_mem h
        obtain rfl : _ = o := by simpa using g1
        refine n_andThen (n_framed (n_opFinish H (h2 _ g2).1 (h2 _ g2).2 hs1)) fun out st2 hs2 => ?_
        cases out
        · exact H _ _ _ ⟨h1, h2⟩ hs2
        · exact n_ret hs2
        · exact n_none
    · exact n_ret hs1
    · exact n_none
  all_goals simp only [CmdIn] at hp
  all_goals simp only [step]
  all_goals repeat' (n_one H)

end

end Verif
