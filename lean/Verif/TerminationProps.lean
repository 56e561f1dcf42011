import Verif.GrammarWfProps
import Verif.ExprEx

/-
C80: parsing terminates, whatever the input, if every loop of the grammar consumes input and every recursion goes
through `recurse` with a maximum depth.

Source: /repo/include/lexy/dsl/*.hpp, /repo/include/lexy/action/base.hpp
-/

namespace Verif.Tot

open Verif

/-- **C80.** Grammars that meet the criterion `Wf` have a result for every input: the parse neither runs forever nor
    does it reach undefined behavior.  The result is the same for every sufficiently large number of steps. -/
theorem C80_terminates {E : Env} {G : Nat → Option Rule → List VarKey → Prop} {n d : Nat} (hd : 0 < d)
    (hG : ∀ k ws V, G k ws V → Wf E G .run true false ws V (.prod k))
    (hr : Wf E G .run true false (E.prods n).ws [] (E.prods n).rule)
    (hw : ∀ w, (E.prods n).ws = some w → Wf E G .skip false false none [] w) :
    ∃ fuel r, r.out ≠ .brk ∧ ∀ k, fuel ≤ k → runGrammar E k n d = some r := by
  have hT : T E false fun rec => emit [.grammarStart 0, .prodStart n 0]
      (andThen (onOk' (rec ⟨(E.prods n).ws, d⟩ .ws { pos := 0 }) fun st => rec ⟨(E.prods n).ws, d⟩ (.run (E.prods n).rule) st)
        fun o st =>
        match o with
        | .ok => some ⟨.ok, st, [.prodFinish n st.pos, .grammarFinish st.pos]⟩
        | .fail => some ⟨.fail, st, [.prodCancel n st.pos, .grammarCancel st.pos]⟩
        | .brk => none) := by
    let cx : Cx := ⟨(E.prods n).ws, d⟩
    let m := mu E cx { pos := 0 }
    have hW : All E [] false cx m .ws := Goal.allWs (fun w e => wf_goal hG m (hw w e)) rfl
    refine T.emit (T.andThen (b' := false) (T.onOk' (hW { pos := 0 } (.start (Nat.zero_le _)) (Nat.le_refl _)).rec fun x hx _ => ?_)
      fun x hx hxb => ?_)
    · have f := exec_fwd (st := { pos := 0 }) rfl (Nat.zero_le _) hx.exec
      exact ((wf_goal hG m hr).all (cx := cx) rfl (fun _ => hd) x.st (f.at (.start (Nat.zero_le _))) f.mu).rec
    · cases hxo : x.out with
      | ok => exact T.pure (r := ⟨_, _, _⟩) (by simp)
      | fail => exact T.pure (r := ⟨_, _, _⟩) (by simp)
      | brk => exact absurd hxo (hxb rfl)
  obtain ⟨r, ⟨N, h1⟩, h2⟩ := hT
  exact ⟨N, r, h2 rfl, fun k hk => h1 k hk⟩

/-- **C80.** The same for `lexy::match` of a single rule, or a rule within a token or whitespace: without recursion no
    maximum depth is needed. -/
theorem C80_rule {E : Env} {r : Rule} {b : Bool} {cx : Cx} {st : St} {V : List VarKey} (hl : At E V st)
    (hr : Wf E (fun _ _ _ => False) .run false b cx.ws V r) :
    ∃ x, Exec E cx (.run r) st x ∧ (b = false → x.out ≠ .brk) ∧ st.pos ≤ x.st.pos ∧ x.st.pos ≤ E.inp.length := by
  obtain ⟨x, hx, hb⟩ := (wf_goal (G := fun _ _ _ => False) (fun _ _ _ h => h.elim) (mu E cx st) hr cx st rfl (by simp) hl
    (Nat.le_refl _)).1
  have f := exec_fwd rfl hl.len hx
  exact ⟨x, hx, hb, f.pos, f.len⟩

/-! ## The criterion is met -/

theorem eats_lit {E : Env} {k t : Nat} {w : List Nat} (h : w ≠ []) : Eats E (.tok (Ex.lit k t w)) := by
  refine .tok fun s hs => ?_
  simp only [Ex.lit] at hs ⊢
  split at hs
  · rename_i h1
    rw [if_pos h1]
    exact List.length_pos_iff.2 h
  · cases hs

theorem moves_lit {E : Env} {k t : Nat} {w : List Nat} (h : w ≠ []) : Moves E (.tok (Ex.lit k t w)) := by
  cases eats_lit (E := E) (k := k) (t := t) h with
  | tok h => exact .tok h

theorem eats_oneOf {E : Env} {k t : Nat} {us : List Nat} : Eats E (.tok (Ex.oneOf k t us)) := by
  refine .tok fun s hs => ?_
  cases s with
  | nil => cases hs
  | cons u s =>
    simp only [Ex.oneOf] at hs ⊢
    split at hs
    · rename_i h1; rw [if_pos h1]; exact Nat.zero_lt_one
    · cases hs

theorem space_wf {E : Env} {G : Nat → Option Rule → List VarKey → Prop} {w : Rule} (h : some Ex.space = some w) :
    Wf E G .skip false false none [] w := by
  cases h
  exact .stok rfl eats_oneOf .mtok

/-- Parenthesised lists, nested through `recurse`, with separators, whitespace and error recovery: every input ends. -/
example (s : List Nat) (d : Nat) (hd : 0 < d) : ∃ fuel r, r.out ≠ .brk ∧
    ∀ k, fuel ≤ k → runGrammar (Ex.env s Ex.lists) k 3 d = some r := by
  have hdig : ∀ {l b V}, Wf (Ex.env s Ex.lists) (fun k ws _ => k = 2 ∧ ws = some Ex.space) .run l b (some Ex.space) V (.prod 1) :=
    .prod (.tok (by intro w h; cases h)) (fun w => space_wf) (by intro w h; cases h)
  have h2 : ∀ {V}, Wf (Ex.env s Ex.lists) (fun k ws _ => k = 2 ∧ ws = some Ex.space) .run true false (some Ex.space) V (.prod 2) := by
    intro V
    refine .prod (.br (.tok fun w => space_wf) ?_) (fun w => space_wf) (fun w => space_wf)
    have hc : Wf (Ex.env s Ex.lists) (fun k ws _ => k = 2 ∧ ws = some Ex.space) .cond false false none V
        (.chc [.recu 2 21 true, .prod 1]) := by
      refine .cchc fun r hr => ?_
      simp only [List.mem_cons, List.not_mem_nil, or_false] at hr
      rcases hr with rfl | rfl
      · exact .crecu (.cprod rfl (.cbr .ctok))
      · exact .cprod rfl .ctok
    refine .lstts (.tok fun w => space_wf) .ctok ?_ (fun _ => hc) (fun _ => ?_) (.tok fun w => space_wf) .ctok
      (eats_lit (by simp)) (moves_lit (by simp))
    · refine .chc (fun r hr => ?_) (by cases hc with | cchc h => exact h)
      simp only [List.mem_cons, List.not_mem_nil, or_false] at hr
      rcases hr with rfl | rfl
      · exact .recu ⟨rfl, rfl⟩
      · exact hdig
    · refine .chc fun r hr => ?_
      simp only [List.mem_cons, List.not_mem_nil, or_false] at hr
      rcases hr with rfl | rfl
      · exact .recu (.prod (.brL (eats_lit (by simp))))
      · exact .prod eats_oneOf
  refine C80_terminates (G := fun k ws _ => k = 2 ∧ ws = some Ex.space) hd (fun k ws V h => by obtain ⟨rfl, rfl⟩ := h; exact h2) ?_ (fun w => space_wf)
  refine .seq h2 (.tryt (.tok fun w => space_wf) (by simp) (fun w => space_wf) ?_ ?_ ?_)
  · intro r' h; cases h
  · intro lm rs h; cases h
  · intro lm rs h; cases h

/-- Expressions with operators of all kinds, whose atoms are expressions in parentheses. -/
example (s : List Nat) (d : Nat) (hd : 0 < d) : ∃ fuel r, r.out ≠ .brk ∧
    ∀ k, fuel ≤ k → runGrammar (Ex.exprEnv s) k 0 d = some r := by
  have ops : ∀ o ∈ Ex.arith.ops.all, ∀ l ∈ o.lits, l.1.str ≠ [] ∧ l.1.kw = none ∧ l.2.2 = .els := by
    intro o ho l hl
    simp only [Ex.arith, OpTree.all, List.mem_cons, List.not_mem_nil, or_false] at ho
    rcases ho with rfl | rfl | rfl | rfl | rfl | rfl | rfl <;>
      simp only [Ex.opComma, Ex.opEq, Ex.opSum, Ex.opMul, Ex.opNeg, Ex.opPow, Ex.opFac, List.mem_cons, List.not_mem_nil,
        or_false] at hl <;>
      first
        | (subst hl; simp [Ex.opLit])
        | (rcases hl with rfl | rfl <;> simp [Ex.opLit])
  have h1 : ∀ {V}, Wf (Ex.exprEnv s) (fun k ws _ => k = 1 ∧ ws = some Ex.space) .run true false (some Ex.space) V (.prod 1) := by
    intro V
    refine .prod (.expr ⟨⟨fun _ => rfl, fun _ _ _ _ _ _ => by simp [Ex.exprEnv], fun o ho l hl o' ho' l' hl' _ => ?_⟩, ?_, ?_⟩ ?_ ?_
      fun w => space_wf) (fun w => space_wf) (fun w => space_wf)
    · rw [(ops o ho l hl).2.1, (ops o' ho' l' hl').2.1]
    · exact fun o ho l hl => (ops o ho l hl).1
    · intro o ho l hl
      rw [(ops o ho l hl).2.2]
      exact ⟨fun r => r = .els, fun r h => by subst h; trivial, rfl⟩
    · refine .chc (fun r hr => ?_) (fun r hr => ?_)
      · simp only [List.mem_cons, List.not_mem_nil, or_false] at hr
        rcases hr with rfl | rfl
        · exact .tok fun w => space_wf
        · exact .br (.tok fun w => space_wf) (.seq (.recu ⟨rfl, rfl⟩) (.tok fun w => space_wf))
      · simp only [List.mem_cons, List.not_mem_nil, or_false] at hr
        rcases hr with rfl | rfl
        · exact .ctok
        · exact .cbr .ctok
    · intro o ho l hl
      rw [(ops o ho l hl).2.2]
      exact .els
  refine C80_terminates (G := fun k ws _ => k = 1 ∧ ws = some Ex.space) hd (fun k ws V h => by obtain ⟨rfl, rfl⟩ := h; exact h1) ?_ (fun w => space_wf)
  exact h1

/-- `(1,(2,3))x`, with a limit of one level: the results that the theorem promises. -/
example : ((runGrammar (Ex.env [40, 49, 44, 40, 50, 44, 51, 41, 41, 97] Ex.lists) 60 3 1).map fun r => (r.out, r.st.pos))
    = some (.ok, 10) := by decide +kernel

/-! ## Where it fails -/

/-- A loop whose body does not consume input never ends: the conditions for loops cannot be dropped. -/
theorem C80_idle_loop (E : Env) (cx : Cx) (st : St) (k : Nat) :
    exec E k cx (.run (.loop .els)) st = none ∧ exec E k cx (.run (.whl .els)) st = none := by
  have h1 : ∀ k st, exec E k cx (.loopR .els) st = none := by
    intro k
    induction k with
    | zero => intro st; rfl
    | succ k ih =>
      intro st
      rw [exec_succ]
      simp only [step]
      cases h : exec E k cx (.run .els) st with
      | none => rfl
      | some r =>
        cases k with
        | zero => cases h
        | succ k =>
          rw [exec_succ] at h
          simp only [step, stepRun, ret, Option.some.injEq] at h
          subst h
          simp [andThen, framed, ih]
  have h2 : ∀ k st, exec E k cx (.whlR .els) st = none := by
    intro k
    induction k with
    | zero => intro st; rfl
    | succ k ih =>
      intro st
      rw [exec_succ]
      simp only [step]
      cases k with
      | zero => rfl
      | succ k =>
        have ht : exec E (k + 1) cx (.btry .els) st = some ⟨.ok, st, []⟩ := rfl
        simp only [ifTry, ht]
        cases h : exec E (k + 1) cx (.bfinish .els) st with
        | none => rfl
        | some r =>
          rw [exec_succ] at h
          simp only [step, stepFinish] at h
          cases k with
          | zero => cases h
          | succ k =>
            rw [exec_succ] at h
            simp only [step, stepRun, ret, Option.some.injEq] at h
            subst h
            simp [onOk', andThen, framed, ih]
  cases k with
  | zero => exact ⟨rfl, rfl⟩
  | succ k =>
    rw [exec_succ, exec_succ]
    exact ⟨h1 k st, h2 k st⟩

/-- A context variable that is not there is never found: that the variables are created before they are used cannot be
    dropped either. -/
theorem C80_no_variable (E : Env) (cx : Cx) (st : St) (id k : Nat) (b : Bool) (h : ∀ p ∈ st.vars, p.1 ≠ .flag id) :
    exec E k cx (.run (.flagSet id b)) st = none ∧ exec E k cx (.btry (.flagIs id b)) st = none := by
  have hg : getFlag id st.vars = none := by
    have : getVar (.flag id) st.vars = none := by
      cases e : getVar (.flag id) st.vars with
      | none => rfl
      | some v =>
        obtain ⟨p, hp, e⟩ := List.mem_map.1 (getVar_mem e)
        exact absurd e (h p hp)
    unfold getFlag
    rw [this]
  cases k with
  | zero => exact ⟨rfl, rfl⟩
  | succ k =>
    rw [exec_succ, exec_succ]
    simp only [step, stepRun, stepTry, hg]
    exact ⟨rfl, rfl⟩

theorem frame_self (st : St) : st.frame st.vars.length = st := by
  unfold St.frame
  simp

/-- At the maximum depth a terminated list without separator whose items are recursive branches goes in circles
    (list.hpp l.302-371): recovery finds the beginning of an item, the item fails without consuming anything
    (production.hpp l.200-206), recovery begins again at the same position.  Every round reports the error again. -/
theorem C80_recovery_circle {E : Env} {cx : Cx} {n tag : Nat} {term : Rule} {limit : List Nat → Bool} {st : St}
    (hd : 0 < cx.maxDepth) (hlim : cx.maxDepth ≤ st.depth) (hl : st.pos ≤ E.inp.length) (ht : Takes E (.recu n tag true) st) :
    ∃ N, ∀ k, N ≤ k → ∀ b, exec E (k + 1) cx (.ltRec b term (.recu n tag true) none limit) st =
      emit (skipped b st true ++ [.error tag st.pos st.pos, .recStart st.pos])
        (exec E k cx (.ltRec st.pos term (.recu n tag true) none limit) st) := by
  obtain ⟨N, hN⟩ := ht.at (st' := st) rfl rfl hl cx
  refine ⟨N + 1, fun k hk b => ?_⟩
  have h1 := exec_mono (show N ≤ k by omega) hN
  have h2 : exec E k cx (.bfinish (.recu n tag true)) st = some ⟨.fail, st, [.error tag st.pos st.pos]⟩ := by
    obtain ⟨k, rfl⟩ : ∃ j, k = j + 1 := ⟨k - 1, by omega⟩
    rw [exec_succ]
    simp only [step, stepFinish, deeper]
    rw [if_neg (by omega), if_pos hlim]
  rw [exec_succ]
  simp only [step, Rule.isBranch, if_true, ifTry, h1, h2, framed, andThen, Option.map_some, frame_self]
  cases exec E k cx (.ltRec st.pos term (.recu n tag true) none limit) st with
  | none => rfl
  | some r => simp [emit]

/-- It never ends. -/
theorem C80_recovery_stuck {E : Env} {cx : Cx} {n tag : Nat} {term : Rule} {limit : List Nat → Bool} {st : St}
    (hd : 0 < cx.maxDepth) (hlim : cx.maxDepth ≤ st.depth) (hl : st.pos ≤ E.inp.length) (ht : Takes E (.recu n tag true) st)
    (k b : Nat) : exec E k cx (.ltRec b term (.recu n tag true) none limit) st = none := by
  obtain ⟨N, hN⟩ := C80_recovery_circle (term := term) (limit := limit) hd hlim hl ht
  have key : ∀ k b r, exec E k cx (.ltRec b term (.recu n tag true) none limit) st = some r → False := by
    intro k
    -- the events would be longer than any number
    have : ∀ m k b r, exec E k cx (.ltRec b term (.recu n tag true) none limit) st = some r → m ≤ r.evs.length := by
      intro m
      induction m with
      | zero => intro k b r _; exact Nat.zero_le _
      | succ m ih =>
        intro k b r h
        have h' := exec_mono (show k ≤ (max N k) + 1 by omega) h
        rw [hN _ (Nat.le_max_left _ _) b] at h'
        obtain ⟨r', h1, rfl⟩ := emit_some.1 h'
        have := ih _ _ _ h1
        simp only [List.length_append, skipped, List.length_cons, List.length_nil]
        omega
    intro b r h
    have := this (r.evs.length + 1) k b r h
    omega
  cases h : exec E k cx (.ltRec b term (.recu n tag true) none limit) st with
  | none => rfl
  | some r => exact (key k b r h).elim

/-- `( ... )` with nested ones as items. -/
def Ex.nestList : Nat → ProdDef
  | _ => { rule := .br Ex.open_ (.lstt Ex.close (.recu 0 21 true) none fun _ => false) }

theorem open_run {cx : Cx} {st : St} {s : List Nat} {p : Nat → ProdDef} (hw : cx.ws = none) (k : Nat)
    (h : ∃ t, s.drop st.pos = 40 :: t) :
    exec (Ex.env s p) k cx (.run Ex.open_) st = none ∨
      ∃ evs, exec (Ex.env s p) k cx (.run Ex.open_) st = some ⟨.ok, { st with pos := st.pos + 1 }, evs⟩ := by
  obtain ⟨t, h⟩ := h
  cases k with
  | zero => exact .inl rfl
  | succ k =>
    rw [exec_succ]
    cases k with
    | zero => left; simp [step, stepRun, Ex.open_, Ex.env, Ex.lit, h, tokenParse, tokenDone, exec, emit]
    | succ k =>
      right
      simp [step, stepRun, Ex.open_, Ex.env, Ex.lit, h, tokenParse, tokenDone, exec_succ, emit, hw, ret]

/-- **C80 without the condition on the items of terminated lists is false** (F60): every loop of the grammar
    `P = '(' >> terminator(')').list(recurse_branch<P>)` consumes input, and `max_recursion_depth` is 1, but the parse of
    `(((` never ends. -/
theorem C80_depth_refuted : ∀ fuel, runGrammar (Ex.env [40, 40, 40] Ex.nestList) fuel 0 1 = none := by
  let E := Ex.env [40, 40, 40] Ex.nestList
  let cx : Cx := ⟨none, 1⟩
  let lst : Rule := .lstt Ex.close (.recu 0 21 true) none fun _ => false
  have take : ∀ st : St, st.pos = 2 → Takes E (.recu 0 21 true) st := by
    intro st h
    refine ⟨cx, 5, ?_⟩
    simp [exec_succ, step, stepTry, E, Ex.env, Ex.nestList, Ex.open_, Ex.lit, h, ret]
  have A : ∀ k (st : St), st.pos = 2 → st.depth = 1 → exec E k cx (.run lst) st = none := by
    intro k st hp hd
    cases k with
    | zero => rfl
    | succ k =>
      rw [exec_succ]
      simp only [step, stepRun, lst]
      have hi : exec E k cx (.run (.recu 0 21 true)) st = none ∨
          exec E k cx (.run (.recu 0 21 true)) st = some ⟨.fail, st, [.error 21 st.pos st.pos]⟩ := by
        cases k with
        | zero => exact .inl rfl
        | succ k => right; rw [exec_succ]; simp [step, stepRun, deeper, cx, hd]
      have hr := C80_recovery_stuck (E := E) (cx := cx) (n := 0) (tag := 21) (term := Ex.close) (limit := fun _ => false)
        (st := st) (by decide) (by rw [hd]; decide) (by rw [hp]; decide) (take st hp) k st.pos
      rcases hi with hi | hi
      · rw [hi]; rfl
      · rw [hi]; simp only [framed, andThen, Option.map_some, frame_self]; rw [hr]; rfl
  have B : ∀ k (st : St), st.pos = 1 → st.depth = 1 → exec E k cx (.run (.br Ex.open_ lst)) st = none := by
    intro k st hp hd
    cases k with
    | zero => rfl
    | succ k =>
      rw [exec_succ]
      simp only [step, stepRun]
      rcases open_run (cx := cx) (st := st) (s := [40, 40, 40]) (p := Ex.nestList) rfl k ⟨[40], by rw [hp]; rfl⟩ with h | ⟨evs, h⟩
      · rw [show exec E k cx (.run Ex.open_) st = none from h]; rfl
      · rw [show exec E k cx (.run Ex.open_) st = _ from h]
        simp only [onOk, andThen]
        rw [A k { st with pos := st.pos + 1 } (by simp [hp]) hd]
        rfl
  have D : ∀ k (st : St), st.pos = 1 → st.depth = 0 → exec E k cx (.run (.recu 0 21 true)) st = none := by
    intro k st hp hd
    cases k with
    | zero => rfl
    | succ k =>
      rw [exec_succ]
      have hP : exec E k cx (.run (.prod 0)) { st with depth := st.depth + 1 } = none := by
        cases k with
        | zero => rfl
        | succ k =>
          rw [exec_succ]
          have := B k { st with depth := st.depth + 1, ex := {} } hp (by simp [hd])
          simp only [step, stepRun, production]
          rw [show (E.prods 0).ws.isSome = false from rfl]
          simp only [Bool.false_eq_true, if_false]
          rw [show exec E k (cx.sub (E.prods 0)) (.run (E.prods 0).rule) _ = none from this]
          rfl
      simp only [step, stepRun, deeper]
      rw [if_neg (by decide), if_neg (by rw [hd]; decide), hP]
      rfl
  have F : ∀ k (st : St), st.pos = 1 → st.depth = 0 → exec E k cx (.run lst) st = none := by
    intro k st hp hd
    cases k with
    | zero => rfl
    | succ k =>
      rw [exec_succ]
      simp only [step, stepRun, lst]
      rw [D k st hp hd]
      rfl
  have H : ∀ k, exec E k cx (.run (.br Ex.open_ lst)) { pos := 0 } = none := by
    intro k
    cases k with
    | zero => rfl
    | succ k =>
      rw [exec_succ]
      simp only [step, stepRun]
      rcases open_run (cx := cx) (st := { pos := 0 }) (s := [40, 40, 40]) (p := Ex.nestList) rfl k ⟨[40, 40], rfl⟩ with h | ⟨evs, h⟩
      · rw [show exec E k cx (.run Ex.open_) _ = none from h]; rfl
      · rw [show exec E k cx (.run Ex.open_) _ = _ from h]
        simp only [onOk, andThen]
        rw [F k _ rfl rfl]
        rfl
  intro fuel
  cases fuel with
  | zero => rfl
  | succ fuel =>
    have hw : exec E (fuel + 1) cx .ws { pos := 0 } = some ⟨.ok, { pos := 0 }, []⟩ := rfl
    unfold runGrammar
    show emit _ (andThen (onOk' (exec E (fuel + 1) cx .ws { pos := 0 }) fun st =>
      exec E (fuel + 1) cx (.run (.br Ex.open_ lst)) st) _) = none
    rw [hw]
    simp only [onOk', andThen, H, emit]
    rfl

/-- With one level more the same input has a result. -/
example : ((runGrammar (Ex.env [40, 40, 40] Ex.nestList) 60 0 3).map fun r => (r.out, r.st.pos)) = some (.fail, 3) := by
  decide +kernel

end Verif.Tot
