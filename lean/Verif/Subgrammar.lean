import Verif.TraceProps

/-
`dsl::subgrammar`.

Source: /repo/include/lexy/dsl/subgrammar.hpp, action/base.hpp l.66-103 and l.201-248, action/parse_as_tree.hpp l.31-90
-/

namespace Verif

/-- `_do_action`, action/base.hpp l.201-225, from a given state of the reader and the control block; `runGrammar` is the
    case of a new control block. -/
def doAction (E : Env) (fuel n maxDepth : Nat) (st : St) : Option Res :=
  let d := E.prods n
  let cx : Cx := ⟨d.ws, maxDepth⟩
  emit [.grammarStart st.pos, .prodStart n st.pos]
    (andThen (onOk' (exec E fuel cx .ws st) fun st => exec E fuel cx (.run d.rule) st) fun o st =>
      match o with
      | .ok => some ⟨.ok, st, [.prodFinish n st.pos, .grammarFinish st.pos]⟩
      | .fail => some ⟨.fail, st, [.prodCancel n st.pos, .grammarCancel st.pos]⟩
      | .brk => none)

/-- `_subg::p::parse`, subgrammar.hpp l.61-99, and `LEXY_DEFINE_SUBGRAMMAR`, l.35-46: the variables are hidden, `_do_action`
    runs with the control block of the parse that is going on and a context of its own, the variables come back.  `S` is the
    subgrammar, `n` its entry production. -/
def subgrammar (S : Env) (fuel n : Nat) (cx : Cx) (st : St) : Option Res :=
  (doAction S fuel n cx.maxDepth { st with vars := [], ex := {}, idx := 0 }).map fun r =>
    { r with st := { r.st with vars := st.vars, ex := st.ex, idx := st.idx } }

/-- A parse with the entry production `k` of the grammar `E`, whose rule is `a + subgrammar<n> + b`. -/
def withSub (E S : Env) (fuel k n maxDepth : Nat) (a b : Rule) : Option Res :=
  let d := E.prods k
  let cx : Cx := ⟨d.ws, maxDepth⟩
  emit [.grammarStart 0, .prodStart k 0]
    (andThen (onOk' (exec E fuel cx .ws { pos := 0 }) fun st => onOk (exec E fuel cx (.run a) st) fun st =>
        onOk (subgrammar S fuel n cx st) fun st => exec E fuel cx (.run b) st) fun o st =>
      match o with
      | .ok => some ⟨.ok, st, [.prodFinish k st.pos, .grammarFinish st.pos]⟩
      | .fail => some ⟨.fail, st, [.prodCancel k st.pos, .grammarCancel st.pos]⟩
      | .brk => none)

/-- What `_pth`, the handler of `parse_as_tree`, does with its `_depth`, parse_as_tree.hpp l.31-90; `none`: the precondition
    that it is 0 where the grammar begins and ends is violated. -/
def treeDepth (d : Nat) : Ev → Option Nat
  | .grammarStart _ | .grammarFinish _ | .grammarCancel _ => if d = 0 then some 0 else none
  | .prodStart .. => some (d + 1)
  | .prodFinish .. | .prodCancel .. => some (d - 1)
  | _ => some d

def treeDepths (d : Nat) : List Ev → Option Nat
  | [] => some d
  | ev :: evs => (treeDepth d ev).bind (treeDepths · evs)

/-! ## Properties -/

open Spec

/-- A parse of a whole grammar is a `_do_action` with a new control block. -/
theorem runGrammar_doAction (E : Env) (fuel n d : Nat) : runGrammar E fuel n d = doAction E fuel n d { pos := 0 } := rfl

theorem doAction_tr {E : Env} {fuel n d : Nat} {st : St} {r : Res} (hp : st.pos ≤ E.inp.length)
    (h : doAction E fuel n d st = some r) :
    (∃ evs, Tr E.inp.length st.pos .ok evs r.st.pos ∧
      r = ⟨.ok, r.st, [.grammarStart st.pos, .prodStart n st.pos] ++ (evs ++ [.prodFinish n r.st.pos, .grammarFinish r.st.pos])⟩) ∨
    (∃ evs, Tr E.inp.length st.pos .fail evs r.st.pos ∧
      r = ⟨.fail, r.st, [.grammarStart st.pos, .prodStart n st.pos] ++ (evs ++ [.prodCancel n r.st.pos, .grammarCancel r.st.pos])⟩) := by
  unfold doAction at h
  obtain ⟨r', h', rfl⟩ := emit_some.1 h
  obtain ⟨r1, r2, h1, h2, rfl⟩ := andThen_some.1 h'
  have ht := trO_onOk' hp (exec_good E fuel _ .ws st hp) (fun st _ h2 => exec_good E fuel _ (.run _) st h2) r1 h1
  obtain ⟨o, st, evs⟩ := r1
  cases o with
  | brk => cases h2
  | ok => cases h2; exact .inl ⟨evs, ht, rfl⟩
  | fail => cases h2; exact .inr ⟨evs, ht, rfl⟩

/-- The variables of the grammar around a subgrammar: it does not see them, so that nothing depends on them, and they are
    unchanged afterwards, whether it succeeds or fails. -/
theorem C95_variables {S : Env} {fuel n : Nat} {cx : Cx} {st : St} {r : Res} (h : subgrammar S fuel n cx st = some r) :
    r.st.vars = st.vars ∧
    ∀ vars, subgrammar S fuel n cx { st with vars := vars } = some { r with st := { r.st with vars := vars } } := by
  unfold subgrammar at h ⊢
  cases hx : doAction S fuel n cx.maxDepth { st with vars := [], ex := {}, idx := 0 } with
  | none => rw [hx] at h; cases h
  | some r' =>
    rw [hx] at h
    cases h
    refine ⟨rfl, fun vars => ?_⟩
    simp only [hx, Option.map_some]

/-- The rule moves the reader forwards, its events are well nested, and it fails exactly if the production of the subgrammar
    is cancelled. -/
theorem C95_rule {S : Env} {fuel n : Nat} {cx : Cx} {st : St} {r : Res} (hp : st.pos ≤ S.inp.length)
    (h : subgrammar S fuel n cx st = some r) :
    st.pos ≤ r.st.pos ∧ r.st.pos ≤ S.inp.length ∧ (∀ s, nest s r.evs = some s) ∧
    r.evs.take 2 = [.grammarStart st.pos, .prodStart n st.pos] ∧
    (r.out = .ok ∧ (r.evs.reverse.take 2) = [.grammarFinish r.st.pos, .prodFinish n r.st.pos] ∨
      r.out = .fail ∧ (r.evs.reverse.take 2) = [.grammarCancel r.st.pos, .prodCancel n r.st.pos]) := by
  unfold subgrammar at h
  cases hx : doAction S fuel n cx.maxDepth { st with vars := [], ex := {}, idx := 0 } with
  | none => rw [hx] at h; cases h
  | some r' =>
    rw [hx] at h
    cases h
    rcases doAction_tr (by exact hp) hx with ⟨evs, ht, hr⟩ | ⟨evs, ht, hr⟩ <;>
    · have hb := ht.bounds hp
      refine ⟨hb.1, hb.2, fun s => ?_, ?_, ?_⟩
      · have hn := ht.nest_eq hp (.prod n st.pos :: .grammar st.pos :: s) (fun h => by cases h)
        rw [hr]
        simp only [List.cons_append, List.nil_append, nest, nestStep, Option.bind_some, nest_append]
        simp [hn, nest, nestStep, hb.1]
      · rw [hr]; rfl
      · rw [hr]; simp

/-- "Parses `Production` as-if it was the top level action" (subgrammar.adoc), partial: it ends where, and with the outcome and
    the events that a parse of the production has which begins there, if whitespace skipping is not disabled, `dsl::recurse` is
    not active, and both grammars have the same limit of the depth. -/
theorem C95_top_level_partial {S : Env} {fuel n : Nat} {cx : Cx} {st : St} (hw : st.wsOn = true) (hd : st.depth = 0) :
    (subgrammar S fuel n cx st).map (fun r => (r.out, r.st.pos, r.evs)) =
      (doAction S fuel n cx.maxDepth { pos := st.pos }).map (fun r => (r.out, r.st.pos, r.evs)) := by
  obtain ⟨p, vars, d, w, i, ex⟩ := st
  simp only at hw hd
  subst hw hd
  unfold subgrammar
  rw [Option.map_map]
  rfl

theorem treeDepths_append (d : Nat) (a b : List Ev) : treeDepths d (a ++ b) = (treeDepths d a).bind (treeDepths · b) := by
  induction a generalizing d with
  | nil => rfl
  | cons e a ih =>
    simp only [List.cons_append, treeDepths]
    cases treeDepth d e with
    | none => rfl
    | some d' => exact ih d'

theorem treeDepths_quiet {evs : List Ev} (h : ∀ ev ∈ evs, ∀ d, treeDepth d ev = some d) (d : Nat) :
    treeDepths d evs = some d := by
  induction evs with
  | nil => rfl
  | cons e es ih =>
    simp only [treeDepths, h e List.mem_cons_self d, Option.bind_some]
    exact ih fun ev he => h ev (List.mem_cons_of_mem _ he)

theorem treeDepths_cancel {len p : Nat} {evs : List Ev} (h : CancelTr len p evs) (d : Nat) : treeDepths d evs = some d := by
  induction h generalizing d with
  | nil => rfl
  | backtracked => rfl
  | prod _ ih => simp [treeDepths, treeDepth, treeDepths_append, ih]
  | append _ _ ih1 ih2 => rw [treeDepths_append, ih1]; exact ih2 d

theorem treeDepths_search {len p q : Nat} {evs : List Ev} (h : SearchTr len p q evs) (d : Nat) :
    treeDepths d evs = some d := by
  induction h with
  | start => rfl
  | cancelled _ hc ih => rw [treeDepths_append, ih]; exact treeDepths_cancel hc d
  | bump _ ih => exact ih

theorem TrC.treeDepths_eq {len : Nat} {c : Bool} {p q : Nat} {o : Out} {evs : List Ev} (h : TrC len c p o evs q) (d : Nat) :
    treeDepths d evs = some d := by
  induction h generalizing d with
  | nil | brk | token | tokenFail | errorFail | error | backtracked => rfl
  | wsFail _ hes =>
    rw [treeDepths_append, treeDepths_quiet fun ev he => ?_]
    · rfl
    · obtain ⟨_, _, _, rfl, _⟩ := hes ev he
      exact fun _ => rfl
  | cancelled _ h => exact treeDepths_cancel h d
  | seq _ _ ih1 ih2 | recover _ _ ih1 ih2 | failAfter _ _ ih1 ih2 =>
    rw [treeDepths_append, ih1]
    exact ih2 d
  | caught _ ih => exact ih d
  | prod _ _ ih | prodFail _ _ ih | recovery _ ih | recoveryFail _ ih =>
    simp [treeDepths, treeDepth, treeDepths_append, ih]
  | chain _ _ ih => simp [treeDepths, treeDepth, treeDepths_append, ih]
  | op => rfl
  | search h _ => simp [treeDepths, treeDepth, treeDepths_append, treeDepths_search h]
  | searchFail _ h _ ih => simp [treeDepths, treeDepth, treeDepths_append, treeDepths_search h, ih]

theorem cancel_no_grammar {len p : Nat} {evs : List Ev} (h : CancelTr len p evs) : ∀ x, Ev.grammarStart x ∉ evs := by
  induction h <;> simp_all

theorem search_no_grammar {len p q : Nat} {evs : List Ev} (h : SearchTr len p q evs) : ∀ x, Ev.grammarStart x ∉ evs := by
  induction h with
  | start => simp
  | cancelled _ hc ih => have := cancel_no_grammar hc; simp_all
  | bump _ ih => exact ih

theorem TrC.no_grammar {len : Nat} {c : Bool} {p q : Nat} {o : Out} {evs : List Ev} (h : TrC len c p o evs q) :
    ∀ x, Ev.grammarStart x ∉ evs := by
  induction h with
  | wsFail _ hes =>
    intro x hx
    simp only [List.mem_append, List.mem_singleton, reduceCtorEq, or_false] at hx
    obtain ⟨_, _, _, h, _⟩ := hes _ hx
    cases h
  | cancelled _ h => exact cancel_no_grammar h
  | search h _ => have := search_no_grammar h; simp_all
  | searchFail _ h _ ih => have := search_no_grammar h; simp_all
  | _ => simp_all

/-- `parse_as_tree` of a grammar without subgrammar: the preconditions of the handler hold. -/
theorem C95_tree_without {E : Env} {fuel n d : Nat} {r : Res} (h : runGrammar E fuel n d = some r) :
    treeDepths 0 r.evs = some 0 := by
  rcases runGrammar_tr h with ⟨evs, q, ht, hr, _⟩ | ⟨evs, q, ht, hr, _⟩ <;>
  · rw [hr]
    simp [treeDepths, treeDepth, treeDepths_append, ht.treeDepths_eq]

/-- The subgrammar "can be used … with all parse actions that have been instantiated" (subgrammar.adoc).  It cannot be used
    with `parse_as_tree`: whatever the grammars and the input are, as soon as the parse reaches the subgrammar (its
    `grammar_start` event is reported), the precondition `_depth == 0` of the handler is violated (parse_as_tree.hpp l.31-36),
    as the production around it is still open.  (Without the assertion the handler replaces the builder and so drops what was
    parsed so far, and `grammar_finish` moves the reader of the outer grammar to the end of the input, l.37-46.) -/
theorem C95_tree_refuted {E S : Env} {fuel k n d : Nat} {a b : Rule} {r : Res} {p : Nat} (hS : S.inp = E.inp)
    (h : withSub E S fuel k n d a b = some r) (hr : .grammarStart p ∈ r.evs.tail) : treeDepths 0 r.evs = none := by
  unfold withSub at h
  obtain ⟨r', h', rfl⟩ := emit_some.1 h
  obtain ⟨r1, r2, h1, h2, rfl⟩ := andThen_some.1 h'
  have last : ∀ x, Ev.grammarStart x ∉ r2.evs := by
    intro x
    obtain ⟨o, st, evs⟩ := r1
    cases o with
    | brk => cases h2
    | ok => cases h2; simp
    | fail => cases h2; simp
  obtain ⟨w, w', hw, hw', rfl⟩ := andThen_some.1 (show andThen _ _ = _ from h1)
  have tw := exec_good E fuel _ .ws _ (Nat.zero_le _) w hw
  have bw := tw.bounds (Nat.zero_le _)
  have early : ∀ evs : List Ev, (∀ x, Ev.grammarStart x ∉ evs) →
      Ev.grammarStart p ∈ Ev.prodStart k 0 :: ((w.evs ++ evs) ++ r2.evs) → False := by
    intro evs he hm
    simp only [List.mem_cons, List.mem_append, reduceCtorEq, false_or] at hm
    rcases hm with (h | h) | h
    · exact tw.no_grammar p h
    · exact he p h
    · exact last p h
  obtain ⟨wo, wst, wevs⟩ := w
  cases wo with
  | brk => cases hw'
  | fail => cases hw'; exact (early [] (fun _ => List.not_mem_nil) hr).elim
  | ok =>
    obtain ⟨x, x', hx, hx', rfl⟩ := andThen_some.1 (show andThen _ _ = _ from hw')
    have tx := exec_good E fuel _ (.run a) wst bw.2 x hx
    have bx := tx.bounds bw.2
    obtain ⟨xo, xst, xevs⟩ := x
    cases xo with
    | brk => cases hx'; exact (early (xevs ++ []) (fun y => by have := tx.no_grammar y; simpa using this) hr).elim
    | fail => cases hx'; exact (early (xevs ++ []) (fun y => by have := tx.no_grammar y; simpa using this) hr).elim
    | ok =>
      obtain ⟨y, y', hy, hy', rfl⟩ := andThen_some.1 (show andThen _ _ = _ from hx')
      have hs := (C95_rule (by rw [hS]; exact bx.2) hy).2.2.2.1
      obtain ⟨es, he⟩ : ∃ es, y.evs = .grammarStart xst.pos :: es := by
        cases hyv : y.evs with
        | nil => rw [hyv] at hs; cases hs
        | cons e es =>
          rw [hyv, List.take_succ_cons, List.cons.injEq] at hs
          exact ⟨es, by rw [hs.1]⟩
      have e1 := tw.treeDepths_eq 1
      have e2 := tx.treeDepths_eq 1
      simp only [he, List.cons_append, List.nil_append, List.append_assoc, treeDepths, treeDepth, if_true, Option.bind_some,
        treeDepths_append, Nat.zero_add]
      simp only at e1 e2
      rw [e1, Option.bind_some, e2, Option.bind_some]
      rfl

namespace Ex

/-- `digit + digit` where spaces are skipped, and nested parentheses around a digit. -/
def sub : Nat → ProdDef
  | 0 => { rule := .seq digit digit, ws := some space }
  | 1 => { rule := .chc [.br open_ (.seq (.recu 1 21 true) close), .prod 2], branch := true }
  | _ => { rule := digit, branch := true }

def subEnv (s : List Nat) : Env := { inp := s, prods := sub, exprs := (env s lists).exprs }

end Ex

/-- The hypotheses of `C95_tree_refuted` and `C95_rule` are met: `a1 2b`, with the subgrammar between the letters. -/
example : (Ex.obs (withSub (Ex.subEnv [97, 49, 32, 50, 98]) (Ex.subEnv [97, 49, 32, 50, 98]) 20 3 0 1024 Ex.letter Ex.letter)) =
    some (.ok, 5, [.grammarStart 0, .prodStart 3 0, .token (.user 7) 0 1, .grammarStart 1, .prodStart 0 1,
      .token .whitespace 1 1, .token (.user 4) 1 2, .token .whitespace 2 3, .token (.user 4) 3 4, .token .whitespace 4 4, .prodFinish 0 4, .grammarFinish 4, .token (.user 7) 4 5,
      .prodFinish 3 5, .grammarFinish 5]) := by decide +kernel

/-- "Parses `Production` as-if it was the top level action. Unlike `dsl::p`, the context is not retained: whitespace rules and
    parse variables get reset." (subgrammar.adoc)  Whether whitespace is skipped at all is not reset: within `no_whitespace`
    (which runs its rule with skipping disabled, whitespace.hpp l.280-303) the subgrammar whose entry production defines
    whitespace does not skip it, and `1 2` is not accepted. -/
theorem C95_whitespace_refuted :
    (doAction (Ex.subEnv [49, 32, 50]) 20 0 1024 { pos := 0 }).map (·.out) = some .ok ∧
    (subgrammar (Ex.subEnv [49, 32, 50]) 20 0 ⟨none, 1024⟩ { pos := 0, wsOn := false }).map (·.out) = some .fail := by
  decide +kernel

/-- "Parses `Production` as-if it was the top level action": the limit of the depth of recursion is that of the outer grammar
    (the `max_recursion_depth` of the subgrammar is ignored), and the depth already reached counts.  `((1))` is accepted by the
    grammar with the limit 2, but not as a subgrammar of a grammar with the limit 1, nor where the depth is 1 already. -/
theorem C95_depth_refuted :
    (doAction (Ex.subEnv [40, 40, 49, 41, 41]) 40 1 2 { pos := 0 }).map (·.out) = some .ok ∧
    (subgrammar (Ex.subEnv [40, 40, 49, 41, 41]) 40 1 ⟨none, 1⟩ { pos := 0 }).map (·.out) = some .fail ∧
    (subgrammar (Ex.subEnv [40, 40, 49, 41, 41]) 40 1 ⟨none, 2⟩ { pos := 0, depth := 1 }).map (·.out) = some .fail := by
  decide +kernel

end Verif
