import Verif.GrammarWs
import Verif.DepthProps
import Verif.GrammarEx

/-
C50: automatic whitespace skipping.
-/

namespace Verif

open Spec

theorem TokSkip.end {E : Env} {r : Rule} {p q : Nat} (h : Spec.TokSkip E r p q) : ¬ Spec.MatchesHere E r q := by
  induction h with
  | stop h => exact h
  | more _ _ ih => exact ih

theorem RuleSkip.end {E : Env} {rs : List Rule} {st st' : St} (h : Spec.RuleSkip E rs st st') :
    ∀ r ∈ rs, Leaves E r st' := by
  induction h with
  | stop h => exact h
  | more _ _ _ _ _ _ ih => exact ih

theorem skip_token {E : Env} {n : Nat} {cx : Cx} {W : Rule} {st : St} {x : Res} (hW : W.isToken = true)
    (h : exec E n cx (.skip W) st = some x) :
    x.out = .ok ∧ x.evs = [.token .whitespace st.pos x.st.pos] ∧ x.st = { st with pos := x.st.pos } ∧
    Spec.TokSkip E W st.pos x.st.pos := by
  cases n with
  | zero => cases h
  | succ n =>
    rw [exec_succ] at h
    simp only [step, hW, if_true] at h
    rcases onOk'_some h with ⟨st1, e1, r2, h1, h2, rfl⟩ | ⟨h1, h2⟩
    · cases h2
      obtain ⟨_, g2, g3, g4⟩ := tokLoop_some hW h1
      simp only at g2 g3 g4
      subst g2
      exact ⟨rfl, rfl, g3, g4⟩
    · obtain ⟨g1, _⟩ := tokLoop_some hW h1
      rw [h2] at g1; cases g1

theorem wsRule_alts (W : Rule) : wsRule W = .loop (.chc (Spec.wsAlts W ++ [.brk])) := by
  induction W using wsRule.induct with
  | case1 r ih => simp only [wsRule, Spec.wsAlts, ih]
  | case2 rs => rfl
  | case3 r h1 h2 => 
    cases r <;> first | rfl | exact absurd rfl (h1 _) | exact absurd rfl (h2 _)

theorem skip_rule {E : Env} {n : Nat} {cx : Cx} {W : Rule} {st : St} {x : Res} (hW : W.isToken = false)
    (hl : st.pos ≤ E.inp.length)
    (hb : ∀ r ∈ Spec.wsAlts W, ∀ st z, Exec E ⟨none, 0⟩ (.bfinish r) st z → z.out ≠ .brk)
    (h : exec E n cx (.skip W) st = some x) :
    ∃ errs, (∀ ev ∈ errs, ev.isError = true) ∧ x.st = { st with pos := x.st.pos } ∧
      ((x.out = .ok ∧ x.evs = errs ++ [.token .whitespace st.pos x.st.pos] ∧
        ∃ st', st'.pos = x.st.pos ∧ Spec.RuleSkip E (Spec.wsAlts W) { pos := st.pos } st') ∨
       (x.out = .fail ∧ x.evs = errs ++ [.token .error st.pos x.st.pos])) := by
  cases n with
  | zero => cases h
  | succ n =>
    rw [exec_succ] at h
    simp only [step, hW, Bool.false_eq_true, if_false] at h
    split at h
    · cases h
    · rename_i b e evs hn
      cases h
      obtain ⟨z, h1, h2, h3, h4⟩ := nested_some hn
      refine ⟨evs.filter Ev.isError, fun ev he => (List.mem_filter.1 he).2, rfl, ?_⟩
      cases b with
      | false => exact .inr ⟨rfl, rfl⟩
      | true =>
        refine .inl ⟨rfl, rfl, z.st, h2, ?_⟩
        rw [wsRule_alts] at h1
        cases n with
        | zero => cases h1
        | succ n =>
          rw [exec_succ] at h1
          exact loop_skip hl hb h1 h4

/-! ## C50: the maximal run of whitespace is skipped -/

/-- Where whitespace is a token: it is matched as often as possible, this never fails, and one whitespace token covers
    it. -/
theorem C50_whitespace_token {E : Env} {cx : Cx} {W : Rule} {st : St} {x : Res} (hc : cx.ws = some W)
    (hs : st.wsOn = true) (hW : W.isToken = true) (h : Exec E cx .ws st x) :
    x.out = .ok ∧ x.evs = [.token .whitespace st.pos x.st.pos] ∧ x.st = { st with pos := x.st.pos } ∧
    Spec.TokSkip E W st.pos x.st.pos ∧ ¬ Spec.MatchesHere E W x.st.pos := by
  obtain ⟨n, h⟩ := h.elim
  simp only [step, hc, hs, if_true] at h
  obtain ⟨h1, h2, h3, h4⟩ := skip_token hW h
  exact ⟨h1, h2, h3, h4, TokSkip.end h4⟩

/-- Where whitespace is a rule whose alternatives do not contain `break_`: the first alternative that matches is parsed,
    as often as possible; only errors are reported, and one token that covers it. -/
theorem C50_whitespace_rule {E : Env} {cx : Cx} {W : Rule} {st : St} {x : Res} (hc : cx.ws = some W)
    (hs : st.wsOn = true) (hW : W.isToken = false) (hl : st.pos ≤ E.inp.length)
    (hb : ∀ r ∈ Spec.wsAlts W, ∀ st z, Exec E ⟨none, 0⟩ (.bfinish r) st z → z.out ≠ .brk)
    (h : Exec E cx .ws st x) :
    ∃ errs, (∀ ev ∈ errs, ev.isError = true) ∧ x.st = { st with pos := x.st.pos } ∧
      ((x.out = .ok ∧ x.evs = errs ++ [.token .whitespace st.pos x.st.pos] ∧
        ∃ st', st'.pos = x.st.pos ∧ Spec.RuleSkip E (Spec.wsAlts W) { pos := st.pos } st' ∧
          ∀ r ∈ Spec.wsAlts W, Leaves E r st') ∨
       (x.out = .fail ∧ x.evs = errs ++ [.token .error st.pos x.st.pos])) := by
  obtain ⟨n, h⟩ := h.elim
  simp only [step, hc, hs, if_true] at h
  obtain ⟨errs, h1, h2, h3⟩ := skip_rule hW hl hb h
  refine ⟨errs, h1, h2, ?_⟩
  rcases h3 with ⟨g1, g2, st', g3, g4⟩ | g
  · exact .inl ⟨g1, g2, st', g3, g4, RuleSkip.end g4⟩
  · exact .inr g

/-- Nothing is skipped where there is no whitespace rule or skipping is switched off. -/
theorem C50_off {E : Env} {cx : Cx} {st : St} {x : Res} (hs : cx.ws = none ∨ st.wsOn = false) (h : Exec E cx .ws st x) :
    x = ⟨.ok, st, []⟩ := by
  obtain ⟨n, h⟩ := h.elim
  simp only [step, ret] at h
  split at h
  · cases h; rfl
  · rename_i hc
    rw [hc] at hs
    rcases hs with hs | hs
    · cases hs
    · rw [hs] at h; cases h; rfl

/-- The token kind of a token rule. -/
def Spec.kindOf : Rule → Option Kind
  | .tok t => some t.kind
  | .tokr k _ _ => some k
  | _ => none

/-- A token of its own kind covers exactly what the token matched; whitespace is skipped from its end. -/
theorem C50_token {E : Env} {cx : Cx} {r : Rule} {st : St} {x : Res} (hr : r.isToken = true)
    (hx : Exec E cx (.run r) st x) (ho : x.out = .ok) :
    ∃ k e y, Spec.MatchTo E r st.pos e ∧ Spec.kindOf r = some k ∧
      Exec E cx .ws { st with pos := e } y ∧ y.out = .ok ∧ x.st = y.st ∧ x.evs = .token k st.pos e :: y.evs := by
  obtain ⟨n, h⟩ := hx.elim
  clear hx
  simp only [step] at h
  cases r <;> try (exact Bool.noConfusion hr)
  case tok t =>
    simp only [stepRun, tokenParse] at h
    split at h
    · rename_i hb
      obtain ⟨y, h1, rfl⟩ := emit_some.1 h
      refine ⟨t.kind, st.pos + (t.run (E.inp.drop st.pos)).2, y, ⟨Prod.ext hb ?_, by omega⟩, rfl, ⟨n, h1⟩, ho, rfl, rfl⟩
      simp only; omega
    · cases h; cases ho
  case tokr kind tag r =>
    simp only [stepRun] at h
    split at h
    · cases h
    · rename_i z hz
      simp only [tokenParse] at h
      split at h
      · rename_i hb
        obtain ⟨y, h1, rfl⟩ := emit_some.1 h
        exact ⟨kind, z.st.pos, y, tokTry_to rfl hz (by simpa using hb), rfl, ⟨n, h1⟩, ho, rfl, rfl⟩
      · cases h; cases ho

/-- So a token is followed by one whitespace token, after which there is no whitespace any more. -/
theorem C50_after_token {E : Env} {cx : Cx} {W r : Rule} {st : St} {x : Res} (hc : cx.ws = some W) (hs : st.wsOn = true)
    (hW : W.isToken = true) (hr : r.isToken = true) (h : Exec E cx (.run r) st x) (ho : x.out = .ok) :
    ∃ k e, Spec.MatchTo E r st.pos e ∧ x.evs = [.token k st.pos e, .token .whitespace e x.st.pos] ∧
      Spec.TokSkip E W e x.st.pos ∧ ¬ Spec.MatchesHere E W x.st.pos := by
  obtain ⟨k, e, y, h1, _, h2, h3, h4, h5⟩ := C50_token hr h ho
  obtain ⟨_, g2, _, g4, g5⟩ := C50_whitespace_token (st := { st with pos := e }) hc hs hW h2
  rw [h4]
  rw [g2] at h5
  exact ⟨k, e, h1, h5, g4, g5⟩

-- "(  )": the two spaces are skipped after the parenthesis
example : Ex.obs (exec (Ex.env [40, 32, 32, 41] Ex.lists) 9 { ws := some Ex.space } (.run Ex.open_) { pos := 0 }) =
    some (.ok, 3, [.token (.user 1) 0 1, .token .whitespace 1 3]) := by decide +kernel

-- whitespace is a choice: spaces, and "," with a letter behind it
def Ex.wsChoice : Rule := .wsr (.chc [Ex.space, .br Ex.comma Ex.letter])

example : Ex.obs (exec (Ex.env [40, 32, 44, 97, 32, 41] Ex.lists) 20 { ws := some Ex.wsChoice } (.run Ex.open_) { pos := 0 }) =
    some (.ok, 5, [.token (.user 1) 0 1, .token .whitespace 1 5]) := by decide +kernel

-- it fails where the letter is missing
example : Ex.obs (exec (Ex.env [40, 32, 44, 41] Ex.lists) 20 { ws := some Ex.wsChoice } (.run Ex.open_) { pos := 0 }) =
    some (.fail, 3, [.token (.user 1) 0 1, .error 17 3 3, .token .error 1 3]) := by decide +kernel

theorem noBrk_tok (E : Env) (t : PTok) (st : St) (z : Res) (h : Exec E ⟨none, 0⟩ (.bfinish (.tok t)) st z) : z.out ≠ .brk := by
  obtain ⟨n, h⟩ := h.elim
  simp only [step, stepFinish, tokenDone] at h
  obtain ⟨y, h1, rfl⟩ := emit_some.1 h
  exact (ws_st E n _ .ws _ (.inl rfl) h1).2

-- the hypothesis about `break_` holds for it
example (E : Env) : ∀ r ∈ Spec.wsAlts Ex.wsChoice, ∀ st z, Exec E ⟨none, 0⟩ (.bfinish r) st z → z.out ≠ .brk := by
  intro r hr st z h
  simp only [Ex.wsChoice, Spec.wsAlts, List.mem_cons, List.not_mem_nil, or_false] at hr
  rcases hr with rfl | rfl
  · exact noBrk_tok E _ st z h
  · obtain ⟨n, h⟩ := h.elim
    simp only [step, stepFinish] at h
    rcases onOk_some h with ⟨st1, e1, r2, h1, h2, rfl⟩ | ⟨h1, h2⟩
    · cases n with
      | zero => cases h2
      | succ n =>
        rw [exec_succ] at h2
        simp only [step, stepRun, Ex.letter, tokenParse] at h2
        split at h2
        · obtain ⟨y, h3, rfl⟩ := emit_some.1 h2
          exact (ws_st E n _ .ws _ (.inl rfl) h3).2
        · cases h2; exact Out.noConfusion
    · exact noBrk_tok E _ st z ⟨n, h1⟩

/-! ## C50: inside `no_whitespace` -/

theorem noWs_exec {E : Env} {P : Rule → Prop} (hP : ∀ r, P r → PlainIn E P r) (n : Nat) (cx : Cx) (c : Cmd) (st : St)
    (hc : CmdIn E P c) (hs : st.wsOn = false) : NoWs (exec E n cx c st) := by
  induction n generalizing cx c st with
  | zero => exact n_none
  | succ n ih => exact n_step (fun cx c st hc hs => ih cx c st hc hs) hP cx c st hs hc

/-- Partial: for rules that contain neither `whitespace(...)` nor (another) `no_whitespace(...)`, in a context that has
    whitespace: nothing is skipped inside, not even in productions with their own whitespace; afterwards whitespace is
    skipped once. -/
theorem C50_no_whitespace_partial {E : Env} {cx : Cx} {r : Rule} {st : St} {x : Res} (hw : cx.ws ≠ none)
    (hr : Spec.Plain E r) (h : Exec E cx (.run (.wsn r)) st x) :
    (∃ y z, Exec E cx (.run r) { st with wsOn := false } y ∧ y.out = .ok ∧ noWs y.evs ∧
      Exec E cx .ws { y.st with wsOn := true } z ∧ x = ⟨z.out, z.st, y.evs ++ z.evs⟩) ∨
    (x.out ≠ .ok ∧ noWs x.evs) := by
  obtain ⟨P, hP, hr⟩ := hr
  obtain ⟨n, h⟩ := h.elim
  simp only [step, stepRun] at h
  rw [if_neg (by simpa using hw)] at h
  rcases onOk_some h with ⟨st1, e1, r2, h1, h2, rfl⟩ | ⟨h1, h2⟩
  · obtain ⟨g1, g2⟩ := noWs_exec hP n cx (.run r) _ hr rfl _ h1
    exact .inl ⟨⟨.ok, st1, e1⟩, r2, ⟨n, h1⟩, rfl, g2, ⟨n, h2⟩, rfl⟩
  · obtain ⟨g1, g2⟩ := noWs_exec hP n cx (.run r) _ hr rfl _ h1
    exact .inr ⟨h2, g2⟩

/-- The same as a branch. -/
theorem C50_no_whitespace_branch_partial {E : Env} {cx : Cx} {r : Rule} {st : St} {x : Res} 
    (hr : Spec.Plain E r) (h : Exec E cx (.bfinish (.wsn r)) st x) :
    (∃ y z, Exec E cx (.bfinish r) { st with wsOn := false } y ∧ y.out = .ok ∧ noWs y.evs ∧
      Exec E cx .ws { y.st with wsOn := true } z ∧ x = ⟨z.out, z.st, y.evs ++ z.evs⟩) ∨
    (x.out ≠ .ok ∧ noWs x.evs) := by
  obtain ⟨P, hP, hr⟩ := hr
  obtain ⟨n, h⟩ := h.elim
  simp only [step, stepFinish] at h
  rcases onOk_some h with ⟨st1, e1, r2, h1, h2, rfl⟩ | ⟨h1, h2⟩
  · obtain ⟨g1, g2⟩ := noWs_exec hP n cx (.bfinish r) _ hr rfl _ h1
    exact .inl ⟨⟨.ok, st1, e1⟩, r2, ⟨n, h1⟩, rfl, g2, ⟨n, h2⟩, rfl⟩
  · obtain ⟨g1, g2⟩ := noWs_exec hP n cx (.bfinish r) _ hr rfl _ h1
    exact .inr ⟨h2, g2⟩

-- a list inside of `no_whitespace`: "1,2 )": the whitespace behind it is skipped; in "1, 2)" it ends at the comma
def Ex.noWsList : Rule := .wsn (.lst Ex.digit (some (Ex.comma, .sep 9)))

theorem Ex.noWsList_plain (E : Env) : Spec.Plain E (.lst Ex.digit (some (Ex.comma, .sep 9))) := by
  refine ⟨fun r => r = .lst Ex.digit (some (Ex.comma, .sep 9)) ∨ r = Ex.digit ∨ r = Ex.comma, ?_, .inl rfl⟩
  rintro r (rfl | rfl | rfl)
  · refine ⟨.inr (.inl rfl), ?_⟩
    intro s hs
    cases hs
    exact .inr (.inr rfl)
  · exact Kind.noConfusion
  · exact Kind.noConfusion

example : Ex.obs (exec (Ex.env [49, 44, 50, 32, 41] Ex.lists) 20 { ws := some Ex.space } (.run Ex.noWsList) { pos := 0 }) =
    some (.ok, 4, [.token (.user 4) 0 1, .token (.user 3) 1 2, .token (.user 4) 2 3, .token .whitespace 3 4]) := by
  decide +kernel

example : Ex.obs (exec (Ex.env [49, 44, 32, 50, 41] Ex.lists) 20 { ws := some Ex.space } (.run Ex.noWsList) { pos := 0 }) =
    some (.ok, 3, [.token (.user 4) 0 1, .token (.user 3) 1 2, .error 9 1 2, .token .whitespace 2 3]) := by
  decide +kernel

/-! ## C50: where it is not so -/

/-- A rule inside of `no_whitespace` that itself uses `no_whitespace`: whitespace is skipped in the outer one. -/
theorem C50_no_whitespace_refuted :
    ¬ ∀ (E : Env) (cx : Cx) (r : Rule) (st : St) (x : Res), cx.ws ≠ none → Exec E cx (.run (.wsn r)) st x → x.out = .ok →
        noWs x.evs.dropLast := by
  intro h
  let E := Ex.env [49, 50, 32, 51] Ex.lists
  let r := Rule.seq (.wsn (.seq Ex.digit Ex.digit)) Ex.digit
  have hx : Ex.obs (exec E 20 { ws := some Ex.space } (.run (.wsn r)) { pos := 0 }) =
      some (.ok, 4, [.token (.user 4) 0 1, .token (.user 4) 1 2, .token .whitespace 2 3, .token (.user 4) 3 4,
        .token .whitespace 4 4, .token .whitespace 4 4]) := by
    decide +kernel
  obtain ⟨x, h1, h2⟩ := Option.map_eq_some_iff.1 hx
  simp only [Prod.mk.injEq] at h2
  have := h E { ws := some Ex.space } r { pos := 0 } x (by simp) ⟨20, h1⟩ h2.1
  rw [h2.2.2] at this
  exact Bool.noConfusion (this (.token .whitespace 2 3) (by decide))

/-- A failure inside of `no_whitespace` that is recovered from leaves whitespace skipping switched off. -/
theorem C50_failure_refuted :
    ¬ ∀ (E : Env) (cx : Cx) (W r t : Rule) (rc : Recov) (st : St) (x : Res), cx.ws = some W → W.isToken = true → st.wsOn = true →
        t.isToken = true → Exec E cx (.run (.seq (.tryr (.wsn r) rc) t)) st x → x.out = .ok →
        ¬ Spec.MatchesHere E W x.st.pos := by
  intro h
  let E := Ex.env [49, 97, 44, 32, 41] Ex.lists
  let l := Ex.lookFor 44 59
  have hx : Ex.obs (exec E 20 { ws := some Ex.space } (.run (.seq (.tryr (.wsn (.seq Ex.digit Ex.digit)) (.find l)) Ex.comma)) { pos := 0 }) =
      some (.ok, 3, [.token (.user 4) 0 1, .token .error 1 1, .error 14 1 1, .recStart 1, .token .error 1 2, .recFinish 2,
        .token (.user 3) 2 3]) := by
    decide +kernel
  obtain ⟨x, h1, h2⟩ := Option.map_eq_some_iff.1 hx
  simp only [Prod.mk.injEq] at h2
  have := h E { ws := some Ex.space } Ex.space (.seq Ex.digit Ex.digit) Ex.comma (.find l) { pos := 0 } x rfl rfl rfl rfl ⟨20, h1⟩ h2.1
  rw [h2.2.1] at this
  exact this (show ((Ex.oneOf 6 16 [32]).run ([49, 97, 44, 32, 41].drop 3)).1 = true by decide +kernel)

/-- The reference manual (production.adoc, whitespace.adoc) says that whitespace skipping is enabled again while parsing a
    production inside of `no_whitespace`.  It is not. -/
theorem C50_production_refuted :
    ¬ ∀ (E : Env) (cx : Cx) (W : Rule) (n : Nat) (t : Rule) (st : St) (x : Res), cx.ws = some W → W.isToken = true →
        (E.prods n).rule = t → (E.prods n).ws = none → (E.prods n).isTok = false → t.isToken = true →
        Exec E cx (.run (.wsn (.seq (.prod n) .els))) st x → x.out = .ok →
        ∃ b e, Ev.token .whitespace b e ∈ x.evs.dropLast := by
  intro h
  let E := Ex.env [49, 32, 41] fun _ => { rule := Ex.digit }
  have hx : Ex.obs (exec E 20 { ws := some Ex.space } (.run (.wsn (.seq (.prod 0) .els))) { pos := 0 }) =
      some (.ok, 2, [.prodStart 0 0, .token (.user 4) 0 1, .prodFinish 0 1, .token .whitespace 1 2]) := by
    decide +kernel
  obtain ⟨x, h1, h2⟩ := Option.map_eq_some_iff.1 hx
  simp only [Prod.mk.injEq] at h2
  obtain ⟨b, e, h3⟩ := h E { ws := some Ex.space } Ex.space 0 Ex.digit { pos := 0 } x rfl rfl rfl rfl rfl rfl ⟨20, h1⟩ h2.1
  rw [h2.2.2] at h3
  simp at h3

/-- `no_whitespace(rule)` as a branch is not the same as the rule in a context without whitespace: with a production
    inside that has its own whitespace, only the branch switches that off. -/
theorem C39_no_whitespace_refuted :
    ¬ ∀ (E : Env) (cx : Cx) (b : Rule) (st : St) (x y : Res), st.pos ≤ E.inp.length → Takes E b st →
        Exec E cx (.bfinish b) st x → Exec E cx (.run b) st y → x.out = y.out := by
  intro h
  let E := Ex.env [40, 32, 49] fun _ => { rule := .seq Ex.digit .els, ws := some Ex.space }
  let b := Rule.wsn (.br Ex.open_ (.prod 0))
  have h0 : Ex.obs (exec E 20 {} (.btry b) { pos := 0 }) = some (.ok, 0, []) := by decide +kernel
  have h1 : Ex.obs (exec E 20 {} (.bfinish b) { pos := 0 }) =
      some (.fail, 1, [.token (.user 1) 0 1, .prodStart 0 1, .token .error 1 1, .error 14 1 1, .prodCancel 0 1]) := by
    decide +kernel
  have h2 : Ex.obs (exec E 20 {} (.run b) { pos := 0 }) =
      some (.ok, 3, [.token (.user 1) 0 1, .prodStart 0 1, .token .whitespace 1 2, .token (.user 4) 2 3,
        .token .whitespace 3 3, .prodFinish 0 3]) := by
    decide +kernel
  obtain ⟨z, g0, e0⟩ := Option.map_eq_some_iff.1 h0
  obtain ⟨x, g1, e1⟩ := Option.map_eq_some_iff.1 h1
  obtain ⟨y, g2, e2⟩ := Option.map_eq_some_iff.1 h2
  simp only [Prod.mk.injEq] at e0 e1 e2
  have hl : (({ pos := 0 } : St).pos) ≤ E.inp.length := Nat.zero_le _
  have ht : Takes E b { pos := 0 } := by
    rcases btry_out hl g0 with e | e
    · exact ⟨{}, 20, by rw [g0, e]⟩
    · rw [e] at e0; exact Out.noConfusion e0.1
  have := h E {} b { pos := 0 } x y hl ht ⟨20, g1⟩ ⟨20, g2⟩
  rw [e1.1, e2.1] at this
  cases this

end Verif
