import Verif.GrammarQuiet
import Verif.GrammarEx

/-
C45: recursive productions nest at most `max_recursion_depth` deep.
-/

namespace Verif

/-- Only steps that call themselves through `recurse` change the depth. -/
theorem exec_later (E : Env) (n : Nat) (cx : Cx) (c : Cmd) (st : St) : Rel st (exec E n cx c st) (exec E n cx c st) := by
  induction n generalizing cx c st with
  | zero => exact rel_none
  | succ n ih =>
    have deep : ∀ c' tag, Rel st (deeper cx tag st fun st' => exec E n cx c' st') (deeper cx tag st fun st' => exec E n cx c' st') := by
      intro c' tag
      unfold deeper
      split
      · exact rel_none
      · split
        · exact rel_some (.refl _)
        · intro r hr
          refine ⟨hr, ?_⟩
          obtain ⟨r1, r2, h1, h2, rfl⟩ := andThen_some.1 hr
          have := (ih _ _ _ r1 h1).2
          cases ho : r1.out with
          | ok =>
            rw [ho] at h2
            cases h2
            exact ⟨this.1, by have := this.2; simp only at this ⊢; omega⟩
          | fail =>
            rw [ho] at h2
            cases h2
            exact ⟨this.1, by have := this.2; simp only at this ⊢; omega⟩
          | brk => rw [ho] at h2; cases h2
    rw [exec_succ]
    by_cases h1 : ∃ m tag b, c = .run (.recu m tag b)
    · obtain ⟨m, tag, b, rfl⟩ := h1
      exact deep _ _
    · by_cases h2 : ∃ m tag b, c = .bfinish (.recu m tag b)
      · obtain ⟨m, tag, b, rfl⟩ := h2
        exact deep _ _
      · exact rel_step (G := fun _ _ => True) (fun cx c st _ => ih cx c st) (fun _ _ _ _ _ => trivial) (fun _ => trivial)
          cx st trivial c (fun m tag b h => h1 ⟨m, tag, b, h⟩) (fun m tag b h => h2 ⟨m, tag, b, h⟩)

namespace Spec

/-- The parse, counting how deep recursive productions are nested: there is no result if they are nested more than `b`
    deep.  `limited`: also give up with an error where the depth that the parser keeps reaches `max_recursion_depth`.
    Recursion without a limit is not allowed (`max_recursion_depth = 0`). -/
def nests (E : Env) (limited : Bool) : Nat → Nat → Cx → Cmd → St → Option Res
  | 0, _, _, _, _ => none
  | n + 1, b, cx, c, st =>
    let enter := fun (tag : Nat) (c' : Cmd) =>
      if cx.maxDepth = 0 then none
      else if limited = true ∧ st.depth ≥ cx.maxDepth then some ⟨.fail, st, [.error tag st.pos st.pos]⟩
      else if b = 0 then none
      else onOk' (nests E limited n (b - 1) cx c' { st with depth := st.depth + 1 }) fun st' =>
        ret .ok { st' with depth := st'.depth - 1 }
    match c with
    | .run (.recu m tag _) => enter tag (.run (.prod m))
    | .bfinish (.recu m tag _) => enter tag (.bfinish (.prod m))
    | c => step E (nests E limited n b) cx c st

end Spec

theorem nests_step {E : Env} {l : Bool} {n b : Nat} {cx : Cx} {c : Cmd} {st : St}
    (h1 : ¬ ∃ m tag b, c = .run (.recu m tag b)) (h2 : ¬ ∃ m tag b, c = .bfinish (.recu m tag b)) :
    Spec.nests E l (n + 1) b cx c st = step E (Spec.nests E l n b) cx c st := by
  cases c <;> try rfl
  case run r =>
    cases r <;> try rfl
    exact absurd ⟨_, _, _, rfl⟩ h1
  case bfinish r =>
    cases r <;> try rfl
    exact absurd ⟨_, _, _, rfl⟩ h2

/-- **C45.** Recursive productions are nested at most `max_recursion_depth` deep: the parse is the same as one that
    gives up if there are more than `b` levels below, where `b` levels are left. -/
theorem C45_nesting (E : Env) (n b : Nat) (cx : Cx) (c : Cmd) (st : St) (hb : cx.maxDepth ≤ st.depth + b) (r : Res)
    (h : exec E n cx c st = some r) : Spec.nests E true n b cx c st = some r := by
  suffices hh : ∀ n b cx c st, cx.maxDepth - st.depth ≤ b → Rel st (exec E n cx c st) (Spec.nests E true n b cx c st) from
    (hh n b cx c st (by omega) r h).1
  intro n
  induction n with
  | zero => intro b cx c st _; exact rel_none
  | succ n ih =>
    intro b cx c st hb r hr
    refine ⟨?_, (exec_later E (n + 1) cx c st r hr).2⟩
    have deep : ∀ c' tag, deeper cx tag st (fun st' => exec E n cx c' st') = some r →
        (if cx.maxDepth = 0 then none
          else if true = true ∧ st.depth ≥ cx.maxDepth then some ⟨.fail, st, [.error tag st.pos st.pos]⟩
          else if b = 0 then none
          else onOk' (Spec.nests E true n (b - 1) cx c' { st with depth := st.depth + 1 }) fun st' =>
            ret .ok { st' with depth := st'.depth - 1 }) = some r := by
      intro c' tag hr
      unfold deeper at hr
      by_cases h0 : cx.maxDepth = 0
      · rw [if_pos h0] at hr; cases hr
      · rw [if_neg h0] at hr ⊢
        by_cases h1 : st.depth ≥ cx.maxDepth
        · rw [if_pos h1] at hr; rw [if_pos ⟨rfl, h1⟩]; exact hr
        · rw [if_neg h1] at hr
          rw [if_neg (fun h => h1 h.2), if_neg (by omega)]
          obtain ⟨r1, r2, h2, h3, rfl⟩ := andThen_some.1 hr
          exact andThen_some.2 ⟨r1, r2, (ih (b - 1) cx c' { st with depth := st.depth + 1 } (by simp only; omega) r1 h2).1, h3, rfl⟩
    rw [exec_succ] at hr
    by_cases h1 : ∃ m tag b, c = .run (.recu m tag b)
    · obtain ⟨m, tag, b', rfl⟩ := h1
      exact deep _ _ hr
    · by_cases h2 : ∃ m tag b, c = .bfinish (.recu m tag b)
      · obtain ⟨m, tag, b', rfl⟩ := h2
        exact deep _ _ hr
      · rw [nests_step h1 h2]
        exact (rel_step (G := fun m d => m - d ≤ b) (rec := exec E n) (rec' := Spec.nests E true n b)
          (fun cx c st hg => ih b cx c st hg) (fun m d d' h1 h2 => by omega) (fun d => by omega)
          cx st hb c (fun m tag b h => h1 ⟨m, tag, b, h⟩) (fun m tag b h => h2 ⟨m, tag, b, h⟩) r hr).1

/-- **C45.** At the limit a recursive production is not entered: it fails with an error at this position. -/
theorem C45_limit (E : Env) (n : Nat) (cx : Cx) (m tag : Nat) (b : Bool) (st : St) (h0 : cx.maxDepth ≠ 0)
    (h : st.depth ≥ cx.maxDepth) :
    exec E (n + 1) cx (.run (.recu m tag b)) st = some ⟨.fail, st, [.error tag st.pos st.pos]⟩ ∧
      exec E (n + 1) cx (.bfinish (.recu m tag b)) st = some ⟨.fail, st, [.error tag st.pos st.pos]⟩ := by
  constructor <;> simp [exec_succ, step, stepRun, stepFinish, deeper, h0, h]

theorem exVal_exec (E : Env) (n : Nat) (cx : Cx) (c : Cmd) (st : St) (r : Res) (h : exec E n cx c st = some r)
    (ho : r.out = .ok) : ExVal c st r := by
  induction n generalizing cx c st r with
  | zero => cases h
  | succ n ih => exact exVal_step ih cx c st r h ho

theorem exVal_nests (E : Env) (l : Bool) (n b : Nat) (cx : Cx) (c : Cmd) (st : St) (r : Res)
    (h : Spec.nests E l n b cx c st = some r) (ho : r.out = .ok) : ExVal c st r := by
  induction n generalizing b cx c st r with
  | zero => cases h
  | succ n ih =>
    by_cases h1 : ∃ m tag b, c = .run (.recu m tag b)
    · obtain ⟨m, tag, b', rfl⟩ := h1; trivial
    · by_cases h2 : ∃ m tag b, c = .bfinish (.recu m tag b)
      · obtain ⟨m, tag, b', rfl⟩ := h2; trivial
      · rw [nests_step h1 h2] at h
        exact exVal_step (fun cx c st r => ih b cx c st r) cx c st r h ho

/-- Without a limit of its own, nothing can recurse. -/
theorem nests_zero (E : Env) (n b : Nat) (cx : Cx) (c : Cmd) (st : St) (hm : cx.maxDepth = 0) (r : Res)
    (h : Spec.nests E false n b cx c st = some r) : exec E n cx c st = some r := by
  suffices hh : ∀ n b cx c st, cx.maxDepth = 0 →
      ∀ r, Spec.nests E false n b cx c st = some r → exec E n cx c st = some r ∧ Later st r.st from
    (hh n b cx c st hm r h).1
  intro n
  induction n with
  | zero => intro b cx c st _ r h; cases h
  | succ n ih =>
    intro b cx c st hm r hr
    by_cases h1 : ∃ m tag b, c = .run (.recu m tag b)
    · obtain ⟨m, tag, b', rfl⟩ := h1
      simp only [Spec.nests, hm, if_true] at hr
      cases hr
    · by_cases h2 : ∃ m tag b, c = .bfinish (.recu m tag b)
      · obtain ⟨m, tag, b', rfl⟩ := h2
        simp only [Spec.nests, hm, if_true] at hr
        cases hr
      · rw [nests_step h1 h2] at hr
        rw [exec_succ]
        exact rel_step (G := fun m d => m = 0) (rec := Spec.nests E false n b) (rec' := exec E n)
          (fun cx c st hg => ih b cx c st hg) (fun m d d' h1 h2 => h2) (fun d => rfl)
          cx st hm c (fun m tag b h => h1 ⟨m, tag, b, h⟩) (fun m tag b h => h2 ⟨m, tag, b, h⟩) r hr

theorem nests_cond (E : Env) (n b : Nat) (cx : Cx) (c : Cmd) (st : St) (r : Res) (hc : isCond c = true)
    (h : Spec.nests E false n b cx c st = some r) : exec E n cx c st = some r := by
  induction n generalizing cx c st r with
  | zero => cases h
  | succ n ih =>
    rw [nests_step (by rintro ⟨m, tag, b, rfl⟩; cases hc) (by rintro ⟨m, tag, b, rfl⟩; cases hc)] at h
    exact cond_le (fun cx c st r hm => nests_zero E n b cx c st hm r) (fun cx c st r hc => ih cx c st r hc) cx c st r hc h

/-- **C45.** Input that is nested no deeper than the limit is not rejected for it: if a parse that keeps no depth
    reports no error and is nested at most `b` deep, where `b` levels are left, then the parse with the limit is the
    same. -/
theorem C45_enough_partial (E : Env) (n b : Nat) (cx : Cx) (c : Cmd) (st : St) (hb : st.depth + b ≤ cx.maxDepth) (r : Res)
    (h : Spec.nests E false n b cx c st = some r) (hq : ∀ ev ∈ r.evs, ev.isError = false) :
    exec E n cx c st = some r := by
  suffices hh : ∀ n b cx c st, (cx.maxDepth = 0 ∨ st.depth + b ≤ cx.maxDepth) →
      RelQ (mayFail c) st.depth (Spec.nests E false n b cx c st) (exec E n cx c st) from
    (hh n b cx c st (.inr hb) r h hq).1
  intro n
  induction n with
  | zero => intro b cx c st _; exact q_none
  | succ n ih =>
    intro b cx c st hb
    have deep : ∀ c' tag, mayFail c' = false →
        RelQ false st.depth (if cx.maxDepth = 0 then none
          else if false = true ∧ st.depth ≥ cx.maxDepth then some ⟨.fail, st, [.error tag st.pos st.pos]⟩
          else if b = 0 then none
          else onOk' (Spec.nests E false n (b - 1) cx c' { st with depth := st.depth + 1 }) fun st' =>
            ret .ok { st' with depth := st'.depth - 1 }) (deeper cx tag st fun st' => exec E n cx c' st') := by
      intro c' tag hm
      unfold deeper
      by_cases h0 : cx.maxDepth = 0
      · rw [if_pos h0]; exact q_none
      · rw [if_neg h0, if_neg h0, if_neg (fun h => Bool.noConfusion h.1)]
        by_cases h1 : b = 0
        · rw [if_pos h1]; exact q_none
        · have h2 : st.depth + b ≤ cx.maxDepth := hb.resolve_left h0
          rw [if_neg h1, if_neg (by omega)]
          intro r hr hq
          obtain ⟨r1, r2, h3, h4, rfl⟩ := andThen_some.1 hr
          obtain ⟨h5, h6, h7⟩ := ih (b - 1) cx c' { st with depth := st.depth + 1 } (.inr (by simp only; omega)) r1 h3 hq.left
          refine ⟨andThen_some.2 ⟨r1, r2, h5, h4, rfl⟩, ?_⟩
          cases ho : r1.out with
          | ok =>
            rw [ho] at h4
            cases h4
            refine ⟨?_, fun _ h => Out.noConfusion h⟩
            simp only at h6 ⊢; omega
          | fail => exact absurd ho (h7 hm)
          | brk => rw [ho] at h4; cases h4
    by_cases h1 : ∃ m tag b, c = .run (.recu m tag b)
    · obtain ⟨m, tag, b', rfl⟩ := h1
      exact deep (.run (.prod m)) tag rfl
    · by_cases h2 : ∃ m tag b, c = .bfinish (.recu m tag b)
      · obtain ⟨m, tag, b', rfl⟩ := h2
        exact deep (.bfinish (.prod m)) tag rfl
      · rw [nests_step h1 h2, exec_succ]
        exact q_step (G := fun m d => m = 0 ∨ d + b ≤ m) (rec := Spec.nests E false n b) (rec' := exec E n)
          (fun cx c st hg => ih b cx c st hg) (fun cx c st r hc h => nests_cond E n b cx c st r hc h)
          (fun cx c st r hm h => nests_zero E n b cx c st hm r h) (exVal_nests E false n b) (fun d => .inl rfl)
          cx st st.depth rfl hb c (fun m tag b h => h1 ⟨m, tag, b, h⟩) (fun m tag b h => h2 ⟨m, tag, b, h⟩)

/-- Where no error is reported, nothing fails and the depth is restored. -/
theorem exec_relQ (E : Env) : ∀ n cx c st, RelQ (mayFail c) st.depth (exec E n cx c st) (exec E n cx c st) := by
  intro n
  induction n with
  | zero => intro cx c st; exact q_none
  | succ n ih =>
    intro cx c st
    have deep : ∀ c' tag, mayFail c' = false →
        RelQ false st.depth (deeper cx tag st fun st' => exec E n cx c' st') (deeper cx tag st fun st' => exec E n cx c' st') := by
      intro c' tag hm
      unfold deeper
      split
      · exact q_none
      · split
        · exact q_error ⟨.error tag st.pos st.pos, by simp, rfl⟩
        · intro r hr hq
          obtain ⟨r1, r2, h3, h4, rfl⟩ := andThen_some.1 hr
          obtain ⟨h5, h6, h7⟩ := ih cx c' { st with depth := st.depth + 1 } r1 h3 hq.left
          refine ⟨hr, ?_⟩
          cases ho : r1.out with
          | ok =>
            rw [ho] at h4
            cases h4
            refine ⟨?_, fun _ h => Out.noConfusion h⟩
            simp only at h6 ⊢; omega
          | fail => exact absurd ho (h7 hm)
          | brk => rw [ho] at h4; cases h4
    rw [exec_succ]
    by_cases h1 : ∃ m tag b, c = .run (.recu m tag b)
    · obtain ⟨m, tag, b', rfl⟩ := h1
      exact deep (.run (.prod m)) tag rfl
    · by_cases h2 : ∃ m tag b, c = .bfinish (.recu m tag b)
      · obtain ⟨m, tag, b', rfl⟩ := h2
        exact deep (.bfinish (.prod m)) tag rfl
      · exact q_step (G := fun _ _ => True) (rec := exec E n) (rec' := exec E n)
          (fun cx c st hg => ih cx c st) (fun cx c st r hc h => h)
          (fun cx c st r hm h => h) (exVal_exec E n) (fun d => trivial)
          cx st st.depth rfl trivial c (fun m tag b h => h1 ⟨m, tag, b, h⟩) (fun m tag b h => h2 ⟨m, tag, b, h⟩)

/-- **C45.** A parse that reports no error leaves the depth as it was. -/
theorem C45_depth_restored (E : Env) (n : Nat) (cx : Cx) (c : Cmd) (st : St) (r : Res) (h : exec E n cx c st = some r)
    (hq : ∀ ev ∈ r.evs, ev.isError = false) : r.st.depth = st.depth := (exec_relQ E n cx c st r h hq).2.1

/-- `n` opening parentheses, a digit and `n` closing ones. -/
def Ex.parens : Nat → ProdDef
  | 0 => { rule := .chc [.br Ex.open_ (.seq (.recu 0 21 true) Ex.close), Ex.digit] }
  | 1 => { rule := Ex.digit }
  | _ => { rule := .seq (.tryt none (.recu 1 21 false) (.wrap Ex.letter)) (.recu 1 21 false) }

/-- `((1))` is nested 2 deep: it is accepted if that is the limit, and the limit 1 is reported. -/
example : ((Spec.nests (Ex.env [40, 40, 49, 41, 41] Ex.parens) false 30 2 ⟨none, 2⟩ (.run (.prod 0)) { pos := 0 }).map
    fun r => (r.out, r.evs.filter Ev.isError)) = some (.ok, []) := by decide +kernel
example : ((exec (Ex.env [40, 40, 49, 41, 41] Ex.parens) 30 ⟨none, 2⟩ (.run (.prod 0)) { pos := 0 }).map
    fun r => (r.out, r.st.pos, r.st.depth)) = some (.ok, 5, 0) := by decide +kernel
example : ((exec (Ex.env [40, 40, 49, 41, 41] Ex.parens) 30 ⟨none, 1⟩ (.run (.prod 0)) { pos := 0 }).map
    fun r => (r.out, r.evs.filter Ev.isError)) = some (.fail, [.error 21 2 2]) := by decide +kernel

/-- **C45 without the condition that no error was reported is false** (F8): the depth is not decremented when a
    recursive production fails (production.hpp l.171-176 does it only where the continuation is called), so after a
    recovery input that is nested 1 deep is rejected although the limit is 1. -/
theorem C45_enough_refuted :
    ¬ ∀ (E : Env) (n b : Nat) (cx : Cx) (c : Cmd) (st : St) (r : Res), st.depth + b ≤ cx.maxDepth →
      Spec.nests E false n b cx c st = some r → ∃ r', exec E n cx c st = some r' ∧ r'.out = r.out := by
  intro h
  have h1 : ((Spec.nests (Ex.env [97, 49] Ex.parens) false 30 1 ⟨none, 1⟩ (.run (.prod 2)) { pos := 0 }).map
    fun r => (r.out, r.st.pos)) = some (.ok, 2) := by decide +kernel
  have h2 : ((exec (Ex.env [97, 49] Ex.parens) 30 ⟨none, 1⟩ (.run (.prod 2)) { pos := 0 }).map
    fun r => (r.out, r.evs.filter Ev.isError)) = some (.fail, [.error 14 0 0, .error 21 1 1]) := by decide +kernel
  cases hr : Spec.nests (Ex.env [97, 49] Ex.parens) false 30 1 ⟨none, 1⟩ (.run (.prod 2)) { pos := 0 } with
  | none => rw [hr] at h1; cases h1
  | some r =>
    obtain ⟨r', h3, h4⟩ := h _ 30 1 ⟨none, 1⟩ (.run (.prod 2)) { pos := 0 } r (Nat.le_refl _) hr
    rw [hr] at h1
    rw [h3] at h2
    simp only [Option.map_some, Option.some.injEq, Prod.mk.injEq] at h1 h2
    rw [h1.1, h2.1] at h4
    cases h4

end Verif
