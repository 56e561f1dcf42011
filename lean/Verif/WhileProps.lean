import Verif.BracketsProps
import Verif.ListAccept

/-
C111: `while_`, `while_one` and `do_while` (loop.hpp).
-/

namespace Verif

open Spec (Lang Chain)

/-- `while_one`, loop.hpp l.104-110. -/
def whileOne (b : Rule) : Rule := .br b (.whl b)

/-- `do_while`, loop.hpp l.115-120. -/
def doWhile (E : Env) (t c : Rule) : Rule := Bk.maybeBranch E t (.whl (.br c t))

/-- Any number of times. -/
inductive Spec.Star (R : Nat → Nat → Prop) : Nat → Nat → Prop
  | refl {p : Nat} : Star R p p
  | step {p m q : Nat} (h : R p m) (ht : Star R m q) : Star R p q

variable {E : Env} {cx : Cx} {on : Bool} {d p q m : Nat}

theorem whl_inv {w : Option Rule} {b : Rule} (h : Lang E w (.rule (.whl b) false) p q) :
    Spec.Star (Lang E w (.rule b false)) p q := by
  generalize hg : Spec.Goal.rule (.whl b) false = g at h
  induction h with
  | token ht => cases hg; cases ht
  | whileEnd => cases hg; exact .refl
  | whileNext h1 h2 _ ih => cases hg; exact .step h1 (ih rfl)
  | context h => cases hg; cases h
  | _ => cases hg

/-- **C111.** What the loops parse without an error: `while_` any number of branches; `while_one` one or more; `do_while(then,
    condition)` one or more `then` with a `condition` between two of them. -/
theorem C111_parsed (hx : ExprLits E) {n : Nat} {st : St} {x : Res} (b t c : Rule) (hl : st.pos ≤ E.inp.length) (ho : x.out = .ok)
    (hq : ∀ ev ∈ x.evs, ev.isError = false) :
    (exec E n cx (.run (.whl b)) st = some x → Spec.Star (Lang E cx.ws (.rule b false)) st.pos x.st.pos) ∧
    (exec E n cx (.run (whileOne b)) st = some x →
      ∃ m, Lang E cx.ws (.rule b false) st.pos m ∧ Spec.Star (Lang E cx.ws (.rule b false)) m x.st.pos) ∧
    (exec E n cx (.run (doWhile E t c)) st = some x →
      ∃ N, Chain (Lang E cx.ws (.rule t false)) (Lang E cx.ws (.rule c false)) (N + 1) st.pos x.st.pos) := by
  refine ⟨fun h => whl_inv (C38_rule hx hl h ho hq), fun h => ?_, fun h => ?_⟩
  · obtain ⟨m, h1, h2⟩ := lang_br (C38_rule hx hl h ho hq)
    exact ⟨m, h1, whl_inv h2⟩
  · obtain ⟨m, h1, h2⟩ := Bk.maybe_inv (C38_rule hx hl h ho hq)
    have h3 := whl_inv h2
    clear h2 h hl
    generalize x.st.pos = q at h3
    generalize st.pos = p at h1
    induction h3 generalizing p with
    | refl => exact ⟨0, .one h1⟩
    | step h _ ih =>
      obtain ⟨l, h3, h4⟩ := lang_br h
      obtain ⟨N, h5⟩ := ih _ h4
      exact ⟨N + 1, .more h1 h3 h5⟩

/-- Rounds of a loop: as long as the branch matches it is parsed. -/
inductive Spec.Rounds (E : Env) (cx : Cx) (on : Bool) (d : Nat) (b : Rule) : Nat → Nat → Prop
  | done {p : Nat} (h : Not E b p) : Rounds E cx on d b p p
  | next {p m q : Nat} (h : Cond E (.btry b) p true) (hf : Does E cx on d (.bfinish b) p m) (ht : Rounds E cx on d b m q) :
    Rounds E cx on d b p q

theorem does_whlR {b : Rule} (h : Spec.Rounds E cx on d b p q) : Does E cx on d (.whlR b) p q := by
  induction h with
  | done h =>
    intro st hp hd ho
    obtain ⟨n1, g1⟩ := h.1 cx st hp
    obtain ⟨e2, q2, n2, g2⟩ := h.2 cx st hp
    subst hp
    refine ⟨e2, q2, max n1 n2 + 1, ?_⟩
    rw [exec_succ]
    simp only [step, ifTry, exec_mono (Nat.le_max_left n1 n2) g1, exec_mono (Nat.le_max_right n1 n2) g2, onOk', andThen,
      ret, Option.map_some, List.append_nil, Bool.false_eq_true, if_false]
  | @next p m q h hf ht ih =>
    intro st hp hd ho
    obtain ⟨n1, g1⟩ := h cx st hp
    obtain ⟨e2, q2, n2, g2⟩ := hf st hp hd ho
    obtain ⟨e3, q3, n3, g3⟩ := ih { st with pos := m } rfl hd ho
    obtain ⟨M, l1, l2, l3⟩ : ∃ M, n1 ≤ M ∧ n2 ≤ M ∧ n3 ≤ M := ⟨n1 + n2 + n3, by omega, by omega, by omega⟩
    refine ⟨e2 ++ e3, quiet_append.2 ⟨q2, q3⟩, M + 1, ?_⟩
    rw [exec_succ]
    simp only [step, if_true, ifTry, exec_mono l1 g1, exec_mono l2 g2, onOk', andThen, framed, Option.map_some, frame_moved,
      exec_mono l3 g3]

theorem does_whl {b : Rule} (h : Spec.Rounds E cx on d b p q) : Does E cx on d (.run (.whl b)) p q := by
  intro st hp hd ho
  obtain ⟨e, q, n, g⟩ := does_whlR h st hp hd ho
  exact ⟨e, q, n + 1, g⟩

/-- **C111.** What they accept: the rule (for `while_one` and `do_while`), and then rounds for as long as the branch matches. -/
theorem C111_accepted (b t c : Rule) :
    (Spec.Rounds E cx on d b p q → Does E cx on d (.run (.whl b)) p q) ∧
    (Does E cx on d (.run b) p m → Spec.Rounds E cx on d b m q → Does E cx on d (.run (whileOne b)) p q) ∧
    (Does E cx on d (.run t) p m → Spec.Rounds E cx on d (.br c t) m q → Does E cx on d (.run (doWhile E t c)) p q) :=
  ⟨does_whl, fun h1 h2 => does_br h1 (does_whl h2), fun h1 h2 => Bk.does_maybe h1 (does_whl h2)⟩

theorem whlR_stops {b : Rule} (n : Nat) : ∀ {st : St} {x : Res}, st.pos ≤ E.inp.length →
    exec E n cx (.whlR b) st = some x → x.out = .ok → Leaves E b x.st := by
  induction n with
  | zero => intro st x _ h; cases h
  | succ n ih =>
    intro st x hl h ho
    rw [exec_succ] at h
    simp only [step] at h
    rcases ifTry_some hl h with ⟨h0, h1⟩ | ⟨h0, h1⟩
    · rcases onOk'_some h1 with ⟨st1, e1, r2, h2, h3, rfl⟩ | ⟨_, h2⟩
      · have hd := (framed_taken (e0 := []) rfl h0 h2).done
        exact (ih (st := st1) (x := r2) (hd.le hl).1 h3 ho : Leaves E b r2.st)
      · rw [ho] at h2; cases h2
    · rcases onOk'_some h1 with ⟨st1, e1, r2, h2, h3, rfl⟩ | ⟨_, h2⟩
      · cases h3
        rw [cancel_ok hl h2]; exact h0
      · rw [ho] at h2; cases h2

/-- **C111.** `while_` that succeeds stops where the branch does not match, whether errors were reported or not. -/
theorem C111_stops {n : Nat} {st : St} {x : Res} {b : Rule} (hl : st.pos ≤ E.inp.length)
    (h : exec E n cx (.run (.whl b)) st = some x) (ho : x.out = .ok) : Leaves E b x.st := by
  cases n with
  | zero => cases h
  | succ n => exact whlR_stops n hl h ho

/-- `1,2` as `do_while(digit, comma)` and `12` as `while_one(digit)`. -/
example : Does (Ex.env [49, 44, 50] Ex.lists) ⟨none, 10⟩ on d (.run (doWhile (Ex.env [49, 44, 50] Ex.lists) Ex.digit Ex.comma)) 0 3
    ∧ Does (Ex.env [49, 50] Ex.lists) ⟨none, 10⟩ on d (.run (whileOne Ex.digit)) 0 2 := by
  have h1 : Does (Ex.env [49, 44, 50] Ex.lists) ⟨none, 10⟩ on d (.run Ex.digit) 0 1 := does_tok (n := 1) rfl (does_ws_none rfl)
  have h2 : Spec.Rounds (Ex.env [49, 44, 50] Ex.lists) ⟨none, 10⟩ on d (.br Ex.comma Ex.digit) 1 3 :=
    .next (m := 3) (cond_br (cond_tok rfl))
      (fin_br (m := 2) (fin_tok (n := 1) rfl (does_ws_none rfl)) (does_tok (n := 1) rfl (does_ws_none rfl)))
      (.done (not_br (not_tok rfl)))
  have h3 : Does (Ex.env [49, 50] Ex.lists) ⟨none, 10⟩ on d (.run Ex.digit) 0 1 := does_tok (n := 1) rfl (does_ws_none rfl)
  have h4 : Spec.Rounds (Ex.env [49, 50] Ex.lists) ⟨none, 10⟩ on d Ex.digit 1 2 :=
    .next (m := 2) (cond_tok rfl) (fin_tok (n := 1) rfl (does_ws_none rfl)) (.done (not_tok rfl))
  exact ⟨(C111_accepted Ex.digit Ex.digit Ex.comma).2.2 h1 h2, (C111_accepted Ex.digit Ex.digit Ex.comma).2.1 h3 h4⟩

/-! ## `loop` -/

theorem loop_inv {w : Option Rule} {r : Rule} (h : Lang E w (.rule (.loop r) false) p q) :
    ∃ m, Spec.Star (Lang E w (.rule r false)) p m ∧ Lang E w (.rule r true) m q := by
  generalize hg : Spec.Goal.rule (.loop r) false = g at h
  induction h with
  | token ht => cases hg; cases ht
  | loopEnd h => cases hg; exact ⟨_, .refl, h⟩
  | loopNext h1 _ _ ih => cases hg; obtain ⟨m, h2, h3⟩ := ih rfl; exact ⟨m, .step h1 h2, h3⟩
  | context h => cases hg; cases h
  | _ => cases hg

theorem loopR_not_brk (n : Nat) {r : Rule} : ∀ {st : St} {x : Res}, exec E n cx (.loopR r) st = some x → x.out ≠ .brk := by
  induction n with
  | zero => intro st x h; cases h
  | succ n ih =>
    intro st x h
    rw [exec_succ] at h
    simp only [step] at h
    obtain ⟨r1, r2, -, h2, rfl⟩ := andThen_some.1 h
    split at h2
    · exact (ih h2 : r2.out ≠ .brk)
    · cases h2; nofun
    · cases h2; nofun

/-- **C111.** What `loop` parses without an error: any number of times the rule without a `break_`, and then the rule with one. The
    `break_` ends the innermost loop only. -/
theorem C111_loop_parsed (hx : ExprLits E) {n : Nat} {st : St} {x : Res} (r : Rule) (hl : st.pos ≤ E.inp.length)
    (h : exec E n cx (.run (.loop r)) st = some x) :
    x.out ≠ .brk ∧ (x.out = .ok → (∀ ev ∈ x.evs, ev.isError = false) →
      ∃ m, Spec.Star (Lang E cx.ws (.rule r false)) st.pos m ∧ Lang E cx.ws (.rule r true) m x.st.pos) :=
  ⟨by cases n with
      | zero => cases h
      | succ n => exact loopR_not_brk n h,
    fun ho hq => loop_inv (C38_rule hx hl h ho hq)⟩

/-- The rule gets to a `break_` from `p` to `q` without an error. -/
def Spec.Breaks (E : Env) (cx : Cx) (on : Bool) (d : Nat) (r : Rule) (p q : Nat) : Prop :=
  ∀ st : St, st.pos = p → st.depth = d → st.wsOn = on →
    ∃ evs, (∀ ev ∈ evs, ev.isError = false) ∧ Exec E cx (.run r) st ⟨.brk, { st with pos := q }, evs⟩

theorem does_loopR {r : Rule} (hs : Spec.Star (Does E cx on d (.run r)) p m) (hb : Spec.Breaks E cx on d r m q) :
    Does E cx on d (.loopR r) p q := by
  induction hs with
  | refl =>
    intro st hp hd ho
    obtain ⟨e, he, n, g⟩ := hb st hp hd ho
    refine ⟨e, he, n + 1, ?_⟩
    rw [exec_succ]
    simp only [step, g, andThen, framed, ret, Option.map_some, frame_moved, List.append_nil]
  | step h _ ih =>
    intro st hp hd ho
    obtain ⟨e1, q1, n1, g1⟩ := h st hp hd ho
    obtain ⟨e2, q2, n2, g2⟩ := ih hb { st with pos := _ } rfl hd ho
    refine ⟨e1 ++ e2, quiet_append.2 ⟨q1, q2⟩, max n1 n2 + 1, ?_⟩
    rw [exec_succ]
    simp only [step, exec_mono (Nat.le_max_left n1 n2) g1, andThen, framed, Option.map_some, frame_moved,
      exec_mono (Nat.le_max_right n1 n2) g2]

/-- **C111.** `loop` accepts any number of times the rule, and then the rule up to a `break_`. -/
theorem C111_loop_accepted {r : Rule} (hs : Spec.Star (Does E cx on d (.run r)) p m) (hb : Spec.Breaks E cx on d r m q) :
    Does E cx on d (.run (.loop r)) p q := by
  intro st hp hd ho
  obtain ⟨e, he, n, g⟩ := does_loopR hs hb st hp hd ho
  exact ⟨e, he, n + 1, g⟩

/-- `loop(digit | break_)` parses `12`. -/
example : Does (Ex.env [49, 50] Ex.lists) ⟨none, 10⟩ on d (.run (.loop (.chc [Ex.digit, .brk]))) 0 2 := by
  have h : ∀ p, p < 2 → Does (Ex.env [49, 50] Ex.lists) ⟨none, 10⟩ on d (.run (.chc [Ex.digit, .brk])) p (p + 1) := by
    intro p hp
    match p, hp with
    | 0, _ => exact does_choice (pre := []) (r := Ex.digit) (post := [.brk]) rfl nofun (cond_tok rfl) (fin_tok (n := 1) rfl (does_ws_none rfl))
    | 1, _ => exact does_choice (pre := []) (r := Ex.digit) (post := [.brk]) rfl nofun (cond_tok rfl) (fin_tok (n := 1) rfl (does_ws_none rfl))
  refine C111_loop_accepted (.step (h 0 (by omega)) (.step (h 1 (by omega)) .refl)) fun st h1 _ _ => ?_
  obtain ⟨e, hq, he⟩ := chc_brk (E := Ex.env [49, 50] Ex.lists) (cx := ⟨none, 10⟩) (st := st) (pre := [Ex.digit]) (by
    intro x hx
    rw [List.mem_singleton] at hx
    subst hx
    rw [h1]
    exact not_tok rfl)
  exact ⟨e, hq, by rw [show ({ st with pos := 2 } : St) = st by cases st; simp only at h1; subst h1; rfl]; exact he⟩

end Verif
