import Verif.ChoiceProps

/-
How to show that a rule accepts a part of the input (C81): one lemma for each kind of rule, in terms of what its parts
accept and which branches are taken.
-/

namespace Verif

/-- The command succeeds from `p` to `q` without an error, whatever else is in the state; `on`: is whitespace skipped?
    `d`: the recursion depth. -/
def Does (E : Env) (cx : Cx) (on : Bool) (d : Nat) (c : Cmd) (p q : Nat) : Prop :=
  ∀ st : St, st.pos = p → st.depth = d → st.wsOn = on →
    ∃ evs, (∀ ev ∈ evs, ev.isError = false) ∧ Exec E cx c st ⟨.ok, { st with pos := q }, evs⟩

/-- The outcome of a branch condition, whatever the context. -/
def Cond (E : Env) (c : Cmd) (p : Nat) (b : Bool) : Prop :=
  ∀ (cx : Cx) (st : St), st.pos = p → Exec E cx c st ⟨if b then .ok else .fail, st, []⟩

/-- A branch that is not taken, and leaves no error behind. -/
def Not (E : Env) (r : Rule) (p : Nat) : Prop :=
  Cond E (.btry r) p false ∧ ∀ (cx : Cx) (st : St), st.pos = p →
    ∃ evs, (∀ ev ∈ evs, ev.isError = false) ∧ Exec E cx (.bcancel r) st ⟨.ok, st, evs⟩

section
variable {E : Env} {cx : Cx} {on : Bool} {d p q m : Nat}

/-! ## Conditions -/

theorem cond_tok {t : PTok} {b : Bool} (h : (t.run (E.inp.drop p)).1 = b) : Cond E (.btry (.tok t)) p b := by
  intro cx st hp
  subst hp h
  exact ⟨1, rfl⟩

theorem cond_prim {r : PRule} {f : List Nat → Nat → Bool} {b : Bool} (hf : r.branch = some f) (h : f E.inp p = b) :
    Cond E (.btry (.prim r)) p b := by
  intro cx st hp
  subst hp h
  exact ⟨1, by simp only [exec_succ, step, stepTry, hf, Option.bind_some, ret]⟩

theorem cond_els : Cond E (.btry .els) p true := fun _ _ _ => ⟨1, rfl⟩
theorem cond_err {tag : Nat} {r : Option Rule} : Cond E (.btry (.err tag r)) p true := fun _ _ _ => ⟨1, rfl⟩

theorem cond_br {c r : Rule} {b : Bool} (h : Cond E (.btry c) p b) : Cond E (.btry (.br c r)) p b := by
  intro cx st hp
  obtain ⟨n, h⟩ := h cx st hp
  exact ⟨n + 1, h⟩

theorem cond_wsn {r : Rule} {b : Bool} (h : Cond E (.btry r) p b) : Cond E (.btry (.wsn r)) p b := by
  intro cx st hp
  obtain ⟨n, h⟩ := h cx st hp
  exact ⟨n + 1, h⟩

theorem cond_prod {n : Nat} {b : Bool} (hb : (E.prods n).branch = true) (hw : (E.prods n).ws = none)
    (h : Cond E (.btry (E.prods n).rule) p b) : Cond E (.btry (.prod n)) p b := by
  intro cx st hp
  obtain ⟨k, h⟩ := h cx st hp
  exact ⟨k + 1, by simp only [exec_succ, step, stepTry, hb, hw, Option.isNone_none, Bool.and_self, if_true, h]⟩

theorem cond_chc_hit {rs : List Rule} {r : Rule} {pre post : List Rule} (hr : rs = pre ++ r :: post)
    (hp : ∀ x ∈ pre, Cond E (.btry x) p false) (h : Cond E (.btry r) p true) : Cond E (.btry (.chc rs)) p true := by
  subst hr
  have key : Cond E (.chcTry (pre ++ r :: post)) p true := by
    induction pre with
    | nil =>
      intro cx st e
      obtain ⟨n, h⟩ := h cx st e
      exact ⟨n + 1, by simp only [exec_succ, List.nil_append, step, ifTry, h]; rfl⟩
    | cons x pre ih =>
      intro cx st e
      obtain ⟨n, h1⟩ := hp x (by simp) cx st e
      obtain ⟨k, h2⟩ := ih (fun y hy => hp y (by simp [hy])) cx st e
      exact ⟨max n k + 1, by
        simp only [exec_succ, List.cons_append, step, ifTry, exec_mono (Nat.le_max_left n k) h1]
        exact exec_mono (Nat.le_max_right n k) h2⟩
  intro cx st e
  obtain ⟨n, h⟩ := key cx st e
  exact ⟨n + 1, h⟩

theorem cond_chc_miss {rs : List Rule} (hp : ∀ x ∈ rs, Cond E (.btry x) p false) : Cond E (.btry (.chc rs)) p false := by
  have key : Cond E (.chcTry rs) p false := by
    induction rs with
    | nil => intro cx st e; exact ⟨1, rfl⟩
    | cons x rs ih =>
      intro cx st e
      obtain ⟨n, h1⟩ := hp x (by simp) cx st e
      obtain ⟨k, h2⟩ := ih (fun y hy => hp y (by simp [hy])) cx st e
      exact ⟨max n k + 1, by
        simp only [exec_succ, step, ifTry, exec_mono (Nat.le_max_left n k) h1]
        exact exec_mono (Nat.le_max_right n k) h2⟩
  intro cx st e
  obtain ⟨n, h⟩ := key cx st e
  exact ⟨n + 1, h⟩

/-- `peek` of a token. -/
theorem cond_peek {tag : Nat} {t : PTok} {b : Bool} (h : (t.run (E.inp.drop p)).1 = b) :
    Cond E (.btry (.peek tag (.tok t))) p b := by
  intro cx st hp
  subst hp h
  refine ⟨2, ?_⟩
  simp only [exec_succ, step, stepTry, ret]
  cases (t.run (E.inp.drop st.pos)).1 <;> rfl

/-! ## Branches that are not taken -/

theorem not_tok {t : PTok} (h : (t.run (E.inp.drop p)).1 = false) : Not E (.tok t) p :=
  ⟨cond_tok h, fun _ _ _ => ⟨[], by simp, 1, rfl⟩⟩

theorem not_prim {r : PRule} {f : List Nat → Nat → Bool} (hf : r.branch = some f) (h : f E.inp p = false) :
    Not E (.prim r) p :=
  ⟨cond_prim hf h, fun _ _ _ => ⟨[], by simp, 1, rfl⟩⟩

theorem not_br {c r : Rule} (h : Not E c p) : Not E (.br c r) p := by
  refine ⟨cond_br h.1, fun cx st hp => ?_⟩
  obtain ⟨evs, hq, n, h⟩ := h.2 cx st hp
  exact ⟨evs, hq, n + 1, h⟩

theorem not_wsn {r : Rule} (h : Not E r p) : Not E (.wsn r) p := by
  refine ⟨cond_wsn h.1, fun cx st hp => ?_⟩
  obtain ⟨evs, hq, n, h⟩ := h.2 cx st hp
  exact ⟨evs, hq, n + 1, h⟩

theorem not_prod {n : Nat} (hb : (E.prods n).branch = true) (hw : (E.prods n).ws = none) (h : Not E (E.prods n).rule p) :
    Not E (.prod n) p := by
  refine ⟨cond_prod hb hw h.1, fun cx st hp => ?_⟩
  obtain ⟨evs, hq, k, h⟩ := h.2 cx st hp
  refine ⟨.prodStart n st.pos :: (evs ++ [.prodCancel n st.pos]), ?_, k + 1, ?_⟩
  · intro ev hev
    simp only [List.mem_cons, List.mem_append, List.not_mem_nil, or_false] at hev
    rcases hev with e | e | e
    · subst e; rfl
    · exact hq ev e
    · subst e; rfl
  · simp only [exec_succ, step, stepCancel, h, andThen, emit, Option.map_some, List.cons_append, List.nil_append]

theorem not_chc {rs : List Rule} (h : ∀ x ∈ rs, Not E x p) : Not E (.chc rs) p := by
  refine ⟨cond_chc_miss fun x hx => (h x hx).1, fun cx st hp => ?_⟩
  have key : ∃ evs, (∀ ev ∈ evs, ev.isError = false) ∧ Exec E cx (.chcCancel rs) st ⟨.ok, st, evs⟩ := by
    induction rs with
    | nil => exact ⟨[], by simp, 1, rfl⟩
    | cons x rs ih =>
      obtain ⟨e1, q1, n, h1⟩ := (h x (by simp)).2 cx st hp
      obtain ⟨e2, q2, k, h2⟩ := ih fun y hy => h y (by simp [hy])
      refine ⟨e1 ++ e2, ?_, max n k + 1, ?_⟩
      · intro ev hev
        rcases List.mem_append.1 hev with e | e
        · exact q1 ev e
        · exact q2 ev e
      · simp only [exec_succ, step, onOk', andThen, exec_mono (Nat.le_max_left n k) h1, exec_mono (Nat.le_max_right n k) h2,
          Option.map_some]
  obtain ⟨evs, hq, n, h⟩ := key
  exact ⟨evs, hq, n + 1, h⟩

theorem not_peek {tag : Nat} {t : PTok} (h : (t.run (E.inp.drop p)).1 = false) : Not E (.peek tag (.tok t)) p := by
  refine ⟨cond_peek h, fun cx st hp => ?_⟩
  refine ⟨[.backtracked st.pos (st.pos + (t.run (E.inp.drop st.pos)).2)], by simp [Ev.isError], 2, ?_⟩
  simp only [exec_succ, step, stepCancel, ret]

/-! ## Whitespace -/

theorem does_ws_none (h : cx.ws = none) : Does E cx on d .ws p p := by
  intro st hp _ _
  subst hp
  exact ⟨[], by simp, 1, by simp only [exec_succ, step, h, ret]⟩

theorem does_ws_off : Does E cx false d .ws p p := by
  intro st hp _ ho
  subst hp
  refine ⟨[], by simp, 1, ?_⟩
  simp only [exec_succ, step]
  cases cx.ws with
  | none => rfl
  | some r => simp only [ho, Bool.false_eq_true, if_false, ret]; rw [← ho]

/-- Any number of whitespace tokens, behind which there is none. -/
inductive Spec.Blank (run : List Nat → TokRes) : List Nat → Nat → Prop
  | none {s : List Nat} (h : (run s).1 = false) : Blank run s 0
  | some {s : List Nat} {n k : Nat} (h : run s = (true, n)) (h' : Blank run (s.drop n) k) : Blank run s (n + k)

theorem tokLoop_blank {t : PTok} {s : List Nat} {k : Nat} (hs : Spec.Blank t.run s k) : ∀ st : St, E.inp.drop st.pos = s →
    Exec E cx (.tokLoop (.tok t)) st ⟨.ok, { st with pos := st.pos + k }, []⟩ := by
  induction hs with
  | none h =>
    intro st hst
    refine ⟨2, ?_⟩
    simp only [exec_succ, step, ret, hst, h]
    rfl
  | @some s n k h _ ih =>
    intro st hst
    obtain ⟨j, ih⟩ := ih { st with pos := st.pos + n } (by rw [← hst, List.drop_drop])
    refine ⟨j + 2, ?_⟩
    rw [exec_succ]
    simp only [step]
    rw [exec_succ]
    simp only [step, ret, hst, h, beq_self_eq_true, if_true]
    rw [← Nat.add_assoc]
    exact exec_mono (Nat.le_succ j) ih

theorem does_ws_tok {t : PTok} {n : Nat} (h : cx.ws = some (.tok t)) (hb : Spec.Blank t.run (E.inp.drop p) n) :
    Does E cx true d .ws p (p + n) := by
  intro st hp _ ho
  subst hp
  obtain ⟨j, hj⟩ := tokLoop_blank (cx := cx) hb st rfl
  refine ⟨[.token .whitespace st.pos (st.pos + n)], by simp [Ev.isError], j + 2, ?_⟩
  rw [exec_succ]
  simp only [step, h, ho, if_true]
  rw [exec_succ]
  simp only [step, Rule.isToken, if_true, hj, onOk', andThen, Option.map_some, List.nil_append]
  try rw [← ho]

/-! ## Rules -/

theorem does_tok {t : PTok} {n : Nat} (h : t.run (E.inp.drop p) = (true, n)) (hw : Does E cx on d .ws (p + n) q) :
    Does E cx on d (.run (.tok t)) p q := by
  intro st hp hd ho
  subst hp
  obtain ⟨e, hq, k, hk⟩ := hw { st with pos := st.pos + n } rfl hd ho
  refine ⟨.token t.kind st.pos (st.pos + n) :: e, ?_, k + 1, ?_⟩
  · simpa [Ev.isError] using hq
  · simp only [exec_succ, step, stepRun, h, tokenParse, tokenDone, if_true, emit, hk, Option.map_some, List.cons_append,
      List.nil_append]

theorem fin_tok {t : PTok} {n : Nat} (h : t.run (E.inp.drop p) = (true, n)) (hw : Does E cx on d .ws (p + n) q) :
    Does E cx on d (.bfinish (.tok t)) p q := by
  intro st hp hd ho
  subst hp
  obtain ⟨e, hq, k, hk⟩ := hw { st with pos := st.pos + n } rfl hd ho
  refine ⟨.token t.kind st.pos (st.pos + n) :: e, ?_, k + 1, ?_⟩
  · simpa [Ev.isError] using hq
  · simp only [exec_succ, step, stepFinish, h, tokenDone, emit, hk, Option.map_some, List.cons_append, List.nil_append]

theorem does_prim {r : PRule} {evs : List Ev} (h : r.parse E.inp p = (true, m, evs)) (he : ∀ ev ∈ evs, ev.isError = false)
    (hw : if r.ws then Does E cx on d .ws m q else q = m) : Does E cx on d (.run (.prim r)) p q := by
  intro st hp hd ho
  subst hp
  cases hr : r.ws with
  | true =>
    rw [hr] at hw
    simp only [if_true] at hw
    obtain ⟨e, hq, k, hk⟩ := hw { st with pos := m } rfl hd ho
    refine ⟨evs ++ e, ?_, k + 1, ?_⟩
    · intro ev hev
      rcases List.mem_append.1 hev with h | h
      · exact he ev h
      · exact hq ev h
    · simp only [exec_succ, step, stepRun, h, primDone, hr, if_true, emit, hk, Option.map_some]
  | false =>
    rw [hr] at hw
    simp only [Bool.false_eq_true, if_false] at hw
    subst hw
    exact ⟨evs, he, 1, by simp [exec_succ, step, stepRun, h, primDone, hr, ret, emit]⟩

theorem fin_prim {r : PRule} {f : List Nat → Nat → Bool} {evs : List Ev} (hf : r.branch = some f) (ht : f E.inp p = true)
    (h : r.parse E.inp p = (true, m, evs)) (he : ∀ ev ∈ evs, ev.isError = false)
    (hw : if r.ws then Does E cx on d .ws m q else q = m) : Does E cx on d (.bfinish (.prim r)) p q := by
  intro st hp hd ho
  obtain ⟨e, hq, k, hk⟩ := does_prim (E := E) (cx := cx) (on := on) (d := d) h he hw st hp hd ho
  subst hp
  refine ⟨e, hq, k, ?_⟩
  cases k with
  | zero => cases hk
  | succ k =>
    rw [exec_succ] at hk ⊢
    simp only [step, stepFinish, stepRun, r.coh f _ _ hf ht] at hk ⊢
    exact hk

theorem does_els : Does E cx on d (.run .els) p p := by
  intro st hp _ _
  subst hp
  exact ⟨[], by simp, 1, rfl⟩

theorem does_seq {a b : Rule} (h1 : Does E cx on d (.run a) p m) (h2 : Does E cx on d (.run b) m q) :
    Does E cx on d (.run (.seq a b)) p q := by
  intro st hp hd ho
  obtain ⟨e1, q1, n, h1⟩ := h1 st hp hd ho
  obtain ⟨e2, q2, k, h2⟩ := h2 { st with pos := m } rfl hd ho
  refine ⟨e1 ++ e2, ?_, max n k + 1, ?_⟩
  · intro ev hev
    rcases List.mem_append.1 hev with e | e
    · exact q1 ev e
    · exact q2 ev e
  · simp only [exec_succ, step, stepRun, onOk, andThen, exec_mono (Nat.le_max_left n k) h1,
      exec_mono (Nat.le_max_right n k) h2, Option.map_some]

theorem does_br {a b : Rule} (h1 : Does E cx on d (.run a) p m) (h2 : Does E cx on d (.run b) m q) :
    Does E cx on d (.run (.br a b)) p q := by
  intro st hp hd ho
  obtain ⟨e1, q1, n, h1⟩ := does_seq h1 h2 st hp hd ho
  exact ⟨e1, q1, n, by cases n with | zero => cases h1 | succ n => exact h1⟩

theorem fin_br {a b : Rule} (h1 : Does E cx on d (.bfinish a) p m) (h2 : Does E cx on d (.run b) m q) :
    Does E cx on d (.bfinish (.br a b)) p q := by
  intro st hp hd ho
  obtain ⟨e1, q1, n, h1⟩ := h1 st hp hd ho
  obtain ⟨e2, q2, k, h2⟩ := h2 { st with pos := m } rfl hd ho
  refine ⟨e1 ++ e2, ?_, max n k + 1, ?_⟩
  · intro ev hev
    rcases List.mem_append.1 hev with e | e
    · exact q1 ev e
    · exact q2 ev e
  · simp only [exec_succ, step, stepFinish, onOk, andThen, exec_mono (Nat.le_max_left n k) h1,
      exec_mono (Nat.le_max_right n k) h2, Option.map_some]

/-- Not taken, then the rest. -/
theorem skip_branch {r : Rule} {c : Cmd} {f : (Cx → Cmd → St → Option Res) → St → Option Res} (h : Not E r p)
    (hc : ∀ n st, step E (exec E n) cx c st =
      ifTry (exec E n) cx (.btry r) st (exec E n cx (.bfinish r) st) (onOk' (exec E n cx (.bcancel r) st) (f (exec E n))))
    (hf : ∀ st : St, st.pos = p → st.depth = d → st.wsOn = on → ∃ evs, (∀ ev ∈ evs, ev.isError = false) ∧
      ∃ k, ∀ n, k ≤ n → f (exec E n) st = some ⟨.ok, { st with pos := q }, evs⟩) :
    Does E cx on d c p q := by
  intro st hp hd ho
  obtain ⟨n1, h1⟩ := h.1 cx st hp
  obtain ⟨e2, q2, n2, h2⟩ := h.2 cx st hp
  obtain ⟨e3, q3, n3, h3⟩ := hf st hp hd ho
  refine ⟨e2 ++ e3, ?_, max n1 (max n2 n3) + 1, ?_⟩
  · intro ev hev
    rcases List.mem_append.1 hev with e | e
    · exact q2 ev e
    · exact q3 ev e
  · simp only [exec_succ, hc, ifTry, onOk', andThen, exec_mono (Nat.le_max_left n1 _) h1,
      exec_mono (Nat.le_trans (Nat.le_max_left n2 n3) (Nat.le_max_right n1 _)) h2,
      h3 _ (Nat.le_trans (Nat.le_max_right n2 n3) (Nat.le_max_right n1 _)), Option.map_some]
    rfl

/-- Taken. -/
theorem take_branch {r : Rule} {c : Cmd} {no : Nat → St → Option Res} (h : Cond E (.btry r) p true)
    (hc : ∀ n st, step E (exec E n) cx c st = ifTry (exec E n) cx (.btry r) st (exec E n cx (.bfinish r) st) (no n st))
    (hf : Does E cx on d (.bfinish r) p q) : Does E cx on d c p q := by
  intro st hp hd ho
  obtain ⟨n1, h1⟩ := h cx st hp
  obtain ⟨e2, q2, n2, h2⟩ := hf st hp hd ho
  refine ⟨e2, q2, max n1 n2 + 1, ?_⟩
  simp only [exec_succ, hc, ifTry, exec_mono (Nat.le_max_left n1 _) h1, exec_mono (Nat.le_max_right n1 n2) h2]
  rfl

theorem does_choice {rs : List Rule} {r : Rule} {pre post : List Rule} (hr : rs = pre ++ r :: post)
    (hp : ∀ x ∈ pre, Not E x p) (h : Cond E (.btry r) p true) (hf : Does E cx on d (.bfinish r) p q) :
    Does E cx on d (.run (.chc rs)) p q := by
  subst hr
  have key : Does E cx on d (.chcRun (pre ++ r :: post)) p q := by
    induction pre with
    | nil => exact take_branch (no := fun n st => onOk' (exec E n cx (.bcancel r) st) fun st' => exec E n cx (.chcRun post) st') h (fun _ _ => rfl) hf
    | cons x pre ih =>
      refine skip_branch (f := fun rec st' => rec cx (.chcRun (pre ++ r :: post)) st') (hp x (by simp)) (fun _ _ => rfl) fun st h1 h2 h3 => ?_
      obtain ⟨e, q1, n, hn⟩ := ih (fun y hy => hp y (by simp [hy])) st h1 h2 h3
      exact ⟨e, q1, n, fun k hk => exec_mono hk hn⟩
  intro st h1 h2 h3
  obtain ⟨e, q1, n, hn⟩ := key st h1 h2 h3
  exact ⟨e, q1, n + 1, hn⟩

theorem fin_choice {rs : List Rule} {r : Rule} {pre post : List Rule} (hr : rs = pre ++ r :: post)
    (hp : ∀ x ∈ pre, Not E x p) (h : Cond E (.btry r) p true) (hf : Does E cx on d (.bfinish r) p q) :
    Does E cx on d (.bfinish (.chc rs)) p q := by
  subst hr
  have key : Does E cx on d (.chcFinish (pre ++ r :: post)) p q := by
    induction pre with
    | nil => exact take_branch (no := fun n st => onOk' (exec E n cx (.bcancel r) st) fun st' => exec E n cx (.chcFinish post) st') h (fun _ _ => rfl) hf
    | cons x pre ih =>
      refine skip_branch (f := fun rec st' => rec cx (.chcFinish (pre ++ r :: post)) st') (hp x (by simp)) (fun _ _ => rfl) fun st h1 h2 h3 => ?_
      obtain ⟨e, q1, n, hn⟩ := ih (fun y hy => hp y (by simp [hy])) st h1 h2 h3
      exact ⟨e, q1, n, fun k hk => exec_mono hk hn⟩
  intro st h1 h2 h3
  obtain ⟨e, q1, n, hn⟩ := key st h1 h2 h3
  exact ⟨e, q1, n + 1, hn⟩

theorem does_if_yes {r : Rule} (h : Cond E (.btry r) p true) (hf : Does E cx on d (.bfinish r) p q) :
    Does E cx on d (.run (.ifR r)) p q ∧ Does E cx on d (.run (.opt r)) p q :=
  ⟨take_branch (no := fun n st => onOk' (exec E n cx (.bcancel r) st) fun st' => ret .ok st') h (fun _ _ => rfl) hf,
    take_branch (no := fun n st => onOk' (exec E n cx (.bcancel r) st) fun st' => ret .ok st') h (fun _ _ => rfl) hf⟩

theorem does_if_no {r : Rule} (h : Not E r p) : Does E cx on d (.run (.ifR r)) p p ∧ Does E cx on d (.run (.opt r)) p p := by
  have hf : ∀ st : St, st.pos = p → st.depth = d → st.wsOn = on → ∃ evs : List Ev, (∀ ev ∈ evs, ev.isError = false) ∧
      ∃ k : Nat, ∀ n, k ≤ n → ret .ok st = some ⟨.ok, { st with pos := p }, evs⟩ := by
    intro st hp _ _
    subst hp
    exact ⟨[], by simp, 0, fun _ _ => rfl⟩
  exact ⟨skip_branch (f := fun _ st => ret .ok st) h (fun _ _ => rfl) hf,
    skip_branch (f := fun _ st => ret .ok st) h (fun _ _ => rfl) hf⟩

theorem does_optt_yes {t r : Rule} (h : Cond E (.btry t) p true) (hf : Does E cx on d (.bfinish t) p q) :
    Does E cx on d (.run (.optt t r)) p q :=
  take_branch (no := fun n st => onOk' (exec E n cx (.bcancel t) st) fun st' => exec E n cx (.run r) st') h (fun _ _ => rfl) hf

theorem does_optt_no {t r : Rule} (h : Not E t p) (hr : Does E cx on d (.run r) p q) :
    Does E cx on d (.run (.optt t r)) p q := by
  refine skip_branch (f := fun rec st' => rec cx (.run r) st') h (fun _ _ => rfl) fun st h1 h2 h3 => ?_
  obtain ⟨e, q1, n, hn⟩ := hr st h1 h2 h3
  exact ⟨e, q1, n, fun k hk => exec_mono hk hn⟩

theorem does_peek {tag : Nat} {t : PTok} (h : (t.run (E.inp.drop p)).1 = true) :
    Does E cx on d (.run (.peek tag (.tok t))) p p ∧ Does E cx on d (.bfinish (.peek tag (.tok t))) p p := by
  constructor <;>
  · intro st hp _ _
    subst hp
    refine ⟨[.backtracked st.pos (st.pos + (t.run (E.inp.drop st.pos)).2)], by simp [Ev.isError], 2, ?_⟩
    simp [exec_succ, step, stepRun, stepFinish, ret, h]

theorem does_try {r : Rule} {rc : Recov} (h : Does E cx on d (.run r) p q) : Does E cx on d (.run (.tryr r rc)) p q := by
  intro st hp hd ho
  obtain ⟨e1, q1, n, h1⟩ := h st hp hd ho
  exact ⟨e1, q1, n + 1, by simp only [exec_succ, step, stepRun, andThen, h1, ret, Option.map_some, List.append_nil]⟩

theorem does_tryt_none {r : Rule} {rc : Recov} (h : Does E cx on d (.run r) p q) :
    Does E cx on d (.run (.tryt none r rc)) p q := by
  intro st hp hd ho
  obtain ⟨e1, q1, n, h1⟩ := h st hp hd ho
  exact ⟨e1, q1, n + 1, by simp only [exec_succ, step, stepRun, andThen, h1, ret, Option.map_some, List.append_nil]⟩

/-- `no_whitespace` where no whitespace is skipped anyway. -/
theorem does_wsn_none {r : Rule} (hw : cx.ws = none) (h : Does E cx on d (.run r) p q) : Does E cx on d (.run (.wsn r)) p q := by
  intro st hp hd ho
  obtain ⟨e1, q1, n, h1⟩ := h st hp hd ho
  exact ⟨e1, q1, n + 1, by simp only [exec_succ, step, stepRun, hw, Option.isNone_none, if_true, h1]⟩

theorem fin_wsn {r : Rule} (h : Does E cx false d (.bfinish r) p m) (hw : Does E cx true d .ws m q) :
    Does E cx true d (.bfinish (.wsn r)) p q := by
  intro st hp hd ho
  obtain ⟨e1, q1, n, h1⟩ := h { st with wsOn := false } hp hd rfl
  obtain ⟨e2, q2, k, h2⟩ := hw { st with pos := m } rfl hd ho
  refine ⟨e1 ++ e2, ?_, max n k + 1, ?_⟩
  · intro ev hev
    rcases List.mem_append.1 hev with e | e
    · exact q1 ev e
    · exact q2 ev e
  · have hs : ({ st with pos := m, wsOn := true } : St) = { st with pos := m } := by rw [← ho]
    simp only [exec_succ, step, stepFinish, onOk, andThen, exec_mono (Nat.le_max_left n k) h1, hs,
      exec_mono (Nat.le_max_right n k) h2, Option.map_some]

/-- Productions. -/
theorem prod_body {n : Nat} {c : Cmd} {body : Nat → Cx → St → Option Res}
    (hc : ∀ k st, step E (exec E k) cx c st = production E (exec E k) cx n (body k) st)
    (hb : ∀ st : St, st.pos = p → st.depth = d → st.wsOn = on → ∃ evs, (∀ ev ∈ evs, ev.isError = false) ∧
      ∃ k, ∀ j, k ≤ j → body j (cx.sub (E.prods n)) st = some ⟨.ok, { st with pos := m }, evs⟩)
    (hw : if (E.prods n).isTok then Does E cx on d .ws m q else q = m) : Does E cx on d c p q := by
  intro st hp hd ho
  obtain ⟨e1, q1, k1, h1⟩ := hb { st with ex := {} } hp hd ho
  have hf : ∀ (st' : St), st'.frame st'.vars.length = st' := by intro st'; simp [St.frame]
  have hq : ∀ (e : List Ev), (∀ ev ∈ e, ev.isError = false) →
      ∀ ev ∈ Ev.prodStart n st.pos :: (e1 ++ .prodFinish n m :: e), ev.isError = false := by
    intro e he ev hev
    simp only [List.mem_cons, List.mem_append] at hev
    rcases hev with h | h | h | h
    · subst h; rfl
    · exact q1 ev h
    · subst h; rfl
    · exact he ev h
  cases ht : (E.prods n).isTok with
  | true =>
    rw [ht] at hw
    simp only [if_true] at hw
    obtain ⟨e2, q2, k2, h2⟩ := hw { st with pos := m } rfl hd ho
    refine ⟨_, hq e2 q2, max k1 k2 + 1, ?_⟩
    have hfr := hf { st with pos := m, ex := {} }
    simp only at hfr
    simp only [exec_succ, hc, production, h1 _ (Nat.le_max_left k1 k2), framed, Option.map_some, hfr, andThen, emit, ht, if_true,
      exec_mono (Nat.le_max_right k1 k2) h2, List.cons_append, List.nil_append]
  | false =>
    rw [ht] at hw
    simp only [Bool.false_eq_true, if_false] at hw
    subst hw
    refine ⟨_, hq [] (by simp), k1 + 1, ?_⟩
    have hfr := hf { st with pos := q, ex := {} }
    simp only at hfr
    simp only [exec_succ, hc, production, h1 _ (Nat.le_refl k1), framed, Option.map_some, hfr, andThen, emit, ht, ret,
      Bool.false_eq_true, if_false, List.cons_append, List.nil_append]

theorem does_prod {n : Nat} (hs : (E.prods n).ws = none) (h : Does E (cx.sub (E.prods n)) on d (.run (E.prods n).rule) p m)
    (hw : if (E.prods n).isTok then Does E cx on d .ws m q else q = m) : Does E cx on d (.run (.prod n)) p q := by
  refine prod_body (n := n) (m := m) (body := fun k cx' st' => exec E k cx' (.run (E.prods n).rule) st') ?_ ?_ hw
  · intro k st
    simp only [step, stepRun, hs, Option.isSome_none, Bool.false_eq_true, if_false]
  · intro st h1 h2 h3
    obtain ⟨e, q1, k, hk⟩ := h st h1 h2 h3
    exact ⟨e, q1, k, fun j hj => exec_mono hj hk⟩

theorem fin_prod {n : Nat} (h : Does E (cx.sub (E.prods n)) on d (.bfinish (E.prods n).rule) p m)
    (hw : if (E.prods n).isTok then Does E cx on d .ws m q else q = m) : Does E cx on d (.bfinish (.prod n)) p q := by
  refine prod_body (n := n) (m := m) (body := fun k cx' st' => exec E k cx' (.bfinish (E.prods n).rule) st') ?_ ?_ hw
  · intro k st; rfl
  · intro st h1 h2 h3
    obtain ⟨e, q1, k, hk⟩ := h st h1 h2 h3
    exact ⟨e, q1, k, fun j hj => exec_mono hj hk⟩

/-- A production that has whitespace of its own. -/
theorem does_prod_ws {n l : Nat} (hs : (E.prods n).ws ≠ none) (h0 : Does E (cx.sub (E.prods n)) on d .ws p l)
    (h : Does E (cx.sub (E.prods n)) on d (.run (E.prods n).rule) l m)
    (hw : if (E.prods n).isTok then Does E cx on d .ws m q else q = m) : Does E cx on d (.run (.prod n)) p q := by
  refine prod_body (n := n) (m := m)
    (body := fun k cx' st' => onOk' (exec E k cx' .ws st') fun st'' => exec E k cx' (.run (E.prods n).rule) st'') ?_ ?_ hw
  · intro k st
    simp only [step, stepRun, Option.isSome_iff_ne_none.2 hs, if_true]
  · intro st h1 h2 h3
    obtain ⟨e0, q0, k0, hk0⟩ := h0 st h1 h2 h3
    obtain ⟨e, q1, k, hk⟩ := h { st with pos := l } rfl h2 h3
    refine ⟨e0 ++ e, ?_, max k0 k, fun j hj => ?_⟩
    · intro ev hev
      rcases List.mem_append.1 hev with e | e
      · exact q0 ev e
      · exact q1 ev e
    · simp only [onOk', andThen, exec_mono (Nat.le_trans (Nat.le_max_left k0 k) hj) hk0,
        exec_mono (Nat.le_trans (Nat.le_max_right k0 k) hj) hk, Option.map_some]

theorem does_recu {n tag : Nat} {b : Bool} (hd : d < cx.maxDepth) (h : Does E cx on (d + 1) (.run (.prod n)) p q) :
    Does E cx on d (.run (.recu n tag b)) p q := by
  intro st hp h1 ho
  subst h1
  obtain ⟨e1, q1, k, hk⟩ := h { st with depth := st.depth + 1 } hp rfl ho
  refine ⟨e1, q1, k + 1, ?_⟩
  simp only [exec_succ, step, stepRun, deeper, show ¬ cx.maxDepth = 0 by omega, show ¬ st.depth ≥ cx.maxDepth by omega, if_false,
    onOk', andThen, hk, ret, Nat.add_sub_cancel, Option.map_some, List.append_nil]

/-! ## Lists with a terminator and a separator -/

/-- The rest of a list behind an item: the terminator follows, or a separator, no terminator, and an item. -/
inductive ListTail (E : Env) (cx : Cx) (on : Bool) (d : Nat) (term item sep : Rule) : Nat → Nat → Prop
  | done {p : Nat} (h : Cond E (.btry term) p true) : ListTail E cx on d term item sep p p
  | next {p m l q : Nat} (h : Not E term p) (hs : Does E cx on d (.run sep) p m) (ht : Cond E (.btry term) m false)
      (hi : Does E cx on d (.run item) m l) (hl : ListTail E cx on d term item sep l q) : ListTail E cx on d term item sep p q

theorem does_tail {term item sep : Rule} {k : SepKind} {limit : List Nat → Bool} (h : ListTail E cx on d term item sep p q) :
    Does E cx on d (.ltTerm term item (some (sep, k)) limit) p q := by
  have hfr : ∀ (st : St) (x : Nat), St.frame { st with pos := x } st.vars.length = { st with pos := x } := by
    intro st x; simp [St.frame]
  induction h with
  | done h =>
    intro st hp hd ho
    obtain ⟨n, h1⟩ := h cx st hp
    refine ⟨[], by simp, n + 1, ?_⟩
    simp only [exec_succ, step, ifTry, h1, ← hp]
    rfl
  | @next p m l q h hs ht hi hl ih =>
    intro st hp hd ho
    obtain ⟨n1, h1⟩ := h.1 cx st hp
    obtain ⟨e2, q2, n2, h2⟩ := h.2 cx st hp
    obtain ⟨e3, q3, n3, h3⟩ := hs st hp hd ho
    obtain ⟨n4, h4⟩ := ht cx { st with pos := m } rfl
    obtain ⟨e5, q5, n5, h5⟩ := hi { st with pos := m } rfl hd ho
    obtain ⟨e6, q6, n6, h6⟩ := ih { st with pos := l } rfl hd ho
    refine ⟨e2 ++ (e3 ++ (e5 ++ e6)), ?_, max (max (max n1 n2) (max n3 n4)) (max n5 n6) + 4, ?_⟩
    · intro ev hev
      simp only [List.mem_append] at hev
      rcases hev with e | e | e | e
      · exact q2 ev e
      · exact q3 ev e
      · exact q5 ev e
      · exact q6 ev e
    · generalize hN : max (max (max n1 n2) (max n3 n4)) (max n5 n6) = N
      have l1 : n1 ≤ N + 3 := by omega
      have l2 : n2 ≤ N + 3 := by omega
      have l3 : n3 ≤ N + 2 := by omega
      have l4 : n4 ≤ N + 1 := by omega
      have l5 : n5 ≤ N := by omega
      have l6 : n6 ≤ N := by omega
      rw [exec_succ]
      simp only [step, ifTry, exec_mono l1 h1, Bool.false_eq_true, if_false, exec_mono l2 h2, onOk', andThen]
      rw [exec_succ]
      simp only [step, exec_mono l3 h3, framed, Option.map_some, hfr, andThen]
      rw [exec_succ]
      simp only [step, ifTry, exec_mono l4 h4, Bool.false_eq_true, if_false]
      rw [exec_succ]
      have := hfr st l
      simp only [step, exec_mono l5 h5, framed, Option.map_some, this, andThen, exec_mono l6 h6]

theorem does_list {term item sep : Rule} {k : SepKind} {limit : List Nat → Bool} {l : Nat} (h1 : Does E cx on d (.run item) p m)
    (h2 : ListTail E cx on d term item sep m l) (h3 : Does E cx on d (.bfinish term) l q) :
    Does E cx on d (.run (.lstt term item (some (sep, k)) limit)) p q := by
  intro st hp hd ho
  obtain ⟨e1, q1, n1, h1⟩ := h1 st hp hd ho
  obtain ⟨e2, q2, n2, h2⟩ := does_tail (k := k) (limit := limit) h2 { st with pos := m } rfl hd ho
  obtain ⟨e3, q3, n3, h3⟩ := h3 { st with pos := l } rfl hd ho
  refine ⟨e1 ++ e2 ++ e3, ?_, max n1 (max n2 n3) + 1, ?_⟩
  · intro ev hev
    simp only [List.mem_append] at hev
    rcases hev with (e | e) | e
    · exact q1 ev e
    · exact q2 ev e
    · exact q3 ev e
  · have hfr : St.frame { st with pos := m } st.vars.length = { st with pos := m } := by simp [St.frame]
    have l1 : n1 ≤ max n1 (max n2 n3) := by omega
    have l2 : n2 ≤ max n1 (max n2 n3) := by omega
    have l3 : n3 ≤ max n1 (max n2 n3) := by omega
    simp only [exec_succ, step, stepRun, exec_mono l1 h1, framed, Option.map_some, hfr, andThen, exec_mono l2 h2, onOk',
      exec_mono l3 h3]

end
end Verif
