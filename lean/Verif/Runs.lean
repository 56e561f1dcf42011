import Verif.Reject
import Verif.DepthProps

/-
Runs that succeed without an error, and what can be concluded from one (C89): the parts of a rule have such runs too.
In contrast to `Does` (Accept.lean), the state may change in other ways than by its position, so this is also for context
variables.
-/

namespace Verif

/-- A result that is a success without an error. -/
def OkTo (x : Option Res) (s' : St) : Prop := ∃ evs, Quiet evs ∧ x = some ⟨.ok, s', evs⟩

/-- The command succeeds without an error. -/
def Runs (E : Env) (n : Nat) (cx : Cx) (c : Cmd) (st s' : St) : Prop := OkTo (exec E n cx c st) s'

theorem quiet_append {a b : List Ev} : Quiet (a ++ b) ↔ Quiet a ∧ Quiet b :=
  ⟨fun h => ⟨h.left, h.right⟩, fun ⟨h1, h2⟩ ev he => (List.mem_append.1 he).elim (h1 ev) (h2 ev)⟩

theorem quiet_nil : Quiet [] := nofun

theorem okTo_some {o : Out} {st s' : St} {evs : List Ev} : OkTo (some ⟨o, st, evs⟩) s' ↔ o = .ok ∧ s' = st ∧ Quiet evs := by
  constructor
  · rintro ⟨e, hq, h⟩
    simp only [Option.some.injEq, Res.mk.injEq] at h
    obtain ⟨rfl, rfl, rfl⟩ := h
    exact ⟨rfl, rfl, hq⟩
  · rintro ⟨rfl, rfl, hq⟩
    exact ⟨_, hq, rfl⟩

theorem okTo_ret {o : Out} {st s' : St} : OkTo (ret o st) s' ↔ o = .ok ∧ s' = st := by
  unfold ret
  rw [okTo_some]
  exact ⟨fun ⟨h1, h2, _⟩ => ⟨h1, h2⟩, fun ⟨h1, h2⟩ => ⟨h1, h2, quiet_nil⟩⟩

theorem okTo_onOk {x : Option Res} {f : St → Option Res} {s' : St} : OkTo (onOk x f) s' ↔ ∃ s, OkTo x s ∧ OkTo (f s) s' := by
  constructor
  · rintro ⟨e, hq, h⟩
    obtain ⟨r1, r2, h1, h2, h3⟩ := andThen_some.1 h
    obtain ⟨o, s, e1⟩ := r1
    simp only [Res.mk.injEq] at h3
    obtain ⟨h4, h5, rfl⟩ := h3
    cases o with
    | ok => exact ⟨s, ⟨e1, hq.left, h1⟩, r2.evs, hq.right, h2.trans (by rw [h4, h5])⟩
    | fail => cases h2; cases h4
    | brk => cases h2; cases h4
  · rintro ⟨s, ⟨e1, q1, h1⟩, e2, q2, h2⟩
    exact ⟨e1 ++ e2, quiet_append.2 ⟨q1, q2⟩, andThen_some.2 ⟨_, _, h1, h2, rfl⟩⟩

theorem okTo_onOk' {x : Option Res} {f : St → Option Res} {s' : St} : OkTo (onOk' x f) s' ↔ ∃ s, OkTo x s ∧ OkTo (f s) s' := by
  constructor
  · rintro ⟨e, hq, h⟩
    obtain ⟨r1, r2, h1, h2, h3⟩ := andThen_some.1 h
    obtain ⟨o, s, e1⟩ := r1
    simp only [Res.mk.injEq] at h3
    obtain ⟨h4, h5, rfl⟩ := h3
    cases o with
    | ok => exact ⟨s, ⟨e1, hq.left, h1⟩, r2.evs, hq.right, h2.trans (by rw [h4, h5])⟩
    | fail => cases h2; cases h4
    | brk => cases h2
  · rintro ⟨s, ⟨e1, q1, h1⟩, e2, q2, h2⟩
    exact ⟨e1 ++ e2, quiet_append.2 ⟨q1, q2⟩, andThen_some.2 ⟨_, _, h1, h2, rfl⟩⟩

theorem okTo_emit {x : Option Res} {evs : List Ev} {s' : St} : OkTo (emit evs x) s' ↔ Quiet evs ∧ OkTo x s' := by
  constructor
  · rintro ⟨e, hq, h⟩
    obtain ⟨r1, h1, h2⟩ := emit_some.1 h
    simp only [Res.mk.injEq] at h2
    obtain ⟨h3, h4, rfl⟩ := h2
    exact ⟨hq.left, r1.evs, hq.right, by rw [h1, h3, h4]⟩
  · rintro ⟨q1, e, q2, h⟩
    exact ⟨evs ++ e, quiet_append.2 ⟨q1, q2⟩, emit_some.2 ⟨_, h, rfl⟩⟩

theorem okTo_framed {x : Option Res} {n : Nat} {s' : St} : OkTo (framed n x) s' ↔ ∃ s, OkTo x s ∧ s' = s.frame n := by
  constructor
  · rintro ⟨e, hq, h⟩
    obtain ⟨r1, h1, h2⟩ := framed_some.1 h
    obtain ⟨o, s, e1⟩ := r1
    simp only [Res.mk.injEq] at h2
    obtain ⟨rfl, rfl, rfl⟩ := h2
    exact ⟨s, ⟨e, hq, h1⟩, rfl⟩
  · rintro ⟨s, ⟨e, hq, h⟩, rfl⟩
    exact ⟨e, hq, framed_some.2 ⟨_, h, rfl⟩⟩

theorem okTo_bind {α : Type} {x : Option α} {f : α → Option Res} {s' : St} : OkTo (x.bind f) s' ↔ ∃ a, x = some a ∧ OkTo (f a) s' := by
  cases x with
  | none => exact ⟨fun h => (by obtain ⟨_, _, h⟩ := h; cases h), fun h => (by obtain ⟨_, h, _⟩ := h; cases h)⟩
  | some a => exact ⟨fun h => ⟨a, rfl, h⟩, fun ⟨_, h, h'⟩ => by cases h; exact h'⟩

section
variable {E : Env} {n : Nat} {cx : Cx} {st s' : St}

theorem Runs.mono {c : Cmd} {m : Nat} (h : Runs E n cx c st s') (hm : n ≤ m) : Runs E m cx c st s' := by
  obtain ⟨e, hq, h⟩ := h
  exact ⟨e, hq, exec_mono hm h⟩

theorem runs_step {c : Cmd} (h : Runs E n cx c st s') : ∃ m, m < n ∧ OkTo (step E (exec E m) cx c st) s' := by
  cases n with
  | zero => obtain ⟨_, _, h⟩ := h; cases h
  | succ m => exact ⟨m, Nat.lt_succ_self m, h⟩

theorem Runs.det {c : Cmd} {m : Nat} {s'' : St} (h : Runs E n cx c st s') (h' : Runs E m cx c st s'') : s'' = s' := by
  obtain ⟨e, -, h⟩ := h
  obtain ⟨e', -, h'⟩ := h'
  have := exec_det ⟨n, h⟩ h'
  simp only [Res.mk.injEq] at this
  exact this.2.1

/-! ## From a run to the runs of its parts -/

theorem runs_seq {a b : Rule} (h : Runs E n cx (.run (.seq a b)) st s') :
    ∃ m, m < n ∧ ∃ s, Runs E m cx (.run a) st s ∧ Runs E m cx (.run b) s s' := by
  obtain ⟨m, hm, h⟩ := runs_step h
  exact ⟨m, hm, okTo_onOk.1 h⟩

theorem runs_br {a b : Rule} (h : Runs E n cx (.run (.br a b)) st s') :
    ∃ m, m < n ∧ ∃ s, Runs E m cx (.run a) st s ∧ Runs E m cx (.run b) s s' := by
  obtain ⟨m, hm, h⟩ := runs_step h
  exact ⟨m, hm, okTo_onOk.1 h⟩

theorem runs_fin_br {a b : Rule} (h : Runs E n cx (.bfinish (.br a b)) st s') :
    ∃ m, m < n ∧ ∃ s, Runs E m cx (.bfinish a) st s ∧ Runs E m cx (.run b) s s' := by
  obtain ⟨m, hm, h⟩ := runs_step h
  exact ⟨m, hm, okTo_onOk.1 h⟩

theorem runs_ws (hw : cx.ws = none) (h : Runs E n cx .ws st s') : s' = st := by
  obtain ⟨m, -, h⟩ := runs_step h
  simp only [step, hw] at h
  exact (okTo_ret.1 h).2

theorem runs_tok (hw : cx.ws = none) {t : PTok} (h : Runs E n cx (.run (.tok t)) st s') :
    ∃ k, t.run (E.inp.drop st.pos) = (true, k) ∧ s' = { st with pos := st.pos + k } := by
  obtain ⟨m, -, h⟩ := runs_step h
  simp only [step, stepRun, tokenParse, tokenDone] at h
  split at h
  · rename_i h1
    exact ⟨_, Prod.ext h1 rfl, runs_ws hw (okTo_emit.1 h).2⟩
  · cases (okTo_some.1 h).1

theorem runs_fin_tok (hw : cx.ws = none) {t : PTok} (h : Runs E n cx (.bfinish (.tok t)) st s') :
    s' = { st with pos := st.pos + (t.run (E.inp.drop st.pos)).2 } := by
  obtain ⟨m, -, h⟩ := runs_step h
  exact runs_ws hw (okTo_emit.1 h).2

theorem okTo_prim (hw : cx.ws = none) {w : Bool} {r : Bool × Nat × List Ev} (h : OkTo (primDone (exec E n) cx w r st) s') :
    r.1 = true ∧ Quiet r.2.2 ∧ s' = { st with pos := r.2.1 } := by
  obtain ⟨h1, h2⟩ := okTo_emit.1 h
  cases hr : r.1 with
  | false => rw [hr] at h2; cases (okTo_ret.1 h2).1
  | true =>
    rw [hr] at h2
    simp only [if_true] at h2
    cases w with
    | true => exact ⟨rfl, h1, runs_ws hw h2⟩
    | false => exact ⟨rfl, h1, (okTo_ret.1 h2).2⟩

theorem runs_prim (hw : cx.ws = none) {r : PRule} (h : Runs E n cx (.run (.prim r)) st s') :
    ∃ q evs, r.parse E.inp st.pos = (true, q, evs) ∧ Quiet evs ∧ s' = { st with pos := q } := by
  obtain ⟨m, -, h⟩ := runs_step h
  obtain ⟨h1, h2, h3⟩ := okTo_prim hw h
  exact ⟨_, _, Prod.ext h1 rfl, h2, h3⟩

theorem runs_fin_prim (hw : cx.ws = none) {r : PRule} (h : Runs E n cx (.bfinish (.prim r)) st s') :
    ∃ q evs, r.finish E.inp st.pos = (true, q, evs) ∧ Quiet evs ∧ s' = { st with pos := q } := by
  obtain ⟨m, -, h⟩ := runs_step h
  obtain ⟨h1, h2, h3⟩ := okTo_prim hw h
  exact ⟨_, _, Prod.ext h1 rfl, h2, h3⟩

theorem runs_els (h : Runs E n cx (.run .els) st s') : s' = st := by
  obtain ⟨m, -, h⟩ := runs_step h
  exact (okTo_ret.1 h).2

theorem runs_fin_els (h : Runs E n cx (.bfinish .els) st s') : s' = st := by
  obtain ⟨m, -, h⟩ := runs_step h
  exact runs_els h

theorem runs_fin_peek {tag : Nat} {r : Rule} (h : Runs E n cx (.bfinish (.peek tag r)) st s') : s' = st := by
  obtain ⟨m, -, h⟩ := runs_step h
  simp only [step, stepFinish] at h
  split at h
  · obtain ⟨_, _, h⟩ := h; cases h
  · exact (okTo_some.1 h).2.1

theorem runs_varCreate {id : Nat} {v : Var} (h : Runs E n cx (.run (.varCreate id v)) st s') :
    s' = { st with vars := (v.key id, v) :: st.vars } := by
  obtain ⟨m, -, h⟩ := runs_step h
  exact (okTo_ret.1 h).2

theorem ifTry_yes {c : Cmd} {yes no : Option Res} (h : Cond E c st.pos true) {x : Res} (hx : ifTry (exec E n) cx c st yes no = some x) :
    yes = some x := by
  unfold ifTry at hx
  split at hx
  · cases hx
  · exact hx
  · rename_i r hn hr
    have := cond_det h rfl r hr
    obtain ⟨o, s, e⟩ := r
    cases this
    exact absurd rfl (hn s e)

theorem ifTry_no {c : Cmd} {yes no : Option Res} (h : Cond E c st.pos false) {x : Res} (hx : ifTry (exec E n) cx c st yes no = some x) :
    no = some x := by
  unfold ifTry at hx
  split at hx
  · cases hx
  · rename_i hr
    have := cond_det h rfl _ hr
    cases this
  · exact hx

/-- A branch that is not taken. -/
theorem skipped_some {r : Rule} {f : St → Option Res} (h : Not E r st.pos) {x : Res}
    (hx : onOk' (exec E n cx (.bcancel r) st) f = some x) : ∃ y, f st = some y ∧ y.out = x.out ∧ y.st = x.st ∧ (Quiet x.evs → Quiet y.evs) := by
  obtain ⟨r1, r2, h1, h2, rfl⟩ := andThen_some.1 hx
  obtain ⟨h3, h4⟩ := not_det h rfl r1 h1
  rw [h3, h4] at h2
  exact ⟨r2, h2, rfl, rfl, Quiet.right⟩

/-- The branch of a choice that is taken. -/
theorem chc_some {r : Rule} {pre post : List Rule} (hp : ∀ x ∈ pre, Not E x st.pos) (hc : Cond E (.btry r) st.pos true) {x : Res}
    (h : exec E n cx (.run (.chc (pre ++ r :: post))) st = some x) :
    ∃ m, m < n ∧ ∃ y, exec E m cx (.bfinish r) st = some y ∧ y.out = x.out ∧ y.st = x.st ∧ (Quiet x.evs → Quiet y.evs) := by
  have key : ∀ (pre : List Rule), (∀ x ∈ pre, Not E x st.pos) → ∀ n x, exec E n cx (.chcRun (pre ++ r :: post)) st = some x →
      ∃ m, m < n ∧ ∃ y, exec E m cx (.bfinish r) st = some y ∧ y.out = x.out ∧ y.st = x.st ∧ (Quiet x.evs → Quiet y.evs) := by
    intro pre
    induction pre with
    | nil =>
      intro _ n x h
      cases n with
      | zero => cases h
      | succ n => exact ⟨n, Nat.lt_succ_self n, x, ifTry_yes hc h, rfl, rfl, fun h => h⟩
    | cons a pre ih =>
      intro hp n x h
      cases n with
      | zero => cases h
      | succ n =>
        have ha := hp a (by simp)
        obtain ⟨y, h1, h2, h3, h4⟩ := skipped_some ha (ifTry_no ha.1 h)
        obtain ⟨m, hm, z, h5, h6, h7, h8⟩ := ih (fun b hb => hp b (by simp [hb])) n y h1
        exact ⟨m, by omega, z, h5, h6.trans h2, h7.trans h3, fun hq => h8 (h4 hq)⟩
  cases n with
  | zero => cases h
  | succ n =>
    obtain ⟨m, hm, y, h1⟩ := key pre hp n x h
    exact ⟨m, by omega, y, h1⟩

theorem runs_chc {r : Rule} {pre post : List Rule} (hp : ∀ x ∈ pre, Not E x st.pos) (hc : Cond E (.btry r) st.pos true)
    (h : Runs E n cx (.run (.chc (pre ++ r :: post))) st s') : ∃ m, m < n ∧ Runs E m cx (.bfinish r) st s' := by
  obtain ⟨e, hq, h⟩ := h
  obtain ⟨m, hm, ⟨o, s, e'⟩, h1, h2, h3, h4⟩ := chc_some hp hc h
  simp only at h2 h3
  subst h2 h3
  exact ⟨m, hm, e', h4 hq, h1⟩

theorem runs_skip {r : Rule} {f : St → Option Res} (h : Not E r st.pos) (hx : OkTo (onOk' (exec E n cx (.bcancel r) st) f) s') :
    OkTo (f st) s' := by
  obtain ⟨e, hq, hx⟩ := hx
  obtain ⟨⟨o, s, e'⟩, h1, h2, h3, h4⟩ := skipped_some h hx
  simp only at h2 h3
  subst h2 h3
  exact ⟨e', h4 hq, h1⟩

theorem runs_optt_yes {t r : Rule} (hc : Cond E (.btry t) st.pos true) (h : Runs E n cx (.run (.optt t r)) st s') :
    ∃ m, m < n ∧ Runs E m cx (.bfinish t) st s' := by
  obtain ⟨m, hm, e, hq, h⟩ := runs_step h
  exact ⟨m, hm, e, hq, ifTry_yes hc h⟩

theorem runs_optt_no {t r : Rule} (hc : Not E t st.pos) (h : Runs E n cx (.run (.optt t r)) st s') :
    ∃ m, m < n ∧ Runs E m cx (.run r) st s' := by
  obtain ⟨m, hm, e, hq, h⟩ := runs_step h
  exact ⟨m, hm, runs_skip (f := fun st' => exec E m cx (.run r) st') hc ⟨e, hq, ifTry_no hc.1 h⟩⟩

/-- What goes on only behind a success, if a failure of the first part is handled by reporting nothing new. -/
theorem okTo_item {item : Rule} {k : Nat} {f : Out → St → Option Res}
    (hb : ∀ s, f .brk s = none) (h : OkTo (andThen (framed k (exec E n cx (.run item) st)) f) s') :
    ∃ s, Runs E n cx (.run item) st s ∧ OkTo (f .ok (s.frame k)) s' := by
  obtain ⟨e, hq, h⟩ := h
  obtain ⟨r1, r2, h1, h2, h3⟩ := andThen_some.1 h
  obtain ⟨r0, h0, rfl⟩ := framed_some.1 h1
  obtain ⟨o, s, e1⟩ := r0
  simp only [Res.mk.injEq] at h3
  obtain ⟨h4, h5, rfl⟩ := h3
  have hnf := (exec_relQ E n cx (.run item) st _ h0 hq.left).2.2 rfl
  cases o with
  | ok => exact ⟨s, ⟨e1, hq.left, h0⟩, r2.evs, hq.right, h2.trans (by rw [h4, h5])⟩
  | fail => exact absurd rfl hnf
  | brk => simp only [hb] at h2; cases h2

theorem runs_lstt {t item : Rule} {l : List Nat → Bool} (h : Runs E n cx (.run (.lstt t item none l)) st s') :
    ∃ m, m < n ∧ ∃ s1 s2, Runs E m cx (.run item) st s1 ∧ Runs E m cx (.ltTerm t item none l) (s1.frame st.vars.length) s2 ∧
      Runs E m cx (.bfinish t) s2 s' := by
  obtain ⟨m, hm, h⟩ := runs_step h
  obtain ⟨s2, h1, h2⟩ := okTo_onOk'.1 h
  obtain ⟨s1, h3, h4⟩ := okTo_item (fun s => rfl) h1
  exact ⟨m, hm, s1, s2, h3, h4, h2⟩

theorem runs_ltTerm_yes {t item : Rule} {l : List Nat → Bool} (hc : Cond E (.btry t) st.pos true)
    (h : Runs E n cx (.ltTerm t item none l) st s') : s' = st := by
  obtain ⟨m, hm, e, hq, h⟩ := runs_step h
  have := ifTry_yes hc h
  cases this
  rfl

theorem runs_ltTerm_no {t item : Rule} {l : List Nat → Bool} (hc : Not E t st.pos)
    (h : Runs E n cx (.ltTerm t item none l) st s') :
    ∃ m, m < n ∧ ∃ s, Runs E m cx (.run item) st s ∧ Runs E m cx (.ltTerm t item none l) (s.frame st.vars.length) s' := by
  obtain ⟨m, hm, e, hq, h⟩ := runs_step h
  have h1 : Runs E m cx (.ltSep t item none l) st s' :=
    runs_skip (f := fun st' => exec E m cx (.ltSep t item none l) st') hc ⟨e, hq, ifTry_no hc.1 h⟩
  obtain ⟨m1, hm1, h2⟩ := runs_step h1
  obtain ⟨m2, hm2, h3⟩ := runs_step (c := .ltItem t item none l) (n := m1) h2
  simp only [step] at h3
  obtain ⟨s, h4, h5⟩ := okTo_item (fun s => rfl) h3
  exact ⟨m2, by omega, s, h4, h5⟩

theorem okTo_production {k : Nat} {body : Cx → St → Option Res} (hT : (E.prods k).isTok = false)
    (h : OkTo (production E (exec E n) cx k body st) s') :
    ∃ s, OkTo (body (cx.sub (E.prods k)) { st with ex := {} }) s ∧ s' = { s.frame st.vars.length with ex := st.ex } := by
  obtain ⟨-, e, hq, h⟩ := okTo_emit.1 h
  obtain ⟨r1, r2, h1, h2, h3⟩ := andThen_some.1 h
  obtain ⟨r0, h0, rfl⟩ := framed_some.1 h1
  obtain ⟨o, s, e1⟩ := r0
  simp only [Res.mk.injEq] at h3
  obtain ⟨h4, h5, rfl⟩ := h3
  cases o with
  | ok =>
    simp only [hT, Bool.false_eq_true, if_false] at h2
    obtain ⟨r3, h6, h7⟩ := emit_some.1 h2
    cases h6
    subst h7
    exact ⟨s, ⟨e1, hq.left, h0⟩, h5⟩
  | fail => cases h2; cases h4
  | brk => cases h2

theorem runs_prod {k : Nat} (hT : (E.prods k).isTok = false) (hW : (E.prods k).ws = none) (h : Runs E n cx (.run (.prod k)) st s') :
    ∃ m, m < n ∧ ∃ s, Runs E m (cx.sub (E.prods k)) (.run (E.prods k).rule) { st with ex := {} } s ∧
      s' = { s.frame st.vars.length with ex := st.ex } := by
  obtain ⟨m, hm, h⟩ := runs_step h
  simp only [step, stepRun, hW, Option.isSome_none, Bool.false_eq_true, if_false] at h
  exact ⟨m, hm, okTo_production hT h⟩

theorem runs_fin_prod {k : Nat} (hT : (E.prods k).isTok = false) (h : Runs E n cx (.bfinish (.prod k)) st s') :
    ∃ m, m < n ∧ ∃ s, Runs E m (cx.sub (E.prods k)) (.bfinish (E.prods k).rule) { st with ex := {} } s ∧
      s' = { s.frame st.vars.length with ex := st.ex } := by
  obtain ⟨m, hm, h⟩ := runs_step h
  simp only [step, stepFinish] at h
  exact ⟨m, hm, okTo_production hT h⟩

theorem runs_recu {k tag : Nat} {b : Bool} (h : Runs E n cx (.run (.recu k tag b)) st s') :
    st.depth < cx.maxDepth ∧ ∃ m, m < n ∧ ∃ s, Runs E m cx (.run (.prod k)) { st with depth := st.depth + 1 } s ∧
      s' = { s with depth := s.depth - 1 } := by
  obtain ⟨m, hm, h⟩ := runs_step h
  simp only [step, stepRun, deeper] at h
  split at h
  · obtain ⟨_, _, h⟩ := h; cases h
  · split at h
    · cases (okTo_some.1 h).1
    · obtain ⟨s, h1, h2⟩ := okTo_onOk'.1 h
      exact ⟨by omega, m, hm, s, h1, (okTo_ret.1 h2).2⟩

theorem runs_fin_wsn (hw : cx.ws = none) {r : Rule} (h : Runs E n cx (.bfinish (.wsn r)) st s') :
    ∃ m, m < n ∧ ∃ s, Runs E m cx (.bfinish r) { st with wsOn := false } s ∧ s' = { s with wsOn := true } := by
  obtain ⟨m, hm, h⟩ := runs_step h
  simp only [step, stepFinish] at h
  obtain ⟨s, h1, h2⟩ := okTo_onOk.1 h
  exact ⟨m, hm, s, h1, runs_ws hw h2⟩

/-- The whitespace tokens that were skipped. -/
theorem runs_wsr_tok {t : PTok} (h : Runs E n cx (.run (.wsr (.tok t))) st s') :
    ∃ k, Spec.Blank t.run (E.inp.drop st.pos) k ∧ s' = { st with pos := st.pos + k } := by
  have key : ∀ n (st s' : St), Runs E n cx (.tokLoop (.tok t)) st s' →
      ∃ k, Spec.Blank t.run (E.inp.drop st.pos) k ∧ s' = { st with pos := st.pos + k } := by
    intro n
    induction n with
    | zero => intro st s' ⟨_, _, h⟩; cases h
    | succ n ih =>
      intro st s' h
      obtain ⟨e, hq, h⟩ := h
      rw [exec_succ] at h
      simp only [step] at h
      cases n with
      | zero => cases h
      | succ n =>
        rw [exec_succ] at h
        simp only [step, ret] at h
        cases hr : t.run (E.inp.drop st.pos) with
        | mk b k =>
          rw [hr] at h
          cases b with
          | true =>
            simp only [if_true, beq_self_eq_true] at h
            obtain ⟨k', h1, h2⟩ := ih _ _ ⟨e, hq, h⟩
            refine ⟨k + k', .some hr (by rw [List.drop_drop]; exact h1), ?_⟩
            rw [h2]
            simp only [Nat.add_assoc]
          | false =>
            simp only [Bool.false_eq_true, if_false, show (Out.fail == Out.ok) = false from rfl, Option.some.injEq, Res.mk.injEq] at h
            exact ⟨0, .none (by rw [hr]), h.2.1.symm⟩
  obtain ⟨m, -, h⟩ := runs_step h
  obtain ⟨m', -, h⟩ := runs_step (c := .skip (.tok t)) (n := m) h
  simp only [step, Rule.isToken, if_true] at h
  obtain ⟨s, h1, h2⟩ := okTo_onOk'.1 h
  obtain ⟨-, rfl, -⟩ := okTo_some.1 h2
  exact key _ _ _ h1

/-- Whitespace that is not a token is parsed by a nested action. -/
theorem runs_wsr {r : Rule} (hr : r.isToken = false) (h : Runs E n cx (.run (.wsr r)) st s') :
    ∃ m, m < n ∧ ∃ s, Runs E m ⟨none, 0⟩ (.run (wsRule r)) { pos := st.pos } s ∧ s' = { st with pos := s.pos } := by
  obtain ⟨m, hm, h⟩ := runs_step h
  obtain ⟨m', hm', h⟩ := runs_step (c := .skip r) (n := m) h
  simp only [step, hr, Bool.false_eq_true, if_false, nested] at h
  refine ⟨m', by omega, ?_⟩
  split at h
  · obtain ⟨_, _, h⟩ := h; cases h
  · rename_i b e evs heq
    obtain ⟨h1, h2, h3⟩ := okTo_some.1 h
    have hq : Quiet evs := by
      intro ev hev
      cases he : ev.isError with
      | false => rfl
      | true => have := h3 ev (List.mem_append_left _ (List.mem_filter.2 ⟨hev, he⟩)); rw [he] at this; exact this
    split at heq
    · cases heq
    · rename_i s e' hx
      simp only [Option.some.injEq, Prod.mk.injEq] at heq
      obtain ⟨rfl, rfl, rfl⟩ := heq
      exact ⟨s, ⟨_, hq, hx⟩, h2⟩
    · rename_i hx
      simp only [Option.some.injEq, Prod.mk.injEq] at heq
      obtain ⟨rfl, -, -⟩ := heq
      cases h1
    · cases heq

/-- A loop ends with `break_`. -/
theorem runs_loopR {r : Rule} (h : Runs E n cx (.loopR r) st s') : ∃ m, m < n ∧
    ((∃ s evs, exec E m cx (.run r) st = some ⟨.brk, s, evs⟩ ∧ s' = s.frame st.vars.length) ∨
      ∃ s, Runs E m cx (.run r) st s ∧ Runs E m cx (.loopR r) (s.frame st.vars.length) s') := by
  obtain ⟨m, hm, e, hq, h⟩ := runs_step h
  refine ⟨m, hm, ?_⟩
  simp only [step] at h
  obtain ⟨r1, r2, h1, h2, h3⟩ := andThen_some.1 h
  obtain ⟨r0, h0, rfl⟩ := framed_some.1 h1
  obtain ⟨o, s, e1⟩ := r0
  simp only [Res.mk.injEq] at h3
  obtain ⟨h4, h5, rfl⟩ := h3
  cases o with
  | ok => exact .inr ⟨s, ⟨e1, hq.left, h0⟩, r2.evs, hq.right, h2.trans (by rw [h4, h5])⟩
  | fail => cases h2; cases h4
  | brk => cases h2; exact .inl ⟨s, e1, h0, h5⟩

theorem runs_idCap (hw : cx.ws = none) {id : Nat} {r : PRule} {len : List Nat → Nat} (h : Runs E n cx (.run (.idCap id r len)) st s') :
    ∃ q evs, r.parse E.inp st.pos = (true, q, evs) ∧ Quiet evs ∧ s' = { st with
      pos := q, vars := setVar (.ident id) (.ident ((E.inp.drop st.pos).take (len (E.inp.drop st.pos)))) st.vars } := by
  obtain ⟨m, -, h⟩ := runs_step h
  simp only [step, stepRun] at h
  obtain ⟨s, h1, h2⟩ := okTo_onOk'.1 h
  obtain ⟨h3, h4, rfl⟩ := okTo_prim hw h1
  obtain ⟨w, -, h5⟩ := okTo_bind.1 h2
  exact ⟨_, _, Prod.ext h3 rfl, h4, (okTo_ret.1 h5).2⟩

theorem runs_idRem (hw : cx.ws = none) {id tag : Nat} {t : PTok} (h : Runs E n cx (.run (.idRem id tag t)) st s') :
    ∃ k, t.run (E.inp.drop st.pos) = (true, k) ∧ getIdent id st.vars = some ((E.inp.drop st.pos).take k) ∧
      s' = { st with pos := st.pos + k } := by
  obtain ⟨m, -, h⟩ := runs_step h
  simp only [step, stepRun] at h
  obtain ⟨s, h1, h2⟩ := okTo_onOk'.1 h
  obtain ⟨w, h3, h4⟩ := okTo_bind.1 h2
  obtain ⟨-, rfl, h5⟩ := okTo_some.1 h4
  simp only [tokenParse, tokenDone] at h1
  split at h1
  · rename_i hr
    have := runs_ws hw (okTo_emit.1 h1).2
    subst this
    refine ⟨_, Prod.ext hr rfl, ?_, rfl⟩
    split at h5
    · rename_i he
      rw [h3, he]
    · have := h5 _ (List.mem_singleton.2 rfl)
      cases this
  · cases (okTo_some.1 h1).1

theorem frame_self {q : Nat} : ({ st with pos := q } : St).frame st.vars.length = { st with pos := q } := by
  unfold St.frame
  simp only [Nat.sub_self, List.drop_zero]

/-! ### What cannot end with `break_` -/

theorem ws_not_brk (hw : cx.ws = none) {y : Res} (h : exec E n cx .ws st = some y) : y.out ≠ .brk := by
  cases n with
  | zero => cases h
  | succ n =>
    rw [exec_succ] at h
    simp only [step, hw, ret] at h
    cases h
    nofun

theorem fin_tok_not_brk (hw : cx.ws = none) {t : PTok} {y : Res} (h : exec E n cx (.bfinish (.tok t)) st = some y) : y.out ≠ .brk := by
  cases n with
  | zero => cases h
  | succ n =>
    obtain ⟨r, h1, rfl⟩ := emit_some.1 h
    have := ws_not_brk hw h1
    exact this

theorem tok_not_brk (hw : cx.ws = none) {t : PTok} {y : Res} (h : exec E n cx (.run (.tok t)) st = some y) : y.out ≠ .brk := by
  cases n with
  | zero => cases h
  | succ n =>
    rw [exec_succ] at h
    simp only [step, stepRun, tokenParse, tokenDone] at h
    split at h
    · obtain ⟨r, h1, rfl⟩ := emit_some.1 h
      have := ws_not_brk hw h1
      exact this
    · cases h
      nofun

theorem fin_br_not_brk {a b : Rule} (ha : ∀ n st y, exec E n cx (.bfinish a) st = some y → y.out ≠ .brk)
    (hb : ∀ n st y, exec E n cx (.run b) st = some y → y.out ≠ .brk) {y : Res} (h : exec E n cx (.bfinish (.br a b)) st = some y) :
    y.out ≠ .brk := by
  cases n with
  | zero => cases h
  | succ n =>
    rw [exec_succ] at h
    simp only [step, stepFinish, onOk] at h
    obtain ⟨r1, r2, h1, h2, rfl⟩ := andThen_some.1 h
    have := ha _ _ _ h1
    split at h2
    · have := hb _ _ _ h2
      exact this
    · cases h2
      exact this

theorem fin_brk {y : Res} (h : exec E n cx (.bfinish .brk) st = some y) : y.out = .brk ∧ y.st = st := by
  match n, h with
  | n + 2, h => cases h; exact ⟨rfl, rfl⟩

/-! ## From the runs of the parts to a run -/

/-- The command succeeds without an error, with some number of steps. -/
def Gets (E : Env) (cx : Cx) (c : Cmd) (st s' : St) : Prop := ∃ n, Runs E n cx c st s'

theorem Does.reaches {on : Bool} {d p q : Nat} {c : Cmd} (h : Does E cx on d c p q) (h1 : st.pos = p) (h2 : st.depth = d)
    (h3 : st.wsOn = on) : Gets E cx c st { st with pos := q } := by
  obtain ⟨e, hq, n, hn⟩ := h st h1 h2 h3
  exact ⟨n, e, hq, hn⟩

theorem does_of_reaches {on : Bool} {d p q : Nat} {c : Cmd}
    (h : ∀ st : St, st.pos = p → st.depth = d → st.wsOn = on → Gets E cx c st { st with pos := q }) : Does E cx on d c p q := by
  intro st h1 h2 h3
  obtain ⟨n, e, hq, hn⟩ := h st h1 h2 h3
  exact ⟨e, hq, n, hn⟩

theorem reaches_step {c : Cmd} (h : ∃ n, OkTo (step E (exec E n) cx c st) s') : Gets E cx c st s' := by
  obtain ⟨n, h⟩ := h
  exact ⟨n + 1, h⟩

theorem Gets.both {c c' : Cmd} {s : St} {cx' : Cx} (h : Gets E cx c st s) (h' : Gets E cx' c' s s') :
    ∃ n, Runs E n cx c st s ∧ Runs E n cx' c' s s' := by
  obtain ⟨n, h⟩ := h
  obtain ⟨m, h'⟩ := h'
  exact ⟨max n m, h.mono (Nat.le_max_left _ _), h'.mono (Nat.le_max_right _ _)⟩

theorem reaches_seq {a b : Rule} {s : St} (h : Gets E cx (.run a) st s) (h' : Gets E cx (.run b) s s') :
    Gets E cx (.run (.seq a b)) st s' := by
  obtain ⟨n, h1, h2⟩ := h.both h'
  exact reaches_step ⟨n, okTo_onOk.2 ⟨s, h1, h2⟩⟩

theorem reaches_br {a b : Rule} {s : St} (h : Gets E cx (.run a) st s) (h' : Gets E cx (.run b) s s') :
    Gets E cx (.run (.br a b)) st s' := by
  obtain ⟨n, h1, h2⟩ := h.both h'
  exact reaches_step ⟨n, okTo_onOk.2 ⟨s, h1, h2⟩⟩

theorem reaches_fin_br {a b : Rule} {s : St} (h : Gets E cx (.bfinish a) st s) (h' : Gets E cx (.run b) s s') :
    Gets E cx (.bfinish (.br a b)) st s' := by
  obtain ⟨n, h1, h2⟩ := h.both h'
  exact reaches_step ⟨n, okTo_onOk.2 ⟨s, h1, h2⟩⟩

theorem reaches_fin_els : Gets E cx (.bfinish .els) st st := ⟨2, [], quiet_nil, rfl⟩

theorem reaches_varCreate {id : Nat} {v : Var} : Gets E cx (.run (.varCreate id v)) st { st with vars := (v.key id, v) :: st.vars } :=
  ⟨1, [], quiet_nil, rfl⟩

theorem reaches_ws (hw : cx.ws = none) : Gets E cx .ws st st :=
  reaches_step ⟨0, by simp only [step, hw]; exact okTo_ret.2 ⟨rfl, rfl⟩⟩

theorem reaches_take {r : Rule} {c : Cmd} {no : Nat → Option Res} (hc : Cond E (.btry r) st.pos true)
    (hs : ∀ n, step E (exec E n) cx c st = ifTry (exec E n) cx (.btry r) st (exec E n cx (.bfinish r) st) (no n))
    (h : Gets E cx (.bfinish r) st s') : Gets E cx c st s' := by
  obtain ⟨n, h1⟩ := hc cx st rfl
  obtain ⟨m, e, hq, h2⟩ := h
  refine reaches_step ⟨max n m, e, hq, ?_⟩
  rw [hs, ifTry, exec_mono (Nat.le_max_left n m) h1]
  exact exec_mono (Nat.le_max_right n m) h2

theorem reaches_skip {r : Rule} {c c' : Cmd} {yes : Nat → Option Res} (hc : Not E r st.pos)
    (hs : ∀ n, step E (exec E n) cx c st = ifTry (exec E n) cx (.btry r) st (yes n)
      (onOk' (exec E n cx (.bcancel r) st) fun st' => exec E n cx c' st'))
    (h : Gets E cx c' st s') : Gets E cx c st s' := by
  obtain ⟨n, h1⟩ := hc.1 cx st rfl
  obtain ⟨e2, q2, k, h2⟩ := hc.2 cx st rfl
  obtain ⟨m, e, hq, h3⟩ := h
  have l1 : n ≤ max n (max k m) := by omega
  have l2 : k ≤ max n (max k m) := by omega
  have l3 : m ≤ max n (max k m) := by omega
  refine reaches_step ⟨max n (max k m), ?_⟩
  rw [hs, ifTry, exec_mono l1 h1]
  exact okTo_onOk'.2 ⟨st, ⟨e2, q2, exec_mono l2 h2⟩, e, hq, exec_mono l3 h3⟩

theorem reaches_chc {r : Rule} {pre post : List Rule} (hp : ∀ x ∈ pre, Not E x st.pos) (hc : Cond E (.btry r) st.pos true)
    (h : Gets E cx (.bfinish r) st s') : Gets E cx (.run (.chc (pre ++ r :: post))) st s' := by
  have key : Gets E cx (.chcRun (pre ++ r :: post)) st s' := by
    induction pre with
    | nil =>
      exact reaches_take (no := fun n => onOk' (exec E n cx (.bcancel r) st) fun st' => exec E n cx (.chcRun post) st') hc
        (fun _ => rfl) h
    | cons x pre ih =>
      exact reaches_skip (c' := .chcRun (pre ++ r :: post)) (yes := fun n => exec E n cx (.bfinish x) st) (hp x (by simp))
        (fun _ => rfl) (ih fun y hy => hp y (by simp [hy]))
  obtain ⟨n, h⟩ := key
  exact ⟨n + 1, h⟩

theorem reaches_optt_yes {t r : Rule} (hc : Cond E (.btry t) st.pos true) (h : Gets E cx (.bfinish t) st s') :
    Gets E cx (.run (.optt t r)) st s' :=
  reaches_take (no := fun n => onOk' (exec E n cx (.bcancel t) st) fun st' => exec E n cx (.run r) st') hc (fun _ => rfl) h

theorem reaches_optt_no {t r : Rule} (hc : Not E t st.pos) (h : Gets E cx (.run r) st s') :
    Gets E cx (.run (.optt t r)) st s' :=
  reaches_skip (c' := .run r) (yes := fun n => exec E n cx (.bfinish t) st) hc (fun _ => rfl) h

theorem reaches_idCap (hw : cx.ws = none) {id q : Nat} {r : PRule} {len : List Nat → Nat} {evs : List Ev} {w : List Nat}
    (h : r.parse E.inp st.pos = (true, q, evs)) (hq : Quiet evs) (hv : getIdent id st.vars = some w) :
    Gets E cx (.run (.idCap id r len)) st { st with
      pos := q, vars := setVar (.ident id) (.ident ((E.inp.drop st.pos).take (len (E.inp.drop st.pos)))) st.vars } := by
  refine reaches_step ⟨1, ?_⟩
  simp only [step, stepRun]
  refine okTo_onOk'.2 ⟨{ st with pos := q }, ?_, okTo_bind.2 ⟨w, hv, okTo_ret.2 ⟨rfl, rfl⟩⟩⟩
  rw [h]
  refine okTo_emit.2 ⟨hq, ?_⟩
  simp only [if_true]
  split
  · rw [exec_succ]
    simp only [step, hw]
    exact okTo_ret.2 ⟨rfl, rfl⟩
  · exact okTo_ret.2 ⟨rfl, rfl⟩

theorem reaches_idRem (hw : cx.ws = none) {id tag k : Nat} {t : PTok} (h : t.run (E.inp.drop st.pos) = (true, k))
    (hv : getIdent id st.vars = some ((E.inp.drop st.pos).take k)) :
    Gets E cx (.run (.idRem id tag t)) st { st with pos := st.pos + k } := by
  refine reaches_step ⟨1, ?_⟩
  simp only [step, stepRun]
  refine okTo_onOk'.2 ⟨{ st with pos := st.pos + k }, ?_, okTo_bind.2 ⟨_, hv, ?_⟩⟩
  · rw [h]
    refine okTo_emit.2 ⟨by intro ev hev; rw [List.mem_singleton.1 hev]; rfl, ?_⟩
    rw [exec_succ]
    simp only [step, hw]
    exact okTo_ret.2 ⟨rfl, rfl⟩
  · rw [h]
    exact okTo_some.2 ⟨rfl, rfl, by simp [Quiet]⟩

theorem reaches_prod {k : Nat} {s : St} (hT : (E.prods k).isTok = false) (hW : (E.prods k).ws = none)
    (h : Gets E (cx.sub (E.prods k)) (.run (E.prods k).rule) { st with ex := {} } s) :
    Gets E cx (.run (.prod k)) st { s.frame st.vars.length with ex := st.ex } := by
  obtain ⟨n, e, hq, h⟩ := h
  refine reaches_step ⟨n, ?_⟩
  simp only [step, stepRun, hW, Option.isSome_none, Bool.false_eq_true, if_false]
  refine okTo_emit.2 ⟨by intro ev hev; rw [List.mem_singleton.1 hev]; rfl, ?_⟩
  simp only [h, framed, Option.map_some, andThen, hT, Bool.false_eq_true, if_false, emit, ret]
  exact okTo_some.2 ⟨rfl, rfl, quiet_append.2 ⟨hq, by intro ev hev; rw [List.mem_singleton.1 hev]; rfl⟩⟩

/-- Skipped whitespace. -/
theorem does_wsr_tok {on : Bool} {d p k : Nat} {t : PTok} (h : Spec.Blank t.run (E.inp.drop p) k) :
    Does E cx on d (.run (.wsr (.tok t))) p (p + k) := by
  intro st h2 _ _
  subst h2
  obtain ⟨j, hj⟩ := tokLoop_blank (cx := cx) h st rfl
  refine ⟨[.token .whitespace st.pos (st.pos + k)], by simp [Ev.isError], j + 2, ?_⟩
  rw [exec_succ]
  simp only [step, stepRun]
  rw [exec_succ]
  simp only [step, Rule.isToken, if_true, hj, onOk', andThen, Option.map_some, List.nil_append]

/-! ### Lists without separator -/

/-- The items of a list up to its terminator. -/
inductive Items (E : Env) (cx : Cx) (on : Bool) (d : Nat) (t item : Rule) : Nat → Nat → Prop
  | done {p : Nat} (h : Cond E (.btry t) p true) : Items E cx on d t item p p
  | next {p m q : Nat} (h : Not E t p) (hi : Does E cx on d (.run item) p m) (ht : Items E cx on d t item m q) :
    Items E cx on d t item p q

theorem reaches_ltTerm {on : Bool} {d p q : Nat} {t item : Rule} {l : List Nat → Bool} (h : Items E cx on d t item p q) :
    ∀ st : St, st.pos = p → st.depth = d → st.wsOn = on → Gets E cx (.ltTerm t item none l) st { st with pos := q } := by
  induction h with
  | done h =>
    intro st h1 _ _
    subst h1
    obtain ⟨n, hn⟩ := h cx st rfl
    refine reaches_step ⟨n, ?_⟩
    simp only [step, ifTry, hn]
    exact okTo_ret.2 ⟨rfl, rfl⟩
  | next h hi _ ih =>
    intro st h1 h2 h3
    subst h1
    refine reaches_skip (c' := .ltSep t item none l) (yes := fun _ => ret .ok st) h (fun _ => rfl) ?_
    obtain ⟨n, e1, q1, n1⟩ := hi.reaches rfl h2 h3
    obtain ⟨m, e2, q2, n2⟩ := ih { st with pos := _ } rfl h2 h3
    refine reaches_step ⟨max n m + 1, ?_⟩
    simp only [step]
    rw [exec_succ]
    simp only [step]
    rw [exec_mono (Nat.le_max_left n m) n1]
    simp only [framed, Option.map_some, andThen, frame_self, exec_mono (Nat.le_max_right n m) n2]
    exact okTo_some.2 ⟨rfl, rfl, quiet_append.2 ⟨q1, q2⟩⟩

/-- `opt_list` with a terminator. -/
theorem reaches_optlist {on : Bool} {d p q : Nat} {t item : Rule} {l : List Nat → Bool} (h : Items E cx on d t item p q)
    (h1 : st.pos = p) (h2 : st.depth = d) (h3 : st.wsOn = on) (hf : Gets E cx (.bfinish t) { st with pos := q } s') :
    Gets E cx (.run (.optt t (.lstt t item none l))) st s' := by
  subst h1
  cases h with
  | done h => exact reaches_optt_yes h hf
  | next h hi ht =>
    refine reaches_optt_no h ?_
    obtain ⟨n1, e1, q1, g1⟩ := hi.reaches rfl h2 h3
    obtain ⟨n2, e2, q2, g2⟩ := reaches_ltTerm (l := l) ht { st with pos := _ } rfl h2 h3
    obtain ⟨n3, e3, q3, g3⟩ := hf
    have l1 : n1 ≤ max n1 (max n2 n3) := by omega
    have l2 : n2 ≤ max n1 (max n2 n3) := by omega
    have l3 : n3 ≤ max n1 (max n2 n3) := by omega
    refine reaches_step ⟨max n1 (max n2 n3), ?_⟩
    simp only [step, stepRun]
    rw [exec_mono l1 g1]
    simp only [framed, Option.map_some, andThen, frame_self, exec_mono l2 g2, onOk', exec_mono l3 g3]
    exact okTo_some.2 ⟨rfl, rfl, quiet_append.2 ⟨quiet_append.2 ⟨q1, q2⟩, q3⟩⟩

/-! ### Whitespace that is not a token -/

theorem chc_brk {pre : List Rule} (hp : ∀ x ∈ pre, Not E x st.pos) :
    ∃ evs, Quiet evs ∧ Exec E cx (.run (.chc (pre ++ [.brk]))) st ⟨.brk, st, evs⟩ := by
  have key : ∃ evs, Quiet evs ∧ Exec E cx (.chcRun (pre ++ [.brk])) st ⟨.brk, st, evs⟩ := by
    induction pre with
    | nil => exact ⟨[], quiet_nil, 3, rfl⟩
    | cons x pre ih =>
      obtain ⟨e, hq, n, hn⟩ := ih fun y hy => hp y (by simp [hy])
      obtain ⟨k, h1⟩ := (hp x (by simp)).1 cx st rfl
      obtain ⟨e2, q2, m, h2⟩ := (hp x (by simp)).2 cx st rfl
      have l1 : n ≤ max n (max k m) := by omega
      have l2 : k ≤ max n (max k m) := by omega
      have l3 : m ≤ max n (max k m) := by omega
      refine ⟨e2 ++ e, quiet_append.2 ⟨q2, hq⟩, max n (max k m) + 1, ?_⟩
      rw [exec_succ]
      simp only [List.cons_append, step, ifTry, exec_mono l2 h1, exec_mono l3 h2, onOk', andThen, exec_mono l1 hn, Option.map_some]
      rfl
  obtain ⟨e, hq, n, h⟩ := key
  exact ⟨e, hq, n + 1, h⟩

/-- The loop ends. -/
theorem does_loop_brk {on : Bool} {d p : Nat} {pre : List Rule} (hp : ∀ x ∈ pre, Not E x p) :
    Does E cx on d (.loopR (.chc (pre ++ [.brk]))) p p := by
  intro st h1 _ _
  subst h1
  obtain ⟨e, hq, n, hn⟩ := chc_brk (cx := cx) hp
  refine ⟨e ++ [], quiet_append.2 ⟨hq, quiet_nil⟩, n + 1, ?_⟩
  rw [exec_succ]
  simp only [step, hn, framed, Option.map_some, andThen, ret]
  rw [show st.frame st.vars.length = st from frame_self (st := st) (q := st.pos)]

/-- The loop goes on. -/
theorem does_loop_next {on : Bool} {d p m q : Nat} {r : Rule} (h : Does E cx on d (.run r) p m) (h' : Does E cx on d (.loopR r) m q) :
    Does E cx on d (.loopR r) p q := by
  refine does_of_reaches fun st h1 h2 h3 => ?_
  obtain ⟨n1, e1, q1, g1⟩ := h.reaches h1 h2 h3
  obtain ⟨n2, e2, q2, g2⟩ := h'.reaches (st := { st with pos := m }) rfl h2 h3
  refine reaches_step ⟨max n1 n2, ?_⟩
  simp only [step]
  rw [exec_mono (Nat.le_max_left n1 n2) g1]
  simp only [framed, Option.map_some, andThen, frame_self, exec_mono (Nat.le_max_right n1 n2) g2]
  exact okTo_some.2 ⟨rfl, rfl, quiet_append.2 ⟨q1, q2⟩⟩

theorem does_wsr_chc {on : Bool} {d p q : Nat} {rs : List Rule}
    (h : Does E ⟨none, 0⟩ true 0 (.loopR (.chc (rs ++ [.brk]))) p q) : Does E cx on d (.run (.wsr (.chc rs))) p q := by
  refine does_of_reaches fun st h1 _ _ => ?_
  subst h1
  obtain ⟨n, e, hq, hn⟩ := h.reaches (st := { pos := st.pos }) rfl rfl rfl
  have h2 : exec E (n + 1) ⟨none, 0⟩ (.run (wsRule (.chc rs))) { pos := st.pos } = some ⟨.ok, { pos := q }, e⟩ := hn
  refine reaches_step ⟨n + 2, ?_⟩
  simp only [step, stepRun]
  rw [exec_succ]
  simp only [step, Rule.isToken, Bool.false_eq_true, if_false, nested, h2]
  refine okTo_some.2 ⟨rfl, rfl, quiet_append.2 ⟨fun ev hev => hq ev (List.mem_filter.1 hev).1, ?_⟩⟩
  intro ev hev
  rw [List.mem_singleton.1 hev]
  rfl

end
end Verif
