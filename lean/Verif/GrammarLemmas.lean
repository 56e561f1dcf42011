import Verif.GrammarTrace
import Verif.GrammarMono

/-
Basic facts about the interpreter: what branch conditions depend on, and that taking a branch is the same as parsing
the rule.
-/

namespace Verif

theorem exec_succ (E : Env) (n : Nat) (cx : Cx) (c : Cmd) (st : St) :
    exec E (n + 1) cx c st = step E (exec E n) cx c st := rfl

theorem Exec.intro {E : Env} {cx : Cx} {c : Cmd} {st : St} {r : Res} {n : Nat}
    (h : step E (exec E n) cx c st = some r) : Exec E cx c st r := ⟨n + 1, h⟩

theorem Exec.elim {E : Env} {cx : Cx} {c : Cmd} {st : St} {r : Res} (h : Exec E cx c st r) :
    ∃ n, step E (exec E n) cx c st = some r := by
  obtain ⟨n, h⟩ := h
  cases n with
  | zero => cases h
  | succ n => exact ⟨n, h⟩

/-! ## Conditions of branches -/

/-- Two states that branch conditions cannot tell apart. -/
def SameCond (st st' : St) : Prop := st.pos = st'.pos ∧ st.vars = st'.vars

/-- The outcome of a condition, and where it got. -/
def condOf (c : Cmd) (x : Option Res) : Option (Out × Nat) :=
  match c with
  | .tokTry _ => x.map fun r => (r.out, r.st.pos)
  | _ => x.map fun r => (r.out, 0)

def isCond : Cmd → Bool
  | .btry _ | .chcTry _ | .tokTry _ => true
  | _ => false

theorem cond_indep (E : Env) (n : Nat) (cx cx' : Cx) (c : Cmd) (st st' : St) (hc : isCond c = true)
    (h : SameCond st st') : condOf c (exec E n cx c st) = condOf c (exec E n cx' c st') := by
  induction n generalizing cx cx' c st st' with
  | zero => cases c <;> rfl
  | succ n ih =>
    obtain ⟨hp, hv⟩ := h
    have hh : SameCond st st' := ⟨hp, hv⟩
    rw [exec_succ, exec_succ]
    have tk : ∀ r, (exec E n cx (.tokTry r) st).map (fun r => (r.out, r.st.pos)) =
        (exec E n cx' (.tokTry r) st').map (fun r => (r.out, r.st.pos)) := fun r => ih cx cx' (.tokTry r) st st' rfl hh
    have bt : ∀ r, (exec E n cx (.btry r) st).map (fun r => (r.out, 0)) =
        (exec E n cx' (.btry r) st').map (fun r => (r.out, 0)) := fun r => ih cx cx' (.btry r) st st' rfl hh
    have ct : ∀ r, (exec E n cx (.chcTry r) st).map (fun r => (r.out, 0)) =
        (exec E n cx' (.chcTry r) st').map (fun r => (r.out, 0)) := fun r => ih cx cx' (.chcTry r) st st' rfl hh
    cases c <;> try (exact Bool.noConfusion hc)
    case btry r =>
      cases r <;> simp only [condOf, step, stepTry, ret, Option.map_some, Option.map_none, hp, hv] <;>
        first
          | exact bt _
          | exact ct _
          | skip
      case tokr k tag r =>
        have := tk (.tokr k tag r)
        cases h1 : exec E n cx (.tokTry (.tokr k tag r)) st <;> cases h2 : exec E n cx' (.tokTry (.tokr k tag r)) st' <;>
          simp [h1, h2] at this ⊢
        rw [this.1]
      case prim p => cases p.branch <;> simp
      case idCap p _ => cases p.branch <;> simp
      case prod m => split <;> first | exact bt _ | rfl
      case recu m _ b => split <;> first | exact bt _ | rfl
      case peek tag r =>
        have := tk r
        cases h1 : exec E n cx (.tokTry r) st <;> cases h2 : exec E n cx' (.tokTry r) st' <;>
          simp [h1, h2] at this ⊢
        rw [this.1]
      case peekn tag r =>
        have := tk r
        cases h1 : exec E n cx (.tokTry r) st <;> cases h2 : exec E n cx' (.tokTry r) st' <;>
          simp [h1, h2] at this ⊢
        rw [this.1]
      case flagIs id b => cases getFlag id st'.vars <;> simp
      case cntIs id b => cases getCounter id st'.vars <;> simp
      case cntEq tag id ids =>
        cases getCounter id st'.vars <;> simp
        split <;> simp
      case idRem id tag t =>
        split
        · cases getIdent id st'.vars <;> simp
        · simp
    case chcTry rs =>
      cases rs with
      | nil => rfl
      | cons r rs =>
        have h1 := bt r
        simp only [step, ifTry]
        cases h2 : exec E n cx (.btry r) st <;> cases h3 : exec E n cx' (.btry r) st' <;> simp [h2, h3] at h1 ⊢
        rename_i a b
        obtain ⟨o, s, es⟩ := a
        obtain ⟨o', s', es'⟩ := b
        simp only at h1
        subst h1
        cases o
        · rfl
        · exact ct rs
        · exact ct rs
    case tokTry r =>
      cases r <;> simp only [condOf, step, ret, Option.map_some, hp] <;>
        (cases nested (exec E n) _ st'.pos <;> rfl)

/-- Whether a branch is taken depends on the position and the context variables only. -/
theorem btry_indep {E : Env} {cx : Cx} (cx' : Cx) {r : Rule} {st st' : St} (hp : st.pos = st'.pos) (hv : st.vars = st'.vars)
    {n : Nat} {x : Res} (h : exec E n cx (.btry r) st = some x) :
    ∃ x', exec E n cx' (.btry r) st' = some x' ∧ x'.out = x.out := by
  have := cond_indep E n cx cx' (.btry r) st st' rfl ⟨hp, hv⟩
  simp only [condOf, h, Option.map_some] at this
  cases h' : exec E n cx' (.btry r) st' with
  | none => rw [h'] at this; cases this
  | some x' => rw [h'] at this; simp at this; exact ⟨x', rfl, this.symm⟩

/-- The branch is taken. -/
def Takes (E : Env) (r : Rule) (st : St) : Prop := ∃ cx, Exec E cx (.btry r) st ⟨.ok, st, []⟩

/-- The branch is not taken. -/
def Leaves (E : Env) (r : Rule) (st : St) : Prop := ∃ cx, Exec E cx (.btry r) st ⟨.fail, st, []⟩

theorem btry_out {E : Env} {cx : Cx} {r : Rule} {st : St} (h : st.pos ≤ E.inp.length) {n : Nat} {x : Res}
    (hx : exec E n cx (.btry r) st = some x) : x = ⟨.ok, st, []⟩ ∨ x = ⟨.fail, st, []⟩ := by
  obtain ⟨h1, h2, h3⟩ := exec_good E n cx (.btry r) st h x hx
  obtain ⟨o, s, es⟩ := x
  simp only at h1 h2 h3
  subst h1 h2
  cases o
  · exact .inl rfl
  · exact .inr rfl
  · exact absurd rfl h3

theorem Takes.at {E : Env} {r : Rule} {st st' : St} (h : Takes E r st) (hp : st.pos = st'.pos)
    (hv : st.vars = st'.vars) (hl : st.pos ≤ E.inp.length) (cx : Cx) :
    ∃ n, exec E n cx (.btry r) st' = some ⟨.ok, st', []⟩ := by
  obtain ⟨cx0, n, h⟩ := h
  obtain ⟨x', h1, h2⟩ := btry_indep cx hp hv h
  refine ⟨n, ?_⟩
  rcases btry_out (hp ▸ hl) h1 with e | e
  · rw [h1, e]
  · rw [e] at h2; cases h2

theorem Takes.congr {E : Env} {r : Rule} {st st' : St} (h : Takes E r st) (hp : st.pos = st'.pos)
    (hv : st.vars = st'.vars) (hl : st.pos ≤ E.inp.length) : Takes E r st' :=
  ⟨{}, h.at hp hv hl {}⟩

theorem Leaves.at {E : Env} {r : Rule} {st st' : St} (h : Leaves E r st) (hp : st.pos = st'.pos)
    (hv : st.vars = st'.vars) (hl : st.pos ≤ E.inp.length) (cx : Cx) :
    ∃ n, exec E n cx (.btry r) st' = some ⟨.fail, st', []⟩ := by
  obtain ⟨cx0, n, h⟩ := h
  obtain ⟨x', h1, h2⟩ := btry_indep cx hp hv h
  refine ⟨n, ?_⟩
  rcases btry_out (hp ▸ hl) h1 with e | e
  · rw [e] at h2; cases h2
  · rw [h1, e]

theorem Takes.not_leaves {E : Env} {r : Rule} {st : St} (h : Takes E r st) (hl : st.pos ≤ E.inp.length) :
    ¬ Leaves E r st := by
  intro h'
  obtain ⟨n, h1⟩ := h.at rfl rfl hl {}
  obtain ⟨m, h2⟩ := h'.at rfl rfl hl {}
  have := Exec.unique ⟨n, h1⟩ ⟨m, h2⟩
  cases this

/-- What `if (branch.try_parse(...))` does. -/
theorem ifTry_some {E : Env} {n : Nat} {cx : Cx} {b : Rule} {st : St} (hl : st.pos ≤ E.inp.length)
    {yes no : Option Res} {r : Res} (h : ifTry (exec E n) cx (.btry b) st yes no = some r) :
    (Takes E b st ∧ yes = some r) ∨ (Leaves E b st ∧ no = some r) := by
  unfold ifTry at h
  cases hx : exec E n cx (.btry b) st with
  | none => rw [hx] at h; cases h
  | some x =>
    rw [hx] at h
    rcases btry_out hl hx with e | e
    · subst e; exact .inl ⟨⟨cx, n, hx⟩, h⟩
    · subst e; exact .inr ⟨⟨cx, n, hx⟩, h⟩

theorem cancel_out {E : Env} {n : Nat} {cx : Cx} {b : Rule} {st : St} (hl : st.pos ≤ E.inp.length) {r : Res}
    (h : exec E n cx (.bcancel b) st = some r) :
    r = ⟨.ok, st, r.evs⟩ ∧ CancelTr E.inp.length st.pos r.evs := by
  obtain ⟨h1, h2, h3⟩ := exec_good E n cx (.bcancel b) st hl r h
  obtain ⟨o, s, es⟩ := r
  simp only at h1 h2 h3 ⊢
  subst h1 h2
  exact ⟨rfl, h3⟩

/-! ## Taking a branch is parsing the rule -/

/-- The same event; `context_identifier.rematch()` as a branch reports a different token kind than as a rule. -/
def SameEv (a b : Ev) : Prop := a = b ∨ ∃ k p q, a = .token k p q ∧ b = .token .identifier p q

/-- Element by element. -/
inductive SameEvs : List Ev → List Ev → Prop
  | nil : SameEvs [] []
  | cons {a b as bs} : SameEv a b → SameEvs as bs → SameEvs (a :: as) (b :: bs)

theorem SameEvs.refl (l : List Ev) : SameEvs l l := by
  induction l with
  | nil => exact .nil
  | cons a l ih => exact .cons (.inl rfl) ih

theorem SameEvs.append {a b c d : List Ev} (h1 : SameEvs a b) (h2 : SameEvs c d) : SameEvs (a ++ c) (b ++ d) := by
  induction h1 with
  | nil => exact h2
  | cons h _ ih => exact .cons h ih

/-- The same result. -/
def SameRes (a b : Res) : Prop := a.out = b.out ∧ a.st = b.st ∧ SameEvs a.evs b.evs

theorem SameRes.refl (a : Res) : SameRes a a := ⟨rfl, rfl, .refl _⟩

/-- If `x` has a result, then `y` has the same one. -/
def Sim (x y : Option Res) : Prop := ∀ r, x = some r → ∃ r', y = some r' ∧ SameRes r' r

theorem Sim.refl (x : Option Res) : Sim x x := fun r h => ⟨r, h, .refl r⟩

theorem sim_mono {E : Env} {n m : Nat} (h : n ≤ m) (cx : Cx) (c : Cmd) (st : St) :
    Sim (exec E n cx c st) (exec E m cx c st) := fun r hr => ⟨r, exec_mono h hr, .refl r⟩

theorem sim_andThen {x y : Option Res} {f g : Out → St → Option Res} (h : Sim x y) (hf : ∀ o st, Sim (f o st) (g o st)) :
    Sim (andThen x f) (andThen y g) := by
  intro r hr
  obtain ⟨r1, r2, h1, h2, rfl⟩ := andThen_some.1 hr
  obtain ⟨r1', h3, e1, e2, e3⟩ := h r1 h1
  obtain ⟨r2', h4, e4, e5, e6⟩ := hf r1.out r1.st r2 h2
  refine ⟨⟨r2'.out, r2'.st, r1'.evs ++ r2'.evs⟩, andThen_some.2 ⟨r1', r2', h3, ?_, rfl⟩, e4, e5, e3.append e6⟩
  rw [e1, e2]; exact h4

theorem sim_onOk {x y : Option Res} {f g : St → Option Res} (h : Sim x y) (hf : ∀ st, Sim (f st) (g st)) :
    Sim (onOk x f) (onOk y g) := by
  refine sim_andThen h fun o st => ?_
  cases o
  · exact hf st
  · exact .refl _
  · exact .refl _

theorem sim_onOk' {x y : Option Res} {f g : St → Option Res} (h : Sim x y) (hf : ∀ st, Sim (f st) (g st)) :
    Sim (onOk' x f) (onOk' y g) := by
  refine sim_andThen h fun o st => ?_
  cases o
  · exact hf st
  · exact .refl _
  · exact .refl _

theorem sim_emit {x y : Option Res} (evs : List Ev) (h : Sim x y) : Sim (emit evs x) (emit evs y) := by
  intro r hr
  obtain ⟨r1, h1, rfl⟩ := emit_some.1 hr
  obtain ⟨r1', h3, e1, e2, e3⟩ := h r1 h1
  exact ⟨_, emit_some.2 ⟨r1', h3, rfl⟩, e1, e2, (SameEvs.refl evs).append e3⟩

theorem sim_framed {x y : Option Res} (k : Nat) (h : Sim x y) : Sim (framed k x) (framed k y) := by
  intro r hr
  obtain ⟨r1, h1, rfl⟩ := framed_some.1 hr
  obtain ⟨r1', h3, e1, e2, e3⟩ := h r1 h1
  exact ⟨_, framed_some.2 ⟨r1', h3, rfl⟩, e1, by simp only [e2], e3⟩

theorem sim_bind {α : Type} (x : Option α) {f g : α → Option Res} (h : ∀ a, Sim (f a) (g a)) :
    Sim (x.bind f) (x.bind g) := by
  cases x with
  | none => exact .refl _
  | some a => exact h a

theorem sim_trans {x y z : Option Res} (h1 : Sim x y) (h2 : ∀ r, y = some r → z = some r) : Sim x z := by
  intro r hr
  obtain ⟨r', h3, h4⟩ := h1 r hr
  exact ⟨r', h2 r' h3, h4⟩

theorem Takes.unfold {E : Env} {r : Rule} {st : St} (h : Takes E r st) :
    ∃ cx n, stepTry E (exec E n) cx st r = some ⟨.ok, st, []⟩ := by
  obtain ⟨cx, n, h⟩ := h
  cases n with
  | zero => cases h
  | succ n => exact ⟨cx, n, h⟩

/-- The first branch of a choice that is taken, with the branches before it. -/
theorem chcTry_takes {E : Env} {rs : List Rule} {st : St} (hl : st.pos ≤ E.inp.length) {cx : Cx} {n : Nat}
    (h : exec E n cx (.chcTry rs) st = some ⟨.ok, st, []⟩) :
    ∃ pre b post, rs = pre ++ b :: post ∧ (∀ x ∈ pre, Leaves E x st) ∧ Takes E b st := by
  induction rs generalizing n with
  | nil => cases n <;> cases h
  | cons r rs ih =>
    cases n with
    | zero => cases h
    | succ n =>
      rcases ifTry_some hl h with ⟨h1, _⟩ | ⟨h1, h2⟩
      · exact ⟨[], r, rs, rfl, by simp, h1⟩
      · obtain ⟨pre, b, post, e, h3, h4⟩ := ih h2
        refine ⟨r :: pre, b, post, by rw [e]; rfl, ?_, h4⟩
        intro x hx
        rcases List.mem_cons.1 hx with hx | hx
        · subst hx; exact h1
        · exact h3 x hx

/-- Skipping whitespace only moves the reader. -/
theorem ws_st (E : Env) (n : Nat) (cx : Cx) (c : Cmd) (st : St) (hc : c = .ws ∨ (∃ r, c = .skip r) ∨ ∃ r, c = .tokLoop r)
    {x : Res} (h : exec E n cx c st = some x) : x.st = { st with pos := x.st.pos } ∧ x.out ≠ .brk := by
  induction n generalizing cx c st x with
  | zero => cases h
  | succ n ih =>
    rw [exec_succ] at h
    rcases hc with rfl | ⟨r, rfl⟩ | ⟨r, rfl⟩
    · simp only [step] at h
      split at h
      · cases h; exact ⟨rfl, by first | exact Out.noConfusion | (split <;> exact Out.noConfusion)⟩
      · split at h
        · exact ih _ _ _ (.inr (.inl ⟨_, rfl⟩)) h
        · cases h; exact ⟨rfl, by first | exact Out.noConfusion | (split <;> exact Out.noConfusion)⟩
    · simp only [step] at h
      split at h
      · obtain ⟨r1, r2, e1, e2, rfl⟩ := andThen_some.1 h
        have := ih _ _ _ (.inr (.inr ⟨_, rfl⟩)) e1
        obtain ⟨o, s1, es⟩ := r1
        cases o <;> cases e2 <;> exact ⟨this.1, Out.noConfusion⟩
      · split at h
        · cases h
        · cases h; exact ⟨rfl, by first | exact Out.noConfusion | (split <;> exact Out.noConfusion)⟩
    · simp only [step] at h
      split at h
      · cases h
      · split at h
        · have := ih _ _ _ (.inr (.inr ⟨_, rfl⟩)) h
          exact this
        · cases h; exact ⟨rfl, by first | exact Out.noConfusion | (split <;> exact Out.noConfusion)⟩

/-- The rules that decide whether a branch is taken, and what follows them directly. -/
inductive Head (E : Env) : Rule → Rule → Prop
  | refl {r} : Head E r r
  | br {c r h} : Head E c h → Head E (.br c r) h
  | must {b e h} : Head E b h → Head E (.must b e) h
  | lst {i s h} : Head E i h → Head E (.lst i s) h
  | tryr {r rc h} : Head E r h → Head E (.tryr r rc) h
  | prod {n h} : Head E (E.prods n).rule h → Head E (.prod n) h
  | recu {n t b h} : Head E (.prod n) h → Head E (.recu n t b) h
  | posr {r h} : Head E r h → Head E (.posr r) h
  | rep {c f i s h} : Head E c h → Head E (.rep c f i s) h
  | cntPush {id r s h} : Head E r h → Head E (.cntPush id r s) h

/-- `no_whitespace` does not begin the branch (outside of a choice inside of it).  In contexts without whitespace it
    behaves differently as a branch and as a rule: the branch switches whitespace skipping off and on. -/
def HeadOk (E : Env) (r : Rule) : Prop := ∀ r', ¬ Head E r (.wsn r')

/-- Taking a branch gives what parsing the rule gives. -/
theorem finish_sim (E : Env) (n : Nat) (cx : Cx) (r : Rule) (st : St) (hl : st.pos ≤ E.inp.length) (ht : Takes E r st)
    (hh : HeadOk E r) : ∃ m, Sim (exec E n cx (.bfinish r) st) (exec E m cx (.run r) st) := by
  induction n generalizing cx r st with
  | zero => exact ⟨0, .refl _⟩
  | succ n ih =>
    obtain ⟨cxt, k, hk⟩ := ht.unfold
    have lift : ∀ {m : Nat} {y : Option Res}, Sim (stepFinish E (exec E n) cx st r) y →
        (∀ x, y = some x → stepRun E (exec E m) cx st r = some x) →
        ∃ m, Sim (exec E (n + 1) cx (.bfinish r) st) (exec E m cx (.run r) st) := by
      intro m y h1 h2
      exact ⟨m + 1, sim_trans h1 h2⟩
    have same : Sim (stepFinish E (exec E n) cx st r) (stepRun E (exec E n) cx st r) →
        ∃ m, Sim (exec E (n + 1) cx (.bfinish r) st) (exec E m cx (.run r) st) := fun h => ⟨n + 1, h⟩
    have app : ∀ {m : Nat}, Sim (stepFinish E (exec E n) cx st r) (stepRun E (exec E m) cx st r) →
        ∃ m, Sim (exec E (n + 1) cx (.bfinish r) st) (exec E m cx (.run r) st) := fun {m} h => ⟨m + 1, h⟩
    cases r
    case tok t =>
      simp only [stepTry, ret, Option.some.injEq, Res.mk.injEq, and_true] at hk
      apply same
      have : (t.run (E.inp.drop st.pos)).1 = true := by
        by_cases h : (t.run (E.inp.drop st.pos)).1 = true
        · exact h
        · rw [if_neg h] at hk; cases hk
      simp only [stepFinish, stepRun, tokenParse, this, if_true]
      exact .refl _
    case tokr k' tag r =>
      simp only [stepTry] at hk
      apply same
      simp only [stepFinish, stepRun]
      cases hx : exec E n cx (.tokTry (.tokr k' tag r)) st with
      | none => exact .refl _
      | some x =>
        cases hy : exec E k cxt (.tokTry (.tokr k' tag r)) st with
        | none => rw [hy] at hk; cases hk
        | some y =>
          rw [hy] at hk
          simp only [ret, Option.some.injEq, Res.mk.injEq, and_true] at hk
          have e1 := exec_mono (Nat.le_max_left n k) hx
          have e2 := exec_mono (Nat.le_max_right n k) hy
          have := cond_indep E (max n k) cx cxt (.tokTry (.tokr k' tag r)) st st rfl ⟨rfl, rfl⟩
          rw [e1, e2] at this
          simp only [condOf, Option.map_some, Option.some.injEq, Prod.mk.injEq] at this
          have hy' : (y.out == .ok) = true := by
            by_cases h : (y.out == .ok) = true
            · exact h
            · rw [if_neg h] at hk; cases hk
          simp only [this.1, hy', tokenParse, if_true]
          exact .refl _
    case prim p =>
      apply same
      simp only [stepFinish, stepRun]
      cases hb : p.branch with
      | none => simp [stepTry, hb] at hk
      | some f =>
        simp only [stepTry, hb, Option.bind_some, ret, Option.some.injEq, Res.mk.injEq, and_true] at hk
        have hy : f E.inp st.pos = true := by
          by_cases h : f E.inp st.pos = true
          · exact h
          · rw [if_neg h] at hk; cases hk
        rw [p.coh f _ _ hb hy]
        exact .refl _
    case els => exact ⟨n, .refl _⟩
    case brk => exact ⟨n, .refl _⟩
    case err tag r => exact ⟨n, .refl _⟩
    case br c r =>
      obtain ⟨m, hm⟩ := ih cx c st hl ⟨cxt, k, hk⟩ fun r' h => hh r' (.br h)
      apply app (m := max m n)
      exact sim_onOk (sim_trans hm fun x hx => exec_mono (Nat.le_max_left ..) hx)
        fun st' => sim_mono (Nat.le_max_right _ _) _ _ _
    case chc rs =>
      -- the same loop
      have loop : ∀ n rs st, st.pos ≤ E.inp.length → Sim (exec E n cx (.chcFinish rs) st) (exec E n cx (.chcRun rs) st) := by
        intro n
        induction n with
        | zero => exact fun _ _ _ => .refl _
        | succ n ih2 =>
          intro rs st hl
          cases rs with
          | nil => intro r hr; cases hr
          | cons b rs =>
            simp only [exec_succ, step]
            intro x hx
            unfold ifTry at hx ⊢
            cases hb : exec E n cx (.btry b) st with
            | none => rw [hb] at hx; cases hx
            | some y =>
              rw [hb] at hx
              rcases btry_out hl hb with e | e
              · subst e; exact ⟨x, hx, .refl _⟩
              · subst e
                simp only at hx ⊢
                obtain ⟨r1, r2, e1, e2, rfl⟩ := andThen_some.1 hx
                obtain ⟨e3, _⟩ := cancel_out hl e1
                rw [e3] at e2
                obtain ⟨r2', e4, e5⟩ := ih2 rs st hl r2 e2
                refine ⟨⟨r2'.out, r2'.st, r1.evs ++ r2'.evs⟩, andThen_some.2 ⟨r1, r2', e1, ?_, rfl⟩, e5.1, e5.2.1,
                  (SameEvs.refl _).append e5.2.2⟩
                rw [e3]; exact e4
      exact ⟨n + 1, loop n rs st hl⟩
    case must b e =>
      obtain ⟨m, hm⟩ := ih cx b st hl ⟨cxt, k, hk⟩ fun r' h => hh r' (.must h)
      have hb : Takes E b st := ⟨cxt, k, hk⟩
      obtain ⟨j, hj⟩ := hb.at rfl rfl hl cx
      apply app (m := max n j)
      intro x hx
      refine ⟨x, ?_, .refl _⟩
      simp only [stepRun, ifTry]
      rw [exec_mono (Nat.le_max_right n j) hj]
      exact exec_mono (Nat.le_max_left n j) hx
    case lst item sep =>
      obtain ⟨m, hm⟩ := ih cx item st hl ⟨cxt, k, hk⟩ fun r' h => hh r' (.lst h)
      apply app (m := max m n)
      exact sim_onOk' (sim_framed _ (sim_trans hm fun x hx => exec_mono (Nat.le_max_left ..) hx))
        fun st' => sim_mono (Nat.le_max_right _ _) _ _ _
    case tryr r rc =>
      obtain ⟨m, hm⟩ := ih cx r st hl ⟨cxt, k, hk⟩ fun r' h => hh r' (.tryr h)
      apply app (m := max m n)
      simp only [stepFinish, stepRun]
      refine sim_andThen (sim_trans hm fun x hx => exec_mono (Nat.le_max_left m n) hx) fun o st' => ?_
      cases o
      · exact .refl _
      · exact sim_mono (Nat.le_max_right _ _) _ _ _
      · exact .refl _
    case prod q =>
      simp only [stepTry] at hk
      by_cases hw : ((E.prods q).branch && (E.prods q).ws.isNone) = true
      · rw [if_pos hw] at hk
        have hw' : (E.prods q).ws.isSome = false := by
          simp only [Bool.and_eq_true] at hw
          cases h : (E.prods q).ws <;> simp [h] at hw ⊢
        have ht' : Takes E (E.prods q).rule st := ⟨cxt, k, hk⟩
        obtain ⟨m, hm⟩ := ih (cx.sub (E.prods q)) (E.prods q).rule { st with ex := {} } hl (ht'.congr rfl rfl hl) fun r' h => hh r' (.prod h)
        apply app (m := max m n)
        refine sim_emit _ (sim_andThen (sim_framed _ ?_) ?_)
        · simp only [hw', Bool.false_eq_true, if_false]
          exact sim_trans hm fun x hx => exec_mono (Nat.le_max_left ..) hx
        · intro o st'
          cases o
          · refine sim_emit _ ?_
            split
            · exact sim_mono (Nat.le_max_right _ _) _ _ _
            · exact .refl _
          · exact .refl _
          · exact .refl _
      · rw [if_neg hw] at hk; cases hk
    case recu q tag b =>
      simp only [stepTry] at hk
      cases b with
      | false => cases hk
      | true =>
        have ht' : Takes E (.prod q) st := ⟨cxt, k, hk⟩
        obtain ⟨m, hm⟩ := ih cx (.prod q) { st with depth := st.depth + 1 } hl (ht'.congr rfl rfl hl) fun r' h => hh r' (.recu h)
        apply app (m := max m n)
        simp only [stepFinish, stepRun, deeper]
        split
        · exact .refl _
        · split
          · exact .refl _
          · exact sim_onOk' (sim_trans hm fun x hx => exec_mono (Nat.le_max_left ..) hx) fun _ => .refl _
    case peek tag r =>
      simp only [stepTry] at hk
      apply same
      simp only [stepFinish, stepRun]
      cases hx : exec E n cx (.tokTry r) st with
      | none => exact .refl _
      | some x =>
        cases hy : exec E k cxt (.tokTry r) st with
        | none => rw [hy] at hk; cases hk
        | some y =>
          rw [hy] at hk
          simp only [ret, Option.some.injEq, Res.mk.injEq, and_true] at hk
          have e1 := exec_mono (Nat.le_max_left n k) hx
          have e2 := exec_mono (Nat.le_max_right n k) hy
          have := cond_indep E (max n k) cx cxt (.tokTry r) st st rfl ⟨rfl, rfl⟩
          rw [e1, e2] at this
          simp only [condOf, Option.map_some, Option.some.injEq, Prod.mk.injEq] at this
          have hy' : (y.out == .ok) = true := by
            by_cases h : (y.out == .ok) = true
            · exact h
            · rw [if_neg h] at hk; cases hk
          simp only [this.1, hy', if_true]
          exact .refl _
    case peekn tag r =>
      simp only [stepTry] at hk
      apply same
      simp only [stepFinish, stepRun]
      cases hx : exec E n cx (.tokTry r) st with
      | none => exact .refl _
      | some x =>
        cases hy : exec E k cxt (.tokTry r) st with
        | none => rw [hy] at hk; cases hk
        | some y =>
          rw [hy] at hk
          simp only [ret, Option.some.injEq, Res.mk.injEq, and_true] at hk
          have e1 := exec_mono (Nat.le_max_left n k) hx
          have e2 := exec_mono (Nat.le_max_right n k) hy
          have := cond_indep E (max n k) cx cxt (.tokTry r) st st rfl ⟨rfl, rfl⟩
          rw [e1, e2] at this
          simp only [condOf, Option.map_some, Option.some.injEq, Prod.mk.injEq] at this
          have hy' : (y.out == .ok) = false := by
            by_cases h : (y.out == .ok) = true
            · rw [if_pos h] at hk; cases hk
            · simpa using h
          simp only [this.1, hy', Bool.false_eq_true, if_false]
          exact .refl _
    case look tag l =>
      simp only [stepTry, ret, Option.some.injEq, Res.mk.injEq, and_true] at hk
      apply same
      have : (lookScan l E.eof (E.inp.drop st.pos)).1 = true := by
        by_cases h : (lookScan l E.eof (E.inp.drop st.pos)).1 = true
        · exact h
        · rw [if_neg h] at hk; cases hk
      simp only [stepFinish, stepRun, this, if_true]
      exact .refl _
    case wsn r =>
      exact absurd .refl (hh r)
    case posr r =>
      obtain ⟨m, hm⟩ := ih cx r st hl ⟨cxt, k, hk⟩ fun r' h => hh r' (.posr h)
      apply app (m := m)
      exact sim_emit _ hm
    case rep c f item sep =>
      obtain ⟨m, hm⟩ := ih cx c st hl ⟨cxt, k, hk⟩ fun r' h => hh r' (.rep h)
      apply app (m := max m n)
      refine sim_onOk' (sim_trans hm fun x hx => exec_mono (Nat.le_max_left ..) hx) fun st' => ?_
      split
      · exact .refl _
      · exact sim_onOk' (sim_framed _ (sim_mono (Nat.le_max_right _ _) _ _ _)) fun st' => sim_mono (Nat.le_max_right _ _) _ _ _
    case cntPush id r sign =>
      obtain ⟨m, hm⟩ := ih cx r st hl ⟨cxt, k, hk⟩ fun r' h => hh r' (.cntPush h)
      apply app (m := m)
      exact sim_onOk' hm fun st' => .refl _
    case flagIs => exact ⟨n + 1, .refl _⟩
    case cntIs => exact ⟨n + 1, .refl _⟩
    case cntEq tag id ids =>
      apply same
      simp only [stepTry] at hk
      simp only [stepFinish, stepRun]
      cases hc : getCounter id st.vars with
      | none => rw [hc] at hk; cases hk
      | some v =>
        rw [hc] at hk
        simp only [Option.bind_some] at hk ⊢
        split at hk
        · cases hk
        · rename_i h1
          rw [if_neg h1]
          simp only [ret, Option.some.injEq, Res.mk.injEq, and_true] at hk
          split at hk
          · cases hk
          · rename_i h2
            rw [if_neg h2]
            exact .refl _
    case idCap id p len =>
      apply same
      simp only [stepFinish, stepRun]
      cases hb : p.branch with
      | none => simp [stepTry, hb] at hk
      | some f =>
        simp only [stepTry, hb, Option.bind_some, ret, Option.some.injEq, Res.mk.injEq, and_true] at hk
        have hy : f E.inp st.pos = true := by
          by_cases h : f E.inp st.pos = true
          · exact h
          · rw [if_neg h] at hk; cases hk
        rw [p.coh f _ _ hb hy]
        exact .refl _
    case idRem id tag t =>
      apply same
      simp only [stepTry] at hk
      have hrun : (t.run (E.inp.drop st.pos)).1 = true := by
        by_cases h : (t.run (E.inp.drop st.pos)).1 = true
        · exact h
        · rw [if_neg h] at hk; cases hk
      rw [if_pos hrun] at hk
      simp only [stepFinish, stepRun, tokenParse, hrun, if_true]
      cases hi : getIdent id st.vars with
      | none => rw [hi] at hk; cases hk
      | some w =>
        rw [hi] at hk
        simp only [Option.bind_some, ret, Option.some.injEq, Res.mk.injEq, and_true] at hk
        have hw : w = (E.inp.drop st.pos).take (t.run (E.inp.drop st.pos)).2 := by
          by_cases h : w = (E.inp.drop st.pos).take (t.run (E.inp.drop st.pos)).2
          · exact h
          · rw [if_neg h] at hk; cases hk
        intro x hx
        obtain ⟨r1, e1, rfl⟩ := emit_some.1 hx
        obtain ⟨hst, hbrk⟩ := ws_st E n cx .ws _ (.inl rfl) e1
        obtain ⟨o, s1, es⟩ := r1
        simp only at hst hbrk
        have hrel : SameEvs (Ev.token t.kind st.pos (st.pos + (t.run (E.inp.drop st.pos)).2) :: es)
            (Ev.token .identifier st.pos (st.pos + (t.run (E.inp.drop st.pos)).2) :: es) :=
          .cons (.inr ⟨_, _, _, rfl, rfl⟩) (.refl _)
        cases o
        · refine ⟨⟨.ok, s1, Ev.token t.kind st.pos (st.pos + (t.run (E.inp.drop st.pos)).2) :: es ++ []⟩,
            andThen_some.2 ⟨_, ⟨.ok, s1, []⟩, emit_some.2 ⟨_, e1, rfl⟩, ?_, rfl⟩, rfl, rfl, ?_⟩
          · rw [hst]
            simp only [hi, Option.bind_some, ← hw, if_true]
          · simpa using hrel
        · refine ⟨⟨.fail, s1, Ev.token t.kind st.pos (st.pos + (t.run (E.inp.drop st.pos)).2) :: es ++ []⟩,
            andThen_some.2 ⟨_, ⟨.fail, s1, []⟩, emit_some.2 ⟨_, e1, rfl⟩, rfl, rfl⟩, rfl, rfl, ?_⟩
          simpa using hrel
        · exact absurd rfl hbrk
    all_goals exact ⟨n + 1, fun r hr => by cases hr⟩

end Verif
