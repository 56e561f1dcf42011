import Verif.Accept

/-
How to show that a rule reports an error (C81): the counterpart of Accept.lean.
-/

namespace Verif

/-- If this is a result, it has an error. -/
def Bad (x : Option Res) : Prop := ∀ r, x = some r → ∃ ev ∈ r.evs, ev.isError = true

/-- The command reports an error at `p`, whatever else is in the state. -/
def Errs (E : Env) (cx : Cx) (on : Bool) (d : Nat) (c : Cmd) (p : Nat) : Prop :=
  ∀ (k : Nat) (st : St), st.pos = p → st.depth = d → st.wsOn = on → Bad (exec E k cx c st)

theorem bad_left {x : Option Res} {f : Out → St → Option Res} (h : Bad x) : Bad (andThen x f) := by
  intro r hr
  unfold andThen at hr
  split at hr
  · cases hr
  · rename_i r1
    obtain ⟨r2, -, rfl⟩ := Option.map_eq_some_iff.1 hr
    obtain ⟨ev, h1, h2⟩ := h r1 rfl
    exact ⟨ev, List.mem_append_left _ h1, h2⟩

theorem bad_right {x : Option Res} {f : Out → St → Option Res} {st : St} (hx : ∀ r, x = some r → r.out = .ok ∧ r.st = st)
    (h : Bad (f .ok st)) : Bad (andThen x f) := by
  intro r hr
  unfold andThen at hr
  split at hr
  · cases hr
  · rename_i r1
    obtain ⟨r2, h1, rfl⟩ := Option.map_eq_some_iff.1 hr
    obtain ⟨e1, e2⟩ := hx r1 rfl
    rw [e1, e2] at h1
    obtain ⟨ev, h1, h2⟩ := h r2 h1
    exact ⟨ev, List.mem_append_right _ h1, h2⟩

theorem bad_framed {x : Option Res} {n : Nat} (h : Bad x) : Bad (framed n x) := by
  intro r hr
  obtain ⟨r2, h1, rfl⟩ := Option.map_eq_some_iff.1 hr
  exact h r2 h1

theorem bad_emit {x : Option Res} {evs : List Ev} (h : Bad x) : Bad (emit evs x) := by
  intro r hr
  obtain ⟨r2, h1, rfl⟩ := Option.map_eq_some_iff.1 hr
  obtain ⟨ev, h1, h2⟩ := h r2 h1
  exact ⟨ev, List.mem_append_right _ h1, h2⟩

theorem bad_yes {rec : Cx → Cmd → St → Option Res} {cx : Cx} {c : Cmd} {st : St} {yes no : Option Res}
    (h : ∀ r, rec cx c st = some r → r.out = .ok) (hy : Bad yes) : Bad (ifTry rec cx c st yes no) := by
  unfold ifTry
  split
  · nofun
  · exact hy
  · rename_i r hn hr
    obtain ⟨o, s, e⟩ := r
    cases h _ hr
    exact absurd rfl (hn s e)

theorem bad_no {rec : Cx → Cmd → St → Option Res} {cx : Cx} {c : Cmd} {st : St} {yes no : Option Res}
    (h : ∀ r, rec cx c st = some r → r.out ≠ .ok) (hn : Bad no) : Bad (ifTry rec cx c st yes no) := by
  unfold ifTry
  split
  · nofun
  · rename_i hr
    exact absurd rfl (h _ hr)
  · exact hn

section
variable {E : Env} {cx : Cx} {on : Bool} {d p q m : Nat}

theorem exec_det {c : Cmd} {st : St} {r r' : Res} {k : Nat} (h : Exec E cx c st r) (h' : exec E k cx c st = some r') : r' = r := by
  obtain ⟨n, h⟩ := h
  have h1 := exec_mono (Nat.le_max_left n k) h
  have h2 := exec_mono (Nat.le_max_right n k) h'
  rw [h1] at h2
  exact (Option.some.inj h2).symm

theorem does_det {c : Cmd} (h : Does E cx on d c p q) {st : St} (h1 : st.pos = p) (h2 : st.depth = d) (h3 : st.wsOn = on) {k : Nat} :
    ∀ r, exec E k cx c st = some r → r.out = .ok ∧ r.st = { st with pos := q } := by
  intro r hr
  obtain ⟨e, -, h⟩ := h st h1 h2 h3
  cases exec_det h hr
  exact ⟨rfl, rfl⟩

theorem cond_det {c : Cmd} {b : Bool} (h : Cond E c p b) {st : St} (h1 : st.pos = p) {k : Nat} :
    ∀ r, exec E k cx c st = some r → r.out = if b then .ok else .fail := by
  intro r hr
  cases exec_det (h cx st h1) hr
  rfl

theorem not_det {x : Rule} (h : Not E x p) {st : St} (h1 : st.pos = p) {k : Nat} :
    ∀ r, exec E k cx (.bcancel x) st = some r → r.out = .ok ∧ r.st = st := by
  intro r hr
  obtain ⟨e, -, h⟩ := h.2 cx st h1
  cases exec_det h hr
  exact ⟨rfl, rfl⟩

/-- One step. -/
theorem errs_step {c : Cmd} (h : ∀ (k : Nat) (st : St), st.pos = p → st.depth = d → st.wsOn = on → Bad (step E (exec E k) cx c st)) :
    Errs E cx on d c p := by
  intro k st h1 h2 h3
  cases k with
  | zero => nofun
  | succ k => exact h k st h1 h2 h3

theorem errs_seq_left {a b : Rule} (h : Errs E cx on d (.run a) p) : Errs E cx on d (.run (.seq a b)) p :=
  errs_step fun k st h1 h2 h3 => by
    simp only [step, stepRun, onOk]
    exact bad_left (h k st h1 h2 h3)

theorem errs_seq_right {a b : Rule} (ha : Does E cx on d (.run a) p m) (h : Errs E cx on d (.run b) m) :
    Errs E cx on d (.run (.seq a b)) p :=
  errs_step fun k st h1 h2 h3 => by
    simp only [step, stepRun, onOk]
    exact bad_right (does_det ha h1 h2 h3) (h k { st with pos := m } rfl h2 h3)

theorem errs_fin_br {a b : Rule} (ha : Does E cx on d (.bfinish a) p m) (h : Errs E cx on d (.run b) m) :
    Errs E cx on d (.bfinish (.br a b)) p :=
  errs_step fun k st h1 h2 h3 => by
    simp only [step, stepFinish, onOk]
    exact bad_right (does_det ha h1 h2 h3) (h k { st with pos := m } rfl h2 h3)

theorem errs_choice {rs : List Rule} {r : Rule} {pre post : List Rule} (hr : rs = pre ++ r :: post)
    (hp : ∀ x ∈ pre, Not E x p) (h : Cond E (.btry r) p true) (hf : Errs E cx on d (.bfinish r) p) :
    Errs E cx on d (.run (.chc rs)) p := by
  subst hr
  have key : Errs E cx on d (.chcRun (pre ++ r :: post)) p := by
    induction pre with
    | nil => exact errs_step fun k st h1 h2 h3 => bad_yes (cond_det h h1) (hf k st h1 h2 h3)
    | cons x pre ih =>
      refine errs_step fun k st h1 h2 h3 => bad_no ?_ ?_
      · intro r' hr'
        rw [cond_det (hp x (by simp)).1 h1 r' hr']
        nofun
      · exact bad_right (not_det (hp x (by simp)) h1) (ih (fun y hy => hp y (by simp [hy])) k st h1 h2 h3)
  exact errs_step fun k st h1 h2 h3 => key k st h1 h2 h3

theorem errs_optt {t r : Rule} (h : Not E t p) (hr : Errs E cx on d (.run r) p) : Errs E cx on d (.run (.optt t r)) p := by
  refine errs_step fun k st h1 h2 h3 => bad_no ?_ ?_
  · intro r' hr'
    rw [cond_det h.1 h1 r' hr']
    nofun
  · exact bad_right (not_det h h1) (hr k st h1 h2 h3)

theorem errs_prod {n : Nat} (hs : (E.prods n).ws = none) (h : Errs E (cx.sub (E.prods n)) on d (.run (E.prods n).rule) p) :
    Errs E cx on d (.run (.prod n)) p := by
  refine errs_step fun k st h1 h2 h3 => ?_
  simp only [step, stepRun, hs, Option.isSome_none, Bool.false_eq_true, if_false]
  exact bad_emit (bad_left (bad_framed (h k { st with ex := {} } h1 h2 h3)))

theorem errs_fin_prod {n : Nat} (h : Errs E (cx.sub (E.prods n)) on d (.bfinish (E.prods n).rule) p) :
    Errs E cx on d (.bfinish (.prod n)) p :=
  errs_step fun k st h1 h2 h3 => bad_emit (bad_left (bad_framed (h k { st with ex := {} } h1 h2 h3)))

theorem errs_recu {n tag : Nat} {b : Bool} (h : d < cx.maxDepth → Errs E cx on (d + 1) (.run (.prod n)) p) :
    Errs E cx on d (.run (.recu n tag b)) p := by
  refine errs_step fun k st h1 h2 h3 => ?_
  simp only [step, stepRun, deeper]
  split
  · nofun
  · split
    · intro r hr
      cases hr
      exact ⟨_, List.mem_singleton.2 rfl, rfl⟩
    · exact bad_left (h (by omega) k { st with depth := st.depth + 1 } h1 (by simp only [h2]) h3)

/-- The rest of a list behind an item: some separators and items, and then an item that reports an error. -/
inductive BadTail (E : Env) (cx : Cx) (on : Bool) (d : Nat) (term item sep : Rule) : Nat → Prop
  | here {p m : Nat} (h : Not E term p) (hs : Does E cx on d (.run sep) p m) (ht : Cond E (.btry term) m false)
      (hi : Errs E cx on d (.run item) m) : BadTail E cx on d term item sep p
  | next {p m l : Nat} (h : Not E term p) (hs : Does E cx on d (.run sep) p m) (ht : Cond E (.btry term) m false)
      (hi : Does E cx on d (.run item) m l) (hl : BadTail E cx on d term item sep l) : BadTail E cx on d term item sep p

theorem framed_det {x : Option Res} {st : St} {q : Nat} (h : ∀ r, x = some r → r.out = .ok ∧ r.st = { st with pos := q }) :
    ∀ r, framed st.vars.length x = some r → r.out = .ok ∧ r.st = { st with pos := q } := by
  intro r hr
  obtain ⟨r2, h1, rfl⟩ := Option.map_eq_some_iff.1 hr
  obtain ⟨e1, e2⟩ := h r2 h1
  refine ⟨e1, ?_⟩
  simp only [e2]
  simp [St.frame]

/-- Behind the separator. -/
theorem errs_item {term item sep : Rule} {k : SepKind} {limit : List Nat → Bool} (h : Not E term p) (hs : Does E cx on d (.run sep) p m)
    (ht : Cond E (.btry term) m false) (hi : Errs E cx on d (.ltItem term item (some (sep, k)) limit) m) :
    Errs E cx on d (.ltTerm term item (some (sep, k)) limit) p := by
  refine errs_step fun j st h1 h2 h3 => bad_no ?_ ?_
  · intro r' hr'
    rw [cond_det h.1 h1 r' hr']
    nofun
  · refine bad_right (not_det h h1) ?_
    refine errs_step (p := p) (d := d) (on := on) (fun j st h1 h2 h3 => ?_) j st h1 h2 h3
    simp only [step]
    refine bad_right (framed_det (does_det hs h1 h2 h3)) ?_
    refine errs_step (p := m) (d := d) (on := on) (fun j st h1 h2 h3 => ?_) j _ rfl h2 h3
    refine bad_no ?_ (hi j st h1 h2 h3)
    intro r' hr'
    rw [cond_det ht h1 r' hr']
    nofun

theorem errs_tail {term item sep : Rule} {k : SepKind} {limit : List Nat → Bool} (h : BadTail E cx on d term item sep p) :
    Errs E cx on d (.ltTerm term item (some (sep, k)) limit) p := by
  induction h with
  | here h hs ht hi =>
    refine errs_item h hs ht (errs_step fun j st h1 h2 h3 => ?_)
    simp only [step]
    exact bad_left (bad_framed (hi j st h1 h2 h3))
  | next h hs ht hi hl ih =>
    refine errs_item h hs ht (errs_step fun j st h1 h2 h3 => ?_)
    simp only [step]
    exact bad_right (framed_det (does_det hi h1 h2 h3)) (ih j { st with pos := _ } rfl h2 h3)

theorem errs_list_first {term item sep : Rule} {k : SepKind} {limit : List Nat → Bool} (h1 : Errs E cx on d (.run item) p) :
    Errs E cx on d (.run (.lstt term item (some (sep, k)) limit)) p :=
  errs_step fun j st g1 g2 g3 => by
    simp only [step, stepRun, onOk']
    exact bad_left (bad_left (bad_framed (h1 j st g1 g2 g3)))

theorem errs_list_tail {term item sep : Rule} {k : SepKind} {limit : List Nat → Bool} (h1 : Does E cx on d (.run item) p m)
    (h2 : BadTail E cx on d term item sep m) : Errs E cx on d (.run (.lstt term item (some (sep, k)) limit)) p :=
  errs_step fun j st g1 g2 g3 => by
    simp only [step, stepRun, onOk']
    exact bad_left (bad_right (framed_det (does_det h1 g1 g2 g3)) (errs_tail h2 j { st with pos := _ } rfl g2 g3))

end
end Verif
