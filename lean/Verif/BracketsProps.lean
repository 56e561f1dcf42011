import Verif.Brackets
import Verif.LangInv
import Verif.TermListProps
import Verif.Runs
import Verif.LiteralProps

/-
C110: terminators and brackets match their contents up to the terminator and between the brackets; what happens if the
contents are wrong.
-/

namespace Verif.Bk

open Verif.Spec (Lang)

variable {E : Env} {cx : Cx} {on : Bool} {d p q m l : Nat} {st : St} {x : Res} {n : Nat}

/-! ## What is parsed without an error -/

/-- Something between two brackets, each of which may be followed by whitespace. -/
def Spec.Between (E : Env) (w : Option Rule) (o c : Rule) (C : Nat → Nat → Prop) (p q : Nat) : Prop :=
  ∃ a b, Lang E w (.rule o false) p a ∧ C a b ∧ Lang E w (.rule c false) b q

/-- Something or nothing. -/
def Spec.Perhaps (C : Nat → Nat → Prop) (p q : Nat) : Prop := q = p ∨ C p q

theorem tryt_inv {w : Option Rule} {t r : Rule} {rc : Recov} (h : Lang E w (.rule (.tryt (some t) r rc) false) p q) :
    ∃ m, Lang E w (.rule r false) p m ∧ Lang E w (.rule t false) m q := by
  cases h with
  | token ht h hw => cases ht
  | tryT h h2 => exact ⟨_, h, h2⟩
  | context h => cases h

theorem maybe_inv {w : Option Rule} {a b : Rule} (h : Lang E w (.rule (maybeBranch E a b) false) p q) :
    ∃ m, Lang E w (.rule a false) p m ∧ Lang E w (.rule b false) m q := by
  unfold maybeBranch at h
  split at h
  · exact lang_br h
  · exact lang_seq h

theorem lst_inv {w : Option Rule} {t r : Rule} {sep : Option Sep} {limit : List Nat → Bool}
    (h : Lang E w (.rule (.lstt t r sep limit) false) p q) :
    ∃ m, (∃ N, Spec.Items E w r sep false (N + 1) p m) ∧ Lang E w (.rule t false) m q := by
  obtain ⟨a, b, h1, h2, h3⟩ := lang_lstt h
  exact ⟨b, tail_inv h2 h1, h3⟩

/-- **C110.** What `brackets(open, close)` and its forms parse without an error: the opening bracket; the rule (`operator()`,
    `try_`), the rule or nothing (`opt`), one or more items with separators (`list`), or those or nothing (`opt_list`); and
    the closing bracket. -/
theorem C110_between (hx : ExprLits E) (b : Brackets) (r : Rule) (sep : Option Sep) (hl : st.pos ≤ E.inp.length)
    (ho : x.out = .ok) (hq : ∀ ev ∈ x.evs, ev.isError = false) :
    (exec E n cx (.run (b.call E r)) st = some x →
      Spec.Between E cx.ws b.open_ b.close (Lang E cx.ws (.rule r false)) st.pos x.st.pos) ∧
    (exec E n cx (.run (b.tryIt E r)) st = some x →
      Spec.Between E cx.ws b.open_ b.close (Lang E cx.ws (.rule r false)) st.pos x.st.pos) ∧
    (exec E n cx (.run (b.opt E r)) st = some x →
      Spec.Between E cx.ws b.open_ b.close (Spec.Perhaps (Lang E cx.ws (.rule r false))) st.pos x.st.pos) ∧
    (exec E n cx (.run (b.list E r sep)) st = some x →
      Spec.Between E cx.ws b.open_ b.close (fun p q => ∃ N, Verif.Spec.Items E cx.ws r sep false (N + 1) p q) st.pos x.st.pos) ∧
    (exec E n cx (.run (b.optList E r sep)) st = some x →
      Spec.Between E cx.ws b.open_ b.close (Spec.Perhaps fun p q => ∃ N, Verif.Spec.Items E cx.ws r sep false (N + 1) p q)
        st.pos x.st.pos) := by
  refine ⟨?_, ?_, ?_, ?_, ?_⟩ <;> intro h <;> obtain ⟨a, h1, h2⟩ := lang_br (C38_rule hx hl h ho hq)
  · obtain ⟨c, h3, h4⟩ := maybe_inv h2
    exact ⟨a, c, h1, h3, h4⟩
  · obtain ⟨c, h3, h4⟩ := tryt_inv h2
    exact ⟨a, c, h1, h3, h4⟩
  · rcases lang_optt h2 with h3 | h3
    · exact ⟨a, a, h1, .inl rfl, h3⟩
    · obtain ⟨c, h4, h5⟩ := tryt_inv h3
      exact ⟨a, c, h1, .inr h4, h5⟩
  · obtain ⟨c, h3, h4⟩ := lst_inv h2
    exact ⟨a, c, h1, h3, h4⟩
  · rcases lang_optt h2 with h3 | h3
    · exact ⟨a, a, h1, .inl rfl, h3⟩
    · obtain ⟨c, h4, h5⟩ := lst_inv h3
      exact ⟨a, c, h1, .inr h4, h5⟩

/-! ## What is accepted -/

theorem does_maybe {a b : Rule} (h1 : Does E cx on d (.run a) p m) (h2 : Does E cx on d (.run b) m q) :
    Does E cx on d (.run (maybeBranch E a b)) p q := by
  unfold maybeBranch
  split
  · exact does_br h1 h2
  · exact does_seq h1 h2

theorem does_tryt {t r : Rule} {rc : Recov} (h1 : Does E cx on d (.run r) p m) (h2 : Does E cx on d (.run t) m q) :
    Does E cx on d (.run (.tryt (some t) r rc)) p q := by
  intro st hp hd ho
  obtain ⟨e1, q1, n, h1⟩ := h1 st hp hd ho
  obtain ⟨e2, q2, k, h2⟩ := h2 { st with pos := m } rfl hd ho
  refine ⟨e1 ++ e2, quiet_append.2 ⟨q1, q2⟩, max n k + 1, ?_⟩
  simp only [exec_succ, step, stepRun, andThen, exec_mono (Nat.le_max_left n k) h1, exec_mono (Nat.le_max_right n k) h2,
    Option.map_some]

/-- **C110.** What they accept without an error: with something in between; with nothing in between, for `opt` and `opt_list`,
    which look for the closing bracket before everything else; and with items, where the closing bracket is looked for behind
    every item and behind every separator. -/
theorem C110_accepted (b : Brackets) (r : Rule) (ho : Does E cx on d (.run b.open_) p m) :
    (Does E cx on d (.run r) m l → Does E cx on d (.run b.close) l q →
      Does E cx on d (.run (b.call E r)) p q ∧ Does E cx on d (.run (b.tryIt E r)) p q ∧
      (Not E b.close m → Does E cx on d (.run (b.opt E r)) p q)) ∧
    (Cond E (.btry b.close) m true → Does E cx on d (.bfinish b.close) m q →
      Does E cx on d (.run (b.opt E r)) p q ∧ ∀ sep, Does E cx on d (.run (b.optList E r sep)) p q) ∧
    (∀ s k a, Does E cx on d (.run r) m a → ListTail E cx on d b.close r s a l → Does E cx on d (.bfinish b.close) l q →
      Does E cx on d (.run (b.list E r (some (s, k)))) p q ∧
      (Not E b.close m → Does E cx on d (.run (b.optList E r (some (s, k)))) p q)) ∧
    (Items E cx on d b.close r m l → Does E cx on d (.bfinish b.close) l q → Does E cx on d (.run (b.optList E r none)) p q) := by
  refine ⟨fun h1 h2 => ⟨?_, ?_, fun hn => ?_⟩, fun h1 h2 => ⟨?_, fun sep => ?_⟩, fun s k a h1 h2 h3 => ⟨?_, fun hn => ?_⟩, fun h1 h2 => ?_⟩
  · exact does_br ho (does_maybe h1 h2)
  · exact does_br ho (does_tryt h1 h2)
  · exact does_br ho (does_optt_no hn (does_tryt h1 h2))
  · exact does_br ho (does_optt_yes h1 h2)
  · exact does_br ho (does_optt_yes h1 h2)
  · exact does_br ho (does_list h1 h2 h3)
  · exact does_br ho (does_optt_no hn (does_list h1 h2 h3))
  · exact does_br ho (does_of_reaches fun st g1 g2 g3 => reaches_optlist h1 g1 g2 g3 (h2.reaches rfl g2 g3))

/-! ## Error recovery -/

/-- One of the literals is next. -/
def Spec.Starts (ls : List (List Nat)) (s : List Nat) : Prop := ∃ w ∈ ls, w <+: s

/-- No literal contains the code unit for the end of the input. -/
def Spec.Plain (eof : Option Nat) (ls : List (List Nat)) : Prop := ∀ w ∈ ls, ∀ c ∈ w, eof ≠ some c

theorem limitHere_iff {eof : Option Nat} {ls : List (List Nat)} (h : Spec.Plain eof ls) (s : List Nat) :
    limitHere eof ls s = true ↔ Spec.Starts ls s := by
  simp only [limitHere, List.any_eq_true, Spec.Starts]
  refine exists_congr fun w => and_congr_right fun hw => ?_
  obtain ⟨b, k, h1, h2, _⟩ := C10_literal_prefix eof w s (h w hw)
  rw [h1]
  exact h2

/-- Nothing ends the recovery here: not the terminator, no limit, not the end of the input. -/
def Spec.Skipped (E : Env) (t : Rule) (ls : List (List Nat)) (p : Nat) : Prop :=
  Not E t p ∧ ¬ Spec.Starts ls (E.inp.drop p) ∧ ∃ u s, E.inp.drop p = u :: s ∧ E.eof ≠ some u

theorem chcTry_one {t : Rule} {b : Bool} (h : Cond E (.btry t) p b) : Cond E (.chcTry [t]) p b := by
  intro cx st hp
  obtain ⟨k, hk⟩ := h cx st hp
  refine ⟨k + 2, ?_⟩
  have hk' := exec_mono (Nat.le_succ k) hk
  rw [exec_succ]
  cases b <;> simp only [step, ifTry, hk'] <;> rfl

theorem chcCancel_one {t : Rule} (h : Not E t p) (cx : Cx) (st : St) (hp : st.pos = p) :
    ∃ evs, Quiet evs ∧ Exec E cx (.chcCancel [t]) st ⟨.ok, st, evs⟩ := by
  obtain ⟨e, hq, k, hk⟩ := h.2 cx st hp
  refine ⟨e, hq, k + 2, ?_⟩
  have hk' := exec_mono (Nat.le_succ k) hk
  rw [exec_succ]
  simp only [step, onOk', andThen, hk']
  simp [exec_succ, step, ret]

theorem recoLoop_skip {t : Rule} {ls : List (List Nat)} (hp : Spec.Plain E.eof ls) {b i : Nat} {y : Res} :
    ∀ {st : St}, (∀ j < i, Spec.Skipped E t ls (st.pos + j)) →
      Exec E cx (.recoLoop b (limitHere E.eof ls) [t]) { st with pos := st.pos + i } y →
      ∃ ce, Quiet ce ∧ Exec E cx (.recoLoop b (limitHere E.eof ls) [t]) st ⟨y.out, y.st, ce ++ y.evs⟩ := by
  induction i with
  | zero => intro st _ h; exact ⟨[], quiet_nil, h⟩
  | succ i ih =>
    intro st hs h
    obtain ⟨ce, hq, k, hk⟩ := ih (st := { st with pos := st.pos + 1 })
      (fun j hj => by have := hs (j + 1) (by omega); rwa [show st.pos + (j + 1) = st.pos + 1 + j by omega] at this)
      (by rw [show st.pos + (i + 1) = st.pos + 1 + i by omega] at h; exact h)
    obtain ⟨h1, h2, u, s, h3, h4⟩ := hs 0 (by omega)
    obtain ⟨k1, g1⟩ := chcTry_one h1.1 cx st rfl
    obtain ⟨e2, q2, k2, g2⟩ := chcCancel_one h1 cx st rfl
    have l0 : k ≤ max k (max k1 k2) := by omega
    have l1 : k1 ≤ max k (max k1 k2) := by omega
    have l2 : k2 ≤ max k (max k1 k2) := by omega
    refine ⟨e2 ++ ce, quiet_append.2 ⟨q2, hq⟩, max k (max k1 k2) + 1, ?_⟩
    have hb : (limitHere E.eof ls (E.inp.drop st.pos) || peekEof E.eof (E.inp.drop st.pos)) = false := by
      rw [Bool.or_eq_false_iff]
      constructor
      · exact Bool.eq_false_iff.2 fun hc => h2 ((limitHere_iff hp _).1 hc)
      · rw [show E.inp.drop st.pos = u :: s from h3]
        simpa [peekEof] using h4
    rw [exec_succ]
    simp only [step, ifTry, exec_mono l1 g1, Bool.false_eq_true, if_false, onOk', andThen, exec_mono l2 g2, hb,
      exec_mono l0 hk, Option.map_some, List.append_assoc]

/-- **C110.** Error recovery of `try_`: if the rule fails, the code units in front of the next terminator are skipped, and they
    become one error token; the terminator is parsed, and parsing goes on with the errors of the rule and no other ones. -/
theorem C110_recovered (t : Term) (r : Rule) (hp : Spec.Plain E.eof t.lim) {y : St} {es : List Ev} {i : Nat}
    (hr : Exec E cx (.run r) st ⟨.fail, y, es⟩) (hs : ∀ j < i, Spec.Skipped E t.term t.lim (y.pos + j))
    (ht : Cond E (.btry t.term) (y.pos + i) true) (hf : Does E cx y.wsOn y.depth (.bfinish t.term) (y.pos + i) q) :
    ∃ ce fe, Quiet ce ∧ Quiet fe ∧ Exec E cx (.run (t.tryIt E r)) st ⟨.ok, { y.frame st.vars.length with pos := q },
      es ++ .recStart y.pos :: (ce ++ [.token .error y.pos (y.pos + i), .recFinish (y.pos + i)] ++ fe)⟩ := by
  let z := y.frame st.vars.length
  have hz : z.pos = y.pos := rfl
  obtain ⟨k1, g1⟩ := chcTry_one ht cx { z with pos := y.pos + i } rfl
  obtain ⟨k2, g2⟩ := ht cx { z with pos := y.pos + i } rfl
  obtain ⟨fe, qf, k3, g3⟩ := hf { z with pos := y.pos + i } rfl rfl rfl
  have hend : Exec E cx (.recoLoop y.pos (limitHere E.eof t.lim) [t.term]) { z with pos := y.pos + i }
      ⟨.ok, { z with pos := q }, [.token .error y.pos (y.pos + i), .recFinish (y.pos + i)] ++ fe⟩ := by
    have l1 : k1 ≤ max k1 (max k2 k3) + 1 := by omega
    have l2 : k2 ≤ max k1 (max k2 k3) := by omega
    have l3 : k3 ≤ max k1 (max k2 k3) := by omega
    refine ⟨max k1 (max k2 k3) + 2, ?_⟩
    rw [exec_succ]
    simp only [step, ifTry, exec_mono l1 g1, if_true]
    rw [exec_succ]
    simp only [step, ifTry, exec_mono l2 g2, if_true, exec_mono l3 g3, emit, Option.map_some, skipped]
  obtain ⟨ce, qc, k, hk⟩ := recoLoop_skip (cx := cx) hp (st := z) (b := y.pos) (i := i) hs hend
  obtain ⟨k0, h0⟩ := hr
  refine ⟨ce, fe, qc, qf, max k0 (k + 1) + 1, ?_⟩
  have hk' : exec E (k + 1) cx (.recov (t.recovery E)) z = some ⟨.ok, { z with pos := q },
      .recStart y.pos :: (ce ++ [.token .error y.pos (y.pos + i), .recFinish (y.pos + i)] ++ fe)⟩ := by
    rw [exec_succ]
    simp only [step, Term.recovery, hz, hk, emit, Option.map_some, List.cons_append, List.nil_append, List.append_assoc]
  rw [exec_succ]
  simp only [Term.tryIt, step, stepRun, andThen, exec_mono (Nat.le_max_left k0 (k + 1)) h0]
  have := exec_mono (Nat.le_max_right k0 (k + 1)) hk'
  simp only [z] at this
  simp only [this, Option.map_some]

/-- **C110.** If a limit or the end of the input comes first, recovery fails there. -/
theorem C110_limited (t : Term) (r : Rule) (hp : Spec.Plain E.eof t.lim) {y : St} {es : List Ev} {i : Nat}
    (hr : Exec E cx (.run r) st ⟨.fail, y, es⟩) (hs : ∀ j < i, Spec.Skipped E t.term t.lim (y.pos + j))
    (ht : Not E t.term (y.pos + i))
    (hl : Spec.Starts t.lim (E.inp.drop (y.pos + i)) ∨ E.inp.length ≤ y.pos + i) :
    ∃ ce, Quiet ce ∧ Exec E cx (.run (t.tryIt E r)) st ⟨.fail, { y.frame st.vars.length with pos := y.pos + i },
      es ++ .recStart y.pos :: (ce ++ [.token .error y.pos (y.pos + i), .recCancel (y.pos + i)])⟩ := by
  let z := y.frame st.vars.length
  have hz : z.pos = y.pos := rfl
  obtain ⟨k1, g1⟩ := chcTry_one ht.1 cx { z with pos := y.pos + i } rfl
  obtain ⟨e2, q2, k2, g2⟩ := chcCancel_one ht cx { z with pos := y.pos + i } rfl
  have hb : (limitHere E.eof t.lim (E.inp.drop (y.pos + i)) || peekEof E.eof (E.inp.drop (y.pos + i))) = true := by
    rw [Bool.or_eq_true]
    rcases hl with h | h
    · exact .inl ((limitHere_iff hp _).2 h)
    · right; rw [List.drop_eq_nil_of_le h]; rfl
  have hend : Exec E cx (.recoLoop y.pos (limitHere E.eof t.lim) [t.term]) { z with pos := y.pos + i }
      ⟨.fail, { z with pos := y.pos + i }, e2 ++ [.token .error y.pos (y.pos + i), .recCancel (y.pos + i)]⟩ := by
    refine ⟨max k1 k2 + 1, ?_⟩
    rw [exec_succ]
    simp only [step, ifTry, exec_mono (Nat.le_max_left k1 k2) g1, Bool.false_eq_true, if_false, onOk', andThen,
      exec_mono (Nat.le_max_right k1 k2) g2, hb, if_true, Option.map_some, skipped]
  obtain ⟨ce, qc, k, hk⟩ := recoLoop_skip (cx := cx) hp (st := z) (b := y.pos) (i := i) hs hend
  obtain ⟨k0, h0⟩ := hr
  refine ⟨ce ++ e2, quiet_append.2 ⟨qc, q2⟩, max k0 (k + 1) + 1, ?_⟩
  have hk' : exec E (k + 1) cx (.recov (t.recovery E)) z = some ⟨.fail, { z with pos := y.pos + i },
      .recStart y.pos :: (ce ++ e2 ++ [.token .error y.pos (y.pos + i), .recCancel (y.pos + i)])⟩ := by
    rw [exec_succ]
    simp only [step, Term.recovery, hz, hk, emit, Option.map_some, List.cons_append, List.nil_append, List.append_assoc]
  rw [exec_succ]
  simp only [Term.tryIt, step, stepRun, andThen, exec_mono (Nat.le_max_left k0 (k + 1)) h0]
  have := exec_mono (Nat.le_max_right k0 (k + 1)) hk'
  simp only [z] at this
  simp only [this, Option.map_some]

/-- **C110.** If the rule matches, the terminator is parsed and nothing else happens, also if it fails: it is not recovered
    from a missing terminator. -/
theorem C110_no_recovery (t : Term) (r : Rule) {y : St} {es : List Ev} {z : Res} (hr : Exec E cx (.run r) st ⟨.ok, y, es⟩)
    (ht : Exec E cx (.run t.term) y z) : Exec E cx (.run (t.tryIt E r)) st ⟨z.out, z.st, es ++ z.evs⟩ := by
  obtain ⟨k0, h0⟩ := hr
  obtain ⟨k1, h1⟩ := ht
  refine ⟨max k0 k1 + 1, ?_⟩
  rw [exec_succ]
  simp only [Term.tryIt, step, stepRun, andThen, exec_mono (Nat.le_max_left k0 k1) h0, exec_mono (Nat.le_max_right k0 k1) h1,
    Option.map_some]

/-! ## The same for the other forms -/

theorem exec_br {a b : Rule} {y : Res} (h1 : Does E cx st.wsOn st.depth (.run a) st.pos m)
    (h2 : Exec E cx (.run b) { st with pos := m } y) :
    ∃ e, Quiet e ∧ Exec E cx (.run (.br a b)) st ⟨y.out, y.st, e ++ y.evs⟩ := by
  obtain ⟨e1, q1, n, h1⟩ := h1 st rfl rfl rfl
  obtain ⟨k, h2⟩ := h2
  refine ⟨e1, q1, max n k + 1, ?_⟩
  rw [exec_succ]
  simp only [step, stepRun, onOk, andThen, exec_mono (Nat.le_max_left n k) h1, exec_mono (Nat.le_max_right n k) h2, Option.map_some]

theorem exec_optt {t r : Rule} {y : Res} (h1 : Not E t st.pos) (h2 : Exec E cx (.run r) st y) :
    ∃ e, Quiet e ∧ Exec E cx (.run (.optt t r)) st ⟨y.out, y.st, e ++ y.evs⟩ := by
  obtain ⟨k0, h0⟩ := h1.1 cx st rfl
  obtain ⟨e1, q1, n, h1⟩ := h1.2 cx st rfl
  obtain ⟨k, h2⟩ := h2
  have l0 : k0 ≤ max k0 (max n k) := by omega
  have l1 : n ≤ max k0 (max n k) := by omega
  have l2 : k ≤ max k0 (max n k) := by omega
  refine ⟨e1, q1, max k0 (max n k) + 1, ?_⟩
  rw [exec_succ]
  simp only [step, stepRun, ifTry, exec_mono l0 h0, Bool.false_eq_true, if_false, onOk', andThen, exec_mono l1 h1, exec_mono l2 h2,
    Option.map_some]

/-- **C110.** Between brackets and for `opt` it is the same: whatever `try_` of the terminator does behind the opening bracket, so
    does `try_` of the brackets; and `opt`, if the closing bracket is not next. -/
theorem C110_forms (b : Brackets) (r : Rule) {y : Res} (ho : Does E cx st.wsOn st.depth (.run b.open_) st.pos m)
    (h : Exec E cx (.run ((Term.mk b.close b.lim).tryIt E r)) { st with pos := m } y) :
    (∃ e, Quiet e ∧ Exec E cx (.run (b.tryIt E r)) st ⟨y.out, y.st, e ++ y.evs⟩) ∧
    (Not E b.close m → ∃ e, Quiet e ∧ Exec E cx (.run (b.opt E r)) st ⟨y.out, y.st, e ++ y.evs⟩) := by
  refine ⟨exec_br ho h, fun hn => ?_⟩
  obtain ⟨e1, q1, h1⟩ := exec_optt (st := { st with pos := m }) hn h
  obtain ⟨e2, q2, h2⟩ := exec_br ho h1
  exact ⟨e2 ++ e1, quiet_append.2 ⟨q2, q1⟩, by rw [List.append_assoc]; exact h2⟩

theorem ltRec_skip {t r s : Rule} {k : SepKind} {ls : List (List Nat)} (hp : Spec.Plain E.eof ls) {b i : Nat} {y : Res} :
    ∀ {st : St}, (∀ j < i, Not E s (st.pos + j) ∧ Spec.Skipped E t ls (st.pos + j)) →
      Exec E cx (.ltRec b t r (some (s, k)) (limitHere E.eof ls)) { st with pos := st.pos + i } y →
      ∃ ce, Quiet ce ∧ Exec E cx (.ltRec b t r (some (s, k)) (limitHere E.eof ls)) st ⟨y.out, y.st, ce ++ y.evs⟩ := by
  induction i with
  | zero => intro st _ h; exact ⟨[], quiet_nil, h⟩
  | succ i ih =>
    intro st hs h
    obtain ⟨ce, hq, k', hk⟩ := ih (st := { st with pos := st.pos + 1 })
      (fun j hj => by have := hs (j + 1) (by omega); rwa [show st.pos + (j + 1) = st.pos + 1 + j by omega] at this)
      (by rw [show st.pos + (i + 1) = st.pos + 1 + i by omega] at h; exact h)
    obtain ⟨hS, h1, h2, u, s', h3, h4⟩ := hs 0 (by omega)
    obtain ⟨k1, g1⟩ := hS.1 cx st rfl
    obtain ⟨e2, q2, k2, g2⟩ := hS.2 cx st rfl
    obtain ⟨k3, g3⟩ := h1.1 cx st rfl
    obtain ⟨e4, q4, k4, g4⟩ := h1.2 cx st rfl
    generalize hN : max k' (max (max k1 k2) (max k3 k4)) = N
    have l0 : k' ≤ N := by omega
    have l1 : k1 ≤ N := by omega
    have l2 : k2 ≤ N := by omega
    have l3 : k3 ≤ N := by omega
    have l4 : k4 ≤ N := by omega
    refine ⟨e2 ++ (e4 ++ ce), quiet_append.2 ⟨q2, quiet_append.2 ⟨q4, hq⟩⟩, N + 1, ?_⟩
    have hb : (limitHere E.eof ls (E.inp.drop st.pos) || peekEof E.eof (E.inp.drop st.pos)) = false := by
      rw [Bool.or_eq_false_iff]
      constructor
      · exact Bool.eq_false_iff.2 fun hc => h2 ((limitHere_iff hp _).1 hc)
      · rw [show E.inp.drop st.pos = u :: s' from h3]
        simpa [peekEof] using h4
    rw [exec_succ]
    simp only [step, ifTry, exec_mono l1 g1, Bool.false_eq_true, if_false, onOk', andThen, exec_mono l2 g2, exec_mono l3 g3,
      exec_mono l4 g4, hb, exec_mono l0 hk, Option.map_some, List.append_assoc]

/-- **C110.** Error recovery of `list` with a separator, when the first item fails: code units are skipped up to the terminator,
    the first separator or the first limit or the end of the input; at the terminator the list is over, at a limit or the end
    it fails. -/
theorem C110_list (t : Term) (r s : Rule) (k : SepKind) (hp : Spec.Plain E.eof t.lim) {y : St} {es : List Ev} {i : Nat}
    (hr : Exec E cx (.run r) st ⟨.fail, y, es⟩)
    (hs : ∀ j < i, Not E s (y.pos + j) ∧ Spec.Skipped E t.term t.lim (y.pos + j)) (hS : Not E s (y.pos + i)) :
    (Cond E (.btry t.term) (y.pos + i) true → Does E cx y.wsOn y.depth (.bfinish t.term) (y.pos + i) q →
      ∃ ce fe, Quiet ce ∧ Quiet fe ∧ Exec E cx (.run (t.list E r (some (s, k)))) st ⟨.ok, { y.frame st.vars.length with pos := q },
        es ++ .recStart y.pos :: (ce ++ [.token .error y.pos (y.pos + i), .recFinish (y.pos + i)] ++ fe)⟩) ∧
    (Not E t.term (y.pos + i) → Spec.Starts t.lim (E.inp.drop (y.pos + i)) ∨ E.inp.length ≤ y.pos + i →
      ∃ ce, Quiet ce ∧ Exec E cx (.run (t.list E r (some (s, k)))) st ⟨.fail, { y.frame st.vars.length with pos := y.pos + i },
        es ++ .recStart y.pos :: (ce ++ [.token .error y.pos (y.pos + i), .recCancel (y.pos + i)])⟩) := by
  let z := y.frame st.vars.length
  have hz : z.pos = y.pos := rfl
  have hz' : (y.frame st.vars.length).pos = y.pos := rfl
  obtain ⟨k0, h0⟩ := hr
  obtain ⟨k1, g1⟩ := hS.1 cx { z with pos := y.pos + i } rfl
  obtain ⟨e2, q2, k2, g2⟩ := hS.2 cx { z with pos := y.pos + i } rfl
  refine ⟨fun ht hf => ?_, fun ht hl => ?_⟩
  · obtain ⟨k3, g3⟩ := ht cx { z with pos := y.pos + i } rfl
    obtain ⟨fe, qf, k4, g4⟩ := hf { z with pos := y.pos + i } rfl rfl rfl
    have hend : Exec E cx (.ltRec y.pos t.term r (some (s, k)) (limitHere E.eof t.lim)) { z with pos := y.pos + i }
        ⟨.ok, { z with pos := y.pos + i }, e2 ++ [.token .error y.pos (y.pos + i), .recFinish (y.pos + i)]⟩ := by
      have l1 : k1 ≤ max k1 (max k2 k3) := by omega
      have l2 : k2 ≤ max k1 (max k2 k3) := by omega
      have l3 : k3 ≤ max k1 (max k2 k3) := by omega
      refine ⟨max k1 (max k2 k3) + 1, ?_⟩
      rw [exec_succ]
      simp only [step, ifTry, exec_mono l1 g1, Bool.false_eq_true, if_false, onOk', andThen, exec_mono l2 g2, exec_mono l3 g3,
        if_true, Option.map_some, skipped]
    obtain ⟨ce, qc, k5, hk⟩ := ltRec_skip (cx := cx) hp (st := z) (b := y.pos) (i := i) hs hend
    generalize hN : max k0 (max k4 k5) = N
    have l0 : k0 ≤ N := by omega
    have l4 : k4 ≤ N := by omega
    have l5 : k5 ≤ N := by omega
    refine ⟨ce ++ e2, fe, quiet_append.2 ⟨qc, q2⟩, qf, N + 1, ?_⟩
    have hk' := exec_mono l5 hk
    have h4' := exec_mono l4 g4
    simp only [z] at hk' h4'
    rw [exec_succ]
    simp only [Term.list, step, stepRun, framed, exec_mono l0 h0, Option.map_some, andThen, hz', hk', emit, onOk', h4',
      List.append_assoc, List.cons_append, List.nil_append]
  · obtain ⟨k3, g3⟩ := ht.1 cx { z with pos := y.pos + i } rfl
    obtain ⟨e4, q4, k4, g4⟩ := ht.2 cx { z with pos := y.pos + i } rfl
    have hb : (limitHere E.eof t.lim (E.inp.drop (y.pos + i)) || peekEof E.eof (E.inp.drop (y.pos + i))) = true := by
      rw [Bool.or_eq_true]
      rcases hl with h | h
      · exact .inl ((limitHere_iff hp _).2 h)
      · right; rw [List.drop_eq_nil_of_le h]; rfl
    have hend : Exec E cx (.ltRec y.pos t.term r (some (s, k)) (limitHere E.eof t.lim)) { z with pos := y.pos + i }
        ⟨.fail, { z with pos := y.pos + i }, e2 ++ (e4 ++ [.token .error y.pos (y.pos + i), .recCancel (y.pos + i)])⟩ := by
      generalize hN : max (max k1 k2) (max k3 k4) = N
      have l1 : k1 ≤ N := by omega
      have l2 : k2 ≤ N := by omega
      have l3 : k3 ≤ N := by omega
      have l4 : k4 ≤ N := by omega
      refine ⟨N + 1, ?_⟩
      rw [exec_succ]
      simp only [step, ifTry, exec_mono l1 g1, Bool.false_eq_true, if_false, onOk', andThen, exec_mono l2 g2, exec_mono l3 g3,
        exec_mono l4 g4, hb, if_true, Option.map_some, skipped]
    obtain ⟨ce, qc, k5, hk⟩ := ltRec_skip (cx := cx) hp (st := z) (b := y.pos) (i := i) hs hend
    refine ⟨ce ++ (e2 ++ e4), quiet_append.2 ⟨qc, quiet_append.2 ⟨q2, q4⟩⟩, max k0 k5 + 1, ?_⟩
    have hk' := exec_mono (Nat.le_max_right k0 k5) hk
    simp only [z] at hk'
    rw [exec_succ]
    simp only [Term.list, step, stepRun, framed, exec_mono (Nat.le_max_left k0 k5) h0, Option.map_some, andThen, hz', hk', emit, onOk',
      List.append_assoc, List.cons_append, List.nil_append, List.append_nil]

/-- **C110.** The brackets' `list` and `opt_list` do what the terminator's `list` does behind the opening bracket; `opt_list` if the
    closing bracket is not next. -/
theorem C110_list_forms (b : Brackets) (r : Rule) (sep : Option Sep) {y : Res}
    (ho : Does E cx st.wsOn st.depth (.run b.open_) st.pos m)
    (h : Exec E cx (.run ((Term.mk b.close b.lim).list E r sep)) { st with pos := m } y) :
    (∃ e, Quiet e ∧ Exec E cx (.run (b.list E r sep)) st ⟨y.out, y.st, e ++ y.evs⟩) ∧
    (Not E b.close m → ∃ e, Quiet e ∧ Exec E cx (.run (b.optList E r sep)) st ⟨y.out, y.st, e ++ y.evs⟩) := by
  refine ⟨exec_br ho h, fun hn => ?_⟩
  obtain ⟨e1, q1, h1⟩ := exec_optt (st := { st with pos := m }) hn h
  obtain ⟨e2, q2, h2⟩ := exec_br ho h1
  exact ⟨e2 ++ e1, quiet_append.2 ⟨q2, q1⟩, by rw [List.append_assoc]; exact h2⟩

/-- **C110.** `limit` adds literals to the limit, and leaves the rest as it is. -/
theorem C110_limit (t : Term) (b : Brackets) (ls : List (List Nat)) (s : List Nat) :
    (Spec.Starts (t.limit ls).lim s ↔ Spec.Starts t.lim s ∨ Spec.Starts ls s) ∧ (t.limit ls).term = t.term ∧
    (Spec.Starts (b.limit ls).lim s ↔ Spec.Starts b.lim s ∨ Spec.Starts ls s) ∧ (b.limit ls).open_ = b.open_ ∧
    (b.limit ls).close = b.close := by
  refine ⟨?_, rfl, ?_, rfl, rfl⟩ <;>
    simp only [Term.limit, Brackets.limit, Spec.Starts, List.mem_append, or_and_right, exists_or]

/-! ## The predefined brackets -/

theorem lit_here {w : Option Rule} {eof : Option Nat} {k tag c : Nat} (hc : eof ≠ some c)
    (h : Lang E w (.rule (.tok (litTok eof k tag [c])) false) p q) : E.inp[p]? = some c := by
  obtain ⟨n, h1, -⟩ := lang_tok h
  obtain ⟨b, k, g1, g2, -⟩ := C10_literal_prefix eof [c] (E.inp.drop p) (by simpa using hc)
  simp only [litTok, PTok.of, clamp, g1, Option.getD_some] at h1
  cases h1
  have := (g2.1 rfl)
  obtain ⟨t, ht⟩ := this
  have : (E.inp.drop p)[0]? = some c := by rw [← ht]; rfl
  simpa using this

/-- **C110.** With the predefined brackets, what is parsed without an error begins with the opening one, and the closing one is
    behind the contents. -/
theorem C110_predefined {eof w : Option _} {C : Nat → Nat → Prop} (he : ∀ c, eof = some c → 128 ≤ c) :
    (Spec.Between E w (round eof).open_ (round eof).close C p q →
      ∃ a b, p ≤ a ∧ C a b ∧ b ≤ q ∧ E.inp[p]? = some 40 ∧ E.inp[b]? = some 41) ∧
    (Spec.Between E w (square eof).open_ (square eof).close C p q →
      ∃ a b, p ≤ a ∧ C a b ∧ b ≤ q ∧ E.inp[p]? = some 91 ∧ E.inp[b]? = some 93) ∧
    (Spec.Between E w (curly eof).open_ (curly eof).close C p q →
      ∃ a b, p ≤ a ∧ C a b ∧ b ≤ q ∧ E.inp[p]? = some 123 ∧ E.inp[b]? = some 125) ∧
    (Spec.Between E w (angle eof).open_ (angle eof).close C p q →
      ∃ a b, p ≤ a ∧ C a b ∧ b ≤ q ∧ E.inp[p]? = some 60 ∧ E.inp[b]? = some 62) := by
  refine ⟨?_, ?_, ?_, ?_⟩ <;> rintro ⟨a, b, h1, h2, h3⟩ <;>
    refine ⟨a, b, lang_le h1, h2, lang_le h3, lit_here ?_ h1, lit_here ?_ h3⟩ <;> intro e <;>
    have := he _ e <;> omega

/-! ## Non-trivial cases -/

/-- `[1]`, `[]` with `opt`, `[1,2]` with `list`. -/
example : Ex.obs (exec (Ex.env [91, 49, 93] Ex.lists) 20 {} (.run ((square none).call (Ex.env [91, 49, 93] Ex.lists) Ex.digit)) { pos := 0 }) =
      some (.ok, 3, [.token (.user 1) 0 1, .token (.user 4) 1 2, .token (.user 2) 2 3]) ∧
    Ex.obs (exec (Ex.env [91, 93] Ex.lists) 20 {} (.run ((square none).opt (Ex.env [91, 93] Ex.lists) Ex.digit)) { pos := 0 }) =
      some (.ok, 2, [.token (.user 1) 0 1, .token (.user 2) 1 2]) ∧
    Ex.obs (exec (Ex.env [91, 49, 44, 50, 93] Ex.lists) 20 {} (.run ((square none).list (Ex.env [91, 49, 44, 50, 93] Ex.lists) Ex.digit
      (some (Ex.comma, .sep 22)))) { pos := 0 }) =
      some (.ok, 5, [.token (.user 1) 0 1, .token (.user 4) 1 2, .token (.user 3) 2 3, .token (.user 4) 3 4, .token (.user 2) 4 5]) := by
  refine ⟨?_, ?_, ?_⟩ <;> decide +kernel

/-- `(ab)` with `try_`: the digit is missing, what is there is skipped; `(a;b)` with the limit `;`: recovery fails. -/
example : Ex.obs (exec (Ex.env [40, 97, 98, 41] Ex.lists) 20 {} (.run ((round none).tryIt (Ex.env [40, 97, 98, 41] Ex.lists) Ex.digit)) { pos := 0 }) =
      some (.ok, 4, [.token (.user 1) 0 1, .token .error 1 1, .error 14 1 1, .recStart 1, .token .error 1 3, .recFinish 3,
        .token (.user 2) 3 4]) ∧
    Ex.obs (exec (Ex.env [40, 97, 59, 98, 41] Ex.lists) 20 {}
      (.run (((round none).limit [[59]]).tryIt (Ex.env [40, 97, 59, 98, 41] Ex.lists) Ex.digit)) { pos := 0 }) =
      some (.fail, 2, [.token (.user 1) 0 1, .token .error 1 1, .error 14 1 1, .recStart 1, .token .error 1 2, .recCancel 2]) := by
  refine ⟨?_, ?_⟩ <;> decide +kernel

end Verif.Bk
