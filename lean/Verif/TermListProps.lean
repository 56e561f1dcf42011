import Verif.ListProps

/-
C60: terminated lists.
-/

namespace Verif

open Spec

/-! ### What happens in a terminated list -/

/-- An item was parsed; a separator was parsed, from this position; neither: a branch is cancelled, a separator is reported,
    errors are recovered from. -/
inductive Spec.LStep
  | item (evs : List Ev)
  | sep (ok : Bool) (b : Nat) (evs : List Ev)
  | other (evs : List Ev)

def Spec.LStep.evs : LStep → List Ev
  | .item e | .sep _ _ e | .other e => e

/-- The events of error recovery. -/
def Spec.IsRecovery : Ev → Prop
  | .recStart _ | .recFinish _ | .recCancel _ | .token .error _ _ | .error .. => True
  | _ => False

/-- The rule is parsed, or as a branch taken and parsed. -/
def Spec.Attempt (E : Env) (cx : Cx) (r : Rule) (st : St) (y : Res) : Prop :=
  Exec E cx (.run r) st y ∨ (Takes E r st ∧ Exec E cx (.bfinish r) st y)

/-- The steps, one after the other; what is skipped is not looked at. -/
inductive Spec.LSteps (E : Env) (cx : Cx) (item : Rule) (sep : Option Sep) : List LStep → St → St → Prop
  | nil {st : St} : LSteps E cx item sep [] st st
  | item {st st' : St} {y : Res} {ss : List LStep} (h : Attempt E cx item st y)
      (h' : LSteps E cx item sep ss (y.st.frame st.vars.length) st') : LSteps E cx item sep (.item y.evs :: ss) st st'
  | sep {st st' : St} {y : Res} {s : Rule} {k : SepKind} {ss : List LStep} (hs : sep = some (s, k)) (h : Attempt E cx s st y)
      (h' : LSteps E cx item sep ss (y.st.frame st.vars.length) st') :
      LSteps E cx item sep (.sep (y.out == .ok) st.pos y.evs :: ss) st st'
  | other {st st1 st' : St} {evs : List Ev} {ss : List LStep} (hp : st.pos ≤ st1.pos) (hv : st1.vars = st.vars)
      (he : (∃ p, CancelTr E.inp.length p evs) ∨ ∀ ev ∈ evs, IsRecovery ev) (h' : LSteps E cx item sep ss st1 st') :
      LSteps E cx item sep (.other evs :: ss) st st'

/-- Whether an item may be parsed: not directly behind an item, behind a separator, or because an error was reported. -/
inductive Spec.Arm
  | need
  | free
  | sepd (b : Nat)
  deriving DecidableEq

/-- One step; `none` if it parses an item that is neither separated from the previous one nor reported. -/
def Spec.armStep (noSep : Bool) : Arm → LStep → Option Arm
  | a, .item evs => if a = .need ∧ noSep = false then none else some (if evs.any Ev.isError then .free else .need)
  | a, .sep ok b evs => some (if ok then .sepd b else if evs.any Ev.isError then .free else a)
  | .need, .other evs => some (if evs.any Ev.isError then .free else .need)
  | a, .other _ => some a

def Spec.arm (noSep : Bool) : Arm → List LStep → Option Arm
  | a, [] => some a
  | a, s :: ss => (armStep noSep a s).bind (arm noSep · ss)

/-- A list that ends with a separator that may not be trailing reports it, over its range. -/
def Spec.EndReported (sep : Option Sep) (a : Arm) (ss : List LStep) (q : Nat) : Prop :=
  ∀ s tag b, sep = some (s, .sep tag) → a = .sepd b → ∃ ss', ss = ss' ++ [.other [.error tag b q]]

/-- The loop: it ends in front of the terminator, or it gives up, at the end of the input or where it should not go on. -/
def LtSpec (E : Env) (cx : Cx) (term item : Rule) (sep : Option Sep) (limit : List Nat → Bool) (a : Arm) (st : St) (x : Res) : Prop :=
  ∃ ss a', LSteps E cx item sep ss st x.st ∧ arm sep.isNone a ss = some a' ∧ x.evs = ss.flatMap LStep.evs ∧ x.st.pos ≤ E.inp.length ∧
    ((x.out = .ok ∧ Takes E term x.st ∧ EndReported sep a' ss x.st.pos) ∨
      (x.out = .fail ∧ Leaves E term x.st ∧
        (limit (E.inp.drop x.st.pos) = true ∨ peekEof E.eof (E.inp.drop x.st.pos) = true) ∧
        ∃ pre b, x.evs = pre ++ [.token .error b x.st.pos, .recCancel x.st.pos]))

section
variable {E : Env} {cx : Cx} {term item : Rule} {sep : Option Sep} {limit : List Nat → Bool}

theorem LtSpec.cons {a a1 : Arm} {s : LStep} {st st1 : St} {r x : Res} (ha : armStep sep.isNone a s = some a1)
    (hs : ∀ {ss st'}, LSteps E cx item sep ss st1 st' → LSteps E cx item sep (s :: ss) st st')
    (h : LtSpec E cx term item sep limit a1 st1 r) (hx : x = ⟨r.out, r.st, s.evs ++ r.evs⟩) :
    LtSpec E cx term item sep limit a st x := by
  obtain ⟨ss, a', h1, h2, h3, hl, h4⟩ := h
  subst hx
  refine ⟨s :: ss, a', hs h1, by simp only [arm, ha, Option.bind_some, h2], by simp [h3], hl, ?_⟩
  rcases h4 with ⟨h5, h6, h7⟩ | ⟨h5, h6, h7, pre, b, h8⟩
  · refine .inl ⟨h5, h6, fun s' tag b hsep hb => ?_⟩
    obtain ⟨ss', h9⟩ := h7 s' tag b hsep hb
    exact ⟨s :: ss', by rw [h9]; rfl⟩
  · exact .inr ⟨h5, h6, h7, s.evs ++ pre, b, by simp [h8]⟩

theorem arm_other_free {b : Bool} {evs : List Ev} : armStep b .free (.other evs) = some .free := rfl

theorem arm_other_keep {b : Bool} {a : Arm} {evs : List Ev} (he : ∀ ev ∈ evs, ev.isError = false) : armStep b a (.other evs) = some a := by
  cases a with
  | need =>
    have : evs.any Ev.isError = false := by rw [List.any_eq_false]; exact fun ev h => by simp [he ev h]
    simp [armStep, this]
  | free => rfl
  | sepd b => rfl

theorem CancelTr.quiet {len p : Nat} {evs : List Ev} (h : CancelTr len p evs) : ∀ ev ∈ evs, ev.isError = false := by
  induction h with
  | nil => nofun
  | backtracked => intro ev h; rw [List.mem_singleton] at h; subst h; rfl
  | prod _ ih =>
    intro ev h
    rcases List.mem_cons.1 h with rfl | h
    · rfl
    · rcases List.mem_append.1 h with h | h
      · exact ih ev h
      · rw [List.mem_singleton] at h; subst h; rfl
  | append _ _ ih1 ih2 => intro ev h; exact (List.mem_append.1 h).elim (ih1 ev) (ih2 ev)

/-- A cancelled branch. -/
theorem LtSpec.cancelled {a : Arm} {st : St} {r x : Res} {ce : List Ev} {p : Nat} (hc : CancelTr E.inp.length p ce)
    (h : LtSpec E cx term item sep limit a st r) (hx : x = ⟨r.out, r.st, ce ++ r.evs⟩) : LtSpec E cx term item sep limit a st x :=
  .cons (s := .other ce) (arm_other_keep (CancelTr.quiet hc)) (fun h => .other (Nat.le_refl _) rfl (.inl ⟨_, hc⟩) h) h hx

/-- The start and the end of error recovery. -/
theorem LtSpec.recovery {a : Arm} {st : St} {r x : Res} {evs : List Ev} (hc : ∀ ev ∈ evs, IsRecovery ev ∧ ev.isError = false)
    (h : LtSpec E cx term item sep limit a st r) (hx : x = ⟨r.out, r.st, evs ++ r.evs⟩) : LtSpec E cx term item sep limit a st x :=
  .cons (s := .other evs) (arm_other_keep fun ev h => (hc ev h).2) (fun h => .other (Nat.le_refl _) rfl (.inr fun ev h => (hc ev h).1) h) h hx

/-- A code unit that is skipped. -/
theorem LtSpec.skip {a : Arm} {st st1 : St} {r : Res} (hp : st.pos ≤ st1.pos) (hv : st1.vars = st.vars)
    (h : LtSpec E cx term item sep limit a st1 r) : LtSpec E cx term item sep limit a st r :=
  .cons (s := .other []) (arm_other_keep nofun) (fun h => .other hp hv (.inr nofun) h) h rfl

theorem skipped_recovery {b : Nat} {st : St} {ok : Bool} : ∀ ev ∈ skipped b st ok, IsRecovery ev ∧ ev.isError = false := by
  intro ev h
  simp only [skipped, List.mem_cons, List.not_mem_nil, or_false] at h
  rcases h with rfl | rfl
  · exact ⟨trivial, rfl⟩
  · cases ok <;> exact ⟨trivial, rfl⟩

theorem start_recovery {p : Nat} : ∀ ev ∈ [Ev.recStart p], IsRecovery ev ∧ ev.isError = false := by
  intro ev h
  rw [List.mem_singleton] at h
  subst h
  exact ⟨trivial, rfl⟩

/-- An item. -/
theorem LtSpec.itemStep {a : Arm} {st : St} {y r x : Res} (ha : a ≠ .need ∨ sep = none) (h : Attempt E cx item st y)
    (h' : LtSpec E cx term item sep limit (if y.evs.any Ev.isError then .free else .need) (y.st.frame st.vars.length) r)
    (hx : x = ⟨r.out, r.st, y.evs ++ r.evs⟩) : LtSpec E cx term item sep limit a st x := by
  refine .cons (s := .item y.evs) ?_ (fun hs => .item h hs) h' hx
  rcases ha with ha | rfl
  · simp [armStep, ha]
  · simp [armStep]

/-- A separator. -/
theorem LtSpec.sepOk {a : Arm} {st : St} {y r x : Res} {s : Rule} {k : SepKind} (hs : sep = some (s, k)) (h : Attempt E cx s st y)
    (ho : y.out = .ok) (h' : LtSpec E cx term item sep limit (.sepd st.pos) (y.st.frame st.vars.length) r)
    (hx : x = ⟨r.out, r.st, y.evs ++ r.evs⟩) : LtSpec E cx term item sep limit a st x := by
  refine .cons (s := .sep (y.out == .ok) st.pos y.evs) ?_ (fun hl => .sep hs h hl) h' hx
  simp [armStep, ho]

theorem attempt_fail {r : Rule} {st : St} {y : Res} (hl : st.pos ≤ E.inp.length) (h : Attempt E cx r st y) (ho : y.out = .fail) :
    y.evs.any Ev.isError = true := by
  cases he : y.evs.any Ev.isError with
  | true => rfl
  | false =>
    have hq : Quiet y.evs := fun ev hev => by simpa using List.any_eq_false.1 he ev hev
    rcases h with ⟨n, h⟩ | ⟨_, n, h⟩
    · exact absurd ho (run_fail hl h hq)
    · exact absurd ho (fin_fail hl h hq)

theorem attempt_le {r : Rule} {st : St} {y : Res} (hl : st.pos ≤ E.inp.length) (h : Attempt E cx r st y) : y.st.pos ≤ E.inp.length := by
  rcases h with ⟨n, h⟩ | ⟨_, n, h⟩
  · exact run_le hl h
  · exact fin_le hl h

theorem LtSpec.sepFail {a : Arm} {st : St} {y r x : Res} {s : Rule} {k : SepKind} (hs : sep = some (s, k)) (h : Attempt E cx s st y)
    (hl : st.pos ≤ E.inp.length) (ho : y.out = .fail) (h' : LtSpec E cx term item sep limit .free (y.st.frame st.vars.length) r)
    (hx : x = ⟨r.out, r.st, y.evs ++ r.evs⟩) : LtSpec E cx term item sep limit a st x := by
  refine .cons (s := .sep (y.out == .ok) st.pos y.evs) ?_ (fun hl => .sep hs h hl) h' hx
  simp [armStep, ho, attempt_fail hl h ho]

/-- All commands of the loop. -/
structure LtHyp (E : Env) (cx : Cx) (term item : Rule) (sep : Option Sep) (limit : List Nat → Bool) (n : Nat) : Prop where
  hterm : ∀ (a : Arm) (st : St) (x : Res), st.pos ≤ E.inp.length → (∀ b, a ≠ .sepd b) →
    exec E n cx (.ltTerm term item sep limit) st = some x → LtSpec E cx term item sep limit a st x
  hsep : ∀ (a : Arm) (st : St) (x : Res), st.pos ≤ E.inp.length →
    exec E n cx (.ltSep term item sep limit) st = some x → LtSpec E cx term item sep limit a st x
  htrail : ∀ (b : Nat) (st : St) (x : Res), st.pos ≤ E.inp.length →
    exec E n cx (.ltTrail b term item sep limit) st = some x → LtSpec E cx term item sep limit (.sepd b) st x
  hitem : ∀ (a : Arm) (st : St) (x : Res), st.pos ≤ E.inp.length → a ≠ .need ∨ sep = none →
    exec E n cx (.ltItem term item sep limit) st = some x → LtSpec E cx term item sep limit a st x
  hrecover : ∀ (b : Nat) (st : St) (x : Res), st.pos ≤ E.inp.length →
    exec E n cx (.ltRec b term item sep limit) st = some x → LtSpec E cx term item sep limit .free st x

theorem arm_item {evs : List Ev} : ∀ b, (if evs.any Ev.isError then Arm.free else .need) ≠ .sepd b := by
  intro b; split <;> nofun

/-- What is done after an item was attempted. -/
theorem lt_after_item {n : Nat} (H : LtHyp E cx term item sep limit n) {a : Arm} {st : St} {y x : Res} (hl : st.pos ≤ E.inp.length)
    (ha : a ≠ .need ∨ sep = none) (hy : Attempt E cx item st y) {r2 : Res}
    (h : (match y.out with
      | .brk => none
      | .ok => exec E n cx (.ltTerm term item sep limit) (y.st.frame st.vars.length)
      | .fail => emit [.recStart y.st.pos] (exec E n cx (.ltRec y.st.pos term item sep limit) (y.st.frame st.vars.length))) = some r2)
    (hx : x = ⟨r2.out, r2.st, y.evs ++ r2.evs⟩) : LtSpec E cx term item sep limit a st x := by
  have hl1 : (y.st.frame st.vars.length).pos ≤ E.inp.length := attempt_le hl hy
  refine .itemStep ha hy ?_ hx
  split at h
  · cases h
  · exact H.hterm _ _ _ hl1 arm_item h
  · rename_i ho
    obtain ⟨r3, h1, h2⟩ := emit_some.1 h
    rw [attempt_fail hl hy ho]
    exact .recovery start_recovery (H.hrecover _ _ _ hl1 h1) h2

theorem lt_after_sep {n : Nat} (H : LtHyp E cx term item sep limit n) {a : Arm} {st : St} {y x : Res} {s : Rule} {k : SepKind}
    (hs : sep = some (s, k)) (hl : st.pos ≤ E.inp.length) (hy : Attempt E cx s st y) {r2 : Res}
    (h : (match y.out with
      | .brk => none
      | .ok => exec E n cx (.ltTrail st.pos term item sep limit) (y.st.frame st.vars.length)
      | .fail => emit [.recStart y.st.pos] (exec E n cx (.ltRec y.st.pos term item sep limit) (y.st.frame st.vars.length))) = some r2)
    (hx : x = ⟨r2.out, r2.st, y.evs ++ r2.evs⟩) : LtSpec E cx term item sep limit a st x := by
  have hl1 : (y.st.frame st.vars.length).pos ≤ E.inp.length := attempt_le hl hy
  split at h
  · cases h
  · rename_i ho
    exact .sepOk hs hy ho (H.htrail _ _ _ hl1 h) hx
  · rename_i ho
    obtain ⟨r3, h1, h2⟩ := emit_some.1 h
    exact .sepFail hs hy hl ho (.recovery start_recovery (H.hrecover _ _ _ hl1 h1) h2) hx

theorem lt_give_up {n : Nat} (H : LtHyp E cx term item sep limit n) {b : Nat} {st : St} {x : Res} (hl : st.pos ≤ E.inp.length)
    (h : ifTry (exec E n) cx (.btry term) st (some ⟨.ok, st, skipped b st true⟩)
        (onOk' (exec E n cx (.bcancel term) st) fun st2 =>
          if limit (E.inp.drop st2.pos) || peekEof E.eof (E.inp.drop st2.pos) then
            some ⟨.fail, st2, skipped b st2 false⟩
          else exec E n cx (.ltRec b term item sep limit) { st2 with pos := st2.pos + 1 }) = some x) :
    LtSpec E cx term item sep limit .free st x := by
  rcases ifTry_some hl h with ⟨ht, h1⟩ | ⟨ht, h1⟩
  · cases h1
    exact .recovery (skipped_recovery (b := b) (st := st) (ok := true)) (r := ⟨.ok, st, []⟩) ⟨[], _, .nil, rfl, rfl, hl, .inl ⟨rfl, ht, nofun⟩⟩ (by simp)
  · rcases onOk'_some h1 with ⟨st1, e1, r2, h2, h3, rfl⟩ | ⟨h2, h3⟩
    · obtain ⟨h4, h5⟩ := cancel_out hl h2
      cases h4
      refine .cancelled h5 ?_ rfl
      split at h3
      · rename_i hlim
        cases h3
        refine ⟨[.other (skipped b st false)], _, .other (Nat.le_refl _) rfl (.inr fun ev h => (skipped_recovery ev h).1) .nil,
          rfl, by simp [LStep.evs], hl, .inr ⟨rfl, ht, by simpa using hlim, [], b, rfl⟩⟩
      · rename_i hlim
        have hlt : st.pos < E.inp.length := by
          rcases Nat.lt_or_ge st.pos E.inp.length with h | h
          · exact h
          · rw [List.drop_of_length_le h] at hlim
            simp [peekEof] at hlim
        exact .skip (st1 := { st with pos := st.pos + 1 }) (Nat.le_succ _) rfl (H.hrecover _ _ _ hlt h3)
    · have := (cancel_out hl h2).1
      rw [this] at h3
      cases h3

theorem lt_spec (n : Nat) : LtHyp E cx term item sep limit n := by
  induction n with
  | zero =>
    refine ⟨?_, ?_, ?_, ?_, ?_⟩ <;> intros <;> rename_i h <;> cases h
  | succ n H =>
    refine ⟨?_, ?_, ?_, ?_, ?_⟩
    · -- the terminator
      intro a st x hl ha h
      rw [exec_succ] at h
      simp only [step] at h
      rcases ifTry_some hl h with ⟨ht, h1⟩ | ⟨ht, h1⟩
      · cases h1
        exact ⟨[], a, .nil, rfl, rfl, hl, .inl ⟨rfl, ht, fun _ _ b _ hb => absurd hb (ha b)⟩⟩
      · rcases onOk'_some h1 with ⟨st1, e1, r2, h2, h3, rfl⟩ | ⟨h2, h3⟩
        · obtain ⟨h4, h5⟩ := cancel_out hl h2
          cases h4
          exact .cancelled h5 (H.hsep a _ _ hl h3) rfl
        · have := (cancel_out hl h2).1
          rw [this] at h3
          cases h3
    · -- the separator
      intro a st x hl h
      rw [exec_succ] at h
      match sep, H, h with
      | none, H, h => exact H.hitem a st x hl (.inr rfl) h
      | some (s, k), H, h =>
        simp only [step] at h
        obtain ⟨r1, r2, h1, h2, rfl⟩ := andThen_some.1 h
        obtain ⟨y, h3, rfl⟩ := framed_some.1 h1
        simp only at h2
        have hy : Attempt E cx s st y := .inl ⟨n, h3⟩
        have hl1 : (y.st.frame st.vars.length).pos ≤ E.inp.length := attempt_le hl hy
        have hv1 : (y.st.frame st.vars.length).vars.length = st.vars.length := frame_len h3
        obtain ⟨o, st1, e1⟩ := y
        cases o with
        | brk => cases h2
        | ok => exact lt_after_sep H rfl hl hy h2 rfl
        | fail =>
          simp only at h2
          refine .sepFail (r := r2) rfl hy hl rfl ?_ rfl
          simp only at hl1 hv1 ⊢
          generalize st1.frame st.vars.length = s1 at *
          have rec' : ∀ {s2 : St} {r3 : Res}, s2.pos ≤ E.inp.length →
              emit [.recStart s2.pos] (exec E n cx (.ltRec s2.pos term item (some (s, k)) limit) s2) = some r3 →
              LtSpec E cx term item (some (s, k)) limit .free s2 r3 := by
            intro s2 r3 hl2 h
            obtain ⟨r4, h4, h5⟩ := emit_some.1 h
            exact .recovery start_recovery (H.hrecover _ _ _ hl2 h4) h5
          split at h2
          · rcases ifTry_some hl1 h2 with ⟨ht, h4⟩ | ⟨ht, h4⟩
            · obtain ⟨r3, r4, h5, h6, rfl⟩ := andThen_some.1 h4
              obtain ⟨z, h7, rfl⟩ := framed_some.1 h5
              have hz : Attempt E cx item s1 z := .inr ⟨ht, n, h7⟩
              have hlz : (z.st.frame st.vars.length).pos ≤ E.inp.length := attempt_le hl1 hz
              refine .itemStep (.inl nofun) hz ?_ rfl
              rw [hv1]
              simp only at h6
              obtain ⟨o, st2, e2⟩ := z
              cases o with
              | brk => cases h6
              | ok => exact H.hterm _ _ _ hlz arm_item h6
              | fail =>
                rw [attempt_fail hl1 hz rfl]
                simp only at h6
                obtain ⟨r5, r6, h8, h9, rfl⟩ := andThen_some.1 h6
                exact .cancelled (cancel_out hl1 h8).2 (rec' hlz h9) rfl
            · rcases onOk'_some h4 with ⟨st2, e2, r3, h5, h6, rfl⟩ | ⟨h5, h6⟩
              · obtain ⟨h7, h8⟩ := cancel_out hl1 h5
                cases h7
                exact .cancelled h8 (rec' hl1 h6) rfl
              · have := (cancel_out hl1 h5).1
                rw [this] at h6
                cases h6
          · exact rec' hl1 h2
    · -- behind a separator
      intro b st x hl h
      rw [exec_succ] at h
      simp only [step] at h
      rcases ifTry_some hl h with ⟨ht, h1⟩ | ⟨ht, h1⟩
      · cases h1
        refine ⟨[.other _], .sepd b, .other (Nat.le_refl _) rfl (.inr ?_) .nil, rfl, by simp only [List.flatMap_cons, List.flatMap_nil, List.append_nil]; rfl, hl, .inl ⟨rfl, ht, ?_⟩⟩
        · intro ev hev
          split at hev
          · rename_i k
            cases k with
            | sep tag => simp only [trailingError, List.mem_singleton] at hev; subst hev; trivial
            | trailing => cases hev
            | ignoreTrailing => cases hev
          · cases hev
        · rintro s tag b' hs hb
          cases hb
          subst hs
          exact ⟨[], rfl⟩
      · exact H.hitem _ _ _ hl (.inl nofun) h1
    · -- an item
      intro a st x hl ha h
      rw [exec_succ] at h
      simp only [step] at h
      obtain ⟨r1, r2, h1, h2, rfl⟩ := andThen_some.1 h
      obtain ⟨y, h3, rfl⟩ := framed_some.1 h1
      refine lt_after_item H hl ha (.inl ⟨n, h3⟩) (r2 := r2) ?_ rfl
      rw [← h2]
      obtain ⟨o, s, e⟩ := y
      cases o <;> rfl
    · -- error recovery
      intro b st x hl h
      rw [exec_succ] at h
      match sep, H, h with
      | some (s, k), H, h =>
        simp only [step] at h
        rcases ifTry_some hl h with ⟨ht, h1⟩ | ⟨ht, h1⟩
        · obtain ⟨r1, h2, rfl⟩ := emit_some.1 h1
          refine .recovery skipped_recovery ?_ rfl
          obtain ⟨r3, r2, h3, h4, rfl⟩ := andThen_some.1 h2
          obtain ⟨y, h5, rfl⟩ := framed_some.1 h3
          refine lt_after_sep H rfl hl (.inr ⟨ht, n, h5⟩) (r2 := r2) ?_ rfl
          rw [← h4]
          obtain ⟨o, s, e⟩ := y
          cases o <;> rfl
        · rcases onOk'_some h1 with ⟨st1, e1, r2, h2, h3, rfl⟩ | ⟨h2, h3⟩
          · obtain ⟨h4, h5⟩ := cancel_out hl h2
            cases h4
            exact .cancelled h5 (lt_give_up H hl h3) rfl
          · have := (cancel_out hl h2).1
            rw [this] at h3
            cases h3
      | none, H, h =>
        simp only [step] at h
        split at h
        · rcases ifTry_some hl h with ⟨ht, h1⟩ | ⟨ht, h1⟩
          · obtain ⟨r1, h2, rfl⟩ := emit_some.1 h1
            refine .recovery skipped_recovery ?_ rfl
            obtain ⟨r3, r2, h3, h4, rfl⟩ := andThen_some.1 h2
            obtain ⟨y, h5, rfl⟩ := framed_some.1 h3
            refine lt_after_item H hl (.inr rfl) (.inr ⟨ht, n, h5⟩) (r2 := r2) ?_ rfl
            rw [← h4]
            obtain ⟨o, s, e⟩ := y
            cases o <;> rfl
          · rcases onOk'_some h1 with ⟨st1, e1, r2, h2, h3, rfl⟩ | ⟨h2, h3⟩
            · obtain ⟨h4, h5⟩ := cancel_out hl h2
              cases h4
              exact .cancelled h5 (lt_give_up H hl h3) rfl
            · have := (cancel_out hl h2).1
              rw [this] at h3
              cases h3
        · exact lt_give_up H hl h

end

/-- **C60.** A terminated list, whatever the input is.  Either it gets to the terminator, and then ends behind it (or the
    terminator fails); or it fails in front of code units that are not the terminator, at the end of the input or where the
    rule says not to go on, after it reported what it skipped.
    On the way, an item is parsed only behind a separator, or after an error was reported since the last item; and a separator
    in front of the terminator that may not be trailing is reported, over its range (C59). -/
theorem C60_terminated {E : Env} {n : Nat} {cx : Cx} {term item : Rule} {sep : Option Sep} {limit : List Nat → Bool} {st : St} {x : Res}
    (hl : st.pos ≤ E.inp.length) (h : exec E n cx (.run (.lstt term item sep limit)) st = some x) :
    ∃ ss a st1, LSteps E cx item sep ss st st1 ∧ arm sep.isNone .free ss = some a ∧
      ((Takes E term st1 ∧ EndReported sep a ss st1.pos ∧
          ∃ y, Exec E cx (.bfinish term) st1 y ∧ x = ⟨y.out, y.st, ss.flatMap LStep.evs ++ y.evs⟩) ∨
        (x.out = .fail ∧ x.st = st1 ∧ Leaves E term st1 ∧ x.evs = ss.flatMap LStep.evs ∧
          (limit (E.inp.drop st1.pos) = true ∨ peekEof E.eof (E.inp.drop st1.pos) = true) ∧
          ∃ pre b, x.evs = pre ++ [.token .error b st1.pos, .recCancel st1.pos])) := by
  cases n with
  | zero => cases h
  | succ n =>
    rw [exec_succ] at h
    simp only [step, stepRun] at h
    have key : ∀ r : Res, (andThen (framed st.vars.length (exec E n cx (.run item) st)) fun o st' =>
        match o with
        | .ok => exec E n cx (.ltTerm term item sep limit) st'
        | .fail => emit [.recStart st'.pos] (exec E n cx (.ltRec st'.pos term item sep limit) st')
        | .brk => none) = some r → LtSpec E cx term item sep limit .free st r := by
      intro r hr
      obtain ⟨r1, r2, h1, h2, rfl⟩ := andThen_some.1 hr
      obtain ⟨y, h3, rfl⟩ := framed_some.1 h1
      refine lt_after_item (lt_spec n) hl (.inl nofun) (.inl ⟨n, h3⟩) (r2 := r2) ?_ rfl
      rw [← h2]
      obtain ⟨o, s, e⟩ := y
      cases o <;> rfl
    rcases onOk'_some h with ⟨st1, e1, r2, h2, h3, rfl⟩ | ⟨h2, h3⟩
    · obtain ⟨ss, a, h4, h5, h6, h7, h8⟩ := key _ h2
      rcases h8 with ⟨_, h9, h10⟩ | ⟨h9, _⟩
      · refine ⟨ss, a, st1, h4, h5, .inl ⟨h9, h10, r2, ⟨n, h3⟩, ?_⟩⟩
        simp only at h6
        rw [h6]
      · cases h9
    · obtain ⟨ss, a, h4, h5, h6, h7, h8⟩ := key _ h2
      rcases h8 with ⟨h9, _⟩ | ⟨h9, h10, h11, h12⟩
      · rw [h9] at h3; cases h3
      · exact ⟨ss, a, x.st, h4, h5, .inr ⟨h9, rfl, h10, h6, h11, h12⟩⟩

/-- **C60.** Without errors: items with separators strictly between them, a trailing one only if it is allowed, and the
    terminator. -/
theorem C60_quiet {E : Env} (hx : ExprLits E) {n : Nat} {cx : Cx} {term item : Rule} {sep : Option Sep} {limit : List Nat → Bool} {st : St} {x : Res}
    (hl : st.pos ≤ E.inp.length) (h : exec E n cx (.run (.lstt term item sep limit)) st = some x) (ho : x.out = .ok)
    (hq : ∀ ev ∈ x.evs, ev.isError = false) :
    ∃ N m, Items E cx.ws item sep false (N + 1) st.pos m ∧ Lang E cx.ws (.rule term false) m x.st.pos := by
  have h1 := C38_rule hx hl h ho hq
  generalize x.st.pos = q at h1
  generalize cx.ws = w at h1
  cases h1
  case token ht _ _ => cases ht
  case terminated h2 h1 h3 =>
    obtain ⟨N, h4⟩ := tail_inv h2 h1
    exact ⟨N, _, h4, h3⟩
  case context h => cases h

/-! ### Non-trivial cases -/

/-- `2` then `1,1`: repeated as often as the number says, with one separator. -/
example : Ex.obs (exec (Ex.env [50, 49, 44, 49] Ex.lists) 20 ⟨none, 10⟩
    (.run (.rep Ex.digit (fun s => s.headD 48 - 48) Ex.digit (some (Ex.comma, .sep 22)))) { pos := 0 }) =
    some (.ok, 4, [.token (.user 4) 0 1, .token (.user 4) 1 2, .token (.user 3) 2 3, .token (.user 4) 3 4]) := by decide +kernel

/-- `1,1,` with `times<2>`: the trailing separator is consumed and reported. -/
example : Ex.obs (exec (Ex.env [49, 44, 49, 44] Ex.lists) 20 ⟨none, 10⟩
    (.run (timesRule Ex.digit (some (Ex.comma, .sep 22)) 2)) { pos := 0 }) =
    some (.ok, 4, [.token (.user 4) 0 1, .token (.user 3) 1 2, .token (.user 4) 2 3, .token (.user 3) 3 4, .error 22 3 4]) := by
  decide +kernel

/-- `a,,1` as a combination of a letter, a digit and a comma: the second comma is a duplicate. -/
example : Ex.obs (exec (Ex.env [97, 44, 44, 49] Ex.lists) 30 ⟨none, 10⟩
    (.run (.comb 31 [Ex.digit, Ex.letter, Ex.comma] .none)) { pos := 0 }) =
    some (.ok, 4, [.token (.user 7) 0 1, .token (.user 3) 1 2, .token (.user 3) 2 3, .error 31 2 3, .token (.user 4) 3 4]) := by
  decide +kernel

/-- `1,` as a list: the trailing separator is reported. -/
example : Ex.obs (exec (Ex.env [49, 44, 97] Ex.lists) 30 ⟨none, 10⟩
    (.run (.lst Ex.digit (some (Ex.comma, .sep 22)))) { pos := 0 }) =
    some (.ok, 2, [.token (.user 4) 0 1, .token (.user 3) 1 2, .error 22 1 2]) := by decide +kernel

/-- `12a,)` as a list that is terminated by a parenthesis: a missing separator, something to skip, a trailing separator. -/
example : Ex.obs (exec (Ex.env [49, 50, 97, 44, 41] Ex.lists) 30 ⟨none, 10⟩
    (.run (.lstt Ex.close Ex.digit (some (Ex.comma, .sep 22)) fun _ => false)) { pos := 0 }) =
    some (.ok, 5, [.token (.user 4) 0 1, .token .error 1 1, .error 13 1 1, .token (.user 4) 1 2, .token .error 2 2, .error 13 2 2, .recStart 2, .token .error 2 3,
      .recFinish 3, .token (.user 3) 3 4, .error 22 3 4, .token (.user 2) 4 5]) := by decide +kernel

/-- `1a`: never terminated. -/
example : Ex.obs (exec (Ex.env [49, 97] Ex.lists) 30 ⟨none, 10⟩
    (.run (.lstt Ex.close Ex.digit (some (Ex.comma, .sep 22)) fun _ => false)) { pos := 0 }) =
    some (.fail, 2, [.token (.user 4) 0 1, .token .error 1 1, .error 13 1 1, .recStart 1, .token .error 1 2, .recCancel 2]) := by decide +kernel

end Verif
