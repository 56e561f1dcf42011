import Verif.Grammar

/-
The interpreter stays inside of the trace relation `Tr`: for all grammars, inputs, contexts, states and numbers of
steps.
-/

namespace Verif

namespace TrC

variable {len : Nat}

theorem search_le {p q : Nat} {ce : List Ev} (h : SearchTr len p q ce) : p ≤ q := by
  induction h with
  | start => exact Nat.le_refl _
  | cancelled _ _ ih => exact ih
  | bump _ ih => omega

/-- The reader moves forward and stays inside of the input. -/
theorem bounds {p q : Nat} {o : Out} {evs : List Ev} {c : Bool} (h : TrC len c p o evs q) (hp : p ≤ len) : p ≤ q ∧ q ≤ len := by
  induction h with
  | nil | brk | errorFail | error | backtracked | cancelled | op => exact ⟨Nat.le_refl _, hp⟩
  | token _ h1 h2 | tokenFail _ h1 h2 => exact ⟨h1, h2⟩
  | wsFail _ _ h1 h2 => exact ⟨h1, h2⟩
  | seq _ _ ih1 ih2 | recover _ _ ih1 ih2 | failAfter _ _ ih1 ih2 =>
    have := ih1 hp
    have := ih2 this.2
    omega
  | caught _ ih | prod _ _ ih | prodFail _ _ ih | recovery _ ih | recoveryFail _ ih => exact ih hp
  | chain _ _ ih => exact ih hp
  | search h hq => exact ⟨search_le h, hq⟩
  | searchFail _ h hr ih => exact ⟨Nat.le_trans (ih hp).1 (search_le h), hr⟩

theorem cancel_no_error {p : Nat} {evs : List Ev} (h : CancelTr len p evs) : ∀ ev ∈ evs, ev.isError = false := by
  induction h with
  | nil => simp
  | backtracked => simp [Ev.isError]
  | prod _ ih =>
    intro ev hev
    simp only [List.mem_cons, List.mem_append, List.not_mem_nil, or_false] at hev
    rcases hev with h | h | h
    · subst h; rfl
    · exact ih ev h
    · subst h; rfl
  | append _ _ ih1 ih2 =>
    intro ev hev
    rcases List.mem_append.1 hev with h | h
    · exact ih1 ev h
    · exact ih2 ev h

theorem search_no_error {p q : Nat} {evs : List Ev} (h : SearchTr len p q evs) :
    ∀ ev ∈ evs, ev.isError = false := by
  induction h with
  | start => simp
  | cancelled _ hc ih =>
    intro ev hev
    rcases List.mem_append.1 hev with h | h
    · exact ih ev h
    · exact cancel_no_error hc ev h
  | bump _ ih => exact ih

/-- Every error is reported for a range inside of the input. -/
theorem error_bounds {p q : Nat} {o : Out} {evs : List Ev} {c : Bool} (h : TrC len c p o evs q) (hp : p ≤ len) :
    ∀ ev ∈ evs, ev.isError → ∃ tag b e, ev = .error tag b e ∧ b ≤ e ∧ e ≤ len := by
  induction h with
  | nil | brk | token | backtracked | op => simp [Ev.isError]
  | tokenFail tag h1 h2 =>
    intro ev hev he
    simp only [List.mem_cons, List.not_mem_nil, or_false] at hev
    rcases hev with h | h
    · subst h; simp [Ev.isError] at he
    · exact ⟨_, _, _, h, h1, h2⟩
  | errorFail tag h1 h2 | error tag h1 h2 =>
    intro ev hev he
    simp only [List.mem_cons, List.not_mem_nil, or_false] at hev
    exact ⟨_, _, _, hev, h1, h2⟩
  | wsFail _ hes =>
    intro ev hev he
    simp only [List.mem_append, List.mem_cons, List.not_mem_nil, or_false] at hev
    rcases hev with h | h
    · exact hes ev h
    · subst h; simp [Ev.isError] at he
  | cancelled _ h =>
    intro ev hev he
    rw [cancel_no_error h ev hev] at he; cases he
  | seq h1 _ ih1 ih2 | recover h1 _ ih1 ih2 | failAfter h1 _ ih1 ih2 =>
    intro ev hev he
    rcases List.mem_append.1 hev with h | h
    · exact ih1 hp ev h he
    · exact ih2 (h1.bounds hp).2 ev h he
  | caught _ ih => exact ih hp
  | prod _ _ ih | prodFail _ _ ih | recovery _ ih | recoveryFail _ ih | chain _ _ ih =>
    intro ev hev he
    simp only [List.mem_cons, List.mem_append, List.not_mem_nil, or_false] at hev
    rcases hev with h | h | h
    · subst h; simp [Ev.isError] at he
    · exact ih hp ev h he
    · subst h; simp [Ev.isError] at he
  | search h hq =>
    intro ev hev he
    simp only [List.mem_cons, List.mem_append, List.not_mem_nil, or_false] at hev
    rcases hev with h' | h' | h' | h'
    · subst h'; simp [Ev.isError] at he
    · rw [search_no_error h ev h'] at he; cases he
    · subst h'; simp [Ev.isError] at he
    · subst h'; simp [Ev.isError] at he
  | searchFail _ h hr ih =>
    intro ev hev he
    simp only [List.mem_cons, List.mem_append, List.not_mem_nil, or_false] at hev
    rcases hev with h' | h' | h' | h' | h'
    · exact ih hp ev h' he
    · subst h'; simp [Ev.isError] at he
    · rw [search_no_error h ev h'] at he; cases he
    · subst h'; simp [Ev.isError] at he
    · subst h'; simp [Ev.isError] at he

/-- A failure reports an error. -/
theorem fail_error {p q : Nat} {o : Out} {evs : List Ev} {c : Bool} (h : TrC len c p o evs q) :
    o = .fail → ∃ ev ∈ evs, ev.isError = true := by
  induction h with
  | nil | brk | token | error | backtracked | cancelled | op | search => intro h; cases h
  | tokenFail => intro _; exact ⟨_, List.mem_cons_of_mem _ (List.mem_cons_self ..), rfl⟩
  | errorFail => intro _; exact ⟨_, List.mem_cons_self .., rfl⟩
  | wsFail hne hes =>
    intro _
    obtain ⟨e, he⟩ := List.exists_mem_of_ne_nil _ hne
    obtain ⟨_, _, _, rfl, _⟩ := hes e he
    exact ⟨_, List.mem_append_left _ he, rfl⟩
  | seq _ _ _ ih2 =>
    intro h
    obtain ⟨ev, hm, he⟩ := ih2 h
    exact ⟨ev, List.mem_append_right _ hm, he⟩
  | recover _ _ _ ih2 =>
    intro h
    obtain ⟨ev, hm, he⟩ := ih2 h
    exact ⟨ev, List.mem_append_right _ hm, he⟩
  | failAfter _ _ ih1 _ =>
    intro h
    obtain ⟨ev, hm, he⟩ := ih1 h
    exact ⟨ev, List.mem_append_left _ hm, he⟩
  | caught _ ih => intro h; cases h
  | prod | recovery => intro h; cases h
  | prodFail _ _ ih | recoveryFail _ ih =>
    intro _
    obtain ⟨ev, hm, he⟩ := ih rfl
    exact ⟨ev, List.mem_cons_of_mem _ (List.mem_append_left _ hm), he⟩
  | chain _ _ ih =>
    intro h
    obtain ⟨ev, hm, he⟩ := ih h
    exact ⟨ev, List.mem_cons_of_mem _ (List.mem_append_left _ hm), he⟩
  | searchFail _ _ _ ih =>
    intro _
    obtain ⟨ev, hm, he⟩ := ih rfl
    exact ⟨ev, List.mem_append_left _ hm, he⟩

theorem nil' {c : Bool} {p q : Nat} (h : p = q) : TrC len c p .ok [] q := h ▸ .nil

/-- What happens outside of a chain may happen inside of one. -/
theorem lift {c : Bool} {p q : Nat} {o : Out} {evs : List Ev} (h : TrC len c p o evs q) : TrC len true p o evs q := by
  induction h with
  | nil => exact .nil
  | brk => exact .brk
  | token k h1 h2 => exact .token k h1 h2
  | tokenFail k h1 h2 => exact .tokenFail k h1 h2
  | errorFail k h1 h2 => exact .errorFail k h1 h2
  | error k h1 h2 => exact .error k h1 h2
  | wsFail h1 h2 h3 h4 => exact .wsFail h1 h2 h3 h4
  | backtracked h1 h2 => exact .backtracked h1 h2
  | cancelled h1 h2 => exact .cancelled h1 h2
  | seq _ _ i1 i2 => exact .seq i1 i2
  | recover _ _ i1 i2 => exact .recover i1 i2
  | failAfter _ _ i1 i2 => exact .failAfter i1 i2
  | caught _ i1 => exact .caught i1
  | prod n h => exact .prod n h
  | prodFail n h => exact .prodFail n h
  | chain h h' => exact .chain h h'
  | op n => exact .op n
  | recovery h => exact .recovery h
  | recoveryFail h => exact .recoveryFail h
  | search h h' => exact .search h h'
  | searchFail _ h h' ih => exact .searchFail ih h h'

theorem lift' {c : Bool} {p q : Nat} {o : Out} {evs : List Ev} (h : TrC len false p o evs q) :
    TrC len c p o evs q := by
  cases c with
  | false => exact h
  | true => exact h.lift

end TrC

/-! ## The combinators -/

/-- If there is a result, then it is a trace from `p`. -/
def TrOC (c : Bool) (len p : Nat) (x : Option Res) : Prop := ∀ r, x = some r → TrC len c p r.out r.evs r.st.pos

/-- If there is a result, then it continues every trace that led to the failure at `q`. -/
def TrFC (c : Bool) (len q : Nat) (x : Option Res) : Prop :=
  ∀ p a, TrC len c p .fail a q → ∀ r, x = some r → TrC len c p r.out (a ++ r.evs) r.st.pos

abbrev TrO := TrOC false
abbrev TrF := TrFC false

section
variable {c : Bool} {len p : Nat}

theorem TrOC.toF {q : Nat} {x : Option Res} (h : TrOC c len q x) : TrFC c len q x :=
  fun _ _ ha r hr => .recover ha (h r hr)

theorem TrOC.lift {x : Option Res} (h : TrO len p x) : TrOC c len p x := fun r hr => (h r hr).lift'

theorem trO_none : TrOC c len p none := fun _ h => by cases h
theorem trF_none : TrFC c len p none := fun _ _ _ _ h => by cases h

theorem trO_some {r : Res} : TrOC c len p (some r) ↔ TrC len c p r.out r.evs r.st.pos :=
  ⟨fun h => h r rfl, fun h r' hr => by cases hr; exact h⟩

theorem trO_bind {α : Type} {x : Option α} {f : α → Option Res} (h : ∀ v, TrOC c len p (f v)) :
    TrOC c len p (x.bind f) := by
  cases x with
  | none => exact trO_none
  | some v => exact h v

theorem trO_ok {st : St} (h : p = st.pos) : TrOC c len p (ret .ok st) := by
  subst h; exact trO_some.2 .nil

theorem trF_fail {st : St} {q : Nat} (h : q = st.pos) : TrFC c len q (ret .fail st) := by
  subst h
  intro p a ha r hr
  cases hr
  simpa using ha

theorem emit_some {evs : List Ev} {x : Option Res} {r : Res} :
    emit evs x = some r ↔ ∃ r', x = some r' ∧ r = ⟨r'.out, r'.st, evs ++ r'.evs⟩ := by
  cases x with
  | none => simp [emit]
  | some r' =>
    simp only [emit, Option.map_some, Option.some.injEq]
    constructor
    · rintro rfl; exact ⟨r', rfl, rfl⟩
    · rintro ⟨_, rfl, rfl⟩; rfl

theorem framed_some {n : Nat} {x : Option Res} {r : Res} :
    framed n x = some r ↔ ∃ r', x = some r' ∧ r = ⟨r'.out, r'.st.frame n, r'.evs⟩ := by
  cases x with
  | none => simp [framed]
  | some r' =>
    simp only [framed, Option.map_some, Option.some.injEq]
    constructor
    · rintro rfl; exact ⟨r', rfl, rfl⟩
    · rintro ⟨_, rfl, rfl⟩; rfl

theorem andThen_some {x : Option Res} {f : Out → St → Option Res} {r : Res} :
    andThen x f = some r ↔
      ∃ r1 r2, x = some r1 ∧ f r1.out r1.st = some r2 ∧ r = ⟨r2.out, r2.st, r1.evs ++ r2.evs⟩ := by
  cases x with
  | none => simp [andThen]
  | some r1 =>
    simp only [andThen, Option.map_eq_some_iff, Option.some.injEq]
    constructor
    · rintro ⟨r2, h, rfl⟩; exact ⟨r1, r2, rfl, h, rfl⟩
    · rintro ⟨_, r2, rfl, h, rfl⟩; exact ⟨r2, h, rfl⟩

theorem trO_framed {n : Nat} {x : Option Res} (h : TrOC c len p x) : TrOC c len p (framed n x) := by
  intro r hr
  obtain ⟨r', h1, rfl⟩ := framed_some.1 hr
  exact h r' h1

/-- Events first. -/
theorem trO_emit {q : Nat} {evs : List Ev} {x : Option Res} (h1 : TrC len c p .ok evs q) (h2 : TrOC c len q x) :
    TrOC c len p (emit evs x) := by
  intro r hr
  obtain ⟨r', hx, rfl⟩ := emit_some.1 hr
  exact .seq h1 (h2 r' hx)

theorem trO_andThen (hp : p ≤ len) {x : Option Res} {f : Out → St → Option Res} (hx : TrOC c len p x)
    (hok : ∀ st, p ≤ st.pos → st.pos ≤ len → TrOC c len st.pos (f .ok st))
    (hfail : ∀ st, p ≤ st.pos → st.pos ≤ len → TrFC c len st.pos (f .fail st))
    (hbrk : ∀ st a, TrC len c p .brk a st.pos → ∀ r, f .brk st = some r → TrC len c p r.out (a ++ r.evs) r.st.pos) :
    TrOC c len p (andThen x f) := by
  intro r hr
  obtain ⟨r1, r2, h1, h2, rfl⟩ := andThen_some.1 hr
  have ht := hx r1 h1
  have hb := ht.bounds hp
  obtain ⟨o, st1, e1⟩ := r1
  cases o with
  | ok => exact .seq ht (hok st1 hb.1 hb.2 r2 h2)
  | fail => exact hfail st1 hb.1 hb.2 p e1 ht r2 h2
  | brk => exact hbrk st1 e1 ht r2 h2

theorem trO_onOk (hp : p ≤ len) {x : Option Res} {f : St → Option Res} (hx : TrOC c len p x)
    (hok : ∀ st, p ≤ st.pos → st.pos ≤ len → TrOC c len st.pos (f st)) : TrOC c len p (onOk x f) := by
  refine trO_andThen hp hx hok (fun st _ _ => trF_fail rfl) (fun st a ha r hr => ?_)
  cases hr
  simpa using ha

theorem trO_onOk' (hp : p ≤ len) {x : Option Res} {f : St → Option Res} (hx : TrOC c len p x)
    (hok : ∀ st, p ≤ st.pos → st.pos ≤ len → TrOC c len st.pos (f st)) : TrOC c len p (onOk' x f) :=
  trO_andThen hp hx hok (fun st _ _ => trF_fail rfl) (fun st a ha r hr => by cases hr)

theorem onOk'_not_brk {x : Option Res} {f : St → Option Res} {r : Res} (h : onOk' x f = some r)
    (hf : ∀ st r, f st = some r → r.out ≠ .brk) : r.out ≠ .brk := by
  obtain ⟨r1, r2, _, h2, rfl⟩ := andThen_some.1 h
  obtain ⟨o, st1, e1⟩ := r1
  cases o with
  | ok => exact hf _ r2 h2
  | fail => cases h2; simp
  | brk => cases h2

end

/-! ## The interpreter -/

theorem lookScan_le (l : LookFn) (eof : Option Nat) (s : List Nat) : (lookScan l eof s).2 ≤ s.length := by
  induction s with
  | nil =>
    unfold lookScan
    cases h : l.run [] with
    | none => exact Nat.zero_le _
    | some x => exact l.le _ _ _ h
  | cons u s ih =>
    unfold lookScan
    cases h : l.run (u :: s) with
    | none =>
      simp only
      split
      · exact Nat.zero_le _
      · simp only [List.length_cons]; omega
    | some x => exact l.le _ _ _ h

theorem findScan_le (l : LookFn) (eof : Option Nat) (s : List Nat) : (findScan l eof s).2 ≤ s.length := by
  induction s with
  | nil => unfold findScan; cases h : l.run [] <;> exact Nat.zero_le _
  | cons u s ih =>
    unfold findScan
    cases h : l.run (u :: s) with
    | none =>
      simp only
      split
      · exact Nat.zero_le _
      · simp only [List.length_cons]; omega
    | some x => exact Nat.zero_le _

theorem parseOperator_le {eof : Option Nat} {fold : Nat → Nat} {ops : List OpDef} {s : List Nat} {x}
    {n : Nat} (h : parseOperator eof fold ops s = some (some (x, n))) : n ≤ s.length := by
  unfold parseOperator at h
  simp only at h
  split at h
  · cases h
  · cases h
  · split at h
    · cases h
    · split at h
      · rename_i h'
        cases h
        exact h'
      · cases h

/-- What the commands guarantee. -/
def Good (len : Nat) (c : Cmd) (st : St) (x : Option Res) : Prop :=
  match c with
  | .btry _ | .chcTry _ => ∀ r, x = some r → r.evs = [] ∧ r.st = st ∧ r.out ≠ .brk
  | .bcancel _ | .chcCancel _ => ∀ r, x = some r → r.out = .ok ∧ r.st = st ∧ CancelTr len st.pos r.evs
  | .tokTry _ => ∀ r, x = some r → r.evs = [] ∧ r.out ≠ .brk ∧ st.pos ≤ r.st.pos ∧ r.st.pos ≤ len
  | .tokLoop _ => ∀ r, x = some r → r.evs = [] ∧ r.out = .ok ∧ st.pos ≤ r.st.pos ∧ r.st.pos ≤ len
  | .ltRec b .. | .recoLoop b .. => ∀ p a c, Tr len p .fail a b → SearchTr len b st.pos c →
      ∀ r, x = some r → Tr len p r.out (a ++ .recStart b :: (c ++ r.evs)) r.st.pos
  | .recov _ => TrF len st.pos x
  | .exList .. =>
      TrOC true len st.pos x ∧ ∀ r, x = some r → r.out ≠ .brk ∧ (r.out = .ok → r.st.ex.val.isSome)
  | .exParse .. | .exLhs .. =>
      TrO len st.pos x ∧ ∀ r, x = some r → r.out ≠ .brk ∧ (r.out = .ok → r.st.ex.val.isSome)
  | .exLoop .. => st.ex.val.isSome →
      TrOC true len st.pos x ∧ ∀ r, x = some r → r.out ≠ .brk ∧ (r.out = .ok → r.st.ex.val.isSome)
  | .ltTrail b .. => b ≤ st.pos → TrO len st.pos x
  | .exApply _ _ _ _ b => b ≤ st.pos →
      TrOC true len b x ∧ ∀ r, x = some r → r.out ≠ .brk ∧ (r.out = .ok → r.st.ex.val.isSome)
  | _ => TrO len st.pos x

section
variable {E : Env} {rec : Cx → Cmd → St → Option Res}
  (H : ∀ cx c st, st.pos ≤ E.inp.length → Good E.inp.length c st (rec cx c st))
include H

theorem good_run {cx : Cx} {r : Rule} {st : St} {p : Nat} (h : st.pos ≤ E.inp.length) (hp : p = st.pos) :
    TrO E.inp.length p (rec cx (.run r) st) := by subst hp; exact H cx (.run r) st h
theorem good_fin {cx : Cx} {r : Rule} {st : St} {p : Nat} (h : st.pos ≤ E.inp.length) (hp : p = st.pos) :
    TrO E.inp.length p (rec cx (.bfinish r) st) := by subst hp; exact H cx (.bfinish r) st h
theorem good_ws {cx : Cx} {st : St} {p : Nat} (h : st.pos ≤ E.inp.length) (hp : p = st.pos) :
    TrO E.inp.length p (rec cx .ws st) := by subst hp; exact H cx .ws st h

theorem good_cancel {cx : Cx} {r : Rule} {st : St} {p : Nat} (h : st.pos ≤ E.inp.length) (hp : p = st.pos) :
    TrO E.inp.length p (rec cx (.bcancel r) st) := by
  subst hp
  intro x hx
  obtain ⟨h1, h2, h3⟩ := H cx (.bcancel r) st h x hx
  rw [h1, h2]
  exact .cancelled (Nat.le_refl _) h3

omit H in
theorem trO_ifTry {cx : Cx} {c : Cmd} {st : St} {yes no : Option Res} {p : Nat} (h1 : TrO E.inp.length p yes)
    (h2 : TrO E.inp.length p no) : TrO E.inp.length p (ifTry rec cx c st yes no) := by
  intro r hr
  unfold ifTry at hr
  split at hr
  · cases hr
  · exact h1 r hr
  · exact h2 r hr

/-- Nothing happens if the branch is not taken. -/
theorem trO_cancelOk {cx : Cx} {r : Rule} {st : St} {p : Nat} (h : st.pos ≤ E.inp.length) (hp : p = st.pos) :
    TrO E.inp.length p (onOk' (rec cx (.bcancel r) st) fun st' => ret .ok st') := by
  subst hp
  exact trO_onOk' h (good_cancel H h rfl) fun st' _ _ => trO_ok rfl

theorem trO_tokenDone {cx : Cx} {k : Kind} {e : Nat} {st : St} {p : Nat} (hp : p = st.pos) (h1 : st.pos ≤ e)
    (h2 : e ≤ E.inp.length) : TrO E.inp.length p (tokenDone rec cx k e st) := by
  subst hp
  exact trO_emit (.token k h1 h2) (good_ws H (st := { st with pos := e }) h2 rfl)

theorem trO_tokenParse {cx : Cx} {k : Kind} {tag e : Nat} {b : Bool} {st : St} {p : Nat} (hp : p = st.pos)
    (h1 : st.pos ≤ e) (h2 : e ≤ E.inp.length) : TrO E.inp.length p (tokenParse rec cx k tag b e st) := by
  unfold tokenParse
  split
  · exact trO_tokenDone H hp h1 h2
  · subst hp; exact trO_some.2 (.tokenFail tag h1 h2)

theorem trO_prim {cx : Cx} {ws : Bool} {r : Bool × Nat × List Ev} {st : St} {p : Nat} (hp : p = st.pos)
    (h : st.pos ≤ E.inp.length)
    (hr : Tr E.inp.length st.pos (if r.1 then .ok else .fail) r.2.2 r.2.1) :
    TrO E.inp.length p (primDone rec cx ws r st) := by
  subst hp
  have hb := hr.bounds h
  unfold primDone
  cases h1 : r.1 with
  | true =>
    rw [h1] at hr
    simp only [if_pos]
    refine trO_emit hr ?_
    split
    · exact good_ws H (st := { st with pos := r.2.1 }) hb.2 rfl
    · exact trO_ok rfl
  | false =>
    rw [h1] at hr
    simp only [Bool.false_eq_true, if_false]
    intro x hx
    obtain ⟨r', h', rfl⟩ := emit_some.1 hx
    cases h'
    simpa using hr

theorem tokTry_bounds {cx : Cx} {r : Rule} {st : St} {x : Res} (h : st.pos ≤ E.inp.length)
    (hx : rec cx (.tokTry r) st = some x) : st.pos ≤ x.st.pos ∧ x.st.pos ≤ E.inp.length :=
  (H cx (.tokTry r) st h x hx).2.2

theorem nested_tr {r : Rule} {pos e : Nat} {b : Bool} {evs : List Ev} (h : pos ≤ E.inp.length)
    (hx : nested rec r pos = some (b, e, evs)) : Tr E.inp.length pos (if b then .ok else .fail) evs e := by
  unfold nested at hx
  split at hx
  · cases hx
  · rename_i h'; cases hx
    exact good_run H (st := { pos := pos }) h rfl _ h'
  · rename_i h'; cases hx
    exact good_run H (st := { pos := pos }) h rfl _ h'
  · cases hx

theorem trO_production {cx : Cx} {n : Nat} {body : Cx → St → Option Res} {st : St} {p : Nat} (hp : p = st.pos)
    (h : st.pos ≤ E.inp.length)
    (hb : ∀ cx st', st'.pos ≤ E.inp.length → TrO E.inp.length st'.pos (body cx st')) :
    TrO E.inp.length p (production E rec cx n body st) := by
  subst hp
  intro r hr
  obtain ⟨r', hr', rfl⟩ := emit_some.1 hr
  obtain ⟨r1, r2, h1, h2, rfl⟩ := andThen_some.1 hr'
  have ht := trO_framed (hb _ { st with ex := {} } h) r1 h1
  have hbd := ht.bounds h
  obtain ⟨o, st1, e1⟩ := r1
  cases o with
  | brk => cases h2
  | fail =>
    cases h2
    exact .prodFail n ht
  | ok =>
    obtain ⟨r3, h3, rfl⟩ := emit_some.1 h2
    have hq : Tr E.inp.length st.pos .ok ([.prodStart n st.pos] ++ (e1 ++ [.prodFinish n st1.pos])) st1.pos :=
      .prod n ht
    have h4 : Tr E.inp.length st1.pos r3.out r3.evs r3.st.pos := by
      simp only at h3
      split at h3
      · exact good_ws H (st := { st1 with ex := st.ex }) hbd.2 rfl _ h3
      · cases h3; exact .nil
    have h5 := TrC.seq hq h4
    simpa only [List.append_assoc, List.cons_append, List.nil_append] using h5

omit H in
theorem trO_deeper {cx : Cx} {tag : Nat} {body : St → Option Res} {st : St} {p : Nat} (hp : p = st.pos)
    (h : st.pos ≤ E.inp.length)
    (hb : ∀ st', st'.pos ≤ E.inp.length → TrO E.inp.length st'.pos (body st')) :
    TrO E.inp.length p (deeper cx tag st body) := by
  subst hp
  unfold deeper
  split
  · exact trO_none
  · split
    · exact trO_some.2 (.errorFail tag (Nat.le_refl _) h)
    · exact trO_onOk' h (hb { st with depth := st.depth + 1 } h) fun st' _ _ => trO_ok rfl

theorem trF_recov {cx : Cx} {rc : Recov} {st : St} {q : Nat} (hq : q = st.pos) (h : st.pos ≤ E.inp.length) :
    TrF E.inp.length q (rec cx (.recov rc) st) := by
  subst hq
  exact H cx (.recov rc) st h

/-- Entering error recovery after a failure. -/
theorem trF_ltRec {cx : Cx} {term item : Rule} {sep : Option Sep} {limit : List Nat → Bool} {st : St}
    (h : st.pos ≤ E.inp.length) :
    TrF E.inp.length st.pos (emit [.recStart st.pos] (rec cx (.ltRec st.pos term item sep limit) st)) := by
  intro p a ha r hr
  obtain ⟨r', hr', rfl⟩ := emit_some.1 hr
  have := H cx (.ltRec st.pos term item sep limit) st h p a [] ha .start r' hr'
  simpa using this

theorem rep_tr {cx : Cx} {x : Option Res} {f : List Nat → Nat} {item : Rule} {sep : Option Sep} {p : Nat}
    (h : p ≤ E.inp.length) (hx : TrO E.inp.length p x) :
    TrO E.inp.length p (onOk' x fun st' =>
      match f ((E.inp.take st'.pos).drop p) with
      | 0 => ret .ok st'
      | n + 1 => onOk' (framed st'.vars.length (rec cx (.run item) st')) fun st'' =>
          rec cx (.repTail n item sep) st'') := by
  refine trO_onOk' h hx fun st' _ h2 => ?_
  split
  · exact trO_ok rfl
  · exact trO_onOk' h2 (trO_framed (good_run H h2 rfl)) fun st'' _ h3 => H _ (.repTail ..) _ h3

theorem good_stepRun (cx : Cx) (st : St) (r : Rule) (h : st.pos ≤ E.inp.length) :
    TrO E.inp.length st.pos (stepRun E rec cx st r) := by
  have hdrop : (E.inp.drop st.pos).length = E.inp.length - st.pos := List.length_drop ..
  cases r <;> unfold stepRun
  case tok t =>
    have := t.le (E.inp.drop st.pos)
    exact trO_tokenParse H rfl (by omega) (by omega)
  case tokr k tag r =>
    simp only
    split
    · exact trO_none
    · rename_i x hx
      have := tokTry_bounds H h hx
      exact trO_tokenParse H rfl this.1 this.2
  case prim p => exact trO_prim H rfl h (p.parse_tr _ _ h)
  case els => exact trO_ok rfl
  case seq a b => exact trO_onOk h (good_run H h rfl) fun st' _ h2 => good_run H h2 rfl
  case br a b => exact trO_onOk h (good_run H h rfl) fun st' _ h2 => good_run H h2 rfl
  case chc rs => exact H cx (.chcRun rs) st h
  case ifR b => exact trO_ifTry (good_fin H h rfl) (trO_cancelOk H h rfl)
  case opt b => exact trO_ifTry (good_fin H h rfl) (trO_cancelOk H h rfl)
  case loop r => exact H cx (.loopR r) st h
  case brk => exact trO_some.2 .brk
  case whl b => exact H cx (.whlR b) st h
  case err tag ro =>
    cases ro with
    | none => exact trO_some.2 (.errorFail tag (Nat.le_refl _) h)
    | some r =>
      simp only
      split
      · exact trO_none
      · rename_i hx
        have := (nested_tr H h hx).bounds h
        exact trO_some.2 (.errorFail tag this.1 this.2)
  case must b e =>
    refine trO_ifTry (good_fin H h rfl) (trO_onOk' h (good_cancel H h rfl) fun st' _ h2 => ?_)
    refine trO_andThen h2 (trO_framed (good_run H h2 rfl)) (fun _ _ _ => trO_none) (fun _ _ _ => trF_fail rfl)
      (fun _ _ _ _ h => by cases h)
  case lst item sep =>
    exact trO_onOk' h (trO_framed (good_run H h rfl)) fun st' _ h2 => H _ (.lstLoop ..) _ h2
  case lstt term item sep limit =>
    refine trO_onOk' h ?_ fun st' _ h2 => good_fin H h2 rfl
    refine trO_andThen h (trO_framed (good_run H h rfl)) (fun _ _ h2 => H _ (.ltTerm ..) _ h2)
      (fun _ _ h2 => trF_ltRec H h2) (fun _ _ _ _ h => by cases h)
  case optt term r =>
    exact trO_ifTry (good_fin H h rfl) (trO_onOk' h (good_cancel H h rfl) fun st' _ h2 => good_run H h2 rfl)
  case tryt term r rc =>
    refine trO_andThen h (good_run H h rfl) (fun st' _ h2 => ?_) (fun st' _ h2 => trF_recov H rfl h2)
      (fun _ _ _ _ h => by cases h)
    cases term with
    | none => exact trO_ok rfl
    | some t => exact good_run H h2 rfl
  case tryr r rc =>
    exact trO_andThen h (good_run H h rfl) (fun st' _ h2 => trO_ok rfl) (fun st' _ h2 => trF_recov H rfl h2)
      (fun _ _ _ _ h => by cases h)
  case prod n =>
    refine trO_production H rfl h fun cx' st' h' => ?_
    split
    · exact trO_onOk' h' (good_ws H h' rfl) fun st'' _ h2 => good_run H h2 rfl
    · exact good_run H h' rfl
  case recu n tag b => exact trO_deeper rfl h fun st' h' => good_run H h' rfl
  case peek tag r =>
    simp only
    split
    · exact trO_none
    · rename_i x hx
      have := tokTry_bounds H h hx
      refine trO_some.2 ?_
      split
      · exact .backtracked this.1 this.2
      · exact .seq (.error tag this.1 this.2) (.backtracked this.1 this.2)
  case peekn tag r =>
    simp only
    split
    · exact trO_none
    · rename_i x hx
      have := tokTry_bounds H h hx
      split
      · have hs : SearchTr E.inp.length st.pos x.st.pos [] := by
          obtain ⟨k, hk⟩ := Nat.le.dest this.1
          rw [← hk]
          clear hk
          induction k with
          | zero => exact .start
          | succ k ih => exact .bump ih
        exact trO_some.2 (TrC.seq (.error tag this.1 this.2) (.search hs this.2))
      · exact trO_some.2 (.backtracked this.1 this.2)
  case look tag l =>
    have := lookScan_le l E.eof (E.inp.drop st.pos)
    have h2 : st.pos + (lookScan l E.eof (E.inp.drop st.pos)).2 ≤ E.inp.length := by omega
    refine trO_some.2 ?_
    simp only
    split
    · exact .backtracked (Nat.le_add_right _ _) h2
    · exact .seq (.error tag (Nat.le_add_right _ _) h2) (.backtracked (Nat.le_add_right _ _) h2)
  case wsn r =>
    simp only
    split
    · exact good_run H h rfl
    · exact trO_onOk h (good_run H (st := { st with wsOn := false }) h rfl) fun st' _ h2 =>
        good_ws H (st := { st' with wsOn := true }) h2 rfl
  case wsr r => exact H cx (.skip r) st h
  case posr r => exact trO_emit (.token .position (Nat.le_refl _) h) (good_run H h rfl)
  case rep c f item sep => exact rep_tr H h (good_run H h rfl)
  case nsep tag b =>
    refine trO_ifTry (trO_onOk' h (good_fin H h rfl) fun st' h1 h2 => ?_) (trO_cancelOk H h rfl)
    exact trO_emit (.error tag h1 h2) (trO_ok rfl)
  case comb tag rs els =>
    exact trO_onOk' h (H cx (.combLoop ..) { st with idx := 0 } h) fun st' _ _ => trO_ok rfl
  case combIt i => exact trO_ok rfl
  case varCreate => exact trO_ok rfl
  case flagSet => exact trO_bind fun _ => trO_ok rfl
  case flagToggle => exact trO_bind fun _ => trO_ok rfl
  case flagIs => exact trO_ok rfl
  case cntAdd => exact trO_bind fun _ => trO_ok rfl
  case cntPush => exact trO_onOk' h (good_run H h rfl) fun st' _ _ => trO_bind fun _ => trO_ok rfl
  case cntIs => exact trO_ok rfl
  case cntEq tag id ids =>
    refine trO_bind fun v => ?_
    split
    · exact trO_none
    · refine trO_some.2 ?_
      simp only
      split
      · exact .error tag (Nat.le_refl _) h
      · exact .nil
  case idCap id p len =>
    exact trO_onOk' h (trO_prim H rfl h (p.parse_tr _ _ h)) fun st' _ _ => trO_bind fun _ => trO_ok rfl
  case idRem id tag t =>
    have := t.le (E.inp.drop st.pos)
    refine trO_onOk' h (trO_tokenParse H rfl (by omega) (by omega)) fun st' h1 _ => trO_bind fun w => ?_
    refine trO_some.2 ?_
    simp only
    split
    · exact .nil
    · exact .error tag (by omega) (by omega)
  case expr i =>
    intro r hr
    obtain ⟨r1, r2, h1, h2, rfl⟩ := andThen_some.1 hr
    obtain ⟨ht, hv⟩ := H cx (.exParse i (E.exprs i).minBP) { st with ex := {} } h
    have ht1 := ht r1 h1
    have hv1 := hv r1 h1
    obtain ⟨o, st1, e1⟩ := r1
    cases o with
    | brk => cases h2
    | ok =>
      have hs : st1.ex.val.isSome := hv1.2 rfl
      simp only [hs, if_pos] at h2
      cases h2
      simpa using ht1
    | fail =>
      simp only at h2
      split at h2
      · cases h2; exact .recover ht1 .nil
      · cases h2; simpa using ht1

theorem good_stepTry (cx : Cx) (st : St) (r : Rule) (h : st.pos ≤ E.inp.length) :
    ∀ x, stepTry E rec cx st r = some x → x.evs = [] ∧ x.st = st ∧ x.out ≠ .brk := by
  have hb : ∀ (b : Bool), (if b then Out.ok else Out.fail) ≠ Out.brk := fun b => by cases b <;> simp
  have hb' : ∀ (b : Prop) [Decidable b], (if b then Out.ok else Out.fail) ≠ Out.brk := fun b _ => by split <;> simp
  have hb'' : ∀ (b : Prop) [Decidable b], (if b then Out.fail else Out.ok) ≠ Out.brk := fun b _ => by split <;> simp
  intro x hx
  have hrec : ∀ r, rec cx (.btry r) st = some x → x.evs = [] ∧ x.st = st ∧ x.out ≠ .brk :=
    fun r hr => H cx (.btry r) st h x hr
  cases r <;> unfold stepTry at hx <;> (try cases hx) <;> (try exact ⟨rfl, rfl, fun h => Out.noConfusion h⟩) <;> (try exact hrec _ hx)
  case tok t => exact ⟨rfl, rfl, hb' _⟩
  case tokr k tag r =>
    simp only at hx
    split at hx
    · cases hx
    · cases hx; exact ⟨rfl, rfl, hb' _⟩
  case prim p =>
    obtain ⟨f, _, hf⟩ := Option.bind_eq_some_iff.1 hx
    cases hf; exact ⟨rfl, rfl, hb' _⟩
  case chc rs => exact H cx (.chcTry rs) st h x hx
  case prod n =>
    simp only at hx
    split at hx
    · exact hrec _ hx
    · cases hx
  case recu n t b =>
    simp only at hx
    split at hx
    · exact hrec _ hx
    · cases hx
  case peek t r =>
    simp only at hx
    split at hx
    · cases hx
    · cases hx; exact ⟨rfl, rfl, hb' _⟩
  case peekn t r =>
    simp only at hx
    split at hx
    · cases hx
    · cases hx; exact ⟨rfl, rfl, hb'' _⟩
  case look t l => exact ⟨rfl, rfl, hb' _⟩
  case flagIs id b =>
    obtain ⟨f, _, hf⟩ := Option.bind_eq_some_iff.1 hx
    cases hf; exact ⟨rfl, rfl, hb' _⟩
  case cntIs id b =>
    obtain ⟨f, _, hf⟩ := Option.bind_eq_some_iff.1 hx
    cases hf; exact ⟨rfl, rfl, hb' _⟩
  case cntEq t id ids =>
    obtain ⟨f, _, hf⟩ := Option.bind_eq_some_iff.1 hx
    split at hf
    · cases hf
    · cases hf; exact ⟨rfl, rfl, hb'' _⟩
  case idCap id p l =>
    obtain ⟨f, _, hf⟩ := Option.bind_eq_some_iff.1 hx
    cases hf; exact ⟨rfl, rfl, hb' _⟩
  case idRem id tag t =>
    simp only at hx
    split at hx
    · obtain ⟨f, _, hf⟩ := Option.bind_eq_some_iff.1 hx
      cases hf; exact ⟨rfl, rfl, hb' _⟩
    · cases hx; exact ⟨rfl, rfl, by simp⟩

theorem good_stepCancel (cx : Cx) (st : St) (r : Rule) (h : st.pos ≤ E.inp.length) :
    ∀ x, stepCancel E rec cx st r = some x → x.out = .ok ∧ x.st = st ∧ CancelTr E.inp.length st.pos x.evs := by
  intro x hx
  have hrec : ∀ r, rec cx (.bcancel r) st = some x → x.out = .ok ∧ x.st = st ∧ CancelTr E.inp.length st.pos x.evs :=
    fun r hr => H cx (.bcancel r) st h x hr
  cases r <;> unfold stepCancel at hx <;> (try (cases hx; exact ⟨rfl, rfl, .nil⟩)) <;> (try exact hrec _ hx)
  case chc rs => exact H cx (.chcCancel rs) st h x hx
  case prod n =>
    obtain ⟨r', hr', rfl⟩ := emit_some.1 hx
    obtain ⟨r1, r2, h1, h2, rfl⟩ := andThen_some.1 hr'
    cases h2
    exact ⟨rfl, rfl, .prod (H cx (.bcancel _) st h r1 h1).2.2⟩
  case peek t r =>
    simp only at hx
    split at hx
    · cases hx
    · rename_i x' hx'
      have := tokTry_bounds H h hx'
      cases hx; exact ⟨rfl, rfl, .backtracked this.1 this.2⟩
  case peekn t r =>
    simp only at hx
    split at hx
    · cases hx
    · rename_i x' hx'
      have := tokTry_bounds H h hx'
      cases hx; exact ⟨rfl, rfl, .backtracked this.1 this.2⟩
  case look t l =>
    cases hx
    have h1 : (E.inp.drop st.pos).length = E.inp.length - st.pos := List.length_drop ..
    have := lookScan_le l E.eof (E.inp.drop st.pos)
    exact ⟨rfl, rfl, .backtracked (Nat.le_add_right _ _) (by omega)⟩

theorem good_stepFinish (cx : Cx) (st : St) (r : Rule) (h : st.pos ≤ E.inp.length) :
    TrO E.inp.length st.pos (stepFinish E rec cx st r) := by
  have hdrop : (E.inp.drop st.pos).length = E.inp.length - st.pos := List.length_drop ..
  cases r <;> unfold stepFinish <;> (try exact trO_none) <;> (try exact trO_ok rfl)
  case tok t =>
    have := t.le (E.inp.drop st.pos)
    exact trO_tokenDone H rfl (by omega) (by omega)
  case tokr k tag r =>
    simp only
    split
    · exact trO_none
    · rename_i x hx
      have := tokTry_bounds H h hx
      exact trO_tokenDone H rfl this.1 this.2
  case prim p => exact trO_prim H rfl h (p.finish_tr _ _ h)
  case els => exact good_run H h rfl
  case brk => exact good_run H h rfl
  case err => exact good_run H h rfl
  case br a b => exact trO_onOk h (good_fin H h rfl) fun st' _ h2 => good_run H h2 rfl
  case chc rs => exact H cx (.chcFinish rs) st h
  case must b e => exact good_fin H h rfl
  case lst item sep =>
    exact trO_onOk' h (trO_framed (good_fin H h rfl)) fun st' _ h2 => H _ (.lstLoop ..) _ h2
  case tryr r rc =>
    exact trO_andThen h (good_fin H h rfl) (fun st' _ h2 => trO_ok rfl) (fun st' _ h2 => trF_recov H rfl h2)
      (fun _ _ _ _ h => by cases h)
  case prod n => exact trO_production H rfl h fun cx' st' h' => good_fin H h' rfl
  case recu n tag b => exact trO_deeper rfl h fun st' h' => good_fin H h' rfl
  case peek tag r =>
    simp only
    split
    · exact trO_none
    · rename_i x hx
      have := tokTry_bounds H h hx
      exact trO_some.2 (.backtracked this.1 this.2)
  case peekn tag r =>
    simp only
    split
    · exact trO_none
    · rename_i x hx
      have := tokTry_bounds H h hx
      exact trO_some.2 (.backtracked this.1 this.2)
  case look tag l =>
    have := lookScan_le l E.eof (E.inp.drop st.pos)
    exact trO_some.2 (.backtracked (Nat.le_add_right _ _) (by omega))
  case wsn r =>
    exact trO_onOk h (good_fin H (st := { st with wsOn := false }) h rfl) fun st' _ h2 =>
      good_ws H (st := { st' with wsOn := true }) h2 rfl
  case posr r => exact trO_emit (.token .position (Nat.le_refl _) h) (good_fin H h rfl)
  case rep c f item sep => exact rep_tr H h (good_fin H h rfl)
  case cntPush => exact trO_onOk' h (good_fin H h rfl) fun st' _ _ => trO_bind fun _ => trO_ok rfl
  case idCap id p len =>
    exact trO_onOk' h (trO_prim H rfl h (p.finish_tr _ _ h)) fun st' _ _ => trO_bind fun _ => trO_ok rfl
  case idRem id tag t =>
    have := t.le (E.inp.drop st.pos)
    exact trO_tokenDone H rfl (by omega) (by omega)

omit H in
/-- `context.on(...)` of the search and what follows it. -/
theorem search_then {p b : Nat} {a c : List Ev} {st : St} {x : Option Res} (h : st.pos ≤ E.inp.length)
    (ha : Tr E.inp.length p .fail a b) (hc : SearchTr E.inp.length b st.pos c)
    (hx : TrO E.inp.length st.pos x) : ∀ r, emit (skipped b st true) x = some r →
      Tr E.inp.length p r.out (a ++ .recStart b :: (c ++ r.evs)) r.st.pos := by
  intro r hr
  obtain ⟨r', hr', rfl⟩ := emit_some.1 hr
  have := TrC.recover ha (TrC.seq (.search hc h) (hx r' hr'))
  simpa only [skipped, List.append_assoc, List.cons_append, List.nil_append, if_pos] using this

theorem good_cancelEq {cx : Cx} {r : Rule} {st : St} {f : St → Option Res} {x : Res} (h : st.pos ≤ E.inp.length)
    (hx : onOk' (rec cx (.bcancel r) st) f = some x) :
    ∃ e x', CancelTr E.inp.length st.pos e ∧ f st = some x' ∧ x = ⟨x'.out, x'.st, e ++ x'.evs⟩ := by
  obtain ⟨r1, r2, h1, h2, rfl⟩ := andThen_some.1 hx
  obtain ⟨g1, g2, g3⟩ := H cx (.bcancel r) st h r1 h1
  obtain ⟨o, st1, e1⟩ := r1
  subst g1 g2
  exact ⟨e1, r2, g3, h2, rfl⟩

theorem good_chcCancelEq {cx : Cx} {rs : List Rule} {st : St} {f : St → Option Res} {x : Res}
    (h : st.pos ≤ E.inp.length) (hx : onOk' (rec cx (.chcCancel rs) st) f = some x) :
    ∃ e x', CancelTr E.inp.length st.pos e ∧ f st = some x' ∧ x = ⟨x'.out, x'.st, e ++ x'.evs⟩ := by
  obtain ⟨r1, r2, h1, h2, rfl⟩ := andThen_some.1 hx
  obtain ⟨g1, g2, g3⟩ := H cx (.chcCancel rs) st h r1 h1
  obtain ⟨o, st1, e1⟩ := r1
  subst g1 g2
  exact ⟨e1, r2, g3, h2, rfl⟩

omit H in
theorem skipped_fail {p b : Nat} {a c : List Ev} {st : St} (h : st.pos ≤ E.inp.length)
    (ha : Tr E.inp.length p .fail a b) (hc : SearchTr E.inp.length b st.pos c) :
    Tr E.inp.length p .fail (a ++ .recStart b :: (c ++ skipped b st false)) st.pos :=
  .searchFail ha hc h

omit H in
theorem pos_lt_of_not_eof {eof : Option Nat} {pos : Nat} {b : Bool}
    (h : ¬ (b || peekEof eof (E.inp.drop pos)) = true) : pos + 1 ≤ E.inp.length := by
  refine Decidable.byContradiction fun hn => ?_
  have h1 : E.inp.drop pos = [] := List.drop_eq_nil_of_le (by omega)
  rw [h1] at h
  simp [peekEof] at h

theorem good_recoLoop (cx : Cx) (st : St) (b : Nat) (limit : List Nat → Bool) (rs : List Rule)
    (h : st.pos ≤ E.inp.length) : Good E.inp.length (.recoLoop b limit rs) st
      (step E rec cx (.recoLoop b limit rs) st) := by
  intro p a c ha hc r hr
  simp only [step, ifTry] at hr
  split at hr
  · cases hr
  · exact search_then (st := st) h ha hc (H cx (.chcFinish rs) st h) r hr
  · obtain ⟨e, x', he, hx', rfl⟩ := good_chcCancelEq H h hr
    have hc' := hc.cancelled he
    split at hx'
    · cases hx'
      have := skipped_fail h ha hc'
      simpa only [List.append_assoc] using this
    · rename_i hne
      have hlt := pos_lt_of_not_eof hne
      have := H cx (.recoLoop b limit rs) { st with pos := st.pos + 1 } hlt p a _ ha hc'.bump x' hx'
      simpa only [List.append_assoc] using this

theorem good_ltRec (cx : Cx) (st : St) (b : Nat) (term item : Rule) (sep : Option Sep) (limit : List Nat → Bool)
    (h : st.pos ≤ E.inp.length) : Good E.inp.length (.ltRec b term item sep limit) st
      (step E rec cx (.ltRec b term item sep limit) st) := by
  intro p a c ha hc r hr
  -- the part for terminator and limit
  have key : ∀ (c : List Ev), SearchTr E.inp.length b st.pos c → ∀ x,
      ifTry rec cx (.btry term) st (some ⟨.ok, st, skipped b st true⟩)
        (onOk' (rec cx (.bcancel term) st) fun st2 =>
          if limit (E.inp.drop st2.pos) || peekEof E.eof (E.inp.drop st2.pos) then
            some ⟨.fail, st2, skipped b st2 false⟩
          else rec cx (.ltRec b term item sep limit) { st2 with pos := st2.pos + 1 }) = some x →
      Tr E.inp.length p x.out (a ++ .recStart b :: (c ++ x.evs)) x.st.pos := by
    intro c hc x hx
    unfold ifTry at hx
    split at hx
    · cases hx
    · cases hx
      exact .recover ha (.search hc h)
    · obtain ⟨e, x', he, hx', rfl⟩ := good_cancelEq H h hx
      have hc' := hc.cancelled he
      split at hx'
      · cases hx'
        have := skipped_fail h ha hc'
        simpa only [List.append_assoc] using this
      · rename_i hne
        have hlt := pos_lt_of_not_eof hne
        have := H cx (.ltRec b term item sep limit) { st with pos := st.pos + 1 } hlt p a _ ha hc'.bump x' hx'
        simpa only [List.append_assoc] using this
  have key2 : ∀ r', onOk' (rec cx (.bcancel r') st) (fun st' =>
        ifTry rec cx (.btry term) st' (some ⟨.ok, st', skipped b st' true⟩)
        (onOk' (rec cx (.bcancel term) st') fun st2 =>
          if limit (E.inp.drop st2.pos) || peekEof E.eof (E.inp.drop st2.pos) then
            some ⟨.fail, st2, skipped b st2 false⟩
          else rec cx (.ltRec b term item sep limit) { st2 with pos := st2.pos + 1 })) = some r →
      Tr E.inp.length p r.out (a ++ .recStart b :: (c ++ r.evs)) r.st.pos := by
    intro r' hr
    obtain ⟨e, x', he, hx', rfl⟩ := good_cancelEq H h hr
    have := key _ (hc.cancelled he) x' hx'
    simpa only [List.append_assoc] using this
  cases sep with
  | some s =>
    obtain ⟨sp, k⟩ := s
    simp only [step] at hr
    unfold ifTry at hr
    split at hr
    · cases hr
    · refine search_then (st := st) h ha hc ?_ r hr
      exact trO_andThen h (trO_framed (good_fin H h rfl)) (fun st' h1 h2 => H cx (.ltTrail ..) _ h2 h1)
        (fun st' _ h2 => trF_ltRec H h2) (fun _ _ _ _ h => by cases h)
    · exact key2 sp hr
  | none =>
    simp only [step] at hr
    split at hr
    · unfold ifTry at hr
      split at hr
      · cases hr
      · refine search_then (st := st) h ha hc ?_ r hr
        exact trO_andThen h (trO_framed (good_fin H h rfl)) (fun st' _ h2 => H cx (.ltTerm ..) _ h2)
          (fun st' _ h2 => trF_ltRec H h2) (fun _ _ _ _ h => by cases h)
      · exact key2 item hr
    · exact key c hc r hr

theorem good_recov (cx : Cx) (st : St) (rc : Recov) (h : st.pos ≤ E.inp.length) :
    TrF E.inp.length st.pos (step E rec cx (.recov rc) st) := by
  cases rc with
  | wrap r =>
    simp only [step]
    refine TrOC.toF ?_
    intro x hx
    obtain ⟨r', hr', rfl⟩ := emit_some.1 hx
    obtain ⟨r1, r2, h1, h2, rfl⟩ := andThen_some.1 hr'
    have ht := trO_onOk' h (good_run H h rfl) (fun st' _ h2 => good_ws H h2 rfl) r1 h1
    obtain ⟨o, st1, e1⟩ := r1
    cases o with
    | ok => cases h2; exact .recovery ht
    | fail => cases h2; exact .recoveryFail ht
    | brk => cases h2
  | find l =>
    intro p a ha r hr
    have h1 : (E.inp.drop st.pos).length = E.inp.length - st.pos := List.length_drop ..
    have h2 := findScan_le l E.eof (E.inp.drop st.pos)
    have hs : ∀ k, SearchTr E.inp.length st.pos (st.pos + k) [] := by
      intro k
      induction k with
      | zero => exact .start
      | succ k ih => exact .bump ih
    simp only [step] at hr
    generalize findScan l E.eof (E.inp.drop st.pos) = fs at hr h2
    obtain ⟨b, n⟩ := fs
    cases hr
    cases b with
    | true => exact .recover ha (.search (hs n) (by simp only at h2 ⊢; omega))
    | false => exact .searchFail ha (hs n) (by simp only at h2 ⊢; omega)
  | reco limit rs =>
    intro p a ha r hr
    simp only [step] at hr
    obtain ⟨r', hr', rfl⟩ := emit_some.1 hr
    have := H cx (.recoLoop st.pos limit rs) st h p a [] ha .start r' hr'
    simpa using this

/-- Expressions: the result of the value. -/
def ExOk (x : Option Res) : Prop := ∀ r, x = some r → r.out ≠ .brk ∧ (r.out = .ok → r.st.ex.val.isSome)

omit H in
theorem exOk_onOk' {x : Option Res} {f : St → Option Res} {p : Nat} (h : p ≤ E.inp.length)
    (hx : TrO E.inp.length p x) (hf : ∀ st, st.pos ≤ E.inp.length → ExOk (f st)) : ExOk (onOk' x f) := by
  intro r hr
  obtain ⟨r1, r2, h1, h2, rfl⟩ := andThen_some.1 hr
  have hb := (hx r1 h1).bounds h
  obtain ⟨o, st1, e1⟩ := r1
  cases o with
  | ok => exact hf st1 hb.2 r2 h2
  | fail => cases h2; exact ⟨by simp, by simp⟩
  | brk => cases h2

omit H in
theorem exOk_bind {α : Type} {x : Option α} {f : α → Option Res} (hf : ∀ v, ExOk (f v)) : ExOk (x.bind f) := by
  cases x with
  | none => intro r hr; cases hr
  | some v => exact hf v

omit H in
theorem exOk_emit {evs : List Ev} {x : Option Res} (hf : ExOk x) : ExOk (emit evs x) := by
  intro r hr
  obtain ⟨r', hr', rfl⟩ := emit_some.1 hr
  exact hf r' hr'

omit H in
theorem exOk_framed {n : Nat} {x : Option Res} (hf : ExOk x) : ExOk (framed n x) := by
  intro r hr
  obtain ⟨r', hr', rfl⟩ := framed_some.1 hr
  exact hf r' hr'

theorem trO_opFinish {cx : Cx} {k : Kind} {r : Rule} {b : Nat} {st : St} (hb : b ≤ st.pos)
    (h : st.pos ≤ E.inp.length) : TrO E.inp.length b (opFinish rec cx k r b st) :=
  trO_emit (.token k hb h) (trO_onOk' h (good_ws H h rfl) fun st' _ h2 => good_run H h2 rfl)

theorem good_opCont (cx : Cx) (i : Nat) (o : OpDef) (st : St) (h : st.pos ≤ E.inp.length) :
    TrOC true E.inp.length st.pos (opCont E rec cx i o st) ∧ ExOk (opCont E rec cx i o st) := by
  have hdrop : ∀ p, (E.inp.drop p).length = E.inp.length - p := fun p => List.length_drop ..
  have infix_ : ∀ b : Bool, TrOC true E.inp.length st.pos (opInfix E rec cx i o b st) ∧ ExOk (opInfix E rec cx i o b st) := by
    unfold opInfix
    intro b
    constructor
    · refine trO_andThen h (H cx (.exParse ..) { st with ex := { st.ex with val := none } } h).1.lift ?_
        (fun st' _ _ => trF_fail rfl)
        (fun _ _ _ _ h => by cases h)
      intro st' _ h2
      refine trO_bind fun lhs => trO_bind fun rhs => ?_
      split
      · split
        · exact trO_none
        · exact trO_some.2 (.op _)
        · rename_i hp
          have := parseOperator_le hp
          have := hdrop st'.pos
          exact trO_some.2 (.seq (.error _ (Nat.le_add_right _ _) (by omega)) (.op _))
      · exact trO_some.2 (.op _)
    · intro r hr
      obtain ⟨r1, r2, h1, h2, rfl⟩ := andThen_some.1 hr
      obtain ⟨out, st1, e1⟩ := r1
      cases out with
      | brk => cases h2
      | fail => cases h2; exact ⟨by simp, by simp⟩
      | ok =>
        refine (exOk_bind (x := st.ex.val) fun lhs => exOk_bind (x := st1.ex.val) fun rhs => ?_) r2 h2
        intro r hr
        simp only at hr
        split at hr
        · split at hr
          · cases hr
          · cases hr; exact ⟨by simp, by simp⟩
          · cases hr; exact ⟨by simp, by simp⟩
        · cases hr; exact ⟨by simp, by simp⟩
  unfold opCont
  cases hk : o.kind with
  | infixList =>
    simp only
    constructor
    · exact trO_bind fun v => (H cx (.exList ..) { st with ex := { st.ex with val := none } } h).1
    · exact exOk_bind fun v => (H cx (.exList ..) { st with ex := { st.ex with val := none } } h).2
  | «prefix» =>
    simp only
    constructor
    · exact trO_onOk' h (H cx (.exParse ..) st h).1.lift fun st' _ _ => trO_bind fun v => trO_some.2 (.op _)
    · refine exOk_onOk' h (H cx (.exParse ..) st h).1 fun st' _ => exOk_bind fun v => ?_
      intro r hr; cases hr; exact ⟨by simp, by simp⟩
  | «postfix» =>
    simp only
    constructor
    · exact trO_bind fun v => trO_some.2 (.op _)
    · refine exOk_bind fun v => ?_
      intro r hr; cases hr; exact ⟨by simp, by simp⟩
  | infixLeft => exact infix_ false
  | infixRight => exact infix_ false
  | infixSingle => exact infix_ true

theorem good_exApply (cx : Cx) (st : St) (i : Nat) (o : OpDef) (k : Kind) (r : Rule) (b : Nat)
    (h : st.pos ≤ E.inp.length) :
    Good E.inp.length (.exApply i o k r b) st (step E rec cx (.exApply i o k r b) st) := by
  intro hb
  simp only [step]
  split
  · exact ⟨trO_some.2 (.errorFail _ hb h), fun r hr => by cases hr; exact ⟨by simp, by simp⟩⟩
  · constructor
    · refine trO_emit (q := b) ?_ (trO_onOk' (Nat.le_trans hb h)
        (TrOC.lift (trO_opFinish H hb h))
        fun st' _ h2 => (good_opCont H cx i o st' h2).1)
      split
      · exact .error _ hb h
      · exact .nil
    · exact exOk_emit (exOk_onOk' (Nat.le_trans hb h)
        (trO_opFinish H (st := { st with ex := { st.ex with nest := _, group := _ } }) hb h)
        fun st' h2 => (good_opCont H cx i o st' h2).2)

theorem good_exList (cx : Cx) (st : St) (i : Nat) (o : OpDef) (items : List ETree) (h : st.pos ≤ E.inp.length) :
    Good E.inp.length (.exList i o items) st (step E rec cx (.exList i o items) st) := by
  have hdrop : ∀ p, (E.inp.drop p).length = E.inp.length - p := fun p => List.length_drop ..
  simp only [step]
  constructor
  · refine trO_andThen h (H cx (.exParse ..) st h).1.lift ?_
      (fun st' _ _ => trF_fail rfl) (fun _ _ _ _ h => by cases h)
    intro st' _ h2
    refine trO_bind fun v => ?_
    split
    · exact trO_none
    · exact trO_some.2 (.op _)
    · rename_i hp
      have := parseOperator_le hp
      have := hdrop st'.pos
      refine trO_andThen h2 (trO_framed (trO_opFinish H
        (st := { st' with pos := _, ex := { st'.ex with val := none } }) (Nat.le_add_right _ _)
          (by simp only; omega)).lift) ?_
        (fun st' _ _ => trF_fail rfl) (fun _ _ _ _ h => by cases h)
      intro st'' _ h3
      exact (H cx (.exList ..) st'' h3).1
  · intro r hr
    obtain ⟨r1, r2, h1, h2, rfl⟩ := andThen_some.1 hr
    have hb := ((H cx (.exParse ..) st h).1 r1 h1).bounds h
    obtain ⟨out, st1, e1⟩ := r1
    simp only at hb
    cases out with
    | brk => cases h2
    | fail => cases h2; exact ⟨by simp, by simp⟩
    | ok =>
      refine (exOk_bind (x := st1.ex.val) fun v => ?_) r2 h2
      intro r hr
      simp only at hr
      split at hr
      · cases hr
      · cases hr; exact ⟨by simp, by simp⟩
      · rename_i hp
        have := parseOperator_le hp
        have := hdrop st1.pos
        obtain ⟨r3, r4, h3, h4, rfl⟩ := andThen_some.1 hr
        have hb2 := (trO_framed (trO_opFinish H
          (st := { st1 with pos := _, ex := { st1.ex with val := none } }) (Nat.le_add_right _ _)
          (by simp only; omega)) r3 h3).bounds hb.2
        obtain ⟨out, st3, e3⟩ := r3
        cases out with
        | brk => cases h4
        | fail => cases h4; exact ⟨by simp, by simp⟩
        | ok => exact (H cx (.exList ..) st3 hb2.2).2 r4 h4

theorem good_exLhs (cx : Cx) (st : St) (i min : Nat) (h : st.pos ≤ E.inp.length) :
    Good E.inp.length (.exLhs i min) st (step E rec cx (.exLhs i min) st) := by
  have hdrop : ∀ p, (E.inp.drop p).length = E.inp.length - p := fun p => List.length_drop ..
  simp only [step]
  constructor
  · split
    · exact trO_none
    · exact trO_onOk' h (trO_framed (good_run H h rfl)) fun st' _ _ => trO_ok rfl
    · rename_i o k r n hp
      have := parseOperator_le hp
      have := hdrop st.pos
      intro x hr
      obtain ⟨r', hr', rfl⟩ := emit_some.1 hr
      obtain ⟨r1, r2, h1, h2, rfl⟩ := andThen_some.1 hr'
      cases h2
      have g := H cx (.exApply i o k r st.pos) { st with pos := st.pos + n } (by simp only; omega) (Nat.le_add_right _ _)
      have ht := trO_framed g.1 r1 h1
      obtain ⟨x1, hx1, rfl⟩ := framed_some.1 h1
      exact .chain ht (g.2 x1 hx1).1
  · split
    · intro r hr; cases hr
    · refine exOk_onOk' h (trO_framed (good_run H h rfl)) fun st' _ => ?_
      intro r hr; cases hr; exact ⟨by simp, by simp⟩
    · rename_i o k r n hp
      have := parseOperator_le hp
      have := hdrop st.pos
      refine exOk_emit ?_
      intro x hr
      obtain ⟨r1, r2, h1, h2, rfl⟩ := andThen_some.1 hr
      cases h2
      obtain ⟨x1, hx1, rfl⟩ := framed_some.1 h1
      exact (H cx (.exApply i o k r st.pos) { st with pos := st.pos + n } (by simp only; omega) (Nat.le_add_right _ _)).2
        x1 hx1

omit H in
theorem andThen_ex {x : Option Res} {f : St → Option Res} {p : Nat} {c : Bool} (h : p ≤ E.inp.length)
    (hx : TrOC c E.inp.length p x) (hv : ExOk x)
    (hf : ∀ st, st.pos ≤ E.inp.length → st.ex.val.isSome → TrOC c E.inp.length st.pos (f st) ∧ ExOk (f st)) :
    TrOC c E.inp.length p (onOk' x f) ∧ ExOk (onOk' x f) := by
  constructor
  · intro r hr
    obtain ⟨r1, r2, h1, h2, rfl⟩ := andThen_some.1 hr
    have ht := hx r1 h1
    have hv1 := hv r1 h1
    obtain ⟨o, st1, e1⟩ := r1
    cases o with
    | ok => exact .seq ht ((hf st1 (ht.bounds h).2 (hv1.2 rfl)).1 r2 h2)
    | fail => cases h2; simpa using ht
    | brk => cases h2
  · intro r hr
    obtain ⟨r1, r2, h1, h2, rfl⟩ := andThen_some.1 hr
    have ht := hx r1 h1
    have hv1 := hv r1 h1
    obtain ⟨o, st1, e1⟩ := r1
    cases o with
    | ok => exact (hf st1 (ht.bounds h).2 (hv1.2 rfl)).2 r2 h2
    | fail => cases h2; exact ⟨by simp, by simp⟩
    | brk => cases h2

theorem good_exLoop (cx : Cx) (st : St) (i min : Nat) (h : st.pos ≤ E.inp.length) :
    Good E.inp.length (.exLoop i min) st (step E rec cx (.exLoop i min) st) := by
  intro hs
  have hdrop : ∀ p, (E.inp.drop p).length = E.inp.length - p := fun p => List.length_drop ..
  simp only [step]
  split
  · exact ⟨trO_none, fun r hr => by cases hr⟩
  · exact ⟨trO_ok rfl, fun r hr => by cases hr; exact ⟨by simp, fun _ => hs⟩⟩
  · rename_i o k r n hp
    have := parseOperator_le hp
    have := hdrop st.pos
    have g := H cx (.exApply i o k r st.pos) { st with pos := st.pos + n } (by simp only; omega) (Nat.le_add_right _ _)
    exact andThen_ex h (trO_framed g.1) (exOk_framed g.2) fun st' h' hv => H cx (.exLoop i min) st' h' hv

theorem good_exParse (cx : Cx) (st : St) (i min : Nat) (h : st.pos ≤ E.inp.length) :
    Good E.inp.length (.exParse i min) st (step E rec cx (.exParse i min) st) := by
  simp only [step]
  split
  · exact H cx (.exLhs i min) st h
  · have g := H cx (.exLhs i min) st h
    have g' := andThen_ex (f := fun st' => rec cx (.exLoop i min) st') (c := true) h g.1.lift g.2
      fun st' h' hv => H cx (.exLoop i min) st' h' hv
    constructor
    · intro r hr
      obtain ⟨r', hr', rfl⟩ := emit_some.1 hr
      obtain ⟨r1, r2, h1, h2, rfl⟩ := andThen_some.1 hr'
      cases h2
      exact .chain (g'.1 r1 h1) (g'.2 r1 h1).1
    · refine exOk_emit ?_
      intro r hr
      obtain ⟨r1, r2, h1, h2, rfl⟩ := andThen_some.1 hr
      cases h2
      exact g'.2 r1 h1

theorem good_step (cx : Cx) (c : Cmd) (st : St) (h : st.pos ≤ E.inp.length) :
    Good E.inp.length c st (step E rec cx c st) := by
  have hdrop : (E.inp.drop st.pos).length = E.inp.length - st.pos := List.length_drop ..
  cases c
  case run r => exact good_stepRun H cx st r h
  case btry r => exact good_stepTry H cx st r h
  case bcancel r => exact good_stepCancel H cx st r h
  case bfinish r => exact good_stepFinish H cx st r h
  case ltRec => exact good_ltRec H cx st _ _ _ _ _ h
  case recoLoop => exact good_recoLoop H cx st _ _ _ h
  case recov => exact good_recov H cx st _ h
  case exParse => exact good_exParse H cx st _ _ h
  case exLhs => exact good_exLhs H cx st _ _ h
  case exLoop => exact good_exLoop H cx st _ _ h
  case exApply => exact good_exApply H cx st _ _ _ _ _ h
  case exList => exact good_exList H cx st _ _ _ h
  case chcTry rs =>
    intro x hx
    cases rs with
    | nil => cases hx; exact ⟨rfl, rfl, by simp⟩
    | cons r rs =>
      simp only [step, ifTry] at hx
      split at hx
      · cases hx
      · cases hx; exact ⟨rfl, rfl, by simp⟩
      · exact H cx (.chcTry rs) st h x hx
  case chcRun rs =>
    show TrO _ _ _
    cases rs with
    | nil => exact trO_some.2 (.errorFail 0 (Nat.le_refl _) h)
    | cons r rs =>
      exact trO_ifTry (good_fin H h rfl) (trO_onOk' h (good_cancel H h rfl) fun st' _ h2 => H cx (.chcRun rs) st' h2)
  case chcCancel rs =>
    intro x hx
    cases rs with
    | nil => cases hx; exact ⟨rfl, rfl, .nil⟩
    | cons r rs =>
      obtain ⟨e, x', he, hx', rfl⟩ := good_cancelEq H h hx
      obtain ⟨h1, h2, h3⟩ := H cx (.chcCancel rs) st h x' hx'
      exact ⟨h1, h2, .append he h3⟩
  case chcFinish rs =>
    show TrO _ _ _
    cases rs with
    | nil => exact trO_none
    | cons r rs =>
      exact trO_ifTry (good_fin H h rfl)
        (trO_onOk' h (good_cancel H h rfl) fun st' _ h2 => H cx (.chcFinish rs) st' h2)
  case tokTry r =>
    have hn : ∀ r' x, (match nested rec r' st.pos with
        | none => none
        | some (b, e, evs) => ret (if b && !evs.any Ev.isError then .ok else .fail) { st with pos := e }) = some x →
        x.evs = [] ∧ x.out ≠ .brk ∧ st.pos ≤ x.st.pos ∧ x.st.pos ≤ E.inp.length := by
      intro r' x hx
      split at hx
      · cases hx
      · rename_i hn
        have := (nested_tr H h hn).bounds h
        cases hx
        refine ⟨rfl, ?_, this.1, this.2⟩
        simp only
        split <;> simp
    intro x hx
    cases r
    case tok t =>
      have := t.le (E.inp.drop st.pos)
      cases hx
      refine ⟨rfl, ?_, Nat.le_add_right _ _, by simp only; omega⟩
      simp only
      split <;> simp
    all_goals exact hn _ x hx
  case ws =>
    show TrO _ _ _
    simp only [step]
    split
    · exact trO_ok rfl
    · split
      · exact H cx (.skip _) st h
      · exact trO_ok rfl
  case skip r =>
    show TrO _ _ _
    simp only [step]
    split
    · intro x hx
      obtain ⟨r1, r2, h1, h2, rfl⟩ := andThen_some.1 hx
      obtain ⟨g1, g2, g3, g4⟩ := H cx (.tokLoop r) st h r1 h1
      obtain ⟨o, st1, e1⟩ := r1
      simp only at g1 g2 g3 g4
      subst g1 g2
      cases h2
      exact .token _ g3 g4
    · split
      · exact trO_none
      · rename_i b e evs hx
        have ht := nested_tr H h hx
        have hb := ht.bounds h
        have hes : ∀ ev ∈ evs.filter Ev.isError, ∃ tag b e, ev = .error tag b e ∧ b ≤ e ∧ e ≤ E.inp.length := by
          intro ev hev
          rw [List.mem_filter] at hev
          exact ht.error_bounds h ev hev.1 hev.2
        refine trO_some.2 ?_
        cases b with
        | false =>
          refine .wsFail ?_ hes hb.1 hb.2
          obtain ⟨ev, h1, h2⟩ := ht.fail_error rfl
          intro hnil
          have : ev ∈ evs.filter Ev.isError := List.mem_filter.2 ⟨h1, h2⟩
          rw [hnil] at this
          cases this
        | true =>
          refine .seq (q := st.pos) ?_ (.token _ hb.1 hb.2)
          generalize evs.filter Ev.isError = es at hes
          induction es with
          | nil => exact .nil
          | cons ev es ih =>
            obtain ⟨tag, b, e, rfl, h1, h2⟩ := hes ev (List.mem_cons_self ..)
            exact .seq (a := [_]) (.error tag h1 h2) (ih fun ev hev => hes ev (List.mem_cons_of_mem _ hev))
  case tokLoop r =>
    intro x hx
    simp only [step] at hx
    split at hx
    · cases hx
    · rename_i x' hx'
      have hb := tokTry_bounds H h hx'
      split at hx
      · obtain ⟨g1, g2, g3, g4⟩ := H cx (.tokLoop r) { st with pos := x'.st.pos } hb.2 x hx
        exact ⟨g1, g2, Nat.le_trans hb.1 g3, g4⟩
      · cases hx; exact ⟨rfl, rfl, Nat.le_refl _, h⟩
  case loopR r =>
    show TrO _ _ _
    simp only [step]
    refine trO_andThen h (trO_framed (good_run H h rfl)) (fun st' _ h2 => H cx (.loopR r) st' h2)
      (fun _ _ _ => trF_fail rfl) (fun st' a ha x hx => ?_)
    cases hx
    simpa using TrC.caught ha
  case whlR b =>
    show TrO _ _ _
    exact trO_ifTry (trO_onOk' h (trO_framed (good_fin H h rfl)) fun st' _ h2 => H cx (.whlR b) st' h2)
      (trO_cancelOk H h rfl)
  case lstLoop item sep =>
    show TrO _ _ _
    cases sep with
    | none =>
      simp only [step]
      split
      · exact trO_ifTry (trO_onOk' h (trO_framed (good_fin H h rfl)) fun st' _ h2 => H cx (.lstLoop ..) st' h2)
          (trO_cancelOk H h rfl)
      · exact trO_none
    | some s =>
      obtain ⟨sep, k⟩ := s
      simp only [step]
      refine trO_ifTry (trO_onOk' h (trO_framed (good_fin H h rfl)) fun st1 g1 h1 => ?_) (trO_cancelOk H h rfl)
      split
      · refine trO_ifTry (trO_onOk' h1 (trO_framed (good_fin H h1 rfl)) fun st' _ h2 => H cx (.lstLoop ..) st' h2)
          (trO_onOk' h1 (good_cancel H h1 rfl) fun st2 _ h2 => trO_some.2 ?_)
        cases k with
        | sep tag => exact .error tag g1 h1
        | trailing => exact .nil
        | ignoreTrailing => exact .nil
      · exact trO_onOk' h1 (trO_framed (good_run H h1 rfl)) fun st' _ h2 => H cx (.lstLoop ..) st' h2
  case ltTerm term item sep limit =>
    show TrO _ _ _
    exact trO_ifTry (trO_ok rfl) (trO_onOk' h (good_cancel H h rfl) fun st' _ h2 => H cx (.ltSep ..) st' h2)
  case ltSep term item sep limit =>
    show TrO _ _ _
    cases sep with
    | none => exact H cx (.ltItem ..) st h
    | some s =>
      obtain ⟨sep, k⟩ := s
      simp only [step]
      refine trO_andThen h (trO_framed (good_run H h rfl)) (fun st1 g1 h1 => H cx (.ltTrail ..) st1 h1 g1) ?_
        (fun _ _ _ _ h => by cases h)
      intro st1 g1 h1
      simp only
      split
      · intro p a ha x hx
        unfold ifTry at hx
        split at hx
        · cases hx
        · obtain ⟨r1, r2, e1, e2, rfl⟩ := andThen_some.1 hx
          have ht := trO_framed (good_fin H h1 rfl) r1 e1
          have hb := ht.bounds h1
          obtain ⟨o, st2, ev2⟩ := r1
          cases o with
          | brk => cases e2
          | ok => exact .recover ha (.seq ht (H cx (.ltTerm ..) st2 hb.2 r2 e2))
          | fail =>
            obtain ⟨r3, r4, e3, e4, rfl⟩ := andThen_some.1 e2
            obtain ⟨c1, c2, c3⟩ := H cx (.bcancel item) st1 h1 r3 e3
            obtain ⟨r5, e5, rfl⟩ := emit_some.1 e4
            have hfail : Tr E.inp.length p .fail (a ++ ev2 ++ r3.evs) st2.pos :=
              .failAfter (.recover ha ht) (.cancelled hb.1 c3)
            have := H cx (.ltRec ..) st2 hb.2 _ _ [] hfail .start r5 e5
            simpa only [List.append_assoc, List.cons_append, List.nil_append] using this
        · obtain ⟨e, x', he, hx', rfl⟩ := good_cancelEq H h1 hx
          have hfail := TrC.failAfter ha (.cancelled (Nat.le_refl _) he)
          have := trF_ltRec H h1 _ _ hfail x' hx'
          simpa only [List.append_assoc] using this
      · exact trF_ltRec H h1
  case ltTrail sepPos term item sep limit =>
    intro hs
    refine trO_ifTry (trO_some.2 ?_) (H cx (.ltItem ..) st h)
    cases sep with
    | none => exact .nil
    | some s =>
      obtain ⟨sep, k⟩ := s
      cases k with
      | sep tag => exact .error tag hs h
      | trailing => exact .nil
      | ignoreTrailing => exact .nil
  case ltItem term item sep limit =>
    show TrO _ _ _
    simp only [step]
    exact trO_andThen h (trO_framed (good_run H h rfl)) (fun st1 _ h1 => H cx (.ltTerm ..) st1 h1)
      (fun st1 _ h1 => trF_ltRec H h1) (fun _ _ _ _ h => by cases h)
  case repTail k item sep =>
    show TrO _ _ _
    cases k with
    | zero => exact trO_framed (good_run H h rfl)
    | succ k =>
      refine trO_onOk' h ?_ fun st1 _ h1 =>
        trO_onOk' h1 (trO_framed (good_run H h1 rfl)) fun st2 _ h2 => H cx (.repTail ..) st2 h2
      cases sep with
      | none => exact trO_ok rfl
      | some s => exact trO_framed (good_run H h rfl)
  case combLoop tag rs n handled count =>
    show TrO _ _ _
    simp only [step]
    split
    · exact trO_ok rfl
    · refine trO_andThen h (trO_framed (H cx (.chcRun rs) st h)) (fun st1 g1 h1 => ?_) (fun _ _ _ => trF_fail rfl)
        (fun st' a ha x hx => ?_)
      · simp only
        split
        · exact trO_emit (.error tag g1 h1) (H cx (.combLoop ..) st1 h1)
        · exact H cx (.combLoop ..) st1 h1
      · cases hx
        simpa using TrC.caught ha

end

/-- Everything the interpreter does is a trace. -/
theorem exec_good (E : Env) (n : Nat) (cx : Cx) (c : Cmd) (st : St) (h : st.pos ≤ E.inp.length) :
    Good E.inp.length c st (exec E n cx c st) := by
  induction n generalizing cx c st with
  | zero =>
    have e : exec E 0 cx c st = none := rfl
    rw [e]
    cases c <;> simp [Good, TrO, TrF, TrOC, TrFC]
  | succ n ih => exact good_step ih cx c st h

end Verif
