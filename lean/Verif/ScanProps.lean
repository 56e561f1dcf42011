import Verif.Scan
import Verif.ActionProps
import Verif.ChoiceProps
import Verif.GrammarEx

/-
C74: scanners.
-/

namespace Verif

open Spec

namespace Spec

/-- How many recovery guards are open after the calls, if there were `g` before; `none` if a guard is used that does
    not exist. -/
def openGuards : List ScanOp → Nat → Option Nat
  | [], g => some g
  | .recover :: os, g => openGuards os (g + 1)
  | .guardFinish :: os, g + 1 => openGuards os g
  | .guardCancel :: os, g + 1 => openGuards os g
  | .guardFinish :: _, 0 => none
  | .guardCancel :: _, 0 => none
  | _ :: os, g => openGuards os g

/-- The ranges of the errors that the client reports itself are inside of the input. -/
def opIn (len : Nat) : ScanOp → Prop
  | .error _ b e | .fatal _ b e => b ≤ e ∧ e ≤ len
  | _ => True

end Spec

theorem errors_append (a b : List Ev) : Spec.errors (a ++ b) = Spec.errors a ++ Spec.errors b := by
  induction a with
  | nil => rfl
  | cons e a ih => cases e <;> simp [Spec.errors, ih]

theorem errors_of_isError {evs : List Ev} {ev : Ev} (h : ev ∈ evs) (he : ev.isError = true) : Spec.errors evs ≠ [] := by
  cases ev <;> first | exact errors_mem h | (simp [Ev.isError] at he)

/-- What a call adds to the events, apart from the guards. -/
structure ScanChunk (len p : Nat) (c : List Ev) (q : Nat) : Prop where
  le : p ≤ q
  inside : q ≤ len
  nest : ∀ s, nest s c = some s
  tile : Adjacent p (tokens c) q
  inn : ∀ ev ∈ c, evIn len ev

theorem ScanChunk.ofTr {len p q : Nat} {o : Out} {c : List Ev} (h : Tr len p o c q) (hp : p ≤ len) :
    ScanChunk len p c q :=
  ⟨(h.bounds hp).1, (h.bounds hp).2, fun s => h.nest_eq hp s (fun h => by cases h), h.tile, h.evs_in hp⟩

theorem ScanChunk.ofCancel {len p : Nat} {c : List Ev} (h : CancelTr len p c) (hp : p ≤ len) : ScanChunk len p c p :=
  ⟨Nat.le_refl _, hp, fun s => nest_cancel h s, by rw [tokens_cancel h]; rfl, evIn_cancel h hp⟩

/-- The invariant: `g` guards are open; before the scanner started the events were nested as `b0`, and without the
    guards they are nested as `b` now. -/
structure ScanInv (len p0 : Nat) (b0 b : List Opened) (g : Nat) (s : Scanner) : Prop where
  le : p0 ≤ s.st.pos
  inside : s.st.pos ≤ len
  nest : ∃ bs : List Nat, bs.length = g ∧ (∀ x ∈ bs, x ≤ s.st.pos) ∧
    nest b0 s.evs = some (bs.map Opened.recovery ++ b)
  tile : Adjacent p0 (tokens s.evs) s.st.pos
  inn : ∀ ev ∈ s.evs, evIn len ev
  err : s.mode ≠ .normal ∨ g ≠ 0 → Spec.errors s.evs ≠ []

theorem ScanInv.add {len p0 g : Nat} {b0 b : List Opened} {s : Scanner} (h : ScanInv len p0 b0 b g s) {c : List Ev}
    {st : St} (hc : ScanChunk len s.st.pos c st.pos) {m : ScanMode}
    (hm : m = s.mode ∨ ∃ ev ∈ c, ev.isError = true) : ScanInv len p0 b0 b g ⟨st, m, s.evs ++ c⟩ := by
  obtain ⟨bs, h1, h2, h3⟩ := h.nest
  refine ⟨Nat.le_trans h.le hc.le, hc.inside, ⟨bs, h1, fun x hx => Nat.le_trans (h2 x hx) hc.le, ?_⟩, ?_, ?_, ?_⟩
  · simp only [nest_append, h3, Option.bind_some, hc.nest]
  · simp only [tokens_append]; exact adjacent_append h.tile hc.tile
  · intro ev hev
    rcases List.mem_append.1 hev with hev | hev
    · exact h.inn ev hev
    · exact hc.inn ev hev
  · intro hh
    simp only [errors_append]
    rcases hm with rfl | ⟨ev, h4, h5⟩
    · exact fun hn => h.err hh (List.append_eq_nil_iff.1 hn).1
    · exact fun hn => errors_of_isError h4 h5 (List.append_eq_nil_iff.1 hn).2

theorem ScanInv.after {len p0 g : Nat} {b0 b : List Opened} {s s' : Scanner} (h : ScanInv len p0 b0 b g s) {r : Res}
    (ht : Tr len s.st.pos r.out r.evs r.st.pos) (ha : s.after r = some s') : ScanInv len p0 b0 b g s' := by
  have hc := ScanChunk.ofTr ht h.inside
  unfold Scanner.after at ha
  cases ho : r.out with
  | ok => rw [ho] at ha; cases ha; exact h.add (st := { r.st with ex := s.st.ex }) hc (.inl rfl)
  | fail =>
    rw [ho] at ha; cases ha
    exact h.add (st := { r.st with ex := s.st.ex }) hc (.inr (ht.fail_error ho))
  | brk => rw [ho] at ha; cases ha

theorem framed_tr {len p n : Nat} {x : Option Res} (h : TrO len p x) : TrO len p (framed n x) := trO_framed h

theorem ScanInv.step {E : Env} {fuel : Nat} {cx : Cx} {p0 g g' : Nat} {b0 b : List Opened} {s s' : Scanner}
    {o : ScanOp} {v : Bool} (h : ScanInv E.inp.length p0 b0 b g s) (hs : s.step E fuel cx o = some (s', v))
    (hg : openGuards [o] g = some g') (ho : opIn E.inp.length o) : ScanInv E.inp.length p0 b0 b g' s' := by
  have hp : ({ s.st with ex := {} } : St).pos ≤ E.inp.length := h.inside
  cases o with
  | parse r =>
    cases hg
    simp only [Scanner.step] at hs
    split at hs
    · cases hs; exact h
    · obtain ⟨x, hx, he⟩ := Option.map_eq_some_iff.1 hs
      cases he
      obtain ⟨y, hy, ha⟩ := Option.bind_eq_some_iff.1 hx
      exact h.after (framed_tr (exec_good E fuel cx (.run r) _ hp) y hy) ha
  | branch r =>
    cases hg
    simp only [Scanner.step] at hs
    split at hs
    · cases hs; exact h
    · split at hs
      · cases hs
      · split at hs
        · obtain ⟨x, hx, he⟩ := Option.map_eq_some_iff.1 hs
          cases he
          obtain ⟨y, hy, ha⟩ := Option.bind_eq_some_iff.1 hx
          exact h.after (framed_tr (exec_good E fuel cx (.bfinish r) _ hp) y hy) ha
        · obtain ⟨x, hx, he⟩ := Option.map_eq_some_iff.1 hs
          cases he
          obtain ⟨y, hy, ha⟩ := Option.bind_eq_some_iff.1 hx
          obtain ⟨h1, h2, h3⟩ := exec_good E fuel cx (.bcancel r) _ hp y hy
          refine h.after (r := y) ?_ ha
          rw [h1, h2]
          exact .cancelled (Nat.le_refl _) h3
  | discard r =>
    cases hg
    simp only [Scanner.step] at hs
    split at hs
    · cases hs; exact h
    · split at hs
      · cases hs
      · rename_i t ht
        cases hs
        obtain ⟨_, _, h3, h4⟩ := exec_good E fuel cx (.tokTry r) _ h.inside t ht
        have hb : s.st.pos ≤ (if t.out = .ok then t.st.pos else s.st.pos) ∧
            (if t.out = .ok then t.st.pos else s.st.pos) ≤ E.inp.length := by
          split
          · exact ⟨h3, h4⟩
          · exact ⟨Nat.le_refl _, h.inside⟩
        exact h.add (st := { s.st with pos := _ }) (ScanChunk.ofTr (.token .error hb.1 hb.2) h.inside) (.inl rfl)
  | error tag x y =>
    cases hg; cases hs
    exact h.add (st := s.st) (ScanChunk.ofTr (.error tag ho.1 ho.2) h.inside) (.inl rfl)
  | fatal tag x y =>
    cases hg; cases hs
    exact h.add (st := s.st) (ScanChunk.ofTr (.error tag ho.1 ho.2) h.inside) (.inr ⟨_, List.mem_singleton.2 rfl, rfl⟩)
  | recover =>
    cases hg
    simp only [Scanner.step] at hs
    split at hs
    · rename_i hm
      cases hs
      obtain ⟨bs, h1, h2, h3⟩ := h.nest
      refine ⟨h.le, h.inside, ⟨s.st.pos :: bs, by simp [h1], ?_, ?_⟩, ?_, ?_, ?_⟩
      · intro x hx
        rcases List.mem_cons.1 hx with rfl | hx
        · exact Nat.le_refl _
        · exact h2 x hx
      · simp [nest_append, h3, Spec.nest, nestStep]
      · simpa [tokens_append, tokens] using h.tile
      · intro ev hev
        rcases List.mem_append.1 hev with hev | hev
        · exact h.inn ev hev
        · rw [List.mem_singleton.1 hev]; exact h.inside
      · intro _
        have := h.err (.inl (by rw [hm]; decide))
        simp [errors_append, this]
    · cases hs
  | guardFinish =>
    cases g with
    | zero => cases hg
    | succ g =>
      cases hg; cases hs
      obtain ⟨bs, h1, h2, h3⟩ := h.nest
      cases bs with
      | nil => cases h1
      | cons x bs =>
        refine ⟨h.le, h.inside, ⟨bs, by simpa using h1, fun y hy => h2 y (List.mem_cons_of_mem _ hy), ?_⟩, ?_, ?_, ?_⟩
        · simp [nest_append, h3, Spec.nest, nestStep, h2 x (List.mem_cons_self ..)]
        · simpa [tokens_append, tokens] using h.tile
        · intro ev hev
          rcases List.mem_append.1 hev with hev | hev
          · exact h.inn ev hev
          · rw [List.mem_singleton.1 hev]; exact h.inside
        · intro _
          have := h.err (.inr (Nat.succ_ne_zero _))
          simp [errors_append, this]
  | guardCancel =>
    cases g with
    | zero => cases hg
    | succ g =>
      cases hg; cases hs
      obtain ⟨bs, h1, h2, h3⟩ := h.nest
      cases bs with
      | nil => cases h1
      | cons x bs =>
        refine ⟨h.le, h.inside, ⟨bs, by simpa using h1, fun y hy => h2 y (List.mem_cons_of_mem _ hy), ?_⟩, ?_, ?_, ?_⟩
        · simp [nest_append, h3, Spec.nest, nestStep, h2 x (List.mem_cons_self ..)]
        · simpa [tokens_append, tokens] using h.tile
        · intro ev hev
          rcases List.mem_append.1 hev with hev | hev
          · exact h.inn ev hev
          · rw [List.mem_singleton.1 hev]; exact h.inside
        · intro _
          have := h.err (.inr (Nat.succ_ne_zero _))
          simp [errors_append, this]

theorem openGuards_cons {o : ScanOp} {os : List ScanOp} {g g' : Nat} (h : openGuards (o :: os) g = some g') :
    ∃ g1, openGuards [o] g = some g1 ∧ openGuards os g1 = some g' := by
  cases o <;> first | exact ⟨_, rfl, h⟩ | (cases g with
    | zero => cases h
    | succ g => exact ⟨_, rfl, h⟩)

theorem ScanInv.run {E : Env} {fuel : Nat} {cx : Cx} {p0 : Nat} {b0 b : List Opened} {os : List ScanOp} :
    ∀ {g g' : Nat} {s s' : Scanner} {vs : List Bool}, ScanInv E.inp.length p0 b0 b g s →
      s.run E fuel cx os = some (s', vs) → openGuards os g = some g' → (∀ o ∈ os, opIn E.inp.length o) →
      ScanInv E.inp.length p0 b0 b g' s' := by
  induction os with
  | nil => intro g g' s s' vs h hr hg _; cases hr; cases hg; exact h
  | cons o os ih =>
    intro g g' s s' vs h hr hg ho
    obtain ⟨x, hx, hy⟩ := Option.bind_eq_some_iff.1 hr
    obtain ⟨y, hz, he⟩ := Option.map_eq_some_iff.1 hy
    cases he
    obtain ⟨g1, h1, h2⟩ := openGuards_cons hg
    exact ih (h.step (s' := x.1) (v := x.2) hx h1 (ho o (List.mem_cons_self ..))) hz h2
      fun o' ho' => ho o' (List.mem_cons_of_mem _ ho')

theorem ScanInv.init (len n : Nat) : ScanInv len 0 [] [.prod n 0] 0 (Scanner.init n) :=
  ⟨Nat.le_refl _, Nat.zero_le _, ⟨[], rfl, by simp, rfl⟩, rfl,
    fun ev hev => by rw [List.mem_singleton.1 hev]; exact Nat.zero_le _,
    fun h => by rcases h with h | h <;> exact absurd rfl h⟩

/-- **C74** Whatever a client does with a scanner, as long as it closes its recovery guards and reports errors inside
    of the input: the events are well nested, the tokens are adjacent and cover exactly what was consumed, all
    positions are inside of the input. -/
theorem C74_events {E : Env} {fuel n d : Nat} {ops : List ScanOp} {s : Scanner} {evs : List Ev} {v : Validated}
    (h : scanAction E fuel n d ops = some (s, evs, v)) (hg : openGuards ops 0 = some 0)
    (ho : ∀ o ∈ ops, opIn E.inp.length o) :
    nest [] evs = some [] ∧ Adjacent 0 (tokens evs) s.st.pos ∧ s.st.pos ≤ E.inp.length ∧
    ∀ ev ∈ evs, evIn E.inp.length ev := by
  obtain ⟨x, hx, he⟩ := Option.map_eq_some_iff.1 h
  cases he
  have hi := (ScanInv.init E.inp.length n).run (s' := x.1) (vs := x.2) hx hg ho
  obtain ⟨bs, h1, _, h3⟩ := hi.nest
  have : bs = [] := List.length_eq_zero_iff.1 h1
  subst this
  refine ⟨?_, ?_, hi.inside, ?_⟩
  · simp only [Scanner.finish, nest_append, h3]
    split <;> simp [Spec.nest, nestStep]
  · simp only [Scanner.finish, tokens_append]
    split <;> simpa [tokens] using hi.tile
  · intro ev hev
    rcases List.mem_append.1 hev with hev | hev
    · exact hi.inn ev hev
    · rw [List.mem_singleton.1 hev]
      split <;> exact hi.inside

theorem scan_finish (n : Nat) (s : Scanner) :
    Spec.errors (s.finish n).1 = Spec.errors s.evs ∧
    (s.finish n).2 = .mk' (s.mode == .normal) (Spec.errors (s.finish n).1) := by
  refine ⟨?_, ?_⟩
  · simp only [Scanner.finish, errors_append]
    split <;> simp [Spec.errors]
  · simp only [Scanner.finish, validateOn_fold, List.nil_append]

/-- **C74** The status of the result is the documented one: a success if the scanner is in the ok state and no error
    was reported, recovered if it is in the ok state and errors were reported, fatal if it is not in the ok state. -/
theorem C74_status {E : Env} {fuel n d g : Nat} {ops : List ScanOp} {s : Scanner} {evs : List Ev} {v : Validated}
    (h : scanAction E fuel n d ops = some (s, evs, v)) (hg : openGuards ops 0 = some g)
    (ho : ∀ o ∈ ops, opIn E.inp.length o) :
    v.errors = Spec.errors evs ∧
    (v.status = .success ↔ s.mode = .normal ∧ Spec.errors evs = []) ∧
    (v.status = .recovered ↔ s.mode = .normal ∧ Spec.errors evs ≠ []) ∧
    (v.status = .fatal ↔ s.mode ≠ .normal) := by
  obtain ⟨x, hx, he⟩ := Option.map_eq_some_iff.1 h
  obtain ⟨h1, h2⟩ := Prod.mk.inj he
  have hi := (ScanInv.init E.inp.length n).run (s' := x.1) (vs := x.2) hx hg ho
  rw [h1] at h2 hi
  obtain ⟨h3, h4⟩ := scan_finish n s
  rw [h2] at h3 h4
  have he : Spec.errors evs = Spec.errors s.evs := h3
  have hv : v = .mk' (s.mode == .normal) (Spec.errors evs) := h4
  rw [hv, he]
  refine ⟨rfl, ?_⟩
  simp only [Validated.mk', List.length_eq_zero_iff]
  by_cases hm : s.mode = .normal
  · by_cases hn : Spec.errors s.evs = [] <;> simp [hm, hn]
  · have := hi.err (.inl hm)
    simp [hm, this]

/-- **C74** The production of the scanner is finished or cancelled at the end, the latter exactly if the result is fatal. -/
theorem C74_finish {E : Env} {fuel n d g : Nat} {ops : List ScanOp} {s : Scanner} {evs : List Ev} {v : Validated}
    (h : scanAction E fuel n d ops = some (s, evs, v)) (hg : openGuards ops 0 = some g) (ho : ∀ o ∈ ops, opIn E.inp.length o) :
    evs.getLast? = some (if v.status = .fatal then .prodCancel n s.st.pos else .prodFinish n s.st.pos) := by
  obtain ⟨-, -, -, h4⟩ := C74_status h hg ho
  obtain ⟨x, hx, he⟩ := Option.map_eq_some_iff.1 h
  obtain ⟨h1, h2⟩ := Prod.mk.inj he
  rw [h1] at h2
  rw [show evs = (s.finish n).1 by rw [h2]]
  simp only [Scanner.finish, List.getLast?_concat, Option.some.injEq]
  by_cases hm : s.mode = .normal
  · rw [if_pos (by simp [hm]), if_neg (by rw [h4]; simp [hm])]
  · rw [if_neg (by simp [hm]), if_pos (h4.2 hm)]

theorem after_mode {s s' : Scanner} {r : Res} (h : s.after r = some s') (hm : s.mode ≠ .normal) : s'.mode ≠ .normal := by
  unfold Scanner.after at h
  split at h
  · cases h; exact hm
  · cases h; exact ScanMode.noConfusion
  · cases h

/-- Only the end of a recovery makes a scanner normal again. -/
theorem step_stays_failed {E : Env} {fuel : Nat} {cx : Cx} {s s' : Scanner} {o : ScanOp} {v : Bool} (h : s.step E fuel cx o = some (s', v))
    (hm : s.mode ≠ .normal) (ho : o ≠ .guardFinish) : s'.mode ≠ .normal := by
  cases o with
  | parse r =>
    simp only [Scanner.step] at h
    split at h
    · cases h; exact hm
    · obtain ⟨x, hx, he⟩ := Option.map_eq_some_iff.1 h
      cases he
      obtain ⟨y, -, hy⟩ := Option.bind_eq_some_iff.1 hx
      exact after_mode hy hm
  | branch r =>
    simp only [Scanner.step] at h
    split at h
    · cases h; exact hm
    · split at h
      · cases h
      · split at h
        · obtain ⟨x, hx, he⟩ := Option.map_eq_some_iff.1 h
          cases he
          obtain ⟨y, -, hy⟩ := Option.bind_eq_some_iff.1 hx
          exact after_mode hy hm
        · obtain ⟨x, hx, he⟩ := Option.map_eq_some_iff.1 h
          cases he
          obtain ⟨y, -, hy⟩ := Option.bind_eq_some_iff.1 hx
          exact after_mode hy hm
  | discard r =>
    simp only [Scanner.step] at h
    split at h
    · cases h; exact hm
    · split at h
      · cases h
      · cases h; exact hm
  | error tag b e => cases h; exact hm
  | fatal tag b e => cases h; exact ScanMode.noConfusion
  | recover =>
    simp only [Scanner.step] at h
    split at h
    · cases h; exact ScanMode.noConfusion
    · cases h
  | guardFinish => exact absurd rfl ho
  | guardCancel => cases h; exact ScanMode.noConfusion

theorem run_stays_failed {E : Env} {fuel : Nat} {cx : Cx} {ops : List ScanOp} : ∀ {s s' : Scanner} {vs : List Bool},
    s.run E fuel cx ops = some (s', vs) → s.mode ≠ .normal → ScanOp.guardFinish ∉ ops → s'.mode ≠ .normal := by
  induction ops with
  | nil => intro s s' vs h hm _; cases h; exact hm
  | cons o os ih =>
    intro s s' vs h hm ho
    obtain ⟨x, hx, hy⟩ := Option.bind_eq_some_iff.1 h
    obtain ⟨y, hz, he⟩ := Option.map_eq_some_iff.1 hy
    cases he
    exact ih hz (step_stays_failed hx hm fun h => ho (by rw [h]; simp)) fun h => ho (by simp [h])

theorem run_append {E : Env} {fuel : Nat} {cx : Cx} {a b : List ScanOp} : ∀ {s s' : Scanner} {vs : List Bool},
    s.run E fuel cx (a ++ b) = some (s', vs) → ∃ s1 v1 v2, s.run E fuel cx a = some (s1, v1) ∧ s1.run E fuel cx b = some (s', v2) := by
  induction a with
  | nil => intro s s' vs h; exact ⟨s, [], vs, rfl, h⟩
  | cons o os ih =>
    intro s s' vs h
    obtain ⟨x, hx, hy⟩ := Option.bind_eq_some_iff.1 h
    obtain ⟨y, hz, he⟩ := Option.map_eq_some_iff.1 hy
    cases he
    obtain ⟨s1, v1, v2, h1, h2⟩ := ih hz
    exact ⟨s1, x.2 :: v1, v2, by simp only [Scanner.run, hx, Option.bind_some, h1, Option.map_some], h2⟩

theorem scanAction_run {E : Env} {fuel n d : Nat} {ops : List ScanOp} {s : Scanner} {evs : List Ev} {v : Validated}
    (h : scanAction E fuel n d ops = some (s, evs, v)) : ∃ vs, (Scanner.init n).run E fuel ⟨(E.prods n).ws, d⟩ ops = some (s, vs) := by
  obtain ⟨x, hx, he⟩ := Option.map_eq_some_iff.1 h
  obtain ⟨h1, -⟩ := Prod.mk.inj he
  exact ⟨x.2, by rw [hx, ← h1]⟩

/-- **C74** After `fatal_error()` the result is fatal, unless a recovery is finished later. -/
theorem C74_fatal {E : Env} {fuel n d g tag b e : Nat} {pre post : List ScanOp} {s : Scanner} {evs : List Ev} {v : Validated}
    (h : scanAction E fuel n d (pre ++ .fatal tag b e :: post) = some (s, evs, v)) (hg : openGuards (pre ++ .fatal tag b e :: post) 0 = some g)
    (ho : ∀ o ∈ pre ++ .fatal tag b e :: post, opIn E.inp.length o) (hp : ScanOp.guardFinish ∉ post) : v.status = .fatal := by
  refine (C74_status h hg ho).2.2.2.2 ?_
  obtain ⟨vs, hr⟩ := scanAction_run h
  obtain ⟨s1, v1, v2, h1, h2⟩ := run_append hr
  obtain ⟨x, hx, hy⟩ := Option.bind_eq_some_iff.1 h2
  obtain ⟨y, hz, he⟩ := Option.map_eq_some_iff.1 hy
  cases he
  cases hx
  exact run_stays_failed hz ScanMode.noConfusion hp

/-- **C74** After the end of a recovery, and as long as the client only reports errors and discards tokens, the result is
    not fatal: recovery does recover. -/
theorem C74_recovered {E : Env} {fuel n d g : Nat} {pre post : List ScanOp} {s : Scanner} {evs : List Ev} {v : Validated}
    (h : scanAction E fuel n d (pre ++ .guardFinish :: post) = some (s, evs, v)) (hg : openGuards (pre ++ .guardFinish :: post) 0 = some g)
    (ho : ∀ o ∈ pre ++ .guardFinish :: post, opIn E.inp.length o)
    (hp : ∀ o ∈ post, (∃ tag b e, o = .error tag b e) ∨ ∃ r, o = .discard r) : v.status ≠ .fatal := by
  refine fun hf => (C74_status h hg ho).2.2.2.1 hf ?_
  obtain ⟨vs, hr⟩ := scanAction_run h
  obtain ⟨s1, v1, v2, h1, h2⟩ := run_append hr
  obtain ⟨x, hx, hy⟩ := Option.bind_eq_some_iff.1 h2
  obtain ⟨y, hz, he⟩ := Option.map_eq_some_iff.1 hy
  cases he
  cases hx
  have key : ∀ {ops : List ScanOp} {s s' : Scanner} {vs : List Bool}, s.run E fuel ⟨(E.prods n).ws, d⟩ ops = some (s', vs) → s.mode = .normal →
      (∀ o ∈ ops, (∃ tag b e, o = .error tag b e) ∨ ∃ r, o = .discard r) → s'.mode = .normal := by
    intro ops
    induction ops with
    | nil => intro s s' vs h hm _; cases h; exact hm
    | cons o os ih =>
      intro s s' vs h hm ho
      obtain ⟨x, hx, hy⟩ := Option.bind_eq_some_iff.1 h
      obtain ⟨y, hz, he⟩ := Option.map_eq_some_iff.1 hy
      cases he
      refine ih hz ?_ fun o' ho' => ho o' (by simp [ho'])
      rcases ho o (by simp) with ⟨tag, b, e, rfl⟩ | ⟨r, rfl⟩
      · cases hx; exact hm
      · simp only [Scanner.step] at hx
        split at hx
        · cases hx; exact hm
        · split at hx
          · cases hx
          · cases hx; exact hm
  exact key hz rfl hp

/-- **C74** The same for `dsl::scan` inside of a grammar. -/
theorem C74_rule {E : Env} {fuel : Nat} {cx : Cx} {ops : List ScanOp} {b : Bool} {st : St} {r : Res}
    (h : scanRule E fuel cx ops b st = some r) (hp : st.pos ≤ E.inp.length) (hg : openGuards ops 0 = some 0)
    (ho : ∀ o ∈ ops, opIn E.inp.length o) (s : List Opened) :
    nest s r.evs = some s ∧ Adjacent st.pos (tokens r.evs) r.st.pos ∧ st.pos ≤ r.st.pos ∧
    r.st.pos ≤ E.inp.length ∧ ∀ ev ∈ r.evs, evIn E.inp.length ev := by
  obtain ⟨x, hx, rfl⟩ := Option.map_eq_some_iff.1 h
  have h0 : ScanInv E.inp.length st.pos s s 0 ⟨st, .normal, []⟩ :=
    ⟨Nat.le_refl _, hp, ⟨[], rfl, by simp, rfl⟩, rfl, by simp, fun h => by rcases h with h | h <;> exact absurd rfl h⟩
  have hi := h0.run (s' := x.1) (vs := x.2) hx hg ho
  obtain ⟨bs, h1, _, h3⟩ := hi.nest
  have : bs = [] := List.length_eq_zero_iff.1 h1
  subst this
  exact ⟨h3, hi.tile, hi.le, hi.inside, hi.inn⟩

section
variable (E : Env) (n : Nat) (cx : Cx) (st : St)

theorem exec_run_chc (rs : List Rule) : exec E (n + 1) cx (.run (.chc rs)) st = exec E n cx (.chcRun rs) st := rfl
theorem exec_btry_br (c a : Rule) : exec E (n + 1) cx (.btry (.br c a)) st = exec E n cx (.btry c) st := rfl
theorem exec_bcancel_br (c a : Rule) : exec E (n + 1) cx (.bcancel (.br c a)) st = exec E n cx (.bcancel c) st := rfl
theorem exec_bfinish_br (c a : Rule) : exec E (n + 1) cx (.bfinish (.br c a)) st =
    onOk (exec E n cx (.bfinish c) st) fun st' => exec E n cx (.run a) st' := rfl
theorem exec_btry_els : exec E (n + 1) cx (.btry .els) st = some ⟨.ok, st, []⟩ := rfl
theorem exec_bfinish_els : exec E (n + 2) cx (.bfinish .els) st = some ⟨.ok, st, []⟩ := rfl
theorem exec_chcRun_cons (r : Rule) (rs : List Rule) : exec E (n + 1) cx (.chcRun (r :: rs)) st =
    ifTry (exec E n) cx (.btry r) st (exec E n cx (.bfinish r) st)
      (onOk' (exec E n cx (.bcancel r) st) fun st' => exec E n cx (.chcRun rs) st') := rfl
end

theorem frame_same (st : St) : st.frame st.vars.length = st := by simp [St.frame]

/-- **C74** `scanner.branch(c) ? scanner.parse(a) : scanner.parse(d)` does the same as
    `scanner.parse(c >> a | dsl::else_ >> d)`, provided that `c` creates no context variables (and is no operator
    production, whose state is not shared).  Without the proviso it is false: `C74_branch_refuted`. -/
theorem C74_branch_partial {E : Env} {fuel : Nat} {cx : Cx} {s s1 s2 : Scanner} {c a d : Rule} {v w : Bool}
    (hm : s.mode ≠ .failed) (hp : s.st.pos ≤ E.inp.length)
    (hc : ∀ n y, exec E n cx (.bfinish c) { s.st with ex := {} } = some y → y.out = .ok →
      y.st.vars.length = s.st.vars.length ∧ y.st.ex = {})
    (h1 : s.step E fuel cx (.branch c) = some (s1, v))
    (h2 : s1.step E fuel cx (.parse (if v then a else d)) = some (s2, w)) :
    s.step E (fuel + 8) cx (.parse (.chc [.br c a, .br .els d])) = some (s2, true) := by
  have key : ∀ y, exec E (fuel + 8) cx (.run (.chc [.br c a, .br .els d])) { s.st with ex := {} } = some y →
      s.after { y with st := y.st.frame s.st.vars.length } = some s2 →
      s.step E (fuel + 8) cx (.parse (.chc [.br c a, .br .els d])) = some (s2, true) := by
    intro y hy ha
    simp only [Scanner.step, if_neg hm, hy, framed, Option.map_some, Option.bind_some, ha]
  have hk : ∀ {k cmd st y}, exec E fuel cx cmd st = some y → exec E (fuel + k) cx cmd st = some y :=
    fun h => exec_mono (Nat.le_add_right ..) h
  simp only [Scanner.step, if_neg hm] at h1
  split at h1
  · cases h1
  · rename_i t ht
    rcases btry_out (by exact hp) ht with h3 | h3
    all_goals subst h3
    · rw [if_pos rfl] at h1
      obtain ⟨x, hx, he⟩ := Option.map_eq_some_iff.1 h1
      cases he
      obtain ⟨y, hy, ha⟩ := Option.bind_eq_some_iff.1 hx
      obtain ⟨z, hz, rfl⟩ := Option.map_eq_some_iff.1 hy
      obtain ⟨o, zs, ze⟩ := z
      cases o with
      | brk => cases ha
      | fail =>
        cases ha
        simp only [Scanner.step, if_pos] at h2
        cases h2
        refine key ⟨.fail, zs, ze⟩ ?_ rfl
        simp only [exec_run_chc, exec_chcRun_cons, exec_btry_br, exec_bfinish_br, ifTry,
          hk ht, hk hz, onOk, andThen, Option.map_some, List.append_nil]
      | ok =>
        cases ha
        obtain ⟨h4, h5⟩ := hc _ _ hz rfl
        simp only at h4 h5
        have hf : zs.frame s.st.vars.length = zs := by rw [← h4]; exact frame_same zs
        have hzs : ({ zs with ex := {} } : St) = zs := by rw [← h5]
        simp only [Scanner.step, if_neg hm, hf] at h2
        obtain ⟨x, hx, he⟩ := Option.map_eq_some_iff.1 h2
        cases he
        obtain ⟨y, hy, ha⟩ := Option.bind_eq_some_iff.1 hx
        obtain ⟨u, hu, rfl⟩ := Option.map_eq_some_iff.1 hy
        simp only [hzs, if_true] at hu
        simp only [h4] at ha
        refine key ⟨u.out, u.st, ze ++ u.evs⟩ ?_ ?_
        · simp only [exec_run_chc, exec_chcRun_cons, exec_btry_br, exec_bfinish_br, ifTry,
          hk ht, hk hz, hk hu, onOk, andThen, Option.map_some]
        · obtain ⟨o, us, ue⟩ := u
          cases o <;> simpa [Scanner.after] using ha
    · rw [if_neg (by simp)] at h1
      obtain ⟨x, hx, he⟩ := Option.map_eq_some_iff.1 h1
      cases he
      obtain ⟨y, hy, ha⟩ := Option.bind_eq_some_iff.1 hx
      obtain ⟨hy', -⟩ := cancel_out (by exact hp) hy
      obtain ⟨o, ys, ye⟩ := y
      simp only [Res.mk.injEq, and_true] at hy'
      obtain ⟨rfl, rfl⟩ := hy'
      cases ha
      simp only [Scanner.step, if_neg hm] at h2
      obtain ⟨x, hx, he⟩ := Option.map_eq_some_iff.1 h2
      cases he
      obtain ⟨y, hz, ha⟩ := Option.bind_eq_some_iff.1 hx
      obtain ⟨u, hu, rfl⟩ := Option.map_eq_some_iff.1 hz
      simp only [Bool.false_eq_true, if_false] at hu
      refine key ⟨u.out, u.st, ye ++ u.evs⟩ ?_ ?_
      · simp only [exec_run_chc, exec_chcRun_cons, exec_btry_br, exec_bfinish_br, exec_bcancel_br,
          exec_btry_els, exec_bfinish_els, ifTry, hk ht, hk hy,
          hk hu, onOk, onOk', andThen, Option.map_some, List.nil_append]
      · obtain ⟨o, us, ue⟩ := u
        cases o <;> simpa [Scanner.after] using ha

/-- **C74** The documentation (action/scan.adoc) calls the two forms "entirely equivalent".  They are not if the
    condition creates a context variable: `branch()` removes it again before `a` is parsed.  Here `a` toggles the flag
    created by the condition in one form, and the flag of the surrounding production that it shadows in the other. -/
theorem C74_branch_refuted : ∃ (E : Env) (fuel : Nat) (cx : Cx) (s : Scanner) (c a d : Rule), s.mode = .normal ∧
    (s.step E fuel cx (.parse (.chc [.br c a, .br .els d]))).map (fun x => (x.1.mode, x.1.st.vars, x.2))
      = some (.normal, [(.flag 0, .flag false)], true) ∧
    (s.run E fuel cx [.branch c, .parse a]).map (fun x => (x.1.mode, x.1.st.vars, x.2))
      = some (.normal, [(.flag 0, .flag true)], [true, true]) :=
  ⟨Ex.env [40] Ex.lists, 20, ⟨none, 10⟩, ⟨{ pos := 0, vars := [(.flag 0, .flag false)] }, .normal, []⟩,
    .br Ex.open_ (.varCreate 0 (.flag false)), .flagToggle 0, .els, by decide +kernel, by decide +kernel,
    by decide +kernel⟩

/-- The condition of `C74_branch_partial` holds for the branches of a grammar that has no variables. -/
example : (Scanner.run (Ex.env [40, 49, 41] Ex.lists) 20 ⟨none, 10⟩ (Scanner.init 1)
      [.branch Ex.open_, .parse Ex.digit]).map (fun x => (x.1.mode, x.1.st.pos, x.2))
    = some (.normal, 2, [true, true]) ∧
    (Scanner.step (Ex.env [40, 49, 41] Ex.lists) 20 ⟨none, 10⟩ (Scanner.init 1)
      (.parse (.chc [.br Ex.open_ Ex.digit, .br .els Ex.letter]))).map (fun x => (x.1.mode, x.1.st.pos, x.2))
    = some (.normal, 2, true) := by
  decide +kernel

/-- **C74** `discard` is documented to generate an error token "if that consumes a non-zero amount of input"; it
    generates one for no input as well (dsl/scan.hpp l.315-320). -/
theorem C74_discard_refuted : ∃ (E : Env) (fuel : Nat) (cx : Cx) (s s' : Scanner) (r : Rule) (p : Nat),
    s.step E fuel cx (.discard r) = some (s', false) ∧ s'.evs = s.evs ++ [.token .error p p] :=
  ⟨Ex.env [49] Ex.lists, 20, ⟨none, 10⟩, Scanner.init 1, _, Ex.open_, 0, rfl, rfl⟩

/-- **C74** What `discard` does: it consumes the token if it matches and nothing otherwise; what it consumes is one
    error token. -/
theorem C74_discard {E : Env} {fuel : Nat} {cx : Cx} {s s' : Scanner} {r : Rule} {v : Bool}
    (h : s.step E fuel cx (.discard r) = some (s', v)) (hm : s.mode ≠ .failed) (hp : s.st.pos ≤ E.inp.length) :
    s'.mode = s.mode ∧ s'.evs = s.evs ++ [.token .error s.st.pos s'.st.pos] ∧ s.st.pos ≤ s'.st.pos ∧
    (v = false → s'.st = s.st) ∧
    (v = true → ∃ y, exec E fuel cx (.tokTry r) s.st = some y ∧ y.out = .ok ∧ y.st.pos = s'.st.pos) := by
  simp only [Scanner.step, if_neg hm] at h
  split at h
  · cases h
  · rename_i t ht
    cases h
    obtain ⟨_, _, h3, h4⟩ := exec_good E fuel cx (.tokTry r) _ hp t ht
    refine ⟨rfl, rfl, ?_, ?_, ?_⟩
    · simp only; split
      · exact h3
      · exact Nat.le_refl _
    · intro hv
      have : t.out ≠ .ok := by simpa using hv
      simp [this]
    · intro hv
      have : t.out = .ok := by simpa using hv
      exact ⟨t, ht, this, by simp [this]⟩

/-- **C74** A scanner in the failed state does nothing: neither consumes input nor causes events. -/
theorem C74_failed {E : Env} {fuel : Nat} {cx : Cx} {s : Scanner} (hm : s.mode = .failed) (r : Rule) :
    s.step E fuel cx (.parse r) = some (s, true) ∧ s.step E fuel cx (.branch r) = some (s, false) ∧
    s.step E fuel cx (.discard r) = some (s, false) := by
  simp [Scanner.step, hm]

/-- Scanning `(x1` with recovery: the client wants a digit, skips a letter and tries again. -/
example : (scanAction (Ex.env [40, 97, 49] Ex.lists) 20 1 10
      [.parse Ex.open_, .parse Ex.digit, .recover, .discard Ex.letter, .parse Ex.digit, .guardFinish]).map
        (fun x => (x.1.mode, x.2.1, x.2.2.status))
    = some (.normal, [.prodStart 1 0, .token (.user 1) 0 1, .token .error 1 1, .error 14 1 1, .recStart 1, .token .error 1 2,
        .token (.user 4) 2 3, .recFinish 3, .prodFinish 1 3], .recovered) ∧
    openGuards [.parse Ex.open_, .parse Ex.digit, .recover, .discard Ex.letter, .parse Ex.digit, .guardFinish] 0
      = some 0 := by
  decide +kernel

/-- A fatal error, and an error reported after it. -/
example : (scanAction (Ex.env [40] Ex.lists) 20 1 10 [.parse Ex.open_, .fatal 7 0 1, .error 8 1 1]).map (fun x => (x.2.1, x.2.2.status))
    = some ([.prodStart 1 0, .token (.user 1) 0 1, .error 7 0 1, .error 8 1 1, .prodCancel 1 1], .fatal) := by
  decide +kernel

/-- The hypothesis of `C74_events` is needed: if the guard is neither finished nor cancelled, the production ends while
    the recovery is still open. -/
example : (scanAction (Ex.env [97] Ex.lists) 20 1 10 [.parse Ex.open_, .recover]).map
      (fun x => (nest [] x.2.1, x.2.2.status)) = some (none, .fatal) := by
  decide +kernel

/-- **C74** If `scan()` returns no value only when its scanner is not in the ok state, a failure of `dsl::scan` comes
    with an error, and `lexy::validate` does not report a success. -/
theorem C74_scan_fails_partial {E : Env} {fuel g : Nat} {cx : Cx} {ops : List ScanOp} {b : Bool} {st : St} {r : Res}
    (h : scanRule E fuel cx ops b st = some r) (hp : st.pos ≤ E.inp.length) (hg : openGuards ops 0 = some g)
    (ho : ∀ o ∈ ops, opIn E.inp.length o)
    (hb : b = false → ∀ x, (⟨st, .normal, []⟩ : Scanner).run E fuel cx ops = some x → x.1.mode ≠ .normal)
    (hf : r.out = .fail) : Spec.errors r.evs ≠ [] ∧ (validateResult r).status ≠ .success := by
  obtain ⟨x, hx, rfl⟩ := Option.map_eq_some_iff.1 h
  have h0 : ScanInv E.inp.length st.pos [] [] 0 ⟨st, .normal, []⟩ :=
    ⟨Nat.le_refl _, hp, ⟨[], rfl, by simp, rfl⟩, rfl, by simp, fun h => by rcases h with h | h <;> exact absurd rfl h⟩
  have hi := h0.run (s' := x.1) (vs := x.2) hx hg ho
  have hbf : b = false := by cases b <;> simp_all
  have he := hi.err (.inl (hb hbf x hx))
  refine ⟨he, ?_⟩
  simp only [validateResult, Validated.mk', validateOn_fold, List.nil_append, List.length_eq_zero_iff]
  rw [if_neg he]
  split <;> simp

/-- **C74** Otherwise it is false: `scan()` can return `lexy::scan_failed` without having reported an error; the rule
    fails and `lexy::validate` reports a success. -/
theorem C74_scan_fails_refuted : ∃ (E : Env) (fuel : Nat) (cx : Cx) (ops : List ScanOp) (st : St) (r : Res),
    scanRule E fuel cx ops false st = some r ∧ r.out = .fail ∧ (validateResult r).status = .success :=
  ⟨Ex.env [40] Ex.lists, 20, ⟨none, 10⟩, [.parse Ex.open_], { pos := 0 }, _, rfl, rfl, rfl⟩

/-- `dsl::scan` in a production: one token, then an error of its own. -/
example : (scanRule (Ex.env [40, 49] Ex.lists) 20 ⟨none, 10⟩ [.parse Ex.open_, .fatal 99 0 1] false { pos := 0 }).map
      (fun r => (r.out, r.st.pos, r.evs)) = some (.fail, 1, [.token (.user 1) 0 1, .error 99 0 1]) := by
  decide +kernel

end Verif
