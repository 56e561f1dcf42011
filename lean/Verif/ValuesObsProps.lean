import Verif.ValuesObs
import Verif.GrammarEats

/-
What can be observed of values holds for every rule.
-/

namespace Verif.Val

open Spec

section

variable {len : Nat}

/-- `x` produces its values between `lo` and its end, where `e` and `c` happened before. -/
def Obs (len lo : Nat) (e : List Ev) (c : List (Nat × List Val)) (x : Option DRes) : Prop :=
  ∀ d, x = some d → d.st.pos ≤ len ∧ (∀ pre, d.out = .ret pre → ∀ w ∈ pre, Internal w) ∧
    Prod' lo d.st.pos (e ++ d.evs) (c ++ d.calls) d.vals

variable {lo : Nat} {e : List Ev} {c : List (Nat × List Val)} {x : Option DRes}

theorem frame_pos (st : St) (n : Nat) : (st.frame n).pos = st.pos := rfl

theorem obs_none : Obs len lo e c none := fun _ h => by cases h

theorem obs_ok {st : St} {vs : List Val} (h : Prod' lo st.pos e c vs) (hl : st.pos ≤ len) : Obs len lo e c (okD st vs) := by
  intro d hd; cases hd
  exact ⟨hl, (fun _ h => by cases h), by simpa using h⟩

theorem obs_fail {st : St} {evs : List Ev} {calls vs} (h : Prod' lo st.pos (e ++ evs) (c ++ calls) vs) (hl : st.pos ≤ len) :
    Obs len lo e c (some ⟨.fail, st, evs, calls, vs⟩) := by
  intro d hd; cases hd
  exact ⟨hl, (fun _ h => by cases h), h⟩

theorem obs_pre {evs : List Ev} {calls} (h : Obs len lo (e ++ evs) (c ++ calls) x) :
    Obs len lo e c (x.map (DRes.pre evs calls [])) := by
  intro d hd
  cases x with
  | none => cases hd
  | some r =>
    cases hd
    obtain ⟨h1, h2, h3⟩ := h r rfl
    exact ⟨h1, h2, by simpa [DRes.pre] using h3⟩

theorem obs_emit {evs : List Ev} (h : Obs len lo (e ++ evs) c x) : Obs len lo e c (emitD evs x) :=
  obs_pre (by simpa using h)

/-- Values before it. -/
theorem obs_after {mid : Nat} {v : List Val} {evs : List Ev} {calls} (h : Prod' lo mid (e ++ evs) (c ++ calls) v)
    (hx : Obs len mid [] [] x) : Obs len lo e c (x.map (DRes.pre evs calls v)) := by
  intro d hd
  cases x with
  | none => cases hd
  | some r =>
    cases hd
    obtain ⟨h1, h2, h3⟩ := hx r rfl
    exact ⟨h1, h2, by simpa [DRes.pre] using h.append h3⟩

/-- Values of no events do not matter for what follows. -/
theorem obs_start {mid : Nat} (h : Prod' lo mid e c []) (hx : Obs len mid [] [] x) : Obs len lo e c x := by
  intro d hd
  obtain ⟨h1, h2, h3⟩ := hx d hd
  exact ⟨h1, h2, by simpa using h.append h3⟩

theorem obs_then {f : St → Option DRes} (h : Obs len lo [] [] x)
    (hf : ∀ st, lo ≤ st.pos → st.pos ≤ len → Obs len st.pos [] [] (f st)) : Obs len lo [] [] (thenD x f) := by
  cases x with
  | none => exact obs_none
  | some r =>
    obtain ⟨h1, h2, h3⟩ := h r rfl
    obtain ⟨out, st, evs, calls, vals⟩ := r
    cases out with
    | ok => exact obs_after h3 (hf st h3.le h1)
    | _ => exact h

/-- A rule without values. -/
def Moves (len p : Nat) (y : Option Res) : Prop := ∀ r, y = some r → p ≤ r.st.pos ∧ r.st.pos ≤ len

theorem obs_via {p : Nat} {y : Option Res} {f : St → Option DRes} (hy : Moves len p y) (hv : Prod' lo p e c [])
    (hf : ∀ st evs, p ≤ st.pos → st.pos ≤ len → Obs len lo (e ++ evs) c (f st)) : Obs len lo e c (viaD y f) := by
  cases y with
  | none => exact obs_none
  | some r =>
    obtain ⟨h1, h2⟩ := hy r rfl
    obtain ⟨out, st, evs⟩ := r
    cases out with
    | ok => exact obs_emit (hf st evs h1 h2)
    | fail => exact obs_fail (by simpa using hv.widen h1 evs) h2
    | brk =>
      intro d hd; cases hd
      exact ⟨h2, (fun _ h => by cases h), by simpa using hv.widen h1 evs⟩

theorem obs_via' {p : Nat} {y : Option Res} {f : St → Option DRes} (hy : Moves len p y) (hv : Prod' lo p e c [])
    (hf : ∀ st evs, p ≤ st.pos → st.pos ≤ len → Obs len lo (e ++ evs) c (f st)) : Obs len lo e c (viaD' y f) := by
  cases y with
  | none => exact obs_none
  | some r =>
    obtain ⟨h1, h2⟩ := hy r rfl
    obtain ⟨out, st, evs⟩ := r
    cases out with
    | ok => exact obs_emit (hf st evs h1 h2)
    | fail => exact obs_fail (by simpa using hv.widen h1 evs) h2
    | brk => exact obs_none

theorem obs_leaf {p : Nat} {y : Option Res} (hy : Moves len p y) : Obs len p [] [] (viaD y fun st => okD st []) :=
  obs_via hy (Prod'.nil p []) fun st evs h1 h2 => obs_ok (by simpa using (Prod'.nil p []).widen h1 evs) h2

/-- The same after a branch that was not taken: the reader did not move. -/
theorem obs_via0 {st : St} {y : Option Res} {f : St → Option DRes} (hl : st.pos ≤ len)
    (hy : ∀ r, y = some r → r.st = st) (hv : Prod' lo st.pos e c [])
    (hf : ∀ evs, Obs len lo (e ++ evs) c (f st)) : Obs len lo e c (viaD' y f) := by
  cases y with
  | none => exact obs_none
  | some r =>
    have h1 := hy r rfl
    obtain ⟨out, st', evs⟩ := r
    simp only at h1
    subst h1
    cases out with
    | ok => exact obs_emit (hf evs)
    | fail => exact obs_fail (by simpa using hv.widen (Nat.le_refl _) evs) hl
    | brk => exact obs_none

theorem obs_base {p n : Nat} {va : List Val} {f : List Val → St → Option DRes} (ha : Prod' lo p e c va)
    (hx : Obs len p [] [] x)
    (hf : ∀ vs st e' c', st.pos ≤ len → Prod' lo st.pos e' c' (va ++ vs) → Obs len lo e' c' (f vs st)) :
    Obs len lo e c (baseD n x f) := by
  cases x with
  | none => exact obs_none
  | some r =>
    obtain ⟨h1, h2, h3⟩ := hx r rfl
    obtain ⟨out, st, evs, calls, vals⟩ := r
    cases out with
    | ok => exact obs_pre (hf vals (st.frame n) _ _ h1 (ha.append h3))
    | fail => exact obs_fail (by simpa [frame_pos] using (ha.append h3).drop) h1
    | brk => exact obs_none
    | ret => exact obs_none

theorem obs_tryBase {p n : Nat} {va : List Val} {f : List Val → St → Option DRes} {g : St → Option DRes}
    (ha : Prod' lo p e c va) (hx : Obs len p [] [] x)
    (hf : ∀ vs st e' c', st.pos ≤ len → Prod' lo st.pos e' c' (va ++ vs) → Obs len lo e' c' (f vs st))
    (hg : ∀ st e' c', st.pos ≤ len → Prod' lo st.pos e' c' va → Obs len lo e' c' (g st)) :
    Obs len lo e c (tryBaseD n x f g) := by
  cases x with
  | none => exact obs_none
  | some r =>
    obtain ⟨h1, h2, h3⟩ := hx r rfl
    obtain ⟨out, st, evs, calls, vals⟩ := r
    cases out with
    | ok => exact obs_pre (hf vals (st.frame n) _ _ h1 (ha.append h3))
    | fail => exact obs_pre (hg (st.frame n) _ _ h1 (ha.append h3).fst)
    | brk => exact obs_none
    | ret => exact obs_none

theorem obs_evs {y : Option Res} (h : ∀ evs, Obs len lo (e ++ evs) c x) : Obs len lo e c (evsD y x) := by
  cases y with
  | none => exact obs_none
  | some r => exact obs_emit (h r.evs)

theorem obs_front {p : Nat} {f : St → Option DRes} (h : Obs len lo [] [] x)
    (hf : ∀ st, lo ≤ st.pos → st.pos ≤ len → Obs len st.pos [] [] (f st)) :
    Obs len lo [] [] (frontD (.mark p) x f) := by
  cases x with
  | none => exact obs_none
  | some r =>
    obtain ⟨h1, h2, h3⟩ := h r rfl
    obtain ⟨out, st, evs, calls, vals⟩ := r
    cases out with
    | ok => exact obs_after h3 (hf st h3.le h1)
    | fail => exact h
    | brk => exact h
    | ret pre =>
      intro d hd; cases hd
      refine ⟨h1, fun pre' h w hw => ?_, h3⟩
      cases h
      rcases List.mem_append.1 hw with hw | hw
      · exact h2 pre rfl w hw
      · simp only [List.mem_singleton] at hw
        subst hw
        trivial

theorem obs_choose {b : Option Res} {x' : Option DRes} (h : Obs len lo e c x) (h' : Obs len lo e c x') :
    Obs len lo e c (choose b x x') := by
  cases b with
  | none => exact obs_none
  | some r =>
    obtain ⟨out, st, evs⟩ := r
    cases out
    · exact h
    · exact h'
    · exact h'

theorem obs_ite {q : Prop} [Decidable q] {x' : Option DRes} (h : Obs len lo e c x) (h' : Obs len lo e c x') :
    Obs len lo e c (if q then x else x') := by
  split
  · exact h
  · exact h'

end

section

variable {V : VEnv} {n : Nat}

theorem ws_moves {cx : Cx} {st : St} (hl : st.pos ≤ V.inp.length) :
    Moves V.inp.length st.pos (exec V.env n cx .ws st) :=
  fun r h => (exec_good V.env n cx .ws st hl r h).bounds hl

theorem run_moves {cx : Cx} {st : St} {r : Rule} (hl : st.pos ≤ V.inp.length) :
    Moves V.inp.length st.pos (exec V.env n cx (.run r) st) :=
  fun x h => (exec_good V.env n cx (.run r) st hl x h).bounds hl

theorem fin_moves {cx : Cx} {st : St} {r : Rule} (hl : st.pos ≤ V.inp.length) :
    Moves V.inp.length st.pos (exec V.env n cx (.bfinish r) st) :=
  fun x h => (exec_good V.env n cx (.bfinish r) st hl x h).bounds hl

theorem cancel_same {cx : Cx} {st : St} {r : Rule} (hl : st.pos ≤ V.inp.length) :
    ∀ x, exec V.env n cx (.bcancel r) st = some x → x.st = st :=
  fun x h => (exec_good V.env n cx (.bcancel r) st hl x h).2.1

theorem chcCancel_same {cx : Cx} {st : St} {rs : List Rule} (hl : st.pos ≤ V.inp.length) :
    ∀ x, exec V.env n cx (.chcCancel rs) st = some x → x.st = st :=
  fun x h => (exec_good V.env n cx (.chcCancel rs) st hl x h).2.1

/-- What the command has collected before. -/
def repHas (kd : RepKind) (b : Nat) (acc : List (List Val)) : List (List Val) :=
  match kd with
  | .discard => []
  | .list => acc
  | .capture => [[.covered b b]]

def VCmd.acc : VCmd → List (List Val)
  | .lstLoop _ _ acc | .combLoop _ _ _ _ _ acc | .lt _ _ _ _ _ acc => acc
  | .repTail kd b _ _ _ acc => repHas kd b acc
  | _ => []

/-- What is to be shown. -/
abbrev ObsIH (V : VEnv) (n : Nat) : Prop :=
  ∀ cx c st, st.pos ≤ V.inp.length → ∀ lo e cs, Prod' lo st.pos e cs [.sink 0 c.acc] →
    Obs V.inp.length lo e cs (dv V n cx c st)

/-- For a command that has collected nothing. -/
theorem ObsIH.plain (H : ObsIH V n) (cx : VCx) (c : VCmd) (st : St) (hc : c.acc = []) (hl : st.pos ≤ V.inp.length) :
    Obs V.inp.length st.pos [] [] (dv V n cx c st) :=
  H cx c st hl st.pos [] [] (by rw [hc]; exact Prod'.noSink st.pos [])

theorem obs_tokD {cx : VCx} {k : Kind} {q : Nat} {st : St} (h1 : st.pos ≤ q) (h2 : q ≤ V.inp.length) {vs : List Val}
    (hv : Prod' st.pos q [.token k st.pos q] [] vs) :
    Obs V.inp.length st.pos [] [] (tokD (exec V.env n) cx k q st vs) := by
  refine obs_emit (obs_via (p := q) (ws_moves (st := { st with pos := q }) h2) ?_ fun st' evs h3 h4 => obs_ok ?_ h4)
  · simpa using hv.drop
  · simpa using hv.widen h3 evs

theorem obs_prodD {cx : VCx} {m : Nat} {cap : Bool} {body : VCx → St → Option DRes} {st : St}
    (hl : st.pos ≤ V.inp.length) (hb : ∀ cx st, st.pos ≤ V.inp.length → Obs V.inp.length st.pos [] [] (body cx st)) :
    Obs V.inp.length st.pos [] [] (prodD V (exec V.env n) cx m cap body st) := by
  unfold prodD
  have h := hb (cx.sub V m) { st with ex := {} } hl
  cases hx : body (cx.sub V m) { st with ex := {} } with
  | none => exact obs_none
  | some r =>
    obtain ⟨h1, h2, h3⟩ := h r hx
    have key : ∀ vs, Prod' st.pos r.st.pos r.evs r.calls vs → Obs V.inp.length st.pos [] []
        ((if (V.prods m).isTok = true then
            viaD (exec V.env n cx.cx .ws { r.st.frame st.vars.length with ex := st.ex }) fun st' => okD st' []
          else okD { r.st.frame st.vars.length with ex := st.ex } []).map
        (DRes.pre ([.prodStart m st.pos] ++ r.evs ++ [.prodFinish m r.st.pos]) (r.calls ++ [(m, vs)])
          ((if cap then [.lexeme st.pos r.st.pos] else []) ++ if (V.prods m).void then [] else [.call m vs]))) := by
      intro vs hvs
      refine obs_after (mid := r.st.pos) ?_ ?_
      · have c1 := (((hvs.before [.prodStart m st.pos]).call m).widen (Nat.le_refl _) [.prodFinish m r.st.pos])
        have c2 : Prod' st.pos r.st.pos ([.prodStart m st.pos] ++ r.evs ++ [.prodFinish m r.st.pos])
            (r.calls ++ [(m, vs)]) (if (V.prods m).void then [] else [.call m vs]) := by
          split
          · exact c1.drop
          · exact c1
        cases cap with
        | false => simpa using c2
        | true => exact c2.lexeme (.inr ⟨m, by simp, by simp⟩)
      · refine obs_ite (obs_leaf ?_) (obs_ok (Prod'.nil _ _) h1)
        exact ws_moves (st := { r.st.frame st.vars.length with ex := st.ex }) h1
    obtain ⟨out, st', evs, calls, vals⟩ := r
    cases out with
    | ok => exact key vals (by simpa using h3)
    | fail =>
      refine obs_fail (st := { st'.frame st.vars.length with ex := st.ex }) ?_ h1
      simpa [frame_pos] using ((h3.before [.prodStart m st.pos]).widen (Nat.le_refl _) [.prodCancel m st'.pos]).drop
    | brk => exact obs_none
    | ret pre => exact key (pre ++ vals) (by simpa using h3.flags pre (h2 pre rfl))

theorem obs_tryD (H : ObsIH V n) {cx : VCx} {m : Nat} {rc : VRecov} {st : St} {x : Option DRes}
    (hx : Obs V.inp.length st.pos [] [] x) {f : St → Option DRes}
    (hf : ∀ st, st.pos ≤ V.inp.length → Obs V.inp.length st.pos [] [] (f st)) :
    Obs V.inp.length st.pos [] [] (tryD (dv V n) cx m rc x f) := by
  cases x with
  | none => exact obs_none
  | some r =>
    obtain ⟨h1, h2, h3⟩ := hx r rfl
    obtain ⟨out, st', evs, calls, vals⟩ := r
    cases out with
    | ok => exact obs_after h3 (hf st' h1)
    | fail => exact obs_after h3.drop (H.plain cx (.recov rc) (st'.frame m) rfl h1)
    | brk => exact obs_none
    | ret => exact obs_none

theorem obs_deeper {cx : VCx} {tag : Nat} {st : St} (hl : st.pos ≤ V.inp.length) {body : St → Option DRes}
    (hb : ∀ st, st.pos ≤ V.inp.length → Obs V.inp.length st.pos [] [] (body st)) :
    Obs V.inp.length st.pos [] [] (deeperD cx tag st body) := by
  unfold deeperD
  refine obs_ite obs_none (obs_ite (obs_fail ((Prod'.nil _ _)) hl) ?_)
  exact obs_then (hb { st with depth := st.depth + 1 } hl) fun st' _ h2 =>
    obs_ok (st := { st' with depth := st'.depth - 1 }) (Prod'.nil _ _) h2

theorem obs_loop (H : ObsIH V n) {cx : VCx} {st : St} {item : VR} {acc : List (List Val)} {sep : Option VSep}
    (hl : st.pos ≤ V.inp.length) {lo : Nat} {e : List Ev} {cs} (ha : Prod' lo st.pos e cs [.sink 0 acc]) :
    Obs V.inp.length lo e cs (stepLoopD V (exec V.env n) (dv V n) cx st item acc sep) := by
  have hdone : ∀ acc (st : St) e cs evs, st.pos ≤ V.inp.length → Prod' lo st.pos e cs [.sink 0 acc] →
      Obs V.inp.length lo (e ++ evs) cs (okD st (sinkDone V cx.cur acc)) := fun acc st e cs evs hl ha =>
    obs_ok ((ha.done V cx.cur).widen (Nat.le_refl _) evs) hl
  have hitem : ∀ (r : VR) c acc (st' : St) m e cs, c = .fin r ∨ c = .run r → st'.pos ≤ V.inp.length →
      Prod' lo st'.pos e cs [.sink 0 acc] → ∀ f : List Val → St → Option DRes,
      (∀ vs st e cs, st.pos ≤ V.inp.length → Prod' lo st.pos e cs [.sink 0 (sinkCall acc vs)] →
        Obs V.inp.length lo e cs (f vs st)) →
      Obs V.inp.length lo e cs (baseD m (dv V n cx c st') f) := by
    intro r c acc st' m e cs hc hl ha f hf
    refine obs_base ha (H.plain cx c st' (by rcases hc with rfl | rfl <;> rfl) hl) fun vs st e' c' h1 h2 => ?_
    exact hf vs st e' c' h1 h2.sink
  cases sep with
  | none =>
    simp only [stepLoopD]
    refine obs_ite (obs_choose (hitem item _ acc st _ e cs (.inl rfl) hl ha _ fun vs st e cs h1 h2 => ?_)
      (obs_via0 hl (cancel_same hl) ha.drop fun evs => hdone _ _ _ _ _ hl ha)) obs_none
    exact H cx (.lstLoop item none (sinkCall acc vs)) st h1 lo e cs h2
  | some s =>
    obtain ⟨s, k⟩ := s
    simp only [stepLoopD]
    refine obs_choose (hitem s _ acc st _ e cs (.inl rfl) hl ha _ fun vs st1 e cs h1 h2 => ?_)
      (obs_via0 hl (cancel_same hl) ha.drop fun evs => hdone _ _ _ _ _ hl ha)
    refine obs_ite (obs_choose (hitem item _ _ st1 _ e cs (.inl rfl) h1 h2 _ fun vs st e cs h3 h4 => ?_) ?_)
      (hitem item _ _ st1 _ e cs (.inr rfl) h1 h2 _ fun vs st e cs h3 h4 => ?_)
    · exact H cx (.lstLoop item (some (s, k)) _) st h3 lo e cs h4
    · refine obs_via0 h1 (cancel_same h1) h2.drop fun evs => ?_
      refine obs_emit ?_
      have := hdone _ _ e cs (evs ++ trailingError k st.pos st1.pos) h1 h2
      simpa using this
    · exact H cx (.lstLoop item (some (s, k)) _) st h3 lo e cs h4

theorem obs_lt (H : ObsIH V n) {cx : VCx} {st : St} {s : LtSt} {term item : VR} {sep : Option VSep}
    {limit : List Nat → Bool} {acc : List (List Val)} (hl : st.pos ≤ V.inp.length) {lo : Nat} {e : List Ev} {cs}
    (ha : Prod' lo st.pos e cs [.sink 0 acc]) :
    Obs V.inp.length lo e cs (stepLtD V (exec V.env n) (dv V n) cx st term item sep limit acc s) := by
  have hdone : ∀ acc (st : St) e cs evs, st.pos ≤ V.inp.length → Prod' lo st.pos e cs [.sink 0 acc] →
      Obs V.inp.length lo (e ++ evs) cs (okD st (sinkDone V cx.cur acc)) := fun acc st e cs evs hl ha =>
    obs_ok ((ha.done V cx.cur).widen (Nat.le_refl _) evs) hl
  have hnext : ∀ s acc (st : St) e cs evs, st.pos ≤ V.inp.length → Prod' lo st.pos e cs [.sink 0 acc] →
      Obs V.inp.length lo (e ++ evs) cs (dv V n cx (.lt s term item sep limit acc) st) := fun s acc st e cs evs hl ha =>
    H cx (.lt s term item sep limit acc) st hl lo _ cs (ha.widen (Nat.le_refl _) evs)
  have hnext0 : ∀ s acc (st : St) e cs, st.pos ≤ V.inp.length → Prod' lo st.pos e cs [.sink 0 acc] →
      Obs V.inp.length lo e cs (dv V n cx (.lt s term item sep limit acc) st) := fun s acc st e cs hl ha =>
    H cx (.lt s term item sep limit acc) st hl lo _ cs ha
  have hitem : ∀ (r : VR) c acc (st' : St) m e cs, c = .fin r ∨ c = .run r → st'.pos ≤ V.inp.length →
      Prod' lo st'.pos e cs [.sink 0 acc] → ∀ (f : List Val → St → Option DRes) (g : St → Option DRes),
      (∀ vs st e cs, st.pos ≤ V.inp.length → Prod' lo st.pos e cs [.sink 0 (sinkCall acc vs)] →
        Obs V.inp.length lo e cs (f vs st)) →
      (∀ st e cs, st.pos ≤ V.inp.length → Prod' lo st.pos e cs [.sink 0 acc] → Obs V.inp.length lo e cs (g st)) →
      Obs V.inp.length lo e cs (tryBaseD m (dv V n cx c st') f g) := by
    intro r c acc st' m e cs hc hl ha f g hf hg
    refine obs_tryBase ha (H.plain cx c st' (by rcases hc with rfl | rfl <;> rfl) hl) (fun vs st e' c' h1 h2 => ?_) hg
    exact hf vs st e' c' h1 h2.sink
  have hgive : ∀ b (st : St) e cs, st.pos ≤ V.inp.length → Prod' lo st.pos e cs [.sink 0 acc] →
      Obs V.inp.length lo e cs (ltGiveUpD V (exec V.env n) (dv V n) cx b term item sep limit acc st) := by
    intro b st e cs hl ha
    unfold ltGiveUpD
    refine obs_choose (obs_emit (hdone _ _ _ _ _ hl ha)) (obs_via0 hl (cancel_same hl) ha.drop fun evs => ?_)
    by_cases hend : limit (V.inp.drop st.pos) || peekEof V.eof (V.inp.drop st.pos)
    · rw [if_pos hend]
      exact obs_fail (by simpa using ((ha.drop.widen (Nat.le_refl _) evs).widen (Nat.le_refl _) _)) hl
    · rw [if_neg hend]
      have hlt : st.pos + 1 ≤ V.inp.length := by
        simp only [Bool.or_eq_true, not_or] at hend
        cases hs : V.inp.drop st.pos with
        | nil => rw [hs] at hend; exact absurd rfl hend.2
        | cons u s =>
          have := congrArg List.length hs
          simp at this
          omega
      exact H cx (.lt (.reco b) term item sep limit acc) { st with pos := st.pos + 1 } hlt lo _ cs
        (ha.widen (Nat.le_succ _) evs)
  cases s with
  | term =>
    exact obs_choose (by simpa using hdone _ _ _ _ [] hl ha) (obs_via0 hl (cancel_same hl) ha.drop fun evs => hnext _ _ _ _ _ _ hl ha)
  | sep =>
    cases sep with
    | none => exact hnext0 _ _ _ _ _ hl ha
    | some s =>
      simp only [stepLtD]
      refine hitem s.1 _ acc st _ e cs (.inr rfl) hl ha _ _ (fun vs st e cs h1 h2 => hnext0 _ _ _ _ _ h1 h2)
        fun st1 e cs h1 h2 => ?_
      refine obs_ite (obs_choose (hitem item _ acc st1 _ e cs (.inl rfl) h1 h2 _ _
        (fun vs st e cs h3 h4 => hnext0 _ _ _ _ _ h3 h4) fun st2 e cs h3 h4 => ?_) ?_) (obs_emit (hnext _ _ _ _ _ _ h1 h2))
      · exact obs_evs fun evs => obs_emit (hnext _ _ _ _ _ _ h3 (h4.widen (Nat.le_refl _) evs))
      · exact obs_via0 h1 (cancel_same h1) h2.drop fun evs => obs_emit (hnext _ _ _ _ _ _ h1 (h2.widen (Nat.le_refl _) evs))
  | trail p => exact obs_choose (obs_emit (hdone _ _ _ _ _ hl ha)) (hnext0 _ _ _ _ _ hl ha)
  | item =>
    simp only [stepLtD]
    exact hitem item _ acc st _ e cs (.inr rfl) hl ha _ _ (fun vs st e cs h1 h2 => hnext0 _ _ _ _ _ h1 h2)
      fun st1 e cs h1 h2 => obs_emit (hnext _ _ _ _ _ _ h1 h2)
  | reco b =>
    cases sep with
    | none =>
      simp only [stepLtD]
      refine obs_ite (obs_choose (obs_emit ?_) ?_) (hgive b st e cs hl ha)
      · exact hitem item _ acc st _ _ cs (.inl rfl) hl (ha.widen (Nat.le_refl _) _) _ _
          (fun vs st e cs h1 h2 => hnext0 _ _ _ _ _ h1 h2) fun st1 e cs h1 h2 => obs_emit (hnext _ _ _ _ _ _ h1 h2)
      · exact obs_via0 hl (cancel_same hl) ha.drop fun evs => hgive b st _ cs hl (ha.widen (Nat.le_refl _) evs)
    | some s =>
      simp only [stepLtD]
      refine obs_choose (obs_emit ?_) ?_
      · exact hitem s.1 _ acc st _ _ cs (.inl rfl) hl (ha.widen (Nat.le_refl _) _) _ _
          (fun vs st e cs h1 h2 => hnext0 _ _ _ _ _ h1 h2) fun st1 e cs h1 h2 => obs_emit (hnext _ _ _ _ _ _ h1 h2)
      · exact obs_via0 hl (cancel_same hl) ha.drop fun evs => hgive b st _ cs hl (ha.widen (Nat.le_refl _) evs)

theorem repHas_acc {lo hi : Nat} {e : List Ev} {c} {kd : RepKind} {b : Nat} {acc : List (List Val)} {vs : List Val}
    (h : Prod' lo hi e c ([.sink 0 (repHas kd b acc)] ++ vs)) :
    Prod' lo hi e c [.sink 0 (repHas kd b (repAcc kd acc vs))] := by
  cases kd with
  | list => exact h.sink
  | discard => exact h.fst
  | capture => exact h.fst

theorem repHas_done {lo hi : Nat} {e : List Ev} {c} {kd : RepKind} {b : Nat} {acc : List (List Val)}
    (h : Prod' lo hi e c [.sink 0 (repHas kd b acc)]) (cur : Nat) : Prod' lo hi e c (repDone V cur kd b hi acc) := by
  cases kd with
  | list => exact h.done V cur
  | discard => exact h.drop
  | capture => exact h.covered

theorem repHas_start (lo : Nat) (e : List Ev) (kd : RepKind) : Prod' lo lo e [] [.sink 0 (repHas kd lo [])] := by
  cases kd with
  | list => exact Prod'.noSink lo e
  | discard => exact Prod'.noSink lo e
  | capture => exact Prod'.start lo e

theorem obs_rep (H : ObsIH V n) {cx : VCx} {st : St} {kd : RepKind} {b m : Nat} {item : VR} {sep : Option VSep}
    {acc : List (List Val)} (hl : st.pos ≤ V.inp.length) {lo : Nat} {e : List Ev} {cs}
    (ha : Prod' lo st.pos e cs [.sink 0 (repHas kd b acc)]) :
    Obs V.inp.length lo e cs (stepRepD V (dv V n) cx st kd b item sep acc m) := by
  have hitem : ∀ (r : VR) acc (st' : St) m e cs, st'.pos ≤ V.inp.length →
      Prod' lo st'.pos e cs [.sink 0 (repHas kd b acc)] → ∀ f : List Val → St → Option DRes,
      (∀ vs st e cs, st.pos ≤ V.inp.length → Prod' lo st.pos e cs [.sink 0 (repHas kd b (repAcc kd acc vs))] →
        Obs V.inp.length lo e cs (f vs st)) →
      Obs V.inp.length lo e cs (baseD m (dv V n cx (.run r) st') f) := by
    intro r acc st' m e cs hl ha f hf
    exact obs_base ha (H.plain cx (.run r) st' rfl hl) fun vs st e' c' h1 h2 => hf vs st e' c' h1 (repHas_acc h2)
  have hnext : ∀ m acc (st : St) e cs, st.pos ≤ V.inp.length → Prod' lo st.pos e cs [.sink 0 (repHas kd b acc)] →
      Obs V.inp.length lo e cs (dv V n cx (.repTail kd b m item sep acc) st) := fun m acc st e cs hl ha =>
    H cx (.repTail kd b m item sep acc) st hl lo e cs ha
  cases m with
  | zero => exact hitem _ _ _ _ _ _ hl ha _ fun vs st e cs h1 h2 => obs_ok (repHas_done h2 _) h1
  | succ m =>
    cases sep with
    | none => exact hitem _ _ _ _ _ _ hl ha _ fun vs st e cs h1 h2 => hnext _ _ _ _ _ h1 h2
    | some s =>
      exact hitem _ _ _ _ _ _ hl ha _ fun vs st e cs h1 h2 =>
        hitem _ _ _ _ _ _ h1 h2 _ fun vs st e cs h1 h2 => hnext _ _ _ _ _ h1 h2

theorem obs_rep1 (H : ObsIH V n) {cx : VCx} {st : St} {kd : RepKind} {f : List Nat → Nat} {item : VR}
    {sep : Option VSep} {c : VCmd} (hc : c.acc = []) (hl : st.pos ≤ V.inp.length) :
    Obs V.inp.length st.pos [] [] (baseD st.vars.length (dv V n cx c st) fun _ st1 =>
      repD V (dv V n) cx kd f item sep st.pos st1) := by
  refine obs_base (Prod'.nil _ _) (H.plain cx c st hc hl) fun vs st1 e c h1 h2 => ?_
  refine obs_start (Prod'.fst (v1 := []) h2) ?_
  cases hm : f ((V.inp.take st1.pos).drop st.pos) with
  | zero =>
    simp only [repD, hm]
    exact obs_ok (repHas_done (repHas_start _ _ _) _) h1
  | succ m =>
    simp only [repD, hm]
    refine obs_base (repHas_start _ _ kd) (H.plain cx (.run item) st1 rfl h1) fun vs st2 e c h3 h4 => ?_
    exact H cx (.repTail kd st1.pos m item sep (repAcc kd [] vs)) st2 h3 _ _ _ (repHas_acc h4)

theorem prim_moves {cx : Cx} {ws : Bool} {st : St} {r : Bool × Nat × List Ev} (h2 : r.2.1 ≤ V.inp.length) :
    Moves V.inp.length r.2.1 (primDone (exec V.env n) cx ws r st) := by
  intro x hx
  unfold primDone at hx
  split at hx
  · split at hx
    · cases hw : exec V.env n cx .ws { st with pos := r.2.1 } with
      | none => rw [hw] at hx; cases hx
      | some w =>
        have := ws_moves (V := V) (n := n) (cx := cx) (st := { st with pos := r.2.1 }) h2 w hw
        rw [hw] at hx; cases hx
        exact this
    · cases hx; exact ⟨Nat.le_refl _, h2⟩
  · cases hx; exact ⟨Nat.le_refl _, h2⟩

theorem prim_evs {cx : Cx} {ws : Bool} {st : St} {r : Bool × Nat × List Ev} {x : Res}
    (h : primDone (exec V.env n) cx ws r st = some x) : ∃ evs, x.evs = r.2.2 ++ evs := by
  unfold primDone emit at h
  rw [Option.map_eq_some_iff] at h
  obtain ⟨y, -, rfl⟩ := h
  exact ⟨y.evs, rfl⟩

/-- A rule without parts, and what follows it. -/
theorem obs_prim {cx : Cx} {ws : Bool} {st : St} {r : Bool × Nat × List Ev} {f : St → Option DRes} {vs : List Val}
    (h1 : st.pos ≤ r.2.1) (h2 : r.2.1 ≤ V.inp.length) (hv : r.1 = true → Prod' st.pos r.2.1 r.2.2 [] vs)
    (hf : ∀ (st' : St) e, st'.pos ≤ V.inp.length → Prod' st.pos st'.pos e [] vs →
      Obs V.inp.length st.pos e [] (f st')) :
    Obs V.inp.length st.pos [] [] (viaD (primDone (exec V.env n) cx ws r st) f) := by
  cases hx : primDone (exec V.env n) cx ws r st with
  | none => exact obs_none
  | some x =>
    obtain ⟨h3, h4⟩ := prim_moves (V := V) h2 x hx
    obtain ⟨evs, he⟩ := prim_evs hx
    obtain ⟨out, st', evs'⟩ := x
    simp only at he h3 h4
    subst he
    cases out with
    | ok =>
      have ho : r.1 = true := Tot.primDone_ok hx rfl
      exact obs_emit (hf st' _ h4 (by simpa using (hv ho).widen h3 evs))
    | fail => exact obs_fail (by simpa using (Prod'.nil st.pos []).widen (Nat.le_trans h1 h3) (r.2.2 ++ evs)) h4
    | brk =>
      intro d hd; cases hd
      exact ⟨h4, (fun _ h => by cases h), by simpa using (Prod'.nil st.pos []).widen (Nat.le_trans h1 h3) (r.2.2 ++ evs)⟩

theorem obs_prim' {cx : Cx} {ws : Bool} {st : St} {r : Bool × Nat × List Ev} {f : St → Option DRes} {vs : List Val}
    (h1 : st.pos ≤ r.2.1) (h2 : r.2.1 ≤ V.inp.length) (hv : r.1 = true → Prod' st.pos r.2.1 r.2.2 [] vs)
    (hf : ∀ (st' : St) e, st'.pos ≤ V.inp.length → Prod' st.pos st'.pos e [] vs →
      Obs V.inp.length st.pos e [] (f st')) :
    Obs V.inp.length st.pos [] [] (viaD' (primDone (exec V.env n) cx ws r st) f) := by
  have h := obs_prim (n := n) (cx := cx) (ws := ws) h1 h2 hv hf
  cases hx : primDone (exec V.env n) cx ws r st with
  | none => exact obs_none
  | some x =>
    rw [hx] at h
    obtain ⟨out, st', evs'⟩ := x
    cases out with
    | ok => exact h
    | fail => exact h
    | brk => exact obs_none

theorem prim_values {q : VPrim} {lo hi : Nat} {e : List Ev} (cur p : Nat)
    (h : PVals e hi lo (q.vals V.inp p).flatten) : Prod' lo hi e [] (q.values V cur p) := by
  have h1 := Prod'.pvals h
  unfold VPrim.values
  split
  · refine Prod'.done (Prod'.flat ?_) V cur
    rw [← List.map_flatten]
    exact h1
  · exact h1

theorem obs_ident {st : St} {lo : Nat} {e : List Ev} {c} {id : Nat} {s : List Nat} {vs : List Val}
    (hl : st.pos ≤ V.inp.length) (h : Prod' lo st.pos e c vs) : Obs V.inp.length lo e c (identD id s vs st) := by
  unfold identD
  cases getIdent id st.vars with
  | none => exact obs_none
  | some i => exact obs_ok (st := { st with vars := _ }) h hl

theorem obs_pushD {st : St} {id p : Nat} {sign : Int} (hl : st.pos ≤ V.inp.length) :
    Obs V.inp.length st.pos [] [] (pushD id sign p st) := by
  unfold pushD
  cases getCounter id st.vars with
  | none => exact obs_none
  | some i => exact obs_ok (st := { st with vars := _ }) (Prod'.nil _ _) hl

theorem obs_run (H : ObsIH V n) (cx : VCx) (st : St) (hl : st.pos ≤ V.inp.length) (r : VR) :
    Obs V.inp.length st.pos [] [] (dv V (n + 1) cx (.run r) st) := by
  have hrun : ∀ cx (r : VR) (st : St), st.pos ≤ V.inp.length → Obs V.inp.length st.pos [] [] (dv V n cx (.run r) st) :=
    fun cx r st hl => H.plain cx (.run r) st rfl hl
  have hfin : ∀ cx (r : VR) (st : St), st.pos ≤ V.inp.length → Obs V.inp.length st.pos [] [] (dv V n cx (.fin r) st) :=
    fun cx r st hl => H.plain cx (.fin r) st rfl hl
  have hnil : ∀ (p : Nat) (e : List Ev), Prod' p p e [] [] := Prod'.nil
  have hcan : ∀ (b : Rule) (f : St → Option DRes), (Obs V.inp.length st.pos [] [] (f st)) →
      Obs V.inp.length st.pos [] [] (viaD' (exec V.env n cx.cx (.bcancel b) st) f) := fun b f hf =>
    obs_via0 hl (cancel_same hl) (hnil _ _) fun evs => obs_start (hnil _ _) hf
  have hp : ∀ m cx (st : St), st.pos ≤ V.inp.length → Obs V.inp.length st.pos [] []
      (if (V.prods m).ws.isSome then viaD' (exec V.env n cx.cx .ws st) fun st'' => dv V n cx (.run (V.prods m).rule) st''
        else dv V n cx (.run (V.prods m).rule) st) := fun m cx st hl =>
    obs_ite (obs_via' (ws_moves hl) (hnil _ _) fun st' evs h1 h2 =>
      obs_start (by simpa using (hnil st.pos []).widen h1 evs) (hrun cx _ st' h2)) (hrun cx _ st hl)
  cases r with
  | leaf r => exact obs_leaf (run_moves (n := n + 1) hl)
  | cap t =>
    show Obs _ _ _ _ (stepRunD V (exec V.env n) (dv V n) cx st (.cap t))
    simp only [stepRunD]
    have h1 := t.le (V.inp.drop st.pos)
    rw [List.length_drop] at h1
    refine obs_ite (obs_tokD (by omega) (by omega) ?_) (obs_fail ?_ ?_)
    · refine (Prod'.lexeme ?_ (.inl ⟨t.kind, by simp⟩))
      simpa using (hnil st.pos []).widen (Nat.le_add_right _ _) _
    · simpa using (hnil st.pos []).widen (Nat.le_add_right _ _) _
    · show st.pos + _ ≤ _
      omega
  | capp m =>
    show Obs _ _ _ _ (stepRunD V (exec V.env n) (dv V n) cx st (.capp m))
    simp only [stepRunD]
    exact obs_ite (obs_prodD hl (hp m)) obs_none
  | val v =>
    refine obs_ok ((hnil _ _).other v.val ?_ ?_ ?_) hl <;> cases v <;> simp [Atom.val, Val.leaves, span, Val.results]
  | posr r =>
    show Obs _ _ _ _ (stepRunD V (exec V.env n) (dv V n) cx st (.posr r))
    simp only [stepRunD]
    refine obs_emit (obs_after (mid := st.pos) ?_ (hrun cx r st hl))
    have := ((hnil st.pos [.token .position st.pos st.pos]).lexeme (.inl ⟨.position, by simp⟩))
    refine ⟨Nat.le_refl _, ⟨?_, ?_⟩, by simp, ?_, by simp, by simp [Val.resultsL, Val.results], Spec.CallsOk.nil⟩
    · simp [spans, Val.leavesL, Val.leaves, span]
    · simp [spans, Val.leavesL, Val.leaves, span]
    · simp [Val.leavesL, Val.leaves, Reported]
  | seq a b => exact obs_then (hrun cx a st hl) fun st _ h => hrun cx b st h
  | br a b => exact obs_then (hrun cx a st hl) fun st _ h => hrun cx b st h
  | chc rs => exact H.plain cx (.chcRun rs) st rfl hl
  | ifR b => exact obs_choose (hfin cx b st hl) (hcan _ _ (obs_ok (hnil _ _) hl))
  | opt b =>
    refine obs_choose (hfin cx b st hl) (hcan _ _ (obs_ok ?_ hl))
    exact (hnil _ _).other .nullopt (by simp [Val.leaves]) rfl (by simp [Val.results])
  | optt t b =>
    refine obs_choose (obs_after ?_ (hfin cx t st hl)) (hcan _ _ (hrun cx b st hl))
    exact (hnil _ _).other .nullopt (by simp [Val.leaves]) rfl (by simp [Val.results])
  | must b er =>
    refine obs_choose (hfin cx b st hl) (hcan _ _ ?_)
    have hm := run_moves (V := V) (n := n) (cx := cx.cx) (r := er) hl
    cases hx : exec V.env n cx.cx (.run er) st with
    | none => exact obs_none
    | some r =>
      obtain ⟨h1, h2⟩ := hm r hx
      obtain ⟨out, st', evs⟩ := r
      cases out with
      | fail =>
        refine obs_fail (st := st'.frame st.vars.length) ?_ h2
        simpa [frame_pos] using (hnil st.pos []).widen h1 evs
      | ok => exact obs_none
      | brk => exact obs_none
  | lst item sep =>
    show Obs _ _ _ _ (stepRunD V (exec V.env n) (dv V n) cx st (.lst item sep))
    simp only [stepRunD]
    refine obs_base (va := [.sink 0 []]) (Prod'.noSink _ _) (hrun cx item st hl) fun vs st e c h1 h2 => ?_
    exact H cx (.lstLoop item sep (sinkCall [] vs)) st h1 _ _ _ h2.sink
  | tryt t r rc =>
    show Obs _ _ _ _ (stepRunD V (exec V.env n) (dv V n) cx st (.tryt t r rc))
    simp only [stepRunD]
    refine obs_tryD H (hrun cx r st hl) fun st h => ?_
    cases t with
    | none => exact obs_ok (hnil _ _) h
    | some t => exact hrun cx t st h
  | tryr r rc => exact obs_tryD H (hrun cx r st hl) fun st h => obs_ok (hnil _ _) h
  | prod m =>
    show Obs _ _ _ _ (stepRunD V (exec V.env n) (dv V n) cx st (.prod m))
    simp only [stepRunD]
    exact obs_prodD hl (hp m)
  | recu m tag b => exact obs_deeper hl fun st h => hrun cx (.prod m) st h
  | wsn r =>
    show Obs _ _ _ _ (stepRunD V (exec V.env n) (dv V n) cx st (.wsn r))
    simp only [stepRunD]
    refine obs_ite (hrun cx r st hl) (obs_then (hrun cx r { st with wsOn := false } hl) fun st' _ h => ?_)
    exact obs_leaf (ws_moves (st := { st' with wsOn := true }) h)
  | pre a r =>
    refine obs_after ?_ (hrun cx r st hl)
    refine (hnil _ _).other a.val ?_ ?_ ?_ <;> cases a <;> simp [Atom.val, Val.leaves, span, Val.results]
  | pas t r =>
    show Obs _ _ _ _ (stepRunD V (exec V.env n) (dv V n) cx st (.pas t r))
    simp only [stepRunD]
    refine obs_base (hnil _ _) (hrun cx r st hl) fun vs st e c h1 h2 => obs_ok ?_ h1
    exact Prod'.made (by simpa using h2) t
  | comb tag rs els =>
    show Obs _ _ _ _ (stepRunD V (exec V.env n) (dv V n) cx st (.comb tag rs els))
    simp only [stepRunD]
    refine obs_then (H.plain cx (.combLoop tag _ rs.length [] 0 []) { st with idx := 0 } rfl hl) fun st' _ h => ?_
    exact obs_ok (st := { st' with idx := st.idx }) (hnil _ _) h
  | combIt i => exact obs_ok (st := { st with idx := i }) (hnil _ _) hl
  | ret =>
    intro d hd
    cases hd
    exact ⟨hl, fun pre h => by cases h; simp, by simpa using hnil st.pos []⟩
  | lstt term item sep limit =>
    show Obs _ _ _ _ (stepRunD V (exec V.env n) (dv V n) cx st (.lstt term item sep limit))
    simp only [stepRunD]
    refine obs_then ?_ fun st' _ h => hfin cx term st' h
    refine obs_tryBase (va := [.sink 0 []]) (Prod'.noSink _ _) (hrun cx item st hl) (fun vs st e c h1 h2 => ?_)
      fun st e c h1 h2 => obs_emit ?_
    · exact H cx (.lt .term term item sep limit (sinkCall [] vs)) st h1 _ _ _ h2.sink
    · exact H cx (.lt (.reco st.pos) term item sep limit []) st h1 _ _ _ (h2.widen (Nat.le_refl _) _)
  | prim q =>
    show Obs _ _ _ _ (stepRunD V (exec V.env n) (dv V n) cx st (.prim q))
    simp only [stepRunD]
    have hb := (q.rule.parse_tr V.inp st.pos hl).bounds hl
    exact obs_prim hb.1 hb.2 (fun ho => prim_values cx.cur st.pos (q.ok V.inp st.pos hl ho)) fun st' e h1 h2 => obs_ok h2 h1
  | rep kd c f item sep => exact obs_rep1 H rfl hl
  | cntPush id r sign =>
    show Obs _ _ _ _ (stepRunD V (exec V.env n) (dv V n) cx st (.cntPush id r sign))
    simp only [stepRunD]
    exact obs_front (hrun cx r st hl) fun st' _ h => obs_pushD h
  | cntVal id =>
    show Obs _ _ _ _ ((getCounter id st.vars).bind fun i => okD st [.num i])
    cases getCounter id st.vars with
    | none => exact obs_none
    | some i => exact obs_ok ((hnil _ _).other (.num i) (by simp [Val.leaves]) rfl (by simp [Val.results])) hl
  | idCap id q =>
    show Obs _ _ _ _ (stepRunD V (exec V.env n) (dv V n) cx st (.idCap id q))
    simp only [stepRunD]
    have hb := (q.rule.parse_tr V.inp st.pos hl).bounds hl
    exact obs_prim' hb.1 hb.2 (fun ho => Prod'.pvals (q.ok V.inp st.pos hl ho)) fun st' e h1 h2 => obs_ident h1 h2

theorem obs_fin (H : ObsIH V n) (cx : VCx) (st : St) (hl : st.pos ≤ V.inp.length) (r : VR) :
    Obs V.inp.length st.pos [] [] (dv V (n + 1) cx (.fin r) st) := by
  have hrun : ∀ cx (r : VR) (st : St), st.pos ≤ V.inp.length → Obs V.inp.length st.pos [] [] (dv V n cx (.run r) st) :=
    fun cx r st hl => H.plain cx (.run r) st rfl hl
  have hfin : ∀ cx (r : VR) (st : St), st.pos ≤ V.inp.length → Obs V.inp.length st.pos [] [] (dv V n cx (.fin r) st) :=
    fun cx r st hl => H.plain cx (.fin r) st rfl hl
  have hnil : ∀ (p : Nat) (e : List Ev), Prod' p p e [] [] := Prod'.nil
  cases r with
  | leaf r => exact obs_leaf (fin_moves (n := n + 1) hl)
  | cap t =>
    show Obs _ _ _ _ (stepFinD V (exec V.env n) (dv V n) cx st (.cap t))
    simp only [stepFinD]
    have h1 := t.le (V.inp.drop st.pos)
    rw [List.length_drop] at h1
    refine obs_tokD (by omega) (by omega) ?_
    refine (Prod'.lexeme ?_ (.inl ⟨t.kind, by simp⟩))
    simpa using (hnil st.pos []).widen (Nat.le_add_right _ _) _
  | capp m =>
    show Obs _ _ _ _ (stepFinD V (exec V.env n) (dv V n) cx st (.capp m))
    simp only [stepFinD]
    exact obs_ite (obs_prodD hl fun cx st h => hfin cx _ st h) obs_none
  | val v =>
    refine obs_ok ((hnil _ _).other v.val ?_ ?_ ?_) hl <;> cases v <;> simp [Atom.val, Val.leaves, span, Val.results]
  | posr r =>
    show Obs _ _ _ _ (stepFinD V (exec V.env n) (dv V n) cx st (.posr r))
    simp only [stepFinD]
    refine obs_emit (obs_after (mid := st.pos) ?_ (hfin cx r st hl))
    refine ⟨Nat.le_refl _, ⟨?_, ?_⟩, by simp, ?_, by simp, by simp [Val.resultsL, Val.results], Spec.CallsOk.nil⟩
    · simp [spans, Val.leavesL, Val.leaves, span]
    · simp [spans, Val.leavesL, Val.leaves, span]
    · simp [Val.leavesL, Val.leaves, Reported]
  | br a b => exact obs_then (hfin cx a st hl) fun st _ h => hrun cx b st h
  | chc rs => exact H.plain cx (.chcFin rs) st rfl hl
  | must b er => exact hfin cx b st hl
  | lst item sep =>
    show Obs _ _ _ _ (stepFinD V (exec V.env n) (dv V n) cx st (.lst item sep))
    simp only [stepFinD]
    refine obs_base (va := [.sink 0 []]) (Prod'.noSink _ _) (hfin cx item st hl) fun vs st e c h1 h2 => ?_
    exact H cx (.lstLoop item sep (sinkCall [] vs)) st h1 _ _ _ h2.sink
  | tryr r rc => exact obs_tryD H (hfin cx r st hl) fun st h => obs_ok (hnil _ _) h
  | prod m =>
    show Obs _ _ _ _ (stepFinD V (exec V.env n) (dv V n) cx st (.prod m))
    simp only [stepFinD]
    exact obs_prodD hl fun cx st h => hfin cx _ st h
  | recu m tag b => exact obs_deeper hl fun st h => hfin cx (.prod m) st h
  | wsn r =>
    show Obs _ _ _ _ (stepFinD V (exec V.env n) (dv V n) cx st (.wsn r))
    simp only [stepFinD]
    refine obs_then (hfin cx r { st with wsOn := false } hl) fun st' _ h => ?_
    exact obs_leaf (ws_moves (st := { st' with wsOn := true }) h)
  | pre a r =>
    refine obs_after ?_ (hfin cx r st hl)
    refine (hnil _ _).other a.val ?_ ?_ ?_ <;> cases a <;> simp [Atom.val, Val.leaves, span, Val.results]
  | pas t r =>
    show Obs _ _ _ _ (stepFinD V (exec V.env n) (dv V n) cx st (.pas t r))
    simp only [stepFinD]
    refine obs_base (hnil _ _) (hfin cx r st hl) fun vs st e c h1 h2 => obs_ok ?_ h1
    exact Prod'.made (by simpa using h2) t
  | prim q =>
    show Obs _ _ _ _ (stepFinD V (exec V.env n) (dv V n) cx st (.prim q))
    simp only [stepFinD]
    have hb := (q.rule.finish_tr V.inp st.pos hl).bounds hl
    exact obs_prim hb.1 hb.2 (fun ho => prim_values cx.cur st.pos (q.ok' V.inp st.pos hl ho)) fun st' e h1 h2 => obs_ok h2 h1
  | rep kd c f item sep => exact obs_rep1 H rfl hl
  | cntPush id r sign =>
    show Obs _ _ _ _ (stepFinD V (exec V.env n) (dv V n) cx st (.cntPush id r sign))
    simp only [stepFinD]
    exact obs_front (hfin cx r st hl) fun st' _ h => obs_pushD h
  | idCap id q =>
    show Obs _ _ _ _ (stepFinD V (exec V.env n) (dv V n) cx st (.idCap id q))
    simp only [stepFinD]
    have hb := (q.rule.finish_tr V.inp st.pos hl).bounds hl
    exact obs_prim' hb.1 hb.2 (fun ho => Prod'.pvals (q.ok' V.inp st.pos hl ho)) fun st' e h1 h2 => obs_ident h1 h2
  | _ => exact obs_none

theorem obs_wrap (H : ObsIH V n) (cx : VCx) (st : St) (hl : st.pos ≤ V.inp.length) (r : VR) :
    Obs V.inp.length st.pos [] [] (dv V (n + 1) cx (.recov (.wrap r)) st) := by
  show Obs _ _ _ _ (stepD V (exec V.env n) (dv V n) cx (.recov (.wrap r)) st)
  simp only [stepD]
  have hx : Obs V.inp.length st.pos [] [] (thenD (dv V n cx (.run r) st) fun st' =>
      viaD (exec V.env n cx.cx .ws st') fun st'' => okD st'' []) :=
    obs_then (H.plain cx (.run r) st rfl hl) fun st' _ h => obs_leaf (ws_moves h)
  generalize (thenD (dv V n cx (.run r) st) fun st' =>
      viaD (exec V.env n cx.cx .ws st') fun st'' => okD st'' []) = x at hx
  cases x with
  | none => exact obs_none
  | some r =>
    obtain ⟨h1, h2, h3⟩ := hx r rfl
    obtain ⟨out, st', evs, calls, vals⟩ := r
    have h4 : ∀ e, Prod' st.pos st'.pos ([.recStart st.pos] ++ evs ++ e) calls vals := fun e => by
      have := (h3.before [.recStart st.pos]).widen (Nat.le_refl _) e
      simpa using this
    cases out with
    | ok =>
      intro d hd; cases hd
      exact ⟨h1, (fun _ h => by cases h), by simpa using h4 _⟩
    | fail =>
      intro d hd; cases hd
      exact ⟨h1, (fun _ h => by cases h), by simpa using (h4 _).drop⟩
    | brk => exact obs_none
    | ret pre =>
      intro d hd; cases hd
      refine ⟨h1, fun pre' h w hw => ?_, by simpa using h4 _⟩
      cases h
      rcases List.mem_append.1 hw with hw | hw
      · exact h2 pre rfl w hw
      · simp only [List.mem_singleton] at hw
        subst hw
        trivial

theorem obs_comb (H : ObsIH V n) (cx : VCx) (st : St) (hl : st.pos ≤ V.inp.length) (tag : Nat) (rs : List VR) (k : Nat)
    (handled : List Nat) (count : Nat) (acc : List (List Val)) {lo : Nat} {e : List Ev} {cs}
    (ha : Prod' lo st.pos e cs [.sink 0 acc]) :
    Obs V.inp.length lo e cs (dv V (n + 1) cx (.combLoop tag rs k handled count acc) st) := by
  show Obs _ _ _ _ (stepD V (exec V.env n) (dv V n) cx (.combLoop tag rs k handled count acc) st)
  simp only [stepD]
  refine obs_ite (obs_ok (ha.done V cx.cur) hl) ?_
  have hx := H.plain cx (.chcRun rs) st rfl hl
  generalize dv V n cx (.chcRun rs) st = x at hx
  cases x with
  | none => exact obs_none
  | some r =>
    obtain ⟨h1, h2, h3⟩ := hx r rfl
    obtain ⟨out, st', evs, calls, vals⟩ := r
    have h4 : Prod' lo st'.pos (e ++ evs) (cs ++ calls) ([.sink 0 acc] ++ vals) := by simpa using ha.append h3
    have h5 : Prod' lo st'.pos (e ++ evs) (cs ++ calls) [.sink 0 acc] := by simpa using ha.append h3.drop
    cases out with
    | ok =>
      refine obs_pre (obs_ite (obs_emit ?_) ?_)
      · exact H cx (.combLoop tag rs k handled count acc) (st'.frame st.vars.length) h1 _ _ _
          (h5.widen (Nat.le_refl _) _)
      · exact H cx (.combLoop tag rs k _ (count + 1) (sinkCall acc vals)) (st'.frame st.vars.length) h1 _ _ _ h4.sink
    | fail => exact obs_fail (st := st'.frame st.vars.length) h5.drop h1
    | brk =>
      intro d hd; cases hd
      exact ⟨h1, (fun _ h => by cases h), h5.done V cx.cur⟩
    | ret => exact obs_none

end

theorem dv_obs (V : VEnv) (n : Nat) : ObsIH V n := by
  induction n with
  | zero => exact fun _ _ _ _ _ _ _ _ => obs_none
  | succ n H =>
    intro cx c st hl lo e cs ha
    have hd : c.acc = [] → Prod' lo st.pos e cs [] := fun _ => ha.drop
    have hcan : ∀ (b : Rule) (f : St → Option DRes), (Obs V.inp.length st.pos [] [] (f st)) →
        Obs V.inp.length st.pos [] [] (viaD' (exec V.env n cx.cx (.bcancel b) st) f) := fun b f hf =>
      obs_via0 hl (cancel_same hl) (Prod'.nil _ _) fun evs => obs_start (Prod'.nil _ _) hf
    cases c with
    | run r => exact obs_start (hd rfl) (obs_run H cx st hl r)
    | fin r => exact obs_start (hd rfl) (obs_fin H cx st hl r)
    | chcRun rs =>
      refine obs_start (hd rfl) ?_
      cases rs with
      | nil => exact obs_fail (Prod'.nil _ _) hl
      | cons r rs =>
        exact obs_choose (H.plain cx (.fin r) st rfl hl) (hcan _ _ (H.plain cx (.chcRun rs) st rfl hl))
    | chcFin rs =>
      refine obs_start (hd rfl) ?_
      cases rs with
      | nil => exact obs_none
      | cons r rs =>
        exact obs_choose (H.plain cx (.fin r) st rfl hl) (hcan _ _ (H.plain cx (.chcFin rs) st rfl hl))
    | lstLoop item sep acc => exact obs_loop H hl ha
    | lt s term item sep limit acc => exact obs_lt H hl ha
    | repTail kd b m item sep acc => exact obs_rep H hl ha
    | recov rc =>
      refine obs_start (hd rfl) ?_
      cases rc with
      | wrap r => exact obs_wrap H cx st hl r
      | find l =>
        show Obs _ _ _ _ (stepD V (exec V.env n) (dv V n) cx (.recov (.find l)) st)
        simp only [stepD]
        refine obs_leaf fun r hr => ?_
        have h1 := findScan_le l V.eof (V.inp.drop st.pos)
        rw [List.length_drop] at h1
        cases hr
        show st.pos ≤ st.pos + (findScan l V.eof (V.inp.drop st.pos)).2 ∧
          st.pos + (findScan l V.eof (V.inp.drop st.pos)).2 ≤ V.inp.length
        omega
      | reco limit rs => exact obs_emit (obs_start (Prod'.nil _ _) (H.plain cx (.recoLoop st.pos limit rs) st rfl hl))
    | recoLoop b limit rs =>
      refine obs_start (hd rfl) ?_
      refine obs_choose (obs_emit (obs_start (Prod'.nil _ _) (H.plain cx (.chcFin rs) st rfl hl))) ?_
      refine obs_via0 hl (chcCancel_same hl) (Prod'.nil _ _) fun evs => ?_
      refine obs_start (Prod'.nil _ _) ?_
      by_cases hend : limit (V.inp.drop st.pos) || peekEof V.eof (V.inp.drop st.pos)
      · rw [if_pos hend]
        exact obs_fail (Prod'.nil _ _) hl
      · rw [if_neg hend]
        have hlt : st.pos + 1 ≤ V.inp.length := by
          simp only [Bool.or_eq_true, not_or] at hend
          cases hs : V.inp.drop st.pos with
          | nil => rw [hs] at hend; exact absurd rfl hend.2
          | cons u s =>
            have := congrArg List.length hs
            simp at this
            omega
        have := (Prod'.nil st.pos []).widen (hi := st.pos + 1) (by omega) []
        exact obs_start this (H.plain cx (.recoLoop b limit rs) { st with pos := st.pos + 1 } rfl hlt)
    | combLoop tag rs k handled count acc => exact obs_comb H cx st hl tag rs k handled count acc ha

end Verif.Val
