import Verif.DepthProps
import Verif.ChoiceProps
import Verif.TermListProps

/-
Parsing terminates: which grammars always have a result.
This file: results as limits of the step counter, and the measure that decreases.

Source: /repo/include/lexy/dsl/*.hpp
-/

namespace Verif.Tot

open Verif

/-! ## Results for all sufficiently large numbers of steps -/

abbrev RecFn := Cx → Cmd → St → Option Res

/-- For every sufficiently large number of steps the result is `r`. -/
def Ends (E : Env) (f : RecFn → Option Res) (r : Res) : Prop := ∃ N, ∀ n, N ≤ n → f (exec E n) = some r

/-- There is a result; it is not `break_`, if `b` is false. -/
def T (E : Env) (b : Bool) (f : RecFn → Option Res) : Prop := ∃ r, Ends E f r ∧ (b = false → r.out ≠ .brk)

/-- The command has a result; it is not `break_`, if `b` is false. -/
def TotC (E : Env) (b : Bool) (cx : Cx) (c : Cmd) (st : St) : Prop := ∃ r, Exec E cx c st r ∧ (b = false → r.out ≠ .brk)

variable {E : Env} {b : Bool}

theorem Ends.of_exec {cx : Cx} {c : Cmd} {st : St} {r : Res} (h : Exec E cx c st r) :
    Ends E (fun rec => rec cx c st) r := by
  obtain ⟨n, h⟩ := h
  exact ⟨n, fun m hm => exec_mono hm h⟩

theorem Ends.exec {cx : Cx} {c : Cmd} {st : St} {r : Res} (h : Ends E (fun rec => rec cx c st) r) :
    Exec E cx c st r := by
  obtain ⟨N, h⟩ := h
  exact ⟨N, h N (Nat.le_refl _)⟩

theorem Ends.unique {f : RecFn → Option Res} {r r' : Res} (h : Ends E f r) (h' : Ends E f r') : r = r' := by
  obtain ⟨N, h⟩ := h
  obtain ⟨M, h'⟩ := h'
  have h1 := h _ (Nat.le_max_left N M)
  have h2 := h' _ (Nat.le_max_right N M)
  rw [h1] at h2
  exact Option.some.inj h2

theorem TotC.mono {b' : Bool} {cx : Cx} {c : Cmd} {st : St} (h : TotC E false cx c st) : TotC E b' cx c st := by
  obtain ⟨r, h1, h2⟩ := h
  exact ⟨r, h1, fun _ => h2 rfl⟩

theorem TotC.weaken {cx : Cx} {c : Cmd} {st : St} (h : TotC E b cx c st) : TotC E true cx c st := by
  obtain ⟨r, h1, _⟩ := h
  exact ⟨r, h1, fun h => by cases h⟩

theorem T.exec {cx : Cx} {c : Cmd} {st : St} (h : T E b fun rec => step E rec cx c st) : TotC E b cx c st := by
  obtain ⟨r, ⟨N, h1⟩, h2⟩ := h
  exact ⟨r, ⟨N + 1, h1 N (Nat.le_refl _)⟩, h2⟩

theorem TotC.rec {cx : Cx} {c : Cmd} {st : St} (h : TotC E b cx c st) : T E b fun rec => rec cx c st := by
  obtain ⟨r, h1, h2⟩ := h
  exact ⟨r, .of_exec h1, h2⟩

theorem T.congr {f g : RecFn → Option Res} (N : Nat) (h : ∀ n, N ≤ n → f (Verif.exec E n) = g (Verif.exec E n))
    (hg : T E b g) : T E b f := by
  obtain ⟨r, ⟨M, h1⟩, h2⟩ := hg
  refine ⟨r, ⟨max N M, fun n hn => ?_⟩, h2⟩
  rw [h n (by omega), h1 n (by omega)]

theorem T.pure {r : Res} (h : r.out ≠ .brk) : T E b fun _ => some r := ⟨r, ⟨0, fun _ _ => rfl⟩, fun _ => h⟩

theorem T.ret_ok {st : St} : T E b fun _ => ret .ok st := T.pure (r := ⟨.ok, st, []⟩) (by simp)
theorem T.ret_fail {st : St} : T E b fun _ => ret .fail st := T.pure (r := ⟨.fail, st, []⟩) (by simp)
theorem T.ret_if {p : Bool} {st : St} : T E b fun _ => ret (if p then .ok else .fail) st := by
  cases p
  · exact T.ret_fail
  · exact T.ret_ok

theorem Ends.emit {x : RecFn → Option Res} {evs : List Ev} {r : Res} (h : Ends E x r) :
    Ends E (fun rec => emit evs (x rec)) ⟨r.out, r.st, evs ++ r.evs⟩ := by
  obtain ⟨N, h⟩ := h
  exact ⟨N, fun n hn => emit_some.2 ⟨r, h n hn, rfl⟩⟩

theorem T.emit {x : RecFn → Option Res} {evs : List Ev} (h : T E b x) : T E b fun rec => emit evs (x rec) := by
  obtain ⟨r, h1, h2⟩ := h
  exact ⟨_, h1.emit, h2⟩

theorem T.framed {x : RecFn → Option Res} {k : Nat} (h : T E b x) : T E b fun rec => framed k (x rec) := by
  obtain ⟨r, ⟨N, h1⟩, h2⟩ := h
  exact ⟨⟨r.out, r.st.frame k, r.evs⟩, ⟨N, fun n hn => framed_some.2 ⟨r, h1 n hn, rfl⟩⟩, h2⟩

/-- What `framed` of a command yields. -/
theorem Ends.framed_inv {cx : Cx} {c : Cmd} {st : St} {k : Nat} {r : Res}
    (h : Ends E (fun rec => framed k (rec cx c st)) r) :
    ∃ r0, Exec E cx c st r0 ∧ r.out = r0.out ∧ r.st = r0.st.frame k := by
  obtain ⟨N, h⟩ := h
  obtain ⟨r0, h0, rfl⟩ := framed_some.1 (h N (Nat.le_refl _))
  exact ⟨r0, ⟨N, h0⟩, rfl, rfl⟩

theorem T.andThen {b' : Bool} {x : RecFn → Option Res} {f : RecFn → Out → St → Option Res} (hx : T E b' x)
    (hf : ∀ r, Ends E x r → (b' = false → r.out ≠ .brk) → T E b fun rec => f rec r.out r.st) :
    T E b fun rec => andThen (x rec) (f rec) := by
  obtain ⟨r, h1, h2⟩ := hx
  obtain ⟨r', ⟨M, h3⟩, h4⟩ := hf r h1 h2
  obtain ⟨N, h1⟩ := h1
  exact ⟨⟨r'.out, r'.st, r.evs ++ r'.evs⟩, ⟨max N M, fun n hn =>
    andThen_some.2 ⟨r, r', h1 n (by omega), h3 n (by omega), rfl⟩⟩, h4⟩

theorem T.onOk {x : RecFn → Option Res} {f : RecFn → St → Option Res} (hx : T E b x)
    (hf : ∀ r, Ends E x r → r.out = .ok → T E b fun rec => f rec r.st) : T E b fun rec => onOk (x rec) (f rec) := by
  refine T.andThen hx fun r h1 h2 => ?_
  obtain ⟨o, st, evs⟩ := r
  cases o with
  | ok => exact hf _ h1 rfl
  | fail => exact T.pure (r := ⟨.fail, st, []⟩) (by simp)
  | brk => exact ⟨⟨.brk, st, []⟩, ⟨0, fun _ _ => rfl⟩, h2⟩

theorem T.onOk' {x : RecFn → Option Res} {f : RecFn → St → Option Res} (hx : T E false x)
    (hf : ∀ r, Ends E x r → r.out = .ok → T E b fun rec => f rec r.st) : T E b fun rec => onOk' (x rec) (f rec) := by
  refine T.andThen hx fun r h1 h2 => ?_
  obtain ⟨o, st, evs⟩ := r
  cases o with
  | ok => exact hf _ h1 rfl
  | fail => exact T.pure (r := ⟨.fail, st, []⟩) (by simp)
  | brk => exact absurd rfl (h2 rfl)

theorem T.ifTry {cx : Cx} {r : Rule} {st : St} {yes no : RecFn → Option Res} (hl : st.pos ≤ E.inp.length)
    (ht : TotC E false cx (.btry r) st) (hy : Takes E r st → T E b yes) (hn : Leaves E r st → T E b no) :
    T E b fun rec => ifTry rec cx (.btry r) st (yes rec) (no rec) := by
  obtain ⟨x, ⟨N, hx⟩, _⟩ := ht
  rcases btry_out hl hx with rfl | rfl
  · refine T.congr N (fun n hn => ?_) (hy ⟨cx, N, hx⟩)
    simp only [Verif.ifTry, exec_mono hn hx]
  · refine T.congr N (fun n hn => ?_) (hn ⟨cx, N, hx⟩)
    simp only [Verif.ifTry, exec_mono hn hx]

/-- `cancel` leaves the state alone. -/
theorem T.cancel {cx : Cx} {r : Rule} {st : St} {f : RecFn → St → Option Res} (hl : st.pos ≤ E.inp.length)
    (ht : TotC E false cx (.bcancel r) st) (hf : T E b fun rec => f rec st) :
    T E b fun rec => Verif.onOk' (rec cx (.bcancel r) st) (f rec) := by
  refine T.onOk' ht.rec fun x hx _ => ?_
  obtain ⟨n, hx⟩ := hx.exec
  rw [(cancel_out hl hx).1]
  exact hf

/-- A nested action. -/
theorem nested_ends {r : Rule} {p : Nat} (h : TotC E false ⟨none, 0⟩ (.run r) { pos := p }) :
    ∃ (N : Nat) (x : Bool × Nat × List Ev), ∀ n, N ≤ n → nested (Verif.exec E n) r p = some x := by
  obtain ⟨⟨o, st, evs⟩, ⟨N, h1⟩, h2⟩ := h
  cases o with
  | ok => exact ⟨N, (true, st.pos, evs), fun n hn => by simp only [nested, exec_mono hn h1]⟩
  | fail => exact ⟨N, (false, st.pos, evs), fun n hn => by simp only [nested, exec_mono hn h1]⟩
  | brk => exact absurd rfl (h2 rfl)

/-! ## The measure -/

/-- How far the parse can still go: levels of recursion and code units. -/
def mu (E : Env) (cx : Cx) (st : St) : Nat := (cx.maxDepth - st.depth) + (E.inp.length - st.pos)

/-- The state moved forward. -/
structure Fwd (E : Env) (st st' : St) : Prop where
  pos : st.pos ≤ st'.pos
  len : st'.pos ≤ E.inp.length
  depth : st.depth ≤ st'.depth
  vars : Ext st.vars st'.vars

theorem Fwd.mu {cx : Cx} {st st' : St} (h : Fwd E st st') : Tot.mu E cx st' ≤ Tot.mu E cx st := by
  obtain ⟨h1, h2, h3, _⟩ := h
  unfold Tot.mu
  omega

theorem Fwd.mu_lt {cx : Cx} {st st' : St} (h : Fwd E st st') (hp : st.pos < st'.pos) :
    Tot.mu E cx st' < Tot.mu E cx st := by
  obtain ⟨h1, h2, h3, _⟩ := h
  unfold Tot.mu
  omega

theorem Fwd.frame {st st' : St} (h : Fwd E st st') {k : Nat} (hk : st.vars.length ≤ k) : Fwd E st (st'.frame k) :=
  ⟨h.pos, h.len, h.depth, h.vars.frame hk⟩
theorem Fwd.refl {st : St} (h : st.pos ≤ E.inp.length) : Fwd E st st := ⟨Nat.le_refl _, h, Nat.le_refl _, .refl _⟩
theorem Fwd.trans {a b c : St} (h : Fwd E a b) (h' : Fwd E b c) : Fwd E a c :=
  ⟨Nat.le_trans h.pos h'.pos, h'.len, Nat.le_trans h.depth h'.depth, h.vars.trans h'.vars⟩

theorem frame_len (st : St) (k : Nat) : (st.frame k).vars.length ≤ k := by
  unfold St.frame
  rw [List.length_drop]
  omega

/-- The reader is within the input, and the variables `V` can be found. -/
structure At (E : Env) (V : List VarKey) (st : St) : Prop where
  len : st.pos ≤ E.inp.length
  typed : Typed st.vars
  sees : ∀ k ∈ V, k ∈ st.vars.map (·.1)

variable {V : List VarKey}

theorem Fwd.at {st st' : St} (f : Fwd E st st') (h : At E V st) : At E V st' :=
  ⟨f.len, f.vars.2 h.typed, fun k hk => f.vars.keys (h.sees k hk)⟩

theorem At.start {p : Nat} (h : p ≤ E.inp.length) : At E [] { pos := p } :=
  ⟨h, fun _ h => (List.not_mem_nil h).elim, fun _ h => (List.not_mem_nil h).elim⟩

/-- Another position. -/
theorem At.pos {st : St} (h : At E V st) {p : Nat} (hp : p ≤ E.inp.length) : At E V { st with pos := p } :=
  ⟨hp, h.typed, h.sees⟩

theorem At.ex {st : St} (h : At E V st) (x : ExSt) : At E V { st with ex := x } := ⟨h.len, h.typed, h.sees⟩

/-- A new variable. -/
theorem At.create {st : St} (h : At E V st) (id : Nat) (v : Var) :
    At E (v.key id :: V) { st with vars := (v.key id, v) :: st.vars } := by
  refine ⟨h.len, fun p hp => ?_, fun k hk => ?_⟩
  · rcases List.mem_cons.1 hp with rfl | hp
    · exact ⟨id, rfl⟩
    · exact h.typed p hp
  · rcases List.mem_cons.1 hk with rfl | hk
    · exact List.mem_cons_self
    · exact List.mem_cons_of_mem _ (h.sees k hk)

theorem At.flag {st : St} (h : At E V st) {id : Nat} (hk : .flag id ∈ V) : ∃ b, getFlag id st.vars = some b := by
  obtain ⟨v, hv, i, hi⟩ := h.typed.get (h.sees _ hk)
  cases v <;> cases hi
  exact ⟨_, by unfold getFlag; rw [hv]⟩

theorem At.counter {st : St} (h : At E V st) {id : Nat} (hk : .counter id ∈ V) : ∃ i, getCounter id st.vars = some i := by
  obtain ⟨v, hv, i, hi⟩ := h.typed.get (h.sees _ hk)
  cases v <;> cases hi
  exact ⟨_, by unfold getCounter; rw [hv]⟩

theorem At.ident {st : St} (h : At E V st) {id : Nat} (hk : .ident id ∈ V) : ∃ w, getIdent id st.vars = some w := by
  obtain ⟨v, hv, i, hi⟩ := h.typed.get (h.sees _ hk)
  cases v <;> cases hi
  exact ⟨_, by unfold getIdent; rw [hv]⟩

/-- Commands after which the reader is where it was or behind. -/
def plain : Cmd → Bool
  | .run _ | .bfinish _ | .chcRun _ | .chcFinish _ | .ws | .skip _ | .loopR _ | .whlR _ | .lstLoop .. | .ltTerm .. | .ltSep ..
  | .ltItem .. | .recov _ | .repTail .. | .combLoop .. => true
  | _ => false

theorem exec_fwd {cx : Cx} {c : Cmd} {st : St} {r : Res} (hc : plain c = true) (hl : st.pos ≤ E.inp.length)
    (h : Exec E cx c st r) : Fwd E st r.st := by
  obtain ⟨n, h⟩ := h
  have hg := exec_good E n cx c st hl
  have hd := (exec_later E n cx c st r h).2.2
  have hv := (exec_later E n cx c st r h).2.1
  suffices hb : st.pos ≤ r.st.pos ∧ r.st.pos ≤ E.inp.length from ⟨hb.1, hb.2, hd, hv⟩
  cases c <;> simp only [plain, Bool.false_eq_true] at hc <;> simp only [Good] at hg
  case recov =>
    have := (hg st.pos _ (.errorFail 0 (Nat.le_refl _) hl) r h).bounds hl
    exact this
  all_goals exact (hg r h).bounds hl

end Verif.Tot
