import Verif.GrammarEats
import Verif.ExprKeep
import Verif.ExprOps
import Verif.LangProps

/-
Grammars that terminate: a syntactic criterion, and that every rule that meets it has a result.

Source: /repo/include/lexy/dsl/*.hpp
-/

namespace Verif.Tot

open Verif

/-- What a rule is used for: it is parsed, it is the condition of a branch, it is matched as a token, it is skipped
    as whitespace. -/
inductive Mode
  | run | cond | mtch | skip
  deriving DecidableEq

/-- The whitespace rule of a sub production, `Cx.sub`. -/
def subWs (ws : Option Rule) (d : ProdDef) : Option Rule :=
  match d.ws with
  | some r => some r
  | none => if d.isTok then none else ws

/-- What operators have to be: their literals are found by spelling (`LitsOk`), none is empty, and the rules behind
    them contain no expression outside of a production. -/
structure OpsOk (E : Env) (e : ExprDef) : Prop where
  lits : LitsOk E.eof e.fold e.ops.all
  nonempty : ∀ o ∈ e.ops.all, ∀ l ∈ o.lits, l.1.str ≠ []
  noExpr : ∀ o ∈ e.ops.all, ∀ l ∈ o.lits, Spec.NoExpr l.2.2

/-- The criterion.  `lim`: is there a maximum recursion depth?  `brk`: may the rule end with `break_`?  `ws`: the
    whitespace rule.  `V`: the context variables that
    can be found.  `G`: the productions that are called recursively, with their whitespace and variables. -/
inductive Wf (E : Env) (G : Nat → Option Rule → List VarKey → Prop) : Mode → Bool → Bool → Option Rule → List VarKey → Rule → Prop
  | tok {l b ws V t} : (∀ w, ws = some w → Wf E G .skip false false none [] w) → Wf E G .run l b ws V (.tok t)
  | tokr {l b ws V k tag r} : (∀ w, ws = some w → Wf E G .skip false false none [] w) →
      Wf E G .run false false none [] r → Wf E G .run l b ws V (.tokr k tag r)
  | prim {l b ws V p} : (∀ w, ws = some w → Wf E G .skip false false none [] w) → Wf E G .run l b ws V (.prim p)
  | els {l b ws V} : Wf E G .run l b ws V .els
  | seq {l b ws V r r'} : Wf E G .run l b ws V r → Wf E G .run l b ws V r' → Wf E G .run l b ws V (.seq r r')
  | br {l b ws V r r'} : Wf E G .run l b ws V r → Wf E G .run l b ws V r' → Wf E G .run l b ws V (.br r r')
  | chc {l b ws V rs} : (∀ r ∈ rs, Wf E G .run l b ws V r) → (∀ r ∈ rs, Wf E G .cond false false none V r) →
      Wf E G .run l b ws V (.chc rs)
  | ifR {l b ws V r} : Wf E G .run l b ws V r → Wf E G .cond false false none V r → Wf E G .run l b ws V (.ifR r)
  | opt {l b ws V r} : Wf E G .run l b ws V r → Wf E G .cond false false none V r → Wf E G .run l b ws V (.opt r)
  /-- every iteration consumes input, breaks or fails -/
  | loop {l b ws V r} : Wf E G .run l true ws V r → Eats E r → Wf E G .run l b ws V (.loop r)
  | brk {l ws V} : Wf E G .run l true ws V .brk
  | whl {l b ws V r} : Wf E G .run l false ws V r → Wf E G .cond false false none V r → Eats E r → Wf E G .run l b ws V (.whl r)
  | err {l b ws V tag r} : (∀ r', r = some r' → Wf E G .run false false none [] r') → Wf E G .run l b ws V (.err tag r)
  | must {l b ws V r tag e} : Wf E G .run l b ws V r → Wf E G .cond false false none V r →
      (∀ e', e = some e' → Wf E G .run false false none [] e') → Wf E G .run l b ws V (.must r (.err tag e))
  | lst {l b ws V item} : item.isBranch E = true → Wf E G .run l false ws V item → Wf E G .cond false false none V item →
      Eats E item → Wf E G .run l b ws V (.lst item none)
  | lsts {l b ws V item sep k} : Wf E G .run l false ws V item → (item.isBranch E = true → Wf E G .cond false false none V item) →
      Wf E G .run l false ws V sep → Wf E G .cond false false none V sep → (Eats E sep ∨ Eats E item) →
      Wf E G .run l b ws V (.lst item (some (sep, k)))
  /-- a list without separator retries its item to recover: it must consume input even if it fails -/
  | lstt {l b ws V term item limit} : Wf E G .run l b ws V term → Wf E G .cond false false none V term →
      Wf E G .run l false ws V item → Eats E item → (item.isBranch E = true → Wf E G .cond false false none V item) →
      (item.isBranch E = true → Moves E item) → Wf E G .run l b ws V (.lstt term item none limit)
  | lstts {l b ws V term item sep k limit} : Wf E G .run l b ws V term → Wf E G .cond false false none V term →
      Wf E G .run l false ws V item → (item.isBranch E = true → Wf E G .cond false false none V item) →
      (item.isBranch E = true → Eats E item) →
      Wf E G .run l false ws V sep → Wf E G .cond false false none V sep → Eats E sep → Moves E sep →
      Wf E G .run l b ws V (.lstt term item (some (sep, k)) limit)
  | optt {l b ws V term r} : Wf E G .run l b ws V term → Wf E G .cond false false none V term → Wf E G .run l b ws V r →
      Wf E G .run l b ws V (.optt term r)
  | tryt {l b ws V term r rc} : Wf E G .run l false ws V r → (∀ t, term = some t → Wf E G .run l b ws V t) →
      (∀ w, ws = some w → Wf E G .skip false false none [] w) → (∀ r', rc = .wrap r' → Wf E G .run l false ws V r') →
      (∀ lm rs, rc = .reco lm rs → ∀ r' ∈ rs, Wf E G .run l b ws V r') →
      (∀ lm rs, rc = .reco lm rs → ∀ r' ∈ rs, Wf E G .cond false false none V r') → Wf E G .run l b ws V (.tryt term r rc)
  | tryr {l b ws V r rc} : Wf E G .run l false ws V r →
      (∀ w, ws = some w → Wf E G .skip false false none [] w) → (∀ r', rc = .wrap r' → Wf E G .run l false ws V r') →
      (∀ lm rs, rc = .reco lm rs → ∀ r' ∈ rs, Wf E G .run l b ws V r') →
      (∀ lm rs, rc = .reco lm rs → ∀ r' ∈ rs, Wf E G .cond false false none V r') → Wf E G .run l b ws V (.tryr r rc)
  | prod {l b ws V n} : Wf E G .run l false (subWs ws (E.prods n)) V (E.prods n).rule →
      (∀ w, ws = some w → Wf E G .skip false false none [] w) →
      (∀ w, subWs ws (E.prods n) = some w → Wf E G .skip false false none [] w) → Wf E G .run l b ws V (.prod n)
  /-- the recursive call of a production: it is bounded by the maximum recursion depth only -/
  | recu {b ws V n tag br} : G n ws V → Wf E G .run true b ws V (.recu n tag br)
  | peek {l b ws V tag r} : Wf E G .mtch false false none [] r → Wf E G .run l b ws V (.peek tag r)
  | peekn {l b ws V tag r} : Wf E G .mtch false false none [] r → Wf E G .run l b ws V (.peekn tag r)
  | look {l b ws V tag lf} : Wf E G .run l b ws V (.look tag lf)
  | wsn {l b ws V r} : Wf E G .run l b ws V r → (∀ w, ws = some w → Wf E G .skip false false none [] w) →
      Wf E G .run l b ws V (.wsn r)
  | wsr {l b ws V r} : Wf E G .skip false false none [] r → Wf E G .run l b ws V (.wsr r)
  | posr {l b ws V r} : Wf E G .run l b ws V r → Wf E G .run l b ws V (.posr r)
  | rep {l b ws V c f item sep} : Wf E G .run l false ws V c → Wf E G .run l false ws V item →
      (∀ s, sep = some s → Wf E G .run l false ws V s.1) → Wf E G .run l false ws V (trailingRule sep) →
      Wf E G .run l b ws V (.rep c f item sep)
  | nsep {l b ws V tag r} : Wf E G .run l false ws V r → Wf E G .cond false false none V r → Wf E G .run l b ws V (.nsep tag r)
  /-- every branch of a combination consumes input -/
  | comb {l b ws V tag rs els} : (∀ r ∈ rs, Wf E G .run l false ws V r) → (∀ r ∈ rs, Wf E G .cond false false none V r) →
      (∀ r ∈ rs, Eats E r) → Wf E G .run l b ws V (.comb tag rs els)
  | combIt {l b ws V i} : Wf E G .run l b ws V (.combIt i)
  | expr {l b ws V i} : OpsOk E (E.exprs i) → Wf E G .run l false ws V (E.exprs i).atom →
      (∀ o ∈ (E.exprs i).ops.all, ∀ lt ∈ o.lits, Wf E G .run l false ws V lt.2.2) →
      (∀ w, ws = some w → Wf E G .skip false false none [] w) → Wf E G .run l b ws V (.expr i)
  /-- a variable is found in what follows its creation -/
  | scope {l b ws V id v r} : Wf E G .run l b ws (Var.key id v :: V) r → Wf E G .run l b ws V (.seq (.varCreate id v) r)
  | varCreate {l b ws V id v} : Wf E G .run l b ws V (.varCreate id v)
  | flagSet {l b ws V id x} : .flag id ∈ V → Wf E G .run l b ws V (.flagSet id x)
  | flagToggle {l b ws V id} : .flag id ∈ V → Wf E G .run l b ws V (.flagToggle id)
  | flagIs {l b ws V id x} : Wf E G .run l b ws V (.flagIs id x)
  | cntAdd {l b ws V id d} : .counter id ∈ V → Wf E G .run l b ws V (.cntAdd id d)
  | cntPush {l b ws V id r sign} : .counter id ∈ V → Wf E G .run l false ws V r → Wf E G .run l b ws V (.cntPush id r sign)
  | cntIs {l b ws V id i} : Wf E G .run l b ws V (.cntIs id i)
  | cntEq {l b ws V tag id ids} : .counter id ∈ V → (∀ j ∈ ids, .counter j ∈ V) → Wf E G .run l b ws V (.cntEq tag id ids)
  | idCap {l b ws V id p len} : .ident id ∈ V → (∀ w, ws = some w → Wf E G .skip false false none [] w) →
      Wf E G .run l b ws V (.idCap id p len)
  | idRem {l b ws V id tag t} : .ident id ∈ V → (∀ w, ws = some w → Wf E G .skip false false none [] w) →
      Wf E G .run l b ws V (.idRem id tag t)
  -- conditions
  | ctok {V t} : Wf E G .cond false false none V (.tok t)
  | ctokr {V k tag r} : Wf E G .run false false none [] r → Wf E G .cond false false none V (.tokr k tag r)
  | cprim {V} {p : PRule} : p.branch.isSome = true → Wf E G .cond false false none V (.prim p)
  | cels {V} : Wf E G .cond false false none V .els
  | cbrk {V} : Wf E G .cond false false none V .brk
  | cerr {V tag r} : Wf E G .cond false false none V (.err tag r)
  | cbr {V r r'} : Wf E G .cond false false none V r → Wf E G .cond false false none V (.br r r')
  | cchc {V rs} : (∀ r ∈ rs, Wf E G .cond false false none V r) → Wf E G .cond false false none V (.chc rs)
  | cmust {V r e} : Wf E G .cond false false none V r → Wf E G .cond false false none V (.must r e)
  | clst {V r sep} : Wf E G .cond false false none V r → Wf E G .cond false false none V (.lst r sep)
  | ctryr {V r rc} : Wf E G .cond false false none V r → Wf E G .cond false false none V (.tryr r rc)
  | cprod {V n} : ((E.prods n).branch && (E.prods n).ws.isNone) = true → Wf E G .cond false false none V (E.prods n).rule →
      Wf E G .cond false false none V (.prod n)
  | crecu {V n tag} : Wf E G .cond false false none V (.prod n) → Wf E G .cond false false none V (.recu n tag true)
  | cpeek {V tag r} : Wf E G .mtch false false none [] r → Wf E G .cond false false none V (.peek tag r)
  | cpeekn {V tag r} : Wf E G .mtch false false none [] r → Wf E G .cond false false none V (.peekn tag r)
  | clook {V tag lf} : Wf E G .cond false false none V (.look tag lf)
  | cwsn {V r} : Wf E G .cond false false none V r → Wf E G .cond false false none V (.wsn r)
  | cposr {V r} : Wf E G .cond false false none V r → Wf E G .cond false false none V (.posr r)
  | crep {V r f item sep} : Wf E G .cond false false none V r → Wf E G .cond false false none V (.rep r f item sep)
  | cflagIs {V id x} : .flag id ∈ V → Wf E G .cond false false none V (.flagIs id x)
  | ccntPush {V id r sign} : Wf E G .cond false false none V r → Wf E G .cond false false none V (.cntPush id r sign)
  | ccntIs {V id i} : .counter id ∈ V → Wf E G .cond false false none V (.cntIs id i)
  | ccntEq {V tag id ids} : .counter id ∈ V → (∀ j ∈ ids, .counter j ∈ V) → Wf E G .cond false false none V (.cntEq tag id ids)
  | cidCap {V id len} {p : PRule} : p.branch.isSome = true → Wf E G .cond false false none V (.idCap id p len)
  | cidRem {V id tag t} : .ident id ∈ V → Wf E G .cond false false none V (.idRem id tag t)
  -- tokens
  | mtok {t} : Wf E G .mtch false false none [] (.tok t)
  | mtokr {k tag r} : Wf E G .run false false none [] r → Wf E G .mtch false false none [] (.tokr k tag r)
  | mother {r} : r.isToken = false → Wf E G .run false false none [] r → Wf E G .mtch false false none [] r
  -- whitespace
  | stok {r} : r.isToken = true → Eats E r → Wf E G .mtch false false none [] r → Wf E G .skip false false none [] r
  | sother {r} : r.isToken = false → Wf E G .run false false none [] (wsRule r) → Wf E G .skip false false none [] r

/-- What the criterion promises, for states from where there are at most `m` steps to go. -/
def Goal (E : Env) (m : Nat) : Mode → Bool → Bool → Option Rule → List VarKey → Rule → Prop
  | .run, l, b, ws, V, r => ∀ cx st, cx.ws = ws → (l = true → 0 < cx.maxDepth) → At E V st → mu E cx st ≤ m →
      TotC E b cx (.run r) st ∧ (Takes E r st → TotC E b cx (.bfinish r) st)
  | .cond, _, _, _, V, r => ∀ cx st, At E V st → E.inp.length - st.pos ≤ m →
      TotC E false cx (.btry r) st ∧ TotC E false cx (.bcancel r) st
  | .mtch, _, _, _, _, r => ∀ cx st, st.pos ≤ E.inp.length → E.inp.length - st.pos ≤ m → TotC E false cx (.tokTry r) st
  | .skip, _, _, _, _, r => ∀ cx st, st.pos ≤ E.inp.length → E.inp.length - st.pos ≤ m → TotC E false cx (.skip r) st

section

variable {E : Env} {m : Nat} {V : List VarKey}

theorem len_le_mu {cx : Cx} {st : St} : E.inp.length - st.pos ≤ mu E cx st := by unfold mu; omega

theorem T.rec_of {b : Bool} {cx : Cx} {c : Cmd} {st : St} (h : TotC E b cx c st) : T E b fun rec => rec cx c st := h.rec

theorem ws_tot {b : Bool} {cx : Cx} {st : St} (hw : ∀ w, cx.ws = some w → Goal E m .skip false false none [] w)
    (hl : st.pos ≤ E.inp.length) (hm : E.inp.length - st.pos ≤ m) : TotC E b cx .ws st := by
  apply T.exec
  simp only [step]
  cases h : cx.ws with
  | none => exact T.ret_ok
  | some w =>
    simp only
    split
    · exact (hw w h cx st hl hm).mono.rec
    · exact T.ret_ok

theorem nested_tot {b : Bool} {r : Rule} {p : Nat} {f : RecFn → Option (Bool × Nat × List Ev) → Option Res}
    (hr : Goal E m .run false false none [] r) (hl : p ≤ E.inp.length) (hm : E.inp.length - p ≤ m)
    (hf : ∀ x, T E b fun rec => f rec (some x)) : T E b fun rec => f rec (nested rec r p) := by
  obtain ⟨N, x, hx⟩ := nested_ends (r := r) (p := p)
    (hr ⟨none, 0⟩ { pos := p } rfl (by simp) (.start hl) (by unfold mu; simpa using hm)).1
  exact T.congr N (fun n hn => by rw [hx n hn]) (hf x)

/-- Matching a token. -/
theorem tokTry_tot {b : Bool} {cx : Cx} {st : St} {r : Rule} {f : RecFn → Option Res → Option Res}
    (hr : TotC E false cx (.tokTry r) st) (hf : ∀ x, Exec E cx (.tokTry r) st x → T E b fun rec => f rec (some x)) :
    T E b fun rec => f rec (rec cx (.tokTry r) st) := by
  obtain ⟨x, hx, _⟩ := hr
  obtain ⟨N, hN⟩ := Ends.of_exec hx
  exact T.congr N (fun n hn => by have h := hN n hn; simp only at h; rw [h]) (hf x hx)

theorem tokenDone_tot {b : Bool} {cx : Cx} {st : St} {k : Kind} {e : Nat}
    (hw : ∀ w, cx.ws = some w → Goal E m .skip false false none [] w) (hm : E.inp.length - st.pos ≤ m)
    (h1 : st.pos ≤ e) (h2 : e ≤ E.inp.length) : T E b fun rec => tokenDone rec cx k e st :=
  T.emit (ws_tot hw h2 (by simp only; omega)).rec

theorem tokenParse_tot {b p : Bool} {cx : Cx} {st : St} {k : Kind} {tag e : Nat}
    (hw : ∀ w, cx.ws = some w → Goal E m .skip false false none [] w) (hm : E.inp.length - st.pos ≤ m)
    (h1 : st.pos ≤ e) (h2 : e ≤ E.inp.length) : T E b fun rec => tokenParse rec cx k tag p e st := by
  simp only [tokenParse]
  split
  · exact tokenDone_tot hw hm h1 h2
  · exact T.pure (by simp)

theorem primDone_tot {b ws : Bool} {cx : Cx} {st : St} {y : Bool × Nat × List Ev}
    (hw : ∀ w, cx.ws = some w → Goal E m .skip false false none [] w) (hm : E.inp.length - st.pos ≤ m)
    (h1 : st.pos ≤ y.2.1) (h2 : y.2.1 ≤ E.inp.length) : T E b fun rec => primDone rec cx ws y st := by
  simp only [primDone]
  refine T.emit ?_
  split
  · split
    · exact (ws_tot hw h2 (by simp only; omega)).rec
    · exact T.ret_ok
  · exact T.ret_fail

/-! ## Loops -/

/-- All states from where there are at most `m` steps to go. -/
def All (E : Env) (V : List VarKey) (b : Bool) (cx : Cx) (m : Nat) (c : Cmd) : Prop :=
  ∀ st, At E V st → mu E cx st ≤ m → TotC E b cx c st

/-- `finish`, where the branch is taken. -/
def AllFin (E : Env) (V : List VarKey) (b : Bool) (cx : Cx) (m : Nat) (r : Rule) : Prop :=
  ∀ st, At E V st → mu E cx st ≤ m → Takes E r st → TotC E b cx (.bfinish r) st

/-- The condition of a branch. -/
def AllCond (E : Env) (V : List VarKey) (cx : Cx) (m : Nat) (r : Rule) : Prop :=
  ∀ st, At E V st → mu E cx st ≤ m → TotC E false cx (.btry r) st ∧ TotC E false cx (.bcancel r) st

variable {cx : Cx}

theorem All.le {b : Bool} {m k : Nat} {c : Cmd} (h : All E V b cx m c) (hk : k ≤ m) : All E V b cx k c :=
  fun st hl hm => h st hl (Nat.le_trans hm hk)

/-- Induction on the measure. -/
theorem all_induct {b : Bool} {c : Cmd}
    (h : ∀ st, At E V st → mu E cx st ≤ m →
      (∀ st', At E V st' → mu E cx st' < mu E cx st → TotC E b cx c st') → TotC E b cx c st) :
    All E V b cx m c := by
  have : ∀ k st, At E V st → mu E cx st ≤ m → mu E cx st = k → TotC E b cx c st := by
    intro k
    induction k using Nat.strongRecOn with
    | _ k ih =>
      intro st hl hm hk
      exact h st hl hm fun st' hl' hlt => ih _ (by omega) st' hl' (by omega) rfl
  exact fun st hl hm => this _ st hl hm rfl

theorem loop_tot {b : Bool} {r : Rule} (hr : All E V true cx m (.run r)) (he : Eats E r) : All E V b cx m (.loopR r) := by
  refine all_induct fun st hl hm ih => T.exec ?_
  simp only [step]
  refine T.andThen (b' := true) (T.framed (hr st hl hm).rec) fun x hx _ => ?_
  obtain ⟨x0, hx0, ho, hs⟩ := hx.framed_inv
  have f := exec_fwd rfl hl.len hx0
  cases hxo : x.out with
  | ok =>
    refine (ih _ (by rw [hs]; exact (f.frame (Nat.le_refl _)).at hl) ?_).rec
    rw [hs]
    obtain ⟨n, hn⟩ := hx0
    exact (f.frame (Nat.le_refl _)).mu_lt ((eats_sound he).1 _ _ _ _ hl.len hn (ho ▸ hxo))
  | fail => exact T.ret_fail
  | brk => exact T.ret_ok

theorem whl_tot {b : Bool} {r : Rule} (hr : AllFin E V false cx m r) (hc : AllCond E V cx m r) (he : Eats E r) :
    All E V b cx m (.whlR r) := by
  refine all_induct fun st hl hm ih => T.exec ?_
  simp only [step]
  refine T.ifTry hl.len (hc st hl hm).1 (fun ht => ?_) (fun _ => T.cancel hl.len (hc st hl hm).2 T.ret_ok)
  refine T.onOk' (T.framed (hr st hl hm ht).rec) fun x hx hxo => ?_
  obtain ⟨x0, hx0, ho, hs⟩ := hx.framed_inv
  have f := exec_fwd rfl hl.len hx0
  refine (ih _ (by rw [hs]; exact (f.frame (Nat.le_refl _)).at hl) ?_).rec
  rw [hs]
  obtain ⟨n, hn⟩ := hx0
  exact (f.frame (Nat.le_refl _)).mu_lt ((eats_sound he).2 _ _ _ _ hl.len ht hn (ho ▸ hxo))

theorem lst_tot {b : Bool} {r : Rule} (hb : r.isBranch E = true) (hr : AllFin E V false cx m r) (hc : AllCond E V cx m r)
    (he : Eats E r) : All E V b cx m (.lstLoop r none) := by
  refine all_induct fun st hl hm ih => T.exec ?_
  simp only [step, hb, if_true]
  refine T.ifTry hl.len (hc st hl hm).1 (fun ht => ?_) (fun _ => T.cancel hl.len (hc st hl hm).2 T.ret_ok)
  refine T.onOk' (T.framed (hr st hl hm ht).rec) fun x hx hxo => ?_
  obtain ⟨x0, hx0, ho, hs⟩ := hx.framed_inv
  have f := exec_fwd rfl hl.len hx0
  refine (ih _ (by rw [hs]; exact (f.frame (Nat.le_refl _)).at hl) ?_).rec
  rw [hs]
  obtain ⟨n, hn⟩ := hx0
  exact (f.frame (Nat.le_refl _)).mu_lt ((eats_sound he).2 _ _ _ _ hl.len ht hn (ho ▸ hxo))

theorem lsts_tot {b : Bool} {r sep : Rule} {k : SepKind} (hi : All E V false cx m (.run r)) (hr : AllFin E V false cx m r)
    (hc : r.isBranch E = true → AllCond E V cx m r) (hs : AllFin E V false cx m sep) (hsc : AllCond E V cx m sep)
    (he : Eats E sep ∨ Eats E r) : All E V b cx m (.lstLoop r (some (sep, k))) := by
  refine all_induct fun st hl hm ih => T.exec ?_
  simp only [step]
  refine T.ifTry hl.len (hsc st hl hm).1 (fun ht => ?_) (fun _ => T.cancel hl.len (hsc st hl hm).2 T.ret_ok)
  refine T.onOk' (T.framed (hs st hl hm ht).rec) fun x hx hxo => ?_
  obtain ⟨x0, hx0, ho, hst⟩ := hx.framed_inv
  have f := (exec_fwd rfl hl.len hx0).frame (k := st.vars.length) (Nat.le_refl _)
  rw [← hst] at f
  have hm1 : mu E cx x.st ≤ m := Nat.le_trans f.mu hm
  have eat1 : Eats E sep → st.pos < x.st.pos := by
    intro he
    obtain ⟨n, hn⟩ := hx0
    rw [hst]
    exact (eats_sound he).2 _ _ _ _ hl.len ht hn (ho ▸ hxo)
  split
  · rename_i hb
    refine T.ifTry f.len (hc hb _ (f.at hl) hm1).1 (fun ht' => ?_)
      (fun _ => T.cancel f.len (hc hb _ (f.at hl) hm1).2 (T.pure (by simp)))
    refine T.onOk' (T.framed (hr _ (f.at hl) hm1 ht').rec) fun y hy hyo => ?_
    obtain ⟨y0, hy0, ho', hst'⟩ := hy.framed_inv
    have f' := (exec_fwd rfl f.len hy0).frame (k := st.vars.length) (by rw [hst]; exact frame_len _ _)
    rw [← hst'] at f'
    refine (ih _ (f'.at (f.at hl)) ((f.trans f').mu_lt ?_)).rec
    rcases he with he | he
    · exact Nat.lt_of_lt_of_le (eat1 he) f'.pos
    · obtain ⟨n, hn⟩ := hy0
      have := (eats_sound he).2 _ _ _ _ f.len ht' hn (ho' ▸ hyo)
      rw [hst']
      exact Nat.lt_of_le_of_lt f.pos this
  · refine T.onOk' (T.framed (hi _ (f.at hl) hm1).rec) fun y hy hyo => ?_
    obtain ⟨y0, hy0, ho', hst'⟩ := hy.framed_inv
    have f' := (exec_fwd rfl f.len hy0).frame (k := st.vars.length) (by rw [hst]; exact frame_len _ _)
    rw [← hst'] at f'
    refine (ih _ (f'.at (f.at hl)) ((f.trans f').mu_lt ?_)).rec
    rcases he with he | he
    · exact Nat.lt_of_lt_of_le (eat1 he) f'.pos
    · obtain ⟨n, hn⟩ := hy0
      have := (eats_sound he).1 _ _ _ _ f.len hn (ho' ▸ hyo)
      rw [hst']
      exact Nat.lt_of_le_of_lt f.pos this

theorem rep_tot {b : Bool} {item : Rule} {sep : Option Sep} (hi : All E V false cx m (.run item))
    (hs : ∀ s, sep = some s → All E V false cx m (.run s.1)) (ht : All E V false cx m (.run (trailingRule sep))) (k : Nat) :
    All E V b cx m (.repTail k item sep) := by
  induction k with
  | zero =>
    intro st hl hm
    refine T.exec ?_
    simp only [step]
    exact T.framed ((ht st hl hm).mono.rec)
  | succ k ih =>
    intro st hl hm
    refine T.exec ?_
    simp only [step]
    have next : ∀ st1, Fwd E st st1 → st1.vars.length ≤ st.vars.length → T E b fun rec => onOk' (framed st.vars.length (rec cx (.run item) st1)) fun st2 =>
        rec cx (.repTail k item sep) st2 := by
      intro st1 f hlen
      have hm1 := Nat.le_trans f.mu hm
      refine T.onOk' (T.framed (hi _ (f.at hl) hm1).rec) fun y hy hyo => ?_
      obtain ⟨y0, hy0, ho', hst'⟩ := hy.framed_inv
      have f' := (exec_fwd rfl f.len hy0).frame (k := st.vars.length) hlen
      rw [← hst'] at f'
      exact (ih _ (f'.at (f.at hl)) (Nat.le_trans f'.mu hm1)).rec
    cases sep with
    | none =>
      refine T.onOk' T.ret_ok fun x hx hxo => ?_
      obtain ⟨N, hx⟩ := hx
      have := hx N (Nat.le_refl _)
      cases this
      exact next st (.refl hl.len) (Nat.le_refl _)
    | some s =>
      obtain ⟨s, sk⟩ := s
      refine T.onOk' (T.framed (hs _ rfl st hl hm).rec) fun x hx hxo => ?_
      obtain ⟨x0, hx0, ho, hst⟩ := hx.framed_inv
      have f := (exec_fwd rfl hl.len hx0).frame (k := st.vars.length) (Nat.le_refl _)
      rw [← hst] at f
      exact next _ f (by rw [hst]; exact frame_len _ _)

theorem chc_tot {b : Bool} {rs : List Rule} (hr : ∀ r ∈ rs, AllFin E V b cx m r) (hc : ∀ r ∈ rs, AllCond E V cx m r) :
    All E V b cx m (.chcRun rs) := by
  induction rs with
  | nil => intro st hl hm; exact T.exec (T.pure (r := ⟨.fail, st, [.error 0 st.pos st.pos]⟩) (by simp))
  | cons r rs ih =>
    intro st hl hm
    refine T.exec ?_
    simp only [step]
    refine T.ifTry hl.len (hc r (by simp) st hl hm).1 (fun ht => (hr r (by simp) st hl hm ht).rec) (fun _ => ?_)
    refine T.cancel hl.len (hc r (by simp) st hl hm).2 ?_
    exact (ih (fun r h => hr r (by simp [h])) (fun r h => hc r (by simp [h])) st hl hm).rec

theorem chcTry_tot {b : Bool} {rs : List Rule} (hc : ∀ r ∈ rs, AllCond E V cx m r) : All E V b cx m (.chcTry rs) := by
  induction rs with
  | nil => intro st hl hm; exact T.exec T.ret_fail
  | cons r rs ih =>
    intro st hl hm
    refine T.exec ?_
    simp only [step]
    refine T.ifTry hl.len (hc r (by simp) st hl hm).1 (fun _ => T.ret_ok) (fun _ => ?_)
    exact (ih (fun r h => hc r (by simp [h])) st hl hm).rec

theorem chcCancel_tot {b : Bool} {rs : List Rule} (hc : ∀ r ∈ rs, AllCond E V cx m r) : All E V b cx m (.chcCancel rs) := by
  induction rs with
  | nil => intro st hl hm; exact T.exec T.ret_ok
  | cons r rs ih =>
    intro st hl hm
    refine T.exec ?_
    simp only [step]
    refine T.cancel hl.len (hc r (by simp) st hl hm).2 ?_
    exact (ih (fun r h => hc r (by simp [h])) st hl hm).rec

theorem chcFinish_tot {b : Bool} {rs : List Rule} (hr : ∀ r ∈ rs, AllFin E V b cx m r) (hc : ∀ r ∈ rs, AllCond E V cx m r)
    {st : St} (hl : At E V st) (hm : mu E cx st ≤ m) (ht : ∃ r ∈ rs, Takes E r st) :
    TotC E b cx (.chcFinish rs) st := by
  induction rs with
  | nil => obtain ⟨r, h, _⟩ := ht; cases h
  | cons r rs ih =>
    refine T.exec ?_
    simp only [step]
    refine T.ifTry hl.len (hc r (by simp) st hl hm).1 (fun ht => (hr r (by simp) st hl hm ht).rec) (fun hlv => ?_)
    refine T.cancel hl.len (hc r (by simp) st hl hm).2 ?_
    refine (ih (fun r h => hr r (by simp [h])) (fun r h => hc r (by simp [h])) ?_).rec
    obtain ⟨r', hr', ht'⟩ := ht
    rcases List.mem_cons.1 hr' with rfl | h
    · exact absurd hlv (ht'.not_leaves hl.len)
    · exact ⟨r', h, ht'⟩

theorem not_eof {p : Nat} (h : peekEof E.eof (E.inp.drop p) = false) (hl : p ≤ E.inp.length) : p + 1 ≤ E.inp.length := by
  by_cases hp : p < E.inp.length
  · exact hp
  · have : E.inp.drop p = [] := List.drop_eq_nil_iff.2 (by omega)
    rw [this] at h
    simp [peekEof] at h

theorem reco_tot {b : Bool} {p : Nat} {limit : List Nat → Bool} {rs : List Rule} (hr : ∀ r ∈ rs, AllFin E V b cx m r)
    (hc : ∀ r ∈ rs, AllCond E V cx m r) : All E V b cx m (.recoLoop p limit rs) := by
  refine all_induct fun st hl hm ih => T.exec ?_
  simp only [step]
  obtain ⟨x, ⟨N, hx⟩, _⟩ := chcTry_tot (b := false) hc st hl hm
  have hg := exec_good E N cx (.chcTry rs) st hl.len x hx
  obtain ⟨o, s, es⟩ := x
  obtain ⟨h1, h2, h3⟩ := hg
  simp only at h1 h2 h3
  subst h1 h2
  have no : T E b fun rec => onOk' (rec cx (.chcCancel rs) s) fun st1 =>
      if limit (E.inp.drop st1.pos) || peekEof E.eof (E.inp.drop st1.pos) then
        some ⟨.fail, st1, skipped p st1 false⟩
      else rec cx (.recoLoop p limit rs) { st1 with pos := st1.pos + 1 } := by
    refine T.onOk' (chcCancel_tot hc s hl hm).rec fun y hy hyo => ?_
    obtain ⟨n, hy⟩ := hy.exec
    obtain ⟨_, h5, _⟩ := exec_good E n cx (.chcCancel rs) s hl.len y hy
    rw [h5]
    split
    · exact T.pure (by simp)
    · rename_i hlim
      have := not_eof (by simp at hlim; exact hlim.2) hl.len
      refine (ih { s with pos := s.pos + 1 } (hl.pos this) ?_).rec
      simp only [mu]; omega
  cases o with
  | ok =>
    refine T.congr (g := fun rec => emit (skipped p s true) (rec cx (.chcFinish rs) s)) N
      (fun n hn => by simp only [ifTry, exec_mono hn hx]) ?_
    exact T.emit (chcFinish_tot hr hc hl hm (chcTry_ex hl.len hx)).rec
  | fail => exact T.congr N (fun n hn => by simp only [ifTry, exec_mono hn hx]) no
  | brk => exact absurd rfl h3

theorem comb_tot {b : Bool} {tag n : Nat} {rs : List Rule} (hr : ∀ r ∈ rs, AllFin E V true cx m r)
    (hc : ∀ r ∈ rs, AllCond E V cx m r) (he : ∀ r ∈ rs, Eats E r) (handled : List Nat) (count : Nat) :
    All E V b cx m (.combLoop tag rs n handled count) := by
  have : ∀ k st handled count, At E V st → mu E cx st ≤ m → mu E cx st = k →
      TotC E b cx (.combLoop tag rs n handled count) st := by
    intro k
    induction k using Nat.strongRecOn with
    | _ k ih =>
      intro st handled count hl hm hk
      refine T.exec ?_
      simp only [step]
      split
      · exact T.ret_ok
      · refine T.andThen (b' := true) (T.framed (chc_tot hr hc st hl hm).rec) fun x hx _ => ?_
        obtain ⟨x0, hx0, ho, hs⟩ := hx.framed_inv
        have f := (exec_fwd rfl hl.len hx0).frame (k := st.vars.length) (Nat.le_refl _)
        rw [← hs] at f
        cases hxo : x.out with
        | fail => exact T.ret_fail
        | brk => exact T.ret_ok
        | ok =>
          have hlt : mu E cx x.st < mu E cx st := by
            refine f.mu_lt ?_
            obtain ⟨n, hn⟩ := hx0
            rcases chc_out hl.len (.inl hn) with ⟨r, hr, ht, m, y, h1, h2, h3⟩ | ⟨h1, _⟩
            · rw [hs, ← h3]
              exact (eats_sound (he r hr)).2 _ _ _ _ hl.len ht h1 (h2.trans (ho ▸ hxo))
            · rw [← ho, hxo] at h1; cases h1
          simp only
          split
          · exact T.emit (ih _ (by omega) x.st _ _ (f.at hl) (by omega) rfl).rec
          · exact (ih _ (by omega) x.st _ _ (f.at hl) (by omega) rfl).rec
  exact fun st hl hm => this _ st handled count hl hm rfl

theorem tokLoop_tot {r : Rule} (ht : Goal E m .mtch false false none [] r)
    (hr : ∀ n (cx : Cx) st y, st.pos ≤ E.inp.length → exec E n cx (.tokTry r) st = some y → y.out = .ok →
      st.pos < y.st.pos) :
    ∀ st, st.pos ≤ E.inp.length → E.inp.length - st.pos ≤ m → TotC E false cx (.tokLoop r) st := by
  have : ∀ k st, st.pos ≤ E.inp.length → E.inp.length - st.pos ≤ m → E.inp.length - st.pos = k →
      TotC E false cx (.tokLoop r) st := by
    intro k
    induction k using Nat.strongRecOn with
    | _ k ih =>
      intro st hl hm hk
      refine T.exec ?_
      simp only [step]
      refine tokTry_tot (f := fun rec o => match o with
        | none => none
        | some r' => if r'.out == .ok then rec cx (.tokLoop r) { st with pos := r'.st.pos } else ret .ok st)
        (ht cx st hl hm) fun x ⟨n, hx⟩ => ?_
      simp only
      split
      · rename_i hxo
        have hxo : x.out = .ok := by cases hxo' : x.out <;> simp [hxo'] at hxo <;> rfl
        have h1 := hr _ _ _ _ hl hx hxo
        have h2 := (exec_good E n cx (.tokTry r) st hl x hx).2.2.2
        exact (ih (E.inp.length - x.st.pos) (by omega) { st with pos := x.st.pos } h2 (by simp only; omega) rfl).rec
      · exact T.ret_ok
  exact fun st hl hm => this _ st hl hm rfl

end

end Verif.Tot
