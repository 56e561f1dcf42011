import Verif.GrammarWfExpr

/-
C80: parsing terminates.
-/

namespace Verif.Tot

open Verif

variable {E : Env} {G : Nat → Option Rule → List VarKey → Prop} {V : List VarKey}

theorem takes_none {r : Rule} {st : St} (h : ∀ rec cx, stepTry E rec cx st r = none) : ¬ Takes E r st := by
  intro ht
  obtain ⟨cx, n, hn⟩ := ht.unfold
  rw [h] at hn
  cases hn

theorem takes_sub {r r' : Rule} {st : St} (h : ∀ rec cx, stepTry E rec cx st r = rec cx (.btry r') st)
    (ht : Takes E r st) : Takes E r' st := by
  obtain ⟨cx, n, hn⟩ := ht.unfold
  rw [h] at hn
  exact ⟨cx, n, hn⟩

/-- Parsing, and `finish` of a branch that is taken. -/
theorem goal_run {m : Nat} {l b : Bool} {ws : Option Rule} {r : Rule}
    (h1 : ∀ cx : Cx, cx.ws = ws → (l = true → 0 < cx.maxDepth) → ∀ st, At E V st → mu E cx st ≤ m →
      T E b fun rec => stepRun E rec cx st r)
    (h2 : ∀ cx : Cx, cx.ws = ws → (l = true → 0 < cx.maxDepth) → ∀ st, At E V st → mu E cx st ≤ m → Takes E r st →
      T E b fun rec => stepFinish E rec cx st r) : Goal E m .run l b ws V r :=
  fun cx st hw hd hl hm => ⟨T.exec (h1 cx hw hd st hl hm), fun ht => T.exec (h2 cx hw hd st hl hm ht)⟩

theorem goal_cond {m : Nat} {r : Rule}
    (h1 : ∀ cx : Cx, ∀ st, At E V st → E.inp.length - st.pos ≤ m → T E false fun rec => stepTry E rec cx st r)
    (h2 : ∀ cx : Cx, ∀ st, At E V st → E.inp.length - st.pos ≤ m → T E false fun rec => stepCancel E rec cx st r) :
    Goal E m .cond false false none V r :=
  fun cx st hl hm => ⟨T.exec (h1 cx st hl hm), T.exec (h2 cx st hl hm)⟩

section

variable {m : Nat} {l b : Bool} {ws : Option Rule} {cx : Cx} {r : Rule}

theorem Goal.all (h : Goal E m .run l b ws V r) (hw : cx.ws = ws) (hd : l = true → 0 < cx.maxDepth) :
    All E V b cx m (.run r) := fun st hl hm => (h cx st hw hd hl hm).1

theorem Goal.allFin (h : Goal E m .run l b ws V r) (hw : cx.ws = ws) (hd : l = true → 0 < cx.maxDepth) :
    AllFin E V b cx m r := fun st hl hm ht => (h cx st hw hd hl hm).2 ht

theorem Goal.allCond (h : Goal E m .cond false false none V r) : AllCond E V cx m r :=
  fun st hl hm => h cx st hl (Nat.le_trans len_le_mu hm)

theorem Goal.allWs (h : ∀ w, ws = some w → Goal E m .skip false false none [] w) (hw : cx.ws = ws) : All E V b cx m .ws := by
  subst hw
  exact fun st hl hm => ws_tot h hl.len (Nat.le_trans len_le_mu hm)

/-- Recovery. -/
theorem recov_tot {rc : Recov} (hws : All E V false cx m .ws)
    (h1 : ∀ r', rc = .wrap r' → All E V false cx m (.run r'))
    (h2 : ∀ lm rs, rc = .reco lm rs → ∀ r' ∈ rs, AllFin E V b cx m r')
    (h3 : ∀ lm rs, rc = .reco lm rs → ∀ r' ∈ rs, AllCond E V cx m r') : All E V b cx m (.recov rc) := by
  intro st hl hm
  refine T.exec ?_
  cases rc with
  | wrap r =>
    simp only [step]
    refine T.emit ?_
    refine T.andThen (b' := false) (T.onOk' (h1 r rfl st hl hm).rec fun x hx hxo => ?_) fun x hx hxb => ?_
    · have f := exec_fwd rfl hl.len hx.exec
      exact (hws x.st (f.at hl) (Nat.le_trans f.mu hm)).rec
    · cases hxo : x.out with
      | ok => exact T.pure (r := ⟨_, _, _⟩) (by simp)
      | fail => exact T.pure (r := ⟨_, _, _⟩) (by simp)
      | brk => exact absurd hxo (hxb rfl)
  | find l =>
    simp only [step]
    exact T.pure (r := ⟨_, _, _⟩) (by simp only; split <;> simp)
  | reco lm rs =>
    simp only [step]
    exact T.emit (reco_tot (h2 lm rs rfl) (h3 lm rs rfl) st hl hm).rec

/-- `try_`: what follows a failure. -/
theorem try_tot {c : Cmd} {rc : Recov} {st : St} {f : RecFn → St → Option Res} (hc : plain c = true)
    (hl : At E V st) (hm : mu E cx st ≤ m) (h : TotC E false cx c st) (hrc : All E V b cx m (.recov rc))
    (hf : ∀ st', Fwd E st st' → T E b fun rec => f rec st') :
    T E b fun rec => andThen (rec cx c st) fun o st' =>
      match o with
      | .ok => f rec st'
      | .fail => rec cx (.recov rc) (st'.frame st.vars.length)
      | .brk => none := by
  refine T.andThen h.rec fun x hx hxb => ?_
  have fw := exec_fwd hc hl.len hx.exec
  cases hxo : x.out with
  | ok => exact hf _ fw
  | fail => exact (hrc (x.st.frame st.vars.length) ((fw.frame (Nat.le_refl _)).at hl) (Nat.le_trans (fw.frame (Nat.le_refl _)).mu hm)).rec
  | brk => exact absurd hxo (hxb rfl)

/-- A production. -/
theorem production_tot {n : Nat} {f : RecFn → Cx → St → Option Res} {st : St}
    (hws : All E V false cx m .ws) (hl : At E V st) (hm : mu E cx st ≤ m)
    (hb : T E false fun rec => f rec (cx.sub (E.prods n)) { st with ex := {} })
    (hf : ∀ x, Ends E (fun rec => f rec (cx.sub (E.prods n)) { st with ex := {} }) x → Fwd E st x.st) :
    T E b fun rec => production E rec cx n (f rec) st := by
  simp only [production]
  refine T.emit ?_
  refine T.andThen (b' := false) (T.framed hb) fun x hx hxb => ?_
  have fw : Fwd E st x.st := by
    obtain ⟨r, hr, hr'⟩ := hb
    have := hf r hr
    obtain ⟨N, hr⟩ := hr
    have e := hx.unique (r' := ⟨r.out, r.st.frame st.vars.length, r.evs⟩) ⟨N, fun k hk => framed_some.2 ⟨r, hr k hk, rfl⟩⟩
    rw [e]
    exact this.frame (Nat.le_refl _)
  cases hxo : x.out with
  | brk => exact absurd hxo (hxb rfl)
  | fail => exact T.pure (r := ⟨_, _, _⟩) (by simp)
  | ok =>
    refine T.emit ?_
    split
    · have := (hws { x.st with ex := st.ex } ((fw.at hl).ex _) (Nat.le_trans fw.mu hm)).mono (b' := b)
      exact this.rec
    · exact T.ret_ok

/-- The recursion depth. -/
theorem deeper_tot {tag : Nat} {c : Cmd} {st : St} (hc : plain c = true) (hd : 0 < cx.maxDepth) (hl : st.pos ≤ E.inp.length)
    (h : st.depth < cx.maxDepth → TotC E false cx c { st with depth := st.depth + 1 }) :
    T E b fun rec => deeper cx tag st fun st' => rec cx c st' := by
  simp only [deeper]
  simp only [show ¬ cx.maxDepth = 0 by omega, if_false]
  split
  · exact T.pure (r := ⟨_, _, _⟩) (by simp)
  · exact T.onOk' (h (by omega)).rec fun x hx hxo => T.ret_ok

theorem sub_ws (cx : Cx) (d : ProdDef) : (cx.sub d).ws = subWs cx.ws d := rfl

theorem comb_rules {rs : List Rule} {els : CombElse} {P : Rule → Prop} (h1 : ∀ r ∈ rs, ∀ i, P (.br r (.combIt i)))
    (h2 : P .brk) (h3 : ∀ tag, P (.err tag none)) : ∀ r ∈ combRules rs els, P r := by
  intro r hr
  unfold combRules at hr
  rcases List.mem_append.1 hr with hr | hr
  · obtain ⟨⟨r', i⟩, hp, rfl⟩ := List.mem_map.1 hr
    exact h1 r' (List.mem_zipIdx' hp |>.2 ▸ List.getElem_mem _) i
  · cases els with
    | none => cases hr
    | brk => rw [List.mem_singleton.1 hr]; exact h2
    | err tag => rw [List.mem_singleton.1 hr]; exact h3 tag

end

theorem tokr_tot {m : Nat} {cx : Cx} {k : Kind} {tag : Nat} {r : Rule} {st : St} (hr : Goal E m .run false false none [] r)
    (hl : st.pos ≤ E.inp.length) (hm : E.inp.length - st.pos ≤ m) : TotC E false cx (.tokTry (.tokr k tag r)) st := by
  refine T.exec ?_
  simp only [step]
  refine nested_tot (f := fun _ o => match o with
    | none => none
    | some (b, e, evs) => ret (if b && !evs.any Ev.isError then .ok else .fail) { st with pos := e }) hr hl hm fun x => ?_
  exact T.ret_if

theorem tokTry_bounds {cx : Cx} {r : Rule} {st : St} {x : Res} (hl : st.pos ≤ E.inp.length)
    (h : Exec E cx (.tokTry r) st x) : st.pos ≤ x.st.pos ∧ x.st.pos ≤ E.inp.length := by
  obtain ⟨n, h⟩ := h
  exact (exec_good E n cx (.tokTry r) st hl x h).2.2

/-- The rest of a rule with a branch as condition. -/
theorem branch_tot {m : Nat} {b : Bool} {cx : Cx} {r : Rule} {st : St} {f : RecFn → St → Option Res} (hl : At E V st)
    (hm : mu E cx st ≤ m) (hr : AllFin E V b cx m r) (hc : AllCond E V cx m r) (hf : T E b fun rec => f rec st) :
    T E b fun rec => ifTry rec cx (.btry r) st (rec cx (.bfinish r) st) (onOk' (rec cx (.bcancel r) st) (f rec)) :=
  T.ifTry hl.len (hc st hl hm).1 (fun ht => (hr st hl hm ht).rec) (fun _ => T.cancel hl.len (hc st hl hm).2 hf)

theorem err_tot {m : Nat} {b : Bool} {cx : Cx} {tag : Nat} {r : Option Rule} {st : St}
    (hr : ∀ r', r = some r' → Goal E m .run false false none [] r') (hl : st.pos ≤ E.inp.length) (hm : mu E cx st ≤ m) :
    ∃ x, Exec E cx (.run (.err tag r)) st x ∧ x.out = .fail := by
  cases r with
  | none => exact ⟨⟨.fail, st, [.error tag st.pos st.pos]⟩, ⟨1, rfl⟩, rfl⟩
  | some r =>
    obtain ⟨N, y, hy⟩ := nested_ends (r := r) (p := st.pos)
      (hr r rfl ⟨none, 0⟩ { pos := st.pos } rfl (by simp) (.start hl)
        (by have := Nat.le_trans (len_le_mu (E := E)) hm; unfold mu; simpa using this)).1
    refine ⟨⟨.fail, st, [.error tag st.pos y.2.1]⟩, ⟨N + 1, ?_⟩, rfl⟩
    rw [exec_succ]
    simp only [step, stepRun]
    rw [hy N (Nat.le_refl _)]

theorem chcTry_at {cx : Cx} {rs : List Rule} {st : St} (hl : st.pos ≤ E.inp.length)
    (hc : ∀ r ∈ rs, TotC E false cx (.btry r) st) : TotC E false cx (.chcTry rs) st := by
  induction rs with
  | nil => exact T.exec T.ret_fail
  | cons r rs ih =>
    refine T.exec ?_
    simp only [step]
    exact T.ifTry hl (hc r (by simp)) (fun _ => T.ret_ok) (fun _ => (ih fun r h => hc r (by simp [h])).rec)

theorem chcCancel_at {cx : Cx} {rs : List Rule} {st : St} (hl : st.pos ≤ E.inp.length)
    (hc : ∀ r ∈ rs, TotC E false cx (.bcancel r) st) : TotC E false cx (.chcCancel rs) st := by
  induction rs with
  | nil => exact T.exec T.ret_ok
  | cons r rs ih =>
    refine T.exec ?_
    simp only [step]
    exact T.cancel hl (hc r (by simp)) (ih fun r h => hc r (by simp [h])).rec

/-- After a token, and the whitespace behind it. -/
theorem tokenDone_at {cx : Cx} {k : Kind} {e : Nat} {st : St} {x : Res} (hl : At E V st) (h2 : e ≤ E.inp.length)
    (h : Ends E (fun rec => tokenDone rec cx k e st) x) : At E V x.st := by
  obtain ⟨N, hN⟩ := h
  obtain ⟨r', h1, rfl⟩ := emit_some.1 (hN N (Nat.le_refl _))
  exact (fwd (st := { st with pos := e }) rfl h2 h1).at (hl.pos h2)

theorem tokenParse_at {cx : Cx} {k : Kind} {tag e : Nat} {p : Bool} {st : St} {x : Res} (hl : At E V st) (h2 : e ≤ E.inp.length)
    (h : Ends E (fun rec => tokenParse rec cx k tag p e st) x) : At E V x.st := by
  cases p with
  | true => exact tokenDone_at hl h2 h
  | false =>
    obtain ⟨N, hN⟩ := h
    have := hN N (Nat.le_refl _)
    cases this
    exact hl.pos h2

theorem primDone_at {cx : Cx} {ws : Bool} {y : Bool × Nat × List Ev} {st : St} {x : Res} (hl : At E V st)
    (h2 : y.2.1 ≤ E.inp.length) (h : Ends E (fun rec => primDone rec cx ws y st) x) : At E V x.st := by
  obtain ⟨N, hN⟩ := h
  obtain ⟨r', h1, rfl⟩ := emit_some.1 (hN N (Nat.le_refl _))
  split at h1
  · split at h1
    · exact (fwd (st := { st with pos := y.2.1 }) rfl h2 h1).at (hl.pos h2)
    · cases h1; exact hl.pos h2
  · cases h1; exact hl.pos h2

theorem T.bind_some {α : Type} {b : Bool} {o : Option α} {a : α} {f : RecFn → α → Option Res} (h : o = some a)
    (hf : T E b fun rec => f rec a) : T E b fun rec => o.bind (f rec) := by
  subst h
  exact hf

theorem counters_found {st : St} (h : At E V st) {ids : List Nat} (hi : ∀ j ∈ ids, .counter j ∈ V) :
    (ids.any fun j => (getCounter j st.vars).isNone) = false := by
  rw [List.any_eq_false]
  intro j hj
  obtain ⟨i, e⟩ := h.counter (hi j hj)
  rw [e]
  simp

theorem wf_goal (hG : ∀ n ws V, G n ws V → Wf E G .run true false ws V (.prod n)) (m : Nat) :
    ∀ {mo l b ws V r}, Wf E G mo l b ws V r → Goal E m mo l b ws V r := by
  induction m using Nat.strongRecOn with
  | _ m IH =>
  intro mo l b ws V r h
  induction h with
  | @tok l b ws V t _ hw =>
    refine goal_run (fun cx hcx hd st hl hm => ?_) (fun cx hcx hd st hl hm ht => ?_)
    · simp only [stepRun]
      exact tokenParse_tot (hcx ▸ hw) (Nat.le_trans len_le_mu hm) (Nat.le_add_right _ _) (tok_bound hl.len)
    · simp only [stepFinish]
      exact tokenDone_tot (hcx ▸ hw) (Nat.le_trans len_le_mu hm) (Nat.le_add_right _ _) (tok_bound hl.len)
  | @tokr l b ws V k tag r _ _ hw hr =>
    refine goal_run (fun cx hcx hd st hl hm => ?_) (fun cx hcx hd st hl hm ht => ?_)
    · simp only [stepRun]
      refine tokTry_tot (f := fun rec o => match o with
        | none => none
        | some r' => tokenParse rec cx k tag (r'.out == .ok) r'.st.pos st)
        (tokr_tot hr hl.len (Nat.le_trans len_le_mu hm)) fun x hx => ?_
      have hb := tokTry_bounds hl.len hx
      exact tokenParse_tot (hcx ▸ hw) (Nat.le_trans len_le_mu hm) hb.1 hb.2
    · simp only [stepFinish]
      refine tokTry_tot (f := fun rec o => match o with
        | none => none
        | some r' => tokenDone rec cx k r'.st.pos st)
        (tokr_tot hr hl.len (Nat.le_trans len_le_mu hm)) fun x hx => ?_
      have hb := tokTry_bounds hl.len hx
      exact tokenDone_tot (hcx ▸ hw) (Nat.le_trans len_le_mu hm) hb.1 hb.2
  | @prim l b ws V p _ hw =>
    refine goal_run (fun cx hcx hd st hl hm => ?_) (fun cx hcx hd st hl hm ht => ?_)
    · have hb := (p.parse_tr E.inp st.pos hl.len).bounds hl.len
      exact primDone_tot (hcx ▸ hw) (Nat.le_trans len_le_mu hm) hb.1 hb.2
    · have hb := (p.finish_tr E.inp st.pos hl.len).bounds hl.len
      exact primDone_tot (hcx ▸ hw) (Nat.le_trans len_le_mu hm) hb.1 hb.2
  | els =>
    refine goal_run (fun cx hcx hd st hl hm => T.ret_ok) (fun cx hcx hd st hl hm ht => ?_)
    simp only [stepFinish]
    exact (T.exec (c := .run .els) (by simp only [step, stepRun]; exact T.ret_ok)).rec
  | @seq l b ws V r r' _ _ h1 h2 =>
    refine goal_run (fun cx hcx hd st hl hm => ?_) (fun cx hcx hd st hl hm ht => absurd ht (takes_none fun _ _ => rfl))
    simp only [stepRun]
    refine T.onOk (h1.all hcx hd st hl hm).rec fun x hx _ => ?_
    have f := exec_fwd rfl hl.len hx.exec
    exact (h2.all hcx hd _ (f.at hl) (Nat.le_trans f.mu hm)).rec
  | @br l b ws V r r' _ _ h1 h2 =>
    refine goal_run (fun cx hcx hd st hl hm => ?_) (fun cx hcx hd st hl hm ht => ?_)
    · simp only [stepRun]
      refine T.onOk (h1.all hcx hd st hl hm).rec fun x hx _ => ?_
      have f := exec_fwd rfl hl.len hx.exec
      exact (h2.all hcx hd _ (f.at hl) (Nat.le_trans f.mu hm)).rec
    · simp only [stepFinish]
      refine T.onOk (h1.allFin hcx hd st hl hm (takes_sub (fun _ _ => rfl) ht)).rec fun x hx _ => ?_
      have f := exec_fwd rfl hl.len hx.exec
      exact (h2.all hcx hd _ (f.at hl) (Nat.le_trans f.mu hm)).rec
  | @chc l b ws V rs _ _ h1 h2 =>
    refine goal_run (fun cx hcx hd st hl hm => ?_) (fun cx hcx hd st hl hm ht => ?_)
    · simp only [stepRun]
      exact (chc_tot (fun r hr => (h1 r hr).allFin hcx hd) (fun r hr => (h2 r hr).allCond) st hl hm).rec
    · simp only [stepFinish]
      refine (chcFinish_tot (fun r hr => (h1 r hr).allFin hcx hd) (fun r hr => (h2 r hr).allCond) hl hm ?_).rec
      obtain ⟨cx', n, hn⟩ := ht.unfold
      simp only [stepTry] at hn
      exact chcTry_ex hl.len hn
  | @ifR l b ws V r _ _ h1 h2 =>
    refine goal_run (fun cx hcx hd st hl hm => ?_) (fun cx hcx hd st hl hm ht => absurd ht (takes_none fun _ _ => rfl))
    simp only [stepRun]
    exact branch_tot hl hm (h1.allFin hcx hd) h2.allCond T.ret_ok
  | @opt l b ws V r _ _ h1 h2 =>
    refine goal_run (fun cx hcx hd st hl hm => ?_) (fun cx hcx hd st hl hm ht => absurd ht (takes_none fun _ _ => rfl))
    simp only [stepRun]
    exact branch_tot hl hm (h1.allFin hcx hd) h2.allCond T.ret_ok
  | @loop l b ws V r _ he h1 =>
    refine goal_run (fun cx hcx hd st hl hm => ?_) (fun cx hcx hd st hl hm ht => absurd ht (takes_none fun _ _ => rfl))
    simp only [stepRun]
    exact (loop_tot (h1.all hcx hd) he st hl hm).rec
  | brk =>
    have : ∀ st, T E true fun _ => ret .brk st := fun st => ⟨⟨.brk, st, []⟩, ⟨0, fun _ _ => rfl⟩, by simp⟩
    refine goal_run (fun cx hcx hd st hl hm => this st) (fun cx hcx hd st hl hm ht => ?_)
    simp only [stepFinish]
    exact (T.exec (c := .run .brk) (by simp only [step, stepRun]; exact this st)).rec
  | @whl l b ws V r _ _ he h1 h2 =>
    refine goal_run (fun cx hcx hd st hl hm => ?_) (fun cx hcx hd st hl hm ht => absurd ht (takes_none fun _ _ => rfl))
    simp only [stepRun]
    exact (whl_tot (h1.allFin hcx hd) h2.allCond he st hl hm).rec
  | @err l b ws V tag r _ h1 =>
    intro cx st hcx hd hl hm
    obtain ⟨x, hx, hxo⟩ := err_tot (b := b) (tag := tag) h1 hl.len hm
    have : TotC E b cx (.run (.err tag r)) st := ⟨x, hx, fun _ => by rw [hxo]; simp⟩
    exact ⟨this, fun _ => T.exec (by simp only [step, stepFinish]; exact this.rec)⟩
  | @must l b ws V r tag e _ _ _ h1 h2 h3 =>
    refine goal_run (fun cx hcx hd st hl hm => ?_) (fun cx hcx hd st hl hm ht => ?_)
    · simp only [stepRun]
      refine branch_tot hl hm (h1.allFin hcx hd) h2.allCond ?_
      obtain ⟨x, hx, hxo⟩ := err_tot (b := b) (tag := tag) h3 hl.len hm
      have hT : T E false fun rec => rec cx (.run (.err tag e)) st := TotC.rec ⟨x, hx, fun _ => by rw [hxo]; simp⟩
      refine T.andThen (T.framed hT) fun y hy _ => ?_
      obtain ⟨y0, hy0, ho, _⟩ := hy.framed_inv
      rw [ho, hy0.unique hx, hxo]
      exact T.ret_fail
    · simp only [stepFinish]
      exact (h1.allFin hcx hd st hl hm (takes_sub (fun _ _ => rfl) ht)).rec
  | @lst l b ws V item hb _ _ he h1 h2 =>
    have L : ∀ cx : Cx, cx.ws = ws → (l = true → 0 < cx.maxDepth) → All E V b cx m (.lstLoop item none) :=
      fun cx hcx hd => lst_tot hb (h1.allFin hcx hd) h2.allCond he
    refine goal_run (fun cx hcx hd st hl hm => ?_) (fun cx hcx hd st hl hm ht => ?_)
    · simp only [stepRun]
      refine T.onOk' (T.framed (h1.all hcx hd st hl hm).rec) fun x hx _ => ?_
      have f := (ends_fwd rfl hl.len (Nat.le_refl _) hx).1
      exact (L cx hcx hd _ (f.at hl) (Nat.le_trans f.mu hm)).rec
    · simp only [stepFinish]
      refine T.onOk' (T.framed (h1.allFin hcx hd st hl hm (takes_sub (fun _ _ => rfl) ht)).rec) fun x hx _ => ?_
      have f := (ends_fwd rfl hl.len (Nat.le_refl _) hx).1
      exact (L cx hcx hd _ (f.at hl) (Nat.le_trans f.mu hm)).rec
  | @lsts l b ws V item sep k _ _ _ _ he h1 h2 h3 h4 =>
    have L : ∀ cx : Cx, cx.ws = ws → (l = true → 0 < cx.maxDepth) → All E V b cx m (.lstLoop item (some (sep, k))) :=
      fun cx hcx hd => lsts_tot (h1.all hcx hd) (h1.allFin hcx hd) (fun hb => (h2 hb).allCond) (h3.allFin hcx hd) h4.allCond he
    refine goal_run (fun cx hcx hd st hl hm => ?_) (fun cx hcx hd st hl hm ht => ?_)
    · simp only [stepRun]
      refine T.onOk' (T.framed (h1.all hcx hd st hl hm).rec) fun x hx _ => ?_
      have f := (ends_fwd rfl hl.len (Nat.le_refl _) hx).1
      exact (L cx hcx hd _ (f.at hl) (Nat.le_trans f.mu hm)).rec
    · simp only [stepFinish]
      refine T.onOk' (T.framed (h1.allFin hcx hd st hl hm (takes_sub (fun _ _ => rfl) ht)).rec) fun x hx _ => ?_
      have f := (ends_fwd rfl hl.len (Nat.le_refl _) hx).1
      exact (L cx hcx hd _ (f.at hl) (Nat.le_trans f.mu hm)).rec
  | @lstt l b ws V term item limit _ _ _ he _ hmv h1 h2 h3 h4 =>
    exact fun cx st hcx hd hl hm => ⟨lstt_tot (h3.all hcx hd) (h1.allFin hcx hd)
      (lt_tot h2.allCond (h3.all hcx hd) (h3.allFin hcx hd) he (fun hb => (h4 hb).allCond) hmv) st hl hm,
      fun ht => absurd ht (takes_none fun _ _ => rfl)⟩
  | @lstts l b ws V term item sep k limit _ _ _ _ he _ _ hse hsm h1 h2 h3 h4 h5 h6 =>
    exact fun cx st hcx hd hl hm => ⟨lstt_tot (h3.all hcx hd) (h1.allFin hcx hd)
      (lts_tot h2.allCond (h3.all hcx hd) (h3.allFin hcx hd) (fun hb => (h4 hb).allCond) he (h5.all hcx hd) (h5.allFin hcx hd)
        h6.allCond hse hsm) st hl hm,
      fun ht => absurd ht (takes_none fun _ _ => rfl)⟩
  | @optt l b ws V term r _ _ _ h1 h2 h3 =>
    refine goal_run (fun cx hcx hd st hl hm => ?_) (fun cx hcx hd st hl hm ht => absurd ht (takes_none fun _ _ => rfl))
    simp only [stepRun]
    exact branch_tot hl hm (h1.allFin hcx hd) h2.allCond (h3.all hcx hd st hl hm).rec
  | @tryt l b ws V term r rc _ _ _ _ _ _ h1 h2 hw h3 h4 h5 =>
    refine goal_run (fun cx hcx hd st hl hm => ?_) (fun cx hcx hd st hl hm ht => absurd ht (takes_none fun _ _ => rfl))
    simp only [stepRun]
    have R : All E V b cx m (.recov rc) :=
      recov_tot (Goal.allWs hw hcx) (fun r' e => (h3 r' e).all hcx hd) (fun lm rs e r' hr => (h4 lm rs e r' hr).allFin hcx hd)
        (fun lm rs e r' hr => (h5 lm rs e r' hr).allCond)
    cases term with
    | none => exact try_tot (f := fun rec st' => ret .ok st') rfl hl hm (h1.all hcx hd st hl hm) R fun st' f => T.ret_ok
    | some t =>
      exact try_tot (f := fun rec st' => rec cx (.run t) st') rfl hl hm (h1.all hcx hd st hl hm) R fun st' f =>
        ((h2 t rfl).all hcx hd st' (f.at hl) (Nat.le_trans f.mu hm)).rec
  | @tryr l b ws V r rc _ _ _ _ _ h1 hw h3 h4 h5 =>
    have R : ∀ cx : Cx, cx.ws = ws → (l = true → 0 < cx.maxDepth) → All E V b cx m (.recov rc) := fun cx hcx hd =>
      recov_tot (Goal.allWs hw hcx) (fun r' e => (h3 r' e).all hcx hd) (fun lm rs e r' hr => (h4 lm rs e r' hr).allFin hcx hd)
        (fun lm rs e r' hr => (h5 lm rs e r' hr).allCond)
    refine goal_run (fun cx hcx hd st hl hm => ?_) (fun cx hcx hd st hl hm ht => ?_)
    · simp only [stepRun]
      exact try_tot (f := fun rec st' => ret .ok st') rfl hl hm (h1.all hcx hd st hl hm) (R cx hcx hd) fun st' f => T.ret_ok
    · simp only [stepFinish]
      exact try_tot (f := fun rec st' => ret .ok st') rfl hl hm (h1.allFin hcx hd st hl hm (takes_sub (fun _ _ => rfl) ht))
        (R cx hcx hd) fun st' f => T.ret_ok
  | @prod l b ws V n _ _ _ h1 hw hw' =>
    refine goal_run (fun cx hcx hd st hl hm => ?_) (fun cx hcx hd st hl hm ht => ?_)
    · have hsub : (cx.sub (E.prods n)).ws = subWs ws (E.prods n) := hcx ▸ sub_ws cx _
      have hW : All E V false (cx.sub (E.prods n)) m .ws := Goal.allWs hw' hsub
      have hR := h1.all hsub (show l = true → 0 < (cx.sub (E.prods n)).maxDepth from hd)
      simp only [stepRun]
      refine production_tot (f := fun rec cx' st' =>
        if (E.prods n).ws.isSome then onOk' (rec cx' .ws st') fun st'' => rec cx' (.run (E.prods n).rule) st''
        else rec cx' (.run (E.prods n).rule) st') (Goal.allWs hw hcx) hl hm ?_ fun x hx => ?_
      · split
        · refine T.onOk' (hW { st with ex := {} } (hl.ex _) hm).rec fun x hx _ => ?_
          have f := exec_fwd (st := { st with ex := {} }) rfl hl.len hx.exec
          exact (hR _ (f.at (hl.ex _)) (Nat.le_trans (f.mu (cx := cx)) hm)).rec
        · exact (hR { st with ex := {} } (hl.ex _) hm).rec
      · obtain ⟨N, hN⟩ := hx
        have hx := hN N (Nat.le_refl _)
        split at hx
        · rcases onOk'_some hx with ⟨st1, e1, r2, h3, h4, rfl⟩ | ⟨h3, h4⟩
          · have f1 := fwd (st := { st with ex := {} }) rfl hl.len h3
            have f2 := fwd rfl f1.len h4
            have f := f1.trans f2
            exact ⟨f.pos, f.len, f.depth, f.vars⟩
          · have f := fwd (st := { st with ex := {} }) rfl hl.len h3
            exact ⟨f.pos, f.len, f.depth, f.vars⟩
        · have f := fwd (st := { st with ex := {} }) rfl hl.len hx
          exact ⟨f.pos, f.len, f.depth, f.vars⟩
    · have hsub : (cx.sub (E.prods n)).ws = subWs ws (E.prods n) := hcx ▸ sub_ws cx _
      have hR := h1.allFin hsub (show l = true → 0 < (cx.sub (E.prods n)).maxDepth from hd)
      have ht' : Takes E (E.prods n).rule st := by
        obtain ⟨cx', k, hk⟩ := ht.unfold
        simp only [stepTry] at hk
        split at hk
        · exact ⟨cx', k, hk⟩
        · cases hk
      simp only [stepFinish]
      refine production_tot (f := fun rec cx' st' => rec cx' (.bfinish (E.prods n).rule) st') (Goal.allWs hw hcx) hl hm ?_ fun x hx => ?_
      · exact (hR { st with ex := {} } (hl.ex _) hm (ht'.congr rfl rfl hl.len)).rec
      · have f := exec_fwd (st := { st with ex := {} }) rfl hl.len hx.exec
        exact ⟨f.pos, f.len, f.depth, f.vars⟩
  | @recu b ws V n tag br hg =>
    have hp := hG _ _ _ hg
    have key : ∀ cx : Cx, ∀ st : St, st.depth < cx.maxDepth → mu E cx st ≤ m →
        ∃ k, k < m ∧ mu E cx { st with depth := st.depth + 1 } ≤ k := by
      intro cx st h1 h2
      refine ⟨mu E cx { st with depth := st.depth + 1 }, ?_, Nat.le_refl _⟩
      simp only [mu] at *
      omega
    refine goal_run (fun cx hcx hd st hl hm => ?_) (fun cx hcx hd st hl hm ht => ?_)
    · simp only [stepRun]
      refine deeper_tot rfl (hd rfl) hl.len fun hdp => ?_
      obtain ⟨k, hk, hk'⟩ := key cx st hdp hm
      exact (IH k hk hp cx { st with depth := st.depth + 1 } hcx hd ⟨hl.len, hl.typed, hl.sees⟩ hk').1
    · simp only [stepFinish]
      refine deeper_tot rfl (hd rfl) hl.len fun hdp => ?_
      obtain ⟨k, hk, hk'⟩ := key cx st hdp hm
      refine (IH k hk hp cx { st with depth := st.depth + 1 } hcx hd ⟨hl.len, hl.typed, hl.sees⟩ hk').2 ?_
      obtain ⟨cx', k, hk⟩ := ht.unfold
      simp only [stepTry] at hk
      split at hk
      · exact Takes.congr (st := st) ⟨cx', k, hk⟩ rfl rfl hl.len
      · cases hk
  | @peek l b ws V tag r _ h1 =>
    refine goal_run (fun cx hcx hd st hl hm => ?_) (fun cx hcx hd st hl hm ht => ?_)
    · simp only [stepRun]
      refine tokTry_tot (f := fun rec o => match o with
        | none => none
        | some r' => some ⟨.ok, st,
            (if r'.out == .ok then [] else [.error tag st.pos r'.st.pos]) ++ [.backtracked st.pos r'.st.pos]⟩)
        (h1 cx st hl.len (Nat.le_trans len_le_mu hm)) fun x hx => ?_
      exact T.pure (r := ⟨_, _, _⟩) (by simp)
    · simp only [stepFinish]
      refine tokTry_tot (f := fun rec o => match o with
        | none => none
        | some r' => some ⟨.ok, st, [.backtracked st.pos r'.st.pos]⟩)
        (h1 cx st hl.len (Nat.le_trans len_le_mu hm)) fun x hx => ?_
      exact T.pure (r := ⟨_, _, _⟩) (by simp)
  | @peekn l b ws V tag r _ h1 =>
    refine goal_run (fun cx hcx hd st hl hm => ?_) (fun cx hcx hd st hl hm ht => ?_)
    · simp only [stepRun]
      refine tokTry_tot (f := fun rec o => match o with
        | none => none
        | some r' =>
          if r'.out == .ok then
            some ⟨.ok, { st with pos := r'.st.pos },
              [.error tag st.pos r'.st.pos, .recStart st.pos, .token .error st.pos r'.st.pos, .recFinish r'.st.pos]⟩
          else some ⟨.ok, st, [.backtracked st.pos r'.st.pos]⟩)
        (h1 cx st hl.len (Nat.le_trans len_le_mu hm)) fun x hx => ?_
      simp only
      split <;> exact T.pure (r := ⟨_, _, _⟩) (by simp)
    · simp only [stepFinish]
      refine tokTry_tot (f := fun rec o => match o with
        | none => none
        | some r' => some ⟨.ok, st, [.backtracked st.pos r'.st.pos]⟩)
        (h1 cx st hl.len (Nat.le_trans len_le_mu hm)) fun x hx => ?_
      exact T.pure (r := ⟨_, _, _⟩) (by simp)
  | look =>
    refine goal_run (fun cx hcx hd st hl hm => ?_) (fun cx hcx hd st hl hm ht => ?_)
    · simp only [stepRun]; exact T.pure (r := ⟨_, _, _⟩) (by simp)
    · simp only [stepFinish]; exact T.pure (r := ⟨_, _, _⟩) (by simp)
  | @wsn l b ws V r _ _ h1 hw =>
    refine goal_run (fun cx hcx hd st hl hm => ?_) (fun cx hcx hd st hl hm ht => ?_)
    · simp only [stepRun]
      split
      · exact (h1.all hcx hd st hl hm).rec
      · refine T.onOk (h1.all hcx hd { st with wsOn := false } ⟨hl.len, hl.typed, hl.sees⟩ hm).rec fun x hx _ => ?_
        have f := exec_fwd (st := { st with wsOn := false }) rfl hl.len hx.exec
        exact (Goal.allWs hw hcx { x.st with wsOn := true } ⟨f.len, (f.at ⟨hl.len, hl.typed, hl.sees⟩ : At E V _).typed, (f.at ⟨hl.len, hl.typed, hl.sees⟩ : At E V _).sees⟩ (Nat.le_trans (f.mu (cx := cx)) hm)).rec
    · simp only [stepFinish]
      have ht' : Takes E r st := takes_sub (fun _ _ => rfl) ht
      refine T.onOk (h1.allFin hcx hd { st with wsOn := false } ⟨hl.len, hl.typed, hl.sees⟩ hm (ht'.congr rfl rfl hl.len)).rec fun x hx _ => ?_
      have f := exec_fwd (st := { st with wsOn := false }) rfl hl.len hx.exec
      exact (Goal.allWs hw hcx { x.st with wsOn := true } ⟨f.len, (f.at ⟨hl.len, hl.typed, hl.sees⟩ : At E V _).typed, (f.at ⟨hl.len, hl.typed, hl.sees⟩ : At E V _).sees⟩ (Nat.le_trans (f.mu (cx := cx)) hm)).rec
  | @wsr l b ws V r _ h1 =>
    refine goal_run (fun cx hcx hd st hl hm => ?_) (fun cx hcx hd st hl hm ht => absurd ht (takes_none fun _ _ => rfl))
    simp only [stepRun]
    exact (h1 cx st hl.len (Nat.le_trans len_le_mu hm)).mono.rec
  | @posr l b ws V r _ h1 =>
    refine goal_run (fun cx hcx hd st hl hm => ?_) (fun cx hcx hd st hl hm ht => ?_)
    · simp only [stepRun]
      exact T.emit (h1.all hcx hd st hl hm).rec
    · simp only [stepFinish]
      exact T.emit (h1.allFin hcx hd st hl hm (takes_sub (fun _ _ => rfl) ht)).rec
  | @rep l b ws V c f item sep _ _ _ _ h1 h2 h3 h4 =>
    have R : ∀ cx : Cx, cx.ws = ws → (l = true → 0 < cx.maxDepth) → ∀ p st', At E V st' → mu E cx st' ≤ m →
        T E b fun rec => match f ((E.inp.take st'.pos).drop p) with
          | 0 => ret .ok st'
          | n + 1 => onOk' (framed st'.vars.length (rec cx (.run item) st')) fun st'' => rec cx (.repTail n item sep) st'' := by
      intro cx hcx hd p st' hl hm
      cases f ((E.inp.take st'.pos).drop p) with
      | zero => exact T.ret_ok
      | succ n =>
        refine T.onOk' (T.framed (h2.all hcx hd st' hl hm).rec) fun x hx _ => ?_
        have f := (ends_fwd rfl hl.len (Nat.le_refl _) hx).1
        exact (rep_tot (h2.all hcx hd) (fun s e => (h3 s e).all hcx hd) (h4.all hcx hd) n _ (f.at hl) (Nat.le_trans f.mu hm)).rec
    refine goal_run (fun cx hcx hd st hl hm => ?_) (fun cx hcx hd st hl hm ht => ?_)
    · simp only [stepRun]
      refine T.onOk' (h1.all hcx hd st hl hm).rec fun x hx _ => ?_
      have f := exec_fwd rfl hl.len hx.exec
      exact R cx hcx hd st.pos x.st (f.at hl) (Nat.le_trans f.mu hm)
    · simp only [stepFinish]
      refine T.onOk' (h1.allFin hcx hd st hl hm (takes_sub (fun _ _ => rfl) ht)).rec fun x hx _ => ?_
      have f := exec_fwd rfl hl.len hx.exec
      exact R cx hcx hd st.pos x.st (f.at hl) (Nat.le_trans f.mu hm)
  | @nsep l b ws V tag r _ _ h1 h2 =>
    refine goal_run (fun cx hcx hd st hl hm => ?_) (fun cx hcx hd st hl hm ht => absurd ht (takes_none fun _ _ => rfl))
    simp only [stepRun]
    refine T.ifTry hl.len (h2.allCond (cx := cx) st hl hm).1 (fun ht => ?_)
      (fun _ => T.cancel hl.len (h2.allCond (cx := cx) st hl hm).2 T.ret_ok)
    exact T.onOk' (h1.allFin hcx hd st hl hm ht).rec fun x hx _ => T.emit T.ret_ok
  | @comb l b ws V tag rs els _ _ he h1 h2 =>
    refine goal_run (fun cx hcx hd st hl hm => ?_) (fun cx hcx hd st hl hm ht => absurd ht (takes_none fun _ _ => rfl))
    simp only [stepRun]
    have A : ∀ r ∈ combRules rs els, AllFin E V true cx m r := by
      refine comb_rules (fun r hr i st hl hm ht => ?_) (fun st hl hm ht => ?_) (fun tag st hl hm ht => ?_)
      · refine T.exec ?_
        simp only [step, stepFinish]
        refine T.onOk ((h1 r hr).allFin hcx hd st hl hm (takes_sub (fun _ _ => rfl) ht)).weaken.rec fun x hx _ => ?_
        exact (T.exec (c := .run (.combIt i)) (by simp only [step, stepRun]; exact T.ret_ok)).rec
      · refine T.exec ?_
        simp only [step, stepFinish]
        exact (T.exec (c := .run .brk) ⟨⟨.brk, st, []⟩, ⟨0, fun _ _ => rfl⟩, by simp⟩).rec
      · refine T.exec ?_
        simp only [step, stepFinish]
        exact (T.exec (c := .run (.err tag none)) (T.pure (r := ⟨.fail, st, [.error tag st.pos st.pos]⟩) (by simp))).rec
    have B : ∀ r ∈ combRules rs els, AllCond E V cx m r := by
      refine comb_rules (fun r hr i st hl hm => ?_) (fun st hl hm => ?_) (fun tag st hl hm => ?_)
      · have := (h2 r hr).allCond (cx := cx) st hl hm
        exact ⟨T.exec (by simp only [step, stepTry]; exact this.1.rec), T.exec (by simp only [step, stepCancel]; exact this.2.rec)⟩
      · exact ⟨T.exec T.ret_ok, T.exec T.ret_ok⟩
      · exact ⟨T.exec T.ret_ok, T.exec T.ret_ok⟩
    have C : ∀ r ∈ combRules rs els, Eats E r := comb_rules (fun r hr i => .brL (he r hr)) .brk fun tag => .err
    exact T.onOk' (comb_tot A B C [] 0 { st with idx := 0 } ⟨hl.len, hl.typed, hl.sees⟩ hm).rec fun x hx _ => T.ret_ok
  | combIt =>
    exact goal_run (fun cx hcx hd st hl hm => T.ret_ok) (fun cx hcx hd st hl hm ht => absurd ht (takes_none fun _ _ => rfl))
  | @expr l b ws V i ok _ _ _ h1 h2 hw =>
    refine goal_run (fun cx hcx hd st hl hm => ?_) (fun cx hcx hd st hl hm ht => absurd ht (takes_none fun _ _ => rfl))
    simp only [stepRun]
    obtain ⟨x, hx, hq⟩ := (expr_tot ok (Goal.allWs hw hcx) (h1.all hcx hd) (fun o ho lt hlt => (h2 o ho lt hlt).all hcx hd)
      { st with ex := {} } (hl.ex _) hm).parse (E.exprs i).minBP
    refine T.andThen (b' := false) (TotC.rec ⟨x, hx, fun _ => hq.1⟩) fun y hy _ => ?_
    rw [hy.exec.unique hx]
    cases hxo : x.out with
    | brk => exact absurd hxo hq.1
    | ok => simp only; exact T.ret_if
    | fail => simp only; exact T.ret_if
  | @scope l b ws V id v r _ h1 =>
    refine goal_run (fun cx hcx hd st hl hm => ?_) (fun cx hcx hd st hl hm ht => absurd ht (takes_none fun _ _ => rfl))
    simp only [stepRun]
    have hv : TotC E b cx (.run (.varCreate id v)) st := T.exec (by simp only [step, stepRun]; exact T.ret_ok)
    refine T.onOk hv.rec fun x hx _ => ?_
    obtain ⟨n, hn⟩ := hx.exec
    cases n with
    | zero => cases hn
    | succ n =>
      rw [exec_succ] at hn
      simp only [step, stepRun, ret, Option.some.injEq] at hn
      subst hn
      exact (h1.all hcx hd { st with vars := (v.key id, v) :: st.vars } (hl.create id v) hm).rec
  | varCreate =>
    exact goal_run (fun cx hcx hd st hl hm => T.ret_ok) (fun cx hcx hd st hl hm ht => absurd ht (takes_none fun _ _ => rfl))
  | @flagSet l b ws V id x hk =>
    refine goal_run (fun cx hcx hd st hl hm => ?_) (fun cx hcx hd st hl hm ht => absurd ht (takes_none fun _ _ => rfl))
    obtain ⟨c, e⟩ := hl.flag hk
    simp only [stepRun, e, Option.bind_some]
    exact T.ret_ok
  | @flagToggle l b ws V id hk =>
    refine goal_run (fun cx hcx hd st hl hm => ?_) (fun cx hcx hd st hl hm ht => absurd ht (takes_none fun _ _ => rfl))
    obtain ⟨c, e⟩ := hl.flag hk
    simp only [stepRun, e, Option.bind_some]
    exact T.ret_ok
  | flagIs => exact goal_run (fun cx hcx hd st hl hm => T.ret_ok) (fun cx hcx hd st hl hm ht => T.ret_ok)
  | @cntAdd l b ws V id d hk =>
    refine goal_run (fun cx hcx hd st hl hm => ?_) (fun cx hcx hd st hl hm ht => absurd ht (takes_none fun _ _ => rfl))
    obtain ⟨c, e⟩ := hl.counter hk
    simp only [stepRun, e, Option.bind_some]
    exact T.ret_ok
  | @cntPush l b ws V id r sign hk _ h1 =>
    refine goal_run (fun cx hcx hd st hl hm => ?_) (fun cx hcx hd st hl hm ht => ?_)
    · simp only [stepRun]
      refine T.onOk' (h1.all hcx hd st hl hm).rec fun x hx _ => ?_
      obtain ⟨c, e⟩ := ((exec_fwd rfl hl.len hx.exec).at hl).counter hk
      exact T.bind_some e T.ret_ok
    · simp only [stepFinish]
      refine T.onOk' (h1.allFin hcx hd st hl hm (takes_sub (fun _ _ => rfl) ht)).rec fun x hx _ => ?_
      obtain ⟨c, e⟩ := ((exec_fwd rfl hl.len hx.exec).at hl).counter hk
      exact T.bind_some e T.ret_ok
  | cntIs => exact goal_run (fun cx hcx hd st hl hm => T.ret_ok) (fun cx hcx hd st hl hm ht => T.ret_ok)
  | @cntEq l b ws V tag id ids hk hj =>
    refine goal_run (fun cx hcx hd st hl hm => ?_) (fun cx hcx hd st hl hm ht => T.ret_ok)
    obtain ⟨c, e⟩ := hl.counter hk
    simp only [stepRun, e, Option.bind_some, counters_found hl hj, Bool.false_eq_true, if_false]
    exact T.pure (r := ⟨_, _, _⟩) (by simp)
  | @idCap l b ws V id p len hk _ hw =>
    refine goal_run (fun cx hcx hd st hl hm => ?_) (fun cx hcx hd st hl hm ht => ?_)
    · have hb := (p.parse_tr E.inp st.pos hl.len).bounds hl.len
      simp only [stepRun]
      refine T.onOk' (primDone_tot (b := false) (hcx ▸ hw) (Nat.le_trans len_le_mu hm) hb.1 hb.2) fun x hx _ => ?_
      obtain ⟨c, e⟩ := (primDone_at hl hb.2 hx).ident hk
      exact T.bind_some e T.ret_ok
    · have hb := (p.finish_tr E.inp st.pos hl.len).bounds hl.len
      simp only [stepFinish]
      refine T.onOk' (primDone_tot (b := false) (hcx ▸ hw) (Nat.le_trans len_le_mu hm) hb.1 hb.2) fun x hx _ => ?_
      obtain ⟨c, e⟩ := (primDone_at hl hb.2 hx).ident hk
      exact T.bind_some e T.ret_ok
  | @idRem l b ws V id tag t hk _ hw =>
    refine goal_run (fun cx hcx hd st hl hm => ?_) (fun cx hcx hd st hl hm ht => ?_)
    · simp only [stepRun]
      refine T.onOk' (tokenParse_tot (b := false) (hcx ▸ hw) (Nat.le_trans len_le_mu hm) (Nat.le_add_right _ _)
        (tok_bound hl.len)) fun x hx _ => ?_
      obtain ⟨c, e⟩ := (tokenParse_at hl (tok_bound hl.len) hx).ident hk
      exact T.bind_some e (T.pure (r := ⟨_, _, _⟩) (by simp))
    · simp only [stepFinish]
      exact tokenDone_tot (hcx ▸ hw) (Nat.le_trans len_le_mu hm) (Nat.le_add_right _ _) (tok_bound hl.len)
  | ctok =>
    refine goal_cond (fun cx st hl hm => ?_) (fun cx st hl hm => T.ret_ok)
    simp only [stepTry]; exact T.ret_if
  | @ctokr V k tag r _ h1 =>
    refine goal_cond (fun cx st hl hm => ?_) (fun cx st hl hm => T.ret_ok)
    simp only [stepTry]
    refine tokTry_tot (f := fun rec o => match o with
        | none => none
        | some r' => ret (if r'.out == .ok then .ok else .fail) st)
        (tokr_tot h1 hl.len hm) fun x hx => T.ret_if
  | @cprim V p hp =>
    refine goal_cond (fun cx st hl hm => ?_) (fun cx st hl hm => T.ret_ok)
    obtain ⟨f, hf⟩ := Option.isSome_iff_exists.1 hp
    simp only [stepTry, hf, Option.bind_some]; exact T.ret_if
  | cels => exact goal_cond (fun cx st hl hm => T.ret_ok) (fun cx st hl hm => T.ret_ok)
  | cbrk => exact goal_cond (fun cx st hl hm => T.ret_ok) (fun cx st hl hm => T.ret_ok)
  | cerr => exact goal_cond (fun cx st hl hm => T.ret_ok) (fun cx st hl hm => T.ret_ok)
  | @cbr V r r' _ h1 =>
    exact goal_cond (fun cx st hl hm => (h1 cx st hl hm).1.rec) (fun cx st hl hm => (h1 cx st hl hm).2.rec)
  | @cchc V rs _ h1 =>
    refine goal_cond (fun cx st hl hm => ?_) (fun cx st hl hm => ?_)
    · exact (chcTry_at hl.len fun r hr => (h1 r hr cx st hl hm).1).rec
    · exact (chcCancel_at hl.len fun r hr => (h1 r hr cx st hl hm).2).rec
  | @cmust V r e _ h1 =>
    exact goal_cond (fun cx st hl hm => (h1 cx st hl hm).1.rec) (fun cx st hl hm => (h1 cx st hl hm).2.rec)
  | @clst V r sep _ h1 =>
    exact goal_cond (fun cx st hl hm => (h1 cx st hl hm).1.rec) (fun cx st hl hm => (h1 cx st hl hm).2.rec)
  | @ctryr V r rc _ h1 =>
    exact goal_cond (fun cx st hl hm => (h1 cx st hl hm).1.rec) (fun cx st hl hm => (h1 cx st hl hm).2.rec)
  | @cprod V n hb _ h1 =>
    refine goal_cond (fun cx st hl hm => ?_) (fun cx st hl hm => ?_)
    · simp only [stepTry, hb, if_true]
      exact (h1 cx st hl hm).1.rec
    · simp only [stepCancel]
      exact T.emit (T.andThen (h1 cx st hl hm).2.rec fun x hx _ => T.pure (r := ⟨_, _, _⟩) (by simp))
  | @crecu V n tag _ h1 =>
    exact goal_cond (fun cx st hl hm => (h1 cx st hl hm).1.rec) (fun cx st hl hm => (h1 cx st hl hm).2.rec)
  | @cpeek V tag r _ h1 =>
    refine goal_cond (fun cx st hl hm => ?_) (fun cx st hl hm => ?_)
    · simp only [stepTry]
      exact tokTry_tot (f := fun rec o => match o with
        | none => none
        | some r' => ret (if r'.out == .ok then .ok else .fail) st) (h1 cx st hl.len hm) fun x hx => T.ret_if
    · simp only [stepCancel]
      exact tokTry_tot (f := fun rec o => match o with
        | none => none
        | some r' => some ⟨.ok, st, [.backtracked st.pos r'.st.pos]⟩) (h1 cx st hl.len hm) fun x hx =>
          T.pure (r := ⟨_, _, _⟩) (by simp)
  | @cpeekn V tag r _ h1 =>
    refine goal_cond (fun cx st hl hm => ?_) (fun cx st hl hm => ?_)
    · simp only [stepTry]
      refine tokTry_tot (f := fun rec o => match o with
        | none => none
        | some r' => ret (if r'.out == .ok then .fail else .ok) st) (h1 cx st hl.len hm) fun x hx => ?_
      simp only
      split
      · exact T.ret_fail
      · exact T.ret_ok
    · simp only [stepCancel]
      exact tokTry_tot (f := fun rec o => match o with
        | none => none
        | some r' => some ⟨.ok, st, [.backtracked st.pos r'.st.pos]⟩) (h1 cx st hl.len hm) fun x hx =>
          T.pure (r := ⟨_, _, _⟩) (by simp)
  | clook =>
    refine goal_cond (fun cx st hl hm => ?_) (fun cx st hl hm => ?_)
    · simp only [stepTry]; exact T.ret_if
    · simp only [stepCancel]; exact T.pure (r := ⟨_, _, _⟩) (by simp)
  | @cwsn V r _ h1 =>
    exact goal_cond (fun cx st hl hm => (h1 cx st hl hm).1.rec) (fun cx st hl hm => (h1 cx st hl hm).2.rec)
  | @cposr V r _ h1 =>
    exact goal_cond (fun cx st hl hm => (h1 cx st hl hm).1.rec) (fun cx st hl hm => (h1 cx st hl hm).2.rec)
  | @crep V r f item sep _ h1 =>
    exact goal_cond (fun cx st hl hm => (h1 cx st hl hm).1.rec) (fun cx st hl hm => (h1 cx st hl hm).2.rec)
  | @cflagIs V id x hk =>
    refine goal_cond (fun cx st hl hm => ?_) (fun cx st hl hm => T.ret_ok)
    obtain ⟨c, e⟩ := hl.flag hk
    simp only [stepTry, e, Option.bind_some]
    exact T.ret_if
  | @ccntPush V id r sign _ h1 =>
    exact goal_cond (fun cx st hl hm => (h1 cx st hl hm).1.rec) (fun cx st hl hm => (h1 cx st hl hm).2.rec)
  | @ccntIs V id i hk =>
    refine goal_cond (fun cx st hl hm => ?_) (fun cx st hl hm => T.ret_ok)
    obtain ⟨c, e⟩ := hl.counter hk
    simp only [stepTry, e, Option.bind_some]
    exact T.ret_if
  | @ccntEq V tag id ids hk hj =>
    refine goal_cond (fun cx st hl hm => ?_) (fun cx st hl hm => T.ret_ok)
    obtain ⟨c, e⟩ := hl.counter hk
    simp only [stepTry, e, Option.bind_some, counters_found hl hj, Bool.false_eq_true, if_false]
    split
    · exact T.ret_fail
    · exact T.ret_ok
  | @cidCap V id len p hp =>
    refine goal_cond (fun cx st hl hm => ?_) (fun cx st hl hm => T.ret_ok)
    obtain ⟨f, hf⟩ := Option.isSome_iff_exists.1 hp
    simp only [stepTry, hf, Option.bind_some]; exact T.ret_if
  | @cidRem V id tag t hk =>
    refine goal_cond (fun cx st hl hm => ?_) (fun cx st hl hm => T.ret_ok)
    obtain ⟨c, e⟩ := hl.ident hk
    simp only [stepTry, e, Option.bind_some]
    split
    · split
      · exact T.ret_ok
      · exact T.ret_fail
    · exact T.ret_fail
  | mtok =>
    intro cx st hl hm
    refine T.exec ?_
    simp only [step]
    exact T.ret_if
  | @mtokr k tag r _ h1 => exact fun cx st hl hm => tokr_tot h1 hl hm
  | @mother r ht _ h1 =>
    intro cx st hl hm
    have h := nested_tot (b := false) (f := fun _ o => match o with
      | none => none
      | some (b, e, evs) => ret (if b && !evs.any Ev.isError then .ok else .fail) { st with pos := e }) h1 hl hm
      fun x => T.ret_if
    refine T.exec ?_
    cases r <;> first | exact h | simp [Rule.isToken] at ht
  | @stok r ht he _ h1 =>
    intro cx st hl hm
    refine T.exec ?_
    simp only [step, ht, if_true]
    refine T.onOk' (tokLoop_tot h1 (fun n cx' st' y hl' hy hyo => ?_) st hl hm).rec fun x hx _ => T.pure (r := ⟨_, _, _⟩) (by simp)
    cases he with
    | @tok t ht' =>
      cases n with
      | zero => cases hy
      | succ n =>
        rw [exec_succ] at hy
        simp only [step, ret, Option.some.injEq] at hy
        subst hy
        simp only at hyo ⊢
        split at hyo
        · rename_i h
          have := ht' _ h
          omega
        · cases hyo
    | tokr h => exact (tokTry_tokr_lt (eats_sound h).1 hl' hy hyo).1
    | _ => simp [Rule.isToken] at ht
  | @sother r ht _ h1 =>
    intro cx st hl hm
    refine T.exec ?_
    simp only [step, ht, Bool.false_eq_true, if_false]
    refine nested_tot (f := fun _ o => match o with
      | none => none
      | some (b, e, evs) =>
        some ⟨if b then .ok else .fail, { st with pos := e },
          evs.filter Ev.isError ++ [.token (if b then .whitespace else .error) st.pos e]⟩) h1 hl hm fun x => ?_
    exact T.pure (r := ⟨_, _, _⟩) (by simp only; split <;> simp)

end Verif.Tot
