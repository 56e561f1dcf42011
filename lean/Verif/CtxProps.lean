import Verif.DepthProps

/-
C46: context variables.
-/

namespace Verif

/-- **C46.** Whatever happens to the context variables: looking up a variable finds the value that is visible, that is
    the last created variable of that name and type that still exists, with the updates since then that happened while
    it was visible. -/
theorem C46_visible (key : VarKey) (ops : List CtxOp) (vs : List (VarKey × Var)) :
    getVar key (CtxOp.runAll ops vs) = Spec.visible key (getVar key vs) ops := getVar_runAll key ops vs

/-- Shadowing: the counter 1 is incremented, shadowed by another one in a production and visible again; a flag of the
    same name hides nothing. -/
example : Spec.visible (.counter 1) none [.create (.counter 1) (.counter 5), .upd (.counter 1) fun _ => .counter 6,
    .prod [.create (.flag 1) (.flag true), .upd (.counter 1) fun _ => .counter 7, .create (.counter 1) (.counter 9),
      .upd (.counter 1) fun _ => .counter 8]] = some (.counter 7) := by
  decide +kernel

/-- **C46.** All that a rule does to the variables are such operations. -/
theorem C46_rule (E : Env) (n : Nat) (cx : Cx) (c : Cmd) (st : St) (r : Res) (h : exec E n cx c st = some r) :
    ∃ ops, r.st.vars = CtxOp.runAll ops st.vars := ((exec_later E n cx c st r h).2).1.1

/-- **C46.** A variable that could be found before a rule can be found after it, and its value has the type that it was
    created with. -/
theorem C46_found (E : Env) (n : Nat) (cx : Cx) (c : Cmd) (st : St) (r : Res) (h : exec E n cx c st = some r)
    (ht : Typed st.vars) (id : Nat) :
    ((∃ b, getVar (.flag id) st.vars = some (.flag b)) → ∃ b, getVar (.flag id) r.st.vars = some (.flag b)) ∧
    ((∃ i, getVar (.counter id) st.vars = some (.counter i)) → ∃ i, getVar (.counter id) r.st.vars = some (.counter i)) ∧
    ((∃ w, getVar (.ident id) st.vars = some (.ident w)) → ∃ w, getVar (.ident id) r.st.vars = some (.ident w)) := by
  have he := ((exec_later E n cx c st r h).2).1
  have ht' := he.2 ht
  refine ⟨fun ⟨b, hb⟩ => ?_, fun ⟨b, hb⟩ => ?_, fun ⟨b, hb⟩ => ?_⟩
  all_goals
    obtain ⟨v, hv, i, hi⟩ := ht'.get (he.keys (getVar_mem hb))
    cases v <;> cases hi
    exact ⟨_, hv⟩

/-- The other counter is incremented, and a flag of the same name is created. -/
example : Typed [(.counter 1, .counter 5)] ∧ ((exec (Ex.env [49] fun _ => { rule := .seq (.varCreate 1 (.flag true)) (.cntAdd 1 1) }) 20 {}
    (.run (.seq (.varCreate 1 (.flag true)) (.cntAdd 1 1))) { pos := 0, vars := [(.counter 1, .counter 5)] }).map
      fun r => (r.out, r.st.vars)) = some (.ok, [(.flag 1, .flag true), (.counter 1, .counter 6)]) :=
  ⟨fun p hp => by simp only [List.mem_singleton] at hp; subst hp; exact ⟨1, rfl⟩, by decide +kernel⟩

/-- **C46.** After a production, however it ended, the same variables exist as before: those created by it are gone and
    no variable that it shadowed has changed. -/
theorem C46_production (E : Env) (n : Nat) (cx : Cx) (m : Nat) (c : Cmd)
    (hc : c = .run (.prod m) ∨ c = .bfinish (.prod m)) (st : St) (r : Res) (h : exec E n cx c st = some r) :
    ∃ ops, r.st.vars = CtxOp.run (.prod ops) st.vars ∧ r.st.vars.map (·.1) = st.vars.map (·.1) ∧
      ∀ id, getVar id r.st.vars = (getVar id st.vars).map (Spec.updates (Spec.reachAll id ops)) := by
  suffices hh : ∃ ops, r.st.vars = CtxOp.run (.prod ops) st.vars by
    obtain ⟨ops, ho⟩ := hh
    refine ⟨ops, ho, ?_, fun id => ?_⟩
    · rw [ho, run_prod, reached_ids]
    · rw [ho, run_prod, getVar_reached]; rfl
  cases n with
  | zero => cases h
  | succ n =>
    have key : ∀ f : Cx → St → Option Res, (∀ cx' r', f cx' { st with ex := {} } = some r' → Ext st.vars r'.st.vars) →
        production E (exec E n) cx m f st = some r → ∃ ops, r.st.vars = CtxOp.run (.prod ops) st.vars := by
      intro f hf h
      unfold production at h
      obtain ⟨r1, h1, rfl⟩ := emit_some.1 h
      obtain ⟨r2, r3, h2, h3, rfl⟩ := andThen_some.1 h1
      obtain ⟨r4, h4, rfl⟩ := framed_some.1 h2
      obtain ⟨⟨ops, ho⟩, _⟩ := hf _ r4 h4
      refine ⟨ops, ?_⟩
      have hfr : (r4.st.frame st.vars.length).vars = CtxOp.run (.prod ops) st.vars := by
        unfold St.frame CtxOp.run
        rw [ho]
      show r3.st.vars = _
      rw [← hfr]
      simp only at h3
      cases ho4 : r4.out with
      | ok =>
        rw [ho4] at h3
        simp only at h3
        obtain ⟨r5, h5, rfl⟩ := emit_some.1 h3
        split at h5
        · have h6 := (ws_st E n cx .ws _ (.inl rfl) h5).1
          show r5.st.vars = _
          rw [h6]
        · cases h5; rfl
      | fail => rw [ho4] at h3; cases h3; rfl
      | brk => rw [ho4] at h3; cases h3
    rw [exec_succ] at h
    rcases hc with rfl | rfl
    · simp only [step, stepRun] at h
      refine key _ ?_ h
      intro cx' r' h'
      split at h'
      · obtain ⟨r1, r2, h1, h2, rfl⟩ := andThen_some.1 h'
        have e1 := (exec_later E n _ _ _ _ h1).2.1
        cases ho : r1.out with
        | ok => rw [ho] at h2; exact e1.trans ((exec_later E n _ _ _ _ h2).2.1)
        | fail => rw [ho] at h2; cases h2; exact e1
        | brk => rw [ho] at h2; cases h2
      · exact (exec_later E n _ _ _ _ h').2.1
    · simp only [step, stepFinish] at h
      refine key _ ?_ h
      intro cx' r' h'
      exact (exec_later E n _ _ _ _ h').2.1

/-- A production that increments the counter 1 of its caller, shadows it by another one and increments that. -/
def Ex.counters : Nat → ProdDef
  | 0 => { rule := .seq (.varCreate 1 (.counter 5)) (.seq (.prod 1) (.br (.cntIs 1 6) Ex.digit)) }
  | _ => { rule := .seq (.cntAdd 1 1) (.seq (.varCreate 1 (.counter 0)) (.cntPush 1 Ex.digit 1)) }

example : ((exec (Ex.env [49, 50] Ex.counters) 20 {} (.run (.prod 0)) { pos := 0, vars := [(.flag 2, .flag true)] }).map
    fun r => (r.out, r.st.pos, r.st.vars)) = some (.ok, 2, [(.flag 2, .flag true)]) := by decide +kernel

example : ((exec (Ex.env [49, 50] Ex.counters) 20 {} (.run (.prod 1)) { pos := 0, vars := [(.counter 1, .counter 5)] }).map
    fun r => (r.out, r.st.pos, r.st.vars)) = some (.ok, 1, [(.counter 1, .counter 6)]) := by decide +kernel

/-- Adding to a counter. -/
def Spec.add (d : Int) : Var → Var
  | .counter i => .counter (i + d)
  | v => v

/-- **C46.** The value of a counter is the sum of its updates. -/
theorem C46_counter_sum (ds : List Int) (i : Int) :
    Spec.updates (ds.map Spec.add) (.counter i) = .counter (i + ds.sum) := by
  induction ds generalizing i with
  | nil => simp [Spec.updates]
  | cons d ds ih =>
    have := ih (i + d)
    simp only [Spec.updates, List.map_cons, List.foldl_cons, List.sum_cons] at this ⊢
    rw [show Spec.add d (.counter i) = .counter (i + d) from rfl, this, Int.add_assoc]

theorem updVar_congr (id : VarKey) (f g : Var → Var) (vs : List (VarKey × Var)) (v : Var) (h : getVar id vs = some v)
    (hfg : f v = g v) : updVar id f vs = updVar id g vs := by
  induction vs with
  | nil => rfl
  | cons p vs ih =>
    obtain ⟨i, w⟩ := p
    unfold updVar
    unfold getVar at h
    by_cases hi : i = id
    · rw [if_pos hi] at h ⊢
      cases h
      rw [if_pos hi, hfg]
    · rw [if_neg hi] at h ⊢
      rw [if_neg hi, ih h]

theorem getCounter_some {id : Nat} {vs : List (VarKey × Var)} {i : Int} (h : getCounter id vs = some i) :
    getVar (.counter id) vs = some (.counter i) := by
  unfold getCounter at h
  split at h
  · cases h; assumption
  · cases h

theorem getFlag_some {id : Nat} {vs : List (VarKey × Var)} {i : Bool} (h : getFlag id vs = some i) :
    getVar (.flag id) vs = some (.flag i) := by
  unfold getFlag at h
  split at h
  · cases h; assumption
  · cases h

theorem getIdent_some {id : Nat} {vs : List (VarKey × Var)} {i : List Nat} (h : getIdent id vs = some i) :
    getVar (.ident id) vs = some (.ident i) := by
  unfold getIdent at h
  split at h
  · cases h; assumption
  · cases h

/-- Flipping a flag. -/
def Spec.flip : Var → Var
  | .flag b => .flag !b
  | v => v

/-- **C46.** What the rules that access variables do, where the variable is visible: nothing is
    consumed and reported, and the variables change by one operation. -/
theorem C46_operations (E : Env) (n : Nat) (cx : Cx) (st : St) (id : Nat) :
    (∀ v, exec E (n + 1) cx (.run (.varCreate id v)) st =
      some ⟨.ok, { st with vars := CtxOp.run (.create (v.key id) v) st.vars }, []⟩) ∧
    (∀ b v, getVar (.flag id) st.vars = some (.flag v) → exec E (n + 1) cx (.run (.flagSet id b)) st =
      some ⟨.ok, { st with vars := CtxOp.run (.upd (.flag id) fun _ => .flag b) st.vars }, []⟩) ∧
    (∀ v, getVar (.flag id) st.vars = some (.flag v) → exec E (n + 1) cx (.run (.flagToggle id)) st =
      some ⟨.ok, { st with vars := CtxOp.run (.upd (.flag id) Spec.flip) st.vars }, []⟩) ∧
    (∀ d v, getVar (.counter id) st.vars = some (.counter v) → exec E (n + 1) cx (.run (.cntAdd id d)) st =
      some ⟨.ok, { st with vars := CtxOp.run (.upd (.counter id) (Spec.add d)) st.vars }, []⟩) := by
  refine ⟨fun v => rfl, fun b v h => ?_, fun v h => ?_, fun d v h => ?_⟩
  · simp [exec_succ, step, stepRun, getFlag, h, ret, CtxOp.run, setVar_eq]
  · have := updVar_congr (.flag id) (fun _ => .flag !v) Spec.flip st.vars _ h rfl
    simp [exec_succ, step, stepRun, getFlag, h, ret, CtxOp.run, setVar_eq, this]
  · have := updVar_congr (.counter id) (fun _ => .counter (v + d)) (Spec.add d) st.vars _ h rfl
    simp [exec_succ, step, stepRun, getCounter, h, ret, CtxOp.run, setVar_eq, this]

/-- **C46.** `push` and `pop` add and subtract the number of code units that the rule consumed, after whatever the rule
    did. -/
theorem C46_push (E : Env) (n : Nat) (cx : Cx) (c : Cmd) (id : Nat) (rule : Rule) (sign : Int) (st : St) (r : Res)
    (hc : c = .run (.cntPush id rule sign) ∨ c = .bfinish (.cntPush id rule sign)) (h : exec E n cx c st = some r)
    (ho : r.out = .ok) :
    ∃ ops, r.st.vars = CtxOp.runAll (ops ++ [.upd (.counter id) (Spec.add ((r.st.pos - st.pos : Nat) * sign))]) st.vars := by
  cases n with
  | zero => cases h
  | succ n =>
    have key : ∀ c', onOk' (exec E n cx c' st) (fun st' => (getCounter id st'.vars).bind fun i =>
        ret .ok { st' with vars := setVar (.counter id) (.counter (i + (st'.pos - st.pos : Nat) * sign)) st'.vars }) = some r →
        ∃ ops, r.st.vars = CtxOp.runAll (ops ++ [.upd (.counter id) (Spec.add ((r.st.pos - st.pos : Nat) * sign))]) st.vars := by
      intro c' h
      obtain ⟨r1, r2, h1, h2, h3, h4, h5⟩ := onOk'_ok h ho
      obtain ⟨⟨ops, hops⟩, _⟩ := (exec_later E n _ _ _ _ h1).2.1
      obtain ⟨i, hi, h6⟩ := Option.bind_eq_some_iff.1 h3
      cases h6
      refine ⟨ops, ?_⟩
      rw [h5, runAll_append, ← hops]
      simp only [CtxOp.runAll, CtxOp.run, setVar_eq]
      exact updVar_congr (.counter id) _ _ _ _ (getCounter_some hi) rfl
    rcases hc with rfl | rfl
    · exact key _ h
    · exact key _ h

/-- **C46.** `capture` stores what the identifier matched. -/
theorem C46_capture (E : Env) (n : Nat) (cx : Cx) (id : Nat) (p : PRule) (len : List Nat → Nat) (st : St) (r : Res)
    (h : exec E n cx (.run (.idCap id p len)) st = some r) (ho : r.out = .ok) :
    getVar (.ident id) r.st.vars = some (.ident ((E.inp.drop st.pos).take (len (E.inp.drop st.pos)))) ∧
      ∀ i, i ≠ .ident id → getVar i r.st.vars = getVar i st.vars := by
  cases n with
  | zero => cases h
  | succ n =>
    rw [exec_succ] at h
    simp only [step, stepRun] at h
    obtain ⟨r1, r2, h1, h2, h3, h4, h5⟩ := onOk'_ok h ho
    have hv : r1.st.vars = st.vars := by
      unfold primDone at h1
      obtain ⟨r3, h6, rfl⟩ := emit_some.1 h1
      split at h6
      · split at h6
        · have h7 := (ws_st E n cx .ws _ (.inl rfl) h6).1
          show r3.st.vars = _
          rw [h7]
        · cases h6; rfl
      · cases h6; rfl
    obtain ⟨i, hi, h6⟩ := Option.bind_eq_some_iff.1 h3
    cases h6
    rw [h5]
    simp only [setVar_eq, getVar_updVar]
    rw [if_pos trivial, getIdent_some hi]
    refine ⟨rfl, fun j hj => ?_⟩
    rw [if_neg (fun e => hj e.symm), hv]

/-- **C46.** The conditions on variables look at the visible value. -/
theorem C46_conditions (E : Env) (n : Nat) (cx : Cx) (st : St) (id : Nat) :
    (∀ v b, getVar (.flag id) st.vars = some (.flag v) → exec E (n + 1) cx (.btry (.flagIs id b)) st =
      some ⟨if v = b then .ok else .fail, st, []⟩) ∧
    (∀ v i, getVar (.counter id) st.vars = some (.counter v) → exec E (n + 1) cx (.btry (.cntIs id i)) st =
      some ⟨if v = i then .ok else .fail, st, []⟩) ∧
    (∀ v w tag j, getVar (.counter id) st.vars = some (.counter v) → getVar (.counter j) st.vars = some (.counter w) →
      exec E (n + 1) cx (.btry (.cntEq tag id [j])) st = some ⟨if v = w then .ok else .fail, st, []⟩ ∧
      exec E (n + 1) cx (.run (.cntEq tag id [j])) st =
        some ⟨.ok, st, if v = w then [] else [.error tag st.pos st.pos]⟩) := by
  refine ⟨fun v b h => ?_, fun v i h => ?_, fun v w tag j h1 h2 => ⟨?_, ?_⟩⟩
  · by_cases hv : v = b <;> simp [exec_succ, step, stepTry, getFlag, h, ret, hv]
  · by_cases hv : v = i <;> simp [exec_succ, step, stepTry, getCounter, h, ret, hv]
  · by_cases hv : v = w
    · simp [exec_succ, step, stepTry, getCounter, h1, h2, ret, hv]
    · have : w ≠ v := fun e => hv e.symm
      simp [exec_succ, step, stepTry, getCounter, h1, h2, ret, hv, this]
  · by_cases hv : v = w
    · simp [exec_succ, step, stepRun, getCounter, h1, h2, hv]
    · have : w ≠ v := fun e => hv e.symm
      simp [exec_succ, step, stepRun, getCounter, h1, h2, hv, this]

end Verif
