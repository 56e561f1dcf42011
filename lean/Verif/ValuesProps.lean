import Verif.ValuesSpec

/-
The parsers in continuation passing style hand on exactly the documented values.
-/

namespace Verif.Val

/-- What a chain of parsers does if its first rule has the result `x`: if the rule succeeded, the continuation is called
    with the values so far and those of the rule; if it failed, nothing else happens; if it ended the production, the
    callback of the production `cur` is called. -/
def resume (cur : Nat) (k : K) (args : List Val) (x : Option DRes) : Option VRes :=
  match x with
  | none => none
  | some r => match r.out with
    | .ok => (k r.st (args ++ r.vals)).map (VRes.pre r.evs r.calls)
    | .fail => some ⟨.fail, r.st, r.evs, r.calls, 0⟩
    | .brk => some ⟨.brk, r.st, r.evs, r.calls, 0⟩
    | .ret pre => some ⟨.final (pre ++ args ++ r.vals), r.st, r.evs, r.calls ++ [(cur, pre ++ args ++ r.vals)], 0⟩

section

variable (cur : Nat) (k : K) (args : List Val) (st : St) (evs : List Ev) (calls : List (Nat × List Val)) (vals : List Val)

theorem resume_ok : resume cur k args (some ⟨.ok, st, evs, calls, vals⟩) =
    (k st (args ++ vals)).map (VRes.pre evs calls) := rfl
theorem resume_fail : resume cur k args (some ⟨.fail, st, evs, calls, vals⟩) = some ⟨.fail, st, evs, calls, 0⟩ := rfl
theorem resume_brk : resume cur k args (some ⟨.brk, st, evs, calls, vals⟩) = some ⟨.brk, st, evs, calls, 0⟩ := rfl
theorem resume_ret (pre : List Val) : resume cur k args (some ⟨.ret pre, st, evs, calls, vals⟩) =
    some ⟨.final (pre ++ args ++ vals), st, evs, calls ++ [(cur, pre ++ args ++ vals)], 0⟩ := rfl

end

@[simp] theorem pre_nil (r : VRes) : VRes.pre [] [] r = r := rfl
theorem pre_id : (VRes.pre [] [] : VRes → VRes) = id := rfl
@[simp] theorem pre_pre (e1 e2 c1 c2) (r : VRes) : VRes.pre e1 c1 (VRes.pre e2 c2 r) = VRes.pre (e1 ++ e2) (c1 ++ c2) r := by
  simp [VRes.pre]
theorem map_pre_pre (e1 e2 c1 c2) (x : Option VRes) :
    (x.map (VRes.pre e2 c2)).map (VRes.pre e1 c1) = x.map (VRes.pre (e1 ++ e2) (c1 ++ c2)) := by
  cases x <;> simp

section

variable {cur : Nat} {k : K} {args : List Val}

theorem resume_none : resume cur k args none = none := rfl

theorem resume_okD (st : St) (vs : List Val) : resume cur k args (okD st vs) = k st (args ++ vs) := by
  simp only [okD, resume_ok, pre_id, Option.map_id, id_eq]

theorem resume_pre (evs : List Ev) (calls) (vs : List Val) (x : Option DRes) :
    resume cur k args (x.map (DRes.pre evs calls vs)) = (resume cur k (args ++ vs) x).map (VRes.pre evs calls) := by
  cases x with
  | none => rfl
  | some r =>
    obtain ⟨out, st, evs', calls', vals⟩ := r
    cases out
    · simp only [Option.map_some, DRes.pre, resume_ok, map_pre_pre, List.append_assoc]
    · rfl
    · rfl
    · simp only [Option.map_some, DRes.pre, resume_ret, VRes.pre, List.append_assoc]

theorem resume_emitD (evs : List Ev) (x : Option DRes) :
    resume cur k args (emitD evs x) = emitC evs (resume cur k args x) := by
  rw [emitD, resume_pre, List.append_nil]; rfl

theorem resume_valD (vs : List Val) (x : Option DRes) :
    resume cur k args (valD vs x) = resume cur k (args ++ vs) x := by
  rw [valD, resume_pre, pre_id, Option.map_id]; rfl

theorem resume_thenD (x : Option DRes) (f : St → Option DRes) :
    resume cur k args (thenD x f) = resume cur (fun st as => resume cur k as (f st)) args x := by
  cases x with
  | none => rfl
  | some r =>
    obtain ⟨out, st, evs', calls', vals⟩ := r
    cases out
    · simp only [thenD, resume_ok, resume_pre]
    · rfl
    · rfl
    · rfl

theorem resume_viaD (x : Option Res) (f : St → Option DRes) :
    resume cur k args (viaD x f) = viaC x (fun st => resume cur k args (f st)) := by
  cases x with
  | none => rfl
  | some r =>
    obtain ⟨out, st, evs'⟩ := r
    cases out
    · exact resume_emitD _ _
    · rfl
    · rfl

theorem resume_viaD' (x : Option Res) (f : St → Option DRes) :
    resume cur k args (viaD' x f) = viaC' x (fun st => resume cur k args (f st)) := by
  cases x with
  | none => rfl
  | some r =>
    obtain ⟨out, st, evs'⟩ := r
    cases out
    · exact resume_emitD _ _
    · rfl
    · rfl

theorem resume_choose (x : Option Res) (yes no : Option DRes) :
    resume cur k args (choose x yes no) = choose x (resume cur k args yes) (resume cur k args no) := by
  cases x with
  | none => rfl
  | some r =>
    obtain ⟨out, st, evs'⟩ := r
    cases out <;> rfl

theorem resume_baseD (n : Nat) (x : Option DRes) (f : List Val → St → Option DRes) :
    resume cur k args (baseD n x f) =
      baseC n (resume cur kBase [] x) (fun vs st => resume cur k args (f vs st)) := by
  cases x with
  | none => rfl
  | some r =>
    obtain ⟨out, st, evs', calls', vals⟩ := r
    cases out
    · simp only [baseD, baseC, resume_ok, resume_pre, kBase, Option.map_some, VRes.pre, List.append_nil, List.nil_append]
    · rfl
    · rfl
    · rfl

theorem resume_tryBaseD (n : Nat) (x : Option DRes) (f : List Val → St → Option DRes) (g : St → Option DRes) :
    resume cur k args (tryBaseD n x f g) =
      tryBaseC n (resume cur kBase [] x) (fun vs st => resume cur k args (f vs st)) (fun st => resume cur k args (g st)) := by
  cases x with
  | none => rfl
  | some r =>
    obtain ⟨out, st, evs', calls', vals⟩ := r
    cases out
    · simp only [tryBaseD, tryBaseC, resume_ok, resume_pre, kBase, Option.map_some, VRes.pre, List.append_nil, List.nil_append]
    · simp only [tryBaseD, tryBaseC, resume_fail, resume_pre, List.append_nil]
    · rfl
    · rfl

theorem resume_evsD (x : Option Res) (y : Option DRes) :
    resume cur k args (evsD x y) = evsC x (resume cur k args y) := by
  cases x with
  | none => rfl
  | some r => exact resume_emitD _ _

theorem resume_frontD (p id : Nat) (sign : Int) (x : Option DRes) :
    resume cur k args (frontD (.mark p) x (pushD id sign p)) = resume cur (pushed id sign k) (.mark p :: args) x := by
  cases x with
  | none => rfl
  | some r =>
    obtain ⟨out, st, evs', calls', vals⟩ := r
    cases out
    · simp only [frontD, resume_ok, resume_pre, List.cons_append, pushed, pushD]
      cases getCounter id st.vars with
      | none => rfl
      | some i => simp only [Option.bind_some, resume_okD, List.append_nil]
    · rfl
    · rfl
    · simp only [frontD, resume_ret, List.append_assoc, List.cons_append, List.nil_append]

theorem resume_identD (V : VEnv) (id : Nat) (b n : Nat) (st : St) :
    resume cur k args (identD id ((V.inp.drop b).take n) [.lexeme b (b + n)] st) =
      capturedId V id k st (args ++ [.lexeme b (b + n)]) := by
  simp only [identD, capturedId, List.getLast?_append, List.getLast?_singleton, Option.some_or, Nat.add_sub_cancel_left]
  cases getIdent id st.vars with
  | none => rfl
  | some i => simp only [Option.bind_some, resume_okD]

theorem resume_ite {p : Prop} [Decidable p] (x y : Option DRes) :
    resume cur k args (if p then x else y) = if p then resume cur k args x else resume cur k args y := by
  split <;> rfl

end

/-- The interpreter in continuation passing style, from the results of rules. -/
def lift (rec : VCx → VCmd → St → Option DRes) : VCx → VCmd → K → St → List Val → Option VRes :=
  fun cx c k st args => resume cx.cur k args (rec cx c st)

section

variable {V : VEnv} {ex : Cx → Cmd → St → Option Res} {rec : VCx → VCmd → St → Option DRes}

theorem resume_tokD (cx : VCx) (kd : Kind) (e : Nat) (st : St) (vs : List Val) (cur k args) :
    resume cur k args (tokD ex cx kd e st vs) = tokC ex cx kd e st fun st' => k st' (args ++ vs) := by
  rw [tokD, resume_emitD, resume_viaD, tokC]
  simp only [resume_okD]

theorem prod_lift (cx : VCx) (n : Nat) (bodyC : VCx → K → St → List Val → Option VRes)
    (bodyD : VCx → St → Option DRes) (hb : ∀ cx k st args, bodyC cx k st args = resume cx.cur k args (bodyD cx st))
    (k : K) (st : St) (args : List Val) :
    prodC V ex cx n false bodyC k st args = resume cx.cur k args (prodD V ex cx n false bodyD st) := by
  unfold prodC prodD
  rw [hb]
  cases bodyD (cx.sub V n) { st with ex := {} } with
  | none => rfl
  | some r =>
    obtain ⟨out, st', evs', calls', vals⟩ := r
    cases out with
    | ok =>
      simp only [resume_ok, resume_fail, resume_brk, resume_ret, kFinal, VRes.pre, Option.map_some, DRes.args, Option.bind_some]
      simp only [List.nil_append, List.append_nil, Bool.not_false, Bool.and_true, Bool.false_eq_true, if_false]
      rw [resume_pre, resume_ite]
      simp only [resume_viaD, resume_okD, List.append_nil]
    | fail => rfl
    | brk => rfl
    | ret pre =>
      simp only [resume_ok, resume_fail, resume_brk, resume_ret, VRes.pre, DRes.args, Option.bind_some]
      simp only [List.nil_append, List.append_nil, Bool.not_false, Bool.and_true, Bool.false_eq_true, if_false]
      rw [resume_pre, resume_ite]
      simp only [resume_viaD, resume_okD, List.append_nil]
      rfl

theorem capp_lift (cx : VCx) (n : Nat) (ht : (V.prods n).isTok = true)
    (bodyC : VCx → K → St → List Val → Option VRes)
    (bodyD : VCx → St → Option DRes) (hb : ∀ cx k st args, bodyC cx k st args = resume cx.cur k args (bodyD cx st))
    (k : K) (st : St) (args : List Val) :
    prodC V ex cx n true bodyC (captured ex cx args.length k) st (args ++ [.pos st.pos]) =
      resume cx.cur k args (prodD V ex cx n true bodyD st) := by
  unfold prodC prodD
  rw [hb]
  cases bodyD (cx.sub V n) { st with ex := {} } with
  | none => rfl
  | some r =>
    obtain ⟨out, st', evs', calls', vals⟩ := r
    cases out with
    | ok =>
      simp only [resume_ok, resume_fail, resume_brk, resume_ret, kFinal, VRes.pre, Option.map_some, DRes.args, Option.bind_some]
      simp only [List.nil_append, List.append_nil, Bool.not_true, Bool.and_false, Bool.false_eq_true, if_false, if_true]
      rw [resume_pre, ht]
      simp only [if_true, resume_viaD, resume_okD, List.append_nil]
      unfold captured
      simp
    | fail => rfl
    | brk => rfl
    | ret pre =>
      simp only [resume_ok, resume_fail, resume_brk, resume_ret, VRes.pre, DRes.args, Option.bind_some]
      simp only [List.nil_append, List.append_nil, Bool.not_true, Bool.and_false, Bool.false_eq_true, if_false, if_true]
      rw [resume_pre, ht]
      simp only [if_true, resume_viaD, resume_okD, List.append_nil]
      unfold captured
      simp
      rfl

theorem deeper_lift (cx : VCx) (tag : Nat) (st : St) (k : K) (bodyC : St → K → Option VRes) (args : List Val)
    (bodyD : St → Option DRes) (hb : ∀ st k, bodyC st k = resume cx.cur k args (bodyD st)) :
    deeperC cx tag st k bodyC = resume cx.cur k args (deeperD cx tag st bodyD) := by
  unfold deeperC deeperD
  split
  · rfl
  · split
    · rfl
    · rw [hb, resume_thenD]
      simp only [resume_okD, List.append_nil]

/-- The continuation of a rule that is tried is called with the flag in front. -/
theorem try_lift (cx : VCx) (m : Nat) (rc : VRecov) (k : K) (args : List Val) (x : Option DRes)
    (f : St → Option DRes) (next : St → List Val → Option VRes)
    (hn : ∀ st as, next st as = resume cx.cur k as (f st)) :
    tryC (lift rec) cx m rc k args (resume cx.cur (reached next) (.flag :: args) x) =
      resume cx.cur k args (tryD rec cx m rc x f) := by
  cases x with
  | none => rfl
  | some r =>
    obtain ⟨out, st', evs', calls', vals⟩ := r
    cases out with
    | ok =>
      simp only [resume_ok, resume_fail, resume_brk, resume_ret, tryD, reached, List.cons_append, hn]
      rw [resume_pre]
      cases resume cx.cur k (args ++ vals) (f st') with
      | none => rfl
      | some y =>
        simp only [Option.map_some, tryC, VRes.pre]
        rw [if_pos (Nat.succ_pos _)]
        rfl
    | fail =>
      simp only [resume_ok, resume_fail, resume_brk, resume_ret, tryD, tryC]
      rw [resume_pre, List.append_nil, if_neg (by simp)]
      rfl
    | brk => rfl
    | ret pre => rfl

theorem loop_lift (cx : VCx) (k : K) (st : St) (args : List Val) (item : VR) (acc : List (List Val))
    (sep : Option VSep) :
    stepLoopC V ex (lift rec) cx k st args item acc sep =
      resume cx.cur k args (stepLoopD V ex rec cx st item acc sep) := by
  cases sep with
  | none =>
    simp only [stepLoopC, stepLoopD, lift, resume_ite, resume_choose, resume_baseD, resume_viaD', resume_okD,
      resume_none]
  | some s =>
    obtain ⟨s, sk⟩ := s
    simp only [stepLoopC, stepLoopD, lift, resume_ite, resume_choose, resume_baseD, resume_viaD', resume_okD,
      resume_none, resume_emitD]

theorem giveUp_lift (cx : VCx) (k : K) (st : St) (args : List Val) (b : Nat) (term item : VR) (sep : Option VSep)
    (limit : List Nat → Bool) (acc : List (List Val)) :
    ltGiveUpC V ex (lift rec) cx k args b term item sep limit acc st =
      resume cx.cur k args (ltGiveUpD V ex rec cx b term item sep limit acc st) := by
  simp only [ltGiveUpC, ltGiveUpD, lift, resume_choose, resume_viaD', resume_okD, resume_emitD, resume_ite, resume_fail]

theorem lt_lift (cx : VCx) (k : K) (st : St) (args : List Val) (term item : VR) (sep : Option VSep)
    (limit : List Nat → Bool) (acc : List (List Val)) (s : LtSt) :
    stepLtC V ex (lift rec) cx k st args term item sep limit acc s =
      resume cx.cur k args (stepLtD V ex rec cx st term item sep limit acc s) := by
  have hg : ∀ b, ltGiveUpC V ex (lift rec) cx k args b term item sep limit acc =
      fun st => resume cx.cur k args (ltGiveUpD V ex rec cx b term item sep limit acc st) :=
    fun b => funext fun st => giveUp_lift cx k st args b term item sep limit acc
  cases s with
  | term => simp only [stepLtC, stepLtD, lift, resume_choose, resume_viaD', resume_okD]
  | sep =>
    cases sep with
    | none => rfl
    | some s =>
      simp only [stepLtC, stepLtD, lift, resume_tryBaseD, resume_ite, resume_choose, resume_evsD, resume_viaD',
        resume_emitD]
  | trail p =>
    simp only [stepLtC, stepLtD, lift, resume_choose, resume_emitD, resume_okD]
    cases sep <;> rfl
  | item => simp only [stepLtC, stepLtD, lift, resume_tryBaseD, resume_emitD]
  | reco b =>
    cases sep with
    | none =>
      simp only [stepLtC, stepLtD, hg]
      simp only [lift, resume_tryBaseD, resume_ite, resume_choose, resume_viaD', resume_emitD]
    | some s =>
      simp only [stepLtC, stepLtD, hg]
      simp only [lift, resume_tryBaseD, resume_choose, resume_viaD', resume_emitD]

theorem repC_lift (cx : VCx) (k : K) (args : List Val) (kd : RepKind) (f : List Nat → Nat) (item : VR)
    (sep : Option VSep) (p : Nat) (st1 : St) :
    repC V (lift rec) cx k args kd f item sep p st1 = resume cx.cur k args (repD V rec cx kd f item sep p st1) := by
  cases h : f ((V.inp.take st1.pos).drop p) with
  | zero => simp only [repC, repD, h, resume_okD]
  | succ m => simp only [repC, repD, h, resume_baseD, lift]

theorem rep_lift (cx : VCx) (k : K) (st : St) (args : List Val) (kd : RepKind) (b : Nat) (item : VR)
    (sep : Option VSep) (acc : List (List Val)) (m : Nat) :
    stepRepC V (lift rec) cx k st args kd b item sep acc m =
      resume cx.cur k args (stepRepD V rec cx st kd b item sep acc m) := by
  cases m with
  | zero => simp only [stepRepC, stepRepD, resume_baseD, resume_okD, lift]
  | succ m => cases sep <;> simp only [stepRepC, stepRepD, resume_baseD, lift]

theorem run_lift (cx : VCx) (k : K) (st : St) (args : List Val) (r : VR) :
    stepRunC V ex (lift rec) cx k st args r = resume cx.cur k args (stepRunD V ex rec cx st r) := by
  cases r with
  | leaf r => simp only [stepRunC, stepRunD, resume_viaD, resume_okD, List.append_nil]
  | cap t =>
    simp only [stepRunC, stepRunD, resume_ite, resume_tokD]
    rfl
  | capp n =>
    simp only [stepRunC, stepRunD]
    split
    · next ht =>
      refine capp_lift cx n ht _ _ (fun cx k st args => ?_) k st args
      simp only [lift, resume_ite, resume_viaD']
    · rfl
  | val v => simp only [stepRunC, stepRunD, resume_okD]
  | posr r => simp only [stepRunC, stepRunD, resume_emitD, resume_valD, lift]
  | seq a b => simp only [stepRunC, stepRunD, resume_thenD, lift]
  | br a b => simp only [stepRunC, stepRunD, resume_thenD, lift]
  | chc rs => rfl
  | ifR b => simp only [stepRunC, stepRunD, resume_choose, resume_viaD', resume_okD, List.append_nil, lift]
  | opt b => simp only [stepRunC, stepRunD, resume_choose, resume_viaD', resume_okD, lift]
  | optt t b => simp only [stepRunC, stepRunD, resume_choose, resume_viaD', resume_valD, lift]
  | must b e =>
    simp only [stepRunC, stepRunD, resume_choose, resume_viaD', lift]
    congr 2
    funext st'
    generalize framed st.vars.length (ex cx.cx (.run e) st') = x
    cases x with
    | none => rfl
    | some r =>
      obtain ⟨o, _, _⟩ := r
      cases o <;> rfl
  | lst item sep => simp only [stepRunC, stepRunD, resume_baseD, lift]
  | tryt term r rc =>
    simp only [stepRunC, stepRunD]
    refine try_lift cx _ rc k args _ _ _ (fun st as => ?_)
    cases term with
    | none => simp only [resume_okD, List.append_nil]
    | some t => rfl
  | tryr r rc =>
    simp only [stepRunC, stepRunD]
    refine try_lift cx _ rc k args _ _ _ (fun st as => ?_)
    simp only [resume_okD, List.append_nil]
  | prod n =>
    simp only [stepRunC, stepRunD]
    refine prod_lift cx n _ _ (fun cx k st args => ?_) k st args
    simp only [lift, resume_ite, resume_viaD']
  | recu n tag b =>
    simp only [stepRunC, stepRunD]
    exact deeper_lift cx tag st k _ args _ (fun st k => rfl)
  | wsn r =>
    simp only [stepRunC, stepRunD, resume_ite, resume_thenD, resume_viaD, resume_okD, List.append_nil, lift]
  | pre a r => simp only [stepRunC, stepRunD, resume_valD, lift]
  | pas t r => simp only [stepRunC, stepRunD, resume_baseD, resume_okD, lift]
  | comb tag rs els => simp only [stepRunC, stepRunD, resume_thenD, resume_okD, List.append_nil, lift]
  | combIt i => simp only [stepRunC, stepRunD, resume_okD, List.append_nil]
  | ret => simp [stepRunC, stepRunD, resume_ret, kFinal]
  | lstt term item sep limit =>
    simp only [stepRunC, stepRunD, resume_thenD, resume_tryBaseD, resume_emitD, lift]
  | prim q => simp only [stepRunC, stepRunD, resume_viaD, resume_okD]
  | rep kd c f item sep => simp only [stepRunC, stepRunD, resume_baseD, repC_lift, lift]
  | cntPush id r sign => simp only [stepRunC, stepRunD, resume_frontD, lift]
  | cntVal id =>
    simp only [stepRunC, stepRunD]
    cases getCounter id st.vars with
    | none => rfl
    | some i => simp only [Option.bind_some, resume_okD]
  | idCap id q => simp only [stepRunC, stepRunD, resume_viaD', resume_identD]

theorem fin_lift (cx : VCx) (k : K) (st : St) (args : List Val) (r : VR) :
    stepFinC V ex (lift rec) cx k st args r = resume cx.cur k args (stepFinD V ex rec cx st r) := by
  cases r with
  | leaf r => simp only [stepFinC, stepFinD, resume_viaD, resume_okD, List.append_nil]
  | cap t => simp only [stepFinC, stepFinD, resume_tokD]
  | capp n =>
    simp only [stepFinC, stepFinD]
    split
    · next ht => exact capp_lift cx n ht _ _ (fun cx k st args => rfl) k st args
    · rfl
  | val v => simp only [stepFinC, stepFinD, resume_okD]
  | posr r => simp only [stepFinC, stepFinD, resume_emitD, resume_valD, lift]
  | br a b => simp only [stepFinC, stepFinD, resume_thenD, lift]
  | chc rs => rfl
  | must b e => rfl
  | lst item sep => simp only [stepFinC, stepFinD, resume_baseD, lift]
  | tryr r rc =>
    simp only [stepFinC, stepFinD]
    refine try_lift cx _ rc k args _ _ _ (fun st as => ?_)
    simp only [resume_okD, List.append_nil]
  | prod n =>
    simp only [stepFinC, stepFinD]
    exact prod_lift cx n _ _ (fun cx k st args => rfl) k st args
  | recu n tag b =>
    simp only [stepFinC, stepFinD]
    exact deeper_lift cx tag st k _ args _ (fun st k => rfl)
  | wsn r =>
    simp only [stepFinC, stepFinD, resume_thenD, resume_viaD, resume_okD, List.append_nil, lift]
  | pre a r => simp only [stepFinC, stepFinD, resume_valD, lift]
  | pas t r => simp only [stepFinC, stepFinD, resume_baseD, resume_okD, lift]
  | prim q => simp only [stepFinC, stepFinD, resume_viaD, resume_okD]
  | rep kd c f item sep => simp only [stepFinC, stepFinD, resume_baseD, repC_lift, lift]
  | cntPush id r sign => simp only [stepFinC, stepFinD, resume_frontD, lift]
  | idCap id q => simp only [stepFinC, stepFinD, resume_viaD', resume_identD]
  | _ => rfl

theorem wrap_lift (cx : VCx) (k : K) (st : St) (args : List Val) (r : VR) :
    stepC V ex (lift rec) cx (.recov (.wrap r)) k st args =
      resume cx.cur k args (stepD V ex rec cx (.recov (.wrap r)) st) := by
  simp only [stepC, stepD, lift]
  generalize hx : rec cx (.run r) st = x
  cases x with
  | none => rfl
  | some r =>
    obtain ⟨out, st', evs', calls', vals⟩ := r
    cases out with
    | ok =>
      simp only [resume_ok, resume_fail, resume_brk, resume_ret, thenD]
      cases ex cx.cx .ws st' with
      | none => rfl
      | some w =>
        obtain ⟨o, st2, evs2⟩ := w
        cases o with
        | ok =>
          simp only [viaC, viaD, emitC, emitD, okD, reached, List.cons_append, Option.map_some, DRes.pre,
            List.append_nil, List.nil_append]
          rw [resume_ok]
          cases k st2 (args ++ vals) with
          | none => rfl
          | some y => simp [VRes.pre]
        | fail => simp [viaC, viaD, DRes.pre, VRes.pre, resume_fail]
        | brk => rfl
    | fail => rfl
    | brk => rfl
    | ret pre => simp [resume_ok, resume_fail, resume_brk, resume_ret, thenD]

theorem step_lift (cx : VCx) (c : VCmd) (k : K) (st : St) (args : List Val) :
    stepC V ex (lift rec) cx c k st args = resume cx.cur k args (stepD V ex rec cx c st) := by
  cases c with
  | run r => exact run_lift cx k st args r
  | fin r => exact fin_lift cx k st args r
  | chcRun rs =>
    cases rs with
    | nil => rfl
    | cons r rs => simp only [stepC, stepD, lift, resume_choose, resume_viaD']
  | chcFin rs =>
    cases rs with
    | nil => rfl
    | cons r rs => simp only [stepC, stepD, lift, resume_choose, resume_viaD']
  | lstLoop item sep acc => exact loop_lift cx k st args item acc sep
  | lt s term item sep limit acc => exact lt_lift cx k st args term item sep limit acc s
  | repTail kd b m item sep acc => exact rep_lift cx k st args kd b item sep acc m
  | recov rc =>
    cases rc with
    | wrap r => exact wrap_lift cx k st args r
    | find l => simp only [stepC, stepD, resume_viaD, resume_okD, List.append_nil]
    | reco limit rs => simp only [stepC, stepD, resume_emitD, lift]
  | recoLoop b limit rs =>
    simp only [stepC, stepD, lift, resume_choose, resume_viaD', resume_emitD, resume_ite]
    rfl
  | combLoop tag rs n handled count acc =>
    simp only [stepC, stepD, lift, resume_ite, resume_okD]
    split
    · rfl
    · cases rec cx (.chcRun rs) st with
      | none => rfl
      | some r =>
        obtain ⟨out, st', evs', calls', vals⟩ := r
        cases out with
        | ok =>
          simp only [resume_ok, resume_fail, resume_brk, resume_ret, kBase, Option.map_some, VRes.pre, List.nil_append, List.append_nil]
          rw [resume_pre, resume_ite, resume_emitD]
          simp only [List.append_nil]
        | fail => rfl
        | brk => rfl
        | ret pre => rfl

end

/-- **The code hands on the documented values.**  A chain of parsers that begins with the rule `c` does what the rule
    does; then its continuation gets the values handed in, followed by the values of the rule. -/
theorem C79_continuations (V : VEnv) (n : Nat) (cx : VCx) (c : VCmd) (k : K) (st : St) (args : List Val) :
    cps V n cx c k st args = resume cx.cur k args (dv V n cx c st) := by
  induction n generalizing cx c k st args with
  | zero => rfl
  | succ n ih =>
    have h : cps V n = lift (dv V n) := by
      funext cx c k st args
      exact ih cx c k st args
    show stepC V (exec V.env n) (cps V n) cx c k st args = _
    rw [h]
    exact step_lift cx c k st args

end Verif.Val
