import Verif.ValuesProps
import Verif.CtxProps
import Verif.GrammarMono

/-
Values do not influence parsing: without its values, what a rule does is what Grammar.lean says.
-/

namespace Verif.Val

/-- A rule that leaves no context variables behind. -/
def VR.closed : VR → Bool
  | .prod _ | .capp _ | .cap _ | .leaf (.tok _) | .prim _ => true
  | _ => false

/-- A rule that does not end with `break_`: one of those, or `while_`. -/
def VR.pushable : VR → Bool
  | .leaf (.whl _) => true
  | r => r.closed

mutual
/-- There is no `return_`; `parse_as` is used for tokens and productions, and so is the number of `repeat`; `push` of a
    counter is used for those and `while_`. -/
def VR.std : VR → Bool
  | .leaf _ | .cap _ | .capp _ | .val _ | .prod _ | .recu .. | .combIt _ | .prim _ | .cntVal _ | .idCap .. => true
  | .ret => false
  | .posr r | .wsn r | .pre _ r | .ifR r | .opt r | .must r _ => r.std
  | .seq a b | .br a b | .optt a b => a.std && b.std
  | .chc rs | .comb _ rs _ => VR.stdL rs
  | .lst item none => item.std
  | .lst item (some (s, _)) => item.std && s.std
  | .lstt term item none _ => term.std && item.std
  | .lstt term item (some (s, _)) _ => term.std && item.std && s.std
  | .rep _ c _ item none => c.std && c.closed && item.std
  | .rep _ c _ item (some (s, _)) => c.std && c.closed && item.std && s.std
  | .cntPush _ r _ => r.std && r.pushable
  | .tryt none r rc => r.std && VR.stdRec rc
  | .tryt (some t) r rc => t.std && r.std && VR.stdRec rc
  | .tryr r rc => r.std && VR.stdRec rc
  | .pas _ r => r.std && r.closed
def VR.stdL : List VR → Bool
  | [] => true
  | r :: rs => r.std && VR.stdL rs
def VR.stdRec : VRecovOf VR → Bool
  | .wrap r => r.std
  | .find _ => true
  | .reco _ rs => VR.stdL rs
end

def stdSep : Option VSep → Bool
  | none => true
  | some (s, _) => s.std

def VCmd.std : VCmd → Bool
  | .run r | .fin r => r.std
  | .chcRun rs | .chcFin rs | .recoLoop _ _ rs | .combLoop _ rs _ _ _ _ => VR.stdL rs
  | .lstLoop item sep _ => item.std && stdSep sep
  | .lt _ term item sep _ _ => term.std && item.std && stdSep sep
  | .repTail _ _ _ item sep _ => item.std && stdSep sep
  | .recov rc => VR.stdRec rc

/-- The command without values. -/
def VCmd.erase : VCmd → Cmd
  | .run r => .run r.erase
  | .fin r => .bfinish r.erase
  | .chcRun rs => .chcRun (VR.eraseL rs)
  | .chcFin rs => .chcFinish (VR.eraseL rs)
  | .lstLoop item sep _ => .lstLoop item.erase (eraseSep sep)
  | .lt .term term item sep limit _ => .ltTerm term.erase item.erase (eraseSep sep) limit
  | .lt .sep term item sep limit _ => .ltSep term.erase item.erase (eraseSep sep) limit
  | .lt (.trail p) term item sep limit _ => .ltTrail p term.erase item.erase (eraseSep sep) limit
  | .lt .item term item sep limit _ => .ltItem term.erase item.erase (eraseSep sep) limit
  | .lt (.reco b) term item sep limit _ => .ltRec b term.erase item.erase (eraseSep sep) limit
  | .repTail _ _ m item sep _ => .repTail m item.erase (eraseSep sep)
  | .recov rc => .recov (VR.eraseRec rc)
  | .recoLoop b limit rs => .recoLoop b limit (VR.eraseL rs)
  | .combLoop tag rs n handled count _ => .combLoop tag (VR.eraseL rs) n handled count

/-- The outcome without values. -/
def DRes.res (r : DRes) : Res :=
  ⟨match r.out with
    | .ok | .ret _ => .ok
    | .fail => .fail
    | .brk => .brk, r.st, r.evs⟩

/-- `x` does not end the production early and is, without its values, `y`. -/
def Sim (x : Option DRes) (y : Option Res) : Prop :=
  ∀ d, x = some d → (∀ pre, d.out ≠ .ret pre) ∧ y = some d.res

section

variable {x : Option DRes} {y : Option Res}

theorem sim_none : Sim none y := fun _ h => by cases h

theorem sim_okD (st : St) (vs : List Val) : Sim (okD st vs) (ret .ok st) := by
  intro d h; cases h; exact ⟨by simp, rfl⟩

theorem sim_fail (st : St) (evs : List Ev) (calls vs) : Sim (some ⟨.fail, st, evs, calls, vs⟩) (some ⟨.fail, st, evs⟩) := by
  intro d h; cases h; exact ⟨by simp, rfl⟩

theorem sim_pre (h : Sim x y) (evs : List Ev) (calls vs) : Sim (x.map (DRes.pre evs calls vs)) (emit evs y) := by
  intro d hd
  cases x with
  | none => cases hd
  | some r =>
    cases hd
    obtain ⟨h1, h2⟩ := h r rfl
    subst h2
    exact ⟨h1, rfl⟩

theorem emit_nil (y : Option Res) : emit [] y = y := by
  cases y <;> rfl

theorem sim_emitD (h : Sim x y) (evs : List Ev) : Sim (emitD evs x) (emit evs y) := sim_pre h evs [] []
theorem sim_valD (h : Sim x y) (vs : List Val) : Sim (valD vs x) y := by
  have := sim_pre h [] [] vs
  rwa [emit_nil] at this

theorem sim_thenD {f : St → Option DRes} {g : St → Option Res} (h : Sim x y) (hf : ∀ st, Sim (f st) (g st)) :
    Sim (thenD x f) (onOk y g) := by
  intro d hd
  cases x with
  | none => cases hd
  | some r =>
    obtain ⟨h1, h2⟩ := h r rfl
    subst h2
    obtain ⟨out, st, evs, calls, vals⟩ := r
    cases out with
    | ok => exact sim_pre (hf st) evs calls vals d hd
    | fail => cases hd; exact ⟨h1, by simp [DRes.res, onOk, andThen]⟩
    | brk => cases hd; exact ⟨h1, by simp [DRes.res, onOk, andThen]⟩
    | ret pre => exact absurd rfl (h1 pre)

theorem sim_viaD {f : St → Option DRes} {g : St → Option Res} (hf : ∀ st, Sim (f st) (g st)) :
    Sim (viaD y f) (onOk y g) := by
  intro d hd
  cases y with
  | none => cases hd
  | some r =>
    obtain ⟨out, st, evs⟩ := r
    cases out with
    | ok => exact sim_emitD (hf st) evs d hd
    | fail => cases hd; exact ⟨by simp, by simp [DRes.res, onOk, andThen]⟩
    | brk => cases hd; exact ⟨by simp, by simp [DRes.res, onOk, andThen]⟩

theorem sim_viaD' {f : St → Option DRes} {g : St → Option Res} (hf : ∀ st, Sim (f st) (g st)) :
    Sim (viaD' y f) (onOk' y g) := by
  intro d hd
  cases y with
  | none => cases hd
  | some r =>
    obtain ⟨out, st, evs⟩ := r
    cases out with
    | ok => exact sim_emitD (hf st) evs d hd
    | fail => cases hd; exact ⟨by simp, by simp [DRes.res, onOk', andThen]⟩
    | brk => cases hd

theorem onOk_ret (y : Option Res) : onOk y (fun st => ret .ok st) = y := by
  cases y with
  | none => rfl
  | some r =>
    obtain ⟨out, st, evs⟩ := r
    cases out <;> simp [onOk, andThen, ret]

/-- The rule without values. -/
theorem sim_leaf (y : Option Res) : Sim (viaD y fun st => okD st []) y := by
  have := sim_viaD (y := y) (f := fun st => okD st []) (g := fun st => ret .ok st) (fun st => sim_okD st [])
  rwa [onOk_ret] at this

theorem sim_baseD {n : Nat} {f : List Val → St → Option DRes} {g : St → Option Res} (h : Sim x y)
    (hf : ∀ vs st, Sim (f vs st) (g st)) : Sim (baseD n x f) (onOk' (framed n y) g) := by
  intro d hd
  cases x with
  | none => cases hd
  | some r =>
    obtain ⟨h1, h2⟩ := h r rfl
    subst h2
    obtain ⟨out, st, evs, calls, vals⟩ := r
    cases out with
    | ok => exact sim_pre (hf vals (st.frame n)) evs calls [] d hd
    | fail => cases hd; exact ⟨by simp, by simp [DRes.res, onOk', andThen, framed]⟩
    | brk => cases hd
    | ret pre => exact absurd rfl (h1 pre)

/-- The last part of a rule. -/
theorem sim_last {n : Nat} {vs : List Val → St → List Val} (h : Sim x y) :
    Sim (baseD n x fun ws st => okD st (vs ws st)) (framed n y) := by
  intro d hd
  cases x with
  | none => cases hd
  | some r =>
    obtain ⟨h1, h2⟩ := h r rfl
    subst h2
    obtain ⟨out, st, evs, calls, vals⟩ := r
    cases out with
    | ok => cases hd; exact ⟨by simp [DRes.pre], by simp [DRes.res, DRes.pre, framed]⟩
    | fail => cases hd; exact ⟨by simp, by simp [DRes.res, framed]⟩
    | brk => cases hd
    | ret pre => cases hd

theorem sim_tryBaseD {n : Nat} {f : List Val → St → Option DRes} {f' : St → Option DRes} {g : Out → St → Option Res}
    (h : Sim x y) (hf : ∀ vs st, Sim (f vs st) (g .ok st)) (hf' : ∀ st, Sim (f' st) (g .fail st)) :
    Sim (tryBaseD n x f f') (andThen (framed n y) g) := by
  intro d hd
  cases x with
  | none => cases hd
  | some r =>
    obtain ⟨h1, h2⟩ := h r rfl
    subst h2
    obtain ⟨out, st, evs, calls, vals⟩ := r
    cases out with
    | ok => exact sim_pre (hf vals (st.frame n)) evs calls [] d hd
    | fail => exact sim_pre (hf' (st.frame n)) evs calls [] d hd
    | brk => cases hd
    | ret pre => exact absurd rfl (h1 pre)

theorem sim_evsD {b : Option Res} (h : Sim x y) : Sim (evsD b x) (andThen b fun _ _ => y) := by
  cases b with
  | none => exact sim_none
  | some r => exact sim_emitD h r.evs

/-- The outcome is not `break_`. -/
def NB (x : Option DRes) : Prop := ∀ d, x = some d → d.out ≠ .brk

theorem nb_none : NB none := fun _ h => by cases h
theorem nb_okD (st : St) (vs : List Val) : NB (okD st vs) := fun _ h => by cases h; exact DOut.noConfusion
theorem nb_fail (st : St) (evs : List Ev) (calls vs) : NB (some ⟨.fail, st, evs, calls, vs⟩) :=
  fun _ h => by cases h; exact DOut.noConfusion
theorem nb_pre (h : NB x) (evs : List Ev) (calls vs) : NB (x.map (DRes.pre evs calls vs)) := by
  intro d hd
  cases x with
  | none => cases hd
  | some r => cases hd; exact h r rfl
theorem nb_emitD (h : NB x) (evs : List Ev) : NB (emitD evs x) := nb_pre h evs [] []
theorem nb_viaD' {f : St → Option DRes} (hf : ∀ st, NB (f st)) : NB (viaD' y f) := by
  cases y with
  | none => exact nb_none
  | some r =>
    obtain ⟨out, st, evs⟩ := r
    cases out with
    | ok => exact nb_emitD (hf st) evs
    | fail => exact nb_fail _ _ _ _
    | brk => exact nb_none
theorem nb_choose {b : Option Res} {x' : Option DRes} (h : NB x) (h' : NB x') : NB (choose b x x') := by
  cases b with
  | none => exact nb_none
  | some r =>
    obtain ⟨out, st, evs⟩ := r
    cases out
    · exact h
    · exact h'
    · exact h'
theorem nb_ite {p : Prop} [Decidable p] {x' : Option DRes} (h : NB x) (h' : NB x') : NB (if p then x else x') := by
  split
  · exact h
  · exact h'
theorem nb_tryBaseD {n : Nat} {f : List Val → St → Option DRes} {g : St → Option DRes} (hf : ∀ vs st, NB (f vs st))
    (hg : ∀ st, NB (g st)) : NB (tryBaseD n x f g) := by
  cases x with
  | none => exact nb_none
  | some r =>
    obtain ⟨out, st, evs, calls, vals⟩ := r
    cases out with
    | ok => exact nb_pre (hf vals _) _ _ _
    | fail => exact nb_pre (hg _) _ _ _
    | brk => exact nb_none
    | ret pre => exact nb_none
theorem nb_evsD (h : NB x) : NB (evsD y x) := by
  cases y with
  | none => exact nb_none
  | some r => exact nb_emitD h r.evs

theorem sim_thenD' {f : St → Option DRes} {g : St → Option Res} (h : Sim x y) (hb : NB x)
    (hf : ∀ st, Sim (f st) (g st)) : Sim (thenD x f) (onOk' y g) := by
  intro d hd
  cases x with
  | none => cases hd
  | some r =>
    obtain ⟨h1, h2⟩ := h r rfl
    subst h2
    obtain ⟨out, st, evs, calls, vals⟩ := r
    cases out with
    | ok => exact sim_pre (hf st) evs calls vals d hd
    | fail => cases hd; exact ⟨h1, by simp [DRes.res, onOk', andThen]⟩
    | brk => exact absurd rfl (hb _ rfl)
    | ret pre => exact absurd rfl (h1 pre)

theorem sim_frontD {w : Val} {f : St → Option DRes} {g : St → Option Res} (h : Sim x y) (hb : NB x)
    (hf : ∀ st, Sim (f st) (g st)) : Sim (frontD w x f) (onOk' y g) := by
  intro d hd
  cases x with
  | none => cases hd
  | some r =>
    obtain ⟨h1, h2⟩ := h r rfl
    subst h2
    obtain ⟨out, st, evs, calls, vals⟩ := r
    cases out with
    | ok => exact sim_pre (hf st) evs calls vals d hd
    | fail => cases hd; exact ⟨h1, by simp [DRes.res, onOk', andThen]⟩
    | brk => exact absurd rfl (hb _ rfl)
    | ret pre => exact absurd rfl (h1 pre)

theorem sim_pushD (id p : Nat) (sign : Int) (st : St) : Sim (pushD id sign p st) ((getCounter id st.vars).bind fun i =>
    ret .ok { st with vars := setVar (.counter id) (.counter (i + (st.pos - p : Nat) * sign)) st.vars }) := by
  unfold pushD
  cases getCounter id st.vars with
  | none => exact sim_none
  | some i => exact sim_okD _ _

theorem sim_identD (id : Nat) (s : List Nat) (vs : List Val) (st : St) : Sim (identD id s vs st)
    ((getIdent id st.vars).bind fun _ => ret .ok { st with vars := setVar (.ident id) (.ident s) st.vars }) := by
  unfold identD
  cases getIdent id st.vars with
  | none => exact sim_none
  | some i => exact sim_okD _ _

theorem sim_prim (y : Option Res) (vs : List Val) : Sim (viaD y fun st => okD st vs) y := by
  have := sim_viaD (y := y) (f := fun st => okD st vs) (g := fun st => ret .ok st) (fun st => sim_okD st vs)
  rwa [onOk_ret] at this

theorem sim_choose {b : Option Res} {x' : Option DRes} {y' : Option Res} (h : Sim x y) (h' : Sim x' y') :
    Sim (choose b x x') (choose b y y') := by
  cases b with
  | none => exact sim_none
  | some r =>
    obtain ⟨out, st, evs⟩ := r
    cases out
    · exact h
    · exact h'
    · exact h'

theorem sim_ite {p : Prop} [Decidable p] {x' : Option DRes} {y' : Option Res} (h : Sim x y) (h' : Sim x' y') :
    Sim (if p then x else x') (if p then y else y') := by
  split
  · exact h
  · exact h'

end

theorem ifTry_choose (rec : Cx → Cmd → St → Option Res) (cx : Cx) (c : Cmd) (st : St) (yes no : Option Res) :
    ifTry rec cx c st yes no = choose (rec cx c st) yes no := rfl

theorem eraseL_map (rs : List VR) : VR.eraseL rs = rs.map VR.erase := by
  induction rs with
  | nil => simp [VR.eraseL]
  | cons r rs ih => simp [VR.eraseL, ih]

theorem erase_combRules (rs : List VR) (els : CombElse) :
    VR.eraseL (combVRules rs els) = combRules (VR.eraseL rs) els := by
  have h : ∀ (rs : List VR) i, (rs.zipIdx i).map (fun p => VR.erase (.br p.1 (.combIt p.2))) =
      ((rs.map VR.erase).zipIdx i).map (fun p => Rule.br p.1 (.combIt p.2)) := by
    intro rs
    induction rs with
    | nil => intro i; rfl
    | cons r rs ih =>
      intro i
      simp only [List.zipIdx_cons, List.map_cons, ih]
      simp only [VR.erase]
  unfold combVRules combRules
  rw [eraseL_map, eraseL_map, List.map_append, List.map_map]
  congr 1
  · exact h rs 0
  · cases els <;> simp [VR.erase]

theorem stdL_iff (rs : List VR) : VR.stdL rs = true ↔ ∀ r ∈ rs, r.std = true := by
  induction rs with
  | nil => simp [VR.stdL]
  | cons r rs ih => simp [VR.stdL, ih]

theorem std_combRules (rs : List VR) (els : CombElse) (h : VR.stdL rs = true) : VR.stdL (combVRules rs els) = true := by
  rw [stdL_iff] at h ⊢
  intro r hr
  unfold combVRules at hr
  rw [List.mem_append, List.mem_map] at hr
  rcases hr with ⟨p, hp, rfl⟩ | hr
  · have : p.1 ∈ rs := by
      have := List.mem_zipIdx hp
      simp at this
      rw [this.2]; simp
    simp [VR.std, h _ this]
  · cases els with
    | none => cases hr
    | brk => simp at hr; subst hr; simp [VR.std]
    | err t => simp at hr; subst hr; simp [VR.std]

section

variable {V : VEnv} {n : Nat}

/-- What is to be shown. -/
abbrev IH (V : VEnv) (n : Nat) : Prop :=
  ∀ cx c st, c.std = true → Sim (dv V n cx c st) (exec V.env n cx.cx c.erase st)

theorem sim_prodD (cx : VCx) (m : Nat) (cap : Bool) (bodyD : VCx → St → Option DRes) (body : Cx → St → Option Res)
    (hb : ∀ cx st, Sim (bodyD cx st) (body cx.cx st)) (st : St) :
    Sim (prodD V (exec V.env n) cx m cap bodyD st) (production V.env (exec V.env n) cx.cx m body st) := by
  unfold prodD production
  have h := hb (cx.sub V m) { st with ex := {} }
  intro d hd
  cases hx : bodyD (cx.sub V m) { st with ex := {} } with
  | none => rw [hx] at hd; cases hd
  | some r =>
    rw [hx] at hd
    obtain ⟨h1, h2⟩ := h r hx
    have e : body (cx.cx.sub (V.env.prods m)) { st with ex := {} } = some r.res := h2
    simp only [e]
    obtain ⟨out, st', evs, calls, vals⟩ := r
    cases out with
    | ok =>
      simp only [DRes.args, Option.bind_some] at hd
      have hk := sim_pre (x := if (V.prods m).isTok = true then
            viaD (exec V.env n cx.cx .ws { st'.frame st.vars.length with ex := st.ex }) fun st' => okD st' []
          else okD { st'.frame st.vars.length with ex := st.ex } [])
        (y := if (V.prods m).isTok = true then exec V.env n cx.cx .ws { st'.frame st.vars.length with ex := st.ex }
          else ret .ok { st'.frame st.vars.length with ex := st.ex })
        (sim_ite (sim_leaf _) (sim_okD _ _))
        ([.prodStart m st.pos] ++ evs ++ [.prodFinish m (st'.frame st.vars.length).pos]) (calls ++ [(m, vals)])
        ((if cap then [.lexeme st.pos (st'.frame st.vars.length).pos] else []) ++
          if (V.prods m).void then [] else [.call m vals]) d hd
      refine ⟨hk.1, ?_⟩
      rw [← hk.2]
      simp only [framed, Option.map_some, DRes.res, andThen, emit, Option.map_map]
      cases htok : (V.prods m).isTok with
      | true =>
        have : (V.env.prods m).isTok = true := htok
        simp only [this, if_true]
        generalize exec V.env n cx.cx .ws { st'.frame st.vars.length with ex := st.ex } = w
        cases w <;> simp
      | false =>
        have : (V.env.prods m).isTok = false := htok
        simp [this, ret]
    | fail =>
      cases hd
      exact ⟨by simp, by simp [framed, DRes.res, andThen, emit]⟩
    | brk => cases hd
    | ret pre => exact absurd rfl (h1 pre)

theorem sim_tokD (cx : VCx) (k : Kind) (e : Nat) (st : St) (vs : List Val) :
    Sim (tokD (exec V.env n) cx k e st vs) (tokenDone (exec V.env n) cx.cx k e st) := by
  unfold tokD tokenDone
  refine sim_emitD ?_ _
  have := sim_viaD (y := exec V.env n cx.cx .ws { st with pos := e }) (f := fun st => okD st vs)
    (g := fun st => ret .ok st) (fun st => sim_okD st vs)
  rwa [onOk_ret] at this

theorem sim_deeper (cx : VCx) (tag : Nat) (st : St) (bd : St → Option DRes) (b : St → Option Res)
    (hb : ∀ st d, bd st = some d → b st = some d.res ∧ (∀ pre, d.out ≠ .ret pre) ∧ d.out ≠ .brk) :
    Sim (deeperD cx tag st bd) (deeper cx.cx tag st b) := by
  unfold deeperD deeper
  split
  · exact sim_none
  · split
    · exact sim_fail _ _ _ _
    · intro d hd
      cases hx : bd { st with depth := st.depth + 1 } with
      | none => rw [hx] at hd; cases hd
      | some r =>
        rw [hx] at hd
        obtain ⟨h1, h2, h3⟩ := hb _ _ hx
        rw [h1]
        obtain ⟨out, st', evs, calls, vals⟩ := r
        cases out with
        | ok => cases hd; exact ⟨by simp [DRes.pre], by simp [DRes.res, DRes.pre, onOk', andThen, ret]⟩
        | fail => cases hd; exact ⟨by simp, by simp [DRes.res, onOk', andThen]⟩
        | brk => exact absurd rfl h3
        | ret pre => exact absurd rfl (h2 pre)

/-- A production does not end with `break_`. -/
theorem prodD_out {cx : VCx} {m : Nat} {cap : Bool} {bodyD : VCx → St → Option DRes} {st : St} {d : DRes}
    (h : prodD V (exec V.env n) cx m cap bodyD st = some d) : d.out ≠ .brk := by
  unfold prodD at h
  cases hx : bodyD (cx.sub V m) { st with ex := {} } with
  | none => rw [hx] at h; cases h
  | some r =>
    rw [hx] at h
    have key : ∀ (st' : St) (evs : List Ev) (calls vals), ((if (V.prods m).isTok = true then
        viaD (exec V.env n cx.cx .ws st') fun st' => okD st' [] else okD st' []).map (DRes.pre evs calls vals)) =
        some d → d.out ≠ .brk := by
      intro st' evs calls vals hd
      split at hd
      · cases hw : exec V.env n cx.cx .ws st' with
        | none => rw [hw] at hd; cases hd
        | some w =>
          rw [hw] at hd
          have hb := (ws_st V.env n cx.cx .ws st' (.inl rfl) hw).2
          obtain ⟨o, s2, e2⟩ := w
          cases o with
          | ok => cases hd; exact DOut.noConfusion
          | fail => cases hd; exact DOut.noConfusion
          | brk => exact absurd rfl hb
      · cases hd; exact DOut.noConfusion
    obtain ⟨out, st', evs, calls, vals⟩ := r
    cases out with
    | ok => exact key _ _ _ _ h
    | fail => cases h; exact DOut.noConfusion
    | brk => cases h
    | ret pre => exact key _ _ _ _ h

theorem dv_prod_out {cx : VCx} {m : Nat} {st : St} {d : DRes} (c : VCmd) (hc : c = .run (.prod m) ∨ c = .fin (.prod m))
    (h : dv V n cx c st = some d) : d.out ≠ .brk := by
  cases n with
  | zero => cases h
  | succ n =>
    rcases hc with rfl | rfl
    · have h' : stepRunD V (exec V.env n) (dv V n) cx st (.prod m) = some d := h
      simp only [stepRunD] at h'
      exact prodD_out h'
    · have h' : stepFinD V (exec V.env n) (dv V n) cx st (.prod m) = some d := h
      simp only [stepFinD] at h'
      exact prodD_out h'

/-- A combination does not end with `break_`. -/
theorem combLoop_out {cx : VCx} {tag : Nat} {rs : List VR} {k : Nat} (handled : List Nat) (count : Nat)
    (acc : List (List Val)) {st : St} {d : DRes} (h : dv V n cx (.combLoop tag rs k handled count acc) st = some d) :
    d.out ≠ .brk := by
  induction n generalizing handled count acc st d with
  | zero => cases h
  | succ n ih =>
    have h' : stepD V (exec V.env n) (dv V n) cx (.combLoop tag rs k handled count acc) st = some d := h
    simp only [stepD] at h'
    split at h'
    · cases h'; exact DOut.noConfusion
    · split at h'
      · cases h'
      · rename_i r hr
        split at h'
        · cases h'; exact DOut.noConfusion
        · cases h'; exact DOut.noConfusion
        · split at h'
          · cases hx : dv V n cx (.combLoop tag rs k handled count acc) (r.st.frame st.vars.length) with
            | none => rw [hx] at h'; cases h'
            | some x => rw [hx] at h'; cases h'; exact ih (d := x) _ _ _ hx
          · cases hx : dv V n cx (.combLoop tag rs k ((r.st.frame st.vars.length).idx :: handled) (count + 1)
                (sinkCall acc r.vals)) (r.st.frame st.vars.length) with
            | none => rw [hx] at h'; cases h'
            | some x => rw [hx] at h'; cases h'; exact ih (d := x) _ _ _ hx
        · cases h'

/-- A list with a terminator does not end with `break_`. -/
theorem lt_nb (cx : VCx) (s : LtSt) (term item : VR) (sep : Option VSep) (limit : List Nat → Bool)
    (acc : List (List Val)) (st : St) : NB (dv V n cx (.lt s term item sep limit acc) st) := by
  induction n generalizing s acc st with
  | zero => exact nb_none
  | succ n ih =>
    have hg : ∀ b st, NB (ltGiveUpD V (exec V.env n) (dv V n) cx b term item sep limit acc st) := by
      intro b st
      unfold ltGiveUpD
      exact nb_choose (nb_emitD (nb_okD _ _) _) (nb_viaD' fun st => nb_ite (nb_fail _ _ _ _) (ih _ _ _))
    show NB (stepLtD V (exec V.env n) (dv V n) cx st term item sep limit acc s)
    cases s with
    | term => exact nb_choose (nb_okD _ _) (nb_viaD' fun st => ih _ _ _)
    | sep =>
      cases sep with
      | none => exact ih _ _ _
      | some s =>
        simp only [stepLtD]
        exact nb_tryBaseD (fun vs st => ih _ _ _) fun st => nb_ite
          (nb_choose (nb_tryBaseD (fun vs st => ih _ _ _) fun st => nb_evsD (nb_emitD (ih _ _ _) _))
            (nb_viaD' fun st => nb_emitD (ih _ _ _) _)) (nb_emitD (ih _ _ _) _)
    | trail p => exact nb_choose (nb_emitD (nb_okD _ _) _) (ih _ _ _)
    | item =>
      simp only [stepLtD]
      exact nb_tryBaseD (fun vs st => ih _ _ _) fun st => nb_emitD (ih _ _ _) _
    | reco b =>
      cases sep with
      | none =>
        exact nb_ite (nb_choose (nb_emitD (nb_tryBaseD (fun vs st => ih _ _ _) fun st => nb_emitD (ih _ _ _) _) _)
          (nb_viaD' fun st => hg b st)) (hg b st)
      | some s =>
        exact nb_choose (nb_emitD (nb_tryBaseD (fun vs st => ih _ _ _) fun st => nb_emitD (ih _ _ _) _) _)
          (nb_viaD' fun st => hg b st)

/-- Whitespace does not end with `break_`. -/
theorem ws_nb {cx : Cx} {st : St} (vs : List Val) : NB (viaD (exec V.env n cx .ws st) fun st' => okD st' vs) := by
  cases hw : exec V.env n cx .ws st with
  | none => exact nb_none
  | some w =>
    have hb := (ws_st V.env n cx .ws st (.inl rfl) hw).2
    obtain ⟨o, s2, e2⟩ := w
    cases o with
    | ok => exact nb_emitD (nb_okD _ _) _
    | fail => exact nb_fail _ _ _ _
    | brk => exact absurd rfl hb

theorem prim_nb {cx : Cx} {ws : Bool} {r : Bool × Nat × List Ev} {st : St} (vs : List Val) :
    NB (viaD (primDone (exec V.env n) cx ws r st) fun st' => okD st' vs) := by
  have he : ∀ evs (y : Option Res), NB (viaD y fun st' => okD st' vs) → NB (viaD (emit evs y) fun st' => okD st' vs) := by
    intro evs y h
    cases y with
    | none => exact nb_none
    | some y =>
      obtain ⟨o, s2, e2⟩ := y
      cases o with
      | ok => exact nb_emitD (nb_okD _ _) _
      | fail => exact nb_fail _ _ _ _
      | brk => exact absurd rfl (h _ rfl)
  unfold primDone
  refine he _ _ ?_
  split
  · split
    · exact ws_nb vs
    · exact nb_emitD (nb_okD _ _) _
  · exact nb_fail _ _ _ _

/-- `while_` does not end with `break_`. -/
theorem whl_nb {cx : Cx} {b : Rule} {st : St} {x : Res} (h : exec V.env n cx (.whlR b) st = some x) :
    x.out ≠ .brk := by
  induction n generalizing st x with
  | zero => cases h
  | succ n ih =>
    have h' : step V.env (exec V.env n) cx (.whlR b) st = some x := h
    simp only [step, ifTry_choose] at h'
    unfold choose at h'
    split at h'
    · cases h'
    · exact onOk'_not_brk h' fun st' y hy => ih hy
    · exact onOk'_not_brk h' fun st' y hy => by cases hy; exact Out.noConfusion

theorem pushable_nb (cx : VCx) (r : VR) (hr : r.pushable = true) (c : VCmd) (hc : c = .run r ∨ c = .fin r) (st : St) :
    NB (dv V n cx c st) := by
  cases n with
  | zero => exact nb_none
  | succ n =>
    have hleaf : ∀ (y : Option Res), (∀ x, y = some x → x.out ≠ .brk) → NB (viaD y fun st' => okD st' []) := by
      intro y h
      cases y with
      | none => exact nb_none
      | some x =>
        obtain ⟨o, s2, e2⟩ := x
        cases o with
        | ok => exact nb_emitD (nb_okD _ _) _
        | fail => exact nb_fail _ _ _ _
        | brk => exact absurd rfl (h _ rfl)
    have htok : ∀ (m : Nat) (k : Kind) (e : Nat) (x : Res), tokenDone (exec V.env m) cx.cx k e st = some x → x.out ≠ .brk := by
      intro m k e x hx
      unfold tokenDone at hx
      cases hw : exec V.env m cx.cx .ws { st with pos := e } with
      | none => rw [hw] at hx; cases hx
      | some w =>
        rw [hw] at hx
        cases hx
        exact (ws_st V.env m cx.cx .ws _ (.inl rfl) hw).2
    have htokD : ∀ k e vs, NB (tokD (exec V.env n) cx k e st vs) := fun k e vs => nb_emitD (ws_nb vs) _
    have hprod : ∀ m cap bodyD, NB (prodD V (exec V.env n) cx m cap bodyD st) := fun m cap bodyD d hd => prodD_out hd
    rcases hc with rfl | rfl
    · show NB (stepRunD V (exec V.env n) (dv V n) cx st r)
      cases r with
      | leaf r =>
        refine hleaf _ fun x hx => ?_
        cases r with
        | tok t =>
          have h' : stepRun V.env (exec V.env n) cx.cx st (.tok t) = some x := hx
          simp only [stepRun, tokenParse] at h'
          split at h'
          · exact htok _ _ _ _ h'
          · cases h'; exact Out.noConfusion
        | whl b => exact whl_nb (n := n) hx
        | _ => cases hr
      | cap t => simp only [stepRunD]; exact nb_ite (htokD _ _ _) (nb_fail _ _ _ _)
      | capp m => simp only [stepRunD]; exact nb_ite (hprod _ _ _) nb_none
      | prod m => simp only [stepRunD]; exact hprod _ _ _
      | prim q => exact prim_nb _
      | _ => cases hr
    · show NB (stepFinD V (exec V.env n) (dv V n) cx st r)
      cases r with
      | leaf r =>
        refine hleaf _ fun x hx => ?_
        cases r with
        | tok t => exact htok n t.kind _ _ hx
        | whl b => cases hx
        | _ => cases hr
      | cap t => exact htokD _ _ _
      | capp m => simp only [stepFinD]; exact nb_ite (hprod _ _ _) nb_none
      | prod m => simp only [stepFinD]; exact hprod _ _ _
      | prim q => exact prim_nb _
      | _ => cases hr

theorem sim_tryD (H : IH V n) (cx : VCx) (m : Nat) (rc : VRecov) (hrc : VR.stdRec rc = true) {x : Option DRes}
    {y : Option Res} (h : Sim x y) {f : St → Option DRes} {g : St → Option Res} (hf : ∀ st, Sim (f st) (g st)) :
    Sim (tryD (dv V n) cx m rc x f) (andThen y fun o st' =>
      match o with
      | .ok => g st'
      | .fail => exec V.env n cx.cx (.recov (VR.eraseRec rc)) (st'.frame m)
      | .brk => none) := by
  intro d hd
  cases x with
  | none => cases hd
  | some r =>
    obtain ⟨h1, h2⟩ := h r rfl
    subst h2
    obtain ⟨out, st, evs, calls, vals⟩ := r
    cases out with
    | ok => exact sim_pre (hf st) evs calls vals d hd
    | fail => exact sim_pre (H cx (.recov rc) (st.frame m) hrc) evs calls [] d hd
    | brk => cases hd
    | ret pre => exact absurd rfl (h1 pre)

theorem sim_mono {x : Option DRes} {cx : Cx} {c : Cmd} {st : St} (h : Sim x (exec V.env n cx c st)) :
    Sim x (exec V.env (n + 1) cx c st) := by
  intro d hd
  obtain ⟨h1, h2⟩ := h d hd
  exact ⟨h1, exec_mono (Nat.le_succ n) h2⟩

theorem frame_same (st st' : St) (h : st'.vars.length = st.vars.length) : st'.frame st.vars.length = st' := by
  unfold St.frame
  rw [h, Nat.sub_self]
  rfl

/-- A closed rule leaves the context variables there were. -/
theorem closed_vars (r : VR) (hr : r.closed = true) (c : Cmd) (hc : c = .run r.erase ∨ c = .bfinish r.erase) (cx : Cx)
    (st : St) (x : Res) (h : exec V.env n cx c st = some x) : x.st.vars.length = st.vars.length := by
  have hprod : ∀ m, c = .run (.prod m) ∨ c = .bfinish (.prod m) → x.st.vars.length = st.vars.length := by
    intro m hm
    obtain ⟨_, _, h2, _⟩ := C46_production V.env n cx m c hm st x h
    simpa using congrArg List.length h2
  have htok : ∀ t : PTok, c = .run (.tok t) ∨ c = .bfinish (.tok t) → x.st.vars.length = st.vars.length := by
    intro t ht
    cases n with
    | zero => cases h
    | succ n =>
      have hdone : ∀ e, tokenDone (exec V.env n) cx t.kind e st = some x → x.st.vars.length = st.vars.length := by
        intro e hd
        unfold tokenDone at hd
        cases hw : exec V.env n cx .ws { st with pos := e } with
        | none => rw [hw] at hd; cases hd
        | some w =>
          rw [hw] at hd
          cases hd
          have := (ws_st V.env n cx .ws _ (.inl rfl) hw).1
          simp only
          rw [this]
      rcases ht with rfl | rfl
      · have h' : stepRun V.env (exec V.env n) cx st (.tok t) = some x := h
        simp only [stepRun, tokenParse] at h'
        split at h'
        · exact hdone _ h'
        · cases h'; rfl
      · exact hdone _ h
  have hprim : ∀ q : PRule, c = .run (.prim q) ∨ c = .bfinish (.prim q) → x.st.vars.length = st.vars.length := by
    intro q hq
    cases n with
    | zero => cases h
    | succ n =>
      have hdone : ∀ r, primDone (exec V.env n) cx q.ws r st = some x → x.st.vars.length = st.vars.length := by
        intro r hd
        unfold primDone at hd
        split at hd
        · split at hd
          · cases hw : exec V.env n cx .ws { st with pos := r.2.1 } with
            | none => rw [hw] at hd; cases hd
            | some w =>
              rw [hw] at hd
              cases hd
              have := (ws_st V.env n cx .ws _ (.inl rfl) hw).1
              simp only
              rw [this]
          · cases hd; rfl
        · cases hd; rfl
      rcases hq with rfl | rfl
      · exact hdone _ h
      · exact hdone _ h
  cases r with
  | leaf r =>
    cases r with
    | tok t => exact htok t (by simpa [VR.erase] using hc)
    | _ => cases hr
  | prim q => exact hprim q.rule (by simpa [VR.erase] using hc)
  | cap t => exact htok t (by simpa [VR.erase] using hc)
  | prod m => exact hprod m (by simpa [VR.erase] using hc)
  | capp m => exact hprod m (by simpa [VR.erase] using hc)
  | _ => cases hr

theorem sim_pas (r : VR) (hr : r.closed = true) (c : Cmd) (hc : c = .run r.erase ∨ c = .bfinish r.erase) (cx : Cx)
    (st : St) (t : Nat) {x : Option DRes} (h : Sim x (exec V.env n cx c st)) :
    Sim (baseD st.vars.length x fun vs st' => okD st' [.made t vs]) (exec V.env n cx c st) := by
  intro d hd
  cases x with
  | none => cases hd
  | some r' =>
    obtain ⟨h1, h2⟩ := h r' rfl
    have hv := closed_vars r hr c hc cx st _ h2
    obtain ⟨out, st', evs, calls, vals⟩ := r'
    have hf := frame_same st st' hv
    cases out with
    | ok =>
      simp only [baseD, okD, Option.map_some, DRes.pre, Option.some.injEq] at hd
      subst hd
      refine ⟨by simp, ?_⟩
      rw [h2]
      simp [DRes.res, hf]
    | fail =>
      cases hd
      refine ⟨by simp, ?_⟩
      rw [h2]
      simp [DRes.res, hf]
    | brk => cases hd
    | ret pre => cases hd

theorem sim_loop (H : IH V n) (cx : VCx) (st : St) (item : VR) (acc : List (List Val)) (sep : Option VSep)
    (hi : item.std = true) (hs : stdSep sep = true) :
    Sim (stepLoopD V (exec V.env n) (dv V n) cx st item acc sep)
      (step V.env (exec V.env n) cx.cx (.lstLoop item.erase (eraseSep sep)) st) := by
  have hl : ∀ acc st, Sim (dv V n cx (.lstLoop item sep acc) st)
      (exec V.env n cx.cx (.lstLoop item.erase (eraseSep sep)) st) :=
    fun acc st => H cx (.lstLoop item sep acc) st (by simp [VCmd.std, hi, hs])
  cases sep with
  | none =>
    simp only [stepLoopD, eraseSep, step, ifTry_choose]
    refine sim_ite (sim_choose (sim_baseD (H cx (.fin item) st hi) fun vs st => hl _ st)
      (sim_viaD' fun st => sim_okD _ _)) sim_none
  | some s =>
    obtain ⟨s, k⟩ := s
    simp only [stepLoopD, eraseSep, step, ifTry_choose]
    refine sim_choose (sim_baseD (H cx (.fin s) st hs) fun vs st1 => ?_) (sim_viaD' fun st => sim_okD _ _)
    refine sim_ite (sim_choose (sim_baseD (H cx (.fin item) st1 hi) fun vs st => hl _ st) (sim_viaD' fun st2 => ?_))
      (sim_baseD (H cx (.run item) st1 hi) fun vs st => hl _ st)
    intro d hd
    cases hd
    exact ⟨by simp [DRes.pre], by simp [DRes.res, DRes.pre]⟩

theorem sim_rep1 (H : IH V n) (c : VR) (hc : c.closed = true) (a : Cmd) (ha : a = .run c.erase ∨ a = .bfinish c.erase)
    (cx : VCx) (st : St) (kd : RepKind) (f : List Nat → Nat) (item : VR) (sep : Option VSep) (hi : item.std = true)
    (hs : stdSep sep = true) {x : Option DRes} (h : Sim x (exec V.env n cx.cx a st)) :
    Sim (baseD st.vars.length x fun _ st1 => repD V (dv V n) cx kd f item sep st.pos st1)
      (onOk' (exec V.env n cx.cx a st) fun st' =>
        match f ((V.env.inp.take st'.pos).drop st.pos) with
        | 0 => ret .ok st'
        | m + 1 => onOk' (framed st'.vars.length (exec V.env n cx.cx (.run item.erase) st')) fun st'' =>
          exec V.env n cx.cx (.repTail m item.erase (eraseSep sep)) st'') := by
  have hf : framed st.vars.length (exec V.env n cx.cx a st) = exec V.env n cx.cx a st := by
    cases hx : exec V.env n cx.cx a st with
    | none => rfl
    | some x =>
      have hv := closed_vars c hc a ha cx.cx st x hx
      show some { x with st := x.st.frame st.vars.length } = some x
      rw [frame_same st x.st hv]
  have := sim_baseD (n := st.vars.length) (f := fun _ st1 => repD V (dv V n) cx kd f item sep st.pos st1)
    (g := fun st' =>
        match f ((V.env.inp.take st'.pos).drop st.pos) with
        | 0 => ret .ok st'
        | m + 1 => onOk' (framed st'.vars.length (exec V.env n cx.cx (.run item.erase) st')) fun st'' =>
          exec V.env n cx.cx (.repTail m item.erase (eraseSep sep)) st'') h fun vs st1 => ?_
  · rwa [hf] at this
  · show Sim (repD V (dv V n) cx kd f item sep st.pos st1) (match f ((V.inp.take st1.pos).drop st.pos) with
        | 0 => ret .ok st1
        | m + 1 => onOk' (framed st1.vars.length (exec V.env n cx.cx (.run item.erase) st1)) fun st'' =>
          exec V.env n cx.cx (.repTail m item.erase (eraseSep sep)) st'')
    cases hm : f ((V.inp.take st1.pos).drop st.pos) with
    | zero => simp only [repD, hm]; exact sim_okD _ _
    | succ m =>
      simp only [repD, hm]
      exact sim_baseD (H cx (.run item) st1 hi) fun vs st => H cx (.repTail kd st1.pos m item sep _) st (by simp [VCmd.std, hi, hs])

theorem std_trailing (sep : Option VSep) (h : stdSep sep = true) : (vTrailing sep).std = true := by
  cases sep with
  | none => simp [vTrailing, VR.std]
  | some s =>
    obtain ⟨s, k⟩ := s
    simp only [stdSep] at h
    cases k <;> simp only [vTrailing, VR.std]
    split
    · exact h
    · simpa [VR.std] using h

theorem erase_trailing (sep : Option VSep) : (vTrailing sep).erase = trailingRule (eraseSep sep) := by
  cases sep with
  | none => simp [vTrailing, VR.erase, eraseSep, trailingRule]
  | some s =>
    obtain ⟨s, k⟩ := s
    cases k <;> simp only [vTrailing, VR.erase, eraseSep, trailingRule]
    split <;> simp only [VR.erase]

theorem sim_rep (H : IH V n) (cx : VCx) (st : St) (kd : RepKind) (b m : Nat) (item : VR) (sep : Option VSep)
    (acc : List (List Val)) (hi : item.std = true) (hs : stdSep sep = true) :
    Sim (stepRepD V (dv V n) cx st kd b item sep acc m)
      (step V.env (exec V.env n) cx.cx (.repTail m item.erase (eraseSep sep)) st) := by
  have hl : ∀ m acc st, Sim (dv V n cx (.repTail kd b m item sep acc) st)
      (exec V.env n cx.cx (.repTail m item.erase (eraseSep sep)) st) :=
    fun m acc st => H cx (.repTail kd b m item sep acc) st (by simp [VCmd.std, hi, hs])
  cases m with
  | zero =>
    simp only [stepRepD, step]
    have h := H cx (.run (vTrailing sep)) st (std_trailing sep hs)
    rw [VCmd.erase, erase_trailing] at h
    exact sim_last h
  | succ m =>
    cases sep with
    | none =>
      simp only [stepRepD, step, eraseSep]
      have h := sim_baseD (n := st.vars.length) (H cx (.run item) st hi) fun vs st => hl m (repAcc kd acc vs) st
      have e : ∀ f : St → Option Res, onOk' (ret .ok st) f = f st := by
        intro f
        simp only [onOk', andThen, ret, List.nil_append]
        cases f st <;> rfl
      rw [e]
      exact h
    | some s =>
      obtain ⟨s, k⟩ := s
      simp only [stepRepD, step, eraseSep]
      exact sim_baseD (H cx (.run s) st hs) fun vs st1 =>
        sim_baseD (H cx (.run item) st1 hi) fun vs st => hl m _ st

theorem sim_lt (H : IH V n) (cx : VCx) (st : St) (s : LtSt) (term item : VR) (sep : Option VSep)
    (limit : List Nat → Bool) (acc : List (List Val)) (ht : term.std = true) (hi : item.std = true)
    (hs : stdSep sep = true) :
    Sim (stepLtD V (exec V.env n) (dv V n) cx st term item sep limit acc s)
      (step V.env (exec V.env n) cx.cx (VCmd.erase (.lt s term item sep limit acc)) st) := by
  have hl : ∀ s acc st, Sim (dv V n cx (.lt s term item sep limit acc) st)
      (exec V.env n cx.cx (VCmd.erase (.lt s term item sep limit acc)) st) :=
    fun s acc st => H cx (.lt s term item sep limit acc) st (by simp [VCmd.std, ht, hi, hs])
  have hok : ∀ (st : St) evs vs, Sim (emitD evs (okD st vs)) (some ⟨.ok, st, evs⟩) := by
    intro st evs vs d hd
    cases hd
    exact ⟨by simp [DRes.pre], by simp [DRes.res, DRes.pre]⟩
  have hg : ∀ b st, Sim (ltGiveUpD V (exec V.env n) (dv V n) cx b term item sep limit acc st)
      (choose (exec V.env n cx.cx (.btry term.erase) st) (some ⟨.ok, st, skipped b st true⟩)
        (onOk' (exec V.env n cx.cx (.bcancel term.erase) st) fun st2 =>
          if limit (V.env.inp.drop st2.pos) || peekEof V.env.eof (V.env.inp.drop st2.pos) then
            some ⟨.fail, st2, skipped b st2 false⟩
          else exec V.env n cx.cx (.ltRec b term.erase item.erase (eraseSep sep) limit) { st2 with pos := st2.pos + 1 })) :=
    fun b st => by
      unfold ltGiveUpD
      exact sim_choose (hok _ _ _) (sim_viaD' fun st => sim_ite (sim_fail _ _ _ _) (hl (.reco b) _ _))
  cases s with
  | term => exact sim_choose (sim_okD _ _) (sim_viaD' fun st => hl .sep _ _)
  | sep =>
    cases sep with
    | none => exact hl .item _ _
    | some s =>
      obtain ⟨s, k⟩ := s
      simp only [stepLtD, VCmd.erase, step, eraseSep, ifTry_choose]
      refine sim_tryBaseD (H cx (.run s) st hs) (fun vs st1 => hl (.trail _) _ _) fun st1 => ?_
      refine sim_ite (sim_choose (sim_tryBaseD (H cx (.fin item) st1 hi) (fun vs st2 => hl .term _ _) fun st2 => ?_)
        (sim_viaD' fun st2 => sim_emitD (hl (.reco _) _ _) _)) (sim_emitD (hl (.reco _) _ _) _)
      exact sim_evsD (sim_emitD (hl (.reco _) _ _) _)
  | trail p =>
    refine sim_choose ?_ (hl .item _ _)
    cases sep <;> exact hok _ _ _
  | item =>
    simp only [stepLtD, VCmd.erase, step]
    exact sim_tryBaseD (H cx (.run item) st hi) (fun vs st1 => hl .term _ _) fun st1 => sim_emitD (hl (.reco _) _ _) _
  | reco b =>
    cases sep with
    | none =>
      simp only [stepLtD, VCmd.erase, step, eraseSep, ifTry_choose]
      refine sim_ite (sim_choose (sim_emitD (sim_tryBaseD (H cx (.fin item) st hi) (fun vs st1 => hl .term _ _)
        fun st1 => sim_emitD (hl (.reco _) _ _) _) _) (sim_viaD' fun st => hg b st)) (hg b st)
    | some s =>
      obtain ⟨s, k⟩ := s
      simp only [stepLtD, VCmd.erase, step, eraseSep, ifTry_choose]
      exact sim_choose (sim_emitD (sim_tryBaseD (H cx (.fin s) st hs) (fun vs st1 => hl (.trail _) _ _)
        fun st1 => sim_emitD (hl (.reco _) _ _) _) _) (sim_viaD' fun st => hg b st)

theorem sim_run (H : IH V n) (hV : ∀ m, (V.prods m).rule.std = true) (cx : VCx) (st : St) (r : VR)
    (hr : r.std = true) : Sim (dv V (n + 1) cx (.run r) st) (exec V.env (n + 1) cx.cx (.run r.erase) st) := by
  have hp : ∀ (m : Nat) (cx' : VCx) (st' : St), Sim (if (V.prods m).ws.isSome then
        viaD' (exec V.env n cx'.cx .ws st') fun st'' => dv V n cx' (.run (V.prods m).rule) st''
      else dv V n cx' (.run (V.prods m).rule) st')
      (if (V.env.prods m).ws.isSome then
        onOk' (exec V.env n cx'.cx .ws st') fun st'' => exec V.env n cx'.cx (.run (V.env.prods m).rule) st''
      else exec V.env n cx'.cx (.run (V.env.prods m).rule) st') := by
    intro m cx' st'
    exact sim_ite (sim_viaD' fun st => H cx' (.run _) st (hV m)) (H cx' (.run _) st' (hV m))
  cases r with
  | leaf r => exact sim_leaf _
  | cap t =>
    show Sim (stepRunD V (exec V.env n) (dv V n) cx st (.cap t)) (stepRun V.env (exec V.env n) cx.cx st (VR.erase (.cap t)))
    simp only [stepRunD, VR.erase, stepRun, tokenParse]
    exact sim_ite (sim_tokD _ _ _ _ _) (sim_fail _ _ _ _)
  | capp m =>
    show Sim (stepRunD V (exec V.env n) (dv V n) cx st (.capp m)) (stepRun V.env (exec V.env n) cx.cx st (VR.erase (.capp m)))
    simp only [stepRunD, VR.erase, stepRun]
    split
    · exact sim_prodD cx m true _ _ (hp m) st
    · exact sim_none
  | val v =>
    show Sim (okD st [v.val]) (stepRun V.env (exec V.env n) cx.cx st (VR.erase (.val v)))
    simp only [VR.erase, stepRun, primDone, noop, emit]
    intro d hd; cases hd; exact ⟨by simp, rfl⟩
  | posr r =>
    show Sim (stepRunD V (exec V.env n) (dv V n) cx st (.posr r)) (stepRun V.env (exec V.env n) cx.cx st (VR.erase (.posr r)))
    simp only [stepRunD, VR.erase, stepRun]
    exact sim_emitD (sim_valD (H cx (.run r) st hr) _) _
  | seq a b =>
    show Sim (stepRunD V (exec V.env n) (dv V n) cx st (.seq a b)) (stepRun V.env (exec V.env n) cx.cx st (VR.erase (.seq a b)))
    simp only [stepRunD, VR.erase, stepRun]
    simp only [VR.std, Bool.and_eq_true] at hr
    exact sim_thenD (H cx (.run a) st hr.1) fun st => H cx (.run b) st hr.2
  | br a b =>
    show Sim (stepRunD V (exec V.env n) (dv V n) cx st (.br a b)) (stepRun V.env (exec V.env n) cx.cx st (VR.erase (.br a b)))
    simp only [stepRunD, VR.erase, stepRun]
    simp only [VR.std, Bool.and_eq_true] at hr
    exact sim_thenD (H cx (.run a) st hr.1) fun st => H cx (.run b) st hr.2
  | chc rs =>
    simp only [VR.std] at hr
    rw [VR.erase]
    exact H cx (.chcRun rs) st hr
  | ifR b =>
    show Sim (stepRunD V (exec V.env n) (dv V n) cx st (.ifR b)) (stepRun V.env (exec V.env n) cx.cx st (VR.erase (.ifR b)))
    simp only [stepRunD, VR.erase, stepRun, ifTry_choose]
    exact sim_choose (H cx (.fin b) st hr) (sim_viaD' fun st => sim_okD _ _)
  | opt b =>
    show Sim (stepRunD V (exec V.env n) (dv V n) cx st (.opt b)) (stepRun V.env (exec V.env n) cx.cx st (VR.erase (.opt b)))
    simp only [stepRunD, VR.erase, stepRun, ifTry_choose]
    exact sim_choose (H cx (.fin b) st hr) (sim_viaD' fun st => sim_okD _ _)
  | optt t b =>
    show Sim (stepRunD V (exec V.env n) (dv V n) cx st (.optt t b)) (stepRun V.env (exec V.env n) cx.cx st (VR.erase (.optt t b)))
    simp only [stepRunD, VR.erase, stepRun, ifTry_choose]
    simp only [VR.std, Bool.and_eq_true] at hr
    exact sim_choose (sim_valD (H cx (.fin t) st hr.1) _) (sim_viaD' fun st => H cx (.run b) st hr.2)
  | must b e =>
    show Sim (stepRunD V (exec V.env n) (dv V n) cx st (.must b e)) (stepRun V.env (exec V.env n) cx.cx st (VR.erase (.must b e)))
    simp only [stepRunD, VR.erase, stepRun, ifTry_choose]
    refine sim_choose (H cx (.fin b) st hr) (sim_viaD' fun st' => ?_)
    generalize framed st.vars.length (exec V.env n cx.cx (.run e) st') = x
    cases x with
    | none => exact sim_none
    | some r =>
      obtain ⟨o, s, evs⟩ := r
      cases o with
      | fail =>
        intro d hd; cases hd
        exact ⟨by simp, by simp [andThen, ret, DRes.res]⟩
      | ok => exact sim_none
      | brk => exact sim_none
  | lst item sep =>
    show Sim (stepRunD V (exec V.env n) (dv V n) cx st (.lst item sep)) (stepRun V.env (exec V.env n) cx.cx st (VR.erase (.lst item sep)))
    have h1 : item.std = true ∧ stdSep sep = true := by
      cases sep with
      | none => exact ⟨by simpa [VR.std] using hr, rfl⟩
      | some s => obtain ⟨s, k⟩ := s; simpa [VR.std, stdSep] using hr
    have h2 : VR.erase (.lst item sep) = .lst item.erase (eraseSep sep) := by
      cases sep with
      | none => simp [VR.erase, eraseSep]
      | some s => obtain ⟨s, k⟩ := s; simp [VR.erase, eraseSep]
    rw [h2]
    simp only [stepRunD, stepRun]
    exact sim_baseD (H cx (.run item) st h1.1) fun vs st => H cx (.lstLoop item sep _) st (by simp [VCmd.std, h1])
  | tryt t r rc =>
    show Sim (stepRunD V (exec V.env n) (dv V n) cx st (.tryt t r rc)) (stepRun V.env (exec V.env n) cx.cx st (VR.erase (.tryt t r rc)))
    cases t with
    | none =>
      simp only [stepRunD, VR.erase, stepRun]
      simp only [VR.std, Bool.and_eq_true] at hr
      exact sim_tryD H cx _ rc hr.2 (H cx (.run r) st hr.1) fun st => sim_okD _ _
    | some t =>
      simp only [stepRunD, VR.erase, stepRun]
      simp only [VR.std, Bool.and_eq_true] at hr
      exact sim_tryD H cx _ rc hr.2 (H cx (.run r) st hr.1.2) fun st => H cx (.run t) st hr.1.1
  | tryr r rc =>
    show Sim (stepRunD V (exec V.env n) (dv V n) cx st (.tryr r rc)) (stepRun V.env (exec V.env n) cx.cx st (VR.erase (.tryr r rc)))
    simp only [stepRunD, VR.erase, stepRun]
    simp only [VR.std, Bool.and_eq_true] at hr
    exact sim_tryD H cx _ rc hr.2 (H cx (.run r) st hr.1) fun st => sim_okD _ _
  | prod m =>
    show Sim (stepRunD V (exec V.env n) (dv V n) cx st (.prod m)) (stepRun V.env (exec V.env n) cx.cx st (VR.erase (.prod m)))
    simp only [stepRunD, VR.erase, stepRun]
    exact sim_prodD cx m false _ _ (hp m) st
  | recu m tag b =>
    show Sim (stepRunD V (exec V.env n) (dv V n) cx st (.recu m tag b)) (stepRun V.env (exec V.env n) cx.cx st (VR.erase (.recu m tag b)))
    simp only [stepRunD, VR.erase, stepRun]
    refine sim_deeper cx tag st _ _ fun st d hd => ?_
    obtain ⟨h1, h2⟩ := H cx (.run (.prod m)) st (by simp [VCmd.std, VR.std]) d hd
    refine ⟨by simpa [VCmd.erase, VR.erase] using h2, h1, dv_prod_out _ (.inl rfl) hd⟩
  | wsn r =>
    show Sim (stepRunD V (exec V.env n) (dv V n) cx st (.wsn r)) (stepRun V.env (exec V.env n) cx.cx st (VR.erase (.wsn r)))
    simp only [stepRunD, VR.erase, stepRun]
    exact sim_ite (H cx (.run r) st hr) (sim_thenD (H cx (.run r) _ hr) fun st => sim_leaf _)
  | pre a r =>
    rw [VR.erase]
    exact sim_mono (sim_valD (H cx (.run r) st hr) _)
  | pas t r =>
    simp only [VR.std, Bool.and_eq_true] at hr
    rw [VR.erase]
    exact sim_mono (sim_pas r hr.2 _ (.inl rfl) cx.cx st t (H cx (.run r) st hr.1))
  | comb tag rs els =>
    show Sim (stepRunD V (exec V.env n) (dv V n) cx st (.comb tag rs els)) (stepRun V.env (exec V.env n) cx.cx st (VR.erase (.comb tag rs els)))
    simp only [VR.std] at hr
    simp only [stepRunD, VR.erase, stepRun]
    have e := H cx (.combLoop tag (combVRules rs els) rs.length [] 0 []) { st with idx := 0 }
      (by simp [VCmd.std, std_combRules rs els hr])
    rw [VCmd.erase, erase_combRules] at e
    have hlen : (VR.eraseL rs).length = rs.length := by rw [eraseL_map]; simp
    rw [hlen]
    intro d hd
    cases hx : dv V n cx (.combLoop tag (combVRules rs els) rs.length [] 0 []) { st with idx := 0 } with
    | none => rw [hx] at hd; cases hd
    | some r =>
      rw [hx] at hd
      obtain ⟨h1, h2⟩ := e r hx
      rw [h2]
      obtain ⟨out, st', evs, calls, vals⟩ := r
      cases out with
      | ok => cases hd; exact ⟨by simp [DRes.pre], by simp [DRes.res, DRes.pre, onOk', andThen, ret]⟩
      | fail => cases hd; exact ⟨by simp, by simp [DRes.res, onOk', andThen]⟩
      | brk => exact absurd rfl (combLoop_out _ _ _ hx)
      | ret pre => exact absurd rfl (h1 pre)
  | combIt i =>
    rw [VR.erase]
    exact sim_okD _ _
  | ret => cases hr
  | lstt term item sep limit =>
    show Sim (stepRunD V (exec V.env n) (dv V n) cx st (.lstt term item sep limit))
      (stepRun V.env (exec V.env n) cx.cx st (VR.erase (.lstt term item sep limit)))
    have h1 : (term.std = true ∧ item.std = true) ∧ stdSep sep = true := by
      cases sep with
      | none => exact ⟨by simpa [VR.std] using hr, rfl⟩
      | some s => obtain ⟨s, k⟩ := s; simpa [VR.std, stdSep] using hr
    have h2 : VR.erase (.lstt term item sep limit) = .lstt term.erase item.erase (eraseSep sep) limit := by
      cases sep with
      | none => simp [VR.erase, eraseSep]
      | some s => obtain ⟨s, k⟩ := s; simp [VR.erase, eraseSep]
    rw [h2]
    simp only [stepRunD, stepRun]
    have hl : ∀ s acc st, Sim (dv V n cx (.lt s term item sep limit acc) st)
        (exec V.env n cx.cx (VCmd.erase (.lt s term item sep limit acc)) st) :=
      fun s acc st => H cx (.lt s term item sep limit acc) st (by simp [VCmd.std, h1])
    exact sim_thenD' (sim_tryBaseD (H cx (.run item) st h1.1.2) (fun vs st => hl .term _ _)
        fun st => sim_emitD (hl (.reco _) _ _) _)
      (nb_tryBaseD (fun vs st => lt_nb _ _ _ _ _ _ _ _) fun st => nb_emitD (lt_nb _ _ _ _ _ _ _ _) _)
      fun st => H cx (.fin term) st h1.1.1
  | prim q =>
    rw [VR.erase]
    exact sim_prim _ _
  | rep kd c f item sep =>
    have h1 : ((c.std = true ∧ c.closed = true) ∧ item.std = true) ∧ stdSep sep = true := by
      cases sep with
      | none => exact ⟨by simpa [VR.std] using hr, rfl⟩
      | some s => obtain ⟨s, k⟩ := s; simpa [VR.std, stdSep] using hr
    have h2 : VR.erase (.rep kd c f item sep) = .rep c.erase f item.erase (eraseSep sep) := by
      cases sep with
      | none => simp [VR.erase, eraseSep]
      | some s => obtain ⟨s, k⟩ := s; simp [VR.erase, eraseSep]
    rw [h2]
    exact sim_rep1 H c h1.1.1.2 _ (.inl rfl) cx st kd f item sep h1.1.2 h1.2 (H cx (.run c) st h1.1.1.1)
  | cntPush id r sign =>
    simp only [VR.std, Bool.and_eq_true] at hr
    rw [VR.erase]
    show Sim (stepRunD V (exec V.env n) (dv V n) cx st (.cntPush id r sign))
      (stepRun V.env (exec V.env n) cx.cx st (.cntPush id r.erase sign))
    simp only [stepRunD, stepRun]
    exact sim_frontD (H cx (.run r) st hr.1) (pushable_nb cx r hr.2 _ (.inl rfl) st) fun st' => sim_pushD _ _ _ _
  | cntVal id =>
    rw [VR.erase]
    show Sim ((getCounter id st.vars).bind fun i => okD st [.num i]) _
    cases getCounter id st.vars with
    | none => exact sim_none
    | some i => exact sim_okD _ _
  | idCap id q =>
    rw [VR.erase]
    show Sim (stepRunD V (exec V.env n) (dv V n) cx st (.idCap id q))
      (stepRun V.env (exec V.env n) cx.cx st (.idCap id q.rule q.len))
    simp only [stepRunD, stepRun]
    exact sim_viaD' fun st' => sim_identD _ _ _ _

theorem sim_fin (H : IH V n) (hV : ∀ m, (V.prods m).rule.std = true) (cx : VCx) (st : St) (r : VR)
    (hr : r.std = true) : Sim (dv V (n + 1) cx (.fin r) st) (exec V.env (n + 1) cx.cx (.bfinish r.erase) st) := by
  cases r with
  | leaf r => exact sim_leaf _
  | cap t =>
    rw [VR.erase]
    exact sim_tokD _ _ _ _ _
  | capp m =>
    show Sim (stepFinD V (exec V.env n) (dv V n) cx st (.capp m)) (stepFinish V.env (exec V.env n) cx.cx st (VR.erase (.capp m)))
    simp only [stepFinD, VR.erase, stepFinish]
    split
    · exact sim_prodD cx m true _ _ (fun cx' st' => H cx' (.fin _) st' (hV m)) st
    · exact sim_none
  | val v =>
    show Sim (okD st [v.val]) (stepFinish V.env (exec V.env n) cx.cx st (VR.erase (.val v)))
    simp only [VR.erase, stepFinish, primDone, noop, emit]
    intro d hd; cases hd; exact ⟨by simp, rfl⟩
  | posr r =>
    show Sim (stepFinD V (exec V.env n) (dv V n) cx st (.posr r)) (stepFinish V.env (exec V.env n) cx.cx st (VR.erase (.posr r)))
    simp only [stepFinD, VR.erase, stepFinish]
    exact sim_emitD (sim_valD (H cx (.fin r) st hr) _) _
  | br a b =>
    show Sim (stepFinD V (exec V.env n) (dv V n) cx st (.br a b)) (stepFinish V.env (exec V.env n) cx.cx st (VR.erase (.br a b)))
    simp only [stepFinD, VR.erase, stepFinish]
    simp only [VR.std, Bool.and_eq_true] at hr
    exact sim_thenD (H cx (.fin a) st hr.1) fun st => H cx (.run b) st hr.2
  | chc rs =>
    simp only [VR.std] at hr
    rw [VR.erase]
    exact H cx (.chcFin rs) st hr
  | must b e =>
    rw [VR.erase]
    exact H cx (.fin b) st hr
  | lst item sep =>
    show Sim (stepFinD V (exec V.env n) (dv V n) cx st (.lst item sep)) (stepFinish V.env (exec V.env n) cx.cx st (VR.erase (.lst item sep)))
    have h1 : item.std = true ∧ stdSep sep = true := by
      cases sep with
      | none => exact ⟨by simpa [VR.std] using hr, rfl⟩
      | some s => obtain ⟨s, k⟩ := s; simpa [VR.std, stdSep] using hr
    have h2 : VR.erase (.lst item sep) = .lst item.erase (eraseSep sep) := by
      cases sep with
      | none => simp [VR.erase, eraseSep]
      | some s => obtain ⟨s, k⟩ := s; simp [VR.erase, eraseSep]
    rw [h2]
    simp only [stepFinD, stepFinish]
    exact sim_baseD (H cx (.fin item) st h1.1) fun vs st => H cx (.lstLoop item sep _) st (by simp [VCmd.std, h1])
  | tryr r rc =>
    show Sim (stepFinD V (exec V.env n) (dv V n) cx st (.tryr r rc)) (stepFinish V.env (exec V.env n) cx.cx st (VR.erase (.tryr r rc)))
    simp only [stepFinD, VR.erase, stepFinish]
    simp only [VR.std, Bool.and_eq_true] at hr
    exact sim_tryD H cx _ rc hr.2 (H cx (.fin r) st hr.1) fun st => sim_okD _ _
  | prod m =>
    show Sim (stepFinD V (exec V.env n) (dv V n) cx st (.prod m)) (stepFinish V.env (exec V.env n) cx.cx st (VR.erase (.prod m)))
    simp only [stepFinD, VR.erase, stepFinish]
    exact sim_prodD cx m false _ _ (fun cx' st' => H cx' (.fin _) st' (hV m)) st
  | recu m tag b =>
    show Sim (stepFinD V (exec V.env n) (dv V n) cx st (.recu m tag b)) (stepFinish V.env (exec V.env n) cx.cx st (VR.erase (.recu m tag b)))
    simp only [stepFinD, VR.erase, stepFinish]
    refine sim_deeper cx tag st _ _ fun st d hd => ?_
    obtain ⟨h1, h2⟩ := H cx (.fin (.prod m)) st (by simp [VCmd.std, VR.std]) d hd
    refine ⟨by simpa [VCmd.erase, VR.erase] using h2, h1, dv_prod_out _ (.inr rfl) hd⟩
  | wsn r =>
    show Sim (stepFinD V (exec V.env n) (dv V n) cx st (.wsn r)) (stepFinish V.env (exec V.env n) cx.cx st (VR.erase (.wsn r)))
    simp only [stepFinD, VR.erase, stepFinish]
    exact sim_thenD (H cx (.fin r) _ hr) fun st => sim_leaf _
  | pre a r =>
    rw [VR.erase]
    exact sim_mono (sim_valD (H cx (.fin r) st hr) _)
  | pas t r =>
    simp only [VR.std, Bool.and_eq_true] at hr
    rw [VR.erase]
    exact sim_mono (sim_pas r hr.2 _ (.inr rfl) cx.cx st t (H cx (.fin r) st hr.1))
  | prim q =>
    rw [VR.erase]
    exact sim_prim _ _
  | rep kd c f item sep =>
    have h1 : ((c.std = true ∧ c.closed = true) ∧ item.std = true) ∧ stdSep sep = true := by
      cases sep with
      | none => exact ⟨by simpa [VR.std] using hr, rfl⟩
      | some s => obtain ⟨s, k⟩ := s; simpa [VR.std, stdSep] using hr
    have h2 : VR.erase (.rep kd c f item sep) = .rep c.erase f item.erase (eraseSep sep) := by
      cases sep with
      | none => simp [VR.erase, eraseSep]
      | some s => obtain ⟨s, k⟩ := s; simp [VR.erase, eraseSep]
    rw [h2]
    exact sim_rep1 H c h1.1.1.2 _ (.inr rfl) cx st kd f item sep h1.1.2 h1.2 (H cx (.fin c) st h1.1.1.1)
  | cntPush id r sign =>
    simp only [VR.std, Bool.and_eq_true] at hr
    rw [VR.erase]
    show Sim (stepFinD V (exec V.env n) (dv V n) cx st (.cntPush id r sign))
      (stepFinish V.env (exec V.env n) cx.cx st (.cntPush id r.erase sign))
    simp only [stepFinD, stepFinish]
    exact sim_frontD (H cx (.fin r) st hr.1) (pushable_nb cx r hr.2 _ (.inr rfl) st) fun st' => sim_pushD _ _ _ _
  | idCap id q =>
    rw [VR.erase]
    show Sim (stepFinD V (exec V.env n) (dv V n) cx st (.idCap id q))
      (stepFinish V.env (exec V.env n) cx.cx st (.idCap id q.rule q.len))
    simp only [stepFinD, stepFinish]
    exact sim_viaD' fun st' => sim_identD _ _ _ _
  | _ => exact sim_none

theorem sim_rec (H : IH V n) (cx : VCx) (st : St) (rc : VRecov) (hrc : VR.stdRec rc = true) :
    Sim (dv V (n + 1) cx (.recov rc) st) (exec V.env (n + 1) cx.cx (.recov (VR.eraseRec rc)) st) := by
  cases rc with
  | wrap r =>
    rw [VR.eraseRec]
    have e : Sim (thenD (dv V n cx (.run r) st) fun st' => viaD (exec V.env n cx.cx .ws st') fun st'' => okD st'' [])
        (onOk (exec V.env n cx.cx (.run r.erase) st) fun st' => exec V.env n cx.cx .ws st') :=
      sim_thenD (H cx (.run r) st hrc) fun st => sim_leaf _
    intro d hd
    have hd' : stepD V (exec V.env n) (dv V n) cx (.recov (.wrap r)) st = some d := hd
    simp only [stepD] at hd'
    have hg : exec V.env (n + 1) cx.cx (.recov (.wrap r.erase)) st = emit [.recStart st.pos]
        (andThen (onOk' (exec V.env n cx.cx (.run r.erase) st) fun st' => exec V.env n cx.cx .ws st') fun o st' =>
          match o with
          | .ok => some ⟨.ok, st', [.recFinish st'.pos]⟩
          | .fail => some ⟨.fail, st', [.recCancel st'.pos]⟩
          | .brk => none) := rfl
    rw [hg]
    generalize hx : (thenD (dv V n cx (.run r) st) fun st' =>
      viaD (exec V.env n cx.cx .ws st') fun st'' => okD st'' []) = x at hd' e
    cases x with
    | none => cases hd'
    | some x =>
      obtain ⟨h1, h2⟩ := e x rfl
      obtain ⟨out, st1, evs, calls, vals⟩ := x
      have hnb : onOk (exec V.env n cx.cx (.run r.erase) st) (fun st' => exec V.env n cx.cx .ws st') =
          some ⟨.ok, st1, evs⟩ ∨ onOk (exec V.env n cx.cx (.run r.erase) st) (fun st' => exec V.env n cx.cx .ws st') =
          some ⟨.fail, st1, evs⟩ →
          onOk' (exec V.env n cx.cx (.run r.erase) st) (fun st' => exec V.env n cx.cx .ws st') =
          onOk (exec V.env n cx.cx (.run r.erase) st) (fun st' => exec V.env n cx.cx .ws st') := by
        intro h
        cases hy : exec V.env n cx.cx (.run r.erase) st with
        | none => rfl
        | some y =>
          obtain ⟨o, s, ev⟩ := y
          cases o with
          | ok => rfl
          | fail => rfl
          | brk => rw [hy] at h; rcases h with h | h <;> cases h
      cases out with
      | ok =>
        cases hd'
        refine ⟨by simp, ?_⟩
        rw [hnb (.inl h2), h2]
        simp [andThen, emit, DRes.res]
      | fail =>
        cases hd'
        refine ⟨by simp, ?_⟩
        rw [hnb (.inr h2), h2]
        simp [andThen, emit, DRes.res]
      | brk => cases hd'
      | ret pre => exact absurd rfl (h1 pre)
  | find l =>
    rw [VR.eraseRec]
    show Sim (stepD V (exec V.env n) (dv V n) cx (.recov (.find l)) st) _
    simp only [stepD]
    exact sim_leaf _
  | reco limit rs =>
    rw [VR.eraseRec]
    exact sim_emitD (H cx (.recoLoop st.pos limit rs) st hrc) _

theorem sim_comb (H : IH V n) (cx : VCx) (st : St) (tag : Nat) (rs : List VR) (k : Nat) (handled : List Nat)
    (count : Nat) (acc : List (List Val)) (hr : VR.stdL rs = true) :
    Sim (dv V (n + 1) cx (.combLoop tag rs k handled count acc) st)
      (exec V.env (n + 1) cx.cx (.combLoop tag (VR.eraseL rs) k handled count) st) := by
  show Sim (stepD V (exec V.env n) (dv V n) cx (.combLoop tag rs k handled count acc) st)
    (step V.env (exec V.env n) cx.cx (.combLoop tag (VR.eraseL rs) k handled count) st)
  simp only [stepD, step]
  refine sim_ite (sim_okD _ _) ?_
  have e := H cx (.chcRun rs) st hr
  simp only [VCmd.erase] at e
  intro d hd
  cases hx : dv V n cx (.chcRun rs) st with
  | none => rw [hx] at hd; cases hd
  | some r =>
    rw [hx] at hd
    obtain ⟨h1, h2⟩ := e r hx
    rw [h2]
    obtain ⟨out, st', evs, calls, vals⟩ := r
    cases out with
    | ok =>
      simp only [DRes.res, framed, Option.map_some, andThen] at hd ⊢
      have h3 : ∀ handled count acc, Sim
          (dv V n cx (.combLoop tag rs k handled count acc) (st'.frame st.vars.length))
          (exec V.env n cx.cx (.combLoop tag (VR.eraseL rs) k handled count) (st'.frame st.vars.length)) :=
        fun handled count acc => H cx (.combLoop tag rs k handled count acc) _ hr
      exact sim_pre (sim_ite (sim_emitD (h3 _ _ _) _) (h3 _ _ _)) evs calls [] d hd
    | fail => cases hd; exact ⟨by simp, by simp [DRes.res, framed, andThen, ret]⟩
    | brk => cases hd; exact ⟨by simp, by simp [DRes.res, framed, andThen, ret]⟩
    | ret pre => exact absurd rfl (h1 pre)

end

/-- Values do not influence parsing: without them, what a rule does is what the model of rules without values says. -/
theorem erase_sim (V : VEnv) (hV : ∀ m, (V.prods m).rule.std = true) (n : Nat) : IH V n := by
  induction n with
  | zero => exact fun _ _ _ _ => sim_none
  | succ n H =>
    intro cx c st hc
    cases c with
    | run r => exact sim_run H hV cx st r hc
    | fin r => exact sim_fin H hV cx st r hc
    | chcRun rs =>
      cases rs with
      | nil => exact sim_fail _ _ _ _
      | cons r rs =>
        simp only [VCmd.std, VR.stdL, Bool.and_eq_true] at hc
        show Sim (stepD V (exec V.env n) (dv V n) cx (.chcRun (r :: rs)) st)
          (step V.env (exec V.env n) cx.cx (.chcRun (VR.eraseL (r :: rs))) st)
        simp only [stepD, VR.eraseL, step, ifTry_choose]
        exact sim_choose (H cx (.fin r) st hc.1) (sim_viaD' fun st => H cx (.chcRun rs) st hc.2)
    | chcFin rs =>
      cases rs with
      | nil => exact sim_none
      | cons r rs =>
        simp only [VCmd.std, VR.stdL, Bool.and_eq_true] at hc
        show Sim (stepD V (exec V.env n) (dv V n) cx (.chcFin (r :: rs)) st)
          (step V.env (exec V.env n) cx.cx (.chcFinish (VR.eraseL (r :: rs))) st)
        simp only [stepD, VR.eraseL, step, ifTry_choose]
        exact sim_choose (H cx (.fin r) st hc.1) (sim_viaD' fun st => H cx (.chcFin rs) st hc.2)
    | lstLoop item sep acc =>
      simp only [VCmd.std, Bool.and_eq_true] at hc
      exact sim_loop H cx st item acc sep hc.1 hc.2
    | lt s term item sep limit acc =>
      simp only [VCmd.std, Bool.and_eq_true] at hc
      exact sim_lt H cx st s term item sep limit acc hc.1.1 hc.1.2 hc.2
    | repTail kd b m item sep acc =>
      simp only [VCmd.std, Bool.and_eq_true] at hc
      exact sim_rep H cx st kd b m item sep acc hc.1 hc.2
    | recov rc => exact sim_rec H cx st rc hc
    | recoLoop b limit rs =>
      show Sim (stepD V (exec V.env n) (dv V n) cx (.recoLoop b limit rs) st)
        (step V.env (exec V.env n) cx.cx (.recoLoop b limit (VR.eraseL rs)) st)
      simp only [stepD, step, ifTry_choose]
      refine sim_choose (sim_emitD (H cx (.chcFin rs) st hc) _) (sim_viaD' fun st1 => ?_)
      exact sim_ite (sim_fail _ _ _ _) (H cx (.recoLoop b limit rs) _ hc)
    | combLoop tag rs k handled count acc => exact sim_comb H cx st tag rs k handled count acc hc

end Verif.Val
