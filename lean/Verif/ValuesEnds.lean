import Verif.ValuesErase
import Verif.ValuesParseProps

/-
A parse with values ends if the parse without values does: the converse of ValuesErase.lean.
-/

namespace Verif.Val

mutual
/-- What a rule needs to have values whenever it succeeds: `capture` is used for tokens and for token productions, and there
    is neither the value of a counter nor `repeat` with a separator. -/
def VR.total (V : VEnv) : VR → Bool
  | .leaf _ | .cap _ | .val _ | .prod _ | .recu .. | .combIt _ | .prim _ | .idCap .. => true
  | .capp m => (V.prods m).isTok
  | .ret | .cntVal _ => false
  | .posr r | .wsn r | .pre _ r | .ifR r | .opt r | .must r _ => r.total V
  | .seq a b | .br a b | .optt a b => a.total V && b.total V
  | .chc rs | .comb _ rs _ => VR.totalL V rs
  | .lst item none => item.total V
  | .lst item (some (s, _)) => item.total V && s.total V
  | .lstt term item none _ => term.total V && item.total V
  | .lstt term item (some (s, _)) _ => term.total V && item.total V && s.total V
  | .rep _ c _ item none => c.total V && item.total V
  | .rep _ _ _ _ (some _) => false
  | .cntPush _ r _ => r.total V
  | .tryt none r rc => r.total V && VR.totalRec V rc
  | .tryt (some t) r rc => t.total V && r.total V && VR.totalRec V rc
  | .tryr r rc => r.total V && VR.totalRec V rc
  | .pas _ r => r.total V
def VR.totalL (V : VEnv) : List VR → Bool
  | [] => true
  | r :: rs => r.total V && VR.totalL V rs
def VR.totalRec (V : VEnv) : VRecovOf VR → Bool
  | .wrap r => r.total V
  | .find _ => true
  | .reco _ rs => VR.totalL V rs
end

def totalSep (V : VEnv) : Option VSep → Bool
  | none => true
  | some (s, _) => s.total V

def VCmd.total (V : VEnv) : VCmd → Bool
  | .run r | .fin r => r.total V
  | .chcRun rs | .chcFin rs | .recoLoop _ _ rs | .combLoop _ rs _ _ _ _ => VR.totalL V rs
  | .lstLoop item sep _ => item.total V && totalSep V sep
  | .lt _ term item sep _ _ => term.total V && item.total V && totalSep V sep
  | .repTail _ _ _ item sep _ => item.total V && sep.isNone
  | .recov rc => VR.totalRec V rc

/-- If `y` ends, `x` ends the same way, given enough steps. -/
def Ends (x : Nat → Option DRes) (y : Option Res) : Prop :=
  ∀ r, y = some r → ∃ k d, d.res = r ∧ (∀ pre, d.out ≠ .ret pre) ∧ ∀ m, k ≤ m → x m = some d

def EndsR (e : Nat → Option Res) (y : Option Res) : Prop := ∀ r, y = some r → ∃ k, ∀ m, k ≤ m → e m = some r

section

variable {x : Nat → Option DRes} {e : Nat → Option Res} {y : Option Res}

theorem ends_none : Ends x none := fun _ h => by cases h

theorem ends_shift (h : Ends (fun m => x (m + 1)) y) : Ends x y := by
  intro r hr
  obtain ⟨k, d, h1, h2, h3⟩ := h r hr
  refine ⟨k + 1, d, h1, h2, fun m hm => ?_⟩
  obtain ⟨m', rfl⟩ : ∃ m', m = m' + 1 := ⟨m - 1, by omega⟩
  exact h3 m' (by omega)

theorem endsR_exec (E : Env) (n : Nat) (cx : Cx) (c : Cmd) (st : St) : EndsR (fun m => exec E m cx c st) (exec E n cx c st) :=
  fun _ hr => ⟨n, fun _ hm => exec_mono hm hr⟩

theorem endsR_exec1 (E : Env) (n : Nat) (cx : Cx) (c : Cmd) (st : St) :
    EndsR (fun m => exec E (m + 1) cx c st) (exec E n cx c st) :=
  fun _ hr => ⟨n, fun _ hm => exec_mono (Nat.le_trans hm (Nat.le_succ _)) hr⟩

theorem ends_okD (st : St) (vs : List Val) : Ends (fun _ => okD st vs) (ret .ok st) := by
  intro r h; cases h
  exact ⟨0, _, rfl, by simp, fun _ _ => rfl⟩

theorem ends_fail (st : St) (evs : List Ev) (calls vs) :
    Ends (fun _ => some ⟨.fail, st, evs, calls, vs⟩) (some ⟨.fail, st, evs⟩) := by
  intro r h; cases h
  exact ⟨0, _, rfl, by simp, fun _ _ => rfl⟩

theorem ends_pre (h : Ends x y) (evs : List Ev) (calls vs) :
    Ends (fun m => (x m).map (DRes.pre evs calls vs)) (emit evs y) := by
  intro r hr
  cases y with
  | none => cases hr
  | some r' =>
    cases hr
    obtain ⟨k, d, h1, h2, h3⟩ := h r' rfl
    subst h1
    exact ⟨k, d.pre evs calls vs, rfl, h2, fun m hm => by simp only [h3 m hm]; rfl⟩

theorem ends_emitD (h : Ends x y) (evs : List Ev) : Ends (fun m => emitD evs (x m)) (emit evs y) := ends_pre h evs [] []
theorem ends_valD (h : Ends x y) (vs : List Val) : Ends (fun m => valD vs (x m)) y := by
  have := ends_pre h [] [] vs
  rwa [emit_nil] at this

/-- What comes after a rule. -/
theorem ends_after {x' : Nat → Option DRes} {F : Nat → Option DRes → Option DRes} {G : Option Res → Option Res}
    (h : Ends x y) (hx : x' = fun m => F m (x m)) (hG : G none = none)
    (hF : ∀ d, y = some d.res → (∀ pre, d.out ≠ .ret pre) → Ends (fun m => F m (some d)) (G (some d.res))) :
    Ends x' (G y) := by
  intro r hr
  cases y with
  | none => rw [hG] at hr; cases hr
  | some r' =>
    obtain ⟨k, d, h1, h2, h3⟩ := h r' rfl
    subst h1
    obtain ⟨k', d', g1, g2, g3⟩ := hF d rfl h2 r hr
    refine ⟨max k k', d', g1, g2, fun m hm => ?_⟩
    subst hx
    simp only [h3 m (by omega)]
    exact g3 m (by omega)

theorem ends_afterR {x' : Nat → Option DRes} {F : Nat → Option Res → Option DRes} {G : Option Res → Option Res}
    (h : EndsR e y) (hx : x' = fun m => F m (e m)) (hG : G none = none)
    (hF : ∀ r, y = some r → Ends (fun m => F m (some r)) (G (some r))) : Ends x' (G y) := by
  intro r hr
  cases y with
  | none => rw [hG] at hr; cases hr
  | some r' =>
    obtain ⟨k, h3⟩ := h r' rfl
    obtain ⟨k', d', g1, g2, g3⟩ := hF r' rfl r hr
    refine ⟨max k k', d', g1, g2, fun m hm => ?_⟩
    subst hx
    simp only [h3 m (by omega)]
    exact g3 m (by omega)

theorem ends_thenD {f : Nat → St → Option DRes} {g : St → Option Res} (h : Ends x y)
    (hf : ∀ st, Ends (fun m => f m st) (g st)) : Ends (fun m => thenD (x m) (f m)) (onOk y g) := by
  refine ends_after (F := fun m x => thenD x (f m)) (G := fun y => onOk y g) h rfl rfl fun d _ hd => ?_
  obtain ⟨out, st, evs, calls, vals⟩ := d
  cases out with
  | ok => exact ends_pre (hf st) evs calls vals
  | fail => intro r hr; cases hr; exact ⟨0, _, by simp [DRes.res], by simp, fun _ _ => rfl⟩
  | brk => intro r hr; cases hr; exact ⟨0, _, by simp [DRes.res], by simp, fun _ _ => rfl⟩
  | ret pre => exact absurd rfl (hd pre)

theorem ends_thenD' {f : Nat → St → Option DRes} {g : St → Option Res} (h : Ends x y)
    (hf : ∀ st, Ends (fun m => f m st) (g st)) : Ends (fun m => thenD (x m) (f m)) (onOk' y g) := by
  refine ends_after (F := fun m x => thenD x (f m)) (G := fun y => onOk' y g) h rfl rfl fun d _ hd => ?_
  obtain ⟨out, st, evs, calls, vals⟩ := d
  cases out with
  | ok => exact ends_pre (hf st) evs calls vals
  | fail => intro r hr; cases hr; exact ⟨0, _, by simp [DRes.res], by simp, fun _ _ => rfl⟩
  | brk => exact ends_none
  | ret pre => exact absurd rfl (hd pre)

theorem ends_frontD {w : Val} {f : Nat → St → Option DRes} {g : St → Option Res} (h : Ends x y)
    (hf : ∀ st, Ends (fun m => f m st) (g st)) : Ends (fun m => frontD w (x m) (f m)) (onOk' y g) := by
  refine ends_after (F := fun m x => frontD w x (f m)) (G := fun y => onOk' y g) h rfl rfl fun d _ hd => ?_
  obtain ⟨out, st, evs, calls, vals⟩ := d
  cases out with
  | ok => exact ends_pre (hf st) evs calls vals
  | fail => intro r hr; cases hr; exact ⟨0, _, by simp [DRes.res], by simp, fun _ _ => rfl⟩
  | brk => exact ends_none
  | ret pre => exact absurd rfl (hd pre)

theorem ends_viaD {f : Nat → St → Option DRes} {g : St → Option Res} (h : EndsR e y)
    (hf : ∀ st, Ends (fun m => f m st) (g st)) : Ends (fun m => viaD (e m) (f m)) (onOk y g) := by
  refine ends_afterR (F := fun m x => viaD x (f m)) (G := fun y => onOk y g) h rfl rfl fun r _ => ?_
  obtain ⟨out, st, evs⟩ := r
  cases out with
  | ok => exact ends_emitD (hf st) evs
  | fail => intro r hr; cases hr; exact ⟨0, _, by simp [DRes.res], by simp, fun _ _ => rfl⟩
  | brk => intro r hr; cases hr; exact ⟨0, _, by simp [DRes.res], by simp, fun _ _ => rfl⟩

theorem ends_viaD' {f : Nat → St → Option DRes} {g : St → Option Res} (h : EndsR e y)
    (hf : ∀ st, Ends (fun m => f m st) (g st)) : Ends (fun m => viaD' (e m) (f m)) (onOk' y g) := by
  refine ends_afterR (F := fun m x => viaD' x (f m)) (G := fun y => onOk' y g) h rfl rfl fun r _ => ?_
  obtain ⟨out, st, evs⟩ := r
  cases out with
  | ok => exact ends_emitD (hf st) evs
  | fail => intro r hr; cases hr; exact ⟨0, _, by simp [DRes.res], by simp, fun _ _ => rfl⟩
  | brk => exact ends_none

theorem ends_leaf (h : EndsR e y) (vs : List Val) : Ends (fun m => viaD (e m) fun st => okD st vs) y := by
  have := ends_viaD (f := fun _ st => okD st vs) (g := fun st => ret .ok st) h fun st => ends_okD st vs
  rwa [onOk_ret] at this

theorem ends_baseD {n : Nat} {f : Nat → List Val → St → Option DRes} {g : St → Option Res} (h : Ends x y)
    (hf : ∀ vs st, Ends (fun m => f m vs st) (g st)) : Ends (fun m => baseD n (x m) (f m)) (onOk' (framed n y) g) := by
  refine ends_after (F := fun m x => baseD n x (f m)) (G := fun y => onOk' (framed n y) g) h rfl rfl fun d _ hd => ?_
  obtain ⟨out, st, evs, calls, vals⟩ := d
  cases out with
  | ok => exact ends_pre (hf vals (st.frame n)) evs calls []
  | fail => intro r hr; cases hr; exact ⟨0, _, by simp [DRes.res], by simp, fun _ _ => rfl⟩
  | brk => exact ends_none
  | ret pre => exact absurd rfl (hd pre)

theorem ends_tryBaseD {n : Nat} {f : Nat → List Val → St → Option DRes} {f' : Nat → St → Option DRes}
    {g : Out → St → Option Res} (h : Ends x y) (hf : ∀ vs st, Ends (fun m => f m vs st) (g .ok st))
    (hf' : ∀ st, Ends (fun m => f' m st) (g .fail st)) (hg : ∀ st, g .brk st = none) :
    Ends (fun m => tryBaseD n (x m) (f m) (f' m)) (andThen (framed n y) g) := by
  refine ends_after (F := fun m x => tryBaseD n x (f m) (f' m)) (G := fun y => andThen (framed n y) g) h rfl rfl
    fun d _ hd => ?_
  obtain ⟨out, st, evs, calls, vals⟩ := d
  cases out with
  | ok => exact ends_pre (hf vals (st.frame n)) evs calls []
  | fail => exact ends_pre (hf' (st.frame n)) evs calls []
  | brk => simp only [DRes.res, framed, Option.map_some, andThen, hg]; exact ends_none
  | ret pre => exact absurd rfl (hd pre)

theorem ends_evsD {b : Option Res} (hb : EndsR e b) (h : Ends x y) :
    Ends (fun m => evsD (e m) (x m)) (andThen b fun _ _ => y) :=
  ends_afterR (F := fun m b => evsD b (x m)) (G := fun b => andThen b fun _ _ => y) hb rfl rfl
    fun r _ => ends_emitD h r.evs

theorem ends_choose {b : Option Res} {x' : Nat → Option DRes} {y' : Option Res} (hb : EndsR e b) (h : Ends x y)
    (h' : Ends x' y') : Ends (fun m => choose (e m) (x m) (x' m)) (choose b y y') := by
  refine ends_afterR (F := fun m b => choose b (x m) (x' m)) (G := fun b => choose b y y') hb rfl rfl fun r _ => ?_
  obtain ⟨out, st, evs⟩ := r
  cases out
  · exact h
  · exact h'
  · exact h'

theorem ends_ite {p : Prop} [Decidable p] {x' : Nat → Option DRes} {y' : Option Res} (h : Ends x y) (h' : Ends x' y') :
    Ends (fun m => if p then x m else x' m) (if p then y else y') := by
  split
  · exact h
  · exact h'

theorem ends_pushD (id p : Nat) (sign : Int) (st : St) : Ends (fun _ => pushD id sign p st)
    ((getCounter id st.vars).bind fun i =>
      ret .ok { st with vars := setVar (.counter id) (.counter (i + (st.pos - p : Nat) * sign)) st.vars }) := by
  unfold pushD
  cases getCounter id st.vars with
  | none => exact ends_none
  | some i => exact ends_okD _ _

theorem ends_identD (id : Nat) (s : List Nat) (vs : List Val) (st : St) : Ends (fun _ => identD id s vs st)
    ((getIdent id st.vars).bind fun _ => ret .ok { st with vars := setVar (.ident id) (.ident s) st.vars }) := by
  unfold identD
  cases getIdent id st.vars with
  | none => exact ends_none
  | some i => exact ends_okD _ _

end

theorem total_combRules (V : VEnv) (rs : List VR) (els : CombElse) (h : VR.totalL V rs = true) :
    VR.totalL V (combVRules rs els) = true := by
  have hi : ∀ rs : List VR, VR.totalL V rs = true ↔ ∀ r ∈ rs, r.total V = true := by
    intro rs
    induction rs with
    | nil => simp [VR.totalL]
    | cons r rs ih => simp [VR.totalL, ih]
  rw [hi] at h ⊢
  intro r hr
  unfold combVRules at hr
  rw [List.mem_append, List.mem_map] at hr
  rcases hr with ⟨p, hp, rfl⟩ | hr
  · have : p.1 ∈ rs := by
      have := List.mem_zipIdx hp
      simp at this
      rw [this.2]; simp
    simp [VR.total, h _ this]
  · cases els with
    | none => cases hr
    | brk => simp at hr; subst hr; simp [VR.total]
    | err t => simp at hr; subst hr; simp [VR.total]

section

variable {V : VEnv} {n : Nat}

/-- What is to be shown. -/
abbrev EH (V : VEnv) (n : Nat) : Prop :=
  ∀ cx c st, c.std = true → c.total V = true → Ends (fun m => dv V m cx c st) (exec V.env n cx.cx c.erase st)

theorem ends_prodD (cx : VCx) (p : Nat) (cap : Bool) (bodyD : Nat → VCx → St → Option DRes) (body : Cx → St → Option Res)
    (hb : ∀ cx st, Ends (fun m => bodyD m cx st) (body cx.cx st)) (st : St) :
    Ends (fun m => prodD V (exec V.env m) cx p cap (bodyD m) st) (production V.env (exec V.env n) cx.cx p body st) := by
  unfold prodD production
  have h := hb (cx.sub V p) { st with ex := {} }
  have e : (cx.sub V p).cx = cx.cx.sub (V.env.prods p) := rfl
  rw [e] at h
  refine ends_after (F := fun m x => match x with
    | none => none
    | some r =>
      let st' := { r.st.frame st.vars.length with ex := st.ex }
      match r.out with
      | .fail => some ⟨.fail, st', [.prodStart p st.pos] ++ r.evs ++ [.prodCancel p st'.pos], r.calls, []⟩
      | .brk => none
      | _ => r.args.bind fun vs =>
        ((if (V.prods p).isTok then viaD (exec V.env m cx.cx .ws st') fun st' => okD st' [] else okD st' []).map
          (DRes.pre ([.prodStart p st.pos] ++ r.evs ++ [.prodFinish p st'.pos]) (r.calls ++ [(p, vs)])
            ((if cap then [.lexeme st.pos st'.pos] else []) ++ if (V.prods p).void then [] else [.call p vs]))))
    (G := fun y => emit [.prodStart p st.pos] (andThen (framed st.vars.length y) fun o st' =>
      match o with
      | .ok => emit [.prodFinish p st'.pos] (if (V.env.prods p).isTok then exec V.env n cx.cx .ws { st' with ex := st.ex }
          else ret .ok { st' with ex := st.ex })
      | .fail => some ⟨.fail, { st' with ex := st.ex }, [.prodCancel p st'.pos]⟩
      | .brk => none)) h rfl rfl fun d _ hd => ?_
  obtain ⟨out, st', evs, calls, vals⟩ := d
  cases out with
  | ok =>
    have hk := ends_pre (x := fun m => if (V.prods p).isTok = true then
          viaD (exec V.env m cx.cx .ws { st'.frame st.vars.length with ex := st.ex }) fun st' => okD st' []
        else okD { st'.frame st.vars.length with ex := st.ex } [])
      (y := if (V.prods p).isTok = true then exec V.env n cx.cx .ws { st'.frame st.vars.length with ex := st.ex }
        else ret .ok { st'.frame st.vars.length with ex := st.ex })
      (ends_ite (ends_leaf (endsR_exec _ _ _ _ _) _) (ends_okD _ _))
      ([.prodStart p st.pos] ++ evs ++ [.prodFinish p (st'.frame st.vars.length).pos]) (calls ++ [(p, vals)])
      ((if cap then [.lexeme st.pos (st'.frame st.vars.length).pos] else []) ++
        if (V.prods p).void then [] else [.call p vals])
    have ht : (V.env.prods p).isTok = (V.prods p).isTok := rfl
    have hy : (emit [.prodStart p st.pos] (andThen (framed st.vars.length
        (some (DRes.res ⟨.ok, st', evs, calls, vals⟩))) fun o st' =>
      match o with
      | .ok => emit [.prodFinish p st'.pos] (if (V.env.prods p).isTok then exec V.env n cx.cx .ws { st' with ex := st.ex }
          else ret .ok { st' with ex := st.ex })
      | .fail => some ⟨.fail, { st' with ex := st.ex }, [.prodCancel p st'.pos]⟩
      | .brk => none)) = emit ([.prodStart p st.pos] ++ evs ++ [.prodFinish p (st'.frame st.vars.length).pos])
        (if (V.prods p).isTok = true then exec V.env n cx.cx .ws { st'.frame st.vars.length with ex := st.ex }
        else ret .ok { st'.frame st.vars.length with ex := st.ex }) := by
      rw [ht]
      simp only [framed, Option.map_some, DRes.res, andThen]
      generalize (if (V.prods p).isTok = true then exec V.env n cx.cx .ws { st'.frame st.vars.length with ex := st.ex }
        else ret .ok { st'.frame st.vars.length with ex := st.ex }) = w
      cases w <;> simp [emit]
    simp only [hy]
    exact hk
  | fail => intro r hr; cases hr; exact ⟨0, _, by simp [DRes.res], by simp, fun _ _ => rfl⟩
  | brk => exact ends_none
  | ret pre => exact absurd rfl (hd pre)

theorem ends_tokD (cx : VCx) (k : Kind) (e : Nat) (st : St) (vs : List Val) :
    Ends (fun m => tokD (exec V.env m) cx k e st vs) (tokenDone (exec V.env n) cx.cx k e st) := by
  unfold tokD tokenDone
  exact ends_emitD (ends_leaf (endsR_exec _ _ _ _ _) _) _

theorem ends_deeper (cx : VCx) (tag : Nat) (st : St) (bd : Nat → St → Option DRes) (b : St → Option Res)
    (hb : ∀ st, Ends (fun m => bd m st) (b st)) :
    Ends (fun m => deeperD cx tag st (bd m)) (deeper cx.cx tag st b) := by
  unfold deeperD deeper
  split
  · exact ends_none
  · split
    · exact ends_fail _ _ _ _
    · exact ends_thenD' (hb _) fun st => ends_okD _ _

theorem ends_tryD (H : EH V n) (cx : VCx) (k : Nat) (rc : VRecov) (hrc : VR.stdRec rc = true)
    (hrc' : VR.totalRec V rc = true) {x : Nat → Option DRes}
    {y : Option Res} (h : Ends x y) {f : St → Nat → Option DRes} {g : St → Option Res} (hf : ∀ st, Ends (f st) (g st)) :
    Ends (fun m => tryD (dv V m) cx k rc (x m) fun st => f st m) (andThen y fun o st' =>
      match o with
      | .ok => g st'
      | .fail => exec V.env n cx.cx (.recov (VR.eraseRec rc)) (st'.frame k)
      | .brk => none) := by
  refine ends_after (F := fun m x => tryD (dv V m) cx k rc x fun st => f st m) (G := fun y => andThen y fun o st' =>
      match o with
      | .ok => g st'
      | .fail => exec V.env n cx.cx (.recov (VR.eraseRec rc)) (st'.frame k)
      | .brk => none) h rfl rfl fun d _ hd => ?_
  obtain ⟨out, st, evs, calls, vals⟩ := d
  cases out with
  | ok => exact ends_pre (hf st) evs calls vals
  | fail => exact ends_pre (H cx (.recov rc) (st.frame k) hrc hrc') evs calls []
  | brk => exact ends_none
  | ret pre => exact absurd rfl (hd pre)

/-- What ends is what it is without values. -/
theorem ends_eq {cx : VCx} {c : VCmd} {st : St} (hV : ∀ m, (V.prods m).rule.std = true) (hc : c.std = true) {k : Nat}
    {d : DRes} (h : ∀ m, k ≤ m → dv V m cx c st = some d) : exec V.env k cx.cx c.erase st = some d.res :=
  (erase_sim V hV k cx c st hc d (h k (Nat.le_refl _))).2

theorem ends_pas (hV : ∀ m, (V.prods m).rule.std = true) (r : VR) (hr : r.closed = true) (cx : VCx)
    (st : St) (t : Nat) (c : VCmd) (hc : c = .run r ∨ c = .fin r) {y : Option Res} (hs : c.std = true)
    (h : Ends (fun m => dv V m cx c st) y) :
    Ends (fun m => baseD st.vars.length (dv V m cx c st) fun vs st' => okD st' [.made t vs]) y := by
  intro r' hr'
  obtain ⟨k, d, rfl, h2, h3⟩ := h r' hr'
  have he := ends_eq hV hs h3
  have hb : d.out ≠ .brk := by
    have hp : r.pushable = true := by
      cases r with
      | leaf r => cases r <;> first | rfl | cases hr
      | _ => first | exact hr | cases hr
    exact pushable_nb cx r hp c hc st d (h3 k (Nat.le_refl _))
  have hv := closed_vars (V := V) (n := k) r hr c.erase (by rcases hc with rfl | rfl <;> simp [VCmd.erase]) cx.cx st _ he
  obtain ⟨out, st', evs, calls, vals⟩ := d
  have hf := frame_same st st' hv
  cases out with
  | ok =>
    refine ⟨k, ⟨.ok, st', evs, calls, [.made t vals]⟩, rfl, by simp, fun m hm => ?_⟩
    simp only [h3 m hm, baseD, okD, Option.map_some, DRes.pre, hf]
    simp
  | fail =>
    refine ⟨k, ⟨.fail, st', evs, calls, []⟩, rfl, by simp, fun m hm => ?_⟩
    simp only [h3 m hm, baseD, hf]
  | brk => exact absurd rfl hb
  | ret pre => exact absurd rfl (h2 pre)

theorem ends_loop (H : EH V n) (cx : VCx) (st : St) (item : VR) (acc : List (List Val)) (sep : Option VSep)
    (hi : item.std = true) (hs : stdSep sep = true) (ti : item.total V = true) (ts : totalSep V sep = true) :
    Ends (fun m => stepLoopD V (exec V.env m) (dv V m) cx st item acc sep)
      (step V.env (exec V.env n) cx.cx (.lstLoop item.erase (eraseSep sep)) st) := by
  have hl : ∀ acc st, Ends (fun m => dv V m cx (.lstLoop item sep acc) st)
      (exec V.env n cx.cx (.lstLoop item.erase (eraseSep sep)) st) :=
    fun acc st => H cx (.lstLoop item sep acc) st (by simp [VCmd.std, hi, hs]) (by simp [VCmd.total, ti, ts])
  cases sep with
  | none =>
    simp only [stepLoopD, eraseSep, step, ifTry_choose]
    exact ends_ite (ends_choose (endsR_exec _ _ _ _ _) (ends_baseD (H cx (.fin item) st hi ti) fun vs st => hl _ st)
      (ends_viaD' (endsR_exec _ _ _ _ _) fun st => ends_okD _ _)) ends_none
  | some s =>
    obtain ⟨s, k⟩ := s
    simp only [stepLoopD, eraseSep, step, ifTry_choose]
    refine ends_choose (endsR_exec _ _ _ _ _) (ends_baseD (H cx (.fin s) st hs ts) fun vs st1 => ?_)
      (ends_viaD' (endsR_exec _ _ _ _ _) fun st => ends_okD _ _)
    refine ends_ite (ends_choose (endsR_exec _ _ _ _ _) (ends_baseD (H cx (.fin item) st1 hi ti) fun vs st => hl _ st)
      (ends_viaD' (endsR_exec _ _ _ _ _) fun st2 => ?_)) (ends_baseD (H cx (.run item) st1 hi ti) fun vs st => hl _ st)
    intro r hr; cases hr; exact ⟨0, _, by simp [DRes.res, DRes.pre], by simp [DRes.pre], fun _ _ => rfl⟩

theorem ends_rep (H : EH V n) (cx : VCx) (st : St) (kd : RepKind) (b k : Nat) (item : VR)
    (acc : List (List Val)) (hi : item.std = true) (ti : item.total V = true) :
    Ends (fun m => stepRepD V (dv V m) cx st kd b item none acc k)
      (step V.env (exec V.env n) cx.cx (.repTail k item.erase none) st) := by
  cases k with
  | zero =>
    simp only [stepRepD, step, vTrailing, trailingRule]
    have h : Ends (fun m => dv V m cx (.run (.leaf .els)) st) (exec V.env n cx.cx (.run .els) st) :=
      H cx (.run (.leaf .els)) st rfl rfl
    refine ends_after (F := fun m x => baseD st.vars.length x fun vs st' =>
      okD st' (repDone V cx.cur kd b st'.pos (repAcc kd acc vs))) (G := fun y => framed st.vars.length y) h rfl rfl
      fun d hd hd' => ?_
    have hn : d.res.out = .ok := by
      cases n with
      | zero => cases hd
      | succ n =>
        have : exec V.env (n + 1) cx.cx (.run .els) st = ret .ok st := rfl
        rw [this] at hd
        exact (congrArg Res.out (Option.some.inj hd)).symm
    obtain ⟨out, st', evs, calls, vals⟩ := d
    cases out with
    | ok => intro r hr; cases hr; exact ⟨0, _, by simp [DRes.res, DRes.pre], by simp [DRes.pre], fun _ _ => rfl⟩
    | fail => cases hn
    | brk => cases hn
    | ret pre => exact absurd rfl (hd' pre)
  | succ k =>
    simp only [stepRepD, step]
    have h := ends_baseD (n := st.vars.length) (f := fun m vs st => dv V m cx (.repTail kd b k item none (repAcc kd acc vs)) st)
      (g := fun st => exec V.env n cx.cx (.repTail k item.erase none) st) (H cx (.run item) st hi ti) fun vs st =>
      H cx (.repTail kd b k item none (repAcc kd acc vs)) st (by simp [VCmd.std, hi, stdSep]) (by simp [VCmd.total, ti])
    have e : ∀ f : St → Option Res, onOk' (ret .ok st) f = f st := by
      intro f
      simp only [onOk', andThen, ret, List.nil_append]
      cases f st <;> rfl
    rw [e]
    exact h

theorem ends_rep1 (hV : ∀ m, (V.prods m).rule.std = true) (H : EH V n) (r : VR) (hr : r.closed = true) (c : VCmd)
    (hc : c = .run r ∨ c = .fin r) (hs : c.std = true) (hs' : c.total V = true) (cx : VCx) (st : St) (kd : RepKind)
    (f : List Nat → Nat) (item : VR) (hi : item.std = true) (ti : item.total V = true) :
    Ends (fun m => baseD st.vars.length (dv V m cx c st) fun _ st1 => repD V (dv V m) cx kd f item none st.pos st1)
      (onOk' (exec V.env n cx.cx c.erase st) fun st' =>
        match f ((V.env.inp.take st'.pos).drop st.pos) with
        | 0 => ret .ok st'
        | m + 1 => onOk' (framed st'.vars.length (exec V.env n cx.cx (.run item.erase) st')) fun st'' =>
          exec V.env n cx.cx (.repTail m item.erase none) st'') := by
  have hf : framed st.vars.length (exec V.env n cx.cx c.erase st) = exec V.env n cx.cx c.erase st := by
    cases hx : exec V.env n cx.cx c.erase st with
    | none => rfl
    | some x =>
      have hv := closed_vars r hr c.erase (by rcases hc with rfl | rfl <;> simp [VCmd.erase]) cx.cx st x hx
      show some { x with st := x.st.frame st.vars.length } = some x
      rw [frame_same st x.st hv]
  have := ends_baseD (n := st.vars.length) (f := fun m _ st1 => repD V (dv V m) cx kd f item none st.pos st1)
    (g := fun st' =>
        match f ((V.env.inp.take st'.pos).drop st.pos) with
        | 0 => ret .ok st'
        | m + 1 => onOk' (framed st'.vars.length (exec V.env n cx.cx (.run item.erase) st')) fun st'' =>
          exec V.env n cx.cx (.repTail m item.erase none) st'') (H cx c st hs hs') fun vs st1 => ?_
  · rwa [hf] at this
  · show Ends (fun m => repD V (dv V m) cx kd f item none st.pos st1) (match f ((V.inp.take st1.pos).drop st.pos) with
        | 0 => ret .ok st1
        | m + 1 => onOk' (framed st1.vars.length (exec V.env n cx.cx (.run item.erase) st1)) fun st'' =>
          exec V.env n cx.cx (.repTail m item.erase none) st'')
    cases hm : f ((V.inp.take st1.pos).drop st.pos) with
    | zero => simp only [repD, hm]; exact ends_okD _ _
    | succ m =>
      simp only [repD, hm]
      exact ends_baseD (H cx (.run item) st1 hi ti) fun vs st =>
        H cx (.repTail kd st1.pos m item none _) st (by simp [VCmd.std, hi, stdSep]) (by simp [VCmd.total, ti])

theorem ends_lt (H : EH V n) (cx : VCx) (st : St) (s : LtSt) (term item : VR) (sep : Option VSep)
    (limit : List Nat → Bool) (acc : List (List Val)) (ht : term.std = true) (hi : item.std = true)
    (hs : stdSep sep = true) (tt : term.total V = true) (ti : item.total V = true) (ts : totalSep V sep = true) :
    Ends (fun m => stepLtD V (exec V.env m) (dv V m) cx st term item sep limit acc s)
      (step V.env (exec V.env n) cx.cx (VCmd.erase (.lt s term item sep limit acc)) st) := by
  have hl : ∀ s acc st, Ends (fun m => dv V m cx (.lt s term item sep limit acc) st)
      (exec V.env n cx.cx (VCmd.erase (.lt s term item sep limit acc)) st) :=
    fun s acc st => H cx (.lt s term item sep limit acc) st (by simp [VCmd.std, ht, hi, hs])
      (by simp [VCmd.total, tt, ti, ts])
  have hok : ∀ (st : St) evs vs, Ends (fun _ => emitD evs (okD st vs)) (some ⟨.ok, st, evs⟩) := by
    intro st evs vs r hr; cases hr; exact ⟨0, _, by simp [DRes.res, DRes.pre], by simp [DRes.pre], fun _ _ => rfl⟩
  have hR : ∀ (c : Cmd) (st : St), EndsR (fun m => exec V.env m cx.cx c st) (exec V.env n cx.cx c st) :=
    fun c st => endsR_exec _ _ _ _ _
  have hg : ∀ b st, Ends (fun m => ltGiveUpD V (exec V.env m) (dv V m) cx b term item sep limit acc st)
      (choose (exec V.env n cx.cx (.btry term.erase) st) (some ⟨.ok, st, skipped b st true⟩)
        (onOk' (exec V.env n cx.cx (.bcancel term.erase) st) fun st2 =>
          if limit (V.env.inp.drop st2.pos) || peekEof V.env.eof (V.env.inp.drop st2.pos) then
            some ⟨.fail, st2, skipped b st2 false⟩
          else exec V.env n cx.cx (.ltRec b term.erase item.erase (eraseSep sep) limit) { st2 with pos := st2.pos + 1 })) :=
    fun b st => by
      unfold ltGiveUpD
      exact ends_choose (hR _ _) (hok _ _ _) (ends_viaD' (hR _ _) fun st => ends_ite (ends_fail _ _ _ _) (hl (.reco b) _ _))
  cases s with
  | term => exact ends_choose (hR _ _) (ends_okD _ _) (ends_viaD' (hR _ _) fun st => hl .sep _ _)
  | sep =>
    cases sep with
    | none => exact hl .item _ _
    | some s =>
      obtain ⟨s, k⟩ := s
      simp only [stepLtD, VCmd.erase, step, eraseSep, ifTry_choose]
      refine ends_tryBaseD (H cx (.run s) st hs ts) (fun vs st1 => hl (.trail _) _ _) (fun st1 => ?_) fun _ => rfl
      refine ends_ite (ends_choose (hR _ _) (ends_tryBaseD (H cx (.fin item) st1 hi ti) (fun vs st2 => hl .term _ _)
          (fun st2 => ?_) fun _ => rfl)
        (ends_viaD' (hR _ _) fun st2 => ends_emitD (hl (.reco _) _ _) _)) (ends_emitD (hl (.reco _) _ _) _)
      exact ends_evsD (hR _ _) (ends_emitD (hl (.reco _) _ _) _)
  | trail p =>
    refine ends_choose (hR _ _) ?_ (hl .item _ _)
    cases sep <;> exact hok _ _ _
  | item =>
    simp only [stepLtD, VCmd.erase, step]
    exact ends_tryBaseD (H cx (.run item) st hi ti) (fun vs st1 => hl .term _ _)
      (fun st1 => ends_emitD (hl (.reco _) _ _) _) fun _ => rfl
  | reco b =>
    cases sep with
    | none =>
      simp only [stepLtD, VCmd.erase, step, eraseSep, ifTry_choose]
      exact ends_ite (ends_choose (hR _ _) (ends_emitD (ends_tryBaseD (H cx (.fin item) st hi ti) (fun vs st1 => hl .term _ _)
        (fun st1 => ends_emitD (hl (.reco _) _ _) _) fun _ => rfl) _) (ends_viaD' (hR _ _) fun st => hg b st)) (hg b st)
    | some s =>
      obtain ⟨s, k⟩ := s
      simp only [stepLtD, VCmd.erase, step, eraseSep, ifTry_choose]
      exact ends_choose (hR _ _) (ends_emitD (ends_tryBaseD (H cx (.fin s) st hs ts) (fun vs st1 => hl (.trail _) _ _)
        (fun st1 => ends_emitD (hl (.reco _) _ _) _) fun _ => rfl) _) (ends_viaD' (hR _ _) fun st => hg b st)

theorem endsR_prim (q : PRule) (cx : Cx) (st : St) : EndsR (fun m => primDone (exec V.env m) cx q.ws (q.parse V.inp st.pos) st)
    (primDone (exec V.env n) cx q.ws (q.parse V.inp st.pos) st) :=
  endsR_exec1 V.env (n + 1) cx (.run (.prim q)) st

theorem endsR_primFin (q : PRule) (cx : Cx) (st : St) :
    EndsR (fun m => primDone (exec V.env m) cx q.ws (q.finish V.inp st.pos) st)
    (primDone (exec V.env n) cx q.ws (q.finish V.inp st.pos) st) :=
  endsR_exec1 V.env (n + 1) cx (.bfinish (.prim q)) st

theorem ends_run (H : EH V n) (hV : ∀ m, (V.prods m).rule.std = true) (hT : ∀ m, (V.prods m).rule.total V = true)
    (cx : VCx) (st : St) (r : VR) (hr : r.std = true) (tr : r.total V = true) :
    Ends (fun m => dv V m cx (.run r) st) (exec V.env (n + 1) cx.cx (.run r.erase) st) := by
  have hR : ∀ (cx : Cx) (c : Cmd) (st : St), EndsR (fun m => exec V.env m cx c st) (exec V.env n cx c st) :=
    fun cx c st => endsR_exec _ _ _ _ _
  have hp : ∀ (p : Nat) (cx' : VCx) (st' : St), Ends (fun m => if (V.prods p).ws.isSome then
        viaD' (exec V.env m cx'.cx .ws st') fun st'' => dv V m cx' (.run (V.prods p).rule) st''
      else dv V m cx' (.run (V.prods p).rule) st')
      (if (V.env.prods p).ws.isSome then
        onOk' (exec V.env n cx'.cx .ws st') fun st'' => exec V.env n cx'.cx (.run (V.env.prods p).rule) st''
      else exec V.env n cx'.cx (.run (V.env.prods p).rule) st') := by
    intro p cx' st'
    exact ends_ite (ends_viaD' (hR _ _ _) fun st => H cx' (.run _) st (hV p) (hT p)) (H cx' (.run _) st' (hV p) (hT p))
  match r, hr, tr with
  | .leaf r, _, _ => exact ends_shift (x := fun m => dv V m cx (.run (.leaf r)) st) (ends_leaf (endsR_exec1 _ _ _ _ _) _)
  | .cap t, _, _ =>
    refine ends_shift ?_
    show Ends (fun m => stepRunD V (exec V.env m) (dv V m) cx st (.cap t)) (stepRun V.env (exec V.env n) cx.cx st (VR.erase (.cap t)))
    simp only [stepRunD, VR.erase, stepRun, tokenParse]
    exact ends_ite (ends_tokD _ _ _ _ _) (ends_fail _ _ _ _)
  | .capp p, _, tr =>
    refine ends_shift ?_
    show Ends (fun m => stepRunD V (exec V.env m) (dv V m) cx st (.capp p)) (stepRun V.env (exec V.env n) cx.cx st (VR.erase (.capp p)))
    simp only [VR.total] at tr
    simp only [stepRunD, VR.erase, stepRun, tr, if_true]
    exact ends_prodD cx p true (fun m cx' st' => if (V.prods p).ws.isSome then
        viaD' (exec V.env m cx'.cx .ws st') fun st'' => dv V m cx' (.run (V.prods p).rule) st''
      else dv V m cx' (.run (V.prods p).rule) st') _ (hp p) st
  | .val v, _, _ =>
    refine ends_shift ?_
    show Ends (fun _ => okD st [v.val]) (stepRun V.env (exec V.env n) cx.cx st (VR.erase (.val v)))
    simp only [VR.erase, stepRun, primDone, noop, emit]
    exact ends_okD _ _
  | .posr r, hr, tr =>
    refine ends_shift ?_
    show Ends (fun m => stepRunD V (exec V.env m) (dv V m) cx st (.posr r)) (stepRun V.env (exec V.env n) cx.cx st (VR.erase (.posr r)))
    simp only [stepRunD, VR.erase, stepRun]
    exact ends_emitD (ends_valD (H cx (.run r) st hr tr) _) _
  | .seq a b, hr, tr =>
    refine ends_shift ?_
    show Ends (fun m => stepRunD V (exec V.env m) (dv V m) cx st (.seq a b)) (stepRun V.env (exec V.env n) cx.cx st (VR.erase (.seq a b)))
    simp only [stepRunD, VR.erase, stepRun]
    simp only [VR.std, VR.total, Bool.and_eq_true] at hr tr
    exact ends_thenD (H cx (.run a) st hr.1 tr.1) fun st => H cx (.run b) st hr.2 tr.2
  | .br a b, hr, tr =>
    refine ends_shift ?_
    show Ends (fun m => stepRunD V (exec V.env m) (dv V m) cx st (.br a b)) (stepRun V.env (exec V.env n) cx.cx st (VR.erase (.br a b)))
    simp only [stepRunD, VR.erase, stepRun]
    simp only [VR.std, VR.total, Bool.and_eq_true] at hr tr
    exact ends_thenD (H cx (.run a) st hr.1 tr.1) fun st => H cx (.run b) st hr.2 tr.2
  | .chc rs, hr, tr =>
    refine ends_shift ?_
    simp only [VR.std] at hr
    simp only [VR.total] at tr
    rw [VR.erase]
    exact H cx (.chcRun rs) st hr tr
  | .ifR b, hr, tr =>
    refine ends_shift ?_
    show Ends (fun m => stepRunD V (exec V.env m) (dv V m) cx st (.ifR b)) (stepRun V.env (exec V.env n) cx.cx st (VR.erase (.ifR b)))
    simp only [stepRunD, VR.erase, stepRun, ifTry_choose]
    exact ends_choose (hR _ _ _) (H cx (.fin b) st hr tr) (ends_viaD' (hR _ _ _) fun st => ends_okD _ _)
  | .opt b, hr, tr =>
    refine ends_shift ?_
    show Ends (fun m => stepRunD V (exec V.env m) (dv V m) cx st (.opt b)) (stepRun V.env (exec V.env n) cx.cx st (VR.erase (.opt b)))
    simp only [stepRunD, VR.erase, stepRun, ifTry_choose]
    exact ends_choose (hR _ _ _) (H cx (.fin b) st hr tr) (ends_viaD' (hR _ _ _) fun st => ends_okD _ _)
  | .optt t b, hr, tr =>
    refine ends_shift ?_
    show Ends (fun m => stepRunD V (exec V.env m) (dv V m) cx st (.optt t b)) (stepRun V.env (exec V.env n) cx.cx st (VR.erase (.optt t b)))
    simp only [stepRunD, VR.erase, stepRun, ifTry_choose]
    simp only [VR.std, VR.total, Bool.and_eq_true] at hr tr
    exact ends_choose (hR _ _ _) (ends_valD (H cx (.fin t) st hr.1 tr.1) _)
      (ends_viaD' (hR _ _ _) fun st => H cx (.run b) st hr.2 tr.2)
  | .must b e, hr, tr =>
    refine ends_shift ?_
    show Ends (fun m => stepRunD V (exec V.env m) (dv V m) cx st (.must b e)) (stepRun V.env (exec V.env n) cx.cx st (VR.erase (.must b e)))
    simp only [stepRunD, VR.erase, stepRun, ifTry_choose]
    refine ends_choose (hR _ _ _) (H cx (.fin b) st hr tr) (ends_viaD' (hR _ _ _) fun st' => ?_)
    refine ends_afterR (F := fun _ x => match framed st.vars.length x with
        | some ⟨.fail, st'', evs⟩ => some ⟨.fail, st'', evs, [], []⟩
        | _ => none) (G := fun y => andThen (framed st.vars.length y) fun o st'' =>
          match o with
          | .fail => ret .fail st''
          | _ => none) (hR cx.cx (.run e) st') rfl rfl fun r _ => ?_
    obtain ⟨o, s, evs⟩ := r
    cases o with
    | fail => intro r hr; cases hr; exact ⟨0, _, by simp [DRes.res], by simp, fun _ _ => rfl⟩
    | ok => exact ends_none
    | brk => exact ends_none
  | .lst item sep, hr, tr =>
    refine ends_shift ?_
    show Ends (fun m => stepRunD V (exec V.env m) (dv V m) cx st (.lst item sep)) (stepRun V.env (exec V.env n) cx.cx st (VR.erase (.lst item sep)))
    have h1 : (item.std = true ∧ stdSep sep = true) ∧ item.total V = true ∧ totalSep V sep = true := by
      cases sep with
      | none => exact ⟨⟨by simpa [VR.std] using hr, rfl⟩, by simpa [VR.total] using tr, rfl⟩
      | some s => obtain ⟨s, k⟩ := s; exact ⟨by simpa [VR.std, stdSep] using hr, by simpa [VR.total, totalSep] using tr⟩
    have h2 : VR.erase (.lst item sep) = .lst item.erase (eraseSep sep) := by
      cases sep with
      | none => simp [VR.erase, eraseSep]
      | some s => obtain ⟨s, k⟩ := s; simp [VR.erase, eraseSep]
    rw [h2]
    simp only [stepRunD, stepRun]
    exact ends_baseD (H cx (.run item) st h1.1.1 h1.2.1) fun vs st =>
      H cx (.lstLoop item sep _) st (by simp [VCmd.std, h1]) (by simp [VCmd.total, h1])
  | .tryt none r rc, hr, tr =>
    refine ends_shift ?_
    show Ends (fun m => stepRunD V (exec V.env m) (dv V m) cx st (.tryt none r rc)) (stepRun V.env (exec V.env n) cx.cx st (VR.erase (.tryt none r rc)))
    simp only [stepRunD, VR.erase, stepRun]
    simp only [VR.std, VR.total, Bool.and_eq_true] at hr tr
    exact ends_tryD (f := fun st _ => okD st []) H cx _ rc hr.2 tr.2 (H cx (.run r) st hr.1 tr.1) fun st => ends_okD _ _
  | .tryt (some t) r rc, hr, tr =>
    refine ends_shift ?_
    show Ends (fun m => stepRunD V (exec V.env m) (dv V m) cx st (.tryt (some t) r rc)) (stepRun V.env (exec V.env n) cx.cx st (VR.erase (.tryt (some t) r rc)))
    simp only [stepRunD, VR.erase, stepRun]
    simp only [VR.std, VR.total, Bool.and_eq_true] at hr tr
    exact ends_tryD (f := fun st m => dv V m cx (.run t) st) H cx _ rc hr.2 tr.2 (H cx (.run r) st hr.1.2 tr.1.2)
      fun st => H cx (.run t) st hr.1.1 tr.1.1
  | .tryr r rc, hr, tr =>
    refine ends_shift ?_
    show Ends (fun m => stepRunD V (exec V.env m) (dv V m) cx st (.tryr r rc)) (stepRun V.env (exec V.env n) cx.cx st (VR.erase (.tryr r rc)))
    simp only [stepRunD, VR.erase, stepRun]
    simp only [VR.std, VR.total, Bool.and_eq_true] at hr tr
    exact ends_tryD (f := fun st _ => okD st []) H cx _ rc hr.2 tr.2 (H cx (.run r) st hr.1 tr.1) fun st => ends_okD _ _
  | .prod p, _, _ =>
    refine ends_shift ?_
    show Ends (fun m => stepRunD V (exec V.env m) (dv V m) cx st (.prod p)) (stepRun V.env (exec V.env n) cx.cx st (VR.erase (.prod p)))
    simp only [stepRunD, VR.erase, stepRun]
    exact ends_prodD cx p false (fun m cx' st' => if (V.prods p).ws.isSome then
        viaD' (exec V.env m cx'.cx .ws st') fun st'' => dv V m cx' (.run (V.prods p).rule) st''
      else dv V m cx' (.run (V.prods p).rule) st') _ (hp p) st
  | .recu p tag b, _, _ =>
    refine ends_shift ?_
    show Ends (fun m => stepRunD V (exec V.env m) (dv V m) cx st (.recu p tag b)) (stepRun V.env (exec V.env n) cx.cx st (VR.erase (.recu p tag b)))
    simp only [stepRunD, VR.erase, stepRun]
    refine ends_deeper cx tag st (fun m st' => dv V m cx (.run (.prod p)) st') _ fun st => ?_
    simpa [VCmd.erase, VR.erase] using
      H cx (.run (.prod p)) st (by simp [VCmd.std, VR.std]) (by simp [VCmd.total, VR.total])
  | .wsn r, hr, tr =>
    refine ends_shift ?_
    show Ends (fun m => stepRunD V (exec V.env m) (dv V m) cx st (.wsn r)) (stepRun V.env (exec V.env n) cx.cx st (VR.erase (.wsn r)))
    simp only [stepRunD, VR.erase, stepRun]
    exact ends_ite (H cx (.run r) st hr tr)
      (ends_thenD (f := fun m st' => viaD (exec V.env m cx.cx .ws { st' with wsOn := true }) fun st'' => okD st'' [])
        (H cx (.run r) _ hr tr) fun st => ends_leaf (hR _ _ _) _)
  | .pre a r, hr, tr =>
    rw [VR.erase]
    exact ends_shift (x := fun m => dv V m cx (.run (.pre a r)) st) (ends_valD (ends_run H hV hT cx st r hr tr) _)
  | .pas t r, hr, tr =>
    simp only [VR.std, Bool.and_eq_true] at hr
    rw [VR.erase]
    exact ends_shift (x := fun m => dv V m cx (.run (.pas t r)) st)
      (ends_pas hV r hr.2 cx st t (.run r) (.inl rfl) hr.1 (ends_run H hV hT cx st r hr.1 tr))
  | .comb tag rs els, hr, tr =>
    refine ends_shift ?_
    show Ends (fun m => stepRunD V (exec V.env m) (dv V m) cx st (.comb tag rs els)) (stepRun V.env (exec V.env n) cx.cx st (VR.erase (.comb tag rs els)))
    simp only [VR.std] at hr
    simp only [VR.total] at tr
    simp only [stepRunD, VR.erase, stepRun]
    have e := H cx (.combLoop tag (combVRules rs els) rs.length [] 0 []) { st with idx := 0 }
      (by simp [VCmd.std, std_combRules rs els hr]) (by simp [VCmd.total, total_combRules V rs els tr])
    rw [VCmd.erase, erase_combRules] at e
    have hlen : (VR.eraseL rs).length = rs.length := by rw [eraseL_map]; simp
    rw [hlen]
    exact ends_thenD' e fun st' => ends_okD _ _
  | .combIt i, _, _ =>
    refine ends_shift ?_
    rw [VR.erase]
    exact ends_okD _ _
  | .lstt term item sep limit, hr, tr =>
    refine ends_shift ?_
    show Ends (fun m => stepRunD V (exec V.env m) (dv V m) cx st (.lstt term item sep limit))
      (stepRun V.env (exec V.env n) cx.cx st (VR.erase (.lstt term item sep limit)))
    have h1 : (term.std = true ∧ item.std = true) ∧ stdSep sep = true := by
      cases sep with
      | none => exact ⟨by simpa [VR.std] using hr, rfl⟩
      | some s => obtain ⟨s, k⟩ := s; simpa [VR.std, stdSep] using hr
    have t1 : (term.total V = true ∧ item.total V = true) ∧ totalSep V sep = true := by
      cases sep with
      | none => exact ⟨by simpa [VR.total] using tr, rfl⟩
      | some s => obtain ⟨s, k⟩ := s; simpa [VR.total, totalSep] using tr
    have h2 : VR.erase (.lstt term item sep limit) = .lstt term.erase item.erase (eraseSep sep) limit := by
      cases sep with
      | none => simp [VR.erase, eraseSep]
      | some s => obtain ⟨s, k⟩ := s; simp [VR.erase, eraseSep]
    rw [h2]
    simp only [stepRunD, stepRun]
    have hl : ∀ s acc st, Ends (fun m => dv V m cx (.lt s term item sep limit acc) st)
        (exec V.env n cx.cx (VCmd.erase (.lt s term item sep limit acc)) st) :=
      fun s acc st => H cx (.lt s term item sep limit acc) st (by simp [VCmd.std, h1]) (by simp [VCmd.total, t1])
    exact ends_thenD' (ends_tryBaseD (H cx (.run item) st h1.1.2 t1.1.2) (fun vs st => hl .term _ _)
        (fun st => ends_emitD (hl (.reco _) _ _) _) fun _ => rfl) fun st => H cx (.fin term) st h1.1.1 t1.1.1
  | .prim q, _, _ =>
    refine ends_shift ?_
    rw [VR.erase]
    exact ends_leaf (endsR_prim q.rule cx.cx st) _
  | .rep kd c f item none, hr, tr =>
    refine ends_shift ?_
    have h1 : (c.std = true ∧ c.closed = true) ∧ item.std = true := by simpa [VR.std] using hr
    have t1 : c.total V = true ∧ item.total V = true := by simpa [VR.total] using tr
    have h2 : VR.erase (.rep kd c f item none) = .rep c.erase f item.erase none := by simp [VR.erase]
    rw [h2]
    exact ends_rep1 hV H c h1.1.2 (.run c) (.inl rfl) h1.1.1 t1.1 cx st kd f item h1.2 t1.2
  | .cntPush id r sign, hr, tr =>
    refine ends_shift ?_
    simp only [VR.std, Bool.and_eq_true] at hr
    rw [VR.erase]
    show Ends (fun m => stepRunD V (exec V.env m) (dv V m) cx st (.cntPush id r sign))
      (stepRun V.env (exec V.env n) cx.cx st (.cntPush id r.erase sign))
    simp only [stepRunD, stepRun]
    exact ends_frontD (f := fun _ => pushD id sign st.pos) (H cx (.run r) st hr.1 tr) fun st' => ends_pushD _ _ _ _
  | .idCap id q, _, _ =>
    refine ends_shift ?_
    rw [VR.erase]
    show Ends (fun m => stepRunD V (exec V.env m) (dv V m) cx st (.idCap id q))
      (stepRun V.env (exec V.env n) cx.cx st (.idCap id q.rule q.len))
    simp only [stepRunD, stepRun]
    exact ends_viaD' (f := fun _ => identD id ((V.inp.drop st.pos).take (q.len (V.inp.drop st.pos)))
      [.lexeme st.pos (st.pos + q.len (V.inp.drop st.pos))]) (endsR_prim q.rule cx.cx st) fun st' => ends_identD _ _ _ _
termination_by sizeOf r

theorem ends_fin (H : EH V n) (hV : ∀ m, (V.prods m).rule.std = true) (hT : ∀ m, (V.prods m).rule.total V = true)
    (cx : VCx) (st : St) (r : VR) (hr : r.std = true) (tr : r.total V = true) :
    Ends (fun m => dv V m cx (.fin r) st) (exec V.env (n + 1) cx.cx (.bfinish r.erase) st) := by
  have hR : ∀ (cx : Cx) (c : Cmd) (st : St), EndsR (fun m => exec V.env m cx c st) (exec V.env n cx c st) :=
    fun cx c st => endsR_exec _ _ _ _ _
  match r, hr, tr with
  | .leaf r, _, _ => exact ends_shift (x := fun m => dv V m cx (.fin (.leaf r)) st) (ends_leaf (endsR_exec1 _ _ _ _ _) _)
  | .cap t, _, _ =>
    refine ends_shift ?_
    rw [VR.erase]
    exact ends_tokD _ _ _ _ _
  | .capp p, _, tr =>
    refine ends_shift ?_
    show Ends (fun m => stepFinD V (exec V.env m) (dv V m) cx st (.capp p)) (stepFinish V.env (exec V.env n) cx.cx st (VR.erase (.capp p)))
    simp only [VR.total] at tr
    simp only [stepFinD, VR.erase, stepFinish, tr, if_true]
    exact ends_prodD cx p true (fun m cx' st' => dv V m cx' (.fin (V.prods p).rule) st') _
      (fun cx' st' => H cx' (.fin _) st' (hV p) (hT p)) st
  | .val v, _, _ =>
    refine ends_shift ?_
    show Ends (fun _ => okD st [v.val]) (stepFinish V.env (exec V.env n) cx.cx st (VR.erase (.val v)))
    simp only [VR.erase, stepFinish, primDone, noop, emit]
    exact ends_okD _ _
  | .posr r, hr, tr =>
    refine ends_shift ?_
    show Ends (fun m => stepFinD V (exec V.env m) (dv V m) cx st (.posr r)) (stepFinish V.env (exec V.env n) cx.cx st (VR.erase (.posr r)))
    simp only [stepFinD, VR.erase, stepFinish]
    exact ends_emitD (ends_valD (H cx (.fin r) st hr tr) _) _
  | .br a b, hr, tr =>
    refine ends_shift ?_
    show Ends (fun m => stepFinD V (exec V.env m) (dv V m) cx st (.br a b)) (stepFinish V.env (exec V.env n) cx.cx st (VR.erase (.br a b)))
    simp only [stepFinD, VR.erase, stepFinish]
    simp only [VR.std, VR.total, Bool.and_eq_true] at hr tr
    exact ends_thenD (H cx (.fin a) st hr.1 tr.1) fun st => H cx (.run b) st hr.2 tr.2
  | .chc rs, hr, tr =>
    refine ends_shift ?_
    simp only [VR.std] at hr
    simp only [VR.total] at tr
    rw [VR.erase]
    exact H cx (.chcFin rs) st hr tr
  | .must b e, hr, tr =>
    refine ends_shift ?_
    rw [VR.erase]
    exact H cx (.fin b) st hr tr
  | .lst item sep, hr, tr =>
    refine ends_shift ?_
    show Ends (fun m => stepFinD V (exec V.env m) (dv V m) cx st (.lst item sep)) (stepFinish V.env (exec V.env n) cx.cx st (VR.erase (.lst item sep)))
    have h1 : (item.std = true ∧ stdSep sep = true) ∧ item.total V = true ∧ totalSep V sep = true := by
      cases sep with
      | none => exact ⟨⟨by simpa [VR.std] using hr, rfl⟩, by simpa [VR.total] using tr, rfl⟩
      | some s => obtain ⟨s, k⟩ := s; exact ⟨by simpa [VR.std, stdSep] using hr, by simpa [VR.total, totalSep] using tr⟩
    have h2 : VR.erase (.lst item sep) = .lst item.erase (eraseSep sep) := by
      cases sep with
      | none => simp [VR.erase, eraseSep]
      | some s => obtain ⟨s, k⟩ := s; simp [VR.erase, eraseSep]
    rw [h2]
    simp only [stepFinD, stepFinish]
    exact ends_baseD (H cx (.fin item) st h1.1.1 h1.2.1) fun vs st =>
      H cx (.lstLoop item sep _) st (by simp [VCmd.std, h1]) (by simp [VCmd.total, h1])
  | .tryr r rc, hr, tr =>
    refine ends_shift ?_
    show Ends (fun m => stepFinD V (exec V.env m) (dv V m) cx st (.tryr r rc)) (stepFinish V.env (exec V.env n) cx.cx st (VR.erase (.tryr r rc)))
    simp only [stepFinD, VR.erase, stepFinish]
    simp only [VR.std, VR.total, Bool.and_eq_true] at hr tr
    exact ends_tryD (f := fun st _ => okD st []) H cx _ rc hr.2 tr.2 (H cx (.fin r) st hr.1 tr.1) fun st => ends_okD _ _
  | .prod p, _, _ =>
    refine ends_shift ?_
    show Ends (fun m => stepFinD V (exec V.env m) (dv V m) cx st (.prod p)) (stepFinish V.env (exec V.env n) cx.cx st (VR.erase (.prod p)))
    simp only [stepFinD, VR.erase, stepFinish]
    exact ends_prodD cx p false (fun m cx' st' => dv V m cx' (.fin (V.prods p).rule) st') _
      (fun cx' st' => H cx' (.fin _) st' (hV p) (hT p)) st
  | .recu p tag b, _, _ =>
    refine ends_shift ?_
    show Ends (fun m => stepFinD V (exec V.env m) (dv V m) cx st (.recu p tag b)) (stepFinish V.env (exec V.env n) cx.cx st (VR.erase (.recu p tag b)))
    simp only [stepFinD, VR.erase, stepFinish]
    refine ends_deeper cx tag st (fun m st' => dv V m cx (.fin (.prod p)) st') _ fun st => ?_
    simpa [VCmd.erase, VR.erase] using
      H cx (.fin (.prod p)) st (by simp [VCmd.std, VR.std]) (by simp [VCmd.total, VR.total])
  | .wsn r, hr, tr =>
    refine ends_shift ?_
    show Ends (fun m => stepFinD V (exec V.env m) (dv V m) cx st (.wsn r)) (stepFinish V.env (exec V.env n) cx.cx st (VR.erase (.wsn r)))
    simp only [stepFinD, VR.erase, stepFinish]
    exact ends_thenD (f := fun m st' => viaD (exec V.env m cx.cx .ws { st' with wsOn := true }) fun st'' => okD st'' [])
      (H cx (.fin r) _ hr tr) fun st => ends_leaf (hR _ _ _) _
  | .pre a r, hr, tr =>
    rw [VR.erase]
    exact ends_shift (x := fun m => dv V m cx (.fin (.pre a r)) st) (ends_valD (ends_fin H hV hT cx st r hr tr) _)
  | .pas t r, hr, tr =>
    simp only [VR.std, Bool.and_eq_true] at hr
    rw [VR.erase]
    exact ends_shift (x := fun m => dv V m cx (.fin (.pas t r)) st)
      (ends_pas hV r hr.2 cx st t (.fin r) (.inr rfl) hr.1 (ends_fin H hV hT cx st r hr.1 tr))
  | .prim q, _, _ =>
    refine ends_shift ?_
    rw [VR.erase]
    exact ends_leaf (endsR_primFin q.rule cx.cx st) _
  | .rep kd c f item none, hr, tr =>
    refine ends_shift ?_
    have h1 : (c.std = true ∧ c.closed = true) ∧ item.std = true := by simpa [VR.std] using hr
    have t1 : c.total V = true ∧ item.total V = true := by simpa [VR.total] using tr
    have h2 : VR.erase (.rep kd c f item none) = .rep c.erase f item.erase none := by simp [VR.erase]
    rw [h2]
    exact ends_rep1 hV H c h1.1.2 (.fin c) (.inr rfl) h1.1.1 t1.1 cx st kd f item h1.2 t1.2
  | .cntPush id r sign, hr, tr =>
    refine ends_shift ?_
    simp only [VR.std, Bool.and_eq_true] at hr
    rw [VR.erase]
    show Ends (fun m => stepFinD V (exec V.env m) (dv V m) cx st (.cntPush id r sign))
      (stepFinish V.env (exec V.env n) cx.cx st (.cntPush id r.erase sign))
    simp only [stepFinD, stepFinish]
    exact ends_frontD (f := fun _ => pushD id sign st.pos) (H cx (.fin r) st hr.1 tr) fun st' => ends_pushD _ _ _ _
  | .idCap id q, _, _ =>
    refine ends_shift ?_
    rw [VR.erase]
    show Ends (fun m => stepFinD V (exec V.env m) (dv V m) cx st (.idCap id q))
      (stepFinish V.env (exec V.env n) cx.cx st (.idCap id q.rule q.len))
    simp only [stepFinD, stepFinish]
    exact ends_viaD' (f := fun _ => identD id ((V.inp.drop st.pos).take (q.len (V.inp.drop st.pos)))
      [.lexeme st.pos (st.pos + q.len (V.inp.drop st.pos))]) (endsR_primFin q.rule cx.cx st) fun st' => ends_identD _ _ _ _
  | .seq a b, _, _ => rw [VR.erase]; exact ends_none
  | .ifR b, _, _ => rw [VR.erase]; exact ends_none
  | .opt b, _, _ => rw [VR.erase]; exact ends_none
  | .optt t b, _, _ => rw [VR.erase]; exact ends_none
  | .tryt none r rc, _, _ => rw [VR.erase]; exact ends_none
  | .tryt (some t) r rc, _, _ => rw [VR.erase]; exact ends_none
  | .comb tag rs els, _, _ => rw [VR.erase]; exact ends_none
  | .combIt i, _, _ => rw [VR.erase]; exact ends_none
  | .lstt term item none limit, _, _ => rw [VR.erase]; exact ends_none
  | .lstt term item (some (s, k)) limit, _, _ => rw [VR.erase]; exact ends_none
termination_by sizeOf r

theorem ends_rec (H : EH V n) (cx : VCx) (st : St) (rc : VRecov) (hrc : VR.stdRec rc = true) (trc : VR.totalRec V rc = true) :
    Ends (fun m => dv V m cx (.recov rc) st) (exec V.env (n + 1) cx.cx (.recov (VR.eraseRec rc)) st) := by
  refine ends_shift ?_
  cases rc with
  | wrap r =>
    rw [VR.eraseRec]
    have e : Ends (fun m => thenD (dv V m cx (.run r) st) fun st' => viaD (exec V.env m cx.cx .ws st') fun st'' => okD st'' [])
        (onOk' (exec V.env n cx.cx (.run r.erase) st) fun st' => exec V.env n cx.cx .ws st') :=
      ends_thenD' (f := fun m st' => viaD (exec V.env m cx.cx .ws st') fun st'' => okD st'' []) (H cx (.run r) st hrc trc)
        fun st => ends_leaf (endsR_exec _ _ _ _ _) _
    refine ends_after (F := fun _ x => match x with
        | none => none
        | some r => match r.out with
          | .ok => some { r with evs := [.recStart st.pos] ++ r.evs ++ [.recFinish r.st.pos] }
          | .fail => some { r with evs := [.recStart st.pos] ++ r.evs ++ [.recCancel r.st.pos], vals := [] }
          | .brk => none
          | .ret pre => some { r with out := .ret (pre ++ [.flag]),
                                      evs := [.recStart st.pos] ++ r.evs ++ [.recCancel r.st.pos] })
      (G := fun y => emit [.recStart st.pos] (andThen y fun o st' =>
          match o with
          | .ok => some ⟨.ok, st', [.recFinish st'.pos]⟩
          | .fail => some ⟨.fail, st', [.recCancel st'.pos]⟩
          | .brk => none)) e rfl rfl fun d _ hd => ?_
    obtain ⟨out, st', evs, calls, vals⟩ := d
    cases out with
    | ok => intro r hr; cases hr; exact ⟨0, _, by simp [DRes.res], by simp, fun _ _ => rfl⟩
    | fail => intro r hr; cases hr; exact ⟨0, _, by simp [DRes.res], by simp, fun _ _ => rfl⟩
    | brk => exact ends_none
    | ret pre => exact absurd rfl (hd pre)
  | find l =>
    rw [VR.eraseRec]
    exact ends_leaf (e := fun m => step V.env (exec V.env m) cx.cx (.recov (.find l)) st)
      (endsR_exec1 V.env (n + 1) cx.cx (.recov (.find l)) st) _
  | reco limit rs =>
    rw [VR.eraseRec]
    exact ends_emitD (H cx (.recoLoop st.pos limit rs) st hrc trc) _

theorem ends_comb (H : EH V n) (cx : VCx) (st : St) (tag : Nat) (rs : List VR) (k : Nat) (handled : List Nat)
    (count : Nat) (acc : List (List Val)) (hr : VR.stdL rs = true) (tr : VR.totalL V rs = true) :
    Ends (fun m => dv V m cx (.combLoop tag rs k handled count acc) st)
      (exec V.env (n + 1) cx.cx (.combLoop tag (VR.eraseL rs) k handled count) st) := by
  refine ends_shift ?_
  show Ends (fun m => stepD V (exec V.env m) (dv V m) cx (.combLoop tag rs k handled count acc) st)
    (step V.env (exec V.env n) cx.cx (.combLoop tag (VR.eraseL rs) k handled count) st)
  simp only [stepD, step]
  refine ends_ite (ends_okD _ _) ?_
  have e := H cx (.chcRun rs) st hr tr
  simp only [VCmd.erase] at e
  intro r0 hr0
  cases hy : exec V.env n cx.cx (.chcRun (VR.eraseL rs)) st with
  | none => rw [hy] at hr0; cases hr0
  | some y =>
    rw [hy] at hr0 e
    obtain ⟨k1, d, rfl, h2, h3⟩ := e y rfl
    obtain ⟨out, st', evs, calls, vals⟩ := d
    cases out with
    | ok =>
      simp only [DRes.res, framed, Option.map_some, andThen] at hr0
      have h4 : ∀ handled count acc, Ends
          (fun m => dv V m cx (.combLoop tag rs k handled count acc) (st'.frame st.vars.length))
          (exec V.env n cx.cx (.combLoop tag (VR.eraseL rs) k handled count) (st'.frame st.vars.length)) :=
        fun handled count acc => H cx (.combLoop tag rs k handled count acc) _ hr tr
      obtain ⟨k2, d2, g1, g2, g3⟩ := ends_pre (ends_ite (ends_emitD (h4 handled count acc) _) (h4 _ _ _)) evs calls [] r0 hr0
      refine ⟨max k1 k2, d2, g1, g2, fun m hm => ?_⟩
      simp only [h3 m (by omega)]
      exact g3 m (by omega)
    | fail =>
      cases hr0
      exact ⟨k1, ⟨.fail, st'.frame st.vars.length, evs, calls, []⟩, by simp [DRes.res], by simp,
        fun m hm => by simp only [h3 m hm]⟩
    | brk =>
      cases hr0
      exact ⟨k1, ⟨.ok, st'.frame st.vars.length, evs, calls, sinkDone V cx.cur acc⟩, by simp [DRes.res], by simp,
        fun m hm => by simp only [h3 m hm]⟩
    | ret pre => exact absurd rfl (h2 pre)

end

/-- A rule with values ends the way it does without them. -/
theorem erase_ends (V : VEnv) (hV : ∀ m, (V.prods m).rule.std = true) (hT : ∀ m, (V.prods m).rule.total V = true)
    (n : Nat) : EH V n := by
  induction n with
  | zero => exact fun _ _ _ _ _ => ends_none
  | succ n H =>
    intro cx c st hc tc
    have hR : ∀ (c : Cmd) (st : St), EndsR (fun m => exec V.env m cx.cx c st) (exec V.env n cx.cx c st) :=
      fun c st => endsR_exec _ _ _ _ _
    cases c with
    | run r => exact ends_run H hV hT cx st r hc tc
    | fin r => exact ends_fin H hV hT cx st r hc tc
    | chcRun rs =>
      refine ends_shift ?_
      cases rs with
      | nil => exact ends_fail _ _ _ _
      | cons r rs =>
        simp only [VCmd.std, VR.stdL, VCmd.total, VR.totalL, Bool.and_eq_true] at hc tc
        show Ends (fun m => stepD V (exec V.env m) (dv V m) cx (.chcRun (r :: rs)) st)
          (step V.env (exec V.env n) cx.cx (.chcRun (VR.eraseL (r :: rs))) st)
        simp only [stepD, VR.eraseL, step, ifTry_choose]
        exact ends_choose (hR _ _) (H cx (.fin r) st hc.1 tc.1) (ends_viaD' (hR _ _) fun st => H cx (.chcRun rs) st hc.2 tc.2)
    | chcFin rs =>
      refine ends_shift ?_
      cases rs with
      | nil => exact ends_none
      | cons r rs =>
        simp only [VCmd.std, VR.stdL, VCmd.total, VR.totalL, Bool.and_eq_true] at hc tc
        show Ends (fun m => stepD V (exec V.env m) (dv V m) cx (.chcFin (r :: rs)) st)
          (step V.env (exec V.env n) cx.cx (.chcFinish (VR.eraseL (r :: rs))) st)
        simp only [stepD, VR.eraseL, step, ifTry_choose]
        exact ends_choose (hR _ _) (H cx (.fin r) st hc.1 tc.1) (ends_viaD' (hR _ _) fun st => H cx (.chcFin rs) st hc.2 tc.2)
    | lstLoop item sep acc =>
      simp only [VCmd.std, VCmd.total, Bool.and_eq_true] at hc tc
      exact ends_shift (x := fun m => dv V m cx (.lstLoop item sep acc) st) (ends_loop H cx st item acc sep hc.1 hc.2 tc.1 tc.2)
    | lt s term item sep limit acc =>
      simp only [VCmd.std, VCmd.total, Bool.and_eq_true] at hc tc
      exact ends_shift (x := fun m => dv V m cx (.lt s term item sep limit acc) st)
        (ends_lt H cx st s term item sep limit acc hc.1.1 hc.1.2 hc.2 tc.1.1 tc.1.2 tc.2)
    | repTail kd b m item sep acc =>
      simp only [VCmd.std, VCmd.total, Bool.and_eq_true] at hc tc
      cases sep with
      | none =>
        exact ends_shift (x := fun k => dv V k cx (.repTail kd b m item none acc) st)
          (ends_rep H cx st kd b m item acc hc.1 tc.1)
      | some s => cases tc.2
    | recov rc => exact ends_rec H cx st rc hc tc
    | recoLoop b limit rs =>
      refine ends_shift ?_
      show Ends (fun m => stepD V (exec V.env m) (dv V m) cx (.recoLoop b limit rs) st)
        (step V.env (exec V.env n) cx.cx (.recoLoop b limit (VR.eraseL rs)) st)
      simp only [stepD, step, ifTry_choose]
      refine ends_choose (hR _ _) (ends_emitD (H cx (.chcFin rs) st hc tc) _) (ends_viaD' (hR _ _) fun st1 => ?_)
      exact ends_ite (ends_fail _ _ _ _) (H cx (.recoLoop b limit rs) _ hc tc)
    | combLoop tag rs k handled count acc => exact ends_comb H cx st tag rs k handled count acc hc tc

/-- **A parse with values ends if the parse without values does**, the same way: with a value if it succeeds, whatever the number
    of steps, if it is large enough.  For grammars without `return_`, without the value of a counter and without `repeat` with a
    separator, where `parse_as` is used for tokens and productions and `capture` for tokens and token productions. -/
theorem C79_ends_partial {V : VEnv} {fuel n m : Nat} {x : Res} (h : runGrammar V.env fuel n m = some x)
    (hV : ∀ m, (V.prods m).rule.std = true) (hT : ∀ m, (V.prods m).rule.total V = true) :
    ∃ k r res, (∀ j, k ≤ j → parseV V j n m = some (r, res)) ∧ x = ⟨if res.isSome then .ok else .fail, r.st, r.evs⟩ := by
  have key : ∃ k r res, ∀ j, k ≤ j → parseV V j n m = some (r, res) := by
    have hrun : runGrammar V.env fuel n m = emit [.grammarStart 0, .prodStart n 0]
      (andThen (onOk' (exec V.env fuel (V.cx0 n m).cx .ws { pos := 0 }) fun st =>
        exec V.env fuel (V.cx0 n m).cx (.run (V.prods n).rule.erase) st) fun o st =>
        match o with
        | .ok => some ⟨.ok, st, [.prodFinish n st.pos, .grammarFinish st.pos]⟩
        | .fail => some ⟨.fail, st, [.prodCancel n st.pos, .grammarCancel st.pos]⟩
        | .brk => none) := rfl
    rw [hrun] at h
    have hp : ∀ j, parseV V j n m = match viaC' (exec V.env j (V.cx0 n m).cx .ws { pos := 0 }) fun st =>
        resume n (kFinal n) [] (dv V j (V.cx0 n m) (.run (V.prods n).rule) st) with
      | none => none
      | some r => match r.out with
        | .final vs => some
            (r.pre [.grammarStart 0, .prodStart n 0] [] |> fun r' =>
              { r' with evs := r'.evs ++ [.prodFinish n r.st.pos, .grammarFinish r.st.pos] }, some (.call n vs))
        | .fail => some
            (r.pre [.grammarStart 0, .prodStart n 0] [] |> fun r' =>
              { r' with evs := r'.evs ++ [.prodCancel n r.st.pos, .grammarCancel r.st.pos] }, none)
        | _ => none := by
      intro j
      unfold parseV
      simp only [C79_continuations]
      rfl
    simp only [hp]
    cases hw : exec V.env fuel (V.cx0 n m).cx .ws { pos := 0 } with
    | none => rw [hw] at h; cases h
    | some w =>
      rw [hw] at h
      obtain ⟨o, st0, evs0⟩ := w
      cases o with
      | fail => exact ⟨fuel, _, _, fun j hj => by rw [exec_mono hj hw]; rfl⟩
      | brk => cases h
      | ok =>
        cases hd : exec V.env fuel (V.cx0 n m).cx (.run (V.prods n).rule.erase) st0 with
        | none => simp only [onOk', andThen, hd] at h; cases h
        | some d0 =>
          obtain ⟨k, d, rfl, h2, h3⟩ := erase_ends V hV hT fuel (V.cx0 n m) (.run (V.prods n).rule) st0 (hV n) (hT n) d0 hd
          obtain ⟨out, st, evs, calls, vals⟩ := d
          cases out with
          | ok => exact ⟨max fuel k, _, _, fun j hj => by
              rw [exec_mono (Nat.le_trans (Nat.le_max_left _ _) hj) hw]
              simp only [viaC', h3 j (Nat.le_trans (Nat.le_max_right _ _) hj), resume_ok, kFinal, emitC, Option.map_some]
              rfl⟩
          | fail => exact ⟨max fuel k, _, _, fun j hj => by
              rw [exec_mono (Nat.le_trans (Nat.le_max_left _ _) hj) hw]
              simp only [viaC', h3 j (Nat.le_trans (Nat.le_max_right _ _) hj)]
              rfl⟩
          | brk => simp only [onOk', andThen, hd, DRes.res] at h; cases h
          | ret pre => exact absurd rfl (h2 pre)
  obtain ⟨k, r, res, hk⟩ := key
  refine ⟨k, r, res, hk, ?_⟩
  have h1 := C79_parsing_partial (hk (max fuel k) (Nat.le_max_right _ _)) hV
  have h2 : runGrammar V.env (max fuel k) n m = some x := runGrammar_mono (Nat.le_max_left _ _) h
  rw [h1] at h2
  exact (Option.some.inj h2).symm

end Verif.Val
