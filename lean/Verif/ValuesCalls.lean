import Verif.ValuesObsProps

/-
Which callbacks are called: one for each production that is finished.
-/

namespace Verif.Val

/-- The productions that were finished, in the order in which they were. -/
def Spec.finished : List Ev → List Nat
  | [] => []
  | .prodFinish n _ :: evs => n :: Spec.finished evs
  | _ :: evs => Spec.finished evs

open Spec

theorem finished_append (a b : List Ev) : finished (a ++ b) = finished a ++ finished b := by
  induction a with
  | nil => rfl
  | cons ev a ih => cases ev <;> simp only [List.cons_append, finished, ih]

theorem finished_errors (evs : List Ev) : finished (evs.filter Ev.isError) = [] := by
  induction evs with
  | nil => rfl
  | cons ev evs ih => cases ev <;> simp [List.filter_cons, Ev.isError, finished, ih]

/-- No production was finished. -/
def Quiet (x : Option Res) : Prop := ∀ r, x = some r → finished r.evs = []

section

variable {E : Env}

theorem quiet_none : Quiet none := fun _ h => by cases h
theorem quiet_ret {o : Out} {st : St} : Quiet (ret o st) := fun _ h => by cases h; rfl

theorem quiet_andThen {x : Option Res} {f : Out → St → Option Res} (h : Quiet x) (hf : ∀ o st, Quiet (f o st)) :
    Quiet (andThen x f) := by
  intro r hr
  cases x with
  | none => cases hr
  | some y =>
    unfold andThen at hr
    cases hy : f y.out y.st with
    | none => simp [hy] at hr
    | some z =>
      simp only [hy, Option.map_some, Option.some.injEq] at hr
      subst hr
      simp [finished_append, h y rfl, hf _ _ z hy]

theorem quiet_onOk' {x : Option Res} {f : St → Option Res} (h : Quiet x) (hf : ∀ st, Quiet (f st)) :
    Quiet (onOk' x f) := by
  refine quiet_andThen h fun o st => ?_
  cases o with
  | ok => exact hf st
  | fail => exact quiet_ret
  | brk => exact quiet_none

theorem quiet_tokLoop (n : Nat) (cx : Cx) (r : Rule) (st : St) : Quiet (exec E n cx (.tokLoop r) st) := by
  induction n generalizing st with
  | zero => exact quiet_none
  | succ n ih =>
    rw [exec_succ]
    simp only [step]
    split
    · exact quiet_none
    · split
      · exact ih _
      · exact quiet_ret

theorem quiet_ws (n : Nat) (cx : Cx) (st : St) : Quiet (exec E n cx .ws st) := by
  cases n with
  | zero => exact quiet_none
  | succ n =>
    rw [exec_succ]
    simp only [step]
    split
    · exact quiet_ret
    · split
      · cases n with
        | zero => exact quiet_none
        | succ n =>
          rw [exec_succ]
          simp only [step]
          split
          · exact quiet_onOk' (quiet_tokLoop _ _ _ _) fun st => fun r h => by cases h; rfl
          · split
            · exact quiet_none
            · intro r h
              cases h
              simp [finished_append, finished_errors, finished]
      · exact quiet_ret

theorem quiet_cancel (n : Nat) (cx : Cx) (c : Cmd) (st : St) (hc : (∃ r, c = .bcancel r) ∨ ∃ rs, c = .chcCancel rs) :
    Quiet (exec E n cx c st) := by
  induction n generalizing c st with
  | zero => exact quiet_none
  | succ n ih =>
    rw [exec_succ]
    rcases hc with ⟨r, rfl⟩ | ⟨rs, rfl⟩
    · show Quiet (stepCancel E (exec E n) cx st r)
      cases r with
      | br c r => exact ih _ _ (.inl ⟨_, rfl⟩)
      | chc rs => exact ih _ _ (.inr ⟨_, rfl⟩)
      | must b e => exact ih _ _ (.inl ⟨_, rfl⟩)
      | lst item sep => exact ih _ _ (.inl ⟨_, rfl⟩)
      | tryr r rc => exact ih _ _ (.inl ⟨_, rfl⟩)
      | recu m tag b => exact ih _ _ (.inl ⟨_, rfl⟩)
      | wsn r => exact ih _ _ (.inl ⟨_, rfl⟩)
      | posr r => exact ih _ _ (.inl ⟨_, rfl⟩)
      | cntPush id r s => exact ih _ _ (.inl ⟨_, rfl⟩)
      | rep c f item sep => exact ih _ _ (.inl ⟨_, rfl⟩)
      | prod m =>
        simp only [stepCancel]
        intro r h
        cases hx : exec E n cx (.bcancel (E.prods m).rule) st with
        | none => simp [hx, andThen, emit] at h
        | some x =>
          simp only [hx, andThen, emit, Option.map_some, Option.some.injEq] at h
          subst h
          simp [finished, finished_append, ih _ _ (.inl ⟨_, rfl⟩) x hx]
      | peek tag r =>
        simp only [stepCancel]
        split
        · exact quiet_none
        · intro r h; cases h; rfl
      | peekn tag r =>
        simp only [stepCancel]
        split
        · exact quiet_none
        · intro r h; cases h; rfl
      | look tag l => intro r h; cases h; rfl
      | _ => exact quiet_ret
    · cases rs with
      | nil => exact quiet_ret
      | cons r rs =>
        simp only [step]
        exact quiet_onOk' (ih _ _ (.inl ⟨_, rfl⟩)) fun st => ih _ _ (.inr ⟨_, rfl⟩)

end

/-- The rule `repeat` parses behind its last item, if it is not made of the separator itself. -/
def nsepParts (s : VR) : SepKind → List Rule
  | .sep tag => [.nsep tag s.erase]
  | _ => []

mutual
/-- The rules whose values are not modelled in a rule, and those without parts. -/
def VR.parts : VR → List Rule
  | .leaf r => [r]
  | .cap _ | .capp _ | .val _ | .prod _ | .recu .. | .combIt _ | .ret | .cntVal _ => []
  | .prim q => [.prim q.rule]
  | .idCap _ q => [.prim q.rule]
  | .posr r | .wsn r | .pre _ r | .pas _ r | .ifR r | .opt r | .cntPush _ r _ => r.parts
  | .must r e => r.parts ++ [e]
  | .seq a b | .br a b | .optt a b => a.parts ++ b.parts
  | .chc rs | .comb _ rs _ => VR.partsL rs
  | .lst item none => item.parts
  | .lst item (some (s, _)) => item.parts ++ s.parts
  | .lstt term item none _ => term.parts ++ item.parts
  | .lstt term item (some (s, _)) _ => term.parts ++ (item.parts ++ s.parts)
  | .rep _ c _ item none => c.parts ++ item.parts
  | .rep _ c _ item (some (s, k)) => c.parts ++ (item.parts ++ (s.parts ++ nsepParts s k))
  | .tryt none r rc => r.parts ++ VR.partsRec rc
  | .tryt (some t) r rc => t.parts ++ (r.parts ++ VR.partsRec rc)
  | .tryr r rc => r.parts ++ VR.partsRec rc
def VR.partsL : List VR → List Rule
  | [] => []
  | r :: rs => r.parts ++ VR.partsL rs
def VR.partsRec : VRecovOf VR → List Rule
  | .wrap r => r.parts
  | .find _ => []
  | .reco _ rs => VR.partsL rs
end

def sepParts : Option VSep → List Rule
  | none => []
  | some (s, _) => s.parts

def trailParts : Option VSep → List Rule
  | none => []
  | some (s, k) => s.parts ++ nsepParts s k

def VCmd.parts : VCmd → List Rule
  | .run r | .fin r => r.parts
  | .chcRun rs | .chcFin rs | .recoLoop _ _ rs | .combLoop _ rs _ _ _ _ => VR.partsL rs
  | .lstLoop item sep _ => item.parts ++ sepParts sep
  | .lt _ term item sep _ _ => term.parts ++ (item.parts ++ sepParts sep)
  | .repTail _ _ _ item sep _ => item.parts ++ trailParts sep
  | .recov rc => VR.partsRec rc

/-- The rule finishes no productions. -/
def QuietRule (V : VEnv) (r : Rule) : Prop :=
  ∀ n cx st, Quiet (exec V.env n cx (.run r) st) ∧ Quiet (exec V.env n cx (.bfinish r) st)

theorem quiet_tokenDone {V : VEnv} {n : Nat} {cx : Cx} {k : Kind} {e : Nat} {st : St} :
    Quiet (tokenDone (exec V.env n) cx k e st) := by
  intro r h
  unfold tokenDone emit at h
  cases hw : exec V.env n cx .ws { st with pos := e } with
  | none => rw [hw] at h; cases h
  | some w =>
    rw [hw] at h
    cases h
    simpa [finished] using quiet_ws _ _ _ w hw

theorem quiet_tok (V : VEnv) (t : PTok) : QuietRule V (.tok t) := by
  intro n cx st
  cases n with
  | zero => exact ⟨quiet_none, quiet_none⟩
  | succ n =>
    refine ⟨?_, quiet_tokenDone⟩
    show Quiet (stepRun V.env (exec V.env n) cx st (.tok t))
    simp only [stepRun, tokenParse]
    split
    · exact quiet_tokenDone
    · intro r h; cases h; rfl

theorem quiet_primDone {V : VEnv} {n : Nat} {cx : Cx} {ws : Bool} {r : Bool × Nat × List Ev} {st : St}
    (h : finished r.2.2 = []) : Quiet (primDone (exec V.env n) cx ws r st) := by
  have key : ∀ x, Quiet x → Quiet (emit r.2.2 x) := by
    intro x hx y hy
    unfold emit at hy
    rw [Option.map_eq_some_iff] at hy
    obtain ⟨z, hz, rfl⟩ := hy
    simp [finished_append, h, hx z hz]
  unfold primDone
  refine key _ ?_
  split
  · split
    · exact quiet_ws _ _ _
    · exact quiet_ret
  · exact quiet_ret

/-- A rule without parts, if its events are not about productions. -/
theorem quiet_prim (V : VEnv) {p : PRule} (h : ∀ s q, finished (p.parse s q).2.2 = [])
    (h' : ∀ s q, finished (p.finish s q).2.2 = []) : QuietRule V (.prim p) := by
  intro n cx st
  cases n with
  | zero => exact ⟨quiet_none, quiet_none⟩
  | succ n => exact ⟨quiet_primDone (h _ _), quiet_primDone (h' _ _)⟩

theorem quiet_els (V : VEnv) : QuietRule V .els := by
  intro n cx st
  cases n with
  | zero => exact ⟨quiet_none, quiet_none⟩
  | succ n =>
    refine ⟨quiet_ret, ?_⟩
    cases n with
    | zero => exact quiet_none
    | succ n => exact quiet_ret

theorem quiet_brk (V : VEnv) : QuietRule V .brk := by
  intro n cx st
  cases n with
  | zero => exact ⟨quiet_none, quiet_none⟩
  | succ n =>
    have : ∀ m, Quiet (exec V.env m cx (.run .brk) st) := by
      intro m r h
      cases m with
      | zero => cases h
      | succ m => cases h; rfl
    exact ⟨this _, this _⟩

theorem quiet_err (V : VEnv) (tag : Nat) : QuietRule V (.err tag none) := by
  intro n cx st
  have : ∀ m, Quiet (exec V.env m cx (.run (.err tag none)) st) := by
    intro m r h
    cases m with
    | zero => cases h
    | succ m => cases h; rfl
  refine ⟨this n, ?_⟩
  cases n with
  | zero => exact quiet_none
  | succ n => exact this n

section

/-- For each production that was finished there is a call of its callback. -/
def Called (x : Option DRes) : Prop := ∀ d, x = some d → finished d.evs = d.calls.map Prod.fst

variable {x : Option DRes}

theorem called_none : Called none := fun _ h => by cases h

theorem called_okD {st : St} {vs : List Val} : Called (okD st vs) := fun _ h => by cases h; rfl

theorem called_some {o : DOut} {st : St} {evs : List Ev} {calls vs} (h : finished evs = calls.map Prod.fst) :
    Called (some ⟨o, st, evs, calls, vs⟩) := fun _ hd => by cases hd; exact h

theorem called_pre {evs : List Ev} {calls vs} (h : finished evs = calls.map Prod.fst) (hx : Called x) :
    Called (x.map (DRes.pre evs calls vs)) := by
  intro d hd
  cases x with
  | none => cases hd
  | some r =>
    cases hd
    simp [DRes.pre, finished_append, h, hx r rfl]

theorem called_emitD {evs : List Ev} (h : finished evs = []) (hx : Called x) : Called (emitD evs x) := called_pre h hx
theorem called_valD {vs : List Val} (hx : Called x) : Called (valD vs x) := called_pre rfl hx

theorem called_thenD {f : St → Option DRes} (h : Called x) (hf : ∀ st, Called (f st)) : Called (thenD x f) := by
  cases x with
  | none => exact called_none
  | some r =>
    have hr := h r rfl
    obtain ⟨out, st, evs, calls, vals⟩ := r
    cases out with
    | ok => exact called_pre hr (hf st)
    | _ => exact h

theorem called_viaD {y : Option Res} {f : St → Option DRes} (h : Quiet y) (hf : ∀ st, Called (f st)) :
    Called (viaD y f) := by
  cases y with
  | none => exact called_none
  | some r =>
    have hr := h r rfl
    obtain ⟨out, st, evs⟩ := r
    cases out with
    | ok => exact called_emitD hr (hf st)
    | fail => exact called_some hr
    | brk => exact called_some hr

theorem called_viaD' {y : Option Res} {f : St → Option DRes} (h : Quiet y) (hf : ∀ st, Called (f st)) :
    Called (viaD' y f) := by
  cases y with
  | none => exact called_none
  | some r =>
    have hr := h r rfl
    obtain ⟨out, st, evs⟩ := r
    cases out with
    | ok => exact called_emitD hr (hf st)
    | fail => exact called_some hr
    | brk => exact called_none

theorem called_baseD {n : Nat} {f : List Val → St → Option DRes} (h : Called x) (hf : ∀ vs st, Called (f vs st)) :
    Called (baseD n x f) := by
  cases x with
  | none => exact called_none
  | some r =>
    have hr := h r rfl
    obtain ⟨out, st, evs, calls, vals⟩ := r
    cases out with
    | ok => exact called_pre hr (hf _ _)
    | fail => exact called_some hr
    | brk => exact called_none
    | ret => exact called_none

theorem called_tryBaseD {n : Nat} {f : List Val → St → Option DRes} {g : St → Option DRes} (h : Called x)
    (hf : ∀ vs st, Called (f vs st)) (hg : ∀ st, Called (g st)) : Called (tryBaseD n x f g) := by
  cases x with
  | none => exact called_none
  | some r =>
    have hr := h r rfl
    obtain ⟨out, st, evs, calls, vals⟩ := r
    cases out with
    | ok => exact called_pre hr (hf _ _)
    | fail => exact called_pre hr (hg _)
    | brk => exact called_none
    | ret => exact called_none

theorem called_evsD {y : Option Res} (h : Quiet y) (hx : Called x) : Called (evsD y x) := by
  cases y with
  | none => exact called_none
  | some r => exact called_emitD (h r rfl) hx

theorem called_frontD {w : Val} {f : St → Option DRes} (h : Called x) (hf : ∀ st, Called (f st)) :
    Called (frontD w x f) := by
  cases x with
  | none => exact called_none
  | some r =>
    have hr := h r rfl
    obtain ⟨out, st, evs, calls, vals⟩ := r
    cases out with
    | ok => exact called_pre hr (hf st)
    | ret pre => exact called_some hr
    | _ => exact h

theorem called_pushD {id : Nat} {sign : Int} {p : Nat} {st : St} : Called (pushD id sign p st) := by
  unfold pushD
  cases getCounter id st.vars with
  | none => exact called_none
  | some i => exact called_okD

theorem called_identD {id : Nat} {s : List Nat} {vs : List Val} {st : St} : Called (identD id s vs st) := by
  unfold identD
  cases getIdent id st.vars with
  | none => exact called_none
  | some i => exact called_okD

theorem called_choose {b : Option Res} {x' : Option DRes} (h : Called x) (h' : Called x') : Called (choose b x x') := by
  cases b with
  | none => exact called_none
  | some r =>
    obtain ⟨out, st, evs⟩ := r
    cases out
    · exact h
    · exact h'
    · exact h'

theorem called_ite {p : Prop} [Decidable p] {x' : Option DRes} (h : Called x) (h' : Called x') :
    Called (if p then x else x') := by
  split
  · exact h
  · exact h'

end

section

variable {V : VEnv} {n : Nat}

theorem called_prodD {cx : VCx} {m : Nat} {cap : Bool} {body : VCx → St → Option DRes} {st : St}
    (hb : ∀ cx st, Called (body cx st)) : Called (prodD V (exec V.env n) cx m cap body st) := by
  unfold prodD
  have h := hb (cx.sub V m) { st with ex := {} }
  cases hx : body (cx.sub V m) { st with ex := {} } with
  | none => exact called_none
  | some r =>
    have hr := h r hx
    have key : ∀ (st' : St) p vs vals, Called ((if (V.prods m).isTok = true then
        viaD (exec V.env n cx.cx .ws st') fun st' => okD st' [] else okD st' []).map
        (DRes.pre ([.prodStart m st.pos] ++ r.evs ++ [.prodFinish m p]) (r.calls ++ [(m, vs)]) vals)) := by
      intro st' p vs vals
      refine called_pre ?_ (called_ite (called_viaD (quiet_ws _ _ _) fun _ => called_okD) called_okD)
      simp [finished_append, finished, hr]
    obtain ⟨out, st', evs, calls, vals⟩ := r
    cases out with
    | ok => exact key _ _ _ _
    | fail =>
      refine called_some ?_
      simpa [finished_append, finished] using hr
    | brk => exact called_none
    | ret pre => exact key _ _ _ _

theorem called_tokD {cx : VCx} {k : Kind} {e : Nat} {st : St} {vs : List Val} :
    Called (tokD (exec V.env n) cx k e st vs) :=
  called_emitD rfl (called_viaD (quiet_ws _ _ _) fun _ => called_okD)

theorem called_deeperD {cx : VCx} {tag : Nat} {st : St} {body : St → Option DRes} (hb : ∀ st, Called (body st)) :
    Called (deeperD cx tag st body) :=
  called_ite called_none (called_ite (called_some rfl) (called_thenD (hb _) fun _ => called_okD))

/-- What is to be shown. -/
abbrev CalledIH (V : VEnv) (n : Nat) : Prop :=
  ∀ cx c st, (∀ r ∈ c.parts, QuietRule V r) → Called (dv V n cx c st)

theorem called_tryD (H : CalledIH V n) {cx : VCx} {m : Nat} {rc : VRecov} (hrc : ∀ r ∈ VR.partsRec rc, QuietRule V r)
    {x : Option DRes} (hx : Called x) {f : St → Option DRes} (hf : ∀ st, Called (f st)) :
    Called (tryD (dv V n) cx m rc x f) := by
  cases x with
  | none => exact called_none
  | some r =>
    have hr := hx r rfl
    obtain ⟨out, st, evs, calls, vals⟩ := r
    cases out with
    | ok => exact called_pre hr (hf _)
    | fail => exact called_pre hr (H cx (.recov rc) _ hrc)
    | brk => exact called_none
    | ret => exact called_none

theorem called_loop (H : CalledIH V n) {cx : VCx} {st : St} {item : VR} {acc : List (List Val)} {sep : Option VSep}
    (hi : ∀ r ∈ item.parts, QuietRule V r) (hs : ∀ r ∈ sepParts sep, QuietRule V r) :
    Called (stepLoopD V (exec V.env n) (dv V n) cx st item acc sep) := by
  have hc : ∀ b st, Quiet (exec V.env n cx.cx (.bcancel b) st) := fun b st => quiet_cancel _ _ _ _ (.inl ⟨_, rfl⟩)
  have hl : ∀ acc st, Called (dv V n cx (.lstLoop item sep acc) st) := fun acc st =>
    H cx (.lstLoop item sep acc) st (by
      intro r hr
      rcases List.mem_append.1 hr with h | h
      · exact hi r h
      · exact hs r h)
  cases sep with
  | none =>
    simp only [stepLoopD]
    exact called_ite (called_choose (called_baseD (H cx (.fin item) st hi) fun _ _ => hl _ _)
      (called_viaD' (hc _ _) fun _ => called_okD)) called_none
  | some s =>
    obtain ⟨s, k⟩ := s
    simp only [stepLoopD]
    refine called_choose (called_baseD (H cx (.fin s) st hs) fun _ st1 => ?_)
      (called_viaD' (hc _ _) fun _ => called_okD)
    refine called_ite (called_choose (called_baseD (H cx (.fin item) st1 hi) fun _ _ => hl _ _)
      (called_viaD' (hc _ _) fun _ => called_emitD ?_ called_okD)) (called_baseD (H cx (.run item) st1 hi) fun _ _ => hl _ _)
    cases k <;> rfl

theorem parts_mem {P : Rule → Prop} {a b : List Rule} (h : ∀ r ∈ a ++ b, P r) : (∀ r ∈ a, P r) ∧ ∀ r ∈ b, P r :=
  ⟨fun r hr => h r (List.mem_append_left _ hr), fun r hr => h r (List.mem_append_right _ hr)⟩

theorem lst_parts (item : VR) (sep : Option VSep) : VR.parts (.lst item sep) = item.parts ++ sepParts sep := by
  cases sep with
  | none => simp [VR.parts, sepParts]
  | some s => obtain ⟨s, k⟩ := s; simp [VR.parts, sepParts]

theorem lstt_parts (term item : VR) (sep : Option VSep) (limit : List Nat → Bool) :
    VR.parts (.lstt term item sep limit) = term.parts ++ (item.parts ++ sepParts sep) := by
  cases sep with
  | none => simp [VR.parts, sepParts]
  | some s => obtain ⟨s, k⟩ := s; simp [VR.parts, sepParts]

theorem rep_parts (kd : RepKind) (c : VR) (f : List Nat → Nat) (item : VR) (sep : Option VSep) :
    VR.parts (.rep kd c f item sep) = c.parts ++ (item.parts ++ trailParts sep) := by
  cases sep with
  | none => simp [VR.parts, trailParts]
  | some s => obtain ⟨s, k⟩ := s; simp [VR.parts, trailParts]

theorem trailing_parts (sep : Option VSep) (h : ∀ r ∈ trailParts sep, QuietRule V r) :
    ∀ r ∈ (vTrailing sep).parts, QuietRule V r := by
  have hels : ∀ r ∈ VR.parts (.leaf .els), QuietRule V r := by
    intro r hr
    simp only [VR.parts, List.mem_singleton] at hr
    subst hr
    exact quiet_els V
  cases sep with
  | none => exact hels
  | some s =>
    obtain ⟨s, k⟩ := s
    simp only [trailParts] at h
    cases k with
    | sep tag => exact (parts_mem h).2
    | trailing =>
      simp only [vTrailing]
      split
      · exact (parts_mem h).1
      · simpa only [VR.parts] using (parts_mem h).1
    | ignoreTrailing => exact hels

theorem called_lt (H : CalledIH V n) {cx : VCx} {st : St} {s : LtSt} {term item : VR} {sep : Option VSep}
    {limit : List Nat → Bool} {acc : List (List Val)} (ht : ∀ r ∈ term.parts, QuietRule V r)
    (hi : ∀ r ∈ item.parts, QuietRule V r) (hs : ∀ r ∈ sepParts sep, QuietRule V r) :
    Called (stepLtD V (exec V.env n) (dv V n) cx st term item sep limit acc s) := by
  have hc : ∀ b st, Quiet (exec V.env n cx.cx (.bcancel b) st) := fun b st => quiet_cancel _ _ _ _ (.inl ⟨_, rfl⟩)
  have hl : ∀ s acc st, Called (dv V n cx (.lt s term item sep limit acc) st) := fun s acc st =>
    H cx (.lt s term item sep limit acc) st (by
      intro r hr
      rcases List.mem_append.1 hr with h | h
      · exact ht r h
      · rcases List.mem_append.1 h with h | h
        · exact hi r h
        · exact hs r h)
  have hsk : ∀ b (st : St) f, finished (skipped b st f) = [] := by
    intro b st f
    cases f <;> rfl
  have hte : ∀ sk p q, finished (trailingError sk p q) = [] := by
    intro sk p q
    cases sk <;> rfl
  have hgive : ∀ b st, Called (ltGiveUpD V (exec V.env n) (dv V n) cx b term item sep limit acc st) := by
    intro b st
    unfold ltGiveUpD
    exact called_choose (called_emitD (hsk _ _ _) called_okD)
      (called_viaD' (hc _ _) fun st => called_ite (called_some (hsk _ _ _)) (hl _ _ _))
  cases s with
  | term => exact called_choose called_okD (called_viaD' (hc _ _) fun _ => hl _ _ _)
  | sep =>
    cases sep with
    | none => exact hl _ _ _
    | some s =>
      simp only [stepLtD]
      refine called_tryBaseD (H cx (.run s.1) st hs) (fun _ _ => hl _ _ _) fun st1 => ?_
      refine called_ite (called_choose (called_tryBaseD (H cx (.fin item) st1 hi) (fun _ _ => hl _ _ _) fun st2 => ?_)
        (called_viaD' (hc _ _) fun _ => called_emitD rfl (hl _ _ _))) (called_emitD rfl (hl _ _ _))
      exact called_evsD (hc _ _) (called_emitD rfl (hl _ _ _))
  | trail p =>
    refine called_choose (called_emitD ?_ called_okD) (hl _ _ _)
    cases sep with
    | none => rfl
    | some s => exact hte _ _ _
  | item =>
    simp only [stepLtD]
    exact called_tryBaseD (H cx (.run item) st hi) (fun _ _ => hl _ _ _) fun _ => called_emitD rfl (hl _ _ _)
  | reco b =>
    cases sep with
    | none =>
      simp only [stepLtD]
      exact called_ite (called_choose (called_emitD (hsk _ _ _) (called_tryBaseD (H cx (.fin item) st hi)
        (fun _ _ => hl _ _ _) fun _ => called_emitD rfl (hl _ _ _))) (called_viaD' (hc _ _) fun _ => hgive _ _)) (hgive _ _)
    | some s =>
      simp only [stepLtD]
      exact called_choose (called_emitD (hsk _ _ _) (called_tryBaseD (H cx (.fin s.1) st hs)
        (fun _ _ => hl _ _ _) fun _ => called_emitD rfl (hl _ _ _))) (called_viaD' (hc _ _) fun _ => hgive _ _)

theorem called_rep (H : CalledIH V n) {cx : VCx} {st : St} {kd : RepKind} {b m : Nat} {item : VR} {sep : Option VSep}
    {acc : List (List Val)} (hi : ∀ r ∈ item.parts, QuietRule V r) (hs : ∀ r ∈ trailParts sep, QuietRule V r) :
    Called (stepRepD V (dv V n) cx st kd b item sep acc m) := by
  have hl : ∀ m acc st, Called (dv V n cx (.repTail kd b m item sep acc) st) := fun m acc st =>
    H cx (.repTail kd b m item sep acc) st (by
      intro r hr
      rcases List.mem_append.1 hr with h | h
      · exact hi r h
      · exact hs r h)
  cases m with
  | zero =>
    simp only [stepRepD]
    exact called_baseD (H cx (.run (vTrailing sep)) st (trailing_parts sep hs)) fun _ _ => called_okD
  | succ m =>
    cases sep with
    | none =>
      simp only [stepRepD]
      exact called_baseD (H cx (.run item) st hi) fun _ _ => hl _ _ _
    | some s =>
      simp only [stepRepD]
      exact called_baseD (H cx (.run s.1) st (parts_mem hs).1) fun _ st =>
        called_baseD (H cx (.run item) st hi) fun _ _ => hl _ _ _

theorem called_repD (H : CalledIH V n) {cx : VCx} {st : St} {kd : RepKind} {f : List Nat → Nat} {p : Nat} {item : VR}
    {sep : Option VSep} (hi : ∀ r ∈ item.parts, QuietRule V r) (hs : ∀ r ∈ trailParts sep, QuietRule V r) :
    Called (repD V (dv V n) cx kd f item sep p st) := by
  cases hm : f ((V.inp.take st.pos).drop p) with
  | zero => simp only [repD, hm]; exact called_okD
  | succ m =>
    simp only [repD, hm]
    exact called_baseD (H cx (.run item) st hi) fun vs st =>
      H cx (.repTail kd _ m item sep _) st (by
        intro r hr
        rcases List.mem_append.1 hr with h | h
        · exact hi r h
        · exact hs r h)

theorem comb_parts (rs : List VR) (els : CombElse) (h : ∀ r ∈ VR.partsL rs, QuietRule V r) :
    ∀ r ∈ VR.partsL (combVRules rs els), QuietRule V r := by
  have happ : ∀ a b : List VR, VR.partsL (a ++ b) = VR.partsL a ++ VR.partsL b := by
    intro a b
    induction a with
    | nil => simp [VR.partsL]
    | cons r a ih => simp [VR.partsL, ih]
  have hz : ∀ (rs : List VR) i, VR.partsL ((rs.zipIdx i).map fun p => VR.br p.1 (.combIt p.2)) = VR.partsL rs := by
    intro rs
    induction rs with
    | nil => intro i; rfl
    | cons r rs ih =>
      intro i
      simp [List.zipIdx_cons, VR.partsL, VR.parts, ih]
  unfold combVRules
  rw [happ, hz]
  intro r hr
  rcases List.mem_append.1 hr with hr | hr
  · exact h r hr
  · cases els with
    | none => simp [VR.partsL] at hr
    | brk => simp [VR.partsL, VR.parts] at hr; subst hr; exact quiet_brk V
    | err t => simp [VR.partsL, VR.parts] at hr; subst hr; exact quiet_err V t

theorem called_run (H : CalledIH V n) (hV : ∀ m, ∀ r ∈ (V.prods m).rule.parts, QuietRule V r) (cx : VCx) (st : St)
    (r : VR) (hr : ∀ q ∈ r.parts, QuietRule V q) : Called (dv V (n + 1) cx (.run r) st) := by
  have hc : ∀ b st, Quiet (exec V.env n cx.cx (.bcancel b) st) := fun b st => quiet_cancel _ _ _ _ (.inl ⟨_, rfl⟩)
  have hp : ∀ m cx (st : St), Called
      (if (V.prods m).ws.isSome then viaD' (exec V.env n cx.cx .ws st) fun st'' => dv V n cx (.run (V.prods m).rule) st''
        else dv V n cx (.run (V.prods m).rule) st) := fun m cx st =>
    called_ite (called_viaD' (quiet_ws _ _ _) fun st => H cx (.run _) st (hV m)) (H cx (.run _) st (hV m))
  show Called (stepRunD V (exec V.env n) (dv V n) cx st r)
  cases r with
  | leaf r =>
    simp only [VR.parts, List.mem_singleton, forall_eq] at hr
    simp only [stepRunD]
    exact called_viaD (hr (n + 1) cx.cx st).1 fun _ => called_okD
  | cap t =>
    simp only [stepRunD]
    exact called_ite called_tokD (called_some rfl)
  | capp m =>
    simp only [stepRunD]
    exact called_ite (called_prodD (hp m)) called_none
  | val v => exact called_okD
  | posr r =>
    simp only [stepRunD]
    exact called_emitD rfl (called_valD (H cx (.run r) st (by simpa [VR.parts, VCmd.parts] using hr)))
  | seq a b =>
    simp only [VR.parts] at hr
    exact called_thenD (H cx (.run a) st (parts_mem hr).1) fun st => H cx (.run b) st (parts_mem hr).2
  | br a b =>
    simp only [VR.parts] at hr
    exact called_thenD (H cx (.run a) st (parts_mem hr).1) fun st => H cx (.run b) st (parts_mem hr).2
  | chc rs =>
    simp only [VR.parts] at hr
    exact H cx (.chcRun rs) st hr
  | ifR b =>
    simp only [VR.parts] at hr
    exact called_choose (H cx (.fin b) st hr) (called_viaD' (hc _ _) fun _ => called_okD)
  | opt b =>
    simp only [VR.parts] at hr
    exact called_choose (H cx (.fin b) st hr) (called_viaD' (hc _ _) fun _ => called_okD)
  | optt t b =>
    simp only [VR.parts] at hr
    exact called_choose (called_valD (H cx (.fin t) st (parts_mem hr).1))
      (called_viaD' (hc _ _) fun st => H cx (.run b) st (parts_mem hr).2)
  | must b e =>
    simp only [VR.parts] at hr
    refine called_choose (H cx (.fin b) st (parts_mem hr).1) (called_viaD' (hc _ _) fun st' => ?_)
    have hq := ((parts_mem hr).2 e (by simp) n cx.cx st').1
    cases hx : exec V.env n cx.cx (.run e) st' with
    | none => exact called_none
    | some x =>
      have := hq x hx
      obtain ⟨o, s, evs⟩ := x
      cases o with
      | fail => exact called_some this
      | ok => exact called_none
      | brk => exact called_none
  | lst item sep =>
    rw [lst_parts] at hr
    simp only [stepRunD]
    exact called_baseD (H cx (.run item) st (parts_mem hr).1) fun vs st => H cx (.lstLoop item sep _) st hr
  | tryt t r rc =>
    simp only [stepRunD]
    cases t with
    | none =>
      simp only [VR.parts] at hr
      exact called_tryD H (parts_mem hr).2 (H cx (.run r) st (parts_mem hr).1) fun _ => called_okD
    | some t =>
      simp only [VR.parts] at hr
      have h2 := parts_mem (parts_mem hr).2
      exact called_tryD H h2.2 (H cx (.run r) st h2.1) fun st => H cx (.run t) st (parts_mem hr).1
  | tryr r rc =>
    simp only [VR.parts] at hr
    simp only [stepRunD]
    exact called_tryD H (parts_mem hr).2 (H cx (.run r) st (parts_mem hr).1) fun _ => called_okD
  | prod m =>
    simp only [stepRunD]
    exact called_prodD (hp m)
  | recu m tag b => exact called_deeperD fun st => H cx (.run (.prod m)) st (by simp [VCmd.parts, VR.parts])
  | wsn r =>
    simp only [VR.parts] at hr
    exact called_ite (H cx (.run r) st hr) (called_thenD (H cx (.run r) _ hr) fun st =>
      called_viaD (quiet_ws _ _ _) fun _ => called_okD)
  | pre a r =>
    simp only [VR.parts] at hr
    exact called_valD (H cx (.run r) st hr)
  | lstt term item sep limit =>
    rw [lstt_parts] at hr
    have h1 := parts_mem hr
    have h2 := parts_mem h1.2
    simp only [stepRunD]
    exact called_thenD (called_tryBaseD (H cx (.run item) st h2.1)
      (fun vs st => H cx (.lt .term term item sep limit _) st hr)
      fun st => called_emitD rfl (H cx (.lt (.reco st.pos) term item sep limit []) st hr))
      fun st => H cx (.fin term) st h1.1
  | prim q =>
    simp only [VR.parts, List.mem_singleton, forall_eq] at hr
    simp only [stepRunD]
    exact called_viaD (hr (n + 1) cx.cx st).1 fun _ => called_okD
  | rep kd c f item sep =>
    rw [rep_parts] at hr
    have h1 := parts_mem hr
    have h2 := parts_mem h1.2
    simp only [stepRunD]
    exact called_baseD (H cx (.run c) st h1.1) fun _ st1 => called_repD H h2.1 h2.2
  | cntPush id r sign =>
    simp only [VR.parts] at hr
    simp only [stepRunD]
    exact called_frontD (H cx (.run r) st hr) fun _ => called_pushD
  | cntVal id =>
    show Called ((getCounter id st.vars).bind fun i => okD st [.num i])
    cases getCounter id st.vars with
    | none => exact called_none
    | some i => exact called_okD
  | idCap id q =>
    simp only [VR.parts, List.mem_singleton, forall_eq] at hr
    simp only [stepRunD]
    exact called_viaD' (hr (n + 1) cx.cx st).1 fun _ => called_identD
  | pas t r =>
    simp only [VR.parts] at hr
    simp only [stepRunD]
    exact called_baseD (H cx (.run r) st hr) fun _ _ => called_okD
  | comb tag rs els =>
    simp only [VR.parts] at hr
    simp only [stepRunD]
    exact called_thenD (H cx (.combLoop tag (combVRules rs els) rs.length [] 0 []) _ (comb_parts rs els hr))
      fun _ => called_okD
  | combIt i => exact called_okD
  | ret => exact called_some rfl

theorem called_fin (H : CalledIH V n) (hV : ∀ m, ∀ r ∈ (V.prods m).rule.parts, QuietRule V r) (cx : VCx) (st : St)
    (r : VR) (hr : ∀ q ∈ r.parts, QuietRule V q) : Called (dv V (n + 1) cx (.fin r) st) := by
  have hp : ∀ m cx (st : St), Called (dv V n cx (.fin (V.prods m).rule) st) := fun m cx st => H cx (.fin _) st (hV m)
  show Called (stepFinD V (exec V.env n) (dv V n) cx st r)
  cases r with
  | leaf r =>
    simp only [VR.parts, List.mem_singleton, forall_eq] at hr
    simp only [stepFinD]
    exact called_viaD (hr (n + 1) cx.cx st).2 fun _ => called_okD
  | cap t => exact called_tokD
  | capp m =>
    simp only [stepFinD]
    exact called_ite (called_prodD (hp m)) called_none
  | val v => exact called_okD
  | posr r =>
    simp only [stepFinD]
    exact called_emitD rfl (called_valD (H cx (.fin r) st (by simpa [VR.parts, VCmd.parts] using hr)))
  | br a b =>
    simp only [VR.parts] at hr
    exact called_thenD (H cx (.fin a) st (parts_mem hr).1) fun st => H cx (.run b) st (parts_mem hr).2
  | chc rs =>
    simp only [VR.parts] at hr
    exact H cx (.chcFin rs) st hr
  | must b e =>
    simp only [VR.parts] at hr
    exact H cx (.fin b) st (parts_mem hr).1
  | lst item sep =>
    rw [lst_parts] at hr
    simp only [stepFinD]
    exact called_baseD (H cx (.fin item) st (parts_mem hr).1) fun vs st => H cx (.lstLoop item sep _) st hr
  | tryr r rc =>
    simp only [VR.parts] at hr
    simp only [stepFinD]
    exact called_tryD H (parts_mem hr).2 (H cx (.fin r) st (parts_mem hr).1) fun _ => called_okD
  | prod m =>
    simp only [stepFinD]
    exact called_prodD (hp m)
  | recu m tag b => exact called_deeperD fun st => H cx (.fin (.prod m)) st (by simp [VCmd.parts, VR.parts])
  | wsn r =>
    simp only [VR.parts] at hr
    simp only [stepFinD]
    exact called_thenD (H cx (.fin r) _ hr) fun st => called_viaD (quiet_ws _ _ _) fun _ => called_okD
  | pre a r =>
    simp only [VR.parts] at hr
    exact called_valD (H cx (.fin r) st hr)
  | prim q =>
    simp only [VR.parts, List.mem_singleton, forall_eq] at hr
    simp only [stepFinD]
    exact called_viaD (hr (n + 1) cx.cx st).2 fun _ => called_okD
  | rep kd c f item sep =>
    rw [rep_parts] at hr
    have h1 := parts_mem hr
    have h2 := parts_mem h1.2
    simp only [stepFinD]
    exact called_baseD (H cx (.fin c) st h1.1) fun _ st1 => called_repD H h2.1 h2.2
  | cntPush id r sign =>
    simp only [VR.parts] at hr
    simp only [stepFinD]
    exact called_frontD (H cx (.fin r) st hr) fun _ => called_pushD
  | idCap id q =>
    simp only [VR.parts, List.mem_singleton, forall_eq] at hr
    simp only [stepFinD]
    exact called_viaD' (hr (n + 1) cx.cx st).2 fun _ => called_identD
  | pas t r =>
    simp only [VR.parts] at hr
    simp only [stepFinD]
    exact called_baseD (H cx (.fin r) st hr) fun _ _ => called_okD
  | _ => exact called_none

end

theorem dv_called (V : VEnv) (hV : ∀ m, ∀ r ∈ (V.prods m).rule.parts, QuietRule V r) (n : Nat) : CalledIH V n := by
  induction n with
  | zero => exact fun _ _ _ _ => called_none
  | succ n H =>
    intro cx c st hc
    have hq : ∀ b st, Quiet (exec V.env n cx.cx (.bcancel b) st) := fun b st => quiet_cancel _ _ _ _ (.inl ⟨_, rfl⟩)
    cases c with
    | run r => exact called_run H hV cx st r hc
    | fin r => exact called_fin H hV cx st r hc
    | chcRun rs =>
      cases rs with
      | nil => exact called_some rfl
      | cons r rs =>
        simp only [VCmd.parts, VR.partsL] at hc
        exact called_choose (H cx (.fin r) st (parts_mem hc).1)
          (called_viaD' (hq _ _) fun st => H cx (.chcRun rs) st (parts_mem hc).2)
    | chcFin rs =>
      cases rs with
      | nil => exact called_none
      | cons r rs =>
        simp only [VCmd.parts, VR.partsL] at hc
        exact called_choose (H cx (.fin r) st (parts_mem hc).1)
          (called_viaD' (hq _ _) fun st => H cx (.chcFin rs) st (parts_mem hc).2)
    | lstLoop item sep acc =>
      simp only [VCmd.parts] at hc
      exact called_loop H (parts_mem hc).1 (parts_mem hc).2
    | lt s term item sep limit acc =>
      simp only [VCmd.parts] at hc
      have h2 := parts_mem (parts_mem hc).2
      exact called_lt H (parts_mem hc).1 h2.1 h2.2
    | repTail kd b m item sep acc =>
      simp only [VCmd.parts] at hc
      exact called_rep H (parts_mem hc).1 (parts_mem hc).2
    | recov rc =>
      cases rc with
      | wrap r =>
        simp only [VCmd.parts, VR.partsRec] at hc
        show Called (stepD V (exec V.env n) (dv V n) cx (.recov (.wrap r)) st)
        simp only [stepD]
        have hx : Called (thenD (dv V n cx (.run r) st) fun st' =>
            viaD (exec V.env n cx.cx .ws st') fun st'' => okD st'' []) :=
          called_thenD (H cx (.run r) st hc) fun st => called_viaD (quiet_ws _ _ _) fun _ => called_okD
        generalize (thenD (dv V n cx (.run r) st) fun st' =>
            viaD (exec V.env n cx.cx .ws st') fun st'' => okD st'' []) = x at hx
        cases x with
        | none => exact called_none
        | some r =>
          have hr := hx r rfl
          obtain ⟨out, st', evs, calls, vals⟩ := r
          cases out with
          | brk => exact called_none
          | _ => exact called_some (by simpa [finished, finished_append] using hr)
      | find l =>
        show Called (stepD V (exec V.env n) (dv V n) cx (.recov (.find l)) st)
        simp only [stepD]
        refine called_viaD (fun r h => ?_) fun _ => called_okD
        cases h
        simp only [skipped]
        generalize (findScan l V.env.eof (List.drop st.pos V.env.inp)).1 = b
        cases b <;> rfl
      | reco limit rs => exact called_emitD rfl (H cx (.recoLoop st.pos limit rs) st hc)
    | recoLoop b limit rs =>
      show Called (stepD V (exec V.env n) (dv V n) cx (.recoLoop b limit rs) st)
      simp only [stepD]
      refine called_choose (called_emitD rfl (H cx (.chcFin rs) st hc))
        (called_viaD' (quiet_cancel _ _ _ _ (.inr ⟨_, rfl⟩)) fun st1 => ?_)
      exact called_ite (called_some rfl) (H cx (.recoLoop b limit rs) _ hc)
    | combLoop tag rs k handled count acc =>
      show Called (stepD V (exec V.env n) (dv V n) cx (.combLoop tag rs k handled count acc) st)
      simp only [stepD]
      refine called_ite called_okD ?_
      have hx := H cx (.chcRun rs) st hc
      generalize dv V n cx (.chcRun rs) st = x at hx
      cases x with
      | none => exact called_none
      | some r =>
        have hr := hx r rfl
        obtain ⟨out, st', evs, calls, vals⟩ := r
        cases out with
        | ok =>
          exact called_pre hr (called_ite (called_emitD rfl (H cx (.combLoop tag rs k handled count acc) _ hc))
            (H cx (.combLoop tag rs k _ _ _) _ hc))
        | fail => exact called_some hr
        | brk => exact called_some hr
        | ret => exact called_none

end Verif.Val
