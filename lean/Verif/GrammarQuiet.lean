import Verif.GrammarState

/-
Runs that report no error: nothing fails in them, and the recursion depth is restored.
As in GrammarState.lean for a step, relative to two versions of the recursive calls.
-/

namespace Verif

/-- No error is reported. -/
def Quiet (evs : List Ev) : Prop := ∀ ev ∈ evs, ev.isError = false

theorem Quiet.left {a b : List Ev} (h : Quiet (a ++ b)) : Quiet a := fun ev he => h ev (List.mem_append_left _ he)
theorem Quiet.right {a b : List Ev} (h : Quiet (a ++ b)) : Quiet b := fun ev he => h ev (List.mem_append_right _ he)

theorem Quiet.not_error {evs : List Ev} (h : Quiet evs) (h' : ∃ ev ∈ evs, ev.isError = true) : False := by
  obtain ⟨ev, h1, h2⟩ := h'
  rw [h ev h1] at h2
  cases h2

/-- The commands that may fail without reporting it: conditions, and what comes after a failure. -/
def mayFail : Cmd → Bool
  | .btry _ | .chcTry _ | .tokTry _ | .recov _ | .recoLoop .. | .ltRec .. => true
  | _ => false

/-- If `x` has a result without errors, then `y` has the same one; the recursion depth is `d` and, for `q = false`, it is
    no failure. -/
def RelQ (q : Bool) (d : Nat) (x y : Option Res) : Prop :=
  ∀ r, x = some r → Quiet r.evs → y = some r ∧ r.st.depth = d ∧ (q = false → r.out ≠ .fail)

section

variable {q : Bool} {d : Nat}

theorem q_none {y : Option Res} : RelQ q d none y := fun _ h => by cases h
theorem q_some {r : Res} (h : r.st.depth = d) (hf : r.out ≠ .fail) : RelQ q d (some r) (some r) :=
  fun r' hr _ => by cases hr; exact ⟨rfl, h, fun _ => hf⟩
theorem q_try {r : Res} (h : r.st.depth = d) : RelQ true d (some r) (some r) :=
  fun r' hr _ => by cases hr; exact ⟨rfl, h, fun h => Bool.noConfusion h⟩
theorem q_error {r : Res} {y : Option Res} (h : ∃ ev ∈ r.evs, ev.isError = true) : RelQ q d (some r) y :=
  fun r' hr hq => by cases hr; exact absurd h fun h => hq.not_error h
theorem q_ret {st : St} (h : st.depth = d) : RelQ q d (ret .ok st) (ret .ok st) := q_some h nofun

theorem RelQ.weaken {x y : Option Res} (h : RelQ false d x y) : RelQ q d x y :=
  fun r hr hq => let ⟨a, b, c⟩ := h r hr hq; ⟨a, b, fun _ => c rfl⟩

theorem q_andThen {x y : Option Res} {f g : Out → St → Option Res} (h : RelQ false d x y)
    (hf : ∀ o st, o ≠ .fail → st.depth = d → RelQ q d (f o st) (g o st)) : RelQ q d (andThen x f) (andThen y g) := by
  intro r hr hq
  obtain ⟨r1, r2, h1, h2, rfl⟩ := andThen_some.1 hr
  obtain ⟨h3, h4, h5⟩ := h r1 h1 hq.left
  obtain ⟨h6, h7, h8⟩ := hf r1.out r1.st (h5 rfl) h4 r2 h2 hq.right
  exact ⟨andThen_some.2 ⟨r1, r2, h3, h6, rfl⟩, h7, h8⟩

theorem q_onOk {x y : Option Res} {f g : St → Option Res} (h : RelQ false d x y)
    (hf : ∀ st, st.depth = d → RelQ q d (f st) (g st)) : RelQ q d (onOk x f) (onOk y g) := by
  refine q_andThen h fun o st ho hs => ?_
  cases o
  · exact hf st hs
  · exact absurd rfl ho
  · exact q_some hs nofun

theorem q_onOk' {x y : Option Res} {f g : St → Option Res} (h : RelQ false d x y)
    (hf : ∀ st, st.depth = d → RelQ q d (f st) (g st)) : RelQ q d (onOk' x f) (onOk' y g) := by
  refine q_andThen h fun o st ho hs => ?_
  cases o
  · exact hf st hs
  · exact absurd rfl ho
  · exact q_none

theorem q_emit {x y : Option Res} {evs : List Ev} (h : RelQ q d x y) : RelQ q d (emit evs x) (emit evs y) := by
  intro r hr hq
  obtain ⟨r1, h1, rfl⟩ := emit_some.1 hr
  obtain ⟨h3, h4⟩ := h r1 h1 hq.right
  exact ⟨emit_some.2 ⟨r1, h3, rfl⟩, h4⟩

theorem q_emit_error {x y : Option Res} {evs : List Ev} (h : ∃ ev ∈ evs, ev.isError = true) : RelQ q d (emit evs x) y := by
  intro r hr hq
  obtain ⟨r1, h1, rfl⟩ := emit_some.1 hr
  exact absurd h fun h => hq.left.not_error h

theorem q_framed {x y : Option Res} {n : Nat} (h : RelQ q d x y) : RelQ q d (framed n x) (framed n y) := by
  intro r hr hq
  obtain ⟨r1, h1, rfl⟩ := framed_some.1 hr
  obtain ⟨h3, h4⟩ := h r1 h1 hq
  exact ⟨framed_some.2 ⟨r1, h3, rfl⟩, h4⟩

theorem q_bind {α : Type} {x : Option α} {f g : α → Option Res} (h : ∀ a, x = some a → RelQ q d (f a) (g a)) :
    RelQ q d (x.bind f) (x.bind g) := by
  cases x with
  | none => exact q_none
  | some a => exact h a rfl

end

/-- Conditions, and everything inside of nested actions. -/
def condRec (rec : Rec) : Rec := fun cx c st => if isCond c || cx.maxDepth == 0 then rec cx c st else none

theorem condRec_step (E : Env) (rec : Rec) (cx : Cx) (c : Cmd) (st : St) (hc : isCond c = true) :
    step E rec cx c st = step E (condRec rec) cx c st := by
  cases c <;> try (exact Bool.noConfusion hc)
  case btry r => cases r <;> rfl
  case chcTry rs => cases rs <;> rfl
  case tokTry r => cases r <;> rfl

theorem cond_le {E : Env} {rec rec' : Rec} (h0 : ∀ cx c st r, cx.maxDepth = 0 → rec cx c st = some r → rec' cx c st = some r)
    (hc : ∀ cx c st r, isCond c = true → rec cx c st = some r → rec' cx c st = some r) (cx : Cx) (c : Cmd) (st : St) (r : Res)
    (h : isCond c = true) (hr : step E rec cx c st = some r) : step E rec' cx c st = some r := by
  rw [condRec_step E rec cx c st h] at hr
  refine le_iff.1 (monotone_step E cx c st (condRec rec) rec' fun cx c st => le_iff.2 fun r hr => ?_) r hr
  unfold condRec at hr
  by_cases hi : isCond c = true
  · rw [hi] at hr
    exact hc cx c st r hi hr
  · simp only [Bool.not_eq_true] at hi
    by_cases hm : cx.maxDepth = 0
    · rw [hi, hm] at hr
      exact h0 cx c st r hm hr
    · rw [hi, if_neg (by simpa using hm)] at hr
      cases hr

/-- Where an expression succeeds, it has a value. -/
def ExVal (c : Cmd) (st : St) (r : Res) : Prop :=
  match c with
  | .exParse .. | .exLhs .. | .exApply .. | .exList .. => r.st.ex.val.isSome
  | .exLoop .. => st.ex.val.isSome → r.st.ex.val.isSome
  | _ => True

theorem andThen_ok' {x : Option Res} {f : Out → St → Option Res} {r : Res} (h : andThen x f = some r) :
    ∃ r1 r2, x = some r1 ∧ f r1.out r1.st = some r2 ∧ r.out = r2.out ∧ r.st = r2.st := by
  obtain ⟨r1, r2, h1, h2, rfl⟩ := andThen_some.1 h
  exact ⟨r1, r2, h1, h2, rfl, rfl⟩

theorem onOk'_ok {x : Option Res} {f : St → Option Res} {r : Res} (h : onOk' x f = some r) (ho : r.out = .ok) :
    ∃ r1 r2, x = some r1 ∧ r1.out = .ok ∧ f r1.st = some r2 ∧ r2.out = .ok ∧ r.st = r2.st := by
  obtain ⟨r1, r2, h1, h2, h3, h4⟩ := andThen_ok' h
  cases ho1 : r1.out with
  | ok => rw [ho1] at h2; exact ⟨r1, r2, h1, ho1, h2, h3 ▸ ho, h4⟩
  | fail => rw [ho1] at h2; cases h2; rw [ho] at h3; cases h3
  | brk => rw [ho1] at h2; cases h2

theorem emit_ok {evs : List Ev} {x : Option Res} {r : Res} (h : emit evs x = some r) :
    ∃ r1, x = some r1 ∧ r.out = r1.out ∧ r.st = r1.st := by
  obtain ⟨r1, h1, rfl⟩ := emit_some.1 h
  exact ⟨r1, h1, rfl, rfl⟩

theorem framed_ok {n : Nat} {x : Option Res} {r : Res} (h : framed n x = some r) :
    ∃ r1, x = some r1 ∧ r.out = r1.out ∧ r.st.ex = r1.st.ex := by
  obtain ⟨r1, h1, rfl⟩ := framed_some.1 h
  exact ⟨r1, h1, rfl, rfl⟩

theorem exVal_opInfix {E : Env} {rec : Rec} {cx : Cx} {i : Nat} {o : OpDef} {b : Bool} {st : St} {r : Res}
    (h : opInfix E rec cx i o b st = some r) (ho : r.out = .ok) : r.st.ex.val.isSome := by
  unfold opInfix at h
  obtain ⟨r1, r2, h1, h2, h3, h4⟩ := andThen_ok' h
  rw [h4]
  rw [h3] at ho
  cases ho1 : r1.out with
  | brk => rw [ho1] at h2; cases h2
  | fail => rw [ho1] at h2; cases h2; cases ho
  | ok =>
    rw [ho1] at h2
    obtain ⟨_, _, h2⟩ := Option.bind_eq_some_iff.1 h2
    obtain ⟨_, _, h2⟩ := Option.bind_eq_some_iff.1 h2
    simp only at h2
    split at h2
    · split at h2
      · cases h2
      · cases h2; rfl
      · cases h2; rfl
    · cases h2; rfl

theorem exVal_step {E : Env} {rec : Rec}
    (Hv : ∀ cx c st r, rec cx c st = some r → r.out = .ok → ExVal c st r)
    (cx : Cx) (c : Cmd) (st : St) (r : Res) (h : step E rec cx c st = some r) (ho : r.out = .ok) : ExVal c st r := by
  cases c <;> try trivial
  case exParse i min =>
    simp only [step] at h
    show r.st.ex.val.isSome
    split at h
    · exact Hv _ _ _ _ h ho
    · obtain ⟨r1, h1, h2, h3⟩ := emit_ok h
      obtain ⟨r2, r3, h4, h5, h6, h7⟩ := andThen_ok' h1
      cases h5
      rw [h2, h6] at ho
      obtain ⟨r4, r5, h8, h9, h10, h11, h12⟩ := onOk'_ok h4 ho
      rw [h3, h7]
      show r2.st.ex.val.isSome
      rw [h12]
      exact Hv _ _ _ _ h10 h11 (Hv _ _ _ _ h8 h9)
  case exLhs i min =>
    simp only [step] at h
    show r.st.ex.val.isSome
    split at h
    · cases h
    · obtain ⟨r4, r5, h8, h9, h10, h11, h12⟩ := onOk'_ok h ho
      rw [h12]
      cases h10; rfl
    · obtain ⟨r1, h1, h2, h3⟩ := emit_ok h
      obtain ⟨r2, r3, h4, h5, h6, h7⟩ := andThen_ok' h1
      cases h5
      obtain ⟨r4, h8, h9, h10⟩ := framed_ok h4
      rw [h3, h7]
      show r2.st.ex.val.isSome
      rw [h10]
      rw [h2, h6] at ho
      exact Hv _ _ _ _ h8 (h9 ▸ ho)
  case exLoop i min =>
    simp only [step] at h
    intro hs
    split at h
    · cases h
    · cases h; exact hs
    · obtain ⟨r4, r5, h8, h9, h10, h11, h12⟩ := onOk'_ok h ho
      obtain ⟨r6, h13, h14, h15⟩ := framed_ok h8
      rw [h12]
      refine Hv _ _ _ _ h10 h11 ?_
      rw [h15]
      exact Hv _ _ _ _ h13 (h14 ▸ h9)
  case exApply i o k r' b =>
    simp only [step] at h
    show r.st.ex.val.isSome
    split at h
    · cases h; cases ho
    · obtain ⟨r1, h1, h2, h3⟩ := emit_ok h
      rw [h2] at ho
      obtain ⟨r4, r5, h8, h9, h10, h11, h12⟩ := onOk'_ok h1 ho
      rw [h3, h12]
      unfold opCont at h10
      split at h10
      · obtain ⟨_, _, h10⟩ := Option.bind_eq_some_iff.1 h10
        exact Hv _ _ _ _ h10 h11
      · obtain ⟨r6, r7, h13, h14, h15, h16, h17⟩ := onOk'_ok h10 h11
        rw [h17]
        obtain ⟨_, _, h15⟩ := Option.bind_eq_some_iff.1 h15
        cases h15; rfl
      · obtain ⟨_, _, h10⟩ := Option.bind_eq_some_iff.1 h10
        cases h10; rfl
      · exact exVal_opInfix h10 h11
      · exact exVal_opInfix h10 h11
  case exList i o items =>
    simp only [step] at h
    show r.st.ex.val.isSome
    obtain ⟨r1, r2, h1, h2, h3, h4⟩ := andThen_ok' h
    rw [h4]
    rw [h3] at ho
    cases ho1 : r1.out with
    | brk => rw [ho1] at h2; cases h2
    | fail => rw [ho1] at h2; cases h2; cases ho
    | ok =>
      rw [ho1] at h2
      obtain ⟨v, hv, h2⟩ := Option.bind_eq_some_iff.1 h2
      split at h2
      · cases h2
      · cases h2; rfl
      · obtain ⟨r3, r4, h5, h6, h7, h8⟩ := andThen_ok' h2
        rw [h8]
        rw [h7] at ho
        cases ho3 : r3.out with
        | brk => rw [ho3] at h6; cases h6
        | fail => rw [ho3] at h6; cases h6; cases ho
        | ok => rw [ho3] at h6; exact Hv _ _ _ _ h6 ho

section

variable {E : Env} {rec rec' : Cx → Cmd → St → Option Res} {G : Nat → Nat → Prop}
  (H : ∀ cx c st, G cx.maxDepth st.depth → RelQ (mayFail c) st.depth (rec cx c st) (rec' cx c st))
  (Hc : ∀ cx c st r, isCond c = true → rec cx c st = some r → rec' cx c st = some r)
  (H0 : ∀ cx c st r, cx.maxDepth = 0 → rec cx c st = some r → rec' cx c st = some r)
  (Hv : ∀ cx c st r, rec cx c st = some r → r.out = .ok → ExVal c st r)
  (hG0 : ∀ d, G 0 d)

include H

theorem q_rec {d : Nat} {q : Bool} {st : St} {cx : Cx} {c : Cmd} (hd : st.depth = d) (hg : G cx.maxDepth d)
    (hq : mayFail c = true → q = true) : RelQ q d (rec cx c st) (rec' cx c st) := by
  subst hd
  intro r hr hqu
  obtain ⟨a, b, e⟩ := H cx c st hg r hr hqu
  refine ⟨a, b, fun h => e ?_⟩
  cases hc : mayFail c with
  | false => rfl
  | true => rw [hq hc] at h; cases h

include Hc in
omit H in
theorem q_ifTry {d : Nat} {q : Bool} {st : St} {cx : Cx} {c : Cmd} {yes no yes' no' : Option Res}
    (hc : isCond c = true) (h1 : RelQ q d yes yes') (h2 : RelQ q d no no') :
    RelQ q d (ifTry rec cx c st yes no) (ifTry rec' cx c st yes' no') := by
  unfold ifTry
  cases hr : rec cx c st with
  | none => exact q_none
  | some r =>
    rw [Hc cx c st r hc hr]
    obtain ⟨o, s, es⟩ := r
    cases o
    · exact h1
    · exact h2
    · exact h2

include H0 in
omit H in
theorem q_nested_eq {r : Rule} {p : Nat} {v : Bool × Nat × List Ev} (h1 : nested rec r p = some v) :
    nested rec' r p = some v := by
  unfold nested at h1 ⊢
  cases hr : rec ⟨none, 0⟩ (.run r) { pos := p } with
  | none => rw [hr] at h1; cases h1
  | some q =>
    rw [hr] at h1
    rw [H0 ⟨none, 0⟩ (.run r) { pos := p } _ rfl hr]
    exact h1

include hG0 in
theorem q_nested_fail {r : Rule} {p : Nat} {e : Nat} {evs : List Ev} (h1 : nested rec r p = some (false, e, evs)) :
    ∃ ev ∈ evs, ev.isError = true := by
  unfold nested at h1
  cases hr : rec ⟨none, 0⟩ (.run r) { pos := p } with
  | none => rw [hr] at h1; cases h1
  | some x =>
    rw [hr] at h1
    obtain ⟨o, st, es⟩ := x
    cases o
    · cases h1
    · simp only [Option.some.injEq, Prod.mk.injEq] at h1
      obtain ⟨_, _, rfl⟩ := h1
      by_cases hq : Quiet es
      · exact absurd rfl ((H _ _ _ (hG0 _) _ hr hq).2.2 rfl)
      · unfold Quiet at hq
        simp only [Classical.not_forall] at hq
        obtain ⟨ev, h1, h2⟩ := hq
        exact ⟨ev, h1, by simpa using h2⟩
    · cases h1

theorem q_tokenDone {d : Nat} {q : Bool} {st : St} {cx : Cx} {k : Kind} {e : Nat} (h : st.depth = d) (hg : G cx.maxDepth d) :
    RelQ q d (tokenDone rec cx k e st) (tokenDone rec' cx k e st) := by
  unfold tokenDone
  exact q_emit (q_rec H h hg nofun)

theorem q_tokenParse {d : Nat} {q : Bool} {st : St} {cx : Cx} {k : Kind} {tag e : Nat} {b : Bool} (h : st.depth = d)
    (hg : G cx.maxDepth d) : RelQ q d (tokenParse rec cx k tag b e st) (tokenParse rec' cx k tag b e st) := by
  unfold tokenParse
  split
  · exact q_tokenDone H h hg
  · exact q_error ⟨.error tag st.pos e, by simp, rfl⟩

theorem q_primDone {d : Nat} {q : Bool} {st : St} {cx : Cx} {ws : Bool} {x : Bool × Nat × List Ev} (h : st.depth = d)
    (hg : G cx.maxDepth d) (hx : x.1 = false → ∃ ev ∈ x.2.2, ev.isError = true) :
    RelQ q d (primDone rec cx ws x st) (primDone rec' cx ws x st) := by
  unfold primDone
  cases hb : x.1 with
  | false => exact q_emit_error (hx hb)
  | true =>
    refine q_emit ?_
    simp only [if_true]
    split
    · exact q_rec H h hg nofun
    · exact q_ret h

theorem q_production {d : Nat} {q : Bool} {st : St} {cx : Cx} {n : Nat} {f g : Cx → St → Option Res} (h : st.depth = d)
    (hg : G cx.maxDepth d)
    (hf : RelQ false d (f (cx.sub (E.prods n)) { st with ex := {} }) (g (cx.sub (E.prods n)) { st with ex := {} })) :
    RelQ q d (production E rec cx n f st) (production E rec' cx n g st) := by
  unfold production
  refine q_emit (q_andThen (q_framed hf) fun o st' ho hs => ?_)
  cases o
  · refine q_emit ?_
    split
    · exact q_rec H hs hg nofun
    · exact q_ret hs
  · exact absurd rfl ho
  · exact q_none

theorem q_opFinish {d : Nat} {q : Bool} {st : St} {cx : Cx} {k : Kind} {r : Rule} {b : Nat} (h : st.depth = d)
    (hg : G cx.maxDepth d) : RelQ q d (opFinish rec cx k r b st) (opFinish rec' cx k r b st) := by
  unfold opFinish
  exact q_emit (q_onOk' (q_rec H h hg nofun) fun st' hs => q_rec H hs hg nofun)

theorem q_opInfix {d : Nat} {q : Bool} {st : St} {cx : Cx} {i : Nat} {o : OpDef} {b : Bool} (h : st.depth = d)
    (hg : G cx.maxDepth d) : RelQ q d (opInfix E rec cx i o b st) (opInfix E rec' cx i o b st) := by
  unfold opInfix
  refine q_andThen (q_rec H h hg nofun) fun out st' ho hs => ?_
  cases out
  · refine q_bind fun lhs _ => q_bind fun rhs _ => ?_
    simp only
    split
    · split
      · exact q_none
      · exact q_some hs nofun
      · exact q_some hs nofun
    · exact q_some hs nofun
  · exact absurd rfl ho
  · exact q_none

theorem q_opCont {d : Nat} {q : Bool} {st : St} {cx : Cx} {i : Nat} {o : OpDef} (h : st.depth = d)
    (hg : G cx.maxDepth d) : RelQ q d (opCont E rec cx i o st) (opCont E rec' cx i o st) := by
  unfold opCont
  split
  · exact q_bind fun v _ => q_rec H h hg nofun
  · exact q_onOk' (q_rec H h hg nofun) fun st' hs => q_bind fun v _ => q_some hs nofun
  · exact q_bind fun v _ => q_some h nofun
  · exact q_opInfix H h hg
  · exact q_opInfix H h hg

set_option hygiene false in
/-- One step through the combinators. -/
local macro "q_one" H:term "," Hc:term "," H0:term "," hg:term : tactic =>
  `(tactic| first
    | exact q_none
    | exact q_some (by assumption) (fun h => Out.noConfusion h)
    | exact q_ret (by assumption)
    | exact q_try (by assumption)
    | exact q_some (by assumption) (by assumption)
    | exact q_error ⟨_, List.mem_singleton.2 rfl, rfl⟩
    | exact absurd rfl ho
    | exact q_rec $H (by assumption) $hg (fun h => Bool.noConfusion h)
    | exact q_rec $H (by assumption) $hg fun _ => rfl
    | exact q_tokenDone $H (by assumption) $hg
    | exact q_tokenParse $H (by assumption) $hg
    | exact q_primDone $H (by assumption) $hg (PRule.fails _ _ _)
    | exact q_primDone $H (by assumption) $hg (PRule.finish_fails _ _ _)
    | exact q_opFinish $H (by assumption) $hg
    | exact q_opCont $H (by assumption) $hg
    | refine q_emit ?_
    | refine q_framed ?_
    | refine q_onOk ?_ fun _ _ => ?_
    | refine q_onOk' ?_ fun _ _ => ?_
    | (refine q_andThen ?_ fun o _ ho _ => ?_; (try cases o))
    | refine q_ifTry $Hc rfl ?_ ?_
    | refine q_bind fun _ _ => ?_
    | refine q_production $H (by assumption) $hg ?_
    | (intro r hr
       try dsimp only at hr ⊢
       split at hr
       · cases hr
       rename_i heq
       first
         | rw [$Hc _ _ _ _ rfl heq]
         | rw [q_nested_eq $H0 heq]
       try dsimp only
       revert hr
       revert r
       show RelQ _ _ _ _)
    | split)

include Hc H0

include Hv in
theorem q_stepRun (cx : Cx) (st : St) (d : Nat) (hd : st.depth = d) (hg : G cx.maxDepth d) (r : Rule)
    (hr : ∀ n tag b, r ≠ .recu n tag b) :
    RelQ false d (stepRun E rec cx st r) (stepRun E rec' cx st r) := by
  cases r
  case recu n tag b => exact absurd rfl (hr n tag b)
  case err tag r => cases r <;> simp only [stepRun] <;> repeat' (q_one H, Hc, H0, hg)
  case expr i =>
    simp only [stepRun]
    intro x hx hq
    obtain ⟨r1, r2, h1, h2, rfl⟩ := andThen_some.1 hx
    obtain ⟨h3, h4, h5⟩ := q_rec (q := false) H (st := { st with ex := {} }) hd hg (fun h => Bool.noConfusion h) r1 h1 hq.left
    cases ho : r1.out with
    | brk => rw [ho] at h2; cases h2
    | fail => exact absurd ho (h5 rfl)
    | ok =>
      have := Hv _ _ _ _ h1 ho
      simp only [ExVal] at this
      rw [ho] at h2
      simp only [this, if_true] at h2
      cases h2
      refine ⟨andThen_some.2 ⟨r1, ⟨.ok, r1.st, []⟩, h3, ?_, rfl⟩, h4, fun _ h => Out.noConfusion h⟩
      rw [ho]
      simp only [this, if_true]
      rfl
  all_goals simp only [stepRun]
  all_goals repeat' (q_one H, Hc, H0, hg)

theorem q_stepCancel (cx : Cx) (st : St) (d : Nat) (hd : st.depth = d) (hg : G cx.maxDepth d) (r : Rule) :
    RelQ false d (stepCancel E rec cx st r) (stepCancel E rec' cx st r) := by
  cases r
  all_goals simp only [stepCancel]
  all_goals repeat' (q_one H, Hc, H0, hg)

theorem q_stepFinish (cx : Cx) (st : St) (d : Nat) (hd : st.depth = d) (hg : G cx.maxDepth d) (r : Rule)
    (hr : ∀ n tag b, r ≠ .recu n tag b) :
    RelQ false d (stepFinish E rec cx st r) (stepFinish E rec' cx st r) := by
  cases r
  case recu n tag b => exact absurd rfl (hr n tag b)
  all_goals simp only [stepFinish]
  all_goals repeat' (q_one H, Hc, H0, hg)

include hG0 Hv

theorem q_step (cx : Cx) (st : St) (d : Nat) (hd : st.depth = d) (hg : G cx.maxDepth d) (c : Cmd)
    (h1 : ∀ n tag b, c ≠ .run (.recu n tag b)) (h2 : ∀ n tag b, c ≠ .bfinish (.recu n tag b)) :
    RelQ (mayFail c) d (step E rec cx c st) (step E rec' cx c st) := by
  cases c
  case run r => exact q_stepRun H Hc H0 Hv cx st d hd hg r fun n tag b h => h1 n tag b (by rw [h])
  case btry r =>
    show RelQ true d (stepTry E rec cx st r) (stepTry E rec' cx st r)
    cases r
    all_goals simp only [stepTry]
    all_goals repeat' (q_one H, Hc, H0, hg)
  case bcancel r => exact q_stepCancel H Hc H0 cx st d hd hg r
  case bfinish r => exact q_stepFinish H Hc H0 cx st d hd hg r fun n tag b h => h2 n tag b (by rw [h])
  case chcTry rs => cases rs <;> simp only [step, mayFail] <;> repeat' (q_one H, Hc, H0, hg)
  case tokTry r => cases r <;> simp only [step, mayFail] <;> repeat' (q_one H, Hc, H0, hg)
  case chcRun rs => cases rs <;> simp only [step] <;> repeat' (q_one H, Hc, H0, hg)
  case chcCancel rs => cases rs <;> simp only [step] <;> repeat' (q_one H, Hc, H0, hg)
  case chcFinish rs => cases rs <;> simp only [step] <;> repeat' (q_one H, Hc, H0, hg)
  case lstLoop item sep =>
    cases sep with
    | none => simp only [step]; repeat' (q_one H, Hc, H0, hg)
    | some s => obtain ⟨sp, k⟩ := s; simp only [step]; repeat' (q_one H, Hc, H0, hg)
  case ltSep term item sep limit =>
    cases sep with
    | none => simp only [step]; repeat' (q_one H, Hc, H0, hg)
    | some s => obtain ⟨sp, k⟩ := s; simp only [step]; repeat' (q_one H, Hc, H0, hg)
  case ltRec b term item sep limit =>
    cases sep with
    | none => simp only [step]; repeat' (q_one H, Hc, H0, hg)
    | some s => obtain ⟨sp, k⟩ := s; simp only [step]; repeat' (q_one H, Hc, H0, hg)
  case recov r => cases r <;> simp only [step] <;> repeat' (q_one H, Hc, H0, hg)
  case repTail k item sep =>
    cases k with
    | zero => simp only [step]; repeat' (q_one H, Hc, H0, hg)
    | succ k =>
      cases sep with
      | none => simp only [step]; repeat' (q_one H, Hc, H0, hg)
      | some s => simp only [step]; repeat' (q_one H, Hc, H0, hg)
  case skip r =>
    simp only [step]
    split
    · repeat' (q_one H, Hc, H0, hg)
    · cases hn : nested rec (wsRule r) st.pos with
      | none => exact q_none
      | some v =>
        obtain ⟨b, e, evs⟩ := v
        rw [q_nested_eq H0 hn]
        cases b with
        | true => exact q_some hd (fun h => Out.noConfusion h)
        | false =>
          obtain ⟨ev, h1, h2⟩ := q_nested_fail H hG0 hn
          exact q_error ⟨ev, List.mem_append_left _ (List.mem_filter.2 ⟨h1, h2⟩), h2⟩
  all_goals simp only [step]
  all_goals repeat' (q_one H, Hc, H0, hg)

end

end Verif
