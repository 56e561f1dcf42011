import Verif.GrammarTotal

/-
Rules that consume input: syntactic criteria, and that they are right.

Source: /repo/include/lexy/dsl/*.hpp
-/

namespace Verif.Tot

open Verif

variable {E : Env}

/-- The rule consumes input whenever it succeeds. -/
inductive Eats (E : Env) : Rule → Prop
  | tok {t : PTok} : (∀ s, (t.run s).1 = true → 0 < (t.run s).2) → Eats E (.tok t)
  | tokr {k tag r} : Eats E r → Eats E (.tokr k tag r)
  | prim {p : PRule} : (∀ s q, (p.parse s q).1 = true → q < (p.parse s q).2.1) → Eats E (.prim p)
  | seqL {a b} : Eats E a → Eats E (.seq a b)
  | seqR {a b} : Eats E b → Eats E (.seq a b)
  | brL {a b} : Eats E a → Eats E (.br a b)
  | brR {a b} : Eats E b → Eats E (.br a b)
  | chc {rs} : (∀ r ∈ rs, Eats E r) → Eats E (.chc rs)
  | brk : Eats E .brk
  | err {tag r} : Eats E (.err tag r)
  | must {b e} : Eats E b → Eats E (.must b e)
  | lst {item sep} : Eats E item → Eats E (.lst item sep)
  | prod {n} : Eats E (E.prods n).rule → Eats E (.prod n)
  | recu {n tag b} : Eats E (.prod n) → Eats E (.recu n tag b)
  | wsn {r} : Eats E r → Eats E (.wsn r)
  | posr {r} : Eats E r → Eats E (.posr r)
  | rep {c f item sep} : Eats E c → Eats E (.rep c f item sep)
  | cntPush {id r sign} : Eats E r → Eats E (.cntPush id r sign)
  | idCap {id len} {p : PRule} : (∀ s q, (p.parse s q).1 = true → q < (p.parse s q).2.1) → Eats E (.idCap id p len)
  | idRem {id tag} {t : PTok} : (∀ s, (t.run s).1 = true → 0 < (t.run s).2) → Eats E (.idRem id tag t)

/-- A branch that consumes input whenever it is taken, even if it fails afterwards. -/
inductive Moves (E : Env) : Rule → Prop
  | tok {t : PTok} : (∀ s, (t.run s).1 = true → 0 < (t.run s).2) → Moves E (.tok t)
  | tokr {k tag r} : Eats E r → Moves E (.tokr k tag r)
  | prim {p : PRule} : (∀ s q f, p.branch = some f → f s q = true → q < (p.finish s q).2.1) → Moves E (.prim p)
  | br {a b} : Moves E a → Moves E (.br a b)
  | chc {rs} : (∀ r ∈ rs, Moves E r) → Moves E (.chc rs)
  | must {b e} : Moves E b → Moves E (.must b e)
  | lst {item sep} : Moves E item → Moves E (.lst item sep)
  | tryr {r rc} : Moves E r → Moves E (.tryr r rc)
  | prod {n} : Moves E (E.prods n).rule → Moves E (.prod n)
  | wsn {r} : Moves E r → Moves E (.wsn r)
  | posr {r} : Moves E r → Moves E (.posr r)
  | rep {c f item sep} : Moves E c → Moves E (.rep c f item sep)
  | cntPush {id r sign} : Moves E r → Moves E (.cntPush id r sign)
  | idCap {id len} {p : PRule} : (∀ s q f, p.branch = some f → f s q = true → q < (p.finish s q).2.1) →
      Moves E (.idCap id p len)
  | idRem {id tag} {t : PTok} : (∀ s, (t.run s).1 = true → 0 < (t.run s).2) → Moves E (.idRem id tag t)

theorem fwd {n : Nat} {cx : Cx} {c : Cmd} {st : St} {r : Res} (hc : plain c = true) (hl : st.pos ≤ E.inp.length)
    (h : exec E n cx c st = some r) : Fwd E st r.st := exec_fwd hc hl ⟨n, h⟩

/-- A token that matched. -/
theorem tokenDone_lt {n : Nat} {cx : Cx} {k : Kind} {e : Nat} {st : St} {x : Res} (he : e ≤ E.inp.length)
    (hp : st.pos < e) (h : tokenDone (exec E n) cx k e st = some x) : st.pos < x.st.pos := by
  obtain ⟨r', h1, rfl⟩ := emit_some.1 h
  have := (fwd (st := { st with pos := e }) rfl he h1).pos
  simp only at this ⊢
  omega

theorem tok_bound {t : PTok} {p : Nat} (hl : p ≤ E.inp.length) :
    p + (t.run (E.inp.drop p)).2 ≤ E.inp.length := by
  have := t.le (E.inp.drop p)
  rw [List.length_drop] at this
  omega

theorem primDone_lt {n : Nat} {cx : Cx} {ws : Bool} {y : Bool × Nat × List Ev} {st : St} {x : Res}
    (he : y.2.1 ≤ E.inp.length) (hp : st.pos < y.2.1) (h : primDone (exec E n) cx ws y st = some x) :
    st.pos < x.st.pos := by
  obtain ⟨r', h1, rfl⟩ := emit_some.1 h
  simp only
  split at h1
  · split at h1
    · have := (fwd (st := { st with pos := y.2.1 }) rfl he h1).pos
      simp only at this
      omega
    · cases h1; exact hp
  · cases h1; exact hp

theorem primDone_ok {n : Nat} {cx : Cx} {ws : Bool} {y : Bool × Nat × List Ev} {st : St} {x : Res}
    (h : primDone (exec E n) cx ws y st = some x) (ho : x.out = .ok) : y.1 = true := by
  obtain ⟨r', h1, rfl⟩ := emit_some.1 h
  split at h1
  · assumption
  · cases h1; cases ho

theorem deeper_ok {cx : Cx} {tag : Nat} {st : St} {body : St → Option Res} {x : Res}
    (h : deeper cx tag st body = some x) (ho : x.out = .ok) :
    ∃ y, body { st with depth := st.depth + 1 } = some y ∧ y.out = .ok ∧ y.st.pos = x.st.pos := by
  unfold deeper at h
  split at h
  · cases h
  · split at h
    · cases h; cases ho
    · rcases onOk'_some h with ⟨st1, e1, r2, h3, h4, rfl⟩ | ⟨h3, h4⟩
      · cases h4; exact ⟨_, h3, rfl, rfl⟩
      · rw [h4] at ho; cases ho

theorem production_out {n k : Nat} {cx : Cx} {body : Cx → St → Option Res} {st : St} {x : Res}
    (hb : ∀ y, body (cx.sub (E.prods k)) { st with ex := {} } = some y → y.st.pos ≤ E.inp.length)
    (h : production E (exec E n) cx k body st = some x) :
    ∃ y, body (cx.sub (E.prods k)) { st with ex := {} } = some y ∧ (x.out = .ok → y.out = .ok) ∧
      y.st.pos ≤ x.st.pos := by
  unfold production at h
  obtain ⟨r', h1, rfl⟩ := emit_some.1 h
  obtain ⟨r1, r2, h2, h3, rfl⟩ := andThen_some.1 h1
  obtain ⟨y, h4, rfl⟩ := framed_some.1 h2
  refine ⟨y, h4, ?_, ?_⟩
  · intro ho
    cases hy : y.out with
    | ok => rfl
    | fail => simp only [hy] at h3; cases h3; cases ho
    | brk => simp only [hy] at h3; cases h3
  · simp only
    cases hy : y.out with
    | ok =>
      simp only [hy] at h3
      obtain ⟨r3, h5, rfl⟩ := emit_some.1 h3
      simp only
      split at h5
      · have := (fwd (st := { y.st.frame st.vars.length with ex := st.ex }) rfl (hb _ h4) h5).pos
        exact this
      · cases h5; exact Nat.le_refl _
    | fail => simp only [hy] at h3; cases h3; exact Nat.le_refl _
    | brk => simp only [hy] at h3; cases h3

theorem takes_tokr {k : Kind} {tag : Nat} {r : Rule} {st : St} (ht : Takes E (.tokr k tag r) st)
    {n : Nat} {cx : Cx} {y : Res} (h : exec E n cx (.tokTry (.tokr k tag r)) st = some y) : y.out = .ok := by
  obtain ⟨cx', m, hm⟩ := ht.unfold
  simp only [stepTry] at hm
  cases hy : exec E m cx' (.tokTry (.tokr k tag r)) st with
  | none => rw [hy] at hm; cases hm
  | some z =>
    rw [hy] at hm
    simp only [ret, Option.some.injEq, Res.mk.injEq] at hm
    have hz : z.out = .ok := by
      cases hzo : z.out <;> simp [hzo] at hm <;> rfl
    exact (tokTry_spec h).2 ((tokTry_spec hy).1 hz)

theorem takes_idRem {id tag : Nat} {t : PTok} {st : St} (ht : Takes E (.idRem id tag t) st) :
    (t.run (E.inp.drop st.pos)).1 = true := by
  obtain ⟨cx', m, hm⟩ := ht.unfold
  simp only [stepTry] at hm
  split at hm
  · assumption
  · cases hm

theorem tokTry_tokr_lt {n : Nat} {cx : Cx} {k : Kind} {tag : Nat} {r : Rule} {st : St} {y : Res}
    (hr : ∀ n cx st x, st.pos ≤ E.inp.length → exec E n cx (.run r) st = some x → x.out = .ok → st.pos < x.st.pos)
    (hl : st.pos ≤ E.inp.length)
    (h : exec E n cx (.tokTry (.tokr k tag r)) st = some y) (ho : y.out = .ok) :
    st.pos < y.st.pos ∧ y.st.pos ≤ E.inp.length := by
  have hb := exec_good E n cx (.tokTry (.tokr k tag r)) st hl y h
  refine ⟨?_, hb.2.2.2⟩
  cases n with
  | zero => cases h
  | succ n =>
    rw [exec_succ] at h
    simp only [step] at h
    cases hn : nested (exec E n) r st.pos with
    | none => rw [hn] at h; cases h
    | some z =>
      obtain ⟨b, e, evs⟩ := z
      rw [hn] at h
      obtain ⟨z, h1, h2, h3, h4⟩ := nested_some hn
      simp only [ret, Option.some.injEq] at h
      subst h
      simp only
      cases b
      · simp at ho
      · have := hr n _ { pos := st.pos } z hl h1 h4
        rw [h2] at this
        exact this

/-- The outcome of a choice is that of the branch that was taken. -/
theorem chc_out {rs : List Rule} {n : Nat} {cx : Cx} {st : St} {x : Res} (hl : st.pos ≤ E.inp.length)
    (h : exec E n cx (.chcRun rs) st = some x ∨ exec E n cx (.chcFinish rs) st = some x) :
    (∃ r ∈ rs, Takes E r st ∧ ∃ m y, exec E m cx (.bfinish r) st = some y ∧ y.out = x.out ∧ y.st = x.st) ∨
      (x.out = .fail ∧ ¬ ∃ r ∈ rs, Takes E r st) := by
  induction rs generalizing n x with
  | nil =>
    cases n with
    | zero => rcases h with h | h <;> cases h
    | succ n => rcases h with h | h <;> cases h; exact .inr ⟨rfl, by simp⟩
  | cons r rs ih =>
    cases n with
    | zero => rcases h with h | h <;> cases h
    | succ n =>
      have key : ∀ c : Cmd, (c = .chcRun rs ∨ c = .chcFinish rs) →
          ifTry (exec E n) cx (.btry r) st (exec E n cx (.bfinish r) st)
            (onOk' (exec E n cx (.bcancel r) st) fun st' => exec E n cx c st') = some x →
          (∃ r' ∈ r :: rs, Takes E r' st ∧ ∃ m y, exec E m cx (.bfinish r') st = some y ∧ y.out = x.out ∧ y.st = x.st) ∨
            (x.out = .fail ∧ ¬ ∃ r' ∈ r :: rs, Takes E r' st) := by
        intro c hc h
        rcases ifTry_some hl h with ⟨ht, h⟩ | ⟨hlv, h⟩
        · exact .inl ⟨r, by simp, ht, n, x, h, rfl, rfl⟩
        · rcases onOk'_some h with ⟨st1, e1, r2, h3, h4, rfl⟩ | ⟨h3, h4⟩
          · have := (cancel_out hl h3).1
            simp only [Res.mk.injEq] at this
            rw [this.2.1] at h4
            have := ih (n := n) (x := r2) (by rcases hc with rfl | rfl; exact .inl h4; exact .inr h4)
            rcases this with ⟨r', hr', h⟩ | ⟨h, h'⟩
            · exact .inl ⟨r', by simp [hr'], h⟩
            · refine .inr ⟨h, ?_⟩
              rintro ⟨r', hr', ht⟩
              rcases List.mem_cons.1 hr' with rfl | hr'
              · exact ht.not_leaves hl hlv
              · exact h' ⟨r', hr', ht⟩
          · have := (cancel_out hl h3).1
            rw [this] at h4; cases h4
      rcases h with h | h
      · exact key (.chcRun rs) (.inl rfl) h
      · exact key (.chcFinish rs) (.inr rfl) h

/-- A choice whose condition holds has a branch that is taken. -/
theorem chcTry_ex {rs : List Rule} {cx : Cx} {n : Nat} {st : St} (hl : st.pos ≤ E.inp.length)
    (h : exec E n cx (.chcTry rs) st = some ⟨.ok, st, []⟩) : ∃ r ∈ rs, Takes E r st := by
  obtain ⟨pre, b, post, rfl, _, ht⟩ := chcTry_takes hl h
  exact ⟨b, by simp, ht⟩

/-- What `Eats` says. -/
def Eat (E : Env) (r : Rule) : Prop :=
  (∀ n cx st x, st.pos ≤ E.inp.length → exec E n cx (.run r) st = some x → x.out = .ok → st.pos < x.st.pos) ∧
  (∀ n cx st x, st.pos ≤ E.inp.length → Takes E r st → exec E n cx (.bfinish r) st = some x → x.out = .ok →
    st.pos < x.st.pos)

theorem onOk'_lt {x : Option Res} {f : St → Option Res} {p : Nat} {r : Res} (h : onOk' x f = some r)
    (ho : r.out = .ok) (hx : ∀ y, x = some y → y.out = .ok → p < y.st.pos)
    (hf : ∀ st y, p < st.pos → (∃ evs, x = some ⟨.ok, st, evs⟩) → f st = some y → st.pos ≤ y.st.pos) : p < r.st.pos := by
  rcases onOk'_some h with ⟨st1, e1, r2, h3, h4, rfl⟩ | ⟨h3, h4⟩
  · have h1 := hx _ h3 rfl
    have h2 := hf st1 r2 h1 ⟨e1, h3⟩ h4
    simp only at h1 ⊢
    omega
  · rw [h4] at ho; cases ho

theorem eats_sound {r : Rule} (h : Eats E r) : Eat E r := by
  have nofin : ∀ r, (∀ n cx st, step E (exec E n) cx (.bfinish r) st = none) → ∀ n cx st x,
      exec E n cx (.bfinish r) st = some x → False := by
    intro r hr n cx st x hx
    cases n with
    | zero => cases hx
    | succ n => rw [exec_succ, hr] at hx; cases hx
  have mk : ∀ r, (∀ n cx st x, st.pos ≤ E.inp.length → stepRun E (exec E n) cx st r = some x → x.out = .ok →
        st.pos < x.st.pos) →
      (∀ n cx st x, st.pos ≤ E.inp.length → Takes E r st → stepFinish E (exec E n) cx st r = some x → x.out = .ok →
        st.pos < x.st.pos) → Eat E r := by
    intro r h1 h2
    refine ⟨fun n cx st x hl hx ho => ?_, fun n cx st x hl ht hx ho => ?_⟩
    · cases n with
      | zero => cases hx
      | succ n => exact h1 n cx st x hl hx ho
    · cases n with
      | zero => cases hx
      | succ n => exact h2 n cx st x hl ht hx ho
  have takes1 : ∀ (r r' : Rule) (st : St), (∀ rec cx, stepTry E rec cx st r = rec cx (.btry r') st) →
      Takes E r st → Takes E r' st := by
    intro r r' st hs ht
    obtain ⟨cx, n, h⟩ := ht.unfold
    rw [hs] at h
    exact ⟨cx, n, h⟩
  have seq : ∀ (a b : Rule) (c : Cmd) (n : Nat) (cx : Cx) (st : St) (x : Res), plain c = true → st.pos ≤ E.inp.length →
      onOk (exec E n cx c st) (fun st' => exec E n cx (.run b) st') = some x → x.out = .ok →
      ((∀ y, exec E n cx c st = some y → y.out = .ok → st.pos < y.st.pos) ∨ Eat E b) → st.pos < x.st.pos := by
    intro a b c n cx st x hc hl h ho hab
    rcases onOk_some h with ⟨st1, e1, r2, h3, h4, rfl⟩ | ⟨h3, h4⟩
    · have f1 := fwd hc hl h3
      have f2 := fwd (c := .run b) rfl f1.len h4
      have := f1.pos
      have := f2.pos
      simp only at this ⊢
      rcases hab with hab | hab
      · have := hab _ h3 rfl
        simp only at this; omega
      · have := hab.1 _ _ _ _ f1.len h4 ho
        simp only at *; omega
    · exact absurd ho h4
  induction h with
  | @tok t ht =>
    refine mk _ (fun n cx st x hl hx ho => ?_) (fun n cx st x hl htk hx ho => ?_)
    · simp only [stepRun, tokenParse] at hx
      split at hx
      · rename_i hm
        exact tokenDone_lt (tok_bound hl) (by have := ht _ hm; omega) hx
      · cases hx; cases ho
    · simp only [stepFinish] at hx
      have hm : (t.run (E.inp.drop st.pos)).1 = true := by
        obtain ⟨cx', m, hm⟩ := htk.unfold
        simp only [stepTry, ret, Option.some.injEq, Res.mk.injEq] at hm
        by_cases hc : (t.run (E.inp.drop st.pos)).1 = true
        · exact hc
        · simp [hc] at hm
      exact tokenDone_lt (tok_bound hl) (by have := ht _ hm; omega) hx
  | @tokr k tag r _ ih =>
    refine mk _ (fun n cx st x hl hx ho => ?_) (fun n cx st x hl htk hx ho => ?_)
    · simp only [stepRun] at hx
      cases hy : exec E n cx (.tokTry (.tokr k tag r)) st with
      | none => rw [hy] at hx; cases hx
      | some y =>
        rw [hy] at hx
        simp only [tokenParse] at hx
        split at hx
        · rename_i hm
          have hyo : y.out = .ok := by cases hyo : y.out <;> simp [hyo] at hm <;> rfl
          have := tokTry_tokr_lt ih.1 hl hy hyo
          exact tokenDone_lt this.2 this.1 hx
        · cases hx; cases ho
    · simp only [stepFinish] at hx
      cases hy : exec E n cx (.tokTry (.tokr k tag r)) st with
      | none => rw [hy] at hx; cases hx
      | some y =>
        rw [hy] at hx
        have := tokTry_tokr_lt ih.1 hl hy (takes_tokr htk hy)
        exact tokenDone_lt this.2 this.1 hx
  | @prim p hp =>
    refine mk _ (fun n cx st x hl hx ho => ?_) (fun n cx st x hl htk hx ho => ?_)
    · simp only [stepRun] at hx
      exact primDone_lt ((p.parse_tr _ _ hl).bounds hl).2 (hp _ _ (primDone_ok hx ho)) hx
    · simp only [stepFinish] at hx
      obtain ⟨cx', m, hm⟩ := htk.unfold
      simp only [stepTry, ret] at hm
      cases hb : p.branch with
      | none => rw [hb] at hm; cases hm
      | some f =>
        rw [hb] at hm
        simp only [Option.bind_some, Option.some.injEq, Res.mk.injEq] at hm
        have hf : f E.inp st.pos = true := by
          by_cases hc : f E.inp st.pos = true
          · exact hc
          · simp [hc] at hm
        rw [p.coh f _ _ hb hf] at hx
        exact primDone_lt ((p.parse_tr _ _ hl).bounds hl).2 (hp _ _ (primDone_ok hx ho)) hx
  | @seqL a b _ ih =>
    refine mk _ (fun n cx st x hl hx ho => ?_) (fun n cx st x hl htk hx ho => by cases hx)
    simp only [stepRun] at hx
    exact seq a b _ n cx st x rfl hl hx ho (.inl fun y hy hyo => ih.1 _ _ _ _ hl hy hyo)
  | @seqR a b _ ih =>
    refine mk _ (fun n cx st x hl hx ho => ?_) (fun n cx st x hl htk hx ho => by cases hx)
    simp only [stepRun] at hx
    exact seq a b _ n cx st x rfl hl hx ho (.inr ih)
  | @brL a b _ ih =>
    refine mk _ (fun n cx st x hl hx ho => ?_) (fun n cx st x hl htk hx ho => ?_)
    · simp only [stepRun] at hx
      exact seq a b _ n cx st x rfl hl hx ho (.inl fun y hy hyo => ih.1 _ _ _ _ hl hy hyo)
    · simp only [stepFinish] at hx
      exact seq a b _ n cx st x rfl hl hx ho
        (.inl fun y hy hyo => ih.2 _ _ _ _ hl (takes1 _ _ _ (fun _ _ => rfl) htk) hy hyo)
  | @brR a b _ ih =>
    refine mk _ (fun n cx st x hl hx ho => ?_) (fun n cx st x hl htk hx ho => ?_)
    · simp only [stepRun] at hx
      exact seq a b _ n cx st x rfl hl hx ho (.inr ih)
    · simp only [stepFinish] at hx
      exact seq a b _ n cx st x rfl hl hx ho (.inr ih)
  | @chc rs _ ih =>
    refine mk _ (fun n cx st x hl hx ho => ?_) (fun n cx st x hl htk hx ho => ?_)
    · simp only [stepRun] at hx
      rcases chc_out hl (.inl hx) with ⟨r, hr, ht, m, y, h1, h2, h3⟩ | ⟨h1, _⟩
      · rw [← h3]; exact (ih r hr).2 _ _ _ _ hl ht h1 (h2.trans ho)
      · rw [h1] at ho; cases ho
    · simp only [stepFinish] at hx
      rcases chc_out hl (.inr hx) with ⟨r, hr, ht, m, y, h1, h2, h3⟩ | ⟨h1, _⟩
      · rw [← h3]; exact (ih r hr).2 _ _ _ _ hl ht h1 (h2.trans ho)
      · rw [h1] at ho; cases ho
  | brk =>
    have h1 : ∀ n cx st x, exec E n cx (.run .brk) st = some x → x.out = .ok → False := by
      intro n cx st x hx ho
      cases n with
      | zero => cases hx
      | succ n => cases hx; cases ho
    refine mk _ (fun n cx st x hl hx ho => (h1 (n + 1) cx st x hx ho).elim) (fun n cx st x hl htk hx ho => ?_)
    simp only [stepFinish] at hx
    exact (h1 _ _ _ _ hx ho).elim
  | @err tag r =>
    have h1 : ∀ n cx st x, exec E n cx (.run (.err tag r)) st = some x → x.out = .ok → False := by
      intro n cx st x hx ho
      cases n with
      | zero => cases hx
      | succ n =>
        rw [exec_succ] at hx
        cases r with
        | none => cases hx; cases ho
        | some r =>
          simp only [step, stepRun] at hx
          split at hx
          · cases hx
          · cases hx; cases ho
    refine mk _ (fun n cx st x hl hx ho => (h1 (n + 1) cx st x hx ho).elim) (fun n cx st x hl htk hx ho => ?_)
    simp only [stepFinish] at hx
    exact (h1 _ _ _ _ hx ho).elim
  | @must b e _ ih =>
    refine mk _ (fun n cx st x hl hx ho => ?_) (fun n cx st x hl htk hx ho => ?_)
    · simp only [stepRun] at hx
      rcases ifTry_some hl hx with ⟨ht, hx⟩ | ⟨_, hx⟩
      · exact ih.2 _ _ _ _ hl ht hx ho
      · rcases onOk'_some hx with ⟨st1, e1, r2, h3, h4, rfl⟩ | ⟨h3, h4⟩
        · obtain ⟨r3, r4, h5, h6, rfl⟩ := andThen_some.1 h4
          cases hr : r3.out with
          | fail => simp only [hr] at h6; cases h6; cases ho
          | ok => simp only [hr] at h6; cases h6
          | brk => simp only [hr] at h6; cases h6
        · rw [h4] at ho; cases ho
    · simp only [stepFinish] at hx
      exact ih.2 _ _ _ _ hl (takes1 _ _ _ (fun _ _ => rfl) htk) hx ho
  | @lst item sep _ ih =>
    have key : ∀ (n : Nat) (cx : Cx) (c : Cmd) (st : St) (x : Res), plain c = true → st.pos ≤ E.inp.length →
        (∀ y, exec E n cx c st = some y → y.out = .ok → st.pos < y.st.pos) →
        (onOk' (framed st.vars.length (exec E n cx c st)) fun st' => exec E n cx (.lstLoop item sep) st') = some x →
        x.out = .ok → st.pos < x.st.pos := by
      intro n cx c st x hc hl hy hx ho
      refine onOk'_lt hx ho ?_ ?_
      · intro y h hyo
        obtain ⟨r, h1, rfl⟩ := framed_some.1 h
        exact hy r h1 hyo
      · rintro st' y _ ⟨evs, h⟩ hy'
        obtain ⟨r, h1, h2⟩ := framed_some.1 h
        simp only [Res.mk.injEq] at h2
        refine (fwd (c := .lstLoop item sep) rfl ?_ hy').pos
        rw [h2.2.1]; exact (fwd hc hl h1).len
    refine mk _ (fun n cx st x hl hx ho => ?_) (fun n cx st x hl htk hx ho => ?_)
    · simp only [stepRun] at hx
      exact key n cx _ st x rfl hl (fun y hy hyo => ih.1 _ _ _ _ hl hy hyo) hx ho
    · simp only [stepFinish] at hx
      exact key n cx _ st x rfl hl (fun y hy hyo => ih.2 _ _ _ _ hl (takes1 _ _ _ (fun _ _ => rfl) htk) hy hyo) hx ho
  | @prod k _ ih =>
    refine mk _ (fun n cx st x hl hx ho => ?_) (fun n cx st x hl htk hx ho => ?_)
    · simp only [stepRun] at hx
      have run : ∀ cx' st', st'.pos ≤ E.inp.length → ∀ y, (if (E.prods k).ws.isSome then
            onOk' (exec E n cx' .ws st') fun st'' => exec E n cx' (.run (E.prods k).rule) st''
          else exec E n cx' (.run (E.prods k).rule) st') = some y →
          y.st.pos ≤ E.inp.length ∧ (y.out = .ok → st'.pos < y.st.pos) := by
        intro cx' st' hl' y hy
        split at hy
        · rcases onOk'_some hy with ⟨st1, e1, r2, h3, h4, rfl⟩ | ⟨h3, h4⟩
          · have f1 := fwd (c := .ws) rfl hl' h3
            have f2 := fwd (c := .run _) rfl f1.len h4
            refine ⟨f2.len, fun ho => ?_⟩
            have := ih.1 _ _ _ _ f1.len h4 ho
            have := f1.pos
            simp only at *; omega
          · exact ⟨(fwd (c := .ws) rfl hl' h3).len, fun ho => by rw [h4] at ho; cases ho⟩
        · exact ⟨(fwd (c := .run _) rfl hl' hy).len, fun ho => ih.1 _ _ _ _ hl' hy ho⟩
      obtain ⟨y, h1, h2, h3⟩ := production_out (fun y hy => (run _ { st with ex := {} } hl y hy).1) hx
      have := (run _ { st with ex := {} } hl y h1).2 (h2 ho)
      simp only at this; omega
    · simp only [stepFinish] at hx
      obtain ⟨y, h1, h2, h3⟩ := production_out (fun y hy => (fwd (c := .bfinish _) (st := { st with ex := {} }) rfl hl hy).len) hx
      have ht : Takes E (E.prods k).rule st := by
        obtain ⟨cx', m, hm⟩ := htk.unfold
        simp only [stepTry] at hm
        split at hm
        · exact ⟨cx', m, hm⟩
        · cases hm
      have := ih.2 _ _ { st with ex := {} } _ hl (ht.congr rfl rfl hl) h1 (h2 ho)
      simp only at this; omega
  | @recu k tag b _ ih =>
    refine mk _ (fun n cx st x hl hx ho => ?_) (fun n cx st x hl htk hx ho => ?_)
    · simp only [stepRun] at hx
      obtain ⟨y, h1, h2, h3⟩ := deeper_ok hx ho
      have := ih.1 _ _ { st with depth := st.depth + 1 } _ hl h1 h2
      simp only at this; omega
    · simp only [stepFinish] at hx
      obtain ⟨y, h1, h2, h3⟩ := deeper_ok hx ho
      have ht : Takes E (.prod k) st := by
        obtain ⟨cx', m, hm⟩ := htk.unfold
        simp only [stepTry] at hm
        split at hm
        · exact ⟨cx', m, hm⟩
        · cases hm
      have := ih.2 _ _ { st with depth := st.depth + 1 } _ hl (ht.congr rfl rfl hl) h1 h2
      simp only at this; omega
  | @wsn r _ ih =>
    have key : ∀ (n : Nat) (cx : Cx) (c : Cmd) (st : St) (x : Res), plain c = true → st.pos ≤ E.inp.length →
        (∀ y, exec E n cx c { st with wsOn := false } = some y → y.out = .ok → st.pos < y.st.pos) →
        (onOk (exec E n cx c { st with wsOn := false }) fun st' => exec E n cx .ws { st' with wsOn := true }) = some x →
        x.out = .ok → st.pos < x.st.pos := by
      intro n cx c st x hc hl hy hx ho
      rcases onOk_some hx with ⟨st1, e1, r2, h3, h4, rfl⟩ | ⟨h3, h4⟩
      · have := hy _ h3 rfl
        have f1 := fwd (st := { st with wsOn := false }) hc hl h3
        have := (fwd (c := .ws) (st := { st1 with wsOn := true }) rfl f1.len h4).pos
        simp only at *; omega
      · exact absurd ho h4
    refine mk _ (fun n cx st x hl hx ho => ?_) (fun n cx st x hl htk hx ho => ?_)
    · simp only [stepRun] at hx
      split at hx
      · exact ih.1 _ _ _ _ hl hx ho
      · exact key n cx _ st x rfl hl (fun y hy hyo => ih.1 n cx { st with wsOn := false } y hl hy hyo) hx ho
    · simp only [stepFinish] at hx
      have ht := takes1 (.wsn r) r st (fun _ _ => rfl) htk
      exact key n cx _ st x rfl hl (fun y hy hyo => ih.2 n cx { st with wsOn := false } y hl (ht.congr rfl rfl hl) hy hyo) hx ho
  | @posr r _ ih =>
    refine mk _ (fun n cx st x hl hx ho => ?_) (fun n cx st x hl htk hx ho => ?_)
    · simp only [stepRun] at hx
      obtain ⟨y, h1, rfl⟩ := emit_some.1 hx
      exact ih.1 _ _ _ y hl h1 ho
    · simp only [stepFinish] at hx
      obtain ⟨y, h1, rfl⟩ := emit_some.1 hx
      exact ih.2 _ _ _ y hl (takes1 _ _ _ (fun _ _ => rfl) htk) h1 ho
  | @rep c f item sep _ ih =>
    have key : ∀ (n : Nat) (cx : Cx) (cm : Cmd) (st : St) (x : Res), plain cm = true → st.pos ≤ E.inp.length →
        (∀ y, exec E n cx cm st = some y → y.out = .ok → st.pos < y.st.pos) →
        (onOk' (exec E n cx cm st) fun st' =>
          match f ((E.inp.take st'.pos).drop st.pos) with
          | 0 => ret .ok st'
          | k + 1 => onOk' (framed st'.vars.length (exec E n cx (.run item) st')) fun st'' =>
              exec E n cx (.repTail k item sep) st'') = some x →
        x.out = .ok → st.pos < x.st.pos := by
      intro n cx cm st x hc hl hy hx ho
      refine onOk'_lt hx ho hy ?_
      rintro st' y _ ⟨evs, h⟩ hy'
      have f1 := fwd hc hl h
      split at hy'
      · cases hy'; exact Nat.le_refl _
      · rcases onOk'_some hy' with ⟨st1, e1, r2, h3, h4, rfl⟩ | ⟨h3, h4⟩
        · obtain ⟨r, h1, h2⟩ := framed_some.1 h3
          simp only [Res.mk.injEq] at h2
          have f2 := fwd (c := .run item) rfl f1.len h1
          have f3 := fwd (c := .repTail ..) (st := st1) rfl (by rw [h2.2.1]; exact f2.len) h4
          have h5 := f2.pos
          have h6 := f3.pos
          rw [h2.2.1] at h6
          exact Nat.le_trans h5 h6
        · obtain ⟨r, h1, h2⟩ := framed_some.1 h3
          have f2 := fwd (c := .run item) rfl f1.len h1
          rw [h2]; exact f2.pos
    refine mk _ (fun n cx st x hl hx ho => ?_) (fun n cx st x hl htk hx ho => ?_)
    · simp only [stepRun] at hx
      exact key n cx _ st x rfl hl (fun y hy hyo => ih.1 _ _ _ _ hl hy hyo) hx ho
    · simp only [stepFinish] at hx
      exact key n cx _ st x rfl hl (fun y hy hyo => ih.2 _ _ _ _ hl (takes1 _ _ _ (fun _ _ => rfl) htk) hy hyo) hx ho
  | @cntPush id r sign _ ih =>
    refine mk _ (fun n cx st x hl hx ho => ?_) (fun n cx st x hl htk hx ho => ?_)
    · simp only [stepRun] at hx
      refine onOk'_lt hx ho (fun y hy hyo => ih.1 _ _ _ _ hl hy hyo) fun st' y _ _ hy' => ?_
      obtain ⟨i, _, h⟩ := Option.bind_eq_some_iff.1 hy'
      cases h; exact Nat.le_refl _
    · simp only [stepFinish] at hx
      refine onOk'_lt hx ho (fun y hy hyo => ih.2 _ _ _ _ hl (takes1 _ _ _ (fun _ _ => rfl) htk) hy hyo) fun st' y _ _ hy' => ?_
      obtain ⟨i, _, h⟩ := Option.bind_eq_some_iff.1 hy'
      cases h; exact Nat.le_refl _
  | @idCap id len p hp =>
    refine mk _ (fun n cx st x hl hx ho => ?_) (fun n cx st x hl htk hx ho => ?_)
    · simp only [stepRun] at hx
      refine onOk'_lt hx ho (fun y hy hyo => primDone_lt ((p.parse_tr _ _ hl).bounds hl).2 (hp _ _ (primDone_ok hy hyo)) hy)
        fun st' y _ _ hy' => ?_
      obtain ⟨i, _, h⟩ := Option.bind_eq_some_iff.1 hy'
      cases h; exact Nat.le_refl _
    · simp only [stepFinish] at hx
      obtain ⟨cx', m, hm⟩ := htk.unfold
      simp only [stepTry, ret] at hm
      cases hb : p.branch with
      | none => rw [hb] at hm; cases hm
      | some f =>
        rw [hb] at hm
        simp only [Option.bind_some, Option.some.injEq, Res.mk.injEq] at hm
        have hf : f E.inp st.pos = true := by
          by_cases hc : f E.inp st.pos = true
          · exact hc
          · simp [hc] at hm
        rw [p.coh f _ _ hb hf] at hx
        refine onOk'_lt hx ho (fun y hy hyo => primDone_lt ((p.parse_tr _ _ hl).bounds hl).2 (hp _ _ (primDone_ok hy hyo)) hy)
          fun st' y _ _ hy' => ?_
        obtain ⟨i, _, h⟩ := Option.bind_eq_some_iff.1 hy'
        cases h; exact Nat.le_refl _
  | @idRem id tag t ht =>
    refine mk _ (fun n cx st x hl hx ho => ?_) (fun n cx st x hl htk hx ho => ?_)
    · simp only [stepRun] at hx
      refine onOk'_lt hx ho (fun y hy hyo => ?_) fun st' y _ _ hy' => ?_
      · simp only [tokenParse] at hy
        split at hy
        · rename_i hm
          exact tokenDone_lt (tok_bound hl) (by have := ht _ hm; omega) hy
        · cases hy; cases hyo
      · obtain ⟨i, _, h⟩ := Option.bind_eq_some_iff.1 hy'
        cases h; exact Nat.le_refl _
    · simp only [stepFinish] at hx
      exact tokenDone_lt (tok_bound hl) (by have := ht _ (takes_idRem htk); omega) hx

/-- What `Moves` says. -/
theorem moves_sound {r : Rule} (h : Moves E r) : ∀ n cx st x, st.pos ≤ E.inp.length → Takes E r st →
    exec E n cx (.bfinish r) st = some x → st.pos < x.st.pos := by
  have mk : ∀ r, (∀ n cx st x, st.pos ≤ E.inp.length → Takes E r st → stepFinish E (exec E n) cx st r = some x →
        st.pos < x.st.pos) →
      ∀ n cx st x, st.pos ≤ E.inp.length → Takes E r st → exec E n cx (.bfinish r) st = some x → st.pos < x.st.pos := by
    intro r h2 n cx st x hl ht hx
    cases n with
    | zero => cases hx
    | succ n => exact h2 n cx st x hl ht hx
  have takes1 : ∀ (r r' : Rule) (st : St), (∀ rec cx, stepTry E rec cx st r = rec cx (.btry r') st) →
      Takes E r st → Takes E r' st := by
    intro r r' st hs ht
    obtain ⟨cx, n, h⟩ := ht.unfold
    rw [hs] at h
    exact ⟨cx, n, h⟩
  induction h with
  | @tok t ht =>
    refine mk _ (fun n cx st x hl htk hx => ?_)
    simp only [stepFinish] at hx
    have hm : (t.run (E.inp.drop st.pos)).1 = true := by
      obtain ⟨cx', m, hm⟩ := htk.unfold
      simp only [stepTry, ret, Option.some.injEq, Res.mk.injEq] at hm
      by_cases hc : (t.run (E.inp.drop st.pos)).1 = true
      · exact hc
      · simp [hc] at hm
    exact tokenDone_lt (tok_bound hl) (by have := ht _ hm; omega) hx
  | @tokr k tag r he =>
    refine mk _ (fun n cx st x hl htk hx => ?_)
    simp only [stepFinish] at hx
    cases hy : exec E n cx (.tokTry (.tokr k tag r)) st with
    | none => rw [hy] at hx; cases hx
    | some y =>
      rw [hy] at hx
      have := tokTry_tokr_lt (eats_sound he).1 hl hy (takes_tokr htk hy)
      exact tokenDone_lt this.2 this.1 hx
  | @prim p hp =>
    refine mk _ (fun n cx st x hl htk hx => ?_)
    simp only [stepFinish] at hx
    obtain ⟨cx', m, hm⟩ := htk.unfold
    simp only [stepTry, ret] at hm
    cases hb : p.branch with
    | none => rw [hb] at hm; cases hm
    | some f =>
      rw [hb] at hm
      simp only [Option.bind_some, Option.some.injEq, Res.mk.injEq] at hm
      have hf : f E.inp st.pos = true := by
        by_cases hc : f E.inp st.pos = true
        · exact hc
        · simp [hc] at hm
      exact primDone_lt ((p.finish_tr _ _ hl).bounds hl).2 (hp _ _ f hb hf) hx
  | @br a b _ ih =>
    refine mk _ (fun n cx st x hl htk hx => ?_)
    simp only [stepFinish] at hx
    have ht := takes1 _ _ _ (fun _ _ => rfl) htk
    rcases onOk_some hx with ⟨st1, e1, r2, h3, h4, rfl⟩ | ⟨h3, h4⟩
    · have := ih _ _ _ _ hl ht h3
      have f1 := fwd (c := .bfinish a) rfl hl h3
      have := (fwd (c := .run b) rfl f1.len h4).pos
      simp only at *; omega
    · exact ih _ _ _ _ hl ht h3
  | @chc rs _ ih =>
    refine mk _ (fun n cx st x hl htk hx => ?_)
    simp only [stepFinish] at hx
    rcases chc_out hl (.inr hx) with ⟨r, hr, ht, m, y, h1, h2, h3⟩ | ⟨h1, h2⟩
    · rw [← h3]; exact ih r hr _ _ _ _ hl ht h1
    · obtain ⟨cx', m, hm⟩ := htk.unfold
      exact absurd (chcTry_ex hl hm) h2
  | @must b e _ ih =>
    refine mk _ (fun n cx st x hl htk hx => ?_)
    exact ih _ _ _ _ hl (takes1 _ _ _ (fun _ _ => rfl) htk) hx
  | @lst item sep _ ih =>
    refine mk _ (fun n cx st x hl htk hx => ?_)
    simp only [stepFinish] at hx
    have ht := takes1 _ _ _ (fun _ _ => rfl) htk
    rcases onOk'_some hx with ⟨st1, e1, r2, h3, h4, rfl⟩ | ⟨h3, h4⟩
    · obtain ⟨r, h1, h2⟩ := framed_some.1 h3
      simp only [Res.mk.injEq] at h2
      have h5 := ih _ _ _ _ hl ht h1
      have f1 := fwd (c := .bfinish item) rfl hl h1
      have h6 := (fwd (c := .lstLoop item sep) (st := st1) rfl (by rw [h2.2.1]; exact f1.len) h4).pos
      rw [h2.2.1] at h6
      exact Nat.lt_of_lt_of_le h5 h6
    · obtain ⟨r, h1, h2⟩ := framed_some.1 h3
      rw [h2]; exact ih _ _ _ r hl ht h1
  | @tryr r rc _ ih =>
    refine mk _ (fun n cx st x hl htk hx => ?_)
    simp only [stepFinish] at hx
    have ht := takes1 _ _ _ (fun _ _ => rfl) htk
    obtain ⟨r1, r2, h1, h2, rfl⟩ := andThen_some.1 hx
    have h5 := ih _ _ _ _ hl ht h1
    have f1 := fwd (c := .bfinish r) rfl hl h1
    simp only
    cases ho : r1.out with
    | ok => simp only [ho] at h2; cases h2; exact h5
    | brk => simp only [ho] at h2; cases h2
    | fail =>
      simp only [ho] at h2
      have := (fwd (c := .recov rc) (st := r1.st.frame st.vars.length) rfl f1.len h2).pos
      exact Nat.lt_of_lt_of_le h5 this
  | @prod k _ ih =>
    refine mk _ (fun n cx st x hl htk hx => ?_)
    simp only [stepFinish] at hx
    obtain ⟨y, h1, h2, h3⟩ := production_out (fun y hy => (fwd (c := .bfinish _) (st := { st with ex := {} }) rfl hl hy).len) hx
    have ht : Takes E (E.prods k).rule st := by
      obtain ⟨cx', m, hm⟩ := htk.unfold
      simp only [stepTry] at hm
      split at hm
      · exact ⟨cx', m, hm⟩
      · cases hm
    have := ih _ _ { st with ex := {} } _ hl (ht.congr rfl rfl hl) h1
    simp only at this; omega
  | @wsn r _ ih =>
    refine mk _ (fun n cx st x hl htk hx => ?_)
    simp only [stepFinish] at hx
    have ht : Takes E r { st with wsOn := false } := (takes1 (.wsn r) r st (fun _ _ => rfl) htk).congr rfl rfl hl
    rcases onOk_some hx with ⟨st1, e1, r2, h3, h4, rfl⟩ | ⟨h3, h4⟩
    · have := ih _ _ { st with wsOn := false } _ hl ht h3
      have f1 := fwd (c := .bfinish r) (st := { st with wsOn := false }) rfl hl h3
      have := (fwd (c := .ws) (st := { st1 with wsOn := true }) rfl f1.len h4).pos
      simp only at *; omega
    · exact ih _ _ { st with wsOn := false } _ hl ht h3
  | @posr r _ ih =>
    refine mk _ (fun n cx st x hl htk hx => ?_)
    simp only [stepFinish] at hx
    obtain ⟨y, h1, rfl⟩ := emit_some.1 hx
    exact ih _ _ _ y hl (takes1 _ _ _ (fun _ _ => rfl) htk) h1
  | @rep c f item sep _ ih =>
    refine mk _ (fun n cx st x hl htk hx => ?_)
    simp only [stepFinish] at hx
    have ht := takes1 _ _ _ (fun _ _ => rfl) htk
    rcases onOk'_some hx with ⟨st1, e1, r2, h3, h4, rfl⟩ | ⟨h3, h4⟩
    · have h5 := ih _ _ _ _ hl ht h3
      have f1 := fwd (c := .bfinish c) rfl hl h3
      simp only at h5 ⊢
      refine Nat.lt_of_lt_of_le h5 ?_
      split at h4
      · cases h4; exact Nat.le_refl _
      · rcases onOk'_some h4 with ⟨st2, e2, r3, h6, h7, rfl⟩ | ⟨h6, h7⟩
        · obtain ⟨r, h1, h2⟩ := framed_some.1 h6
          simp only [Res.mk.injEq] at h2
          have f2 := fwd (c := .run item) rfl f1.len h1
          have f3 := fwd (c := .repTail ..) (st := st2) rfl (by rw [h2.2.1]; exact f2.len) h7
          have h8 := f2.pos
          have h9 := f3.pos
          rw [h2.2.1] at h9
          exact Nat.le_trans h8 h9
        · obtain ⟨r, h1, h2⟩ := framed_some.1 h6
          have f2 := fwd (c := .run item) rfl f1.len h1
          rw [h2]; exact f2.pos
    · exact ih _ _ _ _ hl ht h3
  | @cntPush id r sign _ ih =>
    refine mk _ (fun n cx st x hl htk hx => ?_)
    simp only [stepFinish] at hx
    have ht := takes1 _ _ _ (fun _ _ => rfl) htk
    rcases onOk'_some hx with ⟨st1, e1, r2, h3, h4, rfl⟩ | ⟨h3, h4⟩
    · have h5 := ih _ _ _ _ hl ht h3
      obtain ⟨i, _, h⟩ := Option.bind_eq_some_iff.1 h4
      cases h; exact h5
    · exact ih _ _ _ _ hl ht h3
  | @idCap id len p hp =>
    refine mk _ (fun n cx st x hl htk hx => ?_)
    simp only [stepFinish] at hx
    obtain ⟨cx', m, hm⟩ := htk.unfold
    simp only [stepTry, ret] at hm
    cases hb : p.branch with
    | none => rw [hb] at hm; cases hm
    | some f =>
      rw [hb] at hm
      simp only [Option.bind_some, Option.some.injEq, Res.mk.injEq] at hm
      have hf : f E.inp st.pos = true := by
        by_cases hc : f E.inp st.pos = true
        · exact hc
        · simp [hc] at hm
      rcases onOk'_some hx with ⟨st1, e1, r2, h3, h4, rfl⟩ | ⟨h3, h4⟩
      · have h5 := primDone_lt ((p.finish_tr _ _ hl).bounds hl).2 (hp _ _ f hb hf) h3
        obtain ⟨i, _, h⟩ := Option.bind_eq_some_iff.1 h4
        cases h; exact h5
      · exact primDone_lt ((p.finish_tr _ _ hl).bounds hl).2 (hp _ _ f hb hf) h3
  | @idRem id tag t ht =>
    refine mk _ (fun n cx st x hl htk hx => ?_)
    simp only [stepFinish] at hx
    exact tokenDone_lt (tok_bound hl) (by have := ht _ (takes_idRem htk); omega) hx

end Verif.Tot
