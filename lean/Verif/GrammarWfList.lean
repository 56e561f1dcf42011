import Verif.GrammarWf

/-
Lists with a terminator terminate, list.hpp l.165-444.
-/

namespace Verif.Tot

open Verif

variable {E : Env}

/-- There is a result, and it satisfies `Q`. -/
def TT (E : Env) (Q : Out → St → Prop) (f : RecFn → Option Res) : Prop := ∃ r, Ends E f r ∧ Q r.out r.st

/-- The command has a result, and it satisfies `Q`. -/
def TotQ (E : Env) (Q : Out → St → Prop) (cx : Cx) (c : Cmd) (st : St) : Prop := ∃ r, Exec E cx c st r ∧ Q r.out r.st

section

variable {Q : Out → St → Prop}

theorem TT.exec {cx : Cx} {c : Cmd} {st : St} (h : TT E Q fun rec => step E rec cx c st) : TotQ E Q cx c st := by
  obtain ⟨r, ⟨N, h1⟩, h2⟩ := h
  exact ⟨r, ⟨N + 1, h1 N (Nat.le_refl _)⟩, h2⟩

theorem TotQ.rec {cx : Cx} {c : Cmd} {st : St} (h : TotQ E Q cx c st) : TT E Q fun rec => rec cx c st := by
  obtain ⟨r, h1, h2⟩ := h
  exact ⟨r, .of_exec h1, h2⟩

theorem TT.pure {r : Res} (h : Q r.out r.st) : TT E Q fun _ => some r := ⟨r, ⟨0, fun _ _ => rfl⟩, h⟩

theorem TT.emit {x : RecFn → Option Res} {evs : List Ev} (h : TT E Q x) : TT E Q fun rec => emit evs (x rec) := by
  obtain ⟨r, h1, h2⟩ := h
  exact ⟨_, h1.emit, h2⟩

theorem TT.congr {f g : RecFn → Option Res} (N : Nat) (h : ∀ n, N ≤ n → f (Verif.exec E n) = g (Verif.exec E n))
    (hg : TT E Q g) : TT E Q f := by
  obtain ⟨r, ⟨M, h1⟩, h2⟩ := hg
  refine ⟨r, ⟨max N M, fun n hn => ?_⟩, h2⟩
  rw [h n (by omega), h1 n (by omega)]

theorem TT.andThen {b' : Bool} {x : RecFn → Option Res} {f : RecFn → Out → St → Option Res} (hx : T E b' x)
    (hf : ∀ r, Ends E x r → (b' = false → r.out ≠ .brk) → TT E Q fun rec => f rec r.out r.st) :
    TT E Q fun rec => andThen (x rec) (f rec) := by
  obtain ⟨r, h1, h2⟩ := hx
  obtain ⟨r', ⟨M, h3⟩, h4⟩ := hf r h1 h2
  obtain ⟨N, h1⟩ := h1
  exact ⟨⟨r'.out, r'.st, r.evs ++ r'.evs⟩, ⟨max N M, fun n hn =>
    andThen_some.2 ⟨r, r', h1 n (by omega), h3 n (by omega), rfl⟩⟩, h4⟩

theorem TT.ifTry {cx : Cx} {r : Rule} {st : St} {yes no : RecFn → Option Res} (hl : st.pos ≤ E.inp.length)
    (ht : TotC E false cx (.btry r) st) (hy : Takes E r st → TT E Q yes) (hn : Leaves E r st → TT E Q no) :
    TT E Q fun rec => ifTry rec cx (.btry r) st (yes rec) (no rec) := by
  obtain ⟨x, ⟨N, hx⟩, _⟩ := ht
  rcases btry_out hl hx with rfl | rfl
  · refine TT.congr N (fun n hn => ?_) (hy ⟨cx, N, hx⟩)
    simp only [Verif.ifTry, exec_mono hn hx]
  · refine TT.congr N (fun n hn => ?_) (hn ⟨cx, N, hx⟩)
    simp only [Verif.ifTry, exec_mono hn hx]

theorem TT.cancel {cx : Cx} {r : Rule} {st : St} {f : RecFn → St → Option Res} (hl : st.pos ≤ E.inp.length)
    (ht : TotC E false cx (.bcancel r) st) (hf : TT E Q fun rec => f rec st) :
    TT E Q fun rec => Verif.onOk' (rec cx (.bcancel r) st) (f rec) := by
  refine TT.andThen ht.rec fun x hx _ => ?_
  obtain ⟨n, hx⟩ := hx.exec
  have := (cancel_out hl hx).1
  rw [this]
  exact hf

end

/-- The loop ended because the terminator is there, or it failed. -/
def LtQ (E : Env) (V : List VarKey) (term : Rule) (cx : Cx) (m : Nat) (o : Out) (st : St) : Prop :=
  o ≠ .brk ∧ (o = .ok → Takes E term st ∧ At E V st ∧ mu E cx st ≤ m)

/-- All the commands of the loop. -/
structure Lt5 (E : Env) (V : List VarKey) (cx : Cx) (m : Nat) (term item : Rule) (sep : Option Sep) (limit : List Nat → Bool) (st : St) : Prop where
  qrec : ∀ b, TotQ E (LtQ E V term cx m) cx (.ltRec b term item sep limit) st
  qitem : TotQ E (LtQ E V term cx m) cx (.ltItem term item sep limit) st
  qsep : TotQ E (LtQ E V term cx m) cx (.ltSep term item sep limit) st
  qterm : TotQ E (LtQ E V term cx m) cx (.ltTerm term item sep limit) st
  qtrail : ∀ p, TotQ E (LtQ E V term cx m) cx (.ltTrail p term item sep limit) st

variable {cx : Cx} {m : Nat} {V : List VarKey}

/-- The part of the recovery that looks for the terminator. -/
theorem giveUp_tot {term item : Rule} {sep : Option Sep} {limit : List Nat → Bool} {b : Nat} {st : St}
    (hl : At E V st) (hm : mu E cx st ≤ m) (ht : AllCond E V cx m term)
    (ih : ∀ st', At E V st' → mu E cx st' < mu E cx st →
      TotQ E (LtQ E V term cx m) cx (.ltRec b term item sep limit) st') :
    TT E (LtQ E V term cx m) fun rec => ifTry rec cx (.btry term) st (some ⟨.ok, st, skipped b st true⟩)
        (onOk' (rec cx (.bcancel term) st) fun st2 =>
          if limit (E.inp.drop st2.pos) || peekEof E.eof (E.inp.drop st2.pos) then
            some ⟨.fail, st2, skipped b st2 false⟩
          else rec cx (.ltRec b term item sep limit) { st2 with pos := st2.pos + 1 }) := by
  refine TT.ifTry hl.len (ht st hl hm).1 (fun htk => TT.pure ⟨by simp, fun _ => ⟨htk, hl, hm⟩⟩) (fun _ => ?_)
  refine TT.cancel hl.len (ht st hl hm).2 ?_
  split
  · exact TT.pure ⟨by simp, by simp⟩
  · rename_i hlim
    have := not_eof (by simp at hlim; exact hlim.2) hl.len
    refine (ih { st with pos := st.pos + 1 } (hl.pos this) ?_).rec
    simp only [mu]; omega

/-- `framed`, with where the reader is afterwards. -/
theorem ends_fwd {c : Cmd} {st : St} {k : Nat} {x : Res} (hc : plain c = true) (hl : st.pos ≤ E.inp.length)
    (hk : st.vars.length ≤ k) (h : Ends E (fun rec => framed k (rec cx c st)) x) :
    Fwd E st x.st ∧ x.st.vars.length ≤ k ∧ ∃ n y, exec E n cx c st = some y ∧ y.out = x.out ∧ y.st.pos = x.st.pos := by
  obtain ⟨x0, ⟨n, hx0⟩, ho, hs⟩ := h.framed_inv
  have f := (fwd hc hl hx0).frame hk
  rw [← hs] at f
  exact ⟨f, by rw [hs]; exact frame_len _ _, n, x0, hx0, ho.symm, by rw [hs]; rfl⟩

theorem lt_induct {term item : Rule} {sep : Option Sep} {limit : List Nat → Bool}
    (h : ∀ k ≤ m, (∀ st, At E V st → mu E cx st < k → Lt5 E V cx m term item sep limit st) →
      ∀ st, At E V st → mu E cx st ≤ k → Lt5 E V cx m term item sep limit st)
    (st : St) (hl : At E V st) (hm : mu E cx st ≤ m) : Lt5 E V cx m term item sep limit st := by
  have : ∀ k, k ≤ m → ∀ st, At E V st → mu E cx st ≤ k → Lt5 E V cx m term item sep limit st := by
    intro k
    induction k using Nat.strongRecOn with
    | _ k ih =>
      intro hk st hl hm
      exact h k hk (fun st' hl' hlt => ih _ hlt (by omega) st' hl' (Nat.le_refl _)) st hl hm
  exact this m (Nat.le_refl _) st hl hm

/-- Without separator. -/
theorem lt_tot {term item : Rule} {limit : List Nat → Bool} (ht : AllCond E V cx m term)
    (hi : All E V false cx m (.run item)) (hf : AllFin E V false cx m item) (he : Eats E item)
    (hc : item.isBranch E = true → AllCond E V cx m item) (hmv : item.isBranch E = true → Moves E item)
    (st : St) (hl : At E V st) (hm : mu E cx st ≤ m) : Lt5 E V cx m term item none limit st := by
  refine lt_induct (fun k hk ih => ?_) st hl hm
  have R : ∀ st, At E V st → mu E cx st ≤ k → ∀ b,
      TotQ E (LtQ E V term cx m) cx (.ltRec b term item none limit) st := by
    intro st hl hm b
    refine TT.exec ?_
    simp only [step]
    have up := giveUp_tot (item := item) (sep := none) (limit := limit) (b := b) hl (Nat.le_trans hm hk) ht
      (fun st' hl' hlt => (ih st' hl' (by omega)).qrec b)
    split
    · rename_i hb
      refine TT.ifTry hl.len (hc hb st hl (by omega)).1 (fun htk => TT.emit ?_)
        (fun _ => TT.cancel hl.len (hc hb st hl (by omega)).2 up)
      refine TT.andThen (T.framed (hf st hl (by omega) htk).rec) fun x hx hxb => ?_
      obtain ⟨f, hlen, n, y, hy, hyo, hyp⟩ := ends_fwd rfl hl.len (Nat.le_refl _) hx
      have hlt := f.mu_lt (cx := cx) (hyp ▸ moves_sound (hmv hb) _ _ _ _ hl.len htk hy)
      have five := ih x.st (f.at hl) (by omega)
      cases hxo : x.out with
      | brk => exact absurd hxo (hxb rfl)
      | ok => exact five.qterm.rec
      | fail => exact TT.emit (five.qrec _).rec
    · exact up
  have I : ∀ st, At E V st → mu E cx st ≤ k →
      TotQ E (LtQ E V term cx m) cx (.ltItem term item none limit) st := by
    intro st hl hm
    refine TT.exec ?_
    simp only [step]
    refine TT.andThen (T.framed (hi st hl (by omega)).rec) fun x hx hxb => ?_
    obtain ⟨f, hlen, n, y, hy, hyo, hyp⟩ := ends_fwd rfl hl.len (Nat.le_refl _) hx
    cases hxo : x.out with
    | brk => exact absurd hxo (hxb rfl)
    | ok =>
      have hlt := f.mu_lt (cx := cx) (hyp ▸ (eats_sound he).1 _ _ _ _ hl.len hy (hyo.trans hxo))
      exact (ih x.st (f.at hl) (by omega)).qterm.rec
    | fail => exact TT.emit (R x.st (f.at hl) (Nat.le_trans f.mu hm) _).rec
  have S : ∀ st, At E V st → mu E cx st ≤ k →
      TotQ E (LtQ E V term cx m) cx (.ltSep term item none limit) st := by
    intro st hl hm
    refine TT.exec ?_
    simp only [step]
    exact (I st hl hm).rec
  intro st hl hm
  refine ⟨R st hl hm, I st hl hm, S st hl hm, ?_, fun p => ?_⟩
  · refine TT.exec ?_
    simp only [step]
    refine TT.ifTry hl.len (ht st hl (by omega)).1 (fun htk => TT.pure ⟨by simp, fun _ => ⟨htk, hl, by simp only; omega⟩⟩) (fun _ => ?_)
    exact TT.cancel hl.len (ht st hl (by omega)).2 (S st hl hm).rec
  · refine TT.exec ?_
    simp only [step]
    exact TT.ifTry hl.len (ht st hl (by omega)).1 (fun htk => TT.pure ⟨by simp, fun _ => ⟨htk, hl, by simp only; omega⟩⟩)
      (fun _ => (I st hl hm).rec)

/-- With separator. -/
theorem lts_tot {term item sep : Rule} {sk : SepKind} {limit : List Nat → Bool} (ht : AllCond E V cx m term)
    (hi : All E V false cx m (.run item)) (hf : AllFin E V false cx m item)
    (hc : item.isBranch E = true → AllCond E V cx m item) (he : item.isBranch E = true → Eats E item)
    (hs : All E V false cx m (.run sep)) (hsf : AllFin E V false cx m sep) (hsc : AllCond E V cx m sep) (hse : Eats E sep)
    (hsm : Moves E sep)
    (st : St) (hl : At E V st) (hm : mu E cx st ≤ m) : Lt5 E V cx m term item (some (sep, sk)) limit st := by
  refine lt_induct (fun k hk ih => ?_) st hl hm
  have R : ∀ st, At E V st → mu E cx st ≤ k → ∀ b,
      TotQ E (LtQ E V term cx m) cx (.ltRec b term item (some (sep, sk)) limit) st := by
    intro st hl hm b
    refine TT.exec ?_
    simp only [step]
    have up := giveUp_tot (item := item) (sep := some (sep, sk)) (limit := limit) (b := b) hl (Nat.le_trans hm hk) ht
      (fun st' hl' hlt => (ih st' hl' (by omega)).qrec b)
    refine TT.ifTry hl.len (hsc st hl (by omega)).1 (fun htk => TT.emit ?_)
      (fun _ => TT.cancel hl.len (hsc st hl (by omega)).2 up)
    refine TT.andThen (T.framed (hsf st hl (by omega) htk).rec) fun x hx hxb => ?_
    obtain ⟨f, hlen, n, y, hy, hyo, hyp⟩ := ends_fwd rfl hl.len (Nat.le_refl _) hx
    have hlt := f.mu_lt (cx := cx) (hyp ▸ moves_sound hsm _ _ _ _ hl.len htk hy)
    have five := ih x.st (f.at hl) (by omega)
    cases hxo : x.out with
    | brk => exact absurd hxo (hxb rfl)
    | ok => exact (five.qtrail _).rec
    | fail => exact TT.emit (five.qrec _).rec
  have S : ∀ st, At E V st → mu E cx st ≤ k →
      TotQ E (LtQ E V term cx m) cx (.ltSep term item (some (sep, sk)) limit) st := by
    intro st hl hm
    refine TT.exec ?_
    simp only [step]
    refine TT.andThen (T.framed (hs st hl (by omega)).rec) fun x hx hxb => ?_
    obtain ⟨f, hlen, n, y, hy, hyo, hyp⟩ := ends_fwd rfl hl.len (Nat.le_refl _) hx
    have hmx := Nat.le_trans (f.mu (cx := cx)) hm
    cases hxo : x.out with
    | brk => exact absurd hxo (hxb rfl)
    | ok =>
      have hlt := f.mu_lt (cx := cx) (hyp ▸ (eats_sound hse).1 _ _ _ _ hl.len hy (hyo.trans hxo))
      exact ((ih x.st (f.at hl) (by omega)).qtrail _).rec
    | fail =>
      simp only
      split
      · rename_i hb
        refine TT.ifTry f.len (hc hb.2 _ (f.at hl) (by omega)).1 (fun htk => ?_)
          (fun _ => TT.cancel f.len (hc hb.2 _ (f.at hl) (by omega)).2 (TT.emit (R x.st (f.at hl) hmx _).rec))
        refine TT.andThen (T.framed (hf x.st (f.at hl) (by omega) htk).rec) fun z hz hzb => ?_
        obtain ⟨f', _, n', y', hy', hyo', hyp'⟩ := ends_fwd rfl f.len hlen hz
        cases hzo : z.out with
        | brk => exact absurd hzo (hzb rfl)
        | ok =>
          have hlt := f'.mu_lt (cx := cx) (hyp' ▸ (eats_sound (he hb.2)).2 _ _ _ _ f.len htk hy' (hyo'.trans hzo))
          exact (ih z.st (f'.at (f.at hl)) (by omega)).qterm.rec
        | fail =>
          refine TT.andThen (hc hb.2 _ (f.at hl) (by omega)).2.rec fun _ _ _ => ?_
          exact TT.emit (R z.st (f'.at (f.at hl)) (Nat.le_trans f'.mu hmx) _).rec
      · exact TT.emit (R x.st (f.at hl) hmx _).rec
  have Tm : ∀ st, At E V st → mu E cx st ≤ k →
      TotQ E (LtQ E V term cx m) cx (.ltTerm term item (some (sep, sk)) limit) st := by
    intro st hl hm
    refine TT.exec ?_
    simp only [step]
    refine TT.ifTry hl.len (ht st hl (by omega)).1 (fun htk => TT.pure ⟨by simp, fun _ => ⟨htk, hl, by simp only; omega⟩⟩) (fun _ => ?_)
    exact TT.cancel hl.len (ht st hl (by omega)).2 (S st hl hm).rec
  have I : ∀ st, At E V st → mu E cx st ≤ k →
      TotQ E (LtQ E V term cx m) cx (.ltItem term item (some (sep, sk)) limit) st := by
    intro st hl hm
    refine TT.exec ?_
    simp only [step]
    refine TT.andThen (T.framed (hi st hl (by omega)).rec) fun x hx hxb => ?_
    obtain ⟨f, hlen, n, y, hy, hyo, hyp⟩ := ends_fwd rfl hl.len (Nat.le_refl _) hx
    have hmx := Nat.le_trans (f.mu (cx := cx)) hm
    cases hxo : x.out with
    | brk => exact absurd hxo (hxb rfl)
    | ok => exact (Tm x.st (f.at hl) hmx).rec
    | fail => exact TT.emit (R x.st (f.at hl) hmx _).rec
  intro st hl hm
  refine ⟨R st hl hm, I st hl hm, S st hl hm, Tm st hl hm, fun p => ?_⟩
  refine TT.exec ?_
  simp only [step]
  exact TT.ifTry hl.len (ht st hl (by omega)).1 (fun htk => TT.pure ⟨by simp, fun _ => ⟨htk, hl, by simp only; omega⟩⟩)
    (fun _ => (I st hl hm).rec)

/-- The whole list. -/
theorem lstt_tot {b : Bool} {term item : Rule} {sep : Option Sep} {limit : List Nat → Bool}
    (hi : All E V false cx m (.run item)) (htf : AllFin E V b cx m term)
    (h5 : ∀ st, At E V st → mu E cx st ≤ m → Lt5 E V cx m term item sep limit st) :
    All E V b cx m (.run (.lstt term item sep limit)) := by
  intro st hl hm
  refine T.exec ?_
  simp only [step, stepRun]
  have inner : TT E (LtQ E V term cx m) fun rec => andThen (framed st.vars.length (rec cx (.run item) st)) fun o st' =>
        match o with
        | .ok => rec cx (.ltTerm term item sep limit) st'
        | .fail => emit [.recStart st'.pos] (rec cx (.ltRec st'.pos term item sep limit) st')
        | .brk => none := by
    refine TT.andThen (T.framed (hi st hl hm).rec) fun x hx hxb => ?_
    obtain ⟨f, hlen, n, y, hy, hyo, hyp⟩ := ends_fwd rfl hl.len (Nat.le_refl _) hx
    have five := h5 x.st (f.at hl) (Nat.le_trans f.mu hm)
    cases hxo : x.out with
    | brk => exact absurd hxo (hxb rfl)
    | ok => exact five.qterm.rec
    | fail => exact TT.emit (five.qrec _).rec
  obtain ⟨r, h1, h2⟩ := inner
  refine T.onOk' ⟨r, h1, fun _ => h2.1⟩ fun x hx hxo => ?_
  have := hx.unique h1
  subst this
  obtain ⟨h3, h4, h6⟩ := h2.2 hxo
  exact (htf _ h4 h6 h3).rec

end Verif.Tot
