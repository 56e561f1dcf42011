import Verif.Tokens
import Verif.GrammarErr
import Verif.Delimited

/-
Delimited content as a part of grammars: an instance of `PRule` (Grammar.lean) for `_del`, with the events of the escape
sequences and with escape sequences that fail (Delimited.lean has neither).

Source: /repo/include/lexy/dsl/delimited.hpp

The closing delimiter and the escape are tokens.  The reader is one without SWAR; that it makes no difference is C20.
-/

namespace Verif

/-- A branch of an escape sequence as `try_parse_branch` uses it, delimited.hpp l.394-409: what `finish` does if it is taken
    (success, position, events), and the events of `cancel` if it is not. -/
structure EscBr where
  run : List Nat → Nat → Option (Bool × Nat × List Ev)
  cancel : Nat → List Ev
  tr : ∀ s p r, p ≤ s.length → run s p = some r → Tr s.length p (if r.1 then .ok else .fail) r.2.2 r.2.1
  errs : ∀ s p r, run s p = some r → p ≤ r.2.1 ∧ ErrOk p r.2.2
  cancel_tr : ∀ len p, CancelTr len p (cancel p)
  cancel_errs : ∀ lo p, lo ≤ p → ErrOk lo (cancel p)

/-- `_del<Close, Char, Limit, Escapes...>`, delimited.hpp l.203-250. -/
structure DelimR where
  close : PTok
  limit : Option (List Nat → TokRes)
  eof : Option Nat
  kind : Kind
  char : List Nat → Bool × Nat
  charTag : Nat
  missTag : Nat
  escTag : Nat
  escapes : List (PTok × List EscBr)

/-- `_del_chars::finish`, delimited.hpp l.169-177. -/
def delContent (kind : Kind) (b e : Nat) : List Ev := if b = e then [] else [.token kind b e]

/-- `_del_limit::peek`, delimited.hpp l.180-201. -/
def DelimR.atLimit (d : DelimR) (s : List Nat) : Bool :=
  (match d.limit with
    | none => false
    | some t => (t s).1) || peekEof d.eof s

/-- The branches of an escape, delimited.hpp l.394-412: whether one is taken, the position and the events. -/
def escBranches : List EscBr → List Nat → Nat → Bool × Nat × List Ev
  | [], _, p => (false, p, [])
  | b :: bs, inp, p =>
    match b.run inp p with
    | some r => (true, r.2.1, r.2.2)
    | none =>
      let r := escBranches bs inp p
      (r.1, r.2.1, b.cancel p ++ r.2.2)

/-- `esc_try_parse` of one escape after its token matched `n` code units, delimited.hpp l.386-425; `b` is
    `cur_chars.begin`. -/
def escParse (kind : Kind) (escTag : Nat) (t : PTok) (bs : List EscBr) (inp : List Nat) (b p n : Nat) : Nat × List Ev :=
  let r := escBranches bs inp (p + n)
  (r.2.1, delContent kind b p ++ .token t.kind p (p + n) :: (r.2.2 ++ if r.1 then [] else [.error escTag p (p + n)]))

/-- The fold over the escapes, delimited.hpp l.239-241. -/
def escTry (kind : Kind) (escTag : Nat) : List (PTok × List EscBr) → List Nat → Nat → Nat → Option (Nat × List Ev)
  | [], _, _, _ => none
  | (t, bs) :: xs, inp, b, p =>
    let r := t.run (inp.drop p)
    if r.1 then some (escParse kind escTag t bs inp b p r.2) else escTry kind escTag xs inp b p

/-- `_del::_loop` and the closing delimiter, delimited.hpp l.209-278: success, position, events.  `start` is `del_begin`, `b`
    is `cur_chars.begin`.  Where the loop would not consume anything (an escape that matches nothing) the result is a
    failure; the loops below never get there. -/
def DelimR.loop (d : DelimR) (inp : List Nat) (start b p : Nat) : Bool × Nat × List Ev :=
  let s := inp.drop p
  let c := d.close.run s
  if c.1 then (true, p + c.2, delContent d.kind b p ++ [.token d.close.kind p (p + c.2)])
  else if d.atLimit s then (false, p, delContent d.kind b p ++ [.error d.missTag start p])
  else match escTry d.kind d.escTag d.escapes inp b p with
    | some (q, evs) =>
      if _h : p < q ∧ q ≤ inp.length then
        let r := d.loop inp start q q
        (r.1, r.2.1, evs ++ r.2.2)
      else (false, p, delContent d.kind b p ++ [.error d.missTag start p])
    | none =>
      let n := (d.char s).2
      if _h : 0 < n ∧ p + n ≤ inp.length then
        if (d.char s).1 then d.loop inp start b (p + n)
        else
          -- `_recover`, delimited.hpp l.36-50
          let r := d.loop inp start (p + n) (p + n)
          (r.1, r.2.1, delContent d.kind b p ++ (.error d.charTag p p :: .recStart p :: .token .error p (p + n) ::
            .recFinish (p + n) :: r.2.2))
      else (false, p, delContent d.kind b p ++ [.error d.missTag start p])
termination_by inp.length - p
decreasing_by all_goals grind

theorem delContent_tr {kind : Kind} {len b e : Nat} (h : b ≤ e) (he : e ≤ len) : Tr len b .ok (delContent kind b e) e := by
  unfold delContent
  split
  · rename_i h; subst h; exact .nil
  · exact .token _ h he

theorem delContent_errs {kind : Kind} {lo b e : Nat} : ErrOk lo (delContent kind b e) := by
  unfold delContent
  split
  · exact .nil
  · exact .one rfl rfl

theorem escBranches_tr {bs : List EscBr} {s : List Nat} {p q : Nat} {o : Out} {rest : List Ev} (h : p ≤ s.length)
    (hr : Tr s.length (escBranches bs s p).2.1 o rest q) : Tr s.length p o ((escBranches bs s p).2.2 ++ rest) q := by
  induction bs generalizing rest with
  | nil => exact hr
  | cons b bs ih =>
    simp only [escBranches] at hr ⊢
    cases hb : b.run s p with
    | some r =>
      rw [hb] at hr
      have ht := b.tr s p r h hb
      cases h1 : r.1 with
      | true => rw [h1] at ht; exact .seq ht hr
      | false => rw [h1] at ht; exact .recover ht hr
    | none =>
      rw [hb] at hr
      simp only [List.append_assoc] at hr ⊢
      exact .seq (.cancelled (Nat.le_refl _) (b.cancel_tr _ _)) (ih hr)

theorem escBranches_errs {bs : List EscBr} {s : List Nat} {p lo : Nat} (hl : lo ≤ p) : p ≤ (escBranches bs s p).2.1 ∧
    ErrOk lo (escBranches bs s p).2.2 := by
  induction bs with
  | nil => exact ⟨Nat.le_refl _, .nil⟩
  | cons b bs ih =>
    simp only [escBranches]
    cases hb : b.run s p with
    | some r => exact ⟨(b.errs s p r hb).1, (b.errs s p r hb).2.weaken hl⟩
    | none => exact ⟨ih.1, .app (b.cancel_errs _ _ hl) ih.2⟩

theorem escParse_tr {kind : Kind} {escTag : Nat} {t : PTok} {bs : List EscBr} {s : List Nat} {b p n q : Nat} {o : Out}
    {rest : List Ev} (hb : b ≤ p) (hn : p + n ≤ s.length)
    (hr : Tr s.length (escParse kind escTag t bs s b p n).1 o rest q) :
    Tr s.length b o ((escParse kind escTag t bs s b p n).2 ++ rest) q := by
  simp only [escParse] at hr ⊢
  rw [List.append_assoc]
  refine .seq (delContent_tr hb (by omega)) ?_
  rw [List.cons_append]
  refine .seq (a := [_]) (q := p + n) (.token _ (by omega) hn) ?_
  show Tr s.length (p + n) o ((_ ++ _) ++ rest) q
  rw [List.append_assoc]
  refine escBranches_tr hn ?_
  split
  · exact hr
  · exact .seq (.error _ (by omega) hn) hr

theorem escParse_errs {kind : Kind} {escTag : Nat} {t : PTok} {bs : List EscBr} {s : List Nat} {b p n lo : Nat} (hl : lo ≤ p) :
    p ≤ (escParse kind escTag t bs s b p n).1 ∧ ErrOk lo (escParse kind escTag t bs s b p n).2 := by
  have h := escBranches_errs (bs := bs) (s := s) (p := p + n) (lo := lo) (by omega)
  refine ⟨by simp only [escParse]; omega, .app delContent_errs (.cons_plain rfl rfl (.app h.2 ?_))⟩
  split
  · exact .nil
  · exact .err hl

theorem escTry_some {kind : Kind} {escTag : Nat} {xs : List (PTok × List EscBr)} {s : List Nat} {b p : Nat} {r : Nat × List Ev}
    (h : escTry kind escTag xs s b p = some r) : ∃ x ∈ xs, (x.1.run (s.drop p)).1 = true ∧
      r = escParse kind escTag x.1 x.2 s b p (x.1.run (s.drop p)).2 := by
  induction xs with
  | nil => cases h
  | cons x xs ih =>
    obtain ⟨t, bs⟩ := x
    simp only [escTry] at h
    split at h
    · rename_i h1
      cases h
      exact ⟨_, List.mem_cons_self, h1, rfl⟩
    · obtain ⟨x, hx, h1, h2⟩ := ih h
      exact ⟨x, List.mem_cons_of_mem _ hx, h1, h2⟩

theorem DelimR.loop_tr (d : DelimR) (inp : List Nat) (start b p : Nat) (hs : start ≤ p) (hb : b ≤ p) (hp : p ≤ inp.length) :
    Tr inp.length b (if (d.loop inp start b p).1 then .ok else .fail) (d.loop inp start b p).2.2 (d.loop inp start b p).2.1 := by
  have miss : Tr inp.length b .fail (delContent d.kind b p ++ [.error d.missTag start p]) p :=
    .seq (delContent_tr hb hp) (.errorFail _ hs hp)
  rw [DelimR.loop]
  simp only
  split
  · refine .seq (delContent_tr hb hp) (.token _ (by omega) ?_)
    have := d.close.le (inp.drop p)
    rw [List.length_drop] at this
    omega
  · split
    · exact miss
    · split
      · rename_i q evs he
        split
        · rename_i h
          obtain ⟨x, _, h1, h2⟩ := escTry_some he
          have ih := d.loop_tr inp start q q (by omega) (Nat.le_refl _) h.2
          have := x.1.le (inp.drop p)
          rw [List.length_drop] at this
          have e1 : q = _ := congrArg Prod.fst h2
          have e2 : evs = _ := congrArg Prod.snd h2
          rw [e2]
          exact escParse_tr hb (by omega) (by rw [← e1]; exact ih)
        · exact miss
      · split
        · rename_i h
          split
          · exact d.loop_tr inp start b (p + (d.char (inp.drop p)).2) (by omega) (by omega) h.2
          · have ih := d.loop_tr inp start (p + (d.char (inp.drop p)).2) (p + (d.char (inp.drop p)).2) (by omega) (Nat.le_refl _) h.2
            refine .seq (delContent_tr hb hp) (.seq (a := [_]) (q := p) (.error _ (Nat.le_refl _) hp)
              (.seq (a := [_, _, _]) (q := p + (d.char (inp.drop p)).2) (.recovery (.token .error (by omega) h.2)) ih))
        · exact miss
termination_by inp.length - p
decreasing_by all_goals omega

theorem DelimR.loop_errs (d : DelimR) (inp : List Nat) (lo start b p : Nat) (hl : lo ≤ start) (hp : lo ≤ p) :
    lo ≤ (d.loop inp start b p).2.1 ∧ ErrOk lo (d.loop inp start b p).2.2 := by
  have miss : lo ≤ p ∧ ErrOk lo (delContent d.kind b p ++ [.error d.missTag start p]) :=
    ⟨hp, .app delContent_errs (.err hl)⟩
  rw [DelimR.loop]
  simp only
  split
  · exact ⟨by simp only; omega, .app delContent_errs (.one rfl rfl)⟩
  · split
    · exact miss
    · split
      · rename_i q evs he
        split
        · rename_i h
          obtain ⟨x, _, h1, h2⟩ := escTry_some he
          have ih := d.loop_errs inp lo start q q hl (by omega)
          refine ⟨ih.1, .app ?_ ih.2⟩
          have h3 : evs = _ := congrArg Prod.snd h2
          rw [h3]
          exact (escParse_errs hp).2
        · exact miss
      · split
        · split
          · exact d.loop_errs inp lo start b (p + (d.char (inp.drop p)).2) hl (by omega)
          · have ih := d.loop_errs inp lo start (p + (d.char (inp.drop p)).2) (p + (d.char (inp.drop p)).2) hl (by omega)
            exact ⟨ih.1, .app delContent_errs (.cons_err hp (.cons_plain rfl rfl (.cons_plain rfl rfl (.cons_plain rfl rfl ih.2))))⟩
        · exact miss
termination_by inp.length - p
decreasing_by all_goals omega

theorem DelimR.loop_fails (d : DelimR) (inp : List Nat) (start b p : Nat) (h : (d.loop inp start b p).1 = false) :
    ∃ ev ∈ (d.loop inp start b p).2.2, ev.isError = true := by
  have miss : ∃ ev ∈ delContent d.kind b p ++ [.error d.missTag start p], ev.isError = true :=
    ⟨.error d.missTag start p, by simp, rfl⟩
  rw [DelimR.loop] at h ⊢
  simp only at h ⊢
  split
  · rename_i h1; rw [if_pos h1] at h; cases h
  · rename_i h1
    rw [if_neg h1] at h
    split
    · exact miss
    · rename_i h2
      rw [if_neg h2] at h
      split
      · rename_i q evs he
        rw [he] at h
        simp only at h
        split
        · rename_i h3
          rw [dif_pos h3] at h
          obtain ⟨ev, hm, hv⟩ := d.loop_fails inp start q q h
          exact ⟨ev, List.mem_append_right _ hm, hv⟩
        · exact miss
      · rename_i he
        rw [he] at h
        simp only at h
        split
        · rename_i h3
          rw [dif_pos h3] at h
          split
          · rename_i h4
            rw [if_pos h4] at h
            exact d.loop_fails inp start b (p + (d.char (inp.drop p)).2) h
          · exact ⟨.error d.charTag p p, by simp, rfl⟩
        · exact miss
termination_by inp.length - p
decreasing_by all_goals omega

/-- The rule `_del`: it has no branch parser, delimited.hpp l.204. -/
def DelimR.rule (d : DelimR) : PRule where
  ws := true
  parse := fun inp p => d.loop inp p p p
  branch := none
  finish := fun inp p => d.loop inp p p p
  parse_tr := fun s p h => d.loop_tr s p p p (Nat.le_refl _) (Nat.le_refl _) h
  finish_tr := fun s p h => d.loop_tr s p p p (Nat.le_refl _) (Nat.le_refl _) h
  coh := fun _ _ _ h => by cases h
  fails := fun s p => d.loop_fails s p p p
  finish_fails := fun s p => d.loop_fails s p p p
  errs := fun s p => d.loop_errs s p p p p (Nat.le_refl _) (Nat.le_refl _)
  finish_errs := fun s p => d.loop_errs s p p p p (Nat.le_refl _) (Nat.le_refl _)

/-! ## The branches of escapes -/

/-- A rule as a branch: `.symbol<Table>()`, delimited.hpp l.430-445. -/
def EscBr.ofRule (r : PRule) (f : List Nat → Nat → Bool) (_ : r.branch = some f) : EscBr where
  run := fun inp p => if f inp p then some (r.finish inp p) else none
  cancel := fun _ => []
  tr := fun s p x hp h => by
    split at h
    · cases h; exact r.finish_tr s p hp
    · cases h
  errs := fun s p x h => by
    split at h
    · cases h; exact r.finish_errs s p
    · cases h
  cancel_tr := fun _ _ => .nil
  cancel_errs := fun _ _ _ => .nil

/-- What a branch production does whose rule is `token >> rule`, production.hpp l.63-98. -/
def prodBranch (n : Nat) (t : PTok) (r : PRule) (inp : List Nat) (p : Nat) : Option (Bool × Nat × List Ev) :=
  let x := t.run (inp.drop p)
  if x.1 then
    let y := r.parse inp (p + x.2)
    some (y.1, y.2.1, .prodStart n p :: (.token t.kind p (p + x.2) :: y.2.2 ++
      [if y.1 then .prodFinish n y.2.1 else .prodCancel n y.2.1]))
  else none

/-- `dsl::p<Production>` as a branch whose rule is `token >> rule`. -/
def EscBr.ofProd (n : Nat) (t : PTok) (r : PRule) : EscBr where
  run := prodBranch n t r
  cancel := fun p => [.prodStart n p, .prodCancel n p]
  tr := fun s p x hp h => by
    unfold prodBranch at h
    simp only at h
    split at h
    · cases h
      have hl := t.le (s.drop p)
      rw [List.length_drop] at hl
      have h1 : p + (t.run (s.drop p)).2 ≤ s.length := by omega
      have h2 := r.parse_tr s _ h1
      have h3 : Tr s.length p _ (.token t.kind p _ :: _) _ := .seq (a := [_]) (.token t.kind (Nat.le_add_right _ _) h1) h2
      simp only
      split
      · rename_i h4; rw [if_pos h4] at h3; exact .prod n h3
      · rename_i h4; rw [if_neg h4] at h3; exact .prodFail n h3
    · cases h
  errs := fun s p x h => by
    unfold prodBranch at h
    simp only at h
    split at h
    · cases h
      have h1 := r.errs s (p + (t.run (s.drop p)).2)
      have h2 : ErrOk p (.token t.kind p (p + (t.run (s.drop p)).2) :: (r.parse s (p + (t.run (s.drop p)).2)).2.2) :=
        .cons_plain rfl rfl (h1.2.weaken (Nat.le_add_right _ _))
      refine ⟨by simp only; omega, ?_⟩
      simp only
      split
      · exact .prod (Nat.le_refl _) h2
      · exact .prodFail (Nat.le_refl _) h2
    · cases h
  cancel_tr := fun _ _ => .prod (evs := []) .nil
  cancel_errs := fun _ _ h => .prodFail (a := []) h .nil

end Verif
