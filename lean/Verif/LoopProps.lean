import Verif.LangProps
import Verif.CtxProps
import Verif.GrammarEx

/-
C38: accepted input is in the language of the grammar; C43: repetition; C44: combinations; C59: separators; C60: terminated
lists.
-/

namespace Verif

open Spec

/-! ### C38 -/

/-- **C38.** If a grammar accepts the input without reporting an error, the input that it consumed is in the language of the
    grammar: skipped whitespace, then something the rule of the entry production derives. -/
theorem C38_accepted {E : Env} (hx : ExprLits E) {fuel n d : Nat} {x : Res} (h : runGrammar E fuel n d = some x) (ho : x.out = .ok)
    (hq : ∀ ev ∈ x.evs, ev.isError = false) :
    ∃ m, Lang E (E.prods n).ws .gap 0 m ∧ Lang E (E.prods n).ws (.rule (E.prods n).rule false) m x.st.pos := by
  unfold runGrammar at h
  obtain ⟨r1, h1, _, h2, h3, h4, h5⟩ := emit_q h hq (by rw [ho]; nofun)
  obtain ⟨r2, r3, h6, h7, h8, h9, h10, h11⟩ := andThen_q h1 h2
  split at h7
  · rename_i ho2
    cases h7
    obtain ⟨st1, e1, r4, h12, h13, h14, h15, h16, h17, h18⟩ := onOk'_q h6 h8 (by rw [ho2]; nofun)
    obtain ⟨h19, h20⟩ := ws_ok (exec_lang hx fuel) (st := { pos := 0 }) (Nat.zero_le _) h12 h13
    have h21 := (exec_lang hx fuel _ (.run (E.prods n).rule) st1 r4 h20 h14 h15 h16).1 (by rw [← h17]; exact ho2)
    refine ⟨st1.pos, h19, ?_⟩
    rw [h5, h11, h18]
    exact h21
  · cases h7; rw [h4, h10] at ho; cases ho
  · cases h7

/-- **C38.** The same for a rule that is parsed anywhere. -/
theorem C38_rule {E : Env} (hx : ExprLits E) {n : Nat} {cx : Cx} {r : Rule} {st : St} {x : Res} (hl : st.pos ≤ E.inp.length)
    (h : exec E n cx (.run r) st = some x) (ho : x.out = .ok) (hq : ∀ ev ∈ x.evs, ev.isError = false) :
    Lang E cx.ws (.rule r false) st.pos x.st.pos :=
  (exec_lang hx n cx (.run r) st x hl h hq (by rw [ho]; nofun)).1 ho

/-- The expressions of the examples have no operators. -/
theorem Ex.lits (s : List Nat) (p : Nat → ProdDef) : ExprLits (Ex.env s p) :=
  fun _ => ⟨fun _ => rfl, fun _ h => by simp [Ex.env, OpTree.all] at h, fun _ h => by simp [Ex.env, OpTree.all] at h⟩

/-- `( 1,(2) )a` is accepted, so it is in the language of the example. -/
example : ∃ m q, Lang (Ex.env [40, 32, 49, 44, 40, 50, 41, 32, 41, 97] Ex.lists) (some Ex.space) .gap 0 m ∧
    Lang (Ex.env [40, 32, 49, 44, 40, 50, 41, 32, 41, 97] Ex.lists) (some Ex.space) (.rule (Ex.lists 3).rule false) m q ∧ q = 10 := by
  have h : (runGrammar (Ex.env [40, 32, 49, 44, 40, 50, 41, 32, 41, 97] Ex.lists) 40 3 10).map (fun x => (x.out, x.st.pos, x.evs.any Ev.isError)) =
      some (.ok, 10, false) := by decide +kernel
  obtain ⟨x, h1, h2⟩ := Option.map_eq_some_iff.1 h
  simp only [Prod.mk.injEq, List.any_eq_false] at h2
  obtain ⟨m, h3, h4⟩ := C38_accepted (Ex.lits _ _) h1 h2.1 fun ev he => by simpa using h2.2.2 ev he
  exact ⟨m, x.st.pos, h3, h4, h2.2.1⟩

/-! ### Chains of items -/

/-- `n` items with separators strictly between them. -/
inductive Spec.Chain {α : Type} (item sep : α → α → Prop) : Nat → α → α → Prop
  | one {a b : α} : item a b → Chain item sep 1 a b
  | more {n : Nat} {a b c d : α} : item a b → sep b c → Chain item sep n c d → Chain item sep (n + 1) a d

/-- What separates the items. -/
def Spec.SepLang (E : Env) (w : Option Rule) (sep : Option Sep) (p q : Nat) : Prop :=
  match sep with
  | none => p = q
  | some (s, _) => Lang E w (.rule s false) p q

/-- What may follow the last item: a separator, but only if it may be trailing. -/
def Spec.TrailLang (E : Env) (w : Option Rule) (sep : Option Sep) (brk : Bool) (p q : Nat) : Prop :=
  (brk = false ∧ p = q) ∨ ∃ s k, sep = some (s, k) ∧ SepKind.Trails k ∧ Lang E w (.rule s brk) p q

/-- `n` items, and what may follow the last one. -/
def Spec.Items (E : Env) (w : Option Rule) (item : Rule) (sep : Option Sep) (brk : Bool) (n p q : Nat) : Prop :=
  ∃ m, Chain (Lang E w (.rule item false)) (SepLang E w sep) n p m ∧ TrailLang E w sep brk m q

section
variable {E : Env} {w : Option Rule}

theorem times_inv {k : Nat} {item : Rule} {sep : Option Sep} {b : Bool} {p l q : Nat} (h : Lang E w (.times k item sep b) l q)
    (hp : Lang E w (.rule item false) p l) : Items E w item sep b (k + 1) p q := by
  generalize hg : Goal.times k item sep b = g at h
  induction h generalizing p k with
  | timesEnd => cases hg; exact ⟨_, .one hp, .inl ⟨rfl, rfl⟩⟩
  | timesTrailing hk h => cases hg; exact ⟨_, .one hp, .inr ⟨_, _, rfl, hk, h⟩⟩
  | timesNext h1 h2 _ ih2 =>
    cases hg
    obtain ⟨m, h3, h4⟩ := ih2 h1 rfl
    exact ⟨m, .more hp rfl h3, h4⟩
  | timesSep h1 h2 h3 _ _ ih3 =>
    cases hg
    obtain ⟨m, h4, h5⟩ := ih3 h2 rfl
    exact ⟨m, .more hp h1 h4, h5⟩
  | _ => cases hg

theorem tail_inv {item : Rule} {sep : Option Sep} {p l q : Nat} (h : Lang E w (.tail item sep) l q)
    (hp : Lang E w (.rule item false) p l) : ∃ n, Items E w item sep false (n + 1) p q := by
  generalize hg : Goal.tail item sep = g at h
  induction h generalizing p with
  | tailEnd => cases hg; exact ⟨0, _, .one hp, .inl ⟨rfl, rfl⟩⟩
  | tailTrailing hk h => cases hg; exact ⟨0, _, .one hp, .inr ⟨_, _, rfl, hk, h⟩⟩
  | tailNext h1 h2 _ ih2 =>
    cases hg
    obtain ⟨n, m, h3, h4⟩ := ih2 h1 rfl
    exact ⟨n + 1, m, .more hp rfl h3, h4⟩
  | tailSep h1 h2 h3 _ _ ih3 =>
    cases hg
    obtain ⟨n, m, h4, h5⟩ := ih3 h2 rfl
    exact ⟨n + 1, m, .more hp h1 h4, h5⟩
  | _ => cases hg

end

/-! ### C43 -/

/-- **C43.** `repeat(...)` whose counter yields `n`: nothing more if `n` is zero, otherwise exactly `n` items, with separators
    strictly between them, and nothing behind them but a separator that may be trailing. -/
theorem C43_repeat {E : Env} (hx : ExprLits E) {n : Nat} {cx : Cx} {c item : Rule} {f : List Nat → Nat} {sep : Option Sep} {st : St} {x : Res}
    (hl : st.pos ≤ E.inp.length) (h : exec E n cx (.run (.rep c f item sep)) st = some x) (ho : x.out = .ok)
    (hq : ∀ ev ∈ x.evs, ev.isError = false) :
    ∃ m, Lang E cx.ws (.rule c false) st.pos m ∧
      ((f ((E.inp.take m).drop st.pos) = 0 ∧ x.st.pos = m) ∨
        (f ((E.inp.take m).drop st.pos) ≠ 0 ∧ Items E cx.ws item sep false (f ((E.inp.take m).drop st.pos)) m x.st.pos)) := by
  have h1 := C38_rule hx hl h ho hq
  generalize x.st.pos = q at h1
  generalize cx.ws = w at h1
  cases h1
  case token ht _ _ => cases ht
  case repeatNone h hn => exact ⟨_, h, .inl ⟨hn, rfl⟩⟩
  case repeat_ h1 h hn h2 => exact ⟨_, h, .inr ⟨by rw [hn]; nofun, by rw [hn]; exact times_inv h2 h1⟩⟩
  case context h => cases h

/-- A rule in its own scope: the variables that it creates are gone afterwards. -/
def Spec.Parses (E : Env) (cx : Cx) (r : Rule) (st st' : St) : Prop :=
  ∃ x, Exec E cx (.run r) st x ∧ x.out = .ok ∧ st' = x.st.frame st.vars.length

theorem frame_len {E : Env} {n : Nat} {cx : Cx} {c : Cmd} {st : St} {x : Res} (h : exec E n cx c st = some x) :
    (x.st.frame st.vars.length).vars.length = st.vars.length := by
  have := ((exec_later E n cx c st x h).2).1.length
  simp only [St.frame, List.length_drop]
  omega

/-- Several things that terminate terminate together. -/
theorem exec_max {E : Env} {cx : Cx} {c : Cmd} {st : St} {x : Res} {n m : Nat} (h : exec E n cx c st = some x) (hm : n ≤ m) :
    exec E m cx c st = some x := exec_mono hm h

/-- What separates the items when they are parsed. -/
def Spec.SepParses (E : Env) (cx : Cx) (sep : Option Sep) (a b : St) : Prop :=
  match sep with
  | none => a = b
  | some (s, _) => Parses E cx s a b

theorem onOk'_iff {x : Option Res} {f : St → Option Res} {st' : St} :
    (∃ evs, onOk' x f = some ⟨.ok, st', evs⟩) ↔ ∃ st1 e1 e2, x = some ⟨.ok, st1, e1⟩ ∧ f st1 = some ⟨.ok, st', e2⟩ := by
  constructor
  · rintro ⟨evs, h⟩
    rcases onOk'_some h with ⟨st1, e1, r2, h1, h2, h3⟩ | ⟨_, h2⟩
    · obtain ⟨o, s, e⟩ := r2
      simp only [Res.mk.injEq] at h3
      obtain ⟨rfl, rfl, _⟩ := h3
      exact ⟨st1, e1, e, h1, h2⟩
    · cases h2
  · rintro ⟨st1, e1, e2, h1, h2⟩
    exact ⟨e1 ++ e2, andThen_some.2 ⟨_, _, h1, h2, rfl⟩⟩

theorem framed_iff {k : Nat} {x : Option Res} {st' : St} {e : List Ev} :
    framed k x = some ⟨.ok, st', e⟩ ↔ ∃ s, x = some ⟨.ok, s, e⟩ ∧ st' = s.frame k := by
  rw [framed_some]
  constructor
  · rintro ⟨⟨o, s, e'⟩, h1, h2⟩
    simp only [Res.mk.injEq] at h2
    obtain ⟨rfl, rfl, rfl⟩ := h2
    exact ⟨s, h1, rfl⟩
  · rintro ⟨s, h1, rfl⟩
    exact ⟨_, h1, rfl⟩

theorem parses_intro {E : Env} {n : Nat} {cx : Cx} {r : Rule} {st s : St} {e : List Ev} {k : Nat}
    (h : exec E n cx (.run r) st = some ⟨.ok, s, e⟩) (hk : k = st.vars.length) : Parses E cx r st (s.frame k) :=
  ⟨_, ⟨n, h⟩, rfl, by rw [hk]⟩

theorem parses_elim {E : Env} {cx : Cx} {r : Rule} {st st' : St} (h : Parses E cx r st st') :
    st'.vars.length = st.vars.length ∧ ∃ m s e, st' = s.frame st.vars.length ∧ ∀ n, m ≤ n → exec E n cx (.run r) st = some ⟨.ok, s, e⟩ := by
  obtain ⟨⟨o, s, e⟩, ⟨m, h1⟩, ho, rfl⟩ := h
  simp only at ho
  subst ho
  exact ⟨frame_len h1, m, s, e, rfl, fun n hn => exec_mono hn h1⟩

theorem sepParses_elim {E : Env} {cx : Cx} {sep : Option Sep} {st st' : St} (h : SepParses E cx sep st st') :
    st'.vars.length = st.vars.length ∧ ∃ m e, ∀ n, m ≤ n → (match sep with
      | none => ret .ok st
      | some (r, _) => framed st.vars.length (exec E n cx (.run r) st)) = some ⟨.ok, st', e⟩ := by
  match sep, h with
  | none, h =>
    simp only [SepParses] at h
    subst h
    exact ⟨rfl, 0, [], fun _ _ => rfl⟩
  | some (s, k), h =>
    obtain ⟨h1, m, s', e, rfl, h2⟩ := parses_elim h
    exact ⟨h1, m, e, fun n hn => framed_iff.2 ⟨s', h2 n hn, rfl⟩⟩

/-- The rest of a repetition. -/
def Spec.RestParses (E : Env) (cx : Cx) (item : Rule) (sep : Option Sep) (k : Nat) (st st1 : St) : Prop :=
  (k = 0 ∧ st1 = st) ∨ ∃ st0, SepParses E cx sep st st0 ∧ Chain (Parses E cx item) (SepParses E cx sep) k st0 st1

theorem repTail_iff {E : Env} {cx : Cx} {item : Rule} {sep : Option Sep} {k : Nat} {st st' : St} :
    (∃ evs, Exec E cx (.repTail k item sep) st ⟨.ok, st', evs⟩) ↔
      ∃ st1, RestParses E cx item sep k st st1 ∧ Parses E cx (trailingRule sep) st1 st' := by
  induction k generalizing st with
  | zero =>
    constructor
    · rintro ⟨evs, n, h⟩
      cases n with
      | zero => cases h
      | succ n =>
        obtain ⟨s, h1, rfl⟩ := framed_iff.1 h
        exact ⟨st, .inl ⟨rfl, rfl⟩, parses_intro h1 rfl⟩
    · rintro ⟨st1, h1, h2⟩
      rcases h1 with ⟨_, rfl⟩ | ⟨st0, _, h1⟩
      · obtain ⟨_, m, s, e, rfl, h3⟩ := parses_elim h2
        exact ⟨e, m + 1, framed_iff.2 ⟨s, h3 m (Nat.le_refl _), rfl⟩⟩
      · cases h1
  | succ k ih =>
    constructor
    · rintro ⟨evs, n, h⟩
      cases n with
      | zero => cases h
      | succ n =>
        rw [exec_succ] at h
        simp only [step] at h
        obtain ⟨sa, e1, e2, h1, h2⟩ := onOk'_iff.1 ⟨_, h⟩
        obtain ⟨sb, e3, e4, h3, h4⟩ := onOk'_iff.1 ⟨_, h2⟩
        obtain ⟨s3, h5, rfl⟩ := framed_iff.1 h3
        have hsep : SepParses E cx sep st sa := by
          match sep, h1 with
          | none, h1 => cases h1; exact rfl
          | some (r, _), h1 =>
            obtain ⟨s4, h6, rfl⟩ := framed_iff.1 h1
            exact parses_intro h6 rfl
        have hlen := (sepParses_elim hsep).1
        obtain ⟨st1, h6, h7⟩ := ih.1 ⟨_, n, h4⟩
        have hitem : Parses E cx item sa (s3.frame st.vars.length) := parses_intro h5 hlen.symm
        refine ⟨st1, .inr ⟨sa, hsep, ?_⟩, h7⟩
        rcases h6 with ⟨rfl, rfl⟩ | ⟨st0, h8, h9⟩
        · exact .one hitem
        · exact .more hitem h8 h9
    · rintro ⟨st1, h1, h2⟩
      rcases h1 with ⟨h, _⟩ | ⟨st0, h1, h3⟩
      · cases h
      obtain ⟨hlen, m1, e1, h1⟩ := sepParses_elim h1
      have fin : ∀ {sb : St}, Parses E cx item st0 sb → RestParses E cx item sep k sb st1 →
          ∃ evs, Exec E cx (.repTail (k + 1) item sep) st ⟨.ok, st', evs⟩ := by
        intro sb hi hr
        obtain ⟨_, m2, s, e2, rfl, h4⟩ := parses_elim hi
        obtain ⟨evs, m3, h5⟩ := ih.2 ⟨st1, hr, h2⟩
        have hm : ∃ M, m1 ≤ M ∧ m2 ≤ M ∧ m3 ≤ M := ⟨m1 + m2 + m3, by omega, by omega, by omega⟩
        obtain ⟨M, hM1, hM2, hM3⟩ := hm
        obtain ⟨ev, h6⟩ := onOk'_iff (f := fun s' => onOk' (framed st.vars.length (exec E M cx (.run item) s')) fun s'' =>
          exec E M cx (.repTail k item sep) s'').2 ⟨st0, e1, _, h1 M hM1, andThen_some.2
          ⟨_, _, framed_iff (k := st.vars.length).2 ⟨s, h4 M hM2, (by rw [← hlen] : s.frame st0.vars.length = _)⟩, exec_mono hM3 h5, rfl⟩⟩
        exact ⟨ev, M + 1, h6⟩
      cases h3 with
      | one hi => exact fin hi (.inl ⟨rfl, rfl⟩)
      | more hi h8 h9 => exact fin hi (.inr ⟨_, h8, h9⟩)

theorem exec_rep (E : Env) (n : Nat) (cx : Cx) (c item : Rule) (f : List Nat → Nat) (sep : Option Sep) (st : St) :
    exec E (n + 1) cx (.run (.rep c f item sep)) st = onOk' (exec E n cx (.run c) st) fun st' =>
      match f ((E.inp.take st'.pos).drop st.pos) with
      | 0 => ret .ok st'
      | n' + 1 => onOk' (framed st'.vars.length (exec E n cx (.run item) st')) fun st'' =>
        exec E n cx (.repTail n' item sep) st'' := by
  rw [exec_succ]
  simp only [step, stepRun]
  rfl

/-- **C43.** Exactly, errors or not: `repeat(...)` succeeds iff its counter does and then, if the count `n` is not zero, the
    item `n` times in a row with the separator between them, and the rule that checks for a trailing separator. -/
theorem C43_repeat_exact {E : Env} {cx : Cx} {c item : Rule} {f : List Nat → Nat} {sep : Option Sep} {st st' : St} :
    (∃ evs, Exec E cx (.run (.rep c f item sep)) st ⟨.ok, st', evs⟩) ↔
      ∃ st1 evs, Exec E cx (.run c) st ⟨.ok, st1, evs⟩ ∧
        ((f ((E.inp.take st1.pos).drop st.pos) = 0 ∧ st' = st1) ∨
          ∃ st2, Chain (Parses E cx item) (SepParses E cx sep) (f ((E.inp.take st1.pos).drop st.pos)) st1 st2 ∧
            Parses E cx (trailingRule sep) st2 st') := by
  constructor
  · rintro ⟨evs, n, h⟩
    cases n with
    | zero => cases h
    | succ n =>
      rw [exec_rep] at h
      obtain ⟨sa, e1, e2, h1, h2⟩ := onOk'_iff.1 ⟨_, h⟩
      refine ⟨sa, e1, ⟨n, h1⟩, ?_⟩
      cases hf : f ((E.inp.take sa.pos).drop st.pos) with
      | zero => rw [hf] at h2; cases h2; exact .inl ⟨rfl, rfl⟩
      | succ k =>
        rw [hf] at h2
        obtain ⟨sb, e3, e4, h3, h4⟩ := onOk'_iff.1 ⟨_, h2⟩
        obtain ⟨s3, h5, rfl⟩ := framed_iff.1 h3
        obtain ⟨st2, h6, h7⟩ := repTail_iff.1 ⟨_, n, h4⟩
        refine .inr ⟨st2, ?_, h7⟩
        rcases h6 with ⟨rfl, rfl⟩ | ⟨st0, h8, h9⟩
        · exact .one (parses_intro h5 rfl)
        · exact .more (parses_intro h5 rfl) h8 h9
  · rintro ⟨sa, e1, ⟨m1, h1⟩, h⟩
    rcases h with ⟨hf, rfl⟩ | ⟨st2, h, h7⟩
    · refine ⟨e1 ++ [], m1 + 1, ?_⟩
      rw [exec_rep]
      refine andThen_some.2 ⟨_, ⟨.ok, st', []⟩, h1, ?_, rfl⟩
      simp only [hf, ret]
    · have fin : ∀ {sb : St} {k : Nat}, f ((E.inp.take sa.pos).drop st.pos) = k + 1 → Parses E cx item sa sb →
          RestParses E cx item sep k sb st2 → ∃ evs, Exec E cx (.run (.rep c f item sep)) st ⟨.ok, st', evs⟩ := by
        intro sb k hf hi hr
        obtain ⟨_, m2, s, e2, rfl, h4⟩ := parses_elim hi
        obtain ⟨evs, m3, h5⟩ := repTail_iff.2 ⟨st2, hr, h7⟩
        have hm : ∃ M, m1 ≤ M ∧ m2 ≤ M ∧ m3 ≤ M := ⟨m1 + m2 + m3, by omega, by omega, by omega⟩
        obtain ⟨M, hM1, hM2, hM3⟩ := hm
        obtain ⟨ev, h6⟩ := onOk'_iff (f := fun st' =>
            match f ((E.inp.take st'.pos).drop st.pos) with
            | 0 => ret .ok st'
            | n + 1 => onOk' (framed st'.vars.length (exec E M cx (.run item) st')) fun st'' => exec E M cx (.repTail n item sep) st'').2
          ⟨sa, e1, _, exec_mono hM1 h1, by
            simp only [hf]
            exact andThen_some.2 ⟨_, _, framed_iff.2 ⟨s, h4 M hM2, rfl⟩, exec_mono hM3 h5, rfl⟩⟩
        exact ⟨ev, M + 1, by rw [exec_rep]; exact h6⟩
      generalize hf : f ((E.inp.take sa.pos).drop st.pos) = k at h
      cases h with
      | one hi => exact fin hf hi (.inl ⟨rfl, rfl⟩)
      | more hi h8 h9 => exact fin hf hi (.inr ⟨_, h8, h9⟩)

/-- `times<N>(item, sep)`, times.hpp l.16-32; `N > 0`.  The sequence is nested to the right. -/
def timesRule (item : Rule) (sep : Option Sep) : Nat → Rule
  | 0 => .els
  | 1 => match sep with
    | none => item
    | some _ => .seq item (trailingRule sep)
  | n + 2 => match sep with
    | none => .seq item (timesRule item sep (n + 1))
    | some (s, _) => .seq item (.seq s (timesRule item sep (n + 1)))

theorem seq_inv {E : Env} {w : Option Rule} {a b : Rule} {p q : Nat} (h : Lang E w (.rule (.seq a b) false) p q) :
    ∃ m, Lang E w (.rule a false) p m ∧ Lang E w (.rule b false) m q := by
  cases h
  case token ht _ _ => cases ht
  case seq m h1 h2 => exact ⟨m, h1, h2⟩
  case context h => cases h

/-- **C43.** `times<N>`: exactly `N` items with separators strictly between them, and behind the last one nothing but a
    separator that may be trailing. -/
theorem C43_times {E : Env} (hx : ExprLits E) {n : Nat} {cx : Cx} {item : Rule} {sep : Option Sep} {st : St} {x : Res} {N : Nat} (hN : 0 < N)
    (hl : st.pos ≤ E.inp.length) (h : exec E n cx (.run (timesRule item sep N)) st = some x) (ho : x.out = .ok)
    (hq : ∀ ev ∈ x.evs, ev.isError = false) : Items E cx.ws item sep false N st.pos x.st.pos := by
  have h1 := C38_rule hx hl h ho hq
  clear h ho hq hl
  generalize x.st.pos = q at h1
  generalize st.pos = p at h1
  obtain ⟨N, rfl⟩ : ∃ M, N = M + 1 := ⟨N - 1, by omega⟩
  clear hN
  induction N generalizing p with
  | zero =>
    match sep, h1 with
    | none, h1 => exact ⟨q, .one h1, .inl ⟨rfl, rfl⟩⟩
    | some (s, k), h1 =>
      obtain ⟨m, h2, h3⟩ := seq_inv h1
      exact times_inv (trailing_inv h3) h2
  | succ N ih =>
    match sep, h1 with
    | none, h1 =>
      obtain ⟨m, h2, h3⟩ := seq_inv h1
      obtain ⟨e, h4, h5⟩ := ih m h3
      exact ⟨e, .more h2 rfl h4, h5⟩
    | some (s, k), h1 =>
      obtain ⟨m, h2, h3⟩ := seq_inv h1
      obtain ⟨l, h4, h5⟩ := seq_inv h3
      obtain ⟨e, h6, h7⟩ := ih l h5
      exact ⟨e, .more h2 h4 h6, h7⟩

end Verif
