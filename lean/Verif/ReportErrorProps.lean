import Verif.ReportError
import Verif.VisualizeColor
import Verif.GrammarErr
import Verif.ActionProps

/-
C75: what `lexy_ext::report_error` shows.
-/

namespace Verif

namespace Spec

/-- The productions that are being parsed, innermost first: where they began and which they are. -/
def prodsOf : List Opened → List (Nat × Nat)
  | [] => []
  | .prod n p :: s => (p, n) :: prodsOf s
  | _ :: s => prodsOf s

/-- The production that is named: the innermost that is not transparent, or else the outermost. -/
def named (transparent : Nat → Bool) (ps : List (Nat × Nat)) : Option Nat :=
  match ps.find? fun x => !transparent x.2 with
  | some x => some x.2
  | none => ps.getLast?.map (·.2)

end Spec

namespace Rep

open Spec Vis

/-! ### The context of an error -/

theorem getInfo_cons (t : Nat → Bool) (h h' : Nat × Nat) (hs : Handlers) :
    getInfo t (h :: h' :: hs) = if t h.2 then getInfo t (h' :: hs) else some h.2 := rfl

theorem getInfo_spec (t : Nat → Bool) (hs : Handlers) : getInfo t hs = Spec.named t hs := by
  induction hs with
  | nil => rfl
  | cons h hs ih =>
    cases hs with
    | nil => simp only [getInfo, named, List.find?]; cases t h.2 <;> simp
    | cons h' hs =>
      rw [getInfo_cons]
      cases ht : t h.2
      · simp [named, List.find?, ht]
      · rw [if_pos rfl, ih]
        simp [named, List.find?, ht]

theorem getInfo_some (t : Nat → Bool) (h : Nat × Nat) (hs : Handlers) : ∃ n, getInfo t (h :: hs) = some n := by
  induction hs generalizing h with
  | nil => exact ⟨_, rfl⟩
  | cons h' hs ih =>
    rw [getInfo_cons]
    split
    · exact ih h'
    · exact ⟨_, rfl⟩

/-- Tag and range. -/
def Called.err (x : Called) : Nat × Nat × Nat := (x.tag, x.begin_, x.end_)

theorem vhRun_append (t : Nat → Bool) (st : Handlers × List Called) (a b : List Ev) :
    vhRun t st (a ++ b) = (vhRun t st a).bind fun st' => vhRun t st' b := by
  induction a generalizing st with
  | nil => rfl
  | cons ev a ih =>
    simp only [List.cons_append, vhRun]
    cases vhOn t st ev with
    | none => rfl
    | some st' => exact ih st'

theorem spec_errors_append (a b : List Ev) : Spec.errors (a ++ b) = Spec.errors a ++ Spec.errors b := by
  induction a with
  | nil => rfl
  | cons ev a ih => cases ev <;> simp [Spec.errors, ih]

theorem vh_errOk (t : Nat → Bool) {lo : Nat} {evs : List Ev} (h : ErrOk lo evs) : ∀ (x : Nat × Nat) (hs : Handlers)
    (sink : List Called), x.1 ≤ lo → ∃ calls, vhRun t (x :: hs, sink) evs = some (x :: hs, sink ++ calls) ∧
      calls.map Called.err = Spec.errors evs ∧ ∀ c ∈ calls, c.pos ≤ c.begin_ := by
  induction h with
  | nil => intro x hs sink _; exact ⟨[], by simp [vhRun], rfl, by simp⟩
  | @one lo ev h1 h2 =>
    intro x hs sink _
    refine ⟨[], ?_, ?_, by simp⟩
    · cases ev <;> first | (simp [vhRun, vhOn]; done) | (cases h1; done) | cases h2
    · cases ev <;> first | rfl | cases h1
  | @err lo tag b e hb =>
    intro x hs sink hx
    obtain ⟨n, hn⟩ := getInfo_some t x hs
    refine ⟨[⟨n, x.1, tag, b, e⟩], by simp [vhRun, vhOn, hn], rfl, ?_⟩
    intro c hc
    rw [List.mem_singleton] at hc
    subst hc
    exact Nat.le_trans hx hb
  | app _ _ i1 i2 =>
    intro x hs sink hx
    obtain ⟨c1, a1, a2, a3⟩ := i1 x hs sink hx
    obtain ⟨c2, b1, b2, b3⟩ := i2 x hs (sink ++ c1) hx
    refine ⟨c1 ++ c2, ?_, ?_, ?_⟩
    · rw [vhRun_append, a1, Option.bind_some, b1, List.append_assoc]
    · rw [List.map_append, a2, b2, spec_errors_append]
    · intro c hc
      rcases List.mem_append.1 hc with hc | hc
      · exact a3 c hc
      · exact b3 c hc
  | @prod lo n p q a hp _ ih | @prodFail lo n p q a hp _ ih =>
    intro x hs sink hx
    obtain ⟨c1, a1, a2, a3⟩ := ih (p, n) (x :: hs) sink (Nat.le_refl _)
    refine ⟨c1, ?_, ?_, a3⟩
    · simp only [vhRun, vhOn, Option.bind_some]
      rw [vhRun_append, a1]
      rfl
    · rw [a2]
      simp [Spec.errors, spec_errors_append]

/-- The events of a run, and that errors begin inside of their production. -/
theorem run_err {E : Env} {fuel n d : Nat} {r : Res} (h : runGrammar E fuel n d = some r) :
    ∃ evs q, ErrOk 0 evs ∧ (r.evs = .grammarStart 0 :: .prodStart n 0 :: (evs ++ [.prodFinish n q, .grammarFinish q]) ∨
      r.evs = .grammarStart 0 :: .prodStart n 0 :: (evs ++ [.prodCancel n q, .grammarCancel q])) := by
  unfold runGrammar at h
  obtain ⟨y, hy, rfl⟩ := Option.map_eq_some_iff.1 h
  have hx : EG 0 (onOk' (exec E fuel ⟨(E.prods n).ws, d⟩ .ws { pos := 0 }) fun st =>
      exec E fuel ⟨(E.prods n).ws, d⟩ (.run (E.prods n).rule) st) :=
    EG.onOk' (exec_err fuel _ _ _ _ (Nat.zero_le _) trivial) fun st hst => exec_err fuel _ _ _ _ hst trivial
  cases hz : onOk' (exec E fuel ⟨(E.prods n).ws, d⟩ .ws { pos := 0 }) fun st =>
      exec E fuel ⟨(E.prods n).ws, d⟩ (.run (E.prods n).rule) st with
  | none => rw [hz] at hy; cases hy
  | some z =>
    rw [hz] at hy
    obtain ⟨w, hw, rfl⟩ := Option.map_eq_some_iff.1 hy
    refine ⟨z.evs, z.st.pos, (hx z hz).2, ?_⟩
    cases ho : z.out with
    | ok => simp only [ho] at hw; cases hw; exact .inl rfl
    | fail => simp only [ho] at hw; cases hw; exact .inr rfl
    | brk => simp only [ho] at hw; cases hw

theorem vh_run {E : Env} {fuel n d : Nat} {r : Res} (h : runGrammar E fuel n d = some r) (t : Nat → Bool) :
    ∃ calls, vhRun t ([], []) r.evs = some ([], calls) ∧ calls.map Called.err = Spec.errors r.evs ∧
      ∀ c ∈ calls, c.pos ≤ c.begin_ := by
  obtain ⟨evs, q, he, hr | hr⟩ := run_err h <;>
  · obtain ⟨calls, a1, a2, a3⟩ := vh_errOk t he (0, n) [] [] (Nat.le_refl _)
    refine ⟨calls, ?_, ?_, a3⟩
    · rw [hr]
      simp only [vhRun, vhOn, Option.bind_some]
      rw [vhRun_append, a1]
      simp [vhRun, vhOn]
    · rw [hr, a2]
      simp [Spec.errors, spec_errors_append]

theorem vhOn_nest {t : Nat → Bool} {s s' : List Opened} {ev : Ev} {sink : List Called} {hs : Handlers} {calls : List Called}
    (hn : nestStep s ev = some s') (h : vhOn t (prodsOf s, sink) ev = some (hs, calls)) :
    hs = prodsOf s' ∧ ∃ new, calls = sink ++ new ∧ new.map Called.err = Spec.errors [ev] := by
  cases ev
  case prodStart n p =>
    simp only [nestStep, Option.some.injEq] at hn
    subst hn
    simp only [vhOn, Option.some.injEq, Prod.mk.injEq] at h
    exact ⟨h.1.symm, [], by simp [h.2], rfl⟩
  case error tag b e =>
    have : s' = s := by
      cases s with
      | nil => simp [nestStep] at hn; exact hn
      | cons x s => cases x <;> (simp [nestStep] at hn; exact hn.symm)
    subst this
    cases hp : prodsOf s' with
    | nil => rw [hp] at h; simp [vhOn] at h
    | cons x ps =>
      rw [hp] at h
      simp only [vhOn] at h
      obtain ⟨m, _, hm⟩ := Option.map_eq_some_iff.1 h
      simp only [Prod.mk.injEq] at hm
      exact ⟨hm.1.symm, [_], hm.2.symm, rfl⟩
  all_goals
    cases s with
    | nil => simp [nestStep] at hn <;> (subst hn; simp [vhOn] at h; exact ⟨h.1.symm, [], by simp [h.2], rfl⟩)
    | cons x s =>
      cases x <;> simp [nestStep] at hn <;>
        first
        | (obtain ⟨_, hn⟩ := hn; subst hn; simp [vhOn, prodsOf] at h; exact ⟨by simp [prodsOf, h.1], [], by simp [h.2], rfl⟩)
        | (subst hn; simp [vhOn, prodsOf] at h; exact ⟨by simp [prodsOf, h.1], [], by simp [h.2], rfl⟩)

theorem vhRun_nest {t : Nat → Bool} : ∀ {evs : List Ev} {s s' : List Opened} {sink : List Called} {hs : Handlers}
    {calls : List Called}, nest s evs = some s' → vhRun t (prodsOf s, sink) evs = some (hs, calls) →
    hs = prodsOf s' ∧ ∃ new, calls = sink ++ new ∧ new.map Called.err = Spec.errors evs := by
  intro evs
  induction evs with
  | nil =>
    intro s s' sink hs calls hn h
    simp only [nest, Option.some.injEq] at hn
    simp only [vhRun, Option.some.injEq, Prod.mk.injEq] at h
    exact ⟨by rw [← hn, h.1], [], by simp [h.2], rfl⟩
  | cons ev evs ih =>
    intro s s' sink hs calls hn h
    simp only [nest] at hn
    simp only [vhRun] at h
    cases hn1 : nestStep s ev with
    | none => rw [hn1] at hn; cases hn
    | some s1 =>
      cases h1 : vhOn t (prodsOf s, sink) ev with
      | none => rw [h1] at h; cases h
      | some st1 =>
        rw [hn1] at hn
        rw [h1] at h
        obtain ⟨hs1, calls1⟩ := st1
        obtain ⟨rfl, new, rfl, e1⟩ := vhOn_nest hn1 h1
        obtain ⟨e2, new', rfl, e3⟩ := ih hn h
        refine ⟨e2, new ++ new', by simp, ?_⟩
        rw [List.map_append, e1, e3]
        exact (spec_errors_append [ev] evs).symm

/-- **C75** The callback gets all errors in order; each with the innermost production at that time: it is named unless
it is transparent (then the next outer one), its start is the context position, and the error does not begin before. -/
theorem C75_context {E : Env} {fuel n d : Nat} {r : Res} (h : runGrammar E fuel n d = some r) (t : Nat → Bool) :
    ∃ calls, vhRun t ([], []) r.evs = some ([], calls) ∧ calls.map Called.err = Spec.errors r.evs ∧
      ∀ pre post tag b e, r.evs = pre ++ .error tag b e :: post → ∃ s m p ps info, nest [] pre = some s ∧
        prodsOf s = (p, m) :: ps ∧ named t (prodsOf s) = some info ∧ p ≤ b ∧
        calls[(Spec.errors pre).length]? = some ⟨info, p, tag, b, e⟩ := by
  obtain ⟨calls, h1, h2, h3⟩ := vh_run h t
  refine ⟨calls, h1, h2, ?_⟩
  intro pre post tag b e he
  have hn : nest [] r.evs = some [] := C35_events_nested h
  rw [he, nest_append] at hn
  rw [he, vhRun_append] at h1
  cases hn1 : nest [] pre with
  | none => rw [hn1] at hn; cases hn
  | some s =>
    cases hv1 : vhRun t ([], []) pre with
    | none => rw [hv1] at h1; cases h1
    | some st =>
      obtain ⟨hs, c1⟩ := st
      rw [hn1, Option.bind_some] at hn
      rw [hv1, Option.bind_some] at h1
      obtain ⟨rfl, new, e1, e2⟩ := vhRun_nest (s := []) hn1 hv1
      simp only [List.nil_append] at e1
      subst e1
      cases hp : prodsOf s with
      | nil => rw [hp] at h1; simp [vhRun, vhOn] at h1
      | cons x ps =>
        obtain ⟨p, m⟩ := x
        obtain ⟨info, hi⟩ := getInfo_some t (p, m) ps
        simp only [vhRun, hp, vhOn, hi, Option.map_some, Option.bind_some] at h1
        rw [← hp] at h1
        simp only [nest] at hn
        have hs' : nestStep s (.error tag b e) = some s := by
          cases s with
          | nil => rfl
          | cons x s => cases x <;> rfl
        rw [hs', Option.bind_some] at hn
        obtain ⟨-, new', e3, -⟩ := vhRun_nest hn h1
        have hmem : (⟨info, p, tag, b, e⟩ : Called) ∈ calls := by rw [e3]; simp
        refine ⟨s, m, p, ps, info, rfl, hp, by rw [hp, ← getInfo_spec, hi], h3 _ hmem, ?_⟩
        have hl : (Spec.errors pre).length = c1.length := by rw [← e2, List.length_map]
        rw [hl, e3]
        simp

/-! ### Layout -/

/-- The number that digits stand for. -/
def _root_.Verif.Spec.decimal (l : List Nat) : Nat := l.foldl (fun a c => a * 10 + (c - 48)) 0

theorem digits_spec : ∀ (k n : Nat), n < 10 ^ (k + 1) → (digits n).length ≤ k + 1 ∧ Spec.decimal (digits n) = n ∧
    (∀ c ∈ digits n, 48 ≤ c ∧ c ≤ 57) ∧ 1 ≤ (digits n).length := by
  intro k
  induction k with
  | zero =>
    intro n hn
    rw [digits, if_pos (by omega)]
    refine ⟨by simp, by simp [Spec.decimal], ?_, by simp⟩
    intro c hc
    rw [List.mem_singleton] at hc
    omega
  | succ k ih =>
    intro n hn
    rw [digits]
    split
    · refine ⟨by simp, by simp [Spec.decimal], ?_, by simp⟩
      intro c hc
      rw [List.mem_singleton] at hc
      omega
    · obtain ⟨h1, h2, h3, h4⟩ := ih (n / 10) (by rw [Nat.pow_succ] at hn; omega)
      refine ⟨by simp; omega, ?_, ?_, by simp⟩
      · have : Spec.decimal (digits (n / 10) ++ [0x30 + n % 10]) = Spec.decimal (digits (n / 10)) * 10 + (0x30 + n % 10 - 48) := by
          simp [Spec.decimal]
        rw [this, h2]
        omega
      · intro c hc
        rcases List.mem_append.1 hc with hc | hc
        · exact h3 c hc
        · rw [List.mem_singleton] at hc; omega

theorem digits_all (n : Nat) : Spec.decimal (digits n) = n ∧ (∀ c ∈ digits n, 48 ≤ c ∧ c ≤ 57) ∧ 1 ≤ (digits n).length := by
  have hn : n < 10 ^ (n + 1) := Nat.lt_of_lt_of_le (Nat.lt_pow_self (by decide : 1 < 10)) (Nat.pow_le_pow_right (by decide) (Nat.le_succ n))
  exact (digits_spec n n hn).2

/-- What is shown for the number of a line: right aligned in four columns, then a space. -/
structure _root_.Verif.Spec.ShowsNumber (n : Nat) (l : List Nat) : Prop where
  shape : ∃ k ds, l = List.replicate k 0x20 ++ ds ++ [0x20] ∧ ds ≠ [] ∧ (∀ c ∈ ds, 48 ≤ c ∧ c ≤ 57) ∧ Spec.decimal ds = n ∧
    (k = 0 ∨ k + ds.length = 4)

theorem lineNumber_spec (n : Nat) : Spec.ShowsNumber n (lineNumber n) ∧ (n < 10000 → (lineNumber n).length = 5) := by
  obtain ⟨h1, h2, h3⟩ := digits_all n
  refine ⟨⟨4 - (digits n).length, digits n, rfl, ?_, h2, h1, by omega⟩, fun hn => ?_⟩
  · intro h; rw [h] at h3; simp at h3
  · have := (digits_spec 3 n hn).1
    simp [lineNumber]
    omega

theorem lexeme_plain (o : Opts) (le : LexEnc) (s out : List Nat) (h : visLexeme { o with color := false } le s = some out) :
    ∀ c ∈ out, c ≠ 0x1B ∧ c ≠ 0x0A := by
  refine closed_lexeme { o with color := false } (fun l => ∀ c ∈ l, c ≠ 0x1B ∧ c ≠ 0x0A) (by simp) ?_ ?_ ?_ ?_ rfl le s out h
  · intro a b ha hb c hc
    rcases List.mem_append.1 hc with hc | hc
    · exact ha c hc
    · exact hb c hc
  · intro c h1 h2 d hd
    rw [List.mem_singleton] at hd
    omega
  · intro _; decide
  · intro _; decide

/-- An annotation as it is shown: two lines; `before`, `marked` and `after` (code points) is how the three parts of the
    line are visualized, `msg` the message.  The line number takes up `width` columns. -/
structure _root_.Verif.Spec.AnnotationShown (bar mark nr : Nat) (before marked after msg : List Nat) (more : Bool)
    (width : Nat) (shown : List Nat) : Prop where
  shape : ∃ head, Spec.ShowsNumber nr head ∧ head.length = width ∧ shown =
    (head ++ [bar, 0x20] ++ before ++ marked ++ after).flatMap Spec.utf8 ++ [0x0A] ++
    (List.replicate 5 0x20 ++ [bar, 0x20] ++ List.replicate before.length 0x20
      ++ List.replicate (max marked.length 1 + if more && !marked.isEmpty then 1 else 0) mark ++ [0x20]).flatMap Spec.utf8
      ++ msg ++ [0x0A]

theorem utf8_ascii (l : List Nat) (h : ∀ c ∈ l, c < 0x80) : l.flatMap Spec.utf8 = l := by
  induction l with
  | nil => rfl
  | cons c l ih =>
    have : Spec.utf8 c = [c] := by simp [Spec.utf8]; have := h c (by simp); omega
    rw [List.flatMap_cons, this, ih fun d hd => h d (by simp [hd])]
    rfl

/-- The bar. -/
def _root_.Verif.Spec.bar (o : Opts) : Nat := if o.unicode then 0x2502 else 0x7C

/-- The marks. -/
def _root_.Verif.Spec.mark : AnnKind → Nat
  | .primary => 0x5E
  | .secondary => 0x7E

theorem column_utf8 (W : Writer) : W.column = Spec.utf8 (Spec.bar W.opts) := by
  unfold Writer.column Spec.bar
  cases W.opts.unicode <;> decide

theorem colorize_shown (W : Writer) (k : AnnKind) : ShownAs (W.colorize k) [] := by
  cases k
  · exact ShownAs.color _ _ _ (by decide) (by decide)
  · exact ShownAs.color _ _ _ (by decide) (by decide)

theorem underline_eq (k : AnnKind) (n : Nat) : (List.replicate n (Writer.underline k)).flatten = List.replicate n (Spec.mark k) := by
  induction n with
  | zero => rfl
  | succ n ih => rw [List.replicate_succ, List.flatten_cons, ih, List.replicate_succ]; cases k <;> rfl

/-- What is shown. -/
theorem annotation_shown {W : Writer} {k : AnnKind} {loc : Loc} {end_ : EndOrSize} {msg : Opts → Option (List Nat)}
    {out : List Nat} (h : W.annotation k loc end_ msg = some out)
    (hm : ∀ m, msg { W.opts with color := false } = some m → ∀ c ∈ m, c ≠ 0x1B) :
    ∃ a before marked after m, W.line loc end_ = some a ∧
      visLexeme { W.opts with color := false } W.lex (W.text a.before) = some (before.flatMap Spec.utf8) ∧
      visLexeme { W.opts with color := false } W.lex (W.text a.annotated) = some (marked.flatMap Spec.utf8) ∧
      visLexeme { W.opts with color := false } W.lex (W.text a.after) = some (after.flatMap Spec.utf8) ∧
      (∀ v ∈ before ++ marked ++ after, Spec.IsScalar v) ∧
      msg { W.opts with color := false } = some m ∧
      Spec.AnnotationShown (Spec.bar W.opts) (Spec.mark k) loc.lineNr before marked after m
        (a.truncatedMultiline && !a.annotatedNewline) (lineNumber loc.lineNr).length (Spec.shown false out) ∧ ShownAs out (Spec.shown false out) := by
  unfold Writer.annotation at h
  cases hl : W.line loc end_ with
  | none => rw [hl] at h; cases h
  | some a =>
    simp only [hl] at h
    cases hx : W.contentLine k loc a with
    | none => rw [hx] at h; cases h
    | some x =>
      cases hy : W.markLine k a msg with
      | none => rw [hx, hy] at h; cases h
      | some y =>
        rw [hx, hy] at h
        simp only [Option.some.injEq] at h
        unfold Writer.contentLine at hx
        unfold Writer.markLine at hy
        split at hx
        case h_2 => cases hx
        case h_1 b m e hb hmk he =>
        split at hy
        case h_2 => cases hy
        case h_1 indent width mm hi hw hmm =>
        simp only [Option.some.injEq] at hx hy
        obtain ⟨ob, vb, b1, b2, b3, b4⟩ := C57_display_width _ _ _ _ hi
        obtain ⟨om, vm, m1, m2, m3, m4⟩ := C57_display_width _ _ _ _ hw
        have hsb : ShownAs b ob := by
          rcases lexeme_shown W.opts W.lex (W.text a.before) with ⟨g1, _⟩ | ⟨p, q, g1, g2, g3⟩
          · rw [g1] at hb; cases hb
          · rw [g1] at hb; rw [g2] at b1; cases hb; cases b1; exact g3
        obtain ⟨oe, ve, e1, e2, e3, hse⟩ : ∃ (oe ve : List Nat), visLexeme { W.opts with color := false } W.lex (W.text a.after) = some oe ∧
            (∀ v ∈ ve, Spec.IsScalar v) ∧ oe = ve.flatMap Spec.utf8 ∧ ShownAs e oe := by
          rcases lexeme_shown W.opts W.lex (W.text a.after) with ⟨g1, _⟩ | ⟨p, q, g1, g2, g3⟩
          · rw [g1] at he; cases he
          · rw [g1] at he
            cases he
            obtain ⟨oe, ve, e1, e2, e3, -⟩ := C57_display_width W.opts W.lex (W.text a.after) _ (show Option.map _ (visLexeme _ _ _) = _ by rw [g2]; rfl)
            rw [g2] at e1
            cases e1
            exact ⟨_, ve, g2, e2, e3, g3⟩
        rw [hmk] at m1
        cases m1
        refine ⟨a, vb, vm, ve, mm, rfl, by rw [b1, b3], by rw [hmk, m3], by rw [e1, e3], ?_, hmm, ?_⟩
        · intro v hv
          rcases List.mem_append.1 hv with hv | hv
          · rcases List.mem_append.1 hv with hv | hv
            · exact b2 v hv
            · exact m2 v hv
          · exact e2 v hv
        · obtain ⟨⟨kk, ds, hds, -, hd1, -, -⟩⟩ := (lineNumber_spec loc.lineNr).1
          have hln : ∀ c ∈ lineNumber loc.lineNr, c < 0x80 ∧ c ≠ 0x1B := by
            intro c hc
            rw [hds] at hc
            simp only [List.mem_append, List.mem_replicate, List.mem_singleton] at hc
            rcases hc with (⟨_, rfl⟩ | hc) | rfl
            · decide
            · have := hd1 c hc; omega
            · decide
          have pl : ∀ {l : List Nat}, (∀ c ∈ l, c ≠ 0x1B) → ShownAs l l := ShownAs.plain
          have col : ∀ a b, a < 50 → (∀ c ∈ b, c < 50) → ShownAs (color W.opts a b) [] := fun a b h h' => ShownAs.color _ a b h h'
          have hcolumn : ∀ c ∈ W.column, c ≠ 0x1B := by unfold Writer.column; cases W.opts.unicode <;> decide
          have hx' : ShownAs x (lineNumber loc.lineNr ++ W.column ++ [0x20] ++ ob ++ m ++ oe ++ [0x0A]) := by
            rw [← hx]
            have := ((((((((((col 34 [] (by decide) (by decide)).app (pl fun c hc => (hln c hc).2)).app (col 0 [] (by decide) (by decide))).app
              (pl hcolumn)).app (pl (l := [0x20]) (by decide))).app hsb).app (colorize_shown W k)).app
              (pl fun c hc => (lexeme_plain _ _ _ _ hmk c hc).1)).app (col 0 [] (by decide) (by decide))).app hse).app (pl (l := [0x0A]) (by decide))
            simpa using this
          have hmarks : (List.replicate width (Writer.underline k)).flatten
              ++ (if width == 0 || (a.truncatedMultiline && !a.annotatedNewline) then Writer.underline k else [])
              = List.replicate (max vm.length 1 + if (a.truncatedMultiline && !a.annotatedNewline) && !vm.isEmpty then 1 else 0) (Spec.mark k) := by
            have hu : Writer.underline k = List.replicate 1 (Spec.mark k) := by cases k <;> rfl
            rw [underline_eq, m4]
            cases vm with
            | nil => simp [hu]
            | cons v vm =>
              cases (a.truncatedMultiline && !a.annotatedNewline)
              · simp
              · simp only [hu, List.length_cons, Bool.or_true, if_true, List.isEmpty_cons, Bool.not_false, Bool.and_self]
                rw [List.replicate_append_replicate]
                congr 1
                omega
          have hmark : Spec.mark k < 0x80 ∧ Spec.mark k ≠ 0x1B := by cases k <;> decide
          have hy' : ShownAs y (List.replicate 5 0x20 ++ W.column ++ [0x20] ++ List.replicate indent 0x20
              ++ List.replicate (max vm.length 1 + if (a.truncatedMultiline && !a.annotatedNewline) && !vm.isEmpty then 1 else 0) (Spec.mark k)
              ++ [0x20] ++ mm ++ [0x0A]) := by
            rw [← hy]
            have := ((((((((pl (l := List.replicate 5 0x20) (by decide)).app (pl hcolumn)).app (pl (l := [0x20]) (by decide))).app
              (pl (l := List.replicate indent 0x20) (by simp))).app (colorize_shown W k)).app
              (pl (l := List.replicate (max vm.length 1 + if (a.truncatedMultiline && !a.annotatedNewline) && !vm.isEmpty then 1 else 0) (Spec.mark k))
                (fun c hc => by rw [(List.mem_replicate.1 hc).2]; exact hmark.2))).app (pl (l := [0x20]) (by decide))).app
              (pl (hm mm hmm))).app ((pl (l := [0x0A]) (by decide)).app (col 0 [] (by decide) (by decide)))
            rw [← hmarks] at this ⊢
            simpa [List.append_assoc] using this
          have hxy := hx'.app hy'
          rw [h] at hxy
          refine ⟨⟨lineNumber loc.lineNr, (lineNumber_spec _).1, rfl, ?_⟩, by rw [hxy.eq]; exact hxy⟩
          rw [hxy.eq]
          have u1 : (lineNumber loc.lineNr).flatMap Spec.utf8 = lineNumber loc.lineNr := utf8_ascii _ fun c hc => (hln c hc).1
          have u2 : ∀ n, (List.replicate n 0x20).flatMap Spec.utf8 = List.replicate n 0x20 := fun n =>
            utf8_ascii _ fun c hc => by rw [(List.mem_replicate.1 hc).2]; decide
          have u3 : ∀ n, (List.replicate n (Spec.mark k)).flatMap Spec.utf8 = List.replicate n (Spec.mark k) := fun n =>
            utf8_ascii _ fun c hc => by rw [(List.mem_replicate.1 hc).2]; exact hmark.1
          have u4 : Spec.utf8 0x20 = [0x20] := by decide
          simp only [List.flatMap_append, List.flatMap_cons, List.flatMap_nil, u1, u2, u3, u4, ← column_utf8, b3, b4, m3, e3,
            List.append_assoc, List.append_nil, List.nil_append, List.cons_append]

/-- The annotation can be shown. -/
theorem annotation_some {W : Writer} (k : AnnKind) {loc : Loc} {end_ : EndOrSize} {msg : Opts → Option (List Nat)} {a : Ann}
    {m : List Nat} (hu : Units W.lex.bound W.inp) (hl : W.line loc end_ = some a)
    (hm : msg { W.opts with color := false } = some m) : ∃ out, W.annotation k loc end_ msg = some out := by
  have vis : ∀ (o : Opts) (r : Nat × Nat), ∃ v, visLexeme o W.lex (W.text r) = some v := by
    intro o r
    obtain ⟨_, _, _, _, _, h⟩ := C57_width o W.lex (W.text r) fun u hu' =>
      hu u (List.mem_of_mem_take (List.mem_of_mem_drop hu'))
    exact ⟨_, h o.maxWidth⟩
  have width : ∀ r : Nat × Nat, ∃ n, displayWidth (fun o => visLexeme o W.lex (W.text r)) W.opts = some n := by
    intro r
    obtain ⟨v, hv⟩ := vis { W.opts with color := false } r
    exact ⟨_, show Option.map _ (visLexeme _ _ _) = _ by rw [hv]; rfl⟩
  obtain ⟨b, hb⟩ := vis W.opts a.before
  obtain ⟨c, hc⟩ := vis { W.opts with color := false } a.annotated
  obtain ⟨d, hd⟩ := vis W.opts a.after
  obtain ⟨x, hx⟩ := width a.before
  obtain ⟨y, hy⟩ := width a.annotated
  unfold Writer.annotation Writer.contentLine Writer.markLine
  simp only [hl, hb, hc, hd, hx, hy, hm]
  exact ⟨_, rfl⟩

/-- **C75** (line numbers below 10000) An annotation is shown as two lines.  The first has the number of the line, and
how the annotated line is visualized; the second has a mark beneath every column of the annotated part (at least one, and
one more if the annotated range goes past the last line), and the message behind the marks; there is nothing else. -/
theorem C75_alignment_partial {W : Writer} {k : AnnKind} {loc : Loc} {end_ : EndOrSize} {msg : Opts → Option (List Nat)}
    {out : List Nat} (h : W.annotation k loc end_ msg = some out)
    (hm : ∀ m, msg { W.opts with color := false } = some m → ∀ c ∈ m, c ≠ 0x1B) (hn : loc.lineNr < 10000) :
    ∃ (a : Ann) (before marked after m row1 row2 : List Nat), W.line loc end_ = some a ∧
      visLexeme { W.opts with color := false } W.lex (W.text a.before) = some (before.flatMap Spec.utf8) ∧
      visLexeme { W.opts with color := false } W.lex (W.text a.annotated) = some (marked.flatMap Spec.utf8) ∧
      visLexeme { W.opts with color := false } W.lex (W.text a.after) = some (after.flatMap Spec.utf8) ∧
      msg { W.opts with color := false } = some m ∧
      Spec.shown false out = row1.flatMap Spec.utf8 ++ [0x0A] ++ row2.flatMap Spec.utf8 ++ m ++ [0x0A] ∧
      Spec.ShowsNumber loc.lineNr (row1.take 5) ∧ row1.drop 5 = [Spec.bar W.opts, 0x20] ++ before ++ marked ++ after ∧
      row2.take 7 = [0x20, 0x20, 0x20, 0x20, 0x20, Spec.bar W.opts, 0x20] ∧
      (∀ i, 7 ≤ i → i < 7 + before.length → row2[i]? = some 0x20) ∧
      (∀ i, 7 + before.length ≤ i → i < 7 + before.length + max marked.length 1 → row2[i]? = some (Spec.mark k)) ∧
      row2.drop (7 + before.length + max marked.length 1) =
        if (a.truncatedMultiline && !a.annotatedNewline) && !marked.isEmpty then [Spec.mark k, 0x20] else [0x20] := by
  obtain ⟨a, before, marked, after, m, h1, h2, h3, h4, -, h5, ⟨head, h6, h7, h8⟩, -⟩ := annotation_shown h hm
  rw [(lineNumber_spec _).2 hn] at h7
  refine ⟨a, before, marked, after, m, _, _, h1, h2, h3, h4, h5, h8, ?_, ?_, ?_, ?_, ?_, ?_⟩
  · rw [List.append_assoc, List.append_assoc, List.append_assoc, List.take_left' h7]; exact h6
  · rw [List.append_assoc, List.append_assoc, List.append_assoc, List.drop_left' h7]; simp
  · simp [List.replicate]
  · intro i hi1 hi2
    rw [List.append_assoc, List.append_assoc, List.getElem?_append_right (by simp; omega),
      List.getElem?_append_left (by simp; omega), List.getElem?_replicate, if_pos (by simp; omega)]
  · intro i hi1 hi2
    rw [List.append_assoc, List.getElem?_append_right (by simp; omega),
      List.getElem?_append_left (by simp; omega), List.getElem?_replicate, if_pos (by simp; omega)]
  · rw [List.append_assoc, List.drop_append, List.drop_of_length_le (by simp; omega), List.nil_append]
    have : 7 + before.length + max marked.length 1 - (List.replicate 5 0x20 ++ [Spec.bar W.opts, 0x20] ++ List.replicate before.length 0x20).length
        = max marked.length 1 := by simp; omega
    rw [this, List.drop_append, List.drop_replicate]
    split
    · simp [Nat.add_sub_cancel_left]
    · simp

/-- The location of a position after `n` line feeds. -/
theorem line_after (n : Nat) : ∃ l, getLocation .unit none (List.replicate n 0x0A ++ [0x61]) n startAnchor = some l ∧ l.lineNr = n + 1 := by
  obtain ⟨l, h1, h2, -⟩ := C22_code_unit none (by decide) (List.replicate n 0x0A ++ [0x61])
    (by intro u hu; simp only [List.mem_append, List.mem_replicate, List.mem_singleton] at hu; omega) n (by simp) (by intros; simp)
  refine ⟨l, h1, ?_⟩
  rw [h2, List.take_left' (by simp)]
  simp
  omega

/-- **C75**, refuted: from line 10000 on, the number takes up more columns than the annotation is indented by, so the marks
are not beneath the annotated part. -/
theorem C75_alignment_refuted : ¬ ∀ (W : Writer) (k : AnnKind) (p : Nat) (loc : Loc) (end_ : EndOrSize) (msg : List Nat) (out : List Nat),
    getLocation W.counting W.eof W.inp p startAnchor = some loc → (∀ c ∈ msg, c ≠ 0x1B) →
    W.annotation k loc end_ (fun _ => some msg) = some out →
    ∃ before marked after more, Spec.AnnotationShown (Spec.bar W.opts) (Spec.mark k) loc.lineNr before marked after msg more 5
      (Spec.shown false out) := by
  intro hall
  obtain ⟨n, hn⟩ : ∃ n, n = 9999 := ⟨_, rfl⟩
  obtain ⟨l, h1, h2⟩ := line_after n
  let W : Writer := ⟨.unit, none, none, .text, List.replicate n 0x0A ++ [0x61], {}⟩
  have hs : Units 256 W.inp := by
    intro u hu
    simp only [W, List.mem_append, List.mem_replicate, List.mem_singleton] at hu
    omega
  obtain ⟨le, ne, a, -, ha, -⟩ := C24_annotation_size .unit none none W.inp ⟨by decide, by decide, fun u hu => by have := hs u hu; simp [Counting.bound]; omega⟩
    startAnchor n l h1 (by simp [W]) 1
  obtain ⟨out, ho⟩ := annotation_some (W := W) .primary (loc := l) (end_ := .size 1) (msg := fun _ => some []) hs ha rfl
  obtain ⟨before, marked, after, more, ⟨head, ⟨k, ds, e1, e2, e3, e4, e5⟩, e6, -⟩⟩ := hall W .primary n l (.size 1) [] out h1 (by simp) ho
  have hl : ds.length ≤ 4 := by
    rw [e1] at e6
    simp at e6
    omega
  have bound : ∀ (l : List Nat) (acc : Nat), (∀ c ∈ l, 48 ≤ c ∧ c ≤ 57) →
      l.foldl (fun a c => a * 10 + (c - 48)) acc < (acc + 1) * 10 ^ l.length := by
    intro l
    induction l with
    | nil => intro acc _; simp
    | cons c l ih =>
      intro acc hc
      have hcc := hc c (by simp)
      have h1 := ih (acc * 10 + (c - 48)) fun d hd => hc d (by simp [hd])
      have h2 : (acc * 10 + (c - 48) + 1) * 10 ^ l.length ≤ (acc + 1) * 10 * 10 ^ l.length :=
        Nat.mul_le_mul_right _ (by omega)
      simp only [List.foldl_cons, List.length_cons]
      rw [Nat.pow_succ, Nat.mul_comm (10 ^ l.length) 10, ← Nat.mul_assoc]
      omega
  have h3 := bound ds 0 e3
  have h4 : (10 : Nat) ^ ds.length ≤ 10 ^ 4 := Nat.pow_le_pow_right (by decide) hl
  unfold Spec.decimal at e4
  rw [e4, h2] at h3
  omega

/-! ### Reporting the errors of a run -/

/-- The end of the range that is marked for an error, for the start `p` that is shown. -/
def _root_.Verif.Spec.errWant (p end_ : Nat) : ErrKind → Nat
  | .literal _ index => p + (index + 1)
  | .charClass _ => p + 1
  | .keyword _ | .generic _ => max end_ (p + 1)

/-- The strings of an error can be visualized. -/
def _root_.Verif.Spec.ErrOkKind (le : LexEnc) : ErrKind → Prop
  | .literal str _ | .keyword str => Units le.bound str
  | _ => True

theorem errMessage_some {W : Writer} {k : ErrKind} (hk : Spec.ErrOkKind W.lex k) (o : Opts) : ∃ m, errMessage W k o = some m := by
  cases k with
  | literal str i | keyword str =>
    obtain ⟨_, _, _, _, _, h⟩ := C57_width o W.lex str hk
    exact ⟨_, by simp only [errMessage]; rw [h o.maxWidth]; rfl⟩
  | charClass n => exact ⟨_, rfl⟩
  | generic n => exact ⟨_, rfl⟩

/-- **C75** Every error can be reported, if it begins in or after its production and ends inside of the input: the
location of the error and the location of the context exist, and no iterator goes past the end.  What is written is the
name of the production, the path, the start of the production if it is on an earlier line, and the line of the error with
the range of the error marked as far as it is on that line. -/
theorem C75_reportable (W : Writer) (hc : W.counting.Ok W.eof W.inp) (hne : ∀ u ∈ W.inp, W.eof ≠ some u)
    (hu : Units W.lex.bound W.inp) (path : Option (List Nat)) (name : List Nat) (x : Called) (k : ErrKind)
    (hk : Spec.ErrOkKind W.lex k) (h1 : x.pos ≤ x.begin_) (h2 : x.begin_ ≤ x.end_) (h3 : x.end_ ≤ W.inp.length) :
    ∃ out cl l le ne a main ctx, writeError W path name x k = some out ∧
      getLocation W.counting W.eof W.inp x.pos startAnchor = some cl ∧
      getLocation W.counting W.eof W.inp x.begin_ startAnchor = some l ∧
      Spec.LineEnd W.counting W.eof W.inp l.lineBegin le ne ∧ W.line l (errEnd x.end_ k) = some a ∧
      Spec.Annotates W.enc W.inp l.lineBegin l.columnBegin le ne (Spec.errWant l.columnBegin x.end_ k) a ∧
      W.annotation .primary l (errEnd x.end_ k) (errMessage W k) = some main ∧
      (cl.lineNr = l.lineNr → ctx = []) ∧
      (cl.lineNr ≠ l.lineNr → ∃ b, W.annotation .secondary cl (.at (x.pos + 1)) (fun _ => some strBeginning) = some b ∧
        ctx = b ++ W.emptyAnnotation) ∧
      out = W.label .error ++ color W.opts 0 [] ++ strWhile ++ name ++ [0x0A] ++ (path.map W.path).getD []
        ++ W.emptyAnnotation ++ ctx ++ main := by
  obtain ⟨cl, hcl⟩ := loc_exists hc hne x.pos (by omega)
  obtain ⟨l, hl⟩ := loc_exists hc hne x.begin_ (by omega)
  have hl' : getLocation W.counting W.eof W.inp x.begin_ cl.anchor = some l := by
    rw [C23_anchor _ _ _ _ _ _ h1 _ hcl]; exact hl
  have hcb := loc_le _ _ _ l _ _ _ _ _ _ _ rfl hl
  have hccb := loc_le _ _ _ cl _ _ _ _ _ _ _ rfl hcl
  obtain ⟨le, ne, a, a1, a2, a3⟩ : ∃ le ne a, Spec.LineEnd W.counting W.eof W.inp l.lineBegin le ne ∧
      W.line l (errEnd x.end_ k) = some a ∧
      Spec.Annotates W.enc W.inp l.lineBegin l.columnBegin le ne (Spec.errWant l.columnBegin x.end_ k) a := by
    cases k with
    | literal str i =>
      obtain ⟨le, ne, a, b1, b2, b3, -⟩ := C24_annotation_size W.counting W.eof W.enc W.inp hc _ _ l hl (by omega) (i + 1)
      exact ⟨le, ne, a, b1, b2, by rw [Nat.max_eq_left (by omega)] at b3; exact b3⟩
    | charClass n =>
      obtain ⟨le, ne, a, b1, b2, b3, -⟩ := C24_annotation_size W.counting W.eof W.enc W.inp hc _ _ l hl (by omega) 1
      exact ⟨le, ne, a, b1, b2, by rw [Nat.max_eq_left (by omega)] at b3; exact b3⟩
    | keyword str =>
      obtain ⟨le, ne, a, b1, b2, b3, -⟩ := C24_annotation_end W.counting W.eof W.enc W.inp hc _ _ l hl (by omega) x.end_ (by omega)
      exact ⟨le, ne, a, b1, b2, b3⟩
    | generic str =>
      obtain ⟨le, ne, a, b1, b2, b3, -⟩ := C24_annotation_end W.counting W.eof W.enc W.inp hc _ _ l hl (by omega) x.end_ (by omega)
      exact ⟨le, ne, a, b1, b2, b3⟩
  obtain ⟨m, hm⟩ := errMessage_some (W := W) hk { W.opts with color := false }
  obtain ⟨main, hmain⟩ := annotation_some .primary hu a2 hm
  have fin : ∀ ctx, (if l.lineNr ≠ cl.lineNr then
        if x.pos + 1 ≤ W.inp.length then
          (W.annotation .secondary cl (.at (x.pos + 1)) fun _ => some strBeginning).map (· ++ W.emptyAnnotation)
        else none
      else some []) = some ctx → writeError W path name x k = some (W.label .error ++ color W.opts 0 [] ++ strWhile ++ name ++ [0x0A] ++ (path.map W.path).getD []
        ++ W.emptyAnnotation ++ ctx ++ main) := by
    intro ctx hctx
    unfold writeError locations
    simp only [hcl, hl', Option.map_some, hctx, hmain, Writer.message]
    simp
  by_cases hline : cl.lineNr = l.lineNr
  · refine ⟨_, cl, l, le, ne, a, main, [], fin [] (by rw [if_neg (by simp [hline])]), hcl, hl, a1, a2, a3, hmain, fun _ => rfl, fun h => absurd hline h, rfl⟩
  · have hlt : x.pos < x.begin_ := by
      rcases Nat.lt_or_ge x.pos x.begin_ with h | h
      · exact h
      · have e : x.pos = x.begin_ := by omega
        rw [e, hl] at hcl
        cases hcl
        exact absurd rfl hline
    obtain ⟨_, _, b, -, hb, -⟩ := C24_annotation_end W.counting W.eof W.enc W.inp hc _ _ cl hcl (by omega) (x.pos + 1) (by omega)
    obtain ⟨o, ho⟩ := annotation_some (W := W) .secondary (end_ := .at (x.pos + 1)) (msg := fun _ => some strBeginning) hu hb rfl
    refine ⟨_, cl, l, le, ne, a, main, o ++ W.emptyAnnotation, fin _ ?_, hcl, hl, a1, a2, a3, hmain, fun h => absurd h hline, fun _ => ⟨o, ho, rfl⟩, rfl⟩
    rw [if_pos (Ne.symm hline), if_pos (by omega), ho]
    rfl

theorem errors_mem' {evs : List Ev} {x : Nat × Nat × Nat} (h : x ∈ Spec.errors evs) : Ev.error x.1 x.2.1 x.2.2 ∈ evs := by
  induction evs with
  | nil => cases h
  | cons ev evs ih =>
    cases ev
    case error tag b e =>
      rcases List.mem_cons.1 h with rfl | h
      · exact List.mem_cons_self ..
      · exact List.mem_cons_of_mem _ (ih h)
    all_goals exact List.mem_cons_of_mem _ (ih h)

/-- **C75** Every error of every parse is reported, in order; the result is the number of errors, and a blank line
follows if there are any. -/
theorem C75_all_reported {E : Env} {fuel n d : Nat} {r : Res} (h : runGrammar E fuel n d = some r) (W : Writer)
    (hi : W.inp = E.inp) (hc : W.counting.Ok W.eof W.inp) (hne : ∀ u ∈ W.inp, W.eof ≠ some u)
    (hu : Units W.lex.bound W.inp) (t : Nat → Bool) (path : Option (List Nat)) (name : Nat → List Nat) (kind : Called → ErrKind)
    (hk : ∀ x, Spec.ErrOkKind W.lex (kind x)) :
    ∃ (calls : List Called) (outs : List (List Nat)), vhRun t ([], []) r.evs = some ([], calls) ∧
      calls.map Called.err = Spec.errors r.evs ∧
      calls.map (fun x => writeError W path (name x.prod) x (kind x)) = outs.map some ∧
      validateReport W t path name kind r.evs =
        some (outs.flatten ++ (if outs = [] then [] else [0x0A]), (Spec.errors r.evs).length) := by
  obtain ⟨calls, h1, h2, h3⟩ := vh_run h t
  have hin : ∀ x ∈ calls, x.begin_ ≤ x.end_ ∧ x.end_ ≤ W.inp.length := by
    intro x hx
    have hm : x.err ∈ Spec.errors r.evs := by rw [← h2]; exact List.mem_map_of_mem hx
    have := C36_events_in_bounds h (.error x.tag x.begin_ x.end_) (errors_mem' hm)
    rw [hi]
    exact this
  have all : ∀ cs : List Called, (∀ x ∈ cs, x ∈ calls) → ∃ outs : List (List Nat),
      cs.map (fun x => writeError W path (name x.prod) x (kind x)) = outs.map some ∧
      report W path name kind cs = some (outs.flatten, cs.length) := by
    intro cs
    induction cs with
    | nil => intro _; exact ⟨[], rfl, rfl⟩
    | cons x cs ih =>
      intro hx
      obtain ⟨outs, o1, o2⟩ := ih fun y hy => hx y (by simp [hy])
      have hxc := hx x (by simp)
      obtain ⟨out, _, _, _, _, _, _, _, ho, -⟩ := C75_reportable W hc hne hu path (name x.prod) x (kind x) (hk x) (h3 x hxc) (hin x hxc).1 (hin x hxc).2
      refine ⟨out :: outs, by simp [ho, o1], ?_⟩
      simp [report, ho, o2]
  obtain ⟨outs, o1, o2⟩ := all calls fun x hx => hx
  refine ⟨calls, outs, h1, h2, o1, ?_⟩
  have hlen : calls.length = (Spec.errors r.evs).length := by rw [← h2, List.length_map]
  have hlen' : calls.length = outs.length := by have := congrArg List.length o1; simpa using this
  unfold validateReport
  simp only [h1, o2, Option.map_some, finish, hlen]
  rw [← hlen, hlen']
  cases outs <;> simp

/-! ### Examples -/

/-- `a`, a newline and a transparent production that reports an error. -/
def _root_.Verif.Ex.transparentErr : Env := Ex.env [97, 10, 98] fun n =>
  if n = 0 then { rule := .seq (.tok (Ex.lit 1 11 [97])) (.seq (.tok (Ex.lit 2 12 [10])) (.prod 1)) }
  else { rule := .err 7 none, transparent := true }

/-- The error is in the transparent production 1, which started at 2, but production 0 is named. -/
theorem ex_transparent : ∃ r, runGrammar Ex.transparentErr 20 0 10 = some r ∧
    vhRun (fun n => (Ex.transparentErr.prods n).transparent) ([], []) r.evs = some ([], [⟨0, 2, 7, 2, 2⟩]) ∧
    Ev.prodStart 0 2 ∉ r.evs := by
  have h : (runGrammar Ex.transparentErr 20 0 10).map (·.evs) = some [.grammarStart 0, .prodStart 0 0,
      .token (.user 1) 0 1, .token (.user 2) 1 2, .prodStart 1 2, .error 7 2 2, .prodCancel 1 2, .prodCancel 0 2, .grammarCancel 2] := by
    decide +kernel
  obtain ⟨r, h1, h2⟩ := Option.map_eq_some_iff.1 h
  refine ⟨r, h1, ?_⟩
  rw [h2]
  decide +kernel

/-- **C75**, refuted: the position of the context is not where the production that is named started, if the error is in a
transparent production. -/
theorem C75_context_refuted : ¬ ∀ (E : Env) (fuel n d : Nat) (r : Res) (calls : List Called), runGrammar E fuel n d = some r →
    vhRun (fun n => (E.prods n).transparent) ([], []) r.evs = some ([], calls) →
    ∀ x ∈ calls, Ev.prodStart x.prod x.pos ∈ r.evs := by
  intro h
  obtain ⟨r, h1, h2, h3⟩ := ex_transparent
  exact h3 (h _ _ _ _ r _ h1 h2 ⟨0, 2, 7, 2, 2⟩ (by simp))

/-- The input `a`, newline, `é` (two code units), `x`, as UTF-8. -/
def _root_.Verif.Ex.writer : Writer := ⟨.unit, none, some .utf8, .unicode .utf8, [0x61, 0x0A, 0xC3, 0xA9, 0x78], {}⟩

/-- An error in the second line, in a production that started in the first:

    error: while parsing P
         |
       1 | a
         | ~ beginning here
         |
       2 | \u00E9x
         |       ^ oops
-/
example : writeError Ex.writer none [0x50] ⟨0, 0, 7, 4, 5⟩ (.generic [0x6F, 0x6F, 0x70, 0x73]) =
    some ([0x65, 0x72, 0x72, 0x6F, 0x72, 0x3A, 0x20] ++ strWhile ++ [0x50, 0x0A] ++ List.replicate 5 0x20 ++ [0x7C, 0x0A] ++
      [0x20, 0x20, 0x20, 0x31, 0x20, 0x7C, 0x20, 0x61, 0x0A] ++
      List.replicate 5 0x20 ++ [0x7C, 0x20, 0x7E, 0x20] ++ strBeginning ++ [0x0A] ++ List.replicate 5 0x20 ++ [0x7C, 0x0A] ++
      [0x20, 0x20, 0x20, 0x32, 0x20, 0x7C, 0x20, 0x5C, 0x75, 0x30, 0x30, 0x45, 0x39, 0x78, 0x0A] ++
      List.replicate 5 0x20 ++ [0x7C, 0x20] ++ List.replicate 6 0x20 ++ [0x5E, 0x20, 0x6F, 0x6F, 0x70, 0x73, 0x0A]) := by
  decide +kernel

/-- The hypotheses of `C75_reportable` are met. -/
example : Ex.writer.counting.Ok Ex.writer.eof Ex.writer.inp ∧ (∀ u ∈ Ex.writer.inp, Ex.writer.eof ≠ some u) ∧
    Units Ex.writer.lex.bound Ex.writer.inp :=
  ⟨⟨by decide, by decide, by unfold Units; decide⟩, by decide, by unfold Units; decide⟩

end Rep

end Verif
