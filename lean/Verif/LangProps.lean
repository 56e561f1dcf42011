import Verif.Lang
import Verif.ChoiceProps
import Verif.GrammarQuiet

/-
What is parsed without an error is in the language of the grammar (C38), for every rule and every grammar.
-/

namespace Verif

open Spec

/-! ### The operators that are considered -/

mutual
theorem opList_sub {pre : Bool} {min : Nat} {o : OpDef} : ∀ (n : Nat) (t : OpTree), o ∈ t.opList pre min n →
    o ∈ t.all ∧ (o.kind = .prefix ↔ pre = true)
  | n, .atom, h => by simp [OpTree.opList] at h
  | n, .groups gs, h => by
    simp only [OpTree.opList] at h
    simpa only [OpTree.all] using opListGroups_sub n gs h
  | n, .op p t, h => by
    simp only [OpTree.opList] at h
    simp only [OpTree.all, List.mem_cons]
    have ih := opList_sub (pre := pre) (min := min) (o := o) (n + 1) t
    split at h
    · rename_i hp
      rcases List.mem_append.1 h with h | h
      · exact ⟨.inr (ih h).1, (ih h).2⟩
      · rw [List.mem_singleton] at h
        subst h
        refine ⟨.inl rfl, ?_⟩
        obtain ⟨hp, _⟩ := hp
        cases pre <;> simp_all
    · exact ⟨.inr (ih h).1, (ih h).2⟩
theorem opListGroups_sub {pre : Bool} {min : Nat} {o : OpDef} : ∀ (n : Nat) (gs : List OpTree),
    o ∈ OpTree.opListGroups pre min n gs → o ∈ OpTree.allGroups gs ∧ (o.kind = .prefix ↔ pre = true)
  | n, [], h => by simp [OpTree.opListGroups] at h
  | n, g :: gs, h => by
    simp only [OpTree.opListGroups, List.mem_append] at h
    simp only [OpTree.allGroups, List.mem_append]
    rcases h with h | h
    · exact ⟨.inl (opList_sub n g h).1, (opList_sub n g h).2⟩
    · exact ⟨.inr (opListGroups_sub n gs h).1, (opListGroups_sub n gs h).2⟩
end

/-- The literals of all expressions are matched by their spelling. -/
def ExprLits (E : Env) : Prop := ∀ i, LitsOk E.eof (E.exprs i).fold (E.exprs i).ops.all

/-! ### What the commands derive -/

def LOut (E : Env) (w : Option Rule) (r : Rule) (p : Nat) (x : Res) : Prop :=
  (x.out = .ok → Lang E w (.rule r false) p x.st.pos) ∧ (x.out = .brk → Lang E w (.rule r true) p x.st.pos)

def LOk (E : Env) (w : Option Rule) (g : Goal) (p : Nat) (x : Res) : Prop :=
  x.out ≠ .brk ∧ (x.out = .ok → Lang E w g p x.st.pos)

/-- An operator was matched from `b` to `p`. -/
def OpHit (E : Env) (i : Nat) (o : OpDef) (k : Kind) (r : Rule) (b p : Nat) : Prop :=
  o ∈ (E.exprs i).ops.all ∧ ∃ l, (l, k, r) ∈ o.lits ∧ l.Matches ((E.inp.drop b).map (E.exprs i).fold) ∧ p = b + l.str.length

def LSpec (E : Env) (cx : Cx) (c : Cmd) (st : St) (x : Res) : Prop :=
  match c with
  | .run r => LOut E cx.ws r st.pos x
  | .bfinish r => Takes E r st → LOut E cx.ws r st.pos x
  | .chcRun rs | .chcFinish rs => LOut E cx.ws (.chc rs) st.pos x
  | .tokTry r => ∀ w, LOk E w (.tok r) st.pos x
  | .ws => LOk E cx.ws .gap st.pos x
  | .skip r => LOk E (some r) .gap st.pos x
  | .tokLoop r => r.isToken = true → LOk E (some r) .gap st.pos x
  | .loopR r => LOk E cx.ws (.rule (.loop r) false) st.pos x
  | .whlR b => LOk E cx.ws (.rule (.whl b) false) st.pos x
  | .lstLoop item sep => LOk E cx.ws (.tail item sep) st.pos x
  | .ltTerm term item sep _ | .ltSep term item sep _ => LOk E cx.ws (.tail item sep) st.pos x ∧ (x.out = .ok → Takes E term x.st)
  | .ltTrail _ term item sep _ => sep.isSome = true → x.out ≠ .brk ∧ (x.out = .ok → Takes E term x.st ∧
      (((∃ s k, sep = some (s, k) ∧ SepKind.Trails k) ∧ x.st.pos = st.pos) ∨
        ∃ m, Lang E cx.ws (.rule item false) st.pos m ∧ Lang E cx.ws (.tail item sep) m x.st.pos))
  | .ltItem term item sep _ => x.out ≠ .brk ∧ (x.out = .ok → Takes E term x.st ∧
      ∃ m, Lang E cx.ws (.rule item false) st.pos m ∧ Lang E cx.ws (.tail item sep) m x.st.pos)
  | .repTail k item sep => (x.out = .ok → Lang E cx.ws (.times k item sep false) st.pos x.st.pos)
      ∧ (x.out = .brk → Lang E cx.ws (.times k item sep true) st.pos x.st.pos)
  | .combLoop _ rs n handled count => ∀ rs0 els, rs = combRules rs0 els → n = rs0.length → handled.Nodup → (∀ i ∈ handled, i < n) →
      count = handled.length → LOk E cx.ws (.comb rs0 els handled) st.pos x
  | .exParse i _ | .exLhs i _ => LOk E cx.ws (.operand i) st.pos x
  | .exLoop i _ => x.out = .ok → ∀ p0, Lang E cx.ws (.operand i) p0 st.pos → Lang E cx.ws (.operand i) p0 x.st.pos
  | .exApply i o k r b => OpHit E i o k r b st.pos → x.out = .ok → (o.kind = .prefix → Lang E cx.ws (.operand i) b x.st.pos) ∧
      (o.kind ≠ .prefix → ∀ p0, Lang E cx.ws (.operand i) p0 b → Lang E cx.ws (.operand i) p0 x.st.pos)
  | .exList i o _ => o ∈ (E.exprs i).ops.all → o.kind = .infixList → x.out = .ok →
      ∀ p0 b, Lang E cx.ws (.operand i) p0 b → Lang E cx.ws (.op i o) b st.pos → Lang E cx.ws (.operand i) p0 x.st.pos
  | _ => True

/-- The induction hypothesis. -/
def LHyp (E : Env) (n : Nat) : Prop := ∀ cx c st x, st.pos ≤ E.inp.length → exec E n cx c st = some x → Quiet x.evs → x.out ≠ .fail →
  LSpec E cx c st x

/-! ### Taking results apart -/

theorem onOk'_q {x : Option Res} {f : St → Option Res} {r : Res} (h : onOk' x f = some r) (hq : Quiet r.evs) (hf : r.out ≠ .fail) :
    ∃ st1 e1 r2, x = some ⟨.ok, st1, e1⟩ ∧ Quiet e1 ∧ f st1 = some r2 ∧ Quiet r2.evs ∧ r2.out ≠ .fail ∧ r.out = r2.out ∧ r.st = r2.st := by
  rcases onOk'_some h with ⟨st1, e1, r2, h1, h2, rfl⟩ | ⟨_, h2⟩
  · exact ⟨st1, e1, r2, h1, hq.left, h2, hq.right, hf, rfl, rfl⟩
  · exact absurd h2 hf

theorem onOk_q {x : Option Res} {f : St → Option Res} {r : Res} (h : onOk x f = some r) (hq : Quiet r.evs) (hf : r.out ≠ .fail) :
    (∃ st1 e1 r2, x = some ⟨.ok, st1, e1⟩ ∧ Quiet e1 ∧ f st1 = some r2 ∧ Quiet r2.evs ∧ r2.out ≠ .fail ∧ r.out = r2.out ∧ r.st = r2.st) ∨
    (x = some r ∧ r.out = .brk) := by
  rcases onOk_some h with ⟨st1, e1, r2, h1, h2, rfl⟩ | ⟨h1, h2⟩
  · exact .inl ⟨st1, e1, r2, h1, hq.left, h2, hq.right, hf, rfl, rfl⟩
  · refine .inr ⟨h1, ?_⟩
    cases ho : r.out
    · exact absurd ho h2
    · exact absurd ho hf
    · rfl

theorem emit_q {evs : List Ev} {x : Option Res} {r : Res} (h : emit evs x = some r) (hq : Quiet r.evs) (hf : r.out ≠ .fail) :
    ∃ r1, x = some r1 ∧ Quiet evs ∧ Quiet r1.evs ∧ r1.out ≠ .fail ∧ r.out = r1.out ∧ r.st = r1.st := by
  obtain ⟨r1, h1, rfl⟩ := emit_some.1 h
  exact ⟨r1, h1, hq.left, hq.right, hf, rfl, rfl⟩

theorem framed_q {n : Nat} {x : Option Res} {r : Res} (h : framed n x = some r) :
    ∃ r1, x = some r1 ∧ r.evs = r1.evs ∧ r.out = r1.out ∧ r.st = r1.st.frame n ∧ r.st.pos = r1.st.pos := by
  obtain ⟨r1, h1, rfl⟩ := framed_some.1 h
  exact ⟨r1, h1, rfl, rfl, rfl, rfl⟩

section

variable {E : Env} {n : Nat} (H : LHyp E n)

/-- The commands whose events are a trace. -/
theorem run_le {cx : Cx} {r : Rule} {st : St} {x : Res} (hl : st.pos ≤ E.inp.length) (h : exec E n cx (.run r) st = some x) :
    x.st.pos ≤ E.inp.length := ((exec_good E n cx (.run r) st hl x h).bounds hl).2
theorem fin_le {cx : Cx} {r : Rule} {st : St} {x : Res} (hl : st.pos ≤ E.inp.length) (h : exec E n cx (.bfinish r) st = some x) :
    x.st.pos ≤ E.inp.length := ((exec_good E n cx (.bfinish r) st hl x h).bounds hl).2
theorem ws_le {cx : Cx} {st : St} {x : Res} (hl : st.pos ≤ E.inp.length) (h : exec E n cx .ws st = some x) :
    x.st.pos ≤ E.inp.length := ((exec_good E n cx .ws st hl x h).bounds hl).2

theorem run_fail {cx : Cx} {r : Rule} {st : St} {x : Res} (hl : st.pos ≤ E.inp.length) (h : exec E n cx (.run r) st = some x)
    (hq : Quiet x.evs) : x.out ≠ .fail := fun ho => hq.not_error ((exec_good E n cx (.run r) st hl x h).fail_error ho)
theorem fin_fail {cx : Cx} {r : Rule} {st : St} {x : Res} (hl : st.pos ≤ E.inp.length) (h : exec E n cx (.bfinish r) st = some x)
    (hq : Quiet x.evs) : x.out ≠ .fail := fun ho => hq.not_error ((exec_good E n cx (.bfinish r) st hl x h).fail_error ho)

include H

/-- A rule in a frame. -/
theorem framed_run {cx : Cx} {k : Nat} {r : Rule} {st st1 : St} {e1 : List Ev} (hl : st.pos ≤ E.inp.length)
    (h : framed k (exec E n cx (.run r) st) = some ⟨.ok, st1, e1⟩) (hq : Quiet e1) :
    Lang E cx.ws (.rule r false) st.pos st1.pos ∧ st1.pos ≤ E.inp.length := by
  obtain ⟨r1, h1, h2, h3, h4, h5⟩ := framed_q h
  simp only at h2 h3 h4 h5
  rw [h5]
  exact ⟨(H cx (.run r) st r1 hl h1 (h2 ▸ hq) (h3 ▸ nofun)).1 h3.symm, run_le hl h1⟩

theorem framed_fin {cx : Cx} {k : Nat} {r : Rule} {st st1 : St} {e1 : List Ev} (hl : st.pos ≤ E.inp.length)
    (h : framed k (exec E n cx (.bfinish r) st) = some ⟨.ok, st1, e1⟩) (hq : Quiet e1) (ht : Takes E r st) :
    Lang E cx.ws (.rule r false) st.pos st1.pos ∧ st1.pos ≤ E.inp.length := by
  obtain ⟨r1, h1, h2, h3, h4, h5⟩ := framed_q h
  simp only at h2 h3 h4 h5
  rw [h5]
  exact ⟨(H cx (.bfinish r) st r1 hl h1 (h2 ▸ hq) (h3 ▸ nofun) ht).1 h3.symm, fin_le hl h1⟩

theorem run_ok {cx : Cx} {r : Rule} {st st1 : St} {e1 : List Ev} (hl : st.pos ≤ E.inp.length)
    (h : exec E n cx (.run r) st = some ⟨.ok, st1, e1⟩) (hq : Quiet e1) :
    Lang E cx.ws (.rule r false) st.pos st1.pos ∧ st1.pos ≤ E.inp.length :=
  ⟨(H cx (.run r) st _ hl h hq nofun).1 rfl, run_le hl h⟩

theorem fin_ok {cx : Cx} {r : Rule} {st st1 : St} {e1 : List Ev} (hl : st.pos ≤ E.inp.length)
    (h : exec E n cx (.bfinish r) st = some ⟨.ok, st1, e1⟩) (hq : Quiet e1) (ht : Takes E r st) :
    Lang E cx.ws (.rule r false) st.pos st1.pos ∧ st1.pos ≤ E.inp.length :=
  ⟨(H cx (.bfinish r) st _ hl h hq nofun ht).1 rfl, fin_le hl h⟩

theorem ws_ok {cx : Cx} {st st1 : St} {e1 : List Ev} (hl : st.pos ≤ E.inp.length)
    (h : exec E n cx .ws st = some ⟨.ok, st1, e1⟩) (hq : Quiet e1) :
    Lang E cx.ws .gap st.pos st1.pos ∧ st1.pos ≤ E.inp.length :=
  ⟨(H cx .ws st _ hl h hq nofun).2 rfl, ws_le hl h⟩

theorem tokenDone_lang {cx : Cx} {k : Kind} {e : Nat} {st : St} {r : Rule} {x : Res} (hr : r.isToken = true)
    (hm : Lang E cx.ws (.tok r) st.pos e) (he : e ≤ E.inp.length) (h : tokenDone (exec E n) cx k e st = some x) (hq : Quiet x.evs)
    (hf : x.out ≠ .fail) : LOut E cx.ws r st.pos x := by
  obtain ⟨r1, h1, _, h2, h3, h4, h5⟩ := emit_q h hq hf
  obtain ⟨h6, h7⟩ := H cx .ws { st with pos := e } r1 he h1 h2 h3
  rw [LOut, h4, h5]
  exact ⟨fun ho => .token hr hm (h7 ho), fun ho => absurd ho h6⟩

theorem primDone_lang {cx : Cx} {r : PRule} {y : Bool × Nat × List Ev} {st : St} {x : Res} (hy : r.parse E.inp st.pos = y)
    (hl : y.2.1 ≤ E.inp.length) (h : primDone (exec E n) cx r.ws y st = some x) (hq : Quiet x.evs)
    (hf : x.out ≠ .fail) : LOut E cx.ws (.prim r) st.pos x := by
  obtain ⟨r1, h1, hq1, h2, h3, h4, h5⟩ := emit_q h hq hf
  obtain ⟨b, e, evs⟩ := y
  rw [LOut, h4, h5]
  cases b with
  | false => simp only [Bool.false_eq_true, if_false, ret, Option.some.injEq] at h1; subst h1; exact absurd rfl h3
  | true =>
    simp only [if_true] at h1
    by_cases hw : r.ws = true
    · rw [if_pos hw] at h1
      obtain ⟨h6, h7⟩ := H cx .ws { st with pos := e } r1 hl h1 h2 h3
      exact ⟨fun ho => .prim hy hq1 (fun h => by rw [hw] at h; cases h) (h7 ho), fun ho => absurd ho h6⟩
    · rw [if_neg hw] at h1
      cases h1
      exact ⟨fun _ => .prim hy hq1 (fun _ => rfl) .noGap, nofun⟩

theorem nested_lang {r : Rule} {p e : Nat} {evs : List Ev} (hl : p ≤ E.inp.length) (h : nested (exec E n) r p = some (true, e, evs))
    (hq : Quiet evs) : Lang E none (.rule r false) p e := by
  obtain ⟨z, h1, h2, h3, h4⟩ := nested_some h
  have := (H ⟨none, 0⟩ (.run r) { pos := p } z hl h1 (h3 ▸ hq) (by rw [h4]; simp)).1 (by rw [h4]; rfl)
  rw [h2] at this
  exact this


end

/-! ### Small steps -/

theorem andThen_q {x : Option Res} {f : Out → St → Option Res} {r : Res} (h : andThen x f = some r) (hq : Quiet r.evs) :
    ∃ r1 r2, x = some r1 ∧ f r1.out r1.st = some r2 ∧ Quiet r1.evs ∧ Quiet r2.evs ∧ r.out = r2.out ∧ r.st = r2.st := by
  obtain ⟨r1, r2, h1, h2, rfl⟩ := andThen_some.1 h
  exact ⟨r1, r2, h1, h2, hq.left, hq.right, rfl, rfl⟩

theorem LOut.map {E : Env} {w : Option Rule} {a b : Rule} {p p' : Nat} {x y : Res} (h : LOut E w a p x) (ho : y.out = x.out) (hs : y.st = x.st)
    (hf : ∀ k q, Lang E w (.rule a k) p q → Lang E w (.rule b k) p' q) : LOut E w b p' y := by
  rw [LOut, ho, hs]
  exact ⟨fun o => hf _ _ (h.1 o), fun o => hf _ _ (h.2 o)⟩

theorem LOk.out {E : Env} {w : Option Rule} {g : Goal} {b : Rule} {p p' : Nat} {x y : Res} (h : LOk E w g p x) (ho : y.out = x.out)
    (hs : y.st = x.st) (hf : ∀ q, Lang E w g p q → Lang E w (.rule b false) p' q) : LOut E w b p' y := by
  rw [LOut, ho, hs]
  exact ⟨fun o => hf _ (h.2 o), fun o => absurd o h.1⟩

theorem LOk.map {E : Env} {w w' : Option Rule} {g g' : Goal} {p p' : Nat} {x y : Res} (h : LOk E w g p x) (ho : y.out = x.out)
    (hs : y.st = x.st) (hf : ∀ q, Lang E w g p q → Lang E w' g' p' q) : LOk E w' g' p' y := by
  rw [LOk, ho, hs]
  exact ⟨h.1, fun o => hf _ (h.2 o)⟩

theorem LOut.here {E : Env} {w : Option Rule} {b : Rule} {p : Nat} {y : Res} (ho : y.out = .ok) {q : Nat} (hs : y.st.pos = q)
    (h : Lang E w (.rule b false) p q) : LOut E w b p y := by
  rw [LOut, ho, hs]
  exact ⟨fun _ => h, nofun⟩

theorem cancel_ok {E : Env} {n : Nat} {cx : Cx} {b : Rule} {st st1 : St} {e : List Ev} (hl : st.pos ≤ E.inp.length)
    (h : exec E n cx (.bcancel b) st = some ⟨.ok, st1, e⟩) : st1 = st := by
  have := (cancel_out hl h).1
  simp only [Res.mk.injEq, true_and, and_true] at this
  exact this

theorem tokTry_le {E : Env} {n : Nat} {cx : Cx} {r : Rule} {st : St} {x : Res} (hl : st.pos ≤ E.inp.length)
    (h : exec E n cx (.tokTry r) st = some x) : x.evs = [] ∧ x.out ≠ .brk ∧ x.st.pos ≤ E.inp.length := by
  obtain ⟨h1, h2, _, h3⟩ := exec_good E n cx (.tokTry r) st hl x h
  exact ⟨h1, h2, h3⟩

theorem tokTry_lang {E : Env} {n : Nat} (H : LHyp E n) {cx : Cx} {r : Rule} {st : St} {x : Res} (hl : st.pos ≤ E.inp.length)
    (h : exec E n cx (.tokTry r) st = some x) (ho : x.out = .ok) (w : Option Rule) : Lang E w (.tok r) st.pos x.st.pos :=
  (H cx (.tokTry r) st x hl h (by rw [(tokTry_le hl h).1]; exact fun _ h => by cases h) (by rw [ho]; nofun) w).2 ho

theorem quiet_nil : Quiet [] := fun _ h => by cases h

theorem not_quiet_error {tag b e : Nat} {l m : List Ev} : ¬ Quiet (l ++ .error tag b e :: m) := fun h => by
  have := h (.error tag b e) (by simp)
  cases this

/-- The literals of one operator. -/
theorem ExprLits.one {E : Env} (hx : ExprLits E) {i : Nat} {o : OpDef} (ho : o ∈ (E.exprs i).ops.all) :
    LitsOk E.eof (E.exprs i).fold [o] :=
  (hx i).sub fun o' h => by rw [List.mem_singleton] at h; subst h; exact ho

theorem hit_of_parse {E : Env} (hx : ExprLits E) {i : Nat} {ops : List OpDef} (hs : ∀ o ∈ ops, o ∈ (E.exprs i).ops.all) {o : OpDef} {k : Kind}
    {r : Rule} {p m : Nat} (h : parseOperator E.eof (E.exprs i).fold ops (E.inp.drop p) = some (some ((o, k, r), m))) :
    o ∈ ops ∧ OpHit E i o k r p (p + m) := by
  obtain ⟨h1, l, h2, h3, h4⟩ := parseOperator_some ((hx i).sub hs) h
  exact ⟨h1, hs o h1, l, h2, h3, by rw [h4]⟩

theorem parseOperator_pos {E : Env} {i : Nat} {ops : List OpDef} {x} {p m : Nat} (hl : p ≤ E.inp.length)
    (h : parseOperator E.eof (E.exprs i).fold ops (E.inp.drop p) = some (some (x, m))) : p + m ≤ E.inp.length := by
  have := parseOperator_le h
  rw [List.length_drop] at this
  omega

section

variable {E : Env} {n : Nat} (H : LHyp E n)
include H

theorem opFinish_lang {cx : Cx} {i : Nat} {o : OpDef} {k : Kind} {r : Rule} {b : Nat} {st st1 : St} {e : List Ev}
    (h : opFinish (exec E n) cx k r b st = some ⟨.ok, st1, e⟩) (hq : Quiet e) (hl : st.pos ≤ E.inp.length) (hh : OpHit E i o k r b st.pos) :
    Lang E cx.ws (.op i o) b st1.pos ∧ st1.pos ≤ E.inp.length := by
  obtain ⟨r1, h1, _, h2, h3, h4, h5⟩ := emit_q h hq nofun
  obtain ⟨st2, e2, r2, h6, h7, h8, h9, h10, h11, h12⟩ := onOk'_q h1 h2 h3
  obtain ⟨h13, h14⟩ := ws_ok H hl h6 h7
  obtain ⟨h15, l, h16, h17, h18⟩ := hh
  rw [h18] at h13
  simp only at h4 h5
  obtain ⟨o2, s2, e2'⟩ := r2
  obtain rfl : o2 = .ok := by rw [h11] at h4; exact h4.symm
  obtain ⟨h19, h20⟩ := run_ok H h14 h8 h9
  rw [h5, h12]
  exact ⟨.op h15 h16 h17 h13 h19, h20⟩

theorem exParse_ok {cx : Cx} {i m : Nat} {st st1 : St} {e : List Ev} (hl : st.pos ≤ E.inp.length)
    (h : exec E n cx (.exParse i m) st = some ⟨.ok, st1, e⟩) (hq : Quiet e) :
    Lang E cx.ws (.operand i) st.pos st1.pos ∧ st1.pos ≤ E.inp.length :=
  ⟨(H cx (.exParse i m) st _ hl h hq nofun).2 rfl, ((exec_good E n cx (.exParse i m) st hl).1 _ h |>.bounds hl).2⟩

theorem opInfix_lang {cx : Cx} {i : Nat} {o : OpDef} {b : Bool} {st : St} {x : Res} (hl : st.pos ≤ E.inp.length)
    (h : opInfix E (exec E n) cx i o b st = some x) (hq : Quiet x.evs) (ho : x.out = .ok) :
    Lang E cx.ws (.operand i) st.pos x.st.pos := by
  unfold opInfix at h
  obtain ⟨r1, r2, h1, h2, h3, h4, h5, h6⟩ := andThen_q h hq
  obtain ⟨o1, s1, e1⟩ := r1
  cases o1 with
  | brk => cases h2
  | fail => cases h2; rw [h5] at ho; cases ho
  | ok =>
    have := (exParse_ok H (st := { st with ex := { st.ex with val := none } }) hl h1 h3).1
    rw [h6]
    obtain ⟨lhs, _, h2⟩ := Option.bind_eq_some_iff.1 h2
    obtain ⟨rhs, _, h2⟩ := Option.bind_eq_some_iff.1 h2
    simp only at h2
    split at h2
    · split at h2 <;> cases h2 <;> exact this
    · cases h2; exact this


theorem production_lang {cx : Cx} {k : Nat} {body : Cx → St → Option Res} {st : St} {x : Res}
    (hb : ∀ y, body (cx.sub (E.prods k)) { st with ex := {} } = some y → Quiet y.evs → y.out = .ok →
      y.st.pos ≤ E.inp.length ∧ ∃ m, Lang E (innerWs (E.prods k) cx.ws) .gap st.pos m ∧ ((E.prods k).ws = none → m = st.pos) ∧
        Lang E (innerWs (E.prods k) cx.ws) (.rule (E.prods k).rule false) m y.st.pos)
    (h : production E (exec E n) cx k body st = some x) (hq : Quiet x.evs) (hf : x.out ≠ .fail) : LOut E cx.ws (.prod k) st.pos x := by
  unfold production at h
  obtain ⟨r1, h1, _, h2, h3, h4, h5⟩ := emit_q h hq hf
  obtain ⟨r2, r3, h6, h7, h8, h9, h10, h11⟩ := andThen_q h1 h2
  obtain ⟨r4, h12, h13, h14, h15, h16⟩ := framed_q h6
  cases ho : r2.out with
  | fail => rw [ho] at h7; cases h7; rw [h10] at h3; exact absurd rfl h3
  | brk => rw [ho] at h7; cases h7
  | ok =>
    rw [ho] at h7
    obtain ⟨h17, m, h18, h19, h20⟩ := hb r4 h12 (h13 ▸ h8) (by rw [← h14, ho])
    rw [← h16] at h17 h20
    obtain ⟨r5, h21, _, h22, h23, h24, h25⟩ := emit_q h7 h9 (by rw [← h10]; exact h3)
    by_cases ht : (E.prods k).isTok = true
    · rw [if_pos ht] at h21
      obtain ⟨h26, h27⟩ := H cx .ws { r2.st with ex := st.ex } r5 h17 h21 h22 h23
      rw [LOut, h4, h5, h10, h11, h24, h25]
      exact ⟨fun o => .prod h18 h19 h20 (fun h => by rw [ht] at h; cases h) (h27 o), fun o => absurd o h26⟩
    · rw [if_neg ht] at h21
      cases h21
      rw [LOut, h4, h5, h10, h11, h24, h25]
      exact ⟨fun o => .prod h18 h19 h20 (fun _ => rfl) .noGap, nofun⟩

omit H in
theorem deeper_lang {cx : Cx} {tag k : Nat} {b : Bool} {st : St} {body : St → Option Res} {x : Res}
    (hb : ∀ y, body { st with depth := st.depth + 1 } = some y → Quiet y.evs → y.out = .ok → Lang E cx.ws (.rule (.prod k) false) st.pos y.st.pos)
    (h : deeper cx tag st body = some x) (hq : Quiet x.evs) (hf : x.out ≠ .fail) : LOut E cx.ws (.recu k tag b) st.pos x := by
  unfold deeper at h
  split at h
  · cases h
  · split at h
    · cases h; exact absurd rfl hf
    · obtain ⟨st1, e1, r2, h1, h2, h3, _, _, h4, h5⟩ := onOk'_q h hq hf
      cases h3
      exact .here h4 (by rw [h5]) (.recurse (hb _ h1 h2 rfl))

theorem rep_lang {cx : Cx} {c : Rule} {f : List Nat → Nat} {item : Rule} {sep : Option Sep} {st st1 : St} {x : Res}
    (hc : Lang E cx.ws (.rule c false) st.pos st1.pos) (hl : st1.pos ≤ E.inp.length)
    (h : (match f ((E.inp.take st1.pos).drop st.pos) with
      | 0 => ret .ok st1
      | n' + 1 => onOk' (framed st1.vars.length (exec E n cx (.run item) st1)) fun st'' => exec E n cx (.repTail n' item sep) st'') = some x)
    (hq : Quiet x.evs) (hf : x.out ≠ .fail) : LOut E cx.ws (.rep c f item sep) st.pos x := by
  split at h
  · rename_i hn
    cases h
    exact .here rfl rfl (.repeatNone hc hn)
  · rename_i m hn
    obtain ⟨st2, e2, r2, h1, h2, h3, h4, h5, h6, h7⟩ := onOk'_q h hq hf
    obtain ⟨h8, h9⟩ := framed_run H hl h1 h2
    obtain ⟨h10, h11⟩ := H cx (.repTail m item sep) st2 r2 h9 h3 h4 h5
    rw [LOut, h6, h7]
    exact ⟨fun o => .repeat_ hc hn h8 (h10 o), fun o => .repeat_ hc hn h8 (h11 o)⟩

theorem tokenParse_lang {cx : Cx} {k : Kind} {tag e : Nat} {b : Bool} {st : St} {r : Rule} {x : Res} (hr : r.isToken = true)
    (hm : b = true → Lang E cx.ws (.tok r) st.pos e) (he : e ≤ E.inp.length) (h : tokenParse (exec E n) cx k tag b e st = some x)
    (hq : Quiet x.evs) (hf : x.out ≠ .fail) : LOut E cx.ws r st.pos x := by
  unfold tokenParse at h
  split at h
  · rename_i hb
    exact tokenDone_lang H hr (hm hb) he h hq hf
  · cases h; exact absurd rfl hf

omit H in
theorem tok_le {t : PTok} {p : Nat} (hl : p ≤ E.inp.length) : p + (t.run (E.inp.drop p)).2 ≤ E.inp.length := by
  have := t.le (E.inp.drop p)
  rw [List.length_drop] at this
  omega

theorem lang_run (cx : Cx) (st : St) (r : Rule) (x : Res) (hl : st.pos ≤ E.inp.length) (h : stepRun E (exec E n) cx st r = some x)
    (hq : Quiet x.evs) (hf : x.out ≠ .fail) : LOut E cx.ws r st.pos x := by
  have hfin : ∀ {b : Rule} {r : Rule}, Takes E b st → exec E n cx (.bfinish b) st = some x →
      (∀ k q, Lang E cx.ws (.rule b k) st.pos q → Lang E cx.ws (.rule r k) st.pos q) → LOut E cx.ws r st.pos x :=
    fun ht h hm => (H cx (.bfinish _) st x hl h hq hf ht).map rfl rfl hm
  cases r with
  | tok t =>
    exact tokenParse_lang H rfl (fun hb => .match (Prod.ext hb rfl)) (tok_le hl) h hq hf
  | tokr k tag r =>
    simp only [stepRun] at h
    split at h
    · cases h
    · rename_i y hy
      exact tokenParse_lang H rfl (fun hb => tokTry_lang H hl hy (by simpa using hb) _) (tokTry_le hl hy).2.2 h hq hf
  | prim p => exact primDone_lang H rfl ((p.parse_tr E.inp st.pos hl).bounds hl).2 h hq hf
  | els => cases h; exact .here rfl rfl .els
  | seq a b =>
    rcases onOk_q h hq hf with ⟨st1, e1, r2, h1, h2, h3, h4, h5, h6, h7⟩ | ⟨h1, h2⟩
    · obtain ⟨h8, h9⟩ := run_ok H hl h1 h2
      exact (H cx (.run b) st1 r2 h9 h3 h4 h5).map h6 h7 fun k q hh => .seq h8 hh
    · exact ⟨fun o => (by rw [h2] at o; cases o), fun o => .seqBreak ((H cx (.run a) st x hl h1 hq hf).2 o)⟩
  | br a b =>
    rcases onOk_q h hq hf with ⟨st1, e1, r2, h1, h2, h3, h4, h5, h6, h7⟩ | ⟨h1, h2⟩
    · obtain ⟨h8, h9⟩ := run_ok H hl h1 h2
      exact (H cx (.run b) st1 r2 h9 h3 h4 h5).map h6 h7 fun k q hh => .branch h8 hh
    · exact ⟨fun o => (by rw [h2] at o; cases o), fun o => .branchBreak ((H cx (.run a) st x hl h1 hq hf).2 o)⟩
  | chc rs => exact H cx (.chcRun rs) st x hl h hq hf
  | ifR b =>
    rcases ifTry_some hl h with ⟨h1, h2⟩ | ⟨h1, h2⟩
    · exact hfin h1 h2 fun k q => .ifYes
    · obtain ⟨st1, e1, r2, h3, h4, h5, _, _, h6, h7⟩ := onOk'_q h2 hq hf
      cases h5
      rw [cancel_ok hl h3] at h7
      exact .here h6 (by rw [h7]) .ifNo
  | opt b =>
    rcases ifTry_some hl h with ⟨h1, h2⟩ | ⟨h1, h2⟩
    · exact hfin h1 h2 fun k q => .optYes
    · obtain ⟨st1, e1, r2, h3, h4, h5, _, _, h6, h7⟩ := onOk'_q h2 hq hf
      cases h5
      rw [cancel_ok hl h3] at h7
      exact .here h6 (by rw [h7]) .optNo
  | loop r => exact (H cx (.loopR r) st x hl h hq hf).out rfl rfl fun _ h => h
  | brk => cases h; exact ⟨nofun, fun _ => .break_⟩
  | whl b => exact (H cx (.whlR b) st x hl h hq hf).out rfl rfl fun _ h => h
  | err tag r =>
    cases r with
    | none => cases h; exact absurd rfl hf
    | some r =>
      simp only [stepRun] at h
      split at h
      · cases h
      · cases h; exact absurd rfl hf
  | must b e =>
    rcases ifTry_some hl h with ⟨h1, h2⟩ | ⟨h1, h2⟩
    · exact hfin h1 h2 fun k q => .must
    · obtain ⟨st1, e1, r2, h3, h4, h5, h6, h7, h8, h9⟩ := onOk'_q h2 hq hf
      obtain ⟨r3, r4, h10, h11, _, _, h12, _⟩ := andThen_q h5 h6
      split at h11
      · cases h11; rw [h12] at h7; exact absurd rfl h7
      · cases h11
  | lst item sep =>
    obtain ⟨st1, e1, r2, h1, h2, h3, h4, h5, h6, h7⟩ := onOk'_q h hq hf
    obtain ⟨h8, h9⟩ := framed_run H hl h1 h2
    exact (H cx (.lstLoop item sep) st1 r2 h9 h3 h4 h5).out h6 h7 fun _ => .list h8
  | lstt term item sep limit =>
    obtain ⟨st1, e1, r2, h1, h2, h3, h4, h5, h6, h7⟩ := onOk'_q h hq hf
    obtain ⟨r3, r4, h8, h9, h10, h11, h12, h13⟩ := andThen_q h1 h2
    obtain ⟨r5, h14, h15, h16, h17, h18⟩ := framed_q h8
    simp only at h12 h13
    have hnf := run_fail hl h14 (h15 ▸ h10)
    split at h9
    · rename_i ho
      have h19 := (H cx (.run item) st r5 hl h14 (h15 ▸ h10) hnf).1 (by rw [← h16]; exact ho)
      rw [← h18] at h19
      have hl3 : r3.st.pos ≤ E.inp.length := by rw [h18]; exact run_le hl h14
      obtain ⟨h20, h21⟩ := H cx (.ltTerm term item sep limit) r3.st r4 hl3 h9 h11 (by rw [← h12]; nofun)
      have h22 := h20.2 h12.symm
      have h23 := h21 h12.symm
      rw [← h13] at h22 h23
      have hl4 : st1.pos ≤ E.inp.length := by
        rw [h13]; exact ((exec_good E n cx (.ltTerm term item sep limit) r3.st hl3 r4 h9).bounds hl3).2
      exact (H cx (.bfinish term) st1 r2 hl4 h3 h4 h5 h23).map h6 h7 fun _ _ => .terminated h19 h22
    · rename_i ho; rw [← h16] at hnf; exact absurd ho hnf
    · cases h9
  | optt term r =>
    rcases ifTry_some hl h with ⟨h1, h2⟩ | ⟨h1, h2⟩
    · exact hfin h1 h2 fun k q => .terminatedNo
    · obtain ⟨st1, e1, r2, h3, h4, h5, h6, h7, h8, h9⟩ := onOk'_q h2 hq hf
      rw [cancel_ok hl h3] at h5
      exact (H cx (.run r) st r2 hl h5 h6 h7).map h8 h9 fun _ _ => .terminatedYes
  | tryt term r rc =>
    simp only [stepRun] at h
    obtain ⟨r1, r2, h1, h2, h3, h4, h5, h6⟩ := andThen_q h hq
    have hnf := run_fail hl h1 h3
    have hL := (H cx (.run r) st r1 hl h1 h3 hnf).1
    have hl1 := run_le hl h1
    split at h2
    · rename_i ho
      cases term with
      | none => cases h2; exact .here h5 (by rw [h6]) (.tryNone (hL ho))
      | some t => exact (H cx (.run t) r1.st r2 hl1 h2 h4 (by rw [← h5]; exact hf)).map h5 h6 fun _ _ => .tryT (hL ho)
    · rename_i ho; exact absurd ho hnf
    · cases h2
  | tryr r rc =>
    simp only [stepRun] at h
    obtain ⟨r1, r2, h1, h2, h3, h4, h5, h6⟩ := andThen_q h hq
    have hnf := run_fail hl h1 h3
    have hL := (H cx (.run r) st r1 hl h1 h3 hnf).1
    split at h2
    · rename_i ho; cases h2; exact .here h5 (by rw [h6]) (.try_ (hL ho))
    · rename_i ho; exact absurd ho hnf
    · cases h2
  | prod k =>
    simp only [stepRun] at h
    refine production_lang H (fun y hy hqy hoy => ?_) h hq hf
    split at hy
    · rename_i hw
      obtain ⟨st1, e1, r2, h1, h2, h3, h4, h5, h6, h7⟩ := onOk'_q hy hqy (by rw [hoy]; nofun)
      obtain ⟨h8, h9⟩ := ws_ok H (st := { st with ex := {} }) hl h1 h2
      have h10 := (H _ (.run (E.prods k).rule) st1 r2 h9 h3 h4 h5).1 (by rw [← h6, hoy])
      rw [h7]
      exact ⟨run_le h9 h3, st1.pos, h8, fun hn => (by rw [hn] at hw; cases hw), h10⟩
    · have h10 := (H _ (.run (E.prods k).rule) { st with ex := {} } y hl hy hqy (by rw [hoy]; nofun)).1 hoy
      exact ⟨run_le (st := { st with ex := {} }) hl hy, st.pos, .noGap, fun _ => rfl, h10⟩
  | recu k tag b =>
    exact deeper_lang (fun y hy hqy hoy => (H cx (.run (.prod k)) { st with depth := st.depth + 1 } y hl hy hqy (by rw [hoy]; nofun)).1 hoy) h hq hf
  | peek tag r =>
    simp only [stepRun] at h
    split at h
    · cases h
    · rename_i y hy
      cases h
      refine .here rfl rfl (.peek (tokTry_lang H hl hy ?_ _))
      by_cases ho : y.out = .ok
      · exact ho
      · rw [if_neg (by simpa using ho)] at hq
        exact (not_quiet_error (l := []) hq).elim
  | peekn tag r =>
    simp only [stepRun] at h
    split at h
    · cases h
    · rename_i y hy
      split at h
      · cases h
        exact (not_quiet_error (l := []) hq).elim
      · rename_i ho
        cases h
        exact .here rfl rfl (.peekNot fun hm => ho (by rw [(tokTry_spec hy).2 hm]; rfl))
  | look tag l =>
    cases h
    refine .here rfl rfl (.look ?_)
    by_cases ho : (lookScan l E.eof (E.inp.drop st.pos)).1 = true
    · exact ho
    · rw [if_neg ho] at hq
      exact (not_quiet_error (l := []) hq).elim
  | wsn r =>
    simp only [stepRun] at h
    split at h
    · have := H cx (.run r) st x hl h hq hf
      exact ⟨fun o => .noWs (this.1 o) .noGap, fun o => .noWsBreak (this.2 o)⟩
    · rcases onOk_q h hq hf with ⟨st1, e1, r2, h1, h2, h3, h4, h5, h6, h7⟩ | ⟨h1, h2⟩
      · obtain ⟨h8, h9⟩ := run_ok H (st := { st with wsOn := false }) hl h1 h2
        exact (H cx .ws { st1 with wsOn := true } r2 h9 h3 h4 h5).out h6 h7 fun _ => .noWs h8
      · exact ⟨fun o => (by rw [h2] at o; cases o), fun o => .noWsBreak ((H cx (.run r) { st with wsOn := false } x hl h1 hq hf).2 o)⟩
  | wsr r =>
    have := H cx (.skip r) st x hl h hq hf
    exact ⟨fun o => .whitespace (this.2 o), fun o => absurd o this.1⟩
  | posr r =>
    obtain ⟨r1, h1, _, h2, h3, h4, h5⟩ := emit_q h hq hf
    exact (H cx (.run r) st r1 hl h1 h2 h3).map h4 h5 fun _ _ => .position
  | rep c f item sep =>
    obtain ⟨st1, e1, r2, h1, h2, h3, h4, h5, h6, h7⟩ := onOk'_q h hq hf
    obtain ⟨h8, h9⟩ := run_ok H hl h1 h2
    exact (rep_lang H h8 h9 h3 h4 h5).map h6 h7 fun _ _ h => h
  | nsep tag b =>
    rcases ifTry_some hl h with ⟨h1, h2⟩ | ⟨h1, h2⟩
    · obtain ⟨st1, e1, r2, h3, h4, h5, h6, h7, h8, h9⟩ := onOk'_q h2 hq hf
      obtain ⟨r3, _, h10, _⟩ := emit_q h5 h6 h7
      exact (not_quiet_error (l := []) h10).elim
    · obtain ⟨st1, e1, r2, h3, h4, h5, _, _, h6, h7⟩ := onOk'_q h2 hq hf
      cases h5
      rw [cancel_ok hl h3] at h7
      exact .here h6 (by rw [h7]) .separator
  | comb tag rs els =>
    obtain ⟨st1, e1, r2, h1, h2, h3, h4, h5, h6, h7⟩ := onOk'_q h hq hf
    cases h3
    have := (H cx (.combLoop tag (combRules rs els) rs.length [] 0) { st with idx := 0 } _ hl h1 h2 nofun rs els rfl rfl
      List.nodup_nil (fun _ h => by cases h) rfl).2 rfl
    exact .here h6 (by rw [h7]) (.combination this)
  | combIt i => cases h; exact .here rfl rfl .combIt
  | varCreate id v => cases h; exact .here rfl rfl (.context trivial)
  | flagSet id b =>
    obtain ⟨_, _, h⟩ := Option.bind_eq_some_iff.1 h
    cases h; exact .here rfl rfl (.context trivial)
  | flagToggle id =>
    obtain ⟨_, _, h⟩ := Option.bind_eq_some_iff.1 h
    cases h; exact .here rfl rfl (.context trivial)
  | flagIs id b => cases h; exact .here rfl rfl (.context trivial)
  | cntAdd id d =>
    obtain ⟨_, _, h⟩ := Option.bind_eq_some_iff.1 h
    cases h; exact .here rfl rfl (.context trivial)
  | cntPush id r sign =>
    obtain ⟨st1, e1, r2, h1, h2, h3, h4, h5, h6, h7⟩ := onOk'_q h hq hf
    obtain ⟨_, _, h3⟩ := Option.bind_eq_some_iff.1 h3
    cases h3
    exact .here h6 (by rw [h7]) (.count (run_ok H hl h1 h2).1)
  | cntIs id i => cases h; exact .here rfl rfl (.context trivial)
  | cntEq tag id ids =>
    obtain ⟨_, _, h⟩ := Option.bind_eq_some_iff.1 h
    split at h
    · cases h
    · cases h; exact .here rfl rfl (.context trivial)
  | idCap id p len =>
    obtain ⟨st1, e1, r2, h1, h2, h3, h4, h5, h6, h7⟩ := onOk'_q h hq hf
    obtain ⟨_, _, h3⟩ := Option.bind_eq_some_iff.1 h3
    cases h3
    exact .here h6 (by rw [h7]) (.capture ((primDone_lang H rfl ((p.parse_tr E.inp st.pos hl).bounds hl).2 h1 h2 nofun).1 rfl))
  | idRem id tag t =>
    obtain ⟨st1, e1, r2, h1, h2, h3, h4, h5, h6, h7⟩ := onOk'_q h hq hf
    obtain ⟨_, _, h3⟩ := Option.bind_eq_some_iff.1 h3
    cases h3
    exact .here h6 (by rw [h7]) (.rematch ((tokenParse_lang H (r := .tok t) rfl (fun hb => .match (Prod.ext hb rfl)) (tok_le hl) h1 h2 nofun).1 rfl))
  | expr i =>
    simp only [stepRun] at h
    obtain ⟨r1, r2, h1, h2, h3, h4, h5, h6⟩ := andThen_q h hq
    have hg := exec_good E n cx (.exParse i (E.exprs i).minBP) { st with ex := {} } hl
    have hnf : r1.out ≠ .fail := fun ho => h3.not_error ((hg.1 r1 h1).fail_error ho)
    have hL := (H cx (.exParse i (E.exprs i).minBP) { st with ex := {} } r1 hl h1 h3 hnf)
    have ho : r1.out = .ok := by
      have := hL.1
      cases hh : r1.out <;> simp_all
    rw [ho] at h2
    cases h2
    rw [(hg.2 r1 h1).2 ho, if_pos rfl] at h5
    exact .here h5 (by rw [h6]) (.expr (hL.2 ho))


omit H in
theorem tok_true {w : Option Rule} {t : PTok} {p q : Nat} (h : Lang E w (.rule (.tok t) true) p q) : False := by cases h

theorem lang_fin (cx : Cx) (st : St) (r : Rule) (x : Res) (hl : st.pos ≤ E.inp.length) (ht0 : Takes E r st)
    (h : stepFinish E (exec E n) cx st r = some x) (hq : Quiet x.evs) (hf : x.out ≠ .fail) : LOut E cx.ws r st.pos x := by
  obtain ⟨cx0, m, ht⟩ := ht0.unfold
  clear ht0
  cases r <;> try (simp only [stepFinish, reduceCtorEq] at h; done)
  case tok t =>
    have hb : (t.run (E.inp.drop st.pos)).1 = true := by
      simp only [stepTry, ret, Option.some.injEq, Res.mk.injEq, and_true] at ht
      cases hh : (t.run (E.inp.drop st.pos)).1 <;> simp_all
    exact tokenDone_lang H rfl (.match (Prod.ext hb rfl)) (tok_le hl) h hq hf
  case tokr k tag r =>
    simp only [stepFinish] at h
    split at h
    · cases h
    · rename_i y hy
      have ho : y.out = .ok := by
        rw [tokTry_spec hy]
        simp only [stepTry] at ht
        split at ht
        · cases ht
        · rename_i z hz
          have : z.out = .ok := by
            simp only [ret, Option.some.injEq, Res.mk.injEq, and_true] at ht
            cases hh : z.out <;> simp_all
          exact (tokTry_spec hz).1 this
      exact tokenDone_lang H rfl (tokTry_lang H hl hy ho _) (tokTry_le hl hy).2.2 h hq hf
  case prim p =>
    obtain ⟨f, hf1, hf2⟩ := Option.bind_eq_some_iff.1 ht
    have : f E.inp st.pos = true := by
      simp only [ret, Option.some.injEq, Res.mk.injEq, and_true] at hf2
      cases hh : f E.inp st.pos <;> simp_all
    exact primDone_lang H (p.coh f _ _ hf1 this).symm ((p.finish_tr E.inp st.pos hl).bounds hl).2 h hq hf
  case els => exact H cx (.run .els) st x hl h hq hf
  case brk => exact H cx (.run .brk) st x hl h hq hf
  case err tag r => exact H cx (.run (.err tag r)) st x hl h hq hf
  case br a b =>
    have ht : Takes E a st := ⟨cx0, m, ht⟩
    rcases onOk_q h hq hf with ⟨st1, e1, r2, h1, h2, h3, h4, h5, h6, h7⟩ | ⟨h1, h2⟩
    · obtain ⟨h8, h9⟩ := fin_ok H hl h1 h2 ht
      exact (H cx (.run b) st1 r2 h9 h3 h4 h5).map h6 h7 fun k q hh => .branch h8 hh
    · exact ⟨fun o => (by rw [h2] at o; cases o), fun o => .branchBreak ((H cx (.bfinish a) st x hl h1 hq hf ht).2 o)⟩
  case chc rs => exact H cx (.chcFinish rs) st x hl h hq hf
  case must b e => exact (H cx (.bfinish b) st x hl h hq hf ⟨cx0, m, ht⟩).map rfl rfl fun _ _ => .must
  case lst item sep =>
    obtain ⟨st1, e1, r2, h1, h2, h3, h4, h5, h6, h7⟩ := onOk'_q h hq hf
    obtain ⟨h8, h9⟩ := framed_fin H hl h1 h2 ⟨cx0, m, ht⟩
    exact (H cx (.lstLoop item sep) st1 r2 h9 h3 h4 h5).out h6 h7 fun _ => .list h8
  case tryr r rc =>
    simp only [stepFinish] at h
    obtain ⟨r1, r2, h1, h2, h3, h4, h5, h6⟩ := andThen_q h hq
    have hnf := fin_fail hl h1 h3
    have hL := (H cx (.bfinish r) st r1 hl h1 h3 hnf ⟨cx0, m, ht⟩).1
    split at h2
    · rename_i ho; cases h2; exact .here h5 (by rw [h6]) (.try_ (hL ho))
    · rename_i ho; exact absurd ho hnf
    · cases h2
  case prod k =>
    simp only [stepFinish] at h
    simp only [stepTry] at ht
    split at ht
    · refine production_lang H (fun y hy hqy hoy => ?_) h hq hf
      have ht' : Takes E (E.prods k).rule { st with ex := {} } := Takes.congr ⟨cx0, m, ht⟩ rfl rfl hl
      have h10 := (H _ (.bfinish (E.prods k).rule) { st with ex := {} } y hl hy hqy (by rw [hoy]; nofun) ht').1 hoy
      exact ⟨fin_le (st := { st with ex := {} }) hl hy, st.pos, .noGap, fun _ => rfl, h10⟩
    · cases ht
  case recu k tag b =>
    simp only [stepTry] at ht
    split at ht
    · have ht' : Takes E (.prod k) { st with depth := st.depth + 1 } := Takes.congr ⟨cx0, m, ht⟩ rfl rfl hl
      exact deeper_lang (fun y hy hqy hoy =>
        (H cx (.bfinish (.prod k)) { st with depth := st.depth + 1 } y hl hy hqy (by rw [hoy]; nofun) ht').1 hoy) h hq hf
    · cases ht
  case peek tag r =>
    simp only [stepFinish] at h
    split at h
    · cases h
    · rename_i y hy
      have ho : y.out = .ok := by
        rw [tokTry_spec hy]
        simp only [stepTry] at ht
        split at ht
        · cases ht
        · rename_i z hz
          have : z.out = .ok := by
            simp only [ret, Option.some.injEq, Res.mk.injEq, and_true] at ht
            cases hh : z.out <;> simp_all
          exact (tokTry_spec hz).1 this
      cases h
      exact .here rfl rfl (.peek (tokTry_lang H hl hy ho _))
  case peekn tag r =>
    simp only [stepFinish] at h
    split at h
    · cases h
    · rename_i y hy
      cases h
      refine .here rfl rfl (.peekNot fun hm => ?_)
      simp only [stepTry] at ht
      split at ht
      · cases ht
      · rename_i z hz
        rw [(tokTry_spec hz).2 hm] at ht
        cases ht
  case look tag l =>
    cases h
    refine .here rfl rfl (.look ?_)
    simp only [stepTry, ret, Option.some.injEq, Res.mk.injEq, and_true] at ht
    cases hh : (lookScan l E.eof (E.inp.drop st.pos)).1 <;> simp_all
  case wsn r =>
    have ht' : Takes E r { st with wsOn := false } := Takes.congr ⟨cx0, m, ht⟩ rfl rfl hl
    rcases onOk_q h hq hf with ⟨st1, e1, r2, h1, h2, h3, h4, h5, h6, h7⟩ | ⟨h1, h2⟩
    · obtain ⟨h8, h9⟩ := fin_ok H (st := { st with wsOn := false }) hl h1 h2 ht'
      exact (H cx .ws { st1 with wsOn := true } r2 h9 h3 h4 h5).out h6 h7 fun _ => .noWs h8
    · exact ⟨fun o => (by rw [h2] at o; cases o), fun o => .noWsBreak ((H cx (.bfinish r) { st with wsOn := false } x hl h1 hq hf ht').2 o)⟩
  case posr r =>
    obtain ⟨r1, h1, _, h2, h3, h4, h5⟩ := emit_q h hq hf
    exact (H cx (.bfinish r) st r1 hl h1 h2 h3 ⟨cx0, m, ht⟩).map h4 h5 fun _ _ => .position
  case rep c f item sep =>
    obtain ⟨st1, e1, r2, h1, h2, h3, h4, h5, h6, h7⟩ := onOk'_q h hq hf
    obtain ⟨h8, h9⟩ := fin_ok H hl h1 h2 ⟨cx0, m, ht⟩
    exact (rep_lang H h8 h9 h3 h4 h5).map h6 h7 fun _ _ h => h
  case flagIs id b => cases h; exact .here rfl rfl (.context trivial)
  case cntIs id i => cases h; exact .here rfl rfl (.context trivial)
  case cntEq tag id ids => cases h; exact .here rfl rfl (.context trivial)
  case cntPush id r sign =>
    obtain ⟨st1, e1, r2, h1, h2, h3, h4, h5, h6, h7⟩ := onOk'_q h hq hf
    obtain ⟨_, _, h3⟩ := Option.bind_eq_some_iff.1 h3
    cases h3
    exact .here h6 (by rw [h7]) (.count (fin_ok H hl h1 h2 ⟨cx0, m, ht⟩).1)
  case idCap id p len =>
    obtain ⟨f, hf1, hf2⟩ := Option.bind_eq_some_iff.1 ht
    have : f E.inp st.pos = true := by
      simp only [ret, Option.some.injEq, Res.mk.injEq, and_true] at hf2
      cases hh : f E.inp st.pos <;> simp_all
    obtain ⟨st1, e1, r2, h1, h2, h3, h4, h5, h6, h7⟩ := onOk'_q h hq hf
    obtain ⟨_, _, h3⟩ := Option.bind_eq_some_iff.1 h3
    cases h3
    exact .here h6 (by rw [h7]) (.capture
      ((primDone_lang H (p.coh f _ _ hf1 this).symm ((p.finish_tr E.inp st.pos hl).bounds hl).2 h1 h2 nofun).1 rfl))
  case idRem id tag t =>
    have hb : (t.run (E.inp.drop st.pos)).1 = true := by
      simp only [stepTry] at ht
      split at ht
      · assumption
      · cases ht
    exact (tokenDone_lang H (r := .tok t) rfl (.match (Prod.ext hb rfl)) (tok_le hl) h hq hf).map rfl rfl fun k q hh => by
      cases k with
      | false => exact .rematch hh
      | true => exact (tok_true hh).elim

omit H in
/-- Whitespace that is parsed by the whitespace production. -/
theorem gap_of_loop {r r0 : Rule} (h1 : ∀ p q, Lang E none (.rule r0 false) p q → Lang E none (.rule r false) p q)
    (h2 : ∀ p q, Lang E none (.rule r0 true) p q → q = p ∨ Lang E none (.rule r true) p q) {p q : Nat}
    (h : Lang E none (.rule (.loop r0) false) p q) : Lang E (some r) .gap p q := by
  generalize hg : Goal.rule (.loop r0) false = g at h
  generalize hw : (none : Option Rule) = w at h
  induction h <;> try (first | (cases hg; done) | (cases hg; subst hw; contradiction))
  case loopEnd h _ =>
    cases hg; subst hw
    rcases h2 _ _ h with rfl | h
    · exact .noGap
    · exact .gapBreak h
  case loopNext ha hb _ ih =>
    cases hg; subst hw
    exact .gapRule (h1 _ _ ha) (ih rfl rfl)

omit H in
theorem brk_inv {w : Option Rule} {k : Bool} {p q : Nat} (h : Lang E w (.rule .brk k) p q) : k = true ∧ q = p := by
  cases h
  case token ht _ _ => cases ht
  case break_ => exact ⟨rfl, rfl⟩
  case context h => cases h

omit H in
theorem gap_of_wsRule : ∀ (r : Rule) {p q : Nat}, Lang E none (.rule (wsRule r) false) p q → Lang E (some r) .gap p q := by
  have key : ∀ {r : Rule} {rs : List Rule} {p q : Nat}, (∀ k p q, (∃ r' ∈ rs, Lang E none (.rule r' k) p q) → Lang E none (.rule r k) p q) →
      Lang E none (.rule (.loop (.chc (rs ++ [.brk]))) false) p q → Lang E (some r) .gap p q := by
    intro r rs p q hr h
    have inv : ∀ k p q, Lang E none (.rule (.chc (rs ++ [.brk])) k) p q → (k = true ∧ q = p) ∨ Lang E none (.rule r k) p q := by
      intro k p q h
      cases h
      case token ht _ _ => cases ht
      case choice r' hr' h' =>
        rcases List.mem_append.1 hr' with h1 | h1
        · exact .inr (hr k p q ⟨r', h1, h'⟩)
        · rw [List.mem_singleton] at h1; subst h1; exact .inl (brk_inv h')
      case context h => cases h
    refine gap_of_loop (fun p q h => ?_) (fun p q h => ?_) h
    · rcases inv _ p q h with ⟨h, _⟩ | h
      · cases h
      · exact h
    · rcases inv _ p q h with ⟨_, h⟩ | h
      · exact .inl h
      · exact .inr h
  intro r
  induction r using wsRule.induct with
  | case1 r ih => intro p q h; exact .gapWs (ih h)
  | case2 rs => intro p q h; exact key (fun k p q ⟨r', h1, h2⟩ => .choice h1 h2) h
  | case3 r h1 h2 =>
    intro p q h
    refine key (rs := [r]) (fun k p q ⟨r', h3, h4⟩ => by rw [List.mem_singleton] at h3; rw [← h3]; exact h4) ?_
    rw [wsRule] at h
    · exact h
    · exact h1
    · exact h2


omit H in
theorem nodup_full {l : List Nat} : ∀ {n : Nat}, l.Nodup → (∀ i ∈ l, i < n) → n ≤ l.length → ∀ i, i < n → i ∈ l
  | 0, _, _, _, i, h => by omega
  | n + 1, hd, hs, hn, i, hi => by
    have hlt : (l.filter (· != n)).length + 1 ≥ l.length := by
      clear hs hn
      induction l with
      | nil => simp
      | cons a l ih =>
        rw [List.nodup_cons] at hd
        by_cases ha : a = n
        · subst ha
          rw [List.filter_cons_of_neg (by simp), List.filter_eq_self.2]
          · simp
          · intro b hb; simp only [bne_iff_ne, ne_eq]; rintro rfl; exact hd.1 hb
        · rw [List.filter_cons_of_pos (by simp [ha])]
          have := ih hd.2
          simp only [List.length_cons]; omega
    have hall : ∀ j, j < n → j ∈ l.filter (· != n) := by
      refine nodup_full (hd.filter _) (fun j hj => ?_) (by omega)
      rw [List.mem_filter] at hj
      have := hs j hj.1
      have : j ≠ n := by simpa using hj.2
      omega
    by_cases hin : i = n
    · subst hin
      apply Classical.byContradiction
      intro hni
      have h1 : ∀ j ∈ l, j < i := fun j hj => by
        have := hs j hj
        have : j ≠ i := by rintro rfl; exact hni hj
        omega
      have h2 : l.length ≤ i := by
        clear hlt hall hs hn hi hni
        have : ∀ (m : Nat) (l : List Nat), l.Nodup → (∀ j ∈ l, j < m) → l.length ≤ m := by
          intro m
          induction m with
          | zero => intro l _ h; cases l with
            | nil => simp
            | cons a l => exact absurd (h a (by simp)) (by omega)
          | succ m ih =>
            intro l hd h
            have h1 := ih (l.filter (· != m)) (hd.filter _) (fun j hj => by
              rw [List.mem_filter] at hj
              have := h j hj.1
              have : j ≠ m := by simpa using hj.2
              omega)
            have h2 : (l.filter (· != m)).length + 1 ≥ l.length := by
              clear h1 h ih
              induction l with
              | nil => simp
              | cons a l ih =>
                rw [List.nodup_cons] at hd
                by_cases ha : a = m
                · subst ha
                  rw [List.filter_cons_of_neg (by simp), List.filter_eq_self.2]
                  · simp
                  · intro b hb; simp only [bne_iff_ne, ne_eq]; rintro rfl; exact hd.1 hb
                · rw [List.filter_cons_of_pos (by simp [ha])]
                  have := ih hd.2
                  simp only [List.length_cons]; omega
            omega
        exact this i l hd h1
      omega
    · exact (List.mem_filter.1 (hall i (by omega))).1

omit H in
theorem mem_combRules {rs : List Rule} {els : CombElse} {b : Rule} (h : b ∈ combRules rs els) :
    (∃ i r, rs[i]? = some r ∧ b = .br r (.combIt i)) ∨ (els = .brk ∧ b = .brk) ∨ ∃ tag, els = .err tag ∧ b = .err tag none := by
  unfold combRules at h
  rcases List.mem_append.1 h with h | h
  · obtain ⟨⟨r, i⟩, h1, rfl⟩ := List.mem_map.1 h
    rw [List.mem_zipIdx_iff_getElem?] at h1
    exact .inl ⟨i, r, h1, rfl⟩
  · cases els with
    | none => cases h
    | brk => rw [List.mem_singleton] at h; exact .inr (.inl ⟨rfl, h⟩)
    | err tag => rw [List.mem_singleton] at h; exact .inr (.inr ⟨tag, rfl, h⟩)

omit H in
theorem combIt_inv {w : Option Rule} {i p q : Nat} {k : Bool} (h : Lang E w (.rule (.combIt i) k) p q) : k = false ∧ q = p := by
  cases h
  case token ht _ _ => cases ht
  case combIt => exact ⟨rfl, rfl⟩
  case context h => cases h

omit H in
theorem br_inv {w : Option Rule} {a b : Rule} {p q : Nat} {k : Bool} (h : Lang E w (.rule (.br a b) k) p q) :
    (∃ m, Lang E w (.rule a false) p m ∧ Lang E w (.rule b k) m q) ∨ (k = true ∧ Lang E w (.rule a true) p q) := by
  cases h
  case token ht _ _ => cases ht
  case branch m h1 h2 => exact .inl ⟨m, h1, h2⟩
  case branchBreak h => exact .inr ⟨rfl, h⟩
  case context h => cases h

omit H in
/-- Which branch it was. -/
theorem fin_combIt {m : Nat} {cx : Cx} {r : Rule} {i : Nat} {st : St} {x : Res}
    (h : exec E m cx (.bfinish (.br r (.combIt i))) st = some x) (ho : x.out = .ok) : x.st.idx = i := by
  cases m with
  | zero => cases h
  | succ m =>
    rcases onOk_some h with ⟨st1, e1, r2, h1, h2, rfl⟩ | ⟨_, h2⟩
    · cases m with
      | zero => cases h2
      | succ m => cases h2; rfl
    · exact absurd ho h2

theorem chcRun_comb {cx : Cx} {rs : List Rule} {els : CombElse} {st : St} {x : Res} (hl : st.pos ≤ E.inp.length)
    (h : exec E n cx (.chcRun (combRules rs els)) st = some x) (hq : Quiet x.evs) :
    (x.out = .ok → ∃ r, rs[x.st.idx]? = some r ∧ Lang E cx.ws (.rule r false) st.pos x.st.pos) ∧
    (x.out = .brk → (∃ r ∈ rs, Lang E cx.ws (.rule r true) st.pos x.st.pos) ∨ (els = .brk ∧ x.st.pos = st.pos)) := by
  rcases chcRun_some hl h with ⟨pre, b, post, ce, r', he, _, ht, h1, _, rfl, _⟩ | ⟨_, ce, _, rfl⟩
  · have hb : b ∈ combRules rs els := by rw [he]; simp
    have hL := fun hf => H cx (.bfinish b) st r' hl h1 hq.right hf ht
    rcases mem_combRules hb with ⟨i, r, h2, rfl⟩ | ⟨rfl, rfl⟩ | ⟨tag, _, rfl⟩
    · refine ⟨fun ho => ?_, fun ho => .inl ?_⟩
      · simp only at ho ⊢
        have h3 := (hL (by rw [ho]; nofun)).1 ho
        rw [fin_combIt h1 ho]
        refine ⟨r, h2, ?_⟩
        rcases br_inv h3 with ⟨m, h4, h5⟩ | ⟨h, _⟩
        · rw [(combIt_inv h5).2]; exact h4
        · cases h
      · simp only at ho ⊢
        have h3 := (hL (by rw [ho]; nofun)).2 ho
        refine ⟨r, List.mem_of_getElem? h2, ?_⟩
        rcases br_inv h3 with ⟨m, h4, h5⟩ | ⟨_, h⟩
        · exact absurd (combIt_inv h5).1 nofun
        · exact h
    · refine ⟨fun ho => ?_, fun ho => .inr ⟨rfl, ?_⟩⟩
      · exact absurd (brk_inv ((hL (by simp only at ho; rw [ho]; nofun)).1 ho)).1 nofun
      · exact (brk_inv ((hL (by simp only at ho; rw [ho]; nofun)).2 ho)).2
    · have : r'.out = .fail := by
        cases n with
        | zero => cases h1
        | succ n =>
          cases n with
          | zero => cases h1
          | succ n => cases h1; rfl
      exact ⟨fun ho => absurd (this.symm.trans ho) nofun, fun ho => absurd (this.symm.trans ho) nofun⟩
  · exact ⟨nofun, nofun⟩

omit H in
theorem els_inv {w : Option Rule} {k : Bool} {p q : Nat} (h : Lang E w (.rule .els k) p q) : k = false ∧ q = p := by
  cases h
  case token ht _ _ => cases ht
  case els => exact ⟨rfl, rfl⟩
  case context h => cases h

omit H in
theorem nsep_inv {w : Option Rule} {k : Bool} {tag : Nat} {r : Rule} {p q : Nat} (h : Lang E w (.rule (.nsep tag r) k) p q) :
    k = false ∧ q = p := by
  cases h
  case token ht _ _ => cases ht
  case separator => exact ⟨rfl, rfl⟩
  case context h => cases h

omit H in
theorem ifR_inv {w : Option Rule} {k : Bool} {r : Rule} {p q : Nat} (h : Lang E w (.rule (.ifR r) k) p q) :
    Lang E w (.rule r k) p q ∨ (k = false ∧ q = p) := by
  cases h
  case token ht _ _ => cases ht
  case ifYes h => exact .inl h
  case ifNo => exact .inr ⟨rfl, rfl⟩
  case context h => cases h

omit H in
theorem chc_inv {w : Option Rule} {k : Bool} {rs : List Rule} {p q : Nat} (h : Lang E w (.rule (.chc rs) k) p q) :
    ∃ r ∈ rs, Lang E w (.rule r k) p q := by
  cases h
  case token ht _ _ => cases ht
  case choice r hr h => exact ⟨r, hr, h⟩
  case context h => cases h

omit H in
theorem trailing_inv {w : Option Rule} {item : Rule} {sep : Option Sep} {k : Bool} {p q : Nat}
    (h : Lang E w (.rule (trailingRule sep) k) p q) : Lang E w (.times 0 item sep k) p q := by
  match sep, h with
  | none, h => obtain ⟨rfl, rfl⟩ := els_inv h; exact .timesEnd
  | some (r, .sep tag), h => obtain ⟨rfl, rfl⟩ := nsep_inv h; exact .timesEnd
  | some (r, .trailing), h =>
    simp only [trailingRule] at h
    split at h
    · exact .timesTrailing trivial h
    · rcases ifR_inv h with h | ⟨rfl, rfl⟩
      · exact .timesTrailing trivial h
      · exact .timesEnd
  | some (r, .ignoreTrailing), h => obtain ⟨rfl, rfl⟩ := els_inv h; exact .timesEnd

omit H in
theorem trailing_quiet {k : SepKind} {b e : Nat} (h : Quiet (trailingError k b e)) : SepKind.Trails k := by
  cases k with
  | sep tag => exact (not_quiet_error (l := []) h).elim
  | trailing => trivial
  | ignoreTrailing => trivial

theorem lang_step (hx : ExprLits E) : LHyp E (n + 1) := by
  intro cx c st x hl h hq hf
  rw [exec_succ] at h
  cases c with
  | run r => exact lang_run H cx st r x hl h hq hf
  | bfinish r => exact fun ht => lang_fin H cx st r x hl ht h hq hf
  | btry r => trivial
  | bcancel r => trivial
  | chcTry rs => trivial
  | chcCancel rs => trivial
  | ltRec => trivial
  | recov => trivial
  | recoLoop => trivial
  | chcRun rs =>
    cases rs with
    | nil => cases h; exact absurd rfl hf
    | cons r rs =>
      rcases ifTry_some hl h with ⟨h1, h2⟩ | ⟨h1, h2⟩
      · exact (H cx (.bfinish r) st x hl h2 hq hf h1).map rfl rfl fun _ _ => .choice (List.mem_cons_self ..)
      · obtain ⟨st1, e1, r2, h3, h4, h5, h6, h7, h8, h9⟩ := onOk'_q h2 hq hf
        rw [cancel_ok hl h3] at h5
        refine LOut.map (H cx (.chcRun rs) st r2 hl h5 h6 h7) h8 h9 fun k q hh => ?_
        obtain ⟨r', hr', h'⟩ := chc_inv hh
        exact .choice (List.mem_cons_of_mem _ hr') h'
  | chcFinish rs =>
    cases rs with
    | nil => cases h
    | cons r rs =>
      rcases ifTry_some hl h with ⟨h1, h2⟩ | ⟨h1, h2⟩
      · exact (H cx (.bfinish r) st x hl h2 hq hf h1).map rfl rfl fun _ _ => .choice (List.mem_cons_self ..)
      · obtain ⟨st1, e1, r2, h3, h4, h5, h6, h7, h8, h9⟩ := onOk'_q h2 hq hf
        rw [cancel_ok hl h3] at h5
        refine LOut.map (H cx (.chcFinish rs) st r2 hl h5 h6 h7) h8 h9 fun k q hh => ?_
        obtain ⟨r', hr', h'⟩ := chc_inv hh
        exact .choice (List.mem_cons_of_mem _ hr') h'
  | tokTry r =>
    intro w
    have key : ∀ {r' : Rule}, (match nested (exec E n) r' st.pos with
        | none => none
        | some (b, e, evs) => ret (if b && !evs.any Ev.isError then .ok else .fail) { st with pos := e }) = some x →
        x.out ≠ .brk ∧ (x.out = .ok → Lang E none (.rule r' false) st.pos x.st.pos) := by
      intro r' h
      cases hn : nested (exec E n) r' st.pos with
      | none => rw [hn] at h; cases h
      | some y =>
        obtain ⟨b, e, evs⟩ := y
        rw [hn] at h
        cases h
        refine ⟨by simp only; split <;> nofun, fun ho => ?_⟩
        simp only at ho
        split at ho
        · rename_i hb
          simp only [Bool.and_eq_true, Bool.not_eq_true', List.any_eq_false] at hb
          obtain ⟨rfl, hb⟩ := hb
          exact nested_lang H hl hn fun ev he => by simpa using hb ev he
        · cases ho
    by_cases hr : r.isToken = true
    · cases r <;> try (exact Bool.noConfusion hr)
      case tok t =>
        cases h
        refine ⟨by simp only; split <;> nofun, fun ho => ?_⟩
        simp only at ho
        split at ho
        · rename_i hb; exact .match (Prod.ext hb rfl)
        · cases ho
      case tokr k tag r => exact ⟨(key h).1, fun ho => .matchRule ((key h).2 ho)⟩
    · have hr' : r.isToken = false := by simpa using hr
      have h' : (match nested (exec E n) r st.pos with
        | none => none
        | some (b, e, evs) => ret (if b && !evs.any Ev.isError then .ok else .fail) { st with pos := e }) = some x := by
        cases r <;> first | exact h | (exact absurd rfl hr)
      exact ⟨(key h').1, fun ho => .matchOther hr' ((key h').2 ho)⟩
  | ws =>
    simp only [step] at h
    split at h
    · cases h; exact ⟨nofun, fun _ => .noGap⟩
    · rename_i r hr
      split at h
      · have := H cx (.skip r) st x hl h hq hf
        rw [LSpec, hr]; exact this
      · cases h; exact ⟨nofun, fun _ => .noGap⟩
  | skip r =>
    simp only [step] at h
    split at h
    · rename_i hr
      obtain ⟨st1, e1, r2, h3, h4, h5, h6, h7, h8, h9⟩ := onOk'_q h hq hf
      cases h5
      refine ⟨by rw [h8]; nofun, fun _ => ?_⟩
      rw [h9]
      exact (H cx (.tokLoop r) st _ hl h3 h4 nofun hr).2 rfl
    · split at h
      · cases h
      · rename_i b e evs hn
        cases h
        cases b with
        | false => exact absurd rfl hf
        | true =>
          refine ⟨nofun, fun _ => gap_of_wsRule r (nested_lang H hl hn fun ev he => ?_)⟩
          cases hev : ev.isError with
          | false => rfl
          | true => rw [← hev]; exact hq.left ev (List.mem_filter.2 ⟨he, hev⟩)
  | tokLoop r =>
    intro hr
    simp only [step] at h
    split at h
    · cases h
    · rename_i y hy
      split at h
      · rename_i ho
        have ho : y.out = .ok := by simpa using ho
        have h1 := tokTry_lang H hl hy ho none
        exact (H cx (.tokLoop r) { st with pos := y.st.pos } x (tokTry_le hl hy).2.2 h hq hf hr).map rfl rfl fun _ => .gapTok hr h1
      · cases h; exact ⟨nofun, fun _ => .noGap⟩
  | loopR r =>
    simp only [step] at h
    obtain ⟨r1, r2, h1, h2, h3, h4, h5, h6⟩ := andThen_q h hq
    obtain ⟨r3, h7, h8, h9, h10, h11⟩ := framed_q h1
    split at h2
    · rename_i ho
      have h12 := (H cx (.run r) st r3 hl h7 (h8 ▸ h3) (by rw [← h9, ho]; nofun)).1 (by rw [← h9, ho])
      rw [← h11] at h12
      exact LOk.map (H cx (.loopR r) r1.st r2 (by rw [h11]; exact run_le hl h7) h2 h4 (by rw [← h5]; exact hf)) h5 h6
        fun _ => .loopNext h12
    · cases h2; exact absurd h5 hf
    · rename_i ho
      cases h2
      have h12 := (H cx (.run r) st r3 hl h7 (h8 ▸ h3) (by rw [← h9, ho]; nofun)).2 (by rw [← h9, ho])
      rw [← h11] at h12
      exact ⟨by rw [h5]; nofun, fun _ => by rw [h6]; exact .loopEnd h12⟩
  | whlR b =>
    simp only [step] at h
    rcases ifTry_some hl h with ⟨h1, h2⟩ | ⟨h1, h2⟩
    · obtain ⟨st1, e1, r2, h3, h4, h5, h6, h7, h8, h9⟩ := onOk'_q h2 hq hf
      obtain ⟨h10, h11⟩ := framed_fin H hl h3 h4 h1
      exact LOk.map (H cx (.whlR b) st1 r2 h11 h5 h6 h7) h8 h9 fun _ => .whileNext h10
    · obtain ⟨st1, e1, r2, h3, h4, h5, h6, h7, h8, h9⟩ := onOk'_q h2 hq hf
      rw [cancel_ok hl h3] at h5
      cases h5
      exact ⟨by rw [h8]; nofun, fun _ => by rw [h9]; exact .whileEnd⟩
  | lstLoop item sep =>
    have stop : ∀ (b : Rule), (onOk' (exec E n cx (.bcancel b) st) fun st' => ret .ok st') = some x → LOk E cx.ws (.tail item sep) st.pos x := by
      intro b h2
      obtain ⟨st1, e1, r2, h3, h4, h5, h6, h7, h8, h9⟩ := onOk'_q h2 hq hf
      rw [cancel_ok hl h3] at h5
      cases h5
      exact ⟨by rw [h8]; nofun, fun _ => by rw [h9]; exact .tailEnd⟩
    match sep, stop, h with
    | none, stop, h =>
      simp only [step] at h
      split at h
      · rcases ifTry_some hl h with ⟨h1, h2⟩ | ⟨h1, h2⟩
        · obtain ⟨st1, e1, r2, h3, h4, h5, h6, h7, h8, h9⟩ := onOk'_q h2 hq hf
          obtain ⟨h10, h11⟩ := framed_fin H hl h3 h4 h1
          exact LOk.map (H cx (.lstLoop item none) st1 r2 h11 h5 h6 h7) h8 h9 fun _ => .tailNext h10
        · exact stop _ h2
      · cases h
    | some (s, k), stop, h =>
      simp only [step] at h
      rcases ifTry_some hl h with ⟨h1, h2⟩ | ⟨h1, h2⟩
      · obtain ⟨st1, e1, r2, h3, h4, h5, h6, h7, h8, h9⟩ := onOk'_q h2 hq hf
        obtain ⟨h10, h11⟩ := framed_fin H hl h3 h4 h1
        split at h5
        · rcases ifTry_some h11 h5 with ⟨h12, h13⟩ | ⟨h12, h13⟩
          · obtain ⟨st2, e2, r3, h14, h15, h16, h17, h18, h19, h20⟩ := onOk'_q h13 h6 h7
            obtain ⟨h21, h22⟩ := framed_fin H h11 h14 h15 h12
            exact LOk.map (H cx (.lstLoop item (some (s, k))) st2 r3 h22 h16 h17 h18) (h8.trans h19) (h9.trans h20) fun _ => .tailSep h10 h21
          · obtain ⟨st2, e2, r3, h14, h15, h16, h17, h18, h19, h20⟩ := onOk'_q h13 h6 h7
            rw [cancel_ok h11 h14] at h16
            cases h16
            refine ⟨by rw [h8, h19]; nofun, fun _ => ?_⟩
            rw [h9, h20]
            exact .tailTrailing (trailing_quiet h17) h10
        · obtain ⟨st2, e2, r3, h14, h15, h16, h17, h18, h19, h20⟩ := onOk'_q h5 h6 h7
          obtain ⟨h21, h22⟩ := framed_run H h11 h14 h15
          exact LOk.map (H cx (.lstLoop item (some (s, k))) st2 r3 h22 h16 h17 h18) (h8.trans h19) (h9.trans h20) fun _ => .tailSep h10 h21
      · exact stop _ h2
  | ltTerm term item sep limit =>
    simp only [step] at h
    rcases ifTry_some hl h with ⟨h1, h2⟩ | ⟨h1, h2⟩
    · cases h2
      exact ⟨⟨nofun, fun _ => .tailEnd⟩, fun _ => h1⟩
    · obtain ⟨st1, e1, r2, h3, h4, h5, h6, h7, h8, h9⟩ := onOk'_q h2 hq hf
      rw [cancel_ok hl h3] at h5
      obtain ⟨h10, h11⟩ := H cx (.ltSep term item sep limit) st r2 hl h5 h6 h7
      exact ⟨h10.map h8 h9 fun _ h => h, fun ho => by rw [h9]; exact h11 (by rw [← h8]; exact ho)⟩
  | ltSep term item sep limit =>
    match sep, h with
    | none, h =>
      simp only [step] at h
      obtain ⟨h1, h2⟩ := H cx (.ltItem term item none limit) st x hl h hq hf
      refine ⟨⟨h1, fun ho => ?_⟩, fun ho => (h2 ho).1⟩
      obtain ⟨_, m, h3, h4⟩ := h2 ho
      exact .tailNext h3 h4
    | some (s, k), h =>
      simp only [step] at h
      obtain ⟨r1, r2, h1, h2, h3, h4, h5, h6⟩ := andThen_q h hq
      obtain ⟨r3, h7, h8, h9, h10, h11⟩ := framed_q h1
      have hnf := run_fail hl h7 (h8 ▸ h3)
      rw [← h9] at hnf
      split at h2
      · cases h2
      · rename_i ho
        have h12 := (H cx (.run s) st r3 hl h7 (h8 ▸ h3) (by rw [← h9, ho]; nofun)).1 (by rw [← h9, ho])
        rw [← h11] at h12
        obtain ⟨h13, h14⟩ := H cx (.ltTrail st.pos term item (some (s, k)) limit) r1.st r2 (by rw [h11]; exact run_le hl h7) h2 h4
          (by rw [← h5]; exact hf) rfl
        rw [← h5, ← h6] at h14
        refine ⟨⟨by rw [h5]; exact h13, fun ho' => ?_⟩, fun ho' => (h14 ho').1⟩
        rcases (h14 ho').2 with ⟨⟨s', k', he, hk⟩, h15⟩ | ⟨m, h15, h16⟩
        · cases he; rw [h15]; exact .tailTrailing hk h12
        · exact .tailSep h12 h15 h16
      · rename_i ho; exact absurd ho hnf
  | ltTrail b term item sep limit =>
    intro hs
    simp only [step] at h
    rcases ifTry_some hl h with ⟨h1, h2⟩ | ⟨h1, h2⟩
    · cases h2
      refine ⟨nofun, fun _ => ⟨h1, .inl ⟨?_, rfl⟩⟩⟩
      match sep, hs, hq with
      | some (s, k), _, hq => exact ⟨s, k, rfl, trailing_quiet hq⟩
    · obtain ⟨h3, h4⟩ := H cx (.ltItem term item sep limit) st x hl h2 hq hf
      exact ⟨h3, fun ho => ⟨(h4 ho).1, .inr (h4 ho).2⟩⟩
  | ltItem term item sep limit =>
    simp only [step] at h
    obtain ⟨r1, r2, h1, h2, h3, h4, h5, h6⟩ := andThen_q h hq
    obtain ⟨r3, h7, h8, h9, h10, h11⟩ := framed_q h1
    have hnf := run_fail hl h7 (h8 ▸ h3)
    rw [← h9] at hnf
    split at h2
    · cases h2
    · rename_i ho
      have h12 := (H cx (.run item) st r3 hl h7 (h8 ▸ h3) (by rw [← h9, ho]; nofun)).1 (by rw [← h9, ho])
      rw [← h11] at h12
      obtain ⟨h13, h14⟩ := H cx (.ltTerm term item sep limit) r1.st r2 (by rw [h11]; exact run_le hl h7) h2 h4
        (by rw [← h5]; exact hf)
      rw [LSpec, h5, h6]
      exact ⟨h13.1, fun ho' => ⟨h14 ho', r1.st.pos, h12, h13.2 ho'⟩⟩
    · rename_i ho; exact absurd ho hnf
  | repTail k item sep =>
    cases k with
    | zero =>
      simp only [step] at h
      obtain ⟨r3, h7, h8, h9, h10, h11⟩ := framed_q h
      have h12 := H cx (.run (trailingRule sep)) st r3 hl h7 (h8 ▸ hq) (by rw [← h9]; exact hf)
      rw [LSpec, h9, h11]
      exact ⟨fun ho => trailing_inv (h12.1 ho), fun ho => trailing_inv (h12.2 ho)⟩
    | succ k =>
      simp only [step] at h
      obtain ⟨st1, e1, r2, h3, h4, h5, h6, h7, h8, h9⟩ := onOk'_q h hq hf
      have hitem : ∀ (p : Nat), st1.pos ≤ E.inp.length → (∀ l q k', Lang E cx.ws (.rule item false) st1.pos l →
          Lang E cx.ws (.times k item sep k') l q → Lang E cx.ws (.times (k + 1) item sep k') p q) →
          (x.out = .ok → Lang E cx.ws (.times (k + 1) item sep false) p x.st.pos) ∧
          (x.out = .brk → Lang E cx.ws (.times (k + 1) item sep true) p x.st.pos) := by
        intro p hl1 hm
        obtain ⟨st2, e2, r3, h14, h15, h16, h17, h18, h19, h20⟩ := onOk'_q h5 h6 h7
        obtain ⟨h21, h22⟩ := framed_run H hl1 h14 h15
        obtain ⟨h23, h24⟩ := H cx (.repTail k item sep) st2 r3 h22 h16 h17 h18
        rw [h8, h9, h19, h20]
        exact ⟨fun o => hm _ _ _ h21 (h23 o), fun o => hm _ _ _ h21 (h24 o)⟩
      match sep, h3, hitem with
      | none, h3, hitem => cases h3; exact hitem _ hl fun _ _ _ => .timesNext
      | some (s, kd), h3, hitem =>
        obtain ⟨h10, h11⟩ := framed_run H hl h3 h4
        exact hitem _ h11 fun _ _ _ => .timesSep h10
  | combLoop tag rs m handled count =>
    rintro rs0 els rfl rfl hd hs rfl
    simp only [step] at h
    split at h
    · cases h
      exact ⟨nofun, fun _ => .combAll (nodup_full hd hs (by assumption))⟩
    · obtain ⟨r1, r2, h1, h2, h3, h4, h5, h6⟩ := andThen_q h hq
      obtain ⟨r3, h7, h8, h9, h10, h11⟩ := framed_q h1
      obtain ⟨h12, h13⟩ := chcRun_comb H hl h7 (h8 ▸ h3)
      have hidx : r1.st.idx = r3.st.idx := by rw [h10]; rfl
      have hl1 : r1.st.pos ≤ E.inp.length := by
        rw [h11]; exact ((exec_good E n cx (.chcRun _) st hl r3 h7).bounds hl).2
      split at h2
      · cases h2; exact absurd h5 hf
      · rename_i ho
        cases h2
        refine ⟨by rw [h5]; nofun, fun _ => ?_⟩
        rw [h6]
        rcases h13 (by rw [← h9]; exact ho) with ⟨r, hr, h14⟩ | ⟨rfl, h14⟩
        · rw [← h11] at h14; exact .combBreak hr h14
        · rw [h11, h14]; exact .combPartial
      · rename_i ho
        obtain ⟨r, hr, h14⟩ := h12 (by rw [← h9]; exact ho)
        rw [← hidx] at hr
        rw [← h11] at h14
        split at h2
        · obtain ⟨r4, _, h15, _⟩ := emit_q h2 h4 (by rw [← h5]; exact hf)
          exact (not_quiet_error (l := []) h15).elim
        · rename_i hc
          have hni : r1.st.idx ∉ handled := by simpa using hc
          refine LOk.map (H cx (.combLoop tag _ rs0.length (r1.st.idx :: handled) (handled.length + 1)) r1.st r2 hl1 h2 h4 (by rw [← h5]; exact hf)
            rs0 els rfl rfl (List.nodup_cons.2 ⟨hni, hd⟩) (fun i hi => ?_) rfl) h5 h6 fun _ => .combNext hr hni h14
          rcases List.mem_cons.1 hi with rfl | hi
          · exact (List.getElem?_eq_some_iff.1 hr).1
          · exact hs i hi
  | exParse i m =>
    simp only [step] at h
    split at h
    · exact H cx (.exLhs i m) st x hl h hq hf
    · obtain ⟨r1, h1, _, h2, h3, h4, h5⟩ := emit_q h hq hf
      obtain ⟨r2, r3, h6, h7, h8, h9, h10, h11⟩ := andThen_q h1 h2
      cases h7
      have hbrk : r2.out ≠ .brk := fun ho => by
        rcases onOk'_some h6 with ⟨st1, e1, r4, h12, h13, rfl⟩ | ⟨_, h13⟩
        · have hv := (exec_good E n cx (.exLhs i m) st hl).2 _ h12
          have hb := ((exec_good E n cx (.exLhs i m) st hl).1 _ h12).bounds hl
          exact ((exec_good E n cx (.exLoop i m) st1 hb.2 (hv.2 rfl)).2 r4 h13).1 ho
        · rw [h13] at ho; cases ho
      refine ⟨by rw [h4, h10]; exact hbrk, fun ho => ?_⟩
      rw [h4, h10] at ho
      simp only at ho
      obtain ⟨st1, e1, r4, h12, h13, h14, h15, h16, h17, h18⟩ := onOk'_q h6 h8 (by rw [ho]; nofun)
      have h19 := (H cx (.exLhs i m) st _ hl h12 h13 nofun).2 rfl
      have hb := ((exec_good E n cx (.exLhs i m) st hl).1 _ h12).bounds hl
      have h20 := H cx (.exLoop i m) st1 r4 hb.2 h14 h15 h16 (by rw [← h17]; exact ho) st.pos h19
      rw [h5, h11]
      simp only
      rw [h18]
      exact h20
  | exLoop i m =>
    intro ho p0 hp
    simp only [step] at h
    split at h
    · cases h
    · cases h; exact hp
    · rename_i o k r l hop
      obtain ⟨h1, h2⟩ := hit_of_parse hx (fun o ho => (opList_sub _ _ ho).1) hop
      have h3 : o.kind ≠ .prefix := fun hk => by have := (opList_sub _ _ h1).2.1 hk; cases this
      have hle := parseOperator_pos hl hop
      obtain ⟨st1, e1, r2, h4, h5, h6, h7, h8, h9, h10⟩ := onOk'_q h hq hf
      obtain ⟨r3, h11, h12, h13, h14, h15⟩ := framed_q h4
      simp only at h12 h13 h14 h15
      have h16 := (H cx (.exApply i o k r st.pos) { st with pos := st.pos + l } r3 hle h11 (h12 ▸ h5) (by rw [← h13]; nofun) h2 h13.symm).2 h3 p0 hp
      have hg := ((exec_good E n cx (.exApply i o k r st.pos) { st with pos := st.pos + l } hle (Nat.le_add_right ..)).1 r3 h11).bounds hl
      rw [← h15] at h16 hg
      rw [h10]
      exact H cx (.exLoop i m) st1 r2 hg.2 h6 h7 h8 (by rw [← h9]; exact ho) p0 h16
  | exLhs i m =>
    simp only [step] at h
    split at h
    · cases h
    · obtain ⟨st1, e1, r2, h4, h5, h6, h7, h8, h9, h10⟩ := onOk'_q h hq hf
      cases h6
      exact ⟨by rw [h9]; nofun, fun _ => by rw [h10]; exact .atom (framed_run H hl h4 h5).1⟩
    · rename_i o k r l hop
      obtain ⟨h1, h2⟩ := hit_of_parse hx (fun o ho => (opList_sub _ _ ho).1) hop
      have h3 : o.kind = .prefix := (opList_sub _ _ h1).2.2 rfl
      have hle := parseOperator_pos hl hop
      obtain ⟨r1, h4, _, h5, h6, h7, h8⟩ := emit_q h hq hf
      obtain ⟨r2, r3, h9, h10, h11, h12, h13, h14⟩ := andThen_q h4 h5
      cases h10
      obtain ⟨r4, h15, h16, h17, h18, h19⟩ := framed_q h9
      have hg := exec_good E n cx (.exApply i o k r st.pos) { st with pos := st.pos + l } hle (Nat.le_add_right ..)
      refine ⟨by rw [h7, h13, h17]; exact (hg.2 r4 h15).1, fun ho => ?_⟩
      rw [h7, h13] at ho
      simp only at ho
      rw [h17] at ho
      have := (H cx (.exApply i o k r st.pos) { st with pos := st.pos + l } r4 hle h15 (h16 ▸ h11) (by rw [ho]; nofun) h2 ho).1 h3
      rw [h8, h14]
      simp only
      rw [h19]
      exact this
  | exApply i o k r b =>
    intro hh ho
    simp only [step] at h
    split at h
    · cases h; cases ho
    · obtain ⟨r1, h1, _, h2, h3, h4, h5⟩ := emit_q h hq hf
      obtain ⟨st1, e1, r2, h6, h7, h8, h9, h10, h11, h12⟩ := onOk'_q h1 h2 h3
      obtain ⟨h13, h14⟩ := opFinish_lang H (i := i) (o := o) h6 h7 hl hh
      rw [h4, h11] at ho
      rw [h5, h12]
      have hinf : ∀ {b'}, o.kind ≠ .prefix → o.kind ≠ .postfix → opInfix E (exec E n) cx i o b' st1 = some r2 →
          ∀ p0, Lang E cx.ws (.operand i) p0 b → Lang E cx.ws (.operand i) p0 r2.st.pos := fun hk1 hk2 hi p0 hp =>
        .infix ⟨hk1, hk2⟩ hp h13 (opInfix_lang H h14 hi h9 ho)
      unfold opCont at h8
      split at h8
      · rename_i hk
        refine ⟨fun hk' => (by rw [hk] at hk'; cases hk'), fun _ p0 hp => ?_⟩
        obtain ⟨v, _, h8⟩ := Option.bind_eq_some_iff.1 h8
        exact H cx (.exList i o [v]) { st1 with ex := { st1.ex with val := none } } r2 h14 h8 h9 h10 hh.1 hk ho p0 b hp h13
      · rename_i hk
        refine ⟨fun _ => ?_, fun hk' => absurd hk hk'⟩
        obtain ⟨st2, e2, r3, h15, h16, h17, h18, h19, h20, h21⟩ := onOk'_q h8 h9 h10
        obtain ⟨v, _, h17⟩ := Option.bind_eq_some_iff.1 h17
        cases h17
        rw [h21]
        exact .prefix hk h13 (exParse_ok H h14 h15 h16).1
      · rename_i hk
        refine ⟨fun hk' => (by rw [hk] at hk'; cases hk'), fun _ p0 hp => ?_⟩
        obtain ⟨v, _, h8⟩ := Option.bind_eq_some_iff.1 h8
        cases h8
        exact .postfix hk hp h13
      · rename_i hk
        exact ⟨fun hk' => (by rw [hk] at hk'; cases hk'), fun hk' => hinf hk' (by rw [hk]; nofun) h8⟩
      · rename_i hk1 hk2 hk3 hk4
        exact ⟨fun hk' => absurd hk' hk2, fun hk' => hinf hk' hk3 h8⟩
  | exList i o items =>
    intro hoa hk ho p0 b hp hop
    simp only [step] at h
    obtain ⟨r1, r2, h1, h2, h3, h4, h5, h6⟩ := andThen_q h hq
    obtain ⟨o1, st1, e1⟩ := r1
    simp only at h2 h3
    cases o1 with
    | brk => cases h2
    | fail => cases h2; rw [h5] at ho; cases ho
    | ok =>
      obtain ⟨h7, h8⟩ := exParse_ok H hl h1 h3
      have h9 : Lang E cx.ws (.operand i) p0 st1.pos := .infix ⟨by rw [hk]; nofun, by rw [hk]; nofun⟩ hp hop h7
      obtain ⟨v, _, h2⟩ := Option.bind_eq_some_iff.1 h2
      rw [h6]
      split at h2
      · cases h2
      · cases h2; exact h9
      · rename_i o' k r l hpo
        obtain ⟨h10, h11⟩ := hit_of_parse hx (fun o' h => by rw [List.mem_singleton] at h; rw [h]; exact hoa) hpo
        rw [List.mem_singleton] at h10
        subst h10
        have hle := parseOperator_pos h8 hpo
        obtain ⟨r3, r4, h12, h13, h14, h15, h16, h17⟩ := andThen_q h2 h4
        obtain ⟨r5, h18, h19, h20, h21, h22⟩ := framed_q h12
        split at h13
        · cases h13
        · cases h13; rw [h5, h16] at ho; cases ho
        · rename_i ho3
          obtain ⟨o5, st5, e5⟩ := r5
          simp only at h19 h20 h22
          obtain rfl : o5 = .ok := by rw [← h20, ho3]
          obtain ⟨h23, h24⟩ := opFinish_lang H h18 (h19 ▸ h14) hle h11
          rw [← h22] at h23 h24
          rw [h17]
          exact H cx (.exList i o' (items ++ [v])) r3.st r4 h24 h13 h15 (by rw [← h16, ← h5, ho]; nofun) hoa hk (by rw [← h16, ← h5, ho])
            p0 st1.pos h9 h23

end

/-- What is parsed without an error is in the language. -/
theorem exec_lang {E : Env} (hx : ExprLits E) (n : Nat) : LHyp E n := by
  induction n with
  | zero => intro cx c st x _ h; cases h
  | succ n ih => exact lang_step ih hx

end Verif
