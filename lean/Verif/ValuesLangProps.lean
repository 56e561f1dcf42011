import Verif.ValuesLang
import Verif.LangProps
import Verif.ValuesParseProps
import Verif.ValuesEx2

/-
The values of a parse without an error are those of the language (C98), for every rule and every grammar.
-/

namespace Verif

open Spec Val

/-! ### Taking results apart -/

theorem thenD_q {x : Option DRes} {f : St → Option DRes} {d : DRes} (h : thenD x f = some d) (ho : d.out = .ok) (hq : Quiet d.evs) :
    ∃ d1 d2, x = some d1 ∧ d1.out = .ok ∧ Quiet d1.evs ∧ f d1.st = some d2 ∧ d2.out = .ok ∧ Quiet d2.evs ∧ d.st = d2.st ∧
      d.vals = d1.vals ++ d2.vals := by
  unfold thenD at h
  split at h
  · cases h
  · rename_i d1
    split at h
    · rename_i h1
      obtain ⟨d2, h2, rfl⟩ := Option.map_eq_some_iff.1 h
      exact ⟨d1, d2, rfl, h1, hq.left, h2, ho, hq.right, rfl, rfl⟩
    · rename_i h1
      cases h
      exact absurd ho h1

theorem viaD_q {x : Option Res} {f : St → Option DRes} {d : DRes} (h : viaD x f = some d) (ho : d.out = .ok) (hq : Quiet d.evs) :
    ∃ st1 e1 d2, x = some ⟨.ok, st1, e1⟩ ∧ Quiet e1 ∧ f st1 = some d2 ∧ d2.out = .ok ∧ Quiet d2.evs ∧ d.st = d2.st ∧ d.vals = d2.vals := by
  unfold viaD at h
  split at h
  · cases h
  · rename_i r
    obtain ⟨o, st1, e1⟩ := r
    cases o with
    | ok =>
      obtain ⟨d2, h2, rfl⟩ := Option.map_eq_some_iff.1 h
      exact ⟨st1, e1, d2, rfl, hq.left, h2, ho, hq.right, rfl, rfl⟩
    | fail => cases h; cases ho
    | brk => cases h; cases ho

theorem viaD'_q {x : Option Res} {f : St → Option DRes} {d : DRes} (h : viaD' x f = some d) (ho : d.out = .ok) (hq : Quiet d.evs) :
    ∃ st1 e1 d2, x = some ⟨.ok, st1, e1⟩ ∧ Quiet e1 ∧ f st1 = some d2 ∧ d2.out = .ok ∧ Quiet d2.evs ∧ d.st = d2.st ∧ d.vals = d2.vals := by
  unfold viaD' at h
  split at h
  · cases h
  · rename_i r
    obtain ⟨o, st1, e1⟩ := r
    cases o with
    | ok =>
      obtain ⟨d2, h2, rfl⟩ := Option.map_eq_some_iff.1 h
      exact ⟨st1, e1, d2, rfl, hq.left, h2, ho, hq.right, rfl, rfl⟩
    | fail => cases h; cases ho
    | brk => cases h

theorem baseD_q {n : Nat} {x : Option DRes} {f : List Val → St → Option DRes} {d : DRes} (h : baseD n x f = some d) (ho : d.out = .ok)
    (hq : Quiet d.evs) : ∃ d1 d2, x = some d1 ∧ d1.out = .ok ∧ Quiet d1.evs ∧ f d1.vals (d1.st.frame n) = some d2 ∧ d2.out = .ok ∧
      Quiet d2.evs ∧ d.st = d2.st ∧ d.vals = d2.vals := by
  unfold baseD at h
  split at h
  · cases h
  · rename_i d1
    split at h
    · rename_i h1
      obtain ⟨d2, h2, rfl⟩ := Option.map_eq_some_iff.1 h
      exact ⟨d1, d2, rfl, h1, hq.left, h2, ho, hq.right, rfl, rfl⟩
    · cases h; cases ho
    · cases h

theorem tryBaseD_q {n : Nat} {x : Option DRes} {f : List Val → St → Option DRes} {g : St → Option DRes} {d : DRes}
    (h : tryBaseD n x f g = some d) (ho : d.out = .ok) (hq : Quiet d.evs) :
    (∃ d1 d2, x = some d1 ∧ d1.out = .ok ∧ Quiet d1.evs ∧ f d1.vals (d1.st.frame n) = some d2 ∧ d2.out = .ok ∧
      Quiet d2.evs ∧ d.st = d2.st ∧ d.vals = d2.vals) ∨ ∃ d1, x = some d1 ∧ d1.out = .fail ∧ Quiet d1.evs := by
  unfold tryBaseD at h
  split at h
  · cases h
  · rename_i d1
    split at h
    · rename_i h1
      obtain ⟨d2, h2, rfl⟩ := Option.map_eq_some_iff.1 h
      exact .inl ⟨d1, d2, rfl, h1, hq.left, h2, ho, hq.right, rfl, rfl⟩
    · rename_i h1
      obtain ⟨d2, h2, rfl⟩ := Option.map_eq_some_iff.1 h
      exact .inr ⟨d1, rfl, h1, hq.left⟩
    · cases h

theorem emitD_q {evs : List Ev} {x : Option DRes} {d : DRes} (h : emitD evs x = some d) (ho : d.out = .ok) (hq : Quiet d.evs) :
    ∃ d1, x = some d1 ∧ d1.out = .ok ∧ Quiet evs ∧ Quiet d1.evs ∧ d.st = d1.st ∧ d.vals = d1.vals := by
  obtain ⟨d1, h1, rfl⟩ := Option.map_eq_some_iff.1 h
  exact ⟨d1, h1, ho, hq.left, hq.right, rfl, rfl⟩

theorem valD_q {vs : List Val} {x : Option DRes} {d : DRes} (h : valD vs x = some d) (ho : d.out = .ok) (hq : Quiet d.evs) :
    ∃ d1, x = some d1 ∧ d1.out = .ok ∧ Quiet d1.evs ∧ d.st = d1.st ∧ d.vals = vs ++ d1.vals := by
  obtain ⟨d1, h1, rfl⟩ := Option.map_eq_some_iff.1 h
  exact ⟨d1, h1, ho, hq, rfl, rfl⟩

theorem choose_q {E : Env} {n : Nat} {cx : Cx} {b : Rule} {st : St} (hl : st.pos ≤ E.inp.length) {yes no : Option DRes} {d : DRes}
    (h : choose (exec E n cx (.btry b) st) yes no = some d) : (Takes E b st ∧ yes = some d) ∨ no = some d := by
  cases hx : exec E n cx (.btry b) st with
  | none => rw [hx] at h; cases h
  | some x =>
    rw [hx] at h
    rcases btry_out hl hx with e | e
    · subst e; exact .inl ⟨⟨cx, n, hx⟩, h⟩
    · subst e; exact .inr h

theorem okD_inv {st : St} {vs : List Val} {d : DRes} (h : okD st vs = some d) : d.st = st ∧ d.vals = vs := by cases h; exact ⟨rfl, rfl⟩

theorem sinkCall_one (acc : List (List Val)) (vs : List Val) : sinkCall acc vs = acc ++ oneCall vs := by
  cases vs <;> simp [sinkCall, oneCall]

/-! ### What the commands derive -/

def VSpec (V : VEnv) (cx : VCx) (c : VCmd) (st : St) (d : DRes) : Prop :=
  match c with
  | .run r => VLang V cx.cur cx.cx.ws (.rule r d.vals) st.pos d.st.pos
  | .fin r => Takes V.env r.erase st → VLang V cx.cur cx.cx.ws (.rule r d.vals) st.pos d.st.pos
  | .chcRun rs | .chcFin rs => VLang V cx.cur cx.cx.ws (.rule (.chc rs) d.vals) st.pos d.st.pos
  | .lstLoop item sep acc => ∃ calls, d.vals = sinkValue V cx.cur (acc ++ calls) ∧ VLang V cx.cur cx.cx.ws (.tail item sep calls) st.pos d.st.pos
  | .lt .term term item sep _ acc | .lt .sep term item sep _ acc => ∃ calls, d.vals = sinkValue V cx.cur (acc ++ calls) ∧
      Takes V.env term.erase d.st ∧ VLang V cx.cur cx.cx.ws (.tail item sep calls) st.pos d.st.pos
  | .lt (.trail _) term item sep _ acc => sep.isSome = true → Takes V.env term.erase d.st ∧
      (((∃ s k, sep = some (s, k) ∧ SepKind.Trails k) ∧ d.st.pos = st.pos ∧ d.vals = sinkValue V cx.cur acc) ∨
        ∃ m vs calls, d.vals = sinkValue V cx.cur (acc ++ (oneCall vs ++ calls)) ∧ VLang V cx.cur cx.cx.ws (.rule item vs) st.pos m ∧
          VLang V cx.cur cx.cx.ws (.tail item sep calls) m d.st.pos)
  | .lt .item term item sep _ acc => Takes V.env term.erase d.st ∧
      ∃ m vs calls, d.vals = sinkValue V cx.cur (acc ++ (oneCall vs ++ calls)) ∧ VLang V cx.cur cx.cx.ws (.rule item vs) st.pos m ∧
          VLang V cx.cur cx.cx.ws (.tail item sep calls) m d.st.pos
  | .repTail kd b k item sep acc => ∃ calls, d.vals = repValue V cx.cur kd b d.st.pos (acc ++ calls) ∧
      VLang V cx.cur cx.cx.ws (.times k item sep calls) st.pos d.st.pos
  | .combLoop _ rs n handled count acc => ∀ rs0 els, rs = combVRules rs0 els → VR.stdL rs0 = true → n = rs0.length → handled.Nodup →
      (∀ i ∈ handled, i < n) → count = handled.length →
      ∃ calls, d.vals = sinkValue V cx.cur (acc ++ calls) ∧ VLang V cx.cur cx.cx.ws (.comb rs0 els handled calls) st.pos d.st.pos
  | _ => True

/-- The induction hypothesis. -/
def VHyp (V : VEnv) (n : Nat) : Prop := ∀ cx c st d, c.std = true → st.pos ≤ V.inp.length → dv V n cx c st = some d → Quiet d.evs →
  d.out = .ok → VSpec V cx c st d

section

variable {V : VEnv} (hV : ∀ m, (V.prods m).rule.std = true) {n : Nat}

include hV

theorem dv_run_le {cx : VCx} {r : VR} {st : St} {d : DRes} (hr : r.std = true) (hl : st.pos ≤ V.inp.length)
    (h : dv V n cx (.run r) st = some d) : d.st.pos ≤ V.inp.length :=
  run_le (E := V.env) hl (erase_sim V hV n cx (.run r) st hr d h).2

theorem dv_fin_le {cx : VCx} {r : VR} {st : St} {d : DRes} (hr : r.std = true) (hl : st.pos ≤ V.inp.length)
    (h : dv V n cx (.fin r) st = some d) : d.st.pos ≤ V.inp.length :=
  fin_le (E := V.env) hl (erase_sim V hV n cx (.fin r) st hr d h).2

theorem dv_run_fail {cx : VCx} {r : VR} {st : St} {d : DRes} (hr : r.std = true) (hl : st.pos ≤ V.inp.length)
    (h : dv V n cx (.run r) st = some d) (hq : Quiet d.evs) : d.out ≠ .fail := fun ho =>
  run_fail (E := V.env) hl (erase_sim V hV n cx (.run r) st hr d h).2 hq (by simp [DRes.res, ho])

theorem dv_fin_fail {cx : VCx} {r : VR} {st : St} {d : DRes} (hr : r.std = true) (hl : st.pos ≤ V.inp.length)
    (h : dv V n cx (.fin r) st = some d) (hq : Quiet d.evs) : d.out ≠ .fail := fun ho =>
  fin_fail (E := V.env) hl (erase_sim V hV n cx (.fin r) st hr d h).2 hq (by simp [DRes.res, ho])

end

section

variable {V : VEnv} (hV : ∀ m, (V.prods m).rule.std = true) (hx : ExprLits V.env) {n : Nat} (H : VHyp V n)

include hx

theorem dgap {cx : Cx} {st st1 : St} {e1 : List Ev} (hl : st.pos ≤ V.inp.length)
    (h : exec V.env n cx .ws st = some ⟨.ok, st1, e1⟩) (hq : Quiet e1) : Lang V.env cx.ws .gap st.pos st1.pos ∧ st1.pos ≤ V.inp.length :=
  ws_ok (E := V.env) (exec_lang hx n) hl h hq

theorem dleaf {cx : VCx} {r : Rule} {st : St} {d : DRes} (hl : st.pos ≤ V.inp.length)
    (h : viaD (step V.env (exec V.env n) cx.cx (.run r) st) (fun st' => okD st' []) = some d) (hq : Quiet d.evs) (ho : d.out = .ok) :
    VLang V cx.cur cx.cx.ws (.rule (.leaf r) d.vals) st.pos d.st.pos := by
  obtain ⟨st1, e1, d2, h1, h2, h3, h4, h5, h6, h7⟩ := viaD_q h ho hq
  obtain ⟨h8, h9⟩ := okD_inv h3
  rw [h7, h9, h6, h8]
  exact .leaf ((exec_lang hx (n + 1) cx.cx (.run r) st _ hl h1 h2 nofun).1 rfl)

theorem dleaf_fin {cx : VCx} {r : Rule} {st : St} {d : DRes} (hl : st.pos ≤ V.inp.length) (ht : Takes V.env r st)
    (h : viaD (step V.env (exec V.env n) cx.cx (.bfinish r) st) (fun st' => okD st' []) = some d) (hq : Quiet d.evs) (ho : d.out = .ok) :
    VLang V cx.cur cx.cx.ws (.rule (.leaf r) d.vals) st.pos d.st.pos := by
  obtain ⟨st1, e1, d2, h1, h2, h3, h4, h5, h6, h7⟩ := viaD_q h ho hq
  obtain ⟨h8, h9⟩ := okD_inv h3
  rw [h7, h9, h6, h8]
  exact .leaf ((exec_lang hx (n + 1) cx.cx (.bfinish r) st _ hl h1 h2 nofun ht).1 rfl)

theorem dtok {cx : VCx} {k : Kind} {e : Nat} {st : St} {vs : List Val} {d : DRes} (he : e ≤ V.inp.length)
    (h : tokD (exec V.env n) cx k e st vs = some d) (hq : Quiet d.evs) (ho : d.out = .ok) :
    Lang V.env cx.cx.ws .gap e d.st.pos ∧ d.vals = vs := by
  obtain ⟨d1, h1, h2, _, h3, h4, h5⟩ := emitD_q h ho hq
  obtain ⟨st1, e1, d2, h6, h7, h8, _, _, h9, h10⟩ := viaD_q h1 h2 h3
  obtain ⟨h11, h12⟩ := okD_inv h8
  rw [h4, h5, h9, h10, h11, h12]
  exact ⟨(dgap hx (st := { st with pos := e }) he h6 h7).1, rfl⟩

/-- A rule without parts. -/
theorem dprim {cx : Cx} {r : PRule} {y : Bool × Nat × List Ev} {st st1 : St} {e1 : List Ev} (hy : r.parse V.inp st.pos = y)
    (hl : y.2.1 ≤ V.inp.length) (h : primDone (exec V.env n) cx r.ws y st = some ⟨.ok, st1, e1⟩) (hq : Quiet e1) :
    ∃ m evs, r.parse V.inp st.pos = (true, m, evs) ∧ Quiet evs ∧ (r.ws = false → st1.pos = m) ∧ Lang V.env cx.ws .gap m st1.pos := by
  obtain ⟨r1, h1, hq1, h2, h3, h4, h5⟩ := emit_q h hq nofun
  obtain ⟨b, e, evs⟩ := y
  cases b with
  | false =>
    simp only [Bool.false_eq_true, if_false, ret, Option.some.injEq] at h1
    subst h1
    exact absurd rfl h3
  | true =>
    simp only at h4 h5
    refine ⟨e, evs, hy, hq1, ?_⟩
    simp only [if_true] at h1
    rw [h5]
    by_cases hw : r.ws = true
    · rw [if_pos hw] at h1
      obtain ⟨o1, s1, e1⟩ := r1
      obtain rfl : o1 = .ok := h4.symm
      exact ⟨fun h => (by rw [hw] at h; cases h), (dgap hx (st := { st with pos := e }) hl h1 h2).1⟩
    · rw [if_neg hw] at h1
      cases h1
      exact ⟨fun _ => rfl, .noGap⟩

theorem dprod {cx : VCx} {k : Nat} {capture : Bool} {body : VCx → St → Option DRes} {st : St} {d : DRes}
    (hb : ∀ y, body (cx.sub V k) { st with ex := {} } = some y → Quiet y.evs → y.out = .ok →
      y.st.pos ≤ V.inp.length ∧ ∃ m, Lang V.env (innerWs (V.env.prods k) cx.cx.ws) .gap st.pos m ∧ ((V.prods k).ws = none → m = st.pos) ∧
        VLang V k (innerWs (V.env.prods k) cx.cx.ws) (.rule (V.prods k).rule y.vals) m y.st.pos)
    (hr : ∀ y, body (cx.sub V k) { st with ex := {} } = some y → ∀ pre, y.out ≠ .ret pre)
    (h : prodD V (exec V.env n) cx k capture body st = some d) (hq : Quiet d.evs) (ho : d.out = .ok) :
    ∃ m l vs, Lang V.env (innerWs (V.env.prods k) cx.cx.ws) .gap st.pos m ∧ ((V.prods k).ws = none → m = st.pos) ∧
      VLang V k (innerWs (V.env.prods k) cx.cx.ws) (.rule (V.prods k).rule vs) m l ∧ ((V.prods k).isTok = false → d.st.pos = l) ∧
      Lang V.env cx.cx.ws .gap l d.st.pos ∧
      d.vals = (if capture then [.lexeme st.pos l] else []) ++ if (V.prods k).void then [] else [.call k vs] := by
  unfold prodD at h
  simp only at h
  split at h
  · cases h
  · rename_i y hy
    split at h
    · cases h; cases ho
    · cases h
    · rename_i h1 h2
      have h3 : y.out = .ok := by
        cases hh : y.out with
        | ok => rfl
        | fail => exact absurd hh h1
        | brk => exact absurd hh h2
        | ret pre => exact absurd hh (hr y hy pre)
      simp only [DRes.args, h3, Option.bind_some] at h
      obtain ⟨d1, h4, rfl⟩ := Option.map_eq_some_iff.1 h
      have hqy : Quiet y.evs := fun ev he => hq.left ev (by simp [he])
      obtain ⟨h5, m, h6, h7, h8⟩ := hb y hy hqy h3
      refine ⟨m, y.st.pos, y.vals, h6, h7, h8, ?_⟩
      split at h4
      · rename_i ht
        obtain ⟨st1, e1, d2, h9, h10, h11, _, _, h12, h13⟩ := viaD_q h4 ho hq.right
        obtain ⟨h14, h15⟩ := okD_inv h11
        simp only [DRes.pre, h12, h13, h14, h15, List.append_nil]
        exact ⟨fun h => (by rw [ht] at h; cases h), (dgap hx (st := { y.st.frame st.vars.length with ex := st.ex }) h5 h9 h10).1, rfl⟩
      · obtain ⟨h14, h15⟩ := okD_inv h4
        simp only [DRes.pre, h14, h15, List.append_nil]
        exact ⟨fun _ => rfl, .noGap, rfl⟩

end

theorem tryD_q {V : VEnv} {n : Nat} {cx : VCx} {k : Nat} {rc : VRecov} {x : Option DRes} {f : St → Option DRes} {d : DRes}
    (h : tryD (dv V n) cx k rc x f = some d) (ho : d.out = .ok) (hq : Quiet d.evs) :
    (∃ d1 d2, x = some d1 ∧ d1.out = .ok ∧ Quiet d1.evs ∧ f d1.st = some d2 ∧ d2.out = .ok ∧ Quiet d2.evs ∧ d.st = d2.st ∧
      d.vals = d1.vals ++ d2.vals) ∨ ∃ d1, x = some d1 ∧ d1.out = .fail ∧ Quiet d1.evs := by
  unfold tryD at h
  split at h
  · cases h
  · rename_i d1
    split at h
    · rename_i h1
      obtain ⟨d2, h2, rfl⟩ := Option.map_eq_some_iff.1 h
      exact .inl ⟨d1, d2, rfl, h1, hq.left, h2, ho, hq.right, rfl, rfl⟩
    · rename_i h1
      obtain ⟨d2, h2, rfl⟩ := Option.map_eq_some_iff.1 h
      exact .inr ⟨d1, rfl, h1, hq.left⟩
    · cases h

theorem frontD_q {w : Val} {x : Option DRes} {f : St → Option DRes} {d : DRes} (h : frontD w x f = some d) (ho : d.out = .ok)
    (hq : Quiet d.evs) : ∃ d1 d2, x = some d1 ∧ d1.out = .ok ∧ Quiet d1.evs ∧ f d1.st = some d2 ∧ d2.out = .ok ∧ Quiet d2.evs ∧
      d.st = d2.st ∧ d.vals = d1.vals ++ d2.vals := by
  unfold frontD at h
  split at h
  · cases h
  · rename_i d1
    split at h
    · rename_i h1
      obtain ⟨d2, h2, rfl⟩ := Option.map_eq_some_iff.1 h
      exact ⟨d1, d2, rfl, h1, hq.left, h2, ho, hq.right, rfl, rfl⟩
    · cases h; cases ho
    · rename_i h1 _
      cases h
      exact absurd ho h1

theorem pushD_inv {id p : Nat} {sign : Int} {st : St} {d : DRes} (h : pushD id sign p st = some d) : d.st.pos = st.pos ∧ d.vals = [] := by
  obtain ⟨i, _, h⟩ := Option.bind_eq_some_iff.1 h
  cases h
  exact ⟨rfl, rfl⟩

theorem identD_inv {id : Nat} {s : List Nat} {vs : List Val} {st : St} {d : DRes} (h : identD id s vs st = some d) :
    d.st.pos = st.pos ∧ d.vals = vs := by
  obtain ⟨i, _, h⟩ := Option.bind_eq_some_iff.1 h
  cases h
  exact ⟨rfl, rfl⟩

theorem deeperD_q {cx : VCx} {tag : Nat} {st : St} {body : St → Option DRes} {d : DRes} (h : deeperD cx tag st body = some d) (ho : d.out = .ok)
    (hq : Quiet d.evs) : ∃ y, body { st with depth := st.depth + 1 } = some y ∧ y.out = .ok ∧ Quiet y.evs ∧ d.st.pos = y.st.pos ∧
      d.vals = y.vals := by
  unfold deeperD at h
  split at h
  · cases h
  · split at h
    · cases h; cases ho
    · obtain ⟨d1, d2, h1, h2, h3, h4, h5, h6, h7, h8⟩ := thenD_q h ho hq
      obtain ⟨h9, h10⟩ := okD_inv h4
      exact ⟨d1, h1, h2, h3, by rw [h7, h9], by rw [h8, h10, List.append_nil]⟩

theorem sinkDone_value (V : VEnv) (cur : Nat) (acc : List (List Val)) : sinkDone V cur acc = sinkValue V cur acc := rfl
theorem repDone_value (V : VEnv) (cur : Nat) (kd : RepKind) (b e : Nat) (acc : List (List Val)) :
    repDone V cur kd b e acc = repValue V cur kd b e acc := rfl

theorem repAcc_value (V : VEnv) (cur : Nat) (kd : RepKind) (b e : Nat) (acc calls : List (List Val)) (vs : List Val) :
    repValue V cur kd b e (repAcc kd acc vs ++ calls) = repValue V cur kd b e (acc ++ (oneCall vs ++ calls)) := by
  cases kd <;> simp [repValue, repAcc, sinkCall_one]

section

variable {V : VEnv} (hV : ∀ m, (V.prods m).rule.std = true) (hx : ExprLits V.env) {n : Nat} (H : VHyp V n)

include hV H

theorem drun {cx : VCx} {r : VR} {st : St} {d : DRes} (hr : r.std = true) (hl : st.pos ≤ V.inp.length)
    (h : dv V n cx (.run r) st = some d) (hq : Quiet d.evs) (ho : d.out = .ok) :
    VLang V cx.cur cx.cx.ws (.rule r d.vals) st.pos d.st.pos ∧ d.st.pos ≤ V.inp.length :=
  ⟨H cx (.run r) st d hr hl h hq ho, dv_run_le hV hr hl h⟩

theorem dfin {cx : VCx} {r : VR} {st : St} {d : DRes} (hr : r.std = true) (hl : st.pos ≤ V.inp.length)
    (h : dv V n cx (.fin r) st = some d) (hq : Quiet d.evs) (ho : d.out = .ok) (ht : Takes V.env r.erase st) :
    VLang V cx.cur cx.cx.ws (.rule r d.vals) st.pos d.st.pos ∧ d.st.pos ≤ V.inp.length :=
  ⟨H cx (.fin r) st d hr hl h hq ho ht, dv_fin_le hV hr hl h⟩

/-- `repeat` behind its number. -/
theorem drep {cx : VCx} {kd : RepKind} {c item : VR} {f : List Nat → Nat} {sep : Option VSep} {vc : List Val} {st st1 : St} {d : DRes}
    (hi : item.std = true) (hs : stdSep sep = true) (hc : VLang V cx.cur cx.cx.ws (.rule c vc) st.pos st1.pos) (hl : st1.pos ≤ V.inp.length)
    (h : repD V (dv V n) cx kd f item sep st.pos st1 = some d) (hq : Quiet d.evs) (ho : d.out = .ok) :
    VLang V cx.cur cx.cx.ws (.rule (.rep kd c f item sep) d.vals) st.pos d.st.pos := by
  unfold repD at h
  split at h
  · rename_i hn
    obtain ⟨h1, h2⟩ := okD_inv h
    rw [h1, h2]
    exact .repeatNone hc hn
  · rename_i m hn
    obtain ⟨d1, d2, h1, h2, h3, h4, h5, h6, h7, h8⟩ := baseD_q h ho hq
    obtain ⟨h9, h10⟩ := drun hV H hi hl h1 h3 h2
    obtain ⟨calls, h11, h12⟩ := H cx (.repTail kd st1.pos m item sep (repAcc kd [] d1.vals)) (d1.st.frame st1.vars.length) d2 (by simp [VCmd.std, hi, hs]) h10 h4 h6 h5
    rw [h7, h8, h11, repAcc_value, List.nil_append]
    exact .repeat_ hc hn h9 h12

include hx

theorem dprodRun {cx : VCx} {k : Nat} {capture : Bool} {st : St} {d : DRes} (hl : st.pos ≤ V.inp.length)
    (h : prodD V (exec V.env n) cx k capture (fun cx' st' =>
      if (V.prods k).ws.isSome then viaD' (exec V.env n cx'.cx .ws st') fun st'' => dv V n cx' (.run (V.prods k).rule) st''
      else dv V n cx' (.run (V.prods k).rule) st') st = some d) (hq : Quiet d.evs) (ho : d.out = .ok) :
    ∃ m l vs, Lang V.env (innerWs (V.env.prods k) cx.cx.ws) .gap st.pos m ∧ ((V.prods k).ws = none → m = st.pos) ∧
      VLang V k (innerWs (V.env.prods k) cx.cx.ws) (.rule (V.prods k).rule vs) m l ∧ ((V.prods k).isTok = false → d.st.pos = l) ∧
      Lang V.env cx.cx.ws .gap l d.st.pos ∧
      d.vals = (if capture then [.lexeme st.pos l] else []) ++ if (V.prods k).void then [] else [.call k vs] := by
  refine dprod hx (fun y hy hqy hoy => ?_) (fun y hy pre hr => ?_) h hq ho
  · split at hy
    · rename_i hw
      obtain ⟨st1, e1, d2, h1, h2, h3, h4, h5, h6, h7⟩ := viaD'_q hy hoy hqy
      obtain ⟨h8, h9⟩ := dgap hx (st := { st with ex := {} }) hl h1 h2
      obtain ⟨h10, h11⟩ := drun hV H (hV k) h9 h3 h5 h4
      rw [h6, h7]
      exact ⟨h11, st1.pos, h8, fun hn => (by rw [hn] at hw; cases hw), h10⟩
    · obtain ⟨h10, h11⟩ := drun hV H (st := { st with ex := {} }) (hV k) hl hy hqy hoy
      exact ⟨h11, st.pos, .noGap, fun _ => rfl, h10⟩
  · split at hy
    · have key : ∀ st'' d2, dv V n (cx.sub V k) (.run (V.prods k).rule) st'' = some d2 → d2.out ≠ .ret pre := fun st'' d2 h2 =>
        (erase_sim V hV n (cx.sub V k) (.run (V.prods k).rule) st'' (hV k) d2 h2).1 pre
      unfold viaD' at hy
      split at hy
      · cases hy
      · split at hy
        · obtain ⟨d2, h2, rfl⟩ := Option.map_eq_some_iff.1 hy
          exact key _ _ h2 hr
        · cases hy; cases hr
        · cases hy
    · exact (erase_sim V hV n (cx.sub V k) (.run (V.prods k).rule) _ (hV k) y hy).1 pre hr

theorem dprodFin {cx : VCx} {k : Nat} {capture : Bool} {st : St} {d : DRes} (hl : st.pos ≤ V.inp.length)
    (ht : Takes V.env (.prod k) st)
    (h : prodD V (exec V.env n) cx k capture (fun cx' st' => dv V n cx' (.fin (V.prods k).rule) st') st = some d)
    (hq : Quiet d.evs) (ho : d.out = .ok) :
    ∃ m l vs, Lang V.env (innerWs (V.env.prods k) cx.cx.ws) .gap st.pos m ∧ ((V.prods k).ws = none → m = st.pos) ∧
      VLang V k (innerWs (V.env.prods k) cx.cx.ws) (.rule (V.prods k).rule vs) m l ∧ ((V.prods k).isTok = false → d.st.pos = l) ∧
      Lang V.env cx.cx.ws .gap l d.st.pos ∧
      d.vals = (if capture then [.lexeme st.pos l] else []) ++ if (V.prods k).void then [] else [.call k vs] := by
  obtain ⟨cx0, m, ht⟩ := ht.unfold
  simp only [stepTry] at ht
  split at ht
  · have ht' : Takes V.env (V.prods k).rule.erase { st with ex := {} } := Takes.congr ⟨cx0, m, ht⟩ rfl rfl hl
    refine dprod hx (fun y hy hqy hoy => ?_) (fun y hy pre hr => ?_) h hq ho
    · obtain ⟨h10, h11⟩ := dfin hV H (st := { st with ex := {} }) (hV k) hl hy hqy hoy ht'
      exact ⟨h11, st.pos, .noGap, fun _ => rfl, h10⟩
    · exact (erase_sim V hV n (cx.sub V k) (.fin (V.prods k).rule) _ (hV k) y hy).1 pre hr
  · cases ht

theorem vl_run (cx : VCx) (st : St) (r : VR) (d : DRes) (hr : r.std = true) (hl : st.pos ≤ V.inp.length)
    (h : stepRunD V (exec V.env n) (dv V n) cx st r = some d) (hq : Quiet d.evs) (ho : d.out = .ok) :
    VLang V cx.cur cx.cx.ws (.rule r d.vals) st.pos d.st.pos := by
  have hrun := @drun V hV n H cx
  have hfin := @dfin V hV n H cx
  cases r with
  | leaf r => exact dleaf hx hl h hq ho
  | cap t =>
    simp only [stepRunD] at h
    split at h
    · rename_i hb
      obtain ⟨h1, h2⟩ := dtok hx (tok_le (E := V.env) hl) h hq ho
      rw [h2]
      exact .capture (Prod.ext hb rfl) h1
    · cases h; cases ho
  | capp k =>
    simp only [stepRunD] at h
    split at h
    · rename_i ht
      obtain ⟨m, l, vs, h1, h2, h3, h4, h5, h6⟩ := dprodRun hV hx H hl h hq ho
      rw [h6]
      exact .captureProd h1 h2 h3 ht h5
    · cases h
  | val a => obtain ⟨h1, h2⟩ := okD_inv h; rw [h1, h2]; exact .value
  | posr r =>
    simp only [stepRunD] at h
    simp only [VR.std] at hr
    obtain ⟨d1, h1, h2, _, h3, h4, h5⟩ := emitD_q h ho hq
    obtain ⟨d2, h6, h7, h8, h9, h10⟩ := valD_q h1 h2 h3
    rw [h4, h5, h9, h10]
    exact .position (hrun hr hl h6 h8 h7).1
  | seq a b =>
    simp only [stepRunD] at h
    simp only [VR.std, Bool.and_eq_true] at hr
    obtain ⟨d1, d2, h1, h2, h3, h4, h5, h6, h7, h8⟩ := thenD_q h ho hq
    obtain ⟨h9, h10⟩ := hrun hr.1 hl h1 h3 h2
    rw [h7, h8]
    exact .seq h9 (hrun hr.2 h10 h4 h6 h5).1
  | br a b =>
    simp only [stepRunD] at h
    simp only [VR.std, Bool.and_eq_true] at hr
    obtain ⟨d1, d2, h1, h2, h3, h4, h5, h6, h7, h8⟩ := thenD_q h ho hq
    obtain ⟨h9, h10⟩ := hrun hr.1 hl h1 h3 h2
    rw [h7, h8]
    exact .branch h9 (hrun hr.2 h10 h4 h6 h5).1
  | chc rs => exact H cx (.chcRun rs) st d hr hl h hq ho
  | ifR b =>
    simp only [stepRunD] at h
    simp only [VR.std] at hr
    rcases choose_q (E := V.env) hl h with ⟨h1, h2⟩ | h2
    · exact .ifYes (hfin hr hl h2 hq ho h1).1
    · obtain ⟨st1, e1, d2, h3, h4, h5, h6, h7, h8, h9⟩ := viaD'_q h2 ho hq
      obtain ⟨h10, h11⟩ := okD_inv h5
      rw [h8, h9, h10, h11, cancel_ok (E := V.env) hl h3]
      exact .ifNo
  | opt b =>
    simp only [stepRunD] at h
    simp only [VR.std] at hr
    rcases choose_q (E := V.env) hl h with ⟨h1, h2⟩ | h2
    · exact .optYes (hfin hr hl h2 hq ho h1).1
    · obtain ⟨st1, e1, d2, h3, h4, h5, h6, h7, h8, h9⟩ := viaD'_q h2 ho hq
      obtain ⟨h10, h11⟩ := okD_inv h5
      rw [h8, h9, h10, h11, cancel_ok (E := V.env) hl h3]
      exact .optNo
  | optt t r =>
    simp only [stepRunD] at h
    simp only [VR.std, Bool.and_eq_true] at hr
    rcases choose_q (E := V.env) hl h with ⟨h1, h2⟩ | h2
    · obtain ⟨d2, h6, h7, h8, h9, h10⟩ := valD_q h2 ho hq
      rw [h9, h10]
      exact .terminatedNo (hfin hr.1 hl h6 h8 h7 h1).1
    · obtain ⟨st1, e1, d2, h3, h4, h5, h6, h7, h8, h9⟩ := viaD'_q h2 ho hq
      rw [cancel_ok (E := V.env) hl h3] at h5
      rw [h8, h9]
      exact .terminatedYes (hrun hr.2 hl h5 h7 h6).1
  | must b e =>
    simp only [stepRunD] at h
    simp only [VR.std] at hr
    rcases choose_q (E := V.env) hl h with ⟨h1, h2⟩ | h2
    · exact .must (hfin hr hl h2 hq ho h1).1
    · obtain ⟨st1, e1, d2, h3, h4, h5, h6, h7, h8, h9⟩ := viaD'_q h2 ho hq
      split at h5
      · cases h5; cases h6
      · cases h5
  | lst item sep =>
    simp only [stepRunD] at h
    have hi : item.std = true ∧ stdSep sep = true := by
      match sep, hr with
      | none, hr => exact ⟨by simpa [VR.std] using hr, rfl⟩
      | some (s, k), hr => simpa [VR.std, stdSep] using hr
    obtain ⟨d1, d2, h1, h2, h3, h4, h5, h6, h7, h8⟩ := baseD_q h ho hq
    obtain ⟨h9, h10⟩ := hrun hi.1 hl h1 h3 h2
    obtain ⟨calls, h11, h12⟩ := H cx (.lstLoop item sep (sinkCall [] d1.vals)) (d1.st.frame st.vars.length) d2 (by simp [VCmd.std, hi]) h10 h4 h6 h5
    rw [h7, h8, h11, sinkCall_one]
    exact .list h9 h12
  | lstt term item sep limit =>
    simp only [stepRunD] at h
    have hi : term.std = true ∧ item.std = true ∧ stdSep sep = true := by
      match sep, hr with
      | none, hr => simpa [VR.std, stdSep] using hr
      | some (s, k), hr => simpa [VR.std, stdSep, and_assoc] using hr
    obtain ⟨d1, d2, h1, h2, h3, h4, h5, h6, h7, h8⟩ := thenD_q h ho hq
    rcases tryBaseD_q h1 h2 h3 with ⟨d3, d4, h9, h10, h11, h12, h13, h14, h15, h16⟩ | ⟨d3, h9, h10, h11⟩
    · obtain ⟨h17, h18⟩ := hrun hi.2.1 hl h9 h11 h10
      have hs : (VCmd.lt .term term item sep limit (sinkCall [] d3.vals)).std = true := by simp [VCmd.std, hi]
      obtain ⟨calls, h19, h20, h21⟩ := H cx (.lt .term term item sep limit (sinkCall [] d3.vals)) (d3.st.frame st.vars.length) d4 hs h18 h12 h14 h13
      have hle : d4.st.pos ≤ V.inp.length := by
        have := (erase_sim V hV n cx _ _ hs d4 h12).2
        exact ((exec_good V.env n cx.cx (.ltTerm term.erase item.erase (eraseSep sep) limit) (d3.st.frame st.vars.length) h18 _ this).bounds h18).2
      rw [h15] at h4
      rw [h7, h8, h16, h19, sinkCall_one]
      exact .terminated h17 h21 (hfin hi.1 hle h4 h6 h5 h20).1
    · exact absurd h10 (dv_run_fail hV hi.2.1 hl h9 h11)
  | tryt term r rc =>
    cases term with
    | none =>
      simp only [stepRunD] at h
      simp only [VR.std, Bool.and_eq_true] at hr
      rcases tryD_q h ho hq with ⟨d1, d2, h1, h2, h3, h4, h5, h6, h7, h8⟩ | ⟨d3, h9, h10, h11⟩
      · obtain ⟨h9, h10⟩ := okD_inv h4
        rw [h7, h8, h9, h10, List.append_nil]
        exact .tryNone (hrun hr.1 hl h1 h3 h2).1
      · exact absurd h10 (dv_run_fail hV hr.1 hl h9 h11)
    | some t =>
      simp only [stepRunD] at h
      simp only [VR.std, Bool.and_eq_true] at hr
      rcases tryD_q h ho hq with ⟨d1, d2, h1, h2, h3, h4, h5, h6, h7, h8⟩ | ⟨d3, h9, h10, h11⟩
      · obtain ⟨h9, h10⟩ := hrun hr.1.2 hl h1 h3 h2
        rw [h7, h8]
        exact .tryT h9 (hrun hr.1.1 h10 h4 h6 h5).1
      · exact absurd h10 (dv_run_fail hV hr.1.2 hl h9 h11)
  | tryr r rc =>
    simp only [stepRunD] at h
    simp only [VR.std, Bool.and_eq_true] at hr
    rcases tryD_q h ho hq with ⟨d1, d2, h1, h2, h3, h4, h5, h6, h7, h8⟩ | ⟨d3, h9, h10, h11⟩
    · obtain ⟨h9, h10⟩ := okD_inv h4
      rw [h7, h8, h9, h10, List.append_nil]
      exact .try_ (hrun hr.1 hl h1 h3 h2).1
    · exact absurd h10 (dv_run_fail hV hr.1 hl h9 h11)
  | prod k =>
    simp only [stepRunD] at h
    obtain ⟨m, l, vs, h1, h2, h3, h4, h5, h6⟩ := dprodRun hV hx H hl h hq ho
    rw [h6]
    exact .prod h1 h2 h3 h4 h5
  | recu k tag b =>
    simp only [stepRunD] at h
    obtain ⟨y, h1, h2, h3, h4, h5⟩ := deeperD_q h ho hq
    rw [h4, h5]
    exact .recurse (hrun (r := .prod k) (st := { st with depth := st.depth + 1 }) rfl hl h1 h3 h2).1
  | wsn r =>
    simp only [stepRunD] at h
    simp only [VR.std] at hr
    split at h
    · exact .noWs (hrun hr hl h hq ho).1 .noGap
    · obtain ⟨d1, d2, h1, h2, h3, h4, h5, h6, h7, h8⟩ := thenD_q h ho hq
      obtain ⟨h9, h10⟩ := hrun (st := { st with wsOn := false }) hr hl h1 h3 h2
      obtain ⟨st1, e1, d3, h11, h12, h13, _, _, h14, h15⟩ := viaD_q h4 h5 h6
      obtain ⟨h16, h17⟩ := okD_inv h13
      rw [h7, h8, h14, h15, h16, h17, List.append_nil]
      exact .noWs h9 (dgap hx (st := { d1.st with wsOn := true }) h10 h11 h12).1
  | pre a r =>
    simp only [stepRunD] at h
    simp only [VR.std] at hr
    obtain ⟨d2, h6, h7, h8, h9, h10⟩ := valD_q h ho hq
    rw [h9, h10]
    exact .pre (hrun hr hl h6 h8 h7).1
  | pas t r =>
    simp only [stepRunD] at h
    simp only [VR.std, Bool.and_eq_true] at hr
    obtain ⟨d1, d2, h1, h2, h3, h4, h5, h6, h7, h8⟩ := baseD_q h ho hq
    obtain ⟨h9, h10⟩ := okD_inv h4
    rw [h7, h8, h9, h10]
    exact .parseAs (hrun hr.1 hl h1 h3 h2).1
  | comb tag rs els =>
    simp only [stepRunD] at h
    obtain ⟨d1, d2, h1, h2, h3, h4, h5, h6, h7, h8⟩ := thenD_q h ho hq
    obtain ⟨h9, h10⟩ := okD_inv h4
    obtain ⟨calls, h11, h12⟩ := H cx (.combLoop tag (combVRules rs els) rs.length [] 0 []) { st with idx := 0 } d1
      (std_combRules rs els hr) hl h1 h3 h2 rs els rfl hr rfl List.nodup_nil (by simp) rfl
    rw [h7, h8, h9, h10, h11, List.append_nil, List.nil_append]
    exact .combination h12
  | combIt i => obtain ⟨h1, h2⟩ := okD_inv h; rw [h1, h2]; exact .combIt
  | ret => cases hr
  | prim q =>
    simp only [stepRunD] at h
    obtain ⟨st1, e1, d2, h1, h2, h3, h4, h5, h6, h7⟩ := viaD_q h ho hq
    obtain ⟨h8, h9⟩ := okD_inv h3
    obtain ⟨m, evs, h10, h11, h12, h13⟩ := dprim hx rfl ((q.rule.parse_tr V.inp st.pos hl).bounds hl).2 h1 h2
    rw [h6, h7, h8, h9]
    exact .prim h10 h11 h12 h13
  | rep kd c f item sep =>
    simp only [stepRunD] at h
    have hi : c.std = true ∧ item.std = true ∧ stdSep sep = true := by
      match sep, hr with
      | none, hr =>
        simp only [VR.std, Bool.and_eq_true] at hr
        exact ⟨hr.1.1, hr.2, rfl⟩
      | some (s, k), hr =>
        simp only [VR.std, Bool.and_eq_true] at hr
        exact ⟨hr.1.1.1, hr.1.2, hr.2⟩
    obtain ⟨d1, d2, h1, h2, h3, h4, h5, h6, h7, h8⟩ := baseD_q h ho hq
    obtain ⟨h9, h10⟩ := hrun hi.1 hl h1 h3 h2
    rw [h7, h8]
    exact drep hV H hi.2.1 hi.2.2 (st := st) (st1 := d1.st.frame st.vars.length) h9 h10 h4 h6 h5
  | cntPush id r sign =>
    simp only [stepRunD] at h
    simp only [VR.std, Bool.and_eq_true] at hr
    obtain ⟨d1, d2, h1, h2, h3, h4, h5, h6, h7, h8⟩ := frontD_q h ho hq
    obtain ⟨h9, h10⟩ := pushD_inv h4
    rw [h7, h8, h9, h10, List.append_nil]
    exact .count (hrun hr.1 hl h1 h3 h2).1
  | cntVal id =>
    simp only [stepRunD] at h
    obtain ⟨i, _, h⟩ := Option.bind_eq_some_iff.1 h
    obtain ⟨h1, h2⟩ := okD_inv h
    rw [h1, h2]
    exact .counter
  | idCap id q =>
    simp only [stepRunD] at h
    obtain ⟨st1, e1, d2, h1, h2, h3, h4, h5, h6, h7⟩ := viaD'_q h ho hq
    obtain ⟨h8, h9⟩ := identD_inv h3
    obtain ⟨m, evs, h10, h11, h12, h13⟩ := dprim hx rfl ((q.rule.parse_tr V.inp st.pos hl).bounds hl).2 h1 h2
    rw [h6, h7, h8, h9]
    exact .identifier h10 h11 h12 h13

theorem vl_fin (cx : VCx) (st : St) (r : VR) (d : DRes) (hr : r.std = true) (hl : st.pos ≤ V.inp.length) (ht0 : Takes V.env r.erase st)
    (h : stepFinD V (exec V.env n) (dv V n) cx st r = some d) (hq : Quiet d.evs) (ho : d.out = .ok) :
    VLang V cx.cur cx.cx.ws (.rule r d.vals) st.pos d.st.pos := by
  have hrun := @drun V hV n H cx
  have hfin := @dfin V hV n H cx
  obtain ⟨cx0, m0, ht⟩ := ht0.unfold
  cases r with
  | leaf r => exact dleaf_fin hx hl ht0 h hq ho
  | cap t =>
    simp only [stepFinD] at h
    have hb : (t.run (V.inp.drop st.pos)).1 = true := by
      simp only [VR.erase, stepTry, ret, Option.some.injEq, Res.mk.injEq, and_true] at ht
      show (t.run (V.env.inp.drop st.pos)).1 = true
      cases hh : (t.run (V.env.inp.drop st.pos)).1 <;> simp_all
    obtain ⟨h1, h2⟩ := dtok hx (tok_le (E := V.env) hl) h hq ho
    rw [h2]
    exact .capture (Prod.ext hb rfl) h1
  | capp k =>
    simp only [stepFinD] at h
    split at h
    · rename_i htk
      obtain ⟨m, l, vs, h1, h2, h3, h4, h5, h6⟩ := dprodFin hV hx H hl ht0 h hq ho
      rw [h6]
      exact .captureProd h1 h2 h3 htk h5
    · cases h
  | val a => obtain ⟨h1, h2⟩ := okD_inv h; rw [h1, h2]; exact .value
  | posr r =>
    simp only [stepFinD] at h
    simp only [VR.std] at hr
    simp only [VR.erase, stepTry] at ht
    obtain ⟨d1, h1, h2, _, h3, h4, h5⟩ := emitD_q h ho hq
    obtain ⟨d2, h6, h7, h8, h9, h10⟩ := valD_q h1 h2 h3
    rw [h4, h5, h9, h10]
    exact .position (hfin hr hl h6 h8 h7 ⟨cx0, m0, ht⟩).1
  | br a b =>
    simp only [stepFinD] at h
    simp only [VR.erase, stepTry] at ht
    simp only [VR.std, Bool.and_eq_true] at hr
    obtain ⟨d1, d2, h1, h2, h3, h4, h5, h6, h7, h8⟩ := thenD_q h ho hq
    obtain ⟨h9, h10⟩ := hfin hr.1 hl h1 h3 h2 ⟨cx0, m0, ht⟩
    rw [h7, h8]
    exact .branch h9 (hrun hr.2 h10 h4 h6 h5).1
  | chc rs => exact H cx (.chcFin rs) st d hr hl h hq ho
  | must b e =>
    simp only [stepFinD] at h
    simp only [VR.std] at hr
    simp only [VR.erase, stepTry] at ht
    exact .must (hfin hr hl h hq ho ⟨cx0, m0, ht⟩).1
  | lst item sep =>
    simp only [stepFinD] at h
    have hi : item.std = true ∧ stdSep sep = true := by
      match sep, hr with
      | none, hr => exact ⟨by simpa [VR.std] using hr, rfl⟩
      | some (s, k), hr => simpa [VR.std, stdSep] using hr
    have ht' : Takes V.env item.erase st := by
      match sep, ht with
      | none, ht => exact ⟨cx0, m0, by simpa only [VR.erase, stepTry] using ht⟩
      | some (s, k), ht => exact ⟨cx0, m0, by simpa only [VR.erase, stepTry] using ht⟩
    obtain ⟨d1, d2, h1, h2, h3, h4, h5, h6, h7, h8⟩ := baseD_q h ho hq
    obtain ⟨h9, h10⟩ := hfin hi.1 hl h1 h3 h2 ht'
    obtain ⟨calls, h11, h12⟩ := H cx (.lstLoop item sep (sinkCall [] d1.vals)) (d1.st.frame st.vars.length) d2 (by simp [VCmd.std, hi]) h10 h4 h6 h5
    rw [h7, h8, h11, sinkCall_one]
    exact .list h9 h12
  | tryr r rc =>
    simp only [stepFinD] at h
    simp only [VR.erase, stepTry] at ht
    simp only [VR.std, Bool.and_eq_true] at hr
    rcases tryD_q h ho hq with ⟨d1, d2, h1, h2, h3, h4, h5, h6, h7, h8⟩ | ⟨d3, h9, h10, h11⟩
    · obtain ⟨h9, h10⟩ := okD_inv h4
      rw [h7, h8, h9, h10, List.append_nil]
      exact .try_ (hfin hr.1 hl h1 h3 h2 ⟨cx0, m0, ht⟩).1
    · exact absurd h10 (dv_fin_fail hV hr.1 hl h9 h11)
  | prod k =>
    simp only [stepFinD] at h
    obtain ⟨m, l, vs, h1, h2, h3, h4, h5, h6⟩ := dprodFin hV hx H hl ht0 h hq ho
    rw [h6]
    exact .prod h1 h2 h3 h4 h5
  | recu k tag b =>
    simp only [stepFinD] at h
    simp only [VR.erase, stepTry] at ht
    split at ht
    · have ht' : Takes V.env (.prod k) { st with depth := st.depth + 1 } := Takes.congr ⟨cx0, m0, ht⟩ rfl rfl hl
      obtain ⟨y, h1, h2, h3, h4, h5⟩ := deeperD_q h ho hq
      rw [h4, h5]
      exact .recurse (hfin (r := .prod k) (st := { st with depth := st.depth + 1 }) rfl hl h1 h3 h2 ht').1
    · cases ht
  | wsn r =>
    simp only [stepFinD] at h
    simp only [VR.std] at hr
    simp only [VR.erase, stepTry] at ht
    have ht' : Takes V.env r.erase { st with wsOn := false } := Takes.congr ⟨cx0, m0, ht⟩ rfl rfl hl
    obtain ⟨d1, d2, h1, h2, h3, h4, h5, h6, h7, h8⟩ := thenD_q h ho hq
    obtain ⟨h9, h10⟩ := hfin (st := { st with wsOn := false }) hr hl h1 h3 h2 ht'
    obtain ⟨st1, e1, d3, h11, h12, h13, _, _, h14, h15⟩ := viaD_q h4 h5 h6
    obtain ⟨h16, h17⟩ := okD_inv h13
    rw [h7, h8, h14, h15, h16, h17, List.append_nil]
    exact .noWs h9 (dgap hx (st := { d1.st with wsOn := true }) h10 h11 h12).1
  | pre a r =>
    simp only [stepFinD] at h
    simp only [VR.std] at hr
    simp only [VR.erase] at ht0
    obtain ⟨d2, h6, h7, h8, h9, h10⟩ := valD_q h ho hq
    rw [h9, h10]
    exact .pre (hfin hr hl h6 h8 h7 ht0).1
  | pas t r =>
    simp only [stepFinD] at h
    simp only [VR.erase] at ht0
    simp only [VR.std, Bool.and_eq_true] at hr
    obtain ⟨d1, d2, h1, h2, h3, h4, h5, h6, h7, h8⟩ := baseD_q h ho hq
    obtain ⟨h9, h10⟩ := okD_inv h4
    rw [h7, h8, h9, h10]
    exact .parseAs (hfin hr.1 hl h1 h3 h2 ht0).1
  | prim q =>
    simp only [stepFinD] at h
    simp only [VR.erase, stepTry] at ht
    obtain ⟨f, hf1, hf2⟩ := Option.bind_eq_some_iff.1 ht
    have hf : f V.inp st.pos = true := by
      simp only [ret, Option.some.injEq, Res.mk.injEq, and_true] at hf2
      show f V.env.inp st.pos = true
      cases hh : f V.env.inp st.pos <;> simp_all
    obtain ⟨st1, e1, d2, h1, h2, h3, h4, h5, h6, h7⟩ := viaD_q h ho hq
    obtain ⟨h8, h9⟩ := okD_inv h3
    obtain ⟨m, evs, h10, h11, h12, h13⟩ := dprim hx (q.rule.coh f _ _ hf1 hf).symm ((q.rule.finish_tr V.inp st.pos hl).bounds hl).2 h1 h2
    rw [h6, h7, h8, h9]
    exact .prim h10 h11 h12 h13
  | rep kd c f item sep =>
    simp only [stepFinD] at h
    have hi : c.std = true ∧ item.std = true ∧ stdSep sep = true := by
      match sep, hr with
      | none, hr =>
        simp only [VR.std, Bool.and_eq_true] at hr
        exact ⟨hr.1.1, hr.2, rfl⟩
      | some (s, k), hr =>
        simp only [VR.std, Bool.and_eq_true] at hr
        exact ⟨hr.1.1.1, hr.1.2, hr.2⟩
    have ht' : Takes V.env c.erase st := by
      match sep, ht with
      | none, ht => exact ⟨cx0, m0, by simpa only [VR.erase, stepTry] using ht⟩
      | some (s, k), ht => exact ⟨cx0, m0, by simpa only [VR.erase, stepTry] using ht⟩
    obtain ⟨d1, d2, h1, h2, h3, h4, h5, h6, h7, h8⟩ := baseD_q h ho hq
    obtain ⟨h9, h10⟩ := hfin hi.1 hl h1 h3 h2 ht'
    rw [h7, h8]
    exact drep hV H hi.2.1 hi.2.2 (st := st) (st1 := d1.st.frame st.vars.length) h9 h10 h4 h6 h5
  | cntPush id r sign =>
    simp only [stepFinD] at h
    simp only [VR.erase, stepTry] at ht
    simp only [VR.std, Bool.and_eq_true] at hr
    obtain ⟨d1, d2, h1, h2, h3, h4, h5, h6, h7, h8⟩ := frontD_q h ho hq
    obtain ⟨h9, h10⟩ := pushD_inv h4
    rw [h7, h8, h9, h10, List.append_nil]
    exact .count (hfin hr.1 hl h1 h3 h2 ⟨cx0, m0, ht⟩).1
  | idCap id q =>
    simp only [stepFinD] at h
    simp only [VR.erase, stepTry] at ht
    obtain ⟨f, hf1, hf2⟩ := Option.bind_eq_some_iff.1 ht
    have hf : f V.inp st.pos = true := by
      simp only [ret, Option.some.injEq, Res.mk.injEq, and_true] at hf2
      show f V.env.inp st.pos = true
      cases hh : f V.env.inp st.pos <;> simp_all
    obtain ⟨st1, e1, d2, h1, h2, h3, h4, h5, h6, h7⟩ := viaD'_q h ho hq
    obtain ⟨h8, h9⟩ := identD_inv h3
    obtain ⟨m, evs, h10, h11, h12, h13⟩ := dprim hx (q.rule.coh f _ _ hf1 hf).symm ((q.rule.finish_tr V.inp st.pos hl).bounds hl).2 h1 h2
    rw [h6, h7, h8, h9]
    exact .identifier h10 h11 h12 h13
  | seq a b => cases h
  | ifR b => cases h
  | opt b => cases h
  | optt t r => cases h
  | lstt => cases h
  | tryt => cases h
  | comb => cases h
  | combIt => cases h
  | ret => cases h
  | cntVal => cases h

omit hV hx H in
theorem vifR_inv {cur : Nat} {w : Option Rule} {r : VR} {vs : List Val} {p q : Nat}
    (h : VLang V cur w (.rule (.ifR r) vs) p q) : VLang V cur w (.rule r vs) p q ∨ (vs = [] ∧ q = p) := by
  cases h
  case ifYes h => exact .inl h
  case ifNo => exact .inr ⟨rfl, rfl⟩

omit hV hx H in
theorem vchc_inv {cur : Nat} {w : Option Rule} {rs : List VR} {vs : List Val} {p q : Nat}
    (h : VLang V cur w (.rule (.chc rs) vs) p q) : ∃ r ∈ rs, VLang V cur w (.rule r vs) p q := by
  cases h
  case choice r hr h => exact ⟨r, hr, h⟩

omit hV hx H in
/-- The branch of a choice that was taken. -/
theorem chcRun_fin {cx : VCx} {st : St} (hl : st.pos ≤ V.inp.length) : ∀ {m : Nat} {rs : List VR} {d : DRes},
    dv V m cx (.chcRun rs) st = some d → Quiet d.evs → d.out = .ok →
    ∃ r ∈ rs, ∃ k d', k < m ∧ Takes V.env r.erase st ∧ dv V k cx (.fin r) st = some d' ∧ Quiet d'.evs ∧ d'.out = .ok ∧ d'.st = d.st ∧
      d'.vals = d.vals
  | 0, _, _, h, _, _ => by cases h
  | m + 1, [], _, h, _, ho => by cases h; cases ho
  | m + 1, r :: rs, d, h, hq, ho => by
    rcases choose_q (E := V.env) hl h with ⟨h1, h2⟩ | h2
    · exact ⟨r, by simp, m, d, by omega, h1, h2, hq, ho, rfl, rfl⟩
    · obtain ⟨st1, e1, d2, h3, h4, h5, h6, h7, h8, h9⟩ := viaD'_q h2 ho hq
      rw [cancel_ok (E := V.env) hl h3] at h5
      obtain ⟨r', hr', k, d', h10, h11, h12, h13, h14, h15, h16⟩ := chcRun_fin hl h5 h7 h6
      exact ⟨r', by simp [hr'], k, d', by omega, h11, h12, h13, h14, h15.trans h8.symm, h16.trans h9.symm⟩

omit hV hx H in
theorem mem_combV {rs : List VR} {els : CombElse} {b : VR} (h : b ∈ combVRules rs els) :
    (∃ i r, rs[i]? = some r ∧ b = .br r (.combIt i)) ∨ b = .leaf .brk ∨ ∃ tag, b = .leaf (.err tag none) := by
  unfold combVRules at h
  rcases List.mem_append.1 h with h | h
  · obtain ⟨⟨r, i⟩, h1, rfl⟩ := List.mem_map.1 h
    rw [List.mem_zipIdx_iff_getElem?] at h1
    exact .inl ⟨i, r, h1, rfl⟩
  · cases els with
    | none => cases h
    | brk => rw [List.mem_singleton] at h; exact .inr (.inl h)
    | err tag => rw [List.mem_singleton] at h; exact .inr (.inr ⟨tag, h⟩)

/-- The branch of a combination that was taken. -/
theorem chcRun_combV (Hs : ∀ m ≤ n, VHyp V m) {cx : VCx} {rs : List VR} {els : CombElse} {st : St} {d : DRes} (hr : VR.stdL rs = true)
    (hl : st.pos ≤ V.inp.length) (h : dv V n cx (.chcRun (combVRules rs els)) st = some d) (hq : Quiet d.evs) (ho : d.out = .ok) :
    ∃ r, rs[d.st.idx]? = some r ∧ VLang V cx.cur cx.cx.ws (.rule r d.vals) st.pos d.st.pos := by
  obtain ⟨b, hb, k, d', h1, h2, h3, h4, h5, h6, h7⟩ := chcRun_fin hl h hq ho
  have hbs : b.std = true := (stdL_iff _).1 (std_combRules rs els hr) b hb
  have hL := Hs k (by omega) cx (.fin b) st d' hbs hl h3 h4 h5 h2
  rw [← h6, ← h7]
  have he := (erase_sim V hV k cx (.fin b) st hbs d' h3).2
  rcases mem_combV hb with ⟨i, r, h8, rfl⟩ | rfl | ⟨tag, rfl⟩
  · have hi : d'.st.idx = i := by
      simp only [VCmd.erase, VR.erase] at he
      exact fin_combIt he (by simp [DRes.res, h5])
    rw [hi]
    refine ⟨r, h8, ?_⟩
    generalize d'.vals = vs at hL
    cases hL
    rename_i h9 h10
    cases h10
    rw [List.append_nil]
    exact h9
  · generalize d'.vals = vs at hL
    cases hL
    rename_i hh
    exact absurd (brk_inv hh).1 nofun
  · exfalso
    simp only [VCmd.erase, VR.erase] at he
    have : d'.res.out = .fail := by
      generalize d'.res = x at he
      cases k with
      | zero => cases he
      | succ k =>
        cases k with
        | zero => cases he
        | succ k => cases he; rfl
    simp [DRes.res, h5] at this

theorem vl_step (Hs : ∀ m ≤ n, VHyp V m) : VHyp V (n + 1) := by
  intro cx c st d hc hl h hq ho
  have hrun := @drun V hV n H cx
  have hfin := @dfin V hV n H cx
  cases c with
  | run r => exact vl_run hV hx H cx st r d hc hl h hq ho
  | fin r => exact fun ht => vl_fin hV hx H cx st r d hc hl ht h hq ho
  | chcRun rs =>
    cases rs with
    | nil => cases h; cases ho
    | cons r rs =>
      simp only [VCmd.std, VR.stdL, Bool.and_eq_true] at hc
      rcases choose_q (E := V.env) hl h with ⟨h1, h2⟩ | h2
      · exact .choice (List.mem_cons_self ..) (hfin hc.1 hl h2 hq ho h1).1
      · obtain ⟨st1, e1, d2, h3, h4, h5, h6, h7, h8, h9⟩ := viaD'_q h2 ho hq
        rw [cancel_ok (E := V.env) hl h3] at h5
        obtain ⟨r', hr', h'⟩ := vchc_inv (H cx (.chcRun rs) st d2 hc.2 hl h5 h7 h6)
        show VLang ..
        rw [h8, h9]
        exact .choice (List.mem_cons_of_mem _ hr') h'
  | chcFin rs =>
    cases rs with
    | nil => cases h
    | cons r rs =>
      simp only [VCmd.std, VR.stdL, Bool.and_eq_true] at hc
      rcases choose_q (E := V.env) hl h with ⟨h1, h2⟩ | h2
      · exact .choice (List.mem_cons_self ..) (hfin hc.1 hl h2 hq ho h1).1
      · obtain ⟨st1, e1, d2, h3, h4, h5, h6, h7, h8, h9⟩ := viaD'_q h2 ho hq
        rw [cancel_ok (E := V.env) hl h3] at h5
        obtain ⟨r', hr', h'⟩ := vchc_inv (H cx (.chcFin rs) st d2 hc.2 hl h5 h7 h6)
        show VLang ..
        rw [h8, h9]
        exact .choice (List.mem_cons_of_mem _ hr') h'
  | lstLoop item sep acc =>
    simp only [VCmd.std, Bool.and_eq_true] at hc
    have hloop : ∀ (acc : List (List Val)) (st : St) (d : DRes), st.pos ≤ V.inp.length → dv V n cx (.lstLoop item sep acc) st = some d →
        Quiet d.evs → d.out = .ok → ∃ calls, d.vals = sinkValue V cx.cur (acc ++ calls) ∧
          VLang V cx.cur cx.cx.ws (.tail item sep calls) st.pos d.st.pos :=
      fun acc st d h1 h2 h3 h4 => H cx (.lstLoop item sep acc) st d (by simp [VCmd.std, hc]) h1 h2 h3 h4
    have hend : ∀ (acc : List (List Val)) (b : Rule) (st1 st' : St) (d : DRes), st1.pos ≤ V.inp.length →
        viaD' (exec V.env n cx.cx (.bcancel b) st1) (fun st' => okD st' (sinkDone V cx.cur acc)) = some d → Quiet d.evs → d.out = .ok →
        ∃ calls, d.vals = sinkValue V cx.cur (acc ++ calls) ∧ VLang V cx.cur cx.cx.ws (.tail item sep calls) st1.pos d.st.pos := by
      intro acc b st1 st' d hl1 h hq ho
      obtain ⟨st2, e1, d2, h3, h4, h5, h6, h7, h8, h9⟩ := viaD'_q h ho hq
      obtain ⟨h10, h11⟩ := okD_inv h5
      refine ⟨[], ?_⟩
      rw [h8, h9, h10, h11, cancel_ok (E := V.env) hl1 h3, List.append_nil]
      exact ⟨rfl, .tailEnd⟩
    change stepLoopD V (exec V.env n) (dv V n) cx st item acc sep = some d at h
    show ∃ calls, _
    cases sep with
    | none =>
      simp only [stepLoopD] at h
      split at h
      · rcases choose_q (E := V.env) hl h with ⟨h1, h2⟩ | h2
        · obtain ⟨d1, d2, h3, h4, h5, h6, h7, h8, h9, h10⟩ := baseD_q h2 ho hq
          obtain ⟨h11, h12⟩ := hfin hc.1 hl h3 h5 h4 h1
          obtain ⟨calls, h13, h14⟩ := hloop _ (d1.st.frame st.vars.length) d2 h12 h6 h8 h7
          refine ⟨oneCall d1.vals ++ calls, ?_, ?_⟩
          · rw [h10, h13, sinkCall_one, List.append_assoc]
          · rw [h9]; exact .tailNext h11 h14
        · exact hend _ _ _ st _ hl h2 hq ho
      · cases h
    | some s =>
      obtain ⟨s, k⟩ := s
      simp only [stepLoopD] at h
      rcases choose_q (E := V.env) hl h with ⟨h1, h2⟩ | h2
      · obtain ⟨d1, d2, h3, h4, h5, h6, h7, h8, h9, h10⟩ := baseD_q h2 ho hq
        obtain ⟨h11, h12⟩ := hfin (r := s) hc.2 hl h3 h5 h4 h1
        split at h6
        · rcases choose_q (E := V.env) (st := d1.st.frame st.vars.length) h12 h6 with ⟨h13, h14⟩ | h14
          · obtain ⟨d3, d4, h15, h16, h17, h18, h19, h20, h21, h22⟩ := baseD_q h14 h7 h8
            obtain ⟨h23, h24⟩ := hfin (st := d1.st.frame st.vars.length) hc.1 h12 h15 h17 h16 h13
            obtain ⟨calls, h25, h26⟩ := hloop _ (d3.st.frame st.vars.length) d4 h24 h18 h20 h19
            refine ⟨oneCall d1.vals ++ (oneCall d3.vals ++ calls), ?_, ?_⟩
            · rw [h10, h22, h25, sinkCall_one, sinkCall_one]; simp only [List.append_assoc]
            · rw [h9, h21]; exact .tailSep h11 h23 h26
          · obtain ⟨st2, e1, d3, h15, h16, h17, h18, h19, h20, h21⟩ := viaD'_q h14 h7 h8
            obtain ⟨d4, h22, h23, h24, h25, h26, h27⟩ := emitD_q h17 h18 h19
            obtain ⟨h28, h29⟩ := okD_inv h22
            refine ⟨oneCall d1.vals, ?_, ?_⟩
            · rw [h10, h21, h27, h29, sinkCall_one]; rfl
            · rw [h9, h20, h26, h28, cancel_ok (E := V.env) (st := d1.st.frame st.vars.length) h12 h15]
              exact .tailTrailing (trailing_quiet h24) h11
        · obtain ⟨d3, d4, h15, h16, h17, h18, h19, h20, h21, h22⟩ := baseD_q h6 h7 h8
          obtain ⟨h23, h24⟩ := hrun (st := d1.st.frame st.vars.length) hc.1 h12 h15 h17 h16
          obtain ⟨calls, h25, h26⟩ := hloop _ (d3.st.frame st.vars.length) d4 h24 h18 h20 h19
          refine ⟨oneCall d1.vals ++ (oneCall d3.vals ++ calls), ?_, ?_⟩
          · rw [h10, h22, h25, sinkCall_one, sinkCall_one]; simp only [List.append_assoc]
          · rw [h9, h21]; exact .tailSep h11 h23 h26
      · exact hend _ _ _ st _ hl h2 hq ho
  | lt s term item sep limit acc =>
    have hc' := hc
    simp only [VCmd.std, Bool.and_eq_true] at hc
    change stepLtD V (exec V.env n) (dv V n) cx st term item sep limit acc s = some d at h
    cases s with
    | term =>
      show ∃ calls, _
      rcases choose_q (E := V.env) hl h with ⟨h1, h2⟩ | h2
      · obtain ⟨h3, h4⟩ := okD_inv h2
        refine ⟨[], ?_⟩
        rw [h3, h4, List.append_nil]
        exact ⟨rfl, h1, .tailEnd⟩
      · obtain ⟨st1, e1, d2, h3, h4, h5, h6, h7, h8, h9⟩ := viaD'_q h2 ho hq
        rw [cancel_ok (E := V.env) hl h3] at h5
        rw [h8, h9]
        exact H cx (.lt .sep term item sep limit acc) st d2 hc' hl h5 h7 h6
    | sep =>
      show ∃ calls, _
      cases sep with
      | none =>
        obtain ⟨h1, m, vs, calls, h2, h3, h4⟩ := H cx (.lt .item term item none limit acc) st d hc' hl h hq ho
        exact ⟨_, h2, h1, .tailNext h3 h4⟩
      | some s =>
        obtain ⟨s, k⟩ := s
        simp only [stepLtD] at h
        rcases tryBaseD_q h ho hq with ⟨d1, d2, h3, h4, h5, h6, h7, h8, h9, h10⟩ | ⟨d1, h3, h4, h5⟩
        · obtain ⟨h11, h12⟩ := hrun (r := s) hc.2 hl h3 h5 h4
          obtain ⟨h13, h14⟩ := H cx (.lt (.trail st.pos) term item (some (s, k)) limit (sinkCall acc d1.vals))
            (d1.st.frame st.vars.length) d2 hc' h12 h6 h8 h7 rfl
          rw [h9, h10]
          rcases h14 with ⟨⟨s', k', h15, h16⟩, h17, h18⟩ | ⟨m, vs, calls, h15, h16, h17⟩
          · cases h15
            refine ⟨oneCall d1.vals, by rw [h18, sinkCall_one], h13, ?_⟩
            rw [h17]
            exact .tailTrailing h16 h11
          · exact ⟨oneCall d1.vals ++ (oneCall vs ++ calls), by rw [h15, sinkCall_one]; simp only [List.append_assoc], h13,
              .tailSep h11 h16 h17⟩
        · exact absurd h4 (dv_run_fail hV hc.2 hl h3 h5)
    | trail p =>
      intro hsep
      simp only [stepLtD] at h
      rcases choose_q (E := V.env) hl h with ⟨h1, h2⟩ | h2
      · obtain ⟨d4, h22, h23, h24, h25, h26, h27⟩ := emitD_q h2 ho hq
        obtain ⟨h28, h29⟩ := okD_inv h22
        rw [h26, h27, h28, h29]
        refine ⟨h1, .inl ⟨?_, rfl, rfl⟩⟩
        match sep, hsep, h24 with
        | some (s, k), _, h24 => exact ⟨s, k, rfl, trailing_quiet h24⟩
      · obtain ⟨h1, h3⟩ := H cx (.lt .item term item sep limit acc) st d hc' hl h2 hq ho
        exact ⟨h1, .inr h3⟩
    | item =>
      simp only [stepLtD] at h
      rcases tryBaseD_q h ho hq with ⟨d1, d2, h3, h4, h5, h6, h7, h8, h9, h10⟩ | ⟨d1, h3, h4, h5⟩
      · obtain ⟨h11, h12⟩ := hrun (r := item) hc.1.2 hl h3 h5 h4
        obtain ⟨calls, h13, h14, h15⟩ := H cx (.lt .term term item sep limit (sinkCall acc d1.vals)) (d1.st.frame st.vars.length) d2 hc'
          h12 h6 h8 h7
        show Takes .. ∧ _
        rw [h9, h10]
        exact ⟨h14, _, _, calls, by rw [h13, sinkCall_one, List.append_assoc], h11, h15⟩
      · exact absurd h4 (dv_run_fail hV hc.1.2 hl h3 h5)
    | reco b => trivial
  | repTail kd b m item sep acc =>
    simp only [VCmd.std, Bool.and_eq_true] at hc
    have hloop : ∀ (m : Nat) (acc : List (List Val)) (st : St) (d : DRes), st.pos ≤ V.inp.length →
        dv V n cx (.repTail kd b m item sep acc) st = some d →
        Quiet d.evs → d.out = .ok → ∃ calls, d.vals = repValue V cx.cur kd b d.st.pos (acc ++ calls) ∧
          VLang V cx.cur cx.cx.ws (.times m item sep calls) st.pos d.st.pos :=
      fun m acc st d h1 h2 h3 h4 => H cx (.repTail kd b m item sep acc) st d (by simp [VCmd.std, hc]) h1 h2 h3 h4
    change stepRepD V (dv V n) cx st kd b item sep acc m = some d at h
    show ∃ calls, _
    cases m with
    | zero =>
      simp only [stepRepD] at h
      obtain ⟨d1, d2, h3, h4, h5, h6, h7, h8, h9, h10⟩ := baseD_q h ho hq
      obtain ⟨h11, h12⟩ := hrun (std_trailing sep hc.2) hl h3 h5 h4
      obtain ⟨h13, h14⟩ := okD_inv h6
      rw [h9, h10, h13, h14]
      refine ⟨oneCall d1.vals, ?_, ?_⟩
      · rw [repDone_value]
        have := repAcc_value V cx.cur kd b (d1.st.frame st.vars.length).pos acc [] d1.vals
        simpa using this
      · show VLang _ _ _ _ _ d1.st.pos
        generalize d1.vals = vs at h11
        match sep, h11 with
        | none, h11 =>
          cases h11
          rename_i hh
          rw [(els_inv hh).2]
          exact .timesEnd
        | some (r, .sep tag), h11 =>
          cases h11
          rename_i hh
          rw [(nsep_inv hh).2]
          exact .timesEnd
        | some (r, .ignoreTrailing), h11 =>
          cases h11
          rename_i hh
          rw [(els_inv hh).2]
          exact .timesEnd
        | some (r, .trailing), h11 =>
          simp only [vTrailing] at h11
          split at h11
          · exact .timesTrailing trivial h11
          · rcases vifR_inv h11 with hh | ⟨rfl, hh⟩
            · exact .timesTrailing trivial hh
            · rw [hh]; exact .timesEnd
    | succ m =>
      cases sep with
      | none =>
        simp only [stepRepD] at h
        obtain ⟨d1, d2, h3, h4, h5, h6, h7, h8, h9, h10⟩ := baseD_q h ho hq
        obtain ⟨h11, h12⟩ := hrun hc.1 hl h3 h5 h4
        obtain ⟨calls, h13, h14⟩ := hloop m _ (d1.st.frame st.vars.length) d2 h12 h6 h8 h7
        refine ⟨oneCall d1.vals ++ calls, ?_, ?_⟩
        · rw [h10, h13, repAcc_value, h9]
        · rw [h9]; exact .timesNext h11 h14
      | some s =>
        obtain ⟨s, k⟩ := s
        simp only [stepRepD] at h
        obtain ⟨d1, d2, h3, h4, h5, h6, h7, h8, h9, h10⟩ := baseD_q h ho hq
        obtain ⟨h11, h12⟩ := hrun (r := s) hc.2 hl h3 h5 h4
        obtain ⟨d3, d4, h15, h16, h17, h18, h19, h20, h21, h22⟩ := baseD_q h6 h7 h8
        obtain ⟨h23, h24⟩ := hrun (st := d1.st.frame st.vars.length) hc.1 h12 h15 h17 h16
        obtain ⟨calls, h25, h26⟩ := hloop m _ (d3.st.frame st.vars.length) d4 h24 h18 h20 h19
        refine ⟨oneCall d1.vals ++ (oneCall d3.vals ++ calls), ?_, ?_⟩
        · rw [h10, h22, h25, repAcc_value, repAcc_value, h9, h21]
        · rw [h9, h21]; exact .timesSep h11 h23 h26
  | recov rc => trivial
  | recoLoop b limit rs => trivial
  | combLoop tag rs m handled count acc =>
    rintro rs0 els rfl hr0 rfl hd hs rfl
    change (if handled.length ≥ rs0.length then okD st (sinkDone V cx.cur acc) else _) = some d at h
    split at h
    · obtain ⟨h1, h2⟩ := okD_inv h
      refine ⟨[], ?_⟩
      rw [h1, h2, List.append_nil]
      exact ⟨rfl, .combAll (nodup_full hd hs (by assumption))⟩
    · split at h
      · cases h
      · rename_i r hrr
        have hstd := std_combRules rs0 els hr0
        have he := (erase_sim V hV n cx (.chcRun (combVRules rs0 els)) st hstd r hrr).2
        have hle : r.st.pos ≤ V.inp.length := ((exec_good V.env n cx.cx (.chcRun _) st hl _ he).bounds hl).2
        split at h
        · cases h; cases ho
        · rename_i hro
          cases h
          simp only [VCmd.erase, erase_combRules] at he
          have hb := (chcRun_comb (E := V.env) (exec_lang hx n) hl he hq).2 (by simp [DRes.res, hro])
          refine ⟨[], by rw [List.append_nil]; rfl, ?_⟩
          show VLang _ _ _ _ _ r.st.pos
          rcases hb with ⟨r', hr', h14⟩ | ⟨rfl, h14⟩
          · rw [eraseL_map] at hr'
            obtain ⟨r0, h15, rfl⟩ := List.mem_map.1 hr'
            exact .combBreak h15 h14
          · rw [show r.st.pos = st.pos from h14]; exact .combPartial
        · rename_i hro
          obtain ⟨d1, h1, rfl⟩ := Option.map_eq_some_iff.1 h
          have hqr : Quiet r.evs := hq.left
          obtain ⟨r0, h2, h3⟩ := chcRun_combV hV hx H Hs hr0 hl hrr hqr hro
          split at h1
          · obtain ⟨d2, _, _, h15, _⟩ := emitD_q h1 ho hq.right
            exact (not_quiet_error (l := []) h15).elim
          · rename_i hcn
            have hni : r.st.idx ∉ handled := by simpa [St.frame] using hcn
            obtain ⟨calls, h4, h5⟩ := H cx (.combLoop tag (combVRules rs0 els) rs0.length (r.st.idx :: handled) (handled.length + 1)
              (sinkCall acc r.vals)) (r.st.frame st.vars.length) d1 hstd hle h1 hq.right ho rs0 els rfl hr0 rfl
              (List.nodup_cons.2 ⟨hni, hd⟩) (fun i hi => by
                rcases List.mem_cons.1 hi with rfl | hi
                · exact (List.getElem?_eq_some_iff.1 h2).1
                · exact hs i hi) rfl
            refine ⟨oneCall r.vals ++ calls, ?_, .combNext h2 hni h3 h5⟩
            show [] ++ d1.vals = _
            rw [h4, sinkCall_one, List.append_assoc, List.nil_append]
        · cases h

end

theorem dv_lang {V : VEnv} (hV : ∀ m, (V.prods m).rule.std = true) (hx : ExprLits V.env) (n : Nat) : VHyp V n := by
  induction n using Nat.strongRecOn with
  | _ n ih =>
    cases n with
    | zero => exact fun _ _ _ _ _ _ h => by cases h
    | succ n => exact vl_step hV hx (ih n (by omega)) fun m hm => ih m (by omega)

theorem quiet_mono {a b : List Ev} (h : Quiet b) (hs : ∀ ev ∈ a, ev ∈ b) : Quiet a := fun ev he => h ev (hs ev he)

/-- The value of a parse without an error is the result of the callback of the production for values its rule has for what was
    consumed: every capture is the lexeme of the token that was matched, every list is the value of the sink for the calls of its items,
    every production is the result of its callback for the values of its own rule. -/
theorem C98_values {V : VEnv} {fuel n m : Nat} {r : VRes} {v : Val} (hV : ∀ k, (V.prods k).rule.std = true) (hx : ExprLits V.env)
    (h : parseV V fuel n m = some (r, some v)) (hq : ∀ ev ∈ r.evs, ev.isError = false) :
    ∃ p vs, v = .call n vs ∧ Lang V.env (V.prods n).ws .gap 0 p ∧ VLang V n (V.prods n).ws (.rule (V.prods n).rule vs) p r.st.pos := by
  rcases parseV_cases h with ⟨st0, evs0, hw, h1, h2, h3, h4⟩ | ⟨st0, evs0, d, hw, hd, hst, hr⟩
  · cases h1
  · rcases hr with ⟨vs, hvs, h1, he, hc⟩ | ⟨ho, h1, he, hc⟩
    · cases h1
      have hq0 : Quiet evs0 := quiet_mono hq (by rw [he]; intro ev hev; simp [hev])
      have hqd : Quiet d.evs := quiet_mono hq (by rw [he]; intro ev hev; simp [hev])
      obtain ⟨h5, h6⟩ := dgap hx (st := { pos := 0 }) (Nat.zero_le _) hw hq0
      rcases hvs with ⟨ho, rfl⟩ | ⟨pre, ho, -⟩
      · exact ⟨st0.pos, d.vals, rfl, h5, by rw [hst]; exact dv_lang hV hx fuel (V.cx0 n m) (.run (V.prods n).rule) st0 d (hV n) h6 hd hqd ho⟩
      · exact absurd ho ((erase_sim V hV fuel (V.cx0 n m) (.run (V.prods n).rule) st0 (hV n) d hd).1 pre)
    · cases h1

/-- Does it end at position `p` with the value `v` and without errors? -/
def givesQuietly (V : VEnv) (fuel p : Nat) (v : Val) : Bool :=
  match parseV V fuel 0 0 with
  | some (r, some w) => v.same w && r.st.pos == p && r.evs.all fun ev => !ev.isError
  | _ => false

/-- The hypotheses are met: `1, 22;` is a list of bytes. -/
example : ∃ r, parseV Val.Ex.bytesEnv 40 0 0 = some (r, some (.call 0 [.sink 0 [[.num 1], [.num 22]]])) ∧ r.st.pos = 6 ∧
    (∀ ev ∈ r.evs, ev.isError = false) ∧ ExprLits Val.Ex.bytesEnv.env := by
  have h : givesQuietly Val.Ex.bytesEnv 40 6 (.call 0 [.sink 0 [[.num 1], [.num 22]]]) = true := by decide +kernel
  unfold givesQuietly at h
  split at h
  · rename_i r w hx
    simp only [Bool.and_eq_true, beq_iff_eq, List.all_eq_true, Bool.not_eq_true'] at h
    obtain ⟨⟨h1, h2⟩, h3⟩ := h
    rw [Val.same_eq _ _ h1]
    exact ⟨r, hx, h2, h3, fun _ => ⟨fun _ => rfl, fun o ho => by simp [VEnv.env, Val.Ex.bytesEnv, Val.Ex.env, Verif.Ex.env, OpTree.all] at ho, fun o ho => by simp [VEnv.env, Val.Ex.bytesEnv, Val.Ex.env, Verif.Ex.env, OpTree.all] at ho⟩⟩
  · cases h

end Verif
