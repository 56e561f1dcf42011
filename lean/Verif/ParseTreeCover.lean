import Verif.ParseTreeAgree

/-
If no chain of operations is empty, the tree builder never violates a precondition, and nothing that was consumed is
missing in the tree, also with transparent productions and with errors.  (Parts of it can be in the tree twice,
`C33_transparent_refuted`.)
-/

namespace Verif.PT

namespace Spec

/-- The tokens go from `p` to `q` without a gap: each of them begins at or before the end of what precedes it, and
    ends at or behind it. -/
def Covers : Nat → List (Nat × Nat × Nat) → Nat → Prop
  | p, [], q => p = q
  | p, (_, b, e) :: r, q => b ≤ p ∧ p ≤ e ∧ Covers e r q

end Spec

/-- What the builder does instead of cancelling: for a transparent production it does the same as if it was
    finished (parse_tree.hpp l.605-630). -/
def fixOp (st : Spec.St) : Op → Op
  | .cancelProd => match st.frames with
    | f :: _ => if f.trans.isEmpty then .cancelProd else .finishProd
    | [] => .cancelProd
  | op => op

def fixOps (st : Spec.St) : List Op → List Op
  | [] => []
  | op :: ops => fixOp st op :: ops

/-- The operations for a sequence of events, as the builder treats them. -/
def realOps (E : Env) (N : Names) : Spec.St → Nat → List Nat → List Ev →
    Option (List Op × Spec.St × Nat × List Nat)
  | st, d, bs, [] => some ([], st, d, bs)
  | st, d, bs, ev :: evs =>
    (evOps E N ((st.frames.head?.map fun f => f.kids.length).getD 0) d bs ev).bind fun (ops, d', bs') =>
      (Spec.run st (fixOps st ops)).bind fun st' =>
        (realOps E N st' d' bs' evs).map fun (ops', r) => (fixOps st ops ++ ops', r)

theorem realOps_append {E : Env} {N : Names} (a b : List Ev) : ∀ (st : Spec.St) (d : Nat) (bs : List Nat),
    realOps E N st d bs (a ++ b) = (realOps E N st d bs a).bind fun (o1, st1, d1, bs1) =>
      (realOps E N st1 d1 bs1 b).map fun (o2, r) => (o1 ++ o2, r) := by
  induction a with
  | nil =>
    intro st d bs
    simp only [List.nil_append, realOps, Option.bind_some]
    cases realOps E N st d bs b <;> rfl
  | cons ev a ih =>
    intro st d bs
    simp only [List.cons_append, realOps]
    cases evOps E N ((st.frames.head?.map fun f => f.kids.length).getD 0) d bs ev with
    | none => rfl
    | some x =>
      obtain ⟨ops, d', bs'⟩ := x
      simp only [Option.bind_some]
      cases Spec.run st (fixOps st ops) with
      | none => rfl
      | some st' =>
        simp only [Option.bind_some, ih]
        cases realOps E N st' d' bs' a with
        | none => rfl
        | some y =>
          obtain ⟨o1, st1, d1, bs1⟩ := y
          simp only [Option.bind_some, Option.map_some]
          cases realOps E N st1 d1 bs1 b with
          | none => rfl
          | some w => simp

theorem realOps_run {E : Env} {N : Names} : ∀ (evs : List Ev) {st st' : Spec.St} {d d' : Nat}
    {bs bs' : List Nat} {ops : List Op}, realOps E N st d bs evs = some (ops, st', d', bs') →
    Spec.run st ops = some st' := by
  intro evs
  induction evs with
  | nil => intro st st' d d' bs bs' ops h; simp [realOps] at h; rw [h.1, h.2.1]; rfl
  | cons ev evs ih =>
    intro st st' d d' bs bs' ops h
    simp only [realOps, Option.bind_eq_some_iff, Option.map_eq_some_iff] at h
    obtain ⟨⟨o1, d1, bs1⟩, _, st1, h2, ⟨o2, r⟩, h3, h4⟩ := h
    simp only [Prod.mk.injEq] at h4
    obtain ⟨rfl, rfl⟩ := h4
    rw [spec_run_append, h2]
    exact ih h3

/-- Cancelling and finishing a transparent production are the same. -/
theorem cancel_is_finish {z : Sizes} {s : B} {f : GF} {r : List GF} {lost : Nat} (HI : Inv z s f r lost)
    (ht : f.trans ≠ []) : s.step z .cancelProd = s.step z .finishProd := by
  obtain ⟨cs, ms, h1, h2, h3, _⟩ := HI.marks
  cases cs with
  | nil => simp only [List.length_nil] at h2; exact absurd (List.length_eq_zero_iff.1 h2.symm) ht
  | cons c cs =>
    have hc := h3 c (by simp)
    simp [B.step, B.cancelProd, B.finishProd, B.pop, h1, hc]

theorem fix_run {z : Sizes} {s : B} {f : GF} {r : List GF} {lost : Nat} (HI : Inv z s f r lost) (ops : List Op) :
    s.run z (fixOps ⟨(f :: r).map GF.spec, lost⟩ ops) = s.run z ops := by
  cases ops with
  | nil => rfl
  | cons op ops =>
    simp only [fixOps, B.run]
    cases op with
    | cancelProd =>
      simp only [fixOp, List.map_cons]
      split
      · rfl
      · rename_i h
        rw [cancel_is_finish HI]
        intro ht
        exact h (by simp [GF.spec, ht])
    | _ => rfl

theorem real_sim {z : Sizes} (hz : z.Ok) {E : Env} {N : Names} : ∀ (evs : List Ev) {s : B} {f : GF}
    {r : List GF} {lost d d' : Nat} {bs bs' : List Nat} {st' : Spec.St} {ops : List Op},
    Inv z s f r lost → realOps E N ⟨(f :: r).map GF.spec, lost⟩ d bs evs = some (ops, st', d', bs') →
    Spec.FineRun ⟨(f :: r).map GF.spec, lost⟩ ops →
    ∃ s', PH.runs z E N ⟨s, d, bs⟩ evs = some ⟨s', d', bs'⟩ ∧ s.run z ops = some s' := by
  intro evs
  induction evs with
  | nil =>
    intro s f r lost d d' bs bs' st' ops _ h _
    simp only [realOps, Option.some.injEq, Prod.mk.injEq] at h
    obtain ⟨rfl, _, rfl, rfl⟩ := h
    exact ⟨s, rfl, rfl⟩
  | cons ev evs ih =>
    intro s f r lost d d' bs bs' st' ops HI h hf
    simp only [realOps, Option.bind_eq_some_iff, Option.map_eq_some_iff] at h
    obtain ⟨⟨o1, d1, bs1⟩, h1, st1, h2, ⟨o2, r2⟩, h3, h4⟩ := h
    simp only [Prod.mk.injEq] at h4
    obtain ⟨rfl, rfl⟩ := h4
    rw [fineRun_append] at hf
    obtain ⟨s1, f1, r1, lost1, g1, g2, g3, _⟩ := sim_run hz _ HI h2 hf.1
    subst g3
    obtain ⟨s', e1, e2⟩ := ih g2 h3 (hf.2 _ h2)
    have hcount : s.cur.count = (((((f :: r).map GF.spec)).head?.map fun f => f.kids.length).getD 0) := by
      simp [HI.top.mcount, spec_kids, AT.eraseL_length]
    refine ⟨s', ?_, ?_⟩
    · have g1' := g1
      rw [fix_run HI] at g1'
      simp only [PH.runs, PH.on, hcount]
      simp only [h1, Option.bind_some, g1', Option.map_some, e1]
    · have : ∀ (a b : List Op) (s : B), s.run z (a ++ b) = (s.run z a).bind (·.run z b) := by
        intro a b
        induction a with
        | nil => intro s; rfl
        | cons op a iha =>
          intro s
          simp only [List.cons_append, B.run]
          cases s.step z op with
          | none => rfl
          | some s => exact iha s
      rw [this, g1]; exact e2

theorem real_fine {E : Env} {N : Names} {a : List Ev} {st st1 : Spec.St} {d d1 : Nat} {bs bs1 : List Nat}
    {o1 o2 : List Op} (h : realOps E N st d bs a = some (o1, st1, d1, bs1)) (h1 : Spec.FineRun st o1)
    (h2 : Spec.FineRun st1 o2) : Spec.FineRun st (o1 ++ o2) := by
  rw [fineRun_append]
  refine ⟨h1, fun st' hs => ?_⟩
  rw [realOps_run a h] at hs
  cases hs
  exact h2

theorem fine_finish_token (st : Spec.St) (k b e : Nat) : Spec.FineRun st [.finishProd, .token k b e] :=
  ⟨trivial, fun _ _ => ⟨trivial, fun _ _ => trivial⟩⟩

/-! ### What the tree covers -/

theorem covers_append : ∀ {a b : List (Nat × Nat × Nat)} {p q r : Nat}, Spec.Covers p a q → Spec.Covers q b r →
    Spec.Covers p (a ++ b) r
  | [], _, _, _, _, h1, h2 => by cases h1; exact h2
  | (_, _, _) :: _, _, _, _, _, h1, h2 => ⟨h1.1, h1.2.1, covers_append h1.2.2 h2⟩

theorem covers_split : ∀ {a b : List (Nat × Nat × Nat)} {p r : Nat}, Spec.Covers p (a ++ b) r →
    ∃ q, Spec.Covers p a q ∧ Spec.Covers q b r
  | [], _, p, _, h => ⟨p, rfl, h⟩
  | (_, _, _) :: _, _, _, _, h => by
    obtain ⟨q, h1, h2⟩ := covers_split h.2.2
    exact ⟨q, ⟨h.1, h.2.1, h1⟩, h2⟩

theorem addToken_covers {kids : List PTree} {b0 b e k x : Nat} (h : Spec.Covers b0 (PTree.leavesL kids) x)
    (hb : b ≤ x) (he : x ≤ e) : Spec.Covers b0 (PTree.leavesL (Spec.addToken kids k b e)) e := by
  unfold Spec.addToken
  split
  · next hh => have : x = e := by omega
               rw [← this]; exact h
  · have happ : Spec.Covers b0 (PTree.leavesL (kids ++ [.tok k b e])) e := by
      rw [leavesL_append]
      exact covers_append h ⟨hb, he, rfl⟩
    split
    · next k' b' e' hl =>
      split
      · obtain ⟨ks, rfl⟩ : ∃ ks, kids = ks ++ [.tok k' b' e'] := by
          cases hne : kids.getLast? with
          | none => rw [hne] at hl; simp at hl
          | some x =>
            rw [hne] at hl
            simp only [Option.some.injEq] at hl
            subst hl
            exact List.getLast?_eq_some_iff.1 hne
        rw [leavesL_append] at h
        rw [List.dropLast_concat, leavesL_append]
        obtain ⟨y, h1, h2, h3, h4⟩ := covers_split h
        have h4 : e' = x := h4
        exact covers_append h1 ⟨h2, by omega, rfl⟩
      · exact happ
    · exact happ

/-- The effect of the events on the active node. -/
def CovG (E : Env) (N : Names) (evs : List Ev) (f : Spec.Frame) (b0 q : Nat) : Prop :=
  ∀ (r : List Spec.Frame) (lost d : Nat) (bs : List Nat), 0 < d →
    ∃ ops f' lost', realOps E N ⟨f :: r, lost⟩ d bs evs = some (ops, ⟨f' :: r, lost'⟩, d, bs)
      ∧ f'.prod = f.prod ∧ f'.trans = f.trans ∧ Spec.Covers b0 (PTree.leavesL f'.kids) q
      ∧ Spec.FineRun ⟨f :: r, lost⟩ ops ∧ f'.empt = false

theorem CovG.skip {E : Env} {N : Names} {f : Spec.Frame} {b0 p : Nat}
    (h : Spec.Covers b0 (PTree.leavesL f.kids) p) (hm : f.empt = false) : ∀ {evs : List Ev},
    (∀ ev ∈ evs, ∀ c d bs, evOps E N c d bs ev = some ([], d, bs)) → CovG E N evs f b0 p := by
  intro evs
  induction evs with
  | nil => intro _ r lost d bs _; exact ⟨[], f, lost, rfl, rfl, rfl, h, trivial, hm⟩
  | cons ev evs ih =>
    intro hs r lost d bs hd
    obtain ⟨ops, f', lost', h1, h2⟩ := ih (fun e he => hs e (by simp [he])) r lost d bs hd
    exact ⟨ops, f', lost', by simp [realOps, fixOps, hs ev (by simp), Spec.run, h1], h2⟩

theorem CovG.append {E : Env} {N : Names} {f : Spec.Frame} {b0 p q : Nat} {a b : List Ev}
    (h1 : CovG E N a f b0 p)
    (h2 : ∀ f' : Spec.Frame, f'.prod = f.prod → f'.trans = f.trans →
      Spec.Covers b0 (PTree.leavesL f'.kids) p → f'.empt = false → CovG E N b f' b0 q) :
    CovG E N (a ++ b) f b0 q := by
  intro r lost d bs hd
  obtain ⟨o1, f1, l1, e1, e2, e3, e4, e5, e6⟩ := h1 r lost d bs hd
  obtain ⟨o2, f2, l2, g1, g2, g3, g4, g5, g6⟩ := h2 f1 e2 e3 e4 e6 r l1 d bs hd
  refine ⟨o1 ++ o2, f2, l2, ?_, g2.trans e2, g3.trans e3, g4, real_fine e1 e5 g5, g6⟩
  rw [realOps_append, e1]
  simp [g1]

theorem CovG.token {E : Env} {N : Names} {f : Spec.Frame} {b0 b e : Nat} (k : Kind)
    (h : Spec.Covers b0 (PTree.leavesL f.kids) b) (he : b ≤ e)
    (hm : f.empt = false) : CovG E N [.token k b e] f b0 e := by
  intro r lost d bs _
  exact ⟨_, _, lost, rfl, rfl, rfl, addToken_covers h (Nat.le_refl _) he, ⟨trivial, fun _ _ => trivial⟩, hm⟩

theorem covers_nil {p q : Nat} (h : Spec.Covers p [] q) : q ≤ p := by
  have h : p = q := h
  omega

theorem covers_refl (p : Nat) : Spec.Covers p [] p := rfl

theorem CovG.prod {E : Env} {N : Names} {f : Spec.Frame} {b0 p q n : Nat} {a : List Ev}
    (h : Spec.Covers b0 (PTree.leavesL f.kids) p) (hb : b0 ≤ p) (hpq : p ≤ q)
    (hm : f.empt = false)
    (ih : ∀ (f : Spec.Frame) (b0 : Nat), b0 ≤ p → Spec.Covers b0 (PTree.leavesL f.kids) p → f.empt = false →
      CovG E N a f b0 q)
    (ev : Ev) (hev : ev = .prodFinish n q ∨ ev = .prodCancel n q) :
    CovG E N (.prodStart n p :: (a ++ [ev])) f b0 q := by
  intro r lost d bs hd
  by_cases ht : (E.prods n).transparent = true
  · obtain ⟨o1, f1, l1, e1, e2, e3, e4, e5, e6⟩ := ih { f with trans := f.kids :: f.trans } b0 hb h hm r lost (d + 1)
      (p :: bs) (by omega)
    have hst : Spec.step ⟨f :: r, lost⟩ (.startProd (prodInfo E n))
        = some ⟨{ f with trans := f.kids :: f.trans } :: r, lost⟩ := by simp [Spec.step, prodInfo, ht]
    have hstart : realOps E N ⟨f :: r, lost⟩ d bs (.prodStart n p :: (a ++ [ev]))
        = (realOps E N ⟨f1 :: r, l1⟩ (d + 1) (p :: bs) [ev]).map
          fun (o2, x) => ([Op.startProd (prodInfo E n)] ++ (o1 ++ o2), x) := by
      simp only [realOps, evOps, hd, if_true, Option.bind_some, fixOps, fixOp, Spec.run, Spec.step, prodInfo, ht]
      rw [realOps_append, e1]
      simp only [Option.bind_some, Option.map_map]
      rfl
    rw [hstart]
    rcases hev with rfl | rfl
    · by_cases hc : f1.kids.length = 0
      · have hk : f1.kids = [] := by simpa using hc
        have hpp : q ≤ b0 := covers_nil (by rw [hk] at e4; exact e4)
        have hpq' : p = q := by omega
        refine ⟨[Op.startProd (prodInfo E n)] ++ (o1 ++ [.token positionKind p p, .finishProd]),
          { f1 with kids := Spec.addToken f1.kids positionKind p p, trans := f.trans }, l1, ?_, e2, rfl, ?_,
          fine_start hst (real_fine e1 e5 (fine_finish _ [.token positionKind p p] (.inr ⟨_, _, _, rfl⟩))), e6⟩
        · simp [realOps, evOps, fixOps, fixOp, hk, hd, Spec.run, Spec.step, e3]
        · have := addToken_covers (k := positionKind) (b := p) (e := p) e4 (by omega) (by omega)
          rw [hpq'] at this ⊢; exact this
      · refine ⟨[Op.startProd (prodInfo E n)] ++ (o1 ++ [.finishProd]), { f1 with trans := f.trans }, l1, ?_, e2, rfl, e4,
          fine_start hst (real_fine e1 e5 (fine_finish _ [] (.inl rfl))), e6⟩
        simp [realOps, evOps, fixOps, fixOp, show f1.kids ≠ [] by simpa using hc, hd, Spec.run, Spec.step, e3]
    · refine ⟨[Op.startProd (prodInfo E n)] ++ (o1 ++ [.finishProd, .token errorKind p q]),
        { f1 with kids := Spec.addToken f1.kids errorKind p q, trans := f.trans }, l1, ?_, e2, rfl,
        addToken_covers e4 hpq (Nat.le_refl _),
        fine_start hst (real_fine e1 e5 (fine_finish_token _ _ _ _)), e6⟩
      simp [realOps, evOps, fixOps, fixOp, hd, Spec.run, Spec.step, e3]
  · simp only [Bool.not_eq_true] at ht
    obtain ⟨o1, f1, l1, e1, e2, e3, e4, e5, e6⟩ := ih { prod := some (n, (E.prods n).isTok) } p (Nat.le_refl _)
      (covers_refl p) rfl (f :: r) lost (d + 1) (p :: bs) (by omega)
    have hst : Spec.step ⟨f :: r, lost⟩ (.startProd (prodInfo E n))
        = some ⟨{ prod := some (n, (E.prods n).isTok) } :: f :: r, lost⟩ := by simp [Spec.step, prodInfo, ht]
    have hstart : realOps E N ⟨f :: r, lost⟩ d bs (.prodStart n p :: (a ++ [ev]))
        = (realOps E N ⟨f1 :: f :: r, l1⟩ (d + 1) (p :: bs) [ev]).map
          fun (o2, x) => ([Op.startProd (prodInfo E n)] ++ (o1 ++ o2), x) := by
      simp only [realOps, evOps, hd, if_true, Option.bind_some, fixOps, fixOp, Spec.run, Spec.step, prodInfo, ht,
        Bool.false_eq_true, if_false]
      rw [realOps_append, e1]
      simp only [Option.bind_some, Option.map_map]
      rfl
    rw [hstart]
    simp only at e2 e3
    rcases hev with rfl | rfl
    · by_cases hc : f1.kids.length = 0
      · have hk : f1.kids = [] := by simpa using hc
        have hpp : q ≤ p := covers_nil (by rw [hk] at e4; exact e4)
        have hpq' : p = q := by omega
        refine ⟨[Op.startProd (prodInfo E n)] ++ (o1 ++ [.token positionKind p p, .finishProd]),
          { f with kids := f.kids ++ [.node n (E.prods n).isTok (Spec.addToken f1.kids positionKind p p)] }, l1, ?_,
          rfl, rfl, ?_,
          fine_start hst (real_fine e1 e5 (fine_finish _ [.token positionKind p p] (.inr ⟨_, _, _, rfl⟩))), hm⟩
        · simp [realOps, evOps, fixOps, fixOp, hk, hd, Spec.run, Spec.step, e2, e3]
        · rw [leavesL_append]
          refine covers_append h ?_
          have := addToken_covers (k := positionKind) (b := p) (e := p) e4 (by omega) (by omega)
          rw [hpq'] at this ⊢
          simpa [PTree.leavesL, PTree.leaves] using this
      · refine ⟨[Op.startProd (prodInfo E n)] ++ (o1 ++ [.finishProd]),
          { f with kids := f.kids ++ [.node n (E.prods n).isTok f1.kids] }, l1, ?_, rfl, rfl, ?_,
          fine_start hst (real_fine e1 e5 (fine_finish _ [] (.inl rfl))), hm⟩
        · simp [realOps, evOps, fixOps, fixOp, show f1.kids ≠ [] by simpa using hc, hd, Spec.run, Spec.step, e2, e3]
        · rw [leavesL_append]
          refine covers_append h ?_
          simpa [PTree.leavesL, PTree.leaves] using e4
    · refine ⟨[Op.startProd (prodInfo E n)] ++ (o1 ++ [.cancelProd, .token errorKind p q]),
        { f with kids := Spec.addToken f.kids errorKind p q },
        l1 + (PTree.sizeL f1.kids - f1.kids.length), ?_, rfl, rfl, addToken_covers h (Nat.le_refl _) hpq,
        fine_start hst (real_fine e1 e5 (fine_cancel ?_)), hm⟩
      · simp [realOps, evOps, fixOps, fixOp, hd, Spec.run, Spec.step, e2, e3]
      · intro f' r' k ts h1 h2
        simp only [List.cons.injEq] at h1
        rw [← h1.1, e3] at h2
        cases h2

theorem cancel_cov {E : Env} {N : Names} {len p : Nat} {evs : List Ev} (h : CancelTr len p evs) :
    ∀ (f : Spec.Frame) (r : List Spec.Frame) (lost d : Nat) (bs : List Nat), 0 < d →
      ∃ ops lost', realOps E N ⟨f :: r, lost⟩ d bs evs = some (ops, ⟨f :: r, lost'⟩, d, bs)
        ∧ Spec.FineRun ⟨f :: r, lost⟩ ops := by
  induction h with
  | nil => intro f r lost d bs _; exact ⟨[], lost, rfl, trivial⟩
  | backtracked => intro f r lost d bs _; exact ⟨[], lost, rfl, trivial⟩
  | @prod n a _ ih =>
    intro f r lost d bs hd
    by_cases ht : (E.prods n).transparent = true
    · obtain ⟨o1, l1, e1, e2⟩ := ih { f with trans := f.kids :: f.trans } r lost (d + 1) (p :: bs) (by omega)
      refine ⟨[Op.startProd (prodInfo E n)] ++ (o1 ++ [.finishProd, .token errorKind p p]), l1, ?_,
        fine_start (st1 := ⟨{ f with trans := f.kids :: f.trans } :: r, lost⟩) (by simp [Spec.step, prodInfo, ht])
          (real_fine e1 e2 (fine_finish_token _ _ _ _))⟩
      simp only [realOps, evOps, hd, if_true, Option.bind_some, fixOps, fixOp, Spec.run, Spec.step, prodInfo, ht]
      rw [realOps_append, e1]
      simp [realOps, evOps, fixOps, fixOp, hd, Spec.run, Spec.step, Spec.addToken, ignoreIfEmpty]
    · simp only [Bool.not_eq_true] at ht
      obtain ⟨o1, l1, e1, e2⟩ := ih { prod := some (n, (E.prods n).isTok) } (f :: r) lost (d + 1) (p :: bs)
        (by omega)
      refine ⟨[Op.startProd (prodInfo E n)] ++ (o1 ++ [.cancelProd, .token errorKind p p]), l1, ?_,
        fine_start (st1 := ⟨{ prod := some (n, (E.prods n).isTok) } :: f :: r, lost⟩)
          (by simp [Spec.step, prodInfo, ht]) (real_fine e1 e2 (fine_cancel ?_))⟩
      · simp only [realOps, evOps, hd, if_true, Option.bind_some, fixOps, fixOp, Spec.run, Spec.step, prodInfo, ht,
          Bool.false_eq_true, if_false]
        rw [realOps_append, e1]
        simp [realOps, evOps, fixOps, fixOp, hd, Spec.run, Spec.step, Spec.addToken, ignoreIfEmpty, PTree.sizeL]
      · intro f' r' k ts h1 h2
        simp only [List.cons.injEq] at h1
        obtain ⟨rfl, _⟩ := h1
        simp at h2
  | append _ _ ih1 ih2 =>
    intro f r lost d bs hd
    obtain ⟨o1, l1, e1, g1⟩ := ih1 f r lost d bs hd
    obtain ⟨o2, l2, e2, g2⟩ := ih2 f r l1 d bs hd
    exact ⟨o1 ++ o2, l2, by rw [realOps_append, e1]; simp [e2], real_fine e1 g1 g2⟩

theorem CovG.cancel {E : Env} {N : Names} {len p : Nat} {evs : List Ev} (h : CancelTr len p evs)
    {f : Spec.Frame} {b0 q : Nat} (hq : Spec.Covers b0 (PTree.leavesL f.kids) q) (hm : f.empt = false) :
    CovG E N evs f b0 q := by
  intro r lost d bs hd
  obtain ⟨ops, l, e, g⟩ := cancel_cov (E := E) (N := N) h f r lost d bs hd
  exact ⟨ops, f, l, e, rfl, rfl, hq, g, hm⟩

theorem CovG.search {E : Env} {N : Names} {len p q : Nat} {evs : List Ev} (h : SearchTr len p q evs)
    {f : Spec.Frame} {b0 x : Nat} (hq : Spec.Covers b0 (PTree.leavesL f.kids) x) (hm : f.empt = false) :
    CovG E N evs f b0 x := by
  induction h generalizing f with
  | start => exact .skip hq hm (by simp)
  | cancelled _ hc ih => exact .append (ih hq hm) fun f' _ _ h' hm' => .cancel hc h' hm'
  | bump _ ih => exact ih hq hm

/-- The tree covers what is consumed. -/
theorem TrC.covers {E : Env} {N : Names} {len : Nat} {c : Bool} {p q : Nat} {o : Out} {evs : List Ev}
    (h : TrC len c p o evs q) (hp : p ≤ len) (hC : Spec.ChainsConsume evs) :
    ∀ (f : Spec.Frame) (b0 : Nat), (c = true → f.prod = none ∧ f.trans = []) → b0 ≤ p →
    Spec.Covers b0 (PTree.leavesL f.kids) p → f.empt = false → CovG E N evs f b0 q := by
  induction h with
  | nil | brk => intro f b0 _ _ ha hm; exact .skip ha hm (by simp)
  | token k h1 => intro f b0 _ _ ha hm; exact .token k ha h1 hm
  | tokenFail tag h1 =>
    intro f b0 _ _ ha hm
    exact .append (a := [_]) (.token _ ha h1 hm) fun f' _ _ h' hm' => .skip h' hm' (by simp [evOps])
  | errorFail | error | backtracked => intro f b0 _ _ ha hm; exact .skip ha hm (by simp [evOps])
  | wsFail _ hes h1 =>
    intro f b0 _ _ ha hm
    refine .append (.skip ha hm ?_) fun f' _ _ h' hm' => .token _ h' h1 hm'
    intro ev hev
    obtain ⟨_, _, _, rfl, _⟩ := hes ev hev
    simp [evOps]
  | cancelled _ hx => intro f b0 _ _ ha hm; exact .cancel hx ha hm
  | seq h1 _ ih1 ih2 | recover h1 _ ih1 ih2 | failAfter h1 _ ih1 ih2 =>
    intro f b0 hc hb ha hm
    exact .append (ih1 hp (hC.sub fun _ h => List.mem_append_left _ h) f b0 hc hb ha hm) fun f' e1 e2 h' hm' =>
      ih2 (h1.bounds hp).2 (hC.sub fun _ h => List.mem_append_right _ h) f' b0 (by rw [e1, e2]; exact hc)
        (Nat.le_trans hb (h1.bounds hp).1) h' hm'
  | caught _ ih => exact ih hp hC
  | prod n h1 ih =>
    intro f b0 _ hb ha hm
    exact .prod ha hb (h1.bounds hp).1 hm (fun f b0 => ih hp
      (hC.sub fun _ h => List.mem_cons_of_mem _ (List.mem_append_left _ h)) f b0 (by simp)) _ (.inl rfl)
  | prodFail n h1 ih =>
    intro f b0 _ hb ha hm
    exact .prod ha hb (h1.bounds hp).1 hm (fun f b0 => ih hp
      (hC.sub fun _ h => List.mem_cons_of_mem _ (List.mem_append_left _ h)) f b0 (by simp)) _ (.inr rfl)
  | @chain c p q a o h1 _ ih =>
    intro f b0 _ hb ha hm r lost d bs hd
    obtain ⟨o1, f1, l1, e1, e2, e3, e4, e5, e6⟩ := ih hp
      (hC.sub fun _ h => List.mem_cons_of_mem _ (List.mem_append_left _ h)) { prod := none } p (by simp)
      (Nat.le_refl _) (covers_refl p) rfl (f :: r) lost d bs hd
    simp only at e2 e3
    have hpq := (h1.bounds hp).1
    have hne : f1.kids ≠ [] := by
      intro hk
      rw [hk] at e4
      have hpq : p = q := by have := covers_nil e4; omega
      subst hpq
      exact hC p (by simp) (by simp)
    refine ⟨[.startCont] ++ (o1 ++ [.finishCont]),
      ⟨f.prod, f.kids ++ f1.kids, f.trans, f.empt || (f.kids.isEmpty && f1.kids.isEmpty)⟩, l1, ?_, rfl, rfl, ?_, ?_, ?_⟩
    · simp only [realOps, evOps, Option.bind_some, fixOps, fixOp, Spec.run, Spec.step]
      rw [realOps_append, e1]
      simp [realOps, evOps, fixOps, fixOp, Spec.run, Spec.step, e2, e3]
    · rw [leavesL_append]
      exact covers_append ha e4
    · refine ⟨?_, fun s' hs => ?_⟩
      · intro f' r' h1 _ _
        simp only [List.cons.injEq] at h1
        rw [← h1.1]; exact hm
      · simp only [Spec.step, Option.some.injEq] at hs
        subst hs
        have hfin : Spec.FineRun ⟨f1 :: f :: r, l1⟩ [.finishCont] := ⟨trivial, fun _ _ => trivial⟩
        exact real_fine (o2 := [.finishCont]) e1 e5 hfin
    · simp [hm, hne]
  | op n =>
    intro f b0 hc hb ha hm r lost d bs hd
    obtain ⟨h1, h2⟩ := hc rfl
    by_cases ht : (N.op n).transparent = true
    · exact ⟨[.setCont (N.op n)], f, lost, by simp [realOps, evOps, fixOps, fixOp, Spec.run, Spec.step, h1, h2, ht],
        rfl, rfl, ha, ⟨trivial, fun _ _ => trivial⟩, hm⟩
    · refine ⟨[.setCont (N.op n)], { f with kids := [.node (N.op n).id (N.op n).isToken f.kids] }, lost,
        by simp [realOps, evOps, fixOps, fixOp, Spec.run, Spec.step, h1, h2, ht], rfl, rfl, ?_,
        ⟨trivial, fun _ _ => trivial⟩, hm⟩
      simpa [PTree.leavesL, PTree.leaves] using ha
  | @recovery c p q a h1 ih =>
    intro f b0 _ hb ha hm
    refine .append (a := [.recStart p]) (.skip ha hm (by simp [evOps])) fun f' _ _ h' hm' => ?_
    exact .append (ih hp (hC.sub fun _ h => List.mem_cons_of_mem _ (List.mem_append_left _ h)) f' b0 (by simp) hb h' hm')
      fun f' _ _ h' hm' => .skip h' hm' (by simp [evOps])
  | @recoveryFail c p q a h1 ih =>
    intro f b0 _ hb ha hm
    refine .append (a := [.recStart p]) (.skip ha hm (by simp [evOps])) fun f' _ _ h' hm' => ?_
    exact .append (ih hp (hC.sub fun _ h => List.mem_cons_of_mem _ (List.mem_append_left _ h)) f' b0 (by simp) hb h' hm')
      fun f' _ _ h' hm' => .skip h' hm' (by simp [evOps])
  | @search c p q ce h1 _ =>
    intro f b0 _ _ ha hm
    refine .append (a := [.recStart p]) (.skip ha hm (by simp [evOps])) fun f' _ _ h' hm' => ?_
    refine .append (.search h1 h' hm') fun f' _ _ h' hm' => ?_
    exact .append (a := [_]) (.token _ h' (Verif.TrC.search_le h1) hm') fun f' _ _ h' hm' => .skip h' hm' (by simp [evOps])
  | @searchFail c p q r a ce h1 h2 _ ih =>
    intro f b0 hc hb ha hm
    refine .append (ih hp (hC.sub fun _ h => List.mem_append_left _ h) f b0 hc hb ha hm) fun f' _ _ h' hm' => ?_
    refine .append (a := [.recStart q]) (.skip h' hm' (by simp [evOps])) fun f' _ _ h' hm' => ?_
    refine .append (.search h2 h' hm') fun f' _ _ h' hm' => ?_
    exact .append (a := [_]) (.token _ h' (Verif.TrC.search_le h2) hm') fun f' _ _ h' hm' => .skip h' hm' (by simp [evOps])

/-! ### The properties -/

theorem treeOf_real {z : Sizes} (hz : z.Ok) {E : Env} {N : Names} {n q : Nat} {evs : List Ev} {o : Out}
    (ht : Tr E.inp.length 0 o evs q) (hn : (E.prods n).transparent = false) {a : Ev}
    (hab : a = .prodFinish n q ∨ a = .prodCancel n q) (hf : Spec.ChainsConsume evs) :
    ∃ s ops f lost, (B.new z (prodInfo E n)).bind
        (fun s => PH.runs z E N ⟨s, 0, []⟩ (.prodStart n 0 :: (evs ++ [a]))) = some ⟨s, 0, []⟩
      ∧ (B.new z (prodInfo E n)).bind (·.run z ops) = some s
      ∧ Spec.run (Spec.init (prodInfo E n)) ops = some ⟨[f], lost⟩
      ∧ Spec.FineRun (Spec.init (prodInfo E n)) ops
      ∧ f.prod = some (n, (E.prods n).isTok) ∧ f.trans = [] ∧ Spec.Covers 0 (PTree.leavesL f.kids) q := by
  obtain ⟨ops, f, lost, h1, h2, h3, h4, hfine, _⟩ := TrC.covers (E := E) (N := N) ht (Nat.zero_le _) hf
    { prod := some (n, (E.prods n).isTok) } 0 (by simp) (Nat.le_refl _) (covers_refl 0) rfl [] 0 1 [0] (by omega)
  have hinit : Spec.init (prodInfo E n) = ⟨[{ prod := some (n, (E.prods n).isTok) }], 0⟩ := rfl
  rw [← hinit] at h1 hfine
  obtain ⟨s0, f0, n1, n2, n3, n4⟩ := new_ok hz (prodInfo E n) hn
  have hst : Spec.init (prodInfo E n) = ⟨[f0].map GF.spec, 0⟩ := by
    rw [List.map_singleton, n3]; rfl
  have h1' := h1
  rw [hst] at h1' hfine
  obtain ⟨s, g1, g2⟩ := real_sim hz evs n2 h1' hfine
  rw [← hst] at hfine
  refine ⟨s, ops, f, lost, ?_, by rw [n1]; exact g2, realOps_run evs h1, hfine, h2, h3, h4⟩
  rw [n1]
  simp only [Option.bind_some]
  have happ : ∀ (x y : List Ev) (h : PH), h.runs z E N (x ++ y) = (h.runs z E N x).bind (·.runs z E N y) := by
    intro x y
    induction x with
    | nil => intro h; rfl
    | cons ev x ih =>
      intro h
      simp only [List.cons_append, PH.runs]
      cases h.on z E N ev with
      | none => rfl
      | some h => exact ih h
  have hs : PH.runs z E N ⟨s0, 0, []⟩ (.prodStart n 0 :: (evs ++ [a]))
      = (PH.runs z E N ⟨s0, 1, [0]⟩ evs).bind (·.runs z E N [a]) := by
    rw [PH.runs]
    simp only [PH.on, evOps, Nat.lt_irrefl, if_false, Option.bind_some, B.run, Option.map_some]
    exact happ _ _ _
  rw [hs, g1]
  rcases hab with rfl | rfl <;> rfl

theorem parse_built {z : Sizes} (hz : z.Ok) {E : Env} {N : Names} {fuel n d : Nat} {r : Res}
    (hn : (E.prods n).transparent = false) (h : runGrammar E fuel n d = some r) (hC : Spec.ChainsConsume r.evs) :
    ∃ x, parseAsTree z E N fuel n d = some (x, validateResult r)
      ∧ (r.out ≠ .ok → x = none)
      ∧ (r.out = .ok → ∃ T t, x = some T
        ∧ (∃ ops lost, Built z (prodInfo E n) ops t lost r.st.pos E.inp.length T)
        ∧ Spec.Covers 0 t.leaves r.st.pos) := by
  rcases runGrammar_tr h with ⟨evs, q, ht, hr, hq⟩ | ⟨evs, q, ht, hr, hq⟩
  · have hevs : r.evs = [.grammarStart 0, .prodStart n 0] ++ (evs ++ [Ev.prodFinish n q, .grammarFinish q]) := by
      rw [hr]
    have hN : Spec.ChainsConsume evs := hC.sub fun ev he => by rw [hevs]; simp [he]
    obtain ⟨s, ops, f, lost, h1, h2, h3, h4, h5, h6, h7⟩ := treeOf_real (N := N) hz ht hn (.inl rfl) hN
    obtain ⟨T, e1, e2⟩ := C30_builds_partial hz (root := prodInfo E n) hn h3
      (t := .node n (E.prods n).isTok f.kids) (by simp [Spec.finished, h5, h6]) h4 q E.inp.length
    have hfin : s.finish z q E.inp.length = some T := by
      have := e1
      unfold build at this
      rw [h2] at this
      exact this
    have htree : treeOf z E N n r.evs = some (some T) := by
      rw [hevs]
      have hdl : ([Ev.prodStart n 0] ++ (evs ++ [Ev.prodFinish n q, .grammarFinish q])).dropLast
          = .prodStart n 0 :: (evs ++ [.prodFinish n q]) := by
        have : [Ev.prodStart n 0] ++ (evs ++ [Ev.prodFinish n q, .grammarFinish q])
          = (.prodStart n 0 :: (evs ++ [.prodFinish n q])) ++ [.grammarFinish q] := by simp
        rw [this, List.dropLast_concat]
      have hgl : ([Ev.grammarStart 0, .prodStart n 0] ++ (evs ++ [Ev.prodFinish n q, .grammarFinish q])).getLast?
          = some (.grammarFinish q) := by
        have : [Ev.grammarStart 0, .prodStart n 0] ++ (evs ++ [Ev.prodFinish n q, .grammarFinish q])
          = (.grammarStart 0 :: .prodStart n 0 :: (evs ++ [.prodFinish n q])) ++ [.grammarFinish q] := by simp
        rw [this, List.getLast?_concat]
      unfold treeOf
      rw [hgl]
      simp only [List.cons_append, List.nil_append] at hdl ⊢
      rw [hdl]
      obtain ⟨s0, n1, n2⟩ := Option.bind_eq_some_iff.1 h1
      rw [n1]
      simp only [Option.bind_some, n2, hfin]
      rfl
    refine ⟨some T, by simp [parseAsTree, h, htree], fun hne => ?_, fun _ => ⟨T, .node n (E.prods n).isTok f.kids, rfl, ⟨ops, lost, ?_⟩, ?_⟩⟩
    · exact absurd (by rw [hr]) hne
    · rw [hq]; exact e2
    · rw [hq]; simpa [PTree.leaves] using h7
  · have hevs : r.evs = [.grammarStart 0, .prodStart n 0] ++ (evs ++ [Ev.prodCancel n q, .grammarCancel q]) := by
      rw [hr]
    have hN : Spec.ChainsConsume evs := hC.sub fun ev he => by rw [hevs]; simp [he]
    obtain ⟨s, ops, f, lost, h1, h2, h3, h4, h5, h6, h7⟩ := treeOf_real (N := N) hz ht hn (.inr rfl) hN
    have htree : treeOf z E N n r.evs = some none := by
      rw [hevs]
      have hdl : ([Ev.prodStart n 0] ++ (evs ++ [Ev.prodCancel n q, .grammarCancel q])).dropLast
          = .prodStart n 0 :: (evs ++ [.prodCancel n q]) := by
        have : [Ev.prodStart n 0] ++ (evs ++ [Ev.prodCancel n q, .grammarCancel q])
          = (.prodStart n 0 :: (evs ++ [.prodCancel n q])) ++ [.grammarCancel q] := by simp
        rw [this, List.dropLast_concat]
      have hgl : ([Ev.grammarStart 0, .prodStart n 0] ++ (evs ++ [Ev.prodCancel n q, .grammarCancel q])).getLast?
          = some (.grammarCancel q) := by
        have : [Ev.grammarStart 0, .prodStart n 0] ++ (evs ++ [Ev.prodCancel n q, .grammarCancel q])
          = (.grammarStart 0 :: .prodStart n 0 :: (evs ++ [.prodCancel n q])) ++ [.grammarCancel q] := by simp
        rw [this, List.getLast?_concat]
      unfold treeOf
      rw [hgl]
      simp only [List.cons_append, List.nil_append] at hdl ⊢
      rw [hdl]
      obtain ⟨s0, n1, n2⟩ := Option.bind_eq_some_iff.1 h1
      rw [n1]
      simp only [Option.bind_some, n2]
      rfl
    refine ⟨none, by simp [parseAsTree, h, htree], fun _ => rfl, fun ho => ?_⟩
    rw [hr] at ho; simp at ho

/-- **C33** For every grammar, also with transparent productions and with errors, if no chain of operations is empty:
    `parse_as_tree` ends without a violated precondition, with the result of `validate`.  It has a tree if the parse
    succeeds or recovers; the tree can be read, has the remaining input, and its tokens cover everything before that
    without a gap.
    Only part: empty chains, transparent entry productions, and that nothing belongs to two tokens. -/
theorem C33_covers_partial {z : Sizes} (hz : z.Ok) {E : Env} {N : Names} {fuel n d : Nat} {r : Res}
    (hn : (E.prods n).transparent = false) (h : runGrammar E fuel n d = some r) (hC : Spec.ChainsConsume r.evs) :
    ∃ x, parseAsTree z E N fuel n d = some (x, validateResult r)
      ∧ (r.out ≠ .ok → x = none)
      ∧ (r.out = .ok → ∃ T t, x = some T
        ∧ (∀ m, t.size < m → readTree z T.heap m T.root = some t)
        ∧ remainingInput T = some (r.st.pos, E.inp.length)
        ∧ Spec.Covers 0 t.leaves r.st.pos) := by
  obtain ⟨x, h1, h2, h3⟩ := parse_built (N := N) hz hn h hC
  refine ⟨x, h1, h2, fun ho => ?_⟩
  obtain ⟨T, t, e1, ⟨ops, lost, e2⟩, e3⟩ := h3 ho
  exact ⟨T, t, e1, fun m hm => C30_tree_partial e2 hm, C30_remaining_partial e2, e3⟩

/-- Then every position between belongs to one of the tokens. -/
theorem Spec.Covers.mem : ∀ {ts : List (Nat × Nat × Nat)} {p q i : Nat}, Spec.Covers p ts q → p ≤ i → i < q →
    ∃ x, ts.find? (fun x => decide (i < x.2.2)) = some x ∧ x.2.1 ≤ i ∧ i < x.2.2
  | [], p, q, i, h, h1, h2 => by have h : p = q := h; omega
  | (k, b, e) :: r, p, q, i, h, h1, h2 => by
    obtain ⟨g1, g2, g3⟩ := h
    by_cases hi : i < e
    · exact ⟨(k, b, e), by simp [hi], show b ≤ i by omega, hi⟩
    · obtain ⟨x, h3, h4⟩ := g3.mem (i := i) (by omega) h2
      exact ⟨x, by simp [hi, h3], h4⟩

/-- **C34** `find_covering_node(tree, position)` on such a tree is a token that contains the position, for every position
    before the remaining input. -/
theorem C34_find_covering_parse_partial {z : Sizes} (hz : z.Ok) {E : Env} {N : Names} {fuel n d : Nat} {T : Tree}
    {v : Validated} (hn : (E.prods n).transparent = false) (hC : ∀ r, runGrammar E fuel n d = some r →
      Spec.ChainsConsume r.evs) (h : parseAsTree z E N fuel n d = some (some T, v)) :
    ∃ p t, remainingInput T = some (p, E.inp.length) ∧ (∀ m, t.size < m → readTree z T.heap m T.root = some t)
      ∧ ∀ m i, 2 * t.size < m → i < p →
        ∃ a k x y, findCovering z T m i = some a ∧ tokenOf T.heap a = some (k, x, y) ∧ x ≤ i ∧ i < y := by
  obtain ⟨r, h1, _⟩ := Option.bind_eq_some_iff.1 h
  obtain ⟨x, h3, h4, h5⟩ := parse_built (N := N) hz hn h1 (hC r h1)
  rw [h] at h3
  simp only [Option.some.injEq, Prod.mk.injEq] at h3
  obtain ⟨rfl, _⟩ := h3
  have ho : r.out = .ok := Classical.byContradiction fun hn => by cases h4 hn
  obtain ⟨T', t, e, ⟨ops, lost, e2⟩, e3⟩ := h5 ho
  cases e
  refine ⟨_, t, C30_remaining_partial e2, fun m hm => C30_tree_partial e2 hm, fun m i hm hi => ?_⟩
  obtain ⟨a, l, g1, g2, g3⟩ := C34_tokens_partial e2 hm (p := []) (v := t) (by cases t <;> rfl)
  simp only [walk, Option.some.injEq] at g1
  subst g1
  obtain ⟨x, hx, hx1, hx2⟩ := e3.mem (Nat.zero_le _) hi
  obtain ⟨a, ha, hax⟩ := find_map (f := tokenOf T.heap) (P := fun x => decide (i < x.2.2))
    (Q := fun a => match T.heap.get a with
      | some ⟨_, _, .tok _ _ e⟩ => i < e
      | _ => false) l t.leaves g3 (by
      intro a y hy
      unfold tokenOf at hy
      cases hg : T.heap.get a with
      | none => rw [hg] at hy; simp at hy
      | some nd =>
        rw [hg] at hy
        obtain ⟨n1, n2, d⟩ := nd
        cases d with
        | tok k b e => simp at hy; subst hy; simp
        | prod => simp at hy) x hx
  obtain ⟨k, x1, x2⟩ := x
  refine ⟨a, k, x1, x2, ?_, hax, hx1, hx2⟩
  unfold findCovering
  rw [g2]
  exact ha

/-- **C42** For grammars without expressions whose entry production is not transparent `parse_as_tree` ends whenever
    `validate` does, with the same result, and has a tree exactly if `parse` has a value. -/
theorem C42_tree_no_expr {z : Sizes} (hz : z.Ok) {E : Env} {N : Names} {fuel n d : Nat}
    (hE : Verif.Spec.NoExprs E n) (hn : (E.prods n).transparent = false) (v : Validated) :
    validateAction E fuel n d = some v ↔
      ∃ t p, parseAsTree z E N fuel n d = some (t, v) ∧ parseAction E fuel n d = some p ∧ p.impl = v
        ∧ t.isSome = p.hasValue := by
  constructor
  · intro h
    obtain ⟨r, h1, h2⟩ := Option.map_eq_some_iff.1 h
    subst h2
    obtain ⟨t, h3, _⟩ := C33_covers_partial (N := N) hz hn h1 fun _ hp _ => runGrammar_chainless hE h1 _ hp
    obtain ⟨_, p, h4, h5, h6⟩ := C42_tree_agrees h3
    exact ⟨t, p, h3, h4, h5, h6⟩
  · rintro ⟨t, p, h, _⟩
    exact (C42_tree_agrees h).1

end Verif.PT

namespace Verif.Json

/-- **C33** The parse trees of the JSON example have everything that was consumed, also if there were errors. -/
theorem C33_json_covers {z : PT.Sizes} (hz : z.Ok) {N : PT.Names} {s : List Nat} {fuel : Nat} {T : PT.Tree}
    {v : Validated} (h : PT.parseAsTree z (env s) N fuel 0 maxDepth = some (some T, v)) :
    ∃ t p, (∀ m, t.size < m → PT.readTree z T.heap m T.root = some t)
      ∧ PT.remainingInput T = some (p, s.length) ∧ PT.Spec.Covers 0 t.leaves p := by
  obtain ⟨r, h1, _⟩ := Option.bind_eq_some_iff.1 h
  obtain ⟨x, h3, h4, h5⟩ := PT.C33_covers_partial (N := N) hz rfl h1
    fun _ hp _ => runGrammar_chainless (noExprs_plain (E := env s) plain_prods 0) h1 _ hp
  rw [h] at h3
  simp only [Option.some.injEq, Prod.mk.injEq] at h3
  obtain ⟨rfl, _⟩ := h3
  have ho : r.out = .ok := Classical.byContradiction fun hn => by cases h4 hn
  obtain ⟨T', t, e, h6, h7, h8⟩ := h5 ho
  cases e
  exact ⟨t, _, h6, h7, h8⟩

/-- **C33** and building the tree ends without a violated precondition, for every input. -/
theorem C33_json_ends {z : PT.Sizes} (hz : z.Ok) (N : PT.Names) (s : List Nat) :
    ∃ fuel x v, ∀ k, fuel ≤ k → PT.parseAsTree z (env s) N k 0 maxDepth = some (x, v) := by
  obtain ⟨fuel, b, h⟩ := C81_ends s
  obtain ⟨r, h1, _⟩ := Option.map_eq_some_iff.1 (h fuel (Nat.le_refl _))
  obtain ⟨x, h3, _⟩ := PT.C33_covers_partial (N := N) hz rfl h1
    fun _ hp _ => runGrammar_chainless (noExprs_plain (E := env s) plain_prods 0) h1 _ hp
  refine ⟨fuel, x, validateResult r, fun k hk => ?_⟩
  unfold PT.parseAsTree at h3 ⊢
  rw [runGrammar_mono hk h1]
  rw [h1] at h3
  exact h3

/-- **C34** In the JSON example there is a token for every position of the input that was consumed, and
    `find_covering_node` finds it. -/
theorem C34_json {z : PT.Sizes} (hz : z.Ok) {N : PT.Names} {s : List Nat} {fuel : Nat} {T : PT.Tree}
    {v : Validated} (h : PT.parseAsTree z (env s) N fuel 0 maxDepth = some (some T, v)) :
    ∃ p t, PT.remainingInput T = some (p, s.length) ∧ (∀ m, t.size < m → PT.readTree z T.heap m T.root = some t)
      ∧ ∀ m i, 2 * t.size < m → i < p →
        ∃ a k x y, PT.findCovering z T m i = some a ∧ PT.tokenOf T.heap a = some (k, x, y) ∧ x ≤ i ∧ i < y :=
  PT.C34_find_covering_parse_partial hz rfl
    (fun _ h1 _ hp _ => runGrammar_chainless (noExprs_plain (E := env s) plain_prods 0) h1 _ hp) h

/-- **C42** The JSON example has a parse tree for an input exactly if the parse of that input succeeds or recovers. -/
theorem C42_json {z : PT.Sizes} (hz : z.Ok) (N : PT.Names) (s : List Nat) (fuel : Nat) (v : Validated) :
    validateAction (env s) fuel 0 maxDepth = some v ↔
      ∃ t p, PT.parseAsTree z (env s) N fuel 0 maxDepth = some (t, v) ∧ parseAction (env s) fuel 0 maxDepth = some p
        ∧ p.impl = v ∧ t.isSome = p.hasValue :=
  PT.C42_tree_no_expr hz (noExprs_plain (E := env s) plain_prods 0) rfl v

/-- `["a⏎,1]`: a recovered parse in which `json_value` is cancelled. -/
example : ((PT.parseAsTree .x64 (env [0x5B, 0x22, 0x61, 0x0A, 0x2C, 0x31, 0x5D]) PT.Ex.names 60 0 maxDepth).bind
    fun (T, v) => T.bind fun T => (PT.readTree .x64 T.heap 60 T.root).map fun t =>
      (t.leaves.map (·.2), PT.remainingInput T, v.status))
    = some ([(0, 1), (1, 4), (4, 5), (5, 6), (6, 7), (7, 7)], some (7, 7), .recovered) := by decide +kernel

end Verif.Json
