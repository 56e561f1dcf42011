import Verif.ParseTreeAction

/-
Parses that report no error never cancel a transparent production that has added something
(parse_as_tree.hpp l.93-104, parse_tree.hpp l.276-300), so their trees are lossless for all grammars.
-/

namespace Verif.PT

namespace Spec

/-- Every chain of operations has consumed something: none begins where one ends. -/
def ChainsConsume (evs : List Ev) : Prop := ∀ p, .opStart p ∈ evs → .opFinish p ∉ evs

/-- No error was reported. -/
def Quiet (evs : List Ev) : Prop := ∀ ev ∈ evs, ev.isError = false

end Spec

theorem fine_append {E : Env} {N : Names} {a : List Ev} {st st1 : Spec.St} {d d1 : Nat} {bs bs1 : List Nat}
    {o1 o2 : List Op} (h : specOps E N st d bs a = some (o1, st1, d1, bs1)) (h1 : Spec.FineRun st o1)
    (h2 : Spec.FineRun st1 o2) : Spec.FineRun st (o1 ++ o2) := by
  rw [fineRun_append]
  refine ⟨h1, fun st' hs => ?_⟩
  rw [specOps_run a h] at hs
  cases hs
  exact h2

/-- `Grows`, without any of the operations the builder gets wrong. -/
def GrowsF (E : Env) (N : Names) (evs : List Ev) (f : Spec.Frame) (b0 q : Nat) : Prop :=
  ∀ (r : List Spec.Frame) (lost d : Nat) (bs : List Nat), 0 < d →
    ∃ ops f' lost', specOps E N ⟨f :: r, lost⟩ d bs evs = some (ops, ⟨f' :: r, lost'⟩, d, bs)
      ∧ f'.prod = f.prod ∧ f'.trans = f.trans ∧ Adjacent b0 (PTree.leavesL f'.kids) q
      ∧ Spec.FineRun ⟨f :: r, lost⟩ ops ∧ f'.empt = false

theorem GrowsF.skip {E : Env} {N : Names} {f : Spec.Frame} {b0 p : Nat}
    (h : Adjacent b0 (PTree.leavesL f.kids) p) (he : f.empt = false) : ∀ {evs : List Ev},
    (∀ ev ∈ evs, ∀ c d bs, evOps E N c d bs ev = some ([], d, bs)) → GrowsF E N evs f b0 p := by
  intro evs
  induction evs with
  | nil => intro _ r lost d bs _; exact ⟨[], f, lost, rfl, rfl, rfl, h, trivial, he⟩
  | cons ev evs ih =>
    intro hs r lost d bs hd
    obtain ⟨ops, f', lost', h1, h2⟩ := ih (fun e he => hs e (by simp [he])) r lost d bs hd
    exact ⟨ops, f', lost', by simp [specOps, hs ev (by simp), Spec.run, h1], h2⟩

theorem GrowsF.append {E : Env} {N : Names} {f : Spec.Frame} {b0 p q : Nat} {a b : List Ev}
    (h1 : GrowsF E N a f b0 p)
    (h2 : ∀ f' : Spec.Frame, f'.prod = f.prod → f'.trans = f.trans →
      Adjacent b0 (PTree.leavesL f'.kids) p → f'.empt = false → GrowsF E N b f' b0 q) :
    GrowsF E N (a ++ b) f b0 q := by
  intro r lost d bs hd
  obtain ⟨o1, f1, l1, e1, e2, e3, e4, e5, e6⟩ := h1 r lost d bs hd
  obtain ⟨o2, f2, l2, g1, g2, g3, g4, g5, g6⟩ := h2 f1 e2 e3 e4 e6 r l1 d bs hd
  refine ⟨o1 ++ o2, f2, l2, ?_, g2.trans e2, g3.trans e3, g4, fine_append e1 e5 g5, g6⟩
  rw [specOps_append, e1]
  simp [g1]

theorem GrowsF.token {E : Env} {N : Names} {f : Spec.Frame} {b0 b e : Nat} (k : Kind)
    (h : Adjacent b0 (PTree.leavesL f.kids) b) (he : b ≤ e) (hm : f.empt = false) :
    GrowsF E N [.token k b e] f b0 e := by
  intro r lost d bs _
  exact ⟨_, _, lost, rfl, rfl, rfl, addToken_adj h he, ⟨trivial, fun _ _ => trivial⟩, hm⟩

theorem fine_finish (st : Spec.St) (l : List Op) (hl : l = [] ∨ ∃ k b e, l = [.token k b e]) :
    Spec.FineRun st (l ++ [.finishProd]) := by
  rcases hl with rfl | ⟨k, b, e, rfl⟩
  · exact ⟨trivial, fun _ _ => trivial⟩
  · exact ⟨trivial, fun _ _ => ⟨trivial, fun _ _ => trivial⟩⟩

theorem fine_cancel {st : Spec.St} {k b e : Nat} (h : Spec.Fine st .cancelProd) :
    Spec.FineRun st [.cancelProd, .token k b e] := ⟨h, fun _ _ => ⟨trivial, fun _ _ => trivial⟩⟩

theorem fine_start {i : Info} {st st1 : Spec.St} {o : List Op} (h : Spec.step st (.startProd i) = some st1)
    (ho : Spec.FineRun st1 o) : Spec.FineRun st ([.startProd i] ++ o) :=
  ⟨trivial, fun s' hs => by rw [h] at hs; cases hs; exact ho⟩

theorem GrowsF.prod {E : Env} {N : Names} {f : Spec.Frame} {b0 p q n : Nat} {a : List Ev}
    (h : Adjacent b0 (PTree.leavesL f.kids) p) (hpq : p ≤ q) (hm : f.empt = false)
    (ih : ∀ (f : Spec.Frame) (b0 : Nat), Adjacent b0 (PTree.leavesL f.kids) p → f.empt = false →
      GrowsF E N a f b0 q) :
    GrowsF E N (.prodStart n p :: (a ++ [.prodFinish n q])) f b0 q := by
  intro r lost d bs hd
  by_cases ht : (E.prods n).transparent = true
  · obtain ⟨o1, f1, l1, e1, e2, e3, e4, e5, e6⟩ := ih { f with trans := f.kids :: f.trans } b0 h hm r lost (d + 1)
      (p :: bs) (by omega)
    have hstart : specOps E N ⟨f :: r, lost⟩ d bs (.prodStart n p :: (a ++ [.prodFinish n q]))
        = (specOps E N ⟨f1 :: r, l1⟩ (d + 1) (p :: bs) [.prodFinish n q]).map
          fun (o2, x) => ([Op.startProd (prodInfo E n)] ++ (o1 ++ o2), x) := by
      simp only [specOps, evOps, hd, if_true, Option.bind_some, Spec.run, Spec.step, prodInfo, ht]
      rw [specOps_append, e1]
      simp only [Option.bind_some, Option.map_map]
      rfl
    rw [hstart]
    have hst : Spec.step ⟨f :: r, lost⟩ (.startProd (prodInfo E n))
        = some ⟨{ f with trans := f.kids :: f.trans } :: r, lost⟩ := by simp [Spec.step, prodInfo, ht]
    by_cases hc : f1.kids.length = 0
    · have hk : f1.kids = [] := by simpa using hc
      have hpp : b0 = q := by rw [hk] at e4; exact e4
      have hb := adjacent_le h
      have hpq' : p = q := by omega
      have hadj : Adjacent b0 (PTree.leavesL (Spec.addToken f1.kids positionKind p p)) q := by
        have := addToken_adj (k := positionKind) (e := p) (hpq' ▸ e4) (Nat.le_refl _)
        rw [← hpq']; exact this
      refine ⟨[Op.startProd (prodInfo E n)] ++ (o1 ++ [.token positionKind p p, .finishProd]),
        { f1 with kids := Spec.addToken f1.kids positionKind p p, trans := f.trans }, l1, ?_,
        e2, rfl, hadj, fine_start hst (fine_append e1 e5 ?_), e6⟩
      · simp [specOps, evOps, hk, hd, Spec.run, Spec.step, e3]
      · exact fine_finish _ [.token positionKind p p] (.inr ⟨_, _, _, rfl⟩)
    · refine ⟨[Op.startProd (prodInfo E n)] ++ (o1 ++ [.finishProd]), { f1 with trans := f.trans }, l1, ?_, e2, rfl,
        e4, fine_start hst (fine_append e1 e5 ?_), e6⟩
      · simp [specOps, evOps, show f1.kids ≠ [] by simpa using hc, hd, Spec.run, Spec.step, e3]
      · exact fine_finish _ [] (.inl rfl)
  · simp only [Bool.not_eq_true] at ht
    obtain ⟨o1, f1, l1, e1, e2, e3, e4, e5, e6⟩ := ih { prod := some (n, (E.prods n).isTok) } p
      (by simp [PTree.leavesL, Adjacent]) rfl (f :: r) lost (d + 1) (p :: bs) (by omega)
    have hstart : specOps E N ⟨f :: r, lost⟩ d bs (.prodStart n p :: (a ++ [.prodFinish n q]))
        = (specOps E N ⟨f1 :: f :: r, l1⟩ (d + 1) (p :: bs) [.prodFinish n q]).map
          fun (o2, x) => ([Op.startProd (prodInfo E n)] ++ (o1 ++ o2), x) := by
      simp only [specOps, evOps, hd, if_true, Option.bind_some, Spec.run, Spec.step, prodInfo, ht,
        Bool.false_eq_true, if_false]
      rw [specOps_append, e1]
      simp only [Option.bind_some, Option.map_map]
      rfl
    rw [hstart]
    have hst : Spec.step ⟨f :: r, lost⟩ (.startProd (prodInfo E n))
        = some ⟨{ prod := some (n, (E.prods n).isTok) } :: f :: r, lost⟩ := by simp [Spec.step, prodInfo, ht]
    simp only at e2 e3
    by_cases hc : f1.kids.length = 0
    · have hk : f1.kids = [] := by simpa using hc
      have hpq' : p = q := by rw [hk] at e4; exact e4
      have hadj : Adjacent p (PTree.leavesL (Spec.addToken f1.kids positionKind p p)) q := by
        rw [hk, ← hpq']
        exact addToken_adj (kids := []) rfl (Nat.le_refl _)
      refine ⟨[Op.startProd (prodInfo E n)] ++ (o1 ++ [.token positionKind p p, .finishProd]),
        { f with kids := f.kids ++ [.node n (E.prods n).isTok (Spec.addToken f1.kids positionKind p p)] }, l1, ?_,
        rfl, rfl, ?_, fine_start hst (fine_append e1 e5 ?_), hm⟩
      · simp [specOps, evOps, hk, hd, Spec.run, Spec.step, e2, e3]
      · rw [leavesL_append]
        refine adjacent_append' h ?_
        simpa [PTree.leavesL, PTree.leaves] using hadj
      · exact fine_finish _ [.token positionKind p p] (.inr ⟨_, _, _, rfl⟩)
    · refine ⟨[Op.startProd (prodInfo E n)] ++ (o1 ++ [.finishProd]),
        { f with kids := f.kids ++ [.node n (E.prods n).isTok f1.kids] }, l1, ?_, rfl, rfl, ?_,
        fine_start hst (fine_append e1 e5 ?_), hm⟩
      · simp [specOps, evOps, show f1.kids ≠ [] by simpa using hc, hd, Spec.run, Spec.step, e2, e3]
      · rw [leavesL_append]
        refine adjacent_append' h ?_
        simpa [PTree.leavesL, PTree.leaves] using e4
      · exact fine_finish _ [] (.inl rfl)

/-- Branches that are not taken have not added anything. -/
theorem cancel_fine {E : Env} {N : Names} {len p : Nat} {evs : List Ev} (h : CancelTr len p evs) :
    ∀ (f : Spec.Frame) (r : List Spec.Frame) (lost d : Nat) (bs : List Nat), 0 < d →
      ∃ ops lost', specOps E N ⟨f :: r, lost⟩ d bs evs = some (ops, ⟨f :: r, lost'⟩, d, bs)
        ∧ Spec.FineRun ⟨f :: r, lost⟩ ops := by
  induction h with
  | nil => intro f r lost d bs _; exact ⟨[], lost, rfl, trivial⟩
  | backtracked => intro f r lost d bs _; exact ⟨[], lost, rfl, trivial⟩
  | @prod n a _ ih =>
    intro f r lost d bs hd
    by_cases ht : (E.prods n).transparent = true
    · obtain ⟨o1, l1, e1, e2⟩ := ih { f with trans := f.kids :: f.trans } r lost (d + 1) (p :: bs) (by omega)
      refine ⟨[Op.startProd (prodInfo E n)] ++ (o1 ++ [.cancelProd, .token errorKind p p]), l1, ?_,
        fine_start (st1 := ⟨{ f with trans := f.kids :: f.trans } :: r, lost⟩) (by simp [Spec.step, prodInfo, ht])
          (fine_append e1 e2 (fine_cancel ?_))⟩
      · simp only [specOps, evOps, hd, if_true, Option.bind_some, Spec.run, Spec.step, prodInfo, ht]
        rw [specOps_append, e1]
        simp [specOps, evOps, hd, Spec.run, Spec.step, Spec.addToken, ignoreIfEmpty]
      · intro f' r' k ts h1 h2
        simp only [List.cons.injEq] at h1
        obtain ⟨rfl, _⟩ := h1
        simp only [List.cons.injEq] at h2
        exact h2.1.symm
    · simp only [Bool.not_eq_true] at ht
      obtain ⟨o1, l1, e1, e2⟩ := ih { prod := some (n, (E.prods n).isTok) } (f :: r) lost (d + 1) (p :: bs)
        (by omega)
      refine ⟨[Op.startProd (prodInfo E n)] ++ (o1 ++ [.cancelProd, .token errorKind p p]), l1, ?_,
        fine_start (st1 := ⟨{ prod := some (n, (E.prods n).isTok) } :: f :: r, lost⟩)
          (by simp [Spec.step, prodInfo, ht])
          (fine_append e1 e2 (fine_cancel ?_))⟩
      · simp only [specOps, evOps, hd, if_true, Option.bind_some, Spec.run, Spec.step, prodInfo, ht,
          Bool.false_eq_true, if_false]
        rw [specOps_append, e1]
        simp [specOps, evOps, hd, Spec.run, Spec.step, Spec.addToken, ignoreIfEmpty, PTree.sizeL]
      · intro f' r' k ts h1 h2
        simp only [List.cons.injEq] at h1
        obtain ⟨rfl, _⟩ := h1
        simp at h2
  | append _ _ ih1 ih2 =>
    intro f r lost d bs hd
    obtain ⟨o1, l1, e1, g1⟩ := ih1 f r lost d bs hd
    obtain ⟨o2, l2, e2, g2⟩ := ih2 f r l1 d bs hd
    exact ⟨o1 ++ o2, l2, by rw [specOps_append, e1]; simp [e2], fine_append e1 g1 g2⟩

theorem GrowsF.cancel {E : Env} {N : Names} {len p : Nat} {evs : List Ev} (h : CancelTr len p evs)
    {f : Spec.Frame} {b0 q : Nat} (hq : Adjacent b0 (PTree.leavesL f.kids) q) (hm : f.empt = false) :
    GrowsF E N evs f b0 q := by
  intro r lost d bs hd
  obtain ⟨ops, l, e, g⟩ := cancel_fine (E := E) (N := N) h f r lost d bs hd
  exact ⟨ops, f, l, e, rfl, rfl, hq, g, hm⟩

theorem GrowsF.search {E : Env} {N : Names} {len p q : Nat} {evs : List Ev} (h : SearchTr len p q evs)
    {f : Spec.Frame} {b0 x : Nat} (hq : Adjacent b0 (PTree.leavesL f.kids) x) (hm : f.empt = false) :
    GrowsF E N evs f b0 x := by
  induction h generalizing f with
  | start => exact .skip hq hm (by simp)
  | cancelled _ hc ih => exact .append (ih hq hm) fun f' _ _ h' hm' => .cancel hc h' hm'
  | bump _ ih => exact ih hq hm

theorem Spec.Quiet.left {a b : List Ev} (h : Spec.Quiet (a ++ b)) : Spec.Quiet a :=
  fun ev hev => h ev (List.mem_append_left _ hev)
theorem Spec.Quiet.right {a b : List Ev} (h : Spec.Quiet (a ++ b)) : Spec.Quiet b :=
  fun ev hev => h ev (List.mem_append_right _ hev)
theorem Spec.Quiet.mid {x : Ev} {a b : List Ev} (h : Spec.Quiet (x :: (a ++ b))) : Spec.Quiet a :=
  fun ev hev => h ev (List.mem_cons_of_mem _ (List.mem_append_left _ hev))
theorem Spec.ChainsConsume.sub {a b : List Ev} (h : Spec.ChainsConsume b) (hs : ∀ ev ∈ a, ev ∈ b) :
    Spec.ChainsConsume a := fun p h1 h2 => h p (hs _ h1) (hs _ h2)

/-- A trace that fails has an error. -/
theorem not_quiet {len : Nat} {c : Bool} {p q : Nat} {evs : List Ev} (h : TrC len c p .fail evs q)
    (hq : Spec.Quiet evs) : False := by
  obtain ⟨ev, h1, h2⟩ := h.fail_error rfl
  rw [hq ev h1] at h2
  cases h2

/-- Without errors the tree grows exactly by the input that is consumed, with no operation the builder
    gets wrong. -/
theorem TrC.growsF {E : Env} {N : Names} {len : Nat} {c : Bool} {p q : Nat} {o : Out} {evs : List Ev}
    (h : TrC len c p o evs q) (hp : p ≤ len) (hQ : Spec.Quiet evs) (hC : Spec.ChainsConsume evs) :
    ∀ (f : Spec.Frame) (b0 : Nat),
    (c = true → f.prod = none ∧ f.trans = []) → Adjacent b0 (PTree.leavesL f.kids) p → f.empt = false →
    GrowsF E N evs f b0 q := by
  induction h with
  | nil | brk => intro f b0 _ ha hm; exact .skip ha hm (by simp)
  | token k h1 => intro f b0 _ ha hm; exact .token k ha h1 hm
  | tokenFail tag h1 => exact absurd (hQ _ (List.mem_of_getLast? rfl)) (by simp [Ev.isError])
  | errorFail tag h1 | error tag h1 => exact absurd (hQ _ (List.mem_of_getLast? rfl)) (by simp [Ev.isError])
  | backtracked => intro f b0 _ ha hm; exact .skip ha hm (by simp [evOps])
  | wsFail hne hes h1 =>
    obtain ⟨ev, hev⟩ := List.exists_mem_of_ne_nil _ hne
    obtain ⟨_, _, _, rfl, _⟩ := hes ev hev
    exact absurd (hQ _ (List.mem_append_left _ hev)) (by simp [Ev.isError])
  | cancelled _ hc => intro f b0 _ ha hm; exact .cancel hc ha hm
  | seq h1 _ ih1 ih2 =>
    intro f b0 hc ha hm
    exact .append (ih1 hp hQ.left (hC.sub fun _ h => List.mem_append_left _ h) f b0 hc ha hm) fun f' e1 e2 h' hm' =>
      ih2 (h1.bounds hp).2 hQ.right (hC.sub fun _ h => List.mem_append_right _ h) f' b0 (by rw [e1, e2]; exact hc) h' hm'
  | recover h1 | failAfter h1 => exact (not_quiet h1 hQ.left).elim
  | caught _ ih => exact ih hp hQ hC
  | prod n h1 ih =>
    intro f b0 _ ha hm
    exact .prod ha (h1.bounds hp).1 hm fun f b0 ha hm => ih hp hQ.mid
      (hC.sub fun _ h => List.mem_cons_of_mem _ (List.mem_append_left _ h)) f b0 (by simp) ha hm
  | prodFail n h1 => exact (not_quiet h1 hQ.mid).elim
  | @chain c p q a o h1 _ ih =>
    intro f b0 _ ha hm r lost d bs hd
    obtain ⟨o1, f1, l1, e1, e2, e3, e4, e5, e6⟩ := ih hp hQ.mid
      (hC.sub fun _ h => List.mem_cons_of_mem _ (List.mem_append_left _ h)) { prod := none } p (by simp)
      (by simp [PTree.leavesL, Adjacent]) rfl (f :: r) lost d bs hd
    simp only at e2 e3
    have hne : f1.kids ≠ [] := by
      intro hk
      rw [hk] at e4
      have hpq : p = q := e4
      subst hpq
      exact hC p (by simp) (by simp)
    refine ⟨[.startCont] ++ (o1 ++ [.finishCont]),
      ⟨f.prod, f.kids ++ f1.kids, f.trans, f.empt || (f.kids.isEmpty && f1.kids.isEmpty)⟩, l1, ?_, ?_, ?_, ?_, ?_, ?_⟩
    · simp only [specOps, evOps, Option.bind_some, Spec.run, Spec.step]
      rw [specOps_append, e1]
      simp [specOps, evOps, Spec.run, Spec.step, e2, e3]
    · rfl
    · rfl
    · rw [leavesL_append]
      exact adjacent_append' ha e4
    · refine ⟨?_, fun s' hs => ?_⟩
      · intro f' r' h1 _ _
        simp only [List.cons.injEq] at h1
        rw [← h1.1]; exact hm
      · simp only [Spec.step, Option.some.injEq] at hs
        subst hs
        have hfin : Spec.FineRun ⟨f1 :: f :: r, l1⟩ [.finishCont] := ⟨trivial, fun _ _ => trivial⟩
        exact fine_append (o2 := [.finishCont]) e1 e5 hfin
    · simp [hm, hne]
  | op n =>
    intro f b0 hc ha hm r lost d bs hd
    obtain ⟨h1, h2⟩ := hc rfl
    by_cases ht : (N.op n).transparent = true
    · exact ⟨[.setCont (N.op n)], f, lost, by simp [specOps, evOps, Spec.run, Spec.step, h1, h2, ht], rfl, rfl, ha,
        ⟨trivial, fun _ _ => trivial⟩, hm⟩
    · refine ⟨[.setCont (N.op n)], { f with kids := [.node (N.op n).id (N.op n).isToken f.kids] }, lost,
        by simp [specOps, evOps, Spec.run, Spec.step, h1, h2, ht], rfl, rfl, ?_, ⟨trivial, fun _ _ => trivial⟩, hm⟩
      simpa [PTree.leavesL, PTree.leaves] using ha
  | @recovery c p q a h1 ih =>
    intro f b0 hc ha hm
    refine .append (a := [.recStart p]) (.skip ha hm (by simp [evOps])) fun f' _ _ h' hm' => ?_
    exact .append (ih hp hQ.mid (hC.sub fun _ h => List.mem_cons_of_mem _ (List.mem_append_left _ h)) f' b0
      (by simp) h' hm') fun f' _ _ h' hm' => .skip h' hm' (by simp [evOps])
  | recoveryFail h1 => exact (not_quiet h1 hQ.mid).elim
  | @search c p q ce h1 _ =>
    intro f b0 _ ha hm
    refine .append (a := [.recStart p]) (.skip ha hm (by simp [evOps])) fun f' _ _ h' hm' => ?_
    refine .append (.search h1 h' hm') fun f' _ _ h' hm' => ?_
    exact .append (a := [_]) (.token _ h' (Verif.TrC.search_le h1) hm') fun f' _ _ h' hm' => .skip h' hm' (by simp [evOps])
  | searchFail h1 => exact (not_quiet h1 hQ.left).elim

theorem fineEvents_quiet {E : Env} {N : Names} {fuel n d : Nat} {r : Res} (h : runGrammar E fuel n d = some r)
    (ho : r.out = .ok) (hQ : Spec.Quiet r.evs) (hC : Spec.ChainsConsume r.evs) : FineEvents E N n r.evs := by
  rcases runGrammar_tr h with ⟨evs, q, ht, hr, hq⟩ | ⟨evs, q, ht, hr, hq⟩
  · have hevs : r.evs = [.grammarStart 0, .prodStart n 0] ++ (evs ++ [Ev.prodFinish n q, .grammarFinish q]) := by
      rw [hr]
    rw [hevs] at hQ hC ⊢
    intro ops x hx
    rw [body_ok n q] at hx
    obtain ⟨ops', f, lost, h1, h2, h3, h4, h5, h6⟩ := TrC.growsF (E := E) (N := N) ht (Nat.zero_le _)
      hQ.right.left (hC.sub fun _ h => List.mem_append_right _ (List.mem_append_left _ h))
      { prod := some (n, (E.prods n).isTok) } 0 (by simp) rfl rfl [] 0 1 [0] (by omega)
    have hinit : Spec.init (prodInfo E n) = ⟨[{ prod := some (n, (E.prods n).isTok) }], 0⟩ := rfl
    rw [hinit] at hx ⊢
    rw [h1] at hx
    simp only [Option.some.injEq, Prod.mk.injEq] at hx
    rw [← hx.1]; exact h5
  · rw [hr] at ho; simp at ho

/-- **C33** A parse that succeeds without an error gives a lossless tree: for every grammar, also with
    transparent productions, whose chains of operations are not empty.
    Only part: the entry production is not transparent, and no error is reported. -/
theorem C33_lossless_quiet_partial {z : Sizes} (hz : z.Ok) {E : Env} {N : Names} {fuel n d : Nat} {r : Res}
    (hn : (E.prods n).transparent = false) (h : runGrammar E fuel n d = some r) (ho : r.out = .ok)
    (hQ : Spec.Quiet r.evs) (hC : Spec.ChainsConsume r.evs) :
    ∃ T t, treeOf z E N n r.evs = some (some T)
      ∧ (∀ m, t.size < m → readTree z T.heap m T.root = some t)
      ∧ Adjacent 0 t.leaves r.st.pos
      ∧ remainingInput T = some (r.st.pos, E.inp.length)
      ∧ textOf E.inp t.leaves ++ E.inp.drop r.st.pos = E.inp :=
  C33_lossless_partial hz hn h ho (fineEvents_quiet h ho hQ hC)

namespace Ex

/-- The transparent productions 1 and 2 are tried and not taken in front of each `c`, and taken at each
    `a`. -/
def quietTransparent (inp : List Nat) : Env := Verif.Ex.env inp fun
  | 0 => { rule := .seq (.lst (.chc [.prod 2, .tok (Verif.Ex.lit 8 18 [99])]) none) (.tok (Verif.Ex.lit 6 16 [46])) }
  | 1 => { rule := .br (.tok (Verif.Ex.lit 7 17 [97])) (.tok (Verif.Ex.lit 9 19 [98])), transparent := true }
  | _ => { rule := .prod 1, transparent := true }

/-- `cabcab.` -/
def quietInput : List Nat := [99, 97, 98, 99, 97, 98, 46]

example : treeIn small (quietTransparent quietInput) 0
    = some (some (.node 0 false [.tok 8 0 1, .tok 7 1 2, .tok 9 2 3, .tok 8 3 4, .tok 7 4 5, .tok 9 5 6,
        .tok 6 6 7]), .success) := by decide +kernel

/-- The hypotheses of `C33_lossless_quiet_partial` hold for it; the transparent productions are cancelled
    in front of each `c`. -/
example : ((runGrammar (quietTransparent quietInput) 60 0 10).map fun r =>
    (r.out, r.evs.all fun ev => !ev.isError, r.evs.contains (.prodCancel 2 3))) = some (.ok, true, true) := by
  decide +kernel
/-- And for an expression. -/
example : ((runGrammar sums 60 0 10).map fun r =>
    (r.out, r.evs.all fun ev => !ev.isError, r.evs.all fun
      | .opStart p => !r.evs.contains (.opFinish p)
      | _ => true, r.evs.any fun
      | .opOp _ _ => true
      | _ => false)) = some (.ok, true, true, true) := by decide +kernel

end Ex

end Verif.PT
