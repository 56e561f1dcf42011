import Verif.ParseTreeProps
import Verif.TraceProps
import Verif.ActionProps
import Verif.ExprEx

/-!
# C33: `parse_as_tree`

Models include/lexy/action/parse_as_tree.hpp: the handler `_pth` that builds a parse tree from the
events of a parse (Grammar.lean, Trace.lean) with the builder of ParseTree.lean.

Simplification: the marker and `_validate` of the event handler of every production live in the
parse context of the production; here they are on stacks, which is the same by C35 (events are well
nested).
-/

namespace Verif.PT

/-- What the grammar knows about productions, operations and token kinds. -/
structure Names where
  user : Nat → Nat
  op : Nat → Info

/-- `token_kind` values, grammar.hpp l.82-98. -/
def Names.kind (N : Names) : Kind → Nat
  | .error => errorKind
  | .whitespace => whitespaceKind
  | .position => positionKind
  | .eof => eofKind
  | .identifier => 65528
  | .user n => N.user n

/-- The `production_info`. -/
def prodInfo (E : Env) (n : Nat) : Info := ⟨n, (E.prods n).isTok, (E.prods n).transparent⟩

/-- What `_pth::event_handler::on` does with the builder (l.54-113): the operations, and `_depth` and
    the beginnings of the open productions (`_validate.production_begin()`) afterwards.  `count` is
    `current_child_count()`. -/
def evOps (E : Env) (N : Names) (count depth : Nat) (begins : List Nat) :
    Ev → Option (List Op × Nat × List Nat)
  | .prodStart n p => some (if 0 < depth then [.startProd (prodInfo E n)] else [], depth + 1, p :: begins)
  | .prodFinish _ _ =>
    match begins with
    | [] => none
    | b :: bs =>
      some (if 0 < depth - 1 then
          (if count = 0 then [.token positionKind b b] else []) ++ [.finishProd] else [], depth - 1, bs)
  | .prodCancel _ q =>
    match begins with
    | [] => none
    | b :: bs => some (if 0 < depth - 1 then [.cancelProd, .token errorKind b q] else [], depth - 1, bs)
  | .opStart _ => some ([.startCont], depth, begins)
  | .opOp op _ => some ([.setCont (N.op op)], depth, begins)
  | .opFinish _ => some ([.finishCont], depth, begins)
  | .token k b e => some ([.token (N.kind k) b e], depth, begins)
  | _ => some ([], depth, begins)

/-- `_pth` during the parse, l.142-147. -/
structure PH where
  b : B
  depth : Nat
  begins : List Nat

/-- An event between `grammar_start` and `grammar_finish`. -/
def PH.on (z : Sizes) (E : Env) (N : Names) (h : PH) (ev : Ev) : Option PH :=
  (evOps E N h.b.cur.count h.depth h.begins ev).bind fun (ops, d, bs) =>
    (h.b.run z ops).map fun b => ⟨b, d, bs⟩

def PH.runs (z : Sizes) (E : Env) (N : Names) (h : PH) : List Ev → Option PH
  | [] => some h
  | ev :: evs => (h.on z E N ev).bind (·.runs z E N evs)

/-- The events of a whole parse with the entry production `n`: `grammar_start` creates the builder,
    l.31-36; `grammar_finish` takes the remaining input with `dsl::any` and finishes the tree, l.37-46;
    `grammar_cancel` clears it, l.47-52.  The result is the tree, or `some none` for an empty one. -/
def treeOf (z : Sizes) (E : Env) (N : Names) (n : Nat) (evs : List Ev) : Option (Option Tree) :=
  match evs, evs.getLast? with
  | .grammarStart _ :: rest, some last =>
    (B.new z (prodInfo E n)).bind fun b =>
      (PH.runs z E N ⟨b, 0, []⟩ rest.dropLast).bind fun h =>
        if h.depth ≠ 0 then none
        else match last with
          | .grammarFinish p => (h.b.finish z p E.inp.length).map some
          | .grammarCancel _ => some none
          | _ => none
  | _, _ => none

/-- `lexy::parse_as_tree`, l.150-213: the tree and the result of validation. -/
def parseAsTree (z : Sizes) (E : Env) (N : Names) (fuel n d : Nat) :
    Option (Option Tree × Validated) :=
  (runGrammar E fuel n d).bind fun r => (treeOf z E N n r.evs).map fun t => (t, validateResult r)

/-! ### The same on specification states -/

/-- The operations for a sequence of events, with the child counts of the specification. -/
def specOps (E : Env) (N : Names) : Spec.St → Nat → List Nat → List Ev →
    Option (List Op × Spec.St × Nat × List Nat)
  | st, d, bs, [] => some ([], st, d, bs)
  | st, d, bs, ev :: evs =>
    (evOps E N ((st.frames.head?.map fun f => f.kids.length).getD 0) d bs ev).bind fun (ops, d', bs') =>
      (Spec.run st ops).bind fun st' =>
        (specOps E N st' d' bs' evs).map fun (ops', r) => (ops ++ ops', r)

theorem spec_run_append (a b : List Op) (st : Spec.St) :
    Spec.run st (a ++ b) = (Spec.run st a).bind (Spec.run · b) := by
  induction a generalizing st with
  | nil => rfl
  | cons op a ih =>
    simp only [List.cons_append, Spec.run]
    cases Spec.step st op with
    | none => rfl
    | some s => exact ih s

theorem fineRun_append (a b : List Op) (st : Spec.St) :
    Spec.FineRun st (a ++ b) ↔ Spec.FineRun st a ∧ ∀ st', Spec.run st a = some st' → Spec.FineRun st' b := by
  induction a generalizing st with
  | nil => simp [Spec.FineRun, Spec.run]
  | cons op a ih =>
    simp only [List.cons_append, Spec.FineRun, Spec.run]
    constructor
    · rintro ⟨h1, h2⟩
      refine ⟨⟨h1, fun s' hs => ((ih s').1 (h2 s' hs)).1⟩, ?_⟩
      intro st' hst
      cases hs : Spec.step st op with
      | none => rw [hs] at hst; simp at hst
      | some s =>
        rw [hs] at hst
        exact ((ih s).1 (h2 s hs)).2 st' hst
    · rintro ⟨⟨h1, h2⟩, h3⟩
      refine ⟨h1, fun s' hs => (ih s').2 ⟨h2 s' hs, fun st' hst => h3 st' ?_⟩⟩
      rw [hs]; exact hst

theorem specOps_append {E : Env} {N : Names} (a b : List Ev) (st : Spec.St) (d : Nat) (bs : List Nat) :
    specOps E N st d bs (a ++ b) = (specOps E N st d bs a).bind fun (o1, st1, d1, bs1) =>
      (specOps E N st1 d1 bs1 b).map fun (o2, r) => (o1 ++ o2, r) := by
  induction a generalizing st d bs with
  | nil =>
    simp only [List.nil_append, specOps, Option.bind_some]
    cases specOps E N st d bs b <;> simp
  | cons ev a ih =>
    simp only [List.cons_append, specOps]
    cases evOps E N ((st.frames.head?.map fun f => f.kids.length).getD 0) d bs ev with
    | none => rfl
    | some x =>
      obtain ⟨ops, d', bs'⟩ := x
      simp only [Option.bind_some]
      cases hr : Spec.run st ops with
      | none => rfl
      | some st' =>
        simp only [Option.bind_some, ih]
        cases specOps E N st' d' bs' a with
        | none => rfl
        | some y =>
          obtain ⟨o1, st1, d1, bs1⟩ := y
          simp only [Option.bind_some, Option.map_some]
          cases specOps E N st1 d1 bs1 b with
          | none => rfl
          | some w => simp

theorem specOps_run {E : Env} {N : Names} : ∀ (evs : List Ev) {st st' : Spec.St} {d d' : Nat}
    {bs bs' : List Nat} {ops : List Op}, specOps E N st d bs evs = some (ops, st', d', bs') →
    Spec.run st ops = some st' := by
  intro evs
  induction evs with
  | nil => intro st st' d d' bs bs' ops h; simp [specOps] at h; rw [h.1, h.2.1]; rfl
  | cons ev evs ih =>
    intro st st' d d' bs bs' ops h
    simp only [specOps, Option.bind_eq_some_iff, Option.map_eq_some_iff] at h
    obtain ⟨⟨o1, d1, bs1⟩, _, st1, h2, ⟨o2, r⟩, h3, h4⟩ := h
    simp only [Prod.mk.injEq] at h4
    obtain ⟨rfl, rfl⟩ := h4
    rw [spec_run_append, h2]
    exact ih h3

/-- The handler does what the specification says. -/
theorem runs_sim {z : Sizes} (hz : z.Ok) {E : Env} {N : Names} : ∀ (evs : List Ev) {s : B} {f : GF}
    {r : List GF} {lost d d' : Nat} {bs bs' : List Nat} {st' : Spec.St} {ops : List Op},
    Inv z s f r lost → specOps E N ⟨(f :: r).map GF.spec, lost⟩ d bs evs = some (ops, st', d', bs') →
    Spec.FineRun ⟨(f :: r).map GF.spec, lost⟩ ops →
    ∃ s', PH.runs z E N ⟨s, d, bs⟩ evs = some ⟨s', d', bs'⟩ ∧ s.run z ops = some s' := by
  intro evs
  induction evs with
  | nil =>
    intro s f r lost d d' bs bs' st' ops _ h _
    simp only [specOps, Option.some.injEq, Prod.mk.injEq] at h
    obtain ⟨rfl, _, rfl, rfl⟩ := h
    exact ⟨s, rfl, rfl⟩
  | cons ev evs ih =>
    intro s f r lost d d' bs bs' st' ops HI h hf
    simp only [specOps, Option.bind_eq_some_iff, Option.map_eq_some_iff] at h
    obtain ⟨⟨o1, d1, bs1⟩, h1, st1, h2, ⟨o2, r2⟩, h3, h4⟩ := h
    simp only [Prod.mk.injEq] at h4
    obtain ⟨rfl, rfl⟩ := h4
    rw [fineRun_append] at hf
    obtain ⟨s1, f1, r1, lost1, g1, g2, g3, _⟩ := sim_run hz o1 HI h2 hf.1
    subst g3
    obtain ⟨s', e1, e2⟩ := ih g2 h3 (hf.2 _ h2)
    have hcount : s.cur.count = (((((f :: r).map GF.spec)).head?.map fun f => f.kids.length).getD 0) := by
      simp [HI.top.mcount, spec_kids, AT.eraseL_length]
    refine ⟨s', ?_, ?_⟩
    · simp only [PH.runs, PH.on, hcount]
      simp only [h1, Option.bind_some, g1, Option.map_some, e1]
    · have : ∀ (a b : List Op) (s : B), s.run z (a ++ b) = (s.run z a).bind (·.run z b) := by
        intro a b
        induction a with
        | nil => intro s; rfl
        | cons op a iha =>
          intro s
          simp only [List.cons_append, B.run]
          cases s.step z op with
          | none => rfl
          | some s => exact iha s
      rw [this, g1]; exact e2

/-! ### Leaves -/

theorem leavesL_append (a b : List PTree) : PTree.leavesL (a ++ b) = PTree.leavesL a ++ PTree.leavesL b := by
  induction a with
  | nil => rfl
  | cons t a ih => simp [PTree.leavesL, ih]

theorem adjacent_append' {p q r : Nat} {a b : List (Nat × Nat × Nat)} (h1 : Adjacent p a q)
    (h2 : Adjacent q b r) : Adjacent p (a ++ b) r := by
  induction a generalizing p with
  | nil => simp only [Adjacent] at h1; subst h1; exact h2
  | cons x a ih => exact ⟨h1.1, h1.2.1, ih h1.2.2⟩

theorem adjacent_split {p r : Nat} {a b : List (Nat × Nat × Nat)} (h : Adjacent p (a ++ b) r) :
    ∃ q, Adjacent p a q ∧ Adjacent q b r := by
  induction a generalizing p with
  | nil => exact ⟨p, rfl, h⟩
  | cons x a ih =>
    obtain ⟨h1, h2, h3⟩ := h
    obtain ⟨q, h4, h5⟩ := ih h3
    exact ⟨q, ⟨h1, h2, h4⟩, h5⟩

theorem adjacent_le {p q : Nat} : ∀ {a : List (Nat × Nat × Nat)}, Adjacent p a q → p ≤ q := by
  intro a
  induction a generalizing p with
  | nil => intro h; exact Nat.le_of_eq h
  | cons x a ih => rintro ⟨h1, h2, h3⟩; have := ih h3; omega

theorem addToken_adj {kids : List PTree} {b0 b e k : Nat} (h : Adjacent b0 (PTree.leavesL kids) b)
    (he : b ≤ e) : Adjacent b0 (PTree.leavesL (Spec.addToken kids k b e)) e := by
  unfold Spec.addToken
  split
  · next hh => rw [← hh.2]; exact h
  · have happ : Adjacent b0 (PTree.leavesL (kids ++ [.tok k b e])) e := by
      rw [leavesL_append]
      exact adjacent_append' h ⟨rfl, he, rfl⟩
    split
    · next k' b' e' hl =>
      split
      · obtain ⟨ks, rfl⟩ : ∃ ks, kids = ks ++ [.tok k' b' e'] := by
          cases hne : kids.getLast? with
          | none => rw [hne] at hl; simp at hl
          | some x =>
            rw [hne] at hl
            simp only [Option.some.injEq] at hl
            subst hl
            exact List.getLast?_eq_some_iff.1 hne
        rw [leavesL_append] at h
        obtain ⟨q, h1, h2⟩ := adjacent_split h
        simp only [PTree.leavesL, PTree.leaves, List.append_nil, List.nil_append, Adjacent] at h2
        rw [List.dropLast_concat, leavesL_append]
        refine adjacent_append' h1 ?_
        simp only [PTree.leavesL, PTree.leaves, List.append_nil, List.nil_append, Adjacent]
        obtain ⟨g1, g2, g3⟩ := h2
        exact ⟨g1, by omega, trivial⟩
      · exact happ
    · exact happ

/-- The effect of the events on the active node. -/
def Grows (E : Env) (N : Names) (evs : List Ev) (f : Spec.Frame) (b0 q : Nat) : Prop :=
  ∀ (r : List Spec.Frame) (lost d : Nat) (bs : List Nat), 0 < d →
    ∃ ops f' lost', specOps E N ⟨f :: r, lost⟩ d bs evs = some (ops, ⟨f' :: r, lost'⟩, d, bs)
      ∧ f'.prod = f.prod ∧ f'.trans = f.trans ∧ Adjacent b0 (PTree.leavesL f'.kids) q

theorem Grows.skip {E : Env} {N : Names} {f : Spec.Frame} {b0 p : Nat}
    (h : Adjacent b0 (PTree.leavesL f.kids) p) : ∀ {evs : List Ev},
    (∀ ev ∈ evs, ∀ c d bs, evOps E N c d bs ev = some ([], d, bs)) → Grows E N evs f b0 p := by
  intro evs
  induction evs with
  | nil => intro _ r lost d bs _; exact ⟨[], f, lost, rfl, rfl, rfl, h⟩
  | cons ev evs ih =>
    intro hs r lost d bs hd
    obtain ⟨ops, f', lost', h1, h2⟩ := ih (fun e he => hs e (by simp [he])) r lost d bs hd
    exact ⟨ops, f', lost', by simp [specOps, hs ev (by simp), Spec.run, h1], h2⟩

theorem Grows.append {E : Env} {N : Names} {f : Spec.Frame} {b0 p q : Nat} {a b : List Ev}
    (h1 : Grows E N a f b0 p)
    (h2 : ∀ f' : Spec.Frame, f'.prod = f.prod → f'.trans = f.trans →
      Adjacent b0 (PTree.leavesL f'.kids) p → Grows E N b f' b0 q) : Grows E N (a ++ b) f b0 q := by
  intro r lost d bs hd
  obtain ⟨o1, f1, l1, e1, e2, e3, e4⟩ := h1 r lost d bs hd
  obtain ⟨o2, f2, l2, g1, g2, g3, g4⟩ := h2 f1 e2 e3 e4 r l1 d bs hd
  refine ⟨o1 ++ o2, f2, l2, ?_, g2.trans e2, g3.trans e3, g4⟩
  rw [specOps_append, e1]
  simp [g1]

theorem Grows.token {E : Env} {N : Names} {f : Spec.Frame} {b0 b e : Nat} (k : Kind)
    (h : Adjacent b0 (PTree.leavesL f.kids) b) (he : b ≤ e) : Grows E N [.token k b e] f b0 e := by
  intro r lost d bs _
  exact ⟨_, _, lost, rfl, rfl, rfl, addToken_adj h he⟩

theorem Grows.prod {E : Env} {N : Names} {f : Spec.Frame} {b0 p q n : Nat} {a : List Ev}
    (h : Adjacent b0 (PTree.leavesL f.kids) p) (hpq : p ≤ q)
    (ih : ∀ (f : Spec.Frame) (b0 : Nat), Adjacent b0 (PTree.leavesL f.kids) p → Grows E N a f b0 q)
    (ev : Ev) (hev : ev = .prodFinish n q ∨ ev = .prodCancel n q) :
    Grows E N (.prodStart n p :: (a ++ [ev])) f b0 q := by
  intro r lost d bs hd
  by_cases ht : (E.prods n).transparent = true
  · obtain ⟨o1, f1, l1, e1, e2, e3, e4⟩ := ih { f with trans := f.kids :: f.trans } b0 h r lost (d + 1)
      (p :: bs) (by omega)
    have hstart : specOps E N ⟨f :: r, lost⟩ d bs (.prodStart n p :: (a ++ [ev]))
        = (specOps E N ⟨f1 :: r, l1⟩ (d + 1) (p :: bs) [ev]).map
          fun (o2, x) => ([Op.startProd (prodInfo E n)] ++ (o1 ++ o2), x) := by
      simp only [specOps, evOps, hd, if_true, Option.bind_some, Spec.run, Spec.step, prodInfo, ht]
      rw [specOps_append, e1]
      simp only [Option.bind_some, Option.map_map]
      rfl
    rw [hstart]
    rcases hev with rfl | rfl
    · by_cases hc : f1.kids.length = 0
      · have hk : f1.kids = [] := by simpa using hc
        have hpp : b0 = q := by rw [hk] at e4; exact e4
        have hb := adjacent_le h
        have hpq' : p = q := by omega
        have hadj : Adjacent b0 (PTree.leavesL (Spec.addToken f1.kids positionKind p p)) q := by
          have := addToken_adj (k := positionKind) (e := p) (hpq' ▸ e4) (Nat.le_refl _)
          rw [← hpq']; exact this
        refine ⟨[Op.startProd (prodInfo E n)] ++ (o1 ++ [.token positionKind p p, .finishProd]), { f1 with kids := Spec.addToken f1.kids positionKind p p, trans := f.trans }, l1, ?_,
          e2, rfl, hadj⟩
        simp [specOps, evOps, hk, hd, Spec.run, Spec.step, e3]
      · refine ⟨[Op.startProd (prodInfo E n)] ++ (o1 ++ [.finishProd]), { f1 with trans := f.trans }, l1, ?_, e2, rfl, e4⟩
        simp [specOps, evOps, show f1.kids ≠ [] by simpa using hc, hd, Spec.run, Spec.step, e3]
    · refine ⟨[Op.startProd (prodInfo E n)] ++ (o1 ++ [.cancelProd, .token errorKind p q]), { f1 with kids := Spec.addToken f.kids errorKind p q, trans := f.trans }, l1, ?_, e2,
        rfl, addToken_adj h hpq⟩
      simp [specOps, evOps, hd, Spec.run, Spec.step, e3]
  · simp only [Bool.not_eq_true] at ht
    obtain ⟨o1, f1, l1, e1, e2, e3, e4⟩ := ih { prod := some (n, (E.prods n).isTok) } p
      (by simp [PTree.leavesL, Adjacent]) (f :: r) lost (d + 1) (p :: bs) (by omega)
    have hstart : specOps E N ⟨f :: r, lost⟩ d bs (.prodStart n p :: (a ++ [ev]))
        = (specOps E N ⟨f1 :: f :: r, l1⟩ (d + 1) (p :: bs) [ev]).map
          fun (o2, x) => ([Op.startProd (prodInfo E n)] ++ (o1 ++ o2), x) := by
      simp only [specOps, evOps, hd, if_true, Option.bind_some, Spec.run, Spec.step, prodInfo, ht,
        Bool.false_eq_true, if_false]
      rw [specOps_append, e1]
      simp only [Option.bind_some, Option.map_map]
      rfl
    rw [hstart]
    simp only at e2 e3
    rcases hev with rfl | rfl
    · by_cases hc : f1.kids.length = 0
      · have hk : f1.kids = [] := by simpa using hc
        have hpq' : p = q := by rw [hk] at e4; exact e4
        have hadj : Adjacent p (PTree.leavesL (Spec.addToken f1.kids positionKind p p)) q := by
          rw [hk, ← hpq']
          exact addToken_adj (kids := []) rfl (Nat.le_refl _)
        refine ⟨[Op.startProd (prodInfo E n)] ++ (o1 ++ [.token positionKind p p, .finishProd]), { f with kids := f.kids ++ [.node n (E.prods n).isTok
          (Spec.addToken f1.kids positionKind p p)] }, l1, ?_, rfl, rfl, ?_⟩
        · simp [specOps, evOps, hk, hd, Spec.run, Spec.step, e2, e3]
        · rw [leavesL_append]
          refine adjacent_append' h ?_
          simpa [PTree.leavesL, PTree.leaves] using hadj
      · refine ⟨[Op.startProd (prodInfo E n)] ++ (o1 ++ [.finishProd]), { f with kids := f.kids ++ [.node n (E.prods n).isTok f1.kids] }, l1, ?_, rfl, rfl, ?_⟩
        · simp [specOps, evOps, show f1.kids ≠ [] by simpa using hc, hd, Spec.run, Spec.step, e2, e3]
        · rw [leavesL_append]
          refine adjacent_append' h ?_
          simpa [PTree.leavesL, PTree.leaves] using e4
    · refine ⟨[Op.startProd (prodInfo E n)] ++ (o1 ++ [.cancelProd, .token errorKind p q]), { f with kids := Spec.addToken f.kids errorKind p q },
        l1 + (PTree.sizeL f1.kids - f1.kids.length), ?_, rfl,
        rfl, addToken_adj h hpq⟩
      simp [specOps, evOps, hd, Spec.run, Spec.step, e2, e3]

/-- Branches that are not taken leave no trace in the tree. -/
theorem cancel_ops {E : Env} {N : Names} {len p : Nat} {evs : List Ev} (h : CancelTr len p evs) :
    ∀ (f : Spec.Frame) (r : List Spec.Frame) (lost d : Nat) (bs : List Nat), 0 < d →
      ∃ ops lost', specOps E N ⟨f :: r, lost⟩ d bs evs = some (ops, ⟨f :: r, lost'⟩, d, bs) := by
  induction h with
  | nil => intro f r lost d bs _; exact ⟨[], lost, rfl⟩
  | backtracked => intro f r lost d bs _; exact ⟨[], lost, rfl⟩
  | @prod n a _ ih =>
    intro f r lost d bs hd
    by_cases ht : (E.prods n).transparent = true
    · obtain ⟨o1, l1, e1⟩ := ih { f with trans := f.kids :: f.trans } r lost (d + 1) (p :: bs) (by omega)
      refine ⟨[Op.startProd (prodInfo E n)] ++ (o1 ++ [.cancelProd, .token errorKind p p]), l1, ?_⟩
      simp only [specOps, evOps, hd, if_true, Option.bind_some, Spec.run, Spec.step, prodInfo, ht]
      rw [specOps_append, e1]
      simp [specOps, evOps, hd, Spec.run, Spec.step, Spec.addToken, ignoreIfEmpty]
    · simp only [Bool.not_eq_true] at ht
      obtain ⟨o1, l1, e1⟩ := ih { prod := some (n, (E.prods n).isTok) } (f :: r) lost (d + 1) (p :: bs)
        (by omega)
      refine ⟨[Op.startProd (prodInfo E n)] ++ (o1 ++ [.cancelProd, .token errorKind p p]), l1, ?_⟩
      simp only [specOps, evOps, hd, if_true, Option.bind_some, Spec.run, Spec.step, prodInfo, ht,
        Bool.false_eq_true, if_false]
      rw [specOps_append, e1]
      simp [specOps, evOps, hd, Spec.run, Spec.step, Spec.addToken, ignoreIfEmpty, PTree.sizeL]
  | append _ _ ih1 ih2 =>
    intro f r lost d bs hd
    obtain ⟨o1, l1, e1⟩ := ih1 f r lost d bs hd
    obtain ⟨o2, l2, e2⟩ := ih2 f r l1 d bs hd
    exact ⟨o1 ++ o2, l2, by rw [specOps_append, e1]; simp [e2]⟩

theorem Grows.cancel {E : Env} {N : Names} {len p : Nat} {evs : List Ev} (h : CancelTr len p evs)
    {f : Spec.Frame} {b0 q : Nat} (hq : Adjacent b0 (PTree.leavesL f.kids) q) : Grows E N evs f b0 q := by
  intro r lost d bs hd
  obtain ⟨ops, l, e⟩ := cancel_ops (E := E) (N := N) h f r lost d bs hd
  exact ⟨ops, f, l, e, rfl, rfl, hq⟩

theorem Grows.search {E : Env} {N : Names} {len p q : Nat} {evs : List Ev} (h : SearchTr len p q evs)
    {f : Spec.Frame} {b0 x : Nat} (hq : Adjacent b0 (PTree.leavesL f.kids) x) : Grows E N evs f b0 x := by
  induction h generalizing f with
  | start => exact .skip hq (by simp)
  | cancelled _ hc ih => exact .append (ih hq) fun f' _ _ h' => .cancel hc h'
  | bump _ ih => exact ih hq

/-- The tree grows exactly by the input that is consumed. -/
theorem TrC.grows {E : Env} {N : Names} {len : Nat} {c : Bool} {p q : Nat} {o : Out} {evs : List Ev}
    (h : TrC len c p o evs q) (hp : p ≤ len) : ∀ (f : Spec.Frame) (b0 : Nat),
    (c = true → f.prod = none ∧ f.trans = []) → Adjacent b0 (PTree.leavesL f.kids) p →
    Grows E N evs f b0 q := by
  induction h with
  | nil | brk => intro f b0 _ ha; exact .skip ha (by simp)
  | token k h1 => intro f b0 _ ha; exact .token k ha h1
  | tokenFail tag h1 =>
    intro f b0 _ ha
    exact .append (a := [_]) (.token _ ha h1) fun f' _ _ h' => .skip h' (by simp [evOps])
  | errorFail | error | backtracked => intro f b0 _ ha; exact .skip ha (by simp [evOps])
  | wsFail _ hes h1 =>
    intro f b0 _ ha
    refine .append (.skip ha ?_) fun f' _ _ h' => .token _ h' h1
    intro ev hev
    obtain ⟨_, _, _, rfl, _⟩ := hes ev hev
    simp [evOps]
  | cancelled _ hc => intro f b0 _ ha; exact .cancel hc ha
  | seq h1 _ ih1 ih2 | recover h1 _ ih1 ih2 | failAfter h1 _ ih1 ih2 =>
    intro f b0 hc ha
    exact .append (ih1 hp f b0 hc ha) fun f' e1 e2 h' =>
      ih2 (h1.bounds hp).2 f' b0 (by rw [e1, e2]; exact hc) h'
  | caught _ ih => exact ih hp
  | prod n h1 ih =>
    intro f b0 _ ha
    exact .prod ha (h1.bounds hp).1 (fun f b0 => ih hp f b0 (by simp)) _ (.inl rfl)
  | prodFail n h1 ih =>
    intro f b0 _ ha
    exact .prod ha (h1.bounds hp).1 (fun f b0 => ih hp f b0 (by simp)) _ (.inr rfl)
  | @chain c p q a o h1 _ ih =>
    intro f b0 _ ha r lost d bs hd
    obtain ⟨o1, f1, l1, e1, e2, e3, e4⟩ := ih hp { prod := none } p (by simp)
      (by simp [PTree.leavesL, Adjacent]) (f :: r) lost d bs hd
    simp only at e2 e3
    refine ⟨[.startCont] ++ (o1 ++ [.finishCont]),
      ⟨f.prod, f.kids ++ f1.kids, f.trans, f.empt || (f.kids.isEmpty && f1.kids.isEmpty)⟩, l1, ?_, ?_, ?_, ?_⟩
    · simp only [specOps, evOps, Option.bind_some, Spec.run, Spec.step]
      rw [specOps_append, e1]
      simp [specOps, evOps, Spec.run, Spec.step, e2, e3]
    · rfl
    · rfl
    · rw [leavesL_append]
      exact adjacent_append' ha e4
  | op n =>
    intro f b0 hc ha r lost d bs hd
    obtain ⟨h1, h2⟩ := hc rfl
    by_cases ht : (N.op n).transparent = true
    · exact ⟨[.setCont (N.op n)], f, lost, by simp [specOps, evOps, Spec.run, Spec.step, h1, h2, ht], rfl, rfl, ha⟩
    · refine ⟨[.setCont (N.op n)], { f with kids := [.node (N.op n).id (N.op n).isToken f.kids] }, lost,
        by simp [specOps, evOps, Spec.run, Spec.step, h1, h2, ht], rfl, rfl, ?_⟩
      simpa [PTree.leavesL, PTree.leaves] using ha
  | @recovery c p q a h1 ih =>
    intro f b0 hc ha
    refine .append (a := [.recStart p]) (.skip ha (by simp [evOps])) fun f' _ _ h' => ?_
    exact .append (ih hp f' b0 (by simp) h') fun f' _ _ h' => .skip h' (by simp [evOps])
  | @recoveryFail c p q a h1 ih =>
    intro f b0 hc ha
    refine .append (a := [.recStart p]) (.skip ha (by simp [evOps])) fun f' _ _ h' => ?_
    exact .append (ih hp f' b0 (by simp) h') fun f' _ _ h' => .skip h' (by simp [evOps])
  | @search c p q ce h1 _ =>
    intro f b0 _ ha
    refine .append (a := [.recStart p]) (.skip ha (by simp [evOps])) fun f' _ _ h' => ?_
    refine .append (.search h1 h') fun f' _ _ h' => ?_
    exact .append (a := [_]) (.token _ h' (Verif.TrC.search_le h1)) fun f' _ _ h' => .skip h' (by simp [evOps])
  | @searchFail c p q r a ce h1 h2 _ ih =>
    intro f b0 hc ha
    refine .append (ih hp f b0 hc ha) fun f' _ _ h' => ?_
    refine .append (a := [.recStart q]) (.skip h' (by simp [evOps])) fun f' _ _ h' => ?_
    refine .append (.search h2 h') fun f' _ _ h' => ?_
    exact .append (a := [_]) (.token _ h' (Verif.TrC.search_le h2)) fun f' _ _ h' => .skip h' (by simp [evOps])

/-! ### The properties -/

/-- The events of the entry production. -/
def body (evs : List Ev) : List Ev := ((evs.drop 2).dropLast).dropLast

/-- None of the builder operations left out by C30 is performed (`Spec.Fine`): no transparent
    production that has added something is cancelled, and no second chain of operations begins in a
    production while a first one was empty and nothing was added to the production. -/
def FineEvents (E : Env) (N : Names) (n : Nat) (evs : List Ev) : Prop :=
  ∀ ops x, specOps E N (Spec.init (prodInfo E n)) 1 [0] (body evs) = some (ops, x) →
    Spec.FineRun (Spec.init (prodInfo E n)) ops

/-- The part of the input covered by the tokens. -/
def textOf (inp : List Nat) (ts : List (Nat × Nat × Nat)) : List Nat :=
  ts.flatMap fun t => (inp.drop t.2.1).take (t.2.2 - t.2.1)

theorem textOf_adj (inp : List Nat) : ∀ {ts : List (Nat × Nat × Nat)} {p q : Nat}, Adjacent p ts q →
    textOf inp ts = (inp.drop p).take (q - p) := by
  intro ts
  induction ts with
  | nil => intro p q h; simp only [Adjacent] at h; subst h; simp [textOf]
  | cons x ts ih =>
    intro p q h
    obtain ⟨k, b, e⟩ := x
    obtain ⟨rfl, h2, h3⟩ := h
    have hle := adjacent_le h3
    have hih := ih h3
    simp only [textOf, List.flatMap_cons] at hih ⊢
    rw [hih]
    have e1 : (inp.drop b).take (q - b) = (inp.drop b).take ((e - b) + (q - e)) := by
      congr 1; omega
    rw [e1, List.take_add, List.drop_drop]
    have e2 : b + (e - b) = e := by omega
    rw [e2]

theorem body_ok (n q : Nat) (evs : List Ev) (a b : Ev) :
    body ([.grammarStart 0, .prodStart n 0] ++ (evs ++ [a, b])) = evs := by
  have h1 : (evs ++ [a, b]).dropLast = evs ++ [a] := by
    have : evs ++ [a, b] = (evs ++ [a]) ++ [b] := by simp
    rw [this, List.dropLast_concat]
  simp only [body, List.cons_append, List.nil_append, List.drop_succ_cons, List.drop_zero, h1,
    List.dropLast_concat]

theorem treeOf_sim {z : Sizes} (hz : z.Ok) {E : Env} {N : Names} {n q : Nat} {evs : List Ev} {o : Out}
    (ht : Tr E.inp.length 0 o evs q) (hn : (E.prods n).transparent = false) {a b : Ev}
    (hab : a = .prodFinish n q ∨ a = .prodCancel n q)
    (hf : FineEvents E N n ([.grammarStart 0, .prodStart n 0] ++ (evs ++ [a, b]))) :
    ∃ s ops f lost, (B.new z (prodInfo E n)).bind
        (fun s => PH.runs z E N ⟨s, 0, []⟩ (.prodStart n 0 :: (evs ++ [a]))) = some ⟨s, 0, []⟩
      ∧ (B.new z (prodInfo E n)).bind (·.run z ops) = some s
      ∧ Spec.run (Spec.init (prodInfo E n)) ops = some ⟨[f], lost⟩
      ∧ Spec.FineRun (Spec.init (prodInfo E n)) ops
      ∧ f.prod = some (n, (E.prods n).isTok) ∧ f.trans = [] ∧ Adjacent 0 (PTree.leavesL f.kids) q := by
  obtain ⟨ops, f, lost, h1, h2, h3, h4⟩ := TrC.grows (E := E) (N := N) ht (Nat.zero_le _)
    { prod := some (n, (E.prods n).isTok) } 0 (by simp) rfl [] 0 1 [0] (by omega)
  have hinit : Spec.init (prodInfo E n) = ⟨[{ prod := some (n, (E.prods n).isTok) }], 0⟩ := rfl
  rw [← hinit] at h1
  have hfine := hf ops _ (by rw [body_ok n q]; exact h1)
  obtain ⟨s0, f0, n1, n2, n3, n4⟩ := new_ok hz (prodInfo E n) hn
  have hst : Spec.init (prodInfo E n) = ⟨[f0].map GF.spec, 0⟩ := by
    rw [List.map_singleton, n3]; rfl
  have h1' := h1
  rw [hst] at h1' hfine
  obtain ⟨s, g1, g2⟩ := runs_sim hz evs n2 h1' hfine
  rw [← hst] at hfine
  refine ⟨s, ops, f, lost, ?_, by rw [n1]; exact g2, specOps_run evs h1, hfine, h2, h3, h4⟩
  rw [n1]
  simp only [Option.bind_some]
  have happ : ∀ (x y : List Ev) (h : PH), h.runs z E N (x ++ y) = (h.runs z E N x).bind (·.runs z E N y) := by
    intro x y
    induction x with
    | nil => intro h; rfl
    | cons ev x ih =>
      intro h
      simp only [List.cons_append, PH.runs]
      cases h.on z E N ev with
      | none => rfl
      | some h => exact ih h
  have hs : PH.runs z E N ⟨s0, 0, []⟩ (.prodStart n 0 :: (evs ++ [a]))
      = (PH.runs z E N ⟨s0, 1, [0]⟩ evs).bind (·.runs z E N [a]) := by
    rw [PH.runs]
    simp only [PH.on, evOps, Nat.lt_irrefl, if_false, Option.bind_some, B.run, Option.map_some]
    exact happ _ _ _
  rw [hs, g1]
  rcases hab with rfl | rfl <;> rfl

/-- **C33** The tree is lossless: its tokens are adjacent, begin at the beginning of the input and end
    where the parse ended, and with the remaining input they are the input.
    Only part: without the operations for which the builder is wrong, see `FineEvents`. -/
theorem C33_lossless_partial {z : Sizes} (hz : z.Ok) {E : Env} {N : Names} {fuel n d : Nat} {r : Res}
    (hn : (E.prods n).transparent = false) (h : runGrammar E fuel n d = some r) (ho : r.out = .ok)
    (hf : FineEvents E N n r.evs) :
    ∃ T t, treeOf z E N n r.evs = some (some T)
      ∧ (∀ m, t.size < m → readTree z T.heap m T.root = some t)
      ∧ Adjacent 0 t.leaves r.st.pos
      ∧ remainingInput T = some (r.st.pos, E.inp.length)
      ∧ textOf E.inp t.leaves ++ E.inp.drop r.st.pos = E.inp := by
  rcases runGrammar_tr h with ⟨evs, q, ht, hr, hq⟩ | ⟨evs, q, ht, hr, hq⟩
  · have hevs : r.evs = [.grammarStart 0, .prodStart n 0] ++ (evs ++ [Ev.prodFinish n q, .grammarFinish q]) := by
      rw [hr]
    rw [hevs] at hf ⊢
    obtain ⟨s, ops, f, lost, h1, h2, h3, h4, h5, h6, h7⟩ := treeOf_sim hz ht hn (.inl rfl) hf
    obtain ⟨T, e1, e2⟩ := C30_builds_partial hz (root := prodInfo E n) hn h3
      (t := .node n (E.prods n).isTok f.kids) (by simp [Spec.finished, h5, h6]) h4 q E.inp.length
    have hfin : s.finish z q E.inp.length = some T := by
      have := e1
      unfold build at this
      rw [h2] at this
      exact this
    refine ⟨T, _, ?_, fun m hm => C30_tree_partial e2 hm, ?_, ?_, ?_⟩
    · have hdl : ([Ev.prodStart n 0] ++ (evs ++ [Ev.prodFinish n q, .grammarFinish q])).dropLast
          = .prodStart n 0 :: (evs ++ [.prodFinish n q]) := by
        have : [Ev.prodStart n 0] ++ (evs ++ [Ev.prodFinish n q, .grammarFinish q])
          = (.prodStart n 0 :: (evs ++ [.prodFinish n q])) ++ [.grammarFinish q] := by simp
        rw [this, List.dropLast_concat]
      have hgl : ([Ev.grammarStart 0, .prodStart n 0] ++ (evs ++ [Ev.prodFinish n q, .grammarFinish q])).getLast?
          = some (.grammarFinish q) := by
        have : [Ev.grammarStart 0, .prodStart n 0] ++ (evs ++ [Ev.prodFinish n q, .grammarFinish q])
          = (.grammarStart 0 :: .prodStart n 0 :: (evs ++ [.prodFinish n q])) ++ [.grammarFinish q] := by simp
        rw [this, List.getLast?_concat]
      unfold treeOf
      rw [hgl]
      simp only [List.cons_append, List.nil_append] at hdl ⊢
      rw [hdl]
      obtain ⟨s0, n1, n2⟩ := Option.bind_eq_some_iff.1 h1
      rw [n1]
      simp only [Option.bind_some, n2, hfin]
      rfl
    · rw [hq]; simpa [PTree.leaves] using h7
    · rw [hq]; exact C30_remaining_partial e2
    · simp only [PTree.leaves]
      rw [hq, textOf_adj _ h7]
      simp
  · rw [hr] at ho; simp at ho

/-- If the parse fails without recovery, the tree is empty. -/
theorem C33_failure_partial {z : Sizes} (hz : z.Ok) {E : Env} {N : Names} {fuel n d : Nat} {r : Res}
    (hn : (E.prods n).transparent = false) (h : runGrammar E fuel n d = some r) (ho : r.out = .fail)
    (hf : FineEvents E N n r.evs) : treeOf z E N n r.evs = some none := by
  rcases runGrammar_tr h with ⟨evs, q, ht, hr, hq⟩ | ⟨evs, q, ht, hr, hq⟩
  · rw [hr] at ho; simp at ho
  · have hevs : r.evs = [.grammarStart 0, .prodStart n 0] ++ (evs ++ [Ev.prodCancel n q, .grammarCancel q]) := by
      rw [hr]
    rw [hevs] at hf ⊢
    obtain ⟨s, ops, f, lost, h1, h2, h3, h4, h5, h6, h7⟩ := treeOf_sim hz ht hn (.inr rfl) hf
    have hdl : ([Ev.prodStart n 0] ++ (evs ++ [Ev.prodCancel n q, .grammarCancel q])).dropLast
        = .prodStart n 0 :: (evs ++ [.prodCancel n q]) := by
      have : [Ev.prodStart n 0] ++ (evs ++ [Ev.prodCancel n q, .grammarCancel q])
        = (.prodStart n 0 :: (evs ++ [.prodCancel n q])) ++ [.grammarCancel q] := by simp
      rw [this, List.dropLast_concat]
    have hgl : ([Ev.grammarStart 0, .prodStart n 0] ++ (evs ++ [Ev.prodCancel n q, .grammarCancel q])).getLast?
        = some (.grammarCancel q) := by
      have : [Ev.grammarStart 0, .prodStart n 0] ++ (evs ++ [Ev.prodCancel n q, .grammarCancel q])
        = (.grammarStart 0 :: .prodStart n 0 :: (evs ++ [.prodCancel n q])) ++ [.grammarCancel q] := by simp
      rw [this, List.getLast?_concat]
    unfold treeOf
    rw [hgl]
    simp only [List.cons_append, List.nil_append] at hdl ⊢
    rw [hdl]
    obtain ⟨s0, n1, n2⟩ := Option.bind_eq_some_iff.1 h1
    rw [n1]
    simp only [Option.bind_some, n2]
    rfl

/-! ### Grammars without transparent productions -/

/-- Every production directly contains at most one chain of operations, as all productions do whose
    rule is not inlined (an expression is the whole rule of its production).  The stack has `none` for
    an open chain, and for an open production whether it already had one. -/
def oneChain : List (Option Bool) → List Ev → Option (List (Option Bool))
  | s, [] => some s
  | s, .prodStart _ _ :: evs => oneChain (some false :: s) evs
  | some _ :: y :: s, .prodFinish _ _ :: evs => oneChain (y :: s) evs
  | some _ :: y :: s, .prodCancel _ _ :: evs => oneChain (y :: s) evs
  | some false :: s, .opStart _ :: evs => oneChain (none :: some true :: s) evs
  | none :: s, .opStart _ :: evs => oneChain (none :: none :: s) evs
  | none :: s, .opFinish _ :: evs => oneChain s evs
  | _, .prodFinish _ _ :: _ => none
  | _, .prodCancel _ _ :: _ => none
  | _, .opStart _ :: _ => none
  | _, .opFinish _ :: _ => none
  | s, _ :: evs => oneChain s evs

/-- How the frames correspond to the stack. -/
def FrameRel (f : Spec.Frame) (x : Option Bool) : Prop :=
  f.trans = [] ∧ match x with
    | none => f.prod = none
    | some b => f.prod ≠ none ∧ (f.empt = true → b = true)

def RelAll : List Spec.Frame → List (Option Bool) → Prop
  | [], [] => True
  | f :: fs, x :: xs => FrameRel f x ∧ RelAll fs xs
  | _, _ => False

def prodCount : List (Option Bool) → Nat
  | [] => 0
  | some _ :: s => prodCount s + 1
  | none :: s => prodCount s

/-- The outermost is a production, and a production with an open chain had a chain. -/
def Bottom : List (Option Bool) → Prop
  | [] => False
  | [x] => ∃ b, x = some b
  | x :: y :: s => (x = none → y ≠ some false) ∧ Bottom (y :: s)

theorem Bottom.pos : ∀ {s : List (Option Bool)}, Bottom s → 0 < prodCount s
  | [], h => h.elim
  | [x], ⟨b, h⟩ => by subst h; simp [prodCount]
  | x :: y :: s, h => by
    have := Bottom.pos (s := y :: s) h.2
    cases x <;> simp only [prodCount] at this ⊢ <;> omega

theorem oneChain_fine {E : Env} {N : Names} (hT : ∀ n, (E.prods n).transparent = false) :
    ∀ (evs : List Ev) (st : Spec.St) (stk : List (Option Bool)) (bs : List Nat) (ops : List Op)
      (x : Spec.St × Nat × List Nat), Bottom stk → RelAll st.frames stk → oneChain stk evs ≠ none →
      specOps E N st (prodCount stk) bs evs = some (ops, x) → Spec.FineRun st ops := by
  intro evs
  induction evs with
  | nil =>
    intro st stk bs ops x _ _ _ h
    simp only [specOps, Option.some.injEq, Prod.mk.injEq] at h
    rw [← h.1]; trivial
  | cons ev evs ih =>
    intro st stk bs ops x hne hrel hone h
    simp only [specOps, Option.bind_eq_some_iff, Option.map_eq_some_iff] at h
    obtain ⟨⟨o1, d1, bs1⟩, h1, st1, h2, ⟨o2, r2⟩, h3, h4⟩ := h
    simp only [Prod.mk.injEq] at h4
    obtain ⟨rfl, rfl⟩ := h4
    simp only at h2 h3
    rw [fineRun_append]
    suffices hh : Spec.FineRun st o1 ∧ ∃ stk', Bottom stk' ∧ RelAll st1.frames stk' ∧ prodCount stk' = d1
        ∧ oneChain stk' evs ≠ none by
      obtain ⟨g1, stk', g0, g2, g3, g4⟩ := hh
      refine ⟨g1, fun st' hst' => ?_⟩
      rw [h2] at hst'
      cases hst'
      subst g3
      exact ih st1 stk' bs1 o2 _ g0 g2 g4 h3
    obtain ⟨frames, lost⟩ := st
    simp only at hrel
    have htriv : o1 = [] → d1 = prodCount stk → oneChain stk evs ≠ none →
        Spec.FineRun ⟨frames, lost⟩ o1 ∧ ∃ stk', Bottom stk' ∧ RelAll st1.frames stk' ∧ prodCount stk' = d1
          ∧ oneChain stk' evs ≠ none := by
      rintro rfl rfl h
      simp only [Spec.run, Option.some.injEq] at h2
      subst h2
      exact ⟨trivial, stk, hne, hrel, rfl, h⟩
    cases stk with
    | nil => exact hne.elim
    | cons y stk =>
    cases frames with
    | nil => exact hrel.elim
    | cons f r =>
      have hpos := hne.pos
      obtain ⟨⟨hft, hfy⟩, hrr⟩ := hrel
      cases ev with
      | prodStart n p =>
        simp only [evOps, Option.some.injEq, Prod.mk.injEq, hpos, if_true] at h1
        obtain ⟨rfl, rfl, rfl⟩ := h1
        simp only [Spec.run, Spec.step, prodInfo, hT, Bool.false_eq_true, if_false,
          Option.bind_some, Option.some.injEq] at h2
        subst h2
        exact ⟨⟨trivial, fun _ _ => trivial⟩, some false :: y :: stk, ⟨by simp, hne⟩,
          ⟨⟨rfl, by simp, by simp⟩, ⟨hft, hfy⟩, hrr⟩, rfl, by simpa [oneChain] using hone⟩
      | prodFinish n p =>
        cases y with
        | none => simp [oneChain] at hone
        | some b =>
          cases stk with
          | nil => simp [oneChain] at hone
          | cons w stk =>
            have hpos' := Bottom.pos (s := w :: stk) hne.2
            cases bs with
            | nil => simp [evOps] at h1
            | cons b0 bs =>
              simp only [evOps, Option.some.injEq, Prod.mk.injEq, prodCount, Nat.add_sub_cancel] at h1
              obtain ⟨rfl, rfl, rfl⟩ := h1
              rw [if_pos hpos'] at h2 ⊢
              obtain ⟨hf1, _⟩ := hfy
              obtain ⟨⟨id, it⟩, hfp⟩ := Option.ne_none_iff_exists'.1 hf1
              cases r with
              | nil => exact hrr.elim
              | cons g r =>
                obtain ⟨⟨hgt, hgy⟩, hrr⟩ := hrr
                have key : ∀ (l : List Op), (l = [] ∨ l = [.token positionKind b0 b0]) →
                    Spec.run ⟨f :: g :: r, lost⟩ (l ++ [.finishProd]) = some st1 →
                    Spec.FineRun ⟨f :: g :: r, lost⟩ (l ++ [.finishProd])
                    ∧ ∃ k, st1.frames = { g with kids := k } :: r := by
                  rintro l (rfl | rfl) hrun
                  · refine ⟨⟨trivial, fun _ _ => trivial⟩, ?_⟩
                    simp only [List.nil_append, Spec.run, Spec.step, hft, hfp, Option.bind_some,
                      Option.some.injEq] at hrun
                    subst hrun
                    exact ⟨_, rfl⟩
                  · refine ⟨⟨trivial, fun _ _ => ⟨trivial, fun _ _ => trivial⟩⟩, ?_⟩
                    simp only [List.cons_append, List.nil_append, Spec.run, Spec.step, hft, hfp,
                      Option.bind_some, Option.some.injEq] at hrun
                    subst hrun
                    exact ⟨_, rfl⟩
                obtain ⟨k1, k, k2⟩ := key _ (by split <;> simp) h2
                refine ⟨k1, w :: stk, hne.2, ?_, rfl, by simpa [oneChain] using hone⟩
                rw [k2]
                exact ⟨⟨hgt, hgy⟩, hrr⟩
      | prodCancel n p =>
        cases y with
        | none => simp [oneChain] at hone
        | some b =>
          cases stk with
          | nil => simp [oneChain] at hone
          | cons w stk =>
            have hpos' := Bottom.pos (s := w :: stk) hne.2
            cases bs with
            | nil => simp [evOps] at h1
            | cons b0 bs =>
              simp only [evOps, Option.some.injEq, Prod.mk.injEq, prodCount, Nat.add_sub_cancel] at h1
              obtain ⟨rfl, rfl, rfl⟩ := h1
              rw [if_pos hpos'] at h2 ⊢
              obtain ⟨hf1, _⟩ := hfy
              obtain ⟨⟨id, it⟩, hfp⟩ := Option.ne_none_iff_exists'.1 hf1
              cases r with
              | nil => exact hrr.elim
              | cons g r =>
                obtain ⟨⟨hgt, hgy⟩, hrr⟩ := hrr
                refine ⟨⟨?_, fun _ _ => ⟨trivial, fun _ _ => trivial⟩⟩, w :: stk, hne.2, ?_, rfl,
                  by simpa [oneChain] using hone⟩
                · intro f' r' k ts hfr htr
                  simp only [List.cons.injEq] at hfr
                  rw [← hfr.1, hft] at htr
                  simp at htr
                · simp only [Spec.run, Spec.step, hft, hfp, Option.bind_some, Option.some.injEq] at h2
                  subst h2
                  exact ⟨⟨hgt, hgy⟩, hrr⟩
      | opStart p =>
        simp only [evOps, Option.some.injEq, Prod.mk.injEq] at h1
        obtain ⟨rfl, rfl, rfl⟩ := h1
        simp only [Spec.run, Spec.step, Option.bind_some, Option.some.injEq] at h2
        subst h2
        cases y with
        | none =>
          refine ⟨⟨?_, fun _ _ => trivial⟩, none :: none :: stk, ⟨by simp, hne⟩, ⟨⟨rfl, rfl⟩, ⟨hft, hfy⟩, hrr⟩, rfl,
            by simpa [oneChain] using hone⟩
          intro f' r' hfr hp
          simp only [List.cons.injEq] at hfr
          rw [← hfr.1] at hp
          exact absurd hfy hp
        | some b =>
          cases b with
          | true => simp [oneChain] at hone
          | false =>
            refine ⟨⟨?_, fun _ _ => trivial⟩, none :: some true :: stk, ?_,
              ⟨⟨rfl, rfl⟩, ⟨hft, hfy.1, fun _ => rfl⟩, hrr⟩, rfl, by simpa [oneChain] using hone⟩
            · intro f' r' hfr hp _
              simp only [List.cons.injEq] at hfr
              rw [← hfr.1]
              cases he : f.empt with
              | false => rfl
              | true => have := hfy.2 he; simp at this
            · cases stk with
              | nil => exact ⟨by simp, true, rfl⟩
              | cons => exact ⟨by simp, by simp, hne.2⟩
      | opFinish p =>
        simp only [evOps, Option.some.injEq, Prod.mk.injEq] at h1
        obtain ⟨rfl, rfl, rfl⟩ := h1
        cases y with
        | some b => cases stk <;> simp [oneChain] at hone
        | none =>
          cases stk with
          | nil => obtain ⟨_, h⟩ := hne; simp at h
          | cons w stk =>
            cases r with
            | nil => exact hrr.elim
            | cons g r =>
              obtain ⟨⟨hgt, hgy⟩, hrr⟩ := hrr
              simp only [Spec.run, Spec.step, hft, hfy, Option.bind_some, Option.some.injEq] at h2
              subst h2
              refine ⟨⟨trivial, fun _ _ => trivial⟩, w :: stk, hne.2, ⟨⟨hgt, ?_⟩, hrr⟩, rfl,
                by simpa [oneChain] using hone⟩
              cases w with
              | none => exact hgy
              | some b =>
                refine ⟨hgy.1, fun _ => ?_⟩
                have := hne.1 rfl
                cases b with
                | true => rfl
                | false => exact absurd rfl this
      | opOp n p =>
        simp only [evOps, Option.some.injEq, Prod.mk.injEq] at h1
        obtain ⟨rfl, rfl, rfl⟩ := h1
        refine ⟨⟨trivial, fun _ _ => trivial⟩, y :: stk, hne, ?_, rfl, by simpa [oneChain] using hone⟩
        cases y with
        | some b =>
          obtain ⟨x, hx⟩ := Option.ne_none_iff_exists'.1 hfy.1
          simp [Spec.run, Spec.step, hft, hx] at h2
        | none =>
          simp only [Spec.run, Spec.step, hft, hfy] at h2
          split at h2 <;> (simp only [Option.bind_some, Option.some.injEq] at h2; subst h2)
          · exact ⟨⟨hft, hfy⟩, hrr⟩
          · exact ⟨⟨rfl, rfl⟩, hrr⟩
      | token k b e =>
        simp only [evOps, Option.some.injEq, Prod.mk.injEq] at h1
        obtain ⟨rfl, rfl, rfl⟩ := h1
        simp only [Spec.run, Spec.step, Option.bind_some, Option.some.injEq] at h2
        subst h2
        exact ⟨⟨trivial, fun _ _ => trivial⟩, y :: stk, hne, ⟨⟨hft, hfy⟩, hrr⟩, rfl,
          by simpa [oneChain] using hone⟩
      | _ =>
        simp only [evOps, Option.some.injEq, Prod.mk.injEq] at h1
        exact htriv h1.1.symm h1.2.1.symm (by simpa [oneChain] using hone)

theorem fineEvents_oneChain {E : Env} {N : Names} {n : Nat} {evs : List Ev}
    (hT : ∀ n, (E.prods n).transparent = false) (h : oneChain [some false] (body evs) ≠ none) :
    FineEvents E N n evs := by
  intro ops x hx
  exact oneChain_fine hT (body evs) _ [some false] [0] ops x ⟨false, rfl⟩
    ⟨⟨rfl, by simp [Spec.init], by simp [Spec.init]⟩, trivial⟩ h hx

/-- **C33** for grammars without transparent productions whose productions directly contain at most
    one chain of operations. -/
theorem C33_lossless_plain_partial {z : Sizes} (hz : z.Ok) {E : Env} {N : Names} {fuel n d : Nat}
    {r : Res} (hT : ∀ n, (E.prods n).transparent = false) (h : runGrammar E fuel n d = some r)
    (ho : r.out = .ok) (hc : oneChain [some false] (body r.evs) ≠ none) :
    ∃ T t, treeOf z E N n r.evs = some (some T)
      ∧ (∀ m, t.size < m → readTree z T.heap m T.root = some t)
      ∧ Adjacent 0 t.leaves r.st.pos
      ∧ remainingInput T = some (r.st.pos, E.inp.length)
      ∧ textOf E.inp t.leaves ++ E.inp.drop r.st.pos = E.inp :=
  C33_lossless_partial hz (hT n) h ho (fineEvents_oneChain hT hc)

/-- **C42** `parse_as_tree` agrees with `validate`, and gives a tree exactly if the parse succeeds or
    recovers, as `parse` gives a value. -/
theorem C42_tree_agrees {z : Sizes} {E : Env} {N : Names} {fuel n d : Nat} {t : Option Tree}
    {v : Validated} (h : parseAsTree z E N fuel n d = some (t, v)) :
    validateAction E fuel n d = some v
    ∧ ∃ p, parseAction E fuel n d = some p ∧ p.impl = v ∧ (t.isSome = p.hasValue) := by
  unfold parseAsTree at h
  obtain ⟨r, h1, h2⟩ := Option.bind_eq_some_iff.1 h
  obtain ⟨t', h3, h4⟩ := Option.map_eq_some_iff.1 h2
  simp only [Prod.mk.injEq] at h4
  obtain ⟨rfl, rfl⟩ := h4
  refine ⟨by simp [validateAction, h1], ?_⟩
  have hgl : ∀ (l : List Ev) (a b : Ev),
      ([Ev.grammarStart 0, .prodStart n 0] ++ (l ++ [a, b])).getLast? = some b := by
    intro l a b
    have : [Ev.grammarStart 0, .prodStart n 0] ++ (l ++ [a, b])
      = (.grammarStart 0 :: .prodStart n 0 :: (l ++ [a])) ++ [b] := by simp
    rw [this, List.getLast?_concat]
  rcases C42_actions_agree E fuel n d with ⟨h5, _⟩ | ⟨m, v, p, _, h6, h7, h8⟩
  · simp [matchAction, h1] at h5
  · refine ⟨p, h7, ?_, ?_⟩
    · simp only [parseAction, h1, Option.bind_some, parseResult] at h7
      split at h7
      · split at h7
        · simp only [Option.some.injEq] at h7; rw [← h7]
        · simp at h7
      · simp only [Option.some.injEq] at h7; rw [← h7]
    · simp only [parseAction, h1, Option.bind_some, parseResult] at h7
      rcases runGrammar_tr h1 with ⟨evs, q, ht, hr, hq⟩ | ⟨evs, q, ht, hr, hq⟩
      · have ho : r.out = .ok := by rw [hr]
        rw [if_pos ho] at h7
        have hv : p.hasValue = true := by
          split at h7
          · simp only [Option.some.injEq] at h7; rw [← h7]
          · simp at h7
        rw [hv]
        have hevs : r.evs = [.grammarStart 0, .prodStart n 0] ++ (evs ++ [Ev.prodFinish n q, .grammarFinish q]) := by
          rw [hr]
        rw [hevs] at h3
        unfold treeOf at h3
        rw [hgl] at h3
        simp only [List.cons_append, List.nil_append, Option.bind_eq_some_iff] at h3
        obtain ⟨_, _, _, _, h3⟩ := h3
        split at h3
        · simp at h3
        · obtain ⟨T, _, rfl⟩ := Option.map_eq_some_iff.1 h3
          rfl
      · have ho : r.out = .fail := by rw [hr]
        rw [if_neg (by rw [ho]; simp)] at h7
        simp only [Option.some.injEq] at h7
        have hv : p.hasValue = false := by rw [← h7]
        rw [hv]
        have hevs : r.evs = [.grammarStart 0, .prodStart n 0] ++ (evs ++ [Ev.prodCancel n q, .grammarCancel q]) := by
          rw [hr]
        rw [hevs] at h3
        unfold treeOf at h3
        rw [hgl] at h3
        simp only [List.cons_append, List.nil_append, Option.bind_eq_some_iff] at h3
        obtain ⟨_, _, _, _, h3⟩ := h3
        split at h3
        · simp at h3
        · simp only [Option.some.injEq] at h3
          rw [← h3]; rfl

/-! ### Examples -/

namespace Ex

def names : Names := ⟨fun n => n, fun n => ⟨100 + n, false, false⟩⟩

/-- The tree as it is in memory. -/
def treeIn (z : Sizes) (E : Env) (n : Nat) : Option (Option PTree × Status) :=
  (parseAsTree z E names 60 n 10).bind fun (t, v) => match t with
    | none => some (none, v.status)
    | some T => (readTree z T.heap 60 T.root).map fun t => (some t, v.status)

/-- `(1 ,,2) a`: an error and whitespace. -/
example : treeIn .x64 Verif.Ex.missingItem 3 = some (some
    (.node 3 false [.node 2 false [.tok 1 0 1, .node 1 true [.tok 4 1 2], .tok whitespaceKind 2 3, .tok 3 3 4,
      .tok 3 4 5, .node 1 true [.tok 4 5 6], .tok 2 6 7, .tok whitespaceKind 7 8], .tok 7 8 9]), .recovered) := by
  decide +kernel

/-- `(1 +`: no tree. -/
example : treeIn .x64 Verif.Ex.unterminated 3 = some (none, .fatal) := by decide +kernel

/-- `-1* 2^(3+4)^5!,1`. -/
def sums : Env := Verif.Ex.exprEnv [45, 49, 42, 32, 50, 94, 40, 51, 43, 52, 41, 94, 53, 33, 44, 49]

example : treeIn small sums 0 = some (some
    (.node 0 false [.node 1 false [.node 107 false [
      .node 104 false [.node 103 false [.tok 33 0 1, .tok 4 1 2], .tok 34 2 3, .tok whitespaceKind 3 4,
        .node 102 false [.tok 4 4 5, .tok 32 5 6,
          .node 102 false [.tok 1 6 7, .node 1 false [.node 105 false [.tok 4 7 8, .tok 36 8 9, .tok 4 9 10]],
            .tok 2 10 11, .tok 32 11 12, .node 101 false [.tok 4 12 13, .tok 31 13 14]]]],
      .tok 38 14 15, .tok 4 15 16]]]), .success) := by
  decide +kernel

/-- The hypotheses of `C33_lossless_plain_partial` hold for both. -/
example : ((runGrammar Verif.Ex.missingItem 60 3 10).map fun r =>
    (r.out, oneChain [some false] (body r.evs))) = some (.ok, some [some false]) := by decide +kernel
example : ((runGrammar sums 60 0 10).map fun r =>
    (r.out, oneChain [some false] (body r.evs))) = some (.ok, some [some false]) := by decide +kernel
example : (∀ n, (Verif.Ex.missingItem.prods n).transparent = false) ∧ ∀ n, (sums.prods n).transparent = false := by
  constructor
  · intro n
    match n with
    | 0 | 1 | 2 | 3 | _ + 4 => rfl
  · intro n
    match n with
    | 0 | _ + 1 => rfl

/-- `ac`, where the transparent production 1 is `a` and `b`, and production 0 recovers from it. -/
def lostTransparent : Env := Verif.Ex.env [97, 99] fun
  | 0 => { rule := .seq (.tryt none (.prod 1) (.wrap .els)) (.tok (Verif.Ex.lit 8 18 [99])) }
  | _ => { rule := .seq (.tok (Verif.Ex.lit 7 17 [97])) (.tok (Verif.Ex.lit 9 19 [98])), transparent := true }

end Ex

/-- **F17**: without the restriction, trees are not lossless: the code unit `a` of a cancelled
    transparent production is in the tree twice. -/
theorem C33_transparent_refuted : Ex.treeIn .x64 Ex.lostTransparent 0
    = some (some (.node 0 false [.tok 7 0 1, .tok errorKind 0 1, .tok 8 1 2]), .recovered)
    ∧ textOf Ex.lostTransparent.inp (PTree.node 0 false [.tok 7 0 1, .tok errorKind 0 1, .tok 8 1 2]).leaves
      = [97, 97, 99] := by
  decide +kernel

end Verif.PT
