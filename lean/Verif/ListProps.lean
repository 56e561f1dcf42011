import Verif.LoopProps

/-
C44: combinations; C59: separators; C60: terminated lists.
-/

namespace Verif

open Spec

/-! ### C44 -/

/-- The branches with these indices, one after the other. -/
inductive Spec.InOrder (E : Env) (w : Option Rule) (rs : List Rule) : List Nat → Nat → Nat → Prop
  | nil {p : Nat} : InOrder E w rs [] p p
  | cons {i : Nat} {is : List Nat} {r : Rule} {p m q : Nat} (hr : rs[i]? = some r) (h : Lang E w (.rule r false) p m)
      (h' : InOrder E w rs is m q) : InOrder E w rs (i :: is) p q

theorem comb_inv {E : Env} {w : Option Rule} {rs : List Rule} {els : CombElse} {handled : List Nat} {p q : Nat}
    (h : Lang E w (.comb rs els handled) p q) :
    ∃ order m, order.Nodup ∧ (∀ i ∈ order, i ∉ handled) ∧ InOrder E w rs order p m ∧
      ((m = q ∧ ∀ i, i < rs.length → i ∈ handled ∨ i ∈ order) ∨ (els = .brk ∧ m = q) ∨ ∃ r ∈ rs, Lang E w (.rule r true) m q) := by
  generalize hg : Goal.comb rs els handled = g at h
  induction h generalizing handled with
  | combAll h => cases hg; exact ⟨[], _, .nil, nofun, .nil, .inl ⟨rfl, fun i hi => .inl (h i hi)⟩⟩
  | combPartial => cases hg; exact ⟨[], _, .nil, nofun, .nil, .inr (.inl ⟨rfl, rfl⟩)⟩
  | combBreak hr h => cases hg; exact ⟨[], _, .nil, nofun, .nil, .inr (.inr ⟨_, hr, h⟩)⟩
  | @combNext w rs' els' handled' r i p m q hr hi h h2 _ ih =>
    cases hg
    obtain ⟨order, m', h3, h4, h5, h6⟩ := ih rfl
    refine ⟨i :: order, m', List.nodup_cons.2 ⟨fun hm => h4 i hm (by simp), h3⟩, fun j hj => ?_, .cons hr h h5, ?_⟩
    · rcases List.mem_cons.1 hj with rfl | hj
      · exact hi
      · exact fun hm => h4 j hj (by simp [hm])
    · rcases h6 with ⟨h7, h8⟩ | h6
      · refine .inl ⟨h7, fun j hj => ?_⟩
        rcases h8 j hj with h9 | h9
        · rcases List.mem_cons.1 h9 with rfl | h9
          · exact .inr (by simp)
          · exact .inl h9
        · exact .inr (by simp [h9])
      · exact .inr h6
  | _ => cases hg

theorem Spec.InOrder.lt {E : Env} {w : Option Rule} {rs : List Rule} {order : List Nat} {p q : Nat} (h : InOrder E w rs order p q) :
    ∀ i ∈ order, i < rs.length := by
  induction h with
  | nil => nofun
  | cons hr _ _ ih =>
    intro j hj
    rcases List.mem_cons.1 hj with rfl | hj
    · exact (List.getElem?_eq_some_iff.1 hr).1
    · exact ih j hj

/-- **C44.** A combination that succeeds without an error: the branches were parsed one after the other, in some order, none
    of them twice.  It was every one of them, unless it is a `partial_combination` or one of them ended with `break_`. -/
theorem C44_combination {E : Env} (hx : ExprLits E) {n : Nat} {cx : Cx} {tag : Nat} {rs : List Rule} {els : CombElse} {st : St} {x : Res}
    (hl : st.pos ≤ E.inp.length) (h : exec E n cx (.run (.comb tag rs els)) st = some x) (ho : x.out = .ok)
    (hq : ∀ ev ∈ x.evs, ev.isError = false) :
    ∃ order m, order.Nodup ∧ InOrder E cx.ws rs order st.pos m ∧
      ((m = x.st.pos ∧ ∀ i, i ∈ order ↔ i < rs.length) ∨ (els = .brk ∧ m = x.st.pos) ∨
        ∃ r ∈ rs, Lang E cx.ws (.rule r true) m x.st.pos) := by
  have h1 := C38_rule hx hl h ho hq
  generalize x.st.pos = q at h1
  generalize cx.ws = w at h1
  cases h1
  case token ht _ _ => cases ht
  case combination h =>
    obtain ⟨order, m, h1, h2, h3, h4⟩ := comb_inv h
    refine ⟨order, m, h1, h3, h4.imp (fun h => ⟨h.1, fun i => ⟨fun hi => h3.lt i hi, fun hi => ?_⟩⟩) id⟩
    rcases h.2 i hi with h | h
    · cases h
    · exact h
  case context h => cases h

/-- A branch of a combination that was parsed: its index, where it began and ended, and its events. -/
structure Spec.Part where
  idx : Nat
  from_ : Nat
  to : Nat
  evs : List Ev

/-- Branches that are parsed one after the other; each time the first one that matches, however often that was. -/
inductive Spec.Parts (E : Env) (cx : Cx) (rs : List Rule) : List Part → St → St → Prop
  | nil {st : St} : Parts E cx rs [] st st
  | cons {i : Nat} {r : Rule} {st st1 st2 st' : St} {ce e : List Ev} {ps : List Part} (hr : rs[i]? = some r)
      (hlv : ∀ j r', j < i → rs[j]? = some r' → Leaves E r' st) (ht : Takes E r st) (hc : CancelTr E.inp.length st.pos ce)
      (h : Exec E cx (.bfinish r) st ⟨.ok, st1, e⟩) (hp : st2.pos = st1.pos) (hv : st2.vars = (st1.frame st.vars.length).vars)
      (h' : Parts E cx rs ps st2 st') : Parts E cx rs (⟨i, st.pos, st1.pos, ce ++ e⟩ :: ps) st st'

/-- What the parts of a combination report: a duplicate is an error, over the range of the duplicate. -/
def Spec.partEvents (tag : Nat) (seen : List Nat) : List Part → List Ev
  | [] => []
  | p :: ps => p.evs ++ (if p.idx ∈ seen then [.error tag p.from_ p.to] else []) ++ partEvents tag (p.idx :: seen) ps

theorem partEvents_congr {tag : Nat} {ps : List Part} : ∀ {a b : List Nat}, (∀ i, i ∈ a ↔ i ∈ b) → partEvents tag a ps = partEvents tag b ps := by
  induction ps with
  | nil => intros; rfl
  | cons p ps ih =>
    intro a b h
    have h1 : (p.idx ∈ a) = (p.idx ∈ b) := propext (h _)
    simp only [partEvents, h1]
    rw [ih (a := p.idx :: a) (b := p.idx :: b) (fun i => by simp [h])]

theorem le_of_all {n : Nat} : ∀ {l : List Nat}, (∀ i, i < n → i ∈ l) → n ≤ l.length := by
  induction n with
  | zero => intros; omega
  | succ n ih =>
    intro l h
    have h1 := ih (l := l.erase n) fun i hi => (List.mem_erase_of_ne (by omega)).2 (h i (by omega))
    have h2 := List.length_erase_of_mem (h n (by omega))
    have h3 := List.length_pos_of_mem (h n (by omega))
    omega

/-- What happens in one iteration. -/
theorem chcRun_part {E : Env} {n : Nat} {cx : Cx} {rs : List Rule} {els : CombElse} {st st1 : St} {e : List Ev} (hl : st.pos ≤ E.inp.length)
    (h : exec E n cx (.chcRun (combRules rs els)) st = some ⟨.ok, st1, e⟩) :
    ∃ i r ce st2 e2, rs[i]? = some r ∧ (∀ j r', j < i → rs[j]? = some r' → Leaves E r' st) ∧ Takes E r st ∧
      CancelTr E.inp.length st.pos ce ∧ Exec E cx (.bfinish r) st ⟨.ok, st2, e2⟩ ∧ st1 = { st2 with idx := i } ∧ e = ce ++ e2 := by
  rcases chcRun_some hl h with ⟨pre, b, post, ce, r', he, hpre, ht, h1, hc, hr, _⟩ | ⟨_, ce, _, hr⟩
  · simp only [Res.mk.injEq] at hr
    obtain ⟨ho, rfl, rfl⟩ := hr
    cases n with
    | zero => cases h1
    | succ n =>
      have hcr : ∀ k (hk : k < rs.length), (combRules rs els)[k]? = some (.br rs[k] (.combIt k)) := by
        intro k hk
        unfold combRules
        rw [List.getElem?_append_left (by simpa using hk)]
        simp [hk]
      have hi : (combRules rs els)[pre.length]? = some b := by rw [he]; simp
      have hpl : pre.length < rs.length ∨ ∃ k : Nat, (combRules rs els)[pre.length]? = none ∨ els = .brk ∧ b = .brk ∨ ∃ tag, els = .err tag ∧ b = .err tag none := by
        by_cases hk : pre.length < rs.length
        · exact .inl hk
        · refine .inr ⟨0, ?_⟩
          unfold combRules at hi ⊢
          rw [List.getElem?_append_right (by simpa using hk)] at hi
          have := List.mem_of_getElem? hi
          cases els with
          | none => cases this
          | brk => rw [List.mem_singleton] at this; exact .inr (.inl ⟨rfl, this⟩)
          | err tag => rw [List.mem_singleton] at this; exact .inr (.inr ⟨tag, rfl, this⟩)
      rcases hpl with hk | ⟨_, hk | ⟨_, rfl⟩ | ⟨tag, _, rfl⟩⟩
      · have hb : b = .br rs[pre.length] (.combIt pre.length) := by
          have := hcr _ hk
          rw [hi] at this
          exact Option.some.inj this
        subst hb
        rcases onOk_some h1 with ⟨st2, e1, r2, h2, h3, rfl⟩ | ⟨_, h2⟩
        · cases n with
          | zero => cases h3
          | succ n =>
            cases h3
            refine ⟨pre.length, rs[pre.length], ce, st2, e1, by simp [hk], fun j r' hj hr => ?_, ?_, hc, ⟨_, h2⟩, rfl, by simp⟩
            · have hj' : j < rs.length := (List.getElem?_eq_some_iff.1 hr).1
              have h4 : .br r' (.combIt j) ∈ pre := by
                have := hcr j hj'
                rw [he, List.getElem?_append_left hj, (List.getElem?_eq_some_iff.1 hr).2] at this
                exact List.mem_of_getElem? this
              obtain ⟨cx0, m, h5⟩ := hpre _ h4
              cases m with
              | zero => cases h5
              | succ m => exact ⟨cx0, m, h5⟩
            · obtain ⟨cx0, m, h5⟩ := ht.unfold
              exact ⟨cx0, m, h5⟩
        · exact absurd ho.symm h2
      · rw [hi] at hk; cases hk
      · cases n <;> cases h1; cases ho
      · cases n <;> cases h1; cases ho
  · cases hr

theorem combLoop_parts {E : Env} {cx : Cx} {tag : Nat} {rs : List Rule} {els : CombElse} (n : Nat) :
    ∀ (st : St) (handled seen : List Nat) (x : Res), st.pos ≤ E.inp.length → handled.Nodup → (∀ i ∈ handled, i < rs.length) →
      (∀ i, i ∈ handled ↔ i ∈ seen) →
      exec E n cx (.combLoop tag (combRules rs els) rs.length handled handled.length) st = some x →
      ∃ ps st1 le, Parts E cx rs ps st st1 ∧ x.evs = partEvents tag seen ps ++ le ∧
        (∀ ps1 p ps2, ps = ps1 ++ p :: ps2 → ∃ i, i < rs.length ∧ i ∉ seen ∧ i ∉ ps1.map Part.idx) ∧
        ((x.out = .ok ∧ le = [] ∧ x.st = st1 ∧ ∀ i, i < rs.length → i ∈ seen ∨ i ∈ ps.map Part.idx) ∨
          ((∃ i, i < rs.length ∧ i ∉ seen ∧ i ∉ ps.map Part.idx) ∧
            ∃ y, Exec E cx (.chcRun (combRules rs els)) st1 y ∧ y.evs = le ∧ x.st.pos = y.st.pos ∧
              ((x.out = .ok ∧ y.out = .brk) ∨ (x.out = .fail ∧ y.out = .fail)))) := by
  induction n with
  | zero => intro _ _ _ _ _ _ _ _ h; cases h
  | succ n ih =>
    intro st handled seen x hl hd hlt hs h
    rw [exec_succ] at h
    simp only [step] at h
    split at h
    · rename_i hc
      cases h
      refine ⟨[], st, [], .nil, rfl, (fun ps1 p ps2 he => by cases ps1 <;> cases he), .inl ⟨rfl, rfl, rfl, fun i hi => .inl ?_⟩⟩
      exact (hs i).1 (nodup_full hd hlt hc i hi)
    · rename_i hc
      have hex : ∃ i, i < rs.length ∧ i ∉ seen := by
        apply Classical.byContradiction
        intro hno
        have := le_of_all (n := rs.length) (l := handled) fun i hi => (hs i).2 (Classical.byContradiction fun h => hno ⟨i, hi, h⟩)
        omega
      obtain ⟨r1, r2, h1, h2, rfl⟩ := andThen_some.1 h
      obtain ⟨y, h3, rfl⟩ := framed_some.1 h1
      simp only at h2 ⊢
      obtain ⟨o, st1, e1⟩ := y
      have hstop : ∀ o', o = o' → o' ≠ .ok → ∀ {r2 : Res}, (r2 = ⟨.fail, st1.frame st.vars.length, []⟩ ∧ o' = .fail ∨ r2 = ⟨.ok, st1.frame st.vars.length, []⟩ ∧ o' = .brk) →
          ∃ ps st2 le, Parts E cx rs ps st st2 ∧ e1 ++ r2.evs = partEvents tag seen ps ++ le ∧
            (∀ ps1 p ps2, ps = ps1 ++ p :: ps2 → ∃ i, i < rs.length ∧ i ∉ seen ∧ i ∉ ps1.map Part.idx) ∧
            ((r2.out = .ok ∧ le = [] ∧ r2.st = st2 ∧ ∀ i, i < rs.length → i ∈ seen ∨ i ∈ ps.map Part.idx) ∨
              ((∃ i, i < rs.length ∧ i ∉ seen ∧ i ∉ ps.map Part.idx) ∧
                ∃ y, Exec E cx (.chcRun (combRules rs els)) st2 y ∧ y.evs = le ∧ r2.st.pos = y.st.pos ∧
                  ((r2.out = .ok ∧ y.out = .brk) ∨ (r2.out = .fail ∧ y.out = .fail)))) := by
        intro o' ho _ r2 hr
        subst ho
        refine ⟨[], st, e1, .nil, ?_, (fun ps1 p ps2 he => by cases ps1 <;> cases he), .inr ⟨?_, _, ⟨n, h3⟩, rfl, ?_⟩⟩
        · rcases hr with ⟨rfl, _⟩ | ⟨rfl, _⟩ <;> simp [partEvents]
        · obtain ⟨i, hi, hi'⟩ := hex
          exact ⟨i, hi, hi', nofun⟩
        · rcases hr with ⟨rfl, rfl⟩ | ⟨rfl, rfl⟩
          · exact ⟨rfl, .inr ⟨rfl, rfl⟩⟩
          · exact ⟨rfl, .inl ⟨rfl, rfl⟩⟩
      cases o with
      | fail => cases h2; exact hstop .fail rfl nofun (.inl ⟨rfl, rfl⟩)
      | brk => cases h2; exact hstop .brk rfl nofun (.inr ⟨rfl, rfl⟩)
      | ok =>
        clear hstop
        simp only at h2
        obtain ⟨i, r, ce, st2, e2, hr, hlv, ht, hce, hfin, rfl, rfl⟩ := chcRun_part hl h3
        have hl2 : st2.pos ≤ E.inp.length := by
          obtain ⟨m, hm⟩ := hfin
          exact fin_le hl hm
        have hil : i < rs.length := (List.getElem?_eq_some_iff.1 hr).1
        simp only [St.frame] at h2
        -- both cases go on with the loop
        have key : ∀ (handled' : List Nat) (r3 : Res) (s' : St), s'.pos = st2.pos → s'.vars = (st2.frame st.vars.length).vars → handled'.Nodup → (∀ j ∈ handled', j < rs.length) → (∀ j, j ∈ handled' ↔ j ∈ i :: seen) →
            exec E n cx (.combLoop tag (combRules rs els) rs.length handled' handled'.length) s' = some r3 →
            ∀ er, (er = if i ∈ seen then [.error tag st.pos st2.pos] else []) →
            ∃ ps st3 le, Parts E cx rs ps st st3 ∧ ce ++ e2 ++ (er ++ r3.evs) = partEvents tag seen ps ++ le ∧
              (∀ ps1 p ps2, ps = ps1 ++ p :: ps2 → ∃ i, i < rs.length ∧ i ∉ seen ∧ i ∉ ps1.map Part.idx) ∧
              ((r3.out = .ok ∧ le = [] ∧ r3.st = st3 ∧ ∀ i, i < rs.length → i ∈ seen ∨ i ∈ ps.map Part.idx) ∨
                ((∃ i, i < rs.length ∧ i ∉ seen ∧ i ∉ ps.map Part.idx) ∧
                  ∃ y, Exec E cx (.chcRun (combRules rs els)) st3 y ∧ y.evs = le ∧ r3.st.pos = y.st.pos ∧
                    ((r3.out = .ok ∧ y.out = .brk) ∨ (r3.out = .fail ∧ y.out = .fail)))) := by
          intro handled' r3 s' hp' hv' hd' hlt' hs' h4 er her
          obtain ⟨ps, st3, le, h5, h6, h7, h8⟩ := ih s' handled' (i :: seen) r3 (hp' ▸ hl2) hd' hlt' hs' h4
          refine ⟨⟨i, st.pos, st2.pos, ce ++ e2⟩ :: ps, st3, le, .cons hr hlv ht hce hfin hp' hv' h5, ?_, ?_, ?_⟩
          · rw [h6, her]
            simp only [partEvents, List.append_assoc]
          · intro ps1 p ps2 he
            cases ps1 with
            | nil => obtain ⟨j, hj, hj'⟩ := hex; exact ⟨j, hj, hj', nofun⟩
            | cons a ps1 =>
              simp only [List.cons_append, List.cons.injEq] at he
              obtain ⟨rfl, he⟩ := he
              obtain ⟨j, hj, hj1, hj2⟩ := h7 ps1 p ps2 he
              simp only [List.mem_cons, not_or] at hj1
              refine ⟨j, hj, hj1.2, ?_⟩
              simp only [List.map_cons, List.mem_cons, not_or]
              exact ⟨hj1.1, hj2⟩
          · rcases h8 with ⟨h9, h10, h11, h12⟩ | ⟨⟨j, hj, hj1, hj2⟩, h8⟩
            · refine .inl ⟨h9, h10, h11, fun j hj => ?_⟩
              rcases h12 j hj with h13 | h13
              · rcases List.mem_cons.1 h13 with rfl | h13
                · exact .inr (by simp)
                · exact .inl h13
              · exact .inr (List.mem_cons_of_mem _ h13)
            · simp only [List.mem_cons, not_or] at hj1
              refine .inr ⟨⟨j, hj, hj1.2, ?_⟩, h8⟩
              simp only [List.map_cons, List.mem_cons, not_or]
              exact ⟨hj1.1, hj2⟩
        by_cases hin : i ∈ handled
        · replace h2 := (if_pos (List.contains_iff_mem.2 hin)).symm.trans h2
          obtain ⟨r3, h4, rfl⟩ := emit_some.1 h2
          exact key handled r3 { st2.frame st.vars.length with idx := i } rfl rfl hd hlt (fun j => by
            rw [hs, List.mem_cons]
            exact ⟨.inr, fun h => h.elim (fun h => h ▸ (hs i).1 hin) id⟩) h4 [_] (by rw [if_pos ((hs i).1 hin)])
        · replace h2 := (if_neg (fun h => hin (List.contains_iff_mem.1 h))).symm.trans h2
          have := key (i :: handled) r2 { st2.frame st.vars.length with idx := i } rfl rfl (List.nodup_cons.2 ⟨hin, hd⟩) (fun j hj => by
            rcases List.mem_cons.1 hj with rfl | hj
            · exact hil
            · exact hlt j hj) (fun j => by simp only [List.mem_cons, hs]) h2 [] (by rw [if_neg (fun h => hin ((hs i).2 h))])
          simpa only [List.nil_append] using this

/-- **C44.** Errors or not: as long as a branch is missing, a combination parses the first branch that matches, whether it was
    parsed before or not.  Every branch that was parsed before is reported as a duplicate, right after it and over its range,
    and nothing else is reported by the combination.  It succeeds once every branch was parsed; it stops earlier only if the
    choice between the branches breaks or fails. -/
theorem C44_duplicates {E : Env} {n : Nat} {cx : Cx} {tag : Nat} {rs : List Rule} {els : CombElse} {st : St} {x : Res}
    (hl : st.pos ≤ E.inp.length) (h : exec E n cx (.run (.comb tag rs els)) st = some x) :
    ∃ ps st0 st1 le, st0.pos = st.pos ∧ st0.vars = st.vars ∧ Parts E cx rs ps st0 st1 ∧ x.evs = partEvents tag [] ps ++ le ∧
      (∀ ps1 p ps2, ps = ps1 ++ p :: ps2 → ∃ i, i < rs.length ∧ i ∉ ps1.map Part.idx) ∧
      ((x.out = .ok ∧ le = [] ∧ x.st.pos = st1.pos ∧ ∀ i, i < rs.length → i ∈ ps.map Part.idx) ∨
        ((∃ i, i < rs.length ∧ i ∉ ps.map Part.idx) ∧
          ∃ y, Exec E cx (.chcRun (combRules rs els)) st1 y ∧ y.evs = le ∧ x.st.pos = y.st.pos ∧
            ((x.out = .ok ∧ y.out = .brk) ∨ (x.out = .fail ∧ y.out = .fail)))) := by
  cases n with
  | zero => cases h
  | succ n =>
    have fin : ∃ r : Res, exec E n cx (.combLoop tag (combRules rs els) rs.length [] 0) { st with idx := 0 } = some r ∧
        x.evs = r.evs ∧ x.out = r.out ∧ x.st.pos = r.st.pos := by
      rw [exec_succ] at h
      simp only [step, stepRun] at h
      rcases onOk'_some h with ⟨st1, e1, r2, h1, h2, rfl⟩ | ⟨h1, h2⟩
      · cases h2
        exact ⟨_, h1, by simp, rfl, rfl⟩
      · exact ⟨_, h1, rfl, rfl, rfl⟩
    obtain ⟨r, hr, he, ho, hp⟩ := fin
    obtain ⟨ps, st1, le, h1, h2, h3, h4⟩ := combLoop_parts n { st with idx := 0 } [] [] r hl .nil nofun (fun _ => Iff.rfl) hr
    refine ⟨ps, { st with idx := 0 }, st1, le, rfl, rfl, h1, he.trans h2, fun ps1 p ps2 h => ?_, ?_⟩
    · obtain ⟨i, hi, _, hi'⟩ := h3 ps1 p ps2 h
      exact ⟨i, hi, hi'⟩
    · rw [ho, hp]
      rcases h4 with ⟨h5, h6, h7, h8⟩ | ⟨⟨i, hi, _, hi'⟩, h4⟩
      · exact .inl ⟨h5, h6, by rw [h7], fun i hi => (h8 i hi).resolve_left nofun⟩
      · exact .inr ⟨⟨i, hi, hi'⟩, h4⟩

/-! ### C59 -/

/-- The rule was parsed, or as a branch taken and parsed; the events are appended. -/
def Spec.Done (E : Env) (cx : Cx) (r : Rule) (a b : St × List Ev) : Prop :=
  ∃ y, (Exec E cx (.run r) a.1 y ∨ (Takes E r a.1 ∧ Exec E cx (.bfinish r) a.1 y)) ∧ y.out = .ok ∧
    b = (y.st.frame a.1.vars.length, a.2 ++ y.evs)

/-- Taken as a branch. -/
def Spec.Taken (E : Env) (cx : Cx) (r : Rule) (a b : St × List Ev) : Prop :=
  Takes E r a.1 ∧ ∃ y, Exec E cx (.bfinish r) a.1 y ∧ y.out = .ok ∧ b = (y.st.frame a.1.vars.length, a.2 ++ y.evs)

theorem Spec.Taken.done {E : Env} {cx : Cx} {r : Rule} {a b : St × List Ev} (h : Taken E cx r a b) : Done E cx r a b := by
  obtain ⟨h1, y, h2, h3⟩ := h
  exact ⟨y, .inr ⟨h1, h2⟩, h3⟩

/-- What is reported for a separator at the end, over these positions. -/
def Spec.TrailingReport (k : SepKind) (b e : Nat) (evs : List Ev) : Prop :=
  match k with
  | .sep tag => evs = [.error tag b e]
  | .trailing | .ignoreTrailing => evs = []

theorem trailing_report {k : SepKind} {b e : Nat} : TrailingReport k b e (trailingError k b e) := by
  cases k <;> rfl

/-- How a list ends: not with a separator, or with one that is not followed by an item and that is reported. -/
def Spec.ListEnd (E : Env) (cx : Cx) (item sep : Rule) (k : SepKind) (a : St × List Ev) (x : Res) : Prop :=
  (Leaves E sep a.1 ∧ x.st = a.1 ∧ ∃ ce, CancelTr E.inp.length a.1.pos ce ∧ x.evs = a.2 ++ ce) ∨
    ∃ b ce te, Taken E cx sep a b ∧ Leaves E item b.1 ∧ x.st = b.1 ∧ CancelTr E.inp.length b.1.pos ce ∧
      TrailingReport k a.1.pos x.st.pos te ∧ x.evs = b.2 ++ ce ++ te

theorem Spec.Done.le {E : Env} {cx : Cx} {r : Rule} {a b : St × List Ev} (h : Done E cx r a b) (hl : a.1.pos ≤ E.inp.length) :
    b.1.pos ≤ E.inp.length ∧ b.1.vars.length = a.1.vars.length := by
  obtain ⟨y, h1, _, rfl⟩ := h
  rcases h1 with ⟨n, h1⟩ | ⟨_, n, h1⟩
  · exact ⟨run_le hl h1, frame_len h1⟩
  · exact ⟨fin_le hl h1, frame_len h1⟩

theorem framed_done {E : Env} {n : Nat} {cx : Cx} {r : Rule} {st st1 : St} {e0 e1 : List Ev} {k : Nat} (hk : k = st.vars.length)
    (h : framed k (exec E n cx (.run r) st) = some ⟨.ok, st1, e1⟩) : Done E cx r (st, e0) (st1, e0 ++ e1) := by
  obtain ⟨s, h1, rfl⟩ := framed_iff.1 h
  exact ⟨_, .inl ⟨n, h1⟩, rfl, by rw [hk]⟩

theorem framed_taken {E : Env} {n : Nat} {cx : Cx} {r : Rule} {st st1 : St} {e0 e1 : List Ev} {k : Nat} (hk : k = st.vars.length)
    (ht : Takes E r st) (h : framed k (exec E n cx (.bfinish r) st) = some ⟨.ok, st1, e1⟩) :
    Taken E cx r (st, e0) (st1, e0 ++ e1) := by
  obtain ⟨s, h1, rfl⟩ := framed_iff.1 h
  exact ⟨ht, _, ⟨n, h1⟩, rfl, by rw [hk]⟩

theorem lstLoop_chain {E : Env} {cx : Cx} {item sep : Rule} {k : SepKind} (n : Nat) :
    ∀ (a0 : St × List Ev) (st : St) (e0 : List Ev) (x : Res), st.pos ≤ E.inp.length → Done E cx item a0 (st, e0) →
      exec E n cx (.lstLoop item (some (sep, k))) st = some x → x.out = .ok →
      ∃ N b, Chain (Done E cx item) (Taken E cx sep) (N + 1) a0 b ∧ ListEnd E cx item sep k b ⟨x.out, x.st, e0 ++ x.evs⟩ := by
  induction n with
  | zero => intro _ _ _ _ _ _ h; cases h
  | succ n ih =>
    intro a0 st e0 x hl hd h ho
    rw [exec_succ] at h
    simp only [step] at h
    rcases ifTry_some hl h with ⟨ht, h1⟩ | ⟨ht, h1⟩
    · rcases onOk'_some h1 with ⟨st1, e1, r2, h2, h3, rfl⟩ | ⟨_, h2⟩
      · have hs := framed_taken (e0 := e0) rfl ht h2
        obtain ⟨hl1, hv1⟩ := hs.done.le hl
        simp only at hl1 hv1 ho ⊢
        have next : ∀ {st2 e2 r3}, Done E cx item (st1, e0 ++ e1) (st2, e0 ++ e1 ++ e2) →
            exec E n cx (.lstLoop item (some (sep, k))) st2 = some r3 → r2 = ⟨r3.out, r3.st, e2 ++ r3.evs⟩ →
            ∃ N b, Chain (Done E cx item) (Taken E cx sep) (N + 1) a0 b ∧
              ListEnd E cx item sep k b ⟨r2.out, r2.st, e0 ++ (e1 ++ r2.evs)⟩ := by
          rintro st2 e2 r3 hd2 h4 rfl
          obtain ⟨N, b, h5, h6⟩ := ih (st1, e0 ++ e1) st2 _ r3 (hd2.le hl1).1 hd2 h4 ho
          refine ⟨N + 1, b, .more hd hs h5, ?_⟩
          simpa only [List.append_assoc] using h6
        split at h3
        · rcases ifTry_some hl1 h3 with ⟨hti, h4⟩ | ⟨hti, h4⟩
          · rcases onOk'_some h4 with ⟨st2, e2, r3, h5, h6, h7⟩ | ⟨_, h5⟩
            · exact next (framed_taken hv1.symm hti h5).done h6 h7
            · rw [ho] at h5; cases h5
          · rcases onOk'_some h4 with ⟨st2, e2, r3, h5, h6, rfl⟩ | ⟨_, h5⟩
            · cases h6
              obtain ⟨h7, h8⟩ := cancel_out hl1 h5
              cases h7
              exact ⟨0, (st, e0), .one hd, .inr ⟨_, e2, _, hs, hti, rfl, h8, trailing_report, by simp⟩⟩
            · rw [ho] at h5; cases h5
        · rcases onOk'_some h3 with ⟨st2, e2, r3, h5, h6, h7⟩ | ⟨_, h5⟩
          · exact next (framed_done hv1.symm h5) h6 h7
          · rw [ho] at h5; cases h5
      · rw [ho] at h2; cases h2
    · rcases onOk'_some h1 with ⟨st1, e1, r2, h2, h3, rfl⟩ | ⟨_, h2⟩
      · cases h3
        obtain ⟨h7, h8⟩ := cancel_out hl h2
        cases h7
        exact ⟨0, (st, e0), .one hd, .inl ⟨ht, rfl, e1, h8, by simp⟩⟩
      · rw [ho] at h2; cases h2

/-- **C59.** A list that succeeds, whatever was reported: an item, then any number of times a separator and an item.  If a
    separator follows that is not followed by an item, it is consumed, and reported - over the range of the separator - iff it
    may not be trailing. -/
theorem C59_list {E : Env} {n : Nat} {cx : Cx} {item sep : Rule} {k : SepKind} {st : St} {x : Res} (hl : st.pos ≤ E.inp.length)
    (h : exec E n cx (.run (.lst item (some (sep, k)))) st = some x) (ho : x.out = .ok) :
    ∃ N b, Chain (Done E cx item) (Taken E cx sep) (N + 1) (st, []) b ∧ ListEnd E cx item sep k b x := by
  cases n with
  | zero => cases h
  | succ n =>
    rcases onOk'_some h with ⟨st1, e1, r2, h1, h2, rfl⟩ | ⟨_, h2⟩
    · have hd := framed_done (e0 := []) rfl h1
      exact lstLoop_chain n _ _ _ r2 (hd.le hl).1 hd h2 ho
    · rw [ho] at h2; cases h2

/-- **C59.** Without errors: separators strictly between the items, and one behind the last item only if it may be trailing. -/
theorem C59_quiet {E : Env} (hx : ExprLits E) {n : Nat} {cx : Cx} {item : Rule} {sep : Option Sep} {st : St} {x : Res}
    (hl : st.pos ≤ E.inp.length) (h : exec E n cx (.run (.lst item sep)) st = some x) (ho : x.out = .ok)
    (hq : ∀ ev ∈ x.evs, ev.isError = false) : ∃ N, Items E cx.ws item sep false (N + 1) st.pos x.st.pos := by
  have h1 := C38_rule hx hl h ho hq
  generalize x.st.pos = q at h1
  generalize cx.ws = w at h1
  cases h1
  case token ht _ _ => cases ht
  case list h1 h2 => exact tail_inv h2 h1
  case context h => cases h

/-- **C59.** The rule behind the items of `times` and `repeat`: a separator that is there although it may not be trailing is
    consumed and reported, over its range. -/
theorem C59_nsep {E : Env} {n : Nat} {cx : Cx} {tag : Nat} {sep : Rule} {st : St} {x : Res} (hl : st.pos ≤ E.inp.length)
    (h : exec E n cx (.run (.nsep tag sep)) st = some x) (ho : x.out = .ok) :
    (Leaves E sep st ∧ x.st = st ∧ CancelTr E.inp.length st.pos x.evs) ∨
      (Takes E sep st ∧ ∃ y, Exec E cx (.bfinish sep) st y ∧ y.out = .ok ∧ x.st = y.st ∧
        x.evs = y.evs ++ [.error tag st.pos y.st.pos]) := by
  cases n with
  | zero => cases h
  | succ n =>
    rcases ifTry_some hl h with ⟨ht, h1⟩ | ⟨ht, h1⟩
    · rcases onOk'_some h1 with ⟨st1, e1, r2, h2, h3, rfl⟩ | ⟨_, h2⟩
      · cases h3
        exact .inr ⟨ht, _, ⟨n, h2⟩, rfl, rfl, rfl⟩
      · rw [ho] at h2; cases h2
    · rcases onOk'_some h1 with ⟨st1, e1, r2, h2, h3, rfl⟩ | ⟨_, h2⟩
      · cases h3
        obtain ⟨h7, h8⟩ := cancel_out hl h2
        cases h7
        exact .inl ⟨ht, rfl, by simpa using h8⟩
      · rw [ho] at h2; cases h2

end Verif
