import Verif.ExprSound
import Verif.ExprEx
import Verif.TraceProps

/-
Precedence and associativity of expressions (C47).
-/

namespace Verif

open Spec

namespace Spec

/-- `o` has at least the level `m`. -/
def AtLeast (T : Table) (m o : Nat) : Prop := ∃ k l, T o = some (k, l) ∧ m ≤ l

end Spec

section

variable {T : Table} {m : Nat}

theorem Spec.RightOk.atLeast {o q : Nat} (h : RightOk T o q) (ho : AtLeast T m o) : AtLeast T m q := by
  obtain ⟨ko, lo, kq, lq, h1, h2, h3⟩ := h
  obtain ⟨k, l, h4, h5⟩ := ho
  rw [h1] at h4
  simp only [Option.some.injEq, Prod.mk.injEq] at h4
  refine ⟨kq, lq, h2, ?_⟩
  omega

mutual
/-- If the operators on the left of a tree have at least a level, all have. -/
theorem nested_atLeast : ∀ t : ETree, Nested T t → (∀ o ∈ leftEnd t, AtLeast T m o) → ∀ o ∈ opsOf t, AtLeast T m o
  | .atom _ _, _, _ => by simp [opsOf]
  | .pre p t, ⟨_, h2, h3⟩, h => by
    intro o ho
    have hp := h p (by simp [leftEnd])
    rcases List.mem_cons.1 ho with rfl | ho
    · exact hp
    · exact nested_atLeast t h2 (fun q hq => RightOk.atLeast (h3 q hq) hp) o ho
  | .post p t, ⟨_, h2, _⟩, h => by
    intro o ho
    rcases List.mem_cons.1 ho with rfl | ho
    · exact h _ (by simp [leftEnd])
    · exact nested_atLeast t h2 (fun q hq => h q (by simp [leftEnd, hq])) o ho
  | .inf p l r, ⟨_, h2, h3, _, h5⟩, h => by
    intro o ho
    have hp := h p (by simp [leftEnd])
    rcases List.mem_cons.1 ho with rfl | ho
    · exact hp
    · rcases List.mem_append.1 ho with ho | ho
      · exact nested_atLeast l h2 (fun q hq => h q (by simp [leftEnd, hq])) o ho
      · exact nested_atLeast r h3 (fun q hq => RightOk.atLeast (h5 q hq) hp) o ho
  | .list p [], _, h => by
    intro o ho
    simp only [opsOf, opsOfAll, List.mem_singleton] at ho
    exact ho ▸ h p (by simp [leftEnd])
  | .list p (t :: ts), ⟨_, _, h3, _, h5⟩, h => by
    intro o ho
    have hp := h p (by simp [leftEnd])
    rcases List.mem_cons.1 ho with rfl | ho
    · exact hp
    · rcases List.mem_append.1 ho with ho | ho
      · exact nested_atLeast t h3.1 (fun q hq => h q (by simp [leftEnd, leftEndHead, hq])) o ho
      · exact nestedAll_atLeast ts h3.2 (fun t ht q hq => RightOk.atLeast (h5 t ht q hq) hp) o ho
theorem nestedAll_atLeast : ∀ ts : List ETree, NestedAll T ts → (∀ t ∈ ts, ∀ o ∈ leftEnd t, AtLeast T m o) →
    ∀ o ∈ opsOfAll ts, AtLeast T m o
  | [], _, _ => by simp [opsOfAll]
  | t :: ts, ⟨h1, h2⟩, h => by
    intro o ho
    rcases List.mem_append.1 ho with ho | ho
    · exact nested_atLeast t h1 (h t (by simp)) o ho
    · exact nestedAll_atLeast ts h2 (fun t' ht => h t' (by simp [ht])) o ho
end

end

section

variable {E : Env} {i : Nat} {lvl : OpDef → Nat}

namespace Spec

/-- The root operation of an expression production: the given one, or the outermost. -/
def Root (e : ExprDef) (o : OpDef) : Prop :=
  o ∈ e.ops.all ∧ (e.root = some o ∨ (e.root = none ∧ ∃ t, e.ops = .op o t))

end Spec

theorem bp_left (k : OpKind) (g l : Nat) (h : 1 ≤ l) :
    2 * l ≤ (k.bp g l).left ∧ (k.bp g l).left ≤ 2 * l + 1 := by
  have e : 2 * l ≠ 0 := by omega
  cases k <;> simp [OpKind.bp, BP.left, e]

theorem minBP_root (ok : ExprOk E i lvl) {o : OpDef} (h : Root (E.exprs i) o) :
    2 * lvl o ≤ (E.exprs i).minBP ∧ (E.exprs i).minBP ≤ 2 * lvl o + 1 := by
  obtain ⟨h1, h2⟩ := h
  obtain ⟨g, hb, hl⟩ := ok.bp h1
  have : (E.exprs i).minBP = ((E.exprs i).bpOf o).left := by
    unfold ExprDef.minBP BP.left
    rcases h2 with h2 | ⟨h2, t, h3⟩
    · simp [h2]
    · simp [h2, h3]
  rw [this, hb]
  exact bp_left _ _ _ hl

theorem power_level {lvl : OpDef → Nat} {o : OpDef} {m : Nat} (h : 2 * m ≤ ExprOk.power lvl o) : m ≤ lvl o := by
  unfold ExprOk.power at h
  revert h
  cases o.kind <;> simp [OpKind.bp] <;> omega

/-- What is known after an expression was parsed without error. -/
theorem expr_calm {n : Nat} {cx : Cx} {st : St} {r : Res} (ok : ExprOk E i lvl)
    (h : exec E n cx (.run (.expr i)) st = some r) (hp : st.pos ≤ E.inp.length)
    (hq : ∀ ev ∈ r.evs, ev.isError = false) :
    r.out = .ok ∧ ∃ t xs, r.st.ex.val = some t ∧ Consumes E i st.pos xs r.st.pos
      ∧ yield t = xs.map Piece.sym ∧ Fit E i lvl t (E.exprs i).minBP r.st.pos
      ∧ Neat E i lvl t r.st.ex.group r.st.pos ∧ Closed E i (E.exprs i).minBP r.st.pos
      ∧ size t ≤ (E.exprs i).maxNest := by
  cases n with
  | zero => cases h
  | succ n =>
    simp only [exec_succ, step, stepRun] at h
    obtain ⟨r1, r2, h1, h2, rfl⟩ := andThen_some.1 h
    obtain ⟨out, st1, e1⟩ := r1
    simp only at h2 hq ⊢
    have hq1 : Calm e1 := (calm_append.1 hq).1
    have hok : out = .ok := by
      have hg := (exec_good E n cx (.exParse i (E.exprs i).minBP) { st with ex := {} } hp).1 _ h1
      cases out with
      | ok => rfl
      | brk => cases h2
      | fail =>
        obtain ⟨ev, h3, h4⟩ := hg.fail_error rfl
        rw [hq1 ev h3] at h4
        cases h4
    subst hok
    obtain ⟨⟨t, xs, a1, a2, a3, a4, ⟨n1, n2⟩, a5⟩, a6⟩ := (exec_sound ok n).parse cx _ _ _ h1 rfl
    simp only [Nat.add_zero, Nat.zero_add] at a1 a2 a3 a4 a5 a6 n1 n2
    simp only [a1, Option.isSome_some, if_true, ret, Option.some.injEq] at h2
    subst h2
    obtain ⟨b1, b2⟩ := a5 hq1 trivial
    exact ⟨rfl, t, xs, a1, a2, by simpa using a3, a4, b1, a6, n1 ▸ n2 (Nat.zero_le _)⟩

/-- **C47** An expression that is parsed without error has a value; the atoms and operators of the
    value are, from left to right, those parsed one after the other from the consumed input; the
    operators are nested by precedence and associativity; operators that cannot be chained are not;
    all of them bind at least as tight as the root operation.  And nothing was left: none of the
    operators that could continue the expression is next in the input. -/
theorem C47_sound {n : Nat} {cx : Cx} {st : St} {r : Res} (ok : ExprOk E i lvl)
    (h : exec E n cx (.run (.expr i)) st = some r) (hp : st.pos ≤ E.inp.length)
    (hq : ∀ ev ∈ r.evs, ev.isError = false) :
    r.out = .ok ∧ ∃ t xs, r.st.ex.val = some t ∧ Consumes E i st.pos xs r.st.pos
      ∧ yield t = xs.map Piece.sym
      ∧ Nested (tableOf (E.exprs i) lvl) t ∧ Unchained (tableOf (E.exprs i) lvl) t
      ∧ (∀ ro, Root (E.exprs i) ro → ∀ o ∈ opsOf t, AtLeast (tableOf (E.exprs i) lvl) (lvl ro) o)
      ∧ ∀ ro, Root (E.exprs i) ro → ∀ o ∈ (E.exprs i).ops.all, o.kind ≠ .prefix → lvl ro < lvl o →
          ¬ o.Hits (E.exprs i).fold (E.inp.drop r.st.pos) := by
  obtain ⟨a0, t, xs, a1, a2, a3, a4, b1, a6, a7⟩ := expr_calm ok h hp hq
  refine ⟨a0, t, xs, a1, a2, a3, a4.nested, b1.unchained, fun ro hro => ?_, fun ro hro o ho hk hlt => ?_⟩
  · apply nested_atLeast t a4.nested
    intro id hid
    obtain ⟨o, c1, rfl, c3⟩ := a4.left id hid
    exact ⟨_, _, ok.table c1, power_level (Nat.le_trans (minBP_root ok hro).1 c3)⟩
  · refine a6 o (ok.post_mem.2 ⟨ho, hk, ?_⟩)
    refine Nat.le_trans (minBP_root ok hro).2 ?_
    unfold ExprOk.power
    rw [if_neg hk]
    revert hk
    cases o.kind <;> simp [OpKind.bp] <;> omega

end

end Verif
