import Verif.Tokens
import Verif.Accept
import Verif.GrammarEx

/-
C40 for `eof` (eof.hpp).
-/

namespace Verif

/-- The reader is at the end of the input, or at a code unit that the encoding does not distinguish from it. -/
def Spec.AtEof (E : Env) (p : Nat) : Prop := E.inp.length ≤ p ∨ ∃ u, E.inp[p]? = some u ∧ E.eof = some u

theorem peekEof_at {E : Env} {p : Nat} : peekEof E.eof (E.inp.drop p) = true ↔ Spec.AtEof E p := by
  unfold Spec.AtEof
  by_cases h : p < E.inp.length
  · rw [List.drop_eq_getElem_cons h]
    simp only [peekEof, beq_iff_eq, List.getElem?_eq_getElem h, Option.some.injEq]
    exact ⟨fun g => .inr ⟨_, rfl, g⟩, fun g => g.elim (fun g => by omega) fun ⟨u, g1, g2⟩ => by rw [g1]; exact g2⟩
  · rw [List.drop_eq_nil_of_le (by omega)]
    exact ⟨fun _ => .inl (by omega), fun _ => rfl⟩

/-- **C40.** `eof` never consumes input and never fails.  At the end of the input it has the EOF token; everywhere else it reports
    one error at the position of the reader and goes on. -/
theorem C40_eof {E : Env} {cx : Cx} {tag : Nat} {st : St} {x : Res} (h : Exec E cx (.run (.prim (eofRule E.eof tag))) st x) :
    x.out = .ok ∧ x.st = st ∧ (Spec.AtEof E st.pos → x.evs = [.token .eof st.pos st.pos])
      ∧ (¬ Spec.AtEof E st.pos → x.evs = [.error tag st.pos st.pos]) := by
  obtain ⟨n, h⟩ := h
  cases n with
  | zero => cases h
  | succ n =>
    rw [exec_succ] at h
    simp only [step, stepRun, primDone, eofRule, eofParse, if_true, Bool.false_eq_true, if_false, emit, ret, Option.map_some,
      List.append_nil, Option.some.injEq] at h
    subst h
    rw [← peekEof_at]
    refine ⟨rfl, rfl, fun h => ?_, fun h => ?_⟩
    · simp [h]
    · simp [h]

/-- **C40.** As a branch it is taken exactly at the end of the input. -/
theorem C40_eof_branch {E : Env} {cx : Cx} {tag : Nat} {st : St} {x : Res}
    (h : Exec E cx (.btry (.prim (eofRule E.eof tag))) st x) :
    x.st = st ∧ x.evs = [] ∧ (x.out = .ok ↔ Spec.AtEof E st.pos) ∧ (x.out = .fail ↔ ¬ Spec.AtEof E st.pos) := by
  obtain ⟨n, h⟩ := h
  cases n with
  | zero => cases h
  | succ n =>
    rw [exec_succ] at h
    simp only [step, stepTry, eofRule, Option.bind_some, ret, Option.some.injEq] at h
    subst h
    rw [← peekEof_at]
    by_cases hp : peekEof E.eof (E.inp.drop st.pos) = true <;> simp [hp]

/-- `1`: an error in front of it, the token behind it. -/
example : (exec (Ex.env [49] Ex.lists) 5 ⟨none, 10⟩ (.run (.prim (eofRule none 9))) { pos := 0 }).map (·.evs) = some [.error 9 0 0]
    ∧ (exec (Ex.env [49] Ex.lists) 5 ⟨none, 10⟩ (.run (.prim (eofRule none 9))) { pos := 1 }).map (·.evs)
      = some [.token .eof 1 1] := by decide +kernel

end Verif
