import Verif.Action
import Verif.TraceProps
import Verif.GrammarMono

/-
Properties of the actions (C41, C42).
-/

namespace Verif

namespace Spec

/-- The errors among the events, in order. -/
def errors : List Ev → List (Nat × Nat × Nat)
  | [] => []
  | .error tag b e :: es => (tag, b, e) :: errors es
  | _ :: es => errors es

end Spec

theorem matchOn_fold (evs : List Ev) (f : Bool) :
    evs.foldl matchOn f = (f || !(Spec.errors evs).isEmpty) := by
  induction evs generalizing f with
  | nil => simp [Spec.errors]
  | cons e evs ih => cases e <;> simp [Spec.errors, matchOn, ih]

theorem validateOn_fold (evs : List Ev) (s : List (Nat × Nat × Nat)) :
    evs.foldl validateOn s = s ++ Spec.errors evs := by
  induction evs generalizing s with
  | nil => simp [Spec.errors]
  | cons e evs ih => cases e <;> simp [Spec.errors, validateOn, ih]

theorem errors_mem {evs : List Ev} {tag b e : Nat} (h : Ev.error tag b e ∈ evs) : Spec.errors evs ≠ [] := by
  induction evs with
  | nil => cases h
  | cons ev evs ih =>
    rcases List.mem_cons.1 h with h' | h'
    · subst h'; simp [Spec.errors]
    · have := ih h'
      cases ev <;> simp only [Spec.errors] <;> first | exact this | exact List.cons_ne_nil _ _

theorem runGrammar_out {E : Env} {fuel n d : Nat} {r : Res} (h : runGrammar E fuel n d = some r) :
    r.out = .ok ∨ (r.out = .fail ∧ Spec.errors r.evs ≠ []) := by
  rcases runGrammar_tr h with ⟨evs, q, ht, hr, hq⟩ | ⟨evs, q, ht, hr, hq⟩
  · rw [hr]; exact .inl rfl
  · have hf : r.out = .fail := by rw [hr]
    obtain ⟨tag, b, e, he, _⟩ := C41_fail_error h hf
    exact .inr ⟨hf, errors_mem he⟩

/-- **C41** `match` succeeds exactly if no error is reported; so does `validate`, and all its errors are inside of
    the input. -/
theorem C41_success_iff {E : Env} {fuel n d : Nat} {r : Res} (h : runGrammar E fuel n d = some r) :
    (matchAction E fuel n d = some true ↔ Spec.errors r.evs = []) ∧
    (∃ v, validateAction E fuel n d = some v ∧ v.errors = Spec.errors r.evs ∧
      (v.status = .success ↔ Spec.errors r.evs = []) ∧ (v.status = .fatal ↔ r.out = .fail) ∧
      ∀ x ∈ v.errors, x.2.1 ≤ x.2.2 ∧ x.2.2 ≤ E.inp.length) := by
  have hb : ∀ x ∈ Spec.errors r.evs, x.2.1 ≤ x.2.2 ∧ x.2.2 ≤ E.inp.length := by
    have hi := C36_events_in_bounds h
    revert hi
    generalize r.evs = evs
    intro hi
    induction evs with
    | nil => simp [Spec.errors]
    | cons ev evs ih =>
      have ih := ih fun ev hev => hi ev (List.mem_cons_of_mem _ hev)
      have h1 := hi ev (List.mem_cons_self ..)
      cases ev <;> simp only [Spec.errors] <;> first | exact ih | skip
      intro x hx
      rcases List.mem_cons.1 hx with hx | hx
      · subst hx; exact h1
      · exact ih x hx
  have ho := runGrammar_out h
  constructor
  · simp only [matchAction, h, Option.map_some, Option.some.injEq, matchResult, matchOn_fold, Bool.false_or,
      Bool.not_not, Bool.and_eq_true, beq_iff_eq, List.isEmpty_iff]
    constructor
    · exact fun h => h.2
    · intro he
      rcases ho with ho | ho
      · exact ⟨ho, he⟩
      · exact absurd he ho.2
  · refine ⟨validateResult r, by simp [validateAction, h], ?_, ?_, ?_, ?_⟩
    · simp [validateResult, Validated.mk', validateOn_fold]
    · simp only [validateResult, Validated.mk', validateOn_fold, List.nil_append, List.length_eq_zero_iff]
      split
      · simp [*]
      · split <;> simp [*]
    · simp only [validateResult, Validated.mk', validateOn_fold, List.nil_append, List.length_eq_zero_iff]
      rcases ho with ho | ⟨ho, he⟩
      · rw [ho]; split <;> simp
      · rw [ho, if_neg he]; simp
    · simpa [validateResult, Validated.mk', validateOn_fold] using hb

/-- **C42** The actions agree: they give a result for the same grammars and inputs; `match` succeeds exactly if
    `validate` does and exactly if `parse` does; `validate` and `parse` have the same errors and the same status; the
    preconditions of the results hold; there is a value exactly if the error was not fatal. -/
theorem C42_actions_agree (E : Env) (fuel n d : Nat) :
    (matchAction E fuel n d = none ∧ validateAction E fuel n d = none ∧ parseAction E fuel n d = none) ∨
    (∃ m v p, matchAction E fuel n d = some m ∧ validateAction E fuel n d = some v ∧
      parseAction E fuel n d = some p ∧ (m = true ↔ v.status = .success) ∧ p.impl = v ∧
      (p.hasValue = true ↔ v.status ≠ .fatal)) := by
  cases h : runGrammar E fuel n d with
  | none => exact .inl ⟨by simp [matchAction, h], by simp [validateAction, h], by simp [parseAction, h]⟩
  | some r =>
    obtain ⟨h1, v, h2, _, h4, h5, _⟩ := C41_success_iff h
    have hv : v = validateResult r := by
      have : validateAction E fuel n d = some (validateResult r) := by simp [validateAction, h]
      rw [h2] at this; exact Option.some.inj this
    have hm : matchAction E fuel n d = some (matchResult r) := by simp [matchAction, h]
    have hmv : matchResult r = true ↔ v.status = .success := by
      rw [h4, ← h1, hm]; simp
    by_cases ho : r.out = .ok
    · have hs : v.status ≠ .fatal := fun hf => by rw [h5.1 hf] at ho; cases ho
      refine .inr ⟨_, v, ⟨v, true⟩, hm, h2, ?_, hmv, rfl, by simp [hs]⟩
      simp only [parseAction, h, Option.bind_some, parseResult, ho, ← hv, if_true]
      rw [if_pos]
      cases hst : v.status with
      | success => exact .inl rfl
      | recovered => exact .inr rfl
      | fatal => exact absurd hst hs
    · have hf : r.out = .fail := by
        rcases runGrammar_out h with h | h
        · exact absurd h ho
        · exact h.1
      have hs : v.status = .fatal := h5.2 hf
      refine .inr ⟨_, v, ⟨v, false⟩, hm, h2, ?_, hmv, rfl, by simp [hs]⟩
      simp [parseAction, h, parseResult, ho, ← hv]

/-- **C42** A value exists whenever the parse is a success (so `value()` may be called). -/
theorem C42_success_has_value {E : Env} {fuel n d : Nat} {p : Parsed} (h : parseAction E fuel n d = some p)
    (hs : p.impl.status = .success) : p.hasValue = true := by
  rcases C42_actions_agree E fuel n d with ⟨_, _, h'⟩ | ⟨m, v, p', _, _, h', _, h1, h2⟩
  · rw [h] at h'; cases h'
  · rw [h] at h'
    cases h'
    rw [h2, ← h1, hs]
    exact fun h => by cases h

/-- **C42** The result of an action does not depend on the number of steps it is given. -/
theorem C42_steps {E : Env} {f g n d : Nat} (hfg : f ≤ g) :
    (∀ m, matchAction E f n d = some m → matchAction E g n d = some m) ∧
    (∀ v, validateAction E f n d = some v → validateAction E g n d = some v) ∧
    (∀ p, parseAction E f n d = some p → parseAction E g n d = some p) := by
  refine ⟨fun m h => ?_, fun m h => ?_, fun m h => ?_⟩ <;>
  · cases hr : runGrammar E f n d with
    | none => simp [matchAction, validateAction, parseAction, hr] at h
    | some r =>
      have hg := runGrammar_mono hfg hr
      simpa [matchAction, validateAction, parseAction, hr, hg] using h

/-- A parse that recovers, and one that fails. -/
example : matchAction Ex.missingItem 40 3 10 = some false ∧
    (parseAction Ex.missingItem 40 3 10).map (fun p => (p.impl.status, p.hasValue)) = some (.recovered, true) ∧
    (parseAction Ex.unterminated 40 3 10).map (fun p => (p.impl.status, p.hasValue)) = some (.fatal, false) := by
  decide +kernel

end Verif
