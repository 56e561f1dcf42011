import Verif.LazyInit

/-!
# C88: `lazy_init` is an optional object

Refinement: the storage with its flag and its explicit lifetimes behaves like a variable that is empty or
holds a value. In particular every object constructed is destroyed exactly once.
-/

namespace Verif.Lz

namespace Spec

/-- The variables that exist; each is empty or holds a value. -/
abbrev Vars := Nat → Option (Option V)

def Vars.set (m : Vars) (a : Nat) (x : Option (Option V)) : Vars := fun b => if b = a then x else m b

/-- What remains of a value that was moved. -/
def left (trivial : Bool) (v : V) : V := if trivial then v else .moved

/-- One operation on optional variables; `none` if the variable does not exist, exists already, or is empty
    where a value is needed. -/
def step (trivial : Bool) (m : Vars) : Op → Option (Vars × Option V)
  | .create a => if m a = none then some (m.set a (some none), none) else none
  | .emplace a n => (m a).map fun _ => (m.set a (some (some (.val n))), none)
  | .read a => (m a).bind fun o => o.map fun v => (m, some v)
  | .take a => (m a).bind fun o => o.map fun v => (m.set a (some (some (left trivial v))), some v)
  | .moveCtor a b =>
    if m a = none then (m b).map fun o => ((m.set b (some (o.map (left trivial)))).set a (some o), none) else none
  | .moveAssign a b =>
    if a = b then (m a).map fun o => (m.set a (some (o.map (left trivial))), none)
    else if m a = none then none
    else (m b).map fun o => ((m.set b (some (o.map (left trivial)))).set a (some o), none)
  | .destroy a => (m a).map fun _ => (m.set a none, none)

def run (trivial : Bool) (m : Vars) : List Op → Option (Vars × List (Option V))
  | [] => some (m, [])
  | op :: ops => (step trivial m op).bind fun p => (run trivial p.1 ops).map fun q => (q.1, p.2 :: q.2)

end Spec

/-- The storage of a variable. -/
def repr (o : Option V) : Slot := ⟨o.isSome, o⟩

/-- The memory of variables. -/
def reprs (m : Spec.Vars) : Mem := fun a => (m a).map repr

theorem reprs_set (m : Spec.Vars) (a : Nat) (x : Option (Option V)) :
    (reprs m).set a (x.map repr) = reprs (m.set a x) := by
  funext b
  simp only [reprs, Mem.set, Spec.Vars.set]
  split <;> rfl

theorem reprs_set_some (m : Spec.Vars) (a : Nat) (o : Option V) :
    (reprs m).set a (some (repr o)) = reprs (m.set a (some o)) := reprs_set m a (some o)

theorem reprs_set_none (m : Spec.Vars) (a : Nat) : (reprs m).set a none = reprs (m.set a none) := reprs_set m a none

theorem step_refines (trivial : Bool) (m : Spec.Vars) (op : Op) :
    step trivial (reprs m) op = (Spec.step trivial m op).map fun p => (reprs p.1, p.2) := by
  cases op with
  | create a =>
    have e : Slot.fresh = repr none := rfl
    simp only [step, Spec.step, reprs]
    cases h : m a with
    | none =>
      simp only [Option.map_none, if_true, Option.map_some, e]
      rw [← reprs_set_some]
    | some o => simp
  | emplace a n =>
    simp only [step, Spec.step, reprs]
    cases h : m a with
    | none => rfl
    | some o =>
      have e : emplace trivial (repr o) (.val n) = some (repr (some (.val n))) := by
        cases o <;> cases trivial <;> rfl
      simp only [Option.map_some, Option.bind_some, e]
      rw [← reprs_set_some]
  | read a =>
    simp only [step, Spec.step, reprs]
    cases h : m a with
    | none => rfl
    | some o => cases o <;> rfl
  | take a =>
    simp only [step, Spec.step, reprs]
    cases h : m a with
    | none => rfl
    | some o =>
      cases o with
      | none => rfl
      | some v =>
        have e : moveFrom trivial (repr (some v)) = some (v, repr (some (Spec.left trivial v))) := by
          cases trivial <;> rfl
        have e2 : deref (repr (some v)) = some v := rfl
        simp only [Option.map_some, Option.bind_some, e, e2]
        rw [← reprs_set_some]
  | moveCtor a b =>
    simp only [step, Spec.step]
    cases h : m a with
    | some o => simp [reprs, h]
    | none =>
      simp only [reprs, h, Option.map_none, if_true]
      cases h' : m b with
      | none => rfl
      | some o =>
        have e : moveCtor trivial (repr o) = some (repr o, repr (o.map (Spec.left trivial))) := by
          cases o <;> cases trivial <;> rfl
        simp only [Option.map_some, Option.bind_some, e]
        rw [← reprs_set_some, ← reprs_set_some]
  | moveAssign a b =>
    simp only [step, Spec.step]
    by_cases hab : a = b
    · subst hab
      simp only [if_true, reprs]
      cases h : m a with
      | none => rfl
      | some o =>
        cases o with
        | none =>
          simp only [Option.map_some, Option.bind_some, repr, Option.isSome_none, Bool.false_eq_true, if_false,
            Option.map_none, Option.some.injEq, Prod.mk.injEq, and_true]
          funext c
          show (m c).map repr = reprs (m.set a (some none)) c
          simp only [Spec.Vars.set, reprs]
          split
          · rename_i hc; rw [hc, h]
          · rfl
        | some v =>
          have e : (if trivial then some (repr (some v)) else (moveFrom trivial (repr (some v))).bind fun p =>
              assign p.2 .moved) = some (repr (some (Spec.left trivial v))) := by cases trivial <;> rfl
          have e2 : (repr (some v)).init = true := rfl
          simp only [Option.map_some, Option.bind_some, e2, if_true]
          rw [← reprs_set_some, e]; rfl
    · simp only [if_neg hab]
      cases h : m a with
      | none => simp [reprs, h]
      | some o =>
        simp only [reprs, h, Option.map_some, Option.bind_some]
        cases h' : m b with
        | none => simp
        | some o' =>
          have e : moveAssign trivial (repr o) (repr o') = some (repr o', repr (o'.map (Spec.left trivial))) := by
            cases o <;> cases o' <;> cases trivial <;> rfl
          simp only [Option.map_some, Option.bind_some, e, reduceCtorEq, if_false]
          rw [← reprs_set_some, ← reprs_set_some]
  | destroy a =>
    simp only [step, Spec.step, reprs]
    cases h : m a with
    | none => rfl
    | some o =>
      have e : ∃ s, destroy trivial (repr o) = some s ∧ s.obj = none := by
        cases o <;> cases trivial <;> exact ⟨_, rfl, rfl⟩
      obtain ⟨s, h1, h2⟩ := e
      simp only [Option.map_some, Option.bind_some, h1, h2]
      rw [← reprs_set_none]

/-- Any sequence of operations: it is defined exactly if it is for optional variables, and then returns the
    same values and leaves the same variables, without an object that was not destroyed or destroyed twice. -/
theorem C88_refines (trivial : Bool) : ∀ (ops : List Op) (m : Spec.Vars),
    run trivial (reprs m) ops = (Spec.run trivial m ops).map fun p => (reprs p.1, p.2)
  | [], m => rfl
  | op :: ops, m => by
    simp only [run, Spec.run, step_refines]
    cases Spec.step trivial m op with
    | none => rfl
    | some p =>
      simp only [Option.map_some, Option.bind_some, C88_refines trivial ops p.1]
      cases Spec.run trivial p.1 ops <;> rfl

/-- From the start, without variables: in every state reached the flag says whether the object lives. -/
theorem C88_flag (trivial : Bool) {ops : List Op} {m : Mem} {out : List (Option V)}
    (h : run trivial (fun _ => none) ops = some (m, out)) (a : Nat) (s : Slot) (hs : m a = some s) :
    s.init = true ↔ s.obj ≠ none := by
  have e : (fun _ => none : Mem) = reprs fun _ => none := rfl
  rw [e, C88_refines] at h
  obtain ⟨p, _, hp⟩ := Option.map_eq_some_iff.1 h
  have h1 : m = reprs p.1 := (congrArg Prod.fst hp).symm
  rw [h1] at hs
  obtain ⟨o, _, rfl⟩ := Option.map_eq_some_iff.1 hs
  cases o <;> simp [repr]

/-- Construct twice, move, read what was moved, destroy both. -/
example : (run false (fun _ => none) [.create 0, .emplace 0 1, .emplace 0 2, .moveCtor 1 0, .read 1, .read 0,
    .create 2, .moveAssign 1 2, .destroy 0, .destroy 1, .destroy 2]).map (·.2)
    = some [none, none, none, none, some (.val 2), some .moved, none, none, none, none, none] := by decide

example : (run false (fun _ => none) [.create 0, .read 0]).isNone := by decide

end Verif.Lz
