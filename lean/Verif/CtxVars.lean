import Verif.Grammar

/-
Context variables as a history of operations, independent of how they are stored (a linked list in the code,
action/base.hpp l.41-93).
-/

namespace Verif

/-- What can happen to context variables: creation, an update of a variable, and everything that happens during a
    production (or another rule that undoes creations). -/
inductive CtxOp
  | create (id : VarKey) (v : Var)
  | upd (id : VarKey) (f : Var → Var)
  | prod (ops : List CtxOp)

namespace Spec

mutual
/-- The updates that reach a variable created before the operation. -/
def reach (id : VarKey) : CtxOp → List (Var → Var)
  | .create _ _ => []
  | .upd i f => if i = id then [f] else []
  | .prod ops => reachAll id ops
/-- The updates that reach a variable created before the operations: those before another variable of that name is
    created. -/
def reachAll (id : VarKey) : List CtxOp → List (Var → Var)
  | [] => []
  | op :: ops =>
    match op with
    | .create i _ => if i = id then [] else reachAll id ops
    | op => reach id op ++ reachAll id ops
end

/-- One update after the other. -/
def updates (fs : List (Var → Var)) (v : Var) : Var := fs.foldl (fun v f => f v) v

/-- The value of the variable `id` that is visible after the operations, if `v` was visible before. -/
def visible (id : VarKey) (v : Option Var) : List CtxOp → Option Var
  | [] => v
  | op :: ops =>
    match op with
    | .create i w => visible id (if i = id then some w else v) ops
    | op => visible id (v.map (updates (reach id op))) ops

end Spec

/-- An update of the variable found by `get`. -/
def updVar (id : VarKey) (f : Var → Var) : List (VarKey × Var) → List (VarKey × Var)
  | [] => []
  | (i, w) :: vs => if i = id then (i, f w) :: vs else (i, w) :: updVar id f vs

mutual
/-- The operations on the linked list. -/
def CtxOp.run : CtxOp → List (VarKey × Var) → List (VarKey × Var)
  | .create id v, vs => (id, v) :: vs
  | .upd id f, vs => updVar id f vs
  | .prod ops, vs => (CtxOp.runAll ops vs).drop ((CtxOp.runAll ops vs).length - vs.length)
def CtxOp.runAll : List CtxOp → List (VarKey × Var) → List (VarKey × Var)
  | [], vs => vs
  | op :: ops, vs => CtxOp.runAll ops (op.run vs)
end

theorem updVar_ids (id : VarKey) (f : Var → Var) (vs : List (VarKey × Var)) : (updVar id f vs).map (·.1) = vs.map (·.1) := by
  induction vs with
  | nil => rfl
  | cons p vs ih =>
    obtain ⟨i, w⟩ := p
    unfold updVar
    split <;> simp [ih]

theorem setVar_eq (id : VarKey) (v : Var) (vs : List (VarKey × Var)) : setVar id v vs = updVar id (fun _ => v) vs := by
  induction vs with
  | nil => rfl
  | cons p vs ih =>
    obtain ⟨i, w⟩ := p
    unfold setVar updVar
    split <;> simp [ih]

/-- Operations: new variables in front of the old ones, the old ones with other values. -/
theorem runAll_split (ops : List CtxOp) (vs : List (VarKey × Var)) :
    ∃ new old, CtxOp.runAll ops vs = new ++ old ∧ old.map (·.1) = vs.map (·.1) := by
  suffices h : ∀ n ops, sizeOf ops < n → ∀ vs, ∃ new old, CtxOp.runAll ops vs = new ++ old ∧ old.map (·.1) = vs.map (·.1) from
    h _ ops (Nat.lt_succ_self _) vs
  intro n
  induction n with
  | zero => exact fun _ h => absurd h (Nat.not_lt_zero _)
  | succ n ih =>
    intro ops hn vs
    cases ops with
    | nil => exact ⟨[], vs, rfl, rfl⟩
    | cons op ops =>
      have hops : sizeOf ops < n := by simp at hn; omega
      cases op with
      | create id v =>
        obtain ⟨new, old, h1, h2⟩ := ih ops hops ((id, v) :: vs)
        cases old with
        | nil => cases h2
        | cons p old =>
          rw [List.map_cons, List.map_cons, List.cons.injEq] at h2
          exact ⟨new ++ [p], old, by simpa [CtxOp.runAll, CtxOp.run] using h1, h2.2⟩
      | upd id f =>
        obtain ⟨new, old, h1, h2⟩ := ih ops hops (updVar id f vs)
        exact ⟨new, old, h1, h2.trans (updVar_ids id f vs)⟩
      | prod ops' =>
        obtain ⟨new', old', h1', h2'⟩ := ih ops' (by simp at hn; omega) vs
        have hl := congrArg List.length h2'
        simp only [List.length_map] at hl
        have hd : CtxOp.run (.prod ops') vs = old' := by
          unfold CtxOp.run
          rw [h1', List.length_append, ← hl, Nat.add_sub_cancel, List.drop_left]
        obtain ⟨new, old, h1, h2⟩ := ih ops hops old'
        exact ⟨new, old, by rw [CtxOp.runAll, hd, h1], h2.trans h2'⟩

theorem runAll_prod {ops : List CtxOp} {vs new old : List (VarKey × Var)} (h : CtxOp.runAll ops vs = new ++ old)
    (hi : old.map (·.1) = vs.map (·.1)) : CtxOp.run (.prod ops) vs = old := by
  have hl := congrArg List.length hi
  simp only [List.length_map] at hl
  unfold CtxOp.run
  rw [h, List.length_append, ← hl, Nat.add_sub_cancel, List.drop_left]

theorem getVar_updVar (id i : VarKey) (f : Var → Var) (vs : List (VarKey × Var)) :
    getVar i (updVar id f vs) = if id = i then (getVar i vs).map f else getVar i vs := by
  induction vs with
  | nil => split <;> rfl
  | cons p vs ih =>
    obtain ⟨j, w⟩ := p
    unfold updVar
    by_cases h : j = id
    · subst h
      rw [if_pos rfl]
      by_cases h2 : j = i
      · simp [getVar, h2]
      · simp [getVar, h2]
    · rw [if_neg h]
      by_cases h2 : j = i
      · subst h2
        have : ¬ id = j := fun e => h e.symm
        simp [getVar, this]
      · simp only [getVar, h2, if_false, ih]

theorem getVar_append (i : VarKey) (new old : List (VarKey × Var)) (h : ∀ p ∈ new, p.1 ≠ i) :
    getVar i (new ++ old) = getVar i old := by
  induction new with
  | nil => rfl
  | cons p new ih =>
    obtain ⟨j, w⟩ := p
    have : j ≠ i := h (j, w) (by simp)
    simp only [List.cons_append, getVar, this, if_false]
    exact ih fun p hp => h p (List.mem_cons_of_mem _ hp)

theorem visible_append (id : VarKey) (v : Option Var) (a b : List CtxOp) :
    Spec.visible id v (a ++ b) = Spec.visible id (Spec.visible id v a) b := by
  induction a generalizing v with
  | nil => rfl
  | cons op a ih => cases op <;> exact ih _

theorem runAll_append (a b : List CtxOp) (vs : List (VarKey × Var)) :
    CtxOp.runAll (a ++ b) vs = CtxOp.runAll b (CtxOp.runAll a vs) := by
  induction a generalizing vs with
  | nil => rfl
  | cons op a ih => exact ih _

theorem reach_updates_append (a b : List (Var → Var)) (v : Var) : Spec.updates (a ++ b) v = Spec.updates b (Spec.updates a v) := by
  unfold Spec.updates; rw [List.foldl_append]

/-- What happens to the variables that are there before some operations: each gets the updates that reach it, where a
    variable of the same name in front of it hides it.  `hid`: there is one in front. -/
def reached (ops : List CtxOp) (hid : VarKey → Bool) : List (VarKey × Var) → List (VarKey × Var)
  | [] => []
  | (i, w) :: vs =>
    (i, if hid i then w else Spec.updates (Spec.reachAll i ops) w) :: reached ops (fun j => hid j || decide (j = i)) vs

theorem reached_ids (ops : List CtxOp) (hid : VarKey → Bool) (vs : List (VarKey × Var)) :
    (reached ops hid vs).map (·.1) = vs.map (·.1) := by
  induction vs generalizing hid with
  | nil => rfl
  | cons p vs ih => obtain ⟨i, w⟩ := p; simp [reached, ih]

theorem getVar_reached (ops : List CtxOp) (hid : VarKey → Bool) (vs : List (VarKey × Var)) (i : VarKey) :
    getVar i (reached ops hid vs) =
      (getVar i vs).map fun w => if hid i then w else Spec.updates (Spec.reachAll i ops) w := by
  induction vs generalizing hid with
  | nil => rfl
  | cons p vs ih =>
    obtain ⟨j, w⟩ := p
    unfold reached getVar
    by_cases h : j = i
    · subst h; simp
    · have h' : ¬ i = j := fun e => h e.symm
      simp only [h, if_false, ih, h', decide_false, Bool.or_false]

theorem reached_create (id : VarKey) (v : Var) (ops : List CtxOp) (hid : VarKey → Bool) (vs : List (VarKey × Var)) :
    reached (.create id v :: ops) hid vs = reached ops (fun j => hid j || decide (j = id)) vs := by
  induction vs generalizing hid with
  | nil => rfl
  | cons p vs ih =>
    obtain ⟨i, w⟩ := p
    unfold reached
    rw [ih]
    congr 1
    · by_cases h : i = id
      · subst h; simp [Spec.reachAll, Spec.updates]
      · have h' : ¬ id = i := fun e => h e.symm
        simp [Spec.reachAll, h, h']
    · congr 1
      funext j
      rw [Bool.or_assoc, Bool.or_assoc, Bool.or_comm (decide (j = i))]

theorem reached_upd_hidden (id : VarKey) (f : Var → Var) (ops : List CtxOp) (hid : VarKey → Bool) (h : hid id = true)
    (vs : List (VarKey × Var)) : reached (.upd id f :: ops) hid vs = reached ops hid vs := by
  induction vs generalizing hid with
  | nil => rfl
  | cons p vs ih =>
    obtain ⟨i, w⟩ := p
    unfold reached
    rw [ih _ (by simp [h])]
    by_cases hi : i = id
    · subst hi; simp [h]
    · have h' : ¬ id = i := fun e => hi e.symm
      simp [Spec.reachAll, Spec.reach, h']

theorem reached_upd (id : VarKey) (f : Var → Var) (ops : List CtxOp) (hid : VarKey → Bool) (h : hid id = false)
    (vs : List (VarKey × Var)) : reached ops hid (updVar id f vs) = reached (.upd id f :: ops) hid vs := by
  induction vs generalizing hid with
  | nil => rfl
  | cons p vs ih =>
    obtain ⟨i, w⟩ := p
    unfold updVar
    by_cases hi : i = id
    · subst hi
      rw [if_pos rfl]
      unfold reached
      rw [reached_upd_hidden _ _ _ _ (by simp)]
      simp [h, Spec.reachAll, Spec.reach, Spec.updates]
    · rw [if_neg hi]
      have h' : ¬ id = i := fun e => hi e.symm
      unfold reached
      rw [ih _ (by simp [h, h'])]
      simp [Spec.reachAll, Spec.reach, h']

theorem reached_prod (ops' ops : List CtxOp) (hid : VarKey → Bool) (vs : List (VarKey × Var)) :
    reached ops hid (reached ops' hid vs) = reached (.prod ops' :: ops) hid vs := by
  induction vs generalizing hid with
  | nil => rfl
  | cons p vs ih =>
    obtain ⟨i, w⟩ := p
    simp only [reached, ih]
    congr 2
    split
    · rfl
    · simp [Spec.reachAll, Spec.reach, reach_updates_append]

theorem reached_nil (hid : VarKey → Bool) (vs : List (VarKey × Var)) : reached [] hid vs = vs := by
  induction vs generalizing hid with
  | nil => rfl
  | cons p vs ih =>
    obtain ⟨i, w⟩ := p
    simp [reached, ih, Spec.reachAll, Spec.updates]

/-- The operations on the linked list: new variables in front, and the others get the updates that reach them. -/
theorem runAll_reached (ops : List CtxOp) (vs : List (VarKey × Var)) :
    ∃ new, CtxOp.runAll ops vs = new ++ reached ops (fun _ => false) vs := by
  suffices h : ∀ n ops, sizeOf ops < n → ∀ vs, ∃ new, CtxOp.runAll ops vs = new ++ reached ops (fun _ => false) vs from
    h _ ops (Nat.lt_succ_self _) vs
  intro n
  induction n with
  | zero => exact fun _ h => absurd h (Nat.not_lt_zero _)
  | succ n ih =>
    intro ops hn vs
    cases ops with
    | nil => exact ⟨[], by simp [CtxOp.runAll, reached_nil]⟩
    | cons op ops =>
      have hops : sizeOf ops < n := by simp at hn; omega
      cases op with
      | create id v =>
        obtain ⟨new, h⟩ := ih ops hops ((id, v) :: vs)
        refine ⟨new ++ [(id, Spec.updates (Spec.reachAll id ops) v)], ?_⟩
        rw [reached_create]
        simpa [CtxOp.runAll, CtxOp.run, reached] using h
      | upd id f =>
        obtain ⟨new, h⟩ := ih ops hops (updVar id f vs)
        exact ⟨new, by rw [← reached_upd _ _ _ _ rfl]; exact h⟩
      | prod ops' =>
        obtain ⟨new', h'⟩ := ih ops' (by simp at hn; omega) vs
        obtain ⟨new, h⟩ := ih ops hops (reached ops' (fun _ => false) vs)
        refine ⟨new, ?_⟩
        rw [CtxOp.runAll, runAll_prod h' (reached_ids _ _ _), h, reached_prod]

theorem run_prod (ops : List CtxOp) (vs : List (VarKey × Var)) :
    CtxOp.run (.prod ops) vs = reached ops (fun _ => false) vs := by
  obtain ⟨new, h⟩ := runAll_reached ops vs
  exact runAll_prod h (reached_ids _ _ _)

/-- `get` after the operations finds the value that is visible. -/
theorem getVar_runAll (id : VarKey) (ops : List CtxOp) (vs : List (VarKey × Var)) :
    getVar id (CtxOp.runAll ops vs) = Spec.visible id (getVar id vs) ops := by
  induction ops generalizing vs with
  | nil => rfl
  | cons op ops ih =>
    rw [CtxOp.runAll, ih]
    cases op with
    | create i v =>
      simp only [Spec.visible, CtxOp.run, getVar]
    | upd i f =>
      simp only [Spec.visible, CtxOp.run, getVar_updVar, Spec.reach]
      by_cases h : i = id
      · rw [if_pos h, if_pos h]; rfl
      · cases hv : getVar id vs <;> simp [h, Spec.updates]
    | prod ops' =>
      rw [run_prod, getVar_reached]
      simp only [Spec.visible, Spec.reach, Bool.false_eq_true, if_false]

end Verif
