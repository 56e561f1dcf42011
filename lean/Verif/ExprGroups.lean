import Verif.ExprProps

/-
Operators of different groups cannot be mixed in one expression (C68).
-/

namespace Verif

namespace Spec

mutual
/-- Where an operation is: the groups it is in, from the outside to the inside; `[]` if it is in none. -/
def groupPath (id : Nat) : OpTree → Option (List Nat)
  | .atom => none
  | .op o t => if o.id = id then some [] else groupPath id t
  | .groups gs => groupPathAll id 0 gs
def groupPathAll (id : Nat) : Nat → List OpTree → Option (List Nat)
  | _, [] => none
  | k, g :: gs =>
    match groupPath id g with
    | some p => some (k :: p)
    | none => groupPathAll id (k + 1) gs
end

end Spec

open Spec

mutual
/-- The number of groups. -/
def OpTree.groupCount : OpTree → Nat
  | .atom => 0
  | .op _ t => t.groupCount
  | .groups gs => OpTree.groupCountAll gs
def OpTree.groupCountAll : List OpTree → Nat
  | [] => 0
  | g :: gs => g.groupCount + 1 + OpTree.groupCountAll gs
end

theorem bp_valid (k : OpKind) (g l : Nat) : (k.bp g (l + 1)).isValid = true ∧ (k.bp g (l + 1)).group = g := by
  cases k <;> simp [OpKind.bp, BP.isValid]

mutual
theorem bpOf_group (id : Nat) : ∀ (t : OpTree) (g l : Nat),
    match groupPath id t with
    | none => t.bpOf id g l = ⟨g + t.groupCount, 0, 0⟩
    | some p => (t.bpOf id g l).isValid = true ∧ g ≤ (t.bpOf id g l).group ∧ (t.bpOf id g l).group ≤ g + t.groupCount
        ∧ (p = [] ↔ (t.bpOf id g l).group = g)
  | .atom, g, l => by simp [groupPath, OpTree.bpOf, OpTree.groupCount]
  | .op o t, g, l => by
    simp only [groupPath, OpTree.bpOf, OpTree.groupCount]
    by_cases h : o.id = id
    · have := bp_valid o.kind g l
      simp [h, this]
    · rw [if_neg h, if_neg h]
      exact bpOf_group id t g (l + 1)
  | .groups gs, g, l => by
    have := bpOfGroups_group id gs g l 0
    simp only [groupPath, OpTree.bpOf, OpTree.groupCount]
    split
    · rename_i h; rw [h] at this; exact this
    · rename_i p h
      rw [h] at this
      obtain ⟨h1, h2, h3, h4⟩ := this
      exact ⟨h1, by omega, h3, iff_of_false h4 (by omega)⟩
theorem bpOfGroups_group (id : Nat) : ∀ (gs : List OpTree) (g l k : Nat),
    match groupPathAll id k gs with
    | none => OpTree.bpOfGroups id g l gs = ⟨g + OpTree.groupCountAll gs, 0, 0⟩
    | some p => (OpTree.bpOfGroups id g l gs).isValid = true ∧ g < (OpTree.bpOfGroups id g l gs).group
        ∧ (OpTree.bpOfGroups id g l gs).group ≤ g + OpTree.groupCountAll gs ∧ p ≠ []
  | [], g, l, k => by simp [groupPathAll, OpTree.bpOfGroups, OpTree.groupCountAll]
  | t :: gs, g, l, k => by
    have h1 := bpOf_group id t (g + 1) l
    simp only [groupPathAll, OpTree.bpOfGroups, OpTree.groupCountAll]
    cases hp : groupPath id t with
    | some p =>
      rw [hp] at h1
      obtain ⟨a1, a2, a3, a4⟩ := h1
      simp only [a1, if_true]
      exact ⟨trivial, by omega, by omega, by simp⟩
    | none =>
      rw [hp] at h1
      simp only at h1
      have h2 := bpOfGroups_group id gs (g + 1 + t.groupCount) l (k + 1)
      simp only [h1]
      rw [if_neg (by simp [BP.isValid])]
      cases hq : groupPathAll id (k + 1) gs with
      | none => rw [hq] at h2; simp only at h2 ⊢; rw [h2]; simp; omega
      | some p =>
        rw [hq] at h2
        obtain ⟨b1, b2, b3, b4⟩ := h2
        exact ⟨b1, by omega, by omega, b4⟩
end

mutual
/-- Two operations have the same group number exactly if they are in the same groups. -/
theorem bpOf_same {id id' : Nat} : ∀ (t : OpTree) (g l : Nat) {p p' : List Nat}, groupPath id t = some p →
    groupPath id' t = some p' → ((t.bpOf id g l).group = (t.bpOf id' g l).group ↔ p = p')
  | .atom, g, l, p, p', h, _ => by simp [groupPath] at h
  | .op o t, g, l, p, p', h, h' => by
    have e := bpOf_group id t g (l + 1)
    have e' := bpOf_group id' t g (l + 1)
    have b := bp_valid o.kind g l
    simp only [groupPath, OpTree.bpOf] at h h' ⊢
    split at h <;> split at h'
    · rename_i h1 h2
      cases h; cases h'
      rw [if_pos h1, if_pos h2]
      simp
    · rename_i h1 h2
      cases h
      rw [h'] at e'
      rw [if_pos h1, if_neg h2, b.2]
      rw [eq_comm, ← e'.2.2.2]
      exact eq_comm
    · rename_i h1 h2
      cases h'
      rw [h] at e
      rw [if_neg h1, if_pos h2, b.2]
      rw [← e.2.2.2]
    · rename_i h1 h2
      rw [if_neg h1, if_neg h2]
      exact bpOf_same t g (l + 1) h h'
  | .groups gs, g, l, p, p', h, h' => by
    simp only [groupPath, OpTree.bpOf] at h h' ⊢
    exact bpOfGroups_same gs g l 0 h h'
theorem bpOfGroups_same {id id' : Nat} : ∀ (gs : List OpTree) (g l k : Nat) {p p' : List Nat},
    groupPathAll id k gs = some p → groupPathAll id' k gs = some p' →
    ((OpTree.bpOfGroups id g l gs).group = (OpTree.bpOfGroups id' g l gs).group ↔ p = p')
  | [], g, l, k, p, p', h, _ => by simp [groupPathAll] at h
  | t :: gs, g, l, k, p, p', h, h' => by
    have e := bpOf_group id t (g + 1) l
    have e' := bpOf_group id' t (g + 1) l
    have f := bpOfGroups_group id gs (g + 1 + t.groupCount) l (k + 1)
    have f' := bpOfGroups_group id' gs (g + 1 + t.groupCount) l (k + 1)
    simp only [groupPathAll, OpTree.bpOfGroups] at h h' ⊢
    cases hp : groupPath id t with
    | some q =>
      rw [hp] at h e
      cases h
      simp only [e.1, if_true]
      cases hp' : groupPath id' t with
      | some q' =>
        rw [hp'] at h' e'
        cases h'
        simp only [e'.1, if_true]
        rw [bpOf_same t (g + 1) l hp hp']
        simp
      | none =>
        rw [hp'] at h' e'
        simp only at h' e'
        rw [h'] at f'
        rw [e', if_neg (by simp [BP.isValid])]
        refine iff_of_false (by show ¬ _ = (OpTree.bpOfGroups id' (g + 1 + t.groupCount) l gs).group; omega) ?_
        rintro rfl
        have := groupPathAll_head _ _ h' k q rfl
        omega
    | none =>
      rw [hp] at h e
      simp only at h e
      rw [h] at f
      rw [e, if_neg (by simp [BP.isValid])]
      cases hp' : groupPath id' t with
      | some q' =>
        rw [hp'] at h' e'
        cases h'
        simp only [e'.1, if_true]
        refine iff_of_false (by show ¬ (OpTree.bpOfGroups id (g + 1 + t.groupCount) l gs).group = _; omega) ?_
        rintro rfl
        have := groupPathAll_head _ _ h k q' rfl
        omega
      | none =>
        rw [hp'] at h' e'
        simp only at h' e'
        rw [e', if_neg (by simp [BP.isValid])]
        exact bpOfGroups_same gs _ l (k + 1) h h'
theorem groupPathAll_head {id : Nat} : ∀ (gs : List OpTree) (k : Nat) {p : List Nat}, groupPathAll id k gs = some p →
    ∀ j q, p = j :: q → k ≤ j
  | [], k, p, h => by simp [groupPathAll] at h
  | t :: gs, k, p, h => by
    intro j q hj
    simp only [groupPathAll] at h
    split at h
    · cases h; cases hj; omega
    · have := groupPathAll_head gs (k + 1) h j q hj
      omega
end

section

variable {E : Env} {i : Nat} {lvl : OpDef → Nat}

mutual
theorem groupPath_isSome {o : OpDef} : ∀ t : OpTree, o ∈ t.all → ∃ p, groupPath o.id t = some p
  | .atom, h => by simp [OpTree.all] at h
  | .op q t, h => by
    simp only [groupPath]
    by_cases e : q.id = o.id
    · exact ⟨[], by simp [e]⟩
    · rw [if_neg e]
      refine groupPath_isSome t ?_
      simp only [OpTree.all, List.mem_cons] at h
      rcases h with rfl | h
      · exact (e rfl).elim
      · exact h
  | .groups gs, h => groupPathAll_isSome gs 0 (by simpa [OpTree.all] using h)
theorem groupPathAll_isSome {o : OpDef} : ∀ (gs : List OpTree) (k : Nat), o ∈ OpTree.allGroups gs →
    ∃ p, groupPathAll o.id k gs = some p
  | [], _, h => by simp [OpTree.allGroups] at h
  | g :: gs, k, h => by
    simp only [groupPathAll]
    cases hg : groupPath o.id g with
    | some p => exact ⟨_, rfl⟩
    | none =>
      refine groupPathAll_isSome gs (k + 1) ?_
      simp only [OpTree.allGroups, List.mem_append] at h
      rcases h with h | h
      · obtain ⟨p, hp⟩ := groupPath_isSome g h
        rw [hg] at hp; cases hp
      · exact h
end

/-- **C68** The operators of an expression that is parsed without error are in no group, or all in the
    same. -/
theorem C68_groups {n : Nat} {cx : Cx} {st : St} {r : Res} (ok : ExprOk E i lvl)
    (h : exec E n cx (.run (.expr i)) st = some r) (hp : st.pos ≤ E.inp.length)
    (hq : ∀ ev ∈ r.evs, ev.isError = false) :
    ∃ t p, r.st.ex.val = some t ∧
      ∀ id ∈ opsOf t, groupPath id (E.exprs i).ops = some [] ∨ groupPath id (E.exprs i).ops = some p := by
  obtain ⟨_, t, xs, a1, _, _, _, b1, _, _⟩ := expr_calm ok h hp hq
  have key : ∀ id ∈ opsOf t, ∃ p, groupPath id (E.exprs i).ops = some p ∧
      (p = [] ∨ ((E.exprs i).ops.bpOf id 0 0).group = r.st.ex.group) := by
    intro id hid
    obtain ⟨o, c1, rfl, c3⟩ := b1.groups id hid
    obtain ⟨p, hp⟩ := groupPath_isSome _ c1
    have := bpOf_group o.id (E.exprs i).ops 0 0
    rw [hp] at this
    refine ⟨p, hp, ?_⟩
    rcases c3 with c3 | c3
    · exact .inl (this.2.2.2.2 c3)
    · exact .inr c3
  by_cases hex : ∃ id ∈ opsOf t, ∃ p, groupPath id (E.exprs i).ops = some p ∧ p ≠ []
  · obtain ⟨id, hid, p, d1, d2⟩ := hex
    obtain ⟨p', d3, d4⟩ := key id hid
    rw [d1] at d3; cases d3
    have d5 := d4.resolve_left d2
    refine ⟨t, p, a1, fun id' hid' => ?_⟩
    obtain ⟨p', d6, d7⟩ := key id' hid'
    rcases d7 with rfl | d7
    · exact .inl d6
    · right
      rw [d6]
      have := (bpOf_same (E.exprs i).ops 0 0 d6 d1).1 (by rw [d7, d5])
      rw [this]
  · refine ⟨t, [], a1, fun id hid => .inl ?_⟩
    obtain ⟨p, d1, _⟩ := key id hid
    rw [d1]
    by_cases hz : p = []
    · rw [hz]
    · exact (hex ⟨id, hid, p, d1, hz⟩).elim

end

end Verif
