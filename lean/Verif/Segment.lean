/-
Parts of the input, for the properties of the example grammars.
-/

namespace Verif

/-- The input from `p` to `q` is `t`. -/
def Seg (s : List Nat) (p q : Nat) (t : List Nat) : Prop := q = p + t.length ∧ s.drop p = t ++ s.drop q

theorem Seg.nil {s : List Nat} {p : Nat} : Seg s p p [] := ⟨rfl, rfl⟩

theorem Seg.append {s : List Nat} {p m q : Nat} {t u : List Nat} (h1 : Seg s p m t) (h2 : Seg s m q u) : Seg s p q (t ++ u) := by
  obtain ⟨rfl, h1⟩ := h1
  obtain ⟨rfl, h2⟩ := h2
  refine ⟨by simp; omega, ?_⟩
  rw [h1, h2, List.append_assoc]

theorem Seg.of_prefix {s t : List Nat} {p n : Nat} (h : t <+: s.drop p) (hn : n = t.length) : Seg s p (p + n) t := by
  subst hn
  refine ⟨rfl, ?_⟩
  obtain ⟨u, hu⟩ := h
  have : s.drop (p + t.length) = u := by
    rw [← List.drop_drop, ← hu, List.drop_left]
  rw [this, hu]

theorem Seg.pre {s t : List Nat} {p q : Nat} (h : Seg s p q t) : t <+: s.drop p := ⟨_, h.2.symm⟩

theorem Seg.le {s t : List Nat} {p q : Nat} (h : Seg s p q t) : p ≤ q := by
  rw [h.1]; exact Nat.le_add_right _ _

theorem Seg.le_length {s t : List Nat} {p q : Nat} (h : Seg s p q t) (ht : t ≠ []) : q ≤ s.length := by
  have h1 := congrArg List.length h.2
  have h2 := h.1
  have := List.length_pos_iff.2 ht
  simp only [List.length_drop, List.length_append] at h1
  omega

/-- The next code unit. -/
theorem Seg.cons {s t : List Nat} {p c : Nat} (h : s.drop p = c :: t) : Seg s p (p + 1) [c] :=
  .of_prefix ⟨t, h.symm⟩ rfl

/-- A part is split. -/
theorem Seg.split {s t u : List Nat} {p q : Nat} (h : Seg s p q (t ++ u)) : Seg s p (p + t.length) t ∧ Seg s (p + t.length) q u := by
  obtain ⟨rfl, h⟩ := h
  have h1 : Seg s p (p + t.length) t := .of_prefix ⟨u ++ s.drop (p + (t ++ u).length), by rw [h, List.append_assoc]⟩ rfl
  refine ⟨h1, by simp; omega, ?_⟩
  have h2 := h1.2
  rw [h, List.append_assoc] at h2
  exact (List.append_cancel_left h2).symm

theorem Seg.take {s t : List Nat} {p q n : Nat} (h : Seg s p q t) (hn : n = t.length) : (s.drop p).take n = t := by
  subst hn
  rw [h.2, List.take_left]

/-- What consists of the first code units. -/
theorem Seg.of_take {s : List Nat} {p n : Nat} (h : n ≤ (s.drop p).length) : Seg s p (p + n) ((s.drop p).take n) :=
  .of_prefix (List.take_prefix _ _) (by rw [List.length_take]; omega)

end Verif
