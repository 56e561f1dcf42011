import Verif.UnicodeDb
import Verif.Literal
import Verif.CodePointProps

/-
C70: the Unicode database.  The tables are checked by evaluation in the kernel, block by block; the statements
about code points are derived from these checks.
-/

namespace Verif.Udb

/-- A test of all numbers below `n` (for evaluation in the kernel). -/
def allBelow : Nat → (Nat → Bool) → Bool
  | 0, _ => true
  | n + 1, p => p n && allBelow n p

theorem allBelow_spec {n : Nat} {p : Nat → Bool} (h : allBelow n p = true) : ∀ i, i < n → p i = true := by
  induction n with
  | zero => intro i hi; omega
  | succ n ih =>
    simp only [allBelow, Bool.and_eq_true] at h
    intro i hi
    rcases Nat.lt_succ_iff_lt_or_eq.1 hi with hi | rfl
    · exact ih h.2 i hi
    · exact h.1

/-- A test of all elements of the rows of a packed table, with the number of the row. -/
def allRows (p : Nat → Nat → Nat → Bool) : Nat → List Nat → Bool
  | _, [] => true
  | k, row :: rows => allBelow 256 (fun i => p k i (byteOf row i)) && allRows p (k + 1) rows

theorem allRows_spec {p : Nat → Nat → Nat → Bool} : ∀ {rows : List Nat} {k : Nat}, allRows p k rows = true →
    ∀ j row, rows[j]? = some row → ∀ i, i < 256 → p (k + j) i (byteOf row i) = true
  | [], _, _, j, row, hj, _, _ => by simp at hj
  | r :: rows, k, h, j, row, hj, i, hi => by
    simp only [allRows, Bool.and_eq_true] at h
    cases j with
    | zero =>
      simp only [List.getElem?_cons_zero, Option.some.injEq] at hj
      subst hj
      exact allBelow_spec h.1 i hi
    | succ j =>
      simp only [List.getElem?_cons_succ] at hj
      have := allRows_spec h.2 j row hj i hi
      rwa [show k + 1 + j = k + (j + 1) by omega] at this

/-! ### Checks of the tables (by evaluation in the kernel) -/

theorem starts_lt : allRows (fun _ _ b => Nat.blt b 157) 0 blockStartRows = true := by decide +kernel
theorem index_lt : allRows (fun _ _ i => Nat.blt i 152) 0 blockRows = true := by decide +kernel
theorem rows_len : blockStartRows.length = 17 ∧ blockRows.length = 157 := by decide +kernel
theorem tables_len : category.length = 152 ∧ binaryProperties.length = 152 ∧ caseFoldingOffset.length = 152 := by
  decide +kernel

/-- How a code point is looked up: the block, and the index in it. -/
theorem lookup {cp : Nat} (h : cp ≤ 0x10FFFF) :
    ∃ b row, blockStart (cp / 256) = some b ∧ b < 157 ∧ blockRows[b]? = some row ∧
      propertyIndex cp = some (byteOf row (cp % 256)) ∧ byteOf row (cp % 256) < 152 := by
  have h1 : cp / 256 / 256 < blockStartRows.length := by rw [rows_len.1]; omega
  have e1 := List.getElem?_eq_getElem h1
  have hb := allRows_spec starts_lt _ _ e1 (cp / 256 % 256) (by omega)
  rw [Nat.blt_eq] at hb
  have hb2 : byteOf blockStartRows[cp / 256 / 256] (cp / 256 % 256) < blockRows.length := by rw [rows_len.2]; exact hb
  have e2 := List.getElem?_eq_getElem hb2
  have hi := allRows_spec index_lt _ _ e2 (cp % 256) (by omega)
  rw [Nat.blt_eq] at hi
  refine ⟨_, _, ?_, hb, e2, ?_, hi⟩
  · unfold blockStart; rw [e1]; rfl
  · unfold propertyIndex
    rw [if_pos h]
    have ehi : (cp >>> 8) &&& 0xFFFF = cp / 256 := by
      rw [Nat.shiftRight_eq_div_pow, show (0xFFFF : Nat) = 2 ^ 16 - 1 from rfl, Nat.and_two_pow_sub_one_eq_mod]
      omega
    have elo : cp &&& 0xFF = cp % 256 := by
      rw [show (0xFF : Nat) = 2 ^ 8 - 1 from rfl, Nat.and_two_pow_sub_one_eq_mod]
    simp only [ehi, elo]
    unfold blockStart
    rw [e1]
    simp only [Option.map_some, Option.bind_some, blockAt]
    rw [e2]; rfl

/-- To prove something of all code points: for every block and every place where the block is used. -/
theorem by_blocks {P : Nat → Nat → Prop} (chk : Nat → Nat → Nat → Bool)
    (hc : allRows chk 0 blockRows = true)
    (hP : ∀ cp i b, cp ≤ 0x10FFFF → i < 152 → blockStart (cp / 256) = some b → chk b (cp % 256) i = true → P cp i) :
    ∀ cp, cp ≤ 0x10FFFF → ∃ i, propertyIndex cp = some i ∧ i < 152 ∧ P cp i := by
  intro cp h
  obtain ⟨b, row, h1, h2, h3, h4, h5⟩ := lookup h
  refine ⟨_, h4, h5, hP cp _ b h h5 h1 ?_⟩
  have := allRows_spec hc b row h3 (cp % 256) (by omega)
  simpa using this

/-- A statement about the use of the blocks. -/
theorem starts_spec {chk : Nat → Nat → Nat → Bool} (hc : allRows chk 0 blockStartRows = true) {h b : Nat}
    (hb : blockStart h = some b) : chk (h / 256) (h % 256) b = true := by
  unfold blockStart at hb
  cases e : blockStartRows[h / 256]? with
  | none => simp [e] at hb
  | some row =>
    simp only [e, Option.map_some, Option.some.injEq] at hb
    have := allRows_spec hc _ _ e (h % 256) (by omega)
    simpa [hb] using this

/-! ### General categories -/

/-- The indices of the categories Cc, Cs, Co, Zl, Zp and of noncharacters, by block. -/
def CatBlock (b l i : Nat) : Prop :=
  (i ≤ 1 ↔ b = 0 ∧ (l ≤ 0x1F ∨ (0x7F ≤ l ∧ l ≤ 0x9F))) ∧ (i = 144 ↔ b = 59)
  ∧ (i = 145 ↔ b = 60 ∨ (b = 156 ∧ l < 254)) ∧ (i = 109 ↔ b = 31 ∧ l = 0x28) ∧ (i = 110 ↔ b = 31 ∧ l = 0x29)
  ∧ ((b = 66 ∨ b = 101 ∨ b = 156) ∧ 254 ≤ l → i = 56) ∧ (b = 64 ∧ 0xD0 ≤ l ∧ l < 0xF0 → i = 56)

instance (b l i : Nat) : Decidable (CatBlock b l i) := by unfold CatBlock; infer_instance

/-- Where these blocks are used (`h` = 256 `k` + `j`). -/
def CatStart (h j b : Nat) : Prop :=
  (b = 0 ↔ h = 0) ∧ (b = 59 ↔ 0xD8 ≤ h ∧ h ≤ 0xDF)
  ∧ (b = 60 ↔ (0xE0 ≤ h ∧ h ≤ 0xF8) ∨ (0xF00 ≤ h ∧ h ≤ 0xFFE) ∨ (0x1000 ≤ h ∧ h ≤ 0x10FE))
  ∧ (b = 156 ↔ h = 0xFFF ∨ h = 0x10FF) ∧ (b = 31 ↔ h = 0x20) ∧ (j = 255 → b = 66 ∨ b = 101 ∨ b = 156)
  ∧ (h = 0xFD → b = 64)

instance (h j b : Nat) : Decidable (CatStart h j b) := by unfold CatStart; infer_instance

theorem catCheck_ok : allRows (fun b l i => decide (CatBlock b l i)) 0 blockRows = true := by decide +kernel
theorem catStart_ok : allRows (fun k j b => decide (CatStart (256 * k + j) j b)) 0 blockStartRows = true := by decide +kernel

/-- The indices that have one of these categories. -/
def CatIndex (i : Nat) (c : Cat) : Prop :=
  (c = .Cc ↔ i ≤ 1) ∧ (c = .Cs ↔ i = 144) ∧ (c = .Co ↔ i = 145) ∧ (c = .Zl ↔ i = 109) ∧ (c = .Zp ↔ i = 110)
  ∧ (i = 56 → c = .Cn)

instance (i : Nat) (c : Cat) : Decidable (CatIndex i c) := by unfold CatIndex; infer_instance

theorem catIndex_ok : allBelow 152 (fun i => match category[i]? with
    | none => false
    | some c => decide (CatIndex i c)) = true := by decide +kernel

theorem special (cp : Nat) (h : cp ≤ 0x10FFFF) : ∃ i, propertyIndex cp = some i ∧ i < 152 ∧
    ((i ≤ 1 ↔ cp ≤ 0x1F ∨ (0x7F ≤ cp ∧ cp ≤ 0x9F)) ∧ (i = 144 ↔ 0xD800 ≤ cp ∧ cp ≤ 0xDFFF)
      ∧ (i = 145 ↔ (0xE000 ≤ cp ∧ cp ≤ 0xF8FF) ∨ (0xF0000 ≤ cp ∧ cp ≤ 0xFFFFD) ∨ (0x100000 ≤ cp ∧ cp ≤ 0x10FFFD))
      ∧ (i = 109 ↔ cp = 0x2028) ∧ (i = 110 ↔ cp = 0x2029)
      ∧ ((0xFDD0 ≤ cp ∧ cp ≤ 0xFDEF) ∨ cp % 0x10000 = 0xFFFE ∨ cp % 0x10000 = 0xFFFF → i = 56)) := by
  revert cp
  refine by_blocks _ catCheck_ok (P := fun cp i => _) ?_
  intro cp i b h hi hb hc
  have hs := of_decide_eq_true (starts_spec catStart_ok hb)
  obtain ⟨a1, a2, a3, a4, a5, a6, a7⟩ := of_decide_eq_true hc
  obtain ⟨b1, b2, b3, b4, b5, b6, b7⟩ := hs
  have e : 256 * (cp / 256 / 256) + cp / 256 % 256 = cp / 256 := by omega
  rw [e] at b1 b2 b3 b4 b5 b7
  refine ⟨?_, ?_, ?_, ?_, ?_, ?_⟩
  · rw [a1, b1]; omega
  · rw [a2, b2]; omega
  · rw [a3, b3, b4]; omega
  · rw [a4, b5]; omega
  · rw [a5, b5]; omega
  · intro hx; omega

end Verif.Udb
