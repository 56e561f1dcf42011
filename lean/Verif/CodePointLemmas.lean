import Verif.CodePoint

/-! Helper lemmas: the bit operations of the decoder as arithmetic. -/

namespace Verif

theorem byte_masks : ∀ b : Nat, b < 256 →
    ((b &&& 0x80 = 0x00 ↔ b < 0x80) ∧ (b &&& 0xC0 = 0x80 ↔ 0x80 ≤ b ∧ b < 0xC0)
    ∧ (b &&& 0xE0 = 0xC0 ↔ 0xC0 ≤ b ∧ b < 0xE0) ∧ (b &&& 0xF0 = 0xE0 ↔ 0xE0 ≤ b ∧ b < 0xF0)
    ∧ (b &&& 0xF8 = 0xF0 ↔ 0xF0 ≤ b ∧ b < 0xF8)) := by
  decide +kernel

theorem shl6_or (x y : Nat) (h : y < 64) : (x <<< 6) ||| y = x * 64 + y := by
  rw [← Nat.shiftLeft_add_eq_or_of_lt (by simpa using h), Nat.shiftLeft_eq]

theorem and_3F (x : Nat) : x &&& 0x3F = x % 64 := Nat.and_two_pow_sub_one_eq_mod x 6
theorem and_1F (x : Nat) : x &&& 0x1F = x % 32 := Nat.and_two_pow_sub_one_eq_mod x 5
theorem and_0F (x : Nat) : x &&& 0x0F = x % 16 := Nat.and_two_pow_sub_one_eq_mod x 4
theorem and_07 (x : Nat) : x &&& 0x07 = x % 8 := Nat.and_two_pow_sub_one_eq_mod x 3
theorem and_3FF (x : Nat) : x &&& 0x3FF = x % 1024 := Nat.and_two_pow_sub_one_eq_mod x 10

theorem or_C0 (x : Nat) (h : x < 32) : 0xC0 ||| x = 0xC0 + x := by
  have := Nat.shiftLeft_add_eq_or_of_lt (b := x) (i := 5) (by simpa using h) 6
  simpa using this.symm
theorem or_80 (x : Nat) (h : x < 64) : 0x80 ||| x = 0x80 + x := by
  have := Nat.shiftLeft_add_eq_or_of_lt (b := x) (i := 6) (by simpa using h) 2
  simpa using this.symm
theorem or_E0 (x : Nat) (h : x < 16) : 0xE0 ||| x = 0xE0 + x := by
  have := Nat.shiftLeft_add_eq_or_of_lt (b := x) (i := 4) (by simpa using h) 14
  simpa using this.symm
theorem or_F0 (x : Nat) (h : x < 8) : 0xF0 ||| x = 0xF0 + x := by
  have := Nat.shiftLeft_add_eq_or_of_lt (b := x) (i := 3) (by simpa using h) 30
  simpa using this.symm

/-- All units are below the bound. -/
def Units (n : Nat) (s : List Nat) : Prop := ∀ u ∈ s, u < n

theorem Units.drop {n s} (h : Units n s) (k : Nat) : Units n (s.drop k) :=
  fun u hu => h u (List.mem_of_mem_drop hu)

theorem Units.append {n s t} (hs : Units n s) (ht : Units n t) : Units n (s ++ t) := by
  intro u hu
  rcases List.mem_append.1 hu with h | h
  · exact hs u h
  · exact ht u h

theorem peek8_lt {s : List Nat} (h : Units 256 s) : peek8 s < 256 := by
  cases s with
  | nil => simp [peek8]
  | cons a t => simpa [peek8] using h a (by simp)

/-- Arithmetic version of `parseUtf8` in terms of the (at most four) peeked values. -/
def utf8A (b0 b1 b2 b3 : Nat) : CpResult :=
  if b0 < 0x80 then ⟨b0, .success, 1⟩
  else if b0 < 0xC0 then ⟨0, .leadsWithTrailing, 0⟩
  else if b0 < 0xE0 then
    if ¬ (0x80 ≤ b1 ∧ b1 < 0xC0) then ⟨0, .missingTrailing, 1⟩
    else if b0 = 0xC0 ∨ b0 = 0xC1 then ⟨(b0 % 32) * 64 + b1 % 64, .overlong, 2⟩
    else ⟨(b0 % 32) * 64 + b1 % 64, .success, 2⟩
  else if b0 < 0xF0 then
    if ¬ (0x80 ≤ b1 ∧ b1 < 0xC0) then ⟨0, .missingTrailing, 1⟩
    else if ¬ (0x80 ≤ b2 ∧ b2 < 0xC0) then ⟨0, .missingTrailing, 2⟩
    else
      let result := ((b0 % 16) * 64 + b1 % 64) * 64 + b2 % 64
      if 0xD800 ≤ result ∧ result ≤ 0xDFFF then ⟨result, .surrogate, 3⟩
      else if b0 = 0xE0 ∧ b1 < 0xA0 then ⟨result, .overlong, 3⟩
      else ⟨result, .success, 3⟩
  else if b0 < 0xF8 then
    if ¬ (0x80 ≤ b1 ∧ b1 < 0xC0) then ⟨0, .missingTrailing, 1⟩
    else if ¬ (0x80 ≤ b2 ∧ b2 < 0xC0) then ⟨0, .missingTrailing, 2⟩
    else if ¬ (0x80 ≤ b3 ∧ b3 < 0xC0) then ⟨0, .missingTrailing, 3⟩
    else
      let result := (((b0 % 8) * 64 + b1 % 64) * 64 + b2 % 64) * 64 + b3 % 64
      if result > 0x10FFFF then ⟨result, .outOfRange, 4⟩
      else if b0 = 0xF0 ∧ b1 < 0x90 then ⟨result, .overlong, 4⟩
      else ⟨result, .success, 4⟩
  else ⟨0, .eof, 0⟩

theorem parseUtf8_eq {s : List Nat} (h : Units 256 s) :
    parseUtf8 s = utf8A (peek8 s) (peek8 (s.drop 1)) (peek8 (s.drop 2)) (peek8 (s.drop 3)) := by
  have h0 := peek8_lt h
  have h1 := peek8_lt (h.drop 1)
  have h2 := peek8_lt (h.drop 2)
  have h3 := peek8_lt (h.drop 3)
  unfold parseUtf8
  generalize peek8 s = b0 at *
  generalize peek8 (s.drop 1) = b1 at *
  generalize peek8 (s.drop 2) = b2 at *
  generalize peek8 (s.drop 3) = b3 at *
  obtain ⟨m1, m2, m3, m4, m5⟩ := byte_masks b0 h0
  obtain ⟨-, n2, -, -, -⟩ := byte_masks b1 h1
  obtain ⟨-, o2, -, -, -⟩ := byte_masks b2 h2
  obtain ⟨-, p2, -, -, -⟩ := byte_masks b3 h3
  have e1 : b1 % 64 < 64 := Nat.mod_lt _ (by decide)
  have e2 : b2 % 64 < 64 := Nat.mod_lt _ (by decide)
  have e3 : b3 % 64 < 64 := Nat.mod_lt _ (by decide)
  simp only [m1, m2, m3, m4, m5, n2, o2, p2, ne_eq, and_3F, and_1F, and_0F, and_07,
    shl6_or _ _ e1, shl6_or _ _ e2, shl6_or _ _ e3]
  unfold utf8A
  by_cases c1 : b0 < 0x80
  · simp [c1]
  by_cases c2 : b0 < 0xC0
  · simp [c1, c2, (show 0x80 ≤ b0 by omega)]
  by_cases c3 : b0 < 0xE0
  · simp [c1, c2, c3, (show 0xC0 ≤ b0 by omega)]
  by_cases c4 : b0 < 0xF0
  · simp [c1, c2, c3, c4, (show 0xE0 ≤ b0 by omega)]
  by_cases c5 : b0 < 0xF8
  · simp [c1, c2, c3, c4, c5, (show 0xF0 ≤ b0 by omega)]
  · simp [c1, c2, c3, c4, c5]

theorem parseUtf8_eqA {s : List Nat} (h : Units 256 s) : parseUtf8 s =
    utf8A (s[0]?.getD 0xFF) (s[1]?.getD 0xFF) (s[2]?.getD 0xFF) (s[3]?.getD 0xFF) := by
  rw [parseUtf8_eq h]
  simp [peek8, List.headD_eq_head?_getD, List.head?_eq_getElem?]

end Verif
