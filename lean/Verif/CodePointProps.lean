import Verif.CodePointLemmas

/-!
Properties C01-C05: encoding and decoding of code points.

The specification (`Spec.*`) is arithmetic (division/remainder, Unicode Table 3-6/3-7 and the
surrogate pair formula) and does not mention the model.
-/

namespace Verif

/-! ## Specification -/

/-- Unicode scalar value (Unicode D76). -/
def Spec.IsScalar (v : Nat) : Prop := v ≤ 0x10FFFF ∧ ¬ (0xD800 ≤ v ∧ v ≤ 0xDFFF)

instance (v) : Decidable (Spec.IsScalar v) := by unfold Spec.IsScalar; infer_instance

/-- UTF-8 encoding form (Unicode Table 3-6). -/
def Spec.utf8 (v : Nat) : List Nat :=
  if v < 0x80 then [v]
  else if v < 0x800 then [192 + v / 64, 128 + v % 64]
  else if v < 0x10000 then [224 + v / 4096, 128 + v / 64 % 64, 128 + v % 64]
  else [240 + v / 262144, 128 + v / 4096 % 64, 128 + v / 64 % 64, 128 + v % 64]

/-- UTF-16 encoding form (Unicode Table 3-5). -/
def Spec.utf16 (v : Nat) : List Nat :=
  if v < 0x10000 then [v]
  else [0xD800 + (v - 0x10000) / 1024, 0xDC00 + (v - 0x10000) % 1024]

/-- Encoding form of each encoding. -/
def Spec.enc : Enc → Nat → List Nat
  | .ascii, v => [v]
  | .utf8, v => Spec.utf8 v
  | .utf16, v => Spec.utf16 v
  | .utf32, v => [v]

/-- The values an encoding can represent. -/
def Spec.Representable : Enc → Nat → Prop
  | .ascii, v => v < 0x80
  | _, v => Spec.IsScalar v

/-! ## Auxiliary facts -/

theorem encodeUtf8_eq_spec {cp : Nat} (h : cp ≤ 0x10FFFF) : encodeUtf8 cp = Spec.utf8 cp := by
  unfold encodeUtf8 Spec.utf8
  simp only [and_1F, and_0F, and_07, and_3F, Nat.shiftRight_eq_div_pow]
  have a1 : cp / 2^6 % 32 < 32 := Nat.mod_lt _ (by decide)
  have a2 : cp / 2^0 % 64 < 64 := Nat.mod_lt _ (by decide)
  have a3 : cp / 2^12 % 16 < 16 := Nat.mod_lt _ (by decide)
  have a4 : cp / 2^6 % 64 < 64 := Nat.mod_lt _ (by decide)
  have a5 : cp / 2^18 % 8 < 8 := Nat.mod_lt _ (by decide)
  have a6 : cp / 2^12 % 64 < 64 := Nat.mod_lt _ (by decide)
  rw [or_C0 _ a1, or_80 _ a2, or_E0 _ a3, or_80 _ a4, or_F0 _ a5, or_80 _ a6]
  clear a1 a2 a3 a4 a5 a6
  simp only [Nat.reducePow, Nat.div_one]
  split
  · rw [if_pos (by omega)]
  split
  · rw [if_neg (by omega), if_pos (by omega)]
    simp only [List.cons.injEq, and_true]; omega
  split
  · rw [if_neg (by omega), if_neg (by omega), if_pos (by omega)]
    simp only [List.cons.injEq, and_true]; omega
  · rw [if_neg (by omega), if_neg (by omega), if_neg (by omega)]
    simp only [List.cons.injEq, and_true]; omega

theorem Units.specUtf8 {cp : Nat} (h : cp ≤ 0x10FFFF) : Units 256 (Spec.utf8 cp) := by
  intro u hu
  unfold Spec.utf8 at hu
  split at hu
  · simp at hu; omega
  split at hu
  · simp at hu; omega
  split at hu
  · simp at hu; omega
  · simp at hu; omega

theorem specUtf8_parse {cp : Nat} (h : Spec.IsScalar cp) {rest : List Nat}
    (hr : Units 256 rest) :
    parseUtf8 (Spec.utf8 cp ++ rest) = ⟨cp, .success, (Spec.utf8 cp).length⟩ := by
  obtain ⟨h1, h2⟩ := h
  rw [parseUtf8_eqA ((Units.specUtf8 h1).append hr)]
  unfold Spec.utf8
  split
  · simp [utf8A, *]
  split
  · simp only [List.cons_append, List.nil_append, List.getElem?_cons_zero, List.getElem?_cons_succ,
      Option.getD_some, List.length_cons, List.length_nil]
    unfold utf8A
    rw [if_neg (by omega), if_neg (by omega), if_pos (by omega), if_neg (by omega),
      if_neg (by omega)]
    simp only [CpResult.mk.injEq, and_true]; omega
  split
  · simp only [List.cons_append, List.nil_append, List.getElem?_cons_zero, List.getElem?_cons_succ,
      Option.getD_some, List.length_cons, List.length_nil]
    unfold utf8A
    rw [if_neg (by omega), if_neg (by omega), if_neg (by omega), if_pos (by omega),
      if_neg (by omega), if_neg (by omega)]
    dsimp only
    rw [if_neg (by omega), if_neg (by omega)]
    simp only [CpResult.mk.injEq, and_true]; omega
  · simp only [List.cons_append, List.nil_append, List.getElem?_cons_zero, List.getElem?_cons_succ,
      Option.getD_some, List.length_cons, List.length_nil]
    unfold utf8A
    rw [if_neg (by omega), if_neg (by omega), if_neg (by omega), if_neg (by omega),
      if_pos (by omega), if_neg (by omega), if_neg (by omega), if_neg (by omega)]
    dsimp only
    rw [if_neg (by omega), if_neg (by omega)]
    simp only [CpResult.mk.injEq, and_true]; omega

/-! ## C01 -/

/-- C01: encoding a scalar value produces its UTF-8 form, and decoding at that place yields
    exactly this code point and consumes exactly the written units, whatever bytes follow. -/
theorem C01_utf8_roundtrip (cp : Nat) (h : Spec.IsScalar cp) (rest : List Nat)
    (hr : Units 256 rest) :
    encodeUtf8 cp = Spec.utf8 cp ∧
    parseUtf8 (encodeUtf8 cp ++ rest) = ⟨cp, .success, (encodeUtf8 cp).length⟩ := by
  rw [encodeUtf8_eq_spec h.1]
  exact ⟨rfl, specUtf8_parse h hr⟩

example : Spec.IsScalar 0x1F600 ∧ Units 256 [0x80, 0xFF] ∧
    encodeUtf8 0x1F600 = [0xF0, 0x9F, 0x98, 0x80] ∧
    parseUtf8 ([0xF0, 0x9F, 0x98, 0x80] ++ [0x80, 0xFF]) = ⟨0x1F600, .success, 4⟩ := by
  refine ⟨by decide, ?_, by decide, by decide⟩
  intro u hu; simp at hu; omega

/-! ## C02 -/

theorem getD_lt {s : List Nat} {i : Nat} (h : s[i]?.getD 0xFF < 0xC0) : i < s.length := by
  rcases Nat.lt_or_ge i s.length with h' | h'
  · exact h'
  · rw [List.getElem?_eq_none h'] at h; simp at h

theorem take_of_getD {s : List Nat} : ∀ {n : Nat}, n ≤ s.length →
    s.take n = (List.range n).map (fun i => s[i]?.getD 0xFF) := by
  intro n hn
  apply List.ext_getElem
  · simp [hn]
  · intro i h1 h2
    simp at h1 h2 ⊢
    rw [List.getElem?_eq_getElem (by omega)]; rfl

/-- Every outcome of the decoder, as arithmetic facts about the first four units. -/
theorem utf8A_cases (b0 b1 b2 b3 : Nat) :
    let r := utf8A b0 b1 b2 b3
    (r.error = .success ∧
      ((r.len = 1 ∧ b0 < 0x80 ∧ r.cp = b0)
      ∨ (r.len = 2 ∧ 0xC2 ≤ b0 ∧ b0 < 0xE0 ∧ 0x80 ≤ b1 ∧ b1 < 0xC0
          ∧ r.cp = (b0 - 192) * 64 + (b1 - 128))
      ∨ (r.len = 3 ∧ 0xE0 ≤ b0 ∧ b0 < 0xF0 ∧ 0x80 ≤ b1 ∧ b1 < 0xC0 ∧ 0x80 ≤ b2 ∧ b2 < 0xC0
          ∧ r.cp = (b0 - 224) * 4096 + (b1 - 128) * 64 + (b2 - 128)
          ∧ ¬ (0xD800 ≤ r.cp ∧ r.cp ≤ 0xDFFF) ∧ 0x800 ≤ r.cp)
      ∨ (r.len = 4 ∧ 0xF0 ≤ b0 ∧ b0 < 0xF8 ∧ 0x80 ≤ b1 ∧ b1 < 0xC0 ∧ 0x80 ≤ b2 ∧ b2 < 0xC0
          ∧ 0x80 ≤ b3 ∧ b3 < 0xC0
          ∧ r.cp = (b0 - 240) * 262144 + (b1 - 128) * 4096 + (b2 - 128) * 64 + (b3 - 128)
          ∧ r.cp ≤ 0x10FFFF ∧ 0x10000 ≤ r.cp)))
    ∨ (r.error = .eof ∧ 0xF8 ≤ b0 ∧ r.len = 0)
    ∨ (r.error = .leadsWithTrailing ∧ 0x80 ≤ b0 ∧ b0 < 0xC0 ∧ r.len = 0)
    ∨ (r.error = .missingTrailing ∧ 0xC0 ≤ b0 ∧ b0 < 0xF8 ∧
        ((r.len = 1 ∧ ¬ (0x80 ≤ b1 ∧ b1 < 0xC0))
        ∨ (r.len = 2 ∧ 0xE0 ≤ b0 ∧ (0x80 ≤ b1 ∧ b1 < 0xC0) ∧ ¬ (0x80 ≤ b2 ∧ b2 < 0xC0))
        ∨ (r.len = 3 ∧ 0xF0 ≤ b0 ∧ (0x80 ≤ b1 ∧ b1 < 0xC0) ∧ (0x80 ≤ b2 ∧ b2 < 0xC0)
            ∧ ¬ (0x80 ≤ b3 ∧ b3 < 0xC0))))
    ∨ (r.error = .surrogate ∧ b0 = 0xED ∧ 0xA0 ≤ b1 ∧ b1 < 0xC0 ∧ 0x80 ≤ b2 ∧ b2 < 0xC0
        ∧ r.len = 3 ∧ r.cp = (b0 - 224) * 4096 + (b1 - 128) * 64 + (b2 - 128))
    ∨ (r.error = .overlong ∧
        ((r.len = 2 ∧ 0xC0 ≤ b0 ∧ b0 < 0xC2 ∧ 0x80 ≤ b1 ∧ b1 < 0xC0)
        ∨ (r.len = 3 ∧ b0 = 0xE0 ∧ 0x80 ≤ b1 ∧ b1 < 0xA0 ∧ 0x80 ≤ b2 ∧ b2 < 0xC0)
        ∨ (r.len = 4 ∧ b0 = 0xF0 ∧ 0x80 ≤ b1 ∧ b1 < 0x90 ∧ 0x80 ≤ b2 ∧ b2 < 0xC0
            ∧ 0x80 ≤ b3 ∧ b3 < 0xC0)))
    ∨ (r.error = .outOfRange ∧ r.len = 4 ∧ ((b0 = 0xF4 ∧ 0x90 ≤ b1) ∨ 0xF4 < b0) ∧ b0 < 0xF8
        ∧ 0x80 ≤ b1 ∧ b1 < 0xC0 ∧ 0x80 ≤ b2 ∧ b2 < 0xC0 ∧ 0x80 ≤ b3 ∧ b3 < 0xC0) := by
  intro r
  simp only [r, utf8A]
  by_cases c1 : b0 < 0x80
  · simp [c1]
  by_cases c2 : b0 < 0xC0
  · simp [c1, c2]; omega
  by_cases c3 : b0 < 0xE0
  · simp only [c1, c2, c3, if_true, if_false]
    split
    · simp; omega
    split
    · simp; omega
    · simp; omega
  by_cases c4 : b0 < 0xF0
  · simp only [c1, c2, c3, c4, if_true, if_false]
    split
    · simp; omega
    split
    · simp; omega
    split
    · simp; omega
    split
    · simp; omega
    · simp; omega
  by_cases c5 : b0 < 0xF8
  · simp only [c1, c2, c3, c4, c5, if_true, if_false]
    split
    · simp; omega
    split
    · simp; omega
    split
    · simp; omega
    split
    · simp; omega
    split
    · simp; omega
    · simp; omega
  · simp [c1, c2, c3, c4, c5]; omega

theorem parseUtf8_len_le (s : List Nat) (hs : Units 256 s) : (parseUtf8 s).len ≤ s.length := by
  rw [parseUtf8_eqA hs]
  have l0 : s[0]?.getD 0xFF < 0xFF → 0 < s.length := by
    intro h; cases s with
    | nil => simp at h
    | cons a t => simp
  have l1 := fun h => getD_lt (s := s) (i := 1) h
  have l2 := fun h => getD_lt (s := s) (i := 2) h
  have l3 := fun h => getD_lt (s := s) (i := 3) h
  have := utf8A_cases (s[0]?.getD 0xFF) (s[1]?.getD 0xFF) (s[2]?.getD 0xFF) (s[3]?.getD 0xFF)
  dsimp only at this
  omega

/-- C02: soundness.  A successful match yields a scalar value and has consumed exactly its
    UTF-8 form. -/
theorem C02_utf8_decode_sound (s : List Nat) (hs : Units 256 s)
    (h : (parseUtf8 s).error = .success) :
    Spec.IsScalar (parseUtf8 s).cp ∧ (parseUtf8 s).len ≤ s.length ∧
    s.take (parseUtf8 s).len = Spec.utf8 (parseUtf8 s).cp := by
  have hl := parseUtf8_len_le s hs
  rw [take_of_getD hl]
  rw [parseUtf8_eqA hs] at h ⊢
  rw [parseUtf8_eqA hs] at hl
  have := utf8A_cases (s[0]?.getD 0xFF) (s[1]?.getD 0xFF) (s[2]?.getD 0xFF) (s[3]?.getD 0xFF)
  dsimp only at this
  simp only [h, reduceCtorEq, false_and, or_false, true_and] at this
  refine ⟨?_, hl, ?_⟩
  · unfold Spec.IsScalar; omega
  · rcases this with ⟨e, h1, h2⟩ | ⟨e, h1⟩ | ⟨e, h1⟩ | ⟨e, h1⟩
    · simp only [e, h2, Spec.utf8]; rw [if_pos h1]; rfl
    · simp only [e, Spec.utf8]
      rw [if_neg (by omega), if_pos (by omega)]
      simp [List.range_succ]; omega
    · simp only [e, Spec.utf8]
      rw [if_neg (by omega), if_neg (by omega), if_pos (by omega)]
      simp [List.range_succ]; refine ⟨?_, ?_, ?_⟩ <;> omega
    · simp only [e, Spec.utf8]
      rw [if_neg (by omega), if_neg (by omega), if_neg (by omega)]
      simp [List.range_succ]; refine ⟨?_, ?_, ?_, ?_⟩ <;> omega

/-- C02: a match succeeds exactly when the input starts with the UTF-8 form of a scalar value. -/
theorem C02_utf8_decode_iff (s : List Nat) (hs : Units 256 s) :
    (parseUtf8 s).error = .success ↔ ∃ v, Spec.IsScalar v ∧ Spec.utf8 v <+: s := by
  constructor
  · intro h
    obtain ⟨h1, _, h3⟩ := C02_utf8_decode_sound s hs h
    exact ⟨_, h1, h3 ▸ List.take_prefix _ _⟩
  · rintro ⟨v, hv, rest, rfl⟩
    rw [specUtf8_parse hv]
    exact fun u hu => hs u (List.mem_append_right _ hu)

/-- C02: whatever the outcome, the reported end does not lie past the end of the input. -/
theorem C02_utf8_end_in_bounds (s : List Nat) (hs : Units 256 s) :
    (parseUtf8 s).len ≤ s.length := parseUtf8_len_le s hs

/-- C02: the UTF-8 form is unique (prefix-free), so the decoded value is determined. -/
theorem C02_utf8_unique (v w : Nat) (hv : Spec.IsScalar v) (hw : Spec.IsScalar w)
    (h : Spec.utf8 v <+: Spec.utf8 w) : v = w := by
  obtain ⟨t, ht⟩ := h
  have a := specUtf8_parse hw (rest := []) (by intro u hu; simp at hu)
  have b := specUtf8_parse hv (rest := t) (by
    intro u hu
    have := Units.specUtf8 hw.1
    rw [← ht] at this
    exact this u (List.mem_append_right _ hu))
  rw [ht] at b
  rw [List.append_nil] at a
  rw [a] at b
  exact (congrArg CpResult.cp b).symm

example : Units 256 [0xE2, 0x82, 0xAC, 0x41] ∧
    (parseUtf8 [0xE2, 0x82, 0xAC, 0x41]).error = .success ∧
    (parseUtf8 [0xE2, 0x82, 0x41]).error = .missingTrailing ∧
    (parseUtf8 [0xE0, 0x82, 0x81]).error = .overlong := by
  refine ⟨?_, by decide, by decide, by decide⟩
  intro u hu; simp at hu; omega

/-! ## C03 -/

theorem encodeUtf16_eq_spec (cp : Nat) : encodeUtf16 cp = Spec.utf16 cp := by
  unfold encodeUtf16 Spec.utf16
  simp only [and_3FF, Nat.shiftRight_eq_div_pow, Nat.reducePow]
  split
  · rw [if_pos (by omega)]
  · rw [if_neg (by omega)]

theorem and_FC00 (x : Nat) (h : x < 65536) : x &&& 0xFC00 = x / 1024 * 1024 := by
  have e : x &&& 0xFC00 = (x >>> 10 &&& 63) <<< 10 := by
    apply Nat.eq_of_testBit_eq
    intro i
    simp only [Nat.testBit_and, Nat.testBit_shiftLeft, Nat.testBit_shiftRight]
    by_cases hi : i < 16
    · have : ∀ i < 16, Nat.testBit 0xFC00 i = (decide (i ≥ 10) && Nat.testBit 63 (i - 10)) := by
        decide
      rw [this i hi]
      by_cases h10 : i ≥ 10
      · simp [h10]
      · simp [h10]
    · rw [Nat.testBit_lt_two_pow (x := x) (Nat.lt_of_lt_of_le h
        (show (65536:Nat) ≤ 2^i from Nat.pow_le_pow_right (n := 2) (by decide) (show 16 ≤ i by omega)))]
      rw [show 10 + (i - 10) = i by omega, Nat.testBit_lt_two_pow (x := x) (Nat.lt_of_lt_of_le h
        (show (65536:Nat) ≤ 2^i from Nat.pow_le_pow_right (n := 2) (by decide) (show 16 ≤ i by omega)))]
      simp
  rw [e, show (63:Nat) = 2^6 - 1 from rfl, Nat.and_two_pow_sub_one_eq_mod,
    Nat.shiftLeft_eq, Nat.shiftRight_eq_div_pow]
  rw [Nat.mod_eq_of_lt]; omega

theorem or_10000 (x : Nat) :
    x ||| 0x10000 = if x / 65536 % 2 = 1 then x else x + 65536 := by
  have hx : x = (x / 131072) <<< 17 ||| x % 131072 := by
    rw [← Nat.shiftLeft_add_eq_or_of_lt (Nat.mod_lt _ (by decide)), Nat.shiftLeft_eq]; omega
  have key : ∀ y : Nat, y < 131072 →
      y ||| 0x10000 = if y / 65536 = 1 then y else y + 65536 := by
    intro y hy
    by_cases h : y / 65536 = 1
    · rw [if_pos h]
      have e : y = 1 <<< 16 ||| y % 65536 := by
        rw [← Nat.shiftLeft_add_eq_or_of_lt (Nat.mod_lt _ (by decide)), Nat.shiftLeft_eq]; omega
      rw [e, show (0x10000 : Nat) = 1 <<< 16 from rfl]
      rw [Nat.or_assoc, Nat.or_comm _ (1 <<< 16), ← Nat.or_assoc, Nat.or_self]
    · rw [if_neg h, Nat.or_comm, show (0x10000 : Nat) = 1 <<< 16 from rfl,
        ← Nat.shiftLeft_add_eq_or_of_lt (show y < 2 ^ 16 by omega)]
      omega
  have lt : x % 131072 < 131072 := Nat.mod_lt _ (by decide)
  conv => lhs; rw [hx]
  rw [Nat.or_assoc, key _ lt]
  split
  · rw [← hx, if_pos (by omega)]
  · rw [if_neg (by omega), ← Nat.shiftLeft_add_eq_or_of_lt (show _ < 2 ^ 17 by omega),
      Nat.shiftLeft_eq]
    omega

theorem parseUtf16_pair (h l : Nat) (rest : List Nat)
    (h1 : 0xD800 ≤ h) (h2 : h < 0xDC00) (l1 : 0xDC00 ≤ l) (l2 : l < 0xE000) :
    parseUtf16 (h :: l :: rest) =
      ⟨((h - 0xD800) * 1024 + (l - 0xDC00)) ||| 0x10000, .success, 2⟩ := by
  unfold parseUtf16
  simp only [and_FC00 h (by omega), and_FC00 l (by omega), and_3FF, ne_eq]
  rw [if_pos (by omega), if_neg (by omega),
    ← Nat.shiftLeft_add_eq_or_of_lt (show l % 1024 < 2 ^ 10 by omega), Nat.shiftLeft_eq]
  rw [show h % 1024 * 2 ^ 10 + l % 1024 = (h - 0xD800) * 1024 + (l - 0xDC00) by omega]

theorem parseUtf16_single (u : Nat) (rest : List Nat) (hu : u < 65536)
    (h : ¬ (0xD800 ≤ u ∧ u ≤ 0xDFFF)) : parseUtf16 (u :: rest) = ⟨u, .success, 1⟩ := by
  unfold parseUtf16
  simp only [and_FC00 u hu]
  rw [if_neg (by omega), if_neg (by omega)]

/-- C03, exact behaviour of the pinned code: encoding is the UTF-16 form; decoding it yields the
    code point for the BMP and for odd planes, and the code point *minus 0x10000* for even planes
    2, 4, ..., 16.  In all cases exactly the written units are consumed. -/
theorem C03_utf16_decode_exact (cp : Nat) (h : Spec.IsScalar cp) (rest : List Nat) :
    encodeUtf16 cp = Spec.utf16 cp ∧
    parseUtf16 (encodeUtf16 cp ++ rest) =
      ⟨if cp < 0x10000 ∨ cp / 0x10000 % 2 = 1 then cp else cp - 0x10000,
        .success, (encodeUtf16 cp).length⟩ := by
  rw [encodeUtf16_eq_spec]
  refine ⟨rfl, ?_⟩
  obtain ⟨h1, h2⟩ := h
  unfold Spec.utf16
  by_cases c : cp < 0x10000
  · simp only [c, if_true, true_or, List.cons_append, List.nil_append]
    rw [parseUtf16_single _ _ (by omega) h2]; rfl
  · simp only [c, if_false, false_or, List.cons_append, List.nil_append]
    rw [parseUtf16_pair _ _ _ (by omega) (by omega) (by omega) (by omega), or_10000]
    rw [show (0xD800 + (cp - 0x10000) / 1024 - 0xD800) * 1024
        + (0xDC00 + (cp - 0x10000) % 1024 - 0xDC00) = cp - 0x10000 by omega]
    by_cases c2 : cp / 0x10000 % 2 = 1
    · rw [if_neg (by omega), if_pos c2, Nat.sub_add_cancel (by omega)]; rfl
    · rw [if_pos (by omega), if_neg c2]; rfl

/-- C03, the part of the round trip that holds: the BMP and the odd planes.  Missing for the full
    statement: planes 2, 4, ..., 16, where the decoder is wrong (`C03_utf16_roundtrip_refuted`). -/
theorem C03_utf16_roundtrip_partial (cp : Nat) (h : Spec.IsScalar cp)
    (hp : cp < 0x10000 ∨ cp / 0x10000 % 2 = 1) (rest : List Nat) :
    parseUtf16 (encodeUtf16 cp ++ rest) = ⟨cp, .success, (encodeUtf16 cp).length⟩ := by
  rw [(C03_utf16_decode_exact cp h rest).2, if_pos hp]

/-- The full C03 is false for the pinned code: U+20000 decodes to U+10000
    (`|= 0x10000` instead of `+= 0x10000`, _detail/code_point.hpp l.299). -/
theorem C03_utf16_roundtrip_refuted :
    ¬ (∀ cp, Spec.IsScalar cp → ∀ rest,
        parseUtf16 (encodeUtf16 cp ++ rest) = ⟨cp, .success, (encodeUtf16 cp).length⟩) := by
  intro h
  exact absurd (h 0x20000 (by decide) []) (by decide)

example : Spec.IsScalar 0x1F600 ∧ (0x1F600 / 0x10000) % 2 = 1 ∧
    encodeUtf16 0x1F600 = [0xD83D, 0xDE00] := by decide

/-- UTF-32 round trip (scalar values only). -/
theorem C03_utf32_roundtrip (cp : Nat) (h : Spec.IsScalar cp) (rest : List Nat) :
    parseUtf32 (encodeUtf32 cp ++ rest) = ⟨cp, .success, 1⟩ := by
  obtain ⟨h1, h2⟩ := h
  simp only [parseUtf32, encodeUtf32, List.cons_append, List.headD_cons]
  grind

/-- ASCII round trip. -/
theorem C03_ascii_roundtrip (cp : Nat) (h : cp < 0x80) (rest : List Nat) :
    parseAscii (encodeAscii cp ++ rest) = ⟨cp, .success, 1⟩ := by
  have e : cp % 256 = cp := Nat.mod_eq_of_lt (by omega)
  simp only [parseAscii, encodeAscii, peek8, List.cons_append, List.headD_cons, e]
  grind

/-- UTF-16 decoding accepts only well-formed sequences: a success consumes one non-surrogate unit,
    or a surrogate pair. -/
theorem C03_utf16_decode_wellformed (s : List Nat) (hs : Units 65536 s)
    (h : (parseUtf16 s).error = .success) :
    (parseUtf16 s).len ≤ s.length ∧ ∃ v, Spec.IsScalar v ∧ s.take (parseUtf16 s).len = Spec.utf16 v := by
  match s, hs with
  | [], _ => simp [parseUtf16] at h
  | [u], hs =>
    have hu : u < 65536 := hs u (by simp)
    by_cases c : 0xD800 ≤ u ∧ u ≤ 0xDFFF
    · unfold parseUtf16 at h
      simp only [and_FC00 u hu] at h
      split at h
      · simp at h
      · rw [if_pos (by omega)] at h; simp at h
    · rw [parseUtf16_single u [] hu c]
      refine ⟨by simp, u, ⟨by omega, c⟩, ?_⟩
      unfold Spec.utf16; rw [if_pos (by omega)]; rfl
  | u :: l :: t, hs =>
    have hu : u < 65536 := hs u (by simp)
    have hl : l < 65536 := hs l (by simp)
    by_cases c : 0xD800 ≤ u ∧ u ≤ 0xDFFF
    · unfold parseUtf16 at h
      simp only [and_FC00 u hu, and_FC00 l hl] at h
      split at h
      · split at h
        · simp at h
        · rw [parseUtf16_pair u l t (by omega) (by omega) (by omega) (by omega)]
          refine ⟨by simp, 0x10000 + (u - 0xD800) * 1024 + (l - 0xDC00), ⟨by omega, by omega⟩, ?_⟩
          unfold Spec.utf16; rw [if_neg (by omega)]
          simp; omega
      · rw [if_pos (by omega)] at h; simp at h
    · rw [parseUtf16_single u _ hu c]
      refine ⟨by simp, u, ⟨by omega, c⟩, ?_⟩
      unfold Spec.utf16; rw [if_pos (by omega)]; rfl

/-! ## C04 -/

theorem parseCp_len_le (e : Enc) (s : List Nat) (hs : Units e.bound s) :
    (parseCp e s).len ≤ s.length := by
  cases e with
  | ascii =>
    cases s <;> simp [parseCp, parseAscii, peek8]
    split
    · simp
    · split <;> simp
  | utf8 => exact parseUtf8_len_le s hs
  | utf16 =>
    simp only [parseCp, parseUtf16]
    grind
  | utf32 =>
    cases s <;> simp [parseCp, parseUtf32]
    split
    · simp
    split
    · simp
    split <;> simp

/-- When the decoder reports EOF: at the end of the input, and for units that cannot be told apart
    from it.  In UTF-8 these are all of F8..FF, not just the sentinel FF. -/
theorem parseCp_eof_iff (e : Enc) (s : List Nat) (hs : Units e.bound s) :
    (parseCp e s).error = .eof ↔
      s = [] ∨ ∃ u t, s = u :: t ∧
        (match e with
         | .ascii => u = 0xFF | .utf8 => 0xF8 ≤ u | .utf16 => False | .utf32 => u = 0xFFFFFFFF) := by
  cases e with
  | ascii =>
    cases s with
    | nil => simp [parseCp, parseAscii, peek8]
    | cons u t =>
      simp only [parseCp, parseAscii, peek8, List.headD_cons, reduceCtorEq, false_or]
      constructor
      · intro h; exact ⟨u, t, rfl, by grind⟩
      · rintro ⟨u', t', h, rfl⟩
        simp at h; simp [h]
  | utf8 =>
    simp only [parseCp]
    rw [parseUtf8_eqA hs]
    have := utf8A_cases (s[0]?.getD 0xFF) (s[1]?.getD 0xFF) (s[2]?.getD 0xFF) (s[3]?.getD 0xFF)
    dsimp only at this
    cases s with
    | nil =>
      simp only [List.getElem?_nil, Option.getD_none] at this ⊢
      simp; decide
    | cons u t =>
      have hu : u < 256 := hs u (by simp)
      simp only [List.getElem?_cons_zero, Option.getD_some, reduceCtorEq, false_or] at this ⊢
      constructor
      · intro h
        simp only [h, reduceCtorEq, false_and, false_or, or_false, true_and] at this
        exact ⟨u, t, rfl, this.1⟩
      · rintro ⟨u', t', h, hu'⟩
        simp at h
        obtain ⟨rfl, rfl⟩ := h
        rcases this with h | h | h | h | h | h | h <;> first | exact h.1 | omega
  | utf16 =>
    cases s with
    | nil => simp [parseCp, parseUtf16]
    | cons u t =>
      simp [parseCp, parseUtf16]
      split
      · split
        · simp
        · split <;> simp
      · split <;> simp
  | utf32 =>
    cases s with
    | nil => simp [parseCp, parseUtf32]
    | cons u t =>
      simp only [parseCp, parseUtf32, List.headD_cons, reduceCtorEq, false_or]
      constructor
      · intro h; exact ⟨u, t, rfl, by grind⟩
      · rintro ⟨u', t', h, rfl⟩
        simp at h; simp [h]

theorem parseCp_len_pos (e : Enc) (s : List Nat) (hs : Units e.bound s) (h0 : (parseCp e s).len = 0) :
    (parseCp e s).error = .eof ∨ ((parseCp e s).error = .leadsWithTrailing ∧ s ≠ []) := by
  cases e with
  | ascii =>
    simp only [parseCp, parseAscii] at h0 ⊢
    split
    · simp
    · rename_i h; rw [if_neg h] at h0; split at h0 <;> simp at h0
  | utf8 =>
    simp only [parseCp] at h0 ⊢
    rw [parseUtf8_eqA hs] at h0 ⊢
    have l0 : s[0]?.getD 0xFF < 0xFF → s ≠ [] := by rintro h rfl; simp at h
    have := utf8A_cases (s[0]?.getD 0xFF) (s[1]?.getD 0xFF) (s[2]?.getD 0xFF) (s[3]?.getD 0xFF)
    dsimp only at this
    rcases this with h | h | h | h | h | h | h
    · omega
    · exact .inl h.1
    · exact .inr ⟨h.1, l0 (by omega)⟩
    all_goals omega
  | utf16 =>
    simp only [parseCp, parseUtf16] at h0 ⊢
    split
    · simp
    · split
      · rename_i h; simp only [h, if_true] at h0; split at h0
        · simp at h0
        · split at h0 <;> simp at h0
      · rename_i h; simp only [h, if_false] at h0
        split
        · simp
        · rename_i h'; simp only [h', if_false] at h0; simp at h0
  | utf32 =>
    simp only [parseCp, parseUtf32] at h0 ⊢
    split
    · simp
    · rename_i h; rw [if_neg h] at h0
      split at h0
      · simp at h0
      · split at h0 <;> simp at h0

theorem parseCp_lwt (e : Enc) (s : List Nat) (hs : Units e.bound s)
    (h : (parseCp e s).error = .leadsWithTrailing) : (parseCp e s).len = 0 ∧ s ≠ [] := by
  have key : (parseCp e s).len = 0 := by
    cases e with
    | ascii => simp only [parseCp, parseAscii] at h ⊢; grind
    | utf8 =>
      simp only [parseCp] at h ⊢
      rw [parseUtf8_eqA hs] at h ⊢
      have := utf8A_cases (s[0]?.getD 0xFF) (s[1]?.getD 0xFF) (s[2]?.getD 0xFF) (s[3]?.getD 0xFF)
      dsimp only at this
      simp only [h, reduceCtorEq, false_and, false_or, or_false, true_and] at this
      exact this.2.2
    | utf16 => simp only [parseCp, parseUtf16] at h ⊢; grind
    | utf32 => simp only [parseCp, parseUtf32] at h ⊢; grind
  refine ⟨key, ?_⟩
  rcases parseCp_len_pos e s hs key with h' | h'
  · rw [h] at h'; simp at h'
  · exact h'.2

/-- C04 (partial): one match-or-recover step is defined (no violated precondition), never leaves the
    input, and consumes at least one unit unless the decoder reports EOF.  Missing for the full
    statement: the decoder must not report EOF before the end (see `C04_recovery_progress_refuted`). -/
theorem C04_recovery_progress_partial (e : Enc) (s : List Nat) (hs : Units e.bound s) :
    ∃ t, recoverCodePoint s (parseCp e s) = some t ∧ t <:+ s ∧
      ((parseCp e s).error ≠ .eof → t.length < s.length) := by
  have hl := parseCp_len_le e s hs
  have hp := parseCp_len_pos e s hs
  have hw := parseCp_lwt e s hs
  generalize parseCp e s = r at *
  have drop : 0 < r.len → ∀ P : Prop, ∃ t, some (s.drop r.len) = some t ∧ t <:+ s ∧
      (P → t.length < s.length) := by
    intro h _
    exact ⟨_, rfl, List.drop_suffix _ _, fun _ => by rw [List.length_drop]; omega⟩
  have pos : r.error ≠ .eof → r.error ≠ .leadsWithTrailing → 0 < r.len := by
    intro h1 h2
    rcases Nat.eq_zero_or_pos r.len with h | h
    · rcases hp h with h | h
      · exact absurd h h1
      · exact absurd h.1 h2
    · exact h
  unfold recoverCodePoint
  cases he : r.error <;> simp only [he, reduceCtorEq] at pos hw
  case eof => exact ⟨s, rfl, List.suffix_refl s, fun h => absurd rfl h⟩
  case leadsWithTrailing =>
    obtain ⟨h1, h2⟩ := hw trivial
    match s, h2 with
    | a :: t, _ =>
      simp only [h1, if_true]
      exact ⟨t, rfl, List.suffix_cons a t, fun _ => by simp⟩
  all_goals exact drop (pos (by simp) (by simp)) _

/-- Repeated match-or-recover (as `visualize_to` does for a lexeme, visualize.hpp l.375-394),
    with the given number of steps. `none` = a violated precondition. -/
def recoverLoop (e : Enc) : Nat → List Nat → Option (List Nat)
  | 0, s => some s
  | n + 1, s =>
    match recoverCodePoint s (parseCp e s) with
    | none => none
    | some t => recoverLoop e n t

/-- Units that the decoder takes for EOF. -/
def Spec.EofLike : Enc → Nat → Prop
  | .ascii, u => u = 0xFF
  | .utf8, u => 0xF8 ≤ u
  | .utf16, _ => False
  | .utf32, u => u = 0xFFFFFFFF

/-- C04 (partial): on an input without EOF-like units, repeated match-or-recover reaches the end of
    the input after at most as many steps as there are units.  (For UTF-16 there is no exception.)
    Missing: EOF-like units, see `C04_recovery_progress_refuted`. -/
theorem C04_recovery_total_partial (e : Enc) (s : List Nat) (hs : Units e.bound s)
    (hx : ∀ u ∈ s, ¬ Spec.EofLike e u) : recoverLoop e s.length s = some [] := by
  suffices ∀ n s, s.length ≤ n → Units e.bound s → (∀ u ∈ s, ¬ Spec.EofLike e u) →
      recoverLoop e n s = some [] from this _ s (Nat.le_refl _) hs hx
  intro n
  induction n with
  | zero =>
    intro s hl _ _
    have : s = [] := List.length_eq_zero_iff.1 (by omega)
    subst this; rfl
  | succ n ih =>
    intro s hl hs hx
    obtain ⟨t, h1, h2, h3⟩ := C04_recovery_progress_partial e s hs
    simp only [recoverLoop, h1]
    refine ih t ?_ (fun u hu => hs u (h2.subset hu)) (fun u hu => hx u (h2.subset hu))
    by_cases he : (parseCp e s).error = .eof
    · rcases (parseCp_eof_iff e s hs).1 he with rfl | ⟨u, t', rfl, hu⟩
      · have := h2.length_le; rw [List.length_nil] at this; omega
      · exfalso
        have := hx u (by simp)
        cases e <;> simp [Spec.EofLike] at this hu <;> omega
    · have := h3 he; omega

/-- The full C04 is false in UTF-8: the byte F8 (never part of UTF-8, not the sentinel) is
    classified as EOF, so recovery makes no progress, however often it is repeated. -/
theorem C04_recovery_progress_refuted :
    ∀ n, recoverLoop .utf8 n [0xF8, 0x41] = some [0xF8, 0x41] := by
  intro n
  induction n with
  | zero => rfl
  | succ n ih =>
    have : recoverCodePoint [0xF8, 0x41] (parseCp .utf8 [0xF8, 0x41]) = some [0xF8, 0x41] := by
      decide
    simp only [recoverLoop, this, ih]

example : Units (Enc.bound .utf8) [0x80, 0xE2, 0x82, 0x41] ∧
    (∀ u ∈ [0x80, 0xE2, 0x82, 0x41], ¬ Spec.EofLike .utf8 u) ∧
    recoverLoop .utf8 3 [0x80, 0xE2, 0x82, 0x41] = some [] ∧
    recoverLoop .utf8 2 [0x80, 0xE2, 0x82, 0x41] = some [0x41] := by
  refine ⟨?_, ?_, by decide, by decide⟩
  · intro u hu; simp [Enc.bound] at *; omega
  · intro u hu; simp [Spec.EofLike] at *; omega

/-! ## C05 -/

/-- Match code points until EOF (the loop of visualize.hpp l.375-394 without its error branch);
    `none` when a code point is malformed or the step budget is exhausted. -/
def decodeAll (e : Enc) : Nat → List Nat → Option (List Nat)
  | 0, _ => none
  | n + 1, s =>
    let r := parseCp e s
    match r.error with
    | .eof => some []
    | .success => (decodeAll e n (s.drop r.len)).map (r.cp :: ·)
    | _ => none

/-- The values for which `parse_code_point` inverts `encode_code_point`. -/
def Spec.Faithful : Enc → Nat → Prop
  | .ascii, v => v < 0x80
  | .utf8, v => Spec.IsScalar v
  | .utf16, v => Spec.IsScalar v ∧ (v < 0x10000 ∨ v / 0x10000 % 2 = 1)
  | .utf32, v => Spec.IsScalar v

theorem encodeCp_units (e : Enc) (v : Nat) (h : Spec.Faithful e v) :
    Units e.bound (encodeCp e v) := by
  cases e with
  | ascii => intro u hu; simp [encodeCp, encodeAscii, Spec.Faithful, Enc.bound] at *; omega
  | utf8 => simp only [encodeCp]; rw [encodeUtf8_eq_spec h.1]; exact Units.specUtf8 h.1
  | utf16 =>
    simp only [encodeCp]; rw [encodeUtf16_eq_spec]
    have := h.1.1
    intro u hu
    simp only [Spec.utf16] at hu
    simp only [Enc.bound]
    split at hu <;> simp at hu <;> omega
  | utf32 =>
    have := h.1
    intro u hu; simp [encodeCp, encodeUtf32, Enc.bound] at *; omega

theorem parseCp_encodeCp (e : Enc) (v : Nat) (h : Spec.Faithful e v) (rest : List Nat)
    (hr : Units e.bound rest) :
    parseCp e (encodeCp e v ++ rest) = ⟨v, .success, (encodeCp e v).length⟩ := by
  cases e with
  | ascii => exact C03_ascii_roundtrip v h rest
  | utf8 => exact (C01_utf8_roundtrip v h rest hr).2
  | utf16 => exact C03_utf16_roundtrip_partial v h.1 h.2 rest
  | utf32 => exact C03_utf32_roundtrip v h rest

/-- C05 (full for ASCII, UTF-8, UTF-32; UTF-16 restricted by `Spec.Faithful` to the planes for which
    C03 holds, see `C05_decode_encode_utf16_refuted`): decoding the concatenated encodings gives back
    the list. -/
theorem C05_decode_encode_all_partial (e : Enc) (vs : List Nat) (h : ∀ v ∈ vs, Spec.Faithful e v) :
    decodeAll e (vs.length + 1) (vs.flatMap (encodeCp e)) = some vs := by
  induction vs with
  | nil => cases e <;> rfl
  | cons v vs ih =>
    have hu : Units e.bound (vs.flatMap (encodeCp e)) := by
      intro u hu
      obtain ⟨w, hw, hw'⟩ := List.mem_flatMap.1 hu
      exact encodeCp_units e w (h w (by simp [hw])) u hw'
    have h1 := parseCp_encodeCp e v (h v (by simp)) _ hu
    have ih' := ih (fun w hw => h w (by simp [hw]))
    simp only [List.flatMap_cons, List.length_cons]
    rw [decodeAll]
    simp only [h1, List.drop_left, ih', Option.map_some]

/-- C05 in full for UTF-8. -/
theorem C05_decode_encode_utf8 (vs : List Nat) (h : ∀ v ∈ vs, Spec.IsScalar v) :
    decodeAll .utf8 (vs.length + 1) (vs.flatMap encodeUtf8) = some vs :=
  C05_decode_encode_all_partial .utf8 vs h

/-- C05 in full for UTF-32. -/
theorem C05_decode_encode_utf32 (vs : List Nat) (h : ∀ v ∈ vs, Spec.IsScalar v) :
    decodeAll .utf32 (vs.length + 1) (vs.flatMap encodeUtf32) = some vs :=
  C05_decode_encode_all_partial .utf32 vs h

/-- C05 is false for UTF-16 in the pinned code (same defect as C03). -/
theorem C05_decode_encode_utf16_refuted :
    ¬ (∀ vs, (∀ v ∈ vs, Spec.IsScalar v) →
      decodeAll .utf16 (vs.length + 1) (vs.flatMap encodeUtf16) = some vs) := by
  intro h
  have := h [0x20000] (by intro v hv; simp at hv; subst hv; decide)
  exact absurd this (by decide)

/-- The encoding of a text is injective: two different texts never encode to the same units. -/
theorem C05_encode_injective (e : Enc) (vs ws : List Nat)
    (hv : ∀ v ∈ vs, Spec.Faithful e v) (hw : ∀ v ∈ ws, Spec.Faithful e v)
    (h : vs.flatMap (encodeCp e) = ws.flatMap (encodeCp e)) : vs = ws := by
  have mono : ∀ n s l, decodeAll e n s = some l → decodeAll e (n + 1) s = some l := by
    intro n
    induction n with
    | zero => intro s l h; simp [decodeAll] at h
    | succ n ih =>
      intro s l h
      rw [decodeAll] at h ⊢
      revert h
      split <;> intro h
      · exact h
      · rw [Option.map_eq_some_iff] at h ⊢
        obtain ⟨a, ha, hb⟩ := h
        exact ⟨a, ih _ _ ha, hb⟩
      · exact h
  have mono' : ∀ k n s l, decodeAll e n s = some l → decodeAll e (n + k) s = some l := by
    intro k
    induction k with
    | zero => intro n s l h; exact h
    | succ k ih => intro n s l h; exact mono _ _ _ (ih _ _ _ h)
  have a := mono' ws.length _ _ _ (C05_decode_encode_all_partial e vs hv)
  have b := mono' vs.length _ _ _ (C05_decode_encode_all_partial e ws hw)
  rw [h] at a
  rw [show ws.length + 1 + vs.length = vs.length + 1 + ws.length by omega, a] at b
  exact Option.some.inj b

example : (∀ v ∈ [0x48, 0x20AC, 0x1F600], Spec.Faithful .utf16 v) ∧
    decodeAll .utf16 4 ([0x48, 0x20AC, 0x1F600].flatMap (encodeCp .utf16))
      = some [0x48, 0x20AC, 0x1F600] := by
  refine ⟨?_, by decide⟩
  intro v hv
  simp only [List.mem_cons, List.not_mem_nil, or_false] at hv
  rcases hv with rfl | rfl | rfl <;> refine ⟨by decide, by decide⟩

end Verif
