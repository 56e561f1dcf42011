import Verif.CharClassProps

/-!
Property C03 for all encodings: what the decoders accept.
-/

namespace Verif

theorem enc_pos (e : Enc) (v : Nat) : 0 < (Spec.enc e v).length := by
  cases e <;> simp only [Spec.enc, Spec.utf8, Spec.utf16] <;> (repeat' split) <;> simp

/-- C03: in every encoding, decoding succeeds exactly if the input starts with the encoded form of a value that the
    encoding can represent. -/
theorem C03_decode_iff (e : Enc) (s : List Nat) (hs : Units e.bound s) :
    (parseCp e s).error = .success ↔ ∃ v, Spec.Representable e v ∧ Spec.enc e v <+: s := by
  cases e with
  | ascii =>
    cases s with
    | nil => simp [parseCp, parseAscii, peek8, Spec.enc]
    | cons u t =>
      have hu := hs u (by simp)
      simp only [Enc.bound] at hu
      simp only [parseCp, CC.parseAscii_cons, Spec.Representable, Spec.enc]
      have : (∃ v, v < 0x80 ∧ [v] <+: u :: t) ↔ u < 0x80 := by
        constructor
        · rintro ⟨v, hv, h⟩; simp at h; omega
        · intro h; exact ⟨u, h, by simp⟩
      rw [this]
      by_cases h1 : u = 0xFF
      · simp [h1]
      · rw [if_neg h1]
        by_cases h2 : u ≤ 0x7F
        · rw [if_pos h2]; simp; omega
        · rw [if_neg h2]; simp; omega
  | utf8 => exact C02_utf8_decode_iff s hs
  | utf16 =>
    constructor
    · intro h
      obtain ⟨-, v, hv, ht⟩ := C03_utf16_decode_wellformed s hs h
      exact ⟨v, hv, by simp only [Spec.enc]; rw [← ht]; exact List.take_prefix _ _⟩
    · rintro ⟨v, hv, t, rfl⟩
      have := C03_utf16_decode_exact v hv t
      rw [encodeUtf16_eq_spec] at this
      simp only [parseCp, Spec.enc]
      rw [this.2]
  | utf32 =>
    cases s with
    | nil => simp [parseCp, parseUtf32, Spec.enc]
    | cons u t =>
      have hu := hs u (by simp)
      simp only [Enc.bound] at hu
      simp only [parseCp, CC.parseUtf32_cons, Spec.Representable, Spec.enc, Spec.IsScalar]
      have : (∃ v, (v ≤ 0x10FFFF ∧ ¬ (0xD800 ≤ v ∧ v ≤ 0xDFFF)) ∧ [v] <+: u :: t) ↔ (u ≤ 0x10FFFF ∧ ¬ (0xD800 ≤ u ∧ u ≤ 0xDFFF)) := by
        constructor
        · rintro ⟨v, hv, h⟩; simp at h; omega
        · intro h; exact ⟨u, h, by simp⟩
      rw [this]
      by_cases h1 : u = 0xFFFFFFFF
      · simp [h1]
      · rw [if_neg h1]
        by_cases h2 : u > 0x10FFFF
        · rw [if_pos h2]; simp; omega
        · rw [if_neg h2]
          by_cases h3 : 0xD800 ≤ u ∧ u ≤ 0xDFFF
          · rw [if_pos h3]; simp; omega
          · rw [if_neg h3]; simp; omega

/-- C03: a successful decode consumes exactly the encoded form. -/
theorem C03_decode_len (e : Enc) (s : List Nat) (hs : Units e.bound s) (v : Nat) (hv : Spec.Representable e v)
    (hp : Spec.enc e v <+: s) : (parseCp e s).len = (Spec.enc e v).length := by
  obtain ⟨t, rfl⟩ := hp
  cases e with
  | ascii =>
    simp only [Spec.Representable] at hv
    simp only [parseCp, Spec.enc, List.cons_append, List.nil_append, CC.parseAscii_cons]
    rw [if_neg (by omega), if_pos (by omega)]; rfl
  | utf8 =>
    simp only [parseCp, Spec.enc]
    rw [specUtf8_parse hv]
    exact fun u hu => hs u (List.mem_append_right _ hu)
  | utf16 =>
    have := C03_utf16_decode_exact v hv t
    rw [encodeUtf16_eq_spec] at this
    simp only [parseCp, Spec.enc]
    rw [this.2]
  | utf32 =>
    obtain ⟨h1, h2⟩ := hv
    simp only [parseCp, Spec.enc, List.cons_append, List.nil_append, CC.parseUtf32_cons]
    rw [if_neg (by omega), if_neg (by omega), if_neg (by omega)]; rfl

/-- U+00E9 in UTF-8, a lone surrogate in UTF-32, a byte above 0x7F in ASCII. -/
example : (parseCp .utf8 [0xC3, 0xA9, 0x21]).error = .success ∧ (parseCp .utf32 [0xD800]).error ≠ .success ∧
    (parseCp .ascii [0x80]).error ≠ .success := by decide +kernel

end Verif
