import Verif.SwarProps

/-!
Property C06: the SWAR fast paths agree with per-character matching.

`Spec.is*` are the ASCII character classes, written as plain ranges.
-/

namespace Verif

/-! ## Specification: the ASCII classes -/

def Spec.isControl (c : Nat) : Bool := c ≤ 0x1F || c == 0x7F
def Spec.isLower (c : Nat) : Bool := 0x61 ≤ c && c ≤ 0x7A
def Spec.isUpper (c : Nat) : Bool := 0x41 ≤ c && c ≤ 0x5A
def Spec.isAlpha (c : Nat) : Bool := Spec.isLower c || Spec.isUpper c
def Spec.isDigit (c : Nat) : Bool := 0x30 ≤ c && c ≤ 0x39
def Spec.isAlnum (c : Nat) : Bool := Spec.isAlpha c || Spec.isDigit c
def Spec.isWord (c : Nat) : Bool := Spec.isAlnum c || c == 0x5F
def Spec.isGraph (c : Nat) : Bool := 0x21 ≤ c && c ≤ 0x7E
def Spec.isPrint (c : Nat) : Bool := 0x20 ≤ c && c ≤ 0x7E
def Spec.isAscii (c : Nat) : Bool := c ≤ 0x7F
/-- Binary, octal and decimal digits. -/
def Spec.isDigitOf (radix : Nat) (c : Nat) : Bool := 0x30 ≤ c && c < 0x30 + radix

namespace Swar

variable {k : Swar}

theorem B_ge (hw : 8 ≤ k.w) : 256 ≤ k.B := by
  have := Nat.pow_le_pow_right (n := 2) (by omega) hw
  simpa [B] using this

/-! ## Lane arguments -/

theorem band_iff {v : Nat} (hB : 256 ≤ k.B) (hv : 32 ≤ v) (hv' : v + 32 ≤ 128) {cs : List Nat} :
    ((∀ x ∈ k.subC 1 0 cs, v ≤ x ∧ x < v + 32) ∧ (∀ x ∈ k.addC 5 0 cs, v ≤ x ∧ x < v + 32))
      ↔ ∀ c ∈ cs, v + 1 ≤ c ∧ c < v + 27 := by
  induction cs with
  | nil => simp [subC, addC]
  | cons c cs ih =>
    simp only [subC, addC, List.mem_cons, forall_eq_or_imp, Nat.add_zero]
    by_cases h1 : c < 1
    · simp only [h1, if_true]
      constructor
      · rintro ⟨⟨h, -⟩, -⟩; omega
      · rintro ⟨h, -⟩; omega
    · simp only [h1, if_false]
      by_cases h2 : c + 5 < k.B
      · simp only [h2, if_true, ← ih]
        constructor
        · rintro ⟨⟨a, b⟩, c', d⟩
          exact ⟨by omega, b, d⟩
        · rintro ⟨a, b, d⟩
          exact ⟨⟨by omega, b⟩, by omega, d⟩
      · constructor
        · rintro ⟨⟨h, -⟩, -⟩; omega
        · rintro ⟨h, -⟩; omega

theorem digit_iff {o : Nat} (hB : 256 ≤ k.B) (ho : o ≤ 16) {cs : List Nat} :
    ((∀ x ∈ cs, 0x30 ≤ x ∧ x < 0x40) ∧ (∀ x ∈ k.addC o 0 cs, 0x30 ≤ x ∧ x < 0x40))
      ↔ ∀ c ∈ cs, 0x30 ≤ c ∧ c < 0x40 - o := by
  induction cs with
  | nil => simp [addC]
  | cons c cs ih =>
    simp only [addC, List.mem_cons, forall_eq_or_imp, Nat.add_zero]
    by_cases h2 : c + o < k.B
    · simp only [h2, if_true, ← ih]
      constructor
      · rintro ⟨⟨a, b⟩, c', d⟩; exact ⟨by omega, b, d⟩
      · rintro ⟨a, b, d⟩; exact ⟨⟨by omega, b⟩, by omega, d⟩
    · constructor
      · rintro ⟨⟨h, -⟩, -⟩; omega
      · rintro ⟨h, -⟩; omega

theorem succ_iff {cs : List Nat} (h : ∀ c ∈ cs, c + 1 < k.B) :
    k.addC 1 0 cs = cs.map (· + 1) := by
  induction cs with
  | nil => rfl
  | cons c cs ih =>
    have hc := h c (by simp)
    simp only [addC, Nat.add_zero, hc, if_true, List.map_cons]
    rw [ih (fun x hx => h x (by simp [hx]))]

theorem pred_iff {cs : List Nat} (h : ∀ c ∈ cs, 1 ≤ c) :
    k.subC 1 0 cs = cs.map (· - 1) := by
  induction cs with
  | nil => rfl
  | cons c cs ih =>
    have hc : ¬ c < 1 := by have := h c (by simp); omega
    simp only [subC, Nat.add_zero, hc, if_false, List.map_cons]
    rw [ih (fun x hx => h x (by simp [hx]))]

theorem masked_eq {j v : Nat} (hj : j ≤ k.w) (hv : v < k.B) (hv' : v % 2 ^ j = 0) {cs : List Nat}
    (hf : k.Fits cs) (hl : cs.length = k.n) :
    k.lanes cs &&& k.fillCompl (2 ^ j - 1) = k.fill v ↔ ∀ c ∈ cs, v ≤ c ∧ c < v + 2 ^ j := by
  rw [and_fillCompl hf hl, eq_fill hv (fits_and hf) (by simp [hl])]
  simp only [List.mem_map, forall_exists_index, and_imp, forall_apply_eq_imp_iff₂]
  constructor
  · intro h c hc; exact (and_mask_eq hj (hf c hc) hv').1 (h c hc)
  · intro h c hc; exact (and_mask_eq hj (hf c hc) hv').2 (h c hc)

theorem masked_zero {j : Nat} (hw : 1 ≤ k.w) (hj : j ≤ k.w) {cs : List Nat}
    (hf : k.Fits cs) (hl : cs.length = k.n) :
    k.hasZero (k.lanes cs &&& k.fillCompl (2 ^ j - 1)) = true ↔ ∃ c ∈ cs, c < 2 ^ j := by
  rw [and_fillCompl hf hl, C07_has_zero_exact k hw _ ⟨by simp [hl], fits_and hf⟩, List.mem_map]
  constructor
  · rintro ⟨c, hc, h⟩
    exact ⟨c, hc, by have := (and_mask_eq hj (hf c hc) (Nat.zero_mod _)).1 h; omega⟩
  · rintro ⟨c, hc, h⟩
    exact ⟨c, hc, (and_mask_eq hj (hf c hc) (Nat.zero_mod _)).2 ⟨by omega, by omega⟩⟩

/-! ## C06: one word -/

/-- C06: `ascii::lower` accepts a word exactly if all its characters are lower case letters. -/
theorem C06_lower_exact (k : Swar) (hw : 8 ≤ k.w) (cs : List Nat) (h : Word k cs) :
    k.lower (k.lanes cs) = true ↔ ∀ c ∈ cs, Spec.isLower c := by
  have hB := B_ge hw
  have hf : k.Fits cs := h.2
  unfold lower
  simp only [Bool.and_eq_true, beq_iff_eq]
  rw [sub_fill (by omega) hf h.1, add_fill (by omega) hf h.1,
    masked_eq (j := 5) (by omega) (by omega) (by decide) (fits_subC hf) (by simp [h.1]),
    masked_eq (j := 5) (by omega) (by omega) (by decide) (fits_addC (by omega) (by omega) hf)
      (by simp [h.1]),
    band_iff hB (by omega) (by omega)]
  simp only [Spec.isLower, Bool.and_eq_true, decide_eq_true_eq]
  constructor
  · intro h c hc; have := h c hc; omega
  · intro h c hc; have := h c hc; omega

/-- C06: `ascii::upper`, likewise. -/
theorem C06_upper_exact (k : Swar) (hw : 8 ≤ k.w) (cs : List Nat) (h : Word k cs) :
    k.upper (k.lanes cs) = true ↔ ∀ c ∈ cs, Spec.isUpper c := by
  have hB := B_ge hw
  have hf : k.Fits cs := h.2
  unfold upper
  simp only [Bool.and_eq_true, beq_iff_eq]
  rw [sub_fill (by omega) hf h.1, add_fill (by omega) hf h.1,
    masked_eq (j := 5) (by omega) (by omega) (by decide) (fits_subC hf) (by simp [h.1]),
    masked_eq (j := 5) (by omega) (by omega) (by decide) (fits_addC (by omega) (by omega) hf)
      (by simp [h.1]),
    band_iff hB (by omega) (by omega)]
  simp only [Spec.isUpper, Bool.and_eq_true, decide_eq_true_eq]
  constructor
  · intro h c hc; have := h c hc; omega
  · intro h c hc; have := h c hc; omega

/-- C06: the digit bases 2, 8 and 10 (offsets 0x0E, 0x08, 0x06) and `ascii::digit`. -/
theorem C06_digits_exact (k : Swar) (hw : 8 ≤ k.w) (radix : Nat)
    (hr : 2 ≤ radix ∧ radix ≤ 10) (cs : List Nat) (h : Word k cs) :
    k.digits (16 - radix) (k.lanes cs) = true ↔ ∀ c ∈ cs, Spec.isDigitOf radix c := by
  have hB := B_ge hw
  have hf : k.Fits cs := h.2
  unfold digits
  simp only [Bool.and_eq_true, beq_iff_eq]
  rw [add_fill (by omega) hf h.1,
    masked_eq (j := 4) (by omega) (by omega) (by decide) hf (by simp [h.1]),
    masked_eq (j := 4) (by omega) (by omega) (by decide) (fits_addC (by omega) (by omega) hf)
      (by simp [h.1]),
    digit_iff hB (by omega)]
  simp only [Spec.isDigitOf, Bool.and_eq_true, decide_eq_true_eq]
  constructor
  · intro h c hc; have := h c hc; omega
  · intro h c hc; have := h c hc; omega

theorem C06_digit_exact (k : Swar) (hw : 8 ≤ k.w) (cs : List Nat) (h : Word k cs) :
    k.digit (k.lanes cs) = true ↔ ∀ c ∈ cs, Spec.isDigit c := by
  have := C06_digits_exact k hw 10 (by omega) cs h
  unfold digit
  unfold digits at this
  rw [this]
  simp only [Spec.isDigitOf, Spec.isDigit, Bool.and_eq_true, decide_eq_true_eq]
  constructor
  · intro h c hc; have := h c hc; omega
  · intro h c hc; have := h c hc; omega

/-- C06: `ascii::character`. -/
theorem C06_character_exact (k : Swar) (hw : 8 ≤ k.w) (cs : List Nat) (h : Word k cs) :
    k.character (k.lanes cs) = true ↔ ∀ c ∈ cs, Spec.isAscii c := by
  have hB := B_ge hw
  have hf : k.Fits cs := h.2
  unfold character
  simp only [beq_iff_eq]
  rw [masked_eq (j := 7) (by omega) (by omega) (by decide) hf h.1]
  simp only [Spec.isAscii, decide_eq_true_eq]
  constructor
  · intro h c hc; have := h c hc; omega
  · intro h c hc; have := h c hc; omega

/-- C06: `ascii::control` accepts only control characters (it does not detect 0x7F). -/
theorem C06_control_sound (k : Swar) (hw : 8 ≤ k.w) (cs : List Nat) (h : Word k cs) :
    k.control (k.lanes cs) = true ↔ ∀ c ∈ cs, Spec.isControl c ∧ c ≠ 0x7F := by
  have hB := B_ge hw
  have hf : k.Fits cs := h.2
  unfold control
  simp only [beq_iff_eq]
  rw [masked_eq (j := 5) (by omega) (by omega) (by decide) hf h.1]
  simp only [Spec.isControl, Bool.or_eq_true, decide_eq_true_eq, beq_iff_eq]
  constructor
  · intro h c hc; have := h c hc; omega
  · intro h c hc; have := h c hc; omega

/-- C06: `alpha`, `alpha_underscore`, `alnum` and `word` (they detect lower case letters only). -/
theorem C06_alpha_sound (k : Swar) (hw : 8 ≤ k.w) (cs : List Nat) (h : Word k cs) :
    (k.alpha (k.lanes cs) = true → ∀ c ∈ cs, Spec.isAlpha c) ∧
    (k.alphau (k.lanes cs) = true → ∀ c ∈ cs, Spec.isAlpha c || c == 0x5F) ∧
    (k.alnum (k.lanes cs) = true → ∀ c ∈ cs, Spec.isAlnum c) ∧
    (k.word (k.lanes cs) = true → ∀ c ∈ cs, Spec.isWord c) := by
  unfold word alphau alnum alpha
  simp only [C06_lower_exact k hw cs h]
  refine ⟨?_, ?_, ?_, ?_⟩ <;> intro h c hc <;>
    simp [Spec.isWord, Spec.isAlnum, Spec.isAlpha, h c hc]

theorem print_core (hw : 8 ≤ k.w) {cs : List Nat} (hf : k.Fits cs) (hl : cs.length = k.n)
    (hs : ∀ c ∈ cs, c + 1 < k.B) :
    (k.add (k.lanes cs) (k.fill 1) &&& k.fillCompl 0b1111111) = k.fill 0 ↔ ∀ c ∈ cs, c < 127 := by
  have hB := B_ge hw
  rw [add_fill (by omega) hf hl,
    masked_eq (j := 7) (by omega) (by omega) (by decide) (fits_addC (by omega) (by omega) hf)
      (by simp [hl]), succ_iff hs]
  simp only [List.mem_map, forall_exists_index, and_imp, forall_apply_eq_imp_iff₂]
  constructor
  · intro h c hc; have := h c hc; omega
  · intro h c hc; have := h c hc; omega

/-- The words for which `print` and `graph` are right: one-byte characters, or no character equal to
    the largest value of the character type. -/
def Spec.NoTop (k : Swar) (cs : List Nat) : Prop := k.w = 8 ∨ ∀ c ∈ cs, c + 1 < 2 ^ k.w

theorem ascii7_iff (hw : 8 ≤ k.w) {cs : List Nat} (hf : k.Fits cs) (hl : cs.length = k.n)
    (hs : Spec.NoTop k cs) :
    ((k.add (k.lanes cs) (k.fill 1) &&& k.fillCompl 0b1111111) = k.fill 0 ∧
      (k.w = 8 → (k.lanes cs &&& k.fillCompl 0b1111111) = k.fill 0)) ↔ ∀ c ∈ cs, c < 127 := by
  have hB := B_ge hw
  rw [masked_eq (j := 7) (by omega) (by omega) (by decide) hf hl]
  rcases hs with hs | hs
  · simp only [hs, true_imp_iff]
    constructor
    · rintro ⟨h1, h2⟩
      exact (print_core hw hf hl (fun c hc => by have := h2 c hc; omega)).1 h1
    · intro h
      refine ⟨(print_core hw hf hl (fun c hc => by have := h c hc; omega)).2 h, ?_⟩
      intro c hc; have := h c hc; omega
  · rw [print_core hw hf hl hs]
    constructor
    · intro h; exact h.1
    · intro h; exact ⟨h, fun _ c hc => by have := h c hc; omega⟩

theorem print_unfold (v : Nat) : k.print v = true ↔
    ((k.add v (k.fill 1) &&& k.fillCompl 0b1111111) = k.fill 0 ∧
      (k.w = 8 → (v &&& k.fillCompl 0b1111111) = k.fill 0)) ∧
    ¬ k.hasZero (v &&& k.fillCompl 0b11111) = true := by
  unfold print
  by_cases h1 : (k.add v (k.fill 1) &&& k.fillCompl 0b1111111) = k.fill 0
  · by_cases h2 : k.w = 8
    · by_cases h3 : (v &&& k.fillCompl 0b1111111) = k.fill 0
      · simp [h1, h2, h3]
      · simp [h1, h2, h3]
    · simp [h1, h2]
  · simp [h1]

theorem graph_unfold (v : Nat) : k.graph v = true ↔
    ((k.add v (k.fill 1) &&& k.fillCompl 0b1111111) = k.fill 0 ∧
      (k.w = 8 → (v &&& k.fillCompl 0b1111111) = k.fill 0)) ∧
    ¬ k.hasZero (v &&& k.fillCompl 0b11111) = true ∧
    ¬ k.hasZero (k.sub v (k.fill 1) &&& k.fillCompl 0b11111) = true := by
  unfold graph
  by_cases h1 : (k.add v (k.fill 1) &&& k.fillCompl 0b1111111) = k.fill 0
  · by_cases h2 : k.w = 8
    · by_cases h3 : (v &&& k.fillCompl 0b1111111) = k.fill 0
      · simp [h1, h2, h3]
      · simp [h1, h2, h3]
    · simp [h1, h2]
  · simp [h1]

/-- C06 (partial): `ascii::print` is exact for one-byte characters, and for wider ones on words that
    do not contain the largest character value.  Missing: the latter restriction, see
    `C06_print_refuted`. -/
theorem C06_print_exact_partial (k : Swar) (hw : 8 ≤ k.w) (cs : List Nat) (h : Word k cs)
    (hs : Spec.NoTop k cs) :
    k.print (k.lanes cs) = true ↔ ∀ c ∈ cs, Spec.isPrint c := by
  have hf : k.Fits cs := h.2
  rw [print_unfold, ascii7_iff hw hf h.1 hs, masked_zero (j := 5) (by omega) (by omega) hf h.1]
  simp only [Spec.isPrint, Bool.and_eq_true, decide_eq_true_eq]
  constructor
  · rintro ⟨h1, h2⟩ c hc
    have := h1 c hc
    have : ¬ c < 2 ^ 5 := fun hh => h2 ⟨c, hc, hh⟩
    omega
  · intro h
    refine ⟨fun c hc => by have := h c hc; omega, ?_⟩
    rintro ⟨c, hc, hh⟩
    have := h c hc; omega

/-- C06 (partial): `ascii::graph`, with the same restriction. -/
theorem C06_graph_exact_partial (k : Swar) (hw : 8 ≤ k.w) (cs : List Nat) (h : Word k cs)
    (hs : Spec.NoTop k cs) :
    k.graph (k.lanes cs) = true ↔ ∀ c ∈ cs, Spec.isGraph c := by
  have hf : k.Fits cs := h.2
  have hB := B_ge hw
  rw [graph_unfold, ascii7_iff hw hf h.1 hs, masked_zero (j := 5) (by omega) (by omega) hf h.1,
    sub_fill (by omega) hf h.1,
    masked_zero (j := 5) (by omega) (by omega) (fits_subC hf) (by simp [h.1])]
  simp only [Spec.isGraph, Bool.and_eq_true, decide_eq_true_eq]
  constructor
  · rintro ⟨h1, h2, h3⟩ c hc
    have hge : ∀ c ∈ cs, ¬ c < 2 ^ 5 := fun c hc hh => h2 ⟨c, hc, hh⟩
    have hpr : k.subC 1 0 cs = cs.map (· - 1) :=
      pred_iff (fun c hc => by have := hge c hc; omega)
    rw [hpr] at h3
    have := h1 c hc
    have : ¬ c - 1 < 2 ^ 5 := fun hh => h3 ⟨c - 1, List.mem_map_of_mem (f := (· - 1)) hc, hh⟩
    omega
  · intro h
    have hpr : k.subC 1 0 cs = cs.map (· - 1) :=
      pred_iff (fun c hc => by have := h c hc; omega)
    rw [hpr]
    refine ⟨fun c hc => by have := h c hc; omega, ?_, ?_⟩
    · rintro ⟨c, hc, hh⟩
      have := h c hc; omega
    · rintro ⟨x, hx, hh⟩
      obtain ⟨c, hc, rfl⟩ := List.mem_map.1 hx
      have := h c hc
      omega

/-- C06 is false for `print` and `graph` on UTF-32: the character 0xFFFFFFFF overflows to 0 in the
    check `(c + 1) & ~0x7F == 0`, and the extra check for that is only compiled for one-byte
    characters (ascii.hpp l.387-392, 432-437).  0xFFFFFFFF is the EOF sentinel of UTF-32 buffers. -/
theorem C06_print_refuted :
    char32.print (char32.lanes [0xFFFFFFFF, 0xFFFFFFFF]) = true ∧
    char32.graph (char32.lanes [0xFFFFFFFF, 0xFFFFFFFF]) = true ∧
    char32.print (char32.lanes [0xFFFFFFFF, 0x41]) = true ∧
    Spec.isPrint 0xFFFFFFFF = false := by decide +kernel

/-! ## C06: the loops -/

/-- C06: the SWAR loop followed by the per-character loop consumes exactly the maximal run of class
    characters and never reads outside of the padded buffer, provided the fast path is sound for the
    class, and the EOF sentinel is not in the class. -/
theorem C06_skip_exact (k : Swar) (hn : 0 < k.n) (p : Nat → Bool) (cls : Nat → Bool)
    (sound : ∀ cs, Word k cs → p (k.lanes cs) = true → ∀ c ∈ cs, cls c = true)
    (eof m : Nat) (hm : k.n ≤ m) (heof : cls eof = false) (heofB : eof < 2 ^ k.w)
    (content : List Nat) (hc : ∀ c ∈ content, c < 2 ^ k.w) :
    ∃ j, j ≤ content.length ∧
      k.skipWhile p (content ++ List.replicate m eof)
        = some (content.drop j ++ List.replicate m eof) ∧
      (∀ c ∈ content.take j, cls c = true) ∧
      (content.drop j ++ List.replicate m eof).dropWhile cls
        = content.dropWhile cls ++ List.replicate m eof := by
  have pad : (List.replicate m eof).dropWhile cls = List.replicate m eof := by
    cases m with
    | zero => rfl
    | succ m => simp [List.replicate_succ, heof]
  have dw : ∀ content : List Nat, (content ++ List.replicate m eof).dropWhile cls
      = content.dropWhile cls ++ List.replicate m eof := by
    intro content
    induction content with
    | nil => simpa using pad
    | cons c cs ih =>
      simp only [List.cons_append, List.dropWhile_cons]
      split
      · exact ih
      · rfl
  generalize hN : content.length = N
  induction N using Nat.strongRecOn generalizing content with
  | _ N ih =>
    subst hN
    rw [skipWhile]
    have hlen : ¬ ((content ++ List.replicate m eof).length < k.n ∨ k.n = 0) := by simp; omega
    rw [dif_neg hlen]
    have hword : Word k ((content ++ List.replicate m eof).take k.n) := by
      refine ⟨by simp; omega, ?_⟩
      intro c hc'
      rcases List.mem_append.1 (List.mem_of_mem_take hc') with h | h
      · exact hc c h
      · rw [List.eq_of_mem_replicate h]; exact heofB
    split
    · rename_i hp
      have hall := sound _ hword hp
      have hge : k.n ≤ content.length := by
        rcases Nat.lt_or_ge content.length k.n with h | h
        · exfalso
          have : eof ∈ (content ++ List.replicate m eof).take k.n := by
            rw [List.mem_take_iff_getElem]
            exact ⟨content.length, by simp; omega, by simp⟩
          have := hall eof this
          rw [heof] at this; exact absurd this (by simp)
        · exact h
      rw [List.drop_append_of_le_length hge]
      obtain ⟨j, h1, h2, h3, h4⟩ := ih (content.drop k.n).length (by simp; omega)
        (content.drop k.n) (fun c hc' => hc c (List.mem_of_mem_drop hc')) rfl
      rw [List.length_drop] at h1
      have htake : ∀ c ∈ content.take k.n, cls c = true := by
        intro c hc'
        apply hall
        rw [List.take_append_of_le_length hge]
        exact hc'
      have hdw : content.dropWhile cls = (content.drop k.n).dropWhile cls := by
        conv => lhs; rw [← List.take_append_drop k.n content]
        rw [List.dropWhile_append_of_pos htake]
      refine ⟨k.n + j, by omega, ?_, ?_, ?_⟩
      · rw [h2, List.drop_drop]
      · intro c hc'
        rw [List.take_add, List.mem_append] at hc'
        rcases hc' with h | h
        · exact htake c h
        · exact h3 c h
      · rw [← List.drop_drop, h4, hdw]
    · exact ⟨0, by omega, by simp, by simp, by simpa using dw content⟩

/-- C06, the consequence of `C06_print_refuted`: the fast path over a UTF-32 buffer does not stop at
    the EOF sentinels but runs out of the allocation, however much padding there is
    (`dsl::identifier(..., dsl::ascii::print)`, identifier.hpp l.54-60). -/
theorem C06_print_overrun_refuted (m : Nat) :
    char32.skipWhile char32.print (List.replicate m 0xFFFFFFFF) = none := by
  induction m using Nat.strongRecOn with
  | _ m ih =>
    rw [skipWhile]
    split
    · rfl
    · rename_i h
      have h2 : 2 ≤ m := by simp [char32] at h; omega
      have ht : (List.replicate m 0xFFFFFFFF).take char32.n = [0xFFFFFFFF, 0xFFFFFFFF] := by
        rw [List.take_replicate, show min char32.n m = 2 by simp [char32]; omega]; rfl
      rw [ht, if_pos (by decide +kernel), List.drop_replicate]
      exact ih _ (by simp [char32]; omega)

/-- Non-vacuity: the hypotheses of the loop theorem are met by the decimal digits on a byte buffer. -/
example : ∃ j, char8.skipWhile (char8.digits 6)
    ([0x31,0x32,0x33,0x34,0x35,0x36,0x37,0x38,0x39,0x2E] ++ List.replicate 8 0xFF)
      = some (([0x31,0x32,0x33,0x34,0x35,0x36,0x37,0x38,0x39,0x2E] : List Nat).drop j
          ++ List.replicate 8 0xFF) := by
  obtain ⟨j, _, h, _⟩ := C06_skip_exact char8 (by decide) (char8.digits 6) (Spec.isDigitOf 10)
    (fun cs h hp => (C06_digits_exact char8 (by decide) 10 (by omega) cs h).1 hp)
    0xFF 8 (by decide) (by decide) (by decide)
    [0x31,0x32,0x33,0x34,0x35,0x36,0x37,0x38,0x39,0x2E]
    (by intro c hc; simp [char8] at *; omega)
  exact ⟨j, h⟩

example : Word char8 [0x61,0x7A,0x62,0x63,0x64,0x65,0x66,0x67] ∧
    char8.lower (char8.lanes [0x61,0x7A,0x62,0x63,0x64,0x65,0x66,0x67]) = true ∧
    char8.lower (char8.lanes [0x61,0x7B,0x62,0x63,0x64,0x65,0x66,0x67]) = false ∧
    char8.print (char8.lanes [0x61,0x20,0x62,0x63,0x64,0x65,0x66,0x7E]) = true ∧
    char8.print (char8.lanes [0xFF,0x20,0x62,0x63,0x64,0x65,0x66,0x7E]) = false ∧
    Spec.NoTop char32 [0x41, 0x42] := by
  refine ⟨⟨rfl, ?_⟩, by decide +kernel, by decide +kernel, by decide +kernel, by decide +kernel,
    .inr ?_⟩
  · intro c hc; simp [char8] at *; omega
  · intro c hc; simp [char32] at *; omega

end Swar
end Verif
