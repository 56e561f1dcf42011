import Verif.CaseFoldProps

/-
C63: Unicode case folding of literals, literal sets and strings: the statements.

The specification uses `Spec.utf8`/`Spec.utf16` (the encoding forms of Unicode, `CodePointProps.lean`) and the
case folding function `cf` on code points, of which only is assumed that it maps scalar values to scalar values
(and in UTF-16 stays in the plane); the function of the library does (C70).
-/

namespace Verif

theorem flatMap_congr' {α β : Type} {f g : α → List β} (l : List α) (h : ∀ a ∈ l, f a = g a) :
    l.flatMap f = l.flatMap g := by
  induction l with
  | nil => rfl
  | cons a l ih =>
    simp only [List.flatMap_cons]
    rw [h a (by simp), ih fun b hb => h b (by simp [hb])]

theorem flatMap_utf8 (ws : List Nat) (h : ∀ w ∈ ws, Spec.IsScalar w) :
    ws.flatMap (encodeCp .utf8) = ws.flatMap Spec.utf8 :=
  flatMap_congr' ws fun w hw => encodeUtf8_eq_spec (h w hw).1

theorem flatMap_utf16 (ws : List Nat) : ws.flatMap (encodeCp .utf16) = ws.flatMap Spec.utf16 :=
  flatMap_congr' ws fun w _ => encodeUtf16_eq_spec w

/-- C63, literals: with `unicode::simple_case_folding`, the literal consisting of the code points `ws` matches
    the first `m` units of the UTF-8 text `s` exactly if these are the encoding of code points whose case
    foldings are `ws`.  There is no undefined behaviour, however malformed `s` is. -/
theorem C63_literal (cf : Nat → Nat) (hcf : ∀ v, Spec.IsScalar v → Spec.IsScalar (cf v)) (ws : List Nat)
    (hws : ∀ w ∈ ws, Spec.IsScalar w) (s : List Nat) (hs : Units 256 s) :
    ∃ ok n, cflTry .utf8 cf s (ws.flatMap Spec.utf8) = some (ok, n) ∧
      ∀ m, (ok = true ∧ n = m) ↔
        ∃ vs : List Nat, (∀ v ∈ vs, Spec.IsScalar v) ∧ vs.map cf = ws ∧ vs.flatMap Spec.utf8 <+: s
          ∧ m = (vs.flatMap Spec.utf8).length := by
  have hd := decOk_utf8 hs
  obtain ⟨r, h1, -⟩ := fill_ok (cf := cf) hd (Nat.zero_le _)
  obtain ⟨ok, r', h2, h3⟩ := match_fold (.inl rfl) hd hcf ws hws 0 r (Nat.zero_le _) h1
  rw [flatMap_utf8 ws hws] at h2
  refine ⟨ok, r'.cur, by simp [cflTry, h1, h2], fun m => (h3 m).trans ?_⟩
  constructor
  · rintro ⟨vs, a, b, c, d⟩
    rw [flatMap_utf8 vs a] at c d
    exact ⟨vs, a, b, by simpa using c, by simpa using d⟩
  · rintro ⟨vs, a, b, c, d⟩
    rw [← flatMap_utf8 vs a] at c d
    exact ⟨vs, a, b, by simpa using c, by simpa using d⟩

/-- C63, literals, in UTF-16.  Partial: the text must not contain high surrogates of planes with even number
    (2, 4, … 16), because these are decoded wrongly (C03). -/
theorem C63_literal_utf16_partial (cf : Nat → Nat) (hcf : ∀ v, Spec.Faithful .utf16 v → Spec.Faithful .utf16 (cf v))
    (ws : List Nat) (hws : ∀ w ∈ ws, Spec.Faithful .utf16 w) (s : List Nat) (hs : Units 65536 s)
    (hp : Spec.OddPlanes s) :
    ∃ ok n, cflTry .utf16 cf s (ws.flatMap Spec.utf16) = some (ok, n) ∧
      ∀ m, (ok = true ∧ n = m) ↔
        ∃ vs : List Nat, (∀ v ∈ vs, Spec.Faithful .utf16 v) ∧ vs.map cf = ws ∧ vs.flatMap Spec.utf16 <+: s
          ∧ m = (vs.flatMap Spec.utf16).length := by
  have hd := decOk_utf16 hs hp
  obtain ⟨r, h1, -⟩ := fill_ok (cf := cf) hd (Nat.zero_le _)
  obtain ⟨ok, r', h2, h3⟩ := match_fold (.inr rfl) hd hcf ws hws 0 r (Nat.zero_le _) h1
  rw [flatMap_utf16 ws] at h2
  refine ⟨ok, r'.cur, by simp [cflTry, h1, h2], fun m => (h3 m).trans ?_⟩
  constructor
  · rintro ⟨vs, a, b, c, d⟩
    rw [flatMap_utf16 vs] at c d
    exact ⟨vs, a, b, by simpa using c, by simpa using d⟩
  · rintro ⟨vs, a, b, c, d⟩
    rw [← flatMap_utf16 vs] at c d
    exact ⟨vs, a, b, by simpa using c, by simpa using d⟩

/-! ### Strings -/

section
variable {e : Enc} {cf : Nat → Nat} {s : List Nat}

theorem readAll_ok (h : DecOk e s) (n : Nat) : ∀ {r : FoldRd Nat}, FOk e cf s r → (r.left e cf s).length ≤ n →
    (foldOps e cf (baseOps e.eofUnit s)).readAll n r = some (r.left e cf s) := by
  induction n with
  | zero =>
    intro r hr hl
    have : r.left e cf s = [] := by simpa using hl
    simp [RdOps.readAll, fpeek hr, this]
  | succ n ih =>
    intro r hr hl
    simp only [RdOps.readAll, fpeek hr]
    cases hl' : r.left e cf s with
    | nil => simp
    | cons u us =>
      obtain ⟨r', h1, h2, h3⟩ := fbump h hr hl'
      simp only [List.head?_cons, h1]
      rw [hl'] at hl
      rw [ih h2 (by rw [h3]; simpa using hl), h3]; rfl

theorem foldStream_encoded (vs : List Nat) (hvs : ∀ v ∈ vs, Spec.Faithful e v) :
    foldStream e cf (vs.flatMap (encodeCp e)) = (vs.map cf).flatMap (encodeCp e) := by
  induction vs with
  | nil => rw [foldStream_eq]; simp
  | cons v vs ih =>
    have hu : Units e.bound (vs.flatMap (encodeCp e)) := by
      intro u hu
      obtain ⟨w, hw, h⟩ := List.mem_flatMap.1 hu
      exact encodeCp_units e w (hvs w (by simp [hw])) u h
    have hp := parseCp_encodeCp e v (hvs v (by simp)) _ hu
    have hpos : 0 < (encodeCp e v).length := List.length_pos_iff.2 (encodeCp_ne_nil e v)
    rw [foldStream_eq]
    simp only [List.flatMap_cons, List.map_cons, piece, hp]
    rw [if_pos ⟨hpos, by simp [encodeCp_ne_nil]⟩]
    simp [ih fun w hw => hvs w (by simp [hw])]

theorem flatMap_len_ge (vs : List Nat) : vs.length ≤ (vs.flatMap (encodeCp e)).length := by
  induction vs with
  | nil => simp
  | cons v vs ih =>
    have hpos : 0 < (encodeCp e v).length := List.length_pos_iff.2 (encodeCp_ne_nil e v)
    simp at ih ⊢; omega

theorem flatMap_len_le (vs : List Nat) : (vs.flatMap (encodeCp e)).length ≤ 4 * vs.length := by
  induction vs with
  | nil => simp
  | cons v vs ih =>
    have := encodeCp_length e v
    simp at ih ⊢; omega

theorem strFold_ok (vs : List Nat) (hvs : ∀ v ∈ vs, Spec.Faithful e v) (h : DecOk e (vs.flatMap (encodeCp e))) :
    strFold e cf (vs.flatMap (encodeCp e)) = some ((vs.map cf).flatMap (encodeCp e)) := by
  obtain ⟨r, h1, h2, -, -, -, h4⟩ := fill_ok (cf := cf) h (Nat.zero_le _)
  have hl : r.left e cf (vs.flatMap (encodeCp e)) = (vs.map cf).flatMap (encodeCp e) := by
    rw [h4, List.drop_zero, foldStream_encoded vs hvs]
  unfold strFold
  rw [h1]
  show (foldOps e cf _).readAll _ r = _
  rw [readAll_ok h _ h2, hl]
  rw [hl]
  have a := flatMap_len_le (e := e) (vs.map cf)
  have b := flatMap_len_ge (e := e) vs
  simp only [List.length_map] at a
  omega

end

/-- C63, strings: `as_string` with case folding turns the UTF-8 encoding of code points into the encoding of
    their case foldings, also if these need another number of units. -/
theorem C63_string_partial (cf : Nat → Nat) (hcf : ∀ v, Spec.IsScalar v → Spec.IsScalar (cf v)) (vs : List Nat)
    (hvs : ∀ v ∈ vs, Spec.IsScalar v) :
    strFold .utf8 cf (vs.flatMap Spec.utf8) = some ((vs.map cf).flatMap Spec.utf8) := by
  have hu : Units 256 (vs.flatMap Spec.utf8) := by
    intro u hu
    obtain ⟨w, hw, h⟩ := List.mem_flatMap.1 hu
    exact Units.specUtf8 (hvs w hw).1 u h
  rw [← flatMap_utf8 vs hvs] at hu ⊢
  rw [strFold_ok (e := .utf8) vs hvs (decOk_utf8 hu), flatMap_utf8]
  intro w hw
  obtain ⟨v, hv, rfl⟩ := List.mem_map.1 hw
  exact hcf v (hvs v hv)

/-- The same in UTF-16, for the planes that are decoded correctly. -/
theorem C63_string_utf16_partial (cf : Nat → Nat) (vs : List Nat) (hvs : ∀ v ∈ vs, Spec.Faithful .utf16 v) :
    strFold .utf16 cf (vs.flatMap Spec.utf16) = some ((vs.map cf).flatMap Spec.utf16) := by
  rw [← flatMap_utf16 vs, ← flatMap_utf16 (vs.map cf)]
  apply strFold_ok (e := .utf16) vs hvs
  apply decOk_utf16
  · intro u hu
    obtain ⟨w, hw, h⟩ := List.mem_flatMap.1 hu
    exact encodeCp_units .utf16 w (hvs w hw) u h
  · intro u hu h1 h2
    obtain ⟨w, hw, h⟩ := List.mem_flatMap.1 hu
    have hf := hvs w hw
    simp only [Spec.Faithful, Spec.IsScalar] at hf
    simp only [encodeCp, encodeUtf16_eq_spec, Spec.utf16] at h
    split at h
    · simp at h; omega
    · simp at h; omega

/-- C63, strings whose encoding has one unit per character (ASCII case folding in any encoding, UTF-32): every
    unit is folded, if none is folded to the value of EOF. -/
theorem C63_string_inplace_partial (eof : Option Nat) (fold : Nat → Nat) (s : List Nat)
    (h : ∀ u ∈ s, eof ≠ some (fold u)) : strFoldInplace eof fold s = s.map fold := by
  induction s with
  | nil => rfl
  | cons u s ih =>
    simp only [strFoldInplace, List.map_cons]
    rw [if_neg (h u (by simp)), ih fun v hv => h v (by simp [hv])]

/-! ### Examples and refutations -/

/-- Some foldings of Unicode: `A`-`Z`, U+212A KELVIN SIGN → `k`, `Ä` → `ä`, U+10400 → U+10428. -/
def Ex.cf (v : Nat) : Nat :=
  if 0x41 ≤ v ∧ v ≤ 0x5A then v + 32 else if v = 0x212A then 0x6B else if v = 0xC4 then 0xE4
  else if v = 0x10400 then 0x10428 else v

theorem Ex.cf_scalar (v : Nat) (h : Spec.IsScalar v) : Spec.IsScalar (Ex.cf v) := by
  unfold Ex.cf Spec.IsScalar at *; (repeat' split) <;> omega

theorem Ex.cf_faithful (v : Nat) (h : Spec.Faithful .utf16 v) : Spec.Faithful .utf16 (Ex.cf v) := by
  simp only [Spec.Faithful, Spec.IsScalar] at *; unfold Ex.cf; (repeat' split) <;> omega

-- The literal "käk" matches the text consisting of K (KELVIN SIGN), Ä, k and something malformed: 6 units.
example : cflTry .utf8 Ex.cf [0xE2, 0x84, 0xAA, 0xC3, 0x84, 0x6B, 0x80, 0xFF] ([0x6B, 0xE4, 0x6B].flatMap Spec.utf8)
    = some (true, 6) := by decide +kernel
example : cflTry .utf8 Ex.cf [0xE2, 0x84, 0xAA, 0xC3, 0x85] ([0x6B, 0xE4].flatMap Spec.utf8)
    = some (false, 3) := by decide +kernel
-- A literal that contains an upper case letter never matches.
example : cflTry .utf8 Ex.cf [0x41] ([0x41].flatMap Spec.utf8) = some (false, 0) := by decide +kernel
example : cflTry .utf16 Ex.cf [0x4B, 0xD801, 0xDC00, 0x20] ([0x6B, 0x10428].flatMap Spec.utf16) = some (true, 3)
    ∧ Spec.OddPlanes [0x4B, 0xD801, 0xDC00, 0x20] ∧ ∀ w ∈ [0x6B, 0x10428], Spec.Faithful .utf16 w := by
  refine ⟨by decide +kernel, ?_, ?_⟩
  · intro u hu; simp at hu; omega
  · intro u hu; simp at hu; simp [Spec.Faithful, Spec.IsScalar]; omega
-- K (KELVIN SIGN) Ä K becomes käk: seven units become four.
example : strFold .utf8 Ex.cf ([0x212A, 0xC4, 0x212A].flatMap Spec.utf8) = some [0x6B, 0xC3, 0xA4, 0x6B] := by
  decide +kernel
example : strFoldInplace (some 0xFFFFFFFF) Ex.cf [0x212A, 0xC4, 0x10400] = [0x6B, 0xE4, 0x10428] := by decide +kernel

/-- In UTF-16 the literal U+10400 matches the text U+20400. -/
theorem C63_literal_utf16_refuted :
    ¬ (∀ (ws : List Nat), (∀ w ∈ ws, Spec.Faithful .utf16 w) → ∀ s, Units 65536 s → ∀ m,
      cflTry .utf16 id s (ws.flatMap Spec.utf16) = some (true, m) →
        ∃ vs : List Nat, (∀ v ∈ vs, Spec.IsScalar v) ∧ vs.map id = ws ∧ vs.flatMap Spec.utf16 <+: s
          ∧ m = (vs.flatMap Spec.utf16).length) := by
  intro h
  obtain ⟨vs, -, h2, h3, -⟩ := h [0x10400] (by intro w hw; simp at hw; subst hw; simp [Spec.Faithful, Spec.IsScalar])
    (Spec.utf16 0x20400) (by intro u hu; simp [Spec.utf16] at hu; omega) 2 (by decide +kernel)
  rw [List.map_id] at h2
  subst h2
  exact absurd h3 (by decide +kernel)

/-- Folding a string with something malformed in it cuts it off there, even if nothing is to be folded. -/
theorem C63_string_malformed_refuted :
    ¬ (∀ s, Units 256 s → strFold .utf8 id s = some s) := by
  intro h
  have := h [0x41, 0x80, 0x42] (by intro u hu; simp at hu; omega)
  rw [show strFold .utf8 id [0x41, 0x80, 0x42] = some [0x41] by decide +kernel] at this
  simp at this

/-- Folding in place stops at a unit with the value of EOF: the letters after `0xFF` are not folded. -/
theorem C63_string_inplace_refuted :
    ¬ (∀ s, Units 256 s → strFoldInplace Enc.utf8.eofUnit asciiFold s = s.map asciiFold) := by
  intro h
  have := h [0x41, 0xFF, 0x41] (by intro u hu; simp at hu; omega)
  exact absurd this (by decide +kernel)

/-- A literal set with Unicode case folding that contains a single literal does not agree with the literal:
    * {"ab"} matches "AB", but ends after the first unit;
    * {"abc"} does not match "ABC";
    * {"abb"} matches "ABC";
    * {"ä"} does not match "ä".
    The same for symbol tables, whose symbols are found with the wrong length, not at all, or wrongly. -/
theorem C63_set_refuted :
    (cflTry .utf8 Ex.cf [0x41, 0x42] [0x61, 0x62] = some (true, 2)
      ∧ setFoldTry .utf8 Ex.cf [[0x61, 0x62]] [0x41, 0x42] = some (true, 1))
    ∧ (cflTry .utf8 Ex.cf [0x41, 0x42, 0x43] [0x61, 0x62, 0x63] = some (true, 3)
      ∧ setFoldTry .utf8 Ex.cf [[0x61, 0x62, 0x63]] [0x41, 0x42, 0x43] = some (false, 1))
    ∧ (cflTry .utf8 Ex.cf [0x41, 0x42, 0x43] [0x61, 0x62, 0x62] = some (false, 2)
      ∧ setFoldTry .utf8 Ex.cf [[0x61, 0x62, 0x62]] [0x41, 0x42, 0x43] = some (true, 1))
    ∧ (cflTry .utf8 Ex.cf (Spec.utf8 0xE4) (Spec.utf8 0xE4) = some (true, 2)
      ∧ setFoldTry .utf8 Ex.cf [Spec.utf8 0xE4] (Spec.utf8 0xE4) = some (false, 0))
    ∧ symbolFoldTry .utf8 Ex.cf [[0x78], [0x61, 0x62]] [0x41, 0x42] = some (some 1, 1)
    ∧ symbolFoldTry .utf8 Ex.cf [[0x78], [0x61, 0x62, 0x63]] [0x41, 0x42, 0x43] = some (none, 1)
    ∧ symbolFoldTry .utf8 Ex.cf [[0x78], [0x61, 0x62, 0x62]] [0x41, 0x42, 0x43] = some (some 1, 1) := by
  decide +kernel

end Verif
