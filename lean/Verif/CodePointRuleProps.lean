import Verif.CodePointRule
import Verif.CharClassProps
import Verif.UnicodeClassProps
import Verif.LiteralProps
import Verif.BufferProps

/-!
# C78: `dsl::code_point` and `dsl::bom`
-/

namespace Verif

open AsciiSet Udb

namespace Spec

/-- The group of a category, by the first letter of its name. -/
def major : Cat → CatGroup
  | .Lu | .Ll | .Lt | .Lm | .Lo => .L
  | .Mn | .Mc | .Me => .M
  | .Nd | .Nl | .No => .N
  | .Pc | .Pd | .Ps | .Pe | .Pi | .Pf | .Po => .P
  | .Sm | .Sc | .Sk | .So => .S
  | .Zs | .Zl | .Zp => .Z
  | .Cc | .Cf | .Cs | .Co | .Cn => .C

/-- What the documentation says a rule matches, docs/content/reference/dsl/code_point.adoc.  `LC` is `Lu`, `Ll` or
    `Lt` (Unicode, UAX #44). -/
def cpRule : CpRule → Nat → Prop
  | .any, _ => True
  | .if_ p, cp => p cp = true
  | .range low high, cp => low ≤ cp ∧ cp ≤ high
  | .set cps, cp => cp ∈ cps
  | .ascii, cp => cp < 128
  | .bmp, cp => cp < 65536
  | .noncharacter, cp => (0xFDD0 ≤ cp ∧ cp ≤ 0xFDEF) ∨ cp % 65536 = 0xFFFE ∨ cp % 65536 = 0xFFFF
  | .category c, cp => generalCategory cp = some c
  | .group .LC, cp => ∃ c, generalCategory cp = some c ∧ (c = .Lu ∨ c = .Ll ∨ c = .Lt)
  | .group g, cp => ∃ c, generalCategory cp = some c ∧ major c = g

end Spec

theorem CpRule.asciiSet_eq (r : CpRule) (c : Nat) (hc : c < 128) : r.asciiSet c = r.pred c := by
  have gen : ∀ (l : List Nat) (s : AsciiSet), (l.foldl (fun s c => if r.pred c then s.insert c else s) s) c
      = (s c || (decide (c ∈ l) && r.pred c)) := by
    intro l
    induction l with
    | nil => intro s; simp
    | cons d l ih =>
      intro s
      rw [List.foldl_cons, ih]
      by_cases h : c = d
      · subst h
        cases hp : r.pred c <;> simp [AsciiSet.insert]
      · have h' : (d = c) = False := by simp [Ne.symm h]
        cases hp : r.pred d <;> simp [AsciiSet.insert, h]
  have hm : c ∈ List.range' 0 0x80 := by simp [List.mem_range']; omega
  cases r with
  | any =>
    simp only [asciiSet, pred, AsciiSet.insertRange, AsciiSet.foldl_insert]
    simp only [List.mem_range', AsciiSet.empty]
    simp; omega
  | _ => exact (gen _ _).trans (by simp only [hm, decide_true, Bool.true_and]; simp [AsciiSet.empty])

theorem CpRule.cc_ok (r : CpRule) : r.cc.Ok := by
  intro g hg v hv h
  cases hg
  rw [r.asciiSet_eq v hv]
  exact h

theorem CpRule.denote_iff (r : CpRule) (v : Nat) : r.cc.denote v ↔ r.pred v = true := by
  simp only [CpRule.cc, CC.denote]
  constructor
  · rintro (⟨h1, h2⟩ | ⟨g, hg, h⟩)
    · rwa [r.asciiSet_eq v h1] at h2
    · cases hg; exact h
  · intro h; exact .inr ⟨_, rfl, h⟩

theorem CpRule.pred_spec (r : CpRule) (v : Nat) (hv : v ≤ 0x10FFFF) : r.pred v = true ↔ Spec.cpRule r v := by
  cases r with
  | any => simp [pred, Spec.cpRule]
  | if_ p => rfl
  | range lo hi => simp [pred, Spec.cpRule]
  | set cps =>
    simp only [pred, Spec.cpRule, List.any_eq_true, beq_iff_eq]
    exact ⟨fun ⟨c, h1, h2⟩ => h2 ▸ h1, fun h => ⟨v, h, rfl⟩⟩
  | ascii => simp only [pred, Spec.cpRule, cpIsAscii, decide_eq_true_eq]; omega
  | bmp => simp only [pred, Spec.cpRule, cpIsBmp, decide_eq_true_eq]; omega
  | noncharacter =>
    have : v &&& 0xFFFF = v % 65536 := Nat.and_two_pow_sub_one_eq_mod v 16
    simp only [pred, Spec.cpRule, cpIsNoncharacter, this]
    split <;> simp_all
    omega
  | category c =>
    obtain ⟨c', h1, h2, h3, h4, -⟩ := C70_categories v hv
    simp only [pred, Spec.cpRule, h1, Option.some.injEq]
    split
    · subst_vars; exact h2.symm
    split
    · subst_vars; exact h3.symm
    split
    · subst_vars; exact h4.symm
    · simp [dbIs, h1]
  | group g =>
    obtain ⟨c', h1, -⟩ := C70_categories v hv
    cases g <;> simp only [pred, Spec.cpRule, CatGroup.cats, h1, dbIs, Option.some.injEq, exists_eq_left'] <;>
      cases c' <;> decide

/-- Only code points are decoded. -/
theorem decoded_valid (e : Enc) (s : List Nat) (hs : Units e.bound s) (h : (parseCp e s).error = .success) :
    (parseCp e s).cp ≤ 0x10FFFF := by
  cases e with
  | ascii =>
    simp only [parseCp, parseAscii] at h ⊢
    split at h
    · simp at h
    · rename_i h1
      rw [if_neg h1]
      split at h
      · rename_i h2; rw [if_pos h2]; simp only; omega
      · simp at h
  | utf8 => exact (C02_utf8_decode_sound s hs h).1.1
  | utf16 =>
    match s, hs with
    | [], _ => simp [parseCp, parseUtf16] at h
    | first :: s', hs =>
      have hf : first < 65536 := hs first (by simp)
      simp only [parseCp, parseUtf16] at h ⊢
      split at h
      · rename_i h1
        rw [if_pos h1]
        cases s' with
        | nil => simp at h
        | cons second t =>
          simp only at h ⊢
          split at h
          · simp at h
          · rename_i h2
            rw [if_neg h2]
            have a1 : first &&& 0x3FF < 2 ^ 10 := by
              rw [show (0x3FF : Nat) = 2 ^ 10 - 1 from rfl, Nat.and_two_pow_sub_one_eq_mod]; omega
            have a2 : second &&& 0x3FF < 2 ^ 20 := by
              rw [show (0x3FF : Nat) = 2 ^ 10 - 1 from rfl, Nat.and_two_pow_sub_one_eq_mod]; omega
            have a3 : (first &&& 0x3FF) <<< 10 < 2 ^ 20 := by
              rw [Nat.shiftLeft_eq]; omega
            have a4 := Nat.or_lt_two_pow (Nat.or_lt_two_pow a3 a2) (show 0x10000 < 2 ^ 20 by decide)
            simp only
            omega
      · rename_i h1
        rw [if_neg h1]
        split at h
        · simp at h
        · rename_i h2; rw [if_neg h2]; simp only; omega
  | utf32 =>
    simp only [parseCp, parseUtf32] at h ⊢
    split at h
    · simp at h
    · rename_i h1
      rw [if_neg h1]
      split at h
      · simp at h
      · rename_i h2
        rw [if_neg h2]
        split at h
        · simp at h
        · rename_i h3; rw [if_neg h3]; simp only; omega

/-! ### Code points -/

/-- A code point rule matches exactly if a code point can be decoded and it is one the rule is for; it consumes
    that code point. -/
theorem C78_code_point (e : Enc) (r : CpRule) (s : List Nat) (hs : Units e.bound s) (n : Nat) :
    r.cc.tryParse e s = some n ↔
      (parseCp e s).error = .success ∧ Spec.cpRule r (parseCp e s).cp ∧ n = (parseCp e s).len := by
  rw [CC.C08_class_token e r.cc r.cc_ok s hs n]
  constructor
  · rintro ⟨h1, h2, h3⟩
    exact ⟨h1, (r.pred_spec _ (decoded_valid e s hs h1)).1 ((r.denote_iff _).1 h2), h3⟩
  · rintro ⟨h1, h2, h3⟩
    exact ⟨h1, (r.denote_iff _).2 ((r.pred_spec _ (decoded_valid e s hs h1)).2 h2), h3⟩

/-- In UTF-8: exactly if the input begins with the encoding of a scalar value the rule is for. -/
theorem C78_code_point_utf8 (r : CpRule) (s : List Nat) (hs : Units 256 s) (n : Nat) :
    r.cc.tryParse .utf8 s = some n ↔
      ∃ v, Spec.IsScalar v ∧ Spec.cpRule r v ∧ Spec.utf8 v <+: s ∧ n = (Spec.utf8 v).length := by
  rw [CC.C08_class_token_utf8 r.cc r.cc_ok s hs n]
  constructor
  · rintro ⟨v, h1, h2, h3⟩
    exact ⟨v, h1, (r.pred_spec _ h1.1).1 ((r.denote_iff _).1 h2), h3⟩
  · rintro ⟨v, h1, h2, h3⟩
    exact ⟨v, h1, (r.denote_iff _).2 ((r.pred_spec _ h1.1).2 h2), h3⟩

/-- In the default and byte encodings: a single unit is taken as code point. -/
theorem C78_code_point_byte (r : CpRule) (s : List Nat) (hs : Units 256 s) (n : Nat) :
    r.cc.tryParseByte s = some n ↔ n = 1 ∧ ∃ u t, s = u :: t ∧ Spec.cpRule r u := by
  rw [CC.C08_class_token_byte r.cc r.cc_ok s n]
  constructor
  · rintro ⟨h1, u, t, rfl, h2⟩
    have := hs u (by simp)
    exact ⟨h1, u, t, rfl, (r.pred_spec _ (by omega)).1 ((r.denote_iff _).1 h2)⟩
  · rintro ⟨h1, u, t, rfl, h2⟩
    have := hs u (by simp)
    exact ⟨h1, u, t, rfl, (r.denote_iff _).2 ((r.pred_spec _ (by omega)).2 h2)⟩

/-- Before an encoded code point, in any encoding: the rule matches it exactly if it is for it.  (Only part: not
    the code points that UTF-16 does not decode faithfully, see C03.) -/
theorem C78_encoded_partial (e : Enc) (r : CpRule) (v : Nat) (h : Spec.Faithful e v)
    (rest : List Nat) (hrest : Units e.bound rest) :
    (Spec.cpRule r v → r.cc.tryParse e (encodeCp e v ++ rest) = some (encodeCp e v).length)
    ∧ (¬ Spec.cpRule r v → r.cc.tryParse e (encodeCp e v ++ rest) = none) := by
  have hp := parseCp_encodeCp e v h rest hrest
  have hr : Units e.bound (encodeCp e v ++ rest) := by
    intro u hu
    rcases List.mem_append.1 hu with hu | hu
    · exact encodeCp_units e v h u hu
    · exact hrest u hu
  constructor
  · intro hc
    exact (C78_code_point e r _ hr _).2 (by rw [hp]; exact ⟨rfl, hc, rfl⟩)
  · intro hc
    cases ht : r.cc.tryParse e (encodeCp e v ++ rest) with
    | none => rfl
    | some n =>
      have := (C78_code_point e r _ hr _).1 ht
      rw [hp] at this
      exact absurd this.2.1 hc

/-- In UTF-16 `code_point.set<0x20000>()` does not match U+20000, `code_point.set<0x10000>()` does. -/
theorem C78_encoded_refuted : Spec.IsScalar 0x20000
    ∧ (CpRule.set [0x20000]).cc.tryParse .utf16 (encodeCp .utf16 0x20000) = none
    ∧ (CpRule.set [0x10000]).cc.tryParse .utf16 (encodeCp .utf16 0x20000) = some 2 := by
  refine ⟨by decide, ?_, ?_⟩ <;> decide +kernel

/-- U+00E9 is a lowercase letter, so a letter and a cased letter. -/
example : (CpRule.category .Ll).cc.tryParse .utf8 [0xC3, 0xA9, 0x41] = some 2
    ∧ (CpRule.group .L).cc.tryParse .utf8 [0xC3, 0xA9, 0x41] = some 2
    ∧ (CpRule.group .LC).cc.tryParse .utf8 [0xC3, 0xA9, 0x41] = some 2
    ∧ (CpRule.group .N).cc.tryParse .utf8 [0xC3, 0xA9, 0x41] = none := by decide +kernel
example : (CpRule.noncharacter).cc.tryParse .utf16 [0xFFFE] = some 1
    ∧ (CpRule.category .Co).cc.tryParse .utf32 [0xE000] = some 1
    ∧ (CpRule.any).cc.tryParse .utf32 [0xD800] = none := by decide +kernel

/-! ### Byte order marks -/

/-- The literal is U+FEFF in the encoding and byte order; without a mark it is empty. -/
theorem C78_bom_literal :
    (∀ o, dslBom (.enc .utf8) o = Spec.utf8 0xFEFF ∧ dslBom (.enc .utf8char) o = Spec.utf8 0xFEFF)
    ∧ (∀ en, dslBom (.enc .utf16) (some en) = Spec.serialise 2 en 0xFEFF
        ∧ dslBom (.enc .utf32) (some en) = Spec.serialise 4 en 0xFEFF)
    ∧ dslBom (.enc .utf16) none = [] ∧ dslBom (.enc .utf32) none = [] ∧ ∀ o, dslBom .other o = [] := by
  refine ⟨fun o => ⟨?_, ?_⟩, fun en => ?_, rfl, rfl, fun _ => rfl⟩
  · show [0xEF, 0xBB, 0xBF] = Spec.utf8 0xFEFF; decide
  · show [0xEF, 0xBB, 0xBF] = Spec.utf8 0xFEFF; decide
  · cases en <;> decide

/-- The rule matches exactly if the data begins with the mark, and what is left is what `make_buffer` decodes after
    detecting the same mark.  `eof` is not a byte of the mark (it is none in the default and byte encodings). -/
theorem C78_bom_match (k : BomEnc) (en : Endian) (eof : Option Nat) (h : ∀ c ∈ dslBom (.enc k) (some en), eof ≠ some c)
    (s : List Nat) (hb : ∀ b ∈ s, b < 256) :
    ∃ b n, matchLiteral eof id (dslBom (.enc k) (some en)) s = some (b, n)
      ∧ (b = true ↔ dslBom (.enc k) (some en) <+: s)
      ∧ (b = true → ∀ native, makeBufferBom native k s = makeBuffer native k.enc en (s.drop n)) := by
  obtain ⟨b, n, h1, h2, h3, -⟩ := C10_literal_prefix eof (dslBom (.enc k) (some en)) s h
  refine ⟨b, n, h1, h2, ?_⟩
  intro hbt native
  obtain ⟨t, rfl⟩ := h2.1 hbt
  have hk : dslBom (.enc k) (some en) = Spec.bom k en := by cases k <;> cases en <;> rfl
  rw [h3 hbt, List.drop_left, hk]
  exact C26_bom native k en t (fun b hb' => hb b (by simp [hb']))

example : ∀ c ∈ dslBom (.enc .utf16) (some .little), (none : Option Nat) ≠ some c := by decide
example : matchLiteral none id (dslBom (.enc .utf16) (some .little)) [0xFF, 0xFE, 0x41, 0x00] = some (true, 2) := by
  decide

end Verif
