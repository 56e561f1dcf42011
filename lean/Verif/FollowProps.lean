import Verif.Follow
import Verif.LiteralProps
import Verif.IdentifierProps

/-!
Property C76 (`not_followed_by`, `followed_by`).
-/

namespace Verif

theorem nf_spec (lit : List Nat) (cc : List Nat → Bool) (eof : Option Nat) (fold : Nat → Nat)
    (h : ∀ c ∈ lit, eof ≠ some c) (s : List Nat) :
    ∃ f, nfTryParse lit cc eof fold s = some f ∧ (f.litOk = true ↔ lit <+: s.map fold) ∧
      (f.litOk = true → f.len = lit.length ∧ f.ok = !cc ((s.map fold).drop lit.length)) ∧
      (f.litOk = false → f.ok = false ∧ f.len = 0 ∧ lit.take f.litEnd <+: s.map fold ∧
        f.litEnd < lit.length ∧ ¬ lit.take (f.litEnd + 1) <+: s.map fold) := by
  obtain ⟨b, n, h1, h2, h3, h4, h5, h6⟩ := C10_literal_prefix eof lit (s.map fold) h
  unfold nfTryParse
  rw [matchLiteral_map, h1]
  cases b with
  | false =>
    refine ⟨_, rfl, h2, by simp, ?_⟩
    intro _
    refine ⟨rfl, rfl, h5, ?_, h6 rfl⟩
    rcases Nat.lt_or_ge n lit.length with hn | hn
    · exact hn
    · have := h2.2 (by rw [List.take_of_length_le hn] at h5; exact h5)
      simp at this
  | true =>
    have hn := h3 rfl
    subst hn
    refine ⟨_, rfl, h2, ?_, by simp⟩
    intro _
    exact ⟨rfl, by rw [List.map_drop]⟩

/-- C76: `not_followed_by` matches exactly if the input begins with the literal and what follows does not
    match the class (both after folding); it consumes exactly the literal. -/
theorem C76_not_followed (lit : List Nat) (cc : List Nat → Bool) (eof : Option Nat) (fold : Nat → Nat)
    (h : ∀ c ∈ lit, eof ≠ some c) (s : List Nat) :
    ∃ f, nfTryParse lit cc eof fold s = some f ∧
      (f.ok = true ↔ ∃ rest, s.map fold = lit ++ rest ∧ cc rest = false) ∧
      (f.ok = true → f.len = lit.length) := by
  obtain ⟨f, hf, h1, h2, h3⟩ := nf_spec lit cc eof fold h s
  refine ⟨f, hf, ?_, ?_⟩
  · cases hl : f.litOk with
    | false =>
      have := h3 hl
      rw [this.1]
      simp only [Bool.false_eq_true, false_iff]
      rintro ⟨rest, hr, -⟩
      rw [h1.2 ⟨rest, hr.symm⟩] at hl
      simp at hl
    | true =>
      obtain ⟨rest, hr⟩ := h1.1 hl
      have := (h2 hl).2
      rw [this, ← hr, List.drop_append_of_le_length (Nat.le_refl _), List.drop_length, List.nil_append]
      constructor
      · intro h; exact ⟨rest, rfl, by simpa using h⟩
      · rintro ⟨rest', hr', hc⟩
        rw [List.append_cancel_left hr']; simp [hc]
  · intro hok
    cases hl : f.litOk with
    | false => have := (h3 hl).1; rw [this] at hok; simp at hok
    | true => exact (h2 hl).1

/-- C76, errors: if the literal is missing the error is the literal's own one, at the begin and with the
    index of the first difference, and nothing is consumed; if the literal is there but the class matches,
    the error token covers exactly the literal and the error is a follow restriction directly after it. -/
theorem C76_errors (lit : List Nat) (cc : List Nat → Bool) (eof : Option Nat) (fold : Nat → Nat)
    (h : ∀ c ∈ lit, eof ≠ some c) (s : List Nat) :
    ∃ n o, nfTokenParse lit cc eof fold s = some (n, o) ∧
      (o = none ↔ ∃ rest, s.map fold = lit ++ rest ∧ cc rest = false) ∧
      (o = none → n = lit.length) ∧
      (∀ b e, o = some (.followRestriction b e) ↔
        (∃ rest, s.map fold = lit ++ rest ∧ cc rest = true) ∧ b = lit.length ∧ e = lit.length) ∧
      ((∃ b e, o = some (.followRestriction b e)) → n = lit.length) ∧
      (∀ p i, o = some (.expectedLiteral p i) ↔
        (¬ lit <+: s.map fold ∧ p = 0 ∧ lit.take i <+: s.map fold ∧ i < lit.length ∧
          ¬ lit.take (i + 1) <+: s.map fold)) ∧
      ((∃ p i, o = some (.expectedLiteral p i)) → n = 0) := by
  obtain ⟨f, hf, h1, h2, h3⟩ := nf_spec lit cc eof fold h s
  unfold nfTokenParse
  rw [hf]
  dsimp only
  cases hl : f.litOk with
  | false =>
    obtain ⟨hk, hn, ha, hb, hc⟩ := h3 hl
    have hnp : ¬ lit <+: s.map fold := fun hp => by rw [h1.2 hp] at hl; simp at hl
    rw [hk]
    simp only [Bool.false_eq_true, if_false]
    refine ⟨_, _, rfl, ?_, by simp, ?_, by simp, ?_, by simp [hn]⟩
    · simp only [reduceCtorEq, false_iff]
      rintro ⟨rest, hr, -⟩; exact hnp ⟨rest, hr.symm⟩
    · intro b e
      simp only [Option.some.injEq, reduceCtorEq, false_iff]
      rintro ⟨⟨rest, hr, -⟩, -⟩; exact hnp ⟨rest, hr.symm⟩
    · intro p i
      simp only [Option.some.injEq, FollowErr.expectedLiteral.injEq]
      constructor
      · rintro ⟨rfl, rfl⟩; exact ⟨hnp, rfl, ha, hb, hc⟩
      · rintro ⟨-, rfl, ha', hb', hc'⟩
        refine ⟨rfl, ?_⟩
        rcases Nat.lt_trichotomy f.litEnd i with hlt | heq | hgt
        · exact absurd ((List.take_prefix_take_left (by omega : f.litEnd + 1 ≤ i)).trans ha') hc
        · exact heq
        · exact absurd ((List.take_prefix_take_left (by omega : i + 1 ≤ f.litEnd)).trans ha) hc'
  | true =>
    obtain ⟨hn, hk⟩ := h2 hl
    obtain ⟨rest, hr⟩ := h1.1 hl
    rw [← hr, List.drop_append_of_le_length (Nat.le_refl _), List.drop_length, List.nil_append] at hk
    have hu : ∀ (b : Bool), (∃ rest, s.map fold = lit ++ rest ∧ cc rest = b) ↔ cc rest = b := by
      intro b
      rw [← hr]
      constructor
      · rintro ⟨r, hr', hc⟩; rw [List.append_cancel_left hr']; exact hc
      · intro hc; exact ⟨rest, rfl, hc⟩
    have hp : lit <+: s.map fold := ⟨rest, hr⟩
    rw [hu, hk, hn]
    simp only [hu, if_true]
    cases hc : cc rest with
    | false => refine ⟨_, _, rfl, by simp, by simp, by simp, by simp, by simp [hp], by simp⟩
    | true =>
      refine ⟨_, _, rfl, by simp, by simp, ?_, by simp, by simp [hp], by simp⟩
      intro b e
      simp [eq_comm]

/-- C76: as the only member of a literal set the rule matches the same as on its own. -/
theorem C76_in_set (lit : List Nat) (cc : List Nat → Bool) (eof : Option Nat) (fold : Nat → Nat)
    (hfold : ∀ u, fold (fold u) = fold u) (h : ∀ c ∈ lit, eof ≠ some c) (s : List Nat) :
    ∃ f, nfTryParse lit cc eof fold s = some f ∧
      matchSet [nfLit lit cc] eof fold s = some (if f.ok then some f.len else none) := by
  obtain ⟨f, hf, h1, h2⟩ := C76_not_followed lit cc eof fold h s
  obtain ⟨r, hr, h3, h4⟩ := C11_set_longest_partial [nfLit lit cc]
    (by intro l hl l' hl' _; simp at hl hl'; rw [hl, hl']) eof fold hfold
    (by intro l hl; simp at hl; rw [hl]; exact h) s
  refine ⟨f, hf, ?_⟩
  rw [hr]
  have hm : (nfLit lit cc).Matches (s.map fold) ↔ f.ok = true := by
    rw [h1]
    simp only [Lit.Matches, nfLit, Option.some.injEq, forall_eq']
    constructor
    · rintro ⟨⟨rest, hr⟩, hc⟩
      rw [← hr, List.drop_append_of_le_length (Nat.le_refl _), List.drop_length, List.nil_append] at hc
      exact ⟨rest, hr.symm, hc⟩
    · rintro ⟨rest, hr, hc⟩
      rw [hr, List.drop_append_of_le_length (Nat.le_refl _), List.drop_length, List.nil_append]
      exact ⟨⟨rest, rfl⟩, hc⟩
  cases hk : f.ok with
  | true =>
    rw [hk] at hm
    have : r = some lit.length := by
      rw [h3]
      refine ⟨⟨_, by simp, hm.2 rfl, rfl⟩, ?_⟩
      intro l hl _; simp at hl; rw [hl]; exact Nat.le_refl _
    simp [this, h2 hk]
  | false =>
    rw [hk] at hm
    have : r = none := by
      rw [h4]
      intro l hl; simp at hl; rw [hl, hm]; simp
    simp [this]

/-- C76 for a class on a Unicode encoding: `not_followed_by` fails after the literal exactly if a
    well-formed code point of the class follows. -/
theorem C76_class (e : Enc) (c : CC) (hc : c.Ok) (lit : List Nat) (h : ∀ x ∈ lit, e.eof ≠ some x)
    (rest : List Nat) (hr : Units e.bound rest) :
    ∃ f, notFollowedBy e e.eof lit c (lit ++ rest) = some f ∧
      (f.ok = false ↔ (parseCp e rest).error = .success ∧ c.denote (parseCp e rest).cp) := by
  obtain ⟨f, hf, h1, -⟩ := C76_not_followed lit (fun r => (c.tryParse e r).isSome) e.eof id h (lit ++ rest)
  refine ⟨f, hf, ?_⟩
  have h1' : f.ok = true ↔ (c.tryParse e rest).isSome = false := by
    rw [h1]
    simp only [List.map_id]
    constructor
    · rintro ⟨r, hr, hc⟩; rw [List.append_cancel_left hr]; exact hc
    · intro hc; exact ⟨rest, rfl, hc⟩
  have h2 : f.ok = false ↔ ∃ n, c.tryParse e rest = some n := by
    rw [← Option.isSome_iff_exists, ← Bool.not_eq_true, h1']
    cases c.tryParse e rest <;> simp
  rw [h2]
  simp only [CC.C08_class_token e c hc rest hr]
  simp

/-- C76: `followed_by` is documented to ensure that the literal is followed by the class.  What holds:
    after the literal it fails exactly if a well-formed code point outside of the class follows.
    Missing from the full claim: it also matches at the end of the input and before malformed input, see
    `C76_followed_by_refuted`. -/
theorem C76_followed_by_partial (e : Enc) (c : CC) (hc : c.Ok) (lit : List Nat)
    (h : ∀ x ∈ lit, e.eof ≠ some x) (rest : List Nat) (hr : Units e.bound rest) :
    ∃ f, followedBy e e.eof lit c (lit ++ rest) = some f ∧
      (f.ok = true ↔ (parseCp e rest).error ≠ .success ∨ c.denote (parseCp e rest).cp) := by
  obtain ⟨f, hf, h1⟩ := C76_class e (.comp c) hc lit h rest hr
  refine ⟨f, hf, ?_⟩
  rw [← Bool.not_eq_false, h1]
  simp only [CC.denote, not_and, Classical.not_not]
  constructor
  · intro h
    by_cases hs : (parseCp e rest).error = .success
    · exact Or.inr (h hs)
    · exact Or.inl hs
  · rintro (h | h) hs
    · exact absurd hs h
    · exact h

/-- C76 is false for `followed_by`: the literal `a` that has to be followed by a letter matches the whole
    input `a`, where nothing follows. -/
theorem C76_followed_by_refuted :
    ∃ (c : CC) (lit s : List Nat) (f : Follow), c.Ok ∧ followedBy .utf8 (some 0xFF) lit c s = some f ∧
      f.ok = true ∧ (c.tryParse .utf8 (s.drop f.len)) = none := by
  refine ⟨exampleIdent, [0x61], [0x61], ⟨true, 1, true, 1⟩, ?_, ?_, rfl, ?_⟩
  · intro g hg; simp at hg
  · decide +kernel
  · decide +kernel

/-! ### Non-vacuity -/

/-- `not_followed_by(LEXY_LIT("="), LEXY_LIT("="))` on `= `, `==` and `<`; with case folding on `Ab`. -/
example :
    nfTokenParse [0x3D] (fun r => r.head? == some 0x3D) (some 0xFF) id [0x3D, 0x20] = some (1, none) ∧
    nfTokenParse [0x3D] (fun r => r.head? == some 0x3D) (some 0xFF) id [0x3D, 0x3D] =
      some (1, some (.followRestriction 1 1)) ∧
    nfTokenParse [0x3D] (fun r => r.head? == some 0x3D) (some 0xFF) id [0x3C] =
      some (0, some (.expectedLiteral 0 0)) ∧
    nfTokenParse [0x61] (fun r => r.head? == some 0x62) (some 0xFF) asciiFold [0x41, 0x42] =
      some (1, some (.followRestriction 1 1)) ∧
    nfTokenParse [0x61, 0x62] (fun r => r.head? == some 0x62) (some 0xFF) asciiFold [0x41, 0x63] =
      some (0, some (.expectedLiteral 0 1)) := by
  decide +kernel

/-- `followed_by(LEXY_LIT("a"), [a-z_])` on `ab`, `a1`. -/
example : (followedBy .utf8 (some 0xFF) [0x61] exampleIdent [0x61, 0x62]).map (·.ok) = some true ∧
    (followedBy .utf8 (some 0xFF) [0x61] exampleIdent [0x61, 0x31]).map (·.ok) = some false := by
  decide +kernel

end Verif
