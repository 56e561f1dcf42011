import Verif.Until
import Verif.IdentifierProps

/-!
Properties C19 (until) and C21 (newline, eol).
-/

namespace Verif

/-! ## C19 -/

/-- Specification: `i` is the first position of `s` at which `cond` matches, no unit before it is taken for EOF,
    and the match has length `n`. -/
structure Spec.FirstMatch (cond : TokMatch) (eof : Option Nat) (s : List Nat) (i n : Nat) : Prop where
  le : i ≤ s.length
  hit : cond (s.drop i) = some n
  before : ∀ j < i, cond (s.drop j) = none
  noEof : ∀ u ∈ s.take i, eof ≠ some u

/-- Specification: `i` is the first position at the end of `s` or at a unit that is taken for EOF. -/
structure Spec.FirstEof (eof : Option Nat) (s : List Nat) (i : Nat) : Prop where
  le : i ≤ s.length
  noEof : ∀ u ∈ s.take i, eof ≠ some u
  hit : ∀ u, s[i]? = some u → eof = some u

theorem peekEof_cons (eof : Option Nat) (u : Nat) (t : List Nat) :
    peekEof eof (u :: t) = true ↔ eof = some u := by simp [peekEof]

theorem untilTok_nil (cond : TokMatch) (eof : Option Nat) : untilTok cond eof [] =
    match cond [] with | some n => (true, n) | none => (false, 0) := by
  rw [untilTok]; cases cond [] <;> simp [peekEof]

theorem untilTok_cons (cond : TokMatch) (eof : Option Nat) (u : Nat) (t : List Nat) : untilTok cond eof (u :: t) =
    match cond (u :: t) with
    | some n => (true, n)
    | none => if eof = some u then (false, 0) else
      ((untilTok cond eof t).1, (untilTok cond eof t).2 + 1) := by
  rw [untilTok]; cases cond (u :: t) <;> simp [peekEof]

theorem untilOrEof_nil (cond : TokMatch) (eof : Option Nat) : untilOrEof cond eof [] = 0 := by
  rw [untilOrEof]; simp [peekEof]

theorem untilOrEof_cons (cond : TokMatch) (eof : Option Nat) (u : Nat) (t : List Nat) :
    untilOrEof cond eof (u :: t) = if eof = some u then 0 else
      match cond (u :: t) with | some n => n | none => untilOrEof cond eof t + 1 := by
  rw [untilOrEof]; cases cond (u :: t) <;> simp [peekEof]

theorem anyTok_nil (eof : Option Nat) : anyTok eof [] = 0 := by
  rw [anyTok]; simp [peekEof]

theorem anyTok_cons (eof : Option Nat) (u : Nat) (t : List Nat) :
    anyTok eof (u :: t) = if eof = some u then 0 else anyTok eof t + 1 := by
  rw [anyTok]; simp [peekEof]

theorem Spec.FirstMatch.cons {cond : TokMatch} {eof : Option Nat} {u : Nat} {t : List Nat}
    (hn : cond (u :: t) = none) (he : eof ≠ some u) (i n : Nat) :
    Spec.FirstMatch cond eof (u :: t) i n ↔ ∃ i', i = i' + 1 ∧ Spec.FirstMatch cond eof t i' n := by
  constructor
  · rintro ⟨h1, h2, h3, h4⟩
    cases i with
    | zero => simp [hn] at h2
    | succ i =>
      refine ⟨i, rfl, by simpa using h1, h2, ?_, ?_⟩
      · intro j hj; exact h3 (j + 1) (by omega)
      · intro v hv; exact h4 v (by simp [hv])
  · rintro ⟨i, rfl, h1, h2, h3, h4⟩
    refine ⟨by simpa using h1, h2, ?_, ?_⟩
    · intro j hj
      cases j with
      | zero => exact hn
      | succ j => exact h3 j (by omega)
    · intro v hv
      simp at hv
      rcases hv with rfl | hv
      · exact he
      · exact h4 v hv

theorem Spec.FirstEof.cons {eof : Option Nat} {u : Nat} {t : List Nat} (he : eof ≠ some u) (i : Nat) :
    Spec.FirstEof eof (u :: t) i ↔ ∃ i', i = i' + 1 ∧ Spec.FirstEof eof t i' := by
  constructor
  · rintro ⟨h1, h2, h3⟩
    cases i with
    | zero => exact absurd (h3 u rfl) he
    | succ i => exact ⟨i, rfl, by simpa using h1, fun v hv => h2 v (by simp [hv]), h3⟩
  · rintro ⟨i, rfl, h1, h2, h3⟩
    refine ⟨by simpa using h1, ?_, h3⟩
    intro v hv
    simp at hv
    rcases hv with rfl | hv
    · exact he
    · exact h2 v hv

theorem Spec.FirstEof.unique {eof : Option Nat} {s : List Nat} {i j : Nat} (hi : Spec.FirstEof eof s i)
    (hj : Spec.FirstEof eof s j) : i = j := by
  have aux : ∀ i j, Spec.FirstEof eof s i → Spec.FirstEof eof s j → ¬ i < j := by
    intro i j hi hj hlt
    have hl : i < s.length := by have := hj.le; omega
    have := hi.hit s[i] (by simp [hl])
    exact hj.noEof s[i] (by rw [List.mem_take_iff_getElem]; exact ⟨i, by omega, rfl⟩) this
  have := aux i j hi hj
  have := aux j i hj hi
  omega

/-- C19: `until(cond)` consumes everything up to and including the first match of the condition.  (A unit that the
    encoding cannot tell from EOF ends the input.) -/
theorem C19_until (cond : TokMatch) (eof : Option Nat) (s : List Nat) (m : Nat) :
    untilTok cond eof s = (true, m) ↔ ∃ i n, Spec.FirstMatch cond eof s i n ∧ m = i + n := by
  induction s generalizing m with
  | nil =>
    rw [untilTok]
    cases hc : cond [] with
    | some n =>
      simp only [Prod.mk.injEq, true_and]
      constructor
      · rintro rfl; exact ⟨0, _, ⟨by simp, hc, by omega, by simp⟩, by omega⟩
      · rintro ⟨i, n', ⟨h1, h2, -, -⟩, rfl⟩
        simp at h1; subst h1; simp [hc] at h2; omega
    | none =>
      simp only [peekEof, if_true, Prod.mk.injEq, Bool.false_eq_true, false_and, false_iff]
      rintro ⟨i, n, ⟨h1, h2, -, -⟩, -⟩
      simp [hc] at h2
  | cons u t ih =>
    rw [untilTok]
    cases hc : cond (u :: t) with
    | some n =>
      simp only [Prod.mk.injEq, true_and]
      constructor
      · rintro rfl; exact ⟨0, _, ⟨by omega, hc, by omega, by simp⟩, by omega⟩
      · rintro ⟨i, n', ⟨h1, h2, h3, -⟩, rfl⟩
        cases i with
        | zero => simp [hc] at h2; omega
        | succ i => have := h3 0 (by omega); simp [hc] at this
    | none =>
      simp only
      by_cases he : eof = some u
      · rw [if_pos ((peekEof_cons eof u t).2 he)]
        simp only [Prod.mk.injEq, Bool.false_eq_true, false_and, false_iff]
        rintro ⟨i, n, ⟨h1, h2, -, h4⟩, -⟩
        cases i with
        | zero => simp [hc] at h2
        | succ i => exact h4 u (by simp) he
      · rw [if_neg (fun h => he ((peekEof_cons eof u t).1 h))]
        rcases hr : untilTok cond eof t with ⟨b, m'⟩
        simp only [Prod.mk.injEq]
        constructor
        · rintro ⟨rfl, rfl⟩
          obtain ⟨i, n, h, rfl⟩ := (ih m').1 hr
          exact ⟨i + 1, n, (Spec.FirstMatch.cons hc he _ _).2 ⟨i, rfl, h⟩, by omega⟩
        · rintro ⟨i, n, h, rfl⟩
          obtain ⟨i, rfl, h'⟩ := (Spec.FirstMatch.cons hc he _ _).1 h
          have := (ih (i + n)).2 ⟨i, n, h', rfl⟩
          rw [hr] at this
          simp only [Prod.mk.injEq] at this
          exact ⟨this.1, by omega⟩

/-- C19: `until(cond)` fails exactly if the condition matches nowhere up to the end, and then `end` is the end. -/
theorem C19_until_fail (cond : TokMatch) (eof : Option Nat) (s : List Nat) (m : Nat) :
    untilTok cond eof s = (false, m) ↔ Spec.FirstEof eof s m ∧ ∀ j ≤ m, cond (s.drop j) = none := by
  induction s generalizing m with
  | nil =>
    rw [untilTok]
    cases hc : cond [] with
    | some n =>
      simp only [Prod.mk.injEq, Bool.true_eq_false, false_and, false_iff]
      rintro ⟨-, h⟩
      have := h 0 (by omega); simp [hc] at this
    | none =>
      simp only [peekEof, if_true, Prod.mk.injEq, true_and]
      constructor
      · rintro rfl; exact ⟨⟨by simp, by simp, by simp⟩, by simp [hc]⟩
      · rintro ⟨⟨h, -, -⟩, -⟩; simp at h; omega
  | cons u t ih =>
    rw [untilTok]
    cases hc : cond (u :: t) with
    | some n =>
      simp only [Prod.mk.injEq, Bool.true_eq_false, false_and, false_iff]
      rintro ⟨-, h⟩
      have := h 0 (by omega); simp [hc] at this
    | none =>
      simp only
      by_cases he : eof = some u
      · rw [if_pos ((peekEof_cons eof u t).2 he)]
        have h0 : Spec.FirstEof eof (u :: t) 0 := ⟨by omega, by simp, by simp [he]⟩
        simp only [Prod.mk.injEq, true_and]
        constructor
        · rintro rfl
          refine ⟨h0, ?_⟩
          intro j hj
          have : j = 0 := by omega
          subst this; exact hc
        · rintro ⟨h, -⟩; exact h0.unique h
      · rw [if_neg (fun h => he ((peekEof_cons eof u t).1 h))]
        rcases hr : untilTok cond eof t with ⟨b, m'⟩
        simp only [Prod.mk.injEq, Spec.FirstEof.cons he]
        constructor
        · rintro ⟨rfl, rfl⟩
          obtain ⟨h1, h2⟩ := (ih m').1 hr
          refine ⟨⟨m', rfl, h1⟩, ?_⟩
          intro j hj
          cases j with
          | zero => exact hc
          | succ j => exact h2 j (by omega)
        · rintro ⟨⟨i, rfl, h⟩, h2⟩
          have := (ih i).2 ⟨h, fun j hj => h2 (j + 1) (by omega)⟩
          rw [hr] at this
          simp only [Prod.mk.injEq] at this
          exact ⟨this.1, by omega⟩

/-- C19: `until(cond).or_eof()` consumes up to and including the first match of the condition if it comes before the
    end, and everything otherwise. -/
theorem C19_until_or_eof (cond : TokMatch) (eof : Option Nat) (s : List Nat) (m : Nat) :
    untilOrEof cond eof s = m ↔
      (∃ i n u, Spec.FirstMatch cond eof s i n ∧ s[i]? = some u ∧ eof ≠ some u ∧ m = i + n) ∨
      (Spec.FirstEof eof s m ∧ ∀ j < m, cond (s.drop j) = none) := by
  induction s generalizing m with
  | nil =>
    rw [untilOrEof]
    simp only [peekEof, if_true]
    constructor
    · rintro rfl; exact .inr ⟨⟨by simp, by simp, by simp⟩, by omega⟩
    · rintro (⟨i, n, u, -, h, -⟩ | ⟨⟨h, -, -⟩, -⟩)
      · simp at h
      · simp at h; omega
  | cons u t ih =>
    rw [untilOrEof]
    by_cases he : eof = some u
    · rw [if_pos ((peekEof_cons eof u t).2 he)]
      have h0 : Spec.FirstEof eof (u :: t) 0 := ⟨by omega, by simp, by simp [he]⟩
      constructor
      · rintro rfl; exact .inr ⟨h0, by omega⟩
      · rintro (⟨i, n, v, ⟨-, -, -, h4⟩, h5, h6, -⟩ | ⟨h, -⟩)
        · cases i with
          | zero => simp at h5; rw [← h5] at h6; exact absurd he h6
          | succ i => exact absurd he (h4 u (by simp))
        · exact h0.unique h
    · rw [if_neg (fun h => he ((peekEof_cons eof u t).1 h))]
      cases hc : cond (u :: t) with
      | some n =>
        simp only
        constructor
        · rintro rfl
          exact .inl ⟨0, n, u, ⟨by omega, hc, by omega, by simp⟩, rfl, he, by omega⟩
        · rintro (⟨i, n', v, ⟨-, h2, h3, -⟩, -, -, rfl⟩ | ⟨h, h2⟩)
          · cases i with
            | zero => simp [hc] at h2; omega
            | succ i => have := h3 0 (by omega); simp [hc] at this
          · cases m with
            | zero => exact absurd (h.hit u rfl) he
            | succ m => have := h2 0 (by omega); simp [hc] at this
      | none =>
        simp only [Spec.FirstMatch.cons hc he, Spec.FirstEof.cons he]
        constructor
        · rintro rfl
          rcases (ih _).1 rfl with ⟨i, n, v, h1, h2, h3, h4⟩ | ⟨h1, h2⟩
          · exact .inl ⟨i + 1, n, v, ⟨i, rfl, h1⟩, h2, h3, by omega⟩
          · refine .inr ⟨⟨_, rfl, h1⟩, ?_⟩
            intro j hj
            cases j with
            | zero => exact hc
            | succ j => exact h2 j (by omega)
        · rintro (⟨_, n, v, ⟨i, rfl, h1⟩, h2, h3, h4⟩ | ⟨⟨i, rfl, h1⟩, h2⟩)
          · rw [(ih (i + n)).2 (.inl ⟨i, n, v, h1, h2, h3, rfl⟩)]; omega
          · rw [(ih i).2 (.inr ⟨h1, fun j hj => h2 (j + 1) (by omega)⟩)]

/-- C19: `any` consumes everything. -/
theorem C19_any (eof : Option Nat) (s : List Nat) : Spec.FirstEof eof s (anyTok eof s) := by
  induction s with
  | nil => rw [anyTok]; exact ⟨by simp, by simp, by simp⟩
  | cons u t ih =>
    rw [anyTok]
    by_cases he : eof = some u
    · rw [if_pos ((peekEof_cons eof u t).2 he)]; exact ⟨by omega, by simp, by simp [he]⟩
    · rw [if_neg (fun h => he ((peekEof_cons eof u t).1 h))]
      exact (Spec.FirstEof.cons he _).2 ⟨_, rfl, ih⟩

/-! ## C21 -/

theorem newlineMatch_spec (eof : Option Nat) (he : eof ≠ some 0x0A ∧ eof ≠ some 0x0D) (s : List Nat) :
    ∃ r, newlineMatch eof s = some r ∧ ∀ n, r = some n ↔
      (∃ t, s = 0x0A :: t ∧ n = 1) ∨ (∃ t, s = 0x0D :: 0x0A :: t ∧ n = 2) := by
  obtain ⟨r, h1, h2, -⟩ := C11_set_longest [[0x0A], [0x0D, 0x0A]] eof (by
    intro w hw c hc
    simp at hw
    rcases hw with rfl | rfl
    · simp at hc; subst hc; exact he.1
    · simp at hc; rcases hc with rfl | rfl
      · exact he.2
      · exact he.1) s
  refine ⟨r, h1, fun n => ?_⟩
  rw [h2]
  have p1 : [0x0A] <+: s ↔ ∃ t, s = 0x0A :: t :=
    ⟨fun ⟨t, h⟩ => ⟨t, h.symm⟩, fun ⟨t, h⟩ => ⟨t, h.symm⟩⟩
  have p2 : [0x0D, 0x0A] <+: s ↔ ∃ t, s = 0x0D :: 0x0A :: t :=
    ⟨fun ⟨t, h⟩ => ⟨t, h.symm⟩, fun ⟨t, h⟩ => ⟨t, h.symm⟩⟩
  simp only [List.mem_cons, List.not_mem_nil, or_false, exists_eq_or_imp, exists_eq_left, forall_eq_or_imp,
    forall_eq, p1, p2, List.length_cons, List.length_nil]
  constructor
  · rintro ⟨⟨⟨t, h⟩, rfl⟩ | ⟨⟨t, h⟩, rfl⟩, -⟩
    · exact .inl ⟨t, h, rfl⟩
    · exact .inr ⟨t, h, rfl⟩
  · rintro (⟨t, rfl, rfl⟩ | ⟨t, rfl, rfl⟩)
    · exact ⟨.inl ⟨⟨t, rfl⟩, rfl⟩, by simp, by simp⟩
    · exact ⟨.inr ⟨⟨t, rfl⟩, rfl⟩, by simp, by simp⟩

/-- C21: `newline` matches exactly LF or CR LF. -/
theorem C21_newline (eof : Option Nat) (he : eof ≠ some 0x0A ∧ eof ≠ some 0x0D) (s : List Nat) :
    newlineMatch eof s ≠ none ∧ ∀ n, newlineTok eof s = some n ↔
      (∃ t, s = 0x0A :: t ∧ n = 1) ∨ (∃ t, s = 0x0D :: 0x0A :: t ∧ n = 2) := by
  obtain ⟨r, h1, h2⟩ := newlineMatch_spec eof he s
  refine ⟨by simp [h1], ?_⟩
  intro n
  unfold newlineTok
  rw [h1, ← h2]
  simp

/-- C21: `eol` succeeds at EOF without consuming and at a newline consuming it, and fails otherwise; as a branch it
    is taken exactly if it succeeds. -/
theorem C21_eol (eof : Option Nat) (he : eof ≠ some 0x0A ∧ eof ≠ some 0x0D) (s : List Nat) :
    (eolParse eof s = .eof ↔ s = [] ∨ s.head? = eof) ∧
    (∀ n, eolParse eof s = .newline n ↔
      (∃ t, s = 0x0A :: t ∧ n = 1) ∨ (∃ t, s = 0x0D :: 0x0A :: t ∧ n = 2)) ∧
    (eolTry eof s = true ↔ eolParse eof s ≠ .error) := by
  have hn := (C21_newline eof he s).2
  unfold eolParse eolTry
  have hp : peekEof eof s = true ↔ s = [] ∨ s.head? = eof := by
    cases s with
    | nil => simp [peekEof]
    | cons u t => simp only [peekEof, beq_iff_eq, List.cons_ne_nil, List.head?_cons, false_or]; exact eq_comm
  by_cases hpe : peekEof eof s = true
  · rw [if_pos hpe]
    refine ⟨by simp [← hp, hpe], ?_, by simp [hpe]⟩
    intro n
    simp only [reduceCtorEq, false_iff]
    rw [hp] at hpe
    rintro (⟨t, rfl, -⟩ | ⟨t, rfl, -⟩)
    · simp at hpe; exact he.1 hpe.symm
    · simp at hpe; exact he.2 hpe.symm
  · rw [if_neg hpe]
    have hpe' : peekEof eof s = false := by simpa using hpe
    rw [hp] at hpe
    cases hm : newlineTok eof s with
    | none =>
      rw [hm] at hn
      simp only [reduceCtorEq, false_iff] at hn
      exact ⟨by simp [hpe], by simpa using hn, by simp [hpe']⟩
    | some m =>
      refine ⟨by simp [hpe], ?_, by simp⟩
      intro n
      rw [← hn, hm]
      simp

/-! ## C19 on buffers with word-wise reads -/

/-- A unit at which a newline may start, or that is taken for EOF. -/
def untilStop (e c : Nat) : Bool := c == e || decide (c < 0xF)

theorem untilSkip_sound (k : Swar) (hw : 8 ≤ k.w) (e : Nat) (he : e < 2 ^ k.w) (cs : List Nat) (h : Swar.Word k cs)
    (hp : untilSkip k e (k.lanes cs) = true) : ∀ c ∈ cs, (!untilStop e c) = true := by
  intro c hc
  unfold untilSkip at hp
  simp only [Bool.not_eq_true', Bool.or_eq_false_iff] at hp
  have h1 : e ∉ cs := by
    intro hm
    have := (Swar.C07_has_char_exact k (by omega) e he cs h).2 hm
    rw [hp.1] at this; simp at this
  have h2 : ¬ c < 0xF := by
    intro hlt
    have h7 : 2 ^ 7 ≤ 2 ^ (k.w - 1) := Nat.pow_le_pow_right (by omega) (by omega)
    have := (Swar.C07_has_char_less_exact k (by omega) 0xF (by omega) cs h).2 ⟨c, hc, hlt⟩
    rw [hp.2] at this; simp at this
  have h3 : c ≠ e := fun hh => h1 (hh ▸ hc)
  simp [untilStop, h3]; omega

/-- A condition that can be used with the word-wise skip: it only matches at units below 0xF, and does not look
    at the sentinels. -/
structure UntilCond (e m : Nat) (cond : TokMatch) : Prop where
  start : ∀ s n, cond s = some n → ∃ u t, s = u :: t ∧ u < 0xF
  len : ∀ s n, cond s = some n → n ≤ s.length
  pad : ∀ s, cond (s ++ List.replicate m e) = cond s

theorem newlineTok_cond (e m : Nat) (he : 0xF ≤ e) : UntilCond e m (newlineTok (some e)) := by
  have hne : (some e) ≠ some 0x0A ∧ (some e) ≠ some 0x0D := ⟨by simp; omega, by simp; omega⟩
  have spec := fun s => (C21_newline (some e) hne s).2
  refine ⟨?_, ?_, ?_⟩
  · intro s n h
    rcases (spec s n).1 h with ⟨t, rfl, -⟩ | ⟨t, rfl, -⟩
    · exact ⟨_, t, rfl, by omega⟩
    · exact ⟨_, _, rfl, by omega⟩
  · intro s n h
    rcases (spec s n).1 h with ⟨t, rfl, rfl⟩ | ⟨t, rfl, rfl⟩ <;> simp
  · intro s
    apply Option.ext
    intro n
    rw [spec, spec]
    have hr : ∀ x t, List.replicate m e = x :: t → x = e := by
      intro x t h
      cases m with
      | zero => simp at h
      | succ m => simp [List.replicate_succ] at h; exact h.1.symm
    constructor
    · rintro (⟨t, h, rfl⟩ | ⟨t, h, rfl⟩)
      · cases s with
        | nil => have := hr _ _ h; omega
        | cons u s' => simp at h; exact .inl ⟨s', by rw [h.1], rfl⟩
      · cases s with
        | nil => have := hr _ _ h; omega
        | cons u s' =>
          simp at h
          cases s' with
          | nil => have := hr _ _ h.2; omega
          | cons v s'' => simp at h; exact .inr ⟨s'', by rw [h.1, h.2.1], rfl⟩
    · rintro (⟨t, rfl, rfl⟩ | ⟨t, rfl, rfl⟩)
      · exact .inl ⟨_, rfl, rfl⟩
      · exact .inr ⟨_, rfl, rfl⟩

theorem untilTok_skip {cond : TokMatch} {e m : Nat} (hc : UntilCond e m cond) (j : Nat) :
    ∀ s : List Nat, j ≤ s.length → (∀ c ∈ s.take j, (!untilStop e c) = true) →
      untilTok cond (some e) s = ((untilTok cond (some e) (s.drop j)).1, j + (untilTok cond (some e) (s.drop j)).2) ∧
      untilOrEof cond (some e) s = j + untilOrEof cond (some e) (s.drop j) := by
  induction j with
  | zero => intro s _ _; simp
  | succ j ih =>
    intro s hl hs
    cases s with
    | nil => simp at hl
    | cons u t =>
      have hu : u ≠ e ∧ ¬ u < 0xF := by
        have := hs u (by simp)
        simpa [untilStop] using this
      have hn : cond (u :: t) = none := by
        cases h : cond (u :: t) with
        | none => rfl
        | some n =>
          obtain ⟨v, t', he, hv⟩ := hc.start _ _ h
          cases he; exact absurd hv hu.2
      have hpe : peekEof (some e) (u :: t) = false := by
        simp [peekEof]; exact fun h => hu.1 h.symm
      obtain ⟨h1, h2⟩ := ih t (by simpa using hl) (fun c hc => hs c (by simp [hc]))
      rw [untilTok, untilOrEof, hn, hpe]
      simp only [Bool.false_eq_true, if_false, List.drop_succ_cons]
      rw [h1, h2]
      exact ⟨by simp only [Prod.mk.injEq, true_and]; omega, by omega⟩

/-- C19: with word-wise reads, `until` stops at the same position and stays inside of the padded buffer. -/
theorem C19_until_swar (k : Swar) (hw : 8 ≤ k.w) (hn : 0 < k.n) (e m : Nat) (hm : k.n ≤ m) (heB : e < 2 ^ k.w)
    (cond : TokMatch) (hc : UntilCond e m cond) (he : 0xF ≤ e)
    (s : List Nat) (hs : ∀ c ∈ s, c < 2 ^ k.w) :
    untilSwar k e cond (s ++ List.replicate m e) =
      some ((untilTok cond (some e) s).1, s.drop (untilTok cond (some e) s).2 ++ List.replicate m e) ∧
    untilOrEofSwar k e cond (s ++ List.replicate m e) =
      some (s.drop (untilOrEof cond (some e) s) ++ List.replicate m e) := by
  generalize hN : s.length = N
  induction N using Nat.strongRecOn generalizing s with
  | _ N ih =>
    subst hN
    obtain ⟨j, hj, h1, h2, -⟩ := Swar.C06_skip_exact k hn (untilSkip k e) (fun c => !untilStop e c)
      (untilSkip_sound k hw e heB) e m hm (by simp [untilStop]) heB s hs
    obtain ⟨g1, g2⟩ := untilTok_skip hc j s hj h2
    rw [untilSwar, untilOrEofSwar, h1, g1, g2]
    simp only
    generalize hs' : s.drop j = s' at *
    have hlen : s'.length + j = s.length := by rw [← hs']; simp; omega
    have hdrop : ∀ n, s.drop (j + n) = s'.drop n := fun n => by rw [← List.drop_drop, hs']
    rw [hc.pad]
    have hstart : ∀ n, cond s' = some n → ¬ peekEof (some e) (s' ++ List.replicate m e) = true := by
      intro n hcs
      obtain ⟨u, t, rfl, hu⟩ := hc.start _ _ hcs
      simp [peekEof]; omega
    have hrep : List.replicate m e = e :: List.replicate (m - 1) e := by
      rw [← List.replicate_succ]; congr 1; omega
    cases hcs : cond s' with
    | some n =>
      have hle := hc.len _ _ hcs
      have hne := hstart n hcs
      obtain ⟨u, t, rfl, hu⟩ := hc.start _ _ hcs
      have hue : ¬ e = u := by omega
      constructor
      · rw [untilTok, hcs]
        simp only
        rw [hdrop, List.drop_append_of_le_length hle]
      · rw [if_neg hne]
        simp only
        rw [untilOrEof, hcs, if_neg (by simp [peekEof, hue]), hdrop, List.drop_append_of_le_length hle]
    | none =>
      simp only
      cases s' with
      | nil =>
        rw [untilTok, untilOrEof, hcs]
        simp only [List.nil_append, peekEof, if_true]
        rw [hrep]
        have : s.drop j = [] := hs'
        simp [this, hrep]
      | cons u t =>
        have hut : s.drop j = u :: t := hs'
        have htl : t.length + 1 + j = s.length := by simpa using hlen
        have hst : ∀ c ∈ t, c < 2 ^ k.w := by
          intro c hct
          apply hs c
          apply List.mem_of_mem_drop (i := j)
          rw [hut]; simp [hct]
        obtain ⟨i1, i2⟩ := ih t.length (by omega) t hst rfl
        rw [untilTok, untilOrEof, hcs]
        simp only [List.cons_append]
        have hpe : ∀ r : List Nat, peekEof (some e) (u :: r) = (e == u) := fun r => by simp [peekEof]
        rw [hpe, hpe]
        by_cases hue : e = u
        · simp [hue]
          rw [hut, ← hue]
          simp
        · have hf : (e == u) = false := by simpa using hue
          rw [hf]
          simp only [Bool.false_eq_true, if_false]
          rw [dif_pos (by simp; omega), dif_pos (by simp; omega), i1, i2, hdrop, hdrop]
          simp

/-- C19: `any` with word-wise reads. -/
theorem C19_any_swar (k : Swar) (hw : 1 ≤ k.w) (hn : 0 < k.n) (e m : Nat) (hm : k.n ≤ m) (heB : e < 2 ^ k.w)
    (s : List Nat) (hs : ∀ c ∈ s, c < 2 ^ k.w) :
    anySwar k e (s ++ List.replicate m e) = some (s.drop (anyTok (some e) s) ++ List.replicate m e) := by
  obtain ⟨j, hj, h1, h2, -⟩ := Swar.C06_skip_exact k hn (fun v => !k.hasChar e v) (fun c => c != e)
    (by
      intro cs hcs hp c hc
      simp only [Bool.not_eq_true'] at hp
      simp only [bne_iff_ne, ne_eq]
      rintro rfl
      have := (Swar.C07_has_char_exact k hw c heB cs hcs).2 hc
      rw [hp] at this; simp at this) e m hm (by simp) heB s hs
  unfold anySwar
  rw [h1]
  simp only [Option.map_some, Option.some.injEq]
  have skip : ∀ j (s : List Nat), j ≤ s.length → (∀ c ∈ s.take j, (c != e) = true) →
      anyTok (some e) s = j + anyTok (some e) (s.drop j) := by
    intro j
    induction j with
    | zero => intro s _ _; simp
    | succ j ih =>
      intro s hl hs
      cases s with
      | nil => simp at hl
      | cons u t =>
        have hu : u ≠ e := by simpa using hs u (by simp)
        rw [anyTok, if_neg (by simp [peekEof]; exact fun h => hu h.symm)]
        simp only [List.drop_succ_cons]
        rw [ih t (by simpa using hl) (fun c hc => hs c (by simp [hc]))]; omega
  have pad : ∀ s : List Nat, anyTok (some e) (s ++ List.replicate m e) = anyTok (some e) s := by
    intro s
    induction s with
    | nil =>
      cases m with
      | zero => omega
      | succ m => simp [List.replicate_succ, anyTok_nil, anyTok_cons]
    | cons u t ih => rw [List.cons_append, anyTok_cons, anyTok_cons, ih]
  rw [pad, skip j s hj h2]
  have hle := (C19_any (some e) (s.drop j)).le
  rw [List.drop_append_of_le_length hle, List.drop_drop]

/-! ### Non-vacuity -/

example : untilTok (newlineTok (some 0xFF)) (some 0xFF) [0x61, 0x0D, 0x62, 0x0D, 0x0A, 0x63] = (true, 5) ∧
    untilTok (newlineTok (some 0xFF)) (some 0xFF) [0x61, 0x0D] = (false, 2) ∧
    untilOrEof (newlineTok (some 0xFF)) (some 0xFF) [0x61, 0x0D] = 2 := by
  decide +kernel

example : untilSwar .char8 0xFF (newlineTok (some 0xFF))
    ([0x61, 0x62, 0x63, 0x64, 0x65, 0x66, 0x67, 0x68, 0x69, 0x0D, 0x0A, 0x61] ++ List.replicate 8 0xFF) =
    some (true, [0x61] ++ List.replicate 8 0xFF) := by
  have := (C19_until_swar .char8 (by decide) (by decide) 0xFF 8 (by decide) (by decide) _
    (newlineTok_cond 0xFF 8 (by decide)) (by decide)
    [0x61, 0x62, 0x63, 0x64, 0x65, 0x66, 0x67, 0x68, 0x69, 0x0D, 0x0A, 0x61]
    (by intro c hc; simp [Swar.char8] at *; omega)).1
  rw [this]
  decide +kernel

end Verif
