import Verif.Digit
import Verif.IdentifierProps

/-!
Property C16: digit sequences.
-/

namespace Verif

/-! ## Specification -/

/-- Which letters a base admits as digits. -/
def Spec.lowerHex : Base → Bool
  | .hexLower | .hex => true
  | _ => false
def Spec.upperHex : Base → Bool
  | .hexUpper | .hex => true
  | _ => false
def Spec.radix : Base → Nat
  | .binary => 2 | .octal => 8 | .decimal => 10 | _ => 16

/-- The value of a character as a digit. -/
def Spec.digit (b : Base) (u : Nat) : Option Nat :=
  if 0x30 ≤ u ∧ u ≤ 0x39 ∧ u - 0x30 < Spec.radix b then some (u - 0x30)
  else if Spec.lowerHex b ∧ 0x61 ≤ u ∧ u ≤ 0x66 then some (u - 0x61 + 10)
  else if Spec.upperHex b ∧ 0x41 ≤ u ∧ u ≤ 0x46 then some (u - 0x41 + 10)
  else none

def Spec.IsDigitOf (b : Base) (u : Nat) : Prop := (Spec.digit b u).isSome = true

instance (b u) : Decidable (Spec.IsDigitOf b u) := by unfold Spec.IsDigitOf; infer_instance

theorem Spec.isDigitOf_lt {b : Base} {u : Nat} (h : Spec.IsDigitOf b u) : u < 128 := by
  unfold Spec.IsDigitOf Spec.digit at h
  split at h
  · omega
  split at h
  · omega
  split at h
  · omega
  · simp at h

theorem Base.ascii_spec (b : Base) (u : Nat) (hu : u < 128) :
    b.ascii u = true ↔ Spec.IsDigitOf b u := by
  have : ∀ u < 128, (b.ascii u = true ↔ Spec.IsDigitOf b u) := by
    cases b <;> decide +kernel
  exact this u hu

/-- The digit token looks at exactly one unit. -/
theorem Base.tok_cons (b : Base) (u : Nat) (t : List Nat) :
    b.tok (u :: t) = if Spec.IsDigitOf b u then some 1 else none := by
  unfold Base.tok
  have : (CC.leaf b.ascii none).tableMatch (u :: t) = true ↔ Spec.IsDigitOf b u := by
    simp only [CC.tableMatch, CC.ascii, C09_compressed_exact]
    constructor
    · rintro ⟨h1, h2⟩; exact (b.ascii_spec u h1).1 h2
    · intro h; exact ⟨Spec.isDigitOf_lt h, (b.ascii_spec u (Spec.isDigitOf_lt h)).2 h⟩
  by_cases h : Spec.IsDigitOf b u
  · rw [if_pos h, if_pos (this.2 h)]
  · rw [if_neg h, if_neg (fun h' => h (this.1 h'))]

theorem Base.tok_nil (b : Base) : b.tok [] = none := rfl

/-- `Base::digit_value` of a character below the size of its type, which may be a signed 8 bit type: the value
    of a digit is its value, everything else is at least the radix. -/
theorem Base.value_spec (b : Base) (c : Int) (h1 : -128 ≤ c) (h2 : c < 4294967296) :
    (∀ u : Nat, c = u → ∀ v, Spec.digit b u = some v → b.value c = v ∧ v < b.radix) ∧
    ((∀ u : Nat, c = u → Spec.digit b u = none) → b.radix ≤ b.value c) := by
  constructor
  · rintro u rfl v hv
    unfold Spec.digit at hv
    split at hv
    · cases hv
      cases b <;> simp only [Spec.radix] at * <;>
        simp only [Base.value, Base.radix, Base.u32] <;> (repeat' split) <;> omega
    split at hv
    · cases hv
      cases b <;> simp only [Spec.lowerHex, Bool.false_eq_true, false_and] at * <;>
        simp only [Base.value, Base.radix, Base.u32] <;> (repeat' split) <;> omega
    split at hv
    · cases hv
      cases b <;> simp only [Spec.upperHex, Bool.false_eq_true, false_and] at * <;>
        simp only [Base.value, Base.radix, Base.u32] <;> (repeat' split) <;> omega
    · simp at hv
  · intro h
    rcases Int.lt_or_le c 0 with hc | hc
    · cases b <;> simp only [Base.value, Base.radix, Base.u32] <;> (repeat' split) <;> omega
    · obtain ⟨u, rfl⟩ := Int.eq_ofNat_of_zero_le hc
      have hv := h u rfl
      unfold Spec.digit at hv
      split at hv
      · simp at hv
      split at hv
      · simp at hv
      split at hv
      · simp at hv
      · rename_i g1 g2 g3
        clear hv h
        cases b <;> simp only [Spec.radix, Spec.lowerHex, Spec.upperHex, Bool.false_eq_true, false_and,
          not_false_eq_true, true_and] at g1 g2 g3 <;>
          simp only [Base.value, Base.radix, Base.u32, Int.ofNat_eq_natCast] at * <;>
          (repeat' split) <;> omega

/-! ## C16 -/

theorem trailLoop_tok_cons (b : Base) (u : Nat) (t : List Nat) :
    trailLoop b.tok (u :: t) = if Spec.IsDigitOf b u then 1 + trailLoop b.tok t else 0 := by
  rw [trailLoop, Base.tok_cons]
  by_cases h : Spec.IsDigitOf b u
  · simp [h]
  · simp [h]

theorem trailLoop_tok_spec (b : Base) (s : List Nat) :
    (∀ u ∈ s.take (trailLoop b.tok s), Spec.IsDigitOf b u) ∧
    (∀ u, (s.drop (trailLoop b.tok s)).head? = some u → ¬ Spec.IsDigitOf b u) := by
  induction s with
  | nil => rw [trailLoop]; simp [Base.tok_nil]
  | cons u t ih =>
    rw [trailLoop_tok_cons]
    by_cases h : Spec.IsDigitOf b u
    · rw [if_pos h, Nat.add_comm 1]
      simp only [List.take_succ_cons, List.mem_cons, List.drop_succ_cons]
      exact ⟨by rintro v (rfl | hv); exact h; exact ih.1 v hv, ih.2⟩
    · rw [if_neg h]
      simp [h]

/-- The maximal run of digits at the beginning of `s` has length `n`. -/
structure Spec.MaxRun (b : Base) (s : List Nat) (n : Nat) : Prop where
  le : n ≤ s.length
  all : ∀ u ∈ s.take n, Spec.IsDigitOf b u
  stop : ∀ u, (s.drop n).head? = some u → ¬ Spec.IsDigitOf b u

theorem trailLoop_maxRun (b : Base) (s : List Nat) : Spec.MaxRun b s (trailLoop b.tok s) :=
  ⟨trailLoop_le _ _, (trailLoop_tok_spec b s).1, (trailLoop_tok_spec b s).2⟩

theorem Spec.MaxRun.unique {b : Base} {s : List Nat} {n m : Nat} (hn : Spec.MaxRun b s n)
    (hm : Spec.MaxRun b s m) : n = m := by
  have key : ∀ {n m}, Spec.MaxRun b s n → Spec.MaxRun b s m → ¬ n < m := by
    intro n m hn hm hlt
    have hl := hm.le
    have hget : (s.drop n).head? = some (s[n]'(by omega)) := by
      rw [List.head?_drop]; simp
    apply hn.stop _ hget
    apply hm.all
    rw [List.mem_take_iff_getElem]
    exact ⟨n, by omega, rfl⟩
  have := key hn hm; have := key hm hn; omega

/-- C16: `digits<Base>` consumes exactly the maximal run of digits and fails exactly if it is empty. -/
theorem C16_digits_maximal (b : Base) (s : List Nat) (n : Nat) :
    matchDigits b s = (true, n) ↔ 0 < n ∧ Spec.MaxRun b s n := by
  have hx : ∀ n, Spec.MaxRun b s n ↔ n = trailLoop b.tok s :=
    fun n => ⟨fun h => h.unique (trailLoop_maxRun b s), fun h => h ▸ trailLoop_maxRun b s⟩
  rw [hx]
  cases s with
  | nil => simp [matchDigits, Base.tok_nil, trailLoop]; omega
  | cons u t =>
    rw [matchDigits, Base.tok_cons, trailLoop_tok_cons]
    by_cases h : Spec.IsDigitOf b u
    · simp [h]; omega
    · simp [h]; omega

/-- C16: failing leaves the reader where it was. -/
theorem C16_digits_fail (b : Base) (s : List Nat) :
    (∀ u, s.head? = some u → ¬ Spec.IsDigitOf b u) → matchDigits b s = (false, 0) := by
  cases s with
  | nil => simp [matchDigits, Base.tok_nil]
  | cons u t =>
    intro h
    have := h u rfl
    simp [matchDigits, Base.tok_cons, this]

/-- C16: `no_leading_zero` rejects exactly the digit sequences that start with 0 followed by another digit,
    pointing behind the zero; everything else is as without it. -/
theorem C16_no_leading_zero (b : Base) (s : List Nat) :
    (∀ n, noLeadingZero (matchDigits b s) s = (true, n, false) ↔
      0 < n ∧ Spec.MaxRun b s n ∧ ¬ (s.head? = some 0x30 ∧ 1 < n)) ∧
    (noLeadingZero (matchDigits b s) s = (false, 1, true) ↔
      ∃ u, s.take 2 = [0x30, u] ∧ Spec.IsDigitOf b u) := by
  have hz : Spec.IsDigitOf b 0x30 := by cases b <;> decide
  have key : (∃ u, s.take 2 = [0x30, u] ∧ Spec.IsDigitOf b u) ↔
      s.head? = some 0x30 ∧ ∃ n, matchDigits b s = (true, n) ∧ 1 < n := by
    match s with
    | [] => simp
    | [v] =>
      simp only [List.take_succ_cons, List.take_nil, List.cons.injEq, reduceCtorEq, and_false,
        false_and, exists_false, List.head?_cons, Option.some.injEq, false_iff, not_and, not_exists]
      rintro rfl n h
      have := ((C16_digits_maximal b [0x30] n).1 h).2.le
      simp at this; omega
    | v :: w :: t =>
      simp only [List.take_succ_cons, List.take_zero, List.cons.injEq, and_true, List.head?_cons,
        Option.some.injEq]
      constructor
      · rintro ⟨u, ⟨rfl, rfl⟩, hu⟩
        refine ⟨rfl, 1 + trailLoop b.tok (w :: t), ?_, ?_⟩
        · simp [matchDigits, Base.tok_cons, hz]
        · rw [trailLoop_tok_cons, if_pos hu]; omega
      · rintro ⟨rfl, n, h, h1⟩
        refine ⟨w, ⟨rfl, rfl⟩, ?_⟩
        apply ((C16_digits_maximal b _ n).1 h).2.all
        rw [List.mem_take_iff_getElem]
        refine ⟨1, ?_, rfl⟩
        simp; omega
  rw [key]
  unfold noLeadingZero
  rcases hr : matchDigits b s with ⟨ok, m⟩
  have hm : ok = true → 0 < m ∧ Spec.MaxRun b s m := by
    rintro rfl; exact (C16_digits_maximal b s m).1 hr
  constructor
  · intro n
    rw [← and_assoc, ← C16_digits_maximal, hr]
    by_cases c : (ok && m != 1 && s.head? == some 0x30) = true
    · rw [if_pos c]
      simp only [Bool.and_eq_true, bne_iff_ne, ne_eq, beq_iff_eq] at c
      obtain ⟨⟨rfl, c2⟩, c3⟩ := c
      have := hm rfl
      simp only [Prod.mk.injEq, Bool.false_eq_true, false_and, true_and, c3, false_iff, not_and]
      rintro rfl; omega
    · rw [if_neg c]
      simp only [Bool.and_eq_true, bne_iff_ne, ne_eq, beq_iff_eq, not_and] at c
      simp only [Prod.mk.injEq, and_true]
      constructor
      · rintro ⟨rfl, rfl⟩
        refine ⟨⟨rfl, rfl⟩, ?_⟩
        rintro ⟨h1, h2⟩
        exact c ⟨rfl, by omega⟩ h1
      · exact fun h => h.1
  · by_cases c : (ok && m != 1 && s.head? == some 0x30) = true
    · rw [if_pos c]
      simp only [Bool.and_eq_true, bne_iff_ne, ne_eq, beq_iff_eq] at c
      obtain ⟨⟨rfl, c2⟩, c3⟩ := c
      have := hm rfl
      simp only [true_iff]
      exact ⟨c3, m, rfl, by omega⟩
    · rw [if_neg c]
      simp only [Bool.and_eq_true, bne_iff_ne, ne_eq, beq_iff_eq, not_and] at c
      simp only [Prod.mk.injEq, Bool.false_eq_true, and_false, false_iff, not_and, not_exists]
      rintro h n ⟨rfl, rfl⟩ h1
      exact c ⟨rfl, by omega⟩ h

/-- Specification: the first `n` units of `s` are `digit+ (sep digit+)*`. -/
inductive Spec.DigitsSep (b : Base) (S : TokMatch) : List Nat → Nat → Prop
  | one {u t} : IsDigitOf b u → DigitsSep b S (u :: t) 1
  | digit {u t n} : IsDigitOf b u → DigitsSep b S t n → DigitsSep b S (u :: t) (1 + n)
  | sep {u t k n} : IsDigitOf b u → S t = some k → DigitsSep b S (t.drop k) n →
      DigitsSep b S (u :: t) (1 + (k + n))

/-- Law of a separator: it does not match at a digit. -/
def SepLaw (b : Base) (S : TokMatch) : Prop := ∀ u t, Spec.IsDigitOf b u → S (u :: t) = none

theorem digitsSepLoop_cons {b : Base} {S : TokMatch} (hS : SepLaw b S) {u : Nat} {t : List Nat}
    (h : Spec.IsDigitOf b u) : digitsSepLoop b S (u :: t) =
      ((digitsSepLoop b S t).1, 1 + (digitsSepLoop b S t).2) := by
  rw [digitsSepLoop]
  simp [hS u t h, Base.tok_cons, h]

theorem digitsSepLoop_sep {b : Base} {S : TokMatch} {s : List Nat} {k : Nat} (hk : S s = some k) :
    (∃ u t, s.drop k = u :: t ∧ Spec.IsDigitOf b u ∧
      digitsSepLoop b S s = ((digitsSepLoop b S t).1, k + 1 + (digitsSepLoop b S t).2)) ∨
    ((∀ u, (s.drop k).head? = some u → ¬ Spec.IsDigitOf b u) ∧ digitsSepLoop b S s = (false, k)) := by
  cases hd : s.drop k with
  | nil =>
    right
    rw [digitsSepLoop]; simp [hk, hd, Base.tok_nil]
  | cons u t =>
    by_cases h : Spec.IsDigitOf b u
    · left
      have hlen : k + 1 ≤ s.length := by have := congrArg List.length hd; simp at this; omega
      have ht : s.drop (k + 1) = t := by rw [← List.drop_drop, hd]; rfl
      refine ⟨u, t, rfl, h, ?_⟩
      rw [digitsSepLoop]
      simp [hk, hd, Base.tok_cons, h, hlen, ht]
    · right
      rw [digitsSepLoop]
      simp [hk, hd, Base.tok_cons, h]

theorem digitsSepLoop_stop {b : Base} {S : TokMatch} {s : List Nat} (hk : S s = none)
    (hd : ∀ u, s.head? = some u → ¬ Spec.IsDigitOf b u) : digitsSepLoop b S s = (true, 0) := by
  rw [digitsSepLoop]
  cases s with
  | nil => simp [hk, Base.tok_nil]
  | cons u t => simp [hk, Base.tok_cons, hd u rfl]

/-- Where a digit sequence with separators may stop. -/
structure Spec.SepStop (b : Base) (S : TokMatch) (s : List Nat) : Prop where
  noDigit : ∀ u, s.head? = some u → ¬ Spec.IsDigitOf b u
  noSep : S s = none

theorem digitsSepLoop_sound {b : Base} {S : TokMatch} (hS : SepLaw b S) (s : List Nat) :
    ∀ u, Spec.IsDigitOf b u →
    ((digitsSepLoop b S s).1 = true →
      Spec.DigitsSep b S (u :: s) (1 + (digitsSepLoop b S s).2) ∧
      Spec.SepStop b S (s.drop (digitsSepLoop b S s).2)) ∧
    ((digitsSepLoop b S s).1 = false → ∃ n k, Spec.DigitsSep b S (u :: s) n ∧
      S ((u :: s).drop n) = some k ∧
      (∀ v, ((u :: s).drop (n + k)).head? = some v → ¬ Spec.IsDigitOf b v) ∧
      1 + (digitsSepLoop b S s).2 = n + k) := by
  generalize hN : s.length = N
  induction N using Nat.strongRecOn generalizing s with
  | _ N ih =>
    subst hN
    intro u hu
    cases hk : S s with
    | some k =>
      rcases digitsSepLoop_sep (b := b) hk with ⟨v, t, hd, hv, he⟩ | ⟨hd, he⟩
      · have hlen : t.length < s.length := by have := congrArg List.length hd; simp at this; omega
        have hdrop : ∀ j, s.drop (k + 1 + j) = t.drop j := by
          intro j; rw [Nat.add_assoc, ← List.drop_drop, hd, Nat.add_comm 1]; rfl
        obtain ⟨i1, i2⟩ := ih t.length hlen t rfl v hv
        rw [he]
        constructor
        · intro hb
          obtain ⟨j1, j2⟩ := i1 hb
          refine ⟨?_, ?_⟩
          · have := Spec.DigitsSep.sep (b := b) (S := S) hu hk (hd ▸ j1)
            rw [show 1 + (k + 1 + (digitsSepLoop b S t).2) = 1 + (k + (1 + (digitsSepLoop b S t).2)) by omega]
            exact this
          · rw [hdrop]; exact j2
        · intro hb
          obtain ⟨n, k', j1, j2, j3, j4⟩ := i2 hb
          refine ⟨1 + (k + n), k', Spec.DigitsSep.sep hu hk (hd ▸ j1), ?_, ?_, by simp only; omega⟩
          · rw [Nat.add_comm 1, List.drop_succ_cons, ← List.drop_drop, hd]; exact j2
          · rw [show 1 + (k + n) + k' = (k + (n + k')) + 1 by omega, List.drop_succ_cons,
              ← List.drop_drop, hd]
            exact j3
      · rw [he]
        refine ⟨by simp, ?_⟩
        intro _
        refine ⟨1, k, .one hu, by simpa using hk, ?_, rfl⟩
        rw [Nat.add_comm 1, List.drop_succ_cons]; exact hd
    | none =>
      cases s with
      | nil =>
        rw [digitsSepLoop_stop hk (by simp)]
        exact ⟨fun _ => ⟨.one hu, by simp, by simpa using hk⟩, by simp⟩
      | cons v t =>
        by_cases hv : Spec.IsDigitOf b v
        · rw [digitsSepLoop_cons hS hv]
          obtain ⟨i1, i2⟩ := ih t.length (by simp) t rfl v hv
          constructor
          · intro hb
            obtain ⟨j1, j2⟩ := i1 hb
            refine ⟨.digit hu j1, ?_⟩
            rw [Nat.add_comm 1]; exact j2
          · intro hb
            obtain ⟨n, k', j1, j2, j3, j4⟩ := i2 hb
            refine ⟨1 + n, k', .digit hu j1, ?_, ?_, by simp only; omega⟩
            · rw [Nat.add_comm 1]; exact j2
            · rw [show 1 + n + k' = (n + k') + 1 by omega]; exact j3
        · have hd : ∀ w, (v :: t).head? = some w → ¬ Spec.IsDigitOf b w := by
            intro w hw; cases hw; exact hv
          rw [digitsSepLoop_stop hk hd]
          exact ⟨fun _ => ⟨.one hu, ⟨by simpa using hd, by simpa using hk⟩⟩, by simp⟩

theorem digitsSepLoop_complete {b : Base} {S : TokMatch} (hS : SepLaw b S) {s : List Nat} {n : Nat}
    (h : Spec.DigitsSep b S s n) (hstop : Spec.SepStop b S (s.drop n)) :
    ∃ u t, s = u :: t ∧ Spec.IsDigitOf b u ∧ digitsSepLoop b S t = (true, n - 1) ∧ 0 < n := by
  induction h with
  | one hu =>
    refine ⟨_, _, rfl, hu, ?_, by omega⟩
    exact digitsSepLoop_stop (by simpa using hstop.noSep) (by simpa using hstop.noDigit)
  | @digit u t n hu _ ih =>
    rw [Nat.add_comm 1] at hstop
    obtain ⟨v, t', rfl, h2, h3, h4⟩ := ih hstop
    refine ⟨u, _, rfl, hu, ?_, by omega⟩
    rw [digitsSepLoop_cons hS h2, h3]
    simp; omega
  | @sep u t k n hu hk _ ih =>
    rw [Nat.add_comm 1, List.drop_succ_cons, ← List.drop_drop] at hstop
    obtain ⟨v, t', h1, h2, h3, h4⟩ := ih hstop
    refine ⟨u, _, rfl, hu, ?_, by omega⟩
    rcases digitsSepLoop_sep (b := b) hk with ⟨v', t'', hd, hv, he⟩ | ⟨hd, he⟩
    · rw [h1] at hd
      cases hd
      rw [he, h3]
      simp; omega
    · rw [h1] at hd
      exact absurd h2 (hd v rfl)

/-- C16: `digits<Base>.sep(s)` accepts exactly `digit+ (sep digit+)*`, up to where neither a digit nor a
    separator follows. -/
theorem C16_digits_sep (b : Base) (S : TokMatch) (hS : SepLaw b S) (s : List Nat) (n : Nat) :
    matchDigitsSep b S s = (true, n) ↔ Spec.DigitsSep b S s n ∧ Spec.SepStop b S (s.drop n) := by
  constructor
  · intro h
    cases s with
    | nil => simp [matchDigitsSep, Base.tok_nil] at h
    | cons u t =>
      rw [matchDigitsSep, Base.tok_cons] at h
      by_cases hu : Spec.IsDigitOf b u
      · simp only [hu, if_true, List.drop_succ_cons, List.drop_zero, Prod.mk.injEq] at h
        obtain ⟨h1, rfl⟩ := h
        obtain ⟨j1, j2⟩ := (digitsSepLoop_sound hS t u hu).1 h1
        refine ⟨j1, ?_⟩
        rw [Nat.add_comm 1]; exact j2
      · simp [hu] at h
  · rintro ⟨h1, h2⟩
    obtain ⟨u, t, rfl, hu, he, hn⟩ := digitsSepLoop_complete hS h1 h2
    simp only [matchDigitsSep, Base.tok_cons, hu, if_true, List.drop_succ_cons, List.drop_zero, he,
      Prod.mk.injEq, true_and]
    omega

/-- C16: it fails exactly if there is no digit, or a separator is not followed by a digit; the reader then
    stops behind the separator. -/
theorem C16_digits_sep_fail (b : Base) (S : TokMatch) (hS : SepLaw b S) (s : List Nat) (m : Nat)
    (h : matchDigitsSep b S s = (false, m)) :
    (m = 0 ∧ ∀ u, s.head? = some u → ¬ Spec.IsDigitOf b u) ∨
    ∃ n k, m = n + k ∧ Spec.DigitsSep b S s n ∧ S (s.drop n) = some k ∧
      ∀ u, (s.drop (n + k)).head? = some u → ¬ Spec.IsDigitOf b u := by
  cases s with
  | nil => simp [matchDigitsSep, Base.tok_nil] at h; left; simp [h]
  | cons u t =>
    rw [matchDigitsSep, Base.tok_cons] at h
    by_cases hu : Spec.IsDigitOf b u
    · right
      simp only [hu, if_true, List.drop_succ_cons, List.drop_zero, Prod.mk.injEq] at h
      obtain ⟨h1, rfl⟩ := h
      obtain ⟨n, k, j1, j2, j3, j4⟩ := (digitsSepLoop_sound hS t u hu).2 h1
      exact ⟨n, k, j4, j1, j2, j3⟩
    · left
      simp [hu] at h
      refine ⟨h.symm, ?_⟩
      intro v hv; cases hv; exact hu

/-- C16: `n_digits<N>` consumes exactly `N` digits, and fails exactly if there are fewer (stopping behind
    them). -/
theorem C16_n_digits (b : Base) (N : Nat) (s : List Nat) :
    ((N ≤ s.length ∧ ∀ u ∈ s.take N, Spec.IsDigitOf b u) → nDigits b N s = (true, N)) ∧
    (¬ (N ≤ s.length ∧ ∀ u ∈ s.take N, Spec.IsDigitOf b u) →
      ∃ n, n < N ∧ nDigits b N s = (false, n) ∧ Spec.MaxRun b s n) := by
  induction N generalizing s with
  | zero => simp [nDigits]
  | succ N ih =>
    cases s with
    | nil =>
      refine ⟨by simp, fun _ => ⟨0, by omega, by simp [nDigits, Base.tok_nil], by simp, by simp, by simp⟩⟩
    | cons u t =>
      by_cases hu : Spec.IsDigitOf b u
      · obtain ⟨i1, i2⟩ := ih t
        simp only [List.length_cons, List.take_succ_cons, List.mem_cons, forall_eq_or_imp, hu, true_and,
          Nat.add_le_add_iff_right]
        simp only [nDigits, Base.tok_cons, hu, if_true, List.drop_succ_cons, List.drop_zero]
        constructor
        · intro h; rw [i1 h]; simp; omega
        · intro h
          obtain ⟨n, h1, h2, h3⟩ := i2 h
          refine ⟨1 + n, by omega, by rw [h2], ?_, ?_, ?_⟩
          · have := h3.le; simp; omega
          · rw [Nat.add_comm 1]; simp only [List.take_succ_cons, List.mem_cons, forall_eq_or_imp, hu, true_and]
            exact h3.all
          · rw [Nat.add_comm 1]; exact h3.stop
      · constructor
        · rintro ⟨-, h⟩; exact absurd (h u (by simp)) hu
        · intro _
          refine ⟨0, by omega, by simp [nDigits, Base.tok_cons, hu], by omega, by simp, ?_⟩
          intro v hv; cases hv; exact hu

/-- Specification: `digit (sep? digit){N-1}` on the first `n` units (a separator is used whenever it matches). -/
inductive Spec.NSep (b : Base) (S : TokMatch) : Nat → List Nat → Nat → Prop
  | zero {s} : NSep b S 0 s 0
  | digit {N u t n} : IsDigitOf b u → S (u :: t) = none → NSep b S N t n → NSep b S (N + 1) (u :: t) (1 + n)
  | sep {N s k u t n} : S s = some k → s.drop k = u :: t → IsDigitOf b u → NSep b S N t n →
      NSep b S (N + 1) s (k + 1 + n)

/-- C16: `n_digits<N>.sep(s)` matches exactly `N` digits with optional separators in between. -/
theorem C16_n_digits_sep (b : Base) (S : TokMatch) (N : Nat) (s : List Nat) (n : Nat) :
    nDigitsSep b S (N + 1) s = (true, n) ↔
      ∃ u t m, s = u :: t ∧ Spec.IsDigitOf b u ∧ Spec.NSep b S N t m ∧ n = 1 + m := by
  have tail : ∀ N s n, nDigitsSepTail b S N s = (true, n) ↔ Spec.NSep b S N s n := by
    intro N
    induction N with
    | zero =>
      intro s n
      simp only [nDigitsSepTail, Prod.mk.injEq, true_and]
      constructor
      · rintro rfl; exact .zero
      · intro h; cases h; rfl
    | succ N ih =>
      intro s n
      simp only [nDigitsSepTail]
      constructor
      · intro h
        cases hd : s.drop ((S s).getD 0) with
        | nil => simp [hd, Base.tok_nil] at h
        | cons u t =>
          rw [hd, Base.tok_cons] at h
          by_cases hu : Spec.IsDigitOf b u
          · have ht : s.drop ((S s).getD 0 + 1) = t := by rw [← List.drop_drop, hd]; rfl
            simp only [hu, if_true, ht, Prod.mk.injEq] at h
            obtain ⟨h1, rfl⟩ := h
            have hns := (ih t (nDigitsSepTail b S N t).2).1 (by rw [← h1])
            cases hk : S s with
            | none =>
              rw [hk] at hd
              simp only [Option.getD_none, List.drop_zero] at hd
              subst hd
              simp only [Option.getD_none, Nat.zero_add]
              exact .digit hu hk hns
            | some k =>
              rw [hk] at hd
              exact .sep hk hd hu hns
          · simp [hu] at h
      · intro h
        cases h with
        | digit hu hk hns =>
          rw [hk]
          simp only [Option.getD_none, List.drop_zero, Base.tok_cons, hu, if_true, Nat.zero_add,
            List.drop_succ_cons]
          rw [(ih _ _).2 hns]
        | @sep _ _ k u t m hk hd hu hns =>
          have ht : s.drop (k + 1) = t := by rw [← List.drop_drop, hd]; rfl
          rw [hk]
          simp only [Option.getD_some, hd, Base.tok_cons, hu, if_true, ht]
          rw [(ih _ _).2 hns]
  cases s with
  | nil => simp [nDigitsSep, Base.tok_nil]
  | cons u t =>
    simp only [nDigitsSep, Base.tok_cons]
    by_cases hu : Spec.IsDigitOf b u
    · simp only [hu, if_true, List.drop_succ_cons, List.drop_zero, Prod.mk.injEq]
      constructor
      · rintro ⟨h1, rfl⟩
        exact ⟨u, t, _, rfl, hu, (tail N t _).1 (by rw [← h1]), rfl⟩
      · rintro ⟨u', t', m, he, _, h2, rfl⟩
        cases he
        rw [(tail N t m).2 h2]
        simp
    · simp only [hu, if_false, Prod.mk.injEq, Bool.false_eq_true, false_and, false_iff, not_exists, not_and]
      intro u' t' m he hu'
      cases he
      exact absurd hu' hu

/-- C16: on a buffer with word-wise reads `digits<Base>` stops at the same position and stays inside of the
    padded buffer. -/
theorem C16_digits_swar (k : Swar) (hw : 8 ≤ k.w) (hn : 0 < k.n) (b : Base) (e m : Nat) (hm : k.n ≤ m)
    (he : 128 ≤ e) (heB : e < 2 ^ k.w) (s : List Nat) (hs : ∀ c ∈ s, c < 2 ^ k.w) :
    matchDigitsSwar k b (s ++ List.replicate m e) =
      some ((matchDigits b s).1, s.drop (matchDigits b s).2 ++ List.replicate m e) := by
  have hed : ¬ Spec.IsDigitOf b e := fun h => by have := Spec.isDigitOf_lt h; omega
  have tl : ∀ s : List Nat, trailLoop b.tok (s ++ List.replicate m e) = trailLoop b.tok s := by
    intro s
    induction s with
    | nil =>
      cases m with
      | zero => rfl
      | succ m =>
        rw [List.nil_append, List.replicate_succ, trailLoop_tok_cons, if_neg hed, trailLoop]
        simp [Base.tok_nil]
    | cons u t ih => rw [List.cons_append, trailLoop_tok_cons, trailLoop_tok_cons, ih]
  have tj : ∀ j (s : List Nat), (∀ c ∈ s.take j, Spec.IsDigitOf b c) → j ≤ s.length →
      trailLoop b.tok s = j + trailLoop b.tok (s.drop j) := by
    intro j
    induction j with
    | zero => intro s _ _; simp
    | succ j ih =>
      intro s h hl
      cases s with
      | nil => simp at hl
      | cons u t =>
        rw [trailLoop_tok_cons, if_pos (h u (by simp)), ih t (fun c hc => h c (by simp [hc])) (by simpa using hl)]
        simp only [List.drop_succ_cons]; omega
  have sound : ∀ cs, Swar.Word k cs → k.digits b.swarOffset (k.lanes cs) = true →
      ∀ c ∈ cs, decide (Spec.IsDigitOf b c) = true := by
    intro cs hcs hp c hc
    have hoff : b.swarOffset = 16 - (if b = .binary then 2 else if b = .octal then 8 else 10) := by
      cases b <;> rfl
    rw [hoff] at hp
    have hr := (Swar.C06_digits_exact k hw _ (by cases b <;> simp) cs hcs).1 hp c hc
    simp only [Spec.isDigitOf, Bool.and_eq_true, decide_eq_true_eq] at hr
    simp only [decide_eq_true_eq]
    unfold Spec.IsDigitOf Spec.digit
    have : 0x30 ≤ c ∧ c ≤ 0x39 ∧ c - 0x30 < Spec.radix b := by
      cases b <;> simp at hr <;> simp [Spec.radix] <;> omega
    rw [if_pos this]; rfl
  unfold matchDigitsSwar matchDigits
  cases s with
  | nil =>
    cases m with
    | zero => omega
    | succ m => simp [List.replicate_succ, Base.tok_cons, hed, Base.tok_nil]
  | cons u t =>
    rw [List.cons_append, Base.tok_cons, Base.tok_cons]
    by_cases hu : Spec.IsDigitOf b u
    · simp only [hu, if_true, List.drop_succ_cons, List.drop_zero]
      obtain ⟨j, hj, h1, h2, -⟩ := Swar.C06_skip_exact k hn (k.digits b.swarOffset)
        (fun c => decide (Spec.IsDigitOf b c)) sound e m hm (by simp [hed]) heB t
        (fun c hc => hs c (List.mem_cons_of_mem _ hc))
      rw [h1]
      have hle := trailLoop_le b.tok (t.drop j)
      simp only [tl, tj j t (fun c hc => by simpa using h2 c hc) hj]
      rw [List.drop_append_of_le_length hle, Nat.add_comm 1, List.drop_succ_cons, List.drop_drop]
    · simp [hu]

/-- C16: `zero` is the digit `0`. -/
theorem C16_zero (s : List Nat) : zeroTok s = if s.head? = some 0x30 then some 1 else none := by
  unfold zeroTok
  cases s with
  | nil => rfl
  | cons u t =>
    have h : ∀ u < 128, ((AsciiSet.empty.insert 0x30) u = true ↔ u = 0x30) := by decide +kernel
    have : (CC.leaf (AsciiSet.empty.insert 0x30) none).tableMatch (u :: t) = true ↔ u = 0x30 := by
      simp only [CC.tableMatch, CC.ascii, C09_compressed_exact]
      exact ⟨fun ⟨h1, h2⟩ => (h u h1).1 h2, fun hu => ⟨by omega, (h u (by omega)).2 hu⟩⟩
    by_cases hu : u = 0x30
    · rw [if_pos (this.2 hu), if_pos (by rw [List.head?_cons, hu])]
    · rw [if_neg (fun h' => hu (this.1 h')), if_neg (by simpa using hu)]

/-! ### Non-vacuity -/

example : matchDigits .hex [0x31, 0x41, 0x66, 0x67] = (true, 3) ∧
    matchDigits .octal [0x37, 0x38] = (true, 1) ∧
    noLeadingZero (matchDigits .decimal [0x30, 0x31]) [0x30, 0x31] = (false, 1, true) ∧
    noLeadingZero (matchDigits .decimal [0x30, 0x2E]) [0x30, 0x2E] = (true, 1, false) ∧
    nDigits .decimal 2 [0x31, 0x32, 0x33] = (true, 2) := by
  decide +kernel

/-- `LEXY_LIT("_")` as a separator. -/
def underscoreTok : TokMatch := fun s => if s.head? = some 0x5F then some 1 else none

example (b : Base) : SepLaw b underscoreTok := by
  intro u t h
  unfold underscoreTok
  rw [if_neg]
  simp only [List.head?_cons, Option.some.injEq]
  rintro rfl
  revert h
  cases b <;> decide

example : matchDigitsSep .decimal underscoreTok [0x31, 0x5F, 0x32, 0x33, 0x2C] = (true, 4) ∧
    matchDigitsSep .decimal underscoreTok [0x31, 0x5F, 0x2C] = (false, 2) ∧
    nDigitsSep .decimal underscoreTok 3 [0x31, 0x5F, 0x32, 0x33] = (true, 4) := by
  decide +kernel

end Verif
