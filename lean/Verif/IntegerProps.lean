import Verif.Integer
import Verif.DigitProps

/-!
Properties C17 (integers), C18 (N-digit code points), C61 (value after overflow), C62 (recovery of the
digits).
-/

namespace Verif

/-! ## Specification -/

/-- The digit value of a character given as an integer. -/
def Spec.digitI (b : Base) (c : Int) : Option Nat :=
  if 0 ≤ c then Spec.digit b c.toNat else none

/-- The mathematical value of a string: all digits count, everything else is ignored. -/
def Spec.valueFrom (b : Base) (v : Nat) (cs : List Int) : Nat :=
  (cs.filterMap (Spec.digitI b)).foldl (fun a d => a * Spec.radix b + d) v

def Spec.value (b : Base) (cs : List Int) : Nat := Spec.valueFrom b 0 cs

/-- A character (of a signed or unsigned type of at most 32 bits). -/
def Spec.IsChar (c : Int) : Prop := -128 ≤ c ∧ c < 4294967296

/-- The string ends with a digit (or is empty), as everything matched by the digit rules does. -/
def Spec.EndsInDigit (b : Base) (cs : List Int) : Prop :=
  ∀ c, cs.getLast? = some c → (Spec.digitI b c).isSome = true

/-! ## Auxiliary facts -/

theorem Base.radix_eq (b : Base) : Spec.radix b = b.radix := by cases b <;> rfl
theorem Base.two_le (b : Base) : 2 ≤ b.radix := by cases b <;> decide

theorem Base.value_some {b : Base} {c : Int} (hc : Spec.IsChar c) {v : Nat}
    (h : Spec.digitI b c = some v) : b.value c = v ∧ v < b.radix := by
  unfold Spec.digitI at h
  split at h
  · exact (b.value_spec c hc.1 hc.2).1 c.toNat (by omega) v h
  · simp at h

theorem Base.value_none {b : Base} {c : Int} (hc : Spec.IsChar c) (h : Spec.digitI b c = none) :
    b.radix ≤ b.value c := by
  apply (b.value_spec c hc.1 hc.2).2
  rintro u rfl
  simpa [Spec.digitI] using h

theorem digitCountLoop_spec {radix : Nat} (hr : 2 ≤ radix) (v : Nat) (hv : 0 < v) :
    0 < digitCountLoop radix v ∧ radix ^ (digitCountLoop radix v - 1) ≤ v ∧
      v < radix ^ digitCountLoop radix v := by
  induction v using Nat.strongRecOn with
  | _ v ih =>
    rw [digitCountLoop, dif_pos ⟨hv, by omega⟩]
    simp only [Nat.add_sub_cancel]
    by_cases h0 : v / radix = 0
    · rw [h0, digitCountLoop, dif_neg (by omega)]
      have := (Nat.div_eq_zero_iff_lt (by omega)).1 h0
      simp; omega
    · have hlt : v / radix < v := Nat.div_lt_self hv (by omega)
      obtain ⟨h1, h2, h3⟩ := ih _ hlt (Nat.pos_of_ne_zero h0)
      obtain ⟨m, hm⟩ : ∃ m, digitCountLoop radix (v / radix) = m + 1 := ⟨_, (Nat.succ_pred_eq_of_pos h1).symm⟩
      rw [hm] at h2 h3 ⊢
      simp only [Nat.add_sub_cancel] at h2
      refine ⟨by omega, ?_, ?_⟩
      · rw [Nat.pow_succ]
        exact (Nat.le_div_iff_mul_le (by omega)).1 h2
      · rw [Nat.pow_succ]
        exact (Nat.div_lt_iff_lt_mul (by omega)).1 h3

theorem foldl_digits_ge (r : Nat) (hr : 1 ≤ r) (ds : List Nat) (v : Nat) :
    v ≤ ds.foldl (fun a d => a * r + d) v := by
  induction ds generalizing v with
  | nil => simp
  | cons d ds ih =>
    simp only [List.foldl_cons]
    have := ih (v * r + d)
    have : v * 1 ≤ v * r := Nat.mul_le_mul_left _ hr
    omega

theorem valueFrom_ge (b : Base) (v : Nat) (cs : List Int) : v ≤ Spec.valueFrom b v cs := by
  unfold Spec.valueFrom
  exact foldl_digits_ge _ (by rw [b.radix_eq]; have := b.two_le; omega) _ _

theorem valueFrom_cons_some {b : Base} {c : Int} {d : Nat} (h : Spec.digitI b c = some d) (v : Nat)
    (cs : List Int) : Spec.valueFrom b v (c :: cs) = Spec.valueFrom b (v * b.radix + d) cs := by
  simp [Spec.valueFrom, h, b.radix_eq]

theorem valueFrom_cons_none {b : Base} {c : Int} (h : Spec.digitI b c = none) (v : Nat)
    (cs : List Int) : Spec.valueFrom b v (c :: cs) = Spec.valueFrom b v cs := by
  simp [Spec.valueFrom, h]

theorem EndsInDigit.tail {b : Base} {c : Int} {cs : List Int} (h : Spec.EndsInDigit b (c :: cs)) :
    Spec.EndsInDigit b cs := by
  intro x hx
  apply h x
  rw [List.getLast?_cons]
  simp [hx]

/-- The bound of a traits type is sensible: at least one digit value more than one digit can express, and at
    most what the type can hold (`static_assert`, integer.hpp l.270). -/
structure Traits.Ok (t : Traits) (b : Base) : Prop where
  radix : b.radix ≤ t.max
  le : t.max ≤ t.ty.max
  small : t.ty.small = true → t.ty.max < 4294967296

theorem addCheckedBig_spec {max radix result digit : Nat} (hr : 1 ≤ radix) (hd : digit ≤ max) :
    ∃ v ok, IntTy.addCheckedBig max radix result digit = some (v, ok) ∧
      (ok = true ↔ result * radix + digit ≤ max) ∧ (ok = true → v = result * radix + digit) := by
  unfold IntTy.addCheckedBig
  split
  · rename_i h
    refine ⟨_, _, rfl, ?_, by simp⟩
    simp only [Bool.false_eq_true, false_iff]
    have := (Nat.div_lt_iff_lt_mul (by omega : 0 < radix)).1 h
    omega
  · rw [if_neg (by omega)]
    split
    · refine ⟨_, _, rfl, ?_, by simp⟩
      simp only [Bool.false_eq_true, false_iff]; omega
    · refine ⟨_, _, rfl, ?_, by simp⟩
      simp only [true_iff]; omega

theorem IntTy.addChecked_spec {t : IntTy} {radix result digit : Nat} (hr : 1 ≤ radix) (hrm : radix ≤ t.max)
    (hres : result ≤ t.max) (hd : digit < radix) :
    ∃ v ok, t.addChecked radix result digit = some (v, ok) ∧
      (ok = true ↔ result * radix + digit ≤ t.max) ∧ (ok = true → v = result * radix + digit) := by
  unfold IntTy.addChecked
  split
  · rename_i hu
    have hbound : t.max * radix + (radix - 1) ≤ 4294967295 := by
      unfold IntTy.canUseUnsigned at hu
      simp only [Bool.and_eq_true] at hu
      by_cases hdr : radix - 1 ≤ 4294967295
      · obtain ⟨v, ok, h1, h2, -⟩ := addCheckedBig_spec (max := 4294967295) (result := t.max) hr hdr
        rw [h1] at hu
        exact h2.1 hu.2
      · have hu2 := hu.2
        unfold IntTy.addCheckedBig at hu2
        split at hu2
        · rename_i heq
          split at heq
          · simp at heq; simp [heq.2] at hu2
          split at heq
          · simp at heq
          · omega
        · simp at hu2
    have : result * radix ≤ t.max * radix := Nat.mul_le_mul_right _ hres
    rw [Nat.mod_eq_of_lt (by omega)]
    simp only
    split
    · refine ⟨_, _, rfl, ?_, by simp⟩
      simp only [Bool.false_eq_true, false_iff]; omega
    · refine ⟨_, _, rfl, ?_, by simp⟩
      simp only [true_iff]; omega
  · exact addCheckedBig_spec hr (by omega)

theorem Traits.addChecked_spec {t : Traits} {b : Base} (ht : t.Ok b) {result digit : Nat}
    (hres : result ≤ t.max) (hd : digit < b.radix) :
    ∃ v ok, t.addChecked b.radix result digit = some (v, ok) ∧
      (ok = true ↔ result * b.radix + digit ≤ t.max) ∧ (ok = true → v = result * b.radix + digit) := by
  have h2 := b.two_le
  have hr := ht.radix
  have hle := ht.le
  have hty : b.radix ≤ t.ty.max := by omega
  obtain ⟨v, ok, h1, h3, h4⟩ := IntTy.addChecked_spec (t := t.ty) (radix := b.radix) (result := result)
    (digit := digit) (by omega) hty (by omega) hd
  cases t with
  | plain t => exact ⟨v, ok, h1, h3, h4⟩
  | codePoint =>
    simp only [Traits.ty] at h1 h3
    simp only [Traits.addChecked, h1]
    cases ok with
    | false =>
      refine ⟨_, _, rfl, ?_, by simp⟩
      simp only [Bool.false_eq_true, false_iff] at h3 ⊢
      simp only [Traits.max, Traits.ty] at *
      omega
    | true =>
      have := h4 rfl
      subst this
      exact ⟨_, _, rfl, by simp [Traits.max], by simp⟩
  | bounded t m =>
    simp only [Traits.ty] at h1 h3 hle
    simp only [Traits.addChecked, h1]
    refine ⟨_, _, rfl, ?_, ?_⟩
    · simp only [Bool.and_eq_true, decide_eq_true_eq, Traits.max] at *
      constructor
      · rintro ⟨h5, h6⟩; rw [← h4 h5]; exact h6
      · intro h5
        have := h3.2 (by omega)
        exact ⟨this, by rw [h4 this]; exact h5⟩
    · simp only [Bool.and_eq_true]
      rintro ⟨h5, -⟩; exact h4 h5

theorem nextDigit_spec (a : Bool) (b : Base) (cs : List Int) (hc : ∀ c ∈ cs, Spec.IsChar c)
    (ha : a = true → ∀ c ∈ cs, (Spec.digitI b c).isSome = true) :
    (nextDigit a b cs = none ∧ ∀ v, Spec.valueFrom b v cs = v) ∨
    ∃ d cs', nextDigit a b cs = some (d, cs') ∧ d < b.radix ∧ cs'.length < cs.length ∧
      (∀ c ∈ cs', c ∈ cs) ∧ (Spec.EndsInDigit b cs → Spec.EndsInDigit b cs') ∧
      ∀ v, Spec.valueFrom b v cs = Spec.valueFrom b (v * b.radix + d) cs' := by
  induction cs with
  | nil => left; exact ⟨rfl, fun v => rfl⟩
  | cons c cs ih =>
    have hcc := hc c (by simp)
    cases hd : Spec.digitI b c with
    | none =>
      have ha' : a = false := by
        cases a with
        | false => rfl
        | true => have := ha rfl c (by simp); simp [hd] at this
      subst ha'
      have hv := Base.value_none hcc hd
      have hn : nextDigit false b (c :: cs) = nextDigit false b cs := by
        simp [nextDigit, hv]
      rw [hn]
      rcases ih (fun x hx => hc x (by simp [hx])) (by simp) with ⟨h1, h2⟩ | ⟨d, cs', h1, h2, h3, h4, h5, h6⟩
      · left; exact ⟨h1, fun v => by rw [valueFrom_cons_none hd]; exact h2 v⟩
      · right
        refine ⟨d, cs', h1, h2, by simp; omega, fun x hx => by simp [h4 x hx], fun h => h5 (EndsInDigit.tail h), ?_⟩
        intro v; rw [valueFrom_cons_none hd]; exact h6 v
    | some d =>
      obtain ⟨hv, hlt⟩ := Base.value_some hcc hd
      right
      refine ⟨d, cs, ?_, hlt, by simp, fun x hx => by simp [hx], EndsInDigit.tail,
        fun v => valueFrom_cons_some hd v cs⟩
      unfold nextDigit
      simp only [hv]
      rw [if_neg]
      simp; omega

/-- Correctness of the counted loop. -/
theorem boundedLoop_spec (a : Bool) {t : Traits} {b : Base} (ht : t.Ok b) {D : Nat}
    (hD1 : b.radix ^ (D - 1) ≤ t.max) (hD2 : t.max < b.radix ^ D) (hD : 0 < D) :
    ∀ (k value : Nat) (cs : List Int), k < D → (∀ c ∈ cs, Spec.IsChar c) →
      (a = true → ∀ c ∈ cs, (Spec.digitI b c).isSome = true) →
      b.radix ^ (D - 1 - k) ≤ value → value < b.radix ^ (D - k) → value ≤ t.max →
      ∃ v ov, boundedLoop a t b k value cs = some (v, ov) ∧
        (ov = false → v = Spec.valueFrom b value cs ∧ v ≤ t.max) ∧
        (t.max < Spec.valueFrom b value cs → ov = true) ∧
        (Spec.EndsInDigit b cs → Spec.valueFrom b value cs ≤ t.max → ov = false) := by
  have h2 := b.two_le
  intro k
  induction k with
  | zero =>
    intro value cs hk hc ha hlo hhi hM
    refine ⟨value, !cs.isEmpty, by rw [boundedLoop], ?_, ?_, ?_⟩
    · intro h
      have : cs = [] := by simpa using h
      subst this; exact ⟨rfl, hM⟩
    · intro h
      cases cs with
      | nil => simp [Spec.valueFrom] at h; omega
      | cons c cs => rfl
    · intro he hV
      cases cs with
      | nil => rfl
      | cons c cs =>
        exfalso
        -- the last unit is a digit, so the value has more digits than the maximum
        have key : ∀ (cs : List Int), cs ≠ [] → Spec.EndsInDigit b cs →
            value * b.radix ≤ Spec.valueFrom b value cs := by
          intro cs
          induction cs with
          | nil => intro h; exact absurd rfl h
          | cons c cs ih =>
            intro _ he
            cases hd : Spec.digitI b c with
            | some d =>
              rw [valueFrom_cons_some hd]
              have := valueFrom_ge b (value * b.radix + d) cs
              omega
            | none =>
              rw [valueFrom_cons_none hd]
              refine ih ?_ (EndsInDigit.tail he)
              rintro rfl
              have := he c rfl
              simp [hd] at this
        have h1 := key (c :: cs) (by simp) he
        have h3 : b.radix ^ D ≤ value * b.radix := by
          have : b.radix ^ D = b.radix ^ (D - 1) * b.radix := by
            rw [← Nat.pow_succ]; congr 1; omega
          rw [this]; exact Nat.mul_le_mul_right _ hlo
        omega
  | succ k ih =>
    intro value cs hk hc ha hlo hhi hM
    rw [boundedLoop]
    rcases nextDigit_spec a b cs hc ha with ⟨h1, h3⟩ | ⟨d, cs', h1, hd, hl, hmem, hend, h3⟩
    · rw [h1]
      refine ⟨value, false, rfl, ?_, ?_, ?_⟩
      · intro _; exact ⟨(h3 value).symm, hM⟩
      · rw [h3]; omega
      · intro _ _; rfl
    · rw [h1]
      simp only
      have hlow : b.radix ^ (D - 1 - k) ≤ value * b.radix + d := by
        have : b.radix ^ (D - 1 - k) = b.radix ^ (D - 1 - (k + 1)) * b.radix := by
          rw [← Nat.pow_succ]; congr 1; omega
        rw [this]
        have := Nat.mul_le_mul_right b.radix hlo
        omega
      have hhigh : value * b.radix + d < b.radix ^ (D - k) := by
        have e : b.radix ^ (D - k) = b.radix ^ (D - (k + 1)) * b.radix := by
          rw [← Nat.pow_succ]; congr 1; omega
        rw [e]
        have : (value + 1) * b.radix ≤ b.radix ^ (D - (k + 1)) * b.radix := Nat.mul_le_mul_right _ hhi
        rw [Nat.add_mul, Nat.one_mul] at this
        omega
      have hc' : ∀ c ∈ cs', Spec.IsChar c := fun c h => hc c (hmem c h)
      have ha' : a = true → ∀ c ∈ cs', (Spec.digitI b c).isSome = true := fun h c hc => ha h c (hmem c hc)
      by_cases hk0 : k = 0
      · subst hk0
        rw [if_pos rfl]
        obtain ⟨v, ok, g1, g2, g3⟩ := Traits.addChecked_spec ht hM hd
        rw [g1]
        cases ok with
        | true =>
          simp only
          have hv := g3 rfl
          subst hv
          obtain ⟨v, ov, i1, i2, i3, i4⟩ := ih (value * b.radix + d) cs' (by omega) hc' ha' hlow hhigh (g2.1 rfl)
          rw [i1]
          refine ⟨v, ov, rfl, ?_, ?_, ?_⟩
          · rw [h3]; exact i2
          · rw [h3]; exact i3
          · rw [h3]; exact fun h => i4 (hend h)
        | false =>
          have hgt : t.max < value * b.radix + d := by
            rcases Nat.lt_or_ge t.max (value * b.radix + d) with h | h
            · exact h
            · have := g2.2 h; simp at this
          refine ⟨v, true, rfl, by simp, by simp, ?_⟩
          intro _ hV
          rw [h3] at hV
          have := valueFrom_ge b (value * b.radix + d) cs'
          omega
      · rw [if_neg hk0]
        have hle : value * b.radix + d ≤ t.max := by
          have : b.radix ^ (D - k) ≤ b.radix ^ (D - 1) := Nat.pow_le_pow_right (by omega) (by omega)
          omega
        have hun : t.addUnchecked b.radix value d = some (value * b.radix + d) := by
          unfold Traits.addUnchecked IntTy.addUnchecked
          rw [if_pos (Nat.le_trans hle ht.le)]
        rw [hun]
        simp only
        obtain ⟨v, ov, i1, i2, i3, i4⟩ := ih (value * b.radix + d) cs' (by omega) hc' ha' hlow hhigh hle
        rw [i1]
        refine ⟨v, ov, rfl, ?_, ?_, ?_⟩
        · rw [h3]; exact i2
        · rw [h3]; exact i3
        · rw [h3]; exact fun h => i4 (hend h)

/-! ## C17 -/

/-- The string of units of `cs` can be parsed with the parser variant `a` (which may assume that there are only
    digits). -/
structure Spec.ParseArgs (a : Bool) (b : Base) (cs : List Int) : Prop where
  chars : ∀ c ∈ cs, Spec.IsChar c
  digits : a = true → ∀ c ∈ cs, (Spec.digitI b c).isSome = true

theorem boundedParse_spec (a : Bool) {t : Traits} {b : Base} (ht : t.Ok b) (cs : List Int)
    (h : Spec.ParseArgs a b cs) :
    ∃ v ov, boundedParse a t b cs = some (v, ov) ∧
      (ov = false → v = Spec.value b cs ∧ v ≤ t.max) ∧
      (t.max < Spec.value b cs → ov = true) ∧
      (Spec.EndsInDigit b cs → Spec.value b cs ≤ t.max → ov = false) := by
  have h2 := b.two_le
  have hr := ht.radix
  have hM : t.max ≠ 0 := by omega
  obtain ⟨hD0, hD1, hD2⟩ := digitCountLoop_spec h2 t.max (by omega)
  have hD : t.maxDigitCount b.radix = digitCountLoop b.radix t.max := by
    unfold Traits.maxDigitCount digitCount; rw [if_neg hM]
  rw [← hD] at hD0 hD1 hD2
  obtain ⟨hc, ha⟩ := h
  induction cs with
  | nil => exact ⟨0, false, rfl, by simp [Spec.value, Spec.valueFrom], by simp [Spec.value, Spec.valueFrom], by simp⟩
  | cons c cs ih =>
    have hcc := hc c (by simp)
    have hc' : ∀ x ∈ cs, Spec.IsChar x := fun x hx => hc x (by simp [hx])
    have ha' : a = true → ∀ c ∈ cs, (Spec.digitI b c).isSome = true := fun h x hx => ha h x (by simp [hx])
    have ih' := ih hc' ha'
    rw [boundedParse]
    have skip : Spec.value b (c :: cs) = Spec.value b cs →
        ∃ v ov, boundedParse a t b cs = some (v, ov) ∧
          (ov = false → v = Spec.value b (c :: cs) ∧ v ≤ t.max) ∧
          (t.max < Spec.value b (c :: cs) → ov = true) ∧
          (Spec.EndsInDigit b (c :: cs) → Spec.value b (c :: cs) ≤ t.max → ov = false) := by
      intro e
      obtain ⟨v, ov, i1, i2, i3, i4⟩ := ih'
      rw [e]
      exact ⟨v, ov, i1, i2, i3, fun h => i4 (EndsInDigit.tail h)⟩
    cases hd : Spec.digitI b c with
    | none =>
      have hv := Base.value_none hcc hd
      rw [if_neg (by omega)]
      exact skip (valueFrom_cons_none hd 0 cs)
    | some d =>
      obtain ⟨hv, hlt⟩ := Base.value_some hcc hd
      have hval : Spec.value b (c :: cs) = Spec.valueFrom b d cs := by
        unfold Spec.value; rw [valueFrom_cons_some hd]; simp
      rw [hv]
      by_cases hz : d = 0
      · rw [if_neg (by omega)]
        subst hz
        exact skip hval
      · rw [if_pos ⟨hz, hlt⟩, hval]
        obtain ⟨v, ov, i1, i2, i3, i4⟩ := boundedLoop_spec a ht hD1 hD2 hD0 (t.maxDigitCount b.radix - 1) d cs
          (by omega) hc' ha'
          (by rw [show t.maxDigitCount b.radix - 1 - (t.maxDigitCount b.radix - 1) = 0 by omega]; simp; omega)
          (by rw [show t.maxDigitCount b.radix - (t.maxDigitCount b.radix - 1) = 1 by omega]; simpa using hlt)
          (by omega)
        exact ⟨v, ov, i1, i2, i3, fun h => i4 (EndsInDigit.tail h)⟩

/-- C17: an integer is the exact value of the digits if that value does not exceed the maximum, and an overflow is
    reported otherwise; no intermediate result wraps around (the model never returns `none`).
    For strings of any length that end in a digit.  Missing from the full claim: strings where a unit that
    is not a digit comes last, see `C17_trailing_refuted`. -/
theorem C17_integer_exact_partial (a : Bool) (t : Traits) (b : Base) (ht : t.Ok b) (cs : List Int)
    (h : Spec.ParseArgs a b cs) (hend : Spec.EndsInDigit b cs) :
    ∃ v ov, boundedParse a t b cs = some (v, ov) ∧ (ov = true ↔ t.max < Spec.value b cs) ∧
      (ov = false → v = Spec.value b cs) := by
  obtain ⟨v, ov, h1, h2, h3, h4⟩ := boundedParse_spec a ht cs h
  refine ⟨v, ov, h1, ⟨?_, h3⟩, fun h => (h2 h).1⟩
  intro ho
  rcases Nat.lt_or_ge t.max (Spec.value b cs) with hlt | hge
  · exact hlt
  · have := h4 hend hge; simp [ho] at this

/-- C17 for all strings: a value is never wrong, and an overflow is never missed. -/
theorem C17_integer_sound (a : Bool) (t : Traits) (b : Base) (ht : t.Ok b) (cs : List Int)
    (h : Spec.ParseArgs a b cs) :
    ∃ v ov, boundedParse a t b cs = some (v, ov) ∧ (ov = false → v = Spec.value b cs ∧ v ≤ t.max) ∧
      (t.max < Spec.value b cs → ov = true) := by
  obtain ⟨v, ov, h1, h2, h3, -⟩ := boundedParse_spec a ht cs h
  exact ⟨v, ov, h1, h2, h3⟩

/-- `std::uint8_t`. -/
def IntTy.u8 : IntTy := ⟨255, true⟩

/-- C17 is false if something that is not a digit follows the maximal number of digits: `integer<uint8_t, decimal>`
    of a token matching "255u", or "255_" after a missing digit behind a separator; the value 255 fits. -/
theorem C17_trailing_refuted :
    (Traits.plain .u8).Ok .decimal ∧ Spec.ParseArgs false .decimal [0x32, 0x35, 0x35, 0x75] ∧
    Spec.value .decimal [0x32, 0x35, 0x35, 0x75] = 255 ∧
    boundedParse false (.plain .u8) .decimal [0x32, 0x35, 0x35, 0x75] = some (255, true) := by
  refine ⟨⟨by decide, by decide, by decide⟩, ⟨?_, by simp⟩, by decide +kernel, by decide +kernel⟩
  intro c hc
  simp at hc
  rcases hc with rfl | rfl | rfl | rfl <;> exact ⟨by omega, by omega⟩

theorem Spec.DigitsSep.pos {b : Base} {S : TokMatch} {s : List Nat} {n : Nat} (h : Spec.DigitsSep b S s n) :
    0 < n := by
  induction h <;> omega

/-- C17, digits from a rule: whatever `digits<Base>`, with or without separators, matches ends in a digit. -/
theorem C17_digits_end (b : Base) (S : TokMatch) (s : List Nat) (n : Nat)
    (h : Spec.DigitsSep b S s n) (hS : ∀ t k, S t = some k → k ≤ t.length) :
    n ≤ s.length ∧ ∀ u, (s.take n).getLast? = some u → Spec.IsDigitOf b u := by
  induction h with
  | @one u t hu => simp; exact hu
  | @digit u t n hu h ih =>
    obtain ⟨i1, i2⟩ := ih
    refine ⟨by simp; omega, ?_⟩
    intro v hv
    rw [Nat.add_comm 1, List.take_succ_cons, List.getLast?_cons] at hv
    cases hg : (t.take n).getLast? with
    | none => simp [hg] at hv; rw [← hv]; exact hu
    | some w => simp [hg] at hv; rw [← hv]; exact i2 w hg
  | @sep u t k n hu hk h ih =>
    obtain ⟨i1, i2⟩ := ih
    have hkl := hS t k hk
    simp only [List.length_drop] at i1
    refine ⟨by simp; omega, ?_⟩
    have hn : 0 < n := h.pos
    intro v hv
    rw [Nat.add_comm 1, List.take_succ_cons, List.take_add] at hv
    have hne : (t.drop k).take n ≠ [] := by
      intro he
      have := congrArg List.length he
      simp at this; omega
    rw [List.getLast?_cons, List.getLast?_append] at hv
    cases hg : ((t.drop k).take n).getLast? with
    | none => rw [List.getLast?_eq_none_iff] at hg; exact absurd hg hne
    | some w => simp [hg] at hv; rw [← hv]; exact i2 w hg

/-! ## C18 -/

theorem unboundedParse_spec {t : IntTy} {b : Base} (cs : List Int) (hc : ∀ c ∈ cs, Spec.IsChar c) :
    ∀ v, Spec.valueFrom b v cs ≤ t.max → unboundedParse t b v cs = some (Spec.valueFrom b v cs) := by
  induction cs with
  | nil => intro v _; rfl
  | cons c cs ih =>
    intro v hv
    have hcc := hc c (by simp)
    have ih' := ih (fun x hx => hc x (by simp [hx]))
    rw [unboundedParse]
    cases hd : Spec.digitI b c with
    | none =>
      have := Base.value_none hcc hd
      rw [if_pos this, valueFrom_cons_none hd]
      rw [valueFrom_cons_none hd] at hv
      exact ih' v hv
    | some d =>
      obtain ⟨h1, h2⟩ := Base.value_some hcc hd
      rw [valueFrom_cons_some hd] at hv ⊢
      rw [h1, if_neg (by omega)]
      have := valueFrom_ge b (v * b.radix + d) cs
      have e : t.addUnchecked b.radix v d = some (v * b.radix + d) := by
        unfold IntTy.addUnchecked; rw [if_pos (by omega)]
      rw [e]
      exact ih' _ hv

theorem valueFrom_lt (b : Base) (cs : List Int) (hc : ∀ c ∈ cs, Spec.IsChar c) (v : Nat) :
    Spec.valueFrom b v cs < (v + 1) * b.radix ^ cs.length := by
  induction cs generalizing v with
  | nil => simp [Spec.valueFrom]
  | cons c cs ih =>
    have h2 := b.two_le
    have ih' := ih (fun x hx => hc x (by simp [hx]))
    simp only [List.length_cons, Nat.pow_succ]
    cases hd : Spec.digitI b c with
    | none =>
      rw [valueFrom_cons_none hd]
      refine Nat.lt_of_lt_of_le (ih' v) ?_
      rw [← Nat.mul_assoc]
      exact Nat.le_mul_of_pos_right _ (by omega)
    | some d =>
      rw [valueFrom_cons_some hd]
      have hlt := (Base.value_some (hc c (by simp)) hd).2
      refine Nat.lt_of_lt_of_le (ih' _) ?_
      have : v * b.radix + d + 1 ≤ (v + 1) * b.radix := by rw [Nat.add_mul]; omega
      have := Nat.mul_le_mul_right (b.radix ^ cs.length) this
      rw [Nat.mul_comm (b.radix ^ cs.length) b.radix, ← Nat.mul_assoc]
      exact this

/-- C18 for any type: parsing exactly `N` digits yields the value, or reports overflow exactly if it exceeds the
    maximum, whether or not the library decides that `N` digits cannot overflow. -/
theorem C18_n_digits_integer (t : Traits) (b : Base) (ht : t.Ok b) (N : Nat) (cs : List Int)
    (hc : ∀ c ∈ cs, Spec.IsChar c) (hd : ∀ c ∈ cs, (Spec.digitI b c).isSome = true) (hN : cs.length = N) :
    ∃ v ov, nDigitsParse true t N b cs = some (v, ov) ∧ (ov = true ↔ t.max < Spec.value b cs) ∧
      (ov = false → v = Spec.value b cs) := by
  have h2 := b.two_le
  have hr := ht.radix
  unfold nDigitsParse
  by_cases ho : nDigitsCanOverflow t N b = true
  · rw [if_pos ho]
    exact C17_integer_exact_partial true t b ht cs ⟨hc, fun _ => hd⟩ (fun c h => hd c (List.mem_of_getLast? h))
  · rw [if_neg ho]
    have hlt : N < t.maxDigitCount b.radix := by simpa [nDigitsCanOverflow] using ho
    obtain ⟨hD0, hD1, hD2⟩ := digitCountLoop_spec h2 t.max (by omega)
    have hD : t.maxDigitCount b.radix = digitCountLoop b.radix t.max := by
      unfold Traits.maxDigitCount digitCount; rw [if_neg (by omega)]
    rw [← hD] at hD0 hD1 hD2
    have hv := valueFrom_lt b cs hc 0
    have : b.radix ^ cs.length ≤ b.radix ^ (t.maxDigitCount b.radix - 1) :=
      Nat.pow_le_pow_right (by omega) (by omega)
    have hle : Spec.value b cs ≤ t.max := by unfold Spec.value; omega
    have := ht.le
    refine ⟨Spec.value b cs, false, ?_, ?_, by simp⟩
    · unfold Spec.value at *
      rw [unboundedParse_spec cs hc 0 (by omega)]; rfl
    · simp; omega

/-- C18: `code_point_id<N, Base>` yields the value of the `N` digits, or reports `invalid_code_point` exactly if the
    value exceeds 10FFFF. -/
theorem C18_code_point_id (b : Base) (N : Nat) (cs : List Int)
    (hc : ∀ c ∈ cs, Spec.IsChar c) (hd : ∀ c ∈ cs, (Spec.digitI b c).isSome = true) (hN : cs.length = N) :
    ∃ v ov, nDigitsParse true .codePoint N b cs = some (v, ov) ∧
      (ov = true ↔ 0x10FFFF < Spec.value b cs) ∧ (ov = false → v = Spec.value b cs) := by
  refine C18_n_digits_integer .codePoint b ⟨?_, by decide, by decide⟩ N cs hc hd hN
  cases b <;> decide

example : nDigitsParse true .codePoint 8 .hex [0x30, 0x30, 0x31, 0x46, 0x36, 0x30, 0x30, 0x30] =
    some (0x1F6000, true) ∧
    nDigitsParse true .codePoint 4 .hex [0x32, 0x30, 0x41, 0x63] = some (0x20AC, false) := by
  decide +kernel

example : boundedParse true (.plain ⟨2147483647, false⟩) .decimal
    [0x30, 0x32, 0x31, 0x34, 0x37, 0x34, 0x38, 0x33, 0x36, 0x34, 0x37] = some (2147483647, false) ∧
    boundedParse false (.bounded .u8 100) .decimal [0x31, 0x5F, 0x30, 0x31] = some (101, true) := by
  decide +kernel

/-! ## C61: the value after an overflow -/

/-- Specification: the values of the non-empty prefixes of the digits. -/
def Spec.PrefixValue (b : Base) (cs : List Int) (v : Nat) : Prop := ∃ p t, cs = p ++ t ∧ v = Spec.value b p

/-- C61 (documented: "the integer value produced is the last value it had before the overflow occurred") is false:
    for `unsigned` and "4294967296" the value produced is 4294967290, which is not the value of any prefix; for
    `bounded<std::uint8_t, 100>` and "101" it is 101, which exceeds the bound. -/
theorem C61_overflow_value_refuted :
    (boundedParse true (.plain .u32) .decimal
      [0x34, 0x32, 0x39, 0x34, 0x39, 0x36, 0x37, 0x32, 0x39, 0x36] = some (4294967290, true) ∧
     ¬ Spec.PrefixValue .decimal [0x34, 0x32, 0x39, 0x34, 0x39, 0x36, 0x37, 0x32, 0x39, 0x36] 4294967290) ∧
    boundedParse true (.bounded .u8 100) .decimal [0x31, 0x30, 0x31] = some (101, true) := by
  refine ⟨⟨by decide +kernel, ?_⟩, by decide +kernel⟩
  rintro ⟨p, t, he, hv⟩
  have hp : p = ([0x34, 0x32, 0x39, 0x34, 0x39, 0x36, 0x37, 0x32, 0x39, 0x36] : List Int).take p.length := by
    rw [he]; simp
  have hl : p.length ≤ 10 := by
    have := congrArg List.length he; simp at this; omega
  have key : ∀ n ≤ 10, Spec.value .decimal
      (([0x34, 0x32, 0x39, 0x34, 0x39, 0x36, 0x37, 0x32, 0x39, 0x36] : List Int).take n) ≠ 4294967290 := by
    decide +kernel
  exact key p.length hl (by rw [← hp]; exact hv.symm)

theorem boundedLoop_small (a : Bool) {t : IntTy} {b : Base} (ht : (Traits.plain t).Ok b)
    (hu : t.canUseUnsigned b.radix = true) :
    ∀ (k value : Nat) (cs : List Int) (v : Nat), value ≤ t.max → (∀ c ∈ cs, Spec.IsChar c) →
      (a = true → ∀ c ∈ cs, (Spec.digitI b c).isSome = true) →
      boundedLoop a (.plain t) b k value cs = some (v, true) →
      v ≤ t.max ∧ ∃ p r, cs = p ++ r ∧ v = Spec.valueFrom b value p := by
  intro k
  induction k with
  | zero =>
    intro value cs v hv hc ha h
    simp [boundedLoop] at h
    exact ⟨by omega, [], cs, rfl, by simp [Spec.valueFrom, h.1]⟩
  | succ k ih =>
    intro value cs v hv hc ha h
    rw [boundedLoop] at h
    -- locate the next digit
    have key : ∀ cs : List Int, (∀ c ∈ cs, Spec.IsChar c) →
        (a = true → ∀ c ∈ cs, (Spec.digitI b c).isSome = true) →
        ∀ d cs', nextDigit a b cs = some (d, cs') → d < b.radix ∧
          ∃ p, cs = p ++ cs' ∧ ∀ w, Spec.valueFrom b w p = w * b.radix + d := by
      intro cs
      induction cs with
      | nil => intro _ _ d cs' h; simp [nextDigit] at h
      | cons c cs ih =>
        intro hc ha d cs' h
        have hcc := hc c (by simp)
        cases hd : Spec.digitI b c with
        | none =>
          have ha' : a = false := by
            cases a with
            | false => rfl
            | true => have := ha rfl c (by simp); simp [hd] at this
          subst ha'
          have hv := Base.value_none hcc hd
          have hn : nextDigit false b (c :: cs) = nextDigit false b cs := by simp [nextDigit, hv]
          rw [hn] at h
          obtain ⟨h1, p, h2, h3⟩ := ih (fun x hx => hc x (by simp [hx])) (by simp) d cs' h
          exact ⟨h1, c :: p, by simp [h2], fun w => by rw [valueFrom_cons_none hd]; exact h3 w⟩
        | some d' =>
          obtain ⟨hv, hlt⟩ := Base.value_some hcc hd
          have hn : nextDigit a b (c :: cs) = some (d', cs) := by
            unfold nextDigit
            simp only [hv]
            rw [if_neg]
            simp; omega
          rw [hn] at h
          cases h
          exact ⟨hlt, [c], rfl, fun w => by rw [valueFrom_cons_some hd]; rfl⟩
    cases hn : nextDigit a b cs with
    | none => rw [hn] at h; simp at h
    | some q =>
      obtain ⟨d, cs'⟩ := q
      rw [hn] at h
      simp only at h
      obtain ⟨hd, p, hp, hpv⟩ := key cs hc ha d cs' hn
      have hc' : ∀ c ∈ cs', Spec.IsChar c := fun c hx => hc c (by rw [hp]; simp [hx])
      have ha' : a = true → ∀ c ∈ cs', (Spec.digitI b c).isSome = true :=
        fun h c hx => ha h c (by rw [hp]; simp [hx])
      have extend : ∀ w q r, cs' = q ++ r → w = Spec.valueFrom b (value * b.radix + d) q →
          ∃ p r, cs = p ++ r ∧ w = Spec.valueFrom b value p := by
        intro w q r hq hw
        refine ⟨p ++ q, r, by rw [hp, hq]; simp, ?_⟩
        rw [hw]
        have : Spec.valueFrom b value (p ++ q) = Spec.valueFrom b (Spec.valueFrom b value p) q := by
          simp [Spec.valueFrom, List.filterMap_append, List.foldl_append]
        rw [this, hpv]
      by_cases hk : k = 0
      · rw [if_pos hk] at h
        obtain ⟨v', ok, g1, g2, g3⟩ := Traits.addChecked_spec ht hv hd
        rw [g1] at h
        cases ok with
        | true =>
          simp only at h
          have hv' := g3 rfl
          subst hk
          obtain ⟨j1, q, r, hq, hw⟩ := ih v' cs' v (by rw [hv']; exact g2.1 rfl) hc' ha' h
          exact ⟨j1, extend v q r hq (by rw [← hv']; exact hw)⟩
        | false =>
          simp only [Option.some.injEq, Prod.mk.injEq, and_true] at h
          simp only [Traits.addChecked, IntTy.addChecked, hu, if_true] at g1
          split at g1
          · simp at g1
            refine ⟨by omega, [], cs, rfl, ?_⟩
            simp [Spec.valueFrom]; omega
          · simp at g1
      · rw [if_neg hk] at h
        cases hun : (Traits.plain t).addUnchecked b.radix value d with
        | none => rw [hun] at h; simp at h
        | some w =>
          rw [hun] at h
          simp only at h
          unfold Traits.addUnchecked IntTy.addUnchecked at hun
          split at hun
          · rename_i hle
            simp only [Option.some.injEq] at hun
            subst hun
            obtain ⟨j1, q, r, hq, hw⟩ := ih _ cs' v hle hc' ha' h
            exact ⟨j1, extend v q r hq hw⟩
          · simp at hun

/-- C61 for the small types (where the library computes in `unsigned`): the value produced after an overflow is the
    value of a prefix of the digits and does not exceed the maximum.  Missing: big types, code points and
    `bounded`, see `C61_overflow_value_refuted`. -/
theorem C61_overflow_value_partial (a : Bool) (t : IntTy) (b : Base) (ht : (Traits.plain t).Ok b)
    (hu : t.canUseUnsigned b.radix = true) (cs : List Int) (h : Spec.ParseArgs a b cs) (v : Nat)
    (hv : boundedParse a (.plain t) b cs = some (v, true)) :
    v ≤ t.max ∧ Spec.PrefixValue b cs v := by
  obtain ⟨hc, ha⟩ := h
  induction cs with
  | nil => simp [boundedParse] at hv
  | cons c cs ih =>
    have hcc := hc c (by simp)
    have hc' : ∀ x ∈ cs, Spec.IsChar x := fun x hx => hc x (by simp [hx])
    have ha' : a = true → ∀ c ∈ cs, (Spec.digitI b c).isSome = true := fun h x hx => ha h x (by simp [hx])
    rw [boundedParse] at hv
    have skip : (∀ p, Spec.value b (c :: p) = Spec.value b p) → boundedParse a (.plain t) b cs = some (v, true) →
        v ≤ t.max ∧ Spec.PrefixValue b (c :: cs) v := by
      intro e h
      obtain ⟨i1, p, r, hp, hw⟩ := ih h hc' ha'
      exact ⟨i1, c :: p, r, by simp [hp], by rw [e, hw]⟩
    cases hd : Spec.digitI b c with
    | none =>
      have := Base.value_none hcc hd
      rw [if_neg (by omega)] at hv
      exact skip (fun p => valueFrom_cons_none hd 0 p) hv
    | some d =>
      obtain ⟨h1, h2⟩ := Base.value_some hcc hd
      rw [h1] at hv
      have hval : ∀ p, Spec.value b (c :: p) = Spec.valueFrom b d p := by
        intro p; unfold Spec.value; rw [valueFrom_cons_some hd]; simp
      by_cases hz : d = 0
      · rw [if_neg (by omega)] at hv
        subst hz
        exact skip hval hv
      · rw [if_pos ⟨hz, h2⟩] at hv
        have hr := ht.radix
        simp only [Traits.max] at hr
        obtain ⟨j1, p, r, hp, hw⟩ := boundedLoop_small a ht hu _ d cs v (by omega) hc' ha' hv
        exact ⟨j1, c :: p, r, by simp [hp], by rw [hval, hw]⟩

example : IntTy.u8.canUseUnsigned 10 = true ∧ (Traits.plain .u8).Ok .decimal ∧
    boundedParse true (.plain .u8) .decimal [0x33, 0x30, 0x30] = some (30, true) :=
  ⟨by decide +kernel, ⟨by decide, by decide, by decide⟩, by decide +kernel⟩

/-! ## C62: recovery of the digits -/

/-- C62: an integer rule fails exactly if its digits fail without consuming anything and no digit follows; otherwise
    the converted range is what the digits consumed, extended over all following digits if they failed. -/
theorem C62_integer_range (tok : List Nat → TokRes) (b : Base) (s : List Nat) :
    (intRange tok b s = none ↔ tok s = (false, 0) ∧ ∀ u, s.head? = some u → ¬ Spec.IsDigitOf b u) ∧
    (∀ n, intRange tok b s = some (n, false) ↔ tok s = (true, n)) ∧
    (∀ m, intRange tok b s = some (m, true) ↔ 0 < m ∧ ∃ n k, tok s = (false, n) ∧
      Spec.MaxRun b (s.drop n) k ∧ m = n + k) := by
  have hx : ∀ s n, Spec.MaxRun b s n ↔ n = trailLoop b.tok s :=
    fun s n => ⟨fun h => h.unique (trailLoop_maxRun b s), fun h => h ▸ trailLoop_maxRun b s⟩
  have h0 : ∀ s : List Nat, trailLoop b.tok s = 0 ↔ ∀ u, s.head? = some u → ¬ Spec.IsDigitOf b u := by
    intro s
    rw [eq_comm, ← hx]
    constructor
    · intro h; simpa using h.stop
    · intro h; exact ⟨by omega, by simp, by simpa using h⟩
  unfold intRange
  rcases ht : tok s with ⟨ok, n⟩
  cases ok with
  | true => simp
  | false =>
    simp only [Prod.mk.injEq, true_and, Bool.false_eq_true, false_and, hx]
    by_cases hm : n + trailLoop b.tok (s.drop n) = 0
    · rw [if_pos hm]
      have hn : n = 0 := by omega
      subst hn
      simp only [List.drop_zero, Nat.zero_add] at hm
      refine ⟨?_, by simp, ?_⟩
      · simp only [true_iff, true_and]; exact (h0 s).1 hm
      · intro m
        simp only [reduceCtorEq, false_iff, not_and, not_exists]
        rintro hm' n k rfl hk rfl
        simp at hk; omega
    · rw [if_neg hm]
      refine ⟨?_, by simp, ?_⟩
      · simp only [reduceCtorEq, false_iff, not_and]
        rintro rfl hh
        simp only [List.drop_zero, Nat.zero_add] at hm
        exact hm ((h0 s).2 hh)
      · intro m
        simp only [Option.some.injEq, Prod.mk.injEq, and_true]
        constructor
        · rintro rfl; exact ⟨by omega, n, _, rfl, rfl, rfl⟩
        · rintro ⟨_, n', k, rfl, hk, rfl⟩; omega

/-- Documented for C62: recovery "will also skip separators".  It does not: `digits<>.sep(_).no_leading_zero()` on
    "0_1" recovers over "0" only. -/
theorem C62_separator_refuted :
    intRange (fun s => let r := noLeadingZero (matchDigitsSep .decimal underscoreTok s) s; (r.1, r.2.1)) .decimal
      [0x30, 0x5F, 0x31] = some (1, true) := by
  decide +kernel

/-- Both defects are reachable from a grammar: `integer<std::uint8_t>(digits<>.sep(_))` on "255_x" recovers with the range
    "255_" and then reports an overflow although the value is 255. -/
example : intRange (matchDigitsSep .decimal underscoreTok) .decimal [0x32, 0x35, 0x35, 0x5F, 0x78] = some (4, true) ∧
    boundedParse false (.plain .u8) .decimal [0x32, 0x35, 0x35, 0x5F] = some (255, true) := by
  decide +kernel

end Verif
