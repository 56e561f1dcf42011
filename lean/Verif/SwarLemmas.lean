import Verif.Swar

/-! Lane-wise reading of the word operations. -/

namespace Verif
namespace Swar

theorem combine_lt {B c x P : Nat} (hc : c < B) (hx : x < P) : c + B * x < B * P := by
  have : B * (x + 1) ≤ B * P := Nat.mul_le_mul_left B hx
  rw [Nat.mul_succ] at this
  omega

theorem combine_mod {B r z P : Nat} (hr : r < B) : (r + B * z) % (B * P) = r + B * (z % P) := by
  rcases Nat.eq_zero_or_pos P with h | h
  · subst h; simp
  have hz : z = P * (z / P) + z % P := (Nat.div_add_mod z P).symm
  have e : r + B * z = (r + B * (z % P)) + (B * P) * (z / P) := by
    conv => lhs; rw [hz]
    rw [Nat.mul_add, Nat.mul_assoc]; omega
  rw [e, Nat.add_mul_mod_self_left, Nat.mod_eq_of_lt (combine_lt hr (Nat.mod_lt _ h))]

theorem combine_and (w : Nat) {c d x y : Nat} (hc : c < 2 ^ w) (hd : d < 2 ^ w) :
    (c + 2 ^ w * x) &&& (d + 2 ^ w * y) = (c &&& d) + 2 ^ w * (x &&& y) := by
  have h1 : ((c + 2 ^ w * x) &&& (d + 2 ^ w * y)) / 2 ^ w = x &&& y := by
    rw [Nat.and_div_two_pow, Nat.add_mul_div_left _ _ (Nat.two_pow_pos w),
      Nat.add_mul_div_left _ _ (Nat.two_pow_pos w), Nat.div_eq_of_lt hc, Nat.div_eq_of_lt hd]
    simp
  have h2 : ((c + 2 ^ w * x) &&& (d + 2 ^ w * y)) % 2 ^ w = c &&& d := by
    rw [Nat.and_mod_two_pow, Nat.add_mul_mod_self_left, Nat.add_mul_mod_self_left,
      Nat.mod_eq_of_lt hc, Nat.mod_eq_of_lt hd]
  have := Nat.div_add_mod ((c + 2 ^ w * x) &&& (d + 2 ^ w * y)) (2 ^ w)
  rw [h1, h2] at this
  omega

theorem combine_xor (w : Nat) {c d x y : Nat} (hc : c < 2 ^ w) (hd : d < 2 ^ w) :
    (c + 2 ^ w * x) ^^^ (d + 2 ^ w * y) = (c ^^^ d) + 2 ^ w * (x ^^^ y) := by
  have h1 : ((c + 2 ^ w * x) ^^^ (d + 2 ^ w * y)) / 2 ^ w = x ^^^ y := by
    rw [Nat.xor_div_two_pow, Nat.add_mul_div_left _ _ (Nat.two_pow_pos w),
      Nat.add_mul_div_left _ _ (Nat.two_pow_pos w), Nat.div_eq_of_lt hc, Nat.div_eq_of_lt hd]
    simp
  have h2 : ((c + 2 ^ w * x) ^^^ (d + 2 ^ w * y)) % 2 ^ w = c ^^^ d := by
    rw [Nat.xor_mod_two_pow, Nat.add_mul_mod_self_left, Nat.add_mul_mod_self_left,
      Nat.mod_eq_of_lt hc, Nat.mod_eq_of_lt hd]
  have := Nat.div_add_mod ((c + 2 ^ w * x) ^^^ (d + 2 ^ w * y)) (2 ^ w)
  rw [h1, h2] at this
  omega

variable (k : Swar)

theorem B_pos : 0 < k.B := Nat.two_pow_pos _

/-- Every lane value fits. -/
def Fits (cs : List Nat) : Prop := ∀ c ∈ cs, c < k.B

variable {k}

theorem Fits.head {c cs} (h : k.Fits (c :: cs)) : c < k.B := h c (by simp)
theorem Fits.tail {c cs} (h : k.Fits (c :: cs)) : k.Fits cs := fun x hx => h x (by simp [hx])

theorem lanes_lt {cs : List Nat} (h : k.Fits cs) : k.lanes cs < k.B ^ cs.length := by
  induction cs with
  | nil => simp [lanes]
  | cons c cs ih =>
    simp only [lanes, List.length_cons, Nat.pow_succ']
    exact combine_lt h.head (ih h.tail)

theorem M_eq : k.M = k.B ^ k.n := by
  simp [M, B, Nat.pow_mul]

theorem lanes_inj {a b : List Nat} (ha : k.Fits a) (hb : k.Fits b) (hl : a.length = b.length) :
    k.lanes a = k.lanes b ↔ a = b := by
  constructor
  · intro h
    induction a generalizing b with
    | nil => cases b <;> simp_all
    | cons c cs ih =>
      cases b with
      | nil => simp at hl
      | cons d ds =>
        simp only [lanes] at h
        have hc := ha.head
        have hd := hb.head
        have e1 : (c + k.B * k.lanes cs) % k.B = c := by
          rw [Nat.add_mul_mod_self_left, Nat.mod_eq_of_lt hc]
        have e2 : (d + k.B * k.lanes ds) % k.B = d := by
          rw [Nat.add_mul_mod_self_left, Nat.mod_eq_of_lt hd]
        have : c = d := by rw [← e1, ← e2, h]
        subst this
        have h' : k.B * k.lanes cs = k.B * k.lanes ds := by omega
        rw [ih ha.tail hb.tail (by simpa using hl) (Nat.eq_of_mul_eq_mul_left k.B_pos h')]
  · rintro rfl; rfl

theorem fits_replicate {n c : Nat} (h : c < k.B) : k.Fits (List.replicate n c) := by
  intro x hx; rw [List.eq_of_mem_replicate hx]; exact h

theorem fillLoop_eq {c : Nat} (h : c < k.B) : ∀ i, i ≤ k.n →
    k.fillLoop c i = k.lanes (List.replicate i c) := by
  intro i
  induction i with
  | zero => intro _; rfl
  | succ i ih =>
    intro hi
    rw [fillLoop, ih (by omega), List.replicate_succ, lanes]
    have hl := lanes_lt (fits_replicate (k := k) (n := i) h)
    rw [List.length_replicate] at hl
    rw [Nat.shiftLeft_eq, Nat.mod_eq_of_lt, ← Nat.shiftLeft_eq, ← Nat.shiftLeft_add_eq_or_of_lt h,
      Nat.shiftLeft_eq, Nat.mul_comm, B]
    · omega
    · rw [M_eq]
      have h1 : k.lanes (List.replicate i c) * 2 ^ k.w < k.B ^ i * k.B :=
        Nat.mul_lt_mul_of_pos_right hl (Nat.two_pow_pos _)
      rw [← Nat.pow_succ] at h1
      exact Nat.lt_of_lt_of_le h1 (Nat.pow_le_pow_right k.B_pos hi)

theorem fill_eq {c : Nat} (h : c < k.B) : k.fill c = k.lanes (List.replicate k.n c) :=
  fillLoop_eq h _ (Nat.le_refl _)

theorem fillCompl_eq {c : Nat} : k.fillCompl c = k.lanes (List.replicate k.n (k.B - 1 - c)) :=
  fillLoop_eq (by have := k.B_pos; omega) _ (Nat.le_refl _)

theorem lanes_and {cs : List Nat} {m : Nat} (h : k.Fits cs) (hm : m < k.B) :
    k.lanes cs &&& k.lanes (List.replicate cs.length m) = k.lanes (cs.map (· &&& m)) := by
  induction cs with
  | nil => simp [lanes]
  | cons c cs ih =>
    simp only [List.length_cons, List.replicate_succ, lanes, List.map_cons, ← ih h.tail]
    exact combine_and k.w h.head hm

theorem lanes_zipAnd {a b : List Nat} (ha : k.Fits a) (hb : k.Fits b) (hl : a.length = b.length) :
    k.lanes a &&& k.lanes b = k.lanes (List.zipWith (· &&& ·) a b) := by
  induction a generalizing b with
  | nil => simp [lanes]
  | cons c cs ih =>
    cases b with
    | nil => simp at hl
    | cons d ds =>
      simp only [lanes, List.zipWith_cons_cons, ← ih ha.tail hb.tail (by simpa using hl)]
      exact combine_and k.w ha.head hb.head

theorem lanes_zipXor {a b : List Nat} (ha : k.Fits a) (hb : k.Fits b) (hl : a.length = b.length) :
    k.lanes a ^^^ k.lanes b = k.lanes (List.zipWith (· ^^^ ·) a b) := by
  induction a generalizing b with
  | nil => cases b <;> simp_all [lanes]
  | cons c cs ih =>
    cases b with
    | nil => simp at hl
    | cons d ds =>
      simp only [lanes, List.zipWith_cons_cons, ← ih ha.tail hb.tail (by simpa using hl)]
      exact combine_xor k.w ha.head hb.head

theorem fits_and {cs : List Nat} {m : Nat} (h : k.Fits cs) : k.Fits (cs.map (· &&& m)) := by
  intro x hx
  obtain ⟨c, hc, rfl⟩ := List.mem_map.1 hx
  exact Nat.lt_of_le_of_lt Nat.and_le_left (h c hc)

theorem not_eq {cs : List Nat} (h : k.Fits cs) (hl : cs.length = k.n) :
    k.not (k.lanes cs) = k.lanes (cs.map (k.B - 1 - ·)) := by
  have : ∀ cs, k.Fits cs →
      k.B ^ cs.length - 1 - k.lanes cs = k.lanes (cs.map (k.B - 1 - ·)) := by
    intro cs h
    induction cs with
    | nil => simp [lanes]
    | cons c cs ih =>
      simp only [List.length_cons, List.map_cons, lanes, ← ih h.tail, Nat.pow_succ']
      have hc := h.head
      have hl := lanes_lt h.tail
      generalize k.lanes cs = X at *
      generalize k.B ^ cs.length = P at *
      have : k.B * (P - 1 - X) = k.B * P - k.B - k.B * X := by
        rw [Nat.mul_sub, Nat.mul_sub, Nat.mul_one]
      have h2 : k.B * X + k.B ≤ k.B * P := by
        have := Nat.mul_le_mul_left k.B (show X + 1 ≤ P by omega)
        rwa [Nat.mul_succ] at this
      omega
  rw [not, M_eq, ← hl]
  exact this cs h

variable (k) in
/-- Lane-wise subtraction of a constant with borrow. -/
def subC (y : Nat) (b : Nat) : List Nat → List Nat
  | [] => []
  | x :: xs => (if x < y + b then x + k.B - (y + b) else x - (y + b))
      :: subC y (if x < y + b then 1 else 0) xs

variable (k) in
/-- Lane-wise addition of a constant with carry. -/
def addC (y : Nat) (b : Nat) : List Nat → List Nat
  | [] => []
  | x :: xs => (if x + y + b < k.B then x + y + b else x + y + b - k.B)
      :: addC y (if x + y + b < k.B then 0 else 1) xs

@[simp] theorem subC_length (y b : Nat) (xs : List Nat) : (k.subC y b xs).length = xs.length := by
  induction xs generalizing b with
  | nil => rfl
  | cons x xs ih => simp [subC, ih]

@[simp] theorem addC_length (y b : Nat) (xs : List Nat) : (k.addC y b xs).length = xs.length := by
  induction xs generalizing b with
  | nil => rfl
  | cons x xs ih => simp [addC, ih]

theorem fits_subC {y : Nat} {xs : List Nat} : ∀ {b}, k.Fits xs → k.Fits (k.subC y b xs) := by
  induction xs with
  | nil => intro b _ x hx; simp [subC] at hx
  | cons c cs ih =>
    intro b h x hx
    simp only [subC, List.mem_cons] at hx
    rcases hx with rfl | hx
    · have := h.head
      split <;> omega
    · exact ih h.tail x hx

theorem fits_addC {y : Nat} {xs : List Nat} (hy : y < k.B) :
    ∀ {b}, b ≤ 1 → k.Fits xs → k.Fits (k.addC y b xs) := by
  induction xs with
  | nil => intro b _ _ x hx; simp [addC] at hx
  | cons c cs ih =>
    intro b hb h x hx
    simp only [addC, List.mem_cons] at hx
    rcases hx with rfl | hx
    · have := h.head
      split <;> omega
    · exact ih (by split <;> omega) h.tail x hx

theorem lanes_subC {y : Nat} (hy : y < k.B) {xs : List Nat} : ∀ {b}, b ≤ 1 → k.Fits xs →
    k.lanes (k.subC y b xs) =
      (k.lanes xs + k.B ^ xs.length - (k.lanes (List.replicate xs.length y) + b))
        % k.B ^ xs.length := by
  induction xs with
  | nil => intro b hb _; simp [subC, lanes]; omega
  | cons c cs ih =>
    intro b hb h
    simp only [subC, lanes, List.length_cons, List.replicate_succ, Nat.pow_succ']
    rw [ih (by split <;> omega) h.tail]
    have hX := lanes_lt h.tail
    have hY := lanes_lt (fits_replicate (k := k) (n := cs.length) hy)
    rw [List.length_replicate] at hY
    have hc := h.head
    generalize k.lanes cs = X at *
    generalize k.lanes (List.replicate cs.length y) = Y at *
    generalize k.B ^ cs.length = P at *
    have hB := k.B_pos
    generalize k.B = B at *
    split
    · rename_i hlt
      rw [← combine_mod (show c + B - (y + b) < B by omega)]
      congr 1
      have e : B * (X + P - (Y + 1)) = B * X + B * P - (B * Y + B) := by
        rw [Nat.mul_sub, Nat.mul_add, Nat.mul_add, Nat.mul_one]
      have hle : B * Y + B ≤ B * P := by
        have := Nat.mul_le_mul_left B (show Y + 1 ≤ P by omega)
        rwa [Nat.mul_succ] at this
      rw [e]; omega
    · rename_i hge
      rw [← combine_mod (show c - (y + b) < B by omega)]
      congr 1
      have e : B * (X + P - (Y + 0)) = B * X + B * P - B * Y := by
        rw [Nat.mul_sub, Nat.mul_add]; rfl
      have hle : B * Y ≤ B * P := Nat.mul_le_mul_left B (by omega)
      rw [e]; omega

theorem lanes_addC {y : Nat} (hy : y < k.B) {xs : List Nat} : ∀ {b}, b ≤ 1 → k.Fits xs →
    k.lanes (k.addC y b xs) =
      (k.lanes xs + k.lanes (List.replicate xs.length y) + b) % k.B ^ xs.length := by
  induction xs with
  | nil => intro b hb _; simp [addC, lanes]; omega
  | cons c cs ih =>
    intro b hb h
    simp only [addC, lanes, List.length_cons, List.replicate_succ, Nat.pow_succ']
    rw [ih (by split <;> omega) h.tail]
    have hc := h.head
    generalize k.lanes cs = X at *
    generalize k.lanes (List.replicate cs.length y) = Y at *
    generalize k.B ^ cs.length = P at *
    have hB := k.B_pos
    generalize k.B = B at *
    split
    · rename_i hlt
      rw [← combine_mod hlt]
      congr 1
      have e : B * (X + Y + 0) = B * X + B * Y := by rw [Nat.add_zero, Nat.mul_add]
      rw [e]; omega
    · rename_i hge
      rw [← combine_mod (show c + y + b - B < B by omega)]
      congr 1
      have e : B * (X + Y + 1) = B * X + B * Y + B := by rw [Nat.mul_add, Nat.mul_add, Nat.mul_one]
      rw [e]; omega

theorem sub_fill {y : Nat} (hy : y < k.B) {cs : List Nat} (h : k.Fits cs) (hl : cs.length = k.n) :
    k.sub (k.lanes cs) (k.fill y) = k.lanes (k.subC y 0 cs) := by
  rw [lanes_subC hy (by omega) h, sub, M_eq, fill_eq hy, hl, Nat.add_zero]

theorem add_fill {y : Nat} (hy : y < k.B) {cs : List Nat} (h : k.Fits cs) (hl : cs.length = k.n) :
    k.add (k.lanes cs) (k.fill y) = k.lanes (k.addC y 0 cs) := by
  rw [lanes_addC hy (by omega) h, add, M_eq, fill_eq hy, hl, Nat.add_zero]

theorem and_fillCompl {y : Nat} {cs : List Nat} (h : k.Fits cs) (hl : cs.length = k.n) :
    k.lanes cs &&& k.fillCompl y = k.lanes (cs.map (· &&& (k.B - 1 - y))) := by
  rw [fillCompl_eq, ← hl, lanes_and h]
  have := k.B_pos; omega

theorem eq_fill {v : Nat} (hv : v < k.B) {cs : List Nat} (h : k.Fits cs) (hl : cs.length = k.n) :
    k.lanes cs = k.fill v ↔ ∀ c ∈ cs, c = v := by
  rw [fill_eq hv, lanes_inj h (fits_replicate hv) (by simp [hl]), List.eq_replicate_iff]
  exact ⟨fun h => h.2, fun h => ⟨hl, h⟩⟩

/-- `x & ~(2^j - 1)` clears the low `j` bits. -/
theorem and_compl_low {w j x : Nat} (hj : j ≤ w) (hx : x < 2 ^ w) :
    x &&& (2 ^ w - 1 - (2 ^ j - 1)) = x / 2 ^ j * 2 ^ j := by
  have e : 2 ^ w - 1 - (2 ^ j - 1) = 2 ^ j * (2 ^ (w - j) - 1) := by
    rw [Nat.mul_sub, ← Nat.pow_add, Nat.add_sub_cancel' hj, Nat.mul_one]
    have := Nat.two_pow_pos j; omega
  have h1 : x / 2 ^ j < 2 ^ (w - j) := by
    rw [Nat.div_lt_iff_lt_mul (Nat.two_pow_pos j), ← Nat.pow_add, Nat.sub_add_cancel hj]; exact hx
  have h2 := combine_and j (c := x % 2 ^ j) (d := 0) (x := x / 2 ^ j) (y := 2 ^ (w - j) - 1)
    (Nat.mod_lt _ (Nat.two_pow_pos j)) (Nat.two_pow_pos j)
  rw [Nat.mod_add_div, Nat.zero_add, Nat.and_zero, Nat.zero_add,
    Nat.and_two_pow_sub_one_eq_mod, Nat.mod_eq_of_lt h1] at h2
  rw [e, h2, Nat.mul_comm]

theorem and_mask_eq {j x v : Nat} (hj : j ≤ k.w) (hx : x < k.B) (hv : v % 2 ^ j = 0) :
    x &&& (k.B - 1 - (2 ^ j - 1)) = v ↔ v ≤ x ∧ x < v + 2 ^ j := by
  rw [B, and_compl_low hj hx]
  have hp := Nat.two_pow_pos j
  have h1 := Nat.div_add_mod x (2 ^ j)
  have h2 := Nat.mod_lt x hp
  have h3 := Nat.div_add_mod v (2 ^ j)
  rw [Nat.mul_comm] at h1 h3
  generalize 2 ^ j = P at *
  constructor
  · intro h; omega
  · rintro ⟨a, b⟩
    have : x / P = v / P := by
      have : v / P ≤ x / P := Nat.div_le_div_right a
      have : x / P < v / P + 1 := by
        rw [Nat.div_lt_iff_lt_mul hp, Nat.succ_mul]; omega
      omega
    rw [this]; omega

/-- `x & 2^j` tests the top bit of a `j+1` bit number. -/
theorem and_top {j x : Nat} (hx : x < 2 ^ (j + 1)) :
    x &&& 2 ^ j = if 2 ^ j ≤ x then 2 ^ j else 0 := by
  have h := and_compl_low (w := j + 1) (j := j) (by omega) hx
  have e : 2 ^ (j + 1) - 1 - (2 ^ j - 1) = 2 ^ j := by
    rw [Nat.pow_succ]; have := Nat.two_pow_pos j; omega
  rw [e] at h
  rw [h]
  have hp := Nat.two_pow_pos j
  rw [Nat.pow_succ] at hx
  split
  · rename_i hle
    have : x / 2 ^ j = 1 := by
      apply Nat.div_eq_of_lt_le <;> omega
    rw [this, Nat.one_mul]
  · rw [Nat.div_eq_of_lt (by omega), Nat.zero_mul]

theorem lanes_ne_zero {l : List Nat} : k.lanes l ≠ 0 ↔ ∃ x ∈ l, x ≠ 0 := by
  induction l with
  | nil => simp [lanes]
  | cons c cs ih =>
    have := k.B_pos
    simp only [lanes, List.mem_cons, exists_eq_or_imp, ← ih]
    constructor
    · intro h
      by_cases hc : c = 0
      · right; intro h'; rw [h'] at h; simp [hc] at h
      · exact .inl hc
    · rintro (h | h) h'
      · omega
      · have : k.B * k.lanes cs = 0 := by omega
        rcases Nat.mul_eq_zero.1 this with h2 | h2
        · omega
        · exact h h2

end Swar
end Verif
