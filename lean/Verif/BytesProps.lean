import Verif.Bytes

/-
Properties C51 (bytes and byte integers) and C52 (bit patterns).
-/

namespace Verif

namespace Spec

/-- The value of bytes, least significant byte first. -/
def leValue : List Nat → Nat
  | [] => 0
  | b :: s => b + 256 * leValue s

/-- The value of bytes, most significant byte first. -/
def beValue (bs : List Nat) : Nat := leValue bs.reverse

/-- The `n` bytes of a value. -/
def leBytes (n v : Nat) : List Nat := (List.range n).map fun i => v / 256 ^ i % 256

def beBytes (n v : Nat) : List Nat := (leBytes n v).reverse

def valueOf (big : Bool) (bs : List Nat) : Nat := if big then beValue bs else leValue bs

def bytesOf (big : Bool) (n v : Nat) : List Nat := if big then beBytes n v else leBytes n v

/-- The bits matched by a bit rule, most significant first; `none` matches both. -/
def bitsOf : BitRule → List (Option Bool)
  | .zero => [some false]
  | .one => [some true]
  | .nibble v => [some (v.testBit 3), some (v.testBit 2), some (v.testBit 1), some (v.testBit 0)]
  | .any n => List.replicate n none

end Spec

open Spec

/-! ### Bytes -/

/-- **C51** `bytes<N>` matches exactly if the next `N` bytes exist and satisfy the predicate; it then
    consumes them.  Otherwise the error is behind the bytes that could be consumed. -/
theorem C51_bytes (n : Nat) (pred : Nat → Bool) (s : List Nat) :
    ((bytesTok n pred s).1 = true ↔ n ≤ s.length ∧ ∀ b ∈ s.take n, pred b = true)
    ∧ ((bytesTok n pred s).1 = true → (bytesTok n pred s).2 = n)
    ∧ ((bytesTok n pred s).1 = false → (bytesTok n pred s).2 < n
        ∧ (bytesTok n pred s).2 = (s.takeWhile pred).length) := by
  induction n generalizing s with
  | zero => simp [bytesTok]
  | succ n ih =>
    cases s with
    | nil => simp [bytesTok]
    | cons b s =>
      obtain ⟨h1, h2, h3⟩ := ih s
      by_cases hb : pred b = true
      · simp only [bytesTok, hb, if_true, List.length_cons, List.take_succ_cons, List.mem_cons, forall_eq_or_imp,
          true_and, Nat.add_le_add_iff_right, List.takeWhile_cons, h1]
        exact ⟨fun h => by rw [h2 (h1.2 h)], fun h => ⟨by have := (h3 h).1; omega, by rw [(h3 h).2]⟩⟩
      · simp [bytesTok, hb]

theorem bytesTok_le (n : Nat) (pred : Nat → Bool) (s : List Nat) : (bytesTok n pred s).2 ≤ s.length := by
  induction n generalizing s with
  | zero => simp [bytesTok]
  | succ n ih =>
    cases s with
    | nil => simp [bytesTok]
    | cons b s =>
      simp only [bytesTok]
      split
      · simpa using ih s
      · simp

/-! ### Padding bytes -/

theorem mem_padValidate {padding p : Nat} {s : List Nat} {ev : ByteEv} :
    ev ∈ padValidate padding p s ↔ ∃ i, ∃ h : i < s.length, s[i] ≠ padding ∧ ev = .expectedLiteral (p + i) := by
  induction s generalizing p with
  | nil => simp [padValidate]
  | cons b s ih =>
    simp only [padValidate, List.mem_append, ih]
    constructor
    · rintro (h | ⟨i, h1, h2, h3⟩)
      · split at h
        · rename_i hb
          simp at h
          exact ⟨0, by simp, by simpa using hb, by simpa using h⟩
        · simp at h
      · exact ⟨i + 1, by simpa using h1, by simpa using h2, by rw [h3]; congr 1; omega⟩
    · rintro ⟨i, h1, h2, h3⟩
      cases i with
      | zero =>
        left
        have : b ≠ padding := by simpa using h2
        simp [this, h3]
      | succ i => exact .inr ⟨i, by simpa using h1, by simpa using h2, by rw [h3]; congr 1; omega⟩

/-- **C51** `padding_bytes<N>` succeeds exactly if there are `N` more bytes, and consumes them; it reports exactly
    the bytes with a different value, whether or not it is parsed as a branch. -/
theorem C51_padding (n padding : Nat) (s : List Nat) (p : Nat) :
    ((padParse n padding s p).1 = true ↔ p + n ≤ s.length ∨ n = 0)
    ∧ ((padParse n padding s p).1 = true → padBranch n padding s p = some (padParse n padding s p)
        ∧ (padParse n padding s p).2.1 = p + n
        ∧ ∀ ev, ev ∈ (padParse n padding s p).2.2 ↔ ev = .token p (p + n) ∨
            ∃ i, i < n ∧ s[p + i]? ≠ some padding ∧ ev = .expectedLiteral (p + i))
    ∧ ((padParse n padding s p).1 = false → padBranch n padding s p = none
        ∧ (padParse n padding s p).2.2 = [.errorToken p (max p s.length), .expectedClass (max p s.length)]) := by
  obtain ⟨h1, h2, h3⟩ := C51_bytes n anyByte (s.drop p)
  unfold padParse padBranch byteTokenParse
  generalize hr : bytesTok n anyByte (s.drop p) = r at *
  obtain ⟨ok, k⟩ := r
  cases ok with
  | true =>
    have hk := h2 rfl
    simp only at hk
    subst hk
    have hle := (h1.1 rfl).1
    simp only [List.length_drop] at hle
    refine ⟨by simp; omega, fun _ => ⟨by simp, rfl, fun ev => ?_⟩, by simp⟩
    simp only [List.singleton_append, List.mem_cons, mem_padValidate, Nat.add_sub_cancel_left, List.length_take,
      List.length_drop]
    refine or_congr Iff.rfl ?_
    constructor
    · rintro ⟨i, hi, h4, h5⟩
      refine ⟨i, by omega, ?_, h5⟩
      rw [List.getElem?_eq_getElem (by omega)]
      simpa using h4
    · rintro ⟨i, hi, h4, h5⟩
      refine ⟨i, by omega, ?_, h5⟩
      rw [List.getElem?_eq_getElem (by omega)] at h4
      simpa using h4
  | false =>
    obtain ⟨h4, h5⟩ := h3 rfl
    have h6 : (s.drop p).takeWhile anyByte = s.drop p := by
      induction s.drop p with
      | nil => rfl
      | cons b t ih => simpa [List.takeWhile_cons, show anyByte b = true from rfl] using ih
    rw [h6, List.length_drop] at h5
    simp only at h4 h5
    refine ⟨by simp; omega, by simp, fun _ => ⟨rfl, ?_⟩⟩
    have : p + k = max p s.length := by omega
    simp [this]

/-! ### Values -/

theorem leValue_append (a b : List Nat) : leValue (a ++ b) = leValue a + 256 ^ a.length * leValue b := by
  induction a with
  | nil => simp [leValue]
  | cons x a ih => simp [leValue, ih, Nat.pow_succ, Nat.mul_add, Nat.add_assoc, Nat.mul_comm, Nat.mul_assoc]

theorem leValue_lt {bs : List Nat} (h : ∀ b ∈ bs, b < 256) : leValue bs < 256 ^ bs.length := by
  induction bs with
  | nil => simp [leValue]
  | cons b s ih =>
    have h1 := ih fun x hx => h x (by simp [hx])
    have h2 := h b (by simp)
    simp only [leValue, List.length_cons, Nat.pow_succ]
    omega

theorem pow256 (n : Nat) : 2 ^ (8 * n) = 256 ^ n := by rw [Nat.pow_mul]

theorem bintStep_eq {n r b : Nat} (hb : b < 256) (hr : r * 256 + b < 256 ^ n) : bintStep n r b = r * 256 + b := by
  unfold bintStep
  rw [pow256]
  have h1 : r <<< 8 = r * 256 := by simp [Nat.shiftLeft_eq]
  rw [h1, Nat.mod_eq_of_lt (Nat.lt_of_le_of_lt (Nat.le_add_right _ _) hr)]
  have h2 : r * 256 ||| b = r * 256 + b := by
    have := Nat.two_pow_add_eq_or_of_lt (b := b) (i := 8) (by omega) r
    rw [Nat.mul_comm r 256]
    exact this.symm
  rw [h2, Nat.mod_eq_of_lt hr]

theorem foldl_bintStep {n : Nat} : ∀ (bs pre : List Nat), (∀ b ∈ pre ++ bs, b < 256) → (pre ++ bs).length = n →
    bs.foldl (bintStep n) (beValue pre) = beValue (pre ++ bs)
  | [], pre, _, _ => by simp
  | b :: bs, pre, h, hl => by
    have h1 : beValue (pre ++ [b]) = beValue pre * 256 + b := by
      simp [beValue, leValue]; omega
    have h2 : beValue (pre ++ [b]) < 256 ^ n := by
      have h3 : (pre ++ [b]).reverse.length ≤ n := by simp at hl ⊢; omega
      refine Nat.lt_of_lt_of_le (leValue_lt fun x hx => h x ?_) (Nat.pow_le_pow_right (by omega) h3)
      simp at hx ⊢
      rcases hx with rfl | hx
      · simp
      · simp [hx]
    simp only [List.foldl_cons]
    rw [bintStep_eq (h b (by simp)) (by rw [← h1]; exact h2), ← h1]
    have := foldl_bintStep bs (pre ++ [b]) (by simpa using h) (by simpa using hl)
    rw [this]
    simp

theorem range_reverse_foldl {n : Nat} {bs : List Nat} (hl : bs.length = n) (f : Nat → Nat → Nat) (x : Nat) :
    (List.range n).foldl (fun r i => f r (bs.getD (n - i - 1) 0)) x = bs.reverse.foldl f x := by
  have : bs.reverse = (List.range n).map fun i => bs.getD (n - i - 1) 0 := by
    apply List.ext_getElem
    · simp [hl]
    · intro i h1 h2
      simp only [List.getElem_reverse, List.getElem_map, List.getElem_range, List.getD_eq_getElem?_getD]
      rw [List.getElem?_eq_getElem (by simp at h1; omega)]
      simp only [Option.getD_some]
      congr 1
      omega
  rw [this, List.foldl_map]

/-- **C51** The value is the one of the bytes with the given endianness. -/
theorem C51_value (big : Bool) {n : Nat} (hn : 0 < n) {bs : List Nat} (hb : ∀ b ∈ bs, b < 256) (hl : bs.length = n) :
    bintValue big n bs = valueOf big bs := by
  unfold bintValue valueOf
  split
  · rename_i h1
    subst h1
    obtain ⟨b, rfl⟩ := List.length_eq_one_iff.1 hl
    simp [beValue, leValue]
  · cases big with
    | true =>
      have := foldl_bintStep (n := n) bs [] (by simpa using hb) (by simpa using hl)
      simpa [beValue, leValue] using this
    | false =>
      simp only [Bool.false_eq_true, if_false]
      rw [range_reverse_foldl hl]
      have := foldl_bintStep (n := n) bs.reverse [] (by simpa using hb) (by simpa using hl)
      simpa [beValue, leValue] using this

theorem leBytes_succ (n v : Nat) : leBytes (n + 1) v = v % 256 :: leBytes n (v / 256) := by
  unfold leBytes
  rw [List.range_succ_eq_map]
  simp only [List.map_cons, List.map_map, Nat.pow_zero, Nat.div_one]
  congr 1
  apply List.map_congr_left
  intro i _
  simp only [Function.comp, Nat.pow_succ]
  rw [Nat.mul_comm, ← Nat.div_div_eq_div_mul]

theorem leValue_leBytes (n v : Nat) (h : v < 256 ^ n) : leValue (leBytes n v) = v := by
  induction n generalizing v with
  | zero => simp at h; simp [h, leBytes, leValue]
  | succ n ih =>
    rw [leBytes_succ, leValue, ih _ (by rw [Nat.pow_succ] at h; omega)]
    omega

theorem leBytes_leValue (bs : List Nat) (h : ∀ b ∈ bs, b < 256) : leBytes bs.length (leValue bs) = bs := by
  induction bs with
  | nil => simp [leBytes]
  | cons b s ih =>
    have hb := h b (by simp)
    rw [List.length_cons, leBytes_succ, leValue]
    have h1 : (b + 256 * leValue s) % 256 = b := by omega
    have h2 : (b + 256 * leValue s) / 256 = leValue s := by omega
    rw [h1, h2, ih fun x hx => h x (by simp [hx])]

theorem bytesOf_length (big : Bool) (n v : Nat) : (bytesOf big n v).length = n := by
  cases big <;> simp [bytesOf, beBytes, leBytes]

theorem bytesOf_lt (big : Bool) (n v : Nat) : ∀ b ∈ bytesOf big n v, b < 256 := by
  have : ∀ b ∈ leBytes n v, b < 256 := by
    intro b hb
    simp only [leBytes, List.mem_map] at hb
    obtain ⟨i, _, rfl⟩ := hb
    exact Nat.mod_lt _ (by omega)
  cases big
  · simpa [bytesOf] using this
  · simpa [bytesOf, beBytes] using this

theorem valueOf_bytesOf (big : Bool) {n v : Nat} (h : v < 256 ^ n) : valueOf big (bytesOf big n v) = v := by
  cases big <;> simp [valueOf, bytesOf, beValue, beBytes, leValue_leBytes n v h]

/-- **C51** Reading is the inverse of writing: wherever the `n` bytes of a value are, it is read back, exactly these
    bytes are consumed, and nothing is reported; also as a branch. -/
theorem C51_round_trip (big : Bool) {n : Nat} (hn : 0 < n) {v : Nat} (hv : v < 256 ^ n) (pre rest : List Nat) :
    bintParse big n (bytesTok n anyByte) (pre ++ bytesOf big n v ++ rest) pre.length
      = (some v, pre.length + n, [.token pre.length (pre.length + n)])
    ∧ bintBranch big n (bytesTok n anyByte) (pre ++ bytesOf big n v ++ rest) pre.length
      = some (some v, pre.length + n, [.token pre.length (pre.length + n)]) := by
  have hd : (pre ++ bytesOf big n v ++ rest).drop pre.length = bytesOf big n v ++ rest := by simp
  have hlen := bytesOf_length big n v
  obtain ⟨h1, h2, -⟩ := C51_bytes n anyByte (bytesOf big n v ++ rest)
  have h3 := h1.2 ⟨by simp [hlen], fun _ _ => rfl⟩
  have h4 : bytesTok n anyByte (bytesOf big n v ++ rest) = (true, n) := Prod.ext h3 (h2 h3)
  have ht : (bytesOf big n v ++ rest).take n = bytesOf big n v := by
    rw [List.take_append_of_le_length (by omega), List.take_of_length_le (by omega)]
  have hval : bintValue big n (bytesOf big n v) = v := by
    rw [C51_value big hn (bytesOf_lt big n v) hlen, valueOf_bytesOf big hv]
  simp [bintParse, bintBranch, byteTokenParse, bintConvert, hd, h4, ht, hval]

/-- **C51** Two different byte strings have different values. -/
theorem C51_injective (big : Bool) {n : Nat} (hn : 0 < n) {bs cs : List Nat} (hb : ∀ b ∈ bs, b < 256)
    (hc : ∀ b ∈ cs, b < 256) (lb : bs.length = n) (lc : cs.length = n) (h : bintValue big n bs = bintValue big n cs) :
    bs = cs := by
  rw [C51_value big hn hb lb, C51_value big hn hc lc] at h
  cases big with
  | false =>
    simp only [valueOf, Bool.false_eq_true, if_false] at h
    rw [← leBytes_leValue bs hb, ← leBytes_leValue cs hc, h, lb, lc]
  | true =>
    simp only [valueOf, beValue, if_true] at h
    have : bs.reverse = cs.reverse := by
      rw [← leBytes_leValue bs.reverse (by simpa using hb), ← leBytes_leValue cs.reverse (by simpa using hc), h]
      simp [lb, lc]
    simpa using this

/-- **C51** `bytes<N>.range<low, high>()`, `.set<…>()` and `.ascii()`: the bytes of the (closed) range, of the set,
    below 128. -/
theorem C51_classes (n : Nat) (s : List Nat) (hn : n ≤ s.length) :
    (∀ low high, (bytesTok n (byteRange low high) s).1 = true ↔ ∀ b ∈ s.take n, low ≤ b ∧ b ≤ high)
    ∧ (∀ set, (bytesTok n (byteSet set) s).1 = true ↔ ∀ b ∈ s.take n, b ∈ set)
    ∧ ((bytesTok n byteAscii s).1 = true ↔ ∀ b ∈ s.take n, b < 128) := by
  refine ⟨fun low high => ?_, fun set => ?_, ?_⟩ <;> rw [(C51_bytes n _ s).1]
  · simp [hn, byteRange]
  · simp [hn, byteSet]
  · simp only [hn, byteAscii, decide_eq_true_eq, true_and]
    exact ⟨fun h b hb => Nat.lt_succ_of_le (h b hb), fun h b hb => Nat.le_of_lt_succ (h b hb)⟩

/-- Both ends of the range. -/
example : (bytesTok 3 (byteRange 1 5) [1, 5, 3, 9]).1 = true ∧ (bytesTok 3 (byteRange 1 5) [1, 6, 3]).1 = false :=
  ⟨((C51_classes 3 [1, 5, 3, 9] (by decide)).1 1 5).2 (by decide), by decide⟩

/-- **C51** With another token, the integer is parsed exactly if the token matches and consumes `n` bytes; if it
    consumes a different number, this is reported for the range consumed. -/
theorem C51_token (big : Bool) (n : Nat) (tok : List Nat → TokRes) (s : List Nat) (p : Nat) :
    ((bintParse big n tok s p).1.isSome ↔ tok (s.drop p) = (true, n))
    ∧ (bintBranch big n tok s p = if (tok (s.drop p)).1 then some (bintParse big n tok s p) else none)
    ∧ (bintParse big n tok s p).2.1 = p + (tok (s.drop p)).2
    ∧ ∀ b e, .mismatchedCount b e ∈ (bintParse big n tok s p).2.2 ↔
        (tok (s.drop p)).1 = true ∧ (tok (s.drop p)).2 ≠ n ∧ b = p ∧ e = p + (tok (s.drop p)).2 := by
  unfold bintParse bintBranch byteTokenParse bintConvert
  generalize tok (s.drop p) = r
  obtain ⟨ok, k⟩ := r
  cases ok <;> by_cases hk : k = n <;> simp [hk]

/-- `bint16` and `bint32`; a token of the wrong size. -/
example : bintParse true 2 (bytesTok 2 anyByte) [9, 0x12, 0x34, 7] 1 = (some 0x1234, 3, [.token 1 3])
    ∧ bintParse false 4 (bytesTok 4 anyByte) [1, 2, 3, 4] 0 = (some 0x04030201, 4, [.token 0 4])
    ∧ bintParse false 4 (bytesTok 4 anyByte) [1, 2, 3] 0 = (none, 3, [.errorToken 0 3, .expectedClass 3])
    ∧ bintParse true 2 (bytesTok 3 anyByte) [1, 2, 3] 0 = (none, 3, [.token 0 3, .mismatchedCount 0 3])
    ∧ padParse 3 0 [0, 1, 0] 0 = (true, 3, [.token 0 3, .expectedLiteral 1])
    ∧ bytesTok 2 byteAscii [0x41, 0x80] = (false, 1) ∧ bytesTok 2 (byteRange 1 5) [1, 5, 6] = (true, 2) := by
  decide

/-! ### Bits -/

/-- What mask and value of a pattern mean: `fs` are the bits matched, the least significant first. -/
def PatOk (p : Nat × Nat) (fs : List (Option Bool)) : Prop :=
  ∀ j, p.1.testBit j = (fs[j]?.join).isSome ∧ p.2.testBit j = (fs[j]?.join == some true)

theorem testBit_shift_or (m x k j : Nat) (hx : x < 2 ^ k) :
    (m <<< k ||| x).testBit j = if j < k then x.testBit j else m.testBit (j - k) := by
  rw [Nat.testBit_or, Nat.testBit_shiftLeft]
  split
  · rename_i h
    have : ¬ k ≤ j := by omega
    simp [this]
  · rename_i h
    have h2 : k ≤ j := by omega
    have : x.testBit j = false :=
      Nat.testBit_lt_two_pow (Nat.lt_of_lt_of_le hx (Nat.pow_le_pow_right (by omega) h2))
    simp [this, h2]

theorem patOk_append {p : Nat × Nat} {fs gs : List (Option Bool)} {x y : Nat} (h : PatOk p fs) (hg : PatOk (x, y) gs)
    (hx : x < 2 ^ gs.length) (hy : y < 2 ^ gs.length) :
    PatOk (p.1 <<< gs.length ||| x, p.2 <<< gs.length ||| y) (gs ++ fs) := by
  intro j
  simp only [testBit_shift_or _ _ _ _ hx, testBit_shift_or _ _ _ _ hy]
  by_cases hj : j < gs.length
  · simp only [hj, if_true, List.getElem?_append_left hj]
    exact hg j
  · simp only [hj, if_false, List.getElem?_append_right (Nat.le_of_not_lt hj)]
    exact h _

theorem patOk_apply {p : Nat × Nat} {fs : List (Option Bool)} (r : BitRule)
    (hr : match r with | .nibble v => v ≤ 15 | .any n => 0 < n | _ => True) (h : PatOk p fs) :
    PatOk (r.apply p) ((bitsOf r).reverse ++ fs) := by
  obtain ⟨m, v⟩ := p
  have key : ∀ x y, r.apply (m, v) = (m <<< (bitsOf r).reverse.length ||| x, v <<< (bitsOf r).reverse.length ||| y) →
      PatOk (x, y) (bitsOf r).reverse → x < 2 ^ (bitsOf r).reverse.length → y < 2 ^ (bitsOf r).reverse.length →
      PatOk (r.apply (m, v)) ((bitsOf r).reverse ++ fs) := by
    intro x y he hg hx hy
    rw [he]
    exact patOk_append h hg hx hy
  cases r with
  | zero =>
    refine key 1 0 (by simp [BitRule.apply, bitsOf]) ?_ (by simp [bitsOf]) (by simp [bitsOf])
    intro j
    cases j with
    | zero => simp [bitsOf]
    | succ j => simp [bitsOf, Nat.testBit_succ]
  | one =>
    refine key 1 1 (by simp [BitRule.apply, bitsOf]) ?_ (by simp [bitsOf]) (by simp [bitsOf])
    intro j
    cases j with
    | zero => simp [bitsOf]
    | succ j => simp [bitsOf, Nat.testBit_succ]
  | nibble x =>
    refine key 15 x (by simp [BitRule.apply, bitsOf]) ?_ (by simp [bitsOf]) (by simp [bitsOf]; simp at hr; omega)
    intro j
    have hx : x < 2 ^ 4 := by simp at hr; omega
    match j with
    | 0 => simp [bitsOf]
    | 1 => simp [bitsOf]; decide
    | 2 => simp [bitsOf]; decide
    | 3 => simp [bitsOf]; decide
    | j + 4 =>
      have h1 : x.testBit (j + 4) = false :=
        Nat.testBit_lt_two_pow (Nat.lt_of_lt_of_le hx (Nat.pow_le_pow_right (by omega) (by omega)))
      have h2 : Nat.testBit 15 (j + 4) = false :=
        Nat.testBit_lt_two_pow (Nat.lt_of_lt_of_le (by omega : 15 < 2 ^ 4) (Nat.pow_le_pow_right (by omega) (by omega)))
      simp [bitsOf, h1, h2]
  | any n =>
    refine key 0 0 (by simp [BitRule.apply, bitsOf]) ?_ (by simp [bitsOf, Nat.two_pow_pos]) (by simp [bitsOf, Nat.two_pow_pos])
    intro j
    simp [bitsOf, List.getElem?_replicate]
    split <;> simp

theorem patOk_pattern (rs : List BitRule)
    (hv : ∀ r ∈ rs, match r with | .nibble v => v ≤ 15 | .any n => 0 < n | _ => True) :
    PatOk (BitRule.pattern rs) (rs.flatMap bitsOf).reverse := by
  have gen : ∀ (rs : List BitRule) (p : Nat × Nat) (fs : List (Option Bool)),
      (∀ r ∈ rs, match r with | .nibble v => v ≤ 15 | .any n => 0 < n | _ => True) → PatOk p fs →
      PatOk (rs.foldl (fun p r => r.apply p) p) ((rs.flatMap bitsOf).reverse ++ fs) := by
    intro rs
    induction rs with
    | nil => intro p fs _ h; simpa using h
    | cons r rs ih =>
      intro p fs hv h
      have := ih _ _ (fun r' hr' => hv r' (by simp [hr'])) (patOk_apply r (hv r (by simp)) h)
      simpa using this
  have := gen rs (0, 0) [] hv (fun j => by simp)
  rw [List.append_nil] at this
  exact this

/-- **C52** A byte matches the bit rules exactly if each bit matches its field, where the first rule describes
    the most significant bits.  It is then consumed. -/
theorem C52_bits {rs : List BitRule} (hv : BitRule.Valid rs) (s : List Nat) (hs : ∀ b ∈ s, b < 256) :
    (rs.flatMap bitsOf).length = 8
    ∧ ((bitsTok rs s).1 = true ↔ ∃ b t, s = b :: t ∧
        ∀ i x, (rs.flatMap bitsOf)[i]? = some (some x) → b.testBit (7 - i) = x)
    ∧ (bitsTok rs s).2 = if (bitsTok rs s).1 then 1 else 0 := by
  have hlen : (rs.flatMap bitsOf).length = 8 := by
    rw [List.length_flatMap, ← hv.2]
    congr 1
    apply List.map_congr_left
    intro r _
    cases r <;> simp [bitsOf, BitRule.size]
  refine ⟨hlen, ?_⟩
  cases s with
  | nil => simp [bitsTok]
  | cons b t =>
    have hp := patOk_pattern rs hv.1
    have hb := hs b (by simp)
    have key : b &&& (BitRule.pattern rs).1 = (BitRule.pattern rs).2 ↔
        ∀ i x, (rs.flatMap bitsOf)[i]? = some (some x) → b.testBit (7 - i) = x := by
      constructor
      · intro h i x hi
        have hi8 : i < 8 := by rw [← hlen]; exact (List.getElem?_eq_some_iff.1 hi).1
        have h1 : (rs.flatMap bitsOf).reverse[7 - i]? = some (some x) := by
          rw [List.getElem?_reverse (by omega), hlen]
          rw [show 8 - 1 - (7 - i) = i by omega]
          exact hi
        have h2 := congrArg (Nat.testBit · (7 - i)) h
        simp only [Nat.testBit_and, (hp (7 - i)).1, (hp (7 - i)).2, h1, Option.join_some] at h2
        cases x <;> simpa using h2
      · intro h
        apply Nat.eq_of_testBit_eq
        intro j
        rw [Nat.testBit_and, (hp j).1, (hp j).2]
        cases hf : (rs.flatMap bitsOf).reverse[j]? with
        | none => simp
        | some f =>
          cases f with
          | none => simp
          | some x =>
            have hj : j < 8 := by
              have := (List.getElem?_eq_some_iff.1 hf).1
              simpa [hlen] using this
            rw [List.getElem?_reverse (by omega), hlen] at hf
            have := h _ _ hf
            rw [show 7 - (8 - 1 - j) = j by omega] at this
            simp [this]
    by_cases h : b &&& (BitRule.pattern rs).1 = (BitRule.pattern rs).2
    · simp only [bitsTok, bne_iff_ne, ne_eq, h, not_true, if_false, if_true, true_iff, and_true]
      exact ⟨b, t, rfl, key.1 h⟩
    · simp only [bitsTok, bne_iff_ne, ne_eq, h, not_false_eq_true, if_true, Bool.false_eq_true, false_iff, if_false, and_true]
      rintro ⟨b', t', he, h'⟩
      cases he
      exact h (key.2 h')

/-- A UTF-8 lead byte `110xxxxx`; a nibble. -/
example : BitRule.Valid [.one, .one, .zero, .any 5] ∧ BitRule.Valid [.nibble 10, .any 1, .one, .any 2] := by
  simp [BitRule.Valid, BitRule.size]

example : bitsTok [.one, .one, .zero, .any 5] [0xDF, 1] = (true, 1) ∧ bitsTok [.one, .one, .zero, .any 5] [0xE0] = (false, 0)
    ∧ bitsTok [.nibble 10, .any 1, .one, .any 2] [0xAC] = (true, 1)
    ∧ bitsTok [.nibble 10, .any 1, .one, .any 2] [0xA8] = (false, 0) := by decide

end Verif
