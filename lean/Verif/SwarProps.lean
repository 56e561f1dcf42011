import Verif.SwarLemmas

/-!
Properties C06 (SWAR fast paths agree with per-character matching) and
C07 (the SWAR primitives are exact).

Specification: a word is given by its list of characters `cs` (one per lane); all statements are
about those characters only.
-/

namespace Verif
namespace Swar

variable {k : Swar}

/-! ## C07 -/

/-- A word of the configuration: `n` characters, each fitting its lane. -/
structure Word (k : Swar) (cs : List Nat) : Prop where
  len : cs.length = k.n
  lt : ∀ c ∈ cs, c < 2 ^ k.w

theorem hasCharLess_aux {N : Nat} (hw : 1 ≤ k.w) (hN : N ≤ 2 ^ (k.w - 1)) {cs : List Nat}
    (h : k.Fits cs) :
    (∃ x ∈ List.zipWith (· &&& ·) (k.subC N 0 cs)
        ((cs.map (k.B - 1 - ·)).map (· &&& 2 ^ (k.w - 1))), x ≠ 0)
      ↔ ∃ c ∈ cs, c < N := by
  have hB : k.B = 2 * 2 ^ (k.w - 1) := by
    rw [B]
    conv => lhs; rw [show k.w = (k.w - 1) + 1 by omega]
    exact Nat.pow_succ'
  induction cs with
  | nil => simp [subC]
  | cons c cs ih =>
    have hc := h.head
    simp only [subC, List.map_cons, List.zipWith_cons_cons, List.mem_cons, exists_eq_or_imp,
      Nat.add_zero]
    have hp := Nat.two_pow_pos (k.w - 1)
    have top : ∀ x, x < k.B → x &&& 2 ^ (k.w - 1) = if 2 ^ (k.w - 1) ≤ x then 2 ^ (k.w - 1) else 0 := by
      intro x hx
      apply and_top
      rw [Nat.sub_add_cancel hw]; exact hx
    have head : ∀ z, z < k.B →
        ((z &&& ((k.B - 1 - c) &&& 2 ^ (k.w - 1))) ≠ 0 ↔ 2 ^ (k.w - 1) ≤ z ∧ c < 2 ^ (k.w - 1)) := by
      intro z hz
      rw [top (k.B - 1 - c) (by omega)]
      split
      · rw [top z hz]
        split
        · constructor
          · intro _; omega
          · intro _; omega
        · constructor
          · intro hh; exact absurd rfl hh
          · intro hh; omega
      · rw [Nat.and_zero]
        constructor
        · intro hh; exact absurd rfl hh
        · intro hh; omega
    by_cases hlt : c < N
    · simp only [hlt, if_true, true_or, iff_true]
      left
      exact (head _ (by omega)).2 ⟨by omega, by omega⟩
    · simp only [hlt, if_false, false_or]
      have ih' := ih h.tail
      constructor
      · rintro (hh | hh)
        · have := (head _ (by omega)).1 hh; omega
        · exact ih'.1 hh
      · exact fun hh => .inr (ih'.2 hh)

/-- C07: `swar_has_char_less<N>` is exact for every `N` up to half the character range. -/
theorem C07_has_char_less_exact (k : Swar) (hw : 1 ≤ k.w) (N : Nat) (hN : N ≤ 2 ^ (k.w - 1))
    (cs : List Nat) (h : Word k cs) :
    k.hasCharLess N (k.lanes cs) = true ↔ ∃ c ∈ cs, c < N := by
  obtain ⟨hl, hf⟩ := h
  have hf : k.Fits cs := hf
  have hB : k.B = 2 * 2 ^ (k.w - 1) := by
    rw [B]
    conv => lhs; rw [show k.w = (k.w - 1) + 1 by omega]
    exact Nat.pow_succ'
  have hp := Nat.two_pow_pos (k.w - 1)
  have hfm : k.Fits (cs.map (k.B - 1 - ·)) := by
    intro x hx
    obtain ⟨c, hc, rfl⟩ := List.mem_map.1 hx
    have := k.B_pos; omega
  unfold hasCharLess
  simp only [Nat.one_shiftLeft, bne_iff_ne]
  rw [sub_fill (by omega) hf hl, not_eq hf hl, fill_eq (c := 2 ^ (k.w - 1)) (by omega),
    show k.n = (cs.map (k.B - 1 - ·)).length by simp [hl],
    lanes_and hfm (by omega), lanes_zipAnd (fits_subC hf) (fits_and hfm) (by simp),
    lanes_ne_zero, hasCharLess_aux hw hN hf]

/-- C07: `swar_has_zero` is exact. -/
theorem C07_has_zero_exact (k : Swar) (hw : 1 ≤ k.w) (cs : List Nat) (h : Word k cs) :
    k.hasZero (k.lanes cs) = true ↔ 0 ∈ cs := by
  unfold hasZero
  rw [C07_has_char_less_exact k hw 1 (Nat.two_pow_pos _) cs h]
  constructor
  · rintro ⟨c, hc, hc'⟩
    have : c = 0 := by omega
    exact this ▸ hc
  · intro h; exact ⟨0, h, by omega⟩

theorem xor_eq_zero_iff {a b : Nat} : a ^^^ b = 0 ↔ a = b := by
  constructor
  · intro h
    have : (a ^^^ b) ^^^ b = 0 ^^^ b := by rw [h]
    rwa [Nat.xor_assoc, Nat.xor_self, Nat.xor_zero, Nat.zero_xor] at this
  · rintro rfl; exact Nat.xor_self a

theorem lanes_xor_fill {C : Nat} (hC : C < k.B) {cs : List Nat} (hf : k.Fits cs)
    (hl : cs.length = k.n) : k.lanes cs ^^^ k.fill C = k.lanes (cs.map (· ^^^ C)) := by
  rw [fill_eq hC, lanes_zipXor hf (fits_replicate hC) (by simp [hl]), ← hl]
  congr 1
  clear hl hf
  induction cs with
  | nil => rfl
  | cons c cs ih => simp [List.replicate_succ, ih]

theorem fits_xor {C : Nat} (hC : C < k.B) {cs : List Nat} (hf : k.Fits cs) :
    k.Fits (cs.map (· ^^^ C)) := by
  intro x hx
  obtain ⟨c, hc, rfl⟩ := List.mem_map.1 hx
  exact Nat.xor_lt_two_pow (hf c hc) hC

/-- C07: `swar_has_char<C>` is exact for every character. -/
theorem C07_has_char_exact (k : Swar) (hw : 1 ≤ k.w) (C : Nat) (hC : C < 2 ^ k.w)
    (cs : List Nat) (h : Word k cs) :
    k.hasChar C (k.lanes cs) = true ↔ C ∈ cs := by
  unfold hasChar
  split
  · rename_i h0; subst h0; exact C07_has_zero_exact k hw cs h
  · rw [lanes_xor_fill hC h.2 h.1, C07_has_zero_exact k hw _ ⟨by simp [h.1], fits_xor hC h.2⟩,
      List.mem_map]
    constructor
    · rintro ⟨c, hc, hc'⟩
      rw [xor_eq_zero_iff] at hc'; exact hc' ▸ hc
    · intro hc; exact ⟨C, hc, Nat.xor_self C⟩

/-- C07: `swar_fill` puts the character in every lane. -/
theorem C07_fill_exact (k : Swar) (c : Nat) (hc : c < 2 ^ k.w) :
    k.fill c = k.lanes (List.replicate k.n c) := fill_eq hc

/-- C07: `swar_fill_compl` puts the complement in every lane. -/
theorem C07_fill_compl_exact (k : Swar) (c : Nat) :
    k.fillCompl c = k.lanes (List.replicate k.n (2 ^ k.w - 1 - c)) := fillCompl_eq

theorem ctz_lane {w c x : Nat} (hc : c < 2 ^ w) (hne : c ≠ 0) :
    ctz (c + 2 ^ w * x) < w := by
  induction w generalizing c with
  | zero => simp at hc; omega
  | succ w ih =>
    rw [ctz]
    split
    · omega
    · rename_i h
      have e : (c + 2 ^ (w + 1) * x) = 2 * (c / 2 + 2 ^ w * x) + c % 2 := by
        rw [Nat.pow_succ', Nat.mul_assoc]; omega
      rw [e] at h ⊢
      have hodd : c % 2 = 0 := by omega
      rw [show (2 * (c / 2 + 2 ^ w * x) + c % 2) / 2 = c / 2 + 2 ^ w * x by omega]
      rw [Nat.pow_succ] at hc
      have := ih (c := c / 2) (by omega) (by omega)
      omega

theorem ctz_shift {w x : Nat} (hx : x ≠ 0) : ctz (2 ^ w * x) = w + ctz x := by
  induction w with
  | zero => simp
  | succ w ih =>
    rw [ctz]
    have hp := Nat.two_pow_pos w
    have hpos : 0 < 2 ^ w * x := Nat.mul_pos hp (by omega)
    rw [Nat.pow_succ', Nat.mul_assoc]
    rw [if_neg (by omega)]
    rw [show 2 * (2 ^ w * x) / 2 = 2 ^ w * x by omega, ih]
    omega

theorem ctz_lanes (hw : 0 < k.w) {l : List Nat} (hf : k.Fits l) (i : Nat) (hi : i < l.length)
    (hne : l[i] ≠ 0) (hz : ∀ j (hj : j < i), l[j]'(by omega) = 0) :
    ctz (k.lanes l) / k.w = i := by
  induction l generalizing i with
  | nil => simp at hi
  | cons c cs ih =>
    cases i with
    | zero =>
      simp only [List.getElem_cons_zero] at hne
      simp only [lanes]
      exact Nat.div_eq_of_lt (ctz_lane hf.head hne)
    | succ i =>
      have hc : c = 0 := hz 0 (by omega)
      subst hc
      simp only [List.getElem_cons_succ] at hne
      simp only [List.length_cons] at hi
      simp only [lanes, Nat.zero_add]
      have hx : k.lanes cs ≠ 0 := lanes_ne_zero.2 ⟨_, List.getElem_mem (by omega), hne⟩
      rw [B, ctz_shift hx, Nat.add_comm, Nat.add_div_right _ hw]
      rw [ih hf.tail i (by omega) hne]
      intro j hj
      exact hz (j + 1) (by omega)

/-- C07: `swar_find_difference` returns the index of the first character at which two words differ. -/
theorem C07_find_difference_exact (k : Swar) (hw : 0 < k.w) (a b : List Nat)
    (ha : Word k a) (hb : Word k b) (i : Nat) (hi : i < k.n)
    (hne : a[i]'(by rw [ha.1]; exact hi) ≠ b[i]'(by rw [hb.1]; exact hi))
    (heq : ∀ j (hj : j < i), a[j]'(by rw [ha.1]; omega) = b[j]'(by rw [hb.1]; omega)) :
    k.findDifference (k.lanes a) (k.lanes b) = i := by
  have hfa : k.Fits a := ha.2
  have hfb : k.Fits b := hb.2
  have hlen : a.length = b.length := by rw [ha.1, hb.1]
  unfold findDifference
  rw [if_neg, lanes_zipXor hfa hfb hlen]
  · have hl : (List.zipWith (· ^^^ ·) a b).length = k.n := by
      rw [List.length_zipWith, ha.1, hb.1]; omega
    refine ctz_lanes hw ?_ i (by rw [hl]; exact hi) ?_ ?_
    · intro x hx
      obtain ⟨j, hj, rfl⟩ := List.getElem_of_mem hx
      rw [List.getElem_zipWith]
      exact Nat.xor_lt_two_pow (hfa _ (List.getElem_mem _)) (hfb _ (List.getElem_mem _))
    · rw [List.getElem_zipWith, Ne, xor_eq_zero_iff]; exact hne
    · intro j hj
      rw [List.getElem_zipWith, xor_eq_zero_iff]; exact heq j hj
  · rw [lanes_inj hfa hfb hlen]
    rintro rfl; exact hne rfl

/-- C07: ... and the number of lanes exactly for equal words. -/
theorem C07_find_difference_equal (k : Swar) (a : List Nat) :
    k.findDifference (k.lanes a) (k.lanes a) = k.n := by
  simp [findDifference]

example : Word char8 [0x61, 0x62, 0, 0xFF, 0x64, 0x65, 0x66, 0x67] ∧
    char8.hasZero (char8.lanes [0x61, 0x62, 0, 0xFF, 0x64, 0x65, 0x66, 0x67]) = true ∧
    char8.hasCharLess 0x10 (char8.lanes [0x61, 0x62, 0x0D, 0, 0x64, 0x65, 0x66, 0x67]) = true ∧
    char8.hasCharLess 0x10 (char8.lanes [0x61, 0x62, 0x8D, 0x80, 0x64, 0x65, 0x66, 0x67]) = false ∧
    char8.findDifference (char8.lanes [1, 2, 3, 4, 5, 6, 7, 8])
      (char8.lanes [1, 2, 3, 5, 5, 6, 0, 8]) = 3 := by
  refine ⟨⟨rfl, ?_⟩, by decide +kernel, by decide +kernel, by decide +kernel, by decide +kernel⟩
  intro c hc; simp [char8] at *; omega


theorem packLoop_neg (cs : List Nat) : ∀ (s r : Nat), 0 < k.n → 0 < k.w →
    k.packLoop r (-(s * k.w : Nat)) cs = k.packLoop r 0 (cs.drop s) := by
  induction cs with
  | nil => intro s r _ _; simp [packLoop]
  | cons c cs ih =>
    intro s r hn hw
    cases s with
    | zero => simp
    | succ s =>
      rw [packLoop]
      have h1 : (0:Int) < ((s + 1) * k.w : Nat) := by
        have := Nat.mul_pos (show 0 < s + 1 by omega) hw; exact Int.ofNat_lt.2 this
      rw [if_neg (by omega), if_neg (by omega)]
      rw [show (-(((s + 1) * k.w : Nat) : Int) + k.w) = -((s * k.w : Nat) : Int) by
        rw [Nat.succ_mul]; omega]
      rw [ih s r hn hw]; simp

theorem packLoop_pos (cs : List Nat) : ∀ (j r : Nat), k.Fits cs → 0 < k.w → j ≤ k.n →
    r < k.B ^ j →
    k.packLoop r (k.w * j : Nat) cs = r + k.B ^ j * k.lanes (cs.take (k.n - j)) := by
  induction cs with
  | nil => intro j r _ _ _ _; simp [packLoop, lanes]
  | cons c cs ih =>
    intro j r hf hw hj hr
    rw [packLoop]
    by_cases e : j = k.n
    · subst e; simp [lanes]
    · rw [if_neg]
      · rw [if_pos (by omega)]
        simp only [Int.toNat_natCast]
        have hBj : k.B ^ j = 2 ^ (k.w * j) := by rw [B, ← Nat.pow_mul]
        have hor : r ||| c <<< (k.w * j) = r + k.B ^ j * c := by
          rw [Nat.or_comm, ← Nat.shiftLeft_add_eq_or_of_lt (by rw [← hBj]; exact hr),
            Nat.shiftLeft_eq, ← hBj, Nat.mul_comm c]; omega
        rw [hor]
        have hidx : ((k.w * j : Nat) : Int) + (k.w : Int) = ((k.w * (j + 1) : Nat) : Int) := by
          rw [Nat.mul_succ]; omega
        rw [hidx, ih (j + 1) _ hf.tail hw (by omega)]
        · rw [show k.n - j = (k.n - (j + 1)) + 1 by omega, List.take_succ_cons, lanes,
            Nat.mul_add, Nat.pow_succ, Nat.mul_assoc]
          omega
        · rw [Nat.pow_succ]
          exact combine_lt hr hf.head
      · intro h
        have h' : k.w * j = k.w * k.n := by omega
        exact e (Nat.eq_of_mul_eq_mul_left hw h')

theorem lanes_append (a b : List Nat) :
    k.lanes (a ++ b) = k.lanes a + k.B ^ a.length * k.lanes b := by
  induction a with
  | nil => simp [lanes]
  | cons x a ih =>
    simp only [List.cons_append, lanes, ih, List.length_cons, Nat.pow_succ', Nat.mul_add,
      Nat.mul_assoc]
    omega

theorem lanes_mask_take (m : Nat) (v : List Nat) (hfv : k.Fits v) (hm : m ≤ v.length) :
    k.lanes v &&& (k.B ^ m - 1) = k.lanes (v.take m) := by
  rw [B, ← Nat.pow_mul, Nat.and_two_pow_sub_one_eq_mod, Nat.pow_mul, ← B]
  conv => lhs; rw [← List.take_append_drop m v]
  rw [lanes_append, List.length_take, Nat.min_eq_left hm, Nat.add_mul_mod_self_left, Nat.mod_eq_of_lt]
  have h2 := lanes_lt (k := k) (cs := v.take m) (fun x hx => hfv x (List.mem_of_mem_take hx))
  rwa [List.length_take, Nat.min_eq_left hm] at h2

theorem pack_facts (hw : 0 < k.w) (hn : 0 < k.n) (skip : Nat) (cs : List Nat) (hf : k.Fits cs) :
    (k.pack skip cs).count = min (cs.length - skip) k.n ∧
    (k.pack skip cs).value = k.lanes ((cs.drop skip).take k.n) ∧
    (k.pack skip cs).mask = k.B ^ (min (cs.length - skip) k.n) - 1 := by
  have hfd : k.Fits (cs.drop skip) := fun x hx => hf x (List.mem_of_mem_drop hx)
  have hval : k.packLoop 0 (-(skip * k.w : Nat)) cs = k.lanes ((cs.drop skip).take k.n) := by
    rw [packLoop_neg cs skip 0 hn hw]
    have := packLoop_pos (cs.drop skip) 0 0 hfd hw (by omega) (by simp)
    simpa using this
  have hcount : (k.pack skip cs).count = min (cs.length - skip) k.n := by
    unfold pack
    simp only []
    split
    · simp; omega
    split
    · simp; omega
    · simp; omega
  have hv : (k.pack skip cs).value = k.lanes ((cs.drop skip).take k.n) := by
    unfold pack
    simp only [hval]
    split
    · rfl
    split <;> rfl
  have hmask : (k.pack skip cs).mask = k.B ^ (min (cs.length - skip) k.n) - 1 := by
    unfold pack
    simp only []
    split
    · rw [show min (cs.length - skip) k.n = 0 by omega]; simp
    split
    · rw [show min (cs.length - skip) k.n = k.n by omega, M_eq]
    · rename_i h1 h2
      have : ((cs.length : Int) - skip).toNat = cs.length - skip := by omega
      simp only [this, Nat.one_shiftLeft]
      rw [show min (cs.length - skip) k.n = cs.length - skip by omega]
      rw [Nat.mod_eq_of_lt, B, ← Nat.pow_mul, Nat.mul_comm]
      rw [M, Nat.mul_comm]
      exact Nat.pow_lt_pow_right (by omega) (Nat.mul_lt_mul_of_pos_left (by omega) hw)
  exact ⟨hcount, hv, hmask⟩

/-- C07: `swar_pack<Skip>` packs the characters after the first `Skip`, as many as fit, and its mask
    selects exactly those lanes: a word agrees with the packed characters under the mask if and only
    if it starts with them. -/
theorem C07_pack_exact (k : Swar) (hw : 0 < k.w) (hn : 0 < k.n) (skip : Nat) (cs : List Nat)
    (hc : ∀ c ∈ cs, c < 2 ^ k.w) :
    (k.pack skip cs).count = min (cs.length - skip) k.n ∧
    (k.pack skip cs).value = k.lanes ((cs.drop skip).take k.n) ∧
    ∀ v, Word k v → ((k.lanes v &&& (k.pack skip cs).mask = (k.pack skip cs).value) ↔
      (cs.drop skip).take k.n <+: v) := by
  have hf : k.Fits cs := hc
  have hfd : k.Fits (cs.drop skip) := fun x hx => hf x (List.mem_of_mem_drop hx)
  obtain ⟨hcount, hv, hmask⟩ := pack_facts hw hn skip cs hf
  refine ⟨hcount, hv, ?_⟩
  intro v hvw
  have hfv : k.Fits v := hvw.2
  have hlen : ((cs.drop skip).take k.n).length = min (cs.length - skip) k.n := by
    simp; omega
  have hfp : k.Fits ((cs.drop skip).take k.n) := fun x hx => hfd x (List.mem_of_mem_take hx)
  rw [hv, hmask, ← hlen]
  generalize (cs.drop skip).take k.n = p at *
  have hle : p.length ≤ v.length := by rw [hlen, hvw.1]; omega
  rw [lanes_mask_take _ _ hfv hle, lanes_inj (fun x hx => hfv x (List.mem_of_mem_take hx)) hfp
    (by simp; omega)]
  rw [List.prefix_iff_eq_take]
  exact eq_comm

/-- C07: characters of one, two and four bytes fill the 64 bits of a word. -/
theorem C07_word_filled (k : Swar) (bytes : Nat)
    (h : (bytes, k) = (1, char8) ∨ (bytes, k) = (2, char16) ∨ (bytes, k) = (4, char32)) :
    k.B = 256 ^ bytes ∧ k.M = 2 ^ 64 ∧ k.n * bytes = 8 := by
  rcases h with h | h | h <;> (cases h; decide +kernel)

example : (char8.pack 2 [1, 2, 3, 4, 5]).value = 0x050403 ∧
    (char8.pack 2 [1, 2, 3, 4, 5]).mask = 0xFFFFFF ∧
    (char32.pack 0 [1, 2, 3, 4, 5]).count = 2 := by decide +kernel

end Swar
end Verif
