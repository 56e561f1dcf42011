import Verif.Iter

/-!
# C87: the algorithms do not depend on the category of the iterators

With enough steps, the versions for forward iterators return what those for random access iterators do
(refuted for distances of 2³² and more), and that is the position meant. Lexemes are equal exactly if
their characters are.
-/

namespace Verif.Itr

theorem inc_eq {len i : Nat} (h : i < len) : inc len i = some (i + 1) := if_pos h

/-- `range_size` is the number of elements. -/
theorem C87_range_size {len b e : Nat} (h1 : b ≤ e) (h2 : e ≤ len) (h3 : len < 2 ^ 64) :
    rangeSizeRA b e = e - b ∧ ∀ fuel, e - b < fuel → rangeSizeFwd len e fuel b 0 = some (e - b) := by
  refine ⟨by unfold rangeSizeRA; omega, ?_⟩
  have key : ∀ n fuel cur r, n = e - cur → cur ≤ e → n < fuel → r + n < 2 ^ 64 →
      rangeSizeFwd len e fuel cur r = some (r + n) := by
    intro n
    induction n with
    | zero =>
      intro fuel cur r h4 h5 h6 h7
      obtain ⟨f, rfl⟩ : ∃ f, fuel = f + 1 := ⟨fuel - 1, by omega⟩
      rw [rangeSizeFwd, if_neg (by omega), Nat.add_zero]
    | succ n ih =>
      intro fuel cur r h4 h5 h6 h7
      obtain ⟨f, rfl⟩ : ∃ f, fuel = f + 1 := ⟨fuel - 1, by omega⟩
      rw [rangeSizeFwd, if_pos (by omega), inc_eq (by omega), Option.bind_some,
        ih f (cur + 1) _ (by omega) (by omega) (by omega) (by omega)]
      congr 1
      omega
  intro fuel hf
  rw [key (e - b) fuel b 0 rfl h1 hf (by omega), Nat.zero_add]

theorem nextFwd_ok {len n : Nat} (hn : n < 2 ^ 32) : ∀ (k fuel iter i : Nat), i + k = n → iter + k ≤ len → k < fuel →
    nextFwd len n fuel iter i = some (iter + k)
  | 0, fuel, iter, i, h1, h2, h3 => by
    obtain ⟨f, rfl⟩ : ∃ f, fuel = f + 1 := ⟨fuel - 1, by omega⟩
    rw [nextFwd, if_neg (by omega), Nat.add_zero]
  | k + 1, fuel, iter, i, h1, h2, h3 => by
    obtain ⟨f, rfl⟩ : ∃ f, fuel = f + 1 := ⟨fuel - 1, by omega⟩
    rw [nextFwd, if_pos (by omega), inc_eq (by omega), Option.bind_some,
      nextFwd_ok hn k f (iter + 1) _ (by omega) (by omega) (by omega)]
    congr 1
    omega

/-- `next(iter, n)` is `n` elements further, for `n < 2³²`. -/
theorem C87_next_partial {len iter n : Nat} (h : iter + n ≤ len) (hn : n < 2 ^ 32) :
    nextRA len iter n = some (iter + n) ∧ ∀ fuel, n < fuel → nextFwd len n fuel iter 0 = some (iter + n) :=
  ⟨if_pos h, fun fuel hf => nextFwd_ok hn n fuel iter 0 (by omega) h hf⟩

theorem nextFwd_none {len n : Nat} (hn : 2 ^ 32 ≤ n) : ∀ (fuel iter i : Nat), i < 2 ^ 32 →
    nextFwd len n fuel iter i = none
  | 0, _, _, _ => rfl
  | fuel + 1, iter, i, hi => by
    rw [nextFwd, if_pos (by omega)]
    unfold inc
    by_cases h : iter < len
    · rw [if_pos h, Option.bind_some, nextFwd_none hn fuel _ _ (Nat.mod_lt _ (by decide))]
    · rw [if_neg h]; rfl

/-- For `n ≥ 2³²` the 32 bit counter never becomes `n`: the loop runs over the end of the sequence. -/
theorem C87_next_refuted : ¬ ∀ len iter n : Nat, iter + n ≤ len → len < 2 ^ 64 →
    ∃ fuel, nextFwd len n fuel iter 0 = nextRA len iter n := by
  intro h
  obtain ⟨fuel, hf⟩ := h (2 ^ 32) 0 (2 ^ 32) (by decide) (by decide)
  rw [nextFwd_none (by decide) fuel 0 0 (by decide)] at hf
  cases hf

theorem nextClampedFwd_ok {len n e : Nat} (hn : n < 2 ^ 32 ) (he : e ≤ len) :
    ∀ (k fuel iter i : Nat), i + k = n → iter ≤ e → k < fuel →
    nextClampedFwd len n e fuel iter i = some (min (iter + k) e)
  | 0, fuel, iter, i, h1, h2, h3 => by
    obtain ⟨f, rfl⟩ : ∃ f, fuel = f + 1 := ⟨fuel - 1, by omega⟩
    rw [nextClampedFwd, if_neg (by omega)]
    congr 1
    omega
  | k + 1, fuel, iter, i, h1, h2, h3 => by
    obtain ⟨f, rfl⟩ : ∃ f, fuel = f + 1 := ⟨fuel - 1, by omega⟩
    rw [nextClampedFwd, if_pos (by omega)]
    by_cases h : iter = e
    · rw [if_pos h]
      congr 1
      omega
    · rw [if_neg h, inc_eq (by omega), Option.bind_some,
        nextClampedFwd_ok hn he k f (iter + 1) _ (by omega) (by omega) (by omega)]
      congr 1
      omega

theorem nextClampedFwd_big {len n e : Nat} (hn : 2 ^ 32 ≤ n) (he : e ≤ len) :
    ∀ (k fuel iter i : Nat), iter + k = e → i < 2 ^ 32 → k < fuel →
    nextClampedFwd len n e fuel iter i = some e
  | 0, fuel, iter, i, h1, h2, h3 => by
    obtain ⟨f, rfl⟩ : ∃ f, fuel = f + 1 := ⟨fuel - 1, by omega⟩
    rw [nextClampedFwd, if_pos (by omega), if_pos (by omega)]
    congr 1
  | k + 1, fuel, iter, i, h1, h2, h3 => by
    obtain ⟨f, rfl⟩ : ∃ f, fuel = f + 1 := ⟨fuel - 1, by omega⟩
    rw [nextClampedFwd, if_pos (by omega), if_neg (by omega), inc_eq (by omega), Option.bind_some,
      nextClampedFwd_big hn he k f (iter + 1) _ (by omega) (Nat.mod_lt _ (by decide)) (by omega)]

/-- `next_clamped` is `n` elements further or at the end, unless `n` and the distance are 2³² or more. -/
theorem C87_next_clamped_partial {len iter n e : Nat} (h1 : iter ≤ e) (h2 : e ≤ len) (hn : n < 2 ^ 32 ∨ e ≤ iter + n) :
    nextClampedRA iter n e = min (iter + n) e
    ∧ ∀ fuel, n < fuel → e - iter < fuel → nextClampedFwd len n e fuel iter 0 = some (min (iter + n) e) := by
  refine ⟨?_, fun fuel hf hf' => ?_⟩
  · unfold nextClampedRA
    split <;> omega
  · by_cases hb : n < 2 ^ 32
    · exact nextClampedFwd_ok hb h2 n fuel iter 0 (by omega) h1 hf
    · rw [nextClampedFwd_big (by omega) h2 (e - iter) fuel iter 0 (by omega) (by decide) hf']
      congr 1
      omega

/-- Otherwise the version for forward iterators goes to the end. -/
theorem C87_next_clamped_refuted : ¬ ∀ len iter n e : Nat, iter ≤ e → e ≤ len → len < 2 ^ 64 →
    ∃ fuel, nextClampedFwd len n e fuel iter 0 = some (nextClampedRA iter n e) := by
  intro h
  obtain ⟨fuel, hf⟩ := h (2 ^ 32 + 1) 0 (2 ^ 32) (2 ^ 32 + 1) (by decide) (by decide) (by decide)
  have key : ∀ fuel iter i x, i < 2 ^ 32 →
      nextClampedFwd (2 ^ 32 + 1) (2 ^ 32) (2 ^ 32 + 1) fuel iter i = some x → x = 2 ^ 32 + 1 := by
    intro fuel
    induction fuel with
    | zero => intro iter i x _ h; cases h
    | succ f ih =>
      intro iter i x hi h
      rw [nextClampedFwd, if_pos (by omega)] at h
      by_cases he : iter = 2 ^ 32 + 1
      · rw [if_pos he] at h
        rw [← Option.some.inj h]; exact he
      · rw [if_neg he] at h
        obtain ⟨c, _, hc⟩ := Option.bind_eq_some_iff.1 h
        exact ih c _ x (Nat.mod_lt _ (by decide)) hc
  have h3 := key fuel 0 0 _ (by decide) hf
  have h4 : nextClampedRA 0 (2 ^ 32) (2 ^ 32 + 1) = 2 ^ 32 := by decide
  omega

/-- `min_range_end` is the first of the two ends. -/
theorem C87_min_range_end {len b x y : Nat} (h1 : b ≤ x) (h2 : b ≤ y) (h3 : x ≤ len) (h4 : y ≤ len) :
    minRangeEndRA b x y = some (min x y)
    ∧ ∀ fuel, len - b < fuel → minRangeEndFwd len x y fuel b = some (min x y) := by
  refine ⟨?_, ?_⟩
  · rw [minRangeEndRA, if_pos ⟨h1, h2⟩]
    exact congrArg some (by split <;> omega)
  · intro fuel hf
    induction fuel generalizing b with
    | zero => omega
    | succ f ih =>
      rw [minRangeEndFwd]
      by_cases h : b ≠ x ∧ b ≠ y
      · rw [if_pos h, inc_eq (by omega), Option.bind_some, ih (by omega) (by omega) (by omega)]
      · rw [if_neg h]
        congr 1
        omega

/-- `max_range_end` is the last of the two ends. -/
theorem C87_max_range_end {len b x y : Nat} (h1 : b ≤ x) (h2 : b ≤ y) (h3 : x ≤ len) (h4 : y ≤ len) :
    maxRangeEndRA b x y = some (max x y)
    ∧ ∀ fuel, len - b < fuel → maxRangeEndFwd len x y fuel b = some (max x y) := by
  refine ⟨?_, ?_⟩
  · rw [maxRangeEndRA, if_pos ⟨h1, h2⟩]
    exact congrArg some (by split <;> omega)
  · intro fuel hf
    induction fuel generalizing b with
    | zero => omega
    | succ f ih =>
      rw [maxRangeEndFwd]
      by_cases hx : b = x
      · rw [if_pos hx]
        congr 1
        omega
      · rw [if_neg hx]
        by_cases hy : b = y
        · rw [if_pos hy]
          congr 1
          omega
        · rw [if_neg hy, inc_eq (by omega), Option.bind_some, ih (by omega) (by omega) (by omega)]

theorem eqLexLoop_ok (inp : List Nat) {le re : Nat} (hl : le ≤ inp.length) (hr : re ≤ inp.length) :
    ∀ (k fuel l r : Nat), l + k = le → r ≤ re → k < fuel →
    eqLexLoop inp le re fuel l r = some (decide ((inp.drop l).take (le - l) = (inp.drop r).take (re - r)))
  | 0, fuel, l, r, h1, h2, h3 => by
    obtain ⟨f, rfl⟩ : ∃ f, fuel = f + 1 := ⟨fuel - 1, by omega⟩
    rw [eqLexLoop, if_neg (by omega)]
    congr 1
    have hll : le - l = 0 := by omega
    rw [hll, List.take_zero]
    by_cases hre : r = re
    · simp [hre, show l = le by omega]
    · have : (inp.drop r).take (re - r) ≠ [] := by
        intro h
        have := congrArg List.length h
        simp only [List.length_take, List.length_drop, List.length_nil] at this
        omega
      simp [hre, Ne.symm this]
  | k + 1, fuel, l, r, h1, h2, h3 => by
    obtain ⟨f, rfl⟩ : ∃ f, fuel = f + 1 := ⟨fuel - 1, by omega⟩
    rw [eqLexLoop]
    by_cases hre : r = re
    · rw [if_neg (by omega)]
      congr 1
      rw [hre, Nat.sub_self, List.take_zero]
      have : (inp.drop l).take (le - l) ≠ [] := by
        intro h
        have := congrArg List.length h
        simp only [List.length_take, List.length_drop, List.length_nil] at this
        omega
      simp [this, show ¬ l = le by omega]
    · have hl' : l < inp.length := by omega
      have hr' : r < inp.length := by omega
      rw [if_pos (by omega), List.getElem?_eq_getElem hl', List.getElem?_eq_getElem hr',
        Option.bind_some, Option.bind_some, inc_eq hl', inc_eq hr', Option.bind_some, Option.bind_some]
      have e1 : (inp.drop l).take (le - l) = inp[l] :: (inp.drop (l + 1)).take (le - (l + 1)) := by
        rw [List.drop_eq_getElem_cons hl', show le - l = (le - (l + 1)) + 1 by omega, List.take_succ_cons]
      have e2 : (inp.drop r).take (re - r) = inp[r] :: (inp.drop (r + 1)).take (re - (r + 1)) := by
        rw [List.drop_eq_getElem_cons hr', show re - r = (re - (r + 1)) + 1 by omega, List.take_succ_cons]
      rw [e1, e2]
      by_cases hc : inp[l] = inp[r]
      · rw [if_neg (by simpa using hc), eqLexLoop_ok inp hl hr k f (l + 1) (r + 1) (by omega) (by omega) (by omega)]
        simp [hc]
      · rw [if_pos hc]
        simp [hc]

/-- Lexemes are equal exactly if their characters are, for both categories of iterators. -/
theorem C87_equal_lexemes (ra : Bool) (inp : List Nat) {lb le rb re : Nat} (h1 : lb ≤ le) (h2 : rb ≤ re)
    (h3 : le ≤ inp.length) (h4 : re ≤ inp.length) {fuel : Nat} (hf : inp.length < fuel) :
    equalLexemes ra inp lb le rb re fuel
      = some (decide ((inp.drop lb).take (le - lb) = (inp.drop rb).take (re - rb))) := by
  unfold equalLexemes
  by_cases h : ra = true ∧ le - lb ≠ re - rb
  · rw [if_pos h]
    congr 1
    have : (inp.drop lb).take (le - lb) ≠ (inp.drop rb).take (re - rb) := by
      intro e
      have := congrArg List.length e
      simp only [List.length_take, List.length_drop] at this
      omega
    simp [this]
  · rw [if_neg h]
    exact eqLexLoop_ok inp h3 h4 (le - lb) fuel lb rb (by omega) h2 (by omega)

/-- The lexemes `ab` and `ab` in `abcab` are equal, `ab` and `abc` are not. -/
example : equalLexemes false [97, 98, 99, 97, 98] 0 2 3 5 6 = some true
    ∧ equalLexemes false [97, 98, 99, 97, 98] 0 3 3 5 6 = some false := by decide

example : nextClampedFwd 5 9 5 10 2 0 = some 5 ∧ nextFwd 5 3 4 2 0 = some 5 := by decide

end Verif.Itr
