/-!
# Algorithms on iterators and lexemes

Model of lexy/_detail/iterator.hpp l.17-139 and of lexy/lexeme.hpp. An iterator is a position in a sequence
of length `len`; incrementing the end is undefined (`none`). The functions have a version for iterators with
subtraction (`…RA`) and one that only increments and compares (`…Fwd`).
-/

namespace Verif.Itr

/-- `++iter`. -/
def inc (len i : Nat) : Option Nat := if i < len then some (i + 1) else none

/-- `range_size` with subtraction, iterator.hpp l.24-27. -/
def rangeSizeRA (b e : Nat) : Nat := (e - b) % 2 ^ 64

/-- `range_size` without, l.30-33; `std::size_t` has 64 bits. -/
def rangeSizeFwd (len e : Nat) : Nat → Nat → Nat → Option Nat
  | 0, _, _ => none
  | fuel + 1, cur, result =>
    if cur ≠ e then (inc len cur).bind fun c => rangeSizeFwd len e fuel c ((result + 1) % 2 ^ 64)
    else some result

/-- `next(iter, n)` with addition, l.45-48; the result has to be in the sequence. -/
def nextRA (len iter n : Nat) : Option Nat := if iter + n ≤ len then some (iter + n) else none

/-- `next(iter, n)` without, l.51-53: the counter `0u` is an `unsigned` of 32 bits, `n` has 64. -/
def nextFwd (len n : Nat) : Nat → Nat → Nat → Option Nat
  | 0, _, _ => none
  | fuel + 1, iter, i =>
    if i ≠ n then (inc len iter).bind fun c => nextFwd len n fuel c ((i + 1) % 2 ^ 32) else some iter

/-- `next_clamped` with subtraction, l.62-66. -/
def nextClampedRA (iter n e : Nat) : Nat := if e - iter < n then e else iter + n

/-- `next_clamped` without, l.70-76. -/
def nextClampedFwd (len n e : Nat) : Nat → Nat → Nat → Option Nat
  | 0, _, _ => none
  | fuel + 1, iter, i =>
    if i ≠ n then
      if iter = e then some iter
      else (inc len iter).bind fun c => nextClampedFwd len n e fuel c ((i + 1) % 2 ^ 32)
    else some iter

/-- `min_range_end` with comparison, l.97-101. -/
def minRangeEndRA (b x y : Nat) : Option Nat :=
  if b ≤ x ∧ b ≤ y then some (if x ≤ y then x else y) else none

/-- `min_range_end` without, l.105-108. -/
def minRangeEndFwd (len x y : Nat) : Nat → Nat → Option Nat
  | 0, _ => none
  | fuel + 1, cur => if cur ≠ x ∧ cur ≠ y then (inc len cur).bind (minRangeEndFwd len x y fuel) else some cur

/-- `max_range_end` with comparison, l.119-123. -/
def maxRangeEndRA (b x y : Nat) : Option Nat :=
  if b ≤ x ∧ b ≤ y then some (if x ≤ y then y else x) else none

/-- `max_range_end` without, l.127-136. -/
def maxRangeEndFwd (len x y : Nat) : Nat → Nat → Option Nat
  | 0, _ => none
  | fuel + 1, cur =>
    if cur = x then some y else if cur = y then some x else (inc len cur).bind (maxRangeEndFwd len x y fuel)

/-- The loop of `equal_lexemes`, lexeme.hpp l.93-102. -/
def eqLexLoop (inp : List Nat) (le re : Nat) : Nat → Nat → Nat → Option Bool
  | 0, _, _ => none
  | fuel + 1, l, r =>
    if l ≠ le ∧ r ≠ re then
      inp[l]?.bind fun a => inp[r]?.bind fun b =>
        if a ≠ b then some false
        else (inc inp.length l).bind fun l' => (inc inp.length r).bind fun r' => eqLexLoop inp le re fuel l' r'
    else some (decide (l = le ∧ r = re))

/-- `equal_lexemes`, l.84-103, of `[lb, le)` and `[rb, re)` in the input. -/
def equalLexemes (ra : Bool) (inp : List Nat) (lb le rb re : Nat) (fuel : Nat) : Option Bool :=
  if ra ∧ le - lb ≠ re - rb then some false else eqLexLoop inp le re fuel lb rb

end Verif.Itr
