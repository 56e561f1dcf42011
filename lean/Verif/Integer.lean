import Verif.Digit

/-
Model of the integer rules.

Source: /repo/include/lexy/dsl/integer.hpp
-/

namespace Verif

/-- `_digit_count(radix, value)`, integer.hpp l.17-32; the loop with `value > 0`. -/
def digitCountLoop (radix value : Nat) : Nat :=
  if _h : 0 < value ∧ 1 < radix then digitCountLoop radix (value / radix) + 1 else 0
termination_by value
decreasing_by exact Nat.div_lt_self _h.1 _h.2

def digitCount (radix value : Nat) : Nat :=
  if value = 0 then 1 else digitCountLoop radix value

/-- A built-in integer type: `_max` (integer.hpp l.41-80) and whether `sizeof(T) < sizeof(unsigned)`. -/
structure IntTy where
  max : Nat
  small : Bool

/-- `unsigned` / `std::uint_least32_t`. -/
def IntTy.u32 : IntTy := ⟨4294967295, false⟩

namespace IntTy

/-- `add_digit_unchecked`, integer.hpp l.84-88.  `none`: the result does not fit into `T` (it would
    wrap around or be undefined). -/
def addUnchecked (t : IntTy) (radix result digit : Nat) : Option Nat :=
  if result * radix + digit ≤ t.max then some (result * radix + digit) else none

/-- `add_digit_checked`, the branch for big types, integer.hpp l.124-137: new value of `result` and whether
    it succeeded.  `none`: `_max - digit` wraps around. -/
def addCheckedBig (max radix result digit : Nat) : Option (Nat × Bool) :=
  if result > max / radix then some (result, false)
  else if digit > max then none
  else if result * radix > max - digit then some (result * radix, false)
  else some (result * radix + digit, true)

/-- `can_use_unsigned`, integer.hpp l.93-103. -/
def canUseUnsigned (t : IntTy) (radix : Nat) : Bool :=
  t.small && (match addCheckedBig 4294967295 radix t.max (radix - 1) with
    | some (_, b) => b
    | none => false)

/-- `add_digit_checked`, integer.hpp l.90-138. -/
def addChecked (t : IntTy) (radix result digit : Nat) : Option (Nat × Bool) :=
  if t.canUseUnsigned radix then
    let value := (result * radix + digit) % 4294967296
    if value > t.max then some (result, false) else some (value, true)
  else addCheckedBig t.max radix result digit

end IntTy

/-- The bounded instances of `integer_traits`: for `T` (integer.hpp l.34-139), `code_point` (l.142-168),
    `bounded<T, Max>` (l.186-208). -/
inductive Traits
  | plain (t : IntTy)
  | codePoint
  | bounded (t : IntTy) (max : Nat)

namespace Traits

/-- The largest value accepted. -/
def max : Traits → Nat
  | plain t => t.max
  | codePoint => 0x10FFFF
  | bounded _ m => m

/-- The underlying type. -/
def ty : Traits → IntTy
  | plain t => t
  | codePoint => .u32
  | bounded t _ => t

/-- `max_digit_count<Radix>`. -/
def maxDigitCount (t : Traits) (radix : Nat) : Nat := digitCount radix t.max

/-- `add_digit_unchecked`, integer.hpp l.84-88, l.150-156, l.195-199. -/
def addUnchecked (t : Traits) (radix result digit : Nat) : Option Nat :=
  t.ty.addUnchecked radix result digit

/-- `add_digit_checked`, integer.hpp l.90-138, l.157-166, l.198-204. -/
def addChecked (t : Traits) (radix result digit : Nat) : Option (Nat × Bool) :=
  match t with
  | plain t => t.addChecked radix result digit
  | codePoint =>
    match IntTy.u32.addChecked radix result digit with
    | none => none
    | some (_, false) => some (result, false)
    | some (v, true) => some (v, decide (v ≤ 0x10FFFF))
  | bounded t m =>
    match t.addChecked radix result digit with
    | none => none
    | some (v, b) => some (v, b && decide (v ≤ m))

end Traits

/-- The inner loop "find the next digit", integer.hpp l.306-315. -/
def nextDigit (assumeOnlyDigits : Bool) (b : Base) : List Int → Option (Nat × List Int)
  | [] => none
  | c :: cs =>
    let digit := b.value c
    if !assumeOnlyDigits && decide (digit ≥ b.radix) then nextDigit assumeOnlyDigits b cs
    else some (digit, cs)

/-- The counted loop, integer.hpp l.301-337; `k` = `max_digit_count - digit_count`.  Result: value and
    overflow. -/
def boundedLoop (a : Bool) (t : Traits) (b : Base) : Nat → Nat → List Int → Option (Nat × Bool)
  | 0, value, cs => some (value, !cs.isEmpty)
  | k + 1, value, cs =>
    match nextDigit a b cs with
    | none => some (value, false)
    | some (digit, cs') =>
      if k = 0 then
        match t.addChecked b.radix value digit with
        | none => none
        | some (v, false) => some (v, true)
        | some (v, true) => boundedLoop a t b 0 v cs'
      else
        match t.addUnchecked b.radix value digit with
        | none => none
        | some v => boundedLoop a t b k v cs'

/-- `_bounded_integer_parser::parse`, integer.hpp l.279-341. -/
def boundedParse (a : Bool) (t : Traits) (b : Base) : List Int → Option (Nat × Bool)
  | [] => some (0, false)
  | c :: cs =>
    let d := b.value c
    if d ≠ 0 ∧ d < b.radix then boundedLoop a t b (t.maxDigitCount b.radix - 1) d cs
    else boundedParse a t b cs

/-- `_unbounded_integer_parser::parse`, integer.hpp l.244-269. -/
def unboundedParse (t : IntTy) (b : Base) (value : Nat) : List Int → Option Nat
  | [] => some value
  | c :: cs =>
    let d := b.value c
    if d ≥ b.radix then unboundedParse t b value cs
    else
      match t.addUnchecked b.radix value d with
      | none => none
      | some v => unboundedParse t b v cs

/-- `_ndigits_can_overflow`, integer.hpp l.225-233. -/
def nDigitsCanOverflow (t : Traits) (N : Nat) (b : Base) : Bool :=
  decide (N ≥ t.maxDigitCount b.radix)

/-- The integer parser for `n_digits<N, Base>` and `code_point_id<N, Base>`, integer.hpp l.371-384 and
    l.519-525: value and overflow. -/
def nDigitsParse (a : Bool) (t : Traits) (N : Nat) (b : Base) (cs : List Int) : Option (Nat × Bool) :=
  if nDigitsCanOverflow t N b then boundedParse a t b cs
  else (unboundedParse t.ty b 0 cs).map fun v => (v, false)

/-- `_int::p::parse` before the conversion, integer.hpp l.443-486: the length of the range that is converted
    and whether the digits raised an error; `none` = the rule fails. -/
def intRange (tok : List Nat → TokRes) (b : Base) (s : List Nat) : Option (Nat × Bool) :=
  match tok s with
  | (true, n) => some (n, false)
  | (false, n) =>
    let m := n + trailLoop b.tok (s.drop n)
    if m = 0 then none else some (m, true)

end Verif
