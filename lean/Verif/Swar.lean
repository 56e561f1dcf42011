/-
Model of the SWAR ("SIMD within a register") primitives and of the character class matchers
built from them.

Source: /repo/include/lexy/_detail/swar.hpp, /repo/include/lexy/dsl/ascii.hpp,
        /repo/include/lexy/dsl/digit.hpp, /repo/include/lexy/dsl/any.hpp

A `swar_int` (`std::uintmax_t`, swar.hpp l.19) holds `n` lanes of `w` bits, lane 0 in the lowest
bits.  Everything is parametric in `w` and `n`; in C++ `w = 8 * sizeof(CharT)` and
`n = swar_length<CharT> = 8 / sizeof(CharT)`, i.e. (8,8), (16,4) or (32,2), so that `w * n = 64`.
Unsigned arithmetic wraps modulo `2 ^ (w * n)`, written out explicitly.
-/

namespace Verif

/-- A SWAR configuration: lane width in bits and number of lanes
    (`char_bit_size<CharT>`, `swar_length<CharT>`, swar.hpp l.22-27). -/
structure Swar where
  w : Nat
  n : Nat

namespace Swar

/-- Configuration for one, two and four byte characters. -/
def char8 : Swar := ⟨8, 8⟩
def char16 : Swar := ⟨16, 4⟩
def char32 : Swar := ⟨32, 2⟩

variable (k : Swar)

/-- Number of values of a lane. -/
def B : Nat := 2 ^ k.w
/-- Number of values of a word (`2^64`). -/
def M : Nat := 2 ^ (k.w * k.n)

/-- The loop of `swar_fill`, swar.hpp l.51-56 (`i` iterations). -/
def fillLoop (c : Nat) : Nat → Nat
  | 0 => 0
  | i + 1 => ((fillLoop c i <<< k.w) % k.M) ||| c

/-- `swar_fill`, swar.hpp l.45-57. -/
def fill (c : Nat) : Nat := k.fillLoop c k.n

/-- `swar_fill_compl`, swar.hpp l.60-72: fills with `uchar_t(~uchar_t(c))`. -/
def fillCompl (c : Nat) : Nat := k.fillLoop (k.B - 1 - c) k.n

/-- Wrapping subtraction of `swar_int`. -/
def sub (a b : Nat) : Nat := (a + k.M - b) % k.M
/-- Wrapping addition of `swar_int`. -/
def add (a b : Nat) : Nat := (a + b) % k.M
/-- `~v` on `swar_int`. -/
def not (v : Nat) : Nat := k.M - 1 - v

/-- `swar_has_char_less<CharT, N>`, swar.hpp l.158-170. -/
def hasCharLess (N v : Nat) : Bool :=
  let offset := k.fill N
  let zeroOrMsb := k.sub v offset
  let msbMask := k.fill (1 <<< (k.w - 1))
  let notMsb := k.not v &&& msbMask
  (zeroOrMsb &&& notMsb) != 0

/-- `swar_has_zero`, swar.hpp l.174-177. -/
def hasZero (v : Nat) : Bool := k.hasCharLess 1 v

/-- `swar_has_char<CharT, C>`, swar.hpp l.181-193. -/
def hasChar (C v : Nat) : Bool :=
  if C = 0 then k.hasZero v
  else k.hasZero (v ^^^ k.fill C)

/-- Number of trailing zero bits (`__builtin_ctzll` on a non-zero argument). -/
def ctz (v : Nat) : Nat :=
  if v = 0 ∨ v % 2 = 1 then 0 else ctz (v / 2) + 1
termination_by v
decreasing_by omega

/-- `swar_find_difference<CharT>`, swar.hpp l.132-155. -/
def findDifference (lhs rhs : Nat) : Nat :=
  if lhs = rhs then k.n
  else ctz (lhs ^^^ rhs) / k.w

/-- `_swar_pack`, swar.hpp l.74-85; `index` counts bits, the characters before bit 0 are skipped. -/
def packLoop (result : Nat) (index : Int) : List Nat → Nat
  | [] => result
  | h :: t =>
    if index = (k.w * k.n : Nat) then result
    else
      let result := if index ≥ 0 then result ||| (h <<< index.toNat) else result
      packLoop result (index + k.w) t

/-- `swar_pack_result`, swar.hpp l.87-99. -/
structure PackResult where
  value : Nat
  mask : Nat
  count : Nat
  deriving DecidableEq, Repr

/-- `swar_pack<SkipFirstNChars>(cs...)`, swar.hpp l.103-129. -/
def pack (skip : Nat) (cs : List Nat) : PackResult :=
  let value := k.packLoop 0 (-(skip * k.w : Nat)) cs
  let count : Int := (cs.length : Int) - skip
  if count ≤ 0 then ⟨value, 0, 0⟩
  else if count ≥ k.n then ⟨value, k.M - 1, k.n⟩
  else ⟨value, ((1 <<< (count.toNat * k.w)) % k.M) - 1, count.toNat⟩

/-- Little-endian contents of a word whose lanes are the given characters: what
    `peek_swar`'s `memcpy` (swar.hpp l.206-214, little-endian branch) produces. -/
def lanes : List Nat → Nat
  | [] => 0
  | c :: cs => c + k.B * lanes cs

/-- `peek_swar`, swar.hpp l.206-225 (little endian), on the remaining memory of the buffer
    (content followed by the sentinels); `none` = reads outside of the allocation. -/
def peekSwar (mem : List Nat) : Option Nat :=
  if mem.length < k.n then none else some (k.lanes (mem.take k.n))

/-- `while (p(reader.peek_swar())) reader.bump_swar();` — the SWAR loop of digit.hpp l.307-308,
    identifier.hpp l.57-59, any.hpp l.27-29.  `none` = out-of-bounds read. -/
def skipWhile (p : Nat → Bool) (mem : List Nat) : Option (List Nat) :=
  if _h : mem.length < k.n ∨ k.n = 0 then none
  else if p (k.lanes (mem.take k.n)) then skipWhile p (mem.drop k.n)
  else some mem
termination_by mem.length
decreasing_by simp; omega

/-! ### Character classes, ascii.hpp -/

/-- `ascii::_control::char_class_match_swar`, ascii.hpp l.31-41. -/
def control (c : Nat) : Bool := (c &&& k.fillCompl 0b11111) == k.fill 0

/-- `ascii::_lower::char_class_match_swar`, ascii.hpp l.129-143. -/
def lower (c : Nat) : Bool :=
  (k.sub c (k.fill 1) &&& k.fillCompl 0b11111) == k.fill 0b1100000
    && (k.add c (k.fill 5) &&& k.fillCompl 0b11111) == k.fill 0b1100000

/-- `ascii::_upper::char_class_match_swar`, ascii.hpp l.161-175. -/
def upper (c : Nat) : Bool :=
  (k.sub c (k.fill 1) &&& k.fillCompl 0b11111) == k.fill 0b1000000
    && (k.add c (k.fill 5) &&& k.fillCompl 0b11111) == k.fill 0b1000000

/-- `ascii::_alpha`, ascii.hpp l.194-199. -/
def alpha (c : Nat) : Bool := k.lower c
/-- `ascii::_alphau`, ascii.hpp l.219-224. -/
def alphau (c : Nat) : Bool := k.alpha c

/-- `ascii::_digit::char_class_match_swar`, ascii.hpp l.243-256. -/
def digit (c : Nat) : Bool :=
  (c &&& k.fillCompl 0b01111) == k.fill 0b0110000
    && (k.add c (k.fill 6) &&& k.fillCompl 0b01111) == k.fill 0b0110000

/-- `ascii::_alnum`, ascii.hpp l.275-280. -/
def alnum (c : Nat) : Bool := k.alpha c
/-- `ascii::_word`, ascii.hpp l.300-306. -/
def word (c : Nat) : Bool := k.alphau c

/-- `ascii::_graph::char_class_match_swar`, ascii.hpp l.374-402. -/
def graph (c : Nat) : Bool :=
  if (k.add c (k.fill 1) &&& k.fillCompl 0b1111111) != k.fill 0 then false
  else if k.w == 8 && (c &&& k.fillCompl 0b1111111) != k.fill 0 then false
  else !k.hasZero (c &&& k.fillCompl 0b11111)
    && !k.hasZero (k.sub c (k.fill 1) &&& k.fillCompl 0b11111)

/-- `ascii::_print::char_class_match_swar`, ascii.hpp l.419-442. -/
def print (c : Nat) : Bool :=
  if (k.add c (k.fill 1) &&& k.fillCompl 0b1111111) != k.fill 0 then false
  else if k.w == 8 && (c &&& k.fillCompl 0b1111111) != k.fill 0 then false
  else !k.hasZero (c &&& k.fillCompl 0b11111)

/-- `ascii::_char::char_class_match_swar`, ascii.hpp l.460-469. -/
def character (c : Nat) : Bool := (c &&& k.fillCompl 0b1111111) == k.fill 0

/-- `_d<2>::swar_matches` (offset 0x0E), `_d<8>` (0x08), `_d<10>` (0x06), digit.hpp l.44-53, 79-88,
    114-123.  The hexadecimal bases use the decimal one (l.154-159, 190-195, 230-235). -/
def digits (offset : Nat) (c : Nat) : Bool :=
  (c &&& k.fillCompl 0xF) == k.fill 0x30
    && (k.add c (k.fill offset) &&& k.fillCompl 0xF) == k.fill 0x30

end Swar
end Verif
