import Verif.Identifier

/-
Model of the digit rules.

Source: /repo/include/lexy/dsl/digit.hpp
-/

namespace Verif

/-- The bases, digit.hpp l.15-237. -/
inductive Base
  | binary | octal | decimal | hexLower | hexUpper | hex
  deriving DecidableEq, Repr

namespace Base

/-- `digit_radix`. -/
def radix : Base → Nat
  | binary => 2 | octal => 8 | decimal => 10 | hexLower | hexUpper | hex => 16

/-- `char_class_ascii`, digit.hpp l.29-34, 64-69, 99-104, 133-139, 169-175, 206-213. -/
def ascii : Base → AsciiSet
  | binary => AsciiSet.empty.insertRange 0x30 0x31
  | octal => AsciiSet.empty.insertRange 0x30 0x37
  | decimal => AsciiSet.empty.insertRange 0x30 0x39
  | hexLower => (AsciiSet.empty.insertRange 0x30 0x39).insertRange 0x61 0x66
  | hexUpper => (AsciiSet.empty.insertRange 0x30 0x39).insertRange 0x41 0x46
  | hex => ((AsciiSet.empty.insertRange 0x30 0x39).insertRange 0x61 0x66).insertRange 0x41 0x46

/-- Conversion to `unsigned`. -/
def u32 (i : Int) : Nat := (i % 4294967296).toNat

/-- `digit_value(c)`; `c` is the value of the (possibly signed) character: digit.hpp l.38-42, 73-77,
    108-112, 143-152, 179-188, 217-228. -/
def value (b : Base) (c : Int) : Nat :=
  match b with
  | binary | octal | decimal => u32 (c - 0x30)
  | hexLower => if c ≥ 0x61 then u32 (c - 0x61 + 10) else if c ≤ 0x39 then u32 (c - 0x30) else u32 (-1)
  | hexUpper => if c ≥ 0x41 then u32 (c - 0x41 + 10) else if c ≤ 0x39 then u32 (c - 0x30) else u32 (-1)
  | hex =>
    if c ≥ 0x61 then u32 (c - 0x61 + 10)
    else if c ≥ 0x41 then u32 (c - 0x41 + 10)
    else if c ≤ 0x39 then u32 (c - 0x30) else u32 (-1)

/-- Offset constant of `swar_matches`; the hexadecimal bases use the one of decimal. -/
def swarOffset : Base → Nat
  | binary => 0x0E | octal => 0x08 | decimal | hexLower | hexUpper | hex => 0x06

/-- `try_match_token(digit<Base>, reader)`: a character class without `char_class_match_cp`, for any
    encoding (char_class.hpp l.211-261). -/
def tok (b : Base) (s : List Nat) : Option Nat :=
  if (CC.leaf b.ascii none).tableMatch s then some 1 else none

end Base

/-- `_zero`, digit.hpp l.243-256. -/
def zeroTok (s : List Nat) : Option Nat :=
  if (CC.leaf (AsciiSet.empty.insert 0x30) none).tableMatch s then some 1 else none

/-- Result of a token parser: success and the distance of its `end` from the start. -/
abbrev TokRes := Bool × Nat

/-- `_match_digits`, digit.hpp l.293-317, on a reader without SWAR. -/
def matchDigits (b : Base) (s : List Nat) : TokRes :=
  match b.tok s with
  | none => (false, 0)
  | some n => (true, n + trailLoop b.tok (s.drop n))

/-- `_match_digits` with a SWAR reader, digit.hpp l.302-314: the memory afterwards. -/
def matchDigitsSwar (k : Swar) (b : Base) (mem : List Nat) : Option (Bool × List Nat) :=
  match b.tok mem with
  | none => some (false, mem)
  | some n =>
    match k.skipWhile (k.digits b.swarOffset) (mem.drop n) with
    | none => none
    | some mem' => some (true, mem'.drop (trailLoop b.tok mem'))

/-- The loop of `_match_digits_sep`, digit.hpp l.326-348, without SWAR. -/
def digitsSepLoop (b : Base) (S : TokMatch) (s : List Nat) : TokRes :=
  match S s with
  | some k =>
    match b.tok (s.drop k) with
    | none => (false, k)
    | some n =>
      if _h : 0 < n ∧ k + n ≤ s.length then
        let r := digitsSepLoop b S (s.drop (k + n))
        (r.1, k + n + r.2)
      else (false, k)
  | none =>
    match b.tok s with
    | none => (true, 0)
    | some n =>
      if _h : 0 < n ∧ n ≤ s.length then
        let r := digitsSepLoop b S (s.drop n)
        (r.1, n + r.2)
      else (true, 0)
termination_by s.length
decreasing_by all_goals (simp; omega)

/-- `_match_digits_sep`, digit.hpp l.318-351. -/
def matchDigitsSep (b : Base) (S : TokMatch) (s : List Nat) : TokRes :=
  match b.tok s with
  | none => (false, 0)
  | some n => let r := digitsSepLoop b S (s.drop n); (r.1, n + r.2)

/-- The `no_leading_zero` check, digit.hpp l.366-384 and 455-473: the third component is
    `forbidden_leading_zero`. -/
def noLeadingZero (r : TokRes) (s : List Nat) : Bool × Nat × Bool :=
  if r.1 && r.2 != 1 && s.head? == some 0x30 then (false, 1, true) else (r.1, r.2, false)

/-- `_ndigits::tp::try_parse`, digit.hpp l.613-619. -/
def nDigits (b : Base) : Nat → List Nat → TokRes
  | 0, _ => (true, 0)
  | n + 1, s =>
    match b.tok s with
    | none => (false, 0)
    | some k => let r := nDigits b n (s.drop k); (r.1, k + r.2)

/-- The fold over `Idx` in `_ndigits_s::tp::try_parse`, digit.hpp l.582-584. -/
def nDigitsSepTail (b : Base) (S : TokMatch) : Nat → List Nat → TokRes
  | 0, _ => (true, 0)
  | n + 1, s =>
    let k := (S s).getD 0
    match b.tok (s.drop k) with
    | none => (false, k)
    | some j => let r := nDigitsSepTail b S n (s.drop (k + j)); (r.1, k + j + r.2)

/-- `_ndigits_s::tp::try_parse`, digit.hpp l.572-587. -/
def nDigitsSep (b : Base) (S : TokMatch) : Nat → List Nat → TokRes
  | 0, _ => (true, 0)
  | n + 1, s =>
    match b.tok s with
    | none => (false, 0)
    | some j => let r := nDigitsSepTail b S n (s.drop j); (r.1, j + r.2)

end Verif
