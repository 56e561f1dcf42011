/-
Model of the code point encoder/decoder of lexy.

Source: /repo/include/lexy/_detail/code_point.hpp, /repo/include/lexy/code_point.hpp

Conventions: a code unit is a `Nat`; a reader is the list of remaining code units.
The C++ functions work on a *copy* of the reader and return a marker `end`;
here `len` is the number of code units between the reader and that marker.
-/

namespace Verif

/-- `lexy::_detail::cp_error`, _detail/code_point.hpp l.122-131. -/
inductive CpError
  | success | eof | leadsWithTrailing | missingTrailing | surrogate | overlong | outOfRange
  deriving DecidableEq, Repr

/-- `lexy::_detail::cp_result`, _detail/code_point.hpp l.133-139.
    `len` = distance from the reader passed in to the marker `end`. -/
structure CpResult where
  cp : Nat
  error : CpError
  len : Nat
  deriving DecidableEq, Repr

/-- `code_point::is_ascii`, code_point.hpp l.32-35. -/
def cpIsAscii (v : Nat) : Bool := v ≤ 0x7F
/-- `code_point::is_bmp`, code_point.hpp l.36-39. -/
def cpIsBmp (v : Nat) : Bool := v ≤ 0xFFFF
/-- `code_point::is_valid`, code_point.hpp l.40-43. -/
def cpIsValid (v : Nat) : Bool := v ≤ 0x10FFFF
/-- `code_point::is_control`, code_point.hpp l.45-48. -/
def cpIsControl (v : Nat) : Bool := v ≤ 0x1F || (0x7F ≤ v && v ≤ 0x9F)
/-- `code_point::is_surrogate`, code_point.hpp l.49-52. -/
def cpIsSurrogate (v : Nat) : Bool := 0xD800 ≤ v && v ≤ 0xDFFF
/-- `code_point::is_private_use`, code_point.hpp l.53-58. -/
def cpIsPrivateUse (v : Nat) : Bool :=
  (0xE000 ≤ v && v ≤ 0xF8FF) || (0x0F0000 ≤ v && v ≤ 0x0FFFFD)
    || (0x100000 ≤ v && v ≤ 0x10FFFD)
/-- `code_point::is_noncharacter`, code_point.hpp l.59-68. -/
def cpIsNoncharacter (v : Nat) : Bool :=
  if 0xFDD0 ≤ v && v ≤ 0xFDEF then true
  else (v &&& 0xFFFF) == 0xFFFE || (v &&& 0xFFFF) == 0xFFFF
/-- `code_point::is_scalar`, code_point.hpp l.70-73. -/
def cpIsScalar (v : Nat) : Bool := cpIsValid v && !cpIsSurrogate v

/-- `encode_code_point<ascii_encoding>`, _detail/code_point.hpp l.16-22.
    `char(cp)` keeps the low eight bits. -/
def encodeAscii (cp : Nat) : List Nat := [cp % 256]

/-- `encode_code_point<utf8_encoding>` / `<utf8_char_encoding>`,
    _detail/code_point.hpp l.23-75.  Returns the units written to `buffer`. -/
def encodeUtf8 (cp : Nat) : List Nat :=
  if cp ≤ 0x7F then [cp]
  else if cp ≤ 0x7FF then
    let first := (cp >>> 6) &&& 0x1F
    let second := (cp >>> 0) &&& 0x3F
    [0xC0 ||| first, 0x80 ||| second]
  else if cp ≤ 0xFFFF then
    let first := (cp >>> 12) &&& 0x0F
    let second := (cp >>> 6) &&& 0x3F
    let third := (cp >>> 0) &&& 0x3F
    [0xE0 ||| first, 0x80 ||| second, 0x80 ||| third]
  else
    let first := (cp >>> 18) &&& 0x07
    let second := (cp >>> 12) &&& 0x3F
    let third := (cp >>> 6) &&& 0x3F
    let fourth := (cp >>> 0) &&& 0x3F
    [0xF0 ||| first, 0x80 ||| second, 0x80 ||| third, 0x80 ||| fourth]

/-- `encode_code_point<utf16_encoding>`, _detail/code_point.hpp l.76-99. -/
def encodeUtf16 (cp : Nat) : List Nat :=
  if cp ≤ 0xFFFF then [cp]
  else
    let u' := cp - 0x10000
    let high := u' >>> 10
    let low := u' &&& 0x3FF
    [0xD800 + high, 0xDC00 + low]

/-- `encode_code_point<utf32_encoding>`, _detail/code_point.hpp l.100-106. -/
def encodeUtf32 (cp : Nat) : List Nat := [cp]

/-- `uchar_t(reader.peek())`: at EOF `peek()` returns `encoding::eof()`, which for both UTF-8
    encodings is a value whose conversion to `unsigned char` is 0xFF
    (encoding.hpp, `utf8_encoding::eof`, `utf8_char_encoding::eof`). -/
def peek8 (s : List Nat) : Nat := s.headD 0xFF

/-- `parse_code_point` for ASCII, _detail/code_point.hpp l.144-157.
    `ascii_encoding::eof()` is `char(-1)`/`char(0xFF)` (encoding.hpp l.69-75), so a stored unit 0xFF
    is indistinguishable from EOF.  Simplification: for a signed `char` the field `cp` of an
    `out_of_range` result is a sign-extended value in C++; here it is the unit itself. -/
def parseAscii (s : List Nat) : CpResult :=
  let cur := peek8 s
  if cur = 0xFF then ⟨0, .eof, 0⟩
  else if cur ≤ 0x7F then ⟨cur, .success, 1⟩ else ⟨cur, .outOfRange, 1⟩

/-- `parse_code_point` for UTF-8, _detail/code_point.hpp l.158-271.
    The masks `~payload` are restricted to eight bits, since the operand is an `unsigned char`. -/
def parseUtf8 (s : List Nat) : CpResult :=
  let first := peek8 s
  if first &&& 0x80 = 0x00 then
    ⟨first, .success, 1⟩
  else if first &&& 0xC0 = 0x80 then
    ⟨0, .leadsWithTrailing, 0⟩
  else if first &&& 0xE0 = 0xC0 then
    let second := peek8 (s.drop 1)
    if second &&& 0xC0 ≠ 0x80 then ⟨0, .missingTrailing, 1⟩
    else
      let result := ((first &&& 0x1F) <<< 6) ||| (second &&& 0x3F)
      if first = 0xC0 ∨ first = 0xC1 then ⟨result, .overlong, 2⟩
      else ⟨result, .success, 2⟩
  else if first &&& 0xF0 = 0xE0 then
    let second := peek8 (s.drop 1)
    if second &&& 0xC0 ≠ 0x80 then ⟨0, .missingTrailing, 1⟩
    else
      let third := peek8 (s.drop 2)
      if third &&& 0xC0 ≠ 0x80 then ⟨0, .missingTrailing, 2⟩
      else
        let result :=
          ((((first &&& 0x0F) <<< 6) ||| (second &&& 0x3F)) <<< 6) ||| (third &&& 0x3F)
        if 0xD800 ≤ result ∧ result ≤ 0xDFFF then ⟨result, .surrogate, 3⟩
        else if first = 0xE0 ∧ second < 0xA0 then ⟨result, .overlong, 3⟩
        else ⟨result, .success, 3⟩
  else if first &&& 0xF8 = 0xF0 then
    let second := peek8 (s.drop 1)
    if second &&& 0xC0 ≠ 0x80 then ⟨0, .missingTrailing, 1⟩
    else
      let third := peek8 (s.drop 2)
      if third &&& 0xC0 ≠ 0x80 then ⟨0, .missingTrailing, 2⟩
      else
        let fourth := peek8 (s.drop 3)
        if fourth &&& 0xC0 ≠ 0x80 then ⟨0, .missingTrailing, 3⟩
        else
          let result :=
            ((((((first &&& 0x07) <<< 6) ||| (second &&& 0x3F)) <<< 6) ||| (third &&& 0x3F)) <<< 6)
              ||| (fourth &&& 0x3F)
          if result > 0x10FFFF then ⟨result, .outOfRange, 4⟩
          else if first = 0xF0 ∧ second < 0x90 then ⟨result, .overlong, 4⟩
          else ⟨result, .success, 4⟩
  else ⟨0, .eof, 0⟩

/-- `parse_code_point` for UTF-16, _detail/code_point.hpp l.272-312. -/
def parseUtf16 (s : List Nat) : CpResult :=
  match s with
  | [] => ⟨0, .eof, 0⟩
  | first :: s' =>
    if first &&& 0xFC00 = 0xD800 then
      match s' with
      | [] => ⟨0, .missingTrailing, 1⟩
      | second :: _ =>
        if second &&& 0xFC00 ≠ 0xDC00 then ⟨0, .missingTrailing, 1⟩
        else ⟨(((first &&& 0x3FF) <<< 10) ||| (second &&& 0x3FF)) ||| 0x10000, .success, 2⟩
    else if first &&& 0xFC00 = 0xDC00 then ⟨0, .leadsWithTrailing, 0⟩
    else ⟨first, .success, 1⟩

/-- `parse_code_point` for UTF-32, _detail/code_point.hpp l.313-328.
    `utf32_encoding::eof()` is 0xFFFFFFFF (encoding.hpp l.167-171). -/
def parseUtf32 (s : List Nat) : CpResult :=
  let cp := s.headD 0xFFFFFFFF
  if cp = 0xFFFFFFFF then ⟨0, .eof, 0⟩
  else if cp > 0x10FFFF then ⟨cp, .outOfRange, 1⟩
  else if 0xD800 ≤ cp ∧ cp ≤ 0xDFFF then ⟨cp, .surrogate, 1⟩
  else ⟨cp, .success, 1⟩

/-- `recover_code_point`, _detail/code_point.hpp l.337-364: the reader afterwards.
    `none` = violated precondition (`result.end.position() == reader.position()`),
    or bumping past EOF. -/
def recoverCodePoint (s : List Nat) (r : CpResult) : Option (List Nat) :=
  match r.error with
  | .success => some (s.drop r.len)
  | .eof => some s
  | .leadsWithTrailing =>
    if r.len = 0 then
      match s with
      | [] => none
      | _ :: t => some t
    else none
  | .missingTrailing | .surrogate | .outOfRange | .overlong => some (s.drop r.len)

/-- The four text encodings with a code point decoder (encoding.hpp). -/
inductive Enc
  | ascii | utf8 | utf16 | utf32
  deriving DecidableEq, Repr

/-- Exclusive bound of the code unit values of an encoding (`sizeof(char_type)`, encoding.hpp). -/
def Enc.bound : Enc → Nat
  | .ascii => 256 | .utf8 => 256 | .utf16 => 65536 | .utf32 => 4294967296

/-- Dispatch of `encode_code_point<Encoding>`. -/
def encodeCp : Enc → Nat → List Nat
  | .ascii => encodeAscii | .utf8 => encodeUtf8 | .utf16 => encodeUtf16 | .utf32 => encodeUtf32

/-- Dispatch of `parse_code_point<Reader>`. -/
def parseCp : Enc → List Nat → CpResult
  | .ascii => parseAscii | .utf8 => parseUtf8 | .utf16 => parseUtf16 | .utf32 => parseUtf32

end Verif
