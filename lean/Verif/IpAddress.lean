import Verif.Tokens

/-
The parser of examples/ip_address.cpp: its grammar with a hand-written scanner, and the builder of IPv6 addresses.

Source: /repo/examples/ip_address.cpp l.15-237

The input is that of `lexy::argv_input`: bytes with an EOF that is no byte (encoding.hpp, `default_encoding`).
Simplification: the productions have no whitespace, and neither events nor the positions of errors are part of the model,
but only which errors are reported; the calls of the scanner (scan.hpp) are written out.
-/

namespace Verif.Ip

/-- The errors: the digits of a number (expected_char_class, forbidden_leading_zero); integer_overflow; a missing period;
    unexpected_trailing_separator; the three errors of the scanner (l.147-159); expected EOF. -/
inductive Err
  | digits | overflow | literal | trailing | duplicate | missing | tooMany | eof
  deriving DecidableEq

/-- What a parse does: undefined behavior (an access out of bounds; also: too few steps); failure; a value, the rest of the
    input, and the errors it recovered from. -/
inductive Outc (α : Type)
  | ub
  | fail (errs : List Err)
  | ok (v : α) (rest : List Nat) (errs : List Err)
  deriving DecidableEq

/-- One thing after the other. -/
def Outc.bind {α β : Type} (x : Outc α) (f : α → List Nat → Outc β) : Outc β :=
  match x with
  | .ub => .ub
  | .fail e => .fail e
  | .ok v s e =>
    match f v s with
    | .ub => .ub
    | .fail e' => .fail (e ++ e')
    | .ok w r e' => .ok w r (e ++ e')

/-- A literal. -/
def lit (w s : List Nat) : TokRes := (litTok none 0 0 w).run s

/-- The error of an event of `intParse`. -/
def errOf : Ev → Option Err
  | .error tag _ _ => some (if tag = 0 then .digits else .overflow)
  | _ => none

/-- `dsl::integer`, integer.hpp l.388-487, with its value. -/
def int (tok : List Nat → TokRes) (b : Base) (ty : IntTy) (s : List Nat) : Outc Nat :=
  let conv := boundedParse true (.plain ty) b
  let r := intParse (.user 0) (.user 0) 0 1 tok b conv s 0
  if r.1 then
    match conv ((s.take r.2.1).map Int.ofNat) with
    | some (v, _) => .ok v (s.drop r.2.1) (r.2.2.filterMap errOf)
    | none => .ub
  else .fail (r.2.2.filterMap errOf)

/-- `ipv4_octet`, l.116-124: `integer<std::uint8_t>(digits<>.no_leading_zero())`. -/
def octet : List Nat → Outc Nat := int (nlzTok .decimal) .decimal ⟨255, true⟩

/-- `ipv6_piece`, l.137-141: `integer<std::uint16_t, hex>`. -/
def piece : List Nat → Outc Nat := int (matchDigits .hex) .hex ⟨65535, true⟩

/-- `dsl::period`, between the octets. -/
def period (s : List Nat) : Outc Unit :=
  if (lit [0x2E] s).1 then .ok () (s.drop (lit [0x2E] s).2) [] else .fail [.literal]

/-- `ip::ipv4`, l.25-31: the two pieces. -/
def join (a b : Nat) : Nat := (a <<< 8) ||| b

/-- `ipv4_address`, l.127-131: `times<4>(p<ipv4_octet>, sep(period))`, times.hpp l.14-32; behind the last octet a separator
    is an error (separator.hpp l.48-64). -/
def v4 (s : List Nat) : Outc (Nat × Nat) :=
  (octet s).bind fun a s => (period s).bind fun _ s => (octet s).bind fun b s => (period s).bind fun _ s =>
  (octet s).bind fun c s => (period s).bind fun _ s => (octet s).bind fun d s =>
    if (lit [0x2E] s).1 then .ok (join a b, join c d) (s.drop (lit [0x2E] s).2) [.trailing]
    else .ok (join a b, join c d) s []

/-- `ipv4_address_condition`, l.134: `peek(digits<> + period)`. -/
def isV4 (s : List Nat) : Bool :=
  (matchDigits .decimal s).1 && (lit [0x2E] (s.drop (matchDigits .decimal s).2)).1

/-- `ip::ipv6_builder`, l.34-107: the pieces, their number, where the elision is (`_elision_index` is -1 if there is none). -/
structure Builder where
  pieces : List Nat
  count : Nat
  elision : Option Nat
  deriving DecidableEq

/-- l.37. -/
def Builder.init : Builder := ⟨List.replicate 8 0, 0, none⟩

/-- `elision()`, l.48-55. -/
def Builder.elide (b : Builder) : Builder × Bool :=
  if b.elision.isSome then (b, false) else ({ b with elision := some b.count }, true)

/-- `piece(p)`, l.56-61. -/
def Builder.piece (b : Builder) (p : Nat) : Builder :=
  { b with pieces := if b.count < 8 then b.pieces.set b.count p else b.pieces, count := b.count + 1 }

/-- `ipv4(ip)`, l.62-71. -/
def Builder.ipv4 (b : Builder) (p q : Nat) : Builder :=
  { b with pieces := if b.count ≤ 6 then (b.pieces.set b.count p).set (b.count + 1) q else b.pieces, count := b.count + 2 }

/-- `n` rounds of the loops of `finish`, l.81-86 and 93-98: `result.pieces[dst++] = _pieces[src++]`; `none`: an index is out
    of bounds. -/
def copy (pieces : List Nat) : Nat → Nat → Int → List Nat → Option (List Nat)
  | 0, _, _, res => some res
  | n + 1, src, dst, res =>
    if 0 ≤ dst ∧ dst < res.length then
      match pieces[src]? with
      | some v => copy pieces n (src + 1) (dst + 1) (res.set dst.toNat v)
      | none => none
    else none

/-- `finish()`, l.73-101. -/
def Builder.finish (b : Builder) : Option (List Nat) :=
  let e := b.elision.getD 0
  (copy b.pieces e 0 0 (List.replicate 8 0)).bind fun res =>
    copy b.pieces (min b.count 8 - e) e (e + (if b.elision.isSome then (8 - b.count : Int) else 0)) res

/-- What follows the separator, l.192-210: an IPv4 address, which ends the loop (`false`), or a piece. -/
def group (b : Builder) (s : List Nat) : Outc (Builder × Bool) :=
  if isV4 s then (v4 s).bind fun v s => .ok (b.ipv4 v.1 v.2, false) s []
  else (piece s).bind fun v s => .ok (b.piece v, true) s []

/-- The separator, l.172-190: whether the loop goes on. -/
def separator (b : Builder) (s : List Nat) : Outc (Builder × Bool) :=
  if (lit [0x3A, 0x3A] s).1 then
    let s := s.drop (lit [0x3A, 0x3A] s).2
    .ok (b.elide.1, (Base.tok .hex s).isSome) s (if b.elide.2 then [] else [.duplicate])
  else if 0 < b.count then
    if (lit [0x3A] s).1 then .ok (b, true) (s.drop (lit [0x3A] s).2) [] else .ok (b, false) s []
  else .ok (b, true) s []

/-- The loop, l.170-211. -/
def loop : Nat → Builder → List Nat → Outc Builder
  | 0, _, _ => .ub
  | n + 1, b, s => (separator b s).bind fun x s =>
    if x.2 then (group x.1 s).bind fun y s => if y.2 then loop n y.1 s else .ok y.1 s []
    else .ok x.1 s []

/-- The errors about the number of pieces, l.215-218. -/
def Builder.errs (b : Builder) : List Err :=
  if b.count < 8 ∧ b.elision.isSome = false then [.missing]
  else if 8 < b.count ∨ (b.elision.isSome = true ∧ b.count = 8) then [.tooMany]
  else []

/-- `ipv6_address::scan`, l.165-222.  Every round consumes something, so that the steps suffice. -/
def v6 (s : List Nat) : Outc (List Nat) :=
  (loop (s.length + 1) .init s).bind fun b s =>
    match b.finish with
    | some v => .ok v s b.errs
    | none => .ub

/-- `grammar::ip_address`, l.226-236: the version and the pieces. -/
def parse (s : List Nat) : Outc (Nat × List Nat) :=
  (if isV4 s then (v4 s).bind fun v s => .ok (4, [v.1, v.2, 0, 0, 0, 0, 0, 0]) s []
   else (v6 s).bind fun v s => .ok (6, v) s []).bind fun v s => .ok v s (if s.isEmpty then [] else [.eof])

end Verif.Ip
