import Verif.Bytes

/-
The protobuf example: the binary encoding of messages.

Source: /repo/examples/protobuf.cpp l.23-302; /repo/include/lexy/dsl/repeat.hpp, list.hpp, option.hpp, terminator.hpp

The rules for bytes and bits are those of `Verif.Bytes`; the other rules of the example are written out as functions on the
remaining input, each is cited.  The input consists of bytes; `byte_encoding` has an EOF value that is no byte.  `none` is
undefined behavior (or running out of steps, which the theorems exclude).  The first error decides the outcome: `main` returns
2 if there was an error (l.291-292).  After an error in a field, the recovery of `terminator(eof).opt_list` only looks for
the end of the input (list.hpp l.298-380, the item is no branch); after an error in a `varint`, the end has been reached.
`bit_cast` to floating point numbers and `visualize` of the bytes are not modelled.
-/

namespace Verif.Pb

/-- How parsing goes on: with a value and the remaining input, or with an error. -/
inductive Res (α : Type)
  | ok (v : α) (s : List Nat)
  | err

/-- Continue with the value unless there was an error or undefined behavior. -/
def andThen {α β : Type} (r : Option (Res α)) (f : α → List Nat → Option (Res β)) : Option (Res β) :=
  match r with
  | none => none
  | some .err => some .err
  | some (.ok v s) => f v s

/-- `varint_builder`, protobuf.cpp l.104-125: `result` and `bit_shift`. -/
structure Builder where
  result : Nat
  shift : Nat

/-- The constructor, protobuf.cpp l.107. -/
def Builder.new : Builder := ⟨0, 0⟩

/-- `add_prefix_byte`, protobuf.cpp l.109-114.  `prefix & 0b0111'1111u` has type `unsigned`, of 32 bits: the shift drops what
    does not fit, and it is undefined if it is by 32 or more. -/
def Builder.addPrefix (b : Builder) (byte : Nat) : Option Builder :=
  if b.shift < 32 then some ⟨b.result ||| ((byte &&& 127) <<< b.shift) % 2 ^ 32, b.shift + 7⟩ else none

/-- `finish`, protobuf.cpp l.116-120.  The shift is one of `std::uint64_t`. -/
def Builder.finish (b : Builder) (byte : Nat) : Option Nat :=
  if b.shift < 64 then some (b.result ||| (byte <<< b.shift) % 2 ^ 64) else none

/-- `last_byte` and `prefix_byte`, protobuf.cpp l.137 and l.139. -/
def lastTok : List Nat → TokRes := bitsTok [.zero, .any 7]
def prefixTok : List Nat → TokRes := bitsTok [.one, .any 7]

/-- `_lstt::_loop` without separator, list.hpp l.184-298: the terminator `bint8(last_byte)` is tried, otherwise the item
    `bint8(prefix_byte)` is parsed and passed to the sink, protobuf.cpp l.143 and l.153. -/
def varintLoop : Nat → Builder → List Nat → Option (Res Nat)
  | 0, _, _ => none
  | n + 1, b, s =>
    match bintBranch true 1 lastTok s 0 with
    | some (some v, k, _) => (b.finish v).map fun x => .ok x (s.drop k)
    | some (none, _, _) => some .err
    | none =>
      match bintParse true 1 prefixTok s 0 with
      | (some v, k, _) => (b.addPrefix v).bind fun b => varintLoop n b (s.drop k)
      | (none, _, _) => some .err

/-- `varint`, protobuf.cpp l.128-165: `_optt` (option.hpp l.94-115) tries the terminator first and then the callback gets
    `nullopt` (l.157), otherwise the first item is parsed by `_lstt::p` (list.hpp l.397-424). -/
def varint (s : List Nat) : Option (Res Nat) :=
  match bintBranch true 1 lastTok s 0 with
  | some (some v, k, _) => (Builder.new.finish v).map fun x => .ok x (s.drop k)
  | some (none, _, _) => some .err
  | none =>
    match bintParse true 1 prefixTok s 0 with
    | (some v, k, _) => (Builder.new.addPrefix v).bind fun b => varintLoop (s.length + 1) b (s.drop k)
    | (none, _, _) => some .err

/-- `_rep_impl<Item, void>::loop` with `dsl::byte`, repeat.hpp l.51-73. -/
def repeatByte : Nat → List Nat → Option (List Nat)
  | 0, s => some s
  | n + 1, s =>
    match byteTokenParse (bytesTok 1 anyByte) s 0 with
    | (true, k, _) => repeatByte n (s.drop k)
    | (false, _, _) => none

/-- `field_value`, protobuf.cpp l.77. -/
inductive Value
  | varint (v : Nat)
  | fixed64 (v : Nat)
  | bytes (bs : List Nat)
  | fixed32 (v : Nat)
  deriving DecidableEq, Repr

/-- `field_32` and `field_64`, protobuf.cpp l.175-186: `little_bint32` and `little_bint64`. -/
def fixed (n : Nat) (mk : Nat → Value) (s : List Nat) : Option (Res Value) :=
  match bintParse false n (bytesTok n anyByte) s 0 with
  | (some v, k, _) => some (.ok (mk v) (s.drop k))
  | (none, _, _) => some .err

/-- `field_bytes`, protobuf.cpp l.189-193: `repeat(p<varint>).capture(byte)`, repeat.hpp l.111-129. -/
def fieldBytes (s : List Nat) : Option (Res Value) :=
  andThen (varint s) fun n s =>
    match repeatByte n s with
    | some r => some (.ok (.bytes (s.take (s.length - r.length))) r)
    | none => some .err

/-- The value of a field with the given wire type, protobuf.cpp l.235-256. -/
def fieldValue (type : Nat) (s : List Nat) : Option (Res Value) :=
  if type = 0 then andThen (varint s) fun v s => some (.ok (.varint v) s)
  else if type = 1 then fixed 8 .fixed64 s
  else if type = 2 then fieldBytes s
  else if type = 5 then fixed 4 .fixed32 s
  else some .err

/-- `field::scan`, protobuf.cpp l.226-261, with `field_key`, l.196-209. -/
def field (s : List Nat) : Option (Res (Nat × Value)) :=
  andThen (varint s) fun v s =>
    andThen (fieldValue (v &&& 7) s) fun x s => some (.ok (v >>> 3, x) s)

/-- `message`, protobuf.cpp l.265-269: `terminator(eof).opt_list(p<field>)`, collected by `as_list`; the terminator is tried
    before every item.  An error is `some none`. -/
def messageGo : Nat → List Nat → Option (Option (List (Nat × Value)))
  | 0, _ => none
  | _ + 1, [] => some (some [])
  | n + 1, c :: s =>
    match field (c :: s) with
    | none => none
    | some .err => some none
    | some (.ok f s) => (messageGo n s).map fun r => r.map (f :: ·)

/-- `main`, protobuf.cpp l.275-300: the fields that are printed, or `none` if there was an error. -/
def program (s : List Nat) : Option (Option (List (Nat × Value))) := messageGo (s.length + 1) s

/-- `as_signed` of `field_32` (`n = 32`) and `field_64` (`n = 64`), protobuf.cpp l.42 and l.56: the number that is printed with
    `PRIi32` and `PRIi64`. -/
def asSigned (n v : Nat) : Int :=
  let x := (v <<< 1) % 2 ^ n ^^^ v >>> (n - 1)
  if x < 2 ^ (n - 1) then x else (x : Int) - 2 ^ n

end Verif.Pb
