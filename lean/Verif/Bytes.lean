import Verif.Digit

/-
Model of the rules for bytes and bits.

Source: /repo/include/lexy/dsl/byte.hpp, bits.hpp

The input is a list of bytes; `byte_encoding` has an EOF value that is no byte.
-/

namespace Verif

/-- `_b<N, Predicate>::tp::try_parse`, byte.hpp l.46-55; `pred` is `_match` for a byte (l.19-35). -/
def bytesTok : Nat → (Nat → Bool) → List Nat → TokRes
  | 0, _, _ => (true, 0)
  | _ + 1, _, [] => (false, 0)
  | n + 1, pred, b :: s => if pred b then ((bytesTok n pred s).1, (bytesTok n pred s).2 + 1) else (false, 0)

/-- The predicates: none, `range`, `set`, `ascii`, byte.hpp l.19-124. -/
def anyByte : Nat → Bool := fun _ => true
def byteRange (low high : Nat) : Nat → Bool := fun b => decide (low ≤ b) && decide (b ≤ high)
def byteSet (set : List Nat) : Nat → Bool := fun b => set.any (b == ·)
def byteAscii : Nat → Bool := fun b => decide (b ≤ 0x7F)

/-- What happens during parsing. -/
inductive ByteEv
  /-- a token with the given range -/
  | token (b e : Nat)
  /-- an error token -/
  | errorToken (b e : Nat)
  /-- `expected_char_class` at a position -/
  | expectedClass (p : Nat)
  /-- `expected_literal` at a position -/
  | expectedLiteral (p : Nat)
  /-- `mismatched_byte_count` for a range -/
  | mismatchedCount (b e : Nat)
  deriving DecidableEq, Repr

/-- `token_parse` (token.hpp l.73-101) of a token at position `p`: success, final position, events. -/
def byteTokenParse (tok : List Nat → TokRes) (s : List Nat) (p : Nat) : Bool × Nat × List ByteEv :=
  match tok (s.drop p) with
  | (true, n) => (true, p + n, [.token p (p + n)])
  | (false, n) => (false, p + n, [.errorToken p (p + n), .expectedClass (p + n)])

/-- `_pb::_validate`, byte.hpp l.152-164, for the bytes of the range that starts at `p`. -/
def padValidate (padding : Nat) : Nat → List Nat → List ByteEv
  | _, [] => []
  | p, b :: s => (if b != padding then [.expectedLiteral p] else []) ++ padValidate padding (p + 1) s

/-- `_pb::p::parse`, byte.hpp l.197-213, without the whitespace behind. -/
def padParse (n padding : Nat) (s : List Nat) (p : Nat) : Bool × Nat × List ByteEv :=
  match byteTokenParse (bytesTok n anyByte) s p with
  | (false, q, evs) => (false, q, evs)
  | (true, q, evs) => (true, q, evs ++ padValidate padding p ((s.drop p).take (q - p)))

/-- `_pb::bp`, byte.hpp l.166-195: `none` if it is not taken. -/
def padBranch (n padding : Nat) (s : List Nat) (p : Nat) : Option (Bool × Nat × List ByteEv) :=
  match bytesTok n anyByte (s.drop p) with
  | (false, _) => none
  | (true, k) => some (true, p + k, [.token p (p + k)] ++ padValidate padding p ((s.drop p).take k))

/-- `result = T(result << 8); result = T(result | b)` for a type of `n` bytes, byte.hpp l.305-306 and l.314-315. -/
def bintStep (n result b : Nat) : Nat := ((result <<< 8) % 2 ^ (8 * n) ||| b) % 2 ^ (8 * n)

/-- `_pc::parse`, byte.hpp l.295-317: the value of the bytes of the range. -/
def bintValue (big : Bool) (n : Nat) (bytes : List Nat) : Nat :=
  if n = 1 then bytes.headD 0
  else if big then bytes.foldl (bintStep n) 0
  else (List.range n).foldl (fun r i => bintStep n r (bytes.getD (n - i - 1) 0)) 0

/-- `_pc::parse`, byte.hpp l.280-322: the value, or the error. -/
def bintConvert (big : Bool) (n : Nat) (s : List Nat) (b e : Nat) : Option Nat × List ByteEv :=
  if e - b != n then (none, [.mismatchedCount b e]) else (some (bintValue big n ((s.drop b).take n)), [])

/-- `_bint::p::parse`, byte.hpp l.354-367, without the whitespace behind: the value, the final position and
    the events. -/
def bintParse (big : Bool) (n : Nat) (tok : List Nat → TokRes) (s : List Nat) (p : Nat) :
    Option Nat × Nat × List ByteEv :=
  match byteTokenParse tok s p with
  | (false, q, evs) => (none, q, evs)
  | (true, q, evs) => ((bintConvert big n s p q).1, q, evs ++ (bintConvert big n s p q).2)

/-- `_bint::bp`, byte.hpp l.324-352: `none` if it is not taken. -/
def bintBranch (big : Bool) (n : Nat) (tok : List Nat → TokRes) (s : List Nat) (p : Nat) :
    Option (Option Nat × Nat × List ByteEv) :=
  match tok (s.drop p) with
  | (false, _) => none
  | (true, k) => some ((bintConvert big n s p (p + k)).1, p + k, [.token p (p + k)] ++ (bintConvert big n s p (p + k)).2)

/-- The bit rules, bits.hpp l.19-95. -/
inductive BitRule
  | zero | one
  | nibble (v : Nat)
  | any (n : Nat)

namespace BitRule

/-- `size`. -/
def size : BitRule → Nat
  | .zero | .one => 1
  | .nibble _ => 4
  | .any n => n

/-- `apply`: mask and value. -/
def apply : BitRule → Nat × Nat → Nat × Nat
  | .zero, (m, v) => (m <<< 1 ||| 1, v <<< 1)
  | .one, (m, v) => (m <<< 1 ||| 1, v <<< 1 ||| 1)
  | .nibble x, (m, v) => (m <<< 4 ||| 15, v <<< 4 ||| x)
  | .any n, (m, v) => (m <<< n, v <<< n)

/-- The static assertions of the rules and of `bits`, bits.hpp l.58, l.79 and l.139. -/
def Valid (rs : List BitRule) : Prop :=
  (∀ r ∈ rs, match r with | .nibble v => v ≤ 15 | .any n => 0 < n | _ => True) ∧ (rs.map size).sum = 8

/-- The pattern, bits.hpp l.141-145. -/
def pattern (rs : List BitRule) : Nat × Nat := rs.foldl (fun p r => r.apply p) (0, 0)

end BitRule

/-- `_bits::tp::try_parse`, bits.hpp l.111-123. -/
def bitsTok (rs : List BitRule) : List Nat → TokRes
  | [] => (false, 0)
  | b :: _ => if b &&& (BitRule.pattern rs).1 != (BitRule.pattern rs).2 then (false, 0) else (true, 1)

end Verif
