/-
Model of `lexy::token_kind`, `token_kind_map` and the predefined token kinds.

Source: /repo/include/lexy/token.hpp, /repo/include/lexy/grammar.hpp l.79-141

A token rule is identified by its `token_type`, a number.  `TokenKind` is `void`, where kinds are
values of `int` (32 bit), or an enumeration with a fixed underlying type.  Conversions to an integer
type keep the low bits (implementation-defined before C++20 for signed types, where all supported
compilers do it).  `none`: a violated `LEXY_PRECONDITION`, or code that does
not compile.

Not modelled: enumerations without a fixed underlying type, for which the conversion of
`_smallest_predefined_token_kind` (l.133) has undefined behaviour unless it is in their range.
-/

namespace Verif.Tk

/-- An integer type. -/
structure IntTy where
  bits : Nat
  signed : Bool
  deriving DecidableEq

/-- Conversion of an integer to the type. -/
def IntTy.conv (t : IntTy) (v : Int) : Int :=
  if t.signed ∧ 2 ^ (t.bits - 1) ≤ v % 2 ^ t.bits then v % 2 ^ t.bits - 2 ^ t.bits else v % 2 ^ t.bits

/-- The values of the type. -/
def IntTy.In (t : IntTy) (v : Int) : Prop :=
  if t.signed then -(2 ^ (t.bits - 1)) ≤ v ∧ v < 2 ^ (t.bits - 1) else 0 ≤ v ∧ v < 2 ^ t.bits

/-- `std::uint_least16_t`. -/
def u16 : IntTy := ⟨16, false⟩
/-- `int`. -/
def int : IntTy := ⟨32, true⟩

/-- `predefined_token_kind`, grammar.hpp l.82-98. -/
inductive Pre
  | unknown | error | whitespace | any | literal | position | eof | identifier | digits
  deriving DecidableEq

/-- The values of the enumerators, grammar.hpp l.84-95. -/
def Pre.val : Pre → Int
  | unknown => 65535
  | error => 65535 - 1
  | whitespace => 65535 - 2
  | any => 65535 - 3
  | literal => 65535 - 4
  | position => 65535 - 5
  | eof => 65535 - 6
  | identifier => 65535 - 7
  | digits => 65535 - 8

/-- `_smallest_predefined_token_kind`, grammar.hpp l.97. -/
def smallest : Int := Pre.digits.val

/-- `token_kind_name(predefined_token_kind)`, grammar.hpp l.105-133, as a switch over the stored
    value. -/
def preName (v : Int) : String :=
  if v = Pre.unknown.val then "token"
  else if v = Pre.error.val then "error token"
  else if v = Pre.whitespace.val then "whitespace"
  else if v = Pre.any.val then "any"
  else if v = Pre.literal.val then "literal"
  else if v = Pre.position.val then "position"
  else if v = Pre.eof.val then "EOF"
  else if v = Pre.identifier.val then "identifier"
  else if v = Pre.digits.val then "digits"
  else ""

/-- The template argument of `token_kind`, token.hpp l.98-104: `void`, or an enumeration (identified
    by a number) with its underlying type. -/
inductive Kind
  | void
  | enum (id : Nat) (t : IntTy)
  deriving DecidableEq

/-- `_underlying_type`, token.hpp l.103. -/
def Kind.ty : Kind → IntTy
  | void => int
  | enum _ t => t

/-- A `token_kind<K>`: `_value`, token.hpp l.211. -/
structure TK where
  v : Int
  deriving DecidableEq

/-- `token_kind(predefined_token_kind)`, token.hpp l.125-126; `token_kind()`, l.122-123. -/
def ofPre (p : Pre) : TK := ⟨p.val⟩

/-- `token_kind(_underlying_type value)`, token.hpp l.128-134. -/
def ofValue (k : Kind) (value : Int) : Option TK :=
  if k.ty.conv 0 ≤ value ∧ value < k.ty.conv smallest then some ⟨u16.conv value⟩ else none

/-- `token_kind(value)` where `value` is an integer of type `t` and `TokenKind` is `void`: overload
    resolution between `token_kind(int)`, token.hpp l.128-134, and the private
    `token_kind(std::uint_least16_t)`, l.209.  The former for `int` and what is promoted to it, the
    latter for exactly its type; for all others both are integral conversions, which is ambiguous. -/
def ofInteger (t : IntTy) (value : Int) : Option TK :=
  if t = u16 then some ⟨value⟩
  else if t = int ∨ t.bits < 32 then ofValue .void value
  else none

/-- `token_kind_of<TokenRule>`, grammar.hpp l.135-140, and `dsl/token.hpp`: predefined, or given by
    `.kind<...>`: an integer or a value of an enumeration. -/
inductive RuleKind
  | pre (p : Pre)
  | integer (t : IntTy) (v : Int)
  | enum (id : Nat) (v : Int)
  deriving DecidableEq

/-- `_is_compatible_kind_type`, token.hpp l.105-118. -/
def compatible (k : Kind) : RuleKind → Bool
  | .pre _ => true
  | .integer _ _ => match k with
    | .void => true
    | .enum _ _ => false
  | .enum id _ => match k with
    | .void => false
    | .enum id' _ => id == id'

/-- `token_kind(token_rule_kind)`, token.hpp l.149. -/
def ofOwn (k : Kind) : RuleKind → Option TK
  | .pre p => some (ofPre p)
  | .integer t v => ofInteger t v
  | .enum _ v => ofValue k v

/-- `_tk_map`, token.hpp l.18-76: the kinds in `_data` beside the tokens. -/
abbrev KMap := List (Nat × Int)

/-- `map<Kind>(token)`, token.hpp l.23-36, l.69-75: "Add new kind at the end." -/
def KMap.map (m : KMap) (kind : Int) (token : Nat) : KMap := m ++ [(token, kind)]

/-- The loop of `lookup`, token.hpp l.41-53. -/
def findIdx (token : Nat) : List Nat → Nat → Nat
  | [], i => i
  | t :: ts, i => if token = t then i else findIdx token ts (i + 1)

/-- What `lookup` returns: a predefined kind or a value of the map, token.hpp l.38-58, l.63-67. -/
def KMap.lookup (m : KMap) (token : Nat) : Option Int :=
  let idx := findIdx token (List.map (·.1) m) 0
  if idx = m.length then none else m[idx]?.map (·.2)

/-- `explicit operator bool`, token.hpp l.155-158. -/
def TK.known (k : TK) : Bool := k.v != Pre.unknown.val

/-- `token_kind(TokenRule)`, token.hpp l.136-152; `m` is `token_kind_map_for<TokenKind>`. -/
def ofRule (k : Kind) (m : KMap) (token : Nat) (own : RuleKind) : Option TK :=
  (match m.lookup token with
    | none => some (ofPre .unknown)
    | some v => ofValue k v).bind fun r =>
      if r.known then some r
      else if compatible k own then ofOwn k own
      else some r

/-- `is_predefined`, token.hpp l.160-163. -/
def TK.isPredefined (k : TK) : Bool := decide (smallest ≤ k.v)

/-- `ignore_if_empty`, token.hpp l.165-169. -/
def TK.ignoreIfEmpty (k : TK) : Bool :=
  k.v == Pre.unknown.val || k.v == Pre.error.val || k.v == Pre.whitespace.val

/-- `get`, token.hpp l.183-186. -/
def TK.get (k : Kind) (t : TK) : Int := k.ty.conv t.v

/-- `name`, token.hpp l.171-177; `user` is `token_kind_name` found by ADL for the enumeration. -/
def TK.name (k : Kind) (user : Int → String) (t : TK) : String :=
  if t.isPredefined then preName t.v else user (t.get k)

/-- `to_raw`, `from_raw`, token.hpp l.199-206. -/
def TK.toRaw (t : TK) : Int := t.v
def fromRaw (v : Int) : TK := ⟨v⟩

end Verif.Tk
