/-
Model of the compile-time lists of `_detail`: index sequences, tuples and string literals as template
arguments.

Source: /repo/include/lexy/_detail/integer_sequence.hpp, tuple.hpp, nttp_string.hpp;
        `transcode_char`, /repo/include/lexy/encoding.hpp l.290-323

A parameter pack is a list.  `none`: does not compile.
-/

namespace Verif.Meta

/-! ### Index sequences -/

/-- `concat_seq`, integer_sequence.hpp l.31-37. -/
def concatSeq (i1 i2 : List Nat) : List Nat := i1 ++ i2.map (i1.length + ·)

/-- `_make_index_sequence`, integer_sequence.hpp l.39-54; used where the compiler has no builtin. -/
def makeIndexSequence : Nat → List Nat
  | 0 => []
  | 1 => [0]
  | n + 2 => concatSeq (makeIndexSequence ((n + 2) / 2)) (makeIndexSequence (n + 2 - (n + 2) / 2))
decreasing_by all_goals omega

/-! ### Tuples -/

/-- `_nth_type`, tuple.hpp l.22-33. -/
def nthType {α : Type} : Nat → List α → Option α
  | _, [] => none
  | 0, h :: _ => some h
  | idx + 1, _ :: t => nthType idx t

/-- The base classes `_tuple_holder<Idx, T>...` of a tuple with the values they are initialised
    with, tuple.hpp l.11-20, l.48-57. -/
def holders {τ ν : Type} (ts : List τ) (vs : List ν) : Option (List ((Nat × τ) × ν)) :=
  if ts.length = vs.length then some (((makeIndexSequence ts.length).zip ts).zip vs) else none

/-- `get<N>()`, tuple.hpp l.72-87: the conversion to the base class `_tuple_holder<N, element_type<N>>`,
    which fails if there is no such base class. -/
def get {τ ν : Type} [DecidableEq τ] (ts : List τ) (hs : List ((Nat × τ) × ν)) (n : Nat) : Option ν :=
  (nthType n ts).bind fun t => (hs.find? fun h => h.1 == (n, t)).map (·.2)

/-! ### String literals -/

/-- `string_literal(const CharT*)`, nttp_string.hpp l.36-56: the first `N` of the `N + 1` characters of
    the array. -/
def literalData (n : Nat) (arr : List Nat) : List (Option Nat) := (List.range n).map fun i => arr[i]?

/-- `to_type_string`, nttp_string.hpp l.62-70, where the language has class types as template
    arguments. -/
def viaNttp (arr : List Nat) : Option (List Nat) :=
  let data := literalData (arr.length - 1) arr
  (makeIndexSequence (arr.length - 1)).mapM fun i => data[i]?.join

/-- `operator""_lexy_string_udl`, nttp_string.hpp l.77-89: the compiler passes the characters. -/
def viaUdl (arr : List Nat) : Option (List Nat) := some arr.dropLast

/-- `LEXY_NTTP_STRING_LENGTH`, nttp_string.hpp l.117. -/
def litLen (arr : List Nat) : Nat := arr.length - 1

/-- `LEXY_NTTP_STRING1`, nttp_string.hpp l.119-126. -/
def string1 (arr : List Nat) (i : Nat) : Option (List Nat) :=
  (if i ≥ litLen arr then arr[0]? else arr[i]?).map fun c => if i < litLen arr then [c] else []

/-- `LEXY_NTTP_STRING2` to `32`, nttp_string.hpp l.128-137: `cat` (l.97-105) of both halves. -/
def stringN (arr : List Nat) : Nat → Nat → Option (List Nat)
  | 0, i => string1 arr i
  | k + 1, i => (stringN arr k i).bind fun a => (stringN arr k (i + 2 ^ k)).map (a ++ ·)

/-- `LEXY_NTTP_STRING`, nttp_string.hpp l.107-113, l.139-141. -/
def viaMacro (arr : List Nat) : Option (List Nat) :=
  if litLen arr ≤ 32 then stringN arr 5 0 else none

/-- `transcode_char`, encoding.hpp l.299-323: `same`: the types are the same (or `char` and a `char8_t`
    that is not a type of its own); otherwise only ASCII characters are accepted. -/
def transcode (same : Bool) (c : Nat) : Option Nat := if same then some c else if c ≤ 0x7F then some c else none

/-- `type_string::c_str`, nttp_string.hpp l.24-25. -/
def cStr (same : Bool) (cs : List Nat) : Option (List Nat) := (cs.mapM (transcode same)).map (· ++ [0])

end Verif.Meta
