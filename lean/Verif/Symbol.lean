import Verif.Identifier
import Verif.Digit

/-
Model of symbol rules and of flags.

Source: /repo/include/lexy/dsl/symbol.hpp, flags.hpp

`none` on the outside: undefined behavior, or no termination.
-/

namespace Verif

/-- A symbol table with values of an enumeration, represented by their bits, symbol.hpp l.20-251; `fold` is its
    case folding. -/
structure SymTable where
  syms : List (List Nat)
  vals : List Nat
  fold : Nat → Nat := id

/-- `Table[symbol]`, symbol.hpp l.202-206. -/
def SymTable.get (t : SymTable) (i : Nat) : Nat := t.vals.getD i 0

/-- `_sym<Table, Token>::bp::try_parse`, symbol.hpp l.280-295: the symbol and the length of the token.
    `eof`: the EOF value of the encoding, if it is a code unit. -/
def symTokTry (t : SymTable) (eof : Option Nat) (tok : List Nat → TokRes) (s : List Nat) : Option (Option (Nat × Nat)) :=
  match tok s with
  | (false, _) => some none
  | (true, n) =>
    match symbolParse t.syms eof t.fold (s.take n) with
    | none => none
    | some none => some none
    | some (some i) => some (some (i, n))

/-- `_sym<Table, _idp<L, T>>::bp::try_parse`, symbol.hpp l.374-384. -/
def symIdTry (t : SymTable) (eof : Option Nat) (T : TokMatch) (s : List Nat) : Option (Option (Nat × Nat)) :=
  match symbolTryParse t.syms eof t.fold s with
  | none => none
  | some none => some none
  | some (some (i, n)) => if (T (s.drop n)).isSome then some none else some (some (i, n))

/-- `_sym<Table, void>::bp::try_parse`, symbol.hpp l.465-473. -/
def symTry (t : SymTable) (eof : Option Nat) (s : List Nat) : Option (Option (Nat × Nat)) :=
  symbolTryParse t.syms eof t.fold s

/-- The outcome of a symbol rule: success with a symbol, a token of a length and the whitespace behind; the token
    failed; or `unknown_symbol` for a range. -/
inductive SymOut
  | ok (i n ws : Nat)
  | tokenFailed
  | unknown (b e : Nat)
  deriving DecidableEq, Repr

/-- `_sym<Table, Token>::p::parse`, symbol.hpp l.314-349: `capture` (capture.hpp l.13-63) of the token skips whitespace,
    then the lexeme of the token is checked.  `ws` is the number of code units of whitespace. -/
def symTokParse (t : SymTable) (eof : Option Nat) (tok : List Nat → TokRes) (ws : List Nat → Nat) (s : List Nat) :
    Option SymOut :=
  match tok s with
  | (false, _) => some .tokenFailed
  | (true, n) =>
    match symbolParse t.syms eof t.fold (s.take n) with
    | none => none
    | some none => some (.unknown 0 n)
    | some (some i) => some (.ok i n (ws (s.drop n)))

/-- `_sym<Table, _idp<L, T>>::p::parse`, symbol.hpp l.403-443: `id_parser` (l.419) is the rule of the pattern,
    which skips whitespace. -/
def symIdParse (t : SymTable) (eof : Option Nat) (L T : TokMatch) (ws : List Nat → Nat) (s : List Nat) : Option SymOut :=
  match symbolTryParse t.syms eof t.fold s with
  | none => none
  | some r =>
    match r.filter fun x => !(T (s.drop x.2)).isSome with
    | some (i, n) => some (.ok i n (ws (s.drop n)))
    | none =>
      match identMatch L T s with
      | none => some .tokenFailed
      | some n => some (.unknown 0 (n + ws (s.drop n)))

/-- The result of `flags`: the bits, the final position, and the ranges of the errors. -/
structure FlagsRes where
  bits : Nat
  pos : Nat
  dups : List (Nat × Nat)
  deriving DecidableEq, Repr

/-- The loop of `_flags::p::_parse`, flags.hpp l.38-66; `sym` is `try_parse` of the symbol rule, for the input from the
    current position on.  A symbol that consumes nothing is matched forever. -/
def flagsLoop (t : SymTable) (sym : List Nat → Option (Option (Nat × Nat))) (ws : List Nat → Nat) (s : List Nat)
    (result pos : Nat) : Option FlagsRes :=
  match sym s with
  | none => none
  | some none => some ⟨result, pos, []⟩
  | some (some (i, n)) =>
    let m := n + ws (s.drop n)
    if _h : 0 < m ∧ m ≤ s.length then
      let flag := t.get i
      (flagsLoop t sym ws (s.drop m) (result ||| flag) (pos + m)).map fun r =>
        { r with dups := (if result &&& flag == flag then [(pos, pos + m)] else []) ++ r.dups }
    else none
termination_by s.length
decreasing_by simp; omega

/-- `_flags::p::parse`, flags.hpp l.33-76. -/
def flagsParse (t : SymTable) (default : Nat) (sym : List Nat → Option (Option (Nat × Nat))) (ws : List Nat → Nat)
    (s : List Nat) : Option FlagsRes :=
  flagsLoop t sym ws s default 0

end Verif
