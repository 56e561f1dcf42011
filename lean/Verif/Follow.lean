import Verif.Literal
import Verif.CharClass

/-
Model of `not_followed_by` and `followed_by`.

Source: /repo/include/lexy/dsl/follow.hpp, /repo/include/lexy/dsl/token.hpp

`cc` is the token parser of the character class (`lexy::try_match_token(CharClass{}, reader)`); with a
case folding it sees the folded input (follow.hpp l.71-79).  As in `Literal.lean` a folding is applied to
each unit (`_acfr`, case_folding.hpp l.76-121).
-/

namespace Verif

/-- What `_nf::tp` holds after `try_parse`, follow.hpp l.48-80: the result, `end` (as units after the
    begin), `literal_success`, and the `end` of the literal's own parser (`impl.end`). -/
structure Follow where
  ok : Bool
  len : Nat
  litOk : Bool
  litEnd : Nat
  deriving DecidableEq, Repr

/-- `_nf::tp::try_parse`, follow.hpp l.59-80.  `end` is only assigned after the literal matched, before that
    it is the begin (l.55-57). -/
def nfTryParse (lit : List Nat) (cc : List Nat → Bool) (eof : Option Nat) (fold : Nat → Nat)
    (s : List Nat) : Option Follow :=
  match matchLiteral eof fold lit s with
  | none => none
  | some (false, n) => some ⟨false, 0, false, n⟩
  | some (true, n) => some ⟨!cc ((s.drop n).map fold), n, true, n⟩

/-- The errors of `_nf`, follow.hpp l.82-95 and `_lit::tp::report_error`, literal.hpp l.366-376. -/
inductive FollowErr
  /-- `expected_literal` at a position with the index of the character -/
  | expectedLiteral (pos idx : Nat)
  /-- `follow_restriction` with begin and end -/
  | followRestriction (b e : Nat)
  deriving DecidableEq, Repr

/-- `token_base::token_parse`, token.hpp l.73-101, with `_nf::tp::report_error`: the units covered by the
    token event (an error token if there is an error) and consumed, and the error.  Positions are
    relative to the begin. -/
def nfTokenParse (lit : List Nat) (cc : List Nat → Bool) (eof : Option Nat) (fold : Nat → Nat)
    (s : List Nat) : Option (Nat × Option FollowErr) :=
  match nfTryParse lit cc eof fold s with
  | none => none
  | some f =>
    if f.ok then some (f.len, none)
    else if f.litOk then some (f.len, some (.followRestriction f.len f.len))
    else some (f.len, some (.expectedLiteral 0 f.litEnd))

/-- `_nf::lit_insert` and `lit_char_classes`, follow.hpp l.29-46: the rule as member of a literal set.
    It is the insertion of a keyword. -/
def nfLit (lit : List Nat) (cc : List Nat → Bool) : Lit := ⟨lit, some cc⟩

/-- `not_followed_by(lit, cc)` for a character class, follow.hpp l.99-105. -/
def notFollowedBy (e : Enc) (eof : Option Nat) (lit : List Nat) (c : CC) (s : List Nat) : Option Follow :=
  nfTryParse lit (fun r => (c.tryParse e r).isSome) eof id s

/-- `followed_by(lit, cc)`, follow.hpp l.107-112. -/
def followedBy (e : Enc) (eof : Option Nat) (lit : List Nat) (c : CC) (s : List Nat) : Option Follow :=
  notFollowedBy e eof lit (.comp c) s

end Verif
