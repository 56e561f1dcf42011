import Verif.CharClass
import Verif.Literal

/-
Model of identifiers, reservations and keywords.

Source: /repo/include/lexy/dsl/identifier.hpp

A character class token is a function from the remaining input to the number of units it consumes
(`lexy::try_match_token`, dsl/base.hpp l.244-269, resets the reader only on success).
-/

namespace Verif

/-- `try_match_token` of a token, as a function of the remaining input. -/
abbrev TokMatch := List Nat → Option Nat

/-- The loop over `Trailing`, identifier.hpp l.51-64, without SWAR.  Number of units consumed.
    The guard is the termination measure; a token that matches without consuming would loop forever
    in the code (character classes always consume, `CC.good_tryParse`). -/
def trailLoop (T : TokMatch) (s : List Nat) : Nat :=
  match T s with
  | none => 0
  | some n =>
    if _h : 0 < n ∧ n ≤ s.length then n + trailLoop T (s.drop n) else 0
termination_by s.length
decreasing_by simp; omega

/-- `_idp::tp::try_parse`, identifier.hpp l.43-68. -/
def identMatch (L T : TokMatch) (s : List Nat) : Option Nat :=
  match L s with
  | none => none
  | some n => some (n + trailLoop T (s.drop n))

/-- The loop over `Trailing` with a SWAR reader, identifier.hpp l.51-64: `p` is
    `char_class_match_swar`, `mem` the memory from the current position on.  Memory afterwards. -/
def trailLoopSwar (k : Swar) (p : Nat → Bool) (T : TokMatch) (mem : List Nat) : Option (List Nat) :=
  match k.skipWhile p mem with
  | none => none
  | some mem' =>
    match T mem' with
    | none => some mem'
    | some n =>
      if _h : 0 < n ∧ n ≤ mem'.length ∧ mem'.length ≤ mem.length then
        trailLoopSwar k p T (mem'.drop n)
      else none
termination_by mem.length
decreasing_by simp; omega

/-- The four reservation predicates, identifier.hpp l.78-139; the literal set is given by its members
    (keywords are turned into plain literals, l.209-230) and the case folding of its literals. -/
inductive Reserve
  | exact (set : List (List Nat)) (fold : Nat → Nat)
  | pre (set : List (List Nat)) (fold : Nat → Nat)
  | containing (set : List (List Nat)) (fold : Nat → Nat)
  | suffix (set : List (List Nat)) (fold : Nat → Nat)

/-- `lexy::try_match_token(Set{}, reader)`. -/
def setMatch (set : List (List Nat)) (eof : Option Nat) (fold : Nat → Nat) (s : List Nat) :
    Option (Option Nat) :=
  matchSet (set.map fun w => ⟨w, none⟩) eof fold s

/-- `reader.peek() == encoding::eof()`. -/
def peekEof (eof : Option Nat) (s : List Nat) : Bool :=
  match s with
  | [] => true
  | u :: _ => eof == some u

/-- `_idrp::is_reserved`, identifier.hpp l.78-88. -/
def reservedExact (set : List (List Nat)) (eof : Option Nat) (fold : Nat → Nat) (w : List Nat) :
    Option Bool :=
  (setMatch set eof fold w).map fun r =>
    match r with
    | none => false
    | some n => peekEof eof (w.drop n)

/-- `_idpp::is_reserved`, identifier.hpp l.89-98. -/
def reservedPrefix (set : List (List Nat)) (eof : Option Nat) (fold : Nat → Nat) (w : List Nat) :
    Option Bool :=
  (setMatch set eof fold w).map (·.isSome)

/-- `_idcp::is_reserved`, identifier.hpp l.99-118. -/
def reservedContaining (set : List (List Nat)) (eof : Option Nat) (fold : Nat → Nat) (w : List Nat) :
    Option Bool :=
  match setMatch set eof fold w with
  | none => none
  | some (some _) => some true
  | some none =>
    if peekEof eof w then some false
    else match w with
      | [] => none
      | _ :: w' => reservedContaining set eof fold w'
termination_by w.length

/-- `_idsp::is_reserved`, identifier.hpp l.119-139.  Note that the reader stays behind the match when the
    set matched without reaching the end. -/
def reservedSuffix (set : List (List Nat)) (eof : Option Nat) (fold : Nat → Nat) (w : List Nat) :
    Option Bool :=
  match setMatch set eof fold w with
  | none => none
  | some r =>
    let w1 := w.drop (r.getD 0)
    if r.isSome && peekEof eof w1 then some true
    else if peekEof eof w1 then some false
    else match _h : w.drop (r.getD 0) with
      | [] => none
      | _ :: w' => reservedSuffix set eof fold w'
termination_by w.length
decreasing_by
  have := congrArg List.length _h
  simp at this; omega

/-- `ReservedPredicate::is_reserved(input)` for one predicate. -/
def Reserve.isReserved (eof : Option Nat) (w : List Nat) : Reserve → Option Bool
  | .exact set fold => reservedExact set eof fold w
  | .pre set fold => reservedPrefix set eof fold w
  | .containing set fold => reservedContaining set eof fold w
  | .suffix set fold => reservedSuffix set eof fold w

/-- `(ReservedPredicate::is_reserved(input) || ...)`. -/
def anyReserved (eof : Option Nat) (w : List Nat) : List Reserve → Option Bool
  | [] => some false
  | r :: rs =>
    match r.isReserved eof w with
    | none => none
    | some true => some true
    | some false => anyReserved eof w rs

/-- `_id::bp::try_parse`, identifier.hpp l.177-192: the branch is taken after matching `n` units. -/
def idTryParse (L T : TokMatch) (eof : Option Nat) (rs : List Reserve) (s : List Nat) :
    Option (Option Nat) :=
  match identMatch L T s with
  | none => some none
  | some n => (anyReserved eof (s.take n) rs).map fun b => if b then none else some n

/-- `_id::p::parse`, identifier.hpp l.144-170, up to the whitespace: the length of the lexeme and whether
    `reserved_identifier` is reported (it recovers and keeps the lexeme); `some none` if the pattern does
    not match. -/
def idParse (L T : TokMatch) (eof : Option Nat) (rs : List Reserve) (s : List Nat) :
    Option (Option (Nat × Bool)) :=
  match identMatch L T s with
  | none => some none
  | some n => (anyReserved eof (s.take n) rs).map fun b => some (n, b)

/-- `_kw::tp::try_parse`, identifier.hpp l.351-361. -/
def kwTryParse (lit : List Nat) (T : TokMatch) (eof : Option Nat) (fold : Nat → Nat) (s : List Nat) :
    Option (Option Nat) :=
  match matchLiteral eof fold lit s with
  | none => none
  | some (false, _) => some none
  | some (true, n) => some (if (T (s.drop n)).isSome then none else some n)

end Verif
