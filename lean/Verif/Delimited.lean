import Verif.Identifier

/-
Model of delimited content with escape sequences.

Source: /repo/include/lexy/dsl/delimited.hpp

Simplifications: the closing delimiter and the branches of an escape are given by what they match (number of units
consumed); the events they emit themselves are not modelled here.  Positions are absolute.
-/

namespace Verif

/-- What the rule reports, in order.
    `content`: a token event for the content plus the call of the sink (delimited.hpp l.169-177);
    `badChar`: the error of the character class plus an error token (l.36-50);
    `escape`: the token of the escape character (l.391-392); `escaped`: what the branch parsed (l.394-409);
    `badEscape`: `invalid_escape_sequence` (l.415-420); `missing`: `missing_delimiter` (l.233-235). -/
inductive DEv
  | content (b e : Nat) | badChar (b e : Nat) | escape (b e : Nat) | escaped (b e : Nat)
  | badEscape (b e : Nat) | missing (b e : Nat)
  deriving DecidableEq, Repr

/-- `_escape<Escape, Branches...>`, delimited.hpp l.367-425; a branch gives the number of units it consumes once
    its condition matched. -/
structure Escape where
  tok : TokMatch
  branches : List TokMatch

/-- `_del<Close, Char, Limit, Escapes...>`, delimited.hpp l.203-207.  `char` is `parse_one`: whether the
    character is valid, and how many units are consumed. -/
structure Delim where
  close : TokMatch
  limit : Option TokMatch
  eof : Option Nat
  char : List Nat → Bool × Nat
  escapes : List Escape

/-- `_del_chars::finish`, delimited.hpp l.169-177. -/
def delFinish (b e : Nat) : List DEv := if b = e then [] else [.content b e]

/-- `_del_limit::peek`, delimited.hpp l.180-201. -/
def Delim.atLimit (d : Delim) (s : List Nat) : Bool :=
  (match d.limit with
    | none => false
    | some t => (t s).isSome) || peekEof d.eof s

/-- `_escape::esc_try_parse`, delimited.hpp l.377-425: units consumed and events. -/
def Escape.tryParse (x : Escape) (pos b : Nat) (s : List Nat) : Option (Nat × List DEv) :=
  match x.tok s with
  | none => none
  | some n => some (
    match x.branches.findSome? (fun br => br (s.drop n)) with
    | some m => (n + m, delFinish b pos ++ [.escape pos (pos + n), .escaped (pos + n) (pos + n + m)])
    | none => (n, delFinish b pos ++ [.escape pos (pos + n), .badEscape pos (pos + n)]))

/-- `_del::_loop`, delimited.hpp l.209-250.  `pre` is `parse_swar` (l.52-96): the number of units skipped.
    `begin_` is `cur_chars.begin`, `start` is `del_begin`.  Result: success, position, events.
    `none`: the loop does not make progress, or reads out of bounds. -/
def Delim.loop (d : Delim) (pre : List Nat → Option Nat) (start pos begin_ : Nat) (s : List Nat) :
    Option (Bool × Nat × List DEv) :=
  match pre s with
  | none => none
  | some j =>
    let s1 := s.drop j
    let p := pos + j
    if (d.close s1).isSome then some (true, p, delFinish begin_ p)
    else if d.atLimit s1 then some (false, p, delFinish begin_ p ++ [.missing start p])
    else match d.escapes.findSome? (fun x => x.tryParse p begin_ s1) with
      | some (n, evs) =>
        if _h : 0 < n ∧ n ≤ s1.length then
          (d.loop pre start (p + n) (p + n) (s1.drop n)).map fun r => (r.1, r.2.1, evs ++ r.2.2)
        else none
      | none =>
        match d.char s1 with
        | (true, n) =>
          if _h : 0 < n ∧ n ≤ s1.length then d.loop pre start (p + n) begin_ (s1.drop n) else none
        | (false, n) =>
          if _h : 0 < n ∧ n ≤ s1.length then
            (d.loop pre start (p + n) (p + n) (s1.drop n)).map fun r =>
              (r.1, r.2.1, delFinish begin_ p ++ .badChar p (p + n) :: r.2.2)
          else none
termination_by s.length
decreasing_by
  all_goals (simp only [s1, List.length_drop] at _h ⊢; omega)

/-- `_del::p::parse` up to the closing delimiter, delimited.hpp l.252-278, for readers without SWAR. -/
def Delim.parse (d : Delim) (pos : Nat) (s : List Nat) : Option (Bool × Nat × List DEv) :=
  d.loop (fun _ => some 0) pos pos pos s

/-- The predicate of `parse_swar`, delimited.hpp l.69-94: the word is skipped. `closeFirst` is
    `Close::lit_first_char`, `escFirst` are `Escs::esc_first_char`. -/
def delSkip (k : Swar) (e closeFirst : Nat) (escFirst : List Nat) (cls : Nat → Bool) (v : Nat) : Bool :=
  !(k.hasChar e v || k.hasChar closeFirst v) && !escFirst.any (fun c => k.hasChar c v) && cls v

/-- `_del::p::parse` for a SWAR reader; `mem` is the memory from the current position on. -/
def Delim.parseSwar (d : Delim) (k : Swar) (e closeFirst : Nat) (escFirst : List Nat) (cls : Nat → Bool) (pos : Nat)
    (mem : List Nat) : Option (Bool × Nat × List DEv) :=
  d.loop (fun m => (k.skipWhile (delSkip k e closeFirst escFirst cls) m).map fun m' => m.length - m'.length)
    pos pos pos mem

/-- `_del_chars::parse_one` for the Unicode encodings, delimited.hpp l.98-135 and 154-166. -/
def delCharUnicode (e : Enc) (c : CC) (s : List Nat) : Bool × Nat :=
  if c.tableMatch s then (true, 1)
  else match c.matchCp with
    | none => (false, 1)
    | some f =>
      let r := parseCp e s
      if r.error = .success && f r.cp then (true, r.len)
      else (false, if r.len = 0 then 1 else r.len)

/-- `_del_chars::parse_one` for the default encoding, delimited.hpp l.98-109 and 136-166. -/
def delCharByte (c : CC) (s : List Nat) : Bool × Nat :=
  match s with
  | [] => (false, 1)
  | u :: _ =>
    if (compressAsciiSet c.ascii).matches u then (true, 1)
    else match c.matchCp with
      | none => (false, 1)
      | some f => (f u, 1)

end Verif
