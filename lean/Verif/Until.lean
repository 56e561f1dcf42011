import Verif.Identifier
import Verif.Digit

/-
Model of `until`, `newline`, `eol` and `any`.

Source: /repo/include/lexy/dsl/until.hpp, newline.hpp, any.hpp
-/

namespace Verif

/-- `_until::tp::try_parse`, until.hpp l.83-112 (without the SWAR step): success and distance of `end`. -/
def untilTok (cond : TokMatch) (eof : Option Nat) (s : List Nat) : TokRes :=
  match cond s with
  | some n => (true, n)
  | none =>
    if peekEof eof s then (false, 0)
    else match s with
      | [] => (false, 0)  -- not reachable
      | _ :: t => let r := untilTok cond eof t; (r.1, r.2 + 1)
termination_by s.length

/-- `_until_eof::tp::try_parse`, until.hpp l.46-69: distance of `end`. -/
def untilOrEof (cond : TokMatch) (eof : Option Nat) (s : List Nat) : Nat :=
  if peekEof eof s then 0
  else match cond s with
    | some n => n
    | none =>
      match s with
      | [] => 0  -- not reachable
      | _ :: t => untilOrEof cond eof t + 1
termination_by s.length

/-- The predicate of the loop of `_until_swar`, until.hpp l.25-31: skip the word. -/
def untilSkip (k : Swar) (e v : Nat) : Bool := !(k.hasChar e v || k.hasCharLess 0xF v)

/-- `_until::tp::try_parse` with `_until_swar` on a buffer, until.hpp l.15-34 and l.83-112.  `mem` is the
    memory from the current position on; the result is the memory from `end` on. -/
def untilSwar (k : Swar) (e : Nat) (cond : TokMatch) (mem : List Nat) : Option (Bool × List Nat) :=
  match k.skipWhile (untilSkip k e) mem with
  | none => none
  | some mem' =>
    match cond mem' with
    | some n => some (true, mem'.drop n)
    | none =>
      if peekEof (some e) mem' then some (false, mem')
      else match mem' with
        | [] => none
        | _ :: t => if _h : t.length < mem.length then untilSwar k e cond t else none
termination_by mem.length

/-- `_until_eof::tp::try_parse` with `_until_swar`, until.hpp l.15-34 and l.46-69. -/
def untilOrEofSwar (k : Swar) (e : Nat) (cond : TokMatch) (mem : List Nat) : Option (List Nat) :=
  match k.skipWhile (untilSkip k e) mem with
  | none => none
  | some mem' =>
    if peekEof (some e) mem' then some mem'
    else match cond mem' with
      | some n => some (mem'.drop n)
      | none =>
        match mem' with
        | [] => none
        | _ :: t => if _h : t.length < mem.length then untilOrEofSwar k e cond t else none
termination_by mem.length

/-- `_nl`, newline.hpp l.24-28: `literal_set("\n", "\r\n")`.  Outer `none` = undefined behaviour. -/
def newlineMatch (eof : Option Nat) (s : List Nat) : Option (Option Nat) :=
  matchSet [⟨[0x0A], none⟩, ⟨[0x0D, 0x0A], none⟩] eof id s

/-- The same as a token. -/
def newlineTok (eof : Option Nat) : TokMatch := fun s => (newlineMatch eof s).join

/-- `_eol::bp::try_parse`, newline.hpp l.40-44. -/
def eolTry (eof : Option Nat) (s : List Nat) : Bool := peekEof eof s || (newlineTok eof s).isSome

/-- Outcome of `_eol::bp::finish` / `p::parse`, newline.hpp l.51-66: an EOF token, a newline token of
    the given length, or the error of `newline`. -/
inductive EolResult
  | eof | newline (n : Nat) | error
  deriving DecidableEq, Repr

def eolParse (eof : Option Nat) (s : List Nat) : EolResult :=
  if peekEof eof s then .eof
  else match newlineTok eof s with
    | some n => .newline n
    | none => .error

/-- `_any::tp::try_parse` without the SWAR loop, any.hpp l.32-36. -/
def anyTok (eof : Option Nat) (s : List Nat) : Nat :=
  if peekEof eof s then 0
  else match s with
    | [] => 0
    | _ :: t => anyTok eof t + 1
termination_by s.length

/-- `_any::tp::try_parse` with a SWAR reader, any.hpp l.22-38: the memory from `end` on. -/
def anySwar (k : Swar) (e : Nat) (mem : List Nat) : Option (List Nat) :=
  (k.skipWhile (fun v => !k.hasChar e v) mem).map fun mem' => mem'.drop (anyTok (some e) mem')

end Verif
