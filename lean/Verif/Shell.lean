import Verif.Email
import Verif.CodePoint

/-
The shell example: parsing and executing a command.

Source: /repo/examples/shell.cpp l.15-350

The rules of the example are written out as functions on the remaining input; each is cited.  The grammar has no automatic whitespace.
The input is UTF-8, whose EOF value is 0xFF; it is everything the user enters from here on.  `none` is an error: then nothing is
executed (l.318-321); what is parsed after it is not modelled.  Neither is what the directives `trace` and `vars` print.
-/

namespace Verif.Sh

open Verif.Em (lit newline isBlank)

/-- `variables` of the interpreter, shell.cpp l.21-35, by their names; the value of other variables is empty. -/
abbrev Vars := List Nat → List Nat

/-- `operator[]` of the map in `cmd_set::execute`, shell.cpp l.94-98. -/
def Vars.set (σ : Vars) (n v : List Nat) : Vars := fun m => if m = n then v else σ m

/-- The commands, shell.cpp l.59-104. -/
inductive Cmd
  | exit
  | echo (msg : List Nat)
  | set (name value : List Nat)
  deriving DecidableEq, Repr

/-- `dsl::ascii::alnum`, ascii.hpp l.260-282. -/
def isAlnum (c : Nat) : Bool := (65 ≤ c && c ≤ 90) || (97 ≤ c && c ≤ 122) || (48 ≤ c && c ≤ 57)

/-- `identifier` and `arg_bare`, shell.cpp l.111 and l.123-127. -/
def bare (s : List Nat) : Option (List Nat × List Nat) :=
  if s.takeWhile isAlnum = [] then none else some (s.takeWhile isAlnum, s.dropWhile isAlnum)

/-- `str_char`, shell.cpp l.120: a code point that is no control character; its code units and what is behind it. -/
def strChar (s : List Nat) : Option (List Nat × List Nat) :=
  if (parseUtf8 s).error = .success then
    if cpIsControl (parseUtf8 s).cp then none else some (s.take (parseUtf8 s).len, s.drop (parseUtf8 s).len)
  else none

/-- The content of `arg_string` and the closing quote, shell.cpp l.130-134. -/
def strText : Nat → List Nat → Option (List Nat × List Nat)
  | 0, _ => none
  | n + 1, s =>
    if s.head? = some 39 then some ([], s.tail)
    else if peek8 s = 0xFF then none
    else (strChar s).bind fun (u, r) => (strText n r).map fun (v, r) => (u ++ v, r)

/-- `escaped_sequences`, shell.cpp l.147-155. -/
def escaped (c : Nat) : Option Nat :=
  if c = 34 then some 34
  else if c = 92 then some 92
  else if c = 47 then some 47
  else if c = 98 then some 8
  else if c = 102 then some 12
  else if c = 110 then some 10
  else if c = 114 then some 13
  else if c = 116 then some 9
  else none

/-- `max_recursion_depth`, grammar.hpp l.180-187. -/
def maxDepth : Nat := 1024

mutual
/-- `argument`, shell.cpp l.185-196, with `arg_string`, `arg_quoted`, `arg_var` and `arg_bare`.  The first number bounds the steps, the
    second one is the current depth of the recursion (production.hpp l.138-160). -/
def argument (σ : Vars) : Nat → Nat → List Nat → Option (List Nat × List Nat)
  | 0, _, _ => none
  | n + 1, d, s =>
    if s.head? = some 39 then strText (s.length + 1) s.tail
    else if s.head? = some 34 then quotedText σ n d s.tail
    else if s.head? = some 36 then
      -- `arg_var`, l.170-182
      if s.tail.head? = some 123 then braced σ n d s.tail.tail else (bare s.tail).map fun (a, r) => (σ a, r)
    else bare s

/-- `curly_bracketed(recurse<argument>)` behind the opening bracket and the value of the variable, shell.cpp l.139-145 and l.174. -/
def braced (σ : Vars) : Nat → Nat → List Nat → Option (List Nat × List Nat)
  | 0, _, _ => none
  | n + 1, d, s =>
    if maxDepth ≤ d then none
    else (argument σ n (d + 1) s).bind fun (a, r) => if r.head? = some 125 then some (σ a, r.tail) else none

/-- The content of `arg_quoted` and the closing quote, shell.cpp l.157-167. -/
def quotedText (σ : Vars) : Nat → Nat → List Nat → Option (List Nat × List Nat)
  | 0, _, _ => none
  | n + 1, d, s =>
    if s.head? = some 34 then some ([], s.tail)
    else if peek8 s = 0xFF ∨ s.head? = some 10 ∨ s.head? = some 13 then none
    else if s.head? = some 92 then
      (s.tail.head?.bind escaped).bind fun c => (quotedText σ n d s.tail.tail).map fun (v, r) => (c :: v, r)
    else if s.head? = some 36 then
      if s.tail.head? = some 123 then
        (braced σ n d s.tail.tail).bind fun (u, r) => (quotedText σ n d r).map fun (v, r) => (u ++ v, r)
      else none
    else (strChar s).bind fun (u, r) => (quotedText σ n d r).map fun (v, r) => (u ++ v, r)
end

/-- An argument at the top level. -/
def arg (σ : Vars) (s : List Nat) : Option (List Nat × List Nat) := argument σ (2 * s.length + 2) 0 s

/-- `while_(sep)`, shell.cpp l.199-212: blanks, and newlines behind a backslash; a backslash in front of something else is an error. -/
def sepLoop : Nat → List Nat → Option (List Nat)
  | 0, _ => none
  | _ + 1, [] => some []
  | n + 1, c :: s =>
    if isBlank c then sepLoop n s else if c = 92 then (newline s).bind (sepLoop n) else some (c :: s)

/-- Whether the branch of `arg_sep` is taken, shell.cpp l.208-211. -/
def startsSep (s : List Nat) : Bool :=
  match s.head? with
  | some c => isBlank c || c == 92
  | none => false

/-- `arg_sep`, shell.cpp l.199-212. -/
def sep (s : List Nat) : Option (List Nat) := if startsSep s then sepLoop (s.length + 1) s else none

/-- `LEXY_KEYWORD(w, identifier)`, shell.cpp l.217, l.223, l.229. -/
def keyword (w s : List Nat) : Option (List Nat) :=
  (lit w s).bind fun r => if r.head?.any isAlnum then none else some r

def kwExit : List Nat := [101, 120, 105, 116]
def kwEcho : List Nat := [101, 99, 104, 111]
def kwSet : List Nat := [115, 101, 116]

/-- The commands, shell.cpp l.215-232 and l.247-249. -/
def cmd (σ : Vars) (s : List Nat) : Option (Cmd × List Nat) :=
  match keyword kwExit s with
  | some r => some (.exit, r)
  | none =>
    if peek8 s = 0xFF then some (.exit, s)
    else
      match keyword kwEcho s with
      | some r => (sep r).bind fun r => (arg σ r).map fun (a, r) => (.echo a, r)
      | none =>
        match keyword kwSet s with
        | some r => (sep r).bind fun r => (arg σ r).bind fun (a, r) => (sep r).bind fun r => (arg σ r).map fun (b, r) => (.set a b, r)
        | none => none

/-- `peek(eol)`, shell.cpp l.253. -/
def atEol (s : List Nat) : Bool := peek8 s == 0xFF || (newline s).isSome

/-- `command`, shell.cpp l.235-256. -/
def command (σ : Vars) (s : List Nat) : Option Cmd :=
  (cmd σ s).bind fun (c, r) =>
    if startsSep r then (sepLoop (r.length + 1) r).bind fun r => if atEol r then some c else none
    else if atEol r then some c else none

/-- The variables after a command, shell.cpp l.59-104. -/
def Cmd.exec (σ : Vars) : Cmd → Vars
  | .set n v => σ.set n v
  | _ => σ

/-- The directives, shell.cpp l.39-47. -/
inductive Dir
  | execute | trace | vars
  deriving DecidableEq, Repr

/-- `dsl::ascii::alpha`, ascii.hpp l.179-201. -/
def isAlpha (c : Nat) : Bool := (65 ≤ c && c ≤ 90) || (97 ≤ c && c ≤ 122)

def kwExecute : List Nat := [101, 120, 101, 99, 117, 116, 101]
def kwTrace : List Nat := [116, 114, 97, 99, 101]
def kwVars : List Nat := [118, 97, 114, 115]

/-- `directives`, shell.cpp l.269-273. -/
def dirOf (w : List Nat) : Option Dir :=
  if w = kwExecute then some .execute else if w = kwTrace then some .trace else if w = kwVars then some .vars else none

/-- `directive`, shell.cpp l.261-286: the directive and the remaining input. -/
def directive (s : List Nat) : Option (Dir × List Nat) :=
  if s.head? = some 58 then
    (dirOf (s.tail.takeWhile isAlpha)).bind fun d =>
      if startsSep (s.tail.dropWhile isAlpha) then
        (sepLoop (s.length + 1) (s.tail.dropWhile isAlpha)).map fun r => (d, r)
      else some (d, s.tail.dropWhile isAlpha)
  else some (.execute, s)

/-- The command that is executed for an input, `main`, shell.cpp l.300-331: none after an error and for the other directives. -/
def executed (σ : Vars) (s : List Nat) : Option Cmd :=
  (directive s).bind fun (d, r) => if d = .execute then command σ r else none

/-- The commands that are executed until the shell is exited, `main`, shell.cpp l.296-345. -/
def run (σ : Vars) : List (List Nat) → List Cmd
  | [] => []
  | s :: ss =>
    match executed σ s with
    | none => run σ ss
    | some c => c :: if c = .exit then [] else run (c.exec σ) ss

end Verif.Sh
