import Verif.Buffer

/-!
# Command line arguments

Models `include/lexy/input/argv_input.hpp`.  The arguments are the strings `argv[0]`, …,
`argv[argc - 1]` without their terminating NUL; `argv[argc]` is the null pointer.  A `char*` into
the arguments is the number of the string and the offset in it; the terminator can be read, what is
behind it cannot.  Pointers into different strings are different.
-/

namespace Verif

/-- `argv_iterator`, argv_input.hpp l.75-77. -/
structure ArgvIt where
  arg : Nat
  c : Option (Nat × Nat)
  deriving DecidableEq

namespace ArgvIt

variable (av : List (List Nat))

/-- Reading through a `char*`. -/
def chr (p : Nat × Nat) : Option Nat :=
  av[p.1]?.bind fun s => if p.2 = s.length then some 0 else s[p.2]?

/-- Reading `argv[a]`. -/
def ptr (a : Nat) : Option (Option (Nat × Nat)) :=
  if a < av.length then some (some (a, 0)) else if a = av.length then some none else none

/-- `deref`, l.28-31. -/
def deref (it : ArgvIt) : Option Nat := it.c.bind (chr av)

/-- `is_end`, l.66-71. -/
def isEnd (it : ArgvIt) : Option Bool :=
  match it.c with
  | none => some true
  | some p => (chr av p).bind fun ch => if ch = 0 then (ptr av (it.arg + 1)).map (·.isNone) else some false

/-- `increment`, l.33-46. -/
def increment (it : ArgvIt) : Option ArgvIt :=
  (isEnd av it).bind fun e =>
    if e then none
    else (deref av it).bind fun ch =>
      if ch = 0 then (ptr av (it.arg + 1)).map fun c => ⟨it.arg + 1, c⟩
      else it.c.map fun p => ⟨it.arg, some (p.1, p.2 + 1)⟩

/-- The loop looking for the NUL, l.55-56, starting at the beginning of `argv[i]`. -/
def findNul (i : Nat) : Option (Nat × Nat) := av[i]?.map fun s => (i, (s.takeWhile (· ≠ 0)).length)

/-- `decrement`, l.47-60. -/
def decrement (it : ArgvIt) : Option ArgvIt :=
  (ptr av it.arg).bind fun start =>
    if it.c = start then
      if it.arg = 0 then none
      else (findNul av (it.arg - 1)).map fun p => ⟨it.arg - 1, some p⟩
    else it.c.bind fun p => if p.2 = 0 then none else some ⟨it.arg, some (p.1, p.2 - 1)⟩

/-- `argv_begin`, l.84-91. -/
def begin : ArgvIt :=
  if av.length ≤ 1 then ⟨av.length, none⟩ else ⟨1, some (1, 0)⟩

/-- `argv_end`, l.94-108. -/
def fin : Option ArgvIt :=
  if av.length ≤ 1 then some ⟨av.length, none⟩ else decrement av ⟨av.length, none⟩

/-- `range_size`, iterator.hpp l.22-35, counting from `cur`; `fuel` bounds the number of steps. -/
def distance (to : ArgvIt) : Nat → ArgvIt → Option Nat
  | 0, _ => none
  | fuel + 1, cur =>
    if cur = to then some 0 else (increment av cur).bind fun cur => (distance to fuel cur).map (· + 1)

end ArgvIt

/-- The reader over the arguments: `_rr`, base.hpp l.15-68, on `argv_iterator`. -/
structure ArgvReader where
  cur : ArgvIt
  marks : List ArgvIt := []

/-- The number of characters the arguments can have in total, with one NUL each. -/
def argvFuel (av : List (List Nat)) : Nat := (av.map fun s => s.length + 1).sum + 1

/-- The observable value of an iterator is its distance from the beginning. -/
def ArgvIt.obs (av : List (List Nat)) (it : ArgvIt) : Option RObs :=
  (it.distance av (argvFuel av) (ArgvIt.begin av)).map .pos

/-- One operation of the reader, base.hpp l.36-66.  (`_rr` has no word-wise reads.) -/
def argvStep (e : BEnc) (av : List (List Nat)) (fin : ArgvIt) (r : ArgvReader) :
    ROp → Option (ArgvReader × RObs)
  | .peek =>
    if r.cur = fin then some (r, .char e.sentinel)
    else (r.cur.deref av).map fun c => (r, .char (some c))
  | .bump =>
    if r.cur = fin then none
    else (r.cur.increment av).bind fun it => (it.obs av).map fun o => ({r with cur := it}, o)
  | .mark => (r.cur.obs av).map fun o => ({r with marks := r.marks ++ [r.cur]}, o)
  | .reset i => r.marks[i]?.bind fun it => (it.obs av).map fun o => ({r with cur := it}, o)
  | .peekSwar | .bumpSwar | .bumpSwarN _ => none

def argvRun (e : BEnc) (av : List (List Nat)) (fin : ArgvIt) (r : ArgvReader) :
    List ROp → Option (List RObs)
  | [] => some []
  | op :: ops => (argvStep e av fin r op).bind fun (r, o) => (argvRun e av fin r ops).map (o :: ·)

/-- Reading `argv_input(argc, argv)`, l.128-137. -/
def readArgv (e : BEnc) (av : List (List Nat)) (ops : List ROp) : Option (List RObs) :=
  (ArgvIt.fin av).bind fun f => argvRun e av f {cur := ArgvIt.begin av} ops

/-- `_argvsep::tp::try_parse`, l.172-188: the position after the separator. -/
def argvSeparator (av : List (List Nat)) (fin cur : ArgvIt) : Option (Option ArgvIt) :=
  if cur = fin then some none
  else (cur.deref av).bind fun c => if c ≠ 0 then some none else (cur.increment av).map some

end Verif
