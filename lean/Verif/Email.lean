/-
The email example: a subset of RFC 5322.

Source: /repo/examples/email.cpp l.24-233

The rules of the example are written out as functions on the remaining input; each is cited.  The rules themselves are those of the
library: identifiers (identifier.hpp l.86-160), lists (list.hpp l.36-168), choices (choice.hpp l.19-130), delimited content
(delimited.hpp l.100-330), `peek` (peek.hpp l.20-68) and partial combinations (combination.hpp l.64-118).  The grammar has no automatic
whitespace.  `none` is an error: `main` returns 2 if there was one (l.227-228); what happens after it is not modelled.  The input
consists of ASCII characters (l.217), so that EOF (0xFF) does not occur in it.
-/

namespace Verif.Em

/-- `address`, email.cpp l.25-38. -/
structure Addr where
  name : Option (List Nat)
  loc : List Nat
  dom : List Nat
  deriving DecidableEq, Repr

/-- `message`, email.cpp l.40-67. -/
structure Msg where
  sender : List Addr := []
  to : List Addr := []
  cc : List Addr := []
  subject : List Nat := []
  body : List Nat := []
  deriving DecidableEq, Repr

/-- `dsl::ascii::blank`, ascii.hpp l.45-60. -/
def isBlank (c : Nat) : Bool := c == 32 || c == 9

/-- `dsl::ascii::print`, ascii.hpp l.405-431. -/
def isPrint (c : Nat) : Bool := 32 ≤ c && c ≤ 126

/-- `atext`, email.cpp l.81-87. -/
def isAtext (c : Nat) : Bool :=
  (65 ≤ c && c ≤ 90) || (97 ≤ c && c ≤ 122) || (48 ≤ c && c ≤ 57) || c == 33 || c == 35 || c == 36 || c == 37 || c == 38 || c == 39
    || c == 42 || c == 43 || c == 45 || c == 47 || c == 61 || c == 63 || c == 94 || c == 95 || c == 96 || c == 123 || c == 124
    || c == 125

/-- `ws`, email.cpp l.78. -/
def ws (s : List Nat) : List Nat := s.dropWhile isBlank

/-- `atom`, email.cpp l.92: the lexeme of the identifier; whitespace is skipped. -/
def atom (s : List Nat) : Option (List Nat × List Nat) :=
  if s.takeWhile isAtext = [] then none else some (s.takeWhile isAtext, ws (s.dropWhile isAtext))

/-- `dot_atom`, email.cpp l.94-100: a list of atoms separated by periods, which are captured; all are appended by `as_string`. -/
def dotAtom : Nat → List Nat → Option (List Nat × List Nat)
  | 0, _ => none
  | n + 1, s =>
    (atom s).bind fun (a, r) =>
      if r.head? = some 46 then (dotAtom n (ws r.tail)).map fun (v, r) => (a ++ [46] ++ v, r) else some (a, r)

/-- The content of `quoted(print, escape)` up to the closing delimiter, email.cpp l.106-110: a backslash is an escape sequence,
    which is replaced by the printable character behind it. -/
def qtext : List Nat → Option (List Nat × List Nat)
  | [] => none
  | [c] => if c = 34 then some ([], []) else none
  | c :: d :: s =>
    if c = 34 then some ([], d :: s)
    else if c = 92 then if isPrint d then (qtext s).map fun (v, r) => (d :: v, r) else none
    else if isPrint c then (qtext (d :: s)).map fun (v, r) => (c :: v, r)
    else none

/-- `quoted_string`, email.cpp l.103-113, if the opening quote has been read. -/
def quoted (s : List Nat) : Option (List Nat × List Nat) := (qtext s).map fun (v, r) => (v, ws r)

/-- `word`, email.cpp l.117. -/
def word (s : List Nat) : Option (List Nat × List Nat) :=
  if s.head? = some 34 then quoted s.tail else atom s

/-- The condition of `phrase`, email.cpp l.122: `peek(atext / LEXY_LIT("\""))`. -/
def startsWord (s : List Nat) : Bool :=
  match s.head? with
  | some c => isAtext c || c == 34
  | none => false

/-- `phrase`, email.cpp l.119-124, if its condition holds: the words are appended by `as_string`. -/
def phrase : Nat → List Nat → Option (List Nat × List Nat)
  | 0, _ => none
  | n + 1, s =>
    (word s).bind fun (v, r) =>
      if startsWord r then (phrase n r).map fun (v', r) => (v ++ v', r) else some (v, r)

/-- `opt(p<phrase>)`, email.cpp l.144 and l.148. -/
def optPhrase (s : List Nat) : Option (Option (List Nat) × List Nat) :=
  if startsWord s then (phrase (s.length + 1) s).map fun (v, r) => (some v, r) else some (none, s)

/-- `local_part`, email.cpp l.132. -/
def localPart (s : List Nat) : Option (List Nat × List Nat) :=
  if s.head? = some 34 then quoted s.tail else dotAtom (s.length + 1) s

/-- `addr_spec`, email.cpp l.133-137. -/
def addrSpec (s : List Nat) : Option ((List Nat × List Nat) × List Nat) :=
  (localPart s).bind fun (l, r) =>
    if r.head? = some 64 then (dotAtom (r.length + 1) (ws r.tail)).map fun (d, r) => ((l, d), r) else none

/-- `address`, email.cpp l.128-157.  `peek` parses the condition `opt(p<phrase>) + LEXY_LIT("<")` and does not consume it.  If there is
    an error in the phrase, there is one in both branches: the first one parses the phrase again, the second one parses its first word,
    behind which there is the next word and not an at sign. -/
def address (s : List Nat) : Option (Addr × List Nat) :=
  (optPhrase (ws s)).bind fun (name, r) =>
    if r.head? = some 60 then
      -- `name_addr`, l.141-144
      (addrSpec (ws r.tail)).bind fun ((l, d), r) => if r.head? = some 62 then some (⟨name, l, d⟩, r.tail) else none
    else
      -- `unnamed_addr`, l.151
      (addrSpec (ws s)).map fun ((l, d), r) => (⟨none, l, d⟩, r)

/-- `address_list`, email.cpp l.159-163. -/
def addressList : Nat → List Nat → Option (List Addr × List Nat)
  | 0, _ => none
  | n + 1, s =>
    (address s).bind fun (a, r) =>
      if r.head? = some 44 then (addressList n r.tail).map fun (as, r) => (a :: as, r) else some ([a], r)

/-- `unstructured`, email.cpp l.166-170. -/
def unstructured (s : List Nat) : List Nat × List Nat := (s.takeWhile isPrint, s.dropWhile isPrint)

/-- `dsl::newline`, newline.hpp l.24-70. -/
def newline : List Nat → Option (List Nat)
  | 10 :: s => some s
  | 13 :: 10 :: s => some s
  | _ => none

/-- A literal, literal.hpp l.166-225. -/
def lit : List Nat → List Nat → Option (List Nat)
  | [], s => some s
  | _ :: _, [] => none
  | c :: cs, d :: s => if c = d then lit cs s else none

/-- The literals of the fields, email.cpp l.184-187. -/
def litFrom : List Nat := [70, 114, 111, 109, 58]
def litTo : List Nat := [84, 111, 58]
def litCc : List Nat := [67, 99, 58]
def litSubject : List Nat := [83, 117, 98, 106, 101, 99, 116, 58]

/-- A field with addresses, email.cpp l.184-186. -/
def addressField (set : List Addr → Msg → Msg) (m : Msg) (s : List Nat) : Option (Msg × List Nat) :=
  (addressList (s.length + 1) s).bind fun (as, r) => (newline r).map fun r => (set as m, r)

/-- The choice of `partial_combination`, email.cpp l.184-195: the index of the field that is read, or `break`. -/
def fieldChoice (m : Msg) (s : List Nat) : Option (Option (Nat × Msg × List Nat)) :=
  match lit litFrom s with
  | some s => (addressField (fun as m => { m with sender := as }) m s).map fun (m, s) => some (0, m, s)
  | none =>
    match lit litTo s with
    | some s => (addressField (fun as m => { m with to := as }) m s).map fun (m, s) => some (1, m, s)
    | none =>
      match lit litCc s with
      | some s => (addressField (fun as m => { m with cc := as }) m s).map fun (m, s) => some (2, m, s)
      | none =>
        match lit litSubject s with
        | some s => (newline (unstructured s).2).map fun r => some (3, { m with subject := (unstructured s).1 }, r)
        | none => some none

/-- `_comb::p::parse`, combination.hpp l.78-117: at most four fields; a field that has been read before is an error. -/
def fields : Nat → List Nat → Msg → List Nat → Option (Msg × List Nat)
  | 0, _, m, s => some (m, s)
  | n + 1, handled, m, s =>
    match fieldChoice m s with
    | none => none
    | some none => some (m, s)
    | some (some (i, m, s)) => if handled.contains i then none else fields n (i :: handled) m s

/-- `message`, email.cpp l.200-206: the fields, an empty line and the body. -/
def message (s : List Nat) : Option Msg :=
  (fields 4 [] {} s).bind fun (m, r) => (newline r).map fun r => { m with body := r }

end Verif.Em
