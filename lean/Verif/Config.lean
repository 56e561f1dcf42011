import Verif.CodePoint
import Verif.Integer
import Verif.Email

/-
The config example: the description of a package.

Source: /repo/examples/config.cpp l.17-188

The rules of the example are written out as functions on the remaining input; each is cited.  The rules themselves are those of the
library: combinations (combination.hpp l.64-118), lists with terminator (list.hpp l.184-298), delimited content (delimited.hpp
l.100-420), integers (integer.hpp l.430-500).  Whitespace is skipped after every token of `config` and `author_list` (l.125), not
inside of `name`, `version` and the quotes.  `none` is an error: `main` returns 2 if there was one (l.186-187); what is printed after
an error that was recovered from is not modelled.  The input is UTF-8, whose EOF value is 0xFF.
-/

namespace Verif.Cfg

open Verif.Em (ws newline lit)

/-- `PackageVersion`, config.cpp l.18-23. -/
structure Version where
  major : Nat := 0
  minor : Nat := 0
  patch : Nat := 0
  deriving DecidableEq, Repr

/-- `PackageConfig`, config.cpp l.25-30. -/
structure Config where
  name : List Nat := []
  version : Version := {}
  authors : List (List Nat) := []
  deriving DecidableEq, Repr

/-- `dsl::ascii::alpha`, ascii.hpp l.179-201. -/
def isAlpha (c : Nat) : Bool := (65 ≤ c && c ≤ 90) || (97 ≤ c && c ≤ 122)

/-- `dsl::ascii::word`, ascii.hpp l.285-308. -/
def isWord (c : Nat) : Bool := isAlpha c || (48 ≤ c && c ≤ 57) || c == 95

/-- `dsl::ascii::space`, ascii.hpp l.97-124. -/
def isSpace (c : Nat) : Bool := c == 32 || (9 ≤ c && c ≤ 13)

/-- `dsl::ascii::control`, ascii.hpp l.16-42. -/
def isControl (c : Nat) : Bool := c < 32 || c == 127

/-- `name`, config.cpp l.36-57: an identifier, behind which there has to be white space. -/
def name : List Nat → Option (List Nat × List Nat)
  | [] => none
  | c :: s =>
    if isAlpha c then
      if (s.dropWhile isWord).head?.any isSpace then some (c :: s.takeWhile isWord, ws (s.dropWhile isWord)) else none
    else none

/-- `int`. -/
def int32 : IntTy := ⟨2147483647, false⟩

/-- `integer<int>`, config.cpp l.69. -/
def number (s : List Nat) : Option (Nat × List Nat) :=
  match matchDigits .decimal s with
  | (true, n) =>
    match boundedParse true (.plain int32) .decimal ((s.take n).map Int.ofNat) with
    | some (v, false) => some (v, s.drop n)
    | _ => none
  | (false, _) => none

/-- `dsl::period`, config.cpp l.70. -/
def period (s : List Nat) : Option (List Nat) := lit [46] s

/-- `unreleased`, config.cpp l.75. -/
def litUnreleased : List Nat := [117, 110, 114, 101, 108, 101, 97, 115, 101, 100]

/-- `version`, config.cpp l.59-83: without numbers, they are 0. -/
def version (s : List Nat) : Option (Version × List Nat) :=
  match lit litUnreleased s with
  | some r => some ({}, ws r)
  | none =>
    (number s).bind fun (a, s) => (period s).bind fun s =>
      (number s).bind fun (b, s) => (period s).bind fun s =>
        (number s).bind fun (c, s) => if s.head? = some 45 then none else some (⟨a, b, c⟩, ws s)

/-- `code_point_id<n>`, integer.hpp l.530-537. -/
def codePointId (n : Nat) (s : List Nat) : Option (Nat × List Nat) :=
  match nDigits .hex n s with
  | (true, k) =>
    match nDigitsParse true .codePoint n .hex ((s.take k).map Int.ofNat) with
    | some (v, false) => some (v, s.drop k)
    | _ => none
  | (false, _) => none

/-- The content of `quoted(cp, escape)` and the closing quote, config.cpp l.92-103: characters are appended by `as_string` as they are,
    code points are encoded (l.106). -/
def content : Nat → List Nat → Option (List Nat × List Nat)
  | 0, _ => none
  | _ + 1, [] => none
  | n + 1, c :: s =>
    if c = 34 then some ([], s)
    else if c = 255 then none
    else if c = 92 then
      if s.head? = some 117 then
        (codePointId 4 s.tail).bind fun (v, r) => (content n r).map fun (u, r) => (encodeUtf8 v ++ u, r)
      else if s.head? = some 85 then
        (codePointId 8 s.tail).bind fun (v, r) => (content n r).map fun (u, r) => (encodeUtf8 v ++ u, r)
      else none
    else if c < 128 then if isControl c then none else (content n s).map fun (u, r) => (c :: u, r)
    else if (parseUtf8 (c :: s)).error = .success then
      (content n ((c :: s).drop (parseUtf8 (c :: s)).len)).map fun (u, r) => ((c :: s).take (parseUtf8 (c :: s)).len ++ u, r)
    else none

/-- `author`, config.cpp l.85-107. -/
def author (s : List Nat) : Option (List Nat × List Nat) :=
  (lit [34] s).bind fun s => (content (s.length + 1) s).map fun (v, r) => (v, ws r)

/-- The list of `author_list` behind the opening bracket, config.cpp l.109-117. -/
def authors : Nat → List Nat → Option (List (List Nat) × List Nat)
  | 0, _ => none
  | n + 1, s =>
    (author s).bind fun (a, r) =>
      if r.head? = some 93 then some ([a], ws r.tail)
      else if r.head? = some 44 then (authors n (ws r.tail)).map fun (as, r) => (a :: as, r)
      else none

/-- `author_list`, config.cpp l.109-117. -/
def authorList (s : List Nat) : Option (List (List Nat) × List Nat) :=
  (lit [91] s).bind fun s => authors (s.length + 1) (ws s)

/-- The literals of the fields, config.cpp l.133-137. -/
def litName : List Nat := [110, 97, 109, 101]
def litVersion : List Nat := [118, 101, 114, 115, 105, 111, 110]
def litAuthors : List Nat := [97, 117, 116, 104, 111, 114, 115]

/-- The rest of `make_field`, config.cpp l.128-131, behind the name of the field. -/
def fieldRest {α : Type} (value : List Nat → Option (α × List Nat)) (set : α → Config → Config) (m : Config) (s : List Nat) :
    Option (Config × List Nat) :=
  (lit [61] (ws s)).bind fun s => (value (ws s)).bind fun (v, r) => (newline r).map fun r => (set v m, ws r)

/-- The choice of `combination`, config.cpp l.133-140: the index of the field that is read; none of them is an error. -/
def fieldChoice (m : Config) (s : List Nat) : Option (Nat × Config × List Nat) :=
  match lit litName s with
  | some s => (fieldRest name (fun v m => { m with name := v }) m s).map fun (m, s) => (0, m, s)
  | none =>
    match lit litVersion s with
    | some s => (fieldRest version (fun v m => { m with version := v }) m s).map fun (m, s) => (1, m, s)
    | none =>
      match lit litAuthors s with
      | some s => (fieldRest authorList (fun v m => { m with authors := v }) m s).map fun (m, s) => (2, m, s)
      | none => none

/-- `_comb::p::parse`, combination.hpp l.78-117: three fields; a field that has been read before is an error. -/
def fields : Nat → List Nat → Config → List Nat → Option (Config × List Nat)
  | 0, _, m, s => some (m, s)
  | n + 1, handled, m, s =>
    match fieldChoice m s with
    | none => none
    | some (i, m, s) => if handled.contains i then none else fields n (i :: handled) m s

/-- `config`, config.cpp l.119-148, and `main`, l.163-187. -/
def config (s : List Nat) : Option Config :=
  (fields 3 [] {} (ws s)).bind fun (m, r) => if peek8 r = 0xFF then some m else none

/-- `std::printf` with `%s` and `c_str()`. -/
def cstr (s : List Nat) : List Nat := s.takeWhile (· != 0)

/-- The decimal digits of a number below `10 ^ (k + 1)`. -/
def decGo : Nat → Nat → List Nat
  | 0, n => [48 + n % 10]
  | k + 1, n => if n < 10 then [48 + n] else decGo k (n / 10) ++ [48 + n % 10]

/-- `std::printf` with `%d`, for an `int` that is not negative. -/
def decimal (n : Nat) : List Nat := decGo 9 n

/-- What `main` prints, config.cpp l.173-184. -/
def output (m : Config) : List Nat :=
  [80, 97, 99, 107, 97, 103, 101, 32] ++ cstr m.name ++ [32, 40] ++ decimal m.version.major ++ [46] ++ decimal m.version.minor ++ [46]
    ++ decimal m.version.patch ++ [41, 10]
    ++ [67, 114, 101, 97, 116, 101, 100, 32, 98, 121, 58, 10] ++ m.authors.flatMap fun a => [45, 32, 34] ++ cstr a ++ [34]

end Verif.Cfg
