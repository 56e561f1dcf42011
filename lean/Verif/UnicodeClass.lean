import Verif.CharClass
import Verif.UnicodeDb

/-
Model of the predefined character classes.

Source: /repo/include/lexy/dsl/ascii.hpp l.15-480, /repo/include/lexy/dsl/unicode.hpp l.14-500

(The SWAR versions of the ASCII classes are in `AsciiSwar.lean`.)
-/

namespace Verif

open AsciiSet

/-- The classes of `lexyd::ascii`. -/
inductive AClass
  | control | blank | newline | otherSpace | space | lower | upper | alpha | alphau | digit | alnum | word
  | punct | graph | print | char
  deriving DecidableEq, Repr

/-- `_blank::char_class_ascii`, ascii.hpp l.52-58. -/
def asciiBlank : AsciiSet := (empty.insert 0x20).insert 0x09
/-- `_newline::char_class_ascii`, ascii.hpp l.69-75. -/
def asciiNewline : AsciiSet := (empty.insert 0x0A).insert 0x0D
/-- `_other_space::char_class_ascii`, ascii.hpp l.86-92. -/
def asciiOtherSpace : AsciiSet := (empty.insert 0x0C).insert 0x0B
/-- `_alpha::char_class_ascii`, ascii.hpp l.186-192. -/
def asciiAlpha : AsciiSet := (empty.insertRange 0x61 0x7A).insertRange 0x41 0x5A
/-- `_alphau::char_class_ascii`, ascii.hpp l.210-217. -/
def asciiAlphau : AsciiSet := ((empty.insertRange 0x61 0x7A).insertRange 0x41 0x5A).insert 0x5F
/-- `_digit::char_class_ascii`, ascii.hpp l.236-241. -/
def asciiDigit : AsciiSet := empty.insertRange 0x30 0x39

/-- `char_class_ascii` of these classes, ascii.hpp. -/
def AClass.set : AClass → AsciiSet
  | .control => (empty.insertRange 0x00 0x1F).insert 0x7F
  | .blank => asciiBlank
  | .newline => asciiNewline
  | .otherSpace => asciiOtherSpace
  | .space => ((empty.insertSet asciiBlank).insertSet asciiNewline).insertSet asciiOtherSpace
  | .lower => empty.insertRange 0x61 0x7A
  | .upper => empty.insertRange 0x41 0x5A
  | .alpha => asciiAlpha
  | .alphau => asciiAlphau
  | .digit => asciiDigit
  | .alnum => (empty.insertSet asciiAlpha).insertSet asciiDigit
  | .word => (empty.insertSet asciiAlphau).insertSet asciiDigit
  | .punct => "!\"#$%&'()*+,-./:;<=>?@[\\]^_`{|}~".toList.foldl (fun s c => s.insert c.toNat) empty
  | .graph => empty.insertRange 0x21 0x7E
  | .print => empty.insertRange 0x20 0x7E
  | .char => empty.insertRange 0x00 0x7F

/-- The classes of `lexyd::ascii` as class rules. -/
def AClass.cc (a : AClass) : CC := .leaf a.set none

/-- The classes of `lexyd::unicode`. -/
inductive UClass
  | nctrl | control | blank | newline | otherSpace | space | lower | upper | alpha | digit | alnum | word
  | graph | print | char | xidStart | xidStartUnderscore | xidContinue
  deriving DecidableEq, Repr

/-- `char_class_ascii`, unicode.hpp: the class of `lexyd::ascii` it is taken from. -/
def UClass.ascii : UClass → AClass
  | .nctrl => .print | .control => .control | .blank => .blank | .newline => .newline | .otherSpace => .otherSpace
  | .space => .space | .lower => .lower | .upper => .upper | .alpha => .alpha | .digit => .digit | .alnum => .alnum
  | .word => .word | .graph => .graph | .print => .print | .char => .char | .xidStart => .alpha
  | .xidStartUnderscore => .alphau | .xidContinue => .word

open Udb

/-- A lookup in the database.  Looking up something outside of the tables does not happen for valid code points
    (C70), here it would be treated as false. -/
def dbHas (ps : List BinProp) (cp : Nat) : Bool := (hasProperties ps cp).getD false
def dbIs (c : Cat) (cp : Nat) : Bool := generalCategory cp == some c

/-- `char_class_match_cp`, unicode.hpp. -/
def UClass.matchCp : UClass → Option (Nat → Bool)
  | .nctrl => some fun cp => !cpIsControl cp
  | .control => some cpIsControl
  | .blank => some (dbIs .Zs)
  | .newline => some fun cp => cp == 0x85 || cp == 0x2029 || cp == 0x2028
  | .otherSpace => none
  | .space => some (dbHas [.whitespace])
  | .lower => some (dbHas [.lowercase])
  | .upper => some (dbHas [.uppercase])
  | .alpha => some (dbHas [.alphabetic])
  | .digit => some (dbIs .Nd)
  | .alnum => some fun cp => dbHas [.alphabetic] cp || dbIs .Nd cp
  | .word => some fun cp =>
      if (dbIs .Mn cp || dbIs .Mc cp || dbIs .Me cp) || dbIs .Pc cp || dbIs .Nd cp then true
      else dbHas [.alphabetic, .joinControl] cp
  | .graph => some fun cp => !cpIsControl cp && !cpIsSurrogate cp && !dbIs .Cn cp && !dbHas [.whitespace] cp
  | .print => some fun cp => !cpIsControl cp
      && (dbIs .Zs cp || (!cpIsControl cp && !cpIsSurrogate cp && !dbIs .Cn cp && !dbHas [.whitespace] cp))
  | .char => some fun cp => !dbIs .Cn cp
  | .xidStart => some (dbHas [.xidStart])
  | .xidStartUnderscore => some (dbHas [.xidStart])
  | .xidContinue => some (dbHas [.xidContinue])

/-- The classes of `lexyd::unicode` as class rules. -/
def UClass.cc (u : UClass) : CC := .leaf u.ascii.set u.matchCp

end Verif
