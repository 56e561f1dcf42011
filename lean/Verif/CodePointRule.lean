import Verif.UnicodeClass
import Verif.Literal
import Verif.Buffer

/-!
# `dsl::code_point` and `dsl::bom`

Source: /repo/include/lexy/dsl/code_point.hpp, /repo/include/lexy/dsl/bom.hpp, category groups of
/repo/include/lexy/code_point.hpp l.121-158.
-/

namespace Verif

open AsciiSet Udb

/-- The category groups, code_point.hpp l.149-156. -/
inductive CatGroup
  | LC | L | M | N | P | S | Z | C
  deriving DecidableEq, Repr

/-- Their categories, code_point.hpp l.149-156. -/
def CatGroup.cats : CatGroup → List Cat
  | .LC => [.Lu, .Ll, .Lt]
  | .L => [.Lu, .Ll, .Lt, .Lm, .Lo]
  | .M => [.Mn, .Mc, .Me]
  | .N => [.Nd, .Nl, .No]
  | .P => [.Pc, .Pd, .Ps, .Pe, .Pi, .Pf, .Po]
  | .S => [.Sm, .Sc, .Sk, .So]
  | .Z => [.Zs, .Zl, .Zp]
  | .C => [.Cc, .Cf, .Cs, .Co, .Cn]

/-- The rules made from `dsl::code_point`, dsl/code_point.hpp l.51-196. -/
inductive CpRule
  | any
  | if_ (p : Nat → Bool)
  | range (low high : Nat)
  | set (cps : List Nat)
  | ascii | bmp | noncharacter
  | category (c : Cat)
  | group (g : CatGroup)

/-- `Predicate{}(cp)`, dsl/code_point.hpp: `range` l.68-71, `set` l.87-90, `ascii` l.105-108, `bmp` l.122-125,
    `noncharacter` l.139-142, `general_category` l.158-170, `_group_pred` l.187-190 (comparison: code_point.hpp
    l.130-133).  For `any` it is `char_class_match_cp` without predicate, l.44-45. -/
def CpRule.pred : CpRule → Nat → Bool
  | .any, _ => true
  | .if_ p, cp => p cp
  | .range low high, cp => low ≤ cp && cp ≤ high
  | .set cps, cp => cps.any fun c => cp == c
  | .ascii, cp => cpIsAscii cp
  | .bmp, cp => cpIsBmp cp
  | .noncharacter, cp => cpIsNoncharacter cp
  | .category c, cp =>
    if c = .Cc then cpIsControl cp
    else if c = .Cs then cpIsSurrogate cp
    else if c = .Co then cpIsPrivateUse cp
    else dbIs c cp
  | .group g, cp => g.cats.any fun c => dbIs c cp

/-- `char_class_ascii`, dsl/code_point.hpp l.24-40. -/
def CpRule.asciiSet : CpRule → AsciiSet
  | .any => empty.insertRange 0x00 0x7F
  | r => (List.range' 0 0x80).foldl (fun s c => if r.pred c then s.insert c else s) empty

/-- The rule as character class, dsl/code_point.hpp l.14-48. -/
def CpRule.cc (r : CpRule) : CC := .leaf r.asciiSet (some r.pred)

/-- The `Encoding` argument of `bom`; `other` is any encoding without specialisation. -/
inductive BomArg
  | enc (k : BomEnc)
  | other
  deriving DecidableEq

/-- `_bom<Encoding, Endianness>`, bom.hpp l.13-39: the units of the literal.  `none` is
    `encoding_endianness::bom`. -/
def dslBom : BomArg → Option Endian → List Nat
  | .enc .utf8, _ => [0xEF, 0xBB, 0xBF]
  | .enc .utf8char, _ => [0xEF, 0xBB, 0xBF]
  | .enc .utf16, some .little => [0xFF, 0xFE]
  | .enc .utf16, some .big => [0xFE, 0xFF]
  | .enc .utf32, some .little => [0xFF, 0xFE, 0x00, 0x00]
  | .enc .utf32, some .big => [0x00, 0x00, 0xFE, 0xFF]
  | _, _ => []

end Verif
