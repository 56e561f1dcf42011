import Verif.CodePoint

/-
Model of the Unicode database of lexy (Unicode 15.0.0) and of what is looked up in it.

Source: /repo/include/lexy/_detail/unicode_database.hpp (generated tables, l.8-83),
        /repo/include/lexy/code_point.hpp l.253-296

The tables were transcribed by a script from the string literals and arrays of that file.
Representation: `block_starts` and `blocks` are strings of bytes; 256 bytes each are packed into one number
here, the first byte in the lowest eight bits.  `none` = an access outside of a table (the strings are followed
by one zero byte, which is not counted), or a violated precondition.
-/

namespace Verif.Udb

/-- `general_category_t`, code_point.hpp l.76-158 (the short names; not in the order of the C++ enum, whose
    values are not used). -/
inductive Cat
  | Lu | Ll | Lt | Lm | Lo | Mn | Mc | Me | Nd | Nl | No | Pc | Pd | Ps | Pe | Pi | Pf | Po | Sm | Sc | Sk | So | Zs | Zl | Zp | Cc | Cf | Cs | Co | Cn
  deriving DecidableEq, Repr

/-- The i-th byte of a packed row. -/
def byteOf (row i : Nat) : Nat := (row >>> (8 * i)) % 256

/-- `block_starts`, unicode_database.hpp l.8-24, in rows of 256 bytes. -/
def blockStartRows : List Nat := [
  0x4241403f3e3d113c3c3c3c3c3c3c3c3c3c3c3c3c3c3c3c3c3c3c3c3c3c3c3c3c3b3b3b3b3b3b3b3b3a1111111111111111111111111111111111111111111111111111111111111111111111111111111111111139383736353411331111113211111111111111111111111111111111111111111111111111111111111111111111111111111111111111111111111111111111111111111111111111111111111111111111111111111111111111111111311111111111111111111111111111111111111111111111111127302f2e2d2c2b2a29212827262524232221201f1e1d1c1b1a19181716151114131211100f0e0d0c0b0a09080706050403020100,
  0x656565659190278f8e8d27278c8b8a896588878665658584836565826581807f7e656565657d27277c7b7a79787776757465656565656565656565656565656565656573656565656565656565727111706565656565656565656565656565656565656565656565656565656565656565656f6e111111116d11111111111111111111111111111111111111111111116c6b65656a69111165656565656565656565656565656565656565656565656565656565656565656568111165656565656565656565656565656567111111116665656565656565656564636211111161605f5e5d5c5b5a595857565554535251504f4e4d4c4b4a4911484746454443,
  0x65656565659711116565656565656565656565659611111111111111111111111111111111111111111111111111111111951111111111111111111111111111111111111111119493111111111111111111111111111111119211111111111111111111111111111111111111111111111111111111111111111111111111111111111111111111111111111111111111111111111111111111111111111111111111111111111111111111111111111111111111111111111111111111111111111111111111111111111111111111111111111111111111111111111111111111111111111111111111111111111111111111111111111111111111111111,
  0x65656565656565656565656565656565656565656565656565656565656565656565656565656565656565656565656565656565656565656565656565656565656565656565656565656565656565656565656565656565656565656565656565656565656565656565656565656565656565656565656565656565656565656565656565656565656565656565656565656565656565656565656565656565656565656565656565656565656565656565656565656565656565656565656565656565656565656565656565656565656565656565656565656565991111111111111111111111111111119811111111111111111111111111111111111111,
  0x65656565656565656565656565656565656565656565656565656565656565656565656565656565656565656565656565656565656565656565656565656565656565656565656565656565656565656565656565656565656565656565656565656565656565656565656565656565656565656565656565656565656565656565656565656565656565656565656565656565656565656565656565656565656565656565656565656565656565656565656565656565656565656565656565656565656565656565656565656565656565656565656565656565656565656565656565656565656565656565656565656565656565656565656565656565,
  0x65656565656565656565656565656565656565656565656565656565656565656565656565656565656565656565656565656565656565656565656565656565656565656565656565656565656565656565656565656565656565656565656565656565656565656565656565656565656565656565656565656565656565656565656565656565656565656565656565656565656565656565656565656565656565656565656565656565656565656565656565656565656565656565656565656565656565656565656565656565656565656565656565656565656565656565656565656565656565656565656565656565656565656565656565656565,
  0x65656565656565656565656565656565656565656565656565656565656565656565656565656565656565656565656565656565656565656565656565656565656565656565656565656565656565656565656565656565656565656565656565656565656565656565656565656565656565656565656565656565656565656565656565656565656565656565656565656565656565656565656565656565656565656565656565656565656565656565656565656565656565656565656565656565656565656565656565656565656565656565656565656565656565656565656565656565656565656565656565656565656565656565656565656565,
  0x65656565656565656565656565656565656565656565656565656565656565656565656565656565656565656565656565656565656565656565656565656565656565656565656565656565656565656565656565656565656565656565656565656565656565656565656565656565656565656565656565656565656565656565656565656565656565656565656565656565656565656565656565656565656565656565656565656565656565656565656565656565656565656565656565656565656565656565656565656565656565656565656565656565656565656565656565656565656565656565656565656565656565656565656565656565,
  0x65656565656565656565656565656565656565656565656565656565656565656565656565656565656565656565656565656565656565656565656565656565656565656565656565656565656565656565656565656565656565656565656565656565656565656565656565656565656565656565656565656565656565656565656565656565656565656565656565656565656565656565656565656565656565656565656565656565656565656565656565656565656565656565656565656565656565656565656565656565656565656565656565656565656565656565656565656565656565656565656565656565656565656565656565656565,
  0x65656565656565656565656565656565656565656565656565656565656565656565656565656565656565656565656565656565656565656565656565656565656565656565656565656565656565656565656565656565656565656565656565656565656565656565656565656565656565656565656565656565656565656565656565656565656565656565656565656565656565656565656565656565656565656565656565656565656565656565656565656565656565656565656565656565656565656565656565656565656565656565656565656565656565656565656565656565656565656565656565656565656565656565656565656565,
  0x65656565656565656565656565656565656565656565656565656565656565656565656565656565656565656565656565656565656565656565656565656565656565656565656565656565656565656565656565656565656565656565656565656565656565656565656565656565656565656565656565656565656565656565656565656565656565656565656565656565656565656565656565656565656565656565656565656565656565656565656565656565656565656565656565656565656565656565656565656565656565656565656565656565656565656565656565656565656565656565656565656565656565656565656565656565,
  0x65656565656565656565656565656565656565656565656565656565656565656565656565656565656565656565656565656565656565656565656565656565656565656565656565656565656565656565656565656565656565656565656565656565656565656565656565656565656565656565656565656565656565656565656565656565656565656565656565656565656565656565656565656565656565656565656565656565656565656565656565656565656565656565656565656565656565656565656565656565656565656565656565656565656565656565656565656565656565656565656565656565656565656565656565656565,
  0x65656565656565656565656565656565656565656565656565656565656565656565656565656565656565656565656565656565656565656565656565656565656565656565656565656565656565656565656565656565656565656565656565656565656565656565656565656565656565656565656565656565656565656565656565656565656565656565656565656565656565656565656565656565656565656565656565656565656565656565656565656565656565656565656565656565656565656565656565656565656565656565656565656565656565656565656565656565656565656565656565656565656565656565656565656565,
  0x65656565656565656565656565656565656565656565656565656565656565656565656565656565656565656565656565656565656565656565656565656565656565656565656565656565656565656565656565656565656565656565656565656565656565656565656565656565656565656565656565656565656565656565656565656565656565656565656565656565656565656565656565656565656565656565656565656565656565656565656565656565656565656565656565656565656565656565656565656565656565656565656565656565656565656565656565656565656565656565656565656565656565656565656565656565,
  0x65656565656565656565656565656565656565656565656565656565656565656565656565656565656565656565656565656565656565656565656565656565656565656565656565656565656565656565656565656565656565656565656565656565656565656565656565656565656565656565656565656565656565656565656565656565656565656565656565656565656565656565656565656565656565656565656565656565656565656565656565656565656565656565656565656565656565656565656565656565656565656565656565656565656565656565656565656565656565656565656565656565656565656565656565659b9a,
  0x9c3c3c3c3c3c3c3c3c3c3c3c3c3c3c3c3c3c3c3c3c3c3c3c3c3c3c3c3c3c3c3c3c3c3c3c3c3c3c3c3c3c3c3c3c3c3c3c3c3c3c3c3c3c3c3c3c3c3c3c3c3c3c3c3c3c3c3c3c3c3c3c3c3c3c3c3c3c3c3c3c3c3c3c3c3c3c3c3c3c3c3c3c3c3c3c3c3c3c3c3c3c3c3c3c3c3c3c3c3c3c3c3c3c3c3c3c3c3c3c3c3c3c3c3c3c3c3c3c3c3c3c3c3c3c3c3c3c3c3c3c3c3c3c3c3c3c3c3c3c3c3c3c3c3c3c3c3c3c3c3c3c3c3c3c3c3c3c3c3c3c3c3c3c3c3c3c3c3c3c3c3c3c3c3c3c3c3c3c3c3c3c3c3c3c3c3c3c3c3c3c3c3c3c3c3c3c3c3c3c3c3c3c3c3c3c3c3c3c3c3c3c3c3c3c3c3c3c3c3c3c3c3c3c3c3c3c3c3c3c3c3c3c3c3c3c3c3c3c3c3c3c3c3c3c3c,
  0x9c3c3c3c3c3c3c3c3c3c3c3c3c3c3c3c3c3c3c3c3c3c3c3c3c3c3c3c3c3c3c3c3c3c3c3c3c3c3c3c3c3c3c3c3c3c3c3c3c3c3c3c3c3c3c3c3c3c3c3c3c3c3c3c3c3c3c3c3c3c3c3c3c3c3c3c3c3c3c3c3c3c3c3c3c3c3c3c3c3c3c3c3c3c3c3c3c3c3c3c3c3c3c3c3c3c3c3c3c3c3c3c3c3c3c3c3c3c3c3c3c3c3c3c3c3c3c3c3c3c3c3c3c3c3c3c3c3c3c3c3c3c3c3c3c3c3c3c3c3c3c3c3c3c3c3c3c3c3c3c3c3c3c3c3c3c3c3c3c3c3c3c3c3c3c3c3c3c3c3c3c3c3c3c3c3c3c3c3c3c3c3c3c3c3c3c3c3c3c3c3c3c3c3c3c3c3c3c3c3c3c3c3c3c3c3c3c3c3c3c3c3c3c3c3c3c3c3c3c3c3c3c3c3c3c3c3c3c3c3c3c3c3c3c3c3c3c3c3c3c3c3c3c3c3c3c]

/-- `blocks`, unicode_database.hpp, in rows of 256 bytes. -/
def blockRows : List Nat := [
  0xd0d0d0d0d0d0d0d070d0d0d0d0d0d0d0d0d0d0d0d0d0d0d0d0d0d0d0d0d0d0d0d0a0a0a0a0a0a0a070a0a0a0a0a0a0a0a0a0a0a0a0a0a0a0a0a0a0a0a0a0a0a03121212150f120b1403130b1212070e0b0e1107100f0e0b030e040404040302000000000000000000000000000000000000000000000000000001000000000000070607050d0d0d0d0d0d0d0d0d0d0d0d0d0d0d0d0d0d0d0d0d0d0d0d0d0d0b0c0b0603050a0a0a0a0a0a0a0a0a0a0a0a0a0a0a0a0a0a0a0a0a0a0a0a0a0a0303070707030309090909090909090909030308030703060503030304030303020000000000000000000000000000000000000101010101000000000000000000,
  0xd160d160d160d162c2b0d160d2a290d0d160d160d160d160d160d160d160d160d160d0d160d160d160d160d160d160d160d160d2a290d2a290d2a29282828280d0d0d16280d0d16270d160d1626260d16250d160d0d250d16250d160d160d16240d23210d0d0d1622210d201c0d161f1e1d0d0d161c1c0d161b0d160d161a0d190d160d160d16180d160d160d160d160d160d160d160d160d160d160d160d160d160d160d160d160d160d160d160d160d160d160d160d0d160d160d160d160d160d160d160d160d0d160d160d160d170d160d160d160d160d160d160d160d160d160d160d160d160d160d160d160d160d160d160d160d160d160d160d160d16,
  0xb0b0b0b0b0b0b0b0b0b0b0b0b0b0b0b0b350b350b0b0b0b0b0b0b34343434340b0b0b0b0b0b0b0b0b0b0b0b0b0b3535353535353535353535350b0b0b0b3434353535353535353434343434343434340d0d0d0d0d0d0d0d0d0d0d0d0d0d0d0d0d0d0d0d0d0d0d0d0d0d0d280d0d0d0d0d0d0d0d0d0d0d0d0d0d0d0d0d0d0d0d0d0d0d0d0d0d0d0d0d0d0d0d0d0d0d0d0d0d0d0d0d0d0d0d0d0d0d0d0d0d0d0d0d0d0d0d0d0d0d0d0d0d0d0d0d0d0d0d0d160d160d160d160d163332310d160d0d302f0d162e0d0d0d0d0d0d0d160d160d160d160d160d160d160d160d160d2d0d160d160d160d160d160d160d160d160d160d160d160d160d160d160d160d16,
  0x2d2d2d0d0d16490d160748470d0d46450d160d160d160d160d160d160d160d160d160d160d160d160d44431717174241400d0d0d0d0d0d0d0d0d0d0d0d3f0d0d0d0d0d0d0d0d0d0d0d0d0d0d0d0d0d0d0d0d0d0d0a0a0a0a0a0a0a0a0a380a0a0a0a0a0a0a0a0a0a0a0a0a0a0a0a0a0d3e3e383d383c3c3c143b0b0b383838383a030d0d0d3938380d160b350d160d1636363636363636363636363636363636363636363636363636363636363636363636363636363636363637363636363636363636363636363636363636363636363636363636363636363636363636363636363636363636363636363636363636363636363636363636363636363636,
  0xd160d160d160d160d160d160d160d160d160d160d160d160d160d160d160d160d160d160d160d160d160d160d160d160d0d160d160d160d160d160d160d164c0d160d160d160d160d160d160d160d160d160d160d160d160d160d160d160d160d160d160d160d160d160d160d160d160d160d160d164b4b36363636360e0d160d160d160d160d160d160d160d160d160d160d160d160d160d160d160d160d160d0d0d0d0d0d0d0d0d0d0d0d0d0d0d0d0d0d0d0d0d0d0d0d0d0d0d0d0d0d0d0d0d0d0d0d0d0d0d0d0d0d0d0d0d0d0d0d0a0a0a0a0a0a0a0a0a0a0a0a0a0a0a0a0a0a0a0a0a0a0a0a0a0a0a0a0a0a0a0a4a4a4a4a4a4a4a4a4a4a4a4a4a4a4a4a,
  0x38383838383838383838380303282828283838383828282828282828282828282828282828282828282828282828282838383838383838384e034e4e034e4e034e084e4e4e4e4e4e4e4e4e4e4e4e4e4e3636363636363636363636363636363636363636363636363636363636363638040e0e383808030d0d0d0d0d0d0d0d0d0d0d0d0d0d0d0d0d0d0d0d0d0d0d0d0d0d0d0d0d0d0d0d0d0d0d0d0d0d0d0d0d0303030303033538384d4d4d4d4d4d4d4d4d4d4d4d4d4d4d4d4d4d4d4d4d4d4d4d4d4d4d4d4d4d4d4d4d4d4d4d4d4d380d160d160d160d160d160d160d160d160d160d160d160d160d160d160d160d160d160d160d160d160d160d160d160d16,
  0x280e0e2828280909090909090909090928284e3636360e4e4e35354e4e4e4e36360e114e4e4e4e4e4e4e28032828282828282828282828282828282828282828282828282828282828282828282828282828282828282828282828282828282828282828282828282828282828282828282828282828282828282828282828282828282828282828282828282828284e282803030303090909090909090909094e4e4e4e4e4e4e364e4e4e4e4e4e4e4e4e4e4e4e4e2828282828282828282835282828282828282828282828282828282828282828282828282828282828282803030311034e4e4e4e4e4e4e4e4e4e4e0e0e0303040303070707111111111111,
  0x404363838350303030e3535363636363636363636282828282828282828282828282828282828282828282828282828282828282828090909090909090909093838383838383838383838383838284e4e4e4e4e4e4e4e4e4e4e2828282828282828282828282828282828282828282828282828282828282828282828282828282828282828282828282828282828282828282828282828282828282828282828282828282828282828282828282828282828383836363636363636363636364e4e4e4e4e4e4e4e4e4e4e4e4e4e4e4e2828282828282828282828282828282828282828282828282828282828284e2811380303030303030303030303030303,
  0x4e4e4e4e4e4e4e4e4e4e4e4e4e4e4e4e3636363636364e4e4e4e4e4e4e1136364e4e4e4e4e4e4e4e4e4e4e4e3636363636363636363635282828282828282828282828282828282828282828282828282828282828282828282828282828282836363636363636363838383838381111382828282828280b282828282828282828282828282828282828282828282828383838383828282828282828282828283803383836363628282828282828282828282828282828282828282828282828380303030303030303030303030303033838364e4e4e4e354e4e4e354e4e4e4e4e4e4e4e4e3536364e4e28282828282828282828282828282828282828282828,
  0x38360328040e121212121212040428280909090909090909090938384e4e282828382828383838384f383838383838383828364f4f38384f4f38384e4e4e4e4f4f4f283638382828282838383828382828282828282838282828282828282828282828282828282828282828283838282838382828282828282828384f4f4e28282828282828282828282828282835030909090909090909090903034e4e282828282828282828284e4e4e36363636284f4f364f4f4f4f4e4e4e4e4e4e4e4e4f4f4f28364f4e2828282828282828282828282828282828282828282828282828282828282828282828282828282828282828282828282828282828284f4e4e4e,
  0x3636364e4e4e283838383838383804030909090909090909090938384e4e2828383838383838383838383838383838283838364f4f384f4e4e384e4e4e4e4e4f4f4f283638382828282828382828382828282828282838282828282828282828282828282828282828282828283828282838282828282828282828384f4e4e38383838383838383838034e2828284e4e0909090909090909090938383838383838283828282828383838383838384e383838364e4e38384e4e383838384e4e4f4f4f383638382828382828382828382828282828282838282828282828282828282828282828282828282828283838282838383838282828282828384f4e4e38,
  0x38383838380e040e0e0e0e0e0e1212120909090909090909090938383838383838383838383838384f383838383838283838364f4f4f384f4f4f3838384f4f4e4f4f38383838282828282828282828282828383838282828383838282838383828283828382828383838282828283828282838383828282828282838284e38383838383838383838121212121212280e0909090909090909090938384e4e282828382828383838384f4e3638383838383838364f4f38384f4f38384e4e4e4e4f4e4f283638382828282828382828382828282828282838282828282828282828282828282828282828282828283838282838382828282828282828384f4f4e38,
  0x3838383838383838383838384f2828380909090909090909090938384e4e28283828283838383838384f4f38383838383838364e4f4f384f4f4e384f4f4f4f4f4e4f283638382828282828382828282828282828282838282828282828282828282828282828282828282828282838282828382828282828282828034f4f4e280e1212121212121203383838383838380909090909090909090938384e4e28283838283838282828384e4e38383838383838364e4e4e384e4e4e384f4f4f4f4e4e4e2836383828282828282828282828282828282828382828282828282828282828282828282828282828282828382828283828282828282828284e4f4f4f4e,
  0x3838383838383838383838034f4f3838090909090909090909093838383838384f4f4f4f4f4f4f4f384e384e4e4e4f4f4f3838383836383838282828282828283838283828282828282828282838282828282828282828282828282828282828282828282828383838282828282828282828282828282828282828384f4f4e382828282828280e1212121212121212120909090909090909090938384e4e282828121212121212124f282828383838380e28364f4f4f384f4f4f384e4e4e4e4f4f4f283636282828282828282828282828282828282828282828282828282828282828282828282828282828282838282828382828282828282828284f4f4e4e,
  0x38383838383838383838383838383838383838383838383838383838383838382828282838380909090909090909090938364e363636363638353828282828283838284e4e364e4e4e4e4e4e50284e2828282828282828282838283828282828282828282828282828282828282828282828282838282828282838283828283838383838383838383838383838383838383838383838383838383838383838383838383803030909090909090909090903364e3636363636363528282828282804383838384e4e4e4e4e4e4e50284e28282828282828282828282828282828282828282828282828282828282828282828282828282828282828282828282838,
  0x3838383838383838383838383838383838383838383838383838383838383838383838383803030e0e0e0e03030303030e0e380e0e0e0e0e0e360e0e0e0e0e0e0e0e384e4e4e4e4e4e4e4e4e4e4e4e4e4e4e4e4e4e4e4e4e4e4e4e4e4e4e4e4e4e4e4e4e4e4e4e384e4e4e4e4e4e4e4e4e4e4e2828282828363603364e4e4e4e4f4e4e4e4e4e4e4e4e4e4e4e4e4e4e38383838282828282828282828282828282828282828282828282828282828282828282828282828382828282828282828515106050605360e360e360e12121212121212121212090909090909090909090e0e0e0e0e0e36360e0e0e030e0303030303030303030303030303030e0e0e28,
  0xd0d0d34030d0d0d0d0d0d0d0d0d0d0d0d0d0d0d0d0d0d0d0d0d0d0d0d0d0d0d0d0d0d0d0d0d0d0d0d0d0d0d0d0d0d0d3838523838383838523852525252525252525252525252525252525252525252525252525252525252525252525252520e0e4e4f4f4f090909090909090909094f284e4f4f4f4f4f4f4e4e4f4f4e282828282828282828282828284e4e4e4e2828284f4f4f4f4f4f4f28284f4f4f284e4e4e282828284e4e4f4f28282828282803030303030309090909090909090909284e4e4f4f36364f364e4e4e4e4e4f4e4e4e4e4f4f28282828282828282828282828282828282828282828282828282828282828282828282828282828282828,
  0x28282828282828282828282828282828282828282828282828282828282828282828282828282828282828282828282828282828282828282828282828282828282828282828282828282828282828282828282828282828282828282828282828282828282828282828282828282828282828282828282828282828282828282828282828282828282828282828282828282828282828282828282828282828282828282828282828282828282828282828282828282828282828282828282828282828282828282828282828282828282828282828282828282828282828282828282828282828282828282828282828282828282828282828282828282828,
  0x28282828282828282828282828282828282828282828282828282828282828282828282828282828382828282828282828282828282828283838282828283828382828282828282838382828282838282828282828282828282828282828282828282828282828282828282828282828383828282828382828282828282828282828282828282828282828282828282828282828282828282828282828282828383828282828382838282828282828283838282828283828282828282828282828282828282828282828282828282828282828282828282828282828282828282828282828282828282828282828282828282828282828282828282828282828,
  0x3838545454545454383817171717171717171717171717171717171717171717171717171717171717171717171717171717171717171717171717171717171717171717171717171717171717171717171717171717171717171717171717173838383838380e0e0e0e0e0e0e0e0e0e282828282828282828282828282828283838381212121212121212121212535353535353535353030303030303030303363636383828282828282828282828282828282828282828282828282828282828282828282828282828282828282828282828282828282828282828282828282828282828282828383828282828382828282828282828282828282828282828,
  0x28282828282828282828282828282828282828282828282828282828282828282828282828282828282828282828282828282828282828282828282828282828282828282828282828282828282828282828282828282828282828282828282828282828282828282828282828282828282828282828282828282828282828282828282828282828282828282828282828282828282828282828282828282828282828282828282828282828282828282828282828282828282828282828282828282828282828282828282828282828282828282828282828282828282828282828282828282828282828282828282828282828282828282828282828282808,
  0x38383838383838282828282828282855555503030328282828282828282828282828282828282828282828282828282828282828282828282828282828282828282828282828282828282828282828282828282828282828282828282828282838383806052828282828282828282828282828282828282828282828282828022828282828282828282828282828282828030e28282828282828282828282828282828282828282828282828282828282828282828282828282828282828282828282828282828282828282828282828282828282828282828282828282828282828282828282828282828282828282828282828282828282828282828282828,
  0x383838383838121212121212121212123838383838380909090909090909090938383628040303033503030336363636363636363636364f4f4e4f4f4f4f4f4f4f4f4e4e4e4e4e4e4e4f3636282828282828282828282828282828282828282828282828282828282828282828282828282828282828282828282828282828283838383838383838383838384e4e3828282838282828282828282828282828283838383838383838383838384e4e2828282828282828282828282828282828283838383838383838380303514e4e2828282828282828282828282828282828282838383838383838383851364e4e282828282828282828282828282828282828,
  0x38383838383838383838282828282828282828282828282828282828282828282828282828282828282828282828282828282828282828282828282828282828282828282828282828282828282828283838383838284e28282828282828282828282828282828282828282828282828282828282828282828565628282828283838383838383828282828282828282828282828282828282828282828282828282828282828282828282828282828282828282828282828282828283528282828282828282828282828282828282828282828282828282828282828282828283838383838380909090909090909090936113636360303030308030303030303,
  0xe0e0e0e0e0e0e0e0e0e0e0e0e0e0e0e0e0e0e0e0e0e0e0e0e0e0e0e0e0e0e0e0e0e383838530909090909090909090938383838383828282828282828282828282828282828282828282828282828283838383828282828282828282828282828282828282828282828282828282828282828282828282828282828282828283838383838383838383838282828282838382828282828282828282828282828282828282828282828282828282828280909090909090909090903033838380e383838383636364f4f4f4f4f4f4e4f4f383838384f4f4f4e4e4f4f4f4f4e4e4e3828282828282828282828282828282828282828282828282828282828282828,
  0x383838383838383838383838383838383838383838383838383838383838383838383838383838383838383838383838384e4e4e36363636363636363636364e4e4b363636363636363636363636363638380303030303033503030303030303383838383838090909090909090909093838383838380909090909090909090936383836363636363636364e4e4f4f4f4f4f4f4e4e4e4e4e4e4e4e4f4f4e4f36384e4e4e4e4e4e4e4f4e4f2828282828282828282828282828282828282828282828282828282828282828282828282828282828282828282828282828282828030338384e4f4f4e4e2828282828282828282828282828282828282828282828,
  0x3030303383838383838383851514e4e4e4f4e4f4f4f4e4e4f3628282828282828282828282828282828282828282828282828282828282828282828282828282828282828280909090909090909090928284e4e36514e4e4f4f4e4e4e4e4f2828282828282828282828282828282828282828282828282828282828284f4e4e3803030e0e0e0e0e0e0e0e0e3636363636363636360e0e0e0e0e0e0e0e0e0e03030303030303090909090909090909093838382828282828282828514f4e4f4f4f4f4f4e4f4e4e4e4e4e4f3628282828282828282828282828282828282828282828282828282828282828282828282828282828282828282828284f4e4e4e4e,
  0x383838383828363651282836282828282828362828282836363636363636513636363636363636363636363603363636383838383838383803030303030303035f5f5f38385f5f5f5f5f5f5f5f5f5f5f5f5f5f5f5f5f5f5f5f5f5f5f5f5f5f5f5f5f5f5f5f5f5f5f5f5f5f5f5f5f5f5f383838383838385e5d5c5b5a5a595857030335353535353528282828282828282828282828282828282828282828282828282828282809090909090909090909282828383838090909090909090909090303030303383838364e4f4f4e4e4e4e4e4e4e4e4f4f4f4f4f4f4f4f282828282828282828282828282828282828282828282828282828282828282828282828,
  0x36363636363636363636364e4e4e4e4e4e4e4e4e4e4e4e4e4e363636363636363636363636363636363636363636363636363636363636363636363636363636343434343434343434343434343434343434343434343434343434343434343434343434340d0d0d0d0d0d0d0d0d0d0d0d0d0d0d0d0d0d0d0d0d0d0d0d0d0d0d0d0d0d0d0d0d0d340d0d0d0d0d0d0d0d0d0d0d0d0d3434343434343434343434343434343434343434343434343434343434343434343434343434343434343434343434343434343434343434343434343434340d0d0d0d0d0d0d0d0d0d0d0d0d0d0d0d0d0d0d0d0d0d0d0d0d0d0d0d0d0d0d0d0d0d0d0d0d0d0d0d0d0d0d0d,
  0xd160d160d160d160d160d160d160d160d160d160d160d160d160d160d160d160d160d160d160d160d160d160d160d160d160d160d160d160d160d160d160d160d160d160d160d160d160d160d160d160d160d160d160d160d160d160d160d160d610d0d600d0d0d0d0d0d160d160d160d160d160d160d160d160d160d160d160d160d160d160d160d160d160d160d160d160d160d160d160d160d160d160d160d160d160d160d160d160d160d160d160d160d160d160d160d160d160d160d160d160d160d160d160d160d160d160d160d160d160d160d160d160d160d160d160d160d160d160d160d160d160d160d160d160d160d160d160d160d160d160d16,
  0x380b0b656b6b6a6a0d0d380d0d0d38380b0b0b49696962620d0d0d0d0d0d0d0d0b0b0b38686862620d0d38380d0d0d0d0b0b0b65676767670d0d380d0d0d0b0b0b660b65646462620d0d380d0d0d0d0d63636363636363630d0d0d0d0d0d0d0d63636363636363630d0d0d0d0d0d0d0d63636363636363630d0d0d0d0d0d0d0d38380d0d0d0d0d0d0d0d0d0d0d0d0d0d62626262626262620d0d0d0d0d0d0d0d62386238623862380d0d0d0d0d0d0d0d383862626262626238380d0d0d0d0d0d62626262626262620d0d0d0d0d0d0d0d62626262626262620d0d0d0d0d0d0d0d383862626262626238380d0d0d0d0d0d62626262626262620d0d0d0d0d0d0d0d,
  0x3838383838383838383838383838383636363636363636363636364b4b4b364b4b4b4b363636363636363636363636363838383838383838383838383838380404040404040404040404040404040404040404040404040404040404040404043838383434343434343434343434343438060507070712121212121212121212340605070707121212121212383834121111111111111111111138111111111102030303030303030303030c030703030303030303030303030605070303030c0c0303030315100303030303030303030211111111116e6d03030303030303031005151010051510030308080808080811116c6c110202020202020202020202,
  0x707070707070707070707070e0e0e0e0e0e0e0e0e0e0e0e0e0e0e0e0e0e0e0e0e0e0e0e0e0e0e0e0e0e0e070e070e0e07070e0e0e0e0e0e0e0e0e0e0e0e0e0e0e0e0e0e0e0e0e0e0e0e0e0e0e0e0e0e0e070e0e0e0e0e0e0e070e0e070e0e070e0e0e0e07070e0e0e0e0e0707070707383838380e0e12555555550d165555557676767676767676767676767676767675757575757575757575757575757575121212121212121212121212121212120e0d0e0e070e0d0d0d0d17070707070717170d0d0e0e0d282828280d177417170d73171772710e170e700e170e0e0e0e0e0e17171717176f0e0e170e0d1717170d0d1717170d0e0e170e0e0e0e170e0e,
  0x7070707070707070707070707070707070707070707070707070707070707070707070707070707070707070707070707070707070707070707070707070707070707070707070707070707070707070707070707070707070707070707070707070707070707070707070707070707070707070707070707070707070707070707070707070707070707070707070707070707070707070707070707070707070707070707070707070707070707070707070707070707070707070707070707070707070707070707070707070707070707070707070707070707070707070707070707070707070707070707070707070707070707070707070707070707,
  0xe0e0e0e0e0e0e0e0e0e0e0e0e0e0e0e0e0e0e0e0e0e0e0e0e0e0e0e0e0e0707070707070e0e0e0e0e0e0e0e0e0e0e0e0e0e0e0e0e0e0e0e0e0e0e0e0e0e0e0e0e0e0e0e0e0e0e0e0e0e0e0e070707070707070707070707070707070707070707070707070e0e0e0e0e0e0e0e0e0e0e0e0e0e0e0e0e0e0e0e0e0e0e0e0e0e0e0e0e0e070e0e0e0e0e0e0e0e0e0e0e0e0e0e0e0e0e0e0e0e0e0e0e0e0e0e0e0e0e0e0e0e0e0e0e0e0e0e0e0e0e0e0e0e0e0e0e0e0e0e0e0e0e0e0e0e0e0e0e0e0e0e0e0e0e0e0e0e0e0e0e0e0e0e0e0e0e0e0e0e0e06050e0e0e0e0e0e0e07070e0e0e0e0e0e0e0e0e0e0e0e0e0e0e0e0e0e0e0e060506050e0e0e0e0e0e0e0e,
  0x12121212121212121212121212121212121212121212787878787878787878787878787878787878787878787878787877777777777777777777777777777777777777777777777777770e0e0e0e0e0e0e0e0e0e0e0e0e0e0e0e0e0e0e0e0e0e0e0e0e0e1212121212121212121212121212121212121212121212121212121212121212121212121212121212121212121212121212121212121212121212123838383838383838383838383838383838383838380e0e0e0e0e0e0e0e0e0e0e383838383838383838383838383838383838383838383838380e0e0e0e0e0e0e0e0e0e0e0e0e0e0e0e0e0e0e0e0e0e0e0e0e0e0e0e0e0e0e0e0e0e0e0e0e0e0e,
  0x7070707070707070e0e0e0e0e0e0e0e0e0e0e0e0e0e0e0e0e0e0e0e0e0e0e0e0e0e0e0e0e0e0e0e0e0e0e0e0e0e0e0e0e0e0e0e0e0e0e0e0e0e0e0e0e0e070e0e0e0e0e0e0e0e0e070e0e0e0e0e0e0e0e0e0e0e0e0e0e0e0e0e0e0e0e0e0e0e0e0e0e0e0e0e0e0e0e0e0e0e0e0e0e0e0e0e0e0e0e0e0e0e0e0e0e0e0e0e0e0e0e0e0e0e0e0e0e0e0e0e0e0e0e0e0e0e0e0e0e0e0e0e0e0e0e0e0e0e0e0e0e0e0e0e0e0e0e0e0e0e0e0e0e0e0e0e0e0e0e0e0e0e0e0e0e0e0e0e0e0e0e0e0e0e0e0e0e0e0e0e0e0e0e0e0e0e0e0e0e0e0e0e0e0e0e0e0e0e0e0e0e0e0e0e0e0e0e0e0e0e0e0e0e0e0e0e0e0e0e0e0e0e0e0e0e0e0e0e0e0e0e0e0e0e0e0e0e0e,
  0xe0e0e0e0e0e0e0e0e0e0e0e0e0e0e0e0e0e0e0e0e0e0e0e0e0e0e0e0e0e0e0e0e0e0e0e0e0e0e0e0e0e0e0e0e0e0e0e0e0e0e0e0e0e0e0e0e0e0e0e0e0e0e0e0e0e0e0e0e0e0e0e0e0e0e0e0e0e0e0e0e0e0e0e0e0e0e0e0e0e0e0e0e0e0e0e0e0e0e0e0e0e0e0e0e0e0e0e0e0e0e0e0e0e0e0e0e0e0e0e0e0e0e0e0e0e0e0e0e0e0e0e0e0e0e0e0e0e0e0e0e0e0e0e070e0e0e0e0e0e0e0e0e0e0e0e0e0e0e0e0e0e0e0e0e0e0e0e0e0e0e0e0e0e0e0e0e0e0e0e0e0e0e0e0e0e0e0e0e0e0e0e0e0e0e0e0e0e0e0e0e0e0e0e0e0e0e0e0e0e0e0e0e0e0e0e0e0e0e0e0e0e0e0e0e0e0e0e0e0e0e0e0e0e0e0e0e0e0e0e0e0e0e0e0e0e0e0e0e0e0e0e0e0e0e,
  0x70707070707070707070707070707070605060506050605060507070707070707070707070707070707070707070707070707070707070707060507070707070e0e0e0e0e0e0e0e0e0e0e0e0e0e0e0e0e0e0e0e0e0e0e0e0e0e0e0e0e0e0e0e0e0e0e0e0e0e0e0e0e0e0e0e12121212121212121212121212121212121212121212121212121212121206050605060506050605060506050e0e0e0e0e0e0e0e0e0e0e0e0e0e0e0e0e0e0e0e0e0e0e0e0e0e0e0e0e0e0e0e0e0e0e0e0e0e0e0e0e0e0e0e0e0e0e0e0e0e0e0e0e0e0e0e0e0e0e0e0e0e0e0e0e0e0e0e0e0e0e0e0e0e0e0e0e0e0e0e0e0e0e0e0e0e0e0e0e0e0e0e0e0e0e0e0e0e0e0e0e0e0e0e,
  0xe0e0e0e0e0e0e0e0e0e0e0e0e0e0e0e0e0e0e0e0e0e0e0e0e0e0e0e0e0e0e0e0e0e0e0e0e0e0e0e0e0e0e0e0e0e0e0e0e0e0e0e0e0e0e0e0e0e0e0e0e0e0e0e0e0e0e0e0e0e0e0e0e0e0e0e0e0e0e0e0e0e0e0e0e0e0e0e0e0e0e0e0e0e0e0e0e0e0e0e0e0e0e0e0e0e0e0e0e0e0e0e0e0e0e0e0e0e0e0e0e0e0e0e0e0e0e0e0e0e0e0e0e0e0e0e0e0e0e0e0e0e0e0e0e0e0e0e0e0e0e0e0e0e0e0e0e0e0e0e0e0e0e0e0e0e0e0e0e0e0e0e0e0e0e0e0e0e0e0e0e0e0e0e0e0e0e0e0e0e0e0e0e0e0e0e0e0e0e0e0e0e0e0e0e0e0e0e0e0e0e0e0e0e0e0e0e0e0e0e0e0e0e0e0e0e0e0e0e0e0e0e0e0e0e0e0e0e0e0e0e0e0e0e0e0e0e0e0e0e0e0e0e0e0e0e,
  0x7070605070707070707070707070707070707070707070707070707070707070707070706050605070707070707070707070707070707070707070707070707070707070707070707070707070707070707070707070707070707070707070707070707070707060506050605060506050605060506050605060506050707070707070707070707070707070707070707070707070707070707070707070707070707070707070707070707070707070707070707070707070707070707070707070707070707070707070707070707070707070707070707070707070707070707070707070707070707070707070707070707070707070707070707070707,
  0xe0e0e0e0e0e0e0e0e0e0e0e0e0e0e0e0e0e0e0e0e0e0e0e0e0e0e0e0e0e0e0e0e0e0e0e0e0e0e0e0e0e0e0e0e0e0e0e0e0e0e0e0e0e0e0e0e0e0e0e0e0e0e0e0e0e0e0e0e0e0e0e0e0e0e0e0e0e0e0e0e0e0e0e0e0e0e0e0e0e0e0e0e0e0e0e0e0e0e0e0e0e0e0e0e380e0e0e0e0e0e0e0e0e0e0e0e0e0e0e0e0e0e0e0e0e0e0e0e0e0e0e0e0e0e0e0e38380e0e0e0e0e0e0e0e0e0e0e0e0e0e0e0e0e0e0e0e0e0e0e0e0e0e0e0e0e0e0e0e0e0e0e0e0e0e0e0707070707070e0e0707070707070707070707070707070707070707070e0e0e0e0e0e0e0e0e0e0e0e0e0e0e0e0e0e0e0e0e0e0e0e0e0e0e0e0e0e0e0e0e0e0e0e0e0e0e0e0e0e0e0e0e0e0e0e,
  0x303120303030338383838380d163636360d160d160e0e0e0e0e0e0d0d160d160d160d160d160d160d160d160d160d160d160d160d160d160d160d160d160d160d160d160d160d160d160d160d160d160d160d160d160d160d160d160d160d160d160d160d160d160d160d160d160d160d160d160d160d160d160d160d160d16808034340d0d0d0d0d0d160d0d160d7f7e7d7c0d160d160d160d0d7b7a790d160d0d0d0d0d0d0d0d0d0d0d0d0d0d0d0d0d0d0d0d0d0d0d0d0d0d0d0d0d0d0d0d0d0d0d0d0d0d0d0d0d0d0d0d0d0d0d0d4d4d4d4d4d4d4d4d4d4d4d4d4d4d4d4d4d4d4d4d4d4d4d4d4d4d4d4d4d4d4d4d4d4d4d4d4d4d4d4d4d4d4d4d4d4d4d4d,
  0x4e4e4e4e4e4e4e4e4e4e4e4e4e4e4e4e4e4e4e4e4e4e4e4e4e4e4e4e4e4e4e4e382828282828282838282828282828283828282828282828382828282828282838282828282828283828282828282828382828282828282838282828282828283838383838383838382828282828282828282828282828282828282828282828363838383838383838383838383838033538383838383838282828282828282828282828282828282828282828282828282828282828282828282828282828282828282828282828282828282828282838380d38383838380d380d0d0d0d0d0d0d0d0d0d0d0d0d0d0d0d0d0d0d0d0d0d0d0d0d0d0d0d0d0d0d0d0d0d0d0d0d0d,
  0x3838383838383838383838380e0e0e0e0e0e0e0e0e0e0e0e0e0e0e0e0e0e0e0e0e0e0e0e0e0e0e0e0e0e0e0e0e0e0e0e0e0e0e0e0e0e0e0e0e0e0e0e0e0e0e0e0e0e0e0e0e0e0e0e0e0e0e0e0e0e0e0e0e0e0e0e0e0e0e0e0e0e0e0e0e0e0e0e0e0e0e0e0e380e0e0e0e0e0e0e0e0e0e0e0e0e0e0e0e0e0e0e0e0e0e0e0e0e0e383838383838383838383838383838383838383838383838383838383838383838380806050605060506050303030e0e0303030303030303030303030305030803030303080803030303030303030303810303030303060506050605060515100303151003080303080303030303030303031510031510030303151015100303,
  0x383838380e0e0e0e0e0e0e0e0e0e0e0e38383838383838383838383838383838383838383838383838380e0e0e0e0e0e0e0e0e0e0e0e0e0e0e0e0e0e0e0e0e0e0e0e0e0e0e0e0e0e0e0e0e0e0e0e0e0e0e0e0e0e0e0e0e0e0e0e0e0e0e0e0e0e0e0e0e0e0e0e0e0e0e0e0e0e0e0e0e0e0e0e0e0e0e0e0e0e0e0e0e0e0e0e0e0e0e0e0e0e0e0e0e0e0e0e0e0e0e0e0e0e0e0e0e0e0e0e0e0e0e0e0e0e0e0e0e0e0e0e0e0e0e0e0e0e0e0e0e0e0e0e0e0e0e0e0e0e0e0e0e0e0e0e0e0e0e0e0e0e0e0e0e0e0e0e0e0e0e0e0e0e0e0e0e0e0e0e0e0e0e0e0e0e0e0e0e0e0e0e0e0e0e0e0e0e0e0e0e0e0e0e0e0e0e0e0e0e0e0e0e0e0e0e0e0e0e0e0e0e0e0e0e0e,
  0x2835353503282828282828282828282828282828282828282828282828282828282828282828282828282828282828282828282828282828282828282828282828282828282828282828282828282828282828282828282828282828282828082835350b0b363638382828282828282828282828282828282828282828282828282828282828282828282828282828282828282828282828282828282828282828282828282828282828282828282828282828282828282828282828282828380e0e0328355555550e0e3535353535085151363636365555555555555555550e0606050806050605060506050e0e060506050605060506055528350e03030302,
  0x282828282828282828282828282828283838383838383838383838380e0e0e0e0e0e0e0e0e0e0e0e0e0e0e0e0e0e0e0e0e0e0e0e0e0e0e0e0e0e0e0e0e0e0e0e28282828282828282828282828282828282828282828282828282828282828280e0e0e0e0e0e0e0e0e0e121212120e0e382828282828282828282828282828282828282828282828282828282828282828282828282828282828282828282828282828282828282828282828282828282828282828282828282828282828282828282828282828282828282828282838282828282828282828282828282828282828282828282828282828282828282828282828282828282828283838383838,
  0xe0e0e0e0e0e0e0e0e0e0e0e0e0e0e0e0e0e0e0e0e0e0e0e0e0e0e0e0e0e0e0e0e0e0e0e0e0e0e0e0e0e0e0e0e0e0e0e0e0e0e0e0e0e0e0e0e0e0e0e0e0e0e0e1212121212121212121212121212120e0e0e0e0e0e0e0e0e0e0e0e0e0e0e0e0e0e0e0e0e0e0e0e0e0e0e0e0e0e0e0e0e0e0e0e0e0e0e121212121212121212120e0e0e0e0e0e0e0e0e0e0e0e0e0e0e0e0e0e0e0e0e0e0e0e0e0e0e0e0e0e0e0e1212121212121212121212121212120e12121212121212120e0e0e0e0e0e0e0e0e0e0e0e0e0e0e0e0e0e0e0e0e0e0e0e0e0e0e0e0e0e12121212121212121212380e0e0e0e0e0e0e0e0e0e0e0e0e0e0e0e0e0e0e0e0e0e0e0e0e0e0e0e0e0e0e,
  0xe0e0e0e0e0e0e0e0e0e0e0e0e0e0e0e0e0e0e0e0e0e0e0e0e0e0e0e0e0e0e0e0e0e0e0e0e0e0e0e0e0e0e0e0e0e0e0e0e0e0e0e0e0e0e0e0e0e0e0e0e0e0e0e282828282828282828282828282828282828282828282828282828282828282828282828282828282828282828282828282828282828282828282828282828282828282828282828282828282828282828282828282828282828282828282828282828282828282828282828282828282828282828282828282828282828282828282828282828282828282828282828282828282828282828282828282828282828282828282828282828282828282828282828282828282828282828282828,
  0x28282828282828282828282828282828282828282828282828282828282828282828282828282828282828282828282828282828282828282828282828282828282828282828282828282828282828282828282828282828282828282828282828282828282828282828282828282828282828282828282828282828282828282828282828282828282828282828282828282828282828282828282828282828282828282828282828282828282828282828282828282828282828282828282828282828282828282828282828282828282828282828282828282828282828282828282828282828282835282828282828282828282828282828282828282828,
  0x303353535353535282828282828282828282828282828282828282828282828282828282828282828282828282828283838383838383838380e0e0e0e0e0e0e0e0e0e0e0e0e0e0e0e0e0e0e0e0e0e0e0e0e0e0e0e0e0e0e0e0e0e0e0e0e0e0e0e0e0e0e0e0e0e0e0e0e0e0e0e0e0e0e383838282828282828282828282828282828282828282828282828282828282828282828282828282828282828282828282828282828282828282828282828282828282828282828282828282828282828282828282828282828282828282828282828282828282828282828282828282828282828282828282828282828282828282828282828282828282828282828,
  0x3838383838383838030303030303363655555555555555555555282828282828282828282828282828282828282828282828282828282828282828282828282828282828282828282828282828282828282828282828282828282828282828284e4e34340d160d160d160d160d160d160d160d160d160d160d160d160d160d16350336364e4e4e4e4e4e4e4e034b4b4b36280d160d160d160d160d160d160d160d160d160d160d160d160d160d160d160d160d160d160d160d160d160d160d1638383838383838383838383838383838383838382828090909090909090909092828282828282828282828282828282803030335282828282828282828282828,
  0x28282828280d3434280d163434343838383838383838383838383838383838383838383838380d160d160d380d380d1638383838380d160d168e8d8c0d160d160d160d160d160d160d160d168b8a89880d84878685840d160d160d160d160d160d160d160d160d160d160d0d0d160d16280d830d160b0b350d160d160d160d160d16820d160d160d0d0d0d0d0d0d0d340d160d160d160d160d160d160d160d160d160d160d160d160d160d160d160d160d160d160d160d160d160d160d160d160d160d160d160d160d160d160d160d0d0d160d160d160d160d160d160d160b0b3535353535353535350b0b0b0b0b0b0b0b0b0b0b0b0b0b0b0b0b0b0b0b0b0b0b,
  0x4e2828032803030328282828282836363636363636363636363636363636363638383838383809090909090909090909030338383838383838384e364f4f4f4f4f4f4f4f4f4f4f4f4f4f4f4f28282828282828282828282828282828282828282828282828282828282828282828282828282828282828282828282828284f4f383838383838383803030303282828282828282828282828282828282828282828282828282828282828282828282828282828282828282828282828282828283838383838380e040e0e121212121212383838360e0e0e0e4f4e4e4f4f28282828282828282828282828282828282828282828284e28282828362828284e2828,
  0x38282828282809090909090909090909282828282828282828354e282828282803033838383809090909090909090909353803030303030303030303030303514f4f4e4e4f4f4e4e4e4e4f4f3628282828282828282828282828282828282828282828282828282828282828282828282828282828282828282828284f4e4e4e3838382828282828282828282828282828282828282828282828282828282828033838383838383838383838514f4e4e4e4e4e4e4e4e4e4e4e282828282828282828282828282828282828282828282803033636364e4e4e4e4e2828282828282828282828282828282828282828282828282828282809090909090909090909,
  0x383838383838383838364f35352803034f4f4e4e4f28282828282828282828280303352828383838383838383838383838383838383838383838383838283628364e28282828284e4e28284e4e4e284e28282828282828282828282828282828282828282828282828282828282828282828282828282828282828282828282828284f4e4f280e0e0e28282828282835282828282828282828282828282828280303030338380909090909090909090938384f4e28282828282828284e2828283838383838383838384e4e4f4f4e4e4f4f4e4e4e4e4e4e2828282828282828282828282828282828282828282828282828282828282828282828282828282828,
  0x3838383838380909090909090909090938383651034f4f4e4f4f4e4f4f28282828282828282828282828282828282828282828282828282828282828282828288f8f8f8f8f8f8f8f8f8f8f8f8f8f8f8f8f8f8f8f8f8f8f8f8f8f8f8f8f8f8f8f8f8f8f8f8f8f8f8f8f8f8f8f8f8f8f8f8f8f8f8f8f8f8f8f8f8f8f8f8f8f8f8f8f8f8f8f8f8f8f8f8f8f8f8f8f8f8f8f383838380b0b340d0d0d0d0d0d0d0d0d343434340b0d0d0d0d0d0d0d0d0d0d0d0d0d0d0d0d0d0d0d0d0d0d0d0d0d0d0d0d0d0d0d0d0d0d0d0d0d0d0d0d0d0d0d382828282828282838282828282828283838383838383838382828282828283838282828282828383828282828282838,
  0x38383838282828282828282828282828282828282828282828282828282828282828282828282828282828282828282828282828283838383828282828282828282828282828282828282828282828283838383838383838383838382828282828282828282828282828282828282828282828282828282828282828282828282828282828282828282828282828282828282828282828282828282828282828282828282828282828282828282828282828282828282828282828282828282828282828282828282828282828282828282828282828282828282828282828282828282828282828282828282828282828282828282828282828282828282828,
  0x90909090909090909090909090909090909090909090909090909090909090909090909090909090909090909090909090909090909090909090909090909090909090909090909090909090909090909090909090909090909090909090909090909090909090909090909090909090909090909090909090909090909090909090909090909090909090909090909090909090909090909090909090909090909090909090909090909090909090909090909090909090909090909090909090909090909090909090909090909090909090909090909090909090909090909090909090909090909090909090909090909090909090909090909090909090,
  0x91919191919191919191919191919191919191919191919191919191919191919191919191919191919191919191919191919191919191919191919191919191919191919191919191919191919191919191919191919191919191919191919191919191919191919191919191919191919191919191919191919191919191919191919191919191919191919191919191919191919191919191919191919191919191919191919191919191919191919191919191919191919191919191919191919191919191919191919191919191919191919191919191919191919191919191919191919191919191919191919191919191919191919191919191919191,
  0x38383838383838383838383838383838383838383838383838383838383838383838383838382828282828282828282828282828282828282828282828282828282828282828282828282828282828282828282828282828282828282828282828282828282828282828282828282828282828282828282828282828282828282828282828282828282828282828282838382828282828282828282828282828282828282828282828282828282828282828282828282828282828282828282828282828282828282828282828282828282828282828282828282828282828282828282828282828282828282828282828282828282828282828282828282828,
  0x282828282828282828282828282828282828282828282828282828282828282828282828282828282828282828383838383838383838383838383838380b0b0b0b0b0b0b0b0b0b0b0b0b0b0b0b0b2828282828282828282828282828282828282828282828282828282828282828282828282828282828282828282828282828282828282828282828282828282828282828282828282828282828282828282828282828282828282828282828282828282828282828282828283828283828283828382828282828382828282828282828282828282807282828282828282828284e2838383838380d0d0d0d0d3838383838383838383838380d0d0d0d0d0d0d,
  0x28282828282828282828282828282828282828282828282828282828282828282828282828282828282828282828282828282828282828282828282828282828282828282828282828282828282828282828282828282828282828282828282828282828282828282828282828282828282828282828282828282828282828282828282828282828282828282828282828282828282828282828282892929292929228282828282828282828282828282828282828282828282828282828282828282828282828282828282828282828282828282828282828282828282828282828282828282828282828282828282828282828282828282828282828282828,
  0xe0e0e0492922828282828282828282838383838383838383838383838383838383838383838383838383838383838380e383838383838382828282828282828282828282828282828282828282828282828282828282828282828282828282828282828282828282828282828283838282828282828282828282828282828282828282828282828282828282828282828282828282828282828282828282828282828282828282828282828282828280e0e0e0e0e0e0e0e0e0e0e0e0e0e0e0e05062828282828282828282828282828282828282828282828282828282828282828282828282828282828282828282828282828282828282828282828282828,
  0x11383828282828282828282828282828282828282828282828282828282828282828282828282828282828282828282828282828282828282828282828282828282828282828282828282828282828282828282828282828282828282828282828282828282828282828282828282828282828282828282828282828282828282892289228922892289238922892289238383838030304033807070708070303030605060506050803030303380303030c0c0c0303030306050303060506050605060506050605060506050c0c080803363636363636363636363636363636363838383838380306050303030303030336363636363636363636363636363636,
  0x38380e0e111111383838383838383838380e0e070707070e3804040e0b070404383838282828383828282828282838382828282828283838282828282828383838282828282828282828282828282828282828282828282828282828282828289393282828282828282828282828282828282828282828282828282828282828282828282828282828282828282828352828282828282828282803030605030605070607050d0d0d0d0d0d0d0d0d0d0d0d0d0d0d0d0d0d0d0d0d0d0d0d0d0d0b0c0b0603050a0a0a0a0a0a0a0a0a0a0a0a0a0a0a0a0a0a0a0a0a0a0a0a0a0a030307070703030909090909090909090903030803070306050303030403030338,
  0x38383838382828282828282828282828282828282828282828282828282828282828282828282828282828282828282828282828282828282828282828282828282828282828282828282828282828282828282828282828282828282828282828282828282828282828282828282828282828282828282828282828282828283838383838383838383838383838383838383838383838383838383838383838383828282828282828282828282828283838282828282828282828282828282828382828382828282828282828282828282828282828282838282828282828282828282828282828282828282828282828282838282828282828282828282828,
  0x3838360e0e0e0e0e0e0e0e0e0e0e0e0e0e0e0e0e0e0e0e0e0e0e0e0e0e0e0e0e0e0e0e0e0e0e0e0e0e0e0e0e0e0e0e0e38383838383838383838383838383838383838383838383838383838383838383838383838383838383838383838380e3838380e0e0e0e0e0e0e0e0e0e0e0e0e380e0e0e12120e0e0e0e0e0e0e0e0e0e0e0e0e0e0e0e0e1212121255555555555555555555555555555555555555555555555555555555555555555555555555555555555555555555555555555555550e0e0e0e0e0e0e0e0e38383812121212121212121212121212121212121212121212121212121212121212121212121212121212121212121238383838030303,
  0x38383838121212121212121212121212121212121212121212121212121212363838383838383838383838383838382828282828282828282828282828282828282828282828282828282828282828282828282828282828282828282828282838383828282828282828282828282828282828282828282828282828282828283838383838383838383838383838383838383838383838383838383838383838383838383838383838383838383838383838383838383838383838383838383838383838383838383838383838383838383838383838383838383838383838383838383838383838383838383838383838383838383838383838383838383838,
  0x383838383838383838383838383838383838383838383838383838383838383838383838383838383838555555555503282828282828282838383838282828282828282828282828282828282828282828282828282828282828282828282828033828282828282828282828282828282828282828282828282828282828282838383838384e4e4e4e4e28282828282828282828282828282828282828282828282828282828282828282828282828283838383838552828282828282828552828282828282828282828282828282828282828383838383838383838121212122828282828282828282828282828282828282828282828282828282828282828,
  0x383838380d0d0d0d0d0d0d0d0d0d0d0d0d0d0d0d0d0d0d0d0d0d0d0d0d0d0d0d0d0d0d0d0d0d0d0d383838389494949494949494949494949494949494949494949494949494949494949494949494943838383838380909090909090909090938382828282828282828282828282828282828282828282828282828282828282828282828282828282828282828282828282828282828282828282828282828282828282828282828282828282828280d0d0d0d0d0d0d0d0d0d0d0d0d0d0d0d0d0d0d0d0d0d0d0d0d0d0d0d0d0d0d0d0d0d0d0d0d0d0d0d94949494949494949494949494949494949494949494949494949494949494949494949494949494,
  0x383838383838383838383838383838383838383838383838383838383838383838383838383838383838383838383838383838383838383838383838383838383838380d0d380d0d0d0d0d0d0d380d0d0d0d0d0d0d0d0d0d0d0d0d0d0d380d0d0d0d0d0d0d0d0d0d0d38959538959595959595953895959595959595959595959595959538959595959595959595959503383838383838383838383828282828282828282828282828282828282828282828282828282828282828282828282828282828282828282828282828282828383838383838383828282828282828282828282828282828282828282828282828282828282828282828282828282828,
  0x38383838383838383838383838383838383838383838383838383838383838383838383838383838383838383838383838383838383838383838383838383838383838383834343434343434343438343434343434343434343434343434343434343434343434343434343434343434343434343434343434383434343535343838383838383838383838383838383838383838383838382828282828282828383838383838383838382828282828282828282828282828282828282828282838383838383838383828282828282828282828282828282828282828282828282828282828282828282828282828282828282828282828282828282828282828,
  0x1212121212383838383828283828282828282828282828282828282828282828383838383838383838383838383838383838383838383838383838383838383838383838383838383838383838383838121212121212121212383838383838383828282828282828282828282828282828282828282828282828282828282828121212121212120e0e2828282828282828282828282828282828282828282828121212121212121203382828282828282828282828282828282828282828282828383828383838282838282828282828282828282828282828282828282828282828282828282828282828282828282828282828282838283838282828282828,
  0x12121212121212121212121212121212121212121212121212121212121212121212121212121212121212121212383812121212121212121212121212121212282812123838383828282828282828282828282828282828282828282828282828282828282828282828282828282828282828282828282828282828282828283838383838383838383838383838383838383838383838383838383838383838383838383838383838383838383838383838383838383838383838383838383803383838383828282828282828282828282828282828282828282828282828280338383812121212121228282828282828282828282828282828282828282828,
  0x383838383838383838030303030303031212121212383838383636282828282828282828282828282828282828282828282828282828280e282828282828282838383838383838383838383838383838383838383838383838383838383838381212122828282828282828282828282828282828282828282828282828282828031212282828282828282828282828282828282828282828282828282828282838383838383838030303030303030303383838383838381212121212121212123638383838363636383828282828282828282828282828282828282828282828282828282828283828282838282828284e4e4e4e38383838384e4e384e4e4e28,
  0x38383838383838383838383838383838383838383838383838383838383838383838383838383838383838383838383838383838383838383838383838383838383838383838383838383838383838381212121212121238383838383838383838383803030303383838383838382828282828282828282828282828282828281212121212121212383838383828282828282828282828282828282828282828121212121212121238382828282828282828282828282828282828282828282803030303030303383838282828282828282828282828282828282828282828282828282828282828282828282828282828282828282828282828282828282828,
  0x121212121212383838383838380d0d0d0d0d0d0d0d0d0d0d0d0d0d0d0d0d0d0d0d0d0d0d0d0d0d0d0d0d0d0d0d0d0d0d0d0d0d0d0d0d0d0d0d0d0d0d0d0d0d0d383838383838383838383838383d3d3d3d3d3d3d3d3d3d3d3d3d3d3d3d3d3d3d3d3d3d3d3d3d3d3d3d3d3d3d3d3d3d3d3d3d3d3d3d3d3d3d3d3d3d3d3d3d3d3d3838383838383838383838383838383838383838383838383838383838383838383838383838383838383838383838383838383838383828282828282828282828282828282828282828282828282828282828282828282828282828282828282828282828282828282828282828282828282828282828282828282828282828,
  0x3838383838383838383838383838383838383838383838383838383838383838383838383838383838383838383838383838383838383838383838383838383838383838383838383838383838383838383838383838383838383838383838383838383838383838383838383838383838383838383838383838383838383838383838383838383838383838383838383838383838383838383838383838383838383838383838383838383838383838383838383838383838383838383838383838383838380909090909090909090938383838383838384e4e4e4e282828282828282828282828282828282828282828282828282828282828282828282828,
  0x36363638383838383838383838383838383838383838383838383838383838383838383838383838383838383838383838383838383838383838383838383838383838383838383838383838383828283838084e4e382828282828282828282828282828282828282828282828282828282828282828282828282828282828283812121212121212121212121212121212121212121212121212121212121212383838383838383838383838383838383838383838383838383838383838383838383838383838383838383838383838383838383838383838383838383838383838383838383838383838383838383838383838383838383838383838383838,
  0x38383838383838383828282828282828282828282828282828282828282828283838383838383838383838383838383838383838121212121212122828282828282828282828282828282828282828283838383838383838383838383838383838383838383838383838383838383838383838383838030303033636363628282828282828282828282828282828282838383838383838383838383838383838383838383838030303030312121212363636363636363636363628282828282828282828282828282828282828282828383838383838383828121212121212121212122828282828282828282828282828282828282828282828282828282828,
  0x383838383838090909090909090909093838383838383828282828282828282828282828282828282828282828282828383811383838383838383838384e0303030311030336364f4f4e4e4e4e4f4f4f2828282828282828282828282828282828282828282828282828282828282828282828282828282828282828284f4e4e36383838383838383838284e4e2828360909090909090909090912121212121212121212121212121212121212123838383803030303030303364e4e4e4e4e4e4e4e4e4e4e4e4e4e28282828282828282828282828282828282828282828282828282828282828282828282828282828282828282828282828282828284f4e4f,
  0x3838383838383838383838121212121212121212121212121212121212121238030303280328090909090909090909094e4f03363636360303030328282828514f4e4e4e4e4e4e4e4e4e4f4f4f2828282828282828282828282828282828282828282828282828282828282828282828282828282828282828282828284f4e4e3838383838383838382803033628282828282828282828282828282828282828282828282828282828282828282828283838383838383838284f4f2803030303090909090909090909093836364e4e4e4e4e4e4f4e4e4e4e4e2828282828282828282828282828282828282828282828282828282828282828282828284e4e4e,
  0x38383838383809090909090909090909383838383836364e4e4e4e4e4e4f4f4f4e282828282828282828282828282828282828282828282828282828282828282828282828282828282828282828282838383838383803282828282828282828283828282828282828282828282828282838282828283828382828282828282838383838383838383838383838383838383838383838383838383838383838383838383838383838383838383838383838383838383838383838383838384e28284e0303030303034e36514e4f4f4e4e4e4f4f4f2828282828282828282828282828282828282828282828282838282828282828282828282828282828282828,
  0x3838383838383838383838383838383838383838383838383838383838383838383838383838383838383838383838383838383838383838383838383838383838383838383838383838383838383838383838383838383838383838383838383838383838383838383838383838383838383838383838383838383838383838383838383838383838383836363636363838383636363636363638384f4f282828282838383838384f383838383838283838514f4f38384f4f38384f4f4f4f4e4f4f283636382828282828382828382828282828282838282828282828282828282828282828282828282828283838282838382828282828282828384f4f4e4e,
  0x38383838383838383838383838383838383838383838383838383838383838383838383838380909090909090909090938383838383838382803282836364f4e4e4f4f4f4f4e4f4e4e4e4e4e4e4f4f4f282828282828282828282828282828282828282828282828282828282828282828282828282828282828282828282828383838383838383838383838383838383838383838383838383838383838282828360338030309090909090909090909030303030328282828364f4e4e364f4f4e4e4e4e4e4e4e4e4f4f4f2828282828282828282828282828282828282828282828282828282828282828282828282828282828282828282828282828282828,
  0x383838383838383838383838383838383838383838383838383838383838383838384e4e28282828030303030303030303030303030303030303030303030336364f4e4e4f4f4f4f38384e4e4e4e4f4f4f28282828282828282828282828282828282828282828282828282828282828282828282828282828282828282828283838383838383838383838383838383838383838383838383838383838383838383838383838383838383838383838383838383838383838383838383838383838383838383838383838383838383838383838383838383838383838383838383838383838383838383838383838383838383838383838383838383838383838,
  0x38383838383838383838383838383838383838383838383838383838383838383838383838383838383838383838383838383838383809090909090909090909383838383838032836514e4e4e4e4e4e4f4f4e4f4e282828282828282828282828282828282828282828282828282828282828282828282828282828282828283838383838383838383838383838383838383803030303030303030303030303383838383838090909090909090909093838383838383838383838280303034e364f4e4f4f4e4e4e4e4e4e4e4e4f4f4f282828282828282828282828282828282828282828282828282828282828282828282828282828282828282828282828,
  0x3838383838383838383838383838383838383838383838383838383838383838383838383838383838383838383838383838383838383838383838383838383838383838383838383838383838383838383838383838383838383838383838383838383838383838383838383838383838383838383838383838383838383838383838383838383838383838383838383838383838383838383838383838383838383838383838383838383838383838383838383838383838282828282828280e03030312120909090909090909090938383838364e4e4e4e4f4e4e4e4e4f4f4e4e4e3838282828282828282828282828282828282828282828282828282828,
  0x28383838383838383838383838121212121212121212090909090909090909090d0d0d0d0d0d0d0d0d0d0d0d0d0d0d0d0d0d0d0d0d0d0d0d0d0d0d0d0d0d0d0d0a0a0a0a0a0a0a0a0a0a0a0a0a0a0a0a0a0a0a0a0a0a0a0a0a0a0a0a0a0a0a0a383838383838383838383838383838383838383838383838383838383838383838383838383838383838383838383838383838383838383838383838383838383838383838383838383838383838383838383838383838383838383838383838383838380336364f4e4e4e4e4e4e4e4e4e4f4f4f2828282828282828282828282828282828282828282828282828282828282828282828282828282828282828,
  0x3838383838383838383838383838383838383838383838383838384f280328364f4f4f4f4e4e38384e4e4e4e4f4f4f282828282828282828282828282828282828282828282828282828282828282828282828282828383828282828282828283838383838383838383838383838383838383838383838383838383838383838383838383838383838383838383838383838383838383838383838383838383838383838383809090909090909090909383838383838383838030303364f284f2836514e4e38384f4f384f4f4f4f4f4f282828282828282828282828282828282828282828282828382828382828282828282828383828383828282828282828,
  0x38383838383838282828282828282828282828282828282828282828282828282828282828282828282828282828282828282828282828282828282828282828282828282828282828282828282828283838383838383838383838383803030303032803030336364f4e4e4e4e4e4e4e4e4e4e4e4e4e282828282828282828282828282828282828282828282828282828282828282828282828282828282828282828284e4e4e4f4f4e4e4e4e4e4e2838383838383838383603030303030303034e4e4e4e284f4e4e4e4e3636282828282828282828282828282828282828282828282828282828282828282828282828282828284e4e4e4e4e4e4e4e4e4e28,
  0x38383838383838383838383838383838383838383838383838383838383838383838383838383838383838383838383838383838383838383838383838383838383838383838383838383838383838383838383838383838383838383838383838383838383838383838383838383838383838383838383838383838383838383838383838383838383838383838383838383838383838383838383838383838383838383838383838383838383838383838383838383838383838383838383838383838383838383838383838383838383838383838383838383838383838383838383838383838383838383838383838383838383803030303030303030303,
  0x383838383838383838383838383838383838383838383838383838383838383838383838383838383838383838383838383838383838383838383838383838383838383838383838384e4e4f4e4e4f4e4e4e4e4e4e4e4f384e4e4e4e4e4e4e4e4e4e4e4e4e4e4e4e4e4e4e4e4e4e38382828282828282828282828282828282828282828282828282828282828280303383838121212121212121212121212121212121212120909090909090909090938383838383838383838030303030328364f4e4e4e4e4e4e384e4e4e4e4e4e4e4f2828282828282828282828282828282828282828282828282828282828282828282828282838282828282828282828,
  0x3838383838383838383838383838383838383838383838383838383838383838383838383838383838383838383838383838383838383838383838383838383838383838383838383838383838383838383838383838090909090909090909093838383838383828364f4e4f4f384e4e384f4f4f4f4f2828282828282828282828282828282828282828282828282828282828282828382828382828282828283838383838380909090909090909090938383838383838384e2836364e364e4e4e384e4e384e3838384e4e4e4e4e4e28282828282828282828282828282828282828282828282828282828282828282828282828283828283828282828282828,
  0x3838383838383803034f4f4e4e282828282828282828282828282828282828283838383838383838383838383838383838383838383838383838383838383838383838383838383838383838383838383838383838383838383838383838383838383838383838383838383838383838383838383838383838383838383838383838383838383838383838383838383838383838383838383838383838383838383838383838383838383838383838383838383838383838383838383838383838383838383838383838383838383838383838383838383838383838383838383838383838383838383838383838383838383838383838383838383838383838,
  0x3383838383838383838383838380e0e0e0e0e0e0e0e0e0e0e0e0e0e0e0e0e040404040e0e0e0e0e0e0e0e121212121212121212121212121212121212121212383838383838383838383838383838283838383838383838383838383838383838383838383838383838383838383838383838383838383838383838383838383838383838383838383838383838383838383838383838383838383838383838383838383838090909090909090909090303030303030303030303030336514e4f4f3838384e4e4e4e4e4f4f2828282828282828282828282828282828282828282828282828282828282828282838282828282828282828282828284f284e4e,
  0x38383838383838383838383838383838383838383838383838383838383838383838383838383838383838383838383838383838383838383838383838383838383838383838383838383838383838383838383838383838383838383838383838383838383828282828282828282828282828282828282828282828282828282828282828282828282828282828282828282828282828282828282828282828282828282828282828282828282828282828282828282828282828282828282828282828282828282828282828282828282828282828282828282828282828282828282828282828282828282828282828282828282828282828282828282828,
  0x28282828282828282828282828282828282828282828282828282828282828282828282828282828282828282828282828282828282828282828282828282828282828282828282828282828282828282828282828282828282828282828282828282828282828282828282828282828282828282828282828282828282828283838383838383838383838030303030338555555555555555555555555555555555555555555555555555555555555555555555555555555555555555555555555555555555555555555555555555555555555555555555555555555555555555555555555555555555555555555555555555555555555555555555555555555,
  0x38383838383838383838383838383838383838383838383838383838383838383838383838383838383838383838383838383838383838383838383838383838383838383838383838383838383838383838383838383838383838383838383838383838383838383838383838383838383838383838383838383838383838383838383838383838383838383838383838383838383838383838383838383838383838383838383838383838383838383838383838383838383838382828282828282828282828282828282828282828282828282828282828282828282828282828282828282828282828282828282828282828282828282828282828282828,
  0x38383838383838383838383838383838383838383838383838383838383838383838383838383838383838383838383838383838383838383838383838383838383838383838383838383838383838383838383838383838383838383838383838383838383838383838383838383838383838383838383838383838383838383838383838383838383838383838383838383838383838383838383838383838383838383838383838383838383838383838383838383838383838383838383838383838383838383838383838383838383838383838383838383838383838383838383838383838383838383838383838383838383838383838383838383838,
  0x38383838383838383838383838030328282828282828282828282828282828282828282828282828282828282828282828282828282828282828282828282828282828282828282828282828282828282828282828282828282828282828282828282828282828282828282828282828383838383838383838383838383838383838383838383838383838383838383838383838383838383838383838383838383838383838383838383838383838383838383838383838383838383838383838383838383838383838383838383838383838383838383838383838383838383838383838383838383838383838383838383838383838383838383838383838,
  0x38383838383838383838383838383838383838383838383838383838383838383838383838383838383838383838383838383838383838383838383838383838383838383838383838383838383838383838383838383838383838383838383838383838383838383838383838383838383838383838383838383838383838383838383838383838383838383838383838383838383838383838383838383838383838383838383838383636363636363636363636363636362828282828283611111111111111111111111111111111282828282828282828282828282828282828282828282828282828282828282828282828282828282828282828282828,
  0x38383838383838383838383838383838383838383838383838383838383838383838383838383838383838383838383838383838383838383838383838383838383838383838383838383838383838383838383838383838383838383838383838383838383838383838383838383838383838383838383838383838383838383838383838383838383838383838383838383838383838383838383838383838383838383838383838383838383838383838383838383838382828282828282828282828282828282828282828282828282828282828282828282828282828282828282828282828282828282828282828282828282828282828282828282828,
  0x38383838383838383838033636363636383828282828282828282828282828282828282828282828282828282828282838383838383809090909090909090909382828282828282828282828282828282828282828282828282828282828282828282828282828282828282828282828282828282828282828282828282828282828282828282828282828282828282803033838383809090909090909090909382828282828282828282828282828282828282828282828282828282828282838383838383838282828282828282828282828282828282828282828282828282828282828282828282828282828282828282828282828282828282828282828,
  0x3838383838383838383838383838383838383838383838383838383838383838383838383838383838383838383838383838383838383838383838383838383838383838383838383838383838383838383838383838383838383838383838383838383838383838383838383838383828282828282828282828282828282828282828383838383828282828282828282828282828282828282828282838121212121212123809090909090909090909383838383838383838380e03353535350e0e0e0e030303030336363636363636282828282828282828282828282828282828282828282828282828282828282828282828282828282828282828282828,
  0x38383838383838383838383838383838383838383838383838383838383838383838383838383838383838383838383838383838383838383838383838383838383838383838383838383838383838383838383838383838383838383838383838383838380303030312121212121212121212121212121212121212121212120d0d0d0d0d0d0d0d0d0d0d0d0d0d0d0d0d0d0d0d0d0d0d0d0d0d0d0d0d0d0d0d0a0a0a0a0a0a0a0a0a0a0a0a0a0a0a0a0a0a0a0a0a0a0a0a0a0a0a0a0a0a0a0a38383838383838383838383838383838383838383838383838383838383838383838383838383838383838383838383838383838383838383838383838383838,
  0x38383838383838383838383838384f4f3838383838383838383838363503353538383838383838383838383838383838383838383838383838383838383838383838383838383838383838383838383838383838383838383838383838383838353535353535353535353535354e4e4e4e383838383838384f4f4f4f4f4f4f4f4f4f4f4f4f4f4f4f4f4f4f4f4f4f4f4f4f4f4f4f4f4f4f4f4f4f4f4f4f4f4f4f4f4f4f4f4f4f4f4f4f4f4f4f4f4f4f284e38383838282828282828282828282828282828282828282828282828282828282828282828282828282828282828282828282828282828282828282828282828282828282828282828282828282828,
  0x38383838383838382828282828282828282828282828282828282828282828282828282828282828282828282828282828282828282828282828282828282828282828282828282828282828282828282828282828282828282828282828282828282828282828282828282828282828282828282828282828282828282828282828282828282828282828282828282828282828282828282828282828282828282828282828282828282828282828282828282828282828282828282828282828282828282828282828282828282828282828282828282828282828282828282828282828282828282828282828282828282828282828282828282828282828,
  0x38383838383838383838383838383838383838383838383838383838383838383838383838383838383828282828282828282828282828282828282828282828282828282828282828282828282828282828282828282828282828282828282828282828282828282828282828282828282828282828282828282828282828282828282828282828282828282828282828282828282828282828282828282828282828282828282828282828282828282828282828282828282828282828282828282828282828282828282828282828282828282828282828282828282828282828282828282828282828282828282828282828282828282828282828282828,
  0x38383838383838383838383838383838383838383838383838383838383838383838383838383838383838383838383838383838383838383838383838383838383838383838383838383838383838383838383838383838383838383838383838383838383838383838383838383838383838383838383838383838383838383838383838383838383838383838383838383838383838383838383838383838383838383838383838383838383838383838383838383838383838383838383838383838383838383838383838383838383838383838383838383838383838383838383838383838383838383838383838383838383838282828282828282828,
  0x38353538353535353535353835353535383838383838383838383838383838383838383838383838383838383838383838383838383838383838383838383838383838383838383838383838383838383838383838383838383838383838383838383838383838383838383838383838383838383838383838383838383838383838383838383838383838383838383838383838383838383838383838383838383838383838383838383838383838383838383838383838383838383838383838383838383838383838383838383838383838383838383838383838383838383838383838383838383838383838383838383838383838383838383838383838,
  0x28282828282828282828282828282828282828282828282828282828282828282828282828282828282828282828282828282828282828282828282828282828282828282828282828282828282828282828282828282828282828282828282828282828282828282828282828282828282828282828282828282828282828282828282828282828282828282828282838383838383838382828282838383838383838383838383838382838382828283838383838383838383838383838383838383838383838383838383838283838383838383838383838383838382828282828282828282828282828282828282828282828282828282828282828282828,
  0x38383838282828282828282828282828282828282828282828282828282828282828282828282828282828282828282828282828282828282828282828282828282828282828282828282828282828282828282828282828282828282828282828282828282828282828282828282828282828282828282828282828282828282828282828282828282828282828282828282828282828282828282828282828282828282828282828282828282828282828282828282828282828282828282828282828282828282828282828282828282828282828282828282828282828282828282828282828282828282828282828282828282828282828282828282828,
  0x383838383838383838383838383838383838383838383838383838383838383838383838383838383838383838383838383838383838383838383838383838383838383838383838383838383838383838383838383838383838383811111111034e360e383828282828282828282828383838383838382828282828282828283838382828282828282828282828282838383838382828282828282828282828282828282828282828282828282828282828282828282828282828282828282828282828282828282828282828282828282828282828282828282828282828282828282828282828282828282828282828282828282828282828282828282828,
  0x3838383838383838383838383838383838383838383838383838383838383838383838383838383838383838383838383838383838383838383838380e0e0e0e0e0e0e0e0e0e0e0e0e0e0e0e0e0e0e0e0e0e0e0e0e0e0e0e0e0e0e0e0e0e0e0e0e0e0e0e0e0e0e0e0e0e0e0e0e0e0e0e0e0e0e0e0e0e0e0e0e0e0e0e0e0e0e0e0e0e0e0e0e0e0e0e0e0e0e0e0e0e0e0e0e0e0e0e0e0e0e0e0e0e0e0e0e0e0e0e0e0e0e0e0e0e0e0e0e0e0e0e0e0e0e0e3838383838383838383636363636363636363636363636363636363636363636383836363636363636363636363636363636363636363636363636363636363636363636363636363636363636363636,
  0x383838383838383838380e0e0e0e0e0e0e0e0e0e0e0e0e0e0e0e0e0e0e0e0e0e0e0e0e0e0e0e0e0e0e0e0e0e0e0e0e0e0e0e0e0e0e0e0e0e0e0e0e0e0e0e0e0e0e0e0e0e0e0e0e0e0e0e0e0e0e0e0e0e0e0e0e0e0e0e0e0e0e0e0e0e0e0e0e0e0e0e0e0e0e0e0e0e0e0e0e0e0e0e0e0e0e0e0e0e0e0e0e0e0e0e0e0e0e0e0e0e0e0e0e0e0e0e0e0e0e0e0e0e0e0e0e0e0e0e0e0e0e0e0e0e0e0e0e0e0e0e0e0e0e0e0e0e0e0e0e0e0e0e0e0e0e0e0e0e0e0e0e0e0e0e0e0e0e0e0e0e0e0e0e0e0e0e0e0e0e0e0e0e0e0e0e0e0e0e0e0e0e0e0e0e0e0e0e0e0e0e0e0e0e0e0e0e0e0e0e0e0e0e0e0e0e0e0e0e0e0e0e0e0e0e0e0e0e0e0e0e0e0e0e0e0e0e0e0e,
  0x3838383838383838383838383838383838383838380e0e0e0e0e0e0e0e0e0e0e0e0e0e0e0e0e0e0e0e0e0e0e0e0e0e0e0e0e0e0e0e0e0e0e0e0e0e0e0e0e0e0e0e0e0e0e0e0e0e0e0e0e0e0e0e0e0e0e0e0e363636360e0e0e0e0e0e0e0e0e0e0e0e0e0e0e0e0e0e0e0e0e0e0e0e0e0e0e0e0e0e363636363636360e0e363636363636363611111111111111115151515151510e0e0e36363651510e0e0e0e0e0e0e0e0e0e0e0e0e0e0e0e0e0e0e0e0e0e0e0e0e0e0e0e0e0e0e0e0e0e0e0e0e0e0e0e0e0e0e0e0e0e0e0e0e0e0e0e0e0e0e0e0e0e0e0e38380e0e0e0e0e0e0e0e0e0e0e0e0e0e0e0e0e0e0e0e0e0e0e0e0e0e0e0e0e0e0e0e0e0e0e0e0e0e0e,
  0x3838383838383838383838381212121212121212121212121212121212121212383838383838383838383838121212121212121212121212121212121212121238383838383838383838383838383838383838383838383838383838383838383838383838383838383838383838383838383838383838383838383838383838383838383838383838383838383838383838383838383838383838383838383838383838383838383838383838383838383838383838383838380e3636360e0e0e0e0e0e0e0e0e0e0e0e0e0e0e0e0e0e0e0e0e0e0e0e0e0e0e0e0e0e0e0e0e0e0e0e0e0e0e0e0e0e0e0e0e0e0e0e0e0e0e0e0e0e0e0e0e0e0e0e0e0e0e0e0e0e,
  0x383838383838383838383838383838383838383838383838383838383838383838383838383838383838383838383838383838383838383838383838383838383838383838383838383838383838383838383838383838383838383838383838383838383838383838383838383838383838383838383838383838383838383838383838383838121212121212121212121212121212121212121212121212123838383838383838380e0e0e0e0e0e0e0e0e0e0e0e0e0e0e0e0e0e0e0e0e0e0e0e0e0e0e0e0e0e0e0e0e0e0e0e0e0e0e0e0e0e0e0e0e0e0e0e0e0e0e0e0e0e0e0e0e0e0e0e0e0e0e0e0e0e0e0e0e0e0e0e0e0e0e0e0e0e0e0e0e0e0e0e0e0e0e,
  0xd0d0d0d0d0d0d0d0d0d0d0d0d0d0d0d0d0d0d0d0d0d17171717171717171717171717171717171717171717171717170d0d0d0d0d0d0d0d0d0d0d380d0d0d0d0d0d0d380d380d0d0d0d17171717171717173817171717383817173838173838171738170d0d0d0d0d0d0d0d0d0d0d0d0d0d0d0d0d0d0d0d0d0d0d0d0d0d17171717171717171717171717171717171717171717171717170d0d0d0d0d0d0d0d0d0d0d0d0d0d0d0d0d0d380d0d0d0d0d0d0d17171717171717171717171717171717171717171717171717170d0d0d0d0d0d0d0d0d0d0d0d0d0d0d0d0d0d0d0d0d0d0d0d0d0d1717171717171717171717171717171717171717171717171717,
  0xd0d0d0d0d0d0d0d0d0d0d0d0d0d0d0d0d0d17171717171717171717171717171717171717171717171717170d0d0d0d0d0d0d0d0d0d0d0d0d0d0d0d0d0d0d0d0d0d0d0d0d0d17171717171717171717171717171717171717171717171717170d0d0d0d0d0d0d0d0d0d0d0d0d0d0d0d0d0d0d0d0d0d0d0d0d0d17171717171717171717171717171717171717171717171717170d0d0d0d0d0d0d0d0d0d0d0d0d0d0d0d0d0d0d0d0d0d0d0d0d0d38171717171717173838381738171717171738171717173817170d0d0d0d0d0d0d0d0d0d0d0d0d0d0d0d0d0d0d0d0d0d0d0d0d0d38171717171717173817171717171717173838171717173817170d0d0d0d,
  0xd0d0d0d07171717171717171717171717171717171717171717171717170d0d0d0d0d0d070d0d0d0d0d0d0d0d0d0d0d0d0d0d0d0d0d0d0d0d0d0d0d0d0d071717171717171717171717171717171717171717171717171738380d0d0d0d0d0d0d0d0d0d0d0d0d0d0d0d0d0d0d0d0d0d0d0d0d0d0d0d17171717171717171717171717171717171717171717171717170d0d0d0d0d0d0d0d0d0d0d0d0d0d0d0d0d0d0d0d0d0d0d0d0d0d17171717171717171717171717171717171717171717171717170d0d0d0d0d0d0d0d0d0d0d0d0d0d0d0d0d0d0d0d0d0d0d0d0d0d17171717171717171717171717171717171717171717171717170d0d0d0d0d0d0d0d,
  0x90909090909090909090909090909090909090909090909090909090909090909090909090909090909090909090909090938380d170d0d0d0d0d0d070d0d0d0d0d0d0d0d0d0d0d0d0d0d0d0d0d0d0d0d0d0d0d0d0d07171717171717171717171717171717171717171717171717170d0d0d0d0d0d070d0d0d0d0d0d0d0d0d0d0d0d0d0d0d0d0d0d0d0d0d0d0d0d0d07171717171717171717171717171717171717171717171717170d0d0d0d0d0d070d0d0d0d0d0d0d0d0d0d0d0d0d0d0d0d0d0d0d0d0d0d0d0d0d07171717171717171717171717171717171717171717171717170d0d0d0d0d0d070d0d0d0d0d0d0d0d0d0d0d0d0d0d0d0d0d0d0d0d0d,
  0x383838383838383838383838383838383838383838383838383838383838383838383838383838383838383838383838383838383838383838383838383838383838383838383838383838383838383836363636363636363636363636363638363636363638383838383838383838383838383803030303030e0e360e0e0e0e0e0e0e0e0e0e0e0e0e0e360e0e0e0e0e0e0e0e36363636363636363636363636363636363636363636363636363636363636363636363636363636363636363636363636360e0e0e0e36363636363636363636363636363636363636363636363636363636363636363636363636363636363636363636363636363636363636,
  0x3838383838383838383838383838383838383838383838383838383838383838383838383838383838383838383838383838383838383838383838383838383838383838383838383838383838383838383838383838383838383838383838383838383838383838383838383838383838383838383838383838383838383838383838383838383838383838383838383838383838383838383838383838383838383838383838383838383838383838383838383838383838383838383838383838383838383838383838383838383838383838380d0d0d0d0d0d3838383838380d0d0d0d0d0d0d0d0d0d0d0d0d0d0d0d0d0d0d0d280d0d0d0d0d0d0d0d0d0d,
  0x383838383838383838383838383838383838383838383838383838383838383838383838383838383838383838383838383838383838383838383838383838383838383838383838383838383838383838383838383838383838383838383838383838383838383838383838383838384e383838383838383838383838383838383838383838383838383838383838383838343434343434343434343434343434343434343434343434343434343434343434343434343434343434343434343434343434343434343434343434343438383838384e4e4e4e4e384e4e384e4e4e4e4e4e4e38384e4e4e4e4e4e4e4e4e4e4e4e4e4e4e4e4e384e4e4e4e4e4e4e,
  0x38383838383838383838383838383838383838383838383838383838383838383838383838383838383838383838383838383838383838383838383838383838383838383838383838383838383838383838383838383838383838383838383838383838383838383838383838383838383838383838383838383838383838383838383838383838383838383838383838383838383838383838383838383838383838383838383838383838383838380e28383838380909090909090909090938383535353535353536363636363636383838282828282828282828282828282828282828282828282828282828282828282828282828282828282828282828,
  0x4383838383809090909090909090909363636362828282828282828282828282828282828282828282828282828282828282828282828282828282828282828383838383838383838383838383838383836282828282828282828282828282828282828282828282828282828282828383838383838383838383838383838383838383838383838383838383838383838383838383838383838383838383838383838383838383838383838383838383838383838383838383838383838383838383838383838383838383838383838383838383838383838383838383838383838383838383838383838383838383838383838383838383838383838383838,
  0x38383838383809090909090909090909363636363528282828282828282828282828282828282828282828282828282838383838383838383838383838383838383838383838383838383838383838383838383838383838383838383838383838383838383838383838383838383838383838383838383838383838383838383838383838383838383838383838383838383838383838383838383838383838383838383838383838383838383838383838383838383838383838383838383838383838383838383838383838383838383838383838383838383838383838383838383838383838383838383838383838383838383838383838383838383838,
  0x38282828282828282828282828282828382828382828282838282828282828283838383838383838383838383838383838383838383838383838383838383838383838383838383838383838383838383838383838383838383838383838383838383838383838383838383838383838383838383838383838383838383838383838383838383838383838383838383838383838383838383838383838383838383838383838383838383838383838383838383838383838383838383838383838383838383838383838383838383838383838383838383838383838383838383838383838383838383838383838383838383838383838383838383838383838,
  0x38383838383838383838383838383838383838383838383838383838383838383838383838383838383636363636363612121212121212121238382828282828282828282828282828282828282828282828282828282828282828282828282828282828282828282828282828282828282828282828282828282828282828282828282828282828282828282828282828282828282828282828282828282828282828282828282828282828282828282828282828282828282828282828282828282828282828282828282828282828282828282828282828282828282828282828282828282828282828282828282828282828282828282828282828282828,
  0x383838383838383838383838383838383838383838383838383838383838383838383838383838383838383838383838383838383838383838383838383838383838383838383838383838383838383838383838383838383838383838383838383838383838383838383838383838383838383838383838383838383838383838383838383838383838383838383838383838383838383838383838383838380303383838380909090909090909090938383838353636364e3636360d0d0d0d0d0d0d0d0d0d0d0d0d0d0d0d0d0d0d0d0d0d0d0d0d0d0d0d0d0d0d0d0d0d96969696969696969696969696969696969696969696969696969696969696969696,
  0x38383838383838383838383838383838383838383838383838383838383838383838383838383838383838383838383838383838383838383838383838383838383838383838383838383812121212041212120e12121212121212121212121212121212121212121212121212121212121212121212121212121212121212121212121212121212121212121212123838383838383838383838383838383838383838383838383838383838383838383838383838383838383838383838383838383838383838383838383838383838383838383838383838383838383838383838383838383838383838383838383838383838383838383838383838383838,
  0x38383838383838383838383838383838383838383838383838383838383838383838383838383838383838383838383838383838383838383838383838383838383838383838383838383838383838383838383838383838383838383838383838383838383838383838383838383838383838383838383838383838383838383838383838383838383838383838383838383838383838383838383838383838383838383838383838383838383838383838383838383838383838383838383838381212121212121212121212121212120e12121212121212121212121212121212121212121212121212121212121212121212121212121212121212121238,
  0x38383838383838383838383838380707383838383838383838383838383838383838383838383838383838383838383838383838383838383838383838383838383838382828282828282828282828282828282828382828282828382828283838383838282828282828282828282828282828282838282828282828282828283828382828282838282828283828282828282828382828282838382838282838283828382838283828383828382828382828283828382838283838383828383838383838283828382828282838282828282828282828283828383828382828382828282828282828282828282828282828282828282828282828283828282828,
  0x383838383838383838380e0e0e0e0e0e0e0e0e0e0e0e0e0e0e0e0e0e0e0e0e0e0e0e0e0e0e0e0e0e0e0e0e0e0e0e0e380e0e0e0e0e0e0e0e0e0e0e0e0e0e0e380e0e0e0e0e0e0e0e0e0e0e0e0e0e0e38380e0e0e0e0e0e0e0e0e0e0e0e0e0e0e3838383838383838383838380e0e0e0e0e0e0e0e0e0e0e0e0e0e0e0e0e0e0e0e0e0e0e0e0e0e0e0e0e0e0e0e0e0e0e0e0e0e0e0e0e0e0e0e0e0e0e0e0e0e0e0e0e0e0e0e0e0e0e0e0e0e0e0e0e0e0e0e0e0e0e0e0e0e0e0e0e0e0e0e0e0e0e0e0e0e0e0e0e0e0e0e0e0e0e0e0e0e0e0e383838380e0e0e0e0e0e0e0e0e0e0e0e0e0e0e0e0e0e0e0e0e0e0e0e0e0e0e0e0e0e0e0e0e0e0e0e0e0e0e0e0e0e0e0e,
  0xe0e0e0e0e0e0e0e0e0e0e0e0e0e0e0e0e0e0e0e0e0e0e0e0e0e38383838383838383838383838383838383838383838383838383838383838383838383838383838383838383838383838383838383838380e0e0e0e0e0e0e0e0e0e0e0e0e0e0e0e0e0e0e0e0e0e0e0e0e0e0e0e0e0e0e0e0e0e0e0e97979797979797979797979797979797979797979797979797970e0e0e0e0e0e97979797979797979797979797979797979797979797979797970e0e0e0e0e0e97979797979797979797979797979797979797979797979797970e0e0e0e0e0e0e0e0e0e0e0e0e0e0e0e0e0e0e0e0e0e0e0e0e0e0e0e0e0e0e0e0e0e0e12121212121212121212121212,
  0x383838383838383838383838383838383838383838383838383838383838383838383838383838383838383838383838383838383838383838383838383838383838383838383838383838383838383838383838383838383838383838383838383838383838383838383838383838383838383838383838383838383838383838383838383838383838383838383838383838383838383838380e0e0e0e0e0e38383838383838383838383838380e0e383838383838380e0e0e0e0e0e0e0e0e383838380e0e0e0e0e0e0e0e0e0e0e0e0e0e0e0e0e0e0e0e0e0e0e0e0e0e0e0e0e0e0e0e0e0e0e0e0e0e0e0e0e0e0e0e383838383838383838383838380e0e0e,
  0xb0b0b0b0b0e0e0e0e0e0e0e0e0e0e0e0e0e0e0e0e0e0e0e0e0e0e0e0e0e0e0e0e0e0e0e0e0e0e0e0e0e0e0e0e0e0e0e0e0e0e0e0e0e0e0e0e0e0e0e0e0e0e0e0e0e0e0e0e0e0e0e0e0e0e0e0e0e0e0e0e0e0e0e0e0e0e0e0e0e0e0e0e0e0e0e0e0e0e0e0e0e0e0e0e0e0e0e0e0e0e0e0e0e0e0e0e0e0e0e0e0e0e0e0e0e0e0e0e0e0e0e0e0e0e0e0e0e0e0e0e0e0e0e0e0e0e0e0e0e0e0e0e0e0e0e0e0e0e0e0e0e0e0e0e0e0e0e0e0e0e0e0e0e0e0e0e0e0e0e0e0e0e0e0e0e0e0e0e0e0e0e0e0e0e0e0e0e0e0e0e0e0e0e0e0e0e0e0e0e0e0e0e0e0e0e0e0e0e0e0e0e0e0e0e0e0e0e0e0e0e0e0e0e0e0e0e0e0e0e0e0e0e0e0e0e0e0e0e0e0e0e0e0e0e0e,
  0x3838380e0e0e0e0e0e0e0e0e0e0e0e0e3838380e0e0e0e0e0e0e0e0e0e0e0e0e0e0e0e0e383838380e0e0e0e0e0e0e0e0e0e0e0e0e0e0e0e0e0e0e0e0e0e0e0e0e0e0e0e0e0e0e0e0e0e0e0e0e0e0e0e0e0e0e0e0e0e0e0e0e0e0e0e0e0e0e0e0e0e0e0e0e0e0e0e0e0e0e0e0e0e0e0e0e0e0e0e0e0e0e0e0e0e0e0e0e0e0e0e0e0e0e0e0e0e0e0e0e0e0e0e0e0e0e0e0e0e0e0e0e0e0e0e0e0e0e0e0e0e0e0e0e0e0e0e0e0e0e0e0e0e0e0e0e0e0e0e0e0e0e0e0e0e0e0e0e0e0e0e0e0e0e0e0e0e0e0e0e0e0e0e0e0e0e0e0e0e0e0e0e0e0e0e0e0e0e0e0e0e0e0e0e0e0e0e0e0e0e0e0e0e0e0e0e0e0e0e0e0e0e0e0e0e0e0e0e0e0e0e0e0e0e0e0e0e0e0e,
  0x3838383838383838383838383838380e383838380e0e0e0e0e0e0e0e0e0e0e0e3838383838380e0e0e0e0e0e0e0e0e0e0e0e0e0e0e0e0e0e0e0e0e0e0e0e0e0e0e0e0e0e0e0e0e0e0e0e0e0e0e0e0e0e0e0e0e0e0e0e0e0e0e0e0e0e0e0e0e0e0e0e0e0e0e0e0e0e0e0e0e0e0e0e0e0e0e0e0e0e0e0e0e0e0e0e0e0e0e0e0e0e0e0e0e0e0e383838380e0e0e0e0e0e0e0e0e0e0e0e0e0e0e0e0e0e0e0e0e0e0e0e0e0e0e0e0e0e0e0e0e0e0e0e0e0e0e0e0e0e0e0e0e0e0e0e0e0e0e0e0e0e0e0e0e0e0e0e0e0e0e0e0e0e0e0e0e0e0e0e0e0e0e0e0e0e0e0e0e0e0e0e0e0e0e0e0e0e0e0e0e0e0e0e0e0e0e0e0e0e0e0e0e0e0e0e0e0e0e0e0e0e0e0e0e0e0e,
  0x3838383838383838383838383838383838383838383838383838383838383838383838383838383838383838383838383838383838383838383838383838383838383838383838383838383838380e0e38380e0e0e0e0e0e0e0e0e0e0e0e0e0e0e0e0e0e0e0e0e0e0e0e0e0e0e0e0e0e38383838383838380e0e0e0e0e0e0e0e0e0e0e0e0e0e0e0e0e0e0e0e0e0e0e0e0e0e0e0e0e0e0e0e0e0e0e0e0e0e0e0e3838383838380e0e0e0e0e0e0e0e0e0e38383838383838380e0e0e0e0e0e0e0e0e0e0e0e0e0e0e0e0e0e0e0e0e0e0e0e0e0e0e0e0e0e0e0e0e0e0e0e0e0e0e0e0e0e0e0e0e0e0e0e0e0e0e0e0e0e0e0e383838380e0e0e0e0e0e0e0e0e0e0e0e,
  0x383838383838380e0e0e0e0e0e0e0e0e383838383838380e0e0e0e0e0e0e0e0e383838380e0e0e0e0e0e0e0e0e0e0e0e0e0e38383838383838380e0e0e0e0e0e0e380e0e0e0e0e0e0e0e0e0e0e0e0e0e0e0e0e0e0e0e0e0e0e0e0e0e0e0e0e0e0e0e0e0e0e0e0e0e0e0e0e0e0e0e0e0e383838383838380e0e0e0e0e0e0e0e0e3838380e0e0e0e0e0e0e0e0e0e0e0e0e38380e0e0e0e0e0e0e0e0e0e0e0e0e0e3838383838383838383838380e0e0e0e0e0e0e0e0e0e0e0e0e0e0e0e0e0e0e0e0e0e0e0e0e0e0e0e0e0e0e0e0e0e0e0e0e0e0e0e0e0e0e0e0e0e0e0e0e0e0e0e0e0e0e0e0e0e0e0e0e0e0e0e0e0e0e0e0e0e0e0e0e0e0e0e0e0e0e0e0e0e0e0e,
  0x38383838383809090909090909090909383838383838383838383838383838383838383838383838383838383838383838383838380e0e0e0e0e0e0e0e0e0e0e0e0e0e0e0e0e0e0e0e0e0e0e0e0e0e0e0e0e0e0e0e0e0e0e0e0e0e0e0e0e0e0e0e0e0e0e0e0e0e0e0e0e0e0e380e0e0e0e0e0e0e0e0e0e0e0e0e0e0e0e0e0e0e0e0e0e0e0e0e0e0e0e0e0e0e0e0e0e0e0e0e0e0e0e0e0e0e0e0e0e0e0e0e0e0e0e0e0e0e0e0e0e0e0e0e0e0e0e0e0e0e0e0e0e0e0e0e0e0e0e0e0e0e0e0e0e0e0e0e0e0e0e0e0e0e0e0e0e0e0e0e0e0e0e0e0e0e0e0e0e0e0e0e0e0e0e0e0e0e0e0e0e0e0e0e0e0e0e0e0e0e0e0e0e0e0e0e0e0e0e0e0e0e0e0e0e0e0e0e0e0e,
  0x38383838383838383838383838383838383838383838383838383838383838382828282828282828282828282828282828282828282828282828282828282828282828282828282828282828282828282828282828282828282828282828282828282828282828282828282828282828282828282828282828282828282828282828282828282828282828282828282828282828282828282828282828282828282828282828282828282828282828282828282828282828282828282828282828282828282828282828282828282828282828282828282828282828282828282828282828282828282828282828282828282828282828282828282828282828,
  0x28282828282828282828282828282828282828282828282828282828282828282828282828282828282828282828282828282828282828282828282828282828282828282828282828282828282828282828282828282828282828282828282828282828282828282828282828282828282828282828282828282828282828282828282828282828282828282828282828282828282828282828282828282828282828282828282828282828282828282828282828282828282828282828282838383838383828282828282828282828282828282828282828282828282828282828282828282828282828282828282828282828282828282828282828282828,
  0x28282828282828282828282828282828282828282828282828282828282828282828282828282828282828282828282828282828282828282828282828282828282828282828282828282828282828282828282828282828282828282828282828282828282828282828282828282828282828282828282828282828282828282828282828282828282828282828282828282828282828282828282828282828282828282828282828282828282828282828282828282828282828282828282828282828282828282828282828282828282828282828282828282828282828283838282828282828282828282828282828282828282828282828282828282828,
  0x28282828282828282828282828282828282828282828282828282828282828282828282828282828282828282828282828282828282828282828282828282828282828282828282828282828282828283838383838383838383838383838282828282828282828282828282828282828282828282828282828282828282828282828282828282828282828282828282828282828282828282828282828282828282828282828282828282828282828282828282828282828282828282828282828282828282828282828282828282828282828282828282828282828282828282828282828282828282828282828282828282828282828282828282828282828,
  0x38383838383838383838383838383838383838383838383838383838383838282828282828282828282828282828282828282828282828282828282828282828282828282828282828282828282828282828282828282828282828282828282828282828282828282828282828282828282828282828282828282828282828282828282828282828282828282828282828282828282828282828282828282828282828282828282828282828282828282828282828282828282828282828282828282828282828282828282828282828282828282828282828282828282828282828282828282828282828282828282828282828282828282828282828282828,
  0x38383838383838383838383838383838383838383838383838383838383838383838383838383838383838383838383838383838383838383838383838383838383838383838383838383838383838383838383838383838383838383838383838383838383838383838383838383838383838383838383838383838383838383838383838383838383838383838383838383838383838383838383838383838383838383838383838383838383838383838383838383838383838383838383838383838383838383838383838383838383838383838383838383838383838383838282828282828282828282828282828282828282828282828282828282828,
  0x28282828282828282828282828282828282828282828282828282828282828282828282828282828282828282828282828282828282828282828282828282828282828282828282828282828282828282828282828282828282828282828282828282828282828282828282828282828282828282828282828282828282828282828282828282828282828282828282828282828282828282828282828282828282828282828282828282828282828283838383838282828282828282828282828282828282828282828282828282828282828282828282828282828282828282828282828282828282828282828282828282828282828282828282828282828,
  0x38383838383838383838383838383838383838383838383838383838383838383838383838383838383838383838383838383838383838383838383838383838383838383838383838383838383838382828282828282828282828282828282828282828282828282828282828282828282828282828282828282828282828282828282828282828282828282828282828282828282828282828282828282828282828282828282828282828282828282828282828282828282828282828282828282828282828282828282828282828282828282828282828282828282828282828282828282828282828282828282828282828282828282828282828282828,
  0x38383838383838383838383838383838383838383838383838383838383838383838383838383838383838383838383838383838383838383838383838383838383838383838383838383838383838383838383838383838383838383838383838383838383838383838383838383838383838383838383838383838383838381111111111111111111111111111111111111111111111111111111111111111111111111111111111111111111111111111111111111111111111111111111111111111111111111111111111111111111111111111111111111111111111113838383838383838383838383838383838383838383838383838383838381138,
  0x38383838383838383838383838383838363636363636363636363636363636363636363636363636363636363636363636363636363636363636363636363636363636363636363636363636363636363636363636363636363636363636363636363636363636363636363636363636363636363636363636363636363636363636363636363636363636363636363636363636363636363636363636363636363636363636363636363636363636363636363636363636363636363636363636363636363636363636363636363636363636363636363636363636363636363636363636363636363636363636363636363636363636363636363636363636,
  0x38389191919191919191919191919191919191919191919191919191919191919191919191919191919191919191919191919191919191919191919191919191919191919191919191919191919191919191919191919191919191919191919191919191919191919191919191919191919191919191919191919191919191919191919191919191919191919191919191919191919191919191919191919191919191919191919191919191919191919191919191919191919191919191919191919191919191919191919191919191919191919191919191919191919191919191919191919191919191919191919191919191919191919191919191919191]

/-- `category`, unicode_database.hpp. -/
def category : List Cat := [
  .Cc, .Cc, .Zs, .Po, .Sc, .Ps, .Pe, .Sm, .Pd, .Nd, .Lu, .Sk, .Pc, .Ll, .So, .Lo, .Pi, .Cf, .No, .Ll,
  .Po, .Pf, .Lu, .Lu, .Lu, .Ll, .Lu, .Lu, .Lu, .Lu, .Lu, .Lu, .Lu, .Lu, .Lu, .Lu, .Lu, .Lu, .Lu, .Lu,
  .Lo, .Lu, .Lt, .Lu, .Lu, .Lu, .Lu, .Lu, .Lu, .Lu, .Lu, .Lu, .Lm, .Lm, .Mn, .Mn, .Cn, .Lm, .Lu, .Lu,
  .Lu, .Lu, .Lu, .Ll, .Lu, .Ll, .Ll, .Ll, .Ll, .Ll, .Ll, .Lu, .Ll, .Lu, .Lu, .Me, .Lu, .Lu, .Mn, .Mc,
  .Lo, .Mc, .Lu, .No, .Ll, .Nl, .Mn, .Ll, .Ll, .Ll, .Ll, .Ll, .Ll, .Ll, .Ll, .Lu, .Ll, .Lu, .Lu, .Lt,
  .Lu, .Lt, .Ll, .Lu, .Lu, .Lu, .Lu, .Lu, .Cf, .Zl, .Zp, .Sm, .Lu, .Lu, .Lu, .So, .Lu, .Nl, .Nl, .So,
  .So, .Lu, .Lu, .Lu, .Lu, .Lu, .Lu, .Lu, .Lu, .Lm, .Lu, .Lu, .Lu, .Lu, .Lu, .Lu, .Lu, .Lu, .Lu, .Lu,
  .Lu, .Lu, .Lu, .Ll, .Cs, .Co, .Lo, .Lm, .Lu, .Lu, .Lu, .So]

/-- `binary_properties`, unicode_database.hpp; bit masks of `binary_properties_t`. -/
def binaryProperties : List Nat := [
  0, 1, 1, 0, 0, 0, 0, 0, 0, 64, 108, 0, 64, 116, 0, 116, 0, 0, 0, 116, 64, 0, 108, 108, 108,
  116, 108, 108, 108, 108, 108, 108, 108, 108, 108, 108, 108, 108, 108, 108, 100, 108, 100, 108, 108, 108, 108, 108, 108, 108,
  108, 108, 116, 100, 64, 84, 0, 20, 108, 108, 108, 108, 108, 116, 108, 116, 116, 116, 116, 116, 116, 108, 116, 108, 108,
  0, 108, 108, 68, 68, 68, 64, 108, 64, 116, 100, 100, 116, 116, 116, 116, 116, 116, 116, 116, 108, 116, 108, 108, 100,
  108, 100, 116, 108, 108, 108, 108, 108, 2, 1, 1, 96, 108, 108, 108, 96, 108, 108, 116, 12, 20, 108, 108, 108, 108,
  108, 108, 108, 108, 4, 108, 108, 108, 108, 108, 108, 108, 108, 108, 108, 108, 108, 108, 116, 0, 0, 4, 68, 108, 108,
  108, 12]

/-- `case_folding_offset`, unicode_database.hpp. -/
def caseFoldingOffset : List Int := [
  0, 0, 0, 0, 0, 0, 0, 0, 0, 0, 32, 0, 0, 0, 0, 0, 0, 0, 0, 775,
  0, 0, 1, 0, -121, -268, 210, 206, 205, 79, 202, 203, 207, 211, 209, 213, 214, 218, 217, 219,
  0, 2, 1, -97, -56, -130, 10795, -163, 10792, -195, 69, 71, 0, 0, 0, 116, 0, 0, 116, 38,
  37, 64, 63, 1, 8, -30, -25, -15, -22, -54, -48, -60, -64, -7, 80, 0, 15, 48, 0, 0,
  0, 0, 7264, 0, -8, 0, 0, -6222, -6221, -6212, -6210, -6211, -6204, -6180, 35267, -3008, -58, -7615, -8, -8,
  -74, -9, -7173, -86, -100, -112, -128, -126, 0, 0, 0, 0, -7517, -8383, -8262, 0, 28, 16, 0, 26,
  0, -10743, -3814, -10727, -10780, -10749, -10783, -10782, -10815, 0, -35332, -42280, -42308, -42319, -42315, -42305, -42258, -42282, -42261, 928,
  -48, -42307, -35384, -38864, 0, 0, 0, 0, 40, 39, 34, 0]

/-- `block_starts[i]`. -/
def blockStart (i : Nat) : Option Nat := (blockStartRows[i / 256]?).map (byteOf · (i % 256))

/-- `blocks[block_start * 256 + low]` for `low < 256`. -/
def blockAt (b low : Nat) : Option Nat := (blockRows[b]?).map (byteOf · low)

/-- `property_index`, unicode_database.hpp. -/
def propertyIndex (cp : Nat) : Option Nat :=
  if cp ≤ 0x10FFFF then
    let high := (cp >>> 8) &&& 0xFFFF
    let low := cp &&& 0xFF
    (blockStart high).bind (blockAt · low)
  else none

/-- `code_point::general_category`, code_point.hpp l.260-267. -/
def generalCategory (cp : Nat) : Option Cat :=
  if cpIsValid cp then (propertyIndex cp).bind (category[·]?) else some .Cn

/-- `simple_case_fold`, code_point.hpp l.269-277.  The sum is formed in `int_least32_t` and converted to
    `char32_t`. -/
def simpleCaseFold (cp : Nat) : Option Nat :=
  if cpIsValid cp then
    ((propertyIndex cp).bind (caseFoldingOffset[·]?)).map fun off => (((cp : Int) + off) % 4294967296).toNat
  else some cp

/-- `binary_properties_t`, unicode_database.hpp: the number of a property is its bit. -/
inductive BinProp
  | whitespace | joinControl | alphabetic | uppercase | lowercase | xidStart | xidContinue
  deriving DecidableEq, Repr

def BinProp.bit : BinProp → Nat
  | .whitespace => 0 | .joinControl => 1 | .alphabetic => 2 | .uppercase => 3 | .lowercase => 4
  | .xidStart => 5 | .xidContinue => 6

/-- `code_point_has_properties<Props...>`, code_point.hpp l.281-290. -/
def hasProperties (ps : List BinProp) (cp : Nat) : Option Bool :=
  let mask := ps.foldl (fun m p => m ||| (1 <<< p.bit)) 0
  ((propertyIndex cp).bind (binaryProperties[·]?)).map fun props => (props &&& mask) != 0

end Verif.Udb
