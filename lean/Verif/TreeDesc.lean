/-!
# `lexy_ext::parse_tree_desc`: descriptions of parse trees

Model of lexy_ext/parse_tree_doctest.hpp: the text built for a tree (by `StringMaker::convert`) and for
an expected tree (by calls of `token`, `production` and `finish`), and their comparison.

Simplified: a node of the tree is given by the name of its kind, a token also by its text (`kind()`,
`token()` and `traverse()` of parse trees are modelled in `ParseTree.lean`, with the theorems C30 to
C34). Strings are lists of characters; `doctest::String` is a list with concatenation.
-/

namespace Verif.Desc

/-- A string. -/
abbrev Str := List Nat

/-- The type of a code unit: plain `char` where it is signed, `char8_t` and `unsigned char`, and the types
    with more than eight bits. -/
inductive CharT
  | schar
  | uchar
  | wide
  deriving DecidableEq

/-- The value `int(c)` of the code unit `u`. -/
def CharT.toInt : CharT → Nat → Int
  | .schar, u => if u < 128 then u else (u : Int) - 256
  | .uchar, u => u
  | .wide, u => u

/-- `std::isprint(c)` in the "C" locale; the behaviour is undefined unless `c` is `EOF` (-1) or a value
    of `unsigned char` (C17 7.4 p1). -/
def isprint (c : Int) : Option Bool :=
  if c = -1 then some false
  else if 0 ≤ c ∧ c ≤ 255 then some (decide (0x20 ≤ c ∧ c ≤ 0x7E))
  else none

/-- `unsigned(c)`. -/
def toUnsigned (c : Int) : Nat := (c % 2 ^ 32).toNat

/-- A hexadecimal digit as `%x` prints it. -/
def hexDigit (d : Nat) : Nat := if d < 10 then 48 + d else 87 + d

/-- `%x`, for numbers below 256. -/
def hex (n : Nat) : Str := if n < 16 then [hexDigit n] else [hexDigit (n / 16), hexDigit (n % 16)]

/-- The body of the loop of `token`, l.41-57: the text for one code unit. `\"` for `"`, the character
    itself if it is printable, otherwise `\{%x}` of `unsigned(c) % 0xFF`. -/
def escUnit (ty : CharT) (u : Nat) : Option Str :=
  if u = 34 then some [92, 34]
  else (isprint (ty.toInt u)).map fun p =>
    if p then [u] else [92, 123] ++ hex (toUnsigned (ty.toInt u) % 0xFF) ++ [125]

/-- The loop of `token`, l.39-58. -/
def esc (ty : CharT) : Str → Option Str
  | [] => some []
  | u :: us => (escUnit ty u).bind fun a => (esc ty us).map (a ++ ·)

/-- `parse_tree_desc`, l.156-157: the text and the level. -/
structure Desc where
  tree : Str
  level : Int

/-- `parse_tree_desc()`, l.18-21. -/
def Desc.init : Desc := ⟨[10], 0⟩

/-- `prefix()`, l.142-154. -/
def indentOf (level : Int) : Str :=
  List.replicate 12 32 ++
    if level > 0 then List.replicate (2 * (level - 1).toNat) 32 ++ [45, 32] else []

/-- What can be done with a description. -/
inductive Op
  | token (kind text : Str)
  | production (name : Str)
  | finish

/-- `token` l.31-61, `production` l.97-106, `finish` l.113-117. -/
def Desc.step (ty : CharT) (d : Desc) : Op → Option Desc
  | .token kind text => (esc ty text).map fun s =>
      { d with tree := d.tree ++ indentOf d.level ++ kind ++ [58, 32, 34] ++ s ++ [34, 10] }
  | .production name => some ⟨d.tree ++ indentOf d.level ++ name ++ [58, 10], d.level + 1⟩
  | .finish => some { d with level := d.level - 1 }

def Desc.run (ty : CharT) (d : Desc) : List Op → Option Desc
  | [] => some d
  | op :: ops => (d.step ty op).bind fun d' => d'.run ty ops

/-- `toString`, l.119-122: with nine spaces behind the text. -/
def Desc.toString (d : Desc) : Str := d.tree ++ List.replicate 9 32

/-- A parse tree, as far as it is described. -/
inductive Tree
  | tok (kind text : Str)
  | prod (name : Str) (kids : List Tree)

mutual
/-- The loop of `convert` over `tree.traverse()`, l.172-187: `production` for `enter`, `finish` for
    `exit`, `token` for `leaf`; traversal is that of C32. -/
def Tree.ops : Tree → List Op
  | .tok k t => [.token k t]
  | .prod n kids => .production n :: (opsL kids ++ [.finish])
def Tree.opsL : List Tree → List Op
  | [] => []
  | t :: ts => t.ops ++ opsL ts
end

/-- `StringMaker<parse_tree>::convert`, l.168-190; an empty tree has no nodes. -/
def convert (ty : CharT) (t : Option Tree) : Option Str :=
  (Desc.init.run ty ((t.map Tree.ops).getD [])).map Desc.toString

/-- `operator==(desc, tree)`, l.124-139, of the description made by these calls. -/
def equal (ty : CharT) (ops : List Op) (t : Option Tree) : Option Bool :=
  (Desc.init.run ty ops).bind fun d => (convert ty t).map fun s => decide (d.toString = s)

end Verif.Desc
