import Verif.JsonValues

/-
Model of the output of examples/json.cpp, l.50-135: `ast::json_value::print`.

`std::fputs`, `std::fputc` and `std::fprintf` append to the output; the C locale; `char` is signed, as on the common platforms:
then `std::iscntrl(c)` is undefined behavior for the bytes 0x80 to 0xFE (0xFF is `EOF`).  `none`: undefined behavior.  A level
is not negative.
-/

namespace Verif.Json

/-- The decimal digits of a number, most significant first. -/
def decDigits : Nat → Nat → List Nat
  | 0, n => [0x30 + n % 10]
  | k + 1, n => if n < 10 then [0x30 + n] else decDigits k (n / 10) ++ [0x30 + n % 10]

/-- `"%" PRId64` and `"%" PRId16`. -/
def printInt (i : Int) : List Nat :=
  (if i < 0 then [0x2D] else []) ++ decDigits 20 i.natAbs

/-- `_indent`, l.50-54. -/
def indent (level : Nat) : List Nat := List.replicate level 0x20

/-- A hexadecimal digit of `%02x`. -/
def hexChar (d : Nat) : Nat := if d < 10 then 0x30 + d else 0x57 + d

/-- `std::iscntrl(c)` for a byte that is a signed `char`: an argument must be an `unsigned char` or `EOF`. -/
def iscntrl (c : Nat) : Option Bool :=
  if c < 0x80 then some (c < 0x20 || c == 0x7F) else if c = 0xFF then some false else none

/-- One round of the loop of `_print(const json_string&, int)`, l.80-88. -/
def printChar (c : Nat) : Option (List Nat) :=
  if c = 0x22 then some [0x5C, 0x22]
  else if c = 0x5C then some [0x5C, 0x5C]
  else (iscntrl c).map fun b => if b then [0x5C, 0x78, hexChar (c / 16), hexChar (c % 16)] else [c]

def printChars : List Nat → Option (List Nat)
  | [] => some []
  | c :: s => (printChar c).bind fun x => (printChars s).map fun y => x ++ y

/-- `_print(const json_string&, int)`, l.77-90. -/
def printString (s : List Nat) : Option (List Nat) := (printChars s).map fun x => 0x22 :: (x ++ [0x22])

/-- `_print(const json_number&, int)`, l.69-76: `%s` ends at a null. -/
def printNumber (n : AstNumber) : List Nat :=
  printInt n.integer ++ (match n.fraction with | some f => 0x2E :: f.takeWhile (· != 0) | none => []) ++
    (match n.exponent with | some e => 0x65 :: printInt e | none => [])

/-- `std::less<std::string>`: the bytes are compared as `unsigned char`. -/
def keyLt : List Nat → List Nat → Bool
  | [], [] => false
  | [], _ :: _ => true
  | _ :: _, [] => false
  | a :: x, b :: y => if a < b then true else if b < a then false else keyLt x y

/-- The order of the iterators of a `std::map`. -/
def insertKey {α : Type} (k : List Nat) (a : α) : List (List Nat × α) → List (List Nat × α)
  | [] => [(k, a)]
  | (k', b) :: m => if keyLt k k' then (k, a) :: (k', b) :: m else (k', b) :: insertKey k a m
def byKey {α : Type} : List (List Nat × α) → List (List Nat × α)
  | [] => []
  | (k, a) :: m => insertKey k a (byKey m)

/-- The elements of l.96-104 and l.116-127: `,\n` between them, each behind its indentation. -/
def joinElems (level : Nat) : List (List Nat) → List Nat
  | [] => []
  | [t] => indent (level + 1) ++ t
  | t :: t' :: ts => indent (level + 1) ++ t ++ [0x2C, 0x0A] ++ joinElems level (t' :: ts)

/-- One member, l.123-126. -/
def printMember (key value : List Nat) : List Nat := key ++ [0x20, 0x3A, 0x20] ++ value

/-- `_print(const json_array&, int)` and `_print(const json_object&, int)`, l.91-131. -/
def brackets (open_ close level : Nat) (ts : List (List Nat)) : List Nat :=
  open_ :: 0x0A :: (joinElems level ts ++ 0x0A :: (indent level ++ [close]))

def printKeys : List (List Nat × List Nat) → Option (List (List Nat))
  | [] => some []
  | (k, t) :: m => (printString k).bind fun x => (printKeys m).map fun y => printMember x t :: y

mutual
/-- `print`, l.132-135. -/
def printAst (level : Nat) : Ast → Option (List Nat)
  | .null => some [0x6E, 0x75, 0x6C, 0x6C]
  | .bool true => some [0x74, 0x72, 0x75, 0x65]
  | .bool false => some [0x66, 0x61, 0x6C, 0x73, 0x65]
  | .number n => some (printNumber n)
  | .string s => printString s
  | .array vs => (printList (level + 1) vs).map (brackets 0x5B 0x5D level)
  | .object ms => (printMap (level + 1) ms).bind fun ts => (printKeys (byKey ts)).map (brackets 0x7B 0x7D level)
def printList (level : Nat) : List Ast → Option (List (List Nat))
  | [] => some []
  | a :: as => (printAst level a).bind fun x => (printList level as).map fun y => x :: y
def printMap (level : Nat) : List (List Nat × Ast) → Option (List (List Nat × List Nat))
  | [] => some []
  | (k, a) :: ms => (printAst level a).bind fun x => (printMap level ms).map fun y => (k, x) :: y
end

end Verif.Json
