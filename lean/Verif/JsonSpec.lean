import Verif.CodePointProps

/-
The grammar of JSON, RFC 8259 section 2 to 7 (the same language as www.json.org), on bytes in UTF-8.  It is independent of
the grammar in Json.lean.

An implementation may set limits (section 9): on the range of numbers, the depth of nesting, and the contents of strings.
-/

namespace Verif.Spec.Json

/-- Limits of an implementation: which digits are allowed in the integer part and in the exponent of a number, and which
    code points are allowed in a string without an escape. -/
structure Limits where
  int : List Nat → Prop
  exp : List Nat → Prop
  char : Nat → Prop

/-- No limits. -/
def noLimits : Limits := ⟨fun _ => True, fun _ => True, fun _ => True⟩

/-- The value of decimal digits. -/
def decimal (s : List Nat) : Nat := s.foldl (fun a c => a * 10 + (c - 0x30)) 0

/-- The limits of json.cpp: the integer part is an `int64_t` without its sign, the exponent an `int16_t` without its sign
    (l.181, 197); a string contains no control characters, which for Unicode are also U+007F to U+009F (l.247). -/
def exampleLimits : Limits where
  int := fun s => decimal s < 2 ^ 63
  exp := fun s => decimal s < 2 ^ 15
  char := fun v => ¬ (0x7F ≤ v ∧ v ≤ 0x9F)

/-- `ws = *( %x20 / %x09 / %x0A / %x0D )` -/
def Blank (s : List Nat) : Prop := ∀ c ∈ s, c = 0x20 ∨ c = 0x09 ∨ c = 0x0A ∨ c = 0x0D

/-- `DIGIT = %x30-39` -/
def Digit (c : Nat) : Prop := 0x30 ≤ c ∧ c ≤ 0x39

/-- `1*DIGIT` -/
def Digits (s : List Nat) : Prop := s ≠ [] ∧ ∀ c ∈ s, Digit c

/-- `int = zero / ( digit1-9 *DIGIT )` -/
def Int (s : List Nat) : Prop := s = [0x30] ∨ ∃ c t, s = c :: t ∧ 0x31 ≤ c ∧ c ≤ 0x39 ∧ ∀ d ∈ t, Digit d

/-- `[ frac ]`, `frac = decimal-point 1*DIGIT` -/
def Frac (s : List Nat) : Prop := s = [] ∨ ∃ t, s = 0x2E :: t ∧ Digits t

/-- `[ exp ]`, `exp = e [ minus / plus ] 1*DIGIT` -/
def Exp (L : Limits) (s : List Nat) : Prop :=
  s = [] ∨ ∃ e sign t, s = e :: (sign ++ t) ∧ (e = 0x65 ∨ e = 0x45) ∧ (sign = [] ∨ sign = [0x2B] ∨ sign = [0x2D]) ∧ Digits t ∧ L.exp t

/-- `number = [ minus ] int [ frac ] [ exp ]` -/
def Number (L : Limits) (s : List Nat) : Prop :=
  ∃ minus int frac exp, s = minus ++ int ++ frac ++ exp ∧ (minus = [] ∨ minus = [0x2D]) ∧ Int int ∧ L.int int ∧ Frac frac ∧ Exp L exp

/-- `4HEXDIG` (letters in either case) -/
def Hex (c : Nat) : Prop := Digit c ∨ (0x41 ≤ c ∧ c ≤ 0x46) ∨ (0x61 ≤ c ∧ c ≤ 0x66)

/-- `unescaped = %x20-21 / %x23-5B / %x5D-10FFFF`; what is encoded in UTF-8 is not a surrogate. -/
def Unescaped (v : Nat) : Prop := 0x20 ≤ v ∧ v ≠ 0x22 ∧ v ≠ 0x5C ∧ IsScalar v

/-- `char = unescaped / escape ( %x22 / %x5C / %x2F / b / f / n / r / t / u 4HEXDIG )` -/
inductive Chars (L : Limits) : List Nat → Prop
  | nil : Chars L []
  | unescaped {v : Nat} {s : List Nat} (h : Unescaped v) (hl : L.char v) (hs : Chars L s) : Chars L (utf8 v ++ s)
  | escape {c : Nat} {s : List Nat} (h : c ∈ [0x22, 0x5C, 0x2F, 0x62, 0x66, 0x6E, 0x72, 0x74]) (hs : Chars L s) :
      Chars L (0x5C :: c :: s)
  | code {a b c d : Nat} {s : List Nat} (ha : Hex a) (hb : Hex b) (hc : Hex c) (hd : Hex d) (hs : Chars L s) :
      Chars L (0x5C :: 0x75 :: a :: b :: c :: d :: s)

/-- `string = quotation-mark *char quotation-mark` -/
def Str (L : Limits) (s : List Nat) : Prop := ∃ t, s = 0x22 :: (t ++ [0x22]) ∧ Chars L t

/-- What a part of a text is: a value; the values of an array; the members of an object. -/
inductive Part
  | value | values | members
  deriving DecidableEq

/-- Values whose arrays and objects are nested at most `n` deep (an empty one is no level).  Whitespace is allowed before
    and after each of `[ ] { } , :`. -/
inductive Derives (L : Limits) : Part → Nat → List Nat → Prop
  | null {n : Nat} : Derives L .value n [0x6E, 0x75, 0x6C, 0x6C]
  | true {n : Nat} : Derives L .value n [0x74, 0x72, 0x75, 0x65]
  | false {n : Nat} : Derives L .value n [0x66, 0x61, 0x6C, 0x73, 0x65]
  | number {n : Nat} {s : List Nat} (h : Number L s) : Derives L .value n s
  | string {n : Nat} {s : List Nat} (h : Str L s) : Derives L .value n s
  | emptyArray {n : Nat} {w : List Nat} (h : Blank w) : Derives L .value n (0x5B :: (w ++ [0x5D]))
  | array {n : Nat} {s : List Nat} (h : Derives L .values n s) : Derives L .value (n + 1) (0x5B :: (s ++ [0x5D]))
  | emptyObject {n : Nat} {w : List Nat} (h : Blank w) : Derives L .value n (0x7B :: (w ++ [0x7D]))
  | object {n : Nat} {s : List Nat} (h : Derives L .members n s) : Derives L .value (n + 1) (0x7B :: (s ++ [0x7D]))
  | last {n : Nat} {w s w' : List Nat} (hw : Blank w) (h : Derives L .value n s) (hw' : Blank w') :
      Derives L .values n (w ++ s ++ w')
  | more {n : Nat} {w s w' t : List Nat} (hw : Blank w) (h : Derives L .value n s) (hw' : Blank w') (ht : Derives L .values n t) :
      Derives L .values n (w ++ s ++ w' ++ 0x2C :: t)
  | lastMember {n : Nat} {w k w1 w2 s w' : List Nat} (hw : Blank w) (hk : Str L k) (h1 : Blank w1) (h2 : Blank w2)
      (h : Derives L .value n s) (hw' : Blank w') : Derives L .members n (w ++ k ++ w1 ++ 0x3A :: (w2 ++ s ++ w'))
  | moreMembers {n : Nat} {w k w1 w2 s w' t : List Nat} (hw : Blank w) (hk : Str L k) (h1 : Blank w1) (h2 : Blank w2)
      (h : Derives L .value n s) (hw' : Blank w') (ht : Derives L .members n t) :
      Derives L .members n (w ++ k ++ w1 ++ 0x3A :: (w2 ++ s ++ w' ++ 0x2C :: t))

/-- `JSON-text = ws value ws`, nested at most `n` deep. -/
def Text (L : Limits) (n : Nat) (s : List Nat) : Prop :=
  ∃ w v w', s = w ++ v ++ w' ∧ Blank w ∧ Derives L .value n v ∧ Blank w'

end Verif.Spec.Json
