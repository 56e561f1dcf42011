import Verif.JsonSpec
import Verif.JsonValues

/-
The values of JSON texts (RFC 8259 sections 3 to 7), and when an object of json.cpp represents one.  The texts are those of
JsonSpec.lean; nothing here depends on the grammar or on the callbacks of json.cpp.
-/

namespace Verif.Spec.Json

open Verif.Json (Ast AstNumber)

/-- A number, as it is written: sign, the value of the integer part, the digits behind the point, the value of the exponent. -/
structure Num where
  minus : Bool
  int : Nat
  frac : Option (List Nat)
  exp : Option _root_.Int

/-- A number is `mantissa * 10 ^ scale`. -/
def Num.mantissa (n : Num) : _root_.Int :=
  let m := n.int * 10 ^ (n.frac.getD []).length + decimal (n.frac.getD [])
  if n.minus then -m else m
def Num.scale (n : Num) : _root_.Int := n.exp.getD 0 - (n.frac.getD []).length

/-- A value; a string is a sequence of code points and of the surrogates that are written as escapes; the members of an object
    are in the order of the text. -/
inductive JV
  | null
  | bool (b : Bool)
  | number (n : Num)
  | string (cs : List Nat)
  | array (vs : List JV)
  | object (ms : List (List Nat × JV))

/-- `[ exp ]` -/
inductive ExpV (L : Limits) : List Nat → Option _root_.Int → Prop
  | none : ExpV L [] none
  | some {e : Nat} {t : List Nat} (he : e = 0x65 ∨ e = 0x45) (ht : Digits t) (hl : L.exp t) : ExpV L (e :: t) (some (decimal t))
  | plus {e : Nat} {t : List Nat} (he : e = 0x65 ∨ e = 0x45) (ht : Digits t) (hl : L.exp t) : ExpV L (e :: 0x2B :: t) (some (decimal t))
  | minus {e : Nat} {t : List Nat} (he : e = 0x65 ∨ e = 0x45) (ht : Digits t) (hl : L.exp t) :
      ExpV L (e :: 0x2D :: t) (some (-decimal t))

/-- `[ frac ]` -/
inductive FracV : List Nat → Option (List Nat) → Prop
  | none : FracV [] none
  | some {t : List Nat} (ht : Digits t) : FracV (0x2E :: t) (some t)

/-- `number = [ minus ] int [ frac ] [ exp ]` -/
def NumberV (L : Limits) (s : List Nat) (n : Num) : Prop :=
  ∃ int frac exp, s = (if n.minus then [0x2D] else []) ++ int ++ frac ++ exp ∧ Int int ∧ L.int int ∧ n.int = decimal int ∧
    FracV frac n.frac ∧ ExpV L exp n.exp

/-- The value of a hexadecimal digit. -/
def hexDigit (c : Nat) : Nat := if c ≤ 0x39 then c - 0x30 else if c ≤ 0x46 then c - 0x37 else c - 0x57

/-- What a letter behind a backslash stands for. -/
def escaped : List (Nat × Nat) :=
  [(0x22, 0x22), (0x5C, 0x5C), (0x2F, 0x2F), (0x62, 8), (0x66, 12), (0x6E, 10), (0x72, 13), (0x74, 9)]

/-- The characters of a string. -/
inductive CharsV (L : Limits) : List Nat → List Nat → Prop
  | nil : CharsV L [] []
  | unescaped {v : Nat} {s cs : List Nat} (h : Unescaped v) (hl : L.char v) (hs : CharsV L s cs) : CharsV L (utf8 v ++ s) (v :: cs)
  | escape {c v : Nat} {s cs : List Nat} (h : (c, v) ∈ escaped) (hs : CharsV L s cs) : CharsV L (0x5C :: c :: s) (v :: cs)
  | code {a b c d : Nat} {s cs : List Nat} (ha : Hex a) (hb : Hex b) (hc : Hex c) (hd : Hex d) (hs : CharsV L s cs) :
      CharsV L (0x5C :: 0x75 :: a :: b :: c :: d :: s)
        ((((hexDigit a * 16 + hexDigit b) * 16 + hexDigit c) * 16 + hexDigit d) :: cs)

def StrV (L : Limits) (s cs : List Nat) : Prop := ∃ t, s = 0x22 :: (t ++ [0x22]) ∧ CharsV L t cs

/-- What a part of a text means: a value; the values of an array; the members of an object. -/
inductive Meaning
  | value (v : JV)
  | values (vs : List JV)
  | members (ms : List (List Nat × JV))

/-- What a text means; as `Derives`. -/
inductive Means (L : Limits) : List Nat → Meaning → Prop
  | null : Means L [0x6E, 0x75, 0x6C, 0x6C] (.value .null)
  | true : Means L [0x74, 0x72, 0x75, 0x65] (.value (.bool true))
  | false : Means L [0x66, 0x61, 0x6C, 0x73, 0x65] (.value (.bool false))
  | number {s : List Nat} {n : Num} (h : NumberV L s n) : Means L s (.value (.number n))
  | string {s cs : List Nat} (h : StrV L s cs) : Means L s (.value (.string cs))
  | emptyArray {w : List Nat} (h : Blank w) : Means L (0x5B :: (w ++ [0x5D])) (.value (.array []))
  | array {s : List Nat} {vs : List JV} (h : Means L s (.values vs)) : Means L (0x5B :: (s ++ [0x5D])) (.value (.array vs))
  | emptyObject {w : List Nat} (h : Blank w) : Means L (0x7B :: (w ++ [0x7D])) (.value (.object []))
  | object {s : List Nat} {ms : List (List Nat × JV)} (h : Means L s (.members ms)) :
      Means L (0x7B :: (s ++ [0x7D])) (.value (.object ms))
  | last {w s w' : List Nat} {v : JV} (hw : Blank w) (h : Means L s (.value v)) (hw' : Blank w') :
      Means L (w ++ s ++ w') (.values [v])
  | more {w s w' t : List Nat} {v : JV} {vs : List JV} (hw : Blank w) (h : Means L s (.value v)) (hw' : Blank w')
      (ht : Means L t (.values vs)) : Means L (w ++ s ++ w' ++ 0x2C :: t) (.values (v :: vs))
  | lastMember {w k cs w1 w2 s w' : List Nat} {v : JV} (hw : Blank w) (hk : StrV L k cs) (h1 : Blank w1) (h2 : Blank w2)
      (h : Means L s (.value v)) (hw' : Blank w') : Means L (w ++ k ++ w1 ++ 0x3A :: (w2 ++ s ++ w')) (.members [(cs, v)])
  | moreMembers {w k cs w1 w2 s w' t : List Nat} {v : JV} {ms : List (List Nat × JV)} (hw : Blank w) (hk : StrV L k cs)
      (h1 : Blank w1) (h2 : Blank w2) (h : Means L s (.value v)) (hw' : Blank w') (ht : Means L t (.members ms)) :
      Means L (w ++ k ++ w1 ++ 0x3A :: (w2 ++ s ++ w' ++ 0x2C :: t)) (.members ((cs, v) :: ms))

/-- `JSON-text = ws value ws` -/
def TextMeans (L : Limits) (s : List Nat) (j : JV) : Prop :=
  ∃ w v w', s = w ++ v ++ w' ∧ Blank w ∧ Means L v (.value j) ∧ Blank w'

/-- A string is represented by its encoding in UTF-8 (surrogates are encoded like other code points of their size). -/
def encoded (cs : List Nat) : List Nat := cs.flatMap utf8

/-- The first member with a key that is represented by `k`. -/
def firstOf (k : List Nat) : List (List Nat × JV) → Option JV
  | [] => none
  | (cs, v) :: ms => if encoded cs = k then some v else firstOf k ms

/-- What a map has for a key. -/
def lookup (k : List Nat) : List (List Nat × Ast) → Option Ast
  | [] => none
  | (k', a) :: m => if k' = k then some a else lookup k m

mutual
/-- When an object of json.cpp represents a value: a map has the first member with each key. -/
inductive Rep : JV → Ast → Prop
  | null : Rep .null .null
  | bool {b : Bool} : Rep (.bool b) (.bool b)
  | number {n : Num} : Rep (.number n) (.number ⟨if n.minus then -n.int else n.int, n.frac, n.exp⟩)
  | string {cs : List Nat} : Rep (.string cs) (.string (encoded cs))
  | array {vs : List JV} {as : List Ast} (h : RepL vs as) : Rep (.array vs) (.array as)
  | object {ms : List (List Nat × JV)} {m : List (List Nat × Ast)} (hd : (m.map (·.1)).Nodup)
      (hn : ∀ k, firstOf k ms = none → lookup k m = none)
      (f : ∀ k v, firstOf k ms = some v → Ast) (hf : ∀ k v h, lookup k m = some (f k v h)) (h : ∀ k v h, Rep v (f k v h)) :
      Rep (.object ms) (.object m)
inductive RepL : List JV → List Ast → Prop
  | nil : RepL [] []
  | cons {v : JV} {vs : List JV} {a : Ast} {as : List Ast} (h : Rep v a) (hs : RepL vs as) : RepL (v :: vs) (a :: as)
end

end Verif.Spec.Json
