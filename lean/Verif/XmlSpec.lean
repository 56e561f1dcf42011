import Verif.CodePointProps

/-
XML documents, as strings of bytes: the part of XML 1.0 (Fifth Edition) that examples/xml.cpp has, i.e. without attributes,
prolog, doctype, processing instructions, character references and other entities, and with names in ASCII.

What the example treats differently from XML is a parameter (`Dialect`).
-/

namespace Verif.Spec.Xml

/-- What differs. -/
structure Dialect where
  /-- the code units of `S`, production [3] of XML -/
  space : Nat → Prop
  /-- the characters, production [2] -/
  char : Nat → Prop
  /-- what may be in a comment, production [15] -/
  comment : List Nat → Prop
  /-- a further condition for the text between tags, production [14] -/
  text : List Nat → Prop

/-- Characters in UTF-8 that satisfy `P`. -/
inductive Chars (P : Nat → Prop) : List Nat → Prop
  | nil : Chars P []
  | cons {v : Nat} {s : List Nat} (hv : IsScalar v) (hp : P v) (hs : Chars P s) : Chars P (Spec.utf8 v ++ s)

/-- `S?` -/
def Space (D : Dialect) (w : List Nat) : Prop := ∀ c ∈ w, D.space c

/-- NameStartChar and NameChar, productions [4] and [4a]: `:`, `_` and letters; `-`, `.` and digits. -/
def NameStart (c : Nat) : Prop := c = 0x3A ∨ c = 0x5F ∨ (0x41 ≤ c ∧ c ≤ 0x5A) ∨ (0x61 ≤ c ∧ c ≤ 0x7A)
def NameChar (c : Nat) : Prop := NameStart c ∨ c = 0x2D ∨ c = 0x2E ∨ (0x30 ≤ c ∧ c ≤ 0x39)

/-- Name, production [5]. -/
def Name (n : List Nat) : Prop := ∃ c t, n = c :: t ∧ NameStart c ∧ ∀ x ∈ t, NameChar x

/-- The first place where `e` is in `t ++ e` is behind `t`. -/
def FirstEnd (e t : List Nat) : Prop := ∀ i, i < t.length → ¬ e <+: (t ++ e).drop i

/-- CharData, production [14]: no `<` and no `&`. -/
def Text (D : Dialect) (t : List Nat) : Prop := Chars (fun v => D.char v ∧ v ≠ 0x3C ∧ v ≠ 0x26) t ∧ D.text t

/-- `<!--` and `-->`, production [15]. -/
def Comment (D : Dialect) (s : List Nat) : Prop := ∃ t, s = [0x3C, 0x21, 0x2D, 0x2D] ++ t ++ [0x2D, 0x2D, 0x3E] ∧ D.comment t

/-- `<![CDATA[` and `]]>`, productions [18] to [21]. -/
def CData (D : Dialect) (s : List Nat) : Prop := ∃ t,
  s = [0x3C, 0x21, 0x5B, 0x43, 0x44, 0x41, 0x54, 0x41, 0x5B] ++ t ++ [0x5D, 0x5D, 0x3E] ∧ Chars D.char t ∧
    FirstEnd [0x5D, 0x5D, 0x3E] t

/-- The predefined entities, section 4.6: `&quot;`, `&amp;`, `&apos;`, `&lt;`, `&gt;`. -/
def Reference (s : List Nat) : Prop :=
  s = [0x26, 0x71, 0x75, 0x6F, 0x74, 0x3B] ∨ s = [0x26, 0x61, 0x6D, 0x70, 0x3B] ∨ s = [0x26, 0x61, 0x70, 0x6F, 0x73, 0x3B] ∨
  s = [0x26, 0x6C, 0x74, 0x3B] ∨ s = [0x26, 0x67, 0x74, 0x3B]

inductive Part
  | element | content | item
  deriving DecidableEq

/-- Productions [39] to [44]; the names of the start tag and the end tag are the same (well-formedness constraint).  `b` is
    the number of levels of elements inside that are allowed. -/
inductive Derives (D : Dialect) : Part → Nat → List Nat → Prop
  | empty {b : Nat} {n w : List Nat} (hn : Name n) (hw : Space D w) : Derives D .element b ([0x3C] ++ n ++ w ++ [0x2F, 0x3E])
  | element {b : Nat} {n w c w' : List Nat} (hn : Name n) (hw : Space D w) (hc : Derives D .content b c) (hw' : Space D w') :
    Derives D .element b ([0x3C] ++ n ++ w ++ [0x3E] ++ c ++ ([0x3C, 0x2F] ++ n ++ w' ++ [0x3E]))
  | text {b : Nat} {t : List Nat} (ht : Text D t) : Derives D .content b t
  | more {b : Nat} {t i c : List Nat} (ht : Text D t) (hi : Derives D .item b i) (hc : Derives D .content b c) :
    Derives D .content b (t ++ (i ++ c))
  | child {b : Nat} {e : List Nat} (he : Derives D .element b e) : Derives D .item (b + 1) e
  | comment {b : Nat} {s : List Nat} (h : Comment D s) : Derives D .item b s
  | cdata {b : Nat} {s : List Nat} (h : CData D s) : Derives D .item b s
  | reference {b : Nat} {s : List Nat} (h : Reference s) : Derives D .item b s

/-- Misc*, production [27]: comments and whitespace. -/
inductive Misc (D : Dialect) : List Nat → Prop
  | nil : Misc D []
  | space {c : Nat} {s : List Nat} (hc : D.space c) (hs : Misc D s) : Misc D (c :: s)
  | comment {c s : List Nat} (hc : Comment D c) (hs : Misc D s) : Misc D (c ++ s)

/-- document, production [1]; the elements inside of the root are nested up to `b` levels. -/
def Document (D : Dialect) (b : Nat) (s : List Nat) : Prop :=
  ∃ m e m', s = m ++ (e ++ m') ∧ Misc D m ∧ Derives D .element b e ∧ Misc D m'

/-- The characters of XML, production [2]: tab, line feed, carriage return, and the characters from U+0020 on except for
    surrogates, U+FFFE and U+FFFF. -/
def XmlChar (v : Nat) : Prop :=
  v = 9 ∨ v = 0xA ∨ v = 0xD ∨ (0x20 ≤ v ∧ v ≤ 0xD7FF) ∨ (0xE000 ≤ v ∧ v ≤ 0xFFFD) ∨ (0x10000 ≤ v ∧ v ≤ 0x10FFFF)

/-- `((Char - '-') | ('-' (Char - '-')))*`, production [15]. -/
inductive XmlComment : List Nat → Prop
  | nil : XmlComment []
  | char {v : Nat} {s : List Nat} (hv : XmlChar v) (h : v ≠ 0x2D) (hs : XmlComment s) : XmlComment (Spec.utf8 v ++ s)
  | dash {v : Nat} {s : List Nat} (hv : XmlChar v) (h : v ≠ 0x2D) (hs : XmlComment s) : XmlComment (0x2D :: (Spec.utf8 v ++ s))

/-- XML itself. -/
def xml : Dialect where
  space c := c = 0x20 ∨ c = 9 ∨ c = 0xD ∨ c = 0xA
  char := XmlChar
  comment := XmlComment
  text t := ¬ [0x5D, 0x5D, 0x3E] <:+: t

/-- What examples/xml.cpp accepts: other control characters as whitespace, any characters, any bytes except 0xFF in
    comments up to the first `-->`, and `]]>` in the text. -/
def example_ : Dialect where
  space c := c = 0x20 ∨ (9 ≤ c ∧ c ≤ 0xD)
  char _ := True
  comment t := (∀ c ∈ t, c ≠ 0xFF) ∧ FirstEnd [0x2D, 0x2D, 0x3E] t
  text _ := True

end Verif.Spec.Xml
