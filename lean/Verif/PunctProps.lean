import Verif.WhileProps

/-
C112: the predefined punctuators (punctuator.hpp).
-/

namespace Verif.Pn

open Verif

/-- The names, punctuator.hpp l.17-42. -/
inductive Punct
  | period | comma | colon | doubleColon | semicolon
  | exclamationMark | questionMark
  | hyphen | slash | backslash | apostrophe | ampersand | caret | asterisk | tilde | vbar
  | hashSign | dollarSign | atSign | percentSign | equalSign
  deriving DecidableEq

/-- `String` of `LEXY_PUNCT`, punctuator.hpp l.17-42; the code units of the literals. -/
def Punct.text : Punct → List Nat
  | .period => [0x2E]
  | .comma => [0x2C]
  | .colon => [0x3A]
  | .doubleColon => [0x3A, 0x3A]
  | .semicolon => [0x3B]
  | .exclamationMark => [0x21]
  | .questionMark => [0x3F]
  | .hyphen => [0x2D]
  | .slash => [0x2F]
  | .backslash => [0x5C]
  | .apostrophe => [0x27]
  | .ampersand => [0x26]
  | .caret => [0x5E]
  | .asterisk => [0x2A]
  | .tilde => [0x7E]
  | .vbar => [0x7C]
  | .hashSign => [0x23]
  | .dollarSign => [0x24]
  | .atSign => [0x40]
  | .percentSign => [0x25]
  | .equalSign => [0x3D]

/-- `LEXY_PUNCT`, punctuator.hpp l.12-15: a literal; all have the kind of literals. -/
def Punct.tok (eof : Option Nat) (a : Punct) : PTok := litTok eof 0 0 a.text

/-- The documented spellings, docs/content/reference/dsl/punctuator.adoc. -/
def Spec.spelling : Punct → String
  | .period => "." | .comma => "," | .colon => ":" | .doubleColon => "::" | .semicolon => ";"
  | .exclamationMark => "!" | .questionMark => "?"
  | .hyphen => "-" | .slash => "/" | .backslash => "\\" | .apostrophe => "'" | .ampersand => "&" | .caret => "^"
  | .asterisk => "*" | .tilde => "~" | .vbar => "|"
  | .hashSign => "#" | .dollarSign => "$" | .atSign => "@" | .percentSign => "%" | .equalSign => "="

theorem text_spelling (a : Punct) : a.text = (Spec.spelling a).toList.map Char.toNat := by
  cases a <;> decide +kernel

theorem text_ascii (a : Punct) : ∀ c ∈ a.text, c < 128 := by
  cases a <;> decide

variable {eof : Option Nat} {s : List Nat}

/-- **C112.** A punctuator matches exactly if the input begins with the documented spelling, and consumes it. -/
theorem C112_matches (he : ∀ c, eof = some c → 128 ≤ c) (a : Punct) :
    (((a.tok eof).run s).1 = true ↔ (Spec.spelling a).toList.map Char.toNat <+: s) ∧
    (((a.tok eof).run s).1 = true → ((a.tok eof).run s).2 = (Spec.spelling a).length) := by
  have hn : ∀ c ∈ a.text, eof ≠ some c := fun c hc e => by
    have := he c e
    have := text_ascii a c hc
    omega
  obtain ⟨b, n, h1, h2, h3, -⟩ := C10_literal_prefix eof a.text s hn
  have hl : a.text.length = (Spec.spelling a).length := by
    rw [text_spelling, List.length_map, String.length_toList]
  rw [← text_spelling]
  simp only [Punct.tok, litTok, PTok.of, clamp, h1, Option.getD_some]
  refine ⟨h2, fun hb => ?_⟩
  rw [h3 hb, hl.symm]
  have := (h2.1 hb).length_le
  omega

theorem text_apart {a b : Punct} (ha : a.text <+: s) (hb : b.text <+: s) :
    a = b ∨ (a = .colon ∧ b = .doubleColon) ∨ (a = .doubleColon ∧ b = .colon) := by
  have h : a.text.head? = b.text.head? := by
    obtain ⟨t, rfl⟩ := ha
    obtain ⟨t', h'⟩ := hb
    have := congrArg List.head? h'
    cases a <;> cases b <;> simp_all [Punct.text]
  revert h
  clear ha hb
  cases a <;> cases b <;> decide

/-- **C112.** Punctuators are told apart: at one position at most one of them matches, except for `colon` and `double_colon`; both
    of these match exactly at `::`. -/
theorem C112_apart (he : ∀ c, eof = some c → 128 ≤ c) {a b : Punct} (hab : a ≠ b) (ha : ((a.tok eof).run s).1 = true)
    (hb : ((b.tok eof).run s).1 = true) :
    ((a = .colon ∧ b = .doubleColon) ∨ (a = .doubleColon ∧ b = .colon)) ∧ [0x3A, 0x3A] <+: s := by
  rw [(C112_matches he _).1, ← text_spelling] at ha hb
  rcases text_apart ha hb with h | ⟨rfl, rfl⟩ | ⟨rfl, rfl⟩
  · exact absurd h hab
  · exact ⟨.inl ⟨rfl, rfl⟩, hb⟩
  · exact ⟨.inr ⟨rfl, rfl⟩, ha⟩

variable {E : Env} {cx : Cx} {on : Bool} {d p q : Nat}

/-- **C112.** In a choice of punctuators without `colon` the order does not matter: the one that is there is parsed. -/
theorem C112_choice (he : ∀ c, eof = some c → 128 ≤ c) {as : List Punct} (hc : Punct.colon ∉ as) {a : Punct} (ha : a ∈ as)
    (h : (Spec.spelling a).toList.map Char.toNat <+: E.inp.drop p) (hw : Does E cx on d .ws (p + (Spec.spelling a).length) q) :
    Does E cx on d (.run (.chc (as.map fun a => .tok (a.tok eof)))) p q := by
  obtain ⟨pre, post, rfl, hn⟩ : ∃ pre post, as = pre ++ a :: post ∧ a ∉ pre := by
    obtain ⟨pre, post, h1, h2⟩ := List.eq_append_cons_of_mem ha
    exact ⟨pre, post, h1, h2⟩
  have hm := C112_matches (s := E.inp.drop p) he a
  have h1 := hm.1.2 h
  have h2 := hm.2 h1
  refine does_choice (pre := pre.map fun a => .tok (a.tok eof)) (r := .tok (a.tok eof)) (post := post.map fun a => .tok (a.tok eof))
    (by simp) (fun x hx => ?_) (cond_tok h1) (fin_tok (Prod.ext h1 h2) hw)
  obtain ⟨b, hb, rfl⟩ := List.mem_map.1 hx
  refine not_tok ?_
  cases h3 : ((b.tok eof).run (E.inp.drop p)).1 with
  | false => rfl
  | true =>
    obtain ⟨h4, -⟩ := C112_apart he (a := b) (b := a) (fun e => hn (e ▸ hb)) h3 h1
    rcases h4 with ⟨rfl, -⟩ | ⟨-, rfl⟩
    · exact absurd (by simp [hb]) hc
    · exact absurd (by simp) hc

/-- **C112.** `colon | double_colon` never parses `::`: `colon` is taken, and the second colon is left. -/
theorem C112_colon (he : ∀ c, eof = some c → 128 ≤ c) (post : List Rule) (h : [0x3A, 0x3A] <+: E.inp.drop p)
    (hw : Does E cx on d .ws (p + 1) q) : Does E cx on d (.run (.chc (.tok (Punct.colon.tok eof) :: post))) p q := by
  have hm := C112_matches (s := E.inp.drop p) he .colon
  have h1 := hm.1.2 (by
    rw [← text_spelling]
    exact (show Punct.colon.text <+: [0x3A, 0x3A] from ⟨[0x3A], rfl⟩).trans h)
  exact does_choice (pre := []) (r := .tok (Punct.colon.tok eof)) (post := post) rfl nofun (cond_tok h1)
    (fin_tok (n := 1) (Prod.ext h1 (hm.2 h1)) hw)

/-- `;` in `comma | double_colon | semicolon`. -/
example : Does (Ex.env [0x3B] Ex.lists) ⟨none, 10⟩ on d
    (.run (.chc ([Punct.comma, .doubleColon, .semicolon].map fun a => .tok (a.tok (some 0xFF))))) 0 1 :=
  C112_choice (a := .semicolon) (fun c h => by cases h; omega) (by decide) (by decide) (by decide +kernel) (does_ws_none rfl)

end Verif.Pn
