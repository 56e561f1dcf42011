import Verif.Grammar
import Verif.Integer
import Verif.Symbol
import Verif.UnicodeClass

/-
The token rules and the rules that produce values, as parts of grammars: instances of `PTok` and `PRule` (Grammar.lean)
for literals, character classes, digits, integers, symbols and EOF.

Source: /repo/include/lexy/dsl/literal.hpp, char_class.hpp, digit.hpp, integer.hpp, symbol.hpp, eof.hpp

Simplification: a token that does not match reports one error for the range from its begin to where it stopped, with a tag
that is given (the kind of the error, expected_literal or expected_char_class, is not distinguished; see Grammar.lean).
-/

namespace Verif

/-- The matchers never read past the end; for inputs that are not made of code units of the encoding (where nothing is
    claimed) this is enforced. -/
def clamp (run : List Nat → TokRes) (s : List Nat) : TokRes := ((run s).1, min (run s).2 s.length)

theorem clamp_eq {run : List Nat → TokRes} {s : List Nat} {r : TokRes} (h : run s = r) (hl : r.2 ≤ s.length) :
    clamp run s = r := by
  subst h
  simp only [clamp, Nat.min_eq_left hl]

/-- A token given by its matcher. -/
def PTok.of (kind : Kind) (tag : Nat) (run : List Nat → TokRes) : PTok :=
  ⟨kind, tag, clamp run, fun s => Nat.min_le_right _ _⟩

/-- `_lit`, literal.hpp l.324-395: `match_literal` for the encoding with the given EOF. -/
def litTok (eof : Option Nat) (kind tag : Nat) (w : List Nat) : PTok :=
  .of (.user kind) tag fun s => (matchLiteral eof id w s).getD (false, 0)

/-- A character class as a token, char_class.hpp l.199-268, in UTF-8. -/
def classTok (kind tag : Nat) (c : CC) : PTok :=
  .of (.user kind) tag fun s => match c.tryParse .utf8 s with
    | some n => (true, n)
    | none => (false, 0)

/-- `digits<Base>`, digit.hpp l.354-509. -/
def digitsTok (kind tag : Nat) (b : Base) : PTok := .of (.user kind) tag (matchDigits b)

/-- `digits<Base>.no_leading_zero()`: the success and the end of `tp::try_parse`, digit.hpp l.441-476. -/
def nlzTok (b : Base) (s : List Nat) : TokRes := ((noLeadingZero (matchDigits b s) s).1, (noLeadingZero (matchDigits b s) s).2.1)

/-- The overflow that is reported for a range of digits: `IntParser::parse(begin, end)` with a code unit type that is
    unsigned, integer.hpp l.395-409. -/
def overflows (conv : List Int → Option (Nat × Bool)) (us : List Nat) : Bool :=
  match conv (us.map Int.ofNat) with
  | some (_, ov) => ov
  | none => true

/-- What `_int::_pc` reports, integer.hpp l.399-405. -/
def overflowEv (conv : List Int → Option (Nat × Bool)) (tag b e : Nat) (us : List Nat) : List Ev :=
  if overflows conv us then [.error tag b e] else []

/-- `_int::p::parse`, integer.hpp l.447-484: success, position, events.  `kind`: the kind of the token; `dkind`:
    `digits_token_kind`; `tag`: the error of the token; `otag`: the error for overflow. -/
def intParse (kind dkind : Kind) (tag otag : Nat) (tok : List Nat → TokRes) (b : Base)
    (conv : List Int → Option (Nat × Bool)) (inp : List Nat) (p : Nat) : Bool × Nat × List Ev :=
  let s := inp.drop p
  let r := clamp tok s
  if r.1 then (true, p + r.2, .token kind p (p + r.2) :: overflowEv conv otag p (p + r.2) (s.take r.2))
  else
    let m := min (r.2 + trailLoop b.tok (s.drop r.2)) s.length
    if m = 0 then (false, p, [.error tag p p])
    else (true, p + m, .error tag p (p + r.2) :: .recStart p :: .token dkind p (p + m) :: .recFinish (p + m) ::
      overflowEv conv otag p (p + m) (s.take m))

theorem overflowEv_tr {conv : List Int → Option (Nat × Bool)} {tag b e len : Nat} {us : List Nat} (h : b ≤ e) (he : e ≤ len) :
    Tr len e .ok (overflowEv conv tag b e us) e := by
  unfold overflowEv
  split
  · exact .error tag h he
  · exact .nil

theorem overflowEv_errs {conv : List Int → Option (Nat × Bool)} {tag b e lo : Nat} {us : List Nat} (h : lo ≤ b) :
    ErrOk lo (overflowEv conv tag b e us) := by
  unfold overflowEv
  split
  · exact .err h
  · exact .nil

/-- An event that is neither an error nor belongs to a production, and more. -/
theorem ErrOk.cons_plain {lo : Nat} {ev : Ev} {a : List Ev} (h1 : ev.isError = false) (h2 : ev.isProd = false) (h : ErrOk lo a) :
    ErrOk lo (ev :: a) := .app (.one h1 h2) h

theorem ErrOk.cons_err {lo tag b e : Nat} {a : List Ev} (h1 : lo ≤ b) (h : ErrOk lo a) : ErrOk lo (.error tag b e :: a) :=
  .app (.err h1) h

section
variable {kind dkind : Kind} {tag otag : Nat} {tok : List Nat → TokRes} {b : Base} {conv : List Int → Option (Nat × Bool)}

theorem intParse_tr (s : List Nat) (p : Nat) (h : p ≤ s.length) :
    Tr s.length p (if (intParse kind dkind tag otag tok b conv s p).1 then .ok else .fail)
      (intParse kind dkind tag otag tok b conv s p).2.2 (intParse kind dkind tag otag tok b conv s p).2.1 := by
  have hl : (clamp tok (s.drop p)).2 ≤ s.length - p := by
    have : (clamp tok (s.drop p)).2 ≤ (s.drop p).length := Nat.min_le_right _ _
    rwa [List.length_drop] at this
  unfold intParse
  simp only
  split
  · exact .seq (a := [_]) (.token _ (by omega) (by omega)) (overflowEv_tr (by omega) (by omega))
  · split
    · exact .errorFail _ (Nat.le_refl _) h
    · have hm : min ((clamp tok (s.drop p)).2 + trailLoop b.tok ((s.drop p).drop (clamp tok (s.drop p)).2)) (s.drop p).length
          ≤ s.length - p := by rw [← List.length_drop]; exact Nat.min_le_right _ _
      refine .seq (a := [_]) (q := p) (.error _ (by omega) (by omega)) (.seq (a := [_, _, _]) ?_ (overflowEv_tr (by omega) (by omega)))
      exact .recovery (.token dkind (by omega) (by omega))

theorem intParse_fails (s : List Nat) (p : Nat) (h : (intParse kind dkind tag otag tok b conv s p).1 = false) :
    ∃ ev ∈ (intParse kind dkind tag otag tok b conv s p).2.2, ev.isError = true := by
  unfold intParse at h ⊢
  simp only at h ⊢
  split at h
  · cases h
  · rename_i h1
    rw [if_neg h1]
    split at h
    · rename_i h2
      rw [if_pos h2]
      exact ⟨_, List.mem_singleton.2 rfl, rfl⟩
    · cases h

theorem intParse_errs (s : List Nat) (p : Nat) : p ≤ (intParse kind dkind tag otag tok b conv s p).2.1 ∧
    ErrOk p (intParse kind dkind tag otag tok b conv s p).2.2 := by
  unfold intParse
  simp only
  split
  · exact ⟨Nat.le_add_right _ _, .cons_plain rfl rfl (overflowEv_errs (Nat.le_refl _))⟩
  · split
    · exact ⟨Nat.le_refl _, .err (Nat.le_refl _)⟩
    · exact ⟨Nat.le_add_right _ _, .cons_err (Nat.le_refl _) (.cons_plain rfl rfl (.cons_plain rfl rfl (.cons_plain rfl rfl
        (overflowEv_errs (Nat.le_refl _)))))⟩

end

/-- `_int<Token, IntParser, Tag>`, integer.hpp l.388-487.  As a branch (l.415-442) the condition is the token; then
    `finish` does what `parse` does. -/
def intRule (kind dkind : Kind) (tag otag : Nat) (tok : List Nat → TokRes) (b : Base)
    (conv : List Int → Option (Nat × Bool)) : PRule where
  ws := true
  parse := intParse kind dkind tag otag tok b conv
  branch := some fun inp p => (clamp tok (inp.drop p)).1
  finish := intParse kind dkind tag otag tok b conv
  parse_tr := intParse_tr
  finish_tr := intParse_tr
  coh := fun _ _ _ _ _ => rfl
  fails := intParse_fails
  finish_fails := intParse_fails
  errs := intParse_errs
  finish_errs := intParse_errs

/-- `_eof`, eof.hpp l.23-69: an error does not stop the parse; no whitespace is skipped. -/
def eofParse (eof : Option Nat) (tag : Nat) (inp : List Nat) (p : Nat) : Bool × Nat × List Ev :=
  (true, p, if peekEof eof (inp.drop p) then [.token .eof p p] else [.error tag p p])

def eofRule (eof : Option Nat) (tag : Nat) : PRule where
  ws := false
  parse := eofParse eof tag
  branch := some fun inp p => peekEof eof (inp.drop p)
  finish := eofParse eof tag
  parse_tr := fun s p h => by
    unfold eofParse
    simp only [if_true]
    split
    · exact .token _ (Nat.le_refl _) h
    · exact .error _ (Nat.le_refl _) h
  finish_tr := fun s p h => by
    unfold eofParse
    simp only [if_true]
    split
    · exact .token _ (Nat.le_refl _) h
    · exact .error _ (Nat.le_refl _) h
  coh := fun _ _ _ _ _ => rfl
  fails := fun _ _ h => by cases h
  finish_fails := fun _ _ h => by cases h
  errs := fun s p => by
    unfold eofParse
    simp only
    split
    · exact ⟨Nat.le_refl _, .one rfl rfl⟩
    · exact ⟨Nat.le_refl _, .err (Nat.le_refl _)⟩
  finish_errs := fun s p => by
    unfold eofParse
    simp only
    split
    · exact ⟨Nat.le_refl _, .one rfl rfl⟩
    · exact ⟨Nat.le_refl _, .err (Nat.le_refl _)⟩

/-- The length of the symbol that is matched, `_sym<Table, void>::bp::try_parse`, symbol.hpp l.465-473. -/
def symLen (t : SymTable) (eof : Option Nat) (s : List Nat) : Option Nat :=
  match symTry t eof s with
  | some (some (_, n)) => some (min n s.length)
  | _ => none

/-- `_sym<Table, void, Tag>`, symbol.hpp l.450-514. -/
def symParse (t : SymTable) (eof : Option Nat) (tag : Nat) (inp : List Nat) (p : Nat) : Bool × Nat × List Ev :=
  match symLen t eof (inp.drop p) with
  | some n => (true, p + n, [.token .identifier p (p + n)])
  | none => (false, p, [.error tag p p])

theorem symLen_le {t : SymTable} {eof : Option Nat} {s : List Nat} {n : Nat} (h : symLen t eof s = some n) : n ≤ s.length := by
  unfold symLen at h
  split at h
  · cases h; exact Nat.min_le_right _ _
  · cases h

theorem symParse_tr {t : SymTable} {eof : Option Nat} {tag : Nat} (s : List Nat) (p : Nat) (h : p ≤ s.length) :
    Tr s.length p (if (symParse t eof tag s p).1 then .ok else .fail) (symParse t eof tag s p).2.2 (symParse t eof tag s p).2.1 := by
  unfold symParse
  split
  · rename_i n hn
    have := symLen_le hn
    rw [List.length_drop] at this
    exact .token _ (Nat.le_add_right _ _) (by omega)
  · exact .errorFail _ (Nat.le_refl _) h

theorem symParse_fails {t : SymTable} {eof : Option Nat} {tag : Nat} (s : List Nat) (p : Nat)
    (h : (symParse t eof tag s p).1 = false) : ∃ ev ∈ (symParse t eof tag s p).2.2, ev.isError = true := by
  unfold symParse at h ⊢
  split at h
  · cases h
  · exact ⟨_, List.mem_singleton.2 rfl, rfl⟩

theorem symParse_errs {t : SymTable} {eof : Option Nat} {tag : Nat} (s : List Nat) (p : Nat) :
    p ≤ (symParse t eof tag s p).2.1 ∧ ErrOk p (symParse t eof tag s p).2.2 := by
  unfold symParse
  split
  · exact ⟨Nat.le_add_right _ _, .one rfl rfl⟩
  · exact ⟨Nat.le_refl _, .err (Nat.le_refl _)⟩

def symRule (t : SymTable) (eof : Option Nat) (tag : Nat) : PRule where
  ws := true
  parse := symParse t eof tag
  branch := some fun inp p => (symLen t eof (inp.drop p)).isSome
  finish := symParse t eof tag
  parse_tr := symParse_tr
  finish_tr := symParse_tr
  coh := fun _ _ _ _ _ => rfl
  fails := symParse_fails
  finish_fails := symParse_fails
  errs := symParse_errs
  finish_errs := symParse_errs

end Verif
