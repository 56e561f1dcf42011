import Verif.CalcParse
import Verif.UnicodeClassProps
import Verif.ConfigProps
import Verif.ShellProps

/-
C108: the calculator example parses what the documented grammar (the comments of calculator.cpp and the documentation of
`dsl::expression`) says: precedence, associativity, groups of operators that are not mixed, nested expressions on several lines.

`Spec.CalcP.T` gives the expressions by levels, as a grammar without ambiguity would; no binding powers occur in it.
-/

namespace Verif.Spec.CalcP

open Verif.Calc (UnOp BinOp CmpOp)
open Verif.CalcP (Ast)
open Verif.Spec.Em (Newline)

/-- Whitespace; line breaks belong to it in a nested expression, or behind a backslash. -/
inductive Ws : Bool → List Nat → Prop
  | nil {nl : Bool} : Ws nl []
  | blank {nl : Bool} {c : Nat} {w : List Nat} : c = 32 ∨ c = 9 → Ws nl w → Ws nl (c :: w)
  | line {c : Nat} {w : List Nat} : 10 ≤ c → c ≤ 13 → Ws true w → Ws true (c :: w)
  | escaped {nl : Bool} {q w : List Nat} : Newline q → Ws nl w → Ws nl (92 :: q ++ w)

/-- The characters of an identifier, by their Unicode properties. -/
def Lead (c : Nat) : Prop := IsScalar c ∧ (Udb.hasProperties [.xidStart] c = some true ∨ c = 95)
def Cont (c : Nat) : Prop := IsScalar c ∧ Udb.hasProperties [.xidContinue] c = some true

/-- An identifier. -/
inductive Ident : List Nat → Prop
  | mk {c : Nat} {cs : List Nat} : Lead c → (∀ x ∈ cs, Cont x) → Ident (utf8 c ++ cs.flatMap utf8)

/-- An integer. -/
inductive Numeral : Nat → List Nat → Prop
  | decimal {ds : List Nat} : ds ≠ [] → (∀ d ∈ ds, IsDigitOf .decimal d) → Cfg.num .decimal ds ≤ 2147483647 → Numeral (Cfg.num .decimal ds) ds
  | hex {ds : List Nat} : ds ≠ [] → (∀ d ∈ ds, IsDigitOf .hex d) → Cfg.num .hex ds ≤ 2147483647 → Numeral (Cfg.num .hex ds) (48 :: 120 :: ds)

/-- The two groups of operators that are not mixed. -/
inductive Grp
  | math | bits
  deriving DecidableEq

/-- How an operator is written, at what level it is, and to which group it belongs. -/
def binText : BinOp → List Nat
  | .pow => [42, 42] | .times => [42] | .div => [47] | .plus => [43] | .minus => [45] | .bitAnd => [38] | .bitOr => [124] | .bitXor => [94]

def binGrp : BinOp → Grp
  | .bitAnd | .bitOr | .bitXor => .bits
  | _ => .math

def IsSum (o : BinOp) : Prop := o = .plus ∨ o = .minus ∨ o = .bitOr ∨ o = .bitXor
def IsProduct (o : BinOp) : Prop := o = .times ∨ o = .div ∨ o = .bitAnd

def unText : UnOp → Nat
  | .negate => 45 | .complement => 126

def unGrp : UnOp → Grp
  | .negate => .math | .complement => .bits

def cmpText : CmpOp → List Nat
  | .equal => [61, 61] | .less => [60]

/-- What is described: an expression of a level, a sequence of comparisons, or a nested expression.
    Levels: 1 assignment, 2 conditional, 3 comparison, 4 sum, 5 product, 6 prefix, 7 power, 8 atom. -/
inductive K
  | lv (l : Nat)
  | cmps
  | nested
  deriving DecidableEq

/-- `T κ nl g d k e t`: the text `t` is the expression `e`; with `k` operators of group `g` or of none, at nesting depth `d`. -/
inductive T : K → Bool → Grp → Nat → Nat → Ast → List Nat → Prop
  | paren {nl : Bool} {g : Grp} {d : Nat} {e : Ast} {t w : List Nat} :
      T .nested nl g d 0 e t → Ws nl w → T (.lv 8) nl g d 0 e (40 :: t ++ 41 :: w)
  | name {nl : Bool} {g : Grp} {d : Nat} {x w : List Nat} : Ident x → Ws nl w → T (.lv 8) nl g d 0 (.name x) (x ++ w)
  | call {nl : Bool} {g : Grp} {d : Nat} {e : Ast} {x w t w' : List Nat} :
      Ident x → Ws nl w → T .nested nl g d 0 e t → Ws nl w' → T (.lv 8) nl g d 0 (.call x e) (x ++ w ++ (40 :: t ++ 41 :: w'))
  | literal {nl : Bool} {g : Grp} {d v : Nat} {x w : List Nat} : Numeral v x → Ws nl w → T (.lv 8) nl g d 0 (.literal v) (x ++ w)
  | up {nl : Bool} {g : Grp} {d k l : Nat} {e : Ast} {t : List Nat} : T (.lv (l + 1)) nl g d k e t → T (.lv l) nl g d k e t
  | unary {nl : Bool} {o : UnOp} {d k : Nat} {e : Ast} {w t : List Nat} :
      Ws nl w → T (.lv 6) nl (unGrp o) d k e t → T (.lv 6) nl (unGrp o) d (k + 1) (.unary o e) (unText o :: w ++ t)
  | pow {nl : Bool} {d k k' : Nat} {a b : Ast} {t w u : List Nat} :
      T (.lv 8) nl .math d k a t → Ws nl w → T (.lv 7) nl .math d k' b u →
      T (.lv 7) nl .math d (k + k' + 1) (.binary a .pow b) (t ++ (binText .pow ++ (w ++ u)))
  | product {nl : Bool} {o : BinOp} {d k k' : Nat} {a b : Ast} {t w u : List Nat} :
      IsProduct o → T (.lv 5) nl (binGrp o) d k a t → Ws nl w → T (.lv 6) nl (binGrp o) d k' b u →
      T (.lv 5) nl (binGrp o) d (k + k' + 1) (.binary a o b) (t ++ (binText o ++ (w ++ u)))
  | sum {nl : Bool} {o : BinOp} {d k k' : Nat} {a b : Ast} {t w u : List Nat} :
      IsSum o → T (.lv 4) nl (binGrp o) d k a t → Ws nl w → T (.lv 5) nl (binGrp o) d k' b u →
      T (.lv 4) nl (binGrp o) d (k + k' + 1) (.binary a o b) (t ++ (binText o ++ (w ++ u)))
  | first {nl : Bool} {g : Grp} {o : CmpOp} {d k k' : Nat} {a b : Ast} {t w u : List Nat} :
      T (.lv 4) nl g d k a t → Ws nl w → T (.lv 4) nl g d k' b u →
      T .cmps nl g d (k + k' + 1) (.push (.first a) o b) (t ++ (cmpText o ++ (w ++ u)))
  | next {nl : Bool} {g : Grp} {o : CmpOp} {d k k' : Nat} {c b : Ast} {t w u : List Nat} :
      T .cmps nl g d k c t → Ws nl w → T (.lv 4) nl g d k' b u →
      T .cmps nl g d (k + k') (.push c o b) (t ++ (cmpText o ++ (w ++ u)))
  | comparison {nl : Bool} {g : Grp} {d k : Nat} {c : Ast} {t : List Nat} : T .cmps nl g d k c t → T (.lv 3) nl g d k c t
  | cond {nl : Bool} {g : Grp} {d k k' : Nat} {c e f : Ast} {t u w v : List Nat} :
      T (.lv 3) nl g d k c t → T .nested nl g d 0 e u → Ws nl w → T (.lv 3) nl g d k' f v →
      T (.lv 2) nl g d (k + k' + 1) (.cond c e f) (t ++ (63 :: (u ++ (58 :: (w ++ v)))))
  | assign {nl : Bool} {g : Grp} {d k k' : Nat} {a b : Ast} {t w u : List Nat} :
      T (.lv 2) nl g d k a t → Ws nl w → T (.lv 2) nl g d k' b u → T (.lv 1) nl g d (k + k' + 1) (.assign a b) (t ++ (61 :: (w ++ u)))
  | nested {nl : Bool} {g g' : Grp} {d k : Nat} {e : Ast} {w t : List Nat} :
      d < 1024 → k ≤ 256 → Ws true w → T (.lv 1) true g' (d + 1) k e t → T .nested nl g d 0 e (w ++ t)

/-- An expression of a statement. -/
def Expr (e : Ast) (t : List Nat) : Prop := ∃ g k, k ≤ 256 ∧ T (.lv 1) false g 0 k e t

/-- Expressions with semicolons between them. -/
inductive Exprs : List Ast → List Nat → Prop
  | one {e : Ast} {t : List Nat} : Expr e t → Exprs [e] t
  | cons {e : Ast} {es : List Ast} {t w u : List Nat} : Expr e t → Ws false w → Exprs es u → Exprs (e :: es) (t ++ (59 :: (w ++ u)))

/-- A statement: it goes to the end of the line; `r` is what is entered afterwards. -/
inductive Statement : List Ast → List Nat → Prop
  | empty {w r : List Nat} : Ws false w → (r = [] ∨ ∃ q r', Newline q ∧ r = q ++ r') → Statement [] (w ++ r)
  | exprs {es : List Ast} {w t r : List Nat} : Ws false w → Exprs es t → (r = [] ∨ ∃ q r', Newline q ∧ r = q ++ r') →
      Statement es (w ++ (t ++ r))

end Verif.Spec.CalcP

namespace Verif.CalcP

open Verif.Calc (UnOp BinOp CmpOp Name)
open Verif.Em (lit newline isBlank lit_append lit_sound newline_append newline_sound)
open Verif.Spec.Em (Newline)
open Verif.Spec.CalcP

/-! ### Whitespace -/

/-- No whitespace is at the beginning. -/
def Stop (nl : Bool) (r : List Nat) : Prop := ∀ c, r.head? = some c → c ≠ 92 ∧ (isBlank c || (nl && Cfg.isSpace c)) = false

theorem stop_nil (nl : Bool) : Stop nl [] := by intro c h; cases h

theorem stop_mono {nl : Bool} {r : List Nat} (h : Stop true r) : Stop nl r := by
  intro c hc
  obtain ⟨h1, h2⟩ := h c hc
  refine ⟨h1, ?_⟩
  cases nl
  · simp at h2 ⊢; exact h2.1
  · exact h2

theorem skipGo_stop {nl : Bool} {r : List Nat} (h : Stop nl r) (n : Nat) : skipGo nl (n + 1) r = some r := by
  cases r with
  | nil => rfl
  | cons c r =>
    obtain ⟨h1, h2⟩ := h c rfl
    rw [skipGo, h2]
    simp [h1]

theorem skipGo_append {nl : Bool} {w : List Nat} (hw : Ws nl w) {r : List Nat} (hr : Stop nl r) :
    ∀ n, w.length < n → skipGo nl n (w ++ r) = some r := by
  induction hw with
  | nil => intro n hn; cases n with
    | zero => cases hn
    | succ n => exact skipGo_stop hr n
  | @blank nl c w hc _ ih =>
    intro n hn
    cases n with
    | zero => cases hn
    | succ n =>
      rw [List.cons_append, skipGo, if_pos (by rcases hc with rfl | rfl <;> simp [isBlank])]
      exact ih hr n (by simp at hn; omega)
  | @line c w h1 h2 _ ih =>
    intro n hn
    cases n with
    | zero => cases hn
    | succ n =>
      rw [List.cons_append, skipGo, if_pos (by simp [Cfg.isSpace]; omega)]
      exact ih hr n (by simp at hn; omega)
  | @escaped nl q w hq _ ih =>
    intro n hn
    cases n with
    | zero => cases hn
    | succ n =>
      rw [List.cons_append, List.cons_append, skipGo, if_neg (by simp [isBlank, Cfg.isSpace]), if_pos rfl, List.append_assoc,
        newline_append hq]
      exact ih hr n (by simp at hn; omega)

theorem skip_append {nl : Bool} {w r : List Nat} (hw : Ws nl w) (hr : Stop nl r) : skip nl (w ++ r) = some r :=
  skipGo_append hw hr _ (by simp; omega)

theorem skipGo_pre {w : List Nat} {b : Bool} (hw : Ws b w) (hb : b = true) {r : List Nat} (hr : Stop true r) (nl : Bool) :
    ∀ n, w.length < n → ∃ w', Ws true w' ∧ skipGo nl n (w ++ r) = some (w' ++ r) := by
  induction hw with
  | nil => intro n hn; cases n with
    | zero => cases hn
    | succ n => exact ⟨[], .nil, skipGo_stop (stop_mono hr) n⟩
  | @blank b c w hc _ ih =>
    intro n hn
    cases n with
    | zero => cases hn
    | succ n =>
      rw [List.cons_append, skipGo, if_pos (by rcases hc with rfl | rfl <;> simp [isBlank])]
      exact ih hb n (by simp at hn; omega)
  | @line c w h1 h2 hw ih =>
    intro n hn
    cases n with
    | zero => cases hn
    | succ n =>
      rw [List.cons_append, skipGo]
      split
      · exact ih rfl n (by simp at hn; omega)
      · rw [if_neg (by omega)]
        exact ⟨c :: w, .line h1 h2 hw, rfl⟩
  | @escaped b q w hq _ ih =>
    intro n hn
    cases n with
    | zero => cases hn
    | succ n =>
      rw [List.cons_append, List.cons_append, skipGo, if_neg (by simp [isBlank, Cfg.isSpace]), if_pos rfl, List.append_assoc,
        newline_append hq]
      exact ih hb n (by simp at hn; omega)

theorem skip_pre {w r : List Nat} (hw : Ws true w) (hr : Stop true r) (nl : Bool) :
    ∃ w', Ws true w' ∧ skip nl (w ++ r) = some (w' ++ r) :=
  skipGo_pre hw rfl hr nl _ (by simp; omega)

theorem skipGo_sound {nl : Bool} : ∀ {n : Nat} {s r : List Nat}, skipGo nl n s = some r → ∃ w, Ws nl w ∧ s = w ++ r ∧ Stop nl r
  | 0, _, _, h => by cases h
  | n + 1, [], r, h => by simp [skipGo] at h; subst h; exact ⟨[], .nil, rfl, stop_nil nl⟩
  | n + 1, c :: s, r, h => by
    rw [skipGo] at h
    split at h
    · rename_i hc
      obtain ⟨w, h1, rfl, h3⟩ := skipGo_sound h
      refine ⟨c :: w, ?_, rfl, h3⟩
      by_cases hb : c = 32 ∨ c = 9
      · exact .blank hb h1
      · cases nl
        · simp [isBlank] at hc; exact absurd hc hb
        · simp [isBlank, Cfg.isSpace] at hc
          exact .line (by omega) (by omega) h1
    · rename_i hc
      split at h
      · rename_i e
        cases hq : newline s with
        | none => rw [hq] at h; cases h
        | some s' =>
          rw [hq] at h
          obtain ⟨q, hn, rfl⟩ := newline_sound hq
          obtain ⟨w, h1, rfl, h3⟩ := skipGo_sound (show skipGo nl n s' = some r from h)
          exact ⟨92 :: q ++ w, .escaped hn h1, by simp [e], h3⟩
      · rename_i e
        simp at h; subst h
        refine ⟨[], .nil, rfl, ?_⟩
        intro x hx
        simp at hx; subst hx
        exact ⟨e, by simpa using hc⟩

theorem skip_sound {nl : Bool} {s r : List Nat} (h : skip nl s = some r) : ∃ w, Ws nl w ∧ s = w ++ r ∧ Stop nl r := skipGo_sound h

theorem _root_.Verif.Spec.CalcP.Ws.to_true {nl : Bool} {w : List Nat} (h : Ws nl w) : Ws true w := by
  induction h with
  | nil => exact .nil
  | blank hc _ ih => exact .blank hc ih
  | line h1 h2 h _ => exact .line h1 h2 h
  | escaped hq _ ih => exact .escaped hq ih

theorem _root_.Verif.Spec.CalcP.Ws.append {nl : Bool} {w w' : List Nat} (h : Ws nl w) (h' : Ws nl w') : Ws nl (w ++ w') := by
  induction h with
  | nil => exact h'
  | blank hc _ ih => exact .blank hc (ih h')
  | line h1 h2 _ ih => exact .line h1 h2 (ih h')
  | escaped hq _ ih => rw [List.cons_append, List.cons_append, List.append_assoc]; exact .escaped hq (ih h')

/-! ### Identifiers and integers -/

theorem lead_iff {c : Nat} (h : Spec.IsScalar c) : isLead c = true ↔ Lead c := by
  obtain ⟨cat, -, -, h3⟩ := C70_class_meaning .xidStartUnderscore c (by unfold Spec.IsScalar at h; omega)
  exact h3.trans ⟨fun x => ⟨h, x⟩, fun x => x.2⟩

theorem cont_iff {c : Nat} (h : Spec.IsScalar c) : isCont c = true ↔ Cont c := by
  obtain ⟨cat, -, -, h3⟩ := C70_class_meaning .xidContinue c (by unfold Spec.IsScalar at h; omega)
  exact h3.trans ⟨fun x => ⟨h, x⟩, fun x => x.2⟩

/-- The letters of ASCII, and the other characters of words. -/
def letter (c : Nat) : Bool := (65 ≤ c && c ≤ 90) || (97 ≤ c && c ≤ 122) || c == 95
def word (c : Nat) : Bool := letter c || (48 ≤ c && c ≤ 57)

theorem ascii_classes : ∀ c < 128, isLead c = letter c ∧ isCont c = word c := by decide +kernel

/-- What may be behind an operand: no character of a word, no whitespace, no parenthesis that opens. -/
def Fol (nl : Bool) (r : List Nat) : Prop := Stop nl r ∧ ∀ c, r.head? = some c → c < 128 ∧ word c = false ∧ c ≠ 40

theorem parse_ascii {c : Nat} (h : c < 128) {r : List Nat} (hr : Units 256 r) : parseUtf8 (c :: r) = ⟨c, .success, 1⟩ := by
  have h1 : Spec.utf8 c = [c] := by unfold Spec.utf8; rw [if_pos (by omega)]
  have := specUtf8_parse (cp := c) (by unfold Spec.IsScalar; omega) hr
  rw [h1] at this
  exact this

theorem identTail_stop {r : List Nat} (hu : Units 256 r) (h : ∀ c, r.head? = some c → c < 128 ∧ word c = false) (n : Nat) :
    identTail n r = ([], r) := by
  cases n with
  | zero => rfl
  | succ n =>
    rw [identTail, if_neg]
    rintro ⟨h1, h2⟩
    cases r with
    | nil => revert h1; decide
    | cons c r =>
      obtain ⟨h3, h4⟩ := h c rfl
      rw [parse_ascii h3 (fun u hx => hu u (List.mem_cons_of_mem _ hx))] at h2
      rw [(ascii_classes c h3).2, h4] at h2
      cases h2

theorem identTail_append {r : List Nat} (hu : Units 256 r) (h : ∀ c, r.head? = some c → c < 128 ∧ word c = false) :
    ∀ (cs : List Nat), (∀ x ∈ cs, Cont x) → ∀ n, cs.length ≤ n → identTail n (cs.flatMap Spec.utf8 ++ r) = (cs.flatMap Spec.utf8, r)
  | [], _, n, _ => identTail_stop hu h n
  | c :: cs, hc, n, hn => by
    have h1 := hc c (by simp)
    have h2 : ∀ x ∈ cs, Cont x := fun x hx => hc x (by simp [hx])
    cases n with
    | zero => simp at hn
    | succ n =>
      have ih := identTail_append hu h cs h2 n (by simp at hn; omega)
      have hu' : Units 256 (cs.flatMap Spec.utf8 ++ r) := by
        refine Units.append ?_ hu
        intro u hu
        rw [List.mem_flatMap] at hu
        obtain ⟨x, hx, hu⟩ := hu
        exact Units.specUtf8 (h2 x hx).1.1 u hu
      have hp := specUtf8_parse h1.1 hu'
      rw [List.flatMap_cons, List.append_assoc, identTail, hp]
      simp only [List.take_left, List.drop_left, ih]
      rw [if_pos ⟨trivial, (cont_iff h1.1).2 h1⟩]

theorem utf8_cons {c : Nat} (h : Spec.IsScalar c) : ∃ x q, Spec.utf8 c = x :: q ∧ (x < 128 → x = c ∧ q = []) := by
  rcases Cfg.utf8_head h with ⟨h1, h2⟩ | ⟨x, q, h1, h2, -⟩
  · exact ⟨c, [], h2, fun _ => ⟨rfl, rfl⟩⟩
  · exact ⟨x, q, h1, by omega⟩

theorem ident_append {x r : List Nat} (h : Ident x) (hu : Units 256 r) (hr : ∀ c, r.head? = some c → c < 128 ∧ word c = false) :
    ident (x ++ r) = some (x, r) := by
  cases h with
  | @mk c cs h1 h2 =>
    have hu' : Units 256 (cs.flatMap Spec.utf8 ++ r) := by
      refine Units.append ?_ hu
      intro u hu
      rw [List.mem_flatMap] at hu
      obtain ⟨x, hx, hu⟩ := hu
      exact Units.specUtf8 (h2 x hx).1.1 u hu
    have hp := specUtf8_parse h1.1 hu'
    rw [List.append_assoc, ident, hp]
    have hl : cs.length ≤ (Spec.utf8 c ++ (cs.flatMap Spec.utf8 ++ r)).length := by
      have : cs.length ≤ (cs.flatMap Spec.utf8).length := by
        clear h2 hu' hp
        induction cs with
        | nil => simp
        | cons y cs ih => have := Sh.utf8_pos y; simp; simp at ih; omega
      simp only [List.length_append]; omega
    simp only [List.take_left, List.drop_left, identTail_append hu hr cs h2 _ hl]
    rw [if_pos ⟨trivial, (lead_iff h1.1).2 h1⟩]

theorem identTail_sound : ∀ {n : Nat} {s : List Nat}, Units 256 s →
    ∃ cs : List Nat, (∀ x ∈ cs, Cont x) ∧ (identTail n s).1 = cs.flatMap Spec.utf8 ∧ s = (identTail n s).1 ++ (identTail n s).2
  | 0, s, _ => ⟨[], by simp, rfl, rfl⟩
  | n + 1, s, hu => by
    rw [identTail]
    split
    · rename_i h
      obtain ⟨h1, h2, h3⟩ := C02_utf8_decode_sound s hu h.1
      obtain ⟨cs, h4, h5, h6⟩ := identTail_sound (n := n) (s := s.drop (parseUtf8 s).len) (fun u hx => hu u (List.mem_of_mem_drop hx))
      refine ⟨(parseUtf8 s).cp :: cs, ?_, ?_, ?_⟩
      · intro x hx
        rcases List.mem_cons.1 hx with rfl | hx
        · exact (cont_iff h1).1 h.2
        · exact h4 x hx
      · simp only [List.flatMap_cons, h3, h5]
      · simp only [List.append_assoc, ← h6]
        exact (List.take_append_drop _ _).symm
    · exact ⟨[], by simp, rfl, rfl⟩

theorem ident_sound {s x r : List Nat} (hu : Units 256 s) (h : ident s = some (x, r)) : Ident x ∧ s = x ++ r := by
  rw [ident] at h
  split at h
  · rename_i hs
    obtain ⟨h1, h2, h3⟩ := C02_utf8_decode_sound s hu hs.1
    obtain ⟨cs, h4, h5, h6⟩ := identTail_sound (n := s.length) (s := s.drop (parseUtf8 s).len) (fun u hx => hu u (List.mem_of_mem_drop hx))
    simp only [Option.some.injEq, Prod.mk.injEq] at h
    obtain ⟨rfl, rfl⟩ := h
    refine ⟨?_, ?_⟩
    · rw [h3, h5]; exact .mk ((lead_iff h1).1 hs.2) h4
    · rw [List.append_assoc, ← h6]; exact (List.take_append_drop _ _).symm
  · cases h

/-- The conversion of digits. -/
theorem bounded_iff {b : Base} (hb : (Traits.plain Cfg.int32).Ok b) {ds : List Nat} (h : ∀ d ∈ ds, Spec.IsDigitOf b d) (v : Nat) :
    boundedParse true (.plain Cfg.int32) b (ds.map Int.ofNat) = some (v, false) ↔
      v = Spec.Cfg.num b ds ∧ Spec.Cfg.num b ds ≤ 2147483647 := by
  obtain ⟨h1, h2⟩ := Cfg.digits_chars h
  obtain ⟨x, ov, e, h3, h4⟩ := C17_integer_exact_partial true (.plain Cfg.int32) b hb (ds.map Int.ofNat) ⟨h1, fun _ => h2⟩
    (fun c hc => h2 c (List.mem_of_getLast? hc))
  have hm : (Traits.plain Cfg.int32).max = 2147483647 := rfl
  rw [hm] at h3
  rw [e]
  simp only [Option.some.injEq, Prod.mk.injEq, Spec.Cfg.num]
  constructor
  · rintro ⟨rfl, rfl⟩
    refine ⟨h4 rfl, ?_⟩
    have : ¬ 2147483647 < Spec.value b (ds.map Int.ofNat) := fun hlt => Bool.noConfusion (h3.2 hlt)
    omega
  · rintro ⟨rfl, hle⟩
    cases ov with
    | false => exact ⟨h4 rfl, rfl⟩
    | true => have := h3.1 rfl; omega

theorem number_append {b : Base} (hb : (Traits.plain Cfg.int32).Ok b) {s r : List Nat} (h1 : s ≠ []) (h2 : ∀ d ∈ s, Spec.IsDigitOf b d)
    (h3 : Spec.Cfg.num b s ≤ 2147483647) (hr : ∀ u, r.head? = some u → ¬ Spec.IsDigitOf b u) :
    number b (s ++ r) = some (Spec.Cfg.num b s, r) := by
  have h4 : 0 < s.length := List.length_pos_iff.2 h1
  have : matchDigits b (s ++ r) = (true, s.length) :=
    (C16_digits_maximal b _ _).2 ⟨h4, ⟨by simp, by simpa using h2, by simpa using hr⟩⟩
  rw [number, this]
  simp only [List.take_left, List.drop_left, (bounded_iff hb h2 _).2 ⟨rfl, h3⟩]

theorem number_sound {b : Base} (hb : (Traits.plain Cfg.int32).Ok b) {v : Nat} {s r : List Nat} (h : number b s = some (v, r)) :
    ∃ t, s = t ++ r ∧ t ≠ [] ∧ (∀ d ∈ t, Spec.IsDigitOf b d) ∧ Spec.Cfg.num b t ≤ 2147483647 ∧ v = Spec.Cfg.num b t := by
  unfold number at h
  split at h
  · rename_i n hm
    obtain ⟨h1, h2⟩ := (C16_digits_maximal b _ _).1 hm
    split at h
    · rename_i x hb'
      simp only [Option.some.injEq, Prod.mk.injEq] at h
      obtain ⟨rfl, rfl⟩ := h
      obtain ⟨rfl, h3⟩ := (bounded_iff hb h2.all _).1 hb'
      refine ⟨s.take n, (List.take_append_drop n s).symm, ?_, h2.all, h3, rfl⟩
      intro e
      have h5 := h2.le
      have := congrArg List.length e
      rw [List.length_take, List.length_nil] at this
      omega
    · cases h
  · cases h

theorem dec_ok : (Traits.plain Cfg.int32).Ok .decimal := Cfg.int32_ok
theorem hex_ok : (Traits.plain Cfg.int32).Ok .hex := ⟨by decide, by decide, by decide⟩

theorem digit_word {b : Base} {u : Nat} (h : Spec.IsDigitOf b u) : word u = true := by
  unfold Spec.IsDigitOf Spec.digit at h
  simp only [word, letter]
  split at h
  · simp; omega
  split at h
  · simp; omega
  split at h
  · simp; omega
  · simp at h

/-- The character is not one of a word. -/
def NW (r : List Nat) : Prop := ∀ c, r.head? = some c → c < 128 ∧ word c = false

theorem NW.digit {r : List Nat} (h : NW r) {b : Base} : ∀ u, r.head? = some u → ¬ Spec.IsDigitOf b u := by
  intro u hu hd
  have := digit_word hd
  rw [(h u hu).2] at this
  cases this

theorem integer_append {v : Nat} {x r : List Nat} (h : Numeral v x) (hr : NW r) : integer (x ++ r) = some (v, r) := by
  cases h with
  | decimal h1 h2 h3 =>
    have : lit [48, 120] (x ++ r) = none := by
      cases x with
      | nil => exact absurd rfl h1
      | cons a x =>
        rw [List.cons_append, lit]
        split
        · cases x with
          | nil =>
            cases r with
            | nil => rfl
            | cons c r =>
              rw [List.nil_append, lit, if_neg]
              rintro rfl
              exact absurd (hr 120 rfl).2 (by decide)
          | cons c x =>
            rw [List.cons_append, lit, if_neg]
            rintro rfl
            exact absurd (h2 120 (by simp)) (by decide)
        · rfl
    rw [integer, this]
    exact number_append dec_ok h1 h2 h3 hr.digit
  | @hex ds h1 h2 h3 =>
    have : lit [48, 120] (48 :: 120 :: ds ++ r) = some (ds ++ r) := rfl
    rw [integer, this]
    exact number_append hex_ok h1 h2 h3 hr.digit

theorem integer_sound {v : Nat} {s r : List Nat} (h : integer s = some (v, r)) : ∃ x, s = x ++ r ∧ Numeral v x := by
  rw [integer] at h
  split at h
  · rename_i q hq
    obtain ⟨t, rfl, h1, h2, h3, rfl⟩ := number_sound hex_ok h
    exact ⟨48 :: 120 :: t, by rw [lit_sound hq]; rfl, .hex h1 h2 h3⟩
  · obtain ⟨t, rfl, h1, h2, h3, rfl⟩ := number_sound dec_ok h
    exact ⟨t, rfl, .decimal h1 h2 h3⟩

/-! ### Operators -/

/-- The level that the left operand needs at least. -/
def need : Op → Nat
  | .bin .pow => 8
  | .bin o => (Op.bin o).level
  | o => o.level + 1

def code : Grp → Nat
  | .math => 1
  | .bits => 2

/-- Only operators of the group were used. -/
def Compat (g : Grp) (st : St) : Prop := st.group = 0 ∨ st.group = code g

theorem bin_group (o : BinOp) : (Op.bin o).group = code (binGrp o) := by cases o <;> rfl
theorem un_group (o : UnOp) : unGroup o = code (unGrp o) := by cases o <;> rfl
theorem code_pos (g : Grp) : code g ≠ 0 := by cases g <;> simp [code]

theorem enter_group {g : Grp} {st : St} (h : Compat g st) (hn : st.nest < 256) :
    ∃ st', enter (code g) st = some st' ∧ Compat g st' ∧ st'.nest = st.nest + 1 := by
  rw [enter, if_neg (by omega), if_neg (code_pos g)]
  rcases h with h | h
  · rw [if_pos h]; exact ⟨_, rfl, .inr rfl, rfl⟩
  · rw [if_neg (by rw [h]; exact code_pos g), if_pos h]; exact ⟨_, rfl, .inr h, rfl⟩

theorem enter_none {g : Grp} {st : St} (h : Compat g st) (hn : st.nest < 256) :
    ∃ st', enter 0 st = some st' ∧ Compat g st' ∧ st'.nest = st.nest + 1 := by
  rw [enter, if_neg (by omega), if_pos rfl]
  exact ⟨_, rfl, h, rfl⟩

/-- The first state is compatible if the second one is. -/
def Grows (st st' : St) : Prop := st.group = 0 ∨ st.group = st'.group

theorem Grows.refl (st : St) : Grows st st := .inr rfl
theorem Grows.trans {a b c : St} (h : Grows a b) (h' : Grows b c) : Grows a c := by
  unfold Grows at *; omega
theorem Grows.compat {a b : St} (h : Grows a b) {g : Grp} (hb : Compat g b) : Compat g a := by
  unfold Grows Compat at *; omega

theorem enter_sound {x : Nat} {st st' : St} (h : enter x st = some st') :
    Grows st st' ∧ st'.nest = st.nest + 1 ∧ st'.nest ≤ 256 ∧ (x ≠ 0 → st'.group = x) := by
  unfold enter at h
  split at h
  · cases h
  split at h
  · simp at h; subst h; rename_i h1 h2; exact ⟨.inr rfl, rfl, by simp; omega, fun h => absurd h2 h⟩
  split at h
  · simp at h; subst h; rename_i h1 h2 h3; exact ⟨.inl h3, rfl, by simp; omega, fun _ => rfl⟩
  split at h
  · simp at h; subst h; rename_i h1 h2 h3 h4; exact ⟨.inr rfl, rfl, by simp; omega, fun _ => h4⟩
  · cases h

/-! ### The beginning of an expression -/

/-- How an expression may begin. -/
def Beg (u : List Nat) : Prop :=
  ∃ c q, u = c :: q ∧ c ≠ 92 ∧ isBlank c = false ∧ Cfg.isSpace c = false ∧ c ≠ 255 ∧ c ≠ 42 ∧ c ≠ 61

/-- How an atom may begin. -/
def ABeg (u : List Nat) : Prop := Beg u ∧ ∀ c, u.head? = some c → c ≠ 45 ∧ c ≠ 126

theorem Beg.append {u : List Nat} (h : Beg u) (r : List Nat) : Beg (u ++ r) := by
  obtain ⟨c, q, rfl, h⟩ := h
  exact ⟨c, q ++ r, rfl, h⟩

theorem Beg.stop {u : List Nat} (h : Beg u) (nl : Bool) : Stop nl u := by
  obtain ⟨c, q, rfl, h1, h2, h3, -⟩ := h
  intro x hx
  simp at hx; subst hx
  exact ⟨h1, by simp [h2, h3]⟩

theorem word_beg {c : Nat} (h : c < 128) (hw : word c = true) (q : List Nat) : ABeg (c :: q) := by
  have h1 : c ≠ 92 ∧ isBlank c = false ∧ Cfg.isSpace c = false ∧ c ≠ 255 ∧ c ≠ 42 ∧ c ≠ 61 ∧ c ≠ 45 ∧ c ≠ 126 := by
    simp [word, letter] at hw
    simp [isBlank, Cfg.isSpace]
    omega
  obtain ⟨a1, a2, a3, a4, a5, a6, a7, a8⟩ := h1
  refine ⟨⟨c, q, rfl, a1, a2, a3, a4, a5, a6⟩, ?_⟩
  intro x hx
  simp at hx; subst hx
  exact ⟨a7, a8⟩

theorem ident_beg {x : List Nat} (h : Ident x) (r : List Nat) : ABeg (x ++ r) ∧ (x ++ r).head? ≠ some 40 := by
  cases h with
  | @mk c cs h1 h2 =>
    rcases Cfg.utf8_head h1.1 with ⟨a1, a2⟩ | ⟨y, q, a1, a2, a3⟩
    · rw [a2]
      have hl := (lead_iff h1.1).2 h1
      rw [(ascii_classes c a1).1] at hl
      refine ⟨word_beg a1 (by simp [word, hl]) _, ?_⟩
      simp only [List.cons_append, List.head?_cons]
      intro e
      simp at e; subst e
      revert hl; decide
    · rw [a1]
      refine ⟨⟨⟨y, _, rfl, by omega, by simp [isBlank]; omega, by simp [Cfg.isSpace]; omega, by omega, by omega, by omega⟩, ?_⟩, ?_⟩
      · intro z hz; simp at hz; omega
      · simp; omega

theorem lit_beg {v : Nat} {x : List Nat} (h : Numeral v x) (r : List Nat) :
    ABeg (x ++ r) ∧ (x ++ r).head? ≠ some 40 ∧ ∃ c q, x = c :: q ∧ 48 ≤ c ∧ c ≤ 57 := by
  have key : ∃ c q, x = c :: q ∧ 48 ≤ c ∧ c ≤ 57 := by
    cases h with
    | decimal h1 h2 h3 =>
      cases x with
      | nil => exact absurd rfl h1
      | cons c q =>
        have := h2 c (by simp)
        unfold Spec.IsDigitOf Spec.digit at this
        refine ⟨c, q, rfl, ?_⟩
        split at this
        · omega
        · simp [Spec.lowerHex, Spec.upperHex] at this
    | hex => exact ⟨48, _, rfl, by omega, by omega⟩
  refine ⟨?_, ?_, key⟩
  · obtain ⟨c, q, rfl, h1, h2⟩ := key
    exact word_beg (by omega) (by simp [word]; omega) _
  · obtain ⟨c, q, rfl, h1, h2⟩ := key
    simp; omega

theorem T.beg {κ : K} {nl : Bool} {g : Grp} {d k : Nat} {e : Ast} {t : List Nat} (h : T κ nl g d k e t) (hk : κ ≠ .nested) : Beg t := by
  induction h with
  | paren => exact ⟨40, _, rfl, by decide, by decide, by decide, by decide, by decide, by decide⟩
  | name hx => exact (ident_beg hx _).1.1
  | call hx => rw [List.append_assoc]; exact (ident_beg hx _).1.1
  | literal hx => exact (lit_beg hx _).1.1
  | up _ ih => exact ih (by simp)
  | @unary nl o => cases o <;> exact ⟨_, _, rfl, by decide, by decide, by decide, by decide, by decide, by decide⟩
  | pow _ _ _ ih => exact (ih (by simp)).append _
  | product _ _ _ _ ih => exact (ih (by simp)).append _
  | sum _ _ _ _ ih => exact (ih (by simp)).append _
  | first _ _ _ ih => exact (ih (by simp)).append _
  | next _ _ _ ih => exact (ih (by simp)).append _
  | comparison _ ih => exact ih (by simp)
  | cond _ _ _ _ ih => exact (ih (by simp)).append _
  | assign _ _ _ ih => exact (ih (by simp)).append _
  | nested => exact absurd rfl hk

theorem ws_head {nl : Bool} {w u : List Nat} (hw : Ws nl w) (hu : Beg u) : ∀ c, (w ++ u).head? = some c → c ≠ 42 ∧ c ≠ 61 := by
  intro c hc
  cases hw with
  | nil =>
    obtain ⟨x, q, rfl, h1, h2, h3, h4, h5, h6⟩ := hu
    simp at hc; subst hc; exact ⟨h5, h6⟩
  | blank h => simp at hc; omega
  | line h => simp at hc; omega
  | escaped => simp at hc; omega

theorem opAt_bin (o : BinOp) {s : List Nat} (h : ∀ c, s.head? = some c → c ≠ 42 ∧ c ≠ 61) : opAt (binText o ++ s) = some (.bin o, s) := by
  cases o <;> simp only [binText, List.cons_append, List.nil_append] <;> try rfl
  unfold opAt
  split <;> simp_all

theorem opAt_cmp (o : CmpOp) (s : List Nat) : opAt (cmpText o ++ s) = some (.cmp o, s) := by cases o <;> rfl

theorem opAt_cond (s : List Nat) : opAt (63 :: s) = some (.cond, s) := rfl

theorem opAt_assign {s : List Nat} (h : ∀ c, s.head? = some c → c ≠ 42 ∧ c ≠ 61) : opAt (61 :: s) = some (.assign, s) := by
  unfold opAt
  split <;> simp_all

/-- How an operator is written. -/
def opText : Op → List Nat
  | .bin o => binText o
  | .cmp o => cmpText o
  | .cond => [63]
  | .assign => [61]

theorem opAt_sound {s r : List Nat} {o : Op} (h : opAt s = some (o, r)) : s = opText o ++ r := by
  unfold opAt at h
  split at h <;> simp at h <;> obtain ⟨rfl, rfl⟩ := h <;> rfl

theorem opText_fol (o : Op) (nl : Bool) (s : List Nat) : Fol nl (opText o ++ s) := by
  have key : ∀ c q, opText o = c :: q → (c ≠ 92 ∧ isBlank c = false ∧ Cfg.isSpace c = false) ∧ c < 128 ∧ word c = false ∧ c ≠ 40 := by
    intro c q h
    cases o with
    | bin o => cases o <;> simp [opText, binText] at h <;> obtain ⟨rfl, -⟩ := h <;> decide
    | cmp o => cases o <;> simp [opText, cmpText] at h <;> obtain ⟨rfl, -⟩ := h <;> decide
    | cond => simp [opText] at h; obtain ⟨rfl, -⟩ := h; decide
    | assign => simp [opText] at h; obtain ⟨rfl, -⟩ := h; decide
  have hne : ∃ c q, opText o = c :: q := by
    cases o with
    | bin o => cases o <;> exact ⟨_, _, rfl⟩
    | cmp o => cases o <;> exact ⟨_, _, rfl⟩
    | cond => exact ⟨_, _, rfl⟩
    | assign => exact ⟨_, _, rfl⟩
  obtain ⟨c, q, e⟩ := hne
  obtain ⟨⟨h1, h2, h3⟩, h4⟩ := key c q e
  rw [e]
  refine ⟨?_, ?_⟩
  · intro x hx; simp at hx; subst hx; exact ⟨h1, by simp [h2, h3]⟩
  · intro x hx; simp at hx; subst hx; exact h4

/-! ### What is written is parsed -/

/-- With enough steps, the result is `x`. -/
def Ev {α : Type} (f : Nat → Option α) (x : α) : Prop := ∃ N, ∀ n, N ≤ n → f n = some x

theorem Ev.step {α : Type} {f g : Nat → Option α} {x : α} (N : Nat) (h : ∀ n, N ≤ n → f (n + 1) = g n) (hg : Ev g x) : Ev f x := by
  obtain ⟨M, hM⟩ := hg
  refine ⟨N + M + 1, fun n hn => ?_⟩
  cases n with
  | zero => omega
  | succ n => rw [h n (by omega)]; exact hM n (by omega)

theorem Ev.now {α : Type} {f : Nat → Option α} {x : α} (N : Nat) (h : ∀ n, N ≤ n → f (n + 1) = some x) : Ev f x := by
  refine ⟨N + 1, fun n hn => ?_⟩
  cases n with
  | zero => omega
  | succ n => exact h n (by omega)

/-- The operator that follows does not take the operand away. -/
def NoTight (l : Nat) (r : List Nat) : Prop := ∀ o q, opAt r = some (o, q) → need o ≤ l

/-- The operators of the level may be used. -/
def Adm (l min : Nat) : Prop := (l ≤ 6 → min ≤ 13) ∧ ∀ o : Op, l ≤ o.level → min ≤ o.lhs

/-- The rest of a comparison. -/
def cmpTail (n : Nat) (nl : Bool) (d : Nat) (c : Ast) (st : St) (r : List Nat) : Option (Ast × St × List Nat) :=
  match opAt r with
  | some (.cmp o', r') => (skip nl r').bind fun r' => chain n nl d c o' st r'
  | _ => some (c, st, r)

def Claim (κ : K) (nl : Bool) (g : Grp) (d k : Nat) (e : Ast) (t : List Nat) : Prop :=
  match κ with
  | .lv l => ∀ st r min, Compat g st → st.nest + k ≤ 256 → Fol nl r → NoTight l r → Adm l min → Units 256 (t ++ r) →
      ∃ st', Compat g st' ∧ st'.nest = st.nest + k ∧
        ∀ res, Ev (fun n => loop n nl d min e st' r) res → Ev (fun n => expr n nl d min st (t ++ r)) res
  | .cmps => ∀ st r min, Compat g st → st.nest + k ≤ 256 → Fol nl r → (∀ o q, opAt r = some (o, q) → o.level ≤ 3) → min ≤ 6 →
      Units 256 (t ++ r) →
      ∃ st', Compat g st' ∧ st'.nest = st.nest + k ∧
        ∀ mid res, Ev (fun n => cmpTail n nl d e st' r) mid → Ev (fun n => loop n nl d min mid.1 mid.2.1 mid.2.2) res →
          Ev (fun n => expr n nl d min st (t ++ r)) res
  | .nested => ∀ r, Fol true r → opAt r = none → Units 256 (t ++ r) → ∀ nl', ∃ q, skip nl' (t ++ r) = some q ∧
      Ev (fun n => nested n d q) (e, r)

theorem postOp_none {min : Nat} {r : List Nat} (h : ∀ o q, opAt r = some (o, q) → o.lhs < min) : postOp min r = none := by
  rw [postOp]
  split
  · rename_i o q e
    rw [if_neg (by have := h o q e; omega)]
  · rfl

theorem postOp_some {min : Nat} {r q : List Nat} {o : Op} (h : opAt r = some (o, q)) (hm : min ≤ o.lhs) : postOp min r = some (o, q) := by
  simp only [postOp, h, if_pos hm]

theorem loop_stop {nl : Bool} {d min : Nat} {e : Ast} {st : St} {r : List Nat} (h : postOp min r = none) :
    Ev (fun n => loop n nl d min e st r) (e, st, r) := .now 0 fun n _ => by simp only [loop, h]

theorem op_ev {nl : Bool} {d min : Nat} {a e : Ast} {o : Op} {st st1 st2 : St} {s u u' r : List Nat} {res : Ast × St × List Nat}
    (h1 : opAt s = some (o, u)) (h2 : min ≤ o.lhs) (h3 : enter o.group st = some st1) (h4 : skip nl u = some u')
    (h5 : Ev (fun n => operation n nl d a o st1 u') (e, st2, r)) (h6 : Ev (fun n => loop n nl d min e st2 r) res) :
    Ev (fun n => loop n nl d min a st s) res := by
  obtain ⟨N, hN⟩ := h5
  refine .step N (fun n hn => ?_) h6
  simp only [loop, postOp_some h1 h2, h3, Option.bind_some, h4, hN n hn]

theorem bin_ev {nl : Bool} {d : Nat} {a b : Ast} {o : BinOp} {st st' : St} {s r : List Nat}
    (h : Ev (fun n => expr n nl d (Op.bin o).rhs st s) (b, st', r)) :
    Ev (fun n => operation n nl d a (.bin o) st s) (.binary a o b, st', r) := by
  obtain ⟨N, hN⟩ := h
  refine .now N fun n hn => ?_
  simp only [operation, hN n hn, Option.map_some]

theorem atom_ev {nl : Bool} {d min : Nat} {e : Ast} {st : St} {s r : List Nat} {res : Ast × St × List Nat}
    (hb : ABeg s) (h : Ev (fun n => atom n nl d s) (e, r)) (h' : Ev (fun n => loop n nl d min e st r) res) :
    Ev (fun n => expr n nl d min st s) res := by
  obtain ⟨N, hN⟩ := h
  refine .step (N + 1) (fun n hn => ?_) h'
  have hp : preOp min s = none := by
    unfold preOp
    split
    · rfl
    · split
      · exact absurd rfl (hb.2 45 rfl).1
      · exact absurd rfl (hb.2 126 rfl).2
      · rfl
  cases n with
  | zero => omega
  | succ n => simp only [expr, lhs, hp, hN n (by omega), Option.map_some, Option.bind_some]

theorem fol_nw {nl : Bool} {r : List Nat} (h : Fol nl r) : NW r := fun c hc => ⟨(h.2 c hc).1, (h.2 c hc).2.1⟩

theorem fol_char {nl : Bool} {c : Nat} (h : (c ≠ 92 ∧ isBlank c = false ∧ Cfg.isSpace c = false) ∧ c < 128 ∧ word c = false ∧ c ≠ 40)
    (r : List Nat) : Fol nl (c :: r) := by
  obtain ⟨⟨h1, h2, h3⟩, h4⟩ := h
  refine ⟨?_, ?_⟩
  · intro x hx; simp at hx; subst hx; exact ⟨h1, by simp [h2, h3]⟩
  · intro x hx; simp at hx; subst hx; exact h4

theorem fol_ws {nl nl' : Bool} {w : List Nat} (hw : Ws nl w) {r : List Nat} (hr : NW r) : NW (w ++ r) := by
  intro c hc
  cases hw with
  | nil => exact hr c hc
  | blank h => simp at hc; subst hc; rcases h with rfl | rfl <;> decide
  | line h1 h2 => simp at hc; subst hc; refine ⟨by omega, ?_⟩; simp [word, letter]; omega
  | escaped => simp at hc; subst hc; decide

theorem NoTight.mono {l l' : Nat} {r : List Nat} (h : NoTight l r) (hl : l ≤ l') : NoTight l' r :=
  fun o q e => Nat.le_trans (h o q e) hl

theorem Adm.mono {l l' min : Nat} (h : Adm l min) (hl : l ≤ l') : Adm l' min :=
  ⟨fun x => h.1 (by omega), fun o x => h.2 o (by omega)⟩

/-- The arithmetic of the levels. -/
theorem op_facts : ∀ o : Op, (need o ≤ 7 → o.lhs < 14) ∧ (need o ≤ 6 → o.lhs < 13) ∧ (need o ≤ 5 → o.lhs < 11) ∧ (need o ≤ 4 → o.lhs < 9)
    ∧ (need o ≤ 3 → o.lhs < 7) ∧ (need o ≤ 2 → o.lhs < 5) ∧ ¬ need o ≤ 1 ∧ (o.level ≤ 3 → o.lhs < 7) ∧ (need o ≤ 3 → o.level ≤ 3) ∧
    (7 ≤ o.level → 14 ≤ o.lhs) ∧ (6 ≤ o.level → 13 ≤ o.lhs) ∧ (5 ≤ o.level → 9 ≤ o.lhs) ∧ (4 ≤ o.level → 7 ≤ o.lhs) ∧
    (3 ≤ o.level → 5 ≤ o.lhs) ∧ (2 ≤ o.level → 3 ≤ o.lhs) ∧ (1 ≤ o.level → 2 ≤ o.lhs) ∧ 1 ≤ o.level ∧ (6 ≤ o.level → 11 ≤ o.lhs) ∧
    (o.level ≤ 3 → need o ≤ 4) := by
  intro o
  cases o with
  | bin o => cases o <;> decide
  | cmp o => cases o <;> decide
  | cond => decide
  | assign => decide

theorem sum_facts {o : BinOp} (h : IsSum o) : (Op.bin o).level = 4 ∧ (Op.bin o).rhs = 9 ∧ need (.bin o) = 4 := by
  rcases h with rfl | rfl | rfl | rfl <;> decide
theorem product_facts {o : BinOp} (h : IsProduct o) : (Op.bin o).level = 5 ∧ (Op.bin o).rhs = 11 ∧ need (.bin o) = 5 := by
  rcases h with rfl | rfl | rfl <;> decide

/-- An operation with two operands. -/
theorem binary_claim {nl : Bool} {g : Grp} {o : BinOp} {d k k' la lb : Nat} {a b : Ast} {t w u : List Nat}
    (ha : Claim (.lv la) nl g d k a t) (hb : Claim (.lv lb) nl g d k' b u) (hw : Ws nl w) (hub : Beg u)
    (hg : binGrp o = g) (hn : need (.bin o) ≤ la) (hle : (Op.bin o).level ≤ la) (hadm : Adm lb (Op.bin o).rhs)
    (hle' : (Op.bin o).level ≤ lb) (hstop : ∀ x, need x ≤ (Op.bin o).level → x.lhs < (Op.bin o).rhs) :
    Claim (.lv (Op.bin o).level) nl g d (k + k' + 1) (.binary a o b) (t ++ (binText o ++ (w ++ u))) := by
  intro st r min hc hk hf hr hm hu
  have hx : opAt (binText o ++ (w ++ (u ++ r))) = some (.bin o, w ++ (u ++ r)) := opAt_bin o (ws_head hw (hub.append r))
  obtain ⟨st1, c1, n1, e1⟩ := ha st (binText o ++ (w ++ (u ++ r))) min hc (by omega) (opText_fol (.bin o) nl _)
    (by intro x q e; rw [hx] at e; cases e; exact hn) (hm.mono hle) (by simpa [List.append_assoc] using hu)
  obtain ⟨st2, e2, c2, n2⟩ := enter_group c1 (by omega)
  obtain ⟨st3, c3, n3, e3⟩ := hb st2 r (Op.bin o).rhs c2 (by omega) hf (hr.mono hle') hadm
    (fun x hx => hu x (by simp only [List.mem_append] at hx ⊢; grind))
  refine ⟨st3, c3, by omega, fun res hres => ?_⟩
  simp only [List.append_assoc]
  refine e1 res (op_ev hx (hm.2 _ (Nat.le_refl _)) (by rw [bin_group, hg]; exact e2) (skip_append hw ((hub.append r).stop nl)) ?_ hres)
  exact bin_ev (e3 _ (loop_stop (postOp_none fun x q e => hstop x (hr x q e))))

theorem claim {κ : K} {nl : Bool} {g : Grp} {d k : Nat} {e : Ast} {t : List Nat} (h : T κ nl g d k e t) : Claim κ nl g d k e t := by
  induction h with
  | @paren nl g d e t w ht hw ih =>
    intro st r min hc hk hf hr hm hu
    refine ⟨st, hc, rfl, fun res hres => ?_⟩
    obtain ⟨q, h1, N, h2⟩ := ih (41 :: (w ++ r)) (fol_char (by decide) _) rfl
      (fun x hx => hu x (by simp only [List.mem_append, List.mem_cons] at hx ⊢; grind)) nl
    refine atom_ev ⟨⟨40, _, rfl, by decide, by decide, by decide, by decide, by decide, by decide⟩, ?_⟩ ?_ hres
    · intro c hx; simp at hx; subst hx; decide
    · refine .now N fun n hn => ?_
      simp only [List.cons_append, List.append_assoc, atom, List.head?_cons, if_true, List.tail_cons, h1, Option.bind_some, h2 n hn]
      rw [show lit [41] (41 :: (w ++ r)) = some (w ++ r) from rfl]
      simp only [Option.bind_some, skip_append hw hf.1, Option.map_some]
  | @name nl g d x w hx hw =>
    intro st r min hc hk hf hr hm hu
    refine ⟨st, hc, rfl, fun res hres => ?_⟩
    obtain ⟨b1, b2⟩ := ident_beg hx (w ++ r)
    rw [List.append_assoc] at hu ⊢
    refine atom_ev b1 (.now 0 fun n hn => ?_) hres
    rw [atom, if_neg b2, ident_append hx (fun y hy => hu y (by simp only [List.mem_append] at hy ⊢; grind)) (fol_ws (nl' := nl) hw (fol_nw hf))]
    simp only [skip_append hw hf.1, Option.bind_some]
    rw [if_neg (fun e => absurd rfl (hf.2 40 e).2.2)]
  | @call nl g d e x w t w' hx hw ht hw' ih =>
    intro st r min hc hk hf hr hm hu
    refine ⟨st, hc, rfl, fun res hres => ?_⟩
    have ha : x ++ w ++ (40 :: t ++ 41 :: w') ++ r = x ++ (w ++ (40 :: (t ++ (41 :: (w' ++ r))))) := by simp
    rw [ha] at hu ⊢
    obtain ⟨b1, b2⟩ := ident_beg hx (w ++ (40 :: (t ++ (41 :: (w' ++ r)))))
    obtain ⟨q, h1, N, h2⟩ := ih (41 :: (w' ++ r)) (fol_char (by decide) _) rfl
      (fun x hx => hu x (by simp only [List.mem_append, List.mem_cons] at hx ⊢; grind)) nl
    refine atom_ev b1 (.now N fun n hn => ?_) hres
    rw [atom, if_neg b2, ident_append hx (fun y hy => hu y (by simp only [List.mem_append] at hy ⊢; grind))
      (fol_ws (nl' := nl) hw (by intro c hc; simp at hc; subst hc; decide))]
    have hs : Stop nl (40 :: (t ++ (41 :: (w' ++ r)))) := by
      intro c hc; simp at hc; subst hc; exact ⟨by decide, by cases nl <;> decide⟩
    simp only [skip_append hw hs, Option.bind_some, List.head?_cons, if_true, List.tail_cons, h1, h2 n hn]
    rw [show lit [41] (41 :: (w' ++ r)) = some (w' ++ r) from rfl]
    simp only [Option.bind_some, skip_append hw' hf.1, Option.map_some]
  | @literal nl g d v x w hx hw =>
    intro st r min hc hk hf hr hm hu
    refine ⟨st, hc, rfl, fun res hres => ?_⟩
    obtain ⟨b1, b2, b3⟩ := lit_beg hx (w ++ r)
    rw [List.append_assoc] at hu ⊢
    have hi : ident (x ++ (w ++ r)) = none := by
      obtain ⟨c, q, rfl, h1, h2⟩ := b3
      rw [List.cons_append, ident, parse_ascii (by omega) (fun y hy => hu y (by simp only [List.cons_append, List.mem_cons]; exact .inr hy)),
        if_neg]
      rintro ⟨-, h⟩
      rw [(ascii_classes c (by omega)).1] at h
      simp [letter] at h
      omega
    refine atom_ev b1 (.now 0 fun n hn => ?_) hres
    rw [atom, if_neg b2, hi]
    simp only [integer_append hx (fol_ws (nl' := nl) hw (fol_nw hf)), Option.bind_some, skip_append hw hf.1, Option.map_some]
  | @up nl g d k l e t h ih =>
    intro st r min hc hk hf hr hm hu
    exact ih st r min hc hk hf (hr.mono (by omega)) (hm.mono (by omega)) hu
  | @unary nl o d k e w t hw ht ih =>
    intro st r min hc hk hf hr hm hu
    obtain ⟨st1, e1, c1, n1⟩ := enter_group hc (by omega)
    have hbt := (T.beg ht (by simp)).append r
    obtain ⟨st2, c2, n2, e2⟩ := ih st1 r 13 c1 (by omega) hf hr ⟨fun _ => Nat.le_refl _, fun o ho => (op_facts o).2.2.2.2.2.2.2.2.2.2.1 ho⟩
      (fun x hx => hu x (by simp only [List.mem_append, List.mem_cons] at hx ⊢; grind))
    refine ⟨st2, c2, by omega, fun res hres => ?_⟩
    obtain ⟨N, hN⟩ := e2 _ (loop_stop (postOp_none fun x q e => (op_facts x).2.1 (hr x q e)))
    refine .step (N + 1) (fun n hn => ?_) hres
    have hp : preOp min (unText o :: w ++ t ++ r) = some (o, w ++ (t ++ r)) := by
      have hm' := hm.1 (Nat.le_refl _)
      unfold preOp
      rw [if_neg (by simp only [unRhs]; omega), List.cons_append, List.cons_append, List.append_assoc]
      cases o <;> rfl
    cases n with
    | zero => omega
    | succ n =>
      simp only [expr, lhs, hp, un_group, e1, Option.bind_some, skip_append hw (hbt.stop nl), show unRhs = 13 from rfl, hN n (by omega),
        Option.map_some]
  | @pow nl d k k' a b t w u ha hw hb iha ihb =>
    exact binary_claim (o := .pow) iha ihb hw (T.beg hb (by simp)) rfl (by decide) (by decide)
      ⟨fun h => absurd h (by decide), fun o ho => (op_facts o).2.2.2.2.2.2.2.2.2.1 ho⟩ (by decide) (fun x hx => (op_facts x).1 hx)
  | @product nl o d k k' a b t w u ho ha hw hb iha ihb =>
    obtain ⟨f1, f2, f3⟩ := product_facts ho
    have := binary_claim iha ihb hw (T.beg hb (by simp)) rfl (by omega) (by omega)
      ⟨fun h => by omega, fun o ho => by have := op_facts o; omega⟩ (by omega) (fun x hx => by have := op_facts x; omega)
    rw [f1] at this
    exact this
  | @sum nl o d k k' a b t w u ho ha hw hb iha ihb =>
    obtain ⟨f1, f2, f3⟩ := sum_facts ho
    have := binary_claim iha ihb hw (T.beg hb (by simp)) rfl (by omega) (by omega)
      ⟨fun h => by omega, fun o ho => by have := op_facts o; omega⟩ (by omega) (fun x hx => by have := op_facts x; omega)
    rw [f1] at this
    exact this
  | @first nl g o d k k' a b t w u ha hw hb iha ihb =>
    intro st r min hc hk hf hr hm hu
    have hub := T.beg hb (by simp)
    have hx : opAt (cmpText o ++ (w ++ (u ++ r))) = some (.cmp o, w ++ (u ++ r)) := opAt_cmp o _
    obtain ⟨st1, c1, n1, e1⟩ := iha st (cmpText o ++ (w ++ (u ++ r))) min hc (by omega) (opText_fol (.cmp o) nl _)
      (by intro x q e; rw [hx] at e; cases e; exact Nat.le_refl _) ⟨fun _ => by omega, fun o ho => by have := op_facts o; omega⟩
      (by simpa [List.append_assoc] using hu)
    obtain ⟨st2, e2, c2, n2⟩ := enter_none c1 (by omega)
    obtain ⟨st3, c3, n3, e3⟩ := ihb st2 r 7 c2 (by omega) hf (fun x q e => by have := hr x q e; have := op_facts x; omega)
      ⟨fun _ => by omega, fun o ho => by have := op_facts o; omega⟩ (fun x hx => hu x (by simp only [List.mem_append] at hx ⊢; grind))
    refine ⟨st3, c3, by omega, fun mid res hmid hres => ?_⟩
    simp only [List.append_assoc]
    obtain ⟨N, hN⟩ := e3 _ (loop_stop (postOp_none fun x q e => by have := hr x q e; have := op_facts x; omega))
    have hch : Ev (fun n => chain n nl d (.first a) o st2 (u ++ r)) mid := by
      refine .step N (fun n hn => ?_) hmid
      rw [chain, show (Op.cmp o).rhs = 7 from rfl, show expr n nl d 7 _ (u ++ r) = _ from hN n hn]
      rfl
    refine e1 res (op_ev hx (by have : (Op.cmp o).lhs = 6 := rfl; omega) e2 (skip_append hw ((hub.append r).stop nl)) ?_ hres)
    exact .step 0 (fun n _ => by rw [operation]) hch
  | @next nl g o d k k' c b t w u hc' hw hb ihc ihb =>
    intro st r min hc hk hf hr hm hu
    have hub := T.beg hb (by simp)
    have hx : opAt (cmpText o ++ (w ++ (u ++ r))) = some (.cmp o, w ++ (u ++ r)) := opAt_cmp o _
    obtain ⟨st1, c1, n1, e1⟩ := ihc st (cmpText o ++ (w ++ (u ++ r))) min hc (by omega) (opText_fol (.cmp o) nl _)
      (by intro x q e; rw [hx] at e; cases e; exact Nat.le_refl _) hm (by simpa [List.append_assoc] using hu)
    obtain ⟨st3, c3, n3, e3⟩ := ihb st1 r 7 c1 (by omega) hf (fun x q e => by have := hr x q e; have := op_facts x; omega)
      ⟨fun _ => by omega, fun o ho => by have := op_facts o; omega⟩ (fun x hx => hu x (by simp only [List.mem_append] at hx ⊢; grind))
    refine ⟨st3, c3, by omega, fun mid res hmid hres => ?_⟩
    simp only [List.append_assoc]
    obtain ⟨N, hN⟩ := e3 _ (loop_stop (postOp_none fun x q e => by have := hr x q e; have := op_facts x; omega))
    refine e1 mid res ?_ hres
    have hch : Ev (fun n => chain n nl d c o st1 (u ++ r)) mid := by
      refine .step N (fun n hn => ?_) hmid
      rw [chain, show (Op.cmp o).rhs = 7 from rfl, show expr n nl d 7 _ (u ++ r) = _ from hN n hn]
      rfl
    obtain ⟨M, hM⟩ := hch
    refine ⟨M, fun n hn => ?_⟩
    simp only [cmpTail, hx, skip_append hw ((hub.append r).stop nl), Option.bind_some, hM n hn]
  | @comparison nl g d k c t hc' ih =>
    intro st r min hc hk hf hr hm hu
    obtain ⟨st1, c1, n1, e1⟩ := ih st r min hc hk hf (fun o q e => by have := hr o q e; have := op_facts o; omega)
      (hm.2 (.cmp .less) (Nat.le_refl _)) hu
    refine ⟨st1, c1, n1, fun res hres => e1 (c, st1, r) res ⟨0, fun n _ => ?_⟩ hres⟩
    simp only [cmpTail]
    split
    · rename_i o q e
      exact absurd (hr _ _ e) (by simp [need, Op.level])
    · rfl
  | @cond nl g d k k' c e f t u w v hc' he hw hf' ihc ihe ihf =>
    intro st r min hc hk hf hr hm hu
    have hvb := T.beg hf' (by simp)
    have ha : t ++ 63 :: (u ++ 58 :: (w ++ v)) ++ r = t ++ (63 :: (u ++ 58 :: (w ++ (v ++ r)))) := by simp
    rw [ha] at hu ⊢
    obtain ⟨st1, c1, n1, e1⟩ := ihc st (63 :: (u ++ 58 :: (w ++ (v ++ r)))) min hc (by omega) (fol_char (by decide) _)
      (by intro x q e; rw [opAt_cond] at e; cases e; exact Nat.le_refl _) (hm.mono (by omega)) hu
    obtain ⟨st2, e2, c2, n2⟩ := enter_none c1 (by omega)
    obtain ⟨q, q1, M, q2⟩ := ihe (58 :: (w ++ (v ++ r))) (fol_char (by decide) _) rfl
      (fun x hx => hu x (by simp only [List.mem_append, List.mem_cons] at hx ⊢; grind)) nl
    obtain ⟨st3, c3, n3, e3⟩ := ihf st2 r 5 c2 (by omega) hf (hr.mono (by omega))
      ⟨fun _ => by omega, fun o ho => by have := op_facts o; omega⟩
      (fun x hx => hu x (by simp only [List.mem_append, List.mem_cons] at hx ⊢; grind))
    refine ⟨st3, c3, by omega, fun res hres => ?_⟩
    obtain ⟨N, hN⟩ := e3 _ (loop_stop (postOp_none fun x q e => by have := hr x q e; have := op_facts x; omega))
    refine e1 res (op_ev (opAt_cond _) (hm.2 .cond (Nat.le_refl _)) e2 q1 ?_ hres)
    refine .now (N + M) fun n hn => ?_
    simp only [operation, q2 n (by omega), Option.bind_some, show ∀ s, lit [58] (58 :: s) = some s from fun _ => rfl,
      skip_append hw ((hvb.append r).stop nl), show Op.cond.rhs = 5 from rfl, hN n (by omega)]
    split
    · rename_i q e
      exact absurd (hr _ _ e) (by decide)
    · rfl
  | @assign nl g d k k' a b t w u ha hw hb iha ihb =>
    intro st r min hc hk hf hr hm hu
    have hub := T.beg hb (by simp)
    have ha' : t ++ 61 :: (w ++ u) ++ r = t ++ (61 :: (w ++ (u ++ r))) := by simp
    rw [ha'] at hu ⊢
    have hx : opAt (61 :: (w ++ (u ++ r))) = some (.assign, w ++ (u ++ r)) := opAt_assign (ws_head hw (hub.append r))
    obtain ⟨st1, c1, n1, e1⟩ := iha st (61 :: (w ++ (u ++ r))) min hc (by omega) (fol_char (by decide) _)
      (by intro x q e; rw [hx] at e; cases e; exact Nat.le_refl _) (hm.mono (by omega)) hu
    obtain ⟨st2, e2, c2, n2⟩ := enter_none c1 (by omega)
    obtain ⟨st3, c3, n3, e3⟩ := ihb st2 r 3 c2 (by omega) hf (hr.mono (by omega))
      ⟨fun _ => by omega, fun o ho => by have := op_facts o; omega⟩
      (fun x hx => hu x (by simp only [List.mem_append, List.mem_cons] at hx ⊢; grind))
    refine ⟨st3, c3, by omega, fun res hres => ?_⟩
    obtain ⟨N, hN⟩ := e3 _ (loop_stop (postOp_none fun x q e => by have := hr x q e; have := op_facts x; omega))
    refine e1 res (op_ev hx (hm.2 .assign (Nat.le_refl _)) e2 (skip_append hw ((hub.append r).stop nl)) ?_ hres)
    refine .now N fun n hn => ?_
    simp only [operation, show Op.assign.rhs = 3 from rfl, hN n hn, Option.bind_some]
    split
    · rename_i q e
      exact absurd (hr _ _ e) (by decide)
    · rfl
  | @nested nl g g' d k e w t hd hk hw ht ih =>
    intro r hf hr hu nl'
    have htb := (T.beg ht (by simp)).append r
    obtain ⟨w', hw', e1⟩ := skip_pre hw (htb.stop true) nl'
    rw [List.append_assoc] at hu ⊢
    refine ⟨_, e1, ?_⟩
    obtain ⟨st1, c1, n1, e2⟩ := ih {} r 2 (.inl rfl) (by simpa using hk) hf (by intro o q e; rw [hr] at e; cases e)
      ⟨fun _ => by omega, fun o _ => by have := op_facts o; omega⟩ (fun x hx => hu x (by simp only [List.mem_append] at hx ⊢; grind))
    obtain ⟨N, hN⟩ := e2 _ (loop_stop (by rw [postOp, hr]))
    refine .now N fun n hn => ?_
    rw [Verif.CalcP.nested, if_neg (by omega), skip_append hw' (htb.stop true)]
    simp only [Option.bind_some, show Op.assign.lhs = 2 from rfl, hN n hn, Option.map_some]

/-! ### What is parsed is written -/

theorem T.down {nl : Bool} {g : Grp} {d k : Nat} {e : Ast} {t : List Nat} : ∀ {l l' : Nat}, l ≤ l' → T (.lv l') nl g d k e t →
    T (.lv l) nl g d k e t
  | l, 0, h, ht => by rw [Nat.le_zero.1 h]; exact ht
  | l, l' + 1, h, ht => by
    rcases Nat.lt_or_eq_of_le h with h | rfl
    · exact T.down (Nat.le_of_lt_succ h) ht.up
    · exact ht

/-- The operators that may be used are of the level. -/
def Mn (min l : Nat) : Prop := (∀ o : Op, min ≤ o.lhs → l ≤ o.level) ∧ (min ≤ 13 → l ≤ 6) ∧ l ≤ 8

/-- What is known about the states before and after. -/
def Step (st st' : St) (k : Nat) : Prop :=
  st'.nest = st.nest + k ∧ (k = 0 ∨ st'.nest ≤ 256) ∧ Grows st st' ∧ (st.group ≤ 2 → st'.group ≤ 2)

theorem Step.refl (st : St) : Step st st 0 := ⟨rfl, .inl rfl, Grows.refl st, id⟩

theorem Step.trans {a b c : St} {k k' : Nat} (h : Step a b k) (h' : Step b c k') : Step a c (k + k') := by
  obtain ⟨h1, h2, h3, h4⟩ := h
  obtain ⟨h5, h6, h7, h8⟩ := h'
  exact ⟨by omega, by omega, h3.trans h7, fun x => h8 (h4 x)⟩

theorem Step.enter {x : Nat} {st st' : St} (h : enter x st = some st') (hx : x ≤ 2) : Step st st' 1 ∧ (x ≠ 0 → st'.group = x) := by
  obtain ⟨h1, h2, h3, h4⟩ := enter_sound h
  refine ⟨⟨h2, .inr h3, h1, fun h5 => ?_⟩, h4⟩
  by_cases h0 : x = 0
  · rcases h1 with h1 | h1
    · unfold Verif.CalcP.enter at h
      rw [if_pos h0] at h
      split at h
      · cases h
      · cases h; exact h5
    · omega
  · rw [h4 h0]; exact hx

theorem op_group_le (o : Op) : o.group ≤ 2 := by
  cases o with
  | bin o => cases o <;> decide
  | cmp o => exact Nat.zero_le _
  | cond => decide
  | assign => decide

theorem un_group_le (o : UnOp) : unGroup o ≤ 2 := by cases o <;> decide

theorem group_eq {x : Grp} {st st' : St} (h : st.group = code x) (hg : Grows st st') {g : Grp} (hc : Compat g st') : g = x := by
  have h1 : st'.group = code x := by
    rcases hg with hg | hg
    · exact absurd (h.symm.trans hg) (code_pos x)
    · exact hg.symm.trans h
  rcases hc with hc | hc
  · exact absurd (h1.symm.trans hc) (code_pos x)
  · have := h1.symm.trans hc
    cases g <;> cases x <;> simp_all [code]

structure Sound (n : Nat) : Prop where
  expr : ∀ {nl : Bool} {d min l : Nat} {st st' : St} {s r : List Nat} {e : Ast}, expr n nl d min st s = some (e, st', r) →
    Units 256 s → Mn min l →
    (∃ t k, s = t ++ r ∧ Step st st' k ∧ ∀ g, Compat g st' → T (.lv l) nl g d k e t) ∧ postOp min r = none
  lhs : ∀ {nl : Bool} {d min l : Nat} {st st' : St} {s r : List Nat} {e : Ast}, lhs n nl d min st s = some (e, st', r) →
    Units 256 s → Mn min l →
    ∃ l0, l ≤ l0 ∧ l0 ≤ 8 ∧ (∀ o q, postOp min r = some (o, q) → need o ≤ l0) ∧
      ∃ t k, s = t ++ r ∧ Step st st' k ∧ ∀ g, Compat g st' → T (.lv l0) nl g d k e t
  loop : ∀ {nl : Bool} {d min l l0 k0 : Nat} {st st' : St} {s r t0 : List Nat} {e0 e : Ast}, loop n nl d min e0 st s = some (e, st', r) →
    Units 256 s → Mn min l → l ≤ l0 → (∀ o q, postOp min s = some (o, q) → need o ≤ l0) →
    (∀ g, Compat g st → T (.lv l0) nl g d k0 e0 t0) →
    (∃ t k, s = t ++ r ∧ Step st st' k ∧ ∀ g, Compat g st' → T (.lv l) nl g d (k0 + k) e (t0 ++ t)) ∧ postOp min r = none
  operation : ∀ {nl : Bool} {d k0 : Nat} {o : Op} {st st' : St} {s r t0 w : List Nat} {e0 e : Ast},
    operation n nl d e0 o st s = some (e, st', r) → Units 256 s → (∀ g, Compat g st → T (.lv (need o)) nl g d k0 e0 t0) →
    (o.group ≠ 0 → st.group = o.group) → Ws nl w →
    (∃ t k, s = t ++ r ∧ Step st st' k ∧ ∀ g, Compat g st' → T (.lv o.level) nl g d (k0 + k + 1) e (t0 ++ (opText o ++ (w ++ t)))) ∧
      ∀ o' q, opAt r = some (o', q) → need o' ≤ o.level
  chain : ∀ {nl : Bool} {d k0 : Nat} {o : CmpOp} {st st' : St} {s r t0 : List Nat} {c e : Ast},
    chain n nl d c o st s = some (e, st', r) → Units 256 s →
    (∀ g, Compat g st → ∀ k' b u, T (.lv 4) nl g d k' b u → T .cmps nl g d (k0 + k') (.push c o b) (t0 ++ u)) →
    (∃ t k, s = t ++ r ∧ Step st st' k ∧ ∀ g, Compat g st' → T .cmps nl g d (k0 + k) e (t0 ++ t)) ∧
      ∀ o' q, opAt r = some (o', q) → need o' ≤ 3
  atom : ∀ {nl : Bool} {d : Nat} {s r : List Nat} {e : Ast}, atom n nl d s = some (e, r) → Units 256 s →
    ∃ t, s = t ++ r ∧ ∀ g, T (.lv 8) nl g d 0 e t
  nested : ∀ {d : Nat} {s r : List Nat} {e : Ast}, nested n d s = some (e, r) → Units 256 s →
    ∃ t, s = t ++ r ∧ ∀ w nl g, Ws true w → T .nested nl g d 0 e (w ++ t)

theorem postOp_lt {min : Nat} {r : List Nat} (h : postOp min r = none) : ∀ o q, opAt r = some (o, q) → o.lhs < min := by
  intro o q e
  rw [postOp, e] at h
  simp only at h
  split at h
  · cases h
  · omega

theorem postOp_sound {min : Nat} {r q : List Nat} {o : Op} (h : postOp min r = some (o, q)) : opAt r = some (o, q) ∧ min ≤ o.lhs := by
  unfold postOp at h
  split at h
  · split at h
    · rename_i e hm; cases h; exact ⟨e, hm⟩
    · cases h
  · cases h

/-- The arithmetic of the levels, again. -/
theorem need_facts : ∀ o : Op, (o.lhs < 14 → need o ≤ 7) ∧ (o.lhs < 13 → need o ≤ 6) ∧ (o.lhs < 11 → need o ≤ 5) ∧ (o.lhs < 9 → need o ≤ 4)
    ∧ (o.lhs < 7 → (∀ c, o ≠ .cmp c) → need o ≤ 3) ∧ (o.lhs < 5 → o ≠ .cond → need o ≤ 2) ∧ (o.lhs < 3 → o ≠ .assign → need o ≤ 1)
    ∧ need o ≤ 8 ∧ (14 ≤ o.lhs → 7 ≤ o.level) ∧ (13 ≤ o.lhs → 6 ≤ o.level) ∧ (11 ≤ o.lhs → 6 ≤ o.level) ∧ (9 ≤ o.lhs → 5 ≤ o.level)
    ∧ (7 ≤ o.lhs → 4 ≤ o.level) ∧ (5 ≤ o.lhs → 3 ≤ o.level) ∧ (3 ≤ o.lhs → 2 ≤ o.level) ∧ 1 ≤ o.level := by
  intro o
  cases o with
  | bin o => cases o <;> simp [Op.lhs, Op.level, need]
  | cmp o => cases o <;> simp [Op.lhs, Op.level, need]
  | cond => simp [Op.lhs, Op.level, need]
  | assign => simp [Op.lhs, Op.level, need]

theorem mn {min l : Nat} (h : (min = 2 ∧ l = 1) ∨ (min = 3 ∧ l = 2) ∨ (min = 5 ∧ l = 3) ∨ (min = 7 ∧ l = 4) ∨ (min = 9 ∧ l = 5) ∨
    (min = 11 ∧ l = 6) ∨ (min = 13 ∧ l = 6) ∨ (min = 14 ∧ l = 7)) : Mn min l := by
  refine ⟨fun o ho => ?_, fun hm => by omega, by omega⟩
  have := need_facts o
  omega

theorem bin_cases (o : BinOp) : o = .pow ∨ IsProduct o ∨ IsSum o := by
  cases o <;> simp [IsProduct, IsSum]

theorem units_append {a b : List Nat} (h : Units 256 (a ++ b)) : Units 256 b := fun u hu => h u (List.mem_append_right _ hu)

theorem sound (n : Nat) : Sound n := by
  induction n with
  | zero =>
    refine ⟨?_, ?_, ?_, ?_, ?_, ?_, ?_⟩
    · intro _ _ _ _ _ _ _ _ _ h; rw [expr] at h; cases h
    · intro _ _ _ _ _ _ _ _ _ h; rw [lhs] at h; cases h
    · intro _ _ _ _ _ _ _ _ _ _ _ _ _ h; rw [loop] at h; cases h
    · intro _ _ _ _ _ _ _ _ _ _ _ _ h; rw [operation] at h; cases h
    · intro _ _ _ _ _ _ _ _ _ _ _ h; rw [chain] at h; cases h
    · intro _ _ _ _ _ h; rw [atom] at h; cases h
    · intro _ _ _ _ h; rw [nested] at h; cases h
  | succ n ih =>
    refine ⟨?_, ?_, ?_, ?_, ?_, ?_, ?_⟩
    · intro nl d min l st st' s r e h hu hm
      rw [expr, Option.bind_eq_some_iff] at h
      obtain ⟨⟨e1, st1, r1⟩, h1, h2⟩ := h
      obtain ⟨l0, hl, hl', hn, t, k, rfl, hs, ht⟩ := ih.lhs h1 hu hm
      obtain ⟨⟨t', k', rfl, hs', ht'⟩, hp⟩ := ih.loop h2 (units_append hu) hm hl hn ht
      exact ⟨⟨t ++ t', k + k', by simp, hs.trans hs', ht'⟩, hp⟩
    · intro nl d min l st st' s r e h hu hm
      rw [lhs] at h
      split at h
      · rename_i o q hq
        simp only [Option.bind_eq_some_iff, Option.map_eq_some_iff] at h
        obtain ⟨st1, h1, q', h2, ⟨e2, st2, r2⟩, h3, h4⟩ := h
        cases h4
        have hq' : min ≤ 13 ∧ s = unText o :: q := by
          unfold preOp at hq
          split at hq
          · cases hq
          · rename_i hm'
            refine ⟨by simp only [unRhs] at hm'; omega, ?_⟩
            split at hq <;> simp at hq <;> obtain ⟨rfl, rfl⟩ := hq <;> rfl
        obtain ⟨hmin, rfl⟩ := hq'
        obtain ⟨w, hw, rfl, -⟩ := skip_sound h2
        obtain ⟨⟨t, k, rfl, hs, ht⟩, hp⟩ := ih.expr (l := 6) h3 (units_append (fun u hx => hu u (List.mem_cons_of_mem _ hx))) (mn (by simp [unRhs]))
        obtain ⟨hs1, hg⟩ := Step.enter h1 (un_group_le o)
        refine ⟨6, hm.2.1 hmin, by omega, ?_, unText o :: w ++ t, 1 + k, by simp, hs1.trans hs, ?_⟩
        · intro x q' e
          exact (need_facts x).2.1 (postOp_lt hp x q' (postOp_sound e).1)
        · intro g hc
          have hu' := hg (by rw [un_group]; exact code_pos _)
          have := group_eq (hu'.trans (un_group o)) hs.2.2.1 hc
          subst this
          rw [Nat.add_comm]
          exact .unary hw (ht _ hc)
      · rw [Option.map_eq_some_iff] at h
        obtain ⟨⟨e1, r1⟩, h1, h2⟩ := h
        cases h2
        obtain ⟨t, rfl, ht⟩ := ih.atom h1 hu
        exact ⟨8, hm.2.2, Nat.le_refl _, fun o _ _ => (need_facts o).2.2.2.2.2.2.2.1, t, 0, rfl, Step.refl st, fun g _ => ht g⟩
    · intro nl d min l l0 k0 st st' s r t0 e0 e h hu hm hl hn ht
      rw [loop] at h
      split at h
      · rename_i hp
        cases h
        exact ⟨⟨[], 0, rfl, Step.refl _, fun g hc => by rw [List.append_nil]; exact T.down hl (ht g hc)⟩, hp⟩
      · rename_i o q hp
        simp only [Option.bind_eq_some_iff] at h
        obtain ⟨st1, h1, q', h2, ⟨e2, st2, r2⟩, h3, h4⟩ := h
        obtain ⟨ho, hmin⟩ := postOp_sound hp
        have hs := opAt_sound ho
        subst hs
        obtain ⟨w, hw, rfl, -⟩ := skip_sound h2
        obtain ⟨hs1, hg⟩ := Step.enter h1 (op_group_le o)
        have hu1 := units_append (units_append hu)
        obtain ⟨⟨t, k, rfl, hs, ht'⟩, hnext⟩ := ih.operation h3 hu1
          (fun g hc => T.down (hn o _ hp) (ht g (hs1.2.2.1.compat hc))) hg hw
        obtain ⟨⟨t2, k2, rfl, hs2, ht2⟩, hp2⟩ := ih.loop h4 (units_append hu1) hm (hm.1 o hmin)
          (fun o' q e => hnext o' q (postOp_sound e).1) ht'
        refine ⟨⟨opText o ++ (w ++ (t ++ t2)), 1 + k + k2, by simp, (hs1.trans hs).trans hs2, fun g hc => ?_⟩, hp2⟩
        have := ht2 g hc
        have e1 : k0 + k + 1 + k2 = k0 + (1 + k + k2) := by omega
        rw [e1] at this
        simpa [List.append_assoc] using this
    · intro nl d k0 o st st' s r t0 w e0 e h hu ht hg hw
      cases o with
      | bin o =>
        rw [operation, Option.map_eq_some_iff] at h
        obtain ⟨⟨e1, st1, r1⟩, h1, h2⟩ := h
        cases h2
        have hgr : st.group = code (binGrp o) := by
          have := hg (by rw [bin_group]; exact code_pos _)
          rw [this, bin_group]
        rcases bin_cases o with rfl | ho | ho
        · obtain ⟨⟨t, k, rfl, hs, ht'⟩, hp⟩ := ih.expr (l := 7) h1 hu (mn (by decide))
          refine ⟨⟨t, k, rfl, hs, fun g hc => ?_⟩, fun o' q e => (need_facts o').1 (postOp_lt hp o' q e)⟩
          have := group_eq hgr hs.2.2.1 hc
          subst this
          exact .pow (ht _ (hs.2.2.1.compat hc)) hw (ht' _ hc)
        · obtain ⟨f1, f2, f3⟩ := product_facts ho
          rw [f2] at h1
          rw [f3] at ht
          rw [f1]
          obtain ⟨⟨t, k, rfl, hs, ht'⟩, hp⟩ := ih.expr (l := 6) h1 hu (mn (by simp))
          refine ⟨⟨t, k, rfl, hs, fun g hc => ?_⟩, fun o' q e => (need_facts o').2.2.1 (postOp_lt hp o' q e)⟩
          have := group_eq hgr hs.2.2.1 hc
          subst this
          exact .product ho (ht _ (hs.2.2.1.compat hc)) hw (ht' _ hc)
        · obtain ⟨f1, f2, f3⟩ := sum_facts ho
          rw [f2] at h1
          rw [f3] at ht
          rw [f1]
          obtain ⟨⟨t, k, rfl, hs, ht'⟩, hp⟩ := ih.expr (l := 5) h1 hu (mn (by simp))
          refine ⟨⟨t, k, rfl, hs, fun g hc => ?_⟩, fun o' q e => (need_facts o').2.2.2.1 (postOp_lt hp o' q e)⟩
          have := group_eq hgr hs.2.2.1 hc
          subst this
          exact .sum ho (ht _ (hs.2.2.1.compat hc)) hw (ht' _ hc)
      | cmp o =>
        rw [operation] at h
        obtain ⟨⟨t, k, rfl, hs, ht'⟩, hnext⟩ := ih.chain (k0 := k0 + 1) (t0 := t0 ++ (cmpText o ++ w)) h hu (by
          intro g hc k' b u hb
          have := T.first (o := o) (ht g hc) hw hb
          have e1 : k0 + 1 + k' = k0 + k' + 1 := by omega
          rw [e1]
          simpa [List.append_assoc] using this)
        refine ⟨⟨t, k, rfl, hs, fun g hc => ?_⟩, hnext⟩
        have := ht' g hc
        have e1 : k0 + 1 + k = k0 + k + 1 := by omega
        rw [e1] at this
        exact .comparison (by simpa [List.append_assoc, opText] using this)
      | cond =>
        rw [operation] at h
        simp only [Option.bind_eq_some_iff] at h
        obtain ⟨⟨x, q⟩, h1, q1, h2, q2, h3, ⟨f, st1, r1⟩, h4, h5⟩ := h
        obtain ⟨t1, rfl, ht1⟩ := ih.nested h1 hu
        have := lit_sound h2
        subst this
        obtain ⟨w2, hw2, rfl, -⟩ := skip_sound h3
        have hu1 := units_append (units_append (units_append hu))
        obtain ⟨⟨t, k, rfl, hs, ht'⟩, hp⟩ := ih.expr (l := 3) h4 hu1 (mn (by decide))
        have hr : e = .cond e0 x f ∧ st' = st1 ∧ r = r1 ∧ ∀ q, opAt r1 ≠ some (.cond, q) := by
          simp only at h5
          split at h5
          · cases h5
          · rename_i hne
            cases h5
            exact ⟨rfl, rfl, rfl, fun q e => hne q e⟩
        obtain ⟨rfl, rfl, rfl, hne⟩ := hr
        refine ⟨⟨t1 ++ 58 :: (w2 ++ t), k, by simp, hs, fun g hc => ?_⟩, fun o' q e => ?_⟩
        · have := T.cond (ht _ (hs.2.2.1.compat hc)) (ht1 w nl g hw.to_true) hw2 (ht' _ hc)
          simpa [List.append_assoc, opText, Op.level] using this
        · exact (need_facts o').2.2.2.2.2.1 (postOp_lt hp o' q e) (fun e' => hne q (e' ▸ e))
      | assign =>
        rw [operation] at h
        simp only [Option.bind_eq_some_iff] at h
        obtain ⟨⟨f, st1, r1⟩, h4, h5⟩ := h
        obtain ⟨⟨t, k, rfl, hs, ht'⟩, hp⟩ := ih.expr (l := 2) h4 hu (mn (by decide))
        have hr : e = .assign e0 f ∧ st' = st1 ∧ r = r1 ∧ ∀ q, opAt r1 ≠ some (.assign, q) := by
          simp only at h5
          split at h5
          · cases h5
          · rename_i hne
            cases h5
            exact ⟨rfl, rfl, rfl, fun q e => hne q e⟩
        obtain ⟨rfl, rfl, rfl, hne⟩ := hr
        refine ⟨⟨t, k, rfl, hs, fun g hc => ?_⟩, fun o' q e => ?_⟩
        · have := T.assign (ht _ (hs.2.2.1.compat hc)) hw (ht' _ hc)
          simpa [List.append_assoc, opText, Op.level] using this
        exact (need_facts o').2.2.2.2.2.2.1 (postOp_lt hp o' q e) (fun e' => hne q (e' ▸ e))
    · intro nl d k0 o st st' s r t0 c e h hu hc0
      rw [chain, Option.bind_eq_some_iff] at h
      obtain ⟨⟨x, st1, r1⟩, h1, h2⟩ := h
      obtain ⟨⟨t, k, rfl, hs, ht'⟩, hp⟩ := ih.expr (l := 4) h1 hu (mn (by simp [Op.rhs, Op.level]))
      simp only at h2
      split at h2
      · rename_i o' r' ho
        rw [Option.bind_eq_some_iff] at h2
        obtain ⟨q, h3, h4⟩ := h2
        have := opAt_sound ho
        subst this
        obtain ⟨w, hw, rfl, -⟩ := skip_sound h3
        have hu1 := units_append (units_append (units_append hu))
        obtain ⟨⟨t2, k2, rfl, hs2, ht2⟩, hnext⟩ := ih.chain (k0 := k0 + k) (t0 := t0 ++ (t ++ (cmpText o' ++ w))) h4 hu1 (by
          intro g hg k' b u hb
          have h5 := hc0 g (hs.2.2.1.compat hg) k x t (ht' g hg)
          have := T.next (o := o') h5 hw hb
          simpa [List.append_assoc] using this)
        refine ⟨⟨t ++ (cmpText o' ++ (w ++ t2)), k + k2, by simp [opText], hs.trans hs2, fun g hg => ?_⟩, hnext⟩
        have := ht2 g hg
        simpa [List.append_assoc, Nat.add_assoc] using this
      · rename_i hne
        cases h2
        refine ⟨⟨t, k, rfl, hs, fun g hg => hc0 g (hs.2.2.1.compat hg) k x t (ht' g hg)⟩, fun o' q e => ?_⟩
        exact (need_facts o').2.2.2.2.1 (postOp_lt hp o' q e) (fun c e' => hne c q (e' ▸ e))
    · intro nl d s r e h hu
      rw [atom] at h
      split at h
      · rename_i h40
        cases s with
        | nil => cases h40
        | cons c s =>
          simp at h40; subst h40
          simp only [List.tail_cons, Option.bind_eq_some_iff, Option.map_eq_some_iff] at h
          obtain ⟨q1, h1, ⟨x, q2⟩, h2, q3, h3, q4, h4, h5⟩ := h
          cases h5
          obtain ⟨w, hw, rfl, -⟩ := skip_sound h1
          have hu1 : Units 256 q1 := units_append (a := 40 :: w) hu
          obtain ⟨t, rfl, ht⟩ := ih.nested h2 hu1
          have := lit_sound h3
          subst this
          obtain ⟨w2, hw2, rfl, -⟩ := skip_sound h4
          exact ⟨40 :: (w ++ t) ++ 41 :: w2, by simp, fun g => .paren (ht w nl g hw.to_true) hw2⟩
      · split at h
        · rename_i x q hx
          obtain ⟨hid, rfl⟩ := ident_sound hu hx
          rw [Option.bind_eq_some_iff] at h
          obtain ⟨q1, h1, h2⟩ := h
          obtain ⟨w, hw, rfl, -⟩ := skip_sound h1
          split at h2
          · rename_i h40
            cases q1 with
            | nil => cases h40
            | cons c q1 =>
              simp at h40; subst h40
              simp only [List.tail_cons, Option.bind_eq_some_iff, Option.map_eq_some_iff] at h2
              obtain ⟨q2, h2, ⟨y, q3⟩, h3, q4, h4, q5, h5, h6⟩ := h2
              cases h6
              obtain ⟨w1, hw1, rfl, -⟩ := skip_sound h2
              have hu1 : Units 256 q2 := units_append (a := 40 :: w1) (units_append (units_append hu))
              obtain ⟨t, rfl, ht⟩ := ih.nested h3 hu1
              have := lit_sound h4
              subst this
              obtain ⟨w2, hw2, rfl, -⟩ := skip_sound h5
              exact ⟨x ++ w ++ (40 :: (w1 ++ t) ++ 41 :: w2), by simp, fun g => .call hid hw (ht w1 nl g hw1.to_true) hw2⟩
          · cases h2
            exact ⟨x ++ w, by simp, fun g => .name hid hw⟩
        · simp only [Option.bind_eq_some_iff, Option.map_eq_some_iff] at h
          obtain ⟨⟨v, q⟩, h1, q1, h2, h3⟩ := h
          cases h3
          obtain ⟨x, rfl, hx⟩ := integer_sound h1
          obtain ⟨w, hw, rfl, -⟩ := skip_sound h2
          exact ⟨x ++ w, by simp, fun g => .literal hx hw⟩
    · intro d s r e h hu
      rw [nested] at h
      split at h
      · cases h
      · rename_i hd
        simp only [Option.bind_eq_some_iff, Option.map_eq_some_iff] at h
        obtain ⟨q, h1, ⟨e1, st1, r1⟩, h2, h3⟩ := h
        cases h3
        obtain ⟨w, hw, rfl, -⟩ := skip_sound h1
        obtain ⟨⟨t, k, rfl, hs, ht⟩, -⟩ := ih.expr (l := 1) h2 (units_append hu) (mn (by decide))
        have hk : k ≤ 256 := by
          obtain ⟨s1, s2, -⟩ := hs
          simp at s1
          omega
        have hg : ∃ g, Compat g st1 := by
          have := hs.2.2.2 (Nat.zero_le _)
          by_cases h0 : st1.group = 2
          · exact ⟨.bits, .inr h0⟩
          · refine ⟨.math, ?_⟩
            simp only [Compat, code]
            omega
        obtain ⟨g', hg'⟩ := hg
        refine ⟨w ++ t, by simp, fun w' nl g hw' => ?_⟩
        rw [← List.append_assoc]
        exact .nested (by omega) hk (hw'.append hw) (ht g' hg')

/-! ### Statements -/

/-- The end of the line. -/
def AtEnd (r : List Nat) : Prop := r = [] ∨ ∃ q r', Newline q ∧ r = q ++ r'

theorem atEol_iff {r : List Nat} (h : 0xFF ∉ r) : atEol r = true ↔ AtEnd r := by
  constructor
  · intro h1
    simp only [atEol, Bool.or_eq_true, beq_iff_eq] at h1
    rcases h1 with h1 | h1
    · cases r with
      | nil => exact .inl rfl
      | cons c r => exact absurd (by simp only [peek8, List.headD_cons] at h1; simp [h1]) h
    · obtain ⟨r', h2⟩ := Option.isSome_iff_exists.1 h1
      obtain ⟨q, hq, e⟩ := newline_sound h2
      exact .inr ⟨q, r', hq, e⟩
  · rintro (rfl | ⟨q, r', hq, rfl⟩)
    · rfl
    · simp [atEol, newline_append hq]

theorem end_fol {r : List Nat} (h : AtEnd r) : Fol false r ∧ opAt r = none := by
  rcases h with rfl | ⟨q, r', rfl | rfl, rfl⟩
  · exact ⟨⟨stop_nil _, nofun⟩, rfl⟩
  · refine ⟨⟨?_, ?_⟩, rfl⟩ <;> (intro c hc; simp at hc; subst hc; decide)
  · refine ⟨⟨?_, ?_⟩, rfl⟩ <;> (intro c hc; simp at hc; subst hc; decide)

theorem topExpr_append {e : Ast} {t r : List Nat} (h : Expr e t) (hf : Fol false r) (hr : opAt r = none) (hu : Units 256 (t ++ r)) :
    Ev (fun n => topExpr n (t ++ r)) (e, r) := by
  obtain ⟨g, k, hk, ht⟩ := h
  obtain ⟨st1, -, -, e1⟩ := claim ht {} r 2 (.inl rfl) (by simpa using hk) hf (by intro o q e; rw [hr] at e; cases e)
    ⟨fun _ => by omega, fun o _ => by have := op_facts o; omega⟩ hu
  obtain ⟨N, hN⟩ := e1 _ (loop_stop (by rw [postOp, hr]))
  exact ⟨N, fun n hn => by simp only [topExpr, show Op.assign.lhs = 2 from rfl, hN n hn, Option.map_some]⟩

theorem topExpr_sound {n : Nat} {s r : List Nat} {e : Ast} (h : topExpr n s = some (e, r)) (hu : Units 256 s) :
    ∃ t, s = t ++ r ∧ Expr e t := by
  rw [topExpr, Option.map_eq_some_iff] at h
  obtain ⟨⟨e1, st1, r1⟩, h1, h2⟩ := h
  cases h2
  obtain ⟨⟨t, k, rfl, hs, ht⟩, -⟩ := (sound n).expr (l := 1) h1 hu (mn (by decide))
  have hk : k ≤ 256 := by
    obtain ⟨s1, s2, -⟩ := hs
    simp at s1
    omega
  have hg : ∃ g, Compat g st1 := by
    have := hs.2.2.2 (Nat.zero_le _)
    by_cases h0 : st1.group = 2
    · exact ⟨.bits, .inr h0⟩
    · refine ⟨.math, ?_⟩
      simp only [Compat, code]
      omega
  obtain ⟨g, hg⟩ := hg
  exact ⟨t, rfl, g, k, hk, ht g hg⟩

theorem Expr.beg {e : Ast} {t : List Nat} (h : Expr e t) : Beg t := by
  obtain ⟨g, k, hk, ht⟩ := h
  exact T.beg ht (by simp)

theorem Exprs.beg {es : List Ast} {t : List Nat} (h : Exprs es t) : Beg t := by
  cases h with
  | one h => exact Expr.beg h
  | cons h => exact (Expr.beg h).append _

theorem beg_end {u : List Nat} (h : Beg u) : ¬ AtEnd u := by
  obtain ⟨c, q, rfl, h1, h2, h3, -⟩ := h
  rintro (e | ⟨q', r, rfl | rfl, e⟩)
  · cases e
  · simp at e; obtain ⟨rfl, -⟩ := e; cases h3
  · simp at e; obtain ⟨rfl, -⟩ := e; cases h3

theorem items_append {es : List Ast} {t r : List Nat} (h : Exprs es t) (hr : AtEnd r) (hu : Units 256 (t ++ r)) (hf : 0xFF ∉ t ++ r) :
    Ev (fun n => items n (t ++ r)) es := by
  induction h with
  | @one e t he =>
    obtain ⟨f1, f2⟩ := end_fol hr
    obtain ⟨N, hN⟩ := topExpr_append he f1 f2 hu
    refine .now N fun n hn => ?_
    simp only [items, hN n hn, Option.bind_some, (atEol_iff (fun hx => hf (List.mem_append_right _ hx))).2 hr, if_true]
  | @cons e es t w u he hw hes ih =>
    have ha : t ++ 59 :: (w ++ u) ++ r = t ++ 59 :: (w ++ (u ++ r)) := by simp
    rw [ha] at hu hf ⊢
    obtain ⟨N, hN⟩ := topExpr_append he (fol_char (by decide) _) rfl hu
    obtain ⟨M, hM⟩ := ih (fun x hx => hu x (by simp only [List.mem_append, List.mem_cons] at hx ⊢; grind))
      (fun hx => hf (by simp only [List.mem_append, List.mem_cons] at hx ⊢; grind))
    refine .now (N + M) fun n hn => ?_
    have hne : atEol (59 :: (w ++ (u ++ r))) = false := rfl
    simp only [items, hN n (by omega), Option.bind_some, hne, Bool.false_eq_true, if_false, List.head?_cons, if_true, List.tail_cons,
      skip_append hw (((Exprs.beg hes).append r).stop false), hM n (by omega), Option.map_some]

theorem items_sound : ∀ {n : Nat} {s : List Nat} {es : List Ast}, items n s = some es → Units 256 s → 0xFF ∉ s →
    ∃ t r, s = t ++ r ∧ Exprs es t ∧ AtEnd r
  | 0, _, _, h, _, _ => by cases h
  | n + 1, s, es, h, hu, hf => by
    rw [items, Option.bind_eq_some_iff] at h
    obtain ⟨⟨e, r⟩, h1, h2⟩ := h
    obtain ⟨t, rfl, ht⟩ := topExpr_sound h1 hu
    have hf' : 0xFF ∉ r := fun hx => hf (List.mem_append_right _ hx)
    simp only at h2
    split at h2
    · rename_i he
      cases h2
      exact ⟨t, r, rfl, .one ht, (atEol_iff hf').1 he⟩
    · split at h2
      · rename_i h59
        cases r with
        | nil => cases h59
        | cons c r =>
          simp at h59; subst h59
          simp only [List.tail_cons, Option.bind_eq_some_iff, Option.map_eq_some_iff] at h2
          obtain ⟨q, h3, es', h4, rfl⟩ := h2
          obtain ⟨w, hw, rfl, -⟩ := skip_sound h3
          obtain ⟨t', r', rfl, h5, h6⟩ := items_sound h4 (fun x hx => hu x (by simp [hx])) (fun hx => hf (by simp [hx]))
          exact ⟨t ++ 59 :: (w ++ t'), r', by simp, .cons ht hw h5, h6⟩
      · cases h2

/-- C108: the calculator parses a line to the expressions that are written in it, and only to them: with the precedence, the associativity
    and the groups of the grammar.  (Missing: lines with the byte 0xFF; see `C108_byte_refuted`.) -/
theorem C108_calculator_parses_partial {s : List Nat} (hu : Units 256 s) (hf : 0xFF ∉ s) (es : List Ast) :
    (Statement es s ↔ ∃ N, ∀ n, N ≤ n → stmt n s = some es) ∧ (Statement es s ↔ ∃ n, stmt n s = some es) := by
  have complete : Statement es s → Ev (fun n => stmt n s) es := by
    intro h
    cases h with
    | @empty w r hw hr =>
      have hr' : AtEnd r := hr
      refine ⟨0, fun n _ => ?_⟩
      simp only [stmt, skip_append hw (end_fol hr').1.1, Option.bind_some,
        (atEol_iff (fun hx => hf (List.mem_append_right _ hx))).2 hr', if_true]
    | @exprs es w t r hw ht hr =>
      have hb := (Exprs.beg ht).append r
      have hf' : 0xFF ∉ t ++ r := fun hx => hf (List.mem_append_right _ hx)
      obtain ⟨N, hN⟩ := items_append ht hr (units_append hu) hf'
      refine ⟨N, fun n hn => ?_⟩
      have : atEol (t ++ r) = false := by
        rw [Bool.eq_false_iff]
        exact fun h => beg_end hb ((atEol_iff hf').1 h)
      simp only [stmt, skip_append hw (hb.stop false), Option.bind_some, this, Bool.false_eq_true, if_false, hN n hn]
  have corr : ∀ n, stmt n s = some es → Statement es s := by
    intro n h
    rw [stmt, Option.bind_eq_some_iff] at h
    obtain ⟨r, h1, h2⟩ := h
    obtain ⟨w, hw, rfl, -⟩ := skip_sound h1
    have hf' : 0xFF ∉ r := fun hx => hf (List.mem_append_right _ hx)
    split at h2
    · rename_i he
      cases h2
      exact .empty hw ((atEol_iff hf').1 he)
    · obtain ⟨t, r, rfl, ht, hr⟩ := items_sound h2 (units_append hu) hf'
      exact .exprs hw ht hr
  refine ⟨⟨complete, ?_⟩, ⟨?_, ?_⟩⟩
  · rintro ⟨N, hN⟩; exact corr N (hN N (Nat.le_refl _))
  · intro h; obtain ⟨N, hN⟩ := complete h; exact ⟨N, hN N (Nat.le_refl _)⟩
  · rintro ⟨n, h⟩; exact corr n h

/-- C108: the grammar has no ambiguity: a line is written in only one way. -/
theorem C108_unambiguous {s : List Nat} (hu : Units 256 s) (hf : 0xFF ∉ s) {es es' : List Ast} (h : Statement es s) (h' : Statement es' s) :
    es = es' := by
  obtain ⟨N, hN⟩ := (C108_calculator_parses_partial hu hf es).1.1 h
  obtain ⟨M, hM⟩ := (C108_calculator_parses_partial hu hf es').1.1 h'
  have := (hN (N + M) (by omega)).symm.trans (hM (N + M) (by omega))
  cases this
  rfl

/-- `x = -2**0x1F + y < 3 == z ? (1 \n) : g(2); ~a | b`. -/
example : stmt 100 [120, 32, 61, 32, 45, 50, 42, 42, 48, 120, 49, 70, 32, 43, 32, 121, 32, 60, 32, 51, 32, 61, 61, 32, 122, 32, 63, 32, 40,
      49, 32, 10, 41, 32, 58, 32, 103, 40, 50, 41, 59, 32, 126, 97, 32, 124, 32, 98, 10] =
    some [.assign (.name [120]) (.cond
      (.push (.push (.first (.binary (.unary .negate (.binary (.literal 2) .pow (.literal 31))) .plus (.name [121]))) .less (.literal 3)) .equal
        (.name [122])) (.literal 1) (.call [103] (.literal 2))),
      .binary (.unary .complement (.name [97])) .bitOr (.name [98])] := by decide +kernel

/-- `1 + 2 & 3`, `a == b == c = 1 = 2` and `2**-1` are errors. -/
example : stmt 100 [49, 43, 50, 38, 51] = none ∧ stmt 100 [97, 61, 49, 61, 50] = none ∧ stmt 100 [50, 42, 42, 45, 49] = none := by
  refine ⟨?_, ?_, ?_⟩ <;> decide +kernel

theorem ws_noff {nl : Bool} {w : List Nat} (h : Ws nl w) : 0xFF ∉ w := by
  induction h with
  | nil => simp
  | blank hc _ ih => simp only [List.mem_cons, not_or]; exact ⟨by omega, ih⟩
  | line _ _ _ ih => simp only [List.mem_cons, not_or]; exact ⟨by omega, ih⟩
  | escaped hq _ ih => rcases hq with rfl | rfl <;> simpa using ih

theorem utf8_noff {c : Nat} (h : Spec.IsScalar c) : 0xFF ∉ Spec.utf8 c := by
  unfold Spec.IsScalar at h
  unfold Spec.utf8
  split
  · simp; omega
  split
  · simp; omega
  split
  · simp; omega
  · simp; omega

theorem ident_noff {x : List Nat} (h : Ident x) : 0xFF ∉ x := by
  cases h with
  | @mk c cs h1 h2 =>
    simp only [List.mem_append, List.mem_flatMap, not_or, not_exists, not_and]
    exact ⟨utf8_noff h1.1, fun y hy => utf8_noff (h2 y hy).1⟩

theorem numeral_noff {v : Nat} {x : List Nat} (h : Numeral v x) : 0xFF ∉ x := by
  cases h with
  | decimal _ h2 => intro hx; have := Spec.isDigitOf_lt (h2 _ hx); omega
  | hex _ h2 => 
    simp only [List.mem_cons, not_or]
    exact ⟨by omega, by omega, fun hx => by have := Spec.isDigitOf_lt (h2 _ hx); omega⟩

theorem T.noff {κ : K} {nl : Bool} {g : Grp} {d k : Nat} {e : Ast} {t : List Nat} (h : T κ nl g d k e t) : 0xFF ∉ t := by
  have hb : ∀ o : BinOp, 0xFF ∉ binText o := by intro o; cases o <;> decide
  have hc : ∀ o : CmpOp, 0xFF ∉ cmpText o := by intro o; cases o <;> decide
  have hn : ∀ o : UnOp, 0xFF ≠ unText o := by intro o; cases o <;> decide
  induction h with
  | paren _ hw ih => have := ws_noff hw; simp [this, ih]
  | name hx hw => have := ws_noff hw; have := ident_noff hx; simp [*]
  | call hx hw _ hw' ih => have := ws_noff hw; have := ws_noff hw'; have := ident_noff hx; simp [*]
  | literal hx hw => have := ws_noff hw; have := numeral_noff hx; simp [*]
  | up _ ih => exact ih
  | unary hw _ ih => have := ws_noff hw; simp [*]
  | pow _ hw _ ih1 ih2 => have := ws_noff hw; simp [*]
  | product _ _ hw _ ih1 ih2 => have := ws_noff hw; simp [*]
  | sum _ _ hw _ ih1 ih2 => have := ws_noff hw; simp [*]
  | first _ hw _ ih1 ih2 => have := ws_noff hw; simp [*]
  | next _ hw _ ih1 ih2 => have := ws_noff hw; simp [*]
  | comparison _ ih => exact ih
  | cond _ _ hw _ ih1 ih2 ih3 => have := ws_noff hw; simp [*]
  | assign _ hw _ ih1 ih2 => have := ws_noff hw; simp [*]
  | nested _ _ hw _ ih => have := ws_noff hw; simp [*]

theorem Exprs.noff {es : List Ast} {t : List Nat} (h : Exprs es t) : 0xFF ∉ t := by
  induction h with
  | one h => obtain ⟨g, k, -, ht⟩ := h; exact T.noff ht
  | cons h hw _ ih => obtain ⟨g, k, -, ht⟩ := h; have := T.noff ht; have := ws_noff hw; simp [*]

/-- C108 refuted for the byte 0xFF: it ends the line for `peek(eol)`, as it is taken for EOF.  The calculator computes `1` for `1\xFF+2`, and
    whatever is entered behind the byte is ignored without an error. -/
theorem C108_byte_refuted : ¬ ∀ s es n, Units 256 s → stmt n s = some es → Statement es s := by
  intro h
  have e : stmt 20 [49, 0xFF, 43, 50] = some [.literal 1] := by decide +kernel
  have hs := h _ _ _ (by unfold Units; decide +kernel) e
  generalize hx : [49, 0xFF, 43, 50] = s at hs
  have key : ∀ r, AtEnd r → (∀ y ∈ r, y ∈ [49, 0xFF, 43, 50]) → r = [] := by
    rintro r (h | ⟨q, r', rfl | rfl, rfl⟩) hm
    · exact h
    · exact absurd (hm 10 (by simp)) (by decide)
    · exact absurd (hm 10 (by simp)) (by decide)
  generalize he : [Ast.literal 1] = es at hs
  cases hs with
  | empty => cases he
  | @exprs es w t r hw ht hr =>
    have h0 := key r hr (fun y hy => by rw [hx]; simp [hy])
    subst h0
    have : (0xFF : Nat) ∈ w ++ (t ++ []) := by rw [← hx]; decide
    rw [List.append_nil, List.mem_append] at this
    exact this.elim (ws_noff hw) (Exprs.noff ht)

end Verif.CalcP
