import Verif.JsonSound
import Verif.Reject

/-
JSON is accepted by the grammar of examples/json.cpp, unless it is nested too deeply; then an error is reported.
-/

namespace Verif.Json

open Spec.Json

/-- What comes next, if there is anything. -/
def Next (s : List Nat) (p : Nat) (P : Nat → Prop) : Prop := ∀ c t, s.drop p = c :: t → P c

theorem Next.mono {s : List Nat} {p : Nat} {P Q : Nat → Prop} (h : Next s p P) (hi : ∀ c, P c → Q c) : Next s p Q :=
  fun c t hc => hi c (h c t hc)

theorem next_seg {s t : List Nat} {p q c : Nat} {P : Nat → Prop} (h : Seg s p q (c :: t)) (hc : P c) : Next s p P := by
  intro d u hd
  have := h.2
  rw [hd] at this
  cases this
  exact hc

/-! ## Tokens -/

theorem lit_ok {s w : List Nat} {kind tag p q : Nat} (hw : ∀ c ∈ w, c < 128) (h : Seg s p q w) :
    (litTok eof kind tag w).run (s.drop p) = (true, w.length) :=
  (lit_run (fun c hc => by have := hw c hc; simp only [eof, ne_eq, Option.some.injEq]; omega) _ _).2 ⟨h.pre, rfl⟩

theorem lit_miss {s w : List Nat} {kind tag p c : Nat} (hw : ∀ c ∈ w, c < 128) (hc : w.head? = some c) (h : Next s p (· ≠ c)) :
    ((litTok eof kind tag w).run (s.drop p)).1 = false := by
  cases hb : ((litTok eof kind tag w).run (s.drop p)).1 with
  | false => rfl
  | true =>
    obtain ⟨t, ht⟩ := (lit_hit' hw).1 hb
    cases w with
    | nil => cases hc
    | cons d w =>
      cases hc
      exact absurd rfl (h _ (w ++ t) ht.symm)

theorem maxRun_of {s t : List Nat} {p q : Nat} (h : Seg s p q t) (ht : ∀ c ∈ t, Digit c) (hn : Next s q (¬ Digit ·)) :
    Spec.MaxRun .decimal (s.drop p) t.length := by
  refine ⟨h.pre.length_le, ?_, ?_⟩
  · rw [h.take rfl]
    exact fun u hu => (digit_iff u).2 (ht u hu)
  · intro u hu hd
    rw [List.drop_drop, ← h.1] at hu
    cases hs : s.drop q with
    | nil => rw [hs] at hu; cases hu
    | cons c r =>
      rw [hs] at hu
      cases hu
      exact hn u r hs ((digit_iff u).1 hd)

theorem digits_ok {s t : List Nat} {kind tag p q : Nat} (h : Seg s p q t) (ht : Digits t) (hn : Next s q (¬ Digit ·)) :
    (digitsTok kind tag .decimal).run (s.drop p) = (true, t.length) :=
  (digits_run _ _).2 ⟨List.length_pos_iff.2 ht.1, maxRun_of h ht.2 hn⟩

theorem exponent_ok {s t : List Nat} {p q : Nat} (h : Seg s p q t) (ht : Digits t) (hl : exampleLimits.exp t) (hn : Next s q (¬ Digit ·)) :
    exponent.parse s p = (true, q, [.token (.user 3) p q]) := by
  have h1 := (C16_digits_maximal .decimal (s.drop p) t.length).2 ⟨List.length_pos_iff.2 ht.1, maxRun_of h ht.2 hn⟩
  rw [h.1]
  refine int_parse h1 h.pre.length_le ?_
  rw [h.take rfl]
  exact (overflow16 ht.2).2 hl

theorem integer_ok {s t : List Nat} {p q : Nat} (h : Seg s p q t) (ht : Int t) (hl : exampleLimits.int t) (hn : Next s q (¬ Digit ·)) :
    integer.parse s p = (true, q, [.token (.user 3) p q]) := by
  have hd : ∀ c ∈ t, Digit c := by
    rcases ht with rfl | ⟨c, u, rfl, h1, h2, h3⟩
    · intro c hc
      rw [List.mem_singleton.1 hc]
      unfold Digit
      omega
    · intro d hd
      rcases List.mem_cons.1 hd with rfl | hd
      · unfold Digit; omega
      · exact h3 d hd
  have h0 : 0 < t.length := by
    rcases ht with rfl | ⟨c, u, rfl, -⟩ <;> simp
  have hz : ¬ ((s.drop p).head? = some 0x30 ∧ 1 < t.length) := by
    rintro ⟨h1, h2⟩
    rcases ht with rfl | ⟨c, u, rfl, h3, -⟩
    · simp at h2
    · rw [h.2, List.cons_append, List.head?_cons] at h1
      cases h1
      omega
  have h1 := ((C16_no_leading_zero .decimal (s.drop p)).1 t.length).2 ⟨h0, maxRun_of h hd hn, hz⟩
  rw [h.1]
  refine int_parse (n := t.length) ?_ h.pre.length_le ?_
  · unfold nlzTok
    rw [h1]
  · rw [h.take rfl]
    exact (overflow64 hd).2 hl

theorem hex_digit {u : Nat} (h : Hex u) : ∃ v, Spec.digitI .hex (Int.ofNat u) = some v ∧ v < 16 := by
  have h1 := (hex_iff u).2 h
  unfold Spec.IsDigitOf at h1
  obtain ⟨v, hv⟩ := Option.isSome_iff_exists.1 h1
  refine ⟨v, ?_, ?_⟩
  · unfold Spec.digitI
    rw [if_pos (by simp only [Int.ofNat_eq_natCast]; omega)]
    exact hv
  · unfold Spec.digit at hv
    simp only [Spec.radix, Spec.lowerHex, Spec.upperHex, true_and] at hv
    repeat' split at hv
    all_goals first | (cases hv; omega) | cases hv

theorem codeUnit_ok {s : List Nat} {p q a b c d : Nat} (h : Seg s p q [a, b, c, d]) (ha : Hex a) (hb : Hex b) (hc : Hex c) (hd : Hex d) :
    codeUnit.parse s p = (true, q, [.token (.user 3) p q]) := by
  have hm : ∀ u ∈ [a, b, c, d], Hex u := by
    intro u hu
    simp only [List.mem_cons, List.not_mem_nil, or_false] at hu
    rcases hu with rfl | rfl | rfl | rfl <;> assumption
  have h1 := (C16_n_digits .hex 4 (s.drop p)).1 ⟨h.pre.length_le, by
    rw [h.take (n := 4) rfl]
    exact fun u hu => (hex_iff u).2 (hm u hu)⟩
  rw [h.1]
  refine int_parse (n := 4) h1 h.pre.length_le ?_
  rw [h.take (n := 4) rfl]
  obtain ⟨x, hx, lx⟩ := hex_digit ha
  obtain ⟨y, hy, ly⟩ := hex_digit hb
  obtain ⟨z, hz, lz⟩ := hex_digit hc
  obtain ⟨w, hw, lw⟩ := hex_digit hd
  have hval : Spec.value .hex ([a, b, c, d].map Int.ofNat) = ((x * 16 + y) * 16 + z) * 16 + w := by
    unfold Spec.value
    simp only [List.map_cons, List.map_nil]
    rw [valueFrom_cons_some hx, valueFrom_cons_some hy, valueFrom_cons_some hz, valueFrom_cons_some hw]
    simp [Spec.valueFrom, Spec.radix, Base.radix]
  obtain ⟨v, ov, h2, h3, -⟩ := C18_n_digits_integer (.plain char16) .hex traitsChar16 4 ([a, b, c, d].map Int.ofNat)
    (by
      intro e he
      obtain ⟨u, hu, rfl⟩ := List.mem_map.1 he
      have := hm u hu
      unfold Hex Digit at this
      constructor <;> simp only [Int.ofNat_eq_natCast] <;> omega)
    (by
      intro e he
      obtain ⟨u, hu, rfl⟩ := List.mem_map.1 he
      obtain ⟨v, hv, -⟩ := hex_digit (hm u hu)
      rw [hv]
      rfl) rfl
  unfold overflows
  rw [h2]
  cases ov with
  | false => rfl
  | true =>
    have := h3.1 rfl
    rw [hval, show (Traits.plain char16).max = 65535 from rfl] at this
    omega

/-! ## Strings -/

theorem utf8_first {v : Nat} (h : Spec.IsScalar v) : ∃ c r, Spec.utf8 v = c :: r ∧ ((c = v ∧ v < 128) ∨ (128 ≤ c ∧ c < 0xFF ∧ 128 ≤ v)) := by
  unfold Spec.IsScalar at h
  unfold Spec.utf8
  split
  · exact ⟨_, _, rfl, by omega⟩
  · split
    · exact ⟨_, _, rfl, by omega⟩
    · split
      · exact ⟨_, _, rfl, by omega⟩
      · exact ⟨_, _, rfl, by omega⟩

theorem content_limit {s : List Nat} (hs : Units 256 s) {c : Nat} {t : List Nat} (h : s = c :: t) (h1 : 0x20 ≤ c) (h2 : c < 0xFF) :
    content.atLimit s = false := by
  have hc : ((classTok 5 5 (AClass.cc .newline)).run s).1 = false := by
    cases hb : ((classTok 5 5 (AClass.cc .newline)).run s).1 with
    | false => rfl
    | true =>
      obtain ⟨u, r, e, hu⟩ := (class_hit_ascii (aclass_ok' _) (fun v hv => aclass_lt hv) s hs).1 hb
      rw [h] at e
      cases e
      have := (aclass_denote _ _).1 hu
      simp only [Spec.aclass, Bool.or_eq_true, beq_iff_eq] at this
      omega
  unfold DelimR.atLimit
  simp only [content, hc, Bool.false_or]
  rw [h]
  simp only [peekEof, eof, beq_eq_false_iff_ne, ne_eq, Option.some.injEq]
  omega

theorem loop_ok {s t : List Nat} (hs : Units 256 s) (ht : Chars exampleLimits t) : ∀ (p q start b : Nat), Seg s p q (t ++ [0x22]) →
    ∃ evs, (∀ ev ∈ evs, ev.isError = false) ∧ content.loop s start b p = (true, q, evs) := by
  have hdel : ∀ k b e, ∀ ev ∈ delContent k b e, ev.isError = false := by
    intro k b e ev hev
    unfold delContent at hev
    split at hev
    · cases hev
    · rw [List.mem_singleton.1 hev]; rfl
  -- an escape
  have hesc : ∀ (p m q start b : Nat) (c : Nat) (x : List Nat) (es : List Ev), Seg s p q (0x5C :: x) → x ≠ [] →
      (m, es) = escParse (.user 6) 8 (litTok eof 0 0 [0x5C])
        [.ofRule (symRule escapedSymbols eof 9) _ rfl, .ofProd 13 (litTok eof 0 0 [0x75]) codeUnit] s b p 1 →
      (∀ ev ∈ es, ev.isError = false) → p < m → m ≤ s.length →
      (∃ evs, (∀ ev ∈ evs, ev.isError = false) ∧ content.loop s start m m = (true, q, evs)) →
      ∃ evs, (∀ ev ∈ evs, ev.isError = false) ∧ content.loop s start b p = (true, q, evs) := by
    intro p m q start b c x es hseg hx he hes h1 h2 ⟨evs, hq, h3⟩
    have e1 : s.drop p = 0x5C :: (x ++ s.drop q) := hseg.2
    rw [DelimR.loop]
    simp only
    rw [if_neg (by
      rw [show content.close = litTok eof 0 0 [0x22] from rfl, lit_miss (by decide) rfl (next_seg hseg (by decide))]
      nofun)]
    rw [content_limit (hs.drop p) e1 (by decide) (by decide)]
    rw [if_neg (by nofun)]
    have h4 := lit_ok (s := s) (kind := 0) (tag := 0) (w := [0x5C]) (p := p) (by decide) (Seg.cons e1)
    have h5 : escTry content.kind content.escTag content.escapes s b p = some (m, es) := by
      simp only [content, escTry, h4, if_true]
      rw [he]
      rfl
    rw [h5]
    simp only
    rw [dif_pos ⟨h1, h2⟩, h3]
    refine ⟨es ++ evs, ?_, rfl⟩
    intro ev hev
    rcases List.mem_append.1 hev with h | h
    · exact hes ev h
    · exact hq ev h
  induction ht with
  | nil =>
    intro p q start b h
    have h1 := lit_ok (s := s) (kind := 0) (tag := 0) (w := [0x22]) (by decide) h
    rw [DelimR.loop]
    simp only
    rw [if_pos (by rw [show content.close = litTok eof 0 0 [0x22] from rfl, h1])]
    refine ⟨_, ?_, by rw [show content.close = litTok eof 0 0 [0x22] from rfl, h1, h.1]; rfl⟩
    intro ev hev
    rcases List.mem_append.1 hev with h | h
    · exact hdel _ _ _ ev h
    · rw [List.mem_singleton.1 h]; rfl
  | @unescaped v t hv hl ht ih =>
    intro p q start b h
    rw [List.append_assoc] at h
    obtain ⟨s1, s2⟩ := h.split
    obtain ⟨evs, hq, h3⟩ := ih _ _ start b s2
    obtain ⟨c, r, hc, hcv⟩ := utf8_first hv.2.2.2
    have hv1 := hv.1
    have hv2 := hv.2.1
    have hv3 := hv.2.2.1
    rw [hc] at s1
    have e1 : s.drop p = c :: (r ++ s.drop (p + (Spec.utf8 v).length)) := by
      have := s1.2
      rw [hc]
      exact this
    rw [DelimR.loop]
    simp only
    rw [if_neg (by
      rw [show content.close = litTok eof 0 0 [0x22] from rfl, lit_miss (by decide) rfl (next_seg s1 (by omega))]
      nofun)]
    rw [content_limit (hs.drop p) e1 (by omega) (by omega), if_neg (by nofun)]
    have h5 : escTry content.kind content.escTag content.escapes s b p = none := by
      simp only [content, escTry, lit_miss (s := s) (p := p) (w := [0x5C]) (kind := 0) (tag := 0) (by decide) rfl
        (next_seg s1 (by omega)), Bool.false_eq_true, if_false]
    rw [h5]
    simp only
    have h6 := specUtf8_parse hv.2.2.2 (hs.drop q)
    have h7 : content.char (s.drop p) = (true, (Spec.utf8 v).length) := by
      have h8 : s.drop p = Spec.utf8 v ++ s.drop (p + (Spec.utf8 v).length) := by rw [e1, hc]; rfl
      refine (C20_char_class .utf8 codePoint codePoint_ok (s.drop p) (hs.drop p) _).2 ?_
      have h9 : parseCp .utf8 (s.drop p) = ⟨v, .success, (Spec.utf8 v).length⟩ := by
        rw [h8]
        exact specUtf8_parse hv.2.2.2 (hs.drop _)
      rw [h9]
      exact ⟨rfl, (control_denote v).2 ⟨hv1, hl⟩, rfl⟩
    rw [h7]
    have hle := s1.le_length (by nofun)
    rw [dif_pos ⟨by rw [hc]; simp, by simpa [hc] using hle⟩]
    simp only [if_true]
    exact ⟨evs, hq, h3⟩
  | @escape c t hc ht ih =>
    intro p q start b h
    have h1 : Seg s p q ([0x5C] ++ ([c] ++ (t ++ [0x22]))) := h
    obtain ⟨s1, h2⟩ := h1.split
    obtain ⟨s2, h3⟩ := h2.split
    have e2 : s.drop (p + 1) = c :: (t ++ [0x22] ++ s.drop q) := by simpa using h2.2
    have hy := (sym_iff (s.drop (p + 1)) 1).2 ⟨rfl, c, _, e2, hc⟩
    refine hesc p (p + 1 + 1) q start b c _ _ h (by simp) (Prod.ext ?_ rfl) ?_ (by omega) (s2.le_length (by simp)) (ih _ _ _ _ h3)
    · simp only [escParse, escBranches, EscBr.ofRule, symRule, hy, Option.isSome_some, if_true, symParse]
    · simp only [escParse, escBranches, EscBr.ofRule, symRule, hy, Option.isSome_some, if_true, symParse]
      intro ev hev
      simp only [List.mem_append, List.mem_cons, List.not_mem_nil, or_false, List.append_nil] at hev
      rcases hev with h | h | h
      · exact hdel _ _ _ ev h
      · subst h; rfl
      · subst h; rfl
  | @code a b' c d t ha hb hc hd ht ih =>
    intro p q start b h
    have h1 : Seg s p q ([0x5C] ++ ([0x75] ++ ([a, b', c, d] ++ (t ++ [0x22])))) := h
    obtain ⟨s1, h2⟩ := h1.split
    obtain ⟨s2, h3⟩ := h2.split
    obtain ⟨s3, h4⟩ := h3.split
    simp only [List.length_cons, List.length_nil, Nat.zero_add] at s1 s2 s3 h4
    have e2 : s.drop (p + 1) = 0x75 :: (a :: b' :: c :: d :: (t ++ [0x22] ++ s.drop q)) := by simpa using h2.2
    have hy : symLen escapedSymbols eof (s.drop (p + 1)) = none := by
      cases hy : symLen escapedSymbols eof (s.drop (p + 1)) with
      | none => rfl
      | some n =>
        obtain ⟨-, c, r, h5, h6⟩ := (sym_iff _ _).1 hy
        rw [e2] at h5
        cases h5
        exact absurd h6 (by decide)
    have hu := lit_ok (s := s) (kind := 0) (tag := 0) (w := [0x75]) (p := p + 1) (by decide) s2
    have hcu := codeUnit_ok s3 ha hb hc hd
    refine hesc p (p + 1 + 1 + 4) q start b c _ _ h (by simp) (Prod.ext ?_ rfl) ?_ (by omega) (s3.le_length (by simp)) (ih _ _ _ _ h4)
    · simp only [escParse, escBranches, EscBr.ofRule, EscBr.ofProd, symRule, hy, Option.isSome_none, Bool.false_eq_true, if_false,
        prodBranch, hu, if_true, List.length_cons, List.length_nil, Nat.zero_add, hcu]
    · simp only [escParse, escBranches, EscBr.ofRule, EscBr.ofProd, symRule, hy, Option.isSome_none, Bool.false_eq_true, if_false,
        prodBranch, hu, if_true, List.length_cons, List.length_nil, Nat.zero_add, hcu]
      intro ev hev
      simp only [List.mem_append, List.mem_cons, List.not_mem_nil, or_false, List.append_nil, List.cons_append] at hev
      rcases hev with h | h | h | h | h | h | h | h
      · exact hdel _ _ _ ev h
      all_goals first | exact h.elim | (subst h; rfl)

/-! ## Rules -/

/-- The contexts: with whitespace, and inside of tokens. -/
abbrev cW : Cx := ⟨W, maxDepth⟩
abbrev c0 : Cx := ⟨none, maxDepth⟩

/-- Whitespace. -/
def IsBlank (c : Nat) : Prop := c = 0x20 ∨ c = 0x09 ∨ c = 0x0A ∨ c = 0x0D

/-- What is next behind a value and whitespace: `,`, `]`, `}`, `:` or the end of the input. -/
def Follow (c : Nat) : Prop := c = 0x2C ∨ c = 0x5D ∨ c = 0x7D ∨ c = 0x3A ∨ c = 0xFF

theorem ws_ok {s b : List Nat} (hs : Units 256 s) {d p q : Nat} (hb : Blank b) (h : Seg s p q b) (hn : Next s q (¬ IsBlank ·)) :
    Does (env s) cW true d .ws p q := by
  rw [h.1]
  refine does_ws_tok (t := space) rfl ?_
  show Spec.Blank space.run (s.drop p) b.length
  induction b generalizing p with
  | nil =>
    have e : q = p := h.1
    subst e
    refine .none ?_
    cases hr : (space.run (s.drop q)).1 with
    | false => rfl
    | true =>
      obtain ⟨u, t, h1, h2, -⟩ := (space_run (hs.drop q) _).1 (Prod.ext hr rfl)
      exact absurd h2 (hn u t h1)
  | cons c b ih =>
    have h1 : Seg s p q ([c] ++ b) := h
    obtain ⟨s1, s2⟩ := h1.split
    have h2 : s.drop p = c :: (b ++ s.drop q) := h.2
    have h3 := (space_run (hs.drop p) 1).2 ⟨c, _, h2, hb c (by simp), rfl⟩
    rw [List.length_cons, Nat.add_comm]
    refine .some h3 ?_
    rw [List.drop_drop]
    exact ih (fun c hc => hb c (by simp [hc])) s2

theorem next_blank {s w : List Nat} {q r : Nat} {P : Nat → Prop} (hw : Blank w) (h : Seg s q r w) (hn : Next s r P) :
    Next s q fun c => IsBlank c ∨ P c := by
  cases w with
  | nil =>
    have e : r = q := h.1
    subst e
    exact hn.mono fun c hc => .inr hc
  | cons c w => exact next_seg h (.inl (hw c (by simp)))

section
variable {s : List Nat} (hs : Units 256 s) {on : Bool} {d p q r m : Nat}

/-- A literal inside of a token. -/
theorem lit0 {w : List Nat} (hw : ∀ c ∈ w, c < 128) (h : Seg s p q w) :
    Cond (env s) (.btry (lit w)) p true ∧ Does (env s) c0 on d (.run (lit w)) p q ∧ Does (env s) c0 on d (.bfinish (lit w)) p q := by
  have h1 := lit_ok (kind := 0) (tag := 0) hw h
  refine ⟨cond_tok (E := env s) (by rw [show (env s).inp = s from rfl, h1]), ?_, ?_⟩
  · exact does_tok h1 (by rw [← h.1]; exact does_ws_none rfl)
  · exact fin_tok h1 (by rw [← h.1]; exact does_ws_none rfl)

include hs in
/-- A literal and whitespace. -/
theorem litW {w b : List Nat} (hw : ∀ c ∈ w, c < 128) (h : Seg s p m w) (hb : Blank b) (h' : Seg s m q b) (hn : Next s q (¬ IsBlank ·)) :
    Cond (env s) (.btry (lit w)) p true ∧ Does (env s) cW true d (.run (lit w)) p q ∧ Does (env s) cW true d (.bfinish (lit w)) p q := by
  have h1 := lit_ok (kind := 0) (tag := 0) hw h
  refine ⟨cond_tok (E := env s) (by rw [show (env s).inp = s from rfl, h1]), ?_, ?_⟩
  · exact does_tok h1 (by rw [← h.1]; exact ws_ok hs hb h' hn)
  · exact fin_tok h1 (by rw [← h.1]; exact ws_ok hs hb h' hn)

theorem not_lit {w : List Nat} {c : Nat} (hw : ∀ c ∈ w, c < 128) (hc : w.head? = some c) (h : Next s p (· ≠ c)) : Not (env s) (lit w) p :=
  not_tok (lit_miss hw hc h)

/-- What is next behind a number. -/
def After (c : Nat) : Prop := IsBlank c ∨ Follow c

theorem number_ok {t : List Nat} (h : Number exampleLimits t) (hseg : Seg s p q t) (hn : Next s q After) :
    Does (env s) c0 on d (.run (.seq (.prod 7) (.seq (.opt (.prod 8)) (.opt (.prod 9))))) p q := by
  obtain ⟨minus, int, frac, exp, rfl, h1, h2, h3, h4, h5⟩ := h
  obtain ⟨s123, s4⟩ := hseg.split
  obtain ⟨s12, s3⟩ := s123.split
  obtain ⟨s1, s2⟩ := s12.split
  generalize p + minus.length = i at *
  generalize p + (minus ++ int).length = l at *
  generalize p + (minus ++ int ++ frac).length = k at *
  have n4 : Next s k fun c => c = 0x65 ∨ c = 0x45 ∨ After c := by
    rcases h5 with rfl | ⟨e, sg, t, rfl, he, -⟩
    · have e : q = k := s4.1
      subst e
      exact hn.mono fun c hc => .inr (.inr hc)
    · exact next_seg s4 (by omega)
  have n3 : Next s l fun c => c = 0x2E ∨ c = 0x65 ∨ c = 0x45 ∨ After c := by
    rcases h4 with rfl | ⟨t, rfl, ht⟩
    · have e : k = l := s3.1
      subst e
      exact n4.mono fun c hc => .inr hc
    · exact next_seg s3 (.inl rfl)
  have nd : ∀ c, After c → ¬ Digit c ∧ c ≠ 0x2E ∧ c ≠ 0x65 ∧ c ≠ 0x45 := by
    intro c hc
    unfold After IsBlank Follow at hc
    unfold Digit
    omega
  have hd0 : ∀ c, c = 0x2E ∨ c = 0x65 ∨ c = 0x45 → ¬ Digit c := by
    intro c hc
    unfold Digit
    omega
  refine does_seq (m := l) ?_ (does_seq (m := k) ?_ ?_)
  · -- the integer part
    refine does_prod (n := 7) (m := l) rfl ?_ rfl
    refine does_seq (m := i) ?_ ?_
    · rcases h1 with rfl | rfl
      · have e : i = p := s1.1
        subst e
        refine (does_if_no (not_lit (by decide) rfl ?_)).1
        rcases h2 with rfl | ⟨c, t, rfl, hc, -⟩
        · exact next_seg s2 (by decide)
        · exact next_seg s2 (by omega)
      · exact (does_if_yes (lit0 (on := on) (d := d) (by decide) s1).1 (lit0 (by decide) s1).2.2).1
    · refine does_prim (integer_ok s2 h2 h3 (n3.mono ?_)) (by simp [Ev.isError]) (does_ws_none rfl)
      rintro c (hc | hc | hc | hc)
      · exact hd0 c (.inl hc)
      · exact hd0 c (.inr (.inl hc))
      · exact hd0 c (.inr (.inr hc))
      · exact (nd c hc).1
  · rcases h4 with rfl | ⟨t, rfl, ht⟩
    · have e : k = l := s3.1
      subst e
      refine (does_if_no (not_prod (n := 8) rfl rfl (not_br (not_lit (by decide) rfl (n4.mono ?_))))).2
      rintro c (hc | hc | hc)
      · omega
      · omega
      · exact (nd c hc).2.1
    · have s3' : Seg s l k ([0x2E] ++ t) := s3
      obtain ⟨s5, s6⟩ := s3'.split
      have L := lit0 (on := on) (d := d) (by decide) s5
      refine (does_if_yes (cond_prod (n := 8) rfl rfl (cond_br L.1)) (fin_prod (n := 8) (m := k) ?_ rfl)).2
      refine fin_br L.2.2 (does_tok (digits_ok s6 ht (n4.mono ?_)) (by rw [← s6.1]; exact does_ws_none rfl))
      rintro c (hc | hc | hc)
      · exact hd0 c (.inr (.inl hc))
      · exact hd0 c (.inr (.inr hc))
      · exact (nd c hc).1
  · rcases h5 with rfl | ⟨e, sg, t, rfl, he, hsg, ht, hl⟩
    · have e : q = k := s4.1
      subst e
      refine (does_if_no (not_prod (n := 9) rfl rfl (not_br (not_chc ?_)))).2
      intro x hx
      rcases pair_mem hx with rfl | rfl
      · exact not_lit (by decide) rfl (hn.mono fun c hc => (nd c hc).2.2.1)
      · exact not_lit (by decide) rfl (hn.mono fun c hc => (nd c hc).2.2.2)
    · have s4' : Seg s k q ([e] ++ (sg ++ t)) := s4
      obtain ⟨s5, s6⟩ := s4'.split
      obtain ⟨s7, s8⟩ := s6.split
      have hlt : ∀ c ∈ [e], c < 128 := by
        intro c hc
        rw [List.mem_singleton.1 hc]
        omega
      have L := lit0 (on := on) (d := d) hlt s5
      have hdig : Next s (k + [e].length + sg.length) Digit := by
        cases t with
        | nil => exact absurd rfl ht.1
        | cons c t => exact next_seg s8 (ht.2 c (by simp))
      have chc : Cond (env s) (.btry (.chc [lit [0x65], lit [0x45]])) k true ∧
          Does (env s) c0 on d (.bfinish (.chc [lit [0x65], lit [0x45]])) k (k + [e].length) := by
        rcases he with rfl | rfl
        · exact ⟨cond_chc_hit (pre := []) rfl nofun L.1, fin_choice (pre := []) rfl nofun L.1 L.2.2⟩
        · have hnot : ∀ x ∈ [lit [0x65]], Not (env s) x k := by
            intro x hx
            rw [List.mem_singleton.1 hx]
            exact not_lit (by decide) rfl (next_seg s5 (by decide))
          exact ⟨cond_chc_hit (pre := [lit [0x65]]) rfl (fun x hx => (hnot x hx).1) L.1,
            fin_choice (pre := [lit [0x65]]) rfl hnot L.1 L.2.2⟩
      refine (does_if_yes (cond_prod (n := 9) rfl rfl (cond_br chc.1)) (fin_prod (n := 9) (m := q) ?_ rfl)).2
      refine fin_br chc.2 (does_seq (m := k + [e].length + sg.length) ?_ ?_)
      · rcases hsg with rfl | rfl | rfl
        · refine (does_if_no (not_chc ?_)).1
          intro x hx
          rcases pair_mem hx with rfl | rfl
          · exact not_lit (by decide) rfl (hdig.mono fun c hc => by unfold Digit at hc; omega)
          · exact not_lit (by decide) rfl (hdig.mono fun c hc => by unfold Digit at hc; omega)
        · have L := lit0 (on := on) (d := d) (by decide) s7
          exact (does_if_yes (cond_chc_hit (pre := []) rfl nofun L.1) (fin_choice (pre := []) rfl nofun L.1 L.2.2)).1
        · have L := lit0 (on := on) (d := d) (by decide) s7
          have hnot : ∀ x ∈ [lit [0x2B]], Not (env s) x (k + [e].length) := by
            intro x hx
            rw [List.mem_singleton.1 hx]
            exact not_lit (by decide) rfl (next_seg s7 (by decide))
          exact (does_if_yes (cond_chc_hit (pre := [lit [0x2B]]) rfl (fun x hx => (hnot x hx).1) L.1)
            (fin_choice (pre := [lit [0x2B]]) rfl hnot L.1 L.2.2)).1
      · exact does_prim (exponent_ok s8 ht hl (hn.mono fun c hc => (nd c hc).1)) (by simp [Ev.isError]) (does_ws_none rfl)

/-! ## Values -/

include hs in
theorem numberStart_hit : (numberStart.run (s.drop p)).1 = true ↔ ∃ u t, s.drop p = u :: t ∧ (u = 0x2D ∨ Digit u) := by
  have hden : ∀ v, (CC.alt (.leaf (AsciiSet.empty.insert 0x2D) none) (AClass.cc .digit)).denote v ↔ v = 0x2D ∨ Digit v := by
    intro v
    simp only [CC.denote, aclass_denote, Spec.aclass, Spec.isDigit, AsciiSet.insert, AsciiSet.empty, Digit]
    simp
    omega
  unfold numberStart
  rw [class_hit_ascii (show CC.Ok (.alt _ _) from ⟨by simp [CC.Ok], aclass_ok' _⟩)
    (fun v h => by rw [hden] at h; unfold Digit at h; omega) _ (hs.drop p)]
  simp only [hden]

theorem not_null (h : Next s p (· ≠ 0x6E)) : Not (env s) (.prod 2) p := not_prod (n := 2) rfl rfl (not_lit (by decide) rfl h)

theorem not_boolean (h1 : Next s p (· ≠ 0x74)) (h2 : Next s p (· ≠ 0x66)) : Not (env s) (.prod 3) p := by
  refine not_prod (n := 3) rfl rfl (not_chc fun x hx => ?_)
  rcases pair_mem hx with rfl | rfl
  · exact not_prod (n := 4) rfl rfl (not_lit (by decide) rfl h1)
  · exact not_prod (n := 5) rfl rfl (not_lit (by decide) rfl h2)

include hs in
theorem not_number (h : Next s p fun c => c ≠ 0x2D ∧ ¬ Digit c) : Not (env s) (.prod 6) p := by
  refine not_prod (n := 6) rfl rfl (not_br (not_peek ?_))
  show (numberStart.run (s.drop p)).1 = false
  cases hb : (numberStart.run (s.drop p)).1 with
  | false => rfl
  | true =>
    obtain ⟨u, t, h1, h2⟩ := (numberStart_hit hs).1 hb
    have := h u t h1
    rcases h2 with h2 | h2
    · exact absurd h2 this.1
    · exact absurd h2 this.2

theorem not_string (h : Next s p (· ≠ 0x22)) : Not (env s) (.prod 10) p :=
  not_prod (n := 10) rfl rfl (not_wsn (not_br (not_lit (by decide) rfl h)))

theorem not_object (h : Next s p (· ≠ 0x7B)) : Not (env s) (.prod 12) p := not_prod (n := 12) rfl rfl (not_br (not_lit (by decide) rfl h))

include hs in
theorem string_ok {k w : List Nat} (hk : Str exampleLimits k) (h : Seg s p m k) (hw : Blank w) (h' : Seg s m q w)
    (hn : Next s q (¬ IsBlank ·)) :
    Cond (env s) (.btry (.prod 10)) p true ∧ Does (env s) cW true d (.run (.prod 10)) p q ∧
      Does (env s) cW true d (.bfinish (.prod 10)) p q := by
  obtain ⟨t, rfl, ht⟩ := hk
  have h1 : Seg s p m ([0x22] ++ (t ++ [0x22])) := h
  obtain ⟨s1, s2⟩ := h1.split
  obtain ⟨evs, hq, h2⟩ := loop_ok hs ht _ _ (p + [0x22].length) (p + [0x22].length) s2
  have hp : ∀ on, Does (env s) c0 on d (.run (.prim content.rule)) (p + [0x22].length) m :=
    fun on => does_prim h2 hq (does_ws_none rfl)
  have L := fun on => lit0 (on := on) (d := d) (by decide) s1
  have hws := ws_ok (d := d) hs hw h' hn
  refine ⟨cond_prod (n := 10) rfl rfl (cond_wsn (cond_br (L true).1)), ?_, ?_⟩
  · exact does_prod (n := 10) (m := m) rfl (does_wsn_none rfl (does_br (L true).2.1 (hp true))) hws
  · exact fin_prod (n := 10) (m := m) (fin_wsn (fin_br (L false).2.2 (hp false)) (does_ws_none rfl)) hws

/-- How a value begins. -/
def Start (c : Nat) : Prop := c = 0x6E ∨ c = 0x74 ∨ c = 0x66 ∨ c = 0x2D ∨ Digit c ∨ c = 0x22 ∨ c = 0x5B ∨ c = 0x7B

theorem number_start {L : Limits} {t : List Nat} (h : Number L t) : ∃ c u, t = c :: u ∧ (c = 0x2D ∨ Digit c) := by
  obtain ⟨minus, int, frac, exp, rfl, h1, h2, -⟩ := h
  rcases h1 with rfl | rfl
  · rcases h2 with rfl | ⟨c, t, rfl, h3, h4, -⟩
    · exact ⟨_, _, rfl, .inr (by unfold Digit; omega)⟩
    · exact ⟨_, _, rfl, .inr (by unfold Digit; omega)⟩
  · exact ⟨_, _, rfl, .inl rfl⟩

theorem value_start {L : Limits} {n : Nat} {v : List Nat} (h : Derives L .value n v) : ∃ c t, v = c :: t ∧ Start c := by
  unfold Start
  cases h with
  | null => exact ⟨_, _, rfl, by omega⟩
  | true => exact ⟨_, _, rfl, by omega⟩
  | false => exact ⟨_, _, rfl, by omega⟩
  | number h =>
    obtain ⟨c, t, h1, h2⟩ := number_start h
    exact ⟨c, t, h1, by rcases h2 with h2 | h2 <;> simp [h2]⟩
  | string h => obtain ⟨t, rfl, -⟩ := h; exact ⟨_, _, rfl, by omega⟩
  | emptyArray h => exact ⟨_, _, rfl, by omega⟩
  | array h => exact ⟨_, _, rfl, by omega⟩
  | emptyObject h => exact ⟨_, _, rfl, by omega⟩
  | object h => exact ⟨_, _, rfl, by omega⟩

theorem start_not {c : Nat} (h : Start c) : ¬ IsBlank c ∧ c ≠ 0x5D ∧ c ≠ 0x7D := by
  unfold Start Digit at h
  unfold IsBlank
  omega

theorem follow_not {c : Nat} (h : Follow c) : ¬ IsBlank c := by
  unfold Follow at h
  unfold IsBlank
  omega

/-- A value is one of the alternatives. -/
theorem take_alt {x : Rule} {pre post : List Rule}
    (hr : [.prod 2, .prod 3, .prod 6, .prod 10, .prod 12, .prod 11, .err 13 none] = pre ++ x :: post)
    (hp : ∀ y ∈ pre, Not (env s) y p) (h : Cond (env s) (.btry x) p true) :
    (Does (env s) cW true d (.bfinish x) p r → Does (env s) cW true d (.run (.prod 1)) p r) ∧
      (Errs (env s) cW true d (.bfinish x) p → Errs (env s) cW true d (.run (.prod 1)) p) :=
  ⟨fun hf => does_prod (n := 1) (m := r) rfl (does_choice hr hp h hf) rfl, fun hf => errs_prod (n := 1) rfl (errs_choice hr hp h hf)⟩

end

/-! ## Lists -/

/-- An item (with the whitespace behind it) is accepted. -/
def ItemOk (s : List Nat) (item : Rule) (d : Nat) (t : List Nat) : Prop :=
  ∀ p q, Seg s p q t → Next s q Follow → Does (env s) cW true d (.run item) p q

/-- An item is reported. -/
def ItemBad (s : List Nat) (item : Rule) (d : Nat) (t : List Nat) : Prop :=
  ∀ p q, Seg s p q t → Next s q Follow → Errs (env s) cW true d (.run item) p

/-- Items up to the terminator `c` are accepted. -/
def ListOk (s : List Nat) (c : Nat) (item : Rule) (d : Nat) (v : List Nat) : Prop :=
  ∀ p q, Seg s p q v → Seg s q (q + 1) [c] → ∃ w v', v = w ++ v' ∧ Blank w ∧ Next s (p + w.length) (fun x => ¬ IsBlank x ∧ x ≠ c) ∧
    ∃ m, Does (env s) cW true d (.run item) (p + w.length) m ∧ ListTail (env s) cW true d (lit [c]) item (lit [0x2C]) m q

/-- One of the items is reported. -/
def ListBad (s : List Nat) (c : Nat) (item : Rule) (d : Nat) (v : List Nat) : Prop :=
  ∀ p q, Seg s p q v → Seg s q (q + 1) [c] → ∃ w v', v = w ++ v' ∧ Blank w ∧ Next s (p + w.length) (fun x => ¬ IsBlank x ∧ x ≠ c) ∧
    (Errs (env s) cW true d (.run item) (p + w.length) ∨
      ∃ m, Does (env s) cW true d (.run item) (p + w.length) m ∧ BadTail (env s) cW true d (lit [c]) item (lit [0x2C]) m)

section
variable {s : List Nat} (hs : Units 256 s) {c d : Nat} {item : Rule} (hc : c = 0x5D ∨ c = 0x7D)

include hc in
theorem listOk_last {w t : List Nat} (hw : Blank w) (ht : ∃ x u, t = x :: u ∧ ¬ IsBlank x ∧ x ≠ c) (hi : ItemOk s item d t) :
    ListOk s c item d (w ++ t) := by
  intro p q h h'
  obtain ⟨s1, s2⟩ := h.split
  obtain ⟨x, u, rfl, hx⟩ := ht
  refine ⟨w, _, rfl, hw, next_seg s2 hx, q, hi _ _ s2 (next_seg h' ?_), .done (lit0 (on := true) (d := d) ?_ h').1⟩
  · unfold Follow; omega
  · intro y hy; rw [List.mem_singleton.1 hy]; omega

include hs hc in
theorem listOk_more {w t u : List Nat} (hw : Blank w) (ht : ∃ x u, t = x :: u ∧ ¬ IsBlank x ∧ x ≠ c) (hi : ItemOk s item d t)
    (hu : ListOk s c item d u) : ListOk s c item d (w ++ (t ++ 0x2C :: u)) := by
  intro p q h h'
  have hc' : ∀ y ∈ [c], y < 128 := by intro y hy; rw [List.mem_singleton.1 hy]; omega
  obtain ⟨s1, h1⟩ := h.split
  obtain ⟨s2, h2⟩ := h1.split
  have h2 : Seg s (p + w.length + t.length) q ([0x2C] ++ u) := h2
  obtain ⟨s3, s4⟩ := h2.split
  obtain ⟨x, t, rfl, hx⟩ := ht
  obtain ⟨w2, v2, rfl, hw2, hn2, m, h3, h4⟩ := hu _ _ s4 h'
  refine ⟨w, _, rfl, hw, next_seg s2 hx, _, hi _ _ s2 (next_seg s3 (.inl rfl)), ?_⟩
  refine .next (not_lit hc' rfl (next_seg s3 (by omega))) (litW hs (by decide) s3 hw2 s4.split.1 (hn2.mono fun _ h => h.1)).2.1
    (not_lit hc' rfl (hn2.mono fun _ h => h.2)).1 h3 h4

include hc in
theorem listBad_last {w t : List Nat} (hw : Blank w) (ht : ∃ x u, t = x :: u ∧ ¬ IsBlank x ∧ x ≠ c) (hi : ItemBad s item d t) :
    ListBad s c item d (w ++ t) := by
  intro p q h h'
  obtain ⟨s1, s2⟩ := h.split
  obtain ⟨x, u, rfl, hx⟩ := ht
  refine ⟨w, _, rfl, hw, next_seg s2 hx, .inl (hi _ _ s2 (next_seg h' ?_))⟩
  unfold Follow; omega

theorem listBad_first {w t u : List Nat} (hw : Blank w) (ht : ∃ x u, t = x :: u ∧ ¬ IsBlank x ∧ x ≠ c) (hi : ItemBad s item d t) :
    ListBad s c item d (w ++ (t ++ 0x2C :: u)) := by
  intro p q h h'
  obtain ⟨s1, h1⟩ := h.split
  obtain ⟨s2, h2⟩ := h1.split
  obtain ⟨x, t, rfl, hx⟩ := ht
  exact ⟨w, _, rfl, hw, next_seg s2 hx, .inl (hi _ _ s2 (next_seg h2 (.inl rfl)))⟩

include hs hc in
theorem listBad_rest {w t u : List Nat} (hw : Blank w) (ht : ∃ x u, t = x :: u ∧ ¬ IsBlank x ∧ x ≠ c) (hi : ItemOk s item d t)
    (hu : ListBad s c item d u) : ListBad s c item d (w ++ (t ++ 0x2C :: u)) := by
  intro p q h h'
  have hc' : ∀ y ∈ [c], y < 128 := by intro y hy; rw [List.mem_singleton.1 hy]; omega
  obtain ⟨s1, h1⟩ := h.split
  obtain ⟨s2, h2⟩ := h1.split
  have h2 : Seg s (p + w.length + t.length) q ([0x2C] ++ u) := h2
  obtain ⟨s3, s4⟩ := h2.split
  obtain ⟨x, t, rfl, hx⟩ := ht
  obtain ⟨w2, v2, rfl, hw2, hn2, h3⟩ := hu _ _ s4 h'
  refine ⟨w, _, rfl, hw, next_seg s2 hx, .inr ⟨_, hi _ _ s2 (next_seg s3 (.inl rfl)), ?_⟩⟩
  have hN := not_lit (s := s) hc' rfl (next_seg s3 (show (0x2C : Nat) ≠ c by omega))
  have hS := (litW (d := d) hs (by decide) s3 hw2 s4.split.1 (hn2.mono fun _ h => h.1)).2.1
  have hC := (not_lit (s := s) hc' rfl (hn2.mono fun _ h => h.2)).1
  rcases h3 with h3 | ⟨m, h3, h4⟩
  · exact .here hN hS hC h3
  · exact .next hN hS hC h3 h4

include hs hc in
/-- An array or an object. -/
theorem optList_ok {o : Nat} {v w : List Nat} (ho : o < 128) (hv : ListOk s c item d v) {p q r : Nat}
    (h : Seg s p q (o :: (v ++ [c]))) (hw : Blank w) (h' : Seg s q r w) (hn : Next s r Follow) :
    Cond (env s) (.btry (lit [o])) p true ∧ Does (env s) cW true d (.bfinish (optList o c item)) p r := by
  have hc' : ∀ y ∈ [c], y < 128 := by intro y hy; rw [List.mem_singleton.1 hy]; omega
  have ho' : ∀ y ∈ [o], y < 128 := by intro y hy; rw [List.mem_singleton.1 hy]; omega
  have h1 : Seg s p q ([o] ++ (v ++ [c])) := h
  obtain ⟨s1, h2⟩ := h1.split
  obtain ⟨s2, s3⟩ := h2.split
  have e3 := s3.1
  rw [List.length_singleton] at e3
  rw [e3] at s3
  obtain ⟨w0, v', rfl, hw0, hn0, m, h3, h4⟩ := hv _ _ s2 s3
  have L := litW (d := d) hs ho' s1 hw0 s2.split.1 (hn0.mono fun _ h => h.1)
  refine ⟨L.1, fin_br L.2.2 (does_optt_no (not_lit hc' rfl (hn0.mono fun _ h => h.2)) (does_list h3 h4 ?_))⟩
  rw [← e3] at s3
  exact (litW hs hc' s3 hw h' (hn.mono fun _ h => follow_not h)).2.2

include hs hc in
theorem optList_empty {o : Nat} {b w : List Nat} (ho : o < 128) (hb : Blank b) {p q r : Nat}
    (h : Seg s p q (o :: (b ++ [c]))) (hw : Blank w) (h' : Seg s q r w) (hn : Next s r Follow) :
    Cond (env s) (.btry (lit [o])) p true ∧ Does (env s) cW true d (.bfinish (optList o c item)) p r := by
  have hc' : ∀ y ∈ [c], y < 128 := by intro y hy; rw [List.mem_singleton.1 hy]; omega
  have ho' : ∀ y ∈ [o], y < 128 := by intro y hy; rw [List.mem_singleton.1 hy]; omega
  have h1 : Seg s p q ([o] ++ (b ++ [c])) := h
  obtain ⟨s1, h2⟩ := h1.split
  obtain ⟨s2, s3⟩ := h2.split
  have L := litW (d := d) hs ho' s1 hb s2 (next_seg s3 (by unfold IsBlank; omega))
  have M := litW (d := d) hs hc' s3 hw h' (hn.mono fun _ h => follow_not h)
  exact ⟨L.1, fin_br L.2.2 (does_optt_yes M.1 M.2.2)⟩

include hs hc in
theorem optList_bad {o : Nat} {v : List Nat} (ho : o < 128) (hv : ListBad s c item d v) {p q : Nat}
    (h : Seg s p q (o :: (v ++ [c]))) :
    Cond (env s) (.btry (lit [o])) p true ∧ Errs (env s) cW true d (.bfinish (optList o c item)) p := by
  have hc' : ∀ y ∈ [c], y < 128 := by intro y hy; rw [List.mem_singleton.1 hy]; omega
  have ho' : ∀ y ∈ [o], y < 128 := by intro y hy; rw [List.mem_singleton.1 hy]; omega
  have h1 : Seg s p q ([o] ++ (v ++ [c])) := h
  obtain ⟨s1, h2⟩ := h1.split
  obtain ⟨s2, s3⟩ := h2.split
  have e3 := s3.1
  rw [List.length_singleton] at e3
  rw [e3] at s3
  obtain ⟨w0, v', rfl, hw0, hn0, h3⟩ := hv _ _ s2 s3
  have L := litW (d := d) hs ho' s1 hw0 s2.split.1 (hn0.mono fun _ h => h.1)
  refine ⟨L.1, errs_fin_br L.2.2 (errs_optt (not_lit hc' rfl (hn0.mono fun _ h => h.2)) ?_)⟩
  rcases h3 with h3 | ⟨m, h3, h4⟩
  · exact errs_list_first h3
  · exact errs_list_tail h3 h4

end

/-! ## Values -/

/-- A member of an object. -/
abbrev member : Rule := .seq (.prod 10) (.seq (.tryr (lit [0x3A]) (.wrap .els)) value)

/-- A value with the whitespace behind it is accepted. -/
def ValueOk (s : List Nat) (d : Nat) (v : List Nat) : Prop :=
  ∀ p q r w, Seg s p q v → Blank w → Seg s q r w → Next s r Follow → Does (env s) cW true d (.run (.prod 1)) p r

def ValueBad (s : List Nat) (d : Nat) (v : List Nat) : Prop :=
  ∀ p q r w, Seg s p q v → Blank w → Seg s q r w → Next s r Follow → Errs (env s) cW true d (.run (.prod 1)) p

section
variable {s : List Nat} (hs : Units 256 s) {d : Nat}

theorem item_ok {v w : List Nat} (hd : d < maxDepth) (hv : ValueOk s (d + 1) v) (hw : Blank w) : ItemOk s value d (v ++ w) :=
  fun _ _ h hn => does_recu hd (hv _ _ _ _ h.split.1 hw h.split.2 hn)

theorem item_bad {v w : List Nat} (hv : d < maxDepth → ValueBad s (d + 1) v) (hw : Blank w) : ItemBad s value d (v ++ w) :=
  fun _ _ h hn => errs_recu fun hd => hv hd _ _ _ _ h.split.1 hw h.split.2 hn

include hs in
theorem member_key {k w1 w2 v w : List Nat} (hk : Str exampleLimits k) (h1 : Blank w1) (h2 : Blank w2)
    (hv : ∃ c t, v = c :: t ∧ Start c) {p q : Nat} (h : Seg s p q (k ++ w1 ++ 0x3A :: (w2 ++ v ++ w))) :
    ∃ m l, Seg s l q (v ++ w) ∧ Does (env s) cW true d (.run (.prod 10)) p m ∧
      Does (env s) cW true d (.run (.tryr (lit [0x3A]) (.wrap .els))) m l := by
  obtain ⟨c, t, rfl, hc⟩ := hv
  have h : Seg s p q ((k ++ w1) ++ ([0x3A] ++ (w2 ++ (c :: t ++ w)))) := by simpa using h
  obtain ⟨a, b⟩ := h.split
  obtain ⟨a1, a2⟩ := a.split
  obtain ⟨b1, b2⟩ := b.split
  obtain ⟨b3, b4⟩ := b2.split
  refine ⟨_, _, b4, (string_ok hs hk a1 h1 a2 (next_seg b1 ?_)).2.1, does_try (litW hs (by decide) b1 h2 b3 ?_).2.1⟩
  · unfold IsBlank; omega
  · exact next_seg b4 (start_not hc).1

include hs in
theorem member_ok {k w1 w2 v w : List Nat} (hk : Str exampleLimits k) (h1 : Blank w1) (h2 : Blank w2) (hs' : ∃ c t, v = c :: t ∧ Start c)
    (hd : d < maxDepth) (hv : ValueOk s (d + 1) v) (hw : Blank w) : ItemOk s member d (k ++ w1 ++ 0x3A :: (w2 ++ v ++ w)) := by
  intro p q h hn
  obtain ⟨m, l, h3, h4, h5⟩ := member_key (d := d) hs hk h1 h2 hs' h
  exact does_seq h4 (does_seq h5 (item_ok hd hv hw _ _ h3 hn))

include hs in
theorem member_bad {k w1 w2 v w : List Nat} (hk : Str exampleLimits k) (h1 : Blank w1) (h2 : Blank w2) (hs' : ∃ c t, v = c :: t ∧ Start c)
    (hv : d < maxDepth → ValueBad s (d + 1) v) (hw : Blank w) : ItemBad s member d (k ++ w1 ++ 0x3A :: (w2 ++ v ++ w)) := by
  intro p q h hn
  obtain ⟨m, l, h3, h4, h5⟩ := member_key (d := d) hs hk h1 h2 hs' h
  exact errs_seq_right h4 (errs_seq_right h5 (item_bad hv hw _ _ h3 hn))

include hs in
/-- Scalars. -/
theorem scalar_ok {v : List Nat} (h : v = [0x6E, 0x75, 0x6C, 0x6C] ∨ v = [0x74, 0x72, 0x75, 0x65] ∨ v = [0x66, 0x61, 0x6C, 0x73, 0x65] ∨
    Number exampleLimits v ∨ Str exampleLimits v) : ValueOk s d v := by
  intro p q r w hv hw hs2 hn
  have hws := ws_ok (d := d) hs hw hs2 (hn.mono fun _ h => follow_not h)
  rcases h with rfl | rfl | rfl | h | h
  · have L := lit0 (on := true) (d := d) (by decide) hv
    exact (take_alt (pre := []) rfl nofun (cond_prod (n := 2) rfl rfl L.1)).1 (fin_prod (n := 2) (m := q) L.2.2 hws)
  · have L := lit0 (on := true) (d := d) (by decide) hv
    refine (take_alt (pre := [.prod 2]) rfl ?_ (cond_prod (n := 3) rfl rfl (cond_chc_hit (pre := []) rfl nofun
      (cond_prod (n := 4) rfl rfl L.1)))).1 (fin_prod (n := 3) (m := q) (fin_choice (pre := []) rfl nofun (cond_prod (n := 4) rfl rfl L.1)
      (fin_prod (n := 4) (m := q) L.2.2 rfl)) hws)
    intro y hy
    rw [List.mem_singleton.1 hy]
    exact not_null (next_seg hv (by decide))
  · have L := lit0 (on := true) (d := d) (by decide) hv
    have N : ∀ x ∈ [Rule.prod 4], Not (env s) x p := by
      intro x hx
      rw [List.mem_singleton.1 hx]
      exact not_prod (n := 4) rfl rfl (not_lit (by decide) rfl (next_seg hv (by decide)))
    refine (take_alt (pre := [.prod 2]) rfl ?_ (cond_prod (n := 3) rfl rfl (cond_chc_hit (pre := [.prod 4]) rfl
      (fun x hx => (N x hx).1) (cond_prod (n := 5) rfl rfl L.1)))).1 (fin_prod (n := 3) (m := q) (fin_choice (pre := [.prod 4]) rfl N
      (cond_prod (n := 5) rfl rfl L.1) (fin_prod (n := 5) (m := q) L.2.2 rfl)) hws)
    intro y hy
    rw [List.mem_singleton.1 hy]
    exact not_null (next_seg hv (by decide))
  · obtain ⟨c, t, e, hc⟩ := number_start h
    have hp : Next s p fun c => c = 0x2D ∨ Digit c := by
      rw [e] at hv
      exact next_seg hv hc
    have hpk : (numberStart.run ((env s).inp.drop p)).1 = true := by
      refine (numberStart_hit hs).2 ⟨c, t ++ s.drop q, ?_, hc⟩
      have := hv.2
      rw [e] at this
      exact this
    refine (take_alt (pre := [.prod 2, .prod 3]) rfl ?_ (cond_prod (n := 6) rfl rfl (cond_br (cond_peek hpk)))).1
      (fin_prod (n := 6) (m := q) (fin_br (does_peek hpk).2 (number_ok h hv (next_blank hw hs2 hn))) hws)
    intro y hy
    unfold Digit at hp
    rcases pair_mem hy with rfl | rfl
    · exact not_null (hp.mono fun c hc => by omega)
    · exact not_boolean (hp.mono fun c hc => by omega) (hp.mono fun c hc => by omega)
  · have S := string_ok (d := d) hs h hv hw hs2 (hn.mono fun _ h => follow_not h)
    have hp : Next s p fun c => c = 0x22 := by
      obtain ⟨t, rfl, -⟩ := h
      exact next_seg hv rfl
    refine (take_alt (pre := [.prod 2, .prod 3, .prod 6]) rfl ?_ S.1).1 S.2.2
    intro y hy
    simp only [List.mem_cons, List.not_mem_nil, or_false] at hy
    rcases hy with rfl | rfl | rfl
    · exact not_null (hp.mono fun c hc => by omega)
    · exact not_boolean (hp.mono fun c hc => by omega) (hp.mono fun c hc => by omega)
    · exact not_number hs (hp.mono fun c hc => by unfold Digit; omega)

include hs in
/-- An array. -/
theorem array_alt {p : Nat} (hp : Next s p (· = 0x5B)) (h : Cond (env s) (.btry (lit [0x5B])) p true) (r : Nat) :
    (Does (env s) cW true d (.bfinish (optList 0x5B 0x5D value)) p r → Does (env s) cW true d (.run (.prod 1)) p r) ∧
      (Errs (env s) cW true d (.bfinish (optList 0x5B 0x5D value)) p → Errs (env s) cW true d (.run (.prod 1)) p) := by
  have A := take_alt (s := s) (d := d) (p := p) (r := r) (x := .prod 11) (pre := [.prod 2, .prod 3, .prod 6, .prod 10, .prod 12])
    rfl ?_ (cond_prod (n := 11) rfl rfl (cond_br h))
  · exact ⟨fun hf => A.1 (fin_prod (n := 11) (m := r) hf rfl), fun hf => A.2 (errs_fin_prod (n := 11) hf)⟩
  · intro y hy
    simp only [List.mem_cons, List.not_mem_nil, or_false] at hy
    rcases hy with rfl | rfl | rfl | rfl | rfl
    · exact not_null (hp.mono fun c hc => by omega)
    · exact not_boolean (hp.mono fun c hc => by omega) (hp.mono fun c hc => by omega)
    · exact not_number hs (hp.mono fun c hc => by unfold Digit; omega)
    · exact not_string (hp.mono fun c hc => by omega)
    · exact not_object (hp.mono fun c hc => by omega)

include hs in
/-- An object. -/
theorem object_alt {p : Nat} (hp : Next s p (· = 0x7B)) (h : Cond (env s) (.btry (lit [0x7B])) p true) (r : Nat) :
    (Does (env s) cW true d (.bfinish (optList 0x7B 0x7D member)) p r → Does (env s) cW true d (.run (.prod 1)) p r) ∧
      (Errs (env s) cW true d (.bfinish (optList 0x7B 0x7D member)) p → Errs (env s) cW true d (.run (.prod 1)) p) := by
  have A := take_alt (s := s) (d := d) (p := p) (r := r) (x := .prod 12) (pre := [.prod 2, .prod 3, .prod 6, .prod 10])
    rfl ?_ (cond_prod (n := 12) rfl rfl (cond_br h))
  · exact ⟨fun hf => A.1 (fin_prod (n := 12) (m := r) hf rfl), fun hf => A.2 (errs_fin_prod (n := 12) hf)⟩
  · intro y hy
    simp only [List.mem_cons, List.not_mem_nil, or_false] at hy
    rcases hy with rfl | rfl | rfl | rfl
    · exact not_null (hp.mono fun c hc => by omega)
    · exact not_boolean (hp.mono fun c hc => by omega) (hp.mono fun c hc => by omega)
    · exact not_number hs (hp.mono fun c hc => by unfold Digit; omega)
    · exact not_string (hp.mono fun c hc => by omega)

theorem start_app {v w : List Nat} {c : Nat} (hc : c = 0x5D ∨ c = 0x7D) (h : ∃ x t, v = x :: t ∧ Start x) :
    ∃ x u, v ++ w = x :: u ∧ ¬ IsBlank x ∧ x ≠ c := by
  obtain ⟨x, t, rfl, hx⟩ := h
  have := start_not hx
  exact ⟨x, _, rfl, this.1, by omega⟩

theorem str_app {L : Limits} {k w : List Nat} (h : Str L k) : ∃ x u, k ++ w = x :: u ∧ ¬ IsBlank x ∧ x ≠ 0x7D := by
  obtain ⟨t, rfl, -⟩ := h
  exact ⟨_, _, rfl, by unfold IsBlank; omega, by omega⟩

/-- What is to show for parts of values, nested at most `b` deep, that are inside of `d` values. -/
def PartOk (s : List Nat) (d : Nat) : Part → Nat → List Nat → Prop
  | .value, b, v => b + d = maxDepth → ValueOk s d v
  | .values, b, v => b + d + 1 = maxDepth → ListOk s 0x5D value d v
  | .members, b, v => b + d + 1 = maxDepth → ListOk s 0x7D member d v

include hs in
theorem derives_ok {k : Part} {b : Nat} {v : List Nat} (h : Derives exampleLimits k b v) : ∀ d, PartOk s d k b v := by
  induction h with
  | null => exact fun d _ => scalar_ok hs (by simp)
  | true => exact fun d _ => scalar_ok hs (by simp)
  | false => exact fun d _ => scalar_ok hs (by simp)
  | number h => exact fun d _ => scalar_ok hs (by simp [h])
  | string h => exact fun d _ => scalar_ok hs (by simp [h])
  | emptyArray hb =>
    intro d _ p q r w h hw h' hn
    have := optList_empty (d := d) (item := value) hs (.inl rfl) (by decide) hb h hw h' hn
    exact (array_alt hs (next_seg h rfl) this.1 r).1 this.2
  | array hv ih =>
    intro d hd p q r w h hw h' hn
    have := optList_ok hs (.inl rfl) (by decide) (ih d (by omega)) h hw h' hn
    exact (array_alt hs (next_seg h rfl) this.1 r).1 this.2
  | emptyObject hb =>
    intro d _ p q r w h hw h' hn
    have := optList_empty (d := d) (item := member) hs (.inr rfl) (by decide) hb h hw h' hn
    exact (object_alt hs (next_seg h rfl) this.1 r).1 this.2
  | object hv ih =>
    intro d hd p q r w h hw h' hn
    have := optList_ok hs (.inr rfl) (by decide) (ih d (by omega)) h hw h' hn
    exact (object_alt hs (next_seg h rfl) this.1 r).1 this.2
  | last hw hv hw' ih =>
    intro d hd
    rw [List.append_assoc]
    exact listOk_last (.inl rfl) hw (start_app (.inl rfl) (value_start hv)) (item_ok (by omega) (ih (d + 1) (by omega)) hw')
  | more hw hv hw' ht ih ih' =>
    intro d hd
    rw [List.append_assoc, List.append_assoc, ← List.append_assoc _ _ (_ :: _)]
    exact listOk_more hs (.inl rfl) hw (start_app (.inl rfl) (value_start hv)) (item_ok (by omega) (ih (d + 1) (by omega)) hw') (ih' d hd)
  | lastMember hw hk h1 h2 hv hw' ih =>
    intro d hd
    rw [List.append_assoc, List.append_assoc, ← List.append_assoc _ _ (_ :: _)]
    refine listOk_last (.inr rfl) hw ?_ (member_ok hs hk h1 h2 (value_start hv) (by omega) (ih (d + 1) (by omega)) hw')
    rw [List.append_assoc]
    exact str_app hk
  | moreMembers hw hk h1 h2 hv hw' ht ih ih' =>
    intro d hd
    have := listOk_more hs (.inr rfl) hw ?_ (member_ok hs hk h1 h2 (value_start hv) (by omega) (ih (d + 1) (by omega)) hw') (ih' d hd)
    · simpa using this
    · rw [List.append_assoc]
      exact str_app hk

/-- What is to show if they are nested deeper. -/
def PartBad (s : List Nat) (d : Nat) : Part → List Nat → Prop
  | .value, v => ∀ b, b + d = maxDepth → ¬ Derives exampleLimits .value b v → ValueBad s d v
  | .values, v => (∀ b, b + d + 1 = maxDepth → ¬ Derives exampleLimits .values b v) → ListBad s 0x5D value d v
  | .members, v => (∀ b, b + d + 1 = maxDepth → ¬ Derives exampleLimits .members b v) → ListBad s 0x7D member d v

include hs in
theorem derives_bad {k : Part} {n : Nat} {v : List Nat} (h : Derives exampleLimits k n v) : ∀ d, PartBad s d k v := by
  induction h with
  | null => exact fun d b _ h => absurd .null h
  | true => exact fun d b _ h => absurd .true h
  | false => exact fun d b _ h => absurd .false h
  | number hv => exact fun d b _ h => absurd (.number hv) h
  | string hv => exact fun d b _ h => absurd (.string hv) h
  | emptyArray hb => exact fun d b _ h => absurd (.emptyArray hb) h
  | array hv ih =>
    intro d b hd hnot p q r w h hw h' hn
    have := optList_bad hs (.inl rfl) (by decide) (ih d fun b' hb' h => hnot (by rw [show b = b' + 1 by omega]; exact .array h)) h
    exact (array_alt hs (next_seg h rfl) this.1 r).2 this.2
  | emptyObject hb => exact fun d b _ h => absurd (.emptyObject hb) h
  | object hv ih =>
    intro d b hd hnot p q r w h hw h' hn
    have := optList_bad hs (.inr rfl) (by decide) (ih d fun b' hb' h => hnot (by rw [show b = b' + 1 by omega]; exact .object h)) h
    exact (object_alt hs (next_seg h rfl) this.1 r).2 this.2
  | last hw hv hw' ih =>
    intro d hnot
    rw [List.append_assoc]
    refine listBad_last (.inl rfl) hw (start_app (.inl rfl) (value_start hv)) (item_bad (fun hlt => ?_) hw')
    exact ih (d + 1) (maxDepth - (d + 1)) (by omega) fun h => hnot (maxDepth - (d + 1)) (by omega) (.last hw h hw')
  | @more n w v w' t hw hv hw' ht ih ih' =>
    intro d hnot
    rw [List.append_assoc, List.append_assoc, ← List.append_assoc _ _ (_ :: _)]
    by_cases hg : d < maxDepth ∧ Derives exampleLimits .value (maxDepth - (d + 1)) v
    · refine listBad_rest hs (.inl rfl) hw (start_app (.inl rfl) (value_start hv))
        (item_ok hg.1 (derives_ok hs hg.2 (d + 1) (by omega)) hw') (ih' d fun b hb h => ?_)
      exact hnot b hb (.more hw (by rw [show b = maxDepth - (d + 1) by omega]; exact hg.2) hw' h)
    · refine listBad_first hw (start_app (.inl rfl) (value_start hv)) (item_bad (fun hlt => ?_) hw')
      exact ih (d + 1) (maxDepth - (d + 1)) (by omega) fun h => hg ⟨hlt, h⟩
  | lastMember hw hk h1 h2 hv hw' ih =>
    intro d hnot
    rw [List.append_assoc, List.append_assoc, ← List.append_assoc _ _ (_ :: _)]
    refine listBad_last (.inr rfl) hw ?_ (member_bad hs hk h1 h2 (value_start hv) (fun hlt => ?_) hw')
    · rw [List.append_assoc]
      exact str_app hk
    · exact ih (d + 1) (maxDepth - (d + 1)) (by omega) fun h => hnot (maxDepth - (d + 1)) (by omega) (.lastMember hw hk h1 h2 h hw')
  | @moreMembers n w k w1 w2 v w' t hw hk h1 h2 hv hw' ht ih ih' =>
    intro d hnot
    have hst : ∃ x u, k ++ w1 ++ 0x3A :: (w2 ++ v ++ w') = x :: u ∧ ¬ IsBlank x ∧ x ≠ 0x7D := by
      rw [List.append_assoc]
      exact str_app hk
    have e : w ++ k ++ w1 ++ 0x3A :: (w2 ++ v ++ w' ++ 0x2C :: t) = w ++ (k ++ w1 ++ 0x3A :: (w2 ++ v ++ w') ++ 0x2C :: t) := by simp
    rw [e] at hnot ⊢
    by_cases hg : d < maxDepth ∧ Derives exampleLimits .value (maxDepth - (d + 1)) v
    · refine listBad_rest hs (.inr rfl) hw hst
        (member_ok hs hk h1 h2 (value_start hv) hg.1 (derives_ok hs hg.2 (d + 1) (by omega)) hw') (ih' d fun b hb h => ?_)
      refine hnot b hb ?_
      rw [← e]
      exact .moreMembers hw hk h1 h2 (by rw [show b = maxDepth - (d + 1) by omega]; exact hg.2) hw' h
    · refine listBad_first hw hst (member_bad hs hk h1 h2 (value_start hv) (fun hlt => ?_) hw')
      exact ih (d + 1) (maxDepth - (d + 1)) (by omega) fun h => hg ⟨hlt, h⟩

end

end Verif.Json
