import Verif.Visualize

/-
C57: visualization of lexemes.  C73: visualization of trees.
-/

namespace Verif.Vis

/-! ### Decoding what was written (used in proofs only) -/

inductive Item
  | cp (v : Nat) | byte (b : Nat)
  deriving DecidableEq

def stripColor : List Nat → List Nat
  | 0x1B :: l => (l.dropWhile fun c => c != 0x6D).drop 1
  | l => l

def isHex (c : Nat) : Bool := (48 ≤ c && c ≤ 57) || (65 ≤ c && c ≤ 70)
def unhexDigit (c : Nat) : Nat := if 65 ≤ c then c - 55 else c - 48
def unhex (l : List Nat) : Nat := l.foldl (fun a c => a * 16 + unhexDigit c) 0

def decEsc : List Nat → Option Item
  | 0x5C :: _ => some (.cp 0x5C)
  | 0x30 :: _ => some (.cp 0)
  | 0x72 :: _ => some (.cp 13)
  | 0x6E :: _ => some (.cp 10)
  | 0x74 :: _ => some (.cp 9)
  | 0x75 :: r => some (.cp (unhex (r.take 4)))
  | 0x55 :: r => some (.cp (unhex (r.take 8)))
  | 0x78 :: r => some (.byte (unhex (r.take 2)))
  | _ => none

def decUni : List Nat → Option Item
  | 0x4E :: _ => some (.cp 0)
  | 0x43 :: _ => some (.cp 13)
  | 0x4C :: _ => some (.cp 10)
  | 0x48 :: _ => some (.cp 9)
  | 0x53 :: _ => some (.cp 32)
  | 0x55 :: _ :: r => some (.cp (unhex (r.takeWhile isHex)))
  | 0x30 :: _ :: r => some (.byte (unhex (r.take 2)))
  | _ => none

def decItem (u : Bool) : List Nat → Option Item
  | 0x5C :: r => if u then some (.cp 0x5C) else decEsc r
  | 0xE2 :: 0x8F :: _ => some (.cp 10)
  | 0xE2 :: 0x87 :: _ => some (.cp 9)
  | 0xE2 :: 0x90 :: _ => some (.cp 32)
  | 0xE2 :: 0x9F :: _ :: r => decUni r
  | c :: _ => some (.cp c)
  | [] => none

def dec (u : Bool) (l : List Nat) : Option Item := decItem u (stripColor l)

/-! ### Hexadecimal numbers -/

theorem hexDigit_isHex {d : Nat} (h : d < 16) : isHex (hexDigit d) = true := by
  unfold isHex hexDigit; split <;> simp <;> omega

theorem unhexDigit_hexDigit {d : Nat} (h : d < 16) : unhexDigit (hexDigit d) = d := by
  unfold unhexDigit hexDigit; split <;> split <;> omega

theorem hexN_length (k n : Nat) : (hexN k n).length = k := by
  induction k generalizing n with
  | zero => rfl
  | succ k ih => simp [hexN, ih]

theorem hexN_isHex (k n : Nat) : ∀ c ∈ hexN k n, isHex c = true := by
  induction k generalizing n with
  | zero => simp [hexN]
  | succ k ih =>
    intro c hc
    simp only [hexN, List.mem_append, List.mem_singleton] at hc
    rcases hc with hc | rfl
    · exact ih _ c hc
    · exact hexDigit_isHex (Nat.mod_lt _ (by omega))

theorem unhex_hexN (k n : Nat) : unhex (hexN k n) = n % 16 ^ k := by
  induction k generalizing n with
  | zero => simp [hexN, unhex, Nat.mod_one]
  | succ k ih =>
    have : unhex (hexN (k + 1) n) = unhex (hexN k (n / 16)) * 16 + unhexDigit (hexDigit (n % 16)) := by
      simp [hexN, unhex]
    rw [this, ih, unhexDigit_hexDigit (Nat.mod_lt _ (by omega)), Nat.pow_succ, Nat.mul_comm (16 ^ k), Nat.mod_mul]
    omega

theorem hexLen_spec {n : Nat} (h : n < 0x100000000) : n < 16 ^ hexLen n := by
  unfold hexLen; repeat' split
  all_goals omega

theorem hexLen_le2 {n : Nat} (h : n < 256) : hexLen n ≤ 2 := by
  unfold hexLen; repeat' split
  all_goals omega

theorem hexLen_le4 {n : Nat} (h : n < 65536) : hexLen n ≤ 4 := by
  unfold hexLen; repeat' split
  all_goals omega

theorem hexLen_le8 {n : Nat} : hexLen n ≤ 8 := by
  unfold hexLen; repeat' split
  all_goals omega

theorem unhex_fmtX (w : Nat) {n : Nat} (h : n < 0x100000000) : unhex (fmtX w n) = n := by
  unfold fmtX
  rw [unhex_hexN]
  exact Nat.mod_eq_of_lt (Nat.lt_of_lt_of_le (hexLen_spec h) (Nat.pow_le_pow_right (by omega) (Nat.le_max_right ..)))

theorem fmtX_length (w n : Nat) (h : hexLen n ≤ w) : (fmtX w n).length = w := by
  unfold fmtX; rw [hexN_length]; omega

theorem fmtX_take (w : Nat) {n : Nat} (hn : n < 0x100000000) (h : hexLen n ≤ w) (r : List Nat) :
    unhex ((fmtX w n ++ r).take w) = n := by
  rw [List.take_append_of_le_length (by rw [fmtX_length w n h]; exact Nat.le_refl _), List.take_of_length_le (by rw [fmtX_length w n h]; exact Nat.le_refl _),
    unhex_fmtX w hn]

theorem fmtX_takeWhile (w : Nat) {n : Nat} (hn : n < 0x100000000) (c : Nat) (hc : isHex c = false) (r : List Nat) :
    unhex ((fmtX w n ++ c :: r).takeWhile isHex) = n := by
  rw [List.takeWhile_append_of_pos (fun c hc => hexN_isHex _ _ c (by simpa [fmtX] using hc))]
  simp [hc, unhex_fmtX w hn]

/-! ### Colors -/

theorem color_eq (o : Opts) (h : o.color = true) :
    color o 36 [2] = [0x1B, 0x5B, 0x33, 0x36, 0x3B, 0x32, 0x6D] ∧ color o 0 [] = [0x1B, 0x5B, 0x30, 0x6D] ∧
    color o 1 [] = [0x1B, 0x5B, 0x31, 0x6D] ∧ color o 2 [] = [0x1B, 0x5B, 0x32, 0x6D] := by
  simp [color, OutIt.color, h, OutIt.str, OutIt.code, OutIt.codes, OutIt.shared]

theorem color_off (o : Opts) (h : o.color = false) (a : Nat) (b : List Nat) : color o a b = [] := by
  simp [color, OutIt.color, h]

/-- The color is dropped. -/
theorem strip_special (o : Opts) (inner r : List Nat) : stripColor (special o inner ++ r)
    = (if o.unicode then [0xE2, 0x9F, 0xA8] else [0x5C]) ++ inner
      ++ ((if o.unicode then [0xE2, 0x9F, 0xA9] else []) ++ color o 0 [] ++ r) := by
  unfold special
  cases hc : o.color
  · simp only [color_off o hc]
    cases o.unicode <;> simp [stripColor]
  · simp only [color_eq o hc]
    cases o.unicode <;> simp [stripColor]

theorem strip_symbol (o : Opts) (b c d : Nat) (hb : b ≠ 0x1B) (r : List Nat) :
    stripColor (symbol o [b, c, d] ++ r) = b :: c :: d :: (color o 0 [] ++ r) := by
  unfold symbol
  cases hc : o.color
  · simp only [color_off o hc]
    simp [stripColor, hb]
  · simp only [color_eq o hc]
    simp [stripColor]

theorem dec_special_esc (o : Opts) (h : o.unicode = false) (inner r : List Nat) :
    ∃ r', dec o.unicode (special o inner ++ r) = decEsc (inner ++ r') := by
  refine ⟨color o 0 [] ++ r, ?_⟩
  rw [dec, strip_special]
  simp [h, decItem]

theorem dec_special_uni (o : Opts) (h : o.unicode = true) (inner r : List Nat) :
    ∃ r', dec o.unicode (special o inner ++ r) = decUni (inner ++ 0xE2 :: r') := by
  refine ⟨0x9F :: 0xA9 :: (color o 0 [] ++ r), ?_⟩
  rw [dec, strip_special]
  simp [h, decItem]

theorem dec_raw (u : Bool) (c : Nat) (r : List Nat) (h1 : c ≠ 0x1B) (h2 : c ≠ 0x5C ∨ u = true) (h3 : c ≠ 0xE2) :
    dec u (c :: r) = some (.cp c) := by
  have : stripColor (c :: r) = c :: r := by unfold stripColor; split <;> simp_all
  rw [dec, this]
  unfold decItem
  split <;> simp_all

def word (o : Opts) : Item → List Nat
  | .cp v => visCp o v
  | .byte b => visByte o b

/-- What can be written unambiguously. -/
def Item.Ok : Item → Prop
  | .cp v => v ≤ 0x10FFFF
  | .byte b => b < 256

theorem dec_space (o : Opts) (r : List Nat) : dec o.unicode (visSpace o ++ r) = some (.cp 0x20) := by
  unfold visSpace
  split
  · split
    · rw [dec, strip_symbol _ _ _ _ (by decide)]; simp [decItem]
    · split
      · rename_i h; obtain ⟨r', e⟩ := dec_special_uni o h [0x53, 0x50] r; rw [e]; simp [decUni]
      · rename_i h; obtain ⟨r', e⟩ := dec_special_esc o (by simpa using h) [0x75, 0x30, 0x30, 0x32, 0x30] r
        rw [e]; simp [decEsc, unhex, unhexDigit]
  · exact dec_raw _ _ _ (by decide) (.inl (by decide)) (by decide)

theorem dec_hex4 (o : Opts) (v : Nat) (hv : v ≤ 0x10FFFF) (hb : o.unicode = false → v ≤ 0xFFFF) (r : List Nat) :
    dec o.unicode (special o (if o.unicode then 0x55 :: 0x2B :: fmtX 4 v else 0x75 :: fmtX 4 v) ++ r) = some (.cp v) := by
  cases h : o.unicode
  · obtain ⟨r', e⟩ := dec_special_esc o h (0x75 :: fmtX 4 v) r
    rw [h] at e
    simp only [Bool.false_eq_true, if_false]
    rw [e]
    have := hb h
    simp only [List.cons_append, decEsc]
    rw [fmtX_take 4 (by omega) (hexLen_le4 (by omega))]
  · obtain ⟨r', e⟩ := dec_special_uni o h (0x55 :: 0x2B :: fmtX 4 v) r
    rw [h] at e
    simp only [if_true]
    rw [e]
    simp only [List.cons_append, decUni]
    rw [fmtX_takeWhile 4 (by omega) _ (by decide)]

theorem dec_word (o : Opts) (ht : o.tabWidth = 0) (i : Item) (hi : i.Ok) (r : List Nat) :
    dec o.unicode (word o i ++ r) = some i := by
  have esc : ∀ (inner1 inner2 : List Nat) (x : Item), (∀ r', decUni (inner1 ++ 0xE2 :: r') = some x) →
      (∀ r', decEsc (inner2 ++ r') = some x) →
      dec o.unicode (special o (if o.unicode then inner1 else inner2) ++ r) = some x := by
    intro i1 i2 x h1 h2
    cases h : o.unicode
    · obtain ⟨r', e⟩ := dec_special_esc o h i2 r
      rw [h] at e; simp only [Bool.false_eq_true, if_false]; rw [e, h2]
    · obtain ⟨r', e⟩ := dec_special_uni o h i1 r
      rw [h] at e; simp only [if_true]; rw [e, h1]
  have merge : ∀ (i1 i2 : List Nat), (if o.unicode = true then special o i1 else special o i2)
      = special o (if o.unicode then i1 else i2) := by intro i1 i2; split <;> rfl
  cases i with
  | byte b =>
    have hb : b < 256 := hi
    unfold word visByte
    refine esc _ _ _ (fun r' => ?_) (fun r' => ?_)
    · simp only [List.cons_append, decUni]
      rw [fmtX_take 2 (by omega) (hexLen_le2 hb)]
    · simp only [List.cons_append, decEsc]
      rw [fmtX_take 2 (by omega) (hexLen_le2 hb)]
  | cp v =>
    have hv : v ≤ 0x10FFFF := hi
    simp only [word, visCp]
    rw [if_neg (show ¬ v > 0x10FFFF by omega)]
    by_cases hc : v ≤ 0x1F ∨ (0x7F ≤ v ∧ v ≤ 0x9F)
    · rw [if_pos hc]
      by_cases h0 : v = 0
      · subst h0; simp only [if_true]
        exact esc _ _ _ (fun r' => by simp [decUni]) (fun r' => by simp [decEsc])
      rw [if_neg h0]
      by_cases h13 : v = 0x0D
      · subst h13; simp only [if_true]
        exact esc _ _ _ (fun r' => by simp [decUni]) (fun r' => by simp [decEsc])
      rw [if_neg h13]
      by_cases h10 : v = 0x0A
      · subst h10; simp only [if_true]
        split
        · rw [dec, strip_symbol _ _ _ _ (by decide)]; simp [decItem]
        · rw [merge]; exact esc _ _ _ (fun r' => by simp [decUni]) (fun r' => by simp [decEsc])
      rw [if_neg h10]
      by_cases h9 : v = 0x09
      · subst h9; simp only [if_true, ht, gt_iff_lt, Nat.lt_irrefl, if_false]
        split
        · rw [dec, strip_symbol _ _ _ _ (by decide)]; simp [decItem]
        · rw [merge]; exact esc _ _ _ (fun r' => by simp [decUni]) (fun r' => by simp [decEsc])
      rw [if_neg h9]
      exact dec_hex4 o v hv (fun _ => by omega) r
    · rw [if_neg hc]
      by_cases h20 : v = 0x20
      · subst h20; simp only [if_true]; exact dec_space o r
      rw [if_neg h20]
      by_cases h5 : v = 0x5C
      · subst h5; simp only [if_true]
        cases hu : o.unicode
        · obtain ⟨r', e⟩ := dec_special_esc o hu [0x5C] r
          rw [hu] at e; simp only [Bool.not_false, if_true]; rw [e]; simp [decEsc]
        · simp only [Bool.not_true, Bool.false_eq_true, if_false]
          exact dec_raw _ _ _ (by decide) (.inr rfl) (by decide)
      rw [if_neg h5]
      by_cases h7 : v ≤ 0x7F
      · rw [if_pos h7]; exact dec_raw _ _ _ (by omega) (.inl h5) (by omega)
      rw [if_neg h7]
      by_cases hb : v ≤ 0xFFFF
      · simp only [hb, if_true]; exact dec_hex4 o v hv (fun _ => hb) r
      · simp only [hb, if_false]
        refine esc _ _ _ (fun r' => ?_) (fun r' => ?_)
        · simp only [List.cons_append, decUni]; rw [fmtX_takeWhile 4 (by omega) _ (by decide)]
        · simp only [List.cons_append, decEsc]
          rw [fmtX_take 8 (by omega) hexLen_le8]

/-- Words that can be recognized whatever follows: lists of them can be recognized. -/
theorem flatMap_inj {α : Type} (w : α → List Nat) (d : List Nat → Option α) (P : α → Prop)
    (hd : ∀ a, P a → ∀ r, d (w a ++ r) = some a) (hne : ∀ a, P a → w a ≠ []) : ∀ (as bs : List α), (∀ a ∈ as, P a) → (∀ b ∈ bs, P b) →
    as.flatMap w = bs.flatMap w → as = bs := by
  intro as
  induction as with
  | nil =>
    intro bs _ hb h
    cases bs with
    | nil => rfl
    | cons b bs =>
      exfalso
      simp only [List.flatMap_nil, List.flatMap_cons] at h
      exact hne b (hb b (by simp)) (List.append_eq_nil_iff.1 h.symm).1
  | cons a as ih =>
    intro bs ha hb h
    cases bs with
    | nil =>
      exfalso
      simp only [List.flatMap_nil, List.flatMap_cons] at h
      exact hne a (ha a (by simp)) (List.append_eq_nil_iff.1 h).1
    | cons b bs =>
      simp only [List.flatMap_cons] at h
      have e1 := hd a (ha a (by simp)) (as.flatMap w)
      have e2 := hd b (hb b (by simp)) (bs.flatMap w)
      rw [h, e2] at e1
      have : b = a := by simpa using e1
      subst this
      rw [List.append_cancel_left_eq] at h
      rw [ih bs (fun a h => ha a (by simp [h])) (fun b h => hb b (by simp [h])) h]

theorem word_ne (o : Opts) (ht : o.tabWidth = 0) (i : Item) (hi : i.Ok) : word o i ≠ [] := by
  intro h
  have := dec_word o ht i hi []
  rw [h] at this
  simp [dec, stripColor, decItem] at this

/-! ### Lexemes -/

theorem visUnits_all (o : Opts) (hw : o.maxWidth = 0) (one : Nat → List Nat) : ∀ (s : List Nat) (n : Nat),
    visUnits o one n s = s.flatMap one := by
  intro s
  induction s with
  | nil => intro n; rfl
  | cons u s ih => intro n; rw [visUnits, if_neg (by omega), ih]; rfl

theorem utf8_visUnit (o : Opts) (l : List Nat) (h : Units 256 l) : l.flatMap (visUnit o .utf8) = (l.map Item.byte).flatMap (word o) := by
  induction l with
  | nil => rfl
  | cons u l ih =>
    have hu : u < 256 := h u (by simp)
    simp only [List.flatMap_cons, List.map_cons, ih fun v hv => h v (by simp [hv])]
    simp [visUnit, word, Nat.mod_eq_of_lt hu]

def itemUnits : Item → List Nat
  | .cp v => Spec.utf8 v
  | .byte b => [b]

theorem bytes_units (l : List Nat) : (l.map Item.byte).flatMap itemUnits = l := by
  induction l with
  | nil => rfl
  | cons u l ih => simp only [List.map_cons, List.flatMap_cons, ih]; rfl

/-- What is written for UTF-8: code points and bytes that make up the lexeme. -/
theorem visUtf8_items (o : Opts) (hw : o.maxWidth = 0) : ∀ (n c : Nat) (s : List Nat), s.length < n → Units 256 s →
    (∀ u ∈ s, u < 0xF8) → ∃ items : List Item, (∀ i ∈ items, i.Ok) ∧ items.flatMap itemUnits = s ∧
      visUnicode o .utf8 n c s = some (items.flatMap (word o)) := by
  intro n
  induction n with
  | zero => intro c s h; omega
  | succ n ih =>
    intro c s hl hs hx
    obtain ⟨t, h1, h2, h3⟩ := C04_recovery_progress_partial .utf8 s hs
    unfold visUnicode
    simp only [hw]
    by_cases he : (parseCp .utf8 s).error = .eof
    · rw [he]
      rcases (parseCp_eof_iff .utf8 s hs).1 he with rfl | ⟨u, t', rfl, hu⟩
      · exact ⟨[], by simp, rfl, rfl⟩
      · have := hx u (by simp); simp at hu; omega
    · have hlt := h3 he
      obtain ⟨items, i1, i2, i3⟩ := ih (c + 1) t (by omega) (fun u hu => hs u (h2.subset hu)) (fun u hu => hx u (h2.subset hu))
      by_cases hsc : (parseCp .utf8 s).error = .success
      · have hdec := C02_utf8_decode_sound s hs hsc
        have ht : s.drop (parseCp .utf8 s).len = t := by
          simpa [recoverCodePoint, hsc] using h1
        refine ⟨.cp (parseCp .utf8 s).cp :: items, ?_, ?_, ?_⟩
        · intro i hi
          rcases List.mem_cons.1 hi with rfl | hi
          · exact hdec.1.1
          · exact i1 i hi
        · simp only [List.flatMap_cons, i2, itemUnits]
          show Spec.utf8 (parseUtf8 s).cp ++ t = s
          rw [← hdec.2.2, ← ht]
          exact List.take_append_drop ..
        · simp only [hsc, if_true, ht, i3, if_neg (show ¬ (c + 1 = 0) by omega)]
          rfl
      · refine ⟨(s.take (s.length - t.length)).map Item.byte ++ items, ?_, ?_, ?_⟩
        · intro i hi
          rcases List.mem_append.1 hi with hi | hi
          · obtain ⟨b, hb, rfl⟩ := List.mem_map.1 hi
            exact hs b (List.mem_of_mem_take hb)
          · exact i1 i hi
        · rw [List.flatMap_append, i2, bytes_units]
          obtain ⟨a, rfl⟩ := h2
          simp
        · rw [List.flatMap_append, ← utf8_visUnit o _ fun u hu => hs u (List.mem_of_mem_take hu)]
          generalize hpe : parseCp .utf8 s = r at *
          obtain ⟨v, er, len⟩ := r
          cases er
          case success => exact absurd rfl hsc
          case eof => exact absurd rfl he
          all_goals simp [h1, i3]

/-- C57 (partial), UTF-8: nothing is lost.  Different lexemes have different visualizations (for unlimited width and
    tabs that are not replaced by spaces).  Missing: lexemes with bytes F8..FF, `C57_utf8_refuted`. -/
theorem C57_utf8_partial (o : Opts) (hw : o.maxWidth = 0) (ht : o.tabWidth = 0) (s s' : List Nat)
    (hs : ∀ u ∈ s, u < 0xF8) (hs' : ∀ u ∈ s', u < 0xF8) :
    (visLexeme o (.unicode .utf8) s).isSome ∧
    (visLexeme o (.unicode .utf8) s = visLexeme o (.unicode .utf8) s' → s = s') := by
  obtain ⟨is, a1, a2, a3⟩ := visUtf8_items o hw (s.length + 1) 0 s (by omega) (fun u hu => by have := hs u hu; omega) hs
  obtain ⟨is', b1, b2, b3⟩ := visUtf8_items o hw (s'.length + 1) 0 s' (by omega) (fun u hu => by have := hs' u hu; omega) hs'
  refine ⟨by simp [visLexeme, a3], fun h => ?_⟩
  simp only [visLexeme, a3, b3, Option.some.injEq] at h
  have := flatMap_inj (word o) (dec o.unicode) Item.Ok (dec_word o ht) (word_ne o ht) is is' a1 b1 h
  rw [← a2, ← b2, this]

-- "a\\é" with a byte that is not UTF-8, in the default style and with Unicode.
example : visLexeme {} (.unicode .utf8) [0x61, 0x5C, 0xC3, 0xA9, 0x80] = some [0x61, 0x5C, 0x5C, 0x5C, 0x75, 0x30, 0x30, 0x45, 0x39, 0x5C, 0x78, 0x38, 0x30] := by
  decide +kernel
example : visLexeme { unicode := true, symbols := true } (.unicode .utf8) [0x0A, 0x80]
    = some [0xE2, 0x8F, 0x8E, 0xE2, 0x9F, 0xA8, 0x30, 0x78, 0x38, 0x30, 0xE2, 0x9F, 0xA9] := by decide +kernel

/-- A byte F8..FF is taken for the end of the lexeme: the rest is not shown. -/
theorem C57_utf8_refuted : ¬ (∀ (o : Opts) (s s' : List Nat), o.maxWidth = 0 → o.tabWidth = 0 → Units 256 s → Units 256 s' →
    visLexeme o (.unicode .utf8) s = visLexeme o (.unicode .utf8) s' → s = s') := by
  intro h
  have := h {} [0x41, 0xF8, 0x42] [0x41] rfl rfl (by unfold Units; decide) (by unfold Units; decide) (by decide +kernel)
  simp at this

/-- In UTF-16 two different code points are shown as the same one. -/
theorem C57_utf16_refuted : ¬ (∀ (o : Opts) (s s' : List Nat), o.maxWidth = 0 → o.tabWidth = 0 → Units 65536 s → Units 65536 s' →
    visLexeme o (.unicode .utf16) s = visLexeme o (.unicode .utf16) s' → s = s') := by
  intro h
  have := h {} [0xD800, 0xDC00] [0xD840, 0xDC00] rfl rfl (by unfold Units; decide) (by unfold Units; decide) (by decide +kernel)
  simp at this

/-- In UTF-32 the bytes of units that are not code points are shown without leading zeros. -/
theorem C57_utf32_refuted : ¬ (∀ (o : Opts) (s s' : List Nat), o.maxWidth = 0 → o.tabWidth = 0 →
    visLexeme o (.unicode .utf32) s = visLexeme o (.unicode .utf32) s' → s = s') := by
  intro h
  have := h {} [0xD811D811] [0xD811, 0xD811] rfl rfl (by decide +kernel)
  simp at this

def charItem (u : Nat) : Item := if u ≤ 0x7F then .cp u else .byte u

theorem charItem_ok {u : Nat} (h : u < 256) : (charItem u).Ok := by
  unfold charItem; split
  · show u ≤ 0x10FFFF; omega
  · exact h

theorem charItem_word (o : Opts) (u : Nat) : visChar o u = word o (charItem u) := by
  unfold visChar charItem; split <;> rfl

/-- C57 for the other text encodings and for bytes: nothing is lost. -/
theorem C57_units (o : Opts) (hw : o.maxWidth = 0) (ht : o.tabWidth = 0) (s s' : List Nat) (hs : Units 256 s) (hs' : Units 256 s') :
    (visLexeme o .text s = visLexeme o .text s' → s = s') ∧ (visLexeme o .bytes s = visLexeme o .bytes s' → s = s') := by
  constructor
  · intro h
    simp only [visLexeme, visUnits_all o hw, Option.some.injEq] at h
    refine flatMap_inj (visChar o) (fun l => (dec o.unicode l).map fun i => match i with | .cp v => v | .byte b => b) (· < 256)
      (fun u hu r => ?_) (fun u hu => ?_) s s' hs hs' h
    · rw [charItem_word]
      rw [dec_word o ht _ (charItem_ok hu)]
      unfold charItem; split <;> rfl
    · rw [charItem_word]
      exact word_ne o ht _ (charItem_ok hu)
  · intro h
    simp only [visLexeme, visUnits_all o hw, Option.some.injEq] at h
    have key : ∀ u, u < 256 → ∀ r, some (unhex (((stripColor (visRaw o u ++ r)).drop (if o.unicode then 3 else 1)).take 2)) = some u := by
      intro u hu r
      unfold visRaw
      rw [strip_special]
      have : ∀ r', unhex ((fmtX 2 u ++ r').take 2) = u := fun r' => fmtX_take 2 (by omega) (hexLen_le2 hu) r'
      cases o.unicode <;> simp [this]
    refine flatMap_inj (visRaw o) (fun l => if l = [] then none else some (unhex (((stripColor l).drop (if o.unicode then 3 else 1)).take 2))) (· < 256)
      (fun u hu r => ?_) (fun u hu => ?_) s s' hs hs' h
    · have : visRaw o u ++ r ≠ [] := by unfold visRaw special; cases o.unicode <;> simp
      simp only [this, if_false]
      exact key u hu r
    · unfold visRaw special; cases o.unicode <;> simp

/-! ### The maximal width -/

theorem visUnits_width (o : Opts) (one : Nat → List Nat) (w : Nat) : ∀ (s : List Nat) (c : Nat), (w = 0 ∨ c < w) →
    visUnits { o with maxWidth := w } one c s = if w = 0 ∨ c + s.length < w then (s.map one).flatten
      else ((s.map one).take (w - c)).flatten ++ ellipsis o := by
  intro s
  induction s with
  | nil => intro c h; simp [visUnits]; intro h'; omega
  | cons u s ih =>
    intro c h
    rw [visUnits]
    simp only
    by_cases hc : c + 1 = w
    · rw [if_pos hc, if_neg (by simp; omega)]
      have : w - c = 1 := by omega
      simp [this, ellipsis]
    · rw [if_neg hc, ih (c + 1) (by omega)]
      by_cases h' : w = 0 ∨ c + 1 + s.length < w
      · rw [if_pos h', if_pos (by simp; omega)]; simp
      · rw [if_neg h', if_neg (by simp; omega)]
        have : w - c = (w - (c + 1)) + 1 := by omega
        rw [this]; simp

theorem visUnicode_width (o : Opts) (e : Enc) : ∀ (n : Nat) (s : List Nat), s.length < n → Units e.bound s →
    ∃ groups pieces : List (List Nat), groups.length = pieces.length ∧ groups.flatten <+: s ∧ (∀ g ∈ groups, g ≠ []) ∧
      ((∀ u ∈ s, ¬ Spec.EofLike e u) → groups.flatten = s) ∧
      ∀ (w c : Nat), (w = 0 ∨ c < w) → visUnicode { o with maxWidth := w } e n c s =
        some (if w = 0 ∨ c + pieces.length < w then pieces.flatten else (pieces.take (w - c)).flatten ++ ellipsis o) := by
  intro n
  induction n with
  | zero => intro s h; omega
  | succ n ih =>
    intro s hl hs
    obtain ⟨t, h1, h2, h3⟩ := C04_recovery_progress_partial e s hs
    by_cases he : (parseCp e s).error = .eof
    · refine ⟨[], [], rfl, ⟨s, rfl⟩, by simp, ?_, ?_⟩
      · intro hx
        rcases (parseCp_eof_iff e s hs).1 he with rfl | ⟨u, t', rfl, hu⟩
        · rfl
        · exfalso
          have := hx u (by simp)
          cases e <;> simp [Spec.EofLike] at this hu <;> omega
      · intro w c hc
        simp only [visUnicode, he]
        have : w = 0 ∨ c + ([] : List (List Nat)).length < w := by simpa using hc
        rw [if_pos this]; rfl
    · have hlt := h3 he
      obtain ⟨gs, ps, g1, g2, g3, g4, g5⟩ := ih t (by omega) (fun u hu => hs u (h2.subset hu))
      have hstep : ∃ w1 : List Nat, ∀ w, (if (parseCp e s).error = .success then some (visCp { o with maxWidth := w } (parseCp e s).cp, s.drop (parseCp e s).len)
          else match recoverCodePoint s (parseCp e s) with
          | none => none
          | some t => some ((s.take (s.length - t.length)).flatMap (visUnit { o with maxWidth := w } e), t)) = some (w1, t) := by
        by_cases hsc : (parseCp e s).error = .success
        · refine ⟨visCp o (parseCp e s).cp, fun w => ?_⟩
          have ht : s.drop (parseCp e s).len = t := by simpa [recoverCodePoint, hsc] using h1
          rw [if_pos hsc, ht]; rfl
        · refine ⟨(s.take (s.length - t.length)).flatMap (visUnit o e), fun w => ?_⟩
          rw [if_neg hsc, h1]
          show some (List.flatMap (visUnit { o with maxWidth := w } e) _, t) = _
          congr 2
      obtain ⟨w1, hw1⟩ := hstep
      obtain ⟨a, rfl⟩ := h2
      have hane : a ≠ [] := by rintro rfl; simp at hlt
      refine ⟨a :: gs, w1 :: ps, by simp [g1], ?_, ?_, ?_, ?_⟩
      · simpa using g2
      · intro g hg
        rcases List.mem_cons.1 hg with rfl | hg
        · exact hane
        · exact g3 g hg
      · intro hx; simp [g4 fun u hu => hx u (by simp [hu])]
      · intro w c hc
        have key : visUnicode { o with maxWidth := w } e (n + 1) c (a ++ t)
            = if c + 1 = w then some (w1 ++ ellipsis o) else (visUnicode { o with maxWidth := w } e n (c + 1) t).map (w1 ++ ·) := by
          rw [visUnicode]
          dsimp only
          split
          · contradiction
          · have : ∀ x : Option (List Nat × List Nat), x = some (w1, t) → (match x with
                | none => none
                | some (w', t') => if c + 1 = w then some (w' ++ ellipsis { o with maxWidth := w })
                    else (visUnicode { o with maxWidth := w } e n (c + 1) t').map (w' ++ ·))
                = if c + 1 = w then some (w1 ++ ellipsis o) else (visUnicode { o with maxWidth := w } e n (c + 1) t).map (w1 ++ ·) := by
              rintro x rfl; rfl
            exact this _ (hw1 w)
        rw [key]
        by_cases hcw : c + 1 = w
        · rw [if_pos hcw, if_neg (by simp; omega)]
          have : w - c = 1 := by omega
          simp [this]
        · rw [if_neg hcw, g5 w (c + 1) (by omega)]
          by_cases h' : w = 0 ∨ c + 1 + ps.length < w
          · rw [if_pos h', if_pos (by simp; omega)]; simp
          · rw [if_neg h', if_neg (by simp; omega)]
            have : w - c = (w - (c + 1)) + 1 := by omega
            rw [this]; simp

/-- The units of an encoding. -/
def LexEnc.bound : LexEnc → Nat
  | .unicode e => e.bound
  | _ => 256

/-- Units where the visualization stops. -/
def LexEnc.EofLike : LexEnc → Nat → Prop
  | .unicode e, u => Spec.EofLike e u
  | _, _ => False

/-- C57, width: a lexeme consists of characters (groups of units); with a maximal width `w` exactly the first `w` are
    shown, followed by an ellipsis if there are at least `w`. -/
theorem C57_width (o : Opts) (le : LexEnc) (s : List Nat) (hs : Units le.bound s) :
    ∃ groups pieces : List (List Nat), groups.length = pieces.length ∧ (∀ g ∈ groups, g ≠ []) ∧
      ((∀ u ∈ s, ¬ le.EofLike u) → groups.flatten = s) ∧
      ∀ w, visLexeme { o with maxWidth := w } le s =
        some (if w = 0 ∨ pieces.length < w then pieces.flatten else (pieces.take w).flatten ++ ellipsis o) := by
  have units : ∀ one : Nat → List Nat, (∀ w, visUnits { o with maxWidth := w } one 0 s =
      if w = 0 ∨ (s.map one).length < w then (s.map one).flatten else ((s.map one).take w).flatten ++ ellipsis o) := by
    intro one w
    rw [visUnits_width o one w s 0 (by omega)]
    simp
  have flat : (s.map fun u => [u]).flatten = s := by
    clear hs units
    induction s with
    | nil => rfl
    | cons u s ih => simp only [List.map_cons, List.flatten_cons, ih]; rfl
  cases le with
  | unicode e =>
    obtain ⟨gs, ps, g1, -, g3, g4, g5⟩ := visUnicode_width o e (s.length + 1) s (by omega) hs
    exact ⟨gs, ps, g1, g3, g4, fun w => by simpa [visLexeme] using g5 w 0 (by omega)⟩
  | text =>
    exact ⟨s.map fun u => [u], s.map (visChar o), by simp, by simp, fun _ => flat, fun w => congrArg some (units (visChar o) w)⟩
  | bytes =>
    exact ⟨s.map fun u => [u], s.map (visRaw o), by simp, by simp, fun _ => flat, fun w => congrArg some (units (visRaw o) w)⟩

/-- An ellipsis is written although nothing was left out. -/
theorem C57_ellipsis_refuted : ¬ (∀ (w : Nat) (s : List Nat), s.length ≤ w →
    visLexeme { maxWidth := w } .text s = visLexeme {} .text s) := by
  intro h; exact absurd (h 1 [0x61] (by decide)) (by decide +kernel)

/-! ### What is written at all -/

section Closed

variable (o : Opts) (P : List Nat → Prop) (hnil : P []) (happ : ∀ a b, P a → P b → P (a ++ b))
  (hc : ∀ c, 0x20 ≤ c → c ≤ 0x7E → P [c])
  (hu : o.unicode = true → P [0xE2, 0x9F, 0xA8] ∧ P [0xE2, 0x9F, 0xA9] ∧ P [0xE2, 0x80, 0xA6])
  (hsym : o.symbols = true → P [0xE2, 0x90, 0xA3] ∧ P [0xE2, 0x8F, 0x8E] ∧ P [0xE2, 0x87, 0xA8])
  (hcol : o.color = false)

include hnil happ hc in
theorem closed_ascii (l : List Nat) (h : ∀ c ∈ l, 0x20 ≤ c ∧ c ≤ 0x7E) : P l := by
  induction l with
  | nil => exact hnil
  | cons c l ih =>
    have : P ([c] ++ l) := happ _ _ (hc c (h c (by simp)).1 (h c (by simp)).2) (ih fun d hd => h d (by simp [hd]))
    simpa using this

include hnil happ in
theorem closed_flatten (ls : List (List Nat)) (h : ∀ l ∈ ls, P l) : P ls.flatten := by
  induction ls with
  | nil => exact hnil
  | cons l ls ih => exact happ _ _ (h l (by simp)) (ih fun d hd => h d (by simp [hd]))

theorem fmtX_ascii (w n : Nat) : ∀ c ∈ fmtX w n, 0x20 ≤ c ∧ c ≤ 0x7E := by
  intro c hc
  have := hexN_isHex _ _ c hc
  simp only [isHex, Bool.or_eq_true, Bool.and_eq_true, decide_eq_true_eq] at this
  omega

include hnil happ hc hu hcol in
theorem closed_special (inner : List Nat) (h : ∀ c ∈ inner, 0x20 ≤ c ∧ c ≤ 0x7E) : P (special o inner) := by
  unfold special
  simp only [color_off o hcol, List.nil_append, List.append_nil]
  have hi := closed_ascii P hnil happ hc inner h
  cases hun : o.unicode
  · simp only [Bool.false_eq_true, if_false, List.append_nil]
    exact happ _ _ (hc _ (by omega) (by omega)) hi
  · simp only [if_true]
    exact happ _ _ (happ _ _ (hu hun).1 hi) (hu hun).2.1

theorem cons_ascii {c : Nat} {l : List Nat} (hc : 0x20 ≤ c ∧ c ≤ 0x7E) (h : ∀ d ∈ l, 0x20 ≤ d ∧ d ≤ 0x7E) :
    ∀ d ∈ c :: l, 0x20 ≤ d ∧ d ≤ 0x7E := by
  intro d hd
  rcases List.mem_cons.1 hd with rfl | hd
  · exact hc
  · exact h d hd

include hnil happ hc hu hsym hcol in
theorem closed_space : P (visSpace o) := by
  unfold visSpace
  split
  · split
    · rename_i h; simpa [symbol, color_off o hcol] using (hsym h).1
    · split
      · exact closed_special o P hnil happ hc hu hcol _ (by decide)
      · exact closed_special o P hnil happ hc hu hcol _ (by decide)
  · exact hc _ (by omega) (by omega)

include hnil happ hc hu hsym hcol in
theorem closed_cp (v : Nat) : P (visCp o v) := by
  have sp := closed_special o P hnil happ hc hu hcol
  have ite : ∀ i1 i2 : List Nat, (∀ c ∈ i1, 0x20 ≤ c ∧ c ≤ 0x7E) → (∀ c ∈ i2, 0x20 ≤ c ∧ c ≤ 0x7E) →
      P (special o (if o.unicode = true then i1 else i2)) := by
    intro i1 i2 h1 h2; split
    · exact sp _ h1
    · exact sp _ h2
  have sy : ∀ l, P l → P (symbol o l) := by intro l h; simpa [symbol, color_off o hcol] using h
  have h4 := cons_ascii (c := 0x55) (by omega) (cons_ascii (c := 0x2B) (by omega) (fmtX_ascii 4 v))
  have h4' := cons_ascii (c := 0x75) (by omega) (fmtX_ascii 4 v)
  have h8 := cons_ascii (c := 0x55) (by omega) (fmtX_ascii 8 v)
  unfold visCp
  repeat' first
    | exact ite _ _ (by decide) (by decide)
    | exact sp _ (by decide)
    | exact closed_space o P hnil happ hc hu hsym hcol
    | exact ite _ _ h4 h4'
    | split
  · exact sy _ (hsym (by assumption)).2.1
  · exact closed_flatten P hnil happ _ fun l hl => by
      rw [List.mem_replicate] at hl; rw [hl.2]; exact closed_space o P hnil happ hc hu hsym hcol
  · exact sy _ (hsym (by assumption)).2.2
  · exact hc _ (by omega) (by omega)
  · exact hc _ (by omega) (by omega)
  all_goals first
    | exact sp _ h4
    | exact sp _ h4'
    | exact sp _ h8

include hnil happ hc hu hcol in
theorem closed_byte (b : Nat) : P (visByte o b) := by
  unfold visByte
  refine closed_special o P hnil happ hc hu hcol _ ?_
  split
  · exact cons_ascii (by omega) (cons_ascii (by omega) (fmtX_ascii 2 b))
  · exact cons_ascii (by omega) (fmtX_ascii 2 b)

include hnil happ hc hu hcol in
theorem closed_unit (e : Enc) (u : Nat) : P (visUnit o e u) := by
  have b := closed_byte o P hnil happ hc hu hcol
  have ite : ∀ (p : Prop) [Decidable p] (x : Nat), P (if p then visByte o x else []) := by
    intro p _ x; split
    · exact b x
    · exact hnil
  cases e with
  | ascii => exact hnil
  | utf8 => exact b _
  | utf16 => exact happ _ _ (ite _ _) (b _)
  | utf32 => exact happ _ _ (happ _ _ (happ _ _ (ite _ _) (ite _ _)) (ite _ _)) (b _)

include hnil happ hc hu in
theorem closed_ellipsis : P (ellipsis o) := by
  unfold ellipsis
  split
  · exact (hu (by assumption)).2.2
  · exact closed_ascii P hnil happ hc _ (by decide)

include hnil happ hc hu hsym hcol in
theorem closed_lexeme (le : LexEnc) (s out : List Nat) (h : visLexeme o le s = some out) : P out := by
  have el := closed_ellipsis o P hnil happ hc hu
  have units : ∀ (one : Nat → List Nat), (∀ u, P (one u)) → ∀ (s : List Nat) (c : Nat), P (visUnits o one c s) := by
    intro one h1 s
    induction s with
    | nil => intro c; exact hnil
    | cons u s ih =>
      intro c; rw [visUnits]; split
      · exact happ _ _ (h1 u) el
      · exact happ _ _ (h1 u) (ih _)
  cases le with
  | text =>
    simp only [visLexeme, Option.some.injEq] at h; subst h
    refine units _ (fun u => ?_) s 0
    unfold visChar; split
    · exact closed_cp o P hnil happ hc hu hsym hcol u
    · exact closed_byte o P hnil happ hc hu hcol u
  | bytes =>
    simp only [visLexeme, Option.some.injEq] at h; subst h
    exact units _ (fun u => closed_special o P hnil happ hc hu hcol _ (fmtX_ascii 2 u)) s 0
  | unicode e =>
    simp only [visLexeme] at h
    have key : ∀ (n c : Nat) (s out : List Nat), visUnicode o e n c s = some out → P out := by
      intro n
      induction n with
      | zero => intro c s out h; simp [visUnicode] at h
      | succ n ih =>
        intro c s out h
        unfold visUnicode at h
        simp only at h
        split at h
        · simp only [Option.some.injEq] at h; subst h; exact hnil
        · split at h
          · simp at h
          · rename_i w t hstep
            have hw : P w := by
              split at hstep
              · simp only [Option.some.injEq, Prod.mk.injEq] at hstep
                rw [← hstep.1]; exact closed_cp o P hnil happ hc hu hsym hcol _
              · split at hstep
                · simp at hstep
                · simp only [Option.some.injEq, Prod.mk.injEq] at hstep
                  rw [← hstep.1, List.flatMap_def]
                  refine closed_flatten P hnil happ _ fun l hl => ?_
                  obtain ⟨u, -, rfl⟩ := List.mem_map.1 hl
                  exact closed_unit o P hnil happ hc hu hcol e u
            split at h
            · simp only [Option.some.injEq] at h; subst h; exact happ _ _ hw el
            · cases hr : visUnicode o e n (c + 1) t with
              | none => simp [hr] at h
              | some out' =>
                simp only [hr, Option.map_some, Option.some.injEq] at h; subst h
                exact happ _ _ hw (ih _ _ _ hr)
    exact key _ _ _ _ h

end Closed

/-- C57: by default, only printable ASCII characters are written, whatever the lexeme contains. -/
theorem C57_printable (o : Opts) (h1 : o.unicode = false) (h2 : o.symbols = false) (h3 : o.color = false) (le : LexEnc)
    (s out : List Nat) (h : visLexeme o le s = some out) : ∀ c ∈ out, 0x20 ≤ c ∧ c ≤ 0x7E := by
  refine closed_lexeme o (fun l => ∀ c ∈ l, 0x20 ≤ c ∧ c ≤ 0x7E) (by simp) ?_ ?_ (by simp [h1]) (by simp [h2]) h3 le s out h
  · intro a b ha hb c hc
    rcases List.mem_append.1 hc with hc | hc
    · exact ha c hc
    · exact hb c hc
  · intro c h1 h2 d hd; rw [List.mem_singleton] at hd; subst hd; exact ⟨h1, h2⟩

/-- C57, width of the output: what is written without colors is UTF-8, and `visualization_display_width` is the number
    of code points written. -/
theorem C57_display_width (o : Opts) (le : LexEnc) (s : List Nat) (n : Nat)
    (h : displayWidth (fun o => visLexeme o le s) o = some n) :
    ∃ (out vs : List Nat), visLexeme { o with color := false } le s = some out ∧ (∀ v ∈ vs, Spec.IsScalar v) ∧ out = vs.flatMap Spec.utf8 ∧
      n = vs.length := by
  unfold displayWidth at h
  cases hv : visLexeme { o with color := false } le s with
  | none => simp [hv] at h
  | some out =>
    simp only [hv, Option.map_some, Option.some.injEq] at h
    have := closed_lexeme { o with color := false } (fun l => ∃ vs : List Nat, (∀ v ∈ vs, Spec.IsScalar v) ∧ l = vs.flatMap Spec.utf8
        ∧ (l.filter fun c => c &&& 0xC0 != 0x80).length = vs.length) ⟨[], by simp⟩ ?_ ?_ ?_ ?_ rfl le s out hv
    · obtain ⟨vs, a, b, c⟩ := this
      exact ⟨out, vs, rfl, a, b, by rw [← h, c]⟩
    · rintro a b ⟨vs, a1, a2, a3⟩ ⟨ws, b1, b2, b3⟩
      refine ⟨vs ++ ws, ?_, by rw [a2, b2, List.flatMap_append], by rw [List.filter_append, List.length_append, a3, b3, List.length_append]⟩
      intro v hv
      rcases List.mem_append.1 hv with hv | hv
      · exact a1 v hv
      · exact b1 v hv
    · intro c c1 c2
      refine ⟨[c], by simp [Spec.IsScalar]; omega, by simp [Spec.utf8]; omega, ?_⟩
      have : ∀ c, c < 0x80 → (c &&& 0xC0 != 0x80) = true := by decide
      simp only [List.filter_cons, this c (by omega), if_true]; rfl
    · intro _
      exact ⟨⟨[0x27E8], by simp [Spec.IsScalar], by decide, by decide⟩, ⟨[0x27E9], by simp [Spec.IsScalar], by decide, by decide⟩,
        ⟨[0x2026], by simp [Spec.IsScalar], by decide, by decide⟩⟩
    · intro _
      exact ⟨⟨[0x2423], by simp [Spec.IsScalar], by decide, by decide⟩, ⟨[0x23CE], by simp [Spec.IsScalar], by decide, by decide⟩,
        ⟨[0x21E8], by simp [Spec.IsScalar], by decide, by decide⟩⟩

/-! ### Colors and output iterators -/

/-- What is written to an array through a pointer is the same as what is appended (partial): if there is one color. -/
theorem C57_color_pointer_partial (o : Opts) (head : Nat) (mem : List Nat) (i : Nat) (hi : i + 6 ≤ mem.length) :
    let r := OutIt.pointer.color o head [] mem i
    (r.1.take r.2) = mem.take i ++ color o head [] := by
  have hset : ∀ (m : List Nat) (j c : Nat), j < m.length → (m.set j c).take (j + 1) = m.take j ++ [c] := by
    intro m j c hj
    rw [List.take_set, List.take_succ_eq_append_getElem hj, List.set_append_right _ _ (by simp; omega)]
    simp [Nat.min_eq_left (Nat.le_of_lt hj)]
  dsimp only
  cases hc : o.color
  · simp [OutIt.color, color, hc]
  · simp only [OutIt.color, color, hc, Bool.not_true, Bool.false_eq_true, if_false, OutIt.str, OutIt.codes, OutIt.code, OutIt.pointer, OutIt.shared]
    split
    · rw [hset _ _ _ (by simp; omega), hset _ _ _ (by simp; omega), hset _ _ _ (by simp; omega), hset _ _ _ (by simp; omega), hset _ _ _ (by omega)]
      simp
    · rw [hset _ _ _ (by simp; omega), hset _ _ _ (by simp; omega), hset _ _ _ (by simp; omega), hset _ _ _ (by omega)]
      simp

/-- With two colors the second one is overwritten: cyan, faint should be ESC [ 3 6 ; 2 m. -/
theorem C57_color_pointer_refuted : ¬ (∀ (o : Opts) (head : Nat) (tail mem : List Nat) (i : Nat), i + 16 ≤ mem.length →
    (OutIt.pointer.color o head tail mem i).1.take (OutIt.pointer.color o head tail mem i).2 = mem.take i ++ color o head tail) := by
  intro h
  have := h { color := true } 36 [2] (List.replicate 16 0) 0 (by decide)
  exact absurd this (by decide)

/-! ### Trees -/

/-- The line prefix of a node below ancestors that are (or are not) the last child of their parent: for every ancestor
    other than the root a column, then the branch to the node. -/
def linePrefix (o : Opts) (anc : Option (List Bool)) (last : Bool) : List Nat :=
  match anc with
  | none => []
  | some anc => color o 2 [] ++ anc.flatMap (fun b => if b then lblSpace o else lblLine o)
      ++ (if last then lblEnd o else lblBranch o) ++ color o 0 []

mutual
/-- What a tree should look like: a line for every node, below its parent and indented with a column for every
    ancestor; nodes at the maximal depth are abbreviated.  `anc` is `none` for the root; `d` is how many more levels are
    shown. -/
def treeText (o : Opts) (lex : List Nat → List Nat) (anc : Option (List Bool)) (last : Bool) : Nat → VTree → List Nat
  | _, .leaf name l => linePrefix o anc last ++ color o 1 [] ++ name ++ color o 0 []
      ++ (if l = [] then [] else [0x3A, 0x20] ++ lex l) ++ [0x0A]
  | 0, .node name _ => linePrefix o anc last ++ color o 1 [] ++ name ++ color o 0 [] ++ [0x3A, 0x20] ++ ellipsis o ++ [0x0A]
  | d + 1, .node name cs => linePrefix o anc last ++ color o 1 [] ++ name ++ color o 0 [] ++ [0x3A, 0x0A]
      ++ childText o lex (match anc with | none => [] | some a => a ++ [last]) d cs
def childText (o : Opts) (lex : List Nat → List Nat) (anc : List Bool) : Nat → List VTree → List Nat
  | _, [] => []
  | d, c :: cs => treeText o lex (some anc) cs.isEmpty d c ++ childText o lex anc d cs
end

mutual
/-- All lexemes of a tree. -/
def VTree.lexemes : VTree → List (List Nat)
  | .leaf _ l => [l]
  | .node _ cs => VTree.lexemesList cs
def VTree.lexemesList : List VTree → List (List Nat)
  | [] => []
  | c :: cs => c.lexemes ++ VTree.lexemesList cs
end

theorem prefixLoop_eq (o : Opts) (arr : List Bool) : ∀ (n i : Nat), i + n ≤ arr.length →
    prefixLoop o arr n i = some (((arr.drop i).take n).flatMap fun b => if b then lblSpace o else lblLine o) := by
  intro n
  induction n with
  | zero => intro i _; simp [prefixLoop]
  | succ n ih =>
    intro i h
    rw [prefixLoop, List.getElem?_eq_getElem (by omega)]
    simp only
    rw [ih (i + 1) (by omega), List.drop_eq_getElem_cons (by omega : i < arr.length)]
    simp only [List.take_succ_cons, List.flatMap_cons, Option.map_some]

/-- The ancestors stored in the array. -/
def ancOf (arr : List Bool) (depth : Nat) : Option (List Bool) :=
  if depth = 0 then none else some ((arr.drop 1).take (depth - 1))

theorem writePrefix_eq (o : Opts) (arr : List Bool) (depth : Nat) (last : Bool) (h : depth ≤ arr.length) :
    writePrefix o arr depth last = some (linePrefix o (ancOf arr depth) last) := by
  unfold writePrefix ancOf linePrefix
  split
  · rfl
  · rw [prefixLoop_eq o arr _ _ (by omega)]; rfl

theorem ancOf_congr {a b : List Bool} {d : Nat} (h : a.take d = b.take d) : ancOf a d = ancOf b d := by
  unfold ancOf
  split
  · rfl
  · have := congrArg (List.drop 1) h
    rw [List.drop_take, List.drop_take] at this
    rw [this]

theorem ancOf_set (arr : List Bool) (d : Nat) (last : Bool) (h : d < arr.length) :
    ancOf (arr.set d last) (d + 1) = some (match ancOf arr d with | none => [] | some a => a ++ [last]) := by
  unfold ancOf
  cases d with
  | zero => simp
  | succ d =>
    cases arr with
    | nil => simp at h
    | cons x arr =>
      simp only [List.length_cons, Nat.add_lt_add_iff_right] at h
      simp only [List.set_cons_succ, List.drop_succ_cons, List.drop_zero, Nat.add_one_ne_zero, if_false, Nat.add_sub_cancel]
      rw [List.take_set, List.take_succ_eq_append_getElem h, List.set_append_right _ _ (by simp; omega)]
      simp [Nat.min_eq_left (Nat.le_of_lt h)]

mutual
theorem hidden_tree (o : Opts) (lex : List Nat → Option (List Nat)) (arr : List Bool) (rest : List VEv) (last : Bool) :
    ∀ (t : VTree) (depth : Nat), o.maxDepth < depth →
      visTreeLoop o lex arr depth (t.events last ++ rest) = visTreeLoop o lex arr depth rest
  | .leaf name l, depth, h => by
    simp only [VTree.events, List.cons_append, List.nil_append, visTreeLoop]
    rw [if_neg (by omega)]
  | .node name cs, depth, h => by
    simp only [VTree.events, List.cons_append, List.append_assoc, List.nil_append, visTreeLoop]
    rw [if_neg (by omega), hidden_list o lex arr _ cs (depth + 1) (by omega)]
    simp [visTreeLoop]
theorem hidden_list (o : Opts) (lex : List Nat → Option (List Nat)) (arr : List Bool) (rest : List VEv) :
    ∀ (cs : List VTree) (depth : Nat), o.maxDepth < depth →
      visTreeLoop o lex arr depth (VTree.eventsList cs ++ rest) = visTreeLoop o lex arr depth rest
  | [], _, _ => by simp [VTree.eventsList]
  | c :: cs, depth, h => by
    simp only [VTree.eventsList, List.append_assoc]
    rw [hidden_tree o lex arr _ _ c depth h, hidden_list o lex arr _ cs depth h]
end

mutual
theorem visTree_one (o : Opts) (lex : List Nat → Option (List Nat)) (f : List Nat → List Nat) (rest : List VEv) (last : Bool) :
    ∀ (t : VTree) (depth : Nat) (arr : List Bool), (∀ l ∈ t.lexemes, lex l = some (f l)) → depth ≤ o.maxDepth → o.maxDepth ≤ arr.length →
      ∃ arr', arr'.length = arr.length ∧ arr'.take depth = arr.take depth ∧
        visTreeLoop o lex arr depth (t.events last ++ rest)
          = (visTreeLoop o lex arr' depth rest).map (treeText o f (ancOf arr depth) last (o.maxDepth - depth) t ++ ·)
  | .leaf name l, depth, arr, hl, hd, ha => by
    refine ⟨arr, rfl, rfl, ?_⟩
    simp only [VTree.events, List.cons_append, List.nil_append, visTreeLoop]
    rw [if_pos hd, writePrefix_eq o arr depth last (by omega)]
    rw [hl l (by simp [VTree.lexemes])]
    by_cases he : l = [] <;> cases hv : visTreeLoop o lex arr depth rest <;> simp [he, treeText]
  | .node name cs, depth, arr, hl, hd, ha => by
    simp only [VTree.events, List.cons_append, List.append_assoc, List.nil_append, visTreeLoop]
    rw [if_pos hd, writePrefix_eq o arr depth last (by omega)]
    simp only
    by_cases hm : depth = o.maxDepth
    · refine ⟨arr, rfl, rfl, ?_⟩
      rw [if_pos hm, hidden_list o lex arr _ cs (depth + 1) (by omega)]
      have : o.maxDepth - depth = 0 := by omega
      rw [this]
      simp [visTreeLoop, treeText]
    · rw [if_neg hm, if_pos (by omega)]
      obtain ⟨arr', a1, a2, a3⟩ := visTree_many o lex f (VEv.exit :: rest) cs (depth + 1) (arr.set depth last)
        (fun l hl' => hl l (by simpa [VTree.lexemes] using hl')) (by omega) (by omega) (by simpa using ha)
      refine ⟨arr', by simpa using a1, ?_, ?_⟩
      · have := congrArg (List.take depth) a2
        simp only [List.take_take] at this
        rw [Nat.min_eq_left (by omega)] at this
        rw [this, List.take_set_of_le (Nat.le_refl _)]
      · rw [a3, ancOf_set arr depth last (by omega)]
        have : o.maxDepth - depth = (o.maxDepth - (depth + 1)) + 1 := by omega
        rw [this]
        cases hv : visTreeLoop o lex arr' depth rest <;> simp [visTreeLoop, hv, treeText]
theorem visTree_many (o : Opts) (lex : List Nat → Option (List Nat)) (f : List Nat → List Nat) (rest : List VEv) :
    ∀ (cs : List VTree) (depth : Nat) (arr : List Bool), (∀ l ∈ VTree.lexemesList cs, lex l = some (f l)) → 0 < depth → depth ≤ o.maxDepth →
      o.maxDepth ≤ arr.length →
      ∃ arr', arr'.length = arr.length ∧ arr'.take depth = arr.take depth ∧
        visTreeLoop o lex arr depth (VTree.eventsList cs ++ rest)
          = (visTreeLoop o lex arr' depth rest).map (childText o f ((ancOf arr depth).getD []) (o.maxDepth - depth) cs ++ ·)
  | [], depth, arr, _, _, _, _ => by
    refine ⟨arr, rfl, rfl, ?_⟩
    simp [VTree.eventsList, childText]
  | c :: cs, depth, arr, hl, h0, hd, ha => by
    obtain ⟨arr1, a1, a2, a3⟩ := visTree_one o lex f (VTree.eventsList cs ++ rest) cs.isEmpty c depth arr
      (fun l hl' => hl l (by simp [VTree.lexemesList, hl'])) hd ha
    obtain ⟨arr2, b1, b2, b3⟩ := visTree_many o lex f rest cs depth arr1
      (fun l hl' => hl l (by simp [VTree.lexemesList, hl'])) h0 hd (by omega)
    refine ⟨arr2, by omega, by rw [b2, a2], ?_⟩
    simp only [VTree.eventsList, List.append_assoc]
    rw [a3, b3, ancOf_congr a2]
    have hs : some ((ancOf arr depth).getD []) = ancOf arr depth := by
      unfold ancOf; rw [if_neg (by omega)]; rfl
    cases hv : visTreeLoop o lex arr2 depth rest <;> simp [childText, hs]
end

/-- C73: a tree is drawn with one line for every node up to the maximal depth, in order, indented with one column for
    every ancestor; the array of 32 flags is never accessed out of bounds. -/
theorem C73_tree (o : Opts) (h : o.maxDepth ≤ 32) (e : LexEnc) (t : VTree) (ht : ∀ l ∈ t.lexemes, Units e.bound l) :
    visTree o e t = some (treeText o (fun l => (visLexeme { o with space := true } e l).getD []) none true o.maxDepth t) := by
  have hlex : ∀ l ∈ t.lexemes, visLexeme { o with space := true } e l = some ((visLexeme { o with space := true } e l).getD []) := by
    intro l hl
    obtain ⟨gs, ps, -, -, -, h⟩ := C57_width { o with space := true } e l (ht l hl)
    have := h o.maxWidth
    have : visLexeme { o with space := true } e l = _ := this
    rw [this]; rfl
  obtain ⟨arr', -, -, a3⟩ := visTree_one o (visLexeme { o with space := true } e) _ [] true t 0 (List.replicate 32 false) hlex (by omega) (by simpa using h)
  unfold visTree
  rw [if_pos h, ← List.append_nil (t.events true), a3]
  simp [visTreeLoop, ancOf]

-- A tree with three levels, in the default style:
-- a:
-- - b:
--   - c: x
-- - d
example : visTree {} .text (.node [0x61] [.node [0x62] [.leaf [0x63] [0x78]], .leaf [0x64] []])
    = some ([0x61, 0x3A, 0x0A] ++ [0x2D, 0x20, 0x62, 0x3A, 0x0A] ++ [0x20, 0x20, 0x2D, 0x20, 0x63, 0x3A, 0x20, 0x78, 0x0A]
        ++ [0x2D, 0x20, 0x64, 0x0A]) := by decide +kernel

end Verif.Vis
