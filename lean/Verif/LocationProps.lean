import Verif.Location
import Verif.UntilProps
import Verif.DecodeProps

/-!
Properties C22-C24: input locations and line annotations.
-/

namespace Verif

/-! ## Specification -/

/-- A newline (LF or CR LF) of length `n` is at the front. -/
def Spec.NewlineAt (s : List Nat) (n : Nat) : Prop :=
  (∃ t, s = 0x0A :: t ∧ n = 1) ∨ (∃ t, s = 0x0D :: 0x0A :: t ∧ n = 2)

/-- The column at the front has `n` code units. -/
def Spec.ColumnAt : Counting → List Nat → Nat → Prop
  | .unit, _, n => n = 1
  | .byte _, _, n => n = 1
  | .cp e, s, n =>
    (∃ v, Spec.Representable e v ∧ Spec.enc e v <+: s ∧ n = (Spec.enc e v).length) ∨
    ((¬ ∃ v, Spec.Representable e v ∧ Spec.enc e v <+: s) ∧ n = 1)

/-- From `a` to `b` there are `k` columns and no newline. -/
inductive Spec.Cols (c : Counting) (s : List Nat) (a : Nat) : Nat → Nat → Prop
  | nil : Cols c s a 0 a
  | snoc {k b n} : Cols c s a k b → b + n ≤ s.length → (∀ m, ¬ NewlineAt (s.drop b) m) →
      ColumnAt c (s.drop b) n → Cols c s a (k + 1) (b + n)

/-- `lb` is the beginning of the line containing `p`: the last line feed before `p` is just before it. -/
structure Spec.LineBegin (s : List Nat) (p lb : Nat) : Prop where
  le : lb ≤ p
  after : lb = 0 ∨ s[lb - 1]? = some 0x0A
  none : ∀ i : Nat, lb ≤ i → i < p → s[i]? ≠ some 0x0A

/-- The location of `p` in a text. -/
structure Spec.IsLoc (c : Counting) (s : List Nat) (p : Nat) (l : Loc) : Prop where
  line : l.lineNr = 1 + (s.take p).count 0x0A
  begin_ : Spec.LineBegin s p l.lineBegin
  le : l.columnBegin ≤ p
  col : 1 ≤ l.columnNr
  cols : Spec.Cols c s l.lineBegin (l.columnNr - 1) l.columnBegin
  inside : l.columnBegin = p ∨
    (∃ n, Spec.NewlineAt (s.drop l.columnBegin) n ∧ p < l.columnBegin + n) ∨
    ((∀ n, ¬ Spec.NewlineAt (s.drop l.columnBegin) n) ∧ ∃ n, Spec.ColumnAt c (s.drop l.columnBegin) n ∧ p < l.columnBegin + n)

/-! ## Columns -/

/-- The encodings of the units of a policy. -/
def Counting.bound : Counting → Nat
  | .cp e => e.bound
  | _ => 4294967296

theorem column_spec (c : Counting) (idx u : Nat) (t : List Nat) (hs : Units c.bound (u :: t)) :
    Spec.ColumnAt c (u :: t) (c.column idx (u :: t)).1 ∧ 0 < (c.column idx (u :: t)).1 ∧
    (c.column idx (u :: t)).1 ≤ (u :: t).length := by
  cases c with
  | unit => simp [Counting.column, Spec.ColumnAt]
  | byte w => simp [Counting.column, Spec.ColumnAt]
  | cp e =>
    have hiff := C03_decode_iff e (u :: t) hs
    simp only [Counting.column, Spec.ColumnAt]
    by_cases h : (parseCp e (u :: t)).error = .success
    · rw [if_pos h]
      obtain ⟨v, hv, hp⟩ := hiff.1 h
      have hl := C03_decode_len e _ hs v hv hp
      rw [hl]
      exact ⟨.inl ⟨v, hv, hp, rfl⟩, enc_pos e v, hp.length_le⟩
    · rw [if_neg h]
      exact ⟨.inr ⟨fun hex => h (hiff.2 hex), rfl⟩, by omega, by simp⟩

theorem column_tail (c : Counting) (s : List Nat) (n : Nat) (hc : Spec.ColumnAt c s n) (i : Nat) (h0 : 0 < i)
    (hi : i < n) : ∃ u, s[i]? = some u ∧ 0x80 ≤ u := by
  cases c with
  | unit => simp only [Spec.ColumnAt] at hc; omega
  | byte w => simp only [Spec.ColumnAt] at hc; omega
  | cp e =>
    rcases hc with ⟨v, hv, ⟨t, rfl⟩, rfl⟩ | ⟨-, hn⟩
    · have key : (∀ x ∈ Spec.enc e v, 0x80 ≤ x) → ∃ u, (Spec.enc e v ++ t)[i]? = some u ∧ 0x80 ≤ u := by
        intro hl
        rw [List.getElem?_append_left hi]
        exact ⟨_, List.getElem?_eq_getElem hi, hl _ (List.getElem_mem hi)⟩
      apply key
      cases e with
      | ascii => simp [Spec.enc] at hi; omega
      | utf32 => simp [Spec.enc] at hi; omega
      | utf8 =>
        simp only [Spec.enc, Spec.utf8] at hi ⊢
        split at hi
        · simp at hi; omega
        rename_i g1
        rw [if_neg g1]
        split
        · simp; omega
        split
        · simp; omega
        · simp; omega
      | utf16 =>
        simp only [Spec.enc, Spec.utf16] at hi ⊢
        split at hi
        · simp at hi; omega
        rename_i g1
        rw [if_neg g1]
        simp; omega
    · omega

theorem column_no_nl (c : Counting) (s : List Nat) (hnl : ∀ m, ¬ Spec.NewlineAt s m) (n : Nat)
    (hc : Spec.ColumnAt c s n) (i : Nat) (hi : i < n) : ∀ m, ¬ Spec.NewlineAt (s.drop i) m := by
  rcases Nat.eq_zero_or_pos i with rfl | h0
  · simpa using hnl
  · obtain ⟨u, hu, hu8⟩ := column_tail c s n hc i h0 hi
    have : (s.drop i)[0]? = some u := by rw [List.getElem?_drop]; exact hu
    rintro m (⟨t, ht, -⟩ | ⟨t, ht, -⟩) <;> rw [ht] at this <;> simp at this <;> omega

theorem column_no_lf (c : Counting) (s : List Nat) (hnl : ∀ m, ¬ Spec.NewlineAt s m) (n : Nat)
    (hc : Spec.ColumnAt c s n) : ∀ i : Nat, i < n → s[i]? ≠ some 0x0A := by
  intro i hi h
  have := column_no_nl c s hnl n hc i hi 1
  apply this
  left
  cases hd : s.drop i with
  | nil => rw [List.drop_eq_nil_iff] at hd; rw [List.getElem?_eq_none hd] at h; simp at h
  | cons u t =>
    have h2 : (s.drop i)[0]? = some 0x0A := by rw [List.getElem?_drop]; exact h
    rw [hd] at h2; simp at h2
    exact ⟨t, by rw [h2], rfl⟩

theorem newlineAt_unique {s : List Nat} {n m : Nat} (h : Spec.NewlineAt s n) (h' : Spec.NewlineAt s m) : n = m := by
  rcases h with ⟨t, rfl, rfl⟩ | ⟨t, rfl, rfl⟩ <;> rcases h' with ⟨t', h, rfl⟩ | ⟨t', h, rfl⟩ <;> simp_all

/-! ## C22 -/

/-- The policies for text. -/
def Counting.isText : Counting → Prop
  | .byte _ => False
  | _ => True

theorem tryNewline_text (c : Counting) (hc : c.isText) (eof : Option Nat) (he : eof ≠ some 0x0A ∧ eof ≠ some 0x0D)
    (idx : Nat) (s : List Nat) :
    (∃ n, Spec.NewlineAt s n ∧ c.tryNewline eof idx s = some (some (n, 0))) ∨
    ((∀ n, ¬ Spec.NewlineAt s n) ∧ c.tryNewline eof idx s = some none) := by
  obtain ⟨r, h1, h2⟩ := newlineMatch_spec eof he s
  have : c.tryNewline eof idx s = some (r.map fun n => (n, 0)) := by
    cases c with
    | byte w => exact absurd hc (by simp [Counting.isText])
    | unit => simp [Counting.tryNewline, h1]
    | cp e => simp [Counting.tryNewline, h1]
  rw [this]
  cases r with
  | none =>
    right
    refine ⟨fun n hn => ?_, rfl⟩
    have := (h2 n).2 hn; simp at this
  | some n => left; exact ⟨n, (h2 n).1 rfl, rfl⟩

/-- State of the search: all of the input before `pos` has been seen. -/
structure LocInv (c : Counting) (s : List Nat) (pos lb ln cb cn : Nat) : Prop where
  cb : cb = pos
  line : ln = 1 + (s.take pos).count 0x0A
  begin_ : Spec.LineBegin s pos lb
  col : 1 ≤ cn
  cols : Spec.Cols c s lb (cn - 1) pos

theorem count_take_add {s : List Nat} {pos j : Nat} (h : ∀ i : Nat, pos ≤ i → i < pos + j → s[i]? ≠ some 0x0A) :
    (s.take (pos + j)).count 0x0A = (s.take pos).count 0x0A := by
  induction j with
  | zero => rfl
  | succ j ih =>
    rw [← Nat.add_assoc, List.take_succ, List.count_append, ih (fun i h1 h2 => h i h1 (by omega))]
    have := h (pos + j) (by omega) (by omega)
    cases hg : s[pos + j]? with
    | none => simp
    | some u =>
      rw [hg] at this
      simp at this
      rw [Nat.add_eq_left, List.count_eq_zero]
      simp only [Option.toList_some, List.mem_singleton]
      exact fun h => this h.symm

theorem lineBegin_extend {s : List Nat} {pos j lb : Nat} (h : ∀ i : Nat, pos ≤ i → i < pos + j → s[i]? ≠ some 0x0A)
    (hl : Spec.LineBegin s pos lb) : Spec.LineBegin s (pos + j) lb := by
  obtain ⟨a, b, d⟩ := hl
  refine ⟨by omega, b, fun i h1 h2 => ?_⟩
  rcases Nat.lt_or_ge i pos with h' | h'
  · exact d i h1 h'
  · exact h i h' h2

theorem getElem?_of_drop {s : List Nat} {pos i : Nat} (hi : pos ≤ i) : s[i]? = (s.drop pos)[i - pos]? := by
  rw [List.getElem?_drop]; congr 1; omega

theorem loc_text (c : Counting) (hc : c.isText) (eof : Option Nat) (he : eof ≠ some 0x0A ∧ eof ≠ some 0x0D)
    (s : List Nat) (hs : Units c.bound s) (p : Nat) (hp : p ≤ s.length)
    (hne : ∀ i u : Nat, i < p → s[i]? = some u → eof ≠ some u) :
    ∀ (N pos lb ln cb cn idx : Nat), s.length - pos = N → pos ≤ p → LocInv c s pos lb ln cb cn →
      ∃ l, c.locLoop eof p pos (s.drop pos) lb ln cb cn idx = some l ∧ Spec.IsLoc c s p l := by
  intro N
  induction N using Nat.strongRecOn with
  | _ N ih =>
    intro pos lb ln cb cn idx hN hpos hi
    obtain ⟨i1, i2, i3, i4, i5⟩ := hi
    subst cb
    rw [Counting.locLoop]
    by_cases hpt : pos = p
    · subst hpt
      rw [if_pos rfl]
      exact ⟨_, rfl, i2, i3, by simp, i4, i5, .inl rfl⟩
    rw [if_neg hpt]
    have hlt : pos < s.length := by omega
    obtain ⟨u, t, hut⟩ : ∃ u t, s.drop pos = u :: t := by
      cases h : s.drop pos with
      | nil => simp at h; omega
      | cons u t => exact ⟨u, t, rfl⟩
    have hu : s[pos]? = some u := by
      rw [getElem?_of_drop (Nat.le_refl pos), hut]; simp
    rw [if_neg (by rw [hut, peekEof_cons]; exact hne pos u (by omega) hu)]
    have hlen : (s.drop pos).length = s.length - pos := by simp
    rcases tryNewline_text c hc eof he idx (s.drop pos) with ⟨n, hn, hr⟩ | ⟨hn, hr⟩
    · rw [hr]
      have hn2 : 0 < n ∧ n ≤ (s.drop pos).length := by
        rcases hn with ⟨t', h, rfl⟩ | ⟨t', h, rfl⟩ <;> rw [h] <;> simp
      have hlf : s[pos + n - 1]? = some 0x0A := by
        rw [getElem?_of_drop (pos := pos) (by omega)]
        rcases hn with ⟨t', h, rfl⟩ | ⟨t', h, rfl⟩ <;> rw [h]
        · simp
        · simp [show pos + 2 - 1 - pos = 1 by omega]
      have hbefore : ∀ i : Nat, pos ≤ i → i < pos + (n - 1) → s[i]? ≠ some 0x0A := by
        intro i h1 h2
        rw [getElem?_of_drop (pos := pos) (by omega)]
        rcases hn with ⟨t', h, rfl⟩ | ⟨t', h, rfl⟩ <;> rw [h]
        · omega
        · have : i = pos := by omega
          subst this; simp
      have hm : minRangeEnd pos (pos + n) p = some (if pos + n ≤ p then pos + n else p) := by
        unfold minRangeEnd; rw [if_pos (by omega)]
      simp only [hm]
      by_cases hle : pos + n ≤ p
      · rw [if_pos hle, if_neg (by simp), dif_pos hn2, List.drop_drop]
        apply ih (s.length - (pos + n)) (by omega) (pos + n) _ _ _ _ _ rfl hle
        refine ⟨rfl, ?_, ⟨by omega, .inr hlf, fun i h1 h2 => by omega⟩, by omega, .nil⟩
        have e1 := count_take_add hbefore
        rw [show pos + n = pos + (n - 1) + 1 by omega, List.take_succ, List.count_append, e1,
          show pos + (n - 1) = pos + n - 1 by omega, hlf]
        simp; omega
      · rw [if_neg hle, if_pos (by omega)]
        have hb : ∀ i : Nat, pos ≤ i → i < pos + (p - pos) → s[i]? ≠ some 0x0A :=
          fun i h1 h2 => hbefore i h1 (by omega)
        refine ⟨_, rfl, ?_, ?_, by simp; omega, i4, i5, .inr (.inl ⟨n, hn, by simp; omega⟩)⟩
        · have := count_take_add hb
          rw [show pos + (p - pos) = p by omega] at this
          simp only; rw [this]; exact i2
        · have := lineBegin_extend hb i3
          rwa [show pos + (p - pos) = p by omega] at this
    · rw [hr]
      simp only
      obtain ⟨hcol, hn2, hn3⟩ := column_spec c idx u t (hut ▸ hs.drop pos)
      rw [← hut] at hcol hn2 hn3
      have hnolf := column_no_lf c (s.drop pos) hn _ hcol
      generalize (c.column idx (s.drop pos)).1 = n at *
      have hbefore : ∀ i : Nat, pos ≤ i → i < pos + n → s[i]? ≠ some 0x0A := by
        intro i h1 h2
        rw [getElem?_of_drop (pos := pos) (by omega)]
        exact hnolf (i - pos) (by omega)
      have hm : minRangeEnd pos (pos + n) p = some (if pos + n ≤ p then pos + n else p) := by
        unfold minRangeEnd; rw [if_pos (by omega)]
      simp only [hm]
      by_cases hle : pos + n ≤ p
      · rw [if_pos hle, if_neg (by simp), dif_pos ⟨hn2, hn3⟩, List.drop_drop]
        apply ih (s.length - (pos + n)) (by omega) (pos + n) _ _ _ _ _ rfl hle
        refine ⟨rfl, by rw [count_take_add hbefore]; exact i2, lineBegin_extend hbefore i3, by omega, ?_⟩
        have := Spec.Cols.snoc i5 (by omega) hn hcol
        rwa [show cn - 1 + 1 = cn + 1 - 1 by omega] at this
      · rw [if_neg hle, if_pos (by omega)]
        have hb : ∀ i : Nat, pos ≤ i → i < pos + (p - pos) → s[i]? ≠ some 0x0A :=
          fun i h1 h2 => hbefore i h1 (by omega)
        refine ⟨_, rfl, ?_, ?_, by simp; omega, i4, i5, .inr (.inr ⟨hn, n, hcol, by simp; omega⟩)⟩
        · have := count_take_add hb
          rw [show pos + (p - pos) = p by omega] at this
          simp only; rw [this]; exact i2
        · have := lineBegin_extend hb i3
          rwa [show pos + (p - pos) = p by omega] at this

/-- C22: for text, the location of every position exists, its line number is one more than the number of line feeds
    before it, and its column number is one more than the number of columns in the line before it. -/
theorem C22_text (c : Counting) (hc : c.isText) (eof : Option Nat) (he : eof ≠ some 0x0A ∧ eof ≠ some 0x0D)
    (s : List Nat) (hs : Units c.bound s) (p : Nat) (hp : p ≤ s.length)
    (hne : ∀ i u : Nat, i < p → s[i]? = some u → eof ≠ some u) :
    ∃ l, getLocation c eof s p startAnchor = some l ∧ Spec.IsLoc c s p l := by
  unfold getLocation startAnchor
  refine loc_text c hc eof he s hs p hp hne _ 0 0 1 0 1 0 rfl (by omega) ⟨rfl, by simp, ⟨by omega, .inl rfl, by omega⟩, by omega, .nil⟩

theorem cols_unit {s : List Nat} {a k b : Nat} (h : Spec.Cols .unit s a k b) : b = a + k := by
  induction h with
  | nil => rfl
  | snoc _ _ _ hc ih => simp only [Spec.ColumnAt] at hc; omega

/-- C22: with the default policy the column is the distance to the beginning of the line, where a position between
    CR and LF counts as the one of the CR. -/
theorem C22_code_unit (eof : Option Nat) (he : eof ≠ some 0x0A ∧ eof ≠ some 0x0D)
    (s : List Nat) (hs : Units 4294967296 s) (p : Nat) (hp : p ≤ s.length)
    (hne : ∀ i u : Nat, i < p → s[i]? = some u → eof ≠ some u) :
    ∃ l, getLocation .unit eof s p startAnchor = some l ∧
      l.lineNr = 1 + (s.take p).count 0x0A ∧ Spec.LineBegin s p l.lineBegin ∧
      l.columnNr = 1 + (l.columnBegin - l.lineBegin) ∧ l.lineBegin ≤ l.columnBegin ∧
      (l.columnBegin = p ∨ (l.columnBegin + 1 = p ∧ s[p - 1]? = some 0x0D ∧ s[p]? = some 0x0A)) := by
  obtain ⟨l, h1, h2⟩ := C22_text .unit trivial eof he s hs p hp hne
  obtain ⟨a1, a2, a3, a4, a5, a6⟩ := h2
  have hb := cols_unit a5
  refine ⟨l, h1, a1, a2, by omega, by omega, ?_⟩
  rcases a6 with h | ⟨n, hn, hlt⟩ | ⟨-, n, hn, hlt⟩
  · exact .inl h
  · rcases hn with ⟨t, ht, rfl⟩ | ⟨t, ht, rfl⟩
    · left; omega
    · rcases Nat.lt_or_ge l.columnBegin p with hh | hh
      · right
        refine ⟨by omega, ?_, ?_⟩
        · rw [getElem?_of_drop (pos := l.columnBegin) (by omega), ht, show p - 1 - l.columnBegin = 0 by omega]; rfl
        · rw [getElem?_of_drop (pos := l.columnBegin) (by omega), ht, show p - l.columnBegin = 1 by omega]; rfl
      · left; omega
  · simp only [Spec.ColumnAt] at hn
    left; omega

/-- C22: with the byte policy, lines have `w` bytes. -/
theorem C22_byte (w : Nat) (hw : 0 < w) (s : List Nat) (p : Nat) (hp : p ≤ s.length) :
    getLocation (.byte w) none s p startAnchor = some ⟨p / w * w, 1 + p / w, p, 1 + p % w⟩ := by
  have gen : ∀ (N pos idx : Nat), p - pos = N → pos ≤ p → idx = pos % w →
      (Counting.byte w).locLoop none p pos (s.drop pos) (pos / w * w) (1 + pos / w) pos (1 + pos % w) idx =
        some ⟨p / w * w, 1 + p / w, p, 1 + p % w⟩ := by
    intro N
    induction N with
    | zero =>
      intro pos idx hN hpos hidx
      have : pos = p := by omega
      subst this
      rw [Counting.locLoop, if_pos rfl]
    | succ N ih =>
      intro pos idx hN hpos hidx
      rw [Counting.locLoop, if_neg (by omega)]
      obtain ⟨u, t, hut⟩ : ∃ u t, s.drop pos = u :: t := by
        cases h : s.drop pos with
        | nil => simp at h; omega
        | cons u t => exact ⟨u, t, rfl⟩
      have hpe : peekEof none (s.drop pos) = false := by rw [hut]; rfl
      rw [if_neg (by simp [hpe])]
      have hmod := Nat.mod_lt pos hw
      have hdm := Nat.div_add_mod pos w
      have hm : minRangeEnd pos (pos + 1) p = some (pos + 1) := by
        unfold minRangeEnd; rw [if_pos (by omega), if_pos (by omega)]
      have h1 : 1 ≤ (s.drop pos).length := by rw [hut]; simp
      unfold Counting.tryNewline
      simp only
      rw [if_neg (by omega)]
      by_cases hlast : idx = w - 1
      · rw [if_pos hlast, hpe]
        simp only [Bool.false_eq_true, if_false, hm, ne_eq, not_true]
        rw [dif_pos ⟨by omega, h1⟩, List.drop_drop]
        have e1 : (pos + 1) / w = pos / w + 1 := by
          rw [Nat.div_eq_iff hw]; 
          have : (pos / w + 1) * w = w * (pos / w) + w := by rw [Nat.add_mul, Nat.mul_comm]; simp
          rw [this]; omega
        have e2 : (pos + 1) % w = 0 := by
          have := Nat.div_add_mod (pos + 1) w
          rw [e1, Nat.mul_add] at this; omega
        have := ih (pos + 1) 0 (by omega) (by omega) e2.symm
        rw [e2, e1] at this
        rw [show pos + 1 = (pos / w + 1) * w by rw [Nat.add_mul, Nat.mul_comm]; omega, show 1 + pos / w + 1 = 1 + (pos / w + 1) by omega]
        rw [show pos + 1 = (pos / w + 1) * w by rw [Nat.add_mul, Nat.mul_comm]; omega] at this
        exact this
      · rw [if_neg hlast]
        have hm' : minRangeEnd pos (pos + ((Counting.byte w).column idx (s.drop pos)).1) p =
          some (pos + ((Counting.byte w).column idx (s.drop pos)).1) := hm
        simp only [hm', ne_eq, not_true, if_false]
        rw [dif_pos ⟨Nat.zero_lt_one, h1⟩, List.drop_drop]
        have e1 : (pos + 1) / w = pos / w := by
          rw [Nat.div_eq_iff hw, Nat.mul_comm]; omega
        have e2 : (pos + 1) % w = pos % w + 1 := by
          have := Nat.div_add_mod (pos + 1) w
          rw [e1] at this; omega
        have := ih (pos + 1) (idx + 1) (by omega) (by omega) (by omega)
        rw [e2, e1, ← Nat.add_assoc] at this
        exact this
  have := gen p 0 0 (by omega) (by omega) (by simp)
  simpa [getLocation, startAnchor] using this

/-! ## C23 -/

theorem loc_ge (c : Counting) (eof : Option Nat) (p : Nat) (l : Loc) : ∀ (N pos : Nat) (s : List Nat) (lb ln cb cn idx : Nat),
    s.length = N → c.locLoop eof p pos s lb ln cb cn idx = some l →
    ln < l.lineNr ∨ (ln = l.lineNr ∧ cn ≤ l.columnNr ∧ lb = l.lineBegin) := by
  intro N
  induction N using Nat.strongRecOn with
  | _ N ih =>
    intro pos s lb ln cb cn idx hN h
    rw [Counting.locLoop] at h
    split at h
    · cases h; exact .inr ⟨rfl, Nat.le_refl _, rfl⟩
    split at h
    · cases h
    split at h
    · cases h
    · rename_i n idx' _
      split at h
      · cases h
      split at h
      · cases h; exact .inr ⟨rfl, Nat.le_refl _, rfl⟩
      split at h
      · rename_i hn
        have := ih _ (by simp; omega) _ _ _ _ _ _ _ rfl h
        left; omega
      · cases h
    · split at h
      · cases h
      split at h
      · cases h; exact .inr ⟨rfl, Nat.le_refl _, rfl⟩
      split at h
      · rename_i hn
        have := ih _ (by simp; omega) _ _ _ _ _ _ _ rfl h
        omega
      · cases h

theorem minRangeEnd_eq {b a p m : Nat} (h : minRangeEnd b a p = some m) : b ≤ a ∧ b ≤ p ∧ m = min a p := by
  unfold minRangeEnd at h
  split at h
  · simp at h; rename_i hh; refine ⟨hh.1, hh.2, ?_⟩; split at h <;> omega
  · cases h

theorem minRangeEnd_of {b a p : Nat} (h : b ≤ a) (h' : b ≤ p) : minRangeEnd b a p = some (min a p) := by
  unfold minRangeEnd
  rw [if_pos ⟨h, h'⟩]
  congr 1

theorem tryNewline_idx {c : Counting} {eof : Option Nat} {idx n idx' : Nat} {s : List Nat}
    (h : c.tryNewline eof idx s = some (some (n, idx'))) : idx' = 0 := by
  unfold Counting.tryNewline at h
  cases c with
  | byte w =>
    simp only at h
    split at h
    · cases h
    split at h
    · simp at h; exact h.2.symm
    · cases h
  | unit => simp only [Option.map_eq_some_iff] at h; obtain ⟨_, _, _, _, h⟩ := h; cases h; rfl
  | cp e => simp only [Option.map_eq_some_iff] at h; obtain ⟨_, _, _, _, h⟩ := h; cases h; rfl

theorem loc_anchor (c : Counting) (eof : Option Nat) (s : List Nat) (p q : Nat) (hpq : p ≤ q) (l : Loc) :
    ∀ (N pos lb ln cb cn idx : Nat), s.length - pos = N → c.locLoop eof p pos (s.drop pos) lb ln cb cn idx = some l →
    (l.lineBegin = lb ∧ l.lineNr = ln) ∨
    c.locLoop eof q pos (s.drop pos) lb ln cb cn idx =
      c.locLoop eof q l.lineBegin (s.drop l.lineBegin) l.lineBegin l.lineNr l.lineBegin 1 0 := by
  intro N
  induction N using Nat.strongRecOn with
  | _ N ih =>
    intro pos lb ln cb cn idx hN h
    rw [Counting.locLoop] at h
    split at h
    · cases h; exact .inl ⟨rfl, rfl⟩
    rename_i hpp
    split at h
    · cases h
    rename_i hpe
    split at h
    · cases h
    · rename_i n idx' hnl
      split at h
      · cases h
      rename_i m hm
      obtain ⟨m1, m2, m3⟩ := minRangeEnd_eq hm
      split at h
      · cases h; exact .inl ⟨rfl, rfl⟩
      rename_i hmm
      split at h
      · rename_i hn
        have hlen : (s.drop pos).length = s.length - pos := by simp
        have hq : c.locLoop eof q pos (s.drop pos) lb ln cb cn idx =
            c.locLoop eof q (pos + n) (s.drop (pos + n)) (pos + n) (ln + 1) (pos + n) 1 idx' := by
          rw [Counting.locLoop, if_neg (by omega), if_neg hpe, hnl]
          simp only
          rw [minRangeEnd_of m1 (by omega)]
          simp only
          rw [if_neg (by omega), dif_pos hn, List.drop_drop]
        rw [List.drop_drop] at h
        right
        rw [hq]
        have := ih (s.length - (pos + n)) (by omega) (pos + n) _ _ _ _ _ rfl h
        rcases this with ⟨e1, e2⟩ | e
        · rw [e1, e2, tryNewline_idx hnl]
        · exact e
      · cases h
    · rename_i hnl
      split at h
      · cases h
      rename_i m hm
      obtain ⟨m1, m2, m3⟩ := minRangeEnd_eq hm
      split at h
      · cases h; exact .inl ⟨rfl, rfl⟩
      rename_i hmm
      split at h
      · rename_i hn
        have hlen : (s.drop pos).length = s.length - pos := by simp
        have hq : c.locLoop eof q pos (s.drop pos) lb ln cb cn idx =
            c.locLoop eof q (pos + (c.column idx (s.drop pos)).1) (s.drop (pos + (c.column idx (s.drop pos)).1)) lb ln
              (pos + (c.column idx (s.drop pos)).1) (cn + 1) (c.column idx (s.drop pos)).2 := by
          rw [Counting.locLoop, if_neg (by omega), if_neg hpe, hnl]
          simp only
          rw [minRangeEnd_of m1 (by omega)]
          simp only
          rw [if_neg (by omega), dif_pos hn, List.drop_drop]
        rw [List.drop_drop] at h
        rw [hq]
        exact ih _ (by omega) _ _ _ _ _ _ rfl h
      · cases h

/-- C23: the search may start at the anchor of any earlier location, for every policy and input. -/
theorem C23_anchor (c : Counting) (eof : Option Nat) (s : List Nat) (a : Nat × Nat) (p q : Nat) (hpq : p ≤ q) (l : Loc)
    (h : getLocation c eof s p a = some l) : getLocation c eof s q l.anchor = getLocation c eof s q a := by
  unfold getLocation at h ⊢
  rcases loc_anchor c eof s p q hpq l _ _ _ _ _ _ _ rfl h with ⟨e1, e2⟩ | e
  · simp only [Loc.anchor, e1, e2]
  · exact e.symm

theorem loc_order (c : Counting) (eof : Option Nat) (p q : Nat) (hpq : p ≤ q) (l l' : Loc) :
    ∀ (N pos : Nat) (s : List Nat) (lb ln cb cn idx : Nat), s.length = N →
    c.locLoop eof p pos s lb ln cb cn idx = some l → c.locLoop eof q pos s lb ln cb cn idx = some l' →
    l.lineNr < l'.lineNr ∨ (l.lineNr = l'.lineNr ∧ l.columnNr ≤ l'.columnNr) := by
  intro N
  induction N using Nat.strongRecOn with
  | _ N ih =>
    intro pos s lb ln cb cn idx hN h h'
    have hge := loc_ge c eof q l' _ _ _ _ _ _ _ _ rfl h'
    have hcur : some (⟨lb, ln, cb, cn⟩ : Loc) = some l → l.lineNr < l'.lineNr ∨ (l.lineNr = l'.lineNr ∧ l.columnNr ≤ l'.columnNr) := by
      intro e; cases e; simp only; omega
    rw [Counting.locLoop] at h
    split at h
    · exact hcur h
    rename_i hpp
    split at h
    · cases h
    rename_i hpe
    split at h
    · cases h
    · rename_i n idx' hnl
      split at h
      · cases h
      rename_i m hm
      obtain ⟨m1, m2, m3⟩ := minRangeEnd_eq hm
      split at h
      · exact hcur h
      split at h
      · rename_i hn
        rw [Counting.locLoop, if_neg (by omega), if_neg hpe, hnl] at h'
        simp only at h'
        rw [minRangeEnd_of m1 (by omega)] at h'
        simp only at h'
        rw [if_neg (by omega), dif_pos hn] at h'
        exact ih _ (by simp; omega) _ _ _ _ _ _ _ rfl h h'
      · cases h
    · rename_i hnl
      split at h
      · cases h
      rename_i m hm
      obtain ⟨m1, m2, m3⟩ := minRangeEnd_eq hm
      split at h
      · exact hcur h
      split at h
      · rename_i hn
        rw [Counting.locLoop, if_neg (by omega), if_neg hpe, hnl] at h'
        simp only at h'
        rw [minRangeEnd_of m1 (by omega)] at h'
        simp only at h'
        rw [if_neg (by omega), dif_pos hn] at h'
        exact ih _ (by simp; omega) _ _ _ _ _ _ _ rfl h h'
      · cases h

/-- C64: the order of locations agrees with the order of the positions. -/
theorem C64_location_order (c : Counting) (eof : Option Nat) (s : List Nat) (a : Nat × Nat) (p q : Nat) (hpq : p ≤ q)
    (l l' : Loc) (h : getLocation c eof s p a = some l) (h' : getLocation c eof s q a = some l') :
    l'.lt l = false := by
  have := loc_order c eof p q hpq l l' _ _ _ _ _ _ _ _ rfl h h'
  unfold Loc.lt
  split <;> simp <;> omega

/-! ## C24 -/

theorem loc_line (c : Counting) (eof : Option Nat) (s : List Nat) (p : Nat) (l : Loc) :
    ∀ (N pos ln cn idx : Nat), s.length - pos = N →
    c.locLoop eof p pos (s.drop pos) l.lineBegin ln pos cn idx = some l → l.lineNr = ln →
    pos ≤ l.columnBegin ∧
    ∃ idx', c.lineLoop eof pos (s.drop pos) pos idx = c.lineLoop eof l.columnBegin (s.drop l.columnBegin) l.columnBegin idx' := by
  intro N
  induction N using Nat.strongRecOn with
  | _ N ih =>
    intro pos ln cn idx hN h hln
    have hcur : ∀ lb ln cn, some (⟨lb, ln, pos, cn⟩ : Loc) = some l → pos ≤ l.columnBegin ∧
        ∃ idx', c.lineLoop eof pos (s.drop pos) pos idx = c.lineLoop eof l.columnBegin (s.drop l.columnBegin) l.columnBegin idx' := by
      intro lb ln cn e; cases e; exact ⟨Nat.le_refl _, idx, rfl⟩
    rw [Counting.locLoop] at h
    split at h
    · exact hcur _ _ _ h
    split at h
    · cases h
    rename_i hpe
    split at h
    · cases h
    · rename_i n idx' hnl
      split at h
      · cases h
      split at h
      · exact hcur _ _ _ h
      split at h
      · have := loc_ge c eof p l _ _ _ _ _ _ _ _ rfl h
        omega
      · cases h
    · rename_i hnl
      split at h
      · cases h
      split at h
      · exact hcur _ _ _ h
      split at h
      · rename_i hn
        have hlen : (s.drop pos).length = s.length - pos := by simp
        rw [List.drop_drop] at h
        have := ih _ (by omega) _ _ _ _ rfl h hln
        refine ⟨by omega, ?_⟩
        obtain ⟨i, hi⟩ := this.2
        refine ⟨i, ?_⟩
        rw [← hi, Counting.lineLoop, if_neg hpe, hnl]
        simp only
        rw [dif_pos hn, List.drop_drop]
      · cases h

/-- The end `le` of the line starting at `lb`, and the end `ne` of its newline. -/
def Spec.LineEnd (c : Counting) (eof : Option Nat) (s : List Nat) (lb le ne : Nat) : Prop :=
  match c with
  | .byte w => le = min (lb + (w - 1)) s.length ∧ ne = min (lb + w) s.length
  | _ => lb ≤ le ∧ le ≤ ne ∧ ne ≤ s.length ∧ (∀ i : Nat, lb ≤ i → i < le → ∀ m, ¬ Spec.NewlineAt (s.drop i) m) ∧
    ((le < ne ∧ Spec.NewlineAt (s.drop le) (ne - le)) ∨ (ne = le ∧ (le = s.length ∨ s[le]? = eof)))

/-- The policies and their inputs: text, or bytes in lines of at least one. -/
def Counting.Ok (c : Counting) (eof : Option Nat) (s : List Nat) : Prop :=
  match c with
  | .byte w => 0 < w ∧ eof = none
  | _ => eof ≠ some 0x0A ∧ eof ≠ some 0x0D ∧ Units c.bound s

theorem line_text (c : Counting) (hc : c.isText) (eof : Option Nat) (he : eof ≠ some 0x0A ∧ eof ≠ some 0x0D)
    (s : List Nat) (hs : Units c.bound s) (lb : Nat) : ∀ (N pos idx : Nat), s.length - pos = N → pos ≤ s.length →
    lb ≤ pos → (∀ i : Nat, lb ≤ i → i < pos → ∀ m, ¬ Spec.NewlineAt (s.drop i) m) →
    ∃ le ne, c.lineLoop eof pos (s.drop pos) pos idx = some (le, ne) ∧ pos ≤ le ∧ le ≤ ne ∧ ne ≤ s.length ∧
      (∀ i : Nat, lb ≤ i → i < le → ∀ m, ¬ Spec.NewlineAt (s.drop i) m) ∧
      ((le < ne ∧ Spec.NewlineAt (s.drop le) (ne - le)) ∨ (ne = le ∧ (le = s.length ∨ s[le]? = eof))) := by
  intro N
  induction N using Nat.strongRecOn with
  | _ N ih =>
    intro pos idx hN hpos hlb hno
    rw [Counting.lineLoop]
    by_cases hpe : peekEof eof (s.drop pos) = true
    · rw [if_pos hpe]
      refine ⟨pos, pos, rfl, Nat.le_refl _, Nat.le_refl _, hpos, hno, .inr ⟨rfl, ?_⟩⟩
      cases hd : s.drop pos with
      | nil => left; simp at hd; omega
      | cons u t =>
        right
        have h1 : (s.drop pos)[0]? = some u := by rw [hd]; rfl
        rw [List.getElem?_drop] at h1
        rw [hd, peekEof_cons] at hpe
        rw [hpe]; exact h1
    · rw [if_neg hpe]
      obtain ⟨u, t, hut⟩ : ∃ u t, s.drop pos = u :: t := by
        cases h : s.drop pos with
        | nil => rw [h] at hpe; exact absurd rfl hpe
        | cons u t => exact ⟨u, t, rfl⟩
      have hlen : (s.drop pos).length = s.length - pos := by simp
      rcases tryNewline_text c hc eof he idx (s.drop pos) with ⟨n, hn, hr⟩ | ⟨hn, hr⟩
      · rw [hr]
        have hn2 : 0 < n ∧ n ≤ (s.drop pos).length := by
          rcases hn with ⟨t', h, rfl⟩ | ⟨t', h, rfl⟩ <;> rw [h] <;> simp
        refine ⟨pos, pos + n, rfl, Nat.le_refl _, by omega, by omega, hno, .inl ⟨by omega, ?_⟩⟩
        rwa [Nat.add_sub_cancel_left]
      · rw [hr]
        simp only
        obtain ⟨hcol, hn2, hn3⟩ := column_spec c idx u t (hut ▸ hs.drop pos)
        rw [← hut] at hcol hn2 hn3
        rw [dif_pos ⟨hn2, hn3⟩, List.drop_drop]
        have := ih _ (by omega) (pos + (c.column idx (s.drop pos)).1) (c.column idx (s.drop pos)).2 rfl (by omega) (by omega) (by
          intro i h1 h2
          rcases Nat.lt_or_ge i pos with h' | h'
          · exact hno i h1 h'
          · have := column_no_nl c (s.drop pos) hn _ hcol (i - pos) (by omega)
            rwa [List.drop_drop, show pos + (i - pos) = i by omega] at this)
        obtain ⟨le, ne, a1, a2, a3⟩ := this
        exact ⟨le, ne, a1, by omega, a3⟩

theorem line_byte (w : Nat) (s : List Nat) : ∀ (N pos idx : Nat), s.length - pos = N → pos ≤ s.length → idx < w →
    (Counting.byte w).lineLoop none pos (s.drop pos) pos idx =
      some (min (pos + (w - 1 - idx)) s.length, min (pos + (w - idx)) s.length) := by
  intro N
  induction N with
  | zero =>
    intro pos idx hN hpos hidx
    have : s.drop pos = [] := by simp; omega
    rw [Counting.lineLoop, this, if_pos (by rfl)]
    congr 2 <;> omega
  | succ N ih =>
    intro pos idx hN hpos hidx
    obtain ⟨u, t, hut⟩ : ∃ u t, s.drop pos = u :: t := by
      cases h : s.drop pos with
      | nil => simp at h; omega
      | cons u t => exact ⟨u, t, rfl⟩
    have hpe : peekEof none (s.drop pos) = false := by rw [hut]; rfl
    rw [Counting.lineLoop, if_neg (by simp [hpe])]
    unfold Counting.tryNewline
    simp only
    rw [if_neg (by omega)]
    by_cases hlast : idx = w - 1
    · rw [if_pos hlast, hpe]
      simp only [Bool.false_eq_true, if_false]
      congr 2 <;> omega
    · rw [if_neg hlast]
      simp only
      rw [dif_pos ⟨Nat.zero_lt_one, by rw [hut]; simp [Counting.column]⟩, List.drop_drop]
      have := ih (pos + 1) (idx + 1) (by omega) (by omega) (by omega)
      rw [show pos + 1 + (w - 1 - (idx + 1)) = pos + (w - 1 - idx) by omega,
        show pos + 1 + (w - (idx + 1)) = pos + (w - idx) by omega] at this
      exact this

/-- C24: `get_input_line` finds the end of the line and of its newline. -/
theorem C24_line (c : Counting) (eof : Option Nat) (s : List Nat) (hc : c.Ok eof s) (lb : Nat) (hlb : lb ≤ s.length) :
    ∃ le ne, getLine c eof s lb = some (le, ne) ∧ Spec.LineEnd c eof s lb le ne := by
  unfold getLine
  cases c with
  | byte w =>
    obtain ⟨h1, rfl⟩ := hc
    refine ⟨_, _, line_byte w s _ lb 0 rfl hlb h1, ?_⟩
    simp [Spec.LineEnd]
  | unit =>
    obtain ⟨le, ne, h1, h2⟩ := line_text .unit trivial eof ⟨hc.1, hc.2.1⟩ s hc.2.2 lb _ lb 0 rfl hlb (Nat.le_refl _) (by omega)
    exact ⟨le, ne, h1, h2⟩
  | cp e =>
    obtain ⟨le, ne, h1, h2⟩ := line_text (.cp e) trivial eof ⟨hc.1, hc.2.1⟩ s hc.2.2 lb _ lb 0 rfl hlb (Nat.le_refl _) (by omega)
    exact ⟨le, ne, h1, h2⟩

/-- Every policy: bounds of the line from any column. -/
theorem line_bounds (c : Counting) (eof : Option Nat) (s : List Nat) : ∀ (N pos idx le ne : Nat), s.length - pos = N →
    c.lineLoop eof pos (s.drop pos) pos idx = some (le, ne) → pos ≤ le := by
  intro N
  induction N using Nat.strongRecOn with
  | _ N ih =>
    intro pos idx le ne hN h
    rw [Counting.lineLoop] at h
    split at h
    · cases h; exact Nat.le_refl _
    split at h
    · cases h
    · cases h; exact Nat.le_refl _
    · split at h
      · rename_i hn
        have hlen : (s.drop pos).length = s.length - pos := by simp
        rw [List.drop_drop] at h
        have := ih _ (by omega) _ _ _ _ rfl h
        omega
      · cases h

/-- The line of a location contains it. -/
theorem loc_in_line (c : Counting) (eof : Option Nat) (s : List Nat) (p : Nat) (l : Loc) (a : Nat × Nat)
    (h : getLocation c eof s p a = some l) :
    l.lineBegin ≤ l.columnBegin ∧ ∀ le ne, getLine c eof s l.lineBegin = some (le, ne) → l.columnBegin ≤ le := by
  have h' := C23_anchor c eof s a p p (Nat.le_refl _) l h
  rw [h] at h'
  obtain ⟨h1, idx, h2⟩ := loc_line c eof s p l _ _ _ _ _ rfl h' rfl
  refine ⟨h1, fun le ne hl => ?_⟩
  unfold getLine at hl
  rw [show l.anchor.1 = l.lineBegin from rfl] at h2
  rw [h2] at hl
  exact line_bounds c eof s _ _ _ _ _ rfl hl

theorem boundary_spec (e : Option Enc) (s : List Nat) (end_ : Nat) (he : end_ ≤ s.length) :
    ∀ (N cur : Nat), end_ - cur = N → cur ≤ end_ → ∃ r, findCpBoundary e s cur end_ = some r ∧ cur ≤ r ∧ r ≤ end_ ∧
      (∀ i u : Nat, cur ≤ i → i < r → s[i]? = some u → isCpContinuation e u = true) ∧
      (r = end_ ∨ ∃ u, s[r]? = some u ∧ isCpContinuation e u = false) := by
  intro N
  induction N with
  | zero =>
    intro cur hN hc
    have : cur = end_ := by omega
    subst this
    rw [findCpBoundary, if_pos rfl]
    exact ⟨_, rfl, Nat.le_refl _, Nat.le_refl _, by omega, .inl rfl⟩
  | succ N ih =>
    intro cur hN hc
    have hlt : cur < s.length := by omega
    rw [findCpBoundary, if_neg (by omega), List.getElem?_eq_getElem hlt]
    simp only
    by_cases hcont : isCpContinuation e s[cur] = true
    · rw [if_pos hcont, dif_pos hlt]
      obtain ⟨r, h1, h2, h3, h4, h5⟩ := ih (cur + 1) (by omega) (by omega)
      refine ⟨r, h1, by omega, h3, ?_, h5⟩
      intro i u hi1 hi2 hu
      rcases Nat.eq_or_lt_of_le hi1 with rfl | hlt'
      · rw [List.getElem?_eq_getElem hlt] at hu; simp at hu; rw [← hu]; exact hcont
      · exact h4 i u hlt' hi2 hu
    · rw [if_neg hcont]
      exact ⟨cur, rfl, Nat.le_refl _, hc, by omega, .inr ⟨_, List.getElem?_eq_getElem hlt, by simpa using hcont⟩⟩

/-- The units that continue a code point (10xxxxxx in UTF-8, low surrogates in UTF-16). -/
def Spec.IsCont (e : Option Enc) (u : Nat) : Prop :=
  match e with
  | some .utf8 => u / 64 % 4 = 2
  | some .utf16 => 0xDC00 ≤ u ∧ u ≤ 0xDFFF
  | _ => False

theorem isCont_iff (e : Option Enc) (u : Nat) : isCpContinuation e u = true ↔ Spec.IsCont e u := by
  unfold isCpContinuation Spec.IsCont
  split
  · rw [beq_iff_eq]
    have : u &&& 0xC0 = u / 64 % 4 * 64 := by
      have h1 : u / 64 % 4 = (u >>> 6) &&& 3 := by
        rw [Nat.shiftRight_eq_div_pow, show (3 : Nat) = 2 ^ 2 - 1 from rfl, Nat.and_two_pow_sub_one_eq_mod]
      rw [h1, show (64 : Nat) = 2 ^ 6 from rfl, ← Nat.shiftLeft_eq, Nat.shiftLeft_and_distrib]
      apply Nat.eq_of_testBit_eq
      intro i
      simp only [Nat.testBit_and, Nat.testBit_shiftLeft, Nat.testBit_shiftRight]
      by_cases hi : 6 ≤ i
      · rw [show 6 + (i - 6) = i by omega]
        simp only [hi, decide_true, Bool.true_and]
        congr 1
        rw [show (0xC0 : Nat) = 3 <<< 6 from rfl, Nat.testBit_shiftLeft]
        simp [hi]
      · rw [show (0xC0 : Nat) = 3 <<< 6 from rfl, Nat.testBit_shiftLeft]
        simp [hi]
    rw [this]; omega
  · simp
  · simp

/-- What an annotation of the line `[lb, le)` with newline `[le, ne)` for the range `[pos, want)` looks like:
    the three parts partition the line (with the newline exactly if flagged), the annotated part starts at `pos`, is
    not empty unless the line ends there, and ends at `want`, cut off at the end of the line and extended to the next
    code point boundary, or to the entire newline. -/
structure Spec.Annotates (e : Option Enc) (s : List Nat) (lb pos le ne want : Nat) (a : Ann) : Prop where
  before : a.before = (lb, pos)
  begin_ : a.annotated.1 = pos
  contiguous : a.after.1 = a.annotated.2
  inLine : a.annotatedNewline = false → a.annotated.2 ≤ le ∧ a.after.2 = le
  newline : a.annotatedNewline = true → le < ne ∧ a.annotated.2 = ne ∧ a.after = (ne, ne)
  nonempty : pos < a.annotated.2 ∨ (pos = ne ∧ a.annotated.2 = ne)
  covers : min want ne ≤ a.annotated.2
  noMore : a.annotatedNewline = false → a.annotated.2 = min want ne ∨
    (min want ne < a.annotated.2 ∧ a.roundedEnd = true ∧
      ∀ i u : Nat, min want ne ≤ i → i < a.annotated.2 → s[i]? = some u → Spec.IsCont e u)
  boundary : a.annotatedNewline = false → a.annotated.2 = ne ∨ ∃ u, s[a.annotated.2]? = some u ∧ ¬ Spec.IsCont e u
  flagged : a.annotatedNewline = true ↔ le < a.annotated.2

theorem annotateCore_spec (e : Option Enc) (s : List Nat) (trunc : Bool) (lb pos le ne want end_ : Nat)
    (h1 : lb ≤ pos) (h2 : pos ≤ le) (h3 : le ≤ ne) (h4 : ne ≤ s.length) (h5 : end_ = min want ne)
    (h6 : pos < want) :
    ∃ a, annotateCore e s trunc lb le ne pos end_ = some a ∧ a.truncatedMultiline = trunc ∧
      Spec.Annotates e s lb pos le ne want a := by
  obtain ⟨r, b1, b2, b3, b4, b5⟩ := boundary_spec e s ne h4 _ end_ rfl (by omega)
  unfold annotateCore
  rw [b1]
  simp only
  rw [minRangeEnd_of (by omega) (by omega)]
  simp only
  by_cases hle : r ≤ le
  · rw [if_pos (by omega)]
    refine ⟨_, rfl, rfl, rfl, rfl, rfl, by simp [hle], by simp, ?_, by simp; omega, ?_, ?_, by simp; omega⟩
    · simp only; omega
    · intro _
      simp only
      rcases Nat.eq_or_lt_of_le b2 with h | h
      · left; omega
      · right
        refine ⟨by omega, by simp; omega, fun i u hi1 hi2 hu => (isCont_iff e u).1 (b4 i u (by omega) hi2 hu)⟩
    · intro _
      simp only
      rcases b5 with h | ⟨u, hu1, hu2⟩
      · exact .inl h
      · right; exact ⟨u, hu1, fun hc => by rw [(isCont_iff e u).2 hc] at hu2; cases hu2⟩
  · rw [if_neg (by omega)]
    refine ⟨_, rfl, rfl, rfl, rfl, rfl, by simp, by simp; omega, by simp; omega, by simp; omega, by simp, by simp, ?_⟩
    simp; omega

theorem loc_le (c : Counting) (eof : Option Nat) (p : Nat) (l : Loc) : ∀ (N pos : Nat) (s : List Nat) (lb ln cn idx : Nat),
    s.length = N → c.locLoop eof p pos s lb ln pos cn idx = some l → l.columnBegin ≤ p := by
  intro N
  induction N using Nat.strongRecOn with
  | _ N ih =>
    intro pos s lb ln cn idx hN h
    rw [Counting.locLoop] at h
    split at h
    · cases h; simp only; omega
    split at h
    · cases h
    split at h
    · cases h
    · split at h
      · cases h
      rename_i hm
      have := minRangeEnd_eq hm
      split at h
      · cases h; simp only; omega
      split at h
      · exact ih _ (by simp; omega) _ _ _ _ _ _ rfl h
      · cases h
    · split at h
      · cases h
      rename_i hm
      have := minRangeEnd_eq hm
      split at h
      · cases h; simp only; omega
      split at h
      · exact ih _ (by simp; omega) _ _ _ _ _ _ rfl h
      · cases h

/-- Bounds of the line of a location. -/
theorem loc_line_bounds (c : Counting) (eof : Option Nat) (s : List Nat) (hc : c.Ok eof s) (a : Nat × Nat) (p : Nat)
    (l : Loc) (h : getLocation c eof s p a = some l) (hp : p ≤ s.length) :
    ∃ le ne, getLine c eof s l.lineBegin = some (le, ne) ∧ Spec.LineEnd c eof s l.lineBegin le ne ∧
      l.lineBegin ≤ l.columnBegin ∧ l.columnBegin ≤ le ∧ le ≤ ne ∧ ne ≤ s.length := by
  obtain ⟨g1, g2⟩ := loc_in_line c eof s p l a h
  have hlb := loc_le c eof p l _ _ _ _ _ _ _ rfl h
  obtain ⟨le, ne, h1, h2⟩ := C24_line c eof s hc l.lineBegin (by omega)
  refine ⟨le, ne, h1, h2, g1, g2 le ne h1, ?_⟩
  cases c with
  | byte w => simp only [Spec.LineEnd] at h2; omega
  | unit => exact ⟨h2.2.1, h2.2.2.1⟩
  | cp e => exact ⟨h2.2.1, h2.2.2.1⟩

/-- C24: the annotation of `[location, end)` partitions the line; an empty range is extended by one unit or to the
    newline, a range over several lines is cut off and flagged. -/
theorem C24_annotation_end (c : Counting) (eof : Option Nat) (e : Option Enc) (s : List Nat) (hc : c.Ok eof s)
    (anchor : Nat × Nat) (p : Nat) (l : Loc) (h : getLocation c eof s p anchor = some l) (hp : p ≤ s.length)
    (end_ : Nat) (hend : l.columnBegin ≤ end_) :
    ∃ le ne a, Spec.LineEnd c eof s l.lineBegin le ne ∧ annotateEnd c eof e s l end_ = some a ∧
      Spec.Annotates e s l.lineBegin l.columnBegin le ne (max end_ (l.columnBegin + 1)) a ∧
      (a.truncatedMultiline = true ↔ ne < end_ ∧ l.columnBegin < end_) := by
  obtain ⟨le, ne, h1, h2, h3, h4, h5, h6⟩ := loc_line_bounds c eof s hc anchor p l h hp
  unfold annotateEnd
  rw [h1]
  simp only
  by_cases heq : l.columnBegin = end_
  · rw [if_pos heq]
    by_cases hle : end_ = le
    · rw [if_pos hle]
      -- the annotation covers the newline
      by_cases hne : le = ne
      · obtain ⟨a, ha, ht, hs⟩ := annotateCore_spec e s false l.lineBegin l.columnBegin le ne (l.columnBegin + 1) ne h3 h4 h5 h6 (by omega) (by omega)
        refine ⟨le, ne, a, h2, ha, ?_, by rw [ht]; simp; omega⟩
        rwa [show max end_ (l.columnBegin + 1) = l.columnBegin + 1 by omega]
      · obtain ⟨a, ha, ht, hs⟩ := annotateCore_spec e s false l.lineBegin l.columnBegin le ne ne ne h3 h4 h5 h6 (by omega) (by omega)
        refine ⟨le, ne, a, h2, ha, ?_, by rw [ht]; simp; omega⟩
        obtain ⟨a1, a2, a3, a4, a5, a6, a7, a8, a9, a10⟩ := hs
        have : a.annotatedNewline = true := by
          cases hn : a.annotatedNewline with
          | true => rfl
          | false => have := a4 hn; omega
        refine ⟨a1, a2, a3, a4, a5, a6, by omega, by simp [this], a9, a10⟩
    · rw [if_neg hle, if_pos (by omega)]
      obtain ⟨a, ha, ht, hs⟩ := annotateCore_spec e s false l.lineBegin l.columnBegin le ne (l.columnBegin + 1) (end_ + 1) h3 h4 h5 h6 (by omega) (by omega)
      refine ⟨le, ne, a, h2, ha, ?_, by rw [ht]; simp; omega⟩
      rwa [show max end_ (l.columnBegin + 1) = l.columnBegin + 1 by omega]
  · rw [if_neg heq, minRangeEnd_of (by omega) (by omega)]
    simp only
    rw [show max end_ (l.columnBegin + 1) = end_ by omega]
    by_cases htr : end_ ≤ ne
    · rw [if_neg (by omega)]
      obtain ⟨a, ha, ht, hs⟩ := annotateCore_spec e s false l.lineBegin l.columnBegin le ne end_ end_ h3 h4 h5 h6 (by omega) (by omega)
      exact ⟨le, ne, a, h2, ha, hs, by rw [ht]; simp; omega⟩
    · rw [if_pos (by omega)]
      obtain ⟨a, ha, ht, hs⟩ := annotateCore_spec e s true l.lineBegin l.columnBegin le ne end_ ne h3 h4 h5 h6 (by omega) (by omega)
      exact ⟨le, ne, a, h2, ha, hs, by rw [ht]; simp; omega⟩

/-- C24: the annotation of `size` units from the location. -/
theorem C24_annotation_size (c : Counting) (eof : Option Nat) (e : Option Enc) (s : List Nat) (hc : c.Ok eof s)
    (anchor : Nat × Nat) (p : Nat) (l : Loc) (h : getLocation c eof s p anchor = some l) (hp : p ≤ s.length)
    (size : Nat) :
    ∃ le ne a, Spec.LineEnd c eof s l.lineBegin le ne ∧ annotateSize c eof e s l size = some a ∧
      Spec.Annotates e s l.lineBegin l.columnBegin le ne (l.columnBegin + max size 1) a ∧
      (a.truncatedMultiline = true ↔ ne < l.columnBegin + size) := by
  obtain ⟨le, ne, h1, h2, h3, h4, h5, h6⟩ := loc_line_bounds c eof s hc anchor p l h hp
  unfold annotateSize
  rw [h1]
  simp only
  have hr : (if size = 0 then 1 else size) = max size 1 := by split <;> omega
  rw [hr]
  have he : (if ne - l.columnBegin < max size 1 then ne else l.columnBegin + max size 1) = min (l.columnBegin + max size 1) ne := by
    split <;> omega
  rw [he]
  obtain ⟨a, ha, ht, hs⟩ := annotateCore_spec e s (decide (min (l.columnBegin + max size 1) ne - l.columnBegin < size)) l.lineBegin l.columnBegin le ne (l.columnBegin + max size 1) _ h3 h4 h5 h6 rfl (by omega)
  exact ⟨le, ne, a, h2, ha, hs, by rw [ht]; simp only [decide_eq_true_eq]; omega⟩

/-! ## Examples -/

/-- "ab\r\nc\u00e9d\nx" in UTF-8. -/
def exampleText : List Nat := [0x61, 0x62, 0x0D, 0x0A, 0x63, 0xC3, 0xA9, 0x64, 0x0A, 0x78]

example : getLocation .unit (some 0xFF) exampleText 3 startAnchor = some ⟨0, 1, 2, 3⟩ ∧
    getLocation .unit (some 0xFF) exampleText 4 startAnchor = some ⟨4, 2, 4, 1⟩ ∧
    getLocation (.cp .utf8) (some 0xFF) exampleText 7 startAnchor = some ⟨4, 2, 7, 3⟩ ∧
    getLocation (.cp .utf8) (some 0xFF) exampleText 6 startAnchor = some ⟨4, 2, 5, 2⟩ ∧
    getLocation .unit (some 0xFF) exampleText 10 startAnchor = some ⟨9, 3, 10, 2⟩ ∧
    getLocation .unit (some 0xFF) exampleText 10 (4, 2) = some ⟨9, 3, 10, 2⟩ := by decide +kernel

example : annotateEnd .unit (some 0xFF) (some .utf8) exampleText ⟨4, 2, 4, 1⟩ 6 =
      some ⟨(4, 4), (4, 7), (7, 8), false, false, true⟩ ∧
    annotateEnd .unit (some 0xFF) (some .utf8) exampleText ⟨4, 2, 7, 4⟩ 10 =
      some ⟨(4, 7), (7, 9), (9, 9), true, true, false⟩ ∧
    annotateSize .unit (some 0xFF) (some .utf8) exampleText ⟨0, 1, 2, 3⟩ 0 =
      some ⟨(0, 2), (2, 4), (4, 4), false, true, false⟩ := by decide +kernel

example : (Counting.cp .utf8).Ok (some 0xFF) exampleText ∧ (Counting.byte 16).Ok none [1, 2, 3] :=
  ⟨⟨by decide, by decide, by unfold Units; decide⟩, ⟨by decide, rfl⟩⟩

end Verif
