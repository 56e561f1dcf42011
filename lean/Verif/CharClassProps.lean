import Verif.CharClass
import Verif.CodePointProps

/-!
Properties C08 (character class algebra) and C09 (compressed ASCII tables).
-/

namespace Verif

/-! ## C09 -/

namespace AsciiSet

theorem foldl_insert (l : List Nat) (s : AsciiSet) (i : Nat) :
    l.foldl insert s i = (decide (i ∈ l) || s i) := by
  induction l generalizing s with
  | nil => simp
  | cons c l ih =>
    rw [List.foldl_cons, ih]
    simp only [insert, List.mem_cons]
    by_cases h : i = c <;> simp [h]

theorem foldl_remove (l : List Nat) (s : AsciiSet) (i : Nat) :
    l.foldl (fun s c => fun i => if i = c then false else s i) s i = (!decide (i ∈ l) && s i) := by
  induction l generalizing s with
  | nil => simp
  | cons c l ih =>
    rw [List.foldl_cons, ih]
    simp only [List.mem_cons]
    by_cases h : i = c <;> simp [h]

theorem mem_visit (s : AsciiSet) (i : Nat) : i ∈ s.visit ↔ i < 128 ∧ s i = true := by
  simp [visit]

/-- The ranges and pending range together cover exactly the visited characters. -/
def covered (st : RangeState) (c : Nat) : Prop :=
  (∃ p ∈ st.out, p.1 ≤ c ∧ c ≤ p.2) ∨ (∃ r, st.cur = some r ∧ r.1 ≤ c ∧ c ≤ r.2)

theorem covered_step (st : RangeState) (x : Nat)
    (hwf : ∀ b l, st.cur = some (b, l) → b ≤ l) (c : Nat) :
    covered (visitRangeStep st x) c ↔ covered st c ∨ c = x := by
  obtain ⟨cur, out⟩ := st
  cases cur with
  | none =>
    have : (x ≤ c ∧ c ≤ x) ↔ c = x := by omega
    simp [visitRangeStep, covered, this]
  | some p =>
    obtain ⟨b, l⟩ := p
    have := hwf b l rfl
    by_cases e : l + 1 = x
    · have h1 : (b ≤ c ∧ c ≤ x) ↔ ((b ≤ c ∧ c ≤ l) ∨ c = x) := by omega
      simp only [visitRangeStep, covered, e, if_true, Option.some.injEq, exists_eq_left', h1, or_assoc]
    · have h1 : (x ≤ c ∧ c ≤ x) ↔ c = x := by omega
      simp only [visitRangeStep, covered, e, if_false, Option.some.injEq, exists_eq_left', h1,
        List.mem_append, List.mem_singleton, or_and_right, exists_or, exists_eq_left]

theorem step_wf (st : RangeState) (x : Nat) (hwf : ∀ b l, st.cur = some (b, l) → b ≤ l ∧ l < x) :
    ∀ b l, (visitRangeStep st x).cur = some (b, l) → b ≤ l ∧ l = x := by
  unfold visitRangeStep
  cases h : st.cur with
  | none => simp
  | some p =>
    obtain ⟨b, l⟩ := p
    have := hwf b l h
    simp only
    split <;> simp <;> omega

theorem covered_foldl (l : List Nat) (hs : l.Pairwise (· < ·)) (st : RangeState)
    (hwf : ∀ b e, st.cur = some (b, e) → b ≤ e ∧ ∀ x ∈ l, e < x) (c : Nat) :
    covered (l.foldl visitRangeStep st) c ↔ covered st c ∨ c ∈ l := by
  induction l generalizing st with
  | nil => simp
  | cons x l ih =>
    rw [List.pairwise_cons] at hs
    rw [List.foldl_cons, ih hs.2, covered_step _ _ (fun b e h => (hwf b e h).1)]
    · simp only [List.mem_cons, or_assoc]
    · intro b e h
      have := step_wf st x (fun b l h => ⟨(hwf b l h).1, (hwf b l h).2 x (by simp)⟩) b e h
      refine ⟨this.1, ?_⟩
      intro y hy
      have := hs.1 y hy; omega

/-- The calls of `visit_range` cover exactly the contained characters. -/
theorem visitRange_cover (s : AsciiSet) (c : Nat) :
    (∃ p ∈ s.visitRange, p.1 ≤ c ∧ c ≤ p.2) ↔ c < 128 ∧ s c = true := by
  have hp : s.visit.Pairwise (· < ·) := by
    unfold visit; exact List.Pairwise.filter _ List.pairwise_lt_range
  have := covered_foldl s.visit hp ⟨none, []⟩ (by simp) c
  rw [mem_visit] at this
  simp only [covered, List.not_mem_nil, false_and, exists_false, reduceCtorEq, false_or] at this
  rw [← this]
  unfold visitRange
  simp only
  generalize s.visit.foldl visitRangeStep ⟨none, []⟩ = st
  cases h : st.cur with
  | none => simp [h]
  | some p =>
    obtain ⟨b, l⟩ := p
    simp only [List.mem_append, List.mem_singleton]
    constructor
    · rintro ⟨p, hp | hp, h1⟩
      · exact .inl ⟨p, hp, h1⟩
      · subst hp; exact .inr ⟨_, rfl, h1⟩
    · rintro (⟨p, hp, h1⟩ | ⟨r, he, h1⟩)
      · exact ⟨p, .inl hp, h1⟩
      · cases he; exact ⟨(b, l), .inr rfl, h1⟩

end AsciiSet

/-- C09: the compressed table matches a code unit exactly if the set contains it (in particular no
    unit outside of ASCII, and no EOF value). -/
theorem C09_compressed_exact (s : AsciiSet) (u : Nat) :
    (compressAsciiSet s).matches u = true ↔ u < 128 ∧ s u = true := by
  rw [← AsciiSet.visitRange_cover]
  unfold compressAsciiSet
  have gen : ∀ (l : List (Nat × Nat)) (r : CompressedSet),
      (l.foldl (fun (r : CompressedSet) p =>
        if p.1 ≠ p.2 then ⟨r.ranges ++ [p], r.singles⟩ else ⟨r.ranges, r.singles ++ [p.1]⟩) r).matches u
      = true ↔ r.matches u = true ∨ ∃ p ∈ l, p.1 ≤ u ∧ u ≤ p.2 := by
    intro l
    induction l with
    | nil => intro r; simp
    | cons p l ih =>
      intro r
      rw [List.foldl_cons, ih]
      simp only [List.mem_cons, exists_eq_or_imp, ← or_assoc]
      apply or_congr_left
      split
      · simp [CompressedSet.matches]
        constructor
        · rintro ((h | h) | h)
          · exact .inl (.inl h)
          · exact .inr h
          · exact .inl (.inr h)
        · rintro ((h | h) | h)
          · exact .inl (.inl h)
          · exact .inr h
          · exact .inl (.inr h)
      · rename_i h
        simp [CompressedSet.matches]
        constructor
        · rintro (h | (h | h))
          · exact .inl (.inl h)
          · exact .inl (.inr h)
          · exact .inr (by omega)
        · rintro ((h | h) | h)
          · exact .inl h
          · exact .inr (.inl h)
          · exact .inr (.inr (by omega))
  rw [gen]
  simp [CompressedSet.matches]

example : (compressAsciiSet (((AsciiSet.empty.insertRange 0x30 0x39).insert 0x5F).insertRange
    0x61 0x62)).ranges = [(0x30, 0x39), (0x61, 0x62)] ∧
    (compressAsciiSet ((AsciiSet.empty.insertRange 0x30 0x39).insert 0x5F)).singles = [0x5F] := by
  decide +kernel

/-! ## C08 -/

namespace CC

/-- Specification: the set of code points a class expression denotes. -/
def denote : CC → Nat → Prop
  | leaf s f, v => (v < 128 ∧ s v = true) ∨ (∃ g, f = some g ∧ g v = true)
  | alt a b, v => denote a v ∨ denote b v
  | comp c, v => ¬ denote c v
  | minus s m, v => denote s v ∧ ¬ denote m v
  | and a b, v => denote a v ∧ denote b v

/-- Law of the leaves: for ASCII values the code point predicate does not contradict the table.
    (True for all leaves of the library; needed because the predicate is only consulted after the
    table.) -/
def Ok : CC → Prop
  | leaf s f => ∀ g, f = some g → ∀ v, v < 128 → g v = true → s v = true
  | alt a b | minus a b | and a b => Ok a ∧ Ok b
  | comp c => Ok c

/-- `char_class_match_cp` as a Boolean. -/
def cpB (c : CC) (v : Nat) : Bool := match c.matchCp with | none => false | some f => f v

theorem ascii_alt (a b : CC) (v : Nat) (hv : v < 128) :
    (CC.alt a b).ascii v = (a.ascii v || b.ascii v) := by
  simp only [ascii, AsciiSet.insertSet, AsciiSet.foldl_insert, AsciiSet.empty, Bool.or_false]
  simp only [AsciiSet.mem_visit, hv, true_and]
  cases a.ascii v <;> cases b.ascii v <;> rfl

theorem ascii_comp (c : CC) (v : Nat) (hv : v < 128) : (CC.comp c).ascii v = !c.ascii v := by
  simp only [ascii, AsciiSet.removeSet, AsciiSet.insertRange, AsciiSet.foldl_insert,
    AsciiSet.foldl_remove, AsciiSet.empty, Bool.or_false, AsciiSet.mem_visit, hv, true_and,
    List.mem_range'_1]
  have : (0 ≤ v ∧ v < 0 + (0x7F + 1 - 0)) := by omega
  simp [this]

theorem ascii_minus (a b : CC) (v : Nat) (hv : v < 128) :
    (CC.minus a b).ascii v = (a.ascii v && !b.ascii v) := by
  simp only [ascii, AsciiSet.removeSet, AsciiSet.foldl_remove, AsciiSet.mem_visit, hv, true_and]
  cases a.ascii v <;> cases b.ascii v <;> rfl

theorem ascii_and (a b : CC) (v : Nat) (hv : v < 128) :
    (CC.and a b).ascii v = (a.ascii v && b.ascii v) := by
  have gen : ∀ (l : List Nat) (s : AsciiSet),
      l.foldl (fun (s : AsciiSet) c => if a.ascii c && b.ascii c then s.insert c else s) s v
        = (s v || (decide (v ∈ l) && (a.ascii v && b.ascii v))) := by
    intro l
    induction l with
    | nil => simp
    | cons x l ih =>
      intro s
      rw [List.foldl_cons, ih]
      by_cases h : v = x
      · subst h
        cases ha : a.ascii v <;> cases hb : b.ascii v <;> simp [AsciiSet.insert]
      · have : (decide (v ∈ x :: l)) = decide (v ∈ l) := by simp [h]
        rw [this]
        split
        · simp [AsciiSet.insert, h]
        · rfl
  simp only [ascii, gen, AsciiSet.empty, Bool.false_or, List.mem_range'_1]
  have : (0 ≤ v ∧ v < 0 + 0x80) := by omega
  simp [this]

/-- The law of the leaves carries over to every class expression. -/
theorem ok_cp (c : CC) (h : c.Ok) (v : Nat) (hv : v < 128) (hc : c.cpB v = true) :
    c.ascii v = true := by
  induction c with
  | leaf s f =>
    cases f with
    | none => simp [cpB, matchCp] at hc
    | some g => exact h g rfl v hv hc
  | alt a b iha ihb =>
    rw [ascii_alt a b v hv]
    simp only [cpB, matchCp] at hc iha ihb
    cases ha : a.matchCp <;> cases hb : b.matchCp <;> simp [ha, hb] at hc iha ihb
    · simp [ihb h.2 hc]
    · simp [iha h.1 hc]
    · rcases hc with hc | hc
      · simp [iha h.1 hc]
      · simp [ihb h.2 hc]
  | comp c ih =>
    simp only [cpB, matchCp] at hc
    rw [if_pos (by omega)] at hc
    simp at hc
  | minus a b iha ihb =>
    simp only [cpB, matchCp] at hc
    cases ha : a.matchCp <;> cases hb : b.matchCp <;> simp [ha, hb] at hc <;> omega
  | and a b iha ihb =>
    rw [ascii_and a b v hv]
    simp only [cpB, matchCp] at hc iha ihb
    cases ha : a.matchCp <;> cases hb : b.matchCp <;> simp [ha, hb] at hc iha ihb
    simp [iha h.1 hc.1, ihb h.2 hc.2]

/-- Membership as decided by the code: the table for ASCII values, otherwise the predicate. -/
def accepts (c : CC) (v : Nat) : Bool := (decide (v < 128) && c.ascii v) || c.cpB v

/-- C08: union, complement, difference and intersection of classes decide exactly the set-theoretic
    combination of the leaves. -/
theorem C08_class_algebra (c : CC) (h : c.Ok) (v : Nat) : c.accepts v = true ↔ c.denote v := by
  by_cases hv : v < 128
  · -- ASCII: only the table matters
    have key : ∀ c : CC, c.Ok → (c.accepts v = c.ascii v) := by
      intro c h
      unfold accepts
      simp only [hv, decide_true, Bool.true_and]
      cases hc : c.cpB v
      · simp
      · simp [ok_cp c h v hv hc]
    rw [key c h]
    induction c with
    | leaf s f =>
      simp only [ascii, denote, hv, true_and]
      constructor
      · exact .inl
      · rintro (h' | ⟨g, hg, h'⟩)
        · exact h'
        · exact h g hg v hv h'
    | alt a b iha ihb =>
      rw [ascii_alt a b v hv]; simp only [denote, ← iha h.1, ← ihb h.2, Bool.or_eq_true]
    | comp c ih =>
      rw [ascii_comp c v hv]; simp only [denote, ← ih h]; simp
    | minus a b iha ihb =>
      rw [ascii_minus a b v hv]; simp only [denote, ← iha h.1, ← ihb h.2]; simp
    | and a b iha ihb =>
      rw [ascii_and a b v hv]; simp only [denote, ← iha h.1, ← ihb h.2]; simp
  · -- not ASCII: only the predicate matters
    unfold accepts
    simp only [hv, decide_false, Bool.false_and, Bool.false_or]
    have hgt : v > 0x7F := by omega
    have hle : ¬ v ≤ 0x7F := by omega
    clear h
    induction c with
    | leaf s f =>
      simp only [cpB, matchCp, denote, hv, false_and, false_or]
      cases f <;> simp
    | alt a b iha ihb =>
      simp only [denote, ← iha, ← ihb, cpB, matchCp]
      cases a.matchCp <;> cases b.matchCp <;> simp
    | comp c ih =>
      simp only [denote, ← ih, cpB, matchCp]
      cases c.matchCp <;> simp [hle]
    | minus a b iha ihb =>
      simp only [denote, ← iha, ← ihb, cpB, matchCp]
      cases a.matchCp <;> cases b.matchCp <;> simp [hgt]
    | and a b iha ihb =>
      simp only [denote, ← iha, ← ihb, cpB, matchCp]
      cases a.matchCp <;> cases b.matchCp <;> simp

/-- C08, token level, UTF-8: matching a class consumes exactly the encoding of one code point that
    belongs to the class, and succeeds whenever the input starts with one. -/
theorem C08_class_token_utf8 (c : CC) (h : c.Ok) (s : List Nat) (hs : Units 256 s) (n : Nat) :
    c.tryParse .utf8 s = some n ↔
      ∃ v, Spec.IsScalar v ∧ c.denote v ∧ Spec.utf8 v <+: s ∧ n = (Spec.utf8 v).length := by
  have ascii_enc : ∀ v, v < 128 → Spec.utf8 v = [v] := by
    intro v hv; unfold Spec.utf8; rw [if_pos (by omega)]
  unfold tryParse
  simp only
  split
  · -- table
    rename_i htab
    match s, htab, hs with
    | u :: t, htab, hs =>
      simp only [tableMatch, C09_compressed_exact] at htab
      have hden : c.denote u := by
        rw [← C08_class_algebra c h]
        simp [accepts, htab.1, htab.2]
      have hsc : Spec.IsScalar u := ⟨by omega, by omega⟩
      constructor
      · intro hn
        refine ⟨u, hsc, hden, ?_, ?_⟩
        · rw [ascii_enc u htab.1]; exact ⟨t, rfl⟩
        · rw [ascii_enc u htab.1]; simpa using hn.symm
      · rintro ⟨v, hv1, hv2, hv3, rfl⟩
        have : Spec.utf8 u <+: u :: t := by rw [ascii_enc u htab.1]; exact ⟨t, rfl⟩
        have : v = u := by
          rcases List.prefix_or_prefix_of_prefix hv3 this with hp | hp
          · exact C02_utf8_unique v u hv1 hsc hp
          · exact (C02_utf8_unique u v hsc hv1 hp).symm
        subst this
        rw [ascii_enc v htab.1]; rfl
  · rename_i htab
    -- the first unit is not in the table
    have hnot : ∀ v, Spec.utf8 v <+: s → v < 128 → ¬ c.ascii v = true := by
      intro v hp hv hc
      rw [ascii_enc v hv] at hp
      obtain ⟨t, rfl⟩ := hp
      exact htab ((C09_compressed_exact _ _).2 ⟨hv, hc⟩)
    have hparse : ∀ v, Spec.IsScalar v → Spec.utf8 v <+: s →
        parseCp .utf8 s = ⟨v, .success, (Spec.utf8 v).length⟩ := by
      rintro v hv ⟨t, rfl⟩
      exact specUtf8_parse hv (fun u hu => hs u (List.mem_append_right _ hu))
    have hback : (parseCp .utf8 s).error = .success →
        Spec.IsScalar (parseCp .utf8 s).cp ∧ Spec.utf8 (parseCp .utf8 s).cp <+: s ∧
        (parseCp .utf8 s).len = (Spec.utf8 (parseCp .utf8 s).cp).length := by
      intro he
      obtain ⟨h1, h2, h3⟩ := C02_utf8_decode_sound s hs he
      refine ⟨h1, h3 ▸ List.take_prefix _ _, ?_⟩
      change (parseUtf8 s).len = (Spec.utf8 (parseUtf8 s).cp).length
      rw [← h3, List.length_take]; omega
    have hacc : ∀ v, Spec.utf8 v <+: s → (c.denote v ↔ c.cpB v = true) := by
      intro v hp
      rw [← C08_class_algebra c h]
      unfold accepts
      by_cases hv : v < 128
      · simp [hv, hnot v hp hv]
      · simp [hv]
    constructor
    · intro hn
      cases hf : c.matchCp with
      | none => rw [hf] at hn; simp at hn
      | some f =>
        rw [hf] at hn
        simp only at hn
        split at hn
        · simp at hn
        · rename_i he
          simp only [ne_eq, Decidable.not_not] at he
          split at hn
          · simp at hn
          · rename_i hfc
            obtain ⟨h1, h2, h3⟩ := hback he
            refine ⟨_, h1, (hacc _ h2).2 ?_, h2, ?_⟩
            · simp only [cpB, hf]; simpa using hfc
            · rw [← h3]; simpa using hn.symm
    · rintro ⟨v, h1, h2, h3, rfl⟩
      have hc := (hacc v h3).1 h2
      have hp := hparse v h1 h3
      cases hf : c.matchCp with
      | none => simp [cpB, hf] at hc
      | some f =>
        simp only [cpB, hf] at hc
        simp [hp, hc]

theorem parseAscii_cons (u : Nat) (t : List Nat) : parseAscii (u :: t) =
    if u = 0xFF then ⟨0, .eof, 0⟩
    else if u ≤ 0x7F then ⟨u, .success, 1⟩ else ⟨u, .outOfRange, 1⟩ := rfl

theorem parseUtf32_cons (u : Nat) (t : List Nat) : parseUtf32 (u :: t) =
    if u = 0xFFFFFFFF then ⟨0, .eof, 0⟩
    else if u > 0x10FFFF then ⟨u, .outOfRange, 1⟩
    else if 0xD800 ≤ u ∧ u ≤ 0xDFFF then ⟨u, .surrogate, 1⟩
    else ⟨u, .success, 1⟩ := rfl

/-- An ASCII unit decodes to itself in every Unicode encoding. -/
theorem parseCp_ascii (e : Enc) (u : Nat) (t : List Nat) (hs : Units e.bound (u :: t)) (hu : u < 128) :
    parseCp e (u :: t) = ⟨u, .success, 1⟩ := by
  cases e with
  | ascii =>
    simp only [parseCp, parseAscii_cons]
    rw [if_neg (by omega), if_pos (by omega)]
  | utf8 =>
    have := @specUtf8_parse u ⟨by omega, by omega⟩ t (fun x hx => hs x (List.mem_cons_of_mem _ hx))
    have e : Spec.utf8 u = [u] := by unfold Spec.utf8; rw [if_pos (by omega)]
    rw [e] at this; exact this
  | utf16 => exact parseUtf16_single u t (by omega) (by omega)
  | utf32 =>
    simp only [parseCp, parseUtf32_cons]
    rw [if_neg (by omega), if_neg (by omega), if_neg (by omega)]

/-- Only the ASCII unit itself decodes to an ASCII code point. -/
theorem parseCp_ascii_inv (e : Enc) (s : List Nat) (hs : Units e.bound s)
    (h : (parseCp e s).error = .success) (hc : (parseCp e s).cp < 128) :
    ∃ t, s = (parseCp e s).cp :: t := by
  cases e with
  | ascii =>
    cases s with
    | nil => simp [parseCp, parseAscii, peek8] at h
    | cons u t =>
      simp only [parseCp, parseAscii_cons] at h ⊢
      refine ⟨t, ?_⟩
      split at h
      · simp at h
      · rename_i h1
        rw [if_neg h1]
        split <;> rfl
  | utf8 =>
    obtain ⟨h1, h2, h3⟩ := C02_utf8_decode_sound s hs h
    have e : Spec.utf8 (parseUtf8 s).cp = [(parseUtf8 s).cp] := by
      unfold Spec.utf8; rw [if_pos (by simp only [parseCp] at hc; omega)]
    rw [e] at h3
    refine ⟨s.drop (parseUtf8 s).len, ?_⟩
    conv => lhs; rw [← List.take_append_drop (parseUtf8 s).len s, h3]
    rfl
  | utf16 =>
    match s, hs with
    | [], _ => simp [parseCp, parseUtf16] at h
    | u :: t, hs =>
      have hu : u < 65536 := hs u (by simp)
      by_cases c : 0xD800 ≤ u ∧ u ≤ 0xDFFF
      · exfalso
        simp only [parseCp, parseUtf16, and_FC00 u hu] at h hc
        split at h
        · rename_i h1
          rw [if_pos h1] at hc
          cases t with
          | nil => simp at h
          | cons l t =>
            have hl : l < 65536 := hs l (by simp)
            simp only [and_FC00 l hl] at h hc
            split at h
            · simp at h
            · rename_i h2
              rw [if_neg h2] at hc
              simp only [or_10000] at hc
              split at hc <;> omega
        · rw [if_pos (by omega)] at h; simp at h
      · refine ⟨t, ?_⟩
        simp only [parseCp, parseUtf16_single u t hu c]
  | utf32 =>
    cases s with
    | nil => simp [parseCp, parseUtf32] at h
    | cons u t =>
      refine ⟨t, ?_⟩
      simp only [parseCp, parseUtf32_cons] at h ⊢
      split at h
      · simp at h
      · split at h
        · simp at h
        · split at h
          · simp at h
          · rename_i a b c; rw [if_neg a, if_neg b, if_neg c]

/-- C08, token level, any Unicode encoding: a class matches exactly when the next code point is
    well-formed and belongs to the class, and it consumes exactly that code point. -/
theorem C08_class_token (e : Enc) (c : CC) (h : c.Ok) (s : List Nat) (hs : Units e.bound s) (n : Nat) :
    c.tryParse e s = some n ↔
      (parseCp e s).error = .success ∧ c.denote (parseCp e s).cp ∧ n = (parseCp e s).len := by
  unfold tryParse
  split
  · rename_i htab
    match s, htab, hs with
    | u :: t, htab, hs =>
      simp only [tableMatch, C09_compressed_exact] at htab
      have hden : c.denote u := by
        rw [← C08_class_algebra c h]
        simp [accepts, htab.1, htab.2]
      rw [parseCp_ascii e u t hs htab.1]
      simp [hden, eq_comm]
  · rename_i htab
    have hacc : (parseCp e s).error = .success →
        (c.denote (parseCp e s).cp ↔ c.cpB (parseCp e s).cp = true) := by
      intro he
      rw [← C08_class_algebra c h]
      unfold accepts
      by_cases hv : (parseCp e s).cp < 128
      · have : ¬ c.ascii (parseCp e s).cp = true := by
          obtain ⟨t, ht⟩ := parseCp_ascii_inv e s hs he hv
          intro hc
          apply htab
          rw [ht]
          exact (C09_compressed_exact _ _).2 ⟨hv, hc⟩
        simp [this]
      · simp [hv]
    by_cases he : (parseCp e s).error = .success
    · rw [hacc he]
      unfold cpB
      cases hf : c.matchCp with
      | none => simp
      | some f =>
        simp only [he, ne_eq, not_true_eq_false, if_false, true_and]
        cases f (parseCp e s).cp <;> simp [eq_comm]
    · cases hf : c.matchCp <;> simp [he]

/-- C08, token level, single byte encodings: one unit is consumed iff its value is in the class. -/
theorem C08_class_token_byte (c : CC) (h : c.Ok) (s : List Nat) (n : Nat) :
    c.tryParseByte s = some n ↔ n = 1 ∧ ∃ u t, s = u :: t ∧ c.denote u := by
  cases s with
  | nil => simp [tryParseByte]
  | cons u t =>
    have : (c.tryParseByte (u :: t) = some n) ↔ n = 1 ∧ c.accepts u = true := by
      simp only [tryParseByte, accepts, cpB]
      have h9 := C09_compressed_exact c.ascii u
      cases hm : (compressAsciiSet c.ascii).matches u
      · have hn : ¬ (u < 128 ∧ c.ascii u = true) := fun x => by simp [h9.2 x] at hm
        have hb : (decide (u < 128) && c.ascii u) = false := by
          simpa using hn
        rw [hb]
        cases c.matchCp with
        | none => simp
        | some f =>
          simp only [Bool.false_or, Bool.false_eq_true, if_false]
          cases hfu : f u
          · simp
          · simp only [if_true, Option.some.injEq, and_true]; exact eq_comm
      · have := h9.1 hm
        simp [this, eq_comm]
    rw [this, C08_class_algebra c h]
    simp

/-- C08: the class of a code point, or of a byte, has exactly that value. -/
theorem C08_single (v : Nat) : (codePoint v).Ok ∧ (byte v).Ok ∧
    ∀ w, ((codePoint v).denote w ↔ w = v) ∧ ((byte v).denote w ↔ w = v) := by
  unfold codePoint byte
  by_cases hv : v ≤ 0x7F
  · simp only [hv, if_true, Ok, denote, AsciiSet.insert, AsciiSet.empty]
    refine ⟨by simp, by simp, fun w => ?_⟩
    constructor <;>
    · constructor
      · rintro (⟨-, h⟩ | ⟨g, h, -⟩)
        · simpa using h
        · simp at h
      · rintro rfl; exact .inl ⟨by omega, by simp⟩
  · simp only [hv, if_false, Ok, denote, AsciiSet.empty]
    refine ⟨?_, ?_, fun w => ?_⟩
    · rintro g h w hw hg; cases h; simp at hg; omega
    · rintro g h w hw hg; cases h; simp at hg; omega
    · simp

/-- Non-vacuity: `(unicode letter) - 'x' / U+20AC` with a consistent leaf. -/
def exampleClass : CC :=
  .alt (.minus (.leaf (AsciiSet.empty.insertRange 0x61 0x7A) (some fun v => decide (0xC0 ≤ v)))
    (codePoint 0x78)) (codePoint 0x20AC)

example : exampleClass.Ok ∧ exampleClass.tryParse .utf8 [0x78] = none ∧
    exampleClass.tryParse .utf8 [0x61] = some 1 ∧
    exampleClass.tryParse .utf8 [0xE2, 0x82, 0xAC] = some 3 ∧
    (CC.comp exampleClass).tryParse .utf8 [0x78] = some 1 := by
  refine ⟨?_, by decide +kernel, by decide +kernel, by decide +kernel, by decide +kernel⟩
  refine ⟨⟨?_, ?_⟩, ?_⟩
  · intro g hg v hv h; cases hg; simp at h; omega
  · intro g hg; simp [codePoint] at hg
  · intro g hg v hv h; cases hg; simp at h; omega

end CC
end Verif
