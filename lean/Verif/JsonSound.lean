import Verif.Json
import Verif.JsonSpec
import Verif.LangInv
import Verif.Segment
import Verif.TokensProps
import Verif.DelimitedProps
import Verif.LoopProps

/-
What the grammar of examples/json.cpp accepts is JSON.
-/

namespace Verif.Json

open Spec (Lang)
open Spec.Json

/-! ## Tokens -/

theorem lit_seg {s w : List Nat} {kind tag p n : Nat} (hw : ∀ c ∈ w, c < 128)
    (h : (litTok eof kind tag w).run (s.drop p) = (true, n)) : Seg s p (p + n) w := by
  have h1 := (lit_run (fun c hc => by have := hw c hc; simp only [eof, ne_eq, Option.some.injEq]; omega) _ _).1 h
  exact .of_prefix h1.1 h1.2

theorem lit_hit' {s w : List Nat} {kind tag : Nat} (hw : ∀ c ∈ w, c < 128) :
    ((litTok eof kind tag w).run s).1 = true ↔ w <+: s :=
  lit_hit (fun c hc => by have := hw c hc; simp only [eof, ne_eq, Option.some.injEq]; omega) s

theorem aclass_lt {a : AClass} {v : Nat} (h : a.cc.denote v) : v < 128 := ((aclass_denote a v).1 h).1

theorem space_denote (v : Nat) : (CC.alt (AClass.cc .blank) (AClass.cc .newline)).denote v ↔
    v = 0x20 ∨ v = 0x09 ∨ v = 0x0A ∨ v = 0x0D := by
  simp only [CC.denote, aclass_denote, Spec.aclass, Bool.or_eq_true, beq_iff_eq]
  omega

theorem aclass_ok' (a : AClass) : a.cc.Ok := by simp [CC.Ok, AClass.cc]

theorem space_run {s : List Nat} (hs : Units 256 s) (n : Nat) :
    space.run s = (true, n) ↔ ∃ u t, s = u :: t ∧ (u = 0x20 ∨ u = 0x09 ∨ u = 0x0A ∨ u = 0x0D) ∧ n = 1 := by
  unfold space
  rw [class_run_ascii (show CC.Ok (.alt _ _) from ⟨aclass_ok' _, aclass_ok' _⟩) (fun v h => by rw [space_denote] at h; omega) s hs]
  simp only [space_denote]

theorem digit_iff (u : Nat) : Spec.IsDigitOf .decimal u ↔ Digit u := by
  unfold Spec.IsDigitOf Spec.digit Digit
  simp only [Spec.radix, Spec.lowerHex, Spec.upperHex]
  by_cases h : 0x30 ≤ u ∧ u ≤ 0x39 ∧ u - 0x30 < 10
  · simp only [h, true_and, and_self, if_true, Option.isSome_some]
  · simp only [h, Bool.false_eq_true, false_and, if_false, Option.isSome_none, false_iff]
    omega

theorem hex_iff (u : Nat) : Spec.IsDigitOf .hex u ↔ Hex u := by
  unfold Spec.IsDigitOf Spec.digit Hex Digit
  simp only [Spec.radix, Spec.lowerHex, Spec.upperHex, true_and]
  split
  · simp; omega
  · split
    · simp; omega
    · split
      · simp; omega
      · simp; omega

/-- The value of digits. -/
theorem value_eq (us : List Nat) (h : ∀ u ∈ us, Digit u) : Spec.value .decimal (us.map Int.ofNat) = decimal us := by
  have key : ∀ (us : List Nat) (v : Nat), (∀ u ∈ us, Digit u) →
      Spec.valueFrom .decimal v (us.map Int.ofNat) = us.foldl (fun a c => a * 10 + (c - 0x30)) v := by
    intro us
    induction us with
    | nil => intro v _; rfl
    | cons u us ih =>
      intro v h
      have hu := h u (by simp)
      have hd : Spec.digitI .decimal (Int.ofNat u) = some (u - 0x30) := by
        unfold Spec.digitI Spec.digit
        rw [if_pos (by simp only [Int.ofNat_eq_natCast]; omega)]
        have : (Int.ofNat u).toNat = u := rfl
        rw [this, if_pos]
        unfold Digit at hu
        simp only [Spec.radix]
        omega
      rw [List.map_cons, valueFrom_cons_some hd, List.foldl_cons]
      exact ih _ fun x hx => h x (by simp [hx])
  exact key us 0 h

theorem traits64 : (Traits.plain int64).Ok .decimal := ⟨by decide, by decide, by decide⟩
theorem traits16 : (Traits.plain int16).Ok .decimal := ⟨by decide, by decide, by decide⟩
theorem traitsChar16 : (Traits.plain char16).Ok .hex := ⟨by decide, by decide, by decide⟩

theorem overflow64 {us : List Nat} (h : ∀ u ∈ us, Digit u) :
    overflows (boundedParse true (.plain int64) .decimal) us = false ↔ decimal us < 2 ^ 63 := by
  have := overflows_digits traits64 (us := us) fun u hu => (digit_iff u).2 (h u hu)
  rw [value_eq us h] at this
  have hm : (Traits.plain int64).max = 9223372036854775807 := rfl
  rw [hm] at this
  cases ho : overflows (boundedParse true (.plain int64) .decimal) us with
  | true => have := this.1 ho; simp; omega
  | false =>
    have : ¬ 9223372036854775807 < decimal us := fun h => by rw [this.2 h] at ho; cases ho
    simp; omega

theorem overflow16 {us : List Nat} (h : ∀ u ∈ us, Digit u) :
    overflows (boundedParse true (.plain int16) .decimal) us = false ↔ decimal us < 2 ^ 15 := by
  have := overflows_digits traits16 (us := us) fun u hu => (digit_iff u).2 (h u hu)
  rw [value_eq us h] at this
  have hm : (Traits.plain int16).max = 32767 := rfl
  rw [hm] at this
  cases ho : overflows (boundedParse true (.plain int16) .decimal) us with
  | true => have := this.1 ho; simp; omega
  | false =>
    have : ¬ 32767 < decimal us := fun h => by rw [this.2 h] at ho; cases ho
    simp; omega

/-- The digits that are matched. -/
theorem maxRun_digits {s : List Nat} {n : Nat} (h : Spec.MaxRun .decimal s n) (h0 : 0 < n) : Digits (s.take n) := by
  refine ⟨fun he => ?_, fun c hc => (digit_iff c).1 (h.all c hc)⟩
  have h1 := congrArg List.length he
  have := h.le
  rw [List.length_take, List.length_nil] at h1
  omega

/-- A quiet integer part. -/
theorem integer_sound {s : List Nat} {p m : Nat} {evs : List Ev} (h : integer.parse s p = (true, m, evs))
    (hq : ∀ ev ∈ evs, ev.isError = false) : ∃ t, Seg s p m t ∧ Int t ∧ exampleLimits.int t := by
  obtain ⟨h1, rfl, h3⟩ := int_quiet h hq
  obtain ⟨h4, -⟩ := C16_no_leading_zero .decimal (s.drop p)
  have hle := matchDigits_le .decimal (s.drop p)
  have h5 : noLeadingZero (matchDigits .decimal (s.drop p)) (s.drop p) =
      (true, (clamp (nlzTok .decimal) (s.drop p)).2, false) := by
    unfold clamp nlzTok at h1 ⊢
    simp only at h1 ⊢
    unfold noLeadingZero at h1 ⊢
    split at h1
    · cases h1
    · rename_i h6
      rw [if_neg h6]
      simp only at h1 ⊢
      rw [h1, Nat.min_eq_left hle]
  obtain ⟨h6, h7, h8⟩ := (h4 _).1 h5
  refine ⟨(s.drop p).take (clamp (nlzTok .decimal) (s.drop p)).2, .of_take h7.le, ?_, ?_⟩
  · have hd := maxRun_digits h7 h6
    generalize hn : (clamp (nlzTok .decimal) (s.drop p)).2 = n at *
    generalize s.drop p = r at *
    match r, n, h6 with
    | [], n, h6 => exact absurd (by simp) hd.1
    | u :: r, n + 1, _ =>
      rw [List.take_succ_cons] at hd ⊢
      have hu := hd.2 u (by simp)
      by_cases h9 : u = 0x30
      · subst h9
        have : n = 0 := by
          by_cases hn0 : n = 0
          · exact hn0
          · exact absurd ⟨rfl, by omega⟩ h8
        subst this
        exact .inl (by simp)
      · refine .inr ⟨u, _, rfl, ?_, hu.2, fun d hd' => hd.2 d (by simp [hd'])⟩
        have := hu.1
        omega
  · exact (overflow64 (maxRun_digits h7 h6).2).1 h3

/-- A quiet exponent. -/
theorem exponent_sound {s : List Nat} {p m : Nat} {evs : List Ev} (h : exponent.parse s p = (true, m, evs))
    (hq : ∀ ev ∈ evs, ev.isError = false) : ∃ t, Seg s p m t ∧ Digits t ∧ exampleLimits.exp t := by
  obtain ⟨h1, rfl, h3⟩ := int_quiet h hq
  have hle := matchDigits_le .decimal (s.drop p)
  rw [clamp_eq rfl hle] at h1 h3 ⊢
  obtain ⟨h4, h5⟩ := (C16_digits_maximal .decimal (s.drop p) _).1 (Prod.ext h1 rfl)
  have hd := maxRun_digits h5 h4
  exact ⟨_, .of_take hle, hd, (overflow16 hd.2).1 h3⟩

/-- A quiet code unit. -/
theorem codeUnit_sound {s : List Nat} {p m : Nat} {evs : List Ev} (h : codeUnit.parse s p = (true, m, evs))
    (hq : ∀ ev ∈ evs, ev.isError = false) : ∃ a b c d, Seg s p m [a, b, c, d] ∧ Hex a ∧ Hex b ∧ Hex c ∧ Hex d := by
  obtain ⟨h1, rfl, -⟩ := int_quiet h hq
  obtain ⟨h2, h3⟩ := C16_n_digits .hex 4 (s.drop p)
  by_cases h4 : 4 ≤ (s.drop p).length ∧ ∀ u ∈ (s.drop p).take 4, Spec.IsDigitOf .hex u
  · have e : (clamp (nDigits .hex 4) (s.drop p)).2 = 4 := by rw [clamp_eq (h2 h4) h4.1]
    rw [e]
    obtain ⟨h5, h6⟩ := h4
    have h7 := Seg.of_take h5
    generalize s.drop p = r at *
    match r, h5 with
    | a :: b :: c :: d :: r, _ =>
      simp only [List.take_succ_cons, List.take_zero] at h6 h7
      exact ⟨a, b, c, d, h7, (hex_iff _).1 (h6 a (by simp)), (hex_iff _).1 (h6 b (by simp)), (hex_iff _).1 (h6 c (by simp)),
        (hex_iff _).1 (h6 d (by simp))⟩
  · obtain ⟨n, h5, h6, -⟩ := h3 h4
    have : (nDigits .hex 4 (s.drop p)).1 = true := h1
    rw [h6] at this
    cases this

/-! ## Strings -/

theorem control_denote (v : Nat) : codePoint.denote v ↔ 0x20 ≤ v ∧ ¬ (0x7F ≤ v ∧ v ≤ 0x9F) := by
  unfold codePoint
  simp only [CC.denote]
  rw [← CC.C08_class_algebra _ (C70_classes_consistent .control)]
  have h1 := C70_ascii_classes .control v
  simp only [CC.accepts, AClass.cc, UClass.cc, UClass.ascii, CC.ascii, CC.cpB, CC.matchCp, UClass.matchCp, Bool.or_false] at h1 ⊢
  rw [h1]
  simp only [Spec.aclass, Spec.isControl, cpIsControl, Bool.or_eq_true, Bool.and_eq_true, decide_eq_true_eq, beq_iff_eq]
  omega

theorem codePoint_ok : codePoint.Ok := C70_classes_consistent .control

/-- A simple escape. -/
theorem sym_iff (s : List Nat) (n : Nat) : symLen escapedSymbols eof s = some n ↔
    n = 1 ∧ ∃ c t, s = c :: t ∧ c ∈ [0x22, 0x5C, 0x2F, 0x62, 0x66, 0x6E, 0x72, 0x74] := by
  obtain ⟨r, h1, h2, h3⟩ := C12_symbol_longest escapedSymbols.syms eof id (fun _ => rfl) (by decide) s
  unfold symLen symTry
  rw [show escapedSymbols.fold = id from rfl, h1]
  have mem : ∀ w, w ∈ escapedSymbols.syms ↔ ∃ c, w = [c] ∧ c ∈ [0x22, 0x5C, 0x2F, 0x62, 0x66, 0x6E, 0x72, 0x74] := by
    intro w
    simp only [escapedSymbols, List.mem_cons, List.not_mem_nil, or_false]
    constructor
    · rintro (rfl | rfl | rfl | rfl | rfl | rfl | rfl | rfl) <;> exact ⟨_, rfl, by decide⟩
    · rintro ⟨c, rfl, h⟩
      simpa using h
  rw [List.map_id] at h2 h3
  cases r with
  | none =>
    simp only [reduceCtorEq, false_iff]
    rintro ⟨-, c, t, rfl, hc⟩
    exact h3.1 rfl [c] ((mem _).2 ⟨c, rfl, hc⟩) ⟨t, rfl⟩
  | some x =>
    obtain ⟨i, k⟩ := x
    obtain ⟨w, h4, -, h5, rfl, -⟩ := (h2 i k).1 rfl
    obtain ⟨c, rfl, hc⟩ := (mem w).1 (List.mem_of_getElem? h4)
    obtain ⟨t, rfl⟩ := h5
    simp only [List.length_cons, List.length_nil, List.cons_append, List.nil_append, Option.some.injEq]
    constructor
    · intro h
      exact ⟨by omega, c, t, rfl, hc⟩
    · rintro ⟨rfl, _⟩
      omega

/-- An escape that is taken without an error. -/
theorem esc_sound {s : List Nat} {kind : Kind} {tag b p n m : Nat} {t : PTok} {es : List Ev}
    (h : (m, es) = escParse kind tag t [.ofRule (symRule escapedSymbols eof 9) _ rfl, .ofProd 13 (litTok eof 0 0 [0x75]) codeUnit] s b p n)
    (hq : ∀ ev ∈ es, ev.isError = false) :
    (∃ c ∈ [0x22, 0x5C, 0x2F, 0x62, 0x66, 0x6E, 0x72, 0x74], Seg s (p + n) m [c]) ∨
    ∃ a b c d, Hex a ∧ Hex b ∧ Hex c ∧ Hex d ∧ Seg s (p + n) m [0x75, a, b, c, d] := by
  have e1 : m = _ := congrArg Prod.fst h
  have e2 : es = _ := congrArg Prod.snd h
  clear h
  simp only [escParse, escBranches, EscBr.ofRule, EscBr.ofProd, symRule] at e1 e2
  cases hy : symLen escapedSymbols eof (s.drop (p + n)) with
  | some k =>
    obtain ⟨rfl, c, r, h1, h2⟩ := (sym_iff _ _).1 hy
    simp only [hy, Option.isSome_some, if_true, symParse] at e1 e2
    subst e1
    exact .inl ⟨c, h2, .cons h1⟩
  | none =>
    simp only [hy, Option.isSome_none, Bool.false_eq_true, if_false, prodBranch] at e1 e2
    split at e1
    · rename_i r h1
      split at h1
      · rename_i h2
        cases h1
        simp only [h2, if_true] at e2
        have s1 := lit_seg (s := s) (p := p + n) (by decide) (Prod.ext h2 rfl)
        have hqe : ∀ ev ∈ (codeUnit.parse s (p + n + ((litTok eof 0 0 [0x75]).run (s.drop (p + n))).2)).2.2, ev.isError = false := by
          intro ev hev
          refine hq ev ?_
          rw [e2]
          simp [hev]
        cases h3 : (codeUnit.parse s (p + n + ((litTok eof 0 0 [0x75]).run (s.drop (p + n))).2)).1 with
        | true =>
          obtain ⟨a, b, c, d, s2, ha, hb, hc, hd⟩ := codeUnit_sound (Prod.ext h3 (Prod.ext rfl rfl)) hqe
          refine .inr ⟨a, b, c, d, ha, hb, hc, hd, ?_⟩
          rw [e1]
          exact s1.append s2
        | false =>
          obtain ⟨ev, hev, hv⟩ := codeUnit.fails _ _ h3
          rw [hqe ev hev] at hv
          cases hv
      · cases h1
    · rename_i h1
      split at h1
      · cases h1
      · rename_i h2
        simp only [h2, if_false] at e2
        have := hq (.error tag p (p + n)) (by rw [e2]; simp)
        cases this

/-- The string behind its opening quote. -/
theorem loop_sound {s : List Nat} (hs : Units 256 s) (start b p q : Nat) (evs : List Ev) (h : content.loop s start b p = (true, q, evs))
    (hq : ∀ ev ∈ evs, ev.isError = false) : ∃ t, Chars exampleLimits t ∧ Seg s p q (t ++ [0x22]) := by
  rw [DelimR.loop] at h
  simp only at h
  split at h
  · rename_i h1
    cases h
    exact ⟨[], .nil, lit_seg (by decide) (Prod.ext h1 rfl)⟩
  · rename_i h1
    split at h
    · cases h
    · split at h
      · rename_i m es he
        split at h
        · rename_i h3
          obtain ⟨x, hx, h4, h5⟩ := escTry_some he
          simp only [Prod.mk.injEq] at h
          obtain ⟨h6, h7, rfl⟩ := h
          obtain ⟨t, ht, hseg⟩ := loop_sound hs start m m q (content.loop s start m m).2.2 (Prod.ext h6 (Prod.ext h7 rfl))
            fun ev hev => hq ev (List.mem_append_right _ hev)
          have hqe : ∀ ev ∈ es, ev.isError = false := fun ev hev => hq ev (List.mem_append_left _ hev)
          have ex : x = (litTok eof 0 0 [0x5C],
            [.ofRule (symRule escapedSymbols eof 9) _ rfl, .ofProd 13 (litTok eof 0 0 [0x75]) codeUnit]) := List.mem_singleton.1 hx
          subst ex
          have s1 := lit_seg (s := s) (p := p) (by decide) (Prod.ext h4 rfl)
          rcases esc_sound h5 hqe with ⟨c, hc, s2⟩ | ⟨a, b, c, d, ha, hb, hc, hd, s2⟩
          · exact ⟨0x5C :: c :: t, .escape hc ht, (s1.append s2).append hseg⟩
          · exact ⟨0x5C :: 0x75 :: a :: b :: c :: d :: t, .code ha hb hc hd ht, (s1.append s2).append hseg⟩
        · cases h
      · rename_i he
        split at h
        · rename_i h3
          split at h
          · rename_i h4
            obtain ⟨t, ht, hseg⟩ := loop_sound hs start b _ q evs h hq
            obtain ⟨h5, h6, h7⟩ := (C20_char_class .utf8 codePoint codePoint_ok (s.drop p) (hs.drop p) _).1 (Prod.ext h4 rfl)
            obtain ⟨h8, h9, h10⟩ := C02_utf8_decode_sound (s.drop p) (hs.drop p) h5
            rw [control_denote] at h6
            have e7 : (content.char (s.drop p)).2 = (parseUtf8 (s.drop p)).len := h7
            rw [e7] at hseg
            have s1 := Seg.of_take h9
            rw [h10] at s1
            have e1 : ∀ v, v < 128 → Spec.utf8 v = [v] := fun v hv => by unfold Spec.utf8; rw [if_pos hv]
            refine ⟨Spec.utf8 (parseUtf8 (s.drop p)).cp ++ t, .unescaped ⟨h6.1, fun hv => h1 ?_, fun hv => ?_, h8⟩ h6.2 ht, ?_⟩
            · rw [hv, e1 _ (by decide)] at s1
              exact (lit_hit' (by decide)).2 s1.pre
            · rw [hv, e1 _ (by decide)] at s1
              have := (lit_hit' (kind := 0) (tag := 0) (by decide)).2 s1.pre
              simp only [content, escTry, this, if_true] at he
              cases he
            · rw [List.append_assoc]
              exact s1.append hseg
          · simp only [Prod.mk.injEq] at h
            obtain ⟨-, -, rfl⟩ := h
            have := hq (.error content.charTag p p) (by simp)
            cases this
        · cases h
termination_by s.length - p

/-! ## The grammar -/

/-- The whitespace of the grammar. -/
abbrev W : Option Rule := some (.tok space)

theorem gap_sound {s : List Nat} (hs : Units 256 s) {p q : Nat} (h : Lang (env s) W .gap p q) : ∃ w, Blank w ∧ Seg s p q w := by
  refine lang_gap_tok (P := fun p q => ∃ w, Blank w ∧ Seg s p q w) h (fun p => ⟨[], nofun, .nil⟩) ?_
  rintro p n q h1 ⟨w, hw, hseg⟩
  obtain ⟨u, t, h2, h3, rfl⟩ := (space_run (hs.drop p) n).1 h1
  refine ⟨u :: w, ?_, (Seg.cons h2).append hseg⟩
  intro c hc
  rcases List.mem_cons.1 hc with rfl | hc
  · exact h3
  · exact hw c hc

/-- A literal where no whitespace is skipped. -/
theorem lit_none {s w : List Nat} {p q : Nat} (hw : ∀ c ∈ w, c < 128) (h : Lang (env s) none (.rule (lit w) false) p q) : Seg s p q w := by
  obtain ⟨n, h1, h2⟩ := lang_tok h
  rw [lang_gap_none h2]
  exact lit_seg hw h1

/-- A literal and whitespace. -/
theorem lit_ws {s w : List Nat} (hs : Units 256 s) {p q : Nat} (hw : ∀ c ∈ w, c < 128) (h : Lang (env s) W (.rule (lit w) false) p q) :
    ∃ b, Blank b ∧ Seg s p q (w ++ b) := by
  obtain ⟨n, h1, h2⟩ := lang_tok h
  obtain ⟨b, hb, h3⟩ := gap_sound hs h2
  exact ⟨b, hb, (lit_seg hw h1).append h3⟩

/-- A token production and whitespace. -/
theorem tok_prod {s : List Nat} (hs : Units 256 s) {n p q : Nat} (hn : (prods n).isTok = true) (hw : (prods n).ws = none)
    (h : Lang (env s) W (.rule (.prod n) false) p q) :
    ∃ m b, Lang (env s) none (.rule (prods n).rule false) p m ∧ Blank b ∧ Seg s m q b := by
  obtain ⟨m, h1, -, h2⟩ := lang_prod (E := env s) (d := prods n) rfl hw h
  rw [if_pos hn] at h1
  obtain ⟨b, hb, h3⟩ := gap_sound hs h2
  exact ⟨m, b, h1, hb, h3⟩

theorem string_sound {s : List Nat} (hs : Units 256 s) {p q : Nat} (h : Lang (env s) W (.rule (.prod 10) false) p q) :
    ∃ k b, Str exampleLimits k ∧ Blank b ∧ Seg s p q (k ++ b) := by
  obtain ⟨m, b, h1, hb, h2⟩ := tok_prod hs rfl rfl h
  obtain ⟨m', h3, h4⟩ := lang_wsn h1
  have := lang_gap_none h4
  subst this
  obtain ⟨l, h5, h6⟩ := lang_br h3
  have s1 := lit_none (by decide) h5
  obtain ⟨e, evs, h7, h8, -, h9⟩ := lang_prim h6
  have := lang_gap_none h9
  subst this
  obtain ⟨t, ht, s2⟩ := loop_sound hs _ _ _ _ _ h7 h8
  exact ⟨_, b, ⟨t, rfl, ht⟩, hb, (s1.append s2).append h2⟩

/-- A transparent production inside of a token. -/
theorem part_none {s : List Nat} {n p q : Nat} (hn : (prods n).isTok = false) (hw : (prods n).ws = none)
    (h : Lang (env s) none (.rule (.prod n) false) p q) : Lang (env s) none (.rule (prods n).rule false) p q := by
  obtain ⟨m, h1, h2, -⟩ := lang_prod (E := env s) (d := prods n) rfl hw h
  rw [if_neg (by rw [hn]; decide)] at h1
  rw [h2 hn]
  exact h1

theorem pair_mem {α : Type} {a b x : α} (h : x ∈ [a, b]) : x = a ∨ x = b := by
  simpa only [List.mem_cons, List.not_mem_nil, or_false] using h

theorem number_sound {s : List Nat} {p q : Nat} (h : Lang (env s) none (.rule (prods 6).rule false) p q) :
    ∃ t, Number exampleLimits t ∧ Seg s p q t := by
  obtain ⟨m, h1, h2⟩ := lang_br h
  have := lang_peek h1
  subst this
  obtain ⟨l, h3, h4⟩ := lang_seq h2
  obtain ⟨k, h5, h6⟩ := lang_seq h4
  -- the integer part
  obtain ⟨i, h7, h8⟩ := lang_seq (part_none (n := 7) rfl rfl h3)
  obtain ⟨e, evs, h9, h10, -, h11⟩ := lang_prim h8
  have := lang_gap_none h11
  subst this
  obtain ⟨int, s2, hi, hl⟩ := integer_sound h9 h10
  obtain ⟨minus, hm, s1⟩ : ∃ minus, (minus = [] ∨ minus = [0x2D]) ∧ Seg s m i minus := by
    rcases lang_ifR h7 with rfl | h
    · exact ⟨[], .inl rfl, .nil⟩
    · exact ⟨_, .inr rfl, lit_none (by decide) h⟩
  obtain ⟨frac, hf, s3⟩ : ∃ frac, Frac frac ∧ Seg s l k frac := by
    rcases lang_opt h5 with rfl | h
    · exact ⟨[], .inl rfl, .nil⟩
    · obtain ⟨j, h12, h13⟩ := lang_br (part_none (n := 8) rfl rfl h)
      obtain ⟨n, h14, h15⟩ := lang_tok h13
      have := lang_gap_none h15
      subst this
      obtain ⟨h16, h17⟩ := (digits_run _ _).1 h14
      exact ⟨_, .inr ⟨_, rfl, maxRun_digits h17 h16⟩, (lit_none (by decide) h12).append (.of_take h17.le)⟩
  obtain ⟨exp, he, s4⟩ : ∃ exp, Exp exampleLimits exp ∧ Seg s k q exp := by
    rcases lang_opt h6 with rfl | h
    · exact ⟨[], .inl rfl, .nil⟩
    · obtain ⟨j, h12, h13⟩ := lang_br (part_none (n := 9) rfl rfl h)
      obtain ⟨j', h14, h15⟩ := lang_seq h13
      obtain ⟨e', evs', h16, h17, -, h18⟩ := lang_prim h15
      have := lang_gap_none h18
      subst this
      obtain ⟨t, s5, ht, hx⟩ := exponent_sound h16 h17
      obtain ⟨c, hc, s6⟩ : ∃ c, (c = 0x65 ∨ c = 0x45) ∧ Seg s k j [c] := by
        obtain ⟨r, hr, h19⟩ := lang_chc h12
        rcases pair_mem hr with rfl | rfl
        · exact ⟨_, .inl rfl, lit_none (by decide) h19⟩
        · exact ⟨_, .inr rfl, lit_none (by decide) h19⟩
      obtain ⟨sg, hsg, s7⟩ : ∃ sg, (sg = [] ∨ sg = [0x2B] ∨ sg = [0x2D]) ∧ Seg s j j' sg := by
        rcases lang_ifR h14 with rfl | h
        · exact ⟨[], .inl rfl, .nil⟩
        · obtain ⟨r, hr, h19⟩ := lang_chc h
          rcases pair_mem hr with rfl | rfl
          · exact ⟨_, .inr (.inl rfl), lit_none (by decide) h19⟩
          · exact ⟨_, .inr (.inr rfl), lit_none (by decide) h19⟩
      exact ⟨_, .inr ⟨c, sg, t, rfl, hc, hsg, ht, hx⟩, s6.append (s7.append s5)⟩
  exact ⟨_, ⟨minus, int, frac, exp, rfl, hm, hi, hl, hf, he⟩, ((s1.append s2).append s3).append s4⟩

/-- More nesting is allowed. -/
theorem _root_.Verif.Spec.Json.Derives.mono {L : Limits} {k : Part} {n m : Nat} {s : List Nat} (h : Derives L k n s) (hm : n ≤ m) : Derives L k m s := by
  induction h generalizing m with
  | null => exact .null
  | true => exact .true
  | false => exact .false
  | number h => exact .number h
  | string h => exact .string h
  | emptyArray h => exact .emptyArray h
  | array h ih =>
    obtain ⟨k, rfl⟩ : ∃ k, m = k + 1 := ⟨m - 1, by omega⟩
    exact .array (ih (by omega))
  | emptyObject h => exact .emptyObject h
  | object h ih =>
    obtain ⟨k, rfl⟩ : ∃ k, m = k + 1 := ⟨m - 1, by omega⟩
    exact .object (ih (by omega))
  | last hw h hw' ih => exact .last hw (ih hm) hw'
  | more hw h hw' ht ih ih' => exact .more hw (ih hm) hw' (ih' hm)
  | lastMember hw hk h1 h2 h hw' ih => exact .lastMember hw hk h1 h2 (ih hm) hw'
  | moreMembers hw hk h1 h2 h hw' ht ih ih' => exact .moreMembers hw hk h1 h2 (ih hm) hw' (ih' hm)

theorem _root_.Verif.Spec.Json.Blank.append {a b : List Nat} (ha : Blank a) (hb : Blank b) : Blank (a ++ b) := by
  intro c hc
  rcases List.mem_append.1 hc with h | h
  · exact ha c h
  · exact hb c h

/-- The items behind the first one; `P`: what an item is; `Q`: what a list of them is. -/
theorem tail_sound {s : List Nat} (hs : Units 256 s) {item : Rule} {P Q : List Nat → Prop} (h1 : ∀ t, P t → Q t)
    (h2 : ∀ t b u, P t → Blank b → Q u → Q (t ++ (0x2C :: b ++ u))) (n : Nat) :
    ∀ (p q : Nat) (t : List Nat), q - p ≤ n → P t → Lang (env s) W (.tail item (some comma)) p q →
      (∀ m l, p < m → l ≤ q → Lang (env s) W (.rule item false) m l → ∃ t, P t ∧ Seg s m l t) →
      ∃ u, Q (t ++ u) ∧ Seg s p q u := by
  induction n with
  | zero =>
    intro p q t hn ht h hi
    rcases lang_tail h with rfl | ⟨m, l, h3, h4, h5⟩
    · exact ⟨[], by rw [List.append_nil]; exact h1 t ht, .nil⟩
    · obtain ⟨b, hb, s1⟩ := lit_ws hs (by decide) h3
      have := s1.1
      have := lang_le h4
      have := lang_le h5
      simp at *
      omega
  | succ n ih =>
    intro p q t hn ht h hi
    rcases lang_tail h with rfl | ⟨m, l, h3, h4, h5⟩
    · exact ⟨[], by rw [List.append_nil]; exact h1 t ht, .nil⟩
    · obtain ⟨b, hb, s1⟩ := lit_ws hs (by decide) h3
      have e1 := s1.1
      have e2 := lang_le h4
      have e3 := lang_le h5
      simp only [List.cons_append, List.nil_append, List.length_cons] at e1
      obtain ⟨x, hx, s2⟩ := hi m l (by omega) e3 h4
      obtain ⟨u, hu, s3⟩ := ih l q x (by omega) hx h5 fun m' l' h6 h7 => hi m' l' (by omega) h7
      refine ⟨0x2C :: b ++ (x ++ u), h2 _ _ _ ht hb hu, ?_⟩
      exact s1.append (s2.append s3)

/-- An array or an object. -/
theorem list_sound {s : List Nat} (hs : Units 256 s) {o c : Nat} (ho : o < 128) (hc : c < 128) {item : Rule} {P Q : List Nat → Prop}
    (h1 : ∀ t, P t → Q t) (h2 : ∀ t b u, P t → Blank b → Q u → Q (t ++ (0x2C :: b ++ u))) {p q : Nat}
    (h : Lang (env s) W (.rule (optList o c item) false) p q)
    (hi : ∀ m l, p < m → l ≤ q → Lang (env s) W (.rule item false) m l → ∃ t, P t ∧ Seg s m l t) :
    ∃ b x b', Blank b ∧ (x = [] ∨ Q x) ∧ Blank b' ∧ Seg s p q (o :: b ++ x ++ c :: b') := by
  obtain ⟨m, h3, h4⟩ := lang_br h
  obtain ⟨b, hb, s1⟩ := lit_ws hs (by simpa using ho) h3
  have e1 := s1.1
  simp only [List.cons_append, List.nil_append, List.length_cons] at e1
  rcases lang_optt h4 with h5 | h5
  · obtain ⟨b', hb', s2⟩ := lit_ws hs (by simpa using hc) h5
    exact ⟨b, [], b', hb, .inl rfl, hb', by simpa using s1.append s2⟩
  · obtain ⟨l, k, h6, h7, h8⟩ := lang_lstt h5
    obtain ⟨b', hb', s2⟩ := lit_ws hs (by simpa using hc) h8
    have e2 := lang_le h6
    have e3 := lang_le h7
    have e4 := lang_le h8
    obtain ⟨t, ht, s3⟩ := hi m l (by omega) (by omega) h6
    obtain ⟨u, hu, s4⟩ := tail_sound hs h1 h2 _ l k t (Nat.le_refl _) ht h7 fun m' l' h9 h10 => hi m' l' (by omega) (by omega)
    exact ⟨b, t ++ u, b', hb, .inr hu, hb', by simpa using (s1.append (s3.append s4)).append s2⟩

/-- Whitespace in front. -/
theorem values_blank {L : Limits} {n : Nat} {b u : List Nat} (hb : Blank b) (h : Derives L .values n u) : Derives L .values n (b ++ u) := by
  cases h with
  | last h1 h2 h3 => simpa using Derives.last (hb.append h1) h2 h3
  | more h1 h2 h3 h4 => simpa using Derives.more (hb.append h1) h2 h3 h4

theorem members_blank {L : Limits} {n : Nat} {b u : List Nat} (hb : Blank b) (h : Derives L .members n u) : Derives L .members n (b ++ u) := by
  cases h with
  | lastMember h1 h2 h3 h4 h5 h6 => simpa using Derives.lastMember (hb.append h1) h2 h3 h4 h5 h6
  | moreMembers h1 h2 h3 h4 h5 h6 h7 => simpa using Derives.moreMembers (hb.append h1) h2 h3 h4 h5 h6 h7

/-- The values of an array. -/
theorem values_more {t b u : List Nat} (ht : ∃ w v w' n, t = w ++ v ++ w' ∧ Blank w ∧ Derives exampleLimits .value n v ∧ Blank w')
    (hb : Blank b) (hu : ∃ n, Derives exampleLimits .values n u) : ∃ n, Derives exampleLimits .values n (t ++ (0x2C :: b ++ u)) := by
  obtain ⟨w, v, w', n, rfl, h1, h2, h3⟩ := ht
  obtain ⟨m, hu⟩ := hu
  exact ⟨max n m, .more h1 (h2.mono (by omega)) h3 (values_blank hb (hu.mono (Nat.le_max_right n m)))⟩

/-- The members of an object. -/
theorem members_more {t b u : List Nat}
    (ht : ∃ w k w1 w2 v w' n, t = w ++ k ++ w1 ++ 0x3A :: (w2 ++ v ++ w') ∧ Blank w ∧ Str exampleLimits k ∧ Blank w1 ∧ Blank w2 ∧
      Derives exampleLimits .value n v ∧ Blank w') (hb : Blank b) (hu : ∃ n, Derives exampleLimits .members n u) :
    ∃ n, Derives exampleLimits .members n (t ++ (0x2C :: b ++ u)) := by
  obtain ⟨w, k, w1, w2, v, w', n, rfl, h1, h2, h3, h4, h5, h6⟩ := ht
  obtain ⟨m, hu⟩ := hu
  have key := members_blank hb (hu.mono (Nat.le_max_right n m))
  refine ⟨max n m, ?_⟩
  simpa using Derives.moreMembers h1 h2 h3 h4 (h5.mono (Nat.le_max_left n m)) h6 key

theorem _root_.Verif.Spec.Json.Blank.nil : Blank [] := nofun

theorem lits_mem {r a b c d e f g : Rule} (h : r ∈ [a, b, c, d, e, f, g]) : r = a ∨ r = b ∨ r = c ∨ r = d ∨ r = e ∨ r = f ∨ r = g := by
  simpa only [List.mem_cons, List.not_mem_nil, or_false] using h

/-- A value and whitespace. -/
theorem value_sound {s : List Nat} (hs : Units 256 s) (k : Nat) : ∀ (p q : Nat), q - p = k →
    Lang (env s) W (.rule (.prod 1) false) p q →
    ∃ v b n, Derives exampleLimits .value n v ∧ Blank b ∧ Seg s p q (v ++ b) := by
  induction k using Nat.strongRecOn with
  | _ k ih =>
    intro p q hk h
    obtain ⟨m, h1, h2, -⟩ := lang_prod (E := env s) (d := prods 1) rfl rfl h
    cases h2 rfl
    obtain ⟨r, hr, h3⟩ := lang_chc h1
    have hv : ∀ m l, p < m → l ≤ q → Lang (env s) W (.rule value false) m l →
        ∃ v b n, Derives exampleLimits .value n v ∧ Blank b ∧ Seg s m l (v ++ b) := by
      intro m l h4 h5 h6
      by_cases hle : m ≤ l
      · exact ih (l - m) (by omega) m l rfl (lang_recu h6)
      · exact absurd (lang_le h6) hle
    rcases lits_mem hr with rfl | rfl | rfl | rfl | rfl | rfl | rfl
    · obtain ⟨m, b, h4, hb, s1⟩ := tok_prod hs rfl rfl h3
      exact ⟨_, b, 0, .null, hb, (lit_none (by decide) h4).append s1⟩
    · obtain ⟨m, b, h4, hb, s1⟩ := tok_prod hs rfl rfl h3
      obtain ⟨r, hr, h5⟩ := lang_chc h4
      rcases pair_mem hr with rfl | rfl
      · exact ⟨_, b, 0, .true, hb, (lit_none (by decide) (part_none (n := 4) rfl rfl h5)).append s1⟩
      · exact ⟨_, b, 0, .false, hb, (lit_none (by decide) (part_none (n := 5) rfl rfl h5)).append s1⟩
    · obtain ⟨m, b, h4, hb, s1⟩ := tok_prod hs rfl rfl h3
      obtain ⟨t, ht, s2⟩ := number_sound h4
      exact ⟨t, b, 0, .number ht, hb, s2.append s1⟩
    · obtain ⟨t, b, ht, hb, s1⟩ := string_sound hs h3
      exact ⟨t, b, 0, .string ht, hb, s1⟩
    · obtain ⟨m, h4, h5, -⟩ := lang_prod (E := env s) (d := prods 12) rfl rfl h3
      cases h5 rfl
      obtain ⟨b, x, b', hb, hx, hb', s1⟩ := list_sound hs (by decide) (by decide)
        (P := fun t => ∃ w k w1 w2 v w' n, t = w ++ k ++ w1 ++ 0x3A :: (w2 ++ v ++ w') ∧ Blank w ∧ Str exampleLimits k ∧ Blank w1 ∧
          Blank w2 ∧ Derives exampleLimits .value n v ∧ Blank w')
        (Q := fun t => ∃ n, Derives exampleLimits .members n t)
        (by
          rintro t ⟨w, k, w1, w2, v, w', n, rfl, h1, h2, h3, h4, h5, h6⟩
          exact ⟨n, .lastMember h1 h2 h3 h4 h5 h6⟩)
        (fun t b u => members_more) h4
        (by
          intro m l h6 h7 h8
          obtain ⟨i, h9, h10⟩ := lang_seq h8
          obtain ⟨j, h11, h12⟩ := lang_seq h10
          obtain ⟨k, w1, hk, hw1, s2⟩ := string_sound hs h9
          obtain ⟨w2, hw2, s3⟩ := lit_ws hs (by decide) (lang_try h11)
          have e1 := s2.le
          have e2 := s3.le
          obtain ⟨v, w', n, hd, hw', s4⟩ := hv j l (by omega) h7 h12
          refine ⟨_, ⟨[], k, w1, w2, v, w', n, rfl, .nil, hk, hw1, hw2, hd, hw'⟩, ?_⟩
          simpa using s2.append (s3.append s4))
      rcases hx with rfl | ⟨n, hx⟩
      · exact ⟨_, b', 0, .emptyObject hb, hb', by simpa using s1⟩
      · have hx := members_blank hb hx
        exact ⟨_, b', n + 1, .object hx, hb', by simpa using s1⟩
    · obtain ⟨m, h4, h5, -⟩ := lang_prod (E := env s) (d := prods 11) rfl rfl h3
      cases h5 rfl
      obtain ⟨b, x, b', hb, hx, hb', s1⟩ := list_sound hs (by decide) (by decide)
        (P := fun t => ∃ w v w' n, t = w ++ v ++ w' ∧ Blank w ∧ Derives exampleLimits .value n v ∧ Blank w')
        (Q := fun t => ∃ n, Derives exampleLimits .values n t)
        (by
          rintro t ⟨w, v, w', n, rfl, h1, h2, h3⟩
          exact ⟨n, .last h1 h2 h3⟩)
        (fun t b u => values_more) h4
        (by
          intro m l h6 h7 h8
          obtain ⟨v, w', n, hd, hw', s4⟩ := hv m l h6 h7 h8
          exact ⟨_, ⟨[], v, w', n, rfl, .nil, hd, hw'⟩, s4⟩)
      rcases hx with rfl | ⟨n, hx⟩
      · exact ⟨_, b', 0, .emptyArray hb, hb', by simpa using s1⟩
      · have hx := values_blank hb hx
        exact ⟨_, b', n + 1, .array hx, hb', by simpa using s1⟩
    · exact (lang_err h3).elim

theorem lits (s : List Nat) : ExprLits (env s) :=
  fun _ => ⟨fun _ => rfl, fun _ h => by simp [env, OpTree.all] at h, fun _ h => by simp [env, OpTree.all] at h⟩

/-- What is accepted is a JSON text, up to the end of the input or a code unit that is taken for it. -/
theorem sound {fuel : Nat} {s : List Nat} (hs : Units 256 s) (h : accepts fuel s = some true) :
    ∃ t rest, s = t ++ rest ∧ (∃ n, Text exampleLimits n t) ∧ (rest = [] ∨ rest.head? = some 0xFF) := by
  obtain ⟨r, h1, h2⟩ := Option.map_eq_some_iff.1 h
  simp only [Bool.and_eq_true, beq_iff_eq, Bool.not_eq_true', List.any_eq_false] at h2
  obtain ⟨m, h3, h4⟩ := C38_accepted (lits s) h1 h2.1 fun ev he => by simpa using h2.2 ev he
  obtain ⟨w, hw, s1⟩ := gap_sound hs h3
  obtain ⟨l, h5, h6⟩ := lang_seq h4
  obtain ⟨v, w', n, hd, hw', s2⟩ := value_sound hs _ m l rfl h5
  obtain ⟨e, evs, h7, h8, -, -⟩ := lang_prim h6
  have s3 := s1.append s2
  refine ⟨w ++ (v ++ w'), s.drop l, s3.2, ⟨n, w, v, w', by simp, hw, hd, hw'⟩, ?_⟩
  have h9 : peekEof eof (s.drop l) = true := by
    cases h9 : peekEof eof (s.drop l) with
    | true => rfl
    | false =>
      have h10 : eofParse eof 12 s l = (true, e, evs) := h7
      unfold eofParse at h10
      simp only [h9, Bool.false_eq_true, if_false, Prod.mk.injEq] at h10
      have := h8 _ (by rw [← h10.2.2]; exact List.mem_singleton.2 rfl)
      cases this
  cases hd : s.drop l with
  | nil => exact .inl rfl
  | cons c t =>
    rw [hd] at h9
    simp only [peekEof, eof, beq_iff_eq, Option.some.injEq] at h9
    exact .inr (by rw [← h9]; rfl)

end Verif.Json
