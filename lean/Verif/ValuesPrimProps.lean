import Verif.ValuesPrims
import Verif.JsonValueSound

/-
C98, the values of integers, symbols and delimited content in terms of the input.
-/

namespace Verif.Val

open Verif.Spec

/-- The value of `dsl::integer<T>(digits)` that was parsed without errors is the number that the digits from where the rule
    begins to where it ends are in the base; it is at most the maximum of `T`.  For digits without separators. -/
theorem C98_integer {kind dkind : Kind} {tag otag : Nat} {tok : List Nat → TokRes} {b : Base} {t : Traits} (ht : t.Ok b)
    (htok : ∀ s : List Nat, ∀ u ∈ s.take (tok s).2, IsDigitOf b u) {s : List Nat} {p m : Nat} {evs : List Ev}
    (h : (intPrim kind dkind tag otag tok b (boundedParse true t b)).rule.parse s p = (true, m, evs))
    (hq : ∀ ev ∈ evs, ev.isError = false) :
    ∃ us, Seg s p m us ∧ (∀ u ∈ us, IsDigitOf b u) ∧ value b (us.map Int.ofNat) ≤ t.max ∧
      (intPrim kind dkind tag otag tok b (boundedParse true t b)).vals s p = [[.num (value b (us.map Int.ofNat))]] := by
  have h : intParse kind dkind tag otag tok b (boundedParse true t b) s p = (true, m, evs) := h
  obtain ⟨h1, h2, h3⟩ := int_quiet h hq
  have hn : (clamp tok (s.drop p)).2 ≤ (tok (s.drop p)).2 := by unfold clamp; exact Nat.min_le_left _ _
  have hl : (clamp tok (s.drop p)).2 ≤ (s.drop p).length := by unfold clamp; exact Nat.min_le_right _ _
  have hd : ∀ u ∈ (s.drop p).take (clamp tok (s.drop p)).2, IsDigitOf b u := fun u hu =>
    htok _ u ((List.take_prefix_take_left hn).subset hu)
  have hs : Seg s p m ((s.drop p).take (clamp tok (s.drop p)).2) := by
    refine ⟨by rw [List.length_take, Nat.min_eq_left hl]; exact h2, ?_⟩
    rw [h2, ← List.drop_drop, List.take_append_drop]
  have ho := overflows_digits ht hd
  rw [h3] at ho
  have hm : ¬ t.max < value b (((s.drop p).take (clamp tok (s.drop p)).2).map Int.ofNat) := fun g => by cases ho.2 g
  refine ⟨_, hs, hd, by omega, ?_⟩
  simp only [intPrim, h, List.cons.injEq, PVal.num.injEq, and_true]
  unfold intVal
  rw [Json.seg_slice hs]
  have hc : ∀ c ∈ ((s.drop p).take (clamp tok (s.drop p)).2).map Int.ofNat, IsChar c ∧ (digitI b c).isSome = true := by
    intro c hc
    obtain ⟨u, hu, rfl⟩ := List.mem_map.1 hc
    exact Json.digit_char (hd u hu)
  obtain ⟨v, ov, g1, g2, g3⟩ := C17_integer_exact_partial true t b ht _
    ⟨fun c h => (hc c h).1, fun _ c h => (hc c h).2⟩ (fun c h => (hc c (List.mem_of_getLast? h)).2)
  rw [g1]
  have : ov = false := by
    cases ov with
    | false => rfl
    | true => exact absurd (g2.1 rfl) hm
  simp only [g3 this]

/-- The value of `dsl::symbol<Table>` that was parsed is the last of the table with the text from where the rule begins to where
    it ends, case folded; no symbol of the table is longer. -/
theorem C98_symbol {t : SymTable} {eof : Option Nat} {tag : Nat} (hf : ∀ u, t.fold (t.fold u) = t.fold u)
    (he : ∀ w ∈ t.syms, ∀ c ∈ w, eof ≠ some c) {s : List Nat} {p m : Nat} {evs : List Ev}
    (h : (symPrim t eof tag).rule.parse s p = (true, m, evs)) :
    ∃ us i, Seg s p m us ∧ t.syms[i]? = some (us.map t.fold) ∧ (∀ j : Nat, i < j → t.syms[j]? ≠ some (us.map t.fold)) ∧
      (∀ w ∈ t.syms, w <+: (s.drop p).map t.fold → w.length ≤ us.length) ∧
      (symPrim t eof tag).vals s p = [[.num (i : Nat)]] := by
  have h : symParse t eof tag s p = (true, m, evs) := h
  obtain ⟨r, h1, h2, -⟩ := C12_symbol_longest t.syms eof t.fold hf he (s.drop p)
  simp only [symPrim]
  unfold symParse symLen symTry at h
  unfold symTry
  rw [h1] at h ⊢
  cases r with
  | none => cases h
  | some x =>
    obtain ⟨i, n⟩ := x
    obtain ⟨w, g1, g2, g3, g4, g5⟩ := (h2 i n).1 rfl
    have hl : n ≤ (s.drop p).length := by
      have := g3.length_le
      rw [List.length_map] at this
      omega
    simp only [Prod.mk.injEq, true_and] at h
    rw [Nat.min_eq_left hl] at h
    have hw : ((s.drop p).take n).map t.fold = w := by
      rw [List.map_take, ← g4, ← List.prefix_iff_eq_take.1 g3]
    refine ⟨(s.drop p).take n, i, ⟨by rw [List.length_take, Nat.min_eq_left hl]; exact h.1.symm, ?_⟩, by rw [hw]; exact g1,
      by rw [hw]; exact g2, by rw [List.length_take, Nat.min_eq_left hl]; exact g5, rfl⟩
    rw [← h.1, ← List.drop_drop, List.take_append_drop]

theorem delim_calls (d : DelimV) (hesc : d.esc = []) (inp : List Nat) (start b p m : Nat) (evs : List Ev)
    (h : d.rule.loop inp start b p = (true, m, evs)) (hq : ∀ ev ∈ evs, ev.isError = false) (hb : b ≤ p) :
    ∃ e, p ≤ e ∧ e ≤ m ∧ d.del.close.run (inp.drop e) = (true, m - e) ∧ d.calls inp b p = if b = e then [] else [[.lexeme b e]] := by
  rw [DelimR.loop] at h
  rw [DelimV.calls]
  have e1 : d.rule.close = d.del.close := rfl
  have e2 : d.rule.char = d.del.char := rfl
  have e3 : d.rule.escapes = [] := by simp [DelimV.rule, hesc]
  simp only [e1, e2, e3, escTry] at h ⊢
  split
  · rename_i h1
    rw [if_pos h1] at h
    simp only [Prod.mk.injEq, true_and] at h
    refine ⟨p, Nat.le_refl _, by omega, ?_, rfl⟩
    rw [← h.1, Nat.add_sub_cancel_left, ← h1]
  · rename_i h1
    rw [if_neg h1] at h
    split
    · rename_i h2
      rw [if_pos h2] at h
      simp at h
    · rename_i h2
      rw [if_neg h2] at h
      split
      · rename_i h3
        rw [dif_pos h3] at h
        split
        · rename_i h4
          rw [if_pos h4] at h
          obtain ⟨e, g1, g2, g3, g4⟩ := delim_calls d hesc inp start b (p + (d.del.char (inp.drop p)).2) m evs h hq (by omega)
          exact ⟨e, by omega, g2, g3, g4⟩
        · rename_i h4
          rw [if_neg h4] at h
          simp only [Prod.mk.injEq] at h
          have := hq (.error d.rule.charTag p p) (by rw [← h.2.2]; simp)
          simp [Ev.isError] at this
      · rename_i h3
        rw [dif_neg h3] at h
        simp at h
termination_by inp.length - p
decreasing_by omega

/-- The value of a delimited rule without escape sequences that was parsed without errors: the sink is called once, with the
    lexeme from where the content begins to the closing delimiter, which ends the rule; not at all if there is no content. -/
theorem C98_delimited {d : DelimV} (hesc : d.esc = []) {s : List Nat} {p m : Nat} {evs : List Ev}
    (h : d.prim.rule.parse s p = (true, m, evs)) (hq : ∀ ev ∈ evs, ev.isError = false) :
    ∃ e, p ≤ e ∧ e ≤ m ∧ d.del.close.run (s.drop e) = (true, m - e) ∧ d.prim.sink = true ∧
      d.prim.vals s p = if p = e then [] else [[.lexeme p e]] := by
  obtain ⟨e, h1, h2, h3, h4⟩ := delim_calls d hesc s p p p m evs h hq (Nat.le_refl _)
  exact ⟨e, h1, h2, h3, rfl, h4⟩

/-- Non-vacuity: `ff` as hexadecimal integer in a byte, behind another character. -/
example : (Traits.plain .u8).Ok .hex ∧ ((intPrim .identifier .identifier 0 0 (matchDigits .hex) .hex
      (boundedParse true (.plain .u8) .hex)).rule.parse [0x20, 0x66, 0x66, 0x20] 1) = (true, 3, [.token .identifier 1 3]) ∧
    intVal (boundedParse true (.plain .u8) .hex) [0x20, 0x66, 0x66, 0x20] 1 3 = 255 :=
  ⟨⟨by decide, by decide, by decide⟩, by decide +kernel, by decide +kernel⟩

end Verif.Val
