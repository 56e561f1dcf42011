import Verif.Tokens
import Verif.LiteralProps
import Verif.IntegerProps
import Verif.UnicodeClassProps
import Verif.SymbolProps

/-
What the tokens of Tokens.lean match, in terms of the input (consequences of C08, C10, C16, C17, C18, C12).
-/

namespace Verif

theorem PTok.of_run {kind : Kind} {tag : Nat} {run : List Nat → TokRes} {s : List Nat} {n : Nat}
    (hl : (run s).2 ≤ s.length) : (PTok.of kind tag run).run s = (true, n) ↔ run s = (true, n) := by
  rw [show (PTok.of kind tag run).run s = clamp run s from rfl, clamp_eq rfl hl]

/-- A literal. -/
theorem lit_run {eof : Option Nat} {kind tag : Nat} {w : List Nat} (h : ∀ c ∈ w, eof ≠ some c) (s : List Nat) (n : Nat) :
    (litTok eof kind tag w).run s = (true, n) ↔ w <+: s ∧ n = w.length := by
  obtain ⟨b, k, h1, h2, h3, h4, h5, -⟩ := C10_literal_prefix eof w s h
  have hl : k ≤ s.length := by
    have := h5.length_le
    rw [List.length_take] at this
    omega
  unfold litTok
  rw [PTok.of_run (by rw [h1]; exact hl), h1]
  simp only [Option.getD_some, Prod.mk.injEq]
  constructor
  · rintro ⟨rfl, rfl⟩
    exact ⟨h2.1 rfl, h3 rfl⟩
  · rintro ⟨h6, rfl⟩
    have := h2.2 h6
    exact ⟨this, h3 this⟩

theorem run_fst {t : PTok} {s : List Nat} {P : Nat → Prop} (h : ∀ n, t.run s = (true, n) ↔ P n) :
    (t.run s).1 = true ↔ ∃ n, P n := by
  constructor
  · intro h1
    exact ⟨(t.run s).2, (h _).1 (by rw [← h1])⟩
  · rintro ⟨n, hn⟩
    rw [(h n).2 hn]

theorem lit_hit {eof : Option Nat} {kind tag : Nat} {w : List Nat} (h : ∀ c ∈ w, eof ≠ some c) (s : List Nat) :
    ((litTok eof kind tag w).run s).1 = true ↔ w <+: s := by
  rw [run_fst (lit_run h s)]
  exact ⟨fun ⟨_, h, _⟩ => h, fun h => ⟨_, h, rfl⟩⟩

/-- A class of ASCII characters. -/
theorem class_run_ascii {kind tag : Nat} {c : CC} (hc : c.Ok) (ha : ∀ v, c.denote v → v < 128) (s : List Nat) (hs : Units 256 s)
    (n : Nat) : (classTok kind tag c).run s = (true, n) ↔ ∃ u t, s = u :: t ∧ c.denote u ∧ n = 1 := by
  have h1 := CC.C08_class_token_utf8 c hc s hs
  have e1 : ∀ v, v < 128 → Spec.utf8 v = [v] := fun v hv => by unfold Spec.utf8; rw [if_pos hv]
  have h2 : ∀ n, c.tryParse .utf8 s = some n ↔ ∃ u t, s = u :: t ∧ c.denote u ∧ n = 1 := by
    intro n
    rw [h1]
    constructor
    · rintro ⟨v, _, h3, ⟨t, h4⟩, rfl⟩
      rw [e1 v (ha v h3)] at h4 ⊢
      exact ⟨v, t, h4.symm, h3, rfl⟩
    · rintro ⟨u, t, rfl, h3, rfl⟩
      have := ha u h3
      exact ⟨u, ⟨by omega, by omega⟩, h3, by rw [e1 u this]; exact ⟨t, rfl⟩, by rw [e1 u this]; rfl⟩
  unfold classTok
  cases h3 : c.tryParse .utf8 s with
  | none =>
    rw [PTok.of_run (by rw [h3]; exact Nat.zero_le _), h3]
    rw [← h2, h3]
    simp
  | some k =>
    have : k ≤ s.length := by
      obtain ⟨u, t, rfl, _, rfl⟩ := (h2 k).1 h3
      simp
    rw [PTok.of_run (by rw [h3]; exact this), h3]
    rw [← h2, h3]
    simp

theorem class_hit_ascii {kind tag : Nat} {c : CC} (hc : c.Ok) (ha : ∀ v, c.denote v → v < 128) (s : List Nat) (hs : Units 256 s) :
    ((classTok kind tag c).run s).1 = true ↔ ∃ u t, s = u :: t ∧ c.denote u := by
  rw [run_fst (class_run_ascii hc ha s hs)]
  exact ⟨fun ⟨_, u, t, h1, h2, _⟩ => ⟨u, t, h1, h2⟩, fun ⟨u, t, h1, h2⟩ => ⟨_, u, t, h1, h2, rfl⟩⟩

theorem aclass_denote (a : AClass) (v : Nat) : a.cc.denote v ↔ v < 128 ∧ Spec.aclass a v = true := by
  rw [← CC.C08_class_algebra a.cc (by simp [CC.Ok, AClass.cc]), C70_ascii_classes]
  simp

theorem matchDigits_le (b : Base) (s : List Nat) : (matchDigits b s).2 ≤ s.length := by
  cases h : matchDigits b s with
  | mk ok k =>
    cases ok with
    | true => exact ((C16_digits_maximal b s k).1 h).2.le
    | false =>
      have h1 : ¬ 0 < trailLoop b.tok s := fun h2 => by
        have := (C16_digits_maximal b s _).2 ⟨h2, trailLoop_maxRun b s⟩
        rw [h] at this
        cases this
      have h2 := C16_digits_fail b s (by
        have := (trailLoop_maxRun b s).stop
        rwa [show trailLoop b.tok s = 0 by omega, List.drop_zero] at this)
      rw [h] at h2
      cases h2
      exact Nat.zero_le _

/-- Digits: all that there are. -/
theorem digits_run {kind tag : Nat} {b : Base} (s : List Nat) (n : Nat) :
    (digitsTok kind tag b).run s = (true, n) ↔ 0 < n ∧ Spec.MaxRun b s n := by
  unfold digitsTok
  rw [PTok.of_run (matchDigits_le b s), C16_digits_maximal]

/-- The digits of the value. -/
theorem overflows_digits {b : Base} {t : Traits} (ht : t.Ok b) {us : List Nat} (h : ∀ u ∈ us, Spec.IsDigitOf b u) :
    overflows (boundedParse true t b) us = true ↔ t.max < Spec.value b (us.map Int.ofNat) := by
  have hd : ∀ c ∈ us.map Int.ofNat, Spec.IsChar c ∧ (Spec.digitI b c).isSome = true := by
    intro c hc
    obtain ⟨u, hu, rfl⟩ := List.mem_map.1 hc
    have h1 := h u hu
    have h2 := Spec.isDigitOf_lt h1
    refine ⟨⟨by simp only [Int.ofNat_eq_natCast]; omega, by simp only [Int.ofNat_eq_natCast]; omega⟩, ?_⟩
    unfold Spec.digitI
    rw [if_pos (by simp only [Int.ofNat_eq_natCast]; omega)]
    exact h1
  obtain ⟨v, ov, h1, h2, -⟩ := C17_integer_exact_partial true t b ht (us.map Int.ofNat)
    ⟨fun c hc => (hd c hc).1, fun _ c hc => (hd c hc).2⟩ (fun c hc => (hd c (List.mem_of_getLast? hc)).2)
  unfold overflows
  rw [h1]
  exact h2

/-- A quiet integer: the token matches and the value is in range. -/
theorem int_quiet {kind dkind : Kind} {tag otag : Nat} {tok : List Nat → TokRes} {b : Base} {conv : List Int → Option (Nat × Bool)}
    {inp : List Nat} {p m : Nat} {evs : List Ev} (h : intParse kind dkind tag otag tok b conv inp p = (true, m, evs))
    (hq : ∀ ev ∈ evs, ev.isError = false) :
    (clamp tok (inp.drop p)).1 = true ∧ m = p + (clamp tok (inp.drop p)).2 ∧
      overflows conv ((inp.drop p).take (clamp tok (inp.drop p)).2) = false := by
  unfold intParse at h
  simp only at h
  split at h
  · rename_i h1
    cases h
    refine ⟨h1, rfl, ?_⟩
    cases h2 : overflows conv ((inp.drop p).take (clamp tok (inp.drop p)).2) with
    | false => rfl
    | true =>
      have := hq (.error otag p (p + (clamp tok (inp.drop p)).2)) (by simp [overflowEv, h2])
      cases this
  · split at h
    · cases h
    · cases h
      have := hq (.error tag p (p + (clamp tok (inp.drop p)).2)) (by simp)
      cases this

/-- And conversely. -/
theorem int_parse {kind dkind : Kind} {tag otag : Nat} {tok : List Nat → TokRes} {b : Base} {conv : List Int → Option (Nat × Bool)}
    {inp : List Nat} {p n : Nat} (h : tok (inp.drop p) = (true, n)) (hn : n ≤ (inp.drop p).length)
    (ho : overflows conv ((inp.drop p).take n) = false) :
    intParse kind dkind tag otag tok b conv inp p = (true, p + n, [.token kind p (p + n)]) := by
  have h1 : clamp tok (inp.drop p) = (true, n) := clamp_eq h hn
  unfold intParse
  simp [h1, overflowEv, ho]

end Verif
