import Verif.UnicodeDbProps
import Verif.CaseFoldThms

/-
C70: the simple case folding of the Unicode database.
-/

namespace Verif.Udb

/-- The blocks that contain something that is changed by case folding. -/
def foldBlocks : List Nat := [0, 1, 2, 3, 4, 5, 16, 19, 27, 29, 30, 32, 35, 42, 52, 53, 57, 66, 71, 72, 78, 90, 107, 133]
/-- Where these blocks are used. -/
def foldHighs : List Nat := [0, 1, 2, 3, 4, 5, 0x10, 0x13, 0x1c, 0x1e, 0x1f, 0x21, 0x24, 0x2c, 0xa6, 0xa7, 0xab, 0xff,
  0x104, 0x105, 0x10c, 0x118, 0x16e, 0x1e9]

theorem foldIdx_spec : allBelow 152 (fun i => decide ((2519983525161285425082009838757261520581166080 >>> i) % 2 = 0 → caseFoldingOffset[i]? = some 0)) = true := by
  decide +kernel

theorem foldBlocks_ok : allRows (fun b _ i => decide ((2519983525161285425082009838757261520581166080 >>> i) % 2 = 1 → b ∈ foldBlocks)) 0 blockRows = true := by
  decide +kernel

theorem foldHighs_ok : allRows (fun k j b => decide (b ∈ foldBlocks → 256 * k + j ∈ foldHighs)) 0 blockStartRows = true := by
  decide +kernel

/-- What is checked for the code points of these blocks. -/
def FoldOk (cp : Nat) : Prop :=
  match simpleCaseFold cp with
  | none => False
  | some v => v / 0x10000 = cp / 0x10000 ∧ v ≤ 0x10FFFF ∧ (v < 0xD800 ∨ 0xDFFF < v) ∧ simpleCaseFold v = some v

instance (cp : Nat) : Decidable (FoldOk cp) := by
  unfold FoldOk; cases simpleCaseFold cp <;> infer_instance

theorem foldOk_highs : (foldHighs.all fun h => allBelow 256 fun l => decide (FoldOk (256 * h + l))) = true := by
  decide +kernel

theorem fold_ascii : allBelow 128 (fun c => decide (simpleCaseFold c = some (asciiFold c))) = true := by decide +kernel

theorem fold_unchanged {cp : Nat} (h : cp ≤ 0x10FFFF) (hx : cp / 256 ∉ foldHighs) : simpleCaseFold cp = some cp := by
  obtain ⟨i, h1, h2, h3⟩ := by_blocks (P := fun cp i => cp / 256 ∉ foldHighs → caseFoldingOffset[i]? = some 0) _
    foldBlocks_ok (by
      intro cp i b _ hi hb hc hx
      have hs := of_decide_eq_true (starts_spec foldHighs_ok hb)
      rw [show 256 * (cp / 256 / 256) + cp / 256 % 256 = cp / 256 by omega] at hs
      have hc := of_decide_eq_true hc
      have := of_decide_eq_true (allBelow_spec foldIdx_spec i hi)
      apply this
      rcases Nat.mod_two_eq_zero_or_one (2519983525161285425082009838757261520581166080 >>> i) with h | h
      · exact h
      · exact absurd (hs (hc h)) hx) cp h
  unfold simpleCaseFold
  rw [if_pos (by simpa [cpIsValid] using h), h1]
  simp only [Option.bind_some, h3 hx, Option.map_some, Option.some.injEq]
  omega

/-- C70, case folding: `simple_case_fold` never reads outside of the tables.  Folding twice is the same as folding
    once.  Scalar values are folded to scalar values of the same plane, surrogates and invalid values to
    themselves.  On ASCII it is the folding of `ascii::case_folding`. -/
theorem C70_case_fold (cp : Nat) : ∃ v, simpleCaseFold cp = some v ∧ simpleCaseFold v = some v ∧
    (Spec.IsScalar cp → Spec.IsScalar v ∧ v / 0x10000 = cp / 0x10000) ∧ (¬ Spec.IsScalar cp → v = cp) ∧
    (cp < 128 → v = asciiFold cp) := by
  have hasc : cp < 128 → simpleCaseFold cp = some (asciiFold cp) := fun h => of_decide_eq_true (allBelow_spec fold_ascii cp h)
  by_cases h : cp ≤ 0x10FFFF
  · by_cases hh : cp / 256 ∈ foldHighs
    · have hok := List.all_eq_true.1 foldOk_highs _ hh
      have := of_decide_eq_true (allBelow_spec hok (cp % 256) (by omega))
      rw [show 256 * (cp / 256) + cp % 256 = cp by omega] at this
      unfold FoldOk at this
      cases e : simpleCaseFold cp with
      | none => simp [e] at this
      | some v =>
        simp only [e] at this
        obtain ⟨h1, h2, h3, h4⟩ := this
        refine ⟨v, rfl, h4, fun _ => ⟨⟨h2, by omega⟩, h1⟩, fun hn => ?_, fun ha => ?_⟩
        · exfalso
          have : 0xD800 ≤ cp ∧ cp ≤ 0xDFFF := by
            unfold Spec.IsScalar at hn; omega
          simp only [foldHighs, List.mem_cons, List.not_mem_nil, or_false] at hh
          omega
        · rw [hasc ha] at e; simpa using e.symm
    · have e := fold_unchanged h hh
      refine ⟨cp, e, e, fun hs => ⟨hs, rfl⟩, fun _ => rfl, fun ha => ?_⟩
      rw [hasc ha] at e; simpa using e.symm
  · have e : simpleCaseFold cp = some cp := by
      unfold simpleCaseFold; rw [if_neg (by simpa [cpIsValid] using h)]
    refine ⟨cp, e, e, fun hs => absurd hs.1 h, fun _ => rfl, fun ha => by omega⟩

-- `Ä`, KELVIN SIGN, CAPITAL SHARP S, a Cherokee letter and DESERET CAPITAL LETTER LONG I.
example : [0xC4, 0x212A, 0x1E9E, 0xAB70, 0x10400].map simpleCaseFold
    = [some 0xE4, some 0x6B, some 0xDF, some 0x13A0, some 0x10428] := by decide +kernel

/-- The case folding of the library as a function. -/
def fold (cp : Nat) : Nat := (simpleCaseFold cp).getD cp

theorem fold_scalar (v : Nat) (h : Spec.IsScalar v) : Spec.IsScalar (fold v) := by
  obtain ⟨w, h1, -, h2, -⟩ := C70_case_fold v
  simp only [fold, h1, Option.getD_some]; exact (h2 h).1

theorem fold_faithful (v : Nat) (h : Spec.Faithful .utf16 v) : Spec.Faithful .utf16 (fold v) := by
  obtain ⟨w, h1, -, h2, -⟩ := C70_case_fold v
  simp only [fold, h1, Option.getD_some]
  simp only [Spec.Faithful] at h ⊢
  obtain ⟨h3, h4⟩ := h2 h.1
  exact ⟨h3, by omega⟩

theorem fold_fold (v : Nat) : fold (fold v) = fold v := by
  obtain ⟨w, h1, h2, -⟩ := C70_case_fold v
  simp [fold, h1, h2]

/-- C63, literals with the case folding of the library in UTF-8: a literal written with folded code points
    matches exactly the texts that are equal to it up to simple case folding. -/
theorem C63_literal_library (ws : List Nat) (hws : ∀ w ∈ ws, Spec.IsScalar w) (s : List Nat) (hs : Units 256 s) :
    ∃ ok n, cflTry .utf8 fold s ((ws.map fold).flatMap Spec.utf8) = some (ok, n) ∧
      ∀ m, (ok = true ∧ n = m) ↔
        ∃ vs : List Nat, (∀ v ∈ vs, Spec.IsScalar v) ∧ vs.map fold = ws.map fold ∧ vs.flatMap Spec.utf8 <+: s
          ∧ m = (vs.flatMap Spec.utf8).length := by
  refine C63_literal fold fold_scalar (ws.map fold) ?_ s hs
  intro w hw
  obtain ⟨v, hv, rfl⟩ := List.mem_map.1 hw
  exact fold_scalar v (hws v hv)

-- The literal "STRASSE" written as "strasse" matches "Straſſe" (with U+017F LONG S).
example : cflTry .utf8 fold ([0x53, 0x74, 0x72, 0x61, 0x17F, 0x17F, 0x65, 0x21].flatMap Spec.utf8)
    (([0x53, 0x54, 0x52, 0x41, 0x53, 0x53, 0x45].map fold).flatMap Spec.utf8) = some (true, 9) := by decide +kernel

/-- The same for UTF-16, for the planes that are decoded correctly. -/
theorem C63_literal_library_utf16_partial (ws : List Nat) (hws : ∀ w ∈ ws, Spec.Faithful .utf16 w) (s : List Nat)
    (hs : Units 65536 s) (hp : Spec.OddPlanes s) :
    ∃ ok n, cflTry .utf16 fold s ((ws.map fold).flatMap Spec.utf16) = some (ok, n) ∧
      ∀ m, (ok = true ∧ n = m) ↔
        ∃ vs : List Nat, (∀ v ∈ vs, Spec.Faithful .utf16 v) ∧ vs.map fold = ws.map fold ∧ vs.flatMap Spec.utf16 <+: s
          ∧ m = (vs.flatMap Spec.utf16).length := by
  refine C63_literal_utf16_partial fold fold_faithful (ws.map fold) ?_ s hs hp
  intro w hw
  obtain ⟨v, hv, rfl⟩ := List.mem_map.1 hw
  exact fold_faithful v (hws v hv)

end Verif.Udb
