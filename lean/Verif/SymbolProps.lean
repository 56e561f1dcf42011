import Verif.Symbol
import Verif.LiteralProps

/-
Properties C53 (flags) and C69 (symbol rules).
-/

namespace Verif

namespace Spec

/-- The symbol `w` has index `i`: the last mapping counts. -/
def SymbolAt (syms : List (List Nat)) (w : List Nat) (i : Nat) : Prop :=
  syms[i]? = some w ∧ ∀ j : Nat, i < j → syms[j]? ≠ some w

/-- One can get `n` units further by matching the token again and again. -/
inductive IdentRun (T : TokMatch) : List Nat → Nat → Prop
  | zero (s : List Nat) : IdentRun T s 0
  | step {s : List Nat} {n k : Nat} (h : T s = some n) (hp : 0 < n ∧ n ≤ s.length) (t : IdentRun T (s.drop n) k) :
      IdentRun T s (n + k)

/-- Wherever the symbol is matched, the first units are (the beginning of) an identifier. -/
def IsIdent (L T : TokMatch) (fold : Nat → Nat) (w : List Nat) : Prop :=
  ∀ s : List Nat, w <+: s.map fold → ∃ l k, L s = some l ∧ IdentRun T (s.drop l) k ∧ w.length = l + k

end Spec

open Spec

/-! ### Symbols -/

section

variable {t : SymTable} {eof : Option Nat} {L T : TokMatch} {s : List Nat}

/-- The identifier as a token. -/
def identTok (L T : TokMatch) (s : List Nat) : TokRes :=
  match identMatch L T s with
  | none => (false, 0)
  | some n => (true, n)

/-- **C69** `symbol<Table>(token)` as a branch is taken exactly if the token matches and its text, after case
    folding, is a symbol; the symbol is the one with that text. -/
theorem C69_token (hfold : ∀ u, t.fold (t.fold u) = t.fold u) (heof : ∀ w ∈ t.syms, ∀ c ∈ w, eof ≠ some c)
    (hs : ∀ u ∈ s, eof ≠ some u) (tok : List Nat → TokRes) :
    ∃ r, symTokTry t eof tok s = some r ∧
      ∀ i n, r = some (i, n) ↔ tok s = (true, n) ∧ SymbolAt t.syms ((s.take n).map t.fold) i := by
  unfold symTokTry
  cases htok : tok s with
  | mk ok n =>
    cases ok with
    | false => exact ⟨none, rfl, fun i n => by simp⟩
    | true =>
      obtain ⟨r, hr, h1⟩ := C12_symbol_parse t.syms eof t.fold hfold heof (s.take n)
        (fun u hu => hs u (List.mem_of_mem_take hu))
      simp only [hr]
      cases r with
      | none =>
        refine ⟨none, rfl, fun i m => ⟨nofun, fun ⟨h2, h3⟩ => ?_⟩⟩
        cases h2
        exact absurd ((h1 i).2 h3) nofun
      | some j =>
        refine ⟨some (j, n), rfl, fun i m => ⟨fun h => ?_, fun ⟨h2, h3⟩ => ?_⟩⟩
        · cases h; exact ⟨rfl, (h1 j).1 rfl⟩
        · cases h2
          have := (h1 i).2 h3
          cases this
          rfl

theorem trailLoop_reach {k : Nat} (h : IdentRun T s k) : trailLoop T s = k + trailLoop T (s.drop k) := by
  induction h with
  | zero s => simp
  | @step s n k h hp t ih =>
    rw [trailLoop]
    simp only [h, hp, and_self, dif_pos]
    rw [ih, List.drop_drop, Nat.add_assoc]

theorem trailLoop_none (h : T s = none) : trailLoop T s = 0 := by
  rw [trailLoop]; simp [h]

theorem trailLoop_pos (hT : ∀ s n, T s = some n → 0 < n ∧ n ≤ s.length) (h : (T s).isSome) : 0 < trailLoop T s := by
  rw [trailLoop]
  cases hn : T s with
  | none => simp [hn] at h
  | some n => simp only [hT s n hn, and_self, dif_pos]; have := (hT s n hn).1; omega

theorem symTrail_le (T : TokMatch) (s : List Nat) : trailLoop T s ≤ s.length := by
  rw [trailLoop]
  split
  · omega
  · rename_i n _
    split
    · rename_i h
      have : trailLoop T (s.drop n) ≤ (s.drop n).length := symTrail_le T _
      rw [List.length_drop] at this
      omega
    · omega
termination_by s.length
decreasing_by simp; omega

theorem symbolAt_unique {syms : List (List Nat)} {w : List Nat} {i j : Nat} (h1 : SymbolAt syms w i)
    (h2 : SymbolAt syms w j) : i = j := by
  rcases Nat.lt_trichotomy i j with h | h | h
  · exact absurd h2.1 (h1.2 j h)
  · exact h
  · exact absurd h1.1 (h2.2 i h)

/-- The identifier that begins with a symbol. -/
theorem identMatch_symbol {w : List Nat} (hw : IsIdent L T t.fold w) (hp : w <+: s.map t.fold) :
    identMatch L T s = some (w.length + trailLoop T (s.drop w.length)) := by
  obtain ⟨l, k, h1, h2, h3⟩ := hw s hp
  simp only [identMatch, h1]
  rw [trailLoop_reach h2, List.drop_drop, h3, Nat.add_assoc]

theorem take_map_prefix {n : Nat} {f : Nat → Nat} : (s.take n).map f <+: s.map f := by
  rw [List.map_take]
  exact List.take_prefix _ _

theorem prefix_take {w : List Nat} {f : Nat → Nat} (h : w <+: s.map f) : (s.take w.length).map f = w := by
  rw [List.map_take]; exact (List.prefix_iff_eq_take.1 h).symm

/-- **C69** The optimized version for identifiers accepts the same as the general version, if the symbols are
    identifiers. -/
theorem C69_identifier_partial (hfold : ∀ u, t.fold (t.fold u) = t.fold u)
    (heof : ∀ w ∈ t.syms, ∀ c ∈ w, eof ≠ some c) (hs : ∀ u ∈ s, eof ≠ some u)
    (hL : ∀ s n, L s = some n → n ≤ s.length) (hT : ∀ s n, T s = some n → 0 < n ∧ n ≤ s.length)
    (hid : ∀ w ∈ t.syms, IsIdent L T t.fold w) :
    symIdTry t eof T s = symTokTry t eof (identTok L T) s := by
  obtain ⟨r, hr, h1⟩ := C69_token hfold heof hs (identTok L T)
  obtain ⟨q, hq, h2, h3⟩ := C12_symbol_longest t.syms eof t.fold hfold heof s
  rw [hr]
  simp only [symIdTry, hq]
  have hlen : ∀ n, identMatch L T s = some n → n ≤ s.length := by
    intro n hn
    unfold identMatch at hn
    cases hl : L s with
    | none => simp [hl] at hn
    | some l =>
      simp only [hl, Option.some.injEq] at hn
      have h5 := hL s l hl
      have : trailLoop T (s.drop l) ≤ (s.drop l).length := symTrail_le T _
      rw [List.length_drop] at this
      omega
  cases q with
  | none =>
    simp only
    congr 1
    cases r with
    | none => rfl
    | some x =>
      obtain ⟨i, n⟩ := x
      obtain ⟨_, h4, _⟩ := (h1 i n).1 rfl
      exact absurd take_map_prefix (h3.1 rfl _ (List.mem_of_getElem? h4))
  | some x =>
    obtain ⟨i, n⟩ := x
    obtain ⟨w, h4, h5, h6, h7, h8⟩ := (h2 i n).1 rfl
    subst h7
    have hm := identMatch_symbol (hid w (List.mem_of_getElem? h4)) h6
    simp only
    cases hTs : T (s.drop w.length) with
    | none =>
      simp only [Option.isSome_none, Bool.false_eq_true, if_false, Option.some.injEq]
      rw [trailLoop_none hTs] at hm
      refine ((h1 i w.length).2 ⟨by simp [identTok, hm], ?_⟩).symm
      rw [prefix_take h6]
      exact ⟨h4, h5⟩
    | some k =>
      simp only [Option.isSome_some, if_true, Option.some.injEq]
      cases r with
      | none => rfl
      | some x =>
        obtain ⟨j, n⟩ := x
        obtain ⟨h9, h10, _⟩ := (h1 j n).1 rfl
        simp only [identTok, hm, Prod.mk.injEq, true_and] at h9
        have h11 := h8 _ (List.mem_of_getElem? h10) take_map_prefix
        have h12 := hlen _ hm
        have h13 := trailLoop_pos hT (s := s.drop w.length) (by simp [hTs])
        rw [← h9] at h11
        simp at h11
        omega

/-- **C69** The same for `p::parse`, but the range of `unknown_symbol` is longer by the whitespace behind the
    identifier. -/
theorem C69_identifier_parse_partial (ws : List Nat → Nat) (hfold : ∀ u, t.fold (t.fold u) = t.fold u)
    (heof : ∀ w ∈ t.syms, ∀ c ∈ w, eof ≠ some c) (hs : ∀ u ∈ s, eof ≠ some u)
    (hL : ∀ s n, L s = some n → n ≤ s.length) (hT : ∀ s n, T s = some n → 0 < n ∧ n ≤ s.length)
    (hid : ∀ w ∈ t.syms, IsIdent L T t.fold w) :
    ∃ r, symTokParse t eof (identTok L T) ws s = some r ∧
      symIdParse t eof L T ws s = some (match (generalizing := false) r with
        | .unknown b e => .unknown b (e + ws (s.drop e))
        | x => x) := by
  have h := C69_identifier_partial (s := s) hfold heof hs hL hT hid
  obtain ⟨q, hq, -, -⟩ := C12_symbol_longest t.syms eof t.fold hfold heof s
  unfold symIdTry symTokTry at h
  unfold symIdParse symTokParse
  simp only [hq] at h ⊢
  cases hm : identMatch L T s with
  | none =>
    simp only [identTok, hm] at h ⊢
    refine ⟨_, rfl, ?_⟩
    cases q with
    | none => rfl
    | some x =>
      obtain ⟨i, n⟩ := x
      simp only at h
      split at h
      · rename_i h1; simp [h1, Option.filter]
      · simp at h
  | some n =>
    simp only [identTok, hm] at h ⊢
    obtain ⟨p, hp, -⟩ := C12_symbol_parse t.syms eof t.fold hfold heof (s.take n)
        (fun u hu => hs u (List.mem_of_mem_take hu))
    simp only [hp] at h ⊢
    cases p with
    | none =>
      refine ⟨_, rfl, ?_⟩
      cases q with
      | none => rfl
      | some x =>
        obtain ⟨i, m⟩ := x
        simp only at h
        split at h
        · rename_i h1; simp [h1, Option.filter]
        · simp at h
    | some j =>
      refine ⟨_, rfl, ?_⟩
      cases q with
      | none => simp at h
      | some x =>
        obtain ⟨i, m⟩ := x
        simp only at h
        split at h
        · simp at h
        · rename_i h1
          simp only [Option.some.injEq, Prod.mk.injEq] at h
          obtain ⟨rfl, rfl⟩ := h
          simp only [Bool.not_eq_true] at h1
          simp [h1, Option.filter]

end

/-! Classes of single code units. -/

/-- A class of code units as a token. -/
def symUnitTok (p : Nat → Bool) : TokMatch
  | [] => none
  | u :: _ => if p u then some 1 else none

theorem symUnitTok_good {p : Nat → Bool} {s : List Nat} {n : Nat} (h : symUnitTok p s = some n) : 0 < n ∧ n ≤ s.length := by
  cases s with
  | nil => simp [symUnitTok] at h
  | cons u s =>
    simp only [symUnitTok] at h
    split at h
    · cases h; simp
    · simp at h

/-- With classes of code units that are not affected by case folding, a symbol is an identifier if it looks like
    one. -/
theorem isIdent_units {pl pt : Nat → Bool} {fold : Nat → Nat} (hl : ∀ u, pl (fold u) = pl u) (ht : ∀ u, pt (fold u) = pt u)
    {c : Nat} {w : List Nat} (hc : pl c = true) (hw : ∀ u ∈ w, pt u = true) :
    IsIdent (symUnitTok pl) (symUnitTok pt) fold (c :: w) := by
  intro s hp
  cases s with
  | nil => simp at hp
  | cons u s =>
    rw [List.map_cons, List.cons_prefix_cons] at hp
    refine ⟨1, w.length, ?_, ?_, by simp; omega⟩
    · rw [hp.1, hl] at hc
      simp [symUnitTok, hc]
    · simp only [List.drop_succ_cons, List.drop_zero]
      have := hp.2
      clear hp
      induction w generalizing s with
      | nil => exact .zero _
      | cons d w ih =>
        cases s with
        | nil => simp at this
        | cons v s =>
          rw [List.map_cons, List.cons_prefix_cons] at this
          have h1 : pt v = true := by rw [← ht, ← this.1]; exact hw d (by simp)
          have := IdentRun.step (T := symUnitTok pt) (s := v :: s) (n := 1) (k := w.length) (by simp [symUnitTok, h1]) (by simp)
            (ih (fun u hu => hw u (by simp [hu])) s this.2)
          simpa [Nat.add_comm] using this

/-- Letters. -/
def Ex.symLetter : Nat → Bool := fun u => (97 ≤ u && u ≤ 122) || (65 ≤ u && u ≤ 90)

/-- The symbols `in`, `int`, `out`. -/
def Ex.symTab : SymTable where
  syms := [[105, 110], [105, 110, 116], [111, 117, 116]]
  vals := [1, 2, 4]

/-- The hypotheses can be met. -/
example : ∀ w ∈ Ex.symTab.syms, IsIdent (symUnitTok Ex.symLetter) (symUnitTok Ex.symLetter) Ex.symTab.fold w := by
  intro w hw
  simp only [Ex.symTab, List.mem_cons, List.not_mem_nil, or_false] at hw
  rcases hw with rfl | rfl | rfl <;> exact isIdent_units (fun _ => rfl) (fun _ => rfl) (by decide) (by decide)

/-- Spaces. -/
def Ex.spaces (s : List Nat) : Nat := (s.takeWhile (· == 32)).length

/-- `int `, `inx `, `1` with identifiers. -/
example : symIdParse Ex.symTab none (symUnitTok Ex.symLetter) (symUnitTok Ex.symLetter) Ex.spaces [105, 110, 116, 32] = some (.ok 1 3 1)
    ∧ symIdParse Ex.symTab none (symUnitTok Ex.symLetter) (symUnitTok Ex.symLetter) Ex.spaces [49] = some .tokenFailed
    ∧ symIdTry Ex.symTab none (symUnitTok Ex.symLetter) [105, 110, 120, 32] = some none := by decide +kernel

/-- **C69**, refuted: for `inx ` the error covers the whitespace.  Documented (symbol.adoc): "its range covers the entire
    partial input", "the (non-whitespace) code units". -/
theorem C69_unknown_range_refuted :
    symIdParse Ex.symTab none (symUnitTok Ex.symLetter) (symUnitTok Ex.symLetter) Ex.spaces [105, 110, 120, 32] = some (.unknown 0 4)
    ∧ symTokParse Ex.symTab none (identTok (symUnitTok Ex.symLetter) (symUnitTok Ex.symLetter)) Ex.spaces [105, 110, 120, 32]
      = some (.unknown 0 3) := by decide +kernel

/-- **C69**, refuted: a symbol that is no identifier is accepted (`a-b`, where the identifier is `a`), and so is a
    symbol with letters of the other case that are not in the class. -/
theorem C69_identifier_refuted :
    (let t : SymTable := { syms := [[97, 45, 98]], vals := [1] }
     symIdTry t none (symUnitTok Ex.symLetter) [97, 45, 98] = some (some (0, 3))
     ∧ symTokTry t none (identTok (symUnitTok Ex.symLetter) (symUnitTok Ex.symLetter)) [97, 45, 98] = some none)
    ∧ (let t : SymTable := { syms := [[97, 98]], vals := [1], fold := asciiFold }
       let lower := symUnitTok fun u => 97 ≤ u && u ≤ 122
       symIdTry t none lower [65, 66] = some (some (0, 2))
       ∧ symTokTry t none (identTok lower lower) [65, 66] = some none) := by decide +kernel

/-! ### Flags -/

namespace Spec

/-- The flags in the input from position `p` to `q`, each with its bits and range (with the whitespace behind). -/
inductive FlagRun (t : SymTable) (sym : List Nat → Option (Option (Nat × Nat))) (ws : List Nat → Nat) :
    List Nat → Nat → List (Nat × Nat × Nat) → Nat → Prop
  | stop {s : List Nat} (p : Nat) (h : sym s = some none) : FlagRun t sym ws s p [] p
  | step {s : List Nat} {p i n q : Nat} {xs : List (Nat × Nat × Nat)} (h : sym s = some (some (i, n)))
      (hm : 0 < n + ws (s.drop n))
      (tl : FlagRun t sym ws (s.drop (n + ws (s.drop n))) (p + (n + ws (s.drop n))) xs q) :
      FlagRun t sym ws s p ((t.get i, p, p + (n + ws (s.drop n))) :: xs) q

/-- All bits of `x` are set in `d` or in the first `k` flags. -/
def Covered (d : Nat) (xs : List (Nat × Nat × Nat)) (k x : Nat) : Prop :=
  ∀ b, x.testBit b = true → d.testBit b = true ∨ ∃ y ∈ xs.take k, y.1.testBit b = true

end Spec

section

variable {t : SymTable} {sym : List Nat → Option (Option (Nat × Nat))} {ws : List Nat → Nat}

theorem FlagRun.ge {s : List Nat} {p q : Nat} {xs : List (Nat × Nat × Nat)} (h : FlagRun t sym ws s p xs q) :
    ∀ x ∈ xs, p ≤ x.2.1 ∧ x.2.1 < x.2.2 := by
  induction h with
  | stop => simp
  | step h hm tl ih =>
    intro x hx
    simp only [List.mem_cons] at hx
    rcases hx with rfl | hx
    · simp only; omega
    · have := ih x hx; omega

theorem FlagRun.value {s : List Nat} {p q : Nat} {xs : List (Nat × Nat × Nat)} (h : FlagRun t sym ws s p xs q)
    (hi : ∀ s i n, sym s = some (some (i, n)) → i < t.vals.length) : ∀ x ∈ xs, x.1 ∈ t.vals := by
  induction h with
  | stop => simp
  | step h hm tl ih =>
    intro y hy
    simp only [List.mem_cons] at hy
    rcases hy with rfl | hy
    · simp only [SymTable.get, List.getD_eq_getElem?_getD, List.getElem?_eq_getElem (hi _ _ _ h), Option.getD_some]
      exact List.getElem_mem _
    · exact ih y hy

theorem and_eq_iff (d x : Nat) : (d &&& x == x) = true ↔ ∀ b, x.testBit b = true → d.testBit b = true := by
  rw [beq_iff_eq]
  constructor
  · intro h b hb
    have := congrArg (Nat.testBit · b) h
    simp only [Nat.testBit_and, hb, Bool.and_true] at this
    exact this
  · intro h
    apply Nat.eq_of_testBit_eq
    intro b
    rw [Nat.testBit_and]
    cases hb : x.testBit b with
    | false => simp
    | true => simp [h b hb]

theorem flagsLoop_spec (s : List Nat) : ∀ {d p : Nat} {r : FlagsRes}, flagsLoop t sym ws s d p = some r →
    ∃ xs, FlagRun t sym ws s p xs r.pos
      ∧ (∀ b, r.bits.testBit b = true ↔ d.testBit b = true ∨ ∃ x ∈ xs, x.1.testBit b = true)
      ∧ r.dups.Sublist (xs.map (·.2))
      ∧ ∀ k x, xs[k]? = some x → (x.2 ∈ r.dups ↔ Covered d xs k x.1) := by
  intro d p r h
  rw [flagsLoop] at h
  cases hsym : sym s with
  | none => simp [hsym] at h
  | some o =>
    cases o with
    | none =>
      simp only [hsym, Option.some.injEq] at h
      subst h
      exact ⟨[], .stop _ hsym, by simp, by simp, by simp⟩
    | some x =>
      obtain ⟨i, n⟩ := x
      simp only [hsym] at h
      split at h
      · rename_i hm
        rw [Option.map_eq_some_iff] at h
        obtain ⟨r', h1, rfl⟩ := h
        obtain ⟨xs, a1, a2, a3, a4⟩ := flagsLoop_spec (s.drop (n + ws (s.drop n))) h1
        refine ⟨_, .step hsym hm.1 a1, ?_, ?_, ?_⟩
        · intro b
          simp only [a2, Nat.testBit_or, Bool.or_eq_true, List.mem_cons, exists_eq_or_imp]
          simp only [or_assoc]
        · simp only [List.map_cons]
          split
          · exact a3.cons₂ _
          · exact a3.cons _
        · intro k x hk
          have hge := FlagRun.ge a1
          cases k with
          | zero =>
            simp only [List.getElem?_cons_zero, Option.some.injEq] at hk
            subst hk
            have hno : (p, p + (n + ws (s.drop n))) ∉ r'.dups := by
              intro hmem
              have := a3.subset hmem
              simp only [List.mem_map] at this
              obtain ⟨y, hy, he⟩ := this
              have := (hge y hy).1
              rw [he] at this
              simp only at this
              omega
            simp only [List.mem_append, hno, or_false]
            rw [show (Covered d ((t.get i, p, p + (n + ws (s.drop n))) :: xs) 0 (t.get i)) ↔
              (d &&& t.get i == t.get i) = true by rw [and_eq_iff]; simp [Covered]]
            split <;> simp_all
          | succ k =>
            simp only [List.getElem?_cons_succ] at hk
            have hx := List.mem_of_getElem? hk
            have hno : x.2 ∉ (if (d &&& t.get i == t.get i) = true then [(p, p + (n + ws (s.drop n)))] else []) := by
              intro hmem
              split at hmem
              · simp only [List.mem_singleton] at hmem
                have := (hge x hx).1
                rw [hmem] at this
                simp only at this
                omega
              · simp at hmem
            simp only [List.mem_append, hno, false_or, a4 k x hk]
            unfold Covered
            apply forall_congr'
            intro b
            simp [Nat.testBit_or, or_assoc]
      · simp at h
termination_by s.length
decreasing_by simp; omega

/-- **C53** `flags` parses flags as long as there are some; the result has exactly the bits of the default and of the flags;
    and exactly the flags are reported whose bits were all set before. -/
theorem C53_flags {s : List Nat} {d : Nat} {r : FlagsRes} (h : flagsParse t d sym ws s = some r) :
    ∃ xs, FlagRun t sym ws s 0 xs r.pos
      ∧ (∀ b, r.bits.testBit b = true ↔ d.testBit b = true ∨ ∃ x ∈ xs, x.1.testBit b = true)
      ∧ r.dups.Sublist (xs.map (·.2))
      ∧ ∀ k x, xs[k]? = some x → (x.2 ∈ r.dups ↔ Covered d xs k x.1) :=
  flagsLoop_spec s h

/-- **C53** If the symbol rule is defined and never matches without consuming, `flags` terminates. -/
theorem C53_total (hs : ∀ s, ∃ r, sym s = some r ∧ ∀ i n, r = some (i, n) → 0 < n ∧ n ≤ s.length)
    (hws : ∀ s, ws s ≤ s.length) (s : List Nat) (d p : Nat) : (flagsLoop t sym ws s d p).isSome := by
  rw [flagsLoop]
  obtain ⟨r, h1, h2⟩ := hs s
  cases r with
  | none => simp [h1]
  | some x =>
    obtain ⟨i, n⟩ := x
    obtain ⟨h3, h4⟩ := h2 i n rfl
    have h5 := hws (s.drop n)
    rw [List.length_drop] at h5
    have h6 : 0 < n + ws (s.drop n) ∧ n + ws (s.drop n) ≤ s.length := by omega
    have ih := C53_total hs hws (s.drop (n + ws (s.drop n))) (d ||| t.get i) (p + (n + ws (s.drop n)))
    simp [h1, h6, ih]
termination_by s.length
decreasing_by simp; omega

/-- **C53** If the flags have no bits in common with each other and with the default, and each has a bit, exactly the flags
    are reported that are repeated. -/
theorem C53_documented_partial {s : List Nat} {d : Nat} {r : FlagsRes} (h : flagsParse t d sym ws s = some r)
    (hi : ∀ s i n, sym s = some (some (i, n)) → i < t.vals.length) (hz : ∀ v ∈ t.vals, v ≠ 0)
    (hd : ∀ v ∈ t.vals, v &&& d = 0) (hc : ∀ v ∈ t.vals, ∀ w ∈ t.vals, v ≠ w → v &&& w = 0) :
    ∃ xs, FlagRun t sym ws s 0 xs r.pos
      ∧ ∀ k x, xs[k]? = some x → (x.2 ∈ r.dups ↔ ∃ y ∈ xs.take k, y.1 = x.1) := by
  obtain ⟨xs, a1, -, -, a4⟩ := C53_flags h
  refine ⟨xs, a1, fun k x hk => ?_⟩
  rw [a4 k x hk]
  have hval := FlagRun.value a1 hi
  have hx := hval x (List.mem_of_getElem? hk)
  constructor
  · intro hcov
    obtain ⟨b, hb⟩ := Nat.exists_testBit_of_ne_zero (hz _ hx)
    rcases hcov b hb with h1 | ⟨y, hy, h1⟩
    · have := congrArg (Nat.testBit · b) (hd _ hx)
      simp [hb, h1] at this
    · refine ⟨y, hy, ?_⟩
      refine Classical.byContradiction fun hne => ?_
      have := congrArg (Nat.testBit · b) (hc _ (hval y (List.mem_of_mem_take hy)) _ hx hne)
      simp [hb, h1] at this
  · rintro ⟨y, hy, he⟩ b hb
    exact .inr ⟨y, hy, by rw [he]; exact hb⟩

end

/-- `in out in`. -/
example : flagsParse Ex.symTab 0 (symTry Ex.symTab none) Ex.spaces [105, 110, 32, 111, 117, 116, 32, 105, 110]
    = some ⟨5, 9, [(7, 9)]⟩ := by decide +kernel

/-- The hypotheses of `C53_documented_partial` can be met, and those of `C53_total`. -/
example : (∀ v ∈ Ex.symTab.vals, v ≠ 0) ∧ (∀ v ∈ Ex.symTab.vals, v &&& 8 = 0)
    ∧ (∀ v ∈ Ex.symTab.vals, ∀ w ∈ Ex.symTab.vals, v ≠ w → v &&& w = 0) := by decide

example : ∀ s, ∃ r, symTry Ex.symTab none s = some r ∧ ∀ i n, r = some (i, n) → i < Ex.symTab.vals.length ∧ 0 < n ∧ n ≤ s.length := by
  intro s
  obtain ⟨r, h1, h2, -⟩ := C12_symbol_longest Ex.symTab.syms none id (fun _ => rfl) (fun _ _ _ _ => nofun) s
  refine ⟨r, h1, fun i n h => ?_⟩
  obtain ⟨w, h3, -, h4, rfl, -⟩ := (h2 i n).1 h
  have hi := (List.getElem?_eq_some_iff.1 h3).1
  have hw : ∀ w ∈ Ex.symTab.syms, 0 < w.length := by decide
  exact ⟨hi, hw w (List.mem_of_getElem? h3), by simpa using h4.length_le⟩

/-- **C53**, refuted for flags without bits: documented is `(result & flag) != 0`, and that an error is reported "if a flag has
    already been parsed"; but a flag with the value 0 is reported when it is parsed for the first time. -/
theorem C53_zero_refuted :
    flagsParse { syms := [[111]], vals := [0] } 0 (symTry { syms := [[111]], vals := [0] } none) Ex.spaces [111]
      = some ⟨0, 1, [(0, 1)]⟩ := by decide +kernel

/-- **C53**, refuted: the range of the error does not only cover the duplicate flag, but also the whitespace behind. -/
theorem C53_range_refuted :
    flagsParse Ex.symTab 0 (symTry Ex.symTab none) Ex.spaces [105, 110, 32, 105, 110, 32, 32]
      = some ⟨1, 7, [(3, 7)]⟩ := by decide +kernel

end Verif
