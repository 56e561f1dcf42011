import Verif.Identifier
import Verif.CharClassProps
import Verif.LiteralProps
import Verif.AsciiSwarProps

/-!
Properties C13 (keywords) and C14 (identifiers and reservations).
-/

namespace Verif

/-! ## Locality of the code point decoder -/

/-- The EOF-like unit of each encoding. -/
def Enc.eof : Enc → Option Nat
  | .ascii => some 0xFF | .utf8 => some 0xFF | .utf16 => none | .utf32 => some 0xFFFFFFFF

theorem parseCp_local (e : Enc) (s r : List Nat) (hs : Units e.bound s) (hr : Units e.bound r)
    (h : (parseCp e s).error = .success) :
    parseCp e (s.take (parseCp e s).len ++ r) = parseCp e s := by
  cases e with
  | ascii =>
    cases s with
    | nil => simp [parseCp, parseAscii, peek8] at h
    | cons u t =>
      simp only [parseCp, CC.parseAscii_cons] at h ⊢
      split at h
      · simp at h
      split at h
      · rename_i h1 h2; simp [CC.parseAscii_cons, h1, h2]
      · simp at h
  | utf8 =>
    obtain ⟨h1, h2, h3⟩ := C02_utf8_decode_sound s hs h
    show parseUtf8 (s.take (parseUtf8 s).len ++ r) = parseUtf8 s
    rw [h3, specUtf8_parse h1 hr, ← h3]
    have hh : (parseUtf8 s).error = .success := h
    have hl : (s.take (parseUtf8 s).len).length = (parseUtf8 s).len := by simp; omega
    rw [hl]
    rcases hp : parseUtf8 s with ⟨a, b, c⟩
    rw [hp] at hh
    simp only at hh ⊢
    rw [hh]
  | utf16 =>
    cases s with
    | nil => simp [parseCp, parseUtf16] at h
    | cons u t =>
      simp only [parseCp, parseUtf16] at h ⊢
      by_cases c1 : u &&& 0xFC00 = 0xD800
      · rw [if_pos c1] at h ⊢
        cases t with
        | nil => simp at h
        | cons v t =>
          simp only at h ⊢
          by_cases c2 : v &&& 0xFC00 ≠ 0xDC00
          · rw [if_pos c2] at h; simp at h
          · rw [if_neg c2] at h ⊢
            simp [c1, c2]
      · rw [if_neg c1] at h ⊢
        by_cases c2 : u &&& 0xFC00 = 0xDC00
        · rw [if_pos c2] at h; simp at h
        · rw [if_neg c2] at h ⊢
          simp [c1, c2]
  | utf32 =>
    cases s with
    | nil => simp [parseCp, parseUtf32] at h
    | cons u t =>
      simp only [parseCp, CC.parseUtf32_cons] at h ⊢
      split at h
      · simp at h
      split at h
      · simp at h
      split at h
      · simp at h
      · rename_i h1 h2 h3
        rw [if_neg h1, if_neg h2, if_neg h3]
        simp only [List.take_succ_cons, List.take_zero, List.cons_append, List.nil_append,
          CC.parseUtf32_cons]
        rw [if_neg h1, if_neg h2, if_neg h3]

/-- A well-formed code point does not contain the EOF-like unit. -/
theorem parseCp_no_eof (e : Enc) (s : List Nat) (hs : Units e.bound s)
    (h : (parseCp e s).error = .success) : ∀ u ∈ s.take (parseCp e s).len, e.eof ≠ some u := by
  cases e with
  | ascii =>
    cases s with
    | nil => simp [parseCp, parseAscii, peek8] at h
    | cons u t =>
      simp only [parseCp, CC.parseAscii_cons] at h ⊢
      split at h
      · simp at h
      split at h
      · rename_i h1 h2; simp [h1, h2, Enc.eof]; omega
      · simp at h
  | utf8 =>
    obtain ⟨h1, h2, h3⟩ := C02_utf8_decode_sound s hs h
    show ∀ u ∈ s.take (parseUtf8 s).len, _
    rw [h3]
    intro u hu
    have : u < 0xF5 := by
      obtain ⟨a, b⟩ := h1
      unfold Spec.utf8 at hu
      split at hu
      · simp at hu; omega
      split at hu
      · simp at hu; omega
      split at hu
      · simp at hu; omega
      · simp at hu; omega
    simp only [Enc.eof, ne_eq, Option.some.injEq]; omega
  | utf16 => intro u _; simp [Enc.eof]
  | utf32 =>
    cases s with
    | nil => simp [parseCp, parseUtf32] at h
    | cons u t =>
      simp only [parseCp, CC.parseUtf32_cons] at h ⊢
      split at h
      · simp at h
      · rename_i h1
        intro v hv
        have : v = u := by
          (repeat' split at hv) <;> simp at hv <;> exact hv
        subst this
        simp only [Enc.eof, ne_eq, Option.some.injEq]; omega

/-- Laws of a character class token on inputs with units below `B`. -/
structure GoodTok (B : Nat) (m : TokMatch) : Prop where
  pos : ∀ s n, Units B s → m s = some n → 0 < n ∧ n ≤ s.length
  loc : ∀ s n r, Units B s → Units B r → m s = some n → m (s.take n ++ r) = some n

theorem CC.good_tryParse (e : Enc) (c : CC) (h : c.Ok) : GoodTok e.bound (c.tryParse e) := by
  constructor
  · intro s n hs hm
    obtain ⟨h1, h2, rfl⟩ := (CC.C08_class_token e c h s hs n).1 hm
    refine ⟨?_, parseCp_len_le e s hs⟩
    rcases Nat.eq_zero_or_pos (parseCp e s).len with h0 | h0
    · have := parseCp_len_pos e s hs h0
      rw [h1] at this; simp at this
    · exact h0
  · intro s n r hs hr hm
    obtain ⟨h1, h2, rfl⟩ := (CC.C08_class_token e c h s hs n).1 hm
    rw [CC.C08_class_token e c h _ (Units.append (fun u hu => hs u (List.mem_of_mem_take hu)) hr),
      parseCp_local e s r hs hr h1]
    exact ⟨h1, h2, rfl⟩

theorem trailLoop_le (T : TokMatch) (s : List Nat) : trailLoop T s ≤ s.length := by
  fun_induction trailLoop T s with
  | case1 => omega
  | case2 s n _ h ih => simp at ih; omega
  | case3 => omega

/-! ## C14: the identifier pattern -/

/-- Specification: the first `n` units of `s` are well-formed code points that all satisfy `P`. -/
inductive Spec.CpRun (e : Enc) (P : Nat → Prop) : List Nat → Nat → Prop
  | nil (s) : CpRun e P s 0
  | cons {s n} : (parseCp e s).error = .success → P (parseCp e s).cp →
      CpRun e P (s.drop (parseCp e s).len) n → CpRun e P s ((parseCp e s).len + n)

theorem trailLoop_run (e : Enc) (c : CC) (h : c.Ok) (s : List Nat) (hs : Units e.bound s) :
    Spec.CpRun e c.denote s (trailLoop (c.tryParse e) s) ∧
    ∀ m, Spec.CpRun e c.denote s m → m ≤ trailLoop (c.tryParse e) s := by
  generalize hN : s.length = N
  induction N using Nat.strongRecOn generalizing s with
  | _ N ih =>
    subst hN
    rw [trailLoop]
    cases hm : c.tryParse e s with
    | none =>
      simp only
      refine ⟨.nil s, ?_⟩
      intro m hr
      cases hr with
      | nil => omega
      | cons h1 h2 h3 =>
        have := (CC.C08_class_token e c h s hs _).2 ⟨h1, h2, rfl⟩
        rw [hm] at this; simp at this
    | some n =>
      have hp := (CC.good_tryParse e c h).pos s n hs hm
      obtain ⟨h1, h2, rfl⟩ := (CC.C08_class_token e c h s hs n).1 hm
      simp only [hp, and_self, dite_true]
      obtain ⟨i1, i2⟩ := ih (s.drop (parseCp e s).len).length (by simp; omega) _ (hs.drop _) rfl
      refine ⟨.cons h1 h2 i1, ?_⟩
      intro m hr
      cases hr with
      | nil => omega
      | cons g1 g2 g3 => have := i2 _ g3; omega

/-- C14: an identifier consumes exactly one leading character followed by the longest run of trailing
    characters; it fails exactly if no leading character follows. -/
theorem C14_identifier_run (e : Enc) (L T : CC) (hL : L.Ok) (hT : T.Ok) (s : List Nat)
    (hs : Units e.bound s) (n : Nat) :
    identMatch (L.tryParse e) (T.tryParse e) s = some n ↔
      (parseCp e s).error = .success ∧ L.denote (parseCp e s).cp ∧
      ∃ m, n = (parseCp e s).len + m ∧ Spec.CpRun e T.denote (s.drop (parseCp e s).len) m ∧
        ∀ m', Spec.CpRun e T.denote (s.drop (parseCp e s).len) m' → m' ≤ m := by
  unfold identMatch
  cases hm : L.tryParse e s with
  | none =>
    simp only [reduceCtorEq, false_iff, not_and]
    intro h1 h2
    have := (CC.C08_class_token e L hL s hs _).2 ⟨h1, h2, rfl⟩
    rw [hm] at this; simp at this
  | some n' =>
    obtain ⟨h1, h2, rfl⟩ := (CC.C08_class_token e L hL s hs n').1 hm
    obtain ⟨i1, i2⟩ := trailLoop_run e T hT (s.drop (parseCp e s).len) (hs.drop _)
    simp only [Option.some.injEq, h1, h2, true_and]
    constructor
    · rintro rfl; exact ⟨_, rfl, i1, i2⟩
    · rintro ⟨m, rfl, g1, g2⟩
      have := g2 _ i1; have := i2 _ g1; omega

theorem identMatch_le (e : Enc) (L T : CC) (hL : L.Ok) (s : List Nat)
    (hs : Units e.bound s) (n : Nat) (h : identMatch (L.tryParse e) (T.tryParse e) s = some n) :
    0 < n ∧ n ≤ s.length := by
  unfold identMatch at h
  cases hm : L.tryParse e s with
  | none => rw [hm] at h; simp at h
  | some k =>
    rw [hm] at h
    simp only [Option.some.injEq] at h
    have := (CC.good_tryParse e L hL).pos s k hs hm
    have := trailLoop_le (T.tryParse e) (s.drop k)
    simp at this; omega

/-! ### The SWAR loop of the identifier pattern -/

theorem peek8_pad (s : List Nat) (m i : Nat) :
    peek8 ((s ++ List.replicate m 0xFF).drop i) = peek8 (s.drop i) := by
  unfold peek8
  rw [List.drop_append]
  cases h : s.drop i with
  | cons u t => simp
  | nil =>
    simp only [List.nil_append, List.drop_replicate]
    cases m - (i - s.length) <;> simp [List.replicate_succ]

theorem parseCp_pad (e : Enc) (he : e ≠ .utf16) (s : List Nat) (m u : Nat) (hu : e.eof = some u) :
    parseCp e (s ++ List.replicate m u) = parseCp e s := by
  cases e with
  | ascii =>
    cases hu
    simp only [parseCp, parseAscii]
    have := peek8_pad s m 0
    simp only [List.drop_zero] at this
    rw [this]
  | utf8 =>
    cases hu
    simp only [parseCp, parseUtf8]
    have := peek8_pad s m 0
    simp only [List.drop_zero] at this
    rw [this]
    simp only [peek8_pad]
  | utf16 => exact absurd rfl he
  | utf32 =>
    cases hu
    simp only [parseCp, parseUtf32]
    have : (s ++ List.replicate m 0xFFFFFFFF).headD 0xFFFFFFFF = s.headD 0xFFFFFFFF := by
      cases s with
      | cons a t => rfl
      | nil => cases m <;> simp [List.replicate_succ]
    rw [this]

theorem CC.tryParse_pad (e : Enc) (he : e ≠ .utf16) (c : CC) (s : List Nat) (m u : Nat)
    (hu : e.eof = some u) : c.tryParse e (s ++ List.replicate m u) = c.tryParse e s := by
  have htab : c.tableMatch (s ++ List.replicate m u) = c.tableMatch s := by
    cases s with
    | cons a t => rfl
    | nil =>
      cases m with
      | zero => rfl
      | succ m =>
        simp only [List.nil_append, List.replicate_succ, CC.tableMatch]
        have hb : ¬ (u < 128 ∧ c.ascii u = true) := by
          cases e <;> simp [Enc.eof] at hu <;> omega
        cases hc : (compressAsciiSet c.ascii).matches u with
        | false => rfl
        | true => exact absurd ((C09_compressed_exact _ _).1 hc) hb
  unfold CC.tryParse
  rw [htab, parseCp_pad e he s m u hu]

/-- C14: with a word-wise reader the trailing loop stops at the same position as the loop that looks at
    one character at a time, and does not read outside of the padded buffer; for every fast path
    predicate `p` that only accepts words of single unit characters of the class. -/
theorem C14_identifier_swar (k : Swar) (hn : 0 < k.n) (e : Enc) (he : e ≠ .utf16) (T : CC) (hT : T.Ok)
    (hb : e.bound ≤ 2 ^ k.w) (p : Nat → Bool)
    (sound : ∀ cs, Swar.Word k cs → p (k.lanes cs) = true →
      ∀ c ∈ cs, c < 128 ∧ T.denote c)
    (u m : Nat) (hu : e.eof = some u) (hm : k.n ≤ m) (s : List Nat) (hs : Units e.bound s) :
    trailLoopSwar k p (T.tryParse e) (s ++ List.replicate m u) =
      some (s.drop (trailLoop (T.tryParse e) s) ++ List.replicate m u) := by
  classical
  have hu2 : u < e.bound := by cases e <;> simp [Enc.eof] at hu <;> subst hu <;> decide
  have hu3 : ¬ u < 128 := by cases e <;> simp [Enc.eof] at hu <;> omega
  let cls : Nat → Bool := fun c => decide (c < 128 ∧ T.denote c)
  have single : ∀ a t, Units e.bound (a :: t) → cls a = true → T.tryParse e (a :: t) = some 1 := by
    intro a t hat hc
    have hc' : a < 128 ∧ T.denote a := by simpa [cls] using hc
    have := CC.parseCp_ascii e a t hat hc'.1
    rw [CC.C08_class_token e T hT _ hat, this]
    exact ⟨rfl, hc'.2, rfl⟩
  have skip : ∀ j (s : List Nat), Units e.bound s → j ≤ s.length → (∀ c ∈ s.take j, cls c = true) →
      trailLoop (T.tryParse e) s = j + trailLoop (T.tryParse e) (s.drop j) := by
    intro j
    induction j with
    | zero => intro s _ _ _; simp
    | succ j ih =>
      intro s hs hj hall
      cases s with
      | nil => simp at hj
      | cons a t =>
        rw [trailLoop, single a t hs (hall a (by simp))]
        simp only [List.length_cons, Nat.zero_lt_one, Nat.le_add_left, and_self, dite_true,
          List.drop_succ_cons, List.drop_zero]
        rw [ih t (fun c hc => hs c (List.mem_cons_of_mem _ hc)) (by simpa using hj)
          (fun c hc => hall c (by simp [hc]))]
        omega
  generalize hN : s.length = N
  induction N using Nat.strongRecOn generalizing s with
  | _ N ih =>
    subst hN
    obtain ⟨j, hj, h1, h2, -⟩ := Swar.C06_skip_exact k hn p cls
      (fun cs hw hp c hc => by simpa [cls] using sound cs hw hp c hc) u m hm
      (by simp [cls, hu3]) (by omega) s (fun c hc => Nat.lt_of_lt_of_le (hs c hc) hb)
    rw [trailLoopSwar, h1]
    simp only
    rw [CC.tryParse_pad e he T _ m u hu, skip j s hs hj h2]
    cases ht : T.tryParse e (s.drop j) with
    | none =>
      simp only
      rw [trailLoop, ht]; simp
    | some n =>
      have hp := (CC.good_tryParse e T hT).pos _ n (hs.drop j) ht
      simp only [List.length_drop] at hp
      simp only
      rw [dif_pos ⟨hp.1, by simp; omega, by simp⟩]
      rw [List.drop_append_of_le_length (by simp; omega), ih _ (by simp; omega) _ ((hs.drop j).drop n) rfl]
      rw [trailLoop.eq_1 _ (s.drop j), ht]
      simp only
      rw [dif_pos ⟨hp.1, by simp; omega⟩]
      simp [List.drop_drop, Nat.add_assoc]

/-! ## C14: reservations -/

/-- Specification of the reservation predicates on a lexeme `w` (as seen through the case folding). -/
def Spec.Reserved (w : List Nat) : Reserve → Prop
  | .exact set fold => w.map fold ∈ set
  | .pre set fold => ∃ l ∈ set, l <+: w.map fold
  | .containing set fold => ∃ l ∈ set, l <:+: w.map fold
  | .suffix set fold => ∃ l ∈ set, l <:+ w.map fold

def Reserve.set : Reserve → List (List Nat)
  | .exact s _ | .pre s _ | .containing s _ | .suffix s _ => s
def Reserve.fold : Reserve → Nat → Nat
  | .exact _ f | .pre _ f | .containing _ f | .suffix _ f => f

/-- Preconditions: the literals do not contain the EOF-like unit; folding twice is folding once. -/
structure Reserve.Ok (eof : Option Nat) (r : Reserve) : Prop where
  eof : ∀ l ∈ r.set, ∀ c ∈ l, eof ≠ some c
  fold : ∀ u, r.fold (r.fold u) = r.fold u

theorem setMatch_spec (set : List (List Nat)) (eof : Option Nat) (fold : Nat → Nat)
    (hfold : ∀ u, fold (fold u) = fold u) (heof : ∀ w ∈ set, ∀ c ∈ w, eof ≠ some c) (s : List Nat) :
    ∃ r, setMatch set eof fold s = some r ∧
      (∀ n, r = some n ↔ (∃ w ∈ set, w <+: s.map fold ∧ w.length = n) ∧
        ∀ w ∈ set, w <+: s.map fold → w.length ≤ n) ∧
      (r = none ↔ ∀ w ∈ set, ¬ w <+: s.map fold) := by
  obtain ⟨r, h1, h2, h3⟩ := C11_set_longest_partial (set.map fun w => ⟨w, none⟩) (by
    intro l hl l' hl' _
    obtain ⟨w, -, rfl⟩ := List.mem_map.1 hl
    obtain ⟨w', -, rfl⟩ := List.mem_map.1 hl'
    rfl) eof fold hfold (by
    intro l hl
    obtain ⟨w, hw, rfl⟩ := List.mem_map.1 hl
    exact heof w hw) s
  refine ⟨r, h1, ?_, ?_⟩
  · intro n
    rw [h2]
    have : (∃ l ∈ set.map (fun w => (⟨w, none⟩ : Lit)), l.Matches (s.map fold) ∧ l.str.length = n) ↔
        ∃ w ∈ set, w <+: s.map fold ∧ w.length = n := by
      constructor
      · rintro ⟨l, hl, hm, hn⟩
        obtain ⟨w, hw, rfl⟩ := List.mem_map.1 hl
        exact ⟨w, hw, hm.1, hn⟩
      · rintro ⟨w, hw, hp, hn⟩
        exact ⟨⟨w, none⟩, List.mem_map.2 ⟨w, hw, rfl⟩, ⟨hp, by simp⟩, hn⟩
    rw [this]
    simp [Lit.Matches]
  · rw [h3]; simp [Lit.Matches]

theorem peekEof_iff {eof : Option Nat} {s : List Nat} (h : ∀ u ∈ s, eof ≠ some u) :
    peekEof eof s = true ↔ s = [] := by
  cases s with
  | nil => simp [peekEof]
  | cons u t => have := h u (by simp); simp [peekEof, this]

theorem reservedExact_iff (set : List (List Nat)) (eof : Option Nat) (fold : Nat → Nat)
    (hfold : ∀ u, fold (fold u) = fold u) (heof : ∀ w ∈ set, ∀ c ∈ w, eof ≠ some c) (w : List Nat)
    (hw : ∀ u ∈ w, eof ≠ some u) :
    ∃ b, reservedExact set eof fold w = some b ∧ (b = true ↔ w.map fold ∈ set) := by
  obtain ⟨r, h1, h2, h3⟩ := setMatch_spec set eof fold hfold heof w
  unfold reservedExact
  rw [h1]
  refine ⟨_, rfl, ?_⟩
  cases r with
  | none =>
    simp only [Bool.false_eq_true, false_iff]
    intro h; exact h3.1 rfl _ h (List.prefix_refl _)
  | some n =>
    obtain ⟨⟨l, l1, l2, l3⟩, l4⟩ := (h2 n).1 rfl
    simp only
    rw [peekEof_iff (fun u hu => hw u (List.mem_of_mem_drop hu))]
    constructor
    · intro hd
      have : w.length ≤ n := by simpa using hd
      have := l2.eq_of_length (by have := l2.length_le; simp at this ⊢; omega)
      rw [← this]; exact l1
    · intro hin
      have := l4 _ hin (List.prefix_refl _)
      simp at this ⊢; exact this

theorem reservedContaining_iff (set : List (List Nat)) (eof : Option Nat) (fold : Nat → Nat)
    (hfold : ∀ u, fold (fold u) = fold u) (heof : ∀ w ∈ set, ∀ c ∈ w, eof ≠ some c) (w : List Nat)
    (hw : ∀ u ∈ w, eof ≠ some u) :
    ∃ b, reservedContaining set eof fold w = some b ∧ (b = true ↔ ∃ l ∈ set, l <:+: w.map fold) := by
  induction w with
  | nil =>
    obtain ⟨r, h1, h2, h3⟩ := setMatch_spec set eof fold hfold heof []
    rw [reservedContaining, h1]
    cases r with
    | none =>
      refine ⟨false, by simp [peekEof], ?_⟩
      have := h3.1 rfl
      simp only [Bool.false_eq_true, false_iff, not_exists, not_and]
      intro l hl hi
      exact this l hl (by simp at hi; simp [hi])
    | some n =>
      refine ⟨true, by simp, ?_⟩
      obtain ⟨⟨l, l1, l2, l3⟩, l4⟩ := (h2 n).1 rfl
      simp only [true_iff]
      exact ⟨l, l1, l2.isInfix⟩
  | cons u t ih =>
    obtain ⟨r, h1, h2, h3⟩ := setMatch_spec set eof fold hfold heof (u :: t)
    rw [reservedContaining, h1]
    cases r with
    | none =>
      obtain ⟨b, i1, i2⟩ := ih (fun v hv => hw v (List.mem_cons_of_mem _ hv))
      have : peekEof eof (u :: t) = false := by
        have := hw u (by simp)
        simp [peekEof, this]
      refine ⟨b, by simp [this, i1], ?_⟩
      rw [i2]
      have hno := h3.1 rfl
      constructor
      · rintro ⟨l, l1, l2⟩; exact ⟨l, l1, by rw [List.map_cons]; exact l2.trans (List.infix_cons List.infix_rfl)⟩
      · rintro ⟨l, l1, l2⟩
        rw [List.map_cons, List.infix_cons_iff] at l2
        rcases l2 with l2 | l2
        · exact absurd l2 (hno l l1)
        · exact ⟨l, l1, l2⟩
    | some n =>
      refine ⟨true, by simp, ?_⟩
      obtain ⟨⟨l, l1, l2, l3⟩, l4⟩ := (h2 n).1 rfl
      simp only [true_iff]
      exact ⟨l, l1, l2.isInfix⟩

/-- What `reserve_suffix` computes: sound in any case, complete if members occur in `w` only at its end. -/
theorem reservedSuffix_spec (set : List (List Nat)) (eof : Option Nat) (fold : Nat → Nat)
    (hfold : ∀ u, fold (fold u) = fold u) (heof : ∀ w ∈ set, ∀ c ∈ w, eof ≠ some c) (w : List Nat)
    (hw : ∀ u ∈ w, eof ≠ some u) :
    ∃ b, reservedSuffix set eof fold w = some b ∧ (b = true → ∃ l ∈ set, l <:+ w.map fold) ∧
      ((∀ l ∈ set, ∀ a c, w.map fold = a ++ l ++ c → c = []) →
        (∃ l ∈ set, l <:+ w.map fold) → b = true) := by
  generalize hN : w.length = N
  induction N using Nat.strongRecOn generalizing w with
  | _ N ih =>
    subst hN
    obtain ⟨r, h1, h2, h3⟩ := setMatch_spec set eof fold hfold heof w
    rw [reservedSuffix, h1]
    simp only
    have hwd : ∀ j, ∀ u ∈ w.drop j, eof ≠ some u := fun j u hu => hw u (List.mem_of_mem_drop hu)
    have hpe : peekEof eof (w.drop (r.getD 0)) = true ↔ w.drop (r.getD 0) = [] := peekEof_iff (hwd _)
    by_cases hd : w.drop (r.getD 0) = []
    · have hp := hpe.2 hd
      cases r with
      | none =>
        have hw0 : w = [] := by simpa using hd
        subst hw0
        refine ⟨false, by simp [peekEof], by simp, ?_⟩
        intro hno hex
        obtain ⟨l, l1, l2⟩ := hex
        exact absurd (by simp at l2; simp [l2]) (h3.1 rfl l l1)
      | some n =>
        refine ⟨true, by rw [hp]; simp, ?_, by simp⟩
        intro _
        obtain ⟨⟨l, l1, l2, l3⟩, l4⟩ := (h2 n).1 rfl
        refine ⟨l, l1, ?_⟩
        have hl : w.length ≤ n := by simpa using hd
        have := l2.eq_of_length (by have := l2.length_le; simp at this ⊢; omega)
        rw [this]; exact List.suffix_refl _
    · have hp : peekEof eof (w.drop (r.getD 0)) = false := by
        cases hb : peekEof eof (w.drop (r.getD 0))
        · rfl
        · exact absurd (hpe.1 hb) hd
      rw [hp]
      simp only [Bool.and_false, Bool.false_eq_true, if_false]
      split
      · rename_i hnil; exact absurd hnil hd
      · rename_i x w' hcons
        have hsuf : w' <:+ w := by
          have : w' = w.drop (r.getD 0 + 1) := by rw [← List.drop_drop, hcons]; rfl
          rw [this]; exact List.drop_suffix _ _
        have hlt : w'.length < w.length := by
          have h4 := congrArg List.length hcons
          simp at h4; omega
        obtain ⟨b, i1, i2, i3⟩ := ih w'.length hlt w' (fun u hu => hw u (hsuf.mem hu)) rfl
        refine ⟨b, i1, ?_, ?_⟩
        · intro hb
          obtain ⟨l, l1, l2⟩ := i2 hb
          exact ⟨l, l1, l2.trans (by obtain ⟨a, ha⟩ := hsuf; exact ⟨a.map fold, by rw [← List.map_append, ha]⟩)⟩
        · intro hno hex
          -- nothing matched at the current position
          have hr : r = none := by
            cases r with
            | none => rfl
            | some n =>
              obtain ⟨⟨l, l1, ⟨c, l2⟩, l3⟩, l4⟩ := (h2 n).1 rfl
              have hc := hno l l1 [] c (by simp [l2])
              subst hc
              simp only [List.append_nil] at l2
              exfalso; apply hd
              have := congrArg List.length l2
              simp at this ⊢; omega
          subst hr
          simp only [Option.getD_none, List.drop_zero] at hcons
          subst hcons
          obtain ⟨l, l1, l2⟩ := hex
          refine i3 ?_ ⟨l, l1, ?_⟩
          · intro l' hl' a c hac
            exact hno l' hl' (fold x :: a) c (by simp [hac])
          · rw [List.map_cons, List.suffix_cons_iff] at l2
            rcases l2 with l2 | l2
            · exfalso
              refine h3.1 rfl l l1 ?_
              rw [l2]; simp
            · exact l2

/-- The lexemes for which `reserve_suffix` is exact: no member of the set occurs inside of the lexeme
    other than at its end. -/
def Reserve.Faithful (w : List Nat) : Reserve → Prop
  | .suffix set fold => ∀ l ∈ set, ∀ a c, w.map fold = a ++ l ++ c → c = []
  | _ => True

/-- C14: the reservation predicates equal / has prefix / contains are exact for every lexeme.  For `has
    suffix` the exactness needs `Faithful` (see `C14_reserve_suffix_refuted`). -/
theorem C14_reserve_exact_partial (eof : Option Nat) (r : Reserve) (hr : r.Ok eof) (w : List Nat)
    (hw : ∀ u ∈ w, eof ≠ some u) (hf : r.Faithful w) :
    ∃ b, r.isReserved eof w = some b ∧ (b = true ↔ Spec.Reserved w r) := by
  cases r with
  | exact set fold => exact reservedExact_iff set eof fold hr.fold hr.eof w hw
  | pre set fold =>
    obtain ⟨r, h1, h2, h3⟩ := setMatch_spec set eof fold hr.fold hr.eof w
    refine ⟨r.isSome, by simp [Reserve.isReserved, reservedPrefix, h1], ?_⟩
    cases r with
    | none =>
      have := h3.1 rfl
      simp [Spec.Reserved]; exact this
    | some n =>
      obtain ⟨⟨l, l1, l2, l3⟩, l4⟩ := (h2 n).1 rfl
      simp only [Option.isSome_some, true_iff]
      exact ⟨l, l1, l2⟩
  | containing set fold => exact reservedContaining_iff set eof fold hr.fold hr.eof w hw
  | suffix set fold =>
    obtain ⟨b, h1, h2, h3⟩ := reservedSuffix_spec set eof fold hr.fold hr.eof w hw
    exact ⟨b, h1, h2, h3 hf⟩

/-- C14: no predicate ever rejects a lexeme that is not reserved, `has suffix` included. -/
theorem C14_reserve_sound (eof : Option Nat) (r : Reserve) (hr : r.Ok eof) (w : List Nat)
    (hw : ∀ u ∈ w, eof ≠ some u) :
    ∃ b, r.isReserved eof w = some b ∧ (b = true → Spec.Reserved w r) := by
  cases r with
  | suffix set fold =>
    obtain ⟨b, h1, h2, h3⟩ := reservedSuffix_spec set eof fold hr.fold hr.eof w hw
    exact ⟨b, h1, h2⟩
  | exact set fold =>
    obtain ⟨b, h1, h2⟩ := C14_reserve_exact_partial eof (.exact set fold) hr w hw trivial
    exact ⟨b, h1, h2.1⟩
  | pre set fold =>
    obtain ⟨b, h1, h2⟩ := C14_reserve_exact_partial eof (.pre set fold) hr w hw trivial
    exact ⟨b, h1, h2.1⟩
  | containing set fold =>
    obtain ⟨b, h1, h2⟩ := C14_reserve_exact_partial eof (.containing set fold) hr w hw trivial
    exact ⟨b, h1, h2.1⟩

/-- C14 is false for `reserve_suffix`: with `_t` reserved as suffix, `x_t_t` is accepted; with `aa`
    reserved, `aaa` is accepted. -/
theorem C14_reserve_suffix_refuted :
    (Spec.Reserved [0x61, 0x61, 0x61] (.suffix [[0x61, 0x61]] id) ∧
      (Reserve.suffix [[0x61, 0x61]] id).isReserved none [0x61, 0x61, 0x61] = some false) ∧
    (Spec.Reserved [0x78, 0x5F, 0x74, 0x5F, 0x74] (.suffix [[0x5F, 0x74]] id) ∧
      (Reserve.suffix [[0x5F, 0x74]] id).isReserved none [0x78, 0x5F, 0x74, 0x5F, 0x74] = some false) := by
  refine ⟨⟨⟨[0x61, 0x61], by simp, ⟨[0x61], rfl⟩⟩, by decide +kernel⟩,
    ⟨⟨[0x5F, 0x74], by simp, ⟨[0x78, 0x5F, 0x74], rfl⟩⟩, by decide +kernel⟩⟩

/-- The lexeme of an identifier does not contain the EOF-like unit. -/
theorem cpRun_no_eof (e : Enc) (P : Nat → Prop) {s : List Nat} {n : Nat} (hs : Units e.bound s)
    (h : Spec.CpRun e P s n) : ∀ u ∈ s.take n, e.eof ≠ some u := by
  induction h with
  | nil => simp
  | cons h1 h2 h3 ih =>
    intro u hu
    rw [List.take_add, List.mem_append] at hu
    rcases hu with hu | hu
    · exact parseCp_no_eof e _ hs h1 u hu
    · exact ih (hs.drop _) u hu

theorem ident_no_eof (e : Enc) (L T : CC) (hL : L.Ok) (hT : T.Ok) (s : List Nat)
    (hs : Units e.bound s) (n : Nat) (h : identMatch (L.tryParse e) (T.tryParse e) s = some n) :
    ∀ u ∈ s.take n, e.eof ≠ some u := by
  obtain ⟨h1, h2, m, rfl, h3, -⟩ := (C14_identifier_run e L T hL hT s hs n).1 h
  exact cpRun_no_eof e (fun _ => True) hs (.cons h1 trivial (by
    clear h1 h2 h
    generalize s.drop (parseCp e s).len = s' at h3
    induction h3 with
    | nil => exact .nil _
    | cons a b _ ih => exact .cons a trivial ih))

theorem anyReserved_spec (eof : Option Nat) (w : List Nat) (hw : ∀ u ∈ w, eof ≠ some u) (rs : List Reserve)
    (hr : ∀ r ∈ rs, r.Ok eof) (hf : ∀ r ∈ rs, r.Faithful w) :
    ∃ b, anyReserved eof w rs = some b ∧ (b = true ↔ ∃ r ∈ rs, Spec.Reserved w r) := by
  induction rs with
  | nil => exact ⟨false, rfl, by simp⟩
  | cons r rs ih =>
    obtain ⟨b, h1, h2⟩ := C14_reserve_exact_partial eof r (hr r (by simp)) w hw (hf r (by simp))
    obtain ⟨b', h3, h4⟩ := ih (fun r h => hr r (by simp [h])) (fun r h => hf r (by simp [h]))
    cases b with
    | true => exact ⟨true, by simp [anyReserved, h1], by simp [← h2]⟩
    | false =>
      refine ⟨b', by simp [anyReserved, h1, h3], ?_⟩
      rw [h4]
      have : ¬ Spec.Reserved w r := fun h => by simpa using h2.2 h
      simp [this]

/-- C14: as a branch, an identifier rule is taken exactly if the pattern matches and the lexeme is not
    reserved; in either case the lexeme is the match of the pattern. -/
theorem C14_identifier_branch_partial (e : Enc) (L T : CC) (hL : L.Ok) (hT : T.Ok) (rs : List Reserve)
    (hr : ∀ r ∈ rs, r.Ok e.eof) (s : List Nat) (hs : Units e.bound s)
    (hf : ∀ n, identMatch (L.tryParse e) (T.tryParse e) s = some n → ∀ r ∈ rs, r.Faithful (s.take n)) :
    ∃ o, idTryParse (L.tryParse e) (T.tryParse e) e.eof rs s = some o ∧
      ∀ n, o = some n ↔ identMatch (L.tryParse e) (T.tryParse e) s = some n ∧
        ∀ r ∈ rs, ¬ Spec.Reserved (s.take n) r := by
  unfold idTryParse
  cases hm : identMatch (L.tryParse e) (T.tryParse e) s with
  | none => exact ⟨none, rfl, by simp⟩
  | some n =>
    obtain ⟨b, h1, h2⟩ := anyReserved_spec e.eof (s.take n) (ident_no_eof e L T hL hT s hs n hm) rs hr
      (hf n hm)
    refine ⟨if b then none else some n, by simp [h1], ?_⟩
    intro n'
    cases b with
    | true =>
      obtain ⟨r, h3, h4⟩ := h2.1 rfl
      simp only [if_true, reduceCtorEq, Option.some.injEq, false_iff, not_and]
      rintro rfl hno
      exact hno r h3 h4
    | false =>
      simp only [Bool.false_eq_true, false_iff, not_exists, not_and, if_false, Option.some.injEq] at h2 ⊢
      constructor
      · rintro rfl; exact ⟨rfl, h2⟩
      · rintro ⟨rfl, -⟩; rfl

/-- C14: parsed unconditionally, the rule fails exactly if the pattern does not match; it reports
    `reserved_identifier` exactly if the lexeme is reserved, and still produces the lexeme. -/
theorem C14_identifier_rule_partial (e : Enc) (L T : CC) (hL : L.Ok) (hT : T.Ok) (rs : List Reserve)
    (hr : ∀ r ∈ rs, r.Ok e.eof) (s : List Nat) (hs : Units e.bound s)
    (hf : ∀ n, identMatch (L.tryParse e) (T.tryParse e) s = some n → ∀ r ∈ rs, r.Faithful (s.take n)) :
    ∃ o, idParse (L.tryParse e) (T.tryParse e) e.eof rs s = some o ∧
      (o.map (·.1) = identMatch (L.tryParse e) (T.tryParse e) s) ∧
      ∀ n b, o = some (n, b) → (b = true ↔ ∃ r ∈ rs, Spec.Reserved (s.take n) r) := by
  unfold idParse
  cases hm : identMatch (L.tryParse e) (T.tryParse e) s with
  | none => exact ⟨none, rfl, rfl, by simp⟩
  | some n =>
    obtain ⟨b, h1, h2⟩ := anyReserved_spec e.eof (s.take n) (ident_no_eof e L T hL hT s hs n hm) rs hr
      (hf n hm)
    refine ⟨some (n, b), by simp [h1], rfl, ?_⟩
    intro n' b' h
    cases h
    exact h2

/-! ## C13 -/

theorem trailLoop_local {B : Nat} {T : TokMatch} (hT : GoodTok B T) :
    ∀ (lit r : List Nat), Units B lit → Units B r → trailLoop T lit = lit.length →
    trailLoop T (lit ++ r) = lit.length + trailLoop T r := by
  intro lit
  generalize hN : lit.length = N
  induction N using Nat.strongRecOn generalizing lit with
  | _ N ih =>
    subst hN
    intro r hl hr h
    rw [trailLoop] at h
    cases hm : T lit with
    | none =>
      rw [hm] at h
      simp only at h
      have : lit = [] := List.length_eq_zero_iff.1 h.symm
      subst this; simp
    | some n =>
      rw [hm] at h
      simp only at h
      have hp := hT.pos lit n hl hm
      rw [dif_pos hp] at h
      have e1 : lit ++ r = lit.take n ++ (lit.drop n ++ r) := by rw [← List.append_assoc, List.take_append_drop]
      have hm' : T (lit ++ r) = some n := by
        rw [e1]; exact hT.loc lit n _ hl ((hl.drop n).append hr) hm
      rw [trailLoop, hm']
      simp only
      rw [dif_pos ⟨hp.1, by simp; omega⟩, List.drop_append_of_le_length hp.2]
      have := ih (lit.drop n).length (by simp; omega) (lit.drop n) rfl r (hl.drop n) hr
        (by simp; omega)
      rw [this]; simp; omega

theorem identMatch_append {B : Nat} {L T : TokMatch} (hL : GoodTok B L) (hT : GoodTok B T)
    (lit r : List Nat) (hl : Units B lit) (hr : Units B r) (h : identMatch L T lit = some lit.length) :
    identMatch L T (lit ++ r) = some (lit.length + trailLoop T r) := by
  unfold identMatch at h ⊢
  cases hm : L lit with
  | none => rw [hm] at h; simp at h
  | some n =>
    rw [hm] at h
    simp only [Option.some.injEq] at h
    have hp := hL.pos lit n hl hm
    have e1 : lit ++ r = lit.take n ++ (lit.drop n ++ r) := by rw [← List.append_assoc, List.take_append_drop]
    have hm' : L (lit ++ r) = some n := by
      rw [e1]; exact hL.loc lit n _ hl ((hl.drop n).append hr) hm
    rw [hm']
    simp only [Option.some.injEq]
    rw [List.drop_append_of_le_length hp.2, trailLoop_local hT _ _ (hl.drop n) hr (by simp; omega)]
    simp; omega

/-- C13: a keyword (a literal that is an identifier) matches exactly if the literal is a prefix of the
    input and the identifier starting there is the literal itself, not something longer. -/
theorem C13_keyword (e : Enc) (L T : CC) (hL : L.Ok) (hT : T.Ok) (lit : List Nat)
    (hlit : Units e.bound lit) (hid : identMatch (L.tryParse e) (T.tryParse e) lit = some lit.length)
    (s : List Nat) (hs : Units e.bound s) :
    ∃ o, kwTryParse lit (T.tryParse e) e.eof id s = some o ∧
      ∀ n, o = some n ↔ n = lit.length ∧ lit <+: s ∧
        identMatch (L.tryParse e) (T.tryParse e) s = some n := by
  have hne : ∀ c ∈ lit, e.eof ≠ some c := by
    have := ident_no_eof e L T hL hT lit hlit _ hid
    simpa using this
  obtain ⟨b, n, h1, h2, h3, h4, h5, h6⟩ := C10_literal_prefix e.eof lit s hne
  unfold kwTryParse
  rw [h1]
  cases b with
  | false =>
    refine ⟨none, rfl, ?_⟩
    intro n'
    simp only [Bool.false_eq_true, false_iff] at h2
    simp [h2]
  | true =>
    have hn := h3 rfl
    subst hn
    obtain ⟨r, rfl⟩ := h2.1 rfl
    refine ⟨_, rfl, ?_⟩
    have hr : Units e.bound r := fun u hu => hs u (List.mem_append_right _ hu)
    rw [identMatch_append (CC.good_tryParse e L hL) (CC.good_tryParse e T hT) lit r hlit hr hid,
      List.drop_append_of_le_length (Nat.le_refl _), List.drop_length, List.nil_append]
    have htl : (T.tryParse e r).isSome = false ↔ trailLoop (T.tryParse e) r = 0 := by
      rw [trailLoop]
      cases hm : T.tryParse e r with
      | none => simp
      | some k =>
        have := (CC.good_tryParse e T hT).pos r k hr hm
        simp only [Option.isSome_some, Bool.true_eq_false, false_iff]
        rw [dif_pos this]; omega
    intro n'
    cases hb : (T.tryParse e r).isSome with
    | false =>
      have := htl.1 hb
      simp [this, eq_comm]
    | true =>
      have : trailLoop (T.tryParse e) r ≠ 0 := fun h => by simp [htl.2 h] at hb
      simp
      intro h; omega

/-! ### Non-vacuity -/

/-- `[a-z_]` -/
def exampleIdent : CC := .leaf ((AsciiSet.empty.insertRange 0x61 0x7A).insert 0x5F) none

example : exampleIdent.Ok ∧
    identMatch (exampleIdent.tryParse .utf8) (exampleIdent.tryParse .utf8) [0x69, 0x66] = some 2 ∧
    kwTryParse [0x69, 0x66] (exampleIdent.tryParse .utf8) (some 0xFF) id [0x69, 0x66, 0x28] = some (some 2) ∧
    kwTryParse [0x69, 0x66] (exampleIdent.tryParse .utf8) (some 0xFF) id [0x69, 0x66, 0x66] = some none ∧
    idTryParse (exampleIdent.tryParse .utf8) (exampleIdent.tryParse .utf8) (some 0xFF)
      [.exact [[0x69, 0x66]] id, .pre [[0x5F]] id] [0x69, 0x66, 0x66, 0x20] = some (some 3) ∧
    idTryParse (exampleIdent.tryParse .utf8) (exampleIdent.tryParse .utf8) (some 0xFF)
      [.exact [[0x69, 0x66]] id, .pre [[0x5F]] id] [0x69, 0x66, 0x20] = some none := by
  refine ⟨?_, ?_, ?_, ?_, ?_, ?_⟩
  · intro g hg; simp at hg
  all_goals decide +kernel

example : (Reserve.suffix [[0x5F, 0x74]] id).Faithful [0x78, 0x5F, 0x74] ∧
    (Reserve.suffix [[0x5F, 0x74]] id).isReserved none [0x78, 0x5F, 0x74] = some true := by
  refine ⟨?_, by decide +kernel⟩
  intro l hl a c h
  simp at hl; subst hl
  match a with
  | [] => simp at h
  | [_] => simp at h; exact h.2
  | [_, _] => simp at h
  | _ :: _ :: _ :: _ => simp at h

end Verif
