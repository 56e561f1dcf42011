import Verif.IpAddress
import Verif.TokensProps

/-
The parts of the parser of examples/ip_address.cpp: the numbers, the literals, IPv4 addresses; for IpAddressProps.lean.

The specification of addresses is at the beginning.
-/

namespace Verif.Spec.Ip

/-- The number that digits denote. -/
def number (b : Base) (t : List Nat) : Nat := Spec.value b (t.map Int.ofNat)

/-- `d8` of the draft: a decimal number below 256 without leading zeros. -/
structure Octet (t : List Nat) (v : Nat) : Prop where
  ne : t ≠ []
  digits : ∀ c ∈ t, Spec.IsDigitOf .decimal c
  zero : t.head? = some 0x30 → t = [0x30]
  value : v = number .decimal t
  lt : v < 256

/-- `IPv4address` of the draft, and its two halves. -/
def V4 (s : List Nat) (v : Nat × Nat) : Prop :=
  ∃ t₁ t₂ t₃ t₄ a b c d, s = t₁ ++ 0x2E :: (t₂ ++ 0x2E :: (t₃ ++ 0x2E :: t₄)) ∧
    Octet t₁ a ∧ Octet t₂ b ∧ Octet t₃ c ∧ Octet t₄ d ∧ v = (256 * a + b, 256 * c + d)

/-- `h16` of the draft, a hexadecimal number; with `L`: of at most four digits, as the draft requires. -/
structure H16 (L : Bool) (t : List Nat) (v : Nat) : Prop where
  ne : t ≠ []
  digits : ∀ c ∈ t, Spec.IsDigitOf .hex c
  short : L = true → t.length ≤ 4
  value : v = number .hex t
  lt : v < 65536

/-- Numbers with colons between them. -/
inductive Plain (L : Bool) : List Nat → List Nat → Prop
  | one {t v} : H16 L t v → Plain L [v] t
  | more {t v u vs} : H16 L t v → Plain L vs u → Plain L (v :: vs) (t ++ 0x3A :: u)

/-- Numbers with colons between them, where the last two may be written as an IPv4 address. -/
inductive Groups (L : Bool) : List Nat → List Nat → Prop
  | one {t v} : H16 L t v → Groups L [v] t
  | four {t p q} : V4 t (p, q) → Groups L [p, q] t
  | more {t v u vs} : H16 L t v → Groups L vs u → Groups L (v :: vs) (t ++ 0x3A :: u)

/-- `IPv6address` of the draft, and its eight pieces. -/
inductive V6 (L : Bool) : List Nat → List Nat → Prop
  | full {s vs} : Groups L vs s → vs.length = 8 → V6 L s vs
  | elided {l ls r rs} : (l = [] ∧ ls = [] ∨ Plain L ls l) → (r = [] ∧ rs = [] ∨ Groups L rs r) →
    ls.length + rs.length ≤ 7 →
    V6 L (l ++ 0x3A :: 0x3A :: r) (ls ++ List.replicate (8 - (ls.length + rs.length)) 0 ++ rs)

/-- An address: the version and the pieces. -/
def Address (L : Bool) (s : List Nat) (v : Nat × List Nat) : Prop :=
  (∃ p q, V4 s (p, q) ∧ v = (4, [p, q, 0, 0, 0, 0, 0, 0])) ∨ (∃ vs, V6 L s vs ∧ v = (6, vs))

end Verif.Spec.Ip

namespace Verif.Ip

open Spec.Ip (number Octet V4 H16 Plain Groups V6 Address)

/-! ## Sequencing -/

theorem bind_ok {α β : Type} {x : Outc α} {f : α → List Nat → Outc β} {w : β} {r : List Nat} {es : List Err} :
    x.bind f = .ok w r es ↔ ∃ v s e e', x = .ok v s e ∧ f v s = .ok w r e' ∧ es = e ++ e' := by
  unfold Outc.bind
  constructor
  · intro h
    split at h
    · cases h
    · cases h
    · rename_i v s e
      split at h
      · cases h
      · cases h
      · rename_i w' r' e' hf
        cases h
        exact ⟨v, s, e, e', rfl, hf, rfl⟩
  · rintro ⟨v, s, e, e', rfl, h2, rfl⟩
    simp only [h2]

theorem bind_quiet {α β : Type} {x : Outc α} {f : α → List Nat → Outc β} {w : β} {r : List Nat} :
    x.bind f = .ok w r [] ↔ ∃ v s, x = .ok v s [] ∧ f v s = .ok w r [] := by
  rw [bind_ok]
  constructor
  · rintro ⟨v, s, e, e', h1, h2, h3⟩
    obtain ⟨rfl, rfl⟩ := List.append_eq_nil_iff.1 h3.symm
    exact ⟨v, s, h1, h2⟩
  · rintro ⟨v, s, h1, h2⟩
    exact ⟨v, s, [], [], h1, h2, rfl⟩

theorem bind_ub {α β : Type} {x : Outc α} {f : α → List Nat → Outc β} :
    x.bind f = .ub ↔ x = .ub ∨ ∃ v s e, x = .ok v s e ∧ f v s = .ub := by
  unfold Outc.bind
  constructor
  · intro h
    split at h
    · exact .inl rfl
    · cases h
    · rename_i v s e
      split at h
      · rename_i hf
        exact .inr ⟨v, s, e, rfl, hf⟩
      · cases h
      · cases h
  · rintro (rfl | ⟨v, s, e, rfl, h⟩)
    · rfl
    · simp only [h]

/-! ## Literals -/

theorem lit_iff (w s : List Nat) (n : Nat) : lit w s = (true, n) ↔ w <+: s ∧ n = w.length :=
  lit_run (fun _ _ h => by cases h) s n

theorem lit_true (w s : List Nat) : (lit w s).1 = true ↔ w <+: s := lit_hit (fun _ _ h => by cases h) s

theorem lit_len {w s : List Nat} (h : (lit w s).1 = true) : (lit w s).2 = w.length :=
  ((lit_iff w s _).1 (Prod.ext h rfl)).2

theorem lit_app (w s : List Nat) : lit w (w ++ s) = (true, w.length) := (lit_iff _ _ _).2 ⟨⟨s, rfl⟩, rfl⟩

theorem lit_false {w s : List Nat} (h : ¬ w <+: s) : (lit w s).1 = false := by
  cases h1 : (lit w s).1 with
  | false => rfl
  | true => exact absurd ((lit_true w s).1 h1) h

/-- A literal that is there. -/
theorem lit_split {w s : List Nat} (h : (lit w s).1 = true) : s = w ++ s.drop (lit w s).2 := by
  obtain ⟨t, rfl⟩ := (lit_true w s).1 h
  rw [lit_len h, List.drop_left]

theorem pre_one {c : Nat} {s : List Nat} : [c] <+: s ↔ s.head? = some c := by
  cases s with
  | nil => simp
  | cons x s =>
    simp only [List.cons_prefix_cons, List.nil_prefix, and_true, List.head?_cons, Option.some.injEq]
    exact eq_comm

theorem pre_two {c d : Nat} {s : List Nat} : [c, d] <+: s ↔ ∃ t, s = c :: d :: t :=
  ⟨fun ⟨t, h⟩ => ⟨t, h.symm⟩, fun ⟨t, h⟩ => ⟨t, h.symm⟩⟩

/-! ## Numbers -/

theorem traitsOctet : (Traits.plain ⟨255, true⟩).Ok .decimal := ⟨by decide, by decide, by decide⟩
theorem traitsPiece : (Traits.plain ⟨65535, true⟩).Ok .hex := ⟨by decide, by decide, by decide⟩

/-- The conversion of digits. -/
theorem conv_digits {b : Base} {t : Traits} (ht : t.Ok b) {us : List Nat} (h : ∀ u ∈ us, Spec.IsDigitOf b u) :
    ∃ v ov, boundedParse true t b (us.map Int.ofNat) = some (v, ov) ∧ (ov = true ↔ t.max < number b us) ∧
      (ov = false → v = number b us) := by
  have hd : ∀ c ∈ us.map Int.ofNat, Spec.IsChar c ∧ (Spec.digitI b c).isSome = true := by
    intro c hc
    obtain ⟨u, hu, rfl⟩ := List.mem_map.1 hc
    have h1 := h u hu
    have h2 := Spec.isDigitOf_lt h1
    refine ⟨⟨by simp only [Int.ofNat_eq_natCast]; omega, by simp only [Int.ofNat_eq_natCast]; omega⟩, ?_⟩
    unfold Spec.digitI
    rw [if_pos (by simp only [Int.ofNat_eq_natCast]; omega)]
    exact h1
  exact C17_integer_exact_partial true t b ht (us.map Int.ofNat)
    ⟨fun c hc => (hd c hc).1, fun _ c hc => (hd c hc).2⟩ (fun c hc => (hd c (List.mem_of_getLast? hc)).2)

theorem filterMap_errOf {evs : List Ev} (h : evs.filterMap errOf = []) : ∀ ev ∈ evs, ev.isError = false := by
  intro ev hev
  have h1 := List.filterMap_eq_nil_iff.1 h ev hev
  cases ev <;> simp [errOf] at h1 ⊢ <;> rfl

/-- What a token for numbers has to do: match a run of digits that cannot be continued, and consume only digits otherwise. -/
structure NumTok (tok : List Nat → TokRes) (b : Base) (P : List Nat → Prop) : Prop where
  yes : ∀ (s : List Nat) n, tok s = (true, n) ↔ 0 < n ∧ Spec.MaxRun b s n ∧ P (s.take n)
  le : ∀ s : List Nat, (tok s).2 ≤ s.length
  no : ∀ s : List Nat, ∀ u ∈ s.take (tok s).2, Spec.IsDigitOf b u

theorem take_ne {s : List Nat} {n : Nat} (h1 : 0 < n) (h2 : n ≤ s.length) : s.take n ≠ [] := by
  intro h
  have := congrArg List.length h
  rw [List.length_take, List.length_nil] at this
  omega

theorem int_sound {tok : List Nat → TokRes} {b : Base} {ty : IntTy} {P : List Nat → Prop} (hT : NumTok tok b P)
    (ht : (Traits.plain ty).Ok b) {s rest : List Nat} {v : Nat} (h : int tok b ty s = .ok v rest []) :
    ∃ t, s = t ++ rest ∧ t ≠ [] ∧ (∀ c ∈ t, Spec.IsDigitOf b c) ∧ P t ∧ v = number b t ∧ v ≤ (Traits.plain ty).max := by
  unfold int at h
  simp only at h
  split at h
  · rename_i h1
    split at h
    · rename_i v' ov hv
      obtain ⟨rfl, rfl, h3⟩ := Outc.ok.inj h
      have hq := filterMap_errOf h3
      obtain ⟨h4, h5, h6⟩ := int_quiet (Prod.ext h1 rfl) hq
      simp only [List.drop_zero, Nat.zero_add] at h4 h5 h6
      rw [clamp_eq rfl (hT.le s)] at h4 h5 h6
      obtain ⟨n, hn⟩ : ∃ n, tok s = (true, n) := ⟨_, Prod.ext h4 rfl⟩
      rw [hn] at h5 h6
      simp only at h5 h6
      obtain ⟨h7, h8, h9⟩ := (hT.yes s n).1 hn
      rw [← h5] at h6 h7 h8 h9
      obtain ⟨v2, ov2, e1, e2, e3⟩ := conv_digits ht h8.all
      rw [hv] at e1
      obtain ⟨rfl, rfl⟩ := Prod.mk.inj (Option.some.inj e1)
      have e4 : ov = false := by
        unfold overflows at h6
        rw [hv] at h6
        exact h6
      subst e4
      have := e3 rfl
      refine ⟨_, (List.take_append_drop _ s).symm, take_ne h7 h8.le, h8.all, h9, this, ?_⟩
      · rw [this]
        exact Nat.not_lt.1 fun hc => by cases e2.2 hc
    · cases h
  · cases h

theorem int_ok {tok : List Nat → TokRes} {b : Base} {ty : IntTy} {P : List Nat → Prop} (hT : NumTok tok b P)
    (ht : (Traits.plain ty).Ok b) {t rest : List Nat} (h0 : t ≠ []) (hd : ∀ c ∈ t, Spec.IsDigitOf b c) (hP : P t)
    (hv : number b t ≤ (Traits.plain ty).max) (hn : ∀ c, rest.head? = some c → ¬ Spec.IsDigitOf b c) :
    int tok b ty (t ++ rest) = .ok (number b t) rest [] := by
  have h1 : tok (t ++ rest) = (true, t.length) := by
    refine (hT.yes _ _).2 ⟨List.length_pos_iff.2 h0, ⟨by simp, by rw [List.take_left]; exact hd, ?_⟩, ?_⟩
    · rw [List.drop_left]
      exact hn
    · rw [List.take_left]
      exact hP
  obtain ⟨v, ov, e1, e2, e3⟩ := conv_digits ht hd
  have e4 : ov = false := by
    cases ov with
    | false => rfl
    | true => have := e2.1 rfl; omega
  subst e4
  have h2 := int_parse (kind := .user 0) (dkind := .user 0) (tag := 0) (otag := 1) (b := b)
    (conv := boundedParse true (.plain ty) b) (inp := t ++ rest) (p := 0) (n := t.length) h1 (by simp)
    (by rw [List.drop_zero, List.take_left]; unfold overflows; rw [e1])
  unfold int
  simp only [h2, Nat.zero_add, List.take_left, e1, List.drop_left, if_true, e3 rfl]
  rfl

/-- A number is never undefined behavior, and it consumes something. -/
theorem int_safe {tok : List Nat → TokRes} {b : Base} {ty : IntTy} {P : List Nat → Prop} (hT : NumTok tok b P)
    (ht : (Traits.plain ty).Ok b) (s : List Nat) :
    (∃ e, int tok b ty s = .fail e) ∨ ∃ v t rest e, int tok b ty s = .ok v rest e ∧ s = t ++ rest ∧ t ≠ [] ∧
      ∀ c ∈ t, Spec.IsDigitOf b c := by
  have key : ∀ m, 0 < m → m ≤ s.length → (∀ u ∈ s.take m, Spec.IsDigitOf b u) →
      (∃ evs, intParse (.user 0) (.user 0) 0 1 tok b (boundedParse true (.plain ty) b) s 0 = (true, m, evs)) →
      ∃ v t rest e, int tok b ty s = .ok v rest e ∧ s = t ++ rest ∧ t ≠ [] ∧ ∀ c ∈ t, Spec.IsDigitOf b c := by
    rintro m h0 hl hm ⟨evs, he⟩
    obtain ⟨v, ov, e1, -, -⟩ := conv_digits ht hm
    refine ⟨v, s.take m, s.drop m, evs.filterMap errOf, ?_, (List.take_append_drop m s).symm, ?_, hm⟩
    · unfold int
      simp only [he, e1, if_true]
    · intro hc
      have := congrArg List.length hc
      rw [List.length_take, List.length_nil] at this
      omega
  have hc : clamp tok s = tok s := clamp_eq rfl (hT.le s)
  cases h1 : (tok s).1 with
  | true =>
    right
    have h2 := (hT.yes s _).1 (Prod.ext h1 rfl)
    refine key (tok s).2 h2.1 (hT.le s) h2.2.1.all ?_
    unfold intParse
    simp only [List.drop_zero, hc, h1, if_true, Nat.zero_add]
    exact ⟨_, rfl⟩
  | false =>
    have hm := trailLoop_maxRun b (s.drop (tok s).2)
    have hle := hm.le
    rw [List.length_drop] at hle
    have hl := hT.le s
    have hmin : min ((tok s).2 + trailLoop b.tok (s.drop (tok s).2)) s.length = (tok s).2 + trailLoop b.tok (s.drop (tok s).2) :=
      Nat.min_eq_left (by omega)
    by_cases h0 : (tok s).2 + trailLoop b.tok (s.drop (tok s).2) = 0
    · left
      unfold int intParse
      simp only [List.drop_zero, hc, h1, hmin, h0, if_true, Bool.false_eq_true, if_false]
      exact ⟨_, rfl⟩
    · right
      refine key _ (Nat.pos_of_ne_zero h0) (by omega) ?_ ?_
      · intro u hu
        rw [List.take_add] at hu
        rcases List.mem_append.1 hu with hu | hu
        · exact hT.no s u hu
        · exact hm.all u hu
      · unfold intParse
        simp only [List.drop_zero, hc, h1, hmin, h0, Bool.false_eq_true, if_false, Nat.zero_add]
        exact ⟨_, rfl⟩

theorem matchDigits_no (b : Base) (s : List Nat) : ∀ u ∈ s.take (matchDigits b s).2, Spec.IsDigitOf b u := by
  cases h : (matchDigits b s).1 with
  | true => exact ((C16_digits_maximal b s _).1 (Prod.ext h rfl)).2.all
  | false =>
    have : (matchDigits b s).2 = 0 := by
      unfold matchDigits at h ⊢
      split at h
      · rfl
      · cases h
    rw [this]
    simp

theorem numTok_digits (b : Base) : NumTok (matchDigits b) b fun _ => True where
  yes s n := by rw [C16_digits_maximal]; simp
  le s := matchDigits_le b s
  no s := matchDigits_no b s

theorem numTok_nlz : NumTok (nlzTok .decimal) .decimal fun t => t.head? = some 0x30 → t = [0x30] where
  yes s n := by
    have h1 : nlzTok .decimal s = (true, n) ↔ noLeadingZero (matchDigits .decimal s) s = (true, n, false) := by
      unfold nlzTok noLeadingZero
      split
      · simp
      · simp
    rw [h1, (C16_no_leading_zero .decimal s).1 n]
    constructor
    · rintro ⟨h2, h3, h4⟩
      refine ⟨h2, h3, fun h5 => ?_⟩
      match s, n, h2 with
      | u :: s, n + 1, _ =>
        simp only [List.take_succ_cons, List.head?_cons, Option.some.injEq] at h5 h4 ⊢
        have : n = 0 := by omega
        subst this
        simp [h5]
      | [], n + 1, _ => simp at h5
    · rintro ⟨h2, h3, h4⟩
      refine ⟨h2, h3, fun ⟨h5, h6⟩ => ?_⟩
      have hl := h3.le
      have h7 : (s.take n).head? = some 0x30 := by
        match s, n, h2 with
        | u :: s, n + 1, _ => simpa using h5
      have := congrArg List.length (h4 h7)
      rw [List.length_take] at this
      simp at this
      omega
  le s := by
    have := matchDigits_le .decimal s
    unfold nlzTok noLeadingZero
    split
    · rename_i h
      simp only [Bool.and_eq_true, beq_iff_eq] at h
      cases s with
      | nil => simp at h
      | cons u s => simp
    · exact this
  no s := by
    unfold nlzTok noLeadingZero
    split
    · rename_i h
      simp only [Bool.and_eq_true, beq_iff_eq] at h
      cases s with
      | nil => simp
      | cons u s =>
        simp only [List.head?_cons, Option.some.injEq] at h
        intro c hc
        simp at hc
        rw [hc, h.2]
        decide
    · exact matchDigits_no .decimal s

theorem octet_sound {s rest : List Nat} {v : Nat} (h : octet s = .ok v rest []) : ∃ t, s = t ++ rest ∧ Octet t v := by
  obtain ⟨t, h1, h2, h3, h4, h5, h6⟩ := int_sound numTok_nlz traitsOctet h
  exact ⟨t, h1, h2, h3, h4, h5, Nat.lt_succ_of_le h6⟩

theorem octet_ok {t rest : List Nat} {v : Nat} (h : Octet t v) (hn : ∀ c, rest.head? = some c → ¬ Spec.IsDigitOf .decimal c) :
    octet (t ++ rest) = .ok v rest [] := by
  rw [h.value]
  refine int_ok numTok_nlz traitsOctet h.ne h.digits h.zero ?_ hn
  have := h.lt
  rw [h.value] at this
  exact Nat.le_of_lt_succ this

theorem piece_sound {s rest : List Nat} {v : Nat} (h : piece s = .ok v rest []) : ∃ t, s = t ++ rest ∧ H16 false t v := by
  obtain ⟨t, h1, h2, h3, -, h5, h6⟩ := int_sound (numTok_digits .hex) traitsPiece h
  exact ⟨t, h1, h2, h3, (by intro h; cases h), h5, Nat.lt_succ_of_le h6⟩

theorem piece_ok {L : Bool} {t rest : List Nat} {v : Nat} (h : H16 L t v) (hn : ∀ c, rest.head? = some c → ¬ Spec.IsDigitOf .hex c) :
    piece (t ++ rest) = .ok v rest [] := by
  rw [h.value]
  refine int_ok (numTok_digits .hex) traitsPiece h.ne h.digits trivial ?_ hn
  have := h.lt
  rw [h.value] at this
  exact Nat.le_of_lt_succ this

/-! ## IPv4 addresses -/

theorem period_quiet {s rest : List Nat} : period s = .ok () rest [] ↔ s = 0x2E :: rest := by
  unfold period
  constructor
  · intro h
    split at h
    · rename_i h1
      cases h
      exact lit_split h1
    · cases h
  · rintro rfl
    have := lit_app [0x2E] rest
    simp only [List.singleton_append] at this
    rw [this]
    simp

theorem join_eq {a b : Nat} (h : b < 256) : join a b = 256 * a + b := by
  unfold join
  rw [← Nat.shiftLeft_add_eq_or_of_lt (by simpa using h), Nat.shiftLeft_eq]
  omega

theorem period_not_digit : ¬ Spec.IsDigitOf .decimal 0x2E := by decide
theorem period_not_hex : ¬ Spec.IsDigitOf .hex 0x2E := by decide
theorem colon_not_hex : ¬ Spec.IsDigitOf .hex 0x3A := by decide
theorem decimal_hex {c : Nat} (h : Spec.IsDigitOf .decimal c) : Spec.IsDigitOf .hex c := by
  have := Spec.isDigitOf_lt h
  revert h
  exact (by decide +kernel : ∀ c : Fin 128, Spec.IsDigitOf .decimal c.val → Spec.IsDigitOf .hex c.val) ⟨c, this⟩

theorem v4_sound {s rest : List Nat} {v : Nat × Nat} (h : v4 s = .ok v rest []) : ∃ t, s = t ++ rest ∧ V4 t v := by
  unfold v4 at h
  obtain ⟨a, s1, h1, h⟩ := bind_quiet.1 h
  obtain ⟨_, s2, h2, h⟩ := bind_quiet.1 h
  obtain ⟨b, s3, h3, h⟩ := bind_quiet.1 h
  obtain ⟨_, s4, h4, h⟩ := bind_quiet.1 h
  obtain ⟨c, s5, h5, h⟩ := bind_quiet.1 h
  obtain ⟨_, s6, h6, h⟩ := bind_quiet.1 h
  obtain ⟨d, s7, h7, h⟩ := bind_quiet.1 h
  rw [period_quiet] at h2 h4 h6
  obtain ⟨t1, e1, o1⟩ := octet_sound h1
  obtain ⟨t2, e2, o2⟩ := octet_sound h3
  obtain ⟨t3, e3, o3⟩ := octet_sound h5
  obtain ⟨t4, e4, o4⟩ := octet_sound h7
  split at h
  · cases h
  · cases h
    refine ⟨t1 ++ 0x2E :: (t2 ++ 0x2E :: (t3 ++ 0x2E :: t4)), ?_, t1, t2, t3, t4, a, b, c, d, rfl, o1, o2, o3, o4, ?_⟩
    · rw [e1, h2, e2, h4, e3, h6, e4]
      simp
    · rw [join_eq o2.lt, join_eq o4.lt]

theorem head_cons {c d : Nat} {s : List Nat} {P : Nat → Prop} (h : P c) : (c :: s).head? = some d → P d := by
  intro h1
  cases h1
  exact h

theorem v4_ok {s rest : List Nat} {v : Nat × Nat} (h : V4 s v)
    (hn : ∀ c, rest.head? = some c → ¬ Spec.IsDigitOf .decimal c ∧ c ≠ 0x2E) : v4 (s ++ rest) = .ok v rest [] := by
  obtain ⟨t1, t2, t3, t4, a, b, c, d, rfl, o1, o2, o3, o4, rfl⟩ := h
  unfold v4
  have hp : ∀ (s : List Nat) c, (0x2E :: s).head? = some c → ¬ Spec.IsDigitOf .decimal c := fun s c h => head_cons (P := fun c => ¬ Spec.IsDigitOf .decimal c) period_not_digit h
  have e : t1 ++ 0x2E :: (t2 ++ 0x2E :: (t3 ++ 0x2E :: t4)) ++ rest = t1 ++ 0x2E :: (t2 ++ 0x2E :: (t3 ++ 0x2E :: (t4 ++ rest))) := by
    simp
  rw [e]
  refine bind_quiet.2 ⟨a, _, octet_ok o1 (hp _), bind_quiet.2 ⟨(), _, period_quiet.2 rfl, ?_⟩⟩
  refine bind_quiet.2 ⟨b, _, octet_ok o2 (hp _), bind_quiet.2 ⟨(), _, period_quiet.2 rfl, ?_⟩⟩
  refine bind_quiet.2 ⟨c, _, octet_ok o3 (hp _), bind_quiet.2 ⟨(), _, period_quiet.2 rfl, ?_⟩⟩
  refine bind_quiet.2 ⟨d, _, octet_ok o4 (fun c hc => (hn c hc).1), ?_⟩
  rw [lit_false (fun h => (hn _ (pre_one.1 h)).2 rfl), join_eq o2.lt, join_eq o4.lt]
  simp

/-- The lookahead. -/
theorem isV4_iff {s : List Nat} : isV4 s = true ↔
    ∃ t r, s = t ++ 0x2E :: r ∧ t ≠ [] ∧ ∀ c ∈ t, Spec.IsDigitOf .decimal c := by
  unfold isV4
  simp only [Bool.and_eq_true, lit_true, pre_one]
  constructor
  · rintro ⟨h1, h2⟩
    obtain ⟨h3, h4⟩ := (C16_digits_maximal .decimal s _).1 (Prod.ext h1 rfl)
    obtain ⟨r, hr⟩ : ∃ r, s.drop (matchDigits .decimal s).2 = 0x2E :: r := by
      cases hs : s.drop (matchDigits .decimal s).2 with
      | nil => rw [hs] at h2; cases h2
      | cons x r => rw [hs] at h2; cases h2; exact ⟨r, rfl⟩
    refine ⟨s.take (matchDigits .decimal s).2, r, by rw [← hr, List.take_append_drop], take_ne h3 h4.le, h4.all⟩
  · rintro ⟨t, r, rfl, h1, h2⟩
    have := (C16_digits_maximal .decimal (t ++ 0x2E :: r) t.length).2 ⟨List.length_pos_iff.2 h1, by simp,
      by rw [List.take_left]; exact h2, by rw [List.drop_left]; exact fun c h => head_cons (P := fun c => ¬ Spec.IsDigitOf .decimal c) period_not_digit h⟩
    rw [this, List.drop_left]
    simp

theorem isV4_V4 {s r : List Nat} {v : Nat × Nat} (h : V4 s v) : isV4 (s ++ r) = true := by
  obtain ⟨t1, t2, t3, t4, a, b, c, d, rfl, o1, -⟩ := h
  exact isV4_iff.2 ⟨t1, t2 ++ 0x2E :: (t3 ++ 0x2E :: (t4 ++ r)), by simp, o1.ne, o1.digits⟩

/-- No lookahead for a number that is not followed by a period. -/
theorem isV4_hex {t rest : List Nat} (h : ∀ c ∈ t, Spec.IsDigitOf .hex c) (hn : ∀ c, rest.head? = some c → ¬ Spec.IsDigitOf .hex c ∧ c ≠ 0x2E) :
    isV4 (t ++ rest) = false := by
  cases h1 : isV4 (t ++ rest) with
  | false => rfl
  | true =>
    obtain ⟨u, r, h2, h3, h4⟩ := isV4_iff.1 h1
    exfalso
    rcases List.append_eq_append_iff.1 h2 with ⟨w, rfl, hw⟩ | ⟨w, rfl, hw⟩
    · cases w with
      | nil =>
        simp at hw
        exact (hn 0x2E (by rw [hw]; rfl)).2 rfl
      | cons x w =>
        exact (hn x (by rw [hw]; rfl)).1 (decimal_hex (h4 x (by simp)))
    · cases w with
      | nil =>
        simp at hw
        exact (hn 0x2E (by rw [← hw]; rfl)).2 rfl
      | cons x w =>
        simp at hw
        have := h x (by simp)
        rw [← hw.1] at this
        exact period_not_hex this

/-- IPv4 addresses are never undefined behavior, and they consume no colon. -/
theorem v4_safe (s : List Nat) : (∃ e, v4 s = .fail e) ∨ ∃ v t rest e, v4 s = .ok v rest e ∧ s = t ++ rest ∧ 0x3A ∉ t := by
  have oc : ∀ s, (∃ e, octet s = .fail e) ∨ ∃ v t rest e, octet s = .ok v rest e ∧ s = t ++ rest ∧ 0x3A ∉ t := by
    intro s
    rcases int_safe numTok_nlz traitsOctet s with h | ⟨v, t, rest, e, h1, h2, -, h3⟩
    · exact .inl h
    · exact .inr ⟨v, t, rest, e, h1, h2, fun hc => absurd (h3 _ hc) (by decide)⟩
  have pe : ∀ s, (∃ e, period s = .fail e) ∨ ∃ v t rest e, period s = .ok v rest e ∧ s = t ++ rest ∧ 0x3A ∉ t := by
    intro s
    unfold period
    split
    · rename_i h
      exact .inr ⟨(), [0x2E], _, _, rfl, lit_split h, by decide⟩
    · exact .inl ⟨_, rfl⟩
  have bi : ∀ {α β : Type} {x : Outc α} {f : α → List Nat → Outc β} {s : List Nat},
      ((∃ e, x = .fail e) ∨ ∃ v t rest e, x = .ok v rest e ∧ s = t ++ rest ∧ 0x3A ∉ t) →
      (∀ v s', (∃ e, f v s' = .fail e) ∨ ∃ w t rest e, f v s' = .ok w rest e ∧ s' = t ++ rest ∧ 0x3A ∉ t) →
      (∃ e, x.bind f = .fail e) ∨ ∃ v t rest e, x.bind f = .ok v rest e ∧ s = t ++ rest ∧ 0x3A ∉ t := by
    intro α β x f s hx hf
    rcases hx with ⟨e, rfl⟩ | ⟨v, t, rest, e, rfl, rfl, h1⟩
    · exact .inl ⟨e, rfl⟩
    · rcases hf v rest with ⟨e', h2⟩ | ⟨w, t', rest', e', h2, rfl, h3⟩
      · exact .inl ⟨e ++ e', by simp [Outc.bind, h2]⟩
      · exact .inr ⟨w, t ++ t', rest', e ++ e', by simp [Outc.bind, h2], by simp, by simp [h1, h3]⟩
  unfold v4
  refine bi (oc _) fun a s => bi (pe _) fun _ s => bi (oc _) fun b s => bi (pe _) fun _ s => bi (oc _) fun c s => bi (pe _) fun _ s =>
    bi (oc _) fun d s => .inr ?_
  split
  · rename_i h
    exact ⟨_, [0x2E], _, _, rfl, lit_split h, by decide⟩
  · exact ⟨_, [], s, _, rfl, rfl, by simp⟩

end Verif.Ip
