import Verif.TokenKind

/-
C92: token kinds.
-/

namespace Verif.Tk

namespace Spec

/-- The integer types an enumeration can have. -/
def Std (t : IntTy) : Prop := t.bits = 8 ∨ t.bits = 16 ∨ t.bits = 32 ∨ t.bits = 64

/-- The type has more than the 16 bits of the stored value, or exactly these. -/
def Wide (t : IntTy) : Prop := Std t ∧ (t.bits = 16 → t.signed = false) ∧ t.bits ≠ 8

/-- The kind associated with a token by a list of mappings: the first one. -/
def Mapped (m : List (Nat × Int)) (token : Nat) (v : Int) : Prop :=
  ∃ pre post, m = pre ++ (token, v) :: post ∧ ∀ x ∈ pre, x.1 ≠ token

end Spec

theorem conv_zero (t : IntTy) : t.conv 0 = 0 := by
  have : (0 : Int) < 2 ^ (t.bits - 1) := Int.pow_pos (by decide)
  have h : ¬ (t.signed = true ∧ (2 : Int) ^ (t.bits - 1) ≤ 0 % 2 ^ t.bits) := by
    rw [Int.zero_emod]; omega
  simp only [IntTy.conv, if_neg h]; simp

theorem conv_wide {t : IntTy} (ht : Spec.Wide t) {v : Int} (h0 : 0 ≤ v) (h1 : v < 65536) : t.conv v = v := by
  obtain ⟨bits, sg⟩ := t
  obtain ⟨hs, h16, h8⟩ := ht
  simp only [Spec.Std] at hs h16 h8
  rcases hs with h | h | h | h
  · omega
  · have := h16 h; subst h; subst this
    simp only [IntTy.conv]; simp; omega
  · subst h; simp only [IntTy.conv]
    split
    · omega
    · omega
  · subst h; simp only [IntTy.conv]
    split
    · omega
    · omega

theorem u16_conv {v : Int} (h0 : 0 ≤ v) (h1 : v < 65536) : u16.conv v = v :=
  conv_wide (t := u16) ⟨.inr (.inl rfl), fun _ => rfl, by decide⟩ h0 h1

theorem wide_ty (k : Kind) (h : ∀ id t, k = .enum id t → Spec.Wide t) : Spec.Wide k.ty := by
  cases k with
  | void => exact ⟨.inr (.inr (.inl rfl)), by decide, by decide⟩
  | enum id t => exact h id t rfl

/-- C92: a user-defined kind is accepted exactly if it is not negative and smaller than all
    predefined kinds; then it is returned unchanged, and is neither predefined nor unknown.  This is
    for `int` and all enumerations whose type has the values up to 65535. -/
theorem C92_value_partial (k : Kind) (hk : ∀ id t, k = .enum id t → Spec.Wide t) (v : Int) :
    (∀ t, ofValue k v = some t → 0 ≤ v ∧ v < 65527) ∧
    (0 ≤ v → v < 65527 → ∃ t, ofValue k v = some t ∧ t.get k = v ∧ t.toRaw = v ∧ t.isPredefined = false ∧ t.known = true
      ∧ t.ignoreIfEmpty = false) := by
  have hw := wide_ty k hk
  have hs : k.ty.conv smallest = 65527 := conv_wide hw (by decide) (by decide)
  constructor
  · intro t h
    simp only [ofValue, hs, conv_zero] at h
    split at h
    · assumption
    · cases h
  · intro h0 h1
    refine ⟨⟨v⟩, ?_, ?_, rfl, ?_, ?_, ?_⟩
    · simp only [ofValue, hs, conv_zero]
      rw [if_pos ⟨h0, h1⟩, u16_conv h0 (by omega)]
    · exact conv_wide (t := k.ty) (v := v) hw h0 (by omega)
    · simp only [TK.isPredefined, smallest, Pre.val]; exact decide_eq_false (by omega)
    · simp only [TK.known, Pre.val, bne_iff_ne, ne_eq]; omega
    · simp only [TK.ignoreIfEmpty, Pre.val, Bool.or_eq_false_iff, beq_eq_false_iff_ne, ne_eq]; omega

/-- C92: different user-defined kinds are different token kinds. -/
theorem C92_value_injective (k : Kind) (hk : ∀ id t, k = .enum id t → Spec.Wide t) (v w : Int) (t : TK)
    (hv : ofValue k v = some t) (hw : ofValue k w = some t) : v = w := by
  have a := (C92_value_partial k hk v).1 t hv
  have b := (C92_value_partial k hk w).1 t hw
  obtain ⟨t1, h1, h2, _⟩ := (C92_value_partial k hk v).2 a.1 a.2
  obtain ⟨t2, h3, h4, _⟩ := (C92_value_partial k hk w).2 b.1 b.2
  rw [hv] at h1; rw [hw] at h3; cases h1; cases h3
  rw [← h2, ← h4]

/-- C92: no value of an enumeration with a signed underlying type of 8 or 16 bits is accepted, as the
    bound it is compared with, converted to the enumeration, is negative. -/
theorem C92_narrow (id bits : Nat) (h : bits = 8 ∨ bits = 16) (v : Int) :
    ofValue (.enum id ⟨bits, true⟩) v = none := by
  simp only [ofValue, Kind.ty, conv_zero]
  rw [if_neg]
  rintro ⟨h0, h1⟩
  rcases h with rfl | rfl <;> revert h1 <;> simp [IntTy.conv, smallest, Pre.val] <;> omega

/-- C92: the documentation requires of a user-defined kind that it "must fit in a 15bit unsigned
    integer"; this is not sufficient. -/
theorem C92_value_refuted : ¬ ∀ (k : Kind) (v : Int), Spec.Std k.ty → k.ty.In v → 0 ≤ v → v < 2 ^ 15 →
    ∃ t, ofValue k v = some t := by
  intro h
  obtain ⟨t, ht⟩ := h (.enum 0 ⟨16, true⟩) 0 (.inr (.inl rfl)) (by simp [IntTy.In, Kind.ty]) (by decide) (by decide)
  rw [C92_narrow 0 16 (.inr rfl)] at ht
  cases ht

/-- C92: predefined kinds are predefined, different from each other and from all user-defined ones, and
    have the documented names; those that are ignored if empty are the documented three. -/
theorem C92_predefined (p q : Pre) (k : Kind) (v : Int) (t : TK) (hk : ∀ id t, k = .enum id t → Spec.Wide t)
    (hv : ofValue k v = some t) (user : Int → String) :
    (ofPre p).isPredefined = true ∧ (ofPre p = ofPre q → p = q) ∧ ofPre p ≠ t ∧
    ((ofPre p).get k = (ofPre q).get k → p = q) ∧ (ofPre p).get k ≠ t.get k ∧
    ((ofPre p).known = true ↔ p ≠ .unknown) ∧
    ((ofPre p).ignoreIfEmpty = true ↔ p = .unknown ∨ p = .error ∨ p = .whitespace) ∧
    (ofPre p).name k user = (match p with
      | .unknown => "token" | .error => "error token" | .whitespace => "whitespace" | .any => "any"
      | .literal => "literal" | .position => "position" | .eof => "EOF" | .identifier => "identifier"
      | .digits => "digits") ∧
    t.name k user = user v := by
  have hw := wide_ty k hk
  have hb : ∀ p : Pre, 65527 ≤ p.val ∧ p.val < 65536 := by intro p; cases p <;> decide
  have hi : ∀ p q : Pre, p.val = q.val → p = q := by intro p q; cases p <;> cases q <;> decide
  have hg : ∀ p : Pre, (ofPre p).get k = p.val := fun p =>
    conv_wide (t := k.ty) (v := p.val) hw (by have := hb p; omega) (hb p).2
  have hr := (C92_value_partial k hk v).1 t hv
  obtain ⟨t', ht', h1, h2, h3, _⟩ := (C92_value_partial k hk v).2 hr.1 hr.2
  rw [hv] at ht'; cases ht'
  have hp := hb p
  refine ⟨?_, ?_, ?_, ?_, ?_, ?_, ?_, ?_, ?_⟩
  · simp only [TK.isPredefined, ofPre, smallest]; exact decide_eq_true hp.1
  · intro h; exact hi p q (congrArg TK.v h)
  · intro h
    have : p.val = t.v := congrArg TK.v h
    have ht : t.v = v := h2
    omega
  · rw [hg, hg]; exact hi p q
  · rw [hg, h1]; omega
  · cases p <;> simp [TK.known, ofPre, Pre.val]
  · cases p <;> simp [TK.ignoreIfEmpty, ofPre, Pre.val]
  · have hpre : (ofPre p).isPredefined = true := decide_eq_true hp.1
    simp only [TK.name, hpre, if_true, ofPre]
    cases p <;> rfl
  · simp only [TK.name, h3, Bool.false_eq_true, if_false, h1]

/-- C92: raw values of 16 bits and token kinds are in bijection. -/
theorem C92_raw (t : TK) (v : Int) : fromRaw t.toRaw = t ∧ (fromRaw v).toRaw = v := ⟨rfl, rfl⟩

theorem findIdx_spec (token : Nat) (ts : List Nat) : ∀ (i : Nat),
    (token ∉ ts → findIdx token ts i = i + ts.length) ∧
    ∀ pre post, ts = pre ++ token :: post → token ∉ pre → findIdx token ts i = i + pre.length := by
  induction ts with
  | nil => intro i; exact ⟨fun _ => rfl, fun pre post h => by cases pre <;> cases h⟩
  | cons t ts ih =>
    intro i
    refine ⟨fun h => ?_, fun pre post h hn => ?_⟩
    · simp only [List.mem_cons, not_or] at h
      simp only [findIdx, if_neg h.1, (ih (i + 1)).1 h.2, List.length_cons]; omega
    · cases pre with
      | nil =>
        simp only [List.nil_append, List.cons.injEq] at h
        simp [findIdx, h.1]
      | cons p pre =>
        simp only [List.cons_append, List.cons.injEq] at h
        simp only [List.mem_cons, not_or] at hn
        have : token ≠ t := by rw [h.1]; exact hn.1
        simp only [findIdx, if_neg this, (ih (i + 1)).2 pre post h.2 hn.2, List.length_cons]; omega

/-- C92: looking a token up gives the first kind it was mapped to, and nothing exactly if it was not
    mapped. -/
theorem C92_lookup (m : KMap) (token : Nat) :
    (∀ v, m.lookup token = some v ↔ Spec.Mapped m token v) ∧
    (m.lookup token = none ↔ ∀ x ∈ m, x.1 ≠ token) := by
  have hnone : (∀ x ∈ m, x.1 ≠ token) → m.lookup token = none := by
    intro h
    have : token ∉ List.map (·.1) m := by
      intro hm
      obtain ⟨x, hx, rfl⟩ := List.mem_map.1 hm
      exact h x hx rfl
    simp [KMap.lookup, (findIdx_spec token _ 0).1 this]
  have hsome : ∀ v, Spec.Mapped m token v → m.lookup token = some v := by
    rintro v ⟨pre, post, rfl, hp⟩
    have hn : token ∉ List.map (·.1) pre := by
      intro hm
      obtain ⟨x, hx, rfl⟩ := List.mem_map.1 hm
      exact hp x hx rfl
    have := (findIdx_spec token (List.map (·.1) (pre ++ (token, v) :: post)) 0).2 (List.map (·.1) pre)
      (List.map (·.1) post) (by simp) hn
    simp only [KMap.lookup, this]
    simp
  have hcase : (∀ x ∈ m, x.1 ≠ token) ∨ ∃ v, Spec.Mapped m token v := by
    clear hnone hsome
    induction m with
    | nil => left; nofun
    | cons x m ih =>
      by_cases hx : x.1 = token
      · right; exact ⟨x.2, [], m, by rw [← hx]; rfl, nofun⟩
      · rcases ih with h | ⟨v, pre, post, rfl, hp⟩
        · left; intro y hy
          rcases List.mem_cons.1 hy with rfl | hy
          · exact hx
          · exact h y hy
        · right; refine ⟨v, x :: pre, post, rfl, fun y hy => ?_⟩
          rcases List.mem_cons.1 hy with rfl | hy
          · exact hx
          · exact hp y hy
  constructor
  · intro v
    refine ⟨fun h => ?_, hsome v⟩
    rcases hcase with hc | ⟨w, hw⟩
    · rw [hnone hc] at h; cases h
    · rw [hsome w hw] at h; cases h; exact hw
  · refine ⟨fun h => ?_, hnone⟩
    rcases hcase with hc | ⟨w, hw⟩
    · exact hc
    · rw [hsome w hw] at h; cases h

/-- C92: a mapping that is added is found and leaves the others, if the token was not mapped before. -/
theorem C92_map_partial (m : KMap) (token : Nat) (v : Int) (h : ∀ x ∈ m, x.1 ≠ token) :
    (m.map v token).lookup token = some v ∧ ∀ t, t ≠ token → (m.map v token).lookup t = m.lookup t := by
  refine ⟨((C92_lookup _ _).1 v).2 ⟨m, [], rfl, h⟩, fun t ht => ?_⟩
  cases hl : m.lookup t with
  | none =>
    refine (C92_lookup _ _).2.2 fun x hx => ?_
    rcases List.mem_append.1 hx with hx | hx
    · exact (C92_lookup _ _).2.1 hl x hx
    · simp only [List.mem_cons, List.not_mem_nil, or_false] at hx; subst hx; exact Ne.symm ht
  | some w =>
    obtain ⟨pre, post, hm, hp⟩ := ((C92_lookup _ _).1 w).1 hl
    exact ((C92_lookup _ _).1 w).2 ⟨pre, post ++ [(token, v)], by simp [KMap.map, hm], hp⟩

/-- C92: "its result is a map that contains this mapping in addition to all previous mappings" -- but
    mapping a token for a second time has no effect, and is not an error. -/
theorem C92_map_refuted : ¬ ∀ (m : KMap) (token : Nat) (v : Int), (m.map v token).lookup token = some v := by
  intro h
  have := h [(0, 1)] 0 2
  revert this; decide

/-- C92: the kind of a token rule is the one of the map if there is one, else the predefined one, else
    the one given to the rule if its type is compatible, else unknown. -/
theorem C92_rule_partial (k : Kind) (hk : ∀ id t, k = .enum id t → Spec.Wide t) (m : KMap) (token : Nat) (own : RuleKind)
    (hm : ∀ x ∈ m, 0 ≤ x.2 ∧ x.2 < 65527)
    (ho : match own with
      | .pre _ => True
      | .integer t v => (t = int ∨ t.bits < 32) ∧ t ≠ u16 ∧ 0 ≤ v ∧ v < 65527
      | .enum _ v => 0 ≤ v ∧ v < 65527) :
    ∃ t, ofRule k m token own = some t ∧
      (∀ v, Spec.Mapped m token v → t.get k = v ∧ t.isPredefined = false) ∧
      ((∀ x ∈ m, x.1 ≠ token) → match own, k with
        | .pre p, _ => t = ofPre p
        | .integer _ v, .void => t.get k = v ∧ t.isPredefined = false
        | .enum id v, .enum id' _ => if id = id' then t.get k = v ∧ t.isPredefined = false else t = ofPre .unknown
        | _, _ => t = ofPre .unknown) := by
  have hval : ∀ v : Int, 0 ≤ v → v < 65527 → ∃ t, ofValue k v = some t ∧ t.get k = v ∧ t.isPredefined = false ∧ t.known = true := by
    intro v h0 h1
    obtain ⟨t, a, b, _, c, d, _⟩ := (C92_value_partial k hk v).2 h0 h1
    exact ⟨t, a, b, c, d⟩
  cases hl : m.lookup token with
  | some v =>
    obtain ⟨pre, post, hmm, hp⟩ := ((C92_lookup _ _).1 v).1 hl
    have hb := hm (token, v) (by rw [hmm]; simp)
    obtain ⟨t, h1, h2, h3, h4⟩ := hval v hb.1 hb.2
    refine ⟨t, by simp [ofRule, hl, h1, h4], fun w hw => ?_, fun hn => ?_⟩
    · have := ((C92_lookup _ _).1 w).2 hw
      rw [hl] at this; cases this
      exact ⟨h2, h3⟩
    · exact absurd rfl (hn (token, v) (by rw [hmm]; simp))
  | none =>
    have hn := (C92_lookup _ _).2.1 hl
    have huk : (ofPre .unknown).known = false := by decide
    have hnm : ∀ v, ¬ Spec.Mapped m token v := fun v hv => by
      rw [((C92_lookup _ _).1 v).2 hv] at hl; cases hl
    have hbase : ofRule k m token own = if compatible k own then ofOwn k own
      else some (ofPre .unknown) := by
      simp [ofRule, hl, huk]
    cases own with
    | pre p =>
      exact ⟨ofPre p, by simp [hbase, compatible, ofOwn], fun v hv => absurd hv (hnm v), fun _ => rfl⟩
    | integer ty v =>
      cases k with
      | void =>
        obtain ⟨t, h1, h2, h3, h4⟩ := hval v ho.2.2.1 ho.2.2.2
        refine ⟨t, ?_, fun w hw => absurd hw (hnm w), fun _ => ⟨h2, h3⟩⟩
        simp only [hbase, compatible, if_true, ofOwn, ofInteger, if_neg ho.2.1, if_pos ho.1, h1]
      | enum id ty' =>
        exact ⟨ofPre .unknown, by simp [hbase, compatible], fun w hw => absurd hw (hnm w), fun _ => rfl⟩
    | enum id v =>
      cases k with
      | void =>
        exact ⟨ofPre .unknown, by simp [hbase, compatible], fun w hw => absurd hw (hnm w), fun _ => rfl⟩
      | enum id' ty' =>
        by_cases hid : id = id'
        · obtain ⟨t, h1, h2, h3, h4⟩ := hval v ho.1 ho.2
          refine ⟨t, ?_, fun w hw => absurd hw (hnm w), fun _ => ?_⟩
          · rw [hbase]; simp [compatible, hid, ofOwn, h1]
          · simp only [if_pos hid]; exact ⟨h2, h3⟩
        · refine ⟨ofPre .unknown, ?_, fun w hw => absurd hw (hnm w), fun _ => ?_⟩
          · simp [hbase, compatible, hid]
          · simp only [if_neg hid]

/-- C92: a conversion has a value of the type, which is congruent to the converted one, and keeps the values of the type. -/
theorem C92_conversion (t : IntTy) (ht : Spec.Std t) (v : Int) :
    t.In (t.conv v) ∧ (t.conv v - v) % 2 ^ t.bits = 0 ∧ (t.In v → t.conv v = v) := by
  obtain ⟨b, sg⟩ := t
  simp only [Spec.Std] at ht
  rcases ht with rfl | rfl | rfl | rfl <;> cases sg <;> simp only [IntTy.In, IntTy.conv] <;> simp <;> omega

/-- C92: "If `TokenKind == void`, a user-defined token kind is compatible if it is an integral value":
    a rule with the kind `42u` is not accepted, the constructor is ambiguous. -/
theorem C92_unsigned_refuted : ¬ ∀ (t : IntTy) (v : Int), Spec.Std t → t.In v → 0 ≤ v → v < 2 ^ 15 →
    ∃ r, ofRule .void [] 0 (.integer t v) = some r ∧ r.get .void = v := by
  intro h
  obtain ⟨r, hr, _⟩ := h ⟨32, false⟩ 42 (.inr (.inr (.inl rfl))) (by simp [IntTy.In]) (by decide) (by decide)
  have hn : ofRule .void [] 0 (.integer ⟨32, false⟩ 42) = none := by decide
  rw [hn] at hr; cases hr

/-- C92: a rule with a kind of type `std::uint_least16_t` selects the private constructor, which checks
    nothing: a user-defined kind becomes a predefined one. -/
theorem C92_unchecked_refuted : ¬ ∀ (t : IntTy) (v : Int) (r : TK), t.In v →
    ofRule .void [] 0 (.integer t v) = some r → r.isPredefined = false := by
  intro h
  have := h u16 65534 ⟨65534⟩ (by simp [IntTy.In, u16]) (by decide)
  revert this; decide

-- An enumeration without a given type has the values of `int`.
example : Spec.Wide ⟨32, true⟩ := ⟨.inr (.inr (.inl rfl)), by decide, by decide⟩
example : (ofValue (.enum 1 ⟨32, true⟩) 7).map (·.get (.enum 1 ⟨32, true⟩)) = some 7 := by decide
example : ofValue .void 65527 = none ∧ ofValue .void (-1) = none := by decide
example : ((KMap.map [] 5 1).map 6 2).lookup 2 = some 6 := by decide
example : ofRule .void [] 3 (.integer int 9) = some ⟨9⟩ ∧ ofRule (.enum 1 int) [(3, 4)] 3 (.pre .digits) = some ⟨4⟩ := by
  decide

end Verif.Tk
