import Verif.JsonValueSpec

/-
A JSON text has one meaning.
-/

namespace Verif.Spec.Json

/-- The longest beginning of characters with a property is unique. -/
theorem span_unique {P : Nat → Prop} : ∀ {w w' x x' : List Nat}, (∀ c ∈ w, P c) → (∀ c ∈ w', P c) →
    (∀ c, x.head? = some c → ¬ P c) → (∀ c, x'.head? = some c → ¬ P c) → w ++ x = w' ++ x' → w = w' ∧ x = x'
  | [], [], _, _, _, _, _, _, e => ⟨rfl, e⟩
  | [], c :: w', x, x', _, h2, h3, _, e => by
    simp only [List.nil_append, List.cons_append] at e
    exact absurd (h2 c (by simp)) (h3 c (by rw [e]; rfl))
  | c :: w, [], x, x', h1, _, _, h4, e => by
    simp only [List.nil_append, List.cons_append] at e
    exact absurd (h1 c (by simp)) (h4 c (by rw [← e]; rfl))
  | c :: w, c' :: w', x, x', h1, h2, h3, h4, e => by
    simp only [List.cons_append, List.cons.injEq] at e
    obtain ⟨rfl, e⟩ := e
    obtain ⟨rfl, g⟩ := span_unique (fun d hd => h1 d (by simp [hd])) (fun d hd => h2 d (by simp [hd])) h3 h4 e
    exact ⟨rfl, g⟩

theorem utf8_unique {v v' : Nat} {x x' : List Nat} (h : IsScalar v) (h' : IsScalar v') (e : utf8 v ++ x = utf8 v' ++ x') :
    v = v' ∧ x = x' := by
  unfold IsScalar at h h'
  unfold utf8 at e
  split at e <;> split at e <;> (try split at e) <;> (try split at e) <;> (try split at e) <;> (try split at e) <;>
    simp only [List.cons_append, List.nil_append, List.cons.injEq] at e <;> refine ⟨by omega, ?_⟩ <;> first
    | exact e.2
    | exact e.2.2
    | exact e.2.2.2
    | exact e.2.2.2.2
    | omega

/-- What may be behind a value: whitespace, `,`, `]`, `}`, the end of the input. -/
def Ended (x : List Nat) : Prop :=
  ∀ c, x.head? = some c → (c = 0x20 ∨ c = 0x09 ∨ c = 0x0A ∨ c = 0x0D) ∨ c = 0x2C ∨ c = 0x5D ∨ c = 0x7D ∨ c = 0xFF

theorem digits_unique {t t' x x' : List Nat} (h : ∀ c ∈ t, Digit c) (h' : ∀ c ∈ t', Digit c)
    (hx : ∀ c, x.head? = some c → ¬ Digit c) (hx' : ∀ c, x'.head? = some c → ¬ Digit c) (e : t ++ x = t' ++ x') :
    t = t' ∧ x = x' := span_unique h h' hx hx' e

theorem ended_digit {x : List Nat} (h : Ended x) : ∀ c, x.head? = some c → ¬ Digit c := by
  intro c hc
  have := h c hc
  unfold Digit
  omega

theorem exp_head {L : Limits} {t x : List Nat} {v : Option _root_.Int} (h : ExpV L t v) (hx : Ended x) :
    ∀ c, (t ++ x).head? = some c → (¬ Digit c ∧ c ≠ 0x2E) := by
  intro c hc
  unfold Digit
  cases h with
  | none => have := hx c hc; omega
  | some he | plus he | minus he =>
    simp only [List.cons_append, List.head?_cons, Option.some.injEq] at hc
    omega

theorem digits_sign {t x : List Nat} {c : Nat} (h : Digits t) (e : (t ++ x).head? = some c) : c ≠ 0x2B ∧ c ≠ 0x2D := by
  obtain ⟨h1, h2⟩ := h
  cases t with
  | nil => exact absurd rfl h1
  | cons d t =>
    have := h2 d (by simp)
    simp only [List.cons_append, List.head?_cons, Option.some.injEq] at e
    unfold Digit at this
    omega

theorem exp_unique {L : Limits} {t t' x x' : List Nat} {v v' : Option _root_.Int} (h : ExpV L t v) (h' : ExpV L t' v')
    (hx : Ended x) (hx' : Ended x') (e : t ++ x = t' ++ x') : t = t' ∧ v = v' ∧ x = x' := by
  have key : ∀ {u u'}, Digits u → Digits u' → u ++ x = u' ++ x' → u = u' ∧ x = x' := fun hu hu' e =>
    digits_unique hu.2 hu'.2 (ended_digit hx) (ended_digit hx') e
  have hn : ∀ c, (c = 0x65 ∨ c = 0x45) → ∀ y u, Ended y → y ≠ c :: u := by
    intro c hc y u hy he
    have := hy c (by rw [he]; rfl)
    omega
  cases h with
  | none =>
    cases h' with
    | none => exact ⟨rfl, rfl, e⟩
    | some he | plus he | minus he => exact absurd e (hn _ he _ _ hx)
  | some he ht hl =>
    cases h' with
    | none => exact absurd e.symm (hn _ he _ _ hx')
    | some he' ht' hl' =>
      simp only [List.cons_append, List.cons.injEq] at e
      obtain ⟨rfl, e⟩ := e
      obtain ⟨rfl, g⟩ := key ht ht' e
      exact ⟨rfl, rfl, g⟩
    | plus he' ht' hl' =>
      simp only [List.cons_append, List.cons.injEq] at e
      exact absurd rfl (digits_sign (c := 0x2B) ht (by rw [e.2]; rfl)).1
    | minus he' ht' hl' =>
      simp only [List.cons_append, List.cons.injEq] at e
      exact absurd rfl (digits_sign (c := 0x2D) ht (by rw [e.2]; rfl)).2
  | plus he ht hl =>
    cases h' with
    | none => exact absurd e.symm (hn _ he _ _ hx')
    | some he' ht' hl' =>
      simp only [List.cons_append, List.cons.injEq] at e
      exact absurd rfl (digits_sign (c := 0x2B) ht' (by rw [← e.2]; rfl)).1
    | plus he' ht' hl' =>
      simp only [List.cons_append, List.cons.injEq] at e
      obtain ⟨rfl, -, e⟩ := e
      obtain ⟨rfl, g⟩ := key ht ht' e
      exact ⟨rfl, rfl, g⟩
    | minus he' ht' hl' =>
      simp only [List.cons_append, List.cons.injEq] at e
      omega
  | minus he ht hl =>
    cases h' with
    | none => exact absurd e.symm (hn _ he _ _ hx')
    | some he' ht' hl' =>
      simp only [List.cons_append, List.cons.injEq] at e
      exact absurd rfl (digits_sign (c := 0x2D) ht' (by rw [← e.2]; rfl)).2
    | plus he' ht' hl' =>
      simp only [List.cons_append, List.cons.injEq] at e
      omega
    | minus he' ht' hl' =>
      simp only [List.cons_append, List.cons.injEq] at e
      obtain ⟨rfl, -, e⟩ := e
      obtain ⟨rfl, g⟩ := key ht ht' e
      exact ⟨rfl, rfl, g⟩

theorem frac_unique {t t' x x' : List Nat} {v v' : Option (List Nat)} (h : FracV t v) (h' : FracV t' v')
    (hx : ∀ c, x.head? = some c → (¬ Digit c ∧ c ≠ 0x2E)) (hx' : ∀ c, x'.head? = some c → (¬ Digit c ∧ c ≠ 0x2E))
    (e : t ++ x = t' ++ x') : t = t' ∧ v = v' ∧ x = x' := by
  cases h with
  | none =>
    cases h' with
    | none => exact ⟨rfl, rfl, e⟩
    | some ht => exact absurd rfl (hx 0x2E (by simp only [List.nil_append] at e; rw [e]; rfl)).2
  | some ht =>
    cases h' with
    | none => exact absurd rfl (hx' 0x2E (by simp only [List.nil_append] at e; rw [← e]; rfl)).2
    | some ht' =>
      simp only [List.cons_append, List.cons.injEq, true_and] at e
      obtain ⟨rfl, g⟩ := digits_unique ht.2 ht'.2 (fun c hc => (hx c hc).1) (fun c hc => (hx' c hc).1) e
      exact ⟨rfl, rfl, g⟩

theorem frac_head {t x : List Nat} {v : Option (List Nat)} (h : FracV t v)
    (hx : ∀ c, x.head? = some c → (¬ Digit c ∧ c ≠ 0x2E)) : ∀ c, (t ++ x).head? = some c → ¬ Digit c := by
  intro c hc
  cases h with
  | none => exact (hx c hc).1
  | some ht =>
    simp only [List.cons_append, List.head?_cons, Option.some.injEq] at hc
    unfold Digit
    omega

theorem int_head {t : List Nat} (h : Int t) : ∃ c r, t = c :: r ∧ Digit c := by
  rcases h with rfl | ⟨c, r, rfl, h1, h2, -⟩
  · exact ⟨_, _, rfl, by unfold Digit; omega⟩
  · exact ⟨_, _, rfl, by unfold Digit; omega⟩

theorem int_unique {t t' x x' : List Nat} (h : Int t) (h' : Int t') (hx : ∀ c, x.head? = some c → ¬ Digit c)
    (hx' : ∀ c, x'.head? = some c → ¬ Digit c) (e : t ++ x = t' ++ x') : t = t' ∧ x = x' := by
  rcases h with rfl | ⟨c, r, rfl, h1, h2, h3⟩
  · rcases h' with rfl | ⟨c', r', rfl, h1', h2', h3'⟩
    · exact ⟨rfl, by simpa using e⟩
    · simp only [List.cons_append, List.cons.injEq] at e; omega
  · rcases h' with rfl | ⟨c', r', rfl, h1', h2', h3'⟩
    · simp only [List.cons_append, List.cons.injEq] at e; omega
    · simp only [List.cons_append, List.cons.injEq] at e
      obtain ⟨rfl, e⟩ := e
      obtain ⟨rfl, g⟩ := digits_unique h3 h3' hx hx' e
      exact ⟨rfl, g⟩

theorem number_unique {L : Limits} {s s' x x' : List Nat} {n n' : Num} (h : NumberV L s n) (h' : NumberV L s' n')
    (hx : Ended x) (hx' : Ended x') (e : s ++ x = s' ++ x') : s = s' ∧ n = n' ∧ x = x' := by
  obtain ⟨int, frac, exp, rfl, h1, -, h3, h4, h5⟩ := h
  obtain ⟨int', frac', exp', rfl, h1', -, h3', h4', h5'⟩ := h'
  obtain ⟨mi, i, f, p⟩ := n
  obtain ⟨mi', i', f', p'⟩ := n'
  simp only at h3 h3' h4 h4' h5 h5' e ⊢
  obtain ⟨c, r, hc, hd⟩ := int_head h1
  obtain ⟨c', r', hc', hd'⟩ := int_head h1'
  have hm : mi = mi' ∧ int ++ (frac ++ (exp ++ x)) = int' ++ (frac' ++ (exp' ++ x')) := by
    unfold Digit at hd hd'
    cases mi <;> cases mi'
    · exact ⟨rfl, by simpa using e⟩
    · subst hc
      simp only [Bool.false_eq_true, if_false, if_true, List.nil_append, List.cons_append, List.cons.injEq] at e
      omega
    · subst hc'
      simp only [Bool.false_eq_true, if_false, if_true, List.nil_append, List.cons_append, List.cons.injEq] at e
      omega
    · exact ⟨rfl, by simpa using e⟩
  obtain ⟨rfl, g1⟩ := hm
  have hp := exp_head h5 hx
  have hp' := exp_head h5' hx'
  obtain ⟨rfl, g2⟩ := int_unique h1 h1' (frac_head h4 hp) (frac_head h4' hp') g1
  obtain ⟨rfl, rfl, g3⟩ := frac_unique h4 h4' hp hp' g2
  obtain ⟨rfl, rfl, g4⟩ := exp_unique h5 h5' hx hx' g3
  exact ⟨rfl, by rw [h3, h3'], g4⟩

theorem number_head {L : Limits} {s : List Nat} {n : Num} (h : NumberV L s n) :
    ∃ c r, s = c :: r ∧ (c = 0x2D ∨ (0x30 ≤ c ∧ c ≤ 0x39)) := by
  obtain ⟨int, frac, exp, rfl, h1, -⟩ := h
  obtain ⟨c, r, rfl, hd⟩ := int_head h1
  cases n.minus
  · exact ⟨c, r ++ frac ++ exp, by simp, .inr hd⟩
  · exact ⟨0x2D, c :: r ++ frac ++ exp, by simp, .inl rfl⟩

theorem unescaped_head {v : Nat} {x y : List Nat} {c : Nat} (h : Unescaped v) (e : utf8 v ++ x = c :: y) :
    c ≠ 0x22 ∧ c ≠ 0x5C := by
  obtain ⟨h1, h2, h3, h4⟩ := h
  unfold IsScalar at h4
  unfold utf8 at e
  split at e <;> (try split at e) <;> (try split at e) <;>
    simp only [List.cons_append, List.nil_append, List.cons.injEq] at e <;> omega

theorem chars_unique {L : Limits} {t cs : List Nat} (h : CharsV L t cs) : ∀ {t' cs' x x' : List Nat}, CharsV L t' cs' →
    t ++ 0x22 :: x = t' ++ 0x22 :: x' → t = t' ∧ cs = cs' ∧ x = x' := by
  induction h with
  | nil =>
    intro t' cs' x x' h' e
    cases h' with
    | nil => exact ⟨rfl, rfl, by simpa using e⟩
    | unescaped hu => exact absurd rfl (unescaped_head hu (by simpa using e.symm)).1
    | escape => simp at e
    | code => simp at e
  | @unescaped v s cs hu hl hs ih =>
    intro t' cs' x x' h' e
    cases h' with
    | nil => exact absurd rfl (unescaped_head hu (by simpa using e)).1
    | unescaped hu' hl' hs' =>
      obtain ⟨rfl, g⟩ := utf8_unique hu.2.2.2 hu'.2.2.2 (by simpa using e)
      obtain ⟨rfl, rfl, rfl⟩ := ih hs' g
      exact ⟨rfl, rfl, rfl⟩
    | escape => exact absurd rfl (unescaped_head hu (by simpa using e)).2
    | code => exact absurd rfl (unescaped_head hu (by simpa using e)).2
  | @escape c v s cs hm hs ih =>
    intro t' cs' x x' h' e
    have hc : c ≠ 0x75 := by
      rintro rfl
      revert hm
      unfold escaped
      simp
    cases h' with
    | nil => simp at e
    | unescaped hu => exact absurd rfl (unescaped_head hu (by simpa using e.symm)).2
    | escape hm' hs' =>
      simp only [List.cons_append, List.cons.injEq, true_and] at e
      obtain ⟨rfl, e⟩ := e
      obtain ⟨rfl, rfl, rfl⟩ := ih hs' e
      refine ⟨rfl, ?_, rfl⟩
      have : ∀ {c v v'}, (c, v) ∈ escaped → (c, v') ∈ escaped → v = v' := by
        unfold escaped
        intro c v v' h h'
        simp only [List.mem_cons, Prod.mk.injEq, List.not_mem_nil, or_false] at h h'
        omega
      rw [this hm hm']
    | code =>
      simp only [List.cons_append, List.cons.injEq, true_and] at e
      exact absurd e.1 hc
  | @code a b c d s cs ha hb hc hd hs ih =>
    intro t' cs' x x' h' e
    cases h' with
    | nil => simp at e
    | unescaped hu => exact absurd rfl (unescaped_head hu (by simpa using e.symm)).2
    | @escape c' v' s' cs' hm' hs' =>
      simp only [List.cons_append, List.cons.injEq, true_and] at e
      obtain ⟨rfl, -⟩ := e
      revert hm'
      unfold escaped
      simp
    | code ha' hb' hc' hd' hs' =>
      simp only [List.cons_append, List.cons.injEq, true_and] at e
      obtain ⟨rfl, rfl, rfl, rfl, e⟩ := e
      obtain ⟨rfl, rfl, rfl⟩ := ih hs' e
      exact ⟨rfl, rfl, rfl⟩

theorem str_unique {L : Limits} {s s' cs cs' x x' : List Nat} (h : StrV L s cs) (h' : StrV L s' cs')
    (e : s ++ x = s' ++ x') : s = s' ∧ cs = cs' ∧ x = x' := by
  obtain ⟨t, rfl, h⟩ := h
  obtain ⟨t', rfl, h'⟩ := h'
  obtain ⟨rfl, rfl, rfl⟩ := chars_unique h h' (x := x) (x' := x') (by simpa using e)
  exact ⟨rfl, rfl, rfl⟩

/-- What is behind a part of a text. -/
def Behind : Meaning → List Nat → Prop
  | .value _, x => Ended x
  | .values _, x => x.head? = some 0x5D
  | .members _, x => x.head? = some 0x7D

/-- The first character of a value. -/
def first : JV → Nat → Prop
  | .null, c => c = 0x6E
  | .bool b, c => c = if b then 0x74 else 0x66
  | .number _, c => c = 0x2D ∨ (0x30 ≤ c ∧ c ≤ 0x39)
  | .string _, c => c = 0x22
  | .array _, c => c = 0x5B
  | .object _, c => c = 0x7B

theorem value_head {L : Limits} {s : List Nat} {v : JV} (h : Means L s (.value v)) : ∃ c r, s = c :: r ∧ first v c := by
  cases h with
  | number h => obtain ⟨c, r, h1, h2⟩ := number_head h; exact ⟨c, r, h1, h2⟩
  | string h => obtain ⟨t, rfl, h⟩ := h; exact ⟨_, _, rfl, rfl⟩
  | _ => exact ⟨_, _, rfl, rfl⟩

theorem first_ink {v : JV} {c : Nat} (h : first v c) :
    ¬ (c = 0x20 ∨ c = 0x09 ∨ c = 0x0A ∨ c = 0x0D) ∧ c ≠ 0x5D ∧ c ≠ 0x7D := by
  cases v with
  | bool b => cases b <;> (simp [first] at h; omega)
  | _ => simp only [first] at h; omega

/-- The whitespace in front of something else is unique. -/
theorem blank_unique {w w' x x' : List Nat} (h : Blank w) (h' : Blank w')
    (hx : ∀ c, x.head? = some c → ¬ (c = 0x20 ∨ c = 0x09 ∨ c = 0x0A ∨ c = 0x0D))
    (hx' : ∀ c, x'.head? = some c → ¬ (c = 0x20 ∨ c = 0x09 ∨ c = 0x0A ∨ c = 0x0D)) (e : w ++ x = w' ++ x') :
    w = w' ∧ x = x' := span_unique h h' hx hx' e

theorem value_ink {L : Limits} {s x : List Nat} {v : JV} (h : Means L s (.value v)) :
    ∀ c, (s ++ x).head? = some c → ¬ (c = 0x20 ∨ c = 0x09 ∨ c = 0x0A ∨ c = 0x0D) := by
  obtain ⟨c, r, rfl, g⟩ := value_head h
  intro d hd
  simp only [List.cons_append, List.head?_cons, Option.some.injEq] at hd
  subst hd
  exact (first_ink g).1

theorem str_ink {L : Limits} {s cs x : List Nat} (h : StrV L s cs) :
    ∀ c, (s ++ x).head? = some c → ¬ (c = 0x20 ∨ c = 0x09 ∨ c = 0x0A ∨ c = 0x0D) := by
  obtain ⟨t, rfl, h⟩ := h
  intro d hd
  simp only [List.cons_append, List.head?_cons, Option.some.injEq] at hd
  omega

theorem cons_ink {c : Nat} {x : List Nat} (h : ¬ (c = 0x20 ∨ c = 0x09 ∨ c = 0x0A ∨ c = 0x0D)) :
    ∀ d, (c :: x).head? = some d → ¬ (d = 0x20 ∨ d = 0x09 ∨ d = 0x0A ∨ d = 0x0D) := by
  intro d hd
  simp only [List.head?_cons, Option.some.injEq] at hd
  subst hd
  exact h

/-- Whitespace and then one of the characters behind a value. -/
theorem ended_blank {w x : List Nat} (h : Blank w) (hx : Ended x) : Ended (w ++ x) := by
  cases w with
  | nil => exact hx
  | cons c w =>
    intro d hd
    simp only [List.cons_append, List.head?_cons, Option.some.injEq] at hd
    subst hd
    exact .inl (h c (by simp))

theorem ended_cons {c : Nat} {x : List Nat} (h : c = 0x2C ∨ c = 0x5D ∨ c = 0x7D) : Ended (c :: x) := by
  intro d hd
  simp only [List.head?_cons, Option.some.injEq] at hd
  omega

/-- The same kind of value. -/
def same : JV → JV → Prop
  | .null, .null | .number _, .number _ | .string _, .string _ | .array _, .array _ | .object _, .object _ => True
  | .bool b, .bool b' => b = b'
  | _, _ => False

theorem same_first {v v' : JV} {c : Nat} (h : first v c) (h' : first v' c) : same v v' := by
  cases v <;> cases v' <;> simp only [first, same] at h h' ⊢ <;> (try omega) <;>
    rename_i b <;> (try rename_i b'; cases b') <;> (try cases b) <;> simp_all

/-- The same kind of part. -/
def alike : Meaning → Meaning → Prop
  | .value v, .value v' => same v v'
  | .values _, .values _ | .members _, .members _ => True
  | _, _ => False

theorem value_alike {L : Limits} {s s' x x' : List Nat} {v v' : JV} (h : Means L s (.value v)) (h' : Means L s' (.value v'))
    (e : s ++ x = s' ++ x') : alike (.value v) (.value v') := by
  obtain ⟨c, r, rfl, g⟩ := value_head h
  obtain ⟨c', r', rfl, g'⟩ := value_head h'
  simp only [List.cons_append, List.cons.injEq] at e
  obtain ⟨rfl, -⟩ := e
  exact same_first g g'

/-- The first character of values and members behind their whitespace. -/
theorem inner_head {L : Limits} {s : List Nat} {m : Meaning} (h : Means L s m) :
    match m with
    | .value _ => True
    | .values _ | .members _ => ∃ w c r, s = w ++ c :: r ∧ Blank w ∧ ¬ (c = 0x20 ∨ c = 0x09 ∨ c = 0x0A ∨ c = 0x0D) ∧ c ≠ 0x5D ∧ c ≠ 0x7D := by
  cases h with
  | last hw h =>
    obtain ⟨c, r, rfl, g⟩ := value_head h
    exact ⟨_, _, _, by simp only [List.append_assoc, List.cons_append]; rfl, hw, first_ink g⟩
  | more hw h =>
    obtain ⟨c, r, rfl, g⟩ := value_head h
    exact ⟨_, _, _, by simp only [List.append_assoc, List.cons_append]; rfl, hw, first_ink g⟩
  | lastMember hw h =>
    obtain ⟨t, rfl, -⟩ := h
    exact ⟨_, _, _, by simp only [List.append_assoc, List.cons_append]; rfl, hw, by omega⟩
  | moreMembers hw h =>
    obtain ⟨t, rfl, -⟩ := h
    exact ⟨_, _, _, by simp only [List.append_assoc, List.cons_append]; rfl, hw, by omega⟩
  | _ => trivial

theorem empty_inner {w w' r x : List Nat} {c d : Nat} (hw : Blank w) (hw' : Blank w')
    (hc : ¬ (c = 0x20 ∨ c = 0x09 ∨ c = 0x0A ∨ c = 0x0D)) (hd : ¬ (d = 0x20 ∨ d = 0x09 ∨ d = 0x0A ∨ d = 0x0D))
    (e : w ++ c :: r = w' ++ d :: x) : c = d := by
  obtain ⟨rfl, g⟩ := blank_unique hw hw' (cons_ink hc) (cons_ink hd) e
  exact (List.cons.inj g).1

theorem head_cons {x : List Nat} {c : Nat} (h : x.head? = some c) : ∃ r, x = c :: r := by
  cases x with
  | nil => cases h
  | cons d r => cases h; exact ⟨r, rfl⟩

/-- A part of a text has one extent and one meaning, given what may be behind it. -/
theorem means_unique {L : Limits} {s : List Nat} {m : Meaning} (h : Means L s m) : ∀ {s' x x' : List Nat} {m' : Meaning},
    Means L s' m' → alike m m' → Behind m x → Behind m' x' → s ++ x = s' ++ x' → s = s' ∧ m = m' ∧ x = x' := by
  induction h with
  | null =>
    intro s' x x' m' h' ha hx hx' e
    cases h' with
    | null => exact ⟨rfl, rfl, by simpa using e⟩
    | _ => exact False.elim ha
  | true =>
    intro s' x x' m' h' ha hx hx' e
    cases h' with
    | true => exact ⟨rfl, rfl, by simpa using e⟩
    | false => exact absurd (show true = false from ha) (by decide)
    | _ => exact False.elim ha
  | false =>
    intro s' x x' m' h' ha hx hx' e
    cases h' with
    | false => exact ⟨rfl, rfl, by simpa using e⟩
    | true => exact absurd (show false = true from ha) (by decide)
    | _ => exact False.elim ha
  | number h =>
    intro s' x x' m' h' ha hx hx' e
    cases h' with
    | number h' =>
      obtain ⟨rfl, rfl, e1⟩ := number_unique h h' hx hx' e
      exact ⟨rfl, rfl, e1⟩
    | _ => exact False.elim ha
  | string h =>
    intro s' x x' m' h' ha hx hx' e
    cases h' with
    | string h' =>
      obtain ⟨rfl, rfl, e1⟩ := str_unique h h' e
      exact ⟨rfl, rfl, e1⟩
    | _ => exact False.elim ha
  | emptyArray hw =>
    intro s' x x' m' h' ha hx hx' e
    cases h' with
    | emptyArray hw' =>
      simp only [List.cons_append, List.append_assoc, List.cons.injEq, List.nil_append, true_and] at e
      obtain ⟨rfl, e1⟩ := blank_unique hw hw' (cons_ink (by omega)) (cons_ink (by omega)) e
      exact ⟨rfl, rfl, (List.cons.inj e1).2⟩
    | array h' =>
      obtain ⟨w, c, r, rfl, g1, g2, g3, -⟩ := inner_head h'
      simp only [List.cons_append, List.append_assoc, List.cons.injEq, List.nil_append, true_and] at e
      exact absurd (empty_inner g1 hw g2 (by omega) e.symm) g3
    | _ => exact False.elim ha
  | emptyObject hw =>
    intro s' x x' m' h' ha hx hx' e
    cases h' with
    | emptyObject hw' =>
      simp only [List.cons_append, List.append_assoc, List.cons.injEq, List.nil_append, true_and] at e
      obtain ⟨rfl, e1⟩ := blank_unique hw hw' (cons_ink (by omega)) (cons_ink (by omega)) e
      exact ⟨rfl, rfl, (List.cons.inj e1).2⟩
    | object h' =>
      obtain ⟨w, c, r, rfl, g1, g2, -, g3⟩ := inner_head h'
      simp only [List.cons_append, List.append_assoc, List.cons.injEq, List.nil_append, true_and] at e
      exact absurd (empty_inner g1 hw g2 (by omega) e.symm) g3
    | _ => exact False.elim ha
  | array h ih =>
    intro s' x x' m' h' ha hx hx' e
    cases h' with
    | emptyArray hw =>
      obtain ⟨w, c, r, rfl, g1, g2, g3, -⟩ := inner_head h
      simp only [List.cons_append, List.append_assoc, List.cons.injEq, List.nil_append, true_and] at e
      exact absurd (empty_inner g1 hw g2 (by omega) e) g3
    | array h' =>
      simp only [List.cons_append, List.append_assoc, List.cons.injEq, List.nil_append, true_and] at e
      obtain ⟨rfl, g1, e1⟩ := ih h' trivial (by rfl) (by rfl) e
      cases g1
      exact ⟨rfl, rfl, (List.cons.inj e1).2⟩
    | _ => exact False.elim ha
  | object h ih =>
    intro s' x x' m' h' ha hx hx' e
    cases h' with
    | emptyObject hw =>
      obtain ⟨w, c, r, rfl, g1, g2, -, g3⟩ := inner_head h
      simp only [List.cons_append, List.append_assoc, List.cons.injEq, List.nil_append, true_and] at e
      exact absurd (empty_inner g1 hw g2 (by omega) e) g3
    | object h' =>
      simp only [List.cons_append, List.append_assoc, List.cons.injEq, List.nil_append, true_and] at e
      obtain ⟨rfl, g1, e1⟩ := ih h' trivial (by rfl) (by rfl) e
      cases g1
      exact ⟨rfl, rfl, (List.cons.inj e1).2⟩
    | _ => exact False.elim ha
  | last hw h hv ih =>
    intro s' x x' m' h' ha hx hx' e
    obtain ⟨y, rfl⟩ := head_cons hx
    cases h' with
    | last hw' h' hv' =>
      obtain ⟨y', rfl⟩ := head_cons hx'
      simp only [List.append_assoc] at e
      obtain ⟨rfl, e1⟩ := blank_unique hw hw' (value_ink h) (value_ink h') e
      obtain ⟨rfl, g1, e2⟩ := ih h' (value_alike h h' e1) (ended_blank hv (ended_cons (by omega))) (ended_blank hv' (ended_cons (by omega))) e1
      cases g1
      obtain ⟨rfl, e3⟩ := blank_unique hv hv' (cons_ink (by omega)) (cons_ink (by omega)) e2
      exact ⟨rfl, rfl, e3⟩
    | more hw' h' hv' ht' =>
      simp only [List.append_assoc, List.cons_append] at e
      obtain ⟨rfl, e1⟩ := blank_unique hw hw' (value_ink h) (value_ink h') e
      obtain ⟨rfl, g1, e2⟩ := ih h' (value_alike h h' e1) (ended_blank hv (ended_cons (by omega))) (ended_blank hv' (ended_cons (by omega))) e1
      exact absurd (empty_inner hv hv' (by omega) (by omega) e2) (by omega)
    | _ => exact False.elim ha
  | more hw h hv ht ih ih2 =>
    intro s' x x' m' h' ha hx hx' e
    cases h' with
    | last hw' h' hv' =>
      obtain ⟨y', rfl⟩ := head_cons hx'
      simp only [List.append_assoc, List.cons_append] at e
      obtain ⟨rfl, e1⟩ := blank_unique hw hw' (value_ink h) (value_ink h') e
      obtain ⟨rfl, g1, e2⟩ := ih h' (value_alike h h' e1) (ended_blank hv (ended_cons (by omega))) (ended_blank hv' (ended_cons (by omega))) e1
      exact absurd (empty_inner hv hv' (by omega) (by omega) e2) (by omega)
    | more hw' h' hv' ht' =>
      simp only [List.append_assoc, List.cons_append] at e
      obtain ⟨rfl, e1⟩ := blank_unique hw hw' (value_ink h) (value_ink h') e
      obtain ⟨rfl, g1, e2⟩ := ih h' (value_alike h h' e1) (ended_blank hv (ended_cons (by omega))) (ended_blank hv' (ended_cons (by omega))) e1
      cases g1
      obtain ⟨rfl, e3⟩ := blank_unique hv hv' (cons_ink (by omega)) (cons_ink (by omega)) e2
      obtain ⟨rfl, g1, e4⟩ := ih2 ht' trivial hx hx' (List.cons.inj e3).2
      cases g1
      exact ⟨rfl, rfl, e4⟩
    | _ => exact False.elim ha
  | lastMember hw hk h1 h2 h hv ih =>
    intro s' x x' m' h' ha hx hx' e
    obtain ⟨y, rfl⟩ := head_cons hx
    cases h' with
    | lastMember hw' hk' h1' h2' h' hv' =>
      obtain ⟨y', rfl⟩ := head_cons hx'
      simp only [List.append_assoc, List.cons_append] at e
      obtain ⟨rfl, e1⟩ := blank_unique hw hw' (str_ink hk) (str_ink hk') e
      obtain ⟨rfl, rfl, e2⟩ := str_unique hk hk' e1
      obtain ⟨rfl, e3⟩ := blank_unique h1 h1' (cons_ink (by omega)) (cons_ink (by omega)) e2
      obtain ⟨rfl, e4⟩ := blank_unique h2 h2' (value_ink h) (value_ink h') (List.cons.inj e3).2
      obtain ⟨rfl, g1, e5⟩ := ih h' (value_alike h h' e4) (ended_blank hv (ended_cons (by omega))) (ended_blank hv' (ended_cons (by omega))) e4
      cases g1
      obtain ⟨rfl, e6⟩ := blank_unique hv hv' (cons_ink (by omega)) (cons_ink (by omega)) e5
      exact ⟨rfl, rfl, e6⟩
    | moreMembers hw' hk' h1' h2' h' hv' ht' =>
      simp only [List.append_assoc, List.cons_append] at e
      obtain ⟨rfl, e1⟩ := blank_unique hw hw' (str_ink hk) (str_ink hk') e
      obtain ⟨rfl, rfl, e2⟩ := str_unique hk hk' e1
      obtain ⟨rfl, e3⟩ := blank_unique h1 h1' (cons_ink (by omega)) (cons_ink (by omega)) e2
      obtain ⟨rfl, e4⟩ := blank_unique h2 h2' (value_ink h) (value_ink h') (List.cons.inj e3).2
      obtain ⟨rfl, g1, e5⟩ := ih h' (value_alike h h' e4) (ended_blank hv (ended_cons (by omega))) (ended_blank hv' (ended_cons (by omega))) e4
      exact absurd (empty_inner hv hv' (by omega) (by omega) e5) (by omega)
    | _ => exact False.elim ha
  | moreMembers hw hk h1 h2 h hv ht ih ih2 =>
    intro s' x x' m' h' ha hx hx' e
    cases h' with
    | lastMember hw' hk' h1' h2' h' hv' =>
      obtain ⟨y', rfl⟩ := head_cons hx'
      simp only [List.append_assoc, List.cons_append] at e
      obtain ⟨rfl, e1⟩ := blank_unique hw hw' (str_ink hk) (str_ink hk') e
      obtain ⟨rfl, rfl, e2⟩ := str_unique hk hk' e1
      obtain ⟨rfl, e3⟩ := blank_unique h1 h1' (cons_ink (by omega)) (cons_ink (by omega)) e2
      obtain ⟨rfl, e4⟩ := blank_unique h2 h2' (value_ink h) (value_ink h') (List.cons.inj e3).2
      obtain ⟨rfl, g1, e5⟩ := ih h' (value_alike h h' e4) (ended_blank hv (ended_cons (by omega))) (ended_blank hv' (ended_cons (by omega))) e4
      exact absurd (empty_inner hv hv' (by omega) (by omega) e5) (by omega)
    | moreMembers hw' hk' h1' h2' h' hv' ht' =>
      simp only [List.append_assoc, List.cons_append] at e
      obtain ⟨rfl, e1⟩ := blank_unique hw hw' (str_ink hk) (str_ink hk') e
      obtain ⟨rfl, rfl, e2⟩ := str_unique hk hk' e1
      obtain ⟨rfl, e3⟩ := blank_unique h1 h1' (cons_ink (by omega)) (cons_ink (by omega)) e2
      obtain ⟨rfl, e4⟩ := blank_unique h2 h2' (value_ink h) (value_ink h') (List.cons.inj e3).2
      obtain ⟨rfl, g1, e5⟩ := ih h' (value_alike h h' e4) (ended_blank hv (ended_cons (by omega))) (ended_blank hv' (ended_cons (by omega))) e4
      cases g1
      obtain ⟨rfl, e6⟩ := blank_unique hv hv' (cons_ink (by omega)) (cons_ink (by omega)) e5
      obtain ⟨rfl, g1, e7⟩ := ih2 ht' trivial hx hx' (List.cons.inj e6).2
      cases g1
      exact ⟨rfl, rfl, e7⟩
    | _ => exact False.elim ha

/-- A text has one value: what is in front of the end of the input, or of a byte 0xFF. -/
theorem text_unique {L : Limits} {t t' x x' : List Nat} {j j' : JV} (h : TextMeans L t j) (h' : TextMeans L t' j')
    (hx : x = [] ∨ x.head? = some 0xFF) (hx' : x' = [] ∨ x'.head? = some 0xFF) (e : t ++ x = t' ++ x') : t = t' ∧ j = j' := by
  have ff : ∀ {x : List Nat}, (x = [] ∨ x.head? = some 0xFF) → ∀ c, x.head? = some c → c = 0xFF := by
    rintro x (rfl | h) c hc
    · cases hc
    · rw [h] at hc; cases hc; rfl
  have en : ∀ {x : List Nat}, (x = [] ∨ x.head? = some 0xFF) → Ended x := fun h c hc => by have := ff h c hc; omega
  have ink : ∀ {x : List Nat}, (x = [] ∨ x.head? = some 0xFF) → ∀ c, x.head? = some c → ¬ (c = 0x20 ∨ c = 0x09 ∨ c = 0x0A ∨ c = 0x0D) :=
    fun h c hc => by have := ff h c hc; omega
  obtain ⟨w, v, w1, rfl, hw, hv, hw1⟩ := h
  obtain ⟨w', v', w1', rfl, hw', hv', hw1'⟩ := h'
  simp only [List.append_assoc] at e
  obtain ⟨rfl, e1⟩ := blank_unique hw hw' (value_ink hv) (value_ink hv') e
  obtain ⟨rfl, g1, e2⟩ := means_unique hv hv' (value_alike hv hv' e1) (ended_blank hw1 (en hx)) (ended_blank hw1' (en hx')) e1
  cases g1
  obtain ⟨rfl, e3⟩ := blank_unique hw1 hw1' (ink hx) (ink hx') e2
  exact ⟨rfl, rfl⟩

end Verif.Spec.Json
