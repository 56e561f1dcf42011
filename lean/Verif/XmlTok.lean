import Verif.Xml
import Verif.XmlSpec
import Verif.Segment
import Verif.TokensProps
import Verif.DelimitedProps
import Verif.IdentifierProps
import Verif.UntilProps
import Verif.LoopProps
import Verif.Accept

/-
The tokens of the grammar of examples/xml.cpp.
-/

namespace Verif.Xml

open Spec.Xml

/-! ## Literals and whitespace -/

theorem eof_ne {c : Nat} (h : c < 128) : eof ≠ some c := by
  simp only [eof, ne_eq, Option.some.injEq]
  omega

theorem lit_iff {w : List Nat} {kind tag : Nat} (hw : ∀ c ∈ w, c < 128) (s : List Nat) (n : Nat) :
    (litTok eof kind tag w).run s = (true, n) ↔ w <+: s ∧ n = w.length :=
  lit_run (fun c hc => eof_ne (hw c hc)) s n

theorem lit_yes {w : List Nat} {kind tag : Nat} (hw : ∀ c ∈ w, c < 128) (s : List Nat) :
    ((litTok eof kind tag w).run s).1 = true ↔ w <+: s :=
  lit_hit (fun c hc => eof_ne (hw c hc)) s

theorem lit_no {w : List Nat} {kind tag : Nat} (hw : ∀ c ∈ w, c < 128) (s : List Nat) :
    ((litTok eof kind tag w).run s).1 = false ↔ ¬ w <+: s := by
  rw [← lit_yes (kind := kind) (tag := tag) hw s]
  simp

theorem aclassOk (a : AClass) : a.cc.Ok := by simp [CC.Ok, AClass.cc]

theorem space_denote (v : Nat) : (CC.alt (AClass.cc .space) (AClass.cc .newline)).denote v ↔ example_.space v := by
  simp only [CC.denote, aclass_denote, Spec.aclass, Bool.or_eq_true, beq_iff_eq, example_, Bool.and_eq_true, decide_eq_true_eq]
  omega

theorem space_iff {s : List Nat} (hs : Units 256 s) (n : Nat) :
    space.run s = (true, n) ↔ ∃ u t, s = u :: t ∧ example_.space u ∧ n = 1 := by
  unfold space
  rw [class_run_ascii (show CC.Ok (.alt _ _) from ⟨aclassOk _, aclassOk _⟩) (fun v h => by
    rw [space_denote] at h; simp only [example_] at h; omega) s hs]
  simp only [space_denote]

/-- Whitespace, behind which there is none. -/
theorem blank_iff {s : List Nat} (hs : Units 256 s) (n : Nat) : Spec.Blank space.run s n ↔
    ∃ w t, s = w ++ t ∧ Space example_ w ∧ n = w.length ∧ ∀ u, t.head? = some u → ¬ example_.space u := by
  constructor
  · intro h
    induction h with
    | @none s h =>
      refine ⟨[], s, rfl, nofun, rfl, ?_⟩
      intro u hu hsp
      match s, hu with
      | u :: t, rfl =>
        have := (space_iff hs 1).2 ⟨u, t, rfl, hsp, rfl⟩
        rw [this] at h
        cases h
    | @some s n k h _ ih =>
      obtain ⟨u, t, rfl, h1, rfl⟩ := (space_iff hs n).1 h
      obtain ⟨w, t', h2, h3, rfl, h4⟩ := ih (hs.drop _)
      simp only [List.drop_succ_cons, List.drop_zero] at h2
      subst h2
      refine ⟨u :: w, t', rfl, ?_, by simp [Nat.add_comm], h4⟩
      intro c hc
      rcases List.mem_cons.1 hc with rfl | hc
      · exact h1
      · exact h3 c hc
  · rintro ⟨w, t, rfl, h1, rfl, h2⟩
    induction w with
    | nil =>
      refine .none ?_
      cases hr : space.run ([] ++ t) with
      | mk b k =>
        cases b with
        | false => rfl
        | true =>
          obtain ⟨u, t', h3, h4, -⟩ := (space_iff hs k).1 hr
          simp only [List.nil_append] at h3
          exact absurd h4 (h2 u (by rw [h3]; rfl))
    | cons u w ih =>
      have := Spec.Blank.some (run := space.run) (s := u :: w ++ t) (n := 1) (k := w.length)
        ((space_iff hs 1).2 ⟨u, w ++ t, rfl, h1 u (by simp), rfl⟩)
        (ih (fun c hc => hs c (by simp at hc ⊢; exact .inr hc)) fun c hc => h1 c (by simp [hc]))
      rw [List.length_cons, Nat.add_comm]
      exact this

/-! ## Runs of characters -/

theorem utf8_ascii {v : Nat} (h : v < 128) : Spec.utf8 v = [v] := by unfold Spec.utf8; rw [if_pos h]

theorem utf8_ne_nil (v : Nat) : 0 < (Spec.utf8 v).length := by
  unfold Spec.utf8
  split
  · simp
  · split
    · simp
    · split <;> simp

theorem _root_.Verif.Spec.Xml.Chars.mono {P Q : Nat → Prop} {t : List Nat} (h : Chars P t) (hpq : ∀ v, P v → Q v) : Chars Q t := by
  induction h with
  | nil => exact .nil
  | cons hv hp _ ih => exact .cons hv (hpq _ hp) ih

theorem _root_.Verif.Spec.Xml.Chars.append {P : Nat → Prop} {t u : List Nat} (h : Chars P t) (h' : Chars P u) : Chars P (t ++ u) := by
  induction h with
  | nil => exact h'
  | cons hv hp _ ih => rw [List.append_assoc]; exact .cons hv hp ih

theorem chars_ascii {P : Nat → Prop} (hp : ∀ v, P v → v < 128) {t : List Nat} : Chars P t ↔ ∀ x ∈ t, P x := by
  constructor
  · intro h
    induction h with
    | nil => nofun
    | cons hv h _ ih =>
      rw [utf8_ascii (hp _ h)]
      intro x hx
      rcases List.mem_cons.1 hx with rfl | hx
      · exact h
      · exact ih x hx
  · intro h
    induction t with
    | nil => exact .nil
    | cons v t ih =>
      have hv := h v (by simp)
      have := Chars.cons (P := P) (s := t) (show Spec.IsScalar v from by have := hp v hv; unfold Spec.IsScalar; omega) hv
        (ih fun x hx => h x (by simp [hx]))
      rwa [utf8_ascii (hp v hv)] at this

/-- No character of the class is next. -/
def Stops (c : CC) (s : List Nat) : Prop := ∀ v, Spec.IsScalar v → c.denote v → ¬ Spec.utf8 v <+: s

theorem stops_iff {c : CC} (hc : c.Ok) {s : List Nat} (hs : Units 256 s) : c.tryParse .utf8 s = none ↔ Stops c s := by
  have h1 := CC.C08_class_token_utf8 c hc s hs
  constructor
  · intro h v hv hd hp
    have := (h1 _).2 ⟨v, hv, hd, hp, rfl⟩
    rw [h] at this
    cases this
  · intro h
    cases ht : c.tryParse .utf8 s with
    | none => rfl
    | some n =>
      obtain ⟨v, h2, h3, h4, -⟩ := (h1 n).1 ht
      exact absurd h4 (h v h2 h3)

theorem trail_sound {c : CC} (hc : c.Ok) {s : List Nat} (hs : Units 256 s) :
    ∃ t r, s = t ++ r ∧ Chars c.denote t ∧ trailLoop (c.tryParse .utf8) s = t.length ∧ Stops c r := by
  generalize hN : s.length = N
  induction N using Nat.strongRecOn generalizing s with
  | _ N ih =>
    subst hN
    rw [trailLoop]
    cases hm : c.tryParse .utf8 s with
    | none => exact ⟨[], s, rfl, .nil, rfl, (stops_iff hc hs).1 hm⟩
    | some n =>
      obtain ⟨v, h1, h2, ⟨s', rfl⟩, rfl⟩ := (CC.C08_class_token_utf8 c hc s hs n).1 hm
      have hp := utf8_ne_nil v
      simp only [hp, List.length_append, Nat.le_add_right, and_self, dite_true, List.drop_left]
      obtain ⟨t, r, rfl, h3, h4, h5⟩ := ih s'.length (by simp; omega) (fun c hc => hs c (by simp [hc])) rfl
      exact ⟨Spec.utf8 v ++ t, r, by simp, .cons h1 h2 h3, by rw [h4, List.length_append], h5⟩

theorem trail_complete {c : CC} (hc : c.Ok) {t r : List Nat} (hs : Units 256 (t ++ r)) (ht : Chars c.denote t) (hr : Stops c r) :
    trailLoop (c.tryParse .utf8) (t ++ r) = t.length := by
  induction ht with
  | nil =>
    have := (stops_iff hc (s := r) hs).2 hr
    rw [trailLoop]
    simp only [List.nil_append, this, List.length_nil]
  | @cons v t hv hd _ ih =>
    have h1 := (CC.C08_class_token_utf8 c hc _ hs _).2 ⟨v, hv, hd, ⟨t ++ r, by simp⟩, rfl⟩
    have hp := utf8_ne_nil v
    rw [trailLoop, h1]
    simp only [hp, List.length_append, List.append_assoc, Nat.le_add_right, and_self, dite_true, List.drop_left]
    rw [ih fun c hc => hs c (by simp at hc ⊢; exact .inr hc)]

/-- An identifier: one leading character, and as many trailing characters as there are. -/
theorem id_iff {L T : CC} (hL : L.Ok) (hT : T.Ok) {s : List Nat} (hs : Units 256 s) (n : Nat) : idLen L T s = some n ↔
    ∃ v t r, s = Spec.utf8 v ++ t ++ r ∧ Spec.IsScalar v ∧ L.denote v ∧ Chars T.denote t ∧ n = (Spec.utf8 v ++ t).length ∧ Stops T r := by
  unfold idLen identMatch
  constructor
  · intro h
    cases hm : L.tryParse .utf8 s with
    | none => rw [hm] at h; cases h
    | some k =>
      rw [hm] at h
      simp only [Option.map_some, Option.some.injEq] at h
      obtain ⟨v, h1, h2, ⟨s', rfl⟩, rfl⟩ := (CC.C08_class_token_utf8 L hL s hs k).1 hm
      rw [List.drop_left] at h
      obtain ⟨t, r, rfl, h3, h4, h5⟩ := trail_sound hT (s := s') (fun c hc => hs c (by simp [hc]))
      refine ⟨v, t, r, by simp, h1, h2, h3, ?_, h5⟩
      rw [h4] at h
      rw [← h]
      simp only [List.length_append]
      omega
  · rintro ⟨v, t, r, rfl, h1, h2, h3, rfl, h5⟩
    have h6 := (CC.C08_class_token_utf8 L hL _ hs _).2 ⟨v, h1, h2, ⟨t ++ r, by simp⟩, rfl⟩
    rw [h6]
    simp only [List.append_assoc, List.drop_left, Option.map_some, Option.some.injEq]
    rw [trail_complete hT (fun c hc => hs c (by simp at hc ⊢; exact .inr hc)) h3 h5]
    simp only [List.length_append]
    omega

theorem litClass_ok (c : Nat) : (litClass c).Ok := by simp [CC.Ok, litClass]

theorem litClass_denote {c v : Nat} (hc : c < 128) : (litClass c).denote v ↔ v = c := by
  simp only [litClass, CC.denote, AsciiSet.insert, AsciiSet.empty, reduceCtorEq, false_and, exists_false, or_false]
  constructor
  · rintro ⟨-, h⟩
    by_cases h' : v = c
    · exact h'
    · rw [if_neg h'] at h; cases h
  · rintro rfl
    exact ⟨hc, by simp⟩

theorem headChar_ok : headChar.Ok := ⟨⟨aclassOk _, litClass_ok _⟩, litClass_ok _⟩
theorem trailingChar_ok : trailingChar.Ok := ⟨⟨⟨headChar_ok, litClass_ok _⟩, litClass_ok _⟩, aclassOk _⟩

theorem head_denote (v : Nat) : headChar.denote v ↔ NameStart v := by
  simp only [headChar, CC.denote, aclass_denote, Spec.aclass, litClass_denote (show 0x3A < 128 by decide),
    litClass_denote (show 0x5F < 128 by decide), Bool.or_eq_true, Bool.and_eq_true, decide_eq_true_eq, NameStart, Spec.isAlpha, Spec.isUpper, Spec.isLower]
  omega

theorem trailing_denote (v : Nat) : trailingChar.denote v ↔ NameChar v := by
  have h := head_denote v
  rw [trailingChar]
  simp only [CC.denote, aclass_denote, Spec.aclass, litClass_denote (show 0x2D < 128 by decide), h,
    litClass_denote (show 0x2E < 128 by decide), Bool.or_eq_true, Bool.and_eq_true, decide_eq_true_eq, NameChar, NameStart, Spec.isDigit]
  omega

theorem nameStart_lt {v : Nat} (h : NameStart v) : v < 128 := by unfold NameStart at h; omega
theorem nameChar_lt {v : Nat} (h : NameChar v) : v < 128 := by unfold NameChar NameStart at h; omega

theorem stops_name {r : List Nat} : Stops trailingChar r ↔ ∀ u, r.head? = some u → ¬ NameChar u := by
  unfold Stops
  simp only [trailing_denote]
  constructor
  · intro h u hu hn
    match r, hu with
    | u :: t, rfl =>
      have hl := nameChar_lt hn
      refine h u (by unfold Spec.IsScalar; omega) hn ?_
      rw [utf8_ascii hl]
      exact ⟨t, rfl⟩
  · rintro h v _ hn ⟨t, rfl⟩
    rw [utf8_ascii (nameChar_lt hn)] at h
    exact h v rfl hn

/-- A name, behind which it does not go on. -/
theorem name_iff {s : List Nat} (hs : Units 256 s) (n : Nat) : idLen headChar trailingChar s = some n ↔
    ∃ w r, s = w ++ r ∧ Name w ∧ n = w.length ∧ ∀ u, r.head? = some u → ¬ NameChar u := by
  rw [id_iff headChar_ok trailingChar_ok hs]
  simp only [stops_name, head_denote, trailing_denote]
  have hP : (fun v => trailingChar.denote v) = NameChar := funext fun v => propext (trailing_denote v)
  constructor
  · rintro ⟨v, t, r, rfl, -, h2, h3, rfl, h5⟩
    have h3 : Chars NameChar t := h3.mono fun v => (trailing_denote v).1
    rw [utf8_ascii (nameStart_lt h2)]
    exact ⟨_, r, rfl, ⟨v, t, rfl, h2, (chars_ascii fun _ => nameChar_lt).1 h3⟩, rfl, h5⟩
  · rintro ⟨_, r, rfl, ⟨v, t, rfl, h2, h3⟩, rfl, h5⟩
    have := nameStart_lt h2
    refine ⟨v, t, r, ?_, by unfold Spec.IsScalar; omega, h2, ?_, ?_, h5⟩
    · rw [utf8_ascii this]; rfl
    · exact Chars.mono ((chars_ascii fun _ => nameChar_lt).2 h3) fun v => (trailing_denote v).2
    · rw [utf8_ascii this]; rfl

theorem codePoint_ok : codePoint.Ok := by
  intro g _ v hv _
  simp only [AsciiSet.insertRange, AsciiSet.foldl_insert]
  simp [List.mem_range']
  omega

theorem codePoint_denote (v : Nat) : codePoint.denote v := .inr ⟨_, rfl, rfl⟩
theorem textChar_ok : textChar.Ok := ⟨⟨codePoint_ok, litClass_ok _⟩, litClass_ok _⟩

theorem text_denote (v : Nat) : textChar.denote v ↔ v ≠ 0x3C ∧ v ≠ 0x26 := by
  simp only [textChar, CC.denote, codePoint_denote, litClass_denote (show 0x3C < 128 by decide),
    litClass_denote (show 0x26 < 128 by decide), true_and, ne_eq]

/-- Text, behind which it does not go on. -/
theorem text_iff {s : List Nat} (hs : Units 256 s) (n : Nat) : idLen textChar textChar s = some n ↔
    ∃ t r, s = t ++ r ∧ t ≠ [] ∧ Text example_ t ∧ n = t.length ∧ Stops textChar r := by
  rw [id_iff textChar_ok textChar_ok hs]
  have e : ∀ t, Chars textChar.denote t ↔ Text example_ t := by
    intro t
    refine ⟨fun h => ⟨h.mono fun v hv => ⟨trivial, (text_denote v).1 hv⟩, trivial⟩, fun h => h.1.mono fun v hv => (text_denote v).2 hv.2⟩
  constructor
  · rintro ⟨v, t, r, rfl, h1, h2, h3, rfl, h5⟩
    refine ⟨_, r, rfl, ?_, (e _).1 (.cons h1 h2 h3), rfl, h5⟩
    intro h
    have := utf8_ne_nil v
    rw [List.append_eq_nil_iff.1 h |>.1] at this
    simp at this
  · rintro ⟨t, r, rfl, h0, h1, rfl, h5⟩
    have h2 := (e t).2 h1
    cases h2 with
    | nil => exact absurd rfl h0
    | @cons v t hv hp ht => exact ⟨v, t, r, rfl, hv, hp, ht, rfl, h5⟩

/-! ## Comments -/

theorem prefix_first {e t r : List Nat} {i : Nat} (hi : i ≤ t.length) : e <+: (t ++ e ++ r).drop i ↔ e <+: (t ++ e).drop i := by
  rw [List.drop_append_of_le_length (by simp; omega)]
  constructor
  · intro h
    exact List.prefix_of_prefix_length_le h (List.prefix_append _ _) (by simp; omega)
  · intro h
    exact h.trans (List.prefix_append _ _)

/-- The text up to the end of a comment. -/
theorem until_iff {kind tag : Nat} {e : List Nat} (he : ∀ c ∈ e, c < 128) {s : List Nat} (n : Nat) :
    (untilLit eof kind tag e).run s = (true, n) ↔
      ∃ t r, s = t ++ e ++ r ∧ n = (t ++ e).length ∧ (∀ c ∈ t, c ≠ 0xFF) ∧ FirstEnd e t := by
  let cond : TokMatch := fun s => if ((litTok eof kind tag e).run s).1 then some e.length else none
  have hit : ∀ s n, cond s = some n ↔ e <+: s ∧ n = e.length := by
    intro s n
    simp only [cond]
    by_cases h : e <+: s
    · rw [(lit_yes he s).2 h]
      simp [h, eq_comm]
    · rw [(lit_no he s).2 h]
      simp [h]
  have miss : ∀ s, cond s = none ↔ ¬ e <+: s := by
    intro s
    simp only [cond]
    by_cases h : e <+: s
    · rw [(lit_yes he s).2 h]
      simp [h]
    · rw [(lit_no he s).2 h]
      simp [h]
  have key : ∀ n, untilTok cond eof s = (true, n) ↔ ∃ t r, s = t ++ e ++ r ∧ n = (t ++ e).length ∧ (∀ c ∈ t, c ≠ 0xFF) ∧ FirstEnd e t := by
    intro n
    rw [C19_until]
    constructor
    · rintro ⟨i, k, ⟨h1, h2, h3, h4⟩, rfl⟩
      obtain ⟨⟨r, h5⟩, rfl⟩ := (hit _ _).1 h2
      have hs : s = s.take i ++ e ++ r := by rw [List.append_assoc, h5, List.take_append_drop]
      have hl : (s.take i).length = i := by rw [List.length_take]; omega
      refine ⟨s.take i, r, hs, by rw [List.length_append, hl], ?_, ?_⟩
      · intro c hc h
        subst h
        exact h4 _ hc rfl
      · intro j hj hp
        rw [hl] at hj
        refine (miss _).1 (h3 j hj) ?_
        rw [hs]
        exact (prefix_first (by omega)).2 hp
    · rintro ⟨t, r, rfl, rfl, h1, h2⟩
      refine ⟨t.length, e.length, ⟨by simp, ?_, ?_, ?_⟩, by simp⟩
      · rw [hit, List.append_assoc, List.drop_left]
        exact ⟨List.prefix_append _ _, rfl⟩
      · intro j hj
        rw [miss, prefix_first (by omega)]
        exact h2 j hj
      · rw [List.append_assoc, List.take_left]
        intro u hu h
        simp only [eof, Option.some.injEq] at h
        exact h1 u hu h.symm
  have hrun : (untilLit eof kind tag e).run s = clamp (untilTok cond eof) s := rfl
  rw [hrun, ← key]
  cases hu : untilTok cond eof s with
  | mk b k =>
    cases b with
    | false => unfold clamp; simp [hu]
    | true =>
      obtain ⟨t, r, h1, h2, -⟩ := (key k).1 hu
      rw [clamp_eq hu (by rw [h1, h2]; simp)]

/-! ## CDATA sections -/

theorem utf8_tail {v : Nat} (hv : Spec.IsScalar v) : ∃ c r, Spec.utf8 v = c :: r ∧ (∀ x ∈ r, 0x80 ≤ x) ∧ c < 0xFF ∧ (c < 128 → v = c) := by
  unfold Spec.IsScalar at hv
  unfold Spec.utf8
  split
  · exact ⟨_, _, rfl, nofun, by omega, fun _ => rfl⟩
  · split
    · exact ⟨_, _, rfl, by simp, by omega, by omega⟩
    · split
      · exact ⟨_, _, rfl, by simp, by omega, by omega⟩
      · exact ⟨_, _, rfl, by simp, by omega, by omega⟩

theorem firstEnd_cons {e t : List Nat} {v : Nat} (hv : Spec.IsScalar v) (he : ∃ c r, e = c :: r ∧ c < 128) (h0 : ¬ e <+: Spec.utf8 v ++ t ++ e) (ht : FirstEnd e t) :
    FirstEnd e (Spec.utf8 v ++ t) := by
  obtain ⟨c, r, rfl, hc⟩ := he
  obtain ⟨a, b, h1, h2, -⟩ := utf8_tail hv
  intro i hi hp
  by_cases hi0 : i = 0
  · subst hi0; exact h0 hp
  by_cases hi1 : i < (Spec.utf8 v).length
  · rw [List.append_assoc, List.drop_append_of_le_length (by omega), h1] at hp
    rw [h1] at hi1
    obtain ⟨j, rfl⟩ : ∃ j, i = j + 1 := ⟨i - 1, by omega⟩
    rw [List.drop_succ_cons] at hp
    cases hd : b.drop j with
    | nil =>
      have := congrArg List.length hd
      simp at this hi1
      omega
    | cons x y =>
      rw [hd] at hp
      have hx := h2 x (List.mem_of_mem_drop (i := j) (by rw [hd]; simp))
      obtain ⟨z, hz⟩ := hp
      simp only [List.cons_append, List.cons.injEq] at hz
      omega
  · rw [List.length_append] at hi
    refine ht (i - (Spec.utf8 v).length) (by omega) ?_
    rw [List.append_assoc, List.drop_append, List.drop_eq_nil_of_le (by omega)] at hp
    exact hp

theorem firstEnd_tail {e t u : List Nat} (h : FirstEnd e (t ++ u)) : FirstEnd e u := by
  intro i hi hp
  refine h (t.length + i) (by simp; omega) ?_
  rw [List.append_assoc, List.drop_append, List.drop_eq_nil_of_le (by omega), Nat.add_sub_cancel_left]
  exact hp

theorem anyChar_iff {s : List Nat} (hs : Units 256 s) (n : Nat) : cdataContent.char s = (true, n) ↔
    ∃ v, Spec.IsScalar v ∧ Spec.utf8 v <+: s ∧ n = (Spec.utf8 v).length := by
  have h1 := C20_char_class .utf8 codePoint codePoint_ok s hs n
  rw [← CC.C08_class_token .utf8 codePoint codePoint_ok s hs n, CC.C08_class_token_utf8 codePoint codePoint_ok s hs n] at h1
  simp only [codePoint_denote, true_and] at h1
  exact h1

theorem quiet_content {k : Kind} {b e : Nat} : ∀ ev ∈ delContent k b e, ev.isError = false := by
  intro ev hev
  unfold delContent at hev
  split at hev
  · cases hev
  · rw [List.mem_singleton.1 hev]; rfl

theorem cdata_sound {s : List Nat} (hs : Units 256 s) (start b p q : Nat) (evs : List Ev) (h : cdataContent.loop s start b p = (true, q, evs))
    (hq : ∀ ev ∈ evs, ev.isError = false) : ∃ t, Chars (fun _ => True) t ∧ FirstEnd [0x5D, 0x5D, 0x3E] t ∧ Seg s p q (t ++ [0x5D, 0x5D, 0x3E]) := by
  rw [DelimR.loop] at h
  simp only at h
  split at h
  · rename_i h1
    cases h
    have := (lit_iff (w := [0x5D, 0x5D, 0x3E]) (kind := 0) (tag := 0) (by decide) (s.drop p) _).1 (Prod.ext h1 rfl)
    exact ⟨[], .nil, nofun, .of_prefix this.1 this.2⟩
  · rename_i h1
    split at h
    · cases h
    · split at h
      · rename_i he
        cases he
      · split at h
        · split at h
          · rename_i h4
            obtain ⟨t, ht, hf, hseg⟩ := cdata_sound hs start b _ q evs h hq
            obtain ⟨v, h5, h6, h7⟩ := (anyChar_iff (hs.drop p) _).1 (Prod.ext h4 rfl)
            have s1 := Seg.of_prefix h6 h7
            have s2 := s1.append hseg
            rw [← List.append_assoc] at s2
            refine ⟨Spec.utf8 v ++ t, .cons h5 trivial ht, firstEnd_cons h5 ⟨_, _, rfl, by decide⟩ (fun hp => h1 ?_) hf, s2⟩
            exact (lit_yes (by decide) _).2 (hp.trans s2.pre)
          · simp only [Prod.mk.injEq] at h
            obtain ⟨-, -, rfl⟩ := h
            have := hq (.error cdataContent.charTag p p) (by simp)
            cases this
        · cases h
termination_by s.length - p

theorem cdata_complete {s t : List Nat} (hs : Units 256 s) (ht : Chars (fun _ => True) t) (hf : FirstEnd [0x5D, 0x5D, 0x3E] t) :
    ∀ (p q start b : Nat), Seg s p q (t ++ [0x5D, 0x5D, 0x3E]) →
    ∃ evs, (∀ ev ∈ evs, ev.isError = false) ∧ cdataContent.loop s start b p = (true, q, evs) := by
  induction ht with
  | nil =>
    intro p q start b h
    have h1 : cdataContent.close.run (s.drop p) = (true, 3) := (lit_iff (by decide) _ _).2 ⟨h.pre, rfl⟩
    rw [DelimR.loop]
    simp only
    rw [if_pos (by rw [h1])]
    refine ⟨_, ?_, by rw [h1, h.1]; rfl⟩
    intro ev hev
    rcases List.mem_append.1 hev with h | h
    · exact quiet_content ev h
    · rw [List.mem_singleton.1 h]; rfl
  | @cons v t hv _ ht ih =>
    intro p q start b h
    have h0 := h
    rw [List.append_assoc] at h
    obtain ⟨s1, s2⟩ := h.split
    obtain ⟨evs, hq, h3⟩ := ih (firstEnd_tail hf) _ _ start b s2
    obtain ⟨a, r, h4, -, h5, -⟩ := utf8_tail hv
    have hn := utf8_ne_nil v
    rw [DelimR.loop]
    simp only
    have h6 : (cdataContent.close.run (s.drop p)).1 = false := by
      refine (lit_no (by decide) _).2 fun hp => hf 0 (by simp; omega) ?_
      exact List.prefix_of_prefix_length_le hp h0.pre (by simp; omega)
    have h7 : cdataContent.atLimit (s.drop p) = false := by
      have h8 : cdataContent.atLimit (s.drop p) = peekEof eof (s.drop p) := by simp [DelimR.atLimit, cdataContent]
      rw [h8, s1.2, h4]
      simp only [List.cons_append, peekEof, eof, beq_eq_false_iff_ne, ne_eq, Option.some.injEq]
      omega
    have h9 : cdataContent.char (s.drop p) = (true, (Spec.utf8 v).length) := (anyChar_iff (hs.drop p) _).2 ⟨v, hv, s1.pre, rfl⟩
    rw [if_neg (by rw [h6]; nofun), if_neg (by rw [h7]; nofun)]
    rw [show escTry cdataContent.kind cdataContent.escTag cdataContent.escapes s b p = none from rfl]
    simp only [h9]
    rw [dif_pos ⟨hn, s1.le_length (by rw [h4]; simp)⟩]
    simp only [if_true]
    exact ⟨evs, hq, h3⟩

/-! ## References -/

theorem ref_sound {s : List Nat} {n : Nat} (h : symIdLen entities eof trailingChar s = some n) :
    ∃ w ∈ entities.syms, w <+: s ∧ n = w.length := by
  obtain ⟨r, h1, h2, -⟩ := C12_symbol_longest entities.syms eof id (fun _ => rfl) (by decide) s
  unfold symIdLen symIdTry at h
  rw [show entities.fold = id from rfl, h1] at h
  cases r with
  | none => cases h
  | some x =>
    obtain ⟨i, k⟩ := x
    simp only at h
    obtain ⟨w, h3, -, h4, h5, -⟩ := (h2 i k).1 rfl
    rw [List.map_id] at h4
    split at h
    · rename_i he
      split at he
      · cases he
      · cases he
        cases h
        exact ⟨w, List.mem_of_getElem? h3, h4, by have := h4.length_le; omega⟩
    · cases h

theorem ref_complete {s w r : List Nat} (hs : Units 256 s) (hw : w ∈ entities.syms) (h : s = w ++ 0x3B :: r) :
    symIdLen entities eof trailingChar s = some w.length := by
  obtain ⟨r', h1, h2, h3⟩ := C12_symbol_longest entities.syms eof id (fun _ => rfl) (by decide) s
  have hpre : w <+: s := by rw [h]; exact List.prefix_append _ _
  unfold symIdLen symIdTry
  rw [show entities.fold = id from rfl, h1]
  cases r' with
  | none => exact absurd (by rw [List.map_id]; exact hpre) (h3.1 rfl w hw)
  | some x =>
    obtain ⟨i, k⟩ := x
    obtain ⟨w', h4, -, h5, rfl, h6⟩ := (h2 i k).1 rfl
    have h7 := h6 w hw (by rw [List.map_id]; exact hpre)
    rw [List.map_id, h] at h5
    have h8 := List.mem_of_getElem? h4
    have e : w' = w := by
      simp only [entities, List.mem_cons, List.not_mem_nil, or_false] at hw h8
      rcases hw with rfl | rfl | rfl | rfl | rfl <;> rcases h8 with rfl | rfl | rfl | rfl | rfl <;>
        simp [List.cons_prefix_cons] at h5 ⊢
    subst e
    have h9 : trailingChar.tryParse .utf8 (s.drop w'.length) = none := by
      rw [stops_iff trailingChar_ok (hs.drop _), stops_name, h, List.drop_left]
      rintro u ⟨⟩
      unfold NameChar NameStart
      omega
    simp only [h9, Option.isSome_none, Bool.false_eq_true, if_false, Option.some.injEq]
    have := hpre.length_le
    omega

end Verif.Xml
