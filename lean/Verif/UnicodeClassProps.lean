import Verif.UnicodeClass
import Verif.UnicodeDbProps
import Verif.CharClassProps
import Verif.AsciiSwarProps

/-
C70: the general categories, and the predefined character classes.
-/

namespace Verif

open Udb

/-! ### ASCII classes -/

/-- The ASCII classes as ranges. -/
def Spec.aclass : AClass → Nat → Bool
  | .control, c => Spec.isControl c
  | .blank, c => c == 0x20 || c == 0x09
  | .newline, c => c == 0x0A || c == 0x0D
  | .otherSpace, c => c == 0x0B || c == 0x0C
  | .space, c => c == 0x20 || (0x09 ≤ c && c ≤ 0x0D)
  | .lower, c => Spec.isLower c
  | .upper, c => Spec.isUpper c
  | .alpha, c => Spec.isAlpha c
  | .alphau, c => Spec.isAlpha c || c == 0x5F
  | .digit, c => Spec.isDigit c
  | .alnum, c => Spec.isAlnum c
  | .word, c => Spec.isWord c
  | .punct, c => Spec.isGraph c && !Spec.isAlnum c
  | .graph, c => Spec.isGraph c
  | .print, c => Spec.isPrint c
  | .char, c => Spec.isAscii c

def AClass.all : List AClass := [.control, .blank, .newline, .otherSpace, .space, .lower, .upper, .alpha, .alphau,
  .digit, .alnum, .word, .punct, .graph, .print, .char]

theorem AClass.mem_all (a : AClass) : a ∈ AClass.all := by cases a <;> decide

theorem aclass_ok : (AClass.all.all fun a => allBelow 128 fun c => a.set c == Spec.aclass a c) = true := by
  decide +kernel

/-- C70, ASCII classes: each class contains exactly the documented characters (and none outside of ASCII). -/
theorem C70_ascii_classes (a : AClass) (c : Nat) : a.cc.accepts c = (decide (c < 128) && Spec.aclass a c) := by
  simp only [CC.accepts, AClass.cc, CC.ascii, CC.cpB, CC.matchCp, Bool.or_false]
  by_cases h : c < 128
  · have := allBelow_spec (List.all_eq_true.1 aclass_ok a a.mem_all) c h
    rw [beq_iff_eq] at this
    rw [this]
  · simp [h]

example : (AClass.cc .punct).accepts 0x5F = true ∧ (AClass.cc .punct).accepts 0x61 = false := by decide +kernel

/-! ### Categories -/

/-- C70, categories: every code point has a category, and the categories `Cc`, `Cs`, `Co` are exactly what
    `is_control`, `is_surrogate`, `is_private_use` say; noncharacters are not assigned. -/
theorem C70_categories (cp : Nat) (h : cp ≤ 0x10FFFF) : ∃ c, generalCategory cp = some c ∧
    (c = .Cc ↔ cpIsControl cp = true) ∧ (c = .Cs ↔ cpIsSurrogate cp = true) ∧ (c = .Co ↔ cpIsPrivateUse cp = true)
    ∧ (c = .Zl ↔ cp = 0x2028) ∧ (c = .Zp ↔ cp = 0x2029) ∧ (cpIsNoncharacter cp = true → c = .Cn) := by
  obtain ⟨i, h1, h2, a1, a2, a3, a4, a5, a6⟩ := special cp h
  have hc := allBelow_spec catIndex_ok i h2
  unfold generalCategory
  rw [if_pos (by simpa [cpIsValid] using h), h1]
  simp only [Option.bind_some]
  cases e : category[i]? with
  | none => simp [e] at hc
  | some c =>
    simp only [e] at hc
    obtain ⟨b1, b2, b3, b4, b5, b6⟩ := of_decide_eq_true hc
    refine ⟨c, rfl, ?_, ?_, ?_, ?_, ?_, ?_⟩
    · rw [b1, a1]; simp [cpIsControl]
    · rw [b2, a2]; simp [cpIsSurrogate]
    · rw [b3, a3]; simp [cpIsPrivateUse, or_assoc]
    · rw [b4, a4]
    · rw [b5, a5]
    · intro hn
      have e1 : cp &&& 0xFFFF = cp % 0x10000 := by
        rw [show (0xFFFF : Nat) = 2 ^ 16 - 1 from rfl, Nat.and_two_pow_sub_one_eq_mod]
      have : (0xFDD0 ≤ cp ∧ cp ≤ 0xFDEF) ∨ cp % 0x10000 = 0xFFFE ∨ cp % 0x10000 = 0xFFFF := by
        unfold cpIsNoncharacter at hn
        rw [e1] at hn
        split at hn <;> simp_all
      exact b6 (a6 this)

example : [0x41, 0x7F, 0x2028, 0xD800, 0xE000, 0xFFFE].map generalCategory
    = [some .Lu, some .Cc, some .Zl, some .Cs, some .Co, some .Cn] := by decide +kernel

/-! ### Unicode classes -/

/-- The class by the index, for code points that are neither ASCII nor control characters. -/
def memAt (i : Nat) : UClass → Bool
  | .nctrl => true
  | .control => false
  | .blank => category[i]? == some .Zs
  | .newline => i == 109 || i == 110
  | .otherSpace => false
  | .space => bits 0x01
  | .lower => bits 0x10
  | .upper => bits 0x08
  | .alpha => bits 0x04
  | .digit => category[i]? == some .Nd
  | .alnum => bits 0x04 || category[i]? == some .Nd
  | .word => (category[i]? == some .Mn || category[i]? == some .Mc || category[i]? == some .Me)
      || category[i]? == some .Pc || category[i]? == some .Nd || bits 0x06
  | .graph => graph
  | .print => category[i]? == some .Zs || graph
  | .char => category[i]? != some .Cn
  | .xidStart => bits 0x20
  | .xidStartUnderscore => bits 0x20
  | .xidContinue => bits 0x40
where
  bits (m : Nat) : Bool := match binaryProperties[i]? with | none => false | some p => (p &&& m) != 0
  graph : Bool := i != 144 && category[i]? != some .Cn && !bits 0x01

theorem accepts_memAt (cp : Nat) (h : cp ≤ 0x10FFFF) (h' : 0xA0 ≤ cp) :
    ∃ i, propertyIndex cp = some i ∧ 2 ≤ i ∧ i < 152 ∧ ∀ u : UClass, u.cc.accepts cp = memAt i u := by
  obtain ⟨i, h1, h2, a1, a2, -, a4, a5, -⟩ := special cp h
  have hbin : ∃ p, binaryProperties[i]? = some p := by
    have : i < binaryProperties.length := by rw [tables_len.2.1]; exact h2
    exact ⟨_, List.getElem?_eq_getElem this⟩
  obtain ⟨p, hp⟩ := hbin
  have hi : 2 ≤ i := by
    rcases Nat.lt_or_ge i 2 with hi | hi
    · have := a1.1 (by omega); omega
    · exact hi
  have hctl : cpIsControl cp = false := by
    rw [← Bool.not_eq_true]; simp [cpIsControl]; omega
  have hsur : cpIsSurrogate cp = (i == 144) := by
    rw [Bool.eq_iff_iff, beq_iff_eq, a2]; simp [cpIsSurrogate]
  have hcat : ∀ c, dbIs c cp = (category[i]? == some c) := by
    intro c
    simp [dbIs, generalCategory, cpIsValid, h, h1]
  have hasc : decide (cp < 128) = false := by simp; omega
  refine ⟨i, h1, hi, h2, fun u => ?_⟩
  simp only [CC.accepts, UClass.cc, CC.ascii, hasc, Bool.false_and, Bool.false_or, CC.cpB, CC.matchCp]
  cases u <;> simp only [UClass.matchCp, memAt, memAt.graph, memAt.bits, hctl, hsur, hcat, hp, dbHas, hasProperties, h1,
    Option.bind_some, Option.map_some, Option.getD_some, Bool.not_false, Bool.true_and, bne] <;> try rfl
  · rw [Bool.eq_iff_iff]; simp only [Bool.or_eq_true, beq_iff_eq, a4, a5]; omega
  · simp only [Bool.if_true_left, Bool.decide_eq_true]; rfl

/-- How the classes are related: `M` says which classes a code point is in. -/
def Spec.Related (M : UClass → Bool) : Prop :=
  -- complements, unions and differences
  (M .nctrl = !M .control) ∧ (M .space = (M .blank || M .newline || M .otherSpace))
  ∧ (M .alnum = (M .alpha || M .digit)) ∧ (M .graph = (M .print && !M .space))
  -- inclusions
  ∧ (M .lower → M .alpha) ∧ (M .upper → M .alpha) ∧ (M .alnum → M .word) ∧ (M .word → M .graph) ∧ (M .print → M .char)
  ∧ (M .control → M .char) ∧ (M .space → M .char) ∧ (M .xidStart → M .xidStartUnderscore)
  ∧ (M .xidStartUnderscore → M .xidContinue) ∧ (M .digit → M .xidContinue) ∧ (M .xidContinue → M .graph)
  ∧ (M .otherSpace → M .control)
  -- disjoint classes
  ∧ ¬ (M .lower ∧ M .upper) ∧ ¬ (M .alpha ∧ M .digit) ∧ ¬ (M .xidStartUnderscore ∧ M .digit) ∧ ¬ (M .print ∧ M .control)
  ∧ ¬ (M .blank ∧ M .newline) ∧ ¬ (M .blank ∧ M .otherSpace) ∧ ¬ (M .newline ∧ M .otherSpace)

instance (M : UClass → Bool) : Decidable (Spec.Related M) := by unfold Spec.Related; infer_instance

theorem related_index : allBelow 152 (fun i => decide (2 ≤ i → Spec.Related (memAt i))) = true := by decide +kernel
theorem related_low : allBelow 0xA0 (fun c => decide (Spec.Related (fun u => u.cc.accepts c))) = true := by decide +kernel

/-- C70, classes: for every code point the predefined Unicode classes are related as their names promise. -/
theorem C70_class_relations (cp : Nat) (h : cp ≤ 0x10FFFF) : Spec.Related (fun u => u.cc.accepts cp) := by
  by_cases h' : cp < 0xA0
  · exact of_decide_eq_true (allBelow_spec related_low cp h')
  · obtain ⟨i, -, h1, h2, h3⟩ := accepts_memAt cp h (by omega)
    rw [show (fun u : UClass => u.cc.accepts cp) = memAt i from funext h3]
    exact of_decide_eq_true (allBelow_spec related_index i h2) h1

def UClass.all : List UClass := [.nctrl, .control, .blank, .newline, .otherSpace, .space, .lower, .upper, .alpha,
  .digit, .alnum, .word, .graph, .print, .char, .xidStart, .xidStartUnderscore, .xidContinue]

theorem UClass.mem_all (a : UClass) : a ∈ UClass.all := by cases a <;> decide

theorem uclass_ok : (UClass.all.all fun u => allBelow 128 fun c =>
    !(match u.matchCp with | none => false | some f => f c) || u.ascii.set c) = true := by decide +kernel

/-- C70, classes: the predicate of no Unicode class contradicts its ASCII table, so the theorems about class
    algebra and class tokens (C08) apply to expressions built from the predefined classes. -/
theorem C70_classes_consistent (u : UClass) : u.cc.Ok := by
  intro g hg v hv hgv
  have := allBelow_spec (List.all_eq_true.1 uclass_ok u u.mem_all) v hv
  rw [hg] at this
  simpa [hgv] using this

/-- The Unicode classes by category and property. -/
def Spec.uclass (cp : Nat) (cat : Cat) (has : BinProp → Prop) : UClass → Prop
  | .nctrl => cat ≠ .Cc
  | .control => cat = .Cc
  | .blank => cat = .Zs ∨ cp = 0x09
  | .newline => cp = 0x0A ∨ cp = 0x0D ∨ cp = 0x85 ∨ cat = .Zl ∨ cat = .Zp
  | .otherSpace => cp = 0x0B ∨ cp = 0x0C
  | .space => has .whitespace
  | .lower => has .lowercase
  | .upper => has .uppercase
  | .alpha => has .alphabetic
  | .digit => cat = .Nd
  | .alnum => has .alphabetic ∨ cat = .Nd
  | .word => has .alphabetic ∨ has .joinControl ∨ cat = .Mn ∨ cat = .Mc ∨ cat = .Me ∨ cat = .Pc ∨ cat = .Nd
  | .graph => cat ≠ .Cc ∧ cat ≠ .Cs ∧ cat ≠ .Cn ∧ ¬ has .whitespace
  | .print => cat = .Zs ∨ (cat ≠ .Cc ∧ cat ≠ .Cs ∧ cat ≠ .Cn ∧ ¬ has .whitespace)
  | .char => cat ≠ .Cn
  | .xidStart => has .xidStart
  | .xidStartUnderscore => has .xidStart ∨ cp = 0x5F
  | .xidContinue => has .xidContinue

instance (cp : Nat) (cat : Cat) (has : BinProp → Prop) [∀ b, Decidable (has b)] (u : UClass) :
    Decidable (Spec.uclass cp cat has u) := by cases u <;> simp only [Spec.uclass] <;> infer_instance

theorem meaning_low : allBelow 0xA0 (fun cp => match generalCategory cp with
    | none => false
    | some cat => UClass.all.all fun u =>
      decide (u.cc.accepts cp = true ↔ Spec.uclass cp cat (fun b => hasProperties [b] cp = some true) u)) = true := by
  decide +kernel

theorem meaning_index : allBelow 152 (fun i => match category[i]? with
    | none => false
    | some cat => UClass.all.all fun u =>
      decide (2 ≤ i → (memAt i u = true ↔ Spec.uclass 0xA0 cat (fun b => memAt.bits i (1 <<< b.bit) = true) u))) = true := by
  decide +kernel

/-- C70, classes: each predefined Unicode class contains exactly the code points with the documented general
    categories and properties; in particular the ASCII tables agree with the database. -/
theorem C70_class_meaning (u : UClass) (cp : Nat) (h : cp ≤ 0x10FFFF) : ∃ cat, generalCategory cp = some cat ∧
    (∀ b, (hasProperties [b] cp).isSome) ∧
    (u.cc.accepts cp = true ↔ Spec.uclass cp cat (fun b => hasProperties [b] cp = some true) u) := by
  obtain ⟨cat, hcat, -⟩ := C70_categories cp h
  have hidx : ∃ i p, propertyIndex cp = some i ∧ i < 152 ∧ binaryProperties[i]? = some p := by
    obtain ⟨i, h1, h2, -⟩ := special cp h
    have : i < binaryProperties.length := by rw [tables_len.2.1]; exact h2
    exact ⟨i, _, h1, h2, List.getElem?_eq_getElem this⟩
  obtain ⟨i, p, hi, hi2, hp⟩ := hidx
  refine ⟨cat, hcat, fun b => by simp [hasProperties, hi, hp], ?_⟩
  by_cases h' : cp < 0xA0
  · have := allBelow_spec meaning_low cp h'
    simp only [hcat] at this
    exact of_decide_eq_true (List.all_eq_true.1 this u u.mem_all)
  · obtain ⟨j, h0, h1, h2, h3⟩ := accepts_memAt cp h (by omega)
    rw [hi] at h0; cases h0
    have hc : category[i]? = some cat := by
      simpa [generalCategory, cpIsValid, h, hi] using hcat
    have := allBelow_spec meaning_index i h2
    simp only [hc] at this
    have hm := of_decide_eq_true (List.all_eq_true.1 this u u.mem_all) h1
    rw [h3 u, hm]
    have hb : ∀ b : BinProp, memAt.bits i (1 <<< b.bit) = true ↔ hasProperties [b] cp = some true := by
      intro b; simp [memAt.bits, hasProperties, hi, hp]
    have n1 : (cp = 0x09) = False := by simp; omega
    have n2 : (cp = 0x0A) = False := by simp; omega
    have n3 : (cp = 0x0B) = False := by simp; omega
    have n4 : (cp = 0x0C) = False := by simp; omega
    have n5 : (cp = 0x0D) = False := by simp; omega
    have n6 : (cp = 0x5F) = False := by simp; omega
    have n7 : (cp = 0x85) = False := by simp; omega
    cases u <;> simp [Spec.uclass, hb, n1, n2, n3, n4, n5, n6, n7]

-- `ß` is a lower case letter, `²` is neither a letter nor a digit, U+0661 is a digit, U+00A0 is blank.
example : (UClass.cc .lower).accepts 0xDF = true ∧ (UClass.cc .alnum).accepts 0xB2 = false
    ∧ (UClass.cc .digit).accepts 0x661 = true ∧ (UClass.cc .blank).accepts 0xA0 = true := by decide +kernel

end Verif
