import Verif.Config
import Verif.EmailProps
import Verif.IntegerProps
import Verif.CodePointProps

/-
C106: the config example has the package that is written in its input.
-/

namespace Verif.Spec.Cfg

open Verif.Cfg (Version Config)
open Verif.Spec.Em (Blanks Newline)

/-- Whether an escape sequence may stand for a surrogate. -/
structure Opts where
  surrogates : Prop

/-- What is meant: escape sequences stand for characters. -/
def strict : Opts := ⟨False⟩

/-- What the example does. -/
def example_ : Opts := ⟨True⟩

def Letter (c : Nat) : Prop := 65 ≤ c ∧ c ≤ 90 ∨ 97 ≤ c ∧ c ≤ 122
def WordChar (c : Nat) : Prop := Letter c ∨ 48 ≤ c ∧ c ≤ 57 ∨ c = 95

/-- The value of digits. -/
def num (b : Base) (ds : List Nat) : Nat := Spec.value b (ds.map Int.ofNat)

/-- A name, with blanks behind it. -/
inductive Name : List Nat → List Nat → Prop
  | mk {c : Nat} {a w : List Nat} : Letter c → (∀ d ∈ a, WordChar d) → Blanks w → Name (c :: a) (c :: a ++ w)

/-- A number of type `int`. -/
inductive Number : Nat → List Nat → Prop
  | mk {ds : List Nat} : ds ≠ [] → (∀ d ∈ ds, Spec.IsDigitOf .decimal d) → num .decimal ds ≤ 2147483647 → Number (num .decimal ds) ds

/-- A version, with blanks behind it. -/
inductive Ver : Version → List Nat → Prop
  | unreleased {w : List Nat} : Blanks w → Ver ⟨0, 0, 0⟩ ([117, 110, 114, 101, 108, 101, 97, 115, 101, 100] ++ w)
  | numbers {a b c : Nat} {s t u w : List Nat} : Number a s → Number b t → Number c u → Blanks w →
      Ver ⟨a, b, c⟩ (s ++ [46] ++ t ++ [46] ++ u ++ w)

/-- What an escape sequence may stand for. -/
def CodePt (o : Opts) (v : Nat) : Prop := v ≤ 0x10FFFF ∧ (Spec.IsScalar v ∨ o.surrogates)

/-- The characters between the quotes: no control characters; a quote and a backslash need to be escaped. -/
inductive Chars (o : Opts) : List Nat → List Nat → Prop
  | nil : Chars o [] []
  | char {v : Nat} {cs t : List Nat} : Spec.IsScalar v → 32 ≤ v → v ≠ 127 → v ≠ 34 → v ≠ 92 → Chars o cs t →
      Chars o (v :: cs) (Spec.utf8 v ++ t)
  | short {ds cs t : List Nat} : ds.length = 4 → (∀ d ∈ ds, Spec.IsDigitOf .hex d) → CodePt o (num .hex ds) → Chars o cs t →
      Chars o (num .hex ds :: cs) ([92, 117] ++ ds ++ t)
  | long {ds cs t : List Nat} : ds.length = 8 → (∀ d ∈ ds, Spec.IsDigitOf .hex d) → CodePt o (num .hex ds) → Chars o cs t →
      Chars o (num .hex ds :: cs) ([92, 85] ++ ds ++ t)

/-- An author: the UTF-8 of the characters between quotes, with blanks behind it. -/
inductive Author (o : Opts) : List Nat → List Nat → Prop
  | mk {cs t w : List Nat} : Chars o cs t → Blanks w → Author o (cs.flatMap Spec.utf8) ([34] ++ t ++ [34] ++ w)

/-- Authors separated by commas. -/
inductive Authors (o : Opts) : List (List Nat) → List Nat → Prop
  | one {a s : List Nat} : Author o a s → Authors o [a] s
  | cons {a s w t : List Nat} {as : List (List Nat)} : Author o a s → Blanks w → Authors o as t →
      Authors o (a :: as) (s ++ [44] ++ w ++ t)

/-- The list of authors in brackets, with blanks behind it. -/
inductive AuthorList (o : Opts) : List (List Nat) → List Nat → Prop
  | mk {as : List (List Nat)} {s w w' : List Nat} : Blanks w → Authors o as s → Blanks w' →
      AuthorList o as ([91] ++ w ++ s ++ [93] ++ w')

/-- The fields. -/
inductive Field
  | name (v : List Nat) | version (v : Version) | authors (v : List (List Nat))

/-- Which field it is. -/
def Field.kind : Field → Nat
  | .name _ => 0
  | .version _ => 1
  | .authors _ => 2

/-- What it says. -/
def Field.set : Field → Config → Config
  | .name v, m => { m with name := v }
  | .version v, m => { m with version := v }
  | .authors v, m => { m with authors := v }

/-- The value of a field. -/
inductive Val (o : Opts) : Field → List Nat → Prop
  | name {v s : List Nat} : Name v s → Val o (.name v) s
  | version {v : Version} {s : List Nat} : Ver v s → Val o (.version v) s
  | authors {v : List (List Nat)} {s : List Nat} : AuthorList o v s → Val o (.authors v) s

/-- How it is called. -/
def Field.key : Field → List Nat
  | .name _ => [110, 97, 109, 101]
  | .version _ => [118, 101, 114, 115, 105, 111, 110]
  | .authors _ => [97, 117, 116, 104, 111, 114, 115]

/-- A line, with the blanks in front of the next one. -/
inductive Line (o : Opts) : Field → List Nat → Prop
  | mk {f : Field} {s w w' nl b : List Nat} : Blanks w → Blanks w' → Val o f s → Newline nl → Blanks b →
      Line o f (f.key ++ w ++ [61] ++ w' ++ s ++ nl ++ b)

inductive Lines (o : Opts) : List Field → List Nat → Prop
  | nil : Lines o [] []
  | cons {f : Field} {fs : List Field} {s t : List Nat} : Line o f s → Lines o fs t → Lines o (f :: fs) (s ++ t)

/-- A file: one line of each kind, in any order. -/
inductive File (o : Opts) : Config → List Nat → Prop
  | mk {fs : List Field} {b s : List Nat} : Blanks b → Lines o fs s → (fs.map Field.kind).Nodup → fs.length = 3 →
      File o (fs.foldl (fun m f => f.set m) {}) (b ++ s)

end Verif.Spec.Cfg

namespace Verif.Cfg

open Verif.Spec.Cfg
open Verif.Spec.Em (Blanks Newline)
open Verif.Em (ws newline lit NB isBlank)

/-! ### Names -/

theorem isAlpha_iff (c : Nat) : isAlpha c = true ↔ Letter c := by simp [isAlpha, Letter]

theorem isWord_iff (c : Nat) : isWord c = true ↔ WordChar c := by
  simp only [isWord, WordChar, Bool.or_eq_true, isAlpha_iff, Bool.and_eq_true, decide_eq_true_eq, beq_iff_eq, or_assoc]

theorem blanks_space {w nl r : List Nat} (hw : Blanks w) (hn : Newline nl) :
    ∃ c t, w ++ (nl ++ r) = c :: t ∧ isSpace c = true ∧ isWord c = false ∧ c ≠ 45 ∧ c ≠ 46 ∧ ¬ Spec.IsDigitOf .decimal c := by
  cases w with
  | nil => rcases hn with rfl | rfl <;> exact ⟨_, _, rfl, by decide, by decide, by decide, by decide, by decide⟩
  | cons c w => rcases hw c (by simp) with rfl | rfl <;> exact ⟨_, _, rfl, by decide, by decide, by decide, by decide, by decide⟩

theorem newline_nb {nl : List Nat} (hn : Newline nl) (r : List Nat) : NB (nl ++ r) := (Em.newline_stop hn r).1.nb

theorem name_append {v s nl r : List Nat} (h : Name v s) (hn : Newline nl) : name (s ++ (nl ++ r)) = some (v, nl ++ r) := by
  cases h with
  | @mk c a w hc ha hw =>
    obtain ⟨d, t, e, h1, h2, -⟩ := blanks_space (r := r) hw hn
    have hd := Em.dropWhile_append (p := isWord) (r := w ++ (nl ++ r)) (fun d hd => (isWord_iff d).2 (ha d hd)) (by
      rw [e]; intro x hx; simp at hx; subst hx; exact h2)
    have e2 : c :: a ++ w ++ (nl ++ r) = c :: (a ++ (w ++ (nl ++ r))) := by simp
    have h3 : (w ++ (nl ++ r)).head?.any isSpace = true := by rw [e]; simpa using h1
    rw [e2, name, if_pos ((isAlpha_iff c).2 hc), hd.1, hd.2, if_pos h3, Em.ws_append hw (newline_nb hn r)]

theorem name_sound {s v r : List Nat} (h : name s = some (v, r)) : ∃ t, s = t ++ r ∧ Name v t := by
  cases s with
  | nil => cases h
  | cons c s =>
    rw [name] at h
    split at h
    · rename_i hc
      split at h
      · simp only [Option.some.injEq, Prod.mk.injEq] at h
        obtain ⟨rfl, rfl⟩ := h
        obtain ⟨w, hw, e, -⟩ := Em.ws_sound (s.dropWhile isWord)
        refine ⟨c :: s.takeWhile isWord ++ w, ?_, .mk ((isAlpha_iff c).1 hc) (fun d hd => (isWord_iff d).1 (Em.takeWhile_all s d hd)) hw⟩
        rw [List.append_assoc, ← e, List.cons_append, List.takeWhile_append_dropWhile]
      · cases h
    · cases h

/-! ### Versions -/

theorem int32_ok : (Traits.plain int32).Ok .decimal := ⟨by decide, by decide, by decide⟩

theorem digits_chars {b : Base} {ds : List Nat} (h : ∀ d ∈ ds, Spec.IsDigitOf b d) :
    (∀ c ∈ ds.map Int.ofNat, Spec.IsChar c) ∧ ∀ c ∈ ds.map Int.ofNat, (Spec.digitI b c).isSome = true := by
  constructor
  · intro c hc
    rw [List.mem_map] at hc
    obtain ⟨d, hd, rfl⟩ := hc
    have := Spec.isDigitOf_lt (h d hd)
    simp only [Spec.IsChar, Int.ofNat_eq_natCast]
    omega
  · intro c hc
    rw [List.mem_map] at hc
    obtain ⟨d, hd, rfl⟩ := hc
    have := h d hd
    simpa [Spec.digitI, Spec.IsDigitOf] using this

/-- The conversion of digits. -/
theorem bounded_iff {ds : List Nat} (h : ∀ d ∈ ds, Spec.IsDigitOf .decimal d) (v : Nat) :
    boundedParse true (.plain int32) .decimal (ds.map Int.ofNat) = some (v, false) ↔
      v = num .decimal ds ∧ num .decimal ds ≤ 2147483647 := by
  obtain ⟨h1, h2⟩ := digits_chars h
  obtain ⟨x, ov, e, h3, h4⟩ := C17_integer_exact_partial true (.plain int32) .decimal int32_ok (ds.map Int.ofNat) ⟨h1, fun _ => h2⟩
    (fun c hc => h2 c (List.mem_of_getLast? hc))
  have hm : (Traits.plain int32).max = 2147483647 := rfl
  rw [hm] at h3
  rw [e]
  simp only [Option.some.injEq, Prod.mk.injEq, num]
  constructor
  · rintro ⟨rfl, rfl⟩
    refine ⟨h4 rfl, ?_⟩
    have : ¬ 2147483647 < Spec.value .decimal (ds.map Int.ofNat) := fun hlt => Bool.noConfusion (h3.2 hlt)
    omega
  · rintro ⟨rfl, hle⟩
    cases ov with
    | false => exact ⟨h4 rfl, rfl⟩
    | true => have := h3.1 rfl; omega

theorem number_append {v : Nat} {s r : List Nat} (h : Number v s) (hr : ∀ u, r.head? = some u → ¬ Spec.IsDigitOf .decimal u) :
    number (s ++ r) = some (v, r) := by
  cases h with
  | mk h1 h2 h3 =>
    have h4 : 0 < s.length := List.length_pos_iff.2 h1
    have : matchDigits .decimal (s ++ r) = (true, s.length) :=
      (C16_digits_maximal .decimal _ _).2 ⟨h4, ⟨by simp, by simpa using h2, by simpa using hr⟩⟩
    rw [number, this]
    simp only [List.take_left, List.drop_left, (bounded_iff h2 _).2 ⟨rfl, h3⟩]

theorem number_sound {v : Nat} {s r : List Nat} (h : number s = some (v, r)) : ∃ t, s = t ++ r ∧ Number v t := by
  unfold number at h
  split at h
  · rename_i n hm
    obtain ⟨h1, h2⟩ := (C16_digits_maximal .decimal _ _).1 hm
    split at h
    · rename_i x hb
      simp only [Option.some.injEq, Prod.mk.injEq] at h
      obtain ⟨rfl, rfl⟩ := h
      obtain ⟨rfl, h3⟩ := (bounded_iff h2.all _).1 hb
      refine ⟨s.take n, (List.take_append_drop n s).symm, .mk ?_ h2.all h3⟩
      intro e
      have h5 := h2.le
      have h6 := congrArg List.length e
      rw [List.length_take, List.length_nil] at h6
      omega
    · cases h
  · cases h

theorem number_lit {v : Nat} {s : List Nat} (h : Number v s) (r : List Nat) : lit litUnreleased (s ++ r) = none := by
  cases h with
  | mk h1 h2 h3 =>
    cases s with
    | nil => exact absurd rfl h1
    | cons c s =>
      have : ¬ 117 = c := fun e => absurd (h2 c (by simp)) (by subst e; decide)
      rw [List.cons_append, litUnreleased, lit, if_neg this]

theorem version_append {v : Version} {s nl r : List Nat} (h : Ver v s) (hn : Newline nl) : version (s ++ (nl ++ r)) = some (v, nl ++ r) := by
  have hp : ∀ q u, (46 :: q : List Nat).head? = some u → ¬ Spec.IsDigitOf .decimal u := by
    intro q u hu; simp at hu; subst hu; decide
  cases h with
  | @unreleased w hw =>
    have e : [117, 110, 114, 101, 108, 101, 97, 115, 101, 100] ++ w ++ (nl ++ r) = litUnreleased ++ (w ++ (nl ++ r)) := by simp [litUnreleased]
    rw [e, version, Em.lit_append]
    simp only [Em.ws_append hw (newline_nb hn r)]
  | @numbers a b c s t u w ha hb hc hw =>
    obtain ⟨d, q, e, -, -, h1, -, h2⟩ := blanks_space (r := r) hw hn
    have e2 : s ++ [46] ++ t ++ [46] ++ u ++ w ++ (nl ++ r) = s ++ (46 :: (t ++ (46 :: (u ++ (w ++ (nl ++ r)))))) := by simp
    have h3 := number_append hc (r := w ++ (nl ++ r)) (by rw [e]; intro x hx; simp at hx; subst hx; exact h2)
    have h4 : ¬ (w ++ (nl ++ r)).head? = some 45 := by rw [e]; simpa using h1
    have hl : ∀ q, period (46 :: q) = some q := fun q => Em.lit_append [46] q
    rw [e2, version, number_lit ha]
    simp only [number_append ha (hp _), Option.bind_some, hl, number_append hb (hp _), h3, if_neg h4, Em.ws_append hw (newline_nb hn r)]

theorem period_sound {s r : List Nat} (h : period s = some r) : s = 46 :: r := Em.lit_sound h

theorem version_sound {v : Version} {s r : List Nat} (h : version s = some (v, r)) : ∃ t, s = t ++ r ∧ Ver v t := by
  unfold version at h
  split at h
  · rename_i q hq
    simp only [Option.some.injEq, Prod.mk.injEq] at h
    obtain ⟨rfl, rfl⟩ := h
    obtain ⟨w, hw, e, -⟩ := Em.ws_sound q
    refine ⟨_, ?_, .unreleased hw⟩
    rw [Em.lit_sound hq, List.append_assoc, ← e]; rfl
  · simp only [Option.bind_eq_some_iff, Prod.exists] at h
    obtain ⟨a, s1, h1, s2, h2, b, s3, h3, s4, h4, c, s5, h5, h6⟩ := h
    split at h6
    · cases h6
    · simp only [Option.some.injEq, Prod.mk.injEq] at h6
      obtain ⟨rfl, rfl⟩ := h6
      obtain ⟨t1, rfl, n1⟩ := number_sound h1
      obtain ⟨t2, rfl, n2⟩ := number_sound h3
      obtain ⟨t3, rfl, n3⟩ := number_sound h5
      obtain ⟨w, hw, e, -⟩ := Em.ws_sound s5
      refine ⟨_, ?_, .numbers n1 n2 n3 hw⟩
      rw [period_sound h2, period_sound h4]
      simp only [List.append_assoc, List.cons_append, List.nil_append, ← e]

/-! ### Authors -/

theorem codePoint_iff {n : Nat} {ds : List Nat} (h : ∀ d ∈ ds, Spec.IsDigitOf .hex d) (hn : ds.length = n) (v : Nat) :
    nDigitsParse true .codePoint n .hex (ds.map Int.ofNat) = some (v, false) ↔ v = num .hex ds ∧ num .hex ds ≤ 0x10FFFF := by
  obtain ⟨h1, h2⟩ := digits_chars h
  obtain ⟨x, ov, e, h3, h4⟩ := C18_code_point_id .hex n (ds.map Int.ofNat) h1 h2 (by simpa using hn)
  rw [e]
  simp only [Option.some.injEq, Prod.mk.injEq, num]
  constructor
  · rintro ⟨rfl, rfl⟩
    refine ⟨h4 rfl, ?_⟩
    have : ¬ 0x10FFFF < Spec.value .hex (ds.map Int.ofNat) := fun hlt => Bool.noConfusion (h3.2 hlt)
    omega
  · rintro ⟨rfl, hle⟩
    cases ov with
    | false => exact ⟨h4 rfl, rfl⟩
    | true => have := h3.1 rfl; omega

theorem codePointId_append {n : Nat} {ds : List Nat} (h : ∀ d ∈ ds, Spec.IsDigitOf .hex d) (hn : ds.length = n)
    (hv : num .hex ds ≤ 0x10FFFF) (r : List Nat) : codePointId n (ds ++ r) = some (num .hex ds, r) := by
  have : nDigits .hex n (ds ++ r) = (true, n) := (C16_n_digits .hex n _).1 (by subst hn; simpa using h)
  rw [codePointId, this]
  subst hn
  simp only [List.take_left, List.drop_left, (codePoint_iff h rfl _).2 ⟨rfl, hv⟩]

theorem codePointId_sound {n v : Nat} {s r : List Nat} (h : codePointId n s = some (v, r)) :
    ∃ ds, s = ds ++ r ∧ ds.length = n ∧ (∀ d ∈ ds, Spec.IsDigitOf .hex d) ∧ v = num .hex ds ∧ v ≤ 0x10FFFF := by
  unfold codePointId at h
  by_cases hd : n ≤ s.length ∧ ∀ u ∈ s.take n, Spec.IsDigitOf .hex u
  · have := (C16_n_digits .hex n s).1 hd
    rw [this] at h
    simp only at h
    split at h
    · rename_i x hb
      simp only [Option.some.injEq, Prod.mk.injEq] at h
      obtain ⟨rfl, rfl⟩ := h
      obtain ⟨rfl, h3⟩ := (codePoint_iff hd.2 (by simp [hd.1]) _).1 hb
      exact ⟨s.take n, (List.take_append_drop n s).symm, by simp [hd.1], hd.2, rfl, h3⟩
    · cases h
  · obtain ⟨k, -, e, -⟩ := (C16_n_digits .hex n s).2 hd
    rw [e] at h
    cases h

theorem utf8_head {v : Nat} (h : Spec.IsScalar v) :
    (v < 128 ∧ Spec.utf8 v = [v]) ∨ ∃ c r, Spec.utf8 v = c :: r ∧ 128 ≤ c ∧ c < 0xFF := by
  unfold Spec.IsScalar at h
  unfold Spec.utf8
  split
  · exact .inl ⟨by omega, rfl⟩
  · right
    split
    · exact ⟨_, _, rfl, by omega, by omega⟩
    · split
      · exact ⟨_, _, rfl, by omega, by omega⟩
      · exact ⟨_, _, rfl, by omega, by omega⟩

theorem content_append {cs t : List Nat} (h : Chars example_ cs t) : ∀ (n : Nat) (r : List Nat), Units 256 (t ++ 34 :: r) → t.length < n →
    content n (t ++ 34 :: r) = some (cs.flatMap Spec.utf8, r) := by
  induction h with
  | nil =>
    intro n r _ hn
    obtain ⟨n, rfl⟩ : ∃ m, n = m + 1 := ⟨n - 1, by omega⟩
    simp [content]
  | @char v cs t hv h1 h2 h3 h4 _ ih =>
    intro n r hu hn
    obtain ⟨n, rfl⟩ : ∃ m, n = m + 1 := ⟨n - 1, by omega⟩
    rw [List.append_assoc] at hu ⊢
    have hu' : Units 256 (t ++ 34 :: r) := fun u h => hu u (List.mem_append_right _ h)
    rcases utf8_head hv with ⟨hlt, e⟩ | ⟨c, q, e, hc1, hc2⟩
    · rw [e] at hn ⊢
      have hi := ih n r hu' (by simp at hn; omega)
      have hcn : isControl v = false := by simp [isControl]; omega
      rw [List.singleton_append, content, if_neg h3, if_neg (by omega), if_neg h4, if_pos hlt, hcn, hi]
      simp [e]
    · have hp := specUtf8_parse hv hu'
      rw [e] at hp hn
      have hi := ih n r hu' (by simp at hn; omega)
      rw [e, List.cons_append, content, if_neg (by omega), if_neg (by omega), if_neg (by omega), if_neg (by omega),
        ← List.cons_append, hp, if_pos rfl]
      simp only [List.drop_left, List.take_left, hi, Option.map_some, List.flatMap_cons, e]
  | @short ds cs t hl hd hv _ ih =>
    intro n r hu hn
    obtain ⟨n, rfl⟩ : ∃ m, n = m + 1 := ⟨n - 1, by omega⟩
    have e : [92, 117] ++ ds ++ t ++ 34 :: r = 92 :: 117 :: (ds ++ (t ++ 34 :: r)) := by simp
    rw [e] at hu ⊢
    have hu' : Units 256 (t ++ 34 :: r) := fun u h => hu u (List.mem_cons_of_mem _ (List.mem_cons_of_mem _ (List.mem_append_right _ h)))
    have hi := ih n r hu' (by simp at hn; omega)
    rw [content, if_neg (by omega), if_neg (by omega), if_pos rfl, if_pos (by rw [List.head?_cons]), List.tail_cons, codePointId_append hd hl hv.1]
    simp only [Option.bind_some, hi, Option.map_some, encodeUtf8_eq_spec hv.1, List.flatMap_cons]
  | @long ds cs t hl hd hv _ ih =>
    intro n r hu hn
    obtain ⟨n, rfl⟩ : ∃ m, n = m + 1 := ⟨n - 1, by omega⟩
    have e : [92, 85] ++ ds ++ t ++ 34 :: r = 92 :: 85 :: (ds ++ (t ++ 34 :: r)) := by simp
    rw [e] at hu ⊢
    have hu' : Units 256 (t ++ 34 :: r) := fun u h => hu u (List.mem_cons_of_mem _ (List.mem_cons_of_mem _ (List.mem_append_right _ h)))
    have hi := ih n r hu' (by simp at hn; omega)
    rw [content, if_neg (by omega), if_neg (by omega), if_pos rfl, if_neg (by simp), if_pos (by rw [List.head?_cons]), List.tail_cons, codePointId_append hd hl hv.1]
    simp only [Option.bind_some, hi, Option.map_some, encodeUtf8_eq_spec hv.1, List.flatMap_cons]

theorem content_sound : ∀ (n : Nat) {s v r : List Nat}, Units 256 s → content n s = some (v, r) →
    ∃ cs t, s = t ++ 34 :: r ∧ Chars example_ cs t ∧ v = cs.flatMap Spec.utf8
  | 0, _, _, _, _, h => by cases h
  | n + 1, [], _, _, _, h => by cases h
  | n + 1, c :: s, v, r, hu, h => by
    have hus : Units 256 s := fun u h => hu u (List.mem_cons_of_mem _ h)
    rw [content] at h
    split at h
    · rename_i hc
      simp only [Option.some.injEq, Prod.mk.injEq] at h
      obtain ⟨rfl, rfl⟩ := h
      exact ⟨[], [], by rw [hc]; rfl, .nil, rfl⟩
    · rename_i h34
      split at h
      · cases h
      · split at h
        · rename_i h92
          split at h
          · rename_i hh
            simp only [Option.bind_eq_some_iff, Prod.exists, Option.map_eq_some_iff, Prod.mk.injEq] at h
            obtain ⟨x, q, hx, u, r', hq, rfl, rfl⟩ := h
            obtain ⟨ds, e, hl, hd, rfl, hle⟩ := codePointId_sound hx
            cases s with
            | nil => simp at hh
            | cons d s =>
              simp at hh; subst hh
              rw [List.tail_cons] at e
              subst e
              obtain ⟨cs, t, rfl, hC, rfl⟩ := content_sound n (fun u h => hus u (List.mem_cons_of_mem _ (List.mem_append_right _ h))) hq
              refine ⟨num .hex ds :: cs, [92, 117] ++ ds ++ t, by rw [h92]; simp, .short hl hd ⟨hle, .inr trivial⟩ hC, ?_⟩
              rw [encodeUtf8_eq_spec hle, List.flatMap_cons]
          · split at h
            · rename_i hh
              simp only [Option.bind_eq_some_iff, Prod.exists, Option.map_eq_some_iff, Prod.mk.injEq] at h
              obtain ⟨x, q, hx, u, r', hq, rfl, rfl⟩ := h
              obtain ⟨ds, e, hl, hd, rfl, hle⟩ := codePointId_sound hx
              cases s with
              | nil => simp at hh
              | cons d s =>
                simp at hh; subst hh
                rw [List.tail_cons] at e
                subst e
                obtain ⟨cs, t, rfl, hC, rfl⟩ := content_sound n (fun u h => hus u (List.mem_cons_of_mem _ (List.mem_append_right _ h))) hq
                refine ⟨num .hex ds :: cs, [92, 85] ++ ds ++ t, by rw [h92]; simp, .long hl hd ⟨hle, .inr trivial⟩ hC, ?_⟩
                rw [encodeUtf8_eq_spec hle, List.flatMap_cons]
            · cases h
        · rename_i h92
          split at h
          · rename_i hlt
            split at h
            · cases h
            · rename_i hcn
              simp only [Option.map_eq_some_iff, Prod.exists, Prod.mk.injEq] at h
              obtain ⟨u, r', hq, rfl, rfl⟩ := h
              obtain ⟨cs, t, rfl, hC, rfl⟩ := content_sound n hus hq
              have hs : Spec.IsScalar c := by unfold Spec.IsScalar; omega
              have e : Spec.utf8 c = [c] := by unfold Spec.utf8; rw [if_pos hlt]
              simp [isControl] at hcn
              refine ⟨c :: cs, Spec.utf8 c ++ t, by rw [e]; rfl, .char hs (by omega) (by omega) h34 h92 hC, ?_⟩
              rw [List.flatMap_cons, e]; rfl
          · rename_i hge
            split at h
            · rename_i hp
              simp only [Option.map_eq_some_iff, Prod.exists, Prod.mk.injEq] at h
              obtain ⟨u, r', hq, rfl, rfl⟩ := h
              obtain ⟨h1, h2, h3⟩ := C02_utf8_decode_sound (c :: s) hu hp
              obtain ⟨cs, t, e, hC, rfl⟩ := content_sound n (fun u h => hu u (List.mem_of_mem_drop h)) hq
              have e1 : c :: s = Spec.utf8 (parseUtf8 (c :: s)).cp ++ (t ++ 34 :: r') := by
                rw [← h3, ← e, List.take_append_drop]
              have hv : 128 ≤ (parseUtf8 (c :: s)).cp := by
                rcases utf8_head h1 with ⟨hlt, e2⟩ | ⟨x, q, e2, hx, -⟩
                · rw [e2] at e1
                  simp only [List.singleton_append, List.cons.injEq] at e1
                  omega
                · unfold Spec.utf8 at e2
                  split at e2
                  · cases e2; omega
                  · omega
              rw [h3]
              exact ⟨(parseUtf8 (c :: s)).cp :: cs, Spec.utf8 (parseUtf8 (c :: s)).cp ++ t, by rw [List.append_assoc]; exact e1,
                .char h1 (by omega) (by omega) (by omega) (by omega) hC, by rw [List.flatMap_cons]⟩
            · cases h

theorem author_append {a s r : List Nat} (h : Author example_ a s) (hr : NB r) (hu : Units 256 (s ++ r)) : author (s ++ r) = some (a, r) := by
  cases h with
  | @mk cs t w hC hw =>
    have e : [34] ++ t ++ [34] ++ w ++ r = [34] ++ (t ++ 34 :: (w ++ r)) := by simp
    rw [e] at hu ⊢
    rw [author, Em.lit_append, Option.bind_some, content_append hC _ _ (fun u h => hu u (List.mem_append_right _ h)) (by simp; omega)]
    simp only [Option.map_some, Em.ws_append hw hr]

theorem author_sound {a s r : List Nat} (hu : Units 256 s) (h : author s = some (a, r)) : ∃ t, s = t ++ r ∧ Author example_ a t ∧ NB r := by
  unfold author at h
  simp only [Option.bind_eq_some_iff, Option.map_eq_some_iff, Prod.exists, Prod.mk.injEq] at h
  obtain ⟨q, hq, v, r', hc, rfl, rfl⟩ := h
  have e := Em.lit_sound hq
  subst e
  obtain ⟨cs, t, rfl, hC, rfl⟩ := content_sound _ (fun u h => hu u (List.mem_append_right _ h)) hc
  obtain ⟨w, hw, e, hn⟩ := Em.ws_sound r'
  refine ⟨_, ?_, .mk hC hw, hn⟩
  simp only [List.append_assoc, ← e, List.cons_append, List.nil_append]

theorem author_nb {o : Opts} {a s : List Nat} (h : Author o a s) (r : List Nat) : NB (s ++ r) := by
  cases h with
  | mk hC hw => exact Em.NB.of_cons rfl

theorem authors_nb {o : Opts} {as : List (List Nat)} {s : List Nat} (h : Authors o as s) (r : List Nat) : NB (s ++ r) := by
  cases h with
  | one h => exact author_nb h r
  | cons h _ _ => rw [List.append_assoc, List.append_assoc, List.append_assoc]; exact author_nb h _

theorem authors_append {as : List (List Nat)} {s : List Nat} (h : Authors example_ as s) : ∀ (n : Nat) (w r : List Nat), Blanks w → NB r →
    Units 256 (s ++ 93 :: (w ++ r)) → s.length < n → authors n (s ++ 93 :: (w ++ r)) = some (as, r) := by
  induction h with
  | @one a s ha =>
    intro n w r hw hr hu hn
    obtain ⟨n, rfl⟩ : ∃ m, n = m + 1 := ⟨n - 1, by omega⟩
    rw [authors, author_append ha (Em.NB.of_cons rfl) hu]
    simp [Em.ws_append hw hr]
  | @cons a s b t as ha hb _ ih =>
    rename_i hA
    intro n w r hw hr hu hn
    obtain ⟨n, rfl⟩ : ∃ m, n = m + 1 := ⟨n - 1, by omega⟩
    have e : s ++ [44] ++ b ++ t ++ 93 :: (w ++ r) = s ++ (44 :: (b ++ (t ++ 93 :: (w ++ r)))) := by simp
    rw [e] at hu ⊢
    have hi := ih n w r hw hr (fun u h => hu u (by simp only [List.mem_append, List.mem_cons] at h ⊢; grind)) (by simp at hn; omega)
    rw [authors, author_append ha (Em.NB.of_cons rfl) hu]
    simp only [Option.bind_some, List.head?_cons, List.tail_cons, Em.ws_append hb (authors_nb hA _), hi, Option.map_some]
    simp

theorem authors_sound : ∀ (n : Nat) {s r : List Nat} {as : List (List Nat)}, Units 256 s → authors n s = some (as, r) →
    ∃ t w, s = t ++ 93 :: (w ++ r) ∧ Authors example_ as t ∧ Blanks w
  | 0, _, _, _, _, h => by cases h
  | n + 1, s, r, as, hu, h => by
    rw [authors] at h
    simp only [Option.bind_eq_some_iff, Prod.exists] at h
    obtain ⟨a, q, ha, h⟩ := h
    obtain ⟨t, rfl, hA, -⟩ := author_sound hu ha
    split at h
    · rename_i hq
      simp only [Option.some.injEq, Prod.mk.injEq] at h
      obtain ⟨rfl, rfl⟩ := h
      cases q with
      | nil => simp at hq
      | cons c q =>
        simp at hq; subst hq
        obtain ⟨w, hw, e, -⟩ := Em.ws_sound q
        exact ⟨t, w, by rw [List.tail_cons, ← e], .one hA, hw⟩
    · split at h
      · rename_i hq
        simp only [Option.map_eq_some_iff, Prod.exists, Prod.mk.injEq] at h
        obtain ⟨as', r', h, rfl, rfl⟩ := h
        cases q with
        | nil => simp at hq
        | cons c q =>
          simp at hq; subst hq
          rw [List.tail_cons] at h
          obtain ⟨b, hb, e, -⟩ := Em.ws_sound q
          obtain ⟨t', w, e', hA', hw⟩ := authors_sound n (fun u h => hu u (by
            rw [e]; simp only [List.mem_append, List.mem_cons]; grind)) h
          refine ⟨t ++ [44] ++ b ++ t', w, ?_, .cons hA hb hA', hw⟩
          rw [e, e']; simp
      · cases h

theorem authorList_append {as : List (List Nat)} {s r : List Nat} (h : AuthorList example_ as s) (hr : NB r) (hu : Units 256 (s ++ r)) :
    authorList (s ++ r) = some (as, r) := by
  cases h with
  | @mk s w w' hw hA hw' =>
    have e : [91] ++ w ++ s ++ [93] ++ w' ++ r = [91] ++ (w ++ (s ++ 93 :: (w' ++ r))) := by simp
    rw [e] at hu ⊢
    rw [authorList, Em.lit_append, Option.bind_some, Em.ws_append hw (authors_nb hA _),
      authors_append hA _ _ _ hw' hr (fun u h => hu u (List.mem_append_right _ (List.mem_append_right _ h))) (by simp; omega)]

theorem authorList_sound {as : List (List Nat)} {s r : List Nat} (hu : Units 256 s) (h : authorList s = some (as, r)) :
    ∃ t, s = t ++ r ∧ AuthorList example_ as t := by
  unfold authorList at h
  simp only [Option.bind_eq_some_iff] at h
  obtain ⟨q, hq, h⟩ := h
  have e := Em.lit_sound hq
  subst e
  obtain ⟨w, hw, e, -⟩ := Em.ws_sound q
  obtain ⟨t, w', e', hA, hw'⟩ := authors_sound _ (fun u h => hu u (List.mem_append_right _ (by rw [e]; exact List.mem_append_right _ h))) h
  refine ⟨_, ?_, .mk hw hA hw'⟩
  rw [e, e']; simp

/-! ### Files -/

theorem lit_units {p s r : List Nat} (h : lit p s = some r) (hu : Units 256 s) : Units 256 r := fun u hr =>
  hu u (by rw [Em.lit_sound h]; exact List.mem_append_right _ hr)

theorem ws_units {s : List Nat} (hu : Units 256 s) : Units 256 (ws s) := fun u hr => by
  obtain ⟨w, -, e, -⟩ := Em.ws_sound s
  exact hu u (by rw [e]; exact List.mem_append_right _ hr)

theorem fieldRest_append {α : Type} {value : List Nat → Option (α × List Nat)} {set : α → Config → Config} {m : Config} {v : α}
    {s w w' nl b r : List Nat} (hw : Blanks w) (hw' : Blanks w') (hs : NB (s ++ (nl ++ (b ++ r))))
    (hv : value (s ++ (nl ++ (b ++ r))) = some (v, nl ++ (b ++ r))) (hn : Newline nl) (hb : Blanks b) (hr : NB r) :
    fieldRest value set m (w ++ (61 :: (w' ++ (s ++ (nl ++ (b ++ r)))))) = some (set v m, r) := by
  have h1 : lit [61] (61 :: (w' ++ (s ++ (nl ++ (b ++ r))))) = some (w' ++ (s ++ (nl ++ (b ++ r)))) := Em.lit_append [61] _
  rw [fieldRest, Em.ws_append hw (Em.NB.of_cons rfl), h1, Option.bind_some, Em.ws_append hw' hs, hv]
  simp only [Option.bind_some, Em.newline_append hn, Option.map_some, Em.ws_append hb hr]

theorem fieldRest_sound {α : Type} {value : List Nat → Option (α × List Nat)} {set : α → Config → Config} {m m' : Config} {q r : List Nat}
    (h : fieldRest value set m q = some (m', r)) (hu : Units 256 q) :
    ∃ v s w w' nl b r', q = w ++ (61 :: (w' ++ s)) ∧ Blanks w ∧ Blanks w' ∧ Units 256 s ∧ value s = some (v, r') ∧ r' = nl ++ (b ++ r)
      ∧ Newline nl ∧ Blanks b ∧ m' = set v m := by
  unfold fieldRest at h
  simp only [Option.bind_eq_some_iff, Prod.exists, Option.map_eq_some_iff, Prod.mk.injEq] at h
  obtain ⟨s, h1, v, r', h2, r'', h3, rfl, rfl⟩ := h
  obtain ⟨w, hw, e, -⟩ := Em.ws_sound q
  obtain ⟨w', hw', e', -⟩ := Em.ws_sound s
  obtain ⟨nl, hn, e3⟩ := Em.newline_sound h3
  obtain ⟨b, hb, e4, -⟩ := Em.ws_sound r''
  refine ⟨v, ws s, w, w', nl, b, r', ?_, hw, hw', ws_units (lit_units h1 (ws_units hu)), h2, ?_, hn, hb, rfl⟩
  · rw [e, Em.lit_sound h1, ← e']; rfl
  · rw [e3, ← e4]

theorem val_nb {o : Opts} {f : Field} {s : List Nat} (h : Val o f s) (r : List Nat) : NB (s ++ r) := by
  cases h with
  | name h =>
    cases h with
    | mk hc _ _ => exact Em.NB.of_cons (by unfold Letter at hc; simp [isBlank]; omega)
  | version h =>
    cases h with
    | unreleased _ => exact Em.NB.of_cons rfl
    | @numbers a b c s t u w h _ _ _ =>
      cases h with
      | mk h1 h2 h3 =>
        cases s with
        | nil => exact absurd rfl h1
        | cons d s =>
          refine Em.NB.of_cons ?_
          cases hb : isBlank d with
          | false => rfl
          | true =>
            have hd := h2 d (by simp)
            rcases (Em.isBlank_iff d).1 hb with rfl | rfl <;> exact absurd hd (by decide)
  | authors h =>
    cases h with
    | mk _ _ _ => exact Em.NB.of_cons rfl

theorem fieldChoice_append {f : Field} {t r : List Nat} (h : Line example_ f t) (m : Config) (hr : NB r) (hu : Units 256 (t ++ r)) :
    fieldChoice m (t ++ r) = some (f.kind, f.set m, r) := by
  cases h with
  | @mk s w w' nl b hw hw' hV hn hb =>
    have e : f.key ++ w ++ [61] ++ w' ++ s ++ nl ++ b ++ r = f.key ++ (w ++ (61 :: (w' ++ (s ++ (nl ++ (b ++ r)))))) := by simp
    rw [e] at hu ⊢
    have hus : Units 256 (s ++ (nl ++ (b ++ r))) := fun u h => hu u (by
      simp only [List.mem_append, List.mem_cons] at h ⊢; grind)
    have hnb := val_nb hV (nl ++ (b ++ r))
    cases hV with
    | @name v _ hV =>
      have h1 := fieldRest_append (m := m) (set := fun v m => { m with name := v }) hw hw' hnb (name_append (r := b ++ r) hV hn) hn hb hr
      simp only [Field.key, fieldChoice, show ([110, 97, 109, 101] : List Nat) = litName from rfl, Em.lit_append, h1, Option.map_some]
      rfl
    | @version v _ hV =>
      have h1 := fieldRest_append (m := m) (set := fun v m => { m with version := v }) hw hw' hnb (version_append (r := b ++ r) hV hn) hn hb hr
      have h2 : ∀ q, lit litName (litVersion ++ q) = none := fun q => rfl
      simp only [Field.key, fieldChoice, show ([118, 101, 114, 115, 105, 111, 110] : List Nat) = litVersion from rfl, h2, Em.lit_append, h1,
        Option.map_some]
      rfl
    | @authors v _ hV =>
      have h1 := fieldRest_append (m := m) (set := fun v m => { m with authors := v }) hw hw' hnb
        (authorList_append hV (newline_nb hn (b ++ r)) hus) hn hb hr
      have h2 : ∀ q, lit litName (litAuthors ++ q) = none := fun q => rfl
      have h3 : ∀ q, lit litVersion (litAuthors ++ q) = none := fun q => rfl
      simp only [Field.key, fieldChoice, show ([97, 117, 116, 104, 111, 114, 115] : List Nat) = litAuthors from rfl, h2, h3, Em.lit_append, h1,
        Option.map_some]
      rfl

theorem fieldChoice_sound {m m' : Config} {s r : List Nat} {i : Nat} (hu : Units 256 s) (h : fieldChoice m s = some (i, m', r)) :
    ∃ f t, s = t ++ r ∧ Line example_ f t ∧ i = f.kind ∧ m' = f.set m := by
  unfold fieldChoice at h
  cases h1 : lit litName s with
  | some q =>
    simp only [h1, Option.map_eq_some_iff, Prod.exists, Prod.mk.injEq] at h
    obtain ⟨m1, r1, h, rfl, rfl, rfl⟩ := h
    obtain ⟨v, x, w, w', nl, b, r', rfl, hw, hw', hux, hv, rfl, hn, hb, rfl⟩ := fieldRest_sound h (lit_units h1 hu)
    obtain ⟨t, rfl, hV⟩ := name_sound hv
    refine ⟨.name v, _, ?_, .mk hw hw' (.name hV) hn hb, rfl, rfl⟩
    rw [Em.lit_sound h1]; simp [Field.key, litName]
  | none =>
    simp only [h1] at h
    cases h2 : lit litVersion s with
    | some q =>
      simp only [h2, Option.map_eq_some_iff, Prod.exists, Prod.mk.injEq] at h
      obtain ⟨m1, r1, h, rfl, rfl, rfl⟩ := h
      obtain ⟨v, x, w, w', nl, b, r', rfl, hw, hw', hux, hv, rfl, hn, hb, rfl⟩ := fieldRest_sound h (lit_units h2 hu)
      obtain ⟨t, rfl, hV⟩ := version_sound hv
      refine ⟨.version v, _, ?_, .mk hw hw' (.version hV) hn hb, rfl, rfl⟩
      rw [Em.lit_sound h2]; simp [Field.key, litVersion]
    | none =>
      simp only [h2] at h
      cases h3 : lit litAuthors s with
      | some q =>
        simp only [h3, Option.map_eq_some_iff, Prod.exists, Prod.mk.injEq] at h
        obtain ⟨m1, r1, h, rfl, rfl, rfl⟩ := h
        obtain ⟨v, x, w, w', nl, b, r', rfl, hw, hw', hux, hv, rfl, hn, hb, rfl⟩ := fieldRest_sound h (lit_units h3 hu)
        obtain ⟨t, rfl, hV⟩ := authorList_sound hux hv
        refine ⟨.authors v, _, ?_, .mk hw hw' (.authors hV) hn hb, rfl, rfl⟩
        rw [Em.lit_sound h3]; simp [Field.key, litAuthors]
      | none => simp only [h3] at h; cases h

theorem lines_nb {fs : List Field} {s : List Nat} (h : Lines example_ fs s) : NB s := by
  cases h with
  | nil => intro c hc; cases hc
  | @cons f fs s t h _ =>
    cases h with
    | mk _ _ _ _ _ => cases f <;> exact Em.NB.of_cons rfl

theorem fields_append {fs : List Field} {t : List Nat} (h : Lines example_ fs t) : ∀ (n : Nat) (handled : List Nat) (m : Config),
    Units 256 t → (fs.map Field.kind).Nodup → (∀ f ∈ fs, f.kind ∉ handled) → fs.length = n →
    fields n handled m t = some (fs.foldl (fun m f => f.set m) m, []) := by
  induction h with
  | nil =>
    intro n handled m _ _ _ hl
    subst hl; rfl
  | @cons f fs s t hf hL ih =>
    intro n handled m hu hnd hh hl
    rw [List.length_cons] at hl
    obtain ⟨n, rfl⟩ : ∃ m, n = m + 1 := ⟨n - 1, by omega⟩
    rw [List.map_cons, List.nodup_cons] at hnd
    have h1 : handled.contains f.kind = false := by
      have := hh f (by simp)
      simpa using this
    rw [fields, fieldChoice_append hf m (lines_nb hL) hu]
    simp only [h1, Bool.false_eq_true, if_false]
    rw [ih n (f.kind :: handled) (f.set m) (fun u h => hu u (List.mem_append_right _ h)) hnd.2 ?_ (by omega)]
    · rfl
    · intro g hg hc
      rw [List.mem_cons] at hc
      rcases hc with hc | hc
      · exact hnd.1 (hc ▸ List.mem_map_of_mem hg)
      · exact hh g (by simp [hg]) hc

theorem fields_sound : ∀ (n : Nat) {handled : List Nat} {m m' : Config} {s r : List Nat}, Units 256 s → fields n handled m s = some (m', r) →
    ∃ fs t, s = t ++ r ∧ Lines example_ fs t ∧ (fs.map Field.kind).Nodup ∧ (∀ f ∈ fs, f.kind ∉ handled)
      ∧ m' = fs.foldl (fun m f => f.set m) m ∧ fs.length = n
  | 0, handled, m, m', s, r, _, h => by
    simp [fields] at h
    obtain ⟨rfl, rfl⟩ := h
    exact ⟨[], [], rfl, .nil, by simp, by simp, rfl, rfl⟩
  | n + 1, handled, m, m', s, r, hu, h => by
    rw [fields] at h
    cases hc : fieldChoice m s with
    | none => simp [hc] at h
    | some y =>
      obtain ⟨i, m1, q⟩ := y
      simp only [hc] at h
      split at h
      · cases h
      · rename_i hi
        obtain ⟨f, t, rfl, hf, rfl, rfl⟩ := fieldChoice_sound hu hc
        obtain ⟨fs, t', rfl, hL, hnd, hh, rfl, rfl⟩ := fields_sound n (fun u h => hu u (List.mem_append_right _ h)) h
        refine ⟨f :: fs, t ++ t', by simp, .cons hf hL, ?_, ?_, rfl, rfl⟩
        · rw [List.map_cons, List.nodup_cons]
          refine ⟨fun hm => ?_, hnd⟩
          rw [List.mem_map] at hm
          obtain ⟨g, hg, e⟩ := hm
          exact hh g hg (by simp [e])
        · intro g hg hgh
          rw [List.mem_cons] at hg
          rcases hg with rfl | hg
          · exact hi (by simpa using hgh)
          · exact hh g hg (List.mem_cons_of_mem _ hgh)

/-- C106: without a byte 0xFF in the file, the example reports no error exactly if the file consists of the three fields, in any order,
    and the config is what they say.  Escape sequences may also stand for surrogates.  Missing: files with a byte 0xFF, at which the
    example stops reading. -/
theorem C106_file_partial (s : List Nat) (hu : Units 256 s) (hf : 0xFF ∉ s) (m : Config) : config s = some m ↔ File example_ m s := by
  constructor
  · intro h
    unfold config at h
    simp only [Option.bind_eq_some_iff, Prod.exists] at h
    obtain ⟨m1, r, h1, h2⟩ := h
    split at h2
    · rename_i hp
      simp only [Option.some.injEq] at h2
      subst h2
      obtain ⟨b, hb, e, -⟩ := Em.ws_sound s
      obtain ⟨fs, t, e', hL, hnd, -, rfl, hl⟩ := fields_sound 3 (ws_units hu) h1
      have hr : r = [] := by
        cases r with
        | nil => rfl
        | cons c r =>
          simp [peek8] at hp
          exact absurd (by rw [e, e', hp]; simp) hf
      rw [e, e', hr, List.append_nil]
      exact .mk hb hL hnd hl
    · cases h2
  · intro h
    cases h with
    | @mk fs b s hb hL hnd hl =>
      rw [config, Em.ws_append hb (lines_nb hL), fields_append hL 3 [] {} (fun u h => hu u (List.mem_append_right _ h)) hnd (by simp) hl]
      rfl

/-! ### UTF-8 -/

theorem chars_strict {cs t : List Nat} (h : Chars strict cs t) : Chars example_ cs t ∧ ∀ v ∈ cs, Spec.IsScalar v := by
  have hc : ∀ v, CodePt strict v → CodePt example_ v ∧ Spec.IsScalar v := fun v h => ⟨⟨h.1, .inr trivial⟩, h.2.resolve_right id⟩
  induction h with
  | nil => exact ⟨.nil, by simp⟩
  | char h1 h2 h3 h4 h5 _ ih => exact ⟨.char h1 h2 h3 h4 h5 ih.1, by simpa using ⟨h1, ih.2⟩⟩
  | short h1 h2 h3 _ ih => exact ⟨.short h1 h2 (hc _ h3).1 ih.1, by simpa using ⟨(hc _ h3).2, ih.2⟩⟩
  | long h1 h2 h3 _ ih => exact ⟨.long h1 h2 (hc _ h3).1 ih.1, by simpa using ⟨(hc _ h3).2, ih.2⟩⟩

/-- Well-formed UTF-8. -/
def _root_.Verif.Spec.Cfg.Utf8 (a : List Nat) : Prop := ∃ cs : List Nat, (∀ v ∈ cs, Spec.IsScalar v) ∧ a = cs.flatMap Spec.utf8

theorem author_strict {a s : List Nat} (h : Author strict a s) : Author example_ a s ∧ Utf8 a := by
  cases h with
  | mk hC hw => exact ⟨.mk (chars_strict hC).1 hw, _, (chars_strict hC).2, rfl⟩

theorem authors_strict {as : List (List Nat)} {s : List Nat} (h : Authors strict as s) : Authors example_ as s ∧ ∀ a ∈ as, Utf8 a := by
  induction h with
  | one h => exact ⟨.one (author_strict h).1, by simpa using (author_strict h).2⟩
  | cons h hw _ ih => exact ⟨.cons (author_strict h).1 hw ih.1, by simpa using ⟨(author_strict h).2, ih.2⟩⟩

theorem line_strict {f : Field} {s : List Nat} (h : Line strict f s) :
    Line example_ f s ∧ ∀ m : Config, (∀ a ∈ m.authors, Utf8 a) → ∀ a ∈ (f.set m).authors, Utf8 a := by
  cases h with
  | mk hw hw' hV hn hb =>
    cases hV with
    | name h => exact ⟨.mk hw hw' (.name h) hn hb, fun m h => h⟩
    | version h => exact ⟨.mk hw hw' (.version h) hn hb, fun m h => h⟩
    | authors h =>
      cases h with
      | mk h1 h2 h3 => exact ⟨.mk hw hw' (.authors (.mk h1 (authors_strict h2).1 h3)) hn hb, fun m _ => (authors_strict h2).2⟩

theorem lines_strict {fs : List Field} {s : List Nat} (h : Lines strict fs s) :
    Lines example_ fs s ∧ ∀ m : Config, (∀ a ∈ m.authors, Utf8 a) → ∀ a ∈ (fs.foldl (fun m f => f.set m) m).authors, Utf8 a := by
  induction h with
  | nil => exact ⟨.nil, fun m h => h⟩
  | cons h _ ih => exact ⟨.cons (line_strict h).1 ih.1, fun m hm => ih.2 _ ((line_strict h).2 m hm)⟩

/-- C106: if no escape sequence of the file stands for a surrogate, the example has the config the file describes, and the authors are
    well-formed UTF-8. -/
theorem C106_utf8_partial {s : List Nat} {m : Config} (hu : Units 256 s) (hf : 0xFF ∉ s) (h : File strict m s) :
    config s = some m ∧ ∀ a ∈ m.authors, Utf8 a := by
  cases h with
  | mk hb hL hnd hl =>
    exact ⟨(C106_file_partial _ hu hf _).2 (.mk hb (lines_strict hL).1 hnd hl), (lines_strict hL).2 {} (by simp)⟩

/-! ### Output -/

/-- What is known of the config of a file. -/
structure Good (m : Config) : Prop where
  name : ∀ c ∈ m.name, WordChar c
  major : m.version.major ≤ 2147483647
  minor : m.version.minor ≤ 2147483647
  patch : m.version.patch ≤ 2147483647

theorem number_le {v : Nat} {s : List Nat} (h : Number v s) : v ≤ 2147483647 := by
  cases h with
  | mk _ _ h => exact h

theorem line_good {o : Opts} {f : Field} {s : List Nat} {m : Config} (h : Line o f s) (hm : Good m) : Good (f.set m) := by
  cases h with
  | mk _ _ hV _ _ =>
    cases hV with
    | name h =>
      cases h with
      | mk h1 h2 _ =>
        refine ⟨?_, hm.major, hm.minor, hm.patch⟩
        intro c hc
        rcases List.mem_cons.1 hc with rfl | hc
        · exact .inl h1
        · exact h2 c hc
    | version h =>
      cases h with
      | unreleased _ => exact ⟨hm.name, Nat.zero_le _, Nat.zero_le _, Nat.zero_le _⟩
      | numbers h1 h2 h3 _ => exact ⟨hm.name, number_le h1, number_le h2, number_le h3⟩
    | authors h => exact ⟨hm.name, hm.major, hm.minor, hm.patch⟩

theorem lines_good {o : Opts} {fs : List Field} {s : List Nat} (h : Lines o fs s) : ∀ {m : Config}, Good m →
    Good (fs.foldl (fun m f => f.set m) m) := by
  induction h with
  | nil => exact fun h => h
  | cons h _ ih => exact fun hm => ih (line_good h hm)

theorem file_good {o : Opts} {s : List Nat} {m : Config} (h : File o m s) : Good m := by
  cases h with
  | mk _ hL _ _ => exact lines_good hL ⟨by simp, by decide, by decide, by decide⟩

/-- The value of decimal digits. -/
def undec (ds : List Nat) : Nat := ds.foldl (fun a c => a * 10 + (c - 48)) 0

theorem decGo_spec (k n : Nat) (h : n < 10 ^ (k + 1)) : undec (decGo k n) = n ∧ ∀ c ∈ decGo k n, 48 ≤ c ∧ c ≤ 57 := by
  induction k generalizing n with
  | zero => simp [decGo, undec]; omega
  | succ k ih =>
    unfold decGo
    split
    · simp [undec]; omega
    · have hl : n / 10 < 10 ^ (k + 1) := by
        rw [Nat.div_lt_iff_lt_mul (by omega), ← Nat.pow_succ]; exact h
      obtain ⟨h1, h2⟩ := ih (n / 10) hl
      constructor
      · unfold undec at h1 ⊢
        rw [List.foldl_append, h1]
        simp only [List.foldl_cons, List.foldl_nil]
        omega
      · intro c hc
        rw [List.mem_append, List.mem_singleton] at hc
        rcases hc with hc | rfl
        · exact h2 c hc
        · omega

theorem decimal_spec {n : Nat} (h : n ≤ 2147483647) : undec (decimal n) = n ∧ ∀ c ∈ decimal n, 48 ≤ c ∧ c ≤ 57 :=
  decGo_spec 9 n (by omega)

theorem split_at {c : Nat} : ∀ {a a' x x' : List Nat}, c ∉ a → c ∉ a' → a ++ c :: x = a' ++ c :: x' → a = a' ∧ x = x'
  | [], [], x, x', _, _, h => by simpa using h
  | [], d :: a', x, x', _, h2, h => by
    simp only [List.nil_append, List.cons_append, List.cons.injEq] at h
    exact absurd (by simp [h.1]) h2
  | d :: a, [], x, x', h1, _, h => by
    simp only [List.nil_append, List.cons_append, List.cons.injEq] at h
    exact absurd (by simp [h.1]) h1
  | d :: a, e :: a', x, x', h1, h2, h => by
    simp only [List.cons_append, List.cons.injEq] at h
    obtain ⟨i1, i2⟩ := split_at (fun hh => h1 (by simp [hh])) (fun hh => h2 (by simp [hh])) h.2
    exact ⟨by rw [h.1, i1], i2⟩

theorem cstr_of {s : List Nat} (h : 0 ∉ s) : cstr s = s := by
  unfold cstr
  induction s with
  | nil => rfl
  | cons c s ih =>
    have : (c != 0) = true := by simp at h ⊢; omega
    rw [List.takeWhile_cons, this, if_pos rfl, ih (fun hh => h (by simp [hh]))]

theorem authors_inj : ∀ {as as' : List (List Nat)}, (∀ a ∈ as, 0 ∉ a ∧ 34 ∉ a) → (∀ a ∈ as', 0 ∉ a ∧ 34 ∉ a) →
    (as.flatMap fun a => [45, 32, 34] ++ cstr a ++ [34]) = (as'.flatMap fun a => [45, 32, 34] ++ cstr a ++ [34]) → as = as'
  | [], [], _, _, _ => rfl
  | [], a' :: as', _, _, h => by simp at h
  | a :: as, [], _, _, h => by simp at h
  | a :: as, a' :: as', h1, h2, h => by
    obtain ⟨x1, x2⟩ := h1 a (by simp)
    obtain ⟨y1, y2⟩ := h2 a' (by simp)
    simp only [List.flatMap_cons, cstr_of x1, cstr_of y1, List.append_assoc, List.cons_append, List.nil_append, List.cons.injEq,
      true_and] at h
    obtain ⟨rfl, h⟩ := split_at x2 y2 h
    rw [authors_inj (as := as) (as' := as') (fun b hb => h1 b (by simp [hb])) (fun b hb => h2 b (by simp [hb])) (by simpa using h)]

theorem good_name {m : Config} (h : Good m) : 0 ∉ m.name ∧ 32 ∉ m.name := by
  constructor <;> (intro hc; have := h.name _ hc; unfold WordChar Letter at this; omega)

theorem decimal_not {n c : Nat} (h : n ≤ 2147483647) (hc : c = 46 ∨ c = 41) : c ∉ decimal n := by
  intro hm
  have := (decimal_spec h).2 c hm
  omega

theorem decimal_inj {n n' : Nat} (h : n ≤ 2147483647) (h' : n' ≤ 2147483647) (e : decimal n = decimal n') : n = n' := by
  rw [← (decimal_spec h).1, ← (decimal_spec h').1, e]

/-- C106: if no author has a null character or a quote, different configs are printed differently. -/
theorem C106_output_partial {o : Opts} {s s' : List Nat} {m m' : Config} (h : File o m s) (h' : File o m' s')
    (ha : ∀ a ∈ m.authors, 0 ∉ a ∧ 34 ∉ a) (ha' : ∀ a ∈ m'.authors, 0 ∉ a ∧ 34 ∉ a) (e : output m = output m') : m = m' := by
  have g := file_good h
  have g' := file_good h'
  obtain ⟨n1, n2⟩ := good_name g
  obtain ⟨n1', n2'⟩ := good_name g'
  simp only [output, cstr_of n1, cstr_of n1', List.append_assoc, List.cons_append, List.nil_append, List.cons.injEq, true_and] at e
  obtain ⟨e1, e⟩ := split_at n2 n2' e
  simp only [List.cons.injEq, true_and] at e
  obtain ⟨e2, e⟩ := split_at (decimal_not g.major (.inl rfl)) (decimal_not g'.major (.inl rfl)) e
  obtain ⟨e3, e⟩ := split_at (decimal_not g.minor (.inl rfl)) (decimal_not g'.minor (.inl rfl)) e
  obtain ⟨e4, e⟩ := split_at (decimal_not g.patch (.inr rfl)) (decimal_not g'.patch (.inr rfl)) e
  simp only [List.cons.injEq, true_and] at e
  have e5 := authors_inj ha ha' (by simpa using e)
  have d2 := decimal_inj g.major g'.major e2
  have d3 := decimal_inj g.minor g'.minor e3
  have d4 := decimal_inj g.patch g'.patch e4
  obtain ⟨nm, ⟨a, b, c⟩, as⟩ := m
  obtain ⟨nm', ⟨a', b', c'⟩, as'⟩ := m'
  simp only at e1 d2 d3 d4 e5
  rw [e1, d2, d3, d4, e5]

/-! ### Examples and refutations -/

/-- `authors = [<text>]`, `version = unreleased` and `name = a`, each on its own line. -/
def exampleFile (text : List Nat) : List Nat :=
  litAuthors ++ [32, 61, 32, 91] ++ text ++ [93, 10] ++ litVersion ++ [61] ++ litUnreleased ++ [13, 10] ++ litName ++ [9, 61, 97, 32, 10]

/-- The config with these authors. -/
def exampleConfig (as : List (List Nat)) : Config := { name := [97], version := ⟨0, 0, 0⟩, authors := as }

theorem units_of {s : List Nat} (h : s.all (· < 255) = true) : Units 256 s ∧ 0xFF ∉ s := by
  rw [List.all_eq_true] at h
  constructor
  · intro u hu; have := h u hu; simp at this; omega
  · intro hu; have := h _ hu; simp at this

example : config (exampleFile [34, 195, 164, 92, 117, 48, 48, 52, 49, 34, 44, 34, 34]) = some (exampleConfig [[195, 164, 65], []]) := by
  decide +kernel

example : ∃ s, Units 256 s ∧ 0xFF ∉ s ∧ File strict (exampleConfig [[195, 164]]) s := by
  refine ⟨exampleFile [34, 195, 164, 34], (units_of (by decide +kernel)).1, (units_of (by decide +kernel)).2, ?_⟩
  have nb : Blanks [] := by intro c hc; cases hc
  have l1 : Line strict (.authors [[195, 164]]) _ :=
    .mk (s := [91, 34, 195, 164, 34, 93]) (w := [32]) (w' := [32]) (nl := [10]) (b := []) (by simp [Blanks]) (by simp [Blanks])
      (.authors (.mk (w := []) (w' := []) nb
        (.one (.mk (cs := [228]) (w := []) (.char (v := 228) (by decide) (by omega) (by omega) (by omega) (by omega) .nil) nb)) nb))
      (.inl rfl) nb
  have l2 : Line strict (.version ⟨0, 0, 0⟩) _ :=
    .mk (w := []) (w' := []) (nl := [13, 10]) (b := []) nb nb (.version (.unreleased (w := []) nb)) (.inr rfl) nb
  have l3 : Line strict (.name [97]) _ :=
    .mk (w := [9]) (w' := []) (nl := [10]) (b := []) (by simp [Blanks]) nb
      (.name (.mk (c := 97) (a := []) (w := [32]) (by unfold Letter; omega) (by simp) (by simp [Blanks]))) (.inl rfl) nb
  exact File.mk (b := []) nb (.cons l1 (.cons l2 (.cons l3 .nil))) (by decide) rfl

/-- C106, as documented ("Construct a UTF-8 string from the quoted content", config.cpp l.105): the authors are well-formed UTF-8.
    `\uD800` is accepted: `code_point_id` takes every code point, and the string has the encoding of a surrogate, which is not UTF-8. -/
theorem C106_surrogate_refuted : ¬ ∀ (s : List Nat) (m : Config), Units 256 s → config s = some m → ∀ a ∈ m.authors, Utf8 a := by
  intro h
  have e : config (exampleFile [34, 92, 117, 68, 56, 48, 48, 34]) = some (exampleConfig [[237, 160, 128]]) := by decide +kernel
  obtain ⟨cs, hs, hc⟩ := h _ _ (units_of (by decide +kernel)).1 e [237, 160, 128] (by simp [exampleConfig])
  cases cs with
  | nil => cases hc
  | cons v cs =>
    rw [List.flatMap_cons] at hc
    have hp := specUtf8_parse (hs v (by simp)) (rest := cs.flatMap Spec.utf8) (by
      intro u hu
      have : u ∈ ([237, 160, 128] : List Nat) := by rw [hc]; exact List.mem_append_right _ hu
      simp at this; omega)
    rw [← hc] at hp
    have : (parseUtf8 [237, 160, 128]).error = .surrogate := by decide +kernel
    rw [hp] at this
    cases this

/-- C106, as documented ("We're requiring UTF-8 input", config.cpp l.163): without an error, the file is well-formed UTF-8.  The file is
    read up to the first byte 0xFF, which is taken for its end; anything may follow. -/
theorem C106_end_refuted : ¬ ∀ (s : List Nat) (m : Config), Units 256 s → config s = some m → Utf8 s := by
  intro h
  have e : config (exampleFile [34, 34] ++ [0xFF, 1, 2, 3]) = some (exampleConfig [[]]) := by decide +kernel
  obtain ⟨cs, hs, hc⟩ := h _ _ (by unfold Units; decide +kernel) e
  have hm : 0xFF ∈ cs.flatMap Spec.utf8 := by rw [← hc]; decide +kernel
  rw [List.mem_flatMap] at hm
  obtain ⟨v, hv, hm⟩ := hm
  have := hs v hv
  unfold Spec.IsScalar at this
  unfold Spec.utf8 at hm
  split at hm
  · simp at hm; omega
  · split at hm
    · simp at hm; omega
    · split at hm <;> (simp at hm; omega)

/-- C106, as intended: the output shows the authors.  An author is printed up to its first null character, which may be written as an
    escape sequence: `"a\u0000b"` is shown as `"a"`. -/
theorem C106_null_refuted : ¬ ∀ (s s' : List Nat) (m m' : Config), config s = some m → config s' = some m' → (∀ a ∈ m.authors, 34 ∉ a) →
    (∀ a ∈ m'.authors, 34 ∉ a) → output m = output m' → m = m' := by
  intro h
  have := h (exampleFile [34, 97, 92, 117, 48, 48, 48, 48, 98, 34]) (exampleFile [34, 97, 34]) (exampleConfig [[97, 0, 98]])
    (exampleConfig [[97]]) (by decide +kernel) (by decide +kernel) (by decide +kernel) (by decide +kernel) (by decide +kernel)
  exact absurd this (by decide +kernel)

/-- C106, as intended: the output shows the authors.  There is no newline between them and quotes are not escaped: two authors `a` and
    `b` are shown in the same way as one author `a"- "b`. -/
theorem C106_lines_refuted : ¬ ∀ (s s' : List Nat) (m m' : Config), config s = some m → config s' = some m' → (∀ a ∈ m.authors, 0 ∉ a) →
    (∀ a ∈ m'.authors, 0 ∉ a) → output m = output m' → m = m' := by
  intro h
  have := h (exampleFile [34, 97, 34, 44, 34, 98, 34])
    (exampleFile [34, 97, 92, 117, 48, 48, 50, 50, 45, 32, 92, 117, 48, 48, 50, 50, 98, 34]) (exampleConfig [[97], [98]])
    (exampleConfig [[97, 34, 45, 32, 34, 98]]) (by decide +kernel) (by decide +kernel) (by decide +kernel) (by decide +kernel)
    (by decide +kernel)
  exact absurd this (by decide +kernel)

end Verif.Cfg
