import Verif.Shell
import Verif.EmailProps
import Verif.CodePointProps

/-
C107: the shell example executes the command that is entered.
-/

namespace Verif.Spec.Sh

open Verif.Sh (Vars Cmd)
open Verif.Spec.Em (Newline)

def Alnum (c : Nat) : Prop := 65 ≤ c ∧ c ≤ 90 ∨ 97 ≤ c ∧ c ≤ 122 ∨ 48 ≤ c ∧ c ≤ 57

/-- A bare word. -/
def Bare (a : List Nat) : Prop := a ≠ [] ∧ ∀ c ∈ a, Alnum c

/-- A character of a string: no control character. -/
def StrChar (c : Nat) : Prop := Spec.IsScalar c ∧ 32 ≤ c ∧ ¬ (127 ≤ c ∧ c ≤ 159)

/-- The escape sequences of C. -/
def escapes : List (Nat × Nat) := [(34, 34), (92, 92), (47, 47), (98, 8), (102, 12), (110, 10), (114, 13), (116, 9)]

inductive Kind
  | arg | quoted

/-- Arguments, and what is between double quotes: their values and how they are written.  `d` is the number of variables in braces
    around it, of which there may be at most 1024. -/
inductive Text (σ : Vars) : Kind → Nat → List Nat → List Nat → Prop
  | bare {d : Nat} {a : List Nat} : Bare a → Text σ .arg d a a
  | str {d : Nat} {cs : List Nat} : (∀ c ∈ cs, StrChar c ∧ c ≠ 39) → Text σ .arg d (cs.flatMap Spec.utf8) ([39] ++ cs.flatMap Spec.utf8 ++ [39])
  | quoted {d : Nat} {v t : List Nat} : Text σ .quoted d v t → Text σ .arg d v ([34] ++ t ++ [34])
  | bareVar {d : Nat} {a : List Nat} : Bare a → Text σ .arg d (σ a) ([36] ++ a)
  | var {d : Nat} {a t : List Nat} : d < 1024 → Text σ .arg (d + 1) a t → Text σ .arg d (σ a) ([36, 123] ++ t ++ [125])
  | nil {d : Nat} : Text σ .quoted d [] []
  | char {d c : Nat} {v t : List Nat} : StrChar c → c ≠ 34 → c ≠ 92 → c ≠ 36 → Text σ .quoted d v t →
      Text σ .quoted d (Spec.utf8 c ++ v) (Spec.utf8 c ++ t)
  | esc {d c e : Nat} {v t : List Nat} : (c, e) ∈ escapes → Text σ .quoted d v t → Text σ .quoted d (e :: v) ([92, c] ++ t)
  | interp {d : Nat} {a t v u : List Nat} : d < 1024 → Text σ .arg (d + 1) a t → Text σ .quoted d v u →
      Text σ .quoted d (σ a ++ v) ([36, 123] ++ t ++ [125] ++ u)

/-- An argument. -/
def Arg (σ : Vars) (v t : List Nat) : Prop := Text σ .arg 0 v t

/-- What is between arguments: blanks and newlines behind a backslash. -/
inductive Seps : List Nat → Prop
  | nil : Seps []
  | blank {c : Nat} {s : List Nat} : c = 32 ∨ c = 9 → Seps s → Seps (c :: s)
  | newline {nl s : List Nat} : Newline nl → Seps s → Seps ([92] ++ nl ++ s)

def Sep (s : List Nat) : Prop := Seps s ∧ s ≠ []

/-- The commands. -/
inductive Command (σ : Vars) : Cmd → List Nat → Prop
  | exit : Command σ .exit [101, 120, 105, 116]
  | echo {a b t : List Nat} : Sep b → Arg σ a t → Command σ (.echo a) ([101, 99, 104, 111] ++ b ++ t)
  | set {n v b b' t t' : List Nat} : Sep b → Arg σ n t → Sep b' → Arg σ v t' → Command σ (.set n v) ([115, 101, 116] ++ b ++ t ++ b' ++ t')

/-- A command at the beginning of the input: nothing or a newline is behind it and further separators.  At the end of the input, the
    shell is exited. -/
inductive Entered (σ : Vars) : Cmd → List Nat → Prop
  | end_ : Entered σ .exit []
  | last {c : Cmd} {s b : List Nat} : Command σ c s → Seps b → Entered σ c (s ++ b)
  | line {c : Cmd} {s b nl r : List Nat} : Command σ c s → Seps b → Newline nl → Entered σ c (s ++ b ++ nl ++ r)

/-- The input has the effect of a command: it is one, or one behind the directive to execute it. -/
inductive Does (σ : Vars) : Cmd → List Nat → Prop
  | plain {c : Cmd} {s : List Nat} : Entered σ c s → Does σ c s
  | execute {c : Cmd} {b s : List Nat} : Seps b → (b ≠ [] ∨ s = []) → Entered σ c s →
      Does σ c ([58, 101, 120, 101, 99, 117, 116, 101] ++ b ++ s)

/-- The variables after a command. -/
def after (σ : Vars) : Cmd → Vars
  | .set n v => fun m => if m = n then v else σ m
  | _ => σ

/-- The commands that are executed for a sequence of inputs: those that do nothing are skipped, and nothing is read after `exit`. -/
inductive Run : Vars → List (List Nat) → List Cmd → Prop
  | nil {σ : Vars} : Run σ [] []
  | exit {σ : Vars} {s : List Nat} {ss : List (List Nat)} : Does σ .exit s → Run σ (s :: ss) [.exit]
  | cmd {σ : Vars} {c : Cmd} {s : List Nat} {ss : List (List Nat)} {cs : List Cmd} :
      Does σ c s → c ≠ .exit → Run (after σ c) ss cs → Run σ (s :: ss) (c :: cs)
  | skip {σ : Vars} {s : List Nat} {ss : List (List Nat)} {cs : List Cmd} : (∀ c, ¬ Does σ c s) → Run σ ss cs → Run σ (s :: ss) cs

end Verif.Spec.Sh

namespace Verif.Sh

open Verif.Spec.Sh
open Verif.Spec.Em (Newline)
open Verif.Em (lit newline isBlank)

theorem isAlnum_iff (c : Nat) : isAlnum c = true ↔ Alnum c := by
  simp only [isAlnum, Alnum, Bool.or_eq_true, Bool.and_eq_true, decide_eq_true_eq, or_assoc]

/-- Nothing of a bare word. -/
def NW (r : List Nat) : Prop := ∀ c, r.head? = some c → isAlnum c = false

theorem nw_cons {c : Nat} {r : List Nat} (h : isAlnum c = false) : NW (c :: r) := by
  intro d hd; simp at hd; subst hd; exact h

theorem bare_append {a r : List Nat} (h : Bare a) (hr : NW r) : bare (a ++ r) = some (a, r) := by
  obtain ⟨h1, h2⟩ := Em.dropWhile_append (p := isAlnum) (fun c hc => (isAlnum_iff c).2 (h.2 c hc)) hr
  rw [bare, h1, h2, if_neg h.1]

theorem bare_sound {s a r : List Nat} (h : bare s = some (a, r)) : s = a ++ r ∧ Bare a := by
  unfold bare at h
  split at h
  · cases h
  · rename_i hne
    simp only [Option.some.injEq, Prod.mk.injEq] at h
    obtain ⟨rfl, rfl⟩ := h
    exact ⟨List.takeWhile_append_dropWhile.symm, hne, fun c hc => (isAlnum_iff c).1 (Em.takeWhile_all s c hc)⟩

/-! ### Characters -/

theorem control_iff {c : Nat} (h : Spec.IsScalar c) : cpIsControl c = false ↔ StrChar c := by
  unfold StrChar
  simp only [cpIsControl, Bool.or_eq_false_iff, Bool.and_eq_false_iff, decide_eq_false_iff_not]
  constructor
  · intro h'; exact ⟨h, by omega, by omega⟩
  · rintro ⟨-, h1, h2⟩; omega

theorem strChar_append {c : Nat} {r : List Nat} (h : StrChar c) (hr : Units 256 r) : strChar (Spec.utf8 c ++ r) = some (Spec.utf8 c, r) := by
  rw [strChar, specUtf8_parse h.1 hr, if_pos rfl, (control_iff h.1).2 h]
  simp only [Bool.false_eq_true, if_false, List.take_left, List.drop_left]

theorem strChar_sound {s u r : List Nat} (hu : Units 256 s) (h : strChar s = some (u, r)) : ∃ c, StrChar c ∧ u = Spec.utf8 c ∧ s = u ++ r := by
  unfold strChar at h
  split at h
  · rename_i hs
    obtain ⟨h1, -, h3⟩ := C02_utf8_decode_sound s hu hs
    split at h
    · cases h
    · rename_i hc
      simp only [Option.some.injEq, Prod.mk.injEq] at h
      obtain ⟨rfl, rfl⟩ := h
      exact ⟨_, (control_iff h1).1 (by simpa using hc), h3, (List.take_append_drop _ _).symm⟩
  · cases h

/-- How the UTF-8 of a character begins. -/
theorem utf8_begin {c : Nat} (h : StrChar c) (r : List Nat) :
    ∃ x, (Spec.utf8 c ++ r).head? = some x ∧ peek8 (Spec.utf8 c ++ r) = x ∧ x ≠ 0xFF ∧ 32 ≤ x ∧ (x < 128 → x = c) := by
  obtain ⟨h1, h2, h3⟩ := h
  unfold Spec.IsScalar at h1
  unfold Spec.utf8
  split
  · exact ⟨_, rfl, rfl, by omega, by omega, by omega⟩
  · split
    · exact ⟨_, rfl, rfl, by omega, by omega, by omega⟩
    · split
      · exact ⟨_, rfl, rfl, by omega, by omega, by omega⟩
      · exact ⟨_, rfl, rfl, by omega, by omega, by omega⟩

theorem utf8_pos (c : Nat) : 0 < (Spec.utf8 c).length := by
  unfold Spec.utf8
  split
  · exact Nat.succ_pos _
  · split
    · exact Nat.succ_pos _
    · split <;> exact Nat.succ_pos _

theorem strText_append : ∀ {cs : List Nat}, (∀ c ∈ cs, StrChar c ∧ c ≠ 39) → ∀ (n : Nat) (r : List Nat),
    Units 256 (cs.flatMap Spec.utf8 ++ 39 :: r) → (cs.flatMap Spec.utf8).length < n →
    strText n (cs.flatMap Spec.utf8 ++ 39 :: r) = some (cs.flatMap Spec.utf8, r)
  | [], _, n, r, _, hn => by
    obtain ⟨n, rfl⟩ : ∃ m, n = m + 1 := ⟨n - 1, by omega⟩
    simp [strText]
  | c :: cs, h, n, r, hu, hn => by
    obtain ⟨n, rfl⟩ : ∃ m, n = m + 1 := ⟨n - 1, by omega⟩
    obtain ⟨hc, hq⟩ := h c (by simp)
    rw [List.flatMap_cons, List.append_assoc] at hu ⊢
    have hu' : Units 256 (cs.flatMap Spec.utf8 ++ 39 :: r) := fun u h => hu u (List.mem_append_right _ h)
    obtain ⟨x, e1, e2, h1, h2, h3⟩ := utf8_begin hc (cs.flatMap Spec.utf8 ++ 39 :: r)
    have hp := utf8_pos c
    rw [List.flatMap_cons, List.length_append] at hn
    have ih := strText_append (fun d hd => h d (by simp [hd])) n r hu' (by omega)
    have h4 : ¬ some x = some 39 := by intro e; simp at e; have := h3 (by omega); omega
    rw [strText, e1, e2, if_neg h4, if_neg h1, strChar_append hc hu']
    simp only [Option.bind_some, ih, Option.map_some]

theorem strText_sound : ∀ (n : Nat) {s v r : List Nat}, Units 256 s → strText n s = some (v, r) →
    ∃ cs : List Nat, (∀ c ∈ cs, StrChar c ∧ c ≠ 39) ∧ v = cs.flatMap Spec.utf8 ∧ s = v ++ 39 :: r
  | 0, _, _, _, _, h => by cases h
  | n + 1, s, v, r, hu, h => by
    rw [strText] at h
    split at h
    · rename_i hq
      simp only [Option.some.injEq, Prod.mk.injEq] at h
      obtain ⟨rfl, rfl⟩ := h
      cases s with
      | nil => simp at hq
      | cons c s => simp at hq; subst hq; exact ⟨[], by simp, rfl, rfl⟩
    · rename_i hq
      split at h
      · cases h
      · simp only [Option.bind_eq_some_iff, Prod.exists, Option.map_eq_some_iff, Prod.mk.injEq] at h
        obtain ⟨u, q, h1, v', r', h2, rfl, rfl⟩ := h
        obtain ⟨c, hc, rfl, rfl⟩ := strChar_sound hu h1
        obtain ⟨cs, hcs, rfl, rfl⟩ := strText_sound n (fun u h => hu u (List.mem_append_right _ h)) h2
        refine ⟨c :: cs, ?_, by rw [List.flatMap_cons], by simp⟩
        intro d hd
        rcases List.mem_cons.1 hd with rfl | hd
        · refine ⟨hc, ?_⟩
          rintro rfl
          exact hq rfl
        · exact hcs d hd

theorem escaped_iff (c e : Nat) : escaped c = some e ↔ (c, e) ∈ escapes := by
  unfold escaped escapes
  simp only [List.mem_cons, Prod.mk.injEq, List.not_mem_nil, or_false]
  repeat' split
  all_goals simp only [Option.some.injEq, reduceCtorEq, false_iff]
  all_goals omega

/-! ### Arguments -/

/-- What is claimed for the two kinds of texts. -/
def Reads (σ : Vars) : Kind → Nat → List Nat → List Nat → Prop
  | .arg, d, v, t => ∀ (n : Nat) (r : List Nat), NW r → Units 256 (t ++ r) → 2 * t.length < n → argument σ n d (t ++ r) = some (v, r)
  | .quoted, d, v, t => ∀ (n : Nat) (r : List Nat), Units 256 (t ++ 34 :: r) → 2 * t.length < n →
      quotedText σ n d (t ++ 34 :: r) = some (v, r)

theorem text_reads {σ : Vars} {k : Kind} {d : Nat} {v t : List Nat} (h : Text σ k d v t) : Reads σ k d v t := by
  have un : ∀ {a b : List Nat}, Units 256 (a ++ b) → Units 256 b := fun h u hu => h u (List.mem_append_right _ hu)
  have braced_append : ∀ {d : Nat} {a t : List Nat}, d < 1024 → Reads σ .arg (d + 1) a t → ∀ (n : Nat) (r : List Nat),
      Units 256 (t ++ 125 :: r) → 2 * t.length + 1 < n → braced σ n d (t ++ 125 :: r) = some (σ a, r) := by
    intro d a t hd h n r hu hn
    obtain ⟨n, rfl⟩ : ∃ m, n = m + 1 := ⟨n - 1, by omega⟩
    rw [braced, if_neg (by unfold maxDepth; omega), h n (125 :: r) (nw_cons rfl) hu (by omega)]
    rfl
  induction h with
  | @bare d a hb =>
    intro n r hr hu hn
    obtain ⟨n, rfl⟩ : ∃ m, n = m + 1 := ⟨n - 1, by omega⟩
    obtain ⟨c, a, rfl⟩ : ∃ c a', a = c :: a' := by
      cases a with
      | nil => exact absurd rfl hb.1
      | cons c a => exact ⟨c, a, rfl⟩
    have hc := hb.2 c (by simp)
    have hx : ∀ k, k = 39 ∨ k = 34 ∨ k = 36 → ¬ some c = some k := by
      intro k hk e; simp at e; unfold Alnum at hc; omega
    rw [argument, List.cons_append, List.head?_cons, if_neg (hx _ (by omega)), if_neg (hx _ (by omega)), if_neg (hx _ (by omega)),
      ← List.cons_append, bare_append hb hr]
  | @str d cs hcs =>
    intro n r hr hu hn
    obtain ⟨n, rfl⟩ : ∃ m, n = m + 1 := ⟨n - 1, by omega⟩
    have e : [39] ++ cs.flatMap Spec.utf8 ++ [39] ++ r = 39 :: (cs.flatMap Spec.utf8 ++ 39 :: r) := by simp
    rw [e] at hu ⊢
    rw [argument, List.head?_cons, if_pos rfl, List.tail_cons,
      strText_append hcs _ r (fun u h => hu u (List.mem_cons_of_mem _ h)) (by simp; omega)]
  | @quoted d v t _ ih =>
    intro n r hr hu hn
    obtain ⟨n, rfl⟩ : ∃ m, n = m + 1 := ⟨n - 1, by omega⟩
    have e : [34] ++ t ++ [34] ++ r = 34 :: (t ++ 34 :: r) := by simp
    rw [e] at hu ⊢
    simp only [List.length_append, List.length_singleton] at hn
    rw [argument, List.head?_cons, if_neg (by simp), if_pos rfl, List.tail_cons,
      ih n r (fun u h => hu u (List.mem_cons_of_mem _ h)) (by omega)]
  | @bareVar d a hb =>
    intro n r hr hu hn
    obtain ⟨n, rfl⟩ : ∃ m, n = m + 1 := ⟨n - 1, by omega⟩
    have hx : ¬ (a ++ r).head? = some 123 := by
      cases a with
      | nil => exact absurd rfl hb.1
      | cons c a => intro e; simp at e; have := hb.2 c (by simp); unfold Alnum at this; omega
    rw [argument, List.singleton_append, List.cons_append, List.head?_cons, if_neg (by simp), if_neg (by simp), if_pos rfl, List.tail_cons,
      if_neg hx, bare_append hb hr]
    rfl
  | @var d a t hd _ ih =>
    intro n r hr hu hn
    obtain ⟨n, rfl⟩ : ∃ m, n = m + 1 := ⟨n - 1, by omega⟩
    have e : [36, 123] ++ t ++ [125] ++ r = 36 :: 123 :: (t ++ 125 :: r) := by simp
    rw [e] at hu ⊢
    simp only [List.length_append, List.length_cons, List.length_nil] at hn
    rw [argument, List.head?_cons, if_neg (by simp), if_neg (by simp), if_pos rfl, List.tail_cons, List.head?_cons, if_pos rfl, List.tail_cons,
      braced_append hd ih n r (fun u h => hu u (List.mem_cons_of_mem _ (List.mem_cons_of_mem _ h))) (by omega)]
  | @nil d =>
    intro n r hu hn
    obtain ⟨n, rfl⟩ : ∃ m, n = m + 1 := ⟨n - 1, by omega⟩
    simp [quotedText]
  | @char d c v t hc h1 h2 h3 _ ih =>
    intro n r hu hn
    obtain ⟨n, rfl⟩ : ∃ m, n = m + 1 := ⟨n - 1, by omega⟩
    rw [List.append_assoc] at hu ⊢
    obtain ⟨x, e1, e2, x1, x2, x3⟩ := utf8_begin hc (t ++ 34 :: r)
    have hp := utf8_pos c
    rw [List.length_append] at hn
    have hx : ∀ k, k = 34 ∨ k = 92 ∨ k = 36 → ¬ some x = some k := by
      intro k hk e; simp at e; have := x3 (by omega); omega
    have hy : ¬ (x = 0xFF ∨ some x = some 10 ∨ some x = some 13) := by
      simp only [Option.some.injEq]; omega
    rw [quotedText, e1, e2, if_neg (hx _ (by omega)), if_neg hy, if_neg (hx _ (by omega)), if_neg (hx _ (by omega)), strChar_append hc (un hu)]
    simp only [Option.bind_some, ih n r (un hu) (by omega), Option.map_some]
  | @esc d c e v t hce _ ih =>
    intro n r hu hn
    obtain ⟨n, rfl⟩ : ∃ m, n = m + 1 := ⟨n - 1, by omega⟩
    have e' : [92, c] ++ t ++ 34 :: r = 92 :: c :: (t ++ 34 :: r) := by simp
    rw [e'] at hu ⊢
    simp only [List.length_append, List.length_cons, List.length_nil] at hn
    have hi := ih n r (fun u h => hu u (List.mem_cons_of_mem _ (List.mem_cons_of_mem _ h))) (by omega)
    rw [quotedText, List.head?_cons, if_neg (by simp), if_neg (by simp [peek8]), if_pos rfl, List.tail_cons, List.head?_cons, List.tail_cons,
      Option.bind_some, (escaped_iff c e).2 hce, Option.bind_some, hi, Option.map_some]
  | @interp d a t v u hd _ _ ih1 ih2 =>
    intro n r hu hn
    obtain ⟨n, rfl⟩ : ∃ m, n = m + 1 := ⟨n - 1, by omega⟩
    have e' : [36, 123] ++ t ++ [125] ++ u ++ 34 :: r = 36 :: 123 :: (t ++ 125 :: (u ++ 34 :: r)) := by simp
    rw [e'] at hu ⊢
    simp only [List.length_append, List.length_cons, List.length_nil] at hn
    have hu1 : Units 256 (t ++ 125 :: (u ++ 34 :: r)) := fun u h => hu u (List.mem_cons_of_mem _ (List.mem_cons_of_mem _ h))
    have hu2 : Units 256 (u ++ 34 :: r) := fun x h => hu1 x (List.mem_append_right _ (List.mem_cons_of_mem _ h))
    rw [quotedText, List.head?_cons, if_neg (by simp), if_neg (by simp [peek8]), if_neg (by simp), if_pos rfl, List.tail_cons,
      List.head?_cons, if_pos rfl, List.tail_cons, braced_append hd ih1 n _ hu1 (by omega)]
    simp only [Option.bind_some, ih2 n r hu2 (by omega), Option.map_some]

theorem text_sound (σ : Vars) : ∀ (n : Nat),
    (∀ {d : Nat} {s v r : List Nat}, Units 256 s → argument σ n d s = some (v, r) → ∃ t, s = t ++ r ∧ Text σ .arg d v t) ∧
    (∀ {d : Nat} {s v r : List Nat}, Units 256 s → braced σ n d s = some (v, r) →
      ∃ a t, s = t ++ 125 :: r ∧ v = σ a ∧ d < 1024 ∧ Text σ .arg (d + 1) a t) ∧
    (∀ {d : Nat} {s v r : List Nat}, Units 256 s → quotedText σ n d s = some (v, r) → ∃ t, s = t ++ 34 :: r ∧ Text σ .quoted d v t)
  | 0 => ⟨fun _ h => by simp [argument] at h, fun _ h => by simp [braced] at h, fun _ h => by simp [quotedText] at h⟩
  | n + 1 => by
    obtain ⟨ih1, ih2, ih3⟩ := text_sound σ n
    have head : ∀ {s : List Nat} {c : Nat}, s.head? = some c → s = c :: s.tail := by
      intro s c h
      cases s with
      | nil => simp at h
      | cons d s => simp at h; subst h; rfl
    have tl : ∀ {s : List Nat}, Units 256 s → Units 256 s.tail := fun h u hu => h u (List.mem_of_mem_tail hu)
    refine ⟨?_, ?_, ?_⟩
    · intro d s v r hu h
      rw [argument] at h
      split at h
      · rename_i hq
        obtain ⟨cs, hcs, rfl, e⟩ := strText_sound _ (tl hu) h
        exact ⟨_, by rw [head hq, e]; simp, .str hcs⟩
      · split at h
        · rename_i hq
          obtain ⟨t, e, hT⟩ := ih3 (tl hu) h
          exact ⟨_, by rw [head hq, e]; simp, .quoted hT⟩
        · split at h
          · rename_i hq
            split at h
            · rename_i hb
              obtain ⟨a, t, e, rfl, hd, hT⟩ := ih2 (tl (tl hu)) h
              exact ⟨_, by rw [head hq, head hb, e]; simp, .var hd hT⟩
            · simp only [Option.map_eq_some_iff, Prod.exists, Prod.mk.injEq] at h
              obtain ⟨a, r', hb, rfl, rfl⟩ := h
              obtain ⟨e, hB⟩ := bare_sound hb
              exact ⟨_, by rw [head hq, e]; simp, .bareVar hB⟩
          · obtain ⟨rfl, hB⟩ := bare_sound h
            exact ⟨_, rfl, .bare hB⟩
    · intro d s v r hu h
      rw [braced] at h
      split at h
      · cases h
      · rename_i hd
        simp only [Option.bind_eq_some_iff, Prod.exists] at h
        obtain ⟨a, q, h1, h⟩ := h
        split at h
        · rename_i hq
          simp only [Option.some.injEq, Prod.mk.injEq] at h
          obtain ⟨rfl, rfl⟩ := h
          obtain ⟨t, rfl, hT⟩ := ih1 hu h1
          exact ⟨a, t, by rw [← head hq], rfl, by unfold maxDepth at hd; omega, hT⟩
        · cases h
    · intro d s v r hu h
      rw [quotedText] at h
      split at h
      · rename_i hq
        simp only [Option.some.injEq, Prod.mk.injEq] at h
        obtain ⟨rfl, rfl⟩ := h
        exact ⟨[], by rw [List.nil_append, ← head hq], .nil⟩
      · rename_i h34
        split at h
        · cases h
        · split at h
          · rename_i h92
            simp only [Option.bind_eq_some_iff, Option.map_eq_some_iff, Prod.exists, Prod.mk.injEq] at h
            obtain ⟨e, ⟨c, hc, he⟩, v', r', h, rfl, rfl⟩ := h
            obtain ⟨t, et, hT⟩ := ih3 (tl (tl hu)) h
            exact ⟨_, by rw [head h92, head hc, et]; simp, .esc ((escaped_iff c e).1 he) hT⟩
          · rename_i h92
            split at h
            · rename_i h36
              split at h
              · rename_i hb
                simp only [Option.bind_eq_some_iff, Option.map_eq_some_iff, Prod.exists, Prod.mk.injEq] at h
                obtain ⟨u, q, h1, v', r', h2, rfl, rfl⟩ := h
                obtain ⟨a, t, e, rfl, hd, hT⟩ := ih2 (tl (tl hu)) h1
                obtain ⟨t', e', hT'⟩ := ih3 (fun x hx => tl (tl hu) x (by rw [e]; exact List.mem_append_right _ (List.mem_cons_of_mem _ hx))) h2
                exact ⟨_, by rw [head h36, head hb, e, e']; simp, .interp hd hT hT'⟩
              · cases h
            · rename_i h36
              simp only [Option.bind_eq_some_iff, Option.map_eq_some_iff, Prod.exists, Prod.mk.injEq] at h
              obtain ⟨u, q, h1, v', r', h2, rfl, rfl⟩ := h
              obtain ⟨c, hc, rfl, rfl⟩ := strChar_sound hu h1
              obtain ⟨t', rfl, hT'⟩ := ih3 (fun x hx => hu x (List.mem_append_right _ hx)) h2
              refine ⟨_, by rw [List.append_assoc], .char hc ?_ ?_ ?_ hT'⟩
              · rintro rfl; exact h34 rfl
              · rintro rfl; exact h92 rfl
              · rintro rfl; exact h36 rfl

theorem arg_append {σ : Vars} {v t r : List Nat} (h : Arg σ v t) (hr : NW r) (hu : Units 256 (t ++ r)) : arg σ (t ++ r) = some (v, r) :=
  text_reads h _ r hr hu (by simp; omega)

theorem arg_sound {σ : Vars} {s v r : List Nat} (hu : Units 256 s) (h : arg σ s = some (v, r)) : ∃ t, s = t ++ r ∧ Arg σ v t :=
  (text_sound σ _).1 hu h

/-- An argument begins with something that is no separator. -/
theorem arg_head {σ : Vars} {v t : List Nat} (h : Arg σ v t) (r : List Nat) : startsSep (t ++ r) = false ∧ t ≠ [] := by
  have hb : ∀ {a : List Nat}, Bare a → startsSep (a ++ r) = false ∧ a ≠ [] := by
    intro a hb
    cases a with
    | nil => exact absurd rfl hb.1
    | cons c a =>
      have hc := hb.2 c (by simp)
      refine ⟨?_, by simp⟩
      simp only [startsSep, List.cons_append, List.head?_cons, isBlank, Bool.or_eq_false_iff, beq_eq_false_iff_ne]
      unfold Alnum at hc
      omega
  unfold Arg at h
  cases h with
  | bare h => exact hb h
  | str _ => exact ⟨rfl, by simp⟩
  | quoted _ => exact ⟨rfl, by simp⟩
  | bareVar _ => exact ⟨rfl, by simp⟩
  | var _ _ => exact ⟨rfl, by simp⟩

/-! ### Separators -/

theorem startsSep_cons (c : Nat) (s : List Nat) : startsSep (c :: s) = (isBlank c || c == 92) := rfl

theorem newline_head {nl : List Nat} (h : Newline nl) (r : List Nat) : startsSep (nl ++ r) = false := by
  rcases h with rfl | rfl <;> rfl

theorem sepLoop_append {b : List Nat} (h : Seps b) : ∀ (n : Nat) (r : List Nat), startsSep r = false → b.length < n →
    sepLoop n (b ++ r) = some r := by
  induction h with
  | nil =>
    intro n r hr hn
    obtain ⟨n, rfl⟩ : ∃ m, n = m + 1 := ⟨n - 1, by omega⟩
    cases r with
    | nil => rfl
    | cons c r =>
      rw [startsSep_cons, Bool.or_eq_false_iff, beq_eq_false_iff_ne] at hr
      rw [List.nil_append, sepLoop, hr.1, if_neg hr.2]
      rfl
  | @blank c s hc _ ih =>
    intro n r hr hn
    obtain ⟨n, rfl⟩ : ∃ m, n = m + 1 := ⟨n - 1, by omega⟩
    rw [List.cons_append, sepLoop, if_pos ((Em.isBlank_iff c).2 hc)]
    exact ih n r hr (by simp at hn; omega)
  | @newline nl s hnl _ ih =>
    intro n r hr hn
    obtain ⟨n, rfl⟩ : ∃ m, n = m + 1 := ⟨n - 1, by omega⟩
    have e : [92] ++ nl ++ s ++ r = 92 :: (nl ++ (s ++ r)) := by simp
    rw [e, sepLoop, if_neg (by decide), if_pos rfl, Em.newline_append hnl, Option.bind_some]
    exact ih n r hr (by simp at hn; omega)

theorem sepLoop_sound : ∀ (n : Nat) {s r : List Nat}, sepLoop n s = some r → ∃ b, s = b ++ r ∧ Seps b ∧ startsSep r = false
  | 0, _, _, h => by cases h
  | n + 1, [], r, h => by
    rw [sepLoop] at h
    cases h
    exact ⟨[], rfl, .nil, rfl⟩
  | n + 1, c :: s, r, h => by
    rw [sepLoop] at h
    split at h
    · rename_i hc
      obtain ⟨b, rfl, hb, hr⟩ := sepLoop_sound n h
      exact ⟨c :: b, rfl, .blank ((Em.isBlank_iff c).1 hc) hb, hr⟩
    · rename_i hc
      split at h
      · rename_i h92
        subst h92
        rw [Option.bind_eq_some_iff] at h
        obtain ⟨q, h1, h⟩ := h
        obtain ⟨nl, hnl, rfl⟩ := Em.newline_sound h1
        obtain ⟨b, rfl, hb, hr⟩ := sepLoop_sound n h
        exact ⟨[92] ++ nl ++ b, by simp, .newline hnl hb, hr⟩
      · rename_i h92
        cases h
        refine ⟨[], rfl, .nil, ?_⟩
        rw [startsSep_cons]
        simp [h92, Bool.eq_false_iff.2 hc]

/-- Separators begin like one. -/
theorem seps_starts {b : List Nat} (h : Sep b) (r : List Nat) : startsSep (b ++ r) = true := by
  obtain ⟨h, hne⟩ := h
  cases h with
  | nil => exact absurd rfl hne
  | blank hc _ => simp only [List.cons_append, startsSep_cons, (Em.isBlank_iff _).2 hc, Bool.true_or]
  | newline _ _ => rfl

theorem sep_append {b r : List Nat} (h : Sep b) (hr : startsSep r = false) : sep (b ++ r) = some r := by
  rw [sep, if_pos (seps_starts h r)]
  exact sepLoop_append h.1 _ r hr (by simp; omega)

theorem sep_sound {s r : List Nat} (h : sep s = some r) : ∃ b, s = b ++ r ∧ Sep b := by
  unfold sep at h
  split at h
  · rename_i hs
    obtain ⟨b, rfl, hb, hr⟩ := sepLoop_sound _ h
    refine ⟨b, rfl, hb, ?_⟩
    rintro rfl
    rw [List.nil_append, hr] at hs
    cases hs
  · cases h

/-- What begins like a separator does not continue a word. -/
theorem nw_of_starts {r : List Nat} (h : startsSep r = true) : NW r := by
  cases r with
  | nil => cases h
  | cons c r =>
    rw [startsSep_cons, Bool.or_eq_true, Em.isBlank_iff, beq_iff_eq] at h
    apply nw_cons
    rcases h with (rfl | rfl) | rfl <;> rfl

/-! ### Commands -/

theorem keyword_append {w r : List Nat} (hr : NW r) : keyword w (w ++ r) = some r := by
  rw [keyword, Em.lit_append, Option.bind_some]
  cases h : r.head? with
  | none => rfl
  | some c => simp [hr c h]

theorem keyword_sound {w s r : List Nat} (h : keyword w s = some r) : s = w ++ r := by
  unfold keyword at h
  rw [Option.bind_eq_some_iff] at h
  obtain ⟨q, h1, h⟩ := h
  split at h
  · cases h
  · cases h
    exact Em.lit_sound h1

/-- What may be behind a command. -/
inductive Rest : List Nat → Prop
  | last {b : List Nat} : Seps b → Rest b
  | line {b nl r : List Nat} : Seps b → Newline nl → Rest (b ++ nl ++ r)

theorem Rest.nw {r : List Nat} (h : Rest r) : NW r := by
  cases h with
  | last h =>
    cases r with
    | nil => intro c hc; cases hc
    | cons c r => exact nw_of_starts (by simpa using seps_starts ⟨h, by simp⟩ [])
  | @line b nl r h hnl =>
    rw [List.append_assoc]
    cases b with
    | nil => rcases hnl with rfl | rfl <;> exact nw_cons rfl
    | cons c b => exact nw_of_starts (seps_starts ⟨h, by simp⟩ _)

theorem cmd_append {σ : Vars} {c : Cmd} {s r : List Nat} (h : Command σ c s) (hr : Rest r) (hu : Units 256 (s ++ r)) : cmd σ (s ++ r) = some (c, r) := by
  have un : ∀ {a b : List Nat}, Units 256 (a ++ b) → Units 256 b := fun h u hu => h u (List.mem_append_right _ hu)
  cases h with
  | exit =>
    have := keyword_append (w := kwExit) hr.nw
    unfold kwExit at this
    rw [cmd, kwExit, this]
  | @echo a b t hb ha =>
    have e : [101, 99, 104, 111] ++ b ++ t ++ r = kwEcho ++ (b ++ (t ++ r)) := by simp [kwEcho]
    rw [e] at hu ⊢
    have h1 : keyword kwExit (kwEcho ++ (b ++ (t ++ r))) = none := by simp [keyword, kwExit, kwEcho, lit]
    have h2 : peek8 (kwEcho ++ (b ++ (t ++ r))) ≠ 0xFF := by simp [kwEcho, peek8]
    rw [cmd, h1]
    simp only [if_neg h2, keyword_append (nw_of_starts (seps_starts hb _)), sep_append hb (arg_head ha r).1, Option.bind_some,
      arg_append ha hr.nw (un (un hu)), Option.map_some]
  | @set n v b b' t t' hb hn hb' hv =>
    have e : [115, 101, 116] ++ b ++ t ++ b' ++ t' ++ r = kwSet ++ (b ++ (t ++ (b' ++ (t' ++ r)))) := by simp [kwSet]
    rw [e] at hu ⊢
    have h1 : keyword kwExit (kwSet ++ (b ++ (t ++ (b' ++ (t' ++ r))))) = none := by simp [keyword, kwExit, kwSet, lit]
    have h3 : keyword kwEcho (kwSet ++ (b ++ (t ++ (b' ++ (t' ++ r))))) = none := by simp [keyword, kwEcho, kwSet, lit]
    have h2 : peek8 (kwSet ++ (b ++ (t ++ (b' ++ (t' ++ r))))) ≠ 0xFF := by simp [kwSet, peek8]
    rw [cmd, h1]
    simp only [if_neg h2, h3, keyword_append (nw_of_starts (seps_starts hb _)), sep_append hb (arg_head hn _).1, Option.bind_some,
      arg_append hn (nw_of_starts (seps_starts hb' _)) (un (un hu)), sep_append hb' (arg_head hv r).1,
      arg_append hv hr.nw (un (un (un (un hu)))), Option.map_some]

theorem cmd_sound {σ : Vars} {c : Cmd} {s r : List Nat} (hu : Units 256 s) (h : cmd σ s = some (c, r)) :
    (c = .exit ∧ r = s ∧ peek8 s = 0xFF) ∨ ∃ t, s = t ++ r ∧ Command σ c t := by
  have un : ∀ {a b : List Nat}, Units 256 (a ++ b) → Units 256 b := fun h u hu => h u (List.mem_append_right _ hu)
  unfold cmd at h
  split at h
  · rename_i q hq
    simp only [Option.some.injEq, Prod.mk.injEq] at h
    obtain ⟨rfl, rfl⟩ := h
    exact .inr ⟨_, keyword_sound hq, .exit⟩
  · split at h
    · rename_i hp
      simp only [Option.some.injEq, Prod.mk.injEq] at h
      obtain ⟨rfl, rfl⟩ := h
      exact .inl ⟨rfl, rfl, hp⟩
    · right
      split at h
      · rename_i q hq
        simp only [Option.bind_eq_some_iff, Option.map_eq_some_iff, Prod.exists, Prod.mk.injEq] at h
        obtain ⟨q1, h1, a, q2, h2, rfl, rfl⟩ := h
        obtain rfl := keyword_sound hq
        obtain ⟨b, rfl, hb⟩ := sep_sound h1
        obtain ⟨t, rfl, ha⟩ := arg_sound (un (un hu)) h2
        exact ⟨_, by simp [kwEcho], .echo hb ha⟩
      · split at h
        · rename_i q hq
          simp only [Option.bind_eq_some_iff, Option.map_eq_some_iff, Prod.exists, Prod.mk.injEq] at h
          obtain ⟨q1, h1, a, q2, h2, q3, h3, v, q4, h4, rfl, rfl⟩ := h
          obtain rfl := keyword_sound hq
          obtain ⟨b, rfl, hb⟩ := sep_sound h1
          obtain ⟨t, rfl, ha⟩ := arg_sound (un (un hu)) h2
          obtain ⟨b', rfl, hb'⟩ := sep_sound h3
          obtain ⟨t', rfl, hv⟩ := arg_sound (un (un (un (un hu)))) h4
          exact ⟨_, by simp [kwSet], .set hb ha hb' hv⟩
        · cases h

theorem peek_nil {s : List Nat} (h255 : 0xFF ∉ s) (h : peek8 s = 0xFF) : s = [] := by
  cases s with
  | nil => rfl
  | cons c s => simp [peek8] at h; subst h; simp at h255

theorem command_of {σ : Vars} {c : Cmd} {s r : List Nat} (h : Command σ c s) (hr : Rest r) (hu : Units 256 (s ++ r)) : command σ (s ++ r) = some c := by
  have body : ∀ {b q : List Nat}, Seps b → startsSep q = false → atEol q = true → r = b ++ q → command σ (s ++ r) = some c := by
    intro b q hb hq he e
    rw [command, cmd_append h hr hu, Option.bind_some]
    by_cases hne : b = []
    · subst hne
      obtain rfl : r = q := e
      simp only [hq, he, if_true, Bool.false_eq_true, if_false]
    · have h1 : startsSep r = true := by rw [e]; exact seps_starts ⟨hb, hne⟩ q
      have h2 : sepLoop (r.length + 1) r = some q := by
        rw [e]; exact sepLoop_append hb _ q hq (by simp; omega)
      simp only [h1, if_true, h2, Option.bind_some, he]
  cases hr with
  | last hb => exact body (q := []) hb rfl (by decide) (by simp)
  | @line b nl r hb hnl =>
    refine body (q := nl ++ r) hb (newline_head hnl r) ?_ (by simp)
    rw [atEol, Em.newline_append hnl]
    simp

/-- A command is parsed exactly if it is entered. -/
theorem command_iff {σ : Vars} {c : Cmd} {s : List Nat} (hu : Units 256 s) (h255 : 0xFF ∉ s) : command σ s = some c ↔ Entered σ c s := by
  constructor
  · intro h
    have eol : ∀ {q : List Nat}, 0xFF ∉ q → atEol q = true → q = [] ∨ ∃ nl r, Newline nl ∧ q = nl ++ r := by
      intro q hq h
      rw [atEol, Bool.or_eq_true, beq_iff_eq, Option.isSome_iff_exists] at h
      rcases h with h | ⟨r, h⟩
      · exact .inl (peek_nil hq h)
      · obtain ⟨nl, h1, h2⟩ := Em.newline_sound h
        exact .inr ⟨nl, r, h1, h2⟩
    unfold command at h
    simp only [Option.bind_eq_some_iff, Prod.exists] at h
    obtain ⟨c', r, h1, h⟩ := h
    have hcr : ∃ b q, r = b ++ q ∧ Seps b ∧ atEol q = true ∧ c' = c := by
      split at h
      · rw [Option.bind_eq_some_iff] at h
        obtain ⟨q, h2, h⟩ := h
        obtain ⟨b, rfl, hb, -⟩ := sepLoop_sound _ h2
        split at h
        · cases h; exact ⟨b, q, rfl, hb, by assumption, rfl⟩
        · cases h
      · split at h
        · cases h; exact ⟨[], r, rfl, .nil, by assumption, rfl⟩
        · cases h
    obtain ⟨b, q, rfl, hb, hq, rfl⟩ := hcr
    rcases cmd_sound hu h1 with ⟨rfl, -, hp⟩ | ⟨t, rfl, ht⟩
    · obtain rfl := peek_nil h255 hp
      exact .end_
    · rcases eol (fun h => h255 (by simp [h])) hq with rfl | ⟨nl, r, hnl, rfl⟩
      · rw [List.append_nil]; exact .last ht hb
      · have e : t ++ (b ++ (nl ++ r)) = t ++ b ++ nl ++ r := by simp
        rw [e]; exact .line ht hb hnl
  · intro h
    cases h with
    | end_ => rfl
    | last hc hb => exact command_of hc (.last hb) hu
    | @line c s b nl r hc hb hnl =>
      have e : s ++ b ++ nl ++ r = s ++ (b ++ nl ++ r) := by simp
      rw [e] at hu ⊢
      exact command_of hc (.line hb hnl) hu

/-! ### Inputs and sessions -/

/-- The first character of what is entered. -/
theorem entered_head {σ : Vars} {c : Cmd} {s : List Nat} (h : Entered σ c s) : s = [] ∨ ∃ x t, s = x :: t ∧ (x = 101 ∨ x = 115) := by
  have : ∀ {c : Cmd} {s : List Nat}, Command σ c s → ∀ r, ∃ x t, s ++ r = x :: t ∧ (x = 101 ∨ x = 115) := by
    intro c s h r
    cases h with
    | exit => exact ⟨_, _, rfl, .inl rfl⟩
    | @echo a b t _ _ => exact ⟨101, [99, 104, 111] ++ b ++ t ++ r, by simp, .inl rfl⟩
    | @set n v b b' t t' _ _ _ _ => exact ⟨115, [101, 116] ++ b ++ t ++ b' ++ t' ++ r, by simp, .inr rfl⟩
  cases h with
  | end_ => exact .inl rfl
  | last hc _ => exact .inr (this hc _)
  | @line c s b nl r hc _ _ =>
    have e : s ++ b ++ nl ++ r = s ++ (b ++ nl ++ r) := by simp
    rw [e]
    exact .inr (this hc _)

theorem dirOf_execute {w : List Nat} (h : dirOf w = some .execute) : w = kwExecute := by
  unfold dirOf at h
  split at h
  · assumption
  · split at h
    · cases h
    · split at h <;> cases h

/-- The command that is executed for an input is the one the input describes. -/
theorem executed_iff {σ : Vars} {c : Cmd} {s : List Nat} (hu : Units 256 s) (h255 : 0xFF ∉ s) : executed σ s = some c ↔ Does σ c s := by
  constructor
  · intro h
    unfold executed at h
    simp only [Option.bind_eq_some_iff, Prod.exists] at h
    obtain ⟨d, r, h1, h⟩ := h
    split at h
    · rename_i hd
      subst hd
      unfold directive at h1
      split at h1
      · rename_i h58
        rw [Option.bind_eq_some_iff] at h1
        obtain ⟨d, h2, h1⟩ := h1
        have e : s = 58 :: (s.tail.takeWhile isAlpha ++ s.tail.dropWhile isAlpha) := by
          rw [List.takeWhile_append_dropWhile]
          cases s with
          | nil => simp at h58
          | cons x s => simp at h58; subst h58; rfl
        have hx : ∃ b, s.tail.dropWhile isAlpha = b ++ r ∧ Seps b ∧ d = .execute := by
          split at h1
          · rw [Option.map_eq_some_iff] at h1
            obtain ⟨q, h3, h1⟩ := h1
            cases h1
            obtain ⟨b, h4, h5, -⟩ := sepLoop_sound _ h3
            exact ⟨b, h4, h5, rfl⟩
          · cases h1
            exact ⟨[], rfl, .nil, rfl⟩
        obtain ⟨b, h4, hb, rfl⟩ := hx
        rw [dirOf_execute h2, h4] at e
        have hur : Units 256 r := fun u hu' => hu u (by rw [e]; simp [hu'])
        have h255r : 0xFF ∉ r := fun h => h255 (by rw [e]; simp [h])
        have hE := (command_iff hur h255r).1 h
        have e' : s = [58, 101, 120, 101, 99, 117, 116, 101] ++ b ++ r := by rw [e]; simp [kwExecute]
        have hd : b ≠ [] ∨ r = [] := by
          by_cases hne : b = []
          · right
            rcases entered_head hE with h | ⟨x, t, rfl, hx⟩
            · exact h
            · subst hne
              have := Em.dropWhile_head s.tail x (by rw [h4]; rfl)
              rcases hx with rfl | rfl <;> cases this
          · exact .inl hne
        exact e' ▸ Does.execute hb hd hE
      · cases h1
        exact .plain ((command_iff hu h255).1 h)
    · cases h
  · intro h
    cases h with
    | plain hE =>
      have h58 : ¬ s.head? = some 58 := by
        rcases entered_head hE with rfl | ⟨x, t, rfl, hx⟩
        · simp
        · intro h; simp at h; omega
      rw [executed, directive, if_neg h58, Option.bind_some]
      exact (command_iff hu h255).2 hE
    | @execute b r hb hd hE =>
      have hur : Units 256 r := fun u hu' => hu u (by simp [hu'])
      have h255r : 0xFF ∉ r := fun h => h255 (by simp [h])
      have hs : startsSep r = false := by
        rcases entered_head hE with rfl | ⟨x, t, rfl, rfl | rfl⟩ <;> rfl
      have hst : ∀ x, (b ++ r).head? = some x → isAlpha x = false := by
        intro x hx
        by_cases hne : b = []
        · subst hne
          rcases hd with h | h
          · exact absurd rfl h
          · subst h; cases hx
        · have := seps_starts ⟨hb, hne⟩ r
          cases hbr : b ++ r with
          | nil => rw [hbr] at hx; cases hx
          | cons y l =>
            rw [hbr] at hx this
            cases hx
            rw [startsSep_cons, Bool.or_eq_true, Em.isBlank_iff, beq_iff_eq] at this
            rcases this with (rfl | rfl) | rfl <;> rfl
      obtain ⟨d1, d2⟩ := Em.dropWhile_append (p := isAlpha) (a := kwExecute) (r := b ++ r) (by decide) hst
      have e : [58, 101, 120, 101, 99, 117, 116, 101] ++ b ++ r = 58 :: (kwExecute ++ (b ++ r)) := by simp [kwExecute]
      have hD : directive (58 :: (kwExecute ++ (b ++ r))) = some (.execute, r) := by
        rw [directive, List.head?_cons, if_pos rfl, List.tail_cons, d1, d2]
        have : dirOf kwExecute = some .execute := by decide
        rw [this, Option.bind_some]
        by_cases hne : b = []
        · subst hne
          simp only [List.nil_append, hs, Bool.false_eq_true, if_false]
        · rw [if_pos (seps_starts ⟨hb, hne⟩ r), sepLoop_append hb _ r hs (by simp; omega)]
          rfl
      rw [e, executed, hD, Option.bind_some]
      exact (command_iff hur h255r).2 hE

theorem exec_after (σ : Vars) (c : Cmd) : c.exec σ = after σ c := by
  cases c <;> rfl

/-- **C107**: in a session, exactly the commands are executed that are entered, in that order and with the variables that were set by the
    ones before; inputs that are no command, or a command behind another directive, change nothing, and nothing is executed after `exit`
    or the end of the input.  (Partial: not for the byte 0xFF, see `C107_end_refuted`, and as there is no way to recurse more than 1024
    times, not for variables in braces more deeply nested than that.) -/
theorem C107_run_partial (σ : Vars) (ss : List (List Nat)) (cs : List Cmd) (h : ∀ s ∈ ss, Units 256 s ∧ 0xFF ∉ s) :
    run σ ss = cs ↔ Run σ ss cs := by
  induction ss generalizing σ cs with
  | nil =>
    constructor
    · rintro rfl; exact .nil
    · intro h; cases h; rfl
  | cons s ss ih =>
    obtain ⟨hu, h255⟩ := h s (by simp)
    have ih' := fun σ cs => ih σ cs fun t ht => h t (by simp [ht])
    constructor
    · intro hr
      rw [run] at hr
      split at hr
      · rename_i hn
        refine .skip (fun c hc => ?_) ((ih' _ _).1 hr)
        rw [(executed_iff hu h255).2 hc] at hn
        cases hn
      · rename_i c hc
        have hD := (executed_iff hu h255).1 hc
        subst hr
        split
        · rename_i he
          subst he
          exact .exit hD
        · rename_i he
          rw [exec_after]
          exact .cmd hD he ((ih' _ _).1 rfl)
    · intro hr
      cases hr with
      | exit hD =>
        rw [run, (executed_iff hu h255).2 hD]
        rfl
      | @cmd _ c _ _ cs hD he hR =>
        rw [run, (executed_iff hu h255).2 hD]
        simp only [if_neg he, exec_after, (ih' _ _).2 hR]
      | skip hn hR =>
        have : executed σ s = none := by
          cases hx : executed σ s with
          | none => rfl
          | some c => exact absurd ((executed_iff hu h255).1 hx) (hn c)
        rw [run, this]
        exact (ih' _ _).2 hR

/-- **C107**: the value that is given to a variable is what `$` in front of its name stands for. -/
theorem C107_set_echo (σ : Vars) (n v t : List Nat) (hn : Bare n) (hv : Arg σ v t) (ht : Units 256 t) (h255 : 0xFF ∉ t) :
    run σ [[115, 101, 116] ++ [32] ++ n ++ [32] ++ t, [101, 99, 104, 111] ++ [32] ++ ([36] ++ n)] = [.set n v, .echo v] := by
  have hs : Sep [32] := ⟨.blank (.inl rfl) .nil, by simp⟩
  have hal : ∀ c ∈ n, c < 128 := fun c hc => by have := hn.2 c hc; unfold Alnum at this; omega
  have h1 : Does σ (.set n v) ([115, 101, 116] ++ [32] ++ n ++ [32] ++ t) := by
    have := Entered.last (Command.set (σ := σ) hs (.bare hn) hs hv) .nil
    rw [List.append_nil] at this
    exact .plain this
  have h2 : Does (after σ (.set n v)) (.echo v) ([101, 99, 104, 111] ++ [32] ++ ([36] ++ n)) := by
    have := Entered.last (Command.echo (σ := after σ (.set n v)) hs (.bareVar hn)) .nil
    rw [List.append_nil] at this
    have e : after σ (.set n v) n = v := if_pos rfl
    rw [e] at this
    exact .plain this
  refine (C107_run_partial σ _ _ ?_).2 (.cmd h1 (by simp) (.cmd h2 (by simp) .nil))
  intro s hs
  simp only [List.mem_cons, List.not_mem_nil, or_false] at hs
  rcases hs with rfl | rfl
  · constructor
    · intro u hu
      simp only [List.mem_append, List.mem_cons, List.not_mem_nil, or_false] at hu
      rcases hu with (((hu | hu) | hu) | hu) | hu
      · omega
      · omega
      · have := hal u hu; omega
      · omega
      · exact ht u hu
    · intro hu
      simp only [List.mem_append, List.mem_cons, List.not_mem_nil, or_false] at hu
      rcases hu with (((hu | hu) | hu) | hu) | hu
      · omega
      · omega
      · have := hal _ hu; omega
      · omega
      · exact h255 hu
  · constructor
    · intro u hu
      simp only [List.mem_append, List.mem_cons, List.not_mem_nil, or_false] at hu
      rcases hu with (hu | hu) | hu | hu
      · omega
      · omega
      · omega
      · have := hal u hu; omega
    · intro hu
      simp only [List.mem_append, List.mem_cons, List.not_mem_nil, or_false] at hu
      rcases hu with (hu | hu) | hu | hu
      · omega
      · omega
      · omega
      · have := hal _ hu; omega

/-- **C107**: an input of the shell example that begins with the byte 0xFF exits the shell, as the byte is taken for the end of the
    input, although it is no command. -/
theorem C107_end_refuted : ∃ s : List Nat, Units 256 s ∧ s ≠ [] ∧ (∀ σ, run σ [s] = [.exit]) ∧ ∀ σ c, ¬ Does σ c s := by
  refine ⟨[0xFF, 10], by unfold Units; decide +kernel, by simp, fun _ => rfl, ?_⟩
  have hE : ∀ {σ : Vars} {c : Cmd}, ¬ Entered σ c [0xFF, 10] := by
    intro σ c h
    rcases entered_head h with h | ⟨x, t, h, hx⟩
    · cases h
    · cases h; omega
  intro σ c h
  generalize hs : ([0xFF, 10] : List Nat) = s at h
  cases h with
  | plain h => subst hs; exact hE h
  | execute _ _ _ => simp at hs

/-- `set a 'x y'`, `echo "<${a}>$"`, `:trace exit`, `echo $$`, `echo "<${a}>"`, `exit`, `echo a`. -/
example : run (fun _ => [])
    [[115, 101, 116, 32, 97, 32, 39, 120, 32, 121, 39, 10],
     [101, 99, 104, 111, 32, 34, 60, 36, 123, 97, 125, 62, 36, 34, 10],
     [58, 116, 114, 97, 99, 101, 32, 101, 120, 105, 116, 10],
     [101, 99, 104, 111, 32, 36, 36, 10],
     [58, 101, 120, 101, 99, 117, 116, 101, 32, 101, 99, 104, 111, 32, 92, 10, 34, 60, 36, 123, 97, 125, 62, 34, 32, 10],
     [101, 120, 105, 116, 10], [101, 99, 104, 111, 32, 97]]
    = [.set [97] [120, 32, 121], .echo [60, 120, 32, 121, 62], .exit] := by decide +kernel

end Verif.Sh
