import Verif.Email

/-
C105: the email example has the message that is written in its input.
-/

namespace Verif.Spec.Em

open Verif.Em (Addr Msg)

/-- Where the example differs from RFC 5322: whether names may have several words, what is between them, whether `~` is a character of an
    atom, whether there may be blanks behind an address in angle brackets. -/
structure Opts where
  several : Prop
  between : List Nat
  tilde : Prop
  blanksBehind : Prop

/-- What RFC 5322 says. -/
def rfc : Opts := ⟨True, [32], True, True⟩

/-- What the example does. -/
def example_ : Opts := ⟨True, [], False, False⟩

/-- What they have in common. -/
def common : Opts := ⟨False, [], False, False⟩

/-- Blanks. -/
def Blanks (w : List Nat) : Prop := ∀ c ∈ w, c = 32 ∨ c = 9

/-- `atext`, RFC 5322 section 3.2.3: letters, digits and some punctuation. -/
def Atext (o : Opts) (c : Nat) : Prop :=
  65 ≤ c ∧ c ≤ 90 ∨ 97 ≤ c ∧ c ≤ 122 ∨ 48 ≤ c ∧ c ≤ 57
    ∨ c ∈ [33, 35, 36, 37, 38, 39, 42, 43, 45, 47, 61, 63, 94, 95, 96, 123, 124, 125] ∨ c = 126 ∧ o.tilde

/-- Printable characters, with the space. -/
def Print (c : Nat) : Prop := 32 ≤ c ∧ c ≤ 126

def Atom (o : Opts) (a : List Nat) : Prop := a ≠ [] ∧ ∀ c ∈ a, Atext o c

/-- `dot-atom`: atoms separated by periods; there may be blanks around the periods and at the end. -/
inductive DotAtom (o : Opts) : List Nat → List Nat → Prop
  | one {a w : List Nat} : Atom o a → Blanks w → DotAtom o a (a ++ w)
  | cons {a w w' v s : List Nat} : Atom o a → Blanks w → Blanks w' → DotAtom o v s →
      DotAtom o (a ++ [46] ++ v) (a ++ w ++ [46] ++ w' ++ s)

/-- The content of a quoted string: printable characters; a quote and a backslash need a backslash before them. -/
inductive QText : List Nat → List Nat → Prop
  | nil : QText [] []
  | char {c : Nat} {v s : List Nat} : Print c → c ≠ 34 → c ≠ 92 → QText v s → QText (c :: v) (c :: s)
  | esc {c : Nat} {v s : List Nat} : Print c → QText v s → QText (c :: v) (92 :: c :: s)

/-- `quoted-string`, with blanks at the end. -/
inductive Quoted : List Nat → List Nat → Prop
  | mk {v s w : List Nat} : QText v s → Blanks w → Quoted v ([34] ++ s ++ [34] ++ w)

/-- `word`. -/
inductive Word (o : Opts) : List Nat → List Nat → Prop
  | atom {a w : List Nat} : Atom o a → Blanks w → Word o a (a ++ w)
  | quoted {v s : List Nat} : Quoted v s → Word o v s

/-- There is no border between two words inside an atom. -/
def Border (o : Opts) (s t : List Nat) : Prop := ∀ c d, s.getLast? = some c → t.head? = some d → ¬ (Atext o c ∧ Atext o d)

/-- `phrase`: words. -/
inductive Phrase (o : Opts) : List Nat → List Nat → Prop
  | one {v s : List Nat} : Word o v s → Phrase o v s
  | cons {v v' s s' : List Nat} : Word o v s → Phrase o v' s' → Border o s s' → o.several → Phrase o (v ++ o.between ++ v') (s ++ s')

/-- `local-part`. -/
inductive LocalPart (o : Opts) : List Nat → List Nat → Prop
  | quoted {v s : List Nat} : Quoted v s → LocalPart o v s
  | dotAtom {v s : List Nat} : DotAtom o v s → LocalPart o v s

/-- `addr-spec`. -/
inductive AddrSpec (o : Opts) : List Nat → List Nat → List Nat → Prop
  | mk {l d s t w : List Nat} : LocalPart o l s → Blanks w → DotAtom o d t → AddrSpec o l d (s ++ [64] ++ w ++ t)

/-- `mailbox`: an address with or without a name in front of it, and blanks around it. -/
inductive Address (o : Opts) : Addr → List Nat → Prop
  | named {n l d p s w w' w'' : List Nat} : Blanks w → Phrase o n p → Blanks w' → AddrSpec o l d s → Blanks w'' →
      (w'' = [] ∨ o.blanksBehind) → Address o ⟨some n, l, d⟩ (w ++ p ++ [60] ++ w' ++ s ++ [62] ++ w'')
  | angle {l d s w w' w'' : List Nat} : Blanks w → Blanks w' → AddrSpec o l d s → Blanks w'' →
      (w'' = [] ∨ o.blanksBehind) → Address o ⟨none, l, d⟩ (w ++ [60] ++ w' ++ s ++ [62] ++ w'')
  | plain {l d s w : List Nat} : Blanks w → AddrSpec o l d s → Address o ⟨none, l, d⟩ (w ++ s)

/-- `mailbox-list`. -/
inductive Addresses (o : Opts) : List Addr → List Nat → Prop
  | one {a : Addr} {s : List Nat} : Address o a s → Addresses o [a] s
  | cons {a : Addr} {as : List Addr} {s t : List Nat} : Address o a s → Addresses o as t → Addresses o (a :: as) (s ++ [44] ++ t)

/-- The end of a line. -/
def Newline (s : List Nat) : Prop := s = [10] ∨ s = [13, 10]

/-- The fields of the header. -/
inductive Field
  | sender (as : List Addr) | to (as : List Addr) | cc (as : List Addr) | subject (t : List Nat)

/-- Which field it is. -/
def Field.kind : Field → Nat
  | .sender _ => 0
  | .to _ => 1
  | .cc _ => 2
  | .subject _ => 3

/-- What it says. -/
def Field.set : Field → Msg → Msg
  | .sender as, m => { m with sender := as }
  | .to as, m => { m with to := as }
  | .cc as, m => { m with cc := as }
  | .subject t, m => { m with subject := t }

/-- A line of the header. -/
inductive Line (o : Opts) : Field → List Nat → Prop
  | sender {as : List Addr} {s nl : List Nat} : Addresses o as s → Newline nl →
      Line o (.sender as) ([70, 114, 111, 109, 58] ++ s ++ nl)
  | to {as : List Addr} {s nl : List Nat} : Addresses o as s → Newline nl → Line o (.to as) ([84, 111, 58] ++ s ++ nl)
  | cc {as : List Addr} {s nl : List Nat} : Addresses o as s → Newline nl → Line o (.cc as) ([67, 99, 58] ++ s ++ nl)
  | subject {t nl : List Nat} : (∀ c ∈ t, Print c) → Newline nl →
      Line o (.subject t) ([83, 117, 98, 106, 101, 99, 116, 58] ++ t ++ nl)

/-- The lines of the header. -/
inductive Lines (o : Opts) : List Field → List Nat → Prop
  | nil : Lines o [] []
  | cons {f : Field} {fs : List Field} {s t : List Nat} : Line o f s → Lines o fs t → Lines o (f :: fs) (s ++ t)

/-- A message: lines of the header, of each kind at most one, an empty line, and the body. -/
inductive Message (o : Opts) : Msg → List Nat → Prop
  | mk {fs : List Field} {h nl b : List Nat} : Lines o fs h → (fs.map Field.kind).Nodup → Newline nl →
      Message o { fs.foldl (fun m f => f.set m) {} with body := b } (h ++ nl ++ b)

end Verif.Spec.Em

namespace Verif.Em

open Verif.Spec.Em

/-! ### Characters -/

theorem isAtext_iff (c : Nat) : isAtext c = true ↔ Atext example_ c := by
  simp only [isAtext, Atext, example_, Bool.or_eq_true, Bool.and_eq_true, decide_eq_true_eq, beq_iff_eq, List.mem_cons,
    List.not_mem_nil, or_false, and_false]
  constructor <;> (intro h; omega)

theorem isBlank_iff (c : Nat) : isBlank c = true ↔ c = 32 ∨ c = 9 := by simp [isBlank]

theorem isPrint_iff (c : Nat) : isPrint c = true ↔ Print c := by simp [isPrint, Print]

theorem atext_not_blank {c : Nat} (h : isAtext c = true) : isBlank c = false := by
  cases hb : isBlank c with
  | false => rfl
  | true => rw [isBlank_iff] at hb; rcases hb with rfl | rfl <;> exact absurd h (by decide)

/-- What may be behind a word, an atom and so on: nothing that belongs to it. -/
def Stop (r : List Nat) : Prop := ∀ c, r.head? = some c → isBlank c = false ∧ isAtext c = false ∧ c ≠ 46 ∧ c ≠ 34

/-- No blank. -/
def NB (r : List Nat) : Prop := ∀ c, r.head? = some c → isBlank c = false

theorem dropWhile_append {p : Nat → Bool} {a r : List Nat} (ha : ∀ c ∈ a, p c = true) (hr : ∀ c, r.head? = some c → p c = false) :
    (a ++ r).dropWhile p = r ∧ (a ++ r).takeWhile p = a := by
  induction a with
  | nil => cases r with
    | nil => simp
    | cons c r => have := hr c rfl; simp [this]
  | cons c a ih =>
    have h1 := ha c (by simp)
    have := ih fun d hd => ha d (by simp [hd])
    simp [h1, this]

theorem takeWhile_all {p : Nat → Bool} (s : List Nat) : ∀ c ∈ s.takeWhile p, p c = true := by
  induction s with
  | nil => simp
  | cons c s ih =>
    intro d hd
    cases h : p c with
    | false => simp [h] at hd
    | true =>
      simp only [List.takeWhile_cons, h, if_true, List.mem_cons] at hd
      rcases hd with rfl | hd
      · exact h
      · exact ih d hd

theorem dropWhile_head {p : Nat → Bool} (s : List Nat) : ∀ c, (s.dropWhile p).head? = some c → p c = false := by
  induction s with
  | nil => simp
  | cons c s ih =>
    intro d hd
    cases h : p c with
    | false => simp [h] at hd; subst hd; exact h
    | true => simp [h] at hd; exact ih d hd

theorem ws_append {w r : List Nat} (hw : Blanks w) (hr : NB r) : ws (w ++ r) = r :=
  (dropWhile_append (fun c hc => (isBlank_iff c).2 (hw c hc)) hr).1

theorem ws_sound (s : List Nat) : ∃ w, Blanks w ∧ s = w ++ ws s ∧ NB (ws s) :=
  ⟨s.takeWhile isBlank, fun c hc => (isBlank_iff c).1 (takeWhile_all s c hc), (List.takeWhile_append_dropWhile).symm, dropWhile_head s⟩

theorem NB.of_cons {c : Nat} {r : List Nat} (h : isBlank c = false) : NB (c :: r) := by
  intro d hd; simp at hd; subst hd; exact h

theorem Stop.nb {r : List Nat} (h : Stop r) : NB r := fun c hc => (h c hc).1

/-- Blanks and what follows do not begin with a character of an atom. -/
theorem blanks_head {w r : List Nat} (hw : Blanks w) (hr : ∀ c, r.head? = some c → isAtext c = false) :
    ∀ c, (w ++ r).head? = some c → isAtext c = false := by
  cases w with
  | nil => simpa using hr
  | cons d w =>
    intro c hc
    simp at hc; subst hc
    rcases hw d (by simp) with rfl | rfl <;> rfl

theorem atom_append {a w r : List Nat} (ha : Atom example_ a) (hw : Blanks w) (hr : NB r)
    (hr' : ∀ c, (w ++ r).head? = some c → isAtext c = false) : atom (a ++ (w ++ r)) = some (a, r) := by
  obtain ⟨h1, h2⟩ := dropWhile_append (p := isAtext) (fun c hc => (isAtext_iff c).2 (ha.2 c hc)) hr'
  rw [atom, h2, h1, if_neg ha.1, ws_append hw hr]

theorem atom_sound {s a r : List Nat} (h : atom s = some (a, r)) :
    ∃ w, Atom example_ a ∧ Blanks w ∧ s = a ++ (w ++ r) ∧ NB r ∧ ∀ c, (w ++ r).head? = some c → isAtext c = false := by
  unfold atom at h
  split at h
  · cases h
  · rename_i hne
    simp only [Option.some.injEq, Prod.mk.injEq] at h
    obtain ⟨rfl, rfl⟩ := h
    obtain ⟨w, hw, e, hn⟩ := ws_sound (s.dropWhile isAtext)
    refine ⟨w, ⟨hne, fun c hc => (isAtext_iff c).1 (takeWhile_all s c hc)⟩, hw, ?_, hn, ?_⟩
    · rw [← e, List.takeWhile_append_dropWhile]
    · rw [← e]; exact dropWhile_head s

/-! ### Dotted atoms -/

theorem dotAtom_ne {o : Opts} {v s : List Nat} (h : DotAtom o v s) : ∃ c t, s = c :: t ∧ Atext o c := by
  have : ∀ {a : List Nat}, Atom o a → ∀ t, ∃ c t', a ++ t = c :: t' ∧ Atext o c := by
    intro a ha t
    cases a with
    | nil => exact absurd rfl ha.1
    | cons c a => exact ⟨c, a ++ t, rfl, ha.2 c (by simp)⟩
  cases h with
  | one ha _ => exact this ha _
  | cons ha _ _ _ => rw [List.append_assoc, List.append_assoc, List.append_assoc]; exact this ha _

theorem nb_of_atext {c : Nat} {t : List Nat} (h : Atext example_ c) : NB (c :: t) :=
  NB.of_cons (atext_not_blank ((isAtext_iff c).2 h))

theorem dotAtom_append {v s : List Nat} (h : DotAtom example_ v s) : ∀ (n : Nat) (r : List Nat), Stop r → s.length < n →
    dotAtom n (s ++ r) = some (v, r) := by
  induction h with
  | @one a w ha hw =>
    intro n r hr hn
    obtain ⟨n, rfl⟩ : ∃ m, n = m + 1 := ⟨n - 1, by omega⟩
    have h1 := atom_append ha hw hr.nb (blanks_head hw fun c hc => (hr c hc).2.1)
    have h2 : ¬ r.head? = some 46 := fun hc => (hr 46 hc).2.2.1 rfl
    simp [dotAtom, h1, h2]
  | @cons a w w' v s ha hw hw' hd ih =>
    intro n r hr hn
    obtain ⟨n, rfl⟩ : ∃ m, n = m + 1 := ⟨n - 1, by omega⟩
    have h1 : atom (a ++ (w ++ (46 :: (w' ++ (s ++ r))))) = some (a, 46 :: (w' ++ (s ++ r))) :=
      atom_append ha hw (NB.of_cons rfl) (blanks_head hw fun c hc => by simp at hc; subst hc; rfl)
    have hnb : NB (s ++ r) := by
      obtain ⟨c, t, rfl, hc⟩ := dotAtom_ne hd
      exact nb_of_atext hc
    have h2 := ws_append hw' hnb
    have h3 := ih n r hr (by simp only [List.length_append, List.length_singleton] at hn; omega)
    simp [dotAtom, h1, h2, h3]

theorem dotAtom_sound : ∀ (n : Nat) {s v r : List Nat}, dotAtom n s = some (v, r) →
    ∃ t, s = t ++ r ∧ DotAtom example_ v t ∧ NB r
  | 0, _, _, _, h => by cases h
  | n + 1, s, v, r, h => by
    rw [dotAtom] at h
    cases ha : atom s with
    | none => simp [ha] at h
    | some x =>
      obtain ⟨a, q⟩ := x
      obtain ⟨w, hA, hw, rfl, hn, -⟩ := atom_sound ha
      simp only [ha, Option.bind_some] at h
      split at h
      · rename_i hc
        cases q with
        | nil => simp at hc
        | cons c q =>
          simp at hc; subst hc
          cases hd : dotAtom n (ws q) with
          | none => simp [hd] at h
          | some y =>
            obtain ⟨v', r'⟩ := y
            simp only [List.tail_cons, hd, Option.map_some, Option.some.injEq, Prod.mk.injEq] at h
            obtain ⟨rfl, rfl⟩ := h
            obtain ⟨t, e, hD, hn'⟩ := dotAtom_sound n hd
            obtain ⟨w', hw', e', -⟩ := ws_sound q
            refine ⟨a ++ w ++ [46] ++ w' ++ t, ?_, .cons hA hw hw' hD, hn'⟩
            rw [e', e]; simp
      · simp only [Option.some.injEq, Prod.mk.injEq] at h
        obtain ⟨rfl, rfl⟩ := h
        exact ⟨a ++ w, by simp, .one hA hw, hn⟩

/-! ### Quoted strings -/

theorem qtext_append {v s : List Nat} (h : QText v s) (r : List Nat) : qtext (s ++ 34 :: r) = some (v, r) := by
  induction h with
  | nil => cases r <;> simp [qtext]
  | @char c v s hp h1 h2 _ ih =>
    obtain ⟨d, t, e⟩ : ∃ d t, s ++ 34 :: r = d :: t := by
      cases s with
      | nil => exact ⟨_, _, rfl⟩
      | cons d s => exact ⟨_, _, rfl⟩
    rw [List.cons_append, e, qtext, if_neg h1, if_neg h2, if_pos ((isPrint_iff c).2 hp), ← e, ih]
    rfl
  | @esc c v s hp _ ih =>
    rw [List.cons_append, List.cons_append, qtext, if_neg (by omega), if_pos rfl, if_pos ((isPrint_iff c).2 hp), ih]
    rfl

theorem qtext_sound : ∀ (s : List Nat) {v r : List Nat}, qtext s = some (v, r) → ∃ t, s = t ++ 34 :: r ∧ QText v t
  | [], v, r, h => by cases h
  | [c], v, r, h => by
    rw [qtext] at h
    split at h
    · rename_i hc
      simp at h; obtain ⟨rfl, rfl⟩ := h; exact ⟨[], by simp [hc], .nil⟩
    · cases h
  | c :: d :: s, v, r, h => by
    rw [qtext] at h
    split at h
    · rename_i hc
      simp at h; obtain ⟨rfl, rfl⟩ := h; exact ⟨[], by simp [hc], .nil⟩
    · rename_i h1
      split at h
      · rename_i h2
        split at h
        · rename_i hp
          cases hq : qtext s with
          | none => simp [hq] at h
          | some x =>
            obtain ⟨v', r'⟩ := x
            simp [hq] at h
            obtain ⟨rfl, rfl⟩ := h
            obtain ⟨t, rfl, ht⟩ := qtext_sound s hq
            exact ⟨92 :: d :: t, by simp [h2], .esc ((isPrint_iff d).1 hp) ht⟩
        · cases h
      · rename_i h2
        split at h
        · rename_i hp
          cases hq : qtext (d :: s) with
          | none => simp [hq] at h
          | some x =>
            obtain ⟨v', r'⟩ := x
            simp [hq] at h
            obtain ⟨rfl, rfl⟩ := h
            obtain ⟨t, e, ht⟩ := qtext_sound (d :: s) hq
            exact ⟨c :: t, by simp [e], .char ((isPrint_iff c).1 hp) h1 h2 ht⟩
        · cases h

theorem quoted_append {v s : List Nat} (h : Quoted v s) {r : List Nat} (hr : NB r) :
    ∃ t, s = 34 :: t ∧ quoted (t ++ r) = some (v, r) := by
  cases h with
  | @mk s w hq hw =>
    refine ⟨s ++ [34] ++ w, by simp, ?_⟩
    have := qtext_append hq (w ++ r)
    rw [quoted, show s ++ [34] ++ w ++ r = s ++ 34 :: (w ++ r) by simp, this]
    simp [ws_append hw hr]

theorem quoted_sound {s v r : List Nat} (h : quoted s = some (v, r)) : ∃ t, 34 :: s = t ++ r ∧ Quoted v t ∧ NB r := by
  unfold quoted at h
  cases hq : qtext s with
  | none => simp [hq] at h
  | some x =>
    obtain ⟨v', q⟩ := x
    simp [hq] at h
    obtain ⟨rfl, rfl⟩ := h
    obtain ⟨t, rfl, ht⟩ := qtext_sound s hq
    obtain ⟨w, hw, e, hn⟩ := ws_sound q
    exact ⟨_, by rw (occs := .pos [1]) [e]; simp, .mk ht hw, hn⟩

/-! ### Words and phrases -/

theorem quoted_head {v s : List Nat} (h : Quoted v s) : ∃ t, s = 34 :: t := by
  cases h with
  | @mk s w _ _ => exact ⟨s ++ [34] ++ w, by simp⟩

/-- A word, if it is not followed by more of it. -/
theorem word_append {v s r : List Nat} (h : Word example_ v s) (hr : NB r)
    (hb : Border example_ s r) : word (s ++ r) = some (v, r) := by
  cases h with
  | @atom w ha hw =>
    have hh : ¬ (v ++ w ++ r).head? = some 34 := by
      cases hv : v with
      | nil => exact absurd hv ha.1
      | cons c a =>
        intro hc
        simp at hc
        have h1 := (isAtext_iff c).2 (ha.2 c (by simp [hv]))
        rw [hc] at h1
        exact absurd h1 (by decide)
    have : ∀ c, (w ++ r).head? = some c → isAtext c = false := by
      cases w with
      | nil =>
        intro c hc
        cases hx : isAtext c with
        | false => rfl
        | true =>
          cases hl : v.getLast? with
          | none => rw [List.getLast?_eq_none_iff] at hl; exact absurd hl ha.1
          | some d =>
            exact absurd ⟨ha.2 d (List.mem_of_getLast? hl), (isAtext_iff c).1 hx⟩ (hb d c (by simpa using hl) (by simpa using hc))
      | cons d w =>
        intro c hc
        simp at hc; subst hc
        rcases hw d (by simp) with rfl | rfl <;> rfl
    rw [word, if_neg hh, List.append_assoc, atom_append ha hw hr this]
  | quoted hq =>
    obtain ⟨t, rfl, e⟩ := quoted_append hq hr
    simp [word, e]

theorem word_sound {s v r : List Nat} (h : word s = some (v, r)) :
    ∃ t, s = t ++ r ∧ Word example_ v t ∧ NB r ∧ Border example_ t r := by
  unfold word at h
  split at h
  · rename_i hc
    cases s with
    | nil => simp at hc
    | cons c s =>
      simp at hc; subst hc
      obtain ⟨t, e, hq, hn⟩ := quoted_sound h
      refine ⟨t, e, .quoted hq, hn, ?_⟩
      intro c d hc hd ⟨hA, _⟩
      cases hq with
      | @mk s w _ hw =>
        cases hl : w.getLast? with
        | none =>
          rw [List.getLast?_eq_none_iff] at hl; subst hl
          rw [List.append_nil, List.getLast?_append] at hc
          simp at hc; subst hc
          exact absurd ((isAtext_iff 34).2 hA) (by decide)
        | some x =>
          rw [List.getLast?_append, hl] at hc
          simp at hc; subst hc
          have := (isAtext_iff x).2 hA
          rcases hw x (List.mem_of_getLast? hl) with rfl | rfl <;> exact absurd this (by decide)
  · obtain ⟨w, hA, hw, rfl, hn, hx⟩ := atom_sound h
    refine ⟨v ++ w, by simp, .atom hA hw, hn, ?_⟩
    intro c d hc hd ⟨hC, hD⟩
    cases w with
    | nil =>
      have := hx d (by simpa using hd)
      rw [(isAtext_iff d).2 hD] at this
      cases this
    | cons y w =>
      have : c ∈ y :: w := by
        rw [List.getLast?_append] at hc
        cases hl : (y :: w).getLast? with
        | none => rw [List.getLast?_eq_none_iff] at hl; cases hl
        | some z => rw [hl] at hc; simp at hc; subst hc; exact List.mem_of_getLast? hl
      have hC' := (isAtext_iff c).2 hC
      rcases hw c this with rfl | rfl <;> exact absurd hC' (by decide)

theorem word_starts {v s : List Nat} (h : Word example_ v s) (r : List Nat) : startsWord (s ++ r) = true ∧ 0 < s.length := by
  cases h with
  | @atom w ha hw =>
    cases hv : v with
    | nil => exact absurd hv ha.1
    | cons c a => simp [startsWord, (isAtext_iff c).2 (ha.2 c (by simp [hv]))]
  | quoted hq => obtain ⟨t, rfl⟩ := quoted_head hq; simp [startsWord]

theorem phrase_starts {v s : List Nat} (h : Phrase example_ v s) (r : List Nat) : startsWord (s ++ r) = true := by
  cases h with
  | one hw => exact (word_starts hw r).1
  | cons hw _ _ _ => rw [List.append_assoc]; exact (word_starts hw _).1

theorem starts_nb {s : List Nat} (h : startsWord s = true) : NB s := by
  intro c hc
  simp only [startsWord, hc, Bool.or_eq_true, beq_iff_eq] at h
  rcases h with h | rfl
  · exact atext_not_blank h
  · rfl

theorem stop_starts {r : List Nat} (h : Stop r) : startsWord r = false := by
  unfold startsWord
  split
  · rename_i c hc
    have := h c hc
    simp [this]
  · rfl

theorem stop_border {r s : List Nat} (h : Stop r) : Border example_ s r := by
  intro c d _ hd ⟨_, hD⟩
  have := (h d hd).2.1
  rw [(isAtext_iff d).2 hD] at this
  cases this

theorem phrase_append {v s : List Nat} (h : Phrase example_ v s) : ∀ (n : Nat) (r : List Nat), Stop r → s.length < n →
    phrase n (s ++ r) = some (v, r) := by
  induction h with
  | one hw =>
    intro n r hr hn
    obtain ⟨n, rfl⟩ : ∃ m, n = m + 1 := ⟨n - 1, by omega⟩
    simp [phrase, word_append hw hr.nb (stop_border hr), stop_starts hr]
  | @cons v v' s s' hw hp hb _ ih =>
    intro n r hr hn
    obtain ⟨n, rfl⟩ : ∃ m, n = m + 1 := ⟨n - 1, by omega⟩
    have h1 := phrase_starts hp r
    have h2 : Border example_ s (s' ++ r) := by
      intro c d hc hd
      have hne : s' ≠ [] := by
        intro h0; subst h0
        have := phrase_starts hp []
        simp [startsWord] at this
      cases s' with
      | nil => exact absurd rfl hne
      | cons y s' => exact hb c d hc (by simpa using hd)
    have h3 := (word_starts hw []).2
    rw [List.length_append] at hn
    rw [List.append_assoc]
    simp [phrase, word_append hw (starts_nb h1) h2, h1, ih n r hr (by omega), example_]

theorem phrase_sound : ∀ (n : Nat) {s v r : List Nat}, phrase n s = some (v, r) →
    ∃ t, s = t ++ r ∧ Phrase example_ v t ∧ NB r ∧ startsWord r = false
  | 0, _, _, _, h => by cases h
  | n + 1, s, v, r, h => by
    rw [phrase] at h
    cases hw : word s with
    | none => simp [hw] at h
    | some x =>
      obtain ⟨a, q⟩ := x
      obtain ⟨t, rfl, hW, hn, hb⟩ := word_sound hw
      simp only [hw, Option.bind_some] at h
      split at h
      · rename_i hs
        cases hp : phrase n q with
        | none => simp [hp] at h
        | some y =>
          obtain ⟨v', r'⟩ := y
          simp only [hp, Option.map_some, Option.some.injEq, Prod.mk.injEq] at h
          obtain ⟨rfl, rfl⟩ := h
          obtain ⟨t', rfl, hP, hn', hs'⟩ := phrase_sound n hp
          have hb' : Border example_ t t' := by
            intro c d hc hd
            refine hb c d hc ?_
            cases t' with
            | nil => simp at hd
            | cons y t' => simpa using hd
          have := Phrase.cons hW hP hb' trivial
          refine ⟨t ++ t', by simp, ?_, hn', hs'⟩
          simpa [example_] using this
      · rename_i hs
        simp only [Option.some.injEq, Prod.mk.injEq] at h
        obtain ⟨rfl, rfl⟩ := h
        exact ⟨t, rfl, .one hW, hn, by simpa using hs⟩

/-! ### Addresses -/

theorem localPart_append {v s r : List Nat} (h : LocalPart example_ v s) (hr : Stop r) : localPart (s ++ r) = some (v, r) := by
  cases h with
  | quoted hq =>
    obtain ⟨t, rfl, e⟩ := quoted_append hq hr.nb
    simp [localPart, e]
  | dotAtom hd =>
    have h1 := dotAtom_append hd ((s ++ r).length + 1) r hr (by simp; omega)
    obtain ⟨c, t, rfl, hc⟩ := dotAtom_ne hd
    have hh : ¬ (c :: t ++ r).head? = some 34 := by
      intro hx
      simp at hx
      subst hx
      exact absurd ((isAtext_iff 34).2 hc) (by decide)
    rw [localPart, if_neg hh, h1]

theorem localPart_sound {s v r : List Nat} (h : localPart s = some (v, r)) : ∃ t, s = t ++ r ∧ LocalPart example_ v t ∧ NB r := by
  unfold localPart at h
  split at h
  · rename_i hc
    cases s with
    | nil => simp at hc
    | cons c s =>
      simp at hc; subst hc
      obtain ⟨t, e, hq, hn⟩ := quoted_sound h
      exact ⟨t, e, .quoted hq, hn⟩
  · obtain ⟨t, e, hd, hn⟩ := dotAtom_sound _ h
    exact ⟨t, e, .dotAtom hd, hn⟩

theorem stop_cons {c : Nat} {r : List Nat} (h1 : isBlank c = false) (h2 : isAtext c = false) (h3 : c ≠ 46) (h4 : c ≠ 34) : Stop (c :: r) := by
  intro d hd; simp at hd; subst hd; exact ⟨h1, h2, h3, h4⟩

theorem addrSpec_append {l d s r : List Nat} (h : AddrSpec example_ l d s) (hr : Stop r) : addrSpec (s ++ r) = some ((l, d), r) := by
  cases h with
  | @mk s t w hl hw hd =>
    have hnb : NB (t ++ r) := by
      obtain ⟨c, t', rfl, hc⟩ := dotAtom_ne hd
      exact nb_of_atext hc
    have h1 : localPart (s ++ 64 :: (w ++ (t ++ r))) = some (l, 64 :: (w ++ (t ++ r))) :=
      localPart_append hl (stop_cons rfl rfl (by omega) (by omega))
    have h2 := ws_append hw hnb
    have h3 := dotAtom_append hd ((64 :: (w ++ (t ++ r))).length + 1) r hr (by simp; omega)
    have e : s ++ [64] ++ w ++ t ++ r = s ++ 64 :: (w ++ (t ++ r)) := by simp
    rw [e, addrSpec, h1, Option.bind_some]
    simp only [List.head?_cons, if_true, List.tail_cons, h2, h3, Option.map_some]

theorem addrSpec_sound {s l d r : List Nat} (h : addrSpec s = some ((l, d), r)) : ∃ t, s = t ++ r ∧ AddrSpec example_ l d t ∧ NB r := by
  unfold addrSpec at h
  cases hl : localPart s with
  | none => simp [hl] at h
  | some x =>
    obtain ⟨l', q⟩ := x
    obtain ⟨t, rfl, hL, -⟩ := localPart_sound hl
    simp only [hl, Option.bind_some] at h
    split at h
    · rename_i hc
      cases q with
      | nil => simp at hc
      | cons c q =>
        simp at hc; subst hc
        rw [List.tail_cons] at h
        cases hd : dotAtom ((64 :: q).length + 1) (ws q) with
        | none => simp only [hd, Option.map_none] at h; cases h
        | some y =>
          obtain ⟨d', r'⟩ := y
          simp only [hd, Option.map_some, Option.some.injEq, Prod.mk.injEq] at h
          obtain ⟨⟨rfl, rfl⟩, rfl⟩ := h
          obtain ⟨t', e, hD, hn⟩ := dotAtom_sound _ hd
          obtain ⟨w, hw, e', -⟩ := ws_sound q
          refine ⟨t ++ [64] ++ w ++ t', ?_, .mk hL hw hD, hn⟩
          rw [e', e]; simp
    · cases h

/-- An address specification begins with a word, and there is a period or an at sign behind it. -/
theorem addrSpec_phrase {l d s : List Nat} (h : AddrSpec example_ l d s) (r : List Nat) :
    ∃ v c q, optPhrase (s ++ r) = some (some v, c :: q) ∧ c ≠ 60 := by
  have key : ∀ {v t : List Nat} {c : Nat} {q : List Nat}, Word example_ v t → c = 46 ∨ c = 64 →
      optPhrase (t ++ c :: q) = some (some v, c :: q) := by
    intro v t c q hw hc
    have hn : NB (c :: q) := NB.of_cons (by rcases hc with rfl | rfl <;> rfl)
    have hb : Border example_ t (c :: q) := by
      intro x y _ hy ⟨_, hY⟩
      simp at hy; subst hy
      have := (isAtext_iff c).2 hY
      rcases hc with rfl | rfl <;> exact absurd this (by decide)
    have h1 := word_append hw hn hb
    have h2 := (word_starts hw (c :: q)).1
    have h3 : startsWord (c :: q) = false := by rcases hc with rfl | rfl <;> rfl
    simp [optPhrase, h2, phrase, h1, h3]
  cases h with
  | @mk s t w hl hw hd =>
    have e : ∀ x, x ++ [64] ++ w ++ t ++ r = x ++ 64 :: (w ++ (t ++ r)) := by simp
    rw [e]
    cases hl with
    | quoted hq => exact ⟨_, _, _, key (.quoted hq) (.inr rfl), by omega⟩
    | dotAtom hd =>
      cases hd with
      | one ha hw' => exact ⟨_, _, _, key (.atom ha hw') (.inr rfl), by omega⟩
      | @cons a w1 w2 v s' ha hw1 hw2 hd =>
        have e2 : a ++ w1 ++ [46] ++ w2 ++ s' ++ 64 :: (w ++ (t ++ r)) = (a ++ w1) ++ 46 :: (w2 ++ (s' ++ 64 :: (w ++ (t ++ r)))) := by simp
        rw [e2]
        exact ⟨_, _, _, key (.atom ha hw1) (.inl rfl), by omega⟩

theorem localPart_nb {l s : List Nat} (h : LocalPart example_ l s) (r : List Nat) : NB (s ++ r) := by
  cases h with
  | quoted hq => obtain ⟨t, rfl⟩ := quoted_head hq; exact NB.of_cons rfl
  | dotAtom hd => obtain ⟨c, t, rfl, hc⟩ := dotAtom_ne hd; exact nb_of_atext hc

theorem addrSpec_nb {l d s : List Nat} (h : AddrSpec example_ l d s) (r : List Nat) : NB (s ++ r) := by
  cases h with
  | mk hl _ _ => rw [List.append_assoc, List.append_assoc, List.append_assoc]; exact localPart_nb hl _

theorem address_append {a : Addr} {s r : List Nat} (h : Address example_ a s) (hr : Stop r) : address (s ++ r) = some (a, r) := by
  cases h with
  | @named n l d p s w w' w'' hw hp hw' hs hw'' hb =>
    have hb : w'' = [] := hb.resolve_right (by simp [example_])
    subst hb
    have e : w ++ p ++ [60] ++ w' ++ s ++ [62] ++ [] ++ r = w ++ (p ++ 60 :: (w' ++ (s ++ 62 :: r))) := by simp
    have st : Stop (60 :: (w' ++ (s ++ 62 :: r))) := stop_cons rfl rfl (by omega) (by omega)
    have h0 := phrase_starts hp (60 :: (w' ++ (s ++ 62 :: r)))
    have h1 := ws_append hw (starts_nb h0)
    have h2 := phrase_append hp ((p ++ 60 :: (w' ++ (s ++ 62 :: r))).length + 1) _ st (by simp; omega)
    have h3 := ws_append hw' (addrSpec_nb hs (62 :: r))
    have h4 := addrSpec_append hs (r := 62 :: r) (stop_cons rfl rfl (by omega) (by omega))
    rw [e, address, h1, optPhrase, if_pos h0, h2]
    simp [h3, h4]
  | @angle l d s w w' w'' hw hw' hs hw'' hb =>
    have hb : w'' = [] := hb.resolve_right (by simp [example_])
    subst hb
    have e : w ++ [60] ++ w' ++ s ++ [62] ++ [] ++ r = w ++ (60 :: (w' ++ (s ++ 62 :: r))) := by simp
    have h1 : ws (w ++ (60 :: (w' ++ (s ++ 62 :: r)))) = 60 :: (w' ++ (s ++ 62 :: r)) := ws_append hw (NB.of_cons rfl)
    have h3 := ws_append hw' (addrSpec_nb hs (62 :: r))
    have h4 := addrSpec_append hs (r := 62 :: r) (stop_cons rfl rfl (by omega) (by omega))
    have h0 : startsWord (60 :: (w' ++ (s ++ 62 :: r))) = false := rfl
    rw [e, address, h1, optPhrase, h0]
    simp [h3, h4]
  | @plain l d s w hw hs =>
    obtain ⟨v, c, q, e1, hc⟩ := addrSpec_phrase hs r
    have h1 := ws_append hw (addrSpec_nb hs r)
    rw [List.append_assoc, address, h1, e1]
    simp [hc, addrSpec_append hs hr]

theorem address_sound {s r : List Nat} {a : Addr} (h : address s = some (a, r)) : ∃ t, s = t ++ r ∧ Address example_ a t := by
  unfold address at h
  obtain ⟨w, hw, e, -⟩ := ws_sound s
  cases ho : optPhrase (ws s) with
  | none => simp [ho] at h
  | some x =>
    obtain ⟨name, q⟩ := x
    simp only [ho, Option.bind_some] at h
    split at h
    · rename_i hc
      cases q with
      | nil => simp at hc
      | cons c q =>
        simp at hc; subst hc
        rw [List.tail_cons] at h
        cases hs : addrSpec (ws q) with
        | none => simp [hs] at h
        | some y =>
          obtain ⟨⟨l, d⟩, z⟩ := y
          simp only [hs, Option.bind_some] at h
          split at h
          · rename_i hz
            cases z with
            | nil => simp at hz
            | cons c z =>
              simp at hz; subst hz
              simp only [List.tail_cons, Option.some.injEq, Prod.mk.injEq] at h
              obtain ⟨rfl, rfl⟩ := h
              obtain ⟨t, et, hS, -⟩ := addrSpec_sound hs
              obtain ⟨w', hw', e', -⟩ := ws_sound q
              unfold optPhrase at ho
              split at ho
              · cases hp : phrase ((ws s).length + 1) (ws s) with
                | none => simp [hp] at ho
                | some y =>
                  obtain ⟨v, y⟩ := y
                  simp [hp] at ho
                  obtain ⟨rfl, rfl⟩ := ho
                  obtain ⟨p, ep, hP, -⟩ := phrase_sound _ hp
                  refine ⟨w ++ p ++ [60] ++ w' ++ t ++ [62] ++ [], ?_, .named hw hP hw' hS (by simp [Blanks]) (.inl rfl)⟩
                  rw [e, ep, e', et]; simp
              · simp only [Option.some.injEq, Prod.mk.injEq] at ho
                obtain ⟨rfl, eq⟩ := ho
                refine ⟨w ++ [60] ++ w' ++ t ++ [62] ++ [], ?_, .angle hw hw' hS (by simp [Blanks]) (.inl rfl)⟩
                rw [e, eq, e', et]; simp
          · cases h
    · cases hs : addrSpec (ws s) with
      | none => simp [hs] at h
      | some y =>
        obtain ⟨⟨l, d⟩, z⟩ := y
        simp only [hs, Option.map_some, Option.some.injEq, Prod.mk.injEq] at h
        obtain ⟨rfl, rfl⟩ := h
        obtain ⟨t, et, hS, -⟩ := addrSpec_sound hs
        refine ⟨w ++ t, ?_, .plain hw hS⟩
        rw [e, et]; simp

/-! ### Lists of addresses -/

theorem addressList_append {as : List Addr} {s : List Nat} (h : Addresses example_ as s) : ∀ (n : Nat) (r : List Nat), Stop r →
    r.head? ≠ some 44 → s.length < n → addressList n (s ++ r) = some (as, r) := by
  induction h with
  | one ha =>
    intro n r hr hc hn
    obtain ⟨n, rfl⟩ : ∃ m, n = m + 1 := ⟨n - 1, by omega⟩
    simp [addressList, address_append ha hr, hc]
  | @cons a as s t ha has ih =>
    intro n r hr hc hn
    obtain ⟨n, rfl⟩ : ∃ m, n = m + 1 := ⟨n - 1, by omega⟩
    have h1 : address (s ++ 44 :: (t ++ r)) = some (a, 44 :: (t ++ r)) :=
      address_append ha (stop_cons rfl rfl (by omega) (by omega))
    have h2 := ih n r hr hc (by simp at hn; omega)
    rw [show s ++ [44] ++ t ++ r = s ++ 44 :: (t ++ r) by simp]
    simp [addressList, h1, h2]

theorem addressList_sound : ∀ (n : Nat) {s r : List Nat} {as : List Addr}, addressList n s = some (as, r) →
    ∃ t, s = t ++ r ∧ Addresses example_ as t
  | 0, _, _, _, h => by cases h
  | n + 1, s, r, as, h => by
    rw [addressList] at h
    cases ha : address s with
    | none => simp [ha] at h
    | some x =>
      obtain ⟨a, q⟩ := x
      obtain ⟨t, rfl, hA⟩ := address_sound ha
      simp only [ha, Option.bind_some] at h
      split at h
      · rename_i hc
        cases q with
        | nil => simp at hc
        | cons c q =>
          simp at hc; subst hc
          rw [List.tail_cons] at h
          cases hl : addressList n q with
          | none => simp [hl] at h
          | some y =>
            obtain ⟨as', r'⟩ := y
            simp only [hl, Option.map_some, Option.some.injEq, Prod.mk.injEq] at h
            obtain ⟨rfl, rfl⟩ := h
            obtain ⟨t', rfl, hL⟩ := addressList_sound n hl
            exact ⟨t ++ [44] ++ t', by simp, .cons hA hL⟩
      · simp only [Option.some.injEq, Prod.mk.injEq] at h
        obtain ⟨rfl, rfl⟩ := h
        exact ⟨t, rfl, .one hA⟩

/-! ### The header -/

theorem lit_append (p s : List Nat) : lit p (p ++ s) = some s := by
  induction p with
  | nil => rfl
  | cons c p ih => simp [lit, ih]

theorem lit_sound : ∀ {p s r : List Nat}, lit p s = some r → s = p ++ r
  | [], s, r, h => by simpa [lit] using h
  | c :: p, [], r, h => by cases h
  | c :: p, d :: s, r, h => by
    rw [lit] at h
    split at h
    · rename_i e; rw [e, lit_sound h]; rfl
    · cases h

theorem newline_append {nl : List Nat} (h : Newline nl) (r : List Nat) : newline (nl ++ r) = some r := by
  rcases h with rfl | rfl <;> rfl

theorem newline_sound {s r : List Nat} (h : newline s = some r) : ∃ nl, Newline nl ∧ s = nl ++ r := by
  unfold newline at h
  split at h
  · simp at h; subst h; exact ⟨[10], .inl rfl, rfl⟩
  · simp at h; subst h; exact ⟨[13, 10], .inr rfl, rfl⟩
  · cases h

theorem newline_stop {nl : List Nat} (h : Newline nl) (r : List Nat) : Stop (nl ++ r) ∧ (nl ++ r).head? ≠ some 44 := by
  rcases h with rfl | rfl
  · exact ⟨stop_cons rfl rfl (by omega) (by omega), by simp⟩
  · exact ⟨stop_cons rfl rfl (by omega) (by omega), by simp⟩

theorem addressField_append {as : List Addr} {s nl : List Nat} (h : Addresses example_ as s) (hn : Newline nl)
    (set : List Addr → Msg → Msg) (m : Msg) (r : List Nat) : addressField set m (s ++ (nl ++ r)) = some (set as m, r) := by
  obtain ⟨h1, h2⟩ := newline_stop hn r
  rw [addressField, addressList_append h _ _ h1 h2 (by simp; omega)]
  simp only [Option.bind_some, newline_append hn, Option.map_some]

theorem addressField_sound {set : List Addr → Msg → Msg} {m m' : Msg} {s r : List Nat} (h : addressField set m s = some (m', r)) :
    ∃ as t nl, s = t ++ nl ++ r ∧ Addresses example_ as t ∧ Newline nl ∧ m' = set as m := by
  unfold addressField at h
  cases ha : addressList (s.length + 1) s with
  | none => rw [ha] at h; cases h
  | some x =>
    obtain ⟨as, q⟩ := x
    rw [ha, Option.bind_some] at h
    simp only at h
    cases hn : newline q with
    | none => rw [hn] at h; cases h
    | some y =>
      simp only [hn, Option.map_some, Option.some.injEq, Prod.mk.injEq] at h
      obtain ⟨rfl, rfl⟩ := h
      obtain ⟨t, e, hA⟩ := addressList_sound _ ha
      obtain ⟨nl, hN, e'⟩ := newline_sound hn
      exact ⟨as, t, nl, by rw [e, e']; simp, hA, hN, rfl⟩

theorem fieldChoice_append {f : Field} {t : List Nat} (h : Line example_ f t) (m : Msg) (r : List Nat) :
    fieldChoice m (t ++ r) = some (some (f.kind, f.set m, r)) := by
  cases h with
  | @sender as s nl hA hN =>
    have e : ([70, 114, 111, 109, 58] ++ s ++ nl ++ r) = litFrom ++ (s ++ (nl ++ r)) := by simp [litFrom]
    rw [e, fieldChoice, lit_append]
    simp only [addressField_append hA hN, Option.map_some]
    rfl
  | @to as s nl hA hN =>
    have e : ([84, 111, 58] ++ s ++ nl ++ r) = litTo ++ (s ++ (nl ++ r)) := by simp [litTo]
    have h1 : lit litFrom (litTo ++ (s ++ (nl ++ r))) = none := rfl
    rw [e, fieldChoice, h1, lit_append]
    simp only [addressField_append hA hN, Option.map_some]
    rfl
  | @cc as s nl hA hN =>
    have e : ([67, 99, 58] ++ s ++ nl ++ r) = litCc ++ (s ++ (nl ++ r)) := by simp [litCc]
    have h1 : lit litFrom (litCc ++ (s ++ (nl ++ r))) = none := rfl
    have h2 : lit litTo (litCc ++ (s ++ (nl ++ r))) = none := rfl
    rw [e, fieldChoice, h1, h2, lit_append]
    simp only [addressField_append hA hN, Option.map_some]
    rfl
  | @subject x nl hp hN =>
    have e : ([83, 117, 98, 106, 101, 99, 116, 58] ++ x ++ nl ++ r) = litSubject ++ (x ++ (nl ++ r)) := by simp [litSubject]
    have h1 : lit litFrom (litSubject ++ (x ++ (nl ++ r))) = none := rfl
    have h2 : lit litTo (litSubject ++ (x ++ (nl ++ r))) = none := rfl
    have h3 : lit litCc (litSubject ++ (x ++ (nl ++ r))) = none := rfl
    obtain ⟨h4, h5⟩ := dropWhile_append (p := isPrint) (a := x) (r := nl ++ r) (fun c hc => (isPrint_iff c).2 (hp c hc)) (by
      intro c hc
      rcases hN with rfl | rfl <;> (simp at hc; subst hc; rfl))
    rw [e, fieldChoice, h1, h2, h3, lit_append]
    simp only [unstructured, h4, h5, newline_append hN, Option.map_some]
    rfl

theorem fieldChoice_sound {m m' : Msg} {s r : List Nat} {i : Nat} (h : fieldChoice m s = some (some (i, m', r))) :
    ∃ f t, s = t ++ r ∧ Line example_ f t ∧ i = f.kind ∧ m' = f.set m := by
  have addr : ∀ {set : List Addr → Msg → Msg} {q : List Nat} {j : Nat},
      ((addressField set m q).map fun (m, s) => some (j, m, s)) = some (some (i, m', r)) →
      ∃ as t nl, q = t ++ nl ++ r ∧ Addresses example_ as t ∧ Newline nl ∧ m' = set as m ∧ i = j := by
    intro set q j h
    cases ha : addressField set m q with
    | none => rw [ha] at h; cases h
    | some x =>
      obtain ⟨m1, r1⟩ := x
      simp only [ha, Option.map_some, Option.some.injEq, Prod.mk.injEq] at h
      obtain ⟨rfl, rfl, rfl⟩ := h
      obtain ⟨as, t, nl, e, hA, hN, rfl⟩ := addressField_sound ha
      exact ⟨as, t, nl, e, hA, hN, rfl, rfl⟩
  unfold fieldChoice at h
  cases h1 : lit litFrom s with
  | some q =>
    simp only [h1] at h
    obtain ⟨as, t, nl, rfl, hA, hN, rfl, rfl⟩ := addr h
    exact ⟨.sender as, _, by rw [lit_sound h1]; simp [litFrom], .sender hA hN, rfl, rfl⟩
  | none =>
    simp only [h1] at h
    cases h2 : lit litTo s with
    | some q =>
      simp only [h2] at h
      obtain ⟨as, t, nl, rfl, hA, hN, rfl, rfl⟩ := addr h
      exact ⟨.to as, _, by rw [lit_sound h2]; simp [litTo], .to hA hN, rfl, rfl⟩
    | none =>
      simp only [h2] at h
      cases h3 : lit litCc s with
      | some q =>
        simp only [h3] at h
        obtain ⟨as, t, nl, rfl, hA, hN, rfl, rfl⟩ := addr h
        exact ⟨.cc as, _, by rw [lit_sound h3]; simp [litCc], .cc hA hN, rfl, rfl⟩
      | none =>
        simp only [h3] at h
        cases h4 : lit litSubject s with
        | some q =>
          simp only [h4, unstructured] at h
          cases hn : newline (q.dropWhile isPrint) with
          | none => rw [hn] at h; cases h
          | some y =>
            simp only [hn, Option.map_some, Option.some.injEq, Prod.mk.injEq] at h
            obtain ⟨rfl, rfl, rfl⟩ := h
            obtain ⟨nl, hN, e⟩ := newline_sound hn
            refine ⟨.subject (q.takeWhile isPrint), [83, 117, 98, 106, 101, 99, 116, 58] ++ q.takeWhile isPrint ++ nl, ?_,
              .subject (fun c hc => (isPrint_iff c).1 (takeWhile_all q c hc)) hN, rfl, rfl⟩
            have e2 : q.takeWhile isPrint ++ (nl ++ y) = q := by rw [← e, List.takeWhile_append_dropWhile]
            rw [lit_sound h4, List.append_assoc, List.append_assoc, e2]; rfl
        | none => simp only [h4] at h; cases h

theorem fields_append {fs : List Field} {t : List Nat} (h : Lines example_ fs t) : ∀ (n : Nat) (handled : List Nat) (m : Msg)
    (nl r : List Nat), Newline nl → (fs.map Field.kind).Nodup → (∀ f ∈ fs, f.kind ∉ handled) → fs.length ≤ n →
    fields n handled m (t ++ (nl ++ r)) = some (fs.foldl (fun m f => f.set m) m, nl ++ r) := by
  induction h with
  | nil =>
    intro n handled m nl r hN _ _ _
    cases n with
    | zero => rfl
    | succ n =>
      have : fieldChoice m (nl ++ r) = some none := by rcases hN with rfl | rfl <;> rfl
      rw [List.nil_append, fields, this]; rfl
  | @cons f fs s t hf _ ih =>
    intro n handled m nl r hN hnd hh hl
    rw [List.length_cons] at hl
    obtain ⟨n, rfl⟩ : ∃ m, n = m + 1 := ⟨n - 1, by omega⟩
    rw [List.map_cons, List.nodup_cons] at hnd
    have h1 : handled.contains f.kind = false := by
      have := hh f (by simp)
      simpa using this
    rw [List.append_assoc, fields, fieldChoice_append hf]
    simp only [h1, Bool.false_eq_true, if_false]
    rw [ih n (f.kind :: handled) (f.set m) nl r hN hnd.2 ?_ (by omega)]
    · rfl
    · intro g hg hc
      rw [List.mem_cons] at hc
      rcases hc with hc | hc
      · exact hnd.1 (hc ▸ List.mem_map_of_mem hg)
      · exact hh g (by simp [hg]) hc

theorem fields_sound : ∀ (n : Nat) {handled : List Nat} {m m' : Msg} {s r : List Nat}, fields n handled m s = some (m', r) →
    ∃ fs t, s = t ++ r ∧ Lines example_ fs t ∧ (fs.map Field.kind).Nodup ∧ (∀ f ∈ fs, f.kind ∉ handled)
      ∧ m' = fs.foldl (fun m f => f.set m) m
  | 0, handled, m, m', s, r, h => by
    simp [fields] at h
    obtain ⟨rfl, rfl⟩ := h
    exact ⟨[], [], rfl, .nil, by simp, by simp, rfl⟩
  | n + 1, handled, m, m', s, r, h => by
    rw [fields] at h
    cases hc : fieldChoice m s with
    | none => simp [hc] at h
    | some x =>
      cases x with
      | none =>
        simp [hc] at h
        obtain ⟨rfl, rfl⟩ := h
        exact ⟨[], [], rfl, .nil, by simp, by simp, rfl⟩
      | some y =>
        obtain ⟨i, m1, q⟩ := y
        simp only [hc] at h
        split at h
        · cases h
        · rename_i hi
          obtain ⟨f, t, rfl, hf, rfl, rfl⟩ := fieldChoice_sound hc
          obtain ⟨fs, t', rfl, hL, hnd, hh, rfl⟩ := fields_sound n h
          refine ⟨f :: fs, t ++ t', by simp, .cons hf hL, ?_, ?_, rfl⟩
          · rw [List.map_cons, List.nodup_cons]
            refine ⟨fun hm => ?_, hnd⟩
            rw [List.mem_map] at hm
            obtain ⟨g, hg, e⟩ := hm
            exact hh g hg (by simp [e])
          · intro g hg hgh
            rw [List.mem_cons] at hg
            rcases hg with rfl | hg
            · exact hi (by simpa using hgh)
            · exact hh g hg (by simp [hgh])

theorem kinds_le {fs : List Field} (h : (fs.map Field.kind).Nodup) : fs.length ≤ 4 := by
  have hk : ∀ f : Field, f.kind < 4 := by intro f; cases f <;> simp [Field.kind]
  match fs, h with
  | [], _ => simp
  | [_], _ => simp
  | [_, _], _ => simp
  | [_, _, _], _ => simp
  | [_, _, _, _], _ => simp
  | a :: b :: c :: d :: e :: fs, h =>
    simp only [List.map_cons, List.nodup_cons, List.mem_cons, not_or] at h
    have := hk a; have := hk b; have := hk c; have := hk d; have := hk e
    omega

/-! ### The properties -/

/-- **C105** (partial: the text is the one the example is made for, where words of a name have nothing between them, `~` is no
    character of an atom and there are no blanks behind an angle bracket; cf. the refutations) A message is found exactly if the input is
    its text: header lines in any order, each at most once, names, quoted strings and escapes, blanks around the parts, an empty line and
    the body.  Every other input is an error. -/
theorem C105_message_partial (s : List Nat) (m : Msg) : message s = some m ↔ Message example_ m s := by
  constructor
  · intro h
    unfold message at h
    cases hf : fields 4 [] {} s with
    | none => simp [hf] at h
    | some x =>
      obtain ⟨m1, q⟩ := x
      simp only [hf, Option.bind_some] at h
      cases hn : newline q with
      | none => simp [hn] at h
      | some b =>
        simp only [hn, Option.map_some, Option.some.injEq] at h
        subst h
        obtain ⟨fs, t, rfl, hL, hnd, -, rfl⟩ := fields_sound 4 hf
        obtain ⟨nl, hN, rfl⟩ := newline_sound hn
        have := Message.mk (b := b) hL hnd hN
        rwa [List.append_assoc] at this
  · intro h
    cases h with
    | @mk fs t nl b hL hnd hN =>
      have := fields_append hL 4 [] {} nl b hN hnd (by simp) (kinds_le hnd)
      rw [List.append_assoc]
      simp [message, this, newline_append hN]

/-! ### What the example has in common with RFC 5322 -/

section
variable {o o' : Opts} (ho : ¬ o.several) (ht : o.tilde → o'.tilde) (hb : o.blanksBehind → o'.blanksBehind)
include ht

theorem atext_mono {c : Nat} (h : Atext o c) : Atext o' c := by
  unfold Atext at *
  rcases h with h | h | h | h | h
  · exact .inl h
  · exact .inr (.inl h)
  · exact .inr (.inr (.inl h))
  · exact .inr (.inr (.inr (.inl h)))
  · exact .inr (.inr (.inr (.inr ⟨h.1, ht h.2⟩)))

theorem atom_mono {a : List Nat} (h : Atom o a) : Atom o' a := ⟨h.1, fun c hc => atext_mono ht (h.2 c hc)⟩

theorem dotAtom_mono {v s : List Nat} (h : DotAtom o v s) : DotAtom o' v s := by
  induction h with
  | one ha hw => exact .one (atom_mono ht ha) hw
  | cons ha hw hw' _ ih => exact .cons (atom_mono ht ha) hw hw' ih

theorem addrSpec_mono {l d s : List Nat} (h : AddrSpec o l d s) : AddrSpec o' l d s := by
  cases h with
  | mk hl hw hd =>
    refine .mk ?_ hw (dotAtom_mono ht hd)
    cases hl with
    | quoted hq => exact .quoted hq
    | dotAtom hd => exact .dotAtom (dotAtom_mono ht hd)

include ho hb

theorem address_mono {a : Addr} {s : List Nat} (h : Address o a s) : Address o' a s := by
  cases h with
  | named hw hp hw' hs hw'' h0 =>
    refine .named hw ?_ hw' (addrSpec_mono ht hs) hw'' (h0.imp_right hb)
    cases hp with
    | one hx =>
      cases hx with
      | atom ha hw => exact .one (.atom (atom_mono ht ha) hw)
      | quoted hq => exact .one (.quoted hq)
    | cons _ _ _ h => exact absurd h ho
  | angle hw hw' hs hw'' h0 => exact .angle hw hw' (addrSpec_mono ht hs) hw'' (h0.imp_right hb)
  | plain hw hs => exact .plain hw (addrSpec_mono ht hs)

theorem addresses_mono {as : List Addr} {s : List Nat} (h : Addresses o as s) : Addresses o' as s := by
  induction h with
  | one ha => exact .one (address_mono ho ht hb ha)
  | cons ha _ ih => exact .cons (address_mono ho ht hb ha) ih

theorem lines_mono {fs : List Field} {s : List Nat} (h : Lines o fs s) : Lines o' fs s := by
  induction h with
  | nil => exact .nil
  | cons hl _ ih =>
    refine .cons ?_ ih
    cases hl with
    | sender ha hn => exact .sender (addresses_mono ho ht hb ha) hn
    | to ha hn => exact .to (addresses_mono ho ht hb ha) hn
    | cc ha hn => exact .cc (addresses_mono ho ht hb ha) hn
    | subject hp hn => exact .subject hp hn

theorem message_mono {m : Msg} {s : List Nat} (h : Message o m s) : Message o' m s := by
  cases h with
  | mk hl hnd hn => exact .mk (lines_mono ho ht hb hl) hnd hn

end

/-- **C105** (partial: for messages without these differences) The example finds the message RFC 5322 says the text is. -/
theorem C105_rfc_partial {s : List Nat} {m : Msg} (h : Message common m s) : Message rfc m s ∧ message s = some m :=
  ⟨message_mono (by simp [common]) (fun _ => trivial) (fun _ => trivial) h,
    (C105_message_partial s m).2 (message_mono (by simp [common]) (by simp [common]) (by simp [common]) h)⟩

theorem atom_of {o : Opts} {a : List Nat} (h : a ≠ []) (h' : ∀ c ∈ a, isAtext c = true) : Atom o a := by
  refine ⟨h, fun c hc => ?_⟩
  refine atext_mono (o := example_) (fun h => ?_) ((isAtext_iff c).1 (h' c hc))
  simp [example_] at h

/-- `j@d`. -/
theorem addr_jd (o : Opts) : AddrSpec o [106] [100] [106, 64, 100] :=
  .mk (s := [106]) (w := []) (t := [100])
    (.dotAtom (.one (a := [106]) (w := []) (atom_of (by simp) (by decide)) (by simp [Blanks]))) (by simp [Blanks])
    (.one (a := [100]) (w := []) (atom_of (by simp) (by decide)) (by simp [Blanks]))

/-- **C105** (refuted) The words of a name are glued together (email.cpp l.119-124): the header `From:John Doe <j@d>` gives the name
    `JohnDoe`, although the blank between them counts as one space (RFC 5322 section 3.2.2).  The tests of the example expect this. -/
theorem C105_name_refuted :
    Message rfc { sender := [⟨some [74, 111, 104, 110, 32, 68, 111, 101], [106], [100]⟩] }
      [70, 114, 111, 109, 58, 74, 111, 104, 110, 32, 68, 111, 101, 32, 60, 106, 64, 100, 62, 10, 10]
    ∧ message [70, 114, 111, 109, 58, 74, 111, 104, 110, 32, 68, 111, 101, 32, 60, 106, 64, 100, 62, 10, 10]
      = some { sender := [⟨some [74, 111, 104, 110, 68, 111, 101], [106], [100]⟩] } := by
  refine ⟨?_, by decide +kernel⟩
  have hw : Word rfc [74, 111, 104, 110] [74, 111, 104, 110, 32] :=
    .atom (w := [32]) (atom_of (by simp) (by decide)) (by simp [Blanks])
  have hw' : Word rfc [68, 111, 101] [68, 111, 101, 32] := .atom (w := [32]) (atom_of (by simp) (by decide)) (by simp [Blanks])
  have hp : Phrase rfc [74, 111, 104, 110, 32, 68, 111, 101] [74, 111, 104, 110, 32, 68, 111, 101, 32] :=
    .cons hw (.one hw') (by intro c d hc _ h; simp at hc; subst hc; simp [Atext] at h) trivial
  have ha := Address.named (o := rfc) (w := []) (w' := []) (w'' := []) (by simp [Blanks]) hp (by simp [Blanks]) (addr_jd rfc)
    (by simp [Blanks]) (.inl rfl)
  exact .mk (b := []) (.cons (.sender (.one ha) (.inl rfl)) .nil) (by simp) (.inl rfl)

/-- **C105** (refuted) Blanks behind an address in angle brackets are an error (email.cpp l.139-144): the header `From:<j@d> `. -/
theorem C105_blank_refuted :
    Message rfc { sender := [⟨none, [106], [100]⟩] } [70, 114, 111, 109, 58, 60, 106, 64, 100, 62, 32, 10, 10]
    ∧ message [70, 114, 111, 109, 58, 60, 106, 64, 100, 62, 32, 10, 10] = none := by
  refine ⟨?_, by decide +kernel⟩
  have ha := Address.angle (o := rfc) (w := []) (w' := []) (w'' := [32]) (by simp [Blanks]) (by simp [Blanks]) (addr_jd rfc)
    (by simp [Blanks]) (.inr trivial)
  exact .mk (b := []) (.cons (.sender (.one ha) (.inl rfl)) .nil) (by simp) (.inl rfl)

/-- **C105** (refuted) `~` is missing in `atext` (email.cpp l.81-87): the header `From:~@d`. -/
theorem C105_tilde_refuted :
    Message rfc { sender := [⟨none, [126], [100]⟩] } [70, 114, 111, 109, 58, 126, 64, 100, 10, 10]
    ∧ message [70, 114, 111, 109, 58, 126, 64, 100, 10, 10] = none := by
  refine ⟨?_, by decide +kernel⟩
  have hs : AddrSpec rfc [126] [100] [126, 64, 100] :=
    .mk (s := [126]) (w := []) (t := [100])
      (.dotAtom (.one (a := [126]) (w := []) ⟨by simp, by simp [Atext, rfc]⟩ (by simp [Blanks]))) (by simp [Blanks])
      (.one (a := [100]) (w := []) (atom_of (by simp) (by decide)) (by simp [Blanks]))
  have ha := Address.plain (o := rfc) (w := []) (by simp [Blanks]) hs
  exact .mk (b := []) (.cons (.sender (.one ha) (.inl rfl)) .nil) (by simp) (.inl rfl)

/-- `To: "a\"b" <x.y@z>, u@v` and `Subject: hi` with the body `text`; a field twice; no empty line. -/
example : message ([84, 111, 58, 32, 34, 97, 92, 34, 98, 34, 32, 60, 120, 46, 121, 64, 122, 62, 44, 32, 117, 64, 118, 13, 10]
      ++ [83, 117, 98, 106, 101, 99, 116, 58, 32, 104, 105, 10] ++ [10] ++ [116, 101, 120, 116])
      = some { to := [⟨some [97, 34, 98], [120, 46, 121], [122]⟩, ⟨none, [117], [118]⟩], subject := [32, 104, 105],
               body := [116, 101, 120, 116] }
    ∧ message [84, 111, 58, 97, 64, 98, 10, 84, 111, 58, 97, 64, 98, 10, 10] = none
    ∧ message [84, 111, 58, 97, 64, 98, 10] = none ∧ message [10, 97] = some { body := [97] } := by
  refine ⟨?_, ?_, ?_, ?_⟩ <;> decide +kernel

/-- The hypothesis of `C105_rfc_partial` is met by `From:j@d`. -/
example : Message common { sender := [⟨none, [106], [100]⟩], body := [98] } [70, 114, 111, 109, 58, 106, 64, 100, 10, 10, 98] := by
  have ha := Address.plain (o := common) (w := []) (by simp [Blanks]) (addr_jd common)
  exact .mk (b := [98]) (.cons (.sender (.one ha) (.inl rfl)) .nil) (by simp) (.inl rfl)

end Verif.Em
