import Verif.VisualizeProps

/-
Colors: what is written with colors is what is written without colors, and escape sequences in between.
-/

namespace Verif

/-- What a terminal shows: an escape sequence (from ESC to the next `m`) shows nothing. -/
def Spec.shown : Bool → List Nat → List Nat
  | _, [] => []
  | false, c :: l => if c = 0x1B then Spec.shown true l else c :: Spec.shown false l
  | true, c :: l => if c = 0x6D then Spec.shown false l else Spec.shown true l

namespace Vis

/-- `a` is shown as `b`, also in front of something else. -/
def ShownAs (a b : List Nat) : Prop := ∀ r, Spec.shown false (a ++ r) = b ++ Spec.shown false r

namespace ShownAs

theorem nil : ShownAs [] [] := fun _ => rfl

theorem app {a a' b b' : List Nat} (h : ShownAs a a') (h' : ShownAs b b') : ShownAs (a ++ b) (a' ++ b') := by
  intro r
  rw [List.append_assoc, h, h', List.append_assoc]

theorem plain {l : List Nat} (h : ∀ c ∈ l, c ≠ 0x1B) : ShownAs l l := by
  intro r
  induction l with
  | nil => rfl
  | cons c l ih =>
    rw [List.cons_append, Spec.shown, if_neg (h c (by simp)), ih fun d hd => h d (by simp [hd])]
    rfl

theorem ite {c : Prop} [Decidable c] {a a' b b' : List Nat} (h : ShownAs a a') (h' : ShownAs b b') :
    ShownAs (if c then a else b) (if c then a' else b') := by
  split
  · exact h
  · exact h'

theorem iteN {c : Prop} [Decidable c] {a a' b b' : List Nat} (h : ShownAs a a') (h' : ¬ c → ShownAs b b') :
    ShownAs (if c then a else b) (if c then a' else b') := by
  split
  · exact h
  · rename_i hc; exact h' hc

theorem flatten {α : Type} {f g : α → List Nat} (h : ∀ x, ShownAs (f x) (g x)) (l : List α) :
    ShownAs (l.map f).flatten (l.map g).flatten := by
  induction l with
  | nil => exact nil
  | cons x l ih => exact (h x).app ih

theorem eq {a b : List Nat} (h : ShownAs a b) : Spec.shown false a = b := by
  have := h []
  simpa [Spec.shown] using this

theorem shown_skip : ∀ (l : List Nat), (∀ c ∈ l, c ≠ 0x6D) → ∀ r, Spec.shown true (l ++ 0x6D :: r) = Spec.shown false r := by
  intro l
  induction l with
  | nil => intro _ r; simp [Spec.shown]
  | cons c l ih => intro h r; rw [List.cons_append, Spec.shown, if_neg (h c (by simp)), ih fun d hd => h d (by simp [hd])]

/-- A color is not shown. -/
theorem color (o : Opts) (a : Nat) (b : List Nat) (ha : a < 50) (hb : ∀ c ∈ b, c < 50) : ShownAs (color o a b) [] := by
  unfold Vis.color OutIt.color
  cases o.color
  · exact nil
  · have code : ∀ (n : Nat) (s : List Nat), n < 50 → ∃ t, (OutIt.shared.code s () n).1 = s ++ t ∧ ∀ c ∈ t, c ≠ 0x6D := by
      intro n s hn
      unfold OutIt.code
      split
      · exact ⟨[n / 10 + 48, n % 10 + 48], by simp [OutIt.shared], by simp; omega⟩
      · exact ⟨[n + 48], by simp [OutIt.shared], by simp; omega⟩
    have codes : ∀ (b s : List Nat), (∀ c ∈ b, c < 50) → ∃ t, (OutIt.shared.codes s () b).1 = s ++ t ∧ ∀ c ∈ t, c ≠ 0x6D := by
      intro b
      induction b with
      | nil => intro s _; exact ⟨[], by simp [OutIt.codes], by simp⟩
      | cons n b ih =>
        intro s h
        obtain ⟨t, h1, h2⟩ := code n (s ++ [0x3B]) (h n (by simp))
        obtain ⟨u, h3, h4⟩ := ih (s ++ [0x3B] ++ t) fun c hc => h c (by simp [hc])
        refine ⟨0x3B :: (t ++ u), ?_, ?_⟩
        · show (OutIt.shared.codes (OutIt.shared.code (s ++ [0x3B]) () n).1 () b).1 = _
          rw [h1, h3]; simp
        · intro c hc
          simp only [List.mem_cons, List.mem_append] at hc
          rcases hc with rfl | hc | hc
          · decide
          · exact h2 c hc
          · exact h4 c hc
    obtain ⟨t, h1, h2⟩ := code a [0x1B, 0x5B] ha
    obtain ⟨u, h3, h4⟩ := codes b ([0x1B, 0x5B] ++ t) hb
    have : (OutIt.shared.put (OutIt.shared.codes (OutIt.shared.code [0x1B, 0x5B] () a).1 () b).1 () 0x6D).1
        = 0x1B :: (0x5B :: (t ++ u)) ++ [0x6D] := by
      rw [h1, h3]; simp [OutIt.shared]
    intro r
    show Spec.shown false ((OutIt.shared.put (OutIt.shared.codes (OutIt.shared.code [0x1B, 0x5B] () a).1 () b).1 () 0x6D).1 ++ r) = _
    rw [this]
    show Spec.shown true ((0x5B :: (t ++ u)) ++ [0x6D] ++ r) = _
    rw [List.append_assoc]
    refine shown_skip _ (fun c hc => ?_) r
    simp only [List.mem_cons, List.mem_append] at hc
    rcases hc with rfl | hc | hc
    · decide
    · exact h2 c hc
    · exact h4 c hc

variable (o : Opts)

/-- The options without colors. -/
abbrev off (o : Opts) : Opts := { o with color := false }

theorem special (inner : List Nat) (h : ∀ c ∈ inner, c ≠ 0x1B) : ShownAs (special o inner) (special (off o) inner) := by
  have e : ∀ a b, Vis.color (off o) a b = [] := color_off _ rfl
  unfold Vis.special
  rw [e, e]
  refine .app (.app (.app (.app (color o _ _ (by decide) (by decide)) (plain ?_)) (plain h)) (plain ?_)) (color o _ _ (by decide) (by decide))
  · cases o.unicode <;> decide
  · cases o.unicode <;> decide

theorem symbol (l : List Nat) (h : ∀ c ∈ l, c ≠ 0x1B) : ShownAs (symbol o l) (symbol (off o) l) := by
  have e : ∀ a b, Vis.color (off o) a b = [] := color_off _ rfl
  unfold Vis.symbol
  rw [e, e]
  exact .app (.app (color o _ _ (by decide) (by decide)) (plain h)) (color o _ _ (by decide) (by decide))

theorem ascii {l : List Nat} (h : ∀ c ∈ l, 0x20 ≤ c ∧ c ≤ 0x7E) : ∀ c ∈ l, c ≠ 0x1B := fun c hc => by have := h c hc; omega

theorem space : ShownAs (visSpace o) (visSpace (off o)) := by
  unfold visSpace
  exact .ite (.ite (symbol o _ (by decide)) (.ite (special o _ (by decide)) (special o _ (by decide)))) (plain (by decide))

theorem cp (v : Nat) : ShownAs (visCp o v) (visCp (off o) v) := by
  have h4 := ascii (cons_ascii (c := 0x55) (by omega) (cons_ascii (c := 0x2B) (by omega) (fmtX_ascii 4 v)))
  have h4' := ascii (cons_ascii (c := 0x75) (by omega) (fmtX_ascii 4 v))
  have h8 := ascii (cons_ascii (c := 0x55) (by omega) (fmtX_ascii 8 v))
  have ite' : ∀ i1 i2 : List Nat, (∀ c ∈ i1, c ≠ 0x1B) → (∀ c ∈ i2, c ≠ 0x1B) →
      ShownAs (Vis.special o (if o.unicode then i1 else i2)) (Vis.special (off o) (if (off o).unicode then i1 else i2)) := by
    intro i1 i2 h1 h2
    show ShownAs _ (Vis.special (off o) (if o.unicode then i1 else i2))
    refine special o _ ?_
    split
    · exact h1
    · exact h2
  unfold visCp
  refine .ite (ite' _ _ (by decide) (by decide)) (.iteN (.ite (ite' _ _ (by decide) (by decide)) (.ite (ite' _ _ (by decide) (by decide))
    (.ite (.ite (symbol o _ (by decide)) (.ite (special o _ (by decide)) (special o _ (by decide))))
    (.ite (.ite ?_ (.ite (symbol o _ (by decide)) (.ite (special o _ (by decide)) (special o _ (by decide)))))
    (ite' _ _ h4 h4'))))) fun hctl => .ite (space o) (.ite (.ite (special o _ (by decide)) (plain (by decide))) ?_))
  · show ShownAs (List.replicate o.tabWidth (visSpace o)).flatten (List.replicate o.tabWidth (visSpace (off o))).flatten
    have := flatten (f := fun _ : Unit => visSpace o) (g := fun _ => visSpace (off o)) (fun _ => space o) (List.replicate o.tabWidth ())
    simpa using this
  · split
    · refine plain (fun c hc => ?_)
      rw [List.mem_singleton] at hc
      subst hc
      omega
    · show ShownAs _ (Vis.special (off o) (if o.unicode then _ else _))
      refine special o _ ?_
      split
      · exact h4
      · split
        · exact h4'
        · exact h8

theorem byte (b : Nat) : ShownAs (visByte o b) (visByte (off o) b) := by
  unfold visByte
  refine special o _ ?_
  split
  · exact ascii (cons_ascii (by omega) (cons_ascii (by omega) (fmtX_ascii 2 b)))
  · exact ascii (cons_ascii (by omega) (fmtX_ascii 2 b))

theorem unit (e : Enc) (u : Nat) : ShownAs (visUnit o e u) (visUnit (off o) e u) := by
  have b := byte o
  cases e with
  | ascii => exact nil
  | utf8 => exact b _
  | utf16 => exact .app (.ite (b _) nil) (b _)
  | utf32 => exact .app (.app (.app (.ite (b _) nil) (.ite (b _) nil)) (.ite (b _) nil)) (b _)

theorem ellipsis : ShownAs (ellipsis o) (ellipsis (off o)) := by
  unfold Vis.ellipsis
  exact .ite (plain (by decide)) (plain (by decide))

theorem units {f g : Nat → List Nat} (h : ∀ u, ShownAs (f u) (g u)) : ∀ (s : List Nat) (c : Nat),
    ShownAs (visUnits o f c s) (visUnits (off o) g c s) := by
  intro s
  induction s with
  | nil => intro c; exact nil
  | cons u s ih => intro c; exact .ite (.app (h u) (ellipsis o)) (.app (h u) (ih _))

theorem unicode (e : Enc) : ∀ (n c : Nat) (s : List Nat),
    (visUnicode o e n c s = none ∧ visUnicode (off o) e n c s = none) ∨
    ∃ a b, visUnicode o e n c s = some a ∧ visUnicode (off o) e n c s = some b ∧ ShownAs a b := by
  intro n
  induction n with
  | zero => intro c s; exact .inl ⟨rfl, rfl⟩
  | succ n ih =>
    intro c s
    unfold visUnicode
    simp only
    split
    · exact .inr ⟨[], [], rfl, rfl, nil⟩
    · have fin : ∀ (w w' t : List Nat), ShownAs w w' →
          ((if c + 1 = o.maxWidth then some (w ++ Vis.ellipsis o) else Option.map (w ++ ·) (visUnicode o e n (c + 1) t)) = none ∧
            (if c + 1 = o.maxWidth then some (w' ++ Vis.ellipsis (off o)) else Option.map (w' ++ ·) (visUnicode (off o) e n (c + 1) t)) = none) ∨
          ∃ a b, (if c + 1 = o.maxWidth then some (w ++ Vis.ellipsis o) else Option.map (w ++ ·) (visUnicode o e n (c + 1) t)) = some a ∧
            (if c + 1 = o.maxWidth then some (w' ++ Vis.ellipsis (off o)) else Option.map (w' ++ ·) (visUnicode (off o) e n (c + 1) t)) = some b ∧
            ShownAs a b := by
        intro w w' t hw
        split
        · exact .inr ⟨_, _, rfl, rfl, hw.app (ellipsis o)⟩
        · rcases ih (c + 1) t with ⟨h1, h2⟩ | ⟨a, b, h1, h2, h3⟩
          · exact .inl (by simp [h1, h2])
          · exact .inr ⟨_, _, by rw [h1]; rfl, by rw [h2]; rfl, hw.app h3⟩
      by_cases hs : (parseCp e s).error = .success
      · simp only [hs, if_true]
        exact fin _ _ _ (cp o _)
      · simp only [hs, if_false]
        cases recoverCodePoint s (parseCp e s) with
        | none => exact .inl ⟨rfl, rfl⟩
        | some t =>
          simp only [List.flatMap_def]
          exact fin _ _ _ (flatten (unit o e) _)

end ShownAs

theorem lexeme_shown (o : Opts) (le : LexEnc) (s : List Nat) :
    (visLexeme o le s = none ∧ visLexeme { o with color := false } le s = none) ∨
    ∃ a b, visLexeme o le s = some a ∧ visLexeme { o with color := false } le s = some b ∧ ShownAs a b := by
  cases le with
  | unicode e => exact ShownAs.unicode o e _ _ _
  | text =>
    refine .inr ⟨_, _, rfl, rfl, ShownAs.units o (fun u => ?_) s 0⟩
    exact .ite (ShownAs.cp o u) (ShownAs.byte o u)
  | bytes =>
    refine .inr ⟨_, _, rfl, rfl, ShownAs.units o (fun u => ?_) s 0⟩
    exact ShownAs.special o _ (ShownAs.ascii (fmtX_ascii 2 u))

/-- C57, colors: a lexeme is shown the same with and without colors; the escape sequences are complete. -/
theorem C57_color (o : Opts) (le : LexEnc) (s : List Nat) :
    (visLexeme o le s).map (Spec.shown false) = visLexeme { o with color := false } le s := by
  rcases lexeme_shown o le s with ⟨h1, h2⟩ | ⟨a, b, h1, h2, h3⟩
  · rw [h1, h2]; rfl
  · rw [h1, h2]; exact congrArg some h3.eq

example : visLexeme { color := true } .text [0x61, 0x0A, 0x62] =
    some [0x61, 0x1B, 0x5B, 0x33, 0x36, 0x3B, 0x32, 0x6D, 0x5C, 0x6E, 0x1B, 0x5B, 0x30, 0x6D, 0x62] := by decide +kernel
example : Spec.shown false [0x61, 0x1B, 0x5B, 0x33, 0x36, 0x3B, 0x32, 0x6D, 0x5C, 0x6E, 0x1B, 0x5B, 0x30, 0x6D, 0x62] =
    [0x61, 0x5C, 0x6E, 0x62] := by decide

end Vis

end Verif
