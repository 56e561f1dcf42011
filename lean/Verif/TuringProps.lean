/-
C103: the Turing example executes the program it is given.
-/
import Verif.Turing

namespace Verif.Spec.Tm

/-! ## The language: texts and their meaning -/

/-- White space between the symbols: spaces, and comments up to the end of the line. -/
inductive Blank : List Nat → Prop
  | nil : Blank []
  | space {c : Nat} {w : List Nat} : (c = 32 ∨ 9 ≤ c ∧ c ≤ 13) → Blank w → Blank (c :: w)
  | comment {t : List Nat} {c : Nat} {w : List Nat} : (∀ x ∈ t, x ≠ 10 ∧ x ≠ 13) → (c = 10 ∨ c = 13) → Blank w →
      Blank (47 :: 47 :: (t ++ c :: w))

/-- Assignment, `:=`, `+=` and `-=`. -/
inductive Op
  | set | add | sub
  deriving DecidableEq

def Op.text : Op → List Nat
  | .set => [58, 61]
  | .add => [43, 61]
  | .sub => [45, 61]

/-- The new value. -/
def Op.apply : Op → Int → Nat → Int
  | .set, _, n => n
  | .add, v, n => v + n
  | .sub, v, n => v - n

/-- Programs. -/
inductive Prog
  | nil
  | op (o : Op) (x n : Nat) (rest : Prog)
  | ite (x : Nat) (a b rest : Prog)
  | loop (x : Nat) (a rest : Prog)

/-- The variables are the lower case letters. -/
def Var (x : Nat) : Prop := 97 ≤ x ∧ x ≤ 122

/-- The text of a body. -/
def bodyText (b1 t b2 : List Nat) : List Nat := 123 :: (b1 ++ (t ++ 125 :: b2))

/-- The texts of a program.  There may be white space between all symbols, and there has to be after `if` and `while`.
    With `tight`, there is none after a number. -/
inductive Reads (tight : Bool) : List Nat → Prog → Prop
  | nil : Reads tight [] .nil
  | op {o : Op} {x n : Nat} {b1 b2 b3 b4 t : List Nat} {rest : Prog} : Var x → Blank b1 → Blank b2 → Blank b3 → Blank b4 →
      (tight = true → b3 = []) → Reads tight t rest →
      Reads tight (x :: (b1 ++ (o.text ++ (b2 ++ (List.replicate n 124 ++ (b3 ++ 59 :: (b4 ++ t))))))) (.op o x n rest)
  | ite {x : Nat} {b1 b2 b3 b4 t1 t : List Nat} {a rest : Prog} : Var x → Blank b1 → b1 ≠ [] → Blank b2 → Blank b3 → Blank b4 →
      Reads tight t1 a → Reads tight t rest →
      Reads tight (105 :: 102 :: (b1 ++ x :: (b2 ++ (bodyText b3 t1 b4 ++ t)))) (.ite x a .nil rest)
  | iteElse {x : Nat} {b1 b2 b3 b4 b5 b6 b7 t1 t2 t : List Nat} {a b rest : Prog} : Var x → Blank b1 → b1 ≠ [] → Blank b2 →
      Blank b3 → Blank b4 → Blank b5 → Blank b6 → Blank b7 → Reads tight t1 a → Reads tight t2 b → Reads tight t rest →
      Reads tight (105 :: 102 :: (b1 ++ x :: (b2 ++ (bodyText b3 t1 b4 ++
        101 :: 108 :: 115 :: 101 :: (b5 ++ (bodyText b6 t2 b7 ++ t)))))) (.ite x a b rest)
  | loop {x : Nat} {b1 b2 b3 b4 t1 t : List Nat} {a rest : Prog} : Var x → Blank b1 → b1 ≠ [] → Blank b2 → Blank b3 → Blank b4 →
      Reads tight t1 a → Reads tight t rest →
      Reads tight (119 :: 104 :: 105 :: 108 :: 101 :: (b1 ++ x :: (b2 ++ (bodyText b3 t1 b4 ++ t)))) (.loop x a rest)

/-- The text of a whole program. -/
def Text (tight : Bool) (s : List Nat) (p : Prog) : Prop := ∃ b t, s = b ++ t ∧ Blank b ∧ Reads tight t p

/-- Execution: from the values of the variables before to those after it, if it ends.  `P` restricts the assignments. -/
inductive Runs (P : Op → Int → Nat → Prop) : Prog → (Nat → Int) → (Nat → Int) → Prop
  | nil {σ : Nat → Int} : Runs P .nil σ σ
  | op {o : Op} {x n : Nat} {rest : Prog} {σ τ : Nat → Int} : P o (σ x) n →
      Runs P rest (fun y => if y = x then o.apply (σ x) n else σ y) τ → Runs P (.op o x n rest) σ τ
  | iteTrue {x : Nat} {a b rest : Prog} {σ ρ τ : Nat → Int} : σ x ≠ 0 → Runs P a σ ρ → Runs P rest ρ τ →
      Runs P (.ite x a b rest) σ τ
  | iteFalse {x : Nat} {a b rest : Prog} {σ ρ τ : Nat → Int} : σ x = 0 → Runs P b σ ρ → Runs P rest ρ τ →
      Runs P (.ite x a b rest) σ τ
  | loopEnd {x : Nat} {a rest : Prog} {σ τ : Nat → Int} : σ x = 0 → Runs P rest σ τ → Runs P (.loop x a rest) σ τ
  | loopMore {x : Nat} {a rest : Prog} {σ ρ τ : Nat → Int} : σ x ≠ 0 → Runs P a σ ρ → Runs P (.loop x a rest) ρ τ →
      Runs P (.loop x a rest) σ τ

/-- The result of a program: the final value of `o`, all variables being zero in the beginning. -/
def Result (P : Op → Int → Nat → Prop) (p : Prog) (v : Int) : Prop := ∃ τ, Runs P p (fun _ => 0) τ ∧ τ 111 = v

/-- Any assignment. -/
def Any : Op → Int → Nat → Prop := fun _ _ _ => True

/-- The values are those of an `int` of 32 bits, and variables that are assigned to with `:=` are not negative. -/
def Small : Op → Int → Nat → Prop := fun o v n =>
  -2147483648 ≤ o.apply v n ∧ o.apply v n ≤ 2147483647 ∧ (o = .set → 0 ≤ v)

/-- How deep statements are nested in bodies. -/
def Prog.nesting : Prog → Nat
  | .nil => 0
  | .op _ _ _ r => r.nesting
  | .ite _ a b r => max (max (a.nesting + 1) (b.nesting + 1)) r.nesting
  | .loop _ a r => max (a.nesting + 1) r.nesting

end Verif.Spec.Tm

namespace Verif.Tm
open Verif.Spec.Tm

/-! ## White space -/

/-- What is not white space stays. -/
def Solid (s : List Nat) : Prop := ws s = some s

theorem wsGo_comment {t : List Nat} (ht : ∀ x ∈ t, x ≠ 10 ∧ x ≠ 13) {c : Nat} (hc : c = 10 ∨ c = 13) (s : List Nat) :
    wsGo true (t ++ c :: s) = wsGo false s := by
  induction t with
  | nil => rcases hc with rfl | rfl <;> simp [wsGo, isNewline]
  | cons x t ih =>
    have hx := ht x (by simp)
    simp [wsGo, isNewline, hx.1, hx.2, ih (fun y hy => ht y (by simp [hy]))]

theorem ws_blank {b : List Nat} (h : Blank b) (s : List Nat) : ws (b ++ s) = ws s := by
  unfold ws
  induction h with
  | nil => rfl
  | space hc hw ih =>
    rename_i c w
    have : isSpace c = true := by simp [isSpace]; omega
    simp [wsGo, this, ih]
  | comment ht hc hw ih =>
    rename_i t c w
    have h1 : isSpace 47 = false := by decide
    have h2 : isNewline 47 = false := by decide
    simp [wsGo, h1, h2]
    rw [wsGo_comment ht hc, ih]

theorem blank_append {b b' : List Nat} (h : Blank b) (h' : Blank b') : Blank (b ++ b') := by
  induction h with
  | nil => exact h'
  | space hc hw ih => exact .space hc ih
  | comment ht hc hw ih =>
    rename_i t c w
    have : 47 :: 47 :: (t ++ c :: w) ++ b' = 47 :: 47 :: (t ++ c :: (w ++ b')) := by simp
    rw [this]; exact .comment ht hc ih

theorem solid_nil : Solid [] := rfl

theorem solid_cons {c : Nat} {s : List Nat} (h1 : 33 ≤ c) (h2 : c ≠ 47) : Solid (c :: s) := by
  unfold Solid ws
  have : isSpace c = false := by simp [isSpace]; omega
  simp [wsGo, this, h2]

theorem afterWs_blank {b : List Nat} (h : Blank b) {s : List Nat} (hs : Solid s) (k : List Nat → Option Res) :
    afterWs (b ++ s) k = k s := by
  unfold afterWs; rw [ws_blank h, hs]

theorem afterWs_solid {s : List Nat} (hs : Solid s) (k : List Nat → Option Res) : afterWs s k = k s := by
  unfold afterWs; rw [hs]

theorem reads_solid {tight : Bool} {t : List Nat} {p : Prog} (h : Reads tight t p) {s : List Nat} (hs : Solid s) : Solid (t ++ s) := by
  cases h with
  | nil => exact hs
  | op hx => exact solid_cons (by unfold Var at hx; omega) (by unfold Var at hx; omega)
  | _ => exact solid_cons (by omega) (by omega)

/-- A blank does not begin with a letter. -/
theorem blank_head {b : List Nat} (h : Blank b) {c : Nat} {r : List Nat} (e : b = c :: r) : isAlpha c = false := by
  cases h with
  | nil => simp at e
  | space hc => simp at e; obtain ⟨rfl, -⟩ := e; simp [isAlpha]; omega
  | comment => simp at e; obtain ⟨rfl, -⟩ := e; decide

/-- A text that does not begin with a letter. -/
def NoAlpha (s : List Nat) : Prop := ∀ c r, s = c :: r → isAlpha c = false

theorem noAlpha_blank {b : List Nat} (h : Blank b) {s : List Nat} (hs : NoAlpha s) : NoAlpha (b ++ s) := by
  intro c r e
  cases b with
  | nil => exact hs c r e
  | cons d b => simp at e; obtain ⟨rfl, -⟩ := e; exact blank_head h rfl

theorem noAlpha_blank_ne {b : List Nat} (h : Blank b) (hb : b ≠ []) (s : List Nat) : NoAlpha (b ++ s) := by
  intro c r e
  cases b with
  | nil => exact absurd rfl hb
  | cons d b => simp at e; obtain ⟨rfl, -⟩ := e; exact blank_head h rfl

theorem lit_append (w s : List Nat) : lit w (w ++ s) = some s := by
  induction w with
  | nil => rfl
  | cons a w ih => simp [lit, ih]

theorem kw_append (w : List Nat) {s : List Nat} (hs : NoAlpha s) : kw w (w ++ s) = some s := by
  unfold kw
  rw [lit_append]
  cases s with
  | nil => rfl
  | cons c s => simp [hs c s rfl]

/-! ## The body that is skipped -/

theorem skip_char (σ : Store) {m : Nat} {d : Int} (hd : d ≠ 0) {c : Nat} (h1 : c ≠ 123) (h2 : c ≠ 125) (h3 : c ≠ 47) (h4 : c < 128)
    {b s : List Nat} (hb : Blank b) (hs : Solid s) : skipGo σ (m + 1) d (c :: (b ++ s)) = skipGo σ m d s := by
  simp [skipGo, h1, h2, h3, h4, afterWs_blank hb hs, hd]

theorem skip_open (σ : Store) {m : Nat} {d : Int} (hd : d + 1 ≠ 0) {b s : List Nat} (hb : Blank b) (hs : Solid s) :
    skipGo σ (m + 1) d (123 :: (b ++ s)) = skipGo σ m (d + 1) s := by
  simp [skipGo, afterWs_blank hb hs, hd]

theorem skip_close (σ : Store) {m : Nat} {d : Int} {b s : List Nat} (hb : Blank b) (hs : Solid s) :
    skipGo σ (m + 1) d (125 :: (b ++ s)) = if d - 1 = 0 then some (.ok σ s) else skipGo σ m (d - 1) s := by
  simp [skipGo, afterWs_blank hb hs]

theorem skip_marks (σ : Store) {m : Nat} {d : Int} (hd : d ≠ 0) (n : Nat) {s : List Nat} (hs : Solid s) :
    skipGo σ (m + n) d (List.replicate n 124 ++ s) = skipGo σ m d s := by
  induction n generalizing m with
  | zero => rfl
  | succ n ih =>
    have hs' : Solid (List.replicate n 124 ++ s) := by
      cases n with
      | zero => exact hs
      | succ n => exact solid_cons (by omega) (by omega)
    have := skip_char σ (m := m + n) hd (c := 124) (by omega) (by omega) (by omega) (by omega) Blank.nil hs'
    rw [← Nat.add_assoc, List.replicate_succ, List.cons_append]
    rw [List.nil_append] at this
    rw [this, ih]

theorem marks_solid (n : Nat) {s : List Nat} (hs : Solid s) : Solid (List.replicate n 124 ++ s) := by
  cases n with
  | zero => exact hs
  | succ n => exact solid_cons (by omega) (by omega)

theorem op_solid (o : Op) (s : List Nat) : Solid (o.text ++ s) := by
  cases o <;> exact solid_cons (by omega) (by omega)

theorem body_solid (b1 t b2 s : List Nat) : Solid (bodyText b1 t b2 ++ s) := solid_cons (by omega) (by omega)

theorem skip_op (σ : Store) {m : Nat} {d : Int} (hd : d ≠ 0) (o : Op) {b s : List Nat} (hb : Blank b) (hs : Solid s) :
    skipGo σ (m + 2) d (o.text ++ (b ++ s)) = skipGo σ m d s := by
  have h2 := skip_char σ (m := m) hd (c := 61) (by omega) (by omega) (by omega) (by omega) hb hs
  have hsol : Solid (61 :: (b ++ s)) := solid_cons (by omega) (by omega)
  cases o
  · have h1 := skip_char σ (m := m + 1) hd (c := 58) (by omega) (by omega) (by omega) (by omega) Blank.nil hsol
    exact h1.trans h2
  · have h1 := skip_char σ (m := m + 1) hd (c := 43) (by omega) (by omega) (by omega) (by omega) Blank.nil hsol
    exact h1.trans h2
  · have h1 := skip_char σ (m := m + 1) hd (c := 45) (by omega) (by omega) (by omega) (by omega) Blank.nil hsol
    exact h1.trans h2

/-- A letter. -/
theorem skip_letter (σ : Store) {m : Nat} {d : Int} (hd : d ≠ 0) {c : Nat} (hc : Var c) {b s : List Nat} (hb : Blank b) (hs : Solid s) :
    skipGo σ (m + 1) d (c :: (b ++ s)) = skipGo σ m d s := by
  unfold Var at hc
  exact skip_char σ hd (by omega) (by omega) (by omega) (by omega) hb hs

theorem letter_solid {c : Nat} (hc : Var c) (s : List Nat) : Solid (c :: s) := by
  unfold Var at hc; exact solid_cons (by omega) (by omega)

/-- A word. -/
theorem skip_word (σ : Store) {m : Nat} {d : Int} (hd : d ≠ 0) {w : List Nat} (hw : ∀ c ∈ w, Var c) (hne : w ≠ []) {b s : List Nat}
    (hb : Blank b) (hs : Solid s) : skipGo σ (m + w.length) d (w ++ (b ++ s)) = skipGo σ m d s := by
  induction w generalizing m with
  | nil => exact absurd rfl hne
  | cons c w ih =>
    cases w with
    | nil => exact skip_letter σ hd (hw c (by simp)) hb hs
    | cons c' w =>
      have h1 := ih (m := m) (fun x hx => hw x (List.mem_cons_of_mem _ hx)) (by simp)
      have hsol : Solid ((c' :: w) ++ (b ++ s)) := letter_solid (hw c' (by simp)) _
      have h2 := skip_letter σ (m := m + (c' :: w).length) hd (hw c (by simp)) Blank.nil hsol
      exact h2.trans h1

/-- Skipping gets from one text to another one, and from a depth to another one. -/
def Skips (a b : Int) (u v : List Nat) : Prop :=
  ∃ k, ∀ (σ : Store) (m : Nat) (d : Int), 0 < d → skipGo σ (m + k) (d + a) u = skipGo σ m (d + b) v

theorem Skips.refl (a : Int) (u : List Nat) : Skips a a u u := ⟨0, fun _ _ _ _ => rfl⟩

theorem Skips.trans {a b c : Int} {u v w : List Nat} (h1 : Skips a b u v) (h2 : Skips b c v w) : Skips a c u w := by
  obtain ⟨k1, h1⟩ := h1
  obtain ⟨k2, h2⟩ := h2
  refine ⟨k2 + k1, fun σ m d hd => ?_⟩
  rw [← Nat.add_assoc, h1 σ _ d hd, h2 σ _ d hd]

theorem skips_word {a : Int} (ha : 0 ≤ a) {w : List Nat} (hw : ∀ c ∈ w, Var c) (hne : w ≠ []) {b s : List Nat} (hb : Blank b)
    (hs : Solid s) : Skips a a (w ++ (b ++ s)) s :=
  ⟨w.length, fun σ _ _ hd => skip_word σ (by omega) hw hne hb hs⟩

theorem skips_letter {a : Int} (ha : 0 ≤ a) {c : Nat} (hc : Var c) {b s : List Nat} (hb : Blank b)
    (hs : Solid s) : Skips a a (c :: (b ++ s)) s :=
  ⟨1, fun σ _ _ hd => skip_letter σ (by omega) hc hb hs⟩

theorem skips_body {a : Int} (ha : 0 ≤ a) {b1 t b2 s : List Nat} (h1 : Blank b1) (h2 : Blank b2) (ht : Solid (t ++ 125 :: (b2 ++ s)))
    (hs : Solid s) (h : Skips (a + 1) (a + 1) (t ++ 125 :: (b2 ++ s)) (125 :: (b2 ++ s))) : Skips a a (bodyText b1 t b2 ++ s) s := by
  have e : bodyText b1 t b2 ++ s = 123 :: (b1 ++ (t ++ 125 :: (b2 ++ s))) := by simp [bodyText]
  rw [e]
  refine Skips.trans (b := a + 1) ⟨1, fun σ m d hd => ?_⟩ (h.trans ⟨1, fun σ m d hd => ?_⟩)
  · rw [skip_open σ (by omega) h1 ht, Int.add_assoc]
  · rw [skip_close σ h2 hs, if_neg (by omega), show d + (a + 1) - 1 = d + a by omega]

/-- A program within a body is skipped. -/
theorem skips_prog {tight : Bool} {t : List Nat} {p : Prog} (h : Reads tight t p) :
    ∀ {a : Int} {s : List Nat}, 0 ≤ a → Solid s → Skips a a (t ++ s) s := by
  induction h with
  | nil => intro a s _ _; exact .refl _ _
  | op hx h1 h2 h3 h4 h5 hr ih =>
    rename_i o x n b1 b2 b3 b4 t rest
    intro a s ha hs
    have s1 := reads_solid hr hs
    have s2 : Solid (59 :: (b4 ++ (t ++ s))) := solid_cons (by omega) (by omega)
    have e : x :: (b1 ++ (o.text ++ (b2 ++ (List.replicate n 124 ++ (b3 ++ 59 :: (b4 ++ t)))))) ++ s =
      x :: (b1 ++ (o.text ++ (b2 ++ (List.replicate n 124 ++ (b3 ++ 59 :: (b4 ++ (t ++ s))))))) := by simp
    rw [e]
    refine (skips_letter ha hx h1 (op_solid o _)).trans ?_
    have hsemi : Skips a a (59 :: (b4 ++ (t ++ s))) (t ++ s) := ⟨1, fun σ m d hd =>
      skip_char σ (by omega) (by omega) (by omega) (by omega) (by omega) h4 s1⟩
    refine Skips.trans ?_ (hsemi.trans (ih ha hs))
    cases n with
    | zero =>
      refine ⟨2, fun σ m d hd => ?_⟩
      have := skip_op σ (m := m) (d := d + a) (by omega) o (blank_append h2 h3) s2
      rwa [List.append_assoc] at this
    | succ n =>
      rw [List.replicate_succ', List.append_assoc]
      have s3 : Solid ([124] ++ (b3 ++ 59 :: (b4 ++ (t ++ s)))) := solid_cons (by omega) (by omega)
      refine Skips.trans (b := a) (v := List.replicate n 124 ++ ([124] ++ (b3 ++ 59 :: (b4 ++ (t ++ s)))))
        ⟨2, fun σ m d hd => skip_op σ (by omega) o h2 (marks_solid n s3)⟩ ?_
      refine Skips.trans (b := a) (v := [124] ++ (b3 ++ 59 :: (b4 ++ (t ++ s)))) ⟨n, fun σ m d hd => skip_marks σ (by omega) n s3⟩ ?_
      exact ⟨1, fun σ m d hd => skip_char σ (by omega) (by omega) (by omega) (by omega) (by omega) h3 s2⟩
  | ite hx h1 h1' h2 h3 h4 hr1 hr ih1 ih =>
    rename_i x b1 b2 b3 b4 t1 t p rest
    intro a s ha hs
    have s1 := reads_solid hr hs
    have e : 105 :: 102 :: (b1 ++ x :: (b2 ++ (bodyText b3 t1 b4 ++ t))) ++ s =
      [105, 102] ++ (b1 ++ x :: (b2 ++ (bodyText b3 t1 b4 ++ (t ++ s)))) := by simp
    rw [e]
    refine (skips_word ha (by simp [Var]) (by simp) h1 (letter_solid hx _)).trans ?_
    refine (skips_letter ha hx h2 (body_solid _ _ _ _)).trans ?_
    refine (skips_body ha h3 h4 (reads_solid hr1 (solid_cons (by omega) (by omega))) s1 (ih1 (by omega) (solid_cons (by omega) (by omega)))).trans ?_
    exact ih ha hs
  | loop hx h1 h1' h2 h3 h4 hr1 hr ih1 ih =>
    rename_i x b1 b2 b3 b4 t1 t p rest
    intro a s ha hs
    have s1 := reads_solid hr hs
    have e : 119 :: 104 :: 105 :: 108 :: 101 :: (b1 ++ x :: (b2 ++ (bodyText b3 t1 b4 ++ t))) ++ s =
      [119, 104, 105, 108, 101] ++ (b1 ++ x :: (b2 ++ (bodyText b3 t1 b4 ++ (t ++ s)))) := by simp
    rw [e]
    refine (skips_word ha (by simp [Var]) (by simp) h1 (letter_solid hx _)).trans ?_
    refine (skips_letter ha hx h2 (body_solid _ _ _ _)).trans ?_
    refine (skips_body ha h3 h4 (reads_solid hr1 (solid_cons (by omega) (by omega))) s1 (ih1 (by omega) (solid_cons (by omega) (by omega)))).trans ?_
    exact ih ha hs
  | iteElse hx h1 h1' h2 h3 h4 h5 h6 h7 hr1 hr2 hr ih1 ih2 ih =>
    rename_i x b1 b2 b3 b4 b5 b6 b7 t1 t2 t p q rest
    intro a s ha hs
    have s1 := reads_solid hr hs
    have e : 105 :: 102 :: (b1 ++ x :: (b2 ++ (bodyText b3 t1 b4 ++ 101 :: 108 :: 115 :: 101 :: (b5 ++ (bodyText b6 t2 b7 ++ t))))) ++ s =
      [105, 102] ++ (b1 ++ x :: (b2 ++ (bodyText b3 t1 b4 ++ ([101, 108, 115, 101] ++ (b5 ++ (bodyText b6 t2 b7 ++ (t ++ s))))))) := by simp
    rw [e]
    refine (skips_word ha (by simp [Var]) (by simp) h1 (letter_solid hx _)).trans ?_
    refine (skips_letter ha hx h2 (body_solid _ _ _ _)).trans ?_
    refine (skips_body ha h3 h4 (reads_solid hr1 (solid_cons (by omega) (by omega))) (solid_cons (by omega) (by omega))
      (ih1 (by omega) (solid_cons (by omega) (by omega)))).trans ?_
    refine (skips_word (w := [101, 108, 115, 101]) ha (by simp [Var]) (by simp) h5 (body_solid _ _ _ _)).trans ?_
    refine (skips_body ha h6 h7 (reads_solid hr2 (solid_cons (by omega) (by omega))) s1 (ih2 (by omega) (solid_cons (by omega) (by omega)))).trans ?_
    exact ih ha hs

/-- A body is skipped. -/
theorem skip_body {tight : Bool} {t : List Nat} {p : Prog} (h : Reads tight t p) {b1 b2 s : List Nat} (h1 : Blank b1) (h2 : Blank b2)
    (hs : Solid s) : ∃ k, ∀ (σ : Store) (m : Nat), k ≤ m → skipGo σ m 0 (bodyText b1 t b2 ++ s) = some (.ok σ s) := by
  have e : bodyText b1 t b2 ++ s = 123 :: (b1 ++ (t ++ 125 :: (b2 ++ s))) := by simp [bodyText]
  have s1 : Solid (125 :: (b2 ++ s)) := solid_cons (by omega) (by omega)
  obtain ⟨k, hk⟩ := skips_prog h (a := 0) (by omega) s1
  refine ⟨k + 2, fun σ m hm => ?_⟩
  obtain ⟨m, rfl⟩ := Nat.exists_eq_add_of_le hm
  have := hk σ (m + 1) 1 (by omega)
  rw [e, show k + 2 + m = (m + 1 + k) + 1 by omega, skip_open σ (by omega) h1 (reads_solid h s1)]
  simp only [Int.add_zero, Int.zero_add] at this ⊢
  rw [this, skip_close σ h2 hs]
  rfl

theorem andThen_congr {r : Option Res} {k k' : Store → List Nat → Option Res} (h : ∀ σ s, k σ s = k' σ s) : andThen r k = andThen r k' := by
  have : k = k' := funext fun _ => funext fun _ => h _ _
  rw [this]

theorem afterWs_mono {s : List Nat} {k k' : List Nat → Option Res} {r : Res} (h : ∀ s, k s = some r → k' s = some r)
    (e : afterWs s k = some r) : afterWs s k' = some r := by
  unfold afterWs at *
  split at e
  · exact e
  · exact h _ e

theorem skipGo_mono {σ : Store} {n : Nat} {d : Int} {s : List Nat} {r : Res} (h : skipGo σ n d s = some r) :
    skipGo σ (n + 1) d s = some r := by
  induction n generalizing d s with
  | zero => simp [skipGo] at h
  | succ n ih =>
    have hc : ∀ (d : Int) (s : List Nat), (afterWs s fun s => if d = 0 then some (.ok σ s) else skipGo σ n d s) = some r →
        (afterWs s fun s => if d = 0 then some (.ok σ s) else skipGo σ (n + 1) d s) = some r := by
      intro d s
      refine afterWs_mono fun s h => ?_
      by_cases hd : d = 0
      · simpa [hd] using h
      · simp only [hd, if_false] at h ⊢; exact ih h
    cases s with
    | nil => simp only [skipGo] at h ⊢; exact h
    | cons c s =>
      simp only [skipGo] at h ⊢
      split
      · next h1 => rw [if_pos h1] at h; exact hc _ _ h
      · next h1 =>
        rw [if_neg h1] at h
        split
        · next h2 => rw [if_pos h2] at h; exact hc _ _ h
        · next h2 =>
          rw [if_neg h2] at h
          split
          · next h3 =>
            rw [if_pos h3] at h
            refine afterWs_mono (fun s h => ?_) h
            cases hu : untilNewline s with
            | none => simpa [hu] using h
            | some s => simp only [hu] at h ⊢; exact hc _ _ h
          · next h3 =>
            rw [if_neg h3] at h
            split
            · next h4 => rw [if_pos h4] at h; exact hc _ _ h
            · next h4 => rw [if_neg h4] at h; exact h

theorem skipGo_le {σ : Store} {n m : Nat} (hm : n ≤ m) {d : Int} {s : List Nat} {r : Res} (h : skipGo σ n d s = some r) :
    skipGo σ m d s = some r := by
  induction hm with
  | refl => exact h
  | step _ ih => exact skipGo_mono ih

/-- Whatever the number of steps, a body is skipped without an error. -/
theorem skip_body_sound {tight : Bool} {t : List Nat} {p : Prog} (h : Reads tight t p) {b1 b2 s : List Nat} (h1 : Blank b1) (h2 : Blank b2)
    (hs : Solid s) {σ : Store} {m : Nat} {r : Res} (e : skipGo σ m 0 (bodyText b1 t b2 ++ s) = some r) : r = .ok σ s := by
  obtain ⟨k, hk⟩ := skip_body h h1 h2 hs
  have := skipGo_le (Nat.le_max_left m k) e
  rw [hk σ _ (Nat.le_max_right m k)] at this
  exact (Option.some.inj this).symm

/-! ## Numbers and assignments -/

theorem reset_eq {v : Int} (h0 : 0 ≤ v) (h1 : v ≤ 2147483647) {m : Nat} (hm : v.toNat < m) : reset m v = some 0 := by
  induction m generalizing v with
  | zero => omega
  | succ m ih =>
    rw [reset]
    by_cases hv : v = 0
    · simp [hv]
    · rw [if_neg hv, if_pos (by simp [fits]; omega)]
      exact ih (by omega) (by omega) (by omega)

theorem reset_some {m : Nat} {v w : Int} (h : reset m v = some w) : w = 0 ∧ 0 ≤ v := by
  induction m generalizing v with
  | zero => simp [reset] at h
  | succ m ih =>
    rw [reset] at h
    split at h
    · simp at h; omega
    · split at h
      · have := ih h; omega
      · simp at h

theorem marks_replicate (n : Nat) {s : List Nat} (hs : s.head? ≠ some 124) : marks (List.replicate n 124 ++ s) = s := by
  induction n with
  | zero =>
    cases s with
    | nil => rfl
    | cons c s =>
      simp only [List.replicate_zero, List.nil_append]
      unfold marks
      split
      · simp_all
      · rfl
  | succ n ih => rw [List.replicate_succ, List.cons_append, marks, ih]

theorem blank_marks {b : List Nat} (h : Blank b) (s : List Nat) : (b ++ 59 :: s).head? ≠ some 124 := by
  cases h with
  | nil => simp
  | space hc => simp; omega
  | comment => simp

theorem push_eq (sign : Int) (x n : Nat) (σ : Store) {b4 u : List Nat} (h4 : Blank b4) (hu : Solid u) :
    push sign x σ (List.replicate n 124 ++ 59 :: (b4 ++ u)) semi =
      if fits (σ x + (n : Int) * sign) then some (.ok (σ.set x (σ x + (n : Int) * sign)) u) else none := by
  unfold push
  rw [marks_replicate n (by simp), afterWs_solid (solid_cons (by omega) (by omega))]
  have hl : (List.replicate n 124 ++ 59 :: (b4 ++ u)).length - (59 :: (b4 ++ u)).length = n := by
    simp
  simp only [hl]
  split
  · simp [semi, lit, afterWs_blank h4 hu]
  · rfl

/-- The effect of an assignment. -/
def assign (m : Nat) (o : Op) (x k : Nat) (σ : Store) (u : List Nat) : Option Res :=
  if o = .set ∧ (reset m (σ x)).isNone then none
  else if fits (o.apply (σ x) k) then some (.ok (σ.set x (o.apply (σ x) k)) u) else none

theorem set_set (σ : Store) (x : Nat) (v w : Int) : (σ.set x v).set x w = σ.set x w := by
  funext y; unfold Store.set; split <;> rfl

theorem varStmt_eq (m x n : Nat) (o : Op) (σ : Store) {b2 b4 u : List Nat} (h2 : Blank b2) (h4 : Blank b4)
    (hu : Solid u) : varStmt m x σ (o.text ++ (b2 ++ (List.replicate n 124 ++ 59 :: (b4 ++ u)))) = assign m o x n σ u := by
  have hs := afterWs_blank h2 (marks_solid n (s := 59 :: (b4 ++ u)) (solid_cons (by omega) (by omega)))
  cases o with
  | set =>
    simp only [varStmt, Op.text, lit_append, hs, assign, true_and]
    cases hr : reset m (σ x) with
    | none => rfl
    | some v =>
      obtain ⟨rfl, -⟩ := reset_some hr
      simp [push_eq 1 x n (σ.set x 0) h4 hu, set_set, Op.apply, Store.set]
      split <;> simp_all
  | add =>
    have : lit [58, 61] ([43, 61] ++ (b2 ++ (List.replicate n 124 ++ 59 :: (b4 ++ u)))) = none := rfl
    simp only [varStmt, Op.text, this, lit_append, hs, assign]
    simp [push_eq 1 x n σ h4 hu, Op.apply]
    split <;> simp_all
  | sub =>
    have e1 : lit [58, 61] ([45, 61] ++ (b2 ++ (List.replicate n 124 ++ 59 :: (b4 ++ u)))) = none := rfl
    have e2 : lit [43, 61] ([45, 61] ++ (b2 ++ (List.replicate n 124 ++ 59 :: (b4 ++ u)))) = none := rfl
    simp only [varStmt, Op.text, e1, e2, lit_append, hs, assign]
    simp [push_eq (-1) x n σ h4 hu, Op.apply, Int.sub_eq_add_neg]
    split <;> simp_all

/-! ## Statements -/

theorem kw_none {a b x : Nat} {w r : List Nat} (hb : isAlpha b = true) (hr : NoAlpha r) : kw (a :: b :: w) (x :: r) = none := by
  unfold kw
  have : lit (a :: b :: w) (x :: r) = none := by
    rw [lit]
    split
    · cases r with
      | nil => rfl
      | cons c r =>
        have := hr c r rfl
        rw [lit, if_neg (by rintro rfl; simp [hb] at this)]
    · rfl
  rw [this]

theorem kw_none_head {a x : Nat} {w r : List Nat} (h : a ≠ x) : kw (a :: w) (x :: r) = none := by
  simp [kw, lit, h]

theorem noAlpha_op (o : Op) (s : List Nat) : NoAlpha (o.text ++ s) := by
  intro c r e
  cases o <;> simp [Op.text] at e <;> obtain ⟨rfl, -⟩ := e <;> decide

theorem noAlpha_body (b1 t b2 s : List Nat) : NoAlpha (bodyText b1 t b2 ++ s) := by
  intro c r e
  simp [bodyText] at e; obtain ⟨rfl, -⟩ := e; decide

/-- What follows a sequence of statements, and what is left after it. -/
def Follow (b : Bool) (s s2 : List Nat) : Prop :=
  match b with
  | false => s = [] ∧ s2 = []
  | true => ∃ u, s = 125 :: u ∧ ws u = some s2

theorem follow_solid {b : Bool} {s s2 : List Nat} (h : Follow b s s2) : Solid s := by
  cases b with
  | false => rw [h.1]; exact solid_nil
  | true => obtain ⟨u, rfl, -⟩ := h; exact solid_cons (by omega) (by omega)

theorem else_none {tight : Bool} {t : List Nat} {p : Prog} (h : Reads tight t p) {b : Bool} {s s2 : List Nat} (hf : Follow b s s2) :
    kw [101, 108, 115, 101] (t ++ s) = none := by
  cases h with
  | nil =>
    cases b with
    | false => rw [hf.1]; rfl
    | true => obtain ⟨u, rfl, -⟩ := hf; rfl
  | op hx h1 =>
    rw [List.cons_append, List.append_assoc, List.append_assoc]
    exact kw_none (by decide) (noAlpha_blank h1 (noAlpha_op _ _))
  | _ => exact kw_none_head (by omega)

theorem isVar_of {x : Nat} (h : Var x) : isVar x = true := by
  unfold Var at h; simp [isVar]; omega

/-- `execute_body`. -/
def execBody (n d : Nat) (σ : Store) (s : List Nat) : Option Res :=
  match lit [123] s with
  | none => some .err
  | some s => afterWs s fun s => run n d (.seq true) σ s

theorem execBody_eq {tight : Bool} {t : List Nat} {p : Prog} (h : Reads tight t p) {b1 : List Nat} (h1 : Blank b1) (n d : Nat) (σ : Store)
    (b2 s : List Nat) : execBody n d σ (bodyText b1 t b2 ++ s) = run n d (.seq true) σ (t ++ 125 :: (b2 ++ s)) := by
  have e : bodyText b1 t b2 ++ s = 123 :: (b1 ++ (t ++ 125 :: (b2 ++ s))) := by simp [bodyText]
  rw [e]
  simp only [execBody, lit, if_true]
  exact afterWs_blank h1 (reads_solid h (solid_cons (by omega) (by omega))) _

theorem stmt_op (m d : Nat) (σ : Store) {x n : Nat} {o : Op} {b1 b2 b4 u : List Nat} (hx : Var x) (h1 : Blank b1) (h2 : Blank b2)
    (h4 : Blank b4) (hu : Solid u) :
    run (m + 1) d .stmt σ (x :: (b1 ++ (o.text ++ (b2 ++ (List.replicate n 124 ++ 59 :: (b4 ++ u)))))) = assign m o x n σ u := by
  have hn : NoAlpha (b1 ++ (o.text ++ (b2 ++ (List.replicate n 124 ++ 59 :: (b4 ++ u))))) := noAlpha_blank h1 (noAlpha_op _ _)
  have hk := kw_append [x] hn
  simp only [List.cons_append, List.nil_append] at hk
  simp only [run, kw_none (a := 105) (b := 102) (w := []) (x := x) (by decide) hn,
    kw_none (a := 119) (b := 104) (w := [105, 108, 101]) (x := x) (by decide) hn, isVar_of hx, if_true, hk]
  rw [afterWs_blank h1 (op_solid _ _)]
  exact varStmt_eq m x n o σ h2 h4 hu

theorem stmt_if (m d : Nat) (σ : Store) {x : Nat} {b1 b2 s : List Nat} (hx : Var x) (h1 : Blank b1) (h1' : b1 ≠ []) (h2 : Blank b2)
    (hs : Solid s) : run (m + 1) d .stmt σ (105 :: 102 :: (b1 ++ x :: (b2 ++ s))) =
      if σ x = 0 then
        andThen (skipGo σ m 0 s) fun σ s =>
          match kw [101, 108, 115, 101] s with
          | some s => afterWs s (execBody m d σ)
          | none => some (.ok σ s)
      else
        andThen (execBody m d σ s) fun σ s =>
          match kw [101, 108, 115, 101] s with
          | some s => afterWs s (skipGo σ m 0)
          | none => some (.ok σ s) := by
  have hk := kw_append [105, 102] (noAlpha_blank_ne h1 h1' (x :: (b2 ++ s)))
  simp only [List.cons_append, List.nil_append] at hk
  simp only [run, hk]
  rw [afterWs_blank h1 (letter_solid hx _)]
  simp only [isVar_of hx, if_true]
  rw [afterWs_blank h2 hs]
  rfl

theorem stmt_while (m d : Nat) (σ : Store) {x : Nat} {b1 b2 s : List Nat} (hx : Var x) (h1 : Blank b1) (h1' : b1 ≠ []) (h2 : Blank b2)
    (hs : Solid s) : run (m + 1) d .stmt σ (119 :: 104 :: 105 :: 108 :: 101 :: (b1 ++ x :: (b2 ++ s))) = run m d (.loop x) σ s := by
  have hk := kw_append [119, 104, 105, 108, 101] (noAlpha_blank_ne h1 h1' (x :: (b2 ++ s)))
  have hi : kw [105, 102] (119 :: 104 :: 105 :: 108 :: 101 :: (b1 ++ x :: (b2 ++ s))) = none := kw_none_head (by omega)
  simp only [List.cons_append, List.nil_append] at hk
  simp only [run, hk, hi]
  rw [afterWs_blank h1 (letter_solid hx _)]
  simp only [isVar_of hx, if_true]
  rw [afterWs_blank h2 hs]

theorem run_loop (m d x : Nat) (σ : Store) (s : List Nat) : run (m + 1) d (.loop x) σ s =
    if σ x = 0 then skipGo σ m 0 s else andThen (execBody m d σ s) fun σ _ => run m d (.loop x) σ s := by
  simp only [run]; rfl

theorem run_seq (m d : Nat) (b : Bool) (σ : Store) {c : Nat} (hc : c ≠ 125) (s : List Nat) : run (m + 1) d (.seq b) σ (c :: s) =
    if b = true ∧ 1024 ≤ d then some .err
    else andThen (run m (d + b.toNat) .stmt σ (c :: s)) fun σ s => run m d (.seq b) σ s := by
  cases b with
  | false => simp [run]
  | true => simp [run, lit, hc.symm]

theorem run_end {b : Bool} {s s2 : List Nat} (h : Follow b s s2) (m d : Nat) (σ : Store) :
    run (m + 1) d (.seq b) σ s = some (.ok σ s2) := by
  cases b with
  | false => obtain ⟨rfl, rfl⟩ := h; rfl
  | true => obtain ⟨u, rfl, hu⟩ := h; simp [run, lit, afterWs, hu]

/-! ## Programs that end -/

/-- With enough steps. -/
def Ev (f : Nat → Option Res) (r : Res) : Prop := ∃ n, ∀ m, n ≤ m → f m = some r

theorem Ev.succ {f g : Nat → Option Res} {r : Res} (h : Ev g r) (e : ∀ m, f (m + 1) = g m) : Ev f r := by
  obtain ⟨n, h⟩ := h
  refine ⟨n + 1, fun m hm => ?_⟩
  obtain ⟨m, rfl⟩ : ∃ m', m = m' + 1 := ⟨m - 1, by omega⟩
  rw [e]; exact h m (by omega)

theorem Ev.congr {f g : Nat → Option Res} {r : Res} (h : Ev g r) (e : ∀ m, f m = g m) : Ev f r := by
  obtain ⟨n, h⟩ := h
  exact ⟨n, fun m hm => by rw [e]; exact h m hm⟩

theorem Ev.andThen {f : Nat → Option Res} {k : Nat → Store → List Nat → Option Res} {σ : Store} {s : List Nat} {r : Res}
    (h : Ev f (.ok σ s)) (hk : Ev (fun m => k m σ s) r) : Ev (fun m => andThen (f m) (k m)) r := by
  obtain ⟨n1, h1⟩ := h
  obtain ⟨n2, h2⟩ := hk
  refine ⟨max n1 n2, fun m hm => ?_⟩
  simp only [Tm.andThen, h1 m (by omega)]
  exact h2 m (by omega)

theorem Ev.const {r : Res} : Ev (fun _ => some r) r := ⟨0, fun _ _ => rfl⟩

/-- The values of the variables are values of an `int`. -/
def Fits (σ : Store) : Prop := ∀ x, fits (σ x) = true

theorem assign_ev {o : Op} {x n : Nat} {σ : Store} {u : List Nat} (hf : Fits σ) (h : Small o (σ x) n) :
    Ev (fun m => assign m o x n σ u) (.ok (fun y => if y = x then o.apply (σ x) n else σ y) u) := by
  refine ⟨(σ x).toNat + 1, fun m hm => ?_⟩
  have hx := hf x
  simp [fits] at hx
  obtain ⟨h1, h2, h3⟩ := h
  show assign m o x n σ u = _
  unfold assign
  rw [if_neg, if_pos (by simp [fits]; omega)]
  · rfl
  · rintro ⟨ho, hr⟩
    rw [reset_eq (h3 ho) (by omega) (by omega)] at hr
    simp at hr

theorem assign_fits {o : Op} {x n : Nat} {σ : Store} (hf : Fits σ) (h : Small o (σ x) n) :
    Fits (fun y => if y = x then o.apply (σ x) n else σ y) := by
  intro y
  by_cases hy : y = x
  · simp only [hy, if_true]; simp [fits]; exact ⟨h.1, h.2.1⟩
  · simp only [hy, if_false]; exact hf y

theorem runs_fits {p : Prog} {σ τ : Store} (h : Runs Small p σ τ) (hf : Fits σ) : Fits τ := by
  induction h with
  | nil => exact hf
  | op h1 h2 ih => exact ih (assign_fits hf h1)
  | iteTrue h0 h1 h2 ih1 ih2 => exact ih2 (ih1 hf)
  | iteFalse h0 h1 h2 ih1 ih2 => exact ih2 (ih1 hf)
  | loopEnd h0 h1 ih1 => exact ih1 hf
  | loopMore h0 h1 h2 ih1 ih2 => exact ih2 (ih1 hf)

/-- A statement, and those after it. -/
theorem seq_ev {b : Bool} {d c : Nat} {s u s2 : List Nat} {σ ρ τ : Store} (hc : c ≠ 125) (hd : d + b.toNat ≤ 1024)
    (h1 : Ev (fun m => run m (d + b.toNat) .stmt σ (c :: s)) (.ok ρ u)) (h2 : Ev (fun m => run m d (.seq b) ρ u) (.ok τ s2)) :
    Ev (fun m => run m d (.seq b) σ (c :: s)) (.ok τ s2) := by
  refine Ev.succ (h1.andThen (k := fun m σ s => run m d (.seq b) σ s) h2) fun m => ?_
  rw [run_seq m d b σ hc, if_neg (by rintro ⟨rfl, h⟩; simp at hd; omega)]

/-- The execution of a body. -/
theorem body_ev {t : List Nat} {p : Prog} (h : Reads true t p) {b1 b2 s : List Nat} (h1 : Blank b1) (h2 : Blank b2) (hs : Solid s)
    {d : Nat} {σ τ : Store} (ih : ∀ {u s2}, Follow true u s2 → Ev (fun m => run m d (.seq true) σ (t ++ u)) (.ok τ s2)) :
    Ev (fun m => execBody m d σ (bodyText b1 t b2 ++ s)) (.ok τ s) := by
  refine (ih (u := 125 :: (b2 ++ s)) ⟨_, rfl, ?_⟩).congr fun m => execBody_eq h h1 m d σ b2 s
  rw [ws_blank h2]; exact hs

theorem skip_ev {tight : Bool} {t : List Nat} {p : Prog} (h : Reads tight t p) {b1 b2 s : List Nat} (h1 : Blank b1) (h2 : Blank b2)
    (hs : Solid s) (σ : Store) : Ev (fun m => skipGo σ m 0 (bodyText b1 t b2 ++ s)) (.ok σ s) := by
  obtain ⟨k, hk⟩ := skip_body h h1 h2 hs
  exact ⟨k, hk σ⟩

theorem complete {p : Prog} {σ τ : Store} (h : Runs Small p σ τ) : Fits σ →
    (∀ {t : List Nat} {b : Bool} {d : Nat} {s s2 : List Nat}, Reads true t p → Follow b s s2 → d + b.toNat + p.nesting ≤ 1024 →
      Ev (fun m => run m d (.seq b) σ (t ++ s)) (.ok τ s2)) ∧
    (∀ {x : Nat} {a rest : Prog}, p = .loop x a rest → ∀ {t1 t b3 b4 : List Nat} {b : Bool} {d : Nat} {s s2 : List Nat}, Reads true t1 a →
      Reads true t rest → Blank b3 → Blank b4 → Follow b s s2 → d + b.toNat + p.nesting ≤ 1024 →
      ∃ ρ, Ev (fun m => run m (d + b.toNat) (.loop x) σ (bodyText b3 t1 b4 ++ (t ++ s))) (.ok ρ (t ++ s)) ∧
        Ev (fun m => run m d (.seq b) ρ (t ++ s)) (.ok τ s2)) := by
  -- a loop as a statement
  have loopA : ∀ {x : Nat} {a rest : Prog} {σ τ : Store}, (∀ {t1 t b3 b4 : List Nat} {b : Bool} {d : Nat} {s s2 : List Nat}, Reads true t1 a →
      Reads true t rest → Blank b3 → Blank b4 → Follow b s s2 → d + b.toNat + (Prog.loop x a rest).nesting ≤ 1024 →
      ∃ ρ, Ev (fun m => run m (d + b.toNat) (.loop x) σ (bodyText b3 t1 b4 ++ (t ++ s))) (.ok ρ (t ++ s)) ∧
        Ev (fun m => run m d (.seq b) ρ (t ++ s)) (.ok τ s2)) →
      ∀ {t : List Nat} {b : Bool} {d : Nat} {s s2 : List Nat}, Reads true t (.loop x a rest) → Follow b s s2 →
        d + b.toNat + (Prog.loop x a rest).nesting ≤ 1024 → Ev (fun m => run m d (.seq b) σ (t ++ s)) (.ok τ s2) := by
    intro x a rest σ τ hB t b d s s2 hr hf hd
    cases hr with
    | loop hx h1 h1' h2 h3 h4 hr1 hr2 =>
      rename_i b1 b2 b3 b4 t1 t
      obtain ⟨ρ, g1, g2⟩ := hB hr1 hr2 h3 h4 hf hd
      have e : 119 :: 104 :: 105 :: 108 :: 101 :: (b1 ++ x :: (b2 ++ (bodyText b3 t1 b4 ++ t))) ++ s =
        119 :: 104 :: 105 :: 108 :: 101 :: (b1 ++ x :: (b2 ++ (bodyText b3 t1 b4 ++ (t ++ s)))) := by simp
      rw [e]
      exact seq_ev (by omega) (by omega) (g1.succ fun m => stmt_while m _ σ hx h1 h1' h2 (body_solid _ _ _ _)) g2
  induction h with
  | nil =>
    refine fun hfit => ⟨fun hr hf _ => ?_, fun e => by simp at e⟩
    cases hr
    exact ⟨1, fun m hm => by obtain ⟨m, rfl⟩ : ∃ m', m = m' + 1 := ⟨m - 1, by omega⟩; exact run_end hf _ _ _⟩
  | op h1 h2 ih =>
    rename_i o x n rest σ τ
    refine fun hfit => ⟨fun {t b d s s2} hr hf hd => ?_, fun e => by simp at e⟩
    cases hr with
    | op hx g1 g2 g3 g4 g5 hr =>
      rename_i b1 b2 b3 b4 t
      obtain rfl := g5 rfl
      have hu := reads_solid hr (follow_solid hf)
      have e : x :: (b1 ++ (o.text ++ (b2 ++ (List.replicate n 124 ++ ([] ++ 59 :: (b4 ++ t)))))) ++ s =
        x :: (b1 ++ (o.text ++ (b2 ++ (List.replicate n 124 ++ 59 :: (b4 ++ (t ++ s)))))) := by simp
      rw [e]
      refine seq_ev (by unfold Var at hx; omega) (by omega) ((assign_ev hfit h1).succ fun m => stmt_op m _ σ hx g1 g2 g4 hu) ?_
      exact (ih (assign_fits hfit h1)).1 hr hf hd
  | iteTrue h0 h1 h2 ih1 ih2 =>
    rename_i x a b' rest σ ρ τ
    refine fun hfit => ⟨fun {t b d s s2} hr hf hd => ?_, fun e => by simp at e⟩
    have hfit2 := runs_fits h1 hfit
    simp only [Prog.nesting] at hd
    cases hr with
    | ite hx g1 g1' g2 g3 g4 hr1 hr =>
      rename_i b1 b2 b3 b4 t1 t
      have hu := reads_solid hr (follow_solid hf)
      have e : 105 :: 102 :: (b1 ++ x :: (b2 ++ (bodyText b3 t1 b4 ++ t))) ++ s =
        105 :: 102 :: (b1 ++ x :: (b2 ++ (bodyText b3 t1 b4 ++ (t ++ s)))) := by simp
      rw [e]
      refine seq_ev (ρ := ρ) (u := t ++ s) (by omega) (by omega) ?_ ((ih2 hfit2).1 hr hf (by omega))
      refine Ev.succ ?_ fun m => (stmt_if m _ σ hx g1 g1' g2 (body_solid _ _ _ _)).trans (if_neg h0)
      refine Ev.andThen (body_ev hr1 g3 g4 hu fun hf' => (ih1 hfit).1 hr1 hf' (by simp; omega)) ?_
      exact Ev.const.congr fun m => by rw [else_none hr hf]
    | iteElse hx g1 g1' g2 g3 g4 g5 g6 g7 hr1 hr2 hr =>
      rename_i b1 b2 b3 b4 b5 b6 b7 t1 t2 t
      have hu := reads_solid hr (follow_solid hf)
      have e : 105 :: 102 :: (b1 ++ x :: (b2 ++ (bodyText b3 t1 b4 ++ 101 :: 108 :: 115 :: 101 :: (b5 ++ (bodyText b6 t2 b7 ++ t))))) ++ s =
        105 :: 102 :: (b1 ++ x :: (b2 ++ (bodyText b3 t1 b4 ++ 101 :: 108 :: 115 :: 101 :: (b5 ++ (bodyText b6 t2 b7 ++ (t ++ s)))))) := by simp
      rw [e]
      refine seq_ev (ρ := ρ) (u := t ++ s) (by omega) (by omega) ?_ ((ih2 hfit2).1 hr hf (by omega))
      refine Ev.succ ?_ fun m => (stmt_if m _ σ hx g1 g1' g2 (body_solid _ _ _ _)).trans (if_neg h0)
      refine Ev.andThen (body_ev hr1 g3 g4 (solid_cons (by omega) (by omega)) fun hf' => (ih1 hfit).1 hr1 hf' (by simp; omega)) ?_
      have hk := kw_append [101, 108, 115, 101] (noAlpha_blank g5 (noAlpha_body b6 t2 b7 (t ++ s)))
      simp only [List.cons_append, List.nil_append] at hk
      refine (skip_ev hr2 g6 g7 hu ρ).congr fun m => ?_
      simp only [hk]
      exact afterWs_blank g5 (body_solid _ _ _ _) _
  | iteFalse h0 h1 h2 ih1 ih2 =>
    rename_i x a b' rest σ ρ τ
    refine fun hfit => ⟨fun {t b d s s2} hr hf hd => ?_, fun e => by simp at e⟩
    have hfit2 := runs_fits h1 hfit
    simp only [Prog.nesting] at hd
    cases hr with
    | ite hx g1 g1' g2 g3 g4 hr1 hr =>
      rename_i b1 b2 b3 b4 t1 t
      have hu := reads_solid hr (follow_solid hf)
      have e : 105 :: 102 :: (b1 ++ x :: (b2 ++ (bodyText b3 t1 b4 ++ t))) ++ s =
        105 :: 102 :: (b1 ++ x :: (b2 ++ (bodyText b3 t1 b4 ++ (t ++ s)))) := by simp
      rw [e]
      have : ρ = σ := by cases h1; rfl
      subst this
      refine seq_ev (u := t ++ s) (by omega) (by omega) ?_ ((ih2 hfit2).1 hr hf (by omega))
      refine Ev.succ ?_ fun m => (stmt_if m _ _ hx g1 g1' g2 (body_solid _ _ _ _)).trans (if_pos h0)
      refine Ev.andThen (skip_ev hr1 g3 g4 hu _) ?_
      exact Ev.const.congr fun m => by rw [else_none hr hf]
    | iteElse hx g1 g1' g2 g3 g4 g5 g6 g7 hr1 hr2 hr =>
      rename_i b1 b2 b3 b4 b5 b6 b7 t1 t2 t
      have hu := reads_solid hr (follow_solid hf)
      have e : 105 :: 102 :: (b1 ++ x :: (b2 ++ (bodyText b3 t1 b4 ++ 101 :: 108 :: 115 :: 101 :: (b5 ++ (bodyText b6 t2 b7 ++ t))))) ++ s =
        105 :: 102 :: (b1 ++ x :: (b2 ++ (bodyText b3 t1 b4 ++ 101 :: 108 :: 115 :: 101 :: (b5 ++ (bodyText b6 t2 b7 ++ (t ++ s)))))) := by simp
      rw [e]
      refine seq_ev (ρ := ρ) (u := t ++ s) (by omega) (by omega) ?_ ((ih2 hfit2).1 hr hf (by omega))
      refine Ev.succ ?_ fun m => (stmt_if m _ σ hx g1 g1' g2 (body_solid _ _ _ _)).trans (if_pos h0)
      refine Ev.andThen (skip_ev hr1 g3 g4 (solid_cons (by omega) (by omega)) σ) ?_
      have hk := kw_append [101, 108, 115, 101] (noAlpha_blank g5 (noAlpha_body b6 t2 b7 (t ++ s)))
      simp only [List.cons_append, List.nil_append] at hk
      refine (body_ev (d := d + b.toNat) hr2 g6 g7 hu fun hf' => (ih1 hfit).1 hr2 hf' (by simp; omega)).congr fun m => ?_
      simp only [hk]
      exact afterWs_blank g5 (body_solid _ _ _ _) _
  | loopEnd h0 h1 ih1 =>
    rename_i x a rest σ τ
    intro hfit
    have hB : ∀ {t1 t b3 b4 : List Nat} {b : Bool} {d : Nat} {s s2 : List Nat}, Reads true t1 a →
      Reads true t rest → Blank b3 → Blank b4 → Follow b s s2 → d + b.toNat + (Prog.loop x a rest).nesting ≤ 1024 →
      ∃ ρ, Ev (fun m => run m (d + b.toNat) (.loop x) σ (bodyText b3 t1 b4 ++ (t ++ s))) (.ok ρ (t ++ s)) ∧
        Ev (fun m => run m d (.seq b) ρ (t ++ s)) (.ok τ s2) := by
      intro t1 t b3 b4 b d s s2 hr1 hr h3 h4 hf hd
      simp only [Prog.nesting] at hd
      have hu := reads_solid hr (follow_solid hf)
      refine ⟨σ, Ev.succ (skip_ev hr1 h3 h4 hu σ) fun m => (run_loop m _ x σ _).trans (if_pos h0), ?_⟩
      exact (ih1 hfit).1 hr hf (by omega)
    exact ⟨loopA hB, fun e => by cases e; exact hB⟩
  | loopMore h0 h1 h2 ih1 ih2 =>
    rename_i x a rest σ ρ τ
    intro hfit
    have hfit2 := runs_fits h1 hfit
    have hB : ∀ {t1 t b3 b4 : List Nat} {b : Bool} {d : Nat} {s s2 : List Nat}, Reads true t1 a →
      Reads true t rest → Blank b3 → Blank b4 → Follow b s s2 → d + b.toNat + (Prog.loop x a rest).nesting ≤ 1024 →
      ∃ ρ, Ev (fun m => run m (d + b.toNat) (.loop x) σ (bodyText b3 t1 b4 ++ (t ++ s))) (.ok ρ (t ++ s)) ∧
        Ev (fun m => run m d (.seq b) ρ (t ++ s)) (.ok τ s2) := by
      intro t1 t b3 b4 b d s s2 hr1 hr h3 h4 hf hd
      have hu := reads_solid hr (follow_solid hf)
      obtain ⟨ρ', g1, g2⟩ := (ih2 hfit2).2 rfl hr1 hr h3 h4 hf hd
      simp only [Prog.nesting] at hd
      refine ⟨ρ', Ev.succ ?_ fun m => (run_loop m _ x σ _).trans (if_neg h0), g2⟩
      refine Ev.andThen (body_ev (d := d + b.toNat) hr1 h3 h4 hu fun hf' => (ih1 hfit).1 hr1 hf' (by simp; omega)) g1
    exact ⟨loopA hB, fun e => by cases e; exact hB⟩

/-! ## Programs with a result -/

theorem assign_some {m : Nat} {o : Op} {x n : Nat} {σ : Store} {u : List Nat} {r : Res} (h : assign m o x n σ u = some r) :
    r = .ok (fun y => if y = x then o.apply (σ x) n else σ y) u ∧ Small o (σ x) n := by
  unfold assign at h
  split at h
  · simp at h
  · next h0 =>
    split at h
    · next h1 =>
      simp only [Option.some.injEq] at h
      simp [fits] at h1
      refine ⟨h.symm, h1.1, h1.2, fun ho => ?_⟩
      cases hr : reset m (σ x) with
      | none => exact absurd ⟨ho, by simp [hr]⟩ h0
      | some w => exact (reset_some hr).2
    · simp at h

theorem andThen_some {f : Option Res} {k : Store → List Nat → Option Res} {r : Res} (h : andThen f k = some r) :
    (f = some .err ∧ r = .err) ∨ ∃ σ s, f = some (.ok σ s) ∧ k σ s = some r := by
  unfold andThen at h
  split at h
  · simp at h
  · exact .inl ⟨rfl, by simpa using h.symm⟩
  · exact .inr ⟨_, _, rfl, h⟩

/-- What is known about runs with at most `m` steps. -/
def Sound (m : Nat) : Prop :=
  (∀ {p : Prog} {t : List Nat} {b : Bool} {d : Nat} {s s2 : List Nat} {σ : Store} {r : Res}, Reads true t p → Follow b s s2 →
    d + b.toNat + p.nesting ≤ 1024 → run m d (.seq b) σ (t ++ s) = some r → ∃ τ, r = .ok τ s2 ∧ Runs Small p σ τ) ∧
  (∀ {x : Nat} {a : Prog} {t1 b3 b4 u : List Nat} {d : Nat} {σ : Store} {r : Res}, Reads true t1 a → Blank b3 → Blank b4 → Solid u →
    d + a.nesting + 1 ≤ 1024 → run m d (.loop x) σ (bodyText b3 t1 b4 ++ u) = some r →
    ∃ ρ, r = .ok ρ u ∧ ∀ {rest : Prog} {τ : Store}, Runs Small rest ρ τ → Runs Small (.loop x a rest) σ τ)

theorem body_sound {m : Nat} (ih : Sound m) {t : List Nat} {p : Prog} (h : Reads true t p) {b1 b2 u : List Nat} (h1 : Blank b1)
    (h2 : Blank b2) (hu : Solid u) {d : Nat} (hd : d + p.nesting + 1 ≤ 1024) {σ : Store} {r : Res}
    (e : execBody m d σ (bodyText b1 t b2 ++ u) = some r) : ∃ τ, r = .ok τ u ∧ Runs Small p σ τ := by
  rw [execBody_eq h h1] at e
  have hf : Follow true (125 :: (b2 ++ u)) u := ⟨_, rfl, by rw [ws_blank h2]; exact hu⟩
  exact ih.1 h hf (by simp; omega) e

theorem seq_sound {m d c : Nat} {b : Bool} (ih : Sound m) {rest : Prog} {t s s2 v : List Nat} (hr : Reads true t rest) (hf : Follow b s s2)
    (hd : d + b.toNat + rest.nesting ≤ 1024) (hc : c ≠ 125) {σ : Store} {r : Res} (e : run (m + 1) d (.seq b) σ (c :: v) = some r)
    {Q : Store → Prop} (h : ∀ r, run m (d + b.toNat) .stmt σ (c :: v) = some r → ∃ ρ, r = .ok ρ (t ++ s) ∧ Q ρ) :
    ∃ ρ τ, r = .ok τ s2 ∧ Q ρ ∧ Runs Small rest ρ τ := by
  rw [run_seq m d b σ hc, if_neg (by rintro ⟨rfl, h⟩; simp at hd; omega)] at e
  rcases andThen_some e with ⟨e1, -⟩ | ⟨ρ, u, e1, e2⟩
  · obtain ⟨ρ, h1, -⟩ := h _ e1
    simp at h1
  · obtain ⟨ρ', h1, h2⟩ := h _ e1
    simp only [Res.ok.injEq] at h1
    obtain ⟨rfl, rfl⟩ := h1
    obtain ⟨τ, rfl, h3⟩ := ih.1 hr hf hd e2
    exact ⟨ρ, τ, rfl, h2, h3⟩

theorem sound (m : Nat) : Sound m := by
  induction m using Nat.strongRecOn with
  | _ m IH =>
  constructor
  · intro p t b d s s2 σ r hr hf hd e
    cases m with
    | zero => simp [run] at e
    | succ m =>
    cases hr with
    | nil =>
      rw [List.nil_append, run_end hf] at e
      exact ⟨σ, by simpa using e.symm, .nil⟩
    | op hx g1 g2 g3 g4 g5 hr =>
      rename_i o x n b1 b2 b3 b4 t rest
      obtain rfl := g5 rfl
      have hu := reads_solid hr (follow_solid hf)
      have he : x :: (b1 ++ (o.text ++ (b2 ++ (List.replicate n 124 ++ ([] ++ 59 :: (b4 ++ t)))))) ++ s =
        x :: (b1 ++ (o.text ++ (b2 ++ (List.replicate n 124 ++ 59 :: (b4 ++ (t ++ s)))))) := by simp
      rw [he] at e
      obtain ⟨ρ, τ, rfl, ⟨rfl, hq⟩, h3⟩ := seq_sound (IH m (by omega)) hr hf hd (by unfold Var at hx; omega) e
        (Q := fun ρ => ρ = (fun y => if y = x then o.apply (σ x) n else σ y) ∧ Small o (σ x) n) (by
          intro r e
          cases m with
          | zero => simp [run] at e
          | succ m =>
            rw [stmt_op m _ σ hx g1 g2 g4 hu] at e
            obtain ⟨rfl, h⟩ := assign_some e
            exact ⟨_, rfl, rfl, h⟩)
      exact ⟨τ, rfl, .op hq h3⟩
    | ite hx g1 g1' g2 g3 g4 hr1 hr =>
      rename_i x b1 b2 b3 b4 t1 t a rest
      have hu := reads_solid hr (follow_solid hf)
      simp only [Prog.nesting] at hd
      have he : 105 :: 102 :: (b1 ++ x :: (b2 ++ (bodyText b3 t1 b4 ++ t))) ++ s =
        105 :: 102 :: (b1 ++ x :: (b2 ++ (bodyText b3 t1 b4 ++ (t ++ s)))) := by simp
      rw [he] at e
      obtain ⟨ρ, τ, rfl, hq, h3⟩ := seq_sound (IH m (by omega)) hr hf (by omega) (by omega) e
        (Q := fun ρ => (σ x = 0 ∧ ρ = σ) ∨ (σ x ≠ 0 ∧ Runs Small a σ ρ)) (by
          intro r e
          cases m with
          | zero => simp [run] at e
          | succ m =>
            rw [stmt_if m _ σ hx g1 g1' g2 (body_solid _ _ _ _)] at e
            split at e
            · next h0 =>
              rcases andThen_some e with ⟨e1, -⟩ | ⟨ρ, u, e1, e2⟩
              · have := skip_body_sound hr1 g3 g4 hu e1
                simp at this
              · have := skip_body_sound hr1 g3 g4 hu e1
                simp only [Res.ok.injEq] at this
                obtain ⟨rfl, rfl⟩ := this
                rw [else_none hr hf] at e2
                exact ⟨ρ, by simpa using e2.symm, .inl ⟨h0, rfl⟩⟩
            · next h0 =>
              rcases andThen_some e with ⟨e1, -⟩ | ⟨ρ, u, e1, e2⟩
              · obtain ⟨_, h, -⟩ := body_sound (IH m (by omega)) hr1 g3 g4 hu (by omega) e1
                simp at h
              · obtain ⟨_, h, h'⟩ := body_sound (IH m (by omega)) hr1 g3 g4 hu (by omega) e1
                simp only [Res.ok.injEq] at h
                obtain ⟨rfl, rfl⟩ := h
                rw [else_none hr hf] at e2
                exact ⟨ρ, by simpa using e2.symm, .inr ⟨h0, h'⟩⟩)
      rcases hq with ⟨h0, rfl⟩ | ⟨h0, hq⟩
      · exact ⟨τ, rfl, .iteFalse h0 .nil h3⟩
      · exact ⟨τ, rfl, .iteTrue h0 hq h3⟩
    | iteElse hx g1 g1' g2 g3 g4 g5 g6 g7 hr1 hr2 hr =>
      rename_i x b1 b2 b3 b4 b5 b6 b7 t1 t2 t a b' rest
      have hu := reads_solid hr (follow_solid hf)
      simp only [Prog.nesting] at hd
      have he : 105 :: 102 :: (b1 ++ x :: (b2 ++ (bodyText b3 t1 b4 ++ 101 :: 108 :: 115 :: 101 :: (b5 ++ (bodyText b6 t2 b7 ++ t))))) ++ s =
        105 :: 102 :: (b1 ++ x :: (b2 ++ (bodyText b3 t1 b4 ++ 101 :: 108 :: 115 :: 101 :: (b5 ++ (bodyText b6 t2 b7 ++ (t ++ s)))))) := by simp
      rw [he] at e
      have hk := kw_append [101, 108, 115, 101] (noAlpha_blank g5 (noAlpha_body b6 t2 b7 (t ++ s)))
      simp only [List.cons_append, List.nil_append] at hk
      have hse : Solid (101 :: 108 :: 115 :: 101 :: (b5 ++ (bodyText b6 t2 b7 ++ (t ++ s)))) := solid_cons (by omega) (by omega)
      obtain ⟨ρ, τ, rfl, hq, h3⟩ := seq_sound (IH m (by omega)) hr hf (by omega) (by omega) e
        (Q := fun ρ => (σ x = 0 ∧ Runs Small b' σ ρ) ∨ (σ x ≠ 0 ∧ Runs Small a σ ρ)) (by
          intro r e
          cases m with
          | zero => simp [run] at e
          | succ m =>
            rw [stmt_if m _ σ hx g1 g1' g2 (body_solid _ _ _ _)] at e
            split at e
            · next h0 =>
              rcases andThen_some e with ⟨e1, -⟩ | ⟨ρ, u, e1, e2⟩
              · have := skip_body_sound hr1 g3 g4 hse e1
                simp at this
              · have := skip_body_sound hr1 g3 g4 hse e1
                simp only [Res.ok.injEq] at this
                obtain ⟨rfl, rfl⟩ := this
                simp only [hk] at e2
                rw [afterWs_blank g5 (body_solid _ _ _ _)] at e2
                obtain ⟨ρ', h, h'⟩ := body_sound (IH m (by omega)) hr2 g6 g7 hu (by omega) e2
                exact ⟨ρ', h, .inl ⟨h0, h'⟩⟩
            · next h0 =>
              rcases andThen_some e with ⟨e1, -⟩ | ⟨ρ, u, e1, e2⟩
              · obtain ⟨_, h, -⟩ := body_sound (IH m (by omega)) hr1 g3 g4 hse (by omega) e1
                simp at h
              · obtain ⟨_, h, h'⟩ := body_sound (IH m (by omega)) hr1 g3 g4 hse (by omega) e1
                simp only [Res.ok.injEq] at h
                obtain ⟨rfl, rfl⟩ := h
                simp only [hk] at e2
                rw [afterWs_blank g5 (body_solid _ _ _ _)] at e2
                exact ⟨ρ, skip_body_sound hr2 g6 g7 hu e2, .inr ⟨h0, h'⟩⟩)
      rcases hq with ⟨h0, hq⟩ | ⟨h0, hq⟩
      · exact ⟨τ, rfl, .iteFalse h0 hq h3⟩
      · exact ⟨τ, rfl, .iteTrue h0 hq h3⟩
    | loop hx g1 g1' g2 g3 g4 hr1 hr =>
      rename_i x b1 b2 b3 b4 t1 t a rest
      have hu := reads_solid hr (follow_solid hf)
      simp only [Prog.nesting] at hd
      have he : 119 :: 104 :: 105 :: 108 :: 101 :: (b1 ++ x :: (b2 ++ (bodyText b3 t1 b4 ++ t))) ++ s =
        119 :: 104 :: 105 :: 108 :: 101 :: (b1 ++ x :: (b2 ++ (bodyText b3 t1 b4 ++ (t ++ s)))) := by simp
      rw [he] at e
      obtain ⟨ρ, τ, rfl, hq, h3⟩ := seq_sound (IH m (by omega)) hr hf (by omega) (by omega) e
        (Q := fun ρ => ∀ {rest : Prog} {τ : Store}, Runs Small rest ρ τ → Runs Small (.loop x a rest) σ τ) (by
          intro r e
          cases m with
          | zero => simp [run] at e
          | succ m =>
            rw [stmt_while m _ σ hx g1 g1' g2 (body_solid _ _ _ _)] at e
            exact (IH m (by omega)).2 hr1 g3 g4 hu (by omega) e)
      exact ⟨τ, rfl, hq h3⟩
  · intro x a t1 b3 b4 u d σ r hr h3 h4 hu hd e
    cases m with
    | zero => simp [run] at e
    | succ m =>
    rw [run_loop] at e
    split at e
    · next h0 => exact ⟨σ, skip_body_sound hr h3 h4 hu e, fun h => .loopEnd h0 h⟩
    · next h0 =>
      rcases andThen_some e with ⟨e1, -⟩ | ⟨ρ, v, e1, e2⟩
      · obtain ⟨_, h, -⟩ := body_sound (IH m (by omega)) hr h3 h4 hu (by omega) e1
        simp at h
      · obtain ⟨_, h, h'⟩ := body_sound (IH m (by omega)) hr h3 h4 hu (by omega) e1
        simp only [Res.ok.injEq] at h
        obtain ⟨rfl, rfl⟩ := h
        obtain ⟨ρ', rfl, h2⟩ := (IH m (by omega)).2 hr h3 h4 hu hd e2
        exact ⟨ρ', rfl, fun h => .loopMore h0 h' (h2 h)⟩

/-! ## The claims -/

/-- **C103.** The text of a program is never rejected, it has no other result than that of the program, and it has that if the
    program ends; for programs without white space after numbers, whose statements are nested at most 1024 deep, and in which the
    values are those of an `int` and variables that are assigned to with `:=` are not negative. -/
theorem C103_program_partial {s : List Nat} {p : Prog} (h : Text true s p) (hd : p.nesting ≤ 1024) :
    (∀ n, program n s ≠ some .error) ∧
    (∀ n v, program n s = some (.result v) → Result Small p v) ∧
    (∀ v, Result Small p v → ∃ n, ∀ m, n ≤ m → program m s = some (.result v)) := by
  obtain ⟨b, t, rfl, hb, ht⟩ := h
  have hs : ws t = some t := by
    have := reads_solid ht solid_nil
    rwa [List.append_nil] at this
  have hp : ∀ n, program n (b ++ t) = match run n 0 (.seq false) (fun _ => 0) t with
      | none => none
      | some .err => some .error
      | some (.ok σ _) => some (.result (σ 111)) := by
    intro n; unfold program; simp only [ws_blank hb, hs]
    cases run n 0 (.seq false) (fun _ => 0) t with
    | none => rfl
    | some r => cases r <;> rfl
  have hf : Follow false [] [] := ⟨rfl, rfl⟩
  have key : ∀ n r, run n 0 (.seq false) (fun _ => 0) t = some r → ∃ τ, r = .ok τ [] ∧ Runs Small p (fun _ => 0) τ := by
    intro n r e
    exact (sound n).1 (d := 0) ht hf (by simpa using hd) (by rwa [List.append_nil])
  refine ⟨fun n e => ?_, fun n v e => ?_, fun v ⟨τ, h1, h2⟩ => ?_⟩
  · rw [hp] at e
    split at e
    · simp at e
    · next h => obtain ⟨τ, h, -⟩ := key _ _ h; simp at h
    · simp at e
  · rw [hp] at e
    split at e
    · simp at e
    · simp at e
    · next h =>
      obtain ⟨τ, h1, h2⟩ := key _ _ h
      simp only [Res.ok.injEq] at h1
      obtain ⟨rfl, -⟩ := h1
      exact ⟨_, h2, by simpa using e⟩
  · obtain ⟨n, hn⟩ := (complete h1 (fun _ => by decide)).1 ht hf (d := 0) (by simpa using hd)
    rw [List.append_nil] at hn
    refine ⟨n, fun m hm => ?_⟩
    rw [hp]
    have := hn m hm
    simp only at this
    simp only [this, h2]

theorem blanks (n : Nat) : Blank (List.replicate n 32) := by
  induction n with
  | zero => exact .nil
  | succ n ih => exact .space (.inl rfl) ih

/-- **A space after a number is counted as a mark**: `o := || ;` has the result 3.  `number` is a token production; the white space
    after it is skipped before its length is taken (action/base.hpp l.176-194, context_counter.hpp l.61-81). -/
theorem C103_number_refuted : ¬ ∀ s p n v, Text false s p → program n s = some (.result v) → Result Any p v := by
  intro h
  have ht : Text false [111, 32, 58, 61, 32, 124, 124, 32, 59] (.op .set 111 2 .nil) :=
    ⟨[], _, rfl, .nil, Reads.op (o := .set) (n := 2) (b1 := [32]) (b2 := [32]) (b3 := [32]) (b4 := []) (t := []) (by unfold Var; omega)
      (blanks 1) (blanks 1) (blanks 1) .nil (by simp) .nil⟩
  obtain ⟨τ, h1, h2⟩ := h _ _ 10 3 ht (by decide +kernel)
  cases h1 with
  | op _ h1 =>
    cases h1
    simp [Op.apply] at h2

/-- **Assigning to a negative variable does not end**, other than by undefined behavior: after `a -= |;`, the loop in `a := ;`
    decrements `a` until it overflows (turing.cpp l.106-109). -/
theorem C103_negative_refuted : ¬ ∀ s p v, Text true s p → Result Any p v → ∃ n, program n s = some (.result v) := by
  intro h
  have ht : Text true [97, 45, 61, 124, 59, 97, 58, 61, 59] (.op .sub 97 1 (.op .set 97 0 .nil)) :=
    ⟨[], _, rfl, .nil, Reads.op (o := .sub) (n := 1) (b1 := []) (b2 := []) (b3 := []) (b4 := []) (t := [97, 58, 61, 59])
      (by unfold Var; omega) .nil .nil .nil .nil (by simp)
      (Reads.op (o := .set) (n := 0) (b1 := []) (b2 := []) (b3 := []) (b4 := []) (t := []) (by unfold Var; omega) .nil .nil .nil .nil
        (by simp) .nil)⟩
  obtain ⟨n, hn⟩ := h _ _ 0 ht ⟨_, .op trivial (.op trivial .nil), rfl⟩
  obtain ⟨τ, h1, -⟩ := (C103_program_partial ht (by decide)).2.1 n 0 hn
  cases h1 with
  | op _ h1 =>
    cases h1 with
    | op h1 _ =>
      have := h1.2.2 rfl
      simp [Op.apply] at this

theorem reads_mem {t : List Nat} {p : Prog} (h : Reads false t p) : t = [] ∨ 59 ∈ t ∨ 125 ∈ t := by
  cases h with
  | nil => exact .inl rfl
  | op => exact .inr (.inl (by simp))
  | _ => exact .inr (.inr (by simp [bodyText]))

/-- **Texts that are no programs are executed**: a body that is not executed is not checked, not even that it is in brackets.
    `if a b` has the result 0. -/
theorem C103_syntax_refuted : ¬ ∀ s n v, program n s = some (.result v) → ∃ p, Text false s p := by
  intro h
  obtain ⟨p, b, t, e, hb, ht⟩ := h [105, 102, 32, 97, 32, 98] 10 0 (by decide +kernel)
  rcases reads_mem ht with rfl | h | h
  · rw [List.append_nil] at e
    rw [← e] at hb
    cases hb with
    | space hc => omega
  · have : 59 ∈ b ++ t := by simp [h]
    rw [← e] at this; simp at this
  · have : 125 ∈ b ++ t := by simp [h]
    rw [← e] at this; simp at this

/-! ## Examples -/

/-- `a := ||||; while a { a -= |; o += ||; }` has the result 8. -/
def Ex.double : Prog := .op .set 97 4 (.loop 97 (.op .sub 97 1 (.op .add 111 2 .nil)) .nil)

def Ex.doubleText : List Nat := [97, 32, 58, 61, 32, 124, 124, 124, 124, 59, 32, 119, 104, 105, 108, 101, 32, 97, 32, 123, 32, 97, 32, 45, 61, 32, 124, 59, 32, 47, 47, 32, 99, 111, 109, 109, 101, 110, 116, 32, 125, 10, 32, 111, 32, 43, 61, 32, 124, 124, 59, 32, 125]

example : Text true Ex.doubleText Ex.double ∧ Ex.double.nesting ≤ 1024 ∧ program 200 Ex.doubleText = some (.result 8) := by
  refine ⟨⟨[], _, rfl, .nil, ?_⟩, by decide, by decide +kernel⟩
  refine Reads.op (o := .set) (n := 4) (b1 := [32]) (b2 := [32]) (b3 := []) (b4 := [32]) (by unfold Var; omega) (blanks 1) (blanks 1) .nil
    (blanks 1) (by simp) ?_
  refine Reads.loop (b1 := [32]) (b2 := [32]) (b3 := [32]) (b4 := []) (t := [])
    (t1 := [97, 32, 45, 61, 32, 124, 59, 32, 47, 47, 32, 99, 111, 109, 109, 101, 110, 116, 32, 125, 10, 32, 111, 32, 43, 61, 32, 124, 124, 59, 32]) (by unfold Var; omega) (blanks 1) (by simp) (blanks 1) (blanks 1) .nil ?_ .nil
  refine Reads.op (o := .sub) (n := 1) (b1 := [32]) (b2 := [32]) (b3 := []) (b4 := [32, 47, 47, 32, 99, 111, 109, 109, 101, 110, 116, 32, 125, 10, 32]) (by unfold Var; omega)
    (blanks 1) (blanks 1) .nil (.space (.inl rfl) (.comment (t := [32, 99, 111, 109, 109, 101, 110, 116, 32, 125]) (c := 10) (by decide) (.inl rfl) (blanks 1))) (by simp) ?_
  exact Reads.op (o := .add) (n := 2) (b1 := [32]) (b2 := [32]) (b3 := []) (b4 := [32]) (t := []) (by unfold Var; omega)
    (blanks 1) (blanks 1) .nil (blanks 1) (by simp) .nil

/-- The program for the 6th number of Fibonacci of the tests, with comments in between. -/
def Ex.fib : List Nat := ("i := ||||||;\n a := ;\n b := |;\n while i {\n i -= |;\n // c := a;\n c := ;\n while a { a -= |; c += |; }\n x := ;\n" ++
  "while b { b -= |; c += |; x += |; }\n a := ;\n while x { x -= |; a += |; }\n b := ;\n while c { c -= |; b += |; }\n}\n" ++
  "while a { a -= |; o += |; }\n").toList.map Char.toNat

example : program 300 Ex.fib = some (.result 8) := by decide +kernel

/-- Branches. -/
example : program 100 ("if a { o := |; } else { o := ||; }".toList.map Char.toNat) = some (.result 2) ∧
    program 100 ("a := |; if a { o := |; } else { if b { } o := ||; }".toList.map Char.toNat) = some (.result 1) ∧
    program 100 ("if ä { }".toList.map Char.toNat) = some .error ∧
    program 100 ("o := | // no newline".toList.map Char.toNat) = some .error := by
  decide +kernel

end Verif.Tm
