import Verif.TuringProps

/-
C103: what the Turing example executes is written in its input.
-/

namespace Verif.Spec.Tm

/-- White space up to the next symbol. -/
def Sp (s r : List Nat) : Prop := ∃ b, Blank b ∧ s = b ++ r

/-- A word that is not continued by a letter. -/
def Key (w s r : List Nat) : Prop := s = w ++ r ∧ ∀ c u, r = c :: u → ¬ (65 ≤ c ∧ c ≤ 90 ∨ 97 ≤ c ∧ c ≤ 122)

/-- What a symbol does to the number of open brackets. -/
def delta (c : Nat) : Int := if c = 123 then 1 else if c = 125 then -1 else 0

/-- Skipping: symbols, that are ASCII characters, until as many brackets are closed as have been opened. -/
inductive Skipped : Int → List Nat → List Nat → Prop
  | last {d : Int} {c : Nat} {s r : List Nat} : c < 128 → Sp s r → d + delta c = 0 → Skipped d (c :: s) r
  | more {d : Int} {c : Nat} {s r q : List Nat} : c < 128 → Sp s r → d + delta c ≠ 0 → Skipped (d + delta c) r q → Skipped d (c :: s) q

/-- The parts of a program. -/
inductive Part
  | prog | stmt | body | rest | loop (x : Nat)

/-- Execution of a text: from the values of the variables and the input to those after it.  A body that is not executed is skipped.
    What is assigned is the number of marks and of the characters of the white space behind them (this is wrong, see
    `C103_number_refuted`). -/
inductive Exec : Part → (Nat → Int) → List Nat → (Nat → Int) → List Nat → Prop
  | done {σ : Nat → Int} : Exec .prog σ [] σ []
  | next {σ ρ τ : Nat → Int} {s r q : List Nat} : Exec .stmt σ s ρ r → Exec .prog ρ r τ q → Exec .prog σ s τ q
  | body {σ τ : Nat → Int} {s r q : List Nat} : Sp s r → Exec .rest σ r τ q → Exec .body σ (123 :: s) τ q
  | close {σ : Nat → Int} {s r : List Nat} : Sp s r → Exec .rest σ (125 :: s) σ r
  | rest {σ ρ τ : Nat → Int} {s r q : List Nat} : Exec .stmt σ s ρ r → Exec .rest ρ r τ q → Exec .rest σ s τ q
  | op {σ : Nat → Int} {o : Op} {x n : Nat} {b s1 s2 s3 r : List Nat} : Var x → Sp s1 (o.text ++ s2) →
      Sp s2 (List.replicate n 124 ++ (b ++ 59 :: s3)) → Blank b → Sp s3 r →
      Exec .stmt σ (x :: s1) (fun y => if y = x then o.apply (σ x) (n + b.length) else σ y) r
  | ifTrue {σ τ : Nat → Int} {x : Nat} {s s1 s2 s3 r : List Nat} : Key [105, 102] s s1 → Sp s1 (x :: s2) → Var x → Sp s2 s3 →
      σ x ≠ 0 → Exec .body σ s3 τ r → (∀ u, ¬ Key [101, 108, 115, 101] r u) → Exec .stmt σ s τ r
  | ifTrueElse {σ τ : Nat → Int} {x : Nat} {s s1 s2 s3 s4 s5 s6 r : List Nat} : Key [105, 102] s s1 → Sp s1 (x :: s2) → Var x →
      Sp s2 s3 → σ x ≠ 0 → Exec .body σ s3 τ s4 → Key [101, 108, 115, 101] s4 s5 → Sp s5 s6 → Skipped 0 s6 r → Exec .stmt σ s τ r
  | ifFalse {σ : Nat → Int} {x : Nat} {s s1 s2 s3 r : List Nat} : Key [105, 102] s s1 → Sp s1 (x :: s2) → Var x → Sp s2 s3 →
      σ x = 0 → Skipped 0 s3 r → (∀ u, ¬ Key [101, 108, 115, 101] r u) → Exec .stmt σ s σ r
  | ifFalseElse {σ τ : Nat → Int} {x : Nat} {s s1 s2 s3 s4 s5 s6 r : List Nat} : Key [105, 102] s s1 → Sp s1 (x :: s2) → Var x →
      Sp s2 s3 → σ x = 0 → Skipped 0 s3 s4 → Key [101, 108, 115, 101] s4 s5 → Sp s5 s6 → Exec .body σ s6 τ r → Exec .stmt σ s τ r
  | while {σ τ : Nat → Int} {x : Nat} {s s1 s2 s3 r : List Nat} : Key [119, 104, 105, 108, 101] s s1 → Sp s1 (x :: s2) → Var x →
      Sp s2 s3 → Exec (.loop x) σ s3 τ r → Exec .stmt σ s τ r
  | loopEnd {σ : Nat → Int} {x : Nat} {s r : List Nat} : σ x = 0 → Skipped 0 s r → Exec (.loop x) σ s σ r
  | loopMore {σ ρ τ : Nat → Int} {x : Nat} {s r q : List Nat} : σ x ≠ 0 → Exec .body σ s ρ q → Exec (.loop x) ρ s τ r →
      Exec (.loop x) σ s τ r

end Verif.Spec.Tm

namespace Verif.Tm
open Verif.Spec.Tm

theorem wsGo_some : ∀ (s : List Nat) (c : Bool) (r : List Nat), wsGo c s = some r →
    Solid r ∧ r.length ≤ s.length ∧ (c = false → Sp s r)
      ∧ (c = true → ∃ t e b, s = t ++ e :: (b ++ r) ∧ (∀ x ∈ t, x ≠ 10 ∧ x ≠ 13) ∧ (e = 10 ∨ e = 13) ∧ Blank b) := by
  intro s
  induction s with
  | nil =>
    intro c r h
    cases c with
    | false =>
      simp only [wsGo, Option.some.injEq] at h
      subst h
      exact ⟨solid_nil, Nat.le_refl _, fun _ => ⟨[], .nil, rfl⟩, fun h => nomatch h⟩
    | true => simp [wsGo] at h
  | cons a s ih =>
    intro c r h
    cases c with
    | false =>
      unfold wsGo at h
      by_cases h1 : isSpace a = true
      · rw [if_pos h1] at h
        obtain ⟨i1, i2, i3, -⟩ := ih _ _ h
        obtain ⟨b, hb, rfl⟩ := i3 rfl
        have : a = 32 ∨ 9 ≤ a ∧ a ≤ 13 := by simpa [isSpace] using h1
        exact ⟨i1, by simp at *; omega, fun _ => ⟨a :: b, .space this hb, rfl⟩, fun h => nomatch h⟩
      · rw [if_neg h1] at h
        by_cases h2 : a = 47 ∧ s.head? = some 47
        · rw [if_pos h2] at h
          obtain ⟨i1, i2, -, i4⟩ := ih _ _ h
          obtain ⟨t, e, b, rfl, ht, he, hb⟩ := i4 rfl
          refine ⟨i1, by simp at *; omega, fun _ => ?_, fun h => nomatch h⟩
          obtain ⟨rfl, h3⟩ := h2
          cases t with
          | nil =>
            simp at h3
            omega
          | cons y t =>
            simp at h3
            subst h3
            exact ⟨47 :: 47 :: (t ++ e :: b), .comment (fun x hx => ht x (by simp [hx])) he hb, by simp⟩
        · rw [if_neg h2] at h
          cases h
          refine ⟨?_, Nat.le_refl _, fun _ => ⟨[], .nil, rfl⟩, fun h => nomatch h⟩
          unfold Solid ws wsGo
          rw [if_neg h1, if_neg h2]
    | true =>
      unfold wsGo at h
      by_cases h1 : isNewline a = true
      · rw [if_pos h1] at h
        obtain ⟨i1, i2, i3, -⟩ := ih _ _ h
        obtain ⟨b, hb, rfl⟩ := i3 rfl
        have : a = 10 ∨ a = 13 := by simpa [isNewline] using h1
        exact ⟨i1, by simp at *; omega, (fun h => nomatch h), fun _ => ⟨[], a, b, rfl, by simp, this, hb⟩⟩
      · rw [if_neg h1] at h
        obtain ⟨i1, i2, -, i4⟩ := ih _ _ h
        obtain ⟨t, e, b, rfl, ht, he, hb⟩ := i4 rfl
        have : a ≠ 10 ∧ a ≠ 13 := by simpa [isNewline] using h1
        refine ⟨i1, by simp at *; omega, (fun h => nomatch h), fun _ => ⟨a :: t, e, b, rfl, ?_, he, hb⟩⟩
        intro x hx
        rcases List.mem_cons.1 hx with rfl | hx
        · exact this
        · exact ht x hx

/-- What is skipped is white space. -/
theorem afterWs_some {s : List Nat} {k : List Nat → Option Res} {σ : Store} {q : List Nat} (h : afterWs s k = some (.ok σ q)) :
    ∃ r, Sp s r ∧ Solid r ∧ k r = some (.ok σ q) := by
  unfold afterWs at h
  cases e : ws s with
  | none => rw [e] at h; simp at h
  | some r =>
    rw [e] at h
    obtain ⟨h1, -, h2, -⟩ := wsGo_some _ _ _ e
    exact ⟨r, h2 rfl, h1, h⟩

theorem solid_comment {s : List Nat} (h : Solid (47 :: s)) : s.head? ≠ some 47 := by
  intro h2
  unfold Solid ws wsGo at h
  rw [if_neg (by decide), if_pos ⟨rfl, h2⟩] at h
  have := (wsGo_some _ _ _ h).2.1
  simp at this
  omega

theorem lit_some {w s r : List Nat} (h : lit w s = some r) : s = w ++ r := by
  induction w generalizing s with
  | nil => simp [lit] at h; simp [h]
  | cons a w ih =>
    cases s with
    | nil => simp [lit] at h
    | cons c s =>
      simp only [lit] at h
      split at h
      · subst_vars; rw [ih h]; rfl
      · simp at h

theorem kw_iff (w s r : List Nat) : kw w s = some r ↔ Key w s r := by
  constructor
  · intro h
    unfold kw at h
    split at h
    · rename_i c t e
      split at h
      · simp at h
      · rename_i hc
        cases h
        refine ⟨lit_some e, fun c' u e' => ?_⟩
        cases e'
        simpa [isAlpha] using hc
    · rename_i hn
      refine ⟨lit_some h, fun c u e => ?_⟩
      exact absurd (e ▸ h) (hn c u)
  · rintro ⟨rfl, h⟩
    exact kw_append w fun c u e => by
      have := h c u e
      simp only [isAlpha]
      simp
      omega

theorem kw_none_iff {w s : List Nat} (h : kw w s = none) : ∀ u, ¬ Key w s u := fun u hu => by
  rw [(kw_iff w s u).2 hu] at h; cases h

theorem marks_some (s : List Nat) : ∃ n, s = List.replicate n 124 ++ marks s := by
  fun_induction marks s with
  | case1 s ih => obtain ⟨n, hn⟩ := ih; exact ⟨n + 1, by rw [List.replicate_succ, List.cons_append, ← hn]⟩
  | case2 s => exact ⟨0, rfl⟩

theorem skipGo_some {n : Nat} {σ τ : Store} {d : Int} {s q : List Nat} (hs : Solid s) (h : skipGo σ n d s = some (.ok τ q)) :
    τ = σ ∧ Skipped d s q := by
  induction n generalizing d s with
  | zero => simp [skipGo] at h
  | succ n ih =>
    have check : ∀ {d' : Int} {s' : List Nat} {c : Nat}, c < 128 → d' = d + delta c →
        (afterWs s' fun s => if d' = 0 then some (.ok σ s) else skipGo σ n d' s) = some (.ok τ q) → τ = σ ∧ Skipped d (c :: s') q := by
      intro d' s' c hc hd h
      obtain ⟨r, h1, h2, h3⟩ := afterWs_some h
      split at h3
      · rename_i h0
        cases h3
        exact ⟨rfl, .last hc h1 (by omega)⟩
      · rename_i h0
        obtain ⟨h4, h5⟩ := ih h2 h3
        subst hd
        exact ⟨h4, .more hc h1 h0 h5⟩
    unfold skipGo at h
    cases s with
    | nil => simp at h
    | cons c s =>
      simp only at h
      split at h
      · subst_vars; exact check (by omega) (by simp [delta]) h
      · split at h
        · subst_vars; exact check (by omega) (by simp [delta]; omega) h
        · split at h
          · rename_i h1
            obtain ⟨rfl, h1⟩ := h1
            exact absurd h1 (solid_comment hs)
          · split at h
            · exact check ‹_› (by simp [delta, *]) h
            · simp at h

theorem semi_some {σ τ : Store} {s q : List Nat} (h : semi σ s = some (.ok τ q)) : τ = σ ∧ ∃ s3, s = 59 :: s3 ∧ Sp s3 q ∧ Solid q := by
  unfold semi at h
  split at h
  · simp at h
  · rename_i e
    obtain ⟨r, h1, h2, h3⟩ := afterWs_some h
    cases h3
    exact ⟨rfl, _, lit_some e, h1, h2⟩

theorem push_some {sign : Int} {x : Nat} {σ τ : Store} {s q : List Nat} (h : push sign x σ s semi = some (.ok τ q)) :
    ∃ n b s3, s = List.replicate n 124 ++ (b ++ 59 :: s3) ∧ Blank b ∧ Sp s3 q ∧ Solid q
      ∧ τ = σ.set x (σ x + ((n + b.length : Nat) : Int) * sign) := by
  obtain ⟨r, ⟨b, hb, h1⟩, h2, h3⟩ := afterWs_some h
  obtain ⟨n, hn⟩ := marks_some s
  simp only at h3
  split at h3
  · obtain ⟨h4, s3, rfl, h5, h6⟩ := semi_some h3
    rw [h1] at hn
    refine ⟨n, b, s3, hn, hb, h5, h6, ?_⟩
    rw [h4, hn]
    congr 3
    simp
    omega
  · simp at h3

theorem varStmt_some {n x : Nat} {σ τ : Store} {s1 s q : List Nat} (hx : Var x) (h1 : Sp s1 s) (h : varStmt n x σ s = some (.ok τ q)) :
    Exec .stmt σ (x :: s1) τ q ∧ Solid q := by
  unfold varStmt at h
  split at h
  · rename_i e
    obtain ⟨r, h2, -, h3⟩ := afterWs_some h
    obtain ⟨v, hv, h3⟩ := Option.bind_eq_some_iff.1 h3
    obtain ⟨m, b, s3, rfl, h4, h5, h6, h7⟩ := push_some h3
    have := Exec.op (σ := σ) (o := .set) hx (lit_some e ▸ h1) h2 h4 h5
    refine ⟨?_, h6⟩
    rw [h7, set_set, show (σ.set x v) x = 0 from by simp [Store.set, (reset_some hv).1], Int.mul_one, Int.zero_add]
    exact this
  · split at h
    · rename_i e
      obtain ⟨r, h2, -, h3⟩ := afterWs_some h
      obtain ⟨m, b, s3, rfl, h4, h5, h6, h7⟩ := push_some h3
      have := Exec.op (σ := σ) (o := .add) hx (lit_some e ▸ h1) h2 h4 h5
      refine ⟨?_, h6⟩
      rw [h7, Int.mul_one]
      exact this
    · split at h
      · rename_i e
        obtain ⟨r, h2, -, h3⟩ := afterWs_some h
        obtain ⟨m, b, s3, rfl, h4, h5, h6, h7⟩ := push_some h3
        have := Exec.op (σ := σ) (o := .sub) hx (lit_some e ▸ h1) h2 h4 h5
        refine ⟨?_, h6⟩
        rw [h7, Int.mul_neg, Int.mul_one, ← Int.sub_eq_add_neg]
        exact this
      · simp at h

/-- The part of a program that a rule executes. -/
def Cmd.part : Cmd → Part
  | .stmt => .stmt
  | .seq false => .prog
  | .seq true => .rest
  | .loop x => .loop x

theorem andThen_ok {f : Option Res} {k : Store → List Nat → Option Res} {τ : Store} {q : List Nat} (h : andThen f k = some (.ok τ q)) :
    ∃ σ s, f = some (.ok σ s) ∧ k σ s = some (.ok τ q) := by
  unfold andThen at h
  split at h
  · cases h
  · cases h
  · exact ⟨_, _, rfl, h⟩

theorem skipGo_solid {n : Nat} {σ τ : Store} {d : Int} {s q : List Nat} (h : skipGo σ n d s = some (.ok τ q)) : Solid q := by
  induction n generalizing d s with
  | zero => simp [skipGo] at h
  | succ n ih =>
    have check : ∀ {d' : Int} {s' : List Nat}, (afterWs s' fun s => if d' = 0 then some (.ok σ s) else skipGo σ n d' s) = some (.ok τ q) →
        Solid q := by
      intro d' s' h
      obtain ⟨r, h1, h2, h3⟩ := afterWs_some h
      split at h3
      · cases h3; exact h2
      · exact ih h3
    unfold skipGo at h
    cases s with
    | nil => simp at h
    | cons c s =>
      simp only at h
      split at h
      · exact check h
      · split at h
        · exact check h
        · split at h
          · obtain ⟨r, -, -, h3⟩ := afterWs_some h
            split at h3
            · simp at h3
            · exact check h3
          · split at h
            · exact check h
            · simp at h

theorem var_of {x : Nat} (h : isVar x = true) : Var x := by simpa [isVar, Var] using h

theorem run_exec (n : Nat) : ∀ (d : Nat) (c : Cmd) (σ τ : Store) (s q : List Nat), Solid s → run n d c σ s = some (.ok τ q) →
    Exec c.part σ s τ q ∧ Solid q := by
  induction n with
  | zero => intro d c σ τ s q _ h; simp [run] at h
  | succ n ih =>
    intro d c σ τ s q hs h
    have body : ∀ {σ τ : Store} {s q : List Nat}, (match lit [123] s with
        | none => some .err
        | some s => afterWs s fun s => run n d (.seq true) σ s) = some (.ok τ q) → Exec .body σ s τ q ∧ Solid q := by
      intro σ τ s q h
      split at h
      · simp at h
      · rename_i e
        obtain ⟨r, h1, h2, h3⟩ := afterWs_some h
        obtain ⟨h4, h5⟩ := ih _ _ _ _ _ _ h2 h3
        rw [lit_some e]
        exact ⟨.body h1 h4, h5⟩
    unfold run at h
    cases c with
    | stmt =>
      simp only at h
      split at h
      · rename_i s1 e
        have hk := (kw_iff _ _ _).1 e
        obtain ⟨r, h1, h2, h3⟩ := afterWs_some h
        split at h3
        · simp at h3
        · rename_i x s2
          split at h3
          · rename_i hx
            obtain ⟨s3, h4, h5, h6⟩ := afterWs_some h3
            split at h6
            · rename_i h0
              obtain ⟨ρ, s4, h7, h8⟩ := andThen_ok h6
              obtain ⟨rfl, h9⟩ := skipGo_some h5 h7
              split at h8
              · rename_i e2
                obtain ⟨s6, h10, h11, h12⟩ := afterWs_some h8
                obtain ⟨h13, h14⟩ := body h12
                exact ⟨.ifFalseElse hk h1 (var_of hx) h4 h0 h9 ((kw_iff _ _ _).1 e2) h10 h13, h14⟩
              · rename_i e2
                cases h8
                exact ⟨.ifFalse hk h1 (var_of hx) h4 h0 h9 (kw_none_iff e2), skipGo_solid h7⟩
            · rename_i h0
              obtain ⟨ρ, s4, h7, h8⟩ := andThen_ok h6
              obtain ⟨h9, h9'⟩ := body h7
              split at h8
              · rename_i e2
                obtain ⟨s6, h10, h11, h12⟩ := afterWs_some h8
                obtain ⟨rfl, h13⟩ := skipGo_some h11 h12
                exact ⟨.ifTrueElse hk h1 (var_of hx) h4 h0 h9 ((kw_iff _ _ _).1 e2) h10 h13, skipGo_solid h12⟩
              · rename_i e2
                cases h8
                exact ⟨.ifTrue hk h1 (var_of hx) h4 h0 h9 (kw_none_iff e2), h9'⟩
          · simp at h3
      · split at h
        · rename_i s1 e
          have hk := (kw_iff _ _ _).1 e
          obtain ⟨r, h1, h2, h3⟩ := afterWs_some h
          split at h3
          · simp at h3
          · rename_i x s2
            split at h3
            · rename_i hx
              obtain ⟨s3, h4, h5, h6⟩ := afterWs_some h3
              obtain ⟨h7, h8⟩ := ih _ _ _ _ _ _ h5 h6
              exact ⟨.while hk h1 (var_of hx) h4 h7, h8⟩
            · simp at h3
        · split at h
          · simp at h
          · rename_i x s1 _ _
            split at h
            · rename_i hx
              split at h
              · rename_i s2 e
                obtain ⟨r, h1, h2, h3⟩ := afterWs_some h
                have := ((kw_iff _ _ _).1 e).1
                simp at this
                subst this
                exact varStmt_some (var_of hx) h1 h3
              · simp at h
            · simp at h
    | seq b =>
      cases b with
      | false =>
        cases s with
        | nil => simp only at h; cases h; exact ⟨.done, solid_nil⟩
        | cons a s =>
          simp only at h
          obtain ⟨ρ, r, h1, h2⟩ := andThen_ok h
          obtain ⟨h3, h4⟩ := ih _ _ _ _ _ _ hs h1
          obtain ⟨h5, h6⟩ := ih _ _ _ _ _ _ h4 h2
          exact ⟨.next h3 h5, h6⟩
      | true =>
        simp only at h
        split at h
        · rename_i e
          obtain ⟨r, h1, h2, h3⟩ := afterWs_some h
          cases h3
          rw [lit_some e]
          exact ⟨.close h1, h2⟩
        · split at h
          · simp at h
          · obtain ⟨ρ, r, h1, h2⟩ := andThen_ok h
            obtain ⟨h3, h4⟩ := ih _ _ _ _ _ _ hs h1
            obtain ⟨h5, h6⟩ := ih _ _ _ _ _ _ h4 h2
            exact ⟨.rest h3 h5, h6⟩
    | loop x =>
      simp only at h
      split at h
      · rename_i h0
        obtain ⟨rfl, h1⟩ := skipGo_some hs h
        exact ⟨.loopEnd h0 h1, skipGo_solid h⟩
      · rename_i h0
        obtain ⟨ρ, r, h1, h2⟩ := andThen_ok h
        obtain ⟨h5, h6⟩ := ih _ _ _ _ _ _ hs h2
        exact ⟨.loopMore h0 (body h1).1 h5, h6⟩

theorem exec_end {p : Part} {σ τ : Nat → Int} {s q : List Nat} (h : Exec p σ s τ q) (hp : p = .prog) : q = [] := by
  induction h with
  | done => rfl
  | next _ _ _ ih => exact ih hp
  | _ => cases hp

/-- **C103.** Whatever the input is: if there is a result, the input consists of statements that can be executed one after the other, up
    to its end, and this is their result.  Only bodies that are not executed may be something else. -/
theorem C103_executed {n : Nat} {s : List Nat} {v : Int} (h : program n s = some (.result v)) :
    ∃ r τ, Sp s r ∧ Exec .prog (fun _ => 0) r τ [] ∧ τ 111 = v := by
  unfold program at h
  cases e : ws s with
  | none => rw [e] at h; simp at h
  | some r =>
    rw [e] at h
    obtain ⟨h1, -, h2, -⟩ := wsGo_some _ _ _ e
    simp only at h
    split at h
    · cases h
    · cases h
    · rename_i τ q e2
      cases h
      have h3 := (run_exec _ _ _ _ _ _ _ h1 e2).1
      have : q = [] := exec_end h3 rfl
      subst this
      exact ⟨r, τ, h2 rfl, h3, rfl⟩

-- the program `a := ||; if b x o += |;` is executed: the body that is not executed need not be one
example : program 20 ("a:=||;if b x o+=|;".toList.map Char.toNat) = some (.result 1) := by decide +kernel
-- a single slash is no comment, `ifa` no keyword, and an open bracket has to be closed
example : program 20 ("o /\n:=||;".toList.map Char.toNat) = some .error
    ∧ program 20 ("ifa{}".toList.map Char.toNat) = some .error
    ∧ program 20 ("if a {".toList.map Char.toNat) = some .error := by decide +kernel

end Verif.Tm
