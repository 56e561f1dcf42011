import Verif.Delimited
import Verif.UntilProps

/-!
Property C20: delimited content is everything before the first unescaped closing delimiter.
-/

namespace Verif

/-! ## Specification -/

/-- The input ends here: the limit matches, there is no more input, or a unit that is taken for EOF. -/
def Spec.DelEnd (d : Delim) (s : List Nat) : Prop :=
  (∃ t n, d.limit = some t ∧ t s = some n) ∨ s = [] ∨ ∃ u t, s = u :: t ∧ d.eof = some u

/-- Length of an escape sequence: its token, and what the first branch that matches consumes. -/
inductive Spec.EscLen (x : Escape) (s : List Nat) : Nat → Prop
  | branch {n m pre br post} : x.tok s = some n → x.branches = pre ++ br :: post →
      (∀ b ∈ pre, b (s.drop n) = none) → br (s.drop n) = some m → EscLen x s (n + m)
  | invalid {n} : x.tok s = some n → (∀ b ∈ x.branches, b (s.drop n) = none) → EscLen x s n

/-- The item (escape sequence or character) at the front has length `n`; escapes take precedence, in order. -/
inductive Spec.Item (d : Delim) (s : List Nat) : Nat → Prop
  | esc {pre x post n} : d.escapes = pre ++ x :: post → (∀ y ∈ pre, y.tok s = none) → EscLen x s n → Item d s n
  | char : (∀ y ∈ d.escapes, y.tok s = none) → Item d s (d.char s).2

/-- Item boundaries that can be reached without passing the closing delimiter or the end. -/
inductive Spec.Reach (d : Delim) : List Nat → Nat → Prop
  | here (s) : Reach d s 0
  | step {s n i} : d.close s = none → ¬ DelEnd d s → Item d s n → Reach d (s.drop n) i → Reach d s (n + i)

/-- The rule stops here. -/
def Spec.DelStop (d : Delim) (s : List Nat) : Prop := d.close s ≠ none ∨ Spec.DelEnd d s

/-- Events that stand for a piece of the input. -/
def DEv.range : DEv → Option (Nat × Nat)
  | .content b e | .badChar b e | .escape b e | .escaped b e => some (b, e)
  | .badEscape _ _ | .missing _ _ => none

/-- Adjacent ranges from `a` to `c`. -/
inductive Spec.Tiles : Nat → Nat → List (Nat × Nat) → Prop
  | nil (a) : Tiles a a []
  | cons {a b c l} : a ≤ b → Tiles b c l → Tiles a c ((a, b) :: l)

/-- A run of valid characters of the input from `b` to `e`. -/
inductive Spec.GoodRun (d : Delim) (inp : List Nat) (b : Nat) : Nat → Prop
  | nil : GoodRun d inp b b
  | snoc {p n} : GoodRun d inp b p → d.char (inp.drop p) = (true, n) → GoodRun d inp b (p + n)

/-- No two consecutive content events. -/
def Spec.NoAdj : List DEv → Prop
  | .content _ _ :: .content _ _ :: _ => False
  | _ :: t => NoAdj t
  | [] => True

/-- Laws of the parts: tokens do not match past the end, escape tokens and characters are not empty. -/
structure Delim.Ok (B : Nat) (d : Delim) : Prop where
  char : ∀ u t, Units B (u :: t) → d.eof ≠ some u → 0 < (d.char (u :: t)).2 ∧ (d.char (u :: t)).2 ≤ t.length + 1
  tok : ∀ x ∈ d.escapes, ∀ s n, Units B s → x.tok s = some n → 0 < n ∧ n ≤ s.length
  branch : ∀ x ∈ d.escapes, ∀ b ∈ x.branches, ∀ s n, Units B s → b s = some n → n ≤ s.length

/-! ## Auxiliary facts -/

theorem findSome?_cases {α β : Type} (f : α → Option β) (l : List α) :
    (l.findSome? f = none ∧ ∀ x ∈ l, f x = none) ∨
    ∃ pre x post b, l = pre ++ x :: post ∧ (∀ y ∈ pre, f y = none) ∧ f x = some b ∧ l.findSome? f = some b := by
  induction l with
  | nil => left; simp
  | cons a l ih =>
    cases h : f a with
    | some b => right; exact ⟨[], a, l, b, rfl, by simp, h, by simp [h]⟩
    | none =>
      rcases ih with ⟨h1, h2⟩ | ⟨pre, x, post, b, h1, h2, h3, h4⟩
      · left; exact ⟨by simp [h, h1], by simpa [h] using h2⟩
      · right
        refine ⟨a :: pre, x, post, b, by simp [h1], ?_, h3, by simp [h, h4]⟩
        intro y hy
        simp at hy
        rcases hy with rfl | hy
        · exact h
        · exact h2 y hy

theorem atLimit_iff (d : Delim) (s : List Nat) : d.atLimit s = true ↔ Spec.DelEnd d s := by
  unfold Delim.atLimit Spec.DelEnd
  rw [Bool.or_eq_true]
  apply or_congr
  · cases d.limit with
    | none => simp
    | some t => simp [Option.isSome_iff_exists]
  · cases s with
    | nil => simp [peekEof]
    | cons u t => simp [peekEof]

theorem tiles_append {a b c : Nat} {l l' : List (Nat × Nat)} (h : Spec.Tiles a b l) (h' : Spec.Tiles b c l') :
    Spec.Tiles a c (l ++ l') := by
  induction h with
  | nil => exact h'
  | cons hle _ ih => exact .cons hle (ih h')

theorem tiles_finish {b p : Nat} (h : b ≤ p) : Spec.Tiles b p ((delFinish b p).filterMap DEv.range) := by
  unfold delFinish
  split
  · rename_i h; subst h; exact .nil _
  · exact .cons h (.nil _)

theorem noAdj_finish {b p : Nat} {x : DEv} {l : List DEv} (hx : ∀ b e, x ≠ .content b e) (hl : Spec.NoAdj l) :
    Spec.NoAdj (delFinish b p ++ x :: l) := by
  have hxl : Spec.NoAdj (x :: l) := by
    cases x <;> first | exact hl | exact absurd rfl (hx _ _)
  unfold delFinish
  split
  · exact hxl
  · cases x <;> first | exact hl | exact absurd rfl (hx _ _)

theorem escape_cases (x : Escape) (pos b : Nat) (s : List Nat) :
    (x.tok s = none ∧ x.tryParse pos b s = none) ∨
    ∃ n l, Spec.EscLen x s n ∧ x.tryParse pos b s = some (n, delFinish b pos ++ l) ∧
      Spec.Tiles pos (pos + n) (l.filterMap DEv.range) ∧
      (∀ l', Spec.NoAdj l' → Spec.NoAdj (delFinish b pos ++ l ++ l')) ∧
      (∀ b e, .content b e ∉ l) ∧ (∀ b e, .missing b e ∉ l) ∧
      ∃ k, x.tok s = some k ∧ (n = k ∨ ∃ br ∈ x.branches, ∃ m, br (s.drop k) = some m ∧ n = k + m) := by
  unfold Escape.tryParse
  cases ht : x.tok s with
  | none => left; exact ⟨rfl, rfl⟩
  | some k =>
    right
    rcases findSome?_cases (fun br : TokMatch => br (s.drop k)) x.branches with ⟨h1, h2⟩ | ⟨pre, br, post, m, h1, h2, h3, h4⟩
    · refine ⟨k, [.escape pos (pos + k), .badEscape pos (pos + k)], .invalid ht h2, by simp [h1], ?_, ?_, by simp, by simp, k, rfl, .inl rfl⟩
      · exact .cons (by omega) (.nil _)
      · intro l' hl'
        rw [List.append_assoc]
        exact noAdj_finish (by simp) hl'
    · refine ⟨k + m, [.escape pos (pos + k), .escaped (pos + k) (pos + k + m)], .branch ht h1 h2 h3, by simp [h4], ?_, ?_, by simp, by simp,
        k, rfl, .inr ⟨br, by simp [h1], m, h3, rfl⟩⟩
      · exact .cons (by omega) (.cons (by omega) (by rw [Nat.add_assoc]; exact .nil _))
      · intro l' hl'
        rw [List.append_assoc]
        exact noAdj_finish (by simp) hl'

/-! ## C20 -/

/-- What the theorem says about a run of the rule from `pos` with pending content from `begin_`. -/
structure Spec.DelRun (d : Delim) (inp : List Nat) (start pos begin_ : Nat) (ok : Bool) (i : Nat) (evs : List DEv) :
    Prop where
  le : pos + i ≤ inp.length
  reach : Spec.Reach d (inp.drop pos) i
  success : ok = true ↔ d.close (inp.drop (pos + i)) ≠ none
  failure : ok = false → Spec.DelEnd d (inp.drop (pos + i))
  tiles : Spec.Tiles begin_ (pos + i) (evs.filterMap DEv.range)
  good : ∀ b e, .content b e ∈ evs → b < e ∧ Spec.GoodRun d inp b e
  noAdj : Spec.NoAdj evs
  missing : ∀ b e, .missing b e ∈ evs ↔ ok = false ∧ b = start ∧ e = pos + i

theorem goodRun_le {d : Delim} {inp : List Nat} {b e : Nat} (h : Spec.GoodRun d inp b e) : b ≤ e := by
  induction h with
  | nil => omega
  | snoc _ _ ih => omega

theorem finish_good {d : Delim} {inp : List Nat} {b p : Nat} (h : Spec.GoodRun d inp b p) :
    ∀ x e, .content x e ∈ delFinish b p → x < e ∧ Spec.GoodRun d inp x e := by
  intro x e hx
  have := goodRun_le h
  unfold delFinish at hx
  split at hx
  · simp at hx
  · simp at hx; obtain ⟨rfl, rfl⟩ := hx; exact ⟨by omega, h⟩

theorem finish_no_missing (b p x e : Nat) : .missing x e ∉ delFinish b p := by
  unfold delFinish; split <;> simp

theorem noAdj_delFinish (b p : Nat) : Spec.NoAdj (delFinish b p) := by
  unfold delFinish; split <;> simp [Spec.NoAdj]

theorem filterMap_finish (b p : Nat) (l : List DEv) :
    (delFinish b p ++ l).filterMap DEv.range = (delFinish b p).filterMap DEv.range ++ l.filterMap DEv.range :=
  List.filterMap_append ..

theorem delim_run {B : Nat} {d : Delim} (hd : d.Ok B) (inp : List Nat) (hu : Units B inp) (start : Nat) :
    ∀ (N pos begin_ : Nat), inp.length - pos = N → pos ≤ inp.length → Spec.GoodRun d inp begin_ pos →
      ∃ ok i evs, d.loop (fun _ => some 0) start pos begin_ (inp.drop pos) = some (ok, pos + i, evs) ∧
        Spec.DelRun d inp start pos begin_ ok i evs := by
  intro N
  induction N using Nat.strongRecOn with
  | _ N ih =>
    intro pos begin_ hN hpos hgood
    have hbp := goodRun_le hgood
    rw [Delim.loop]
    simp only [List.drop_zero, Nat.add_zero]
    by_cases hclose : (d.close (inp.drop pos)).isSome = true
    · rw [if_pos hclose]
      refine ⟨true, 0, _, rfl, ⟨by omega, .here _, ?_, by simp, tiles_finish hbp, finish_good hgood,
        noAdj_delFinish _ _, ?_⟩⟩
      · simpa [Option.isSome_iff_ne_none] using hclose
      · intro b e; simp [finish_no_missing]
    rw [if_neg hclose]
    have hcn : d.close (inp.drop pos) = none := by simpa using hclose
    by_cases hlim : d.atLimit (inp.drop pos) = true
    · rw [if_pos hlim]
      refine ⟨false, 0, _, rfl, ⟨by omega, .here _, ?_, ?_, ?_, ?_, ?_, ?_⟩⟩
      · simp [hcn]
      · intro _; exact (atLimit_iff d _).1 hlim
      · rw [filterMap_finish]; simpa [List.filterMap_cons, List.filterMap_nil, DEv.range] using tiles_finish hbp
      · intro b e hm
        rw [List.mem_append] at hm
        rcases hm with hm | hm
        · exact finish_good hgood b e hm
        · simp at hm
      · exact noAdj_finish (by simp) trivial
      · intro b e
        rw [List.mem_append]
        simp [finish_no_missing]
    rw [if_neg hlim]
    have hend : ¬ Spec.DelEnd d (inp.drop pos) := fun h => hlim ((atLimit_iff d _).2 h)
    have hus : Units B (inp.drop pos) := hu.drop pos
    -- there is a next unit
    obtain ⟨u, t, hut, hue⟩ : ∃ u t, inp.drop pos = u :: t ∧ d.eof ≠ some u := by
      cases h : inp.drop pos with
      | nil => exact absurd (.inr (.inl h)) hend
      | cons u t => exact ⟨u, t, rfl, fun he => hend (.inr (.inr ⟨u, t, h, he⟩))⟩
    have hlt : pos < inp.length := by
      have := congrArg List.length hut; simp at this; omega
    rcases findSome?_cases (fun x : Escape => x.tryParse pos begin_ (inp.drop pos)) d.escapes with
      ⟨h1, h2⟩ | ⟨pre, x, post, r, h1, h2, h3, h4⟩
    · rw [h1]
      have hno : ∀ y ∈ d.escapes, y.tok (inp.drop pos) = none := by
        intro y hy
        rcases escape_cases y pos begin_ (inp.drop pos) with ⟨h, -⟩ | ⟨n, l, -, h, -⟩
        · exact h
        · rw [h2 y hy] at h; simp at h
      have hitem : Spec.Item d (inp.drop pos) (d.char (inp.drop pos)).2 := .char hno
      have hcl := hd.char u t (hut ▸ hus) hue
      rw [← hut] at hcl
      have htl : t.length + 1 = inp.length - pos := by
        have := congrArg List.length hut; simpa using this.symm
      rcases hc : d.char (inp.drop pos) with ⟨okc, n⟩
      rw [hc] at hcl hitem
      simp only at hcl hitem
      have hn : pos + n ≤ inp.length := by omega
      cases okc with
      | true =>
        simp only
        rw [dif_pos (by simp; omega), List.drop_drop]
        obtain ⟨ok, i, evs, e1, e2⟩ := ih (inp.length - (pos + n)) (by omega) (pos + n) begin_ rfl hn (.snoc hgood hc)
        rw [e1]
        refine ⟨ok, n + i, evs, by rw [Nat.add_assoc], ?_⟩
        rw [show pos + n + i = pos + (n + i) by omega] at *
        obtain ⟨a1, a2, a3, a4, a5, a6, a7, a8⟩ := e2
        rw [Nat.add_assoc] at a1 a3 a4 a5 a8
        refine ⟨a1, .step hcn hend hitem (by rw [List.drop_drop]; exact a2), a3, a4, a5, a6, a7, a8⟩
      | false =>
        simp only
        rw [dif_pos (by simp; omega), List.drop_drop]
        obtain ⟨ok, i, evs, e1, e2⟩ := ih (inp.length - (pos + n)) (by omega) (pos + n) (pos + n) rfl hn .nil
        rw [e1]
        obtain ⟨a1, a2, a3, a4, a5, a6, a7, a8⟩ := e2
        rw [Nat.add_assoc] at a1 a3 a4 a5 a8
        refine ⟨ok, n + i, _, by simp [Nat.add_assoc]; rfl, a1, .step hcn hend hitem (by rw [List.drop_drop]; exact a2), a3, a4, ?_, ?_, ?_, ?_⟩
        · rw [filterMap_finish]
          refine tiles_append (tiles_finish hbp) ?_
          simp only [List.filterMap_cons, DEv.range]
          exact .cons (by omega) a5
        · intro b e hm
          rw [List.mem_append] at hm
          rcases hm with hm | hm
          · exact finish_good hgood b e hm
          · simp at hm; exact a6 b e hm
        · exact noAdj_finish (by simp) a7
        · intro b e
          rw [List.mem_append]
          simp [finish_no_missing, a8]
    · rw [h4]
      have hx : x ∈ d.escapes := by rw [h1]; simp
      rcases escape_cases x pos begin_ (inp.drop pos) with ⟨-, h⟩ | ⟨n, l, g1, g2, g3, g4, g5, g6, k, g7, g8⟩
      · rw [h] at h3; simp at h3
      · rw [g2] at h3
        cases h3
        have hk := hd.tok x hx _ k hus g7
        simp only [List.length_drop] at hk
        have hn : 0 < n ∧ pos + n ≤ inp.length := by
          rcases g8 with rfl | ⟨br, hbr, m, hm, rfl⟩
          · omega
          · have := hd.branch x hx br hbr _ m (hus.drop k) hm
            simp only [List.length_drop] at this
            omega
        have hitem : Spec.Item d (inp.drop pos) n := by
          refine .esc h1 ?_ g1
          intro y hy
          rcases escape_cases y pos begin_ (inp.drop pos) with ⟨h, -⟩ | ⟨n', l', -, h, -⟩
          · exact h
          · rw [h2 y hy] at h; simp at h
        simp only
        rw [dif_pos (by simp; omega), List.drop_drop]
        obtain ⟨ok, i, evs, e1, e2⟩ := ih (inp.length - (pos + n)) (by omega) (pos + n) (pos + n) rfl hn.2 .nil
        rw [e1]
        obtain ⟨a1, a2, a3, a4, a5, a6, a7, a8⟩ := e2
        rw [Nat.add_assoc] at a1 a3 a4 a5 a8
        refine ⟨ok, n + i, _, by simp [Nat.add_assoc]; rfl, a1, .step hcn hend hitem (by rw [List.drop_drop]; exact a2), a3, a4, ?_, ?_, ?_, ?_⟩
        · rw [← List.append_assoc, List.filterMap_append, filterMap_finish]
          exact tiles_append (tiles_append (tiles_finish hbp) g3) a5
        · intro b e hm
          simp only [List.mem_append] at hm
          rcases hm with hm | hm | hm
          · exact finish_good hgood b e hm
          · exact absurd hm (g5 b e)
          · exact a6 b e hm
        · rw [← List.append_assoc]; exact g4 evs a7
        · intro b e
          simp only [List.mem_append, finish_no_missing, g6, false_or]
          exact a8 b e

/-- C20: a delimited rule stops at the first item boundary where the closing delimiter matches, or fails where the
    limit or EOF comes first, reporting exactly one missing delimiter; its events tile the content in order, contents
    are maximal non-empty runs of valid characters. -/
theorem C20_delimited (B : Nat) (d : Delim) (hd : d.Ok B) (inp : List Nat) (hu : Units B inp) (pos : Nat)
    (hpos : pos ≤ inp.length) :
    ∃ ok i evs, d.parse pos (inp.drop pos) = some (ok, pos + i, evs) ∧ Spec.DelRun d inp pos pos pos ok i evs :=
  delim_run hd inp hu pos _ pos pos rfl hpos .nil

theorem escLen_unique {x : Escape} {s : List Nat} {n m : Nat} (h : Spec.EscLen x s n) (h' : Spec.EscLen x s m) :
    n = m := by
  have key : ∀ (l p1 q1 p2 q2 : List TokMatch) (b1 b2 : TokMatch) (t : List Nat) (m1 m2 : Nat),
      l = p1 ++ b1 :: q1 → l = p2 ++ b2 :: q2 → (∀ b ∈ p1, b t = none) → (∀ b ∈ p2, b t = none) →
      b1 t = some m1 → b2 t = some m2 → m1 = m2 := by
    intro l
    induction l with
    | nil => intro p1 q1 p2 q2 b1 b2 t m1 m2 h; simp at h
    | cons a l ih =>
      intro p1 q1 p2 q2 b1 b2 t m1 m2 h1 h2 h3 h4 h5 h6
      cases p1 with
      | nil =>
        simp at h1
        cases p2 with
        | nil => simp at h2; rw [← h1.1] at h5; rw [← h2.1, h5] at h6; simpa using h6
        | cons c p2 =>
          simp at h2
          have := h4 c (by simp)
          rw [← h2.1, h1.1, h5] at this; simp at this
      | cons c p1 =>
        simp at h1
        cases p2 with
        | nil =>
          simp at h2
          have := h3 c (by simp)
          rw [← h1.1, h2.1, h6] at this; simp at this
        | cons c' p2 =>
          simp at h2
          exact ih p1 q1 p2 q2 b1 b2 t m1 m2 h1.2 h2.2 (fun b hb => h3 b (by simp [hb]))
            (fun b hb => h4 b (by simp [hb])) h5 h6
  cases h with
  | branch a1 a2 a3 a4 =>
    cases h' with
    | branch b1 b2 b3 b4 =>
      rw [a1] at b1; cases b1
      rw [key _ _ _ _ _ _ _ _ _ _ a2 b2 a3 b3 a4 b4]
    | invalid b1 b2 =>
      rw [a1] at b1; cases b1
      have h := b2 _ (a2 ▸ List.mem_append_right _ List.mem_cons_self)
      rw [h] at a4; simp at a4
  | invalid a1 a2 =>
    cases h' with
    | branch b1 b2 b3 b4 =>
      rw [a1] at b1; cases b1
      have h := a2 _ (b2 ▸ List.mem_append_right _ List.mem_cons_self)
      rw [h] at b4; simp at b4
    | invalid b1 b2 => rw [a1] at b1; cases b1; rfl

theorem item_unique {d : Delim} {s : List Nat} {n m : Nat} (h : Spec.Item d s n) (h' : Spec.Item d s m) : n = m := by
  have some_of : ∀ {x : Escape} {n}, Spec.EscLen x s n → x.tok s ≠ none := by
    intro x n h; cases h with
    | branch a1 => simp [a1]
    | invalid a1 => simp [a1]
  have key : ∀ (l p1 q1 p2 q2 : List Escape) (b1 b2 : Escape),
      l = p1 ++ b1 :: q1 → l = p2 ++ b2 :: q2 → (∀ b ∈ p1, b.tok s = none) → (∀ b ∈ p2, b.tok s = none) →
      b1.tok s ≠ none → b2.tok s ≠ none → b1 = b2 := by
    intro l
    induction l with
    | nil => intro p1 q1 p2 q2 b1 b2 h; simp at h
    | cons a l ih =>
      intro p1 q1 p2 q2 b1 b2 h1 h2 h3 h4 h5 h6
      cases p1 with
      | nil =>
        simp at h1
        cases p2 with
        | nil => simp at h2; rw [← h1.1, ← h2.1]
        | cons c p2 =>
          simp at h2
          have := h4 c (by simp)
          rw [← h2.1, h1.1] at this; exact absurd this h5
      | cons c p1 =>
        simp at h1
        cases p2 with
        | nil =>
          simp at h2
          have := h3 c (by simp)
          rw [← h1.1, h2.1] at this; exact absurd this h6
        | cons c' p2 =>
          simp at h2
          exact ih p1 q1 p2 q2 b1 b2 h1.2 h2.2 (fun b hb => h3 b (by simp [hb]))
            (fun b hb => h4 b (by simp [hb])) h5 h6
  cases h with
  | esc a1 a2 a3 =>
    cases h' with
    | esc b1 b2 b3 =>
      have := key _ _ _ _ _ _ _ a1 b1 a2 b2 (some_of a3) (some_of b3)
      subst this
      exact escLen_unique a3 b3
    | char b1 => exact absurd (b1 _ (by rw [a1]; simp)) (some_of a3)
  | char a1 =>
    cases h' with
    | esc b1 b2 b3 => exact absurd (a1 _ (by rw [b1]; simp)) (some_of b3)
    | char => rfl

/-- C20: the place where the rule stops is unique, so `C20_delimited` determines it. -/
theorem C20_delimited_unique (d : Delim) (s : List Nat) (i j : Nat) (hi : Spec.Reach d s i) (hj : Spec.Reach d s j)
    (si : Spec.DelStop d (s.drop i)) (sj : Spec.DelStop d (s.drop j)) : i = j := by
  induction hi generalizing j with
  | here s =>
    cases hj with
    | here => rfl
    | step a1 a2 a3 a4 =>
      rcases si with h | h
      · exact absurd a1 (by simpa using h)
      · exact absurd (by simpa using h) a2
  | @step s n i a1 a2 a3 a4 ih =>
    cases hj with
    | here =>
      rcases sj with h | h
      · exact absurd a1 (by simpa using h)
      · exact absurd (by simpa using h) a2
    | @step _ m j' b1 b2 b3 b4 =>
      have := item_unique a3 b3
      subst this
      have := ih j' b4 (by rw [List.drop_drop]; exact si) (by rw [List.drop_drop]; exact sj)
      omega

/-- C20 in the simplest case: without escapes, limit and multi-unit characters the content is everything before the
    first match of the closing delimiter. -/
theorem C20_quoted (B : Nat) (d : Delim) (hd : d.Ok B) (hesc : d.escapes = []) (hlim : d.limit = none)
    (h1 : ∀ s, s ≠ [] → (d.char s).2 = 1) (s : List Nat) (hu : Units B s) (i : Nat) :
    (∃ evs, d.parse 0 s = some (true, i, evs)) ↔ ∃ n, Spec.FirstMatch d.close d.eof s i n := by
  have reach : ∀ i s, Spec.Reach d s i ↔ i ≤ s.length ∧ (∀ j < i, d.close (s.drop j) = none) ∧
      ∀ u ∈ s.take i, d.eof ≠ some u := by
    intro i
    induction i with
    | zero => intro s; simp; exact .here _
    | succ i ih =>
      intro s
      constructor
      · generalize hk : i + 1 = k
        intro h
        cases h with
        | here => omega
        | @step _ n i' a1 a2 a3 a4 =>
          have hs : s ≠ [] := fun h => a2 (.inr (.inl h))
          have hn : n = 1 := by
            cases a3 with
            | esc b1 => rw [hesc] at b1; simp at b1
            | char => exact h1 s hs
          subst hn
          have : i' = i := by omega
          subst this
          obtain ⟨c1, c2, c3⟩ := (ih _).1 a4
          cases s with
          | nil => exact absurd rfl hs
          | cons u t =>
            refine ⟨by simp at c1 ⊢; omega, ?_, ?_⟩
            · intro j hj
              cases j with
              | zero => exact a1
              | succ j => exact c2 j (by omega)
            · intro v hv
              rw [Nat.add_comm, List.take_succ_cons] at hv
              simp at hv
              rcases hv with rfl | hv
              · exact fun he => a2 (.inr (.inr ⟨v, t, rfl, he⟩))
              · exact c3 v hv
      · rintro ⟨b1, b2, b3⟩
        cases s with
        | nil => simp at b1
        | cons u t =>
          have := h1 (u :: t) (by simp)
          rw [Nat.add_comm]
          refine .step (b2 0 (by omega)) ?_ (this ▸ .char (by simp [hesc])) ?_
          · rintro (⟨t', n, hl, -⟩ | h | ⟨v, t', h, he⟩)
            · rw [hlim] at hl; simp at hl
            · simp at h
            · cases h; exact b3 u (by simp) he
          · refine (ih t).2 ⟨by simpa using b1, fun j hj => b2 (j + 1) (by omega), ?_⟩
            intro v hv; exact b3 v (by simp [hv])
  obtain ⟨ok, i', evs, e1, e2⟩ := C20_delimited B d hd s hu 0 (by omega)
  simp only [List.drop_zero, Nat.zero_add] at e1
  obtain ⟨a1, a2, a3, a4, -, -, -, -⟩ := e2
  simp only [Nat.zero_add, List.drop_zero] at a1 a2 a3 a4
  rw [e1]
  constructor
  · rintro ⟨evs', h⟩
    simp only [Option.some.injEq, Prod.mk.injEq] at h
    obtain ⟨rfl, rfl, -⟩ := h
    obtain ⟨b1, b2, b3⟩ := (reach _ _).1 a2
    obtain ⟨n, hn⟩ := Option.ne_none_iff_exists'.1 (a3.1 rfl)
    exact ⟨n, b1, hn, b2, b3⟩
  · rintro ⟨n, b1, b2, b3, b4⟩
    have hr : Spec.Reach d s i := (reach _ _).2 ⟨b1, b3, b4⟩
    have hst : Spec.DelStop d (s.drop i') := by
      cases ok with
      | true => exact .inl (a3.1 rfl)
      | false => exact .inr (a4 rfl)
    have := C20_delimited_unique d s i i' hr a2 (.inl (by simp [b2])) hst
    subst this
    have : ok = true := a3.2 (by simp [b2])
    subst this
    exact ⟨evs, rfl⟩

/-! ## The character classes satisfy the laws -/

theorem delCharUnicode_ok (e : Enc) (c : CC) (u : Nat) (t : List Nat) (hs : Units e.bound (u :: t)) :
    0 < (delCharUnicode e c (u :: t)).2 ∧ (delCharUnicode e c (u :: t)).2 ≤ t.length + 1 := by
  have hle := parseCp_len_le e (u :: t) hs
  simp only [List.length_cons] at hle
  unfold delCharUnicode
  split
  · simp
  · split
    · simp
    · rename_i f hf
      simp only
      split
      · rename_i hsucc
        simp only [Bool.and_eq_true, decide_eq_true_eq] at hsucc
        refine ⟨?_, hle⟩
        rcases Nat.eq_zero_or_pos (parseCp e (u :: t)).len with h0 | h0
        · have := parseCp_len_pos e (u :: t) hs h0
          rcases this with h | h <;> simp [hsucc.1] at h
        · exact h0
      · simp only
        split <;> omega

/-- The characters accepted by `parse_one` are the class. -/
theorem C20_char_class (e : Enc) (c : CC) (h : c.Ok) (s : List Nat) (hs : Units e.bound s) (n : Nat) :
    delCharUnicode e c s = (true, n) ↔
      (parseCp e s).error = .success ∧ c.denote (parseCp e s).cp ∧ n = (parseCp e s).len := by
  rw [← CC.C08_class_token e c h s hs n]
  unfold delCharUnicode CC.tryParse
  split
  · simp
  · cases hf : c.matchCp with
    | none => simp
    | some f =>
      simp only
      by_cases h1 : (parseCp e s).error = .success
      · simp only [h1, decide_true, Bool.true_and, ne_eq, not_true, if_false]
        cases f (parseCp e s).cp <;> simp
      · simp [h1]

/-- C20: a well formed code point that is not in a Unicode character class is reported as one piece. -/
theorem C20_char_bad (e : Enc) (c : CC) (h : c.Ok) (s : List Nat) (hs : Units e.bound s)
    (hu : c.matchCp ≠ none) (hok : (parseCp e s).error = .success) (hbad : ¬ c.denote (parseCp e s).cp) :
    delCharUnicode e c s = (false, (parseCp e s).len) := by
  have h1 : ∀ n, delCharUnicode e c s ≠ (true, n) := fun n hn => hbad ((C20_char_class e c h s hs n).1 hn).2.1
  have hpos : (parseCp e s).len ≠ 0 := by
    intro h0
    have := parseCp_len_pos e s hs h0
    rw [hok] at this
    simp at this
  unfold delCharUnicode at h1 ⊢
  split
  · rename_i ht; rw [if_pos ht] at h1; exact absurd rfl (h1 1)
  · rename_i ht
    rw [if_neg ht] at h1
    cases hf : c.matchCp with
    | none => exact absurd hf hu
    | some f =>
      rw [hf] at h1
      simp only at h1 ⊢
      split
      · rename_i hc; rw [if_pos hc] at h1; exact absurd rfl (h1 _)
      · rfl

/-! ## C20 on buffers with word-wise reads -/

/-- The parts do not look at the sentinels. -/
structure Delim.Pads (d : Delim) (e m : Nat) : Prop where
  eof : d.eof = some e
  close : ∀ s, d.close (s ++ List.replicate m e) = d.close s
  char : ∀ s, s ≠ [] → d.char (s ++ List.replicate m e) = d.char s
  tok : ∀ x ∈ d.escapes, ∀ s, x.tok (s ++ List.replicate m e) = x.tok s
  branch : ∀ x ∈ d.escapes, ∀ b ∈ x.branches, ∀ s, b (s ++ List.replicate m e) = b s

/-- What `parse_swar` relies on: the closing delimiter and the escapes only match at their first character, and
    class words consist of valid single unit characters. -/
structure Delim.Swar (d : Delim) (k : Verif.Swar) (closeFirst : Nat) (escFirst : List Nat) (cls : Nat → Bool) : Prop where
  closeB : closeFirst < 2 ^ k.w
  escB : ∀ c ∈ escFirst, c < 2 ^ k.w
  close : ∀ s n, d.close s = some n → ∃ t, s = closeFirst :: t
  esc : ∀ x ∈ d.escapes, ∀ s n, x.tok s = some n → ∃ c ∈ escFirst, ∃ t, s = c :: t
  cls : ∀ cs, Swar.Word k cs → cls (k.lanes cs) = true → ∀ c ∈ cs, ∀ t, d.char (c :: t) = (true, 1)

theorem escape_pad {x : Escape} {e m : Nat} (hx : ∀ s, x.tok (s ++ List.replicate m e) = x.tok s)
    (hb : ∀ b ∈ x.branches, ∀ s, b (s ++ List.replicate m e) = b s) (hle : ∀ s n, x.tok s = some n → n ≤ s.length)
    (pos b : Nat) (s : List Nat) : x.tryParse pos b (s ++ List.replicate m e) = x.tryParse pos b s := by
  unfold Escape.tryParse
  rw [hx]
  cases h : x.tok s with
  | none => rfl
  | some n =>
    simp only
    rw [List.drop_append_of_le_length (hle s n h)]
    have : x.branches.findSome? (fun br => br (s.drop n ++ List.replicate m e)) =
        x.branches.findSome? (fun br => br (s.drop n)) := by
      have gen : ∀ l : List TokMatch, (∀ b ∈ l, ∀ s, b (s ++ List.replicate m e) = b s) →
          l.findSome? (fun br => br (s.drop n ++ List.replicate m e)) = l.findSome? (fun br => br (s.drop n)) := by
        intro l
        induction l with
        | nil => intro _; rfl
        | cons a l ih =>
          intro h
          simp only [List.findSome?_cons]
          rw [h a (by simp), ih (fun b hb => h b (by simp [hb]))]
      exact gen _ hb
    rw [this]

theorem findSome?_congr' {α β : Type} {f g : α → Option β} {l : List α} (h : ∀ x ∈ l, f x = g x) :
    l.findSome? f = l.findSome? g := by
  induction l with
  | nil => rfl
  | cons a l ih =>
    simp only [List.findSome?_cons]
    rw [h a (by simp), ih (fun x hx => h x (by simp [hx]))]

theorem loop_plain (d : Delim) (hlim : d.limit = none) (start pos b u : Nat) (t : List Nat)
    (hc : d.close (u :: t) = none) (he : d.eof ≠ some u) (hx : ∀ x ∈ d.escapes, x.tok (u :: t) = none)
    (hch : d.char (u :: t) = (true, 1)) :
    d.loop (fun _ => some 0) start pos b (u :: t) = d.loop (fun _ => some 0) start (pos + 1) b t := by
  rw [Delim.loop]
  simp only [List.drop_zero, Nat.add_zero, hc, Option.isSome_none, Bool.false_eq_true, if_false]
  rw [if_neg]
  · rw [List.findSome?_eq_none_iff.2]
    · simp only [hch]
      rw [dif_pos (by simp)]
      rfl
    · intro x hxm
      unfold Escape.tryParse
      rw [hx x hxm]
  · rw [atLimit_iff]
    rintro (⟨t', n, hl, -⟩ | h | ⟨v, t', h, he'⟩)
    · rw [hlim] at hl; simp at hl
    · simp at h
    · cases h; exact he he'

/-- C20: with word-wise reads and without a limit, the rule does the same and stays inside of the padded buffer.
    Missing: rules with a limit and case folded closing delimiters, see `C20_swar_limit_refuted` and
    `C20_swar_folding_refuted`. -/
theorem C20_swar_partial (k : Verif.Swar) (hw : 1 ≤ k.w) (hn : 0 < k.n) (B : Nat) (hB : B ≤ 2 ^ k.w) (d : Delim) (hd : d.Ok B)
    (e m closeFirst : Nat) (escFirst : List Nat) (cls : Nat → Bool) (hm : k.n ≤ m) (heB : e < B)
    (hlim : d.limit = none) (hp : d.Pads e m) (hsw : d.Swar k closeFirst escFirst cls)
    (hle : ∀ x ∈ d.escapes, ∀ s n, x.tok s = some n → n ≤ s.length)
    (s : List Nat) (hs : Units B s) (pos : Nat) :
    d.parseSwar k e closeFirst escFirst cls pos (s ++ List.replicate m e) = d.parse pos s := by
  unfold Delim.parseSwar Delim.parse
  have heW : e < 2 ^ k.w := by omega
  generalize hb : pos = start
  have gen : ∀ (N pos b : Nat) (s : List Nat), s.length = N → Units B s →
      d.loop (fun m => (k.skipWhile (delSkip k e closeFirst escFirst cls) m).map fun m' => m.length - m'.length)
        start pos b (s ++ List.replicate m e) = d.loop (fun _ => some 0) start pos b s := by
    intro N
    induction N using Nat.strongRecOn with
    | _ N ih =>
      intro pos b s hN hs
      subst hN
      -- the fast path skips plain characters
      let plain : Nat → Bool := fun c => decide (c ≠ e) && decide (c ≠ closeFirst) && !escFirst.contains c
      have skip_sound : ∀ cs, Swar.Word k cs → delSkip k e closeFirst escFirst cls (k.lanes cs) = true →
          ∀ c ∈ cs, (c ≠ e ∧ c ≠ closeFirst ∧ c ∉ escFirst) ∧ ∀ t, d.char (c :: t) = (true, 1) := by
        intro cs hcs hsk c hc
        unfold delSkip at hsk
        simp only [Bool.and_eq_true, Bool.not_eq_true', Bool.or_eq_false_iff, List.any_eq_false] at hsk
        obtain ⟨⟨⟨h1, h2⟩, h3⟩, h4⟩ := hsk
        refine ⟨⟨?_, ?_, ?_⟩, hsw.cls cs hcs h4 c hc⟩
        · rintro rfl
          rw [(Swar.C07_has_char_exact k hw c heW cs hcs).2 hc] at h1; simp at h1
        · rintro rfl
          rw [(Swar.C07_has_char_exact k hw c hsw.closeB cs hcs).2 hc] at h2; simp at h2
        · intro hcm
          exact h3 c hcm ((Swar.C07_has_char_exact k hw c (hsw.escB c hcm) cs hcs).2 hc)
      -- a class containing exactly the skippable units of this input
      classical
      let pl : Nat → Bool := fun c => decide ((c ≠ e ∧ c ≠ closeFirst ∧ c ∉ escFirst) ∧ ∀ t, d.char (c :: t) = (true, 1))
      obtain ⟨j, hj, h1, h2, -⟩ := Swar.C06_skip_exact k hn (delSkip k e closeFirst escFirst cls) pl
        (fun cs hcs hsk c hc => by simp only [pl, decide_eq_true_eq]; exact skip_sound cs hcs hsk c hc) e m hm
        (by simp [pl]) heW s (fun c hc => Nat.lt_of_lt_of_le (hs c hc) hB)
      have hplain : ∀ j (s : List Nat) pos, j ≤ s.length → (∀ c ∈ s.take j, pl c = true) →
          d.loop (fun _ => some 0) start pos b s = d.loop (fun _ => some 0) start (pos + j) b (s.drop j) := by
        intro j
        induction j with
        | zero => intro s pos _ _; rfl
        | succ j ih =>
          intro s pos hl hall
          cases s with
          | nil => simp at hl
          | cons u t =>
            have hu := hall u (by simp)
            simp only [pl, decide_eq_true_eq] at hu
            obtain ⟨⟨u1, u2, u3⟩, u4⟩ := hu
            rw [loop_plain d hlim start pos b u t ?_ ?_ ?_ (u4 t), ih t (pos + 1) (by simpa using hl) (fun c hc => hall c (by simp [hc]))]
            · rw [List.drop_succ_cons]; congr 1; omega
            · cases hc : d.close (u :: t) with
              | none => rfl
              | some n => obtain ⟨t', ht⟩ := hsw.close _ n hc; cases ht; exact absurd rfl u2
            · rw [hp.eof]; simp; exact fun h => u1 h.symm
            · intro x hx
              cases hc : x.tok (u :: t) with
              | none => rfl
              | some n => obtain ⟨c, hcm, t', ht⟩ := hsw.esc x hx _ n hc; cases ht; exact absurd hcm u3
      rw [hplain j s pos hj h2]
      rw [Delim.loop]
      rw [h1]
      simp only [Option.map_some]
      have hjl : (s ++ List.replicate m e).length - (s.drop j ++ List.replicate m e).length = j := by simp; omega
      rw [hjl, List.drop_append_of_le_length hj]
      generalize hs' : s.drop j = s' at *
      have hus' : Units B s' := hs' ▸ hs.drop j
      have hlen : s'.length + j = s.length := by rw [← hs']; simp; omega
      rw [Delim.loop]
      simp only [List.drop_zero, Nat.add_zero]
      rw [hp.close]
      have hlimit : d.atLimit (s' ++ List.replicate m e) = d.atLimit s' := by
        unfold Delim.atLimit
        rw [hlim, hp.eof]
        cases s' with
        | nil =>
          cases m with
          | zero => omega
          | succ m => simp [List.replicate_succ, peekEof]
        | cons u t => simp [peekEof]
      rw [hlimit]
      split
      · rfl
      split
      · rfl
      rename_i hcl hlm
      have hne : s' ≠ [] := by
        intro h
        apply hlm
        rw [atLimit_iff]; exact .inr (.inl h)
      rw [findSome?_congr' (fun x hx => escape_pad (hp.tok x hx) (hp.branch x hx) (hle x hx) (pos + j) b s'), hp.char s' hne]
      cases hfs : d.escapes.findSome? (fun x => x.tryParse (pos + j) b s') with
      | some r =>
        obtain ⟨n, evs⟩ := r
        simp only
        -- consumption stays inside of the content
        have hn' : 0 < n ∧ n ≤ s'.length := by
          rcases findSome?_cases (fun x : Escape => x.tryParse (pos + j) b s') d.escapes with ⟨g1, -⟩ | ⟨pre, x, post, r, g1, -, g3, g4⟩
          · rw [g1] at hfs; simp at hfs
          · rw [g4] at hfs; cases hfs
            have hx : x ∈ d.escapes := by rw [g1]; simp
            rcases escape_cases x (pos + j) b s' with ⟨-, h⟩ | ⟨n', l, -, f2, -, -, -, -, kk, f7, f8⟩
            · rw [h] at g3; simp at g3
            · rw [f2] at g3; cases g3
              have hk := hd.tok x hx _ kk hus' f7
              rcases f8 with rfl | ⟨br, hbr, mm, hmm, rfl⟩
              · exact hk
              · have := hd.branch x hx br hbr _ mm (hus'.drop kk) hmm
                simp only [List.length_drop] at this
                omega
        rw [dif_pos (by simp; omega), dif_pos hn', List.drop_append_of_le_length hn'.2]
        rw [ih (s'.drop n).length (by simp; omega) (pos + j + n) (pos + j + n) (s'.drop n) rfl (hus'.drop n)]
      | none =>
        obtain ⟨u, t, rfl⟩ := List.exists_cons_of_ne_nil hne
        have hue : d.eof ≠ some u := by
          intro h
          apply hlm
          rw [atLimit_iff]; exact .inr (.inr ⟨u, t, rfl, h⟩)
        have hcn := hd.char u t hus' hue
        rcases hch : d.char (u :: t) with ⟨okc, n⟩
        rw [hch] at hcn
        simp only at hcn
        cases okc with
        | true =>
          simp only
          rw [dif_pos (by simp; omega), dif_pos (by simpa using hcn), List.drop_append_of_le_length (by simpa using hcn.2)]
          rw [← ih ((u :: t).drop n).length (by simp at hlen ⊢; omega) (pos + j + n) b ((u :: t).drop n) rfl (hus'.drop n)]
        | false =>
          simp only
          rw [dif_pos (by simp; omega), dif_pos (by simpa using hcn), List.drop_append_of_le_length (by simpa using hcn.2)]
          rw [ih ((u :: t).drop n).length (by simp at hlen ⊢; omega) (pos + j + n) (pos + j + n) ((u :: t).drop n) rfl (hus'.drop n)]
  exact gen s.length start start s rfl hs

/-! ## Examples and defects -/

/-- `LEXY_LIT("\"")` etc. as a token. -/
def unitTok (c : Nat) : TokMatch := fun s => if s.head? = some c then some 1 else none

/-- `quoted(ascii::print, escape('\\').rule(...))` with escapes `\n`, on UTF-8. -/
def exampleQuoted : Delim where
  close := unitTok 0x22
  limit := none
  eof := some 0xFF
  char := fun s => match s with | [] => (false, 1) | u :: _ => (decide (0x20 ≤ u ∧ u < 0x7F), 1)
  escapes := [⟨unitTok 0x5C, [unitTok 0x6E, unitTok 0x22]⟩]

example : exampleQuoted.Ok 256 := by
  refine ⟨?_, ?_, ?_⟩
  · intro u t _ _; simp [exampleQuoted]
  · intro x hx s n _ h
    simp [exampleQuoted] at hx; subst hx
    cases s <;> simp [unitTok] at h ⊢; omega
  · intro x hx b hb s n _ h
    simp [exampleQuoted] at hx; subst hx
    simp at hb
    rcases hb with rfl | rfl <;> cases s <;> simp [unitTok] at h ⊢ <;> omega

/-- The hypotheses of `C20_swar_partial` hold for it, with words of lower case letters. -/
example : exampleQuoted.Pads 0xFF 8 ∧ exampleQuoted.Swar .char8 0x22 [0x5C] Swar.char8.lower := by
  have pad : ∀ c, c ≠ 0xFF → ∀ s, unitTok c (s ++ List.replicate 8 0xFF) = unitTok c s := by
    intro c hc s
    cases s with
    | nil => simp [unitTok, List.replicate_succ]; omega
    | cons u t => simp [unitTok]
  refine ⟨⟨rfl, pad _ (by decide), ?_, ?_, ?_⟩, ⟨by decide, by decide, ?_, ?_, ?_⟩⟩
  · intro s hs
    cases s with
    | nil => exact absurd rfl hs
    | cons u t => rfl
  · intro x hx; simp [exampleQuoted] at hx; subst hx; exact pad _ (by decide)
  · intro x hx b hb
    simp [exampleQuoted] at hx; subst hx
    simp at hb
    rcases hb with rfl | rfl <;> exact pad _ (by decide)
  · intro s n h
    cases s <;> simp [exampleQuoted, unitTok] at h
    exact ⟨_, by rw [h.1]⟩
  · intro x hx s n h
    simp [exampleQuoted] at hx; subst hx
    cases s <;> simp [unitTok] at h
    exact ⟨0x5C, by simp, _, by rw [h.1]⟩
  · intro cs hcs hl c hc t
    have := (Swar.C06_lower_exact .char8 (by decide) cs hcs).1 hl c hc
    simp only [Spec.isLower, Bool.and_eq_true, decide_eq_true_eq] at this
    simp only [exampleQuoted, Prod.mk.injEq, decide_eq_true_eq, and_true]
    omega

/-- `ab\"c<07>d"x`: the escaped quote does not end the content, the control character is reported. -/
example : exampleQuoted.parse 0 [0x61, 0x62, 0x5C, 0x22, 0x63, 0x07, 0x64, 0x22, 0x78] =
    some (true, 7, [.content 0 2, .escape 2 3, .escaped 3 4, .content 4 5, .badChar 5 6, .content 6 7]) ∧
    exampleQuoted.parse 0 [0x61, 0x5C, 0x71, 0x62] =
    some (false, 4, [.content 0 1, .escape 1 2, .badEscape 1 2, .content 2 4, .missing 0 4]) := by
  decide +kernel

/-- C20 is false for rules with a limit on buffers with word-wise reads: the fast path does not look for the limit.
    `quoted.limit(dsl::lit_c<'c'>)` on "aaaaaaacb\"" of 8-bit characters: must report a missing delimiter at the
    `c`, but finds the quote after it. -/
theorem C20_swar_limit_refuted :
    let d : Delim := { exampleQuoted with limit := some (unitTok 0x63), escapes := [] }
    let s := [0x61, 0x61, 0x63, 0x61, 0x61, 0x61, 0x61, 0x61, 0x22]
    d.parse 0 s = some (false, 2, [.content 0 2, .missing 0 2]) ∧
    d.parseSwar .char8 0xFF 0x22 [] Swar.char8.lower 0 (s ++ List.replicate 8 0xFF) = some (true, 8, [.content 0 8]) := by
  decide +kernel

/-- C20 is false for case folded closing delimiters on buffers with word-wise reads: `lit_first_char` is the lower case
    letter of the literal, so an upper case delimiter is skipped. `delimited(open, ascii::case_folding(LEXY_LIT("q")))`
    with class `ascii::print` on "aQbcdefg" followed by "q". -/
theorem C20_swar_folding_refuted :
    let d : Delim := { exampleQuoted with close := fun s => if (s.map asciiFold).head? = some 0x71 then some 1 else none, escapes := [] }
    let s := [0x61, 0x51, 0x62, 0x63, 0x64, 0x65, 0x66, 0x67, 0x71]
    d.parse 0 s = some (true, 1, [.content 0 1]) ∧
    d.parseSwar .char8 0xFF 0x71 [] Swar.char8.print 0 (s ++ List.replicate 8 0xFF) = some (true, 8, [.content 0 8]) := by
  decide +kernel

end Verif
