import Verif.IpAddressLemmas

/-
C83 and C84: the addresses that examples/ip_address.cpp accepts, and when its builder stays in bounds.
-/

namespace Verif.Ip

open Spec.Ip (number Octet V4 H16 Plain Groups V6 Address)

/-! ## What the loop reads -/

/-- The separator before the next group: after the pieces `ps`, with the elision `e`. -/
def Sep (ps : List Nat) (e : Option Nat) (w : List Nat) (e' : Option Nat) : Prop :=
  (w = [0x3A, 0x3A] ∧ e = none ∧ e' = some ps.length) ∨ (w = [0x3A] ∧ ps ≠ [] ∧ e' = e) ∨ (w = [] ∧ ps = [] ∧ e' = e)

/-- The loop, after the pieces `ps` with the elision `e`, reads a text and ends with other pieces and another elision. -/
inductive Run : List Nat → Option Nat → List Nat → List Nat → Option Nat → Prop
  | stop {ps e} : ps ≠ [] → Run ps e [] ps e
  | step {ps e w e1 t v u ps' e'} : Sep ps e w e1 → H16 false t v → Run (ps ++ [v]) e1 u ps' e' →
    Run ps e (w ++ t ++ u) ps' e'
  | four {ps e w e1 t p q} : Sep ps e w e1 → V4 t (p, q) → Run ps e (w ++ t) (ps ++ [p, q]) e1
  | final {ps} : Run ps none [0x3A, 0x3A] ps (some ps.length)

/-- The builder holds these pieces, as long as there are not too many. -/
structure Rep (b : Builder) (ps : List Nat) (e : Option Nat) : Prop where
  count : b.count = ps.length
  elision : b.elision = e
  pieces : ps.length ≤ 8 → b.pieces = ps ++ List.replicate (8 - ps.length) 0

theorem Rep.init : Rep .init [] none := ⟨rfl, rfl, fun _ => rfl⟩

theorem set_end (ps : List Nat) (v n : Nat) : (ps ++ List.replicate (n + 1) 0).set ps.length v = ps ++ [v] ++ List.replicate n 0 := by
  rw [List.set_append_right _ _ (Nat.le_refl _), Nat.sub_self]
  simp [List.replicate_succ]

theorem Rep.piece {b : Builder} {ps : List Nat} {e : Option Nat} (h : Rep b ps e) (v : Nat) : Rep (b.piece v) (ps ++ [v]) e := by
  refine ⟨by simp [Builder.piece, h.count], h.elision, fun hl => ?_⟩
  simp only [List.length_append, List.length_singleton] at hl
  simp only [Builder.piece, h.count]
  rw [if_pos (by omega), h.pieces (by omega), show 8 - ps.length = (8 - (ps.length + 1)) + 1 by omega, set_end]
  simp

theorem Rep.ipv4 {b : Builder} {ps : List Nat} {e : Option Nat} (h : Rep b ps e) (v w : Nat) : Rep (b.ipv4 v w) (ps ++ [v, w]) e := by
  refine ⟨by simp [Builder.ipv4, h.count], h.elision, fun hl => ?_⟩
  simp only [List.length_append, List.length_cons, List.length_nil] at hl
  simp only [Builder.ipv4, h.count]
  rw [if_pos (by omega), h.pieces (by omega), show 8 - ps.length = (8 - (ps.length + 2)) + 1 + 1 by omega, set_end]
  have := set_end (ps ++ [v]) w (8 - (ps.length + 2))
  rw [List.length_append, List.length_singleton] at this
  rw [this]
  simp

theorem Rep.elide {b : Builder} {ps : List Nat} (h : Rep b ps none) :
    b.elide.2 = true ∧ Rep b.elide.1 ps (some ps.length) := by
  unfold Builder.elide
  simp only [h.elision, Option.isSome_none, Bool.false_eq_true, if_false, true_and]
  exact ⟨h.count, by simp [h.count], h.pieces⟩

/-- A separator without error. -/
theorem separator_sound {b : Builder} {ps s rest : List Nat} {e : Option Nat} {x : Builder × Bool} (hb : Rep b ps e)
    (h : separator b s = .ok x rest []) :
    ∃ w e1, s = w ++ rest ∧ Rep x.1 ps e1 ∧
      ((x.2 = true ∧ Sep ps e w e1) ∨ (x.2 = false ∧ (w = [] ∧ ps ≠ [] ∧ e1 = e ∨ w = [0x3A, 0x3A] ∧ e = none ∧ e1 = some ps.length))) := by
  unfold separator at h
  simp only at h
  split at h
  · rename_i h1
    obtain ⟨rfl, rfl, h2⟩ := Outc.ok.inj h
    have he : e = none := by
      cases e with
      | none => rfl
      | some k =>
        exfalso
        unfold Builder.elide at h2
        simp [hb.elision] at h2
    subst he
    refine ⟨[0x3A, 0x3A], some ps.length, lit_split h1, hb.elide.2, ?_⟩
    cases hx : (Base.tok .hex (List.drop (lit [58, 58] s).2 s)).isSome with
    | true => exact .inl ⟨rfl, .inl ⟨rfl, rfl, rfl⟩⟩
    | false => exact .inr ⟨rfl, .inr ⟨rfl, rfl, rfl⟩⟩
  · split at h
    · rename_i h1
      rw [hb.count] at h1
      split at h
      · rename_i h2
        obtain ⟨rfl, rfl, -⟩ := Outc.ok.inj h
        exact ⟨[0x3A], e, lit_split h2, hb, .inl ⟨rfl, .inr (.inl ⟨rfl, List.length_pos_iff.1 h1, rfl⟩)⟩⟩
      · obtain ⟨rfl, rfl, -⟩ := Outc.ok.inj h
        exact ⟨[], e, rfl, hb, .inr ⟨rfl, .inl ⟨rfl, List.length_pos_iff.1 h1, rfl⟩⟩⟩
    · rename_i h1
      rw [hb.count] at h1
      obtain ⟨rfl, rfl, -⟩ := Outc.ok.inj h
      exact ⟨[], e, rfl, hb, .inl ⟨rfl, .inr (.inr ⟨rfl, List.length_eq_zero_iff.1 (by omega), rfl⟩)⟩⟩

/-- The loop reads what `Run` says. -/
theorem loop_sound {n : Nat} {b : Builder} {ps s rest : List Nat} {e : Option Nat} {b' : Builder} (hb : Rep b ps e)
    (h : loop n b s = .ok b' rest []) : ∃ u ps' e', s = u ++ rest ∧ Rep b' ps' e' ∧ Run ps e u ps' e' := by
  induction n generalizing b ps s e with
  | zero => cases h
  | succ n ih =>
    unfold loop at h
    obtain ⟨x, s1, h1, h2⟩ := bind_quiet.1 h
    obtain ⟨w, e1, rfl, hx, h3⟩ := separator_sound hb h1
    rcases h3 with ⟨h3, h4⟩ | ⟨h3, h4⟩
    · rw [if_pos h3] at h2
      obtain ⟨y, s2, h5, h6⟩ := bind_quiet.1 h2
      unfold group at h5
      split at h5
      · obtain ⟨v, s3, h7, h8⟩ := bind_quiet.1 h5
        obtain ⟨rfl, rfl, -⟩ := Outc.ok.inj h8
        simp only [Bool.false_eq_true, if_false] at h6
        obtain ⟨rfl, rfl, -⟩ := Outc.ok.inj h6
        obtain ⟨t, rfl, ht⟩ := v4_sound h7
        exact ⟨w ++ t, _, e1, by simp, hx.ipv4 _ _, .four h4 ht⟩
      · obtain ⟨v, s3, h7, h8⟩ := bind_quiet.1 h5
        obtain ⟨rfl, rfl, -⟩ := Outc.ok.inj h8
        simp only [if_true] at h6
        obtain ⟨t, rfl, ht⟩ := piece_sound h7
        obtain ⟨u, ps', e', rfl, h9, h10⟩ := ih (hx.piece v) h6
        exact ⟨w ++ t ++ u, ps', e', by simp, h9, .step h4 ht h10⟩
    · rw [if_neg (by simp [h3])] at h2
      obtain ⟨rfl, rfl, -⟩ := Outc.ok.inj h2
      rcases h4 with ⟨rfl, h5, rfl⟩ | ⟨rfl, rfl, rfl⟩
      · exact ⟨[], ps, e1, rfl, hx, .stop h5⟩
      · exact ⟨_, ps, _, rfl, hx, .final⟩

/-- After a piece there is the end or a colon. -/
theorem Run.head {ps u ps' : List Nat} {e e' : Option Nat} (h : Run ps e u ps' e') (hp : ps ≠ []) :
    ∀ c, u.head? = some c → c = 0x3A := by
  have key : ∀ {w t : List Nat} {e1 : Option Nat}, Sep ps e w e1 → ∀ c, (w ++ t).head? = some c → c = 0x3A := by
    rintro w t e1 (⟨rfl, -⟩ | ⟨rfl, -⟩ | ⟨-, rfl, -⟩) c hc
    · simpa using hc.symm
    · simpa using hc.symm
    · exact absurd rfl hp
  cases h with
  | stop => simp
  | step h1 _ _ => rw [List.append_assoc]; exact key h1
  | four h1 _ => exact key h1
  | final => simp

theorem not_colon {P : Nat → Prop} {u : List Nat} (h : ∀ c, u.head? = some c → c = 0x3A) (hP : P 0x3A) :
    ∀ c, u.head? = some c → P c := fun c hc => by rw [h c hc]; exact hP

/-- A separator before a hexadecimal digit. -/
theorem separator_ok {b : Builder} {ps w s : List Nat} {e e1 : Option Nat} (hb : Rep b ps e) (hw : Sep ps e w e1)
    (hs : ∃ c t, s = c :: t ∧ Spec.IsDigitOf .hex c) : ∃ b1, separator b (w ++ s) = .ok (b1, true) s [] ∧ Rep b1 ps e1 := by
  obtain ⟨c, t, rfl, hc⟩ := hs
  have hc' : c ≠ 0x3A := fun h => colon_not_hex (h ▸ hc)
  unfold separator
  rcases hw with ⟨rfl, rfl, rfl⟩ | ⟨rfl, h1, rfl⟩ | ⟨rfl, h1, rfl⟩
  · rw [lit_app]
    refine ⟨b.elide.1, ?_, hb.elide.2⟩
    simp [hb.elide.1, Base.tok_cons, hc]
  · refine ⟨b, ?_, hb⟩
    rw [if_neg, if_pos (by rw [hb.count]; exact List.length_pos_iff.2 h1), lit_app]
    · simp
    · rw [lit_true, pre_two]
      rintro ⟨t, h⟩
      simp at h
      exact hc' h.1
  · refine ⟨b, ?_, hb⟩
    rw [if_neg, if_neg (by rw [hb.count, h1]; simp)]
    · simp
    · rw [lit_true, pre_two]
      rintro ⟨t, h⟩
      simp at h
      exact hc' h.1

theorem _root_.Verif.Spec.Ip.H16.head {L : Bool} {t u : List Nat} {v : Nat} (h : H16 L t v) : ∃ c r, t ++ u = c :: r ∧ Spec.IsDigitOf .hex c := by
  cases t with
  | nil => exact absurd rfl h.ne
  | cons c t => exact ⟨c, t ++ u, rfl, h.digits c (by simp)⟩

theorem _root_.Verif.Spec.Ip.V4.head {t u : List Nat} {v : Nat × Nat} (h : V4 t v) : ∃ c r, t ++ u = c :: r ∧ Spec.IsDigitOf .hex c := by
  obtain ⟨t1, t2, t3, t4, a, b, c, d, rfl, o1, -⟩ := h
  cases t1 with
  | nil => exact absurd rfl o1.ne
  | cons c t => exact ⟨c, _, rfl, decimal_hex (o1.digits c (by simp))⟩

/-- And the loop reads all that. -/
theorem loop_ok {ps u ps' : List Nat} {e e' : Option Nat} (h : Run ps e u ps' e') {b : Builder} (hb : Rep b ps e) {n : Nat}
    (hn : u.length < n) : ∃ b', loop n b u = .ok b' [] [] ∧ Rep b' ps' e' := by
  induction h generalizing b n with
  | @stop ps e h1 =>
    obtain ⟨n, rfl⟩ : ∃ k, n = k + 1 := ⟨n - 1, by simp at hn; omega⟩
    refine ⟨b, ?_, hb⟩
    unfold loop separator
    rw [lit_false (by simp), lit_false (by simp), if_neg (by simp), if_pos (by rw [hb.count]; exact List.length_pos_iff.2 h1)]
    rfl
  | @step ps e w e1 t v u ps' e' h1 h2 h3 ih =>
    obtain ⟨n, rfl⟩ : ∃ k, n = k + 1 := ⟨n - 1, by simp at hn; omega⟩
    obtain ⟨b1, h4, h5⟩ := separator_ok (s := t ++ u) hb h1 h2.head
    have hl : 0 < t.length := List.length_pos_iff.2 h2.ne
    obtain ⟨b2, h6, h7⟩ := ih (h5.piece v) (n := n) (by simp at hn; omega)
    have hh := h3.head (by simp)
    refine ⟨b2, ?_, h7⟩
    unfold loop
    rw [List.append_assoc]
    refine bind_quiet.2 ⟨_, _, h4, ?_⟩
    simp only [if_true]
    refine bind_quiet.2 ⟨(b1.piece v, true), u, ?_, ?_⟩
    · unfold group
      rw [isV4_hex h2.digits (not_colon hh ⟨colon_not_hex, by decide⟩), if_neg (by simp)]
      exact bind_quiet.2 ⟨v, u, piece_ok h2 (not_colon hh colon_not_hex), rfl⟩
    · simp only [if_true, h6]
  | @four ps e w e1 t p q h1 h2 =>
    obtain ⟨n, rfl⟩ : ∃ k, n = k + 1 := ⟨n - 1, by simp at hn; omega⟩
    obtain ⟨b1, h4, h5⟩ := separator_ok (s := t) hb h1 (by have := Spec.Ip.V4.head (u := []) h2; rwa [List.append_nil] at this)
    refine ⟨b1.ipv4 p q, ?_, h5.ipv4 p q⟩
    unfold loop
    refine bind_quiet.2 ⟨_, _, h4, ?_⟩
    simp only [if_true]
    refine bind_quiet.2 ⟨(b1.ipv4 p q, false), [], ?_, ?_⟩
    · unfold group
      have h6 := isV4_V4 (r := []) h2
      have h7 := v4_ok (rest := []) h2 (by simp)
      rw [List.append_nil] at h6 h7
      rw [if_pos h6]
      exact bind_quiet.2 ⟨(p, q), [], h7, rfl⟩
    · simp
  | @final ps =>
    obtain ⟨n, rfl⟩ : ∃ k, n = k + 1 := ⟨n - 1, by simp at hn; omega⟩
    refine ⟨b.elide.1, ?_, hb.elide.2⟩
    unfold loop separator
    have := lit_app [0x3A, 0x3A] []
    rw [List.append_nil] at this
    rw [this]
    simp [hb.elide.1, Base.tok_nil, Outc.bind]

/-! ## What that is in terms of the specification -/

/-- More groups after a group. -/
def Tail (P : List Nat → List Nat → Prop) (vs u : List Nat) : Prop := u = [] ∧ vs = [] ∨ ∃ w, u = 0x3A :: w ∧ P vs w

theorem Tail.cons {P : List Nat → List Nat → Prop} {t vs u : List Nat} {v : Nat} (h : Tail P vs u)
    (h1 : P [v] t) (h2 : ∀ w, P vs w → P (v :: vs) (t ++ 0x3A :: w)) : P (v :: vs) (t ++ u) := by
  rcases h with ⟨rfl, rfl⟩ | ⟨w, rfl, h⟩
  · rw [List.append_nil]; exact h1
  · exact h2 w h

theorem Run.spec {ps u ps' : List Nat} {e e' : Option Nat} (h : Run ps e u ps' e') (hp : ps ≠ []) :
    (e' = e ∧ ∃ rs, ps' = ps ++ rs ∧ Tail (Groups false) rs u) ∨
    (e = none ∧ ∃ ls rs l r, e' = some (ps.length + ls.length) ∧ ps' = ps ++ ls ++ rs ∧ u = l ++ 0x3A :: 0x3A :: r ∧
      Tail (Plain false) ls l ∧ (r = [] ∧ rs = [] ∨ Groups false rs r)) := by
  induction h with
  | stop _ => exact .inl ⟨rfl, [], by simp, .inl ⟨rfl, rfl⟩⟩
  | @step ps e w e1 t v u ps' e' h1 h2 h3 ih =>
    have ih := ih (by simp)
    rcases h1 with ⟨rfl, rfl, rfl⟩ | ⟨rfl, -, rfl⟩ | ⟨-, h, -⟩
    · rcases ih with ⟨rfl, rs, rfl, h4⟩ | ⟨h4, -⟩
      · exact .inr ⟨rfl, [], v :: rs, [], t ++ u, by simp, by simp, by simp, .inl ⟨rfl, rfl⟩,
          .inr (h4.cons (.one h2) fun w hw => .more h2 hw)⟩
      · cases h4
    · rcases ih with ⟨rfl, rs, rfl, h4⟩ | ⟨rfl, ls, rs, l, r, rfl, rfl, rfl, h4, h5⟩
      · exact .inl ⟨rfl, v :: rs, by simp, .inr ⟨_, rfl, h4.cons (.one h2) fun w hw => .more h2 hw⟩⟩
      · refine .inr ⟨rfl, v :: ls, rs, 0x3A :: (t ++ l), r, ?_, by simp, by simp, .inr ⟨_, rfl, h4.cons (.one h2) fun w hw => .more h2 hw⟩, h5⟩
        simp
        omega
    · exact absurd h hp
  | @four ps e w e1 t p q h1 h2 =>
    rcases h1 with ⟨rfl, rfl, rfl⟩ | ⟨rfl, -, rfl⟩ | ⟨-, h, -⟩
    · exact .inr ⟨rfl, [], [p, q], [], t, by simp, by simp, by simp, .inl ⟨rfl, rfl⟩, .inr (.four h2)⟩
    · exact .inl ⟨rfl, [p, q], rfl, .inr ⟨t, rfl, .four h2⟩⟩
    · exact absurd h hp
  | final => exact .inr ⟨rfl, [], [], [], [], by simp, by simp, by simp, .inl ⟨rfl, rfl⟩, .inl ⟨rfl, rfl⟩⟩

/-- The texts of the whole loop. -/
theorem Run.start {u ps' : List Nat} {e' : Option Nat} (h : Run [] none u ps' e') :
    (e' = none ∧ Groups false ps' u) ∨
    (∃ ls rs l r, e' = some ls.length ∧ ps' = ls ++ rs ∧ u = l ++ 0x3A :: 0x3A :: r ∧
      (l = [] ∧ ls = [] ∨ Plain false ls l) ∧ (r = [] ∧ rs = [] ∨ Groups false rs r)) := by
  cases h with
  | stop h => exact absurd rfl h
  | @step _ _ w e1 t v u _ _ h1 h2 h3 =>
    have h4 := h3.spec (by simp)
    rcases h1 with ⟨rfl, -, rfl⟩ | ⟨-, h, -⟩ | ⟨rfl, -, rfl⟩
    · rcases h4 with ⟨rfl, rs, rfl, h5⟩ | ⟨h5, -⟩
      · exact .inr ⟨[], v :: rs, [], t ++ u, rfl, by simp, by simp, .inl ⟨rfl, rfl⟩, .inr (h5.cons (.one h2) fun w hw => .more h2 hw)⟩
      · cases h5
    · exact absurd rfl h
    · rcases h4 with ⟨rfl, rs, rfl, h5⟩ | ⟨-, ls, rs, l, r, rfl, rfl, rfl, h5, h6⟩
      · refine .inl ⟨rfl, ?_⟩
        exact h5.cons (.one h2) fun w hw => .more h2 hw
      · refine .inr ⟨v :: ls, rs, t ++ l, r, ?_, by simp, by simp, .inr (h5.cons (.one h2) fun w hw => .more h2 hw), h6⟩
        simp
        omega
  | @four _ _ w e1 t p q h1 h2 =>
    rcases h1 with ⟨rfl, -, rfl⟩ | ⟨-, h, -⟩ | ⟨rfl, -, rfl⟩
    · exact .inr ⟨[], [p, q], [], t, rfl, by simp, by simp, .inl ⟨rfl, rfl⟩, .inr (.four h2)⟩
    · exact absurd rfl h
    · exact .inl ⟨rfl, .four h2⟩
  | final => exact .inr ⟨[], [], [], [], rfl, rfl, rfl, .inl ⟨rfl, rfl⟩, .inl ⟨rfl, rfl⟩⟩

theorem H16.weaken {L : Bool} {t : List Nat} {v : Nat} (h : H16 L t v) : H16 false t v :=
  ⟨h.ne, h.digits, (by intro h; cases h), h.value, h.lt⟩

/-- Groups are read, after a separator. -/
theorem Groups.run {L : Bool} {vs t : List Nat} (h : Groups L vs t) {ps w : List Nat} {e e1 : Option Nat} (hw : Sep ps e w e1) :
    Run ps e (w ++ t) (ps ++ vs) e1 := by
  induction h generalizing ps w e with
  | one h => simpa using Run.step hw (H16.weaken h) (.stop (by simp))
  | four h => exact .four hw h
  | @more t v u vs h _ ih =>
    have := Run.step hw (H16.weaken h) (ih (ps := ps ++ [v]) (w := [0x3A]) (e := e1) (.inr (.inl ⟨rfl, by simp, rfl⟩)))
    simpa using this

/-- The elision after pieces. -/
theorem Run.elide {L : Bool} {ps rs r : List Nat} (h : r = [] ∧ rs = [] ∨ Groups L rs r) :
    Run ps none (0x3A :: 0x3A :: r) (ps ++ rs) (some ps.length) := by
  rcases h with ⟨rfl, rfl⟩ | h
  · rw [List.append_nil]; exact .final
  · exact Groups.run h (w := [0x3A, 0x3A]) (.inl ⟨rfl, rfl, rfl⟩)

/-- Pieces are read, then anything. -/
theorem Plain.run {L : Bool} {vs t : List Nat} (h : Plain L vs t) {ps w u ps' : List Nat} {e e1 e' : Option Nat} (hw : Sep ps e w e1)
    (hu : Run (ps ++ vs) e1 u ps' e') : Run ps e (w ++ t ++ u) ps' e' := by
  induction h generalizing ps w e with
  | one h => exact .step hw (H16.weaken h) hu
  | @more t v u' vs h _ ih =>
    have := Run.step hw (H16.weaken h) (ih (ps := ps ++ [v]) (w := [0x3A]) (e := e1) (.inr (.inl ⟨rfl, by simp, rfl⟩)) (by simpa using hu))
    simpa using this

theorem run_start {L : Bool} {ls rs l r : List Nat} (h1 : l = [] ∧ ls = [] ∨ Plain L ls l) (h2 : r = [] ∧ rs = [] ∨ Groups L rs r) :
    Run [] none (l ++ 0x3A :: 0x3A :: r) (ls ++ rs) (some ls.length) := by
  rcases h1 with ⟨rfl, rfl⟩ | h1
  · exact Run.elide h2
  · exact Plain.run h1 (w := []) (.inr (.inr ⟨rfl, rfl, rfl⟩)) (Run.elide h2)

/-! ## The builder -/

/-- The loops of `finish` within bounds. -/
theorem copy_ok (pieces : List Nat) : ∀ (n src d : Nat) (res : List Nat), src + n ≤ pieces.length → d + n ≤ res.length →
    copy pieces n src d res = some (res.take d ++ (pieces.drop src).take n ++ res.drop (d + n)) := by
  intro n
  induction n with
  | zero => intro src d res _ _; simp [copy]
  | succ n ih =>
    intro src d res h1 h2
    unfold copy
    rw [if_pos ⟨by omega, by omega⟩, List.getElem?_eq_getElem (by omega)]
    simp only [Int.toNat_natCast]
    rw [show (d : Int) + 1 = ((d + 1 : Nat) : Int) by omega, ih _ _ _ (by omega) (by simp; omega)]
    congr 1
    rw [List.drop_eq_getElem_cons (show src < pieces.length by omega), List.take_succ_cons, List.drop_set_of_lt (by omega),
      List.take_succ_eq_append_getElem (by simp; omega), List.getElem_set_self, List.take_set_of_le (Nat.le_refl _),
      show d + 1 + n = d + (n + 1) by omega]
    simp

/-- And out of bounds: before the first element, or after the last. -/
theorem copy_none (pieces : List Nat) : ∀ (n src : Nat) (d : Int) (res : List Nat),
    copy pieces n src d res = none ↔ ∃ i : Nat, i < n ∧ ¬ (0 ≤ d + i ∧ d + i < res.length ∧ src + i < pieces.length) := by
  intro n
  induction n with
  | zero => intro src d res; simp [copy]
  | succ n ih =>
    intro src d res
    unfold copy
    split
    · rename_i h1
      by_cases h2 : src < pieces.length
      · rw [List.getElem?_eq_getElem h2]
        simp only
        rw [ih]
        constructor
        · rintro ⟨i, hi, h⟩
          refine ⟨i + 1, by omega, fun h' => h ?_⟩
          rw [List.length_set]
          omega
        · rintro ⟨i, hi, h⟩
          cases i with
          | zero => exact absurd ⟨by omega, by omega, by omega⟩ h
          | succ i =>
            refine ⟨i, by omega, fun h' => h ?_⟩
            rw [List.length_set] at h'
            omega
      · rw [List.getElem?_eq_none (by omega)]
        simp only [true_iff]
        exact ⟨0, by omega, fun h => h2 (by omega)⟩
    · rename_i h1
      simp only [true_iff]
      exact ⟨0, by omega, fun h => h1 (by omega)⟩

/-- The builder of an address that is not too long. -/
theorem finish_ok {b : Builder} {ps : List Nat} {e : Option Nat} (h : Rep b ps e) (hl : ps.length ≤ 8) (he : ∀ k, e = some k → k ≤ ps.length) :
    b.finish = some (match e with
      | none => ps ++ List.replicate (8 - ps.length) 0
      | some k => ps.take k ++ List.replicate (8 - ps.length) 0 ++ ps.drop k) := by
  unfold Builder.finish
  have hp := h.pieces hl
  cases e with
  | none =>
    simp only [h.elision, h.count, Option.getD_none, Option.isSome_none, Bool.false_eq_true, if_false]
    have e0 : copy b.pieces 0 0 0 (List.replicate 8 0) = some (List.replicate 8 0) := rfl
    rw [e0, Option.bind_some]
    have := copy_ok b.pieces (min ps.length 8) 0 0 (List.replicate 8 0) (by rw [hp]; simp; omega) (by simp; omega)
    simp only [Nat.sub_zero, Int.natCast_zero, Int.add_zero] at this ⊢
    rw [this, Nat.min_eq_left hl, hp, List.drop_replicate]
    simp only [List.take_zero, List.drop_zero, List.nil_append, List.take_left, Nat.zero_add]
  | some k =>
    have hk := he k rfl
    simp only [h.elision, h.count, Option.getD_some, Option.isSome_some, if_true]
    have := copy_ok b.pieces k 0 0 (List.replicate 8 0) (by rw [hp]; simp; omega) (by simp; omega)
    simp only [Int.natCast_zero] at this
    rw [this, Option.bind_some]
    rw [show (k : Int) + (8 - (ps.length : Int)) = ((k + (8 - ps.length) : Nat) : Int) by omega, Nat.min_eq_left hl]
    rw [copy_ok _ _ _ _ _ (by rw [hp]; simp; omega) (by rw [hp]; simp; omega), hp]
    congr 1
    have e1 : ps.length - k ≤ (ps.drop k).length := by simp
    simp only [List.take_zero, List.nil_append, List.drop_zero, Nat.zero_add, List.drop_replicate]
    rw [List.take_append_of_le_length hk, List.drop_append_of_le_length hk, List.take_append_of_le_length e1,
      List.take_of_length_le (Nat.le_of_eq (by simp) : (ps.drop k).length ≤ ps.length - k), List.take_append]
    have e2 : (ps.take k).length = k := by simp [hk]
    rw [List.take_of_length_le (by omega), e2, List.take_replicate, List.drop_append, e2, List.drop_replicate, List.drop_of_length_le (show (ps.take k).length ≤ k + (8 - ps.length) + (ps.length - k) by omega)]
    rw [show min (k + (8 - ps.length) - k) (8 - k) = 8 - ps.length by omega,
      show 8 - k - (k + (8 - ps.length) + (ps.length - k) - k) = 0 by omega]
    simp

theorem errs_nil {b : Builder} {ps : List Nat} {e : Option Nat} (h : Rep b ps e) :
    b.errs = [] ↔ (e = none ∧ ps.length = 8) ∨ (e.isSome = true ∧ ps.length ≤ 7) := by
  unfold Builder.errs
  rw [h.count, h.elision]
  cases e with
  | none =>
    simp only [Option.isSome_none, Bool.false_eq_true, false_and, or_false, and_true, true_and]
    split
    · simp; omega
    · split
      · simp; omega
      · simp; omega
  | some k =>
    simp only [Option.isSome_some, reduceCtorEq, Bool.true_eq_false, and_false, if_false, true_and, false_and, false_or]
    split
    · simp; omega
    · simp; omega

/-! ## C83 -/

theorem v6_quiet (s v : List Nat) : v6 s = .ok v [] [] ↔ V6 false s v := by
  unfold v6
  constructor
  · intro h
    obtain ⟨b, s1, h1, h2⟩ := bind_quiet.1 h
    split at h2
    · rename_i v' hv
      obtain ⟨rfl, rfl, h3⟩ := Outc.ok.inj h2
      obtain ⟨u, ps, e, h4, h5, h6⟩ := loop_sound Rep.init h1
      rw [List.append_nil] at h4
      subst h4
      have h7 := (errs_nil h5).1 h3
      rcases h6.start with ⟨rfl, h8⟩ | ⟨ls, rs, l, r, rfl, rfl, rfl, h8, h9⟩
      · rcases h7 with ⟨-, h7⟩ | ⟨h7, -⟩
        · rw [finish_ok h5 (by omega) (by simp)] at hv
          obtain rfl := Option.some.inj hv
          simp only [h7, Nat.sub_self, List.replicate_zero, List.append_nil]
          exact .full h8 h7
        · cases h7
      · rcases h7 with ⟨h7, -⟩ | ⟨-, h7⟩
        · cases h7
        · rw [finish_ok h5 (by omega) (by simp)] at hv
          obtain rfl := Option.some.inj hv
          simp only [List.take_left, List.drop_left]
          rw [List.length_append] at h7 ⊢
          exact .elided h8 h9 h7
    · cases h2
  · intro h
    cases h with
    | full h1 h2 =>
      obtain ⟨b, hb, h5⟩ := loop_ok (Groups.run h1 (w := []) (ps := []) (.inr (.inr ⟨rfl, rfl, rfl⟩))) Rep.init (Nat.lt_succ_self _)
      refine bind_quiet.2 ⟨b, [], hb, ?_⟩
      rw [List.nil_append] at h5
      rw [finish_ok h5 (by omega) (by simp), (errs_nil h5).2 (.inl ⟨rfl, h2⟩)]
      simp [h2]
    | elided h1 h2 h3 =>
      obtain ⟨b, hb, h5⟩ := loop_ok (run_start h1 h2) Rep.init (Nat.lt_succ_self _)
      refine bind_quiet.2 ⟨b, [], hb, ?_⟩
      rw [finish_ok h5 (by simp; omega) (by simp), (errs_nil h5).2 (.inr ⟨rfl, by simp; omega⟩)]
      simp

theorem isV4_V6 {s v : List Nat} (h : V6 false s v) : isV4 s = false := by
  have e1 : ∀ {t r : List Nat} {v : Nat}, H16 false t v → isV4 (t ++ 0x3A :: r) = false := fun h =>
    isV4_hex h.digits fun c hc => head_cons (P := fun c => ¬ Spec.IsDigitOf .hex c ∧ c ≠ 0x2E) ⟨colon_not_hex, by decide⟩ hc
  cases h with
  | full h1 h2 =>
    cases h1 with
    | one h => cases h2
    | four h => cases h2
    | more h _ => exact e1 h
  | elided h1 h2 h3 =>
    rcases h1 with ⟨rfl, rfl⟩ | h1
    · exact isV4_hex (t := []) (by simp) fun c hc => head_cons (P := fun c => ¬ Spec.IsDigitOf .hex c ∧ c ≠ 0x2E) ⟨colon_not_hex, by decide⟩ hc
    · cases h1 with
      | one h => exact e1 h
      | more h _ =>
        rw [List.append_assoc, List.cons_append]
        exact e1 h

/-- C83: the parser accepts a text without error exactly if it is an address, with any number of digits in the pieces; it then
    consumes all of it, and its result is the address that is meant. -/
theorem C83_address (s : List Nat) (v : Nat × List Nat) (rest : List Nat) :
    parse s = .ok v rest [] ↔ Address false s v ∧ rest = [] := by
  unfold parse
  rw [bind_quiet]
  constructor
  · rintro ⟨v', s', h1, h2⟩
    obtain ⟨rfl, rfl, h3⟩ := Outc.ok.inj h2
    have hs : s' = [] := by
      cases s' with
      | nil => rfl
      | cons _ _ => simp at h3
    subst hs
    refine ⟨?_, rfl⟩
    split at h1
    · obtain ⟨w, s2, h4, h5⟩ := bind_quiet.1 h1
      obtain ⟨rfl, rfl, -⟩ := Outc.ok.inj h5
      obtain ⟨t, rfl, ht⟩ := v4_sound h4
      rw [List.append_nil]
      exact .inl ⟨w.1, w.2, ht, rfl⟩
    · obtain ⟨w, s2, h4, h5⟩ := bind_quiet.1 h1
      obtain ⟨rfl, rfl, -⟩ := Outc.ok.inj h5
      exact .inr ⟨w, (v6_quiet s w).1 h4, rfl⟩
  · rintro ⟨h, rfl⟩
    refine ⟨v, [], ?_, rfl⟩
    rcases h with ⟨p, q, h1, rfl⟩ | ⟨vs, h1, rfl⟩
    · have h2 := isV4_V4 (r := []) h1
      have h3 := v4_ok (rest := []) h1 (by simp)
      rw [List.append_nil] at h2 h3
      rw [if_pos h2]
      exact bind_quiet.2 ⟨(p, q), [], h3, rfl⟩
    · rw [isV4_V6 h1, if_neg (by simp)]
      exact bind_quiet.2 ⟨vs, [], (v6_quiet s vs).2 h1, rfl⟩

/-- The address that RFC 4291 gives as example, `2001:DB8::8:800:200C:417A`, with lower case letters. -/
def rfc4291 : List Nat := [0x32, 0x30, 0x30, 0x31, 0x3A, 0x64, 0x62, 0x38, 0x3A, 0x3A, 0x38, 0x3A, 0x38, 0x30, 0x30, 0x3A,
  0x32, 0x30, 0x30, 0x63, 0x3A, 0x34, 0x31, 0x37, 0x61]

example : parse rfc4291 = .ok (6, [0x2001, 0xDB8, 0, 0, 8, 0x800, 0x200C, 0x417A]) [] [] := by decide +kernel

/-- `127.0.0.1` and `::ffff:1.2.3.4`. -/
example : parse [0x31, 0x32, 0x37, 0x2E, 0x30, 0x2E, 0x30, 0x2E, 0x31] = .ok (4, [0x7F00, 1, 0, 0, 0, 0, 0, 0]) [] [] ∧
    parse [0x3A, 0x3A, 0x66, 0x66, 0x66, 0x66, 0x3A, 0x31, 0x2E, 0x32, 0x2E, 0x33, 0x2E, 0x34] =
      .ok (6, [0, 0, 0, 0, 0, 0xFFFF, 0x102, 0x304]) [] [] := by decide +kernel

theorem H16.short {t : List Nat} {v : Nat} (h : H16 true t v) : t.length ≤ 4 := h.short rfl

/-- **C83** is violated for the addresses of the draft: `00001::` is accepted, although a piece has at most four digits. -/
theorem C83_digits_refuted : parse [0x30, 0x30, 0x30, 0x30, 0x31, 0x3A, 0x3A] = .ok (6, [1, 0, 0, 0, 0, 0, 0, 0]) [] [] ∧
    ¬ ∃ v, Address true [0x30, 0x30, 0x30, 0x30, 0x31, 0x3A, 0x3A] v := by
  refine ⟨by decide +kernel, ?_⟩
  -- the first colon is behind the first piece
  have split : ∀ (t r : List Nat), (∀ c ∈ t, Spec.IsDigitOf .hex c) → t ++ 0x3A :: r = [0x30, 0x30, 0x30, 0x30, 0x31, 0x3A, 0x3A] →
      t.length = 5 := by
    intro t r h1 h2
    have h3 : ∀ i, t[i]? = some 0x3A → False := fun i hi => colon_not_hex (h1 _ (List.mem_of_getElem? hi))
    have h4 : (t ++ 0x3A :: r)[t.length]? = some 0x3A := by simp
    rw [h2] at h4
    have h5 : t.length = 5 ∨ t.length = 6 := by
      match hl : t.length with
      | 0 | 1 | 2 | 3 | 4 => rw [hl] at h4; simp at h4
      | 5 => exact .inl rfl
      | 6 => exact .inr rfl
      | n + 7 => rw [hl] at h4; simp at h4
    rcases h5 with h5 | h5
    · exact h5
    · exfalso
      refine h3 5 ?_
      have : (t ++ 0x3A :: r)[5]? = t[5]? := List.getElem?_append_left (by omega)
      rw [← this, h2]
      rfl
  rintro ⟨v, (⟨p, q, ⟨t1, t2, t3, t4, a, b, c, d, h1, -⟩, -⟩ | ⟨vs, h, -⟩)⟩
  · have : (0x2E : Nat) ∈ [0x30, 0x30, 0x30, 0x30, 0x31, 0x3A, 0x3A] := by rw [h1]; simp
    revert this
    decide
  · generalize hs : [0x30, 0x30, 0x30, 0x30, 0x31, 0x3A, 0x3A] = s at h split
    cases h with
    | full h1 h2 =>
      cases h1 with
      | one h => cases h2
      | four h => cases h2
      | more h _ =>
        have := split _ _ h.digits rfl
        have := H16.short h
        omega
    | elided h1 h2 h3 =>
      rcases h1 with ⟨rfl, rfl⟩ | h1
      · cases hs
      · cases h1 with
        | one h =>
          have := split _ _ h.digits rfl
          have := H16.short h
          omega
        | more h _ =>
          rw [List.append_assoc, List.cons_append] at split
          have := split _ _ h.digits rfl
          have := H16.short h
          omega

/-- C83: the addresses of the draft are accepted, with the right result. -/
theorem C83_draft_partial (s : List Nat) (v : Nat × List Nat) (h : Address true s v) : parse s = .ok v [] [] := by
  refine (C83_address s v []).2 ⟨?_, rfl⟩
  have hp : ∀ {vs t : List Nat}, Plain true vs t → Plain false vs t := fun h => by
    induction h with
    | one h => exact .one (H16.weaken h)
    | more h _ ih => exact .more (H16.weaken h) ih
  have hg : ∀ {vs t : List Nat}, Groups true vs t → Groups false vs t := fun h => by
    induction h with
    | one h => exact .one (H16.weaken h)
    | four h => exact .four h
    | more h _ ih => exact .more (H16.weaken h) ih
  rcases h with h | ⟨vs, h, rfl⟩
  · exact .inl h
  · refine .inr ⟨vs, ?_, rfl⟩
    cases h with
    | full h1 h2 => exact .full (hg h1) h2
    | elided h1 h2 h3 => exact .elided (h1.imp_right hp) (h2.imp_right hg) h3

/-! ## C84: the bounds -/

/-- C84: `finish()` stays in bounds unless there are too many pieces before the elision, or too many after it. -/
theorem C84_finish (b : Builder) (hp : b.pieces.length = 8) (he : ∀ e, b.elision = some e → e ≤ b.count) :
    b.finish = none ↔ ∃ e, b.elision = some e ∧ (8 < e ∨ (e < 8 ∧ e + 8 < b.count)) := by
  unfold Builder.finish
  cases h : b.elision with
  | none =>
    simp only [Option.getD_none, Option.isSome_none, Bool.false_eq_true, if_false, reduceCtorEq, false_and, exists_false, iff_false]
    have e0 : copy b.pieces 0 0 0 (List.replicate 8 0) = some (List.replicate 8 0) := rfl
    rw [e0, Option.bind_some, copy_none]
    rintro ⟨i, hi, h⟩
    refine h ⟨by omega, ?_, by omega⟩
    rw [List.length_replicate]
    omega
  | some e =>
    have hc := he e h
    simp only [Option.getD_some, Option.isSome_some, if_true, Option.some.injEq, exists_eq_left']
    cases hr : copy b.pieces e 0 0 (List.replicate 8 0) with
    | none =>
      simp only [Option.bind_none, true_iff]
      obtain ⟨i, h1, h2⟩ := (copy_none _ _ _ _ _).1 hr
      rw [List.length_replicate, hp] at h2
      omega
    | some res =>
      have h1 : e ≤ 8 := by
        apply Nat.le_of_not_lt
        intro h2
        have := (copy_none b.pieces e 0 0 (List.replicate 8 0)).2 ⟨8, h2, by rw [List.length_replicate]; omega⟩
        rw [this] at hr
        cases hr
      have h2 : res.length = 8 := by
        have := copy_ok b.pieces e 0 0 (List.replicate 8 0) (by omega) (by simp; omega)
        simp only [Int.natCast_zero] at this
        rw [this] at hr
        obtain rfl := Option.some.inj hr
        simp [hp]
        omega
      rw [Option.bind_some, copy_none, h2, hp]
      constructor
      · rintro ⟨i, h3, h4⟩
        omega
      · rintro (h3 | ⟨h3, h4⟩)
        · omega
        · exact ⟨0, by omega, by omega⟩

/-- How many colons the loop has read at least. -/
def Builder.cost (b : Builder) : Nat :=
  match b.elision with
  | none => b.count - 1
  | some 0 => b.count + 1
  | some (_ + 1) => b.count

/-- The array keeps its size; the elision is among the pieces. -/
structure Builder.Ok (b : Builder) : Prop where
  pieces : b.pieces.length = 8
  elision : ∀ e, b.elision = some e → e ≤ b.count

theorem Ok.init : Builder.init.Ok := ⟨rfl, by simp [Builder.init]⟩

/-- The separator: the colons that are paid for. -/
theorem separator_safe (b : Builder) (s : List Nat) (hb : b.Ok) (h0 : b.count = 0 → b.elision = none) :
    ∃ b1 go t rest es, separator b s = .ok (b1, go) rest es ∧ s = t ++ rest ∧ b1.Ok ∧ b1.count = b.count ∧
      b1.cost ≤ b.cost + t.count 0x3A ∧ (go = true → (b1.piece 0).cost ≤ b.cost + t.count 0x3A) := by
  unfold separator
  split
  · rename_i h1
    refine ⟨_, _, [0x3A, 0x3A], _, _, rfl, lit_split h1, ?_⟩
    have hcount : List.count 0x3A [0x3A, 0x3A] = 2 := by decide
    rw [hcount]
    unfold Builder.elide
    split
    · rename_i h2
      obtain ⟨k, hk⟩ := Option.isSome_iff_exists.1 h2
      refine ⟨hb, rfl, Nat.le_add_right _ _, fun _ => ?_⟩
      simp only [Builder.cost, Builder.piece, hk]
      split <;> omega
    · rename_i h2
      have hk : b.elision = none := by simpa using h2
      refine ⟨⟨hb.pieces, by simp⟩, rfl, ?_, fun _ => ?_⟩
      · simp only [Builder.cost, hk]
        cases hc : b.count <;> simp
      · simp only [Builder.cost, Builder.piece, hk]
        cases hc : b.count <;> simp
  · split
    · rename_i h1
      split
      · rename_i h2
        refine ⟨b, true, [0x3A], _, _, rfl, lit_split h2, hb, rfl, ?_, fun _ => ?_⟩
        · omega
        · have hcount : List.count 0x3A [0x3A] = 1 := by decide
          rw [hcount]
          simp only [Builder.cost, Builder.piece]
          split <;> omega
      · exact ⟨b, false, [], s, _, rfl, rfl, hb, rfl, by simp, by simp⟩
    · rename_i h1
      refine ⟨b, true, [], s, _, rfl, rfl, hb, rfl, by simp, fun _ => ?_⟩
      have := h0 (by omega)
      simp only [Builder.cost, Builder.piece, this]
      simp
      omega

theorem Ok.piece {b : Builder} (h : b.Ok) (v : Nat) : (b.piece v).Ok := by
  refine ⟨?_, fun e he => ?_⟩
  · simp only [Builder.piece]
    split
    · rw [List.length_set]; exact h.pieces
    · exact h.pieces
  · have := h.elision e he
    simp only [Builder.piece]
    omega

theorem Ok.ipv4 {b : Builder} (h : b.Ok) (v w : Nat) : (b.ipv4 v w).Ok := by
  refine ⟨?_, fun e he => ?_⟩
  · simp only [Builder.ipv4]
    split
    · rw [List.length_set, List.length_set]; exact h.pieces
    · exact h.pieces
  · have := h.elision e he
    simp only [Builder.ipv4]
    omega

theorem piece_cost (b : Builder) (v w : Nat) : (b.piece v).cost = (b.piece w).cost := rfl

/-- The loop ends without undefined behavior, and the colons it has read pay for the pieces. -/
theorem loop_safe (n : Nat) (b : Builder) (s : List Nat) (hb : b.Ok) (h0 : b.count = 0 → b.elision = none) (hn : s.length < n) :
    (∃ e, loop n b s = .fail e) ∨ ∃ b' rest es, loop n b s = .ok b' rest es ∧ b'.Ok ∧
      (b'.cost ≤ b.cost + s.count 0x3A ∨
        (b'.cost ≤ b.cost + s.count 0x3A + 1 ∧ ∀ e, b'.elision = some e → e + 2 ≤ b'.count)) := by
  induction n generalizing b s with
  | zero => omega
  | succ n ih =>
    obtain ⟨b1, go, t, rest, es, h1, rfl, h2, h3, h4, h5⟩ := separator_safe b s hb h0
    unfold loop
    rw [h1]
    simp only [Outc.bind]
    cases go with
    | false =>
      simp only [Bool.false_eq_true, if_false]
      exact .inr ⟨b1, rest, _, rfl, h2, .inl (by rw [List.count_append]; omega)⟩
    | true =>
      have h5 := h5 rfl
      simp only [if_true]
      unfold group
      by_cases hv : isV4 rest = true
      · simp only [hv, if_true]
        rcases v4_safe rest with ⟨e, h6⟩ | ⟨v, t', rest', e, h6, rfl, h7⟩
        · simp only [h6, Outc.bind]
          exact .inl ⟨_, rfl⟩
        · simp only [h6, Outc.bind, Bool.false_eq_true, if_false]
          refine .inr ⟨b1.ipv4 v.1 v.2, rest', _, rfl, Ok.ipv4 h2 _ _, .inr ⟨?_, fun e he => ?_⟩⟩
          · have : (b1.ipv4 v.1 v.2).cost ≤ (b1.piece 0).cost + 1 := by
              simp only [Builder.cost, Builder.ipv4, Builder.piece]
              split <;> omega
            rw [List.count_append]
            omega
          · have := h2.elision e he
            simp only [Builder.ipv4]
            omega
      · rw [if_neg hv]
        rcases int_safe (numTok_digits .hex) traitsPiece rest with ⟨e, h6⟩ | ⟨v, t', rest', e, h6, rfl, h7, h8⟩
        · have h6 : Ip.piece rest = .fail e := h6
          simp only [h6, Outc.bind]
          exact .inl ⟨_, rfl⟩
        · have h6 : Ip.piece (t' ++ rest') = .ok v rest' e := h6
          simp only [h6, Outc.bind, if_true]
          have := List.length_pos_iff.2 h7
          rw [piece_cost b1 0 v] at h5
          simp only [List.length_append] at hn
          simp only [List.count_append]
          rcases ih (b1.piece v) rest' (Ok.piece h2 v) (by simp [Builder.piece]) (by omega) with ⟨e', h9⟩ | ⟨b', r, e', h9, h10, h11⟩
          · rw [h9]
            exact .inl ⟨_, rfl⟩
          · rw [h9]
            refine .inr ⟨b', r, _, rfl, h10, ?_⟩
            rcases h11 with h11 | ⟨h11, h12⟩
            · exact .inl (by omega)
            · exact .inr ⟨by omega, h12⟩

/-- C84: parsing is undefined behavior exactly if the loop leaves a builder for which `finish()` is out of bounds. -/
theorem C84_ub (s : List Nat) : parse s = .ub ↔ isV4 s = false ∧ ∃ b rest es, loop (s.length + 1) .init s = .ok b rest es ∧
    ∃ e, b.elision = some e ∧ (8 < e ∨ (e < 8 ∧ e + 8 < b.count)) := by
  have h1 : parse s = .ub ↔ isV4 s = false ∧ v6 s = .ub := by
    unfold parse
    rw [bind_ub]
    constructor
    · rintro (h | ⟨v, s', e, -, h⟩)
      · split at h
        · rcases bind_ub.1 h with h | ⟨v, s', e, -, h⟩
          · rcases v4_safe s with ⟨e, h'⟩ | ⟨v, t, r, e, h', -⟩
            · rw [h'] at h; cases h
            · rw [h'] at h; cases h
          · cases h
        · rename_i h2
          rcases bind_ub.1 h with h | ⟨v, s', e, -, h⟩
          · exact ⟨by simpa using h2, h⟩
          · cases h
      · cases h
    · rintro ⟨h2, h3⟩
      left
      rw [h2, if_neg (by simp), h3]
      rfl
  rw [h1]
  refine and_congr_right fun _ => ?_
  unfold v6
  rw [bind_ub]
  rcases loop_safe (s.length + 1) .init s Ok.init (fun _ => rfl) (Nat.lt_succ_self _) with ⟨e, h2⟩ | ⟨b, r, es, h2, h3, -⟩
  · rw [h2]
    simp
  · rw [h2]
    simp only [reduceCtorEq, false_or, Outc.ok.injEq]
    have h4 := C84_finish b h3.pieces h3.elision
    constructor
    · rintro ⟨b', r', es', ⟨rfl, rfl, rfl⟩, h5⟩
      split at h5
      · cases h5
      · rename_i h6
        exact ⟨b, r, es, ⟨rfl, rfl, rfl⟩, h4.1 h6⟩
    · rintro ⟨b', r', es', ⟨rfl, rfl, rfl⟩, h5⟩
      exact ⟨b, r, es, ⟨rfl, rfl, rfl⟩, by rw [h4.2 h5]⟩

/-- C84: parsing a text with at most eight colons is never undefined behavior. -/
theorem C84_safe_partial (s : List Nat) (h : s.count 0x3A ≤ 8) : parse s ≠ .ub := by
  intro hu
  obtain ⟨-, b, r, es, h1, e, h2, h3⟩ := (C84_ub s).1 hu
  rcases loop_safe (s.length + 1) .init s Ok.init (fun _ => rfl) (Nat.lt_succ_self _) with ⟨e, h4⟩ | ⟨b', r', es', h4, h5, h6⟩
  · rw [h4] at h1; cases h1
  · rw [h4] at h1
    obtain ⟨rfl, rfl, rfl⟩ := Outc.ok.inj h1
    have hc0 : Builder.init.cost = 0 := rfl
    have he := h5.elision e h2
    have hcost : b'.cost = if e = 0 then b'.count + 1 else b'.count := by
      unfold Builder.cost
      rw [h2]
      cases e <;> simp
    rw [hcost, hc0] at h6
    rcases h6 with h6 | ⟨h6, h7⟩
    · split at h6 <;> omega
    · have := h7 e h2
      split at h6 <;> omega

/-- **C84** is violated: `::1:2:3:4:5:6:7:1.2.3.4`, where `finish()` writes before the array; this has nine colons. -/
theorem C84_before_refuted : parse [0x3A, 0x3A, 0x31, 0x3A, 0x32, 0x3A, 0x33, 0x3A, 0x34, 0x3A, 0x35, 0x3A, 0x36, 0x3A, 0x37, 0x3A,
    0x31, 0x2E, 0x32, 0x2E, 0x33, 0x2E, 0x34] = .ub := by decide +kernel

/-- **C84** is violated: `1:2:3:4:5:6:7:8:9::`, where `finish()` writes (and reads) behind the array. -/
theorem C84_after_refuted : parse [0x31, 0x3A, 0x32, 0x3A, 0x33, 0x3A, 0x34, 0x3A, 0x35, 0x3A, 0x36, 0x3A, 0x37, 0x3A, 0x38, 0x3A,
    0x39, 0x3A, 0x3A] = .ub := by decide +kernel

/-- Too many pieces are no undefined behavior otherwise: `1:2:3:4:5:6:7:8:9` is an error. -/
example : parse [0x31, 0x3A, 0x32, 0x3A, 0x33, 0x3A, 0x34, 0x3A, 0x35, 0x3A, 0x36, 0x3A, 0x37, 0x3A, 0x38, 0x3A, 0x39] =
    .ok (6, [1, 2, 3, 4, 5, 6, 7, 8]) [] [.tooMany] := by decide +kernel

end Verif.Ip
