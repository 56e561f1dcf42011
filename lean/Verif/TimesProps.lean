import Verif.LoopProps
import Verif.Accept
import Verif.BracketsProps

/-
C43, the other direction for `times<N>` (times.hpp): N items with separators between them are accepted, what happens
behind the last one, and which error a trailing separator has.
-/

namespace Verif

open Spec

variable {E : Env} {cx : Cx} {on : Bool} {d p q m : Nat}

/-- What separates the items is parsed without an error. -/
def Spec.SepDoes (E : Env) (cx : Cx) (on : Bool) (d : Nat) (sep : Option Sep) (p q : Nat) : Prop :=
  match sep with
  | none => p = q
  | some (s, _) => Does E cx on d (.run s) p q

/-- What is parsed without an error behind the last item: a separator that may be trailing, if there is one; nothing else. -/
inductive Spec.TrailDoes (E : Env) (cx : Cx) (on : Bool) (d : Nat) : Option Sep → Nat → Nat → Prop
  | none {p : Nat} : TrailDoes E cx on d none p p
  | ignored {s : Rule} {p : Nat} : TrailDoes E cx on d (some (s, .ignoreTrailing)) p p
  | absent {s : Rule} {k : SepKind} {p : Nat} (h : Not E s p) : TrailDoes E cx on d (some (s, k)) p p
  | present {s : Rule} {p q : Nat} (h : Cond E (.btry s) p true) (hf : Does E cx on d (.bfinish s) p q) :
    TrailDoes E cx on d (some (s, .trailing)) p q

theorem does_nsep_no {tag : Nat} {s : Rule} (h : Not E s p) : Does E cx on d (.run (.nsep tag s)) p p := by
  intro st hp _ _
  obtain ⟨n1, h1⟩ := h.1 cx st hp
  obtain ⟨e2, q2, n2, h2⟩ := h.2 cx st hp
  refine ⟨e2, q2, max n1 n2 + 1, ?_⟩
  subst hp
  rw [exec_succ]
  simp only [step, stepRun, ifTry, exec_mono (Nat.le_max_left n1 n2) h1, exec_mono (Nat.le_max_right n1 n2) h2,
    Bool.false_eq_true, if_false, onOk', andThen, ret, Option.map_some, List.append_nil]

theorem does_trailing {sep : Option Sep} (hu : ∀ s k, sep = some (s, k) → s.uncond = false)
    (h : Spec.TrailDoes E cx on d sep p q) : Does E cx on d (.run (trailingRule sep)) p q := by
  cases h with
  | none => exact does_els
  | ignored => exact does_els
  | @absent s k _ h =>
    cases k with
    | sep tag => exact does_nsep_no h
    | trailing => simp only [trailingRule, hu s _ rfl]; exact (does_if_no h).1
    | ignoreTrailing => exact does_els
  | @present s _ _ h hf => simp only [trailingRule, hu s _ rfl]; exact (does_if_yes h hf).1

/-- **C43.** `times<N>` accepts N items with separators strictly between them, and then a separator that may be trailing or
    nothing. -/
theorem C43_times_accepted {item : Rule} {sep : Option Sep} (hu : ∀ s k, sep = some (s, k) → s.uncond = false) {N : Nat}
    (hc : Spec.Chain (Does E cx on d (.run item)) (Spec.SepDoes E cx on d sep) N p m)
    (ht : Spec.TrailDoes E cx on d sep m q) : Does E cx on d (.run (timesRule item sep N)) p q := by
  induction hc with
  | one h =>
    match sep, ht with
    | none, .none => exact h
    | some (s, k), ht => exact does_seq h (does_trailing hu ht)
  | @more n a b c e h1 h2 h3 ih =>
    have ih := ih ht
    obtain ⟨n, rfl⟩ : ∃ k, n = k + 1 := by cases h3 <;> exact ⟨_, rfl⟩
    match sep, h2 with
    | none, h2 => cases h2; exact does_seq h1 ih
    | some (s, k), h2 => exact does_seq h1 (does_seq h2 ih)

theorem exec_seq {st : St} {a b : Rule} {y : Res} (h1 : Does E cx st.wsOn st.depth (.run a) st.pos m)
    (h2 : Exec E cx (.run b) { st with pos := m } y) :
    ∃ e, Quiet e ∧ Exec E cx (.run (.seq a b)) st ⟨y.out, y.st, e ++ y.evs⟩ := by
  obtain ⟨e1, q1, n, h1⟩ := h1 st rfl rfl rfl
  obtain ⟨k, h2⟩ := h2
  refine ⟨e1, q1, max n k + 1, ?_⟩
  rw [exec_succ]
  simp only [step, stepRun, onOk, andThen, exec_mono (Nat.le_max_left n k) h1, exec_mono (Nat.le_max_right n k) h2, Option.map_some]

/-- **C43.** If a separator that may not be trailing follows the last item, it is consumed, reported with its range as the only
    error, and `times<N>` succeeds. -/
theorem C43_times_trailing_error {item s : Rule} {tag N : Nat}
    (hc : Spec.Chain (Does E cx on d (.run item)) (Spec.SepDoes E cx on d (some (s, .sep tag))) N p m)
    (ht : Cond E (.btry s) m true) (hf : Does E cx on d (.bfinish s) m q) {st : St} (hp : st.pos = p) (hd : st.depth = d)
    (ho : st.wsOn = on) :
    ∃ evs, Quiet evs ∧ Exec E cx (.run (timesRule item (some (s, .sep tag)) N)) st
      ⟨.ok, { st with pos := q }, evs ++ [.error tag m q]⟩ := by
  induction hc generalizing st with
  | @one a b h =>
    subst hp hd ho
    obtain ⟨n1, h1⟩ := ht cx { st with pos := b } rfl
    obtain ⟨e2, q2, n2, h2⟩ := hf { st with pos := b } rfl rfl rfl
    have h3 : Exec E cx (.run (.nsep tag s)) { st with pos := b } ⟨.ok, { st with pos := q }, e2 ++ [.error tag b q]⟩ := by
      refine ⟨max n1 n2 + 1, ?_⟩
      rw [exec_succ]
      simp only [step, stepRun, ifTry, exec_mono (Nat.le_max_left n1 n2) h1, exec_mono (Nat.le_max_right n1 n2) h2,
        if_true, onOk', andThen, ret, emit, Option.map_some, List.append_nil]
    obtain ⟨e1, q1, h4⟩ := exec_seq h h3
    exact ⟨e1 ++ e2, quiet_append.2 ⟨q1, q2⟩, by rw [List.append_assoc]; exact h4⟩
  | @more n a b c e h1 h2 h3 ih =>
    subst hp hd ho
    obtain ⟨n, rfl⟩ : ∃ k, n = k + 1 := by cases h3 <;> exact ⟨_, rfl⟩
    obtain ⟨e3, q3, g3⟩ := ih ht hf (st := { st with pos := c }) rfl rfl rfl
    obtain ⟨e2, q2, g2⟩ := exec_seq (st := { st with pos := b }) h2 g3
    obtain ⟨e1, q1, g1⟩ := exec_seq h1 g2
    refine ⟨e1 ++ (e2 ++ e3), quiet_append.2 ⟨q1, quiet_append.2 ⟨q2, q3⟩⟩, ?_⟩
    simp only [List.append_assoc] at g1 ⊢
    exact g1

/-! ### Non-trivial cases -/

/-- `1,2`, with more behind it: two digits with a comma between them. -/
theorem Ex.two_digits (k : SepKind) (r : List Nat) :
    Spec.Chain (Does (Ex.env (49 :: 44 :: 50 :: r) Ex.lists) ⟨none, 10⟩ on d (.run Ex.digit))
      (Spec.SepDoes (Ex.env (49 :: 44 :: 50 :: r) Ex.lists) ⟨none, 10⟩ on d (some (Ex.comma, k))) 2 0 3 :=
  .more (b := 1) (c := 2) (does_tok (n := 1) rfl (does_ws_none rfl)) (does_tok (n := 1) rfl (does_ws_none rfl))
    (.one (does_tok (n := 1) rfl (does_ws_none rfl)))

/-- `1,2` is accepted as `times<2>`; so is `1,2,` with a separator that may be trailing. -/
example : Does (Ex.env [49, 44, 50] Ex.lists) ⟨none, 10⟩ on d (.run (timesRule Ex.digit (some (Ex.comma, .sep 22)) 2)) 0 3
    ∧ Does (Ex.env [49, 44, 50, 44] Ex.lists) ⟨none, 10⟩ on d (.run (timesRule Ex.digit (some (Ex.comma, .trailing)) 2)) 0 4 :=
  ⟨C43_times_accepted (by rintro _ _ ⟨⟩; rfl) (Ex.two_digits _ _) (.absent (not_tok rfl)),
    C43_times_accepted (by rintro _ _ ⟨⟩; rfl) (Ex.two_digits _ _)
      (.present (cond_tok rfl) (fin_tok (n := 1) rfl (does_ws_none rfl)))⟩

/-- `1,2,` with one that may not be: the error is at the second comma. -/
example (st : St) (h : st.pos = 0) : ∃ evs, Quiet evs ∧ Exec (Ex.env [49, 44, 50, 44] Ex.lists) ⟨none, 10⟩
    (.run (timesRule Ex.digit (some (Ex.comma, .sep 22)) 2)) st ⟨.ok, { st with pos := 4 }, evs ++ [.error 22 3 4]⟩ :=
  C43_times_trailing_error (Ex.two_digits _ _) (cond_tok rfl) (fin_tok (n := 1) rfl (does_ws_none rfl)) h rfl rfl

end Verif
