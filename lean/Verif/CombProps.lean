import Verif.ListProps
import Verif.Accept
import Verif.Runs
import Verif.GrammarEx

/-
C44, the other direction: a combination accepts its branches in every order.
-/

namespace Verif

variable {E : Env} {cx : Cx} {on : Bool} {d p q : Nat}

/-- At `p` the branch `i` is the first one that matches, and it is parsed up to `q` without an error. -/
def Spec.Picks (E : Env) (cx : Cx) (on : Bool) (d : Nat) (rs : List Rule) (i p q : Nat) : Prop :=
  ∃ r, rs[i]? = some r ∧ (∀ j r', j < i → rs[j]? = some r' → Not E r' p) ∧ Cond E (.btry r) p true
    ∧ Does E cx on d (.bfinish r) p q

/-- The branches `order`, one after the other. -/
inductive Spec.AllPicked (E : Env) (cx : Cx) (on : Bool) (d : Nat) (rs : List Rule) : List Nat → Nat → Nat → Prop
  | nil {p : Nat} : AllPicked E cx on d rs [] p p
  | cons {i : Nat} {order : List Nat} {p m q : Nat} (h : Picks E cx on d rs i p m) (ht : AllPicked E cx on d rs order m q) :
    AllPicked E cx on d rs (i :: order) p q

theorem chc_picks {post : List Rule} : ∀ {rs : List Rule} {i k : Nat}, Spec.Picks E cx on d rs i p q →
    ∀ st : St, st.pos = p → st.depth = d → st.wsOn = on → ∃ evs, Quiet evs ∧
      Exec E cx (.chcRun ((rs.zipIdx k).map (fun x => .br x.1 (.combIt x.2)) ++ post)) st
        ⟨.ok, { st with pos := q, idx := k + i }, evs⟩ := by
  intro rs
  induction rs with
  | nil => intro i k ⟨r, h, _⟩; simp at h
  | cons a rs ih =>
    intro i k ⟨r, h1, h2, h3, h4⟩ st hp hd ho
    simp only [List.zipIdx_cons, List.map_cons, List.cons_append]
    cases i with
    | zero =>
      simp only [List.getElem?_cons_zero, Option.some.injEq] at h1
      subst h1
      obtain ⟨n1, g1⟩ := cond_br (r := .combIt k) h3 cx st hp
      obtain ⟨e2, q2, n2, g2⟩ := h4 st hp hd ho
      have g3 : exec E (n2 + 2) cx (.bfinish (.br a (.combIt k))) st = some ⟨.ok, { st with pos := q, idx := k }, e2⟩ := by
        rw [exec_succ]
        simp only [step, stepFinish, onOk, andThen, exec_mono (Nat.le_succ n2) g2]
        rw [exec_succ]
        simp only [step, stepRun, ret, Option.map_some, List.append_nil]
      refine ⟨e2, q2, max n1 (n2 + 2) + 1, ?_⟩
      rw [exec_succ]
      simp only [step, ifTry, exec_mono (Nat.le_max_left n1 _) g1, exec_mono (Nat.le_max_right n1 _) g3, if_true, Nat.add_zero]
    | succ i =>
      have hn := not_br (r := .combIt k) (h2 0 a (by omega) rfl)
      obtain ⟨n1, g1⟩ := hn.1 cx st hp
      obtain ⟨e2, q2, n2, g2⟩ := hn.2 cx st hp
      obtain ⟨e3, q3, n3, g3⟩ := ih (i := i) (k := k + 1)
        ⟨r, by simpa using h1, fun j r' hj hr => h2 (j + 1) r' (by omega) (by simpa using hr), h3, h4⟩ st hp hd ho
      have l1 : n1 ≤ max n1 (max n2 n3) := by omega
      have l2 : n2 ≤ max n1 (max n2 n3) := by omega
      have l3 : n3 ≤ max n1 (max n2 n3) := by omega
      refine ⟨e2 ++ e3, quiet_append.2 ⟨q2, q3⟩, max n1 (max n2 n3) + 1, ?_⟩
      rw [exec_succ]
      simp only [step, ifTry, exec_mono l1 g1, Bool.false_eq_true, if_false, onOk', andThen, exec_mono l2 g2, exec_mono l3 g3,
        Option.map_some]
      rw [show k + 1 + i = k + (i + 1) by omega]

theorem comb_picks {tag : Nat} {rs : List Rule} {els : CombElse} {order : List Nat}
    (h : Spec.AllPicked E cx on d rs order p q) : ∀ {handled : List Nat} {count : Nat} (st : St), st.pos = p → st.depth = d →
    st.wsOn = on → order.Nodup → (∀ i ∈ order, i ∉ handled) → count + order.length = rs.length →
    ∃ evs k, Quiet evs ∧ Exec E cx (.combLoop tag (combRules rs els) rs.length handled count) st
      ⟨.ok, { st with pos := q, idx := k }, evs⟩ := by
  induction h with
  | nil =>
    intro handled count st hp _ _ _ _ hc
    subst hp
    refine ⟨[], st.idx, by simp [Quiet], 1, ?_⟩
    rw [exec_succ]
    simp only [List.length_nil, Nat.add_zero] at hc
    simp only [step, hc, ge_iff_le, Nat.le_refl, if_true, ret]
  | @cons i order p m q h ht ih =>
    intro handled count st hp hd ho hn hh hc
    obtain ⟨post, hpost⟩ : ∃ post, combRules rs els = (rs.zipIdx 0).map (fun x => .br x.1 (.combIt x.2)) ++ post := ⟨_, rfl⟩
    obtain ⟨e1, q1, n1, g1⟩ := chc_picks (post := post) (k := 0) h st hp hd ho
    rw [← hpost] at g1
    rw [List.nodup_cons] at hn
    simp only [List.length_cons] at hc
    obtain ⟨e2, k, q2, n2, g2⟩ := ih (handled := i :: handled) (count := count + 1) { st with pos := m, idx := i } rfl hd ho
      hn.2 (fun j hj hj' => by
        rcases List.mem_cons.1 hj' with e | e
        · exact hn.1 (e ▸ hj)
        · exact hh j (by simp [hj]) e) (by omega)
    refine ⟨e1 ++ e2, k, quiet_append.2 ⟨q1, q2⟩, max n1 n2 + 1, ?_⟩
    have g1' := exec_mono (Nat.le_max_left n1 n2) g1
    rw [Nat.zero_add] at g1'
    have hfr : ({ st with pos := m, idx := i } : St).frame st.vars.length = { st with pos := m, idx := i } := by
      simp [St.frame]
    have hni : handled.contains i = false := by simpa using hh i (by simp)
    rw [exec_succ]
    simp only [step, show ¬ count ≥ rs.length by omega, if_false]
    simp only [framed, g1', Option.map_some, andThen, hfr, hni, Bool.false_eq_true, if_false,
      exec_mono (Nat.le_max_right n1 n2) g2]

/-- **C44.** A combination accepts its branches in every order: if every branch is parsed once, each at a place where it is the first
    one that matches, it succeeds behind the last one, without an error.  So does a `partial_combination`. -/
theorem C44_accepted {tag : Nat} {rs : List Rule} {els : CombElse} {order : List Nat} (hn : order.Nodup)
    (hl : ∀ i, i ∈ order ↔ i < rs.length) (h : Spec.AllPicked E cx on d rs order p q) :
    Does E cx on d (.run (.comb tag rs els)) p q := by
  intro st hp hd ho
  have hlen : order.length = rs.length := by
    have : order.Perm (List.range rs.length) := by
      rw [List.perm_ext_iff_of_nodup hn List.nodup_range]
      intro i
      rw [hl i, List.mem_range]
    simpa using this.length_eq
  obtain ⟨e, k, hq, n, g⟩ := comb_picks (tag := tag) (els := els) h (handled := []) (count := 0) { st with idx := 0 } hp hd ho hn
    (by simp) (by omega)
  refine ⟨e, hq, n + 1, ?_⟩
  rw [exec_succ]
  simp only [step, stepRun, onOk', andThen, g, ret, Option.map_some, List.append_nil]

/-- `a,1` as a combination of a digit, a letter and a comma: the order is 1, 2, 0. -/
example : Does (Ex.env [97, 44, 49] Ex.lists) ⟨none, 10⟩ on d (.run (.comb 31 [Ex.digit, Ex.letter, Ex.comma] .none)) 0 3 := by
  refine C44_accepted (order := [1, 2, 0]) (by decide) (fun i => by simp; omega) ?_
  refine .cons (m := 1) ⟨_, rfl, fun j r' hj hr => ?_, cond_tok rfl, fin_tok (n := 1) rfl (does_ws_none rfl)⟩
    (.cons (m := 2) ⟨_, rfl, fun j r' hj hr => ?_, cond_tok rfl, fin_tok (n := 1) rfl (does_ws_none rfl)⟩
      (.cons (m := 3) ⟨_, rfl, fun j r' hj hr => by omega, cond_tok rfl, fin_tok (n := 1) rfl (does_ws_none rfl)⟩ .nil))
  · obtain rfl : j = 0 := by omega
    cases hr
    exact not_tok rfl
  · rcases (by omega : j = 0 ∨ j = 1) with rfl | rfl <;> cases hr <;> exact not_tok rfl

end Verif
