import Verif.ListProps
import Verif.Accept
import Verif.Runs
import Verif.GrammarEx

/-
C59, the other direction: which lists `list` (list.hpp) accepts, and the only error it reports.
-/

namespace Verif

variable {E : Env} {cx : Cx} {on : Bool} {d p q m : Nat}

/-- What follows an item of a list: nothing if there is no separator, or no item for a list without separator; a separator and an
    item, and so on; or a separator without an item, which is an error if it may not be trailing.  An item that is a branch is
    looked for behind a separator, one that is not has to follow. -/
inductive Spec.ListRest (E : Env) (cx : Cx) (on : Bool) (d : Nat) (item : Rule) : Option Sep → Nat → Nat → List Ev → Prop
  | done {p : Nat} (hb : item.isBranch E = true) (h : Not E item p) : ListRest E cx on d item none p p []
  | item {p m q : Nat} {es : List Ev} (hb : item.isBranch E = true) (h : Cond E (.btry item) p true)
    (hf : Does E cx on d (.bfinish item) p m) (ht : ListRest E cx on d item none m q es) : ListRest E cx on d item none p q es
  | noSep {s : Rule} {k : SepKind} {p : Nat} (h : Not E s p) : ListRest E cx on d item (some (s, k)) p p []
  | branch {s : Rule} {k : SepKind} {p m l q : Nat} {es : List Ev} (hb : item.isBranch E = true) (h : Cond E (.btry s) p true)
    (hf : Does E cx on d (.bfinish s) p m) (hi : Cond E (.btry item) m true) (hj : Does E cx on d (.bfinish item) m l)
    (ht : ListRest E cx on d item (some (s, k)) l q es) : ListRest E cx on d item (some (s, k)) p q es
  | rule {s : Rule} {k : SepKind} {p m l q : Nat} {es : List Ev} (hb : item.isBranch E = false) (h : Cond E (.btry s) p true)
    (hf : Does E cx on d (.bfinish s) p m) (hj : Does E cx on d (.run item) m l)
    (ht : ListRest E cx on d item (some (s, k)) l q es) : ListRest E cx on d item (some (s, k)) p q es
  | allowed {s : Rule} {k : SepKind} {p q : Nat} (hb : item.isBranch E = true) (h : Cond E (.btry s) p true)
    (hf : Does E cx on d (.bfinish s) p q) (hi : Not E item q) (hk : ∀ tag, k ≠ .sep tag) :
    ListRest E cx on d item (some (s, k)) p q []
  | reported {s : Rule} {tag p q : Nat} (hb : item.isBranch E = true) (h : Cond E (.btry s) p true)
    (hf : Does E cx on d (.bfinish s) p q) (hi : Not E item q) :
    ListRest E cx on d item (some (s, .sep tag)) p q [.error tag p q]

theorem quiet_filter {evs : List Ev} (h : Quiet evs) : evs.filter Ev.isError = [] :=
  List.filter_eq_nil_iff.2 fun ev he => by simp [h ev he]

theorem frame_moved (st : St) (q : Nat) : ({ st with pos := q } : St).frame st.vars.length = { st with pos := q } := by
  simp [St.frame]

theorem list_rest {item : Rule} {sep : Option Sep} {es : List Ev} (h : Spec.ListRest E cx on d item sep p q es) :
    ∀ st : St, st.pos = p → st.depth = d → st.wsOn = on → ∃ evs, evs.filter Ev.isError = es ∧
      Exec E cx (.lstLoop item sep) st ⟨.ok, { st with pos := q }, evs⟩ := by
  have trail : ∀ {s : Rule} {k : SepKind} {p q : Nat}, item.isBranch E = true → Cond E (.btry s) p true →
      Does E cx on d (.bfinish s) p q → Not E item q → ∀ st : St, st.pos = p → st.depth = d → st.wsOn = on →
      ∃ evs, evs.filter Ev.isError = (trailingError k p q).filter Ev.isError ∧
        Exec E cx (.lstLoop item (some (s, k))) st ⟨.ok, { st with pos := q }, evs⟩ := by
    intro s k p q hb h hf hi st hp hd ho
    obtain ⟨n1, g1⟩ := h cx st hp
    obtain ⟨e2, q2, n2, g2⟩ := hf st hp hd ho
    obtain ⟨n3, g3⟩ := hi.1 cx { st with pos := q } rfl
    obtain ⟨e4, q4, n4, g4⟩ := hi.2 cx { st with pos := q } rfl
    obtain ⟨M, l1, l2, l3, l4⟩ : ∃ M, n1 ≤ M ∧ n2 ≤ M ∧ n3 ≤ M ∧ n4 ≤ M :=
      ⟨n1 + n2 + n3 + n4, by omega, by omega, by omega, by omega⟩
    subst hp
    refine ⟨e2 ++ (e4 ++ trailingError k st.pos q), ?_, M + 1, ?_⟩
    · simp only [List.filter_append, quiet_filter q2, quiet_filter q4, List.nil_append]
    · rw [exec_succ]
      simp only [step, ifTry, exec_mono l1 g1, exec_mono l2 g2, exec_mono l3 g3, exec_mono l4 g4, if_true, hb, onOk', andThen, framed,
        Option.map_some, frame_moved, Bool.false_eq_true, if_false]
  induction h with
  | done hb h =>
    intro st hp hd ho
    obtain ⟨n1, g1⟩ := h.1 cx st hp
    obtain ⟨e2, q2, n2, g2⟩ := h.2 cx st hp
    subst hp
    refine ⟨e2, quiet_filter q2, max n1 n2 + 1, ?_⟩
    rw [exec_succ]
    simp only [step, hb, if_true, ifTry, exec_mono (Nat.le_max_left n1 n2) g1, exec_mono (Nat.le_max_right n1 n2) g2, onOk', andThen,
      ret, Option.map_some, List.append_nil, Bool.false_eq_true, if_false]
  | @item p m q es hb h hf ht ih =>
    intro st hp hd ho
    obtain ⟨n1, g1⟩ := h cx st hp
    obtain ⟨e2, q2, n2, g2⟩ := hf st hp hd ho
    obtain ⟨e3, q3, n3, g3⟩ := ih { st with pos := m } rfl hd ho
    obtain ⟨M, l1, l2, l3⟩ : ∃ M, n1 ≤ M ∧ n2 ≤ M ∧ n3 ≤ M := ⟨n1 + n2 + n3, by omega, by omega, by omega⟩
    refine ⟨e2 ++ e3, by rw [List.filter_append, quiet_filter q2, q3]; rfl, M + 1, ?_⟩
    rw [exec_succ]
    simp only [step, hb, if_true, ifTry, exec_mono l1 g1, exec_mono l2 g2, onOk', andThen, framed, Option.map_some, frame_moved,
      exec_mono l3 g3]
  | noSep h =>
    intro st hp hd ho
    obtain ⟨n1, g1⟩ := h.1 cx st hp
    obtain ⟨e2, q2, n2, g2⟩ := h.2 cx st hp
    subst hp
    refine ⟨e2, quiet_filter q2, max n1 n2 + 1, ?_⟩
    rw [exec_succ]
    simp only [step, if_true, ifTry, exec_mono (Nat.le_max_left n1 n2) g1, exec_mono (Nat.le_max_right n1 n2) g2, onOk', andThen,
      ret, Option.map_some, List.append_nil, Bool.false_eq_true, if_false]
  | @branch s k p m l q es hb h hf hi hj ht ih =>
    intro st hp hd ho
    obtain ⟨n1, g1⟩ := h cx st hp
    obtain ⟨e2, q2, n2, g2⟩ := hf st hp hd ho
    obtain ⟨n3, g3⟩ := hi cx { st with pos := m } rfl
    obtain ⟨e4, q4, n4, g4⟩ := hj { st with pos := m } rfl hd ho
    obtain ⟨e5, q5, n5, g5⟩ := ih { st with pos := l } rfl hd ho
    obtain ⟨M, l1, l2, l3, l4, l5⟩ : ∃ M, n1 ≤ M ∧ n2 ≤ M ∧ n3 ≤ M ∧ n4 ≤ M ∧ n5 ≤ M :=
      ⟨n1 + n2 + n3 + n4 + n5, by omega, by omega, by omega, by omega, by omega⟩
    refine ⟨e2 ++ (e4 ++ e5), by simp only [List.filter_append, quiet_filter q2, quiet_filter q4, q5, List.nil_append], M + 1, ?_⟩
    rw [exec_succ]
    simp only [step, hb, if_true, ifTry, exec_mono l1 g1, exec_mono l2 g2, exec_mono l3 g3, exec_mono l4 g4, onOk', andThen, framed,
      Option.map_some, frame_moved, exec_mono l5 g5]
  | @rule s k p m l q es hb h hf hj ht ih =>
    intro st hp hd ho
    obtain ⟨n1, g1⟩ := h cx st hp
    obtain ⟨e2, q2, n2, g2⟩ := hf st hp hd ho
    obtain ⟨e4, q4, n4, g4⟩ := hj { st with pos := m } rfl hd ho
    obtain ⟨e5, q5, n5, g5⟩ := ih { st with pos := l } rfl hd ho
    obtain ⟨M, l1, l2, l4, l5⟩ : ∃ M, n1 ≤ M ∧ n2 ≤ M ∧ n4 ≤ M ∧ n5 ≤ M :=
      ⟨n1 + n2 + n4 + n5, by omega, by omega, by omega, by omega⟩
    refine ⟨e2 ++ (e4 ++ e5), by simp only [List.filter_append, quiet_filter q2, quiet_filter q4, q5, List.nil_append], M + 1, ?_⟩
    rw [exec_succ]
    simp only [step, hb, Bool.false_eq_true, if_false, if_true, ifTry, exec_mono l1 g1, exec_mono l2 g2, exec_mono l4 g4, onOk', andThen,
      framed, Option.map_some, frame_moved, exec_mono l5 g5]
  | @allowed s k p q hb h hf hi hk =>
    intro st hp hd ho
    obtain ⟨evs, h1, h2⟩ := trail (k := k) hb h hf hi st hp hd ho
    refine ⟨evs, ?_, h2⟩
    rw [h1]
    cases k with
    | sep tag => exact absurd rfl (hk tag)
    | trailing => rfl
    | ignoreTrailing => rfl
  | @reported s tag p q hb h hf hi =>
    intro st hp hd ho
    exact trail (k := .sep tag) hb h hf hi st hp hd ho

/-- **C59.** `list` accepts an item and what may follow it; the only error it reports is a trailing separator, over its range. -/
theorem C59_accepted {item : Rule} {sep : Option Sep} {es : List Ev} (hi : Does E cx on d (.run item) p m)
    (h : Spec.ListRest E cx on d item sep m q es) {st : St} (hp : st.pos = p) (hd : st.depth = d) (ho : st.wsOn = on) :
    ∃ evs, evs.filter Ev.isError = es ∧ Exec E cx (.run (.lst item sep)) st ⟨.ok, { st with pos := q }, evs⟩ := by
  obtain ⟨e1, q1, n1, g1⟩ := hi st hp hd ho
  obtain ⟨e2, q2, n2, g2⟩ := list_rest h { st with pos := m } rfl hd ho
  refine ⟨e1 ++ e2, by rw [List.filter_append, quiet_filter q1, q2]; rfl, max n1 n2 + 1, ?_⟩
  rw [exec_succ]
  simp only [step, stepRun, onOk', andThen, framed, exec_mono (Nat.le_max_left n1 n2) g1, Option.map_some, frame_moved,
    exec_mono (Nat.le_max_right n1 n2) g2]

/-- `1,2,` as a list of digits: the second comma is reported. -/
example (st : St) (h : st.pos = 0) : ∃ evs, evs.filter Ev.isError = [.error 22 3 4] ∧
    Exec (Ex.env [49, 44, 50, 44] Ex.lists) ⟨none, 10⟩ (.run (.lst Ex.digit (some (Ex.comma, .sep 22)))) st
      ⟨.ok, { st with pos := 4 }, evs⟩ :=
  C59_accepted (m := 1) (does_tok (n := 1) rfl (does_ws_none rfl))
    (.branch (m := 2) (l := 3) rfl (cond_tok rfl) (fin_tok (n := 1) rfl (does_ws_none rfl)) (cond_tok rfl)
      (fin_tok (n := 1) rfl (does_ws_none rfl))
      (.reported rfl (cond_tok rfl) (fin_tok (n := 1) rfl (does_ws_none rfl)) (not_tok rfl))) h rfl rfl

end Verif
