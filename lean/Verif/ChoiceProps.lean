import Verif.GrammarLemmas
import Verif.TraceProps
import Verif.GrammarEx
import Verif.LitTrieProps

/-
Choice (C39), lookahead (C40) and search (C54).
-/

namespace Verif

open Spec

/-- The events of branches that were tried and not taken: only empty (cancelled) productions and backtracking. -/
def Spec.noise : Ev → Prop
  | .prodStart .. | .prodCancel .. | .backtracked .. => True
  | _ => False

theorem cancel_noise {len p : Nat} {evs : List Ev} (h : CancelTr len p evs) : ∀ ev ∈ evs, Spec.noise ev := by
  induction h with
  | nil => simp
  | backtracked => simp [Spec.noise]
  | prod _ ih =>
    intro ev hev
    simp only [List.mem_cons, List.mem_append, List.not_mem_nil, or_false] at hev
    rcases hev with h | h | h
    · subst h; trivial
    · exact ih ev h
    · subst h; trivial
  | append _ _ ih1 ih2 =>
    intro ev hev
    rcases List.mem_append.1 hev with h | h
    · exact ih1 ev h
    · exact ih2 ev h

theorem onOk'_some {x : Option Res} {f : St → Option Res} {r : Res} (h : onOk' x f = some r) :
    (∃ st1 e1 r2, x = some ⟨.ok, st1, e1⟩ ∧ f st1 = some r2 ∧ r = ⟨r2.out, r2.st, e1 ++ r2.evs⟩) ∨
    (x = some r ∧ r.out = .fail) := by
  obtain ⟨r1, r2, h1, h2, rfl⟩ := andThen_some.1 h
  obtain ⟨o, st1, e1⟩ := r1
  cases o
  · exact .inl ⟨st1, e1, r2, h1, h2, rfl⟩
  · cases h2; simp only [List.append_nil]; exact .inr ⟨h1, trivial⟩
  · cases h2

theorem onOk_some {x : Option Res} {f : St → Option Res} {r : Res} (h : onOk x f = some r) :
    (∃ st1 e1 r2, x = some ⟨.ok, st1, e1⟩ ∧ f st1 = some r2 ∧ r = ⟨r2.out, r2.st, e1 ++ r2.evs⟩) ∨
    (x = some r ∧ r.out ≠ .ok) := by
  obtain ⟨r1, r2, h1, h2, rfl⟩ := andThen_some.1 h
  obtain ⟨o, st1, e1⟩ := r1
  cases o
  · exact .inl ⟨st1, e1, r2, h1, h2, rfl⟩
  · cases h2; simp only [List.append_nil]; exact .inr ⟨h1, Out.noConfusion⟩
  · cases h2; simp only [List.append_nil]; exact .inr ⟨h1, Out.noConfusion⟩

/-- What a choice does. -/
theorem chcRun_some {E : Env} {cx : Cx} {rs : List Rule} {st : St} (hl : st.pos ≤ E.inp.length) {n : Nat} {r : Res}
    (h : exec E n cx (.chcRun rs) st = some r) :
    (∃ pre b post ce r', rs = pre ++ b :: post ∧ (∀ x ∈ pre, Leaves E x st) ∧ Takes E b st ∧
      exec E n cx (.bfinish b) st = some r' ∧ CancelTr E.inp.length st.pos ce ∧ r = ⟨r'.out, r'.st, ce ++ r'.evs⟩ ∧
      ∀ post', Exec E cx (.chcRun (pre ++ b :: post')) st r) ∨
    ((∀ x ∈ rs, Leaves E x st) ∧ ∃ ce, CancelTr E.inp.length st.pos ce ∧ r = ⟨.fail, st, ce ++ [.error 0 st.pos st.pos]⟩) := by
  induction rs generalizing n r with
  | nil =>
    cases n with
    | zero => cases h
    | succ n => cases h; exact .inr ⟨by simp, [], .nil, rfl⟩
  | cons b rs ih =>
    cases n with
    | zero => cases h
    | succ n =>
      have hh := h
      rw [exec_succ] at h
      simp only [step] at h
      rcases ifTry_some hl h with ⟨h1, h2⟩ | ⟨h1, h2⟩
      · refine .inl ⟨[], b, rs, [], r, rfl, by simp, h1, exec_mono (Nat.le_succ n) h2, .nil, rfl, fun post' => ⟨n + 1, ?_⟩⟩
        rw [exec_succ] at hh ⊢
        simp only [step, List.nil_append, ifTry] at hh ⊢
        cases hx : exec E n cx (.btry b) st with
        | none => rw [hx] at hh; cases hh
        | some y =>
          rcases btry_out hl hx with e | e
          · subst e; exact h2
          · subst e; exact absurd ⟨cx, n, hx⟩ (h1.not_leaves hl)
      · rcases onOk'_some h2 with ⟨st1, e1, r2, h3, h4, rfl⟩ | ⟨h3, h4⟩
        · obtain ⟨h5, h6⟩ := cancel_out hl h3
          simp only [Res.mk.injEq, and_true, true_and] at h5
          have h5 := h5.symm
          subst h5
          simp only at h6
          rcases ih h4 with ⟨pre, b', post, ce, r', g1, g2, g3, g4, g5, g6, g7⟩ | ⟨g1, ce, g2, g3⟩
          · refine .inl ⟨b :: pre, b', post, e1 ++ ce, r', by rw [g1]; rfl, ?_, g3,
              exec_mono (Nat.le_succ n) g4, h6.append g5, ?_, ?_⟩
            · intro x hx
              rcases List.mem_cons.1 hx with hx | hx
              · subst hx; exact h1
              · exact g2 x hx
            · rw [g6]; simp
            · intro post'
              obtain ⟨m, hm⟩ := g7 post'
              refine ⟨max n m + 1, ?_⟩
              rw [exec_succ]
              simp only [step, List.cons_append, ifTry]
              obtain ⟨k, hk⟩ := h1.at rfl rfl hl cx
              have hb : ∃ y, exec E n cx (.btry b) st = some y := by
                cases hx : exec E n cx (.btry b) st with
                | none => simp [ifTry, hx] at h
                | some y => exact ⟨y, rfl⟩
              obtain ⟨y, hy⟩ := hb
              have := Exec.unique ⟨n, hy⟩ ⟨k, hk⟩
              subst this
              rw [exec_mono (Nat.le_max_left n m) hy, exec_mono (Nat.le_max_left n m) h3]
              simp only [onOk', andThen, exec_mono (Nat.le_max_right n m) hm, Option.map_some]
          · refine .inr ⟨?_, e1 ++ ce, h6.append g2, by rw [g3]; simp⟩
            intro x hx
            rcases List.mem_cons.1 hx with hx | hx
            · subst hx; exact h1
            · exact g1 x hx
        · obtain ⟨h5, h6⟩ := cancel_out hl h3
          rw [h5] at h4; cases h4

/-- **C39** A choice is its first alternative whose condition matches: the outcome, the state and the events are those
    of parsing this alternative, after the noise of the alternatives before it.  The alternatives after it do not
    matter, whatever the outcome.  If no condition matches, it fails with one error where it started. -/
theorem C39_first_matching {E : Env} {cx : Cx} {rs : List Rule} {st : St} (hl : st.pos ≤ E.inp.length) {r : Res}
    (h : Exec E cx (.run (.chc rs)) st r) :
    (∃ pre b post ce r', rs = pre ++ b :: post ∧ (∀ x ∈ pre, Leaves E x st) ∧ Takes E b st ∧
      (∀ ev ∈ ce, Spec.noise ev) ∧ r = ⟨r'.out, r'.st, ce ++ r'.evs⟩ ∧ Exec E cx (.bfinish b) st r' ∧
      (HeadOk E b → ∃ y, Exec E cx (.run b) st y ∧ y.out = r.out ∧ y.st = r.st ∧ SameEvs y.evs r'.evs) ∧
      ∀ post', Exec E cx (.run (.chc (pre ++ b :: post'))) st r) ∨
    ((∀ x ∈ rs, Leaves E x st) ∧ r.out = .fail ∧ r.st = st ∧
      ∃ ce, (∀ ev ∈ ce, Spec.noise ev) ∧ r.evs = ce ++ [.error 0 st.pos st.pos]) := by
  obtain ⟨n, h⟩ := h.elim
  rcases chcRun_some hl h with ⟨pre, b, post, ce, r', g1, g2, g3, g4, g5, g6, g7⟩ | ⟨g1, ce, g2, g3⟩
  · refine .inl ⟨pre, b, post, ce, r', g1, g2, g3, cancel_noise g5, g6, ⟨n, g4⟩, ?_, ?_⟩
    · intro hh
      obtain ⟨m, hm⟩ := finish_sim E n cx b st hl g3 hh
      obtain ⟨y, hy, e1, e2, e3⟩ := hm r' g4
      rw [g6]
      exact ⟨y, ⟨m, hy⟩, e1, e2, e3⟩
    · intro post'
      obtain ⟨m, hm⟩ := g7 post'
      exact Exec.intro (n := m) hm
  · subst g3
    exact .inr ⟨g1, rfl, rfl, ce, cancel_noise g2, rfl⟩

/-- A grammar with a choice: an opening parenthesis followed by a digit, or a letter, or an opening parenthesis. -/
def Ex.choice : Rule := .chc [.br Ex.open_ Ex.digit, Ex.letter, Ex.open_]

/-- The first alternative is taken, and it fails although the last one would succeed; the second one is taken; none. -/
example : (Ex.obs (exec (Ex.env [40, 97] Ex.lists) 9 {} (.run Ex.choice) { pos := 0 })).map (fun r => (r.1, r.2.1)) = some (.fail, 1) ∧
    (Ex.obs (exec (Ex.env [97] Ex.lists) 9 {} (.run Ex.choice) { pos := 0 })).map (fun r => (r.1, r.2.1)) = some (.ok, 1) ∧
    Ex.obs (exec (Ex.env [41] Ex.lists) 9 {} (.run Ex.choice) { pos := 0 }) = some (.fail, 0, [.error 0 0 0]) := by
  decide +kernel

example (E : Env) : HeadOk E (.br Ex.open_ Ex.digit) := by
  intro r' h
  cases h with
  | br h => cases h

/-! ## Lookahead -/

/-- The rule matches here: parsed on its own, it succeeds without an error. -/
def Spec.MatchesHere (E : Env) (r : Rule) (p : Nat) : Prop :=
  match r with
  | .tok t => (t.run (E.inp.drop p)).1 = true
  | .tokr _ _ r => ∃ z, Exec E ⟨none, 0⟩ (.run r) { pos := p } z ∧ z.out = .ok ∧ ∀ ev ∈ z.evs, ev.isError = false
  | r => ∃ z, Exec E ⟨none, 0⟩ (.run r) { pos := p } z ∧ z.out = .ok ∧ ∀ ev ∈ z.evs, ev.isError = false

theorem nested_some {E : Env} {n : Nat} {r : Rule} {p e : Nat} {b : Bool} {evs : List Ev}
    (h : nested (exec E n) r p = some (b, e, evs)) :
    ∃ z, exec E n ⟨none, 0⟩ (.run r) { pos := p } = some z ∧ z.st.pos = e ∧ z.evs = evs ∧
      z.out = if b then .ok else .fail := by
  unfold nested at h
  split at h
  · cases h
  · cases h; rename_i hx; exact ⟨_, hx, rfl, rfl, rfl⟩
  · cases h; rename_i hx; exact ⟨_, hx, rfl, rfl, rfl⟩
  · cases h

theorem tokTry_spec {E : Env} {n : Nat} {cx : Cx} {r : Rule} {st : St} {y : Res}
    (h : exec E n cx (.tokTry r) st = some y) : y.out = .ok ↔ Spec.MatchesHere E r st.pos := by
  cases n with
  | zero => cases h
  | succ n =>
    rw [exec_succ] at h
    have key : ∀ r', (match nested (exec E n) r' st.pos with
        | none => none
        | some (b, e, evs) => ret (if b && !evs.any Ev.isError then .ok else .fail) { st with pos := e }) = some y →
        (y.out = .ok ↔ ∃ z, Exec E ⟨none, 0⟩ (.run r') { pos := st.pos } z ∧ z.out = .ok ∧ ∀ ev ∈ z.evs, ev.isError = false) := by
      intro r' h
      cases hn : nested (exec E n) r' st.pos with
      | none => rw [hn] at h; cases h
      | some x =>
        obtain ⟨b, e, evs⟩ := x
        rw [hn] at h
        obtain ⟨z, h1, h2, h3, h4⟩ := nested_some hn
        simp only [ret, Option.some.injEq] at h
        subst h
        simp only
        constructor
        · intro hb
          refine ⟨z, ⟨n, h1⟩, ?_⟩
          cases b
          · simp at hb
          · refine ⟨h4, ?_⟩
            rw [h3]
            by_cases ha : evs.any Ev.isError = true
            · simp [ha] at hb
            · simpa using ha
        · rintro ⟨z', hz, h5, h6⟩
          have := Exec.unique ⟨n, h1⟩ hz
          subst this
          rw [h3] at h6
          cases b
          · rw [h5] at h4; cases h4
          · have : evs.any Ev.isError = false := by simpa using h6
            simp [this]
    cases r <;> simp only [step] at h <;> simp only [Spec.MatchesHere] <;> try (exact key _ h)
    simp only [ret, Option.some.injEq] at h
    subst h
    simp only
    split <;> simp_all

/-- **C40** `peek` never consumes input; it reports an error exactly if its rule does not match. -/
theorem C40_peek {E : Env} {cx : Cx} {tag : Nat} {r : Rule} {st : St} {x : Res}
    (h : Exec E cx (.run (.peek tag r)) st x) :
    x.out = .ok ∧ x.st = st ∧ tokens x.evs = [] ∧
      ((∀ ev ∈ x.evs, ev.isError = false) ↔ Spec.MatchesHere E r st.pos) := by
  obtain ⟨n, h⟩ := h.elim
  simp only [step, stepRun] at h
  split at h
  · cases h
  · rename_i y hy
    cases h
    have := tokTry_spec hy
    refine ⟨rfl, rfl, ?_, ?_⟩
    · split <;> rfl
    · rw [← this]
      cases ho : y.out <;> simp [Ev.isError]

/-- **C40** `peek_not` consumes nothing if its rule does not match; otherwise it reports an error. -/
theorem C40_peek_not {E : Env} {cx : Cx} {tag : Nat} {r : Rule} {st : St} {x : Res}
    (h : Exec E cx (.run (.peekn tag r)) st x) :
    x.out = .ok ∧ ((∀ ev ∈ x.evs, ev.isError = false) ↔ ¬ Spec.MatchesHere E r st.pos) ∧
      (¬ Spec.MatchesHere E r st.pos → x.st = st ∧ tokens x.evs = []) := by
  obtain ⟨n, h⟩ := h.elim
  simp only [step, stepRun] at h
  split at h
  · cases h
  · rename_i y hy
    have := tokTry_spec hy
    rw [← this]
    cases ho : y.out <;> rw [ho] at h <;> cases h <;> simp [Ev.isError, tokens]

/-- **C40** As branch conditions: `peek` is taken exactly if its rule matches, `peek_not` exactly if it does not. -/
theorem C40_peek_branch {E : Env} {cx : Cx} {tag : Nat} {r : Rule} {st : St} {n : Nat} {x : Res} :
    (exec E n cx (.btry (.peek tag r)) st = some x → x.st = st ∧ x.evs = [] ∧ (x.out = .ok ↔ Spec.MatchesHere E r st.pos)) ∧
    (exec E n cx (.btry (.peekn tag r)) st = some x → x.st = st ∧ x.evs = [] ∧ (x.out = .ok ↔ ¬ Spec.MatchesHere E r st.pos)) := by
  cases n with
  | zero => exact ⟨nofun, nofun⟩
  | succ n =>
    simp only [exec_succ, step, stepTry]
    constructor <;>
    · intro h
      split at h
      · cases h
      · rename_i y hy
        have := tokTry_spec hy
        rw [← this]
        cases h
        cases ho : y.out <;> simp

/-- **C40** Taking such a branch consumes nothing. -/
theorem C40_peek_finish {E : Env} {cx : Cx} {tag : Nat} {r : Rule} {st : St} {x : Res}
    (h : Exec E cx (.bfinish (.peek tag r)) st x ∨ Exec E cx (.bfinish (.peekn tag r)) st x ∨
      ∃ l, Exec E cx (.bfinish (.look tag l)) st x) :
    x.out = .ok ∧ x.st = st ∧ tokens x.evs = [] ∧ ∀ ev ∈ x.evs, ev.isError = false := by
  rcases h with h | h | ⟨l, h⟩ <;> obtain ⟨n, h⟩ := h.elim <;> simp only [step, stepFinish] at h
  · split at h
    · cases h
    · cases h; simp [tokens, Ev.isError]
  · split at h
    · cases h
    · cases h; simp [tokens, Ev.isError]
  · cases h; simp [tokens, Ev.isError]

/-! ## Searching for literals -/

/-- A literal (needle or limit) begins here. -/
def Spec.Hit (needles limits : List Lit) (fold : Nat → Nat) (s : List Nat) : Prop :=
  ∃ l ∈ needles ++ limits, l.Matches (s.map fold)

/-- The longest literal that begins here is a needle, and no limit has the same spelling. -/
def Spec.NeedleAt (needles limits : List Lit) (fold : Nat → Nat) (s : List Nat) (n : Nat) : Prop :=
  ∃ l ∈ needles, l.Matches (s.map fold) ∧ l.str.length = n ∧ (∀ l' ∈ limits, l'.str ≠ l.str) ∧
    ∀ l' ∈ needles ++ limits, l'.Matches (s.map fold) → l'.str.length ≤ n

theorem Spec.NeedleAt.hit {needles limits : List Lit} {fold : Nat → Nat} {s : List Nat} {n : Nat}
    (h : Spec.NeedleAt needles limits fold s n) : Spec.Hit needles limits fold s := by
  obtain ⟨l, hl, hm, _⟩ := h
  exact ⟨l, List.mem_append_left _ hl, hm⟩

/-- What the literals of a search must satisfy: two literals with the same spelling are both keywords of the same
    identifier or both are none, and no literal contains the value that stands for the end of the input. -/
structure Spec.Searchable (eof : Option Nat) (fold : Nat → Nat) (needles limits : List Lit) : Prop where
  cons : SetConsistent (needles ++ limits)
  idem : ∀ u, fold (fold u) = fold u
  eof : ∀ l ∈ needles ++ limits, ∀ c ∈ l.str, eof ≠ some c

theorem lookLits_map (needles limits : List Lit) : (lookLits needles limits).map (·.1) = needles ++ limits := by
  simp [lookLits, Function.comp_def]

/-- The literal that counts is a needle exactly if no limit has the same spelling. -/
theorem lookLits_last {needles limits : List Lit} {u : List Nat} :
    lastVal (lookLits needles limits) u 0 ↔ (∃ l ∈ needles, l.str = u) ∧ ∀ l ∈ limits, l.str ≠ u := by
  have one : ∀ j p, (lookLits needles limits)[j]? = some p → (p.2 = 0 ∧ p.1 ∈ needles ∧ j < needles.length) ∨
      (p.2 = 1 ∧ p.1 ∈ limits ∧ needles.length ≤ j) := by
    intro j p h
    unfold lookLits at h
    rw [List.getElem?_append] at h
    split at h
    · rename_i hj
      rw [List.getElem?_map] at h
      obtain ⟨l, hl, rfl⟩ := Option.map_eq_some_iff.1 h
      exact .inl ⟨rfl, List.mem_of_getElem? hl, by simpa using hj⟩
    · rename_i hj
      rw [List.getElem?_map] at h
      obtain ⟨l, hl, rfl⟩ := Option.map_eq_some_iff.1 h
      exact .inr ⟨rfl, List.mem_of_getElem? hl, by simpa using hj⟩
  constructor
  · rintro ⟨i, l, h1, h2, h3⟩
    rcases one i _ h1 with ⟨-, hn, hi⟩ | ⟨h, -⟩
    · refine ⟨⟨l, hn, h2⟩, fun l' hl' => ?_⟩
      obtain ⟨j, hj, hj'⟩ := List.mem_iff_getElem.1 hl'
      refine h3 (needles.length + j) (l', 1) (by omega) ?_
      unfold lookLits
      rw [List.getElem?_append_right (by simp)]
      simpa using List.getElem?_eq_some_iff.2 ⟨hj, hj'⟩
    · cases h
  · rintro ⟨⟨l, hl, rfl⟩, hno⟩
    -- the last needle with this spelling
    have : ∀ ns : List Lit, (∃ l' ∈ ns, l'.str = l.str) → ∃ (i : Nat) (l' : Lit), ns[i]? = some l' ∧
        l'.str = l.str ∧ ∀ (j : Nat) (l'' : Lit), i < j → ns[j]? = some l'' → l''.str ≠ l.str := by
      intro ns
      induction ns with
      | nil => rintro ⟨_, h, _⟩; cases h
      | cons a ns ih =>
        intro h
        by_cases hex : ∃ l' ∈ ns, l'.str = l.str
        · obtain ⟨i, l', h1, h2, h3⟩ := ih hex
          refine ⟨i + 1, l', h1, h2, fun j l'' hj he => ?_⟩
          cases j with
          | zero => omega
          | succ j => exact h3 j l'' (by omega) he
        · obtain ⟨l', hm, he⟩ := h
          rcases List.mem_cons.1 hm with rfl | hm
          · refine ⟨0, l', rfl, he, fun j l'' hj he' => ?_⟩
            cases j with
            | zero => omega
            | succ j => exact fun e => hex ⟨l'', List.mem_of_getElem? he', e⟩
          · exact absurd ⟨l', hm, he⟩ hex
    obtain ⟨i, l', h1, h2, h3⟩ := this needles ⟨l, hl, rfl⟩
    have hi : i < needles.length := (List.getElem?_eq_some_iff.1 h1).1
    refine ⟨i, l', ?_, h2, fun j p hj hp => ?_⟩
    · unfold lookLits
      rw [List.getElem?_append_left (by simpa using hi), List.getElem?_map, h1]
      rfl
    · rcases one j p hp with ⟨-, -, hj'⟩ | ⟨-, hp', -⟩
      · unfold lookLits at hp
        rw [List.getElem?_append_left (by simpa using hj'), List.getElem?_map] at hp
        obtain ⟨l'', hl'', rfl⟩ := Option.map_eq_some_iff.1 hp
        exact h3 j l'' hj hl''
      · exact hno _ hp'

theorem needleAt_iff {needles limits : List Lit} {fold : Nat → Nat} {s : List Nat} {n : Nat} :
    Spec.NeedleAt needles limits fold s n ↔
      (∃ l ∈ needles ++ limits, l.Matches (s.map fold) ∧ l.str.length = n ∧ lastVal (lookLits needles limits) l.str 0) ∧
        ∀ l ∈ needles ++ limits, l.Matches (s.map fold) → l.str.length ≤ n := by
  simp only [lookLits_last]
  constructor
  · rintro ⟨l, hl, hm, hn, h1, h2⟩
    exact ⟨⟨l, List.mem_append_left _ hl, hm, hn, ⟨l, hl, rfl⟩, h1⟩, h2⟩
  · rintro ⟨⟨l, hl, hm, hn, ⟨l', h1, h1'⟩, h2⟩, h3⟩
    refine ⟨l, ?_, hm, hn, h2, h3⟩
    rcases List.mem_append.1 hl with h | h
    · exact h
    · exact absurd rfl (h2 l h)

theorem lookFn_spec {eof : Option Nat} {fold : Nat → Nat} {needles limits : List Lit}
    (hs : Spec.Searchable eof fold needles limits) (s : List Nat) :
    ((lookFn eof fold needles limits).run s = none ↔ ¬ Spec.Hit needles limits fold s) ∧
    (∀ b n, (lookFn eof fold needles limits).run s = some (b, n) →
      (b = true ↔ ∃ n, Spec.NeedleAt needles limits fold s n) ∧
      (b = true → Spec.NeedleAt needles limits fold s n)) := by
  obtain ⟨r, h1, h2, h3⟩ := litTrie_spec (lookLits needles limits) (by rw [lookLits_map]; exact hs.cons) eof fold hs.idem
    (fun l hl => hs.eof l.1 (by rw [← lookLits_map]; exact List.mem_map.2 ⟨l, hl, rfl⟩)) s
  rw [lookLits_map] at h3
  simp only [lookLits_map] at h2
  simp only [lookFn, h1]
  cases r with
  | none =>
    simp only [reduceCtorEq, false_implies, implies_true, and_true, true_iff]
    rintro ⟨l, hl, hm⟩
    exact h3.1 rfl l hl hm
  | some p =>
    obtain ⟨v, n⟩ := p
    have h4 := (h2 v n).1 rfl
    simp only [reduceCtorEq, false_iff]
    refine ⟨?_, ?_⟩
    · obtain ⟨⟨l, hl, hm, _⟩, _⟩ := h4
      exact fun hno => hno ⟨l, hl, hm⟩
    · rintro b m ⟨⟩
      have needle : v = 0 → Spec.NeedleAt needles limits fold s n := by
        rintro rfl
        exact needleAt_iff.2 h4
      refine ⟨⟨fun h => ⟨n, needle (by simpa using h)⟩, ?_⟩, fun h => needle (by simpa using h)⟩
      rintro ⟨n', hn'⟩
      have := (h2 0 n').2 (needleAt_iff.1 hn')
      simp only [Option.some.injEq, Prod.mk.injEq] at this
      simp [this.1]

/-- **C40** `lookahead` finds its needle: it succeeds exactly if there is a position, before which no needle or limit
    begins and the end of the input is not reached, where a needle begins (and not a longer limit). -/
theorem C40_lookahead_scan {eof : Option Nat} {fold : Nat → Nat} {needles limits : List Lit}
    (hs : Spec.Searchable eof fold needles limits) (s : List Nat) :
    (lookScan (lookFn eof fold needles limits) eof s).1 = true ↔
      ∃ i ≤ s.length, (∀ j < i, ¬ Spec.Hit needles limits fold (s.drop j) ∧ peekEof eof (s.drop j) = false) ∧
        ∃ n, Spec.NeedleAt needles limits fold (s.drop i) n := by
  induction s with
  | nil =>
    obtain ⟨h1, h2⟩ := lookFn_spec hs []
    unfold lookScan
    cases hr : (lookFn eof fold needles limits).run [] with
    | none =>
      simp only [Bool.false_eq_true, false_iff]
      rintro ⟨i, hi, _, n, hn⟩
      exact (h1.1 hr) (by simpa using hn.hit)
    | some x =>
      obtain ⟨b, n⟩ := x
      simp only
      rw [(h2 b n hr).1]
      constructor
      · exact fun h => ⟨0, Nat.le_refl _, fun j hj => absurd hj (Nat.not_lt_zero j), h⟩
      · rintro ⟨i, hi, _, h⟩; simpa using h
  | cons u s ih =>
    obtain ⟨h1, h2⟩ := lookFn_spec hs (u :: s)
    unfold lookScan
    cases hr : (lookFn eof fold needles limits).run (u :: s) with
    | some x =>
      obtain ⟨b, n⟩ := x
      simp only
      have hit : Spec.Hit needles limits fold (u :: s) := by
        cases Classical.em (Spec.Hit needles limits fold (u :: s)) with
        | inl h => exact h
        | inr h => rw [h1.2 h] at hr; cases hr
      rw [(h2 b n hr).1]
      constructor
      · exact fun h => ⟨0, Nat.zero_le _, fun j hj => absurd hj (Nat.not_lt_zero j), h⟩
      · rintro ⟨i, hi, hj, h⟩
        cases i with
        | zero => exact h
        | succ i => exact absurd hit (hj 0 (Nat.succ_pos i)).1
    | none =>
      have nohit := h1.1 hr
      simp only
      by_cases he : peekEof eof (u :: s) = true
      · rw [if_pos he]
        simp only [Bool.false_eq_true, false_iff]
        rintro ⟨i, hi, hj, n, hn⟩
        cases i with
        | zero => exact nohit hn.hit
        | succ i => have := (hj 0 (Nat.succ_pos i)).2; rw [List.drop_zero, he] at this; cases this
      · rw [if_neg he]
        simp only
        rw [ih]
        constructor
        · rintro ⟨i, hi, hj, h⟩
          refine ⟨i + 1, by simpa using hi, ?_, by simpa using h⟩
          intro j hj'
          cases j with
          | zero => exact ⟨nohit, by simpa using he⟩
          | succ j => exact hj j (by omega)
        · rintro ⟨i, hi, hj, h⟩
          cases i with
          | zero =>
            obtain ⟨n, hn⟩ := h
            exact absurd hn.hit nohit
          | succ i => exact ⟨i, by simpa using hi, fun j hj' => hj (j + 1) (by omega), by simpa using h⟩

/-- **C40** `lookahead` never consumes input; it reports an error (or, as a branch, is not taken) exactly if the search
    does not find a needle. -/
theorem C40_lookahead {E : Env} {cx : Cx} {tag : Nat} {l : LookFn} {st : St} {x : Res} :
    (Exec E cx (.run (.look tag l)) st x → x.out = .ok ∧ x.st = st ∧ tokens x.evs = [] ∧
      ((∀ ev ∈ x.evs, ev.isError = false) ↔ (lookScan l E.eof (E.inp.drop st.pos)).1 = true)) ∧
    (Exec E cx (.btry (.look tag l)) st x → x.st = st ∧ x.evs = [] ∧
      (x.out = .ok ↔ (lookScan l E.eof (E.inp.drop st.pos)).1 = true)) := by
  constructor
  · intro h
    obtain ⟨n, h⟩ := h.elim
    cases h
    refine ⟨rfl, rfl, ?_, ?_⟩
    · split <;> rfl
    · split <;> rename_i h <;> simp [Ev.isError, h]
  · intro h
    obtain ⟨n, h⟩ := h.elim
    cases h
    refine ⟨rfl, rfl, ?_⟩
    split <;> rename_i h <;> simp [h]

/-- Which literals are which: `"b"` is a needle, `";"` is a limit. -/
example : Spec.Searchable none id [⟨[98], none⟩] [⟨[59], none⟩] :=
  ⟨by intro a ha b hb h; simp at ha hb; rcases ha with rfl | rfl <;> rcases hb with rfl | rfl <;> simp_all,
   fun _ => rfl, by simp⟩
example : lookScan (lookFn none id [⟨[98], none⟩] [⟨[59], none⟩]) none [97, 97, 98, 59] = (true, 3) ∧
    lookScan (lookFn none id [⟨[98], none⟩] [⟨[59], none⟩]) none [97, 59, 98] = (false, 2) ∧
    lookScan (lookFn none id [⟨[98], none⟩] [⟨[59], none⟩]) none [97, 97] = (false, 2) := by
  decide +kernel

/-- The distance of the first position where a needle or limit begins or the input ends. -/
def Spec.FirstStop (eof : Option Nat) (fold : Nat → Nat) (needles limits : List Lit) (s : List Nat) (i : Nat) : Prop :=
  i ≤ s.length ∧ (∀ j < i, ¬ Spec.Hit needles limits fold (s.drop j) ∧ peekEof eof (s.drop j) = false) ∧
    (Spec.Hit needles limits fold (s.drop i) ∨ peekEof eof (s.drop i) = true)

theorem findScan_spec {eof : Option Nat} {fold : Nat → Nat} {needles limits : List Lit}
    (hs : Spec.Searchable eof fold needles limits) (s : List Nat) :
    Spec.FirstStop eof fold needles limits s (findScan (lookFn eof fold needles limits) eof s).2 ∧
    ((findScan (lookFn eof fold needles limits) eof s).1 = true ↔
      ∃ n, Spec.NeedleAt needles limits fold
        (s.drop (findScan (lookFn eof fold needles limits) eof s).2) n) := by
  have hitOf : ∀ s, (lookFn eof fold needles limits).run s ≠ none → Spec.Hit needles limits fold s := by
    intro s h
    cases Classical.em (Spec.Hit needles limits fold s) with
    | inl h => exact h
    | inr h' => exact absurd ((lookFn_spec hs s).1.2 h') h
  induction s with
  | nil =>
    obtain ⟨h1, h2⟩ := lookFn_spec hs []
    unfold findScan
    cases hr : (lookFn eof fold needles limits).run [] with
    | none =>
      refine ⟨⟨Nat.le_refl _, by simp, .inr rfl⟩, ?_⟩
      simp only [Bool.false_eq_true, false_iff]
      rintro ⟨n, hn⟩
      exact (h1.1 hr) hn.hit
    | some x =>
      obtain ⟨b, n⟩ := x
      exact ⟨⟨Nat.le_refl _, by simp, .inl (hitOf [] (by rw [hr]; simp))⟩, (h2 b n hr).1⟩
  | cons u s ih =>
    obtain ⟨h1, h2⟩ := lookFn_spec hs (u :: s)
    unfold findScan
    cases hr : (lookFn eof fold needles limits).run (u :: s) with
    | some x =>
      obtain ⟨b, n⟩ := x
      exact ⟨⟨Nat.zero_le _, by simp, .inl (hitOf (u :: s) (by rw [hr]; simp))⟩, (h2 b n hr).1⟩
    | none =>
      have nohit := h1.1 hr
      simp only
      by_cases he : peekEof eof (u :: s) = true
      · rw [if_pos he]
        refine ⟨⟨Nat.zero_le _, by simp, .inr he⟩, ?_⟩
        simp only [Bool.false_eq_true, false_iff]
        rintro ⟨n, hn⟩
        exact nohit hn.hit
      · rw [if_neg he]
        obtain ⟨⟨g1, g2, g3⟩, g4⟩ := ih
        refine ⟨⟨by simpa using g1, ?_, by simpa using g3⟩, by simpa using g4⟩
        intro j hj
        cases j with
        | zero => exact ⟨nohit, by simpa using he⟩
        | succ j => exact g2 j (by simp only at hj; omega)

theorem FirstStop.unique {eof : Option Nat} {fold : Nat → Nat} {needles limits : List Lit} {s : List Nat} {i j : Nat}
    (h1 : Spec.FirstStop eof fold needles limits s i) (h2 : Spec.FirstStop eof fold needles limits s j) : i = j := by
  rcases Nat.lt_trichotomy i j with h | h | h
  · have := h2.2.1 i h
    rcases h1.2.2 with h | h
    · exact absurd h this.1
    · rw [this.2] at h; cases h
  · exact h
  · have := h1.2.1 j h
    rcases h2.2.2 with h | h
    · exact absurd h this.1
    · rw [this.2] at h; cases h

/-- **C54** Recovery with `find`: the reader stops at the first position where a needle or limit begins or the input
    ends; everything skipped becomes one error token; recovery finishes exactly if it is a needle. -/
theorem C54_find {E : Env} {cx : Cx} {fold : Nat → Nat} {needles limits : List Lit}
    (hs : Spec.Searchable E.eof fold needles limits) {st : St} {i : Nat}
    (hi : Spec.FirstStop E.eof fold needles limits (E.inp.drop st.pos) i) :
    ((∃ n, Spec.NeedleAt needles limits fold (E.inp.drop (st.pos + i)) n) →
      Exec E cx (.recov (.find (lookFn E.eof fold needles limits))) st
        ⟨.ok, { st with pos := st.pos + i },
          [.recStart st.pos, .token .error st.pos (st.pos + i), .recFinish (st.pos + i)]⟩) ∧
    ((¬ ∃ n, Spec.NeedleAt needles limits fold (E.inp.drop (st.pos + i)) n) →
      Exec E cx (.recov (.find (lookFn E.eof fold needles limits))) st
        ⟨.fail, { st with pos := st.pos + i },
          [.recStart st.pos, .token .error st.pos (st.pos + i), .recCancel (st.pos + i)]⟩) := by
  obtain ⟨h1, h2⟩ := findScan_spec hs (E.inp.drop st.pos)
  have e := FirstStop.unique hi h1
  rw [← e, List.drop_drop] at h2
  constructor <;> intro h
  · refine ⟨1, ?_⟩
    have := h2.2 h
    rw [exec_succ]
    simp only [step, this, if_true, skipped, ← e]
  · refine ⟨1, ?_⟩
    have : (findScan (lookFn E.eof fold needles limits) E.eof (E.inp.drop st.pos)).1 = false := by
      cases hb : (findScan (lookFn E.eof fold needles limits) E.eof (E.inp.drop st.pos)).1
      · rfl
      · exact absurd (h2.1 hb) h
    rw [exec_succ]
    simp only [step, this, Bool.false_eq_true, if_false, skipped, ← e]

/-- Such a position always exists. -/
theorem C54_find_stops {eof : Option Nat} {fold : Nat → Nat} {needles limits : List Lit}
    (hs : Spec.Searchable eof fold needles limits) (s : List Nat) :
    ∃ i, Spec.FirstStop eof fold needles limits s i := ⟨_, (findScan_spec hs s).1⟩

/-- `try_` with `find`: the failure is caught, `a + b;` is skipped to the semicolon. -/
example : Ex.obs (exec (Ex.env [97, 43, 98, 59] Ex.lists) 9 {}
    (.run (.tryt none Ex.digit (.find (lookFn none id [⟨[59], none⟩] [⟨[98], none⟩])))) { pos := 1 }) =
      some (.fail, 2, [.token .error 1 1, .error 14 1 1, .recStart 1, .token .error 1 2, .recCancel 2]) ∧
    Ex.obs (exec (Ex.env [97, 43, 98, 59] Ex.lists) 9 {}
    (.run (.tryt none Ex.digit (.find (lookFn none id [⟨[59], none⟩] [⟨[97], none⟩])))) { pos := 1 }) =
      some (.ok, 3, [.token .error 1 1, .error 14 1 1, .recStart 1, .token .error 1 3, .recFinish 3]) := by
  decide +kernel

theorem chcFinish_run {E : Env} {cx : Cx} {n : Nat} {rs : List Rule} {st : St} {x : Res}
    (h : exec E n cx (.chcFinish rs) st = some x) : exec E n cx (.chcRun rs) st = some x := by
  induction n generalizing rs st x with
  | zero => cases h
  | succ n ih =>
    cases rs with
    | nil => cases h
    | cons b rs =>
      simp only [exec_succ, step, ifTry] at h ⊢
      split at h
      · cases h
      · exact h
      · rename_i y hy
        obtain ⟨r1, r2, e1, e2, rfl⟩ := andThen_some.1 h
        refine andThen_some.2 ⟨r1, r2, e1, ?_, rfl⟩
        obtain ⟨o, s1, es⟩ := r1
        cases o
        · exact ih e2
        · exact e2
        · exact e2

theorem chcTry_out {E : Env} {cx : Cx} {n : Nat} {rs : List Rule} {st : St} (hl : st.pos ≤ E.inp.length) {x : Res}
    (h : exec E n cx (.chcTry rs) st = some x) :
    (x = ⟨.ok, st, []⟩ ∧ ∃ b ∈ rs, Takes E b st) ∨ (x = ⟨.fail, st, []⟩ ∧ ∀ b ∈ rs, Leaves E b st) := by
  induction rs generalizing n x with
  | nil =>
    cases n with
    | zero => cases h
    | succ n => cases h; exact .inr ⟨rfl, by simp⟩
  | cons b rs ih =>
    cases n with
    | zero => cases h
    | succ n =>
      rw [exec_succ] at h
      rcases ifTry_some hl h with ⟨h1, h2⟩ | ⟨h1, h2⟩
      · cases h2; exact .inl ⟨rfl, b, List.mem_cons_self .., h1⟩
      · rcases ih h2 with ⟨rfl, b', h3, h4⟩ | ⟨rfl, h3⟩
        · exact .inl ⟨rfl, b', List.mem_cons_of_mem _ h3, h4⟩
        · refine .inr ⟨rfl, fun x hx => ?_⟩
          rcases List.mem_cons.1 hx with hx | hx
          · subst hx; exact h1
          · exact h3 x hx

theorem recoLoop_some {E : Env} {cx : Cx} {limit : List Nat → Bool} {rs : List Rule} {st : St} {b : Nat} {n : Nat}
    (hl : st.pos ≤ E.inp.length) {r : Res} (h : exec E n cx (.recoLoop b limit rs) st = some r) :
    ∃ i ce, (∀ j < i, (∀ b ∈ rs, Leaves E b { st with pos := st.pos + j }) ∧ limit (E.inp.drop (st.pos + j)) = false ∧
        peekEof E.eof (E.inp.drop (st.pos + j)) = false) ∧ (∀ ev ∈ ce, Spec.noise ev) ∧
      ((∃ r', (∃ b ∈ rs, Takes E b { st with pos := st.pos + i }) ∧
          Exec E cx (.run (.chc rs)) { st with pos := st.pos + i } r' ∧
          r = ⟨r'.out, r'.st, ce ++ [.token .error b (st.pos + i), .recFinish (st.pos + i)] ++ r'.evs⟩) ∨
       ((∀ b ∈ rs, Leaves E b { st with pos := st.pos + i }) ∧
          (limit (E.inp.drop (st.pos + i)) = true ∨ peekEof E.eof (E.inp.drop (st.pos + i)) = true) ∧
          r = ⟨.fail, { st with pos := st.pos + i },
            ce ++ [.token .error b (st.pos + i), .recCancel (st.pos + i)]⟩)) := by
  induction n generalizing st r with
  | zero => cases h
  | succ n ih =>
    rw [exec_succ] at h
    simp only [step, ifTry] at h
    cases hx : exec E n cx (.chcTry rs) st with
    | none => rw [hx] at h; cases h
    | some x =>
      rw [hx] at h
      rcases chcTry_out hl hx with ⟨rfl, h1⟩ | ⟨rfl, h1⟩
      · simp only at h
        obtain ⟨r', h2, rfl⟩ := emit_some.1 h
        exact ⟨0, [], by simp, by simp, .inl ⟨r', h1, ⟨n + 1, chcFinish_run h2⟩, rfl⟩⟩
      · simp only at h
        rcases onOk'_some h with ⟨st1, e1, r2, h3, h4, rfl⟩ | ⟨h3, h4⟩
        · obtain ⟨g1, g2, g3⟩ := exec_good E n cx (.chcCancel rs) st hl _ h3
          simp only at g1 g2 g3
          subst g2
          have gn := cancel_noise g3
          by_cases hc : (limit (E.inp.drop st1.pos) || peekEof E.eof (E.inp.drop st1.pos)) = true
          · rw [if_pos hc] at h4
            cases h4
            refine ⟨0, e1, by simp, gn, .inr ⟨h1, by simpa using hc, rfl⟩⟩
          · rw [if_neg hc] at h4
            have hc' : limit (E.inp.drop st1.pos) = false ∧ peekEof E.eof (E.inp.drop st1.pos) = false := by
              simpa using hc
            have hl' : st1.pos + 1 ≤ E.inp.length := by
              have : E.inp.drop st1.pos ≠ [] := by
                intro he; rw [he] at hc'; simp [peekEof] at hc'
              have := List.length_pos_iff.2 this
              simp only [List.length_drop] at this
              omega
            obtain ⟨i, ce, k1, k2, k3⟩ := ih (st := { st1 with pos := st1.pos + 1 }) hl' h4
            have e : ∀ j, st1.pos + 1 + j = st1.pos + (j + 1) := by intro j; omega
            simp only [e] at k1 k3
            refine ⟨i + 1, e1 ++ ce, ?_, ?_, ?_⟩
            · intro j hj
              cases j with
              | zero => exact ⟨h1, hc'⟩
              | succ j => exact k1 j (by omega)
            · intro ev hev
              rcases List.mem_append.1 hev with hev | hev
              · exact gn ev hev
              · exact k2 ev hev
            · rcases k3 with ⟨r', m1, m2, rfl⟩ | ⟨m1, m2, rfl⟩
              · exact .inl ⟨r', m1, m2, by simp⟩
              · exact .inr ⟨m1, m2, by simp⟩
        · obtain ⟨g1, _, _⟩ := exec_good E n cx (.chcCancel rs) st hl _ h3
          rw [g1] at h4; cases h4

/-- **C54** Recovery with `recover(branches)`: as long as no branch is taken and no limit and not the end of the input is
    reached, code units are skipped one by one.  It ends where a branch is taken, with one error token for what was
    skipped, followed by the choice of the branches; or it fails. -/
theorem C54_recover {E : Env} {cx : Cx} {limit : List Nat → Bool} {rs : List Rule} {st : St} (hl : st.pos ≤ E.inp.length)
    {r : Res} (h : Exec E cx (.recov (.reco limit rs)) st r) :
    ∃ i ce, (∀ j < i, (∀ b ∈ rs, Leaves E b { st with pos := st.pos + j }) ∧ limit (E.inp.drop (st.pos + j)) = false ∧
        peekEof E.eof (E.inp.drop (st.pos + j)) = false) ∧ (∀ ev ∈ ce, Spec.noise ev) ∧
      ((∃ r', (∃ b ∈ rs, Takes E b { st with pos := st.pos + i }) ∧
          Exec E cx (.run (.chc rs)) { st with pos := st.pos + i } r' ∧
          r = ⟨r'.out, r'.st, .recStart st.pos :: (ce ++ [.token .error st.pos (st.pos + i), .recFinish (st.pos + i)] ++ r'.evs)⟩) ∨
       ((∀ b ∈ rs, Leaves E b { st with pos := st.pos + i }) ∧
          (limit (E.inp.drop (st.pos + i)) = true ∨ peekEof E.eof (E.inp.drop (st.pos + i)) = true) ∧
          r = ⟨.fail, { st with pos := st.pos + i },
            .recStart st.pos :: (ce ++ [.token .error st.pos (st.pos + i), .recCancel (st.pos + i)])⟩)) := by
  obtain ⟨n, h⟩ := h.elim
  obtain ⟨r0, h0, rfl⟩ := emit_some.1 h
  obtain ⟨i, ce, k1, k2, k3⟩ := recoLoop_some hl h0
  refine ⟨i, ce, k1, k2, ?_⟩
  rcases k3 with ⟨r', m1, m2, rfl⟩ | ⟨m1, m2, rfl⟩
  · exact .inl ⟨r', m1, m2, by simp⟩
  · exact .inr ⟨m1, m2, by simp⟩

/-- `recover(digit, letter).limit(';')` behind `+(`: one code unit is skipped, then the digit is parsed; or the limit. -/
example : Ex.obs (exec (Ex.env [43, 40, 49] Ex.lists) 19 {}
    (.recov (.reco (fun s => s.head? == some 59) [Ex.digit, Ex.letter])) { pos := 0 }) =
      some (.ok, 3, [.recStart 0, .token .error 0 2, .recFinish 2, .token (.user 4) 2 3]) ∧
    Ex.obs (exec (Ex.env [43, 59, 49] Ex.lists) 19 {}
    (.recov (.reco (fun s => s.head? == some 59) [Ex.digit, Ex.letter])) { pos := 0 }) =
      some (.fail, 1, [.recStart 0, .token .error 0 1, .recCancel 1]) := by
  decide +kernel

end Verif
