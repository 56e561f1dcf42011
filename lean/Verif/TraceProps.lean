import Verif.GrammarTrace
import Verif.GrammarEx

/-
Properties of the events of every parse: nesting, progress, tiling, failure comes with an error (C35, C36, C37, C41).
-/

namespace Verif

namespace Spec

/-- What is currently open: a production, a chain of operations, error recovery, or the grammar; and since where. -/
inductive Opened
  | prod (n pos : Nat) | chain (pos : Nat) | recovery (pos : Nat) | grammar (pos : Nat)
  deriving DecidableEq, Repr

/-- One event of a well nested sequence: a start event opens; a finish or cancel event closes the innermost open
    thing, which must be the same one and must have started no later. -/
def nestStep : List Opened → Ev → Option (List Opened)
  | s, .prodStart n p => some (.prod n p :: s)
  | s, .opStart p => some (.chain p :: s)
  | s, .recStart p => some (.recovery p :: s)
  | s, .grammarStart p => some (.grammar p :: s)
  | .prod m b :: s, .prodFinish n p => if m = n ∧ b ≤ p then some s else none
  | .prod m b :: s, .prodCancel n p => if m = n ∧ b ≤ p then some s else none
  | .chain b :: s, .opFinish p => if b ≤ p then some s else none
  | .recovery b :: s, .recFinish p => if b ≤ p then some s else none
  | .recovery b :: s, .recCancel p => if b ≤ p then some s else none
  | .grammar b :: s, .grammarFinish p => if b ≤ p then some s else none
  | .grammar b :: s, .grammarCancel p => if b ≤ p then some s else none
  | .chain b :: s, .opOp _ p => if b ≤ p then some (.chain b :: s) else none
  | s, .token .. | s, .backtracked .. | s, .error .. => some s
  | _, _ => none

/-- Is the sequence of events well nested?  The result is what is open afterwards. -/
def nest : List Opened → List Ev → Option (List Opened)
  | s, [] => some s
  | s, e :: es => (nestStep s e).bind fun s' => nest s' es

/-- The ranges of the token events. -/
def tokens : List Ev → List (Nat × Nat)
  | [] => []
  | .token _ b e :: es => (b, e) :: tokens es
  | _ :: es => tokens es

/-- The ranges are adjacent, begin at `p` and end at `q`. -/
def Adjacent : Nat → List (Nat × Nat) → Nat → Prop
  | p, [], q => p = q
  | p, (b, e) :: ts, q => p = b ∧ b ≤ e ∧ Adjacent e ts q

/-- All positions in an event are at most `len`, and its range is a range. -/
def evIn (len : Nat) : Ev → Prop
  | .grammarStart p | .grammarFinish p | .grammarCancel p | .prodStart _ p | .prodFinish _ p | .prodCancel _ p
  | .opStart p | .opOp _ p | .opFinish p | .recStart p | .recFinish p | .recCancel p => p ≤ len
  | .token _ b e | .backtracked b e | .error _ b e => b ≤ e ∧ e ≤ len

end Spec

open Spec

theorem nest_append (s : List Opened) (a b : List Ev) : nest s (a ++ b) = (nest s a).bind fun s' => nest s' b := by
  induction a generalizing s with
  | nil => rfl
  | cons e a ih =>
    simp only [List.cons_append, nest]
    cases nestStep s e with
    | none => rfl
    | some s' => exact ih s'

theorem tokens_append (a b : List Ev) : tokens (a ++ b) = tokens a ++ tokens b := by
  induction a with
  | nil => rfl
  | cons e a ih => cases e <;> simp [tokens, ih]

theorem adjacent_append {p q r : Nat} {a b : List (Nat × Nat)} (h1 : Adjacent p a q) (h2 : Adjacent q b r) :
    Adjacent p (a ++ b) r := by
  induction a generalizing p with
  | nil => simp only [Adjacent] at h1; subst h1; exact h2
  | cons x a ih =>
    obtain ⟨b', e⟩ := x
    exact ⟨h1.1, h1.2.1, ih h1.2.2⟩

theorem nest_errors {len : Nat} {es : List Ev} {s : List Opened}
    (h : ∀ ev ∈ es, ∃ tag b e, ev = .error tag b e ∧ b ≤ e ∧ e ≤ len) : nest s es = some s := by
  induction es with
  | nil => rfl
  | cons ev es ih =>
    obtain ⟨_, _, _, rfl, _⟩ := h ev (List.mem_cons_self ..)
    exact ih fun ev hev => h ev (List.mem_cons_of_mem _ hev)

theorem tokens_errors {len : Nat} {es : List Ev}
    (h : ∀ ev ∈ es, ∃ tag b e, ev = .error tag b e ∧ b ≤ e ∧ e ≤ len) : tokens es = [] := by
  induction es with
  | nil => rfl
  | cons ev es ih =>
    obtain ⟨_, _, _, rfl, _⟩ := h ev (List.mem_cons_self ..)
    exact ih fun ev hev => h ev (List.mem_cons_of_mem _ hev)

theorem nest_cancel {len p : Nat} {evs : List Ev} (h : CancelTr len p evs) (s : List Opened) :
    nest s evs = some s := by
  induction h generalizing s with
  | nil => rfl
  | backtracked => rfl
  | prod _ ih => simp [nest, nestStep, nest_append, ih]
  | append _ _ ih1 ih2 => rw [nest_append, ih1]; exact ih2 s

theorem nest_search {len p q : Nat} {evs : List Ev} (h : SearchTr len p q evs) (s : List Opened) :
    nest s evs = some s := by
  induction h with
  | start => rfl
  | cancelled _ hc ih => rw [nest_append, ih]; exact nest_cancel hc s
  | bump _ ih => exact ih

/-- Inside of a chain that started before. -/
def chainBefore (p : Nat) : List Opened → Prop
  | .chain b :: _ => b ≤ p
  | _ => False

theorem TrC.nest_eq {len : Nat} {c : Bool} {p q : Nat} {o : Out} {evs : List Ev} (h : TrC len c p o evs q)
    (hp : p ≤ len) (s : List Opened) (hs : c = true → chainBefore p s) : nest s evs = some s := by
  induction h generalizing s with
  | nil | brk | token | tokenFail | errorFail | error | backtracked => rfl
  | wsFail _ hes =>
    rw [nest_append, nest_errors hes]; rfl
  | cancelled _ h => exact nest_cancel h s
  | seq h1 _ ih1 ih2 | recover h1 _ ih1 ih2 | failAfter h1 _ ih1 ih2 =>
    have hb := h1.bounds hp
    rw [nest_append, ih1 hp s hs]
    refine ih2 hb.2 s fun hc => ?_
    have := hs hc
    unfold chainBefore at this ⊢
    split at this
    · exact Nat.le_trans this hb.1
    · exact this
  | caught _ ih => exact ih hp s hs
  | prod _ h1 ih | prodFail _ h1 ih | recovery h1 ih | recoveryFail h1 ih =>
    have hb := h1.bounds hp
    simp [nest, nestStep, nest_append, ih hp _ (fun h => by cases h), hb.1]
  | chain h1 _ ih =>
    have hb := h1.bounds hp
    have hi := ih hp (.chain _ :: s) (fun _ => Nat.le_refl _)
    simp [nest, nestStep, nest_append, hi, hb.1]
  | op n =>
    have := hs rfl
    unfold chainBefore at this
    split at this
    · simp [nest, nestStep, this]
    · cases this
  | search h _ =>
    have := search_le h
    simp [nest, nestStep, nest_append, nest_search h, this]
  | searchFail _ h _ ih =>
    have := search_le h
    rw [nest_append, ih hp s hs]
    simp [nest, nestStep, nest_append, nest_search h, this]

theorem tokens_cancel {len p : Nat} {evs : List Ev} (h : CancelTr len p evs) : tokens evs = [] := by
  induction h with
  | nil => rfl
  | backtracked => rfl
  | prod _ ih => simp [tokens, tokens_append, ih]
  | append _ _ ih1 ih2 => rw [tokens_append, ih1, ih2]; rfl

theorem tokens_search {len p q : Nat} {evs : List Ev} (h : SearchTr len p q evs) : tokens evs = [] := by
  induction h with
  | start => rfl
  | cancelled _ hc ih => rw [tokens_append, ih, tokens_cancel hc]; rfl
  | bump _ ih => exact ih

theorem TrC.tile {len : Nat} {c : Bool} {p q : Nat} {o : Out} {evs : List Ev} (h : TrC len c p o evs q) :
    Adjacent p (tokens evs) q := by
  induction h with
  | nil | brk | errorFail | error | backtracked | op => rfl
  | token _ h1 _ | tokenFail _ h1 _ => exact ⟨rfl, h1, rfl⟩
  | wsFail _ hes h1 _ =>
    rw [tokens_append, tokens_errors hes]
    exact ⟨rfl, h1, rfl⟩
  | cancelled _ h => rw [tokens_cancel h]; rfl
  | seq _ _ ih1 ih2 | recover _ _ ih1 ih2 | failAfter _ _ ih1 ih2 =>
    rw [tokens_append]; exact adjacent_append ih1 ih2
  | caught _ ih => exact ih
  | prod _ _ ih | prodFail _ _ ih | recovery _ ih | recoveryFail _ ih | chain _ _ ih =>
    simpa [tokens, tokens_append] using ih
  | search h _ =>
    have := search_le h
    simpa [tokens, tokens_append, tokens_search h, Adjacent] using this
  | searchFail _ h _ ih =>
    have := search_le h
    rw [tokens_append]
    refine adjacent_append ih ?_
    simpa [tokens, tokens_append, tokens_search h, Adjacent] using this

theorem evIn_cancel {len p : Nat} {evs : List Ev} (h : CancelTr len p evs) (hp : p ≤ len) :
    ∀ ev ∈ evs, evIn len ev := by
  induction h with
  | nil => simp
  | backtracked h1 h2 => simp [evIn, h1, h2]
  | prod _ ih =>
    intro ev hev
    simp only [List.mem_cons, List.mem_append, List.not_mem_nil, or_false] at hev
    rcases hev with h | h | h
    · subst h; exact hp
    · exact ih ev h
    · subst h; exact hp
  | append _ _ ih1 ih2 =>
    intro ev hev
    rcases List.mem_append.1 hev with h | h
    · exact ih1 ev h
    · exact ih2 ev h

theorem evIn_search {len p q : Nat} {evs : List Ev} (h : SearchTr len p q evs) (hq : q ≤ len) :
    ∀ ev ∈ evs, evIn len ev := by
  induction h with
  | start => simp
  | cancelled _ hc ih =>
    intro ev hev
    rcases List.mem_append.1 hev with h | h
    · exact ih hq ev h
    · exact evIn_cancel hc hq ev h
  | bump _ ih => exact ih (by omega)

theorem TrC.evs_in {len : Nat} {c : Bool} {p q : Nat} {o : Out} {evs : List Ev} (h : TrC len c p o evs q)
    (hp : p ≤ len) : ∀ ev ∈ evs, evIn len ev := by
  induction h with
  | nil | brk => simp
  | token _ h1 h2 | errorFail _ h1 h2 | error _ h1 h2 | tokenFail _ h1 h2 => simp [evIn, h1, h2]
  | backtracked h1 h2 => simp [evIn, h1, h2]
  | op => simpa [evIn] using hp
  | wsFail _ hes h1 h2 =>
    intro ev hev
    rcases List.mem_append.1 hev with h | h
    · obtain ⟨_, _, _, rfl, g1, g2⟩ := hes ev h
      exact ⟨g1, g2⟩
    · rw [List.mem_singleton] at h; subst h; exact ⟨h1, h2⟩
  | cancelled h1 h => exact evIn_cancel h (Nat.le_trans h1 hp)
  | seq h1 _ ih1 ih2 | recover h1 _ ih1 ih2 | failAfter h1 _ ih1 ih2 =>
    intro ev hev
    rcases List.mem_append.1 hev with h | h
    · exact ih1 hp ev h
    · exact ih2 (h1.bounds hp).2 ev h
  | caught _ ih => exact ih hp
  | prod _ h1 ih | prodFail _ h1 ih | recovery h1 ih | recoveryFail h1 ih | chain h1 _ ih =>
    intro ev hev
    simp only [List.mem_cons, List.mem_append, List.not_mem_nil, or_false] at hev
    rcases hev with h | h | h
    · subst h; exact hp
    · exact ih hp ev h
    · subst h; exact (h1.bounds hp).2
  | search h hq =>
    intro ev hev
    have := search_le h
    simp only [List.mem_cons, List.mem_append, List.not_mem_nil, or_false] at hev
    rcases hev with h' | h' | h' | h'
    · subst h'; exact hp
    · exact evIn_search h hq ev h'
    · subst h'; exact ⟨this, hq⟩
    · subst h'; exact hq
  | searchFail h1 h hr ih =>
    intro ev hev
    have := search_le h
    have := (h1.bounds hp).2
    simp only [List.mem_cons, List.mem_append, List.not_mem_nil, or_false] at hev
    rcases hev with h' | h' | h' | h' | h'
    · exact ih hp ev h'
    · subst h'; assumption
    · exact evIn_search h hr ev h'
    · subst h'; constructor <;> assumption
    · subst h'; exact hr

/-! ## The properties -/

/-- A run of the whole grammar. -/
theorem runGrammar_tr {E : Env} {fuel n d : Nat} {r : Res} (h : runGrammar E fuel n d = some r) :
    (∃ evs q, Tr E.inp.length 0 .ok evs q ∧
      r = ⟨.ok, r.st, [.grammarStart 0, .prodStart n 0] ++ (evs ++ [.prodFinish n q, .grammarFinish q])⟩ ∧
        r.st.pos = q) ∨
    (∃ evs q, Tr E.inp.length 0 .fail evs q ∧
      r = ⟨.fail, r.st, [.grammarStart 0, .prodStart n 0] ++ (evs ++ [.prodCancel n q, .grammarCancel q])⟩ ∧
        r.st.pos = q) := by
  unfold runGrammar at h
  obtain ⟨r', h', rfl⟩ := emit_some.1 h
  obtain ⟨r1, r2, h1, h2, rfl⟩ := andThen_some.1 h'
  have ht := trO_onOk' (Nat.zero_le _) (exec_good E fuel _ .ws { pos := 0 } (Nat.zero_le _))
    (fun st _ h2 => exec_good E fuel _ (.run _) st h2) r1 h1
  obtain ⟨o, st, evs⟩ := r1
  cases o with
  | brk => cases h2
  | ok => cases h2; exact .inl ⟨evs, st.pos, ht, rfl, rfl⟩
  | fail => cases h2; exact .inr ⟨evs, st.pos, ht, rfl, rfl⟩

/-- **C35** The events of every parse are well nested, for every grammar and every input: whatever was opened is closed
    exactly once, in LIFO order, by an event of the same production that is not earlier in the input, and operations
    are only reported directly inside of a chain. -/
theorem C35_events_nested {E : Env} {fuel n d : Nat} {r : Res} (h : runGrammar E fuel n d = some r) :
    nest [] r.evs = some [] := by
  rcases runGrammar_tr h with ⟨evs, q, ht, hr, _⟩ | ⟨evs, q, ht, hr, _⟩ <;>
  · have hn := ht.nest_eq (Nat.zero_le _) [.prod n 0, .grammar 0] (fun h => by cases h)
    rw [hr]
    simp [nest, nestStep, nest_append, hn]

/-- **C35** The same for every single rule, in every context: it leaves open what was open before, whether it succeeds,
    fails or breaks. -/
theorem C35_rule_nested {E : Env} {fuel : Nat} {cx : Cx} {rule : Rule} {st : St} {r : Res}
    (h : exec E fuel cx (.run rule) st = some r) (hp : st.pos ≤ E.inp.length) (s : List Opened) :
    nest s r.evs = some s :=
  (exec_good E fuel cx (.run rule) st hp r h).nest_eq hp s (fun h => by cases h)

/-- The hypotheses of the theorems about `runGrammar` are met by parses that succeed with errors and recovery... -/
example : (Ex.obs (runGrammar Ex.missingItem 40 3 10)).map (fun r => (r.1, r.2.1, r.2.2.length)) = some (.ok, 9, 37) := by
  decide +kernel
/-- ... and by parses that fail. -/
example : (Ex.obs (runGrammar Ex.unterminated 40 3 10)).map (fun r => (r.1, r.2.1, tokens r.2.2)) =
    some (.fail, 4, [(0, 0), (0, 1), (1, 1), (1, 2), (2, 3), (3, 3), (3, 4)]) := by
  decide +kernel
/-- The nesting is a real condition. -/
example : nest [] [.prodStart 1 0, .prodStart 2 0, .prodFinish 1 1, .prodFinish 2 1] = none ∧
    nest [] [.prodStart 1 0] ≠ some [] ∧ nest [] [.prodStart 1 0, .opOp 1 0, .prodFinish 1 0] = none := by
  decide

/-- **C36** Every rule leaves the reader between its start and the end of the input, whether it succeeds or fails. -/
theorem C36_reader_forward {E : Env} {fuel : Nat} {cx : Cx} {rule : Rule} {st : St} {r : Res}
    (h : exec E fuel cx (.run rule) st = some r) (hp : st.pos ≤ E.inp.length) :
    st.pos ≤ r.st.pos ∧ r.st.pos ≤ E.inp.length :=
  (exec_good E fuel cx (.run rule) st hp r h).bounds hp

/-- **C36** The positions of all events are inside of the input, and ranges are ranges. -/
theorem C36_events_in_bounds {E : Env} {fuel n d : Nat} {r : Res} (h : runGrammar E fuel n d = some r) :
    ∀ ev ∈ r.evs, evIn E.inp.length ev := by
  rcases runGrammar_tr h with ⟨evs, q, ht, hr, _⟩ | ⟨evs, q, ht, hr, _⟩ <;>
  · have hn := ht.evs_in (Nat.zero_le _)
    have hb := (ht.bounds (Nat.zero_le _)).2
    rw [hr]
    intro ev hev
    simp only [List.mem_cons, List.mem_append, List.not_mem_nil, or_false] at hev
    rcases hev with (h | h) | h | h | h
    · subst h; exact Nat.zero_le _
    · subst h; exact Nat.zero_le _
    · exact hn ev h
    · subst h; exact hb
    · subst h; exact hb

/-- **C36** Deciding on a branch changes nothing; a branch that is not taken leaves everything as it was. -/
theorem C36_branch_not_taken {E : Env} {fuel : Nat} {cx : Cx} {rule : Rule} {st : St} {r r' : Res}
    (h : exec E fuel cx (.btry rule) st = some r) (hp : st.pos ≤ E.inp.length)
    (h' : exec E fuel cx (.bcancel rule) st = some r') : r.st = st ∧ r.evs = [] ∧ r'.st = st ∧ r'.out = .ok :=
  have h1 := exec_good E fuel cx (.btry rule) st hp r h
  have h2 := exec_good E fuel cx (.bcancel rule) st hp r' h'
  ⟨h1.2.1, h1.1, h2.2.1, h2.1⟩

/-- **C37** The token events of a rule are adjacent and cover exactly what the rule consumed. -/
theorem C37_tokens_tile_rule {E : Env} {fuel : Nat} {cx : Cx} {rule : Rule} {st : St} {r : Res}
    (h : exec E fuel cx (.run rule) st = some r) (hp : st.pos ≤ E.inp.length) :
    Adjacent st.pos (tokens r.evs) r.st.pos :=
  (exec_good E fuel cx (.run rule) st hp r h).tile

/-- **C37** The token events of a parse are adjacent and cover exactly the input from its beginning to where the parse
    ended, whether it succeeds or fails. -/
theorem C37_tokens_tile {E : Env} {fuel n d : Nat} {r : Res} (h : runGrammar E fuel n d = some r) :
    Adjacent 0 (tokens r.evs) r.st.pos ∧ r.st.pos ≤ E.inp.length := by
  rcases runGrammar_tr h with ⟨evs, q, ht, hr, hq⟩ | ⟨evs, q, ht, hr, hq⟩ <;>
  · refine ⟨?_, hq ▸ (ht.bounds (Nat.zero_le _)).2⟩
    have := ht.tile
    rw [hq, hr]
    simpa [tokens, tokens_append] using this

/-- The text of a list of ranges. -/
def Spec.textOf (s : List Nat) (ts : List (Nat × Nat)) : List Nat :=
  ts.flatMap fun t => (s.drop t.1).take (t.2 - t.1)

theorem textOf_adjacent (s : List Nat) {p q : Nat} {ts : List (Nat × Nat)} (h : Adjacent p ts q)
    (hq : q ≤ s.length) : textOf s ts = (s.drop p).take (q - p) ∧ p ≤ q := by
  induction ts generalizing p with
  | nil => simp only [Adjacent] at h; subst h; simp [textOf]
  | cons t ts ih =>
    obtain ⟨b, e⟩ := t
    obtain ⟨rfl, h1, h2⟩ := h
    obtain ⟨h3, h4⟩ := ih h2
    refine ⟨?_, Nat.le_trans h1 h4⟩
    simp only [textOf, List.flatMap_cons] at h3 ⊢
    rw [h3]
    have : s.drop e = (s.drop p).drop (e - p) := by rw [List.drop_drop]; congr 1; omega
    rw [this]
    have hlen : q - p = (e - p) + (q - e) := by omega
    rw [hlen, List.take_add]

/-- **C37** The text of the tokens is the consumed input: tokens and remaining input reproduce the input. -/
theorem C37_tokens_text {E : Env} {fuel n d : Nat} {r : Res} (h : runGrammar E fuel n d = some r) :
    textOf E.inp (tokens r.evs) ++ E.inp.drop r.st.pos = E.inp := by
  obtain ⟨h1, h2⟩ := C37_tokens_tile h
  rw [(textOf_adjacent E.inp h1 h2).1]
  simp

/-- Tiling is a real condition. -/
example : ¬ Adjacent 0 [(0, 1), (2, 3)] 3 := by simp [Adjacent]

/-- **C41** A rule that fails has reported an error, inside of the input. -/
theorem C41_rule_fail_error {E : Env} {fuel : Nat} {cx : Cx} {rule : Rule} {st : St} {r : Res}
    (h : exec E fuel cx (.run rule) st = some r) (hp : st.pos ≤ E.inp.length) (hf : r.out = .fail) :
    ∃ tag b e, Ev.error tag b e ∈ r.evs ∧ b ≤ e ∧ e ≤ E.inp.length := by
  have ht := exec_good E fuel cx (.run rule) st hp r h
  obtain ⟨ev, h1, h2⟩ := ht.fail_error hf
  obtain ⟨tag, b, e, rfl, h3, h4⟩ := ht.error_bounds hp ev h1 h2
  exact ⟨tag, b, e, h1, h3, h4⟩

/-- **C41** A parse that fails has reported an error. -/
theorem C41_fail_error {E : Env} {fuel n d : Nat} {r : Res} (h : runGrammar E fuel n d = some r)
    (hf : r.out = .fail) : ∃ tag b e, Ev.error tag b e ∈ r.evs ∧ b ≤ e ∧ e ≤ E.inp.length := by
  rcases runGrammar_tr h with ⟨evs, q, ht, hr, hq⟩ | ⟨evs, q, ht, hr, hq⟩
  · rw [hr] at hf; cases hf
  · obtain ⟨ev, h1, h2⟩ := ht.fail_error rfl
    obtain ⟨tag, b, e, rfl, h3, h4⟩ := ht.error_bounds (Nat.zero_le _) ev h1 h2
    refine ⟨tag, b, e, ?_, h3, h4⟩
    rw [hr]
    simp [h1]

end Verif
