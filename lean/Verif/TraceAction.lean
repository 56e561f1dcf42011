import Verif.TraceProps
import Verif.LocationProps

/-
`lexy::trace`: which location it shows beside every event.

Modelled: class `_th`, action/trace.hpp l.304-435.  The handler keeps one anchor (the beginning of a line and its
number), from which it counts lines and columns; the handler of a production keeps the anchor that was current before
the production started.  Not modelled here: what the writer draws for an event (Visualize.lean models the shared
writing functions).
-/

namespace Verif

/-- The state of `_th`: the current anchor, and the `_previous_anchor` of every open production, innermost first.
    action/trace.hpp l.409-413, l.434. -/
structure TraceSt where
  anchor : Nat × Nat
  saved : List (Nat × Nat)
  deriving DecidableEq, Repr

/-- Which location an event is displayed with; `none` for the events of the grammar, which show nothing, l.322-324.
    For an error it is the position of the error, for a token and a backtracked range the begin, l.367-385. -/
def Ev.shown : Ev → Option Nat
  | .grammarStart _ | .grammarFinish _ | .grammarCancel _ => none
  | .prodStart _ p | .prodFinish _ p | .prodCancel _ p | .opStart p | .opOp _ p | .opFinish p
  | .recStart p | .recFinish p | .recCancel p => some p
  | .token _ b _ | .backtracked b _ | .error _ b _ => some b

/-- What an event does to the anchors, after its location was computed, l.331-333 and l.345-346.  Note that the end of a production
    does not restore the anchor. -/
def TraceSt.update (t : TraceSt) (l : Loc) : Ev → Option TraceSt
  | .prodStart .. => some ⟨l.anchor, t.anchor :: t.saved⟩
  | .prodFinish .. => match t.saved with
    | _ :: ss => some ⟨t.anchor, ss⟩
    | [] => none
  | .prodCancel .. => match t.saved with
    | a :: ss => some ⟨a, ss⟩
    | [] => none
  | _ => some t

/-- `event_handler::on`, l.322-407, for every event in turn.  The result are the locations that are displayed, in
    order.  `none`: `get_input_location` was called with a position that cannot be reached from the anchor, which
    violates its precondition (input_location.hpp l.240-243). -/
def traceRun (c : Counting) (eof : Option Nat) (s : List Nat) : TraceSt → List Ev → Option (List Loc)
  | _, [] => some []
  | t, e :: es => match e.shown with
    | none => traceRun c eof s t es
    | some p => do
      let l ← getLocation c eof s p t.anchor
      let t' ← t.update l e
      let ls ← traceRun c eof s t' es
      some (l :: ls)

/-- `lexy::trace` of a parse with these events: the handler begins with the anchor of the input, l.309-310. -/
def traceShown (c : Counting) (eof : Option Nat) (s : List Nat) (evs : List Ev) : Option (List Loc) :=
  traceRun c eof s ⟨startAnchor, []⟩ evs

/-! ## Anchors -/

/-- A position before the anchor cannot be located. -/
theorem loc_before {c : Counting} {eof : Option Nat} {s : List Nat} {a : Nat × Nat} {q : Nat} (h : q < a.1) :
    getLocation c eof s q a = none := by
  unfold getLocation
  rw [Counting.locLoop, if_neg (by omega)]
  split
  · rfl
  split
  · rfl
  · rw [show minRangeEnd a.1 _ q = none from if_neg (by omega)]
  · rw [show minRangeEnd a.1 _ q = none from if_neg (by omega)]

/-- The line begin of a location lies between the anchor and the position. -/
theorem loc_lb {c : Counting} {eof : Option Nat} (p : Nat) (l : Loc) : ∀ (N pos : Nat) (s : List Nat)
    (lb ln cb cn idx : Nat), s.length = N → lb ≤ pos → c.locLoop eof p pos s lb ln cb cn idx = some l → lb ≤ l.lineBegin := by
  intro N
  induction N using Nat.strongRecOn with
  | _ N ih =>
    intro pos s lb ln cb cn idx hN hlb h
    rw [Counting.locLoop] at h
    split at h
    · cases h; simp
    split at h
    · cases h
    split at h
    · cases h
    · split at h
      · cases h
      split at h
      · cases h; simp
      split at h
      · have := ih _ (by simp; omega) _ _ _ _ _ _ _ rfl (Nat.le_refl _) h
        omega
      · cases h
    · split at h
      · cases h
      split at h
      · cases h; simp
      split at h
      · exact ih _ (by simp; omega) _ _ _ _ _ _ _ rfl (by omega) h
      · cases h

/-- The beginning of the line of a position can be located, and has the same anchor. -/
theorem loc_line_begin {c : Counting} {eof : Option Nat} (s : List Nat) (p : Nat) (l : Loc) :
    ∀ (N pos lb ln cb cn idx : Nat), s.length - pos = N → lb ≤ pos → pos ≤ s.length →
    c.locLoop eof p pos (s.drop pos) lb ln cb cn idx = some l →
    (l.lineBegin = lb ∧ l.lineNr = ln) ∨
    (pos < l.lineBegin ∧
      c.locLoop eof l.lineBegin pos (s.drop pos) lb ln cb cn idx = some ⟨l.lineBegin, l.lineNr, l.lineBegin, 1⟩) := by
  intro N
  induction N using Nat.strongRecOn with
  | _ N ih =>
    intro pos lb ln cb cn idx hN hlb hpos h
    rw [Counting.locLoop] at h
    split at h
    · cases h; exact .inl ⟨rfl, rfl⟩
    rename_i hpp
    split at h
    · cases h
    rename_i hpe
    split at h
    · cases h
    · rename_i n idx' hnl
      split at h
      · cases h
      rename_i m hm
      obtain ⟨m1, m2, m3⟩ := minRangeEnd_eq hm
      split at h
      · cases h; exact .inl ⟨rfl, rfl⟩
      rename_i hmm
      split at h
      · rename_i hn
        have hlen : (s.drop pos).length = s.length - pos := by simp
        have hge := loc_lb p l _ _ _ _ _ _ _ _ rfl (Nat.le_refl _) h
        rw [List.drop_drop] at h
        right
        refine ⟨by omega, ?_⟩
        rw [Counting.locLoop, if_neg (by omega), if_neg hpe, hnl]
        simp only
        rw [minRangeEnd_of m1 (by omega)]
        simp only
        rw [if_neg (by omega), dif_pos hn, List.drop_drop]
        have := ih (s.length - (pos + n)) (by omega) (pos + n) _ _ _ _ _ rfl (Nat.le_refl _) (by omega) h
        rcases this with ⟨e1, e2⟩ | ⟨_, e⟩
        · rw [e1, e2, Counting.locLoop, if_pos rfl]
        · exact e
      · cases h
    · rename_i hnl
      split at h
      · cases h
      rename_i m hm
      obtain ⟨m1, m2, m3⟩ := minRangeEnd_eq hm
      split at h
      · cases h; exact .inl ⟨rfl, rfl⟩
      rename_i hmm
      split at h
      · rename_i hn
        have hlen : (s.drop pos).length = s.length - pos := by simp
        rw [List.drop_drop] at h
        rcases ih _ (by omega) _ _ _ _ _ _ rfl (by omega) (by omega) h with e | ⟨g, e⟩
        · exact .inl e
        · right
          refine ⟨by omega, ?_⟩
          rw [Counting.locLoop, if_neg (by omega), if_neg hpe, hnl]
          simp only
          rw [minRangeEnd_of m1 (by omega)]
          simp only
          rw [if_neg (by omega), dif_pos hn, List.drop_drop]
          exact e
      · cases h

/-- An anchor serves for every position that is not before its line. -/
theorem loc_from_line {c : Counting} {eof : Option Nat} {s : List Nat} {a : Nat × Nat} {p q : Nat} {l : Loc}
    (ha : a.1 ≤ s.length) (h : getLocation c eof s p a = some l) (hq : l.lineBegin ≤ q) :
    getLocation c eof s q l.anchor = getLocation c eof s q a := by
  have h' : ∃ l', getLocation c eof s l.lineBegin a = some l' ∧ l'.anchor = l.anchor := by
    unfold getLocation at h
    rcases loc_line_begin s p l _ _ _ _ _ _ _ rfl (Nat.le_refl _) ha h with ⟨e1, e2⟩ | ⟨_, e⟩
    · refine ⟨⟨a.1, a.2, a.1, 1⟩, ?_, by simp [Loc.anchor, e1, e2]⟩
      unfold getLocation
      rw [Counting.locLoop, if_pos e1.symm]
    · exact ⟨_, e, rfl⟩
  obtain ⟨l', h1, h2⟩ := h'
  rw [← h2]
  exact C23_anchor c eof s a _ _ hq l' h1

/-- Positions on later lines have later line begins. -/
theorem line_mono {c : Counting} {eof : Option Nat} {s : List Nat} {p q : Nat} (hpq : p ≤ q) {l l' : Loc}
    (h : getLocation c eof s p startAnchor = some l) (h' : getLocation c eof s q startAnchor = some l') :
    l.lineBegin ≤ l'.lineBegin := by
  rw [← C23_anchor c eof s _ p q hpq l h] at h'
  exact loc_lb q l' _ _ _ _ _ _ _ _ rfl (Nat.le_refl _) h'

/-! ## Which events can be before an earlier production -/

namespace Spec

/-- Errors, and events of branches that may have been tried. -/
def late : Ev → Bool
  | .error .. | .prodStart .. | .backtracked .. => true
  | _ => false

/-- Where the last production started that was not cancelled, and the same for before every production that is
    still open. -/
def lastStart : Nat × List Nat → List Ev → Nat × List Nat
  | t, [] => t
  | (m, ms), .prodStart _ b :: es => lastStart (b, m :: ms) es
  | (m, ms), .prodFinish .. :: es => lastStart (m, ms.tail) es
  | (m, ms), .prodCancel .. :: es => lastStart (ms.headD m, ms.tail) es
  | t, _ :: es => lastStart t es

/-- Where something begins. -/
def position : Ev → Option Nat
  | .grammarStart _ => none
  | .grammarFinish _ => none
  | .grammarCancel _ => none
  | .prodStart _ begin => some begin
  | .prodFinish _ pos => some pos
  | .prodCancel _ pos => some pos
  | .opStart begin => some begin
  | .opOp _ pos => some pos
  | .opFinish pos => some pos
  | .recStart begin => some begin
  | .recFinish pos => some pos
  | .recCancel pos => some pos
  | .token _ begin _end => some begin
  | .backtracked begin _end => some begin
  | .error _ begin _end => some begin

/-- Every event that is not `late` is not before the start of the last production that was not cancelled; only open
    productions end. -/
def fwd : Nat × List Nat → List Ev → Prop
  | _, [] => True
  | t, e :: es => (late e = false → ∀ p, position e = some p → t.1 ≤ p) ∧
      (∀ n p, e = .prodFinish n p ∨ e = .prodCancel n p → t.2 ≠ []) ∧ fwd (lastStart t [e]) es

end Spec

open Spec

theorem shown_eq (ev : Ev) : ev.shown = position ev := by cases ev <;> rfl

theorem lastStart_append (a b : List Ev) : ∀ t, lastStart t (a ++ b) = lastStart (lastStart t a) b := by
  induction a with
  | nil => intro t; rfl
  | cons e es ih => intro t; cases e <;> simp only [List.cons_append, lastStart, ih]

theorem lastStart_cons (e : Ev) (b : List Ev) (t : Nat × List Nat) : lastStart t (e :: b) = lastStart (lastStart t [e]) b :=
  lastStart_append [e] b t

theorem fwd_append (a b : List Ev) : ∀ t, fwd t (a ++ b) ↔ fwd t a ∧ fwd (lastStart t a) b := by
  induction a with
  | nil => intro t; simp [fwd, lastStart]
  | cons e es ih => intro t; rw [List.cons_append, fwd, fwd, ih, lastStart_cons e es]; simp only [and_assoc]

theorem fwd_cancel {len p : Nat} {evs : List Ev} (h : CancelTr len p evs) :
    ∀ t, fwd t evs ∧ lastStart t evs = t := by
  induction h with
  | nil => intro t; simp [fwd, lastStart]
  | backtracked => intro t; simp [fwd, lastStart, late]
  | prod _ ih =>
    intro t
    obtain ⟨h1, h2⟩ := ih (p, t.1 :: t.2)
    simp [fwd, lastStart, fwd_append, lastStart_append, h1, h2, late, position]
  | append _ _ ih1 ih2 =>
    intro t
    obtain ⟨h1, h2⟩ := ih1 t
    obtain ⟨h3, h4⟩ := ih2 t
    rw [fwd_append, lastStart_append, h2, h4]
    exact ⟨⟨h1, h3⟩, rfl⟩

theorem fwd_search {len p q : Nat} {evs : List Ev} (h : SearchTr len p q evs) :
    p ≤ q ∧ ∀ t, fwd t evs ∧ lastStart t evs = t := by
  induction h with
  | start => refine ⟨Nat.le_refl _, fun t => ?_⟩; simp [fwd, lastStart]
  | cancelled _ hc ih =>
    refine ⟨ih.1, fun t => ?_⟩
    obtain ⟨h1, h2⟩ := ih.2 t
    obtain ⟨h3, h4⟩ := fwd_cancel hc t
    rw [fwd_append, lastStart_append, h2, h4]
    exact ⟨⟨h1, h3⟩, rfl⟩
  | bump _ ih => exact ⟨by have := ih.1; omega, ih.2⟩

theorem TrC.fwd {len : Nat} {c : Bool} {p q : Nat} {o : Out} {evs : List Ev} (h : TrC len c p o evs q)
    (hp : p ≤ len) : ∀ m ms, m ≤ p → fwd (m, ms) evs ∧ ∃ m', m' ≤ q ∧ lastStart (m, ms) evs = (m', ms) := by
  induction h with
  | nil | brk => intro m ms hm; simp [Spec.fwd, lastStart, hm]
  | token _ h1 | tokenFail _ h1 | errorFail | error | backtracked h1 | op =>
    intro m ms hm
    simp [Spec.fwd, lastStart, late, position]
    omega
  | @wsFail c p q es _ hes h1 h2 =>
    intro m ms hm
    have : ∀ es : List Ev, (∀ ev ∈ es, ∃ tag b e, ev = .error tag b e ∧ b ≤ e ∧ e ≤ len) →
        Spec.fwd (m, ms) es ∧ lastStart (m, ms) es = (m, ms) := by
      intro es
      induction es with
      | nil => intro _; simp [Spec.fwd, lastStart]
      | cons e es ih =>
        intro h
        obtain ⟨_, _, _, rfl, _⟩ := h e (by simp)
        simpa [Spec.fwd, lastStart, late] using ih fun ev hev => h ev (by simp [hev])
    obtain ⟨g1, g2⟩ := this es hes
    rw [fwd_append, lastStart_append, g2]
    simp [Spec.fwd, lastStart, position, g1]
    omega
  | cancelled h1 h =>
    intro m ms hm
    obtain ⟨g1, g2⟩ := fwd_cancel h (m, ms)
    exact ⟨g1, m, hm, g2⟩
  | seq h1 _ ih1 ih2 | recover h1 _ ih1 ih2 | failAfter h1 _ ih1 ih2 =>
    intro m ms hm
    obtain ⟨g1, m', g2, g2'⟩ := ih1 hp m ms hm
    obtain ⟨g3, g4⟩ := ih2 (h1.bounds hp).2 m' ms g2
    rw [fwd_append, lastStart_append, g2']
    exact ⟨⟨g1, g3⟩, g4⟩
  | caught _ ih => exact ih hp
  | prod _ h1 ih | prodFail _ h1 ih =>
    intro m ms hm
    obtain ⟨g1, m', g2, g3⟩ := ih hp _ (m :: ms) (Nat.le_refl _)
    have := (h1.bounds hp).1
    simp [Spec.fwd, lastStart, fwd_append, lastStart_append, g1, g3, late, position]
    omega
  | recovery h1 ih | recoveryFail h1 ih | chain h1 _ ih =>
    intro m ms hm
    obtain ⟨g1, m', g2, g3⟩ := ih hp m ms hm
    simp [Spec.fwd, lastStart, fwd_append, lastStart_append, g1, g3, late, position]
    omega
  | search h hq =>
    intro m ms hm
    obtain ⟨g0, g⟩ := fwd_search h
    obtain ⟨g1, g2⟩ := g (m, ms)
    simp [Spec.fwd, lastStart, fwd_append, lastStart_append, g1, g2, late, position]
    omega
  | searchFail h1 h hr ih =>
    intro m ms hm
    obtain ⟨g1, m', g2, g3⟩ := ih hp m ms hm
    obtain ⟨g0, g⟩ := fwd_search h
    obtain ⟨g4, g5⟩ := g (m', ms)
    simp [Spec.fwd, lastStart, fwd_append, lastStart_append, g1, g3, g4, g5, late, position]
    omega

theorem runGrammar_fwd {E : Env} {fuel n d : Nat} {r : Res} (h : runGrammar E fuel n d = some r) : fwd (0, []) r.evs := by
  rcases runGrammar_tr h with ⟨evs, q, ht, hr, _⟩ | ⟨evs, q, ht, hr, _⟩ <;>
  · obtain ⟨g1, m, g2, g3⟩ := ht.fwd (Nat.zero_le _) 0 [0] (Nat.le_refl _)
    rw [hr]
    simp [fwd, lastStart, fwd_append, g1, g3, late, position]
    try omega

/-! ## When tracing works -/

/-- The locations of all positions exist. -/
theorem loc_exists {c : Counting} {eof : Option Nat} {s : List Nat} (hc : c.Ok eof s) (hne : ∀ u ∈ s, eof ≠ some u)
    (p : Nat) (hp : p ≤ s.length) : ∃ l, getLocation c eof s p startAnchor = some l := by
  have text : c.isText → eof ≠ some 0x0A ∧ eof ≠ some 0x0D ∧ Units c.bound s → _ := fun ht h =>
    let ⟨l, h, _⟩ := C22_text c ht eof ⟨h.1, h.2.1⟩ s h.2.2 p hp fun i u _ hu => hne u (List.mem_of_getElem? hu)
    (⟨l, h⟩ : ∃ l, getLocation c eof s p startAnchor = some l)
  cases c with
  | byte w => obtain ⟨h1, rfl⟩ := hc; exact ⟨_, C22_byte w h1 s p hp⟩
  | unit => exact text (by simp [Counting.isText]) hc
  | cp e => exact text (by simp [Counting.isText]) hc

/-- Position `p` is on the line of position `b` or on a later one. -/
def Spec.NotAbove (c : Counting) (eof : Option Nat) (s : List Nat) (b p : Nat) : Prop :=
  ∃ l l', getLocation c eof s b startAnchor = some l ∧ getLocation c eof s p startAnchor = some l' ∧ l.lineNr ≤ l'.lineNr

/-- An anchor serves exactly for the positions that are not on an earlier line. -/
theorem loc_anchor_iff {c : Counting} {eof : Option Nat} {s : List Nat} {b p : Nat} {lb l : Loc}
    (hb : getLocation c eof s b startAnchor = some lb) :
    getLocation c eof s p lb.anchor = some l ↔
      getLocation c eof s p startAnchor = some l ∧ NotAbove c eof s b p := by
  have hlb : lb.lineBegin ≤ b := Nat.le_trans (loc_in_line c eof s b lb _ hb).1 (loc_le c eof b lb _ _ _ _ _ _ _ rfl hb)
  constructor
  · intro h
    have hp : lb.lineBegin ≤ p := by
      rcases Nat.lt_or_ge p lb.lineBegin with hlt | hge
      · rw [loc_before (show p < lb.anchor.1 from hlt)] at h; cases h
      · exact hge
    have h' := h
    rw [loc_from_line (Nat.zero_le _) hb hp] at h'
    refine ⟨h', lb, l, hb, h', ?_⟩
    have := loc_ge c eof p l _ _ _ _ _ _ _ _ rfl h
    simp only [Loc.anchor] at this
    omega
  · rintro ⟨h, lb', l', hb', h', hle⟩
    rw [h] at h'; cases h'
    rw [hb] at hb'; cases hb'
    rw [loc_from_line (Nat.zero_le _) hb, h]
    rcases Nat.lt_or_ge p b with hlt | hge
    · have hlp : l.lineBegin ≤ p := Nat.le_trans (loc_in_line c eof s p l _ h).1 (loc_le c eof p l _ _ _ _ _ _ _ rfl h)
      rw [← C23_anchor c eof s _ p b (by omega) l h] at hb
      have := loc_ge c eof b lb _ _ _ _ _ _ _ _ rfl hb
      simp only [Loc.anchor] at this
      omega
    · omega

/-- The locations of the positions that are to be shown. -/
def Spec.rightLocs (c : Counting) (eof : Option Nat) (s : List Nat) : List Ev → Option (List Loc)
  | [] => some []
  | e :: es => match position e with
    | none => rightLocs c eof s es
    | some p => do
      let l ← getLocation c eof s p startAnchor
      let ls ← rightLocs c eof s es
      some (l :: ls)

/-- The anchors of the handler are those of the positions `m`, `ms`. -/
def AnchorsOf (c : Counting) (eof : Option Nat) (s : List Nat) (t : TraceSt) (m : Nat × List Nat) : Prop :=
  (∃ l, getLocation c eof s m.1 startAnchor = some l ∧ t.anchor = l.anchor) ∧
  t.saved.length = m.2.length ∧
  ∀ (i : Nat) a b, t.saved[i]? = some a → m.2[i]? = some b → ∃ l, getLocation c eof s b startAnchor = some l ∧ a = l.anchor

theorem traceRun_iff {c : Counting} {eof : Option Nat} {s : List Nat} : ∀ (evs : List Ev) (t : TraceSt) (m : Nat × List Nat)
    (ls : List Loc), AnchorsOf c eof s t m → fwd m evs →
    (traceRun c eof s t evs = some ls ↔ rightLocs c eof s evs = some ls ∧
      ∀ pre ev post p, evs = pre ++ ev :: post → position ev = some p → NotAbove c eof s (lastStart m pre).1 p) := by
  intro evs
  induction evs with
  | nil => intro t m ls _ _; simp [traceRun, rightLocs]
  | cons e es ih =>
    intro t m ls ha hf
    have hsplit : (∀ pre ev post p, e :: es = pre ++ ev :: post → position ev = some p → NotAbove c eof s (lastStart m pre).1 p) ↔
        (∀ p, position e = some p → NotAbove c eof s m.1 p) ∧
        ∀ pre ev post p, es = pre ++ ev :: post → position ev = some p → NotAbove c eof s (lastStart (lastStart m [e]) pre).1 p := by
      constructor
      · intro h
        refine ⟨fun p hp => h [] e es p rfl hp, fun pre ev post p h1 h2 => ?_⟩
        rw [← lastStart_cons]
        exact h (e :: pre) ev post p (by simp [h1]) h2
      · rintro ⟨h1, h2⟩ pre ev post p h3 h4
        cases pre with
        | nil => cases h3; exact h1 p h4
        | cons x pre =>
          cases h3
          rw [lastStart_cons]
          exact h2 pre ev post p rfl h4
    rw [hsplit]
    obtain ⟨hf1, hf2, hf3⟩ := hf
    rw [traceRun, rightLocs, shown_eq]
    cases hs : position e with
    | none =>
      have hlast : lastStart m [e] = m := by cases e <;> simp [position] at hs <;> simp [lastStart]
      simp only [hlast] at hf3 ⊢
      rw [ih t m ls ha hf3]
      simp
    | some p =>
      obtain ⟨⟨l0, hl0, ha0⟩, ha1, ha2⟩ := ha
      simp only [Option.bind_eq_bind, Option.bind_eq_some_iff, Option.some.injEq]
      -- the state after the event
      have hnext : ∀ l, getLocation c eof s p startAnchor = some l →
          ∃ t', t.update l e = some t' ∧ AnchorsOf c eof s t' (lastStart m [e]) := by
        intro l hl
        obtain ⟨m, ms⟩ := m
        obtain ⟨a, ss⟩ := t
        cases e with
        | prodStart n b =>
          cases hs
          refine ⟨_, rfl, ⟨l, hl, rfl⟩, congrArg (· + 1) ha1, fun i x y hx hy => ?_⟩
          cases i with
          | zero => cases hx; cases hy; exact ⟨l0, hl0, ha0⟩
          | succ i => exact ha2 i x y hx hy
        | prodFinish n b =>
          cases ms with
          | nil => exact absurd rfl (hf2 n b (.inl rfl))
          | cons m1 ms =>
            cases ss with
            | nil => cases ha1
            | cons a1 ss =>
              refine ⟨_, rfl, ⟨l0, hl0, ha0⟩, Nat.succ.inj ha1, fun i x y hx hy => ha2 (i + 1) x y hx hy⟩
        | prodCancel n b =>
          cases ms with
          | nil => exact absurd rfl (hf2 n b (.inr rfl))
          | cons m1 ms =>
            cases ss with
            | nil => cases ha1
            | cons a1 ss =>
              refine ⟨_, rfl, ha2 0 _ _ rfl rfl, Nat.succ.inj ha1, fun i x y hx hy => ha2 (i + 1) x y hx hy⟩
        | _ => exact ⟨_, rfl, ⟨l0, hl0, ha0⟩, ha1, ha2⟩
      constructor
      · rintro ⟨l, h1, t', h2, ls', h3, rfl⟩
        rw [ha0, loc_anchor_iff hl0] at h1
        obtain ⟨t'', h4, h5⟩ := hnext l h1.1
        rw [h2] at h4; cases h4
        obtain ⟨h6, h7⟩ := (ih t' _ ls' h5 hf3).1 h3
        exact ⟨⟨l, h1.1, ls', h6, rfl⟩, (fun p' hp' => by cases hp'; exact h1.2), h7⟩
      · rintro ⟨⟨l, h1, ls', h6, rfl⟩, h7, h8⟩
        obtain ⟨t', h4, h5⟩ := hnext l h1
        refine ⟨l, ?_, t', h4, ls', (ih t' _ ls' h5 hf3).2 ⟨h6, h8⟩, rfl⟩
        rw [ha0, loc_anchor_iff hl0]
        exact ⟨h1, h7 p rfl⟩

theorem fwd_split {pre post : List Ev} {ev : Ev} : ∀ {m : Nat × List Nat}, fwd m (pre ++ ev :: post) → late ev = false → ∀ p,
    position ev = some p → (lastStart m pre).1 ≤ p := by
  induction pre with
  | nil => intro m h hl p hp; exact h.1 hl p hp
  | cons e es ih =>
    intro m h hl p hp
    rw [lastStart_cons]
    exact ih h.2.2 hl p hp

/-- A later position is on the same or on a later line. -/
theorem notAbove_le {c : Counting} {eof : Option Nat} {s : List Nat} {b p : Nat} {l l' : Loc} (h : b ≤ p)
    (hb : getLocation c eof s b startAnchor = some l) (hp : getLocation c eof s p startAnchor = some l') :
    NotAbove c eof s b p := by
  refine ⟨l, l', hb, hp, ?_⟩
  rw [← C23_anchor c eof s _ b p h l hb] at hp
  have := loc_ge c eof p l' _ _ _ _ _ _ _ _ rfl hp
  simp only [Loc.anchor] at this
  omega

theorem shown_le {len p : Nat} {ev : Ev} (h : evIn len ev) (hp : position ev = some p) : p ≤ len := by
  cases ev <;> simp only [evIn, position, Option.some.injEq] at h hp <;> first | omega | (cases hp; assumption) | cases hp

theorem rightLocs_some {c : Counting} {eof : Option Nat} {s : List Nat}
    (hl : ∀ p, p ≤ s.length → ∃ l, getLocation c eof s p startAnchor = some l) : ∀ evs : List Ev,
    (∀ ev ∈ evs, evIn s.length ev) → ∃ ls, rightLocs c eof s evs = some ls := by
  intro evs
  induction evs with
  | nil => intro _; exact ⟨[], rfl⟩
  | cons e es ih =>
    intro h
    obtain ⟨ls, h1⟩ := ih fun ev hev => h ev (by simp [hev])
    rw [rightLocs]
    split
    · exact ⟨ls, h1⟩
    · rename_i p hp
      obtain ⟨l, h2⟩ := hl p (shown_le (h e (by simp)) hp)
      exact ⟨l :: ls, by simp [h1, h2]⟩

/-- **C56** Whatever the events are: if tracing gets through, it shows every event beside the location of its position;
    and it gets through if and only if no event is on an earlier line than the start of the last production that
    started before it and was not cancelled. -/
theorem C56_trace_iff_partial {E : Env} {fuel n d : Nat} {r : Res} {c : Counting} {ls : List Loc}
    (hc : c.Ok E.eof E.inp) (hne : ∀ u ∈ E.inp, E.eof ≠ some u) (h : runGrammar E fuel n d = some r) :
    traceShown c E.eof E.inp r.evs = some ls ↔ rightLocs c E.eof E.inp r.evs = some ls ∧
      ∀ pre ev post p, r.evs = pre ++ ev :: post → late ev = true → position ev = some p →
        NotAbove c E.eof E.inp (lastStart (0, []) pre).1 p := by
  have hf := runGrammar_fwd h
  have hin := C36_events_in_bounds h
  have hl := loc_exists hc hne
  obtain ⟨l0, hl0⟩ := hl 0 (Nat.zero_le _)
  have ha : AnchorsOf c E.eof E.inp ⟨startAnchor, []⟩ (0, []) := by
    refine ⟨⟨⟨0, 1, 0, 1⟩, ?_, rfl⟩, rfl, nofun⟩
    simp [getLocation, startAnchor, Counting.locLoop]
  rw [traceShown, traceRun_iff _ _ _ _ ha hf]
  refine and_congr_right fun _ => ⟨fun h1 pre ev post p h2 _ h3 => h1 pre ev post p h2 h3, fun h1 pre ev post p h2 h3 => ?_⟩
  cases hlate : late ev with
  | true => exact h1 pre ev post p h2 hlate h3
  | false =>
    have hle := fwd_split (h2 ▸ hf) hlate p h3
    have hp := shown_le (hin ev (h2 ▸ by simp)) h3
    obtain ⟨l, g1⟩ := hl _ (Nat.le_trans hle hp)
    obtain ⟨l', g2⟩ := hl p hp
    exact notAbove_le hle g1 g2

theorem lastStart_le {len : Nat} : ∀ (es : List Ev) (t : Nat × List Nat), t.1 ≤ len → (∀ x ∈ t.2, x ≤ len) →
    (∀ ev ∈ es, evIn len ev) → (lastStart t es).1 ≤ len := by
  intro es
  induction es with
  | nil => intro t h _ _; exact h
  | cons e es ih =>
    rintro ⟨m, ms⟩ h1 h2 h3
    rw [lastStart_cons]
    have h4 := h3 e (by simp)
    have h5 : ∀ ev ∈ es, evIn len ev := fun ev hev => h3 ev (by simp [hev])
    cases e with
    | prodStart n b =>
      exact ih (b, m :: ms) h4 (by simpa [h1] using h2) h5
    | prodFinish n b => exact ih (m, ms.tail) h1 (fun x hx => h2 x (List.mem_of_mem_tail hx)) h5
    | prodCancel n b =>
      refine ih (ms.headD m, ms.tail) ?_ (fun x hx => h2 x (List.mem_of_mem_tail hx)) h5
      cases ms with
      | nil => exact h1
      | cons x xs => exact h2 x (by simp)
    | _ => exact ih (m, ms) h1 h2 h5

/-- **C56** On an input without line feeds, tracing works for every grammar, and shows every event beside the location of
    its position. -/
theorem C56_one_line_partial {E : Env} {fuel n d : Nat} {r : Res} {c : Counting} (ht : c.isText)
    (hc : c.Ok E.eof E.inp) (hne : ∀ u ∈ E.inp, E.eof ≠ some u) (hlf : 0x0A ∉ E.inp) (h : runGrammar E fuel n d = some r) :
    ∃ ls, traceShown c E.eof E.inp r.evs = some ls ∧ rightLocs c E.eof E.inp r.evs = some ls := by
  have hin := C36_events_in_bounds h
  have hl := loc_exists hc hne
  obtain ⟨ls, h1⟩ := rightLocs_some hl r.evs hin
  refine ⟨ls, (C56_trace_iff_partial hc hne h).2 ⟨h1, fun pre ev post p h2 h3 h4 => ?_⟩, h1⟩
  have hok : E.eof ≠ some 0x0A ∧ E.eof ≠ some 0x0D ∧ Units c.bound E.inp := by
    cases c with
    | byte w => cases ht
    | unit => exact hc
    | cp e => exact hc
  have one : ∀ p, p ≤ E.inp.length → ∃ l, getLocation c E.eof E.inp p startAnchor = some l ∧ l.lineNr = 1 := by
    intro p hp
    obtain ⟨l, g1, g2⟩ := C22_text c ht E.eof ⟨hok.1, hok.2.1⟩ E.inp hok.2.2 p hp fun i u _ hu =>
      hne u (List.mem_of_getElem? hu)
    refine ⟨l, g1, ?_⟩
    rw [g2.line, List.count_eq_zero.2 fun hm => hlf (List.mem_of_mem_take hm)]
  have hb : (lastStart (0, []) pre).1 ≤ E.inp.length := by
    exact lastStart_le pre (0, []) (Nat.zero_le _) nofun fun ev hev => hin ev (h2 ▸ by simp [hev])
  obtain ⟨l, g1, g2⟩ := one _ hb
  obtain ⟨l', g3, g4⟩ := one p (shown_le (hin ev (h2 ▸ by simp)) h4)
  exact ⟨l, l', g1, g3, by omega⟩

namespace Ex

/-- A combination of `a` followed by a digit, and `b`; the digit is a production; line feeds are whitespace. -/
def dupLines : Nat → ProdDef
  | 0 => { rule := .comb 31 [.br (.tok (lit 7 17 [97])) (.prod 1), .tok (lit 8 18 [98])] .none,
           ws := some (.tok (oneOf 6 16 [10])) }
  | _ => { rule := digit }

/-- `a1a⏎2b` -/
def dupInput : Env := env [97, 49, 97, 10, 50, 98] dupLines

/-- `a1⏎b` -/
def twoLines : Env := env [97, 49, 10, 98] dupLines

end Ex

/-- **C56** is violated: an error whose range begins on an earlier line than a production that already finished.
    The second `a` of the combination is a duplicate; the error is reported after its digit, a production on the next
    line, and the search for the location of the error begins on that next line. -/
theorem C56_refuted : ∃ r, runGrammar Ex.dupInput 30 0 10 = some r ∧ .error 31 2 5 ∈ r.evs ∧
    traceShown .unit none Ex.dupInput.inp r.evs = none ∧
    getLocation .unit none Ex.dupInput.inp 2 startAnchor = some ⟨0, 1, 2, 3⟩ := by
  refine ⟨_, rfl, ?_, ?_, ?_⟩ <;> decide +kernel

/-- The hypotheses can be met, also on several lines: the error-free parse of `a1⏎b` is traced. -/
example : ∃ r, runGrammar Ex.twoLines 30 0 10 = some r ∧
    (traceShown .unit none Ex.twoLines.inp r.evs).map List.getLast? = some (some ⟨3, 2, 4, 2⟩) := by
  refine ⟨_, rfl, ?_⟩
  decide +kernel

example : Counting.Ok .unit none Ex.twoLines.inp ∧ ∀ u ∈ Ex.twoLines.inp, none ≠ some u := by
  refine ⟨⟨by simp, by simp, ?_⟩, by simp⟩
  simp [Units, Ex.twoLines, Ex.env, Counting.bound]

/-- … and on one line, with an error. -/
example : ∃ r, runGrammar Ex.unterminated 40 3 10 = some r ∧ r.evs.any Ev.isError = true ∧ 0x0A ∉ Ex.unterminated.inp ∧
    (traceShown .unit none Ex.unterminated.inp r.evs).isSome = true := by
  refine ⟨_, rfl, ?_, by decide, ?_⟩ <;> decide +kernel

end Verif
