import Verif.Inputs
import Verif.BufferProps
import Verif.ArgvProps

/-
C91: all inputs over memory of the user behave as the text they refer to.
-/

namespace Verif.Inp

namespace Spec
open Verif.Spec

/-- The text `cs` begins at `at_` in memory. -/
def Holds (mem : List (Option Nat)) (at_ : Nat) (cs : List Nat) : Prop :=
  ∀ i, i < cs.length → mem[at_ + i]? = some cs[i]?

/-- Positions of a text that begins at `off`. -/
def shift (off : Nat) : RObs → RObs
  | .pos p => .pos (off + p)
  | o => o

end Spec

theorem Spec.Holds.lt {mem : List (Option Nat)} {at_ : Nat} {cs : List Nat} (h : Spec.Holds mem at_ cs) {i : Nat}
    (hi : i < cs.length) : at_ + i < mem.length := by
  have := h i hi
  by_cases hlt : at_ + i < mem.length
  · exact hlt
  · rw [List.getElem?_eq_none (by omega)] at this; cases this

theorem Spec.Holds.cell {mem : List (Option Nat)} {at_ : Nat} {cs : List Nat} (h : Spec.Holds mem at_ cs) {i : Nat}
    (hi : i < cs.length) : Verif.cell mem (at_ + i) = cs[i]? := by
  rw [Verif.cell, h i hi]; rfl

/-- The simulation between the reader over memory and the one of the text. -/
theorem run_text (e : BEnc) (mem : List (Option Nat)) (r : Range) (cs : List Nat)
    (hr : r.last = r.first + cs.length) (hm : Spec.Holds mem r.first cs) (ops : List ROp)
    (hops : ∀ op ∈ ops, Verif.Spec.plainOp op = true) :
    ∀ (s : RSt), s.In cs.length →
      run e mem r ⟨r.first + s.pos, s.marks.map (r.first + ·)⟩ ops =
        (runOps (Verif.Spec.rangeStep e cs) s ops).map (·.map (Spec.shift r.first)) := by
  induction ops with
  | nil => intro s _; rfl
  | cons op ops ih =>
    intro s hs
    have ih := ih fun op h => hops op (List.mem_cons_of_mem _ h)
    have hop := hops op List.mem_cons_self
    have hp := hs.1
    simp only [run, runOps]
    cases op <;> simp only [Verif.Spec.plainOp, Bool.false_eq_true] at hop
    case peek =>
      simp only [step, Verif.Spec.rangeStep, Option.bind_some, hr]
      by_cases hq : s.pos = cs.length
      · rw [if_pos (by omega), Option.bind_some, ih s hs]
        simp [hq, Spec.shift, Function.comp_def]
      · have hlt : s.pos < cs.length := by omega
        rw [if_neg (by omega), hm.cell hlt, List.getElem?_eq_getElem hlt]
        simp only [Option.map_some, Option.bind_some, ih s hs]
        simp [Spec.shift, Function.comp_def]
    case bump =>
      simp only [step, Verif.Spec.rangeStep, hr]
      by_cases hq : s.pos = cs.length
      · rw [if_pos (by omega), if_neg (by omega)]; rfl
      · have hlt : s.pos < cs.length := by omega
        have h2 := hm.lt hlt
        rw [if_neg (by omega), if_pos h2, if_pos hlt]
        have := ih {s with pos := s.pos + 1} ⟨by dsimp only; omega, hs.2⟩
        simp only [Option.bind_some]
        simp only [Nat.add_assoc] at this ⊢
        rw [this]
        simp [Spec.shift, Function.comp_def]
    case mark =>
      simp only [step, Verif.Spec.rangeStep, Option.bind_some]
      have := ih {s with marks := s.marks ++ [s.pos]} ⟨hs.1, fun p hp' => by
        rcases List.mem_append.1 hp' with h | h
        · exact hs.2 p h
        · simp only [List.mem_cons, List.not_mem_nil, or_false] at h; subst h; exact hs.1⟩
      simp only [List.map_append, List.map_cons, List.map_nil] at this
      rw [this]
      simp [Spec.shift, Function.comp_def]
    case reset i =>
      simp only [step, Verif.Spec.rangeStep, List.getElem?_map]
      cases hg : s.marks[i]? with
      | none => rfl
      | some p =>
        have hpl := hs.2 p (List.mem_of_getElem? hg)
        have := ih {s with pos := p} ⟨hpl, hs.2⟩
        simp only [Option.map_some, Option.bind_some, precedes, hr]
        rw [if_pos (by simp; right; omega)]
        simp only [Option.bind_some]
        rw [this]
        simp [Spec.shift, Function.comp_def]

/-- C91: a reader over `[first, last)` reports exactly what reading the text there does, its
    positions being those in memory; this holds for every category of iterators, encoding, and
    sequence of operations, and what moves past the end violates a precondition. -/
theorem C91_range (e : BEnc) (mem : List (Option Nat)) (ra : Bool) (first : Nat) (cs : List Nat)
    (hm : Spec.Holds mem first cs) (ops : List ROp) (hops : ∀ op ∈ ops, Verif.Spec.plainOp op = true) :
    read e mem (range ra first (first + cs.length)) ops =
      (Verif.Spec.readRange e cs ops).map (·.map (Spec.shift first)) := by
  have := run_text e mem (range ra first (first + cs.length)) cs rfl hm ops hops {} ⟨Nat.zero_le _, nofun⟩
  have hrd : reader (range ra first (first + cs.length)) = some ⟨first, []⟩ := by
    have : precedes ra first (first + cs.length) = true := by simp [precedes]
    simp only [reader, range, this, if_true]
  simp only [read, hrd, Option.bind_some]
  exact this

/-- C91: both pointer constructors of `string_input`, and so the view constructor, which stores the
    same. -/
theorem C91_string (e : BEnc) (mem : List (Option Nat)) (data : Nat) (cs : List Nat)
    (hm : Spec.Holds mem data cs) (ops : List ROp) (hops : ∀ op ∈ ops, Verif.Spec.plainOp op = true) :
    read e mem (string data cs.length) ops = (Verif.Spec.readRange e cs ops).map (·.map (Spec.shift data)) ∧
    (cs.length < 2 ^ 64 →
      read e mem (stringOf data (data + cs.length)) ops =
        (Verif.Spec.readRange e cs ops).map (·.map (Spec.shift data))) := by
  refine ⟨C91_range e mem true data cs hm ops hops, fun hl => ?_⟩
  have : stringOf data (data + cs.length) = string data cs.length := by
    simp only [stringOf, string, Range.mk.injEq, and_true, true_and]
    omega
  rw [this]
  exact C91_range e mem true data cs hm ops hops

/-- C91: a default constructed `string_input` reads as the empty text and never accesses memory. -/
theorem C91_default (e : BEnc) (ops : List ROp) (hops : ∀ op ∈ ops, Verif.Spec.plainOp op = true) :
    read e [] stringDefault ops = Verif.Spec.readRange e [] ops := by
  have h := C91_range e [] true 0 [] (fun i hi => by simp at hi) ops hops
  have hz : ∀ l : List RObs, l.map (Spec.shift 0) = l := by
    intro l
    induction l with
    | nil => rfl
    | cons o l ih => rw [List.map_cons, ih]; cases o <;> simp [Spec.shift]
  have hid : (fun l : List RObs => l.map (Spec.shift 0)) = id := funext hz
  have heq : stringDefault = range true 0 (0 + ([] : List Nat).length) := rfl
  rw [heq, h, hid]
  simp

theorem zend_eq (mem : List (Option Nat)) (cs : List Nat) : ∀ (p n : Nat), Spec.Holds mem p (cs ++ [0]) →
    0 ∉ cs → cs.length < n → zend mem p n = some (p + cs.length) := by
  induction cs with
  | nil =>
    intro p n hm _ hn
    obtain ⟨n, rfl⟩ : ∃ m, n = m + 1 := ⟨n - 1, by simp at hn; omega⟩
    have := hm.cell (i := 0) (by simp)
    simp only [Nat.add_zero] at this
    simp [zend, this]
  | cons c cs ih =>
    intro p n hm hz hn
    obtain ⟨n, rfl⟩ : ∃ m, n = m + 1 := ⟨n - 1, by simp at hn; omega⟩
    have h0 := hm.cell (i := 0) (by simp)
    simp only [Nat.add_zero] at h0
    have hc : c ≠ 0 := fun h => hz (h ▸ List.mem_cons_self)
    have hm' : Spec.Holds mem (p + 1) (cs ++ [0]) := fun i hi => by
      have := hm (i + 1) (by simpa using hi)
      rw [show p + 1 + i = p + (i + 1) by omega, this]
      simp
    have := ih (p + 1) n hm' (fun h => hz (List.mem_cons_of_mem _ h)) (by simp at hn; omega)
    simp only [zend, h0, List.cons_append, List.getElem?_cons_zero, Option.bind_some, hc, ne_eq,
      not_false_eq_true, if_true, this, List.length_cons]
    congr 1; omega

/-- C91: `zstring_input` is the text before the first NUL, even if more characters follow. -/
theorem C91_zstring (e : BEnc) (mem : List (Option Nat)) (str : Nat) (cs : List Nat)
    (hm : Spec.Holds mem str (cs ++ [0])) (hz : 0 ∉ cs) (hl : cs.length < 2 ^ 64) (ops : List ROp)
    (hops : ∀ op ∈ ops, Verif.Spec.plainOp op = true) :
    ∃ r, zstring mem str = some r ∧
      read e mem r ops = (Verif.Spec.readRange e cs ops).map (·.map (Spec.shift str)) := by
  have hlt := hm.lt (i := cs.length) (by simp)
  have hm' : Spec.Holds mem str cs := fun i hi => by
    rw [hm i (by simp; omega), List.getElem?_append_left hi]
  exact ⟨_, by rw [zstring, zend_eq mem cs str (mem.length + 1) hm hz (by omega)]; rfl,
    (C91_string e mem str cs hm' ops hops).2 hl⟩

theorem zend_none (mem : List (Option Nat)) : ∀ (n p : Nat), (∀ i, p ≤ i → i < mem.length → mem[i]? ≠ some (some 0)) →
    zend mem p n = none := by
  intro n
  induction n with
  | zero => intro p _; rfl
  | succ n ih =>
    intro p h
    simp only [zend]
    cases hc : cell mem p with
    | none => rfl
    | some c =>
      have hp : p < mem.length := by
        by_cases hlt : p < mem.length
        · exact hlt
        · rw [cell, List.getElem?_eq_none (by omega)] at hc; cases hc
      have h0 : c ≠ 0 := fun h0 => h p (Nat.le_refl _) hp (by
        rw [cell] at hc
        cases hm : mem[p]? with
        | none => rw [hm] at hc; cases hc
        | some x => rw [hm] at hc; simp only [Option.join_some] at hc; rw [hc, h0])
      simp only [Option.bind_some, ne_eq, h0, not_false_eq_true, if_true]
      exact ih (p + 1) fun i hi => h i (by omega)

/-- C91: without a NUL, `zstring_input` leaves the memory. -/
theorem C91_zstring_unterminated (mem : List (Option Nat)) (str : Nat)
    (h : ∀ i, str ≤ i → i < mem.length → mem[i]? ≠ some (some 0)) : zstring mem str = none := by
  rw [zstring, zend_none mem _ str h]; rfl

/-- C91: a `lexeme_input` reads as the part of its parent that the lexeme covers; its positions are
    positions of the parent.  The parent may itself be a `lexeme_input`. -/
theorem C91_lexeme (e : BEnc) (mem : List (Option Nat)) (p : Input) (cs : List Nat)
    (hp : p.range.last = p.range.first + cs.length) (hm : Spec.Holds mem p.range.first cs)
    (b n : Nat) (hb : b + n ≤ cs.length) (ops : List ROp) (hops : ∀ op ∈ ops, Verif.Spec.plainOp op = true) :
    (Input.lexeme p (p.range.first + b) (p.range.first + b + n)).read e mem ops =
      (Verif.Spec.readRange e ((cs.drop b).take n) ops).map (·.map (Spec.shift (p.range.first + b))) := by
  have hl : ((cs.drop b).take n).length = n := by simp; omega
  have hm' : Spec.Holds mem (p.range.first + b) ((cs.drop b).take n) := fun i hi => by
    rw [hl] at hi
    rw [Nat.add_assoc, hm (b + i) (by omega), List.getElem?_take_of_lt hi, List.getElem?_drop]
  have := C91_range e mem p.ra (p.range.first + b) _ hm' ops hops
  rw [hl] at this
  exact this

/-- The reader of a text after some operations. -/
def after (e : BEnc) (mem : List (Option Nat)) (r : Range) (s : Rd) : List ROp → Option Rd
  | [] => some s
  | op :: ops => (step e mem r s op).bind fun (s, _) => after e mem r s ops

/-- The position is one of the text after any sequence of operations. -/
theorem after_in (e : BEnc) (mem : List (Option Nat)) (r : Range) (ops : List ROp) :
    ∀ (s s' : Rd), r.first ≤ s.cur → s.cur ≤ r.last → (∀ p ∈ s.marks, r.first ≤ p ∧ p ≤ r.last) →
      after e mem r s ops = some s' → r.first ≤ s'.cur ∧ s'.cur ≤ r.last := by
  induction ops with
  | nil => intro s s' h1 h2 _ h; cases h; exact ⟨h1, h2⟩
  | cons op ops ih =>
    intro s s' h1 h2 hm h
    obtain ⟨⟨s1, o⟩, hs, h⟩ := Option.bind_eq_some_iff.1 h
    cases op <;> simp only [step] at hs
    case peek =>
      split at hs
      · cases hs; exact ih _ _ h1 h2 hm h
      · obtain ⟨c, _, hc⟩ := Option.map_eq_some_iff.1 hs
        cases hc; exact ih _ _ h1 h2 hm h
    case bump =>
      split at hs
      · cases hs
      · split at hs
        · cases hs
          have h : after e mem r ⟨s.cur + 1, s.marks⟩ ops = some s' := h
          exact ih ⟨s.cur + 1, s.marks⟩ _ (by dsimp only; omega) (by dsimp only; omega) hm h
        · cases hs
    case mark =>
      cases hs
      have h : after e mem r ⟨s.cur, s.marks ++ [s.cur]⟩ ops = some s' := h
      refine ih ⟨s.cur, s.marks ++ [s.cur]⟩ _ h1 h2 (fun p hp => ?_) h
      rcases List.mem_append.1 hp with hp | hp
      · exact hm p hp
      · simp only [List.mem_cons, List.not_mem_nil, or_false] at hp; subst hp; exact ⟨h1, h2⟩
    case reset i =>
      obtain ⟨p, hp, hq⟩ := Option.bind_eq_some_iff.1 hs
      split at hq
      · cases hq
        have := hm p (List.mem_of_getElem? hp)
        have h : after e mem r ⟨p, s.marks⟩ ops = some s' := h
        exact ih ⟨p, s.marks⟩ _ this.1 this.2 hm h
      · cases hq
    all_goals cases hs

/-- C91: whatever was read before, `partial_input(reader, end)` reads the text from the position of
    the reader to `end`, provided that `end` is not before that position. -/
theorem C91_partial_input (e : BEnc) (mem : List (Option Nat)) (ra : Bool) (first : Nat) (cs : List Nat)
    (hm : Spec.Holds mem first cs) (before : List ROp) (s : Rd)
    (h : after e mem (range ra first (first + cs.length)) ⟨first, []⟩ before = some s) (n : Nat)
    (h1 : s.cur ≤ first + n) (h2 : n ≤ cs.length) (ops : List ROp) (hops : ∀ op ∈ ops, Verif.Spec.plainOp op = true) :
    read e mem (partialInput (range ra first (first + cs.length)) s (first + n)) ops =
      (Verif.Spec.readRange e ((cs.take n).drop (s.cur - first)) ops).map (·.map (Spec.shift s.cur)) := by
  have hin := after_in e mem _ before ⟨first, []⟩ s (Nat.le_refl _) (by simp [range]) nofun h
  simp only [range] at hin
  have hl : ((cs.take n).drop (s.cur - first)).length = n - (s.cur - first) := by simp; omega
  have hm' : Spec.Holds mem s.cur ((cs.take n).drop (s.cur - first)) := fun i hi => by
    rw [hl] at hi
    have := hm (s.cur - first + i) (by omega)
    rw [show s.cur + i = first + (s.cur - first + i) by omega, this, List.getElem?_drop,
      List.getElem?_take_of_lt (by omega)]
  have := C91_range e mem ra s.cur _ hm' ops hops
  rw [hl, show s.cur + (n - (s.cur - first)) = first + n by omega] at this
  exact this

/-- C91: the documentation of `lexeme_input`: "`error_context` will return the parent input.  That
    way, any calls to `get_input_location` will result in the correct line/column information for the
    entire input".  This is what happens if the parent is not itself a `lexeme_input`: the location
    of every position is the one in the whole text. -/
theorem C91_context_partial (c : Counting) (eof : Option Nat) (pre cs post : List Nat) (ra : Bool) (b l pos : Nat)
    (hpos : pre.length ≤ pos) :
    ((Input.lexeme (.view (range ra pre.length (pre.length + cs.length))) b l).context).location c eof
      (pre ++ cs ++ post) pos = getLocation c eof cs (pos - pre.length) startAnchor := by
  simp [Input.context, Input.location, Input.text, Input.range, range]

/-- C91: a `lexeme_input` of a `lexeme_input` is not: of the inputs around it only one is left, so the
    second line of the text is called the first one. -/
theorem C91_context_refuted : ¬ ∀ (c : Counting) (eof : Option Nat) (cs : List Nat) (b l b' l' pos : Nat),
    b ≤ b' → b' ≤ pos → pos ≤ l' → l' ≤ l → l ≤ cs.length →
    ((Input.lexeme (.lexeme (.view (range true 0 cs.length)) b l) b' l').context).location c eof cs pos =
      getLocation c eof cs pos startAnchor := by
  intro h
  have := h .unit none [0x61, 0x0A, 0x62, 0x63] 2 4 3 4 3 (by decide) (by decide) (by decide) (by decide) (by decide)
  revert this
  decide +kernel

-- The text "ab" after one other character, and a lexeme in it.
example : Spec.Holds [some 7, some 97, some 98, some 0] 1 [97, 98] := by unfold Spec.Holds; decide
example : read .default [some 7, some 97, some 98, some 0] (string 1 2) [.peek, .bump, .bump, .peek]
    = some [.char (some 97), .pos 2, .pos 3, .char none] := by decide
example : (zstring [some 7, some 97, some 98, some 0, some 99] 1).map (·.last) = some 3 := by decide
example : (Input.lexeme (.view (string 1 2)) 2 3).read .utf8 [some 7, some 97, some 98, some 0]
    [.peek, .bump, .peek] = some [.char (some 98), .pos 3, .char (some 0xFF)] := by decide
example : read .default [some 97, some 98] (string 0 1) [.bump, .bump] = none := by decide

end Verif.Inp
