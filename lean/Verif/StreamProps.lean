import Verif.Stream
import Verif.BufferProps

/-
C29 (reading a stream or a file returns all of it) and C58 (interactive shell input).
-/

namespace Verif

/-! ### C29: the builder -/

namespace Spec

/-- What a growable buffer of the given capacity holds. -/
def builderStep (s : List Nat × Nat) : BB.Op → Option (List Nat × Nat)
  | .append cs => if s.1.length + cs.length ≤ s.2 then some (s.1 ++ cs, s.2) else none
  | .clear => some ([], s.2)
  | .grow => some (s.1, 2 * s.2)

def builderRun (s : List Nat × Nat) : List BB.Op → Option (List Nat × Nat)
  | [] => some s
  | op :: ops => (builderStep s op).bind (builderRun · ops)

/-- The contents of the read area. -/
def Reads (b : BB) (cs : List Nat) : Prop :=
  b.readSize = cs.length ∧ ∀ i < cs.length, b.deref i = cs[i]?

end Spec

namespace BB

/-- The builder holds these characters. -/
structure Rep (b : BB) (l : List Nat) : Prop where
  size : b.readSize = l.length
  cap : b.readSize + b.writeSize = b.data.length
  area : b.data.take b.readSize = l.map some

theorem rep_init : Rep (init 1) [] := ⟨rfl, by simp [init], rfl⟩

theorem Rep.append {b : BB} {l : List Nat} (h : Rep b l) (cs : List Nat)
    (hc : cs.length ≤ b.writeSize) :
    ∃ b', (b.write cs).bind (·.commit cs.length) = some b' ∧ Rep b' (l ++ cs)
      ∧ b'.writeSize = b.writeSize - cs.length ∧ b'.capacity = b.capacity := by
  have hs := h.size
  have hcap := h.cap
  refine ⟨⟨b.data.take b.readSize ++ cs.map some ++ b.data.drop (b.readSize + cs.length),
    b.readSize + cs.length, b.writeSize - cs.length⟩, ?_, ⟨?_, ?_, ?_⟩, rfl, ?_⟩
  · simp only [write, hc, true_and]
    rw [if_pos (by omega)]
    simp [commit, hc]
  · simp [hs]
  · simp only [List.length_append, List.length_take, List.length_map, List.length_drop]; omega
  · dsimp only
    rw [List.take_append_of_le_length (by simp; omega), List.take_of_length_le (by simp; omega),
      h.area, List.map_append]
  · simp only [capacity]; omega

theorem Rep.clear {b : BB} {l : List Nat} (h : Rep b l) : Rep b.clear [] :=
  ⟨rfl, by have := h.cap; simp only [BB.clear]; omega, rfl⟩

theorem Rep.grow {b : BB} {l : List Nat} (h : Rep b l) : Rep (b.grow 1) l := by
  have hcap := h.cap
  have hs := h.size
  refine ⟨hs, ?_, ?_⟩
  · simp only [BB.grow, memcpyBytes, capacity, Nat.div_one, List.length_append, List.length_take,
      List.length_replicate]
    omega
  · simp only [BB.grow, memcpyBytes, Nat.div_one]
    rw [List.take_append_of_le_length (by simp; omega), List.take_take, Nat.min_self, h.area]

theorem Rep.get {b : BB} {l : List Nat} (h : Rep b l) (i : Nat) (hi : i < l.length) :
    (b.data[i]?).join = l[i]? := by
  have h1 : b.data[i]? = (b.data.take b.readSize)[i]? := by
    rw [List.getElem?_take_of_lt (by rw [h.size]; exact hi)]
  rw [h1, h.area, List.getElem?_map, List.getElem?_eq_getElem hi]; rfl

theorem Rep.reads {b : BB} {l : List Nat} (h : Rep b l) : Spec.Reads b l :=
  ⟨h.size, fun i hi => by rw [deref, if_neg (by rw [h.size]; omega), h.get i hi]⟩

end BB

/-- C29: for one byte characters, the builder contains what was appended since it was last cleared,
    however often it grows; an append fails only if it does not fit into the capacity. -/
theorem C29_builder_partial (ops : List BB.Op) :
    match Spec.builderRun ([], BB.stackSize 1) ops with
    | some (cs, cap) =>
      ∃ b, (BB.init 1).run 1 ops = some b ∧ Spec.Reads b cs ∧ b.capacity = cap
    | none => (BB.init 1).run 1 ops = none := by
  have key : ∀ (ops : List BB.Op) (b : BB) (l : List Nat), b.Rep l →
      match Spec.builderRun (l, b.capacity) ops with
      | some (cs, cap) => ∃ b', b.run 1 ops = some b' ∧ Spec.Reads b' cs ∧ b'.capacity = cap
      | none => b.run 1 ops = none := by
    intro ops
    induction ops with
    | nil => intro b l h; exact ⟨b, rfl, h.reads, rfl⟩
    | cons op ops ih =>
      intro b l h
      have hs := h.size
      cases op with
      | append cs =>
        simp only [Spec.builderRun, Spec.builderStep, BB.run, BB.step]
        by_cases hc : l.length + cs.length ≤ b.capacity
        · obtain ⟨b', h1, h2, _, h4⟩ := h.append cs (by simp only [BB.capacity] at hc; omega)
          rw [if_pos hc, h1]
          have := ih b' (l ++ cs) h2
          rw [h4] at this
          exact this
        · rw [if_neg hc]
          simp only [Option.bind_none, BB.write]
          rw [if_neg (by simp only [BB.capacity] at hc; omega)]; rfl
      | clear =>
        have := ih b.clear [] h.clear
        have hcap : b.clear.capacity = b.capacity := by simp [BB.clear, BB.capacity]; omega
        rw [hcap] at this
        simpa only [Spec.builderRun, Spec.builderStep, BB.run, BB.step, Option.bind_some] using this
      | grow =>
        have := ih (b.grow 1) l h.grow
        have hcap : (b.grow 1).capacity = 2 * b.capacity := by
          simp [BB.grow, BB.capacity]; omega
        rw [hcap] at this
        simpa only [Spec.builderRun, Spec.builderStep, BB.run, BB.step, Option.bind_some] using this
  exact key ops (BB.init 1) [] BB.rep_init

/-- For wider characters it is false: `grow` copies as many bytes as there are characters
    (buffer_builder.hpp l.94). -/
theorem C29_builder_refuted : ¬ ∀ (sz : Nat) (ops : List BB.Op) (cs : List Nat) (cap : Nat),
    (sz = 1 ∨ sz = 2 ∨ sz = 4) → Spec.builderRun ([], BB.stackSize sz) ops = some (cs, cap) →
    ∃ b, (BB.init sz).run sz ops = some b ∧ Spec.Reads b cs := by
  intro h
  obtain ⟨b, hb, _, hr⟩ := h 2 [.append [65, 66], .grow] [65, 66] 1000 (by decide) (by decide +kernel)
  have h1 := hr 1 (by decide)
  have : ((BB.init 2).run 2 [.append [65, 66], .grow]).map (·.deref 1) = some none := by
    decide +kernel
  rw [hb] at this
  simp only [Option.map_some, Option.some.injEq] at this
  rw [this] at h1
  simp at h1

/-- C29: a builder has 1024 bytes: the pointer, the two sizes, and as many characters as there is room for. -/
theorem C29_stack (sz : Nat) (h : sz = 1 ∨ sz = 2 ∨ sz = 4) :
    8 + 8 + 8 + (BB.init sz).data.length * sz = 1024 ∧ (BB.init sz).capacity = (BB.init sz).data.length := by
  rcases h with rfl | rfl | rfl <;> decide +kernel

example : Spec.builderRun ([], BB.stackSize 1) [.append [65, 66], .grow, .append [67], .clear,
    .append [68]] = some ([68], 2000) := by decide +kernel

/-! ### C29: streams and files -/

theorem readLoop_eq (n : Nat) : ∀ (b : BB) (l : List Nat) (s : Stream), s.bytes.length ≤ n → b.Rep l →
    0 < b.writeSize →
    readLoop b s = some (if s.fails then .osError else .success (l ++ s.bytes)) := by
  induction n using Nat.strongRecOn with
  | ind n ih =>
    intro b l s hn h hw
    have htl : (s.bytes.take b.writeSize).length ≤ b.writeSize := by simp; omega
    obtain ⟨b', h1, h2, h3, h4⟩ := h.append (s.bytes.take b.writeSize) htl
    rw [readLoop]
    rw [dif_neg (by omega)]
    simp only [h1, Option.bind_some]
    by_cases hlt : s.bytes.length < b.writeSize
    · rw [dif_pos (by simp; omega)]
      have htk : s.bytes.take b.writeSize = s.bytes := List.take_of_length_le (by omega)
      rw [htk] at h2
      cases s.fails
      · simp only [Bool.false_eq_true, if_false, BB.readArea]
        rw [h2.area, Buf.mapM_some]; rfl
      · simp
    · rw [dif_neg (by simp; omega)]
      have := ih (n - b.writeSize) (by omega) (b'.grow 1) _ ⟨s.bytes.drop b.writeSize, s.fails⟩
        (by simp; omega) h2.grow (by
          have := h.size
          simp only [BB.grow, BB.capacity] at h4 ⊢
          have := h2.size
          simp only [List.length_append] at this
          omega)
      rw [this]
      simp

/-- C29: reading standard input passes exactly the bytes of the stream to the callback, whatever
    their number; a read error is reported instead. -/
theorem C29_stdin (bytes : List Nat) (fails : Bool) :
    readStdin ⟨bytes, fails⟩ = some (if fails then .osError else .success bytes) := by
  have := readLoop_eq bytes.length (BB.init 1) [] ⟨bytes, fails⟩ (Nat.le_refl _) BB.rep_init
    (by decide +kernel)
  simpa [readStdin] using this

/-- C29: reading a file that does not change and whose reads are not cut short passes exactly its
    contents to the callback, whatever its size. -/
theorem C29_file (os : FileOs) (h1 : os.openError = none) (h2 : os.seekEnd = some os.bytes.length)
    (h3 : os.seekSet = true) (h4 : os.bytes.length ≤ os.readCount) (h5 : os.mmap = true) :
    readFile os = some (.success os.bytes) := by
  have htk : os.bytes.take (min os.bytes.length os.readCount) = os.bytes := by
    rw [Nat.min_eq_left h4, List.take_length]
  simp only [readFile, h1, h2, h3, h5, Bool.not_true, Bool.false_eq_true, if_false]
  split
  · next h => simp [readInto, h, htk]
  · split
    · simp [readInto, htk]
    · simp

/-- C29: whatever the operating system answers: no buffer overflows, the callback is invoked only
    with a prefix of the file of the size that was determined, and a short read is an error.  (The
    only undefined case is a file that shrinks while it is mapped.) -/
theorem C29_file_safe (os : FileOs) :
    (∀ n, os.seekEnd = some n → n ≤ os.bytes.length) →
    ∃ r, readFile os = some r ∧ ∀ bytes, os.openError = none → r = .success bytes →
      os.seekEnd = some bytes.length ∧ bytes <+: os.bytes := by
  intro hn
  have hin : ∀ cap size, size ≤ cap → ∃ r, readInto os cap size = some r ∧
      ∀ bytes, r = .success bytes → bytes.length = size ∧ bytes <+: os.bytes := by
    intro cap size hle
    simp only [readInto, if_pos hle]
    split
    · exact ⟨_, rfl, nofun⟩
    · next h =>
      refine ⟨_, rfl, fun bytes hb => ?_⟩
      cases hb
      exact ⟨by simpa using h, List.take_prefix _ _⟩
  unfold readFile
  cases h1 : os.openError with
  | some e => exact ⟨e, rfl, nofun⟩
  | none =>
    cases h2 : os.seekEnd with
    | none => exact ⟨_, rfl, nofun⟩
    | some size =>
      have hsz := hn size h2
      simp only
      split
      · next h =>
        split
        · exact ⟨_, rfl, nofun⟩
        · obtain ⟨r, hr, hb⟩ := hin smallFile size h
          exact ⟨r, hr, fun bytes _ he => ⟨by rw [(hb bytes he).1], (hb bytes he).2⟩⟩
      · split
        · split
          · exact ⟨_, rfl, nofun⟩
          · obtain ⟨r, hr, hb⟩ := hin size size (Nat.le_refl _)
            exact ⟨r, hr, fun bytes _ he => ⟨by rw [(hb bytes he).1], (hb bytes he).2⟩⟩
        · split
          · exact ⟨_, rfl, nofun⟩
          · refine ⟨_, rfl, fun bytes _ he => ?_⟩
            cases he
            exact ⟨by simp; omega, List.take_prefix _ _⟩

example : readFile ⟨none, [1, 2, 3], some 3, true, 2, true⟩ = some .osError := by decide +kernel
example : readFile ⟨none, [1, 2, 3], some 3, true, 5, true⟩ = some (.success [1, 2, 3]) := by
  decide +kernel


/-! ### C58 -/

namespace Spec

/-- The part of the text up to and including its last newline. -/
def completeLines (s : List Nat) : List Nat := (s.reverse.dropWhile (· ≠ 10)).reverse

/-- What a parser observes that reads `text` but looks only at positions before `lim`, and moves
    only over characters it has looked at: the state is the reader and how much has been seen. -/
def textStep (text : List Nat) (lim : Nat) (r : RSt × Nat) : ROp → Option ((RSt × Nat) × RObs)
  | .peek =>
    if r.1.pos < lim then
      some ((r.1, max r.2 (min (r.1.pos + 1) text.length)), .char text[r.1.pos]?)
    else none
  | .bump =>
    if r.1.pos < r.2 then some (({r.1 with pos := r.1.pos + 1}, r.2), .pos (r.1.pos + 1)) else none
  | .mark => some (({r.1 with marks := r.1.marks ++ [r.1.pos]}, r.2), .pos r.1.pos)
  | .reset i => r.1.marks[i]?.map fun p => (({r.1 with pos := p}, r.2), .pos p)
  | _ => none

/-- How far the parser may look: to the end of the last complete line; or, if there is only one
    line and no newline, also at the end of the text. -/
def limit (text : List Nat) : Nat :=
  if 10 ∈ text then (completeLines text).length else text.length + 1

def readText (text : List Nat) (lim : Nat) (r : RSt × Nat) : List ROp → Option (List RObs)
  | [] => some []
  | op :: ops => (textStep text lim r op).bind fun (r, o) => (readText text lim r ops).map (o :: ·)

end Spec

theorem getLast?_app {α : Type} {l m : List α} (h : m ≠ []) : (l ++ m).getLast? = m.getLast? := by
  rw [List.getLast?_append]
  cases hg : m.getLast? with
  | none => exact absurd (List.getLast?_eq_none_iff.1 hg) h
  | some x => rfl

theorem lineOf_nil_iff {s : List Nat} : lineOf s = [] ↔ s = [] := by
  cases s with
  | nil => simp [lineOf]
  | cons c cs => simp only [lineOf]; split <;> simp

theorem lineOf_prefix (s : List Nat) : ∃ r, s = lineOf s ++ r := by
  induction s with
  | nil => exact ⟨[], rfl⟩
  | cons c cs ih =>
    simp only [lineOf]
    split
    · exact ⟨cs, rfl⟩
    · obtain ⟨r, hr⟩ := ih; exact ⟨r, by rw [List.cons_append, ← hr]⟩

theorem lineOf_drop_eq (s : List Nat) : lineOf s ++ s.drop (lineOf s).length = s := by
  obtain ⟨r, hr⟩ := lineOf_prefix s
  have : s.drop (lineOf s).length = r := by
    have e : s.drop (lineOf s).length = (lineOf s ++ r).drop (lineOf s).length := by rw [← hr]
    rw [e, List.drop_left]
  rw [this, ← hr]

/-- A proper prefix of a line has no newline. -/
theorem lineOf_take {s : List Nat} {n : Nat} (hn : n < (lineOf s).length) :
    10 ∉ (lineOf s).take n := by
  induction s generalizing n with
  | nil => simp [lineOf] at hn
  | cons c cs ih =>
    simp only [lineOf] at hn ⊢
    split at hn
    · simp at hn; subst hn; simp
    · next hc =>
      rw [if_neg hc]
      cases n with
      | zero => simp
      | succ n =>
        simp only [List.length_cons, Nat.add_lt_add_iff_right] at hn
        simp only [List.take_succ_cons, List.mem_cons, not_or]
        exact ⟨fun h => hc h.symm, ih hn⟩

theorem lineOf_drop {s : List Nat} {n : Nat} (hn : n < (lineOf s).length) :
    lineOf (s.drop n) = (lineOf s).drop n := by
  induction s generalizing n with
  | nil => simp [lineOf] at hn
  | cons c cs ih =>
    cases n with
    | zero => simp
    | succ n =>
      simp only [lineOf] at hn ⊢
      split at hn
      · simp at hn
      · next hc =>
        rw [if_neg hc]
        simp only [List.length_cons, Nat.add_lt_add_iff_right] at hn
        simp only [List.drop_succ_cons]
        exact ih hn

theorem lineOf_newline {s : List Nat} (h : 10 ∈ s) : (lineOf s).getLast? = some 10 := by
  induction s with
  | nil => simp at h
  | cons c cs ih =>
    simp only [lineOf]
    split
    · next hc => simp [hc]
    · next hc =>
      simp only [List.mem_cons] at h
      rcases h with h | h
      · exact absurd h.symm hc
      · have := ih h
        rw [List.getLast?_cons, this]; rfl

theorem lineOf_no_newline {s : List Nat} (h : 10 ∉ s) : lineOf s = s := by
  induction s with
  | nil => rfl
  | cons c cs ih =>
    simp only [List.mem_cons, not_or] at h
    simp only [lineOf]
    rw [if_neg (fun hc => h.1 hc.symm), ih h.2]

theorem BB.Rep.last {b : BB} {l : List Nat} (h : b.Rep l) (hl : l ≠ []) :
    b.lastWritten = l.getLast? := by
  have : 0 < l.length := List.length_pos_iff.2 hl
  rw [BB.lastWritten, h.size, if_neg (by omega), h.get _ (by omega), List.getLast?_eq_getElem?]

theorem appendLoop_eq (fuel : Nat) : ∀ (b : BB) (l typed : List Nat), b.Rep l → 0 < b.writeSize →
    typed.length + 2 ≤ fuel → l ++ lineOf typed ≠ [] →
    ∃ b', b'.Rep (l ++ lineOf typed) ∧
      appendLoop Prompt.readLine fuel ⟨b, ⟨typed, false⟩⟩ =
        some (decide ((l ++ lineOf typed).getLast? = some 10),
          ⟨b', ⟨typed.drop (lineOf typed).length, !((lineOf typed).getLast? == some 10)⟩⟩) := by
  induction fuel with
  | zero => intro b l typed _ _ hf; omega
  | succ fuel ih =>
    intro b l typed h hw hf hne
    simp only [appendLoop, Prompt.readLine, Bool.false_or]
    have htl : ((lineOf typed).take b.writeSize).length ≤ b.writeSize := by simp; omega
    obtain ⟨b', h1, h2, h3, h4⟩ := h.append ((lineOf typed).take b.writeSize) htl
    rw [h1]
    simp only [Option.bind_some]
    by_cases hle : (lineOf typed).length ≤ b.writeSize
    · -- the whole line fits
      have htk : (lineOf typed).take b.writeSize = lineOf typed := List.take_of_length_le hle
      rw [htk] at h2 h3 ⊢
      rw [h2.last hne]
      obtain ⟨x, hx⟩ : ∃ x, (l ++ lineOf typed).getLast? = some x := by
        cases hg : (l ++ lineOf typed).getLast? with
        | none => exact absurd (List.getLast?_eq_none_iff.1 hg) hne
        | some x => exact ⟨x, rfl⟩
      rw [hx]
      simp only [Option.bind_some, Option.some.injEq]
      by_cases hx10 : x = 10
      · rw [if_pos hx10]
        refine ⟨b', h2, ?_⟩
        simp only [hx10, decide_true, Option.some.injEq, Prod.mk.injEq, true_and, Shell.mk.injEq,
          Prompt.mk.injEq]
        by_cases hlt : (lineOf typed).length < b.writeSize
        · simp [hlt]
        · -- a full line of exactly the size of the write area ends in a newline
          have hln : lineOf typed ≠ [] := by intro hz; rw [hz] at hlt; simp at hlt; omega
          rw [getLast?_app hln, hx10] at hx
          simp [hx]
      · rw [if_neg hx10]
        have hnl : ((lineOf typed).getLast? == some 10) = false := by
          cases hg : (lineOf typed).getLast? with
          | none => rfl
          | some y =>
            have hln : lineOf typed ≠ [] := by intro hz; rw [hz] at hg; simp at hg
            rw [getLast?_app hln, hg] at hx
            cases hx
            simpa using hx10
        by_cases hlt : (lineOf typed).length < b.writeSize
        · rw [if_pos hlt]
          simp only [hlt, decide_true, hnl, Bool.not_false, Bool.and_self, if_true]
          exact ⟨b', h2, by simp [hx10]⟩
        · rw [if_neg hlt]
          have h10 : 10 ∉ typed := by
            intro hm
            rw [lineOf_newline hm] at hnl; simp at hnl
          have hln := lineOf_no_newline h10
          have hdr : typed.drop (lineOf typed).length = [] := by rw [hln]; simp
          simp only [hlt, decide_false, Bool.false_and]
          rw [hdr]
          have hpos : 0 < typed.length := by rw [hln] at hlt; omega
          obtain ⟨b'', h5, h6⟩ := ih (b'.grow 1) (l ++ lineOf typed) [] h2.grow (by
              have e1 := h2.size
              simp only [BB.grow, BB.capacity] at h4 ⊢
              simp only [List.length_append] at e1
              have := h.size
              omega)
            (by simp; omega) (by simpa [lineOf] using hne)
          refine ⟨b'', by simpa [lineOf] using h5, ?_⟩
          rw [h6]
          simp [lineOf, hx, hx10, hnl]
    · -- the write area is filled without reaching the newline
      have hlt : b.writeSize < (lineOf typed).length := by omega
      have hno := lineOf_take hlt
      have hlen : ((lineOf typed).take b.writeSize).length = b.writeSize := by simp; omega
      have hgne : (lineOf typed).take b.writeSize ≠ [] := by
        intro hz; rw [hz] at hlen; simp at hlen; omega
      have hne2 : l ++ (lineOf typed).take b.writeSize ≠ [] := by simp [hgne]
      rw [h2.last hne2]
      obtain ⟨x, hx⟩ : ∃ x, ((lineOf typed).take b.writeSize).getLast? = some x := by
        cases hg : ((lineOf typed).take b.writeSize).getLast? with
        | none => exact absurd (List.getLast?_eq_none_iff.1 hg) hgne
        | some x => exact ⟨x, rfl⟩
      have hx10 : x ≠ 10 := by
        rintro rfl
        exact hno (List.mem_of_getLast? hx)
      rw [getLast?_app hgne, hx]
      simp only [Option.bind_some, if_neg hx10]
      rw [if_neg (by rw [hlen]; omega)]
      simp only [hlen, Nat.lt_irrefl, decide_false, Bool.false_and]
      have hld := lineOf_drop hlt
      obtain ⟨b'', h5, h6⟩ := ih (b'.grow 1) (l ++ (lineOf typed).take b.writeSize)
        (typed.drop b.writeSize) h2.grow (by
          have e1 := h2.size
          simp only [BB.grow, BB.capacity] at h4 ⊢
          have := h.size
          omega)
        (by
          have : b.writeSize ≤ typed.length := by
            obtain ⟨r, hr⟩ := lineOf_prefix typed
            have : typed.length = (lineOf typed ++ r).length := by rw [← hr]
            simp at this; omega
          simp; omega)
        (by simp [hgne])
      rw [hld] at h5 h6
      rw [List.append_assoc, List.take_append_drop] at h5 h6
      refine ⟨b'', h5, ?_⟩
      rw [h6]
      simp only [List.drop_drop, List.length_drop]
      have hd : (lineOf typed).drop b.writeSize ≠ [] := by
        intro hz
        have := congrArg List.length hz
        simp at this; omega
      have hg2 : ((lineOf typed).drop b.writeSize).getLast? = (lineOf typed).getLast? := by
        conv => rhs; rw [← List.take_append_drop b.writeSize (lineOf typed)]
        rw [getLast?_app hd]
      rw [hg2]
      congr 5
      omega

theorem appendNextLine_eq (b : BB) (l typed : List Nat) (h : b.Rep l) (hc : 0 < b.capacity)
    (hne : l ++ lineOf typed ≠ []) :
    ∃ b', b'.Rep (l ++ lineOf typed) ∧ 0 < b'.capacity ∧
      appendNextLine Prompt.readLine ⟨b, ⟨typed, false⟩⟩ =
        some (decide ((l ++ lineOf typed).getLast? = some 10),
          ⟨b', ⟨typed.drop (lineOf typed).length, !((lineOf typed).getLast? == some 10)⟩⟩) := by
  have hs := h.size
  unfold appendNextLine
  have hpos : ∀ b' : BB, b'.Rep (l ++ lineOf typed) → 0 < b'.capacity := by
    intro b' h'
    have := h'.size
    have : 0 < (l ++ lineOf typed).length := List.length_pos_iff.2 hne
    simp only [BB.capacity]; omega
  by_cases hw : b.writeSize < 128
  · simp only [hw, if_true]
    obtain ⟨b', h1, h2⟩ := appendLoop_eq (typed.length + 2) (b.grow 1) l typed h.grow (by
      simp only [BB.grow, BB.capacity] at hc ⊢; omega) (Nat.le_refl _) hne
    exact ⟨b', h1, hpos b' h1, h2⟩
  · simp only [hw, if_false]
    obtain ⟨b', h1, h2⟩ := appendLoop_eq (typed.length + 2) b l typed h (by omega)
      (Nat.le_refl _) hne
    exact ⟨b', h1, hpos b' h1, h2⟩

/-- What is true of the shell while it is read. -/
structure ShellInv (text : List Nat) (s : Shell) (l : List Nat) : Prop where
  rep : s.buf.Rep l
  cap : 0 < s.buf.capacity
  split : l ++ s.prompt.typed = text
  ne : l ≠ []
  opened : 10 ∈ s.prompt.typed → s.prompt.closed = false

theorem promptForInput_eq (text : List Nat) (hne : text ≠ []) :
    ∃ s, promptForInput Prompt.readLine ⟨BB.init 1, ⟨text, false⟩⟩ = some s
      ∧ ShellInv text s (lineOf text)
      ∧ (10 ∉ text → s.prompt.typed = [] ∧ s.prompt.closed = true) := by
  have hl : lineOf text ≠ [] := fun h => hne (lineOf_nil_iff.1 h)
  obtain ⟨b', h1, h2, h3⟩ := appendNextLine_eq (BB.init 1).clear [] text BB.rep_init.clear
    (by decide +kernel) (by simpa using hl)
  refine ⟨_, by simp only [promptForInput, h3]; rfl, ⟨h1, h2, lineOf_drop_eq text, hl, ?_⟩, ?_⟩
  · intro h10
    have : 10 ∈ text := List.mem_of_mem_drop h10
    simp [lineOf_newline this]
  · intro h10
    have hln := lineOf_no_newline h10
    refine ⟨by simp [hln], ?_⟩
    simp only [hln, Bool.not_eq_true', beq_eq_false_iff_ne, ne_eq]
    intro hg
    exact h10 (List.mem_of_getLast? hg)

/-- Every position before the end of the complete lines lies in the buffer or in a line that still
    comes. -/
theorem newline_in_rest {text l r : List Nat} (h : l ++ r = text)
    (hl : l.length < (Spec.completeLines text).length) : 10 ∈ r := by
  -- the complete lines end in a newline, which lies behind `l`
  have hspec : ∃ u, text = Spec.completeLines text ++ u := by
    refine ⟨(text.reverse.takeWhile (· ≠ 10)).reverse, ?_⟩
    unfold Spec.completeLines
    rw [← List.reverse_append, List.takeWhile_append_dropWhile, List.reverse_reverse]
  have hlast : (Spec.completeLines text).getLast? = some 10 := by
    unfold Spec.completeLines at hl ⊢
    rw [List.getLast?_reverse]
    cases hd : text.reverse.dropWhile (· ≠ 10) with
    | nil => rw [hd] at hl; simp at hl
    | cons c cs =>
      have h0 := List.head?_dropWhile_not (fun x => decide (x ≠ 10)) text.reverse
      rw [hd] at h0
      simpa using h0
  obtain ⟨u, hu⟩ := hspec
  have hget : text[(Spec.completeLines text).length - 1]? = some 10 := by
    rw [List.getLast?_eq_getElem?] at hlast
    have e : text[(Spec.completeLines text).length - 1]?
        = (Spec.completeLines text ++ u)[(Spec.completeLines text).length - 1]? := by rw [← hu]
    rw [e, List.getElem?_append_left (by omega)]
    exact hlast
  have e : text[(Spec.completeLines text).length - 1]?
      = (l ++ r)[(Spec.completeLines text).length - 1]? := by rw [h]
  rw [e, List.getElem?_append_right (by omega)] at hget
  exact List.mem_of_getElem? hget

/-- What holds between the reader of the shell and the reader of the text. -/
structure ReadInv (text : List Nat) (s : Shell) (r : RSt × Nat) (l : List Nat) : Prop where
  shell : ShellInv text s l
  seen : r.2 ≤ l.length
  pos : r.1.pos ≤ r.2
  marks : ∀ p ∈ r.1.marks, p ≤ r.2
  one : 10 ∉ text → s.prompt.typed = [] ∧ s.prompt.closed = true

theorem shellPeek_eq {text : List Nat} {s : Shell} {l : List Nat} (h : ShellInv text s l)
    (h1 : 10 ∉ text → s.prompt.typed = [] ∧ s.prompt.closed = true)
    (i : Nat) (hi : i ≤ l.length) (hlim : i < Spec.limit text) :
    ∃ s' l', ShellInv text s' l' ∧ l.length ≤ l'.length ∧ min (i + 1) text.length ≤ l'.length
      ∧ (10 ∉ text → s'.prompt.typed = [] ∧ s'.prompt.closed = true)
      ∧ shellPeek Prompt.readLine s i = some (text[i]?, s') := by
  unfold shellPeek shellIsEof
  rw [h.rep.size]
  have hget : ∀ (s' : Shell) (l' : List Nat), ShellInv text s' l' → i < l'.length →
      ((s'.buf.data[i]?).join).map (fun c => (some c, s')) = some (text[i]?, s') := by
    intro s' l' h' hi'
    rw [h'.rep.get i hi', ← h'.split, List.getElem?_append_left hi']
    rw [List.getElem?_eq_getElem hi']; rfl
  by_cases hlt : i < l.length
  · rw [if_pos (by omega)]
    simp only [Option.bind_some, Bool.false_eq_true, if_false]
    exact ⟨s, l, h, Nat.le_refl _, by omega, h1, hget s l h hlt⟩
  · have hil : i = l.length := by omega
    rw [if_neg (by omega)]
    by_cases h10 : 10 ∈ text
    · rw [Spec.limit, if_pos h10, hil] at hlim
      have hr := newline_in_rest h.split hlim
      have hop := h.opened hr
      rw [hop]
      simp only [Bool.false_eq_true, if_false]
      have hne : l ++ lineOf s.prompt.typed ≠ [] := by simp [h.ne]
      obtain ⟨b', e1, e2, e3⟩ := appendNextLine_eq s.buf l s.prompt.typed h.rep h.cap hne
      have hs : s = ⟨s.buf, ⟨s.prompt.typed, false⟩⟩ := by rw [← hop]
      rw [← hs] at e3
      have hln : lineOf s.prompt.typed ≠ [] := by
        intro hz; rw [lineOf_nil_iff] at hz; rw [hz] at hr; simp at hr
      have hlast : (l ++ lineOf s.prompt.typed).getLast? = some 10 := by
        rw [getLast?_app hln, lineOf_newline hr]
      rw [hlast] at e3
      rw [e3]
      simp only [lineOf_newline hr, decide_true, Option.map_some, Option.bind_some, Bool.not_true,
        Bool.false_eq_true, if_false, beq_self_eq_true]
      have hlen : 0 < (lineOf s.prompt.typed).length := List.length_pos_iff.2 hln
      have h' : ShellInv text ⟨b', ⟨s.prompt.typed.drop (lineOf s.prompt.typed).length, false⟩⟩
          (l ++ lineOf s.prompt.typed) :=
        ⟨e1, e2, by
          show (l ++ lineOf s.prompt.typed) ++ s.prompt.typed.drop _ = text
          rw [List.append_assoc, lineOf_drop_eq, h.split], hne, fun _ => rfl⟩
      refine ⟨_, _, h', by simp, by simp; omega, fun hn => absurd h10 hn, hget _ _ h' ?_⟩
      simp; omega
    · obtain ⟨ht, hc⟩ := h1 h10
      rw [hc]
      simp only [if_true, Option.bind_some]
      have hl : l = text := by have := h.split; rw [ht] at this; simpa using this
      refine ⟨s, l, h, Nat.le_refl _, by rw [hl]; omega, h1, ?_⟩
      rw [List.getElem?_eq_none (by rw [← hl]; omega)]

theorem shellRun_sim (text : List Nat) (ops : List ROp) : ∀ (s : Shell) (r : RSt × Nat)
    (l : List Nat) (obs : List RObs), ReadInv text s r l →
    Spec.readText text (Spec.limit text) r ops = some obs →
    shellRun Prompt.readLine s r.1 ops = some obs := by
  induction ops with
  | nil => intro s r l obs _ h; simpa [Spec.readText, shellRun] using h
  | cons op ops ih =>
    intro s r l obs inv h
    simp only [Spec.readText, Option.bind_eq_some_iff, Option.map_eq_some_iff] at h
    obtain ⟨⟨r', o⟩, h1, obs', h2, rfl⟩ := h
    cases op with
    | peek =>
      simp only [Spec.textStep] at h1
      split at h1
      · next hlim =>
        cases h1
        obtain ⟨s', l', e1, e2, e3, e4, e5⟩ := shellPeek_eq inv.shell inv.one r.1.pos
          (Nat.le_trans inv.pos inv.seen) hlim
        simp only [shellRun, shellStep, e5, Option.map_some, Option.bind_some]
        have hs := inv.seen
        rw [ih s' (r.1, max r.2 (min (r.1.pos + 1) text.length)) l' obs' ⟨e1, by simp; omega,
          Nat.le_trans inv.pos (by simp; omega),
          fun p hp => Nat.le_trans (inv.marks p hp) (by simp; omega), e4⟩ h2]
        rfl
      · cases h1
    | bump =>
      simp only [Spec.textStep] at h1
      split at h1
      · next hlt =>
        cases h1
        simp only [shellRun, shellStep, Option.bind_some]
        rw [ih s ({r.1 with pos := r.1.pos + 1}, r.2) l obs'
          ⟨inv.shell, inv.seen, hlt, inv.marks, inv.one⟩ h2]
        rfl
      · cases h1
    | mark =>
      simp only [Spec.textStep, Option.some.injEq] at h1
      cases h1
      simp only [shellRun, shellStep, Option.bind_some]
      rw [ih s ({r.1 with marks := r.1.marks ++ [r.1.pos]}, r.2) l obs' ⟨inv.shell, inv.seen,
        inv.pos, by
          intro p hp
          simp only [List.mem_append, List.mem_cons, List.not_mem_nil, or_false] at hp
          rcases hp with hp | rfl
          · exact inv.marks p hp
          · exact inv.pos, inv.one⟩ h2]
      rfl
    | reset i =>
      simp only [Spec.textStep, Option.map_eq_some_iff] at h1
      obtain ⟨p, hp, h1⟩ := h1
      cases h1
      simp only [shellRun, shellStep, hp, Option.map_some, Option.bind_some]
      rw [ih s ({r.1 with pos := p}, r.2) l obs' ⟨inv.shell, inv.seen,
        inv.marks p (List.mem_of_getElem? hp), inv.marks, inv.one⟩ h2]
      rfl
    | peekSwar => simp [Spec.textStep] at h1
    | bumpSwar => simp [Spec.textStep] at h1
    | bumpSwarN n => simp [Spec.textStep] at h1

/-- C58, partial: a parser reading from a shell observes exactly the characters the user typed, in
    any order of looking, moving and resetting, however long the lines are and wherever the
    buffer has to grow - as long as it looks no further than the last complete line.
    Missing: looking behind the last newline (see the refutations), a user who closes the prompt at
    once, and prompts that read through `fgets`. -/
theorem C58_partial (text : List Nat) (hne : text ≠ []) (ops : List ROp) (obs : List RObs)
    (h : Spec.readText text (Spec.limit text) ({}, 0) ops = some obs) :
    shellSession Prompt.readLine text ops = some obs := by
  obtain ⟨s, h1, h2, h3⟩ := promptForInput_eq text hne
  unfold shellSession
  rw [h1]
  exact shellRun_sim text ops s ({}, 0) (lineOf text) obs ⟨h2, Nat.zero_le _, Nat.le_refl _, nofun,
    h3⟩ h

/-- Two lines, read over the end of the first one, back, and forth again. -/
example : Spec.readText [97, 10, 98, 10] (Spec.limit [97, 10, 98, 10]) ({}, 0)
    [.mark, .peek, .bump, .peek, .bump, .peek, .reset 0, .peek, .bump, .bump, .bump, .peek]
    = some [.pos 0, .char (some 97), .pos 1, .char (some 10), .pos 2, .char (some 98), .pos 0,
      .char (some 97), .pos 1, .pos 2, .pos 3, .char (some 10)] := by decide +kernel
/-- One line longer than the buffer. -/
example : (Spec.readText (List.replicate 300 97) 301 ({}, 0)
    ((List.replicate 300 [ROp.peek, .bump]).flatten ++ [.peek])).isSome := by decide +kernel
example : Spec.limit (List.replicate 300 97) = 301 := by decide +kernel

/-- A parser that looks behind the last newline, after which the user closes the prompt, reads
    memory that was never written instead of EOF: `append_next_line` finds the newline of the
    previous line at the end of the buffer and reports that it has read one (shell.hpp
    l.382-389). -/
theorem C58_eof_after_newline_refuted : ¬ ∀ (text : List Nat) (ops : List ROp) (obs : List RObs),
    text ≠ [] → Spec.readRange BEnc.default text ops = some obs →
    shellSession Prompt.readLine text ops = some obs := by
  intro h
  have := h [120, 10] [.peek, .bump, .peek, .bump, .peek]
    [.char (some 120), .pos 1, .char (some 10), .pos 2, .char none] (by simp) (by decide +kernel)
  revert this; decide +kernel

/-- A last line without newline after a complete line: the first look says EOF, the second one
    gives the character (shell.hpp l.222-240, l.391-395: the line that was read without newline
    counts as nothing read). -/
theorem C58_last_line_refuted : ¬ ∀ (text : List Nat) (ops : List ROp) (obs : List RObs)
    (o o' : RObs), shellSession Prompt.readLine text (ops ++ [.peek, .peek])
      = some (obs ++ [o, o']) → o = o' := by
  intro h
  have := h [10, 121] [.peek, .bump] [.char (some 10), .pos 1] (.char none) (.char (some 121))
    (by decide +kernel)
  revert this; decide +kernel

/-- A user who closes the prompt at once: `append_next_line` looks at the character before the
    first one (shell.hpp l.386). -/
theorem C58_closed_at_once_refuted : ¬ ∀ (text : List Nat),
    shellSession Prompt.readLine text [] = some [] := by
  intro h
  have := h []
  revert this; decide +kernel

/-- `default_prompt` reads through `fgets`, which leaves room for a terminator: a line that fills
    the buffer looks as if the input had ended, and the assertion that the prompt is closed then
    fails (shell.hpp l.102-111, l.391-395). -/
theorem C58_default_prompt_refuted : ¬ ∀ (text : List Nat), text ≠ [] →
    shellSession Prompt.fgets text [] = some [] := by
  intro h
  have := h (List.replicate 1100 97 ++ [10]) (by decide +kernel)
  revert this; decide +kernel

end Verif
