import Verif.Buffer
import Verif.SwarLemmas

/-
C25 (raw memory), C26 (byte order marks), C27 (sentinel buffers behave like ranges).
-/

namespace Verif

namespace Spec

/-- The bytes of a code unit in the given byte order. -/
def serialise (bytes : Nat) : Endian → Nat → List Nat
  | .big, c => (List.range bytes).map fun i => c / 256 ^ (bytes - 1 - i) % 256
  | .little, c => (List.range bytes).map fun i => c / 256 ^ i % 256

/-- The byte order marks: the serialisation of U+FEFF. -/
def bom : BomEnc → Endian → List Nat
  | .utf8, _ => [0xEF, 0xBB, 0xBF]
  | .utf8char, _ => [0xEF, 0xBB, 0xBF]
  | .utf16, .big => [0xFE, 0xFF]
  | .utf16, .little => [0xFF, 0xFE]
  | .utf32, .big => [0x00, 0x00, 0xFE, 0xFF]
  | .utf32, .little => [0xFF, 0xFE, 0x00, 0x00]

/-- The characters of an encoding. -/
def CharSize (e : BEnc) : Prop := e.bytes = 1 ∨ e.bytes = 2 ∨ e.bytes = 4

end Spec

namespace Buf

theorem store_append (junk : List (Option Nat)) (pad : List (Option Nat)) (cs : List Nat)
    (h : junk.length = cs.length) : store (junk ++ pad) cs = some (cs.map some ++ pad) := by
  induction cs generalizing junk with
  | nil => cases junk <;> simp_all [store]
  | cons c cs ih =>
    cases junk with
    | nil => simp at h
    | cons j js => simp only [List.length_cons, Nat.add_right_cancel_iff] at h
                   simp [store, ih js h]

/-- The cells behind the content. -/
def padding (e : BEnc) (size : Nat) : List (Option Nat) :=
  match e.sentinel with
  | some eof => List.replicate (roundSizeForSwar (size + 1) - size) (some eof)
  | none => []

theorem allocate_eq (e : BEnc) (n : Nat) :
    allocate e n = List.replicate n none ++ padding e n := by
  unfold allocate padding; cases e.sentinel <;> simp

theorem store_allocate (e : BEnc) (cs : List Nat) (n : Nat) (h : n = cs.length) :
    store (allocate e n) cs = some (cs.map some ++ padding e cs.length) := by
  subst h; rw [allocate_eq, store_append _ _ _ (by simp)]

/-- The buffer that holds the given characters. -/
def full (e : BEnc) (cs : List Nat) : Buf := ⟨some (cs.map some ++ padding e cs.length), cs.length⟩

theorem ofData_eq (e : BEnc) (cs : List Nat) : ofData e cs = some (full e cs) := by
  unfold ofData full
  dsimp only
  split
  · rw [store_allocate e cs _ rfl]; rfl
  · have : cs = [] := by cases cs <;> simp_all
    subst this; simp [allocate_eq]

theorem mapM_some {cs : List Nat} : (cs.map some).mapM id = some cs := by
  induction cs with
  | nil => rfl
  | cons c cs ih => simp [List.mapM_cons, ih]

theorem mapM_id_some {l : List (Option Nat)} {cs : List Nat} (h : l.mapM id = some cs) :
    l = cs.map some := by
  induction l generalizing cs with
  | nil => simp at h; subst h; rfl
  | cons x l ih =>
    simp only [List.mapM_cons, id_eq, Option.pure_def, Option.bind_eq_bind,
      Option.bind_eq_some_iff, Option.some.injEq] at h
    obtain ⟨a, rfl, b, hb, rfl⟩ := h
    simp [ih hb]

theorem content_full (e : BEnc) (cs : List Nat) : (full e cs).content = some cs := by
  have h := mapM_some (cs := cs)
  simp only [content, full, List.length_append, List.length_map]
  rw [if_pos (by omega), List.take_append_of_le_length (by simp), List.take_of_length_le (by simp)]
  exact h

end Buf

/-! ### C25 -/

theorem groups_nil (n : Nat) : groups n [] = [] := by unfold groups; simp

theorem groups_append (n : Nat) (hn : n ≠ 0) (g r : List Nat) (h : g.length = n) :
    groups n (g ++ r) = g :: groups n r := by
  have hg : g ≠ [] := by intro hg; subst hg; simp at h; omega
  rw [groups]
  simp [hn, hg, ← h]

theorem groups_flatMap (n : Nat) (hn : n ≠ 0) (f : Nat → List Nat) (hf : ∀ c, (f c).length = n)
    (cs : List Nat) : groups n (cs.flatMap f) = cs.map f := by
  induction cs with
  | nil => simp [groups_nil]
  | cons c cs ih => rw [List.flatMap_cons, groups_append n hn _ _ (hf c), ih]; rfl

/-- Every memory whose size is a multiple of `n` is a concatenation of groups. -/
theorem groups_flatten (n : Nat) (hn : n ≠ 0) (bs : List Nat) (h : bs.length % n = 0) :
    (groups n bs).flatten = bs ∧ (groups n bs).length = bs.length / n
      ∧ ∀ g ∈ groups n bs, g.length = n := by
  by_cases hb : bs = []
  · subst hb; simp [groups_nil]
  · have hl : n ≤ bs.length := by
      have : bs.length ≠ 0 := by cases bs <;> simp_all
      rcases Nat.lt_or_ge bs.length n with hlt | hge
      · rw [Nat.mod_eq_of_lt hlt] at h; omega
      · exact hge
    have hd : (bs.drop n).length % n = 0 := by
      rw [List.length_drop, ← Nat.mod_eq_sub_mod hl]; exact h
    have ih := groups_flatten n hn (bs.drop n) hd
    rw [groups]
    simp only [hn, hb, or_self, ↓reduceDIte, List.flatten_cons, List.length_cons, List.mem_cons,
      forall_eq_or_imp]
    refine ⟨by rw [ih.1, List.take_append_drop], ?_, by simp; omega, ih.2.2⟩
    rw [ih.2.1, List.length_drop]
    have hp : 0 < n := by omega
    obtain ⟨q, hq⟩ := Nat.exists_eq_add_of_le hl
    rw [hq, Nat.add_sub_cancel_left, Nat.add_comm n q, Nat.add_div_right _ hp]
termination_by bs.length
decreasing_by
  have : bs.length ≠ 0 := by cases bs <;> simp_all
  simp only [List.length_drop]; omega


theorem or_shift (a b i : Nat) (h : b < 2 ^ i) : b ||| a <<< i = b + 2 ^ i * a := by
  rw [Nat.or_comm, ← Nat.shiftLeft_add_eq_or_of_lt h, Nat.shiftLeft_eq, Nat.mul_comm, Nat.add_comm]

theorem or4 (p q r s : Nat) : p ||| q ||| r ||| s = s ||| r ||| q ||| p := by
  rw [Nat.or_comm _ s, Nat.or_comm _ r, Nat.or_comm p q, ← Nat.or_assoc, ← Nat.or_assoc]

theorem convertUnit_eq (n : Nat) (hn : n = 2 ∨ n = 4) (en : Endian) (g : List Nat)
    (hl : g.length = n) (hb : ∀ b ∈ g, b < 256) :
    convertUnit n en g = some (loadNative en g) := by
  rcases hn with rfl | rfl
  · match g, hl with
    | [a, b], _ =>
      simp only [List.mem_cons, List.not_mem_nil, or_false, forall_eq_or_imp, forall_eq] at hb
      cases en
      · simp only [convertUnit, loadNative, List.foldr, Nat.shiftLeft_zero]
        rw [or_shift _ _ _ (by omega), Nat.mod_eq_of_lt (by omega)]
        rfl
      · simp only [convertUnit, loadNative, List.foldl, Nat.shiftLeft_zero]
        rw [Nat.or_comm, or_shift _ _ _ (by omega), Nat.mod_eq_of_lt (by omega)]
        congr 1; omega
  · match g, hl with
    | [a, b, c, d], _ =>
      simp only [List.mem_cons, List.not_mem_nil, or_false, forall_eq_or_imp, forall_eq] at hb
      cases en
      · simp only [convertUnit, loadNative, List.foldr, Nat.shiftLeft_zero]
        rw [or_shift b a _ (by omega), or_shift c _ _ (by omega), or_shift d _ _ (by omega),
          Nat.mod_eq_of_lt (by omega)]
        congr 1; omega
      · simp only [convertUnit, loadNative, List.foldl, Nat.shiftLeft_zero]
        rw [or4, or_shift c d _ (by omega), or_shift b _ _ (by omega), or_shift a _ _ (by omega),
          Nat.mod_eq_of_lt (by omega)]
        congr 1; omega

theorem loadNative_one (a b : Endian) (g : List Nat) (h : g.length = 1) :
    loadNative a g = loadNative b g := by
  match g, h with
  | [x], _ => cases a <;> cases b <;> simp [loadNative]

theorem serialise_length (n : Nat) (en : Endian) (c : Nat) : (Spec.serialise n en c).length = n := by
  cases en <;> simp [Spec.serialise]

theorem serialise_byte (n : Nat) (en : Endian) (c : Nat) : ∀ b ∈ Spec.serialise n en c, b < 256 := by
  intro b hb
  cases en <;> simp only [Spec.serialise, List.mem_map] at hb <;> obtain ⟨i, _, rfl⟩ := hb <;> omega

theorem load_serialise (n : Nat) (hn : n = 1 ∨ n = 2 ∨ n = 4) (en : Endian) (c : Nat)
    (hc : c < 256 ^ n) : loadNative en (Spec.serialise n en c) = c := by
  rcases hn with rfl | rfl | rfl <;> cases en <;>
    simp [Spec.serialise, loadNative, List.range, List.range.loop] <;> omega

theorem serialise_load (n : Nat) (hn : n = 1 ∨ n = 2 ∨ n = 4) (en : Endian) (g : List Nat)
    (hl : g.length = n) (hb : ∀ b ∈ g, b < 256) : Spec.serialise n en (loadNative en g) = g := by
  rcases hn with rfl | rfl | rfl
  · match g, hl with
    | [a], _ => cases en <;> simp [Spec.serialise, loadNative, List.range, List.range.loop] at hb ⊢ <;> omega
  · match g, hl with
    | [a, b], _ => cases en <;> simp [Spec.serialise, loadNative, List.range, List.range.loop] at hb ⊢ <;> omega
  · match g, hl with
    | [a, b, c, d], _ =>
      cases en <;> simp [Spec.serialise, loadNative, List.range, List.range.loop] at hb ⊢ <;> omega

theorem mapM_congr_some {f : List Nat → Option Nat} {g : List Nat → Nat} {l : List (List Nat)}
    (h : ∀ x ∈ l, f x = some (g x)) : l.mapM f = some (l.map g) := by
  induction l with
  | nil => rfl
  | cons x l ih =>
    have h1 := h x (by simp)
    have h2 := ih (fun y hy => h y (by simp [hy]))
    simp [List.mapM_cons, h1, h2]

/-- What `make_buffer_from_raw` computes, on either machine. -/
theorem makeBuffer_eq (native : Endian) (e : BEnc) (he : Spec.CharSize e) (en : Endian)
    (mem : List Nat) (hb : ∀ b ∈ mem, b < 256) :
    makeBuffer native e en mem =
      if mem.length % e.bytes = 0 then
        some (Buf.full e ((groups e.bytes mem).map (loadNative en))) else none := by
  unfold makeBuffer
  by_cases hm : mem.length % e.bytes = 0
  · rw [if_pos hm, if_pos hm]
    have hn0 : e.bytes ≠ 0 := by rcases he with h | h | h <;> omega
    have hg := groups_flatten e.bytes hn0 mem hm
    have hgb : ∀ g ∈ groups e.bytes mem, ∀ b ∈ g, b < 256 := by
      intro g hgm b hbg
      exact hb b (by rw [← hg.1]; exact List.mem_flatten.2 ⟨g, hgm, hbg⟩)
    split
    · next h =>
      rw [Buf.ofData_eq]
      congr 2
      apply List.map_congr_left
      intro g hgm
      rcases h with h | h
      · exact loadNative_one _ _ _ (by rw [hg.2.2 g hgm, h])
      · rw [h]
    · next h =>
      have hn : e.bytes = 2 ∨ e.bytes = 4 := by
        rcases he with h1 | h1 | h1
        · exact absurd (Or.inl h1) h
        · exact Or.inl h1
        · exact Or.inr h1
      rw [mapM_congr_some (g := loadNative en)
        (fun g hgm => convertUnit_eq _ hn en g (hg.2.2 g hgm) (hgb g hgm))]
      have hlen : mem.length / e.bytes = ((groups e.bytes mem).map (loadNative en)).length := by
        rw [List.length_map, hg.2.1]
      simp only [Option.bind_some]
      rw [Buf.store_allocate e _ _ hlen]
      simp only [Option.map_some, Buf.full, Buf.builder]
      rw [hlen]
  · rw [if_neg hm, if_neg hm]

/-- C25: memory that holds the big (little) endian bytes of any code units gives a buffer with
    exactly these code units, on either kind of machine. -/
theorem C25_decode (native : Endian) (e : BEnc) (he : Spec.CharSize e) (en : Endian)
    (cs : List Nat) (hc : ∀ c ∈ cs, c < 256 ^ e.bytes) :
    ∃ b, makeBuffer native e en (cs.flatMap (Spec.serialise e.bytes en)) = some b
      ∧ b.content = some cs ∧ b.size = cs.length := by
  have hn0 : e.bytes ≠ 0 := by rcases he with h | h | h <;> omega
  have hb : ∀ b ∈ cs.flatMap (Spec.serialise e.bytes en), b < 256 := by
    intro b hbm
    obtain ⟨c, _, hbc⟩ := List.mem_flatMap.1 hbm
    exact serialise_byte _ _ _ b hbc
  have hl : (cs.flatMap (Spec.serialise e.bytes en)).length % e.bytes = 0 := by
    have : (cs.flatMap (Spec.serialise e.bytes en)).length = cs.length * e.bytes := by
      clear hb hc
      induction cs with
      | nil => simp
      | cons c cs ih => simp [serialise_length, ih, Nat.add_mul]; omega
    rw [this, Nat.mul_mod_left]
  rw [makeBuffer_eq native e he en _ hb, if_pos hl,
    groups_flatMap _ hn0 _ (serialise_length _ _), List.map_map]
  have hm : cs.map (loadNative en ∘ Spec.serialise e.bytes en) = cs := by
    conv => rhs; rw [← List.map_id cs]
    apply List.map_congr_left
    intro c hcm
    exact load_serialise _ he _ _ (hc c hcm)
  rw [hm]
  exact ⟨_, rfl, Buf.content_full e cs, rfl⟩

/-- C25: nothing is invented: whenever `make_buffer_from_raw` returns, the bytes of the code units
    of the buffer are the memory it was given; it only refuses memory that does not consist of
    whole code units. -/
theorem C25_exact (native : Endian) (e : BEnc) (he : Spec.CharSize e) (en : Endian)
    (mem : List Nat) (hb : ∀ b ∈ mem, b < 256) :
    (mem.length % e.bytes = 0 →
      ∃ b cs, makeBuffer native e en mem = some b ∧ b.content = some cs
        ∧ cs.flatMap (Spec.serialise e.bytes en) = mem)
    ∧ (mem.length % e.bytes ≠ 0 → makeBuffer native e en mem = none) := by
  have hn0 : e.bytes ≠ 0 := by rcases he with h | h | h <;> omega
  rw [makeBuffer_eq native e he en _ hb]
  refine ⟨fun hm => ?_, fun hm => if_neg hm⟩
  have hg := groups_flatten e.bytes hn0 mem hm
  refine ⟨_, _, if_pos hm, Buf.content_full _ _, ?_⟩
  rw [List.flatMap_map]
  conv => rhs; rw [← hg.1]
  rw [List.flatMap_def]
  congr 1
  conv => rhs; rw [← List.map_id (groups e.bytes mem)]
  apply List.map_congr_left
  intro g hgm
  refine serialise_load _ he _ _ (hg.2.2 g hgm) (fun b hbg => hb b ?_)
  rw [← hg.1]; exact List.mem_flatten.2 ⟨g, hgm, hbg⟩

/-- C25: the endianness of the machine does not matter. -/
theorem C25_native_independent (e : BEnc) (he : Spec.CharSize e) (en : Endian)
    (mem : List Nat) (hb : ∀ b ∈ mem, b < 256) :
    makeBuffer .little e en mem = makeBuffer .big e en mem := by
  rw [makeBuffer_eq _ e he en mem hb, makeBuffer_eq _ e he en mem hb]

-- U+20AC U+1F600 in UTF-16, big endian bytes, on a little endian machine
example : ((makeBuffer .little BEnc.utf16 .big [0x20, 0xAC, 0xD8, 0x3D, 0xDE, 0x00]).bind Buf.content)
    = some [0x20AC, 0xD83D, 0xDE00] := by decide +kernel
example : Spec.CharSize BEnc.utf32 ∧ (∀ c ∈ [0x20AC, 0xFFFFFFFE], c < 256 ^ BEnc.utf32.bytes) := by
  exact ⟨Or.inr (Or.inr rfl), by decide +kernel⟩

/-! ### C26 -/

theorem BomEnc.charSize (k : BomEnc) : Spec.CharSize k.enc := by
  cases k <;> simp [Spec.CharSize, BomEnc.enc, BEnc.utf8, BEnc.utf8char, BEnc.utf16, BEnc.utf32]

/-- C26: data that starts with a byte order mark is decoded in the byte order of the mark, without
    the mark. -/
theorem C26_bom (native : Endian) (k : BomEnc) (en : Endian) (rest : List Nat)
    (hb : ∀ b ∈ rest, b < 256) :
    makeBufferBom native k (Spec.bom k en ++ rest) = makeBuffer native k.enc en rest := by
  have h1 : k.enc.bytes = 1 →
      makeBuffer native k.enc .big rest = makeBuffer native k.enc .little rest := by
    intro h1
    rw [makeBuffer_eq _ _ k.charSize _ _ hb, makeBuffer_eq _ _ k.charSize _ _ hb]
    rw [h1, if_pos (Nat.mod_one _), if_pos (Nat.mod_one _)]
    congr 2
    apply List.map_congr_left
    intro g hg
    exact loadNative_one _ _ _ ((groups_flatten 1 (by omega) rest (Nat.mod_one _)).2.2 g hg)
  cases k <;> cases en <;>
    simp [makeBufferBom, Spec.bom] <;> first | exact h1 rfl | (intro h; omega)

/-- C26: data that does not start with a byte order mark is decoded as big endian, with nothing
    removed: for UTF-8 and UTF-16 always. -/
theorem C26_no_bom (native : Endian) (k : BomEnc) (hk : k ≠ .utf32) (mem : List Nat)
    (h : ∀ en, ¬ Spec.bom k en <+: mem) :
    makeBufferBom native k mem = makeBuffer native k.enc .big mem := by
  have h1 := h .big
  have h2 := h .little
  match mem with
  | [] => cases k <;> simp_all [makeBufferBom, Spec.bom]
  | [a] => cases k <;> simp_all [makeBufferBom, Spec.bom, List.cons_prefix_cons]
  | [a, b] =>
    cases k <;> simp_all [makeBufferBom, Spec.bom, List.cons_prefix_cons] <;> grind
  | a :: b :: c :: r =>
    cases k <;> simp_all [makeBufferBom, Spec.bom, List.cons_prefix_cons] <;> grind

/-- C26: the same for UTF-32, except for data that starts with 00 00 FE and a byte other than 00
    and FF. -/
theorem C26_no_bom_utf32_partial (native : Endian) (mem : List Nat)
    (h : ∀ en, ¬ Spec.bom .utf32 en <+: mem)
    (h' : ∀ x, [0x00, 0x00, 0xFE, x] <+: mem → x = 0) :
    makeBufferBom native .utf32 mem = makeBuffer native BEnc.utf32 .big mem := by
  have h1 := h .big
  have h2 := h .little
  match mem with
  | [] => simp_all [makeBufferBom, Spec.bom, BomEnc.enc]
  | [a] => simp_all [makeBufferBom, Spec.bom, List.cons_prefix_cons, BomEnc.enc]
  | [a, b] => simp_all [makeBufferBom, Spec.bom, List.cons_prefix_cons, BomEnc.enc]
  | [a, b, c] => simp_all [makeBufferBom, Spec.bom, List.cons_prefix_cons, BomEnc.enc]
  | a :: b :: c :: d :: r =>
    have h3 := h' d
    simp [makeBufferBom, Spec.bom, List.cons_prefix_cons, BomEnc.enc] at h1 h2 h3 ⊢
    grind

/-- The full statement of `C26_no_bom` for UTF-32 is false for the code: the last byte of the big
    endian mark is only tested for being non-zero (buffer.hpp l.443), so that the code unit
    0x0000FE41 is dropped. -/
theorem C26_no_bom_utf32_refuted : ¬ ∀ (native : Endian) (mem : List Nat),
    (∀ en, ¬ Spec.bom .utf32 en <+: mem) →
    makeBufferBom native .utf32 mem = makeBuffer native BEnc.utf32 .big mem := by
  intro h
  have := h .little [0x00, 0x00, 0xFE, 0x41] (by intro en; cases en <;> decide)
  revert this
  decide +kernel

-- the hypotheses of the theorems above
example : ∀ en, ¬ Spec.bom .utf16 en <+: [0xFE, 0x00, 0x41] := by
  intro en; cases en <;> decide
example : (makeBufferBom .little .utf16 ([0xFF, 0xFE] ++ [0x41, 0x00])).bind Buf.content
    = some [0x41] := by decide +kernel
example : (∀ en, ¬ Spec.bom .utf32 en <+: [0x00, 0x00, 0xFE, 0x00, 0, 0, 0, 65])
    ∧ ∀ x, [0x00, 0x00, 0xFE, x] <+: [0x00, 0x00, 0xFE, 0x00, 0, 0, 0, 65] → x = 0 := by
  refine ⟨by intro en; cases en <;> decide, fun x hx => ?_⟩
  simp [List.cons_prefix_cons] at hx; exact hx

/-! ### C27 -/

namespace Spec

/-- What reading the range `cs` observes; `e.sentinel` is what `peek()` returns at the end.  A
    word-wise read sees the next characters, followed by EOF characters. -/
def rangeStep (e : BEnc) (cs : List Nat) (s : RSt) : ROp → Option (RSt × RObs)
  | .peek => some (s, .char (cs[s.pos]?.or e.sentinel))
  | .bump => if s.pos < cs.length then some ({s with pos := s.pos + 1}, .pos (s.pos + 1)) else none
  | .mark => some ({s with marks := s.marks ++ [s.pos]}, .pos s.pos)
  | .reset i => s.marks[i]?.map fun p => ({s with pos := p}, .pos p)
  | .peekSwar =>
    e.sentinel.map fun eof =>
      (s, .word (e.swar.lanes ((List.range (8 / e.bytes)).map fun i => cs.getD (s.pos + i) eof)))
  | .bumpSwar =>
    if e.sentinel.isSome ∧ s.pos + 8 / e.bytes ≤ cs.length then
      some ({s with pos := s.pos + 8 / e.bytes}, .pos (s.pos + 8 / e.bytes)) else none
  | .bumpSwarN n =>
    if e.sentinel.isSome ∧ s.pos + n ≤ cs.length then
      some ({s with pos := s.pos + n}, .pos (s.pos + n)) else none

/-- Reading a range from its beginning: `none` if the client moves past the end. -/
def readRange (e : BEnc) (cs : List Nat) (ops : List ROp) : Option (List RObs) :=
  runOps (rangeStep e cs) {} ops

end Spec


theorem roundSize_ge (n : Nat) : n + 9 ≤ roundSizeForSwar (n + 1) := by
  unfold roundSizeForSwar; split <;> omega

/-- The position and all markers lie in the range. -/
def RSt.In (s : RSt) (n : Nat) : Prop := s.pos ≤ n ∧ ∀ p ∈ s.marks, p ≤ n

theorem Buf.mem_eq (e : BEnc) {eof : Nat} (h : e.sentinel = some eof) (cs : List Nat) :
    cs.map some ++ Buf.padding e cs.length
      = (cs ++ List.replicate (roundSizeForSwar (cs.length + 1) - cs.length) eof).map some := by
  simp [Buf.padding, h]

theorem window_eq (cs : List Nat) (m eof pos n : Nat) (h : pos + n ≤ cs.length + m) :
    ((cs ++ List.replicate m eof).drop pos).take n
      = (List.range n).map fun i => cs.getD (pos + i) eof := by
  apply List.ext_getElem
  · simp; omega
  · intro i h1 h2
    simp only [List.length_map, List.length_range] at h2
    simp only [List.getElem_take, List.getElem_drop, List.getElem_map, List.getElem_range,
      List.getElem_append, List.getD_eq_getElem?_getD]
    split
    · next h3 => simp [List.getElem?_eq_getElem h3]
    · next h3 => rw [List.getElem?_eq_none (by omega)]; simp

theorem step_sim (e : BEnc) (he : Spec.CharSize e) (cs : List Nat) (s : RSt) (hs : s.In cs.length)
    (op : ROp) (s' : RSt) (o : RObs) (h : Spec.rangeStep e cs s op = some (s', o)) :
    (Buf.full e cs).step e s op = some (s', o) ∧ s'.In cs.length := by
  have hin : s'.In cs.length := by
    cases op <;> simp only [Spec.rangeStep] at h
    case peek => cases h; exact hs
    case bump =>
      split at h
      · cases h; exact ⟨by dsimp only; omega, hs.2⟩
      · cases h
    case mark =>
      cases h
      refine ⟨hs.1, fun p hp => ?_⟩
      rcases List.mem_append.1 hp with hp | hp
      · exact hs.2 p hp
      · simp only [List.mem_cons, List.not_mem_nil, or_false] at hp; subst hp; exact hs.1
    case reset i =>
      obtain ⟨p, hp, hq⟩ := Option.map_eq_some_iff.1 h
      cases hq
      exact ⟨hs.2 p (List.mem_of_getElem? hp), hs.2⟩
    case peekSwar =>
      obtain ⟨p, hp, hq⟩ := Option.map_eq_some_iff.1 h
      cases hq; exact hs
    case bumpSwar =>
      split at h
      · next hc => cases h; exact ⟨hc.2, hs.2⟩
      · cases h
    case bumpSwarN n =>
      split at h
      · next hc => cases h; exact ⟨hc.2, hs.2⟩
      · cases h
  refine ⟨?_, hin⟩
  have hp := hs.1
  rcases hse : e.sentinel with _ | eof
  · -- the range reader
    have hpad : Buf.padding e cs.length = [] := by simp [Buf.padding, hse]
    simp only [Buf.step, Buf.full, hse, hpad, List.append_nil]
    cases op <;> simp only [Spec.rangeStep, hse, rrStep] at h ⊢
    case peek =>
      cases h
      split
      · next hq => rw [hq]; simp
      · next hq =>
        have : s.pos < cs.length := by omega
        simp [cell, List.getElem?_eq_getElem this]
    case bump =>
      split at h
      · next hq => cases h; rw [if_neg (by omega)]
      · cases h
    case mark => exact h
    case reset i =>
      obtain ⟨p, hq, hr⟩ := Option.map_eq_some_iff.1 h
      have := hs.2 p (List.mem_of_getElem? hq)
      rw [hq, Option.bind_some, if_pos this, hr]
    all_goals simp at h
  · simp only [Buf.step, Buf.full, hse]
    rw [Buf.mem_eq e hse]
    have hr := roundSize_ge cs.length
    have hn : e.swar.n = 8 / e.bytes := rfl
    have hn8 : 8 / e.bytes ≤ 8 := Nat.div_le_self _ _
    cases op <;> simp only [Spec.rangeStep, hse, brStep, hn] at h ⊢
    case peek =>
      cases h
      simp only [cell, List.getElem?_map]
      by_cases hq : s.pos < cs.length
      · rw [List.getElem?_append_left hq, List.getElem?_eq_getElem hq]; simp
      · have hq' : s.pos = cs.length := by omega
        rw [List.getElem?_append_right (by omega), hq', Nat.sub_self,
          List.getElem?_eq_none (Nat.le_refl _),
          List.getElem?_replicate, if_pos (by omega)]
        simp
    case bump =>
      split at h
      · cases h; rw [if_pos (by simp; omega)]
      · cases h
    case mark => exact h
    case reset i => exact h
    case peekSwar =>
      cases h
      rw [← List.map_drop, ← List.map_take, window_eq _ _ _ _ _ (by omega), Buf.mapM_some]
      simp only [Swar.peekSwar, hn, Option.bind_some, List.length_map, List.length_range,
        Nat.lt_irrefl, if_false, Option.map_some]
      rw [List.take_of_length_le (by simp)]
    case bumpSwar =>
      split at h
      · cases h; rw [if_pos (by simp; omega)]
      · cases h
    case bumpSwarN n =>
      split at h
      · cases h; rw [if_pos (by simp; omega)]
      · cases h

theorem run_sim (e : BEnc) (he : Spec.CharSize e) (cs : List Nat) (ops : List ROp) :
    ∀ (s : RSt) (obs : List RObs), s.In cs.length →
      runOps (Spec.rangeStep e cs) s ops = some obs →
      runOps ((Buf.full e cs).step e) s ops = some obs := by
  induction ops with
  | nil => intro s obs _ h; exact h
  | cons op ops ih =>
    intro s obs hs h
    simp only [runOps, Option.bind_eq_some_iff, Option.map_eq_some_iff] at h ⊢
    obtain ⟨⟨s', o⟩, h1, obs', h2, rfl⟩ := h
    obtain ⟨h3, h4⟩ := step_sim e he cs s hs op s' o h1
    exact ⟨_, h3, _, ih s' obs' h4 h2, rfl⟩

/-- C27: whatever a client does that is allowed on the range `cs` — never moving past its end —
    has the same observations on the buffer constructed from `cs`, and in particular never reads
    outside of the allocation or an unwritten cell.  This holds for every encoding, so for the
    sentinel reader with its word-wise reads as well. -/
theorem C27_like_range (e : BEnc) (he : Spec.CharSize e) (cs : List Nat) (ops : List ROp)
    (obs : List RObs) (h : Spec.readRange e cs ops = some obs) :
    ∃ b, Buf.ofData e cs = some b ∧ b.run e ops = some obs :=
  ⟨_, Buf.ofData_eq e cs, run_sim e he cs ops {} obs ⟨Nat.zero_le _, nofun⟩ h⟩

/-- C27: without a sentinel, the reader of a buffer is the reader of the range: it reports the same, and what moves
    past the end violates a precondition. -/
theorem C27_range_reader (e : BEnc) (he : e.sentinel = none) (cs : List Nat) (ops : List ROp) :
    ∃ b, Buf.ofData e cs = some b ∧ b.run e ops = Spec.readRange e cs ops := by
  refine ⟨_, Buf.ofData_eq e cs, ?_⟩
  have hpad : Buf.padding e cs.length = [] := by simp [Buf.padding, he]
  have key : ∀ (s : RSt), s.In cs.length →
      runOps ((Buf.full e cs).step e) s ops = runOps (Spec.rangeStep e cs) s ops := by
    induction ops with
    | nil => intro s _; rfl
    | cons op ops ih =>
      intro s hs
      have hstep : (Buf.full e cs).step e s op = Spec.rangeStep e cs s op := by
        have hp := hs.1
        simp only [Buf.step, Buf.full, he, hpad, List.append_nil]
        cases op <;> simp only [Spec.rangeStep, he, rrStep]
        case peek =>
          split
          · next hq => rw [hq]; simp
          · next hq =>
            have : s.pos < cs.length := by omega
            simp [cell, List.getElem?_eq_getElem this]
        case bump =>
          by_cases hq : s.pos = cs.length
          · rw [if_pos hq, if_neg (by omega)]
          · rw [if_neg hq, if_pos (by omega)]
        case reset i =>
          cases hm : s.marks[i]? with
          | none => rfl
          | some p => simp [hs.2 p (List.mem_of_getElem? hm)]
        all_goals simp
      simp only [runOps, hstep]
      cases hr : Spec.rangeStep e cs s op with
      | none => rfl
      | some x =>
        obtain ⟨s', o⟩ := x
        have hin : s'.In cs.length := by
          cases op <;> simp only [Spec.rangeStep, he] at hr
          case peek => cases hr; exact hs
          case bump =>
            split at hr
            · cases hr; exact ⟨by dsimp only; omega, hs.2⟩
            · cases hr
          case mark =>
            cases hr
            refine ⟨hs.1, fun p hp => ?_⟩
            rcases List.mem_append.1 hp with hp | hp
            · exact hs.2 p hp
            · simp only [List.mem_cons, List.not_mem_nil, or_false] at hp; subst hp; exact hs.1
          case reset i =>
            obtain ⟨p, hp, hq⟩ := Option.map_eq_some_iff.1 hr
            cases hq
            exact ⟨hs.2 p (List.mem_of_getElem? hp), hs.2⟩
          all_goals simp at hr
        simp only [Option.bind_some, ih s' hin]
  exact key {} ⟨Nat.zero_le _, nofun⟩

/-- `default_encoding`: reading two characters, then the end; one more is a violated precondition. -/
example : (∃ b, Buf.ofData BEnc.default [7, 8] = some b
      ∧ b.run BEnc.default [.bump, .bump, .peek] = some [.pos 1, .pos 2, .char none])
    ∧ ∃ b, Buf.ofData BEnc.default [7, 8] = some b ∧ b.run BEnc.default [.bump, .bump, .bump] = none :=
  ⟨C27_range_reader _ rfl _ _, C27_range_reader _ rfl _ _⟩

/-- C27: a reader of a buffer sees EOF exactly at the end of the contents, if the contents do not
    contain the sentinel value. -/
theorem C27_eof (e : BEnc) (he : Spec.CharSize e) (cs : List Nat) (hc : ∀ c ∈ cs, some c ≠ e.sentinel)
    (n : Nat) (hn : n ≤ cs.length) :
    ∃ b obs c, Buf.ofData e cs = some b
      ∧ b.run e (List.replicate n .bump ++ [.peek]) = some (obs ++ [.char c])
      ∧ (c = e.sentinel ↔ n = cs.length)
      ∧ (n < cs.length → c = cs[n]?) := by
  have key : ∀ k (s : RSt), s.pos + k ≤ cs.length →
      runOps (Spec.rangeStep e cs) s (List.replicate k .bump ++ [.peek])
        = some ((List.range k).map (fun i => RObs.pos (s.pos + i + 1))
          ++ [.char (cs[s.pos + k]?.or e.sentinel)]) := by
    intro k
    induction k with
    | zero => intro s _; simp [runOps, Spec.rangeStep]
    | succ k ih =>
      intro s hk
      simp only [List.replicate_succ, List.cons_append, runOps, Spec.rangeStep]
      rw [if_pos (by omega)]
      simp only [Option.bind_some]
      rw [ih _ (by dsimp only; omega)]
      simp only [Option.map_some, List.range_succ_eq_map, List.map_cons, List.map_map,
        List.cons_append, Nat.add_zero, Option.some.injEq, List.cons.injEq, true_and]
      congr 1
      · apply List.map_congr_left
        intro i _
        simp only [Function.comp]
        congr 1; omega
      · have : s.pos + 1 + k = s.pos + (k + 1) := by omega
        rw [this]
  have h := key n {} (by simpa using hn)
  obtain ⟨b, hb, hr⟩ := C27_like_range e he cs _ _ h
  refine ⟨b, _, _, hb, hr, ?_, ?_⟩
  · simp only [Nat.zero_add]
    by_cases hq : n < cs.length
    · rw [List.getElem?_eq_getElem hq]
      simp only [Option.some_or]
      have := hc _ (List.getElem_mem hq)
      exact ⟨fun h => absurd h this, fun h => by omega⟩
    · rw [List.getElem?_eq_none (by omega)]
      simp only [Option.none_or, true_iff]; omega
  · intro hq
    simp only [Nat.zero_add]
    rw [List.getElem?_eq_getElem hq]; rfl

/-- C27: a word-wise read at any position of the contents, including the end, reads the following
    characters and EOF characters, and stays inside of the allocation. -/
theorem C27_word (e : BEnc) (he : Spec.CharSize e) (eof : Nat) (hse : e.sentinel = some eof)
    (cs : List Nat) (n : Nat) (hn : n ≤ cs.length) :
    ∃ b obs, Buf.ofData e cs = some b
      ∧ b.run e [.bumpSwarN n, .peekSwar]
        = some (obs ++ [.word (e.swar.lanes
            ((List.range (8 / e.bytes)).map fun i => cs.getD (n + i) eof))]) := by
  obtain ⟨b, hb, hr⟩ := C27_like_range e he cs [.bumpSwarN n, .peekSwar]
    ([.pos n] ++ [.word (e.swar.lanes
            ((List.range (8 / e.bytes)).map fun i => cs.getD (n + i) eof))])
    (by simp [Spec.readRange, runOps, Spec.rangeStep, hse, hn])
  exact ⟨b, _, hb, hr⟩

/-- C27: the lanes of a word are the characters: they have all of their values, and fill the 64 bits. -/
theorem C27_word_layout (e : BEnc) (he : Spec.CharSize e) :
    e.swar.B = 256 ^ e.bytes ∧ e.swar.M = 2 ^ 64 := by
  obtain ⟨b, s⟩ := e
  rcases he with h | h | h <;> (simp only at h; subst h; simp [BEnc.swar, Swar.B, Swar.M])

/-! Other ways of creating the buffer. -/

namespace Buf

/-- The writes of a client on an array of `size` uninitialised characters. -/
def writeAll (a : List (Option Nat)) : List (Nat × Nat) → List (Option Nat)
  | [] => a
  | (i, c) :: ws => writeAll (a.set i (some c)) ws

theorem pokes_eq (pad : List (Option Nat)) (ws : List (Nat × Nat)) :
    ∀ (a : List (Option Nat)), (∀ w ∈ ws, w.1 < a.length) →
      Buf.pokes ⟨some (a ++ pad), a.length⟩ ws = some ⟨some (writeAll a ws ++ pad), a.length⟩ := by
  induction ws with
  | nil => intro a _; rfl
  | cons w ws ih =>
    intro a h
    obtain ⟨i, c⟩ := w
    have hi : i < a.length := h (i, c) (by simp)
    have h2 := ih (a.set i (some c)) (fun w hw => by
      have := h w (by simp [hw]); simpa using this)
    simp only [List.length_set] at h2
    simp only [Buf.pokes, Buf.poke, if_pos hi, Option.bind_some, List.set_append, writeAll]
    exact h2

end Buf

/-- C27: a buffer filled through the builder — in any order — is the same as one constructed from
    the characters written. -/
theorem C27_builder (e : BEnc) (size : Nat) (ws : List (Nat × Nat)) (hw : ∀ w ∈ ws, w.1 < size)
    (cs : List Nat)
    (hcs : Buf.writeAll (List.replicate size none) ws = cs.map some) :
    (Buf.builder e size).pokes ws = Buf.ofData e cs := by
  have h := Buf.pokes_eq (Buf.padding e size) ws (List.replicate size none) (by simpa using hw)
  simp only [List.length_replicate] at h
  have hlen : ∀ (ws : List (Nat × Nat)) (a : List (Option Nat)),
      (Buf.writeAll a ws).length = a.length := by
    intro ws
    induction ws with
    | nil => intro a; rfl
    | cons w ws ih => intro a; simp [Buf.writeAll, ih]
  have hl : size = cs.length := by
    have := hlen ws (List.replicate size none)
    rw [hcs] at this; simpa using this.symm
  rw [Buf.builder, Buf.allocate_eq, h, hcs, Buf.ofData_eq, Buf.full, hl]

/-- C27: a copy of a buffer has the same contents. -/
theorem C27_copy (e : BEnc) (b : Buf) (cs : List Nat) (h : b.content = some cs) :
    b.copy e = Buf.ofData e cs := by simp [Buf.copy, h]

theorem scanEof_eq (e : BEnc) (cs : List Nat) :
    cs.take (scanEof e cs) = cs.takeWhile (fun c => some c ≠ e.sentinel)
      ∧ scanEof e cs ≤ cs.length := by
  induction cs with
  | nil => simp [scanEof]
  | cons c cs ih =>
    simp only [scanEof, List.takeWhile_cons]
    by_cases h : some c = e.sentinel
    · simp [h]
    · rw [if_neg h, Nat.add_comm 1]; simp [h, ih]

/-- C27: `make_buffer_from_input` copies what a parser would read of the input: up to the first
    EOF character; an input with `data()` is copied as a whole. -/
theorem C27_from_input (e : BEnc) (contig : Bool) (input : List Nat) :
    makeBufferFromInput e contig input = Buf.ofData e
      (if contig then input else input.takeWhile (fun c => some c ≠ e.sentinel)) := by
  unfold makeBufferFromInput
  cases contig
  · simp only [Bool.false_eq_true, if_false]
    have h := scanEof_eq e input
    have hl : scanEof e input = (input.take (scanEof e input)).length := by
      rw [List.length_take]; omega
    rw [Buf.store_allocate e _ _ hl, Buf.ofData_eq, ← h.1, Buf.full, Option.map_some, ← hl]
  · rfl

-- UTF-8 "h€", read character-wise with a marker, then word-wise over the end
example : (Spec.readRange BEnc.utf8 [0x68, 0xE2, 0x82, 0xAC]
    [.mark, .peek, .bump, .peek, .reset 0, .peekSwar, .bumpSwarN 4, .peek, .peekSwar]).isSome := by
  decide +kernel
example : ((Buf.ofData BEnc.utf8 [0x68, 0xE2]).bind
    (·.run BEnc.utf8 [.bump, .bump, .peek, .peekSwar]))
    = some [.pos 1, .pos 2, .char (some 0xFF), .word (2 ^ 64 - 1)] := by decide +kernel
example : Buf.writeAll (List.replicate 2 none) [(1, 7), (0, 5), (1, 6)] = [5, 6].map some := by
  decide +kernel

/-- The empty buffer does not behave like the empty range: `buffer()` has no allocation, so no
    sentinel either, and `peek()` dereferences a null pointer (buffer.hpp l.36-40, l.148-152,
    l.265-268).  The manual calls it "an empty buffer". -/
theorem C27_default_constructed_refuted : ¬ ∀ (e : BEnc) (ops : List ROp) (obs : List RObs),
    Spec.CharSize e → Spec.readRange e [] ops = some obs → Buf.empty.run e ops = some obs := by
  intro h
  have := h BEnc.utf8 [.peek] [.char (some 0xFF)] (Or.inl rfl) (by decide +kernel)
  revert this; decide +kernel

/-- For the encodings without sentinel it does. -/
theorem C27_default_constructed_partial (e : BEnc) (hse : e.sentinel = none)
    (he : Spec.CharSize e) (ops : List ROp) (obs : List RObs)
    (h : Spec.readRange e [] ops = some obs) : Buf.empty.run e ops = some obs := by
  have := run_sim e he [] ops {} obs ⟨Nat.le_refl _, nofun⟩ h
  have heq : ∀ s op, Buf.empty.step e s op = (Buf.full e []).step e s op := by
    intro s op
    simp [Buf.step, Buf.full, Buf.empty, hse, Buf.padding]
  have : (Buf.empty.step e) = (Buf.full e []).step e := by funext s op; exact heq s op
  rw [Buf.run, this]; assumption

namespace Spec
/-- A word read on a big endian machine must be the same value as on a little endian machine. -/
def BigWord (bytes : Nat) (cs : List Nat) : Prop :=
  peekSwarBig bytes (cs.map (serialise bytes .big)) = some (Swar.lanes ⟨8 * bytes, 8 / bytes⟩ cs)
end Spec

/-- C27: on a big endian machine, words of single byte characters are assembled correctly. -/
theorem C27_word_big_endian_partial (cs : List Nat) (hl : cs.length = 8) (hc : ∀ c ∈ cs, c < 256) :
    Spec.BigWord 1 cs := by
  match cs, hl with
  | [a, b, c, d, e, f, g, h], _ =>
    simp only [List.mem_cons, List.not_mem_nil, or_false, forall_eq_or_imp, forall_eq] at hc
    simp [Spec.BigWord, peekSwarBig, swarCopy, Spec.serialise, loadNative, Swar.lanes, Swar.B,
      List.range, List.range.loop, List.replicate]
    omega

/-- Not so for wider characters: the destination advances by one byte instead of one character
    (swar.hpp l.219). -/
theorem C27_word_big_endian_refuted : ¬ ∀ (bytes : Nat) (cs : List Nat),
    (bytes = 1 ∨ bytes = 2 ∨ bytes = 4) → cs.length = 8 / bytes → (∀ c ∈ cs, c < 256 ^ bytes) →
    Spec.BigWord bytes cs := by
  intro h
  have := h 4 [0x41, 0x42] (by decide) (by decide) (by decide)
  revert this; unfold Spec.BigWord; decide +kernel

end Verif
