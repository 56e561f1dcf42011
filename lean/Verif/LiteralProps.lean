import Verif.LiteralLemmas
import Verif.SwarProps

/-!
Properties C10 (literals), C11 (literal sets), C12 (symbol tables), C15 (ASCII case folding).
-/

namespace Verif

/-! ## C10 -/

theorem matchLiteral_map (eof : Option Nat) (fold : Nat → Nat) (lit : List Nat) : ∀ s,
    matchLiteral eof fold lit s = matchLiteral eof id lit (s.map fold) := by
  induction lit with
  | nil => intro s; simp [matchLiteral]
  | cons c lit ih =>
    intro s
    cases s with
    | nil => rfl
    | cons u s => simp only [matchLiteral, peekIs, List.map_cons, id, ih s]

/-- C10: a literal matches exactly if it is a prefix of the input; it then consumes exactly the
    literal; on a mismatch the reader stops after the longest common prefix (which is the reported
    index), and the reader is never bumped past the end. -/
theorem C10_literal_prefix (eof : Option Nat) (lit s : List Nat) (h : ∀ c ∈ lit, eof ≠ some c) :
    ∃ b n, matchLiteral eof id lit s = some (b, n) ∧ (b = true ↔ lit <+: s) ∧
      (b = true → n = lit.length) ∧ n ≤ lit.length ∧ lit.take n <+: s ∧
      (b = false → ¬ lit.take (n + 1) <+: s) := by
  induction lit generalizing s with
  | nil => exact ⟨true, 0, rfl, by simp⟩
  | cons c lit ih =>
    have h' : ∀ d ∈ lit, eof ≠ some d := fun d hd => h d (List.mem_cons_of_mem _ hd)
    cases s with
    | nil =>
      have := h c (by simp)
      refine ⟨false, 0, ?_, by simp⟩
      simp [matchLiteral, peekIs, this]
    | cons u s =>
      by_cases e : u = c
      · subst e
        obtain ⟨b, n, h1, h2, h3, h4, h5, h6⟩ := ih s h'
        refine ⟨b, n + 1, ?_, ?_, ?_, ?_, ?_, ?_⟩
        · simp [matchLiteral, peekIs, h1]
        · rw [h2]; simp
        · intro hb; simp [h3 hb]
        · simpa using h4
        · simpa using h5
        · intro hb; simpa using h6 hb
      · refine ⟨false, 0, ?_, ?_⟩
        · simp [matchLiteral, peekIs, e]
        · simp; omega

example : matchLiteral (some 0xFF) id [0x61, 0x62, 0x63] [0x61, 0x62, 0x78] = some (false, 2) := by decide

/-- The hypothesis of C10 is needed: a UTF-8 literal containing the unit FF matches at the end of the
    input, and the reader is bumped past the end. -/
example : matchLiteral (some 0xFF) id [0x61, 0xFF] [0x61] = none := by decide

theorem matchLiteral_append (eof : Option Nat) (a lit s : List Nat) :
    matchLiteral eof id (a ++ lit) (a ++ s) =
      (matchLiteral eof id lit s).map fun r => (r.1, r.2 + a.length) := by
  induction a with
  | nil => simp
  | cons c a ih =>
    simp only [List.cons_append, matchLiteral, peekIs, id, beq_self_eq_true, if_true, ih,
      Option.map_map, List.length_cons]
    congr 1

theorem matchLiteral_diff (eof : Option Nat) (a lit s : List Nat) (c : Nat)
    (h : peekIs eof id s c = false) :
    matchLiteral eof id (a ++ c :: lit) (a ++ s) = some (false, a.length) := by
  rw [matchLiteral_append]
  simp [matchLiteral, h]

/-- First difference of two lists of equal length. -/
theorem exists_first_diff : ∀ (a b : List Nat), a.length = b.length → a ≠ b →
    ∃ p x y a' b', a = p ++ x :: a' ∧ b = p ++ y :: b' ∧ x ≠ y := by
  intro a
  induction a with
  | nil => intro b hl hne; cases b <;> simp_all
  | cons u a ih =>
    intro b hl hne
    cases b with
    | nil => simp at hl
    | cons v b =>
      by_cases e : u = v
      · subst e
        obtain ⟨p, x, y, a', b', h1, h2, h3⟩ := ih b (by simpa using hl) (by simpa using hne)
        exact ⟨u :: p, x, y, a', b', by simp [h1], by simp [h2], h3⟩
      · exact ⟨[], u, v, a, b, rfl, rfl, e⟩

theorem prefix_of_prefix_append_replicate {l s : List Nat} {m e : Nat} (he : e ∉ l)
    (h : l <+: s ++ List.replicate m e) : l <+: s := by
  rcases Nat.le_total l.length s.length with hl | hl
  · exact List.prefix_of_prefix_length_le h (List.prefix_append _ _) hl
  · obtain ⟨t, rfl⟩ := List.prefix_of_prefix_length_le (List.prefix_append s (List.replicate m e)) h hl
    rw [List.prefix_append_right_inj] at h
    cases t with
    | nil => simp
    | cons x t =>
      exfalso
      obtain ⟨r, hr⟩ := h
      have : x ∈ List.replicate m e := by rw [← hr]; simp
      rw [List.mem_replicate] at this
      apply he
      simp [this.2]

theorem find_difference_pad (k : Swar) (hw : 0 < k.w) (p a' b' : List Nat) (x y : Nat)
    (ha : k.Fits (p ++ x :: a')) (hb : k.Fits (p ++ y :: b')) (hlen : a'.length = b'.length)
    (hn : (p ++ x :: a').length ≤ k.n) (hne : x ≠ y) :
    k.findDifference (k.lanes (p ++ x :: a')) (k.lanes (p ++ y :: b')) = p.length := by
  have zero : ∀ j, k.lanes (List.replicate j 0) = 0 := by
    intro j; induction j with
    | zero => rfl
    | succ j ih => simp [List.replicate_succ, Swar.lanes, ih]
  have pad : ∀ (l : List Nat) j, k.lanes l = k.lanes (l ++ List.replicate j 0) := by
    intro l j; rw [Swar.lanes_append, zero]; simp
  have hB := k.B_pos
  have fz : ∀ (l : List Nat) j, k.Fits l → k.Fits (l ++ List.replicate j 0) := by
    intro l j hl x hx
    rcases List.mem_append.1 hx with hx | hx
    · exact hl x hx
    · rw [List.eq_of_mem_replicate hx]; exact hB
  simp only [List.length_append, List.length_cons] at hn
  rw [pad (p ++ x :: a') (k.n - (p.length + (a'.length + 1))),
    pad (p ++ y :: b') (k.n - (p.length + (a'.length + 1)))]
  apply Swar.C07_find_difference_exact k hw _ _
      ⟨by simp; omega, fz _ _ ha⟩ ⟨by simp; omega, fz _ _ hb⟩ p.length (by omega)
  · simp [hne]
  · intro j hj
    simp [hj]

theorem swar_chunk_mismatch (k : Swar) (hw : 0 < k.w) (chunk word : List Nat)
    (hword : Swar.Word k word) (hfits : k.Fits chunk) (hlen : chunk.length ≤ k.n)
    (h : ¬ chunk <+: word) :
    ∃ p x y c' w', chunk = p ++ x :: c' ∧ word = p ++ y :: w' ∧ x ≠ y ∧
      k.findDifference (k.lanes (word.take chunk.length)) (k.lanes chunk) = p.length := by
  have hl : (word.take chunk.length).length = chunk.length := by
    have := hword.len; simp; omega
  have hne : chunk ≠ word.take chunk.length := by
    intro e; apply h; rw [e]; exact List.take_prefix _ _
  have hfw : k.Fits (word.take chunk.length) := fun x hx => hword.lt x (List.mem_of_mem_take hx)
  obtain ⟨p, x, y, c', w', h1, h2, h3⟩ := exists_first_diff chunk (word.take chunk.length) hl.symm hne
  refine ⟨p, x, y, c', w' ++ word.drop chunk.length, h1, ?_, h3, ?_⟩
  · conv => lhs; rw [← List.take_append_drop chunk.length word, h2]
    simp
  · rw [h2] at hl hfw ⊢
    rw [h1] at hl hfits hlen ⊢
    exact find_difference_pad k hw p w' c' y x hfw hfits (by simpa using hl) (by rw [hl]; exact hlen)
      (Ne.symm h3)

/-- C10: on a buffer with word-wise reads the literal matcher gives the same result (for a literal whose
    character type has the same size as the one of the input). -/
theorem C10_literal_swar (k : Swar) (hw : 0 < k.w) (hn : 0 < k.n) (e m : Nat) (hm : k.n ≤ m)
    (he : e < 2 ^ k.w) (lit s : List Nat) (hlit : ∀ c ∈ lit, c < 2 ^ k.w) (hs : ∀ c ∈ s, c < 2 ^ k.w)
    (hne : e ∉ lit) :
    matchLiteralSwar k k lit 0 (s ++ List.replicate m e) = matchLiteral (some e) id lit s := by
  have gen : ∀ (d idx : Nat) (s : List Nat), lit.length - idx = d → (∀ c ∈ s, c < 2 ^ k.w) →
      idx ≤ lit.length →
      matchLiteralSwar k k lit idx (s ++ List.replicate m e) =
        (matchLiteral (some e) id (lit.drop idx) s).map fun r => (r.1, r.2 + idx) := by
    intro d
    induction d using Nat.strongRecOn with
    | ind d ih =>
      intro idx s hd hs hidx
      rw [matchLiteralSwar]
      by_cases h0 : idx ≥ lit.length
      · rw [if_pos h0, List.drop_eq_nil_of_le h0]; simp [matchLiteral]
      · rw [if_neg h0]
        have hlong : k.n ≤ (s ++ List.replicate m e).length := by simp; omega
        have hpeek : k.peekSwar (s ++ List.replicate m e) =
            some (k.lanes ((s ++ List.replicate m e).take k.n)) := by
          unfold Swar.peekSwar; rw [if_neg (by omega)]
        rw [hpeek]
        simp only
        have hfm : ∀ c ∈ s ++ List.replicate m e, c < 2 ^ k.w := by
          intro c hc
          rcases List.mem_append.1 hc with hc | hc
          · exact hs c hc
          · rw [List.eq_of_mem_replicate hc]; exact he
        have hword : Swar.Word k ((s ++ List.replicate m e).take k.n) :=
          ⟨by rw [List.length_take, Nat.min_eq_left hlong], fun c hc => hfm c (List.mem_of_mem_take hc)⟩
        obtain ⟨hcount, hval, hcmp⟩ := Swar.C07_pack_exact k hw hn idx lit hlit
        obtain ⟨_, _, hmask⟩ := Swar.pack_facts (k := k) hw hn idx lit hlit
        have hclen : ((lit.drop idx).take k.n).length = (k.pack idx lit).count := by
          rw [hcount]; simp; omega
        have hcfits : k.Fits ((lit.drop idx).take k.n) := fun c hc =>
          hlit c (List.mem_of_mem_drop (List.mem_of_mem_take hc))
        by_cases hmatch : (lit.drop idx).take k.n <+: (s ++ List.replicate m e).take k.n
        · rw [if_pos ((hcmp _ hword).2 hmatch), dif_pos (by rw [hcount]; omega)]
          have hpre : (lit.drop idx).take k.n <+: s := by
            apply prefix_of_prefix_append_replicate (m := m) (e := e)
            · intro hc; exact hne (List.mem_of_mem_drop (List.mem_of_mem_take hc))
            · exact hmatch.trans (List.take_prefix _ _)
          obtain ⟨s', rfl⟩ := hpre
          rw [List.append_assoc, List.drop_append_of_le_length (by omega), List.drop_eq_nil_of_le (by omega),
            List.nil_append]
          rw [ih (lit.length - (idx + (k.pack idx lit).count)) (by rw [hcount]; omega) _ _ rfl
            (fun c hc => hs c (List.mem_append_right _ hc)) (by rw [hcount]; omega)]
          have happ := matchLiteral_append (some e) ((lit.drop idx).take k.n) ((lit.drop idx).drop k.n) s'
          rw [List.take_append_drop] at happ
          rw [happ, Option.map_map, hclen]
          have : (lit.drop idx).drop k.n = lit.drop (idx + (k.pack idx lit).count) := by
            rw [List.drop_drop, hcount]
            rcases Nat.le_total (lit.length - idx) k.n with h | h
            · rw [Nat.min_eq_left h, List.drop_eq_nil_of_le (by omega), List.drop_eq_nil_of_le (by omega)]
            · rw [Nat.min_eq_right h]
          rw [this]
          congr 1
          funext r
          simp only [Function.comp, Prod.mk.injEq, true_and]; omega
        · rw [if_neg (fun h => hmatch ((hcmp _ hword).1 h))]
          have hmt : k.lanes ((s ++ List.replicate m e).take k.n) &&& (k.pack idx lit).mask =
              k.lanes (((s ++ List.replicate m e).take k.n).take ((lit.drop idx).take k.n).length) := by
            rw [hmask, Swar.lanes_mask_take _ _ hword.lt (by rw [hword.len]; omega), hclen, hcount]
          obtain ⟨p, x, y, c', w', h1, h2, h3, h4⟩ := swar_chunk_mismatch k hw _ _ hword hcfits
            (by rw [hclen, hcount]; omega) hmatch
          rw [hmt, hval, h4]
          -- the plain matcher stops at the same place
          have hlitd : lit.drop idx = p ++ x :: (c' ++ (lit.drop idx).drop k.n) := by
            conv => lhs; rw [← List.take_append_drop k.n (lit.drop idx), h1]
            simp
          have hsd : s ++ List.replicate m e = p ++ y :: (w' ++ (s ++ List.replicate m e).drop k.n) := by
            conv => lhs; rw [← List.take_append_drop k.n (s ++ List.replicate m e), h2]
            simp
          have hxe : x ≠ e := by
            intro hx; apply hne; rw [← hx]
            apply List.mem_of_mem_drop (i := idx); rw [hlitd]; simp
          have hps : p <+: s := by
            apply prefix_of_prefix_append_replicate (m := m) (e := e)
            · intro hc; apply hne; apply List.mem_of_mem_drop (i := idx); rw [hlitd]; simp [hc]
            · rw [hsd]; exact List.prefix_append _ _
          obtain ⟨s', rfl⟩ := hps
          rw [hlitd, matchLiteral_diff]
          · simp; omega
          · rw [List.append_assoc, List.append_cancel_left_eq] at hsd
            cases s' with
            | nil => simp [peekIs, Ne.symm hxe]
            | cons z s' =>
              simp only [List.cons_append, List.cons.injEq] at hsd
              simp [peekIs, hsd.1, Ne.symm h3]
  rw [gen lit.length 0 s (by omega) hs (by omega)]
  simp

example : matchLiteralSwar .char8 .char8 [0x61,0x62,0x63,0x64,0x65,0x66,0x67,0x68,0x69] 0
    ([0x61,0x62,0x63,0x64,0x65,0x66,0x67,0x68,0x70] ++ List.replicate 8 0xFF) = some (false, 8) := by
  decide +kernel

/-- C10 is false for a `char` literal on a UTF-32 buffer: the word comparison computes the index of the
    mismatch with the size of the literal's characters.  Literal "ab" on the input "ac": the common
    prefix has length 1, but the reader is advanced by 4 units, past the end of the input. -/
theorem C10_literal_swar_refuted :
    matchLiteralSwar .char32 .char8 [0x61, 0x62] 0 ([0x61, 0x63] ++ List.replicate 2 0xFFFFFFFF)
      = some (false, 4) ∧
    matchLiteral (some 0xFFFFFFFF) id [0x61, 0x62] [0x61, 0x63] = some (false, 1) := by
  decide +kernel

/-! ## C15 -/

/-- Specification: two units are equal up to ASCII letter case. -/
def Spec.SameLetter (a b : Nat) : Prop :=
  a = b ∨ (0x41 ≤ a ∧ a ≤ 0x5A ∧ b = a + 32) ∨ (0x41 ≤ b ∧ b ≤ 0x5A ∧ a = b + 32)

inductive Spec.SameText : List Nat → List Nat → Prop
  | nil : SameText [] []
  | cons {a b as bs} : SameLetter a b → SameText as bs → SameText (a :: as) (b :: bs)

def Spec.IsUpper (c : Nat) : Prop := 0x41 ≤ c ∧ c ≤ 0x5A

theorem asciiFold_idem (c : Nat) : asciiFold (asciiFold c) = asciiFold c := by
  unfold asciiFold; (repeat' split) <;> omega

theorem asciiFold_eq_iff {u c : Nat} (hc : ¬ Spec.IsUpper c) : asciiFold u = c ↔ Spec.SameLetter u c := by
  unfold asciiFold Spec.SameLetter; unfold Spec.IsUpper at hc
  split <;> omega

/-- C15: a case folded literal (without upper case letters, as documented) matches exactly the inputs
    starting with as many units as the literal has, each equal up to ASCII letter case to the
    corresponding unit of the literal. -/
theorem C15_ascii_case_folding (eof : Option Nat) (lit s : List Nat) (h : ∀ c ∈ lit, eof ≠ some c)
    (hlow : ∀ c ∈ lit, ¬ Spec.IsUpper c) :
    ∃ b n, matchLiteral eof asciiFold lit s = some (b, n) ∧ n ≤ lit.length ∧ n ≤ s.length ∧
      (b = true → n = lit.length) ∧
      (b = true ↔ ∃ p t, s = p ++ t ∧ Spec.SameText p lit) := by
  rw [matchLiteral_map]
  obtain ⟨b, n, h1, h2, h3, h4, h5, h6⟩ := C10_literal_prefix eof lit (s.map asciiFold) h
  refine ⟨b, n, h1, h4, ?_, h3, ?_⟩
  · have := h5.length_le; simp at this; omega
  · rw [h2]
    clear h1 h2 h3 h4 h5 h6 h
    induction lit generalizing s with
    | nil => simp only [List.nil_prefix, true_iff]; exact ⟨[], s, rfl, .nil⟩
    | cons c lit ih =>
      cases s with
      | nil =>
        simp only [List.map_nil, List.prefix_nil, reduceCtorEq, false_iff, not_exists, not_and]
        intro p t hp
        have hp' : p = [] ∧ t = [] := by simpa using hp.symm
        rw [hp'.1]; intro hf; cases hf
      | cons u s =>
        rw [List.map_cons, List.cons_prefix_cons, eq_comm, asciiFold_eq_iff (hlow c (by simp)),
          ih s (fun d hd => hlow d (List.mem_cons_of_mem _ hd))]
        constructor
        · rintro ⟨h1, p, t, rfl, h2⟩
          exact ⟨u :: p, t, rfl, .cons h1 h2⟩
        · rintro ⟨p, t, hp, hf⟩
          cases hf with
          | cons h1 h2 =>
            simp only [List.cons_append, List.cons.injEq] at hp
            obtain ⟨rfl, rfl⟩ := hp
            exact ⟨h1, _, _, rfl, h2⟩

/-- As documented, a case folded literal with an upper case letter never matches. -/
theorem C15_upper_literal_never (eof : Option Nat) (lit s : List Nat) (h : ∀ c ∈ lit, eof ≠ some c)
    (hup : ∃ c ∈ lit, Spec.IsUpper c) :
    ∃ n, matchLiteral eof asciiFold lit s = some (false, n) := by
  rw [matchLiteral_map]
  obtain ⟨b, n, h1, h2, -⟩ := C10_literal_prefix eof lit (s.map asciiFold) h
  cases b with
  | false => exact ⟨n, h1⟩
  | true =>
    exfalso
    obtain ⟨t, ht⟩ := h2.1 rfl
    obtain ⟨c, hc, hu⟩ := hup
    have : c ∈ s.map asciiFold := by rw [← ht]; simp [hc]
    obtain ⟨u, -, rfl⟩ := List.mem_map.1 this
    unfold asciiFold Spec.IsUpper at hu
    split at hu <;> omega

example : matchLiteral none asciiFold [0x69, 0x6E, 0x74, 0x5B] [0x49, 0x6E, 0x54, 0x5B, 0x41] = some (true, 4) := by
  decide

/-! ## C11 -/

/-- Specification: the literal rule on its own matches at the beginning of `s` (a plain literal: it is a
    prefix; a keyword: additionally not followed by a character of its class). -/
def Lit.Matches (l : Lit) (s : List Nat) : Prop :=
  l.str <+: s ∧ ∀ f, l.kw = some f → f (s.drop l.str.length) = false

/-- What the trie built from `pre` stores. -/
structure SetInv (pre : List Lit) (t : Trie) : Prop where
  inv : t.Inv
  val : ∀ u v, t.valAt u = some v ↔ v = 0 ∧ ∃ l ∈ pre, l.str = u
  cls : ∀ u i, t.clsAt u = some i → ∃ l ∈ pre, ∃ f, l.str = u ∧ l.kw = some f ∧ (litClasses pre)[i]? = some f
  clsNone : ∀ u, t.clsAt u = none → ∀ l ∈ pre, l.str = u → l.kw = none
  chars : ∀ tr ∈ t.trans, ∃ l ∈ pre, tr.char ∈ l.str

theorem setInv_step {pre : List Lit} {t : Trie} (h : SetInv pre t) (l : Lit) :
    SetInv (pre ++ [l]) (t.insertLit l (litClasses pre).length 0) := by
  obtain ⟨i1, i2, i3, i4⟩ := Trie.insertLit_spec h.inv l (litClasses pre).length 0
  have hcl : litClasses (pre ++ [l]) = litClasses pre ++ l.kw.toList := by
    unfold litClasses; rw [List.filterMap_append]; cases hk : l.kw <;> simp [hk]
  refine ⟨i1, ?_, ?_, ?_, ?_⟩
  · intro u v
    rw [i2]
    split
    · rename_i e; subst e
      constructor
      · intro hv; simp only [Option.some.injEq] at hv; exact ⟨hv.symm, l, by simp, rfl⟩
      · rintro ⟨rfl, -⟩; rfl
    · rename_i e
      rw [h.val]
      simp only [List.mem_append, List.mem_singleton]
      constructor
      · rintro ⟨h0, l', h1, h2⟩; exact ⟨h0, l', .inl h1, h2⟩
      · rintro ⟨h0, l', h1 | h1, h2⟩
        · exact ⟨h0, l', h1, h2⟩
        · exact absurd (h1 ▸ h2.symm) e
  · intro u i hi
    rw [i3] at hi
    rw [hcl]
    split at hi
    · rename_i e
      obtain ⟨rfl, hk⟩ := e
      simp only [Option.some.injEq] at hi
      subst hi
      obtain ⟨f, hf⟩ := Option.isSome_iff_exists.1 hk
      exact ⟨l, by simp, f, rfl, hf, by simp [hf]⟩
    · obtain ⟨l', h1, f, h2, h3, h4⟩ := h.cls u i hi
      refine ⟨l', by simp [h1], f, h2, h3, ?_⟩
      rw [List.getElem?_append_left]
      · exact h4
      · exact (List.getElem?_eq_some_iff.1 h4).1
  · intro u hu l' hl' hs
    rw [i3] at hu
    split at hu
    · simp at hu
    · rename_i e
      rcases List.mem_append.1 hl' with h1 | h1
      · exact h.clsNone u hu l' h1 hs
      · simp only [List.mem_singleton] at h1
        subst h1
        simp only [hs, true_and] at e
        simpa using e
  · intro tr htr
    rcases i4 tr htr with h1 | h1
    · obtain ⟨l', h2, h3⟩ := h.chars tr h1
      exact ⟨l', by simp [h2], h3⟩
    · exact ⟨l, by simp, h1⟩

theorem setInv_build (ls : List Lit) : SetInv ls (buildSet ls) := by
  have gen : ∀ (ls pre : List Lit) (t : Trie), SetInv pre t →
      SetInv (pre ++ ls) (ls.foldl (fun (st : Trie × Nat) l =>
        (st.1.insertLit l st.2 0, st.2 + (if l.kw.isSome then 1 else 0)))
          (t, (litClasses pre).length)).1 := by
    intro ls
    induction ls with
    | nil => intro pre t h; simpa using h
    | cons l ls ih =>
      intro pre t h
      rw [List.foldl_cons]
      have := ih (pre ++ [l]) _ (setInv_step h l)
      rw [List.append_assoc, List.singleton_append] at this
      have hlen : (litClasses (pre ++ [l])).length =
          (litClasses pre).length + (if l.kw.isSome then 1 else 0) := by
        unfold litClasses; rw [List.filterMap_append]; cases hk : l.kw <;> simp [hk]
      rw [hlen] at this
      exact this
  have h0 : SetInv [] Trie.empty := by
    refine ⟨Trie.inv_empty, ?_, ?_, ?_, ?_⟩
    · intro u v
      have : Trie.empty.valAt u = none := by
        unfold Trie.valAt
        cases u with
        | nil => rfl
        | cons c u => simp [Trie.walk, Trie.step, Trie.nodeTransitions, Trie.empty]
      simp [this]
    · intro u i hi
      have : Trie.empty.clsAt u = none := by
        unfold Trie.clsAt
        cases u with
        | nil => rfl
        | cons c u => simp [Trie.walk, Trie.step, Trie.nodeTransitions, Trie.empty]
      rw [this] at hi; simp at hi
    · intro _ _ l hl; simp at hl
    · intro tr htr; simp [Trie.empty] at htr
  exact gen ls [] Trie.empty h0

/-- Same string, same kind. -/
def SetConsistent (ls : List Lit) : Prop := ∀ l ∈ ls, ∀ l' ∈ ls, l.str = l'.str → l.kw = l'.kw

theorem set_accept {ls : List Lit} (hcons : SetConsistent ls) {w rest : List Nat} {v : Nat} :
    (buildSet ls).Accept (litClasses ls) 0 w rest v ↔
      v = 0 ∧ ∃ l ∈ ls, l.str = w ∧ ∀ f, l.kw = some f → f rest = false := by
  have h := setInv_build ls
  rw [Trie.accept_root, h.val]
  constructor
  · rintro ⟨⟨h0, l, h1, h2⟩, h3⟩
    refine ⟨h0, l, h1, h2, ?_⟩
    intro f hf
    cases hc : (buildSet ls).clsAt w with
    | none => rw [h.clsNone w hc l h1 h2] at hf; simp at hf
    | some i =>
      obtain ⟨l', g1, g, g2, g3, g4⟩ := h.cls w i hc
      have := hcons l h1 l' g1 (h2.trans g2.symm)
      rw [hf, g3] at this
      simp only [Option.some.injEq] at this
      rw [this]; exact h3 i g hc g4
  · rintro ⟨h0, l, h1, h2, h3⟩
    refine ⟨⟨h0, l, h1, h2⟩, ?_⟩
    intro i f hi hf
    obtain ⟨l', g1, g, g2, g3, g4⟩ := h.cls w i hi
    rw [hf] at g4
    simp only [Option.some.injEq] at g4
    subst g4
    have := hcons l h1 l' g1 (h2.trans g2.symm)
    rw [g3] at this
    exact h3 f this

theorem map_take_prefix {s : List Nat} {n : Nat} {w : List Nat} (hn : n ≤ s.length) (h : w = s.take n) :
    w <+: s ∧ w.length = n := by
  subst h; exact ⟨List.take_prefix _ _, by simp; omega⟩

/-- C11 for sets that may contain keywords: the set matches exactly if some member rule does, and
    consumes the longest one.  Missing from the full claim: sets with two members that have the
    same string but are not the same rule, see `C11_mixed_refuted`. -/
theorem C11_set_longest_partial (ls : List Lit) (hcons : SetConsistent ls) (eof : Option Nat)
    (fold : Nat → Nat) (hfold : ∀ u, fold (fold u) = fold u)
    (heof : ∀ l ∈ ls, ∀ c ∈ l.str, eof ≠ some c) (s : List Nat) :
    ∃ r, matchSet ls eof fold s = some r ∧
      (∀ n, r = some n ↔ (∃ l ∈ ls, l.Matches (s.map fold) ∧ l.str.length = n) ∧
        ∀ l ∈ ls, l.Matches (s.map fold) → l.str.length ≤ n) ∧
      (r = none ↔ ∀ l ∈ ls, ¬ l.Matches (s.map fold)) := by
  have hinv := setInv_build ls
  have heof' : ∀ tr ∈ (buildSet ls).trans, eof ≠ some tr.char := by
    intro tr htr
    obtain ⟨l, hl, hc⟩ := hinv.chars tr htr
    exact heof l hl _ hc
  obtain ⟨r, hr, h1, h2⟩ := Trie.tryMatch_spec (litClasses ls) eof fold hfold heof' s 0
  simp only [set_accept hcons] at h1 h2
  have hmatch : ∀ l ∈ ls, l.Matches (s.map fold) → l.str.length ≤ s.length ∧
      (0 = 0 ∧ ∃ l' ∈ ls, l'.str = (s.map fold).take l.str.length ∧
        ∀ f, l'.kw = some f → f ((s.map fold).drop l.str.length) = false) := by
    intro l hl hm
    have := hm.1.length_le
    refine ⟨by simpa using this, rfl, l, hl, ?_, hm.2⟩
    exact List.prefix_iff_eq_take.1 hm.1
  refine ⟨r.map (·.2), by unfold matchSet; rw [hr]; rfl, ?_, ?_⟩
  · intro n
    constructor
    · intro hn
      cases r with
      | none => simp at hn
      | some p =>
        obtain ⟨v, n'⟩ := p
        simp only [Option.map_some, Option.some.injEq] at hn
        subst hn
        obtain ⟨h3, ⟨-, l, h4, h5, h6⟩, h7⟩ := h2 v n' rfl
        have hp := map_take_prefix (by simpa using h3) h5
        refine ⟨⟨l, h4, ⟨hp.1, ?_⟩, hp.2⟩, ?_⟩
        · rw [hp.2]; exact h6
        · intro l' hl' hm
          rcases Nat.lt_or_ge n' l'.str.length with hlt | hle
          · obtain ⟨a, b⟩ := hmatch l' hl' hm
            exact absurd b (h7 _ hlt a 0)
          · exact hle
    · rintro ⟨⟨l, hl, hm, rfl⟩, hmax⟩
      obtain ⟨a, b⟩ := hmatch l hl hm
      cases r with
      | none => exact absurd b (h1 rfl _ a 0)
      | some p =>
        obtain ⟨v, n'⟩ := p
        obtain ⟨h3, ⟨-, l', h4, h5, h6⟩, h7⟩ := h2 v n' rfl
        have hp := map_take_prefix (by simpa using h3) h5
        simp only [Option.map_some, Option.some.injEq]
        have g1 := hmax l' h4 ⟨hp.1, by rw [hp.2]; exact h6⟩
        rcases Nat.lt_or_ge n' l.str.length with hlt | hle
        · exact absurd b (h7 _ hlt a 0)
        · omega
  · constructor
    · intro hn l hl hm
      cases r with
      | some p => simp at hn
      | none =>
        obtain ⟨a, b⟩ := hmatch l hl hm
        exact h1 rfl _ a 0 b
    · intro hno
      cases r with
      | none => rfl
      | some p =>
        obtain ⟨v, n'⟩ := p
        obtain ⟨h3, ⟨-, l', h4, h5, h6⟩, h7⟩ := h2 v n' rfl
        have hp := map_take_prefix (by simpa using h3) h5
        exact absurd ⟨hp.1, by rw [hp.2]; exact h6⟩ (hno l' h4)

/-- C11: a set of plain literals matches exactly if some member is a prefix of the input, and then
    consumes the longest such member. -/
theorem C11_set_longest (ws : List (List Nat)) (eof : Option Nat)
    (heof : ∀ w ∈ ws, ∀ c ∈ w, eof ≠ some c) (s : List Nat) :
    ∃ r, matchSet (ws.map fun w => ⟨w, none⟩) eof id s = some r ∧
      (∀ n, r = some n ↔ (∃ w ∈ ws, w <+: s ∧ w.length = n) ∧ ∀ w ∈ ws, w <+: s → w.length ≤ n) ∧
      (r = none ↔ ∀ w ∈ ws, ¬ w <+: s) := by
  have := C11_set_longest_partial (ws.map fun w => ⟨w, none⟩) (by
    intro l hl l' hl' _
    obtain ⟨w, -, rfl⟩ := List.mem_map.1 hl
    obtain ⟨w', -, rfl⟩ := List.mem_map.1 hl'
    rfl) eof id (fun _ => rfl) (by
    intro l hl
    obtain ⟨w, hw, rfl⟩ := List.mem_map.1 hl
    exact heof w hw) s
  obtain ⟨r, h1, h2, h3⟩ := this
  refine ⟨r, h1, ?_, ?_⟩
  · intro n
    rw [h2]
    have : (∃ l ∈ ws.map (fun w => (⟨w, none⟩ : Lit)), l.Matches (s.map id) ∧ l.str.length = n) ↔
        ∃ w ∈ ws, w <+: s ∧ w.length = n := by
      constructor
      · rintro ⟨l, hl, hm, hn⟩
        obtain ⟨w, hw, rfl⟩ := List.mem_map.1 hl
        exact ⟨w, hw, by simpa using hm.1, hn⟩
      · rintro ⟨w, hw, hp, hn⟩
        exact ⟨⟨w, none⟩, List.mem_map.2 ⟨w, hw, rfl⟩, ⟨by simpa using hp, by simp⟩, hn⟩
    rw [this]
    simp [Lit.Matches]
  · rw [h3]; simp [Lit.Matches]

/-- C11: the order (and multiplicity) of the members does not matter. -/
theorem C11_set_order (ws ws' : List (List Nat)) (hsame : ∀ w, w ∈ ws ↔ w ∈ ws') (eof : Option Nat)
    (heof : ∀ w ∈ ws, ∀ c ∈ w, eof ≠ some c) (s : List Nat) :
    matchSet (ws.map fun w => ⟨w, none⟩) eof id s = matchSet (ws'.map fun w => ⟨w, none⟩) eof id s := by
  obtain ⟨r, h1, h2, h3⟩ := C11_set_longest ws eof heof s
  obtain ⟨r', h1', h2', h3'⟩ := C11_set_longest ws' eof (fun w hw => heof w ((hsame w).2 hw)) s
  rw [h1, h1']
  congr 1
  simp only [hsame] at h2 h3
  cases r' with
  | none => exact h3.2 (h3'.1 rfl)
  | some n => exact (h2 n).2 ((h2' n).1 rfl)

example : matchSet ([[0x61], [0x61, 0x62, 0x63], [0x62]].map fun w => ⟨w, none⟩) none id
    [0x61, 0x62, 0x64] = some (some 1) := by decide +kernel

/-- Identifier class `[a-z]`. -/
def exampleKwClass (s : List Nat) : Bool := match s with | [] => false | c :: _ => decide (0x61 ≤ c ∧ c ≤ 0x7A)

/-- C11 is false for a set with a plain literal and a keyword of the same spelling: the literal rule alone
    matches a prefix of the input (`int` of `integer`), but the set does not match. -/
theorem C11_mixed_refuted :
    ∃ ls : List Lit, ∃ s, (∃ l ∈ ls, l.Matches s) ∧ matchSet ls none id s = some none := by
  refine ⟨[⟨[0x69, 0x6E, 0x74], none⟩, ⟨[0x69, 0x6E, 0x74], some exampleKwClass⟩],
    [0x69, 0x6E, 0x74, 0x65], ⟨⟨[0x69, 0x6E, 0x74], none⟩, by simp, ⟨[0x65], rfl⟩, by simp⟩, ?_⟩
  decide +kernel

/-! ## C12 -/

structure SymInv (pre : List (List Nat)) (t : Trie) : Prop where
  inv : t.Inv
  val : ∀ u v, t.valAt u = some v ↔ pre[v]? = some u ∧ ∀ j : Nat, v < j → pre[j]? ≠ some u
  cls : ∀ u, t.clsAt u = none
  chars : ∀ tr ∈ t.trans, ∃ w ∈ pre, tr.char ∈ w

theorem symInv_step {pre : List (List Nat)} {t : Trie} (h : SymInv pre t) (w : List Nat) :
    SymInv (pre ++ [w]) ((t.insertStr 0 w).1.setValue (t.insertStr 0 w).2 pre.length) := by
  obtain ⟨e, hw, hc⟩ := Trie.insertStr_spec w h.inv 0 (Trie.nodeCount_pos h.inv)
  refine ⟨Trie.inv_setValue e.inv _ _, ?_, ?_, ?_⟩
  · intro u v
    rw [Trie.valAt_setValue e.inv hw, e.valAt h.inv]
    split
    · rename_i eq; subst eq
      constructor
      · intro hv
        simp only [Option.some.injEq] at hv
        subst hv
        refine ⟨by simp, ?_⟩
        intro j hj
        rw [List.getElem?_eq_none (by simp; omega)]; simp
      · rintro ⟨h1, h2⟩
        rcases Nat.lt_trichotomy v pre.length with hv | hv | hv
        · exact absurd (by simp) (h2 _ hv)
        · rw [hv]
        · rw [List.getElem?_eq_none (by simp; omega)] at h1; simp at h1
    · rename_i ne
      rw [h.val]
      have key : ∀ j : Nat, (pre ++ [w])[j]? = some u ↔ pre[j]? = some u := by
        intro j
        rw [List.getElem?_append]
        split
        · rfl
        · rename_i hj
          rw [List.getElem?_eq_none (by omega : pre.length ≤ j)]
          cases j - pre.length <;> simp [Ne.symm ne]
      simp only [ne_eq, key]
  · intro u; rw [Trie.clsAt_setValue, e.clsAt h.inv, h.cls]
  · intro tr htr
    rcases hc tr htr with h1 | h1
    · obtain ⟨w', h2, h3⟩ := h.chars tr h1
      exact ⟨w', by simp [h2], h3⟩
    · exact ⟨w, by simp, h1⟩

theorem symInv_build (syms : List (List Nat)) : SymInv syms (buildSymbols syms) := by
  have gen : ∀ (ls pre : List (List Nat)) (t : Trie), SymInv pre t →
      SymInv (pre ++ ls) (ls.foldl (fun (st : Trie × Nat) w =>
        ((let r := st.1.insertStr 0 w; r.1.setValue r.2 st.2), st.2 + 1)) (t, pre.length)).1 := by
    intro ls
    induction ls with
    | nil => intro pre t h; simpa using h
    | cons l ls ih =>
      intro pre t h
      rw [List.foldl_cons]
      have := ih (pre ++ [l]) _ (symInv_step h l)
      rw [List.append_assoc, List.singleton_append] at this
      simpa using this
  have h0 : SymInv [] Trie.empty := by
    refine ⟨Trie.inv_empty, ?_, ?_, ?_⟩
    · intro u v
      have : Trie.empty.valAt u = none := by
        unfold Trie.valAt
        cases u with
        | nil => rfl
        | cons c u => simp [Trie.walk, Trie.step, Trie.nodeTransitions, Trie.empty]
      simp [this]
    · intro u
      unfold Trie.clsAt
      cases u with
      | nil => rfl
      | cons c u => simp [Trie.walk, Trie.step, Trie.nodeTransitions, Trie.empty]
    · intro tr htr; simp [Trie.empty] at htr
  exact gen syms [] Trie.empty h0

/-- C12: matching a symbol table yields the index of the longest symbol that is a prefix of the (case
    folded) input and consumes exactly that symbol; it fails exactly if no symbol is a prefix.  For a
    symbol mapped more than once the last mapping is used. -/
theorem C12_symbol_longest (syms : List (List Nat)) (eof : Option Nat) (fold : Nat → Nat)
    (hfold : ∀ u, fold (fold u) = fold u) (heof : ∀ w ∈ syms, ∀ c ∈ w, eof ≠ some c) (s : List Nat) :
    ∃ r, symbolTryParse syms eof fold s = some r ∧
      (∀ i n, r = some (i, n) ↔ ∃ w, syms[i]? = some w ∧ (∀ j : Nat, i < j → syms[j]? ≠ some w) ∧
        w <+: s.map fold ∧ w.length = n ∧ ∀ w' ∈ syms, w' <+: s.map fold → w'.length ≤ n) ∧
      (r = none ↔ ∀ w ∈ syms, ¬ w <+: s.map fold) := by
  have hinv := symInv_build syms
  have heof' : ∀ tr ∈ (buildSymbols syms).trans, eof ≠ some tr.char := by
    intro tr htr
    obtain ⟨l, hl, hc⟩ := hinv.chars tr htr
    exact heof l hl _ hc
  have hacc : ∀ w rest v, (buildSymbols syms).Accept [] 0 w rest v ↔
      syms[v]? = some w ∧ ∀ j : Nat, v < j → syms[j]? ≠ some w := by
    intro w rest v
    rw [Trie.accept_root, hinv.val]; simp
  obtain ⟨r, hr, h1, h2⟩ := Trie.tryMatch_spec [] eof fold hfold heof' s 0
  simp only [hacc] at h1 h2
  -- every occurring symbol has a last index
  have last : ∀ w ∈ syms, ∃ i : Nat, syms[i]? = some w ∧ ∀ j : Nat, i < j → syms[j]? ≠ some w := by
    intro w hw
    clear hr h1 h2 hacc heof' hinv heof
    induction syms with
    | nil => simp at hw
    | cons a syms ih =>
      by_cases hin : w ∈ syms
      · obtain ⟨i, hi, hj⟩ := ih hin
        refine ⟨i + 1, by simpa using hi, ?_⟩
        intro j hlt
        obtain ⟨j, rfl⟩ : ∃ k, j = k + 1 := ⟨j - 1, by omega⟩
        simpa using hj j (by omega)
      · simp only [List.mem_cons, hin, or_false] at hw
        refine ⟨0, by simp [hw], ?_⟩
        intro j hlt hj
        obtain ⟨j, rfl⟩ : ∃ k, j = k + 1 := ⟨j - 1, by omega⟩
        simp only [List.getElem?_cons_succ] at hj
        exact hin (List.mem_of_getElem? hj)
  refine ⟨r, hr, ?_, ?_⟩
  · intro i n
    constructor
    · intro hri
      obtain ⟨h3, ⟨h4, h5⟩, h6⟩ := h2 i n hri
      refine ⟨_, h4, h5, List.take_prefix _ _, by simp; omega, ?_⟩
      intro w' hw' hp
      rcases Nat.lt_or_ge n w'.length with hlt | hle
      · obtain ⟨k, hk⟩ := last w' hw'
        have hl := hp.length_le
        simp only [List.length_map] at hl
        rw [List.prefix_iff_eq_take.1 hp] at hk
        exact absurd hk (h6 _ hlt hl k)
      · exact hle
    · rintro ⟨w, h3, h4, h5, rfl, h6⟩
      have hl := h5.length_le
      simp only [List.length_map] at hl
      have ew := List.prefix_iff_eq_take.1 h5
      cases r with
      | none => exact absurd ⟨ew ▸ h3, ew ▸ h4⟩ (h1 rfl _ hl i)
      | some p =>
        obtain ⟨v, n'⟩ := p
        obtain ⟨g3, ⟨g4, g5⟩, g6⟩ := h2 v n' rfl
        have hge := h6 _ (List.mem_of_getElem? g4) (List.take_prefix _ _)
        simp only [List.length_take, List.length_map] at hge
        have hn : n' = w.length := by
          rcases Nat.lt_or_ge n' w.length with hlt | hle
          · exact absurd ⟨ew ▸ h3, ew ▸ h4⟩ (g6 _ hlt hl i)
          · omega
        subst hn
        rw [← ew] at g4 g5
        have : v = i := by
          rcases Nat.lt_trichotomy v i with h | h | h
          · exact absurd h3 (g5 i h)
          · exact h
          · exact absurd g4 (h4 v h)
        rw [this]
  · constructor
    · intro hn w hw hp
      obtain ⟨k, hk⟩ := last w hw
      have hl := hp.length_le
      simp only [List.length_map] at hl
      rw [List.prefix_iff_eq_take.1 hp] at hk
      exact h1 hn _ hl k hk
    · intro hno
      cases r with
      | none => rfl
      | some p =>
        obtain ⟨v, n'⟩ := p
        obtain ⟨g3, ⟨g4, g5⟩, g6⟩ := h2 v n' rfl
        exact absurd (List.take_prefix _ _) (hno _ (List.mem_of_getElem? g4))

/-- C12: looking up an entire input (`symbol_table::parse`) finds a symbol exactly if the (case folded) input
    is that symbol. -/
theorem C12_symbol_parse (syms : List (List Nat)) (eof : Option Nat) (fold : Nat → Nat)
    (hfold : ∀ u, fold (fold u) = fold u) (heof : ∀ w ∈ syms, ∀ c ∈ w, eof ≠ some c) (s : List Nat)
    (hs : ∀ u ∈ s, eof ≠ some u) :
    ∃ r, symbolParse syms eof fold s = some r ∧
      ∀ i, r = some i ↔ syms[i]? = some (s.map fold) ∧ ∀ j : Nat, i < j → syms[j]? ≠ some (s.map fold) := by
  obtain ⟨r, hr, h1, h2⟩ := C12_symbol_longest syms eof fold hfold heof s
  unfold symbolParse
  rw [hr]
  cases r with
  | none =>
    refine ⟨none, rfl, ?_⟩
    intro i
    constructor
    · intro h; simp at h
    · rintro ⟨h3, -⟩
      exact absurd (List.prefix_refl _) (h2.1 rfl _ (List.mem_of_getElem? h3))
  | some p =>
    obtain ⟨v, n⟩ := p
    obtain ⟨w, h3, h4, h5, h6, h7⟩ := (h1 v n).1 rfl
    have hend : (s.drop n = [] ∨ (s.drop n).head? = eof) ↔ s.drop n = [] := by
      constructor
      · rintro (h | h)
        · exact h
        · cases hd : s.drop n with
          | nil => rfl
          | cons u t =>
            rw [hd] at h
            have : u ∈ s := List.mem_of_mem_drop (i := n) (by rw [hd]; simp)
            exact absurd h.symm (hs u this)
      · exact .inl
    simp only [hend]
    have hle := h5.length_le
    simp only [List.length_map] at hle
    by_cases hd : s.drop n = []
    · rw [if_pos hd]
      have hlen : s.length ≤ n := by simpa using hd
      have hw : w = s.map fold := h5.eq_of_length (by simp; omega)
      subst hw
      refine ⟨some v, rfl, ?_⟩
      intro i
      constructor
      · rintro h; simp only [Option.some.injEq] at h; subst h; exact ⟨h3, h4⟩
      · rintro ⟨g1, g2⟩
        congr 1
        rcases Nat.lt_trichotomy v i with h | h | h
        · exact absurd g1 (h4 i h)
        · exact h
        · exact absurd h3 (g2 v h)
    · rw [if_neg hd]
      refine ⟨none, rfl, ?_⟩
      intro i
      constructor
      · intro h; simp at h
      · rintro ⟨g1, -⟩
        exfalso
        have := h7 _ (List.mem_of_getElem? g1) (List.prefix_refl _)
        simp only [List.length_map] at this
        exact hd (List.drop_eq_nil_of_le this)

example : symbolTryParse [[0x61], [0x61, 0x62, 0x63], [0x62]] none id [0x61, 0x62, 0x63, 0x64] =
    some (some (1, 3)) ∧ symbolParse [[0x61], [0x61, 0x62]] none asciiFold [0x41, 0x42] = some (some 1) ∧
    symbolParse [[0x61], [0x61, 0x62]] none id [0x61, 0x63] = some none := by
  decide +kernel

end Verif
