import Verif.Meta

/-
C93: compile-time lists.
-/

namespace Verif.Meta

namespace Spec

/-- The array of a string literal with the characters `cs`. -/
def literal (cs : List Nat) : List Nat := cs ++ [0]

end Spec

/-- C93: the index sequence of size `n` is `0, 1, …, n - 1`. -/
theorem C93_index_sequence (n : Nat) : makeIndexSequence n = List.range n := by
  fun_induction makeIndexSequence n with
  | case1 => rfl
  | case2 => rfl
  | case3 n ih1 ih2 =>
    have : n + 2 = (n + 2) / 2 + (n + 2 - (n + 2) / 2) := by omega
    rw [ih2, ih1, concatSeq, List.length_range]
    exact (List.range_add (n := (n + 2) / 2) (m := n + 2 - (n + 2) / 2)).symm.trans (congrArg _ this.symm)

theorem nthType_eq {α : Type} (ts : List α) : ∀ n, nthType n ts = ts[n]? := by
  induction ts with
  | nil => intro n; cases n <;> rfl
  | cons t ts ih =>
    intro n
    cases n with
    | zero => rfl
    | succ n => simp [nthType, ih]

theorem find_holder {τ ν : Type} [DecidableEq τ] (ts : List τ) : ∀ (vs : List ν) (off n : Nat) (t : τ) (v : ν),
    ts[n]? = some t → vs[n]? = some v →
    ((((List.range' off ts.length).zip ts).zip vs).find? fun h => h.1 == (off + n, t)).map (·.2) = some v := by
  induction ts with
  | nil => intro vs off n t v h; simp at h
  | cons t0 ts ih =>
    intro vs off n t v ht hv
    cases vs with
    | nil => simp at hv
    | cons v0 vs =>
      simp only [List.length_cons, List.range'_succ, List.zip_cons_cons, List.find?_cons]
      cases n with
      | zero =>
        simp only [List.getElem?_cons_zero, Option.some.injEq] at ht hv
        subst ht; subst hv; simp
      | succ n =>
        simp only [List.getElem?_cons_succ] at ht hv
        have : ((off, t0) == (off + (n + 1), t)) = false := by
          simp only [beq_eq_false_iff_ne, ne_eq, Prod.mk.injEq]; omega
        rw [this]
        have := ih vs (off + 1) n t v ht hv
        rw [show off + 1 + n = off + (n + 1) by omega] at this
        exact this

/-- C93: `get<N>` of a tuple is the `N`-th value it was made of, also if types repeat; there is none
    if `N` is too large. -/
theorem C93_tuple {τ ν : Type} [DecidableEq τ] (ts : List τ) (vs : List ν) (h : ts.length = vs.length) :
    ∃ hs, holders ts vs = some hs ∧ ∀ n, get ts hs n = vs[n]? := by
  refine ⟨_, if_pos h, fun n => ?_⟩
  simp only [get, nthType_eq]
  by_cases hn : n < ts.length
  · rw [List.getElem?_eq_getElem hn, List.getElem?_eq_getElem (h ▸ hn)]
    have := find_holder ts vs 0 n _ _ (List.getElem?_eq_getElem hn) (List.getElem?_eq_getElem (h ▸ hn))
    rw [Nat.zero_add] at this
    simp only [Option.bind_some, C93_index_sequence, List.range_eq_range']
    exact this
  · rw [List.getElem?_eq_none (by omega), List.getElem?_eq_none (by omega)]; rfl

theorem mapM_range (cs rest : List Nat) : ∀ (off : Nat) (pre : List Nat), pre.length = off →
    (List.range' off cs.length).mapM (fun i => (pre ++ cs ++ rest)[i]?) = some cs := by
  induction cs with
  | nil => intro off pre _; rfl
  | cons c cs ih =>
    intro off pre h
    have := ih (off + 1) (pre ++ [c]) (by simp [h])
    simp only [List.append_assoc, List.cons_append, List.nil_append] at this
    simp only [List.length_cons, List.range'_succ, List.mapM_cons, List.append_assoc, List.cons_append, this]
    simp [← h]

theorem literalData_eq (cs : List Nat) : literalData cs.length (cs ++ [0]) = cs.map some := by
  refine List.ext_getElem? fun i => ?_
  simp only [literalData, List.getElem?_map]
  by_cases h : i < cs.length
  · rw [List.getElem?_range h, List.getElem?_eq_getElem h]
    simp [List.getElem?_append_left h, List.getElem?_eq_getElem h]
  · rw [List.getElem?_eq_none (by simp; omega), List.getElem?_eq_none (by omega)]; rfl

theorem viaNttp_eq (cs : List Nat) : viaNttp (Spec.literal cs) = some cs := by
  have hf : (fun i : Nat => ((cs.map some)[i]?).join) = fun i => ([] ++ cs ++ [])[i]? := by
    funext i
    simp only [List.getElem?_map, List.nil_append, List.append_nil]
    cases cs[i]? <;> rfl
  simp only [viaNttp, Spec.literal, List.length_append, List.length_cons, List.length_nil, Nat.zero_add, Nat.add_sub_cancel,
    C93_index_sequence, literalData_eq, hf]
  rw [List.range_eq_range']
  exact mapM_range cs [] 0 [] rfl

theorem stringN_eq (cs : List Nat) : ∀ k i, stringN (Spec.literal cs) k i = some ((cs.drop i).take (2 ^ k)) := by
  intro k
  induction k with
  | zero =>
    intro i
    have hl : litLen (Spec.literal cs) = cs.length := by simp [litLen, Spec.literal]
    simp only [stringN, string1, hl]
    by_cases h : i < cs.length
    · rw [if_neg (by omega)]
      simp only [Spec.literal, List.getElem?_append_left h, List.getElem?_eq_getElem h, Option.map_some, if_pos h]
      rw [List.drop_eq_getElem_cons h]; rfl
    · rw [if_pos (by omega)]
      have h0 : ∃ c, (Spec.literal cs)[0]? = some c := ⟨_, List.getElem?_eq_getElem (by simp [Spec.literal])⟩
      obtain ⟨c, hc⟩ := h0
      rw [hc, List.drop_eq_nil_of_le (by omega)]
      simp [h]
  | succ k ih =>
    intro i
    simp only [stringN, ih, Option.bind_some, Option.map_some, Option.some.injEq]
    rw [← List.drop_drop, Nat.pow_succ, Nat.mul_two, List.take_add]

/-- C93: the three implementations of string literals as template arguments yield the characters of
    the literal, including NULs inside of it; the one with macros only up to 32 characters, more do
    not compile. -/
theorem C93_string (cs : List Nat) :
    viaNttp (Spec.literal cs) = some cs ∧ viaUdl (Spec.literal cs) = some cs ∧
    viaMacro (Spec.literal cs) = if cs.length ≤ 32 then some cs else none := by
  refine ⟨viaNttp_eq cs, by simp [viaUdl, Spec.literal], ?_⟩
  have hl : litLen (Spec.literal cs) = cs.length := by simp [litLen, Spec.literal]
  simp only [viaMacro, hl, stringN_eq]
  split
  · next h => rw [List.drop_zero, List.take_of_length_le (by omega)]
  · rfl

/-- C93: `c_str` is the NUL terminated string; for another character type it exists exactly if all
    characters are ASCII, which no character changes. -/
theorem C93_c_str (cs : List Nat) :
    cStr true cs = some (cs ++ [0]) ∧
    ((∀ c ∈ cs, c ≤ 0x7F) → cStr false cs = some (cs ++ [0])) ∧
    (cStr false cs ≠ none → ∀ c ∈ cs, c ≤ 0x7F) := by
  have h1 : cs.mapM (transcode true) = some cs := by
    induction cs with
    | nil => rfl
    | cons c cs ih => simp [List.mapM_cons, ih, transcode]
  have h2 : (∀ c ∈ cs, c ≤ 0x7F) → cs.mapM (transcode false) = some cs := by
    clear h1
    induction cs with
    | nil => intro _; rfl
    | cons c cs ih =>
      intro h
      have hc := h c List.mem_cons_self
      simp [List.mapM_cons, ih fun x hx => h x (List.mem_cons_of_mem _ hx), transcode, hc]
  have h3 : cs.mapM (transcode false) ≠ none → ∀ c ∈ cs, c ≤ 0x7F := by
    clear h1 h2
    induction cs with
    | nil => intro _; nofun
    | cons c cs ih =>
      intro h x hx
      rw [List.mapM_cons] at h
      by_cases hc : c ≤ 0x7F
      · rcases List.mem_cons.1 hx with rfl | hx
        · exact hc
        · refine ih (fun hn => h ?_) x hx
          simp [transcode, hc, hn]
      · exact absurd (by simp [transcode, hc]) h
  refine ⟨by simp [cStr, h1], fun h => by simp [cStr, h2 h], fun h => h3 fun hn => h (by simp [cStr, hn])⟩

example : makeIndexSequence 5 = [0, 1, 2, 3, 4] := C93_index_sequence 5
example : (holders [0, 0, 1] [10, 11, 12]).bind (get [0, 0, 1] · 1) = some 11 := by
  obtain ⟨hs, h1, h2⟩ := C93_tuple [0, 0, 1] [10, 11, 12] rfl
  rw [h1, Option.bind_some, h2]; rfl
example : viaMacro (Spec.literal [65, 0, 66]) = some [65, 0, 66] := (C93_string [65, 0, 66]).2.2
example : viaMacro (Spec.literal (List.replicate 33 65)) = none := (C93_string _).2.2

end Verif.Meta
