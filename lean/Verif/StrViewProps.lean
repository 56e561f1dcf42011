import Verif.StrView

/-!
# C86: string views and the names of types

The functions of `basic_string_view` do what those of `std::string_view` do on the characters of the view
(refuted for the empty view, the empty needle and `operator[]`), and `type_name` is the name of the type
without its outermost namespaces, as null-terminated string.
-/

namespace Verif.Sv

/-! ### Specification -/

namespace Spec

/-- The characters of a view. -/
def content (v : View) : List Nat := (v.mem.drop v.off).take v.size

/-- A view of characters that exist, with a null behind them if it says so. -/
structure Valid (v : View) : Prop where
  inside : v.off + v.size ≤ v.mem.length
  null : v.nt = true → v.mem[v.off + v.size]? = some 0
  small : v.mem.length < npos

/-- What `std::string_view::find` returns. -/
def Finds (s str : List Nat) (pos r : Nat) : Prop :=
  (pos ≤ r ∧ r ≤ s.length ∧ str <+: s.drop r ∧ ∀ j, pos ≤ j → j < r → ¬ str <+: s.drop j)
    ∨ (r = npos ∧ ∀ j, pos ≤ j → j ≤ s.length → ¬ str <+: s.drop j)

/-- The components of a name, joined by `::`. -/
def join : List (List Nat) → List Nat
  | [] => []
  | [c] => c
  | c :: cs => c ++ [58, 58] ++ join cs

end Spec

open Spec

/-! ### Views -/

theorem content_length {v : View} (h : Valid v) : (content v).length = v.size := by
  have := h.inside
  simp only [content, List.length_take, List.length_drop]
  omega

/-- The constructors make views of the characters given. -/
theorem C86_construct (s : List Nat) (pre post : List Nat) (h : (pre ++ s ++ 0 :: post).length < npos) :
    (0 ∉ s → ∃ v, View.ofCstr (pre ++ s ++ 0 :: post) pre.length = some v ∧ Valid v ∧ content v = s ∧ v.nt = true)
    ∧ (∃ v, View.ofTerminated (pre ++ s ++ 0 :: post) pre.length s.length = some v ∧ Valid v ∧ content v = s
      ∧ v.nt = true)
    ∧ (Valid (.ofSize (pre ++ s ++ 0 :: post) pre.length s.length)
      ∧ content (.ofSize (pre ++ s ++ 0 :: post) pre.length s.length) = s)
    ∧ (∃ v, View.ofRange (pre ++ s ++ 0 :: post) pre.length (pre.length + s.length) = some v ∧ Valid v
      ∧ content v = s) := by
  have hd : (pre ++ s ++ 0 :: post).drop pre.length = s ++ 0 :: post := by simp
  have hc : ((pre ++ s ++ 0 :: post).drop pre.length).take s.length = s := by rw [hd]; simp
  have h0 : (pre ++ s ++ 0 :: post)[pre.length + s.length]? = some 0 := by
    rw [List.getElem?_append_right (by simp)]; simp
  have hl : pre.length + s.length ≤ (pre ++ s ++ 0 :: post).length := by simp
  have key : ∀ (l : List Nat), 0 ∉ l → cstrLen (l ++ 0 :: post) = some l.length := by
    intro l
    induction l with
    | nil => simp [cstrLen]
    | cons c l ih =>
      intro hn
      have h1 : c ≠ 0 := fun e => hn (by simp [e])
      simp only [List.cons_append, cstrLen, if_neg h1, ih (fun e => hn (List.mem_cons_of_mem _ e)),
        Option.map_some, List.length_cons]
  refine ⟨fun hs => ?_, ?_, ⟨⟨hl, by simp [View.ofSize], h⟩, hc⟩, ?_⟩
  · refine ⟨⟨_, pre.length, s.length, true⟩, ?_, ⟨hl, fun _ => h0, h⟩, hc, rfl⟩
    unfold View.ofCstr
    rw [hd, key s hs]
    rfl
  · refine ⟨⟨_, pre.length, s.length, true⟩, ?_, ⟨hl, fun _ => h0, h⟩, hc, rfl⟩
    unfold View.ofTerminated
    rw [h0]
    simp
  · refine ⟨⟨_, pre.length, s.length, false⟩, ?_, ⟨hl, by simp, h⟩, hc⟩
    unfold View.ofRange
    rw [if_pos (by omega), Nat.add_sub_cancel_left]

/-- Views that are constructed as null-terminated are: a constructor that is called otherwise violates its precondition. -/
theorem C86_terminated {mem : List Nat} {off size : Nat} {v : View} (hl : mem.length < npos)
    (h : View.ofTerminated mem off size = some v ∨ View.ofCstr mem off = some v) : Valid v ∧ v.nt = true := by
  have key : ∀ (l : List Nat) (n : Nat), cstrLen l = some n → l[n]? = some 0 := by
    intro l
    induction l with
    | nil => intro n hn; cases hn
    | cons c l ih =>
      intro n hn
      simp only [cstrLen] at hn
      split at hn
      · rename_i hc; cases hn; simp [hc]
      · obtain ⟨m, hm, rfl⟩ := Option.map_eq_some_iff.1 hn
        simpa using ih m hm
  have fin : ∀ n, mem[off + n]? = some 0 → Valid (⟨mem, off, n, true⟩ : View) := fun n h0 =>
    ⟨Nat.le_of_lt (List.getElem?_eq_some_iff.1 h0).1, fun _ => h0, hl⟩
  rcases h with h | h
  · unfold View.ofTerminated at h
    obtain ⟨c, hc, h⟩ := Option.bind_eq_some_iff.1 h
    split at h
    · rename_i h0; cases h; exact ⟨fin _ (by rw [hc, h0]), rfl⟩
    · cases h
  · obtain ⟨n, hn, rfl⟩ := Option.map_eq_some_iff.1 h
    exact ⟨fin n (by simpa using key _ n hn), rfl⟩

example : View.ofTerminated [1, 2, 0, 3] 0 2 = some ⟨[1, 2, 0, 3], 0, 2, true⟩ ∧ View.ofTerminated [1, 2, 0, 3] 0 1 = none :=
  ⟨rfl, rfl⟩

theorem getElem_content {v : View} {i : Nat} (hi : i < v.size) : (content v)[i]? = v.mem[v.off + i]? := by
  simp only [content, List.getElem?_take, hi, if_true, List.getElem?_drop]

/-- `operator[]`, `front` and `back` are the characters. -/
theorem C86_access_partial {v : View} (h : Valid v) :
    (∀ i, i < v.size → v.get i = (content v)[i]?) ∧ (v.size ≠ 0 → v.front = (content v).head?)
    ∧ (v.size ≠ 0 → v.back = (content v).getLast?) ∧ (∀ i, v.size < i → v.get i = none)
    ∧ (v.nt = true → v.get v.size = some 0) := by
  refine ⟨fun i hi => ?_, fun h0 => ?_, fun h0 => ?_, fun i hi => ?_, fun hn => ?_⟩
  · rw [getElem_content hi, View.get, if_pos (by omega)]
  · have := getElem_content (v := v) (i := 0) (by omega)
    rw [View.front, if_pos h0, List.head?_eq_getElem?, this, Nat.add_zero]
  · have := getElem_content (v := v) (i := v.size - 1) (by omega)
    rw [View.back, if_pos h0, List.getLast?_eq_getElem?, content_length h, this]
  · rw [View.get, if_neg (by omega)]
  · rw [View.get, if_pos (Nat.le_refl _), h.null hn]

/-- `c_str()` is the characters, if they contain no null. -/
theorem C86_cstr {v : View} (h : Valid v) (hn : v.nt = true) (h0 : 0 ∉ content v) : v.cstr = some (content v) := by
  have h1 := h.null hn
  have h2 := h.inside
  have key : ∀ (l : List Nat) (n : Nat), l[n]? = some 0 → 0 ∉ l.take n → cstrLen l = some n := by
    intro l
    induction l with
    | nil => intro n hn; simp at hn
    | cons c l ih =>
      intro n hn h0
      cases n with
      | zero =>
        simp only [List.getElem?_cons_zero, Option.some.injEq] at hn
        simp [cstrLen, hn]
      | succ n =>
        simp only [List.getElem?_cons_succ] at hn
        simp only [List.take_succ_cons, List.mem_cons, not_or] at h0
        have hc : c ≠ 0 := fun e => h0.1 e.symm
        simp only [cstrLen, if_neg hc, ih n hn h0.2, Option.map_some]
  unfold View.cstr
  rw [if_pos hn, key _ v.size (by rw [List.getElem?_drop]; exact h1) h0]
  rfl

/-- `remove_prefix` and `remove_suffix`; they need as many characters. -/
theorem C86_remove {v : View} (h : Valid v) (n : Nat) :
    (n ≤ v.size → (∃ w, v.removePrefix n = some w ∧ Valid w ∧ content w = (content v).drop n ∧ w.nt = v.nt)
      ∧ ∃ w, v.removeSuffix n = some w ∧ Valid w ∧ content w = (content v).take (v.size - n))
    ∧ (v.size < n → v.removePrefix n = none ∧ v.removeSuffix n = none) := by
  have hi := h.inside
  refine ⟨fun hn => ⟨⟨_, if_pos hn, ⟨?_, fun ht => ?_, h.small⟩, ?_, rfl⟩,
    ⟨_, if_pos hn, ⟨?_, by simp, h.small⟩, ?_⟩⟩, fun hn => ⟨if_neg (by omega), if_neg (by omega)⟩⟩
  · show v.off + n + (v.size - n) ≤ v.mem.length; omega
  · show v.mem[v.off + n + (v.size - n)]? = _
    rw [show v.off + n + (v.size - n) = v.off + v.size by omega]
    exact h.null ht
  · simp only [content, List.drop_take, List.drop_drop]
  · show v.off + (v.size - n) ≤ v.mem.length; omega
  · simp only [content, List.take_take]
    rw [Nat.min_eq_left (by omega)]

/-- `substr` is what it should be, but needs a position before the end. -/
theorem C86_substr_partial {v : View} (h : Valid v) (pos len : Nat) :
    (pos < v.size → ∃ w, v.substr pos len = some w ∧ Valid w ∧ content w = ((content v).drop pos).take len)
    ∧ (v.size ≤ pos → v.substr pos len = none) := by
  have hi := h.inside
  refine ⟨fun hp => ?_, fun hp => by rw [View.substr, if_neg (by omega)]⟩
  rw [View.substr, if_pos hp]
  by_cases hl : len ≥ v.size - pos
  · rw [if_pos hl]
    refine ⟨_, rfl, ⟨?_, fun ht => ?_, h.small⟩, ?_⟩
    · show v.off + pos + (v.size - pos) ≤ v.mem.length; omega
    · show v.mem[v.off + pos + (v.size - pos)]? = _
      rw [show v.off + pos + (v.size - pos) = v.off + v.size by omega]
      exact h.null ht
    · simp only [content, List.drop_take, List.drop_drop, List.take_take]
      rw [Nat.min_eq_right hl]
  · rw [if_neg hl]
    refine ⟨_, rfl, ⟨?_, by simp, h.small⟩, ?_⟩
    · show v.off + pos + len ≤ v.mem.length; omega
    · simp only [content, List.drop_take, List.drop_drop, List.take_take]
      rw [Nat.min_eq_left (by omega)]

theorem eqLoop_eq (m1 m2 : List Nat) : ∀ (n a b : Nat), a + n ≤ m1.length → b + n ≤ m2.length →
    eqLoop m1 m2 n a b = some (decide ((m1.drop a).take n = (m2.drop b).take n))
  | 0, a, b, _, _ => by simp [eqLoop]
  | n + 1, a, b, ha, hb => by
    rw [eqLoop, List.getElem?_eq_getElem (by omega), List.getElem?_eq_getElem (by omega),
      List.drop_eq_getElem_cons (i := a) (by omega), List.drop_eq_getElem_cons (i := b) (by omega)]
    simp only [Option.bind_some, List.take_succ_cons, List.cons.injEq]
    by_cases h : m1[a] = m2[b]
    · rw [if_neg (by simpa using h), eqLoop_eq m1 m2 n (a + 1) (b + 1) (by omega) (by omega)]
      simp [h]
    · rw [if_pos h]
      simp [h]

/-- Views are equal exactly if their characters are. -/
theorem C86_equal {l r : View} (hl : Valid l) (hr : Valid r) : l.eq r = some (decide (content l = content r)) := by
  unfold View.eq
  by_cases h : l.size = r.size
  · rw [if_neg (by simpa using h), eqLoop_eq _ _ _ _ _ hl.inside (by rw [h]; exact hr.inside)]
    simp only [content, h]
  · rw [if_pos h]
    have : content l ≠ content r := fun e => h (by rw [← content_length hl, ← content_length hr, e])
    simp [this]

theorem prefix_iff_take {a b : List Nat} : a <+: b ↔ b.take a.length = a := by
  constructor
  · rintro ⟨c, rfl⟩; simp
  · intro h; rw [← h]; exact List.take_prefix _ _

/-- `starts_with` and `try_remove_prefix`, for views that are not empty. -/
theorem C86_prefix_partial {v p : View} (h : Valid v) (hp : Valid p) (h0 : v.size ≠ 0) :
    v.startsWith p = some (decide (content p <+: content v))
    ∧ (content p <+: content v → ∃ w, v.tryRemovePrefix p = some (true, w) ∧ Valid w
      ∧ content v = content p ++ content w ∧ w.nt = v.nt)
    ∧ (¬ content p <+: content v → v.tryRemovePrefix p = some (false, v)) := by
  have hs : v.startsWith p = some (decide (content p <+: content v)) := by
    obtain ⟨w, hw1, hw2, hw3⟩ := (C86_substr_partial h 0 p.size).1 (by omega)
    rw [View.startsWith, hw1, Option.bind_some, C86_equal hw2 hp, hw3, List.drop_zero]
    congr 1
    have := prefix_iff_take (a := content p) (b := content v)
    rw [content_length hp] at this
    exact decide_eq_decide.2 this.symm
  refine ⟨hs, fun hc => ?_, fun hc => ?_⟩
  · have hle : p.size ≤ v.size := by
      have := hc.length_le
      rwa [content_length h, content_length hp] at this
    obtain ⟨w, hw1, hw2, hw3, hw4⟩ := ((C86_remove h p.size).1 hle).1
    refine ⟨w, ?_, hw2, ?_, hw4⟩
    · rw [View.tryRemovePrefix, hs, Option.bind_some, hw1]
      simp [hc]
    · obtain ⟨c, hc'⟩ := hc
      rw [hw3, ← hc', ← content_length hp]
      simp
  · rw [View.tryRemovePrefix, hs]
    simp [hc]

theorem findLoop_ok {v str : View} (h : Valid v) (hs : Valid str) : ∀ (n i : Nat), i + n = v.size →
    (∃ r, findLoop v str n i = some r ∧ r < npos ∧ i ≤ r ∧ r < v.size ∧ content str <+: (content v).drop r
      ∧ ∀ j, i ≤ j → j < r → ¬ content str <+: (content v).drop j)
    ∨ (findLoop v str n i = some npos ∧ ∀ j, i ≤ j → j < v.size → ¬ content str <+: (content v).drop j)
  | 0, i, hi => .inr ⟨rfl, fun j h1 h2 => by omega⟩
  | n + 1, i, hi => by
    obtain ⟨w, hw1, hw2, hw3⟩ := (C86_substr_partial h i str.size).1 (by omega)
    have he : (s : Bool) → w.eq str = some s → (s = true ↔ content str <+: (content v).drop i) := by
      intro s hs'
      rw [C86_equal hw2 hs, hw3] at hs'
      rw [← Option.some.inj hs', prefix_iff_take (a := content str), content_length hs, decide_eq_true_iff]
    have hsz : v.size < npos := by have := h.inside; have := h.small; omega
    rw [findLoop, hw1, Option.bind_some]
    cases hb : w.eq str with
    | none => rw [C86_equal hw2 hs] at hb; cases hb
    | some b =>
      have := he b hb
      rw [Option.bind_some]
      cases b with
      | true =>
        exact .inl ⟨i, if_pos rfl, by omega, Nat.le_refl _, by omega, this.1 rfl, fun j h1 h2 => by omega⟩
      | false =>
        rw [if_neg (by simp)]
        have hno : ¬ content str <+: (content v).drop i := fun hc => by have := this.2 hc; cases this
        rcases findLoop_ok h hs n (i + 1) (by omega) with ⟨r, h1, h2, h3, h4, h5, h6⟩ | ⟨h1, h2⟩
        · refine .inl ⟨r, h1, h2, by omega, h4, h5, fun j hj1 hj2 => ?_⟩
          by_cases hj : j = i
          · rw [hj]; exact hno
          · exact h6 j (by omega) hj2
        · refine .inr ⟨h1, fun j hj1 hj2 => ?_⟩
          by_cases hj : j = i
          · rw [hj]; exact hno
          · exact h2 j (by omega) hj2

/-- `find` finds the first occurrence, of strings that are not empty. -/
theorem C86_find_partial {v str : View} (h : Valid v) (hs : Valid str) (h0 : str.size ≠ 0) (pos : Nat) :
    ∃ r, v.find str pos = some r ∧ Finds (content v) (content str) pos r := by
  have hend : ∀ j, v.size ≤ j → ¬ content str <+: (content v).drop j := by
    intro j hj hc
    have := hc.length_le
    rw [List.length_drop, content_length h, content_length hs] at this
    omega
  unfold View.find
  by_cases hp : pos ≤ v.size
  · rcases findLoop_ok h hs (v.size - pos) pos (by omega) with ⟨r, h1, _, h3, h4, h5, h6⟩ | ⟨h1, h2⟩
    · exact ⟨r, h1, .inl ⟨h3, by rw [content_length h]; omega, h5, h6⟩⟩
    · refine ⟨npos, h1, .inr ⟨rfl, fun j hj1 hj2 => ?_⟩⟩
      by_cases hj : j < v.size
      · exact h2 j hj1 hj
      · exact hend j (by omega)
  · rw [show v.size - pos = 0 by omega]
    exact ⟨npos, rfl, .inr ⟨rfl, fun j hj1 hj2 => hend j (by omega)⟩⟩

/-- An empty view has no prefix, not even the empty one: `substr(0, …)` needs a character. -/
theorem C86_empty_prefix_refuted : ¬ ∀ v p : View, Valid v → Valid p →
    v.startsWith p = some (decide (content p <+: content v)) := by
  intro h
  have := h .empty .empty ⟨by decide, by decide, by decide⟩ ⟨by decide, by decide, by decide⟩
  simp [View.startsWith, View.substr, View.empty] at this

/-- The empty string is not found at the end. -/
theorem C86_find_empty_refuted : ¬ ∀ (v str : View) (pos : Nat), Valid v → Valid str → pos ≤ v.size →
    ∃ r, v.find str pos = some r ∧ Finds (content v) (content str) pos r := by
  intro h
  obtain ⟨r, h1, h2⟩ := h (.ofSize [65] 0 1) .empty 1 ⟨by decide, by decide, by decide⟩
    ⟨by decide, by decide, by decide⟩ (by decide)
  have h3 : (View.ofSize [65] 0 1).find .empty 1 = some npos := by decide
  rw [h3] at h1
  rw [← Option.some.inj h1] at h2
  rcases h2 with ⟨_, h2, _⟩ | ⟨_, h2⟩
  · exact absurd h2 (by decide)
  · exact h2 1 (by decide) (by decide) (by simp [content, View.empty])

/-- `operator[]` allows the index one behind the view, which need not exist if the view is not
    null-terminated. -/
theorem C86_index_refuted : ∃ (v : View) (i : Nat), Valid v ∧ i ≤ v.size ∧ v.get i = none :=
  ⟨.ofSize [65] 0 1, 1, ⟨by decide, by decide, by decide⟩, by decide, by decide⟩

/-! ### Sequences of operations -/

/-- The operations that change a view. -/
inductive Op
  | removePrefix (n : Nat)
  | removeSuffix (n : Nat)
  | substr (pos len : Nat)
  | tryRemovePrefix (p : View)

def step (v : View) : Op → Option View
  | .removePrefix n => v.removePrefix n
  | .removeSuffix n => v.removeSuffix n
  | .substr pos len => v.substr pos len
  | .tryRemovePrefix p => (v.tryRemovePrefix p).map (·.2)

def run (v : View) : List Op → Option View
  | [] => some v
  | op :: ops => (step v op).bind fun w => run w ops

theorem step_ok {v w : View} (h : Valid v) {op : Op} (ho : ∀ p, op = .tryRemovePrefix p → Valid p)
    (hs : step v op = some w) : Valid w ∧ content w <:+: content v := by
  cases op with
  | removePrefix n =>
    by_cases hn : n ≤ v.size
    · obtain ⟨x, h1, h2, h3, _⟩ := ((C86_remove h n).1 hn).1
      have e : x = w := by rw [step, h1] at hs; exact Option.some.inj hs
      subst e
      exact ⟨h2, by rw [h3]; exact (List.drop_suffix _ _).isInfix⟩
    · rw [step, ((C86_remove h n).2 (by omega)).1] at hs; cases hs
  | removeSuffix n =>
    by_cases hn : n ≤ v.size
    · obtain ⟨x, h1, h2, h3⟩ := ((C86_remove h n).1 hn).2
      have e : x = w := by rw [step, h1] at hs; exact Option.some.inj hs
      subst e
      exact ⟨h2, by rw [h3]; exact (List.take_prefix _ _).isInfix⟩
    · rw [step, ((C86_remove h n).2 (by omega)).2] at hs; cases hs
  | substr pos len =>
    by_cases hn : pos < v.size
    · obtain ⟨x, h1, h2, h3⟩ := (C86_substr_partial h pos len).1 hn
      have e : x = w := by rw [step, h1] at hs; exact Option.some.inj hs
      subst e
      refine ⟨h2, ?_⟩
      rw [h3]
      exact ((List.take_prefix _ _).isInfix).trans (List.drop_suffix _ _).isInfix
    · rw [step, (C86_substr_partial h pos len).2 (by omega)] at hs; cases hs
  | tryRemovePrefix p =>
    have hp := ho p rfl
    by_cases h0 : v.size = 0
    · rw [step, View.tryRemovePrefix, View.startsWith, (C86_substr_partial h 0 p.size).2 (by omega)] at hs
      cases hs
    · by_cases hc : content p <+: content v
      · obtain ⟨x, h1, h2, h3, _⟩ := (C86_prefix_partial h hp h0).2.1 hc
        have e : x = w := by rw [step, h1] at hs; exact Option.some.inj hs
        subst e
        exact ⟨h2, ⟨content p, [], by rw [h3]; simp⟩⟩
      · rw [step, (C86_prefix_partial h hp h0).2.2 hc] at hs
        have e : v = w := Option.some.inj hs
        subst e
        exact ⟨h, List.infix_refl _⟩

/-- Whatever is done to a view, as long as it is allowed: it stays within its characters, and if it is
    still null-terminated, the null is where it claims. -/
theorem C86_stays : ∀ (ops : List Op) {v w : View}, Valid v → (∀ p, Op.tryRemovePrefix p ∈ ops → Valid p) →
    run v ops = some w → Valid w ∧ content w <:+: content v
  | [], v, w, h, _, hr => by
    have e : v = w := Option.some.inj hr
    subst e
    exact ⟨h, List.infix_refl _⟩
  | op :: ops, v, w, h, ho, hr => by
    obtain ⟨x, h1, h2⟩ := Option.bind_eq_some_iff.1 hr
    have h3 := step_ok h (fun p e => ho p (by rw [e]; exact List.mem_cons_self)) h1
    have h4 := C86_stays ops h3.1 (fun p hp => ho p (List.mem_cons_of_mem _ hp)) h2
    exact ⟨h4.1, h4.2.trans h3.2⟩

/-! ### Names of types -/

theorem lit_valid {s : List Nat} (h : s.length + 1 < npos) : Valid (lit s) ∧ content (lit s) = s := by
  refine ⟨⟨?_, fun _ => ?_, ?_⟩, ?_⟩
  · show 0 + s.length ≤ (s ++ [0]).length; simp
  · show (s ++ [0])[0 + s.length]? = some 0; simp
  · show (s ++ [0]).length < npos; simpa using h
  · simp [content, lit]

theorem makeCstr_eq {v : View} (h : Valid v) : makeCstr v = some (content v ++ [0]) := by
  have key : ∀ n, n ≤ v.size → ∀ acc : Option (List Nat),
      (List.range n).foldr (fun i acc => (v.get i).bind fun c => acc.map (c :: ·)) acc
      = acc.map ((content v).take n ++ ·) := by
    intro n
    induction n with
    | zero => intro _ acc; simp
    | succ n ih =>
      intro hn acc
      rw [List.range_succ, List.foldr_append, ih (by omega)]
      have hl : n < (content v).length := by rw [content_length h]; omega
      have hg : v.get n = some ((content v)[n]) := by
        rw [(C86_access_partial h).1 n (by omega), List.getElem?_eq_getElem hl]
      simp only [List.foldr_cons, List.foldr_nil, hg, Option.bind_some]
      cases acc with
      | none => rfl
      | some l =>
        have e := List.take_append_getElem hl
        simp only [Option.map_some, Option.some.injEq]
        rw [← e, List.append_assoc]
        rfl
  unfold makeCstr
  rw [key v.size (Nat.le_refl _)]
  simp only [Option.map_some, ← content_length h, List.take_length]

/-- The name of the type as the compiler prints it, without an anonymous namespace in front. -/
theorem fullTypeName_ok (cc : Compiler) (hc : cc.anon.length + 1 < npos) (name : List Nat) (hn : name ≠ [])
    (hp : (cc.pre ++ name ++ cc.suf).length + 1 < npos) (h0 : 0 ∉ cc.pre ++ name ++ cc.suf) :
    ∃ v, fullTypeName cc (cc.pre ++ name ++ cc.suf) = some v ∧ Valid v
      ∧ ((∃ r, name = cc.anon ++ r ∧ content v = r) ∨ (¬ cc.anon <+: name ∧ content v = name)) := by
  obtain ⟨⟨f, hf1, hf2, hf3, hf4⟩, -⟩ := (C86_construct (cc.pre ++ name ++ cc.suf) [] [] (by simpa [Nat.add_assoc] using hp)).imp
    (fun h => h h0) (fun h => h)
  simp only [List.nil_append, List.length_nil] at hf1
  have hfs : f.size = (cc.pre ++ name ++ cc.suf).length := by rw [← content_length hf2, hf3]
  obtain ⟨⟨g, hg1, hg2, hg3, _⟩, -⟩ := (C86_remove hf2 cc.pre.length).1 (by rw [hfs]; simp)
  have hg3' : content g = name ++ cc.suf := by rw [hg3, hf3]; simp
  have hgs : g.size = (name ++ cc.suf).length := by rw [← content_length hg2, hg3']
  obtain ⟨-, ⟨k, hk1, hk2, hk3⟩⟩ := (C86_remove hg2 cc.suf.length).1 (by rw [hgs]; simp)
  have hk3' : content k = name := by rw [hk3, hg3', hgs]; simp
  have hks : k.size ≠ 0 := by
    rw [← content_length hk2, hk3']
    exact fun e => hn (List.length_eq_zero_iff.1 e)
  obtain ⟨ha1, ha2⟩ := lit_valid hc
  have hpre := C86_prefix_partial hk2 ha1 hks
  rw [ha2, hk3'] at hpre
  unfold fullTypeName
  rw [hf1, Option.bind_some, hg1, Option.bind_some, hk1, Option.bind_some]
  by_cases hx : cc.anon <+: name
  · obtain ⟨w, hw1, hw2, hw3, _⟩ := hpre.2.1 hx
    exact ⟨w, by rw [hw1]; rfl, hw2, .inl ⟨_, hw3, rfl⟩⟩
  · exact ⟨k, by rw [hpre.2.2 hx]; rfl, hk2, .inr ⟨hx, hk3'⟩⟩

theorem not_prefix_of_head {c : Nat} {l s : List Nat} (h : s.head? ≠ some c) : ¬ (c :: l) <+: s := by
  rintro ⟨t, rfl⟩
  simp at h

/-- Stripping the outermost components. -/
theorem stripNs_ok : ∀ (n : Nat) (cs : List (List Nat)) (v : View), Valid v → cs ≠ [] → (∀ c ∈ cs, 58 ∉ c) →
    content v = join cs →
    ∃ w, stripNs n v = some w ∧ Valid w ∧ content w = join (cs.drop (min n (cs.length - 1)))
  | 0, cs, v, h, _, _, hv => ⟨v, rfl, h, by simpa using hv⟩
  | n + 1, cs, v, h, hne, hcs, hv => by
    have hlit := lit_valid (s := [58, 58]) (by decide)
    obtain ⟨r, hr, hf⟩ := C86_find_partial h hlit.1 (by decide) 0
    rw [hlit.2] at hf
    rw [stripNs, hr, Option.bind_some]
    cases cs with
    | nil => exact absurd rfl hne
    | cons c cs =>
      have hc : 58 ∉ c := hcs c List.mem_cons_self
      have hin : ∀ (t : List Nat) j, j < c.length → ¬ [58, 58] <+: (c ++ t).drop j := by
        intro t j hj
        apply not_prefix_of_head
        rw [List.drop_append_of_le_length (by omega), List.drop_eq_getElem_cons hj]
        simp only [List.cons_append, List.head?_cons, ne_eq, Option.some.injEq]
        exact fun e => hc (by rw [← e]; exact List.getElem_mem hj)
      cases cs with
      | nil =>
        simp only [join] at hv
        have hno : ∀ j, j ≤ c.length → ¬ [58, 58] <+: (content v).drop j := by
          intro j hj
          rw [hv]
          by_cases hj' : j < c.length
          · have := hin [] j hj'
            rwa [List.append_nil] at this
          · rw [List.drop_eq_nil_of_le (by omega)]; simp
        have hnpos : r = npos := by
          rcases hf with ⟨_, h2, h3, _⟩ | ⟨h2, _⟩
          · exact absurd h3 (hno r (by rw [hv] at h2; exact h2))
          · exact h2
        rw [if_pos hnpos]
        exact ⟨v, rfl, h, by simpa [join] using hv⟩
      | cons d ds =>
        simp only [join] at hv
        have hat : [58, 58] <+: (content v).drop c.length := by
          rw [hv]; simp
        have hlen : c.length ≤ (content v).length := by rw [hv]; simp
        have hrc : r = c.length := by
          rcases hf with ⟨_, h2, h3, h4⟩ | ⟨_, h2⟩
          · by_cases hlt : r < c.length
            · rw [hv, List.append_assoc] at h3
              exact absurd h3 (hin _ r hlt)
            · by_cases hgt : c.length < r
              · exact absurd hat (h4 c.length (Nat.zero_le _) hgt)
              · omega
          · exact absurd hat (h2 c.length (Nat.zero_le _) hlen)
        have hsz : v.size < npos := by have := h.inside; have := h.small; omega
        have hvl := content_length h
        have hcl : c.length + 2 ≤ v.size := by
          rw [← hvl, hv]
          simp only [List.length_append, List.length_cons, List.length_nil]
          omega
        rw [if_neg (by omega), hrc]
        obtain ⟨⟨w, hw1, hw2, hw3, _⟩, -⟩ := (C86_remove h (c.length + 2)).1 hcl
        have hw3' : content w = join (d :: ds) := by
          rw [hw3, hv, show c.length + 2 = (c ++ [58, 58]).length by simp, List.drop_left]
        rw [hw1, Option.bind_some]
        obtain ⟨x, hx1, hx2, hx3⟩ := stripNs_ok n (d :: ds) w hw2 (by simp)
          (fun y hy => hcs y (List.mem_cons_of_mem _ hy)) hw3'
        refine ⟨x, hx1, hx2, ?_⟩
        rw [hx3]
        have e : min (n + 1) ((c :: d :: ds).length - 1) = min n ((d :: ds).length - 1) + 1 := by
          simp only [List.length_cons]; omega
        rw [e, List.drop_succ_cons]

theorem mem_iff_drop {c : Nat} : ∀ {s : List Nat}, c ∈ s ↔ ∃ j, j ≤ s.length ∧ [c] <+: s.drop j := by
  intro s
  constructor
  · intro h
    obtain ⟨a, b, rfl⟩ := List.append_of_mem h
    exact ⟨a.length, by simp, by simp⟩
  · rintro ⟨j, _, t, ht⟩
    exact List.mem_of_mem_drop (by rw [← ht]; simp)

theorem find_lt {v : View} (h : Valid v) (c : Nat) : ∃ p, v.findChar c = some p ∧ (p ≠ npos ↔ c ∈ content v) := by
  have hv : Valid (.ofSize [c] 0 1) := ⟨Nat.le_refl _, by simp [View.ofSize], by show 1 < npos; decide⟩
  have hcv : content (.ofSize [c] 0 1) = [c] := rfl
  obtain ⟨r, h1, h2⟩ := C86_find_partial h hv (by simp [View.ofSize]) 0
  refine ⟨r, h1, ?_⟩
  rw [hcv] at h2
  have hsz : v.size < npos := by have := h.inside; have := h.small; omega
  rw [mem_iff_drop]
  rcases h2 with ⟨_, h2, h3, _⟩ | ⟨h2, h3⟩
  · rw [content_length h] at h2
    exact ⟨fun _ => ⟨r, by rw [content_length h]; exact h2, h3⟩, fun _ => by omega⟩
  · exact ⟨fun e => absurd h2 e, fun ⟨j, hj1, hj2⟩ => absurd hj2 (h3 j (Nat.zero_le _) hj1)⟩

/-- The name of a type without templates is what is left of the name the compiler prints, `c₁::…::cₖ`, if
    an anonymous namespace in front and then up to `n` components are removed, but never the last one. -/
theorem C86_type_name (cc : Compiler) (hc : cc = clang ∨ cc = gcc) (anon : Bool) (cs : List (List Nat)) (n : Nat)
    (hne : join cs ≠ []) (hcs : ∀ c ∈ cs, 58 ∉ c ∧ 60 ∉ c ∧ 0 ∉ c) (ha : anon = false → ¬ cc.anon <+: join cs)
    (hlen : (join cs).length < 2 ^ 32) :
    typeName cc (cc.pre ++ ((if anon then cc.anon else []) ++ join cs) ++ cc.suf) n
      = some (join (cs.drop (min n (cs.length - 1))) ++ [0]) := by
  have hnil : cs ≠ [] := fun e => hne (by rw [e]; rfl)
  have key : cc.pre.length ≤ 100 ∧ cc.suf.length ≤ 100 ∧ cc.anon.length ≤ 100 ∧ 0 ∉ cc.pre ∧ 0 ∉ cc.suf
      ∧ 0 ∉ cc.anon := by
    rcases hc with rfl | rfl <;> decide +kernel
  obtain ⟨k1, k2, k3, k4, k5, k6⟩ := key
  have hnp : npos = 2 ^ 64 - 1 := rfl
  have hno : ∀ (x : Nat) (cs : List (List Nat)), x ≠ 58 → (∀ c ∈ cs, x ∉ c) → x ∉ join cs := by
    intro x cs hx
    fun_induction join cs with
    | case1 => simp
    | case2 c => intro h; exact h c List.mem_cons_self
    | case3 c cs _ ih =>
      intro h
      simp only [List.mem_append, List.mem_cons, List.not_mem_nil, or_false, or_self, hx, not_or]
      refine ⟨?_, ih fun y hy => h y (List.mem_cons_of_mem _ hy)⟩
      simp [h c List.mem_cons_self]
  have hj0 := hno 0 cs (by decide) fun c hc => (hcs c hc).2.2
  have hj60 := hno 60 cs (by decide) fun c hc => (hcs c hc).2.1
  have hal : (if anon then cc.anon else []).length ≤ 100 := by split <;> simp [k3]
  have ha0 : 0 ∉ (if anon then cc.anon else []) := by split <;> simp [k6]
  obtain ⟨v, hv1, hv2, hv3⟩ := fullTypeName_ok cc (by omega) ((if anon then cc.anon else []) ++ join cs)
    (fun e => hne (List.append_eq_nil_iff.1 e).2) (by simp only [List.length_append]; omega)
    (by simp only [List.mem_append, not_or]; exact ⟨⟨k4, ha0, hj0⟩, k5⟩)
  have hv : content v = join cs := by
    cases anon with
    | true =>
      simp only [if_true] at hv3
      rcases hv3 with ⟨r, h1, h2⟩ | ⟨h1, _⟩
      · rw [h2]; exact (List.append_cancel_left h1).symm
      · exact absurd (List.prefix_append _ _) h1
    | false =>
      simp only [Bool.false_eq_true, if_false, List.nil_append] at hv3
      rcases hv3 with ⟨r, h1, _⟩ | ⟨_, h2⟩
      · exact absurd ⟨r, h1.symm⟩ (ha rfl)
      · exact h2
  obtain ⟨p, hp1, hp2⟩ := find_lt hv2 60
  have hp : p = npos := Decidable.byContradiction fun e => hj60 (by rw [← hv]; exact hp2.1 e)
  obtain ⟨w, hw1, hw2, hw3⟩ := stripNs_ok n cs v hv2 hnil (fun c hc => (hcs c hc).1) hv
  unfold typeName typeNameView
  rw [hv1, Option.bind_some, hp1, Option.bind_some, if_neg (by simp [hp]), hw1, Option.bind_some, makeCstr_eq hw2, hw3]

/-- The name of a template is left as it is, up to an anonymous namespace. -/
theorem C86_template_name (cc : Compiler) (hc : cc = clang ∨ cc = gcc) (name : List Nat) (n : Nat) (hn : n ≠ 0)
    (hlt : 60 ∈ name) (h0 : 0 ∉ name) (ha : ¬ cc.anon <+: name) (hlen : name.length < 2 ^ 32) :
    typeName cc (cc.pre ++ name ++ cc.suf) n = some (name ++ [0]) := by
  have key : cc.pre.length ≤ 100 ∧ cc.suf.length ≤ 100 ∧ cc.anon.length ≤ 100 ∧ 0 ∉ cc.pre ∧ 0 ∉ cc.suf := by
    rcases hc with rfl | rfl <;> decide +kernel
  obtain ⟨k1, k2, k3, k4, k5⟩ := key
  have hnp : npos = 2 ^ 64 - 1 := rfl
  obtain ⟨v, hv1, hv2, hv3⟩ := fullTypeName_ok cc (by omega) name (fun e => by rw [e] at hlt; cases hlt)
    (by simp only [List.length_append]; omega) (by simp only [List.mem_append, not_or]; exact ⟨⟨k4, h0⟩, k5⟩)
  have hv : content v = name := by
    rcases hv3 with ⟨r, h1, _⟩ | ⟨_, h2⟩
    · exact absurd ⟨r, h1.symm⟩ ha
    · exact h2
  obtain ⟨p, hp1, hp2⟩ := find_lt hv2 60
  unfold typeName typeNameView
  rw [hv1, Option.bind_some, hp1, Option.bind_some, if_pos ⟨hp2.2 (by rw [hv]; exact hlt), hn⟩, Option.bind_some,
    makeCstr_eq hv2, hv]

/-- `(anonymous namespace)::grammar::json` has the name `json` for clang. -/
example : typeName clang (chars "auto lexy::_detail::_full_type_name() [T = (anonymous namespace)::grammar::json]") 1
    = some (chars "json" ++ [0]) := by decide +kernel

example : join [chars "grammar", chars "json"] ≠ [] := by decide

example : (lit (chars "hello")).find (lit (chars "l")) 3 = some 3 := by decide +kernel

end Verif.Sv
