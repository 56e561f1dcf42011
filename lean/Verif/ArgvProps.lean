import Verif.Argv
import Verif.BufferProps

/-!
# C28: command line arguments are joined by NUL
-/

namespace Verif

namespace Spec

/-- The text of a list of arguments: joined by one NUL. -/
def joinNul : List (List Nat) → List Nat
  | [] => []
  | [a] => a
  | a :: b :: rest => a ++ 0 :: joinNul (b :: rest)

/-- The operations of a reader without word-wise reads. -/
def plainOp : ROp → Bool
  | .peek | .bump | .mark | .reset _ => true
  | _ => false

/-- The arguments of the program: those without its name. -/
def args (av : List (List Nat)) : List (List Nat) := av.drop 1

/-- Moving an iterator `n` times. -/
def advance (av : List (List Nat)) : Nat → ArgvIt → Option ArgvIt
  | 0, it => some it
  | n + 1, it => (it.increment av).bind (advance av n)

end Spec

/-- Where the character `o` of argument `a` is in the text. -/
def argOff : List (List Nat) → Nat → Nat
  | _, 0 => 0
  | [], _ + 1 => 0
  | s :: l, a + 1 => s.length + 1 + argOff l a

theorem argOff_succ : ∀ (l : List (List Nat)) (a : Nat) (s : List Nat), l[a]? = some s →
    argOff l (a + 1) = argOff l a + s.length + 1 := by
  intro l
  induction l with
  | nil => intro a s h; simp at h
  | cons t l ih =>
    intro a s h
    cases a with
    | zero => simp at h; subst h; cases l <;> simp [argOff]
    | succ a =>
      simp only [List.getElem?_cons_succ] at h
      rw [argOff, ih a s h, argOff]; omega

theorem takeWhile_self {p : Nat → Bool} {l : List Nat} (h : ∀ x ∈ l, p x = true) :
    l.takeWhile p = l := by
  induction l with
  | nil => rfl
  | cons a l ih =>
    rw [List.takeWhile_cons, if_pos (h a (List.mem_cons_self ..)),
      ih fun x hx => h x (List.mem_cons_of_mem _ hx)]

theorem joinNul_cons (s : List Nat) {l : List (List Nat)} (h : l ≠ []) :
    Spec.joinNul (s :: l) = s ++ 0 :: Spec.joinNul l := by
  cases l with
  | nil => exact absurd rfl h
  | cons t l => rfl

theorem joinNul_get : ∀ (l : List (List Nat)) (a : Nat) (s : List Nat) (o : Nat), l[a]? = some s →
    o ≤ s.length → (Spec.joinNul l)[argOff l a + o]? =
      if o < s.length then s[o]? else if a + 1 < l.length then some 0 else none := by
  intro l
  induction l with
  | nil => intro a s o h; simp at h
  | cons t l ih =>
    intro a s o h ho
    cases a with
    | zero =>
      simp only [List.getElem?_cons_zero, Option.some.injEq] at h
      subst h
      simp only [argOff, Nat.zero_add]
      cases hl : l with
      | nil =>
        simp only [Spec.joinNul, List.length_cons, List.length_nil]
        split
        · rfl
        · simp; omega
      | cons u l' =>
        simp only [Spec.joinNul, List.length_cons]
        rw [List.getElem?_append]
        split
        · rfl
        · have : o - t.length = 0 := by omega
          simp [this]
    | succ a =>
      simp only [List.getElem?_cons_succ] at h
      have hne : l ≠ [] := by rintro rfl; simp at h
      rw [joinNul_cons t hne, argOff]
      have e : t.length + 1 + argOff l a + o = t.length + (argOff l a + o + 1) := by omega
      rw [e, List.getElem?_append_right (by omega)]
      have e2 : t.length + (argOff l a + o + 1) - t.length = argOff l a + o + 1 := by omega
      rw [e2, List.getElem?_cons_succ, ih a s o h ho]
      simp

theorem joinNul_length : ∀ (l : List (List Nat)) (a : Nat) (s : List Nat), l[a]? = some s →
    a + 1 = l.length → (Spec.joinNul l).length = argOff l a + s.length := by
  intro l
  induction l with
  | nil => intro a s h; simp at h
  | cons t l ih =>
    intro a s h hl
    cases a with
    | zero =>
      have : l = [] := by cases l with
        | nil => rfl
        | cons => simp at hl
      subst this
      simp at h; subst h
      simp [Spec.joinNul, argOff]
    | succ a =>
      simp only [List.getElem?_cons_succ] at h
      simp only [List.length_cons, Nat.add_right_cancel_iff] at hl
      have hne : l ≠ [] := by rintro rfl; simp at h
      rw [joinNul_cons t hne, List.length_append, List.length_cons, ih a s h hl, argOff]
      omega

theorem argOff_mono (l : List (List Nat)) {a b : Nat} (h : a < b) (hb : b ≤ l.length) :
    ∀ s, l[a]? = some s → argOff l a + s.length < argOff l b := by
  intro s hs
  induction b with
  | zero => omega
  | succ b ih =>
    obtain ⟨t, ht⟩ : ∃ t, l[b]? = some t := ⟨_, List.getElem?_eq_getElem (by omega)⟩
    rw [argOff_succ l b t ht]
    by_cases hab : a = b
    · subst hab; rw [hs] at ht; cases ht; omega
    · have := ih (by omega) (by omega); omega

namespace ArgvIt

variable {av : List (List Nat)}

/-- The iterator points to character `o` of argument `a`, the `k`-th of the text. -/
structure At (av : List (List Nat)) (it : ArgvIt) (k : Nat) : Prop where
  ex : (av.length ≤ 1 ∧ it = ⟨av.length, none⟩ ∧ k = 0) ∨
    ∃ a s o, it = ⟨a + 1, some (a + 1, o)⟩ ∧ (Spec.args av)[a]? = some s ∧ o ≤ s.length
      ∧ k = argOff (Spec.args av) a + o

theorem args_get {a : Nat} {s : List Nat} (h : (Spec.args av)[a]? = some s) :
    av[a + 1]? = some s ∧ a + 1 < av.length := by
  unfold Spec.args at h
  rw [List.getElem?_drop, Nat.add_comm] at h
  refine ⟨h, ?_⟩
  by_cases hl : a + 1 < av.length
  · exact hl
  · rw [List.getElem?_eq_none (by omega)] at h; cases h

theorem at_begin : At av (begin av) 0 := by
  refine ⟨?_⟩
  unfold begin
  by_cases h : av.length ≤ 1
  · exact .inl ⟨h, by rw [if_pos h], rfl⟩
  · refine .inr ⟨0, av[1]'(by omega), 0, by rw [if_neg h], ?_, Nat.zero_le _,
      by cases Spec.args av <;> rfl⟩
    · simp [Spec.args, List.getElem?_eq_getElem (show 1 < av.length by omega)]

theorem At.unique {i j : ArgvIt} {k : Nat} (hi : At av i k) (hj : At av j k) : i = j := by
  rcases hi.ex with ⟨h1, h2, h3⟩ | ⟨a, s, o, rfl, hs, ho, hk⟩
  · rcases hj.ex with ⟨g1, g2, g3⟩ | ⟨a, s, o, rfl, hs, ho, hk⟩
    · rw [h2, g2]
    · have := (args_get hs).2; omega
  · rcases hj.ex with ⟨g1, g2, g3⟩ | ⟨b, t, o', rfl, ht, ho', hk'⟩
    · have := (args_get hs).2; omega
    · have la := (args_get hs).2
      have lb := (args_get ht).2
      have hlen : (Spec.args av).length = av.length - 1 := by simp [Spec.args]
      by_cases h1 : a < b
      · have := argOff_mono (Spec.args av) h1 (by omega) s hs; omega
      · by_cases h2 : b < a
        · have := argOff_mono (Spec.args av) h2 (by omega) t ht; omega
        · have : a = b := by omega
          subst this
          have : o = o' := by omega
          subst this; rfl

theorem At.inj {i : ArgvIt} {k k' : Nat} (hi : At av i k) (hj : At av i k') : k = k' := by
  rcases hi.ex with ⟨h1, h2, h3⟩ | ⟨a, s, o, rfl, hs, ho, hk⟩
  · rcases hj.ex with ⟨g1, g2, g3⟩ | ⟨a, s, o, rfl, hs, ho, hk⟩
    · omega
    · simp at h2
  · rcases hj.ex with ⟨g1, g2, g3⟩ | ⟨b, t, o', e, ht, ho', hk'⟩
    · simp at g2
    · cases e
      omega

/-- What an iterator does at the `k`-th position of the text. -/
theorem At.spec (hn : ∀ s ∈ av, 0 ∉ s) {it : ArgvIt} {k : Nat} (h : At av it k) :
    k ≤ (Spec.joinNul (Spec.args av)).length
    ∧ isEnd av it = some (decide (k = (Spec.joinNul (Spec.args av)).length))
    ∧ (k < (Spec.joinNul (Spec.args av)).length →
        deref av it = (Spec.joinNul (Spec.args av))[k]?
        ∧ ∃ it', increment av it = some it' ∧ At av it' (k + 1) ∧ decrement av it' = some it) := by
  rcases h.ex with ⟨h1, rfl, rfl⟩ | ⟨a, s, o, rfl, hs, ho, rfl⟩
  · have hnil : Spec.args av = [] := by unfold Spec.args; exact List.drop_eq_nil_of_le h1
    simp [hnil, Spec.joinNul, isEnd]
  · obtain ⟨hav, hlt⟩ := args_get hs
    have h0 : 0 ∉ s := hn s (List.mem_of_getElem? hav)
    have hlen : (Spec.args av).length = av.length - 1 := by simp [Spec.args]
    have hget := joinNul_get (Spec.args av) a s o hs ho
    have hT : (Spec.joinNul (Spec.args av))[argOff (Spec.args av) a + o]?
        = if argOff (Spec.args av) a + o < (Spec.joinNul (Spec.args av)).length
          then some ((Spec.joinNul (Spec.args av)).getD (argOff (Spec.args av) a + o) 0) else none := by
      split
      · next hh => simp [List.getD, List.getElem?_eq_getElem hh]
      · next hh => rw [List.getElem?_eq_none (by omega)]
    have hchr : ∀ o', o' ≤ s.length → chr av (a + 1, o') = if o' = s.length then some 0 else s[o']? := by
      intro o' _; simp [chr, hav]
    by_cases hos : o < s.length
    · -- inside an argument
      rw [if_pos hos, List.getElem?_eq_getElem hos] at hget
      have hk : argOff (Spec.args av) a + o < (Spec.joinNul (Spec.args av)).length := by
        rw [hget] at hT; split at hT
        · assumption
        · cases hT
      have hc0 : s[o] ≠ 0 := fun he => h0 (he ▸ List.getElem_mem hos)
      have hend : isEnd av ⟨a + 1, some (a + 1, o)⟩ = some false := by
        simp only [isEnd, hchr o ho, if_neg (show ¬ o = s.length by omega),
          List.getElem?_eq_getElem hos, Option.bind_some, if_neg hc0]
      have hd : deref av ⟨a + 1, some (a + 1, o)⟩ = some s[o] := by
        simp only [deref, Option.bind_some, hchr o ho, if_neg (show ¬ o = s.length by omega),
          List.getElem?_eq_getElem hos]
      refine ⟨Nat.le_of_lt hk, ?_, fun _ => ⟨by rw [hd, hget], ⟨a + 1, some (a + 1, o + 1)⟩, ?_,
        ⟨.inr ⟨a, s, o + 1, rfl, hs, hos, by omega⟩⟩, ?_⟩⟩
      · rw [hend]; simp; omega
      · simp only [increment, hend, hd, Option.bind_some, Bool.false_eq_true, if_false, if_neg hc0,
          Option.map_some]
      · simp [decrement, ptr, hlt]
    · -- at the terminator
      have hoe : o = s.length := by omega
      subst hoe
      rw [if_neg hos] at hget
      have hd : deref av ⟨a + 1, some (a + 1, s.length)⟩ = some 0 := by
        simp [deref, hchr s.length (Nat.le_refl _)]
      by_cases hlast : a + 1 < (Spec.args av).length
      · rw [if_pos hlast] at hget
        have hk : argOff (Spec.args av) a + s.length < (Spec.joinNul (Spec.args av)).length := by
          rw [hget] at hT; split at hT
          · assumption
          · cases hT
        have hptr : ptr av (a + 2) = some (some (a + 2, 0)) := by
          rw [ptr, if_pos (by omega)]
        have hend : isEnd av ⟨a + 1, some (a + 1, s.length)⟩ = some false := by
          simp only [isEnd, hchr s.length (Nat.le_refl _), if_true, Option.bind_some, hptr]; rfl
        refine ⟨Nat.le_of_lt hk, ?_, fun _ => ⟨by rw [hd, hget], ⟨a + 2, some (a + 2, 0)⟩, ?_,
          ⟨.inr ⟨a + 1, (Spec.args av)[a + 1], 0, rfl, List.getElem?_eq_getElem hlast,
            Nat.zero_le _, by rw [argOff_succ _ a s hs]⟩⟩, ?_⟩⟩
        · rw [hend]; simp; try omega
        · simp only [increment, hend, hd, Option.bind_some, Bool.false_eq_true, if_false, if_true,
            hptr, Option.map_some]
        · have htw : s.takeWhile (· ≠ 0) = s := by
            refine takeWhile_self ?_
            intro x hx
            simp only [ne_eq, decide_eq_true_eq]
            rintro rfl; exact h0 hx
          simp only [decrement, hptr, Option.bind_some, if_true, Nat.add_one_ne_zero, if_false,
            findNul, Nat.add_sub_cancel, hav, Option.map_some, htw,
            show a + 2 ≠ 0 by omega, show a + 2 - 1 = a + 1 by omega]
      · have hlen' := joinNul_length (Spec.args av) a s hs (by omega)
        refine ⟨by omega, ?_, fun hk => by omega⟩
        have hptr : ptr av (a + 2) = some none := by
          rw [ptr, if_neg (by omega), if_pos (by omega)]
        simp only [isEnd, hchr s.length (Nat.le_refl _), if_true, Option.bind_some, hptr, hlen']
        rfl

theorem at_fin (hn : ∀ s ∈ av, 0 ∉ s) :
    ∃ f, fin av = some f ∧ At av f (Spec.joinNul (Spec.args av)).length := by
  unfold fin
  by_cases h : av.length ≤ 1
  · have hnil : Spec.args av = [] := by unfold Spec.args; exact List.drop_eq_nil_of_le h
    exact ⟨_, if_pos h, ⟨.inl ⟨h, rfl, by simp [hnil, Spec.joinNul]⟩⟩⟩
  · rw [if_neg h]
    have hlt : av.length - 1 < av.length := by omega
    have hget : av[av.length - 1]? = some av[av.length - 1] := List.getElem?_eq_getElem hlt
    have h0 : 0 ∉ av[av.length - 1] := hn _ (List.getElem_mem hlt)
    have htw : av[av.length - 1].takeWhile (· ≠ 0) = av[av.length - 1] := by
      refine takeWhile_self ?_
      intro x hx
      simp only [ne_eq, decide_eq_true_eq]
      rintro rfl; exact h0 hx
    have hargs : (Spec.args av)[av.length - 2]? = some av[av.length - 1] := by
      unfold Spec.args
      rw [List.getElem?_drop, show 1 + (av.length - 2) = av.length - 1 by omega, hget]
    refine ⟨⟨av.length - 1, some (av.length - 1, av[av.length - 1].length)⟩, ?_,
      ⟨.inr ⟨av.length - 2, _, _, ?_, hargs, Nat.le_refl _, ?_⟩⟩⟩
    · simp only [decrement, ptr, Nat.lt_irrefl, if_false, if_true, Option.bind_some,
        show av.length ≠ 0 by omega, findNul, hget, Option.map_some, htw]
    · rw [show av.length - 2 + 1 = av.length - 1 by omega]
    · exact joinNul_length _ _ _ hargs (by simp [Spec.args]; omega)

theorem distance_eq (hn : ∀ s ∈ av, 0 ∉ s) (n : Nat) : ∀ (i j : ArgvIt) (k fuel : Nat), At av i k →
    At av j (k + n) → n < fuel → distance av j fuel i = some n := by
  induction n with
  | zero =>
    intro i j k fuel hi hj hf
    cases fuel with
    | zero => omega
    | succ fuel => simp [distance, hi.unique hj]
  | succ n ih =>
    intro i j k fuel hi hj hf
    cases fuel with
    | zero => omega
    | succ fuel =>
      have hne : i ≠ j := by
        rintro rfl
        have := hi.inj hj; omega
      have := (hj.spec hn).1
      obtain ⟨_, it', h1, h2, _⟩ := (hi.spec hn).2.2 (by omega)
      simp only [distance, if_neg hne, h1, Option.bind_some]
      rw [ih it' j (k + 1) fuel h2 (by rw [show k + 1 + n = k + (n + 1) by omega]; exact hj)
        (by omega)]
      rfl

end ArgvIt

theorem joinNul_le (l : List (List Nat)) :
    (Spec.joinNul l).length ≤ (l.map fun s => s.length + 1).sum := by
  fun_induction Spec.joinNul l <;> simp_all <;> omega

theorem argvFuel_ge (av : List (List Nat)) : (Spec.joinNul (Spec.args av)).length < argvFuel av := by
  have h := joinNul_le (Spec.args av)
  unfold argvFuel
  cases av with
  | nil => simp [Spec.args, Spec.joinNul]
  | cons s l =>
    simp only [Spec.args, List.drop_succ_cons, List.drop_zero, List.map_cons, List.sum_cons] at h ⊢
    omega

open ArgvIt in
theorem argv_obs {av : List (List Nat)} (hn : ∀ s ∈ av, 0 ∉ s) {it : ArgvIt} {k : Nat}
    (h : At av it k) : it.obs av = some (.pos k) := by
  have := (h.spec hn).1
  have := argvFuel_ge av
  rw [ArgvIt.obs, distance_eq hn k _ it 0 _ at_begin (by rwa [Nat.zero_add]) (by omega)]
  rfl

open ArgvIt in
theorem argvRun_sim {av : List (List Nat)} (hn : ∀ s ∈ av, 0 ∉ s) (e : BEnc) (f : ArgvIt)
    (hf : At av f (Spec.joinNul (Spec.args av)).length) (ops : List ROp) :
    ∀ (r : ArgvReader) (s : RSt) (obs : List RObs), (∀ op ∈ ops, Spec.plainOp op) →
    At av r.cur s.pos → r.marks.length = s.marks.length →
    (∀ (i : Nat) (it : ArgvIt), r.marks[i]? = some it → ∃ p, s.marks[i]? = some p ∧ At av it p) →
    runOps (Spec.rangeStep e (Spec.joinNul (Spec.args av))) s ops = some obs →
    argvRun e av f r ops = some obs := by
  induction ops with
  | nil => intro r s obs _ _ _ _ h; simpa [runOps, argvRun] using h
  | cons op ops ih =>
    intro r s obs hop hcur hml hmarks h
    simp only [runOps, Option.bind_eq_some_iff, Option.map_eq_some_iff] at h
    obtain ⟨⟨s', o⟩, h1, obs', h2, rfl⟩ := h
    have hop' : ∀ op ∈ ops, Spec.plainOp op := fun op h => hop op (List.mem_cons_of_mem _ h)
    obtain ⟨hle, _, hstep⟩ := hcur.spec hn
    have hfin : r.cur = f ↔ s.pos = (Spec.joinNul (Spec.args av)).length :=
      ⟨fun he => by rw [he] at hcur; exact hcur.inj hf, fun he => by rw [he] at hcur; exact hcur.unique hf⟩
    cases op with
    | peek =>
      simp only [Spec.rangeStep, Option.some.injEq] at h1
      cases h1
      simp only [argvRun, argvStep]
      by_cases hend : r.cur = f
      · rw [if_pos hend, List.getElem?_eq_none (by have := hfin.1 hend; omega)]
        simp only [Option.bind_some]
        rw [ih r s obs' hop' hcur hml hmarks h2]; rfl
      · have hlt : s.pos < (Spec.joinNul (Spec.args av)).length := by
          have := mt hfin.2 hend; omega
        rw [if_neg hend, (hstep hlt).1, List.getElem?_eq_getElem hlt]
        simp only [Option.map_some, Option.bind_some]
        rw [ih r s obs' hop' hcur hml hmarks h2]; rfl
    | bump =>
      simp only [Spec.rangeStep] at h1
      split at h1
      · next hlt =>
        cases h1
        obtain ⟨_, it', e1, e2, _⟩ := hstep hlt
        simp only [argvRun, argvStep]
        rw [if_neg (fun he => by have := hfin.1 he; omega), e1]
        simp only [Option.bind_some, argv_obs hn e2, Option.map_some]
        rw [ih {r with cur := it'} {s with pos := s.pos + 1} obs' hop' e2 hml hmarks h2]; rfl
      · cases h1
    | mark =>
      simp only [Spec.rangeStep, Option.some.injEq] at h1
      cases h1
      simp only [argvRun, argvStep, argv_obs hn hcur, Option.map_some, Option.bind_some]
      rw [ih {r with marks := r.marks ++ [r.cur]} {s with marks := s.marks ++ [s.pos]} obs' hop'
        hcur (by simp [hml]) ?_ h2]
      · rfl
      · intro i it hi
        simp only [List.getElem?_append] at hi ⊢
        by_cases hil : i < r.marks.length
        · rw [if_pos hil] at hi
          rw [if_pos (by omega)]
          exact hmarks i it hi
        · rw [if_neg hil] at hi
          rw [if_neg (by omega)]
          have hz : i - r.marks.length = 0 := by
            cases hz : i - r.marks.length with
            | zero => rfl
            | succ n => rw [hz] at hi; simp at hi
          rw [hz] at hi
          rw [← hml, hz]
          simp only [List.getElem?_cons_zero, Option.some.injEq] at hi ⊢
          subst hi
          exact ⟨s.pos, rfl, hcur⟩
    | reset i =>
      simp only [Spec.rangeStep, Option.map_eq_some_iff] at h1
      obtain ⟨p, hp, h1⟩ := h1
      cases h1
      have hi : i < r.marks.length := by
        rw [hml]
        by_cases hh : i < s.marks.length
        · exact hh
        · rw [List.getElem?_eq_none (by omega)] at hp; cases hp
      obtain ⟨p', hp', hat⟩ := hmarks i _ (List.getElem?_eq_getElem hi)
      rw [hp] at hp'; cases hp'
      simp only [argvRun, argvStep, List.getElem?_eq_getElem hi, Option.bind_some, argv_obs hn hat,
        Option.map_some]
      rw [ih {r with cur := r.marks[i]} {s with pos := p} obs' hop' hat hml hmarks h2]; rfl
    | peekSwar => exact absurd (hop _ (List.mem_cons_self ..)) (by simp [Spec.plainOp])
    | bumpSwar => exact absurd (hop _ (List.mem_cons_self ..)) (by simp [Spec.plainOp])
    | bumpSwarN n => exact absurd (hop _ (List.mem_cons_self ..)) (by simp [Spec.plainOp])

/-- C28: a parser reading the arguments observes the arguments without the program name, joined by
    one NUL; whatever it does. -/
theorem C28_reader (av : List (List Nat)) (hn : ∀ s ∈ av, 0 ∉ s) (e : BEnc) (ops : List ROp)
    (hops : ∀ op ∈ ops, Spec.plainOp op) (obs : List RObs)
    (h : Spec.readRange e (Spec.joinNul (av.drop 1)) ops = some obs) :
    readArgv e av ops = some obs := by
  obtain ⟨f, h1, h2⟩ := ArgvIt.at_fin hn
  unfold readArgv
  rw [h1]
  exact argvRun_sim hn e f h2 ops _ {} obs hops ArgvIt.at_begin rfl (by intro i it hi; simp at hi) h

open ArgvIt in
theorem advance_at {av : List (List Nat)} (hn : ∀ s ∈ av, 0 ∉ s) (n : Nat) :
    ∀ (k : Nat) (it : ArgvIt), At av it k → k + n ≤ (Spec.joinNul (Spec.args av)).length →
    ∃ it', Spec.advance av n it = some it' ∧ At av it' (k + n) := by
  induction n with
  | zero => intro k it h _; exact ⟨it, rfl, h⟩
  | succ n ih =>
    intro k it h hk
    obtain ⟨_, it', e1, e2, _⟩ := (h.spec hn).2.2 (by omega)
    obtain ⟨it'', e3, e4⟩ := ih (k + 1) it' e2 (by omega)
    refine ⟨it'', by simp [Spec.advance, e1, e3], ?_⟩
    rw [show k + (n + 1) = k + 1 + n by omega]; exact e4

/-- C28: `n` steps from the beginning lead to the `n`-th character, or to the end: exactly there the
    iterator equals `argv_end()` and `argv_sentinel`; otherwise a further step is possible and a step
    back undoes it. -/
theorem C28_iterate (av : List (List Nat)) (hn : ∀ s ∈ av, 0 ∉ s) (n : Nat)
    (h : n ≤ (Spec.joinNul (av.drop 1)).length) :
    ∃ it, Spec.advance av n (ArgvIt.begin av) = some it
      ∧ it.isEnd av = some (decide (n = (Spec.joinNul (av.drop 1)).length))
      ∧ (ArgvIt.fin av = some it ↔ n = (Spec.joinNul (av.drop 1)).length)
      ∧ (n < (Spec.joinNul (av.drop 1)).length → it.deref av = (Spec.joinNul (av.drop 1))[n]?
        ∧ ∃ it', it.increment av = some it' ∧ it'.decrement av = some it) := by
  obtain ⟨it, h1, h2⟩ := advance_at hn n 0 _ ArgvIt.at_begin (by rw [Nat.zero_add]; exact h)
  rw [Nat.zero_add] at h2
  obtain ⟨f, h3, h4⟩ := ArgvIt.at_fin hn
  obtain ⟨_, h5, h6⟩ := h2.spec hn
  refine ⟨it, h1, h5, ?_, fun hlt => ?_⟩
  · rw [h3]
    constructor
    · intro he; cases he; exact h2.inj h4
    · intro he; rw [h2.unique (he ▸ h4)]
  · obtain ⟨e1, it', e2, _, e3⟩ := h6 hlt
    exact ⟨e1, it', e2, e3⟩

theorem joinNul_zero (l : List (List Nat)) (hn : ∀ s ∈ l, 0 ∉ s) (n : Nat) :
    (Spec.joinNul l)[n]? = some 0 ↔
      ∃ a, 0 < a ∧ a < l.length ∧ n = (Spec.joinNul (l.take a)).length := by
  induction l generalizing n with
  | nil => simp [Spec.joinNul]
  | cons s l ih =>
    have hs : 0 ∉ s := hn s (List.mem_cons_self ..)
    by_cases hl : l = []
    · subst hl
      simp only [Spec.joinNul, List.length_cons, List.length_nil]
      constructor
      · intro h; exact absurd (List.mem_of_getElem? h) hs
      · rintro ⟨a, h1, h2, _⟩; omega
    · rw [joinNul_cons s hl, List.getElem?_append]
      have hlp : 0 < l.length := List.length_pos_iff.2 hl
      have hcons : ∀ a, 0 < a → a < l.length →
          (Spec.joinNul ((s :: l).take (a + 1))).length
            = s.length + 1 + (Spec.joinNul (l.take a)).length := by
        intro a ha hal
        have : l.take a ≠ [] := by
          intro hz; have := congrArg List.length hz; rw [List.length_take, List.length_nil] at this; omega
        rw [List.take_succ_cons, joinNul_cons s this]; simp; omega
      split
      · next hlt =>
        constructor
        · intro h; exact absurd (List.mem_of_getElem? h) hs
        · rintro ⟨a, h1, h2, h3⟩
          cases a with
          | zero => omega
          | succ a =>
            cases a with
            | zero => simp [Spec.joinNul] at h3; omega
            | succ a =>
              rw [List.length_cons] at h2
              rw [hcons (a + 1) (by omega) (by omega)] at h3; omega
      · next hge =>
        cases hd : n - s.length with
        | zero =>
          simp only [List.getElem?_cons_zero, true_iff]
          exact ⟨1, by omega, by simp; omega, by simp [Spec.joinNul]; omega⟩
        | succ m =>
          rw [List.getElem?_cons_succ, ih (fun t ht => hn t (List.mem_cons_of_mem _ ht))]
          constructor
          · rintro ⟨a, h1, h2, h3⟩
            exact ⟨a + 1, by omega, by rw [List.length_cons]; omega, by rw [hcons a h1 h2]; omega⟩
          · rintro ⟨a, h1, h2, h3⟩
            cases a with
            | zero => omega
            | succ a =>
              cases a with
              | zero => simp [Spec.joinNul] at h3; omega
              | succ a =>
                simp only [List.length_cons, Nat.add_lt_add_iff_right] at h2
                rw [hcons (a + 1) (by omega) h2] at h3
                exact ⟨a + 1, by omega, h2, by omega⟩

/-- C28: `dsl::argv_separator` matches exactly between two arguments, and consumes the NUL. -/
theorem C28_separator (av : List (List Nat)) (hn : ∀ s ∈ av, 0 ∉ s) (n : Nat)
    (h : n ≤ (Spec.joinNul (av.drop 1)).length) :
    ∃ it f r, Spec.advance av n (ArgvIt.begin av) = some it ∧ ArgvIt.fin av = some f
      ∧ argvSeparator av f it = some r
      ∧ (r ≠ none ↔ ∃ a, 0 < a ∧ a < (av.drop 1).length
          ∧ n = (Spec.joinNul ((av.drop 1).take a)).length)
      ∧ (r ≠ none → r = Spec.advance av (n + 1) (ArgvIt.begin av)) := by
  obtain ⟨it, h1, h2⟩ := advance_at hn n 0 _ ArgvIt.at_begin (by rw [Nat.zero_add]; exact h)
  rw [Nat.zero_add] at h2
  obtain ⟨f, h3, h4⟩ := ArgvIt.at_fin hn
  obtain ⟨_, h5, h6⟩ := h2.spec hn
  have hz := joinNul_zero (av.drop 1) (fun s hs => hn s (List.mem_of_mem_drop hs)) n
  have hadv : ∀ m i, Spec.advance av (m + 1) i = (Spec.advance av m i).bind (·.increment av) := by
    intro m
    induction m with
    | zero => intro i; simp [Spec.advance]
    | succ m ih =>
      intro i
      rw [Spec.advance]
      conv => rhs; rw [Spec.advance]
      cases i.increment av with
      | none => rfl
      | some j => simp only [Option.bind_some]; exact ih j
  rw [hadv, h1, Option.bind_some]
  unfold argvSeparator
  by_cases hend : it = f
  · refine ⟨it, f, none, rfl, h3, if_pos hend, ?_, by simp⟩
    rw [← hz]
    have : n = (Spec.joinNul (Spec.args av)).length := by rw [hend] at h2; exact h2.inj h4
    unfold Spec.args at this
    simp [this]
  · have hlt : n < (Spec.joinNul (Spec.args av)).length := by
      have : n ≠ (Spec.joinNul (Spec.args av)).length := by
        rintro rfl; exact hend (h2.unique h4)
      unfold Spec.args at this ⊢
      omega
    obtain ⟨e1, it', e2, _, _⟩ := h6 hlt
    unfold Spec.args at hlt e1
    rw [List.getElem?_eq_getElem hlt] at e1 hz
    rw [Option.some.injEq] at hz
    rw [← hz]
    by_cases hc : (Spec.joinNul (av.drop 1))[n] = 0
    · exact ⟨it, f, some it', rfl, h3, by
        simp only [if_neg hend, e1, Option.bind_some, hc, ne_eq, not_true_eq_false, if_false, e2]; rfl,
        by simp only [hc, ne_eq, reduceCtorEq, not_true_eq_false, not_false_eq_true],
        fun _ => e2.symm⟩
    · exact ⟨it, f, none, rfl, h3, by
        simp only [if_neg hend, e1, Option.bind_some, ne_eq, hc, not_false_eq_true, if_true],
        by simp only [hc, ne_eq, reduceCtorEq, not_true_eq_false, not_false_eq_true], by simp⟩

/-- `prog ab "" c`. -/
example : Spec.joinNul ([[112], [97, 98], [], [99]].drop 1) = [97, 98, 0, 0, 99] := by decide +kernel
example : readArgv BEnc.default [[112], [97, 98], [], [99]]
    [.peek, .bump, .bump, .mark, .peek, .bump, .bump, .peek, .bump, .peek, .reset 0, .peek]
    = some [.char (some 97), .pos 1, .pos 2, .pos 2, .char (some 0), .pos 3, .pos 4, .char (some 99),
      .pos 5, .char none, .pos 2, .char (some 0)] := by decide +kernel
/-- No arguments. -/
example : readArgv BEnc.default [[112]] [.peek] = some [.char none] := by decide +kernel

end Verif
