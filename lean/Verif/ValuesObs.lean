import Verif.ValuesErase

/-
What can be observed of values: where they are from, in which order they are handed on, and which callbacks are
called with them.
-/

namespace Verif.Val

mutual
/-- The values that are not made from other values, in the order in which they are handed on. -/
def Val.leaves : Val → List Val
  | .call _ as => Val.leavesL as
  | .made _ as => Val.leavesL as
  | .sink _ cs => Val.leavesLL cs
  | .lexeme b e => [.lexeme b e]
  | .pos p => [.pos p]
  | .nullopt => [.nullopt]
  | .mem t => [.mem t]
  | .eff i => [.eff i]
  | .num i => [.num i]
  | .covered b e => [.covered b e]
  | .flag => [.flag]
  | .mark p => [.mark p]
def Val.leavesL : List Val → List Val
  | [] => []
  | v :: vs => v.leaves ++ Val.leavesL vs
def Val.leavesLL : List (List Val) → List Val
  | [] => []
  | c :: cs => Val.leavesL c ++ Val.leavesLL cs
end

mutual
/-- The results of callbacks in a value, those a callback was called with before its own. -/
def Val.results : Val → List (Nat × List Val)
  | .call n as => Val.resultsL as ++ [(n, as)]
  | .made _ as => Val.resultsL as
  | .sink _ cs => Val.resultsLL cs
  | .lexeme _ _ | .pos _ | .nullopt | .mem _ | .eff _ | .num _ | .covered _ _ | .flag | .mark _ => []
def Val.resultsL : List Val → List (Nat × List Val)
  | [] => []
  | v :: vs => v.results ++ Val.resultsL vs
def Val.resultsLL : List (List Val) → List (Nat × List Val)
  | [] => []
  | c :: cs => Val.resultsL c ++ Val.resultsLL cs
end

namespace Spec

/-- The part of the input a value is about. -/
def span : Val → Option (Nat × Nat)
  | .lexeme b e => some (b, e)
  | .pos p => some (p, p)
  | .covered b e => some (b, e)
  | _ => none

def spans (vs : List Val) : List (Nat × Nat) := (Val.leavesL vs).filterMap span

/-- The values are about parts of `[lo, hi]`, and each is about something behind what the values before it are about,
    or about a part of it. -/
structure Ordered (lo hi : Nat) (l : List (Nat × Nat)) : Prop where
  inside : ∀ s ∈ l, lo ≤ s.1 ∧ s.1 ≤ s.2 ∧ s.2 ≤ hi
  order : l.Pairwise fun a b => a.2 ≤ b.1 ∨ (a.1 ≤ b.1 ∧ b.2 ≤ a.2)

/-- The parse reported what the value is about: a lexeme is a token or a production.  (For the lexeme of `repeat` there
    is no event.) -/
def Reported (evs : List Ev) : Val → Prop
  | .lexeme b e => (∃ k, .token k b e ∈ evs) ∨ ∃ n, .prodStart n b ∈ evs ∧ .prodFinish n e ∈ evs
  | .pos p => .token .position p p ∈ evs
  | _ => True

/-- What parsers hand to each other, but not to callbacks. -/
def Internal : Val → Prop
  | .flag | .mark _ => True
  | _ => False

/-- Callbacks are called with results of callbacks called before, each in at most one place. -/
def CallsOk (calls : List (Nat × List Val)) : Prop :=
  ∀ a n vs b, calls = a ++ (n, vs) :: b → (Val.resultsL vs).Sublist a

end Spec

open Spec

theorem leavesL_append (a b : List Val) : Val.leavesL (a ++ b) = Val.leavesL a ++ Val.leavesL b := by
  induction a with
  | nil => simp [Val.leavesL]
  | cons v a ih => simp [Val.leavesL, ih]

theorem resultsL_append (a b : List Val) : Val.resultsL (a ++ b) = Val.resultsL a ++ Val.resultsL b := by
  induction a with
  | nil => simp [Val.resultsL]
  | cons v a ih => simp [Val.resultsL, ih]

theorem leavesLL_append (a b : List (List Val)) : Val.leavesLL (a ++ b) = Val.leavesLL a ++ Val.leavesLL b := by
  induction a with
  | nil => simp [Val.leavesLL]
  | cons v a ih => simp [Val.leavesLL, ih]

theorem resultsLL_append (a b : List (List Val)) : Val.resultsLL (a ++ b) = Val.resultsLL a ++ Val.resultsLL b := by
  induction a with
  | nil => simp [Val.resultsLL]
  | cons v a ih => simp [Val.resultsLL, ih]

theorem spans_append (a b : List Val) : spans (a ++ b) = spans a ++ spans b := by
  simp [spans, leavesL_append]

theorem Spec.Reported.left {e : List Ev} {v : Val} (h : Reported e v) (e' : List Ev) : Reported (e ++ e') v := by
  cases v with
  | lexeme b c =>
    rcases h with ⟨k, h⟩ | ⟨n, h, h'⟩
    · exact .inl ⟨k, List.mem_append_left _ h⟩
    · exact .inr ⟨n, List.mem_append_left _ h, List.mem_append_left _ h'⟩
  | pos p => exact List.mem_append_left _ h
  | _ => trivial

theorem Spec.Reported.right {e : List Ev} {v : Val} (h : Reported e v) (e' : List Ev) : Reported (e' ++ e) v := by
  cases v with
  | lexeme b c =>
    rcases h with ⟨k, h⟩ | ⟨n, h, h'⟩
    · exact .inl ⟨k, List.mem_append_right _ h⟩
    · exact .inr ⟨n, List.mem_append_right _ h, List.mem_append_right _ h'⟩
  | pos p => exact List.mem_append_right _ h
  | _ => trivial

theorem Spec.Ordered.nil {lo hi : Nat} : Ordered lo hi [] := ⟨by simp, .nil⟩

theorem Spec.Ordered.append {lo mid hi : Nat} {a b : List (Nat × Nat)} (h1 : Ordered lo mid a) (h2 : Ordered mid hi b)
    (hl : lo ≤ mid) (hh : mid ≤ hi) : Ordered lo hi (a ++ b) := by
  refine ⟨fun s hs => ?_, ?_⟩
  · rcases List.mem_append.1 hs with h | h
    · have := h1.inside s h; omega
    · have := h2.inside s h; omega
  · rw [List.pairwise_append]
    refine ⟨h1.order, h2.order, fun x hx y hy => .inl ?_⟩
    have := (h1.inside x hx).2.2
    have := (h2.inside y hy).1
    omega

theorem Spec.Ordered.widen {lo lo' hi hi' : Nat} {a : List (Nat × Nat)} (h : Ordered lo hi a) (hl : lo' ≤ lo) (hh : hi ≤ hi') :
    Ordered lo' hi' a :=
  ⟨fun s hs => by have := h.inside s hs; omega, h.order⟩

theorem Spec.CallsOk.nil : CallsOk [] := fun a _ _ b h => by cases a <;> cases h

theorem Spec.CallsOk.append {c c' : List (Nat × List Val)} (h : CallsOk c) (h' : CallsOk c') : CallsOk (c ++ c') := by
  intro a n vs b e
  rcases List.append_eq_append_iff.1 e with ⟨a', ha, hb⟩ | ⟨b', ha, hb⟩
  · rw [ha]
    exact (h' a' n vs b hb).trans (List.sublist_append_right _ _)
  · cases b' with
    | nil =>
      simp only [List.append_nil, List.nil_append] at ha hb
      subst ha
      exact (h' [] n vs b hb.symm).trans (List.nil_sublist _)
    | cons x b' =>
      simp only [List.cons_append, List.cons.injEq] at hb
      obtain ⟨rfl, -⟩ := hb
      exact h a n vs b' ha

theorem Spec.CallsOk.snoc {c : List (Nat × List Val)} (h : CallsOk c) {n : Nat} {vs : List Val}
    (hs : (Val.resultsL vs).Sublist c) : CallsOk (c ++ [(n, vs)]) := by
  intro a m ws b e
  rcases List.append_eq_append_iff.1 e with ⟨a', ha, hb⟩ | ⟨b', ha, hb⟩
  · cases a' with
    | nil =>
      simp only [List.append_nil, List.nil_append, List.cons.injEq, Prod.mk.injEq] at ha hb
      obtain ⟨⟨-, rfl⟩, -⟩ := hb
      rw [ha]; exact hs
    | cons x a' =>
      simp only [List.cons_append, List.cons.injEq] at hb
      obtain ⟨-, hb⟩ := hb
      cases a' <;> cases hb
  · cases b' with
    | nil =>
      simp only [List.append_nil, List.nil_append, List.cons.injEq, Prod.mk.injEq] at ha hb
      obtain ⟨⟨rfl, rfl⟩, -⟩ := hb
      rw [← ha]; exact hs
    | cons x b' =>
      simp only [List.cons_append, List.cons.injEq] at hb
      obtain ⟨rfl, -⟩ := hb
      exact h a m ws b' ha

/-- The values `vals` were produced between `lo` and `hi`, with the events `evs` and the calls `calls`. -/
structure Prod' (lo hi : Nat) (evs : List Ev) (calls : List (Nat × List Val)) (vals : List Val) : Prop where
  le : lo ≤ hi
  ord : Ordered lo hi (spans vals)
  cord : ∀ x ∈ calls, Ordered lo hi (spans x.2)
  rep : ∀ v ∈ Val.leavesL vals, Reported evs v
  crep : ∀ x ∈ calls, ∀ v ∈ Val.leavesL x.2, Reported evs v
  res : (Val.resultsL vals).Sublist calls
  cres : CallsOk calls

namespace Prod'

variable {lo mid hi : Nat} {e e1 e2 : List Ev} {c c1 c2 : List (Nat × List Val)} {v v1 v2 : List Val}

theorem nil (lo : Nat) (e : List Ev) : Prod' lo lo e [] [] :=
  ⟨Nat.le_refl _, by simpa [spans, Val.leavesL] using Ordered.nil, by simp, by simp [Val.leavesL], by simp,
    by simp [Val.resultsL], CallsOk.nil⟩

theorem append (h1 : Prod' lo mid e1 c1 v1) (h2 : Prod' mid hi e2 c2 v2) :
    Prod' lo hi (e1 ++ e2) (c1 ++ c2) (v1 ++ v2) := by
  have hl := h1.le
  have hh := h2.le
  refine ⟨by omega, by rw [spans_append]; exact h1.ord.append h2.ord hl hh, fun x hx => ?_, fun w hw => ?_,
    fun x hx w hw => ?_, ?_, Spec.CallsOk.append h1.cres h2.cres⟩
  · rcases List.mem_append.1 hx with h | h
    · exact (h1.cord x h).widen (Nat.le_refl _) hh
    · exact (h2.cord x h).widen hl (Nat.le_refl _)
  · rw [leavesL_append] at hw
    rcases List.mem_append.1 hw with h | h
    · exact Reported.left (h1.rep w h) _
    · exact Reported.right (h2.rep w h) _
  · rcases List.mem_append.1 hx with h | h
    · exact Reported.left (h1.crep x h w hw) _
    · exact Reported.right (h2.crep x h w hw) _
  · rw [resultsL_append]
    exact h1.res.append h2.res

theorem widen (h : Prod' lo mid e c v) (hh : mid ≤ hi) (e' : List Ev) : Prod' lo hi (e ++ e') c v := by
  have hl := h.le
  have := h.append (e2 := e') (c2 := []) (v2 := []) (hi := mid) (nil mid e')
  simp only [List.append_nil] at this
  exact ⟨by omega, this.ord.widen (Nat.le_refl _) hh, fun x hx => (this.cord x hx).widen (Nat.le_refl _) hh, this.rep,
    this.crep, this.res, this.cres⟩

theorem before (h : Prod' lo hi e c v) (e' : List Ev) : Prod' lo hi (e' ++ e) c v := by
  have := (nil lo e').append h
  simpa using this

theorem drop (h : Prod' lo hi e c v) : Prod' lo hi e c [] :=
  ⟨h.le, by simpa [spans, Val.leavesL] using Ordered.nil, h.cord, by simp [Val.leavesL], h.crep,
    by simp [Val.resultsL], h.cres⟩

theorem congr (h : Prod' lo hi e c v) {v' : List Val} (hl : Val.leavesL v' = Val.leavesL v)
    (hr : Val.resultsL v' = Val.resultsL v) : Prod' lo hi e c v' :=
  ⟨h.le, by rw [spans, hl]; exact h.ord, h.cord, by rw [hl]; exact h.rep, h.crep, by rw [hr]; exact h.res, h.cres⟩

theorem made (h : Prod' lo hi e c v) (t : Nat) : Prod' lo hi e c [.made t v] :=
  h.congr (by simp [Val.leavesL, Val.leaves]) (by simp [Val.resultsL, Val.results])

theorem call (h : Prod' lo hi e c v) (n : Nat) : Prod' lo hi e (c ++ [(n, v)]) [.call n v] := by
  refine ⟨h.le, by simpa [spans, Val.leavesL, Val.leaves] using h.ord, fun x hx => ?_,
    by simpa [Val.leavesL, Val.leaves] using h.rep, fun x hx => ?_, ?_, Spec.CallsOk.snoc h.cres h.res⟩
  · rcases List.mem_append.1 hx with hx | hx
    · exact h.cord x hx
    · rw [List.mem_singleton] at hx; subst hx; exact h.ord
  · rcases List.mem_append.1 hx with hx | hx
    · exact h.crep x hx
    · rw [List.mem_singleton] at hx; subst hx; exact h.rep
  · simp only [Val.resultsL, Val.results, List.append_nil]
    exact h.res.append (List.Sublist.refl _)

theorem sink (h : Prod' lo hi e c ([.sink 0 acc] ++ v)) : Prod' lo hi e c [.sink 0 (sinkCall acc v)] := by
  unfold sinkCall
  split
  · rename_i hv
    cases v with
    | nil => exact h
    | cons => cases hv
  · exact h.congr (by simp [Val.leavesL, Val.leaves, leavesLL_append, Val.leavesLL])
      (by simp [Val.resultsL, Val.results, resultsLL_append, Val.resultsLL])

theorem done (h : Prod' lo hi e c [.sink 0 acc]) (V : VEnv) (cur : Nat) : Prod' lo hi e c (sinkDone V cur acc) := by
  unfold sinkDone
  split
  · exact h.drop
  · exact h.congr (by simp [Val.leavesL, Val.leaves]) (by simp [Val.resultsL, Val.results])

theorem noSink (lo : Nat) (e : List Ev) : Prod' lo lo e [] [.sink 0 []] :=
  (nil lo e).congr (by simp [Val.leavesL, Val.leaves, Val.leavesLL])
    (by simp [Val.resultsL, Val.results, Val.resultsLL])

/-- A value about everything before the values it contains. -/
theorem lexeme (h : Prod' lo hi e c v) (hr : Reported e (.lexeme lo hi)) : Prod' lo hi e c (.lexeme lo hi :: v) := by
  refine ⟨h.le, ⟨fun s hs => ?_, ?_⟩, h.cord, fun w hw => ?_, h.crep, ?_, h.cres⟩
  · simp only [spans, Val.leavesL, Val.leaves, List.singleton_append, List.filterMap_cons, span, List.mem_cons] at hs
    rcases hs with rfl | hs
    · exact ⟨Nat.le_refl _, h.le, Nat.le_refl _⟩
    · exact h.ord.inside s hs
  · simp only [spans, Val.leavesL, Val.leaves, List.singleton_append, List.filterMap_cons, span, List.pairwise_cons]
    exact ⟨fun s hs => .inr ⟨(h.ord.inside s hs).1, (h.ord.inside s hs).2.2⟩, h.ord.order⟩
  · simp only [Val.leavesL, Val.leaves, List.singleton_append, List.mem_cons] at hw
    rcases hw with rfl | hw
    · exact hr
    · exact h.rep w hw
  · simpa [Val.resultsL, Val.results] using h.res

/-- A value without a part of the input. -/
theorem other (h : Prod' lo hi e c v) (w : Val) (hl : w.leaves = [w]) (hs : span w = none) (hr : w.results = []) :
    Prod' lo hi e c (w :: v) := by
  have hp : ∀ e, Reported e w := by
    intro e
    cases w with
    | lexeme => cases hs
    | pos => cases hs
    | covered => cases hs
    | _ => trivial
  refine ⟨h.le, ?_, h.cord, fun x hx => ?_, h.crep, ?_, h.cres⟩
  · simpa [spans, Val.leavesL, hl, hs] using h.ord
  · simp only [Val.leavesL, hl, List.singleton_append, List.mem_cons] at hx
    rcases hx with rfl | hx
    · exact hp e
    · exact h.rep x hx
  · simpa [Val.resultsL, hr] using h.res

theorem flags (h : Prod' lo hi e c v) (pre : List Val) (hp : ∀ w ∈ pre, Internal w) : Prod' lo hi e c (pre ++ v) := by
  induction pre with
  | nil => exact h
  | cons w pre ih =>
    have hw := hp w (List.mem_cons_self ..)
    have := ih fun x hx => hp x (List.mem_cons_of_mem _ hx)
    cases w with
    | flag => exact this.other .flag (by simp [Val.leaves]) rfl (by simp [Val.results])
    | mark p => exact this.other (.mark p) (by simp [Val.leaves]) rfl (by simp [Val.results])
    | _ => cases hw

/-- Without the last values. -/
theorem fst (h : Prod' lo hi e c (v1 ++ v2)) : Prod' lo hi e c v1 := by
  refine ⟨h.le, ⟨fun s hs => ?_, ?_⟩, h.cord, fun w hw => ?_, h.crep, ?_, h.cres⟩
  · exact h.ord.inside s (by rw [spans_append]; exact List.mem_append_left _ hs)
  · have := h.ord.order
    rw [spans_append, List.pairwise_append] at this
    exact this.1
  · exact h.rep w (by rw [leavesL_append]; exact List.mem_append_left _ hw)
  · have := h.res
    rw [resultsL_append] at this
    exact (List.sublist_append_left _ _).trans this

theorem covered (h : Prod' lo hi e c [.sink 0 [[.covered b b]]]) : Prod' lo hi e c [.covered b hi] := by
  have hb := h.ord.inside (b, b) (by simp [spans, Val.leavesL, Val.leaves, Val.leavesLL, span])
  refine ⟨h.le, ⟨fun s hs => ?_, ?_⟩, h.cord, fun w hw => ?_, h.crep, ?_, h.cres⟩
  · simp only [spans, Val.leavesL, Val.leaves, span, List.append_nil, List.filterMap_cons, List.filterMap_nil,
      List.mem_singleton] at hs
    subst hs
    exact ⟨hb.1, hb.2.2, Nat.le_refl _⟩
  · simp [spans, Val.leavesL, Val.leaves, span]
  · simp only [Val.leavesL, Val.leaves, List.append_nil, List.mem_singleton] at hw
    subst hw
    trivial
  · simp [Val.resultsL, Val.results]

theorem start (lo : Nat) (e : List Ev) : Prod' lo lo e [] [.sink 0 [[.covered lo lo]]] := by
  refine ⟨Nat.le_refl _, ⟨?_, ?_⟩, by simp, ?_, by simp, ?_, CallsOk.nil⟩
  · simp [spans, Val.leavesL, Val.leaves, Val.leavesLL, span]
  · simp [spans, Val.leavesL, Val.leaves, Val.leavesLL, span]
  · simp [Val.leavesL, Val.leaves, Val.leavesLL, Reported]
  · simp [Val.resultsL, Val.results, Val.resultsLL]

theorem flat (h : Prod' lo hi e c vs.flatten) : Prod' lo hi e c [.sink 0 vs] := by
  have hl : ∀ vs, Val.leavesLL vs = Val.leavesL vs.flatten := by
    intro vs
    induction vs with
    | nil => simp [Val.leavesLL, Val.leavesL]
    | cons v vs ih => simp [Val.leavesLL, ih, leavesL_append]
  have hr : ∀ vs, Val.resultsLL vs = Val.resultsL vs.flatten := by
    intro vs
    induction vs with
    | nil => simp [Val.resultsLL, Val.resultsL]
    | cons v vs ih => simp [Val.resultsLL, ih, resultsL_append]
  exact h.congr (by simp [Val.leavesL, Val.leaves, hl]) (by simp [Val.resultsL, Val.results, hr])

/-- The values of a rule without parts. -/
theorem pvals {vs : List PVal} (h : PVals e hi lo vs) : Prod' lo hi e [] (vs.map PVal.val) := by
  induction vs generalizing lo with
  | nil => simpa using (nil lo []).widen (e' := e) h
  | cons w vs ih =>
    cases w with
    | num i => exact (ih h).other (.num i) (by simp [Val.leaves]) rfl (by simp [Val.results])
    | made t i =>
      have := (ih h).other (.num i) (by simp [Val.leaves]) rfl (by simp [Val.results])
      exact this.congr (by simp [PVal.val, Val.leavesL, Val.leaves]) (by simp [PVal.val, Val.resultsL, Val.results])
    | lexeme a b =>
      obtain ⟨h1, h2, h3, h4⟩ := h
      have t := ih h4
      have hle := t.le
      refine ⟨by omega, ⟨fun s hs => ?_, ?_⟩, by simp, fun x hx => ?_, by simp, ?_, CallsOk.nil⟩
      · simp only [List.map_cons, PVal.val, spans, Val.leavesL, Val.leaves, List.singleton_append, List.filterMap_cons,
          span, List.mem_cons] at hs
        rcases hs with rfl | hs
        · exact ⟨h1, h2, hle⟩
        · have := t.ord.inside s hs
          exact ⟨by omega, this.2⟩
      · simp only [List.map_cons, PVal.val, spans, Val.leavesL, Val.leaves, List.singleton_append, List.filterMap_cons,
          span, List.pairwise_cons]
        exact ⟨fun s hs => .inl (t.ord.inside s hs).1, t.ord.order⟩
      · simp only [List.map_cons, PVal.val, Val.leavesL, Val.leaves, List.singleton_append, List.mem_cons] at hx
        rcases hx with rfl | hx
        · exact .inl h3
        · exact t.rep x hx
      · simpa [PVal.val, Val.resultsL, Val.results] using t.res

end Prod'

end Verif.Val
