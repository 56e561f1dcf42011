/-!
# C67: the memory blocks of parse trees

Models the ownership of blocks by `pt_buffer`, include/lexy/parse_tree.hpp l.188-325: a buffer has a
list of blocks linked by `next` pointers.  Only the pointers are modelled, not what is in the blocks;
see `ParseTree.lean` for that.  The program is any sequence of constructing, resetting, growing,
moving, assigning and destroying buffers.

Using a block after it was deallocated, or deallocating it twice, is the outcome `none`.
-/

namespace Verif.PT.Blocks

/-- `_head` and `_cur_block`, l.320-323. -/
structure Buf where
  head : Option Nat
  cur : Option Nat

/-- The buffers of the program, and the allocated blocks with their `next`. -/
structure W where
  bufs : Nat → Option Buf
  heap : Nat → Option (Option Nat)
  fresh : Nat

def W.init : W := ⟨fun _ => none, fun _ => none, 0⟩

def upd {α : Type} (f : Nat → α) (i : Nat) (x : α) : Nat → α := fun j => if j = i then x else f j

inductive Op
  /-- A default constructed buffer. -/
  | new (i : Nat)
  /-- `parse_tree::clear`, and at the beginning of a builder. -/
  | reset (i : Nat)
  /-- `reserve` with too little remaining capacity. -/
  | grow (i : Nat)
  /-- A new buffer `i` constructed by moving from `j`. -/
  | moveFrom (i j : Nat)
  /-- `i = std::move(j)`. -/
  | assign (i j : Nat)
  | destroy (i : Nat)

/-- The loop of the destructor, l.235-240 with `block::deallocate`, l.208-213. -/
def freeFrom (h : Nat → Option (Option Nat)) : Nat → Option Nat → Option (Nat → Option (Option Nat))
  | _, none => some h
  | 0, some _ => none
  | n + 1, some p => (h p).bind fun next => freeFrom (upd h p none) n next

def step (w : W) : Op → Option W
  /- l.223-225 -/
  | .new i => some { w with bufs := upd w.bufs i (some ⟨none, none⟩) }
  /- `reset`, l.257-264 -/
  | .reset i => (w.bufs i).bind fun b =>
    match b.head with
    | none => some { bufs := upd w.bufs i (some ⟨some w.fresh, some w.fresh⟩),
                     heap := upd w.heap w.fresh (some none), fresh := w.fresh + 1 }
    | some p => some { w with bufs := upd w.bufs i (some ⟨some p, some p⟩) }
  /- `reserve`, l.266-275 -/
  | .grow i => (w.bufs i).bind fun b => b.cur.bind fun c => (w.heap c).map fun _ =>
    { bufs := upd w.bufs i (some ⟨b.head, some w.fresh⟩),
      heap := upd (upd w.heap w.fresh (some none)) c (some (some w.fresh)), fresh := w.fresh + 1 }
  /- l.227-233 -/
  | .moveFrom i j => (w.bufs j).map fun b =>
    { w with bufs := upd (upd w.bufs j (some ⟨none, none⟩)) i (some b) }
  /- l.242-249 -/
  | .assign i j => (w.bufs i).bind fun a => (w.bufs j).map fun b =>
    { w with bufs := upd (upd w.bufs i (some b)) j (some a) }
  /- l.235-240; `fresh` bounds the number of blocks -/
  | .destroy i => (w.bufs i).bind fun b => (freeFrom w.heap w.fresh b.head).map fun h =>
    { w with bufs := upd w.bufs i none, heap := h }

def run (w : W) : List Op → Option W
  | [] => some w
  | op :: ops => (step w op).bind (run · ops)

/-- What the program has to respect: the life times of its buffers, and calling `reset` before
    anything is allocated in a buffer (l.252-253). -/
def Valid (w : W) : Op → Prop
  | .new i => w.bufs i = none
  | .reset i => w.bufs i ≠ none
  | .grow i => ∃ b c, w.bufs i = some b ∧ b.cur = some c
  | .moveFrom i j => w.bufs i = none ∧ w.bufs j ≠ none ∧ i ≠ j
  | .assign i j => w.bufs i ≠ none ∧ w.bufs j ≠ none
  | .destroy i => w.bufs i ≠ none

def ValidRun (w : W) : List Op → Prop
  | [] => True
  | op :: ops => Valid w op ∧ ∀ w', step w op = some w' → ValidRun w' ops

/-- The block that is followed by a new one has none so far: the buffer was not reset before. -/
def Last (w : W) : Op → Prop
  | .grow i => ∀ b c, w.bufs i = some b → b.cur = some c → w.heap c = some none
  | _ => True

def LastRun (w : W) : List Op → Prop
  | [] => True
  | op :: ops => Last w op ∧ ∀ w', step w op = some w' → LastRun w' ops

/-! ### The invariant -/


/-- Following the `next` pointers. -/
def Linked (h : Nat → Option (Option Nat)) : Option Nat → List Nat → Prop
  | none, [] => True
  | some p, q :: r => p = q ∧ ∃ next, h p = some next ∧ Linked h next r
  | _, _ => False

structure Inv (leakFree : Prop) (w : W) (ch : Nat → List Nat) : Prop where
  linked : ∀ i b, w.bufs i = some b → Linked w.heap b.head (ch i)
  cur : ∀ i b c, w.bufs i = some b → b.cur = some c → c ∈ ch i
  dead : ∀ i, w.bufs i = none → ch i = []
  nodup : ∀ i, (ch i).Nodup
  disj : ∀ i j x, x ∈ ch i → x ∈ ch j → i = j
  bound : ∀ p, w.heap p ≠ none → p < w.fresh
  owned : leakFree → ∀ p, w.heap p ≠ none → ∃ i, p ∈ ch i

theorem Linked.congr {h h' : Nat → Option (Option Nat)} : ∀ {l : List Nat} {o : Option Nat},
    Linked h o l → (∀ x ∈ l, h' x = h x) → Linked h' o l
  | [], none, _, _ => trivial
  | [], some _, H, _ => H.elim
  | _ :: _, none, H, _ => H.elim
  | q :: r, some p, ⟨e, next, h1, h2⟩, hx => by
    subst e
    exact ⟨rfl, next, by rw [hx _ (by simp)]; exact h1, Linked.congr h2 fun x hx' => hx x (by simp [hx'])⟩

theorem Linked.live {h : Nat → Option (Option Nat)} : ∀ {l : List Nat} {o : Option Nat},
    Linked h o l → ∀ x ∈ l, h x ≠ none
  | [], _, _ => by simp
  | _ :: _, none, H => H.elim
  | q :: r, some p, ⟨e, next, h1, h2⟩ => by
    subst e
    intro x hx
    simp only [List.mem_cons] at hx
    rcases hx with rfl | hx
    · rw [h1]; simp
    · exact h2.live x hx

theorem Linked.split {h : Nat → Option (Option Nat)} : ∀ {l : List Nat} {o : Option Nat} {c : Nat},
    Linked h o l → c ∈ l → ∃ l1 l2, l = l1 ++ c :: l2
      ∧ ∀ h' f, (∀ x ∈ l1, h' x = h x) → h' c = some (some f) → h' f = some none →
        Linked h' o (l1 ++ [c, f])
  | [], _, _, _, hc => by simp at hc
  | _ :: _, none, _, H, _ => H.elim
  | q :: r, some p, c, ⟨e, next, h1, h2⟩, hc => by
    subst e
    by_cases hpc : c = p
    · subst hpc
      refine ⟨[], r, rfl, fun h' f _ h2 h3 => ⟨rfl, _, h2, rfl, _, h3, trivial⟩⟩
    · simp only [List.mem_cons, hpc, false_or] at hc
      obtain ⟨l1, l2, e1, e2⟩ := h2.split hc
      refine ⟨p :: l1, l2, by rw [e1]; rfl, fun h' f g1 g2 g3 => ?_⟩
      exact ⟨rfl, next, by rw [g1 p (by simp)]; exact h1, e2 h' f (fun x hx => g1 x (by simp [hx])) g2 g3⟩

/-- If the current block has no successor it is the last. -/
theorem Linked.last {h : Nat → Option (Option Nat)} : ∀ {l1 l2 : List Nat} {o : Option Nat} {c : Nat},
    Linked h o (l1 ++ c :: l2) → h c = some none → l2 = []
  | [], l2, some p, c, ⟨e, next, h1, h2⟩, hc => by
    subst e
    rw [h1] at hc
    simp only [Option.some.injEq] at hc
    subst hc
    cases l2 with
    | nil => rfl
    | cons => exact h2.elim
  | [], _, none, _, H, _ => H.elim
  | x :: l1, l2, some p, c, ⟨e, next, h1, h2⟩, hc => h2.last hc
  | _ :: _, _, none, _, H, _ => H.elim

theorem freeFrom_ok : ∀ {n : Nat} {l : List Nat} {h : Nat → Option (Option Nat)} {o : Option Nat},
    Linked h o l → l.Nodup → l.length ≤ n →
    ∃ h', freeFrom h n o = some h' ∧ (∀ x, x ∈ l → h' x = none) ∧ ∀ x, x ∉ l → h' x = h x := by
  intro n
  induction n with
  | zero =>
    intro l h o H _ hl
    have : l = [] := by cases l <;> simp_all
    subst this
    cases o with
    | none => exact ⟨h, rfl, by simp, fun _ _ => rfl⟩
    | some => exact H.elim
  | succ n ih =>
    intro l h o H hn hl
    cases l with
    | nil =>
      cases o with
      | none => exact ⟨h, rfl, by simp, fun _ _ => rfl⟩
      | some => exact H.elim
    | cons q r =>
      cases o with
      | none => exact H.elim
      | some p =>
        obtain ⟨e, next, h1, h2⟩ := H
        subst e
        rw [List.nodup_cons] at hn
        have h3 : Linked (upd h p none) next r := h2.congr fun x hx => by
          unfold upd
          rw [if_neg]
          intro e; subst e; exact hn.1 hx
        obtain ⟨h', e1, e2, e3⟩ := ih h3 hn.2 (by simp at hl; omega)
        refine ⟨h', by simp [freeFrom, h1, e1], ?_, ?_⟩
        · intro x hx
          simp only [List.mem_cons] at hx
          rcases hx with rfl | hx
          · rw [e3 _ hn.1]; simp [upd]
          · exact e2 x hx
        · intro x hx
          simp only [List.mem_cons, not_or] at hx
          rw [e3 x hx.2]
          simp [upd, hx.1]

/-- A list without duplicates below a bound is not longer than the bound. -/
theorem length_le_of_lt : ∀ (n : Nat) (l : List Nat), l.Nodup → (∀ x ∈ l, x < n) → l.length ≤ n := by
  intro n
  induction n with
  | zero => intro l _ h; cases l with
    | nil => simp
    | cons x l => exact absurd (h x (by simp)) (by omega)
  | succ n ih =>
    intro l hn h
    have h1 : (l.erase n).Nodup := hn.erase n
    have h2 := ih (l.erase n) h1 fun x hx => by
      have h3 := h x (List.mem_of_mem_erase hx)
      have : x ≠ n := by
        intro e; subst e
        exact (hn.mem_erase_iff.1 hx).1 rfl
      omega
    by_cases hm : n ∈ l
    · rw [List.length_erase_of_mem hm] at h2; omega
    · rw [List.erase_of_not_mem hm] at h2; omega

theorem upd_same {α : Type} (f : Nat → α) (i : Nat) (x : α) : upd f i x i = x := by simp [upd]
theorem upd_other {α : Type} (f : Nat → α) {i j : Nat} (x : α) (h : j ≠ i) : upd f i x j = f j := by
  simp [upd, h]

theorem step_ok {L : Prop} {w : W} {ch : Nat → List Nat} {op : Op} (H : Inv L w ch) (hv : Valid w op)
    (hl : L → Last w op) : ∃ w' ch', step w op = some w' ∧ Inv L w' ch' := by
  cases op with
  | new i =>
    refine ⟨_, ch, rfl, ?_, ?_, ?_, H.nodup, H.disj, H.bound, H.owned⟩
    · intro j b hb
      by_cases hj : j = i
      · subst hj
        simp only [upd_same, Option.some.injEq] at hb
        rw [H.dead _ hv, ← hb]; trivial
      · simp only [upd_other _ _ hj] at hb; exact H.linked j b hb
    · intro j b c hb hc
      by_cases hj : j = i
      · subst hj
        simp only [upd_same, Option.some.injEq] at hb
        rw [← hb] at hc; simp at hc
      · simp only [upd_other _ _ hj] at hb; exact H.cur j b c hb hc
    · intro j hb
      by_cases hj : j = i
      · subst hj; simp [upd_same] at hb
      · simp only [upd_other _ _ hj] at hb; exact H.dead j hb
  | reset i =>
    simp only [Valid] at hv
    cases hb0 : w.bufs i with
    | none => exact absurd hb0 hv
    | some b0 =>
      have hlk := H.linked i b0 hb0
      cases hh : b0.head with
      | some p =>
        rw [hh] at hlk
        refine ⟨{ w with bufs := upd w.bufs i (some ⟨some p, some p⟩) }, ch,
          by simp only [step, hb0, Option.bind_some, hh], ?_, ?_, ?_, H.nodup, H.disj,
          H.bound, H.owned⟩
        · intro j b hb
          by_cases hj : j = i
          · subst hj
            simp only [upd_same, Option.some.injEq] at hb
            rw [← hb]; exact hlk
          · simp only [upd_other _ _ hj] at hb; exact H.linked j b hb
        · intro j b c hb hc
          by_cases hj : j = i
          · subst hj
            simp only [upd_same, Option.some.injEq] at hb
            rw [← hb] at hc
            simp only [Option.some.injEq] at hc
            subst hc
            cases hch : ch j with
            | nil => rw [hch] at hlk; exact hlk.elim
            | cons x l => rw [hch] at hlk; rw [hlk.1]; simp
          · simp only [upd_other _ _ hj] at hb; exact H.cur j b c hb hc
        · intro j hb
          by_cases hj : j = i
          · subst hj; simp [upd_same] at hb
          · simp only [upd_other _ _ hj] at hb; exact H.dead j hb
      | none =>
        have hf : ∀ j, w.fresh ∉ ch j := by
          intro j hm
          cases hb : w.bufs j with
          | none => rw [H.dead j hb] at hm; simp at hm
          | some b =>
            have := H.bound _ ((H.linked j b hb).live _ hm)
            omega
        rw [hh] at hlk
        have hci : ch i = [] := by
          cases hch : ch i with
          | nil => rfl
          | cons => rw [hch] at hlk; exact hlk.elim
        refine ⟨{ bufs := upd w.bufs i (some ⟨some w.fresh, some w.fresh⟩),
                  heap := upd w.heap w.fresh (some none), fresh := w.fresh + 1 }, upd ch i [w.fresh], by simp only [step, hb0, Option.bind_some, hh], ?_, ?_, ?_, ?_,
          ?_, ?_, ?_⟩
        · intro j b hb
          by_cases hj : j = i
          · subst hj
            simp only [upd_same, Option.some.injEq] at hb
            rw [← hb, upd_same]; exact ⟨rfl, _, upd_same .., trivial⟩
          · simp only [upd_other _ _ hj] at hb ⊢
            exact (H.linked j b hb).congr fun x hx => by
              rw [upd_other]; intro e; subst e; exact hf j hx
        · intro j b c hb hc
          by_cases hj : j = i
          · subst hj
            simp only [upd_same, Option.some.injEq] at hb
            rw [← hb] at hc
            simp only [Option.some.injEq] at hc
            rw [upd_same, hc]; simp
          · simp only [upd_other _ _ hj] at hb ⊢; exact H.cur j b c hb hc
        · intro j hb
          by_cases hj : j = i
          · subst hj; simp [upd_same] at hb
          · simp only [upd_other _ _ hj] at hb ⊢; exact H.dead j hb
        · intro j
          by_cases hj : j = i
          · subst hj; rw [upd_same]; simp
          · rw [upd_other _ _ hj]; exact H.nodup j
        · intro j k x hx hy
          by_cases hj : j = i
          · by_cases hk : k = i
            · rw [hj, hk]
            · rw [hj, upd_same] at hx; rw [upd_other _ _ hk] at hy
              simp only [List.mem_singleton] at hx
              subst hx; exact absurd hy (hf k)
          · rw [upd_other _ _ hj] at hx
            by_cases hk : k = i
            · rw [hk, upd_same] at hy
              simp only [List.mem_singleton] at hy
              subst hy; exact absurd hx (hf j)
            · rw [upd_other _ _ hk] at hy
              exact H.disj j k x hx hy
        · intro p hp
          simp only at hp ⊢
          by_cases hpf : p = w.fresh
          · omega
          · rw [upd_other _ _ hpf] at hp
            have := H.bound p hp; omega
        · intro hL p hp
          simp only at hp
          by_cases hpf : p = w.fresh
          · exact ⟨i, by rw [upd_same, hpf]; simp⟩
          · rw [upd_other _ _ hpf] at hp
            obtain ⟨j, hj⟩ := H.owned hL p hp
            refine ⟨j, ?_⟩
            rw [upd_other]
            · exact hj
            · intro e; subst e; rw [hci] at hj; simp at hj
  | grow i =>
    obtain ⟨b0, c, hb0, hc0⟩ := hv
    have hlk := H.linked i b0 hb0
    have hmem := H.cur i b0 c hb0 hc0
    have hlive := hlk.live c hmem
    have hf : ∀ j, w.fresh ∉ ch j := by
      intro j hm
      cases hb : w.bufs j with
      | none => rw [H.dead j hb] at hm; simp at hm
      | some b =>
        have := H.bound _ ((H.linked j b hb).live _ hm)
        omega
    have hcf : c ≠ w.fresh := by intro e; subst e; exact hf i hmem
    obtain ⟨l1, l2, e1, e2⟩ := hlk.split hmem
    have hnd := H.nodup i
    rw [e1] at hnd
    have hnl1 : c ∉ l1 := by
      intro hm
      rw [List.nodup_append] at hnd
      exact hnd.2.2 c hm c (by simp) rfl
    have hsub : ∀ x ∈ l1, x ∈ ch i := fun x hx => by rw [e1]; simp [hx]
    obtain ⟨cn, hcn⟩ := Option.ne_none_iff_exists'.1 hlive
    refine ⟨{ bufs := upd w.bufs i (some ⟨b0.head, some w.fresh⟩),
              heap := upd (upd w.heap w.fresh (some none)) c (some (some w.fresh)),
              fresh := w.fresh + 1 }, upd ch i (l1 ++ [c, w.fresh]), by simp only [step, hb0, Option.bind_some, hc0, hcn,
      Option.map_some], ?_, ?_, ?_, ?_, ?_, ?_, ?_⟩
    · intro j b hb
      by_cases hj : j = i
      · subst hj
        simp only [upd_same, Option.some.injEq] at hb
        rw [← hb, upd_same]
        refine e2 _ _ ?_ (upd_same ..) (by simp only; rw [upd_other _ _ (Ne.symm hcf), upd_same])
        intro x hx
        simp only
        rw [upd_other _ _ (by rintro rfl; exact hnl1 hx),
          upd_other _ _ (by rintro rfl; exact hf _ (hsub _ hx))]
      · simp only [upd_other _ _ hj] at hb ⊢
        exact (H.linked j b hb).congr fun x hx => by
          rw [upd_other _ _ (by rintro rfl; exact hj (H.disj _ _ _ hx hmem)),
            upd_other _ _ (by rintro rfl; exact hf _ hx)]
    · intro j b c' hb hc
      by_cases hj : j = i
      · subst hj
        simp only [upd_same, Option.some.injEq] at hb
        rw [← hb] at hc
        simp only [Option.some.injEq] at hc
        rw [upd_same, hc]; simp
      · simp only [upd_other _ _ hj] at hb ⊢; exact H.cur j b c' hb hc
    · intro j hb
      by_cases hj : j = i
      · subst hj; simp [upd_same] at hb
      · simp only [upd_other _ _ hj] at hb ⊢; exact H.dead j hb
    · intro j
      by_cases hj : j = i
      · subst hj; rw [upd_same]
        rw [List.nodup_append] at hnd ⊢
        refine ⟨hnd.1, by simp [hcf], ?_⟩
        intro x hx y hy e
        subst e
        simp only [List.mem_cons, List.not_mem_nil, or_false] at hy
        rcases hy with rfl | rfl
        · exact hnl1 hx
        · exact hf _ (hsub _ hx)
      · rw [upd_other _ _ hj]; exact H.nodup j
    · have key : ∀ x, x ∈ upd ch i (l1 ++ [c, w.fresh]) i → x ∈ ch i ∨ x = w.fresh := by
        intro x hx
        rw [upd_same] at hx
        simp only [List.mem_append, List.mem_cons, List.not_mem_nil, or_false] at hx
        rcases hx with hx | rfl | hx
        · exact .inl (hsub x hx)
        · exact .inl hmem
        · exact .inr hx
      intro j k x hx hy
      by_cases hj : j = i
      · by_cases hk : k = i
        · rw [hj, hk]
        · rw [hj] at hx; rw [upd_other _ _ hk] at hy
          rcases key x hx with h | h
          · rw [hj]; exact H.disj _ _ _ h hy
          · subst h; exact absurd hy (hf k)
      · rw [upd_other _ _ hj] at hx
        by_cases hk : k = i
        · rw [hk] at hy
          rcases key x hy with h | h
          · rw [hk]; exact H.disj _ _ _ hx h
          · subst h; exact absurd hx (hf j)
        · rw [upd_other _ _ hk] at hy
          exact H.disj j k x hx hy
    · intro p hp
      simp only at hp ⊢
      by_cases hpf : p = w.fresh
      · omega
      · by_cases hpc : p = c
        · have := H.bound c hlive; omega
        · rw [upd_other _ _ hpc, upd_other _ _ hpf] at hp
          have := H.bound p hp; omega
    · intro hL p hp
      have hlast := hl hL b0 c hb0 hc0
      have hl2 : l2 = [] := by rw [e1] at hlk; exact hlk.last hlast
      subst hl2
      simp only at hp
      by_cases hpf : p = w.fresh
      · exact ⟨i, by rw [upd_same, hpf]; simp⟩
      · by_cases hpc : p = c
        · exact ⟨i, by rw [upd_same, hpc]; simp⟩
        · rw [upd_other _ _ hpc, upd_other _ _ hpf] at hp
          obtain ⟨j, hj⟩ := H.owned hL p hp
          refine ⟨j, ?_⟩
          by_cases hji : j = i
          · subst hji
            rw [upd_same]
            rw [e1] at hj
            simp only [List.mem_append, List.mem_cons, List.not_mem_nil, or_false] at hj ⊢
            rcases hj with hj | hj
            · exact .inl hj
            · exact .inr (.inl hj)
          · rw [upd_other _ _ hji]; exact hj
  | moveFrom i j =>
    obtain ⟨h1, h2, h3⟩ := hv
    obtain ⟨b0, hb0⟩ := Option.ne_none_iff_exists'.1 h2
    have hci := H.dead i h1
    refine ⟨{ w with bufs := upd (upd w.bufs j (some ⟨none, none⟩)) i (some b0) },
      upd (upd ch j []) i (ch j), by simp only [step, hb0, Option.map_some], ?_, ?_, ?_, ?_,
      ?_, H.bound, ?_⟩
    · intro k b hb
      by_cases hk : k = i
      · subst hk
        simp only [upd_same, Option.some.injEq] at hb ⊢
        rw [← hb]; exact H.linked j b0 hb0
      · simp only [upd_other _ _ hk] at hb ⊢
        by_cases hkj : k = j
        · subst hkj
          simp only [upd_same, Option.some.injEq] at hb ⊢
          rw [← hb]; trivial
        · simp only [upd_other _ _ hkj] at hb ⊢
          exact H.linked k b hb
    · intro k b c hb hc
      by_cases hk : k = i
      · subst hk
        simp only [upd_same, Option.some.injEq] at hb ⊢
        subst hb; exact H.cur j _ c hb0 hc
      · simp only [upd_other _ _ hk] at hb ⊢
        by_cases hkj : k = j
        · subst hkj
          simp only [upd_same, Option.some.injEq] at hb ⊢
          subst hb; simp at hc
        · simp only [upd_other _ _ hkj] at hb ⊢
          exact H.cur k b c hb hc
    · intro k hb
      by_cases hk : k = i
      · subst hk; simp [upd_same] at hb
      · simp only [upd_other _ _ hk] at hb ⊢
        by_cases hkj : k = j
        · subst hkj; simp [upd_same] at hb
        · simp only [upd_other _ _ hkj] at hb ⊢
          exact H.dead k hb
    · intro k
      unfold upd
      split
      · exact H.nodup j
      · split
        · simp
        · exact H.nodup k
    · intro k l x hx hy
      unfold upd at hx hy
      split at hx <;> split at hy
      · omega
      · split at hy
        · simp at hy
        · have := H.disj _ _ _ hx hy; omega
      · split at hx
        · simp at hx
        · have := H.disj _ _ _ hx hy; omega
      · split at hx
        · simp at hx
        · split at hy
          · simp at hy
          · exact H.disj _ _ _ hx hy
    · intro hL p hp
      obtain ⟨k, hk⟩ := H.owned hL p hp
      by_cases hkj : k = j
      · subst hkj; exact ⟨i, by rw [upd_same]; exact hk⟩
      · refine ⟨k, ?_⟩
        rw [upd_other, upd_other _ _ hkj]
        · exact hk
        · intro e; subst e; rw [hci] at hk; simp at hk
  | assign i j =>
    obtain ⟨h1, h2⟩ := hv
    obtain ⟨a0, ha0⟩ := Option.ne_none_iff_exists'.1 h1
    obtain ⟨b0, hb0⟩ := Option.ne_none_iff_exists'.1 h2
    refine ⟨{ w with bufs := upd (upd w.bufs i (some b0)) j (some a0) },
      upd (upd ch i (ch j)) j (ch i), by simp only [step, ha0, Option.bind_some, hb0,
      Option.map_some], ?_, ?_, ?_, ?_, ?_, H.bound, ?_⟩
    · intro k b hb
      by_cases hk : k = j
      · subst hk
        simp only [upd_same, Option.some.injEq] at hb ⊢
        rw [← hb]; exact H.linked i a0 ha0
      · simp only [upd_other _ _ hk] at hb ⊢
        by_cases hki : k = i
        · subst hki
          simp only [upd_same, Option.some.injEq] at hb ⊢
          rw [← hb]; exact H.linked j b0 hb0
        · simp only [upd_other _ _ hki] at hb ⊢
          exact H.linked k b hb
    · intro k b c hb hc
      by_cases hk : k = j
      · subst hk
        simp only [upd_same, Option.some.injEq] at hb ⊢
        subst hb; exact H.cur i _ c ha0 hc
      · simp only [upd_other _ _ hk] at hb ⊢
        by_cases hki : k = i
        · subst hki
          simp only [upd_same, Option.some.injEq] at hb ⊢
          subst hb; exact H.cur j _ c hb0 hc
        · simp only [upd_other _ _ hki] at hb ⊢
          exact H.cur k b c hb hc
    · intro k hb
      by_cases hk : k = j
      · subst hk; simp [upd_same] at hb
      · simp only [upd_other _ _ hk] at hb ⊢
        by_cases hki : k = i
        · subst hki; simp [upd_same] at hb
        · simp only [upd_other _ _ hki] at hb ⊢
          exact H.dead k hb
    · intro k
      unfold upd
      split
      · exact H.nodup i
      · split
        · exact H.nodup j
        · exact H.nodup k
    · intro k l x hx hy
      unfold upd at hx hy
      split at hx <;> split at hy
      · omega
      · split at hy
        · have := H.disj _ _ _ hx hy; omega
        · have := H.disj _ _ _ hx hy; omega
      · split at hx
        · have := H.disj _ _ _ hx hy; omega
        · have := H.disj _ _ _ hx hy; omega
      · split at hx <;> split at hy <;> (have := H.disj _ _ _ hx hy; omega)
    · intro hL p hp
      obtain ⟨k, hk⟩ := H.owned hL p hp
      by_cases hki : k = i
      · subst hki; exact ⟨j, by rw [upd_same]; exact hk⟩
      · by_cases hkj : k = j
        · subst hkj; exact ⟨i, by rw [upd_other _ _ (by omega), upd_same]; exact hk⟩
        · exact ⟨k, by rw [upd_other _ _ hkj, upd_other _ _ hki]; exact hk⟩
  | destroy i =>
    obtain ⟨b0, hb0⟩ := Option.ne_none_iff_exists'.1 hv
    have hlk := H.linked i b0 hb0
    obtain ⟨h', e1, e2, e3⟩ := freeFrom_ok (n := w.fresh) hlk (H.nodup i)
      (length_le_of_lt _ _ (H.nodup i) fun x hx => H.bound x (hlk.live x hx))
    refine ⟨{ w with bufs := upd w.bufs i none, heap := h' }, upd ch i [], by simp only [step, hb0, Option.bind_some, e1, Option.map_some], ?_, ?_, ?_,
      ?_, ?_, ?_, ?_⟩
    · intro k b hb
      by_cases hk : k = i
      · subst hk; simp [upd_same] at hb
      · simp only [upd_other _ _ hk] at hb ⊢
        exact (H.linked k b hb).congr fun x hx => e3 x fun hm => hk (H.disj _ _ _ hx hm)
    · intro k b c hb hc
      by_cases hk : k = i
      · subst hk; simp [upd_same] at hb
      · simp only [upd_other _ _ hk] at hb ⊢
        exact H.cur k b c hb hc
    · intro k hb
      by_cases hk : k = i
      · subst hk; rw [upd_same]
      · simp only [upd_other _ _ hk] at hb ⊢
        exact H.dead k hb
    · intro k
      unfold upd
      split
      · simp
      · exact H.nodup k
    · intro k l x hx hy
      unfold upd at hx hy
      split at hx
      · simp at hx
      · split at hy
        · simp at hy
        · exact H.disj _ _ _ hx hy
    · intro p hp
      simp only at hp
      refine H.bound p fun h => hp ?_
      by_cases hm : p ∈ ch i
      · exact e2 p hm
      · rw [e3 p hm, h]
    · intro hL p hp
      simp only at hp
      by_cases hm : p ∈ ch i
      · exact absurd (e2 p hm) hp
      · rw [e3 p hm] at hp
        obtain ⟨k, hk⟩ := H.owned hL p hp
        refine ⟨k, ?_⟩
        rw [upd_other]
        · exact hk
        · intro e; subst e; exact hm hk

theorem run_ok {L : Prop} : ∀ (ops : List Op) {w : W} {ch : Nat → List Nat}, Inv L w ch →
    ValidRun w ops → (L → LastRun w ops) → ∃ w' ch', run w ops = some w' ∧ Inv L w' ch'
  | [], w, ch, H, _, _ => ⟨w, ch, rfl, H⟩
  | op :: ops, w, ch, H, hv, hl => by
    obtain ⟨w1, ch1, h1, h2⟩ := step_ok H hv.1 fun h => (hl h).1
    obtain ⟨w2, ch2, h3, h4⟩ := run_ok ops h2 (hv.2 w1 h1) fun h => (hl h).2 w1 h1
    exact ⟨w2, ch2, by simp [run, h1, h3], h4⟩

theorem init_inv (L : Prop) : Inv L W.init fun _ => [] := by
  constructor <;> simp [W.init]

/-- No program uses a block after it was deallocated or deallocates it twice. -/
theorem C67_safe (ops : List Op) (hv : ValidRun W.init ops) : ∃ w, run W.init ops = some w := by
  obtain ⟨w, _, h, _⟩ := run_ok ops (init_inv False) hv (fun h => h.elim)
  exact ⟨w, h⟩

/-- When all buffers are destroyed, all blocks are deallocated: if no buffer that has grown is reset
    and grown again. -/
theorem C67_no_leak_partial (ops : List Op) (hv : ValidRun W.init ops) (hl : LastRun W.init ops) :
    ∃ w, run W.init ops = some w ∧ ((∀ i, w.bufs i = none) → ∀ p, w.heap p = none) := by
  obtain ⟨w, ch, h, H⟩ := run_ok (L := True) ops (init_inv True) hv fun _ => hl
  refine ⟨w, h, fun hd p => ?_⟩
  cases hp : w.heap p with
  | none => rfl
  | some x =>
    obtain ⟨i, hi⟩ := H.owned trivial p (by rw [hp]; simp)
    rw [H.dead i (hd i)] at hi
    simp at hi

/-- A buffer that has grown is reset and grows again, as when parsing two big inputs into the same
    tree: the second block is never deallocated. -/
theorem C67_reuse_leaks : ∃ (ops : List Op) (w : W), ValidRun W.init ops ∧ run W.init ops = some w
    ∧ (∀ i, w.bufs i = none) ∧ w.heap 1 ≠ none := by
  refine ⟨[.new 0, .reset 0, .grow 0, .reset 0, .grow 0, .destroy 0], _, ?_, rfl, ?_, ?_⟩
  · simp [ValidRun, Valid, step, W.init, upd]
  · intro i
    simp only [upd, W.init]
    intros
    split
    · rfl
    · simp_all
  · simp [upd, W.init]

/-- An example with moving and assigning. -/
example : let ops := [.new 0, .reset 0, .grow 0, .grow 0, .moveFrom 1 0, .reset 0, .assign 0 1, .new 2,
    .assign 2 0, .destroy 0, .destroy 1, .destroy 2]
    ValidRun W.init ops ∧ LastRun W.init ops := by
  simp [ValidRun, Valid, LastRun, Last, step, W.init, upd, freeFrom]
  constructor
  · rintro b c rfl h
    simp at h; exact h.symm
  · rintro b c rfl h
    simp at h; subst h; rfl

end Verif.PT.Blocks
