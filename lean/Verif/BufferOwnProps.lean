import Verif.BufferOwn

/-
C66: buffers own their memory: every allocation is given back exactly once, with the size and to the
resource it came from, whatever sequence of constructions, copies, moves, assignments, releases,
adoptions and destructions happens; and these operations transport the contents.
-/

namespace Verif.Own

namespace Spec

/-- Equality of memory resources is an equivalence, and objects of an empty class are all equal. -/
structure ParOk (P : Par) : Prop where
  refl : ∀ a, P.eqv a a = true
  symm : ∀ a b, P.eqv a b = true → P.eqv b a = true
  trans : ∀ a b c, P.eqv a b = true → P.eqv b c = true → P.eqv a c = true
  empty : P.emptyRes = true → ∀ a b, P.eqv a b = true

/-- The slot is unused / holds a buffer / holds released memory. -/
def Free (w : W) (i : Nat) : Prop := w.slots (some i) = none
def IsBuf (w : W) (i : Nat) : Prop := ∃ o, w.slots (some i) = some ⟨o, false⟩
def IsRaw (w : W) (i : Nat) (P : Par) (res : Nat) : Prop :=
  ∃ o, w.slots (some i) = some ⟨o, true⟩ ∧ P.eqv res o.res = true

/-- What a client has to observe: create objects in unused storage, use only living buffers, adopt
    only what was released and with an equal resource. -/
def Allowed (P : Par) (w : W) : Op → Prop
  | .construct i _ _ => Free w i
  | .empty i _ => Free w i
  | .copy i j _ => Free w i ∧ IsBuf w j
  | .move i j => Free w i ∧ IsBuf w j
  | .copyAssign i j => IsBuf w i ∧ IsBuf w j
  | .moveAssign i j => IsBuf w i ∧ IsBuf w j
  | .release i j => IsBuf w i ∧ Free w j
  | .adopt i j res => Free w i ∧ IsRaw w j P res
  | .destroy i => IsBuf w i

/-- A history of allowed operations. -/
inductive History (P : Par) : W → Prop
  | init : History P W.init
  | step {w w' op} : History P w → Allowed P w op → step P w op = some w' → History P w'

/-- The characters held by a slot. -/
def Holds (w : W) (i : Nat) (cs : List Nat) : Prop :=
  ∃ o, w.slots (some i) = some ⟨o, false⟩ ∧ w.content o = some cs

end Spec

/-- An object and the block it points to fit. -/
def Fits (P : Par) (w : W) (o : Obj) : Prop :=
  match o.data with
  | none => o.size = 0
  | some p => ∃ b, w.heap p = some b ∧ P.eqv o.res b.res = true ∧ b.bytes = bytesFor P o.size
      ∧ b.chars.length = o.size

structure Inv (P : Par) (w : W) : Prop where
  fits : ∀ i o, w.slots i = some o → Fits P w o.obj
  inj : ∀ i j o o' p, w.slots i = some o → w.slots j = some o' → o.obj.data = some p →
    o'.obj.data = some p → i = j
  owned : ∀ p b, w.heap p = some b → ∃ i o, w.slots i = some o ∧ o.obj.data = some p
  fresh : ∀ p b, w.heap p = some b → p < w.next

variable {P : Par}

theorem Fits.fresh {w : W} (h : Inv P w) {o : Obj} (hf : Fits P w o) {p : Nat}
    (hp : o.data = some p) : p < w.next := by
  unfold Fits at hf; rw [hp] at hf
  obtain ⟨b, hb, _⟩ := hf
  exact h.fresh p b hb

theorem Inv.init : Inv P W.init := by
  constructor <;> simp [W.init]

theorem construct_inv (hP : Spec.ParOk P) {w : W} (h : Inv P w) {i res cs}
    (hi : w.slots i = none) :
    ∃ w', construct P w i res cs = some w' ∧ Inv P w'
      ∧ (∃ o, w'.slots i = some ⟨o, false⟩ ∧ o.res = res ∧ w'.content o = some cs)
      ∧ (∀ j, j ≠ i → w'.slots j = w.slots j)
      ∧ (∀ p, p < w.next → w'.heap p = w.heap p) := by
  refine ⟨_, by simp only [construct, hi]; rfl, ⟨?_, ?_, ?_, ?_⟩, ?_, ?_, ?_⟩
  · intro j o hj
    simp only [W.setSlot, W.setHeap] at hj
    split at hj
    · cases hj
      simp only [Fits, W.setSlot, W.setHeap, Nat.add_sub_cancel, if_true]
      exact ⟨_, rfl, hP.refl _, rfl, rfl⟩
    · have hf := h.fits j o hj
      simp only [Fits, W.setSlot, W.setHeap] at hf ⊢
      cases hd : o.obj.data with
      | none => rw [hd] at hf; exact hf
      | some p =>
        have := Fits.fresh h (h.fits j o hj) hd
        rw [hd] at hf
        simp only
        rw [if_neg (by omega)]; exact hf
  · intro j k o o' p hj hk hp hp'
    simp only [W.setSlot, W.setHeap] at hj hk
    split at hj <;> split at hk
    · simp_all
    · cases hj
      have := Fits.fresh h (h.fits k o' hk) hp'
      simp at hp; omega
    · cases hk
      have := Fits.fresh h (h.fits j o hj) hp
      simp at hp'; omega
    · exact h.inj j k o o' p hj hk hp hp'
  · intro p b hb
    simp only [W.setSlot, W.setHeap] at hb ⊢
    split at hb
    · next hp => exact ⟨i, ⟨⟨res, some w.next, cs.length⟩, false⟩, by simp, by simp [hp]⟩
    · obtain ⟨j, o, hj, ho⟩ := h.owned p b hb
      refine ⟨j, o, ?_, ho⟩
      rw [if_neg (fun hji => by rw [hji, hi] at hj; cases hj)]; exact hj
  · intro p b hb
    simp only [W.setSlot, W.setHeap] at hb ⊢
    split at hb
    · omega
    · have := h.fresh p b hb; omega
  · exact ⟨⟨res, some w.next, cs.length⟩, by simp [W.setSlot, W.setHeap], rfl,
      by simp [W.content, W.setSlot, W.setHeap]⟩
  · intro j hj; simp [W.setSlot, W.setHeap, hj]
  · intro p hp; simp [W.setSlot, W.setHeap]; omega

theorem Fits.content {w : W} {o : Obj} (h : Fits P w o) : ∃ cs, w.content o = some cs := by
  unfold Fits at h; unfold W.content
  cases hd : o.data with
  | none => rw [hd] at h; exact ⟨[], by simp [h]⟩
  | some p =>
    rw [hd] at h
    obtain ⟨b, hb, _, _, hl⟩ := h
    exact ⟨b.chars, by simp [hb, hl]⟩

theorem buf_eq {w : W} {i} {o : Obj} (h : w.slots i = some ⟨o, false⟩) : w.buf i = some o := by
  simp [W.buf, h]

theorem content_congr {w w' : W} {o : Obj} (h : ∀ p, o.data = some p → w'.heap p = w.heap p) :
    w'.content o = w.content o := by
  unfold W.content
  cases hd : o.data with
  | none => rfl
  | some p => simp only [h p hd]

theorem destroy_inv (hP : Spec.ParOk P) {w : W} (h : Inv P w) {i} {o : Obj}
    (hi : w.slots i = some ⟨o, false⟩) :
    ∃ w', destroy P w i = some w' ∧ Inv P w' ∧ w'.slots i = none
      ∧ (∀ j, j ≠ i → w'.slots j = w.slots j)
      ∧ (∀ p, o.data ≠ some p → w'.heap p = w.heap p)
      ∧ (∀ p, o.data = some p → w'.heap p = none) := by
  have hf := h.fits i _ hi
  unfold destroy
  rw [buf_eq hi]
  simp only [Option.bind_some]
  cases hd : o.data with
  | none =>
    refine ⟨_, rfl, ⟨?_, ?_, ?_, ?_⟩, by simp [W.setSlot], fun j hj => by simp [W.setSlot, hj],
      fun _ _ => rfl, nofun⟩
    · intro j o' hj
      simp only [W.setSlot] at hj
      split at hj
      · cases hj
      · exact h.fits j o' hj
    · intro j k o1 o2 p hj hk hp hp'
      simp only [W.setSlot] at hj hk
      split at hj
      · cases hj
      · split at hk
        · cases hk
        · exact h.inj j k o1 o2 p hj hk hp hp'
    · intro p b hb
      obtain ⟨j, o', hj, ho'⟩ := h.owned p b hb
      refine ⟨j, o', ?_, ho'⟩
      simp only [W.setSlot]
      rw [if_neg]; exact hj
      rintro rfl
      rw [hi] at hj; cases hj; rw [hd] at ho'; cases ho'
    · exact h.fresh
  | some p =>
    unfold Fits at hf
    simp only [hd] at hf
    obtain ⟨b, hb, he, hby, hl⟩ := hf
    simp only [deallocate, hb, he, hby, true_and, if_true, Option.map_some]
    refine ⟨_, rfl, ⟨?_, ?_, ?_, ?_⟩, by simp [W.setSlot], fun j hj => by simp [W.setSlot, W.setHeap, hj],
      fun q hq => ?_, fun q hq => ?_⟩
    · intro j o' hj
      simp only [W.setSlot, W.setHeap] at hj
      split at hj
      · cases hj
      · next hne =>
        have hf := h.fits j o' hj
        simp only [Fits, W.setSlot, W.setHeap] at hf ⊢
        cases hd' : o'.obj.data with
        | none => rw [hd'] at hf; exact hf
        | some q =>
          rw [hd'] at hf
          simp only
          rw [if_neg]; exact hf
          rintro rfl
          exact hne (h.inj j i o' _ q hj hi hd' hd)
    · intro j k o1 o2 q hj hk hp hp'
      simp only [W.setSlot, W.setHeap] at hj hk
      split at hj
      · cases hj
      · split at hk
        · cases hk
        · exact h.inj j k o1 o2 q hj hk hp hp'
    · intro q b' hb'
      simp only [W.setSlot, W.setHeap] at hb' ⊢
      split at hb'
      · cases hb'
      · next hne =>
        obtain ⟨j, o', hj, ho'⟩ := h.owned q b' hb'
        refine ⟨j, o', ?_, ho'⟩
        rw [if_neg]; exact hj
        rintro rfl
        rw [hi] at hj; cases hj
        simp only [hd, Option.some.injEq] at ho'
        exact hne ho'.symm
    · intro q b' hb'
      simp only [W.setSlot, W.setHeap] at hb' ⊢
      split at hb'
      · cases hb'
      · exact h.fresh q b' hb'
    · simp only [W.setSlot, W.setHeap]; rw [if_neg]; rintro rfl; exact hq rfl
    · cases hq; simp [W.setSlot, W.setHeap]


/-- The pointer in a slot. -/
def pt (w : W) (i : Option Nat) : Option Nat := (w.slots i).bind (·.obj.data)

theorem pt_some {w : W} {i p} : pt w i = some p ↔ ∃ o, w.slots i = some o ∧ o.obj.data = some p := by
  simp [pt, Option.bind_eq_some_iff]

/-- Two slots exchange their pointers. -/
theorem exchange {w w' : W} (h : Inv P w) (i j : Option Nat)
    (hheap : w'.heap = w.heap) (hnext : w'.next = w.next)
    (hother : ∀ k, k ≠ i → k ≠ j → w'.slots k = w.slots k)
    (hi : pt w' i = pt w j) (hj : pt w' j = pt w i)
    (fi : ∀ o, w'.slots i = some o → Fits P w o.obj)
    (fj : ∀ o, w'.slots j = some o → Fits P w o.obj) : Inv P w' := by
  have inj : ∀ k l p, pt w k = some p → pt w l = some p → k = l := by
    intro k l p hk hl
    obtain ⟨o, ho, hp⟩ := pt_some.1 hk
    obtain ⟨o', ho', hp'⟩ := pt_some.1 hl
    exact h.inj k l o o' p ho ho' hp hp'
  have hpt : ∀ k, k ≠ i → k ≠ j → pt w' k = pt w k := by
    intro k h1 h2; simp [pt, hother k h1 h2]
  have inj' : ∀ k l p, pt w' k = some p → pt w' l = some p → k = l := by
    intro k l p hk hl
    by_cases h1 : k = i <;> by_cases h2 : k = j <;> by_cases h3 : l = i <;> by_cases h4 : l = j
    all_goals first
      | (subst h1; subst h3; rfl)
      | (subst h2; subst h4; rfl)
      | (subst h1; subst h4; rw [hi] at hk; rw [hj] at hl; exact inj _ _ p hl hk)
      | (subst h2; subst h3; rw [hj] at hk; rw [hi] at hl; exact inj _ _ p hl hk)
      | (subst h1; rw [hi] at hk; rw [hpt l h3 h4] at hl; exact absurd (inj _ _ p hl hk) h4)
      | (subst h2; rw [hj] at hk; rw [hpt l h3 h4] at hl; exact absurd (inj _ _ p hl hk) h3)
      | (subst h3; rw [hi] at hl; rw [hpt k h1 h2] at hk; exact absurd (inj _ _ p hk hl) h2)
      | (subst h4; rw [hj] at hl; rw [hpt k h1 h2] at hk; exact absurd (inj _ _ p hk hl) h1)
      | (rw [hpt k h1 h2] at hk; rw [hpt l h3 h4] at hl; exact inj _ _ p hk hl)
  refine ⟨?_, ?_, ?_, ?_⟩
  · intro k o hk
    have : Fits P w o.obj := by
      by_cases h1 : k = i
      · subst h1; exact fi o hk
      · by_cases h2 : k = j
        · subst h2; exact fj o hk
        · exact h.fits k o (by rw [← hother k h1 h2]; exact hk)
    simp only [Fits, hheap] at this ⊢; exact this
  · intro k l o o' p hk hl hp hp'
    exact inj' k l p (pt_some.2 ⟨o, hk, hp⟩) (pt_some.2 ⟨o', hl, hp'⟩)
  · intro p b hb
    rw [hheap] at hb
    obtain ⟨k, o, hk, hp⟩ := h.owned p b hb
    have hk' : pt w k = some p := pt_some.2 ⟨o, hk, hp⟩
    have : ∃ l, pt w' l = some p := by
      by_cases h1 : k = i
      · exact ⟨j, by rw [hj, ← h1, hk']⟩
      · by_cases h2 : k = j
        · exact ⟨i, by rw [hi, ← h2, hk']⟩
        · exact ⟨k, by rw [hpt k h1 h2, hk']⟩
    obtain ⟨l, hl⟩ := this
    obtain ⟨o', ho', hp'⟩ := pt_some.1 hl
    exact ⟨l, o', ho', hp'⟩
  · intro p b hb; rw [hheap] at hb; rw [hnext]; exact h.fresh p b hb

theorem Fits.res (hP : Spec.ParOk P) {w : W} {o o' : Obj} (h : Fits P w o) (hd : o'.data = o.data)
    (hs : o'.size = o.size) (hr : P.eqv o'.res o.res = true) : Fits P w o' := by
  unfold Fits at h ⊢
  rw [hd]
  cases hdd : o.data with
  | none => rw [hdd] at h; simp only at h ⊢; rw [hs]; exact h
  | some p =>
    rw [hdd] at h
    obtain ⟨b, hb, he, hby, hl⟩ := h
    exact ⟨b, hb, hP.trans _ _ _ hr he, by rw [hs]; exact hby, by rw [hs]; exact hl⟩

theorem fits_null {w : W} (r : Nat) : Fits P w ⟨r, none, 0⟩ := by simp [Fits]

theorem moveTo_inv {w : W} (h : Inv P w) {i j} {o : Obj}
    (hi : w.slots i = none) (hj : w.slots j = some ⟨o, false⟩) :
    ∃ w', moveTo w i j = some w' ∧ Inv P w' ∧ w'.heap = w.heap ∧ w'.slots i = some ⟨o, false⟩
      ∧ w'.slots j = some ⟨⟨o.res, none, 0⟩, false⟩
      ∧ (∀ k, k ≠ i → k ≠ j → w'.slots k = w.slots k) := by
  have hne : i ≠ j := by rintro rfl; rw [hi] at hj; cases hj
  refine ⟨(w.setSlot i (some ⟨o, false⟩)).setSlot j (some ⟨⟨o.res, none, 0⟩, false⟩),
    by simp only [moveTo, hi, buf_eq hj]; rfl, ?_, rfl, by simp [W.setSlot, hne],
    by simp [W.setSlot], fun k h1 h2 => by simp [W.setSlot, h1, h2]⟩
  refine exchange h i j rfl rfl (fun k h1 h2 => by simp [W.setSlot, h1, h2]) ?_ ?_ ?_ ?_
  · simp [pt, W.setSlot, hne, hj]
  · simp [pt, W.setSlot, hi]
  · intro o' ho'
    simp only [W.setSlot, if_neg hne, if_true] at ho'
    cases ho'
    exact h.fits j _ hj
  · intro o' ho'
    simp only [W.setSlot, if_true] at ho'
    cases ho'; exact fits_null _

theorem release_inv {w : W} (h : Inv P w) {i j} {o : Obj}
    (hi : w.slots i = some ⟨o, false⟩) (hj : w.slots j = none) :
    ∃ w', release w i j = some w' ∧ Inv P w' ∧ w'.heap = w.heap ∧ w'.slots j = some ⟨o, true⟩
      ∧ w'.slots i = some ⟨⟨o.res, none, 0⟩, false⟩
      ∧ (∀ k, k ≠ i → k ≠ j → w'.slots k = w.slots k) := by
  have hne : j ≠ i := by rintro rfl; rw [hi] at hj; cases hj
  refine ⟨(w.setSlot j (some ⟨o, true⟩)).setSlot i (some ⟨⟨o.res, none, 0⟩, false⟩),
    by simp only [release, hj, buf_eq hi]; rfl, ?_, rfl, by simp [W.setSlot, hne],
    by simp [W.setSlot], fun k h1 h2 => by simp [W.setSlot, h1, h2]⟩
  refine exchange h j i rfl rfl (fun k h1 h2 => by simp [W.setSlot, h1, h2]) ?_ ?_ ?_ ?_
  · simp [pt, W.setSlot, hne, hi]
  · simp [pt, W.setSlot, hj]
  · intro o' ho'
    simp only [W.setSlot, if_neg hne, if_true] at ho'
    cases ho'
    exact h.fits i ⟨o, false⟩ hi
  · intro o' ho'
    simp only [W.setSlot, if_true] at ho'
    cases ho'; exact fits_null _

theorem adopt_inv (hP : Spec.ParOk P) {w : W} (h : Inv P w) {i j res} {o : Obj}
    (hi : w.slots i = none) (hj : w.slots j = some ⟨o, true⟩) (he : P.eqv res o.res = true) :
    ∃ w', adopt P w i j res = some w' ∧ Inv P w' ∧ w'.heap = w.heap
      ∧ w'.slots i = some ⟨{o with res := res}, false⟩ ∧ w'.slots j = none
      ∧ (∀ k, k ≠ i → k ≠ j → w'.slots k = w.slots k) := by
  have hne : j ≠ i := by rintro rfl; rw [hi] at hj; cases hj
  refine ⟨(w.setSlot j none).setSlot i (some ⟨{o with res := res}, false⟩),
    by simp only [adopt, hi, hj, he, hP.symm _ _ he, and_self, if_true], ?_, rfl,
    by simp [W.setSlot], by simp [W.setSlot, hne], fun k h1 h2 => by simp [W.setSlot, h1, h2]⟩
  refine exchange h i j rfl rfl (fun k h1 h2 => by simp [W.setSlot, h1, h2]) ?_ ?_ ?_ ?_
  · simp [pt, W.setSlot, hj]
  · simp [pt, W.setSlot, hi, hne]
  · intro o' ho'
    simp only [W.setSlot, if_true] at ho'
    cases ho'
    exact (h.fits j _ hj).res hP rfl rfl he
  · intro o' ho'
    simp only [W.setSlot, if_true, if_neg hne] at ho'
    cases ho'

theorem swapData_inv (hP : Spec.ParOk P) {w : W} (h : Inv P w) {i j} {a b : Obj}
    (hi : w.slots i = some ⟨a, false⟩) (hj : w.slots j = some ⟨b, false⟩)
    (he : P.eqv a.res b.res = true) (hne : i ≠ j) :
    ∃ w', swapData w i j = some w' ∧ Inv P w' ∧ w'.heap = w.heap
      ∧ w'.slots i = some ⟨{a with data := b.data, size := b.size}, false⟩
      ∧ w'.slots j = some ⟨{b with data := a.data, size := a.size}, false⟩
      ∧ (∀ k, k ≠ i → k ≠ j → w'.slots k = w.slots k) := by
  refine ⟨(w.setSlot i (some ⟨{a with data := b.data, size := b.size}, false⟩)).setSlot j
      (some ⟨{b with data := a.data, size := a.size}, false⟩),
    by simp only [swapData, buf_eq hi, buf_eq hj, if_neg hne]; rfl, ?_, rfl,
    by simp [W.setSlot, hne], by simp [W.setSlot], fun k h1 h2 => by simp [W.setSlot, h1, h2]⟩
  refine exchange h i j rfl rfl (fun k h1 h2 => by simp [W.setSlot, h1, h2]) ?_ ?_ ?_ ?_
  · simp [pt, W.setSlot, hne, hj]
  · simp [pt, W.setSlot, hi]
  · intro o' ho'
    simp only [W.setSlot, if_neg hne, if_true] at ho'
    cases ho'
    exact (h.fits j _ hj).res hP rfl rfl he
  · intro o' ho'
    simp only [W.setSlot, if_true] at ho'
    cases ho'
    exact (h.fits i _ hi).res hP rfl rfl (hP.symm _ _ he)

/-- The slots other than `i` and `j` keep their characters. -/
def Kept (w w' : W) (i j : Option Nat) : Prop :=
  ∀ k o, k ≠ i → k ≠ j → w.slots k = some o →
    w'.slots k = some o ∧ w'.content o.obj = w.content o.obj

theorem copyTo_inv (hP : Spec.ParOk P) {w : W} (h : Inv P w) {i j res} {o : Obj}
    (hi : w.slots i = none) (hj : w.slots j = some ⟨o, false⟩) :
    ∃ w' o', copyTo P w i j res = some w' ∧ Inv P w' ∧ w'.slots i = some ⟨o', false⟩ ∧ o'.res = res
      ∧ w'.content o' = w.content o ∧ (∀ k, k ≠ i → w'.slots k = w.slots k)
      ∧ (∀ k o, w.slots k = some o → w'.content o.obj = w.content o.obj) := by
  obtain ⟨cs, hcs⟩ := (h.fits j _ hj).content
  obtain ⟨w', h1, h2, ⟨o', h3, h3', h3''⟩, h4, h5⟩ := construct_inv hP h hi (res := res) (cs := cs)
  refine ⟨w', o', ?_, h2, h3, h3', by rw [h3'', hcs], h4, ?_⟩
  · simp only [copyTo, buf_eq hj, Option.bind_some, hcs]; exact h1
  · intro k o hk
    exact content_congr fun p hp => h5 p (Fits.fresh h (h.fits k o hk) hp)

theorem copyAssign_inv (hP : Spec.ParOk P) {w : W} (h : Inv P w) (ht : w.slots none = none)
    {i j : Nat} {a b : Obj}
    (hi : w.slots (some i) = some ⟨a, false⟩) (hj : w.slots (some j) = some ⟨b, false⟩) :
    ∃ w' a', copyAssign P w (some i) (some j) = some w' ∧ Inv P w' ∧ w'.slots none = none
      ∧ w'.slots (some i) = some ⟨a', false⟩ ∧ w'.content a' = w.content b ∧ a'.res = a.res
      ∧ Kept w w' (some i) none := by
  obtain ⟨w1, t, e1, inv1, s1, r1, c1, o1, k1⟩ := copyTo_inv hP h (res := a.res) ht hj
  have hi1 : w1.slots (some i) = some ⟨a, false⟩ := by rw [o1 _ (by simp)]; exact hi
  obtain ⟨w2, e2, inv2, hp2, si2, st2, o2⟩ := swapData_inv hP inv1 hi1 s1
    (by rw [r1]; exact hP.refl _) (by simp)
  obtain ⟨w3, e3, inv3, s3, o3, hp3, _⟩ := destroy_inv hP inv2 st2
  refine ⟨w3, {a with data := t.data, size := t.size}, ?_, inv3, s3, ?_, ?_, rfl, ?_⟩
  · simp only [copyAssign, buf_eq hi, Option.bind_some, e1, hP.refl, if_true, e2, e3]
  · rw [o3 _ (by simp)]; exact si2
  · rw [← c1]
    have hheap : ∀ p, t.data = some p → w3.heap p = w1.heap p := by
      intro p hp
      rw [hp3, hp2]
      intro hap
      -- the old memory is not the new one
      have := inv1.inj (some i) none _ _ p hi1 s1 hap hp
      cases this
    unfold W.content
    cases hd : t.data with
    | none => rfl
    | some p => simp only [hheap p hd]
  · intro k o h1 h2 hk
    have hk1 : w1.slots k = some o := by rw [o1 _ h2]; exact hk
    refine ⟨by rw [o3 _ h2, o2 _ h1 h2, hk1], ?_⟩
    rw [← k1 k o hk]
    refine content_congr fun p hp => ?_
    rw [hp3, hp2]
    intro hap
    exact h1 (inv1.inj k (some i) o _ p hk1 hi1 hp hap)

theorem moveAssign_inv (hP : Spec.ParOk P) {w : W} (h : Inv P w) (ht : w.slots none = none)
    {i j : Nat} {a b : Obj}
    (hi : w.slots (some i) = some ⟨a, false⟩) (hj : w.slots (some j) = some ⟨b, false⟩) :
    ∃ w' a', moveAssign P w (some i) (some j) none = some w' ∧ Inv P w' ∧ w'.slots none = none
      ∧ w'.slots (some i) = some ⟨a', false⟩ ∧ w'.content a' = w.content b ∧ a'.res = a.res
      ∧ Kept w w' (some i) (some j) := by
  unfold moveAssign
  simp only [buf_eq hi, buf_eq hj, Option.bind_some]
  by_cases he : P.eqv a.res b.res = true
  · rw [if_pos he]
    by_cases hne : i = j
    · subst hne
      rw [hi] at hj; cases hj
      refine ⟨w, a, by simp [swapData, buf_eq hi], h, ht, hi, rfl, rfl,
        fun k o _ _ hk => ⟨hk, rfl⟩⟩
    · obtain ⟨w2, e2, inv2, hp2, si2, st2, o2⟩ := swapData_inv hP h hi hj he (by simpa using hne)
      refine ⟨w2, _, e2, inv2, by rw [o2 _ (by simp) (by simp)]; exact ht, si2, ?_, rfl, ?_⟩
      · simp only [W.content, hp2]
      · intro k o h1 h2 hk
        exact ⟨by rw [o2 _ h1 h2]; exact hk, content_congr fun p _ => by rw [hp2]⟩
  · have hem : P.emptyRes = false := by
      cases hem : P.emptyRes with
      | false => rfl
      | true => exact absurd (hP.empty hem _ _) he
    rw [if_neg he]
    simp only [hem, Bool.false_eq_true, if_false]
    obtain ⟨w1, t, e1, inv1, s1, r1, c1, o1, k1⟩ := copyTo_inv hP h (res := a.res) ht hj
    have hi1 : w1.slots (some i) = some ⟨a, false⟩ := by rw [o1 _ (by simp)]; exact hi
    obtain ⟨w2, e2, inv2, hp2, si2, st2, o2⟩ := swapData_inv hP inv1 hi1 s1
      (by rw [r1]; exact hP.refl _) (by simp)
    obtain ⟨w3, e3, inv3, s3, o3, hp3, _⟩ := destroy_inv hP inv2 st2
    refine ⟨w3, {a with data := t.data, size := t.size}, ?_, inv3, s3, ?_, ?_, rfl, ?_⟩
    · simp only [e1, Option.bind_some, e2, e3]
    · rw [o3 _ (by simp)]; exact si2
    · rw [← c1]
      have hheap : ∀ p, t.data = some p → w3.heap p = w1.heap p := by
        intro p hp
        rw [hp3, hp2]
        intro hap
        have := inv1.inj (some i) none _ _ p hi1 s1 hap hp
        cases this
      unfold W.content
      cases hd : t.data with
      | none => rfl
      | some p => simp only [hheap p hd]
    · intro k o h1 h2 hk
      by_cases h3 : k = none
      · subst h3; rw [ht] at hk; cases hk
      · have hk1 : w1.slots k = some o := by rw [o1 _ h3]; exact hk
        refine ⟨by rw [o3 _ h3, o2 _ h1 h3, hk1], ?_⟩
        rw [← k1 k o hk]
        refine content_congr fun p hp => ?_
        rw [hp3, hp2]
        intro hap
        exact h1 (inv1.inj k (some i) o _ p hk1 hi1 hp hap)

theorem step_inv (hP : Spec.ParOk P) {w : W} (h : Inv P w) (ht : w.slots none = none) {op : Op}
    (ha : Spec.Allowed P w op) : ∃ w', step P w op = some w' ∧ Inv P w' ∧ w'.slots none = none := by
  cases op <;> simp only [step]
  case construct i res cs =>
    obtain ⟨w', h1, h2, _, h4, _⟩ := construct_inv hP h ha (res := res) (cs := cs)
    exact ⟨w', h1, h2, by rw [h4 _ (by simp)]; exact ht⟩
  case empty i res =>
    have ha : w.slots (some i) = none := ha
    refine ⟨_, by simp only [constructEmpty, ha]; rfl, ?_, by simpa [W.setSlot] using ht⟩
    refine exchange h (some i) (some i) rfl rfl (fun k h1 _ => by simp [W.setSlot, h1]) ?_ ?_ ?_ ?_
    · simp [pt, W.setSlot, ha]
    · simp [pt, W.setSlot, ha]
    · intro o' ho'; simp only [W.setSlot, if_true] at ho'; cases ho'; exact fits_null _
    · intro o' ho'; simp only [W.setSlot, if_true] at ho'; cases ho'; exact fits_null _
  case copy i j res =>
    obtain ⟨hi, o, hj⟩ := ha
    obtain ⟨w', o', h1, h2, _, _, _, h5, _⟩ := copyTo_inv hP h (res := res) hi hj
    exact ⟨w', h1, h2, by rw [h5 _ (by simp)]; exact ht⟩
  case move i j =>
    obtain ⟨hi, o, hj⟩ := ha
    obtain ⟨w', h1, h2, _, _, _, h5⟩ := moveTo_inv h hi hj
    exact ⟨w', h1, h2, by rw [h5 _ (by simp) (by simp)]; exact ht⟩
  case copyAssign i j =>
    obtain ⟨⟨a, hi⟩, o, hj⟩ := ha
    obtain ⟨w', _, h1, h2, h3, _⟩ := copyAssign_inv hP h ht hi hj
    exact ⟨w', h1, h2, h3⟩
  case moveAssign i j =>
    obtain ⟨⟨a, hi⟩, o, hj⟩ := ha
    obtain ⟨w', _, h1, h2, h3, _⟩ := moveAssign_inv hP h ht hi hj
    exact ⟨w', h1, h2, h3⟩
  case release i j =>
    obtain ⟨⟨o, hi⟩, hj⟩ := ha
    obtain ⟨w', h1, h2, _, _, _, h5⟩ := release_inv h hi hj
    exact ⟨w', h1, h2, by rw [h5 _ (by simp) (by simp)]; exact ht⟩
  case adopt i j res =>
    obtain ⟨hi, o, hj, he⟩ := ha
    obtain ⟨w', h1, h2, _, _, _, h5⟩ := adopt_inv hP h hi hj he
    exact ⟨w', h1, h2, by rw [h5 _ (by simp) (by simp)]; exact ht⟩
  case destroy i =>
    obtain ⟨o, hi⟩ := ha
    obtain ⟨w', h1, h2, _, h4, _⟩ := destroy_inv hP h hi
    exact ⟨w', h1, h2, by rw [h4 _ (by simp)]; exact ht⟩

theorem Spec.History.inv (hP : Spec.ParOk P) {w : W} (h : Spec.History P w) :
    Inv P w ∧ w.slots none = none := by
  induction h with
  | init => exact ⟨Inv.init, rfl⟩
  | step _ ha hs ih =>
    obtain ⟨w', h1, h2⟩ := step_inv hP ih.1 ih.2 ha
    rw [h1] at hs; cases hs; exact h2

/-- C66: no allowed operation after any history double-frees, frees with a wrong size, frees
    through a resource that is not equal to the allocating one, or reads freed memory. -/
theorem C66_safe (hP : Spec.ParOk P) {w : W} (h : Spec.History P w) (op : Op)
    (ha : Spec.Allowed P w op) : ∃ w', step P w op = some w' :=
  let ⟨w', h1, _⟩ := step_inv hP (h.inv hP).1 (h.inv hP).2 ha
  ⟨w', h1⟩

/-- C66: no leaks: when all buffers are destroyed and no released memory is left, nothing is
    allocated any more. -/
theorem C66_no_leak (hP : Spec.ParOk P) {w : W} (h : Spec.History P w)
    (hall : ∀ i, Spec.Free w i) : ∀ p, w.heap p = none := by
  intro p
  cases hp : w.heap p with
  | none => rfl
  | some b =>
    obtain ⟨i, o, hi, _⟩ := (h.inv hP).1.owned p b hp
    cases i with
    | none => rw [(h.inv hP).2] at hi; cases hi
    | some i => rw [hall i] at hi; cases hi

/-- C66: no two buffers share memory. -/
theorem C66_unique_owner (hP : Spec.ParOk P) {w : W} (h : Spec.History P w) (i j : Nat)
    (o o' : Own) (p : Nat) (hi : w.slots (some i) = some o) (hj : w.slots (some j) = some o')
    (hp : o.obj.data = some p) (hp' : o'.obj.data = some p) : i = j :=
  Option.some.inj ((h.inv hP).1.inj _ _ _ _ p hi hj hp hp')

/-- C66: construction and copying store the given characters, moving and assigning transfer them,
    and no other buffer changes. -/
theorem C66_contents (hP : Spec.ParOk P) {w w' : W} (h : Spec.History P w) (op : Op)
    (ha : Spec.Allowed P w op) (hs : step P w op = some w') :
    (match op with
      | .construct i _ cs => Spec.Holds w' i cs
      | .empty i _ => Spec.Holds w' i []
      | .copy i j _ | .move i j | .copyAssign i j | .moveAssign i j =>
        ∀ cs, Spec.Holds w j cs → Spec.Holds w' i cs
      | .release i _ => Spec.Holds w' i []
      | .adopt i j _ => ∀ o cs, w.slots (some j) = some o → w.content o.obj = some cs →
          Spec.Holds w' i cs
      | .destroy i => Spec.Free w' i)
    ∧ (∀ k cs, Spec.Holds w k cs →
        (match op with
          | .construct i _ _ | .empty i _ | .copy i _ _ | .copyAssign i _ | .destroy i => k ≠ i
          | .move i j | .moveAssign i j | .release i j | .adopt i j _ => k ≠ i ∧ k ≠ j) →
        Spec.Holds w' k cs)
    ∧ (∀ i j, op = .move i j → Spec.Holds w' j [])
    ∧ (∀ i j res cs, op = .copy i j res → Spec.Holds w j cs → Spec.Holds w' j cs) := by
  obtain ⟨hinv, ht⟩ := h.inv hP
  have hne : ∀ {k i : Nat}, k ≠ i → (some k : Option Nat) ≠ some i := fun h h' => h (Option.some.inj h')
  cases op <;> simp only [step] at hs
  case construct i res cs =>
    obtain ⟨w', h1, h2, ⟨o, h3, h3', h3''⟩, h4, h5⟩ := construct_inv hP hinv ha (res := res) (cs := cs)
    rw [h1] at hs; cases hs
    refine ⟨⟨o, h3, h3''⟩, fun k cs' ⟨ok, hk, hc⟩ hki => ⟨ok, by rw [h4 _ (hne hki)]; exact hk, ?_⟩,
      nofun, nofun⟩
    rw [← hc]
    exact content_congr fun p hp => h5 p (Fits.fresh hinv (hinv.fits _ _ hk) hp)
  case empty i res =>
    have ha : w.slots (some i) = none := ha
    simp only [constructEmpty, ha, Option.some.injEq] at hs
    subst hs
    refine ⟨⟨⟨res, none, 0⟩, by simp [W.setSlot], rfl⟩, fun k cs' ⟨ok, hk, hc⟩ hki =>
      ⟨ok, by simpa [W.setSlot, hki] using hk, hc⟩, nofun, nofun⟩
  case copy i j res =>
    obtain ⟨hi, o, hj⟩ := ha
    obtain ⟨w', o', h1, h2, h3, h4, h5, h6, h7⟩ := copyTo_inv hP hinv (res := res) hi hj
    rw [h1] at hs; cases hs
    have hkeep : ∀ k cs', Spec.Holds w k cs' → k ≠ i → Spec.Holds w' k cs' :=
      fun k cs' ⟨ok, hk, hc⟩ hki => ⟨ok, by rw [h6 _ (hne hki)]; exact hk, by rw [h7 _ _ hk]; exact hc⟩
    refine ⟨fun cs ⟨oj, hoj, hcj⟩ => ⟨o', h3, ?_⟩, hkeep, nofun, ?_⟩
    · rw [hj] at hoj; cases hoj; rw [h5]; exact hcj
    · intro i' j' res' cs hop hh
      cases hop
      refine hkeep _ _ hh ?_
      intro hji
      rw [hji, show w.slots (some i) = none from hi] at hj; cases hj
  case move i j =>
    obtain ⟨hi, o, hj⟩ := ha
    obtain ⟨w', h1, h2, h3, h4, h5, h6⟩ := moveTo_inv hinv hi hj
    rw [h1] at hs; cases hs
    refine ⟨fun cs ⟨oj, hoj, hcj⟩ => ⟨o, h4, ?_⟩, fun k cs' ⟨ok, hk, hc⟩ hki =>
      ⟨ok, by rw [h6 _ (hne hki.1) (hne hki.2)]; exact hk, ?_⟩, ?_, nofun⟩
    · rw [hj] at hoj; cases hoj; rw [← hcj]; exact content_congr fun p _ => by rw [h3]
    · rw [← hc]; exact content_congr fun p _ => by rw [h3]
    · intro i' j' hop; cases hop; exact ⟨_, h5, rfl⟩
  case copyAssign i j =>
    obtain ⟨⟨a, hi⟩, o, hj⟩ := ha
    obtain ⟨w', a', h1, h2, h3, h4, h5, _, h6⟩ := copyAssign_inv hP hinv ht hi hj
    rw [h1] at hs; cases hs
    refine ⟨fun cs ⟨oj, hoj, hcj⟩ => ⟨a', h4, ?_⟩, fun k cs' ⟨ok, hk, hc⟩ hki => ?_, nofun, nofun⟩
    · rw [hj] at hoj; cases hoj; rw [h5]; exact hcj
    · obtain ⟨h7, h8⟩ := h6 (some k) _ (hne hki) (by simp) hk
      exact ⟨ok, h7, by rw [← hc]; exact h8⟩
  case moveAssign i j =>
    obtain ⟨⟨a, hi⟩, o, hj⟩ := ha
    obtain ⟨w', a', h1, h2, h3, h4, h5, _, h6⟩ := moveAssign_inv hP hinv ht hi hj
    rw [h1] at hs; cases hs
    refine ⟨fun cs ⟨oj, hoj, hcj⟩ => ⟨a', h4, ?_⟩, fun k cs' ⟨ok, hk, hc⟩ hki => ?_, nofun, nofun⟩
    · rw [hj] at hoj; cases hoj; rw [h5]; exact hcj
    · obtain ⟨h7, h8⟩ := h6 (some k) _ (hne hki.1) (hne hki.2) hk
      exact ⟨ok, h7, by rw [← hc]; exact h8⟩
  case release i j =>
    obtain ⟨⟨o, hi⟩, hj⟩ := ha
    obtain ⟨w', h1, h2, h3, h4, h5, h6⟩ := release_inv hinv hi hj
    rw [h1] at hs; cases hs
    refine ⟨⟨_, h5, rfl⟩, fun k cs' ⟨ok, hk, hc⟩ hki =>
      ⟨ok, by rw [h6 _ (hne hki.1) (hne hki.2)]; exact hk, ?_⟩, nofun, nofun⟩
    rw [← hc]; exact content_congr fun p _ => by rw [h3]
  case adopt i j res =>
    obtain ⟨hi, o, hj, he⟩ := ha
    obtain ⟨w', h1, h2, h3, h4, h5, h6⟩ := adopt_inv hP hinv hi hj he
    rw [h1] at hs; cases hs
    refine ⟨fun o' cs ho' hc => ⟨_, h4, ?_⟩, fun k cs' ⟨ok, hk, hc⟩ hki =>
      ⟨ok, by rw [h6 _ (hne hki.1) (hne hki.2)]; exact hk, ?_⟩, nofun, nofun⟩
    · rw [hj] at ho'; cases ho'; rw [← hc]; simp only [W.content, h3]
    · rw [← hc]; exact content_congr fun p _ => by rw [h3]
  case destroy i =>
    obtain ⟨o, hi⟩ := ha
    obtain ⟨w', h1, h2, h3, h4, h5, h6⟩ := destroy_inv hP hinv hi
    rw [h1] at hs; cases hs
    refine ⟨h3, fun k cs' ⟨ok, hk, hc⟩ hki => ⟨ok, by rw [h4 _ (hne hki)]; exact hk, ?_⟩, nofun, nofun⟩
    rw [← hc]
    refine content_congr fun p hp => h5 p ?_
    intro hp'
    exact hki (Option.some.inj (hinv.inj _ _ _ _ p hk hi hp hp'))

/-- C66: every buffer has memory for its characters; with a sentinel also for the words a reader reads at their end. -/
theorem C66_enough_memory (hP : Spec.ParOk P) {w : W} (h : Spec.History P w) (i : Nat) (o : Own) (p : Nat)
    (hi : w.slots (some i) = some o) (hp : o.obj.data = some p) :
    ∃ b, w.heap p = some b ∧ o.obj.size * P.enc.bytes ≤ b.bytes
      ∧ (P.enc.sentinel.isSome = true → (o.obj.size + 8 / P.enc.bytes) * P.enc.bytes ≤ b.bytes) := by
  have hf := (h.inv hP).1.fits _ o hi
  simp only [Fits, hp] at hf
  obtain ⟨b, h1, -, h2, -⟩ := hf
  have h8 : 8 / P.enc.bytes ≤ 8 := Nat.div_le_self _ _
  have hge : ∀ n, n + 9 ≤ roundSizeForSwar (n + 1) := fun n => by unfold roundSizeForSwar; split <;> omega
  refine ⟨b, h1, ?_⟩
  rw [h2, bytesFor]
  cases P.enc.sentinel with
  | none => exact ⟨Nat.le_refl _, nofun⟩
  | some eof =>
    have := hge o.obj.size
    exact ⟨Nat.mul_le_mul_right _ (by omega), fun _ => Nat.mul_le_mul_right _ (by omega)⟩

/-! A program that meets the hypotheses: two resources that are not equal, copy, move-assignment
across resources, self-assignment, release and adopt. -/

def exPar : Par := ⟨BEnc.utf8, false, fun a b => a == b⟩

example : Spec.ParOk exPar :=
  ⟨by simp [exPar], by simp [exPar], by simp [exPar], nofun⟩

example : ((run exPar W.init
    [.construct 0 1 [1, 2, 3], .construct 1 2 [4], .moveAssign 0 1, .copyAssign 0 0,
     .copy 2 0 2, .release 0 3, .destroy 0, .adopt 0 3 1]).map
    fun w => ((w.buf (some 0)).bind w.content, (w.buf (some 2)).bind w.content)) =
    some (some [4], some [4]) := by decide +kernel

/-- The memory of `C66_enough_memory`, for UTF-32. -/
example : ((run ⟨BEnc.utf32, false, fun a b => a == b⟩ W.init [.construct 0 1 [1, 2, 3]]).map
    fun w => (w.buf (some 0)).map fun o => (o.size, (o.data.bind w.heap).map (·.bytes))) =
    some (some (3, some 64)) := by decide +kernel

end Verif.Own
