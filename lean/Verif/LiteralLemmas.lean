import Verif.Literal

/-!
Lemmas about the trie: the invariant of the arrays, what insertion does to the set of reachable
strings, and the relation of matching to walks.
-/

namespace Verif
namespace Trie

/-- One step: the target of the transition of `node` labelled `c`. -/
def step (t : Trie) (node c : Nat) : Option Nat :=
  ((t.nodeTransitions node).find? (fun tr => tr.char == c)).map (·.dst)

def walk (t : Trie) (node : Nat) : List Nat → Option Nat
  | [] => some node
  | c :: cs => match t.step node c with
    | none => none
    | some m => walk t m cs

theorem walk_append (t : Trie) (node : Nat) (u v : List Nat) :
    t.walk node (u ++ v) = (t.walk node u).bind (fun m => t.walk m v) := by
  induction u generalizing node with
  | nil => rfl
  | cons c cs ih =>
    simp only [List.cons_append, walk]
    cases t.step node c with
    | none => rfl
    | some m => exact ih m

/-- Array invariant. -/
structure Inv (t : Trie) : Prop where
  lenV : t.value.length = t.trans.length + 1
  lenC : t.cls.length = t.trans.length + 1
  dst : ∀ i (h : i < t.trans.length), t.trans[i].dst = i + 1
  src : ∀ i (h : i < t.trans.length), t.trans[i].src ≤ i
  uniq : ∀ i j (hi : i < t.trans.length) (hj : j < t.trans.length),
    t.trans[i].src = t.trans[j].src → t.trans[i].char = t.trans[j].char → i = j

theorem inv_empty : Inv empty := by
  constructor <;> simp [empty]

theorem mem_nodeTransitions {t : Trie} (h : Inv t) (node : Nat) (tr : Trans) :
    tr ∈ t.nodeTransitions node ↔ tr ∈ t.trans ∧ tr.src = node := by
  simp only [nodeTransitions, List.mem_filter, beq_iff_eq, and_congr_left_iff]
  intro hsrc
  constructor
  · exact List.mem_of_mem_drop
  · intro hm
    obtain ⟨i, hi, rfl⟩ := List.getElem_of_mem hm
    have := h.src i hi
    rw [List.mem_iff_getElem]
    refine ⟨i - node, by simp; omega, ?_⟩
    simp only [List.getElem_drop]
    congr 1; omega

theorem step_eq_some {t : Trie} (h : Inv t) (node c m : Nat) :
    t.step node c = some m ↔ (⟨c, node, m⟩ : Trans) ∈ t.trans := by
  unfold step
  constructor
  · intro hs
    cases hf : (t.nodeTransitions node).find? (fun tr => tr.char == c) with
    | none => rw [hf] at hs; simp at hs
    | some tr =>
      rw [hf] at hs
      simp only [Option.map_some, Option.some.injEq] at hs
      have h1 := List.find?_some hf
      have h2 := (mem_nodeTransitions h node tr).1 (List.mem_of_find?_eq_some hf)
      simp only [beq_iff_eq] at h1
      obtain ⟨c', s', d'⟩ := tr
      simp only at h1 hs h2
      obtain ⟨h2, rfl⟩ := h2
      subst h1 hs
      exact h2
  · intro hm
    cases hf : (t.nodeTransitions node).find? (fun tr => tr.char == c) with
    | none =>
      have := List.find?_eq_none.1 hf _ ((mem_nodeTransitions h node _).2 ⟨hm, rfl⟩)
      simp at this
    | some tr =>
      have h1 := List.find?_some hf
      have h2 := (mem_nodeTransitions h node tr).1 (List.mem_of_find?_eq_some hf)
      simp only [beq_iff_eq] at h1
      obtain ⟨i, hi, e1⟩ := List.getElem_of_mem hm
      obtain ⟨j, hj, e2⟩ := List.getElem_of_mem h2.1
      have := h.uniq i j hi hj (by rw [e1, e2, h2.2]) (by rw [e1, e2, h1])
      subst this
      rw [e1] at e2
      simp [← e2]

theorem step_lt {t : Trie} (h : Inv t) {node c m : Nat} (hs : t.step node c = some m) :
    node < m ∧ m < t.nodeCount := by
  obtain ⟨i, hi, e⟩ := List.getElem_of_mem ((step_eq_some h node c m).1 hs)
  have h1 := h.dst i hi
  have h2 := h.src i hi
  rw [e] at h1 h2
  simp only at h1 h2
  have := h.lenV
  unfold nodeCount
  omega

theorem walk_lt {t : Trie} (h : Inv t) (w : List Nat) : ∀ {node m : Nat}, node < t.nodeCount →
    t.walk node w = some m → m < t.nodeCount := by
  induction w with
  | nil => intro node m hn hw; simp [walk] at hw; omega
  | cons c cs ih =>
    intro node m hn hw
    simp only [walk] at hw
    cases hs : t.step node c with
    | none => rw [hs] at hw; simp at hw
    | some k => rw [hs] at hw; exact ih (step_lt h hs).2 hw

theorem walk_snoc {t : Trie} {w : List Nat} {c m : Nat} :
    t.walk 0 (w ++ [c]) = some m ↔ ∃ k, t.walk 0 w = some k ∧ t.step k c = some m := by
  rw [walk_append]
  cases t.walk 0 w with
  | none => simp
  | some k =>
    simp only [Option.bind_some, walk, Option.some.injEq, exists_eq_left']
    cases t.step k c <;> simp

/-- Different strings lead to different nodes. -/
theorem walk_inj {t : Trie} (h : Inv t) : ∀ (m : Nat) (u v : List Nat),
    t.walk 0 u = some m → t.walk 0 v = some m → u = v := by
  intro m
  induction m using Nat.strongRecOn with
  | ind m ih =>
    intro u v hu hv
    have nil_of : ∀ w, t.walk 0 w = some 0 → w = [] := by
      intro w hw
      rcases List.eq_nil_or_concat w with rfl | ⟨w', c, rfl⟩
      · rfl
      · rw [List.concat_eq_append, walk_snoc] at hw
        obtain ⟨k, -, hk⟩ := hw
        have := (step_lt h hk).1
        omega
    by_cases hm : m = 0
    · subst hm; rw [nil_of u hu, nil_of v hv]
    · rcases List.eq_nil_or_concat u with rfl | ⟨u', c, rfl⟩
      · simp [walk] at hu; omega
      rcases List.eq_nil_or_concat v with rfl | ⟨v', d, rfl⟩
      · simp [walk] at hv; omega
      rw [List.concat_eq_append] at hu hv ⊢
      rw [List.concat_eq_append]
      rw [walk_snoc] at hu hv
      obtain ⟨k, hk, hkm⟩ := hu
      obtain ⟨l, hl, hlm⟩ := hv
      obtain ⟨i, hi, e1⟩ := List.getElem_of_mem ((step_eq_some h _ _ _).1 hkm)
      obtain ⟨j, hj, e2⟩ := List.getElem_of_mem ((step_eq_some h _ _ _).1 hlm)
      have d1 := h.dst i hi
      have d2 := h.dst j hj
      rw [e1] at d1; rw [e2] at d2
      simp only at d1 d2
      have : i = j := by omega
      subst this
      rw [e1] at e2
      simp only [Trans.mk.injEq, and_true] at e2
      obtain ⟨rfl, rfl⟩ := e2
      rw [ih k (step_lt h hkm).1 _ _ hk hl]

/-! ### Insertion -/

/-- `t'` extends `t` by fresh nodes without value or class. -/
structure Extends (t t' : Trie) : Prop where
  inv : Inv t'
  count : t.nodeCount ≤ t'.nodeCount
  fwd : ∀ n c m, t.step n c = some m → t'.step n c = some m
  bwd : ∀ n c m, t'.step n c = some m → t.step n c = some m ∨ t.nodeCount ≤ m
  val : ∀ n : Nat, t'.value[n]?.join = t.value[n]?.join
  cls : ∀ n : Nat, t'.cls[n]?.join = t.cls[n]?.join

theorem Extends.refl {t : Trie} (h : Inv t) : Extends t t :=
  ⟨h, Nat.le_refl _, fun _ _ _ h => h, fun _ _ _ h => .inl h, fun _ => rfl, fun _ => rfl⟩

theorem Extends.trans {t t' t'' : Trie} (h : Extends t t') (h' : Extends t' t'') : Extends t t'' where
  inv := h'.inv
  count := Nat.le_trans h.count h'.count
  fwd n c m hs := h'.fwd n c m (h.fwd n c m hs)
  bwd n c m hs := by
    rcases h'.bwd n c m hs with hs | hs
    · exact h.bwd n c m hs
    · exact .inr (Nat.le_trans h.count hs)
  val n := (h'.val n).trans (h.val n)
  cls n := (h'.cls n).trans (h.cls n)

theorem Extends.walk_fwd {t t' : Trie} (h : Extends t t') (w : List Nat) : ∀ {n m : Nat},
    t.walk n w = some m → t'.walk n w = some m := by
  induction w with
  | nil => intro n m hw; exact hw
  | cons c cs ih =>
    intro n m hw
    simp only [walk] at hw ⊢
    cases hs : t.step n c with
    | none => rw [hs] at hw; simp at hw
    | some k => rw [hs] at hw; rw [h.fwd _ _ _ hs]; exact ih hw

theorem Extends.walk_bwd {t t' : Trie} (h : Extends t t') (w : List Nat) : ∀ {n m : Nat},
    t'.walk n w = some m → t.walk n w = some m ∨ t.nodeCount ≤ m := by
  induction w with
  | nil => intro n m hw; exact .inl hw
  | cons c cs ih =>
    intro n m hw
    simp only [walk] at hw ⊢
    cases hs : t'.step n c with
    | none => rw [hs] at hw; simp at hw
    | some k =>
      rw [hs] at hw
      rcases h.bwd _ _ _ hs with h1 | h1
      · rw [h1]; exact ih hw
      · right
        -- every further node is larger
        have : ∀ (w : List Nat) (k m : Nat), t'.walk k w = some m → k ≤ m := by
          intro w
          induction w with
          | nil => intro k m hk; simp [walk] at hk; omega
          | cons c cs ih =>
            intro k m hk
            simp only [walk] at hk
            cases hs : t'.step k c with
            | none => rw [hs] at hk; simp at hk
            | some l =>
              rw [hs] at hk
              have := ih l m hk
              have := (step_lt h.inv hs).1
              omega
        have := this cs k m hw
        omega

theorem join_append_none (l : List (Option Nat)) (n : Nat) :
    (l ++ [none])[n]?.join = l[n]?.join := by
  rw [List.getElem?_append]
  split
  · rfl
  · rename_i h
    rw [List.getElem?_eq_none (by omega : l.length ≤ n)]
    cases n - l.length <;> simp

theorem insertChar_spec {t : Trie} (h : Inv t) (src c : Nat) (hs : src < t.nodeCount) :
    Extends t (t.insertChar src c).1 ∧ (t.insertChar src c).1.step src c = some (t.insertChar src c).2 ∧
    (∀ tr ∈ (t.insertChar src c).1.trans, tr ∈ t.trans ∨ tr.char = c) := by
  unfold insertChar
  cases hf : (t.trans.drop src).find? (fun tr => tr.src == src && tr.char == c) with
  | some tr =>
    simp only
    have h1 := List.find?_some hf
    simp only [Bool.and_eq_true, beq_iff_eq] at h1
    have h2 := List.mem_of_mem_drop (List.mem_of_find?_eq_some hf)
    refine ⟨Extends.refl h, ?_, fun tr h => .inl h⟩
    rw [step_eq_some h]
    obtain ⟨c', s', d'⟩ := tr
    simp only at h1
    obtain ⟨rfl, rfl⟩ := h1
    exact h2
  | none =>
    simp only
    have hnone : ∀ tr ∈ t.trans, tr.src = src → tr.char ≠ c := by
      intro tr htr hsrc hc
      have hm := (mem_nodeTransitions h src tr).2 ⟨htr, hsrc⟩
      have := List.find?_eq_none.1 hf tr (List.mem_filter.1 hm).1
      simp [hsrc, hc] at this
    have lv := h.lenV
    have lc := h.lenC
    have hcount : t.nodeCount = t.trans.length + 1 := lv
    have hinv : Inv ⟨t.value ++ [none], t.cls ++ [none], t.trans ++ [⟨c, src, t.nodeCount⟩]⟩ := by
      constructor
      · simp [lv]
      · simp [lc]
      · intro i hi
        simp only [List.length_append, List.length_singleton] at hi
        simp only [List.getElem_append]
        split
        · exact h.dst i _
        · simp; omega
      · intro i hi
        simp only [List.length_append, List.length_singleton] at hi
        simp only [List.getElem_append]
        split
        · exact h.src i _
        · simp; omega
      · intro i j hi hj
        simp only [List.length_append, List.length_singleton] at hi hj
        simp only [List.getElem_append]
        split <;> split
        · exact h.uniq i j _ _
        · simp only [List.getElem_singleton]
          intro h1 h2
          exact absurd h2 (hnone _ (List.getElem_mem _) h1)
        · simp only [List.getElem_singleton]
          intro h1 h2
          exact absurd h2.symm (hnone _ (List.getElem_mem _) h1.symm)
        · intro _ _; omega
    refine ⟨⟨hinv, by simp [nodeCount], ?_, ?_, ?_, ?_⟩, ?_, ?_⟩
    · intro n d m hs
      rw [step_eq_some h] at hs
      rw [step_eq_some hinv]
      exact List.mem_append_left _ hs
    · intro n d m hs
      rw [step_eq_some hinv] at hs
      rw [step_eq_some h]
      rcases List.mem_append.1 hs with hs | hs
      · exact .inl hs
      · right
        simp only [List.mem_singleton, Trans.mk.injEq] at hs
        omega
    · exact fun n => join_append_none _ n
    · exact fun n => join_append_none _ n
    · rw [step_eq_some hinv]; simp
    · intro tr htr
      rcases List.mem_append.1 htr with h | h
      · exact .inl h
      · simp only [List.mem_singleton] at h; right; rw [h]

theorem insertStr_spec (w : List Nat) : ∀ {t : Trie} (_h : Inv t) (pos : Nat) (_hp : pos < t.nodeCount),
    Extends t (t.insertStr pos w).1 ∧ (t.insertStr pos w).1.walk pos w = some (t.insertStr pos w).2 ∧
    (∀ tr ∈ (t.insertStr pos w).1.trans, tr ∈ t.trans ∨ tr.char ∈ w) := by
  induction w with
  | nil => intro t h pos hp; exact ⟨Extends.refl h, rfl, fun _ h => .inl h⟩
  | cons c cs ih =>
    intro t h pos hp
    obtain ⟨e1, s1, c1⟩ := insertChar_spec h pos c hp
    have hlt := (step_lt e1.inv s1).2
    obtain ⟨e2, s2, c2⟩ := ih e1.inv _ hlt
    simp only [insertStr]
    refine ⟨e1.trans e2, ?_, ?_⟩
    · simp only [walk, e2.fwd _ _ _ s1]; exact s2
    · intro tr htr
      rcases c2 tr htr with h | h
      · rcases c1 tr h with h | h
        · exact .inl h
        · exact .inr (by simp [h])
      · exact .inr (List.mem_cons_of_mem _ h)

/-! ### Labels of strings -/

/-- The value stored for a string. -/
def valAt (t : Trie) (w : List Nat) : Option Nat := (t.walk 0 w).bind (fun n => t.value[n]?.join)
/-- The class index stored for a string. -/
def clsAt (t : Trie) (w : List Nat) : Option Nat := (t.walk 0 w).bind (fun n => t.cls[n]?.join)

theorem Extends.valAt {t t' : Trie} (ht : Inv t) (h : Extends t t') (w : List Nat) :
    t'.valAt w = t.valAt w := by
  unfold Trie.valAt
  cases hw : t.walk 0 w with
  | some n => rw [h.walk_fwd w hw]; simp [h.val n]
  | none =>
    cases hw' : t'.walk 0 w with
    | none => rfl
    | some n =>
      rcases h.walk_bwd w hw' with h1 | h1
      · rw [hw] at h1; simp at h1
      · simp only [Option.bind_some, Option.bind_none, h.val n]
        rw [List.getElem?_eq_none h1]; rfl

theorem Extends.clsAt {t t' : Trie} (ht : Inv t) (h : Extends t t') (w : List Nat) :
    t'.clsAt w = t.clsAt w := by
  unfold Trie.clsAt
  cases hw : t.walk 0 w with
  | some n => rw [h.walk_fwd w hw]; simp [h.cls n]
  | none =>
    cases hw' : t'.walk 0 w with
    | none => rfl
    | some n =>
      rcases h.walk_bwd w hw' with h1 | h1
      · rw [hw] at h1; simp at h1
      · simp only [Option.bind_some, Option.bind_none, h.cls n]
        have h1 : t.nodeCount ≤ n := h1
        have := ht.lenV; have := ht.lenC
        unfold nodeCount at h1
        rw [List.getElem?_eq_none (by omega)]; rfl

theorem step_setValue (t : Trie) (n v a b : Nat) : (t.setValue n v).step a b = t.step a b := rfl
theorem walk_setValue (t : Trie) (n v : Nat) (w : List Nat) : ∀ a, (t.setValue n v).walk a w = t.walk a w := by
  induction w with
  | nil => intro a; rfl
  | cons c cs ih =>
    intro a
    simp only [walk, step_setValue]
    cases t.step a c with
    | none => rfl
    | some m => exact ih m
theorem step_setClass (t : Trie) (n v a b : Nat) : (t.setClass n v).step a b = t.step a b := rfl
theorem walk_setClass (t : Trie) (n v : Nat) (w : List Nat) : ∀ a, (t.setClass n v).walk a w = t.walk a w := by
  induction w with
  | nil => intro a; rfl
  | cons c cs ih =>
    intro a
    simp only [walk, step_setClass]
    cases t.step a c with
    | none => rfl
    | some m => exact ih m

theorem inv_setValue {t : Trie} (h : Inv t) (n v : Nat) : Inv (t.setValue n v) :=
  ⟨by simp [setValue, h.lenV], h.lenC, h.dst, h.src, h.uniq⟩
theorem inv_setClass {t : Trie} (h : Inv t) (n v : Nat) : Inv (t.setClass n v) :=
  ⟨h.lenV, by simp [setClass, h.lenC], h.dst, h.src, h.uniq⟩

theorem valAt_setValue {t : Trie} (h : Inv t) {w : List Nat} {n : Nat} (hw : t.walk 0 w = some n)
    (v : Nat) (u : List Nat) :
    (t.setValue n v).valAt u = if u = w then some v else t.valAt u := by
  have hn : n < t.value.length := walk_lt h w (by have := h.lenV; unfold nodeCount; omega) hw
  unfold valAt
  rw [walk_setValue]
  split
  · rename_i e; subst e
    rw [hw]; simp [setValue, hn]
  · rename_i e
    cases hu : t.walk 0 u with
    | none => rfl
    | some m =>
      have : n ≠ m := fun e' => e (walk_inj h m u w hu (e' ▸ hw))
      simp [setValue, List.getElem?_set_ne this]

theorem clsAt_setClass {t : Trie} (h : Inv t) {w : List Nat} {n : Nat} (hw : t.walk 0 w = some n)
    (v : Nat) (u : List Nat) :
    (t.setClass n v).clsAt u = if u = w then some v else t.clsAt u := by
  have hn : n < t.cls.length := by
    have := walk_lt h w (by have := h.lenV; unfold nodeCount; omega) hw
    have h1 := h.lenV; have h2 := h.lenC; unfold nodeCount at this; omega
  unfold clsAt
  rw [walk_setClass]
  split
  · rename_i e; subst e
    rw [hw]; simp [setClass, hn]
  · rename_i e
    cases hu : t.walk 0 u with
    | none => rfl
    | some m =>
      have : n ≠ m := fun e' => e (walk_inj h m u w hu (e' ▸ hw))
      simp [setClass, List.getElem?_set_ne this]

theorem clsAt_setValue (t : Trie) (n v : Nat) (u : List Nat) :
    (t.setValue n v).clsAt u = t.clsAt u := by
  unfold clsAt; rw [walk_setValue]; rfl
theorem valAt_setClass (t : Trie) (n v : Nat) (u : List Nat) :
    (t.setClass n v).valAt u = t.valAt u := by
  unfold valAt; rw [walk_setClass]; rfl

theorem nodeCount_pos {t : Trie} (h : Inv t) : 0 < t.nodeCount := by
  have := h.lenV; unfold nodeCount; omega

/-- What inserting a literal does. -/
theorem insertLit_spec {t : Trie} (h : Inv t) (l : Lit) (cc v : Nat) :
    Inv (t.insertLit l cc v) ∧
    (∀ u, (t.insertLit l cc v).valAt u = if u = l.str then some v else t.valAt u) ∧
    (∀ u, (t.insertLit l cc v).clsAt u =
      if u = l.str ∧ l.kw.isSome then some cc else t.clsAt u) ∧
    (∀ tr ∈ (t.insertLit l cc v).trans, tr ∈ t.trans ∨ tr.char ∈ l.str) := by
  obtain ⟨e, hw, hc⟩ := insertStr_spec l.str h 0 (nodeCount_pos h)
  unfold insertLit
  simp only
  by_cases hk : l.kw.isSome = true
  · rw [if_pos hk]
    refine ⟨inv_setValue (inv_setClass e.inv _ _) _ _, ?_, ?_, hc⟩
    · intro u
      rw [valAt_setValue (inv_setClass e.inv _ _) (w := l.str) (by rw [walk_setClass]; exact hw)]
      rw [valAt_setClass, e.valAt h]
    · intro u
      rw [clsAt_setValue, clsAt_setClass e.inv hw, e.clsAt h]
      simp [hk]
  · rw [if_neg hk]
    refine ⟨inv_setValue e.inv _ _, ?_, ?_, hc⟩
    · intro u
      rw [valAt_setValue e.inv hw, e.valAt h]
    · intro u
      rw [clsAt_setValue, e.clsAt h]
      simp [hk]

/-! ### Matching -/

/-- The string `w`, reached from `node`, is accepted in front of `rest`. -/
def Accept (t : Trie) (classes : List (List Nat → Bool)) (node : Nat) (w rest : List Nat) (v : Nat) :
    Prop :=
  ∃ m, t.walk node w = some m ∧ t.value[m]?.join = some v ∧
    ∀ cc f, t.cls[m]?.join = some cc → classes[cc]? = some f → f rest = false

theorem find_peekIs (t : Trie) (eof : Option Nat) (cur : Nat → Nat) (node u : Nat) (s : List Nat) :
    ((t.nodeTransitions node).find? (fun tr => peekIs eof cur (u :: s) tr.char)).map (·.dst)
      = t.step node (cur u) := by
  unfold step
  congr 2
  funext tr
  simp only [peekIs]
  rw [Bool.eq_iff_iff, beq_iff_eq, beq_iff_eq]; exact eq_comm

theorem accept_nil {t : Trie} {classes : List (List Nat → Bool)} {node : Nat} {rest : List Nat} {v : Nat} :
    t.Accept classes node [] rest v ↔ t.value[node]?.join = some v ∧
      ∀ cc f, t.cls[node]?.join = some cc → classes[cc]? = some f → f rest = false := by
  simp [Accept, walk]

theorem ownMatch_spec {t : Trie} {classes : List (List Nat → Bool)} {node : Nat} {rest : List Nat} :
    (∀ r, t.ownMatch classes node rest = some r → r.2 = 0 ∧ t.Accept classes node [] rest r.1) ∧
    (t.ownMatch classes node rest = none → ∀ v, ¬ t.Accept classes node [] rest v) := by
  unfold ownMatch
  simp only [accept_nil]
  cases t.value[node]?.join with
  | none => simp
  | some v =>
    simp only
    cases hc : t.cls[node]?.join with
    | none => simp
    | some cc =>
      simp only [Option.bind_some]
      cases hf : classes[cc]? with
      | none => simp [hf]; grind
      | some f => simp [hf]; grind

/-- Matching finds the longest accepted string. -/
theorem tryMatch_spec {t : Trie} (classes : List (List Nat → Bool)) (eof : Option Nat)
    (fold : Nat → Nat) (hfold : ∀ u, fold (fold u) = fold u)
    (heof : ∀ tr ∈ t.trans, eof ≠ some tr.char) :
    ∀ (s : List Nat) (node : Nat), ∃ r, t.tryMatch classes eof fold fold node s = some r ∧
      (r = none → ∀ k, k ≤ s.length → ∀ v, ¬ t.Accept classes node ((s.map fold).take k) ((s.map fold).drop k) v) ∧
      (∀ v n, r = some (v, n) → n ≤ s.length ∧
        t.Accept classes node ((s.map fold).take n) ((s.map fold).drop n) v ∧
        ∀ k, n < k → k ≤ s.length → ∀ v', ¬ t.Accept classes node ((s.map fold).take k) ((s.map fold).drop k) v') := by
  have hff : (fun u => fold (fold u)) = fold := funext hfold
  -- what is known if there is no longer match
  have own : ∀ (s : List Nat) (node : Nat), (∀ k, 0 < k → k ≤ s.length → ∀ v,
        ¬ t.Accept classes node ((s.map fold).take k) ((s.map fold).drop k) v) →
      ∃ r, some (t.ownMatch classes node (s.map fold)) = some r ∧
        (r = none → ∀ k, k ≤ s.length → ∀ v, ¬ t.Accept classes node ((s.map fold).take k) ((s.map fold).drop k) v) ∧
        (∀ v n, r = some (v, n) → n ≤ s.length ∧
          t.Accept classes node ((s.map fold).take n) ((s.map fold).drop n) v ∧
          ∀ k, n < k → k ≤ s.length → ∀ v', ¬ t.Accept classes node ((s.map fold).take k) ((s.map fold).drop k) v') := by
    intro s node hno
    obtain ⟨h1, h2⟩ := ownMatch_spec (t := t) (classes := classes) (node := node) (rest := s.map fold)
    refine ⟨_, rfl, ?_, ?_⟩
    · intro hr k hk v
      rcases Nat.eq_zero_or_pos k with rfl | hk0
      · exact h2 hr v
      · exact hno k hk0 hk v
    · intro v n hr
      have := h1 _ hr
      simp only at this
      obtain ⟨rfl, hacc⟩ := this
      exact ⟨Nat.zero_le _, hacc, fun k hk hk' v' => hno k hk hk' v'⟩
  intro s
  induction s with
  | nil =>
    intro node
    rw [tryMatch]
    have hfind : (t.nodeTransitions node).find? (fun tr => peekIs eof fold [] tr.char) = none := by
      rw [List.find?_eq_none]
      intro tr htr
      have := heof tr (List.mem_of_mem_drop (List.mem_filter.1 htr).1)
      simp [peekIs, this]
    simp only [hfind]
    apply own
    intro k h1 h2; simp at h2; omega
  | cons u s ih =>
    intro node
    rw [tryMatch]
    have hstep := find_peekIs t eof fold node u s
    have acc_cons : ∀ k v, t.Accept classes node (((u :: s).map fold).take (k + 1)) (((u :: s).map fold).drop (k + 1)) v ↔
        ∃ m, t.step node (fold u) = some m ∧ t.Accept classes m ((s.map fold).take k) ((s.map fold).drop k) v := by
      intro k v
      simp only [List.map_cons, List.take_succ_cons, List.drop_succ_cons, Accept, walk]
      cases t.step node (fold u) <;> simp
    cases hf : (t.nodeTransitions node).find? (fun tr => peekIs eof fold (u :: s) tr.char) with
    | none =>
      rw [hf] at hstep
      simp only [Option.map_none] at hstep
      simp only
      apply own
      intro k h0 hk v
      obtain ⟨k, rfl⟩ : ∃ j, k = j + 1 := ⟨k - 1, by omega⟩
      rw [acc_cons, ← hstep]; simp
    | some tr =>
      rw [hf] at hstep
      simp only [Option.map_some] at hstep
      simp only [hff]
      obtain ⟨r, hr, h1, h2⟩ := ih tr.dst
      rw [hr]
      cases r with
      | none =>
        simp only [Option.map_some, Option.map_none]
        apply own
        intro k h0 hk v
        obtain ⟨k, rfl⟩ : ∃ j, k = j + 1 := ⟨k - 1, by omega⟩
        rw [acc_cons, ← hstep]
        rintro ⟨m, hm, hacc⟩
        simp only [Option.some.injEq] at hm
        subst hm
        exact h1 rfl k (by simpa using hk) v hacc
      | some p =>
        obtain ⟨v, n⟩ := p
        simp only [Option.map_some]
        obtain ⟨h3, h4, h5⟩ := h2 v n rfl
        refine ⟨some (v, n + 1), rfl, by simp, ?_⟩
        rintro v' n' h
        simp only [Option.some.injEq, Prod.mk.injEq] at h
        obtain ⟨rfl, rfl⟩ := h
        refine ⟨by simp; exact h3, ?_, ?_⟩
        · rw [acc_cons]; exact ⟨_, hstep.symm, h4⟩
        · intro k h1 hk v'
          obtain ⟨k, rfl⟩ : ∃ j, k = j + 1 := ⟨k - 1, by omega⟩
          rw [acc_cons, ← hstep]
          rintro ⟨m, hm, hacc⟩
          simp only [Option.some.injEq] at hm
          subst hm
          exact h5 k (by omega) (by simpa using hk) v' hacc

theorem accept_root {t : Trie} {classes : List (List Nat → Bool)} {w rest : List Nat} {v : Nat} :
    t.Accept classes 0 w rest v ↔ t.valAt w = some v ∧
      ∀ cc f, t.clsAt w = some cc → classes[cc]? = some f → f rest = false := by
  unfold Accept valAt clsAt
  cases t.walk 0 w <;> simp

end Trie
end Verif
