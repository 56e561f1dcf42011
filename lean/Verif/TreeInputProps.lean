import Verif.TreeInput
import Verif.TraceProps
import Verif.ActionProps

/-!
# C77: parse trees as input

A node is identified by the path of child indices leading to it (`PTree.sub`, `walk`), as in `ParseTreeProps`.
The specification uses plain trees: `PTree.kind`, the children, and the tokens (`PTree.leaves`).
-/

namespace Verif.PT

/-- The kind of a node. -/
def PTree.kind : PTree → KindArg
  | .tok k _ _ => .tok k
  | .node id _ _ => .prod id

/-- No production is without children. -/
def PTree.Full (t : PTree) : Prop := ∀ p id it, t.sub p ≠ some (.node id it [])

/-! ### The reader -/

theorem AT.sub_kid {u : AT} {p : List Nat} {a : Addr} {id : Nat} {it : Bool} {ks : List AT} {i : Nat} {k : AT}
    (hu : u.sub p = some (.node a id it ks)) (hk : ks[i]? = some k) : u.sub (p ++ [i]) = some k := by
  rw [AT.sub_append, hu]
  simp only [Option.bind_some, AT.sub, hk]

theorem IsNode.bump {z : Sizes} {h : Heap} {a : Addr} {id : Nat} {it : Bool} {ks : List AT}
    {nx : Option Addr × Bool} (H : IsNode z h (.node a id it ks) nx) {i : Nat} {k : AT} (hk : ks[i]? = some k)
    (P : Option Addr) :
    (TreeReader.mk P (some k.addr)).bump h = some ⟨P, ks[i + 1]?.map AT.addr⟩ := by
  have hg := H.kid_get hk
  simp only [TreeReader.bump, tiSibling, Option.bind_some, hg, Option.map_some, nextOf]
  cases ks[i + 1]? <;> simp

theorem IsNode.bumps {z : Sizes} {h : Heap} {a : Addr} {id : Nat} {it : Bool} {ks : List AT}
    {nx : Option Addr × Bool} (H : IsNode z h (.node a id it ks) nx) (P : Option Addr) :
    ∀ m j, j + m ≤ ks.length →
      TreeReader.bumps h m ⟨P, ks[j]?.map AT.addr⟩ = some ⟨P, ks[j + m]?.map AT.addr⟩ := by
  intro m
  induction m with
  | zero => intro j _; rfl
  | succ m ih =>
    intro j hj
    have hlt : j < ks.length := by omega
    have hk : ks[j]? = some ks[j] := List.getElem?_eq_getElem hlt
    rw [TreeReader.bumps, hk, Option.map_some, H.bump hk]
    simp only [Option.bind_some]
    rw [ih (j + 1) (by omega), Nat.add_right_comm j 1 m, Nat.add_assoc j m 1]

theorem IsNode.reader {z : Sizes} {h : Heap} {a : Addr} {id : Nat} {it : Bool} {ks : List AT}
    {nx : Option Addr × Bool} (H : IsNode z h (.node a id it ks) nx) :
    TreeReader.new z h (some a) = some ⟨some a, ks[0]?.map AT.addr⟩ := by
  have hg := H.get
  simp only [AT.addr, AT.data] at hg
  simp only [TreeReader.new, tiFirstChild, Option.bind_some, hg, H.firstChild, Option.map_some]
  cases ks <;> rfl

/-- The reader of a production yields its children in order, then the end, where it must not be advanced. -/
theorem C77_reader_partial {z : Sizes} {root : Info} {ops : List Op} {t : PTree} {lost b e : Nat} {T : Tree}
    (H : Built z root ops t lost b e T) {n : Nat} (hn : t.size ≤ n) {p : List Nat} {id : Nat} {it : Bool}
    {kids : List PTree} (hv : t.sub p = some (.node id it kids)) :
    ∃ a r, walk z T.heap n T.root p = some a ∧ TreeReader.new z T.heap (some a) = some r
      ∧ (∀ i, i < kids.length → ∃ c, walk z T.heap n T.root (p ++ [i]) = some c
          ∧ r.bumps T.heap i = some ⟨some a, some c⟩)
      ∧ r.bumps T.heap kids.length = some ⟨some a, none⟩
      ∧ r.bumps T.heap (kids.length + 1) = none := by
  obtain ⟨u, eof, h1, h2, h3, h4, h5⟩ := H.node
  subst h2
  obtain ⟨w, hw, hwe⟩ := h5 _ _ hv
  cases w with
  | tok => simp [AT.erase] at hwe
  | node a id' it' ks =>
    have hW := h3.sub p hw
    simp only [AT.erase, AT.eraseL_eq, PTree.node.injEq] at hwe
    obtain ⟨-, -, rfl⟩ := hwe
    have hlen : (ks.map AT.erase).length = ks.length := List.length_map ..
    refine ⟨a, _, by rw [h4]; exact h3.walk p u _ hn hw, hW.reader, ?_, ?_, ?_⟩
    · intro i hi
      rw [hlen] at hi
      have hk : ks[i]? = some ks[i] := List.getElem?_eq_getElem hi
      refine ⟨ks[i].addr, by rw [h4]; exact h3.walk _ u _ hn (AT.sub_kid hw hk), ?_⟩
      rw [hW.bumps (some a) i 0 (by omega), Nat.zero_add, hk]; rfl
    · rw [hlen, hW.bumps (some a) ks.length 0 (by omega)]
      simp
    · have : ∀ m r, TreeReader.bumps T.heap (m + 1) r = (TreeReader.bumps T.heap m r).bind (·.bump T.heap) := by
        intro m
        induction m with
        | zero => intro r; simp only [TreeReader.bumps, Option.bind_some]; cases r.bump T.heap <;> rfl
        | succ m ih =>
          intro r
          rw [TreeReader.bumps]
          cases hb : r.bump T.heap with
          | none => simp [TreeReader.bumps, hb]
          | some r' => rw [Option.bind_some, ih r', TreeReader.bumps, hb, Option.bind_some]
      rw [this, hlen, hW.bumps (some a) ks.length 0 (by omega)]
      simp [TreeReader.bump]

/-- A token has no children: its reader is at the end. -/
theorem C77_reader_token_partial {z : Sizes} {root : Info} {ops : List Op} {t : PTree} {lost b e : Nat}
    {T : Tree} (H : Built z root ops t lost b e T) {n : Nat} (hn : t.size ≤ n) {p : List Nat} {k x y : Nat}
    (hv : t.sub p = some (.tok k x y)) :
    ∃ a, walk z T.heap n T.root p = some a ∧ TreeReader.new z T.heap (some a) = some ⟨some a, none⟩ := by
  obtain ⟨u, eof, h1, h2, h3, h4, h5⟩ := H.node
  subst h2
  obtain ⟨w, hw, hwe⟩ := h5 _ _ hv
  have hg := (h3.sub p hw).get
  refine ⟨w.addr, by rw [h4]; exact h3.walk p u w hn hw, ?_⟩
  cases w with
  | node => simp [AT.erase] at hwe
  | tok => simp only [TreeReader.new, tiFirstChild, Option.bind_some, hg, AT.data, Option.map_some]

/-! ### Kinds -/

/-- A node matches exactly its own kind; the end matches none. -/
theorem C77_kind_partial {z : Sizes} {root : Info} {ops : List Op} {t : PTree} {lost b e : Nat} {T : Tree}
    (H : Built z root ops t lost b e T) {n : Nat} (hn : t.size ≤ n) (k : KindArg) :
    (∀ p v, t.sub p = some v → ∃ a, walk z T.heap n T.root p = some a
      ∧ tiHasKind T.heap (some a) k = some (decide (v.kind = k)))
    ∧ tiHasKind T.heap none k = some false := by
  refine ⟨?_, rfl⟩
  intro p v hv
  obtain ⟨u, eof, h1, h2, h3, h4, h5⟩ := H.node
  subst h2
  obtain ⟨w, hw, rfl⟩ := h5 _ _ hv
  have hg := (h3.sub p hw).get
  refine ⟨w.addr, by rw [h4]; exact h3.walk p u w hn hw, ?_⟩
  simp only [tiHasKind, kindIs, hg, Option.map_some]
  cases w <;> cases k <;>
    simp only [AT.data, AT.erase, PTree.kind, KindArg.tok.injEq, KindArg.prod.injEq, Option.some.injEq,
      reduceCtorEq, decide_false] <;> rfl

/-- Comparing the kinds of two nodes, both tokens or both productions.  (Only part: documented for all nodes.) -/
theorem C77_kind_eq_partial {z : Sizes} {root : Info} {ops : List Op} {t : PTree} {lost b e : Nat} {T : Tree}
    (H : Built z root ops t lost b e T) {n : Nat} (hn : t.size ≤ n) {p q : List Nat} {v w : PTree}
    (hv : t.sub p = some v) (hw : t.sub q = some w)
    (same : (∃ k l, v.kind = .tok k ∧ w.kind = .tok l) ∨ ∃ i j, v.kind = .prod i ∧ w.kind = .prod j) :
    ∃ a c, walk z T.heap n T.root p = some a ∧ walk z T.heap n T.root q = some c
      ∧ kindEq T.heap a c = some (decide (v.kind = w.kind)) := by
  obtain ⟨u, eof, h1, h2, h3, h4, h5⟩ := H.node
  subst h2
  obtain ⟨v', hv', rfl⟩ := h5 _ _ hv
  obtain ⟨w', hw', rfl⟩ := h5 _ _ hw
  have g1 := (h3.sub p hv').get
  have g2 := (h3.sub q hw').get
  refine ⟨v'.addr, w'.addr, by rw [h4]; exact h3.walk p u _ hn hv', by rw [h4]; exact h3.walk q u _ hn hw', ?_⟩
  simp only [kindEq, g1, g2, Option.bind_some]
  cases v' <;> cases w' <;> simp [AT.data, AT.erase, PTree.kind] at same ⊢ <;> rfl

/-! ### Positions -/

theorem adjacent_append : ∀ (l m : List (Nat × Nat × Nat)) (x y : Nat),
    Adjacent x (l ++ m) y ↔ ∃ w, Adjacent x l w ∧ Adjacent w m y := by
  intro l
  induction l with
  | nil => intro m x y; simp [Adjacent]
  | cons c l ih =>
    intro m x y
    obtain ⟨k, b, e⟩ := c
    simp only [List.cons_append, Adjacent, ih]
    constructor
    · rintro ⟨h1, h2, w, h3, h4⟩; exact ⟨w, ⟨h1, h2, h3⟩, h4⟩
    · rintro ⟨w, ⟨h1, h2, h3⟩, h4⟩; exact ⟨h1, h2, w, h3, h4⟩

theorem adjacent_mono : ∀ (l : List (Nat × Nat × Nat)) (x y : Nat), Adjacent x l y → x ≤ y := by
  intro l
  induction l with
  | nil => intro x y h; simp only [Adjacent] at h; omega
  | cons c l ih =>
    intro x y h
    obtain ⟨k, b, e⟩ := c
    obtain ⟨h1, h2, h3⟩ := h
    have := ih _ _ h3
    omega

theorem adjacent_unique : ∀ (l : List (Nat × Nat × Nat)) (x y x' y' : Nat), l ≠ [] → Adjacent x l y →
    Adjacent x' l y' → x = x' ∧ y = y' := by
  intro l
  induction l with
  | nil => intro x y x' y' h; exact absurd rfl h
  | cons c l ih =>
    intro x y x' y' _ h h'
    obtain ⟨k, b, e⟩ := c
    obtain ⟨h1, h2, h3⟩ := h
    obtain ⟨g1, g2, g3⟩ := h'
    refine ⟨by omega, ?_⟩
    cases l with
    | nil => simp only [Adjacent] at h3 g3; omega
    | cons d l => exact (ih _ _ _ _ (by simp) h3 g3).2

theorem PTree.Full.sub {t v : PTree} {p : List Nat} (h : t.Full) (hv : t.sub p = some v) : v.Full := by
  intro q id it hq
  exact h (p ++ q) id it (by rw [PTree.sub_append, hv]; exact hq)

theorem PTree.sub_one {id : Nat} {it : Bool} {kids : List PTree} {i : Nat} {k : PTree} (hk : kids[i]? = some k) :
    (PTree.node id it kids).sub [i] = some k := by
  simp only [PTree.sub, hk, Option.bind_some]

theorem PTree.Full.first : ∀ (n : Nat) (t : PTree), t.size ≤ n → t.Full → ∀ x y, Adjacent x t.leaves y →
    t.firstPos = some x ∧ t.leaves ≠ [] := by
  intro n
  induction n with
  | zero => intro t hn; have := t.size_pos; omega
  | succ n ih =>
    intro t hn hf x y ha
    cases t with
    | tok k b e => simp only [PTree.leaves, Adjacent] at ha; simp [PTree.firstPos, PTree.leaves, ha.1]
    | node id it kids =>
      cases kids with
      | nil => exact absurd rfl (hf [] id it)
      | cons k r =>
        simp only [PTree.leaves, PTree.leavesL] at ha ⊢
        obtain ⟨w, h1, h2⟩ := (adjacent_append ..).1 ha
        simp only [PTree.size, PTree.sizeL] at hn
        obtain ⟨g1, g2⟩ := ih k (by omega) (hf.sub (p := [0]) (PTree.sub_one rfl)) x w h1
        exact ⟨g1, by simp [g2]⟩

theorem leavesL_split : ∀ (kids : List PTree) (i : Nat) (k : PTree) (x y : Nat), kids[i]? = some k →
    Adjacent x (PTree.leavesL kids) y →
    ∃ w w', Adjacent w k.leaves w' ∧ Adjacent w' (PTree.leavesL (kids.drop (i + 1))) y := by
  intro kids
  induction kids with
  | nil => intro i k x y h; simp at h
  | cons c r ih =>
    intro i k x y hk ha
    obtain ⟨w, h1, h2⟩ := (adjacent_append ..).1 ha
    cases i with
    | zero => simp only [List.getElem?_cons_zero, Option.some.injEq] at hk; subst hk; exact ⟨x, w, h1, h2⟩
    | succ i => exact ih i k w y (by simpa using hk) h2

/-- Behind a child: the next one begins there, or it is the end. -/
theorem leavesL_next {id : Nat} {it : Bool} {kids : List PTree} (hf : (PTree.node id it kids).Full) {i w y : Nat}
    (ha : Adjacent w (PTree.leavesL (kids.drop (i + 1))) y) :
    (∀ k, kids[i + 1]? = some k → k.firstPos = some w) ∧ (kids.length ≤ i + 1 → w = y) := by
  constructor
  · intro k hk
    rw [drop_cons hk, PTree.leavesL] at ha
    obtain ⟨w', h1, _⟩ := (adjacent_append ..).1 ha
    exact (PTree.Full.first _ k (Nat.le_refl _) (hf.sub (PTree.sub_one hk)) _ _ h1).1
  · intro hl
    rw [List.drop_eq_nil_of_le hl] at ha
    exact ha

theorem PTree.span : ∀ (p : List Nat) (t v : PTree) (x y : Nat), t.Full → Adjacent x t.leaves y →
    t.sub p = some v → ∃ x' y', Adjacent x' v.leaves y' ∧
      (match t.after p with
        | some q => (t.sub q).bind PTree.firstPos
        | none => some y) = some y' := by
  intro p
  induction p with
  | nil =>
    intro t v x y _ ha hv
    have : t = v := by cases t <;> simpa [PTree.sub] using hv
    subst this
    have : t.after [] = none := by cases t <;> rfl
    rw [this]
    exact ⟨x, y, ha, rfl⟩
  | cons i p ih =>
    intro t v x y hf ha hv
    cases t with
    | tok => simp [PTree.sub] at hv
    | node id it kids =>
      cases hk : kids[i]? with
      | none => simp [PTree.sub, hk] at hv
      | some k =>
        simp only [PTree.sub, hk, Option.bind_some] at hv
        obtain ⟨w, w', h1, h2⟩ := leavesL_split kids i k x y hk ha
        obtain ⟨x', y', g1, g2⟩ := ih k v w w' (hf.sub (PTree.sub_one hk)) h1 hv
        obtain ⟨n1, n2⟩ := leavesL_next hf h2
        refine ⟨x', y', g1, ?_⟩
        simp only [PTree.after, hk, Option.bind_some]
        cases hq : k.after p with
        | some q =>
          rw [hq] at g2
          simpa only [PTree.sub, hk, Option.bind_some] using g2
        | none =>
          rw [hq] at g2
          simp only [Option.some.injEq] at g2
          subst g2
          by_cases hl : i + 1 < kids.length
          · have hk' : kids[i + 1]? = some kids[i + 1] := List.getElem?_eq_getElem hl
            simp only [hl, if_true, PTree.sub_one hk', Option.bind_some]
            exact n1 _ hk'
          · simp only [hl, if_false, Option.some.injEq]
            exact (n2 (by omega)).symm

theorem chain_leaves : ∀ (kids : List PTree) (pos : Nat → Nat),
    (∀ i k, kids[i]? = some k → Adjacent (pos i) k.leaves (pos (i + 1))) →
    Adjacent (pos 0) (PTree.leavesL kids) (pos kids.length) := by
  intro kids
  induction kids with
  | nil => intro pos _; rfl
  | cons c r ih =>
    intro pos h
    rw [PTree.leavesL, adjacent_append]
    refine ⟨pos 1, h 0 c rfl, ?_⟩
    have := ih (fun i => pos (i + 1)) (fun i k hk => h (i + 1) k (by simpa using hk))
    simpa using this

/-- The position of the reader before and behind each child is where the tokens of the child begin and end.
    (Only part: not if a production of the tree has no children.) -/
theorem C77_position_partial {z : Sizes} {root : Info} {ops : List Op} {t : PTree} {lost b e : Nat} {T : Tree}
    (H : Built z root ops t lost b e T) {n : Nat} (hn : t.size < n) (hf : t.Full) {s : Nat}
    (ha : Adjacent s t.leaves b) {p : List Nat} {id : Nat} {it : Bool} {kids : List PTree}
    (hv : t.sub p = some (.node id it kids)) :
    ∃ a r, ∃ pos : Nat → Nat, walk z T.heap n T.root p = some a ∧ TreeReader.new z T.heap (some a) = some r
      ∧ (∀ i, i ≤ kids.length → ∃ ri, r.bumps T.heap i = some ri ∧ ri.position z T.heap n = some (pos i))
      ∧ ∀ i k, kids[i]? = some k → Adjacent (pos i) k.leaves (pos (i + 1)) := by
  obtain ⟨a, r, h1, h2, h3, h4, -⟩ := C77_reader_partial H (Nat.le_of_lt hn) hv
  obtain ⟨x', y', g1, g2⟩ := PTree.span p t _ s b hf ha hv
  have hfv := hf.sub hv
  have hfirst := (PTree.Full.first _ _ (Nat.le_refl _) hfv _ _ g1).1
  refine ⟨a, r, fun i => match kids[i]? with | some k => k.firstPos.getD 0 | none => y', h1, h2, ?_, ?_⟩
  · intro i hi
    by_cases hl : i < kids.length
    · obtain ⟨c, c1, c2⟩ := h3 i hl
      have hk : kids[i]? = some kids[i] := List.getElem?_eq_getElem hl
      have hs : t.sub (p ++ [i]) = some kids[i] := by
        rw [PTree.sub_append, hv]; exact PTree.sub_one (id := id) (it := it) hk
      obtain ⟨c', d1, d2⟩ := C34_position_partial H (Nat.le_of_lt hn) hs
      rw [c1, Option.some.injEq] at d1
      subst d1
      obtain ⟨w, w', e1, _⟩ := leavesL_split kids i _ x' y' hk g1
      have hfp := (PTree.Full.first _ _ (Nat.le_refl _) (hf.sub hs) _ _ e1).1
      refine ⟨_, c2, ?_⟩
      simp only [TreeReader.position, tiBegin, Option.bind_some, d2, hk, hfp, Option.getD_some]
    · have hl' : i = kids.length := by omega
      subst hl'
      obtain ⟨a', d1, d2⟩ := C34_covering_lexeme_partial H hn hv
      rw [h1, Option.some.injEq] at d1
      subst d1
      refine ⟨_, h4, ?_⟩
      have hnone : kids[kids.length]? = none := List.getElem?_eq_none_iff.2 (Nat.le_refl _)
      have d3 : coveringLexeme z T.heap n a = some (x', y') := by
        rw [d2, hfirst, Option.bind_some]
        cases hq : t.after p with
        | none => rw [hq] at g2; simp only [Option.some.injEq] at g2; simp only [g2, Option.map_some]
        | some q => rw [hq] at g2; simp only at g2; simp only [g2, Option.map_some]
      simp only [TreeReader.position, tiEnd, Option.bind_some, d3, Option.map_some, hnone]
  · intro i k hk
    obtain ⟨w, w', e1, e2⟩ := leavesL_split kids i k x' y' hk g1
    have hfp := (PTree.Full.first _ k (Nat.le_refl _) (hfv.sub (PTree.sub_one hk)) _ _ e1).1
    obtain ⟨n1, n2⟩ := leavesL_next hfv e2
    have hw : (match kids[i + 1]? with | some k => k.firstPos.getD 0 | none => y') = w' := by
      cases hk' : kids[i + 1]? with
      | some k' => simp only [n1 k' hk', Option.getD_some]
      | none => exact (n2 (List.getElem?_eq_none_iff.1 hk')).symm
    simp only [hk, hfp, Option.getD_some, hw]
    exact e1

/-! ### The node rules -/

theorem tokens_app (a b : List Ev) : Verif.Spec.tokens (a ++ b) = Verif.Spec.tokens a ++ Verif.Spec.tokens b := by
  induction a with
  | nil => rfl
  | cons x a ih => cases x <;> simp [Verif.Spec.tokens, ih]

theorem errors_app (a b : List Ev) : Verif.Spec.errors (a ++ b) = Verif.Spec.errors a ++ Verif.Spec.errors b := by
  induction a with
  | nil => rfl
  | cons x a ih => cases x <;> simp [Verif.Spec.errors, ih]

theorem spec_adjacent_snoc : ∀ (l : List (Nat × Nat)) (x q y : Nat), Verif.Spec.Adjacent x l q → q ≤ y →
    Verif.Spec.Adjacent x (l ++ [(q, y)]) y := by
  intro l
  induction l with
  | nil => intro x q y h hq; simp only [Verif.Spec.Adjacent] at h; subst h; exact ⟨rfl, hq, rfl⟩
  | cons c l ih =>
    intro x q y h hq
    obtain ⟨b, e⟩ := c
    exact ⟨h.1, h.2.1, ih _ _ _ h.2.2 hq⟩

/-- What the events of a node rule are, once the positions are known. -/
theorem nodeParseRule_ok {z : Sizes} {h : Heap} {n tag : Nat} {run : TreeReader → Option ChildRes}
    {r fin : TreeReader} {c : ChildRes} {x q y : Nat} (hr : run r = some c) (hq : c.pos = some q)
    (hy : fin.position z h n = some y) (hle : q ≤ y) (hend : c.atEnd = true → q = y)
    (ht : Verif.Spec.Adjacent x (Verif.Spec.tokens c.evs) q) :
    ∃ evs, nodeParseRule z h n tag run r fin = some (c.ok, fin, evs)
      ∧ Verif.Spec.Adjacent x (Verif.Spec.tokens evs) y
      ∧ Verif.Spec.errors evs = Verif.Spec.errors c.evs
          ++ if c.ok = true ∧ c.atEnd = false then [(tag, q, y)] else [] := by
  unfold nodeParseRule
  simp only [hr, Option.bind_some, hq, hy, Option.map_some]
  cases hok : c.ok <;> cases hat : c.atEnd <;>
    simp only [Bool.false_and, Bool.true_and, Bool.false_eq_true, if_false, if_true, and_true, and_false,
      and_self, reduceCtorEq, List.append_nil]
  · exact ⟨_, rfl, by rw [tokens_app]; exact spec_adjacent_snoc _ _ _ _ ht hle, by rw [errors_app]; simp [Verif.Spec.errors]⟩
  · exact ⟨_, rfl, by rw [tokens_app]; exact spec_adjacent_snoc _ _ _ _ ht hle, by rw [errors_app]; simp [Verif.Spec.errors]⟩
  · exact ⟨_, rfl, by rw [tokens_app]; exact spec_adjacent_snoc _ _ _ _ ht hle, by rw [errors_app]; rfl⟩
  · exact ⟨_, rfl, by rw [← hend hat]; exact ht, rfl⟩

/-- The readers before and behind a child, and the child. -/
theorem at_child {z : Sizes} {root : Info} {ops : List Op} {t : PTree} {lost b e : Nat} {T : Tree}
    (H : Built z root ops t lost b e T) {n : Nat} (hn : t.size < n) (hf : t.Full) {s : Nat}
    (ha : Adjacent s t.leaves b) {p : List Nat} {id : Nat} {it : Bool} {kids : List PTree}
    (hv : t.sub p = some (.node id it kids)) {i : Nat} {k : PTree} (hk : kids[i]? = some k) :
    ∃ a r ri rn c x y, walk z T.heap n T.root p = some a ∧ TreeReader.new z T.heap (some a) = some r
      ∧ r.bumps T.heap i = some ri ∧ r.bumps T.heap (i + 1) = some rn
      ∧ walk z T.heap n T.root (p ++ [i]) = some c ∧ ri.cur = some c
      ∧ ri.position z T.heap n = some x ∧ rn.position z T.heap n = some y ∧ Adjacent x k.leaves y
      ∧ nodeTry T.heap k.kind ri = some (some rn) := by
  have hlt := getElem?_lt hk
  obtain ⟨a, r, pos, h1, h2, h3, h4⟩ := C77_position_partial H hn hf ha hv
  obtain ⟨a', r', g1, g2, g3, -, -⟩ := C77_reader_partial H (Nat.le_of_lt hn) hv
  rw [h1, Option.some.injEq] at g1; subst g1
  rw [h2, Option.some.injEq] at g2; subst g2
  obtain ⟨ri, i1, i2⟩ := h3 i (by omega)
  obtain ⟨rn, j1, j2⟩ := h3 (i + 1) (by omega)
  obtain ⟨c, c1, c2⟩ := g3 i hlt
  rw [i1, Option.some.injEq] at c2
  have hs : t.sub (p ++ [i]) = some k := by
    rw [PTree.sub_append, hv]; exact PTree.sub_one (id := id) (it := it) hk
  obtain ⟨c', d1, d2⟩ := (C77_kind_partial H (Nat.le_of_lt hn) k.kind).1 _ _ hs
  rw [c1, Option.some.injEq] at d1; subst d1
  have hb : ri.bump T.heap = some rn := by
    have : ∀ m r, TreeReader.bumps T.heap (m + 1) r = (TreeReader.bumps T.heap m r).bind (·.bump T.heap) := by
      intro m
      induction m with
      | zero => intro r; simp only [TreeReader.bumps, Option.bind_some]; cases r.bump T.heap <;> rfl
      | succ m ih =>
        intro r
        rw [TreeReader.bumps]
        cases hb : r.bump T.heap with
        | none => simp [TreeReader.bumps, hb]
        | some r' => rw [Option.bind_some, ih r', TreeReader.bumps, hb, Option.bind_some]
    rw [this, i1, Option.bind_some] at j1
    exact j1
  refine ⟨a, r, ri, rn, c, _, _, h1, h2, i1, j1, c1, by rw [c2], i2, j2, h4 i k hk, ?_⟩
  have : ri.cur = some c := by rw [c2]
  simp only [nodeTry, this, d2, decide_true, Option.bind_some, if_true, hb, Option.map_some]

/-- `tnode<kind>(rule)` before a token of that kind: it succeeds if the rule does, the reader is behind the node
    either way, the tokens cover exactly the token, and the only error added is the one for the units left. -/
theorem C77_tnode_partial {z : Sizes} {root : Info} {ops : List Op} {t : PTree} {lost b e : Nat} {T : Tree}
    (H : Built z root ops t lost b e T) {n : Nat} (hn : t.size < n) (hf : t.Full) {s : Nat}
    (ha : Adjacent s t.leaves b) {p : List Nat} {id : Nat} {it : Bool} {kids : List PTree}
    (hv : t.sub p = some (.node id it kids)) {i k x y : Nat} (hk : kids[i]? = some (.tok k x y)) :
    ∃ a r ri rn, walk z T.heap n T.root p = some a ∧ TreeReader.new z T.heap (some a) = some r
      ∧ r.bumps T.heap i = some ri ∧ r.bumps T.heap (i + 1) = some rn
      ∧ ∀ (rule : Nat → Nat → Option (Bool × Nat × List Ev)) (ok : Bool) (q : Nat) (evs : List Ev) (ktag tag : Nat),
        rule x y = some (ok, q, evs) → q ≤ y → Verif.Spec.Adjacent x (Verif.Spec.tokens evs) q →
        ∃ evs', nodeParse z T.heap n (.tok k) ktag tag (tnodeRun T.heap rule) ri = some (ok, rn, evs')
          ∧ Verif.Spec.Adjacent x (Verif.Spec.tokens evs') y
          ∧ Verif.Spec.errors evs' = Verif.Spec.errors evs ++ if ok = true ∧ q < y then [(tag, q, y)] else [] := by
  obtain ⟨a, r, ri, rn, c, x', y', h1, h2, h3, h4, h5, h6, h7, h8, h9, h10⟩ := at_child H hn hf ha hv hk
  simp only [PTree.leaves, Adjacent] at h9
  obtain ⟨rfl, -, rfl⟩ := h9
  refine ⟨a, r, ri, rn, h1, h2, h3, h4, ?_⟩
  intro rule ok q evs ktag tag hr hq ht
  obtain ⟨u, eof, k1, k2, k3, k4, k5⟩ := H.node
  subst k2
  have hs : u.erase.sub (p ++ [i]) = some (.tok k x y) := by
    rw [PTree.sub_append, hv]; exact PTree.sub_one (id := id) (it := it) hk
  obtain ⟨w, hw, hwe⟩ := k5 _ _ hs
  have hc : c = w.addr := by
    have := k3.walk (n := n) _ u w (Nat.le_of_lt hn) hw
    rw [← k4, h5, Option.some.injEq] at this
    exact this
  have hg := (k3.sub _ hw).get
  cases w with
  | node => simp [AT.erase] at hwe
  | tok a' k' x' y' =>
    simp only [AT.erase, PTree.tok.injEq] at hwe
    obtain ⟨rfl, rfl, rfl⟩ := hwe
    have hrun : tnodeRun T.heap rule ri = some ⟨ok, some q, q == y', evs⟩ := by
      simp only [tnodeRun, h6, hc, Option.bind_some, hg, AT.data, hr, Option.map_some]
    obtain ⟨evs', e1, e2, e3⟩ := nodeParseRule_ok (tag := tag) hrun rfl h8 hq (by simp) ht
    refine ⟨evs', ?_, e2, ?_⟩
    · simp only [PTree.kind] at h10
      simp only [nodeParse, h10, Option.bind_some, e1]
    · rw [e3]
      congr 1
      have : (q == y') = false ↔ q < y' := by simp; omega
      simp only [this]

/-- `pnode<P>(rule)` before a node of `P`: it succeeds if the rule does, the reader is behind the node either way,
    the tokens cover exactly the node, and the only error added is the one for the children left.  `j` is the
    number of children consumed by the rule. -/
theorem C77_pnode_partial {z : Sizes} {root : Info} {ops : List Op} {t : PTree} {lost b e : Nat} {T : Tree}
    (H : Built z root ops t lost b e T) {n : Nat} (hn : t.size < n) (hf : t.Full) {s : Nat}
    (ha : Adjacent s t.leaves b) {p : List Nat} {id : Nat} {it : Bool} {kids : List PTree}
    (hv : t.sub p = some (.node id it kids)) {i id' : Nat} {it' : Bool} {ks : List PTree}
    (hk : kids[i]? = some (.node id' it' ks)) :
    ∃ a r ri rn c0 x y, walk z T.heap n T.root p = some a ∧ TreeReader.new z T.heap (some a) = some r
      ∧ r.bumps T.heap i = some ri ∧ r.bumps T.heap (i + 1) = some rn ∧ ri.childReader z T.heap = some c0
      ∧ Adjacent x (PTree.node id' it' ks).leaves y
      ∧ ∀ (rule : TreeReader → Option (Bool × TreeReader × List Ev)) (ok : Bool) (j q : Nat) (cj : TreeReader)
        (evs : List Ev) (ktag tag : Nat),
        rule c0 = some (ok, cj, evs) → j ≤ ks.length → c0.bumps T.heap j = some cj →
        cj.position z T.heap n = some q → Verif.Spec.Adjacent x (Verif.Spec.tokens evs) q →
        ∃ evs', nodeParse z T.heap n (.prod id') ktag tag (pnodeRun z T.heap n rule) ri = some (ok, rn, evs')
          ∧ Verif.Spec.Adjacent x (Verif.Spec.tokens evs') y
          ∧ Verif.Spec.errors evs' = Verif.Spec.errors evs
              ++ if ok = true ∧ j < ks.length then [(tag, q, y)] else [] := by
  obtain ⟨a, r, ri, rn, c, x, y, h1, h2, h3, h4, h5, h6, h7, h8, h9, h10⟩ := at_child H hn hf ha hv hk
  have hs : t.sub (p ++ [i]) = some (.node id' it' ks) := by
    rw [PTree.sub_append, hv]; exact PTree.sub_one (id := id) (it := it) hk
  obtain ⟨c', c0, pos, g1, g2, g3, g4⟩ := C77_position_partial H hn hf ha hs
  obtain ⟨c'', c0', f1, f2, f3, f4, -⟩ := C77_reader_partial H (Nat.le_of_lt hn) hs
  rw [h5, Option.some.injEq] at g1 f1; subst g1; subst f1
  rw [g2, Option.some.injEq] at f2; subst f2
  have hne := (PTree.Full.first _ _ (Nat.le_refl _) (hf.sub hs) _ _ h9).2
  obtain ⟨hx, hy⟩ := adjacent_unique _ _ _ _ _ hne h9 (chain_leaves ks pos g4)
  have hcr : ri.childReader z T.heap = some c0 := by rw [TreeReader.childReader, h6]; exact g2
  refine ⟨a, r, ri, rn, c0, x, y, h1, h2, h3, h4, hcr, h9, ?_⟩
  intro rule ok j q cj evs ktag tag hr hj hb hq ht
  obtain ⟨rj, j1, j2⟩ := g3 j hj
  rw [hb, Option.some.injEq] at j1; subst j1
  rw [hq, Option.some.injEq] at j2
  have hcur : cj.cur.isNone = true ↔ ¬ j < ks.length := by
    by_cases hl : j < ks.length
    · obtain ⟨d, _, d2⟩ := f3 j hl
      rw [hb, Option.some.injEq] at d2
      simp [d2, hl]
    · have : j = ks.length := by omega
      subst this
      rw [hb, Option.some.injEq] at f4
      simp [f4]
  have hmono : ∀ m, j + m ≤ ks.length → pos j ≤ pos (j + m) := by
    intro m
    induction m with
    | zero => intro _; exact Nat.le_refl _
    | succ m ih =>
      intro hm
      have hlt : j + m < ks.length := by omega
      have := adjacent_mono _ _ _ (g4 (j + m) _ (List.getElem?_eq_getElem hlt))
      exact Nat.le_trans (ih (by omega)) this
  have hle : q ≤ y := by
    have := hmono (ks.length - j) (by omega)
    rw [Nat.add_sub_cancel' hj] at this
    omega
  have hrun : pnodeRun z T.heap n rule ri = some ⟨ok, some q, cj.cur.isNone, evs⟩ := by
    simp only [pnodeRun, hcr, Option.bind_some, hr, Option.map_some, hq]
  have hend : cj.cur.isNone = true → q = y := by
    intro hc
    have := hcur.1 hc
    have : j = ks.length := by omega
    subst this
    omega
  obtain ⟨evs', e1, e2, e3⟩ := nodeParseRule_ok (tag := tag) hrun rfl h8 hle hend ht
  refine ⟨evs', ?_, e2, ?_⟩
  · simp only [PTree.kind] at h10
    simp only [nodeParse, h10, Option.bind_some, e1]
  · rw [e3]
    congr 1
    have : cj.cur.isNone = false ↔ j < ks.length := by
      rw [← Bool.not_eq_true, hcur]; omega
    simp only [this]

/-- Before another node, and at the end: one error at the position, nothing is consumed and the rule fails. -/
theorem C77_mismatch_partial {z : Sizes} {root : Info} {ops : List Op} {t : PTree} {lost b e : Nat} {T : Tree}
    (H : Built z root ops t lost b e T) {n : Nat} (hn : t.size < n) (hf : t.Full) {s : Nat}
    (ha : Adjacent s t.leaves b) {p : List Nat} {id : Nat} {it : Bool} {kids : List PTree}
    (hv : t.sub p = some (.node id it kids)) {i : Nat} (hi : i ≤ kids.length) {k : KindArg}
    (hk : kids[i]?.map PTree.kind ≠ some k) (ktag tag : Nat) (run : TreeReader → Option ChildRes) :
    ∃ a r ri q, walk z T.heap n T.root p = some a ∧ TreeReader.new z T.heap (some a) = some r
      ∧ r.bumps T.heap i = some ri ∧ ri.position z T.heap n = some q
      ∧ nodeParse z T.heap n k ktag tag run ri = some (false, ri, [.error ktag q q]) := by
  obtain ⟨a, r, pos, h1, h2, h3, -⟩ := C77_position_partial H hn hf ha hv
  obtain ⟨a', r', g1, g2, g3, g4, -⟩ := C77_reader_partial H (Nat.le_of_lt hn) hv
  rw [h1, Option.some.injEq] at g1; subst g1
  rw [h2, Option.some.injEq] at g2; subst g2
  obtain ⟨ri, i1, i2⟩ := h3 i hi
  refine ⟨a, r, ri, _, h1, h2, i1, i2, ?_⟩
  have hkind : tiHasKind T.heap ri.cur k = some false := by
    by_cases hl : i < kids.length
    · obtain ⟨c, c1, c2⟩ := g3 i hl
      rw [i1, Option.some.injEq] at c2
      have hk' : kids[i]? = some kids[i] := List.getElem?_eq_getElem hl
      have hs : t.sub (p ++ [i]) = some kids[i] := by
        rw [PTree.sub_append, hv]; exact PTree.sub_one (id := id) (it := it) hk'
      obtain ⟨c', d1, d2⟩ := (C77_kind_partial H (Nat.le_of_lt hn) k).1 _ _ hs
      rw [c1, Option.some.injEq] at d1; subst d1
      rw [c2, d2]
      rw [hk', Option.map_some, ne_eq, Option.some.injEq] at hk
      simp [hk]
    · have : i = kids.length := by omega
      subst this
      rw [i1, Option.some.injEq] at g4
      rw [g4]; rfl
  simp only [nodeParse, nodeTry, hkind, Option.bind_some, Bool.false_eq_true, if_false, i2, Option.map_some]

/-! ### Examples -/

namespace Ex

/-- Decides whether no production is without children. -/
def full : PTree → Bool
  | .tok .. => true
  | .node _ _ kids => !kids.isEmpty && (kids.attach.all fun ⟨k, _⟩ => full k)

theorem full_ok : ∀ (p : List Nat) (t v : PTree), full t = true → t.sub p = some v → full v = true := by
  intro p
  induction p with
  | nil => intro t v h hv; cases t <;> simp only [PTree.sub, Option.some.injEq] at hv <;> exact hv ▸ h
  | cons i p ih =>
    intro t v h hv
    cases t with
    | tok => simp [PTree.sub] at hv
    | node id it kids =>
      cases hk : kids[i]? with
      | none => simp [PTree.sub, hk] at hv
      | some k =>
        simp only [PTree.sub, hk, Option.bind_some] at hv
        simp only [full, Bool.and_eq_true, List.all_eq_true] at h
        exact ih k v (h.2 ⟨k, List.mem_of_getElem? hk⟩ (List.mem_attach ..)) hv

theorem tree_full : tree.Full := by
  intro p id it h
  have := full_ok p tree _ (by simp [tree, full]) h
  simp [full] at this

theorem tree_adjacent : Adjacent 0 tree.leaves 10 := by simp [tree, PTree.leaves, PTree.leavesL, Adjacent]

/-- The theorems apply to the children of production 4: a production and a token. -/
example : ∃ T, Built .x64 root ops tree 1 10 12 T ∧ tree.Full ∧ Adjacent 0 tree.leaves 10
    ∧ tree.sub [2] = some (.node 4 false [.node 3 false [.tok 8 5 6, .tok 9 6 7], .tok 10 7 8]) := by
  obtain ⟨T, h⟩ := built .x64 Sizes.x64_ok
  exact ⟨T, h, tree_full, tree_adjacent, rfl⟩

/-- A rule matching one token node, consuming it. -/
def oneTok (h : Heap) (k : Nat) (r : TreeReader) : Option (Bool × TreeReader × List Ev) :=
  (nodeTry h (.tok k) r).bind fun
    | some f => (r.position .x64 h 20).bind fun b => (f.position .x64 h 20).map fun e =>
        (true, f, [.token (.user k) b e])
    | none => (r.position .x64 h 20).map fun b => (false, r, [.error 50 b b])

/-- `pnode<3>(tnode<8>)` in production 4: the second child of production 3 is left. -/
example : ((build .x64 root ops 10 12).bind fun T => (walk .x64 T.heap 20 T.root [2]).bind fun a =>
    (TreeReader.new .x64 T.heap (some a)).bind fun r =>
      (nodeParse .x64 T.heap 20 (.prod 3) 51 52 (pnodeRun .x64 T.heap 20 (oneTok T.heap 8)) r).map fun x =>
        (x.1, x.2.2)) = some (true, [.token (.user 8) 5 6, .token .error 6 7, .error 52 6 7]) := by
  decide +kernel
/-- `pnode<3>(tnode<9>)`: the rule fails. -/
example : ((build .x64 root ops 10 12).bind fun T => (walk .x64 T.heap 20 T.root [2]).bind fun a =>
    (TreeReader.new .x64 T.heap (some a)).bind fun r =>
      (nodeParse .x64 T.heap 20 (.prod 3) 51 52 (pnodeRun .x64 T.heap 20 (oneTok T.heap 9)) r).map fun x =>
        (x.1, x.2.2)) = some (false, [.error 50 5 5, .token .error 5 7]) := by
  decide +kernel

end Ex

/-! ### Refutations -/

/-- Comparing the kind of a token with the kind of a production dereferences a null pointer, although they are
    just different. -/
theorem C77_kind_eq_refuted : ∃ (T : Tree) (a c : Addr), Built .x64 Ex.root Ex.ops Ex.tree 1 10 12 T
    ∧ walk .x64 T.heap 20 T.root [0] = some a ∧ walk .x64 T.heap 20 T.root [1] = some c
    ∧ tiHasKind T.heap (some a) (.prod 1) = some true ∧ tiHasKind T.heap (some c) (.tok errorKind) = some true
    ∧ kindEq T.heap a c = none := by
  obtain ⟨T, h⟩ := Ex.built .x64 Sizes.x64_ok
  have hk : (build .x64 Ex.root Ex.ops 10 12).bind (fun T => (walk .x64 T.heap 20 T.root [0]).bind fun a =>
      (walk .x64 T.heap 20 T.root [1]).map fun c => (tiHasKind T.heap (some a) (.prod 1),
        tiHasKind T.heap (some c) (.tok errorKind), kindEq T.heap a c))
      = some (some true, some true, none) := by decide +kernel
  rw [h.built, Option.bind_some] at hk
  obtain ⟨a, ha, hk⟩ := Option.bind_eq_some_iff.1 hk
  obtain ⟨c, hc, hk⟩ := Option.map_eq_some_iff.1 hk
  simp only [Prod.mk.injEq] at hk
  exact ⟨T, a, c, h, ha, hc, hk.1, hk.2.1, hk.2.2⟩

/-- Before a production without children the reader has no position, so that even reporting that another node was
    expected is undefined behavior. -/
theorem C77_position_refuted : ∃ (T : Tree) (r : TreeReader),
    Built .x64 Ex.root [.startProd ⟨1, false, false⟩, .finishProd] (.node 0 false [.node 1 false []]) 0 0 0 T
    ∧ TreeReader.new .x64 T.heap (some T.root) = some r
    ∧ ∀ n, r.position .x64 T.heap n = none
      ∧ ∀ k ktag tag run, nodeParse .x64 T.heap n (.tok k) ktag tag run r = none := by
  obtain ⟨T, -, H⟩ := C30_builds_partial (z := .x64) Sizes.x64_ok (root := Ex.root) rfl
    (ops := [.startProd ⟨1, false, false⟩, .finishProd]) (t := .node 0 false [.node 1 false []]) rfl rfl
    (by simp [Spec.FineRun, Spec.Fine, Spec.step, Spec.init, Ex.root]) 0 0
  obtain ⟨u, eof, h1, h2, h3, h4, h5⟩ := H.node
  obtain ⟨w, hw, hwe⟩ := h5 [0] (.node 1 false []) rfl
  obtain ⟨w0, hw0, hwe0⟩ := h5 [] (.node 0 false [.node 1 false []]) rfl
  have hu : u = w0 := by cases u <;> simpa [AT.sub] using hw0
  subst hu
  cases w with
  | tok => simp [AT.erase] at hwe
  | node a id it ks =>
    have hks : ks = [] := by
      cases ks with
      | nil => rfl
      | cons => simp [AT.erase, AT.eraseL] at hwe
    subst hks
    have hW := h3.sub [0] hw
    cases u with
    | tok => simp [AT.erase] at hwe0
    | node a0 id0 it0 ks0 =>
      have hk0 : ks0[0]? = some (.node a id it []) := by
        cases hx : ks0[0]? with
        | none => simp [AT.sub, hx] at hw
        | some k => simpa [AT.sub, hx] using hw
      have hpos : ∀ n, (TreeReader.mk (some a0) (some a)).position .x64 T.heap n = none := by
        intro n
        have hg := hW.get
        have hfc := hW.firstChild
        simp only [AT.addr] at hg
        cases n with
        | zero => rfl
        | succ n => simp only [TreeReader.position, tiBegin, Option.bind_some, position, hg, AT.data, hfc]; rfl
      refine ⟨T, ⟨some a0, some a⟩, H, ?_, fun n => ⟨hpos n, ?_⟩⟩
      · rw [h4]
        have := h3.reader
        rw [hk0] at this
        exact this
      · intro k ktag tag run
        have hg := hW.get
        simp only [AT.addr, AT.data] at hg
        simp only [nodeParse, nodeTry, tiHasKind, kindIs, hg, Option.map_some, Option.bind_some, Bool.false_eq_true,
          if_false, hpos n, Option.map_none]

/-- The documentation says that `pnode` recovers when the rule for the children fails; it fails
    (docs/content/reference/dsl/parse_tree_node.adoc, "The rule then recovers by doing nothing"). -/
theorem C77_recover_refuted : ∃ (T : Tree) (a : Addr) (r fin : TreeReader) (evs : List Ev),
    Built .x64 Ex.root Ex.ops Ex.tree 1 10 12 T ∧ walk .x64 T.heap 20 T.root [2] = some a
    ∧ TreeReader.new .x64 T.heap (some a) = some r
    ∧ nodeTry T.heap (.prod 3) r = some (some fin)
    ∧ nodeParse .x64 T.heap 20 (.prod 3) 51 52 (pnodeRun .x64 T.heap 20 (Ex.oneTok T.heap 9)) r
      = some (false, fin, evs) := by
  obtain ⟨T, h⟩ := Ex.built .x64 Sizes.x64_ok
  have hk : (build .x64 Ex.root Ex.ops 10 12).bind (fun T => (walk .x64 T.heap 20 T.root [2]).bind fun a =>
      (TreeReader.new .x64 T.heap (some a)).bind fun r => (nodeTry T.heap (.prod 3) r).bind fun o => o.bind fun fin =>
        (nodeParse .x64 T.heap 20 (.prod 3) 51 52 (pnodeRun .x64 T.heap 20 (Ex.oneTok T.heap 9)) r).map fun x =>
          decide (x.1 = false ∧ x.2.1 = fin)) = some true := by decide +kernel
  rw [h.built, Option.bind_some] at hk
  obtain ⟨a, ha, hk⟩ := Option.bind_eq_some_iff.1 hk
  obtain ⟨r, hr, hk⟩ := Option.bind_eq_some_iff.1 hk
  obtain ⟨o, ho, hk⟩ := Option.bind_eq_some_iff.1 hk
  obtain ⟨fin, rfl, hk⟩ := Option.bind_eq_some_iff.1 hk
  obtain ⟨⟨x1, x2, x3⟩, hx, hk⟩ := Option.map_eq_some_iff.1 hk
  simp only [decide_eq_true_eq] at hk
  obtain ⟨rfl, rfl⟩ := hk
  exact ⟨T, a, r, x2, x3, h, ha, hr, ho, hx⟩

end Verif.PT
