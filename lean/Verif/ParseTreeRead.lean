import Verif.ParseTreeSim

/-!
# Reading a finished parse tree through its accessors
-/

namespace Verif.PT

/-! ### What the user does -/

/-- The tree read through `kind()`, `token()` and `children()`. -/
def readTree (z : Sizes) (h : Heap) : Nat → Addr → Option PTree
  | 0, _ => none
  | n + 1, a =>
    (h.get a).bind fun nd =>
      match nd.data with
      | .tok k b e => some (.tok k b e)
      | .prod id it _ _ =>
        (children z h (n + 1) a).bind fun l => (l.mapM (readTree z h n)).map (.node id it)

/-- The node reached by choosing children. -/
def walk (z : Sizes) (h : Heap) (fuel : Nat) : Addr → List Nat → Option Addr
  | a, [] => some a
  | a, i :: p => (children z h fuel a).bind fun l => l[i]?.bind fun c => walk z h fuel c p

/-- The subtree reached by choosing children. -/
def PTree.sub : PTree → List Nat → Option PTree
  | t, [] => some t
  | .node _ _ kids, i :: p => kids[i]?.bind fun k => k.sub p
  | .tok .., _ :: _ => none

def AT.sub : AT → List Nat → Option AT
  | t, [] => some t
  | .node _ _ _ kids, i :: p => kids[i]?.bind fun k => k.sub p
  | .tok .., _ :: _ => none

theorem AT.sub_erase : ∀ (p : List Nat) (t : AT), t.erase.sub p = (t.sub p).map AT.erase := by
  intro p
  induction p with
  | nil => intro t; cases t <;> rfl
  | cons i p ih =>
    intro t
    cases t with
    | tok => rfl
    | node a id it kids =>
      simp only [AT.erase, PTree.sub, AT.sub, AT.eraseL_eq, List.getElem?_map]
      cases kids[i]? with
      | none => rfl
      | some k => simp [ih k]

/-! ### Nodes of a tree in memory -/

/-- A node with everything below is in the memory. -/
structure IsNode (z : Sizes) (h : Heap) (t : AT) (nx : Option Addr × Bool) : Prop where
  cell : h t.addr = some (t.cell z nx)
  inner : Holds h (t.inner z)
  nodup : (AT.addrs z [t]).Nodup

/-- The next pointer of a child. -/
def nextOf (a : Addr) (kids : List AT) (i : Nat) : Option Addr × Bool :=
  match kids[i + 1]? with
  | some k => (some k.addr, false)
  | none => (some a, true)

theorem headCells_mem (z : Sizes) : ∀ (kids : List AT) (nx : Option Addr × Bool) (i : Nat) (k : AT),
    kids[i]? = some k → (k.addr, k.cell z (match kids[i + 1]? with
      | some k' => (some k'.addr, false)
      | none => nx)) ∈ headCells z kids nx := by
  intro kids
  induction kids with
  | nil => intro nx i k h; simp at h
  | cons t kids ih =>
    intro nx i k h
    cases kids with
    | nil =>
      cases i with
      | zero => simp at h; subst h; simp [headCells]
      | succ i => simp at h
    | cons u kids =>
      cases i with
      | zero => simp at h; subst h; simp [headCells]
      | succ i =>
        simp only [List.getElem?_cons_succ] at h ⊢
        simp only [headCells, List.mem_cons]
        exact .inr (ih nx i k h)

theorem innerL_mem (z : Sizes) {kids : List AT} {k : AT} (hk : k ∈ kids) {x : Addr × Cell}
    (hx : x ∈ k.inner z) : x ∈ AT.innerL z kids := by
  induction kids with
  | nil => simp at hk
  | cons t kids ih =>
    rw [List.mem_cons] at hk
    simp only [AT.innerL, List.mem_append]
    rcases hk with rfl | hk
    · exact .inl hx
    · exact .inr (ih hk)

theorem addrs_flat (z : Sizes) (kids : List AT) :
    (AT.addrs z kids).Perm (kids.flatMap fun k => AT.addrs z [k]) := by
  induction kids with
  | nil => simp [AT.addrs, AT.innerL]
  | cons t kids ih =>
    have := AT.addrs_perm z [t] kids
    rw [List.singleton_append] at this
    rw [List.flatMap_cons]
    exact this.trans (List.Perm.append_left _ ih)

theorem nodup_flat_mem {α β : Type} {f : α → List β} {l : List α} (h : (l.flatMap f).Nodup) :
    (∀ x ∈ l, (f x).Nodup) ∧
    ∀ (i j : Nat) (x y : α) (b : β), l[i]? = some x → l[j]? = some y → b ∈ f x → b ∈ f y → i = j := by
  induction l with
  | nil => simp
  | cons a l ih =>
    rw [List.flatMap_cons, List.nodup_append] at h
    obtain ⟨i1, i2⟩ := ih h.2.1
    constructor
    · intro x hx
      rw [List.mem_cons] at hx
      rcases hx with rfl | hx
      · exact h.1
      · exact i1 x hx
    · intro i j x y b hx hy hb1 hb2
      cases i with
      | zero =>
        cases j with
        | zero => rfl
        | succ j =>
          simp only [List.getElem?_cons_zero, Option.some.injEq, List.getElem?_cons_succ] at hx hy
          subst hx
          exact absurd rfl (h.2.2 b hb1 b (List.mem_flatMap.2 ⟨y, List.mem_of_getElem? hy, hb2⟩))
      | succ i =>
        cases j with
        | zero =>
          simp only [List.getElem?_cons_zero, Option.some.injEq, List.getElem?_cons_succ] at hx hy
          subst hy
          exact absurd rfl (h.2.2 b hb2 b (List.mem_flatMap.2 ⟨x, List.mem_of_getElem? hx, hb1⟩))
        | succ j =>
          simp only [List.getElem?_cons_succ] at hx hy
          rw [i2 i j x y b hx hy hb1 hb2]

theorem AT.addr_mem (z : Sizes) (t : AT) : t.addr ∈ AT.addrs z [t] := by simp [AT.addrs]

theorem AT.addrs_mem {z : Sizes} {kids : List AT} {k : AT} (hk : k ∈ kids) {x : Addr}
    (hx : x ∈ AT.addrs z [k]) : x ∈ AT.addrs z kids :=
  (addrs_flat z kids).mem_iff.2 (List.mem_flatMap.2 ⟨k, hk, hx⟩)

theorem IsNode.parts {z : Sizes} {h : Heap} {a : Addr} {id : Nat} {it : Bool} {kids : List AT}
    {nx : Option Addr × Bool} (H : IsNode z h (.node a id it kids) nx) :
    a ∉ AT.addrs z kids ∧ (AT.addrs z kids).Nodup := by
  have h1 := (addrs_node z a id it kids).nodup_iff.1 H.nodup
  rw [List.nodup_append, List.nodup_cons] at h1
  exact h1.2.1

theorem IsNode.kid {z : Sizes} {h : Heap} {a : Addr} {id : Nat} {it : Bool} {kids : List AT}
    {nx : Option Addr × Bool} (H : IsNode z h (.node a id it kids) nx) {i : Nat} {k : AT}
    (hk : kids[i]? = some k) : IsNode z h k (nextOf a kids i) := by
  have hm := List.mem_of_getElem? hk
  refine ⟨?_, ?_, ?_⟩
  · have := headCells_mem z kids (some a, true) i k hk
    exact H.inner (k.addr, _) (by
      simp only [AT.inner, List.mem_append]
      exact .inl (.inr this))
  · intro x hx
    exact H.inner x (by
      simp only [AT.inner, List.mem_append]
      exact .inr (innerL_mem z hm hx))
  · have h2 := (addrs_flat z kids).nodup_iff.1 H.parts.2
    exact (nodup_flat_mem h2).1 k hm

/-- The next pointer of the node at a path. -/
def nextAt : AT → List Nat → Option Addr × Bool → Option Addr × Bool
  | _, [], nx => nx
  | .node a _ _ kids, i :: p, _ =>
    match kids[i]? with
    | some k => nextAt k p (nextOf a kids i)
    | none => (none, true)
  | .tok .., _ :: _, _ => (none, true)

theorem IsNode.sub {z : Sizes} {h : Heap} : ∀ (p : List Nat) {t u : AT} {nx : Option Addr × Bool},
    IsNode z h t nx → t.sub p = some u → IsNode z h u (nextAt t p nx) := by
  intro p
  induction p with
  | nil =>
    intro t u nx H hs
    cases t <;> simp only [AT.sub, Option.some.injEq] at hs <;> subst hs <;> exact H
  | cons i p ih =>
    intro t u nx H hs
    cases t with
    | tok => simp [AT.sub] at hs
    | node a id it kids =>
      simp only [AT.sub] at hs
      cases hk : kids[i]? with
      | none => rw [hk] at hs; simp at hs
      | some k =>
        rw [hk] at hs
        simp only [Option.bind_some] at hs
        simp only [nextAt, hk]
        exact ih (H.kid hk) hs

theorem AT.sub_append : ∀ (p q : List Nat) (t : AT), t.sub (p ++ q) = (t.sub p).bind fun u => u.sub q := by
  intro p
  induction p with
  | nil => intro q t; cases t <;> rfl
  | cons i p ih =>
    intro q t
    cases t with
    | tok => rfl
    | node a id it kids =>
      simp only [List.cons_append, AT.sub]
      cases kids[i]? with
      | none => rfl
      | some k => simp [ih q k]

theorem PTree.sub_append : ∀ (p q : List Nat) (t : PTree),
    t.sub (p ++ q) = (t.sub p).bind fun u => u.sub q := by
  intro p
  induction p with
  | nil => intro q t; cases t <;> rfl
  | cons i p ih =>
    intro q t
    cases t with
    | tok => rfl
    | node id it kids =>
      simp only [List.cons_append, PTree.sub]
      cases kids[i]? with
      | none => rfl
      | some k => simp [ih q k]

theorem nextAt_snoc : ∀ (p : List Nat) (i : Nat) (t : AT) (nx : Option Addr × Bool)
    (a : Addr) (id : Nat) (it : Bool) (kids : List AT), t.sub p = some (.node a id it kids) →
    i < kids.length → nextAt t (p ++ [i]) nx = nextOf a kids i := by
  intro p
  induction p with
  | nil =>
    intro i t nx a id it kids hs hi
    cases t with
    | tok => simp [AT.sub] at hs
    | node =>
      simp only [AT.sub, Option.some.injEq] at hs
      cases hs
      simp [nextAt, hi]
  | cons j p ih =>
    intro i t nx a id it kids hs hi
    cases t with
    | tok => simp [AT.sub] at hs
    | node a' id' it' kids' =>
      simp only [AT.sub] at hs
      cases hk : kids'[j]? with
      | none => rw [hk] at hs; simp at hs
      | some k =>
        rw [hk] at hs
        simp only [Option.bind_some] at hs
        simp only [List.cons_append, nextAt, hk]
        exact ih i k _ a id it kids hs hi

theorem AT.sub_addr_mem (z : Sizes) : ∀ (p : List Nat) (t u : AT), t.sub p = some u →
    ∀ x ∈ AT.addrs z [u], x ∈ AT.addrs z [t] := by
  intro p
  induction p with
  | nil =>
    intro t u hs x hx
    cases t <;> simp only [AT.sub, Option.some.injEq] at hs <;> subst hs <;> exact hx
  | cons i p ih =>
    intro t u hs x hx
    cases t with
    | tok => simp [AT.sub] at hs
    | node a id it kids =>
      simp only [AT.sub] at hs
      cases hk : kids[i]? with
      | none => rw [hk] at hs; simp at hs
      | some k =>
        rw [hk] at hs
        simp only [Option.bind_some] at hs
        refine (addrs_node z a id it kids).mem_iff.2 ?_
        simp only [List.mem_append, List.mem_cons]
        exact .inr (.inr (AT.addrs_mem (List.mem_of_getElem? hk) (ih k u hs x hx)))

/-- Different paths lead to different nodes. -/
theorem IsNode.inj {z : Sizes} {h : Heap} : ∀ (p q : List Nat) {t u v : AT} {nx : Option Addr × Bool},
    IsNode z h t nx → t.sub p = some u → t.sub q = some v → u.addr = v.addr → p = q := by
  intro p
  induction p with
  | nil =>
    intro q t u v nx H h1 h2 he
    cases q with
    | nil => rfl
    | cons j q =>
      cases t with
      | tok => simp [AT.sub] at h2
      | node a id it kids =>
        simp only [AT.sub, Option.some.injEq] at h1 h2
        subst h1
        cases hk : kids[j]? with
        | none => rw [hk] at h2; simp at h2
        | some k =>
          rw [hk] at h2
          simp only [Option.bind_some] at h2
          have := AT.sub_addr_mem z q k v h2 v.addr (v.addr_mem z)
          rw [← he] at this
          exact absurd (AT.addrs_mem (List.mem_of_getElem? hk) this) H.parts.1
  | cons i p ih =>
    intro q t u v nx H h1 h2 he
    cases t with
    | tok => simp [AT.sub] at h1
    | node a id it kids =>
      simp only [AT.sub] at h1
      cases hk : kids[i]? with
      | none => rw [hk] at h1; simp at h1
      | some k =>
        rw [hk] at h1
        simp only [Option.bind_some] at h1
        have hu := AT.sub_addr_mem z p k u h1 u.addr (u.addr_mem z)
        cases q with
        | nil =>
          simp only [AT.sub, Option.some.injEq] at h2
          subst h2
          rw [he] at hu
          exact absurd (AT.addrs_mem (List.mem_of_getElem? hk) hu) H.parts.1
        | cons j q =>
          simp only [AT.sub] at h2
          cases hk2 : kids[j]? with
          | none => rw [hk2] at h2; simp at h2
          | some k2 =>
            rw [hk2] at h2
            simp only [Option.bind_some] at h2
            have hv := AT.sub_addr_mem z q k2 v h2 v.addr (v.addr_mem z)
            have hij : i = j := by
              have h3 := (addrs_flat z kids).nodup_iff.1 H.parts.2
              exact (nodup_flat_mem h3).2 i j k k2 u.addr hk hk2 hu (by rw [he]; exact hv)
            subst hij
            rw [hk] at hk2
            cases hk2
            rw [ih q (H.kid hk) h1 h2 he]

/-! ### Children -/

theorem IsNode.get {z : Sizes} {h : Heap} {t : AT} {nx : Option Addr × Bool} (H : IsNode z h t nx) :
    h.get t.addr = some ⟨nx.1, nx.2, t.data z⟩ := by
  rw [Heap.get, H.cell]; rfl

theorem IsNode.firstChild {z : Sizes} {h : Heap} {a : Addr} {id : Nat} {it : Bool} {kids : List AT}
    {nx : Option Addr × Bool} (H : IsNode z h (.node a id it kids) nx) :
    firstChild z h a = some (kids.head?.map AT.addr) := by
  have hg := H.get
  simp only [AT.addr, AT.data] at hg
  unfold PT.firstChild
  rw [hg]
  simp only [Option.bind_some]
  cases kids with
  | nil => rfl
  | cons t r =>
    simp only [List.length_cons, Nat.add_eq_zero_iff, Nat.one_ne_zero, and_false, if_false,
      List.head?_cons, Option.map_some]
    cases ha : adjOf z a (t :: r) with
    | true =>
      simp only [adjOf, decide_eq_true_eq] at ha
      simp [ha]
    | false =>
      simp only [Bool.false_eq_true, if_false]
      have := H.inner (behind z a, .ptr (some t.addr)) (by
        simp [AT.inner, slotCell, ha])
      rw [this]

theorem IsNode.childLoop {z : Sizes} {h : Heap} {a : Addr} {id : Nat} {it : Bool} {kids : List AT}
    {nx : Option Addr × Bool} (H : IsNode z h (.node a id it kids) nx) :
    ∀ (n i : Nat) (k : AT), kids.length - i < n → kids[i]? = some k →
      childLoop h a n k.addr = some ((kids.drop i).map AT.addr) := by
  intro n
  induction n with
  | zero => intro i k hn _; omega
  | succ n ih =>
    intro i k hn hk
    have hK := H.kid hk
    have hlt : i < kids.length := by
      rw [List.getElem?_eq_some_iff] at hk; exact hk.1
    have hne : k.addr ≠ a := by
      intro e
      exact H.parts.1 (e ▸ AT.addrs_mem (List.mem_of_getElem? hk) (k.addr_mem z))
    rw [PT.childLoop, if_neg hne, hK.get]
    have hd : kids.drop i = k :: kids.drop (i + 1) := by
      rw [List.drop_eq_getElem_cons hlt]
      rw [List.getElem?_eq_getElem hlt] at hk
      cases hk; rfl
    simp only [Option.bind_some, nextOf, hd, List.map_cons]
    cases hk2 : kids[i + 1]? with
    | none =>
      have hlen : kids.length ≤ i + 1 := by rw [List.getElem?_eq_none_iff] at hk2; exact hk2
      rw [List.drop_eq_nil_of_le hlen]
      cases n with
      | zero => omega
      | succ n => simp [PT.childLoop]
    | some k2 =>
      simp only [Option.bind_some]
      rw [ih (i + 1) k2 (by omega) hk2]
      rfl

theorem IsNode.children {z : Sizes} {h : Heap} {a : Addr} {id : Nat} {it : Bool} {kids : List AT}
    {nx : Option Addr × Bool} (H : IsNode z h (.node a id it kids) nx) {n : Nat}
    (hn : kids.length < n) : children z h n a = some (kids.map AT.addr) := by
  have hg := H.get
  simp only [AT.addr, AT.data] at hg
  unfold PT.children
  rw [hg]
  simp only [Option.bind_some, H.firstChild]
  cases hk : kids with
  | nil => rfl
  | cons t r =>
    simp only [List.head?_cons, Option.map_some]
    rw [H.childLoop n 0 t (by omega) (by rw [hk]; rfl), hk]
    rfl

theorem IsNode.children_tok {z : Sizes} {h : Heap} {a : Addr} {k b e : Nat}
    {nx : Option Addr × Bool} (H : IsNode z h (.tok a k b e) nx) (n : Nat) :
    PT.children z h n a = some [] := by
  have hg := H.get
  simp only [AT.addr, AT.data] at hg
  unfold PT.children
  rw [hg]; rfl

mutual
theorem IsNode.read {z : Sizes} {h : Heap} : ∀ (t : AT) {nx : Option Addr × Bool}, IsNode z h t nx →
    ∀ n, t.erase.size < n → readTree z h n t.addr = some t.erase
  | .tok a k b e, nx, H, n, hn => by
    cases n with
    | zero => omega
    | succ n =>
      rw [readTree, H.get]; rfl
  | .node a id it kids, nx, H, n, hn => by
    cases n with
    | zero => omega
    | succ n =>
      rw [readTree, H.get]
      simp only [AT.erase, PTree.size] at hn
      have hl := PTree.length_le_sizeL (AT.eraseL kids)
      rw [AT.eraseL_length] at hl
      have := H.children (n := n + 1) (by omega)
      simp only [Option.bind_some, AT.data, AT.addr, this]
      rw [IsNode.readL kids (fun k hk => by
        obtain ⟨i, hi⟩ := List.mem_iff_getElem?.1 hk
        exact ⟨_, H.kid hi⟩) n (by omega)]
      rfl
theorem IsNode.readL {z : Sizes} {h : Heap} : ∀ (l : List AT),
    (∀ k ∈ l, ∃ nx, IsNode z h k nx) → ∀ n, PTree.sizeL (AT.eraseL l) < n →
    (l.map AT.addr).mapM (readTree z h n) = some (AT.eraseL l)
  | [], _, _, _ => rfl
  | t :: ts, H, n, hn => by
    obtain ⟨nx, hnx⟩ := H t (by simp)
    have hp := PTree.size_pos t.erase
    simp only [AT.eraseL, PTree.sizeL] at hn
    have h1 := IsNode.read t hnx n (by omega)
    have h2 := IsNode.readL ts (fun k hk => H k (by simp [hk])) n (by omega)
    simp only [List.map_cons, List.mapM_cons, h1, h2]
    rfl
end

theorem PTree.kid_size {l : List PTree} {t : PTree} (h : t ∈ l) : t.size ≤ PTree.sizeL l := by
  induction l with
  | nil => simp at h
  | cons a l ih =>
    rw [List.mem_cons] at h
    simp only [PTree.sizeL]
    rcases h with rfl | h
    · omega
    · have := ih h; omega

theorem AT.kid_size {kids : List AT} {i : Nat} {k : AT} (hk : kids[i]? = some k) :
    k.erase.size ≤ PTree.sizeL (AT.eraseL kids) := by
  refine PTree.kid_size ?_
  rw [AT.eraseL_eq]
  exact List.mem_map_of_mem (List.mem_of_getElem? hk)

theorem AT.sub_size : ∀ (p : List Nat) (t u : AT), t.sub p = some u → u.erase.size ≤ t.erase.size := by
  intro p
  induction p with
  | nil => intro t u hs; cases t <;> simp only [AT.sub, Option.some.injEq] at hs <;> subst hs <;> exact Nat.le_refl _
  | cons i p ih =>
    intro t u hs
    cases t with
    | tok => simp [AT.sub] at hs
    | node a id it kids =>
      simp only [AT.sub] at hs
      cases hk : kids[i]? with
      | none => rw [hk] at hs; simp at hs
      | some k =>
        rw [hk] at hs
        have h1 := ih k u hs
        have h2 := AT.kid_size hk
        simp only [AT.erase, PTree.size]; omega

theorem AT.kids_lt {a : Addr} {id : Nat} {it : Bool} {kids : List AT} :
    kids.length < (AT.node a id it kids).erase.size := by
  have := PTree.length_le_sizeL (AT.eraseL kids)
  rw [AT.eraseL_length] at this
  simp only [AT.erase, PTree.size]; omega

theorem IsNode.walk {z : Sizes} {h : Heap} {n : Nat} : ∀ (p : List Nat) (t u : AT)
    {nx : Option Addr × Bool}, IsNode z h t nx → t.erase.size ≤ n → t.sub p = some u →
    PT.walk z h n t.addr p = some u.addr := by
  intro p
  induction p with
  | nil =>
    intro t u nx H hn hs
    cases t <;> simp only [AT.sub, Option.some.injEq] at hs <;> subst hs <;> rfl
  | cons i p ih =>
    intro t u nx H hn hs
    cases t with
    | tok => simp [AT.sub] at hs
    | node a id it kids =>
      simp only [AT.sub] at hs
      cases hk : kids[i]? with
      | none => rw [hk] at hs; simp at hs
      | some k =>
        rw [hk] at hs
        simp only [Option.bind_some] at hs
        have hc := H.children (n := n) (Nat.lt_of_lt_of_le AT.kids_lt hn)
        have h2 := AT.kid_size hk
        simp only [AT.erase, PTree.size] at hn
        simp only [AT.addr, PT.walk, hc, Option.bind_some, List.getElem?_map, hk, Option.map_some]
        exact ih k u (H.kid hk) (by omega) hs


/-! ### Parents and siblings -/

theorem IsNode.kid_get {z : Sizes} {h : Heap} {a : Addr} {id : Nat} {it : Bool} {kids : List AT}
    {nx : Option Addr × Bool} (H : IsNode z h (.node a id it kids) nx) {i : Nat} {k : AT}
    (hk : kids[i]? = some k) :
    h.get k.addr = some ⟨(nextOf a kids i).1, (nextOf a kids i).2, k.data z⟩ := (H.kid hk).get

theorem getElem?_lt {α : Type} {l : List α} {i : Nat} {x : α} (h : l[i]? = some x) : i < l.length := by
  rw [List.getElem?_eq_some_iff] at h; exact h.1

theorem IsNode.upLoop {z : Sizes} {h : Heap} {a : Addr} {id : Nat} {it : Bool} {kids : List AT}
    {nx : Option Addr × Bool} (H : IsNode z h (.node a id it kids) nx) :
    ∀ (n i : Nat) (k : AT), kids.length - i ≤ n → kids[i]? = some k → upLoop h n k.addr = some a := by
  intro n
  induction n with
  | zero => intro i k hn hk; have := getElem?_lt hk; omega
  | succ n ih =>
    intro i k hn hk
    rw [PT.upLoop, H.kid_get hk]
    simp only [Option.bind_some, nextOf]
    cases hk2 : kids[i + 1]? with
    | none => simp
    | some k2 => simp only [Bool.false_eq_true, if_false, Option.bind_some]; exact ih (i + 1) k2 (by omega) hk2

theorem IsNode.sibNext {z : Sizes} {h : Heap} {a : Addr} {id : Nat} {it : Bool} {kids : List AT}
    {nx : Option Addr × Bool} (H : IsNode z h (.node a id it kids) nx) {i : Nat} {k : AT}
    (hk : kids[i]? = some k) :
    sibNext z h k.addr = (kids[i + 1]?.map AT.addr).or (kids.head?.map AT.addr) := by
  unfold PT.sibNext
  rw [H.kid_get hk]
  simp only [Option.bind_some, nextOf]
  cases hk2 : kids[i + 1]? with
  | none => simp [H.firstChild]
  | some k2 => simp

theorem IsNode.kid_inj {z : Sizes} {h : Heap} {a : Addr} {id : Nat} {it : Bool} {kids : List AT}
    {nx : Option Addr × Bool} (H : IsNode z h (.node a id it kids) nx) {i j : Nat} {k l : AT}
    (hk : kids[i]? = some k) (hl : kids[j]? = some l) (he : k.addr = l.addr) : i = j := by
  have h3 := (addrs_flat z kids).nodup_iff.1 H.parts.2
  exact (nodup_flat_mem h3).2 i j k l k.addr hk hl (k.addr_mem z) (by rw [he]; exact l.addr_mem z)

theorem drop_cons {α : Type} {l : List α} {i : Nat} {x : α} (h : l[i]? = some x) :
    l.drop i = x :: l.drop (i + 1) := by
  have hlt := getElem?_lt h
  rw [List.drop_eq_getElem_cons hlt]
  rw [List.getElem?_eq_getElem hlt] at h
  cases h; rfl

theorem IsNode.sibLoop_before {z : Sizes} {h : Heap} {a : Addr} {id : Nat} {it : Bool} {kids : List AT}
    {nx : Option Addr × Bool} (H : IsNode z h (.node a id it kids) nx) {i : Nat} {k : AT}
    (hk : kids[i]? = some k) : ∀ (n j : Nat) (l : AT), j ≤ i → i - j < n → kids[j]? = some l →
    sibLoop z h k.addr n l.addr = some (((kids.drop j).take (i - j)).map AT.addr) := by
  intro n
  induction n with
  | zero => intro j l _ hn; omega
  | succ n ih =>
    intro j l hj hn hl
    rw [sibLoop]
    by_cases he : l.addr = k.addr
    · have := H.kid_inj hl hk he
      subst this
      rw [if_pos he]; simp
    · rw [if_neg he, H.sibNext hl]
      have hne : j ≠ i := by
        rintro rfl
        rw [hk] at hl; cases hl; exact he rfl
      have hlt := getElem?_lt hk
      have hj1 : kids[j + 1]? = some (kids[j + 1]'(by omega)) := List.getElem?_eq_getElem (by omega)
      rw [hj1]
      simp only [Option.map_some, Option.some_or, Option.bind_some]
      rw [ih (j + 1) _ (by omega) (by omega) hj1, drop_cons hl]
      have : i - j = (i - (j + 1)) + 1 := by omega
      rw [this, List.take_succ_cons]
      rfl

theorem IsNode.sibLoop_after {z : Sizes} {h : Heap} {a : Addr} {id : Nat} {it : Bool} {kids : List AT}
    {nx : Option Addr × Bool} (H : IsNode z h (.node a id it kids) nx) {i : Nat} {k : AT}
    (hk : kids[i]? = some k) : ∀ (n j : Nat) (l : AT), i < j → kids.length - j + i < n →
    kids[j]? = some l →
    sibLoop z h k.addr n l.addr = some ((kids.drop j ++ kids.take i).map AT.addr) := by
  intro n
  induction n with
  | zero => intro j l _ hn; omega
  | succ n ih =>
    intro j l hj hn hl
    rw [sibLoop]
    have hjl := getElem?_lt hl
    have he : l.addr ≠ k.addr := by
      intro he
      have := H.kid_inj hl hk he
      omega
    rw [if_neg he, H.sibNext hl]
    cases hj1 : kids[j + 1]? with
    | some l2 =>
      simp only [Option.map_some, Option.some_or, Option.bind_some]
      rw [ih (j + 1) _ (by omega) (by omega) hj1, drop_cons hl]
      rfl
    | none =>
      have hlen : kids.length ≤ j + 1 := by rw [List.getElem?_eq_none_iff] at hj1; exact hj1
      cases hkk : kids with
      | nil => rw [hkk] at hl; simp at hl
      | cons t r =>
        rw [← hkk]
        have h0 : kids[0]? = some t := by rw [hkk]; rfl
        have hh : kids.head? = some t := by rw [hkk]; rfl
        rw [hh]
        simp only [Option.map_none, Option.none_or, Option.map_some, Option.bind_some]
        rw [H.sibLoop_before hk n 0 t (by omega) (by omega) h0, drop_cons hl,
          List.drop_eq_nil_of_le hlen]
        simp

theorem IsNode.siblings {z : Sizes} {h : Heap} {a : Addr} {id : Nat} {it : Bool} {kids : List AT}
    {nx : Option Addr × Bool} (H : IsNode z h (.node a id it kids) nx) {i : Nat} {k : AT}
    (hk : kids[i]? = some k) {n : Nat} (hn : kids.length < n) :
    siblings z h n k.addr = some ((kids.drop (i + 1) ++ kids.take i).map AT.addr) := by
  unfold PT.siblings
  rw [H.sibNext hk]
  have hlt := getElem?_lt hk
  cases hj1 : kids[i + 1]? with
  | some l2 =>
    simp only [Option.map_some, Option.some_or, Option.bind_some]
    exact H.sibLoop_after hk n (i + 1) l2 (by omega) (by omega) hj1
  | none =>
    have hlen : kids.length ≤ i + 1 := by rw [List.getElem?_eq_none_iff] at hj1; exact hj1
    cases hkk : kids with
    | nil => rw [hkk] at hk; simp at hk
    | cons t r =>
      rw [← hkk]
      have h0 : kids[0]? = some t := by rw [hkk]; rfl
      have hh : kids.head? = some t := by rw [hkk]; rfl
      rw [hh]
      simp only [Option.map_none, Option.none_or, Option.map_some, Option.bind_some]
      rw [H.sibLoop_before hk n 0 t (by omega) (by omega) h0, List.drop_eq_nil_of_le hlen]
      simp

/-! ### Positions -/

/-- The position where a tree begins: that of its first token; there is none if following first
    children ends in an empty production. -/
def PTree.firstPos : PTree → Option Nat
  | .tok _ b _ => some b
  | .node _ _ kids => match kids with
    | [] => none
    | k :: _ => k.firstPos

theorem IsNode.position {z : Sizes} {h : Heap} : ∀ (n : Nat) (t : AT) {nx : Option Addr × Bool},
    IsNode z h t nx → t.erase.size ≤ n → position z h n t.addr = t.erase.firstPos := by
  intro n
  induction n with
  | zero => intro t nx _ hn; have := t.erase.size_pos; omega
  | succ n ih =>
    intro t nx H hn
    rw [PT.position, H.get]
    cases t with
    | tok => rfl
    | node a id it kids =>
      simp only [Option.bind_some, AT.data, AT.addr, H.firstChild]
      cases kids with
      | nil => rfl
      | cons k r =>
        simp only [List.head?_cons, Option.map_some, Option.join_some, Option.bind_some, AT.erase,
          AT.eraseL, PTree.firstPos]
        refine ih k (H.kid (i := 0) rfl) ?_
        simp only [AT.erase, AT.eraseL, PTree.size, PTree.sizeL] at hn
        omega

/-- The path to the node following a node and everything below it. -/
def PTree.after : PTree → List Nat → Option (List Nat)
  | _, [] => none
  | .node _ _ kids, i :: p =>
    match kids[i]?.bind (·.after p) with
    | some q => some (i :: q)
    | none => if i + 1 < kids.length then some [i + 1] else none
  | .tok .., _ :: _ => none

theorem IsNode.afterLoop {z : Sizes} {h : Heap} : ∀ (p : List Nat) (t u : AT) {nx : Option Addr × Bool},
    IsNode z h t nx → t.sub p = some u →
    (∀ q, t.erase.after p = some q → ∃ v, t.sub q = some v ∧
      ∀ n, p.length ≤ n → afterLoop h n u.addr = some v.addr) ∧
    (t.erase.after p = none → ∀ n, afterLoop h (n + p.length) u.addr = afterLoop h n t.addr) := by
  intro p
  induction p with
  | nil =>
    intro t u nx H hs
    have : t.erase.after [] = none := by cases t <;> rfl
    rw [this]
    refine ⟨by simp, fun _ n => ?_⟩
    cases t <;> simp only [AT.sub, Option.some.injEq] at hs <;> subst hs <;> rfl
  | cons i p ih =>
    intro t u nx H hs
    cases t with
    | tok => simp [AT.sub] at hs
    | node a id it kids =>
      simp only [AT.sub] at hs
      cases hk : kids[i]? with
      | none => rw [hk] at hs; simp at hs
      | some k =>
        rw [hk] at hs
        simp only [Option.bind_some] at hs
        obtain ⟨h1, h2⟩ := ih k u (H.kid hk) hs
        have hke : (AT.eraseL kids)[i]? = some k.erase := by
          rw [AT.eraseL_eq, List.getElem?_map, hk]; rfl
        simp only [AT.erase, PTree.after, hke, Option.bind_some, AT.eraseL_length]
        cases ha : k.erase.after p with
        | some q =>
          obtain ⟨v, hv, hn⟩ := h1 q ha
          refine ⟨?_, by simp⟩
          intro q' hq'
          simp only [Option.some.injEq] at hq'
          subst hq'
          refine ⟨v, by simp [AT.sub, hk, hv], fun n hn' => hn n (by simp at hn'; omega)⟩
        | none =>
          have h3 := h2 ha
          simp only
          by_cases hi : i + 1 < kids.length
          · rw [if_pos hi]
            refine ⟨?_, by simp⟩
            intro q' hq'
            simp only [Option.some.injEq] at hq'
            subst hq'
            have hk2 : kids[i + 1]? = some (kids[i + 1]'hi) := List.getElem?_eq_getElem hi
            refine ⟨kids[i + 1]'hi, by
              simp only [AT.sub, hk2, Option.bind_some], ?_⟩
            intro n hn
            obtain ⟨m, rfl⟩ : ∃ m, n = m + 1 + p.length := ⟨n - 1 - p.length, by simp at hn; omega⟩
            rw [h3, PT.afterLoop, H.kid_get hk]
            simp [nextOf, hk2]
          · rw [if_neg hi]
            refine ⟨by simp, fun _ n => ?_⟩
            have hk2 : kids[i + 1]? = none := by rw [List.getElem?_eq_none_iff]; omega
            have : n + (i :: p).length = n + 1 + p.length := by simp; omega
            rw [this, h3, PT.afterLoop, H.kid_get hk]
            simp [nextOf, hk2, AT.addr]

/-! ### Traversal -/

mutual
/-- The events of a traversal in the order documented. -/
def PTree.events : PTree → List Nat → List (TEv × List Nat)
  | .tok .., p => [(.leaf, p)]
  | .node _ _ kids, p => (.enter, p) :: (eventsL kids p 0 ++ [(.exit, p)])
def PTree.eventsL : List PTree → List Nat → Nat → List (TEv × List Nat)
  | [], _, _ => []
  | t :: ts, p, i => t.events (p ++ [i]) ++ eventsL ts p (i + 1)
end

mutual
def AT.events : AT → List (TEv × Addr)
  | .tok a .. => [(.leaf, a)]
  | .node a _ _ kids => (.enter, a) :: (eventsL kids ++ [(.exit, a)])
def AT.eventsL : List AT → List (TEv × Addr)
  | [] => []
  | t :: ts => t.events ++ eventsL ts
end

mutual
theorem AT.events_eq (loc : List Nat → Addr) : ∀ (t : AT) (p : List Nat),
    (∀ q u, t.sub q = some u → loc (p ++ q) = u.addr) →
    t.events = (t.erase.events p).map fun x => (x.1, loc x.2)
  | .tok a k b e, p, H => by
    have := H [] _ rfl
    simp only [List.append_nil] at this
    simp [AT.events, AT.erase, PTree.events, this, AT.addr]
  | .node a id it kids, p, H => by
    have := H [] _ rfl
    simp only [List.append_nil] at this
    simp only [AT.events, AT.erase, PTree.events, List.map_cons, List.map_append, this, AT.addr,
      List.map_nil]
    rw [AT.eventsL_eq loc kids p 0 ?_]
    intro i k hk q u hs
    have h2 := H (i :: q) u (by simp [AT.sub, hk, hs])
    simpa using h2
theorem AT.eventsL_eq (loc : List Nat → Addr) : ∀ (l : List AT) (p : List Nat) (i : Nat),
    (∀ j k, l[j]? = some k → ∀ q u, k.sub q = some u → loc (p ++ (i + j) :: q) = u.addr) →
    AT.eventsL l = (PTree.eventsL (AT.eraseL l) p i).map fun x => (x.1, loc x.2)
  | [], _, _, _ => rfl
  | t :: ts, p, i, H => by
    simp only [AT.eventsL, AT.eraseL, PTree.eventsL, List.map_append]
    rw [AT.events_eq loc t (p ++ [i]) ?_, AT.eventsL_eq loc ts p (i + 1) ?_]
    · intro j k hk q u hs
      have := H (j + 1) k (by simpa using hk) q u hs
      have e : i + 1 + j = i + (j + 1) := by omega
      rw [e]; exact this
    · intro q u hs
      have := H 0 t rfl q u hs
      simpa using this
end

/-- The first and the last event of a node. -/
def AT.start : AT → TEv × Addr
  | .tok a .. => (.leaf, a)
  | .node a .. => (.enter, a)
def AT.fin : AT → TEv × Addr
  | .tok a .. => (.leaf, a)
  | .node a .. => (.exit, a)

theorem AT.start_addr (t : AT) : t.start.2 = t.addr := by cases t <;> rfl
theorem AT.fin_addr (t : AT) : t.fin.2 = t.addr := by cases t <;> rfl

theorem IsNode.next_sibling {z : Sizes} {h : Heap} {t : AT} {nx : Option Addr × Bool}
    (H : IsNode z h t nx) {x : Addr} (hnx : nx = (some x, false)) {u : AT} {nu : Option Addr × Bool}
    (hu : h.get x = some ⟨nu.1, nu.2, u.data z⟩) (hx : u.addr = x) :
    travNext z h t.fin = some u.start := by
  have hg := H.get
  rw [hnx] at hg
  have hev : ∀ (ev : TEv) (a : Addr), t.fin = (ev, a) → ev ≠ .enter := by
    intro ev a he; cases t <;> simp [AT.fin] at he <;> rw [← he.1] <;> nofun
  cases ht : t.fin with
  | mk ev a =>
    have ha : a = t.addr := by rw [← AT.fin_addr, ht]
    subst ha
    have := hev ev _ ht
    cases ev with
    | enter => exact absurd rfl this
    | exit =>
      simp only [travNext, hg, Option.bind_some, Bool.false_eq_true, if_false, hu, Option.map_some]
      cases u <;> simp [AT.data, AT.start, AT.addr] at hx ⊢ <;> rw [hx]
    | leaf =>
      simp only [travNext, hg, Option.bind_some, Bool.false_eq_true, if_false, hu, Option.map_some]
      cases u <;> simp [AT.data, AT.start, AT.addr] at hx ⊢ <;> rw [hx]

theorem IsNode.next_parent {z : Sizes} {h : Heap} {t : AT} {nx : Option Addr × Bool}
    (H : IsNode z h t nx) {x : Addr} (hnx : nx = (some x, true)) :
    travNext z h t.fin = some (.exit, x) := by
  have hg := H.get
  rw [hnx] at hg
  cases t with
  | tok a k b e => simp only [AT.addr] at hg; simp [AT.fin, travNext, hg]
  | node a id it kids => simp only [AT.addr] at hg; simp [AT.fin, travNext, hg]

theorem travLoop_step {z : Sizes} {h : Heap} {stop it it' : TEv × Addr} {n : Nat} (hne : it ≠ stop)
    (hn : travNext z h it = some it') :
    travLoop z h stop (n + 1) it = (travLoop z h stop n it').map (it :: ·) := by
  rw [travLoop, if_neg hne, hn]; rfl

mutual
theorem IsNode.trav {z : Sizes} {h : Heap} {stop : TEv × Addr} : ∀ (t : AT) {nx : Option Addr × Bool},
    IsNode z h t nx → (∀ ev ∈ t.events, ev ≠ stop) → ∀ (nxt : TEv × Addr),
    travNext z h t.fin = some nxt → ∀ n,
    travLoop z h stop (n + t.events.length) t.start = (travLoop z h stop n nxt).map (t.events ++ ·)
  | .tok a k b e, nx, H, hs, nxt, hnxt, n => by
    simp only [AT.events, AT.start, List.length_singleton]
    exact travLoop_step (hs _ (by simp [AT.events])) hnxt
  | .node a id it kids, nx, H, hs, nxt, hnxt, n => by
    have hexit : ∀ n, travLoop z h stop (n + 1) (.exit, a) = (travLoop z h stop n nxt).map ((.exit, a) :: ·) :=
      fun n => travLoop_step (hs _ (by simp [AT.events])) hnxt
    have hent : (TEv.enter, a) ≠ stop := hs _ (by simp [AT.events])
    simp only [AT.events, AT.start, List.length_cons, List.length_append, List.length_nil]
    have hfc := H.firstChild
    have e1 : n + ((AT.eventsL kids).length + (0 + 1) + 1) = (n + 1 + (AT.eventsL kids).length) + 1 := by omega
    rw [e1]
    cases hk : kids with
    | nil =>
      rw [hk] at hfc
      have : travNext z h (.enter, a) = some (.exit, a) := by simp [travNext, hfc]
      rw [travLoop_step hent this]
      simp only [AT.eventsL, List.length_nil, Nat.add_zero, List.nil_append, hexit]
      cases travLoop z h stop n nxt <;> simp
    | cons k r =>
      have hk0 : kids[0]? = some k := by rw [hk]; rfl
      have hkg := (H.kid hk0).get
      have : travNext z h (.enter, a) = some k.start := by
        rw [hk] at hfc
        simp only [travNext, hfc, List.head?_cons, Option.map_some, Option.bind_some, hkg]
        cases k <;> rfl
      rw [travLoop_step hent this, ← hk]
      have := IsNode.travL (stop := stop) a kids kids 0
        (fun i l hl => by simpa using H.kid hl) (fun i l hl => by simpa using hl)
        (by omega) (fun ev hev => hs ev (by simp [AT.events, hev])) k (by rw [hk]; rfl) (n + 1)
      rw [this, hexit]
      cases travLoop z h stop n nxt <;> simp
theorem IsNode.travL {z : Sizes} {h : Heap} {stop : TEv × Addr} (a : Addr) : ∀ (l kids : List AT) (i : Nat),
    (∀ j k, l[j]? = some k → IsNode z h k (nextOf a kids (i + j))) →
    (∀ j k, l[j]? = some k → kids[i + j]? = some k) → kids.length = i + l.length →
    (∀ ev ∈ AT.eventsL l, ev ≠ stop) → ∀ k, l.head? = some k → ∀ n,
    travLoop z h stop (n + (AT.eventsL l).length) k.start
      = (travLoop z h stop n (.exit, a)).map (AT.eventsL l ++ ·)
  | [], _, _, _, _, _, _, k, hk, _ => by simp at hk
  | t :: ts, kids, i, H, hm, hlen, hs, k, hk, n => by
    simp only [List.head?_cons, Option.some.injEq] at hk
    subst hk
    have ht := H 0 t rfl
    have hs1 : ∀ ev ∈ t.events, ev ≠ stop := fun ev hev => hs ev (by simp [AT.eventsL, hev])
    simp only [AT.eventsL, List.length_append]
    have e1 : n + (t.events.length + (AT.eventsL ts).length) = (n + (AT.eventsL ts).length) + t.events.length := by omega
    rw [e1]
    cases hts : ts with
    | nil =>
      subst hts
      have hnx : nextOf a kids (i + 0) = (some a, true) := by
        have : kids[i + 0 + 1]? = none := by rw [List.getElem?_eq_none_iff]; simp at hlen; omega
        simp [nextOf, this]
      rw [IsNode.trav t ht hs1 _ (ht.next_parent hnx)]
      simp [AT.eventsL]
    | cons u r =>
      rw [← hts]
      have hu : kids[i + 0 + 1]? = some u := hm 1 u (by simp [hts])
      have hu2 := H 1 u (by simp [hts])
      have hnx : nextOf a kids (i + 0) = (some u.addr, false) := by simp only [nextOf, hu]
      rw [IsNode.trav t ht hs1 _ (ht.next_sibling hnx hu2.get rfl)]
      have := IsNode.travL (stop := stop) a ts kids (i + 1)
        (fun j k hk => by
          have := H (j + 1) k (by simpa using hk)
          have e : i + 1 + j = i + (j + 1) := by omega
          rw [e]; exact this)
        (fun j k hk => by
          have := hm (j + 1) k (by simpa using hk)
          have e : i + 1 + j = i + (j + 1) := by omega
          rw [e]; exact this)
        (by simp at hlen; omega)
        (fun ev hev => hs ev (by simp [AT.eventsL, hev])) u (by rw [hts]; rfl) n
      rw [this]
      cases travLoop z h stop n (.exit, a) <;> simp
end

mutual
theorem AT.events_addr (z : Sizes) : ∀ (t : AT), ∀ ev ∈ t.events, ev.2 ∈ AT.addrs z [t]
  | .tok a k b e, ev, h => by simp [AT.events] at h; simp [h, AT.addrs, AT.addr]
  | .node a id it kids, ev, h => by
    refine (addrs_node z a id it kids).mem_iff.2 ?_
    simp only [AT.events, List.mem_cons, List.mem_append, List.not_mem_nil, or_false] at h ⊢
    right
    rcases h with rfl | h | rfl
    · exact .inl rfl
    · exact .inr (AT.eventsL_addr z kids ev h)
    · exact .inl rfl
theorem AT.eventsL_addr (z : Sizes) : ∀ (l : List AT), ∀ ev ∈ AT.eventsL l, ev.2 ∈ AT.addrs z l
  | [], ev, h => by simp [AT.eventsL] at h
  | t :: ts, ev, h => by
    simp only [AT.eventsL, List.mem_append] at h
    rw [← List.singleton_append, AT.addrs_append]
    rcases h with h | h
    · exact .inl (AT.events_addr z t ev h)
    · exact .inr (AT.eventsL_addr z ts ev h)
end

mutual
theorem AT.events_length : ∀ (t : AT), t.events.length ≤ 2 * t.erase.size
  | .tok .. => by simp [AT.events, AT.erase, PTree.size]
  | .node a id it kids => by
    have := AT.eventsL_length kids
    simp only [AT.events, AT.erase, PTree.size, List.length_cons, List.length_append, List.length_nil]
    omega
theorem AT.eventsL_length : ∀ (l : List AT), (AT.eventsL l).length ≤ 2 * PTree.sizeL (AT.eraseL l)
  | [] => by simp [AT.eventsL]
  | t :: ts => by
    have h1 := AT.events_length t
    have h2 := AT.eventsL_length ts
    simp only [AT.eventsL, AT.eraseL, PTree.sizeL, List.length_append]
    omega
end

/-- The traversal of a node, if its next node is not below it. -/
theorem IsNode.traverse {z : Sizes} {h : Heap} {t : AT} {nx : Option Addr × Bool} (H : IsNode z h t nx)
    {nxt : TEv × Addr} (hn : travNext z h t.fin = some nxt) (hne : nxt.2 ∉ AT.addrs z [t])
    {n : Nat} (hlen : 2 * t.erase.size < n) : traverse z h n t.addr = some t.events := by
  have hr : travRange z h t.addr = some (t.start, nxt) := by
    unfold travRange
    rw [H.get]
    cases t with
    | tok a k b e =>
      simp only [AT.fin] at hn
      simp [AT.data, AT.addr, AT.start, hn]
    | node a id it kids =>
      simp only [AT.fin] at hn
      simp [AT.data, AT.addr, AT.start, hn]
  unfold PT.traverse
  rw [hr]
  simp only [Option.bind_some]
  have hl := t.events_length
  obtain ⟨m, rfl⟩ : ∃ m, n = (m + 1) + t.events.length := ⟨n - 1 - t.events.length, by omega⟩
  rw [IsNode.trav t H (fun ev hev he => hne (by rw [← he]; exact AT.events_addr z t ev hev)) nxt hn]
  simp [travLoop]

end Verif.PT
