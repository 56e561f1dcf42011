import Verif.ParseTreeRead

/-!
# C30, C31, C32, C34: parse trees

The specification of the builder is `Spec` (the documentation in
docs/content/reference/parse_tree.adoc), that of the accessors are functions on plain trees:
`PTree.sub` (following children), `PTree.size`, `PTree.height`, `PTree.events` (traversal),
`PTree.firstPos`, `PTree.after`, `PTree.leaves`.  A node is identified by the path of child indices
leading to it; `walk` follows such a path with `children()`.
-/

namespace Verif.PT

/-- `ops` is a well-formed sequence of builder operations describing `t`, and `T` is the tree made
    by the code; `lost` is the number of nodes below the children of cancelled nodes, and
    `[b, e)` the remaining input.  `fine` leaves out the operations listed at `Spec.Fine`. -/
structure Built (z : Sizes) (root : Info) (ops : List Op) (t : PTree) (lost b e : Nat) (T : Tree) :
    Prop where
  sizes : z.Ok
  notTransparent : root.transparent = false
  spec : ∃ st, Spec.run (Spec.init root) ops = some st ∧ Spec.finished st = some t ∧ st.lost = lost
  fine : Spec.FineRun (Spec.init root) ops
  built : build z root ops b e = some T

theorem build_stored {z : Sizes} (hz : z.Ok) {root : Info} (hr : root.transparent = false)
    {ops : List Op} {st : Spec.St} {t : PTree} (h1 : Spec.run (Spec.init root) ops = some st)
    (h2 : Spec.finished st = some t) (hf : Spec.FineRun (Spec.init root) ops) (b e : Nat) :
    ∃ T at' eof, build z root ops b e = some T ∧ Stored z T at' eof b e ∧ at'.erase = t
      ∧ T.size = t.size + st.lost ∧ T.depth = t.height := by
  obtain ⟨s, f, n1, n2, n3, n4⟩ := new_ok hz root hr
  have hinit : Spec.init root = ⟨[f].map GF.spec, 0⟩ := by
    rw [List.map_singleton, n3]; rfl
  rw [hinit] at h1 hf
  obtain ⟨s', f', r', lost', g1, g2, g3, g4⟩ := sim_run hz ops n2 h1 hf
  subst g3
  cases r' with
  | cons g r' => simp [Spec.finished] at h2
  | nil =>
    obtain ⟨T, t', eof, e1, e2, ⟨p, id, it, e3, e4⟩, e5, e6⟩ := finish_ok hz g2 b e
    have ht : t'.erase = t := by
      simp only [Spec.finished, List.map_cons, List.map_nil, spec_prod, e3, spec_kids] at h2
      cases htr : f'.spec.trans with
      | cons => rw [htr] at h2; simp at h2
      | nil =>
        rw [htr] at h2
        simp only [Option.map_some, Option.some.injEq] at h2
        rw [e4, ← h2]; rfl
    refine ⟨T, t', eof, by simp [build, n1, g1, e1], e2, ht, ?_, ?_⟩
    · rw [e5, ht]
    · rw [e6, ht]

theorem Built.stored {z : Sizes} {root : Info} {ops : List Op} {t : PTree} {lost b e : Nat} {T : Tree}
    (H : Built z root ops t lost b e T) :
    ∃ u eof, Stored z T u eof b e ∧ u.erase = t ∧ T.size = t.size + lost ∧ T.depth = t.height := by
  obtain ⟨st, h1, h2, rfl⟩ := H.spec
  obtain ⟨T', u, eof, g1, g2⟩ := build_stored H.sizes H.notTransparent h1 h2 H.fine b e
  rw [H.built] at g1
  cases g1
  exact ⟨u, eof, g2⟩

theorem Stored.isNode' {z : Sizes} {T : Tree} {t : AT} {eof : Addr} {b e : Nat}
    (H : Stored z T t eof b e) : IsNode z T.heap t (some eof, false) :=
  ⟨H.cells (t.addr, t.cell z (some eof, false)) (by simp), fun x hx => H.cells x (by simp [hx]), (List.nodup_cons.1 H.nodup).2⟩

theorem Stored.eof_get {z : Sizes} {T : Tree} {t : AT} {eof : Addr} {b e : Nat}
    (H : Stored z T t eof b e) : T.heap.get eof = some ⟨none, true, .tok eofKind b e⟩ := by
  rw [Heap.get, H.last]

/-- Where a node of the tree is. -/
theorem Built.node {z : Sizes} {root : Info} {ops : List Op} {t : PTree} {lost b e : Nat} {T : Tree}
    (H : Built z root ops t lost b e T) : ∃ u eof, Stored z T u eof b e ∧ u.erase = t
      ∧ IsNode z T.heap u (some eof, false) ∧ T.root = u.addr
      ∧ ∀ p v, t.sub p = some v → ∃ w, u.sub p = some w ∧ w.erase = v := by
  obtain ⟨u, eof, h1, h2, _⟩ := H.stored
  refine ⟨u, eof, h1, h2, h1.isNode', h1.root, ?_⟩
  intro p v hv
  rw [← h2, AT.sub_erase] at hv
  cases hs : u.sub p with
  | none => rw [hs] at hv; simp at hv
  | some w => rw [hs] at hv; simp at hv; exact ⟨w, rfl, hv⟩

/-! ### C30: construction -/

/-- Every well-formed sequence of operations gives a tree: no precondition of the code is violated
    (Only part: not for the operations left out by `Spec.Fine`.) -/
theorem C30_builds_partial {z : Sizes} (hz : z.Ok) {root : Info} (hr : root.transparent = false)
    {ops : List Op} {st : Spec.St} {t : PTree} (h1 : Spec.run (Spec.init root) ops = some st)
    (h2 : Spec.finished st = some t) (hf : Spec.FineRun (Spec.init root) ops) (b e : Nat) :
    ∃ T, build z root ops b e = some T ∧ Built z root ops t st.lost b e T := by
  obtain ⟨T, _, _, g, _⟩ := build_stored hz hr h1 h2 hf b e
  exact ⟨T, g, hz, hr, ⟨st, h1, h2, rfl⟩, hf, g⟩

/-- The tree read through `root()`, `kind()`, `token()` and `children()` is the one described. -/
theorem C30_tree_partial {z : Sizes} {root : Info} {ops : List Op} {t : PTree} {lost b e : Nat}
    {T : Tree} (H : Built z root ops t lost b e T) {n : Nat} (hn : t.size < n) :
    readTree z T.heap n T.root = some t := by
  obtain ⟨u, eof, h1, h2, h3, h4, _⟩ := H.node
  subst h2
  rw [h4]
  exact IsNode.read u h3 n hn

/-- The remaining input is the one given at the end. -/
theorem C30_remaining_partial {z : Sizes} {root : Info} {ops : List Op} {t : PTree} {lost b e : Nat}
    {T : Tree} (H : Built z root ops t lost b e T) : remainingInput T = some (b, e) := by
  obtain ⟨u, eof, h1, h2, h3, h4, _⟩ := H.node
  unfold remainingInput
  rw [h4, h3.get]
  simp [h1.eof_get]

/-- Different nodes have different addresses. -/
theorem C30_distinct_partial {z : Sizes} {root : Info} {ops : List Op} {t : PTree} {lost b e : Nat}
    {T : Tree} (H : Built z root ops t lost b e T) {p q : List Nat} {v w : PTree}
    (hp : t.sub p = some v) (hq : t.sub q = some w) {n : Nat} (hn : t.size ≤ n)
    (he : walk z T.heap n T.root p = walk z T.heap n T.root q) : p = q := by
  obtain ⟨u, eof, h1, h2, h3, h4, h5⟩ := H.node
  obtain ⟨v', hv, _⟩ := h5 p v hp
  obtain ⟨w', hw, _⟩ := h5 q w hq
  rw [h4, h3.walk p u v' (by rw [h2]; exact hn) hv, h3.walk q u w' (by rw [h2]; exact hn) hw] at he
  simp only [Option.some.injEq] at he
  exact h3.inj p q hv hw he

/-- `parent()`: the parent of a child is the node it is a child of, that of the root the root. -/
theorem C30_parent_partial {z : Sizes} {root : Info} {ops : List Op} {t : PTree} {lost b e : Nat}
    {T : Tree} (H : Built z root ops t lost b e T) {n : Nat} (hn : t.size ≤ n) :
    parent T.heap n T.root = some T.root
    ∧ ∀ p i v, t.sub (p ++ [i]) = some v → ∃ a, walk z T.heap n T.root (p ++ [i]) = some a
        ∧ isRoot T.heap a = some false ∧ parent T.heap n a = walk z T.heap n T.root p := by
  obtain ⟨u, eof, h1, h2, h3, h4, h5⟩ := H.node
  subst h2
  constructor
  · have : isRoot T.heap T.root = some true := by
      rw [h4, isRoot, h3.get]
      simp [h1.eof_get]
    unfold parent
    rw [this]; rfl
  · intro p i v hv
    obtain ⟨w, hw, _⟩ := h5 _ _ hv
    have hw2 := hw
    rw [AT.sub_append] at hw2
    cases hp : u.sub p with
    | none => rw [hp] at hw2; simp at hw2
    | some x =>
      rw [hp] at hw2
      simp only [Option.bind_some] at hw2
      cases x with
      | tok => simp [AT.sub] at hw2
      | node a id it kids =>
        simp only [AT.sub] at hw2
        cases hk : kids[i]? with
        | none => rw [hk] at hw2; simp at hw2
        | some k =>
          rw [hk] at hw2
          have hkw : k = w := by cases k <;> simpa [AT.sub] using hw2
          subst hkw
          have hX := h3.sub p hp
          have hlt := Nat.lt_of_lt_of_le AT.kids_lt (AT.sub_size p u _ hp)
          have hroot : isRoot T.heap k.addr = some false := by
            rw [isRoot, hX.kid_get hk]
            simp only [Option.bind_some, nextOf]
            cases hk2 : kids[i + 1]? with
            | some k2 =>
              simp only [Option.bind_some, hX.kid_get hk2, Option.map_some, Option.some.injEq]
              unfold nextOf
              cases kids[i + 1 + 1]? <;> rfl
            | none =>
              have hg := hX.get
              simp only [AT.addr] at hg
              simp only [Option.bind_some, hg, Option.map_some, Option.some.injEq]
              cases hpp : p.reverse with
              | nil =>
                have : p = [] := by simpa using hpp
                subst this
                cases u <;> simp [nextAt]
              | cons j q =>
                have hpq : p = q.reverse ++ [j] := by
                  have := congrArg List.reverse hpp
                  simpa using this
                rw [hpq, AT.sub_append] at hp
                cases hq : u.sub q.reverse with
                | none => rw [hq] at hp; simp at hp
                | some y =>
                  rw [hq] at hp
                  simp only [Option.bind_some] at hp
                  cases y with
                  | tok => simp [AT.sub] at hp
                  | node a' id' it' kids' =>
                    simp only [AT.sub] at hp
                    cases hj : kids'[j]? with
                    | none => rw [hj] at hp; simp at hp
                    | some k' =>
                      rw [hpq, nextAt_snoc _ j u _ a' id' it' kids' hq (getElem?_lt hj)]
                      unfold nextOf
                      cases kids'[j + 1]? <;> rfl
          refine ⟨k.addr, by rw [h4]; exact h3.walk _ u k hn hw, hroot, ?_⟩
          unfold parent
          rw [hroot]
          simp only [Option.bind_some, Bool.false_eq_true, if_false]
          rw [h4, h3.walk p u _ hn hp]
          exact hX.upLoop n i k (by omega) hk

/-- `is_root()` only of the root. -/
theorem C30_is_root_partial {z : Sizes} {root : Info} {ops : List Op} {t : PTree} {lost b e : Nat}
    {T : Tree} (H : Built z root ops t lost b e T) : isRoot T.heap T.root = some true := by
  obtain ⟨u, eof, h1, h2, h3, h4, h5⟩ := H.node
  rw [h4, isRoot, h3.get]
  simp [h1.eof_get]

/-- `is_last_child()`. -/
theorem C30_is_last_child_partial {z : Sizes} {root : Info} {ops : List Op} {t : PTree}
    {lost b e : Nat} {T : Tree} (H : Built z root ops t lost b e T) {n : Nat} (hn : t.size ≤ n)
    {p : List Nat} {i id : Nat} {it : Bool} {kids : List PTree} (hp : t.sub p = some (.node id it kids))
    (hi : i < kids.length) : ∃ a, walk z T.heap n T.root (p ++ [i]) = some a
      ∧ isLastChild T.heap a = some (decide (i + 1 = kids.length)) := by
  obtain ⟨u, eof, h1, h2, h3, h4, h5⟩ := H.node
  subst h2
  obtain ⟨x, hx, hxe⟩ := h5 _ _ hp
  cases x with
  | tok => simp [AT.erase] at hxe
  | node a id' it' ks =>
    simp only [AT.erase, PTree.node.injEq] at hxe
    have hlen : ks.length = kids.length := by rw [← hxe.2.2, AT.eraseL_length]
    have hX := h3.sub p hx
    have hk : ks[i]? = some (ks[i]'(by omega)) := List.getElem?_eq_getElem (by omega)
    have hs : u.sub (p ++ [i]) = some (ks[i]'(by omega)) := by
      rw [AT.sub_append, hx]
      simp only [Option.bind_some, AT.sub, hk]
    refine ⟨_, by rw [h4]; exact h3.walk _ u _ hn hs, ?_⟩
    unfold isLastChild
    rw [hX.kid_get hk]
    simp only [Option.map_some, nextOf, Option.some.injEq]
    cases hk2 : ks[i + 1]? with
    | none =>
      have : ks.length ≤ i + 1 := by rw [List.getElem?_eq_none_iff] at hk2; exact hk2
      simp; omega
    | some k2 =>
      have := getElem?_lt hk2
      simp; omega

/-! ### C31: size and depth -/

/-- `depth()` is the depth of the tree. -/
theorem C31_depth_partial {z : Sizes} {root : Info} {ops : List Op} {t : PTree} {lost b e : Nat}
    {T : Tree} (H : Built z root ops t lost b e T) : T.depth = t.height := by
  obtain ⟨_, _, _, _, _, h⟩ := H.stored
  exact h

/-- `size()` is the number of nodes plus that of the nodes below the children of cancelled nodes. -/
theorem C31_size_partial {z : Sizes} {root : Info} {ops : List Op} {t : PTree} {lost b e : Nat}
    {T : Tree} (H : Built z root ops t lost b e T) : T.size = t.size + lost := by
  obtain ⟨_, _, _, _, h, _⟩ := H.stored
  exact h

theorem lost_of_no_cancel : ∀ (ops : List Op) (st st' : Spec.St), Spec.run st ops = some st' →
    (∀ op ∈ ops, op ≠ .cancelProd ∧ op ≠ .cancelCont) → st'.lost = st.lost := by
  intro ops
  induction ops with
  | nil => intro st st' h _; simp [Spec.run] at h; rw [h]
  | cons op ops ih =>
    intro st st' h hno
    simp only [Spec.run] at h
    cases h1 : Spec.step st op with
    | none => rw [h1] at h; simp at h
    | some s1 =>
      rw [h1] at h
      rw [ih s1 st' h fun o ho => hno o (by simp [ho])]
      have hn := hno op (by simp)
      cases op with
      | cancelProd => exact absurd rfl hn.1
      | cancelCont => exact absurd rfl hn.2
      | _ =>
        simp only [Spec.step] at h1
        repeat' split at h1
        all_goals first
          | (simp only [Option.some.injEq] at h1; rw [← h1])
          | simp at h1

/-- Without cancelling, `size()` is the number of nodes. -/
theorem C31_size_exact_partial {z : Sizes} {root : Info} {ops : List Op} {t : PTree} {lost b e : Nat}
    {T : Tree} (H : Built z root ops t lost b e T)
    (hno : ∀ op ∈ ops, op ≠ .cancelProd ∧ op ≠ .cancelCont) : T.size = t.size := by
  obtain ⟨st, h1, _, h3⟩ := H.spec
  have := lost_of_no_cancel ops _ st h1 hno
  have h4 := C31_size_partial H
  rw [← h3, this] at h4
  exact h4

/-! ### C32: traversal and siblings -/

theorem Built.next_ok {z : Sizes} {T : Tree} {u w : AT} {eof : Addr} {b e : Nat}
    (h1 : Stored z T u eof b e) (h3 : IsNode z T.heap u (some eof, false)) {p : List Nat}
    (hw : u.sub p = some w) :
    ∃ nxt, travNext z T.heap w.fin = some nxt ∧ nxt.2 ∉ AT.addrs z [w] := by
  have hW := h3.sub p hw
  cases hpp : p.reverse with
  | nil =>
    have : p = [] := by simpa using hpp
    subst this
    have hwu : w = u := by cases u <;> simpa [AT.sub] using hw.symm
    subst hwu
    have := h1.nodup
    rw [List.nodup_cons] at this
    refine ⟨_, h3.next_sibling (u := .tok eof eofKind b e) (nu := (none, true)) rfl h1.eof_get rfl, ?_⟩
    rw [AT.start_addr]
    exact this.1
  | cons j q =>
    have hpq : p = q.reverse ++ [j] := by
      have := congrArg List.reverse hpp
      simpa using this
    subst hpq
    have hw2 := hw
    rw [AT.sub_append] at hw2
    cases hq : u.sub q.reverse with
    | none => rw [hq] at hw2; simp at hw2
    | some y =>
      rw [hq] at hw2
      simp only [Option.bind_some] at hw2
      cases y with
      | tok => simp [AT.sub] at hw2
      | node a id it kids =>
        simp only [AT.sub] at hw2
        cases hk : kids[j]? with
        | none => rw [hk] at hw2; simp at hw2
        | some k =>
          rw [hk] at hw2
          have hkw : k = w := by cases k <;> simpa [AT.sub] using hw2
          subst hkw
          have hY := h3.sub _ hq
          rw [nextAt_snoc _ j u _ a id it kids hq (getElem?_lt hk)] at hW
          cases hk2 : kids[j + 1]? with
          | none =>
            have hnx : nextOf a kids j = (some a, true) := by simp [nextOf, hk2]
            refine ⟨_, hW.next_parent hnx, ?_⟩
            intro hm
            exact hY.parts.1 (AT.addrs_mem (List.mem_of_getElem? hk) hm)
          | some k2 =>
            have hnx : nextOf a kids j = (some k2.addr, false) := by simp [nextOf, hk2]
            refine ⟨_, hW.next_sibling hnx (hY.kid_get hk2) rfl, ?_⟩
            rw [AT.start_addr]
            intro hm
            have h3 := (addrs_flat z kids).nodup_iff.1 hY.parts.2
            have := (nodup_flat_mem h3).2 (j + 1) j k2 k k2.addr hk2 hk (k2.addr_mem z) hm
            omega

/-- `traverse(node)` visits the node and everything below in order: a production is entered before
    and exited after its children, a token is a leaf.  The nodes are identified by their paths. -/
theorem C32_traverse_partial {z : Sizes} {root : Info} {ops : List Op} {t : PTree} {lost b e : Nat}
    {T : Tree} (H : Built z root ops t lost b e T) {n : Nat} (hn : 2 * t.size < n)
    {p : List Nat} {v : PTree} (hv : t.sub p = some v) :
    ∃ a l, walk z T.heap n T.root p = some a ∧ traverse z T.heap n a = some l
      ∧ l.map (fun x => (x.1, some x.2))
        = (v.events p).map (fun x => (x.1, walk z T.heap n T.root x.2)) := by
  obtain ⟨u, eof, h1, h2, h3, h4, h5⟩ := H.node
  subst h2
  obtain ⟨w, hw, rfl⟩ := h5 _ _ hv
  obtain ⟨nxt, hx1, hx2⟩ := Built.next_ok h1 h3 hw
  have hsz := AT.sub_size p u w hw
  refine ⟨w.addr, w.events, by rw [h4]; exact h3.walk p u w (by omega) hw,
    (h3.sub p hw).traverse hx1 hx2 (by omega), ?_⟩
  have := AT.events_eq (fun q => (walk z T.heap n T.root q).getD (0, 0)) w p (by
    intro q x hq
    have hs : u.sub (p ++ q) = some x := by rw [AT.sub_append, hw]; exact hq
    rw [h4, h3.walk (p ++ q) u x (by omega) hs]
    rfl)
  have hdef : ∀ x ∈ w.erase.events p, ∃ q x', x.2 = p ++ q ∧ w.sub q = some x' := by
    have key : ∀ (m : Nat) (y : AT) (p : List Nat), y.erase.size ≤ m → ∀ x ∈ y.erase.events p,
        ∃ q x', x.2 = p ++ q ∧ y.sub q = some x' := by
      intro m
      induction m with
      | zero => intro y _ hy; have := y.erase.size_pos; omega
      | succ m ih =>
        intro y p hy x hx
        cases y with
        | tok => simp [AT.erase, PTree.events] at hx; exact ⟨[], _, by simp [hx], rfl⟩
        | node a id it kids =>
          simp only [AT.erase, PTree.events, List.mem_cons, List.mem_append, List.not_mem_nil,
            or_false] at hx
          rcases hx with rfl | hx | rfl
          · exact ⟨[], _, by simp, rfl⟩
          · have lem : ∀ (l : List AT) (i : Nat), (∀ k ∈ l, k.erase.size ≤ m) →
                x ∈ PTree.eventsL (AT.eraseL l) p i →
                ∃ j k q x', l[j]? = some k ∧ x.2 = p ++ (i + j) :: q ∧ k.sub q = some x' := by
              intro l
              induction l with
              | nil => intro i _ hx; simp [AT.eraseL, PTree.eventsL] at hx
              | cons k l ihl =>
                intro i hsz hx
                simp only [AT.eraseL, PTree.eventsL, List.mem_append] at hx
                rcases hx with hx | hx
                · obtain ⟨q, x', e1, e2⟩ := ih k (p ++ [i]) (hsz k (by simp)) x hx
                  exact ⟨0, k, q, x', rfl, by rw [e1]; simp, e2⟩
                · obtain ⟨j, k', q, x', e1, e2, e3⟩ := ihl (i + 1) (fun k hk => hsz k (by simp [hk])) hx
                  refine ⟨j + 1, k', q, x', by simpa using e1, ?_, e3⟩
                  rw [e2]
                  have : i + 1 + j = i + (j + 1) := by omega
                  rw [this]
            obtain ⟨j, k, q, x', e1, e2, e3⟩ := lem kids 0 (by
              intro k hk
              obtain ⟨i, hi⟩ := List.mem_iff_getElem?.1 hk
              have := AT.kid_size hi
              simp only [AT.erase, PTree.size] at hy
              omega) hx
            exact ⟨j :: q, x', by simpa using e2, by simp [AT.sub, e1, e3]⟩
          · exact ⟨[], _, by simp, rfl⟩
    exact key _ w p (Nat.le_refl _)
  rw [this, List.map_map]
  refine List.map_congr_left fun x hx => ?_
  obtain ⟨q, x', e1, e2⟩ := hdef x hx
  have hs : u.sub (p ++ q) = some x' := by rw [AT.sub_append, hw]; exact e2
  simp only [Function.comp]
  rw [h4, e1, h3.walk (p ++ q) u x' (by omega) hs]
  rfl

/-- `siblings()` visits all other children of the parent, beginning with the next one and going
    around. -/
theorem C32_siblings_partial {z : Sizes} {root : Info} {ops : List Op} {t : PTree} {lost b e : Nat}
    {T : Tree} (H : Built z root ops t lost b e T) {n : Nat} (hn : t.size ≤ n)
    {p : List Nat} {i id : Nat} {it : Bool} {kids : List PTree} (hp : t.sub p = some (.node id it kids))
    (hi : i < kids.length) : ∃ a l, walk z T.heap n T.root (p ++ [i]) = some a
      ∧ siblings z T.heap n a = some l
      ∧ l.map some = (((List.range kids.length).drop (i + 1) ++ (List.range kids.length).take i).map
          fun j => walk z T.heap n T.root (p ++ [j])) := by
  obtain ⟨u, eof, h1, h2, h3, h4, h5⟩ := H.node
  subst h2
  obtain ⟨x, hx, hxe⟩ := h5 _ _ hp
  cases x with
  | tok => simp [AT.erase] at hxe
  | node a id' it' ks =>
    simp only [AT.erase, PTree.node.injEq] at hxe
    have hlen : ks.length = kids.length := by rw [← hxe.2.2, AT.eraseL_length]
    have hX := h3.sub p hx
    have hsub : ∀ j (hj : j < ks.length), walk z T.heap n T.root (p ++ [j]) = some (ks[j]'hj).addr := by
      intro j hj
      have hs : u.sub (p ++ [j]) = some (ks[j]'hj) := by
        rw [AT.sub_append, hx]
        simp only [Option.bind_some, AT.sub, List.getElem?_eq_getElem hj]
      rw [h4]; exact h3.walk _ u _ hn hs
    have hk : ks[i]? = some (ks[i]'(by omega)) := List.getElem?_eq_getElem (by omega)
    have hkl := Nat.lt_of_lt_of_le AT.kids_lt (AT.sub_size p u _ hx)
    refine ⟨_, _, hsub i (by omega), hX.siblings hk (by omega), ?_⟩
    have key : ks.map (fun k => some k.addr)
        = (List.range kids.length).map fun j => walk z T.heap n T.root (p ++ [j]) := by
      apply List.ext_getElem?
      intro j
      rw [List.getElem?_map, List.getElem?_map]
      by_cases hj : j < ks.length
      · rw [List.getElem?_eq_getElem hj, List.getElem?_range (by omega)]
        simp [hsub j hj]
      · rw [List.getElem?_eq_none (by omega), List.getElem?_eq_none (by simp; omega)]
        rfl
    rw [List.map_map, List.map_append, List.map_append]
    have key' : ks.map (some ∘ AT.addr)
        = (List.range kids.length).map fun j => walk z T.heap n T.root (p ++ [j]) := key
    rw [List.map_drop, List.map_drop, List.map_take, List.map_take, key']

/-! ### Positions -/

/-- `position()` is the beginning of the first token; it is undefined behavior if following first
    children ends in a production without children. -/
theorem C34_position_partial {z : Sizes} {root : Info} {ops : List Op} {t : PTree} {lost b e : Nat}
    {T : Tree} (H : Built z root ops t lost b e T) {n : Nat} (hn : t.size ≤ n)
    {p : List Nat} {v : PTree} (hv : t.sub p = some v) :
    ∃ a, walk z T.heap n T.root p = some a ∧ position z T.heap n a = v.firstPos := by
  obtain ⟨u, eof, h1, h2, h3, h4, h5⟩ := H.node
  subst h2
  obtain ⟨w, hw, rfl⟩ := h5 _ _ hv
  have := AT.sub_size p u w hw
  exact ⟨w.addr, by rw [h4]; exact h3.walk p u w hn hw, (h3.sub p hw).position n w (by omega)⟩

theorem AT.sub_length : ∀ (p : List Nat) (t u : AT), t.sub p = some u → p.length < t.erase.size := by
  intro p
  induction p with
  | nil => intro t u _; exact t.erase.size_pos
  | cons i p ih =>
    intro t u hs
    cases t with
    | tok => simp [AT.sub] at hs
    | node a id it kids =>
      simp only [AT.sub] at hs
      cases hk : kids[i]? with
      | none => rw [hk] at hs; simp at hs
      | some k =>
        rw [hk] at hs
        have h1 := ih k u hs
        have h2 := AT.kid_size hk
        simp only [AT.erase, PTree.size, List.length_cons]; omega

/-- `covering_lexeme()` of a production: from the position of its first token to the position of
    what follows it in the tree, or the remaining input. -/
theorem C34_covering_lexeme_partial {z : Sizes} {root : Info} {ops : List Op} {t : PTree}
    {lost b e : Nat} {T : Tree} (H : Built z root ops t lost b e T) {n : Nat} (hn : t.size < n)
    {p : List Nat} {id : Nat} {it : Bool} {kids : List PTree} (hv : t.sub p = some (.node id it kids)) :
    ∃ a, walk z T.heap n T.root p = some a ∧ coveringLexeme z T.heap n a
      = (PTree.node id it kids).firstPos.bind fun x =>
        ((match t.after p with
          | some q => (t.sub q).bind PTree.firstPos
          | none => some b).map fun y => (x, y)) := by
  obtain ⟨u, eof, h1, h2, h3, h4, h5⟩ := H.node
  subst h2
  obtain ⟨w, hw, hwe⟩ := h5 _ _ hv
  have hsz := AT.sub_size p u w hw
  have hpl := AT.sub_length p u w hw
  have hW := h3.sub p hw
  refine ⟨w.addr, by rw [h4]; exact h3.walk p u w (by omega) hw, ?_⟩
  cases w with
  | tok => simp [AT.erase] at hwe
  | node a id' it' ks =>
    rw [← hwe]
    have hpos := hW.position n _ (by omega)
    have hg := hW.get
    simp only [AT.addr] at hpos hg
    unfold coveringLexeme
    simp only [AT.addr, hg, Option.bind_some, AT.data, hpos]
    congr 1
    funext x
    obtain ⟨k1, k2⟩ := h3.afterLoop p u _ hw
    cases ha : u.erase.after p with
    | some q =>
      obtain ⟨v, hv1, hv2⟩ := k1 q ha
      have : PT.afterLoop T.heap n a = some v.addr := hv2 n (by omega)
      rw [this]
      have hvs := AT.sub_size q u v hv1
      simp only [Option.bind_some]
      rw [(h3.sub q hv1).position n v (by omega), AT.sub_erase, hv1]
      rfl
    | none =>
      have hk := k2 ha
      obtain ⟨m, rfl⟩ : ∃ m, n = (m + 1) + p.length := ⟨n - 1 - p.length, by omega⟩
      have : PT.afterLoop T.heap (m + 1 + p.length) a = PT.afterLoop T.heap (m + 1) u.addr := hk (m + 1)
      rw [this]
      have : afterLoop T.heap (m + 1) u.addr = some eof := by
        rw [PT.afterLoop, h3.get]; rfl
      rw [this]
      simp only [Option.bind_some]
      have hp : position z T.heap (m + 1 + p.length) eof = some b := by
        have : m + 1 + p.length = (m + p.length) + 1 := by omega
        rw [this, PT.position, h1.eof_get]; rfl
      rw [hp]

/-! ### C34: tokens -/

mutual
/-- The tokens of a tree from left to right. -/
def PTree.leaves : PTree → List (Nat × Nat × Nat)
  | .tok k b e => [(k, b, e)]
  | .node _ _ kids => leavesL kids
def PTree.leavesL : List PTree → List (Nat × Nat × Nat)
  | [] => []
  | t :: ts => t.leaves ++ leavesL ts
end

/-- The content of a token. -/
def tokenOf (h : Heap) (a : Addr) : Option (Nat × Nat × Nat) :=
  (h.get a).bind fun n => match n.data with
    | .tok k b e => some (k, b, e)
    | _ => none

mutual
theorem IsNode.leaves {z : Sizes} {h : Heap} : ∀ (t : AT) {nx : Option Addr × Bool}, IsNode z h t nx →
    (((t.events.filter (·.1 = .leaf)).map (·.2)).map (tokenOf h)) = t.erase.leaves.map some
  | .tok a k b e, nx, H => by
    have := H.get
    simp only [AT.addr] at this
    simp [AT.events, AT.erase, PTree.leaves, tokenOf, this, AT.data]
  | .node a id it kids, nx, H => by
    have := IsNode.leavesL kids fun k hk => by
      obtain ⟨i, hi⟩ := List.mem_iff_getElem?.1 hk
      exact ⟨_, H.kid hi⟩
    simpa [AT.events, AT.erase, PTree.leaves] using this
theorem IsNode.leavesL {z : Sizes} {h : Heap} : ∀ (l : List AT), (∀ k ∈ l, ∃ nx, IsNode z h k nx) →
    ((((AT.eventsL l).filter (·.1 = .leaf)).map (·.2)).map (tokenOf h)) = (PTree.leavesL (AT.eraseL l)).map some
  | [], _ => rfl
  | t :: ts, H => by
    obtain ⟨nx, hnx⟩ := H t (by simp)
    have h1 := IsNode.leaves t hnx
    have h2 := IsNode.leavesL ts fun k hk => H k (by simp [hk])
    simp only [AT.eventsL, AT.eraseL, PTree.leavesL, List.filter_append, List.map_append, h1, h2]
end

/-- `tokens(tree, node)` enumerates the tokens below a node from left to right. -/
theorem C34_tokens_partial {z : Sizes} {root : Info} {ops : List Op} {t : PTree} {lost b e : Nat}
    {T : Tree} (H : Built z root ops t lost b e T) {n : Nat} (hn : 2 * t.size < n)
    {p : List Nat} {v : PTree} (hv : t.sub p = some v) :
    ∃ a l, walk z T.heap n T.root p = some a ∧ tokens z T.heap n a = some l
      ∧ l.map (tokenOf T.heap) = v.leaves.map some := by
  obtain ⟨u, eof, h1, h2, h3, h4, h5⟩ := H.node
  subst h2
  obtain ⟨w, hw, rfl⟩ := h5 _ _ hv
  obtain ⟨nxt, hx1, hx2⟩ := Built.next_ok h1 h3 hw
  have hsz := AT.sub_size p u w hw
  refine ⟨w.addr, _, by rw [h4]; exact h3.walk p u w (by omega) hw, ?_, IsNode.leaves w (h3.sub p hw)⟩
  unfold tokens
  rw [(h3.sub p hw).traverse hx1 hx2 (by omega)]
  rfl

/-- The tokens are adjacent, from `b` to `e`. -/
def Adjacent : Nat → List (Nat × Nat × Nat) → Nat → Prop
  | b, [], e => b = e
  | b, (_, b', e') :: r, e => b' = b ∧ b' ≤ e' ∧ Adjacent e' r e

theorem find_adjacent : ∀ (l : List (Nat × Nat × Nat)) (b e p : Nat), Adjacent b l e → b ≤ p → p < e →
    ∃ x, l.find? (fun x => decide (p < x.2.2)) = some x ∧ x.2.1 ≤ p ∧ p < x.2.2 := by
  intro l
  induction l with
  | nil => intro b e p h h1 h2; simp only [Adjacent] at h; omega
  | cons y l ih =>
    intro b e p h h1 h2
    obtain ⟨k, b', e'⟩ := y
    obtain ⟨g1, g2, g3⟩ := h
    by_cases hp : p < e'
    · exact ⟨(k, b', e'), by simp [hp], by simp only; omega, hp⟩
    · obtain ⟨x, e1, e2⟩ := ih e' e p g3 (by omega) h2
      exact ⟨x, by simp [hp, e1], e2⟩

theorem find_map {α β : Type} {f : α → Option β} {P : β → Bool} {Q : α → Bool} :
    ∀ (l : List α) (m : List β), l.map f = m.map some → (∀ a b, f a = some b → Q a = P b) →
    ∀ x, m.find? P = some x → ∃ a, l.find? Q = some a ∧ f a = some x := by
  intro l
  induction l with
  | nil => intro m h _ x hx; cases m with
    | nil => simp at hx
    | cons => simp at h
  | cons a l ih =>
    intro m h hq x hx
    cases m with
    | nil => simp at h
    | cons y m =>
      simp only [List.map_cons, List.cons.injEq] at h
      simp only [List.find?_cons] at hx ⊢
      rw [hq a y h.1]
      cases hP : P y with
      | true => rw [hP] at hx; simp at hx; subst hx; exact ⟨a, rfl, h.1⟩
      | false =>
        rw [hP] at hx
        simp only [Bool.false_eq_true, if_false] at hx ⊢
        exact ih m h.2 hq x hx

/-- `find_covering_node(tree, position)` is a token whose range contains the position, if the tokens
    are adjacent and the position is in the part of the input they cover. -/
theorem C34_find_covering_partial {z : Sizes} {root : Info} {ops : List Op} {t : PTree}
    {lost b e : Nat} {T : Tree} (H : Built z root ops t lost b e T) {n : Nat} (hn : 2 * t.size < n)
    {b' e' p : Nat} (hadj : Adjacent b' t.leaves e') (h1 : b' ≤ p) (h2 : p < e') :
    ∃ a k x y, findCovering z T n p = some a ∧ tokenOf T.heap a = some (k, x, y)
      ∧ (k, x, y) ∈ t.leaves ∧ x ≤ p ∧ p < y := by
  obtain ⟨a, l, e1, e2, e3⟩ := C34_tokens_partial H hn (p := []) (v := t) (by cases t <;> rfl)
  simp only [walk, Option.some.injEq] at e1
  subst e1
  obtain ⟨x, hx, hx1, hx2⟩ := find_adjacent t.leaves b' e' p hadj h1 h2
  have hmem := List.mem_of_find?_eq_some hx
  obtain ⟨a, ha, hax⟩ := find_map (f := tokenOf T.heap) (P := fun x => decide (p < x.2.2))
    (Q := fun a => match T.heap.get a with
      | some ⟨_, _, .tok _ _ e⟩ => p < e
      | _ => false) l t.leaves e3 (by
      intro a y hy
      unfold tokenOf at hy
      cases hg : T.heap.get a with
      | none => rw [hg] at hy; simp at hy
      | some nd =>
        rw [hg] at hy
        obtain ⟨n1, n2, d⟩ := nd
        cases d with
        | tok k b e => simp at hy; subst hy; simp
        | prod => simp at hy) x hx
  obtain ⟨k, x1, x2⟩ := x
  refine ⟨a, k, x1, x2, ?_, hax, hmem, hx1, hx2⟩
  unfold findCovering
  rw [e2]
  exact ha

/-! ### Examples -/

namespace Ex

def root : Info := ⟨0, false, false⟩

/-- A production with a token production, a container that becomes a production, a transparent
    production, a cancelled production and container, and merged error tokens. -/
def ops : List Op :=
  [.startProd ⟨1, true, false⟩, .token 7 0 2, .finishProd,
   .token errorKind 2 3, .token errorKind 3 5, .token errorKind 5 5,
   .startCont, .token 8 5 6, .startProd ⟨2, false, true⟩, .token 9 6 7, .finishProd,
   .setCont ⟨3, false, false⟩, .token 10 7 8, .setCont ⟨4, false, false⟩, .finishCont,
   .startProd ⟨5, false, false⟩, .token 11 8 9, .startProd ⟨6, false, false⟩, .token 11 9 10,
   .finishProd, .cancelProd,
   .startCont, .token 11 8 9, .cancelCont,
   .startProd ⟨5, false, false⟩, .token 12 8 10, .finishProd]

def tree : PTree :=
  .node 0 false
    [.node 1 true [.tok 7 0 2], .tok errorKind 2 5,
     .node 4 false [.node 3 false [.tok 8 5 6, .tok 9 6 7], .tok 10 7 8],
     .node 5 false [.tok 12 8 10]]

/-- Blocks so small that nearly every node needs a new one. -/
def small : Sizes := ⟨24, 24, 8, 40⟩

theorem small_ok : small.Ok := by constructor <;> decide

theorem ops_spec : ∃ st, Spec.run (Spec.init root) ops = some st ∧ Spec.finished st = some tree
    ∧ st.lost = 1 := ⟨_, rfl, rfl, rfl⟩

theorem ops_fine : Spec.FineRun (Spec.init root) ops := by
  simp [ops, Spec.FineRun, Spec.Fine, Spec.step, Spec.init, root, Spec.addToken, ignoreIfEmpty,
    errorKind, unknownKind, whitespaceKind]
  rintro f r k ts rfl rfl h
  simp at h

/-- The hypotheses of the theorems hold for it, with blocks of any size that is possible. -/
theorem built (z : Sizes) (hz : z.Ok) : ∃ T, Built z root ops tree 1 10 12 T := by
  obtain ⟨st, h1, h2, h3⟩ := ops_spec
  obtain ⟨T, _, h⟩ := C30_builds_partial hz rfl h1 h2 ops_fine 10 12
  rw [h3] at h
  exact ⟨T, h⟩

example : ((build small root ops 10 12).bind fun T => readTree small T.heap 20 T.root) = some tree := by
  decide +kernel
example : ((build .x64 root ops 10 12).bind fun T => readTree .x64 T.heap 20 T.root) = some tree := by
  decide +kernel
/-- `[2, 0]` is production 3, `[2, 0, 1]` its last token, `[2, 1]` the token after it. -/
example : ((build .x64 root ops 10 12).bind fun T => (walk .x64 T.heap 20 T.root [2, 0]).bind fun a =>
    (coveringLexeme .x64 T.heap 20 a)) = some (5, 7) := by decide +kernel
example : tree.after [2, 0] = some [2, 1] := by decide +kernel
example : ((build small root ops 10 12).bind fun T => (walk small T.heap 20 T.root [2]).bind fun a =>
    (traverse small T.heap 40 a).map (·.map (·.1)))
    = some [.enter, .enter, .leaf, .leaf, .exit, .leaf, .exit] := by decide +kernel
example : (tree.sub [2]).map (fun t => (t.events [2]).map (·.2))
    = some [[2], [2, 0], [2, 0, 0], [2, 0, 1], [2, 0], [2, 1], [2]] := by decide +kernel
example : ((build small root ops 10 12).bind fun T => (findCovering small T 40 4).bind fun a =>
    tokenOf T.heap a) = some (errorKind, 2, 5) := by decide +kernel
example : Adjacent 0 tree.leaves 10 := by simp [tree, PTree.leaves, PTree.leavesL, Adjacent]
example : ((build .x64 root ops 10 12).map fun T => (T.size, T.depth)) = some (12, 3) := by decide +kernel
example : (tree.size, tree.height) = (11, 3) := by decide +kernel

end Ex

/-! ### Refutations -/

/-- `size()` counts nodes that are not in the tree: those below the children of a cancelled node. -/
theorem C31_size_refuted : ∃ (ops : List Op) (t : PTree) (T : Tree),
    Built .x64 Ex.root ops t 1 0 0 T ∧ t = .node 0 false [] ∧ T.size = 2 ∧ t.size = 1 := by
  let ops : List Op := [.startProd ⟨1, false, false⟩, .startProd ⟨2, false, false⟩, .token 7 0 1,
    .finishProd, .cancelProd]
  obtain ⟨T, h1, h2⟩ := C30_builds_partial (z := .x64) Sizes.x64_ok (root := Ex.root) rfl (ops := ops)
    (st := ⟨[{ prod := some (0, false) }], 1⟩) (t := .node 0 false []) rfl rfl
    (by
      simp [ops, Spec.FineRun, Spec.Fine, Spec.step, Spec.init, Ex.root]
      rintro f r k ts rfl rfl h
      simp at h) 0 0
  exact ⟨ops, _, T, h2, rfl, C31_size_partial h2, rfl⟩

/-- Cancelling a transparent production does not remove the tokens it has added. -/
theorem C30_cancel_transparent_refuted : ∃ (ops : List Op) (st : Spec.St) (t : PTree) (T : Tree),
    Spec.run (Spec.init Ex.root) ops = some st ∧ Spec.finished st = some t
    ∧ build .x64 Ex.root ops 0 1 = some T
    ∧ t = .node 0 false [] ∧ readTree .x64 T.heap 5 T.root = some (.node 0 false [.tok 7 0 1]) := by
  let ops : List Op := [.startProd ⟨1, false, true⟩, .token 7 0 1, .cancelProd]
  have h : (build .x64 Ex.root ops 0 1).bind (fun T => readTree .x64 T.heap 5 T.root)
      = some (.node 0 false [.tok 7 0 1]) := by decide +kernel
  obtain ⟨T, h1, h2⟩ := Option.bind_eq_some_iff.1 h
  exact ⟨ops, _, _, T, rfl, rfl, h1, rfl, h2⟩

/-- The tokens up to the end of the first block. -/
def fillTokens : Nat → List Op
  | 0 => []
  | n + 1 => fillTokens n ++ [.token 7 n (n + 1)]

/-- Cancelling an empty container when the current block is exactly full: the next token overwrites
    the beginning of the block, here the root, and the tree cannot be read. -/
theorem C30_full_block_refuted : ∃ (ops : List Op) (st : Spec.St) (t : PTree),
    Spec.run (Spec.init Ex.root) ops = some st ∧ Spec.finished st = some t
    ∧ build .x64 Ex.root ops 170 170 = none := by
  let ops : List Op := [.startCont] ++ fillTokens 169 ++
    [.startCont, .cancelCont, .token 7 169 170, .finishCont]
  have h1 : ((Spec.run (Spec.init Ex.root) ops).bind Spec.finished).isSome = true := by decide +kernel
  have h2 : (build .x64 Ex.root ops 170 170).isNone = true := by decide +kernel
  obtain ⟨t, h1⟩ := Option.isSome_iff_exists.1 h1
  obtain ⟨st, h3, h4⟩ := Option.bind_eq_some_iff.1 h1
  exact ⟨ops, st, t, h3, h4, by simpa using h2⟩

/-- A second container in a production without children allocates memory that was not reserved. -/
theorem C30_second_container_refuted : ∃ (ops : List Op) (st : Spec.St) (t : PTree),
    Spec.run (Spec.init Ex.root) ops = some st ∧ Spec.finished st = some t
    ∧ build .x64 Ex.root ops 170 170 = none := by
  let ops : List Op := fillTokens 167 ++ [.token 7 167 168, .startProd ⟨1, false, false⟩, .startCont,
    .finishCont, .startCont, .finishCont, .finishProd]
  have h1 : ((Spec.run (Spec.init Ex.root) ops).bind Spec.finished).isSome = true := by decide +kernel
  have h2 : (build .x64 Ex.root ops 170 170).isNone = true := by decide +kernel
  obtain ⟨t, h1⟩ := Option.isSome_iff_exists.1 h1
  obtain ⟨st, h3, h4⟩ := Option.bind_eq_some_iff.1 h1
  exact ⟨ops, st, t, h3, h4, by simpa using h2⟩

/-- A container that is finished without becoming a production is not the same as no container:
    adjacent error tokens are not merged. -/
theorem C30_container_refuted : ∃ T U : Tree,
    build .x64 Ex.root [.token errorKind 0 1, .startCont, .token errorKind 1 2, .finishCont] 2 2 = some T
    ∧ build .x64 Ex.root [.token errorKind 0 1, .token errorKind 1 2] 2 2 = some U
    ∧ readTree .x64 T.heap 5 T.root = some (.node 0 false [.tok errorKind 0 1, .tok errorKind 1 2])
    ∧ readTree .x64 U.heap 5 U.root = some (.node 0 false [.tok errorKind 0 2]) := by
  have h : (build .x64 Ex.root [.token errorKind 0 1, .startCont, .token errorKind 1 2, .finishCont] 2 2).bind
      (fun T => readTree .x64 T.heap 5 T.root)
      = some (.node 0 false [.tok errorKind 0 1, .tok errorKind 1 2]) := by decide +kernel
  have h' : (build .x64 Ex.root [.token errorKind 0 1, .token errorKind 1 2] 2 2).bind
      (fun T => readTree .x64 T.heap 5 T.root)
      = some (.node 0 false [.tok errorKind 0 2]) := by decide +kernel
  obtain ⟨T, h1, h2⟩ := Option.bind_eq_some_iff.1 h
  obtain ⟨U, h3, h4⟩ := Option.bind_eq_some_iff.1 h'
  exact ⟨T, U, h1, h3, h2, h4⟩

/-- A production without tokens has no position: `position()` is undefined behavior. -/
theorem C34_position_refuted : ∃ T : Tree, build .x64 Ex.root [] 0 0 = some T
    ∧ ∀ n, position .x64 T.heap n T.root = none := by
  obtain ⟨T, h1, h2⟩ := C30_builds_partial (z := .x64) Sizes.x64_ok (root := Ex.root) rfl (ops := [])
    (st := Spec.init Ex.root) (t := .node 0 false []) rfl rfl trivial 0 0
  refine ⟨T, h1, fun n => ?_⟩
  cases n with
  | zero => rfl
  | succ n =>
    obtain ⟨a, e1, e2⟩ := C34_position_partial h2 (n := n + 1) (by simp [PTree.size, PTree.sizeL])
      (p := []) (v := .node 0 false []) rfl
    simp only [walk, Option.some.injEq] at e1
    rw [e1, e2]; rfl

end Verif.PT
