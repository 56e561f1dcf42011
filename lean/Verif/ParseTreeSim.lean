import Verif.ParseTreeInv

/-!
# Every operation of the builder keeps the invariant
-/

namespace Verif.PT

theorem PTree.heightL_append (a b : List PTree) :
    PTree.heightL (a ++ b) = max (PTree.heightL a) (PTree.heightL b) := by
  induction a with
  | nil => simp [PTree.heightL]
  | cons t ts ih => simp only [List.cons_append, PTree.heightL, ih]; omega

theorem PTree.sizeL_append (a b : List PTree) :
    PTree.sizeL (a ++ b) = PTree.sizeL a + PTree.sizeL b := by
  induction a with
  | nil => simp [PTree.sizeL]
  | cons t ts ih => simp only [List.cons_append, PTree.sizeL, ih]; omega

theorem PTree.size_pos (t : PTree) : 0 < t.size := by
  cases t <;> simp [PTree.size]

theorem PTree.length_le_sizeL (l : List PTree) : l.length ≤ PTree.sizeL l := by
  induction l with
  | nil => simp
  | cons t ts ih =>
    have := t.size_pos
    simp only [List.length_cons, PTree.sizeL]; omega

theorem PTree.heightL_pos {l : List PTree} (h : l ≠ []) : 0 < PTree.heightL l := by
  cases l with
  | nil => exact absurd rfl h
  | cons t ts => simp only [PTree.heightL]; omega

theorem AT.eraseL_append (a b : List AT) : AT.eraseL (a ++ b) = AT.eraseL a ++ AT.eraseL b := by
  simp [AT.eraseL_eq]

theorem AT.eraseL_length (a : List AT) : (AT.eraseL a).length = a.length := by
  simp [AT.eraseL_eq]

theorem AT.eraseL_nil {a : List AT} : AT.eraseL a = [] ↔ a = [] := by
  simp [AT.eraseL_eq]

/-- The objects of siblings and everything below. -/
def AT.all (z : Sizes) (l : List AT) : Cells := headCells z l (none, true) ++ AT.innerL z l

theorem AT.all_addr (z : Sizes) (l : List AT) : (AT.all z l).map (·.1) = AT.addrs z l := by
  simp [AT.all, AT.addrs, headCells_addr]

theorem AT.addrs_append (z : Sizes) (a b : List AT) (x : Addr) :
    x ∈ AT.addrs z (a ++ b) ↔ x ∈ AT.addrs z a ∨ x ∈ AT.addrs z b := by
  simp only [AT.addrs, List.map_append, AT.innerL_append, List.mem_append]; grind

theorem AT.addrs_perm (z : Sizes) (a b : List AT) :
    (AT.addrs z (a ++ b)).Perm (AT.addrs z a ++ AT.addrs z b) := by
  simp only [AT.addrs, List.map_append, AT.innerL_append, List.append_assoc]
  refine List.Perm.append_left _ ?_
  rw [← List.append_assoc, ← List.append_assoc]
  exact List.Perm.append_right _ List.perm_append_comm

/-- Where siblings and everything below are does not depend on the pointers. -/
theorem AT.region_all {z : Sizes} {lo hi : Addr} (a b : List AT) :
    Region z lo hi (AT.all z (a ++ b)) ↔ Region z lo hi (AT.all z a) ∧ Region z lo hi (AT.all z b) := by
  simp only [AT.all, AT.innerL_append, Region.append, region_heads, List.mem_append]
  grind

theorem GF.cells_eq (z : Sizes) (f : GF) : f.cells z = f.own ++ AT.all z f.kids := rfl

/-- Appending siblings to the children of a frame. -/
theorem FrameOk.extend {z : Sizes} (hz : z.Ok) {h : Heap} {hi : Addr} {m m' : Marker} {f : GF}
    (H : FrameOk z h hi m f) {ts : List AT} (hts : ts ≠ []) {hi' : Addr} (hle : Le hi hi')
    (Ht : Holds h (AT.all z ts)) (hr : Region z hi hi' (AT.all z ts))
    (hslot : ∀ p id it, f.prod = some (p, id, it) → f.kids = [] →
      adjOf z p ts = true ∨ ∀ x ∈ AT.all z ts, Le (slotEnd z p) x.1)
    (hnd : (f.addrs z ++ AT.addrs z ts).Nodup)
    (e1 : m'.prod = m.prod) (e2 : m'.count = m.count + ts.length)
    (e3 : m'.first = (f.kids ++ ts).head?.map AT.addr)
    (e4 : m'.last = (f.kids ++ ts).getLast?.map AT.addr)
    (e5 : m'.unwind = m.unwind) (e6 : m'.depth = m.depth)
    (e7 : m'.finalDepth = f.depth + PTree.heightL (AT.eraseL (f.kids ++ ts))) :
    FrameOk z (linkHeap z h f.kids (ts.head hts).addr) hi' m' { f with kids := f.kids ++ ts } := by
  have hne : f.kids ++ ts ≠ [] := by simp [hts]
  have H1 := H.holds
  rw [GF.cells_eq, Holds.append, AT.all, Holds.append] at H1
  have Ht' := Ht
  rw [AT.all, Holds.append] at Ht'
  have hr1 := H.region
  rw [GF.cells_eq, Region.append] at hr1
  have hnd1 := hnd
  simp only [GF.addrs, AT.addrs, List.append_assoc, List.nodup_append, List.mem_append] at hnd1
  refine
    { mprod := e1.trans H.mprod
      mcount := by rw [e2, H.mcount]; simp
      mfirst := e3
      mlast := e4
      munwind := e5.trans H.munwind
      mdepth := e6.trans H.mdepth
      mmax := e7
      holds := ?_
      region := ?_
      lohi := H.lohi.trans hle
      lop := H.lop
      slotIn := H.slotIn
      slotHi := ?_
      slotKids := ?_
      cap := fun _ h => absurd h hne }
  · rw [GF.cells_eq]
    refine Holds.append.2 ⟨?_, Holds.append.2 ⟨?_, ?_⟩⟩
    · refine H1.1.congr fun a ha => linkHeap_other ?_
      intro hm
      exact hnd1.2.2 a (by simpa [GF.own] using ha) a (.inl hm) rfl
    · refine H1.2.1.link hts Ht'.1 ?_
      rw [List.map_append, List.nodup_append]
      refine ⟨hnd1.2.1.1, hnd1.2.1.2.1.2.1.1, ?_⟩
      intro a ha b hb
      exact hnd1.2.1.2.2 a ha b (.inr (.inl hb))
    · simp only [AT.innerL_append]
      refine Holds.append.2 ⟨H1.2.2.congr fun a ha => linkHeap_other ?_,
        Ht'.2.congr fun a ha => linkHeap_other ?_⟩
      · intro hm
        exact hnd1.2.1.2.2 a hm a (.inl ha) rfl
      · intro hm
        exact hnd1.2.1.2.2 a hm a (.inr (.inr ha)) rfl
  · rw [GF.cells_eq, Region.append]
    exact ⟨hr1.1.mono (Le.refl _) hle, (AT.region_all _ _).2
      ⟨hr1.2.mono (Le.refl _) hle, hr.mono H.lohi (Le.refl _)⟩⟩
  · intro p id it hp
    right
    rcases H.slotHi p id it hp with ⟨hk, hh⟩ | hh
    · cases ts with
      | nil => exact absurd rfl hts
      | cons t ts =>
        obtain ⟨nx, hx⟩ : ∃ nx, (t.addr, t.cell z nx) ∈ AT.all z (t :: ts) := by
          cases ts with
          | nil => exact ⟨(none, true), by simp [AT.all, headCells]⟩
          | cons u ts => exact ⟨(some u.addr, false), by simp [AT.all, headCells]⟩
        have hxr := (hr _ hx).2
        have hsz := hz.cell_pos (t.cell z nx)
        rcases hslot p id it hp hk with ha | ha
        · simp only [adjOf, decide_eq_true_eq] at ha
          refine Le.trans ?_ hxr
          rw [ha]
          exact .inr ⟨rfl, by simp only [slotEnd, behind]; omega⟩
        · refine (ha _ hx).trans (Le.trans ?_ hxr)
          exact .inr ⟨rfl, by simp only; omega⟩
    · exact hh.trans hle
  · intro p id it hp _
    by_cases hk : f.kids = []
    · simp only [hk, List.nil_append]
      exact hslot p id it hp hk
    · have hsh : Le (slotEnd z p) hi := by
        rcases H.slotHi p id it hp with ⟨hk', _⟩ | hh
        · exact absurd hk' hk
        · exact hh
      rcases H.slotKids p id it hp hk with ha | ha
      · left
        cases hc : f.kids with
        | nil => exact absurd hc hk
        | cons t r => rw [hc] at ha; exact ha
      · right
        have key : ∀ a, a ∈ AT.addrs z (f.kids ++ ts) → Le (slotEnd z p) a := by
          intro a ha'
          rw [AT.addrs_append] at ha'
          rcases ha' with ha' | ha'
          · rw [← AT.all_addr, List.mem_map] at ha'
            obtain ⟨x, hx, rfl⟩ := ha'
            exact ha x hx
          · rw [← AT.all_addr, List.mem_map] at ha'
            obtain ⟨x, hx, rfl⟩ := ha'
            exact hsh.trans (hr x hx).1
        intro x hx
        refine key x.1 ?_
        rw [← AT.all_addr]
        exact List.mem_map_of_mem hx

theorem Rest.keep {z : Sizes} {h h' : Heap} {root : Addr} {f f' : GF} {ms : List Marker} :
    ∀ {r : List GF}, Rest z h root f ms r →
    (∀ g ∈ r, Holds h (g.cells z) → Region z g.lo f.unwind (g.cells z) → Holds h' (g.cells z)) →
    f'.unwind = f.unwind → f'.lo = f.lo → f'.prod = f.prod → f'.depth = f.depth →
    Rest z h' root f' ms r := by
  intro r
  induction r generalizing f f' ms with
  | nil =>
    rintro ⟨h1, h2, h3⟩ _ _ _ e3 e4
    exact ⟨h1, by rw [e3]; exact h2, by rw [e4]; exact h3⟩
  | cons g r ih =>
    rintro ⟨m, cs, ms', h1, h2, h3, h4, h5, h6⟩ hh e1 e2 e3 e4
    have hgu : r ≠ [] → Le g.unwind f.unwind := by
      intro hr
      cases r with
      | nil => exact absurd rfl hr
      | cons g' r =>
        obtain ⟨_, _, _, _, _, _, _, h5', _⟩ := h6
        exact h5'.le.trans h4.lohi
    refine ⟨m, cs, ms', h1, h2, h3, ?_, ?_, ih h6 (fun a ha hh1 hh2 => hh a (by simp [ha]) hh1
      (hh2.mono (Le.refl _) (hgu (List.ne_nil_of_mem ha)))) rfl rfl rfl rfl⟩
    · rw [e1]
      exact { h4 with holds := hh g (by simp) h4.holds h4.region }
    · exact ⟨by rw [e1, e2]; exact h5.le, by rw [e3, e2]; exact h5.cont, by rw [e3, e4]; exact h5.depth,
        by rw [e3, e1]; exact h5.unw⟩

/-- Everything below ends before the node. -/
theorem Rest.below {z : Sizes} (hz : z.Ok) {h : Heap} {root : Addr} :
    ∀ {r : List GF} {f : GF} {ms : List Marker}, Rest z h root f ms r →
    ∀ a ∈ r.flatMap (GF.addrs z), Le (a.1, a.2 + z.ptr) f.unwind := by
  intro r
  induction r with
  | nil => simp
  | cons g r ih =>
    rintro f ms ⟨m, cs, ms', h1, h2, h3, h4, h5, h6⟩ a ha
    rw [List.flatMap_cons, List.mem_append] at ha
    rcases ha with ha | ha
    · rw [← GF.cells_addr, List.mem_map] at ha
      obtain ⟨x, hx, rfl⟩ := ha
      have := (h4.region x hx).2
      have hsz := hz.cell_pos x.2
      simp only [Le] at this ⊢; omega
    · have hu : Le g.unwind f.unwind := by
        cases r with
        | nil => simp at ha
        | cons g' r =>
          obtain ⟨_, _, _, _, _, _, _, h5', _⟩ := h6
          exact h5'.le.trans h4.lohi
      exact (ih h6 a ha).trans hu

theorem FrameOk.below {z : Sizes} (hz : z.Ok) {h : Heap} {hi : Addr} {m : Marker} {f : GF}
    (H : FrameOk z h hi m f) {a : Addr} (ha : a ∈ f.addrs z) : Le f.lo a ∧ Le (a.1, a.2 + z.ptr) hi := by
  rw [← GF.cells_addr, List.mem_map] at ha
  obtain ⟨x, hx, rfl⟩ := ha
  have := H.region x hx
  have hsz := hz.cell_pos x.2
  refine ⟨this.1, ?_⟩
  have h2 := this.2
  simp only [Le] at h2 ⊢; omega

/-- The memory of the frames below begins before the node. -/
theorem Rest.unwind_le {z : Sizes} {h : Heap} {root : Addr} {r : List GF} {f : GF} {ms : List Marker}
    (H : Rest z h root f ms r) (hr : r ≠ []) : Le f.unwind f.lo := by
  cases r with
  | nil => exact absurd rfl hr
  | cons g r =>
    obtain ⟨_, _, _, _, _, _, _, h5, _⟩ := H
    exact h5.le

/-- All objects end before the position in the buffer. -/
theorem Inv.below {z : Sizes} (hz : z.Ok) {s : B} {f : GF} {r : List GF} {lost : Nat}
    (H : Inv z s f r lost) : ∀ a ∈ (f :: r).flatMap (GF.addrs z),
      Le (a.1, a.2 + z.ptr) (s.block, s.pos) := by
  intro a ha
  rw [List.flatMap_cons, List.mem_append] at ha
  rcases ha with ha | ha
  · exact (H.top.below hz ha).2
  · obtain ⟨cs, ms', _, _, _, hr⟩ := H.marks
    have hne : r ≠ [] := by rintro rfl; simp at ha
    exact (hr.below hz a ha).trans ((hr.unwind_le hne).trans H.top.lohi)

theorem Le.not_self {z : Sizes} (hz : z.Ok) {a b : Addr} (h1 : Le (a.1, a.2 + z.ptr) b) (h2 : Le b a) :
    False := by
  have := hz.ptr_pos
  simp only [Le] at h1 h2; omega

/-- A new object at the end of the buffer. -/
structure Alloc (z : Sizes) (s : B) (n : Nat) (c : Cell) (a : Addr) (s1 : B) : Prop where
  eq : s1 = { s with heap := s.heap.place z a c, block := a.1, pos := a.2 + c.size z }
  le : Le (s.block, s.pos) a
  room : a.2 + n ≤ z.blk
  cases : a = (s.block, s.pos) ∨ a = (s.block + 1, 0)

theorem alloc_ok {z : Sizes} {s : B} {n : Nat} {c : Cell} (hp : s.pos ≤ z.blk) (hn : n ≤ z.blk)
    (hc : c.size z ≤ n) : ∃ a s1, (s.reserve z n).allocate z c = some (a, s1) ∧ Alloc z s n c a s1 := by
  unfold B.reserve B.allocate
  split
  · refine ⟨_, _, by rw [if_neg (by simp only; omega)], ⟨rfl, ?_, ?_, .inr rfl⟩⟩
    · simp [Le]
    · simpa using hn
  · refine ⟨_, _, by rw [if_neg (by omega)], ⟨rfl, Le.refl _, ?_, .inl rfl⟩⟩
    simp only; omega


/-- What it means that the code does an operation as documented. -/
def Sim (z : Sizes) (op : Op) : Prop :=
  ∀ {s : B} {f : GF} {r : List GF} {lost : Nat} {st' : Spec.St}, Inv z s f r lost →
    Spec.step ⟨(f :: r).map GF.spec, lost⟩ op = some st' →
    Spec.Fine ⟨(f :: r).map GF.spec, lost⟩ op →
    ∃ s' f' r' lost', s.step z op = some s' ∧ Inv z s' f' r' lost'
      ∧ st' = ⟨(f' :: r').map GF.spec, lost'⟩ ∧ s'.root = s.root

/-- Allocation keeps what is there. -/
theorem Alloc.holds {z : Sizes} (hz : z.Ok) {s s1 : B} {n : Nat} {c : Cell} {a : Addr}
    (A : Alloc z s n c a s1) {cs : Cells} {lo hi : Addr} (H : Holds s.heap cs)
    (hr : Region z lo hi cs) (hle : Le hi (s.block, s.pos)) : Holds s1.heap cs := by
  rw [A.eq]
  exact H.place hz hr (hle.trans A.le)

theorem Alloc.rest {z : Sizes} (hz : z.Ok) {s s1 : B} {n : Nat} {c : Cell} {a : Addr}
    (A : Alloc z s n c a s1) {root : Addr} {f : GF} {ms : List Marker} {r : List GF}
    (H : Rest z s.heap root f ms r) (hlo : Le f.lo (s.block, s.pos)) :
    Rest z s1.heap root f ms r := by
  refine H.keep (fun g hg h1 h2 => A.holds hz h1 h2 ?_) rfl rfl rfl rfl
  exact (H.unwind_le (List.ne_nil_of_mem hg)).trans hlo

theorem finalDepth_tok {m : Marker} {d : Nat} {kids : List PTree} (hm : m.finalDepth = d + PTree.heightL kids)
    (hd : m.depth = d) (hc : m.count = kids.length) (k b e : Nat) (m' : Marker)
    (h1 : m'.depth = m.depth) (h2 : m'.maxDepth = m.maxDepth) (h3 : m'.count = m.count + 1) :
    m'.finalDepth = d + PTree.heightL (kids ++ [.tok k b e]) := by
  unfold Marker.finalDepth at *
  rw [PTree.heightL_append]
  simp only [PTree.heightL, PTree.height]
  cases kids with
  | nil => simp only [PTree.heightL, List.length_nil] at *; split at hm <;> split <;> omega
  | cons t ts =>
    have := PTree.heightL_pos (l := t :: ts) nofun
    simp only [List.length_cons] at hc
    split at hm <;> split <;> omega

/-- The production of the last child. -/
def AT.isErr : AT → Bool
  | .tok _ k _ _ => k = errorKind
  | .node .. => false

theorem FrameOk.last {z : Sizes} {h : Heap} {hi : Addr} {m : Marker} {f : GF} (H : FrameOk z h hi m f)
    {i : List AT} {l : AT} (hk : f.kids = i ++ [l]) : h l.addr = some (l.cell z (none, true)) := by
  refine H.holds (l.addr, l.cell z (none, true)) ?_
  simp only [GF.cells, hk, headCells_append, List.mem_append]
  right; left; right; simp [headCells]

theorem FrameOk.lastIsError {z : Sizes} {s : B} {hi : Addr} {f : GF} (H : FrameOk z s.heap hi s.cur f) :
    s.lastIsError = some (f.kids.getLast?.any AT.isErr) := by
  unfold B.lastIsError
  rw [H.mlast]
  cases hk : f.kids.getLast? with
  | none => rfl
  | some l =>
    obtain ⟨i, hi'⟩ := getLast?_split hk
    simp only [Option.map_some]
    rw [Heap.get, H.last hi']
    simp only [AT.cell, Option.map_some, Option.any_some, Option.some.injEq]
    cases l <;> rfl

theorem addToken_erase (kids : List AT) (k b e : Nat) (hn : ¬(ignoreIfEmpty k = true ∧ b = e)) :
    Spec.addToken (AT.eraseL kids) k b e =
      if k = errorKind ∧ kids.getLast?.any AT.isErr = true then
        AT.eraseL kids.dropLast ++ [match kids.getLast? with
          | some (.tok _ k' b' _) => .tok k' b' e
          | _ => .tok k b e]
      else AT.eraseL kids ++ [.tok k b e] := by
  unfold Spec.addToken
  rw [if_neg hn]
  simp only [AT.eraseL_eq, List.getLast?_map, List.map_dropLast]
  cases hk : kids.getLast? with
  | none => simp
  | some l =>
    cases l with
    | tok a k' b' e' => simp [AT.erase, AT.isErr]
    | node => simp [AT.erase, AT.isErr]

/-- Changing the end of the last token. -/
theorem FrameOk.setEnd {z : Sizes} {h : Heap} {hi : Addr} {m : Marker} {f : GF}
    (H : FrameOk z h hi m f) {i : List AT} {a : Addr} {k b e e' : Nat}
    (hk : f.kids = i ++ [.tok a k b e]) (hnd : (f.addrs z).Nodup) :
    FrameOk z (fun x => if x = a then some (.node ⟨none, true, .tok k b e'⟩) else h x) hi m
      { f with kids := i ++ [.tok a k b e'] } := by
  have H1 := H.holds
  rw [GF.cells, hk, headCells_append, Holds.append, Holds.append, Holds.append] at H1
  have hr := H.region
  rw [GF.cells, hk, Region.append, Region.append, region_heads] at hr
  have hin : AT.innerL z (i ++ [.tok a k b e']) = AT.innerL z (i ++ [.tok a k b e]) := by
    simp [AT.innerL_append, AT.innerL, AT.inner]
  have hadj : ∀ p, adjOf z p (i ++ [.tok a k b e']) = adjOf z p (i ++ [.tok a k b e]) := by
    intro p; cases i <;> rfl
  have hnd1 := hnd
  simp only [GF.addrs, AT.addrs, hk, List.map_append, List.nodup_append, List.mem_append] at hnd1
  have haddr : (headCells z (i ++ [.tok a k b e']) (none, true)).map (·.1)
      = (headCells z (i ++ [.tok a k b e]) (none, true)).map (·.1) := by
    simp [headCells_addr, AT.addr]
  refine { H with
    mcount := by rw [H.mcount, hk]; simp
    mfirst := by rw [H.mfirst, hk]; cases i <;> rfl
    mlast := by rw [H.mlast, hk]; simp [AT.addr]
    mmax := by
      rw [H.mmax, hk]
      simp [AT.eraseL_append, PTree.heightL_append, AT.eraseL, AT.erase, PTree.heightL, PTree.height]
    holds := ?_
    region := ?_
    slotHi := ?_
    slotKids := ?_
    cap := fun _ h => absurd h (by simp) }
  · rw [GF.cells, hin, headCells_append]
    refine Holds.append.2 ⟨H1.1.set_other ?_, Holds.append.2 ⟨Holds.append.2
      ⟨H1.2.1.1.set_other ?_, ?_⟩, H1.2.2.set_other ?_⟩⟩
    · intro hm
      exact hnd1.2.2 a hm a (.inl (.inr (by simp [AT.addr]))) rfl
    · rw [headCells_addr]
      intro hm
      exact hnd1.2.1.1.2.2 a hm a (by simp [AT.addr]) rfl
    · intro x hx
      simp only [headCells, List.mem_cons, List.not_mem_nil, or_false] at hx
      subst hx
      simp [AT.cell, AT.data, AT.addr]
    · intro hm
      exact hnd1.2.1.2.2 a (.inr (by simp [AT.addr])) a hm rfl
  · rw [GF.cells, Region.append, Region.append, region_heads, hin]
    refine ⟨hr.1, ?_, hr.2.2⟩
    intro t ht
    rw [List.mem_append, List.mem_singleton] at ht
    rcases ht with ht | rfl
    · exact hr.2.1 t (by simp [ht])
    · exact hr.2.1 (.tok a k b e) (by simp)
  · intro p id it hp
    right
    rcases H.slotHi p id it hp with ⟨h1, _⟩ | h1
    · rw [hk] at h1; simp at h1
    · exact h1
  · intro p id it hp _
    rcases H.slotKids p id it hp (by rw [hk]; simp) with h1 | h1
    · left; rw [hadj, ← hk]; exact h1
    · right
      intro x hx
      have hx' : x.1 ∈ (headCells z f.kids (none, true) ++ AT.innerL z f.kids).map (·.1) := by
        rw [hk, List.map_append, ← haddr, ← List.map_append, ← hin]
        exact List.mem_map_of_mem hx
      rw [List.mem_map] at hx'
      obtain ⟨y, hy, he⟩ := hx'
      rw [← he]
      exact h1 y hy

theorem sum_kids_cons (f : GF) (r : List GF) :
    ((f :: r).map fun g => PTree.sizeL (AT.eraseL g.kids) - g.kids.length).sum
      = (PTree.sizeL (AT.eraseL f.kids) - f.kids.length)
        + (r.map fun g => PTree.sizeL (AT.eraseL g.kids) - g.kids.length).sum := by
  simp

theorem sim_token {z : Sizes} (hz : z.Ok) (k b e : Nat) : Sim z (.token k b e) := by
  intro s f r lost st' HI hst _
  simp only [Spec.step, List.map_cons, Option.some.injEq] at hst
  subst hst
  simp only [B.step, B.token]
  by_cases hig : ignoreIfEmpty k = true ∧ b = e
  · rw [if_pos hig]
    refine ⟨s, f, r, lost, rfl, HI, ?_, rfl⟩
    have : Spec.addToken f.spec.kids k b e = f.spec.kids := by unfold Spec.addToken; rw [if_pos hig]
    rw [this]; rfl
  · rw [if_neg hig, HI.top.lastIsError]
    simp only [Option.bind_some]
    have hadd := addToken_erase f.kids k b e hig
    obtain ⟨cs, ms', hm1, hm2, hm3, hm4⟩ := HI.marks
    have hnd := HI.nodup
    rw [List.flatMap_cons, List.nodup_append] at hnd
    by_cases herr : k = errorKind ∧ (f.kids.getLast?.any AT.isErr) = true
    · rw [if_pos herr]
      rw [if_pos herr] at hadd
      cases hl : f.kids.getLast? with
      | none => rw [hl] at herr; simp at herr
      | some l =>
        obtain ⟨i, hi⟩ := getLast?_split hl
        cases l with
        | node => rw [hl] at herr; simp [AT.isErr] at herr
        | tok a k' b' e' =>
          have hlast := HI.top.last hi
          simp only [AT.cell, AT.data, AT.addr] at hlast
          rw [HI.top.mlast, hl]
          simp only [Option.map_some, AT.addr, Option.bind_some]
          rw [modify_eq _ hlast]
          simp only [Option.map_some, Node.setEnd]
          refine ⟨_, { f with kids := i ++ [.tok a k' b' e] }, r, lost, rfl, ?_, ?_, rfl⟩
          · have hmem : a ∈ f.addrs z := by simp [GF.addrs, AT.addrs, hi, AT.addr]
            refine ⟨HI.posLe, HI.top.setEnd hi hnd.1, ⟨cs, ms', hm1, hm2, hm3, ?_⟩, ?_, ?_, HI.depth⟩
            · refine hm4.congr (fun x hx => ?_) rfl rfl rfl rfl
              simp only []
              rw [if_neg]
              rintro rfl
              exact hnd.2.2 _ hmem _ hx rfl
            · have := HI.nodup
              simp only [List.flatMap_cons, GF.addrs, GF.own, AT.addrs, hi] at this ⊢
              simpa [AT.innerL_append, AT.innerL, AT.inner, AT.addr] using this
            · rw [sum_kids_cons]
              have := HI.size
              rw [sum_kids_cons, hi] at this
              simpa [AT.eraseL_append, PTree.sizeL_append, AT.eraseL, AT.erase, PTree.sizeL,
                PTree.size] using this
          · simp only [GF.spec, List.map_cons]
            rw [hadd, hi]
            simp [AT.eraseL_append, AT.eraseL, AT.erase]
    · rw [if_neg herr]
      rw [if_neg herr] at hadd
      obtain ⟨a, s1, hal, A⟩ := alloc_ok (z := z) (s := s) (n := z.tok)
        (c := .node { data := .tok k b e }) HI.posLe hz.tok_blk (Nat.le_refl _)
      rw [hal]
      simp only [Option.bind_some]
      have hc1 : s1.cur = s.cur := by rw [A.eq]
      have htop : FrameOk z s1.heap (s.block, s.pos) s1.cur f := by
        rw [hc1]
        exact { HI.top with holds := A.holds hz HI.top.holds HI.top.region (Le.refl _) }
      rw [Marker.insert_eq (z := z) (kids := f.kids) a htop.mfirst htop.mlast
        (Holds.append.1 (Holds.append.1 htop.holds).2).1]
      simp only [Option.map_some]
      have hfresh : ∀ x ∈ (f :: r).flatMap (GF.addrs z), x ≠ a := by
        rintro x hx rfl
        exact Le.not_self hz (HI.below hz x hx) A.le
      have hhi : (s1.block, s1.pos) = (a.1, a.2 + z.tok) := by rw [A.eq]; rfl
      have hall : AT.all z [.tok a k b e] = [(a, .node ⟨none, true, .tok k b e⟩)] := by
        simp [AT.all, headCells, AT.innerL, AT.inner, AT.addr, AT.cell, AT.data]
      have haddrs : AT.addrs z [.tok a k b e] = [a] := by
        simp [AT.addrs, AT.innerL, AT.inner, AT.addr]
      have hF := htop.extend (m' := { s1.cur with
          first := ((f.kids.head?.map AT.addr).or (some a)), last := some a,
          count := s1.cur.count + 1 }) hz (ts := [.tok a k b e]) nofun (hi' := (s1.block, s1.pos))
        (by rw [hhi]; exact A.le.trans (.inr ⟨rfl, Nat.le_add_right _ _⟩))
        (by rw [hall, A.eq]; intro x hx; simp only [List.mem_singleton] at hx; subst hx
            exact place_same _ _ _ _)
        (by rw [hall, hhi]; intro x hx; simp only [List.mem_singleton] at hx; subst hx
            exact ⟨A.le, Le.refl _⟩)
        (by
          intro p id it hp hk
          rw [hall]
          rcases htop.slotHi p id it hp with ⟨_, hh⟩ | hh
          · rcases A.cases with ha | ha
            · left; simp [adjOf, AT.addr, ha, hh]
            · right
              intro x hx; simp only [List.mem_singleton] at hx; subst hx
              rw [ha]
              left
              have := congrArg Prod.fst hh
              simp only [behind] at this
              simp only [slotEnd]; omega
          · right
            intro x hx; simp only [List.mem_singleton] at hx; subst hx
            exact hh.trans A.le)
        (by
          rw [haddrs, List.nodup_append]
          refine ⟨hnd.1, by simp, ?_⟩
          intro x hx y hy
          simp only [List.mem_singleton] at hy
          subst hy
          exact hfresh x (by simp [hx]))
        rfl rfl (by cases f.kids <;> rfl) (by simp [AT.addr]) rfl rfl
        (by
          rw [AT.eraseL_append]
          exact finalDepth_tok htop.mmax htop.mdepth (by rw [AT.eraseL_length]; exact htop.mcount)
            k b e _ rfl rfl rfl)
      refine ⟨_, { f with kids := f.kids ++ [.tok a k b e] }, r, lost, rfl, ?_, ?_, ?_⟩
      · refine ⟨?_, hF, ⟨cs, ms', ?_, hm2, ?_, ?_⟩, ?_, ?_, ?_⟩
        · have := A.room
          simp only [Prod.mk.injEq] at hhi
          simp only [hhi.2]; omega
        · rw [A.eq]; exact hm1
        · rw [A.eq]; exact hm3
        · have hR := A.rest hz hm4 HI.top.lohi
          have hroot : s1.root = s.root := by rw [A.eq]
          simp only [hroot]
          refine hR.congr (fun x hx => linkHeap_other ?_) rfl rfl rfl rfl
          intro hmx
          exact hnd.2.2 x (by simp [GF.addrs, AT.addrs]; right; left; simpa using hmx) x hx rfl
        · have hperm : (({ f with kids := f.kids ++ [.tok a k b e] } :: r : List GF).flatMap (GF.addrs z)).Perm
              (a :: (f :: r).flatMap (GF.addrs z)) := by
            simp only [List.flatMap_cons, GF.addrs]
            have := (AT.addrs_perm z f.kids [.tok a k b e]).append_left (f.own.map (·.1))
            rw [haddrs, ← List.append_assoc] at this
            refine (this.append_right _).trans ?_
            rw [List.append_assoc]
            exact List.perm_middle
          rw [hperm.nodup_iff, List.nodup_cons]
          exact ⟨fun hx => hfresh a hx rfl, HI.nodup⟩
        · rw [sum_kids_cons]
          have := HI.size
          rw [sum_kids_cons] at this
          rw [A.eq]
          simp only [AT.eraseL_append, PTree.sizeL_append, AT.eraseL, AT.erase, PTree.sizeL,
            PTree.size, List.length_append, List.length_singleton, Nat.add_sub_add_right]
          exact this
        · rw [A.eq]; exact HI.depth
      · simp only [GF.spec, List.map_cons]
        rw [hadd, AT.eraseL_append]; rfl
      · rw [A.eq]


theorem FrameOk.prod_le {z : Sizes} {h : Heap} {hi : Addr} {m : Marker} {f : GF}
    (H : FrameOk z h hi m f) {p : Addr} {id : Nat} {it : Bool} (hp : f.prod = some (p, id, it)) :
    Le p hi := by
  rw [← H.lop p id it hp]; exact H.lohi

theorem sim_startProd {z : Sizes} (hz : z.Ok) (i : Info) : Sim z (.startProd i) := by
  intro s f r lost st' HI hst _
  simp only [Spec.step, List.map_cons] at hst
  simp only [B.step, B.startProd]
  obtain ⟨cs, ms', hm1, hm2, hm3, hm4⟩ := HI.marks
  cases ht : i.transparent with
  | true =>
    rw [ht] at hst
    simp only [if_true, Option.some.injEq] at hst ⊢
    subst hst
    refine ⟨_, { f with trans := AT.eraseL f.kids :: f.trans }, r, lost, rfl, ?_, rfl, rfl⟩
    refine ⟨HI.posLe, { HI.top with }, ⟨s.cur :: cs, ms', by simp [hm1], by simp [hm2], ?_, ?_⟩,
      HI.nodup, HI.size, HI.depth⟩
    · intro c hc
      rw [List.mem_cons] at hc
      rcases hc with rfl | hc
      · rfl
      · exact hm3 c hc
    · exact hm4.congr (fun _ _ => rfl) rfl rfl rfl rfl
  | false =>
    rw [ht] at hst
    simp only [Bool.false_eq_true, if_false, Option.some.injEq] at hst ⊢
    subst hst
    obtain ⟨a, s1, hal, A⟩ := alloc_ok (z := z) (s := s) (n := z.prod + z.ptr)
        (c := i.node) HI.posLe hz.prod_blk (by simp [Info.node, Cell.size, Data.size])
    rw [hal]
    simp only [Option.map_some]
    have hcell : i.node.size z = z.prod := rfl
    have hfresh : ∀ x ∈ (f :: r).flatMap (GF.addrs z), x ≠ a := by
      rintro x hx rfl
      exact Le.not_self hz (HI.below hz x hx) A.le
    have hroom := A.room
    have hcase : ∀ p id it, f.prod = some (p, id, it) → a = (s.block + 1, 0) → Le (slotEnd z p) a := by
      intro p id it hp ha
      have := HI.top.prod_le hp
      rw [ha]
      simp only [Le, slotEnd] at this ⊢; omega
    refine ⟨_, { prod := some (a, i.id, i.isToken), unwind := a, lo := a, depth := f.depth + 1 },
      f :: r, lost, rfl, ?_, rfl, by rw [A.eq]⟩
    have hown : GF.cells z ⟨some (a, i.id, i.isToken), [], [], false, a, a, f.depth + 1⟩
        = [(a, i.node)] := by
      simp [GF.cells, GF.own, headCells, AT.innerL, Info.node]
    refine ⟨?_, ?_, ⟨[], s.cur :: (cs ++ ms'), ?_, rfl, nofun, ?_⟩, ?_, ?_, ?_⟩
    · rw [A.eq]; simp only [hcell]; omega
    · have hhi : (s1.block, s1.pos) = behind z a := by rw [A.eq]; rfl
      simp only [hhi]
      refine { mprod := rfl, mcount := rfl, mfirst := rfl, mlast := rfl, munwind := rfl,
               mdepth := ?_, mmax := ?_, holds := ?_, region := ?_, lohi := ?_, lop := ?_,
               slotIn := ?_, slotHi := ?_, slotKids := ?_, cap := ?_ }
      · rw [A.eq]; simp [Marker.new, HI.top.mdepth]
      · rw [A.eq]; simp [Marker.new, Marker.finalDepth, HI.top.mdepth, AT.eraseL, PTree.heightL]
      · rw [hown, A.eq]
        intro x hx
        simp only [List.mem_singleton] at hx
        subst hx
        exact place_same _ _ _ _
      · rw [hown]
        intro x hx
        simp only [List.mem_singleton] at hx
        subst hx
        exact ⟨Le.refl _, Le.refl _⟩
      · exact .inr ⟨rfl, by simp [behind]⟩
      · intro p id it hp; simp only [Option.some.injEq, Prod.mk.injEq] at hp; exact hp.1
      · intro p id it hp; simp only [Option.some.injEq, Prod.mk.injEq] at hp
        rw [← hp.1]; omega
      · intro p id it hp; simp only [Option.some.injEq, Prod.mk.injEq] at hp
        exact .inl ⟨rfl, by rw [hp.1]⟩
      · intro p id it hp hk; exact absurd rfl hk
      · intro _ _ _; simp only [behind]; omega
    · rw [A.eq]; simp [hm1]
    · refine ⟨s.cur, cs, ms', rfl, hm2, hm3, ?_, ?_, ?_⟩
      · have : FrameOk z s1.heap (s.block, s.pos) s.cur f :=
          { HI.top with holds := A.holds hz HI.top.holds HI.top.region (Le.refl _) }
        refine this.mono A.le ?_ ?_
        · rcases A.cases with ha | ha
          · exact .inl ha
          · exact .inr (.inr (.inr fun p id it hp => hcase p id it hp ha))
        · intro _ _ _; simp only; omega
      · exact ⟨Le.refl _, nofun, by simp, by
          intro p id it hp; simp only [Option.some.injEq, Prod.mk.injEq] at hp; exact hp.1⟩
      · have hroot : s1.root = s.root := by rw [A.eq]
        simp only [hroot]
        exact A.rest hz hm4 HI.top.lohi
    · rw [List.flatMap_cons]
      have : GF.addrs z { prod := some (a, i.id, i.isToken), unwind := a, lo := a, depth := f.depth + 1 }
          = [a] := by simp [GF.addrs, GF.own, AT.addrs, AT.innerL]
      rw [this, List.singleton_append, List.nodup_cons]
      exact ⟨fun hx => hfresh a hx rfl, HI.nodup⟩
    · rw [sum_kids_cons, A.eq]
      simp only [AT.eraseL, PTree.sizeL, List.length_nil, Nat.sub_self, Nat.zero_add]
      exact HI.size
    · rw [A.eq]; exact HI.depth

/-- Unwinding to the beginning of a node keeps the frame below. -/
theorem FrameOk.unwound {z : Sizes} (hz : z.Ok) {s : B} {u : Addr} {m : Marker} {g : GF}
    (H : FrameOk z s.heap u m g) (hle : Le u (s.block, s.pos))
    (hu : u.1 = s.block → u.2 < z.blk) (hpos : s.pos ≤ z.blk) :
    (s.unwind z u).pos ≤ z.blk ∧ FrameOk z s.heap ((s.unwind z u).block, (s.unwind z u).pos) m g := by
  unfold B.unwind
  by_cases hb : u.1 = s.block ∧ u.2 < z.blk
  · rw [if_pos hb]
    refine ⟨by simp only; omega, ?_⟩
    have : ({ s with pos := u.2 } : B).block = u.1 := hb.1.symm
    rw [this]
    exact H
  · rw [if_neg hb]
    refine ⟨Nat.zero_le _, ?_⟩
    have hlt : u.1 < s.block := by
      simp only [Le] at hle
      by_cases h1 : u.1 = s.block
      · exact absurd ⟨h1, hu h1⟩ hb
      · omega
    refine H.mono (.inl hlt) ?_ ?_
    · right; right; right
      intro p id it hp
      have := H.prod_le hp
      left
      simp only [Le] at this
      simp only [slotEnd]; omega
    · intro _ _ _
      have := hz.prod_blk
      simp only; omega

theorem unwind_fields (z : Sizes) (s : B) (u : Addr) :
    (s.unwind z u).heap = s.heap ∧ (s.unwind z u).root = s.root ∧ (s.unwind z u).size = s.size
      ∧ (s.unwind z u).depth = s.depth ∧ (s.unwind z u).markers = s.markers := by
  unfold B.unwind; split <;> exact ⟨rfl, rfl, rfl, rfl, rfl⟩

/-- Dropping the innermost frame. -/
theorem Inv.drop {z : Sizes} (hz : z.Ok) {s : B} {f g : GF} {r : List GF} {lost : Nat} {ms : List Marker}
    {m : Marker}
    (HI : Inv z s f (g :: r) lost) (ht : f.trans = []) (hms : s.markers = m :: ms)
    (hu : f.unwind.1 = s.block → f.unwind.2 < z.blk) :
    Inv z { ({ s with markers := ms } : B).unwind z s.cur.unwind with cur := m } g r
      (lost + (PTree.sizeL (AT.eraseL f.kids) - f.kids.length)) := by
  obtain ⟨cs, ms', hm1, hm2, hm3, hm4⟩ := HI.marks
  rw [ht] at hm2
  have hcs : cs = [] := List.eq_nil_of_length_eq_zero (by simpa using hm2)
  subst hcs
  obtain ⟨m2, cs2, ms2, e1, e2, e3, e4, e5, e6⟩ := hm4
  rw [hms, List.nil_append, e1] at hm1
  obtain ⟨rfl, rfl⟩ := List.cons.inj hm1
  rw [HI.top.munwind]
  have hle : Le f.unwind (s.block, s.pos) := e5.le.trans HI.top.lohi
  have := e4.unwound (s := { s with markers := cs2 ++ ms2 }) hz hle hu HI.posLe
  obtain ⟨u1, u2, u3, u4, u5⟩ := unwind_fields z { s with markers := cs2 ++ ms2 } f.unwind
  have hnd := HI.nodup
  rw [List.flatMap_cons, List.nodup_append] at hnd
  refine ⟨this.1, ?_, ⟨cs2, ms2, u5, e2, e3, ?_⟩, hnd.2.1, ?_, ?_⟩
  · have h2 := this.2
    simp only [u1]
    exact h2
  · simp only [u1, u2]; exact e6
  · have := HI.size
    rw [sum_kids_cons] at this
    simp only [u3]
    omega
  · simp only [u4]; exact HI.depth

theorem Inv.pop_trans {z : Sizes} {s : B} {f : GF} {r : List GF} {lost : Nat} {k : List PTree}
    {ts : List (List PTree)} (HI : Inv z s f r lost) (ht : f.trans = k :: ts) :
    ∃ c ms, s.markers = c :: ms ∧ c.prod = s.cur.prod
      ∧ Inv z { s with markers := ms } { f with trans := ts } r lost := by
  obtain ⟨cs, ms', hm1, hm2, hm3, hm4⟩ := HI.marks
  rw [ht] at hm2
  cases cs with
  | nil => simp at hm2
  | cons c cs =>
    refine ⟨c, cs ++ ms', hm1, hm3 c (by simp), HI.posLe, { HI.top with },
      ⟨cs, ms', rfl, by simpa using hm2, fun x hx => hm3 x (by simp [hx]),
        hm4.congr (fun _ _ => rfl) rfl rfl rfl rfl⟩, HI.nodup, HI.size, HI.depth⟩

theorem Inv.pop_frame {z : Sizes} {s : B} {f g : GF} {r : List GF} {lost : Nat}
    (HI : Inv z s f (g :: r) lost) (ht : f.trans = []) :
    ∃ m cs ms, s.markers = m :: (cs ++ ms) ∧ cs.length = g.trans.length
      ∧ (∀ c ∈ cs, c.prod = m.prod) ∧ FrameOk z s.heap f.unwind m g ∧ Link z f g
      ∧ Rest z s.heap s.root g ms r := by
  obtain ⟨cs, ms', hm1, hm2, hm3, hm4⟩ := HI.marks
  rw [ht] at hm2
  have hcs : cs = [] := List.eq_nil_of_length_eq_zero (by simpa using hm2)
  subst hcs
  obtain ⟨m2, cs2, ms2, e1, e2, e3, e4, e5, e6⟩ := hm4
  exact ⟨m2, cs2, ms2, by rw [hm1, e1]; rfl, e2, e3, e4, e5, e6⟩

/-- The markers of two frames belong to different nodes. -/
theorem Inv.prod_ne {z : Sizes} {s : B} {f g : GF} {r : List GF} {lost : Nat}
    (HI : Inv z s f (g :: r) lost) {p : Addr} {id : Nat} {it : Bool} (hp : f.prod = some (p, id, it))
    {m : Marker} (hm : m.prod = g.prod.map (·.1)) : m.prod ≠ s.cur.prod := by
  rw [hm, HI.top.mprod, hp]
  cases hg : g.prod with
  | none => simp
  | some q =>
    obtain ⟨q, id', it'⟩ := q
    simp only [Option.map_some, ne_eq, Option.some.injEq]
    rintro rfl
    have hnd := HI.nodup
    rw [List.flatMap_cons, List.nodup_append] at hnd
    exact hnd.2.2 q (by simp [GF.addrs, GF.own, hp]) q (by simp [GF.addrs, GF.own, hg]) rfl

theorem spec_trans (f : GF) : f.spec.trans = f.trans := rfl
theorem spec_prod (f : GF) : f.spec.prod = f.prod.map (·.2) := rfl
theorem spec_kids (f : GF) : f.spec.kids = AT.eraseL f.kids := rfl
theorem spec_empt (f : GF) : f.spec.empt = f.empt := rfl

theorem sim_cancelProd {z : Sizes} (hz : z.Ok) : Sim z .cancelProd := by
  intro s f r lost st' HI hst hfine
  simp only [Spec.step, List.map_cons, spec_trans, spec_prod, spec_kids] at hst
  simp only [B.step, B.cancelProd, B.pop]
  cases ht : f.trans with
  | cons k ts =>
    obtain ⟨c, ms, e1, e2, e3⟩ := HI.pop_trans ht
    rw [ht] at hst
    simp only [Option.some.injEq] at hst
    have hk := hfine f.spec (r.map GF.spec) k ts rfl ht
    rw [e1]
    simp only [Option.bind_some, e2, ne_eq, not_true_eq_false, and_false, if_false, if_true]
    refine ⟨_, _, _, _, rfl, e3, ?_, rfl⟩
    rw [← hst, hk]; rfl
  | nil =>
    rw [ht] at hst
    cases hp : f.prod with
    | none => rw [hp] at hst; simp at hst
    | some q =>
      obtain ⟨p, id, it⟩ := q
      rw [hp] at hst
      cases r with
      | nil => simp at hst
      | cons g r =>
        simp only [Option.map_some, List.map_cons, Option.some.injEq] at hst
        subst hst
        obtain ⟨m, cs, ms, e1, e2, e3, e4, e5, e6⟩ := HI.pop_frame ht
        have hne := HI.prod_ne hp e4.mprod
        rw [e1]
        simp only [Option.bind_some]
        rw [if_neg (by rw [HI.top.mprod, hp]; simp), if_neg (Ne.symm hne)]
        refine ⟨_, g, r, _, rfl, HI.drop hz ht e1 ?_, ?_, ?_⟩
        · intro _
          have := HI.top.slotIn p id it hp
          rw [e5.unw p id it hp]
          have := hz.ptr_pos
          omega
        · rw [AT.eraseL_length]; rfl
        · obtain ⟨_, u2, _⟩ := unwind_fields z { s with markers := cs ++ ms } s.cur.unwind
          exact u2

theorem sim_cancelCont {z : Sizes} (hz : z.Ok) : Sim z .cancelCont := by
  intro s f r lost st' HI hst hfine
  simp only [Spec.step, List.map_cons, spec_trans, spec_prod, spec_kids] at hst
  simp only [B.step, B.cancelCont, B.pop]
  cases ht : f.trans with
  | cons k ts => rw [ht] at hst; simp at hst
  | nil =>
    rw [ht] at hst
    cases hp : f.prod with
    | some q => rw [hp] at hst; simp at hst
    | none =>
      rw [hp] at hst
      cases r with
      | nil => simp at hst
      | cons g r =>
        simp only [Option.map_none, List.map_cons, Option.some.injEq] at hst
        subst hst
        obtain ⟨m, cs, ms, e1, e2, e3, e4, e5, e6⟩ := HI.pop_frame ht
        rw [e1]
        simp only [Option.bind_some]
        rw [if_neg (by rw [HI.top.mprod, hp]; simp)]
        refine ⟨_, g, r, _, rfl, HI.drop hz ht e1 ?_, ?_, ?_⟩
        · intro hb
          have hk := hfine f.spec ((g :: r).map GF.spec) rfl
          rw [spec_kids, ne_eq, AT.eraseL_nil] at hk
          obtain ⟨t, hmem⟩ := List.exists_mem_of_ne_nil _ hk
          have := HI.top.below hz (a := t.addr) (by
            simp only [GF.addrs, AT.addrs, List.mem_append]
            exact .inr (.inl (List.mem_map_of_mem hmem)))
          have h1 := e5.le.trans this.1
          have h2 := this.2
          have h3 := HI.posLe
          have h4 := hz.ptr_pos
          simp only [Le] at h1 h2
          omega
        · rw [AT.eraseL_length]; rfl
        · obtain ⟨_, u2, _⟩ := unwind_fields z { s with markers := cs ++ ms } s.cur.unwind
          exact u2


theorem sim_startCont {z : Sizes} (hz : z.Ok) : Sim z .startCont := by
  intro s f r lost st' HI hst hfine
  simp only [Spec.step, List.map_cons, Option.some.injEq] at hst
  subst hst
  simp only [B.step, B.startCont]
  obtain ⟨cs, ms', hm1, hm2, hm3, hm4⟩ := HI.marks
  -- the pointer for the first child
  obtain ⟨s1, e1, hh1, hh2, hh3, hle, hpos, hcont, hrest⟩ : ∃ s1 : B,
      (if s.cur.prod ≠ none ∧ s.cur.count = 0 then (s.allocate z (.ptr none)).map (·.2) else some s)
        = some s1
      ∧ s1.cur = s.cur ∧ (s1.markers = s.markers ∧ s1.root = s.root ∧ s1.size = s.size ∧ s1.depth = s.depth)
      ∧ (∀ (cs : Cells) (lo hi : Addr), Holds s.heap cs → Region z lo hi cs → Le hi (s.block, s.pos) →
          Holds s1.heap cs)
      ∧ Le (s.block, s.pos) (s1.block, s1.pos) ∧ s1.pos ≤ z.blk
      ∧ (∀ p id it, f.prod = some (p, id, it) → Le (slotEnd z p) (s1.block, s1.pos))
      ∧ Rest z s1.heap s.root f ms' r := by
    by_cases hc : s.cur.prod ≠ none ∧ s.cur.count = 0
    · have hk : f.kids = [] := List.eq_nil_of_length_eq_zero (by rw [← HI.top.mcount]; exact hc.2)
      have hp : f.prod ≠ none := by
        have := hc.1
        rw [HI.top.mprod] at this
        simpa using this
      have hcap : s.pos + z.ptr ≤ z.blk := HI.top.cap hp hk
        (hfine f.spec (r.map GF.spec) rfl (by simpa [spec_prod] using hp) (by rw [spec_kids, hk]; rfl))
      have A : Alloc z s z.ptr (.ptr none) (s.block, s.pos)
          { s with heap := s.heap.place z (s.block, s.pos) (.ptr none), pos := s.pos + z.ptr } :=
        ⟨rfl, Le.refl _, hcap, .inl rfl⟩
      refine ⟨{ s with heap := s.heap.place z (s.block, s.pos) (.ptr none), pos := s.pos + z.ptr },
        ?_, rfl, ⟨rfl, rfl, rfl, rfl⟩, ?_, .inr ⟨rfl, Nat.le_add_right _ _⟩, hcap, ?_, ?_⟩
      · rw [if_pos hc]
        unfold B.allocate
        rw [if_neg (by simp only [Cell.size]; omega)]
        rfl
      · intro cs lo hi h1 h2 h3
        exact A.holds hz h1 h2 h3
      · intro p id it hpp
        rcases HI.top.slotHi p id it hpp with ⟨_, hh⟩ | hh
        · simp only [behind, Prod.mk.injEq] at hh
          right
          simp only [slotEnd]; omega
        · exact hh.trans (.inr ⟨rfl, Nat.le_add_right _ _⟩)
      · exact A.rest hz hm4 HI.top.lohi
    · refine ⟨s, by rw [if_neg hc], rfl, ⟨rfl, rfl, rfl, rfl⟩, fun _ _ _ h _ _ => h, Le.refl _,
        HI.posLe, ?_, hm4⟩
      intro p id it hp
      rcases HI.top.slotHi p id it hp with ⟨hk, _⟩ | hh
      · exact absurd ⟨by rw [HI.top.mprod, hp]; simp, by rw [HI.top.mcount, hk]; rfl⟩ hc
      · exact hh
  rw [e1]
  simp only [Option.map_some]
  refine ⟨_, { prod := none, unwind := (s.block, s.pos), lo := (s1.block, s1.pos), depth := f.depth },
    f :: r, lost, rfl, ?_, rfl, hh2.2.1⟩
  refine ⟨hpos, ?_, ⟨[], s.cur :: (cs ++ ms'), ?_, rfl, nofun, ?_⟩, ?_, ?_, ?_⟩
  · refine { mprod := rfl, mcount := rfl, mfirst := rfl, mlast := rfl, munwind := rfl,
             mdepth := ?_, mmax := ?_, holds := nofun, region := nofun, lohi := Le.refl _, lop := nofun,
             slotIn := nofun, slotHi := nofun, slotKids := nofun, cap := fun h => absurd rfl h }
    · simp [Marker.new, hh1, HI.top.mdepth]
    · simp [Marker.new, Marker.finalDepth, hh1, HI.top.mdepth, AT.eraseL, PTree.heightL]
  · simp [hh1, hh2.1, hm1]
  · refine ⟨s.cur, cs, ms', rfl, hm2, hm3, ?_, ⟨hle, ?_, by simp, nofun⟩, ?_⟩
    · exact { HI.top with holds := hh3 _ _ _ HI.top.holds HI.top.region (Le.refl _) }
    · intro _ p id it hp; exact hcont p id it hp
    · simp only [hh2.2.1]; exact hrest
  · simpa [List.flatMap_cons, GF.addrs, GF.own, AT.addrs, AT.innerL] using HI.nodup
  · rw [sum_kids_cons]
    simp only [AT.eraseL, PTree.sizeL, List.length_nil, Nat.sub_self, Nat.zero_add, hh2.2.2.1]
    exact HI.size
  · simp only [hh2.2.2.2]; exact HI.depth

/-- The pointer written by `insert_children_into`. -/
theorem addrs_node (z : Sizes) (p : Addr) (id : Nat) (it : Bool) (kids : List AT) :
    (AT.addrs z [.node p id it kids]).Perm
      ((slotCell z p kids).map (·.1) ++ (p :: AT.addrs z kids)) := by
  simp only [AT.addrs, AT.innerL, AT.inner, List.map_cons, List.map_nil, List.map_append, AT.addr,
    List.append_nil, List.singleton_append, headCells_addr, List.append_assoc]
  exact List.perm_middle.symm

theorem slot_addr {z : Sizes} {p : Addr} {kids : List AT} {x : Addr}
    (hx : x ∈ (slotCell z p kids).map (·.1)) : x = behind z p ∧ adjOf z p kids = false := by
  unfold slotCell at hx
  split at hx
  · simp at hx
  · rename_i h; simp at hx; exact ⟨hx, by simpa using h⟩

theorem slot_nodup (z : Sizes) (p : Addr) (kids : List AT) : ((slotCell z p kids).map (·.1)).Nodup := by
  unfold slotCell; split <;> simp

theorem adjOf_nil {z : Sizes} {p : Addr} {kids : List AT} (h : adjOf z p kids = false) : kids ≠ [] := by
  rintro rfl; simp [adjOf] at h

theorem all_single (z : Sizes) (t : AT) : AT.all z [t] = (t.addr, t.cell z (none, true)) :: t.inner z := by
  simp [AT.all, headCells, AT.innerL]

theorem sim_finishProd {z : Sizes} (hz : z.Ok) : Sim z .finishProd := by
  intro s f r lost st' HI hst _
  simp only [Spec.step, List.map_cons, spec_trans, spec_prod, spec_kids] at hst
  simp only [B.step, B.finishProd, B.pop]
  cases ht : f.trans with
  | cons k ts =>
    obtain ⟨c, ms, e1, e2, e3⟩ := HI.pop_trans ht
    rw [ht] at hst
    simp only [Option.some.injEq] at hst
    rw [e1]
    simp only [Option.bind_some, e2, ne_eq, not_true_eq_false, and_false, if_false, if_true]
    refine ⟨_, _, _, _, rfl, e3, ?_, rfl⟩
    rw [← hst]; rfl
  | nil =>
    rw [ht] at hst
    cases hp : f.prod with
    | none => rw [hp] at hst; simp at hst
    | some q =>
      obtain ⟨p, id, it⟩ := q
      rw [hp] at hst
      cases r with
      | nil => simp at hst
      | cons g r =>
        simp only [Option.map_some, List.map_cons, Option.some.injEq, spec_kids] at hst
        subst hst
        obtain ⟨m, cs, ms, e1, e2, e3, e4, e5, e6⟩ := HI.pop_frame ht
        have hne := HI.prod_ne hp e4.mprod
        have hcp : s.cur.prod = some p := by rw [HI.top.mprod, hp]; rfl
        rw [e1]
        simp only [Option.bind_some]
        rw [if_neg (by rw [hcp]; simp), if_neg hne, hcp]
        simp only [Option.bind_some]
        have hnd := HI.nodup
        rw [List.flatMap_cons, List.nodup_append] at hnd
        have hown : f.own = [(p, .node ⟨none, true, .prod id it 0 true⟩)] := by simp [GF.own, hp]
        have hfa : f.addrs z = p :: AT.addrs z f.kids := by simp [GF.addrs, hown]
        have hfu : f.unwind = p := e5.unw p id it hp
        have hfl : f.lo = p := HI.top.lop p id it hp
        have hH := HI.top.holds
        rw [GF.cells, hown, Holds.append, Holds.append] at hH
        have hR := HI.top.region
        rw [GF.cells_eq, hown, Region.append, hfl] at hR
        -- the children become those of the production
        obtain ⟨h', he, hh, hkeep⟩ := Marker.insertChildrenInto_ok hz (h := s.heap) (m := s.cur)
          (kids := f.kids) (p := p) (id := id) (it := it) HI.top.mcount HI.top.mfirst HI.top.mlast
          (hH.1 (p, _) (List.mem_singleton_self _)) hH.2.1 hH.2.2 (by rw [← hfa]; exact hnd.1)
          (by
            intro hk
            rcases HI.top.slotKids p id it hp hk with h1 | h1
            · exact .inl h1
            · refine .inr ⟨HI.top.slotIn p id it hp, fun x hx => ?_⟩
              have := h1 x hx
              intro hb
              simp only [Le, slotEnd] at this
              omega)
        rw [he]
        simp only [Option.bind_some]
        have hb : ∀ g' ∈ g :: r, Holds s.heap (g'.cells z) → Region z g'.lo f.unwind (g'.cells z) →
            Holds h' (g'.cells z) := by
          intro g' hg' hh1 hh2 x hx
          have hxa : x.1 ∈ (g :: r).flatMap (GF.addrs z) := by
            rw [List.mem_flatMap]
            exact ⟨g', hg', by rw [← GF.cells_addr]; exact List.mem_map_of_mem hx⟩
          refine hkeep x.1 x.2 (hh1 x hx) ?_ ?_ ?_
          · intro e
            exact hnd.2.2 p (by simp [hfa]) x.1 hxa e.symm
          · intro e
            exact hnd.2.2 x.1 (by rw [hfa]; simp only [AT.addrs, List.mem_cons, List.mem_append]; exact .inr (.inl e)) x.1 hxa rfl
          · intro hb'
            have := (hh2 x hx).2
            rw [hfu] at this
            simp only [Le] at this
            left; omega
        have hG : FrameOk z h' p m g := by
          have := { e4 with holds := hb g (by simp) e4.holds e4.region }
          rw [hfu] at this
          exact this
        have hslotc : ∀ x ∈ slotCell z p f.kids, Le p x.1 ∧ Le (x.1.1, x.1.2 + x.2.size z) (s.block, s.pos) := by
          intro x hx
          have hx1 := slot_addr (List.mem_map_of_mem (f := (·.1)) hx)
          have hsz : x.2.size z = z.ptr := by
            unfold slotCell at hx
            split at hx
            · simp at hx
            · simp only [List.mem_singleton] at hx; rw [hx]; rfl
          have hkn := adjOf_nil hx1.2
          rcases HI.top.slotHi p id it hp with ⟨h1, _⟩ | h1
          · exact absurd h1 hkn
          · rw [hsz, hx1.1]
            exact ⟨.inr ⟨rfl, Nat.le_add_right _ _⟩, h1⟩
        have hreg : Region z p (s.block, s.pos) (AT.all z [.node p id it f.kids]) := by
          rw [all_single]
          intro x hx
          simp only [AT.inner, List.mem_cons, List.mem_append] at hx
          rcases hx with rfl | (hx | hx) | hx
          · have := (hR.1 (p, .node ⟨none, true, .prod id it 0 true⟩) (by simp)).2
            exact ⟨Le.refl _, this⟩
          · exact hslotc x hx
          · have h2 := (Region.append.1 hR.2).1
            exact (region_heads _ (some p, true)).2 ((region_heads _ _).1 h2) x hx
          · exact hR.2 x (by simp [AT.all, hx])
        have hslotfresh : ∀ x ∈ (slotCell z p f.kids).map (·.1), x ∉ (f :: g :: r).flatMap (GF.addrs z) := by
          intro x hx hm
          have hx1 := slot_addr hx
          have hkn := adjOf_nil hx1.2
          have hpp := hz.ptr_pos
          have hpr := hz.ptr_prod
          rw [List.flatMap_cons, List.mem_append] at hm
          rcases hm with hm | hm
          · rw [hfa, List.mem_cons] at hm
            rcases hm with hm | hm
            · rw [hx1.1] at hm
              have := congrArg Prod.snd hm
              simp only [behind] at this; omega
            · rcases HI.top.slotKids p id it hp hkn with h1 | h1
              · rw [h1] at hx1; exact Bool.noConfusion hx1.2
              · rw [← AT.all_addr, List.mem_map] at hm
                obtain ⟨y, hy, hyx⟩ := hm
                have := h1 y hy
                rw [hyx, hx1.1] at this
                simp only [Le, slotEnd, behind] at this; omega
          · obtain ⟨_, ms'', _, _, _, hr4⟩ := HI.marks
            have := hr4.below hz x hm
            rw [hfu, hx1.1] at this
            simp only [Le, behind] at this; omega
        have hperm : (({ g with kids := g.kids ++ [.node p id it f.kids] } :: r : List GF).flatMap
            (GF.addrs z)).Perm
              ((slotCell z p f.kids).map (·.1) ++ (f :: g :: r).flatMap (GF.addrs z)) := by
          simp only [List.flatMap_cons]
          have h1 : (GF.addrs z { g with kids := g.kids ++ [.node p id it f.kids] }).Perm
              (g.addrs z ++ ((slotCell z p f.kids).map (·.1) ++ f.addrs z)) := by
            simp only [GF.addrs]
            refine ((AT.addrs_perm z g.kids [.node p id it f.kids]).append_left _).trans ?_
            rw [List.append_assoc]
            refine List.Perm.append_left _ (List.Perm.append_left _ ?_)
            refine (addrs_node z p id it f.kids).trans ?_
            rw [hown]
            exact List.Perm.refl _
          refine (h1.append_right _).trans ?_
          simp only [← List.append_assoc]
          refine List.Perm.append_right _ ?_
          rw [List.append_assoc, List.append_assoc]
          refine List.perm_append_comm.trans ?_
          rw [List.append_assoc]
        have hnodup := hperm.nodup_iff.2 (by
          rw [List.nodup_append]
          exact ⟨slot_nodup _ _ _, HI.nodup, fun x hx y hy e => hslotfresh x hx (e ▸ hy)⟩)
        rw [Marker.insert_eq (z := z) (kids := g.kids) p (by exact hG.mfirst) (by exact hG.mlast)
          (Holds.append.1 (Holds.append.1 hG.holds).2).1]
        simp only [Option.map_some]
        have hmax1 := hG.mmax
        have hmax2 := HI.top.mmax
        have hd := hG.mdepth
        have hfd : f.depth = g.depth + 1 := by rw [e5.depth, hp]; simp
        have hF := hG.extend (ts := [.node p id it f.kids]) (hi' := (s.block, s.pos)) (m' :=
            { m with maxDepth := max m.maxDepth s.cur.finalDepth,
                     first := (g.kids.head?.map AT.addr).or (some p), last := some p,
                     count := m.count + 1 })
          hz nofun (HI.top.prod_le hp)
          (by rw [all_single]; exact hh)
          hreg
          (by
            intro q id' it' hq hk
            rcases hG.slotHi q id' it' hq with ⟨_, h1⟩ | h1
            · left; simp [adjOf, AT.addr, h1]
            · right; intro x hx; exact h1.trans (hreg x hx).1)
          (by
            have := hnodup
            rw [List.flatMap_cons, List.nodup_append] at this
            have h2 := this.1
            simp only [GF.addrs] at h2 ⊢
            exact (((AT.addrs_perm z g.kids [.node p id it f.kids]).append_left _).trans (by
              rw [List.append_assoc]; exact List.Perm.refl _)).nodup_iff.1 h2)
          rfl rfl (by cases g.kids <;> rfl) (by simp [AT.addr]) rfl rfl
          (by
            rw [AT.eraseL_append, PTree.heightL_append]
            simp only [AT.eraseL, AT.erase, PTree.heightL, PTree.height, Nat.max_zero]
            have hcnt := hG.mcount
            rw [hmax2, hfd]
            unfold Marker.finalDepth at hmax1 ⊢
            simp only
            have hgk : g.kids = [] ∨ 0 < m.count := by
              rw [hcnt]; cases g.kids <;> simp
            rcases hgk with hgk | hgk
            · rw [hgk] at hmax1 ⊢
              simp only [AT.eraseL, PTree.heightL] at hmax1 ⊢
              split at hmax1 <;> split <;> omega
            · have hpos : 0 < PTree.heightL (AT.eraseL g.kids) := by
                refine PTree.heightL_pos ?_
                rw [ne_eq, AT.eraseL_nil]; intro e; rw [e] at hcnt; simp at hcnt; omega
              split at hmax1 <;> split <;> omega)
        refine ⟨_, { g with kids := g.kids ++ [.node p id it f.kids] }, r, lost, rfl, ?_, ?_, rfl⟩
        · refine ⟨HI.posLe, hF, ⟨cs, ms, rfl, e2, e3, ?_⟩, hnodup, ?_, HI.depth⟩
          · refine (e6.keep (h' := h') ?_ rfl rfl rfl rfl).congr (fun x hx => linkHeap_other ?_) rfl rfl rfl rfl
            · intro g' hg' h1 h2
              refine hb g' (by simp [hg']) h1 ?_
              have : Le g.unwind f.unwind := (e6.unwind_le (List.ne_nil_of_mem hg')).trans e4.lohi
              exact h2.mono (Le.refl _) this
            · intro hmx
              have := hnd.2.1
              rw [List.flatMap_cons, List.nodup_append] at this
              exact this.2.2 x (by
                simp only [GF.addrs, AT.addrs, List.mem_append]; exact .inr (.inl hmx)) x hx rfl
          · have hs := HI.size
            rw [sum_kids_cons, sum_kids_cons] at hs
            rw [sum_kids_cons]
            have l1 := PTree.length_le_sizeL (AT.eraseL f.kids)
            have l2 := PTree.length_le_sizeL (AT.eraseL g.kids)
            rw [AT.eraseL_length] at l1 l2
            have hcnt := HI.top.mcount
            simp only [AT.eraseL_append, PTree.sizeL_append, AT.eraseL, AT.erase, PTree.sizeL,
              PTree.size, List.length_append, List.length_singleton]
            omega
        · simp [GF.spec, AT.eraseL_append, AT.eraseL, AT.erase]


theorem sim_finishCont {z : Sizes} (hz : z.Ok) : Sim z .finishCont := by
  intro s f r lost st' HI hst _
  simp only [Spec.step, List.map_cons, spec_trans, spec_prod, spec_kids] at hst
  simp only [B.step, B.finishCont, B.pop]
  cases ht : f.trans with
  | cons k ts => rw [ht] at hst; simp at hst
  | nil =>
    rw [ht] at hst
    cases hp : f.prod with
    | some q => rw [hp] at hst; simp at hst
    | none =>
      rw [hp] at hst
      cases r with
      | nil => simp at hst
      | cons g r =>
        simp only [Option.map_none, List.map_cons, Option.some.injEq, spec_kids] at hst
        subst hst
        obtain ⟨m, cs, ms, e1, e2, e3, e4, e5, e6⟩ := HI.pop_frame ht
        rw [e1]
        simp only [Option.bind_some]
        rw [if_neg (by rw [HI.top.mprod, hp]; simp)]
        rw [HI.top.mcount, HI.top.mfirst, HI.top.mlast]
        have hnd := HI.nodup
        rw [List.flatMap_cons, List.nodup_append] at hnd
        have hfd : f.depth = g.depth := by rw [e5.depth, hp]; simp
        have hmax1 := e4.mmax
        have hmax2 := HI.top.mmax
        have hd := e4.mdepth
        have hfa : f.addrs z = AT.addrs z f.kids := by simp [GF.addrs, GF.own, hp]
        have hle : Le f.unwind (s.block, s.pos) := e5.le.trans HI.top.lohi
        by_cases hk : f.kids = []
        · rw [hk]
          unfold Marker.insertList
          simp only [List.length_nil, if_true, Option.map_some]
          refine ⟨_, { g with empt := g.empt || (AT.eraseL g.kids).isEmpty }, r, lost, rfl, ?_, ?_, rfl⟩
          · refine ⟨HI.posLe, ?_, ⟨cs, ms, rfl, e2, e3, e6.congr (fun _ _ => rfl) rfl rfl rfl rfl⟩,
              hnd.2.1, ?_, HI.depth⟩
            · have : FrameOk z s.heap f.unwind { m with maxDepth := max m.maxDepth s.cur.finalDepth }
                  { g with empt := g.empt || (AT.eraseL g.kids).isEmpty } :=
                { e4 with
                  mmax := by
                    rw [hmax2, hfd, hk]
                    simp only [AT.eraseL, PTree.heightL, Nat.add_zero]
                    rw [← hmax1]
                    unfold Marker.finalDepth at hmax1 ⊢
                    simp only
                    have : max m.maxDepth g.depth = m.maxDepth := by
                      split at hmax1 <;> omega
                    rw [this]
                  cap := by
                    intro h1 h2 h3
                    exact e4.cap h1 h2 (by simp only [Bool.or_eq_false_iff] at h3; exact h3.1) }
              refine this.mono hle ?_ ?_
              · right; right; right
                intro p id it hpp
                exact (e5.cont hp p id it hpp).trans HI.top.lohi
              · intro _ h2 h3
                simp only at h2 h3
                rw [h2] at h3
                simp [AT.eraseL] at h3
            · have hs := HI.size
              rw [sum_kids_cons, hk] at hs
              simpa [AT.eraseL, PTree.sizeL] using hs
          · simp [GF.spec, AT.eraseL]
        · rw [Marker.insertList_eq (z := z) (kids := g.kids) hk e4.mfirst e4.mlast
            (Holds.append.1 (Holds.append.1 e4.holds).2).1]
          simp only [Option.map_some]
          have hcells : f.cells z = AT.all z f.kids := by simp [GF.cells_eq, GF.own, hp]
          have hH := HI.top.holds
          rw [hcells] at hH
          have hR := HI.top.region
          rw [hcells] at hR
          have hF := e4.extend (ts := f.kids) (hi' := (s.block, s.pos)) (m' :=
              { m with maxDepth := max m.maxDepth s.cur.finalDepth,
                       first := (g.kids ++ f.kids).head?.map AT.addr,
                       last := f.kids.getLast?.map AT.addr, count := m.count + f.kids.length })
            hz hk hle hH (hR.mono e5.le (Le.refl _))
            (by
              intro q id' it' hq _
              right
              intro x hx
              exact (e5.cont hp q id' it' hq).trans (hR x hx).1)
            (by
              have := hnd.2.1
              rw [List.flatMap_cons, List.nodup_append] at this
              rw [List.nodup_append, ← hfa]
              refine ⟨this.1, hnd.1, ?_⟩
              intro x hx y hy e
              exact hnd.2.2 y hy x (by simp [hx]) e.symm)
            rfl rfl rfl (by
              rw [List.getLast?_append]
              cases hl : f.kids.getLast? with
              | none => rw [List.getLast?_eq_none_iff] at hl; exact absurd hl hk
              | some l => rfl) rfl rfl
            (by
              rw [AT.eraseL_append, PTree.heightL_append]
              have hcnt := e4.mcount
              rw [hmax2, hfd]
              have hpos2 : 0 < PTree.heightL (AT.eraseL f.kids) :=
                PTree.heightL_pos (by rw [ne_eq, AT.eraseL_nil]; exact hk)
              unfold Marker.finalDepth at hmax1 ⊢
              simp only
              have hgk : g.kids = [] ∨ 0 < m.count := by
                rw [hcnt]; cases g.kids <;> simp
              rcases hgk with hgk | hgk
              · rw [hgk] at hmax1 ⊢
                simp only [AT.eraseL, PTree.heightL] at hmax1 ⊢
                split at hmax1 <;> split <;> omega
              · have hpos : 0 < PTree.heightL (AT.eraseL g.kids) := by
                  refine PTree.heightL_pos ?_
                  rw [ne_eq, AT.eraseL_nil]; intro e; rw [e] at hcnt; simp at hcnt; omega
                split at hmax1 <;> split <;> omega)
          refine ⟨_, { g with kids := g.kids ++ f.kids }, r, lost, rfl, ?_, ?_, rfl⟩
          · refine ⟨HI.posLe, hF, ⟨cs, ms, rfl, e2, e3, ?_⟩, ?_, ?_, HI.depth⟩
            · refine e6.congr (fun x hx => linkHeap_other ?_) rfl rfl rfl rfl
              intro hmx
              have := hnd.2.1
              rw [List.flatMap_cons, List.nodup_append] at this
              exact this.2.2 x (by
                simp only [GF.addrs, AT.addrs, List.mem_append]; exact .inr (.inl hmx)) x hx rfl
            · have hperm : (({ g with kids := g.kids ++ f.kids } :: r : List GF).flatMap
                  (GF.addrs z)).Perm ((f :: g :: r).flatMap (GF.addrs z)) := by
                simp only [List.flatMap_cons]
                rw [← List.append_assoc]
                refine List.Perm.append_right _ ?_
                rw [hfa]
                simp only [GF.addrs]
                refine ((AT.addrs_perm z g.kids f.kids).append_left _).trans ?_
                rw [← List.append_assoc]
                exact List.perm_append_comm
              exact hperm.nodup_iff.2 HI.nodup
            · have hs := HI.size
              rw [sum_kids_cons, sum_kids_cons] at hs
              rw [sum_kids_cons]
              have l1 := PTree.length_le_sizeL (AT.eraseL f.kids)
              have l2 := PTree.length_le_sizeL (AT.eraseL g.kids)
              rw [AT.eraseL_length] at l1 l2
              simp only [AT.eraseL_append, PTree.sizeL_append, List.length_append]
              omega
          · have : (AT.eraseL f.kids).isEmpty = false := by
              rw [Bool.eq_false_iff, ne_eq, List.isEmpty_iff, AT.eraseL_nil]; exact hk
            simp [GF.spec, AT.eraseL_append, this]

theorem sim_setCont {z : Sizes} (hz : z.Ok) (i : Info) : Sim z (.setCont i) := by
  intro s f r lost st' HI hst _
  simp only [Spec.step, List.map_cons, spec_trans, spec_prod, spec_kids] at hst
  simp only [B.step, B.setCont]
  cases ht : f.trans with
  | cons k ts => rw [ht] at hst; simp at hst
  | nil =>
    rw [ht] at hst
    cases hp : f.prod with
    | some q => rw [hp] at hst; simp at hst
    | none =>
      rw [hp] at hst
      simp only [Option.map_none] at hst
      rw [if_neg (by rw [HI.top.mprod, hp]; simp)]
      cases htr : i.transparent with
      | true =>
        rw [htr] at hst
        simp only [if_true, Option.some.injEq] at hst ⊢
        exact ⟨s, f, r, lost, rfl, HI, hst.symm, rfl⟩
      | false =>
        rw [htr] at hst
        simp only [Bool.false_eq_true, if_false, Option.some.injEq] at hst ⊢
        subst hst
        obtain ⟨cs, ms', hm1, hm2, hm3, hm4⟩ := HI.marks
        obtain ⟨a, s1, hal, A⟩ := alloc_ok (z := z) (s := s) (n := z.prod + z.ptr)
            (c := i.node) HI.posLe hz.prod_blk (by simp [Info.node, Cell.size, Data.size])
        rw [hal]
        simp only [Option.bind_some]
        have hroom := A.room
        have hcell : i.node.size z = z.prod := rfl
        have hs1 : s1.block = a.1 ∧ s1.pos = a.2 + z.prod := by rw [A.eq]; exact ⟨rfl, rfl⟩
        have A2 : Alloc z s1 z.ptr (.ptr none) (behind z a)
            { s1 with heap := s1.heap.place z (behind z a) (.ptr none), pos := a.2 + z.prod + z.ptr } := by
          refine ⟨?_, ?_, ?_, ?_⟩
          · simp [behind, Cell.size, hs1]
          · rw [hs1.1, hs1.2]; exact Le.refl _
          · simp only [behind]; omega
          · left; rw [hs1.1, hs1.2]; rfl
        have hal2 : s1.allocate z (.ptr none) = some (behind z a,
            { s1 with heap := s1.heap.place z (behind z a) (.ptr none), pos := a.2 + z.prod + z.ptr }) := by
          unfold B.allocate
          rw [if_neg (by simp only [Cell.size, hs1]; omega)]
          simp [hs1, behind, Cell.size]
        rw [hal2]
        simp only [Option.bind_some]
        have hc1 : s1.cur = s.cur := by rw [A.eq]
        rw [hc1]
        have hins : ∀ h, (Marker.new s.cur.unwind s.cur.depth).insert h a
            = some ({ Marker.new s.cur.unwind s.cur.depth with first := some a, last := some a, count := 1 }, h) := by
          intro h; rfl
        rw [hins]
        simp only [Option.bind_some]
        have hnd := HI.nodup
        rw [List.flatMap_cons, List.nodup_append] at hnd
        have hfresh : ∀ x ∈ (f :: r).flatMap (GF.addrs z), x ≠ a := by
          rintro x hx rfl
          exact Le.not_self hz (HI.below hz x hx) A.le
        have hfa : f.addrs z = AT.addrs z f.kids := by simp [GF.addrs, GF.own, hp]
        have hcells : f.cells z = AT.all z f.kids := by simp [GF.cells_eq, GF.own, hp]
        have hle1 : Le (s.block, s.pos) (s1.block, s1.pos) := by
          rw [hs1.1, hs1.2]; exact A.le.trans (.inr ⟨rfl, Nat.le_add_right _ _⟩)
        have hbeh : Le a (behind z a) := .inr ⟨rfl, Nat.le_add_right _ _⟩
        have hkeep2 : ∀ (cs : Cells) (lo hi : Addr), Holds s.heap cs → Region z lo hi cs →
            Le hi (s.block, s.pos) → Holds (s1.heap.place z (behind z a) (.ptr none)) cs := by
          intro cs lo hi h1 h2 h3
          exact A2.holds hz (A.holds hz h1 h2 h3) h2 (h3.trans hle1)
        have hH := hkeep2 _ _ _ HI.top.holds HI.top.region (Le.refl _)
        rw [hcells, AT.all, Holds.append] at hH
        have hR := HI.top.region
        rw [hcells] at hR
        have hno : ∀ (x : Addr) (c : Cell), Le (x.1, x.2 + c.size z) (s.block, s.pos) → NoOv z a x c := by
          intro x c hx hb
          have := hx.trans A.le
          simp only [Le] at this
          left; omega
        obtain ⟨h', he, hh, hkeep⟩ := Marker.insertChildrenInto_ok hz
          (h := s1.heap.place z (behind z a) (.ptr none)) (m := s.cur)
          (kids := f.kids) (p := a) (id := i.id) (it := i.isToken) HI.top.mcount HI.top.mfirst HI.top.mlast
          (by
            have hpa : s1.heap a = some i.node := by rw [A.eq]; exact place_same _ _ _ _
            refine place_other hpa ?_ ?_
            · intro e
              have := congrArg Prod.snd e
              have h1 := hz.ptr_pos
              have h2 := hz.ptr_prod
              simp only [behind] at this; omega
            · intro _; left; exact Nat.le_refl _)
          hH.1 hH.2
          (by
            rw [List.nodup_cons, ← hfa]
            exact ⟨fun hx => hfresh a (by simp [hx]) rfl, hnd.1⟩)
          (by
            intro _
            exact .inr ⟨by omega, fun x hx => hno _ _ (hR x hx).2⟩)
        rw [he]
        simp only [Option.map_some]
        have hreg : Region z f.lo (a.1, a.2 + z.prod + z.ptr) (AT.all z [.node a i.id i.isToken f.kids]) := by
          have hloa : Le f.lo a := HI.top.lohi.trans A.le
          have htop : Le (s.block, s.pos) (a.1, a.2 + z.prod + z.ptr) :=
            A.le.trans (.inr ⟨rfl, by simp only; omega⟩)
          rw [all_single]
          intro x hx
          simp only [AT.inner, List.mem_cons, List.mem_append] at hx
          rcases hx with rfl | (hx | hx) | hx
          · exact ⟨hloa, .inr ⟨rfl, by simp [AT.cell_size, AT.data, Data.size, AT.addr]⟩⟩
          · have hx1 := slot_addr (List.mem_map_of_mem (f := (·.1)) hx)
            have hsz : x.2.size z = z.ptr := by
              unfold slotCell at hx
              split at hx
              · simp at hx
              · simp only [List.mem_singleton] at hx; rw [hx]; rfl
            rw [hsz, hx1.1]
            exact ⟨hloa.trans hbeh, .inr ⟨rfl, by simp [behind]⟩⟩
          · have h2 := (Region.append.1 hR).1
            have := (region_heads _ (some a, true)).2 ((region_heads _ _).1 h2) x hx
            exact ⟨this.1, this.2.trans htop⟩
          · have := hR x (by simp [AT.all, hx])
            exact ⟨this.1, this.2.trans htop⟩
        refine ⟨_, { f with kids := [.node a i.id i.isToken f.kids] }, r, lost, rfl, ?_, ?_, ?_⟩
        · refine ⟨?_, ?_, ⟨cs, ms', ?_, hm2, ?_, ?_⟩, ?_, ?_, ?_⟩
          · simp only; omega
          · have hpos : (a.1, a.2 + z.prod + z.ptr) = (s1.block, a.2 + z.prod + z.ptr) := by rw [hs1.1]
            rw [hpos] at hreg
            refine { mprod := by simp [Marker.new, hp], mcount := rfl, mfirst := rfl, mlast := rfl,
                     munwind := ?_, mdepth := ?_, mmax := ?_, holds := ?_, region := ?_, lohi := ?_,
                     lop := by rw [hp]; nofun, slotIn := by rw [hp]; nofun,
                     slotHi := by rw [hp]; nofun, slotKids := by rw [hp]; nofun,
                     cap := fun h => absurd hp h }
            · exact HI.top.munwind
            · exact HI.top.mdepth
            · have := HI.top.mmax
              have hd := HI.top.mdepth
              rw [this]
              simp only [AT.eraseL, AT.erase, PTree.heightL, PTree.height, Nat.max_zero]
              unfold Marker.finalDepth
              have hne : ¬(s.cur.depth = f.depth + PTree.heightL (AT.eraseL f.kids) + 1 ∧ 0 < 1) := by
                rw [hd]; omega
              exact (if_neg hne).trans (Nat.add_assoc _ _ _)
            · have : (GF.cells z { f with kids := [.node a i.id i.isToken f.kids] })
                  = AT.all z [.node a i.id i.isToken f.kids] := by simp [GF.cells_eq, GF.own, hp]
              rw [this, all_single]
              exact hh
            · have : (GF.cells z { f with kids := [.node a i.id i.isToken f.kids] })
                  = AT.all z [.node a i.id i.isToken f.kids] := by simp [GF.cells_eq, GF.own, hp]
              rw [this]
              exact hreg
            · refine HI.top.lohi.trans (hle1.trans (.inr ⟨rfl, ?_⟩))
              simp only [hs1.2]; omega
          · rw [A.eq]; exact hm1
          · rw [HI.top.mprod, hp] at hm3
            exact hm3
          · have hroot : s1.root = s.root := by rw [A.eq]
            simp only [hroot]
            refine hm4.keep ?_ rfl rfl rfl rfl
            intro g hg h1 h2 x hx
            have hu := (hm4.unwind_le (List.ne_nil_of_mem hg)).trans HI.top.lohi
            have hxa : x.1 ∈ r.flatMap (GF.addrs z) := by
              rw [List.mem_flatMap]
              exact ⟨g, hg, by rw [← GF.cells_addr]; exact List.mem_map_of_mem hx⟩
            refine hkeep x.1 x.2 (hkeep2 _ _ _ h1 h2 hu x hx) ?_ ?_ ?_
            · exact hfresh x.1 (by rw [List.flatMap_cons]; exact List.mem_append_right _ hxa)
            · intro e
              exact hnd.2.2 x.1 (by
                rw [hfa]; simp only [AT.addrs, List.mem_append]; exact .inl e) x.1 hxa rfl
            · exact hno _ _ ((h2 x hx).2.trans hu)
          · have hperm : (({ f with kids := [.node a i.id i.isToken f.kids] } :: r : List GF).flatMap
                (GF.addrs z)).Perm
                ((slotCell z a f.kids).map (·.1) ++ (a :: (f :: r).flatMap (GF.addrs z))) := by
              simp only [List.flatMap_cons]
              have : GF.addrs z { f with kids := [.node a i.id i.isToken f.kids] }
                  = AT.addrs z [.node a i.id i.isToken f.kids] := by simp [GF.addrs, GF.own, hp]
              rw [this, hfa]
              refine ((addrs_node z a i.id i.isToken f.kids).append_right _).trans ?_
              rw [List.append_assoc]
              exact List.Perm.refl _
            rw [hperm.nodup_iff, List.nodup_append, List.nodup_cons]
            refine ⟨slot_nodup _ _ _, ⟨fun hx => hfresh a hx rfl, HI.nodup⟩, ?_⟩
            rintro x hx y hy rfl
            have hx1 := (slot_addr hx).1
            rw [List.mem_cons] at hy
            have h1 := hz.ptr_pos
            have h2 := hz.ptr_prod
            rcases hy with rfl | hy
            · have := congrArg Prod.snd hx1
              simp only [behind] at this; omega
            · have := HI.below hz x hy
              exact Le.not_self hz this (by rw [hx1]; exact A.le.trans hbeh)
          · have hs := HI.size
            rw [sum_kids_cons] at hs
            rw [sum_kids_cons]
            have l1 := PTree.length_le_sizeL (AT.eraseL f.kids)
            rw [AT.eraseL_length] at l1
            have hcnt := HI.top.mcount
            have hsz : s1.size = s.size := by rw [A.eq]
            simp only [AT.eraseL, AT.erase, PTree.sizeL, PTree.size, List.length_singleton, hsz]
            omega
          · have : s1.depth = s.depth := by rw [A.eq]
            simp only [this]; exact HI.depth
        · simp [GF.spec, AT.eraseL, AT.erase, hp, ht]
        · have : s1.root = s.root := by rw [A.eq]
          simp only [this]

/-- Every operation does what is documented. -/
theorem sim_step {z : Sizes} (hz : z.Ok) (op : Op) : Sim z op := by
  cases op with
  | startProd i => exact sim_startProd hz i
  | finishProd => exact sim_finishProd hz
  | cancelProd => exact sim_cancelProd hz
  | startCont => exact sim_startCont hz
  | setCont i => exact sim_setCont hz i
  | finishCont => exact sim_finishCont hz
  | cancelCont => exact sim_cancelCont hz
  | token k b e => exact sim_token hz k b e

theorem sim_run {z : Sizes} (hz : z.Ok) : ∀ (ops : List Op) {s : B} {f : GF} {r : List GF} {lost : Nat}
    {st' : Spec.St}, Inv z s f r lost → Spec.run ⟨(f :: r).map GF.spec, lost⟩ ops = some st' →
    Spec.FineRun ⟨(f :: r).map GF.spec, lost⟩ ops →
    ∃ s' f' r' lost', s.run z ops = some s' ∧ Inv z s' f' r' lost'
      ∧ st' = ⟨(f' :: r').map GF.spec, lost'⟩ ∧ s'.root = s.root := by
  intro ops
  induction ops with
  | nil =>
    intro s f r lost st' HI hst _
    simp only [Spec.run, Option.some.injEq] at hst
    exact ⟨s, f, r, lost, rfl, HI, hst.symm, rfl⟩
  | cons op ops ih =>
    intro s f r lost st' HI hst hf
    simp only [Spec.run] at hst
    cases h1 : Spec.step ⟨(f :: r).map GF.spec, lost⟩ op with
    | none => rw [h1] at hst; simp at hst
    | some st1 =>
      rw [h1] at hst
      obtain ⟨s1, f1, r1, lost1, e1, e2, e3, e4⟩ := sim_step hz op HI h1 hf.1
      have hf2 := hf.2 st1 h1
      subst e3
      obtain ⟨s2, f2, r2, lost2, g1, g2, g3, g4⟩ := ih e2 hst hf2
      exact ⟨s2, f2, r2, lost2, by simp [B.run, e1, g1], g2, g3, g4.trans e4⟩

/-- A new builder. -/
theorem new_ok {z : Sizes} (hz : z.Ok) (i : Info) (ht : i.transparent = false) :
    ∃ s f, B.new z i = some s ∧ Inv z s f [] 0 ∧ [f.spec] = (Spec.init i).frames ∧ s.root = (0, 0) := by
  unfold B.new B.allocate
  have h1 := hz.prod_blk
  have hcell : i.node.size z = z.prod := rfl
  rw [ht]
  simp only [Bool.false_eq_true, if_false]
  rw [if_neg (by rw [hcell]; omega)]
  simp only [Option.map_some]
  refine ⟨_, { prod := some ((0, 0), i.id, i.isToken), unwind := (0, z.prod), lo := (0, 0), depth := 0 },
    rfl, ?_, rfl, rfl⟩
  have hown : GF.cells z ⟨some ((0, 0), i.id, i.isToken), [], [], false, (0, z.prod), (0, 0), 0⟩
      = [((0, 0), i.node)] := by simp [GF.cells, GF.own, headCells, AT.innerL, Info.node]
  refine ⟨by simp only [hcell]; omega, ?_, ⟨[], [], rfl, rfl, nofun, rfl, rfl, rfl⟩,
    by simp [GF.addrs, GF.own, AT.addrs, AT.innerL], by simp [AT.eraseL, PTree.sizeL], rfl⟩
  simp only [hcell, Nat.zero_add]
  refine { mprod := rfl, mcount := rfl, mfirst := rfl, mlast := rfl, munwind := rfl, mdepth := rfl,
           mmax := by simp [Marker.new, Marker.finalDepth, AT.eraseL, PTree.heightL],
           holds := ?_, region := ?_, lohi := ?_, lop := ?_,
           slotIn := ?_, slotHi := ?_, slotKids := fun _ _ _ _ h => absurd rfl h, cap := ?_ }
  · rw [hown]
    intro x hx
    simp only [List.mem_singleton] at hx
    subst hx
    exact place_same _ _ _ _
  · rw [hown]
    intro x hx
    simp only [List.mem_singleton] at hx
    subst hx
    exact ⟨Le.refl _, .inr ⟨rfl, by simp [hcell]⟩⟩
  · exact .inr ⟨rfl, Nat.zero_le _⟩
  · intro p id it hp; simp only [Option.some.injEq, Prod.mk.injEq] at hp; rw [← hp.1]
  · intro p id it hp; simp only [Option.some.injEq, Prod.mk.injEq] at hp; rw [← hp.1]; simpa using h1
  · intro p id it hp; simp only [Option.some.injEq, Prod.mk.injEq] at hp
    exact .inl ⟨rfl, by rw [← hp.1]; simp [behind]⟩
  · intro _ _ _; simpa using h1

/-- The memory of a finished tree. -/
structure Stored (z : Sizes) (T : Tree) (t : AT) (eof : Addr) (b e : Nat) : Prop where
  root : T.root = t.addr
  cells : Holds T.heap ((t.addr, t.cell z (some eof, false)) :: t.inner z)
  last : T.heap eof = some (.node ⟨none, true, .tok eofKind b e⟩)
  nodup : (eof :: AT.addrs z [t]).Nodup
  isNode : ∃ a id it kids, t = .node a id it kids

theorem finish_ok {z : Sizes} (hz : z.Ok) {s : B} {f : GF} {lost : Nat} (HI : Inv z s f [] lost)
    (b e : Nat) : ∃ T t eof, s.finish z b e = some T ∧ Stored z T t eof b e
      ∧ (∃ p id it, f.prod = some (p, id, it) ∧ t = .node p id it f.kids)
      ∧ T.size = t.erase.size + lost ∧ T.depth = t.erase.height := by
  obtain ⟨cs, ms', _, _, _, hr1, hr2, hr3⟩ := HI.marks
  cases hp : f.prod with
  | none => rw [hp] at hr2; simp at hr2
  | some q =>
    obtain ⟨p, id, it⟩ := q
    rw [hp] at hr2
    simp only [Option.map_some, Option.some.injEq] at hr2
    have hnd := HI.nodup
    rw [List.flatMap_cons, List.flatMap_nil, List.append_nil] at hnd
    have hown : f.own = [(p, .node ⟨none, true, .prod id it 0 true⟩)] := by simp [GF.own, hp]
    have hfa : f.addrs z = p :: AT.addrs z f.kids := by simp [GF.addrs, hown]
    have hH := HI.top.holds
    rw [GF.cells, hown, Holds.append, Holds.append] at hH
    have hR := HI.top.region
    rw [GF.cells_eq, hown, Region.append] at hR
    have hfl : f.lo = p := HI.top.lop p id it hp
    obtain ⟨h', he, hh, _⟩ := Marker.insertChildrenInto_ok hz (h := s.heap) (m := s.cur)
      (kids := f.kids) (p := p) (id := id) (it := it) HI.top.mcount HI.top.mfirst HI.top.mlast
      (hH.1 (p, _) (List.mem_singleton_self _)) hH.2.1 hH.2.2 (by rw [← hfa]; exact hnd)
      (by
        intro hk
        rcases HI.top.slotKids p id it hp hk with h1 | h1
        · exact .inl h1
        · refine .inr ⟨HI.top.slotIn p id it hp, fun x hx => ?_⟩
          have := h1 x hx
          intro hb
          simp only [Le, slotEnd] at this
          omega)
    obtain ⟨a, s1, hal, A⟩ := alloc_ok (z := z) (s := { s with heap := h' }) (n := z.tok)
        (c := .node { data := .tok eofKind b e }) HI.posLe hz.tok_blk (Nat.le_refl _)
    have hreg : Region z p (s.block, s.pos) (AT.all z [.node p id it f.kids]) := by
      rw [all_single]
      rw [hfl] at hR
      intro x hx
      simp only [AT.inner, List.mem_cons, List.mem_append] at hx
      rcases hx with rfl | (hx | hx) | hx
      · have := (hR.1 (p, .node ⟨none, true, .prod id it 0 true⟩) (by simp)).2
        exact ⟨Le.refl _, this⟩
      · have hx1 := slot_addr (List.mem_map_of_mem (f := (·.1)) hx)
        have hsz : x.2.size z = z.ptr := by
          unfold slotCell at hx
          split at hx
          · simp at hx
          · simp only [List.mem_singleton] at hx; rw [hx]; rfl
        have hkn := adjOf_nil hx1.2
        rcases HI.top.slotHi p id it hp with ⟨h1, _⟩ | h1
        · exact absurd h1 hkn
        · rw [hsz, hx1.1]
          exact ⟨.inr ⟨rfl, Nat.le_add_right _ _⟩, h1⟩
      · have h2 := (Region.append.1 hR.2).1
        exact (region_heads _ (some p, true)).2 ((region_heads _ _).1 h2) x hx
      · exact hR.2 x (by simp [AT.all, hx])
    have hfreshA : a ∉ AT.addrs z [.node p id it f.kids] := by
      intro hx
      rw [← AT.all_addr, List.mem_map] at hx
      obtain ⟨x, hx, rfl⟩ := hx
      have h1 := (hreg x hx).2
      have h2 := hz.cell_pos x.2
      refine Le.not_self hz (b := (s.block, s.pos)) ?_ A.le
      simp only [Le] at h1 ⊢; omega
    have hnodup : (AT.addrs z [.node p id it f.kids]).Nodup := by
      refine (addrs_node z p id it f.kids).nodup_iff.2 ?_
      rw [List.nodup_append, ← hfa]
      refine ⟨slot_nodup _ _ _, hnd, ?_⟩
      rintro x hx y hm rfl
      have hx1 := slot_addr hx
      have hkn := adjOf_nil hx1.2
      have hpp := hz.ptr_pos
      have hpr := hz.ptr_prod
      rw [hfa, List.mem_cons] at hm
      rcases hm with hm | hm
      · rw [hx1.1] at hm
        have := congrArg Prod.snd hm
        simp only [behind] at this; omega
      · rcases HI.top.slotKids p id it hp hkn with h1 | h1
        · rw [h1] at hx1; exact Bool.noConfusion hx1.2
        · rw [← AT.all_addr, List.mem_map] at hm
          obtain ⟨y, hy, hyx⟩ := hm
          have := h1 y hy
          rw [hyx, hx1.1] at this
          simp only [Le, slotEnd, behind] at this; omega
    have hall : Holds s1.heap (AT.all z [.node p id it f.kids]) := by
      refine A.holds hz ?_ hreg (Le.refl _)
      rw [all_single]; exact hh
    rw [all_single] at hall
    have hroot := hall (p, (AT.node p id it f.kids).cell z (none, true)) (by simp [AT.addr])
    unfold B.finish
    rw [if_neg (by rw [HI.top.mprod, hp, ← hr2]; simp)]
    have hr : s.root = p := hr2.symm
    have he' : s.cur.insertChildrenInto z s.heap s.root = some h' := by rw [hr]; exact he
    rw [he']
    simp only [Option.bind_some]
    rw [hal]
    simp only [Option.bind_some]
    rw [hr, modify_eq _ hroot]
    simp only [Option.map_some]
    refine ⟨_, .node p id it f.kids, a, rfl, ⟨rfl, ?_, ?_, List.nodup_cons.2 ⟨hfreshA, hnodup⟩,
      ⟨p, id, it, f.kids, rfl⟩⟩, ⟨p, id, it, rfl, rfl⟩, ?_, ?_⟩
    · intro x hx
      rw [List.mem_cons] at hx
      rcases hx with rfl | hx
      · simp [AT.addr, Node.setSibling, AT.cell]
      · simp only
        rw [if_neg]
        · exact hall x (by simp [hx])
        · intro ex
          have h1 := hnodup
          simp only [AT.addrs, List.map_cons, List.map_nil, AT.addr, List.singleton_append,
            List.nodup_cons] at h1
          have hm := List.mem_map_of_mem (f := (·.1)) hx
          rw [ex] at hm
          exact h1.1 (by simpa [AT.innerL] using hm)
    · simp only
      rw [if_neg]
      · rw [A.eq]; exact place_same _ _ _ _
      · rintro rfl
        exact hfreshA (by simp [AT.addrs, AT.addr])
    · have hs := HI.size
      rw [sum_kids_cons] at hs
      have l1 := PTree.length_le_sizeL (AT.eraseL f.kids)
      rw [AT.eraseL_length] at l1
      have hcnt := HI.top.mcount
      simp only [AT.erase, PTree.size, List.map_nil, List.sum_nil] at hs ⊢
      omega
    · have hm := HI.top.mmax
      have hd := HI.depth
      simp only [hm, hd, hr3, AT.erase, PTree.height]
      omega

end Verif.PT
