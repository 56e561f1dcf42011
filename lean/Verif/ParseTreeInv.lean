import Verif.ParseTree

/-!
# The builder of parse trees builds the tree described by the operations

The specification (`Spec`) is the documentation of `parse_tree::builder`: a stack of active nodes
with lists of children.  The invariant relates it to the memory.
-/

namespace Verif.PT

/-- A tree as the user sees it. -/
inductive PTree
  | tok (kind b e : Nat)
  | node (id : Nat) (isToken : Bool) (kids : List PTree)

mutual
def PTree.decEq : (a b : PTree) → Decidable (a = b)
  | .tok k b e, .tok k' b' e' =>
    if h : k = k' ∧ b = b' ∧ e = e' then .isTrue (by rw [h.1, h.2.1, h.2.2])
    else .isFalse (by intro g; cases g; exact h ⟨rfl, rfl, rfl⟩)
  | .tok .., .node .. => .isFalse (by intro g; cases g)
  | .node .., .tok .. => .isFalse (by intro g; cases g)
  | .node i t l, .node i' t' l' =>
    if h : i = i' ∧ t = t' then
      match PTree.decEqL l l' with
      | .isTrue g => .isTrue (by rw [h.1, h.2, g])
      | .isFalse g => .isFalse (by intro e; cases e; exact g rfl)
    else .isFalse (by intro g; cases g; exact h ⟨rfl, rfl⟩)
def PTree.decEqL : (a b : List PTree) → Decidable (a = b)
  | [], [] => .isTrue rfl
  | [], _ :: _ => .isFalse (by intro g; cases g)
  | _ :: _, [] => .isFalse (by intro g; cases g)
  | a :: l, b :: m =>
    match PTree.decEq a b, PTree.decEqL l m with
    | .isTrue g, .isTrue h => .isTrue (by rw [g, h])
    | .isFalse g, _ => .isFalse (by intro e; cases e; exact g rfl)
    | _, .isFalse g => .isFalse (by intro e; cases e; exact g rfl)
end

instance : DecidableEq PTree := PTree.decEq

mutual
/-- The number of nodes. -/
def PTree.size : PTree → Nat
  | .tok .. => 1
  | .node _ _ kids => sizeL kids + 1
def PTree.sizeL : List PTree → Nat
  | [] => 0
  | t :: ts => t.size + sizeL ts
end

mutual
/-- The number of steps to the deepest node below. -/
def PTree.height : PTree → Nat
  | .tok .. => 0
  | .node _ _ kids => heightL kids
/-- The same for an additional node above. -/
def PTree.heightL : List PTree → Nat
  | [] => 0
  | t :: ts => max (t.height + 1) (heightL ts)
end

namespace Spec

/-- A node under construction: a production (with the name given) or a container; its children; and
    for every open transparent production in it the children it had at its start. -/
structure Frame where
  prod : Option (Nat × Bool)
  kids : List PTree := []
  trans : List (List PTree) := []
  /-- An empty container was finished in it before it had children. -/
  empt : Bool := false

/-- The active node first.  `lost` counts the nodes below the children of cancelled nodes. -/
structure St where
  frames : List Frame
  lost : Nat := 0

/-- Adding a token to a list of children: error tokens are merged, some kinds are ignored if
    empty. -/
def addToken (kids : List PTree) (kind b e : Nat) : List PTree :=
  if ignoreIfEmpty kind ∧ b = e then kids
  else match kids.getLast? with
    | some (.tok k b' _) =>
      if kind = errorKind ∧ k = errorKind then kids.dropLast ++ [.tok k b' e]
      else kids ++ [.tok kind b e]
    | _ => kids ++ [.tok kind b e]

/-- The documentation of the builder.  `none`: the active node is not the one required. -/
def step (s : St) : Op → Option St
  | .startProd i =>
    match s.frames with
    | f :: r =>
      if i.transparent then some { s with frames := { f with trans := f.kids :: f.trans } :: r }
      else some { s with frames := { prod := some (i.id, i.isToken) } :: f :: r }
    | [] => none
  | .finishProd =>
    match s.frames with
    | f :: r =>
      match f.trans, f.prod, r with
      | _ :: ts, _, _ => some { s with frames := { f with trans := ts } :: r }
      | [], some (id, it), g :: r =>
        some { s with frames := { g with kids := g.kids ++ [.node id it f.kids] } :: r }
      | _, _, _ => none
    | [] => none
  | .cancelProd =>
    match s.frames with
    | f :: r =>
      match f.trans, f.prod, r with
      | k :: ts, _, _ => some { s with frames := { f with kids := k, trans := ts } :: r }
      | [], some _, _ :: _ =>
        some { frames := r, lost := s.lost + (PTree.sizeL f.kids - f.kids.length) }
      | _, _, _ => none
    | [] => none
  | .startCont =>
    match s.frames with
    | [] => none
    | fs => some { s with frames := { prod := none } :: fs }
  | .setCont i =>
    match s.frames with
    | f :: r =>
      match f.trans, f.prod with
      | [], none =>
        if i.transparent then some s
        else some { s with frames := { f with kids := [.node i.id i.isToken f.kids] } :: r }
      | _, _ => none
    | [] => none
  | .finishCont =>
    match s.frames with
    | f :: r =>
      match f.trans, f.prod, r with
      | [], none, g :: r =>
        some { s with frames := { g with kids := g.kids ++ f.kids,
                                         empt := g.empt || (g.kids.isEmpty && f.kids.isEmpty) } :: r }
      | _, _, _ => none
    | [] => none
  | .cancelCont =>
    match s.frames with
    | f :: r =>
      match f.trans, f.prod, r with
      | [], none, _ :: _ =>
        some { frames := r, lost := s.lost + (PTree.sizeL f.kids - f.kids.length) }
      | _, _, _ => none
    | [] => none
  | .token k b e =>
    match s.frames with
    | f :: r => some { s with frames := { f with kids := addToken f.kids k b e } :: r }
    | [] => none

def run (s : St) : List Op → Option St
  | [] => some s
  | op :: ops => (step s op).bind (run · ops)

/-- The operations the code gets wrong are left out:
    cancelling a transparent production that has added children; cancelling an empty container;
    starting a container in a production without children that had an empty container before. -/
def Fine (s : St) : Op → Prop
  | .cancelProd => ∀ f r k ts, s.frames = f :: r → f.trans = k :: ts → k = f.kids
  | .cancelCont => ∀ f r, s.frames = f :: r → f.kids ≠ []
  | .startCont => ∀ f r, s.frames = f :: r → f.prod ≠ none → f.kids = [] → f.empt = false
  | _ => True

def FineRun (s : St) : List Op → Prop
  | [] => True
  | op :: ops => Fine s op ∧ ∀ s', step s op = some s' → FineRun s' ops

/-- The tree built: only the root may be open at the end. -/
def finished (s : St) : Option PTree :=
  match s.frames with
  | [f] => match f.trans, f.prod with
    | [], some (id, it) => some (.node id it f.kids)
    | _, _ => none
  | _ => none

def init (root : Info) : St := { frames := [{ prod := some (root.id, root.isToken) }] }

end Spec

/-- The sizes are sensible. -/
structure Sizes.Ok (z : Sizes) : Prop where
  ptr_pos : 0 < z.ptr
  ptr_tok : z.ptr ≤ z.tok
  ptr_prod : z.ptr ≤ z.prod
  tok_blk : z.tok ≤ z.blk
  prod_blk : z.prod + z.ptr ≤ z.blk

theorem Sizes.x64_ok : Sizes.x64.Ok := by constructor <;> decide

/-! ### Trees with addresses -/

inductive AT
  | tok (a : Addr) (kind b e : Nat)
  | node (a : Addr) (id : Nat) (isToken : Bool) (kids : List AT)

def AT.addr : AT → Addr
  | .tok a .. => a
  | .node a .. => a

mutual
def AT.erase : AT → PTree
  | .tok _ k b e => .tok k b e
  | .node _ id it kids => .node id it (eraseL kids)
def AT.eraseL : List AT → List PTree
  | [] => []
  | t :: ts => t.erase :: eraseL ts
end

theorem AT.eraseL_eq (l : List AT) : AT.eraseL l = l.map AT.erase := by
  induction l with
  | nil => rfl
  | cons t ts ih => simp [AT.eraseL, ih]

/-- Whether the first child is stored behind the production. -/
def adjOf (z : Sizes) (a : Addr) (kids : List AT) : Bool :=
  match kids with
  | [] => true
  | t :: _ => decide (t.addr = behind z a)

def AT.data (z : Sizes) : AT → Data
  | .tok _ k b e => .tok k b e
  | .node a id it kids => .prod id it kids.length (adjOf z a kids)

/-- The object of a node with a given next pointer. -/
def AT.cell (z : Sizes) (t : AT) (nx : Option Addr × Bool) : Cell := .node ⟨nx.1, nx.2, t.data z⟩

abbrev Cells := List (Addr × Cell)

/-- The objects of a list of siblings; `nx` is the next pointer of the last one. -/
def headCells (z : Sizes) : List AT → Option Addr × Bool → Cells
  | [], _ => []
  | [t], nx => [(t.addr, t.cell z nx)]
  | t :: u :: r, nx => (t.addr, t.cell z (some u.addr, false)) :: headCells z (u :: r) nx

/-- The pointer to the first child, if it is not behind the production. -/
def slotCell (z : Sizes) (a : Addr) (kids : List AT) : Cells :=
  if adjOf z a kids then [] else [(behind z a, .ptr (kids.head?.map AT.addr))]

mutual
/-- The objects below a node. -/
def AT.inner (z : Sizes) : AT → Cells
  | .tok .. => []
  | .node a _ _ kids => slotCell z a kids ++ headCells z kids (some a, true) ++ innerL z kids
def AT.innerL (z : Sizes) : List AT → Cells
  | [] => []
  | t :: ts => t.inner z ++ innerL z ts
end

theorem AT.innerL_append (z : Sizes) (l m : List AT) :
    AT.innerL z (l ++ m) = AT.innerL z l ++ AT.innerL z m := by
  induction l with
  | nil => rfl
  | cons t ts ih => simp [AT.innerL, ih]

theorem headCells_append (z : Sizes) (l : List AT) (t : AT) (m : List AT) (nx : Option Addr × Bool) :
    headCells z (l ++ t :: m) nx = headCells z l (some t.addr, false) ++ headCells z (t :: m) nx := by
  induction l with
  | nil => rfl
  | cons u l ih =>
    cases l with
    | nil => simp [headCells]
    | cons v l => simp only [List.cons_append, headCells] at ih ⊢; rw [ih]

theorem headCells_single (z : Sizes) (t : AT) (nx : Option Addr × Bool) :
    headCells z [t] nx = [(t.addr, t.cell z nx)] := rfl

theorem headCells_addr (z : Sizes) (l : List AT) (nx : Option Addr × Bool) :
    (headCells z l nx).map (·.1) = l.map AT.addr := by
  induction l with
  | nil => rfl
  | cons t l ih =>
    cases l with
    | nil => rfl
    | cons u l => simp only [headCells, List.map_cons] at ih ⊢; rw [ih]

/-- The addresses of a list of siblings and of everything below. -/
def AT.addrs (z : Sizes) (l : List AT) : List Addr := l.map AT.addr ++ (AT.innerL z l).map (·.1)

def Holds (h : Heap) (cs : Cells) : Prop := ∀ x ∈ cs, h x.1 = some x.2

theorem Holds.append {h : Heap} {a b : Cells} : Holds h (a ++ b) ↔ Holds h a ∧ Holds h b := by
  simp only [Holds, List.mem_append]
  constructor
  · intro H; exact ⟨fun x hx => H x (.inl hx), fun x hx => H x (.inr hx)⟩
  · rintro ⟨H1, H2⟩ x (hx | hx)
    · exact H1 x hx
    · exact H2 x hx

theorem Holds.congr {h h' : Heap} {cs : Cells} (H : Holds h cs)
    (hh : ∀ a ∈ cs.map (·.1), h' a = h a) : Holds h' cs := by
  intro x hx
  rw [hh x.1 (List.mem_map_of_mem hx)]
  exact H x hx

/-! ### Order of addresses -/

/-- The order in which the memory is used. -/
def Le (a b : Addr) : Prop := a.1 < b.1 ∨ (a.1 = b.1 ∧ a.2 ≤ b.2)

theorem Le.refl (a : Addr) : Le a a := .inr ⟨rfl, Nat.le_refl _⟩

theorem Le.trans {a b c : Addr} (h1 : Le a b) (h2 : Le b c) : Le a c := by
  simp only [Le] at *; omega

/-- All objects lie in a part of the memory. -/
def Region (z : Sizes) (lo hi : Addr) (cs : Cells) : Prop :=
  ∀ x ∈ cs, Le lo x.1 ∧ Le (x.1.1, x.1.2 + x.2.size z) hi

theorem Region.append {z : Sizes} {lo hi : Addr} {a b : Cells} :
    Region z lo hi (a ++ b) ↔ Region z lo hi a ∧ Region z lo hi b := by
  simp only [Region, List.mem_append]
  constructor
  · intro H; exact ⟨fun x hx => H x (.inl hx), fun x hx => H x (.inr hx)⟩
  · rintro ⟨H1, H2⟩ x (hx | hx)
    · exact H1 x hx
    · exact H2 x hx

theorem Region.mono {z : Sizes} {lo hi lo' hi' : Addr} {cs : Cells} (H : Region z lo hi cs)
    (h1 : Le lo' lo) (h2 : Le hi hi') : Region z lo' hi' cs := fun x hx =>
  ⟨h1.trans (H x hx).1, (H x hx).2.trans h2⟩

theorem Sizes.Ok.data_pos {z : Sizes} (hz : z.Ok) (d : Data) : z.ptr ≤ d.size z := by
  cases d with
  | tok => exact hz.ptr_tok
  | prod => exact hz.ptr_prod

theorem Sizes.Ok.cell_pos {z : Sizes} (hz : z.Ok) (c : Cell) : z.ptr ≤ c.size z := by
  cases c with
  | node n => exact hz.data_pos n.data
  | ptr => exact Nat.le_refl _

theorem AT.cell_size (z : Sizes) (t : AT) (nx : Option Addr × Bool) :
    (t.cell z nx).size z = (t.data z).size z := rfl

/-- The region of siblings does not depend on the next pointers. -/
theorem region_heads {z : Sizes} {lo hi : Addr} (l : List AT) (nx : Option Addr × Bool) :
    Region z lo hi (headCells z l nx) ↔
      ∀ t ∈ l, Le lo t.addr ∧ Le (t.addr.1, t.addr.2 + (t.data z).size z) hi := by
  induction l with
  | nil => simp [headCells, Region]
  | cons t l ih =>
    cases l with
    | nil => simp [headCells, Region, AT.cell_size]
    | cons u l =>
      have : headCells z (t :: u :: l) nx
          = [(t.addr, t.cell z (some u.addr, false))] ++ headCells z (u :: l) nx := rfl
      rw [this, Region.append, ih]
      simp [Region, AT.cell_size]

theorem place_same (z : Sizes) (h : Heap) (a : Addr) (c : Cell) : h.place z a c a = some c := by
  simp [Heap.place]

theorem place_other {z : Sizes} {h : Heap} {a x : Addr} {c c' : Cell} (hx : h x = some c')
    (hne : x ≠ a) (hno : x.1 = a.1 → x.2 + c'.size z ≤ a.2 ∨ a.2 + c.size z ≤ x.2) :
    h.place z a c x = some c' := by
  simp only [Heap.place, if_neg hne, hx]
  rw [if_neg]
  rintro ⟨h1, h2, h3⟩
  rcases hno h1 with h4 | h4 <;> omega

/-- Placing an object behind a region. -/
theorem Holds.place {z : Sizes} (hz : z.Ok) {h : Heap} {cs : Cells} {lo hi a : Addr} {c : Cell}
    (H : Holds h cs) (hr : Region z lo hi cs) (ha : Le hi a) : Holds (h.place z a c) cs := by
  intro x hx
  have h1 := (hr x hx).2.trans ha
  have h2 := hz.cell_pos x.2
  have h3 := hz.ptr_pos
  refine place_other (H x hx) ?_ ?_
  · rintro rfl
    simp only [Le] at h1; omega
  · intro he
    simp only [Le] at h1; omega

/-- Placing an object in front of a region. -/
theorem Holds.place_front {z : Sizes} (hz : z.Ok) {h : Heap} {cs : Cells} {a : Addr} {c : Cell}
    (H : Holds h cs) (hr : ∀ x ∈ cs, Le (a.1, a.2 + c.size z) x.1) : Holds (h.place z a c) cs := by
  intro x hx
  have h1 := hr x hx
  have h2 := hz.cell_pos c
  have h3 := hz.ptr_pos
  refine place_other (H x hx) ?_ ?_
  · rintro rfl
    simp only [Le] at h1; omega
  · intro he
    simp only [Le] at h1; omega

theorem modify_eq {h : Heap} {a : Addr} {n : Node} (f : Node → Node) (ha : h a = some (.node n)) :
    h.modify a f = some fun x => if x = a then some (.node (f n)) else h x := by
  simp [Heap.modify, Heap.get, ha]

theorem Holds.set_other {h : Heap} {a : Addr} {c : Cell} {cs : Cells} (H : Holds h cs)
    (ha : a ∉ cs.map (·.1)) : Holds (fun x => if x = a then some c else h x) cs := by
  refine H.congr fun b hb => ?_
  rw [if_neg]
  rintro rfl; exact ha hb

/-! ### The invariant -/

/-- A node under construction, with the addresses. -/
structure GF where
  prod : Option (Addr × Nat × Bool)
  kids : List AT := []
  trans : List (List PTree) := []
  empt : Bool := false
  unwind : Addr
  lo : Addr
  depth : Nat

def GF.spec (f : GF) : Spec.Frame :=
  { prod := f.prod.map (·.2), kids := AT.eraseL f.kids, trans := f.trans, empt := f.empt }

def GF.own (f : GF) : Cells :=
  match f.prod with
  | none => []
  | some (p, id, it) => [(p, .node ⟨none, true, .prod id it 0 true⟩)]

def GF.cells (z : Sizes) (f : GF) : Cells :=
  f.own ++ (headCells z f.kids (none, true) ++ AT.innerL z f.kids)

def GF.addrs (z : Sizes) (f : GF) : List Addr := f.own.map (·.1) ++ AT.addrs z f.kids

theorem GF.cells_addr (z : Sizes) (f : GF) : (f.cells z).map (·.1) = f.addrs z := by
  simp [GF.cells, GF.addrs, AT.addrs, headCells_addr]

/-- Behind the pointer that may follow a production. -/
def slotEnd (z : Sizes) (p : Addr) : Addr := (p.1, p.2 + z.prod + z.ptr)

/-- What holds of the marker and the memory of one frame; its memory ends at `hi`. -/
structure FrameOk (z : Sizes) (h : Heap) (hi : Addr) (m : Marker) (f : GF) : Prop where
  mprod : m.prod = f.prod.map (·.1)
  mcount : m.count = f.kids.length
  mfirst : m.first = f.kids.head?.map AT.addr
  mlast : m.last = f.kids.getLast?.map AT.addr
  munwind : m.unwind = f.unwind
  mdepth : m.depth = f.depth
  mmax : m.finalDepth = f.depth + PTree.heightL (AT.eraseL f.kids)
  holds : Holds h (f.cells z)
  region : Region z f.lo hi (f.cells z)
  lohi : Le f.lo hi
  lop : ∀ p id it, f.prod = some (p, id, it) → f.lo = p
  slotIn : ∀ p id it, f.prod = some (p, id, it) → p.2 + z.prod + z.ptr ≤ z.blk
  slotHi : ∀ p id it, f.prod = some (p, id, it) →
    (f.kids = [] ∧ hi = behind z p) ∨ Le (slotEnd z p) hi
  slotKids : ∀ p id it, f.prod = some (p, id, it) → f.kids ≠ [] →
    adjOf z p f.kids = true ∨
      ∀ x ∈ headCells z f.kids (none, true) ++ AT.innerL z f.kids, Le (slotEnd z p) x.1
  cap : f.prod ≠ none → f.kids = [] → f.empt = false → hi.2 + z.ptr ≤ z.blk

/-- How a frame lies on the one below. -/
structure Link (z : Sizes) (f g : GF) : Prop where
  le : Le f.unwind f.lo
  cont : f.prod = none → ∀ p id it, g.prod = some (p, id, it) → Le (slotEnd z p) f.lo
  depth : f.depth = g.depth + if f.prod = none then 0 else 1
  unw : ∀ p id it, f.prod = some (p, id, it) → f.unwind = p

/-- The frames below `f` and the markers kept for them. -/
def Rest (z : Sizes) (h : Heap) (root : Addr) (f : GF) (ms : List Marker) : List GF → Prop
  | [] => ms = [] ∧ f.prod.map (·.1) = some root ∧ f.depth = 0
  | g :: r => ∃ m cs ms', ms = m :: (cs ++ ms') ∧ cs.length = g.trans.length
      ∧ (∀ c ∈ cs, c.prod = m.prod) ∧ FrameOk z h f.unwind m g ∧ Link z f g
      ∧ Rest z h root g ms' r

structure Inv (z : Sizes) (s : B) (f : GF) (r : List GF) (lost : Nat) : Prop where
  posLe : s.pos ≤ z.blk
  top : FrameOk z s.heap (s.block, s.pos) s.cur f
  marks : ∃ cs ms', s.markers = cs ++ ms' ∧ cs.length = f.trans.length
    ∧ (∀ c ∈ cs, c.prod = s.cur.prod) ∧ Rest z s.heap s.root f ms' r
  nodup : ((f :: r).flatMap (GF.addrs z)).Nodup
  size : s.size = 1 + ((f :: r).map fun g => PTree.sizeL (AT.eraseL g.kids) - g.kids.length).sum + lost
  depth : s.depth = 0

theorem Rest.congr {z : Sizes} {h h' : Heap} {root : Addr} {f f' : GF} {ms : List Marker} :
    ∀ {r : List GF}, Rest z h root f ms r → (∀ a ∈ r.flatMap (GF.addrs z), h' a = h a) →
    f'.unwind = f.unwind → f'.lo = f.lo → f'.prod = f.prod → f'.depth = f.depth →
    Rest z h' root f' ms r := by
  intro r
  induction r generalizing f f' ms with
  | nil =>
    rintro ⟨h1, h2, h3⟩ _ _ _ e3 e4
    exact ⟨h1, by rw [e3]; exact h2, by rw [e4]; exact h3⟩
  | cons g r ih =>
    rintro ⟨m, cs, ms', h1, h2, h3, h4, h5, h6⟩ hh e1 e2 e3 e4
    refine ⟨m, cs, ms', h1, h2, h3, ?_, ?_, ih h6 (fun a ha => hh a (by simp [ha])) rfl rfl rfl rfl⟩
    · rw [e1]
      exact { h4 with holds := h4.holds.congr fun a ha => hh a (by
        rw [GF.cells_addr] at ha; simp [ha]) }
    · exact ⟨by rw [e1, e2]; exact h5.le, by rw [e3, e2]; exact h5.cont, by rw [e3, e4]; exact h5.depth,
        by rw [e3, e1]; exact h5.unw⟩

/-- A frame whose memory may end later. -/
theorem FrameOk.mono {z : Sizes} {h : Heap} {hi hi' : Addr} {m : Marker} {f : GF}
    (H : FrameOk z h hi m f) (hle : Le hi hi')
    (hs : hi' = hi ∨ f.prod = none ∨ f.kids ≠ [] ∨ ∀ p id it, f.prod = some (p, id, it) → Le (slotEnd z p) hi')
    (hc : f.prod ≠ none → f.kids = [] → f.empt = false → hi'.2 + z.ptr ≤ z.blk) :
    FrameOk z h hi' m f :=
  { H with
    region := H.region.mono (Le.refl _) hle
    lohi := H.lohi.trans hle
    slotHi := by
      intro p id it hp
      rcases hs with rfl | hs | hs | hs
      · exact H.slotHi p id it hp
      · rw [hp] at hs; cases hs
      · rcases H.slotHi p id it hp with h1 | h1
        · exact absurd h1.1 hs
        · exact .inr (h1.trans hle)
      · exact .inr (hs p id it hp)
    cap := hc }


/-! ### Linking siblings -/

/-- The memory after giving the last of some siblings a next sibling. -/
def linkHeap (z : Sizes) (h : Heap) (kids : List AT) (a : Addr) : Heap :=
  match kids.getLast? with
  | none => h
  | some l => fun x => if x = l.addr then some (l.cell z (some a, false)) else h x

theorem linkHeap_other {z : Sizes} {h : Heap} {kids : List AT} {a x : Addr}
    (hx : x ∉ kids.map AT.addr) : linkHeap z h kids a x = h x := by
  unfold linkHeap
  cases hl : kids.getLast? with
  | none => rfl
  | some l =>
    simp only []
    rw [if_neg]
    rintro rfl
    exact hx (List.mem_map_of_mem (List.mem_of_getLast? hl))

theorem getLast?_split {α : Type} {l : List α} {x : α} (h : l.getLast? = some x) :
    ∃ i, l = i ++ [x] := by
  rw [List.getLast?_eq_some_iff] at h; exact h

/-- Linking a list of new siblings to the present ones. -/
theorem Holds.link {z : Sizes} {h : Heap} {kids ts : List AT} (hts : ts ≠ [])
    (H1 : Holds h (headCells z kids (none, true))) (H2 : Holds h (headCells z ts (none, true)))
    (hnd : ((kids ++ ts).map AT.addr).Nodup) :
    Holds (linkHeap z h kids (ts.head hts).addr) (headCells z (kids ++ ts) (none, true)) := by
  cases ts with
  | nil => exact absurd rfl hts
  | cons t ts =>
    rw [List.map_append, List.nodup_append] at hnd
    rw [headCells_append, Holds.append]
    refine ⟨?_, H2.congr fun a ha => linkHeap_other ?_⟩
    · unfold linkHeap
      cases hl : kids.getLast? with
      | none =>
        rw [List.getLast?_eq_none_iff] at hl
        subst hl
        exact nofun
      | some l =>
        obtain ⟨i, rfl⟩ := getLast?_split hl
        rw [headCells_append, Holds.append] at H1 ⊢
        simp only [List.head_cons]
        refine ⟨H1.1.set_other ?_, ?_⟩
        · rw [headCells_addr]
          have := hnd.1
          rw [List.map_append, List.nodup_append] at this
          intro hm
          exact this.2.2 _ hm _ (by simp) rfl
        · intro x hx
          simp only [headCells, List.mem_cons, List.not_mem_nil, or_false] at hx
          subst hx
          simp
    · rw [headCells_addr] at ha
      exact fun hm => hnd.2.2 _ hm _ ha rfl

theorem Marker.insert_eq {z : Sizes} {h : Heap} {m : Marker} {kids : List AT} (a : Addr)
    (hf : m.first = kids.head?.map AT.addr) (hl : m.last = kids.getLast?.map AT.addr)
    (H : Holds h (headCells z kids (none, true))) :
    m.insert h a = some ({ m with first := ((kids.head?.map AT.addr).or (some a)),
                                  last := some a, count := m.count + 1 },
      linkHeap z h kids a) := by
  unfold Marker.insert linkHeap
  cases hk : kids.getLast? with
  | none =>
    rw [List.getLast?_eq_none_iff] at hk
    subst hk
    simp [hf]
  | some l =>
    obtain ⟨i, rfl⟩ := getLast?_split hk
    have hn : (i ++ [l]).head? ≠ none := by simp
    obtain ⟨b, hb⟩ := Option.ne_none_iff_exists'.1 hn
    rw [hf, hb]
    simp only [Option.map_some, hl, hk, Option.bind_some]
    rw [headCells_append, Holds.append] at H
    have := H.2 (l.addr, l.cell z (none, true)) (by simp [headCells])
    simp only [AT.cell] at this
    rw [modify_eq _ this]
    simp only [Option.map_some, Node.setSibling, AT.cell, Option.some_or]

theorem Marker.insertList_eq {z : Sizes} {h : Heap} {m : Marker} {kids ts : List AT} (hts : ts ≠ [])
    (hf : m.first = kids.head?.map AT.addr) (hl : m.last = kids.getLast?.map AT.addr)
    (H : Holds h (headCells z kids (none, true))) :
    m.insertList h ts.length (ts.head?.map AT.addr) (ts.getLast?.map AT.addr) =
      some ({ m with first := ((kids ++ ts).head?.map AT.addr),
                     last := ts.getLast?.map AT.addr, count := m.count + ts.length },
        linkHeap z h kids (ts.head hts).addr) := by
  have hlen : ts.length ≠ 0 := by simpa using hts
  have hh : ts.head? = some (ts.head hts) := List.head?_eq_some_head hts
  unfold Marker.insertList linkHeap
  rw [if_neg hlen]
  cases hk : kids.getLast? with
  | none =>
    rw [List.getLast?_eq_none_iff] at hk
    subst hk
    simp [hf]
  | some l =>
    obtain ⟨i, rfl⟩ := getLast?_split hk
    have hn : (i ++ [l]).head? ≠ none := by simp
    obtain ⟨b, hb⟩ := Option.ne_none_iff_exists'.1 hn
    rw [hf, hb]
    simp only [Option.map_some, hl, hk, Option.bind_some, hh]
    rw [headCells_append, Holds.append] at H
    have := H.2 (l.addr, l.cell z (none, true)) (by simp [headCells])
    simp only [AT.cell] at this
    rw [modify_eq _ this]
    simp only [Option.map_some, Node.setSibling, AT.cell, Option.some.injEq,
      Prod.mk.injEq, and_true]
    rw [List.head?_append, hb]; rfl

/-- The slot of a production does not overlap with an object. -/
def NoOv (z : Sizes) (p x : Addr) (c : Cell) : Prop :=
  x.1 = p.1 → x.2 + c.size z ≤ p.2 + z.prod ∨ p.2 + z.prod + z.ptr ≤ x.2

/-- `insert_children_into` turns the children collected into those of the production. -/
theorem Marker.insertChildrenInto_ok {z : Sizes} (hz : z.Ok) {h : Heap} {m : Marker}
    {kids : List AT} {p : Addr} {id : Nat} {it : Bool}
    (hc : m.count = kids.length) (hf : m.first = kids.head?.map AT.addr)
    (hl : m.last = kids.getLast?.map AT.addr)
    (hp : h p = some (.node ⟨none, true, .prod id it 0 true⟩))
    (H1 : Holds h (headCells z kids (none, true))) (H2 : Holds h (AT.innerL z kids))
    (hnd : (p :: AT.addrs z kids).Nodup)
    (hslot : kids ≠ [] → adjOf z p kids = true ∨ (p.2 + z.prod + z.ptr ≤ z.blk ∧
      ∀ x ∈ headCells z kids (none, true) ++ AT.innerL z kids, NoOv z p x.1 x.2)) :
    ∃ h', m.insertChildrenInto z h p = some h'
      ∧ Holds h' ((p, (AT.node p id it kids).cell z (none, true)) :: (AT.node p id it kids).inner z)
      ∧ ∀ x c, h x = some c → x ≠ p → x ∉ kids.map AT.addr → NoOv z p x c → h' x = some c := by
  have hcc : childCount h p = some 0 := by simp [childCount, Heap.get, hp]
  have hpp := hz.ptr_pos
  have hpr := hz.ptr_prod
  unfold Marker.insertChildrenInto
  rw [hcc]
  simp only [Option.bind_some, ne_eq, not_true_eq_false, if_false, hc]
  cases hk : kids.getLast? with
  | none =>
    rw [List.getLast?_eq_none_iff] at hk
    subst hk
    refine ⟨h, by simp, ?_, fun x c hx _ _ _ => hx⟩
    intro x hx
    simp only [AT.inner, slotCell, adjOf, if_true, headCells, AT.innerL, List.append_nil,
      List.mem_cons, List.not_mem_nil, or_false] at hx
    subst hx
    exact hp
  | some l =>
    obtain ⟨i, rfl⟩ := getLast?_split hk
    have hne : i ++ [l] ≠ [] := by simp
    have hlen : (i ++ [l]).length ≠ 0 := by simp
    rw [if_neg hlen]
    rw [List.nodup_cons] at hnd
    obtain ⟨hpn, hnd⟩ := hnd
    rw [AT.addrs, List.mem_append, not_or] at hpn
    have hadj : decide (m.first = some (behind z p)) = adjOf z p (i ++ [l]) := by
      rw [hf]
      cases i with
      | nil => simp [adjOf]
      | cons t i => simp [adjOf]
    rw [hadj]
    -- the pointer to the first child
    obtain ⟨h1, e1, q1, q2, q3, q4⟩ : ∃ h1, (if adjOf z p (i ++ [l]) = true then some h
        else if (behind z p).2 + z.ptr ≤ z.blk then
          some (h.place z (behind z p) (.ptr m.first)) else none) = some h1
        ∧ Holds h1 (headCells z (i ++ [l]) (none, true) ++ AT.innerL z (i ++ [l]))
        ∧ Holds h1 (slotCell z p (i ++ [l]))
        ∧ h1 p = h p
        ∧ ∀ x c, h x = some c → NoOv z p x c → h1 x = some c := by
      by_cases ha : adjOf z p (i ++ [l]) = true
      · refine ⟨h, by rw [if_pos ha], Holds.append.2 ⟨H1, H2⟩, ?_, rfl, fun x c hx _ => hx⟩
        simp [slotCell, ha, Holds]
      · rcases hslot hne with hs | ⟨hs1, hs2⟩
        · exact absurd hs ha
        · have key : ∀ x c, h x = some c → NoOv z p x c →
              h.place z (behind z p) (.ptr m.first) x = some c := by
            intro x c hx hno
            have hcs := hz.cell_pos c
            refine place_other hx ?_ ?_
            · rintro rfl
              have := hno rfl
              simp only [behind] at this; omega
            · intro he
              have := hno he
              have hs : (Cell.ptr m.first).size z = z.ptr := rfl
              rw [hs]; simp only [behind]; omega
          refine ⟨_, by rw [if_neg ha, if_pos (by simpa [behind] using hs1)], ?_, ?_, ?_, key⟩
          · intro x hx
            exact key _ _ (Holds.append.2 ⟨H1, H2⟩ x hx) (hs2 x hx)
          · intro x hx
            simp only [slotCell, if_neg ha, List.mem_cons, List.not_mem_nil, or_false] at hx
            subst hx
            rw [place_same, hf]
          · rw [key p _ hp (fun _ => .inl (by simp [Cell.size, Data.size])), hp]
    rw [e1]
    simp only [Option.bind_some]
    have hpl : p ≠ l.addr := fun e => hpn.1 (by simp [← e])
    rw [modify_eq _ (q3.trans hp)]
    simp only [Option.bind_some, hl, hk, Option.map_some, Node.setAdjacent]
    have hlast : h1 l.addr = some (l.cell z (none, true)) := by
      refine q1 (l.addr, l.cell z (none, true)) ?_
      rw [headCells_append]; simp [headCells]
    rw [modify_eq (n := ⟨none, true, l.data z⟩) _ (by
      rw [if_neg (Ne.symm hpl)]; exact hlast)]
    simp only [Option.bind_some, Node.setParent]
    rw [modify_eq (n := ⟨none, true, .prod id it 0 (adjOf z p (i ++ [l]))⟩) _ (by
      simp [hpl])]
    refine ⟨_, rfl, ?_, ?_⟩
    · intro x hx
      simp only [Node.setCount]
      simp only [AT.inner, List.mem_cons, List.mem_append] at hx
      have hnd' := hnd
      simp only [AT.addrs, List.nodup_append] at hnd'
      rcases hx with rfl | (hx | hx) | hx
      · simp [AT.cell, AT.data]
      · have hx1 : x.1 = behind z p := by
          simp only [slotCell] at hx
          split at hx
          · simp at hx
          · simp only [List.mem_cons, List.not_mem_nil, or_false] at hx; rw [hx]
        have n1 : x.1 ≠ p := by
          rw [hx1]; intro e
          have := congrArg Prod.snd e
          simp only [behind] at this; omega
        have n2 : x.1 ≠ l.addr := by
          intro e
          have := q2 x hx
          rw [e, hlast] at this
          simp only [slotCell] at hx
          split at hx
          · simp at hx
          · simp only [List.mem_cons, List.not_mem_nil, or_false] at hx
            rw [hx] at this
            simp [AT.cell] at this
        rw [if_neg n1, if_neg n2, if_neg n1]
        exact q2 x hx
      · have n1 : x.1 ≠ p := by
          intro e
          refine hpn.1 ?_
          have := List.mem_map_of_mem (f := (·.1)) hx
          rw [headCells_addr, e] at this
          simpa using this
        rw [headCells_append, List.mem_append] at hx
        rcases hx with hx | hx
        · have n2 : x.1 ≠ l.addr := by
            intro e
            have := List.mem_map_of_mem (f := (·.1)) hx
            rw [headCells_addr, e] at this
            have h2 := hnd'.1
            rw [List.map_append, List.nodup_append] at h2
            exact h2.2.2 _ this _ (by simp) rfl
          rw [if_neg n1, if_neg n2, if_neg n1]
          refine q1 x ?_
          rw [headCells_append]; simp [hx]
        · simp only [headCells, List.mem_cons, List.not_mem_nil, or_false] at hx
          subst hx
          simp [Ne.symm hpl, AT.cell]
      · have n1 : x.1 ≠ p := by
          intro e
          refine hpn.2 ?_
          rw [← e]
          exact List.mem_map_of_mem hx
        have n2 : x.1 ≠ l.addr := by
          intro e
          exact hnd'.2.2 l.addr (by simp) x.1 (List.mem_map_of_mem hx) e.symm
        rw [if_neg n1, if_neg n2, if_neg n1]
        exact q1 x (by simp [hx])
    · intro x c hx n1 n2 hno
      have n3 : x ≠ l.addr := fun e => n2 (by simp [e])
      rw [if_neg n1, if_neg n3, if_neg n1]
      exact q4 x c hx hno

end Verif.PT
