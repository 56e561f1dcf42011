/-!
# Parse trees

Models `include/lexy/parse_tree.hpp`: the stack allocator, the builder and the node accessors, on
the level of memory.

An address is the number of a block and a byte offset in it; blocks are numbered in the order of
their allocation.  Placing an object in memory destroys the objects it overlaps with, so that
reading one of them later is undefined behaviour (`none`).

Simplifications: `pt_node::_value` packs the next pointer, the role bit and the type bit into one
word; here they are separate, which assumes aligned pointers (l.84-93).  Positions are offsets into
the input, as in the other files; token sizes below 2^32 and child counts below 2^62 are assumed
(l.133-136, l.518-520).  A builder starts with an empty tree; starting with an existing one reuses its first
block, see `ParseTreeBlocks.lean`.
-/

namespace Verif.PT

/-- `sizeof` of the objects placed in the buffer and the usable size of a block, l.193. -/
structure Sizes where
  tok : Nat
  prod : Nat
  ptr : Nat
  blk : Nat

/-- A 64-bit machine and an input whose iterators are pointers. -/
def Sizes.x64 : Sizes := ⟨24, 24, 8, 4088⟩

abbrev Addr := Nat × Nat

/-- The payload of a node: `pt_node_token`, l.101-143, or `pt_node_production`, l.145-181. -/
inductive Data
  | tok (kind b e : Nat)
  | prod (id : Nat) (isToken : Bool) (count : Nat) (adjacent : Bool)
  deriving DecidableEq

/-- `pt_node`, l.30-98: `up` is `next_role() == role_parent`. -/
structure Node where
  next : Option Addr := none
  up : Bool := true
  data : Data
  deriving DecidableEq

/-- An object in the buffer: a node, or the pointer to the first child behind a production. -/
inductive Cell
  | node (n : Node)
  | ptr (a : Option Addr)
  deriving DecidableEq

def Data.size (z : Sizes) : Data → Nat
  | .tok .. => z.tok
  | .prod .. => z.prod

def Cell.size (z : Sizes) : Cell → Nat
  | .node n => n.data.size z
  | .ptr _ => z.ptr

abbrev Heap := Addr → Option Cell

/-- Placement new: what overlaps with the new object is gone. -/
def Heap.place (z : Sizes) (h : Heap) (a : Addr) (c : Cell) : Heap := fun x =>
  if x = a then some c
  else match h x with
    | none => none
    | some c' =>
      if x.1 = a.1 ∧ x.2 < a.2 + c.size z ∧ a.2 < x.2 + c'.size z then none else some c'

/-- Reading a node. -/
def Heap.get (h : Heap) (a : Addr) : Option Node :=
  match h a with
  | some (.node n) => some n
  | _ => none

/-- Changing a node in place. -/
def Heap.modify (h : Heap) (a : Addr) (f : Node → Node) : Option Heap :=
  (h.get a).map fun n x => if x = a then some (.node (f n)) else h x

/-- `set_sibling`, l.56-59. -/
def Node.setSibling (s : Addr) (n : Node) : Node := { n with next := some s, up := false }

/-- `set_parent`, l.60-63. -/
def Node.setParent (p : Addr) (n : Node) : Node := { n with next := some p, up := true }

/-- The address behind a production. -/
def behind (z : Sizes) (a : Addr) : Addr := (a.1, a.2 + z.prod)

/-- `pt_node_production::first_child`, l.162-181. -/
def firstChild (z : Sizes) (h : Heap) (a : Addr) : Option (Option Addr) :=
  (h.get a).bind fun n =>
    match n.data with
    | .tok .. => none
    | .prod _ _ count adjacent =>
      if count = 0 then some none
      else if adjacent then some (some (behind z a))
      else match h (behind z a) with
        | some (.ptr p) => some p
        | _ => none

/-- `builder::marker`, l.422-449. -/
structure Marker where
  unwind : Addr
  prod : Option Addr := none
  count : Nat := 0
  first : Option Addr := none
  last : Option Addr := none
  depth : Nat
  maxDepth : Nat

/-- `marker(unwind_pos, cur_depth, prod)`, l.445-449. -/
def Marker.new (unwind : Addr) (depth : Nat) (prod : Option Addr := none) : Marker :=
  { unwind, prod, depth, maxDepth := depth }

/-- `marker::insert`, l.458-474. -/
def Marker.insert (m : Marker) (h : Heap) (child : Addr) : Option (Marker × Heap) :=
  match m.first with
  | none => some ({ m with first := some child, last := some child, count := m.count + 1 }, h)
  | some _ =>
    m.last.bind fun l =>
      (h.modify l (Node.setSibling child)).map fun h =>
        ({ m with last := some child, count := m.count + 1 }, h)

/-- `marker::insert_list`, l.475-493. -/
def Marker.insertList (m : Marker) (h : Heap) (length : Nat) (first last : Option Addr) :
    Option (Marker × Heap) :=
  if length = 0 then some (m, h)
  else match m.first with
    | none => some ({ m with first := first, last := last, count := m.count + length }, h)
    | some _ =>
      m.last.bind fun l => first.bind fun f =>
        (h.modify l (Node.setSibling f)).map fun h =>
          ({ m with last := last, count := m.count + length }, h)

def Node.setAdjacent (adj : Bool) (n : Node) : Node :=
  match n.data with
  | .prod id t c _ => { n with data := .prod id t c adj }
  | _ => n

def Node.setCount (c : Nat) (n : Node) : Node :=
  match n.data with
  | .prod id t _ adj => { n with data := .prod id t c adj }
  | _ => n

/-- The child count of a production. -/
def childCount (h : Heap) (a : Addr) : Option Nat :=
  (h.get a).bind fun n => match n.data with
    | .prod _ _ c _ => some c
    | _ => none

/-- `marker::insert_children_into`, l.495-521. -/
def Marker.insertChildrenInto (z : Sizes) (m : Marker) (h : Heap) (parent : Addr) : Option Heap :=
  (childCount h parent).bind fun c =>
    if c ≠ 0 then none
    else if m.count = 0 then some h
    else
      let adj := decide (m.first = some (behind z parent))
      (if adj then some h
        else if (behind z parent).2 + z.ptr ≤ z.blk then
          some (h.place z (behind z parent) (.ptr m.first))
        else none).bind fun h =>
      (h.modify parent (Node.setAdjacent adj)).bind fun h =>
      m.last.bind fun l =>
      (h.modify l (Node.setParent parent)).bind fun h =>
      h.modify parent (Node.setCount m.count)

/-- The local maximal depth as `update_size_depth` leaves it, l.527-529. -/
def Marker.finalDepth (m : Marker) : Nat :=
  if m.depth = m.maxDepth ∧ 0 < m.count then m.maxDepth + 1 else m.maxDepth

/-- A `production_info`. -/
structure Info where
  id : Nat
  isToken : Bool := false
  transparent : Bool := false
  deriving DecidableEq

/-- `parse_tree::builder` with the `pt_buffer` of its tree, l.320-324, l.750-752; and the
    markers returned by the `start_` functions, which the caller passes back innermost first. -/
structure B where
  heap : Heap
  block : Nat
  pos : Nat
  root : Addr
  size : Nat
  depth : Nat
  cur : Marker
  markers : List Marker := []

/-- `pt_buffer::reserve`, l.266-275. -/
def B.reserve (z : Sizes) (s : B) (n : Nat) : B :=
  if z.blk - s.pos < n then { s with block := s.block + 1, pos := 0 } else s

/-- `pt_buffer::allocate`, l.277-289: the address of the object. -/
def B.allocate (z : Sizes) (s : B) (c : Cell) : Option (Addr × B) :=
  if z.blk - s.pos < c.size z then none
  else some ((s.block, s.pos),
    { s with heap := s.heap.place z (s.block, s.pos) c, pos := s.pos + c.size z })

/-- `pt_buffer::unwind`, l.296-312. -/
def B.unwind (z : Sizes) (s : B) (a : Addr) : B :=
  if a.1 = s.block ∧ a.2 < z.blk then { s with pos := a.2 } else { s with pos := 0 }

/-- A new production node, l.155-160. -/
def Info.node (i : Info) : Cell := .node { data := .prod i.id i.isToken 0 true }

/-- `builder(parse_tree(), production)`, l.539-554. -/
def B.new (z : Sizes) (i : Info) : Option B :=
  if i.transparent then none
  else
    let s : B := { heap := fun _ => none, block := 0, pos := 0, root := (0, 0), size := 1, depth := 0,
                   cur := Marker.new (0, 0) 0 }
    (s.allocate z i.node).map fun (a, s) =>
      { s with root := a, cur := Marker.new (s.block, s.pos) 0 (some a) }

/-- Some predefined token kinds, grammar.hpp l.82-95. -/
def unknownKind : Nat := 65535
def errorKind : Nat := 65534
def whitespaceKind : Nat := 65533
def positionKind : Nat := 65530
def eofKind : Nat := 65529

/-- `token_kind::ignore_if_empty`, token.hpp l.165-169. -/
def ignoreIfEmpty (k : Nat) : Bool := k = unknownKind ∨ k = errorKind ∨ k = whitespaceKind

/-- The operations of the builder. -/
inductive Op
  | startProd (i : Info)
  | finishProd
  | cancelProd
  | startCont
  | setCont (i : Info)
  | finishCont
  | cancelCont
  | token (kind b e : Nat)
  deriving DecidableEq

/-- Taking back the marker of the innermost open production or container. -/
def B.pop (s : B) : Option (Marker × B) :=
  match s.markers with
  | [] => none
  | m :: ms => some (m, { s with markers := ms })

/-- `start_production`, l.583-603. -/
def B.startProd (z : Sizes) (s : B) (i : Info) : Option B :=
  if i.transparent then some { s with markers := s.cur :: s.markers }
  else
    ((s.reserve z (z.prod + z.ptr)).allocate z i.node).map fun (a, s) =>
      { s with markers := s.cur :: s.markers, cur := Marker.new a (s.cur.depth + 1) (some a) }

/-- `finish_production`, l.605-618. -/
def B.finishProd (z : Sizes) (s : B) : Option B :=
  s.pop.bind fun (m, s) =>
    if s.cur.prod = none ∧ m.prod ≠ s.cur.prod then none
    else if m.prod = s.cur.prod then some s
    else
      let m := { m with maxDepth := max m.maxDepth s.cur.finalDepth }
      s.cur.prod.bind fun p =>
        (s.cur.insertChildrenInto z s.heap p).bind fun h =>
          (m.insert h p).map fun (m, h) =>
            { s with size := s.size + s.cur.count, heap := h, cur := m }

/-- `cancel_production`, l.620-630. -/
def B.cancelProd (z : Sizes) (s : B) : Option B :=
  s.pop.bind fun (m, s) =>
    if s.cur.prod = none ∧ m.prod ≠ s.cur.prod then none
    else if s.cur.prod = m.prod then some s
    else some { s.unwind z s.cur.unwind with cur := m }

/-- `start_container`, l.633-650. -/
def B.startCont (z : Sizes) (s : B) : Option B :=
  let top := (s.block, s.pos)
  (if s.cur.prod ≠ none ∧ s.cur.count = 0 then (s.allocate z (.ptr none)).map (·.2) else some s).map
    fun s => { s with markers := s.cur :: s.markers, cur := Marker.new top s.cur.depth }

/-- `set_container_production`, l.652-688. -/
def B.setCont (z : Sizes) (s : B) (i : Info) : Option B :=
  if s.cur.prod ≠ none then none
  else if i.transparent then some s
  else
    ((s.reserve z (z.prod + z.ptr)).allocate z i.node).bind fun (a, s) =>
    (s.allocate z (.ptr none)).bind fun (_, s) =>
    ((Marker.new s.cur.unwind s.cur.depth).insert s.heap a).bind fun (m, h) =>
    (s.cur.insertChildrenInto z h a).map fun h =>
      { s with heap := h, size := s.size + s.cur.count,
               cur := { m with maxDepth := s.cur.finalDepth + 1 } }

/-- `finish_container`, l.690-704. -/
def B.finishCont (s : B) : Option B :=
  s.pop.bind fun (m, s) =>
    if s.cur.prod ≠ none then none
    else
      (m.insertList s.heap s.cur.count s.cur.first s.cur.last).map fun (m, h) =>
        { s with heap := h, cur := { m with maxDepth := max m.maxDepth s.cur.finalDepth } }

/-- `cancel_container`, l.706-714. -/
def B.cancelCont (z : Sizes) (s : B) : Option B :=
  s.pop.bind fun (m, s) =>
    if s.cur.prod ≠ none then none
    else some { s.unwind z s.cur.unwind with cur := m }

/-- Extending a token, `update_end`, l.130-142. -/
def Node.setEnd (e : Nat) (n : Node) : Node :=
  match n.data with
  | .tok k b _ => { n with data := .tok k b e }
  | _ => n

/-- Whether the last child is an error token, l.725-727. -/
def B.lastIsError (s : B) : Option Bool :=
  match s.cur.last with
  | none => some false
  | some l => (s.heap.get l).map fun n => match n.data with
    | .tok k _ _ => k = errorKind
    | _ => false

/-- `token`, l.717-741. -/
def B.token (z : Sizes) (s : B) (kind b e : Nat) : Option B :=
  if ignoreIfEmpty kind ∧ b = e then some s
  else s.lastIsError.bind fun err =>
    if kind = errorKind ∧ err then
      s.cur.last.bind fun l => (s.heap.modify l (Node.setEnd e)).map fun h => { s with heap := h }
    else
      ((s.reserve z z.tok).allocate z (.node { data := .tok kind b e })).bind fun (a, s) =>
        (s.cur.insert s.heap a).map fun (m, h) => { s with cur := m, heap := h }

def B.step (z : Sizes) (s : B) : Op → Option B
  | .startProd i => s.startProd z i
  | .finishProd => s.finishProd z
  | .cancelProd => s.cancelProd z
  | .startCont => s.startCont z
  | .setCont i => s.setCont z i
  | .finishCont => s.finishCont
  | .cancelCont => s.cancelCont z
  | .token k b e => s.token z k b e

def B.run (z : Sizes) (s : B) : List Op → Option B
  | [] => some s
  | op :: ops => (s.step z op).bind (·.run z ops)

/-- A finished `parse_tree`, l.408-412. -/
structure Tree where
  heap : Heap
  root : Addr
  size : Nat
  depth : Nat

/-- `builder::finish`, l.565-580. -/
def B.finish (z : Sizes) (s : B) (b e : Nat) : Option Tree :=
  if s.cur.prod ≠ some s.root then none
  else
    (s.cur.insertChildrenInto z s.heap s.root).bind fun h =>
      (({ s with heap := h }.reserve z z.tok).allocate z (.node { data := .tok eofKind b e })).bind
        fun (a, s') =>
          (s'.heap.modify s.root (Node.setSibling a)).map fun h =>
            { heap := h, root := s.root, size := s.size + s.cur.count,
              depth := max s.depth s.cur.finalDepth }

/-- Building a tree from the beginning. -/
def build (z : Sizes) (root : Info) (ops : List Op) (b e : Nat) : Option Tree :=
  ((B.new z root).bind (·.run z ops)).bind (·.finish z b e)

/-! ### Accessors -/

/-- `children_range`, l.876-945: following the next pointers from the first child until the node
    itself.  `fuel` bounds the number of steps. -/
def childLoop (h : Heap) (node : Addr) : Nat → Addr → Option (List Addr)
  | 0, _ => none
  | fuel + 1, cur =>
    if cur = node then some []
    else (h.get cur).bind fun n => n.next.bind fun x => (childLoop h node fuel x).map (cur :: ·)

/-- `node::children()`. -/
def children (z : Sizes) (h : Heap) (fuel : Nat) (a : Addr) : Option (List Addr) :=
  (h.get a).bind fun n =>
    match n.data with
    | .tok .. => some []
    | .prod .. => (firstChild z h a).bind fun
      | none => some []
      | some f => childLoop h a fuel f

/-- `sibling_range::iterator::increment`, l.963-971. -/
def sibNext (z : Sizes) (h : Heap) (a : Addr) : Option Addr :=
  (h.get a).bind fun n => n.next.bind fun x =>
    if n.up then (firstChild z h x).join else some x

/-- `node::siblings()`, l.950-1014. -/
def sibLoop (z : Sizes) (h : Heap) (node : Addr) : Nat → Addr → Option (List Addr)
  | 0, _ => none
  | fuel + 1, cur =>
    if cur = node then some []
    else (sibNext z h cur).bind fun x => (sibLoop z h node fuel x).map (cur :: ·)

def siblings (z : Sizes) (h : Heap) (fuel : Nat) (a : Addr) : Option (List Addr) :=
  (sibNext z h a).bind fun x => sibLoop z h a fuel x

/-- `node_kind::is_root`, l.767-773. -/
def isRoot (h : Heap) (a : Addr) : Option Bool :=
  (h.get a).bind fun n => n.next.bind fun x => (h.get x).map fun m => m.next.isNone

/-- The loop of `parent()`, l.869-873. -/
def upLoop (h : Heap) : Nat → Addr → Option Addr
  | 0, _ => none
  | fuel + 1, cur =>
    (h.get cur).bind fun n => if n.up then n.next else n.next.bind fun x => upLoop h fuel x

/-- `node::parent()`, l.863-874. -/
def parent (h : Heap) (fuel : Nat) (a : Addr) : Option Addr :=
  (isRoot h a).bind fun r => if r then some a else upLoop h fuel a

/-- `node::is_last_child()`, l.1016-1020. -/
def isLastChild (h : Heap) (a : Addr) : Option Bool := (h.get a).map (·.up)

/-- `node::position()`, l.1022-1033. -/
def position (z : Sizes) (h : Heap) : Nat → Addr → Option Nat
  | 0, _ => none
  | fuel + 1, cur =>
    (h.get cur).bind fun n =>
      match n.data with
      | .tok _ b _ => some b
      | .prod .. => ((firstChild z h cur).join).bind fun x => position z h fuel x

/-- The loop of `covering_lexeme()`, l.1050-1059. -/
def afterLoop (h : Heap) : Nat → Addr → Option Addr
  | 0, _ => none
  | fuel + 1, cur =>
    (h.get cur).bind fun n => n.next.bind fun x => if n.up then afterLoop h fuel x else some x

/-- `node::covering_lexeme()`, l.1043-1063. -/
def coveringLexeme (z : Sizes) (h : Heap) (fuel : Nat) (a : Addr) : Option (Nat × Nat) :=
  (h.get a).bind fun n =>
    match n.data with
    | .tok _ b e => some (b, e)
    | .prod .. =>
      (position z h fuel a).bind fun b =>
        (afterLoop h fuel a).bind fun s => (position z h fuel s).map fun e => (b, e)

/-- `traverse_event`, l.1092-1100. -/
inductive TEv
  | enter
  | exit
  | leaf
  deriving DecidableEq

/-- `traverse_range::iterator::increment`, l.1124-1161. -/
def travNext (z : Sizes) (h : Heap) (it : TEv × Addr) : Option (TEv × Addr) :=
  match it.1 with
  | .enter =>
    (firstChild z h it.2).bind fun
      | some c => (h.get c).map fun n => match n.data with
        | .tok .. => (.leaf, c)
        | .prod .. => (.enter, c)
      | none => some (.exit, it.2)
  | _ =>
    (h.get it.2).bind fun n => n.next.bind fun x =>
      if n.up then some (.exit, x)
      else (h.get x).map fun m => match m.data with
        | .prod .. => (.enter, x)
        | .tok .. => (.leaf, x)

/-- `traverse_range(node)`, l.1192-1210. -/
def travRange (z : Sizes) (h : Heap) (a : Addr) : Option ((TEv × Addr) × (TEv × Addr)) :=
  (h.get a).bind fun n =>
    match n.data with
    | .tok .. => (travNext z h (.leaf, a)).map fun e => ((.leaf, a), e)
    | .prod .. => (travNext z h (.exit, a)).map fun e => ((.enter, a), e)

def travLoop (z : Sizes) (h : Heap) (stop : TEv × Addr) : Nat → TEv × Addr → Option (List (TEv × Addr))
  | 0, _ => none
  | fuel + 1, it =>
    if it = stop then some []
    else (travNext z h it).bind fun it' => (travLoop z h stop fuel it').map (it :: ·)

/-- `tree.traverse(node)`. -/
def traverse (z : Sizes) (h : Heap) (fuel : Nat) (a : Addr) : Option (List (TEv × Addr)) :=
  (travRange z h a).bind fun r => travLoop z h r.2 fuel r.1

/-- `lexy_ext::tokens(tree, node)`, parse_tree_algorithm.hpp l.13-92: the traversal without the
    productions. -/
def tokens (z : Sizes) (h : Heap) (fuel : Nat) (a : Addr) : Option (List Addr) :=
  (traverse z h fuel a).map fun l => (l.filter (·.1 = .leaf)).map (·.2)

/-- `lexy_ext::find_covering_node`, lexy_ext/parse_tree_algorithm.hpp l.111-132. -/
def findCovering (z : Sizes) (t : Tree) (fuel : Nat) (p : Nat) : Option Addr :=
  (tokens z t.heap fuel t.root).bind fun l => l.find? fun a =>
    match t.heap.get a with
    | some ⟨_, _, .tok _ _ e⟩ => p < e
    | _ => false

/-- `tree.remaining_input()`, l.399-406. -/
def remainingInput (t : Tree) : Option (Nat × Nat) :=
  (t.heap.get t.root).bind fun n => n.next.bind fun x => (t.heap.get x).bind fun m =>
    match m.data with
    | .tok _ b e => some (b, e)
    | _ => none

end Verif.PT
