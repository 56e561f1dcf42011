import Verif.ParseTreeProps
import Verif.Trace

/-!
# Parse trees as input

Models `include/lexy/input/parse_tree_input.hpp`, `parse_tree_input_traits` and the comparison of node kinds of
`include/lexy/parse_tree.hpp`, and `include/lexy/dsl/parse_tree_node.hpp`, on the memory of `ParseTree.lean`.

A null node is `none`.  `fuel` bounds the loops of `position()` and `covering_lexeme()`.
-/

namespace Verif.PT

/-! ### Node kinds -/

/-- What a node kind is compared with: a `token_kind` or a `production_info`. -/
inductive KindArg
  | tok (kind : Nat)
  | prod (id : Nat)
  deriving DecidableEq

/-- `operator==(node_kind, node_kind)`, parse_tree.hpp l.792-798: `as_production()` of a token is null and
    dereferenced. -/
def kindEq (h : Heap) (a b : Addr) : Option Bool :=
  (h.get a).bind fun m => (h.get b).bind fun n =>
    match m.data, n.data with
    | .tok k _ _, .tok l _ _ => some (k == l)
    | .prod i _ _ _, .prod j _ _ _ => some (i == j)
    | _, _ => none

/-- `operator==(node_kind, token_kind)`, parse_tree.hpp l.804-810; `operator==(node_kind, production_info)`,
    l.824-827. -/
def kindIs (h : Heap) (a : Addr) (k : KindArg) : Option Bool :=
  (h.get a).map fun n =>
    match n.data, k with
    | .tok k _ _, .tok l => k == l
    | .prod i _ _ _, .prod j => i == j
    | _, _ => false

/-! ### The traits -/

/-- `parse_tree_input_traits::first_child`, parse_tree.hpp l.1238-1245. -/
def tiFirstChild (z : Sizes) (h : Heap) (cur : Option Addr) : Option (Option Addr) :=
  cur.bind fun a => (h.get a).bind fun n =>
    match n.data with
    | .tok .. => some none
    | .prod .. => firstChild z h a

/-- `parse_tree_input_traits::sibling`, parse_tree.hpp l.1247-1253. -/
def tiSibling (h : Heap) (cur : Option Addr) : Option (Option Addr) :=
  cur.bind fun a => (h.get a).map fun n => if n.up then none else n.next

/-- `parse_tree_input_traits::has_kind`, parse_tree.hpp l.1255-1259. -/
def tiHasKind (h : Heap) (cur : Option Addr) (k : KindArg) : Option Bool :=
  match cur with
  | none => some false
  | some a => kindIs h a k

/-- `parse_tree_input_traits::position_begin`, parse_tree.hpp l.1263-1267. -/
def tiBegin (z : Sizes) (h : Heap) (fuel : Nat) (cur : Option Addr) : Option Nat :=
  cur.bind fun a => position z h fuel a

/-- `parse_tree_input_traits::position_end`, parse_tree.hpp l.1268-1272. -/
def tiEnd (z : Sizes) (h : Heap) (fuel : Nat) (cur : Option Addr) : Option Nat :=
  cur.bind fun a => (coveringLexeme z h fuel a).map (·.2)

/-! ### The reader -/

/-- `_ptr`, parse_tree_input.hpp l.71-133.  A marker (l.79-89) has the same members;
    `reset` (l.120-123) restores `_cur` only, and every marker used here has the same parent. -/
structure TreeReader where
  parent : Option Addr
  cur : Option Addr
  deriving DecidableEq

/-- `_ptr(root)`, parse_tree_input.hpp l.91-93. -/
def TreeReader.new (z : Sizes) (h : Heap) (root : Option Addr) : Option TreeReader :=
  (tiFirstChild z h root).map fun c => ⟨root, c⟩

/-- `child_reader`, parse_tree_input.hpp l.95-98. -/
def TreeReader.childReader (z : Sizes) (h : Heap) (r : TreeReader) : Option TreeReader :=
  TreeReader.new z h r.cur

/-- `bump`, parse_tree_input.hpp l.110-114. -/
def TreeReader.bump (h : Heap) (r : TreeReader) : Option TreeReader :=
  if r.cur = none then none else (tiSibling h r.cur).map fun c => { r with cur := c }

/-- `position`, parse_tree_input.hpp l.84-88 and l.125-128. -/
def TreeReader.position (z : Sizes) (h : Heap) (fuel : Nat) (r : TreeReader) : Option Nat :=
  match r.cur with
  | none => tiEnd z h fuel r.parent
  | some c => tiBegin z h fuel (some c)

/-- Bumping several times. -/
def TreeReader.bumps (h : Heap) : Nat → TreeReader → Option TreeReader
  | 0, r => some r
  | n + 1, r => (r.bump h).bind (TreeReader.bumps h n)

/-! ### The rules `tnode` and `pnode` -/

/-- `_n::tp::try_parse`, parse_tree_node.hpp l.124-141: `end` if the node matches. -/
def nodeTry (h : Heap) (k : KindArg) (r : TreeReader) : Option (Option TreeReader) :=
  (tiHasKind h r.cur k).bind fun b => if b then (r.bump h).map some else some none

/-- What the rule in the parentheses does: whether it succeeds, the position of the reader of the children (or
    of the lexeme) afterwards, `none` if it has none, whether it is at its end, and the events. -/
structure ChildRes where
  ok : Bool
  pos : Option Nat
  atEnd : Bool
  evs : List Ev

/-- `_nr::_parse_rule` with `_nr::_cont`, parse_tree_node.hpp l.23-69, without the continuation.  `run` is the rule
    applied to the reader of the children, beginning with whitespace.  `tag` is the error for unconsumed
    children.  The positions are evaluated only where something is reported. -/
def nodeParseRule (z : Sizes) (h : Heap) (fuel : Nat) (tag : Nat) (run : TreeReader → Option ChildRes)
    (r fin : TreeReader) : Option (Bool × TreeReader × List Ev) :=
  (run r).bind fun c =>
    if c.ok && c.atEnd then some (true, fin, c.evs)
    else c.pos.bind fun b => (fin.position z h fuel).map fun e =>
      if c.ok then (true, fin, c.evs ++ [.token .error b e, .error tag b e])
      else (false, fin, c.evs ++ [.token .error b e])

/-- `_nr::p::parse`, parse_tree_node.hpp l.95-111: `ktag` is the error for another node,
    l.143-150. -/
def nodeParse (z : Sizes) (h : Heap) (fuel : Nat) (k : KindArg) (ktag tag : Nat)
    (run : TreeReader → Option ChildRes) (r : TreeReader) : Option (Bool × TreeReader × List Ev) :=
  (nodeTry h k r).bind fun
    | none => (r.position z h fuel).map fun p => (false, r, [.error ktag p p])
    | some fin => nodeParseRule z h fuel tag run r fin

/-- `pnode<Production>(rule)`: the rule is applied to the children, parse_tree_node.hpp l.239-243.  `rule` gives
    whether it succeeds, the reader afterwards and the events. -/
def pnodeRun (z : Sizes) (h : Heap) (fuel : Nat) (rule : TreeReader → Option (Bool × TreeReader × List Ev))
    (r : TreeReader) : Option ChildRes :=
  (r.childReader z h).bind fun c => (rule c).map fun (ok, c', evs) =>
    ⟨ok, c'.position z h fuel, c'.cur.isNone, evs⟩

/-- `tnode<Kind>(rule)`: the rule is applied to the units of the lexeme, parse_tree_node.hpp l.191-195 and
    parse_tree_input.hpp l.99-103.  `rule b e` gives whether it succeeds, the position afterwards and the
    events. -/
def tnodeRun (h : Heap) (rule : Nat → Nat → Option (Bool × Nat × List Ev)) (r : TreeReader) :
    Option ChildRes :=
  r.cur.bind fun a => (h.get a).bind fun n =>
    match n.data with
    | .tok _ b e => (rule b e).map fun (ok, q, evs) => ⟨ok, some q, q == e, evs⟩
    | .prod .. => none  -- an empty lexeme without position; `tnode` has checked the kind

end Verif.PT
