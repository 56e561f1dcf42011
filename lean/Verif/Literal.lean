import Verif.Swar

/-
Model of literals, literal sets (tries), keywords inside of sets, symbol tables and ASCII case
folding.

Source: /repo/include/lexy/dsl/literal.hpp, /repo/include/lexy/dsl/symbol.hpp,
        /repo/include/lexy/dsl/case_folding.hpp, /repo/include/lexy/dsl/identifier.hpp

A reader is the list of remaining code units.  `eof : Option Nat` is the code unit value that the
encoding also uses for EOF, if it has one (`some 0xFF` for ASCII and UTF-8, `some 0xFFFFFFFF` for
UTF-32, `none` otherwise; encoding.hpp).  `none` as result of a matcher means undefined behaviour
(bumping the reader past the end, or reading outside of the buffer).
Simplification: literal characters are given already transcoded to the input's character type
(`transcode_char`, encoding.hpp, a `static_cast` of ASCII values).
-/

namespace Verif

/-- `reader.peek() == to_int_type(c)` where the reader applies `fold` to what it reads; at the end
    `peek` returns `eof()`, which the folding readers leave alone. -/
def peekIs (eof : Option Nat) (fold : Nat → Nat) (s : List Nat) (c : Nat) : Bool :=
  match s with
  | [] => eof == some c
  | u :: _ => fold u == c

/-- `match_literal`, the branch comparing each code unit, literal.hpp l.50-59.
    Result: whether it matched and by how many units the reader was bumped. -/
def matchLiteral (eof : Option Nat) (fold : Nat → Nat) : List Nat → List Nat → Option (Bool × Nat)
  | [], _ => some (true, 0)
  | c :: lit, s =>
    if peekIs eof fold s c then
      match s with
      | [] => none
      | _ :: s' => (matchLiteral eof fold lit s').map fun r => (r.1, r.2 + 1)
    else some (false, 0)

/-- `match_literal`, the SWAR branch, literal.hpp l.29-49.  `k` is the SWAR configuration of the
    input's character type, `kc` the one of the literal's own character type `CharT`, which is the
    template argument given to `swar_find_difference` in l.45.  `mem` is the memory from the current
    position on, including the sentinels after the input. -/
def matchLiteralSwar (k kc : Swar) (lit : List Nat) (idx : Nat) (mem : List Nat) :
    Option (Bool × Nat) :=
  if idx ≥ lit.length then some (true, idx)
  else match k.peekSwar mem with
    | none => none
    | some v =>
      let p := k.pack idx lit
      if v &&& p.mask = p.value then
        if _h : 0 < p.count then matchLiteralSwar k kc lit (idx + p.count) (mem.drop p.count)
        else none  -- not reachable, the recursion of the C++ template would not end
      else some (false, idx + kc.findDifference (v &&& p.mask) p.value)
termination_by lit.length - idx
decreasing_by
  have : 0 < (k.pack idx lit).count := _h
  omega

/-! ### Tries -/

/-- A transition, literal.hpp l.87-89. -/
structure Trans where
  char : Nat
  src : Nat
  dst : Nat
  deriving DecidableEq, Repr

/-- `lit_trie`, literal.hpp l.66-151.  `node_no_match` is `none`; a node without character class
    (`sizeof...(CharClasses)`) has `none`. -/
structure Trie where
  value : List (Option Nat)
  cls : List (Option Nat)
  trans : List Trans
  deriving Repr

namespace Trie

/-- `lit_trie()`, literal.hpp l.91-97. -/
def empty : Trie := ⟨[none], [none], []⟩

def nodeCount (t : Trie) : Nat := t.value.length

/-- `insert(from, c)`, literal.hpp l.99-125: the trie and the node reached. -/
def insertChar (t : Trie) (src c : Nat) : Trie × Nat :=
  match (t.trans.drop src).find? (fun tr => tr.src == src && tr.char == c) with
  | some tr => (t, tr.dst)
  | none =>
    (⟨t.value ++ [none], t.cls ++ [none], t.trans ++ [⟨c, src, t.nodeCount⟩]⟩, t.nodeCount)

/-- `insert(pos, type_string)`, literal.hpp l.127-131; `_lit::lit_insert`, l.346-350. -/
def insertStr (t : Trie) (pos : Nat) : List Nat → Trie × Nat
  | [] => (t, pos)
  | c :: cs => let r := t.insertChar pos c; insertStr r.1 r.2 cs

/-- `node_value[node] = v`, literal.hpp l.528 and symbol.hpp l.217. -/
def setValue (t : Trie) (node v : Nat) : Trie := { t with value := t.value.set node (some v) }
/-- `node_char_class[node] = cc`, identifier.hpp l.340. -/
def setClass (t : Trie) (node cc : Nat) : Trie := { t with cls := t.cls.set node (some cc) }

/-- `node_transitions`, literal.hpp l.133-150. -/
def nodeTransitions (t : Trie) (node : Nat) : List Trans :=
  (t.trans.drop node).filter (fun tr => tr.src == node)

/-- Second half of `try_match`, literal.hpp l.286-302: the match ending at this node, unless the
    character class of the node matches what follows. -/
def ownMatch (t : Trie) (classes : List (List Nat → Bool)) (node : Nat) (rest : List Nat) :
    Option (Nat × Nat) :=
  match t.value[node]?.join with
  | none => none
  | some v =>
    match t.cls[node]?.join.bind (fun cc => classes[cc]?) with
    | none => some (v, 0)
    | some f => if f rest then none else some (v, 0)

/-- `lit_trie_matcher<Trie, node>::try_match`, literal.hpp l.246-320.
    `cur` is what the (nested) folding readers do to a unit at this depth: `try_match` wraps the reader
    into another `CaseFolding` at every level (l.306-318).
    `classes[i]` is the token parser of the i-th character class (l.214-237).
    Result: the node value and the number of units consumed, or no match. -/
def tryMatch (t : Trie) (classes : List (List Nat → Bool)) (eof : Option Nat) (fold : Nat → Nat)
    (cur : Nat → Nat) (node : Nat) (s : List Nat) : Option (Option (Nat × Nat)) :=
  let down : Option (Option (Nat × Nat)) :=
    match (t.nodeTransitions node).find? (fun tr => peekIs eof cur s tr.char) with
    | none => some none
    | some tr =>
      match s with
      | [] => none
      | _ :: s' =>
        (tryMatch t classes eof fold (fun u => fold (cur u)) tr.dst s').map
          fun r => r.map fun p => (p.1, p.2 + 1)
  match down with
  | none => none
  | some (some r) => some (some r)
  | some none => some (t.ownMatch classes node (s.map cur))
termination_by s.length

end Trie

/-! ### Literal sets -/

/-- A literal rule in a set: `_lit` (`kw = none`) or `_kw` with the trailing character class of its
    identifier (identifier.hpp l.316-342). -/
structure Lit where
  str : List Nat
  kw : Option (List Nat → Bool) := none

/-- `lit_char_classes` of all literals, literal.hpp l.203-205. -/
def litClasses (ls : List Lit) : List (List Nat → Bool) := ls.filterMap (·.kw)

/-- `Literals::lit_insert(result, 0, char_class)` followed by `node_value[...] = v`:
    literal.hpp l.346-350, identifier.hpp l.335-342, literal.hpp l.528. -/
def Trie.insertLit (t : Trie) (l : Lit) (charClass v : Nat) : Trie :=
  let r := t.insertStr 0 l.str
  let t' := if l.kw.isSome then r.1.setClass r.2 charClass else r.1
  t'.setValue r.2 v

/-- `_lset::_build_trie`, literal.hpp l.522-534: every literal gets the value 0, `char_class` counts the
    classes of the literals before. -/
def buildSet (ls : List Lit) : Trie :=
  (ls.foldl (fun (st : Trie × Nat) l =>
    (st.1.insertLit l st.2 0, st.2 + (if l.kw.isSome then 1 else 0))) (Trie.empty, 0)).1

/-- `_lset::tp::try_parse`, literal.hpp l.546-554: the number of units consumed on success. -/
def matchSet (ls : List Lit) (eof : Option Nat) (fold : Nat → Nat) (s : List Nat) :
    Option (Option Nat) :=
  ((buildSet ls).tryMatch (litClasses ls) eof fold fold 0 s).map fun r => r.map (·.2)

/-! ### Symbol tables -/

/-- `_symbol_table::_build_trie`, symbol.hpp l.211-220: the i-th symbol gets the value i. -/
def buildSymbols (syms : List (List Nat)) : Trie :=
  (syms.foldl (fun (st : Trie × Nat) w =>
    ((let r := st.1.insertStr 0 w; r.1.setValue r.2 st.2), st.2 + 1)) (Trie.empty, 0)).1

/-- `_symbol_table::try_parse`, symbol.hpp l.178-189: index of the symbol and units consumed. -/
def symbolTryParse (syms : List (List Nat)) (eof : Option Nat) (fold : Nat → Nat) (s : List Nat) :
    Option (Option (Nat × Nat)) :=
  (buildSymbols syms).tryMatch [] eof fold fold 0 s

/-- `_symbol_table::parse`, symbol.hpp l.191-200: the symbol must be the entire input. -/
def symbolParse (syms : List (List Nat)) (eof : Option Nat) (fold : Nat → Nat) (s : List Nat) :
    Option (Option Nat) :=
  match symbolTryParse syms eof fold s with
  | none => none
  | some none => some none
  | some (some (i, n)) =>
    -- `reader.peek() == eof()`
    if s.drop n = [] ∨ (s.drop n).head? = eof then some (some i) else some none

/-! ### ASCII case folding -/

/-- `_acfr::peek`, case_folding.hpp l.91-98. -/
def asciiFold (c : Nat) : Nat := if 0x41 ≤ c ∧ c ≤ 0x5A then c + (0x61 - 0x41) else c

end Verif
