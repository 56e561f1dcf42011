import Verif.CodePoint
import Verif.Literal

/-
Model of the Unicode case folding readers, of literals and literal sets that use them, and of the case
folding of `lexy::as_string`.

Source: /repo/include/lexy/dsl/case_folding.hpp l.120-290, /repo/include/lexy/dsl/literal.hpp l.246-320,
        /repo/include/lexy/callback/string.hpp l.29-77

Unlike in `Literal.lean`, a reader is not a list of units here: case folding wraps one reader into another
one, and what matters is which parts of the state of the inner reader `reset` restores.  A reader type is a
record of operations over a state (`Ops`), as the C++ template parameter `Reader`.
Positions count units from the beginning of the input `s`; a marker is a position (as for the readers of
ranges and strings, input/base.hpp).
`cf` is `simple_case_fold` on code point values (code_point.hpp l.269-277; the table itself: `UnicodeDb.lean`).
`none` as result of an operation is undefined behaviour.
-/

namespace Verif

/-- The operations of a reader that are used.  `peek` yields `none` for `encoding::eof()`. -/
structure RdOps (σ : Type) where
  peek : σ → Option Nat
  bump : σ → Option σ
  current : σ → Nat
  reset : σ → Nat → σ

/-- `_range_reader`, input/base.hpp: the state is the position.  `eof` is the unit that cannot be told from
    EOF, if there is one. -/
def baseOps (eof : Option Nat) (s : List Nat) : RdOps Nat where
  peek p := match s[p]? with
    | none => none
    | some u => if eof = some u then none else some u
  bump p := if p < s.length then some (p + 1) else none
  current p := p
  reset _ m := m

/-- The next `k` units, by `peek` and `bump` on a copy.  (`parse_code_point` looks at up to four.  Bumping
    more often than the C++ code is only visible if it is undefined.) -/
def RdOps.ahead {σ : Type} (O : RdOps σ) : Nat → σ → Option (List Nat)
  | 0, _ => some []
  | k + 1, r =>
    match O.peek r with
    | none => some []
    | some u =>
      match O.bump r with
      | none => none
      | some r' => (O.ahead k r').map (u :: ·)

/-- `bump` repeated. -/
def RdOps.advance {σ : Type} (O : RdOps σ) : Nat → σ → Option σ
  | 0, r => some r
  | k + 1, r => match O.bump r with
    | none => none
    | some r' => O.advance k r'

/-- `parse_code_point(Reader reader)` for any reader, _detail/code_point.hpp l.141-335: the result and the
    marker `end`. -/
def RdOps.parseCp {σ : Type} (O : RdOps σ) (e : Enc) (r : σ) : Option (CpResult × Nat) :=
  match O.ahead 4 r with
  | none => none
  | some us =>
    let res := Verif.parseCp e us
    match O.advance res.len r with
    | none => none
    | some r' => some (res, O.current r')

/-- `_sucfrm<Reader>`, case_folding.hpp l.182-199: `_impl`, `_cur_pos`, and the part of `_buffer` between
    `_buffer_cur` and `_buffer_size`. -/
structure FoldRd (σ : Type) where
  impl : σ
  cur : Nat
  buf : List Nat
  deriving DecidableEq, Repr

/-- The loop of `_fill` for a partial code point, case_folding.hpp l.216-226: the units up to the marker
    `m`.  The buffer has room for four, more would be written past it. -/
def RdOps.collect {σ : Type} (O : RdOps σ) (m : Nat) : Nat → σ → Option (List Nat × σ)
  | 0, r => if O.current r = m then some ([], r) else none
  | k + 1, r =>
    if O.current r = m then some ([], r)
    else match O.peek r, O.bump r with
      | some u, some r' => (O.collect m k r').map fun q => (u :: q.1, q.2)
      | _, _ => none

/-- `_sucfrm::_fill` (and the constructor, which only calls it), case_folding.hpp l.195-227. -/
def foldFill (e : Enc) (cf : Nat → Nat) {σ : Type} (O : RdOps σ) (impl : σ) : Option (FoldRd σ) :=
  match O.parseCp e impl with
  | none => none
  | some (res, m) =>
    if res.error = .success then
      some { impl := O.reset impl m, cur := O.current impl, buf := encodeCp e (cf res.cp) }
    else
      match O.collect m 4 impl with
      | none => none
      | some (b, impl') => some { impl := impl', cur := O.current impl, buf := b }

/-- The operations of `_sucfrm<Reader>`, case_folding.hpp l.229-264.  `reset` resets only `_impl`, and leaves
    `_cur_pos` and the buffer alone. -/
def foldOps (e : Enc) (cf : Nat → Nat) {σ : Type} (O : RdOps σ) : RdOps (FoldRd σ) where
  peek f := f.buf.head?
  bump f := match f.buf with
    | [] => none
    | [_] => foldFill e cf O f.impl
    | _ :: b => some { f with buf := b }
  current f := f.cur
  reset f m := { f with impl := O.reset f.impl m }

/-- `match_literal` comparing unit by unit, literal.hpp l.50-59, for any reader. -/
def RdOps.matchLit {σ : Type} (O : RdOps σ) : List Nat → σ → Option (Bool × σ)
  | [], r => some (true, r)
  | c :: lit, r =>
    if O.peek r = some c then
      match O.bump r with
      | none => none
      | some r' => O.matchLit lit r'
    else some (false, r)

/-- The unit that equals `encoding::eof()`, encoding.hpp. -/
def Enc.eofUnit : Enc → Option Nat
  | .ascii => some 0xFF | .utf8 => some 0xFF | .utf16 => none | .utf32 => some 0xFFFFFFFF

/-- `_cfl<_lit, _sucfr>::tp::try_parse`, case_folding.hpp l.54-60 with literal.hpp l.359-364: whether it
    matched, and the end of the token. -/
def cflTry (e : Enc) (cf : Nat → Nat) (s lit : List Nat) : Option (Bool × Nat) :=
  match foldFill e cf (baseOps e.eofUnit s) 0 with
  | none => none
  | some r =>
    match (foldOps e cf (baseOps e.eofUnit s)).matchLit lit r with
    | none => none
    | some (ok, r') => some (ok, r'.cur)

/-- `lit_trie_matcher<Trie, node>::try_match` for a reader that is wrapped into another `_sucfr` at every
    node, literal.hpp l.265-320.  Simplification: no character classes (keywords).
    Result: the value of the match, and the reader afterwards. -/
def Trie.matchFold (t : Trie) (e : Enc) (cf : Nat → Nat) :
    Nat → {σ : Type} → RdOps σ → Nat → σ → Option (Option Nat × σ)
  | 0, _, _, _, _ => none
  | n + 1, _, O, node, r0 =>
    -- `CaseFolding<Reader> reader{_reader};`
    match foldFill e cf O r0 with
    | none => none
    | some r =>
      let own := t.value[node]?.join
      let out : Option (Option Nat × FoldRd _) :=
        match t.nodeTransitions node with
        | [] => some (own, r)
        | ts =>
          match ts.find? (fun tr => (foldOps e cf O).peek r == some tr.char) with
          | none => some (own, (foldOps e cf O).reset r r.cur)
          | some tr =>
            match (foldOps e cf O).bump r with
            | none => none
            | some r1 =>
              match t.matchFold e cf n (foldOps e cf O) tr.dst r1 with
              | none => none
              | some (some v, r2) => some (some v, r2)
              | some (none, r2) => some (own, (foldOps e cf O).reset r2 r.cur)
      -- `_reader.reset(reader.current());`
      out.map fun q => (q.1, O.reset r0 q.2.cur)

/-- `_lset::tp::try_parse` with `unicode::simple_case_folding`, literal.hpp l.546-554: whether it matched,
    and the end of the token. -/
def setFoldTry (e : Enc) (cf : Nat → Nat) (lits : List (List Nat)) (s : List Nat) : Option (Bool × Nat) :=
  let t := buildSet (lits.map fun w => { str := w })
  (t.matchFold e cf (t.nodeCount + 1) (baseOps e.eofUnit s) 0 0).map fun q => (q.1.isSome, q.2)

/-- `_symbol_table::try_parse` with `unicode::simple_case_folding`, symbol.hpp l.178-189: the index of the
    symbol, and the position of the reader afterwards. -/
def symbolFoldTry (e : Enc) (cf : Nat → Nat) (syms : List (List Nat)) (s : List Nat) :
    Option (Option Nat × Nat) :=
  let t := buildSymbols syms
  t.matchFold e cf (t.nodeCount + 1) (baseOps e.eofUnit s) 0 0

/-! ### `_as_string::_case_folding` -/

/-- The loop that appends to an empty string, string.hpp l.62-74, for `n` steps. -/
def RdOps.readAll {σ : Type} (O : RdOps σ) : Nat → σ → Option (List Nat)
  | 0, r => match O.peek r with
    | none => some []
    | some _ => none
  | n + 1, r =>
    match O.peek r with
    | none => some []
    | some u =>
      match O.bump r with
      | none => none
      | some r' => (O.readAll n r').map (u :: ·)

/-- `_as_string::_case_folding`, the version that is not in place, string.hpp l.54-75: for UTF-8 and UTF-16.
    (A code point is folded to one of at most four units, so four times the length is enough.) -/
def strFold (e : Enc) (cf : Nat → Nat) (s : List Nat) : Option (List Nat) :=
  match foldFill e cf (baseOps e.eofUnit s) 0 with
  | none => none
  | some r => (foldOps e cf (baseOps e.eofUnit s)).readAll (4 * s.length) r

/-- `_as_string::_case_folding` in place, string.hpp l.35-53, for ASCII case folding and for UTF-32 (`_acfr`
    and `_sucfr32` fold unit by unit).  The reader stops at a unit that equals EOF. -/
def strFoldInplace (eof : Option Nat) (fold : Nat → Nat) : List Nat → List Nat
  | [] => []
  | u :: s => if eof = some (fold u) then u :: s else fold u :: strFoldInplace eof fold s

end Verif
