import Verif.CodePointProps

/-
Model of the visualization of code points, lexemes and trees.

Source: /repo/include/lexy/visualize.hpp

The output is the list of the `char`s written.  Names of productions and tokens are given.
Not modelled: `write_format` beyond the formats `%02X`, `%04X`, `%08X` that are used for content.
-/

namespace Verif.Vis

/-- `visualization_flags` and `visualization_options`, visualize.hpp l.16-75. -/
structure Opts where
  unicode : Bool := false
  color : Bool := false
  symbols : Bool := false
  space : Bool := false
  maxDepth : Nat := 32
  maxWidth : Nat := 0
  tabWidth : Nat := 0
  deriving DecidableEq, Repr

/-! ### Output iterators

`write_color` is the only function that does not use the iterator that was returned to it, so it is modelled for
iterators in general; everything else appends to the output. -/

/-- An output iterator with values `ι` that writes to a store `σ`: the effect of `*out++ = c`. -/
structure OutIt (σ ι : Type) where
  put : σ → ι → Nat → σ × ι

/-- `std::back_insert_iterator`, `cfile_output_iterator`: copies of the iterator share the state. -/
def OutIt.shared : OutIt (List Nat) Unit := ⟨fun s _ c => (s ++ [c], ())⟩

/-- A pointer (or iterator) into an array. -/
def OutIt.pointer : OutIt (List Nat) Nat := ⟨fun s i c => (s.set i c, i + 1)⟩

/-- `write_str`, visualize.hpp l.93-106. -/
def OutIt.str {σ ι : Type} (o : OutIt σ ι) (s : σ) (i : ι) : List Nat → σ × ι
  | [] => (s, i)
  | c :: cs => let r := o.put s i c; o.str r.1 r.2 cs

/-- `write_code` of `write_color`, visualize.hpp l.145-156. -/
def OutIt.code {σ ι : Type} (o : OutIt σ ι) (s : σ) (i : ι) (code : Nat) : σ × ι :=
  if code > 10 then
    let r := o.put s i (code / 10 + 48)
    o.put r.1 r.2 (code % 10 + 48)
  else o.put s i (code + 48)

/-- The fold over `CodeTail`, visualize.hpp l.158: the iterator returned by `write_code` is discarded. -/
def OutIt.codes {σ ι : Type} (o : OutIt σ ι) (s : σ) (i : ι) : List Nat → σ × ι
  | [] => (s, i)
  | c :: cs =>
    let r := o.put s i 0x3B
    let r' := o.code r.1 r.2 c
    o.codes r'.1 r.2 cs

/-- `write_color<CodeHead, CodeTail...>`, visualize.hpp l.137-162. -/
def OutIt.color {σ ι : Type} (o : OutIt σ ι) (opts : Opts) (head : Nat) (tail : List Nat) (s : σ) (i : ι) : σ × ι :=
  if !opts.color then (s, i)
  else
    let r := o.str s i [0x1B, 0x5B]
    let r := o.code r.1 r.2 head
    let r := o.codes r.1 r.2 tail
    o.put r.1 r.2 0x6D

/-- `write_color` for an iterator that shares its state: what is appended. -/
def color (opts : Opts) (head : Nat) (tail : List Nat) : List Nat := (OutIt.shared.color opts head tail [] ()).1

/-! ### Code points -/

/-- An upper case hexadecimal digit. -/
def hexDigit (d : Nat) : Nat := if d < 10 then 48 + d else 55 + d

/-- The last `k` hexadecimal digits of `n`. -/
def hexN : Nat → Nat → List Nat
  | 0, _ => []
  | k + 1, n => hexN k (n / 16) ++ [hexDigit (n % 16)]

/-- How many digits `n` has (up to eight). -/
def hexLen (n : Nat) : Nat :=
  if n < 0x10 then 1 else if n < 0x100 then 2 else if n < 0x1000 then 3 else if n < 0x10000 then 4
  else if n < 0x100000 then 5 else if n < 0x1000000 then 6 else if n < 0x10000000 then 7 else 8

/-- The format `%0wX`. -/
def fmtX (w n : Nat) : List Nat := hexN (max w (hexLen n)) n

/-- `write_ellipsis`, visualize.hpp l.164-171. -/
def ellipsis (opts : Opts) : List Nat := if opts.unicode then [0xE2, 0x80, 0xA6] else [0x2E, 0x2E, 0x2E]

/-- `write_special_char`, visualize.hpp l.173-188. -/
def special (opts : Opts) (inner : List Nat) : List Nat :=
  color opts 36 [2] ++ (if opts.unicode then [0xE2, 0x9F, 0xA8] else [0x5C]) ++ inner
    ++ (if opts.unicode then [0xE2, 0x9F, 0xA9] else []) ++ color opts 0 []

/-- A symbol, e.g. visualize.hpp l.231-233. -/
def symbol (opts : Opts) (sym : List Nat) : List Nat := color opts 2 [] ++ sym ++ color opts 0 []

/-- The space character, visualize.hpp l.287-316. -/
def visSpace (opts : Opts) : List Nat :=
  if opts.space then
    if opts.symbols then symbol opts [0xE2, 0x90, 0xA3]
    else if opts.unicode then special opts [0x53, 0x50]
    else special opts [0x75, 0x30, 0x30, 0x32, 0x30]
  else [0x20]

/-- `visualize_to` for a code point, visualize.hpp l.193-346. -/
def visCp (opts : Opts) (cp : Nat) : List Nat :=
  if cp > 0x10FFFF then
    special opts (if opts.unicode then [0x55, 0x2B, 0x3F, 0x3F, 0x3F, 0x3F] else [0x75, 0x3F, 0x3F, 0x3F, 0x3F])
  else if cp ≤ 0x1F ∨ (0x7F ≤ cp ∧ cp ≤ 0x9F) then
    if cp = 0 then special opts (if opts.unicode then [0x4E, 0x55, 0x4C] else [0x30])
    else if cp = 0x0D then special opts (if opts.unicode then [0x43, 0x52] else [0x72])
    else if cp = 0x0A then
      if opts.symbols then symbol opts [0xE2, 0x8F, 0x8E]
      else if opts.unicode then special opts [0x4C, 0x46]
      else special opts [0x6E]
    else if cp = 0x09 then
      if opts.tabWidth > 0 then (List.replicate opts.tabWidth (visSpace opts)).flatten
      else if opts.symbols then symbol opts [0xE2, 0x87, 0xA8]
      else if opts.unicode then special opts [0x48, 0x54]
      else special opts [0x74]
    else special opts (if opts.unicode then 0x55 :: 0x2B :: fmtX 4 cp else 0x75 :: fmtX 4 cp)
  else if cp = 0x20 then visSpace opts
  else if cp = 0x5C then (if !opts.unicode then special opts [0x5C] else [0x5C])
  else if cp ≤ 0x7F then [cp]
  else
    special opts (if opts.unicode then 0x55 :: 0x2B :: fmtX 4 cp
      else if cp ≤ 0xFFFF then 0x75 :: fmtX 4 cp
      else 0x55 :: fmtX 8 cp)

/-! ### Lexemes -/

/-- `write_escaped_byte`, visualize.hpp l.356-363. -/
def visByte (opts : Opts) (b : Nat) : List Nat :=
  special opts (if opts.unicode then 0x30 :: 0x78 :: fmtX 2 b else 0x78 :: fmtX 2 b)

/-- A code unit that was skipped, visualize.hpp l.394-427. -/
def visUnit (opts : Opts) : Enc → Nat → List Nat
  | .utf8, u => visByte opts (u % 256)
  | .utf16, u =>
    let first := u / 256 % 256
    let second := u % 256
    (if first ≠ 0 then visByte opts first else []) ++ visByte opts second
  | .utf32, u =>
    let first := u / 0x1000000 % 256
    let second := u / 0x10000 % 256
    let third := u / 256 % 256
    let fourth := u % 256
    (if first ≠ 0 then visByte opts first else [])
      ++ (if first ≠ 0 ∨ second ≠ 0 then visByte opts second else [])
      ++ (if first ≠ 0 ∨ second ≠ 0 ∨ third ≠ 0 then visByte opts third else [])
      ++ visByte opts fourth
  | .ascii, _ => []

/-- The loop of `visualize_to` for a lexeme in a Unicode encoding, visualize.hpp l.372-436.
    `count` code points were written before.  `none`: an assertion is violated or the steps do not suffice. -/
def visUnicode (opts : Opts) (e : Enc) : Nat → Nat → List Nat → Option (List Nat)
  | 0, _, _ => none
  | n + 1, count, s =>
    let r := parseCp e s
    match r.error with
    | .eof => some []
    | err =>
      let step : Option (List Nat × List Nat) :=
        if err = .success then some (visCp opts r.cp, s.drop r.len)
        else match recoverCodePoint s r with
          | none => none
          | some t => some ((s.take (s.length - t.length)).flatMap (visUnit opts e), t)
      match step with
      | none => none
      | some (w, t) =>
        if count + 1 = opts.maxWidth then some (w ++ ellipsis opts)
        else (visUnicode opts e n (count + 1) t).map (w ++ ·)

/-- The loops for text encodings and for bytes, visualize.hpp l.439-478, with what is written for a unit. -/
def visUnits (opts : Opts) (one : Nat → List Nat) : Nat → List Nat → List Nat
  | _, [] => []
  | count, u :: s =>
    if count + 1 = opts.maxWidth then one u ++ ellipsis opts else one u ++ visUnits opts one (count + 1) s

/-- A unit in a text encoding that is not Unicode (ASCII, default), visualize.hpp l.444-449. -/
def visChar (opts : Opts) (u : Nat) : List Nat := if u ≤ 0x7F then visCp opts u else visByte opts u

/-- A byte in a byte encoding, visualize.hpp l.465-468. -/
def visRaw (opts : Opts) (u : Nat) : List Nat := special opts (fmtX 2 u)

/-- Which branch `visualize_to` takes for a lexeme. -/
inductive LexEnc
  | unicode (e : Enc) | text | bytes
  deriving DecidableEq, Repr

/-- `visualize_to` for a lexeme, visualize.hpp l.348-491. -/
def visLexeme (opts : Opts) : LexEnc → List Nat → Option (List Nat)
  | .unicode e, s => visUnicode opts e (s.length + 1) 0 s
  | .text, s => some (visUnits opts (visChar opts) 0 s)
  | .bytes, s => some (visUnits opts (visRaw opts) 0 s)

/-- `visualization_display_width`, visualize.hpp l.674-704: the units that are not continuation bytes; colors are
    turned off. -/
def displayWidth (vis : Opts → Option (List Nat)) (opts : Opts) : Option Nat :=
  (vis { opts with color := false }).map fun out => (out.filter fun c => c &&& 0xC0 != 0x80).length

/-! ### Trees -/

/-- A tree: a token with its name and its text, or a production with its name and its children. -/
inductive VTree
  | leaf (name lexeme : List Nat)
  | node (name : List Nat) (children : List VTree)

/-- The events of `traverse()` (parse_tree.hpp), with `node.is_last_child()`. -/
inductive VEv
  | enter (name : List Nat) (last : Bool)
  | exit
  | leaf (name lexeme : List Nat) (last : Bool)
  deriving DecidableEq, Repr

mutual
/-- The traversal of a tree; that `parse_tree::traverse` visits the nodes like this is proved in ParseTreeRead.lean. -/
def VTree.events (last : Bool) : VTree → List VEv
  | .leaf name lex => [.leaf name lex last]
  | .node name cs => .enter name last :: (VTree.eventsList cs ++ [.exit])
def VTree.eventsList : List VTree → List VEv
  | [] => []
  | c :: cs => c.events cs.isEmpty ++ VTree.eventsList cs
end

/-- The labels, visualize.hpp l.496-504. -/
def lblSpace (opts : Opts) : List Nat := if opts.unicode then [0x20, 0x20, 0x20] else [0x20, 0x20]
def lblLine (opts : Opts) : List Nat := if opts.unicode then [0xE2, 0x94, 0x82, 0x20, 0x20] else [0x20, 0x20]
def lblEnd (opts : Opts) : List Nat :=
  if opts.unicode then [0xE2, 0x94, 0x94, 0xE2, 0x94, 0x80, 0xE2, 0x94, 0x80] else [0x2D, 0x20]
def lblBranch (opts : Opts) : List Nat :=
  if opts.unicode then [0xE2, 0x94, 0x9C, 0xE2, 0x94, 0x80, 0xE2, 0x94, 0x80] else [0x2D, 0x20]

/-- The loop of `write_prefix` from `i = 1`, visualize.hpp l.521-527; `none`: access outside of the array. -/
def prefixLoop (opts : Opts) (arr : List Bool) : Nat → Nat → Option (List Nat)
  | 0, _ => some []
  | n + 1, i =>
    match arr[i]? with
    | none => none
    | some b => (prefixLoop opts arr n (i + 1)).map ((if b then lblSpace opts else lblLine opts) ++ ·)

/-- `write_prefix`, visualize.hpp l.511-537. -/
def writePrefix (opts : Opts) (arr : List Bool) (depth : Nat) (last : Bool) : Option (List Nat) :=
  if depth = 0 then some []
  else (prefixLoop opts arr (depth - 1) 1).map fun p =>
    color opts 2 [] ++ p ++ (if last then lblEnd opts else lblBranch opts) ++ color opts 0 []

/-- The loop over the events, visualize.hpp l.540-597; `lex` visualizes a lexeme. -/
def visTreeLoop (opts : Opts) (lex : List Nat → Option (List Nat)) : List Bool → Nat → List VEv → Option (List Nat)
  | _, _, [] => some []
  | arr, depth, .enter name last :: evs =>
    if depth ≤ opts.maxDepth then
      match writePrefix opts arr depth last with
      | none => none
      | some p =>
        let head := p ++ color opts 1 [] ++ name ++ color opts 0 []
        if depth = opts.maxDepth then
          (visTreeLoop opts lex arr (depth + 1) evs).map (head ++ [0x3A, 0x20] ++ ellipsis opts ++ [0x0A] ++ ·)
        else if depth < arr.length then
          (visTreeLoop opts lex (arr.set depth last) (depth + 1) evs).map (head ++ [0x3A, 0x0A] ++ ·)
        else none
    else visTreeLoop opts lex arr (depth + 1) evs
  | arr, depth, .exit :: evs => if depth = 0 then none else visTreeLoop opts lex arr (depth - 1) evs
  | arr, depth, .leaf name lexeme last :: evs =>
    if depth ≤ opts.maxDepth then
      match writePrefix opts arr depth last, (if lexeme = [] then some [] else (lex lexeme).map ([0x3A, 0x20] ++ ·)) with
      | some p, some l =>
        (visTreeLoop opts lex arr depth evs).map (p ++ color opts 1 [] ++ name ++ color opts 0 [] ++ l ++ [0x0A] ++ ·)
      | _, _ => none
    else visTreeLoop opts lex arr depth evs

/-- `visualize_to` for a tree, visualize.hpp l.493-600; lexemes are written with `visualize_space`. -/
def visTree (opts : Opts) (e : LexEnc) (t : VTree) : Option (List Nat) :=
  if opts.maxDepth ≤ 32 then
    visTreeLoop opts (visLexeme { opts with space := true } e) (List.replicate 32 false) 0 (t.events true)
  else none

end Verif.Vis
