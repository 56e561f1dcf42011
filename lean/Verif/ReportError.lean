import Verif.TraceAction
import Verif.VisualizeProps
import Verif.Action

/-
Model of the error context that `lexy::validate` passes to its callback, and of `lexy_ext::report_error`.

Source: /repo/include/lexy/action/validate.hpp l.165-245, /repo/include/lexy/error.hpp l.232-266,
/repo/include/lexy_ext/report_error.hpp

The input is `s`; positions are offsets.  The output is what is appended to the output iterator (iterators that share
their state, like `stderr_output_iterator`; see `C57_color_pointer_refuted` for the others).  Strings are lists of `char`s.
`none` = violated precondition or assertion.
Not modelled: inputs with a parent input (`parse_tree_input`), the limit of `%4zd` of `write_format` (16 characters;
line numbers are `unsigned`).
-/

namespace Verif.Rep

open Verif.Vis

/-! ### The context of an error -/

/-- `_vh::event_handler`: `_begin` and `_info` (the number of the production), validate.hpp l.171-245.  The handlers
    that are linked by `_prev`, innermost first, are a list. -/
abbrev Handlers := List (Nat × Nat)

/-- `get_info`, validate.hpp l.229-237: the innermost production that is not transparent, or else the outermost. -/
def getInfo (transparent : Nat → Bool) : Handlers → Option Nat
  | [] => none
  | [h] => some h.2
  | h :: hs => if transparent h.2 then getInfo transparent hs else some h.2

/-- What the sink is called with: `error_context` (production and position) and the error (tag and range). -/
structure Called where
  prod : Nat
  pos : Nat
  tag : Nat
  begin_ : Nat
  end_ : Nat
  deriving DecidableEq, Repr

/-- `_vh::event_handler::on`, validate.hpp l.178-223; the handlers and what the sink was called with before. -/
def vhOn (transparent : Nat → Bool) : Handlers × List Called → Ev → Option (Handlers × List Called)
  | (hs, sink), .prodStart n p => some ((p, n) :: hs, sink)
  | (_ :: hs, sink), .prodFinish .. => some (hs, sink)
  | (_ :: hs, sink), .prodCancel .. => some (hs, sink)
  | ([], _), .prodFinish .. => none
  | ([], _), .prodCancel .. => none
  | (h :: hs, sink), .error tag b e =>
    (getInfo transparent (h :: hs)).map fun n => (h :: hs, sink ++ [⟨n, h.1, tag, b, e⟩])
  | ([], _), .error .. => none
  | st, _ => some st

/-- All events. -/
def vhRun (transparent : Nat → Bool) : Handlers × List Called → List Ev → Option (Handlers × List Called)
  | st, [] => some st
  | st, ev :: evs => (vhOn transparent st ev).bind fun st' => vhRun transparent st' evs

/-! ### The writer -/

/-- `annotation_kind`, report_error.hpp l.28-36. -/
inductive AnnKind
  | primary | secondary
  deriving DecidableEq, Repr

/-- `diagnostic_kind`, report_error.hpp l.16-25. -/
inductive DiagKind
  | error | warning | note | info | debug | fixit | help
  deriving DecidableEq, Repr

/-- `diagnostic_writer`: the input (with the policies that follow from its encoding) and the options. -/
structure Writer where
  counting : Counting
  eof : Option Nat
  enc : Option Enc
  lex : LexEnc
  inp : List Nat
  opts : Opts

/-- `IteratorOrSize`, report_error.hpp l.129. -/
inductive EndOrSize
  | at (p : Nat) | size (n : Nat)
  deriving DecidableEq, Repr

/-- The decimal digits of a number. -/
def digits (n : Nat) : List Nat :=
  if n < 10 then [0x30 + n] else digits (n / 10) ++ [0x30 + n % 10]
termination_by n
decreasing_by omega

/-- The format `%4zd `, report_error.hpp l.144. -/
def lineNumber (n : Nat) : List Nat := List.replicate (4 - (digits n).length) 0x20 ++ digits n ++ [0x20]

namespace Writer

variable (W : Writer)

/-- `column`, report_error.hpp l.191-197. -/
def column : List Nat := if W.opts.unicode then [0xE2, 0x94, 0x82] else [0x7C]

/-- `colorize_underline`, report_error.hpp l.199-214. -/
def colorize : AnnKind → List Nat
  | .primary => color W.opts 31 [1]
  | .secondary => color W.opts 33 []

/-- `underline`, report_error.hpp l.216-227. -/
def underline : AnnKind → List Nat
  | .primary => [0x5E]
  | .secondary => [0x7E]

/-- The label of a message and its color, report_error.hpp l.57-87. -/
def label : DiagKind → List Nat
  | .error => color W.opts 31 [1] ++ [0x65, 0x72, 0x72, 0x6F, 0x72, 0x3A, 0x20]
  | .warning => color W.opts 33 [1] ++ [0x20, 0x77, 0x61, 0x72, 0x6E, 0x3A, 0x20]
  | .note => color W.opts 1 [] ++ [0x20, 0x6E, 0x6F, 0x74, 0x65, 0x3A, 0x20]
  | .info => color W.opts 1 [] ++ [0x20, 0x69, 0x6E, 0x66, 0x6F, 0x3A, 0x20]
  | .debug => color W.opts 1 [] ++ [0x64, 0x65, 0x62, 0x75, 0x67, 0x3A, 0x20]
  | .fixit => color W.opts 1 [] ++ [0x66, 0x69, 0x78, 0x69, 0x74, 0x3A, 0x20]
  | .help => color W.opts 1 [] ++ [0x20, 0x68, 0x65, 0x6C, 0x70, 0x3A, 0x20]

/-- `write_message`, report_error.hpp l.51-94. -/
def message (k : DiagKind) (msg : Opts → Option (List Nat)) : Option (List Nat) :=
  (msg W.opts).map fun m => W.label k ++ color W.opts 0 [] ++ m ++ [0x0A]

/-- `write_path`, report_error.hpp l.97-108. -/
def path (p : List Nat) : List Nat := color W.opts 34 [] ++ p ++ color W.opts 0 [] ++ [0x0A]

/-- `write_empty_annotation`, report_error.hpp l.113-123. -/
def emptyAnnotation : List Nat := List.replicate 5 0x20 ++ W.column ++ [0x0A]

/-- The units of a lexeme. -/
def text (r : Nat × Nat) : List Nat := (W.inp.take r.2).drop r.1

/-- `get_input_line_annotation(*_input, begin_location, end)`, report_error.hpp l.136. -/
def line (loc : Loc) : EndOrSize → Option Ann
  | .at p => annotateEnd W.counting W.eof W.enc W.inp loc p
  | .size n => annotateSize W.counting W.eof W.enc W.inp loc n

/-- The line with the contents, report_error.hpp l.141-159. -/
def contentLine (k : AnnKind) (loc : Loc) (a : Ann) : Option (List Nat) :=
  match visLexeme W.opts W.lex (W.text a.before), visLexeme { W.opts with color := false } W.lex (W.text a.annotated),
      visLexeme W.opts W.lex (W.text a.after) with
  | some b, some m, some e =>
    some (color W.opts 34 [] ++ lineNumber loc.lineNr ++ color W.opts 0 [] ++ W.column ++ [0x20] ++ b
      ++ W.colorize k ++ m ++ color W.opts 0 [] ++ e ++ [0x0A])
  | _, _, _ => none

/-- The line with the annotation, report_error.hpp l.161-187. -/
def markLine (k : AnnKind) (a : Ann) (msg : Opts → Option (List Nat)) : Option (List Nat) :=
  match displayWidth (fun o => visLexeme o W.lex (W.text a.before)) W.opts,
      displayWidth (fun o => visLexeme o W.lex (W.text a.annotated)) W.opts, msg { W.opts with color := false } with
  | some indent, some width, some m =>
    some (List.replicate 5 0x20 ++ W.column ++ [0x20] ++ List.replicate indent 0x20 ++ W.colorize k
      ++ (List.replicate width (underline k)).flatten
      ++ (if width == 0 || (a.truncatedMultiline && !a.annotatedNewline) then underline k else [])
      ++ [0x20] ++ m ++ [0x0A] ++ color W.opts 0 [])
  | _, _, _ => none

/-- `write_annotation`, report_error.hpp l.129-188. -/
def annotation (k : AnnKind) (loc : Loc) (end_ : EndOrSize) (msg : Opts → Option (List Nat)) : Option (List Nat) :=
  match W.line loc end_ with
  | none => none
  | some a =>
    match W.contentLine k loc a, W.markLine k a msg with
    | some x, some y => some (x ++ y)
    | _, _ => none

end Writer

/-! ### Errors -/

/-- The classes of errors, error.hpp l.12-220, with what they contain besides their position. -/
inductive ErrKind
  | literal (str : List Nat) (index : Nat)
  | keyword (str : List Nat)
  | charClass (name : List Nat)
  | generic (message : List Nat)
  deriving DecidableEq, Repr

/-- "expected '", "expected keyword '", "expected ", "beginning here" and "while parsing ". -/
def strExpected : List Nat := [0x65, 0x78, 0x70, 0x65, 0x63, 0x74, 0x65, 0x64, 0x20]
def strKeyword : List Nat := [0x6B, 0x65, 0x79, 0x77, 0x6F, 0x72, 0x64, 0x20]
def strBeginning : List Nat := [0x62, 0x65, 0x67, 0x69, 0x6E, 0x6E, 0x69, 0x6E, 0x67, 0x20, 0x68, 0x65, 0x72, 0x65]
def strWhile : List Nat := [0x77, 0x68, 0x69, 0x6C, 0x65, 0x20, 0x70, 0x61, 0x72, 0x73, 0x69, 0x6E, 0x67, 0x20]

/-- The message of the main annotation, report_error.hpp l.277-312. -/
def errMessage (W : Writer) : ErrKind → Opts → Option (List Nat)
  | .literal str _, o => (visLexeme o W.lex str).map fun v => strExpected ++ [0x27] ++ v ++ [0x27]
  | .keyword str, o => (visLexeme o W.lex str).map fun v => strExpected ++ strKeyword ++ [0x27] ++ v ++ [0x27]
  | .charClass name, _ => some (strExpected ++ name)
  | .generic msg, _ => some msg

/-- The end of the main annotation, report_error.hpp l.276, 289, 299, 308. -/
def errEnd (end_ : Nat) : ErrKind → EndOrSize
  | .literal _ index => .size (index + 1)
  | .keyword _ => .at end_
  | .charClass _ => .size 1
  | .generic _ => .at end_

/-- The location of the context and of the error, report_error.hpp l.243-246. -/
def locations (W : Writer) (ctxPos begin_ : Nat) : Option (Loc × Loc) :=
  match getLocation W.counting W.eof W.inp ctxPos startAnchor with
  | none => none
  | some cl => (getLocation W.counting W.eof W.inp begin_ cl.anchor).map fun l => (cl, l)

/-- `write_error`, report_error.hpp l.236-315, with the name of the production.  `next(context.position())` must not be
    past the end. -/
def writeError (W : Writer) (path : Option (List Nat)) (name : List Nat) (x : Called) (k : ErrKind) : Option (List Nat) :=
  match locations W x.pos x.begin_ with
  | none => none
  | some (cl, l) =>
    match W.message .error (fun _ => some (strWhile ++ name)),
      (if l.lineNr ≠ cl.lineNr then
        if x.pos + 1 ≤ W.inp.length then
          (W.annotation .secondary cl (.at (x.pos + 1)) fun _ => some strBeginning).map (· ++ W.emptyAnnotation)
        else none
      else some []), W.annotation .primary l (errEnd x.end_ k) (errMessage W k) with
    | some m, some ctx, some main => some (m ++ ((path.map W.path).getD [] ++ (W.emptyAnnotation ++ (ctx ++ main))))
    | _, _, _ => none

/-- `_report_error::_sink`, report_error.hpp l.327-350: the calls, then `finish`; the output and the count. -/
def report (W : Writer) (path : Option (List Nat)) (name : Nat → List Nat) (kind : Called → ErrKind) :
    List Called → Option (List Nat × Nat)
  | [] => some ([], 0)
  | x :: xs =>
    match writeError W path (name x.prod) x (kind x), report W path name kind xs with
    | some a, some (b, n) => some (a ++ b, n + 1)
    | _, _ => none

/-- `finish`, report_error.hpp l.344-349. -/
def finish (r : List Nat × Nat) : List Nat × Nat := (if r.2 != 0 then r.1 ++ [0x0A] else r.1, r.2)

/-- `lexy::validate` with `lexy_ext::report_error`: the output and the number of errors. -/
def validateReport (W : Writer) (transparent : Nat → Bool) (path : Option (List Nat)) (name : Nat → List Nat)
    (kind : Called → ErrKind) (evs : List Ev) : Option (List Nat × Nat) :=
  match vhRun transparent ([], []) evs with
  | none => none
  | some (_, calls) => (report W path name kind calls).map finish

end Verif.Rep
