import Verif.TokensId
import Verif.DelimRule

/-
The grammar of examples/xml.cpp, as a grammar of Grammar.lean.

Source: /repo/examples/xml.cpp l.117-271, and the definitions of the rules that it uses: brackets.hpp l.27-97,
terminator.hpp l.27-102, delimited.hpp l.304-311, context_identifier.hpp l.150-193, whitespace.hpp l.197-231,
identifier.hpp, symbol.hpp

The input has the encoding UTF-8 (xml.cpp l.284), whose EOF is the code unit 0xFF (encoding.hpp l.95-99).
The numbers of the token kinds and of the errors are chosen here.

Simplification: `empty` (l.231) is `if_('/' >> '>' + return_)`, and `return_` (return.hpp l.12-17) goes on behind the rule of
the production.  Grammar.lean has no `return_`; as it is at the end of a branch, what comes behind `empty` is written as the
other branch of a choice.
-/

namespace Verif.Xml

/-- The EOF of UTF-8, encoding.hpp l.95-99. -/
def eof : Option Nat := some 0xFF

/-- `LEXY_LIT`, `dsl::lit_c`; the error is `expected_literal`. -/
def lit (w : List Nat) : Rule := .tok (litTok eof 0 0 w)

/-- `dsl::lit_c` as a character class, char_class.hpp l.296-328 and 364-373. -/
def litClass (c : Nat) : CC := .leaf (AsciiSet.empty.insert c) none

/-- xml.cpp l.135: `dsl::ascii::space / dsl::ascii::newline`. -/
def space : PTok := classTok 1 1 (.alt (AClass.cc .space) (AClass.cc .newline))

/-- xml.cpp l.135: `ws`. -/
def ws : Rule := .wsr (.tok space)

/-- xml.cpp l.138-142: `LEXY_LIT("<!--") >> dsl::until(LEXY_LIT("-->"))`. -/
def comment : Rule := .br (lit [0x3C, 0x21, 0x2D, 0x2D]) (.tok (untilLit eof 2 2 [0x2D, 0x2D, 0x3E]))

/-- `dsl::code_point`, code_point.hpp l.13-48. -/
def codePoint : CC := .leaf (AsciiSet.empty.insertRange 0 0x7F) (some fun _ => true)

/-- xml.cpp l.148-149: `dsl::code_point - dsl::lit_c<'<'> - dsl::lit_c<'&'>`. -/
def textChar : CC := .minus (.minus codePoint (litClass 0x3C)) (litClass 0x26)

/-- xml.cpp l.159-160. -/
def headChar : CC := .alt (.alt (AClass.cc .alpha) (litClass 0x3A)) (litClass 0x5F)
def trailingChar : CC := .alt (.alt (.alt headChar (litClass 0x2D)) (litClass 0x2E)) (AClass.cc .digit)

/-- xml.cpp l.177-182: quot, amp, apos, lt, gt. -/
def entities : SymTable where
  syms := [[0x71, 0x75, 0x6F, 0x74], [0x61, 0x6D, 0x70], [0x61, 0x70, 0x6F, 0x73], [0x6C, 0x74], [0x67, 0x74]]
  vals := [0x22, 0x26, 0x27, 0x3C, 0x3E]

/-- xml.cpp l.196-200: what is behind `<![CDATA[`. -/
def cdataContent : DelimR where
  close := litTok eof 0 0 [0x5D, 0x5D, 0x3E]
  limit := none
  eof := eof
  kind := .user 3
  char := delCharUnicode .utf8 codePoint
  charTag := 3
  missTag := 4
  escTag := 5
  escapes := []

/-- xml.cpp l.236: `</`, the name again, whitespace and `>`. -/
def close : Rule := .br (lit [0x3C, 0x2F]) (.seq (.idRem 0 6 (idTok .identifier 7 headChar trailingChar)) (.seq ws (lit [0x3E])))

/-- xml.cpp l.239-241. -/
def content : Rule := .chc [.prod 2, .prod 3, .br (.peek 8 (lit [0x3C])) (.recu 1 9 false), .prod 4, .br .els (.prod 5)]

/-- The length of the name that is captured. -/
def nameLen (s : List Nat) : Nat := (idLen headChar trailingChar s).getD 0

/-- xml.cpp l.266: `ws | dsl::inline_<comment>`, whitespace.hpp l.215-219. -/
def misc : Rule := .wsr (.chc [.tok space, comment])

/-- The productions, xml.cpp l.138-270. -/
def prods : Nat → ProdDef
  -- document, l.261-270
  | 0 => { rule := .seq misc (.seq (.prod 1) (.seq misc (.prim (eofRule eof 10)))), branch := false }
  -- element, l.208-258
  | 1 => { rule := .seq (.varCreate 0 (.ident [])) (.br (lit [0x3C]) (.seq (.idCap 0 (idRule headChar trailingChar 7) nameLen)
             (.seq ws (.chc [.br (lit [0x2F]) (lit [0x3E]),
               .br .els (.seq (lit [0x3E]) (.optt close (.lstt close content none fun _ => false)))])))), branch := false }
  -- comment, l.138-142
  | 2 => { rule := comment }
  -- cdata, l.194-205
  | 3 => { rule := .wsn (.br (lit [0x3C, 0x21, 0x5B, 0x43, 0x44, 0x41, 0x54, 0x41, 0x5B]) (.prim cdataContent.rule)) }
  -- reference, l.166-191
  | 4 => { rule := .br (lit [0x26]) (.seq (.prim (symIdRule entities eof (.user 7) headChar trailingChar 7 11)) (lit [0x3B])) }
  -- text, l.145-154
  | _ => { rule := .prim (idRule textChar textChar 12) }

/-- The grammar with an input; it has no expressions. -/
def env (s : List Nat) : Env := { inp := s, eof := eof, prods := prods, exprs := fun _ => ⟨.els, .atom, none, 256, id, 0, 0, 0⟩ }

/-- `max_recursion_depth` if the grammar does not say, grammar.hpp l.180-187. -/
def maxDepth : Nat := 1024

/-- `lexy::parse<grammar::document>(input)`: does it succeed without an error?  `none`: not finished within `fuel` steps. -/
def accepts (fuel : Nat) (s : List Nat) : Option Bool :=
  (runGrammar (env s) fuel 0 maxDepth).map fun r => r.out == .ok && !r.evs.any Ev.isError

end Verif.Xml
