import Verif.DelimRule

/-
The grammar of examples/json.cpp, as a grammar of Grammar.lean.

Source: /repo/examples/json.cpp l.143-341, and the definitions of the rules that it uses:
brackets.hpp l.63-110, terminator.hpp l.73-86, sign.hpp l.31-42, separator.hpp, delimited.hpp l.285-344 and 367-459

The input has the encoding UTF-8 (json.cpp l.354), whose EOF is the code unit 0xFF (encoding.hpp l.95-99).
The numbers of the token kinds and of the errors are chosen here.
-/

namespace Verif.Json

/-- The EOF of UTF-8, encoding.hpp l.95-99. -/
def eof : Option Nat := some 0xFF

/-- `LEXY_LIT`; the error is `expected_literal`. -/
def lit (w : List Nat) : Rule := .tok (litTok eof 0 0 w)

/-- `std::int64_t` and `std::int16_t`, and `char16_t`. -/
def int64 : IntTy := ⟨9223372036854775807, false⟩
def int16 : IntTy := ⟨32767, true⟩
def char16 : IntTy := ⟨65535, true⟩

/-- json.cpp l.336: `dsl::ascii::blank / dsl::ascii::newline`. -/
def space : PTok := classTok 1 1 (.alt (AClass.cc .blank) (AClass.cc .newline))

/-- json.cpp l.203: `dsl::lit_c<'-'> / dsl::digit<>`. -/
def numberStart : PTok := classTok 2 2 (.alt (.leaf (AsciiSet.empty.insert 0x2D) none) (AClass.cc .digit))

/-- json.cpp l.181: `dsl::integer<std::int64_t>(dsl::digits<>.no_leading_zero())`. -/
def integer : PRule := intRule (.user 3) (.user 3) 3 4 (nlzTok .decimal) .decimal (boundedParse true (.plain int64) .decimal)

/-- json.cpp l.197: `dsl::integer<std::int16_t>`. -/
def exponent : PRule := intRule (.user 3) (.user 3) 3 4 (matchDigits .decimal) .decimal (boundedParse true (.plain int16) .decimal)

/-- json.cpp l.240: `dsl::code_unit_id<lexy::utf16_encoding, 4>`. -/
def codeUnit : PRule := intRule (.user 3) (.user 3) 3 4 (nDigits .hex 4) .hex (nDigitsParse true (.plain char16) 4 .hex)

/-- json.cpp l.220-228: the symbols `" \ / b f n r t`. -/
def escapedSymbols : SymTable where
  syms := [[0x22], [0x5C], [0x2F], [0x62], [0x66], [0x6E], [0x72], [0x74]]
  vals := [0x22, 0x5C, 0x2F, 8, 12, 10, 13, 9]

/-- json.cpp l.247: `-dsl::unicode::control`. -/
def codePoint : CC := .comp (UClass.cc .control)

/-- json.cpp l.245-257: `dsl::quoted.limit(dsl::ascii::newline)(code_point, escape)` behind the opening quote. -/
def content : DelimR where
  close := litTok eof 0 0 [0x22]
  limit := some (classTok 5 5 (AClass.cc .newline)).run
  eof := eof
  kind := .user 6
  char := delCharUnicode .utf8 codePoint
  charTag := 6
  missTag := 7
  escTag := 8
  escapes := [(litTok eof 0 0 [0x5C],
    [.ofRule (symRule escapedSymbols eof 9) _ rfl, .ofProd 13 (litTok eof 0 0 [0x75]) codeUnit])]

/-- `dsl::sep(dsl::comma).trailing_error<…>`, json.cpp l.277 and 293. -/
def comma : Sep := (lit [0x2C], .sep 10)

/-- `brackets.opt_list(item, sep)`, brackets.hpp l.69-73, terminator.hpp l.80-85. -/
def optList (o c : Nat) (item : Rule) : Rule :=
  .br (lit [o]) (.optt (lit [c]) (.lstt (lit [c]) item (some comma) fun _ => false))

/-- `dsl::recurse<json_value>`. -/
def value : Rule := .recu 1 11 false

/-- The productions, json.cpp l.150-340. -/
def prods : Nat → ProdDef
  -- json, l.327-340
  | 0 => { rule := .seq (.prod 1) (.prim (eofRule eof 12)), ws := some (.tok space), branch := false }
  -- json_value, l.304-324
  | 1 => { rule := .chc [.prod 2, .prod 3, .prod 6, .prod 10, .prod 12, .prod 11, .err 13 none], transparent := true,
           branch := true }
  -- null, l.150-154
  | 2 => { rule := lit [0x6E, 0x75, 0x6C, 0x6C], isTok := true }
  -- boolean, true_, false_, l.157-172
  | 3 => { rule := .chc [.prod 4, .prod 5], isTok := true }
  | 4 => { rule := lit [0x74, 0x72, 0x75, 0x65], transparent := true }
  | 5 => { rule := lit [0x66, 0x61, 0x6C, 0x73, 0x65], transparent := true }
  -- number, integer, fraction, exponent, l.175-206
  | 6 => { rule := .br (.peek 14 (.tok numberStart)) (.seq (.prod 7) (.seq (.opt (.prod 8)) (.opt (.prod 9)))), isTok := true }
  | 7 => { rule := .seq (.ifR (lit [0x2D])) (.prim integer), transparent := true, branch := false }
  | 8 => { rule := .br (lit [0x2E]) (.tok (digitsTok 3 3 .decimal)), transparent := true }
  | 9 => { rule := .br (.chc [lit [0x65], lit [0x45]]) (.seq (.ifR (.chc [lit [0x2B], lit [0x2D]])) (.prim exponent)),
           transparent := true }
  -- string, l.209-260
  | 10 => { rule := .wsn (.br (lit [0x22]) (.prim content.rule)), isTok := true }
  -- array, l.268-280
  | 11 => { rule := optList 0x5B 0x5D value }
  -- object, l.283-301
  | 12 => { rule := optList 0x7B 0x7D (.seq (.prod 10) (.seq (.tryr (lit [0x3A]) (.wrap .els)) value)) }
  -- code_point_id, l.236-243 (its rule is part of `content`)
  | _ => { rule := .br (lit [0x75]) (.prim codeUnit) }

/-- The grammar with an input; it has no expressions. -/
def env (s : List Nat) : Env := { inp := s, eof := eof, prods := prods, exprs := fun _ => ⟨.els, .atom, none, 256, id, 0, 0, 0⟩ }

/-- `json::max_recursion_depth`, json.cpp l.332. -/
def maxDepth : Nat := 19

/-- `lexy::parse<grammar::json>(input)`: does it succeed without an error?  `none`: not finished within `fuel` steps. -/
def accepts (fuel : Nat) (s : List Nat) : Option Bool :=
  (runGrammar (env s) fuel 0 maxDepth).map fun r => r.out == .ok && !r.evs.any Ev.isError

end Verif.Json
