# Design of the formal model of lexy

`properties.jsonl` holds the property list, `MANIFEST.json` maps each property to theorem names, `lean/Verif` holds the model and the proofs, `seeded/LOG.jsonl` records the wrong programs the theorems were tried against.

## Modelling conventions

* A code unit is a `Nat` (bounded where the C++ type bound matters), an input is a `List Nat`, a reader is the list of remaining units, with an absolute offset where positions are observable. `peek` is `head?`, EOF is `none`. Encodings whose EOF is a value of the character type have `eof : Option Nat`: a unit with that value ends the input for the reader, as in the code.
* A matcher returns whether it matched together with how many units lie before its `end` marker.
* Violated `LEXY_PRECONDITION`/`LEXY_ASSERT`s, reads outside an allocation and rules that would not compile are explicit outcomes (`none`), never totalised away.
* Machine integers are unbounded `Nat`/`Int` with a `mod 2^w` wherever wrap-around can be observed (SWAR words, integer parsing, byte integers), otherwise unbounded.
* Specifications (`Verif.Spec`, or definitions next to the theorem) do not use the functions of the model.
* Definitions that model code cite file and lines. Definitions without a citation are helpers (list and word arithmetic, state records), specifications or contracts of things outside of lexy; dispatchers such as `stepRun` cite the code at each case.
* Names: `Cnn_…` belongs to property Cnn; `…_refuted` proves that the full statement is false for the pinned code, with a witness; `…_partial` is the part that does hold, or the exact condition for it. Theorems are followed by `example`s with concrete data that meet the hypotheses.

## What is modelled, module by module

| model | source in /repo | what is in it, and what is simplified |
|---|---|---|
| `CodePoint` | `_detail/code_point.hpp`, `code_point.hpp`, `encoding.hpp` | encoding, decoding and recovery for ASCII, UTF-8, UTF-16, UTF-32, default and byte encodings |
| `Swar` | `_detail/swar.hpp`, fast paths of `dsl/ascii.hpp`, `any.hpp`, `digit.hpp` | words as naturals of n lanes of w bits, little endian |
| `CharClass` | `dsl/char_class.hpp` | class expressions, compressed ASCII tables, token parser; parameter packs as binary nodes |
| `Literal` | `dsl/literal.hpp`, `symbol.hpp` (trie), ASCII part of `case_folding.hpp` | literal, trie, literal set, keyword sets; characters already transcoded to the input's type |
| `LitTrie` | `dsl/lookahead.hpp`, `operator.hpp`, `recover.hpp` | tries of the rules that search for literals |
| `Follow` | `dsl/follow.hpp` | on top of `Literal` and `CharClass` |
| `TreeInput` | `input/parse_tree_input.hpp`, `parse_tree_input_traits` and node kinds of `parse_tree.hpp`, `dsl/parse_tree_node.hpp` | on the memory of `ParseTree`; the rule in parentheses is an arbitrary function, whitespace and the continuation are left out, branch parsing of the node rules is `nodeTry` followed by `nodeParseRule` |
| `CodePointRule` | `dsl/code_point.hpp`, `dsl/bom.hpp`, category groups of `code_point.hpp` | as leaves of `CharClass` and as literals; names of the classes are left out |
| `Identifier` | `dsl/identifier.hpp` | pattern, reservations, keywords, fast path |
| `Digit`, `Integer` | `dsl/digit.hpp`, `dsl/integer.hpp` | digit rules; bounded and unbounded parsers with machine arithmetic; N-digit parser |
| `Until`, `Delimited` | `dsl/until.hpp`, `any.hpp`, `newline.hpp`, `delimited.hpp` | loops and fast paths; close and escape rules by what they consume |
| `Location` | `input_location.hpp`, `_detail/iterator.hpp` | all counting strategies, anchors, line annotations |
| `Buffer`, `BufferOwn` | `input/buffer.hpp`, `input/base.hpp`, `_detail/memory_resource.hpp` | contents with sentinel and padding, `make_buffer_from_raw`; ownership of allocations by buffers |
| `Stream` | `_detail/buffer_builder.hpp`, `input/file.hpp`, `src/input/file.cpp`, `lexy_ext/shell.hpp` | reads with arbitrary short counts; the operating system by its contract |
| `Argv` | `input/argv_input.hpp` | iterators over the argument vector |
| `Bytes` | `dsl/byte.hpp`, `dsl/bits.hpp` | byte integers, padding, bit patterns |
| `Symbol` | `dsl/symbol.hpp`, `dsl/flags.hpp` | symbol and flag rules on top of the trie |
| `CaseFold`, `UnicodeDb`, `UnicodeClass` | `dsl/case_folding.hpp`, `_detail/unicode_database.hpp`, `code_point.hpp`, `dsl/unicode.hpp`, `dsl/ascii.hpp`, `callback/string.hpp` | folding readers; the tables of the database, transcribed by a script |
| `Callback` | `callback/{adapter,aggregate,base,bind,composition,container,fold,integer,string}.hpp`, `dsl/member.hpp` (assignment only) | list, collection, concat, collect, fold, string, integer, aggregate, bind; standard containers by their contract |
| `Trace`, `Grammar` | `dsl/{branch,choice,combination,context_*,error,expression,if,list,lookahead,loop,operator,option,peek,position,production,recover,repeat,separator,sequence,token,whitespace}.hpp`, `action/base.hpp`, `grammar.hpp` | events; the interpreter described below |
| `Lang`, `ExprSpec` | (specifications) | language of a grammar by derivations; trees of an expression by precedence |
| `Action` | `action/match.hpp`, `validate.hpp`, `parse.hpp` | results of the actions from the events |
| `Scan` | `dsl/scan.hpp`, `action/scan.hpp` | scanners as state machines on top of the interpreter; clients are sequences of calls |
| `TraceAction` | `action/trace.hpp` | the locations shown by `trace` |
| `ParseTree`, `ParseTreeBlocks`, `ParseTreeAction`, `ParseTreeQuiet`, `ParseTreeChains`, `ParseTreeCover`, `JsonTreeProps`, `XmlTreeProps` | `parse_tree.hpp`, `lexy_ext/parse_tree_algorithm.hpp`, `action/parse_as_tree.hpp` | memory-level builder and accessors, ownership of blocks, the handler building trees from events |
| `Visualize` | `visualize.hpp` | display of code points, strings, lexemes and trees; colors |
| `ReportError` | `lexy_ext/report_error.hpp`, `action/validate.hpp` l.171-245 | the error context that callbacks get; diagnostic_writer and report_error on top of `Location` and `Visualize` |
| `GrammarTotal`, `GrammarEats`, `GrammarWf*` | `dsl/*.hpp` | no model of its own: which grammars of `Grammar` terminate; `Wf` is the criterion, `Eats` and `Moves` say which rules consume input |
| `Tokens`, `TokensId`, `DelimRule` | `dsl/literal.hpp`, `char_class.hpp`, `digit.hpp`, `integer.hpp`, `symbol.hpp`, `eof.hpp`, `delimited.hpp` | no model of its own: the tokens and rules of the other modules as tokens and primitive rules of `Grammar` |
| `IpAddress` | `examples/ip_address.cpp` | the grammar, the scanner and the builder, with values and errors but without events and positions |
| `TreeDesc` | `lexy_ext/parse_tree_doctest.hpp` | the text of a description and its comparison; nodes are names and texts |
| `StrView` | `_detail/string_view.hpp`, `_detail/type_name.hpp` | views into an array; what the compiler prints for a type is given |
| `Iter` | `_detail/iterator.hpp`, `lexeme.hpp` | algorithms with and without random access; iterators are positions |
| `LazyInit` | `_detail/lazy_init.hpp` | storage with explicit lifetimes; values are numbers |
| `Inputs` | `input/{base,string_input,range_input,lexeme_input}.hpp`, `error.hpp` l.226-248 | memory as a block of cells; `peek` etc. as in `Buffer` |
| `TokenKind` | `token.hpp`, `grammar.hpp` l.79-141 | kinds as integers of a given type; overload resolution of the constructors by hand |
| `Meta` | `_detail/{integer_sequence,tuple,nttp_string}.hpp`, `encoding.hpp` l.290-323 | parameter packs as lists |
| `Json` | `examples/json.cpp` | the whole grammar, without the values; `JsonSpec` is the grammar of RFC 8259 |
| `ValuesEnds`, `JsonUnique` | - | no model of their own: `ValuesEnds` has the converse of `ValuesErase`, for callbacks that accept all arguments; `JsonUnique` that a text of JSON has one meaning |
| `JsonValues` | `examples/json.cpp` l.24-49, 143-341 | the grammar with its values and callbacks; overload resolution of callbacks by the constructors of `Obj`; `std::map` in the order of insertion; `JsonValueSpec` is what a text means |
| `JsonPrint` | `examples/json.cpp` l.50-135 | output as a list of bytes; `char` is signed; the C locale; `%d`, `%s` and `%02x` written out; a `std::map` is iterated in the order of its keys; levels are not negative |
| `CalcEval` | `examples/calculator.cpp` l.15-243, l.449-468 | 32 bit `int`; objects have addresses and exist while they are owned; undefined behavior is an outcome; `std::pow` exact for integers below 2^31; no limit of the stack; nothing printed on errors |
| `Turing` | `examples/turing.cpp` | the rules written out as functions on the remaining input, without events; `int` of 32 bits; the variables of `main`; the first error ends the run |
| `Protobuf` | `examples/protobuf.cpp` | on top of `Bytes`, without events; `unsigned` has 32 bits; the first error ends the run; floating point values and `visualize` are not modelled |
| `Email` | `examples/email.cpp` l.69-233 | the rules written out as functions on the remaining input, without events; the first error ends the run; ASCII input; printing is not modelled |
| `Config` | `examples/config.cpp` l.17-188 | the rules written out as functions on the remaining input, without events; the first error ends the run, so that what is printed after a recovery is not modelled; the conversion of digits and the decoding and encoding of UTF-8 are those of `Integer`, `Digit`, `CodePoint` |
| `Shell` | `examples/shell.cpp` l.15-350 | the rules written out as functions on the remaining input, without events; the first error ends the run; the input is what is entered from a prompt on; what `trace` and `vars` print is not modelled |
| `LoopProps` (`timesRule`) | `dsl/times.hpp` l.16-32 | a function that builds a rule of `Grammar` |
| `PunctProps` (`Punct`) | `dsl/punctuator.hpp` l.12-42 | the literals of `Tokens` |
| `WhileProps` (`whileOne`, `doWhile`) | `dsl/loop.hpp` l.104-120 | functions that build rules of `Grammar` |
| `Brackets` | `dsl/terminator.hpp` l.22-106, `dsl/brackets.hpp` l.12-112, `_maybe_branch` of `dsl/branch.hpp` l.103-110 | functions that build rules of `Grammar`; literals of limits without case folding |
| `CalcParse` | `examples/calculator.cpp` l.245-441, with `dsl/expression.hpp` l.50-563 | the rules written out as functions on the remaining input, without events, with a number of steps; binding powers and groups as computed in `expression.hpp`; the first error ends the parse |
| `Xml` | `examples/xml.cpp` | the whole grammar, without the values; `XmlSpec` is the part of XML 1.0 that it has, with what it treats differently as parameter |
| `Accept`, `Reject`, `Runs`, `LangInv`, `Segment` | `dsl/*.hpp` | no model of their own: how to show what a grammar of `Grammar` accepts and rejects |
| `Values` | `dsl/base.hpp`, `action/base.hpp`, `action/parse.hpp`, `dsl/capture.hpp`, `position.hpp`, `option.hpp`, `list.hpp`, `combination.hpp`, `recover.hpp`, `production.hpp`, `member.hpp`, `effect.hpp`, `parse_as.hpp`, `return.hpp`, `repeat.hpp`, `context_counter.hpp`, `context_identifier.hpp` | the values parsers hand to their continuations, in continuation passing style; `ValuesSpec` is the documented direct style |
| `TypeId` | `_detail/type_name.hpp` l.93-128, `error.hpp` l.43-47, `grammar.hpp` l.192-215 | types as records of what the functions look at |
| `ExprValue` | `dsl/expression.hpp` l.263-558, `dsl/base.hpp` l.181-193 | `context.value` is the value; callback and sink are any functions; values of atoms and operators are given |
| `Subgrammar` | `dsl/subgrammar.hpp`, `action/base.hpp` l.201-225, `action/parse_as_tree.hpp` l.31-90 | one subgrammar between two rules; without its value |
| `ValuesPrims`, `ValuesEx2` | `dsl/{integer,identifier,symbol,delimited,sign}.hpp` | values of the rules without parts; the value of a symbol is its index in the table |
| `ValuesLang` | `docs/content/reference/dsl` | no model of its own: which values a rule has for a part of the input it derives (specification of C98); `ValuesLangInv` reads it backwards |

Modules not listed hold lemmas and the property theorems: `XProps.lean` is about the model `X.lean`, `GrammarTrace/State/Mono/Ws/Quiet/Lemmas.lean` are inductions over the whole interpreter, `ParseTreeInv/Sim/Read.lean` hold the invariant of the tree builder.

## Grammar model

`Grammar.lean` is a deep embedding: `Rule` has one constructor per rule combinator, a grammar is a table of productions and a table of expressions, and `exec` interprets a command (run a rule; try, finish or cancel a branch; one iteration of a loop) for a number of steps. A result `none` means that the steps do not suffice, an assertion fails or the rule does not compile. `GrammarMono` shows that more steps never change a result, so statements do not depend on the number of steps.

* Continuation passing is written in direct style. A rule ends with `ok` where the code calls its continuation, `fail` where it returns false, `brk` where it returns true without calling it (`break_`). Only `try_` looks at whether its continuation was reached, and that is modelled.
* `try_parse` of a branch is const, so what it remembers for `finish` and `cancel` is recomputed.
* Values are modelled separately (`Values.lean`), except for the shape of expressions.
* Tokens and value-producing primitive rules are parameters (`PTok`, `PRule`): what they match is an arbitrary function subject to the conditions in the structure. `Tokens.lean` and `DelimRule.lean` make some of the token models above tokens and rules of a grammar; otherwise a theorem about grammars and one about a token are connected only by those conditions.
* Every token reports exactly one error when it does not match.
* `cancel()` of a choice after its `finish()` failed (only in `_lstt`, list.hpp l.236-249) would report branches that were never tried with null positions; here they get the position of the choice.

## What is not modelled

* The values of subgrammars; subgrammars within other rules than sequences.
* `callback/{bit_cast,constant,forward,noop,object}.hpp`.
* `lexy_ext/compiler_explorer.hpp`.
* `error.hpp` but for `error_context::input` and `error::is`: errors are a tag and a range.
* `_detail/any_ref.hpp` and other template utilities.
* Types: overload resolution, `static_assert`s, `constexpr` evaluation, exceptions and lifetimes of parsed values.
* Big endian machines, except for the word reads in C27; data races; running out of memory.

## How each property is proved

| property | status | proved in | approach, and what is left |
|---|---|---|---|
| C01 UTF-8 encode/decode round trip | proved | `CodePointProps.lean` | Arithmetic case split on the length class. Model: Verif.CodePoint; spec: Spec.utf8 (arithmetic). |
| C02 UTF-8 decoding accepts only well-formed sequences | proved | `CodePointProps.lean` | Inversion of the decoder against Unicode Table 3-7. Byte inputs (units < 256). |
| C03 UTF-16 encode/decode round trip | partial | `CodePointProps.lean`, `DecodeProps.lean` | False for planes 2,4,...,16 in the pinned code (witness U+20000); exact behaviour proved for every scalar value. |
| C04 Malformed text: bounded error regions and guaranteed progress of recovery | partial | `CodePointProps.lean` | UTF-8 bytes F8..FF are classified as EOF, so recovery does not progress there; proved for all inputs without EOF-like units (no exception in UTF-16). |
| C05 Decoding a text is the inverse of encoding it | partial | `CodePointProps.lean` | All values for ASCII, UTF-8, UTF-32; false for UTF-16 in the planes where C03 fails; general theorem restricted to the values Spec.Faithful. |
| C06 SWAR fast paths agree with per-character matching | partial | `AsciiSwarProps.lean` | Lane induction, no carries between lanes. Exact for 8 bit lanes; ascii::print/graph accept 0xFFFFFFFF lanes on UTF-32 (witness), so those are partial (lane values below the top). |
| C07 SWAR find/less primitives are exact | proved | `SwarProps.lean` | For every lane width and lane count of the code; little endian packing. |
| C08 Character class algebra | proved | `CharClassProps.lean` | Structural induction over class expressions. Union, complement, difference, intersection over arbitrary leaves satisfying CC.Ok; token level for the four Unicode encodings and the single byte encodings. |
| C09 Compressed ASCII tables decide membership | proved | `CharClassProps.lean` | Invariant of the compression loop. For every set and every code unit. |
| C10 Literal matching is prefix matching | partial | `LiteralProps.lean` | Full for unit-wise readers and for word-wise readers with a literal of the same character size; refuted for char literals on UTF-32 buffers (mismatch index computed with the wrong lane size). Literals do not contain the EOF-like unit. |
| C11 Literal sets pick the longest literal | partial | `LiteralProps.lean` | Invariant: the trie holds exactly the inserted strings. Full for sets of plain literals in any order; with keywords for sets where equal spellings are equal rules; refuted for a literal and a keyword of the same spelling. |
| C12 Symbol tables return the value of the longest matching symbol | proved | `LiteralProps.lean` | Unit-wise (ASCII) case folding included through an idempotent fold; symbols without the EOF-like unit. |
| C13 Keywords are not prefixes of identifiers | proved | `IdentifierProps.lean` | For literals that are identifiers of the pattern and any of the four Unicode encodings. |
| C14 Identifier matching and reservation | partial | `IdentifierProps.lean` | Pattern, equal/prefix/contains: full. reserve_suffix misses suffixes after an earlier occurrence (refuted, x_t_t); exact when members only occur at the end. |
| C15 ASCII case folding | proved | `LiteralProps.lean` | Literals without upper case letters, as the documentation requires; literals with upper case letters never match. |
| C16 Digit sequences | proved | `DigitProps.lean` | Separators that do not match at a digit. |
| C17 Integer conversion is exact or reports overflow | partial | `IntegerProps.lean` | Invariant: the value is the Horner sum and does not wrap. Exact for every string ending in a digit (all the digit rules match); never a wrong value and never a missed overflow for all strings; spurious overflow after trailing non-digits refuted. |
| C18 N-digit code point escapes | proved | `IntegerProps.lean` |  |
| C19 until consumes up to the first occurrence | proved | `UntilProps.lean` | Conditions are tokens that do not match past the end. |
| C20 Delimited content is everything before the first unescaped closing delimiter | partial | `DelimitedProps.lean` | Full for unit-wise readers. With word-wise reads: proved without limit and with delimiters that only match at their first character; limits and case folded delimiters are refuted. |
| C21 Newline and end of line | proved | `UntilProps.lean` |  |
| C22 Input locations count newlines and columns | proved | `LocationProps.lean` | Positions before which there is no unit that is taken for EOF (otherwise the assertion of the code fails). |
| C23 Location lookup is independent of the anchor | proved | `LocationProps.lean` |  |
| C24 Line annotations partition the line | proved | `LocationProps.lean` |  |
| C25 Raw memory to code units honours endianness | proved | `BufferProps.lean` | Memory whose size is a multiple of the unit size (otherwise the precondition of the code is violated). |
| C26 Byte order marks are stripped only when present | partial | `BufferProps.lean` | UTF-8 and UTF-16: full. UTF-32: refuted for data starting with 00 00 FE and a further non-zero byte (dropped as if it were a mark), proved otherwise. |
| C27 Sentinel buffers behave like ranges | partial | `BufferProps.lean` | Full for buffers with an allocation on little endian machines; a default constructed buffer has no sentinel (refuted), and word-wise reads on big endian machines are reversed (refuted). |
| C28 Command line arguments are joined by NUL | proved | `ArgvProps.lean` | Arguments without NUL, as in C. |
| C29 Reading a stream returns all of it | partial | `StreamProps.lean` | Reading of streams and files: full. The builder as such copies too few bytes when growing for units larger than a byte (refuted); proved for bytes. |
| C30 Parse tree construction | partial | `ParseTreeProps.lean` | Refinement: memory of the builder against a stack of lists of children. Memory-level model. Missing: the operations for which the code is wrong, each refuted with a witness: cancelling a transparent production that has added children; cancelling an empty container (when the block is full); a second container in a production without children (at the end of a block). |
| C31 Parse tree size and depth | partial | `ParseTreeProps.lean` | Exact without cancelling; with cancelling the exact value of size() is given. Same operations left out as for C30. |
| C32 Tree traversal visits every node once in order | partial | `ParseTreeProps.lean` | For every tree of C30 and every node. siblings() of the root is undefined behavior and left out. |
| C33 Parse trees are lossless | partial | `ParseTreeAction.lean`, `ParseTreeQuiet.lean`, `ParseTreeChains.lean`, `XmlTreeProps.lean`, `JsonTreeProps.lean`, `ParseTreeCover.lean` | Every grammar, input and recovery, except for runs that cancel a transparent production that already has children, or start a second operator chain in one production; the tree is read back from the modelled memory. Parses that report no error: every grammar with a non-transparent entry production whose operator chains are not empty, in particular every grammar without expressions; shown for every JSON text and the JSON example. Grammars with neither expressions nor transparent productions: every parse, also with errors; shown for the XML example and every input. Every grammar with a non-transparent entry production, also with errors, if no operator chain is empty: no precondition is violated and the tokens cover what was consumed without a gap (C33_covers_partial). Refuted for cancelled transparent productions, whose tokens can be in the tree twice. |
| C34 Covering token search | partial | `ParseTreeProps.lean`, `ParseTreeCover.lean` | For every tree of C30. find_covering_node finds a token for every consumed position in the tree of every parse whose entry production is not transparent and whose operator chains are not empty, also with errors; shown for the JSON example and every input. position() of a production without tokens is undefined behavior (refuted). |
| C35 Parse events are well nested | proved | `TraceProps.lean` | Induction over the steps of the interpreter. Every grammar of the modelled rules, every input, every fuel: the interpreter's event list. |
| C36 The reader only moves forward and stays in bounds | proved | `TraceProps.lean` |  |
| C37 Token events tile the consumed input | proved | `TraceProps.lean` |  |
| C38 Accepted input is in the language of the grammar | proved | `LoopProps.lean` | Derivations as separate inductive predicate. For every grammar whose operator literals are not empty and do not begin with EOF (ExprLits). The language is defined by derivations, without looking at how lexy parses; context variables are not part of it. |
| C39 Choice commits to the first matching branch | partial | `ChoiceProps.lean`, `WsProps.lean` | Every list of branches; the taken branch behaves like the rule (apart from the token kind of context_identifier.rematch). Branches with no_whitespace at their head are excluded: refuted for them. |
| C40 Lookahead rules consume nothing | proved | `ChoiceProps.lean`, `EofProps.lean` |  |
| C41 Failure always comes with an error | proved | `TraceProps.lean`, `ActionProps.lean` | dsl::find and dsl::recover only inside dsl::try_. |
| C42 Actions agree | partial | `ActionProps.lean`, `ParseTreeAction.lean`, `ParseTreeAgree.lean`, `ParseTreeCover.lean` | match, validate and parse: full. parse_as_tree: whenever its tree builder does not run into the undefined behaviour refuted in C30; it never does for grammars without expressions whose entry production is not transparent (C42_tree_no_expr), and C33 says when else that is excluded. |
| C43 Counted repetition | proved | `LoopProps.lean`, `TimesProps.lean` | C43_repeat_exact holds whether errors are reported or not. Behind the last item only a separator that may be trailing. |
| C44 Combination parses every alternative exactly once | proved | `ListProps.lean`, `CombProps.lean` | A branch that ends with break_ ends the combination early. |
| C45 Recursion depth limit | partial | `DepthProps.lean` | The limit and the error: full. That shallow input is never rejected: proved while no error was reported, refuted after recovery (the depth is not decremented when a recursive production fails). |
| C46 Context variables | proved | `CtxProps.lean` | Counters are unbounded integers in the model. |
| C47 Operator precedence and associativity (soundness) | proved | `ExprProps.lean`, `ExprWitness.lean` | Induction over the steps; every tree respects precedence. For every operator table in which an operation has one level, every input and context. C47_recovery_refuted shows that the restriction to parses without error is needed. |
| C48 Operator precedence parsing is complete | partial | `ExprComplete.lean`, `ExprWitness.lean` | Induction over the tree. Proved if at each operator no other operation of the table matches; with an operator that is a prefix of another one of a different level it is refuted. |
| C49 Operator nesting limit | partial | `ExprComplete.lean`, `ExprWitness.lean` | The limit is on the number of operators, not on nesting: an expression accepted without error has at most max_operator_nesting operators, and with that many it is accepted; the statement about nesting is refuted. |
| C50 Automatic whitespace skipping | partial | `WsProps.lean` | Maximal skipping after tokens: full, for token and rule whitespace. Inside no_whitespace: proved for rules without nested (no_)whitespace; nested no_whitespace, and whitespace after a recovered failure inside of no_whitespace, are refuted; also that productions inside re-enable whitespace, as the manual says. |
| C51 Byte integers honour size and endianness | proved | `BytesProps.lean` |  |
| C52 Bit patterns | proved | `BytesProps.lean` |  |
| C53 Flags accumulate | partial | `SymbolProps.lean` | Proved for the code's notion of duplicate (all bits already set). The documented notion, (result & flag) != 0, agrees only for flags that are single bits; a flag of value 0 is always a duplicate (refuted); the reported range includes whitespace (refuted). |
| C54 Error recovery by search | proved | `ChoiceProps.lean` | Inside dsl::try_. |
| C55 List sinks receive items in order | proved | `CallbackProps.lean` | std::vector and std::map/set are modelled by their contract (contents, capacity, number of allocations). The documented size of a collection (N arguments give N items) is refuted for duplicates. |
| C56 Error locations can always be displayed | partial | `TraceAction.lean` | False as stated: after a production on a later line has finished, the anchor stays on that line, so that an error that begins on an earlier line (duplicate in a combination, trailing separator) cannot be located. C56_trace_iff_partial says exactly when tracing works, and that what it shows is right. |
| C57 Visualisation covers the whole lexeme | partial | `VisualizeProps.lean`, `VisualizeColor.lean` | Nothing is lost for ASCII, default and byte encodings and for UTF-8 without bytes F8..FF (with unlimited width and tabs that are not replaced by spaces); refuted for the other Unicode lexemes. Width, printable output, display width and that colors change nothing else are proved for every encoding. |
| C58 Interactive shell input | partial | `StreamProps.lean` | Proved up to the last complete line; beyond it refuted. |
| C59 Separators | proved | `ListProps.lean`, `ListAccept.lean`, `TermListProps.lean` | ignore_trailing_sep: a list consumes the trailing separator without a report, times and repeat leave it. |
| C60 Terminated lists recover | proved | `TermListProps.lean` | The terminator itself can still fail after it was taken as a branch. |
| C61 Value after an integer overflow | partial | `IntegerProps.lean` | Proved for types smaller than unsigned; refuted for unsigned and bounded. |
| C62 Integer recovery | partial | `IntegerProps.lean` | Skipping of digits proved; skipping of separators refuted. |
| C64 Location order | proved | `LocationProps.lean` |  |
| C66 Buffers own their memory | proved | `BufferOwnProps.lean` |  |
| C67 Parse trees own their memory | partial | `ParseTreeBlocks.lean` | Safety is proved in full; leak freedom if no grown buffer is reset and grown again, otherwise refuted. |
| C68 Groups of operations are not mixed | proved | `ExprGroups.lean` |  |
| C69 Symbol rules | partial | `SymbolProps.lean` | symbol(token) in full; symbol(identifier) if the symbols are identifiers of the class, otherwise refuted. |
| C63 Unicode case folding | partial | `CaseFoldThms.lean`, `UnicodeFold.lean` | Literals: proved for UTF-8 for every input, also with the folding of the library's own database; UTF-16 without high surrogates of even planes, which the decoder gets wrong (refuted otherwise). Strings: proved for well-formed text; refuted for malformed text (truncated) and for text with a unit equal to EOF. Literal sets and symbol tables: refuted, the nested readers do not restore their state. UTF-32 folds unit by unit and is covered by the literal theorems of C10/C12 with another folding function. |
| C70 Unicode database | proved | `UnicodeFold.lean`, `UnicodeClassProps.lean` | The tables were transcribed by script from the generated header; facts about them are checked by the kernel, block by block, and lifted to all code points. Not claimed: that the tables are those of Unicode 15.0. |
| C71 Binding arguments | proved | `CallbackProps.lean` | Both the recursive and the direct implementation. |
| C72 Signed integers | partial | `CallbackProps.lean` | Proved unless the digits are of an unsigned type of at least 32 bits that is narrower than T; then refuted. |
| C73 Visualisation of trees | proved | `VisualizeProps.lean` |  |
| C74 Scanners | partial | `ScanProps.lean` | Nesting, tokens, positions and status are proved for every sequence of calls. The equivalence of branch and choice holds if the condition creates no variables; a failing scan() has reported an error if it returns no value only when the scanner is not ok. |
| C75 Reported errors | partial | `ReportErrorProps.lean` | Alignment is proved for line numbers below 10000 and refuted beyond. Inputs must not contain the EOF unit of their encoding. |
| C76 Literals with a follow restriction | partial | `FollowProps.lean` | not_followed_by in full, with any folding of single units; followed_by fails exactly before a well-formed code point outside of the class, so it does not ensure that anything follows. |
| C77 Parse trees as input | partial | `TreeInputProps.lean` | For trees made by the builder operations covered by C30. Positions and node rules: only if every production has a child and the tokens are adjacent. The child rule is an arbitrary function reporting tokens that cover what it consumed; whitespace before the rule and the continuation are not part of the model of the node rules. |
| C78 Code point rules and byte order marks | partial | `CodePointRuleProps.lean` | In full for ASCII, UTF-8, UTF-32 and the byte encodings; in UTF-16 only for the code points that are decoded faithfully. Names of the classes and the automatic whitespace after the token are not part of it. |
| C79 Values are handed to callbacks as documented | partial | `ValuesProps.lean`, `ValuesParseProps.lean`, `ValuesEnds.lean`, `ValuesEx.lean`, `ValuesEx2.lean` | Values are terms that record what a callback was given. Missing: the values of subgrammars (those of expressions are C97); that values do not change parsing is proved for grammars without return_ and with parse_as of tokens and productions only; that a parse with values ends whenever the one without does also needs that there is no value of a counter and no repeat with a separator. return_ within try_, parse_as, no_whitespace and push is refuted. |
| C80 Parsing terminates | partial | `TerminationProps.lean` | The criterion is Wf (GrammarWf.lean), with Eats and Moves (GrammarEats.lean) for rules that consume input. Grammars with try_/list conditions that are no branches do not meet it; items of terminated lists without separator have to consume input whenever their branch is taken, which excludes recursive branches: there the parse does not end (refuted). |
| C81 The JSON example accepts exactly JSON within its limits | proved | `JsonProps.lean` | The grammar of JSON is specified in JsonSpec.lean, independently of the grammar of the example in Json.lean. The values are not part of it. |
| C82 The JSON example conforms to RFC 8259 | partial | `JsonProps.lean` | Sound for inputs without the byte 0xFF, complete for texts within the limits of the example. Limits on numbers and on nesting are allowed by RFC 8259 section 9, the others are not. |
| C83 The IP address example accepts exactly the addresses | partial | `IpAddressProps.lean` | C83_address is an equivalence for all texts, without the limit of four digits per piece. The scanner is written out; events and positions of errors are not part of the model. |
| C84 The IP address example stays in bounds | partial | `IpAddressProps.lean` | C84_ub is the exact condition. |
| C85 A description of a parse tree equals exactly that tree | partial | `TreeDescProps.lean` | Exact for names without newline that do not start with a space or dash, and texts of units below 0xFF without a backslash followed by an opening brace. C85_defined is the exact condition for the comparison to be defined. |
| C86 String views and names of types | partial | `StrViewProps.lean` | Proved except for empty views and needles, and for the index one behind the view. What the compiler prints is an assumption. |
| C87 Algorithms do not depend on the category of the iterators | partial | `IterProps.lean` | Proved for distances below 2^32, and for next_clamped whenever it is clamped. |
| C88 lazy_init is an optional object | proved | `LazyInitProps.lean` | The storage, its flag and the lifetimes refine optional variables. |
| C89 The XML example accepts exactly its documents | proved | `XmlProps.lean`, `XmlEnds.lean` | The documents are specified in XmlSpec.lean, independently of the grammar of the example in Xml.lean. That it ends is C89_ends, by the criterion of C80. The values are not part of it. |
| C90 The XML example conforms to XML 1.0 | partial | `XmlProps.lean` | Complete for documents within the limit of the depth. What else is accepted is known exactly by C89. |
| C91 Inputs behave as the text they refer to | partial | `InputsProps.lean` | All inputs refine reading the text. The locations of errors are only those of the whole input if the parent of the lexeme_input is not one itself. |
| C92 Token kinds | partial | `TokenKindProps.lean` | Holds for int and enumerations with the values up to 65535, and tokens that are mapped once. |
| C93 Compile-time lists | proved | `MetaProps.lean` | Parameter packs are lists. |
| C94 Signs | proved | `ValuesEx2.lean` | For encodings whose end of input is neither sign. |
| C95 Subgrammars | partial | `Subgrammar.lean` | The subgrammar is not a rule of the grammar interpreter; it is modelled as a step between two rules of a production. That a production parses like the top level action is proved for states in which whitespace skipping is not disabled and dsl::recurse is not active. |
| C96 Tags and productions are told apart | partial | `TypeId.lean` | is<Tag>() is right for tags in the same outermost namespace without a name of their own; type_id for types that declare their name themselves. |
| C97 The value of an expression is that of its tree | partial | `ExprValueProps.lean`, `ExprValueEx.lean` | Proved for expression grammars that meet ExprOk (see C47), whose atom is not itself an expression, and whose list operators have values. The values of atoms and operators are any functions of the state in which they are parsed. |
| C98 The values of a parse without errors are those of a derivation of the input | proved | `ValuesLangProps.lean`, `ValuesLangInv.lean`, `ValuesPrimProps.lean` | For grammars without return_, with parse_as and the number of repeat around tokens and productions only, and push of a counter around those and while_ (VR.std), and operators that are told apart by their spelling (ExprLits). Expressions are not among the rules with values (see C97); the value of a counter is any number. vlang_lang: what has values is derived by the grammar without them. C98_integer is for digits without separators. |
| C99 The JSON example has the value of the text | partial | `JsonValueProps.lean` | For inputs of bytes. Different numbers have different values unless one is negative with the integer part 0. Escaped surrogates stay separate, as the example documents. |
| C100 The JSON example prints what it parses | partial | `JsonPrintProps.lean`, `JsonPrintOrder.lean`, `JsonPrintSorted.lean` | For values whose strings and keys are printable ASCII, nested at most 19 deep, with nonempty digits as fractions and numbers that the grammar can have written; equal up to the order of the members. The full claim is false: control characters are printed as \xNN, and std::iscntrl has undefined behavior for negative char (char signed, the C locale). |
| C101 The calculator example computes what is entered | partial | `CalcEvalProps.lean` | An equivalence for sessions in which functions are only defined by whole statements, with 32 bit int. std::pow is taken to be exact for integer results below 2^31. Stack depth is not modelled. The full claim is false for functions defined within expressions, and the behavior is undefined where results are not values of an int. |
| C102 Expressions are those of the documented grammar | partial | `ExprBnf.lean`, `ExprBnfEx.lean` | Soundness when postfix operators bind tighter than infix operators and the root operation of a subexpression is in no group; completeness without groups in groups and operations in two groups, and with the other restrictions of C48. |
| C103 The Turing example executes its input | partial | `TuringProps.lean`, `TuringTextProps.lean` | For every program without white space after numbers, nested at most 1024 deep: no error, no other result than that of the program, and that one if the program ends, all values are values of an int and variables that are assigned to with := are not negative. The claim without these conditions is refuted, and so is that other texts are rejected; C103_executed says what is executed of any text. What happens after the first error is not modelled. |
| C104 The protobuf example prints the message that is encoded | partial | `ProtobufProps.lean` | Every message whose numbers have at most five bytes (or six if certain bits are zero) is printed; for inputs without five bytes in a row with the highest bit set, exactly the messages are accepted. Longer numbers are wrong or undefined behavior, refuted; the signed values printed are wrong, refuted. Floating point values and the display of bytes are not modelled. |
| C105 The email example has the message that is written | partial | `EmailProps.lean` | In both directions for the texts the example is made for, and for the part they have in common with RFC 5322. The three differences are refuted with witnesses (the tests of the example expect the first one). Folding white space, comments, groups, other headers are left out by the example itself. What is printed is not modelled. |
| C106 The config example has the package that is written | partial | `ConfigProps.lean` | In both directions for files without a byte 0xFF. The four exceptions are refuted with witnesses. What is printed after an error that was recovered from is not modelled. |
| C107 The shell example executes the commands that are entered | partial | `ShellProps.lean` | In both directions for inputs without a byte 0xFF; that byte is refuted with a witness. What the directives trace and vars print is not modelled; an input is what the user enters from a prompt on. |
| C108 The calculator example parses what is entered | partial | `CalcParseProps.lean` | In both directions for inputs without a byte 0xFF; that byte is refuted with a witness. The limits of the code are part of the grammar: 256 operators in an expression that is not nested, 1024 nested expressions. What is done after an error is not modelled. |
| C109 The calculator example prints the values of the lines entered | partial | `CalcTextProps.lean` | C108 and C101 together, with their restrictions: functions are only defined by whole statements, no byte 0xFF. Refuted otherwise by Calc.C101_redefine_refuted, Calc.C101_restore_refuted and CalcP.C108_byte_refuted. |
| C110 Brackets and terminators match their contents up to the closing bracket, and recover there | proved | `BracketsProps.lean` | The contents are any rules; what they match without an error is Spec.Lang (C38). Recovery of list is stated for a first item that fails in a list with a separator; for the other steps of the loop see C60. |
| C111 Loops parse their branch as long as it matches, and stop where it does not | proved | `WhileProps.lean` | What the branch matches without an error is Spec.Lang (C38); C111_parsed, like C38, is for grammars in which the literals of all expressions are matched by their spelling (ExprLits). |
| C112 Predefined punctuators | proved | `PunctProps.lean` | For encodings whose end of file, if it is a code unit, is not ASCII. |

## Where the pinned code does not do what is claimed

Each is refuted by a theorem with a concrete witness, next to a `_partial` theorem about what does hold.

* The full C03 is false for the pinned code: U+20000 decodes to U+10000 (`|= 0x10000` instead of `+= 0x10000`, _detail/code_point.hpp l.299). (`C03_utf16_roundtrip_refuted`)
* The full C04 is false in UTF-8: the byte F8 (never part of UTF-8, not the sentinel) is classified as EOF, so recovery makes no progress, however often it is repeated. (`C04_recovery_progress_refuted`)
* C05 is false for UTF-16 in the pinned code (same defect as C03). (`C05_decode_encode_utf16_refuted`)
* C06, the consequence of `C06_print_refuted`: the fast path over a UTF-32 buffer does not stop at the EOF sentinels but runs out of the allocation, however much padding there is (`dsl::identifier(..., dsl::ascii::print)`, identifier.hpp l.54-60). (`C06_print_overrun_refuted`)
* C06 is false for `print` and `graph` on UTF-32: the character 0xFFFFFFFF overflows to 0 in the check `(c + 1) & ~0x7F == 0`, and the extra check for that is only compiled for one-byte characters (ascii.hpp l.387-392, 432-437). 0xFFFFFFFF is the EOF sentinel of UTF-32 buffers. (`C06_print_refuted`)
* **What the example prints is not JSON**: a control character is printed as `\x0a`, which is not an escape sequence of JSON (json.cpp l.84-85): the output for the text `"\n"` is not accepted by the example itself. (`C100_control_refuted`)
* **Printing a string with a character outside of ASCII is undefined behavior**: `std::iscntrl(c)` with a `char` that is negative (json.cpp l.84); here for the text `"é"`. (`C100_iscntrl_refuted`)
* **C101**, refuted without the condition on the results: the behavior is undefined for `2147483647 + 1`, whose value is 2147483648, and for `2**31` and `-(-2147483647 - 1)`. (`C101_overflow_refuted`)
* **C101**, refuted for functions defined within expressions: after `f(x) = (f(x) = 1) + x`, the call `f(2)` accesses an object that was deleted. `expr_call::evaluate` does not keep the body of the function alive, and the assignment in it replaces the only owner. (`C101_redefine_refuted`)
* **C101**, refuted for functions defined within expressions: after `f(x) = (f(y) = 1)`, `x = 3` and `y = 4`, the call `f(7)` leaves `x` at 7 and sets `y` to 3. `param` in `expr_call::evaluate` refers to the element of the map, which was replaced by the call, and so the old value of `x` is stored in `y`. (`C101_restore_refuted`)
* **C101**, refuted: the behavior is undefined for `1/0` and `0**(-1)`, which are accepted by the grammar, and nothing checks them. (`C101_zero_refuted`)
* **C102**, refuted for groups within groups: `1+2*3` is rejected, because `+` and `*` are in different groups, although `2*3` is an operand of `+`. (expression.hpp l.131-146: every group within a group is another one.) (`C102_nested_refuted`)
* **C102**, refuted for postfix operators that bind looser than an infix operator: `1!*2` is accepted, where `*` binds tighter than `!`, although `1!` is no operand of `*`. (expression.hpp l.74-78 and l.391-403: the binding power of a postfix operator is only compared with that of an operator before its operand.) (`C102_postfix_refuted`)
* **C102**, refuted for an operation that is the operand of two groups: `1|-2` is rejected, where `-` is the operand of `+` in the one group and of `|` in the other. (expression.hpp l.131-146: it only belongs to the first group.) (`C102_shared_refuted`)
* **C102**, refuted for subexpressions whose root operation is in a group: the subexpression of `+` also accepts `1|2`, with the operator of the other group. (expression.hpp l.533-546: the root operation only gives the minimal binding power.) (`C102_subexpr_refuted`)
* **Assigning to a negative variable does not end**, other than by undefined behavior: after `a -= |;`, the loop in `a := ;` decrements `a` until it overflows (turing.cpp l.106-109). (`C103_negative_refuted`)
* **A space after a number is counted as a mark**: `o := || ;` has the result 3. `number` is a token production; the white space after it is skipped before its length is taken (action/base.hpp l.176-194, context_counter.hpp l.61-81). (`C103_number_refuted`)
* **Texts that are no programs are executed**: a body that is not executed is not checked, not even that it is in brackets. `if a b` has the result 0. (`C103_syntax_refuted`)
* **C104** (refuted) Numbers of more than 32 bits. `varint_builder::add_prefix_byte` (l.109-114) shifts a value of type `unsigned`: the field 1 with the value `2 ^ 35 + 2 ^ 32` is printed as `2 ^ 35`, and every field whose value needs seven bytes or more is undefined behavior, e.g. `2 ^ 42` or the number -1 of the type `int32`, whatever follows. (`C104_number_refuted`)
* **C104** (refuted) The signed value that is printed for a field of 32 or 64 bits (l.42 and l.56) is neither the number with these bits nor the one whose zigzag encoding they are: for every positive number it is twice the number, and a negative one if this does not fit; e.g. 2 for 1. (`C104_signed_refuted`)
* **C105** (refuted) Blanks behind an address in angle brackets are an error (email.cpp l.139-144): the header `From:<j@d> `. (`C105_blank_refuted`)
* **C105** (refuted) The words of a name are glued together (email.cpp l.119-124): the header `From:John Doe <j@d>` gives the name `JohnDoe`, although the blank between them counts as one space (RFC 5322 section 3.2.2). The tests of the example expect this. (`C105_name_refuted`)
* **C105** (refuted) `~` is missing in `atext` (email.cpp l.81-87): the header `From:~@d`. (`C105_tilde_refuted`)
* C106, as documented ("We're requiring UTF-8 input", config.cpp l.163): without an error, the file is well-formed UTF-8. The file is read up to the first byte 0xFF, which is taken for its end; anything may follow. (`C106_end_refuted`)
* C106, as intended: the output shows the authors. There is no newline between them and quotes are not escaped: two authors `a` and `b` are shown in the same way as one author `a"- "b`. (`C106_lines_refuted`)
* C106, as intended: the output shows the authors. An author is printed up to its first null character, which may be written as an escape sequence: `"a\u0000b"` is shown as `"a"`. (`C106_null_refuted`)
* C106, as documented ("Construct a UTF-8 string from the quoted content", config.cpp l.105): the authors are well-formed UTF-8. `\uD800` is accepted: `code_point_id` takes every code point, and the string has the encoding of a surrogate, which is not UTF-8. (`C106_surrogate_refuted`)
* **C107**: an input of the shell example that begins with the byte 0xFF exits the shell, as the byte is taken for the end of the input, although it is no command. (`C107_end_refuted`)
* C108 refuted for the byte 0xFF: it ends the line for `peek(eol)`, as it is taken for EOF. The calculator computes `1` for `1\xFF+2`, and whatever is entered behind the byte is ignored without an error. (`C108_byte_refuted`)
* C10 is false for a `char` literal on a UTF-32 buffer: the word comparison computes the index of the mismatch with the size of the literal's characters. Literal "ab" on the input "ac": the common prefix has length 1, but the reader is advanced by 4 units, past the end of the input. (`C10_literal_swar_refuted`)
* C11 is false for a set with a plain literal and a keyword of the same spelling: the literal rule alone matches a prefix of the input (`int` of `integer`), but the set does not match. (`C11_mixed_refuted`)
* C14 is false for `reserve_suffix`: with `_t` reserved as suffix, `x_t_t` is accepted; with `aa` reserved, `aaa` is accepted. (`C14_reserve_suffix_refuted`)
* C17 is false if something that is not a digit follows the maximal number of digits: `integer<uint8_t, decimal>` of a token matching "255u", or "255_" after a missing digit behind a separator; the value 255 fits. (`C17_trailing_refuted`)
* C20 is false for case folded closing delimiters on buffers with word-wise reads: `lit_first_char` is the lower case letter of the literal, so an upper case delimiter is skipped. `delimited(open, ascii::case_folding(LEXY_LIT("q")))` with class `ascii::print` on "aQbcdefg" followed by "q". (`C20_swar_folding_refuted`)
* C20 is false for rules with a limit on buffers with word-wise reads: the fast path does not look for the limit. `quoted.limit(dsl::lit_c<'c'>)` on "aaaaaaacb\"" of 8-bit characters: must report a missing delimiter at the `c`, but finds the quote after it. (`C20_swar_limit_refuted`)
* The full statement of `C26_no_bom` for UTF-32 is false for the code: the last byte of the big endian mark is only tested for being non-zero (buffer.hpp l.443), so that the code unit 0x0000FE41 is dropped. (`C26_no_bom_utf32_refuted`)
* The empty buffer does not behave like the empty range: `buffer()` has no allocation, so no sentinel either, and `peek()` dereferences a null pointer (buffer.hpp l.36-40, l.148-152, l.265-268). The manual calls it "an empty buffer". (`C27_default_constructed_refuted`)
* Not so for wider characters: the destination advances by one byte instead of one character (swar.hpp l.219). (`C27_word_big_endian_refuted`)
* For wider characters it is false: `grow` copies as many bytes as there are characters (buffer_builder.hpp l.94). (`C29_builder_refuted`)
* Cancelling a transparent production does not remove the tokens it has added. (`C30_cancel_transparent_refuted`)
* A container that is finished without becoming a production is not the same as no container: adjacent error tokens are not merged. (`C30_container_refuted`)
* Cancelling an empty container when the current block is exactly full: the next token overwrites the beginning of the block, here the root, and the tree cannot be read. (`C30_full_block_refuted`)
* A second container in a production without children allocates memory that was not reserved. (`C30_second_container_refuted`)
* `size()` counts nodes that are not in the tree: those below the children of a cancelled node. (`C31_size_refuted`)
* **F17**: without the restriction, trees are not lossless: the code unit `a` of a cancelled transparent production is in the tree twice. (`C33_transparent_refuted`)
* A production without tokens has no position: `position()` is undefined behavior. (`C34_position_refuted`)
* `no_whitespace(rule)` as a branch is not the same as the rule in a context without whitespace: with a production inside that has its own whitespace, only the branch switches that off. (`C39_no_whitespace_refuted`)
* **C45 without the condition that no error was reported is false** (F8): the depth is not decremented when a recursive production fails (production.hpp l.171-176 does it only where the continuation is called), so after a recovery input that is nested 1 deep is rejected although the limit is 1. (`C45_enough_refuted`)
* **C47** does not hold after an error: `-1+` is recovered with the value `1`; the prefix operator is lost. (`C47_recovery_refuted`)
* **C48**, refuted in the same way for operators that cannot be chained: `1==2===3` is `(1==2)===3`, but an error is reported that `==` was chained. (`C48_chain_refuted`)
* **C48**, refuted without the assumption that no other operator matches: `1+2**3` is `(1+2)**3`, and `+` and `**` are the longest operators where they are. But an error is reported. After the right operand of `+` only operators that bind tighter are tried, and `*` does. (`C48_munch_refuted`)
* **C49**, refuted: `1*2+3*4` is nested two levels deep, but exceeds a maximal nesting level of 2. (`C49_refuted`)
* A failure inside of `no_whitespace` that is recovered from leaves whitespace skipping switched off. (`C50_failure_refuted`)
* A rule inside of `no_whitespace` that itself uses `no_whitespace`: whitespace is skipped in the outer one. (`C50_no_whitespace_refuted`)
* The reference manual (production.adoc, whitespace.adoc) says that whitespace skipping is enabled again while parsing a production inside of `no_whitespace`. It is not. (`C50_production_refuted`)
* **C53**, refuted: the range of the error does not only cover the duplicate flag, but also the whitespace behind. (`C53_range_refuted`)
* **C53**, refuted for flags without bits: documented is `(result & flag) != 0`, and that an error is reported "if a flag has already been parsed"; but a flag with the value 0 is reported when it is parsed for the first time. (`C53_zero_refuted`)
* The documentation says: "if called with N arguments, the resulting container will contain N items". (`C55_collection_size_refuted`)
* **C56** is violated: an error whose range begins on an earlier line than a production that already finished. The second `a` of the combination is a duplicate; the error is reported after its digit, a production on the next line, and the search for the location of the error begins on that next line. (`C56_refuted`)
* With two colors the second one is overwritten: cyan, faint should be ESC [ 3 6 ; 2 m. (`C57_color_pointer_refuted`)
* An ellipsis is written although nothing was left out. (`C57_ellipsis_refuted`)
* In UTF-16 two different code points are shown as the same one. (`C57_utf16_refuted`)
* In UTF-32 the bytes of units that are not code points are shown without leading zeros. (`C57_utf32_refuted`)
* A byte F8..FF is taken for the end of the lexeme: the rest is not shown. (`C57_utf8_refuted`)
* A user who closes the prompt at once: `append_next_line` looks at the character before the first one (shell.hpp l.386). (`C58_closed_at_once_refuted`)
* `default_prompt` reads through `fgets`, which leaves room for a terminator: a line that fills the buffer looks as if the input had ended, and the assertion that the prompt is closed then fails (shell.hpp l.102-111, l.391-395). (`C58_default_prompt_refuted`)
* A parser that looks behind the last newline, after which the user closes the prompt, reads memory that was never written instead of EOF: `append_next_line` finds the newline of the previous line at the end of the buffer and reports that it has read one (shell.hpp l.382-389). (`C58_eof_after_newline_refuted`)
* A last line without newline after a complete line: the first look says EOF, the second one gives the character (shell.hpp l.222-240, l.391-395: the line that was read without newline counts as nothing read). (`C58_last_line_refuted`)
* C61 (documented: "the integer value produced is the last value it had before the overflow occurred") is false: for `unsigned` and "4294967296" the value produced is 4294967290, which is not the value of any prefix; for `bounded<std::uint8_t, 100>` and "101" it is 101, which exceeds the bound. (`C61_overflow_value_refuted`)
* Documented for C62: recovery "will also skip separators". It does not: `digits<>.sep(_).no_leading_zero()` on "0_1" recovers over "0" only. (`C62_separator_refuted`)
* In UTF-16 the literal U+10400 matches the text U+20400. (`C63_literal_utf16_refuted`)
* A literal set with Unicode case folding that contains a single literal does not agree with the literal: * {"ab"} matches "AB", but ends after the first unit; * {"abc"} does not match "ABC"; * {"abb"} matches "ABC"; * {"ä"} does not match "ä". The same for symbol tables, whose symbols are found with the wrong length, not at all, or wrongly. (`C63_set_refuted`)
* Folding in place stops at a unit with the value of EOF: the letters after `0xFF` are not folded. (`C63_string_inplace_refuted`)
* Folding a string with something malformed in it cuts it off there, even if nothing is to be folded. (`C63_string_malformed_refuted`)
* A buffer that has grown is reset and grows again, as when parsing two big inputs into the same tree: the second block is never deallocated. (`C67_reuse_leaks`)
* **C69**, refuted: a symbol that is no identifier is accepted (`a-b`, where the identifier is `a`), and so is a symbol with letters of the other case that are not in the class. (`C69_identifier_refuted`)
* **C69**, refuted: for `inx ` the error covers the whitespace. Documented (symbol.adoc): "its range covers the entire partial input", "the (non-whitespace) code units". (`C69_unknown_range_refuted`)
* `as_integer<std::int64_t>` of `-5` whose digits are of type `unsigned` is 4294967291. (`C72_as_integer_refuted`)
* **C74** The documentation (action/scan.adoc) calls the two forms "entirely equivalent". They are not if the condition creates a context variable: `branch()` removes it again before `a` is parsed. Here `a` toggles the flag created by the condition in one form, and the flag of the surrounding production that it shadows in the other. (`C74_branch_refuted`)
* **C74** `discard` is documented to generate an error token "if that consumes a non-zero amount of input"; it generates one for no input as well (dsl/scan.hpp l.315-320). (`C74_discard_refuted`)
* **C74** Otherwise it is false: `scan()` can return `lexy::scan_failed` without having reported an error; the rule fails and `lexy::validate` reports a success. (`C74_scan_fails_refuted`)
* **C75**, refuted: from line 10000 on, the number takes up more columns than the annotation is indented by, so the marks are not beneath the annotated part. (`C75_alignment_refuted`)
* **C75**, refuted: the position of the context is not where the production that is named started, if the error is in a transparent production. (`C75_context_refuted`)
* C76 is false for `followed_by`: the literal `a` that has to be followed by a letter matches the whole input `a`, where nothing follows. (`C76_followed_by_refuted`)
* Comparing the kind of a token with the kind of a production dereferences a null pointer, although they are just different. (`C77_kind_eq_refuted`)
* Before a production without children the reader has no position, so that even reporting that another node was expected is undefined behavior. (`C77_position_refuted`)
* The documentation says that `pnode` recovers when the rule for the children fails; it fails (docs/content/reference/dsl/parse_tree_node.adoc, "The rule then recovers by doing nothing"). (`C77_recover_refuted`)
* In UTF-16 `code_point.set<0x20000>()` does not match U+20000, `code_point.set<0x10000>()` does. (`C78_encoded_refuted`)
* `repeat(count).capture(rule)` produces a lexeme "spanning everything consumed by parsing `rule` and `sep` `n` times", "like the behavior of capture" (repeat.adoc l.59-60). It is not like `capture`: that leaves out the whitespace behind the token (`a b`: the lexeme `a`), `repeat` (repeat.hpp l.110-128) includes it (`1a b`: the lexeme `a` with the space behind it). (`C79_repeat_capture_refuted`)
* Documented (parse_as.adoc): `parse_as` it "parses `rule` unchanged". With a `return_` in the rule, the empty `lazy_init` for the value is dereferenced (parse_as.hpp l.128-143), for every input that reaches it. (`C79_return_in_parse_as_refuted`)
* The arguments of the callback are the values of the rules: a `return_` in the rule of `push` hands the callback the position `push` keeps for itself as well (context_counter.hpp l.61-77: the continuation that takes it away is skipped). (`C79_return_in_push_refuted`)
* Documented (return.adoc): `return_` "always succeeds"; "parsing of the current production is then finished", and only loops may not contain it. Within `try_` it does not: the assertion "we've failed without reaching the continuation" (recover.hpp l.277) is violated, for every input that reaches `return_`. (`C79_return_in_try_refuted`)
* Documented (whitespace.adoc): `no_whitespace` "parses `rule` without automatic whitespace skipping". If the rule is left with `return_`, it stays disabled: `ab c`, where the production `a` is not behind `no_whitespace`, is parsed with `no_whitespace(a)` but not with `no_whitespace(a + return_)`. (`C79_return_no_whitespace_refuted`)
* Documented: `return_` produces no values. As the recovery rule of `try_`, it hands a `bool&` to the callback (the local variable `recovery_finished`, recover.hpp l.41-45), and the recovery is reported as cancelled although the production is finished. (`C79_return_recovery_refuted`)
* **C80 without the condition on the items of terminated lists is false** (F60): every loop of the grammar `P = '(' >> terminator(')').list(recurse_branch<P>)` consumes input, and `max_recursion_depth` is 1, but the parse of `(((` never ends. (`C80_depth_refuted`)
* The control characters above 0x20 are allowed in strings by the RFC, but the grammar rejects them: U+007F and U+0085. (`C82_control_refuted`)
* Twenty nested arrays around a number are rejected. (`C82_depth_refuted`)
* **C82 is false**: what follows a byte 0xFF is ignored, as it is the code unit for EOF in UTF-8. `1` followed by this byte and `x` is accepted, but no JSON text. (`C82_garbage_refuted`)
* The smallest `int64_t` is rejected: the digits are converted without the sign. (`C82_min_refuted`)
* **C83** is violated for the addresses of the draft: `00001::` is accepted, although a piece has at most four digits. (`C83_digits_refuted`)
* **C84** is violated: `1:2:3:4:5:6:7:8:9::`, where `finish()` writes (and reads) behind the array. (`C84_after_refuted`)
* **C84** is violated: `::1:2:3:4:5:6:7:1.2.3.4`, where `finish()` writes before the array; this has nine colons. (`C84_before_refuted`)
* A backslash is not escaped: the text `\{1}` looks like the code unit 1. (`C85_backslash_refuted`)
* A token with "ä" in UTF-8 as plain `char` cannot be described: `std::isprint` gets a negative value. (`C85_isprint_refuted`)
* The code units 0 and 0xFF look alike, since the number printed is `unsigned(c) % 0xFF`: a description of the one is equal to a tree with the other. (`C85_modulo_refuted`)
* An empty view has no prefix, not even the empty one: `substr(0, …)` needs a character. (`C86_empty_prefix_refuted`)
* The empty string is not found at the end. (`C86_find_empty_refuted`)
* `operator[]` allows the index one behind the view, which need not exist if the view is not null-terminated. (`C86_index_refuted`)
* Otherwise the version for forward iterators goes to the end. (`C87_next_clamped_refuted`)
* For `n ≥ 2³²` the 32 bit counter never becomes `n`: the loop runs over the end of the sequence. (`C87_next_refuted`)
* **C90**, refuted: comments may have `--`, `<!----x--><a/>`. (`C90_comment_refuted`)
* **C90**, refuted: a vertical tab as whitespace in a tag, `<a\v/>`, and a null character as text, `<a>\0</a>`. (`C90_control_refuted`)
* **C90**, refuted: documents that are nested more deeply are not accepted. (`C90_depth_refuted`)
* **C90**, refuted: `]]>` in the text, `<a>]]></a>`. (`C90_text_refuted`)
* **C90**, refuted: comments may have bytes that are not UTF-8, `<!--\x80--><a/>`; behind a byte 0xFF there may be anything, `<a/>\xFF<`. (`C90_utf8_refuted`)
* C91: a `lexeme_input` of a `lexeme_input` is not: of the inputs around it only one is left, so the second line of the text is called the first one. (`C91_context_refuted`)
* C92: "its result is a map that contains this mapping in addition to all previous mappings" -- but mapping a token for a second time has no effect, and is not an error. (`C92_map_refuted`)
* C92: a rule with a kind of type `std::uint_least16_t` selects the private constructor, which checks nothing: a user-defined kind becomes a predefined one. (`C92_unchecked_refuted`)
* C92: "If `TokenKind == void`, a user-defined token kind is compatible if it is an integral value": a rule with the kind `42u` is not accepted, the constructor is ambiguous. (`C92_unsigned_refuted`)
* C92: the documentation requires of a user-defined kind that it "must fit in a 15bit unsigned integer"; this is not sufficient. (`C92_value_refuted`)
* "Parses `Production` as-if it was the top level action": the limit of the depth of recursion is that of the outer grammar (the `max_recursion_depth` of the subgrammar is ignored), and the depth already reached counts. `((1))` is accepted by the grammar with the limit 2, but not as a subgrammar of a grammar with the limit 1, nor where the depth is 1 already. (`C95_depth_refuted`)
* The subgrammar "can be used … with all parse actions that have been instantiated" (subgrammar.adoc). It cannot be used with `parse_as_tree`: whatever the grammars and the input are, as soon as the parse reaches the subgrammar (its `grammar_start` event is reported), the precondition `_depth == 0` of the handler is violated (parse_as_tree.hpp l.31-36), as the production around it is still open. (Without the assertion the handler replaces the builder and so drops what was parsed so far, and `grammar_finish` moves the reader of the outer grammar to the end of the input, l.37-46.) (`C95_tree_refuted`)
* "Parses `Production` as-if it was the top level action. Unlike `dsl::p`, the context is not retained: whitespace rules and parse variables get reset." (subgrammar.adoc) Whether whitespace is skipped at all is not reset: within `no_whitespace` (which runs its rule with skipping disabled, whitespace.hpp l.280-303) the subgrammar whose entry production defines whitespace does not skip it, and `1 2` is not accepted. (`C95_whitespace_refuted`)
* Documented (error.adoc): "Different kinds of errors are identified by the `Tag`". `is<Tag>()` compares messages: an error with the tag `app::exhausted_choice` is a `lexy::exhausted_choice`. (`C96_is_refuted`)
* `type_id` "returns a unique address for each type" (type_name.hpp l.109), which identifies productions: not if a class inherits `name` (`struct b : a {}` with `static constexpr auto name = "a"` in `a`): both have the address of `a::name`, and nodes of the parse tree for `b` compare equal to `a`. (`C96_type_id_refuted`)
* **C97** refuted in general: for an operator without values (`dsl::op<void>`), the sink of an `infix_op_list` is called without arguments for the first operator (expression.hpp l.291), but not for the others, which are passed with `lexy::sink_parser`, that calls the sink only if there are arguments (dsl/base.hpp l.186-187). With `lexy::as_list`, whose `emplace_back()` then inserts an element (callback/container.hpp l.41-46), `1,2,3` has four elements. (`C97_void_op_refuted`)
* **The sign of `-0.5` is lost**: `as_integer` makes an integer of the part in front of the point, `-0` is `0` (json.cpp l.174-183): `0.5` and `-0.5` have the same value of `json_number`. (`C99_sign_refuted`)

### Smaller observations, not stated as theorems

* A `combination` with an unconditional branch that consumes nothing loops forever.
* `rule_scanner::recursion_depth()` uses `_context->control_block()`, which does not exist; it does not compile.
* `make_buffer_from_raw` with a byte count that is no multiple of the unit size violates a precondition.
* `parse_tree`'s defaulted move leaves `_root` of the source set.
* `siblings()` of the root is undefined; `find_covering_node` outside of the tree violates a precondition.
* `dsl::find` and `dsl::recover` outside of `try_` fail without an error event.
* `flags` with an empty symbol loops forever.
* `concat` is documented for zero arguments but does not compile for them.
* The range of the error about a trailing separator ends after the whitespace that was skipped.
* `ignore_trailing_sep` in `times` and `repeat` leaves the trailing separator unconsumed, `list` consumes it.
* `write_format<16>` of "%2u:%3u" would overflow for 16 or more digits.
* The display of production nodes drops `opts` in a nested call.

## Trusted base

* Lean 4.33.0: its kernel, and its elaborator for the meaning of the statements. No `sorry`, no `native_decide`, no `bv_decide`, no added axioms. No Mathlib module is imported.
* That the model is the code: definitions were written from the C++ text by hand (the Unicode tables by a script) and cite file and lines; nothing checks this mechanically.
* That the statements say what the English does; the mutations in `seeded/LOG.jsonl` test this.

Axioms the theorems of `MANIFEST.json` depend on:

* no axioms (8): `Swar.C07_word_filled`, `C27_word_big_endian_refuted`, `C29_stack`, `Cb.C55_collection_size_refuted`, `Vis.C57_color_pointer_refuted`, `Desc.C85_isprint_refuted`, `Tk.C92_raw`, `Json.C100_escapes`.
* `Classical.choice`, `Quot.sound`, `propext` (394): `C01_utf8_roundtrip`, `C02_utf8_decode_sound`, `C02_utf8_decode_iff`, `C02_utf8_end_in_bounds`, `C02_utf8_unique`, `C03_utf16_roundtrip_partial`, `C03_utf16_decode_exact`, `C03_utf16_decode_wellformed`, `C03_utf32_roundtrip`, `C03_ascii_roundtrip`, `C03_decode_iff`, `C03_decode_len`, `C04_recovery_progress_partial`, `C04_recovery_total_partial`, `C05_decode_encode_all_partial`, `C05_decode_encode_utf8`, `C05_decode_encode_utf32`, `C05_encode_injective`, `Swar.C06_lower_exact`, `Swar.C06_upper_exact`, `Swar.C06_digits_exact`, `Swar.C06_digit_exact`, `Swar.C06_character_exact`, `Swar.C06_control_sound`, `Swar.C06_alpha_sound`, `Swar.C06_skip_exact`, `Swar.C06_print_exact_partial`, `Swar.C06_graph_exact_partial`, `Swar.C07_has_char_less_exact`, `Swar.C07_has_zero_exact`, `Swar.C07_has_char_exact`, `Swar.C07_find_difference_exact`, `Swar.C07_pack_exact`, `CC.C08_class_algebra`, `CC.C08_class_token`, `CC.C08_class_token_utf8`, `CC.C08_class_token_byte`, `C09_compressed_exact`, `C10_literal_prefix`, `C10_literal_swar`, `C11_set_longest`, `C11_set_order`, `C11_set_longest_partial`, `C12_symbol_longest`, `C12_symbol_parse`, `C15_ascii_case_folding`, `C15_upper_literal_never`, `C13_keyword`, `C14_identifier_run`, `C14_identifier_swar`, `C14_reserve_exact_partial`, `C14_reserve_sound`, `C14_identifier_branch_partial`, `C14_identifier_rule_partial`, `C16_digits_maximal`, `C16_digits_fail`, `C16_no_leading_zero`, `C16_digits_sep`, `C16_digits_sep_fail`, `C16_n_digits`, `C16_n_digits_sep`, `C16_digits_swar`, `C16_zero`, `C17_integer_exact_partial`, `C17_integer_sound`, `C17_digits_end`, `C18_n_digits_integer`, `C18_code_point_id`, `C61_overflow_value_partial`, `C62_integer_range`, `C19_until_swar`, `C19_any_swar`, `C20_delimited`, `C20_quoted`, `C20_char_class`, `C20_char_bad`, `C20_swar_partial`, `C21_newline`, `C21_eol`, `C22_text`, `C22_code_unit`, `C22_byte`, `C23_anchor`, `C24_line`, `C24_annotation_end`, `C24_annotation_size`, `C64_location_order`, `C35_events_nested`, `C35_rule_nested`, `C36_reader_forward`, `C36_events_in_bounds`, `C36_branch_not_taken`, `C37_tokens_tile_rule`, `C37_tokens_tile`, `C37_tokens_text`, `C41_rule_fail_error`, `C41_fail_error`, `C41_success_iff`, `C42_actions_agree`, `C42_success_has_value`, `PT.C42_tree_agrees`, `PT.C42_tree_static`, `PT.C42_tree_no_expr`, `Xml.C42_xml`, `Json.C42_json`, `PT.C33_lossless_partial`, `PT.C33_lossless_plain_partial`, `PT.C33_lossless_quiet_partial`, `PT.C33_lossless_no_expr_partial`, `PT.C33_lossless_static_partial`, `Xml.C33_xml`, `Xml.C33_xml_ends`, `Json.C33_json`, `Json.C33_json_text`, `PT.C33_covers_partial`, `Json.C33_json_covers`, `Json.C33_json_ends`, `PT.C33_failure_partial`, `C39_first_matching`, `C39_no_whitespace_refuted`, `C40_lookahead_scan`, `C54_find`, `C54_find_stops`, `C54_recover`, `C45_nesting`, `C45_enough_partial`, `C45_depth_restored`, `C46_rule`, `C46_production`, `C46_push`, `C46_found`, `C50_whitespace_rule`, `C50_no_whitespace_partial`, `C50_no_whitespace_branch_partial`, `C25_decode`, `C25_exact`, `C25_native_independent`, `C26_bom`, `C26_no_bom`, `C26_no_bom_utf32_partial`, `C27_like_range`, `C27_range_reader`, `C27_eof`, `C27_word`, `C27_builder`, `C27_from_input`, `C28_reader`, `C28_iterate`, `C28_separator`, `C58_partial`, `Own.C66_safe`, `Own.C66_no_leak`, `Own.C66_unique_owner`, `Own.C66_contents`, `Own.C66_enough_memory`, `PT.C30_builds_partial`, `PT.C30_tree_partial`, `PT.C30_remaining_partial`, `PT.C30_distinct_partial`, `PT.C30_parent_partial`, `PT.C30_is_root_partial`, `PT.C30_is_last_child_partial`, `PT.C31_depth_partial`, `PT.C31_size_partial`, `PT.C31_size_exact_partial`, `PT.C31_size_refuted`, `PT.C32_traverse_partial`, `PT.C32_siblings_partial`, `PT.C34_tokens_partial`, `PT.C34_find_covering_partial`, `PT.C34_find_covering_parse_partial`, `Json.C34_json`, `PT.C34_position_partial`, `PT.C34_covering_lexeme_partial`, `PT.C34_position_refuted`, `PT.Blocks.C67_safe`, `PT.Blocks.C67_no_leak_partial`, `C47_sound`, `C48_complete_partial`, `C48_munch_refuted`, `C48_chain_refuted`, `C49_bound_partial`, `C48_complete_partial`, `C49_refuted`, `C68_groups`, `C51_bytes`, `C51_classes`, `C51_padding`, `C51_round_trip`, `C53_flags`, `C53_total`, `C53_documented_partial`, `C69_token`, `C69_identifier_partial`, `C69_identifier_parse_partial`, `C63_literal`, `C63_literal_utf16_partial`, `C63_string_partial`, `C63_string_utf16_partial`, `Udb.C63_literal_library`, `Udb.C63_literal_library_utf16_partial`, `Udb.C70_case_fold`, `C70_categories`, `C70_ascii_classes`, `C70_class_relations`, `C70_classes_consistent`, `C70_class_meaning`, `Cb.C55_string`, `Cb.C55_string_folded`, `Cb.C71_bind`, `Cb.C72_as_integer_partial`, `Vis.C57_utf8_partial`, `Vis.C57_units`, `Vis.C57_width`, `Vis.C57_printable`, `Vis.C57_display_width`, `Vis.C57_color`, `Vis.C73_tree`, `C38_accepted`, `C38_rule`, `C43_repeat`, `C43_repeat_exact`, `C43_times`, `C44_combination`, `C44_duplicates`, `C44_accepted`, `C59_list`, `C59_quiet`, `C59_accepted`, `C59_nsep`, `C60_terminated`, `C60_terminated`, `C60_quiet`, `C56_trace_iff_partial`, `C56_one_line_partial`, `C74_events`, `C74_status`, `C74_finish`, `C74_fatal`, `C74_recovered`, `C74_rule`, `C74_branch_partial`, `C74_discard`, `C74_scan_fails_partial`, `Rep.C75_context`, `Rep.C75_reportable`, `Rep.C75_all_reported`, `Rep.C75_alignment_partial`, `Rep.C75_alignment_refuted`, `C76_not_followed`, `C76_errors`, `C76_in_set`, `C76_class`, `C76_followed_by_partial`, `PT.C77_reader_partial`, `PT.C77_reader_token_partial`, `PT.C77_kind_partial`, `PT.C77_kind_eq_partial`, `PT.C77_position_partial`, `PT.C77_tnode_partial`, `PT.C77_pnode_partial`, `PT.C77_mismatch_partial`, `PT.C77_kind_eq_refuted`, `PT.C77_position_refuted`, `PT.C77_recover_refuted`, `C78_code_point`, `C78_code_point_utf8`, `C78_code_point_byte`, `C78_encoded_partial`, `C78_bom_match`, `Val.C79_values_in_order`, `Val.C79_lexemes_reported`, `Val.C79_results_once`, `Val.C79_parsing_partial`, `Val.C79_ends_partial`, `Tot.C80_terminates`, `Tot.C80_rule`, `Tot.C80_recovery_circle`, `Tot.C80_recovery_stuck`, `Tot.C80_depth_refuted`, `Json.C81_ends`, `Json.C81_accepts`, `Json.C82_sound_partial`, `Json.C82_complete_partial`, `Json.C82_garbage_refuted`, `Json.C82_control_refuted`, `Json.C82_min_refuted`, `Json.C82_depth_refuted`, `Ip.C83_address`, `Ip.C83_draft_partial`, `Ip.C84_finish`, `Ip.C84_ub`, `Ip.C84_safe_partial`, `Desc.C85_equal_partial`, `Desc.C85_defined`, `Desc.C85_escape`, `Sv.C86_remove`, `Sv.C86_substr_partial`, `Sv.C86_prefix_partial`, `Sv.C86_find_partial`, `Sv.C86_stays`, `Sv.C86_type_name`, `Sv.C86_template_name`, `Itr.C87_min_range_end`, `Itr.C87_equal_lexemes`, `Xml.C89_accepts`, `Xml.C89_complete`, `Xml.C89_ends`, `Xml.C90_complete_partial`, `Xml.C90_control_refuted`, `Xml.C90_utf8_refuted`, `Xml.C90_comment_refuted`, `Xml.C90_text_refuted`, `Xml.C90_depth_refuted`, `Tk.C92_value_partial`, `Tk.C92_value_injective`, `Tk.C92_predefined`, `Tk.C92_lookup`, `Tk.C92_map_partial`, `Tk.C92_rule_partial`, `Tk.C92_conversion`, `Meta.C93_tuple`, `Meta.C93_string`, `Val.C94_sign`, `C95_rule`, `C95_tree_without`, `C95_tree_refuted`, `Ty.C96_message`, `Ty.C96_shown`, `Ty.C96_is_shown`, `Ty.C96_is_partial`, `Ty.C96_is_refuted`, `Ty.C96_type_id_refuted`, `ExV.C97_same_parse`, `ExV.C97_value_partial`, `ExV.C97_sound_partial`, `C98_values`, `Val.C98_integer`, `Val.C98_symbol`, `Val.C98_delimited`, `Json.C99_value`, `Json.C99_parse`, `Json.C99_unambiguous`, `Json.C99_complete`, `Json.C99_ends`, `Json.C99_defined`, `Json.C99_sign_refuted`, `Json.C100_text_partial`, `Json.C100_roundtrip_partial`, `Json.C100_program_partial`, `Json.C100_order`, `Json.C100_fixpoint_partial`, `Json.C100_control_refuted`, `Json.C100_iscntrl_refuted`, `Calc.C101_session_partial`, `Calc.C101_defined_partial`, `Calc.C101_exact_partial`, `C102_sound_partial`, `C102_complete_partial`, `Tm.C103_program_partial`, `Tm.C103_executed`, `Tm.C103_number_refuted`, `Tm.C103_negative_refuted`, `Pb.C104_message_partial`, `Pb.C104_exact_partial`, `Pb.C104_number_refuted`, `Em.C105_message_partial`, `Em.C105_rfc_partial`, `Em.C105_name_refuted`, `Em.C105_blank_refuted`, `Em.C105_tilde_refuted`, `Cfg.C106_file_partial`, `Cfg.C106_utf8_partial`, `Cfg.C106_output_partial`, `Cfg.C106_surrogate_refuted`, `Sh.C107_run_partial`, `Sh.C107_set_echo`, `CalcP.C108_calculator_parses_partial`, `CalcP.C108_unambiguous`, `CalcP.C108_byte_refuted`, `CalcP.C109_calculator_partial`, `CalcP.C109_parsed`, `Bk.C110_between`, `Bk.C110_recovered`, `Bk.C110_limited`, `Bk.C110_list`, `Bk.C110_predefined`, `C111_parsed`, `C111_stops`, `C111_loop_parsed`, `Pn.C112_matches`, `Pn.C112_apart`, `Pn.C112_choice`, `Pn.C112_colon`.
* `Quot.sound`, `propext` (143): `Swar.C06_print_overrun_refuted`, `Swar.C07_fill_exact`, `Swar.C07_fill_compl_exact`, `Swar.C07_find_difference_equal`, `CC.C08_single`, `C10_literal_swar_refuted`, `C11_mixed_refuted`, `C14_reserve_suffix_refuted`, `C17_trailing_refuted`, `C61_overflow_value_refuted`, `C62_separator_refuted`, `C19_until`, `C19_until_fail`, `C19_until_or_eof`, `C19_any`, `C20_delimited_unique`, `C20_swar_limit_refuted`, `C20_swar_folding_refuted`, `C42_steps`, `PT.C33_transparent_refuted`, `C40_peek`, `C40_peek_not`, `C40_peek_branch`, `C40_peek_finish`, `C40_lookahead`, `C40_eof`, `C40_eof_branch`, `C45_enough_refuted`, `C46_visible`, `C46_operations`, `C46_capture`, `C46_conditions`, `C50_whitespace_token`, `C50_token`, `C50_after_token`, `C50_no_whitespace_refuted`, `C50_failure_refuted`, `C50_production_refuted`, `C26_no_bom_utf32_refuted`, `C27_default_constructed_partial`, `C27_word_big_endian_partial`, `C29_builder_partial`, `C29_stdin`, `C29_file`, `C29_file_safe`, `PT.C30_cancel_transparent_refuted`, `PT.C30_full_block_refuted`, `PT.C30_second_container_refuted`, `PT.C30_container_refuted`, `PT.Blocks.C67_reuse_leaks`, `C47_recovery_refuted`, `C51_value`, `C51_injective`, `C51_token`, `C52_bits`, `C53_zero_refuted`, `C53_range_refuted`, `C69_unknown_range_refuted`, `C69_identifier_refuted`, `C63_literal_utf16_refuted`, `C63_string_malformed_refuted`, `C63_string_inplace_refuted`, `Cb.C55_list`, `Cb.C55_collection`, `Cb.C55_concat`, `Cb.C55_collect`, `Cb.C55_fold`, `Cb.C55_aggregate`, `Vis.C57_color_pointer_partial`, `C43_times_accepted`, `C43_times_trailing_error`, `C56_refuted`, `C74_branch_refuted`, `C74_discard_refuted`, `C74_scan_fails_refuted`, `Rep.C75_context_refuted`, `Val.C79_continuations`, `Val.C79_parse_value`, `Val.C79_callbacks_partial`, `Val.C79_return_in_try_refuted`, `Val.C79_return_recovery_refuted`, `Val.C79_return_in_parse_as_refuted`, `Val.C79_return_no_whitespace_refuted`, `Val.C79_return_in_push_refuted`, `Val.C79_repeat_capture_refuted`, `Tot.C80_no_variable`, `Ip.C83_digits_refuted`, `Ip.C84_before_refuted`, `Ip.C84_after_refuted`, `Desc.C85_same`, `Sv.C86_construct`, `Sv.C86_terminated`, `Sv.C86_access_partial`, `Sv.C86_equal`, `Sv.C86_empty_prefix_refuted`, `Itr.C87_range_size`, `Itr.C87_next_partial`, `Itr.C87_next_clamped_partial`, `Itr.C87_max_range_end`, `Itr.C87_next_refuted`, `Itr.C87_next_clamped_refuted`, `Lz.C88_refines`, `Lz.C88_flag`, `Inp.C91_range`, `Inp.C91_string`, `Inp.C91_default`, `Inp.C91_zstring`, `Inp.C91_zstring_unterminated`, `Inp.C91_lexeme`, `Inp.C91_partial_input`, `Inp.C91_context_partial`, `Inp.C91_context_refuted`, `Tk.C92_narrow`, `Tk.C92_value_refuted`, `Meta.C93_index_sequence`, `Meta.C93_c_str`, `C95_whitespace_refuted`, `C95_depth_refuted`, `ExV.C97_void_op_refuted`, `Json.C99_means`, `Json.C99_number_partial`, `Json.C100_sorted`, `Calc.C101_overflow_refuted`, `Calc.C101_zero_refuted`, `Calc.C101_redefine_refuted`, `Calc.C101_restore_refuted`, `C102_postfix_refuted`, `C102_subexpr_refuted`, `C102_nested_refuted`, `C102_shared_refuted`, `Tm.C103_syntax_refuted`, `Pb.C104_signed_refuted`, `Cfg.C106_end_refuted`, `Cfg.C106_null_refuted`, `Cfg.C106_lines_refuted`, `Sh.C107_end_refuted`, `Bk.C110_accepted`, `Bk.C110_no_recovery`, `Bk.C110_forms`, `Bk.C110_list_forms`, `Bk.C110_limit`, `C111_accepted`, `C111_loop_accepted`.
* `propext` (39): `C03_utf16_roundtrip_refuted`, `C04_recovery_progress_refuted`, `C05_decode_encode_utf16_refuted`, `Swar.C06_print_refuted`, `C45_limit`, `C46_counter_sum`, `C50_off`, `C27_word_layout`, `C27_copy`, `C27_default_constructed_refuted`, `C29_builder_refuted`, `C58_eof_after_newline_refuted`, `C58_last_line_refuted`, `C58_closed_at_once_refuted`, `C58_default_prompt_refuted`, `C63_string_inplace_partial`, `C63_set_refuted`, `Cb.C72_as_integer_refuted`, `Vis.C57_utf8_refuted`, `Vis.C57_utf16_refuted`, `Vis.C57_utf32_refuted`, `Vis.C57_ellipsis_refuted`, `C74_failed`, `C76_followed_by_refuted`, `C78_encoded_refuted`, `C78_bom_literal`, `Tot.C80_idle_loop`, `Desc.C85_modulo_refuted`, `Desc.C85_backslash_refuted`, `Sv.C86_cstr`, `Sv.C86_find_empty_refuted`, `Sv.C86_index_refuted`, `Tk.C92_map_refuted`, `Tk.C92_unsigned_refuted`, `Tk.C92_unchecked_refuted`, `C95_variables`, `C95_top_level_partial`, `Ty.C96_type_id_partial`, `vlang_lang`.
