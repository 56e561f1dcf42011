{"id": "C01", "title": "UTF-8 encode/decode round trip", "statement": "Encoding any Unicode scalar value as UTF-8 and then matching one code point at that place in an input yields success, exactly that code point, and consumes exactly the code units that were written, whatever follows.", "quantifier": "every scalar value (0..10FFFF without surrogates) and every continuation of the input", "why_tests_cant": "1.1 million values times unbounded suffixes; unit tests sample a handful of values per length class", "anchors": ["include/lexy/_detail/code_point.hpp: encode_code_point, parse_code_point"]}
{"id": "C02", "title": "UTF-8 decoding accepts only well-formed sequences", "statement": "If matching one UTF-8 code point succeeds, the resulting value is a Unicode scalar value and the consumed code units are exactly its (unique, shortest) UTF-8 encoding; if the input starts with the encoding of a scalar value then matching succeeds. Otherwise an error is reported and the reported end never lies past the end of input.", "quantifier": "every byte sequence", "why_tests_cant": "the set of malformed sequences is infinite; overlong/surrogate/out-of-range boundaries interact", "anchors": ["include/lexy/_detail/code_point.hpp: parse_code_point", "include/lexy/dsl/code_point.hpp"]}
{"id": "C03", "title": "UTF-16 encode/decode round trip", "statement": "Encoding any scalar value as UTF-16 and matching one code point yields that code point and consumes exactly the written units. (The code as pinned violates this for planes 2,4,...: the statement is refuted with a witness and the exact set of values for which it holds is proved.)", "quantifier": "every scalar value and every continuation", "why_tests_cant": "over a million values; tests use one or two supplementary characters, all in plane 1", "anchors": ["include/lexy/_detail/code_point.hpp: parse_code_point (UTF-16), encode_code_point"]}
{"id": "C04", "title": "Malformed text: bounded error regions and guaranteed progress of recovery", "statement": "After a failed code point match, recovery consumes at least one and no more than the remaining code units, so that repeated match-or-recover consumes the entire input after finitely many steps.", "quantifier": "every code unit sequence in UTF-8, UTF-16 and UTF-32", "why_tests_cant": "termination over all malformed inputs", "anchors": ["include/lexy/_detail/code_point.hpp: recover_code_point, parse_code_point"]}
{"id": "C05", "title": "Decoding a text is the inverse of encoding it", "statement": "Matching code points repeatedly over the concatenated encoding of a list of scalar values reproduces exactly the list and ends at EOF.", "quantifier": "every list of scalar values of any length", "why_tests_cant": "unbounded lists; boundaries between code points", "anchors": ["include/lexy/_detail/code_point.hpp"]}
{"id": "C06", "title": "SWAR fast paths agree with per-character matching", "statement": "Matching many characters through the machine-word fast path accepts only words whose characters all belong to the class, so that repeated matching consumes exactly the maximal run of class characters that the one-at-a-time loop would consume.", "quantifier": "every 64-bit word contents, every character width of 1, 2 or 4 bytes, every input", "why_tests_cant": "2^64 words; carries and borrows between lanes are invisible to sampled tests", "anchors": ["include/lexy/_detail/swar.hpp", "include/lexy/dsl/ascii.hpp: char_class_match_swar", "include/lexy/dsl/digit.hpp: swar_matches"]}
{"id": "C07", "title": "SWAR find/less primitives are exact", "statement": "The has-zero/has-char/has-char-less predicates answer true exactly when some character of the word has the property, and the find-difference operation returns the index of the first differing character.", "quantifier": "every pair of words and every lane width", "why_tests_cant": "2^128 pairs", "anchors": ["include/lexy/_detail/swar.hpp: swar_has_zero, swar_has_char_less, swar_find_difference, swar_pack"]}
{"id": "C08", "title": "Character class algebra", "statement": "A character class built from literals, ranges, union (/), complement (-), difference and intersection (&) matches a code point exactly if the code point is in the corresponding set, consumes exactly that code point, and otherwise consumes nothing.", "quantifier": "every class expression of any nesting depth and every code point / input", "why_tests_cant": "infinitely many class expressions", "anchors": ["include/lexy/dsl/char_class.hpp: _calt, _ccomp, _cminus, _cand, char_class_base::tp"]}
{"id": "C09", "title": "Compressed ASCII tables decide membership", "statement": "The compressed (range/mask/table) representation of an ASCII set answers membership exactly like the set it was compiled from.", "quantifier": "every subset of ASCII and every code unit value", "why_tests_cant": "2^128 subsets", "anchors": ["include/lexy/dsl/char_class.hpp: ascii_set, compress_ascii_set, ascii_set_matcher"]}
{"id": "C10", "title": "Literal matching is prefix matching", "statement": "A literal rule matches exactly if the input at the current position begins with the literal; it then consumes exactly the literal. On mismatch the reported index is the length of the longest common prefix.", "quantifier": "every literal and every input", "why_tests_cant": "unbounded strings and lengths, fast path and tail path interplay", "anchors": ["include/lexy/dsl/literal.hpp: match_literal, _lit"]}
{"id": "C11", "title": "Literal sets pick the longest literal", "statement": "A literal set matches exactly if some member literal is a prefix of the remaining input and then consumes the longest such member, independent of the order in which the members were inserted.", "quantifier": "every finite set of literals in every insertion order and every input", "why_tests_cant": "unbounded sets; prefix overlaps; fallback from partially matched longer members", "anchors": ["include/lexy/dsl/literal.hpp: lit_trie, lit_trie_matcher, _lset"]}
{"id": "C12", "title": "Symbol tables return the value of the longest matching symbol", "statement": "Matching a symbol table yields the value mapped to the longest symbol that is a prefix of the remaining input, and fails exactly if no symbol is a prefix.", "quantifier": "every symbol table and every input", "why_tests_cant": "unbounded tables", "anchors": ["include/lexy/dsl/symbol.hpp: _symbol_table::try_parse", "include/lexy/dsl/literal.hpp: lit_trie"]}
{"id": "C13", "title": "Keywords are not prefixes of identifiers", "statement": "A keyword matches exactly if the literal is a prefix of the input and the maximal identifier starting there is the literal itself.", "quantifier": "every keyword, identifier class pair and input", "why_tests_cant": "unbounded inputs", "anchors": ["include/lexy/dsl/identifier.hpp: _kw"]}
{"id": "C14", "title": "Identifier matching and reservation", "statement": "An identifier rule consumes the maximal run of leading-char followed by trailing-chars, and is rejected exactly if the matched lexeme satisfies one of the reservation predicates (equal / has prefix / contains / has suffix).", "quantifier": "every identifier pattern, every reservation list, every input", "why_tests_cant": "string-search predicates over unbounded strings; overlapping occurrences", "anchors": ["include/lexy/dsl/identifier.hpp: _idp, _idrp, _idcp, _idsp, _id"]}
{"id": "C15", "title": "ASCII case folding", "statement": "A literal wrapped in ASCII case folding matches exactly the inputs whose prefix equals the literal up to ASCII letter case, consuming as many units as the literal has.", "quantifier": "every literal and every input", "why_tests_cant": "2^n case variants for a literal of n letters", "anchors": ["include/lexy/dsl/case_folding.hpp: _acfr, _cfl"]}
{"id": "C16", "title": "Digit sequences", "statement": "digits<> consumes the maximal run of digits; with a separator it accepts exactly digit+ (sep digit+)*; no_leading_zero rejects exactly those starting with 0 followed by another digit; n_digits<N> consumes exactly N.", "quantifier": "every input, radix and separator", "why_tests_cant": "unbounded inputs", "anchors": ["include/lexy/dsl/digit.hpp: _digits, _digits_s, _digits_t, _digits_st, _ndigits"]}
{"id": "C17", "title": "Integer conversion is exact or reports overflow", "statement": "Parsing an integer of a bounded type yields exactly the mathematical value of the digits if that value does not exceed the maximum and reports overflow otherwise; no intermediate wraps.", "quantifier": "every digit string of any length (with leading zeros and separators), every radix from 2 to 36 and every maximum value", "why_tests_cant": "unbounded digit strings; the boundary is data dependent", "anchors": ["include/lexy/dsl/integer.hpp: add_digit, _bounded_integer_parser, integer_traits"]}
{"id": "C18", "title": "N-digit code point escapes", "statement": "Parsing code points written with N hexadecimal digits yields the value or reports overflow exactly if the value exceeds 10FFFF.", "quantifier": "every N and every digit string", "why_tests_cant": "unbounded", "anchors": ["include/lexy/dsl/integer.hpp: integer_traits<code_point>, _bounded_integer_parser"]}
{"id": "C19", "title": "until consumes up to the first occurrence", "statement": "until(cond) consumes the shortest prefix of the remaining input ending in a match of cond and fails exactly if there is none; until(cond).or_eof() then consumes everything.", "quantifier": "every condition matcher and every input", "why_tests_cant": "unbounded search", "anchors": ["include/lexy/dsl/until.hpp: _until, _until_eof"]}
{"id": "C20", "title": "Delimited content is everything before the first unescaped closing delimiter", "statement": "A delimited rule consumes the shortest content up to the closing delimiter with escapes taken as units, hands the content to the sink as contiguous lexemes in order without losing or duplicating code units, and reports missing_delimiter exactly if the limit or EOF comes first.", "quantifier": "every delimiter, escape rule, character class and input", "why_tests_cant": "unbounded content and interleavings of escapes, invalid characters and delimiters", "anchors": ["include/lexy/dsl/delimited.hpp: _del, _del_chars, _escape"]}
{"id": "C21", "title": "Newline and end of line", "statement": "newline matches exactly LF or CR LF at the current position; eol additionally matches at EOF without consuming.", "quantifier": "every input", "why_tests_cant": "unbounded inputs", "anchors": ["include/lexy/dsl/newline.hpp: _nl, _eol"]}
{"id": "C22", "title": "Input locations count newlines and columns", "statement": "The location of a position has line number one plus the number of complete newlines before it, and column number one plus the number of columns between the start of that line and the position.", "quantifier": "every input and every valid position in it", "why_tests_cant": "unbounded inputs, CRLF straddling positions", "anchors": ["include/lexy/input_location.hpp: get_input_location"]}
{"id": "C23", "title": "Location lookup is independent of the anchor", "statement": "Starting the search from the anchor of the location of an earlier position gives the same line and column as starting from the beginning.", "quantifier": "every input and every pair of positions p <= q", "why_tests_cant": "quadratically many pairs in unbounded inputs", "anchors": ["include/lexy/input_location.hpp: get_input_location, input_location_anchor"]}
{"id": "C24", "title": "Line annotations partition the line", "statement": "before, annotated and after are contiguous, start at the line begin, end at the line end (or after its newline exactly if flagged), and annotated starts at the location; it is non-empty unless at EOF.", "quantifier": "every input, location and end position or size", "why_tests_cant": "unbounded inputs; many boundary cases", "anchors": ["include/lexy/input_location.hpp: get_input_line_annotation, get_input_line, find_cp_boundary"]}
{"id": "C25", "title": "Raw memory to code units honours endianness", "statement": "make_buffer_from_raw of the big (little) endian serialisation of any code unit list returns that list, independent of the native endianness.", "quantifier": "every list of code units, both endiannesses", "why_tests_cant": "unbounded", "anchors": ["include/lexy/input/buffer.hpp: _make_buffer"]}
{"id": "C26", "title": "Byte order marks are stripped only when present", "statement": "With BOM detection, data that starts with a BOM is decoded with the endianness of the BOM with the BOM removed; data that does not start with a BOM is decoded as big endian with nothing removed. (Violated for UTF-32 in the pinned code: refuted with a witness.)", "quantifier": "every byte string", "why_tests_cant": "unbounded; the failing prefix is one of 2^32", "anchors": ["include/lexy/input/buffer.hpp: _make_buffer<utf32_encoding, bom>"]}
{"id": "C27", "title": "Sentinel buffers behave like ranges", "statement": "Reading a buffer through its sentinel reader observes the same characters and the same EOF position as reading the same range, for contents that do not contain the sentinel value; word-wise reads never leave the allocation.", "quantifier": "every buffer content and every sequence of reader operations", "why_tests_cant": "unbounded operation sequences; over-reads are not observable in tests", "anchors": ["include/lexy/input/buffer.hpp: _br, buffer::allocate", "include/lexy/_detail/swar.hpp: round_size_for_swar", "include/lexy/input/base.hpp: _rr"]}
{"id": "C28", "title": "Command line arguments are joined by NUL", "statement": "Iterating an argv input visits exactly the arguments (without the program name) joined by one NUL, and stepping backwards undoes stepping forwards.", "quantifier": "every argv vector", "why_tests_cant": "unbounded vectors including empty arguments", "anchors": ["include/lexy/input/argv_input.hpp: argv_iterator, argv_begin, argv_end"]}
{"id": "C29", "title": "Reading a stream returns all of it", "statement": "Reading standard input delivers exactly all bytes of the stream in order, whatever its size.", "quantifier": "every stream length and contents", "why_tests_cant": "growth boundaries at unbounded sizes", "anchors": ["src/input/file.cpp: read_stdin", "include/lexy/_detail/buffer_builder.hpp: buffer_builder"]}
{"id": "C30", "title": "Parse tree construction", "statement": "After any well-formed sequence of builder operations, walking the finished tree through root/children/siblings/parent yields exactly the tree described by the operations.", "quantifier": "every sequence of builder operations", "why_tests_cant": "unbounded operation sequences over a pointer structure", "anchors": ["include/lexy/parse_tree.hpp: parse_tree::builder"]}
{"id": "C31", "title": "Parse tree size and depth", "statement": "size() is the number of nodes and depth() the depth of the finished tree. (Violated after cancelled productions: refuted with a witness, proved for histories without cancellation of finished sub-productions.)", "quantifier": "every sequence of builder operations", "why_tests_cant": "history dependent", "anchors": ["include/lexy/parse_tree.hpp: parse_tree::builder::cancel_production, update_size_depth, size, depth"]}
{"id": "C32", "title": "Tree traversal visits every node once in order", "statement": "traverse() yields enter/exit events for every production and a leaf event for every token, in depth-first order with matching nesting; sibling iteration of a node visits all other children of its parent, cyclically starting after the node.", "quantifier": "every tree and every node", "why_tests_cant": "unbounded trees", "anchors": ["include/lexy/parse_tree.hpp: traverse_range, sibling_range, children_range"]}
{"id": "C33", "title": "Parse trees are lossless", "statement": "The tokens of the tree produced by parse_as_tree, in order, are adjacent, begin at the start of the input, and together with the remaining input reproduce the input.", "quantifier": "every grammar, every input", "why_tests_cant": "infinitely many grammars; recovery and cancellation interplay", "anchors": ["include/lexy/action/parse_as_tree.hpp: _pth", "include/lexy/parse_tree.hpp"]}
{"id": "C34", "title": "Covering token search", "statement": "find_covering_node returns the token whose range contains the position; tokens() enumerates the leaves in order.", "quantifier": "every lossless tree and every position in it", "why_tests_cant": "unbounded", "anchors": ["include/lexy_ext/parse_tree_algorithm.hpp: tokens, find_covering_node"]}
{"id": "C35", "title": "Parse events are well nested", "statement": "Every production start is matched by exactly one finish or cancel of the same production in LIFO order, also under failure, recovery and backtracking.", "quantifier": "every grammar, every input", "why_tests_cant": "infinitely many grammars and executions", "anchors": ["include/lexy/dsl/production.hpp", "include/lexy/action/base.hpp"]}
{"id": "C36", "title": "The reader only moves forward and stays in bounds", "statement": "Parsing any rule leaves the reader at a position between its start position and the end of input; failed branch conditions leave it where it was.", "quantifier": "every grammar, input and start position", "why_tests_cant": "infinitely many grammars and executions", "anchors": ["include/lexy/dsl/base.hpp", "include/lexy/dsl/branch.hpp", "include/lexy/dsl/choice.hpp"]}
{"id": "C37", "title": "Token events tile the consumed input", "statement": "The token (and error token) events emitted while parsing are adjacent and cover exactly the consumed input.", "quantifier": "every grammar, every input", "why_tests_cant": "infinitely many grammars and executions", "anchors": ["include/lexy/dsl/token.hpp", "include/lexy/dsl/recover.hpp", "include/lexy/dsl/whitespace.hpp"]}
{"id": "C38", "title": "Accepted input is in the language of the grammar", "statement": "If parsing succeeds without reporting an error, the consumed input belongs to the language denoted by the grammar (sequence, choice, option, repetition, list, brackets, ...), with whitespace between tokens.", "quantifier": "every grammar, every input", "why_tests_cant": "infinitely many grammars and inputs", "anchors": ["include/lexy/dsl/sequence.hpp", "include/lexy/dsl/choice.hpp", "include/lexy/dsl/list.hpp", "include/lexy/dsl/option.hpp", "include/lexy/dsl/loop.hpp", "include/lexy/dsl/times.hpp"]}
{"id": "C39", "title": "Choice commits to the first matching branch", "statement": "A choice behaves exactly like its first alternative whose condition matches; later alternatives are never considered even if the chosen one fails.", "quantifier": "every list of alternatives, every input", "why_tests_cant": "unbounded lists", "anchors": ["include/lexy/dsl/choice.hpp: _chc"]}
{"id": "C40", "title": "Lookahead rules consume nothing", "statement": "peek, peek_not (when satisfied), lookahead and eof never advance the reader and give the documented answer.", "quantifier": "every rule argument, every input", "why_tests_cant": "unbounded", "anchors": ["include/lexy/dsl/peek.hpp", "include/lexy/dsl/lookahead.hpp", "include/lexy/dsl/eof.hpp"]}
{"id": "C41", "title": "Failure always comes with an error", "statement": "If a rule fails then at least one error event was reported; hence validate() reports success exactly if the rule succeeded without errors, and match() agrees.", "quantifier": "every grammar without user-supplied scanners, every input", "why_tests_cant": "infinitely many grammars", "anchors": ["include/lexy/action/validate.hpp: validate_result, _vh", "include/lexy/action/match.hpp: _mh"]}
{"id": "C42", "title": "Actions agree", "statement": "match, validate, parse and parse_as_tree agree on success, on the number of errors and on the consumed input.", "quantifier": "every grammar, every input", "why_tests_cant": "infinitely many grammars", "anchors": ["include/lexy/action/match.hpp", "include/lexy/action/validate.hpp", "include/lexy/action/parse.hpp", "include/lexy/action/parse_as_tree.hpp"]}
{"id": "C43", "title": "Counted repetition", "statement": "times<N>/repeat(n) parse the item exactly n times with n-1 separators, consuming nothing for n = 0. A separator behind the last item is consumed if it may be trailing, and consumed and reported as the only error if it may not.", "quantifier": "every n, every item, every input", "why_tests_cant": "unbounded n", "anchors": ["include/lexy/dsl/times.hpp", "include/lexy/dsl/repeat.hpp"]}
{"id": "C44", "title": "Combination parses every alternative exactly once", "statement": "combination(...) succeeds without errors exactly after each branch was taken once in some order; partial_combination after each at most once; a duplicate is reported.", "quantifier": "every set of branches, every input", "why_tests_cant": "factorially many orders", "anchors": ["include/lexy/dsl/combination.hpp: _comb"]}
{"id": "C45", "title": "Recursion depth limit", "statement": "Recursive productions nest at most max_recursion_depth deep; exceeding it is reported as an error, not as stack overflow; input nested no deeper is never rejected for depth. (The last part is violated after recovery: refuted with a witness.)", "quantifier": "every grammar, input and limit", "why_tests_cant": "history dependent", "anchors": ["include/lexy/dsl/production.hpp: _recb"]}
{"id": "C46", "title": "Context variables", "statement": "A context variable (counter, flag or identifier; variables of different kinds are different even if they have the same id) is visible from its creation to the end of the production that created it, inner creations shadow outer ones and are undone afterwards, and the counter value is the sum of the updates.", "quantifier": "every sequence of context operations", "why_tests_cant": "unbounded histories", "anchors": ["include/lexy/dsl/context_counter.hpp", "include/lexy/dsl/context_flag.hpp", "include/lexy/dsl/context_identifier.hpp", "include/lexy/action/base.hpp: _context vars"]}
{"id": "C47", "title": "Operator precedence and associativity (soundness)", "statement": "If no error is reported, the tree built by an expression production has the operators and operands of the consumed input as its in-order yield, binds tighter operators deeper, and nests equal-level operators according to their associativity; operations that cannot be chained are not chained. No operator that could continue the expression follows. (After an error the recovered value can lack a prefix operator that was consumed.)", "quantifier": "every operator table and every token stream", "why_tests_cant": "unbounded expressions over unbounded operator tables", "anchors": ["include/lexy/dsl/expression.hpp: _expr, binding_power, _operation_list_of"]}
{"id": "C48", "title": "Operator precedence parsing is complete", "statement": "Every well-formed expression tree is recovered exactly from its token sequence, if the operators are the longest ones at their positions. (Violated when an operator is a proper prefix of another of a different level: only some of the operators are tried at a time, so a shorter operator can be taken; refuted with witnesses and proved when no other operator matches.)", "quantifier": "every operator table and every well-formed tree", "why_tests_cant": "unbounded trees", "anchors": ["include/lexy/dsl/expression.hpp"]}
{"id": "C49", "title": "Operator nesting limit", "statement": "An expression is rejected for exceeding max_operator_nesting only if its operators are nested deeper than the limit. (Violated: a flat left-associative chain is rejected; refuted with a witness, and the exact condition - number of operators - is proved.)", "quantifier": "every expression and limit", "why_tests_cant": "tests never chain 257 operators", "anchors": ["include/lexy/dsl/expression.hpp: _continuation::parse"]}
{"id": "C50", "title": "Automatic whitespace skipping", "statement": "After every token the maximal whitespace run is skipped, whitespace never becomes part of a captured lexeme, and inside no_whitespace nothing is skipped.", "quantifier": "every whitespace rule, grammar and input", "why_tests_cant": "unbounded", "anchors": ["include/lexy/dsl/whitespace.hpp", "include/lexy/dsl/capture.hpp"]}
{"id": "C51", "title": "Byte integers honour size and endianness", "statement": "bint reads exactly N bytes and returns their big/little endian value; the two are inverse to serialisation.", "quantifier": "every N and byte string", "why_tests_cant": "2^64 values", "anchors": ["include/lexy/dsl/byte.hpp: _bint"]}
{"id": "C52", "title": "Bit patterns", "statement": "A bits rule accepts a byte exactly if all its bit fields match, field by field from the most significant bit.", "quantifier": "every pattern and every byte", "why_tests_cant": "unbounded number of patterns", "anchors": ["include/lexy/dsl/bits.hpp"]}
{"id": "C53", "title": "Flags accumulate", "statement": "flags(...) returns the bitwise or of the parsed flags and reports a duplicate exactly if a flag's bits were already all set.", "quantifier": "every sequence of flags", "why_tests_cant": "unbounded sequences", "anchors": ["include/lexy/dsl/flags.hpp"]}
{"id": "C54", "title": "Error recovery by search", "statement": "find(tokens).limit(...) skips to just before the first token occurrence and fails exactly if a limit or EOF comes first; the skipped input is reported as one error token.", "quantifier": "every token set, limit and input", "why_tests_cant": "unbounded search", "anchors": ["include/lexy/dsl/recover.hpp: _find, _reco"]}
{"id": "C55", "title": "List sinks receive items in order", "statement": "as_list, as_collection, concat, collect, fold, count, as_aggregate and as_string sinks compute the list, map (first value of each key), concatenation, results, fold, count, object (last value of each member) and string of the values in parse order; as callback and as sink agree; concat allocates logarithmically often.", "quantifier": "every value sequence", "why_tests_cant": "unbounded sequences", "anchors": ["include/lexy/callback/container.hpp", "include/lexy/callback/fold.hpp", "include/lexy/callback/string.hpp"]}
{"id": "C56", "title": "Error locations can always be displayed", "statement": "While a parse is traced, every event is shown beside the line and column of its position; in particular the stored location anchor precedes the position of every error, so that location lookup terminates. (Violated by errors reported for a position before a nested production that started on a later line: refuted with a witness.)", "quantifier": "every grammar, every input", "why_tests_cant": "needs multi-line inputs with specific rules", "anchors": ["include/lexy/action/trace.hpp", "include/lexy/input_location.hpp"]}
{"id": "C57", "title": "Visualisation covers the whole lexeme", "statement": "Visualising a lexeme loses nothing: different lexemes look different. With a maximal width exactly the first w characters are shown, followed by an ellipsis. By default only printable ASCII is written; the display width is the number of code points written. (Violated for UTF-8 bytes F8..FF, UTF-16 surrogate pairs, UTF-32 units that are not code points, an ellipsis when nothing is omitted, and colors written through a pointer: refuted with witnesses.)", "quantifier": "every code unit sequence and option set", "why_tests_cant": "unbounded", "anchors": ["include/lexy/visualize.hpp"]}
{"id": "C58", "title": "Interactive shell input", "statement": "The shell reader delivers the lines typed by the user and EOF exactly when the prompt is closed. (Violated when the prompt closes after a complete line: refuted with a witness.)", "quantifier": "every sequence of typed lines and every reader operation sequence", "why_tests_cant": "interactive histories", "anchors": ["include/lexy_ext/shell.hpp"]}
{"id": "C59", "title": "Separators", "statement": "sep(...) requires separators strictly between items, trailing_sep allows one after the last item, ignore_trailing_sep recovers, and a trailing separator is reported at its position otherwise.", "quantifier": "every item/separator pair and input", "why_tests_cant": "unbounded lists", "anchors": ["include/lexy/dsl/separator.hpp", "include/lexy/dsl/list.hpp"]}
{"id": "C60", "title": "Terminated lists recover", "statement": "A terminated list always ends after its terminator or fails at EOF/limit, and every item parse is separated by separators or reported as missing.", "quantifier": "every item, separator, terminator and input", "why_tests_cant": "unbounded", "anchors": ["include/lexy/dsl/list.hpp: _lstt", "include/lexy/dsl/terminator.hpp"]}
{"id": "C61", "title": "Value after an integer overflow", "statement": "After an integer overflow the value produced is the last value before the overflow occurred, that is the value of a prefix of the digits, and it does not exceed the maximum. (As documented; violated by types at least as large as unsigned and by bounded<T, Max>: refuted with witnesses.)", "quantifier": "every digit string, radix and maximum", "why_tests_cant": "overflow boundaries for every type and radix", "anchors": ["include/lexy/dsl/integer.hpp: integer_traits::add_digit_checked", "docs/content/reference/dsl/integer.adoc"]}
{"id": "C62", "title": "Integer recovery", "statement": "If the digits of an integer fail, the integer rule fails exactly if nothing was consumed and no digit follows; otherwise the converted range is what was consumed extended by the maximal run of digits. Documentation: also skips separators (violated: refuted with a witness).", "quantifier": "every digit token, base and input", "why_tests_cant": "unbounded inputs", "anchors": ["include/lexy/dsl/integer.hpp: _int::p", "docs/content/reference/dsl/integer.adoc"]}
{"id": "C64", "title": "Location order", "statement": "The order of the locations of two positions agrees with the order of the positions.", "quantifier": "every input, policy and pair of positions", "why_tests_cant": "quadratically many pairs in unbounded inputs", "anchors": ["include/lexy/input_location.hpp: input_location::operator<, get_input_location"]}
{"id": "C66", "title": "Buffers own their memory", "statement": "Under every sequence of constructions, copies, moves, assignments, swaps and destructions of buffers, every live buffer that has an allocation is the only owner of it, allocations are released exactly once, nothing is leaked, and copies have the contents of their source.", "quantifier": "every sequence of operations on every number of buffers", "why_tests_cant": "unbounded histories including self assignment", "anchors": ["include/lexy/input/buffer.hpp: buffer::buffer, operator=, ~buffer"]}
{"id": "C67", "title": "Parse trees own their memory", "statement": "Under every sequence of constructions, resets, growing, moves, assignments and destructions of the node buffers of parse trees, no block is used after it was deallocated or deallocated twice; when all buffers are destroyed, all blocks are deallocated. (The last part is violated when a tree that needed more than one block is reused.)", "quantifier": "every program using parse trees", "why_tests_cant": "unbounded histories; a leak is invisible to functional tests", "anchors": ["include/lexy/parse_tree.hpp: _detail::pt_buffer"]}
{"id": "C68", "title": "Groups of operations are not mixed", "statement": "If no error is reported by an expression production with groups of operations (dsl::groups), all the operators used are outside of groups or in one and the same group.", "quantifier": "every operator table with nested groups and every input", "why_tests_cant": "unbounded expressions over unbounded operator tables", "anchors": ["include/lexy/dsl/expression.hpp: dsl::groups, binding_power_of, _parse, operator_group_error"]}
{"id": "C69", "title": "Symbol rules", "statement": "symbol<table>(token) parses the token and produces the value of the symbol the token's lexeme is equal to, failing with unknown_symbol over the token exactly if there is none; symbol<table>(identifier) does the same for the maximal identifier. (The second is violated if a symbol is not an identifier of the class: refuted with a witness.)", "quantifier": "every table, token, identifier class and input", "why_tests_cant": "unbounded tables and inputs", "anchors": ["include/lexy/dsl/symbol.hpp: _sym<Table, Token>, _sym<Table, _id>"]}
{"id": "C63", "title": "Unicode case folding", "statement": "With unicode::simple_case_folding a literal matches exactly the encodings of code points whose simple case folding is the literal, whatever follows and however malformed the input is; as_string with case folding produces the encoding of the folded code points. (Violated: literal sets and symbol tables with Unicode case folding end at the wrong place, miss literals or match other text; UTF-16 text of even planes; strings are cut off at malformed parts or at a unit equal to EOF; refuted with witnesses.)", "quantifier": "every folding function that respects scalar values, literal and input", "why_tests_cant": "multi-unit encodings times unbounded inputs", "anchors": ["include/lexy/dsl/case_folding.hpp: _sucfrm, _cfl", "include/lexy/callback/string.hpp: _case_folding", "include/lexy/dsl/literal.hpp: lit_trie_matcher"]}
{"id": "C70", "title": "Unicode database", "statement": "Looking up a code point never leaves the tables; simple case folding is idempotent, keeps scalar values in their plane and agrees with ASCII case folding; the categories Cc, Cs, Co agree with is_control, is_surrogate, is_private_use; each predefined ASCII and Unicode character class contains exactly the code points with the documented categories and properties, the ASCII tables agree with the database, and the classes are related as documented.", "quantifier": "every code point", "why_tests_cant": "1114112 code points times 34 classes", "anchors": ["include/lexy/_detail/unicode_database.hpp", "include/lexy/code_point.hpp: general_category, simple_case_fold, code_point_has_properties", "include/lexy/dsl/unicode.hpp", "include/lexy/dsl/ascii.hpp"]}
{"id": "C71", "title": "Binding arguments", "statement": "lexy::bind calls the callback with, in order, the expansions of the bound arguments: constants, all values, the n-th value (or its fallback if it is missing or nullopt, transformed by map unless it is the fallback) and the parse state; the call is ill-formed exactly if some placeholder has no expansion.", "quantifier": "every list of bound and actual arguments", "why_tests_cant": "unbounded argument lists with two implementation paths", "anchors": ["include/lexy/callback/bind.hpp: invoke_bound, expand_bound_arg, nth_value, parse_state"]}
{"id": "C72", "title": "Signed integers", "statement": "as_integer<T> with a sign produces the value with that sign whenever it fits into T. (Violated: -5 whose digits are of an unsigned type narrower than T; refuted with a witness.)", "quantifier": "every pair of integer types and every value", "why_tests_cant": "type pairs times values", "anchors": ["include/lexy/callback/integer.hpp: _int"]}
{"id": "C73", "title": "Visualisation of trees", "statement": "Visualising a parse tree writes one line for every node up to the maximal depth, in order, indented by one column for each ancestor that shows whether that ancestor has further siblings; the internal array of flags is never accessed out of bounds.", "quantifier": "every tree, every option set with a depth of at most 32", "why_tests_cant": "trees are unbounded", "anchors": ["include/lexy/visualize.hpp: visualize_to for parse_tree"]}
{"id": "C74", "title": "Scanners", "statement": "Whatever a client does with a scanner (lexy::scan or dsl::scan), provided that it closes its recovery guards and reports errors inside of the input: the events are well nested, the tokens tile the consumed input, the result is a success exactly if the scanner is in the ok state without errors, recovered exactly if in the ok state with errors, fatal otherwise; branch followed by parse is the same as parsing a choice; discard makes an error token of consumed input; a scanner in the failed state does nothing. (Violated: branch is different if the condition creates context variables; discard makes empty tokens; a scan function can fail without an error, which validate takes for a success; refuted with witnesses.)", "quantifier": "every grammar, input and sequence of calls", "why_tests_cant": "unbounded sequences of calls of user code", "anchors": ["include/lexy/dsl/scan.hpp: _detail::scanner, _scan", "include/lexy/action/scan.hpp"]}
{"id": "C75", "title": "Reported errors", "statement": "Every error of every parse can be reported with report_error: the callback gets all errors in order, each with the innermost production at that time and where it started, and the error does not begin before that. The lines shown are the lines of the start of the production (if different) and of the error; the marks are beneath exactly the visualized range of the error, as far as it is on that line; colors change nothing else; the result is the number of errors. (Violated: marks are shifted from line 10000 on; the context position of an error in a transparent production is not the start of the production that is named: refuted with witnesses.)", "quantifier": "every grammar, input, encoding, location policy and option set", "why_tests_cant": "unbounded inputs and grammars", "anchors": ["include/lexy_ext/report_error.hpp", "include/lexy/action/validate.hpp", "include/lexy/error.hpp", "include/lexy/input_location.hpp", "include/lexy/visualize.hpp"]}
{"id": "C76", "title": "Literals with a follow restriction", "statement": "not_followed_by(lit, cc) matches exactly if the input begins with the literal and what follows does not match the class, case folding applying to both; it consumes exactly the literal; the error is that of the literal, or a follow restriction directly after it; as member of a literal set it behaves the same. followed_by(lit, cc) ensures that the literal is followed by the class. (The last is violated at the end of the input and before malformed input: refuted with a witness.)", "quantifier": "every literal, class, encoding, folding and input", "why_tests_cant": "unbounded inputs, classes and encodings", "anchors": ["include/lexy/dsl/follow.hpp: _nf, not_followed_by, followed_by", "include/lexy/dsl/literal.hpp: lit_trie_matcher"]}
{"id": "C77", "title": "Parse trees as input", "statement": "The reader of a parse tree node yields its children in order and then the end; a node matches exactly its own token kind or production, and kinds of any two nodes can be compared; the position before and behind a child is where its tokens begin and end; tnode(rule) and pnode(rule) consume exactly one matching node, report tokens that cover exactly that node, add an error only if the rule leaves something unconsumed, and recover if the rule fails. (Violated: comparing the kind of a token with that of a production dereferences null; a production without children has no position, so reporting an error there is undefined behavior; a failing rule makes the node rule fail. Refuted with witnesses.)", "quantifier": "every tree made by the builder, every node, kind and child rule", "why_tests_cant": "unbounded trees, node layouts and child rules", "anchors": ["include/lexy/input/parse_tree_input.hpp: _ptr", "include/lexy/parse_tree.hpp: parse_tree_input_traits, _pt_node_kind::operator==", "include/lexy/dsl/parse_tree_node.hpp: _n, _nr, _tn, _pn"]}
{"id": "C78", "title": "Code point rules and byte order marks", "statement": "A rule made from code_point matches exactly if the input begins with an encoded code point that the rule is documented to match (any, predicate, range, set, ASCII, BMP, noncharacter, general category, category group) and consumes that code point; bom matches exactly if the data begins with U+FEFF in the given encoding and byte order, and what follows is what make_buffer decodes after detecting the mark. (Violated in UTF-16 for code points decoded wrongly, see C03: refuted with a witness.)", "quantifier": "every rule, encoding, input and code point; every encoding and byte order", "why_tests_cant": "1.1 million code points times all rules and encodings, unbounded inputs", "anchors": ["include/lexy/dsl/code_point.hpp: _cp", "include/lexy/dsl/bom.hpp: _bom", "include/lexy/code_point.hpp: _gc_group"]}
{"id": "C79", "title": "Values are handed to callbacks as documented", "statement": "A rule hands its continuation the values it got followed by its own values, those the documentation gives for it. Each production that is finished calls its callback once, with the values of its rule; no other callback is called. The lexemes and positions among the values are ranges of reported tokens and productions, in the order of the input; results of callbacks are handed on at most once, in the order of the calls. The value of a parse is the result of the callback of the entry production, and there is one exactly if the parse is not cancelled. Producing values does not change what is parsed, nor whether parsing ends.", "quantifier": "every grammar of the modelled rules, every input", "why_tests_cant": "infinitely many grammars; continuation passing style hides where values come from", "anchors": ["include/lexy/dsl/base.hpp: parser_for, NextParser", "include/lexy/dsl/capture.hpp", "include/lexy/dsl/option.hpp", "include/lexy/dsl/parse_as.hpp", "include/lexy/dsl/member.hpp", "include/lexy/dsl/return.hpp", "include/lexy/dsl/recover.hpp", "include/lexy/dsl/list.hpp: _lst, _lstt", "include/lexy/dsl/repeat.hpp", "include/lexy/dsl/context_counter.hpp", "include/lexy/dsl/context_identifier.hpp", "include/lexy/dsl/integer.hpp: _int", "include/lexy/dsl/identifier.hpp: _id", "include/lexy/dsl/symbol.hpp", "include/lexy/dsl/delimited.hpp: _del, _escape", "include/lexy/action/base.hpp: final_parser, do_action", "include/lexy/action/parse.hpp: _vh"]}
{"id": "C80", "title": "Parsing terminates", "statement": "If every loop of a grammar (loop, while, list, combination, whitespace) consumes input in each round, productions recurse only through recurse with a maximum depth, and context variables are created before they are used, then parsing ends for every input, with success or failure, and never reaches undefined behavior. (Violated: at the maximum depth a terminated list without separator whose items are recursive branches reports the depth error forever. Refuted with a witness.)", "quantifier": "every grammar of the modelled rules that meets the criterion, every input and every maximum depth above 0", "why_tests_cant": "a parse that does not end cannot be observed by a test; infinitely many grammars and inputs", "anchors": ["include/lexy/dsl/loop.hpp: _loop, _whl", "include/lexy/dsl/list.hpp: _lst, _lstt", "include/lexy/dsl/combination.hpp: _comb", "include/lexy/dsl/whitespace.hpp: skip_whitespace", "include/lexy/dsl/production.hpp: _recb, _depth_handler", "include/lexy/dsl/expression.hpp: _expr", "include/lexy/action/base.hpp: do_action"]}
{"id": "C81", "title": "The JSON example accepts exactly JSON within its limits", "statement": "For every input in UTF-8 the parse of examples/json.cpp ends. It succeeds without an error exactly if what is before the end of the input (its length, or the first byte 0xFF behind the text) is a JSON text by RFC 8259 whose arrays and objects are nested at most 19 deep, whose integer parts fit into int64_t and exponents into int16_t without the sign, and whose strings contain none of U+007F to U+009F unescaped.", "quantifier": "every sequence of bytes", "why_tests_cant": "infinitely many texts; a test suite for JSON has some hundred of them", "anchors": ["examples/json.cpp: grammar", "include/lexy/dsl/brackets.hpp: _brackets", "include/lexy/dsl/terminator.hpp: opt_list", "include/lexy/dsl/list.hpp: _lstt", "include/lexy/dsl/delimited.hpp: _del", "include/lexy/dsl/production.hpp: recurse", "include/lexy/dsl/whitespace.hpp", "include/lexy/dsl/integer.hpp: _int", "include/lexy/dsl/token.hpp", "include/lexy/action/base.hpp: do_action"]}
{"id": "C82", "title": "The JSON example conforms to RFC 8259", "statement": "The inputs that examples/json.cpp accepts are JSON texts by RFC 8259, and all JSON texts are accepted. (Violated: what follows a byte 0xFF is ignored; DEL and the C1 control characters are rejected in strings; the smallest int64_t, larger exponents and deeper nesting are rejected. Refuted with witnesses.)", "quantifier": "every sequence of bytes", "why_tests_cant": "infinitely many texts", "anchors": ["examples/json.cpp: grammar", "include/lexy/encoding.hpp: utf8_encoding::eof", "include/lexy/dsl/unicode.hpp: control", "include/lexy/dsl/integer.hpp: _int"]}
{"id": "C83", "title": "The IP address example accepts exactly the addresses", "statement": "For every text, examples/ip_address.cpp reports no error exactly if the text is an IPv4 or IPv6 address by draft-main-ipaddr-text-rep-00, and then the result has the pieces of that address, with zeros for the elided ones. (Violated in one respect: a piece of an IPv6 address may have more than four digits, as in 00001::; refuted with a witness. Without that limit the statement is proved in full.)", "quantifier": "every sequence of bytes", "why_tests_cant": "infinitely many texts", "anchors": ["examples/ip_address.cpp: grammar::ip_address", "examples/ip_address.cpp: grammar::ipv6_address::scan", "examples/ip_address.cpp: ip::ipv6_builder"]}
{"id": "C84", "title": "The IP address example stays in bounds", "statement": "No text makes examples/ip_address.cpp access an array out of bounds. (Violated: after the error too_many_pieces, from which the scanner recovers, ipv6_builder::finish() writes before the array for ::1:2:3:4:5:6:7:1.2.3.4 and behind it for 1:2:3:4:5:6:7:8:9::; refuted with witnesses. The exact condition is proved, and that texts with at most eight colons are safe.)", "quantifier": "every sequence of bytes", "why_tests_cant": "infinitely many texts; the accesses out of bounds need not be visible", "anchors": ["examples/ip_address.cpp: ip::ipv6_builder::finish", "examples/ip_address.cpp: grammar::ipv6_address::scan"]}
{"id": "C85", "title": "A description of a parse tree equals exactly that tree", "statement": "For every parse tree and every lexy_ext::parse_tree_desc, desc == tree is true exactly if the description was made with the nodes of that tree. (Violated: code units 0 and 0xFF are printed alike, the text \\{1} looks like the code unit 1, and std::isprint is called with negative values; refuted with witnesses. For the other trees the statement is proved.)", "quantifier": "all trees, all names and texts, all descriptions with or without the final calls of finish", "why_tests_cant": "infinitely many trees; two different trees with the same text only show as a test that passes", "anchors": ["include/lexy_ext/parse_tree_doctest.hpp: parse_tree_desc::token", "include/lexy_ext/parse_tree_doctest.hpp: operator==", "include/lexy_ext/parse_tree_doctest.hpp: StringMaker::convert"]}
{"id": "C86", "title": "String views and names of types", "statement": "basic_string_view is what std::string_view is: substr, starts_with, find, comparison, removing prefixes and suffixes; a view that claims to be null-terminated is. type_name<T, N> is the name of T without an anonymous namespace in front and without up to N outer namespaces, as null-terminated string. (Violated: starts_with on an empty view violates a precondition, find does not find the empty string at the end, operator[] allows an index behind the array; refuted with witnesses.)", "quantifier": "all strings, views and sequences of operations; all names printed by clang and gcc", "why_tests_cant": "infinitely many strings; reads behind the end are not visible", "anchors": ["include/lexy/_detail/string_view.hpp: basic_string_view", "include/lexy/_detail/type_name.hpp: _type_name"]}
{"id": "C87", "title": "Algorithms do not depend on the category of the iterators", "statement": "range_size, next, next_clamped, min_range_end and max_range_end return the same position for iterators with and without subtraction, and equal_lexemes compares the characters of two lexemes. (Violated for next and next_clamped and distances of 2^32 and more, where the counter is too small; refuted with witnesses.)", "quantifier": "all ranges and distances", "why_tests_cant": "infinitely many ranges; the distances in question are too large to test", "anchors": ["include/lexy/_detail/iterator.hpp: next", "include/lexy/_detail/iterator.hpp: min_range_end", "include/lexy/lexeme.hpp: equal_lexemes"]}
{"id": "C88", "title": "lazy_init is an optional object", "statement": "Every sequence of constructions, emplace, moves, reads and destructions of lazy_init objects returns what it would for optional variables; every object is constructed and destroyed exactly once, and its flag says whether it lives.", "quantifier": "all sequences of operations on any number of objects, for trivial and other types", "why_tests_cant": "infinitely many sequences; a missing or doubled destructor need not be visible", "anchors": ["include/lexy/_detail/lazy_init.hpp: _lazy_init_storage_non_trivial", "include/lexy/_detail/lazy_init.hpp: lazy_init::emplace"]}
{"id": "C89", "title": "The XML example accepts exactly its documents", "statement": "For every input, the parse of examples/xml.cpp ends, and it succeeds without an error exactly if what is before the end of the input (its length, or a byte 0xFF behind the document) is a document: comments and whitespace, one element, comments and whitespace; the names of every start tag and its end tag are equal, text contains neither < nor &, references are the five predefined ones, CDATA sections end with the first ]]>, and elements are nested at most 1024 deep.", "quantifier": "every sequence of bytes", "why_tests_cant": "infinitely many documents; equality of names at unbounded nesting depth", "anchors": ["examples/xml.cpp: grammar", "include/lexy/dsl/context_identifier.hpp: _ctx_irem, _ctx_icap", "include/lexy/dsl/identifier.hpp: _id", "include/lexy/dsl/symbol.hpp: _sym", "include/lexy/dsl/delimited.hpp: _del", "include/lexy/dsl/until.hpp: _unt", "include/lexy/dsl/terminator.hpp: opt_list", "include/lexy/dsl/list.hpp: _lstt", "include/lexy/dsl/whitespace.hpp: _wsr", "include/lexy/dsl/production.hpp: recurse"]}
{"id": "C90", "title": "The XML example conforms to XML 1.0", "statement": "The inputs that examples/xml.cpp accepts are the documents of the part of XML 1.0 that it has: no attributes, prolog or processing instructions, names in ASCII. (All documents nested at most 1024 deep are accepted. Violated otherwise: deeper documents are rejected; ]]> in text, -- in comments, control characters as text and as whitespace, invalid UTF-8 in comments, and anything after a byte 0xFF are accepted. Refuted with witnesses.)", "quantifier": "every sequence of bytes", "why_tests_cant": "infinitely many documents", "anchors": ["examples/xml.cpp: grammar::comment", "examples/xml.cpp: grammar::text", "examples/xml.cpp: grammar::cdata", "examples/xml.cpp: grammar::ws", "include/lexy/dsl/until.hpp: _unt", "include/lexy/dsl/ascii.hpp: space", "include/lexy/encoding.hpp: utf8_encoding::eof", "include/lexy/grammar.hpp: max_recursion_depth"]}
{"id": "C91", "title": "Inputs behave as the text they refer to", "statement": "string_input, zstring_input, range_input, lexeme_input and partial_input are interchangeable: whatever sequence of peek, bump, current, position and reset a parser performs, it observes the characters and positions of the text, for every encoding and category of iterators, and never accesses memory outside of it. For errors in a lexeme_input the locations are those in the whole input. (Violated for a lexeme_input whose parent is a lexeme_input; refuted with a witness.)", "quantifier": "every memory, range, encoding, category of iterators and sequence of operations", "why_tests_cant": "unbounded sequences of operations and texts", "anchors": ["include/lexy/input/base.hpp: _rr, _range_reader, partial_input", "include/lexy/input/string_input.hpp: string_input, zstring_input", "include/lexy/input/range_input.hpp", "include/lexy/input/lexeme_input.hpp", "include/lexy/error.hpp: error_context::input"]}
{"id": "C92", "title": "Token kinds", "statement": "A user-defined token kind is stored and returned unchanged and is different from all predefined kinds; the kind of a token rule is the one of the map, else the predefined one, else its own if that has a compatible type, else unknown; names and properties of predefined kinds are as documented. (Violated: no value of an enumeration with a signed type of 8 or 16 bits is accepted; a kind of type unsigned does not compile; one of type std::uint_least16_t is not checked; mapping a token again has no effect. Refuted with witnesses.)", "quantifier": "every kind, enumeration type, map and token rule", "why_tests_cant": "all enumeration types and maps", "anchors": ["include/lexy/token.hpp: token_kind, _tk_map", "include/lexy/grammar.hpp: predefined_token_kind, token_kind_name"]}
{"id": "C93", "title": "Compile-time lists", "statement": "make_index_sequence<N> is 0, ..., N-1; get<N> of a tuple is the N-th value it was made of; all three implementations of string literals as template arguments yield the characters of the literal (with macros up to 32, more are rejected), and c_str the NUL-terminated string, for other character types exactly if it is ASCII.", "quantifier": "every N, tuple and literal", "why_tests_cant": "infinitely many sizes; the implementation depends on the compiler", "anchors": ["include/lexy/_detail/integer_sequence.hpp", "include/lexy/_detail/tuple.hpp", "include/lexy/_detail/nttp_string.hpp", "include/lexy/encoding.hpp: transcode_char"]}
{"id": "C94", "title": "Signs", "statement": "The value of dsl::sign is the tag of the sign at the position of the reader, which is consumed and reported as a token; if there is neither + nor -, it has no value and changes nothing.", "quantifier": "every grammar, input and position where the rule is used", "why_tests_cant": "infinitely many inputs", "anchors": ["include/lexy/dsl/sign.hpp", "include/lexy/dsl/operator.hpp: _op", "include/lexy/dsl/if.hpp: _if", "include/lexy/dsl/choice.hpp: _chc"]}
{"id": "C95", "title": "Subgrammars", "statement": "dsl::subgrammar parses the entry production of the subgrammar as if it was the top level action: it does not see the variables of the grammar around it, which are unchanged afterwards; it fails exactly if the production is cancelled; its events are those of a parse of the production from there; and it can be used with all actions. (Violated: whether whitespace is skipped, and the depth of recursion and its limit, are taken over from the outer grammar; with parse_as_tree every parse that reaches a subgrammar violates a precondition. Refuted.)", "quantifier": "every grammar and subgrammar, every input", "why_tests_cant": "infinitely many grammars", "anchors": ["include/lexy/dsl/subgrammar.hpp", "include/lexy/action/base.hpp: _do_action, parse_context_control_block", "include/lexy/action/parse_as_tree.hpp: _pth"]}
{"id": "C96", "title": "Tags and productions are told apart", "statement": "error::is<Tag>() is true exactly if the error has the tag; the message of an error is the name of its tag without the outermost namespace, unless the tag has a name of its own; production_info compares equal exactly for the same production. (Violated: tags of the same name in different outermost namespaces, and productions that inherit a variable name; refuted with witnesses.)", "quantifier": "every pair of types that are no templates", "why_tests_cant": "infinitely many types", "anchors": ["include/lexy/error.hpp: error::is", "include/lexy/_detail/type_name.hpp: type_name, type_id", "include/lexy/grammar.hpp: production_info"]}
{"id": "C97", "title": "The value of an expression is that of its tree", "statement": "An expression is parsed exactly if it has a value. The value is computed by one call of the callback for each atom and operation, with the values of the operands and the operator in the order of the input, the operands first; for lists by the sink, which gets the operands and the values of the operators in turn; the operations are nested by precedence and associativity. After an error the value is that of a part of the expression. (Violated for lists whose operator has no value: the sink is called without arguments for the first operator only; refuted with a witness.)", "quantifier": "every expression grammar, callback, sink and input", "why_tests_cant": "infinitely many expressions and operator tables", "anchors": ["include/lexy/dsl/expression.hpp: _expr::_continuation, _parse_lhs, _parse, p::parse", "include/lexy/dsl/base.hpp: sink_parser", "include/lexy/dsl/operator.hpp: op_finish"]}
{"id": "C98", "title": "The values of a parse without errors are those of a derivation of the input", "statement": "If lexy::parse produces a value and no error is reported, the value is the result of the callback of the production, called with values its rule has for the consumed input: the input is derived from the rule as described by the language of the grammar, every captured token is the lexeme that was matched, an integer is the number its digits are, a symbol is the longest of the table, an option that is not there is nullopt, every list is the value of the sink called once for each item and separator that has values in the order of the input, every production is the result of its own callback with the values of its own rule, sequences have the values of their parts in order.", "quantifier": "every grammar, input and production", "why_tests_cant": "infinitely many grammars and inputs", "anchors": ["include/lexy/action/parse.hpp", "include/lexy/action/base.hpp: final_parser, context_value_parser, _do_action", "include/lexy/dsl/base.hpp: sink_parser", "include/lexy/dsl/list.hpp", "include/lexy/dsl/option.hpp", "include/lexy/dsl/capture.hpp", "include/lexy/dsl/production.hpp", "include/lexy/dsl/sequence.hpp", "include/lexy/dsl/choice.hpp", "include/lexy/dsl/terminator.hpp", "include/lexy/dsl/loop.hpp", "include/lexy/dsl/combination.hpp"]}
{"id": "C99", "title": "The JSON example has the value of the text", "statement": "A text of JSON has one value. Every JSON text within the limits of the example is parsed without errors to an object that represents that value. If a parse with examples/json.cpp has no error, its value represents the value of the JSON text: null, true and false; numbers with the value of the integer part and of the exponent and the digits of the fraction; strings as UTF-8 with every escape replaced by its character; arrays with their values in order; objects as a map that has the first member for each key. Different numbers have different values. (Violated: the sign of -0.5 is lost. Refuted with a witness.)", "quantifier": "every sequence of bytes, every result of the parse", "why_tests_cant": "infinitely many texts; needs the grammar, whitespace, all rules with values and the callbacks together", "anchors": ["examples/json.cpp: grammar", "examples/json.cpp: ast", "include/lexy/callback/integer.hpp: as_integer", "include/lexy/callback/string.hpp: as_string", "include/lexy/callback/container.hpp: as_list", "include/lexy/callback/container.hpp: as_collection", "include/lexy/dsl/delimited.hpp: _del", "include/lexy/dsl/integer.hpp: _int", "include/lexy/dsl/sign.hpp", "include/lexy/dsl/option.hpp", "include/lexy/dsl/list.hpp: _lstt", "include/lexy/action/parse.hpp: parse"]}
{"id": "C100", "title": "The JSON example prints what it parses", "statement": "What examples/json.cpp prints for a parsed value is a JSON text with that value: parsing the output gives no errors and an equal value, with the members of an object in any order; values that differ only in the order of members are printed equally, and an object is printed with its members in the order of their keys, one on a line. (Violated: a control character is printed as \\xNN, which is not JSON; a character outside of ASCII passes a negative char to std::iscntrl. Refuted with witnesses; proved for values whose strings are printable ASCII.)", "quantifier": "every value of the data structures, at every level of indentation; every input of the example", "why_tests_cant": "infinitely many values; the printed text has to be read back by the whole grammar", "anchors": ["examples/json.cpp: json_value::_print", "examples/json.cpp: json_value::print", "examples/json.cpp: json_value::_indent", "examples/json.cpp: grammar"]}
{"id": "C101", "title": "The calculator example computes what is entered", "statement": "The values examples/calculator.cpp prints are those of the statements entered: arithmetic on integers with division rounded towards zero, bit operations in two's complement, chained comparisons, conditionals that evaluate one branch, assignments to variables, and functions whose parameter is a variable that has its old value again after the call. Every session is evaluated without undefined behavior. (Violated: overflow, division by zero, and powers that do not fit are not checked; a function that is redefined while it is called is used after it was deleted, or its parameter is not restored. Refuted with witnesses; proved for sessions in which functions are only defined by whole statements: the values are printed if and only if all results are values of an int.)", "quantifier": "every session, every order of evaluation the standard allows", "why_tests_cant": "infinitely many programs; objects deleted while in use are seldom noticed by a test", "anchors": ["examples/calculator.cpp: ast", "examples/calculator.cpp: main"]}
{"id": "C102", "title": "Expressions are those of the documented grammar", "statement": "The expressions a dsl::expression production accepts, and the nesting it gives them, are those of the grammar that is documented: each operation is its operand alone or the operator with operands, where the operands are given by the member operand, groups are a choice of one of them for the whole expression, and a subexpression starts with its root operation. (Violated for postfix operators that bind looser than an infix operator, subexpressions with a root operation in a group, groups within groups, and operations that are the operand of two groups; refuted with witnesses and proved otherwise.)", "quantifier": "every tree of operations and every input", "why_tests_cant": "operator tables and inputs of every size; the binding powers and group numbers are computed at compile time", "anchors": ["include/lexy/dsl/expression.hpp", "docs/content/reference/dsl/expression.adoc"]}
{"id": "C103", "title": "The Turing example executes its input", "statement": "Parsing a program with examples/turing.cpp executes it: the result is the value of the variable o after the statements have been executed in order, with assignment, addition and subtraction of tally marks, branches and loops, wherever there is white space or a comment; a program without end has no result; a text that is no program is rejected. (Violated: white space after a number is counted; assigning to a negative variable ends in undefined behavior; a body that is not executed is not checked. Refuted with witnesses; proved otherwise, in both directions.)", "quantifier": "every program, every layout of its text, every number of steps", "why_tests_cant": "programs with loops have runs of any length; a number followed by a space is not in the tests", "anchors": ["examples/turing.cpp: grammar::program", "examples/turing.cpp: grammar::var_stmt", "examples/turing.cpp: grammar::skip_body", "examples/turing.cpp: grammar::while_stmt", "examples/turing.cpp: dsl_ext::_rewind"]}
{"id": "C104", "title": "The protobuf example prints the message that is encoded", "statement": "For a file that contains the binary encoding of a protobuf message, examples/protobuf.cpp prints its fields with their numbers and values, numbers of any size modulo 2^64; for every other file it reports an error. (Violated: a number with more than 32 bits is wrong or undefined behavior, because its parts are shifted as unsigned int; the signed values printed for fields of 32 and 64 bits are wrong. Refuted with witnesses; proved otherwise, in both directions.)", "quantifier": "every sequence of bytes", "why_tests_cant": "messages and numbers of any length; the tests have only numbers of few bytes", "anchors": ["examples/protobuf.cpp: grammar::varint_builder", "examples/protobuf.cpp: grammar::varint", "examples/protobuf.cpp: grammar::field", "examples/protobuf.cpp: grammar::message", "examples/protobuf.cpp: ast::field_32::print", "include/lexy/dsl/repeat.hpp: _rep_impl"]}
{"id": "C105", "title": "The email example has the message that is written", "statement": "examples/email.cpp finds the addresses, the subject and the body of exactly the messages of the subset of RFC 5322 it documents: header lines in any order, each at most once, addresses with and without names, dotted atoms, quoted strings with escapes, blanks around all parts. (Different from RFC 5322: the words of a name are glued together, which the tests of the example expect; blanks behind an address in angle brackets and the character ~ in an atom are errors. Refuted with witnesses; proved otherwise, in both directions.)", "quantifier": "every ASCII text", "why_tests_cant": "infinitely many texts; the tests have seven addresses", "anchors": ["examples/email.cpp: grammar::address", "examples/email.cpp: grammar::phrase", "examples/email.cpp: grammar::atext", "examples/email.cpp: grammar::fields", "examples/email.cpp: grammar::message"]}
{"id": "C106", "title": "The config example has the package that is written", "statement": "examples/config.cpp reports no error for exactly the files that consist of the three fields name, version and authors, in any order, and has the values that are written in them: names, versions of three numbers of type int or unreleased, authors as UTF-8 with escape sequences for code points. The authors are well-formed UTF-8; files that are not UTF-8 are errors; different packages are printed differently. (False in four cases: \\uD800 is accepted and gives a string that is not UTF-8; a byte 0xFF is taken for the end of the file and anything may follow; an author is printed up to the first null character, which may be escaped; there is no newline between authors and quotes are not escaped, so two authors look like one. Refuted with witnesses; proved otherwise.)", "quantifier": "every file; every pair of files for the output", "why_tests_cant": "infinitely many files; the example has no tests", "anchors": ["examples/config.cpp: grammar::config", "examples/config.cpp: grammar::version", "examples/config.cpp: grammar::author", "examples/config.cpp: main", "dsl/integer.hpp: code_point_id", "dsl/combination.hpp: _comb"]}
{"id": "C107", "title": "The shell example executes the commands that are entered", "statement": "examples/shell.cpp executes exactly the commands exit, echo and set that are entered, in that order, with the arguments that are written: words, strings, strings with escape sequences and variables, and variables whose name is an argument, with the values they were given by the commands before. The value given to a variable with set is what $ and its name stand for afterwards. Inputs that are no command and commands that are only traced have no effect; nothing is executed after exit or the end of the input. (False for an input that begins with the byte 0xFF, which is taken for the end of the input and exits the shell: refuted with a witness; proved otherwise.)", "quantifier": "every sequence of inputs and every value of the variables", "why_tests_cant": "infinitely many inputs and sessions; the test of the example has a few inputs only", "anchors": ["examples/shell.cpp: grammar::command", "examples/shell.cpp: grammar::argument", "examples/shell.cpp: grammar::arg_quoted", "examples/shell.cpp: grammar::directive", "examples/shell.cpp: main", "dsl/delimited.hpp: _del", "dsl/identifier.hpp: _kw"]}
{"id": "C108", "title": "The calculator example parses what is entered", "statement": "examples/calculator.cpp parses a line to exactly the expressions that are written in it, separated by semicolons: assignments, conditionals, chained comparisons, sums, products, prefix operators, powers, function calls, variables named by Unicode identifiers, decimal and hexadecimal integers, with the usual precedence; sums and products associate to the left, powers to the right, assignments and conditionals not at all; arithmetic and bit operators are not mixed in one expression; line breaks are allowed in nested expressions and behind a backslash. Every other line is an error, and no line can be read in two ways. (False for a line with the byte 0xFF, which is taken for its end: the calculator prints 1 for 1\\xFF+2 without an error. Refuted with a witness; proved otherwise, in both directions.)", "quantifier": "every input, of any length and nesting", "why_tests_cant": "infinitely many expressions; precedence, groups and layout combine; the tests have a few expressions per operator", "anchors": ["examples/calculator.cpp: grammar::expr", "examples/calculator.cpp: grammar::nested_expr", "examples/calculator.cpp: grammar::integer", "examples/calculator.cpp: grammar::name", "examples/calculator.cpp: grammar::stmt", "include/lexy/dsl/expression.hpp: _expr::_parse", "include/lexy/dsl/expression.hpp: _expr::_op_cont"]}
{"id": "C109", "title": "The calculator example prints the values of the lines entered", "statement": "For every sequence of lines, examples/calculator.cpp prints the value of the last statement of each line, as it is written: the text is parsed to the expressions of the grammar, and these are evaluated with the variables and functions of the lines before. (Violated where C101 or C108 are: overflow, division by zero, functions that are defined within an expression, the byte 0xFF; proved otherwise as an equivalence.)", "quantifier": "every sequence of inputs, every order of evaluation", "why_tests_cant": "infinitely many sessions; there is no test of the evaluation", "anchors": ["examples/calculator.cpp: main", "examples/calculator.cpp: grammar::stmt", "examples/calculator.cpp: ast::expr::evaluate"]}
{"id": "C110", "title": "Brackets and terminators match their contents up to the closing bracket, and recover there", "statement": "For every opening and closing bracket and every rule: what dsl::brackets(open, close)(rule) and its try_, opt, list and opt_list parse without an error is the opening bracket, the contents (the rule; the rule or nothing; one or more items with separators; those or nothing) and the closing bracket, and they accept such inputs. If the rule of try_ or opt, or the first item of list or opt_list, fails, the input up to the next closing bracket becomes one error token, the closing bracket is parsed and no further error is reported; if a limiting literal or the end of the input comes first, recovery and the rule fail there. A closing bracket that is missing behind a rule that matched is not recovered. limit() adds literals.", "quantifier": "all rules, brackets, limits, inputs, contexts and states", "why_tests_cant": "tests use a few bracket pairs and short inputs", "anchors": ["include/lexy/dsl/brackets.hpp:13-112", "include/lexy/dsl/terminator.hpp:22-106", "include/lexy/dsl/recover.hpp:142-320"]}
{"id": "C111", "title": "Loops parse their branch as long as it matches, and stop where it does not", "statement": "For every branch and every rule: what dsl::while_ parses without an error is any number of the branch, dsl::while_one one or more, and do_while(then, condition) one or more of then with a condition between two of them. They accept those inputs: if the rule (for while_one and do_while) matches and then rounds follow for as long as the branch matches, the loop succeeds without an error behind the last round. Whenever while_ succeeds, also with errors, it stops at a position where its branch does not match. What dsl::loop parses without an error is any number of times its rule without dsl::break_ and then the rule with one, and it accepts those inputs; a break_ does not leave the loop around it.", "quantifier": "all branches, rules, grammars, inputs, contexts and states", "why_tests_cant": "tests use loops with a few rounds of a literal", "anchors": ["include/lexy/dsl/loop.hpp:11-120", "include/lexy/dsl/branch.hpp:103-110"]}
{"id": "C112", "title": "Predefined punctuators", "statement": "Each of the predefined punctuators (dsl::period to dsl::equal_sign) matches exactly if the input begins with its documented spelling, and consumes it. At one position at most one of them matches, except for colon and double_colon, which both match at two colons: a choice of punctuators without colon parses the one that is there, whatever the order, and a choice that begins with colon never parses double_colon.", "quantifier": "all punctuators, inputs, lists of alternatives, contexts and states; encodings whose end of file is not ASCII", "why_tests_cant": "tests check each punctuator on its own", "anchors": ["include/lexy/dsl/punctuator.hpp:12-42", "include/lexy/dsl/choice.hpp"]}
