{"id": "C01", "title": "Grouping soundness", "statement": "When Fixities::rewrite succeeds on an infix expression, the result contains exactly the same operands and operators in the same left-to-right order, and every operator nested directly under another either has strictly higher precedence, or the same precedence with both left-associative (left child) or both right-associative (right child).", "quantifier": "every expression (any number of operands) and every fixity table", "why_tests_cant": "infinitely many operator sequences and fixity assignments; tests only sample a few chains", "anchors": ["src/syntax/fixity.rs:Fixities::rewrite", "src/syntax/fixity.rs:Rule::from_fixities"]}
{"id": "C02", "title": "Grouping completeness and uniqueness", "statement": "If some grouping of an operator chain respects the declared fixities, then rewrite succeeds and returns precisely that grouping; there is never more than one such grouping.", "quantifier": "every expression, every fixity table, every candidate grouping", "why_tests_cant": "requires quantifying over all binary trees over the chain", "anchors": ["src/syntax/fixity.rs:Fixities::rewrite"]}
{"id": "C03", "title": "Ambiguity is reported exactly when unavoidable", "statement": "rewrite returns an AssocError if and only if no grouping of the chain respects the fixities; the error names two operators of the chain, in source order, with their table fixities, that have equal precedence, are not both left- or both right-associative, and are separated only by operators of strictly higher precedence.", "quantifier": "every expression and every fixity table", "why_tests_cant": "non-existence of a valid tree is a universally quantified statement", "anchors": ["src/syntax/fixity.rs:Fixities::rewrite", "src/syntax/fixity.rs:Rule::error", "src/syntax/fixity.rs:AssocError"]}
{"id": "C04", "title": "The resolver never trips its internal assertions", "statement": "No expression and fixity table makes rewrite hit the operand-count assertions or unwrap an empty stack.", "quantifier": "every expression and every fixity table", "why_tests_cant": "absence of a panic over an infinite input space", "anchors": ["src/syntax/fixity.rs:Rule::reduce", "src/syntax/fixity.rs:Fixities::rewrite"]}
{"id": "C05", "title": "Resolution is idempotent", "statement": "Resolving an already resolved expression or program under the same fixities changes nothing: it yields the same expressions, the same errors and the same table afterwards (so the resolver's repeated rewriting of sub-expressions is harmless).", "quantifier": "every expression, program and fixity table, whether or not errors are reported", "why_tests_cant": "all inputs", "anchors": ["src/syntax/fixity.rs:Resolver::visit_expr_mut", "src/syntax/fixity.rs:Fixities::rewrite"]}
{"id": "C06", "title": "Grouping only depends on the operators used", "statement": "Two fixity tables that agree on the operators occurring in an expression resolve it identically; the order in which fixities were declared and unrelated declarations are irrelevant.", "quantifier": "every expression and every pair of tables agreeing on its operators", "why_tests_cant": "pairs of tables range over an infinite space", "anchors": ["src/syntax/fixity.rs:Fixities::get", "src/syntax/fixity.rs:Fixities::rewrite"]}
{"id": "C07", "title": "Only the relative order of precedences matters", "statement": "Replacing all precedences by others in the same relative order (and keeping associativities) never changes the grouping produced.", "quantifier": "every expression, every table and every strictly monotone renumbering", "why_tests_cant": "all renumberings", "anchors": ["src/syntax/fixity.rs:Rule::from_fixities"]}
{"id": "C08", "title": "Undeclared operators are infixl 9", "statement": "An operator with no declaration groups exactly as if it had been declared infixl 9.", "quantifier": "every expression, table and operator not in the table", "why_tests_cant": "all tables and expressions", "anchors": ["src/syntax/fixity.rs:Fixities::get", "src/syntax/fixity.rs:Fixity::DEFAULT"]}
{"id": "C09", "title": "Whole-expression resolution changes only grouping", "statement": "Resolving a whole expression (including operands, lambda bodies, lists, tuples, parentheses and let bodies) preserves all operands, operators and explicit brackets in order, and in the result every infix group respects the fixities in scope at that point; explicit parentheses are never crossed.", "quantifier": "every expression and fixity table", "why_tests_cant": "nested structures of unbounded depth", "anchors": ["src/syntax/fixity.rs:Resolver::visit_expr_mut", "src/syntax/ast.rs:walk_expr_mut"]}
{"id": "C10", "title": "Whole-expression resolution reports an error exactly when needed", "statement": "Resolving a whole expression yields no error iff a scoped-fixity-respecting regrouping of it exists, and that regrouping is then the result.", "quantifier": "every parser-shaped expression and fixity table", "why_tests_cant": "existence over all regroupings", "anchors": ["src/syntax/fixity.rs:Resolver::visit_expr_mut", "src/syntax/fixity.rs:Resolver::resolve_ast"]}
{"id": "C11", "title": "Local fixities do not leak", "statement": "After resolving an expression the fixity table is exactly what it was before (same operators, fixities and order), whatever let-declarations the expression contains and whether or not resolution of a body failed.", "quantifier": "every expression and every fixity table", "why_tests_cant": "any nesting of lets, any failure point", "anchors": ["src/syntax/fixity.rs:Resolver::visit_expr_mut"]}
{"id": "C12", "title": "Innermost let wins", "statement": "Within a let body, the operators named by the let have the declared local fixity (the innermost enclosing let that names the operator wins) and all other operators keep their outer fixity.", "quantifier": "every nesting of lets and every table", "why_tests_cant": "unbounded nesting", "anchors": ["src/syntax/fixity.rs:Resolver::visit_expr_mut"]}
{"id": "C13", "title": "Declaration order within one input is irrelevant to expressions", "statement": "All fixity declarations of an input take effect before any of its expressions is resolved; if an operator is declared several times the last declaration wins; loading the declarations twice is the same as once.", "quantifier": "every input mixing declarations and expressions in any order", "why_tests_cant": "all interleavings", "anchors": ["src/syntax/fixity.rs:Resolver::load_fixities", "src/syntax/fixity.rs:Resolver::visit_ast_mut", "src/repl/session.rs:ReplSession::feed_input"]}
{"id": "C14", "title": "A rejected input does not corrupt the session", "statement": "If parsing fails the session's fixities are unchanged; if resolution fails the declarations of that input stay loaded, no let-local fixity remains, and no pending error survives to influence the next input.", "quantifier": "every session history and every input", "why_tests_cant": "every failure point in every history", "anchors": ["src/repl/session.rs:ReplSession::feed_input", "src/syntax/fixity.rs:Resolver::resolve_ast", "src/syntax/fixity.rs:Resolver::take_errors"]}
{"id": "C15", "title": "Session fixities are a last-writer-wins map", "statement": "After any history of inputs, loads and clears, the fixity of each operator is that of the last successful declaration after the last clear (or undeclared).", "quantifier": "every history of session operations", "why_tests_cant": "unbounded histories", "anchors": ["src/syntax/fixity.rs:Resolver::load_fixities", "src/syntax/fixity.rs:Resolver::clear", "src/repl/session.rs:read_command"]}
{"id": "C16", "title": "Reported ambiguities are real and not repeated", "statement": "The list of errors returned by resolving an input contains no duplicates and each entry is an actual conflict in some sub-expression under the fixities in scope there.", "quantifier": "every input and table", "why_tests_cant": "all inputs", "anchors": ["src/syntax/fixity.rs:Resolver::store_error", "src/syntax/fixity.rs:Resolver::resolve_ast"]}
{"id": "C17", "title": "Fixity table behaves as an insertion-ordered map keyed by operator text", "statement": "get/has/insert/remove/len/iter of Fixities behave as a finite map keyed by the operator's text (a promoted identifier and a symbol operator with the same text share an entry), insert returns the previous fixity, and iteration is in first-insertion order.", "quantifier": "every sequence of map operations", "why_tests_cant": "all operation sequences", "anchors": ["src/syntax/fixity.rs:Fixities", "src/syntax/ast.rs:Infix"]}
{"id": "C18", "title": "`:load --math` gives conventional arithmetic precedence", "statement": "After `:load --math`, `*`,`/`,`%` bind tighter than `+`,`-`, and `^`,`^^`,`**` tighter still and right-associatively.", "quantifier": "every session state before the load and every arithmetic expression", "why_tests_cant": "all prior sessions", "anchors": ["src/syntax/fixity.rs:Resolver::load_arithmetic"]}
{"id": "C19", "title": "`:load --prelude` installs the documented Haskell fixities", "statement": "After `:load --prelude` each of the listed operators has its Haskell Prelude fixity, every other operator keeps its fixity, and the number reported is the number of operators loaded.", "quantifier": "every session state before the load", "why_tests_cant": "all prior sessions", "anchors": ["src/syntax/fixity.rs:Resolver::load_hs_prelude"]}
{"id": "C20", "title": "Clearing forgets everything and reports the right count", "statement": "`:clear --fixities`, `:clear --session` and `:reset` leave no operator declared and report the number of declarations removed.", "quantifier": "every session state", "why_tests_cant": "all prior sessions", "anchors": ["src/syntax/fixity.rs:Resolver::clear", "src/repl/session.rs:read_command"]}
{"id": "C21", "title": "Interning is a bijection between texts and symbols", "statement": "For every history of intern calls, two texts get the same symbol iff they are equal, and looking a symbol up returns the text it was created from.", "quantifier": "every sequence of intern calls (fewer than 2^32 distinct texts)", "why_tests_cant": "all histories", "anchors": ["src/text/lexicon.rs:Lexicon::intern", "src/text/lexicon.rs:Lexicon::lookup"]}
{"id": "C22", "title": "Symbols are stable", "statement": "Later interning never changes the text of, or the symbol for, an earlier text.", "quantifier": "every history and every continuation", "why_tests_cant": "all histories", "anchors": ["src/text/lexicon.rs:Lexicon::intern"]}
{"id": "C23", "title": "Predefined symbol constants denote their texts", "statement": "Each predefined constant (DASH, AT, PLUS, ...) looks up to its documented text and interning that text yields the constant, in every reachable interner state.", "quantifier": "every reachable interner state", "why_tests_cant": "all histories", "anchors": ["src/text/lexicon.rs:PREDEFINED", "src/text/lexicon.rs:symbols!", "src/text/symbol.rs:Symbol"]}
{"id": "C24", "title": "Interned text never moves", "statement": "The interner never grows a buffer it has handed out slices of: every allocation fits in the capacity of the buffer it is placed in, so slices stay valid for the life of the interner.", "quantifier": "every sequence of intern calls and every allocator over-capacity", "why_tests_cant": "all histories; use-after-free is not observable by a passing test", "anchors": ["src/text/lexicon.rs:Lexicon::alloc"]}
{"id": "C25", "title": "Ast iteration reproduces source order from both ends", "statement": "Iterating an Ast built by pushes yields the declarations in push order; any interleaving of next and next_back behaves as a deque over that list, and len is the number remaining.", "quantifier": "every push sequence and every interleaving of next/next_back", "why_tests_cant": "all schedules", "anchors": ["src/syntax/ast.rs:Ast::push", "src/syntax/ast.rs:iter_decls!"]}
{"id": "C26", "title": "Lexing one token always terminates and makes progress", "statement": "Producing one token consumes at least one character of the input, or is at the end of input, or reports an unknown character.", "quantifier": "every source text and every lexer state", "why_tests_cant": "all inputs", "anchors": ["src/syntax/lexer.rs:Lexer::lex"]}
{"id": "C27", "title": "Iterating the lexer terminates", "statement": "The Iterator over a Lexer yields finitely many tokens.", "quantifier": "every source text", "why_tests_cant": "non-termination cannot be observed by a test", "anchors": ["src/syntax/lexer.rs:Iterator for Lexer"]}
{"id": "C28", "title": "Positions are accurate", "statement": "The lexer's byte position is the UTF-8 length of the consumed prefix, its line is one plus the number of newlines consumed and its column one plus the number of characters since the last newline.", "quantifier": "every source text and every point of lexing", "why_tests_cant": "all inputs", "anchors": ["src/syntax/lexer.rs:Lexer::bump_char", "src/syntax/lexer.rs:Lexer::curr_loc"]}
{"id": "C29", "title": "Token text is the source slice", "statement": "The text of an identifier, operator or number token is exactly the source text covered by the token's span, and slicing never falls outside the text or inside a character.", "quantifier": "every source text", "why_tests_cant": "all inputs incl. multi-byte characters", "anchors": ["src/syntax/lexer.rs:Lexer::ident", "src/syntax/lexer.rs:Lexer::operator", "src/syntax/lexer.rs:Lexer::number"]}
{"id": "C30", "title": "Maximal munch", "statement": "An operator or identifier token extends as far as possible: the character following it is not one that could continue it.", "quantifier": "every source text", "why_tests_cant": "all inputs", "anchors": ["src/syntax/lexer.rs:Lexer::eat_with_trailing", "src/syntax/lexer.rs:Lexer::eat_while"]}
{"id": "C31", "title": "Integer literals denote their decimal value", "statement": "A run of decimal digits lexes to the integer it denotes when it fits in 64 bits and to an overflow error otherwise.", "quantifier": "every digit string", "why_tests_cant": "all digit strings", "anchors": ["src/syntax/lexer.rs:Lexer::number", "src/syntax/token.rs:IntError"]}
{"id": "C32", "title": "Whitespace and line comments only separate tokens", "statement": "Adding whitespace or a line comment (to end of line) before a token does not change the token or anything after it except locations.", "quantifier": "every source text and every whitespace/comment prefix", "why_tests_cant": "all inputs", "anchors": ["src/syntax/lexer.rs:Lexer::eat_whitespace", "src/syntax/lexer.rs:Lexer::line_comment"]}
{"id": "C33", "title": "Block comments are skipped exactly", "statement": "A terminated (possibly nested) block comment `~{ ... }~` is skipped without consuming anything after its closing `}~`; an unterminated one is an error.", "quantifier": "every comment body and following text", "why_tests_cant": "all nestings", "anchors": ["src/syntax/lexer.rs:Lexer::block_comment"]}
{"id": "C34", "title": "String literals decode their escapes", "statement": "A string literal written by escaping each character lexes to exactly the original text.", "quantifier": "every text", "why_tests_cant": "all strings", "anchors": ["src/syntax/lexer.rs:Lexer::string", "src/text/grapheme.rs:get_escaped"]}
{"id": "C35", "title": "Character literals decode and consume exactly their quotes", "statement": "'c', an escaped char and a unicode escape lex to the denoted character and consume nothing beyond the closing quote.", "quantifier": "every character and every following text", "why_tests_cant": "all characters", "anchors": ["src/syntax/lexer.rs:Lexer::char"]}
{"id": "C36", "title": "Lexing never panics", "statement": "No source text makes the lexer panic.", "quantifier": "every source text", "why_tests_cant": "all inputs", "anchors": ["src/syntax/lexer.rs:identifier", "src/syntax/lexer.rs:Lexer::lex"]}
{"id": "C37", "title": "Parsing terminates", "statement": "parse and parse_expr terminate on every source text.", "quantifier": "every source text", "why_tests_cant": "all inputs", "anchors": ["src/syntax/parser.rs:Parser"]}
{"id": "C38", "title": "Parsed fixity declarations are well-formed", "statement": "Every fixity declaration produced by the parser names at least one operator, has a precedence 0..9 (9 when omitted) and the associativity of its keyword.", "quantifier": "every source text", "why_tests_cant": "all inputs", "anchors": ["src/syntax/parser.rs:Parser::fixity", "src/syntax/parser.rs:Parser::infix_decl"]}
{"id": "C39", "title": "A precedence outside 0..9 is reported, not fatal", "statement": "A declaration with a precedence above 9 is rejected with a parse error.", "quantifier": "every integer literal", "why_tests_cant": "all integers", "anchors": ["src/syntax/parser.rs:Parser::fixity"]}
{"id": "C40", "title": "Parser output shape", "statement": "In every parsed expression the left operand of an infix node is never itself an infix node (chains are nested to the right), application arguments are atoms, application heads are never infix nodes, and negation nodes never occur.", "quantifier": "every source text", "why_tests_cant": "all inputs", "anchors": ["src/syntax/parser.rs:Parser::binary", "src/syntax/parser.rs:Parser::application"]}
{"id": "C41", "title": "Operator chains parse in order", "statement": "A sequence of atoms separated by operators parses to the right-nested chain with exactly these atoms and operators in order, so that resolution sees the source order.", "quantifier": "every sequence of operands/operators", "why_tests_cant": "unbounded length", "anchors": ["src/syntax/parser.rs:Parser::binary"]}
{"id": "C42", "title": "Lambdas curry", "statement": "A lambda with n patterns parses to n nested single-pattern lambdas in order, with the body extending as far right as possible.", "quantifier": "every pattern list and body", "why_tests_cant": "unbounded length", "anchors": ["src/syntax/parser.rs:Parser::lambda"]}
{"id": "C43", "title": "Only the lexer's panics and the precedence todo can crash the parser", "statement": "Parsing never panics except where the lexer itself panics (its identifier assertion, a bad slice, a bad hexadecimal number) or on a fixity declaration with a precedence above 9 in the source.", "quantifier": "every source text", "why_tests_cant": "all inputs", "anchors": ["src/syntax/parser.rs:Parser"]}
{"id": "C44", "title": "Printing does not depend on the fixity table", "statement": "The text printed for an expression is the same for every fixity table.", "quantifier": "every expression and pair of tables", "why_tests_cant": "all tables", "anchors": ["src/syntax/fixity.rs:Printer::write_expr"]}
{"id": "C45", "title": "Printing never hits an unimplemented case", "statement": "Printing any expression produced by the parser and resolver succeeds.", "quantifier": "every source text and session", "why_tests_cant": "all inputs", "anchors": ["src/syntax/fixity.rs:Printer::write_expr"]}
{"id": "C46", "title": "Printed text shows the grouping", "statement": "Re-parsing the (uncoloured) printed text of an expression yields an expression with the same grouping, and resolving it under any fixity table does not change it.", "quantifier": "every printable expression and every fixity table", "why_tests_cant": "all expressions and tables", "anchors": ["src/syntax/fixity.rs:Printer::write_expr", "src/syntax/parser.rs:Parser::expression"]}
{"id": "C47", "title": "Parentheses printed are balanced and colour-matched", "statement": "In the printed output brackets are balanced and an opening parenthesis has the same colour as its closing one.", "quantifier": "every expression", "why_tests_cant": "unbounded nesting", "anchors": ["src/syntax/fixity.rs:Printer::write_grouped", "src/text/color.rs:Rainbow"]}
{"id": "C48", "title": "Styled output is well-formed", "statement": "Every styled fragment is introduced by one CSI m sequence and terminated by a reset, and stripping the sequences gives the plain text.", "quantifier": "every configuration and text", "why_tests_cant": "all configurations", "anchors": ["src/text/style.rs:Config::write_start", "src/text/style.rs:Config::write_end"]}
{"id": "C49", "title": "Fixity listing is complete", "statement": "Listing fixities shows every declared operator exactly once, under its own fixity, one line per distinct fixity, in order of first declaration.", "quantifier": "every table", "why_tests_cant": "all tables", "anchors": ["src/syntax/fixity.rs:Printer::write_fixities", "src/syntax/fixity.rs:FixityEntries::write_fixities"]}
{"id": "C50", "title": "Blank lines are ignored", "statement": "A line of only whitespace changes nothing, even in the middle of a multi-line input.", "quantifier": "every session state and whitespace line", "why_tests_cant": "all states", "anchors": ["src/repl/session.rs:run_repl"]}
{"id": "C51", "title": "Continuation lines accumulate the input", "statement": "Lines ending in a backslash are buffered, and the first line not so ended triggers processing of the concatenation; afterwards the buffer is empty.", "quantifier": "every sequence of lines", "why_tests_cant": "unbounded sequences", "anchors": ["src/repl/session.rs:run_repl", "src/repl/session.rs:ReplSession::read_buffer"]}
{"id": "C52", "title": "Commands are refused in the middle of a multi-line input", "statement": "While input is buffered a line starting with `:` changes nothing.", "quantifier": "every session state with a non-empty buffer", "why_tests_cant": "all states", "anchors": ["src/repl/session.rs:run_repl"]}
{"id": "C53", "title": "Only quitting ends the session", "statement": "The session ends only on end-of-input, interrupt, or one of the four quit forms; every other line continues it (or crashes through a documented panic).", "quantifier": "every session state and line", "why_tests_cant": "all lines", "anchors": ["src/repl/session.rs:read_command", "src/repl/session.rs:run_repl"]}
{"id": "C54", "title": "Only the commands that say so change fixities", "statement": "A command changes the session's fixities only if it is a clear/reset/load command.", "quantifier": "every session state and command line", "why_tests_cant": "all lines", "anchors": ["src/repl/session.rs:read_command"]}
{"id": "C55", "title": "Only the first declaration of an input is echoed", "statement": "After an accepted input the REPL prints the resolved expression iff the first declaration is an expression, and prints exactly that one.", "quantifier": "every session and input", "why_tests_cant": "all inputs", "anchors": ["src/repl/session.rs:ReplSession::read_buffer"]}
{"id": "C56", "title": "Brace-delimited input", "statement": "A block opened by `{` is processed when a line ends with `}`, without the braces.", "quantifier": "every sequence of lines", "why_tests_cant": "unbounded sequences", "anchors": ["src/repl/session.rs:run_repl"]}
{"id": "C57", "title": "Loading a Haskell file loads its fixity declarations", "statement": "Loading a .hs file feeds exactly its lines that (trimmed) start with `infix`, each as a separate declaration.", "quantifier": "every file content", "why_tests_cant": "all files", "anchors": ["src/repl/session.rs:ReplSession::read_file"]}
{"id": "C58", "title": "`:load \"path\"` strips the quotes", "statement": "A double-quoted path argument is opened without its quotes.", "quantifier": "every path", "why_tests_cant": "all paths", "anchors": ["src/repl/session.rs:read_command"]}
{"id": "C59", "title": "`:info` reports exactly the requested operators", "statement": "`:info op...` lists each requested operator as defined (with its session fixity) or as undefined, never both.", "quantifier": "every session and argument list", "why_tests_cant": "all lists", "anchors": ["src/repl/session.rs:read_command", "src/syntax/fixity.rs:Resolver::entries_for"]}
{"id": "C60", "title": "Hex colours round-trip", "statement": "Packing and unpacking 24-bit colours is lossless; out-of-range values are rejected (checked) or saturate to white.", "quantifier": "every u32 and every RGB triple", "why_tests_cant": "2^32 values", "anchors": ["src/text/color.rs:Rgb::from_hex_checked", "src/text/color.rs:Color::from_hex_saturated", "src/text/color.rs:Rgb::from_hex_be_bytes"]}
{"id": "C61", "title": "Rainbow colours cycle with period seven", "statement": "The colour at nesting depth n equals that at n+7 and consecutive depths differ; tick and untick are inverse.", "quantifier": "every depth", "why_tests_cant": "unbounded", "anchors": ["src/text/color.rs:Rainbow"]}
{"id": "C62", "title": "Brightening and adjusting act per channel", "statement": "brighten/incr/decr and the per-channel variants saturating-add/subtract on the channel they name and leave the others alone.", "quantifier": "every colour and amount", "why_tests_cant": "2^32 combinations", "anchors": ["src/text/color.rs:Rgb::brighten", "src/text/color.rs:Rgb::incr", "src/text/color.rs:Rgb::decr"]}
{"id": "C63", "title": "Background setters set the background", "statement": "Styling with an ANSI background colour emits the background code of that colour (foreground code + 10).", "quantifier": "every ANSI colour", "why_tests_cant": "finite but asserted for all configurations", "anchors": ["src/text/color.rs:AnsiColor::as_bg", "src/text/color.rs:Color::bg_bytes"]}
{"id": "C64", "title": "Style flags are independent", "statement": "Setting, unsetting or toggling one format flag affects only that flag; set is idempotent, unset undoes set, toggling twice is the identity; colours are last-writer-wins.", "quantifier": "every configuration and flag sequence", "why_tests_cant": "all configurations", "anchors": ["src/text/style.rs:Config"]}
{"id": "C65", "title": "Word-prefix test", "statement": "is_prefix(p, s) holds iff p is the first whitespace-separated word of s.", "quantifier": "every pair of strings", "why_tests_cant": "all strings", "anchors": ["src/text/grapheme.rs:is_prefix"]}
{"id": "C66", "title": "strip_prefix removes exactly the first word", "statement": "strip_prefix returns the trimmed remainder after the matched first word and otherwise the original string, without panicking.", "quantifier": "every pair of strings", "why_tests_cant": "all strings", "anchors": ["src/text/grapheme.rs:strip_prefix"]}
{"id": "C67", "title": "Digit count", "statement": "numlen_base::<B>(n) is the number of base-B digits of n (1 for zero).", "quantifier": "every n and B>=2", "why_tests_cant": "all integers", "anchors": ["src/text/grapheme.rs:numlen_base"]}
{"id": "C68", "title": "Reporting a parse error never crashes", "statement": "Every parse error the parser can return can be displayed.", "quantifier": "every source text", "why_tests_cant": "all inputs", "anchors": ["src/syntax/token.rs:LexError", "src/syntax/parser.rs:Error"]}
{"id": "C69", "title": "Source spans are ordered and inside the text", "statement": "Every token's span satisfies lo <= hi <= length of the source, spans of successive tokens do not overlap.", "quantifier": "every source text", "why_tests_cant": "all inputs", "anchors": ["src/syntax/lexer.rs:Iterator for Lexer"]}
{"id": "C70", "title": "Layout rule", "statement": "On a single line, juxtaposed atoms always form one application; in general a following atom continues the application exactly if its first token ends beyond the column at which the application started (the end of its first token; for parse_expr, the start), and otherwise begins the next declaration.", "quantifier": "every source text", "why_tests_cant": "all layouts", "anchors": ["src/syntax/parser.rs:Parser::application"]}
{"id": "C71", "title": "A promoted operator names the same operator however it is written", "statement": "An identifier f used infix as `'f` (apostrophe) or between backticks yields an operator token for exactly the name f, and consumes exactly that text.", "quantifier": "every identifier and following text", "why_tests_cant": "all identifiers, incl. one-character and multi-byte ones", "anchors": ["src/syntax/lexer.rs:Lexer::char", "src/syntax/lexer.rs:Lexer::promoted_operator"]}
{"id": "C72", "title": "A token's span covers the whole token", "statement": "The span yielded with a token starts at the token's first character and ends after its last one.", "quantifier": "every source text", "why_tests_cant": "all inputs", "anchors": ["src/syntax/lexer.rs:Iterator for Lexer", "src/syntax/lexer.rs:Lexer::string"]}
{"id": "C73", "title": "The parser follows the grammar", "statement": "When parsing succeeds, the tokens of the whole source are derived by the language's grammar for exactly the declarations returned, in order: nothing is skipped, invented or reordered.", "quantifier": "every source text", "why_tests_cant": "all inputs", "anchors": ["src/syntax/parser.rs:Parser::parse", "src/syntax/parser.rs:Parser::expression"]}
{"id": "C74", "title": "Only well-formed names become tokens", "statement": "Every identifier token starts with a lower-case letter, continues with identifier characters and is not a reserved word; every operator token consists of operator characters and is not reserved; every promoted operator is named by an identifier; every integer token fits in 64 bits.", "quantifier": "every source text", "why_tests_cant": "all inputs", "anchors": ["src/syntax/lexer.rs:Lexer::lex"]}
{"id": "C75", "title": "Quitting saves the history", "statement": "`:quit`/`:q` write the history to the session's history path before leaving; with `--no-history` they do not write it.", "quantifier": "every session state", "why_tests_cant": "all states", "anchors": ["src/repl/session.rs:read_command"]}
{"id": "C76", "title": "History commands do what they report", "statement": "`:history --clear [--file]`, `--set <path>` and `--save [<path>]` clear, redirect and write the history as documented, and the message names the file written.", "quantifier": "every session state and path", "why_tests_cant": "all paths", "anchors": ["src/repl/session.rs:read_command"]}
{"id": "C77", "title": "Unknown commands are harmless", "statement": "A line starting with `:` whose first word is not a documented command is reported and changes nothing.", "quantifier": "every session state and line", "why_tests_cant": "all lines", "anchors": ["src/repl/session.rs:read_command"]}
{"id": "C78", "title": "The prompt tells whether input is pending", "statement": "The continuation prompt is shown exactly while a multi-line input is pending.", "quantifier": "every sequence of lines", "why_tests_cant": "unbounded sequences", "anchors": ["src/repl/session.rs:run_repl", "src/repl/session.rs:LinePrompt"]}
{"id": "C79", "title": "A session can always be started", "statement": "Starting a session never fails; it starts with no declarations and no pending input, and the history path is the documented one whenever it can be created.", "quantifier": "every file system state and HOME", "why_tests_cant": "all states of the file system", "anchors": ["src/repl/session.rs:ReplSession::new", "src/repl/setup.rs:try_history_path", "src/repl/setup.rs:try_cfg_dir"]}
{"id": "C80", "title": "The fixity table of a session is well-formed", "statement": "In every reachable session no operator has two entries, every precedence is between 0 and 9, and no resolver error is left over.", "quantifier": "every sequence of lines", "why_tests_cant": "unbounded sequences", "anchors": ["src/repl/session.rs:run_repl", "src/syntax/fixity.rs:Fixities"]}
{"id": "C81", "title": "The parser accepts exactly the grammar", "statement": "A source is accepted if and only if its tokens, with the columns at which they end, are derived by the language's layout grammar; the result is the derived program, which is unique. For sources of one line the grammar needs no columns.", "quantifier": "every source text", "why_tests_cant": "all inputs, both directions", "anchors": ["src/syntax/parser.rs:Parser::parse", "src/syntax/parser.rs:Parser::expression", "src/syntax/parser.rs:Parser::application"]}
{"id": "C82", "title": "Only the operators decide the grouping", "statement": "Two chains with the same operators are grouped the same way whatever their operands are, and rejected with the same error.", "quantifier": "every table and every two chains", "why_tests_cant": "all operands", "anchors": ["src/syntax/fixity.rs:Fixities::rewrite"]}
{"id": "C83", "title": "Grouping is symmetric", "statement": "Reading a chain backwards with left- and right-associativity exchanged gives the mirror image of its grouping, and is rejected iff the chain is.", "quantifier": "every table and chain", "why_tests_cant": "unbounded length", "anchors": ["src/syntax/fixity.rs:Fixities::rewrite"]}
{"id": "C84", "title": "The loosest operator splits the chain", "statement": "An operator that binds looser than all others of a chain is the outermost one, its two sides are grouped as they would be on their own, and the chain is rejected iff one of its sides is.", "quantifier": "every table and chain", "why_tests_cant": "unbounded length", "anchors": ["src/syntax/fixity.rs:Fixities::rewrite"]}
{"id": "C85", "title": "Chains of one precedence", "statement": "A chain of left-associative operators of one precedence nests to the left, one of right-associative operators to the right, and a non-associative operator next to one of its precedence is always rejected.", "quantifier": "every table and chain", "why_tests_cant": "unbounded length", "anchors": ["src/syntax/fixity.rs:Fixities::rewrite"]}
{"id": "C86", "title": "Parentheses override fixities", "statement": "If every infix expression inside another one is in parentheses, resolving changes nothing and reports nothing, whatever the fixities.", "quantifier": "every expression and table", "why_tests_cant": "all expressions and tables", "anchors": ["src/syntax/fixity.rs:Resolver::visit_expr_mut", "src/syntax/fixity.rs:Fixities::rewrite"]}
{"id": "C87", "title": "From the keyboard to the screen", "statement": "A line that is one expression (names, literals, applications, operators, parentheses, tuples, lists) makes the session show exactly that expression with every nested infix expression or application operand in parentheses, grouped in the only way allowed by the last declared fixities; if no grouping is allowed it shows nothing but an error. The fixities do not change and the next input starts afresh.", "quantifier": "every session reachable without a `let` that declares an operator twice (see C15), and every such line whose names contain no bracket or escape character", "why_tests_cant": "end to end over all histories of lines and all expressions", "anchors": ["src/repl/session.rs:run_repl", "src/repl/session.rs:ReplSession::read_buffer", "src/syntax/parser.rs:Parser::parse", "src/syntax/fixity.rs:Fixities::rewrite", "src/syntax/fixity.rs:Printer::write_expr"]}
{"id": "C88", "title": "Composed styles", "statement": "However styled values are nested, appended, prepended, put one after another or wrapped for debugging, the terminal shows exactly the texts of the parts in order, no escape sequence is visible or left pending, and the pen is reset at the end.", "quantifier": "every tree of styled values whose texts contain no escape character", "why_tests_cant": "unbounded nesting", "anchors": ["src/text/style.rs:Style::append", "src/text/style.rs:Style::prepend", "src/text/style.rs:Style::then_with", "src/text/style.rs:Style::fresh_suffix", "src/text/style.rs:impl_style_fmts"]}
{"id": "C89", "title": "Appended text has the style it is appended to", "statement": "Every text is drawn with the styles of all the values it is inside of, inner styles refining outer ones.", "quantifier": "every tree of styled values whose texts contain no escape character", "why_tests_cant": "unbounded nesting", "anchors": ["src/text/style.rs:Style::append", "src/text/style.rs:Config::write_end", "src/text/style.rs:wrapped_blue"]}
{"id": "C90", "title": "Format codes", "statement": "maybe_from_u8 returns the format whose code is the byte and None if there is none; from_u8 falls back to the first format; as_str is the code in decimal; codes are distinct.", "quantifier": "every byte and format", "why_tests_cant": "the converse direction over all bytes", "anchors": ["src/text/style.rs:AnsiFormat::from_u8", "src/text/style.rs:AnsiFormat::maybe_from_u8", "src/text/style.rs:AnsiFormat::as_str"]}
{"id": "C91", "title": "Highlighting is a foreground colour", "statement": "Converting a highlight to a style and back is the identity; converting a style to a highlight and back changes nothing iff the style only had a foreground colour.", "quantifier": "every style and highlight", "why_tests_cant": "all styles", "anchors": ["src/text/style.rs:Highlighted"]}
{"id": "C92", "title": "Symbols compare like their texts", "statement": "A symbol equals a string iff its text does, equals a character iff its text is exactly that character, has its text's length, and satisfies the predicate of a predefined symbol iff its text is that symbol's text.", "quantifier": "every history of intern calls with at most 2^32 different texts", "why_tests_cant": "unbounded histories", "anchors": ["src/text/symbol.rs:PartialEq<str> for Symbol", "src/text/symbol.rs:PartialEq<char> for Symbol", "src/text/symbol.rs:Symbol::len", "src/text/lexicon.rs:symbols"]}
{"id": "C93", "title": "Symbols hash like their texts", "statement": "As Borrow<str> requires, a symbol and its text feed the same bytes to a hasher, so maps keyed by symbols can be queried by text.", "quantifier": "every symbol and text", "why_tests_cant": "all texts", "anchors": ["src/text/symbol.rs:Borrow<str> for Symbol", "src/text/symbol.rs:Symbol"]}
{"id": "C94", "title": "The text of a fractional literal denotes it", "statement": "The text of a fractional literal is accepted by parse::<f64> and denotes the number given by its integer part, fraction and exponent; different literals have different texts.", "quantifier": "every integer part, fraction and exponent", "why_tests_cant": "all numbers", "anchors": ["src/syntax/token.rs:Float::write_fmt_str", "src/syntax/token.rs:Float::string", "src/syntax/token.rs:Float::to_f64"]}
{"id": "C95", "title": "The lexer reads exactly the lexical grammar", "statement": "A text is read without error as a sequence of tokens if and only if it consists of these tokens, each spelled as the lexical grammar says and as long as possible, with whitespace and comments in between; no text is read in two ways. (The grammar includes that a block comment or a character literal with a code swallows the character after it, and that names, operators and numbers are looked up in the source at the column the lexer has counted, which lags behind wherever a carriage return follows a line feed.)", "quantifier": "every source text", "why_tests_cant": "all inputs, both directions", "anchors": ["src/syntax/lexer.rs:Lexer::lex", "src/syntax/lexer.rs:Lexer::char", "src/syntax/lexer.rs:Lexer::string", "src/syntax/lexer.rs:Lexer::block_comment"]}
{"id": "C96", "title": "From characters to syntax trees", "statement": "A text is accepted as a program if and only if its characters form tokens by the lexical grammar and these form declarations by the grammar of programs, which are then what is returned.", "quantifier": "every source text", "why_tests_cant": "all inputs, both directions", "anchors": ["src/syntax/lexer.rs:Lexer::lex", "src/syntax/parser.rs:Parser::parse"]}
{"id": "C97", "title": "Exactly which syntax trees can be written", "statement": "A syntax tree is the result of parsing some line if and only if its names are lower-case identifiers, its operators and integers can be spelled, its chains nest to the right, its lambdas and lets are neither applied nor left operands, its applications have atomic arguments, its tuples do not have exactly one component, it has no negations and constructors, and its patterns have literals only as elements of lists or as later components of tuples. On several lines lambdas and lets can also be applied, and nothing else becomes possible except newlines in promoted names.", "quantifier": "every syntax tree; every line, and every source without a line feed before a carriage return", "why_tests_cant": "existence of a source for every tree, and non-existence for all others", "anchors": ["src/syntax/parser.rs:Parser::parse", "src/syntax/parser.rs:Parser::pattern"]}
{"id": "C98", "title": "The first clash is the one reported", "statement": "When a chain is rejected, the error names the first clash met reading from the left: the first operator that clashes with an earlier one of the same precedence from which it is separated only by tighter operators, and that earlier operator. What follows it has no influence on the error.", "quantifier": "every table and chain", "why_tests_cant": "unbounded length", "anchors": ["src/syntax/fixity.rs:Fixities::rewrite"]}
{"id": "C99", "title": "The outcome of resolving, exactly", "statement": "Resolving an expression or input gives exactly the outcome of these rules: a chain with a clash stays as written (operands included) and yields the one error for its first clash; any other chain is grouped as the fixities in scope demand around its resolved operands; everything else is resolved part by part in source order, a `let` changing fixities for its body only; of errors that are alike only the first is reported.", "quantifier": "every table and every expression the parser can deliver", "why_tests_cant": "all expressions, both directions", "anchors": ["src/syntax/fixity.rs:Resolver::visit_expr_mut", "src/syntax/fixity.rs:Fixities::rewrite", "src/syntax/fixity.rs:Resolver::store_error"]}
{"id": "C100", "title": "Every ambiguous chain is reported", "statement": "If an input contains several chains with clashing operators, wherever they are, the errors of all of them are reported.", "quantifier": "every table and every expression the parser can deliver", "why_tests_cant": "all expressions", "anchors": ["src/syntax/fixity.rs:Resolver::visit_expr_mut"]}
{"id": "C101", "title": "Patterns can be written wherever patterns are expected", "statement": "After a lambda, `()`, `[]`, literals, negated patterns, lists and tuples of patterns are accepted and mean what they say.", "quantifier": "every source text", "why_tests_cant": "all sources containing such a pattern anywhere", "anchors": ["src/syntax/parser.rs:Parser::pattern", "src/syntax/parser.rs:Parser::paren_pat", "src/syntax/parser.rs:Parser::brack_pat", "src/syntax/parser.rs:Parser::inner_pat"]}
{"id": "C102", "title": "`-` and `@` are operators like all others", "statement": "The operators `-` and `@` can be declared (with or without precedence), used between operands, and named in parentheses.", "quantifier": "every source text", "why_tests_cant": "all sources containing such a declaration anywhere", "anchors": ["src/syntax/parser.rs:Parser::fixity", "src/syntax/parser.rs:Parser::infix", "src/syntax/parser.rs:Parser::paren_expr"]}
{"id": "C103", "title": "List elements are separated by commas", "statement": "A text that is read as a list consists of its elements separated by commas, with no comma missing and none left over.", "quantifier": "every one-line text read as a list", "why_tests_cant": "all element expressions", "anchors": ["src/syntax/parser.rs:Parser::brack_expr"]}
{"id": "C104", "title": "Brackets match in accepted programs", "statement": "In every accepted program parentheses and square brackets are closed in the reverse order in which they are opened.", "quantifier": "every source text", "why_tests_cant": "all inputs", "anchors": ["src/syntax/parser.rs:Parser::parse"]}
{"id": "C105", "title": "An operator equals the identifiers it stands for", "statement": "Operators compare consistently with identifiers: every operator equals the identifier it converts to, and equal operators equal the same identifiers. What hash maps keyed by operators need holds: equality is an equivalence, equal operators hash alike, and an operator can be looked up by its symbol. A symbolic operator stands for the same symbol, a promoted name for that name, as an upper case name exactly if it begins with an upper case letter.", "quantifier": "every operator, identifier and symbol", "why_tests_cant": "unbounded texts", "anchors": ["src/syntax/ast.rs:Infix::eq", "src/syntax/ast.rs:Infix::as_ident", "src/syntax/ast.rs:Infix::borrow"]}
{"id": "C106", "title": "The text of an identifier", "statement": "`Ident::as_str` gives the text that `Display` prints.", "quantifier": "every identifier", "why_tests_cant": "unbounded texts", "anchors": ["src/syntax/ast.rs:Ident::as_str"]}
{"id": "C107", "title": "AST iterators know their length", "statement": "At every point of an iteration, from either end, `len` (also the one of `ExactSizeIterator`, which `enumerate().rev()` uses) is the number of declarations left, `is_empty` tells whether there are any, and `size_hint` is not wrong.", "quantifier": "every AST, every interleaving of next and next_back", "why_tests_cant": "unbounded lengths and interleavings", "anchors": ["src/syntax/ast.rs:AstIter::len", "src/syntax/ast.rs:AstIter::is_empty"]}
{"id": "C108", "title": "Interning through the interner", "statement": "Interning a symbol (which is usable as a string) gives the symbol back, interning its text does too, and no call, panicking or not, leaves the interner unusable or with half-entered texts.", "quantifier": "every sequence of calls to the interner", "why_tests_cant": "unbounded histories", "anchors": ["src/text/symbol.rs:Symbol::intern", "src/text/lexicon.rs:Interner::intern", "src/text/lexicon.rs:Interner::intern_iter", "src/text/lexicon.rs:Interner::intern_n", "src/text/lexicon.rs:Interner::lookup"]}
{"id": "C109", "title": "Texts built from characters", "statement": "`charstring`, `combine_chars` and `Char::as_str` give a text with exactly the characters they are given, which the caller can read.", "quantifier": "every sequence of characters, every state of the memory", "why_tests_cant": "unbounded sequences; dangling references may read correctly by accident", "anchors": ["src/text/grapheme.rs:charstring", "src/text/grapheme.rs:combine_chars", "src/syntax/token.rs:Char::as_str"]}
{"id": "C110", "title": "The end of input is not a character", "statement": "`Char::Eof` differs from every character, and every other `Char` equals exactly the character it holds; its length is the length of its text.", "quantifier": "every character", "why_tests_cant": "all characters", "anchors": ["src/syntax/token.rs:Char::eq", "src/syntax/token.rs:Char::is_eof", "src/syntax/token.rs:Char::len_utf8"]}
{"id": "C111", "title": "Whitespace and comments do not matter", "statement": "Texts that differ only in the whitespace and comments between their tokens (on one line), before them or after them are read as the same program.", "quantifier": "every source text", "why_tests_cant": "all texts and all ways to insert whitespace and comments", "anchors": ["src/syntax/lexer.rs:Lexer::eat_whitespace", "src/syntax/lexer.rs:Lexer::line_comment", "src/syntax/lexer.rs:Lexer::block_comment"]}
{"id": "C112", "title": "A semicolon joins two programs", "statement": "Two programs joined by a semicolon are the program with the declarations of the first followed by those of the second, and such a text is accepted only if both parts are.", "quantifier": "every two source texts", "why_tests_cant": "all pairs of texts", "anchors": ["src/syntax/parser.rs:Parser::parse", "src/syntax/lexer.rs:Lexer::next"]}
{"id": "C113", "title": "A listing of fixities can be read back", "statement": "The listing of fixities that is printed is a program, and reading it into a new resolver gives the same fixities to the same operators.", "quantifier": "every fixity table", "why_tests_cant": "all tables, unbounded names", "anchors": ["src/syntax/fixity.rs:Printer::write_fixities", "src/syntax/fixity.rs:FixityEntries::write_fixities", "src/syntax/fixity.rs:Resolver::load_fixities", "src/syntax/parser.rs:Parser::fixity"]}
{"id": "C114", "title": "A parse error names the offending token and its place", "statement": "The token named by a parse error is the one that follows the tokens accepted before it (or the end of the source), and the location of the error is that of this token.", "quantifier": "every source text", "why_tests_cant": "all rejected inputs", "anchors": ["src/syntax/parser.rs:Error", "src/syntax/parser.rs:Parser::parse", "src/syntax/parser.rs:Parser::eat"]}
{"id": "C115", "title": "Parse errors are about the first token that cannot be right", "statement": "If a source is rejected, the tokens before the one named by the error, ending where they end, are the first tokens of some program, and nothing that begins with the tokens up to and including that one is a program: whatever follows it, the same error is reported.", "quantifier": "every source text", "why_tests_cant": "existence of a continuation for every prefix, absence of one for every longer prefix", "anchors": ["src/syntax/parser.rs:Parser::parse", "src/syntax/parser.rs:Parser::expression", "src/syntax/parser.rs:Parser::pattern"]}
{"id": "C116", "title": "Spans cover the text of their token", "statement": "The span that comes with a token is the piece of the source the lexer has just read: indexing the source with it gives this piece, `lines` is the number of line feeds in it, and `is_empty` tells whether it is empty, which happens only for errors. `loc_span` is the span of the token read last, by `next` or `peek`.", "quantifier": "every source text and place", "why_tests_cant": "all sources", "anchors": ["src/syntax/lexer.rs:Lexer::next", "src/syntax/token.rs:LocSpan::lines", "src/syntax/token.rs:LocSpan::is_empty", "src/syntax/token.rs:Span"]}
{"id": "C117", "title": "The end of the tokens", "statement": "Once `is_done` holds the lexer yields no more tokens; once it has yielded none, `is_done` holds and it never yields one again.", "quantifier": "every lexer state", "why_tests_cant": "all sources", "anchors": ["src/syntax/lexer.rs:Lexer::is_done", "src/syntax/lexer.rs:Lexer::next"]}
{"id": "C118", "title": "Displayed positions tell positions apart", "statement": "Different locations, and different spans, are displayed differently; `line:column` determines line and column.", "quantifier": "every location and span", "why_tests_cant": "unbounded numbers", "anchors": ["src/syntax/token.rs:Loc", "src/syntax/token.rs:Span", "src/syntax/token.rs:LocSpan"]}
{"id": "C119", "title": "The texts of colours", "statement": "Different colours are displayed differently, and the text of a colour is what the escape sequence for it as a foreground carries.", "quantifier": "every palette colour and every colour given by its channels", "why_tests_cant": "all 2^24 colours", "anchors": ["src/text/color.rs:Color", "src/text/color.rs:AnsiColor::as_str", "src/text/color.rs:Rgb"]}
{"id": "C120", "title": "Removing the last entries of a table", "statement": "`remove_last(n)` removes the last n entries of a fixity table (all if there are fewer) and yields them in the order of the table; the other operators keep their fixities.", "quantifier": "every table and number", "why_tests_cant": "unbounded tables", "anchors": ["src/syntax/fixity.rs:Fixities::remove_last"]}
{"id": "C121", "title": "Adding a fixity; resolving a program or a chain on its own", "statement": "`add_fixity` gives the operator the fixity, leaves all others alone and returns what it replaces; `resolved` gives what resolving in a new resolver gives; `resolve_expr` regroups the one chain it is given as the fixities demand, or reports an error exactly if two of its operators clash.", "quantifier": "every resolver, operator, fixity and program", "why_tests_cant": "unbounded tables and programs", "anchors": ["src/syntax/fixity.rs:Resolver::add_fixity", "src/syntax/fixity.rs:Resolver::resolve_expr", "src/syntax/fixity.rs:Resolver::resolved", "src/syntax/fixity.rs:Resolver::load_fixities"]}
{"id": "C122", "title": "Digits and number prefixes", "statement": "`is_num_char` accepts exactly the digits of the base, in either case, and underscores that are not first; the letters b, o and x (in either case) stand for the bases 2, 8 and 16, all other characters for none.", "quantifier": "every character, every base up to 36", "why_tests_cant": "all characters", "anchors": ["src/text/grapheme.rs:is_num_char", "src/text/grapheme.rs:IntPrefix::from_char", "src/text/grapheme.rs:IntPrefix::radix"]}
{"id": "C123", "title": "Lengths of identifiers", "statement": "`Ident::len` is the length of the text of an identifier in bytes, `width` the same with the parentheses that operators get, and `is_unit` tells whether it is `()`.", "quantifier": "every identifier", "why_tests_cant": "unbounded texts", "anchors": ["src/syntax/ast.rs:Ident::len", "src/syntax/ast.rs:Ident::width", "src/syntax/ast.rs:Ident::is_unit"]}
{"id": "C124", "title": "What a session starts with", "statement": "A session first prints its version, the path of its history and three hints, whatever it is then given; it defines no fixities; its prompts show `> ` and ` |  ` and leave the terminal as it was.", "quantifier": "every file system and sequence of inputs", "why_tests_cant": "all sequences of inputs", "anchors": ["src/repl/session.rs:ReplSession::print_init_msg", "src/repl/session.rs:run_repl", "src/repl/session.rs:LinePrompt::as_str", "src/repl/setup.rs:try_history_path"]}
{"id": "C125", "title": "Uninstalling removes the history and nothing else", "statement": "`uninstall_artifacts` deletes the history file that sessions use in a directory and nothing else, and the directory only if nothing else is in it and it is not the current one.", "quantifier": "every directory", "why_tests_cant": "all directories; it is not called by any test", "anchors": ["src/repl/setup.rs:uninstall_artifacts", "src/repl/setup.rs:try_history_path"]}
{"id": "C126", "title": "Directories and programs", "statement": "`:cd` changes to exactly the directory named after it, blanks inside the name included; `:shell` starts exactly the program and arguments named after it and passes its output on; failures are reported with their reason; nothing else happens, and without argument nothing at all. What the messages offer exists.", "quantifier": "every line, path and list of words, every answer of the system", "why_tests_cant": "all lines", "anchors": ["src/repl/session.rs:read_command"]}
{"id": "C127", "title": "The help text is right", "statement": "`:help`, `:h` and `:?` print the help text; the commands and options it announces are the ones there are.", "quantifier": "every line; every command word", "why_tests_cant": "all words that are not announced", "anchors": ["src/repl/session.rs:HELP_MSG", "src/repl/session.rs:read_command"]}
{"id": "C128", "title": "What loading reports", "statement": "Loading reports what has been loaded: the number of fixities, and for files the path and the listing of what they declare; a file that cannot be read, does not parse or is ambiguous is reported with its path and the reason.", "quantifier": "every session, path and file content", "why_tests_cant": "all file contents", "anchors": ["src/repl/session.rs:ReplSession::read_file", "src/repl/session.rs:read_command", "src/repl/session.rs:Error::write_with_path"]}
{"id": "C129", "title": "Options that are not known are refused", "statement": "`:clear` and `:history` with an option they do not know, or without one, change nothing and report the option.", "quantifier": "every option", "why_tests_cant": "all texts that are no option", "anchors": ["src/repl/session.rs:read_command"]}
{"id": "C130", "title": "What is reported for a rejected input", "statement": "An input that does not parse is reported with the token that was found, the one that was expected and the place; an ambiguous input with the two operators of every clash, in the order in which they are written, and their associativities.", "quantifier": "every rejected input", "why_tests_cant": "all errors", "anchors": ["src/repl/session.rs:Error", "src/repl/session.rs:ReplSession::read_buffer", "src/syntax/parser.rs:Error::write_without_loc", "src/syntax/parser.rs:Error::write_with_path", "src/syntax/fixity.rs:AssocError"]}
{"id": "C131", "title": "Lexical error messages tell errors apart", "statement": "Two lexical errors that are displayed alike are of the same kind and about the same place, name, character or number.", "quantifier": "every two lexical errors", "why_tests_cant": "all pairs of errors, unbounded texts and numbers", "anchors": ["src/syntax/token.rs:LexError", "src/syntax/token.rs:IntError::text", "src/syntax/token.rs:Loc"]}
{"id": "C132", "title": "Trouble is reported and survived", "statement": "A line that cannot be read is reported and the session goes on as if it had not been there; starting a session complains exactly if the directory for the history cannot be where it should.", "quantifier": "every sequence of inputs, every file system", "why_tests_cant": "all sequences", "anchors": ["src/repl/session.rs:run_repl", "src/repl/setup.rs:try_cfg_dir"]}
{"id": "C133", "title": "The classes of characters", "statement": "Blanks are the 25 characters with the Unicode property White_Space, decimal digits are 0 to 9, operators are made of 20 characters and may be followed by 28 sub- and superscripts; eight characters may follow a backslash. No character is in two of: blanks, digits, operator characters, punctuation, characters a name may begin with; so the first character of a token tells its kind.", "quantifier": "every character", "why_tests_cant": "1.1 million characters; overlaps between classes", "anchors": ["src/text/grapheme.rs:is_infix_char", "src/text/grapheme.rs:is_ident_start", "src/text/grapheme.rs:is_ident_char", "src/text/grapheme.rs:is_trailing", "src/text/grapheme.rs:get_escaped", "src/syntax/lexer.rs:Lexer::lex"]}
{"id": "C134", "title": "Names do not matter to resolving", "statement": "Renaming the operators of a program and of the fixities consistently, and replacing literals, variables and patterns at will, renames the result and the errors and changes nothing else: not the grouping, not which errors are reported nor their order, not the fixities left behind.", "quantifier": "every program, table and renaming that keeps different operators different", "why_tests_cant": "all programs and renamings; tests use few names", "anchors": ["src/syntax/fixity.rs:Resolver::resolve_ast", "src/syntax/fixity.rs:Resolver::visit_expr_mut", "src/syntax/fixity.rs:Fixities::rewrite", "src/syntax/fixity.rs:Resolver::store_error"]}
{"id": "C135", "title": "Quoted texts can be told apart", "statement": "A string or character literal is shown between quotes such that what is shown stands for exactly one text, with no quote or line end of its own; different characters, strings and integers are shown differently; the debug text of a symbol gives its number and its text.", "quantifier": "every string, character and symbol, whatever is printable", "why_tests_cant": "all strings", "anchors": ["src/syntax/token.rs:Literal", "src/text/symbol.rs:Symbol", "src/text/symbol.rs:DebugSymbol"]}
{"id": "C136", "title": "The order of declarations and the prompt are for show", "statement": "Two sessions that agree but for the prompt and the order in which operators were declared print the same and end alike for everything typed, except that `:fixities` (and `:info` alone) list in that order; lines declaring different operators can be exchanged; after `:reset` or clearing fixities everything is as in a new session.", "quantifier": "every pair of such sessions, every sequence of inputs", "why_tests_cant": "all sequences of inputs", "anchors": ["src/repl/session.rs:run_repl", "src/repl/session.rs:read_command", "src/syntax/fixity.rs:Fixities", "src/syntax/fixity.rs:Resolver::clear"]}
{"id": "C137", "title": "Counters do not overflow", "statement": "Line, column, byte position and the nesting depth of comments never overflow while a source of fewer than 2^31 - 1 characters is read, at whatever place and also inside tokens: the line is at most one more than the number of line feeds, the column at most one more than the number of characters, the position at most the number of bytes.", "quantifier": "every source of that size, every place in it", "why_tests_cant": "sources of every size up to 2^31; tests are short", "anchors": ["src/syntax/lexer.rs:Lexer::bump_char", "src/syntax/lexer.rs:Lexer::block_comment", "src/syntax/token.rs:Row", "src/syntax/token.rs:Col", "src/syntax/token.rs:BytePos"]}
{"id": "C138", "title": "The grammar in the README", "statement": "The expressions and fixity declarations that are accepted are those that the grammar in the README derives.", "quantifier": "every input of one line", "why_tests_cant": "all inputs, all derivations of a context free grammar", "anchors": ["README.md:Formal syntax", "src/syntax/parser.rs:Parser::expression", "src/syntax/parser.rs:Parser::fixity", "src/syntax/parser.rs:Parser::parse"]}
{"id": "C139", "title": "Unicode escapes in strings and characters", "statement": "As the README says, all forms of an escape (with `u` or `U`, with or without `+` and leading zeros) stand for the same character as that character itself, in strings as in character literals.", "quantifier": "every escape, wherever it is", "why_tests_cant": "all characters and forms", "anchors": ["README.md:Decorative syntax nodes", "src/syntax/lexer.rs:Lexer::string", "src/syntax/lexer.rs:Lexer::char"]}
{"id": "C140", "title": "The lexical syntax in the README", "statement": "Every operator and name that the README's grammar derives from its characters can be used: operators and promoted names can be declared with every associativity and precedence, written between operands and turned into functions; names are variables.", "quantifier": "every operator and name the README describes", "why_tests_cant": "unbounded operators and names", "anchors": ["README.md:Formal syntax", "src/syntax/lexer.rs:Lexer::operator", "src/syntax/lexer.rs:Lexer::ident", "src/syntax/lexer.rs:Lexer::promoted_operator", "src/text/grapheme.rs:is_infix_char", "src/text/grapheme.rs:is_trailing"]}
{"id": "C141", "title": "Matchers", "statement": "A character as a matcher of strings matches exactly the string of that one character; an option, a value, a function and a slice match what they contain, equal, accept and what an element of it matches. For every matcher, `is_prefix` holds iff the first word matches, and `strip_prefix` returns the trimmed text after a first word that matches and otherwise the original text, without panicking.", "quantifier": "every matcher, every text", "why_tests_cant": "all texts; matchers are arbitrary functions", "anchors": ["src/text/grapheme.rs:Match", "src/text/grapheme.rs:is_prefix", "src/text/grapheme.rs:strip_prefix"]}
{"id": "C142", "title": "Visitors reach everything once and in order", "statement": "A visitor that does something at each expression and walks on, before or after, does it to every subexpression of a program exactly once, from left to right; a mutable visitor that replaces literals and variables replaces each once and changes nothing else; one that changes nothing itself leaves programs as they are; the default methods do nothing.", "quantifier": "every visitor, expression and program", "why_tests_cant": "visitors are arbitrary functions; unbounded expressions", "anchors": ["src/syntax/ast.rs:Visit", "src/syntax/ast.rs:VisitMut", "src/syntax/ast.rs:walk_expr", "src/syntax/ast.rs:walk_expr_mut", "src/syntax/ast.rs:walk_ast", "src/syntax/ast.rs:walk_ast_mut"]}
{"id": "C143", "title": "Printers can be used again", "statement": "Writing an expression or a pattern leaves the printer as it was, so that one printer writes for a number of expressions what a new printer writes for each; the current fixity is the innermost that is being printed, and precedence 0 without associativity at first.", "quantifier": "every state of a printer, every expression, pattern and list of expressions", "why_tests_cant": "all states and sequences", "anchors": ["src/syntax/fixity.rs:Printer::write_expr", "src/syntax/fixity.rs:Printer::write_pat", "src/syntax/fixity.rs:Printer::curr_fixity", "src/syntax/fixity.rs:Printer::curr_prec", "src/syntax/fixity.rs:Printer::curr_assoc"]}
{"id": "C144", "title": "Texts from bytes", "statement": "`bytestring` gives the text whose UTF-8 encoding the bytes are, and none iff there is no such text.", "quantifier": "every sequence of bytes", "why_tests_cant": "all sequences of bytes", "anchors": ["src/text/grapheme.rs:bytestring"]}
{"id": "C145", "title": "Failures while a styled value is written", "statement": "Whichever parts of a composed value fail to be formatted, with whichever formatting trait and options: the others are still written, what is visible is what they wrote, the terminal is left as it was, and the failure is reported. A writer that breaks has received a beginning of what it should have, and success is only reported if it received everything.", "quantifier": "every composed value, item, formatting trait, set of options and breaking writer", "why_tests_cant": "items and writers are arbitrary", "anchors": ["src/text/style.rs:Style", "src/text/style.rs:And", "src/text/style.rs:Then", "src/text/style.rs:Debug", "src/text/style.rs:Config::write_start", "src/text/style.rs:Config::write_end", "src/text/style.rs:Config::fmt_debug"]}
{"id": "C146", "title": "Formatter options reach the items", "statement": "Styles, `And` and `Then` hand formatting trait and options on: widths, fill and precision are obeyed as without styles, and escape sequences do not count for the width.", "quantifier": "every composed value, formatting trait and set of options", "why_tests_cant": "all options and nestings", "anchors": ["src/text/style.rs:Style", "src/text/style.rs:And", "src/text/style.rs:Then", "src/text/style.rs:Debug"]}
{"id": "C147", "title": "The order of colours", "statement": "Colours are ordered linearly: palette colours by their codes, then colours given by channels as the hexadecimal numbers they are made from; `ALL` lists every palette colour but the normal one, once and in this order.", "quantifier": "every two colours, every two numbers below 2^24", "why_tests_cant": "2^48 pairs", "anchors": ["src/text/color.rs:AnsiColor", "src/text/color.rs:AnsiColor::ALL", "src/text/color.rs:Rgb", "src/text/color.rs:Color"]}
{"id": "C148", "title": "Windows line ends", "statement": "A text whose lines end in a carriage return and a line feed is read like the same text with lines that end in a line feed.", "quantifier": "every text of lines", "why_tests_cant": "all texts; it takes the right combination of empty lines and names to notice a difference", "anchors": ["src/syntax/lexer.rs:Lexer::bump_char", "src/syntax/lexer.rs:Lexer::ident", "src/syntax/lexer.rs:Lexer::operator"]}
{"id": "C149", "title": "Exactly what is printed", "statement": "For every expression the text printed, with the colour of each character, is the one given by simple rules: operands that are not closed are in parentheses whose colour tells how many operators are around them; the parameters of nested lambdas share one arrow; lambdas inside operands are in plain parentheses; of a `let` only the body is shown.", "quantifier": "every expression and pattern, every state of the printer", "why_tests_cant": "unbounded expressions; tests compare a few texts", "anchors": ["src/syntax/fixity.rs:Printer::write_expr", "src/syntax/fixity.rs:Printer::write_pat", "src/syntax/fixity.rs:Printer::write_grouped", "src/text/style.rs:Highlighted", "src/text/color.rs:Rainbow::color"]}
{"id": "C150", "title": "The answer to every input", "statement": "For every input that can be parsed: the expressions in it are grouped as the last declarations demand, those in the input and in `let`s included; the answer is exactly the list of all different clashes, or what the first expression has become if the input starts with one; the fixities are those declared, and the next input starts afresh.", "quantifier": "every session, every input that can be parsed", "why_tests_cant": "end to end over all histories, programs with declarations, lambdas and `let`s", "anchors": ["src/repl/session.rs:run_repl", "src/repl/session.rs:ReplSession::read_buffer", "src/repl/session.rs:ReplSession::feed_input", "src/syntax/fixity.rs:Resolver::resolve_ast", "src/syntax/fixity.rs:Printer::print_expr"]}
{"id": "C151", "title": "Symbols in other threads", "statement": "A symbol means the same text in every thread.", "quantifier": "every two threads, whatever they have interned", "why_tests_cant": "all histories of two threads", "anchors": ["src/text/lexicon.rs:LEXICON", "src/text/lexicon.rs:Interner::lookup", "src/text/symbol.rs:Symbol"]}
{"id": "C152", "title": "What an input leaves behind", "statement": "What an expression becomes, which errors it yields and which fixities it leaves is given by rules that hold for all expressions, whatever their `let`s declare: a `let` takes back what it declares, except for operators it names more than once, which keep the fixity it declares; this then affects the chains that follow, in the same input and in later ones. After every history the fixities of a session are those its events leave by these rules, and every input that can be parsed is answered accordingly.", "quantifier": "every table, expression, history and input", "why_tests_cant": "all expressions and histories, also those with unusual declarations", "anchors": ["src/syntax/fixity.rs:Resolver::visit_expr_mut", "src/syntax/fixity.rs:Fixities::insert_many_with_fixity", "src/syntax/fixity.rs:Resolver::resolve_ast", "src/repl/session.rs:ReplSession::feed_input"]}
{"id": "C153", "title": "Styling methods do what they are called", "statement": "However many styling methods are called one after the other on a value, its text is shown with exactly the attributes that the calls about them leave on (`set_x` turns x on, `unset_x` off, `toggle_x` over) and in the colours set last (`set_fg_x`, `set_bg_x`), none if reset; there is a method for every attribute and colour, and no other.", "quantifier": "every sequence of methods, every text without escape characters", "why_tests_cant": "unbounded sequences of 75 methods", "anchors": ["src/text/style.rs:style_setters", "src/text/style.rs:Paint", "src/text/style.rs:Config::write_start", "src/text/color.rs:Color::bg_bytes"]}
{"id": "C154", "title": "Exactly which sources crash the parser", "statement": "Parsing panics exactly if the source begins with tokens with which some program begins and then the lexer panics, or an integer above 9 follows a fixity keyword; with the same panic. Where no program continues the tokens before, the error there is reported and nothing behind it matters.", "quantifier": "every source text without a carriage return directly after a line feed (every source text for the one direction)", "why_tests_cant": "all sources; the continuations to a program are unbounded", "anchors": ["src/syntax/parser.rs:parse", "src/syntax/parser.rs:Parser::parse", "src/syntax/parser.rs:Parser::fixity", "src/syntax/lexer.rs:Lexer::lex"]}
{"id": "C155", "title": "Exactly which inputs crash a session", "statement": "A line crashes a session exactly if it makes the session read texts (what is typed and pending, or the files it loads) and one of them is fatal; the crash is that of the first such text, and a whole session ends with the first crash. A text is fatal exactly if it begins like some program and then, after whitespace and comments, there is a word that does not begin in lower case (and is not `_`), or two adjacent apostrophes, or, after a fixity keyword, an integer above 9.", "quantifier": "every session, line, sequence of lines and file system; every text without a carriage return directly after a line feed", "why_tests_cant": "all inputs; both directions, the continuations to a program are unbounded", "anchors": ["src/repl/session.rs:run_repl", "src/repl/session.rs:ReplSession::read_buffer", "src/repl/session.rs:ReplSession::read_file", "src/syntax/parser.rs:parse", "src/syntax/lexer.rs:Lexer::lex", "src/syntax/lexer.rs:Lexer::character"]}
{"id": "C156", "title": "Changing declarations through iter_mut", "statement": "Whatever is done through the references that `iter_mut` gives out, from either end, is done to the declarations of the program taken from its ends in source order, to each at most once and to nothing else; the references can also be kept: each goes on referring to its declaration, and different ones to different declarations.", "quantifier": "every program built by pushes, every interleaving of next and next_back, every sequence of changes", "why_tests_cant": "unbounded programs, interleavings and changes", "anchors": ["src/syntax/ast.rs:Ast::iter_mut", "src/syntax/ast.rs:AstIterMut", "src/syntax/ast.rs:Ast::push"]}
{"id": "C157", "title": "Which fixities are listed, and in which order", "statement": "What `:fixities` and `:info` list after any history is given by rules: an operator that is declared anew comes last, one that is declared again keeps its place and the way it was first written and gets the new fixity; a `let` leaves the list as it was, except that an operator it names more than once stays, and comes last if it was not listed before; `:load --math` and `:load --prelude` declare their operators in a fixed order; clearing empties the list.", "quantifier": "every history, table, expression and input", "why_tests_cant": "all histories; the order is that of an unbounded sequence of declarations, removals and re-insertions", "anchors": ["src/syntax/fixity.rs:Fixities::insert", "src/syntax/fixity.rs:Resolver::visit_expr_mut", "src/syntax/fixity.rs:Resolver::load_fixities", "src/syntax/fixity.rs:Resolver::load_hs_prelude", "src/syntax/fixity.rs:Resolver::load_arithmetic", "src/syntax/fixity.rs:Resolver::entries_for", "src/repl/session.rs:read_command"]}
{"id": "C158", "title": "Exactly what a session does", "statement": "For every line that can be typed in every session that can be reached, rules say exactly what happens: what is printed, read, saved, run or changed to and in which order, which fixities, pending text, prompt and history path the session has then, and whether it goes on. The rules leave no choice, and the only lines they say nothing about are those that crash the program. So they say what the whole program does, from looking for its history on, for everything it is given.", "quantifier": "every session, every line and sequence of inputs, every outside world, which may change between lines", "why_tests_cant": "all sequences of lines in all environments; most lines have no test at all", "anchors": ["src/repl/session.rs:run_repl", "src/repl/session.rs:ReplSession::read_command", "src/repl/session.rs:ReplSession::read_buffer", "src/repl/session.rs:ReplSession::read_file", "src/repl/session.rs:ReplSession::feed_input", "src/repl/setup.rs:try_history_path"]}
{"id": "C159", "title": "What has happened when the program crashes", "statement": "For every line that crashes the program, rules say exactly what was done before: nothing if the parser panics on typed text; the beginning of the message, up to the place where the character would be named, if the text has an empty character literal; with `:load`, everything for the files before the one that crashes, and the reading of that one. Every line either does what the rules for lines say or crashes like this, never both. The crashing line has at most read files and written to the screen, so the history is not saved. A whole run that crashes has done exactly what the lines before and this line did.", "quantifier": "every session, every line and sequence of inputs, every outside world", "why_tests_cant": "all sequences of lines in all environments; a crash ends the test that meets it", "anchors": ["src/repl/session.rs:run_repl", "src/repl/session.rs:ReplSession::read_buffer", "src/repl/session.rs:ReplSession::read_file", "src/repl/session.rs:Error", "src/syntax/token.rs:LexError"]}
{"id": "C160", "title": "What parse_expr reads", "statement": "What `parse_expr` answers depends on the tokens of the expression and the one after them, with the places at which they end, and on nothing else. It accepts exactly if the first tokens form an expression and the next cannot be part of it; otherwise it complains about the first token that no expression has there. It panics exactly if tokens with which some expression begins are followed by a place where the lexer panics, or end in a fixity keyword and are followed by an integer above 9; nothing after the expression and its next token makes it panic.", "quantifier": "every source text (the panics: without a carriage return directly after a line feed)", "why_tests_cant": "all sources and all continuations of their first tokens", "anchors": ["src/syntax/parser.rs:parse_expr", "src/syntax/parser.rs:Parser::expression", "src/syntax/lexer.rs:Lexer::peek"]}
{"id": "C161", "title": "Only the order of columns matters", "statement": "How a text is laid out matters to parsing only through the order of the columns at which its tokens end: two texts with the same tokens, one of which ends further right than another exactly if it does so in the other text, are read as the same program. So indenting all lines of a text alike, by any whitespace, changes nothing. The same holds for `parse_expr`, to which the column where the text begins matters as well.", "quantifier": "every two source texts with the same tokens; every indentation and all texts each line of which consists of whole tokens, whitespace and comments", "why_tests_cant": "all layouts of all programs", "anchors": ["src/syntax/parser.rs:Parser::subexpression", "src/syntax/parser.rs:Parser::parse", "src/syntax/lexer.rs:Lexer::curr_loc"]}
{"id": "C162", "title": "Names and literals do not matter to parsing", "statement": "Whether a text is accepted, and the shape of the program that is read, depend only on the classes of its tokens, on integers (as precedences) and on the order of columns. If names and literals are replaced throughout a text, whatever by, the program read is the one in which they are replaced. If different names stay different, that holds after resolving too, with the errors, if they are replaced in the fixities as well. The same holds for `parse_expr`.", "quantifier": "every two source texts with tokens of the same classes, every replacement of names and literals that keeps `-`, `@` and integers, every table of fixities", "why_tests_cant": "all programs and all replacements", "anchors": ["src/syntax/parser.rs:parse", "src/syntax/parser.rs:Parser::expression", "src/syntax/parser.rs:Parser::pattern", "src/syntax/fixity.rs:Resolver::resolve_ast"]}
{"id": "C163", "title": "What comes before a parse error can be completed", "statement": "If a source is rejected by `parse` then the text up to the end of the last token before the one complained about can be continued, by writing more after it, to a text that is accepted. If it is rejected by `parse_expr` then there is a text that begins with the tokens before the one complained about, ending at the same places, and consists of an expression.", "quantifier": "every source text", "why_tests_cant": "existence of a continuation for every rejected text", "anchors": ["src/syntax/parser.rs:Parser::parse", "src/syntax/parser.rs:parse_expr", "src/syntax/lexer.rs:Lexer::next"]}
{"id": "C164", "title": "Expressions are grouped the way they are calculated", "statement": "Whatever operators, names, literals, applications and all other constructs are taken to mean: what an expression means as it is shown is what one gets from what is typed by the order of operations, that is by carrying out the operators level by level, from precedence 9 down to 0, on each level the right-associative ones from right to left and the others from left to right, what is in parentheses, lists, arguments and bodies first, with the declarations of `let`s in force in their bodies.", "quantifier": "every table of fixities, expression and session; every meaning", "why_tests_cant": "all expressions and meanings; agreement of two ways to calculate", "anchors": ["README.md:Pemdas", "src/syntax/fixity.rs:Fixities::rewrite", "src/syntax/fixity.rs:Resolver::visit_expr_mut", "src/syntax/fixity.rs:Resolver::resolve_ast", "src/repl/session.rs:ReplSession::feed_input"]}
{"id": "C165", "title": "Fixities are resolved as in Haskell", "statement": "The README says that the tool is modelled after Haskell: for every table of fixities, chains of operators and operands are grouped exactly as the algorithm in the Haskell 2010 Report (section 10.6) groups them, and refused exactly if it refuses them; in a whole expression this holds for every infix expression wherever it is, with the fixities in scope there.", "quantifier": "every table of fixities, every chain and expression", "why_tests_cant": "agreement of two algorithms on all inputs", "anchors": ["README.md:Pemdas", "src/syntax/fixity.rs:Fixities::rewrite", "src/syntax/fixity.rs:Rule::from_fixities", "src/syntax/fixity.rs:Resolver::visit_expr_mut"]}
{"id": "C166", "title": "A session does only what it is told", "statement": "Whatever is typed, whatever is in the files that are loaded and whatever the system answers: a session starts no program other than those named by a typed `:shell` line, with just the arguments given there; changes only to directories named by `:cd`; reads only files named by `:load`; clears the history only if a line says so; and writes it only to a file that a line names or to the one it had from the beginning, and only if a line says that or quits. Sessions that panic are included. As long as no line begins with a colon, a session only writes to the screen.", "quantifier": "every file system, every sequence of inputs, every world", "why_tests_cant": "no test can show the absence of effects for all sessions", "anchors": ["src/repl/session.rs:read_command", "src/repl/session.rs:run_repl", "src/repl/session.rs:ReplSession::read_file"]}
{"id": "C167", "title": "What inputs and files contain cannot change how the terminal shows text", "statement": "Whatever is in the texts that are read, escape characters in comments, literals and names included, everything the program writes leaves the terminal as it was: in no escape sequence, with the default colours and attributes. This holds for every answer, listing and message and for whole sessions, also those that crash, if no escape characters are typed or come from the system.", "quantifier": "every session, every outside world, every file; every source and table of fixities for one input", "why_tests_cant": "unbounded texts; a test knows the escape sequence it looks for", "anchors": ["src/syntax/token.rs:LexError", "src/syntax/fixity.rs:Printer::print_expr", "src/repl/session.rs:ReplSession::feed_input", "src/repl/session.rs:ReplSession::read_file", "src/repl/session.rs:run_repl", "src/text/style.rs:Style"]}
{"id": "C168", "title": "Resolving takes at most quadratic work", "statement": "Resolving an input in which n operators are applied compares fixities at most n(n-1) times and copies each node of the expressions at most n times, whatever the table of fixities, whether or not errors are found. The bound is reached up to a factor of two: a chain of n right-associative operators takes exactly n(n-1)/2 comparisons and copies n(n+2) nodes.", "quantifier": "every expression, every program and every table of fixities; every length n of chains", "why_tests_cant": "a test measures a few sizes; the bound is for all of them", "anchors": ["src/syntax/fixity.rs:Fixities::rewrite", "src/syntax/fixity.rs:Resolver::visit_expr_mut", "src/syntax/fixity.rs:Resolver::visit_ast_mut", "src/syntax/ast.rs:walk_expr_mut"]}
{"id": "C169", "title": "Interned texts are kept once, in proportionate memory", "statement": "After any sequence of intern calls the buffers of the interner contain each different text once, in the order of first use, and nothing else. The buffers together occupy at most four times the length of these texts (unless they fit in the first one), and their number grows only with the logarithm of that length.", "quantifier": "every sequence of texts, every initial capacity", "why_tests_cant": "amortised bounds are about all sequences; a test sees a few sizes", "anchors": ["src/text/lexicon.rs:Lexicon::alloc", "src/text/lexicon.rs:Lexicon::intern", "src/text/lexicon.rs:Lexicon::with_capacity", "src/text/lexicon.rs:Lexicon::with_reserved"]}
{"id": "C170", "title": "What is listed decides what is answered", "statement": "Sessions have no hidden state: if two sessions, whatever has happened in them, show the same when all fixities are asked for, nothing is pending in them and they have the same history file, then they do the same for ever whatever is typed.", "quantifier": "every pair of sessions, every sequence of inputs", "why_tests_cant": "unbounded histories before and after the comparison", "anchors": ["src/repl/session.rs:ReplSession", "src/syntax/fixity.rs:write_fixities", "src/syntax/fixity.rs:Fixities::insert", "src/syntax/lexer.rs:Lexer::next"]}
{"id": "C171", "title": "Lines are read one by one", "statement": "A text of lines each of which is a program by itself is read as all their declarations, in order. For fixity declarations: feeding a text of them line by line has the same effect on a session as feeding it at once, as loading it from a file does.", "quantifier": "every list of lines each of which is accepted by itself and does not end in a character given by its code or a promoted name of one character; every history of the session", "why_tests_cant": "all texts of all numbers of lines; whether two lines are joined depends on the columns of their words", "anchors": ["src/syntax/parser.rs:Parser::parse", "src/syntax/parser.rs:Parser::subexpression", "src/syntax/parser.rs:Parser::fixity", "src/repl/session.rs:ReplSession::feed_input", "src/syntax/fixity.rs:Resolver::load_fixities"]}
{"id": "C172", "title": "The answer can be typed in", "statement": "What is shown for an expression, typed in as it is seen, is answered by itself, with the same colours, in every session whatever its fixities, and changes no fixity.", "quantifier": "every expression whose parts can be read back (C46), every session that is not waiting for the rest of an input; every input for answers", "why_tests_cant": "all expressions, fixities and sessions; agreement of printer, lexer, parser, resolver and session", "anchors": ["src/syntax/fixity.rs:Printer::write_expr", "src/syntax/fixity.rs:Printer::write_grouped", "src/syntax/parser.rs:parse", "src/syntax/fixity.rs:Resolver::resolve_ast", "src/repl/session.rs:run_repl"]}
{"id": "C173", "title": "Answers are in proportion to what is typed", "statement": "However the operators of an input are grouped, whatever the fixities: what is shown of an expression is at most six times as long as the input (in bytes), and this bound is the best; what is sent to the terminal for an input that can be parsed, with all escape sequences, or with all error messages, is at most fifty times as long as the input, and 27 bytes; what is sent for an input that cannot be parsed is at most seven times as long, and 177 bytes.", "quantifier": "every source, every table of fixities, every history of a session", "why_tests_cant": "a bound on the output for inputs of every size; chains, nested parentheses, lambdas and unprintable characters each grow differently", "anchors": ["src/syntax/fixity.rs:Printer::write_expr", "src/syntax/fixity.rs:Printer::write_grouped", "src/syntax/fixity.rs:Resolver::store_error", "src/syntax/token.rs:Literal", "src/syntax/token.rs:LexError", "src/syntax/parser.rs:Error", "src/text/style.rs:Highlighted", "src/repl/session.rs:ReplSession::feed_input"]}
{"id": "C174", "title": "What is shown for an operator tells which operator it is", "statement": "Two operators read from sources have the same displayed text only if they are the same operator (Infix::fmt): symbolic operators are shown as they are, promoted ones after an apostrophe, and one named by an apostrophe between backticks.", "quantifier": "all pairs of operators of all pairs of sources", "why_tests_cant": "pairs of operators of unbounded length from arbitrary sources", "anchors": ["src/syntax/ast.rs:Infix::fmt", "src/syntax/lexer.rs:Lexer::next"]}
{"id": "C175", "title": "What stands between two operators decides which is applied first", "statement": "In the grouping of an operator chain that is not ambiguous, an operator is applied to something that contains another operator of the chain exactly if it outlasts every operator from itself to that one (each of these binds tighter, or equally tight with both operators associating to that side); this determines the grouping. Hence nothing outside the part between them matters; every part of an unambiguous chain is unambiguous; if between any two operators of the same precedence there is a looser one, the chain is unambiguous and associativities do not matter; what is grouped together is grouped the same way on its own, and the rest is grouped the same way when a group is replaced by a single operand.", "quantifier": "every operator chain of every length, every pair of positions in it, every table of fixities, every group in the result", "why_tests_cant": "a characterisation of all pairs of operators in chains of unbounded length, and of how results for different chains are related", "anchors": ["src/syntax/fixity.rs:Fixities::rewrite", "src/syntax/fixity.rs:Rule::from_fixities"]}
{"id": "C176", "title": "Looking ahead does not change what is read", "statement": "However a client of the lexer mixes `peek`, `bump` and `next`, as long as it bumps only what it has looked at and does not call `next` in between, it takes the tokens that one would take who only calls `next`, panics where they would and leaves the lexer in the same state. Looking again shows the same; what is shown is what is then handed over.", "quantifier": "every source text, every sequence of calls", "why_tests_cant": "unbounded sequences of calls on all sources, also past the end and at panics", "anchors": ["src/syntax/lexer.rs:Lexer::peek", "src/syntax/lexer.rs:Lexer::bump", "src/syntax/lexer.rs:Lexer::next"]}
{"id": "C177", "title": "Which groupings can be declared", "statement": "For every way to group a chain of different operators there are fixity declarations under which it is grouped that way, whatever was declared before, exactly if it takes at most ten levels, counting that an operand on the side to which an operator associates can be on the same level. So every grouping of up to twenty different operators can be declared; every chain of more, whatever its operators, has a grouping that cannot.", "quantifier": "every chain, every grouping, every table of fixities before", "why_tests_cant": "all groupings of chains of any length against all tables", "anchors": ["src/syntax/fixity.rs:Fixities::rewrite", "src/syntax/fixity.rs:Fixities::insert", "src/syntax/fixity.rs:Prec", "src/syntax/fixity.rs:Assoc"]}
{"id": "C178", "title": "Chains of two operators tell everything", "statement": "If two tables of fixities group all chains of two operators alike, with any fixed operands, then they group all chains of these operators alike; and this is so exactly if they order the precedences alike and give the operators the same associativities. What is shown for two chains of two operators tells which binds tighter, and what is shown for one how an operator associates.", "quantifier": "every two tables, every set of operators, all chains of any length", "why_tests_cant": "all chains follow from those of two operators, for all pairs of tables", "anchors": ["src/syntax/fixity.rs:Fixities::rewrite", "src/syntax/fixity.rs:Rule::from_fixities"]}
{"id": "C179", "title": "Entering inputs again", "statement": "An input that is entered twice in a row, whether it is accepted or refused, is answered the second time as the first time, and the second time changes nothing. Lines of inputs that are entered again, in the same order, leave the session as they left it the first time, whatever was declared before; so from the second time on they are answered alike.", "quantifier": "every session in which nothing is pending, every input, every list of inputs", "why_tests_cant": "all sessions and all lists of inputs", "anchors": ["src/repl/session.rs:ReplSession::feed_input", "src/repl/session.rs:run_repl", "src/syntax/fixity.rs:Resolver::load_fixities", "src/syntax/fixity.rs:Resolver::resolve_ast"]}
{"id": "C180", "title": "Only the order of declared precedences matters to whole programs", "statement": "If the precedences declared in a program, at top level and locally in front of expressions, and those in the table are replaced by others in the same order, with 9, the precedence of operators that are not declared, left as it is, then resolving gives the same expressions with those numbers replaced: every chain at every depth is grouped alike, the same errors are reported in the same order about the same operators, and the table holds the same operators. The same then holds of the programs that follow.", "quantifier": "every program, every state of the resolver and every replacement of numbers that keeps the order of those in use", "why_tests_cant": "It compares pairs of unboundedly many programs with nested local declarations; a sample cannot show that no absolute number is treated specially at any depth.", "anchors": ["src/syntax/fixity.rs:139-180", "src/syntax/fixity.rs:244-314", "src/syntax/fixity.rs:535-577"]}
{"id": "C181", "title": "Mapping, lifting and printing styled values", "statement": "`map` calls the given function once with the item and the style; the result is shown, in every trait and with all formatter options, as what the function makes of the item between the codes of what it makes of the style. Mapping with a function that changes nothing changes nothing, and mapping twice is mapping once with both functions. `map_ref` does the same and leaves the value usable. `append`, `prepend`, `set_fg` and `reset_colors` are maps. `lift` succeeds exactly if the item is there, keeping the style. `print` writes what `{}` writes and a newline exactly if asked to and nothing failed.", "quantifier": "all items, styles, functions (with a state of their own), formatting traits, options and writers that do not fail", "why_tests_cant": "The functions passed in and the items are arbitrary; the laws quantify over all of them.", "anchors": ["src/text/style.rs:460-511", "src/text/style.rs:541-546", "src/text/style.rs:779-835"]}
{"id": "C182", "title": "Formats as units, variants and numbers", "statement": "The unit struct of each format stands for that format and has its code and its text, which is the decimal form of the code. Comparing units, formats and numbers with each other is coherent: of a unit, a format and a number any two are equal if both are equal to the third, and a unit is equal to exactly one format and one number. Setting a format through its unit sets that format and no other.", "quantifier": "all units, formats, numbers and configurations", "why_tests_cant": "Coherence of the comparisons across three types is about all triples of values.", "anchors": ["src/text/style.rs:74-134", "src/text/style.rs:162-166", "src/text/style.rs:213-220"]}
{"id": "C183", "title": "Redundant parentheses do not change the answer", "statement": "Putting parentheses around operands of operators in an input that is accepted, such that each pair encloses what the fixities group together anyway, leaves the answer unchanged down to the colours, and the fixities as well. Parentheses around operands that enclose something else change the answer.", "quantifier": "all sessions, inputs with any number of declarations and expressions, and ways to put parentheses around operands", "why_tests_cant": "Relates the answers to infinitely many pairs of inputs, through lexer, parser, resolver and printer; tests compare single answers.", "anchors": ["src/syntax/fixity.rs:Fixities::rewrite", "src/syntax/fixity.rs:Resolver::visit_expr_mut", "src/syntax/fixity.rs:Printer::write_expr"]}
{"id": "C184", "title": "Names can be replaced by what they stand for", "statement": "If names in an expression are replaced by operands (for instance by expressions in parentheses), the new expression is accepted exactly if the old one is and each operand is, with the fixities in scope where it is put; the result then is the result before with the names replaced by the results for the operands. Operands that use no operator for which a `let` of the expression declares a fixity are resolved there as on their own.", "quantifier": "all tables of fixities, expressions, and assignments of operands to names", "why_tests_cant": "Relates the resolving of all expressions to that of infinitely many others put into them.", "anchors": ["src/syntax/fixity.rs:Fixities::rewrite", "src/syntax/fixity.rs:Resolver::visit_expr_mut"]}
{"id": "C185", "title": "Commands that the help text calls the same are the same", "statement": "`:h` and `:?` do the same as `:help`, `:q` as `:quit`, `:r` as `:reset`, `:i` as `:info` with the same operators, and `:info` without operators the same as `:fixities`; `:reset` does the same as `:clear --fixities`, `:clear --session` the same as `:clear` with the other two options in either order, `:history --clear` the same as `:clear --history`. The number and kind of the blanks around the words of a command do not matter, except inside the path of `:cd`.", "quantifier": "all sessions with nothing pending, all lines, all lists of arguments, all results of the outside world", "why_tests_cant": "Two commands agree on sampled sessions although their code differs; the lines with given words are infinitely many.", "anchors": ["src/repl/session.rs:read_command", "src/repl/session.rs:HELP_MSG"]}
{"id": "C186", "title": "A declaration of several operators is several declarations", "statement": "Declaring several operators with one `infixl`, `infixr` or `infix` line has the same effect as declaring each of them with a line of its own, in one input or in inputs one after the other: the tables are the same, in the same order. A `let` for several operators has the same effect as one `let` for each of them inside the other: the expression has the same answer, be it a result or the same errors in the same order, it is shown the same way, and the same fixities are left.", "quantifier": "all tables, all declarations, all expressions with any number of `let`s anywhere, all inputs, all sessions after any history", "why_tests_cant": "Operators are inserted and restored one by one while the body of a `let` is resolved; samples with few operators and one `let` do not show whether the order of these steps matters.", "anchors": ["src/syntax/fixity.rs:Resolver::load_fixities", "src/syntax/fixity.rs:Resolver::visit_expr", "src/syntax/parser.rs:Parser::infix_decl"]}
{"id": "C187", "title": "Loading together, again, in another order, or by typing", "statement": "`:load` with several arguments does exactly what several `:load` commands do one after the other: it reads the same files in the same order, writes the same, leaves the same session and crashes if and only if they do. Entering the same `:load` again changes nothing and writes the same, if the file is unchanged. Loading a built-in table leaves exactly the table that typing its declarations leaves. `:load --math` and `:load --prelude` can be entered in either order.", "quantifier": "all sessions after any history, all lists of arguments, all contents of files, all lines with the given words, all operators", "why_tests_cant": "Whether a second load is without effect depends on everything the files contain and on everything declared before; sampled files do not show it.", "anchors": ["src/repl/session.rs:read_command", "src/repl/session.rs:read_file", "src/syntax/fixity.rs:Resolver::load_hs_prelude", "src/syntax/fixity.rs:Resolver::load_arithmetic"]}
{"id": "C188", "title": "The order of lets for different operators does not matter, nor do hidden lets", "statement": "Neighbouring `let`s that declare different operators can be exchanged, the operators within one `let` can be exchanged, and a `let` directly around another `let` that declares all of its operators can be removed or added: the expression is resolved to the same result but for these `let`s, with the same errors in the same order, it is shown the same way down to the colours, and the same fixities are left. This holds for any number of such changes at any places of an expression or of several expressions of one input.", "quantifier": "all tables, all expressions, all such changes at all places, all inputs, all sessions after any history", "why_tests_cant": "Fixities are saved and restored one by one around each body; whether an exchange or an additional `let` is visible anywhere behind it depends on all operators of both declarations and all places they can be used in.", "anchors": ["src/syntax/fixity.rs:Resolver::visit_expr", "src/syntax/fixity.rs:Resolver::resolve_ast"]}
{"id": "C189", "title": "Only the fixities of the operators that are used matter to the answers", "statement": "Two sessions, whatever has happened in them, answer the same lines alike, be they accepted, refused or fatal, and for any number of lines, if the operators used in the lines have the same fixities in both at the beginning or are declared by the input that uses them; and so it stays afterwards. Therefore an input with declarations of operators that are not used later, with declarations of what holds already, or with `infixl 9` for an operator that has no fixity changes no later answer; and a `let` whose operators are not used in its body changes nothing.", "quantifier": "all pairs of sessions after any history, all sets of operators, all inputs and all sequences of lines that are inputs by themselves, all system states, all tables and `let`s", "why_tests_cant": "Fixities are looked up by text in a table that grows with every input and whose order and length differ between sessions; a test compares few tables and few lines.", "anchors": ["src/syntax/fixity.rs:Resolver::resolve_ast", "src/syntax/fixity.rs:Fixities::get", "src/repl/session.rs:ReplSession::feed_input", "src/repl/session.rs:ReplSession::read_buffer"]}
{"id": "C190", "title": "Declaring by let, along with an expression, or before it", "statement": "An expression with any number of `let`s directly around it has the same answer, be it a result, down to the colours, or errors in the same order, as the expression without them has in an input with the same declarations behind it, and as it has after an input with the same declarations.", "quantifier": "all expressions, all lists of declarations, including ones that name an operator repeatedly, all sessions after any history, all ways to write the inputs", "why_tests_cant": "The three ways take different paths through the parser, the resolver and the printer: inserting and restoring around a body, loading before resolving, and loading in an earlier input.", "anchors": ["src/syntax/fixity.rs:Resolver::visit_expr", "src/syntax/fixity.rs:Resolver::load_fixities", "src/repl/session.rs:ReplSession::feed_input", "src/syntax/parser.rs:Parser::atom"]}
{"id": "C191", "title": "What is shown is put together from what is shown for the parts", "statement": "If expressions are accepted when each is entered on its own, then a list of them is accepted, and exactly their texts are shown for it, colours included, with commas between, in brackets; for a tuple the same in parentheses; for an application the text for the function, a blank and the text for the argument; for a lambda whose body is not a lambda a backslash, the pattern, an arrow and the text for the body. If one of the elements is refused on its own, so is the list or tuple.", "quantifier": "all expressions, any number of elements, all sessions after any history, all ways to write the inputs", "why_tests_cant": "The printer keeps a stack of enclosing operators while it descends and the resolver one table for all elements; whether something is carried over from one element to the next shows in combinations only.", "anchors": ["src/syntax/fixity.rs:Resolver::visit_expr", "src/syntax/fixity.rs:Printer::write_expr", "src/repl/session.rs:ReplSession::read_buffer"]}
{"id": "C192", "title": "Which numbers precedences are does not show, but for their order", "statement": "If the precedences declared in some lines, at top level and by `let`, and those in the table are replaced by others in the same order, with 9, the precedence of operators that are not declared, left as it is, then exactly the same is written for the lines, results down to the colours as well as errors, accepted or refused, or both sessions crash for the same reason; the tables then list the same operators in the same order, with the numbers replaced. For inputs that can be parsed neither session crashes.", "quantifier": "all pairs of sessions after any history whose tables differ in the numbers only, all ways to replace numbers that keep the order, all inputs and all sequences of lines that are inputs by themselves, all system states", "why_tests_cant": "Precedences are compared deep inside the resolver and pass through the parser, the table, the `let`s and the printer; a test tries few numbers on few lines.", "anchors": ["src/syntax/fixity.rs:Resolver::resolve_ast", "src/syntax/fixity.rs:Rule::from_fixities", "src/repl/session.rs:ReplSession::feed_input", "src/repl/session.rs:ReplSession::read_buffer"]}
{"id": "C193", "title": "What things are called does not matter to the answers", "statement": "If in some lines and in the table the operators are renamed consistently, and names, literals and patterns are replaced at will, then the answers are the same but for the names: line by line a result is shown if and only if one was, and it is the former result with the names replaced, grouped in the same way; errors are reported if and only if they were, the same ones in the same order with the operators renamed. Neither session crashes, and afterwards the tables again differ in the names only.", "quantifier": "all pairs of sessions after any history whose tables differ in the names only, all renamings that keep different operators different, all inputs that can be parsed and all sequences of lines that are inputs by themselves, all system states", "why_tests_cant": "Operators are told apart by interned texts in a table, in errors and in `let`s; a test uses few names.", "anchors": ["src/syntax/fixity.rs:Resolver::resolve_ast", "src/syntax/fixity.rs:Resolver::store_error", "src/syntax/fixity.rs:print_expr", "src/repl/session.rs:ReplSession::feed_input", "src/repl/session.rs:ReplSession::read_buffer"]}
{"id": "C194", "title": "Reading an expression backwards mirrors the answer", "statement": "If an expression is written backwards, every chain of operators in reverse order at every depth, and left and right are exchanged in the fixities of the operators, then it is accepted if and only if the original is, and what is shown is the mirror image of what is shown for the original: left and right operands exchanged, inside operands, arguments, elements and `let`s alike.", "quantifier": "all pairs of sessions after any history, all expressions that are each other's reverse, all tables in which the operators used have mirrored fixities", "why_tests_cant": "Chains are regrouped from left to right, with different code for the two associativities; tests compare single chains.", "anchors": ["src/syntax/fixity.rs:Rule::from_fixities", "src/syntax/fixity.rs:Fixities::rewrite", "src/syntax/fixity.rs:Resolver::resolve_ast", "src/repl/session.rs:ReplSession::feed_input"]}
{"id": "C195", "title": "Parts of accepted chains are accepted", "statement": "If a result is shown for an expression, then one is shown for every part of its chain of operators, for any operand to any later one; writing more operators and operands before or behind a chain that is refused never gets it accepted.", "quantifier": "all sessions after any history, all expressions, all parts of their chains without gaps", "why_tests_cant": "Chains are read from left to right with a stack; whether a clash is found at an operator depends on what has been read before. A test has a single chain.", "anchors": ["src/syntax/fixity.rs:Rule::from_fixities", "src/syntax/fixity.rs:Fixities::rewrite", "src/syntax/fixity.rs:Resolver::resolve_ast", "src/repl/session.rs:ReplSession::feed_input"]}
{"id": "C196", "title": "When nothing is ever refused", "statement": "If to every precedence belongs one side, left or right, to which all operators of this precedence associate, those in the table as well as those declared at top level or by `let`, then no input in these operators is refused, and this stays so. This is exactly what is needed: if for some operators there is no such choice of sides, then there is an expression in them that is refused. In particular every expression without `let`s is accepted when nothing is declared and when nothing but `--math` has been loaded, though not with `--prelude`.", "quantifier": "all tables, all sets of operators, all expressions of any size and depth, all sessions after any history, all inputs that can be parsed", "why_tests_cant": "It is about all expressions in some operators at once; tests show single expressions that are accepted.", "anchors": ["src/syntax/fixity.rs:Rule::from_fixities", "src/syntax/fixity.rs:Fixities::rewrite", "src/syntax/fixity.rs:Resolver::resolve_ast", "src/syntax/fixity.rs:Resolver::load_arithmetic", "src/repl/session.rs:ReplSession::feed_input"]}
