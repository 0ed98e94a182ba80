# Formal model of lctr/pemdas in Lean 4 — design

## Layout

* `lean/Verif/Model/*.lean` — executable model, one file per Rust module, every definition citing the lines it models.
* `lean/Verif/Spec/*.lean` — small specifications, independent of the model's algorithms.
* `lean/Verif/Lemmas/*.lean` — helper lemmas.
* `lean/Verif/Props/*.lean` — the property theorems with non-vacuity examples beside them.
* `properties.jsonl` — the properties in plain words; `MANIFEST.json` — which theorems carry each property.
* `seeded/LOG.jsonl` — wrong programs tried against the theorems.

A theorem whose name ends in `_partial` proves a weaker statement than its property; its comment says what is missing.
A theorem whose name ends in `_wrong` (or says so in its comment) proves that the code violates the property.

## Modelling conventions

* A `&mut self` method becomes a function returning the new state. `Result`/`Option` stay data.
* Every panic path (`assert!`, `unwrap`, `expect`, `todo!`, slice off a character boundary) is an explicit error value.
* `str` is `List Char`; `Char` in Lean and `char` in Rust are both the Unicode scalar values. Byte offsets use
  `Char.utf8Size`, and `&src[a..b]` is a byte-slice function that panics off a character boundary.
* `Symbol` is modelled by its text outside of the interner model. C21–C24 justify that: equal symbols iff equal texts.
* The Unicode tables of Rust's std (`is_lowercase`, `is_alphabetic`, ...) are a parameter of the model (`CharTables`) with a
  small set of laws (`LawfulTables`) that hold of Unicode; concrete witnesses use the ASCII tables, for which the laws are
  proved. `char::is_whitespace` is given concretely.
* Recursions of the parser take fuel; C37 proves that the fuel handed out never runs out.
* `u32` line/column, `usize` byte counters and the `i32` depth of comments are `Nat`; C137 proves that they cannot overflow
  for sources of fewer than 2³¹−1 characters. Where a property is about wrap-around (C60–C62, C67) words are words.
* What the session does to the outside (printing, reading files, spawning processes, saving history) is a list of `Effect`s;
  what the outside answers is a parameter `World`.
* The model has been compared with the code by replaying the repository's own unit tests and the examples of its README
  against it (`Props/RepoTests.lean`); these are tests, no property rests on them.

## Trusted base

* Lean's kernel (4.33.0), and the axioms listed at the end for every theorem. No axiom is added; there is no `sorry`,
  `native_decide` or `bv_decide`.
* The reading of the Rust code: that the definitions under `Model/` say what the cited lines do.
* The models of the parts of Rust's standard library in use: `str` slicing, `trim`, `split_whitespace`, `lines`,
  `char` predicates, `u64::from_str`, `Path::extension`, `IndexMap`/`IndexSet`, `HashMap` as a finite map, `String` capacity.
* That the Unicode tables satisfy `LawfulTables`.

## What is modelled

| file | modelled | not modelled |
|---|---|---|
| `syntax/fixity.rs` | all of `Assoc`, `Prec`, `Fixity`, `Rule`, `Fixities`, `Resolver`, `Printer`, `FixityEntries` | `Debug` output, trivial accessors, tests |
| `syntax/ast.rs` | `Expr`, `Pat`, `Decl`, `Ast` and its iterators, `Display`, visitors and their walks, comparisons | trivial conversions |
| `syntax/lexer.rs` | the whole lexer | `peek_char` as a separate buffer (modelled as the head of the remaining characters) |
| `syntax/token.rs` | tokens, spans (with `Display` and indexing), `LexError`, reserved words, `Display`, the texts that `to_f64` parses | `f64` arithmetic |
| `syntax/parser.rs` | the whole parser and `Error` | the `echo`/`debug` helpers |
| `text/lexicon.rs`, `text/symbol.rs` | interner with buffers and capacities, predefined symbols, the `RefCell` around it, one interner for each thread | `as_u64`; what happens to texts when a thread ends |
| `text/grapheme.rs` | character classes, `Match`, `is_prefix`, `strip_prefix`, digit counts, `bytestring`, `charstring`, `combine_chars` | `from_utf8` of the standard library (taken to be Lean's decoder) |
| `text/color.rs` | `Rgb`, `Color`, `AnsiColor`, `Rainbow`, derived orderings | `Debug` |
| `text/style.rs` | `Config`, `Style`, `And`, `Then`, `Debug`, `Highlighted`, the escape sequences written, `AnsiFormat`, formatter options, failing items and writers, `map`, `map_ref`, `lift`, `print`, the unit structs for each format | the macro `Show` (not used) |
| `repl/session.rs`, `repl/setup.rs` | the loop, all commands, loading, history path, `uninstall_artifacts` (not called), what is done before a panic | the line editor, the history's contents, failing writes to stdout |

## Findings

Places where the code does not do what its documentation or the property says. Each has a machine-checked witness.

| where | what happens | theorem |
|---|---|---|
| lexer.rs `bump_char` | after `\n` directly followed by `\r` the position and the remaining text disagree; token texts, integers, gaps, kinds and positions are wrong afterwards | `C28_positions_wrong`, `C29_token_text_wrong`, `C31_integers_wrong`, `C32_gap_wrong`, `C74_kinds_wrong` |
| lexer.rs `lex` | an unknown character is not consumed: the token iterator yields the same error for ever | `C27_iterator_diverges` |
| lexer.rs `identifier` | panics (assertion) for an identifier starting with an upper-case letter or an underscore | `C36_upper_wrong` |
| lexer.rs block comments | the character after the closing `}~` is swallowed | `C33_block_comment_wrong` |
| lexer.rs characters | a unicode escape swallows a character; the NUL character is taken for the end of input | `C35_unicode_wrong`, `C35_nul_wrong` |
| lexer.rs `'f` | a one-character promoted operator includes the blank after it | `C71_one_character_wrong` |
| lexer.rs strings | the span of a string with an escaped newline starts too late | `C72_span_wrong` |
| token.rs | displaying the error for `''` hits a `todo!()`: the session crashes | `C68_empty_char_wrong`, `C130_empty_wrong` |
| parser.rs | a precedence above 9 hits a `todo!()`: the session crashes | `C39_panics_wrong` |
| fixity.rs `let` | a `let` declaring an operator twice leaks its fixity into the session | `C14_fails_after_duplicate_let`, `C14_C15_fail_after_duplicate_let` |
| fixity.rs `load_arithmetic` | `*`, `/`, `%` get precedence 6 instead of 7 | `C18_math_precedence_wrong` |
| fixity.rs `load_hs_prelude` | 24 operators are loaded, 23 reported | `C19_prelude_count_wrong` |
| fixity.rs printer | an operator whose name is a bracket is printed unbalanced | `C47_balanced_wrong` |
| color.rs | `Rgb` adjusts the wrong channels; ANSI backgrounds set the foreground; the rainbow's period breaks at wrap-around | `C62_blue_wrong`, `C62_green_blue_swapped`, `C63_background_wrong`, `C61_wrap_breaks_period` |
| style.rs | text appended after a nested style loses the outer style | `C89_nested_wrong` |
| style.rs | `reset_fg` and `reset_bg` reset all attributes and colours | `C153_methods_wrong` |
| symbol.rs | `Symbol` implements `Borrow<str>` but hashes its number | `C93_borrow_hash_wrong` |
| token.rs `Float` | the exponent is written without `e`: `to_f64` panics on negative and is wrong on positive exponents | `C94_negative_exponent_wrong`, `C94_positive_exponent_wrong` |
| grapheme.rs `strip_prefix` | wrong with leading whitespace | `C66_leading_whitespace` |
| session.rs `:reset` | reports one less than removed | `C20_reset_count_wrong` |
| session.rs `{` blocks | a block of several lines ends with the next line, and its closing brace is kept | `C56_not_until_brace`, `C56_closing_brace_wrong` |
| session.rs `.hs` files | declarations are concatenated without separator | `C57_separate_wrong` |
| session.rs `:load "path"` | the closing quote is kept | `C58_quoted_wrong` |
| session.rs `:history --save path` | reports the session's history path | `C76_save_to_wrong` |
| session.rs `:history --set` | `--settings x` is accepted and sets the path `tings x` | `C76_set_prefix_wrong`, `C129_set_wrong` |
| session.rs prompt | the continuation prompt does not tell whether input is pending | `C78_prompt_wrong` |
| session.rs end of input | the history is not saved on end of input or interrupt | `C75_eof_does_not_save` |
| session.rs `:save` | documented, not implemented: an unknown command | `C77_unknown_command` (its example) |
| parser.rs patterns | `()` and literals are rejected after a lambda; `[]` needs a second `]`; a negated pattern in a list loses its sign; constructors cannot even be read | `C101_patterns_wrong`, `C101_negation_lost_wrong`, `C104_brackets_wrong`, `C97_never` |
| parser.rs | `infixl -` without precedence is rejected; `(-)` is rejected; missing and trailing commas are accepted in lists | `C102_operators_wrong`, `C103_trailing_comma_wrong`, `C103_missing_comma_wrong` |
| fixity.rs printer | what is printed cannot be read back: a `let` prints only its body, an applied lambda gets no parentheses, `('elem)` loses its apostrophe, `` `f` `` becomes `'f `, operator and empty-list patterns and unprintable characters are not printed in the source syntax | `C46_let_wrong`, `C46_applied_lambda_wrong`, `C46_section_wrong`, `C46_short_operator_wrong`, `C46_patterns_wrong`, `C46_escape_wrong` |
| fixity.rs printer | a lambda operand gets doubled parentheses, and one more each time it is read back and printed | `C46_parentheses_grow` |
| fixity.rs | when a chain is ambiguous its operands are not resolved, and clashes inside them are not reported | `C100_all_reported_wrong`, `C99_exact_partial` |
| grapheme.rs, token.rs | `charstring`, `combine_chars` and `Char::as_str` return references into freed memory | `C109_dangling_wrong`, `C109_char_dangling_wrong` |
| ast.rs `Ident::as_str` | panics on every identifier but `[]` | `C106_as_str_wrong` |
| ast.rs iterators | `ExactSizeIterator::len` always panics (`size_hint` is not overridden) | `C107_exact_length_wrong` |
| ast.rs `Infix` | equal operators are equal to different identifiers | `C105_equality_wrong` |
| lexicon.rs, symbol.rs | `Symbol::intern` of a symbol panics: the interner is already borrowed | `C108_symbol_wrong` |
| lexer.rs | a blank after `'f` becomes part of the name; a block comment or `'\\u41'` swallows the next character, be it a semicolon | `C111_trailing_wrong`, `C111_code_wrong`, `C111_comment_wrong`, `C112_semicolon_wrong`, `C148_code_wrong` |
| fixity.rs `write_fixities` | operators `` `f` `` and `` `f'` `` are listed in a form that is not read back | `C113_listing_wrong` |
| parser.rs errors | the location of an error is often the end of the token before the one it names: for `infixl 6`, an empty line and `)` it is on the first line | `C114_location_wrong` |
| token.rs `Char` | `Eof` equals the NUL character and has length 1 but no text | `C110_eof_wrong` |
| lexer.rs, token.rs spans | after `\n` directly followed by `\r` the span of a token covers other text | `C116_span_wrong` |
| fixity.rs `visit_expr_mut` | what is already resolved is copied and resolved again, level by level: quadratic work for chains for which `n - 1` comparisons are enough | `C168_chains` |
| fixity.rs `remove_last` | yields the entries last first although it reverses the iterator | `C120_order_wrong` |
| setup.rs `uninstall_artifacts` | looks for `.pemdas_history` in the current directory, where sessions store `.history` | `C125_current_directory_wrong` |
| session.rs messages | `:shell` offers `:sh`, the help text `:save` and `--fixities history`, which do not exist; for a file, declarations are counted instead of fixities | `C126_sh_wrong`, `C127_announced_wrong`, `C128_count_wrong` |
| token.rs `InvalidPromotedInfix` | the message repeats what stands between backticks as it is: loading a file can send escape sequences to the terminal and leave it in another colour | `C167_file_wrong` |
| README, parser.rs | the grammar in the README has `(-)`, `infixl -`, `(f \x -> x + y)` and `_` as an expression, which are rejected, but not `()` and `[]`, which are accepted | `C138_rejected_wrong`, `C138_undocumented_wrong`, `C138_underscore_wrong` |
| README, lexer.rs strings | unicode escapes in strings lose their backslash and are not interpreted | `Lexer.C139_strings_wrong` |
| README, lexer.rs | of the operators the README's grammar derives, `\` and `->` cannot be declared or used, and `(\)`, `(->)`, `(-)`, `(@)` are rejected | `C140_operators_wrong`, `C140_names_wrong` |
| session.rs, lexer.rs | equal lists of fixities can hide different tables: after `\n` directly followed by `\r` one operator can be named `+, -`; the order of later lists depends on more than what is listed | `C170_shifted_wrong`, `C170_order_wrong` |
| lexer.rs, ast.rs | after `\n` directly followed by `\r`, different operators of one expression can be shown alike | `C174_shown_wrong` |
| parser.rs | layout compares the columns at which words end: of two lines that begin in the same column the second is an argument of the first if its first word is longer (`f`, `goo` is `f goo`) | `C171_lines_wrong` |
| fixity.rs | a lambda in an operand is shown in two pairs of parentheses, and in one more each time the answer is typed in | `C172_operand_wrong` |
| lexer.rs | `next` after `peek` passes over the token that was shown, which a later `bump` hands over out of order; `bump` without `peek` hands over `Eof` | `C176_order_wrong`, `C176_lost_wrong`, `C176_bump_wrong` |
| fixity.rs | an input with a `let` that names an operator twice, entered twice, is answered differently | `C179_again_wrong` |
| fixity.rs | redundant parentheses to the right of a `let` that names an operator twice change the answer | `C183_let_wrong` |
| fixity.rs | a `let` that names an operator twice differs from two `let`s | `C186_let_wrong` |
| session.rs | `:load --math f` looks for a file named `--math` | `C187_several_wrong` |
| fixity.rs | `:load --math` after `:load --prelude` changes how `*`, `/`, `%` group | `C187_order_wrong` |
| fixity.rs | a `let` that names an operator twice has an effect although another `let` hides it | `C188_let_wrong` |
| fixity.rs | next to a `let` that names an operator twice, an expression is refused and the same one backwards is not | `C194_let_wrong` |
| fixity.rs | behind a `let` that names an operator twice, an operand is accepted that is refused on its own | `C195_let_wrong` |
| fixity.rs | after a `let` that names an operator twice, the next element of a list is not grouped as on its own | `C191_let_wrong` |
| fixity.rs | an operand behind a `let` that names an operator twice is grouped differently than on its own | `C184_let_wrong` |
| session.rs | `:quit  --no-history` and `:clear --history  --fixities`, with two blanks, are not understood | `C185_blanks_wrong` |
| session.rs | `:reset`, a "shortcut for `:clear --fixities`", reports another number | `C185_reset_wrong` |

## Per property: what is modelled, how it is proved, what is missing

| id | property | status | model and method | remarks |
|---|---|---|---|---|
| C01 | Grouping soundness | proved | `Fixities::rewrite` is modelled as the literal two-stack loop; the spec is a tree over the operator chain (`OpTree`, `Grouping`) with a local condition on neighbouring operators; proved with a stack invariant |  |
| C02 | Grouping completeness and uniqueness | proved | `Fixities::rewrite` is modelled as the literal two-stack loop; the spec is a tree over the operator chain (`OpTree`, `Grouping`) with a local condition on neighbouring operators; proved with a stack invariant |  |
| C03 | Ambiguity is reported exactly when unavoidable | proved | `Fixities::rewrite` is modelled as the literal two-stack loop; the spec is a tree over the operator chain (`OpTree`, `Grouping`) with a local condition on neighbouring operators; proved with a stack invariant |  |
| C04 | The resolver never trips its internal assertions | proved | `Fixities::rewrite` is modelled as the literal two-stack loop; the spec is a tree over the operator chain (`OpTree`, `Grouping`) with a local condition on neighbouring operators; proved with a stack invariant |  |
| C05 | Resolution is idempotent | proved | a tree whose right edge only shifts is left alone by the loop, and visiting only takes operators away from that edge (`Lemmas/Again.lean`) | For chains, whole expressions of any shape and programs. |
| C06 | Grouping only depends on the operators used | proved | congruence of the loop in the fixities looked up |  |
| C07 | Only the relative order of precedences matters | proved | congruence of the loop in the fixities looked up |  |
| C08 | Undeclared operators are infixl 9 | proved | congruence of the loop in the fixities looked up |  |
| C09 | Whole-expression resolution changes only grouping | partial | `Resolver::visit_expr_mut` over the full `Expr`, threading table and errors; induction principle `visit_induct` | Missing: holds when no single let declares the same operator twice and the input is right-nested as the parser builds it; C09_fails_after_duplicate_let shows the code violates it otherwise. |
| C10 | Whole-expression resolution reports an error exactly when needed | partial | `Resolver::visit_expr_mut` over the full `Expr`, threading table and errors; induction principle `visit_induct` | Missing: holds when no single let declares the same operator twice and the input is right-nested as the parser builds it; C10_C16_fail_after_duplicate_let is the counterexample otherwise. |
| C11 | Local fixities do not leak | partial | `Resolver::visit_expr_mut` over the full `Expr`, threading table and errors; induction principle `visit_induct` | The code violates it: a let naming an operator twice leaks its fixity (C11_duplicate_leaks). C11_no_leak_partial: nothing leaks from expressions whose lets name no operator twice. C11_let_exact says for every let what it leaves behind, C11_leaks_only_duplicates for every expression which operators can be affected and how. |
| C12 | Innermost let wins | proved | `Resolver::visit_expr_mut` over the full `Expr`, threading table and errors; induction principle `visit_induct` |  |
| C13 | Declaration order within one input is irrelevant to expressions | proved | `Fixities` as insertion-ordered association list; refinement to a finite map with an order |  |
| C14 | A rejected input does not corrupt the session | partial | reachable sessions (`History`) with a log of what happened to the fixities; spec `lastWrite` reads the log backwards | Proved for every reachable session, for inputs whose lets declare no operator twice; otherwise the code violates it (C14_C15_fail_after_duplicate_let), but only for the operators named twice (C14_leaks_only_duplicates, for every input). |
| C15 | Session fixities are a last-writer-wins map | partial | reachable sessions (`History`) with a log of what happened to the fixities; spec `lastWrite` reads the log backwards | Proved for every operator that no let of the history names twice; for other operators the code violates it. C15_last_writer says for every history and operator who the last writer can be. |
| C16 | Reported ambiguities are real and not repeated | partial | `Resolver::visit_expr_mut` over the full `Expr`, threading table and errors; induction principle `visit_induct` | Missing: holds when no single let declares the same operator twice and the input is right-nested as the parser builds it; counterexample C10_C16_fail_after_duplicate_let. |
| C17 | Fixity table behaves as an insertion-ordered map keyed by operator text | proved | `Fixities` as insertion-ordered association list; refinement to a finite map with an order |  |
| C18 | `:load --math` gives conventional arithmetic precedence | partial | `Fixities` as insertion-ordered association list; refinement to a finite map with an order | The code violates it: * / % get the precedence of + and -. |
| C19 | `:load --prelude` installs the documented Haskell fixities | partial | `Fixities` as insertion-ordered association list; refinement to a finite map with an order | The fixities are proved; the reported count is 23 although 24 are loaded. |
| C20 | Clearing forgets everything and reports the right count | partial | `Fixities` as insertion-ordered association list; refinement to a finite map with an order | The code violates it: `:reset` reports one less than it removed. |
| C21 | Interning is a bijection between texts and symbols | proved | `Lexicon` with map, vector and buffers with capacities; invariant over all intern histories |  |
| C22 | Symbols are stable | proved | `Lexicon` with map, vector and buffers with capacities; invariant over all intern histories |  |
| C23 | Predefined symbol constants denote their texts | proved | `Lexicon` with map, vector and buffers with capacities; invariant over all intern histories |  |
| C24 | Interned text never moves | proved | `Lexicon` with map, vector and buffers with capacities; invariant over all intern histories |  |
| C25 | Ast iteration reproduces source order from both ends | proved | three vectors and the two-ended iterator; refinement to a deque |  |
| C26 | Lexing one token always terminates and makes progress | proved | lexer over characters with byte positions; every lexing function has a run lemma; independent character-class specs |  |
| C27 | Iterating the lexer terminates | partial | lexer over characters with byte positions; every lexing function has a run lemma; independent character-class specs | The code violates it: an unknown character is reported for ever. Proved: exactly when it stops (if and only if no unknown character is reported, panics aside). |
| C28 | Positions are accurate | partial | lexer over characters with byte positions; every lexing function has a run lemma; independent character-class specs | The code violates it for sources with a line feed directly followed by a carriage return. C28_positions says exactly what happens in general. |
| C29 | Token text is the source slice | partial | lexer over characters with byte positions; every lexing function has a run lemma; independent character-class specs | Holds for sources without a line feed directly followed by a carriage return; otherwise the code violates it (C29_token_text_wrong); C29_shifted says for every source which text names and operators get. |
| C30 | Maximal munch | proved | lexer over characters with byte positions; every lexing function has a run lemma; independent character-class specs | C30_maximal_munch holds for all sources. The additional C30_token_maximal_partial identifies the run with the token's text. |
| C31 | Integer literals denote their decimal value | partial | lexer over characters with byte positions; every lexing function has a run lemma; independent character-class specs | Holds for sources without a line feed directly followed by a carriage return; counterexample C31_integers_wrong otherwise. C31_integer_source covers every digit string as a source. |
| C32 | Whitespace and line comments only separate tokens | partial | lexer over characters with byte positions; every lexing function has a run lemma; independent character-class specs | Holds for sources without a line feed directly followed by a carriage return; counterexample C32_gap_wrong otherwise. |
| C33 | Block comments are skipped exactly | partial | lexer over characters with byte positions; every lexing function has a run lemma; independent character-class specs | The code violates it: the character after a block comment is lost (C33_block_comment_wrong). |
| C34 | String literals decode their escapes | proved | lexer over characters with byte positions; every lexing function has a run lemma; independent character-class specs | For all sources. |
| C35 | Character literals decode and consume exactly their quotes | partial | lexer over characters with byte positions; every lexing function has a run lemma; independent character-class specs | The code violates it for unicode escapes (a character after the closing quote is lost) and for NUL. |
| C36 | Lexing never panics | partial | lexer over characters with byte positions; every lexing function has a run lemma; independent character-class specs | The code violates it for identifiers with an upper-case initial or a leading underscore; C36_panics and C36_panics_partial say exactly when it panics. Holds for sources without a line feed directly followed by a carriage return. |
| C37 | Parsing terminates | proved | recursive-descent parser with fuel over the lexer state; token-level grammar (`ProgToks`, `ExprToks`, ...) as the spec | The model's recursion is bounded by fuel; the theorem says the fuel never runs out and that more does not change the outcome. |
| C38 | Parsed fixity declarations are well-formed | proved | recursive-descent parser with fuel over the lexer state; token-level grammar (`ProgToks`, `ExprToks`, ...) as the spec |  |
| C39 | A precedence outside 0..9 is reported, not fatal | partial | recursive-descent parser with fuel over the lexer state; token-level grammar (`ProgToks`, `ExprToks`, ...) as the spec | The code violates it: it panics (todo!). Proved: such a source is never accepted. |
| C40 | Parser output shape | proved | recursive-descent parser with fuel over the lexer state; token-level grammar (`ProgToks`, `ExprToks`, ...) as the spec |  |
| C41 | Operator chains parse in order | proved | layout grammar over tokens with end columns (`Written`, `WrittenProg`) and a column-free one for single lines (`Line`); soundness and completeness of every parser function against it |  |
| C42 | Lambdas curry | proved | layout grammar over tokens with end columns (`Written`, `WrittenProg`) and a column-free one for single lines (`Line`); soundness and completeness of every parser function against it |  |
| C43 | Only the lexer's panics and the precedence todo can crash the parser | proved | recursive-descent parser with fuel over the lexer state; token-level grammar (`ProgToks`, `ExprToks`, ...) as the spec |  |
| C44 | Printing does not depend on the fixity table | proved | printer as a function to text with its parenthesis stack |  |
| C45 | Printing never hits an unimplemented case | proved | printer as a function to text with its parenthesis stack |  |
| C46 | Printed text shows the grouping | partial | `Has`/`ReadsAs`: the tokens of the printed text; these tokens are a `Line` (the grammar C81 proves complete) for the expression with the printed parentheses; that one is grouped whatever the fixities | The code violates it for operators in parentheses that are names, operators of one character, applied lambdas, some patterns, characters that are not printable, and it does not print let declarations. Proved for all other expressions, and for what is printed for sources in which no lambda or let is applied, which includes all sources on one line. |
| C47 | Parentheses printed are balanced and colour-matched | partial | printer as a function to text with its parenthesis stack | The code violates it for an operator whose name is a bracket (an apostrophe, a bracket and a space). Proved for expressions whose names contain no bracket or escape character, and for sources that only have such names. |
| C48 | Styled output is well-formed | proved | colour and style code on bounded integers; a terminal (SGR) semantics as the spec | Against a terminal (SGR) semantics, for texts without escape characters; C48_framed holds for every text. C48_pen_partial additionally identifies the selected pen. |
| C49 | Fixity listing is complete | proved | printer as a function to text with its parenthesis stack | What is sent to the terminal is determined for every table; what the terminal shows, for operator names without escape characters. |
| C50 | Blank lines are ignored | proved | `run_repl`/`read_command` as a step function with a list of effects; files, processes and the line editor are parameters (`World`); spec vocabulary `Says`, `Ends`, `Continues`, `Block`, `Words` |  |
| C51 | Continuation lines accumulate the input | proved | `run_repl`/`read_command` as a step function with a list of effects; files, processes and the line editor are parameters (`World`); spec vocabulary `Says`, `Ends`, `Continues`, `Block`, `Words` |  |
| C52 | Commands are refused in the middle of a multi-line input | proved | `run_repl`/`read_command` as a step function with a list of effects; files, processes and the line editor are parameters (`World`); spec vocabulary `Says`, `Ends`, `Continues`, `Block`, `Words` |  |
| C53 | Only quitting ends the session | proved | `run_repl`/`read_command` as a step function with a list of effects; files, processes and the line editor are parameters (`World`); spec vocabulary `Says`, `Ends`, `Continues`, `Block`, `Words` |  |
| C54 | Only the commands that say so change fixities | proved | `run_repl`/`read_command` as a step function with a list of effects; files, processes and the line editor are parameters (`World`); spec vocabulary `Says`, `Ends`, `Continues`, `Block`, `Words` |  |
| C55 | Only the first declaration of an input is echoed | proved | `run_repl`/`read_command` as a step function with a list of effects; files, processes and the line editor are parameters (`World`); spec vocabulary `Says`, `Ends`, `Continues`, `Block`, `Words` |  |
| C56 | Brace-delimited input | partial | `run_repl`/`read_command` as a step function with a list of effects; files, processes and the line editor are parameters (`World`); spec vocabulary `Says`, `Ends`, `Continues`, `Block`, `Words` | The code violates it for blocks of several lines: any line ends the block, and its closing brace is kept. |
| C57 | Loading a Haskell file loads its fixity declarations | partial | `run_repl`/`read_command` as a step function with a list of effects; files, processes and the line editor are parameters (`World`); spec vocabulary `Says`, `Ends`, `Continues`, `Block`, `Words` | The code violates it: the lines are concatenated without separators. Proved: exactly these lines are fed, as one input. |
| C58 | `:load "path"` strips the quotes | partial | `run_repl`/`read_command` as a step function with a list of effects; files, processes and the line editor are parameters (`World`); spec vocabulary `Says`, `Ends`, `Continues`, `Block`, `Words` | The code violates it for every quoted path: the closing quote is kept. |
| C59 | `:info` reports exactly the requested operators | proved | `run_repl`/`read_command` as a step function with a list of effects; files, processes and the line editor are parameters (`World`); spec vocabulary `Says`, `Ends`, `Continues`, `Block`, `Words` | As for C49. |
| C60 | Hex colours round-trip | proved | colour and style code on bounded integers; a terminal (SGR) semantics as the spec |  |
| C61 | Rainbow colours cycle with period seven | partial | colour and style code on bounded integers; a terminal (SGR) semantics as the spec | Proved for all counters that do not wrap around; C61_wrap_breaks_period shows the period breaks when the usize counter wraps. |
| C62 | Brightening and adjusting act per channel | partial | colour and style code on bounded integers; a terminal (SGR) semantics as the spec | The code violates it for blue and green (C62_blue_wrong). |
| C63 | Background setters set the background | partial | colour and style code on bounded integers; a terminal (SGR) semantics as the spec | The code violates it for palette colours: the foreground is set instead. |
| C64 | Style flags are independent | proved | colour and style code on bounded integers; a terminal (SGR) semantics as the spec |  |
| C65 | Word-prefix test | proved | text helpers; induction |  |
| C66 | strip_prefix removes exactly the first word | partial | text helpers; induction | The code is wrong with leading whitespace (counterexample). C66_exactly says what it does for all texts. |
| C67 | Digit count | proved | text helpers; induction |  |
| C68 | Reporting a parse error never crashes | partial | `Display` of errors with the `todo!` as an explicit panic | The code violates it for the empty character literal. Proved: it panics exactly when the error is about one. |
| C69 | Source spans are ordered and inside the text | proved | lexer over characters with byte positions; every lexing function has a run lemma; independent character-class specs |  |
| C70 | Layout rule | proved | layout grammar over tokens with end columns (`Written`, `WrittenProg`) and a column-free one for single lines (`Line`); soundness and completeness of every parser function against it |  |
| C71 | A promoted operator names the same operator however it is written | partial | lexer over characters with byte positions; every lexing function has a run lemma; independent character-class specs | The code violates it for one-character names after an apostrophe. Proved: exactly what happens to them, and all other names (sources without a line feed directly followed by a carriage return). |
| C72 | A token's span covers the whole token | partial | lexer over characters with byte positions; every lexing function has a run lemma; independent character-class specs | The code violates it for string literals with an escaped newline; C72_string_span_partial says what the span of a string literal is, exactly. |
| C73 | The parser follows the grammar | proved | recursive-descent parser with fuel over the lexer state; token-level grammar (`ProgToks`, `ExprToks`, ...) as the spec |  |
| C74 | Only well-formed names become tokens | partial | lexer over characters with byte positions; every lexing function has a run lemma; independent character-class specs | Holds for sources without a line feed directly followed by a carriage return; the code violates it otherwise. A promoted name of one character may have taken in the whitespace after it (C71). |
| C75 | Quitting saves the history | proved | `run_repl`/`read_command` as a step function with a list of effects; files, processes and the line editor are parameters (`World`); spec vocabulary `Says`, `Ends`, `Continues`, `Block`, `Words` |  |
| C76 | History commands do what they report | partial | `run_repl`/`read_command` as a step function with a list of effects; files, processes and the line editor are parameters (`World`); spec vocabulary `Says`, `Ends`, `Continues`, `Block`, `Words` | The code violates it: `--save <path>` reports another file than the one written. |
| C77 | Unknown commands are harmless | proved | `run_repl`/`read_command` as a step function with a list of effects; files, processes and the line editor are parameters (`World`); spec vocabulary `Says`, `Ends`, `Continues`, `Block`, `Words` |  |
| C78 | The prompt tells whether input is pending | partial | `run_repl`/`read_command` as a step function with a list of effects; files, processes and the line editor are parameters (`World`); spec vocabulary `Says`, `Ends`, `Continues`, `Block`, `Words` | The code violates it in both directions. Proved: what every line does to the prompt. |
| C79 | A session can always be started | proved | `run_repl`/`read_command` as a step function with a list of effects; files, processes and the line editor are parameters (`World`); spec vocabulary `Says`, `Ends`, `Continues`, `Block`, `Words` |  |
| C80 | The fixity table of a session is well-formed | proved | `run_repl`/`read_command` as a step function with a list of effects; files, processes and the line editor are parameters (`World`); spec vocabulary `Says`, `Ends`, `Continues`, `Block`, `Words` |  |
| C81 | The parser accepts exactly the grammar | proved | layout grammar over tokens with end columns (`Written`, `WrittenProg`) and a column-free one for single lines (`Line`); soundness and completeness of every parser function against it |  |
| C82 | Only the operators decide the grouping | proved | operator trees with shape, mirror image and concatenation of chains (`Spec/Chains`); from the soundness, completeness and clash theorems for `Fixities::rewrite` |  |
| C83 | Grouping is symmetric | proved | operator trees with shape, mirror image and concatenation of chains (`Spec/Chains`); from the soundness, completeness and clash theorems for `Fixities::rewrite` |  |
| C84 | The loosest operator splits the chain | proved | operator trees with shape, mirror image and concatenation of chains (`Spec/Chains`); from the soundness, completeness and clash theorems for `Fixities::rewrite` |  |
| C85 | Chains of one precedence | proved | operator trees with shape, mirror image and concatenation of chains (`Spec/Chains`); from the soundness, completeness and clash theorems for `Fixities::rewrite` |  |
| C86 | Parentheses override fixities | proved | operator trees with shape, mirror image and concatenation of chains (`Spec/Chains`); from the soundness, completeness and clash theorems for `Fixities::rewrite` |  |
| C87 | From the keyboard to the screen | proved | source grammar `Line`, unique regrouping `Grouped`, shown text `Expr.printed` (`Spec/Echo`); composition of C81, C10, C15, C55 and the printer lemmas | For histories in which no `let` declares an operator twice (see C15) and names without brackets or escape characters. |
| C88 | Composed styles | proved | composed values as trees `Doc` (`Model/Compose`); `Doc.drawn`/`Doc.expected` say what is seen (`Spec/Compose`); induction over the tree with the terminal semantics of C48 | For parts whose texts contain no escape character. |
| C89 | Appended text has the style it is appended to | partial | composed values as trees `Doc` (`Model/Compose`); `Doc.drawn`/`Doc.expected` say what is seen (`Spec/Compose`); induction over the tree with the terminal semantics of C48 | The code violates it: text that follows a styled part inside an outer style is drawn without any style. Proved for all values where, inside a style, nothing follows a styled part. |
| C90 | Format codes | proved | composed values as trees `Doc` (`Model/Compose`); `Doc.drawn`/`Doc.expected` say what is seen (`Spec/Compose`); induction over the tree with the terminal semantics of C48 |  |
| C91 | Highlighting is a foreground colour | proved | composed values as trees `Doc` (`Model/Compose`); `Doc.drawn`/`Doc.expected` say what is seen (`Spec/Compose`); induction over the tree with the terminal semantics of C48 |  |
| C92 | Symbols compare like their texts | proved | symbols over the interner model of C21; what is fed to a hasher as lists of bytes | For fewer than 2^32 distinct texts. |
| C93 | Symbols hash like their texts | partial | symbols over the interner model of C21; what is fed to a hasher as lists of bytes | The code violates it: the number is hashed, not the text. Proved: symbols hash alike iff they are equal. |
| C94 | The text of a fractional literal denotes it | partial | grammar of the texts `parse::<f64>` accepts with the number denoted (`Spec/RustFloat`) | The code violates it for every non-zero exponent (no `e` is written). Proved for exponent zero. |
| C95 | The lexer reads exactly the lexical grammar | proved | the lexical grammar `TokenAt`/`Tokenizes` (`Spec/LexGrammar`) is independent of the lexer: spellings, what may follow, what is skipped; both directions by the position-free lexer `TLex`, then C81; for every source, the grammar `Reading`/`TokenIn` (`Spec/AnySource`) adds the column at which a spelling is looked up, proved through the lexer `GLex` over source and rest; `C95_agrees` shows that both grammars are the same where no carriage return follows a line feed |  |
| C96 | From characters to syntax trees | proved | the lexical grammar `TokenAt`/`Tokenizes` (`Spec/LexGrammar`) is independent of the lexer: spellings, what may follow, what is skipped; both directions by the position-free lexer `TLex`, then C81; for every source, the grammar `Reading`/`TokenIn` (`Spec/AnySource`) adds the column at which a spelling is looked up, proved through the lexer `GLex` over source and rest; `C95_agrees` shows that both grammars are the same where no carriage return follows a line feed |  |
| C97 | Exactly which syntax trees can be written | proved | predicates `Expressible` on trees (`Spec/Expressible`); trees are turned into tokens and these into a line with a blank after every token; the other way by induction over the grammars; for several lines every token gets a line of its own, indented such that it ends at the column the layout grammar asks for |  |
| C98 | The first clash is the one reported | proved | `FirstClash`, the rules `Resolves` and `Outermost` (`Spec/Clashes`) do not mention the resolver; the loop is simulated by the machine of C01, which stops at the first clash; the traversal follows the rules by induction on size, and the rules are functional |  |
| C99 | The outcome of resolving, exactly | partial | `FirstClash`, the rules `Resolves` and `Outermost` (`Spec/Clashes`) do not mention the resolver; the loop is simulated by the machine of C01, which stops at the first clash; the traversal follows the rules by induction on size, and the rules are functional | Proved for expressions in which no `let` names an operator twice; the code violates it otherwise (see C11). |
| C100 | Every ambiguous chain is reported | partial | `FirstClash`, the rules `Resolves` and `Outermost` (`Spec/Clashes`) do not mention the resolver; the loop is simulated by the machine of C01, which stops at the first clash; the traversal follows the rules by induction on size, and the rules are functional | The code violates it: the operands of an ambiguous chain are not looked at. Proved: exactly the chains not inside another ambiguous chain are reported. |
| C101 | Patterns can be written wherever patterns are expected | partial | from the grammars of C81/C96: `Heads` (what follows a lambda or a fixity keyword) and `Matched` (`Spec/Spellings`) by induction over the layout grammar; acceptance by building derivations of the one-line grammar | The code violates it: no program with `\()`, `\[]` (unless another `]` follows) or a literal after a lambda is accepted, and as an element of a list a negated pattern loses its sign. Proved: negation in parentheses, lists and tuples that are not empty, and the empty list with a doubled bracket. |
| C102 | `-` and `@` are operators like all others | partial | from the grammars of C81/C96: `Heads` (what follows a lambda or a fixity keyword) and `Matched` (`Spec/Spellings`) by induction over the layout grammar; acceptance by building derivations of the one-line grammar | The code violates it: no program declares them without precedence or starts with one in parentheses. Proved: declaration with precedence and use between operands. |
| C103 | List elements are separated by commas | partial | from the grammars of C81/C96: `Heads` (what follows a lambda or a fixity keyword) and `Matched` (`Spec/Spellings`) by induction over the layout grammar; acceptance by building derivations of the one-line grammar | The code violates it: a comma after the last element is accepted, and none is needed before a lambda or `let`, nor before an element on a new line that is not indented enough to be an argument. Proved: these are the only deviations, on one line (C103_exactly_partial) and for every source (C103_lines_partial). |
| C104 | Brackets match in accepted programs | partial | from the grammars of C81/C96: `Heads` (what follows a lambda or a fixity keyword) and `Matched` (`Spec/Spellings`) by induction over the layout grammar; acceptance by building derivations of the one-line grammar | The code violates it: the empty list pattern needs two closing brackets. Proved: that is the only deviation. |
| C105 | An operator equals the identifiers it stands for | partial | case analysis; the iterator by C25 | The code violates it: a promoted and a symbolic operator with the same text are equal but equal different identifiers. Proved for operators of the same kind; the rest is proved in full. |
| C106 | The text of an identifier | partial | the loop writing into the buffer keeps `done ++ rest`, by induction; addresses are never reused, so a freed one stays dead under any later allocations | The code violates it: it panics on every identifier but `[]`. |
| C107 | AST iterators know their length | partial | case analysis; the iterator by C25 | The code violates it: `ExactSizeIterator::len` always panics, because `size_hint` is not overridden. The iterators' own `len` is proved right. |
| C108 | Interning through the interner | partial | the `RefCell` flag and the lexicon follow the list of interned texts, by induction over the calls; then C21 | The code violates it: interning a symbol as a string always panics, because the interner is already mutably borrowed. The rest is proved (up to 2^32 distinct texts). |
| C109 | Texts built from characters | partial | the loop writing into the buffer keeps `done ++ rest`, by induction; addresses are never reused, so a freed one stays dead under any later allocations | The code violates it: the bytes are right, but the reference returned dangles for every text that is not empty. |
| C110 | The end of input is not a character | partial | the loop writing into the buffer keeps `done ++ rest`, by induction; addresses are never reused, so a freed one stays dead under any later allocations | The code violates it: `Char::Eof == '\0'`, and its length is 1 although its text is empty. Proved for all other characters. |
| C111 | Whitespace and comments do not matter | partial | `Placed` (`Spec/Placed`) is the lexical grammar with columns; texts are cut at whitespace and semicolons (`Lemmas/Join`), programs at semicolons by induction over the grammars of C81 | The code violates it: a blank after a promoted name of one character becomes part of it, a comment removes a character of what follows, and a character given by its code moves by a column if whitespace follows. Indentation matters, as intended. Proved: one-line texts with the same tokens are read alike; whitespace before a text does not matter, nor does whitespace or a comment between two parts of a line or at its end, unless a promoted name of one character stands before it, nor whitespace and blank lines at the end of a text or of any of its lines, unless that or a character given by its code stands before it. |
| C112 | A semicolon joins two programs | partial | `Placed` (`Spec/Placed`) is the lexical grammar with columns; texts are cut at whitespace and semicolons (`Lemmas/Join`), programs at semicolons by induction over the grammars of C81 | The code violates it: a comment or character code at the end of the first program swallows the semicolon. Proved for first programs that do not end in one, and have no two tildes on their last line; the second one is arbitrary. |
| C113 | A listing of fixities can be read back | partial | the listing of C49 is derived by the grammars of C96; the fixities by C15 | The code violates it: names of one character and names whose second character is an apostrophe are listed so that they are not read back. Proved for all other operators. |
| C114 | A parse error names the offending token and its place | partial | Every parsing function only consumes tokens and stops at the token it names (`Lemmas/Local`); what was consumed are the first items of the source (`Lemmas/Prefix`). | The code violates it: the location can be the end of the token before the one that is named, even on an earlier line. Proved: the token is the right one and the location is the end of that token or of the one before it. |
| C115 | Parse errors are about the first token that cannot be right | proved | By induction over the parsing functions: what was consumed when a function fails can be completed to what the function reads (`Lemmas/Viable`, in terms of the grammar with columns), and its outcome depends only on the tokens it has seen (`Lemmas/Local`); tokens are then completed to texts (`Lemmas/Prefix`). | For all sources, in terms of the tokens and the places where they end; C163 is the statement about texts. |
| C116 | Spans cover the text of their token | partial | a token starts where the lexer has skipped whitespace and comments; from C28 both ends are byte positions of prefixes of the source; no token is empty by C26 | The code violates it after a line feed directly followed by a carriage return. Proved for all other sources. |
| C117 | The end of the tokens | proved | a token starts where the lexer has skipped whitespace and comments; from C28 both ends are byte positions of prefixes of the source; no token is empty by C26 |  |
| C118 | Displayed positions tell positions apart | proved | decimal numbers followed by a character that is not a digit can be told apart |  |
| C119 | The texts of colours | proved | decimal numbers followed by a character that is not a digit can be told apart |  |
| C120 | Removing the last entries of a table | partial | induction over the number; from the lemmas on tables of C13/C17 and that loading declarations twice is loading them once | The code violates it: the entries come last first (`rev` calls the closure from the back, which pops too). Everything else is proved. |
| C121 | Adding a fixity; resolving a program or a chain on its own | proved | induction over the number; from the lemmas on tables of C13/C17 and that loading declarations twice is loading them once |  |
| C122 | Digits and number prefixes | proved | by cases; characters below 128 (a finite set) by computation, the others because no digit is among them |  |
| C123 | Lengths of identifiers | proved | by cases; characters below 128 (a finite set) by computation, the others because no digit is among them |  |
| C124 | What a session starts with | proved | by cases; characters below 128 (a finite set) by computation, the others because no digit is among them |  |
| C125 | Uninstalling removes the history and nothing else | partial | the directory as the list of its entries; the loop deletes exactly the entries with the name, by induction | The code violates it: in the current directory it looks for `.pemdas_history`, but sessions use `.history` there. Proved for all other directories. |
| C126 | Directories and programs | partial | the command a line gives is determined by its first word; then by computation; the lines of the help text are a finite list | All but the last sentence is proved. That sentence fails: the message for `:shell` without program offers `:sh`, which is not a command. |
| C127 | The help text is right | partial | the command a line gives is determined by its first word; then by computation; the lines of the help text are a finite list | The code violates it: the help text announces `:save`, which is not a command, and `--fixities history`, which is refused. Proved: it announces every command, and no other word than `:save`. |
| C128 | What loading reports | partial | the command a line gives is determined by its first word; then by computation; the lines of the help text are a finite list | Everything is proved except that the numbers are right: for a file, declarations are counted, not fixities (for the prelude see C19). |
| C129 | Options that are not known are refused | partial | the command a line gives is determined by its first word; then by computation; the lines of the help text are a finite list | The code violates it: an unknown option of `:history` that begins with `--set`, such as `--settings`, is taken for `--set` with the path `tings`. Every other unknown option of the two commands is proved to be refused. |
| C130 | What is reported for a rejected input | partial | messages are compared with interpolated strings (`Spec/Wording.lean`); numbers, names and places are separated by characters they do not contain | The code violates it for inputs with an empty character literal: the program crashes where it should report them (C130_empty_wrong, see C68). Proved for all other rejected inputs. |
| C131 | Lexical error messages tell errors apart | proved | messages are compared with interpolated strings (`Spec/Wording.lean`); numbers, names and places are separated by characters they do not contain | Displaying the error for an empty character literal panics (C68). |
| C132 | Trouble is reported and survived | proved | by cases |  |
| C133 | The classes of characters | proved | lists of characters; numeric bounds one way, computation over the list the other | Letters and the like are what Rust's tables say (parameters with laws, see above). |
| C134 | Names do not matter to resolving | proved | every function of the resolver commutes with renaming (`Spec/Rename`), by induction over its recursion | C134_faithful_needed shows that different operators have to stay different. |
| C135 | Quoted texts can be told apart | proved | `Quoted` (`Spec/Quoted`) says what quoted text stands for; it is functional because escapes end where they should | Fractional literals are C94. |
| C136 | The order of declarations and the prompt are for show | proved | a simulation: every operation on tables preserves being a permutation (`TableSim`), so does every function of the resolver and the session; exchanging by commuting insertions | What a listing shows of a table is C49. |
| C137 | Counters do not overflow | proved | `Model/Words` has the loops with checked additions; the location of a prefix is bounded by its length (C28) | The bound on the size is part of the statement; C137_long_line shows that some bound is needed. |
| C138 | The grammar in the README | partial | the EBNF of the README as an inductive predicate on tokens (`Spec/Readme`); two inductions over derivations, to and from the grammar of C96 | The code violates it: `(-)`, `infixl -` and `(f \x -> x + y)` are derived by the grammar but rejected, `()` and `[]` accepted but not derived, and line breaks, which the grammar does not mention, matter. Proved for all inputs of one line without the places listed by `Readme.Odd`. |
| C139 | Unicode escapes in strings and characters | partial | the string loop on an escaped text; characters by C35 | The code violates it for every escape in a string: only the backslash is dropped. Proved for character literals. |
| C140 | The lexical syntax in the README | partial | the README's character classes are listed (`Spec/ReadmeLex`); derivations in the lexical grammar of C95, then C96 | The code violates it: the operators `\` and `->` cannot be used or declared, `(-)` and `(@)` are rejected, names that begin with `_` or an upper-case letter are not read. Proved for everything else. |
| C141 | Matchers | partial | `Model/Match`; case analysis on the first word (C65); the byte slice characterised as in C66 | The code violates it for texts with leading whitespace (C66_leading_whitespace); C141_strip_prefix_exact says what it does for all texts. |
| C142 | Visitors reach everything once and in order | proved | `Model/Visitors`: a visitor is any function satisfying its method's equation; induction on the size of expressions; lists of subexpressions as specification | A visitor is given by the equation its method satisfies; visitors that do not return are not modelled. |
| C143 | Printers can be used again | proved | from the computation of the output by the depth of the stack (C44, C45) | An expression with a negation panics (C45). |
| C144 | Texts from bytes | proved | Lean's lemmas about UTF-8 | `std::str::from_utf8` is Lean's decoder of UTF-8. |
| C145 | Failures while a styled value is written | partial | formatting is modelled as a strategy that answers to a writer (`Writing`); induction on values and strategies, run on the terminal of `Spec/Terminal.lean` | Violated by `Debug` wrappers shown with `{}`: if the item fails, the reset sequence is not written (C145_reset_wrong). |
| C146 | Formatter options reach the items | partial | from C145; `Formatter::pad` of the standard library is modelled for strings | Violated by `Debug` wrappers shown with `{}`, which ignore all options, and by `And` and `Then`, whose parts are padded one by one. |
| C147 | The order of colours | proved | arithmetic on channels |  |
| C148 | Windows line ends | partial | the tokens and columns of a text of lines are those of its lines, whichever line end (induction over the derivation in the lexical grammar, with comments and the characters they swallow), then C96; C29 for all sources by following the recorded positions | The code violates it: after an empty line, names and operators have the text of what stands one byte before them (C29_shifted), and a character given by its code loses the line end after it. Proved for texts without empty lines all of whose lines consist of whole tokens and end neither in such a character nor in a promoted name of one character. |
| C149 | Exactly what is printed | proved | the printer writes the pieces of `Lemmas/Printer`, and these are the characters and colours of the rules in `Spec/Drawn` (structural induction over expressions and patterns); the terminal model gives what is seen | Expressions with negations, which the parser does not build, are not printed (C45). |
| C150 | The answer to every input | partial | C99 for whole inputs under the fixities that C15 and C13 give, then C55, C130 and C149 for what is written | Inputs and histories in which a `let` names an operator twice are excluded: the code violates it there (C150_answer_wrong, C99_exact_wrong). What is answered there is C152. |
| C151 | Symbols in other threads | partial | the interner of a thread holds the different texts of its history in order (`Lemmas/Lexicon`); two threads have two histories | The code violates it: every thread has its own interner. Proved for predefined symbols and for threads that intern the same texts in the same order; C151_across says exactly when it holds. |
| C152 | What an input leaves behind | proved | rules `Becomes` and `Leaves` (`Spec/Becomes`, `Props/Becomes`) that thread the fixities through the expressions; they determine their result, and every visit follows them (`Lemmas/Becomes`) | Describes also what C11, C14, C15, C99 and C150 exclude. |
| C153 | Styling methods do what they are called | partial | the table of methods that the macro generates; the specification reads their names (`Spec/Paint`); a terminal (`Spec/Terminal`) shows the result | The code violates it: `reset_fg` and `reset_bg` reset everything, and backgrounds of the palette become foregrounds. C153_seen says for every sequence of methods what is shown. |
| C154 | Exactly which sources crash the parser | proved | the parser is run on the source and on the source cut off after the tokens (`Lemmas/CrashText`); a keyword followed by a large integer is never consumed (`Lemmas/Crash`); continuations as for C115 | C154_exact is for sources without a carriage return directly after a line feed; C154_lexer and C154_precedence are for every source. |
| C155 | Exactly which inputs crash a session | proved | C154 in terms of the text that is left after the tokens (`Lemmas/CrashText`), and C68; the session by cases over the lines (`Lemmas/SessionCrash`) | C155_text and C155_line are for texts without a carriage return directly after a line feed, C155_run for sessions into which none is typed and whose loaded files have none directly after a line feed; C155_session is for all. |
| C156 | Changing declarations through iter_mut | proved | the iterator that has some of the declarations left, and the references to them, as functions of the declarations before (`Lemmas/IterMut`); induction on the sequence of calls; the specification changes a list from its ends (`Spec/IterMut`) | A reference is modelled by the vector and the index it points to; that references given out at the same time do not overlap is part of C156_references. |
| C157 | Which fixities are listed, and in which order | proved | the operators left by the undoing of a `let`, by induction on its operators with those undone so far as a parameter (`Lemmas/Ledger`); then induction over the resolver as for C152, and on histories | The rules are `Turns` and `Ledger.afterLet` (Spec/Ledger) and `Books` (Props/Ledger); C157_ledger says that they determine the table after every history, entry by entry. |
| C158 | Exactly what a session does | proved | every rule is checked against the loop and the commands (`Lemmas/Desk`); that no line is forgotten by cases on the line as in C44 and on the command word as in C129; sessions by induction on what the line editor returns | The rules are `Does`, `Sits` and `Keeps` (Spec/Desk). They read inputs with `parse`, which has its own properties, and turn them with the rules of C157; `Session.helpMsg` stands for the help text. Which lines crash is C155. |
| C159 | What has happened when the program crashes | proved | the traced model agrees with the other one, function by function (`Lemmas/Trace`); that the message about an empty character literal is begun and how far from C68; files and sessions by induction | Modelled in `Model/Trace`, which C159_same shows to agree with `Model/Session`. The report of the panic itself, which the standard library writes, is not modelled. |
| C160 | What parse_expr reads | proved | as for C115 and C154: the parser looks at no token twice and at one token after those it eats (`Lemmas/Local`, `Lemmas/ExprPrefix`); the text up to that token is cut off (`Lemmas/CutAfter`, for all sources, by the grammar of C29) and C81_expression and the completions of C115 are applied to it; if that token is an error the parser does not look further | C160_local, C160_accepts and C160_first_bad_token are for all sources; C160_panics has the hypothesis named in the quantifier. What texts can be completed to is C163. |
| C161 | Only the order of columns matters | proved | `Spec/Swap`: relations between tokens, syntax trees and columns; the layout grammar of C81 is shown to be closed under them (`Lemmas/SwapLayout`), and C81 says that parsing is that grammar; C161 is C162 with nothing replaced; for indentation the tokens of the indented text are those of the text, ending further right (`Lemmas/Join`); with resolving by C134 | C161_order_needed is a witness that the order does matter. Where a token ends is what the parser compares (C114). |
| C162 | Names and literals do not matter to parsing | proved | `Spec/Swap`: relations between tokens, syntax trees and columns; the layout grammar of C81 is shown to be closed under them (`Lemmas/SwapLayout`), and C81 says that parsing is that grammar; C161 is C162 with nothing replaced; for indentation the tokens of the indented text are those of the text, ending further right (`Lemmas/Join`); with resolving by C134 | That texts are read as tokens is C29/C95; C162_integers_needed is a witness that integers do matter. |
| C163 | What comes before a parse error can be completed | partial | the completions of C115 and C160, which are tokens, are written out as text after the text of the tokens read (`Lemmas/Prefix`, `viable_text`); this needs that the text up to the end of a token is read as that token also if nothing follows | Missing: sources with a carriage return directly after a line feed (the lexer then looks up words in the wrong place, and whether such a text can always be completed is not settled here), and sources that end too early in a character given by its code. |
| C164 | Expressions are grouped the way they are calculated | partial | `Spec/School` calculates from the tokens, without grouping; after the levels above p the line is the one in which only operators up to level p are visible and the parts of the grouped expression below them have been worked out (`Lemmas/School`, `level_flat`) | The code violates it after a let that names an operator twice. Proved for everything in which no let does. |
| C165 | Fixities are resolved as in Haskell | partial | `Spec/Haskell` transcribes the algorithm of the report (recursive descent, whereas the code keeps two stacks); what it returns is grouped well, and if it returns nothing then operators clash (`Lemmas/Haskell`, `run_spec`); C02 and C03 do the rest | C165_chain and C165_refused are for all chains. For whole expressions the code violates it after a let that names an operator twice; proved for all in which no let does. |
| C166 | A session does only what it is told | proved | `Spec/Confined` lists for every kind of effect the lines that allow it; by the rules of C158 and C159, line by line, keeping where the history is | For whole programs, panics included. Writing to the screen is always allowed; what is written is the matter of C158 and C159. |
| C167 | What inputs and files contain cannot change how the terminal shows text | partial | the terminal of C47 and C89 receives what is written; texts are split into parts without escape characters and painted parts; which characters tokens can have is C116 and the grammar of tokens; sessions by the rules of C158 and C159 | The code violates it: the message about a wrong name between backticks repeats what stands there as it is, and after a line feed directly followed by a carriage return names are taken from the wrong place. Proved for all sources without escape characters, and for those with escape characters that have neither. What a program started with `:shell` writes is its own affair. |
| C168 | Resolving takes at most quadratic work | proved | `Model/Cost` is the resolver once more, with the comparisons and the copies counted; `C168_counted` shows that the results are those of `Model/Fixity`; the bound by induction over the tree, the numbers for chains exactly | Counted are calls of `Rule::from_fixities` and nodes made by `expr.clone()`; not lookups in the table, nor what is inside nodes. |
| C169 | Interned texts are kept once, in proportionate memory | proved | on the heap model of C24: each buffer is a power of two at least twice as large as the one before, and it was needed for the texts kept | C169_memory and C169_interner assume that `String::with_capacity(n)` provides exactly n bytes; the other two hold whatever it provides. |
| C170 | What is listed decides what is answered | partial | the listing is read back: names from a source cannot contain what separates them (`Lemmas/ListingUnique`, `listing_unique`), so the tables are equal up to order, which by C136 no answer depends on | False for the order in which lines are listed later, and after a carriage return directly behind a line feed, by which one operator can be listed like two. Proved for all other inputs. |
| C171 | Lines are read one by one | partial | the tokens of a line are the same wherever the line stands, only further down (`Lemmas/Laid`, `Lemmas/Lines`), so the text is written by the grammar with columns of C96 (`each_written`); the columns of two lines meet only where a line may be continued; `C171_lines_wrong` shows two lines that are continued though they begin in the same column. For `C171_fed` the declarations are loaded one after the other, and loading twice is loading once | False if a line is an expression and the first word of the next line is longer than its own first word: it is then read as an argument. Proved for lines for which that is not so, and for fixity declarations without that condition. Missing as well: lines that end in a character given by its code or in a promoted name of one character, which swallow the line end. |
| C172 | The answer can be typed in | partial | what is drawn (C149) is read as the expression with the parentheses that are shown (C46), which the resolver leaves alone (C05); its drawing is compared with that of the expression (`shown_parts`), and its first and last characters decide how the session takes the line (`Upright`) | False for lambdas in operands, which get one more pair of parentheses each time, and for lambdas in a `let` in a lambda. C172_grouping says for all expressions that can be read back that only that differs: names, literals, operators and grouping are those of the answer. |
| C173 | Answers are in proportion to what is typed | proved | a weight of expressions that no regrouping changes (`Expr.room`, along the rules of C152) is at least that of the drawing (C149), in which a coloured character counts as often as its escape sequences are long, and of the error messages; it is at most that of the tokens (along the grammar of C81, `Written.weight`), and this is at most a multiple of the length of the source (along the lexical grammar of C95, `Reading.weight`); messages about what cannot be parsed: the text of each token is bounded along the sub-lexers (`lex_brief`), with the slices it takes over and the positions it names (`Lexer.Within`) | C173_every is about every input that a line completes; where the program panics, nothing is sent by it (the message of the panic is not modelled). |
| C174 | What is shown for an operator tells which operator it is | partial | the kinds of tokens (C74): a symbolic operator starts with an operator character, so its text cannot be that of a promoted one; the counterexample is a parsed program | The code violates it for sources with a carriage return directly behind a line feed, where the text looked up for an operator is not the one that was read: a symbolic operator can then be named `'+`. Proved for all other sources, and what is shown for every operator. |
| C175 | What stands between two operators decides which is applied first | proved | in a well-grouped tree (C01) all operators in an operand may stand under the operator on that side, and two operators cannot each stand under the other (`over_iff`); the relation has at most one tree (`over_ext`); the other statements follow from it, or from C02 for the tree with the part exchanged | About single chains, like C01; C09 is about whole expressions. |
| C176 | Looking ahead does not change what is read | partial | `Lexer.taken` is what a list of calls hands over, `Call.plain` the same calls with `next` only; by induction on the calls, with a second statement for a lexer that holds a token (`taken_plain`). That the parser bumps only what it has looked at is part of `Eats` (C73). | Without the care named in the statement it is false: `next` ignores the token that was looked at, `bump` does not read one. The parser takes this care. |
| C177 | Which groupings can be declared | proved | a grouping that respects the fixities (C01) has its levels below the bound (`rungs_le`); conversely fixities are chosen from the outermost operator inwards (`plan_exists`) and loaded (`get_decls`). At most half the operators, rounded up, are levels (`rungs_sum`); trees that alternate sides need that many (`zigzag`). An expression and its operands determine the grouping (`toExpr_injective`). | About single chains, like C01; C09 is about whole expressions. |
| C178 | Chains of two operators tell everything | proved | a chain of two operators is grouped to a side exactly if the one operator may stand under the other there (`pair_left`, `pair_right`); these relations determine the order of precedences and the associativities, which by C07 determine all groupings. | About single chains, like C01; C09 is about whole expressions. |
| C179 | Entering inputs again | partial | an input leaves the table with its declarations loaded (C14), and loading them again changes nothing, the order of entries included (C13); what is answered depends on the loaded table only (`readBuffer_leaves`). Lists by induction; whether a line crashes the session does not depend on the fixities (C155). | False for inputs with a `let` that names an operator twice (`C179_again_wrong`). The lists of lines are without commands. |
| C180 | Only the order of declared precedences matters to whole programs | proved | A replacement of numbers is applied to declarations, expressions, tables and errors (Spec/Renumber.lean). Each function of the resolver commutes with it as long as all numbers are among those whose order is kept, which is an invariant (Lemmas/Renumber.lean). | C180_programs commutes the whole of resolving with the replacement; C180_next shows that no other numbers get into the table; C180_nine_needed shows that the hypothesis about 9 is needed. |
| C181 | Mapping, lifting and printing styled values | proved | `Model/StyleMap` with functions that hand on a state; laws by unfolding, printing by induction on what is written. | C181_options_lost: the shorthand display_fmt of pairs writes with a new formatter and loses the options, unlike fmt_display of styles. |
| C182 | Formats as units, variants and numbers | proved | The unit structs are a family of one-element types indexed by the format (`Model/StyleMap`), each method by cases as the macro expands; cases. | The comparisons between units and numbers and between units and formats are the same in both directions in the code. |
| C183 | Redundant parentheses do not change the answer | partial | Parentheses are put around one operand at a time, anywhere in the result (`Spec/Redundant`); the input with parentheses is any one that the parser reads as the tokens of that. Parentheses only take conditions away from being grouped, so uniqueness of the grouping (C10) gives the result; its drawing (C149) is the same. Conversely, what is shown determines the skeleton (C46), and an expression is given by its skeleton and its tokens: operators are counted through parentheses to find the outermost one. | False for inputs with a `let` that names an operator twice: the fixities that it leaves behind apply to what stands in parentheses to the right of it, but not to the same without parentheses, which has been grouped before (C183_let_wrong). Proved for all other inputs. That other parentheses change the answer is proved for expressions whose texts can be read back (as in C46). Parentheses around bodies of lambdas, arguments and elements are not meant: they are always shown. |
| C184 | Names can be replaced by what they stand for | partial | Replacing is defined on expressions and on their tokens (`Spec/Replace`); operands are not infix expressions, so chains keep their operators. The result with replacements is grouped, hence is the result (C10); names have the same places, with the same fixities in scope, before and after resolving. Conflicts (C16) with replacements are those of the expression and those of the operands at their places. | False if a `let` names an operator twice: operands behind it are grouped with the fixities that it leaves behind (C184_let_wrong). Proved for all expressions without such `let`s. Replacing is textual: parameters of lambdas do not protect names. Operands whose operators a `let` around them redeclares are grouped differently than on their own (C184_fixities_of_place). |
| C185 | Commands that the help text calls the same are the same | partial | Lines are described by their words (`Words`, from Spec/Session). A line with given words says the first word and a rest with the other words; the code uses the rest only through its words, or, with at most one, through the trimmed rest. | False in two places: `:reset` leaves the same session as `:clear --fixities` but reports another number (C185_reset_wrong); `:quit  --no-history` and `:clear --history  --fixities` with two blanks are not understood (C185_blanks_wrong). Proved: all other equalities, and that blanks do not matter for `:load`, `:shell`, `:info`, for commands without arguments, and for `:cd`, `:clear`, `:history` with one argument. |
| C186 | A declaration of several operators is several declarations | partial | `Expr.apart` (Spec/Apart) writes one `let` for each operator. The rules of C152 (`Becomes`) are followed for both expressions: inside the `let`s the fixities are the same, and so they are behind them if no operator is named twice. Drawings (C149) do not show `let`s. | False for a `let` that names an operator twice, which leaves its fixity behind while two `let`s do not (C186_let_wrong). Proved for all other expressions and for all declarations. |
| C187 | Loading together, again, in another order, or by typing | partial | The arguments are the words of the line (C185). The list of files is processed from left to right, so it can be split anywhere. Declarations loaded twice leave the same table (C13), and built-in tables are lists of declarations (C186). | False in two places: among several arguments `--math` and `--prelude` are taken for files (C187_several_wrong), and the tables contradict each other on `*`, `/` and `%` (C187_order_wrong). Loading again is proved for files without a `let` that names an operator twice. |
| C188 | The order of lets for different operators does not matter, nor do hidden lets | partial | `Expr.Relet` (Spec/Relet) says which `let`s differ. The rules of C152 (`Becomes`) are followed for both expressions: the fixities inside and behind the `let`s are the same functions. Drawings (C149) do not show `let`s. | False for a `let` that names an operator twice: it leaves its fixity behind even if another `let` hides it (C188_let_wrong, which also shows that different operators are needed for an exchange). Proved for all other expressions. |
| C189 | Only the fixities of the operators that are used matter to the answers | proved | `OnlyOps` (Spec/Unrelated) names the operators an input uses. The congruence of C06 is carried through the expressions of an input, through reading an input (printing ignores the table, C44) and through sequences of lines. | Commands are not among the lines: `:fixities` lists the other operators, too. |
| C190 | Declaring by let, along with an expression, or before it | proved | By the rules of C152 the expression is resolved with the same fixities in all three ways (`innermost`), and drawings (C149) do not show `let`s. | What is left behind differs between the ways and is the subject of C11, C14 and C15. |
| C191 | What is shown is put together from what is shown for the parts | partial | Answers of inputs are given by C152 and C149. Without such `let`s every element is resolved with the same fixities (C11), so it becomes what it becomes on its own, and drawings of collections consist of the drawings of their elements. | False after an element with a `let` that names an operator twice, whose fixity reaches the next element (C191_let_wrong). Proved for all other expressions. |
| C192 | Which numbers precedences are does not show, but for their order | proved | `Renumbered` (Spec/Numbers) relates inputs that are parsed to programs that differ in the numbers. C180 gives the outcomes of resolving; what is printed depends on the drawing only (C149), which is shown not to contain numbers of declarations, and the texts of errors do not contain them. | Commands are not among the lines: `:fixities` lists the numbers. |
| C193 | What things are called does not matter to the answers | proved | `Renamed` (Spec/Naming) relates inputs that are parsed to programs that differ in the names. C134 and C152 give the outcomes of resolving on both sides, `answer` (C149) what is shown for them; that of errors that are alike only the first is shown commutes with renaming. | Commands are not among the lines. |
| C194 | Reading an expression backwards mirrors the answer | partial | `Backwards` (Spec/Backwards) compares the flat chains of two expressions, whatever their grouping. The mirror image of a grouped expression is grouped for the mirrored fixities, by exchange of `LeftOk` and `RightOk`; C10 says that the result is the only grouping of the chain. | The code violates this for a `let` that names an operator twice (`C194_let_wrong`); proved for all other expressions. Which errors are shown is not compared, only that some are. |
| C195 | Parts of accepted chains are accepted | partial | `StretchOf` (Spec/Stretch) compares the flat chains. By induction on the grouping of the whole chain, every part of it has a grouping: an operator at the top of an operand bounds all operators of the operand. By C10 an expression is refused only if its chain has no grouping. | The code violates this for a `let` that names an operator twice (`C195_let_wrong`); proved for all other expressions. |
| C196 | When nothing is ever refused | proved | By induction on `Becomes` (C152), for a set of operators that contains those used: a clash needs two operators of the same precedence that do not associate to the same side. This includes `let`s that name an operator twice, for what they leave behind has the declared fixity. Conversely, an expression of two operators is refused if they clash. |  |

## Axioms

As reported for every theorem named in `MANIFEST.json` (the three are Lean's standard axioms; no others occur anywhere):

* no axioms (20): `C106_as_str_wrong`, `C110_eof_wrong`, `C119_palette`, `C120_order_wrong`, `C143_current`, `C181_map`, `C181_map_ref`, `C181_methods`, `C182_unit`, `C19_prelude_count_wrong`, `C62_blue_wrong`, `C62_red_and_green_partial`, `C64_colours`, `C64_flags_independent`, `C66_leading_whitespace`, `C88_debug`, `C90_maybe_from_u8`, `C91_highlighted`, `C91_lossy`, `Lexer.C176_bump_wrong`
* `propext` (81): `C103_line_wrong`, `C105_class`, `C105_equality_wrong`, `C111_code_wrong`, `C111_comment_wrong`, `C111_lines_wrong`, `C111_trailing_wrong`, `C112_semicolon_wrong`, `C113_listing_wrong`, `C114_location_wrong`, `C119_escape`, `C11_duplicate_leaks`, `C122_prefix`, `C124_prompts`, `C127_announced_partial`, `C130_spelling`, `C132_start_warnings`, `C133_escapes`, `C133_names`, `C133_names_ext`, `C133_operators`, `C133_trailing`, `C134_chains`, `C134_faithful_needed`, `C140_names_wrong`, `C145_broken_writer`, `C145_error`, `C145_failing_item`, `C145_reported`, `C147_all`, `C148_code_wrong`, `C148_empty_lines_wrong`, `C153_methods_wrong`, `C156_changes`, `C161_order_needed`, `C162_integers_needed`, `C164_resolved_wrong`, `C171_lines_wrong`, `C171_short_wrong`, `C174_shown_wrong`, `C176_lost_wrong`, `C176_order_wrong`, `C17_same_text_same_entry`, `C180_nine_needed`, `C181_lift`, `C181_lift_map`, `C181_options_lost`, `C181_print`, `C181_shown`, `C182_equal`, `C182_set`, `C186_declarations`, `C194_let_wrong`, `C195_let_wrong`, `C39_panics_wrong`, `C61_ansi_rainbow`, `C61_tick_untick`, `C62_green_blue_swapped`, `C64_config_ext`, `C64_flag_laws`, `C64_styled`, `C68_empty_char_wrong`, `C74_kinds_wrong`, `C88_and_also`, `C88_reset_colors`, `C90_codes`, `C90_from_u8`, `Lexer.C116_loc_span`, `Lexer.C116_span_wrong`, `Lexer.C117_blank_left`, `Lexer.C27_iterator_diverges`, `Lexer.C29_token_text_wrong`, `Lexer.C31_integers_wrong`, `Lexer.C32_gap_wrong`, `Lexer.C33_block_comment_wrong`, `Lexer.C35_nul_wrong`, `Lexer.C35_unicode_wrong`, `Lexer.C71_one_character_wrong`, `Lexer.C72_span_wrong`
* `propext`, `Quot.sound` (175): `C01_grouping_sound`, `C02_grouping_complete`, `C02_grouping_unique`, `C03_error_iff_clash`, `C03_error_iff_no_grouping`, `C03_error_names_clash`, `C04_rewrite_never_panics`, `C05_rewrite_idempotent`, `C06_rewrite_congr`, `C08_undeclared_default`, `C09_fails_after_duplicate_let`, `C100_all_reported_wrong`, `C105_equality_partial`, `C107_exact_length_wrong`, `C107_length_partial`, `C108_panics_harmless`, `C108_symbol_wrong`, `C109_char_dangling_wrong`, `C116_lines`, `C120_lookup`, `C120_remove_last_partial`, `C121_add_fixity`, `C121_resolve_expr`, `C121_resolved`, `C122_digits`, `C123_lengths`, `C125_current_directory_wrong`, `C125_nothing_else`, `C125_path`, `C125_said`, `C126_cd`, `C126_sh_wrong`, `C127_announced_wrong`, `C127_help`, `C128_builtin`, `C128_count_wrong`, `C128_unreadable`, `C129_options_partial`, `C129_set_wrong`, `C130_empty_wrong`, `C132_reading_error`, `C133_blanks`, `C133_digits`, `C133_disjoint`, `C133_hex_digits`, `C134_programs`, `C135_unique`, `C138_tokens_partial`, `C13_last_declaration_wins`, `C13_load_then_resolve`, `C13_load_twice`, `C140_operators_wrong`, `C141_is_prefix`, `C141_strip_prefix_exact`, `C141_strip_prefix_partial`, `C142_default`, `C142_mut`, `C142_post`, `C142_pre`, `C142_program`, `C142_replace`, `C142_replace_program`, `C145_plain`, `C147_rgb`, `C149_pattern`, `C14_C15_fail_after_duplicate_let`, `C150_answer_wrong`, `C153_names`, `C157_order`, `C165_chain`, `C165_refused`, `C165_resolved_wrong`, `C167_shifted_wrong`, `C170_order_wrong`, `C170_shifted_wrong`, `C172_let_wrong`, `C172_operand_wrong`, `C174_text`, `C175_group`, `C175_part`, `C177_declared`, `C177_levels`, `C177_twenty`, `C178_tell`, `C179_again_wrong`, `C17_key_value`, `C183_let_wrong`, `C184_fixities_of_place`, `C184_let_wrong`, `C185_blanks_wrong`, `C185_clear`, `C185_reset_wrong`, `C186_let_wrong`, `C187_order_partial`, `C187_order_wrong`, `C187_several_wrong`, `C188_let_wrong`, `C18_math_partial`, `C18_math_precedence_wrong`, `C191_let_wrong`, `C19_prelude_fixities`, `C20_clear_partial`, `C20_reset_count_wrong`, `C25_iter_in_order`, `C25_iter_is_deque`, `C46_applied_lambda_wrong`, `C46_escape_wrong`, `C46_let_wrong`, `C46_parentheses_grow`, `C46_patterns_wrong`, `C46_section_wrong`, `C46_short_operator_wrong`, `C48_framed`, `C48_normal_resets_formats`, `C48_pen_partial`, `C48_start_variants`, `C49_sent`, `C50_blank_ignored`, `C50_blank_removable`, `C51_accumulates`, `C51_split_irrelevant`, `C52_commands_refused`, `C56_closing_brace_wrong`, `C57_separate_wrong`, `C58_quoted_wrong`, `C58_unquoted_partial`, `C61_color_total`, `C61_consecutive_differ`, `C61_wrap_breaks_period`, `C62_saturation`, `C65_is_prefix`, `C66_exactly`, `C66_strip_prefix_partial`, `C75_eof_does_not_save`, `C75_quit_saves`, `C76_clear`, `C76_save_partial`, `C76_save_to_wrong`, `C76_set`, `C76_set_prefix_wrong`, `C77_unknown_command`, `C78_kinds_of_lines`, `C78_prompt_wrong`, `C79_directory`, `C79_start`, `C82_operands_irrelevant`, `C83_mirror`, `C83_mirror_error`, `C84_loosest_splits`, `C85_left_chain`, `C85_neither_chain`, `C85_right_chain`, `C88_builders`, `C88_builders_styles`, `C93_borrow_hash_wrong_small`, `C93_hash_partial`, `C94_negative_exponent_wrong`, `C98_first_clash`, `C98_first_exists_unique`, `C98_prefix_decides`, `C99_exact_wrong`, `C99_rules_functional`, `Lexer.C137_overflow`, `Lexer.C176_shown`, `Lexer.C26_terminates`, `Lexer.C28_positions_wrong`, `Lexer.C35_escape`, `Lexer.C35_plain_partial`, `Resolver.C168_bound`, `Resolver.C168_chains`, `Resolver.C168_counted`, `Session.C58_opened_partial`
* `propext`, `Classical.choice`, `Quot.sound` (418): `C04_resolveAst_never_panics`, `C04_visit_never_panics`, `C05_resolve_idempotent`, `C05_visit_idempotent`, `C06_visit_congr`, `C07_relative_order`, `C07_renumber`, `C08_visit_undeclared_default`, `C09_only_grouping_changes`, `C09_result_grouped_partial`, `C100_outermost_reported_partial`, `C101_negation_lost_wrong`, `C101_patterns_partial`, `C101_patterns_wrong`, `C102_operators_partial`, `C102_operators_wrong`, `C103_commas_partial`, `C103_exactly_partial`, `C103_lines_partial`, `C103_missing_comma_wrong`, `C103_trailing_comma_wrong`, `C104_all_partial`, `C104_brackets_partial`, `C104_brackets_wrong`, `C105_hash_contract`, `C105_own_identifier`, `C106_as_str_partial`, `C108_text_of_symbol_partial`, `C109_contents`, `C109_dangling_wrong`, `C109_memory`, `C109_others_partial`, `C109_usable_partial`, `C10_C16_fail_after_duplicate_let`, `C10_error_iff_needed_partial`, `C10_input_accepted_iff_partial`, `C10_regrouping_unique`, `C10_result_is_regrouping_partial`, `C110_chars_partial`, `C111_between_partial`, `C111_comment_partial`, `C111_leading_blanks`, `C111_leading_lines`, `C111_line_end_partial`, `C111_same_tokens`, `C111_trailing_partial`, `C112_lines_partial`, `C112_no_empty_declarations`, `C112_semicolon_partial`, `C113_listing_partial`, `C113_round_trip_partial`, `C113_shown_partial`, `C114_location_partial`, `C115_first_bad_token`, `C115_first_bad_token_partial`, `C115_no_continuation`, `C115_no_way_on`, `C118_line_column`, `C118_location`, `C118_shown`, `C118_spans`, `C119_display`, `C11_leaks_only_duplicates`, `C11_let_exact`, `C11_no_leak_partial`, `C124_banner`, `C125_history_deleted_partial`, `C126_shell`, `C128_file`, `C128_rejected`, `C12_innermost_wins`, `C12_let_scope`, `C130_ambiguous`, `C130_expected`, `C130_literals`, `C130_reported_partial`, `C130_token`, `C131_unambiguous`, `C131_wording`, `C135_char`, `C135_literals`, `C135_string`, `C135_symbols`, `C135_symbols_told_apart`, `C135_told_apart`, `C136_afresh`, `C136_exchange`, `C136_lines`, `C136_prompt`, `C136_sessions`, `C138_accepted_partial`, `C138_declared_partial`, `C138_lines_wrong`, `C138_rejected_wrong`, `C138_underscore_wrong`, `C138_undocumented_wrong`, `C13_interleaving_irrelevant`, `C140_names_partial`, `C140_operators_partial`, `C140_promoted`, `C141_char`, `C141_others`, `C143_restored`, `C143_reuse`, `C144_bytestring`, `C145_reset_partial`, `C145_reset_wrong`, `C146_options_partial`, `C146_options_wrong`, `C146_width_partial`, `C146_width_wrong`, `C147_hex`, `C147_linear`, `C148_line_ends_partial`, `C149_expression_seen`, `C149_seen`, `C149_written`, `C14_after_input_partial`, `C14_leaks_only_duplicates`, `C14_no_pending_error`, `C14_resolver_state_partial`, `C14_unparsable_input_changes_nothing`, `C150_answer_partial`, `C151_across`, `C151_means`, `C151_same_partial`, `C151_same_wrong`, `C152_answer`, `C152_expression`, `C152_fixities`, `C152_input`, `C153_methods_partial`, `C153_seen`, `C154_exact`, `C154_lexer`, `C154_precedence`, `C155_line`, `C155_run`, `C155_session`, `C155_text`, `C156_references`, `C157_expression`, `C157_info`, `C157_input`, `C157_ledger`, `C157_shown`, `C158_complete`, `C158_line`, `C158_session`, `C159_either`, `C159_line`, `C159_same`, `C159_session`, `C15_every_run_has_history`, `C15_last_writer`, `C15_last_writer_wins_partial`, `C15_log_determined`, `C15_operator_partial`, `C160_accepts`, `C160_first_bad_token`, `C160_first_bad_token_partial`, `C160_local`, `C160_panics`, `C161_expression`, `C161_indent`, `C161_order`, `C162_accepted`, `C162_expression`, `C162_expression_renamed`, `C162_line`, `C162_renamed`, `C162_resolved`, `C162_same_shape`, `C164_input_partial`, `C164_resolved_partial`, `C165_refused_partial`, `C165_resolved_partial`, `C166_confined`, `C166_quiet`, `C167_file_wrong`, `C167_input_partial`, `C167_session_partial`, `C169_buffers`, `C169_interner`, `C169_memory`, `C169_stored`, `C16_errors_real_partial`, `C16_reported_iff_conflict_partial`, `C170_listed_partial`, `C171_declarations`, `C171_fed`, `C171_lines_partial`, `C172_answer_partial`, `C172_expression_partial`, `C172_grouping`, `C173_best`, `C173_every`, `C173_refused`, `C173_sent`, `C173_shown`, `C174_shown_partial`, `C175_associativity`, `C175_between`, `C175_decided`, `C177_more`, `C178_pairs`, `C179_again_partial`, `C179_script_partial`, `C17_table_is_ordered_map`, `C180_next`, `C180_programs`, `C183_answer_partial`, `C183_resolved_partial`, `C183_shown`, `C183_visible_partial`, `C184_accepted_partial`, `C184_replaced_partial`, `C184_separately_partial`, `C185_blanks_partial`, `C185_info`, `C185_names`, `C185_reset_partial`, `C186_answer_partial`, `C186_entered_partial`, `C186_resolved_partial`, `C186_shown`, `C187_again_partial`, `C187_several_partial`, `C187_typed`, `C188_answer_partial`, `C188_resolved_partial`, `C188_shown`, `C189_before`, `C189_idle_let`, `C189_input`, `C189_script`, `C190_after`, `C190_along`, `C191_application_partial`, `C191_lambda`, `C191_list_partial`, `C191_refused_partial`, `C191_tuple_partial`, `C192_input`, `C192_script`, `C193_accepted`, `C193_input`, `C193_script`, `C194_answer_partial`, `C194_refused_partial`, `C194_result_partial`, `C195_accepted_partial`, `C195_answer_partial`, `C196_accepted`, `C196_exact`, `C196_input`, `C196_loaded`, `C21_lookup`, `C21_same_symbol_iff_same_text`, `C21_symbols_dense`, `C22_symbols_stable`, `C23_constants`, `C23_names`, `C23_predefined`, `C24_buffers_never_move`, `C24_no_dangling`, `C24_slices_stay_valid`, `C29_shifted`, `C37_terminates`, `C38_declarations`, `C38_written`, `C39_not_accepted_partial`, `C40_right_nested`, `C40_shape`, `C40_shape_expr`, `C41_atoms`, `C41_chain`, `C41_source_order`, `C42_body_to_end`, `C42_curry`, `C42_never_applied_on_line`, `C42_never_left_operand`, `C43_panics`, `C43_panics_plain`, `C44_table_irrelevant`, `C45_printing_succeeds`, `C45_prints_iff`, `C46_lines_partial`, `C46_reparse_partial`, `C46_source_partial`, `C47_balanced_partial`, `C47_balanced_source_partial`, `C47_balanced_wrong`, `C48_fragments`, `C48_strip`, `C48_styled_output`, `C49_complete`, `C49_listing`, `C51_processed`, `C53_crashes`, `C53_ends_iff`, `C53_loop_left_iff`, `C54_commands_keep_the_rest`, `C54_commands_that_change_fixities`, `C55_first_echoed`, `C55_rejected_not_echoed`, `C56_not_until_brace`, `C56_one_line_partial`, `C57_haskell_file_partial`, `C59_info`, `C60_checked`, `C60_out_of_range`, `C60_roundtrip`, `C61_period_seven`, `C63_background_partial`, `C63_background_wrong`, `C67_numlen`, `C67_numlen_decimal`, `C68_errors_display_partial`, `C68_exactly`, `C70_layout`, `C70_layout_expression`, `C70_one_line`, `C73_expression`, `C73_program`, `C74_kinds_partial`, `C78_prompt_partial`, `C80_reachable`, `C81_expression`, `C81_one_line`, `C81_one_line_expression`, `C81_program`, `C81_unambiguous`, `C84_loosest_error`, `C87_echo`, `C87_typed`, `C88_composed`, `C88_visible`, `C89_nested_partial`, `C89_nested_wrong`, `C89_wrapped_blue`, `C91_no_colour`, `C92_predicates`, `C92_symbol_as_text`, `C93_borrow_hash_wrong`, `C94_positive_exponent_wrong`, `C94_text_injective_partial`, `C94_value_partial`, `C95_agrees`, `C95_columns`, `C95_every_source`, `C95_every_source_unambiguous`, `C95_lexical_grammar`, `C95_unambiguous`, `C96_every_source`, `C96_one_line_expressions`, `C96_one_line_programs`, `C96_programs`, `C96_texts`, `C97_applied_lambda`, `C97_declaration`, `C97_expression`, `C97_expression_lines`, `C97_never`, `C97_never_lines`, `C97_parse_expr`, `C97_range`, `C97_range_lines`, `C99_exact_partial`, `C99_input_exact_partial`, `Lexer.C116_span_partial`, `Lexer.C117_done`, `Lexer.C137_bounds`, `Lexer.C137_bump`, `Lexer.C137_depth`, `Lexer.C137_depth_overflow`, `Lexer.C137_long_line`, `Lexer.C139_characters_partial`, `Lexer.C139_dropped`, `Lexer.C139_strings_wrong`, `Lexer.C176_again`, `Lexer.C176_same_partial`, `Lexer.C26_progress`, `Lexer.C27_ascii_stops_partial`, `Lexer.C27_iterator_partial`, `Lexer.C27_known_partial`, `Lexer.C27_outcomes`, `Lexer.C27_stops_iff`, `Lexer.C27_unknown_repeats`, `Lexer.C28_positions`, `Lexer.C28_positions_partial`, `Lexer.C29_token_text_partial`, `Lexer.C30_maximal_munch`, `Lexer.C30_token_maximal_partial`, `Lexer.C31_integer_source`, `Lexer.C31_integers_partial`, `Lexer.C32_gaps_partial`, `Lexer.C32_last_line_partial`, `Lexer.C32_leading_gap_partial`, `Lexer.C33_block_comment_partial`, `Lexer.C33_block_comment_space_partial`, `Lexer.C33_unterminated`, `Lexer.C34_strings`, `Lexer.C35_unicode_partial`, `Lexer.C36_lower_case_partial`, `Lexer.C36_panics`, `Lexer.C36_panics_partial`, `Lexer.C36_upper_wrong`, `Lexer.C69_spans_ordered`, `Lexer.C71_apostrophe_partial`, `Lexer.C71_backtick_partial`, `Lexer.C71_one_character_partial`, `Lexer.C72_plain_string_span_partial`, `Lexer.C72_span_partial`, `Lexer.C72_string_span_partial`, `Resolver.C86_list`, `Resolver.C86_parentheses_override`
