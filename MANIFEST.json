{
 "claims": [
  {
   "property": "C01",
   "status": "proved",
   "theorems": [
    "Pemdas.C01_grouping_sound"
   ],
   "note": ""
  },
  {
   "property": "C02",
   "status": "proved",
   "theorems": [
    "Pemdas.C02_grouping_complete",
    "Pemdas.C02_grouping_unique"
   ],
   "note": ""
  },
  {
   "property": "C03",
   "status": "proved",
   "theorems": [
    "Pemdas.C03_error_iff_no_grouping",
    "Pemdas.C03_error_names_clash",
    "Pemdas.C03_error_iff_clash"
   ],
   "note": ""
  },
  {
   "property": "C04",
   "status": "proved",
   "theorems": [
    "Pemdas.C04_rewrite_never_panics",
    "Pemdas.C04_visit_never_panics",
    "Pemdas.C04_resolveAst_never_panics"
   ],
   "note": ""
  },
  {
   "property": "C05",
   "status": "proved",
   "theorems": [
    "Pemdas.C05_rewrite_idempotent",
    "Pemdas.C05_visit_idempotent",
    "Pemdas.C05_resolve_idempotent"
   ],
   "note": "For chains, whole expressions of any shape and programs."
  },
  {
   "property": "C06",
   "status": "proved",
   "theorems": [
    "Pemdas.C06_rewrite_congr",
    "Pemdas.C06_visit_congr"
   ],
   "note": ""
  },
  {
   "property": "C07",
   "status": "proved",
   "theorems": [
    "Pemdas.C07_relative_order",
    "Pemdas.C07_renumber"
   ],
   "note": ""
  },
  {
   "property": "C08",
   "status": "proved",
   "theorems": [
    "Pemdas.C08_undeclared_default",
    "Pemdas.C08_visit_undeclared_default"
   ],
   "note": ""
  },
  {
   "property": "C09",
   "status": "partial",
   "theorems": [
    "Pemdas.C09_only_grouping_changes",
    "Pemdas.C09_result_grouped_partial",
    "Pemdas.C09_fails_after_duplicate_let"
   ],
   "note": "Missing: holds when no single let declares the same operator twice and the input is right-nested as the parser builds it; C09_fails_after_duplicate_let shows the code violates it otherwise."
  },
  {
   "property": "C10",
   "status": "partial",
   "theorems": [
    "Pemdas.C10_error_iff_needed_partial",
    "Pemdas.C10_regrouping_unique",
    "Pemdas.C10_result_is_regrouping_partial",
    "Pemdas.C10_input_accepted_iff_partial",
    "Pemdas.C10_C16_fail_after_duplicate_let"
   ],
   "note": "Missing: holds when no single let declares the same operator twice and the input is right-nested as the parser builds it; C10_C16_fail_after_duplicate_let is the counterexample otherwise."
  },
  {
   "property": "C100",
   "status": "partial",
   "theorems": [
    "Pemdas.C100_all_reported_wrong",
    "Pemdas.C100_outermost_reported_partial"
   ],
   "note": "The code violates it: the operands of an ambiguous chain are not looked at. Proved: exactly the chains not inside another ambiguous chain are reported."
  },
  {
   "property": "C101",
   "status": "partial",
   "theorems": [
    "Pemdas.C101_patterns_wrong",
    "Pemdas.C101_negation_lost_wrong",
    "Pemdas.C101_patterns_partial"
   ],
   "note": "The code violates it: no program with `\\()`, `\\[]` (unless another `]` follows) or a literal after a lambda is accepted, and as an element of a list a negated pattern loses its sign. Proved: negation in parentheses, lists and tuples that are not empty, and the empty list with a doubled bracket."
  },
  {
   "property": "C102",
   "status": "partial",
   "theorems": [
    "Pemdas.C102_operators_wrong",
    "Pemdas.C102_operators_partial"
   ],
   "note": "The code violates it: no program declares them without precedence or starts with one in parentheses. Proved: declaration with precedence and use between operands."
  },
  {
   "property": "C103",
   "status": "partial",
   "theorems": [
    "Pemdas.C103_trailing_comma_wrong",
    "Pemdas.C103_missing_comma_wrong",
    "Pemdas.C103_line_wrong",
    "Pemdas.C103_commas_partial",
    "Pemdas.C103_exactly_partial",
    "Pemdas.C103_lines_partial"
   ],
   "note": "The code violates it: a comma after the last element is accepted, and none is needed before a lambda or `let`, nor before an element on a new line that is not indented enough to be an argument. Proved: these are the only deviations, on one line (C103_exactly_partial) and for every source (C103_lines_partial)."
  },
  {
   "property": "C104",
   "status": "partial",
   "theorems": [
    "Pemdas.C104_brackets_wrong",
    "Pemdas.C104_brackets_partial",
    "Pemdas.C104_all_partial"
   ],
   "note": "The code violates it: the empty list pattern needs two closing brackets. Proved: that is the only deviation."
  },
  {
   "property": "C105",
   "status": "partial",
   "theorems": [
    "Pemdas.C105_equality_wrong",
    "Pemdas.C105_own_identifier",
    "Pemdas.C105_class",
    "Pemdas.C105_equality_partial",
    "Pemdas.C105_hash_contract"
   ],
   "note": "The code violates it: a promoted and a symbolic operator with the same text are equal but equal different identifiers. Proved for operators of the same kind; the rest is proved in full."
  },
  {
   "property": "C106",
   "status": "partial",
   "theorems": [
    "Pemdas.C106_as_str_wrong",
    "Pemdas.C106_as_str_partial"
   ],
   "note": "The code violates it: it panics on every identifier but `[]`."
  },
  {
   "property": "C107",
   "status": "partial",
   "theorems": [
    "Pemdas.C107_exact_length_wrong",
    "Pemdas.C107_length_partial"
   ],
   "note": "The code violates it: `ExactSizeIterator::len` always panics, because `size_hint` is not overridden. The iterators' own `len` is proved right."
  },
  {
   "property": "C108",
   "status": "partial",
   "theorems": [
    "Pemdas.C108_symbol_wrong",
    "Pemdas.C108_panics_harmless",
    "Pemdas.C108_text_of_symbol_partial"
   ],
   "note": "The code violates it: interning a symbol as a string always panics, because the interner is already mutably borrowed. The rest is proved (up to 2^32 distinct texts)."
  },
  {
   "property": "C109",
   "status": "partial",
   "theorems": [
    "Pemdas.C109_contents",
    "Pemdas.C109_memory",
    "Pemdas.C109_dangling_wrong",
    "Pemdas.C109_char_dangling_wrong",
    "Pemdas.C109_usable_partial",
    "Pemdas.C109_others_partial"
   ],
   "note": "The code violates it: the bytes are right, but the reference returned dangles for every text that is not empty."
  },
  {
   "property": "C11",
   "status": "partial",
   "theorems": [
    "Pemdas.C11_no_leak_partial",
    "Pemdas.C11_let_exact",
    "Pemdas.C11_leaks_only_duplicates",
    "Pemdas.C11_duplicate_leaks"
   ],
   "note": "The code violates it: a let naming an operator twice leaks its fixity (C11_duplicate_leaks). C11_no_leak_partial: nothing leaks from expressions whose lets name no operator twice. C11_let_exact says for every let what it leaves behind, C11_leaks_only_duplicates for every expression which operators can be affected and how."
  },
  {
   "property": "C110",
   "status": "partial",
   "theorems": [
    "Pemdas.C110_eof_wrong",
    "Pemdas.C110_chars_partial"
   ],
   "note": "The code violates it: `Char::Eof == '\\0'`, and its length is 1 although its text is empty. Proved for all other characters."
  },
  {
   "property": "C111",
   "status": "partial",
   "theorems": [
    "Pemdas.C111_same_tokens",
    "Pemdas.C111_leading_blanks",
    "Pemdas.C111_leading_lines",
    "Pemdas.C111_trailing_partial",
    "Pemdas.C111_line_end_partial",
    "Pemdas.C111_between_partial",
    "Pemdas.C111_comment_partial",
    "Pemdas.C111_trailing_wrong",
    "Pemdas.C111_code_wrong",
    "Pemdas.C111_comment_wrong",
    "Pemdas.C111_lines_wrong",
    "Pemdas.C133_blanks"
   ],
   "note": "The code violates it: a blank after a promoted name of one character becomes part of it, a comment removes a character of what follows, and a character given by its code moves by a column if whitespace follows. Indentation matters, as intended. Proved: one-line texts with the same tokens are read alike; whitespace before a text does not matter, nor does whitespace or a comment between two parts of a line or at its end, unless a promoted name of one character stands before it, nor whitespace and blank lines at the end of a text or of any of its lines, unless that or a character given by its code stands before it."
  },
  {
   "property": "C112",
   "status": "partial",
   "theorems": [
    "Pemdas.C112_semicolon_partial",
    "Pemdas.C112_lines_partial",
    "Pemdas.C112_no_empty_declarations",
    "Pemdas.C112_semicolon_wrong"
   ],
   "note": "The code violates it: a comment or character code at the end of the first program swallows the semicolon. Proved for first programs that do not end in one, and have no two tildes on their last line; the second one is arbitrary."
  },
  {
   "property": "C113",
   "status": "partial",
   "theorems": [
    "Pemdas.C113_listing_partial",
    "Pemdas.C113_round_trip_partial",
    "Pemdas.C113_shown_partial",
    "Pemdas.C113_listing_wrong"
   ],
   "note": "The code violates it: names of one character and names whose second character is an apostrophe are listed so that they are not read back. Proved for all other operators."
  },
  {
   "property": "C114",
   "status": "partial",
   "theorems": [
    "Pemdas.C114_location_partial",
    "Pemdas.C114_location_wrong"
   ],
   "note": "The code violates it: the location can be the end of the token before the one that is named, even on an earlier line. Proved: the token is the right one and the location is the end of that token or of the one before it."
  },
  {
   "property": "C115",
   "status": "proved",
   "theorems": [
    "Pemdas.C115_first_bad_token",
    "Pemdas.C115_no_way_on",
    "Pemdas.C115_no_continuation"
   ],
   "note": "For all sources, in terms of the tokens and the places where they end; C163 is the statement about texts."
  },
  {
   "property": "C116",
   "status": "partial",
   "theorems": [
    "Pemdas.Lexer.C116_span_partial",
    "Pemdas.Lexer.C116_span_wrong",
    "Pemdas.Lexer.C116_loc_span",
    "Pemdas.C116_lines"
   ],
   "note": "The code violates it after a line feed directly followed by a carriage return. Proved for all other sources."
  },
  {
   "property": "C117",
   "status": "proved",
   "theorems": [
    "Pemdas.Lexer.C117_done",
    "Pemdas.Lexer.C117_blank_left"
   ],
   "note": ""
  },
  {
   "property": "C118",
   "status": "proved",
   "theorems": [
    "Pemdas.C118_location",
    "Pemdas.C118_line_column",
    "Pemdas.C118_spans",
    "Pemdas.C118_shown"
   ],
   "note": ""
  },
  {
   "property": "C119",
   "status": "proved",
   "theorems": [
    "Pemdas.C119_palette",
    "Pemdas.C119_display",
    "Pemdas.C119_escape"
   ],
   "note": ""
  },
  {
   "property": "C12",
   "status": "proved",
   "theorems": [
    "Pemdas.C12_let_scope",
    "Pemdas.C12_innermost_wins"
   ],
   "note": ""
  },
  {
   "property": "C120",
   "status": "partial",
   "theorems": [
    "Pemdas.C120_remove_last_partial",
    "Pemdas.C120_lookup",
    "Pemdas.C120_order_wrong"
   ],
   "note": "The code violates it: the entries come last first (`rev` calls the closure from the back, which pops too). Everything else is proved."
  },
  {
   "property": "C121",
   "status": "proved",
   "theorems": [
    "Pemdas.C121_add_fixity",
    "Pemdas.C121_resolved",
    "Pemdas.C121_resolve_expr"
   ],
   "note": ""
  },
  {
   "property": "C122",
   "status": "proved",
   "theorems": [
    "Pemdas.C122_digits",
    "Pemdas.C122_prefix"
   ],
   "note": ""
  },
  {
   "property": "C123",
   "status": "proved",
   "theorems": [
    "Pemdas.C123_lengths"
   ],
   "note": ""
  },
  {
   "property": "C124",
   "status": "proved",
   "theorems": [
    "Pemdas.C124_prompts",
    "Pemdas.C124_banner"
   ],
   "note": ""
  },
  {
   "property": "C125",
   "status": "partial",
   "theorems": [
    "Pemdas.C125_nothing_else",
    "Pemdas.C125_said",
    "Pemdas.C125_path",
    "Pemdas.C125_history_deleted_partial",
    "Pemdas.C125_current_directory_wrong"
   ],
   "note": "The code violates it: in the current directory it looks for `.pemdas_history`, but sessions use `.history` there. Proved for all other directories."
  },
  {
   "property": "C126",
   "status": "partial",
   "theorems": [
    "Pemdas.C126_cd",
    "Pemdas.C126_shell",
    "Pemdas.C126_sh_wrong"
   ],
   "note": "All but the last sentence is proved. That sentence fails: the message for `:shell` without program offers `:sh`, which is not a command."
  },
  {
   "property": "C127",
   "status": "partial",
   "theorems": [
    "Pemdas.C127_help",
    "Pemdas.C127_announced_partial",
    "Pemdas.C127_announced_wrong"
   ],
   "note": "The code violates it: the help text announces `:save`, which is not a command, and `--fixities history`, which is refused. Proved: it announces every command, and no other word than `:save`."
  },
  {
   "property": "C128",
   "status": "partial",
   "theorems": [
    "Pemdas.C128_builtin",
    "Pemdas.C128_unreadable",
    "Pemdas.C128_file",
    "Pemdas.C128_rejected",
    "Pemdas.C128_count_wrong"
   ],
   "note": "Everything is proved except that the numbers are right: for a file, declarations are counted, not fixities (for the prelude see C19)."
  },
  {
   "property": "C129",
   "status": "partial",
   "theorems": [
    "Pemdas.C129_options_partial",
    "Pemdas.C129_set_wrong"
   ],
   "note": "The code violates it: an unknown option of `:history` that begins with `--set`, such as `--settings`, is taken for `--set` with the path `tings`. Every other unknown option of the two commands is proved to be refused."
  },
  {
   "property": "C13",
   "status": "proved",
   "theorems": [
    "Pemdas.C13_interleaving_irrelevant",
    "Pemdas.C13_last_declaration_wins",
    "Pemdas.C13_load_twice",
    "Pemdas.C13_load_then_resolve"
   ],
   "note": ""
  },
  {
   "property": "C130",
   "status": "partial",
   "theorems": [
    "Pemdas.C130_ambiguous",
    "Pemdas.C130_token",
    "Pemdas.C130_reported_partial",
    "Pemdas.C130_empty_wrong",
    "Pemdas.C130_spelling",
    "Pemdas.C130_literals",
    "Pemdas.C130_expected"
   ],
   "note": "The code violates it for inputs with an empty character literal: the program crashes where it should report them (C130_empty_wrong, see C68). Proved for all other rejected inputs."
  },
  {
   "property": "C131",
   "status": "proved",
   "theorems": [
    "Pemdas.C131_wording",
    "Pemdas.C131_unambiguous"
   ],
   "note": "Displaying the error for an empty character literal panics (C68)."
  },
  {
   "property": "C132",
   "status": "proved",
   "theorems": [
    "Pemdas.C132_reading_error",
    "Pemdas.C132_start_warnings"
   ],
   "note": ""
  },
  {
   "property": "C133",
   "status": "proved",
   "theorems": [
    "Pemdas.C133_blanks",
    "Pemdas.C133_digits",
    "Pemdas.C133_hex_digits",
    "Pemdas.C133_operators",
    "Pemdas.C133_trailing",
    "Pemdas.C133_escapes",
    "Pemdas.C133_names",
    "Pemdas.C133_names_ext",
    "Pemdas.C133_disjoint"
   ],
   "note": "Letters and the like are what Rust's tables say (parameters with laws, see above)."
  },
  {
   "property": "C134",
   "status": "proved",
   "theorems": [
    "Pemdas.C134_programs",
    "Pemdas.C134_chains",
    "Pemdas.C134_faithful_needed"
   ],
   "note": "C134_faithful_needed shows that different operators have to stay different."
  },
  {
   "property": "C135",
   "status": "proved",
   "theorems": [
    "Pemdas.C135_unique",
    "Pemdas.C135_string",
    "Pemdas.C135_char",
    "Pemdas.C135_told_apart",
    "Pemdas.C135_literals",
    "Pemdas.C135_symbols",
    "Pemdas.C135_symbols_told_apart"
   ],
   "note": "Fractional literals are C94."
  },
  {
   "property": "C136",
   "status": "proved",
   "theorems": [
    "Pemdas.C136_lines",
    "Pemdas.C136_sessions",
    "Pemdas.C136_prompt",
    "Pemdas.C136_afresh",
    "Pemdas.C136_exchange"
   ],
   "note": "What a listing shows of a table is C49."
  },
  {
   "property": "C137",
   "status": "proved",
   "theorems": [
    "Pemdas.Lexer.C137_bounds",
    "Pemdas.Lexer.C137_bump",
    "Pemdas.Lexer.C137_depth",
    "Pemdas.Lexer.C137_long_line",
    "Pemdas.Lexer.C137_overflow",
    "Pemdas.Lexer.C137_depth_overflow"
   ],
   "note": "The bound on the size is part of the statement; C137_long_line shows that some bound is needed."
  },
  {
   "property": "C138",
   "status": "partial",
   "theorems": [
    "Pemdas.C138_tokens_partial",
    "Pemdas.C138_accepted_partial",
    "Pemdas.C138_declared_partial",
    "Pemdas.C138_rejected_wrong",
    "Pemdas.C138_undocumented_wrong",
    "Pemdas.C138_underscore_wrong",
    "Pemdas.C138_lines_wrong"
   ],
   "note": "The code violates it: `(-)`, `infixl -` and `(f \\x -> x + y)` are derived by the grammar but rejected, `()` and `[]` accepted but not derived, and line breaks, which the grammar does not mention, matter. Proved for all inputs of one line without the places listed by `Readme.Odd`."
  },
  {
   "property": "C139",
   "status": "partial",
   "theorems": [
    "Pemdas.Lexer.C139_dropped",
    "Pemdas.Lexer.C139_strings_wrong",
    "Pemdas.Lexer.C139_characters_partial"
   ],
   "note": "The code violates it for every escape in a string: only the backslash is dropped. Proved for character literals."
  },
  {
   "property": "C14",
   "status": "partial",
   "theorems": [
    "Pemdas.C14_resolver_state_partial",
    "Pemdas.C14_unparsable_input_changes_nothing",
    "Pemdas.C14_no_pending_error",
    "Pemdas.C14_after_input_partial",
    "Pemdas.C14_leaks_only_duplicates",
    "Pemdas.C14_C15_fail_after_duplicate_let"
   ],
   "note": "Proved for every reachable session, for inputs whose lets declare no operator twice; otherwise the code violates it (C14_C15_fail_after_duplicate_let), but only for the operators named twice (C14_leaks_only_duplicates, for every input)."
  },
  {
   "property": "C140",
   "status": "partial",
   "theorems": [
    "Pemdas.C140_operators_partial",
    "Pemdas.C140_promoted",
    "Pemdas.C140_names_partial",
    "Pemdas.C140_operators_wrong",
    "Pemdas.C140_names_wrong"
   ],
   "note": "The code violates it: the operators `\\` and `->` cannot be used or declared, `(-)` and `(@)` are rejected, names that begin with `_` or an upper-case letter are not read. Proved for everything else."
  },
  {
   "property": "C141",
   "status": "partial",
   "theorems": [
    "Pemdas.C141_char",
    "Pemdas.C141_others",
    "Pemdas.C141_is_prefix",
    "Pemdas.C141_strip_prefix_partial",
    "Pemdas.C141_strip_prefix_exact"
   ],
   "note": "The code violates it for texts with leading whitespace (C66_leading_whitespace); C141_strip_prefix_exact says what it does for all texts."
  },
  {
   "property": "C142",
   "status": "proved",
   "theorems": [
    "Pemdas.C142_pre",
    "Pemdas.C142_post",
    "Pemdas.C142_program",
    "Pemdas.C142_default",
    "Pemdas.C142_mut",
    "Pemdas.C142_replace",
    "Pemdas.C142_replace_program"
   ],
   "note": "A visitor is given by the equation its method satisfies; visitors that do not return are not modelled."
  },
  {
   "property": "C143",
   "status": "proved",
   "theorems": [
    "Pemdas.C143_restored",
    "Pemdas.C143_reuse",
    "Pemdas.C143_current"
   ],
   "note": "An expression with a negation panics (C45)."
  },
  {
   "property": "C144",
   "status": "proved",
   "theorems": [
    "Pemdas.C144_bytestring"
   ],
   "note": "`std::str::from_utf8` is Lean's decoder of UTF-8."
  },
  {
   "property": "C145",
   "status": "partial",
   "theorems": [
    "Pemdas.C145_plain",
    "Pemdas.C145_failing_item",
    "Pemdas.C145_error",
    "Pemdas.C145_reset_partial",
    "Pemdas.C145_reset_wrong",
    "Pemdas.C145_broken_writer",
    "Pemdas.C145_reported"
   ],
   "note": "Violated by `Debug` wrappers shown with `{}`: if the item fails, the reset sequence is not written (C145_reset_wrong)."
  },
  {
   "property": "C146",
   "status": "partial",
   "theorems": [
    "Pemdas.C146_options_partial",
    "Pemdas.C146_options_wrong",
    "Pemdas.C146_width_partial",
    "Pemdas.C146_width_wrong"
   ],
   "note": "Violated by `Debug` wrappers shown with `{}`, which ignore all options, and by `And` and `Then`, whose parts are padded one by one."
  },
  {
   "property": "C147",
   "status": "proved",
   "theorems": [
    "Pemdas.C147_rgb",
    "Pemdas.C147_hex",
    "Pemdas.C147_linear",
    "Pemdas.C147_all"
   ],
   "note": ""
  },
  {
   "property": "C148",
   "status": "partial",
   "theorems": [
    "Pemdas.C148_line_ends_partial",
    "Pemdas.C148_empty_lines_wrong",
    "Pemdas.C148_code_wrong"
   ],
   "note": "The code violates it: after an empty line, names and operators have the text of what stands one byte before them (C29_shifted), and a character given by its code loses the line end after it. Proved for texts without empty lines all of whose lines consist of whole tokens and end neither in such a character nor in a promoted name of one character."
  },
  {
   "property": "C149",
   "status": "proved",
   "theorems": [
    "Pemdas.C149_written",
    "Pemdas.C149_pattern",
    "Pemdas.C149_seen",
    "Pemdas.C149_expression_seen"
   ],
   "note": "Expressions with negations, which the parser does not build, are not printed (C45)."
  },
  {
   "property": "C15",
   "status": "partial",
   "theorems": [
    "Pemdas.C15_last_writer_wins_partial",
    "Pemdas.C15_operator_partial",
    "Pemdas.C15_last_writer",
    "Pemdas.C15_every_run_has_history",
    "Pemdas.C15_log_determined",
    "Pemdas.C14_C15_fail_after_duplicate_let"
   ],
   "note": "Proved for every operator that no let of the history names twice; for other operators the code violates it. C15_last_writer says for every history and operator who the last writer can be."
  },
  {
   "property": "C150",
   "status": "partial",
   "theorems": [
    "Pemdas.C150_answer_partial",
    "Pemdas.C150_answer_wrong"
   ],
   "note": "Inputs and histories in which a `let` names an operator twice are excluded: the code violates it there (C150_answer_wrong, C99_exact_wrong). What is answered there is C152."
  },
  {
   "property": "C151",
   "status": "partial",
   "theorems": [
    "Pemdas.C151_means",
    "Pemdas.C151_across",
    "Pemdas.C151_same_partial",
    "Pemdas.C151_same_wrong"
   ],
   "note": "The code violates it: every thread has its own interner. Proved for predefined symbols and for threads that intern the same texts in the same order; C151_across says exactly when it holds."
  },
  {
   "property": "C152",
   "status": "proved",
   "theorems": [
    "Pemdas.C152_expression",
    "Pemdas.C152_input",
    "Pemdas.C152_fixities",
    "Pemdas.C152_answer"
   ],
   "note": "Describes also what C11, C14, C15, C99 and C150 exclude."
  },
  {
   "property": "C153",
   "status": "partial",
   "theorems": [
    "Pemdas.C153_methods_partial",
    "Pemdas.C153_seen",
    "Pemdas.C153_names",
    "Pemdas.C153_methods_wrong"
   ],
   "note": "The code violates it: `reset_fg` and `reset_bg` reset everything, and backgrounds of the palette become foregrounds. C153_seen says for every sequence of methods what is shown."
  },
  {
   "property": "C154",
   "status": "proved",
   "theorems": [
    "Pemdas.C154_exact",
    "Pemdas.C154_lexer",
    "Pemdas.C154_precedence"
   ],
   "note": "C154_exact is for sources without a carriage return directly after a line feed; C154_lexer and C154_precedence are for every source."
  },
  {
   "property": "C155",
   "status": "proved",
   "theorems": [
    "Pemdas.C155_text",
    "Pemdas.C155_session",
    "Pemdas.C155_line",
    "Pemdas.C155_run"
   ],
   "note": "C155_text and C155_line are for texts without a carriage return directly after a line feed, C155_run for sessions into which none is typed and whose loaded files have none directly after a line feed; C155_session is for all."
  },
  {
   "property": "C156",
   "status": "proved",
   "theorems": [
    "Pemdas.C156_changes",
    "Pemdas.C156_references"
   ],
   "note": "A reference is modelled by the vector and the index it points to; that references given out at the same time do not overlap is part of C156_references."
  },
  {
   "property": "C157",
   "status": "proved",
   "theorems": [
    "Pemdas.C157_expression",
    "Pemdas.C157_input",
    "Pemdas.C157_order",
    "Pemdas.C157_ledger",
    "Pemdas.C157_shown",
    "Pemdas.C157_info"
   ],
   "note": "The rules are `Turns` and `Ledger.afterLet` (Spec/Ledger) and `Books` (Props/Ledger); C157_ledger says that they determine the table after every history, entry by entry."
  },
  {
   "property": "C158",
   "status": "proved",
   "theorems": [
    "Pemdas.C158_line",
    "Pemdas.C158_complete",
    "Pemdas.C158_session"
   ],
   "note": "The rules are `Does`, `Sits` and `Keeps` (Spec/Desk). They read inputs with `parse`, which has its own properties, and turn them with the rules of C157; `Session.helpMsg` stands for the help text. Which lines crash is C155."
  },
  {
   "property": "C159",
   "status": "proved",
   "theorems": [
    "Pemdas.C159_same",
    "Pemdas.C159_line",
    "Pemdas.C159_either",
    "Pemdas.C159_session"
   ],
   "note": "Modelled in `Model/Trace`, which C159_same shows to agree with `Model/Session`. The report of the panic itself, which the standard library writes, is not modelled."
  },
  {
   "property": "C16",
   "status": "partial",
   "theorems": [
    "Pemdas.C16_errors_real_partial",
    "Pemdas.C16_reported_iff_conflict_partial",
    "Pemdas.C10_C16_fail_after_duplicate_let"
   ],
   "note": "Missing: holds when no single let declares the same operator twice and the input is right-nested as the parser builds it; counterexample C10_C16_fail_after_duplicate_let."
  },
  {
   "property": "C160",
   "status": "proved",
   "theorems": [
    "Pemdas.C160_local",
    "Pemdas.C160_accepts",
    "Pemdas.C160_first_bad_token",
    "Pemdas.C160_panics"
   ],
   "note": "C160_local, C160_accepts and C160_first_bad_token are for all sources; C160_panics has the hypothesis named in the quantifier. What texts can be completed to is C163."
  },
  {
   "property": "C161",
   "status": "proved",
   "theorems": [
    "Pemdas.C161_order",
    "Pemdas.C161_indent",
    "Pemdas.C161_expression",
    "Pemdas.C161_order_needed"
   ],
   "note": "C161_order_needed is a witness that the order does matter. Where a token ends is what the parser compares (C114)."
  },
  {
   "property": "C162",
   "status": "proved",
   "theorems": [
    "Pemdas.C162_same_shape",
    "Pemdas.C162_accepted",
    "Pemdas.C162_renamed",
    "Pemdas.C162_line",
    "Pemdas.C162_resolved",
    "Pemdas.C162_expression",
    "Pemdas.C162_expression_renamed",
    "Pemdas.C162_integers_needed"
   ],
   "note": "That texts are read as tokens is C29/C95; C162_integers_needed is a witness that integers do matter."
  },
  {
   "property": "C163",
   "status": "partial",
   "theorems": [
    "Pemdas.C115_first_bad_token_partial",
    "Pemdas.C160_first_bad_token_partial"
   ],
   "note": "Missing: sources with a carriage return directly after a line feed (the lexer then looks up words in the wrong place, and whether such a text can always be completed is not settled here), and sources that end too early in a character given by its code."
  },
  {
   "property": "C164",
   "status": "partial",
   "theorems": [
    "Pemdas.C164_resolved_partial",
    "Pemdas.C164_input_partial",
    "Pemdas.C164_resolved_wrong"
   ],
   "note": "The code violates it after a let that names an operator twice. Proved for everything in which no let does."
  },
  {
   "property": "C165",
   "status": "partial",
   "theorems": [
    "Pemdas.C165_chain",
    "Pemdas.C165_refused",
    "Pemdas.C165_resolved_partial",
    "Pemdas.C165_refused_partial",
    "Pemdas.C165_resolved_wrong"
   ],
   "note": "C165_chain and C165_refused are for all chains. For whole expressions the code violates it after a let that names an operator twice; proved for all in which no let does."
  },
  {
   "property": "C166",
   "status": "proved",
   "theorems": [
    "Pemdas.C166_confined",
    "Pemdas.C166_quiet"
   ],
   "note": "For whole programs, panics included. Writing to the screen is always allowed; what is written is the matter of C158 and C159."
  },
  {
   "property": "C167",
   "status": "partial",
   "theorems": [
    "Pemdas.C167_session_partial",
    "Pemdas.C167_input_partial",
    "Pemdas.C167_file_wrong",
    "Pemdas.C167_shifted_wrong"
   ],
   "note": "The code violates it: the message about a wrong name between backticks repeats what stands there as it is, and after a line feed directly followed by a carriage return names are taken from the wrong place. Proved for all sources without escape characters, and for those with escape characters that have neither. What a program started with `:shell` writes is its own affair."
  },
  {
   "property": "C168",
   "status": "proved",
   "theorems": [
    "Pemdas.Resolver.C168_counted",
    "Pemdas.Resolver.C168_bound",
    "Pemdas.Resolver.C168_chains"
   ],
   "note": "Counted are calls of `Rule::from_fixities` and nodes made by `expr.clone()`; not lookups in the table, nor what is inside nodes."
  },
  {
   "property": "C169",
   "status": "proved",
   "theorems": [
    "Pemdas.C169_stored",
    "Pemdas.C169_memory",
    "Pemdas.C169_buffers",
    "Pemdas.C169_interner"
   ],
   "note": "C169_memory and C169_interner assume that `String::with_capacity(n)` provides exactly n bytes; the other two hold whatever it provides."
  },
  {
   "property": "C17",
   "status": "proved",
   "theorems": [
    "Pemdas.C17_table_is_ordered_map",
    "Pemdas.C17_same_text_same_entry",
    "Pemdas.C17_key_value"
   ],
   "note": ""
  },
  {
   "property": "C170",
   "status": "partial",
   "theorems": [
    "Pemdas.C170_listed_partial",
    "Pemdas.C170_order_wrong",
    "Pemdas.C170_shifted_wrong"
   ],
   "note": "False for the order in which lines are listed later, and after a carriage return directly behind a line feed, by which one operator can be listed like two. Proved for all other inputs."
  },
  {
   "property": "C171",
   "status": "partial",
   "theorems": [
    "Pemdas.C171_lines_partial",
    "Pemdas.C171_declarations",
    "Pemdas.C171_fed",
    "Pemdas.C171_lines_wrong",
    "Pemdas.C171_short_wrong"
   ],
   "note": "False if a line is an expression and the first word of the next line is longer than its own first word: it is then read as an argument. Proved for lines for which that is not so, and for fixity declarations without that condition. Missing as well: lines that end in a character given by its code or in a promoted name of one character, which swallow the line end."
  },
  {
   "property": "C172",
   "status": "partial",
   "theorems": [
    "Pemdas.C172_grouping",
    "Pemdas.C172_expression_partial",
    "Pemdas.C172_answer_partial",
    "Pemdas.C172_operand_wrong",
    "Pemdas.C172_let_wrong"
   ],
   "note": "False for lambdas in operands, which get one more pair of parentheses each time, and for lambdas in a `let` in a lambda. C172_grouping says for all expressions that can be read back that only that differs: names, literals, operators and grouping are those of the answer."
  },
  {
   "property": "C173",
   "status": "proved",
   "theorems": [
    "Pemdas.C173_shown",
    "Pemdas.C173_sent",
    "Pemdas.C173_best",
    "Pemdas.C173_refused",
    "Pemdas.C173_every"
   ],
   "note": "C173_every is about every input that a line completes; where the program panics, nothing is sent by it (the message of the panic is not modelled)."
  },
  {
   "property": "C174",
   "status": "partial",
   "theorems": [
    "Pemdas.C174_text",
    "Pemdas.C174_shown_partial",
    "Pemdas.C174_shown_wrong"
   ],
   "note": "The code violates it for sources with a carriage return directly behind a line feed, where the text looked up for an operator is not the one that was read: a symbolic operator can then be named `'+`. Proved for all other sources, and what is shown for every operator."
  },
  {
   "property": "C175",
   "status": "proved",
   "theorems": [
    "Pemdas.C175_decided",
    "Pemdas.C175_between",
    "Pemdas.C175_part",
    "Pemdas.C175_associativity",
    "Pemdas.C175_group"
   ],
   "note": "About single chains, like C01; C09 is about whole expressions."
  },
  {
   "property": "C176",
   "status": "partial",
   "theorems": [
    "Pemdas.Lexer.C176_same_partial",
    "Pemdas.Lexer.C176_again",
    "Pemdas.Lexer.C176_shown",
    "Pemdas.C176_order_wrong",
    "Pemdas.C176_lost_wrong",
    "Pemdas.Lexer.C176_bump_wrong"
   ],
   "note": "Without the care named in the statement it is false: `next` ignores the token that was looked at, `bump` does not read one. The parser takes this care."
  },
  {
   "property": "C177",
   "status": "proved",
   "theorems": [
    "Pemdas.C177_levels",
    "Pemdas.C177_declared",
    "Pemdas.C177_twenty",
    "Pemdas.C177_more"
   ],
   "note": "About single chains, like C01; C09 is about whole expressions."
  },
  {
   "property": "C178",
   "status": "proved",
   "theorems": [
    "Pemdas.C178_pairs",
    "Pemdas.C178_tell"
   ],
   "note": "About single chains, like C01; C09 is about whole expressions."
  },
  {
   "property": "C179",
   "status": "partial",
   "theorems": [
    "Pemdas.C179_again_partial",
    "Pemdas.C179_script_partial",
    "Pemdas.C179_again_wrong"
   ],
   "note": "False for inputs with a `let` that names an operator twice (`C179_again_wrong`). The lists of lines are without commands."
  },
  {
   "property": "C18",
   "status": "partial",
   "theorems": [
    "Pemdas.C18_math_partial",
    "Pemdas.C18_math_precedence_wrong"
   ],
   "note": "The code violates it: * / % get the precedence of + and -."
  },
  {
   "property": "C180",
   "status": "proved",
   "theorems": [
    "Pemdas.C180_programs",
    "Pemdas.C180_next",
    "Pemdas.C180_nine_needed"
   ],
   "note": "C180_programs commutes the whole of resolving with the replacement; C180_next shows that no other numbers get into the table; C180_nine_needed shows that the hypothesis about 9 is needed."
  },
  {
   "property": "C181",
   "status": "proved",
   "theorems": [
    "Pemdas.C181_map",
    "Pemdas.C181_map_ref",
    "Pemdas.C181_shown",
    "Pemdas.C181_methods",
    "Pemdas.C181_lift",
    "Pemdas.C181_lift_map",
    "Pemdas.C181_print",
    "Pemdas.C181_options_lost"
   ],
   "note": "C181_options_lost: the shorthand display_fmt of pairs writes with a new formatter and loses the options, unlike fmt_display of styles."
  },
  {
   "property": "C182",
   "status": "proved",
   "theorems": [
    "Pemdas.C182_unit",
    "Pemdas.C182_equal",
    "Pemdas.C182_set"
   ],
   "note": "The comparisons between units and numbers and between units and formats are the same in both directions in the code."
  },
  {
   "property": "C183",
   "status": "partial",
   "theorems": [
    "Pemdas.C183_resolved_partial",
    "Pemdas.C183_shown",
    "Pemdas.C183_answer_partial",
    "Pemdas.C183_visible_partial",
    "Pemdas.C183_let_wrong"
   ],
   "note": "False for inputs with a `let` that names an operator twice: the fixities that it leaves behind apply to what stands in parentheses to the right of it, but not to the same without parentheses, which has been grouped before (C183_let_wrong). Proved for all other inputs. That other parentheses change the answer is proved for expressions whose texts can be read back (as in C46). Parentheses around bodies of lambdas, arguments and elements are not meant: they are always shown."
  },
  {
   "property": "C184",
   "status": "partial",
   "theorems": [
    "Pemdas.C184_replaced_partial",
    "Pemdas.C184_separately_partial",
    "Pemdas.C184_accepted_partial",
    "Pemdas.C184_fixities_of_place",
    "Pemdas.C184_let_wrong"
   ],
   "note": "False if a `let` names an operator twice: operands behind it are grouped with the fixities that it leaves behind (C184_let_wrong). Proved for all expressions without such `let`s. Replacing is textual: parameters of lambdas do not protect names. Operands whose operators a `let` around them redeclares are grouped differently than on their own (C184_fixities_of_place)."
  },
  {
   "property": "C185",
   "status": "partial",
   "theorems": [
    "Pemdas.C185_names",
    "Pemdas.C185_info",
    "Pemdas.C185_clear",
    "Pemdas.C185_reset_partial",
    "Pemdas.C185_reset_wrong",
    "Pemdas.C185_blanks_partial",
    "Pemdas.C185_blanks_wrong"
   ],
   "note": "False in two places: `:reset` leaves the same session as `:clear --fixities` but reports another number (C185_reset_wrong); `:quit  --no-history` and `:clear --history  --fixities` with two blanks are not understood (C185_blanks_wrong). Proved: all other equalities, and that blanks do not matter for `:load`, `:shell`, `:info`, for commands without arguments, and for `:cd`, `:clear`, `:history` with one argument."
  },
  {
   "property": "C186",
   "status": "partial",
   "theorems": [
    "Pemdas.C186_declarations",
    "Pemdas.C186_resolved_partial",
    "Pemdas.C186_shown",
    "Pemdas.C186_answer_partial",
    "Pemdas.C186_entered_partial",
    "Pemdas.C186_let_wrong"
   ],
   "note": "False for a `let` that names an operator twice, which leaves its fixity behind while two `let`s do not (C186_let_wrong). Proved for all other expressions and for all declarations."
  },
  {
   "property": "C187",
   "status": "partial",
   "theorems": [
    "Pemdas.C187_several_partial",
    "Pemdas.C187_several_wrong",
    "Pemdas.C187_again_partial",
    "Pemdas.C187_order_partial",
    "Pemdas.C187_order_wrong",
    "Pemdas.C187_typed"
   ],
   "note": "False in two places: among several arguments `--math` and `--prelude` are taken for files (C187_several_wrong), and the tables contradict each other on `*`, `/` and `%` (C187_order_wrong). Loading again is proved for files without a `let` that names an operator twice."
  },
  {
   "property": "C188",
   "status": "partial",
   "theorems": [
    "Pemdas.C188_resolved_partial",
    "Pemdas.C188_shown",
    "Pemdas.C188_answer_partial",
    "Pemdas.C188_let_wrong"
   ],
   "note": "False for a `let` that names an operator twice: it leaves its fixity behind even if another `let` hides it (C188_let_wrong, which also shows that different operators are needed for an exchange). Proved for all other expressions."
  },
  {
   "property": "C189",
   "status": "proved",
   "theorems": [
    "Pemdas.C189_input",
    "Pemdas.C189_script",
    "Pemdas.C189_before",
    "Pemdas.C189_idle_let"
   ],
   "note": "Commands are not among the lines: `:fixities` lists the other operators, too."
  },
  {
   "property": "C19",
   "status": "partial",
   "theorems": [
    "Pemdas.C19_prelude_fixities",
    "Pemdas.C19_prelude_count_wrong"
   ],
   "note": "The fixities are proved; the reported count is 23 although 24 are loaded."
  },
  {
   "property": "C190",
   "status": "proved",
   "theorems": [
    "Pemdas.C190_along",
    "Pemdas.C190_after"
   ],
   "note": "What is left behind differs between the ways and is the subject of C11, C14 and C15."
  },
  {
   "property": "C191",
   "status": "partial",
   "theorems": [
    "Pemdas.C191_list_partial",
    "Pemdas.C191_tuple_partial",
    "Pemdas.C191_application_partial",
    "Pemdas.C191_lambda",
    "Pemdas.C191_refused_partial",
    "Pemdas.C191_let_wrong"
   ],
   "note": "False after an element with a `let` that names an operator twice, whose fixity reaches the next element (C191_let_wrong). Proved for all other expressions."
  },
  {
   "property": "C192",
   "status": "proved",
   "theorems": [
    "Pemdas.C192_input",
    "Pemdas.C192_script"
   ],
   "note": "Commands are not among the lines: `:fixities` lists the numbers."
  },
  {
   "property": "C193",
   "status": "proved",
   "theorems": [
    "Pemdas.C193_input",
    "Pemdas.C193_script",
    "Pemdas.C193_accepted"
   ],
   "note": "Commands are not among the lines."
  },
  {
   "property": "C194",
   "status": "partial",
   "theorems": [
    "Pemdas.C194_result_partial",
    "Pemdas.C194_refused_partial",
    "Pemdas.C194_answer_partial",
    "Pemdas.C194_let_wrong"
   ],
   "note": "The code violates this for a `let` that names an operator twice (`C194_let_wrong`); proved for all other expressions. Which errors are shown is not compared, only that some are."
  },
  {
   "property": "C195",
   "status": "partial",
   "theorems": [
    "Pemdas.C195_accepted_partial",
    "Pemdas.C195_answer_partial",
    "Pemdas.C195_let_wrong"
   ],
   "note": "The code violates this for a `let` that names an operator twice (`C195_let_wrong`); proved for all other expressions."
  },
  {
   "property": "C196",
   "status": "proved",
   "theorems": [
    "Pemdas.C196_accepted",
    "Pemdas.C196_exact",
    "Pemdas.C196_input",
    "Pemdas.C196_loaded"
   ],
   "note": ""
  },
  {
   "property": "C20",
   "status": "partial",
   "theorems": [
    "Pemdas.C20_clear_partial",
    "Pemdas.C20_reset_count_wrong"
   ],
   "note": "The code violates it: `:reset` reports one less than it removed."
  },
  {
   "property": "C21",
   "status": "proved",
   "theorems": [
    "Pemdas.C21_same_symbol_iff_same_text",
    "Pemdas.C21_lookup",
    "Pemdas.C21_symbols_dense"
   ],
   "note": ""
  },
  {
   "property": "C22",
   "status": "proved",
   "theorems": [
    "Pemdas.C22_symbols_stable"
   ],
   "note": ""
  },
  {
   "property": "C23",
   "status": "proved",
   "theorems": [
    "Pemdas.C23_predefined",
    "Pemdas.C23_constants",
    "Pemdas.C23_names"
   ],
   "note": ""
  },
  {
   "property": "C24",
   "status": "proved",
   "theorems": [
    "Pemdas.C24_buffers_never_move",
    "Pemdas.C24_slices_stay_valid",
    "Pemdas.C24_no_dangling"
   ],
   "note": ""
  },
  {
   "property": "C25",
   "status": "proved",
   "theorems": [
    "Pemdas.C25_iter_is_deque",
    "Pemdas.C25_iter_in_order"
   ],
   "note": ""
  },
  {
   "property": "C26",
   "status": "proved",
   "theorems": [
    "Pemdas.Lexer.C26_progress",
    "Pemdas.Lexer.C26_terminates"
   ],
   "note": ""
  },
  {
   "property": "C27",
   "status": "partial",
   "theorems": [
    "Pemdas.Lexer.C27_outcomes",
    "Pemdas.Lexer.C27_stops_iff",
    "Pemdas.Lexer.C27_unknown_repeats",
    "Pemdas.Lexer.C27_known_partial",
    "Pemdas.Lexer.C27_ascii_stops_partial",
    "Pemdas.Lexer.C27_iterator_partial",
    "Pemdas.Lexer.C27_iterator_diverges"
   ],
   "note": "The code violates it: an unknown character is reported for ever. Proved: exactly when it stops (if and only if no unknown character is reported, panics aside)."
  },
  {
   "property": "C28",
   "status": "partial",
   "theorems": [
    "Pemdas.Lexer.C28_positions",
    "Pemdas.Lexer.C28_positions_partial",
    "Pemdas.Lexer.C28_positions_wrong"
   ],
   "note": "The code violates it for sources with a line feed directly followed by a carriage return. C28_positions says exactly what happens in general."
  },
  {
   "property": "C29",
   "status": "partial",
   "theorems": [
    "Pemdas.Lexer.C29_token_text_partial",
    "Pemdas.Lexer.C29_token_text_wrong",
    "Pemdas.C29_shifted"
   ],
   "note": "Holds for sources without a line feed directly followed by a carriage return; otherwise the code violates it (C29_token_text_wrong); C29_shifted says for every source which text names and operators get."
  },
  {
   "property": "C30",
   "status": "proved",
   "theorems": [
    "Pemdas.Lexer.C30_maximal_munch",
    "Pemdas.Lexer.C30_token_maximal_partial"
   ],
   "note": "C30_maximal_munch holds for all sources. The additional C30_token_maximal_partial identifies the run with the token's text."
  },
  {
   "property": "C31",
   "status": "partial",
   "theorems": [
    "Pemdas.Lexer.C31_integers_partial",
    "Pemdas.Lexer.C31_integer_source",
    "Pemdas.Lexer.C31_integers_wrong"
   ],
   "note": "Holds for sources without a line feed directly followed by a carriage return; counterexample C31_integers_wrong otherwise. C31_integer_source covers every digit string as a source."
  },
  {
   "property": "C32",
   "status": "partial",
   "theorems": [
    "Pemdas.Lexer.C32_gaps_partial",
    "Pemdas.Lexer.C32_leading_gap_partial",
    "Pemdas.Lexer.C32_last_line_partial",
    "Pemdas.Lexer.C32_gap_wrong"
   ],
   "note": "Holds for sources without a line feed directly followed by a carriage return; counterexample C32_gap_wrong otherwise."
  },
  {
   "property": "C33",
   "status": "partial",
   "theorems": [
    "Pemdas.Lexer.C33_block_comment_partial",
    "Pemdas.Lexer.C33_block_comment_space_partial",
    "Pemdas.Lexer.C33_unterminated",
    "Pemdas.Lexer.C33_block_comment_wrong"
   ],
   "note": "The code violates it: the character after a block comment is lost (C33_block_comment_wrong)."
  },
  {
   "property": "C34",
   "status": "proved",
   "theorems": [
    "Pemdas.Lexer.C34_strings"
   ],
   "note": "For all sources."
  },
  {
   "property": "C35",
   "status": "partial",
   "theorems": [
    "Pemdas.Lexer.C35_plain_partial",
    "Pemdas.Lexer.C35_escape",
    "Pemdas.Lexer.C35_unicode_partial",
    "Pemdas.Lexer.C35_unicode_wrong",
    "Pemdas.Lexer.C35_nul_wrong"
   ],
   "note": "The code violates it for unicode escapes (a character after the closing quote is lost) and for NUL."
  },
  {
   "property": "C36",
   "status": "partial",
   "theorems": [
    "Pemdas.Lexer.C36_panics_partial",
    "Pemdas.Lexer.C36_lower_case_partial",
    "Pemdas.Lexer.C36_panics",
    "Pemdas.Lexer.C36_upper_wrong"
   ],
   "note": "The code violates it for identifiers with an upper-case initial or a leading underscore; C36_panics and C36_panics_partial say exactly when it panics. Holds for sources without a line feed directly followed by a carriage return."
  },
  {
   "property": "C37",
   "status": "proved",
   "theorems": [
    "Pemdas.C37_terminates"
   ],
   "note": "The model's recursion is bounded by fuel; the theorem says the fuel never runs out and that more does not change the outcome."
  },
  {
   "property": "C38",
   "status": "proved",
   "theorems": [
    "Pemdas.C38_declarations",
    "Pemdas.C38_written"
   ],
   "note": ""
  },
  {
   "property": "C39",
   "status": "partial",
   "theorems": [
    "Pemdas.C39_panics_wrong",
    "Pemdas.C39_not_accepted_partial"
   ],
   "note": "The code violates it: it panics (todo!). Proved: such a source is never accepted."
  },
  {
   "property": "C40",
   "status": "proved",
   "theorems": [
    "Pemdas.C40_shape",
    "Pemdas.C40_shape_expr",
    "Pemdas.C40_right_nested"
   ],
   "note": ""
  },
  {
   "property": "C41",
   "status": "proved",
   "theorems": [
    "Pemdas.C41_chain",
    "Pemdas.C41_atoms",
    "Pemdas.C41_source_order"
   ],
   "note": ""
  },
  {
   "property": "C42",
   "status": "proved",
   "theorems": [
    "Pemdas.C42_curry",
    "Pemdas.C42_body_to_end",
    "Pemdas.C42_never_left_operand",
    "Pemdas.C42_never_applied_on_line"
   ],
   "note": ""
  },
  {
   "property": "C43",
   "status": "proved",
   "theorems": [
    "Pemdas.C43_panics",
    "Pemdas.C43_panics_plain"
   ],
   "note": ""
  },
  {
   "property": "C44",
   "status": "proved",
   "theorems": [
    "Pemdas.C44_table_irrelevant"
   ],
   "note": ""
  },
  {
   "property": "C45",
   "status": "proved",
   "theorems": [
    "Pemdas.C45_printing_succeeds",
    "Pemdas.C45_prints_iff"
   ],
   "note": ""
  },
  {
   "property": "C46",
   "status": "partial",
   "theorems": [
    "Pemdas.C46_reparse_partial",
    "Pemdas.C46_lines_partial",
    "Pemdas.C46_source_partial",
    "Pemdas.C46_section_wrong",
    "Pemdas.C46_short_operator_wrong",
    "Pemdas.C46_applied_lambda_wrong",
    "Pemdas.C46_patterns_wrong",
    "Pemdas.C46_escape_wrong",
    "Pemdas.C46_let_wrong",
    "Pemdas.C46_parentheses_grow"
   ],
   "note": "The code violates it for operators in parentheses that are names, operators of one character, applied lambdas, some patterns, characters that are not printable, and it does not print let declarations. Proved for all other expressions, and for what is printed for sources in which no lambda or let is applied, which includes all sources on one line."
  },
  {
   "property": "C47",
   "status": "partial",
   "theorems": [
    "Pemdas.C47_balanced_partial",
    "Pemdas.C47_balanced_source_partial",
    "Pemdas.C47_balanced_wrong"
   ],
   "note": "The code violates it for an operator whose name is a bracket (an apostrophe, a bracket and a space). Proved for expressions whose names contain no bracket or escape character, and for sources that only have such names."
  },
  {
   "property": "C48",
   "status": "proved",
   "theorems": [
    "Pemdas.C48_styled_output",
    "Pemdas.C48_fragments",
    "Pemdas.C48_strip",
    "Pemdas.C48_framed",
    "Pemdas.C48_start_variants",
    "Pemdas.C48_pen_partial",
    "Pemdas.C48_normal_resets_formats"
   ],
   "note": "Against a terminal (SGR) semantics, for texts without escape characters; C48_framed holds for every text. C48_pen_partial additionally identifies the selected pen."
  },
  {
   "property": "C49",
   "status": "proved",
   "theorems": [
    "Pemdas.C49_sent",
    "Pemdas.C49_listing",
    "Pemdas.C49_complete"
   ],
   "note": "What is sent to the terminal is determined for every table; what the terminal shows, for operator names without escape characters."
  },
  {
   "property": "C50",
   "status": "proved",
   "theorems": [
    "Pemdas.C50_blank_ignored",
    "Pemdas.C50_blank_removable"
   ],
   "note": ""
  },
  {
   "property": "C51",
   "status": "proved",
   "theorems": [
    "Pemdas.C51_accumulates",
    "Pemdas.C51_processed",
    "Pemdas.C51_split_irrelevant"
   ],
   "note": ""
  },
  {
   "property": "C52",
   "status": "proved",
   "theorems": [
    "Pemdas.C52_commands_refused"
   ],
   "note": ""
  },
  {
   "property": "C53",
   "status": "proved",
   "theorems": [
    "Pemdas.C53_ends_iff",
    "Pemdas.C53_loop_left_iff",
    "Pemdas.C53_crashes"
   ],
   "note": ""
  },
  {
   "property": "C54",
   "status": "proved",
   "theorems": [
    "Pemdas.C54_commands_that_change_fixities",
    "Pemdas.C54_commands_keep_the_rest"
   ],
   "note": ""
  },
  {
   "property": "C55",
   "status": "proved",
   "theorems": [
    "Pemdas.C55_first_echoed",
    "Pemdas.C55_rejected_not_echoed"
   ],
   "note": ""
  },
  {
   "property": "C56",
   "status": "partial",
   "theorems": [
    "Pemdas.C56_one_line_partial",
    "Pemdas.C56_not_until_brace",
    "Pemdas.C56_closing_brace_wrong"
   ],
   "note": "The code violates it for blocks of several lines: any line ends the block, and its closing brace is kept."
  },
  {
   "property": "C57",
   "status": "partial",
   "theorems": [
    "Pemdas.C57_haskell_file_partial",
    "Pemdas.C57_separate_wrong"
   ],
   "note": "The code violates it: the lines are concatenated without separators. Proved: exactly these lines are fed, as one input."
  },
  {
   "property": "C58",
   "status": "partial",
   "theorems": [
    "Pemdas.C58_unquoted_partial",
    "Pemdas.Session.C58_opened_partial",
    "Pemdas.C58_quoted_wrong"
   ],
   "note": "The code violates it for every quoted path: the closing quote is kept."
  },
  {
   "property": "C59",
   "status": "proved",
   "theorems": [
    "Pemdas.C59_info"
   ],
   "note": "As for C49."
  },
  {
   "property": "C60",
   "status": "proved",
   "theorems": [
    "Pemdas.C60_checked",
    "Pemdas.C60_roundtrip",
    "Pemdas.C60_out_of_range"
   ],
   "note": ""
  },
  {
   "property": "C61",
   "status": "partial",
   "theorems": [
    "Pemdas.C61_color_total",
    "Pemdas.C61_tick_untick",
    "Pemdas.C61_period_seven",
    "Pemdas.C61_consecutive_differ",
    "Pemdas.C61_wrap_breaks_period",
    "Pemdas.C61_ansi_rainbow"
   ],
   "note": "Proved for all counters that do not wrap around; C61_wrap_breaks_period shows the period breaks when the usize counter wraps."
  },
  {
   "property": "C62",
   "status": "partial",
   "theorems": [
    "Pemdas.C62_saturation",
    "Pemdas.C62_red_and_green_partial",
    "Pemdas.C62_blue_wrong",
    "Pemdas.C62_green_blue_swapped"
   ],
   "note": "The code violates it for blue and green (C62_blue_wrong)."
  },
  {
   "property": "C63",
   "status": "partial",
   "theorems": [
    "Pemdas.C63_background_wrong",
    "Pemdas.C63_background_partial"
   ],
   "note": "The code violates it for palette colours: the foreground is set instead."
  },
  {
   "property": "C64",
   "status": "proved",
   "theorems": [
    "Pemdas.C64_flags_independent",
    "Pemdas.C64_config_ext",
    "Pemdas.C64_flag_laws",
    "Pemdas.C64_colours",
    "Pemdas.C64_styled"
   ],
   "note": ""
  },
  {
   "property": "C65",
   "status": "proved",
   "theorems": [
    "Pemdas.C65_is_prefix"
   ],
   "note": ""
  },
  {
   "property": "C66",
   "status": "partial",
   "theorems": [
    "Pemdas.C66_strip_prefix_partial",
    "Pemdas.C66_leading_whitespace",
    "Pemdas.C66_exactly"
   ],
   "note": "The code is wrong with leading whitespace (counterexample). C66_exactly says what it does for all texts."
  },
  {
   "property": "C67",
   "status": "proved",
   "theorems": [
    "Pemdas.C67_numlen",
    "Pemdas.C67_numlen_decimal"
   ],
   "note": ""
  },
  {
   "property": "C68",
   "status": "partial",
   "theorems": [
    "Pemdas.C68_exactly",
    "Pemdas.C68_errors_display_partial",
    "Pemdas.C68_empty_char_wrong"
   ],
   "note": "The code violates it for the empty character literal. Proved: it panics exactly when the error is about one."
  },
  {
   "property": "C69",
   "status": "proved",
   "theorems": [
    "Pemdas.Lexer.C69_spans_ordered"
   ],
   "note": ""
  },
  {
   "property": "C70",
   "status": "proved",
   "theorems": [
    "Pemdas.C70_layout",
    "Pemdas.C70_layout_expression",
    "Pemdas.C70_one_line"
   ],
   "note": ""
  },
  {
   "property": "C71",
   "status": "partial",
   "theorems": [
    "Pemdas.Lexer.C71_backtick_partial",
    "Pemdas.Lexer.C71_apostrophe_partial",
    "Pemdas.Lexer.C71_one_character_partial",
    "Pemdas.Lexer.C71_one_character_wrong"
   ],
   "note": "The code violates it for one-character names after an apostrophe. Proved: exactly what happens to them, and all other names (sources without a line feed directly followed by a carriage return)."
  },
  {
   "property": "C72",
   "status": "partial",
   "theorems": [
    "Pemdas.Lexer.C72_span_partial",
    "Pemdas.Lexer.C72_string_span_partial",
    "Pemdas.Lexer.C72_plain_string_span_partial",
    "Pemdas.Lexer.C72_span_wrong"
   ],
   "note": "The code violates it for string literals with an escaped newline; C72_string_span_partial says what the span of a string literal is, exactly."
  },
  {
   "property": "C73",
   "status": "proved",
   "theorems": [
    "Pemdas.C73_program",
    "Pemdas.C73_expression"
   ],
   "note": ""
  },
  {
   "property": "C74",
   "status": "partial",
   "theorems": [
    "Pemdas.C74_kinds_partial",
    "Pemdas.C74_kinds_wrong"
   ],
   "note": "Holds for sources without a line feed directly followed by a carriage return; the code violates it otherwise. A promoted name of one character may have taken in the whitespace after it (C71)."
  },
  {
   "property": "C75",
   "status": "proved",
   "theorems": [
    "Pemdas.C75_quit_saves",
    "Pemdas.C75_eof_does_not_save"
   ],
   "note": ""
  },
  {
   "property": "C76",
   "status": "partial",
   "theorems": [
    "Pemdas.C76_clear",
    "Pemdas.C76_set",
    "Pemdas.C76_save_partial",
    "Pemdas.C76_save_to_wrong",
    "Pemdas.C76_set_prefix_wrong"
   ],
   "note": "The code violates it: `--save <path>` reports another file than the one written."
  },
  {
   "property": "C77",
   "status": "proved",
   "theorems": [
    "Pemdas.C77_unknown_command"
   ],
   "note": ""
  },
  {
   "property": "C78",
   "status": "partial",
   "theorems": [
    "Pemdas.C78_prompt_partial",
    "Pemdas.C78_kinds_of_lines",
    "Pemdas.C78_prompt_wrong"
   ],
   "note": "The code violates it in both directions. Proved: what every line does to the prompt."
  },
  {
   "property": "C79",
   "status": "proved",
   "theorems": [
    "Pemdas.C79_start",
    "Pemdas.C79_directory"
   ],
   "note": ""
  },
  {
   "property": "C80",
   "status": "proved",
   "theorems": [
    "Pemdas.C80_reachable"
   ],
   "note": ""
  },
  {
   "property": "C81",
   "status": "proved",
   "theorems": [
    "Pemdas.C81_program",
    "Pemdas.C81_expression",
    "Pemdas.C81_unambiguous",
    "Pemdas.C81_one_line",
    "Pemdas.C81_one_line_expression"
   ],
   "note": ""
  },
  {
   "property": "C82",
   "status": "proved",
   "theorems": [
    "Pemdas.C82_operands_irrelevant"
   ],
   "note": ""
  },
  {
   "property": "C83",
   "status": "proved",
   "theorems": [
    "Pemdas.C83_mirror",
    "Pemdas.C83_mirror_error"
   ],
   "note": ""
  },
  {
   "property": "C84",
   "status": "proved",
   "theorems": [
    "Pemdas.C84_loosest_splits",
    "Pemdas.C84_loosest_error"
   ],
   "note": ""
  },
  {
   "property": "C85",
   "status": "proved",
   "theorems": [
    "Pemdas.C85_left_chain",
    "Pemdas.C85_right_chain",
    "Pemdas.C85_neither_chain"
   ],
   "note": ""
  },
  {
   "property": "C86",
   "status": "proved",
   "theorems": [
    "Pemdas.Resolver.C86_parentheses_override",
    "Pemdas.Resolver.C86_list"
   ],
   "note": ""
  },
  {
   "property": "C87",
   "status": "proved",
   "theorems": [
    "Pemdas.C87_echo",
    "Pemdas.C87_typed"
   ],
   "note": "For histories in which no `let` declares an operator twice (see C15) and names without brackets or escape characters."
  },
  {
   "property": "C88",
   "status": "proved",
   "theorems": [
    "Pemdas.C88_composed",
    "Pemdas.C88_visible",
    "Pemdas.C88_builders",
    "Pemdas.C88_builders_styles",
    "Pemdas.C88_reset_colors",
    "Pemdas.C88_and_also",
    "Pemdas.C88_debug"
   ],
   "note": "For parts whose texts contain no escape character."
  },
  {
   "property": "C89",
   "status": "partial",
   "theorems": [
    "Pemdas.C89_nested_partial",
    "Pemdas.C89_nested_wrong",
    "Pemdas.C89_wrapped_blue"
   ],
   "note": "The code violates it: text that follows a styled part inside an outer style is drawn without any style. Proved for all values where, inside a style, nothing follows a styled part."
  },
  {
   "property": "C90",
   "status": "proved",
   "theorems": [
    "Pemdas.C90_maybe_from_u8",
    "Pemdas.C90_from_u8",
    "Pemdas.C90_codes"
   ],
   "note": ""
  },
  {
   "property": "C91",
   "status": "proved",
   "theorems": [
    "Pemdas.C91_highlighted",
    "Pemdas.C91_lossy",
    "Pemdas.C91_no_colour"
   ],
   "note": ""
  },
  {
   "property": "C92",
   "status": "proved",
   "theorems": [
    "Pemdas.C92_symbol_as_text",
    "Pemdas.C92_predicates"
   ],
   "note": "For fewer than 2^32 distinct texts."
  },
  {
   "property": "C93",
   "status": "partial",
   "theorems": [
    "Pemdas.C93_borrow_hash_wrong",
    "Pemdas.C93_borrow_hash_wrong_small",
    "Pemdas.C93_hash_partial"
   ],
   "note": "The code violates it: the number is hashed, not the text. Proved: symbols hash alike iff they are equal."
  },
  {
   "property": "C94",
   "status": "partial",
   "theorems": [
    "Pemdas.C94_value_partial",
    "Pemdas.C94_text_injective_partial",
    "Pemdas.C94_negative_exponent_wrong",
    "Pemdas.C94_positive_exponent_wrong"
   ],
   "note": "The code violates it for every non-zero exponent (no `e` is written). Proved for exponent zero."
  },
  {
   "property": "C95",
   "status": "proved",
   "theorems": [
    "Pemdas.C95_lexical_grammar",
    "Pemdas.C95_unambiguous",
    "Pemdas.C95_columns",
    "Pemdas.C133_blanks",
    "Pemdas.C133_operators",
    "Pemdas.C133_trailing",
    "Pemdas.C95_every_source",
    "Pemdas.C95_every_source_unambiguous",
    "Pemdas.C95_agrees"
   ],
   "note": ""
  },
  {
   "property": "C96",
   "status": "proved",
   "theorems": [
    "Pemdas.C96_one_line_programs",
    "Pemdas.C96_one_line_expressions",
    "Pemdas.C96_programs",
    "Pemdas.C96_texts",
    "Pemdas.C96_every_source"
   ],
   "note": ""
  },
  {
   "property": "C97",
   "status": "proved",
   "theorems": [
    "Pemdas.C97_range",
    "Pemdas.C97_expression",
    "Pemdas.C97_declaration",
    "Pemdas.C97_parse_expr",
    "Pemdas.C97_never",
    "Pemdas.C97_range_lines",
    "Pemdas.C97_expression_lines",
    "Pemdas.C97_never_lines",
    "Pemdas.C97_applied_lambda"
   ],
   "note": ""
  },
  {
   "property": "C98",
   "status": "proved",
   "theorems": [
    "Pemdas.C98_first_clash",
    "Pemdas.C98_first_exists_unique",
    "Pemdas.C98_prefix_decides"
   ],
   "note": ""
  },
  {
   "property": "C99",
   "status": "partial",
   "theorems": [
    "Pemdas.C99_exact_partial",
    "Pemdas.C99_input_exact_partial",
    "Pemdas.C99_rules_functional",
    "Pemdas.C99_exact_wrong"
   ],
   "note": "Proved for expressions in which no `let` names an operator twice; the code violates it otherwise (see C11)."
  }
 ]
}