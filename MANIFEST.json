{"claims": [
 {"property": "C01", "status": "proved", "theorems": ["Treerack.C01_termination", "Treerack.init_terminates"], "note": "For every history of calls after which Init succeeds."},
 {"property": "C02", "status": "proved", "theorems": ["Treerack.C02_soundness"], "note": "Syntaxes without whitespace definitions; the whitespace case is C19."},
 {"property": "C03", "status": "proved", "theorems": ["Treerack.C03_complete"], "note": ""},
 {"property": "C04", "status": "partial", "theorems": ["Treerack.C04_nodes", "Treerack.C04_nodes_ws_partial", "Treerack.C10_alias", "Treerack.C19_stale_keyword_counterexample"], "note": "Full without whitespace definitions; with them under WsSafe, and false without it: the witness has a node that is not derivable. C10_alias: the part about the names, without conditions."},
 {"property": "C05", "status": "partial", "theorems": ["Treerack.C05_nested", "Treerack.C05_nested_ws", "Treerack.C05_char_reference_counterexample"], "note": "For syntaxes with no other left recursion than choices a with options of the form s = a tail (any number of them, the other options next to each other, tail and a not empty, only a refers to s), where keywords are texts and choices are not checked for keywords. References only by the names given by calls: with references to the single characters of classes and texts (a:0) the claim is false, see the counterexample, also without left recursion, keywords and whitespace. The theorems with _ws are for the syntaxes with whitespace definitions (names as in documents, keywords not rewritten by the whitespace), the others for those without."},
 {"property": "C06", "status": "partial", "theorems": ["Treerack.C06_exactness", "Treerack.C06_exactness_ws", "Treerack.C06_outcome_partial", "Treerack.C06_outcome_ws_partial", "Treerack.C06_char_reference_counterexample"], "note": "For syntaxes with no other left recursion than choices a with options of the form s = a tail (any number of them, the other options next to each other, tail and a not empty, only a refers to s), where keywords are texts and choices are not checked for keywords. References only by the names given by calls: with references to the single characters of classes and texts (a:0) the claim is false, see the counterexample, also without left recursion, keywords and whitespace. C06_outcome_partial: with such references, too, what Parse returns, when it returns, is right. The theorems with _ws are for the syntaxes with whitespace definitions (names as in documents, keywords not rewritten by the whitespace), the others for those without."},
 {"property": "C07", "status": "partial", "theorems": ["Treerack.C07_choice", "Treerack.C39_match", "Treerack.C08_memo", "Treerack.C08_memo_ws"], "note": "For syntaxes with no other left recursion than choices a with options of the form s = a tail (any number of them, the other options next to each other, tail and a not empty, only a refers to s), where keywords are texts and choices are not checked for keywords. The theorems with _ws are for the syntaxes with whitespace definitions (names as in documents, keywords not rewritten by the whitespace), the others for those without. C08_memo and C08_memo_ws connect the parsers with the reference semantics."},
 {"property": "C08", "status": "partial", "theorems": ["Treerack.C08_memo", "Treerack.C08_independent", "Treerack.C08_memo_ws", "Treerack.C08_independent_ws"], "note": "For syntaxes with no other left recursion than choices a with options of the form s = a tail (any number of them, the other options next to each other, tail and a not empty, only a refers to s), where keywords are texts and choices are not checked for keywords. The theorems with _ws are for the syntaxes with whitespace definitions (names as in documents, keywords not rewritten by the whitespace), the others for those without. Without whitespace definitions and NoKeyword definitions there is no other condition than that on left recursion."},
 {"property": "C09", "status": "partial", "theorems": ["Treerack.C09_tree", "Treerack.C09_unique", "Treerack.C09_accepted", "Treerack.C09_tree_ws", "Treerack.C09_accepted_ws", "Treerack.C05_char_reference_counterexample"], "note": "For syntaxes with no other left recursion than choices a with options of the form s = a tail (any number of them, the other options next to each other, tail and a not empty, only a refers to s), where keywords are texts and choices are not checked for keywords. References only by the names given by calls: with references to the single characters of classes and texts (a:0) the claim is false, see the counterexample, also without left recursion, keywords and whitespace. The theorems with _ws are for the syntaxes with whitespace definitions (names as in documents, keywords not rewritten by the whitespace), the others for those without."},
 {"property": "C10", "status": "proved", "theorems": ["Treerack.C10_alias"], "note": "For all accepted calls and documents, with and without whitespace definitions, keywords and left recursion."},
 {"property": "C11", "status": "proved", "theorems": ["Treerack.C11_reader", "Treerack.C11_exact"], "note": ""},
 {"property": "C12", "status": "partial", "theorems": ["Treerack.C12_invalid_partial", "Treerack.C12_only", "Treerack.C12_panic_counterexample"], "note": "Never accepted and only these errors; but Parse may panic on invalid unicode, see the counterexample."},
 {"property": "C13", "status": "partial", "theorems": ["Treerack.C13_panic_partial", "Treerack.C13_accepted_partial", "Treerack.C13_unmatched_partial", "Treerack.C13_unmatched_ws_partial", "Treerack.C13_nullable_partial", "Treerack.C13_nullable_ws_partial", "Treerack.C13_error_panic_counterexample", "Treerack.C13_build_panic_counterexample", "Treerack.C13_accepted_ws_partial", "Treerack.C06_char_reference_counterexample"], "note": "The claim is false, see the counterexamples; on valid unicode the parsing phase does not panic, accepted inputs do not panic, and neither does an input of which the root matches any beginning, even the empty one; a syntax whose root may be empty never panics on valid unicode. For syntaxes with no other left recursion than choices a with options of the form s = a tail (any number of them, the other options next to each other, tail and a not empty, only a refers to s), where keywords are texts and choices are not checked for keywords, references by the names given by calls. The theorems with _ws are for the syntaxes with whitespace definitions (names as in documents, keywords not rewritten by the whitespace), the others for those without."},
 {"property": "C14", "status": "proved", "theorems": ["Treerack.C14_position"], "note": ""},
 {"property": "C15", "status": "proved", "theorems": ["Treerack.C15_class", "Treerack.C15_end", "Treerack.C15_any"], "note": "Stated for the class and anyChar definitions of any successful definition calls, at any attempt made during a parse."},
 {"property": "C16", "status": "partial", "theorems": ["Treerack.C16_numbers", "Treerack.C16_range", "Treerack.C16_greedy", "Treerack.C16_within_partial", "Treerack.C16_above_counterexample"], "note": "Ranges are kept in full when the bounds are ordered; a range with min above max matches exactly max times, shown by the counterexample. The match count theorem is about the reference semantics, C08_memo and C08_memo_ws connect it with the parsers."},
 {"property": "C17", "status": "partial", "theorems": ["Treerack.C17_match_partial", "Treerack.C17_tree_partial", "Treerack.C17_choice_counterexample", "Treerack.C17_memo_counterexample"], "note": "False for the code: NoKeyword is not effective on choices, and a keyword that is a choice may be missed because of a recorded longer match (witnesses). Proved, for all syntaxes with left recursion and whitespace, for sequences and texts with NoKeyword and keywords that are texts, after any attempts and for every node of every tree (the root only without whitespace)."},
 {"property": "C18", "status": "partial", "theorems": ["Treerack.C18_check_partial", "Treerack.C18_exact_partial", "Treerack.C18_counterexample", "Treerack.C18_check_ws_partial", "Treerack.C18_exact_ws_partial"], "note": "False for the code: the check of a keyword that is a choice leaves a match behind that was found with the limited input (witness: the order of the options decides if a text is accepted). Proved for keywords that are texts, with only direct left recursion, with or without whitespace definitions."},
 {"property": "C19", "status": "partial", "theorems": ["Treerack.C19_soundness_partial", "Treerack.C19_language_partial", "Treerack.C19_stale_keyword_counterexample"], "note": "Under WsSafe; the unrestricted claim is false, see the counterexample."},
 {"property": "C20", "status": "proved", "theorems": ["Treerack.C20_nows", "Treerack.C20_charSequence"], "note": ""},
 {"property": "C21", "status": "partial", "theorems": ["Treerack.C21_rejected", "Treerack.C21_initialized", "Treerack.C21_accepted_partial", "Treerack.C21_calls", "Treerack.C21_counterexample"], "note": "Rejection: after any definition calls. Acceptance: after accepted calls (also as an exact characterization of the accepted lists of calls); false after rejected calls, with a counterexample (the character parser of a rejected class stays registered)."},
 {"property": "C22", "status": "partial", "theorems": ["Treerack.C22_result_partial", "Treerack.C22_name_partial", "Treerack.C21_initialized", "Treerack.C22_root_counterexample", "Treerack.C22_keyword_counterexample"], "note": "False for the code: a rejected duplicate can become the root or a keyword, both with a witness. Proved: all histories whose rejected definitions leave the root and the keywords alone (spelled out by Harmless) return the results of the accepted definitions alone, in syntaxes whose needed definitions exist, with or without whitespace definitions. With whitespace definitions, under WsSafe (names as symbols or numbered members, keywords that are not rewritten)."},
 {"property": "C23", "status": "proved", "theorems": ["Treerack.C23_again", "Treerack.C23_initialized", "Treerack.C23_parsed", "Treerack.C23_generated", "Treerack.C23_failed", "Treerack.C23_empty"], "note": "For Init, Parse and Generate."},
 {"property": "C24", "status": "proved", "theorems": ["Treerack.C24_references", "Treerack.C24_incompatible", "Treerack.C24_terminates", "Treerack.C24_rejected_counterexample"], "note": "With whitespace definitions the references must be symbols (no ':'), i.e. not refer to the definitions generated by Init. After rejected definitions Init can panic, see the counterexample."},
 {"property": "C25", "status": "partial", "theorems": ["Treerack.C25_root_partial", "Treerack.rootOf_marked", "Treerack.rootOf_last", "Treerack.C25_parser", "Treerack.C25_alias"], "note": "After accepted definitions; a rejected definition can become the root (C22_root_counterexample)."},
 {"property": "C26", "status": "partial", "theorems": ["Treerack.C26_linked", "Treerack.init_ranges", "Treerack.C26_grammar_partial", "Treerack.C26_ids_partial", "Treerack.C26_ids_counterexample"], "note": "References, ranges and character sequences: after any calls. Distinct ids: false when the whitespace rewrites a keyword (counterexample), proved otherwise."},
 {"property": "C27", "status": "proved", "theorems": ["Treerack.C27_generalizations", "Treerack.C27_unique_partial"], "note": "After any calls: the id of a generalization belongs to a choice that contains the parser. When ids are unique (C26), it belongs only to such a choice."},
 {"property": "C28", "status": "proved", "theorems": ["Treerack.C28_unescape", "Treerack.C28_rejected", "Treerack.C28_escape", "Treerack.C28_roundtrip", "Treerack.C28_charClass", "Treerack.C28_injective"], "note": "For any escape character and any banned characters; the round trip is an equivalence stating exactly when it holds."},
 {"property": "C29", "status": "proved", "theorems": ["Treerack.C29_refinement", "Treerack.C29_facts", "Treerack.C29_idSet"], "note": "Refinement between the slice level store (bit sets, flat rows of match ends, growing slices) and a set of facts, for all sequences of operations and any growth policy of append."},
 {"property": "C30", "status": "partial", "theorems": ["Treerack.C30_calls", "Treerack.C30_made", "Treerack.C30_added", "Treerack.C30_language_partial", "Treerack.C30_parse_partial", "Treerack.C30_text", "Treerack.C30_read", "Treerack.C30_text_parse_partial", "Treerack.C30_steps", "Treerack.C30_overflow", "Treerack.C30_read_calls", "Treerack.C30_accepted", "Treerack.C30_accepts", "Treerack.C30_unambiguous", "Treerack.C30_rejected", "Treerack.C30_read_only", "Treerack.C30_language_ws_partial", "Treerack.C30_parse_ws_partial", "Treerack.C30_text_parse_ws_partial"], "note": "The parser of the documents accepts exactly the notations of documents (whitespace and comments wherever they are allowed, escapes, parentheses), the notation is not ambiguous, and reading a document equals the definition calls that correspond to it, on any syntax and including failures; numbers from 2^63 on are an error at their place. Reading another text defines nothing. With sound quantifiers the grammar of each definition derives exactly the texts its expression stands for, without and with whitespace definitions, and the parser accepts only these (with whitespace definitions: for DocumentWsSafe documents). Missing: the quantifiers that do not work as documented (C33)."},
 {"property": "C31", "status": "proved", "theorems": ["Treerack.C31_same", "Treerack.C31_comments", "Treerack.C31_insert", "Treerack.C31_inside", "Treerack.C31_text"], "note": "Two notations of the same document are read with the same effect, with any difference in whitespace and comments; all accepted texts are notations (C30_accepts). For the trees: comment nodes at any place and depth, with any change of positions, have no effect."},
 {"property": "C32", "status": "proved", "theorems": ["Treerack.C32_flags", "Treerack.C32_set", "Treerack.C32_definition"], "note": "Each flag is set exactly if its name is among the flag nodes; order and repetition do not matter, also for the whole definition."},
 {"property": "C33", "status": "partial", "theorems": ["Treerack.C33_notation", "Treerack.C33_meaning_partial", "Treerack.C33_none", "Treerack.C33_unsound", "Treerack.C33_zero_counterexample", "Treerack.C33_overflow"], "note": "The notations are read as their minimum and maximum, and these mean the documented numbers when the maximum is positive and not below the minimum. The claim is false for the rest: {0}, {0,0} and {,0} mean exactly one, {n,0} at least n, {n,m} with m below n exactly m. Numbers from 2^63 on are an error."},
 {"property": "C34", "status": "partial", "theorems": ["Treerack.C34_source_partial", "Treerack.C34_overlooked", "Treerack.C34_multiple_counterexample", "Treerack.C34_empty_counterexample", "Treerack.C34_parse", "Treerack.C34_check", "Treerack.C34_refused_partial", "Treerack.C34_checkSyntax", "Treerack.C34_stdin_once", "Treerack.C34_stdin_kept"], "note": "Outside of the option combinations in Overlooked the commands read exactly the one explicit source or the standard input, and refuse several sources. In the overlooked combinations the code deviates, and C34_overlooked says how: an inline text together with one positional file is ignored (C34_multiple_counterexample), and an empty positional argument stands for the empty text (C34_empty_counterexample). Opening files and the standard input are a World parameter of the model."},
 {"property": "C35", "status": "proved", "theorems": ["Treerack.C35_show", "Treerack.C35_command", "Treerack.C35_nothing", "Treerack.sub_nodeAt"], "note": "The JSON text itself (encoding/json) is outside of the model; the printed value is the mapped node tree."},
 {"property": "C36", "status": "partial", "theorems": ["Treerack.C36_generated_partial", "Treerack.C36_declared_partial", "Treerack.C36_character_counterexample", "Treerack.C36_keyword_counterexample"], "note": "False for the code: a reference to the character of a class, and a sequence keyword in a syntax with whitespace, make the generated code declare a variable twice (witnesses). Proved for all other syntaxes (PlainRefs, WsSafe), for the parsers, the builders, the keywords and the roots."},
 {"property": "C37", "status": "partial", "theorems": ["Treerack.C37_outcome_partial", "Treerack.C37_equal_partial", "Treerack.C37_name_counterexample"], "note": "False for the code: with whitespace the generated parser leaves the name of the root out of an error (witness). Proved for all syntaxes under PlainRefs and WsSafe: same tree, same error up to that name, same panics; and exact equality without whitespace. The runtime text embedded in the generated file is taken to be the modelled runtime."},
 {"property": "C38", "status": "proved", "theorems": ["Treerack.C38_independent", "Treerack.C38_failed"], "note": "For a syntax whose initialization fails, it fails again, with possibly another error value."},
 {"property": "C39", "status": "partial", "theorems": ["Treerack.C39_root_partial", "Treerack.C39_match_partial", "Treerack.C39_match", "Treerack.C39_empty_tail_counterexample", "Treerack.C39_shared_counterexample", "Treerack.C39_match_ws_partial", "Treerack.C39_middle_counterexample", "Treerack.C39_option_ws"], "note": "Proved with any number of left recursive options, in front of or behind any number of other options, at any place of a syntax. False for tails that may be empty, when another definition refers to the left recursive option, and when a left recursive option is between the others (witnesses). For syntaxes with no other left recursion than choices a with options of the form s = a tail (any number of them, the other options next to each other, tail and a not empty, only a refers to s), where keywords are texts and choices are not checked for keywords, references by the names given by calls. The theorems with _ws are for the syntaxes with whitespace definitions (names as in documents, keywords not rewritten by the whitespace), the others for those without."},
 {"property": "C40", "status": "proved", "theorems": ["Treerack.C40_text"], "note": ""},
 {"property": "C41", "status": "proved", "theorems": ["Treerack.C41_pending"], "note": ""},
 {"property": "C42", "status": "proved", "theorems": ["Treerack.C42_unreachable"], "note": "For definitions made by calls of the API and by documents, at any position between the other definitions. The compared results are the tree, the error, a panic or not returning. The theorem also covers syntaxes with whitespace definitions, under WsSafe (names as symbols or numbered members, keywords that are not rewritten); without whitespace definitions that condition is empty."},
 {"property": "C43", "status": "proved", "theorems": ["Treerack.C43_definition", "Treerack.C43_empty_name_counterexample"], "note": "For definitions with names that are not empty and have no colon: an empty name, which the API accepts, is reported with an internal name (witness)."},
 {"property": "C44", "status": "partial", "theorems": ["Treerack.C44_text_partial", "Treerack.C44_api_partial", "Treerack.C44_behaviour_partial", "Treerack.C44_error", "Treerack.C44_name_counterexample"], "note": "Names of definitions that can be written between quotes as they are: no quote, backslash, new line (excluded by the API), U+0000 and U+FEFF (not excluded: witness). The function text is read back to exactly the program of the syntax; with C36/C37 the program behaves like the syntax. The head code is a parameter."},
 {"property": "C45", "status": "partial", "theorems": ["Treerack.C45_real", "Treerack.C45_reported_partial", "Treerack.C45_lost_counterexample"], "note": "False in general: the errors of the writes made by Generate itself (head, new line, end of the function) are lost (witness). Proved: a reported error happened, and without an error all statements were written completely."},
 {"property": "C46", "status": "partial", "theorems": ["Treerack.C46_prefix_partial", "Treerack.C46_position_partial", "Treerack.C46_position_ws_partial", "Treerack.C46_keyword_counterexample"], "note": "Proved for all left recursion and for whitespace definitions (names as in C16), when the keywords are texts or no definition is checked for keywords. Other keywords violate it (witness: the check of a keyword continues from a result beyond its limit)."},
 {"property": "C47", "status": "partial", "theorems": ["Treerack.C47_wrap_partial", "Treerack.C47_panic", "Treerack.C47_help", "Treerack.C47_lost_counterexample", "Treerack.C47_panic_counterexample"], "note": "Proved for texts without words longer than 72 characters, among them all the texts of the command. A longer word is replaced by the word before it, or the program panics when it is the first one (C47_panic: exactly then)."},
 {"property": "C48", "status": "partial", "theorems": ["Treerack.C48_json_partial", "Treerack.C48_rfc_partial", "Treerack.C48_distinct_partial", "Treerack.C48_plain", "Treerack.C48_indent_counterexample"], "note": "Proved for indentations made of spaces, tabs and new lines; with another indent flag the text is not JSON. C48_rfc_partial: the text is also in the grammar of RFC 8259 (Spec/JsonGrammar.lean), for trees with unicode code points. encoding/json is modelled from its documentation and source."},
 {"property": "C49", "status": "partial", "theorems": ["Treerack.C49_exit_partial", "Treerack.C49_failure_partial", "Treerack.C49_refused", "Treerack.C49_check", "Treerack.C49_show_partial", "Treerack.C49_shown_partial", "Treerack.C49_checkSyntax", "Treerack.C49_generate", "Treerack.C49_output_counterexample"], "note": "Proved when the writes to the standard output do not fail; the errors of printing the tree are ignored, show exits with zero then. The flag package is modelled from its documentation and source. Which sources can be opened is C34."},
 {"property": "C50", "status": "partial", "theorems": ["Treerack.C50_format_partial", "Treerack.C50_document_partial", "Treerack.C50_same", "Treerack.C50_format_ws_partial", "Treerack.C50_document_ws_partial", "Treerack.C50_same_ws", "Treerack.C50_quote_counterexample", "Treerack.C50_group_counterexample", "Treerack.C50_ws_counterexample", "Treerack.C50_charSequence"], "note": "Proved before Init, for the meaning without and with whitespace definitions (the _ws theorems), for documents without quotes in texts of several characters and without a quantifier behind a group of a single item: both violate the claim (witnesses). With whitespace definitions, a group of a single item in a sequence violates it, too (witness). A symbol without a definition makes format panic."},
 {"property": "C51", "status": "proved", "theorems": ["Treerack.C51_text", "Treerack.C51_chunks", "Treerack.C51_accepted", "Treerack.C51_nodes", "Treerack.C51_unique"], "note": "bufio.Reader and unicode/utf8 are modelled from their source. An input that is not UTF-8 is not accepted; that Parse may panic on it is C12."},
 {"property": "C52", "status": "proved", "theorems": ["Treerack.C52_node", "Treerack.C52_node_distinct", "Treerack.C52_error", "Treerack.C52_error_distinct"], "note": "Distinct texts of nodes for names without colons, which are the ones that can be defined."},
 {"property": "C53", "status": "proved", "theorems": ["Treerack.C53_flags", "Treerack.C53_clash", "Treerack.C53_call", "Treerack.C53_init", "Treerack.C53_distinct", "Treerack.C53_strings"], "note": "For all states, not only the reachable ones."},
 {"property": "C54", "status": "partial", "theorems": ["Treerack.C54_parser_partial", "Treerack.C54_read_partial", "Treerack.C54_outcome_partial", "Treerack.C54_panic_counterexample"], "note": "For all documents that are valid unicode; on invalid unicode the claim is false, see the counterexample."},
 {"property": "C55", "status": "proved", "theorems": ["Treerack.C55_boot", "Treerack.C55_generate", "Treerack.C55_parse", "Treerack.C55_tree", "Treerack.C55_documents", "Treerack.C55_read"], "note": "The text of syntax.treerack is in the model. The program that Generate makes from it is compared with the transcribed tables of self.go, entry by entry; the agreement on all inputs follows from the simulation of C37. A root error is without the name of the root in self.go."},
 {"property": "C56", "status": "partial", "theorems": ["Treerack.C56_program_partial", "Treerack.C56_equal_partial", "Treerack.C56_text_partial", "Treerack.C56_language_partial", "Treerack.C56_command_partial", "Treerack.C56_keyword_counterexample"], "note": "Proved for the documents in which no keyword is a sequence with whitespace between its items and no symbol is a number (DocumentWsSafe, only needed in documents with whitespace); without whitespace the results are equal including the errors. The text needs names without U+0000 and U+FEFF, the language needs the quantifiers that work as documented (C33). C56_keyword_counterexample: a document whose generated code declares a variable twice."},
 {"property": "C57", "status": "proved", "theorems": ["Treerack.C57_decisive", "Treerack.C57_lookahead", "Treerack.C57_complete", "Treerack.C57_greedy_counterexample", "Treerack.C57_complete_ws", "Treerack.C57_document_partial"], "note": "For the straightforward syntaxes (Spec/Conditions.lean) without left recursion. C57_decisive: for a single input, when the derivations of the input take as much as possible. C57_greedy_counterexample: without the condition a text of the grammar may be rejected. C57_complete_ws: with whitespace, where the lookahead is the one after the whitespace (Spec/LookaheadWs.lean), and without NoKeyword definitions. C57_document_partial: for the syntaxes that are read from a document with whitespace, the accepted texts are the texts the document stands for; partial because of the same conditions."},
 {"property": "C58", "status": "proved", "theorems": ["Treerack.C58_json", "Treerack.C58_rfc_partial", "Treerack.C58_show", "Treerack.C58_hex_counterexample", "Treerack.C58_control_counterexample", "Treerack.C58_space_counterexample"], "note": "C58_json is the whole claim, with the three differences as the flavor example_ of the grammar in Spec/JsonGrammar.lean. Input with U+FFFD is not accepted (C12). C58_rfc_partial: the texts of the RFC with lowercase hexadecimal digits are accepted. C58_show: the output of the show command without indentation is accepted. The counterexamples show that the three differences are real."},
 {"property": "C59", "status": "partial", "theorems": ["Treerack.C59_tree_partial", "Treerack.C59_tree_ws_partial", "Treerack.C59_document_partial", "Treerack.C59_document_ws_partial", "Treerack.C59_text", "Treerack.C59_range_counterexample"], "note": "The derivation trees are defined in Spec/Trees (from the calls) and Spec/TreesDocument (from the document); nothing in them refers to the parser. For the syntaxes of C09 (other left recursion and references to single characters are excluded), and when no item has a minimum above its maximum: then the claim is false, see C59_range_counterexample. For documents the quantifiers have to be sound (C33), and without whitespace definitions the root is not an alias. The keyword checks are not part of the trees, see C18."},
 {"property": "C60", "status": "proved", "theorems": ["Treerack.C58_tree", "Treerack.C58_single", "Treerack.C58_value"], "note": "The values and how they are read from the nodes are defined in Spec/JsonTree; the texts are those of Spec/JsonGrammar. The names and offsets of nodes are visible to treeValue, nothing else of the parser."},
 {"property": "C61", "status": "proved", "theorems": ["Treerack.C61_tree", "Treerack.C61_unique", "Treerack.C61_tree_ws", "Treerack.C61_unique_ws", "Treerack.C61_document_partial", "Treerack.C61_json", "Treerack.C61_empty_counterexample", "Treerack.C61_gap_counterexample"], "note": "The conditions (LL1, WLL1, Definite, WDefinite) are in Spec/Lookahead, Spec/LookaheadWs and Spec/Definite, and refer to the grammar only; examples/json.treerack meets them (C61_json). Left recursion and definitions that must not match keywords are excluded. C61_document_partial states the same in the terms of the syntax document, for sound quantifiers (C33). Without the conditions on empty items and on whitespace behind the last item there is more than one tree, see the counterexamples."},
 {"property": "C62", "status": "proved", "theorems": ["Treerack.C62_budget", "Treerack.C62_parsing", "Treerack.C62_records"], "note": "The budget of the model bounds the nesting of the parse and build calls and the iterations of each loop. The stack memory used by a Go call is not modelled."},
 {"property": "C63", "status": "partial", "theorems": ["Treerack.C63_traced", "Treerack.C63_choice_partial", "Treerack.C63_choice_settled_partial", "Treerack.C63_choices_partial", "Treerack.C63_polynomial_partial", "Treerack.C63_self", "Treerack.C63_json", "Treerack.C63_sequence_counterexample", "Treerack.C63_polynomial_counterexample"], "note": "Proved for choices (at most once per offset, together at most proportional to the length), for all inputs and earlier calls, and as a polynomial bound of all attempts when no sequence contains itself without a choice in between (with instances: the syntax of syntax definitions and examples/json.treerack). Refuted otherwise: with s = \"(\" (s \"x\")? s? \")\" the text of k nested parentheses leads to at least 2^k attempts of s at the same offset, for every k, so no polynomial bounds the attempts. The trace is part of the model only; C63_traced ties it to the parser."},
 {"property": "C64", "status": "proved", "theorems": ["Treerack.C64_json", "Treerack.C64_sexpr", "Treerack.C64_scheme", "Treerack.C64_keyval", "Treerack.C64_eskip"], "note": "The whole claim for the five documents. Only the conditions of the general theorems are calculated for the examples (the left recursion, the nesting of the sequences, and either that the root may be empty or that it is always known where it fails, Proofs/Firm.lean), the statements are about all inputs."},
 {"property": "C65", "status": "partial", "theorems": ["Treerack.C65_init", "Treerack.C65_generate", "Treerack.C65_checkSyntax", "Treerack.C65_generate_command", "Treerack.C65_check_partial", "Treerack.C65_show_partial", "Treerack.C65_examples", "Treerack.C65_check_counterexample"], "note": "Init, Generate, check-syntax and generate: the whole claim. check and show: when the parser of the document does not panic, in particular with the five example documents; C65_check_counterexample shows a valid document and an input for which check panics, so the full claim is false for the code. The model has no output on the standard error."},
 {"property": "C66", "status": "partial", "theorems": ["Treerack.C66_value_partial", "Treerack.C66_pipe_partial"], "note": "The whole claim for trees without U+FFFD, which is refused in every input (C12), and with an indentation of JSON whitespace (C48_indent_counterexample: with another indentation the text is not JSON). The condition that characters are at most U+10FFFF holds for every rune of Go."}
]}
