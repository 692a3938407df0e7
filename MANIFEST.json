{"claims": [
{"property": "C01", "status": "proved", "theorems": ["Sieve.Glob.matches_octet", "Sieve.Glob.matches_casemap"], "note": ""},
{"property": "C02", "status": "partial", "theorems": ["Sieve.Glob.capture_verdict_octet", "Sieve.Glob.capture_verdict_casemap_partial", "Sieve.Glob.capture_octet_partial", "Sieve.Glob.capture_casemap_partial", "Sieve.Glob.capture_drops_replacement"], "note": "false as stated for values containing U+FFFD (capture_drops_replacement)"},
{"property": "C03", "status": "partial", "theorems": ["Sieve.Glob.capture_octet_partial", "Sieve.Glob.capture_casemap_partial"], "note": "for values without U+FFFD and patterns with at most 63 wildcards"},
{"property": "C04", "status": "proved", "theorems": ["Sieve.SetVar.quotewildcard_literal", "Sieve.SetVar.quotewildcard_literal_casemap", "Sieve.SetVar.set_quotewildcard_literal"], "note": ""},
{"property": "C05", "status": "proved", "theorems": ["Sieve.Source.test_runs", "Sieve.Source.test_value", "Sieve.Source.not_any_value", "Sieve.Source.not_all_value"], "note": "test_runs: left to right with short-circuit and the state threaded through; test_value: the boolean value. Atomic tests that ask the host are covered by runs_as_written (C06)"},
{"property": "C06", "status": "proved", "theorems": ["Sieve.Source.runs_as_written", "Sieve.Source.source_deterministic"], "note": "simulation of the structured semantics in SourceModel for scripts within the compiler's limits; a session that exceeds the limit of instructions is the structured one stopped at that point; `continue` as restricted under C07"},
{"property": "C07", "status": "partial", "theorems": ["Sieve.Source.continue_as_written_partial", "Sieve.Source.continue_evaluates_condition", "Sieve.Source.continue_dropped", "Sieve.Source.continue_rejected", "Sieve.Source.continue_keeps_part", "Sieve.Source.continue_should_leave_part"], "note": "false in directly nested while loops (continue_dropped, continue_rejected) and inside foreverypart (continue_keeps_part); proved otherwise"},
{"property": "C08", "status": "proved", "theorems": ["Sieve.Compile.compiled_in_range", "Sieve.Source.compiled_inRange"], "note": ""},
{"property": "C09", "status": "proved", "theorems": ["Sieve.Vm.implicit_keep", "Sieve.Vm.oversized_script_no_keep"], "note": "for scripts within the run-time variable limits; a script beyond them is silently not run and yields no Keep (oversized_script_no_keep)"},
{"property": "C10", "status": "proved", "theorems": ["Sieve.Vm.error_then_disposition"], "note": ""},
{"property": "C100", "status": "partial", "theorems": ["Sieve.Whole.structure_unique", "Sieve.Whole.structure_accepted", "Sieve.Whole.structure_of_items", "Sieve.Whole.text_runs_partial"], "note": "Composition of C85, C82, C84, C08 and C06. Missing: what is missing there, that is strings with some backslashes and a word at the very end (C85), continue outside of the innermost loop (C07). The instructions that clear variables at the end of blocks are not part of this chain, see C54."},
{"property": "C101", "status": "proved", "theorems": ["Sieve.Compile.compiled_forward", "Sieve.Compile.compiled_depth", "Sieve.Assert.asserted"], "note": "for code of fewer than 2^64 - 1 instructions; the assertion about Clear is C102"},
{"property": "C102", "status": "proved", "theorems": ["Sieve.Scope.clear_in_range", "Sieve.Scope.close_fits"], "note": "close_fits is the step in which the subtraction takes place, clear_in_range is about the whole script"},
{"property": "C103", "status": "partial", "theorems": ["Sieve.MatchVar.match_variables_partial", "Sieve.MatchVar.match_variables_flat_partial", "Sieve.MatchVar.match_number_iff", "Sieve.MatchVar.match_count_le", "Sieve.MatchVar.match_count", "Sieve.MatchVar.match_count_zero", "Sieve.MatchVar.lost_in_test", "Sieve.MatchVar.hidden_by_failure", "Sieve.MatchVar.stale_text", "Sieve.MatchVar.lost_after_block", "Sieve.MatchVar.lost_after_delete", "Sieve.MatchVar.captured_without_variable"], "note": "Proved for variables read where the last successful match was by a test in the innermost block that has one, see guarded, and for all scripts whose tests with a match type are outside of blocks. Missing, as the code does otherwise: variables in the arguments of a test with a match type (lost_in_test), after a failed match in an inner block (hidden_by_failure), after the block of the match (lost_after_block), after deleteheader (lost_after_delete), and numbers beyond the texts captured (stale_text)."},
{"property": "C104", "status": "partial", "theorems": ["Sieve.Flags.fileinto_flags", "Sieve.Flags.implicit_keep_flags", "Sieve.Flags.keep_flags_partial", "Sieve.Flags.kept_iff", "Sieve.Flags.keep_takes_later", "Sieve.Flags.keep_no_flags", "Sieve.Flags.local_flags_repeat"], "note": "Missing, as the code does otherwise: a keep when there are no flags (keep_takes_later), an empty list of flags (keep_no_flags), repetitions in :flags (local_flags_repeat)."},
{"property": "C105", "status": "partial", "theorems": ["Sieve.Func.call_by_name_partial", "Sieve.Func.wrong_number_rejected", "Sieve.Func.name_read", "Sieve.Func.external_collides", "Sieve.Func.external_wraps", "Sieve.Func.second_runtime"], "note": "Proved where the numbers of the functions leave room for each other (Fits). Missing, as the code does otherwise: numbers of functions of the host that meet those of the runtime (external_collides) or exceed the range (external_wraps); a second compiler or runtime made from the same map (second_runtime). Grammar as in C18."},
{"property": "C106", "status": "partial", "theorems": ["Sieve.Value.array_text", "Sieve.Value.array_text_inj_partial", "Sieve.Value.leading_empty_lost", "Sieve.Value.nested_lost", "Sieve.Value.line_break_splits"], "note": "array_text says what the text of any array is. Missing, as the code does otherwise: empty items at the front (leading_empty_lost), arrays within arrays (nested_lost), items with line breaks (line_break_splits)."},
{"property": "C107", "status": "partial", "theorems": ["Sieve.Value.same_number_partial", "Sieve.Value.number_itself", "Sieve.Value.other_number", "Sieve.Value.integer_read_back", "Sieve.Value.numerals_std", "Sieve.Value.exponent_differs"], "note": "Proved for integers in the range of i64 and decimal numbers with a point; other_number says what happens with all others, on which tests and expressions disagree (exponent_differs)."},
{"property": "C108", "status": "partial", "theorems": ["Sieve.Value.equal_hash_partial", "Sieve.Value.hash_complete", "Sieve.Value.equal_hash_differs", "Sieve.Value.zero_hash_differs"], "note": "Proved for values of the same kinds where equal floating point numbers have the same bits. The rest is false: equal_hash_differs, zero_hash_differs."},
{"property": "C109", "status": "partial", "theorems": ["Sieve.Lex.tokens_located_partial", "Sieve.Lex.error_located", "Sieve.Lex.end_located_partial", "Sieve.Lex.first_line_column", "Sieve.Lex.unknown_tag_column", "Sieve.Lex.multi_line_column", "Sieve.Lex.empty_script_column"], "note": "tokens_located_partial and error_located say for every script where each token and each error of the lexer is reported. The code differs from the claim: columns of the first line count from 0 (first_line_column), unknown tags and multi-line strings are not reported at their first byte (unknown_tag_column, multi_line_column), the end of an empty script has the column 2^64-1 (empty_script_column)."},
{"property": "C11", "status": "proved", "theorems": ["Sieve.Vm.run_returns", "Sieve.Vm.counter", "Sieve.Vm.cpu_limit", "Sieve.Vm.cpu_limit_reported"], "note": ""},
{"property": "C110", "status": "partial", "theorems": ["Sieve.Fields.fileinto_fields", "Sieve.Fields.include_fields", "Sieve.Fields.redirect_fields_partial", "Sieve.Fields.vacation_fields", "Sieve.Fields.notify_fields_partial", "Sieve.Fields.replace_fields", "Sieve.Fields.enclose_fields", "Sieve.Fields.addheader_fields", "Sieve.Fields.deleteheader_fields_partial", "Sieve.Fields.header_fields_partial", "Sieve.Fields.address_fields", "Sieve.Fields.envelope_fields", "Sieve.Fields.body_fields", "Sieve.Fields.date_fields", "Sieve.Fields.currentdate_fields", "Sieve.Fields.exists_fields", "Sieve.Fields.duplicate_fields", "Sieve.Fields.string_fields", "Sieve.Fields.spamtest_fields", "Sieve.Fields.two_names_fields", "Sieve.Fields.hasflag_fields", "Sieve.Fields.servermetadata_fields", "Sieve.Fields.last_without_index", "Sieve.Fields.bymode_without_time", "Sieve.Fields.notify_other_items", "Sieve.Fields.unknown_comparator"], "note": "Proved for every accepted sequence of tokens of each command and test. Missing, as the code does otherwise: arguments without effect are accepted (last_without_index, bymode_without_time, notify_other_items), and so are unknown comparators (unknown_comparator)."},
{"property": "C111", "status": "partial", "theorems": ["Sieve.Event.redirect_events_partial", "Sieve.Event.fileinto_events", "Sieve.Event.keep_events", "Sieve.Event.reject_events", "Sieve.Event.include_events", "Sieve.Event.mailboxes_events", "Sieve.Event.specialuse_events", "Sieve.Event.redirect_no_date", "Sieve.Event.redirect_soon"], "note": "From the tokens of the commands to the events, on top of C110; what an argument evaluates to is a parameter (C21, C86). Missing: a time limit of redirect that is not a date, which becomes 1970 (redirect_no_date, redirect_soon). The flags of a string list are taken as they are, see C24 and C104."},
{"property": "C112", "status": "partial", "theorems": ["Sieve.Display.compile_error_place", "Sieve.Display.compile_error_text", "Sieve.Display.runtime_error_text_partial", "Sieve.Display.invalid_instruction_swapped", "Sieve.Display.too_many_includes_silent"], "note": "Proved for compile errors. Missing for runtime errors, as the code does otherwise: line and column of an invalid instruction are exchanged (invalid_instruction_swapped), and the error of too many includes has an empty text (too_many_includes_silent). Debug output of strings is a parameter with the assumption that it can be read back (Debug.Clear, met by simple_clear)."},
{"property": "C113", "status": "partial", "theorems": ["Sieve.Base.base_text_partial", "Sieve.Base.base_structure_partial", "Sieve.Base.kept_message_lost", "Sieve.Base.kept_message_changed", "Sieve.Base.changed_message_lost", "Sieve.Base.outcome_untouched"], "note": "The specification (BaseSpec) is a recursive function on the structure of the script; C100 connects the structure to the text. Missing: scripts in which an action after an explicit keep cancels the implicit keep; there the explicit keep is lost (kept_message_lost, cf. C45). Missing too (hypothesis UpToDate): a message changed after an explicit keep is kept as it was changed afterwards (kept_message_changed); a message that was changed and then filed or redirected with :copy is kept by the implicit keep as it was received (changed_message_lost). A script without commands that change the message needs no such hypothesis (outcome_untouched). Sessions stopped by the limit of instructions are excluded (C11). Loops, includes and expressions that call the host are not of the base language; for these see C06 and C100."},
{"property": "C114", "status": "proved", "theorems": ["Sieve.SetVar.set_changed", "Sieve.SetVar.set_quoteregex"], "note": "Case conversion of characters is a parameter. Given for the last modifier; for the order of the modifiers see C44."},
{"property": "C115", "status": "partial", "theorems": ["Sieve.Lex.quoted_number_partial", "Sieve.Lex.multi_line_no_number"], "note": "For contents without the backslashes for which C33 fails. The laws of the number formats (Writes) are assumptions on the standard library; numExt meets them."},
{"property": "C116", "status": "proved", "theorems": ["Sieve.Script.require_list", "Sieve.Script.require_at", "Sieve.Script.require_missing"], "note": "Fits is the invariant of the compiler and declared the specification used for C82."},
{"property": "C117", "status": "partial", "theorems": ["Sieve.Scope.local_count", "Sieve.Scope.accepted_partial", "Sieve.Scope.local_limit_unused", "Sieve.Scope.match_limit_unused", "Sieve.Scope.large_script_not_run"], "note": "Proved for scripts with at most 256 assignments, which have no more variables than that and are run. The rest is false: the compiler does not read the two settings (local_limit_unused, match_limit_unused), and a script with more than 256 variables is accepted, then not run, without an error (large_script_not_run)."},
{"property": "C118", "status": "partial", "theorems": ["Sieve.Written.header_written", "Sieve.Written.address_written", "Sieve.Written.exists_written", "Sieve.Written.envelope_written", "Sieve.Written.hasflag_written_partial", "Sieve.Written.string_written_partial", "Sieve.Written.header_contains"], "note": "Composition of C110 (arguments to instructions) with C39 and C69 (instructions to results); Meets, Seen, Reads and Part speak of the tags in the script only. For :count and :list see C119. Missing, as the code does otherwise: hasflag :regex, which is treated as :matches, and string with several keys, of which only the last counts (C39). Names given to exists that no header field can have are ignored (C69). header_contains follows one test from its tokens to its result."},
{"property": "C119", "status": "partial", "theorems": ["Sieve.Written.date_written_partial", "Sieve.Written.currentdate_written_partial", "Sieve.Written.body_written_partial", "Sieve.Written.duplicate_written", "Sieve.Written.spamtest_written", "Sieve.Written.virustest_written", "Sieve.Written.metadata_written", "Sieve.Written.servermetadata_written", "Sieve.Written.notifyCapability_written", "Sieve.Written.header_listed", "Sieve.Written.address_listed", "Sieve.Written.envelope_listed", "Sieve.Written.string_listed", "Sieve.Written.header_counted", "Sieve.Written.header_counted_all", "Sieve.Written.address_counted", "Sieve.Written.string_counted", "Sieve.Written.date_counted", "Sieve.Written.date_counted_all", "Sieve.Written.envelope_counted", "Sieve.Written.metadata_counted", "Sieve.Written.servermetadata_counted"], "note": "Composition of C110 with C39, C66 and C70 to C74. Missing, as the code does otherwise: date and currentdate with :regex, which is treated as :matches, and Julian days before 1858 (C74); body :content with items that are no content types (C66). header :count with an option of :mime ignores content types that the script has added (added_type_not_counted)."},
{"property": "C12", "status": "partial", "theorems": ["Sieve.Vm.include_depth", "Sieve.Vm.too_deep_reported", "Sieve.Vm.loaded_cached", "Sieve.Vm.once_honoured_partial", "Sieve.Vm.once_registered_runs_twice"], "note": ":once is honoured for scripts supplied by the host; a script registered with the runtime and included with :once runs every time (once_registered_runs_twice)"},
{"property": "C120", "status": "partial", "theorems": ["Sieve.Written.addheader_written", "Sieve.Written.deleteheader_written", "Sieve.Written.vacation_written", "Sieve.Written.vacation_reply_written_partial", "Sieve.Written.notify_written", "Sieve.Written.replace_written_partial", "Sieve.Written.enclose_written_partial"], "note": "Composition of C110 with C37, C40, C41, C53, C57, C58 and C90; the relations Says, Lists, CopySaid, VacationSaid, ReplySaid, NotifySaid, ReplaceSaid, EncloseSaid, NewName, Placed and Deleted speak of the tags in the script only, and each determines what is asked for (the theorems say that there is exactly one). Missing, as the code does otherwise: replies with line breaks in their fields or with more than one sender in the envelope, and :mime (C41, C53); replace of parts that have parts (C58); enclose with Content-Type among its fields (C57)."},
{"property": "C121", "status": "partial", "theorems": ["Sieve.Core.core_text_partial", "Sieve.Core.core_unique"], "note": "Composition of C100 (text to code), C113 (code to events), C118 (tests) and C111 (actions). The meaning of a script (RunBlk) is given on its structure and its arguments as they are written; core_unique says that there is only one. Missing, as the code does otherwise: an action that cancels the implicit keep after a keep (Base.kept_message_lost, C113); and time limits of redirect that are no dates, for which the meaning is open. Arguments with variables are outside of the language."},
{"property": "C122", "status": "partial", "theorems": ["Sieve.Vars.vars_text_partial", "Sieve.Vars.vars_unique", "Sieve.Vars.scopes_agree", "Sieve.Vars.string_accepted_partial", "Sieve.Vars.string_says_partial", "Sieve.Vars.reference_says"], "note": "As C121, with the variables as part of the state. scopes_agree joins the names to the slots of the compiler (C22). Missing, as the code does otherwise: a cancelled implicit keep after a keep (C113), :replace in set and encoded characters with a bad last number (C61); scripts with variables of inner blocks are the subject of C22 only. If a set has two modifiers of the same precedence, which RFC 5229 forbids and the compiler allows, their order is open (vars_unique)."},
{"property": "C123", "status": "partial", "theorems": ["Sieve.FlagLang.flags_text_partial", "Sieve.FlagLang.flags_unique_partial"], "note": "As C122, with the flags as part of the state; the structure of scripts is proved once for all languages of this kind (LangProps). Missing, as the code does otherwise: what becomes of texts that are not flags (C24) and of flags that are there twice when removeflag is used (C25), :regex in hasflag, date and currentdate and Julian days before 1858 (C118, C119), and a cancelled implicit keep after a keep (C113). flags_unique_partial: the order of flags after removeflag is left open, as RFC 5232 does."},
{"property": "C124", "status": "partial", "theorems": ["Sieve.AskLang.asks_text_partial", "Sieve.AskLang.test_finds"], "note": "As C123; the answers of the host are any function of the number of the question, so all sequences of answers are covered. Missing, as the code does otherwise: several keys of environment (C118), content types of body that are none (C66), a cancelled implicit keep after a keep (C113), and what C123 lacks. metadataexists without annotations is outside of the language."},
{"property": "C125", "status": "partial", "theorems": ["Sieve.MailLang.mails_text_partial", "Sieve.MailLang.request_does", "Sieve.MailLang.models"], "note": "As C124, for the language with notify and vacation. Missing, as the code does otherwise: what a reply is if texts of its header have line breaks, if the envelope has several senders and with :mime (C41), and a cancelled implicit keep after a keep (C113). Messages that notify sends itself do not count for the limit (C90)."},
{"property": "C126", "status": "partial", "theorems": ["Sieve.EditLang.edits_text_partial", "Sieve.EditLang.adds_does", "Sieve.EditLang.removes_does", "Sieve.EditLang.models"], "note": "As C125, with the message as part of the state. Missing, as the code does otherwise: a message that is changed after a keep without being delivered afterwards, and one that is delivered after its last change and then kept only implicitly (UpToDate; Base.kept_message_changed, Base.changed_message_lost), a cancelled implicit keep after a keep (C113), and what C125 lacks. What addheader and deleteheader change is stated as in C120."},
{"property": "C13", "status": "proved", "theorems": ["Sieve.Vm.redirect_limit", "Sieve.Vm.redirect_refused", "Sieve.Vm.vacation_below", "Sieve.Vm.notify_mailto_unlimited", "Sieve.Vm.notify_counted"], "note": "notifications by mail are not counted against the limit by the code (notify_mailto_unlimited)"},
{"property": "C14", "status": "proved", "theorems": ["Sieve.Vm.ids_announced", "Sieve.Vm.announced_nodup", "Sieve.Vm.edited_delivery", "Sieve.Vm.edited_keep"], "note": ""},
{"property": "C15", "status": "proved", "theorems": ["Sieve.Vm.require_enforced"], "note": ""},
{"property": "C16", "status": "partial", "theorems": ["Sieve.Vm.answer_value_partial", "Sieve.Vm.unasked_answer", "Sieve.Vm.late_envelope_flips"], "note": "for scripts in which let/flag actions do not assign envelope fields; otherwise false (late_envelope_flips)"},
{"property": "C17", "status": "proved", "theorems": ["Sieve.Vm.disposition_decided", "Sieve.Vm.no_early_disposition", "Sieve.Vm.stop_ends"], "note": ""},
{"property": "C18", "status": "partial", "theorems": ["Sieve.Expr.precedence_partial", "Sieve.Expr.tree_unique", "Sieve.Expr.array_item_rejected", "Sieve.Expr.juxtaposition_accepted"], "note": "all expressions of the grammar except arrays with items that start with an operator or a parenthesis, which the parser rejects (array_item_rejected); C64 has the same from the text"},
{"property": "C19", "status": "partial", "theorems": ["Sieve.Expr.and_short_circuit", "Sieve.Expr.or_short_circuit", "Sieve.Expr.short_circuit_truth_partial", "Sieve.Expr.short_circuit_value_partial", "Sieve.Expr.skipped_operator"], "note": "which operands are evaluated and the truth value are as stated; the value is not, as the operator is skipped together with the operand (skipped_operator), unless the first operands are truth values"},
{"property": "C20", "status": "proved", "theorems": ["Sieve.Expr.host_calls", "Sieve.Expr.host_calls_prefix", "Sieve.Expr.host_as_builtin", "Sieve.Expr.function_events"], "note": "for expressions within the grammar of C18; function_events is the statement for the interpreter"},
{"property": "C21", "status": "partial", "theorems": ["Sieve.SetVar.stored_string", "Sieve.SetVar.stored_any", "Sieve.SetVar.stored_text_bound_partial", "Sieve.SetVar.stored_integer_exceeds"], "note": "strings as stated; numbers count as 2 bytes, so their text can exceed the limit (stored_integer_exceeds); extracttext does not use the limit (extract_unlimited, C99)"},
{"property": "C22", "status": "partial", "theorems": ["Sieve.Scope.variables_partial", "Sieve.Scope.slots_exist_partial", "Sieve.Scope.replace_loses_local"], "note": "false for variables declared by :local in a block and read in :replace or :content, whose slot does not exist (replace_loses_local)"},
{"property": "C23", "status": "proved", "theorems": ["Sieve.SetVar.encodeurl_decodes", "Sieve.SetVar.encodeurl_longest", "Sieve.SetVar.set_encodeurl_decodes"], "note": ""},
{"property": "C24", "status": "partial", "theorems": ["Sieve.Flags.setflag_partial", "Sieve.Flags.addflag_partial", "Sieve.Flags.setflag_list_duplicates", "Sieve.Flags.setflag_truncation_duplicates"], "note": "false for list elements holding several flags and for truncated values (two negations)"},
{"property": "C25", "status": "proved", "theorems": ["Sieve.Flags.removeflag_exact", "Sieve.Flags.removeflag_leaves_copy"], "note": "removeflag_leaves_copy shows the duplicate-free hypothesis is needed"},
{"property": "C26", "status": "proved", "theorems": ["Sieve.Mime.header_value_clean"], "note": ""},
{"property": "C27", "status": "proved", "theorems": ["Sieve.Mime.protected_headers_kept"], "note": ""},
{"property": "C28", "status": "proved", "theorems": ["Sieve.Mime.select_iff", "Sieve.Mime.select_ascending"], "note": ""},
{"property": "C29", "status": "proved", "theorems": ["Sieve.Mime.deleteheader_exact", "Sieve.Mime.deleteheader_anychild_exact"], "note": ""},
{"property": "C30", "status": "proved", "theorems": ["Sieve.Address.redirect_address_wellformed", "Sieve.Address.sanitize_iff", "Sieve.Address.redirect_address_loses_quotes"], "note": "quoted characters are kept but the quotes dropped (redirect_address_loses_quotes)"},
{"property": "C31", "status": "partial", "theorems": ["Sieve.Address.envelope_partial", "Sieve.Address.envelope_brackets_partial", "Sieve.Address.envelope_source_route", "Sieve.Address.envelope_leading_at", "Sieve.Address.envelope_bare_route_rejected"], "note": "false for texts starting with @ (envelope_leading_at); proved for all others"},
{"property": "C32", "status": "proved", "theorems": ["Sieve.Address.mailto_recipients", "Sieve.Address.mailto_to_field_rejected"], "note": ""},
{"property": "C33", "status": "partial", "theorems": ["Sieve.Lex.quoted_string_partial", "Sieve.Lex.quoted_backslash_last", "Sieve.Lex.quoted_backslash_pair", "Sieve.Lex.quoted_backslash_letter"], "note": "false for contents with backslashes in some positions (quoted_backslash_last, quoted_backslash_pair, quoted_backslash_letter)"},
{"property": "C34", "status": "proved", "theorems": ["Sieve.Lex.multi_line"], "note": ""},
{"property": "C35", "status": "partial", "theorems": ["Sieve.Lex.number_partial", "Sieve.Lex.number_too_large", "Sieve.Lex.number_leading_zeros"], "note": "numbers in the machine range; beyond it the word is no number at all (number_too_large)"},
{"property": "C36", "status": "proved", "theorems": ["Sieve.Lex.bracket_comment", "Sieve.Lex.hash_comment"], "note": ""},
{"property": "C37", "status": "partial", "theorems": ["Sieve.Build.untouched_partial", "Sieve.Build.outermost_written", "Sieve.Build.deleteheader_written", "Sieve.Build.insert_written", "Sieve.Build.bare_newline_changed"], "note": "A message whose parts and header fields are laid out as the parser finds them (Intact) is written byte for byte; deleting and adding fields changes exactly those lines. Missing: empty lines that end in a bare LF are rewritten as CRLF (bare_newline_changed)."},
{"property": "C38", "status": "proved", "theorems": ["Sieve.Mime.anychild_preorder", "Sieve.Mime.no_anychild", "Sieve.Mime.foreverypart_preorder"], "note": "foreverypart assumes parts numbered in document order, as mail_parser does"},
{"property": "C39", "status": "partial", "theorems": ["Sieve.Tests.header_test", "Sieve.Tests.address_test", "Sieve.Tests.envelope_test", "Sieve.Tests.hasflag_test", "Sieve.Tests.string_test_partial", "Sieve.Tests.string_last_key", "Sieve.Tests.string_first_key_ignored", "Sieve.Tests.string_first_key_captures", "Sieve.Tests.captures_first", "Sieve.Tests.header_count", "Sieve.Tests.header_count_all", "Sieve.Tests.address_count", "Sieve.Tests.added_type_not_counted", "Sieve.Tests.string_count", "Sieve.Tests.envelope_count", "Sieve.Tests.list_test"], "note": "header, address, envelope and hasflag as stated; string and environment only with a single key, with several keys the last one decides (string_last_key, string_first_key_ignored). With :mime :type and the like :count ignores content types that the script has added (added_type_not_counted)."},
{"property": "C40", "status": "partial", "theorems": ["Sieve.Tests.relational_partial", "Sieve.Tests.relational_integers", "Sieve.Tests.relational_strings", "Sieve.Tests.numeral_rank_partial", "Sieve.Tests.not_a_numeral_is_zero", "Sieve.Tests.nan_unordered"], "note": "false for NaN (nan_unordered) and for values of the message that are not numerals (not_a_numeral_is_zero)"},
{"property": "C41", "status": "partial", "theorems": ["Sieve.Vacation.test_vacation", "Sieve.Vacation.reply_to_sender_partial", "Sieve.Vacation.reply_to_other_sender", "Sieve.Vm.vacation_answered_partial", "Sieve.Vm.vacation_conditions_partial", "Sieve.Vm.odd_answer_replies"], "note": "test_vacation gives the conditions exactly (of the List-* headers only seven are looked at), vacation_conditions_partial says that they held and the host was asked whenever a vacation is executed. The reply can go to an address that was not examined if the envelope has several senders (reply_to_other_sender), and a host answering with a function result is taken to have said no (odd_answer_replies)"},
{"property": "C42", "status": "proved", "theorems": ["Sieve.Address.from_field_quoted"], "note": ""},
{"property": "C43", "status": "proved", "theorems": ["Sieve.Vm.include_isolated", "Sieve.Vm.include_enters", "Sieve.Vm.include_enters_host"], "note": ""},
{"property": "C44", "status": "partial", "theorems": ["Sieve.SetVar.modifiers_order_independent_partial", "Sieve.SetVar.length_is_last", "Sieve.SetVar.replace_upper_unspecified"], "note": ":replace shares precedence 40 with the case modifiers under an unstable sort (replace_upper_unspecified)"},
{"property": "C45", "status": "partial", "theorems": ["Sieve.Vm.explicit_keep_partial", "Sieve.Vm.explicit_keep_lost"], "note": "false as stated (explicit_keep_lost)"},
{"property": "C46", "status": "partial", "theorems": ["Sieve.Vm.delivered_current_partial", "Sieve.Vm.holds_unique", "Sieve.Vm.implicit_keep_outdated"], "note": "proved for fileinto and redirect; false for the final implicit Keep (implicit_keep_outdated)"},
{"property": "C47", "status": "partial", "theorems": ["Sieve.Vm.outgoing_limit_partial", "Sieve.Vm.notify_mailto_unlimited"], "note": "redirects and vacations are limited; mailto notifications are not (notify_mailto_unlimited)"},
{"property": "C48", "status": "proved", "theorems": ["Sieve.Expr.parse_total"], "note": ""},
{"property": "C49", "status": "partial", "theorems": ["Sieve.Expr.integer_arithmetic", "Sieve.Expr.division_by_zero", "Sieve.Expr.negation_partial", "Sieve.Expr.negation_overflow"], "note": "false for the negation of the smallest integer (negation_overflow)"},
{"property": "C50", "status": "partial", "theorems": ["Sieve.Expr.comparison_all_partial", "Sieve.Expr.comparison_partial", "Sieve.Expr.string_array_order", "Sieve.Expr.order_not_transitive"], "note": "comparison_all_partial is for values of all kinds, nested arrays among them, without NaN; comparison_partial, for values that are not arrays, needs less of the floating point numbers. Missing: a < b is not b > a if a string is compared with an array (string_array_order). Across strings and numbers the order is not transitive (order_not_transitive)."},
{"property": "C51", "status": "partial", "theorems": ["Sieve.Lex.script_end_partial", "Sieve.Lex.last_word_dropped"], "note": "false for a script ending inside a word (last_word_dropped)"},
{"property": "C52", "status": "partial", "theorems": ["Sieve.Address.mailto_read_partial", "Sieve.Address.mailto_read", "Sieve.Address.asks_recipients", "Sieve.Address.mailto_round_trip", "Sieve.Address.mailto_to_field_rejected"], "note": "Any number of recipients before the question mark and in the fields to, cc and bcc. Missing: URIs with recipients only in the fields, of which those are rejected in which the code does not notice the recipient (mailto_read says exactly which; mailto_to_field_rejected is one)."},
{"property": "C53", "status": "partial", "theorems": ["Sieve.Vacation.reply_fields_partial", "Sieve.Vacation.subject_cut_partial", "Sieve.Vacation.subject_length", "Sieve.Vacation.subject_loses_last", "Sieve.Vacation.reply_subject_injects"], "note": "for texts without bare line breaks; a subject with a line break adds fields (reply_subject_injects)"},
{"property": "C54", "status": "partial", "theorems": ["Sieve.Scope.variables_partial", "Sieve.Scope.break_keeps_value", "Sieve.Vm.clear_exact"], "note": "for scripts in which break and continue do not leave blocks that have variables; otherwise false (break_keeps_value); clear_exact is about the instruction that ends a block"},
{"property": "C55", "status": "partial", "theorems": ["Sieve.Scope.variables_partial", "Sieve.Scope.global_case_lost"], "note": "false for variables declared global and read with capital letters (global_case_lost)"},
{"property": "C56", "status": "partial", "theorems": ["Sieve.Build.size_partial", "Sieve.Build.enclose_size_partial", "Sieve.Build.replace_message_size_partial", "Sieve.Build.replace_part_size_partial", "Sieve.Build.replace_size_off", "Sieve.Build.enclose_size_off", "Sieve.Build.replace_again_size"], "note": "Induction over sequences of addheader and deleteheader on any parts. For enclose of any message and replace of any message as received, or of any part of one that has no parts, the exact size: right with :mime, too small by two for replace without :mime, too small by four for enclose. Missing: what the claim says for replace without :mime and enclose, which is false; replace of a message that was edited before; replace of a part that has parts."},
{"property": "C57", "status": "partial", "theorems": ["Sieve.Build.enclose_partial", "Sieve.Build.enclose_wrong_boundary", "Sieve.Build.enclose_subject_injects"], "note": "Missing: a Content-Type among :headers changes the delimiter to invalid-boundary; the subject of the message itself is not cleaned of line breaks."},
{"property": "C58", "status": "partial", "theorems": ["Sieve.Build.replace_part_partial", "Sieve.Build.replace_message", "Sieve.Build.replace_shifts_parts", "Sieve.Build.replace_crashes"], "note": "Parts without parts, and the message as a whole. Missing: parts that have parts: their removal shifts the numbers of later parts."},
{"property": "C59", "status": "partial", "theorems": ["Sieve.Build.replaced_fields_partial", "Sieve.Build.replace_two_from", "Sieve.Build.replace_no_subject"], "note": "With :from. Missing: without :from the From of the message stays and another is added (replace_two_from); an empty :subject leaves no subject."},
{"property": "C60", "status": "partial", "theorems": ["Sieve.Str.variables_replaced_partial", "Sieve.Str.hyphen_dropped"], "note": "As stated for names as the code reads them. RFC 5229 names are stricter: a reference such as ${a-b} is dropped instead of kept (hyphen_dropped)."},
{"property": "C61", "status": "partial", "theorems": ["Sieve.Str.string_read_partial", "Sieve.Str.accepted_read_partial", "Sieve.Str.decoded_exists_unique", "Sieve.Str.bad_last_number", "Sieve.Str.malformed_unicode_rejected"], "note": "Exact, except for two kinds of malformed encoded characters: with a bad last number the good bytes are kept in front of the text (bad_last_number), and a malformed one with a number that is no Unicode character is rejected (malformed_unicode_rejected)."},
{"property": "C62", "status": "proved", "theorems": ["Sieve.Str.string_value", "Sieve.Str.plain_text", "Sieve.Str.single_variable"], "note": "Printing of numbers and values is a parameter with the laws in Values.Prints."},
{"property": "C63", "status": "partial", "theorems": ["Sieve.Build.no_injection_partial", "Sieve.Build.enclose_name_breaks"], "note": "Invariant over all sequences of the four actions. Missing: names of header fields given to enclose are not cleaned (enclose_name_breaks), and a subject of the message with a line break is copied by enclose (enclose_subject_injects)."},
{"property": "C64", "status": "partial", "theorems": ["Sieve.Expr.tokens_exact", "Sieve.Expr.expression_text_partial", "Sieve.Expr.equals_swallows", "Sieve.Expr.minus_after_not", "Sieve.Expr.minus_in_brackets", "Sieve.Expr.backslash_kept", "Sieve.Expr.brace_ends", "Sieve.Expr.tab_rejected"], "note": "tokens_exact says exactly which texts are accepted and with which tokens. Missing from the claim: unary minus after another unary operator or an opening bracket is read as subtraction, a single = drops the next byte, backslashes in strings, text after a closing brace."},
{"property": "C65", "status": "proved", "theorems": ["Sieve.Body.nested_parts", "Sieve.Body.below_exists", "Sieve.Body.below_inside"], "note": "Assumes that the parts of a multipart have higher numbers than the multipart, as the parser of messages produces them."},
{"property": "C66", "status": "partial", "theorems": ["Sieve.Body.body_test_partial", "Sieve.Body.body_count", "Sieve.Body.reads_iff", "Sieve.Body.improper_type", "Sieve.Body.empty_type", "Sieve.Body.part_taken_for_prologue", "Sieve.Body.epilogue_lost"], "note": "Exact for proper content types or a leading empty one. Missing: an improper content type makes the test false instead of selecting nothing (improper_type), an empty one after others is ignored (empty_type), and the text around the parts of a multipart is taken from the first boundary that follows a line break (part_taken_for_prologue, epilogue_lost)."},
{"property": "C67", "status": "proved", "theorems": ["Sieve.Expr.truthy_iff", "Sieve.Expr.logical_operators", "Sieve.Expr.comparison_operators", "Sieve.Expr.array_equality", "Sieve.Expr.comparison_plain", "Sieve.Expr.text_order", "Sieve.Expr.text_number_order", "Sieve.Expr.number_order", "Sieve.Expr.array_order", "Sieve.Expr.array_other_order", "Sieve.Expr.arithmetic", "Sieve.Expr.division", "Sieve.Expr.addition", "Sieve.Expr.array_removal", "Sieve.Expr.array_access", "Sieve.Expr.array_access_text", "Sieve.Expr.array_access_float", "Sieve.Expr.array_number", "Sieve.Expr.equality_not_transitive"], "note": "Floating point arithmetic and the reading and printing of numbers are parameters. Oddities kept by the specification are shown by array_number and equality_not_transitive."},
{"property": "C68", "status": "partial", "theorems": ["Sieve.Compile.braces_match", "Sieve.Compile.break_in_loop", "Sieve.Compile.break_in_named", "Sieve.Compile.continue_in_while", "Sieve.Compile.else_after_if_partial", "Sieve.Compile.else_after_if_outside", "Sieve.Compile.stray_else", "Sieve.Compile.parts_limit_evaded", "Sieve.Compile.name_reused"], "note": "All but the last clause proved. elsif and else: proved outside of blocks, and in general that the last closing brace before it ended an if or elsif block and at most the opening of an elsif or else block is in between; that opening may indeed be in between (stray_else)."},
{"property": "C69", "status": "proved", "theorems": ["Sieve.Tests.exists_test", "Sieve.Tests.size_test", "Sieve.Tests.exists_invalid_name"], "note": "Names that cannot be header names are left out by the code, so that exists with only such names is true (exists_invalid_name)."},
{"property": "C70", "status": "proved", "theorems": ["Sieve.Tests.duplicate_test", "Sieve.Tests.handles_overlap"], "note": "The parser of ids is a parameter. Handles do not keep ids apart since they are joined without a separator (handles_overlap)."},
{"property": "C71", "status": "partial", "theorems": ["Sieve.Tests.spam_range", "Sieve.Tests.spam_roundtrip", "Sieve.Tests.spam_monotone", "Sieve.Tests.virus_roundtrip", "Sieve.Tests.status_test", "Sieve.Tests.status_count_partial", "Sieve.Tests.status_count_one"], "note": "Floating point arithmetic is a parameter with the laws stated in the theorems. Missing: :count compares 1.1 instead of 1, which makes a difference for the value 1 (status_count_one)."},
{"property": "C72", "status": "proved", "theorems": ["Sieve.Tests.metadata_test", "Sieve.Tests.metadata_count", "Sieve.Tests.metadataexists_test"], "note": "eq_ignore_ascii_case is a parameter, assumed symmetric for metadataexists."},
{"property": "C73", "status": "proved", "theorems": ["Sieve.Tests.validate_uri", "Sieve.Tests.valid_notify_method", "Sieve.Tests.notify_method_capability", "Sieve.Tests.valid_ext_list", "Sieve.Tests.ihave", "Sieve.Tests.scheme_case"], "note": "The scheme is looked up as written, so that the case of its letters matters (scheme_case)."},
{"property": "C74", "status": "partial", "theorems": ["Sieve.Tests.date_test_partial", "Sieve.Tests.date_count", "Sieve.Tests.date_count_all", "Sieve.Tests.currentdate_test_partial", "Sieve.Tests.date_regex_is_glob"], "note": "Missing: :regex, which is treated as :matches (date_regex_is_glob), and the Julian day before 17 November 1858. The parsing of dates and the arithmetic of time zones are parameters."},
{"property": "C75", "status": "partial", "theorems": ["Sieve.Tests.part_text_partial", "Sieve.Tests.chronological_partial", "Sieve.Tests.julian_repeats", "Sieve.Tests.year_10000"], "note": "Missing: the Julian day before 17 November 1858 is off by one (julian_repeats); from the year 10000 on the texts are not ordered by time (year_10000)."},
{"property": "C76", "status": "partial", "theorems": ["Sieve.Args.word_iff", "Sieve.Args.words_ok", "Sieve.Args.word_read", "Sieve.Args.tag_read", "Sieve.Args.cap_iff", "Sieve.Args.cap_injective", "Sieve.Args.cap_print_partial", "Sieve.Args.cap_print_comparator"], "note": "Missing: comparators without a fixed name are printed without the prefix comparator- (cap_print_comparator)."},
{"property": "C77", "status": "proved", "theorems": ["Sieve.Args.arguments_iff", "Sieve.Args.arguments_unique", "Sieve.Args.slots_in_range", "Sieve.Args.command_usage", "Sieve.Args.test_usage", "Sieve.Args.special_entries"], "note": "Whether a text is a regular expression, a header name, a URI, a sender, an expression or the name of a variable are parameters. The usage lines include the deviations of the code, see loose_list for string lists."},
{"property": "C78", "status": "partial", "theorems": ["Sieve.Args.groups_iff", "Sieve.Args.exclusive_partial", "Sieve.Args.set_modifiers_clash"], "note": "Missing: the modifiers of set and extracttext are not checked at all (set_modifiers_clash)."},
{"property": "C79", "status": "partial", "theorems": ["Sieve.Args.needs_iff", "Sieve.Args.needs_partial", "Sieve.Args.fileinto_mailboxid"], "note": "Missing: fileinto :mailboxid asks for mailbox instead of mailboxid (fileinto_mailboxid). Which extensions are declared at a place is a parameter here."},
{"property": "C80", "status": "proved", "theorems": ["Sieve.Args.order_irrelevant"], "note": "for the commands and tests with positional arguments; the tags are kept as a list, so the same meaning is the same multiset of tags and the same positional arguments"},
{"property": "C81", "status": "partial", "theorems": ["Sieve.Args.rfc_list", "Sieve.Args.list_strings_partial", "Sieve.Args.loose_list", "Sieve.Args.static_list"], "note": "Missing: lists with missing or superfluous commas are accepted (loose_list), constant strings may be lists without commas (static_list)."},
{"property": "C82", "status": "partial", "theorems": ["Sieve.Script.script_iff", "Sieve.Script.declared_before_partial", "Sieve.Script.unknown_test_undeclared", "Sieve.Script.unknown_test_list", "Sieve.Script.require_late"], "note": "Missing: fileinto :mailboxid asks for mailbox (fileinto_mailboxid); unknown tests are accepted without ihave (unknown_test_undeclared); with no_capability_check only ihave is covered."},
{"property": "C83", "status": "proved", "theorems": ["Sieve.Script.blocks_closed", "Sieve.Script.include_limit"], "note": "at the level of tokens, after the lexer"},
{"property": "C84", "status": "partial", "theorems": ["Sieve.Compile.compile_order", "Sieve.Script.code_written", "Sieve.Script.script_known", "Sieve.Script.code_declared_partial"], "note": "Order: proved. Missing in the consequence about extensions: see C82. The Clear instructions at the end of blocks and the arguments of instructions are taken as written."},
{"property": "C85", "status": "partial", "theorems": ["Sieve.Script.text_tokens_partial", "Sieve.Script.text_unique"], "note": "Missing: strings in which a backslash is followed by a quote, a backslash, n, r or t or is the last character (see C33: quoted_backslash_last, quoted_backslash_pair, quoted_backslash_letter), numbers beyond 64 bits (number_too_large) and a word at the very end of the text (last_word_dropped)."},
{"property": "C86", "status": "partial", "theorems": ["Sieve.Hvar.variable_iff", "Sieve.Hvar.variable_none", "Sieve.Hvar.variable_case_partial", "Sieve.Hvar.global_case"], "note": "Missing: the case of a global variable written without its namespace makes a difference (global_case)."},
{"property": "C87", "status": "partial", "theorems": ["Sieve.Hvar.header_iff", "Sieve.Hvar.header_white", "Sieve.Hvar.header_names", "Sieve.Hvar.part_iff", "Sieve.Hvar.part_named_partial", "Sieve.Hvar.part_unique", "Sieve.Hvar.via_unnamed", "Sieve.Hvar.addr_twice", "Sieve.Hvar.header_loose"], "note": "Missing: texts of another form are not all rejected (header_loose); the parts of an address are found only as addr.addr.domain (addr_twice); via of a Received header has no name (via_unnamed)."},
{"property": "C88", "status": "partial", "theorems": ["Sieve.Hvar.header_value", "Sieve.Hvar.item_value", "Sieve.Hvar.text_value", "Sieve.Hvar.raw_value", "Sieve.Hvar.raw_name_value", "Sieve.Hvar.exists_value", "Sieve.Hvar.single_value", "Sieve.Hvar.id_value", "Sieve.Hvar.any_value", "Sieve.Hvar.any_covered", "Sieve.Hvar.part_covered", "Sieve.Hvar.header_total_partial", "Sieve.Hvar.raw_name_panics", "Sieve.Hvar.added_raw", "Sieve.Hvar.star_index", "Sieve.Hvar.references_no_id", "Sieve.Hvar.id_index_ignored"], "note": "Missing: the identifiers of References and In-Reply-To are always empty (references_no_id) and the index of the part is ignored for identifiers (id_index_ignored); the raw name of a header added by the script is an overflow (raw_name_panics), its raw text is empty (added_raw), the index after a star is ignored (star_index)."},
{"property": "C89", "status": "proved", "theorems": ["Sieve.Hvar.sanitize_words", "Sieve.Hvar.words_exist", "Sieve.Hvar.sanitize_line", "Sieve.Hvar.sanitize_bytes", "Sieve.Hvar.sanitize_twice"], "note": "on bytes, before the lossy conversion to UTF-8"},
{"property": "C90", "status": "proved", "theorems": ["Sieve.Notify.notify_iff", "Sieve.Notify.bcc_hidden", "Sieve.Notify.importance_value", "Sieve.Notify.bare_iff", "Sieve.Notify.notification_silent", "Sieve.Notify.over_limit", "Sieve.Notify.mail_not_counted"], "note": "Arguments are evaluated already; the parser of mailto URIs is a parameter (see C32, C52). The specification has the deviations of the code in view: over the limit a mailto notification is handed to the host (over_limit), and mail is not counted against the limit (mail_not_counted)."},
{"property": "C91", "status": "partial", "theorems": ["Sieve.Notify.notification_fields_partial", "Sieve.Notify.notification_exists", "Sieve.Notify.consists_unique", "Sieve.Notify.notification_once_partial", "Sieve.Notify.notification_marked", "Sieve.Notify.uri_injects", "Sieve.Notify.from_injects", "Sieve.Notify.uri_auto_submitted", "Sieve.Notify.uri_second_subject", "Sieve.Notify.sender_other"], "note": "Missing: texts with line breaks, which add fields to the message (uri_injects, from_injects); Auto-Submitted in the URI, which is then there twice (uri_auto_submitted), likewise a Subject without text (uri_second_subject); the sender need only contain the address of the user (sender_other)."},
{"property": "C92", "status": "partial", "theorems": ["Sieve.Notify.from_iff", "Sieve.Notify.from_address_partial", "Sieve.Notify.from_loose", "Sieve.Notify.from_strict"], "note": "from_iff says exactly what is accepted. Missing: that this is the same as an address; some that are none are accepted (from_loose), and some that are one are rejected (from_strict)."},
{"property": "C93", "status": "partial", "theorems": ["Sieve.Convert.convert_result_partial", "Sieve.Convert.convert_others", "Sieve.Convert.convert_twice", "Sieve.Convert.chosen_iff", "Sieve.Convert.convert_types", "Sieve.Convert.convert_capitals"], "note": "The parts to be converted are those the code looks for. Missing: that these are the parts of the given type, as for text/html every text is converted whatever its subtype (convert_types), and types in capital letters are not known (convert_capitals)."},
{"property": "C94", "status": "partial", "theorems": ["Sieve.Convert.convert_written_partial", "Sieve.Convert.newTexts_exist", "Sieve.Convert.gives_unique", "Sieve.Convert.convert_single", "Sieve.Convert.convert_loses_header"], "note": "Missing: messages made by enclose. The new header has no field but Content-Type, so that a message with a single part loses its header (convert_loses_header)."},
{"property": "C95", "status": "partial", "theorems": ["Sieve.Convert.convert_size_partial", "Sieve.Convert.convert_size_wrong", "Sieve.Convert.convert_drifts", "Sieve.Convert.convert_panics"], "note": "For parts as received the size is too small by two for each of them and nothing overflows. Missing: exactness (convert_size_wrong) and parts changed before (convert_drifts, convert_panics)."},
{"property": "C96", "status": "partial", "theorems": ["Sieve.Store.step_table", "Sieve.Store.run_table_partial", "Sieve.Store.after_unique", "Sieve.Store.set_get", "Sieve.Store.set_envelope", "Sieve.Store.envelope_first", "Sieve.Store.envelope_others_remain"], "note": "Proved for reading variables. Missing: the test envelope, which sees all values of a kind of which an assignment changes the first only (envelope_others_remain)."},
{"property": "C97", "status": "proved", "theorems": ["Sieve.Store.clear_match", "Sieve.Store.captured"], "note": "numbers of any size; which numbers the compiler computes is C22"},
{"property": "C98", "status": "partial", "theorems": ["Sieve.Store.part_value_partial", "Sieve.Store.replaced_body_lost", "Sieve.Store.enclosed_body_lost"], "note": "Missing: the first text body of the message as changed by replace and enclose, as these do not update the lists of bodies (replaced_body_lost, enclosed_body_lost)."},
{"property": "C99", "status": "partial", "theorems": ["Sieve.Store.extract_stores", "Sieve.Store.extract_exists", "Sieve.Store.extracts_unique", "Sieve.Store.extract_first", "Sieve.Store.extract_limited_partial", "Sieve.Store.extract_unlimited"], "note": "Missing: the limit for variables, which extracttext ignores (extract_unlimited)."}
]}
