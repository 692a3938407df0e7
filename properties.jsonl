{"id": "C01", "title": ":matches decides the wildcard language", "statement": "A `:matches` comparison without capture answers true exactly when the value can be cut into pieces so that every literal pattern character is matched by itself, every `?` by exactly one character, and every `*` by some (possibly empty) run; `\\x` in a pattern stands for the literal x. The matcher always terminates.", "quantifier": "for every pattern string and every value string, of any length", "why_tests_cant": "The matcher uses a single backtrack point; whether it loses matches or loops depends on unboundedly many pattern/value combinations.", "anchors": ["src/runtime/tests/glob.rs: GlobPattern::compile, GlobPattern::matches", "src/runtime/tests/comparator.rs: Comparator::matches"]}
{"id": "C02", "title": "Capturing does not change the verdict of :matches, and captures rebuild the value", "statement": "When a script refers to match variables the capturing matcher is used; it answers the same as the non-capturing matcher, and when it answers true, substituting each captured text for its wildcard (a run of stars giving its text to the last star) into the pattern gives back exactly the tested value; ${0} is the whole value and `?` captures exactly one character.", "quantifier": "for every pattern with at most 63 wildcards and every value (octet comparator; i;ascii-casemap when lower-casing is per-character)", "why_tests_cant": "Equality of two hand-written matchers and of the reconstructed text must hold for all strings.", "anchors": ["src/runtime/tests/glob.rs: GlobPattern::capture, GlobPattern::matches"]}
{"id": "C03", "title": "Captures are leftmost-shortest", "statement": "Among all ways of matching a value with a pattern, the captured match variables are the ones in which the first `*` is as short as possible, then the second, and so on (RFC 5229 section 3.2).", "quantifier": "for every pattern and every value that matches", "why_tests_cant": "Requires comparing the returned captures with every other possible match.", "anchors": ["src/runtime/tests/glob.rs: GlobPattern::capture"]}
{"id": "C04", "title": "quotewildcard makes any text a literal pattern", "statement": "A string passed through `set :quotewildcard` and then used as a `:matches` pattern matches the original string and nothing else, as long as the quoted text fits in the variable size limit; when it does not fit, the result is a quoted prefix of the input.", "quantifier": "for every string and every variable size limit", "why_tests_cant": "Must hold for all strings including wildcards and backslashes in any arrangement and for every truncation point.", "anchors": ["src/runtime/actions/action_set.rs: Modifier::apply (QuoteWildcard)", "src/runtime/tests/glob.rs: GlobPattern::compile"]}
{"id": "C05", "title": "anyof / allof / not compile to their boolean meaning", "statement": "The test instructions emitted for a nested test expression, when run, leave a result equal to the boolean value of the expression (allof = and, anyof = or, not = negation), evaluating atomic tests left to right and stopping as soon as the value is determined; not-anyof and not-allof obey De Morgan.", "quantifier": "for every nesting of anyof/allof/not with non-empty lists over every set of atomic tests and every assignment of outcomes", "why_tests_cant": "Back-patched jumps in nested lists: the number of nestings is unbounded.", "anchors": ["src/compiler/grammar/test.rs: CompilerState::parse_test, Block, set_not", "src/runtime/context.rs: Context::run (Jz, Jnz, Test)"]}
{"id": "C06", "title": "Structured control flow is preserved by compilation", "statement": "Running the compiled form of a script built from actions, if/elsif/else, while, foreverypart, break, stop and return performs exactly the sequence of actions that the source structure prescribes: exactly the first if-branch whose test holds is executed, loops repeat exactly while their test holds / once per MIME part, break leaves the enclosing loop.", "quantifier": "for every structured script, every outcome of tests and every number of iterations", "why_tests_cant": "Programs are unbounded; tests exercise a handful of nestings.", "anchors": ["src/compiler/grammar/instruction.rs: Compiler::compile (If, ElsIf, Else, While, ForEveryPart, Break, CurlyClose)", "src/runtime/context.rs: Context::run"]}
{"id": "C07", "title": "`continue` re-tests the enclosing while loop", "statement": "A `continue` statement inside a `while` loop ends the current iteration: no later statement of that iteration is executed and the loop condition is evaluated next.", "quantifier": "for every script and every position of `continue` inside nested loops", "why_tests_cant": "Depends on nesting depth of loops; every nesting would have to be tried.", "anchors": ["src/compiler/grammar/instruction.rs: Compiler::compile (Word::Continue)"]}
{"id": "C08", "title": "Jump targets are inside the script", "statement": "In every script the compiler accepts, each jump/loop instruction refers to a position inside the instruction list (or its end), no placeholder target is left, so the interpreter never runs off the program and never ends a script prematurely because of a bad target.", "quantifier": "for every accepted source token sequence of control-flow statements", "why_tests_cant": "Quantifies over all programs.", "anchors": ["src/compiler/grammar/instruction.rs: Compiler::compile (CurlyClose, Break, Continue)", "src/compiler/grammar/test.rs: parse_test", "src/runtime/context.rs: Context::run"]}
{"id": "C09", "title": "A message is never silently lost: implicit keep", "statement": "If a script runs to its end and executed no successful discard, reject, non-copy fileinto or non-copy redirect, the host receives a Keep event for the message.", "quantifier": "for every program, every message state and every sequence of host answers", "why_tests_cant": "Needs all execution paths, include nestings and host replies.", "anchors": ["src/runtime/context.rs: Context::run, Context::finish_loop, Context::new", "src/runtime/actions/action_fileinto.rs: FileInto::exec", "src/runtime/actions/action_redirect.rs: Redirect::exec"]}
{"id": "C10", "title": "Run-time errors still deliver the message", "statement": "When a run-time error is reported to the host (CPU limit, illegal action, missing capability, too many includes, script-issued error), the remaining script is abandoned and continuing the run yields the pending disposition (the implicit keep if nothing cancelled it) and then ends.", "quantifier": "for every program and every point at which an error can occur", "why_tests_cant": "Errors can occur at every instruction of every program.", "anchors": ["src/runtime/context.rs: Context::run, Context::finish_loop"]}
{"id": "C11", "title": "CPU limit bounds execution", "statement": "No interaction with the interpreter executes more than cpu_limit instructions in total, each call to run returns, and exceeding the limit is reported as CPULimitReached.", "quantifier": "for every program (including endless while loops and recursive includes), every limit and every host behaviour", "why_tests_cant": "Non-termination cannot be excluded by running finitely many programs.", "anchors": ["src/runtime/context.rs: Context::run (num_instructions, cpu_limit)"]}
{"id": "C12", "title": "Include nesting is bounded and :once is honoured", "statement": "The number of simultaneously active scripts reached through include never exceeds max_nested_includes (deeper includes are reported as TooManyIncludes), and an `include :once` never runs a script that has already been loaded by the host in this run.", "quantifier": "for every set of scripts including each other in any way, including cyclic ones, and every host", "why_tests_cant": "Include graphs and host answers are unbounded.", "anchors": ["src/runtime/actions/action_include.rs: Include::exec", "src/runtime/context.rs: Context::run (Include, Input::Script)"]}
{"id": "C13", "title": "Redirects and outgoing messages are limited", "statement": "In one run, redirect sends at most max_redirects messages, and redirect and vacation never send once max_out_messages outgoing messages were counted; a message with max_received_headers or more Received headers is not redirected, and a plain redirect to the user's own address sends nothing and does not cancel the implicit keep.", "quantifier": "for every program, loop structure and history of actions", "why_tests_cant": "History property over arbitrarily long executions.", "anchors": ["src/runtime/actions/action_redirect.rs: Redirect::exec", "src/runtime/actions/action_vacation.rs: TestVacation::exec, Vacation::exec", "src/runtime/actions/action_notify.rs: Notify::exec"]}
{"id": "C14", "title": "Message ids are fresh and announced before use", "statement": "Every event that refers to a message id refers either to the original message (id 0) or to an id announced earlier by a CreatedMessage event; announced ids are strictly increasing, hence never reused; after an edit to the message, the next delivery event refers to a newly announced id.", "quantifier": "for every program, every history of edits/deliveries and every host", "why_tests_cant": "Invariant over all event histories.", "anchors": ["src/runtime/actions/action_mime.rs: Context::build_message_id", "src/runtime/context.rs: Context::run, finish_loop", "src/runtime/actions/action_fileinto.rs", "src/runtime/actions/action_vacation.rs", "src/runtime/actions/action_notify.rs"]}
{"id": "C15", "title": "Undeclared capabilities are rejected at run time", "statement": "A script whose `require` lists a capability the runtime does not allow stops at that require with CapabilityNotAllowed/CapabilityNotSupported: none of the instructions after it are executed.", "quantifier": "for every capability list, every allowed set and every rest of script", "why_tests_cant": "Quantifies over all capability sets and programs.", "anchors": ["src/runtime/context.rs: Context::run (Instruction::Require)", "src/runtime/mod.rs: Runtime::with_capability"]}
{"id": "C16", "title": "Host answers are negated exactly by `not`, and only matter when asked for", "statement": "When a test is delegated to the host, the resulting test value is the host's answer for a positive test and its negation under `not`; a true/false answer given to an action event cannot change which later instructions of a compiled script run.", "quantifier": "for every host answer sequence and every program whose conditional jumps directly follow a test", "why_tests_cant": "Quantifies over all schedules of host answers.", "anchors": ["src/runtime/context.rs: Context::run (Input::True/False, TestResult::Event)"]}
{"id": "C17", "title": "Delivery decision follows the last/cancelling action", "statement": "explicit keep restores delivery with its flags; discard cancels the implicit keep unless a later keep; reject and non-copy fileinto/redirect cancel an implicit (flagless) keep; stop ends everything immediately. The final event is computed from the sequence of executed actions by these rules alone.", "quantifier": "for every sequence of actions", "why_tests_cant": "Histories of actions are unbounded.", "anchors": ["src/runtime/context.rs: Context::run (Keep, Discard, Reject, Stop)", "src/runtime/actions/action_fileinto.rs", "src/runtime/actions/action_redirect.rs"]}
{"id": "C18", "title": "Expressions are parsed with the documented precedence and associativity", "statement": "The postfix program compiled for an infix expression evaluates to the value of the expression tree determined by the precedence order (* /), (+ -), (< <= > >=), (== !=), xor, &&, || with left associativity, unary operators binding tightest and parentheses overriding.", "quantifier": "for every well-formed expression of any size", "why_tests_cant": "Expression trees are unbounded.", "anchors": ["src/compiler/grammar/expr/parser.rs: ExpressionParser::parse, BinaryOperator::precedence", "src/runtime/expression.rs: Context::eval_expression"]}
{"id": "C19", "title": "&& and || short-circuit without changing the value", "statement": "The second operand of && (||) is evaluated only if the first is true (false), so host functions in it are called only then, and the value of the whole expression is the same as evaluating both sides.", "quantifier": "for every expression and every valuation", "why_tests_cant": "Relative jumps inside arbitrarily nested code.", "anchors": ["src/compiler/grammar/expr/parser.rs: update_jmp_pos", "src/runtime/expression.rs: eval_expression (JmpIf)"]}
{"id": "C20", "title": "Expressions suspended for a host function resume correctly", "statement": "An expression that calls host functions yields one Function event per call with the right arguments in evaluation order, and after all answers have been supplied produces the same value as if each call had been a built-in returning the host's answer.", "quantifier": "for every expression, any number and nesting of host calls, every host answer", "why_tests_cant": "Every suspension point of every expression.", "anchors": ["src/runtime/expression.rs: eval_expression (expr_pos, expr_stack)", "src/runtime/context.rs: Context::run (Input::FncResult, Eval, Let, While)"]}
{"id": "C21", "title": "Variables never exceed the size limit and are cut on character boundaries", "statement": "A value assigned by set/let/addflag is stored unchanged if its size is at most max_variable_size bytes and otherwise as its longest prefix of whole characters that fits.", "quantifier": "for every string and every limit", "why_tests_cant": "All strings with multi-byte characters straddling the limit.", "anchors": ["src/runtime/actions/action_set.rs: Context::set_variable"]}
{"id": "C22", "title": "Local variables occupy private slots", "statement": "Two local variables that are simultaneously in scope never share storage, every slot the program refers to exists when the script runs, and a script variable declared in an enclosing block is the one an inner use refers to.", "quantifier": "for every nesting of blocks and every sequence of declarations", "why_tests_cant": "Slot allocation and reuse over all block structures.", "anchors": ["src/compiler/grammar/instruction.rs: register_local_var, get_local_var, block_end, map_local_vars", "src/runtime/context.rs: Context::run (Clear)"]}
{"id": "C23", "title": "encodeurl output is pure ASCII and decodes to the input", "statement": "`set :encodeurl` yields only unreserved characters and %xx escapes, never longer than the limit, and percent-decoding it gives the UTF-8 bytes of the input (of a prefix of the input if truncated).", "quantifier": "for every string and every limit", "why_tests_cant": "All Unicode strings.", "anchors": ["src/runtime/actions/action_set.rs: Modifier::apply (EncodeUrl)"]}
{"id": "C24", "title": "Flags stay free of duplicates and additions are idempotent", "statement": "After setflag the flag variable has no two flags equal ignoring case; addflag keeps that, keeps every old flag, adds each new one once, and doing it twice is the same as once.", "quantifier": "for every flag variable content and every list of flags", "why_tests_cant": "All flag lists and histories.", "anchors": ["src/runtime/actions/action_flags.rs: EditFlags::exec, tokenize_flags"]}
{"id": "C25", "title": "removeflag removes exactly the named flags", "statement": "After removeflag on a duplicate-free flag list, none of the named flags (ignoring case) is present and every other flag is still present.", "quantifier": "for every flag list and every list of flags to remove", "why_tests_cant": "All lists; deletion uses swap-remove on two parallel vectors.", "anchors": ["src/runtime/actions/action_flags.rs: EditFlags::exec (Remove)"]}
{"id": "C26", "title": "Inserted header values cannot smuggle header lines", "statement": "A header value inserted by addheader/replace/enclose contains no CR or LF, is at most max_header_size bytes, and is the longest whole-character prefix (that fits) of the given value with CR/LF removed.", "quantifier": "for every value string and every limit", "why_tests_cant": "All strings.", "anchors": ["src/runtime/actions/action_editheader.rs: RemoveCrLf::remove_crlf, AddHeader::exec", "src/runtime/actions/action_mime.rs"]}
{"id": "C27", "title": "Protected headers are never changed by addheader/deleteheader", "statement": "The list of protected headers (name, value, order) of every message part is the same before and after any sequence of addheader and deleteheader actions.", "quantifier": "for every message, every protected-header configuration and every sequence of edits", "why_tests_cant": "Histories of edits.", "anchors": ["src/runtime/actions/action_editheader.rs: AddHeader::exec, DeleteHeader::exec, Context::insert_header"]}
{"id": "C28", "title": ":index and :last select the documented header occurrence", "statement": "With `:index n` exactly the n-th occurrence of a header counted from the top is examined, with `:index n :last` the n-th from the bottom, without index all occurrences in order.", "quantifier": "for every header list, name and index", "why_tests_cant": "All header lists.", "anchors": ["src/runtime/tests/test_header.rs: Context::find_headers"]}
{"id": "C29", "title": "deleteheader removes exactly the selected headers", "statement": "deleteheader removes from the current part exactly the header occurrences with the given name, position and matching value and leaves all others in their original order.", "quantifier": "for every header list, every selection", "why_tests_cant": "Removal by stored indices must stay correct for any number of deletions.", "anchors": ["src/runtime/actions/action_editheader.rs: DeleteHeader::exec"]}
{"id": "C30", "title": "Redirect addresses are well formed", "statement": "A redirect is only sent to an address that contains exactly one unquoted @ with something before it and a dot after it, and that carries no angle brackets, no quotes and no unquoted white space.", "quantifier": "for every evaluated address string", "why_tests_cant": "All strings.", "anchors": ["src/runtime/actions/action_redirect.rs: sanitize_address"]}
{"id": "C31", "title": "Envelope addresses are validated", "statement": "An accepted envelope address is empty, or mailer-daemon, or a piece of the input that contains exactly one @ with at least one character on each side and no white space, angle brackets, colon or non-ASCII byte; `<a>` and `a` give the same result and source routes are stripped.", "quantifier": "for every byte string", "why_tests_cant": "All strings.", "anchors": ["src/runtime/tests/test_envelope.rs: parse_envelope_address", "src/runtime/context.rs: Context::set_envelope"]}
{"id": "C32", "title": "mailto recipients are distinct and contain an @", "statement": "If a mailto URI is accepted it has at least one recipient occurrence; every collected recipient contains an @; no recipient occurs twice (ignoring ASCII case) across To, Cc and Bcc.", "quantifier": "for every byte string given as URI", "why_tests_cant": "All strings.", "anchors": ["src/runtime/actions/action_notify.rs: parse_mailto, insert_address"]}
{"id": "C33", "title": "Quoted strings denote their content", "statement": "A quoted string in a script source whose content is escaped as the grammar prescribes (backslash before quote and backslash) denotes exactly that content.", "quantifier": "for every content string", "why_tests_cant": "All strings.", "anchors": ["src/compiler/lexer/tokenizer.rs: Tokenizer::next (State::QuotedString)"]}
{"id": "C34", "title": "Multi-line text is dot-unstuffed exactly once", "statement": "A text: literal denotes its lines, a line that starts with two dots losing the first of them and every other line being unchanged, and ends at the first line consisting of a single dot.", "quantifier": "for every list of lines", "why_tests_cant": "All texts.", "anchors": ["src/compiler/lexer/tokenizer.rs: Tokenizer::next (State::MultiLine)"]}
{"id": "C35", "title": "Numbers with K/M/G suffix denote the scaled value", "statement": "A decimal number literal optionally followed by K, M or G denotes the number times 1024, 1024^2, 1024^3, limited to the machine range; leading zeros do not matter.", "quantifier": "for every digit string and suffix", "why_tests_cant": "All numerals.", "anchors": ["src/compiler/lexer/tokenizer.rs: Tokenizer::get_current_token"]}
{"id": "C36", "title": "Comments are white space", "statement": "Replacing a bracket or hash comment by a space (newline) leaves the token sequence of a script unchanged.", "quantifier": "for every script text and every comment text", "why_tests_cant": "All texts.", "anchors": ["src/compiler/lexer/tokenizer.rs: Tokenizer::next (BracketComment, HashComment)"]}
{"id": "C37", "title": "Message rebuild is the identity on unedited messages and local on edits", "statement": "Rebuilding a parsed message whose parts were not edited yields the original bytes; deleting or adding top-level headers changes exactly those header lines.", "quantifier": "for every message whose part offsets nest consistently", "why_tests_cant": "All messages / MIME trees.", "anchors": ["src/runtime/actions/action_mime.rs: Context::build_message"]}
{"id": "C38", "title": "foreverypart and :anychild visit each part once in document order", "statement": "The recursive part iteration visits the current part and every part nested below it exactly once, parents before children, in document order.", "quantifier": "for every MIME tree", "why_tests_cant": "All trees.", "anchors": ["src/runtime/tests/mime.rs: SubpartIterator::next, find_nested_parts_ids"]}
{"id": "C39", "title": "A test over several sources and keys is true iff some pair matches", "statement": "header, envelope, address, string and hasflag tests are true exactly when at least one of the examined values matches at least one of the keys.", "quantifier": "for every list of values, every list of keys and every comparator relation", "why_tests_cant": "All lists.", "anchors": ["src/runtime/tests/test_string.rs: TestString::exec", "src/runtime/tests/test_header.rs: TestHeader::exec", "src/runtime/tests/test_envelope.rs: TestEnvelope::exec"]}
{"id": "C40", "title": "Relational operators are the six standard relations", "statement": "gt/ge/lt/le/eq/ne on numbers are the usual orders: ne is the negation of eq, ge of lt, le of gt, and for i;ascii-numeric non-numeric values rank as the documented largest value.", "quantifier": "for every pair of values", "why_tests_cant": "All pairs.", "anchors": ["src/compiler/grammar/mod.rs: RelationalMatch", "src/runtime/tests/comparator.rs: RelationalMatch::cmp, Comparator::relational"]}
{"id": "C41", "title": "Vacation replies respect the loop-protection rules", "statement": "A vacation reply is only ever prepared if there is a sender, the sender is not one of the user's addresses nor a mailer-daemon/owner-/-request address, the message has no List-* header, no Auto-Submitted other than no, no Precedence: bulk, one of the user's addresses occurs in a recipient header, and the host reported it is not a duplicate.", "quantifier": "for every message, envelope and script", "why_tests_cant": "All messages.", "anchors": ["src/runtime/actions/action_vacation.rs: TestVacation::exec, Vacation::exec", "src/compiler/grammar/actions/action_vacation.rs"]}
{"id": "C42", "title": "The user's display name cannot break out of the From field", "statement": "The From field generated for the user is a quoted string whose content denotes exactly the configured full name, followed by the address; quotes and backslashes in the name are escaped.", "quantifier": "for every full name", "why_tests_cant": "All strings.", "anchors": ["src/runtime/context.rs: Context::set_user_full_name, user_from_field"]}
{"id": "C43", "title": "Included scripts cannot see or change the caller's local variables", "statement": "Local and match variables of a script are the same before and after executing an include, apart from its own assignments; an included script starts with all its local variables empty; global variables persist.", "quantifier": "for every pair of scripts, every nesting of includes", "why_tests_cant": "All programs.", "anchors": ["src/runtime/context.rs: Context::run (Input::Script, Include, end of script)"]}
{"id": "C44", "title": "setting modifiers are applied in precedence order", "statement": "The modifiers of `set` are applied in decreasing precedence (case changes 40, first-letter changes 30, quotewildcard/quoteregex 20, encodeurl 15, length 10) independently of the order in which they are written, and :length yields the decimal number of characters.", "quantifier": "for every order of modifiers and every value", "why_tests_cant": "All permutations and strings.", "anchors": ["src/compiler/grammar/actions/action_set.rs: Modifier::order", "src/runtime/actions/action_set.rs: Set::exec, Modifier::apply"]}
{"id": "C45", "title": "An explicit keep is delivered", "statement": "If a script executes keep, the message is delivered to the user, whatever other actions (fileinto, redirect, discard, stop, errors) the script executes before or after.", "quantifier": "for every script, every run and every host behaviour following the protocol", "why_tests_cant": "All programs and interleavings.", "anchors": ["src/runtime/context.rs: Context::run (Keep, Discard)", "src/runtime/actions/action_fileinto.rs: FileInto::exec", "src/runtime/actions/action_redirect.rs: Redirect::exec"]}
{"id": "C46", "title": "Deliveries carry the message as edited so far", "statement": "Every fileinto, redirect and final Keep refers to a message id whose announced contents are the contents of the message at that moment (the original one if it was never edited).", "quantifier": "for every sequence of edits and deliveries", "why_tests_cant": "All sequences of edits and deliveries.", "anchors": ["src/runtime/actions/action_mime.rs: build_message_id", "src/runtime/context.rs: Context::run (final_event)", "src/runtime/actions/action_fileinto.rs: FileInto::exec"]}
{"id": "C47", "title": "All outgoing messages count against max_out_messages", "statement": "The number of messages the host is asked to send (redirects, vacation replies, mailto notifications) never exceeds max_out_messages.", "quantifier": "for every program and every execution", "why_tests_cant": "All executions.", "anchors": ["src/runtime/actions/action_redirect.rs: Redirect::exec", "src/runtime/actions/action_vacation.rs", "src/runtime/actions/action_notify.rs: Notify::exec"]}
{"id": "C48", "title": "The expression parser never panics", "statement": "For any sequence of tokens the expression parser returns code or an error; it never indexes outside its output or pops an empty stack.", "quantifier": "all token sequences", "why_tests_cant": "Unbalanced and nonsensical token sequences are unbounded in number and shape.", "anchors": ["src/compiler/grammar/expr/parser.rs"]}
{"id": "C49", "title": "Integer arithmetic does not overflow", "statement": "Sums, differences, products and negations of integers in expressions are the exact results, or the nearest representable integer if those are out of range; division by zero yields zero.", "quantifier": "all 64-bit integers", "why_tests_cant": "The space of operand pairs has 2^128 elements.", "anchors": ["src/runtime/expression.rs"]}
{"id": "C50", "title": "Comparison operators are consistent", "statement": "For two values that can be compared exactly one of <, == and > holds, <=, >= and != agree with them, and a < b means b > a.", "quantifier": "all pairs of values", "why_tests_cant": "Values are of unbounded size and of four kinds that are converted into each other.", "anchors": ["src/runtime/expression.rs"]}
{"id": "C51", "title": "The end of the script ends its last word", "statement": "A script followed by a line break has the same tokens as the script itself: the end of the text delimits words as white space does.", "quantifier": "for every script text", "why_tests_cant": "Every word, number and position of the end of file; tests always end their scripts with a line break or a semicolon.", "anchors": ["src/compiler/lexer/tokenizer.rs: Tokenizer::next, get_current_token"]}
{"id": "C52", "title": "A mailto URI is read as written", "statement": "Parsing a mailto URI whose parts are percent-encoded in any way yields exactly the recipients, header fields and body that were encoded, header fields in order.", "quantifier": "for every list of recipients and fields and every choice of which characters are percent-encoded", "why_tests_cant": "Unbounded texts times all encodings of each.", "anchors": ["src/runtime/actions/action_notify.rs: parse_mailto"]}
{"id": "C53", "title": "A vacation reply consists of the intended header fields and the reason", "statement": "The header of a vacation reply without :mime consists of exactly the fields From, To, Subject, In-Reply-To and References (if the message has an id), Date, Message-ID, Auto-Submitted and Content-type, and its body is the reason; no text taken from the script, the envelope or the message adds a field or ends the header early.", "quantifier": "for every message, envelope, reason, subject and sender address", "why_tests_cant": "A test can show that some subject or address does no harm; that none does requires reasoning about all texts, including those with line breaks.", "anchors": ["src/runtime/actions/action_vacation.rs: Vacation::exec"]}
{"id": "C54", "title": "A variable is empty until it is set", "statement": "A variable declared in a block has no value when the block is entered, however often and from wherever; in particular no value of an earlier iteration or of another variable that used the same storage is visible in it.", "quantifier": "for every script and every execution", "why_tests_cant": "All nestings of blocks, loops and early exits.", "anchors": ["src/compiler/grammar/instruction.rs: block_end", "src/runtime/context.rs: Instruction::Clear"]}
{"id": "C55", "title": "The case of the letters of a variable name does not matter", "statement": "A reference to a variable, local or global, refers to the same variable whether its name is written with small or capital letters.", "quantifier": "for every script and all names", "why_tests_cant": "All names and all combinations of declaration and use.", "anchors": ["src/compiler/grammar/actions/action_set.rs: register_variable", "src/compiler/lexer/string.rs: parse_variable"]}
{"id": "C56", "title": "The size of the message is the number of bytes it is written in", "statement": "After any sequence of header edits of a message, the size the runtime keeps (used by the size test) is exactly the number of bytes the message is written in.", "quantifier": "all messages whose part offsets nest consistently, all sequences of addheader and deleteheader on any parts", "why_tests_cant": "The size is updated incrementally in each action; only an induction over edit sequences shows it never drifts.", "anchors": ["src/runtime/actions/action_editheader.rs", "src/runtime/actions/action_mime.rs", "src/runtime/tests/test_size.rs"]}
{"id": "C57", "title": "enclose keeps the message", "statement": "After enclose the message written is a multipart/mixed message whose first part is the given text, whose second part is exactly the bytes the message had before, and whose delimiters are the announced boundary; the given header fields cannot start further ones.", "quantifier": "all messages, texts, subjects, headers arguments and boundaries without line breaks or quotes", "why_tests_cant": "The boundary is recovered by text search in the header that was just written, for arbitrary header arguments.", "anchors": ["src/runtime/actions/action_mime.rs"]}
{"id": "C58", "title": "replace changes exactly the current part", "statement": "After replace in a part the message written has the new text in place of that part, and every byte outside of the part is unchanged; replacing the message itself keeps the header fields that are not renamed or replaced.", "quantifier": "all messages whose part offsets nest consistently, all parts, all replacement arguments", "why_tests_cant": "The part vector is edited in place and the writer merges copied ranges with rebuilt parts; nesting depth and order are unbounded.", "anchors": ["src/runtime/actions/action_mime.rs"]}
{"id": "C59", "title": "A replaced message has one of each header field", "statement": "After replace of the message as a whole it has exactly one From and one Message-ID field, a Date field, and one Subject field if one was given.", "quantifier": "all messages and all replacement arguments", "why_tests_cant": "The kept, renamed and new fields are computed by separate code for arbitrary header lists.", "anchors": ["src/runtime/actions/action_mime.rs"]}
{"id": "C60", "title": "Variable references are replaced and nothing else", "statement": "Reading a text from the left, every ${name} that is a variable reference is replaced by its variable (a declared variable, or nothing for an unknown one), and every other byte, including malformed or unknown-namespace references, is kept as it is; the text is rejected exactly when one of its references is an error.", "quantifier": "all byte strings, all environments of names", "why_tests_cant": "The reader is a byte-driven state machine that consumes a dollar sign before it knows whether a reference follows and puts text back when it does not; the interesting inputs (nested, interrupted and unfinished references) are unbounded.", "anchors": ["src/compiler/lexer/string.rs:35-254 tokenize_string", "src/compiler/lexer/string.rs:495-533 add_value"]}
{"id": "C61", "title": "Encoded characters are decoded before variables are expanded", "statement": "A string of a script means: first replace every well-formed ${hex: ...} and ${unicode: ...} by its bytes, leaving malformed ones as they are, then replace variable references in the result. The compiled string is exactly that, although the code does both in one pass and re-reads only pieces of the text.", "quantifier": "all byte strings, all environments of names", "why_tests_cant": "The code interleaves the two replacements; that no reference can span a piece boundary, and that malformed sequences are restored completely, must hold for arbitrary nesting of dollar signs, braces and numbers.", "anchors": ["src/compiler/lexer/string.rs:163-224 State::Encoded, is_var_error", "src/compiler/lexer/string.rs:526-529 add_value"]}
{"id": "C62", "title": "A string evaluates to its pieces in order", "statement": "At run time a compiled string is the concatenation of its texts and the current values of its variables (unset ones are empty); a string without ${ is itself, and a string that is a single variable has that variable's value with its type.", "quantifier": "all compiled strings, all values of variables", "why_tests_cant": "Numbers in texts are stored as numbers and printed again, single items take another path than lists; the equality must hold for every list of items and every assignment.", "anchors": ["src/runtime/eval.rs:92-124 eval_value", "src/compiler/lexer/string.rs:247-253"]}
{"id": "C63", "title": "No text given by a script adds header lines", "statement": "However a script combines addheader, deleteheader, replace and enclose, and whatever text it gives to them, every header field it has put into the message is written as exactly one line: the name, a colon, a text without line breaks, and the line break.", "quantifier": "all messages, all sequences of the four actions, all texts (with any line breaks in them)", "why_tests_cant": "Every action has its own code to clean or not to clean each value; fields added earlier are renamed, kept or enclosed by later actions. That none of the combinations lets a line break through is an invariant over unbounded sequences.", "anchors": ["src/runtime/actions/action_editheader.rs", "src/runtime/actions/action_mime.rs"]}
{"id": "C64", "title": "The text of an expression is read as the expression it spells", "statement": "An expression written with any spelling of its operators, with blanks anywhere between its tokens or none where none are needed, is compiled to code that computes that expression; texts that are not written with tokens or have unmatched parentheses are rejected.", "quantifier": "all expressions, all ways of writing them, all byte strings for the rejections", "why_tests_cant": "The tokenizer decides byte by byte, with flags and pending tokens, where words end, which of two minus signs is meant and how far operators reach; the interesting texts are unbounded combinations of these.", "anchors": ["src/compiler/grammar/expr/tokenizer.rs:58-283", "src/compiler/grammar/test.rs:566-592 parse_expr"]}
{"id": "C65", "title": "The search for nested parts visits every part below the current one, once per place", "statement": "The search that the body test uses ends, and visits the current part, the parts of multiparts and the parts of enclosed messages, in document order, each together with the raw message it belongs to, leaving out exactly those that the filter rejects.", "quantifier": "all messages of any nesting depth in which parts of a multipart come after it, all filters, all starting parts", "why_tests_cant": "The iteration keeps an explicit stack of iterators and of the messages to return to; whether the right message is restored after an enclosed one depends on arbitrarily deep nesting.", "anchors": ["src/runtime/tests/mime.rs:60-140 find_nested_parts"]}
{"id": "C66", "title": "body is true exactly if a text of a selected part matches a key", "statement": "The body test is true exactly if the included subject, or the text of one of the parts that are inside the current one and selected by the content types, matches one of the keys, where the text of a part is determined by the transformation and the kind of the part; with :count, the number of selected parts is compared.", "quantifier": "all messages, transformations, content types, comparators, match types and keys", "why_tests_cant": "The outcome depends on the tree of parts, the slicing of the raw text by offsets and boundaries, the filters and the comparison at the same time; each is unbounded.", "anchors": ["src/runtime/tests/test_body.rs:23-226", "src/runtime/tests/mime.rs:186-206 ContentTypeFilter::parse"]}
{"id": "C67", "title": "What the operators of expressions compute", "statement": "For values of every kind: and, or and not go by truth (0, empty texts and empty arrays are false); == and < compare numbers by value, a text with a number by the number it says if it says one, texts and arrays item by item; the other comparisons follow from these; + adds numbers, joins texts and arrays; - * / work on the numbers the values stand for, saturating on integers, with division by zero giving zero; an item of an array is selected by number.", "quantifier": "all operators, all pairs of values", "why_tests_cant": "There are four kinds of values and so sixteen pairs for each operator, with nested arrays and numbers in texts; tests pick a few.", "anchors": ["src/runtime/expression.rs:75-330"]}
{"id": "C68", "title": "Accepted scripts are properly nested", "statement": "In a script accepted by the compiler braces match and are nested no deeper than the limit; break is inside a loop, break :name inside a foreverypart of that name, continue inside a while; elsif and else directly follow the closing brace of an if or elsif block.", "quantifier": "all token lists, all limits", "why_tests_cant": "The compiler is a loop with a stack of blocks and remembers the kind of the last block in one variable; whether that variable can be out of date depends on arbitrary sequences of blocks.", "anchors": ["src/compiler/grammar/instruction.rs:171-742"]}
{"id": "C69", "title": "exists and size", "statement": "exists is true exactly if each given name that can be a header name is the name of a header of the current part (with :anychild also of parts inside it, not necessarily the same for all names); size :over and :under are true exactly for messages strictly larger or smaller than the limit.", "quantifier": "all messages of any nesting, all lists of names, all sizes and limits", "why_tests_cant": "The test accumulates over parts which names were seen and stops early; that nothing is lost or found too early must hold for all trees and lists of names.", "anchors": ["src/runtime/tests/test_exists.rs:12-36", "src/runtime/tests/test_size.rs:11-21"]}
{"id": "C70", "title": "duplicate asks about the right id", "statement": "duplicate asks the host about the tracked id - the first id in a field of the given name in the current part or inside it, the given unique id, or the id of the message - preceded by the handle, with the given or the default expiry time, and its result is the (negated) answer; without an id nothing is asked and the message is no duplicate.", "quantifier": "all messages, arguments and parsers of ids", "why_tests_cant": "The field is searched in all parts, fields added by the script are read in another way than those of the message.", "anchors": ["src/runtime/tests/test_duplicate.rs:17-73"]}
{"id": "C71", "title": "What spamtest and virustest compare", "statement": "The number shown is 0 exactly if the message was not tested, 1 if ham, 10 if spam and from 2 to 9 in between, larger fractions giving no smaller numbers; a score from 1 to 10 given by the host is shown as itself; with :percent from 0 to 100; virustest shows 0 to 5. The tests are true exactly if that number matches the value; :count counts 1 if the message was tested and 0 otherwise.", "quantifier": "all statuses, scores, values, comparators and match types", "why_tests_cant": "Scores are floating point numbers that are scaled, rounded and clamped.", "anchors": ["src/runtime/tests/test_spamtest.rs"]}
{"id": "C72", "title": "metadata and metadataexists look up annotations", "statement": "metadata compares the value of the first stored entry for the annotation of the server or mailbox with the keys and is false if there is none; metadataexists with at least one annotation is true exactly if all of them are stored. Annotation names are compared without regard to case, mailbox names exactly.", "quantifier": "all stores, mailboxes, annotations and keys", "why_tests_cant": "The second test removes annotations from a list while it walks over the store and stops when the list is empty.", "anchors": ["src/runtime/tests/test_metadata.rs"]}
{"id": "C73", "title": "Tests of what the host supports", "statement": "valid_notify_method, valid_ext_list and ihave are true exactly if all the given methods, lists or extensions are supported; notify_method_capability exactly if the capability is online, the method is supported and maybe matches a key. A method is supported if it is a well-formed URI of a known scheme and the host lists its scheme or the URI itself.", "quantifier": "all URIs, lists, host configurations", "why_tests_cant": "Validity of a URI depends on where its first colon is and on the parser of mailto addresses; the tests count.", "anchors": ["src/runtime/tests/test_notify.rs", "src/runtime/tests/test_extlists.rs", "src/runtime/tests/mod.rs:56-61", "src/runtime/actions/action_notify.rs:337-357"]}
{"id": "C74", "title": "date and currentdate compare the requested part of the date", "statement": "date is true exactly if the prescribed text of the requested part of a date in one of the fields looked at, in the requested zone, matches one of the keys; currentdate likewise for the current date; date :count compares the number of fields with a date.", "quantifier": "all messages, zones, parts, comparators, match types and keys", "why_tests_cant": "Which fields have a date, which zone is used and how the part is written are decided in three functions for arbitrary headers.", "anchors": ["src/runtime/tests/test_date.rs"]}
{"id": "C75", "title": "Texts of dates are the prescribed ones and ordered by time", "statement": "Each part of a date has exactly the text RFC 5260 prescribes (fixed width, sign of the zone, days since 17 November 1858), and the texts of dates and times are ordered as the dates and times are.", "quantifier": "all dates", "why_tests_cant": "Chronological comparison of texts needs fixed widths for all numbers that can occur.", "anchors": ["src/runtime/tests/test_date.rs:249-281"]}
{"id": "C76", "title": "Words and extension names are recognised exactly", "statement": "A word of a script is a keyword exactly if it is, without regard to case, one of the words of the language, and then it is that keyword; an extension name is recognised exactly if it is spelled as registered, different names are different extensions, and printing a recognised extension gives its name again.", "quantifier": "all byte strings", "why_tests_cant": "The words are looked up in a hash table generated at build time; that no word shadows another, and that every other string is rejected, concerns all strings.", "anchors": ["src/compiler/lexer/word.rs", "src/compiler/grammar/mod.rs:20-260 Capability"]}
{"id": "C77", "title": "Arguments are accepted exactly according to the usage of the command", "statement": "The arguments of each command and test are accepted exactly if they are tagged arguments of its usage line, each followed by an argument of the right type, with the positional arguments of the right types in their order, the last of them at the end; what is compiled is what the tokens say, and no text can be understood in two ways.", "quantifier": "all commands and tests, all token lists, all sets of declared extensions", "why_tests_cant": "Every command has its own loop over tags, with lookahead and optional parts; the number and order of arguments is unbounded.", "anchors": ["src/compiler/grammar/mod.rs:263-478", "src/compiler/grammar/actions/", "src/compiler/grammar/tests/"]}
{"id": "C78", "title": "Tags that exclude each other do not stand together", "statement": "In accepted arguments no tag stands twice and no two tags stand together that their documents make exclude each other (match types, address parts, :days and :seconds, :raw, :content and :text, ...); tags that may be combined are never refused for that.", "quantifier": "all commands and tests, all token lists", "why_tests_cant": "Exclusion is checked through numbers given by hand to each tag in each command; a wrong number forbids or allows a pair that no test tries.", "anchors": ["src/compiler/grammar/mod.rs:440-478 validate_argument", "src/compiler/grammar/actions/", "src/compiler/grammar/tests/"]}
{"id": "C79", "title": "Commands, tests and tags need the extension that defines them", "statement": "A command, test or tag of an extension is accepted only if that extension is declared, and a declared extension is enough.", "quantifier": "all commands, tests and tags, all token lists, all sets of declared extensions", "why_tests_cant": "There are more than a hundred combinations of command and tag, each with its own capability check.", "anchors": ["src/compiler/grammar/mod.rs:446-478 validate_argument", "src/compiler/grammar/instruction.rs:176-583", "src/compiler/grammar/test.rs:240-495", "src/compiler/grammar/actions/", "src/compiler/grammar/tests/"]}
{"id": "C80", "title": "The order of tagged arguments does not matter", "statement": "Rearranging tagged arguments among themselves and between the positional ones changes neither whether a command or test is accepted nor what it means.", "quantifier": "all commands and tests, all accepted arguments, all rearrangements that keep the order of the positional arguments and end with the last one", "why_tests_cant": "The number of orders grows with the factorial of the number of arguments.", "anchors": ["src/compiler/grammar/mod.rs:446-478 validate_argument", "src/compiler/grammar/actions/", "src/compiler/grammar/tests/"]}
{"id": "C81", "title": "String lists have the strings written in them", "statement": "Every string list of RFC 5228 is accepted and has exactly the strings written in it, in their order; nothing that is accepted as a string list loses or gains a string, and only string lists of RFC 5228 are accepted.", "quantifier": "all token lists", "why_tests_cant": "Lists may have any length and any arrangement of commas.", "anchors": ["src/compiler/grammar/mod.rs:301-430", "src/compiler/lexer/tokenizer.rs:250-280"]}
{"id": "C82", "title": "Extensions are declared before they are used", "statement": "A script is accepted exactly when it is a sequence of commands of the grammar in which every extension used at a place was named by a require command before that place, in a block that is still open there; unknown commands are accepted only where ihave is in force.", "quantifier": "all token sequences, all compiler settings", "why_tests_cant": "Declarations nest with blocks and every command and argument has its own extension; the combinations are unbounded.", "anchors": ["src/compiler/grammar/instruction.rs:146-828", "src/compiler/grammar/actions/action_require.rs:10-93", "src/compiler/grammar/mod.rs:263-300", "src/compiler/grammar/test.rs:133-562"]}
{"id": "C83", "title": "Blocks are closed and includes are limited", "statement": "In every accepted script the blocks opened are closed, none is closed that was not opened, and the number of include commands is at most max_includes.", "quantifier": "all token sequences, all compiler settings", "why_tests_cant": "Scripts have any length and nesting.", "anchors": ["src/compiler/grammar/instruction.rs:623-760", "src/compiler/grammar/instruction.rs:465-480"]}
{"id": "C84", "title": "Compiling loses, doubles and reorders nothing", "statement": "Every command, test and expression of an accepted script occurs in its code exactly once and in the order in which it is written, and the code contains no others; so nothing of an extension is in the code unless a require before it names the extension.", "quantifier": "all texts, all compiler settings", "why_tests_cant": "The order is a property of the whole code of scripts of any size and nesting.", "anchors": ["src/compiler/grammar/instruction.rs:146-828", "src/compiler/grammar/test.rs:123-564"]}
{"id": "C85", "title": "A script is read as what it says", "statement": "A text made of words, tags, numbers, strings, multi-line strings and punctuation, with white space and comments anywhere between them, is compiled as exactly these, and no text can be understood in two ways.", "quantifier": "all texts of the lexical grammar of RFC 5228, all limits", "why_tests_cant": "The ways to write the same script are unbounded.", "anchors": ["src/compiler/lexer/tokenizer.rs:82-570", "src/compiler/lexer/word.rs:10-410", "src/compiler/grammar/instruction.rs:146-172"]}
{"id": "C86", "title": "The name of a variable is read as what it means", "statement": "A name with a namespace is the global, environment, envelope, header or message variable its namespace and the rest say, one without a dot is the global or local variable of that name or none at all, anything else is an error; and the case of letters makes no difference.", "quantifier": "all names, all sets of global and local variables", "why_tests_cant": "Names are arbitrary text; the case of letters alone gives exponentially many spellings.", "anchors": ["src/compiler/lexer/string.rs:275-343", "src/compiler/grammar/instruction.rs:830-887"]}
{"id": "C87", "title": "A header variable is read as what is written", "statement": "A header variable written as names or a star, an index in brackets, a part after a dot and an index in brackets, with white space anywhere, is accepted exactly if names, part and numbers are valid, and means these headers, part and indices; every part of a header can be named; whatever is accepted, the headers are those named at its beginning.", "quantifier": "all texts", "why_tests_cant": "The syntax is read by a state machine over arbitrary text with white space anywhere.", "anchors": ["src/compiler/lexer/string.rs:345-471", "src/compiler/lexer/string.rs:536-631"]}
{"id": "C88", "title": "A header variable has the value of the header its index picks", "statement": "The value of a header variable is that of the n-th header with one of its names from the top, of the n-th from the bottom for a negative index, or of all of them; within a header that is a list the index of the part picks in the same way; a single value is an array only if all were asked for; and evaluation does not fail.", "quantifier": "all messages, all header variables, all indices", "why_tests_cant": "Messages have any number of headers in any order, with names that occur any number of times.", "anchors": ["src/runtime/eval.rs:127-191", "src/runtime/eval.rs:207-401", "src/runtime/eval.rs:431-443"]}
{"id": "C89", "title": "The raw text of a header is one line of its words", "statement": "The raw text of a header has its words in their order with single spaces between them and no line breaks; no other byte is lost or changed, and doing it again changes nothing.", "quantifier": "all byte strings", "why_tests_cant": "White space and folding may be anywhere in texts of any length.", "anchors": ["src/runtime/eval.rs:472-490"]}
{"id": "C90", "title": "A notification is made exactly when and how it should be", "statement": "The notify action does nothing for a message that was sent automatically, for a method that is no URI and for a wrong mailto URI. Otherwise it sends one message to all recipients of a mailto URI unless too many messages have been sent, or hands the notification to the host with its sender, importance, options, method and text, and files a copy of its message where it is asked to.", "quantifier": "all messages, methods, arguments and states of the interpreter", "why_tests_cant": "Headers, methods and recipients are unbounded, and the cases of limit, scheme and copy combine.", "anchors": ["src/runtime/actions/action_notify.rs:20-287"]}
{"id": "C91", "title": "A notification message consists of the intended fields", "statement": "A message sent as notification consists of the fields From, To, Cc, the fields of the URI other than From and Subject, Date and Message-ID unless the URI has them, the fields marking its importance and that it was sent automatically, Subject, and the body, each of them once; the sender is the one of the script only if it names the user.", "quantifier": "all arguments and URIs", "why_tests_cant": "The texts come from the script and from the URI and may contain anything.", "anchors": ["src/runtime/actions/action_notify.rs:62-215"]}
{"id": "C92", "title": "Which senders notify accepts", "statement": "The argument of :from is accepted exactly when it is a sender: an address with a local part and a domain with a dot, alone or in angle brackets after a name.", "quantifier": "all texts", "why_tests_cant": "The check is an automaton over texts of any length.", "anchors": ["src/runtime/actions/action_notify.rs:289-335"]}
{"id": "C93", "title": "convert converts exactly the parts of the given type", "statement": "The convert test succeeds exactly if a conversion between the two media types is known and the message has a part of the first type; all such parts are converted, all others and, if there is none, the whole message stay as they are; parts are not converted again.", "quantifier": "all messages, pairs of media types and conversion functions", "why_tests_cant": "The parts and their types are unbounded, and the types are compared in different ways.", "anchors": ["src/runtime/actions/action_convert.rs:23-104"]}
{"id": "C94", "title": "convert changes the converted parts only", "statement": "After a conversion the message is written as before, byte for byte, except that in the place of each converted part there is its new header and its converted text.", "quantifier": "all messages whose part offsets nest consistently", "why_tests_cant": "The rebuilt message mixes copied ranges and new parts at any depth.", "anchors": ["src/runtime/actions/action_convert.rs:53-97", "src/runtime/actions/action_mime.rs:398-566"]}
{"id": "C95", "title": "convert keeps the size of the message right", "statement": "After a conversion the size the runtime keeps is the number of bytes the message is written in, and computing it does not overflow.", "quantifier": "all messages and conversions", "why_tests_cant": "The size is computed by subtraction of lengths that may be out of date.", "anchors": ["src/runtime/actions/action_convert.rs:87-93"]}
{"id": "C96", "title": "Variables are read as they were set", "statement": "After any sequence of assignments by the script, captures, clearings at the end of blocks and values given by the host, reading a variable gives the value of a table on which these operations act in the obvious way: an assigned variable has the assigned value (cut to the limit), no other variable changes, local variables exist as many as the script has, match and environment variables cannot be assigned by the script, and setting a part of the envelope tells the host the same text.", "quantifier": "all states, all sequences of operations, all variables", "why_tests_cant": "A change of one variable may be seen in any other; tests read a few variables after a few assignments.", "anchors": ["src/runtime/eval.rs:25-90", "src/runtime/actions/action_set.rs:29-91", "src/runtime/variables.rs:12-45", "src/runtime/context.rs:177-195", "src/runtime/context.rs:478-567"]}
{"id": "C97", "title": "Match variables are reset exactly where they should", "statement": "Leaving a block resets exactly the match variables whose bit is set in the number the compiler computed, whatever their values, and a test sets exactly the ones it captures, the last text winning.", "quantifier": "all numbers, all lists of values, all captures", "why_tests_cant": "2^64 combinations of bits.", "anchors": ["src/runtime/context.rs:177-195", "src/runtime/variables.rs:12-45"]}
{"id": "C98", "title": "The variables for the body and the current part have the values of these parts", "statement": "body.text, body.html and their variants are the text of the first part of this kind of the message, converted if the name asks for it; part.text and part.raw are the text and the bytes of the current part.", "quantifier": "all messages, all variables of this kind", "why_tests_cant": "Combination of kinds of bodies and variables.", "anchors": ["src/runtime/eval.rs:26-89"]}
{"id": "C99", "title": "extracttext stores the text of the current part", "statement": "extracttext stores the first characters of the text of the current part, changed by its modifiers, within the limit for variables, and changes nothing else.", "quantifier": "all messages, parts, numbers and modifiers", "why_tests_cant": "Texts of all lengths and kinds of parts.", "anchors": ["src/runtime/actions/action_mime.rs:325-373"]}
{"id": "C100", "title": "A script does what its text says", "statement": "Take the text of a script that consists of words, tags, numbers, strings and comments as the language prescribes, whose commands and tests have the arguments and extensions they need, nested as the language prescribes and within the limits of the compiler. This structure is determined by the text, the text is accepted, and in any session the compiled script gives the same outputs and ends in the same state as the structure executed command by command.", "quantifier": "all texts, all scripts, all sessions with the host", "why_tests_cant": "The whole chain of lexer, parser, code generation and interpreter; tests run a few hundred scripts.", "anchors": ["src/compiler/lexer/tokenizer.rs:66-583", "src/compiler/grammar/instruction.rs:146-828", "src/compiler/grammar/test.rs:123-686", "src/runtime/context.rs:60-436"]}
{"id": "C101", "title": "The assertions of the interpreter hold", "statement": "Whatever the compiler accepts: in every session, whatever the host answers, whenever an instruction is about to be executed the conditions the interpreter asserts for it hold. Conditional jumps and loops lead forward, an unconditional jump does not lead to itself, a loop over message parts that ends or is left is active, and as many loops are left as are active.", "quantifier": "all token sequences the compiler accepts, all sessions, all hosts", "why_tests_cant": "The assertions depend on the position of every jump of the code and on the nesting of loops at every point of an execution.", "anchors": ["src/runtime/context.rs:131-281", "src/compiler/grammar/instruction.rs:146-828"]}
{"id": "C102", "title": "What is cleared at the end of a block exists", "statement": "Every range of local variables that a compiled script clears at the end of a block lies within the variables the script has, for every nesting of blocks and every use of local and global variables, and the subtraction by which the compiler computes the range does not underflow.", "quantifier": "all scripts", "why_tests_cant": "Variables are numbered again in every block, and those declared with :local are moved to the outermost one, at any depth.", "anchors": ["src/runtime/context.rs:177-195", "src/compiler/grammar/instruction.rs:811-827", "src/compiler/grammar/instruction.rs:851-869", "src/compiler/grammar/instruction.rs:943-962"]}
{"id": "C103", "title": "A match variable is what the last successful match captured", "statement": "Wherever a script reads ${n}, it is the n-th text captured by the last test with :matches or :regex that succeeded, and empty if there was none or it captured no such text (RFC 5229, 3.2); scripts with numbers above 62, and no others, are rejected for their match variables.", "quantifier": "all scripts with any nesting of blocks, tests and loops, all results of tests, all states", "why_tests_cant": "Which test sets which variable is decided by the compiler from the text, while which match is the last is decided at run time; the two have to agree for every path.", "anchors": ["src/compiler/grammar/instruction.rs:889-962", "src/compiler/grammar/mod.rs:263-291", "src/compiler/lexer/string.rs:256-273", "src/runtime/variables.rs:12-35"]}
{"id": "C104", "title": "Messages are delivered with the flags of the script", "statement": "fileinto and keep without :flags deliver the message with the flags which setflag, addflag and removeflag have left in the internal variable at that time, ignoring case and each once; the implicit keep with those at the end; with :flags exactly the flags given are used.", "quantifier": "all sequences of setflag, addflag, removeflag, keep, fileinto and discard that fit into the variable, all notions of case and white space", "why_tests_cant": "Flags pass through one string variable, are split and joined over and over, and the flags of keep are decided at the end of the script.", "anchors": ["src/runtime/actions/action_flags.rs", "src/runtime/actions/action_fileinto.rs", "src/runtime/context.rs:197-210", "src/runtime/context.rs:416-459"]}
{"id": "C105", "title": "A call reaches the function registered under its name", "statement": "With a compiler and a runtime made from the same function map, an expression is accepted only if every function it calls is registered for that number of arguments and is not a variable; every call then reaches the function registered last under its name, with the arguments in order, and functions of the host are called by the number they were registered with.", "quantifier": "all sequences of registrations, all expressions with any nesting of calls, all answers of the host", "why_tests_cant": "Names are resolved to numbers by the compiler and numbers to functions by the runtime; numbers of both kinds of functions grow towards each other in one range.", "anchors": ["src/runtime/mod.rs:610-666", "src/compiler/mod.rs:425-428", "src/compiler/lexer/string.rs:473-494", "src/compiler/grammar/expr/parser.rs:19-107", "src/runtime/expression.rs:52-75"]}
{"id": "C106", "title": "The text of an array has its items on lines of their own", "statement": "The text of an array (as in a string that refers to the array) consists of the texts of its items in order, separated by line breaks, so that different arrays of non-empty one-line texts have different texts.", "quantifier": "all arrays of values of all kinds", "why_tests_cant": "Empty items, nested arrays and items with line breaks interact with how the separators are written.", "anchors": ["src/runtime/mod.rs:62-69", "src/runtime/mod.rs:273-290"]}
{"id": "C107", "title": "A text stands for the same number everywhere", "statement": "A text that is a number is taken for that number by tests (to_number) and by expressions (parse_number); an integer written as text is read back.", "quantifier": "all texts and all 64-bit integers, all floating point formats", "why_tests_cant": "Two conversions were written separately and use different ways to tell integers from decimal numbers.", "anchors": ["src/runtime/mod.rs:71-89", "src/runtime/expression.rs:233-250"]}
{"id": "C108", "title": "Equal values have equal hashes", "statement": "Values that are equal write the same to a hasher, and values of the same kinds that write the same are equal.", "quantifier": "all pairs of values, nested arrays of any depth", "why_tests_cant": "The contract of Eq and Hash concerns pairs of values of different kinds, which tests of hash maps rarely hold.", "anchors": ["src/runtime/mod.rs:292-302", "src/runtime/expression.rs:262-277"]}
{"id": "C109", "title": "Tokens and errors are reported where they are", "statement": "Every token of a script is reported with the line and column of its first byte, in the order of the script, an invalid character with its own, a string or comment that does not end or is too long with those of its beginning, and an unexpected end with those of the last byte.", "quantifier": "all scripts", "why_tests_cant": "Places are kept in seven counters updated byte by byte, with line breaks inside strings, comments and multi-line texts; tests check that a script is rejected, not where.", "anchors": ["src/compiler/lexer/tokenizer.rs:23-31", "src/compiler/lexer/tokenizer.rs:82-263", "src/compiler/lexer/tokenizer.rs:309-315", "src/compiler/lexer/tokenizer.rs:336-570"]}
{"id": "C110", "title": "Instructions hold what their arguments say", "statement": "Every accepted command or test becomes an instruction whose fields are what its arguments say: each tag that is used sets its field to the value given with it, each tag that is not used leaves the value the documents prescribe, positional arguments are in the fields of their positions, and no argument is without effect.", "quantifier": "all sequences of tokens, all sets of extensions, the 11 actions and 16 tests with optional arguments", "why_tests_cant": "Every subset and every order of the tags of every command; tests use few of them together.", "anchors": ["src/compiler/grammar/actions/action_fileinto.rs:35-107", "src/compiler/grammar/actions/action_redirect.rs:127-279", "src/compiler/grammar/actions/action_vacation.rs:99-239", "src/compiler/grammar/actions/action_notify.rs:50-172", "src/compiler/grammar/actions/action_editheader.rs:62-212", "src/compiler/grammar/tests/test_header.rs:44-173", "src/compiler/grammar/tests/test_address.rs:39-163", "src/compiler/grammar/tests/test_date.rs:97-301", "src/compiler/grammar/mod.rs:263-299"]}
{"id": "C111", "title": "The host is asked for what the arguments say", "statement": "For every accepted redirect, fileinto, keep, reject, ereject, include, mailboxexists, mailboxidexists and specialuse_exists, in any state, the events given to the host carry what the arguments say after evaluation: recipient, delivery options and time limit, folder, flags, identifiers, names in their order; a changed message is given to the host before it is used; nothing else is asked, and a redirect that may not be carried out asks for nothing and changes nothing.", "quantifier": "all sequences of tokens of these commands and tests, all values of their arguments, all states", "why_tests_cant": "The tests compare some events for some scripts; which arguments reach which field of which event in which state is not covered.", "anchors": ["src/runtime/actions/action_redirect.rs:15-85", "src/runtime/actions/action_fileinto.rs:10-40", "src/runtime/actions/action_include.rs:23-52", "src/runtime/context.rs:196-232", "src/runtime/tests/mod.rs:60-97"]}
{"id": "C112", "title": "The text of an error says what is wrong and where", "statement": "For every compile error, the text of the error ends with its line and column in decimal, and two compile errors with the same text are of the same kind, about the same thing and at the same place; the same holds for runtime errors.", "quantifier": "all kinds of errors, all their contents, all lines and columns", "why_tests_cant": "The tests print errors at most; that no two of infinitely many errors share a text cannot be seen from samples.", "anchors": ["src/compiler/mod.rs:506-601", "src/compiler/mod.rs:20-69", "src/runtime/mod.rs:46-53"]}
{"id": "C113", "title": "Scripts of the base language do what RFC 5228 says", "statement": "Read a script made of require, if, elsif, else, stop, keep, discard, fileinto, redirect, reject, notify, vacation, set and commands that change the message (addheader, deleteheader, replace, enclose) from the top to the bottom: the first branch whose test is true is taken, anyof and allof stop at the first test that decides, a test that is left to the host is put to it once, when it is reached, and counts as the host answers, a vacation reply is sent if the host answers that it has not replied before, messages that the script makes are numbered in their order, sent and filed, the message is kept, filed and redirected as it is at that moment, and it is kept at the end unless an action has cancelled that. The host is told exactly the questions and deliveries this gives, in this order, then to keep the message exactly if it is kept, with its flags, or that it is discarded exactly if a discard has the last word, and nothing else; there are no errors.", "quantifier": "all scripts of the base language from their texts, all messages, all sessions, all answers of the host, all meanings of tests and arguments", "why_tests_cant": "The meaning of a script is compared with what the whole chain of compiler and interpreter does, with jumps, a queue of events and one pending final event in between.", "anchors": ["src/runtime/context.rs:60-476", "src/runtime/actions/action_fileinto.rs", "src/runtime/actions/action_redirect.rs", "src/compiler/grammar/instruction.rs:146-828", "src/compiler/grammar/test.rs:123-686"]}
{"id": "C114", "title": "Modifiers of set change the text as RFC 5229 says", "statement": "With :lower, :upper, :lowerfirst and :upperfirst as the last modifier a variable holds the text with all its letters or only the first one changed, cut to the longest prefix that fits; with :quoteregex it holds a regular expression that matches exactly a prefix of the text, all of it if there is room for twice its length.", "quantifier": "all texts, all sequences of modifiers, all limits of at least four bytes", "why_tests_cant": "Case changes may lengthen a text and cuts may fall into a character or an escape; tests use short texts.", "anchors": ["src/runtime/actions/action_set.rs:29-91", "src/runtime/actions/action_set.rs:98-206"]}
{"id": "C115", "title": "A quoted string is a number exactly if it is the text of this number", "statement": "A quoted string is kept as a number exactly if its content is how this number is written, so that nothing is lost when it is printed again; all other contents, as 007, 1.50 or 1., and all multi-line strings are kept as texts; a content is searched for variables exactly if it contains ${ or %{.", "quantifier": "all contents without the backslashes of C33, all positions, all number formats with the stated laws", "why_tests_cant": "The decision is made from flags collected byte by byte before the text is parsed.", "anchors": ["src/compiler/lexer/tokenizer.rs:140-190", "src/compiler/lexer/tokenizer.rs:33-64"]}
{"id": "C116", "title": "A require instruction lists what it names", "statement": "The instruction compiled from require checks for exactly the extensions named that are not already declared in an open block, each once, in the order of their names, spamtest following spamtestplus; so the extension reported as missing is the first one named that is neither declared nor allowed.", "quantifier": "all lists of names, all scripts before, all sets of allowed extensions", "why_tests_cant": "Names may repeat, imply one another and be declared in enclosing blocks.", "anchors": ["src/compiler/grammar/actions/action_require.rs:15-92", "src/runtime/context.rs:390-403"]}
{"id": "C117", "title": "Accepted scripts keep within the limits for variables and are run", "statement": "A script that the compiler accepts has at most as many local and match variables as set by max_local_variables and max_match_variables, and the runtime runs it.", "quantifier": "all scripts, all limits", "why_tests_cant": "Slots are shared between blocks and added for :local, so that the number of variables depends on the whole script.", "anchors": ["src/lib.rs:22-23", "src/lib.rs:50-51", "src/compiler/grammar/instruction.rs:811-869", "src/runtime/context.rs:86-112"]}
{"id": "C118", "title": "A test gives the result that its arguments in the script ask for", "statement": "A header, address, envelope, exists, hasflag or string test with any tags and arguments that the compiler accepts is true exactly if a value it is about (the header fields of the given names in the parts searched, chosen by :index and :last, read as :mime options or address parts say; the envelope fields of the given names; the flags of the given variables; the sources) is related to one of the keys as the match type and the comparator say, where :is and i;ascii-casemap are the defaults; negated, exactly if not.", "quantifier": "all argument lists that are accepted, all messages, envelopes, keys, numbers of match variables", "why_tests_cant": "The result depends on a dozen tags that can be given in any order, each of which is stored by the compiler and used by the runtime in another place.", "anchors": ["src/compiler/grammar/tests/test_header.rs:44-173", "src/compiler/grammar/tests/test_address.rs:39-176", "src/compiler/grammar/tests/test_envelope.rs:40-240", "src/compiler/grammar/tests/test_exists.rs:34-87", "src/compiler/grammar/tests/test_hasflag.rs:41-147", "src/runtime/tests/test_header.rs:21-361", "src/runtime/tests/test_address.rs:29-295", "src/runtime/tests/test_envelope.rs:20-168", "src/runtime/tests/test_exists.rs:12-36", "src/runtime/tests/test_hasflag.rs:18-96", "src/runtime/tests/test_string.rs:18-105"]}
{"id": "C119", "title": "The other tests, :count and :list give the results that their arguments ask for", "statement": "A date, currentdate, body, duplicate, spamtest, virustest, metadata, servermetadata or notify_method_capability test with any tags and arguments that the compiler accepts is true exactly if a value it is about (the given part of a date in the zone that :zone or :originalzone says; the texts of the parts that :raw, :text or :content ask for and the subject; the status, in percent with :percent; the annotation; the capability) is related to one of the keys as the match type and the comparator say; duplicate asks the host about the id, expiry and handle given; :count compares the number of fields or strings; :list asks the host about each value that is not empty once.", "quantifier": "all argument lists that are accepted, all messages, dates, keys, stored annotations, numbers of match variables", "why_tests_cant": "The result depends on tags that can be given in any order, each of which is stored by the compiler and used by the runtime in another place; which of two dates, zones, subjects or identifiers is taken can be seen only for some of their combinations.", "anchors": ["src/compiler/grammar/tests/test_date.rs:30-301", "src/compiler/grammar/tests/test_body.rs", "src/compiler/grammar/tests/test_duplicate.rs", "src/compiler/grammar/tests/test_spamtest.rs", "src/runtime/tests/test_date.rs:25-212", "src/runtime/tests/test_body.rs:20-223", "src/runtime/tests/test_duplicate.rs:17-73", "src/runtime/tests/test_spamtest.rs:21-110", "src/runtime/tests/test_metadata.rs:21-104", "src/runtime/tests/test_notify.rs:47-100"]}
{"id": "C120", "title": "Actions do what their arguments ask for", "statement": "An addheader, deleteheader, vacation, notify, replace or enclose action with any tags and arguments that the compiler accepts does exactly what they say: addheader puts the field with the given name and as much of the given text as is allowed at the beginning or with :last at the end of the current part, unless the name is none or protected; deleteheader takes out exactly the fields with the name, at the place that :index and :last give, in the parts that :anychild gives, whose value is related to one of the patterns as the match type and the comparator say; vacation asks the host for sender and handle and for the time given, exactly if the message may be answered given :addresses, and answers with subject, sender and text given; notify acts on method, sender, importance, options, message and copy given; replace and enclose make a message of text, subject, sender and header fields given; and copies are filed as :fcc, :flags, :create, :specialuse and :mailboxid say.", "quantifier": "all argument lists that are accepted, all messages, all configurations", "why_tests_cant": "Each action has up to nine arguments that can be given in any order and left out; that each reaches the place it is meant for can be tested only for some combinations.", "anchors": ["src/compiler/grammar/actions/action_editheader.rs", "src/compiler/grammar/actions/action_vacation.rs", "src/compiler/grammar/actions/action_notify.rs", "src/compiler/grammar/actions/action_mime.rs", "src/runtime/actions/action_editheader.rs:22-136", "src/runtime/actions/action_vacation.rs:27-337", "src/runtime/actions/action_notify.rs:20-287", "src/runtime/actions/action_mime.rs:26-323"]}
{"id": "C121", "title": "A script of the core language does what its text says", "statement": "Take any text that is made of require, if, elsif, else, stop, keep, discard, fileinto, redirect, reject and ereject with the tests header, address, envelope, exists, size, true, false, not, anyof and allof, with any of their tags except :count and :list, and without variables. If it is compiled and run on any message, the tests are true exactly if a value of a header field, address or envelope field that their arguments ask for is related to one of their keys as their tags say; the first block of an if whose test is true is carried out; the host is told exactly the deliveries of the actions that are carried out, in their order, to the folders and addresses with the options, flags and limits that their arguments give; and at the end it is told to keep the message exactly if there was a keep or nothing has cancelled the implicit keep, and that it is discarded exactly if a discard has the last word. What the text says is one thing only.", "quantifier": "all texts of the core language, all messages, all configurations, all sessions in which the host answers", "why_tests_cant": "The claim joins lexer, parser, compiler, interpreter, tests and actions; tests of the whole can only try some scripts on some messages.", "anchors": ["src/compiler/lexer/tokenizer.rs", "src/compiler/grammar/instruction.rs:146-828", "src/runtime/context.rs:59-560", "src/runtime/tests/mod.rs:33-58", "src/runtime/actions/action_fileinto.rs:10-40", "src/runtime/actions/action_redirect.rs:15-85"]}
{"id": "C122", "title": "A script with variables does what its text says", "statement": "Take any text of the core language (C121) that also uses set with any of its modifiers except :replace, references ${name} in its arguments, and the test string with one key, and in which every variable is set for the first time outside of all blocks and before it is used. If it is compiled and run on any message, every variable holds the last value that was set, changed by the modifiers in the order of their precedence and cut to the limit, and is empty before; capital letters in names do not matter; all arguments and tests are read with the values of that moment; and what is carried out and what the host is told is as in C121. Each reference stands for one slot, there are as many slots as names, and no block clears a variable.", "quantifier": "all texts of the language, all messages, all configurations, all sessions in which the host answers", "why_tests_cant": "The values of variables depend on all commands that were run before; tests of the whole can only try some scripts on some messages.", "anchors": ["src/compiler/grammar/actions/action_set.rs:60-198", "src/compiler/lexer/string.rs:20-333", "src/compiler/grammar/instruction.rs:830-962", "src/runtime/actions/action_set.rs:15-90", "src/runtime/eval.rs:26-124", "src/runtime/tests/test_string.rs:12-80"]}
{"id": "C123", "title": "A script with flags, dates and server information does what its text says", "statement": "Take any text of the language with variables (C122) that also uses setflag, addflag and removeflag, with a variable or without, and the tests hasflag, date, currentdate, spamtest, virustest, metadata, servermetadata and notify_method_capability. If it is compiled and run on any message, each of the three commands changes the flags of the script, or those in the variable it names, as RFC 5232 says: flags are compared ignoring case, none is there twice after setflag and addflag, new ones come last, and the text is cut to the limit of variables; every test and every delivery sees the flags and variables of that moment; every test is true exactly if its RFC says so of the message and of what the server knows; and what is carried out and what the host is told is as in C121, the message that is kept having the flags of the end of the script.", "quantifier": "all texts of the language, all messages, all configurations, all sessions in which the host answers", "why_tests_cant": "Flags depend on all commands that were run before and on the case of letters; tests of the whole can only try some scripts on some messages.", "anchors": ["src/compiler/grammar/actions/action_flags.rs:20-89", "src/runtime/actions/action_flags.rs:15-134", "src/runtime/tests/test_hasflag.rs:18-96", "src/runtime/tests/test_date.rs:15-293", "src/runtime/tests/test_spamtest.rs:15-199", "src/runtime/tests/test_metadata.rs:14-132", "src/runtime/tests/test_notify.rs:15-90", "src/runtime/context.rs:196-260"]}
{"id": "C124", "title": "A script with questions to the host does what its text says", "statement": "Take any text of the language with flags (C123) that also uses the tests mailboxexists, mailboxidexists, specialuse_exists, duplicate, body, environment, ihave, metadataexists, servermetadataexists, valid_notify_method and valid_ext_list, and :list in header, address, envelope and string. If it is compiled and run on any message, each test that only the host can answer puts exactly one question to it, that of its arguments with the variables and flags of that moment, and is true exactly if the host says so; a test with :list puts none and is false if there is no value to look for; no other test asks anything, and each of them is true exactly if its RFC says so; tests that need not be looked at, because those before them settle anyof, allof or if, put no question; and the host is told the questions and the deliveries in the order in which the script comes to them, then what becomes of the message, and nothing else.", "quantifier": "all texts of the language, all messages, all configurations, all sessions in which the host answers, all answers", "why_tests_cant": "Every answer of the host changes what is asked next; tests can only try some sequences of answers with some scripts.", "anchors": ["src/runtime/tests/mod.rs:33-127", "src/runtime/tests/test_duplicate.rs", "src/runtime/tests/test_body.rs", "src/runtime/tests/test_extlists.rs", "src/runtime/context.rs:94-129", "src/compiler/grammar/test.rs"]}
{"id": "C125", "title": "A script with notifications and vacation replies does what its text says", "statement": "Take any text of the language with questions (C124) that also uses notify and vacation with any of their tags. If it is compiled and run on any message, every notify does what RFC 5435 and 5436 have its arguments say with the variables of that moment: nothing for automatically submitted messages and for methods that are no URI, one message to all recipients of a mailto URI, or a notification by the host, and a copy where :fcc asks for one. Every vacation asks the host whether it has replied before exactly if the message may be replied to, and replies, to the sender and with the subject, sender and text of its arguments, exactly if the host has not. Messages that are made are numbered 1, 2, ... in their order, and the limit on outgoing messages counts the redirections, the replies and the notifications left to the host that came before. The host is told all of this in the order of the script, then what becomes of the message, and nothing else.", "quantifier": "all texts of the language, all messages, all configurations, all sessions in which the host answers, all answers", "why_tests_cant": "Tests can only try some scripts and messages; which replies are sent depends on the header, the envelope, the variables, the answers of the host and on what was sent before, all at once.", "anchors": ["src/runtime/actions/action_notify.rs:20-287", "src/runtime/actions/action_vacation.rs:27-336", "src/compiler/grammar/actions/action_notify.rs:50-172", "src/compiler/grammar/actions/action_vacation.rs", "src/compiler/grammar/instruction.rs", "src/runtime/context.rs:94-129"]}
{"id": "C126", "title": "A script that changes header fields does what its text says", "statement": "Take any text of the language with notifications and vacation replies (C125) that also uses addheader and deleteheader with any of their tags. If it is compiled and run on any message, every addheader and deleteheader changes exactly the fields that RFC 5293 has its arguments say with the variables and the message of that moment. All tests and commands that come after it see the changed message. Before a message that was changed is kept, filed or redirected, the host is given it as it is then, under a new number; this happens once for all changes since it was last given, and the delivery names the number of the version. The host is told all of this in the order of the script, then what becomes of the message, and nothing else.", "quantifier": "all texts of the language, all messages with any part tree, all configurations, all sessions in which the host answers, all answers", "why_tests_cant": "Which version of the message goes where depends on the order of changes, tests and deliveries over the whole run; tests can only try some orders and some messages.", "anchors": ["src/runtime/actions/action_editheader.rs:22-122", "src/runtime/context.rs:275-345", "src/runtime/actions/action_fileinto.rs", "src/runtime/actions/action_redirect.rs", "src/runtime/actions/action_mime.rs", "src/compiler/grammar/actions/action_editheader.rs"]}
