# Formal model of the Sieve compiler and runtime

Target: `stalwartlabs/sieve` (Rust), read from `/repo`. The code is not built or run here; it is read as text and
modelled function by function in Lean 4 under `lean/Verif/`. Line numbers in comments refer to the files of `/repo/src`.

## Layout

Every area has a `Model` file (definitions that mirror the Rust functions, each with a file/line citation), `Lemmas`
files where needed, and `Props` files that contain the small separate specification, the property theorems and, beside
each theorem, a concrete `example` meeting its hypotheses. `MANIFEST.json` maps property ids to theorem names.
`seeded/LOG.jsonl` records the wrong programs the theorems were tried on.

## Trusted base

* the Lean 4.33.0 kernel and the three standard axioms `propext`, `Classical.choice`, `Quot.sound`
  (no axioms of our own, no `sorry`, no `native_decide`, no `bv_decide`); the appendix lists the axioms of each theorem;
* the Mathlib modules imported one by one (only lemmas; no extra axioms);
* the reading of the Rust code recorded in the citations: each definition is a hand translation;
* the specifications in the `Spec` and `Props` files, which say what the English properties mean;
* the assumptions about external functions listed per area below.

Modelling conventions: `usize`/`u32` counters are `Nat` (overflow is not modelled unless said so); `i64` arithmetic is
`Int` with the wrap/saturation made explicit where the code has it; `String` is `List Char`, byte strings are `List UInt8`
or `List Nat`; `HashMap`s are functions or association lists; a Rust panic is an explicit error value; `debug_assert!` is
ignored (release build), the release-mode fall-through is modelled; code under `cfg(test)` is not modelled.

## Areas: what is modelled, what is assumed

| files | code | properties |
|---|---|---|
| `Glob*` | `runtime/tests/glob.rs` | C01–C03 |
| `SetModel`, `SetProps`, `TextModel` | `runtime/actions/action_set.rs` (modifiers, truncation, storing) | C04, C21, C23, C44 |
| `Flags*` | `runtime/actions/action_flags.rs`; in `FlagsDeliver` also the flags of `keep` and `fileinto` (`action_fileinto.rs`, `context.rs:416-459`) | C24, C25, C104 |
| `Mime*`, `Header*` | `runtime/actions/action_editheader.rs`, `find_headers`, `find_nested_parts_ids`, `SubpartIterator` | C26–C29, C38 |
| `Address*`, `Envelope*`, `Mailto*` | `sanitize_address`, `parse_envelope_address`, `user_from_field`, `parse_mailto` | C30–C32, C42, C52 |
| `Lex*` | `compiler/lexer/tokenizer.rs` | C33–C36, C51 |
| `FieldsModel`, `FieldsSpec`, `FieldsLemmas`, `FieldsVars`, `FieldsProps` | what the parsers in `compiler/grammar/actions` and `compiler/grammar/tests` make of the arguments they read: the variables set in their loops and the instructions built of them (`fileinto`, `redirect`, `include`, `vacation`, `notify`, `replace`, `enclose`, `addheader`, `deleteheader`, and the tests with optional arguments) | C110 |
| `EventModel`, `EventProps` | the events of `runtime/actions/action_{redirect,fileinto,include}.rs`, `context.rs:196-232`, `tests/mod.rs:60-97` | C111 |
| `DisplayModel`, `DisplayProps` | the texts of errors, `compiler/mod.rs:506-601` | C112 |
| `BaseSpec`, `BaseLemmas`, `BaseSim`, `BaseProps`, `BaseUntouched` | the base language, RFC 5228, as a function on scripts, and that the interpreter model (`VmModel`) does the same; no code of its own | C113 |
| `ModifierProps` | no code of its own: theorems on `SetModel` (modifiers of `set`) | C114 |
| `LexNumber` | no code of its own: theorems on `LexModel` (string constants that are numbers) | C115 |
| `RequireProps` | no code of its own: theorems on `ScriptModel` (`add_capability`) | C116 |
| `WrittenModel`, `WrittenProps` | how the fields of the instructions of `header`, `address`, `envelope`, `exists`, `hasflag`, `string` are given to the functions of `TestsModel` | C118 |
| `WrittenOtherModel`, `WrittenOtherProps` | the same for `date`, `currentdate`, `body`, `duplicate`, `spamtest`, `virustest`, `metadata`, `servermetadata`, `notify_method_capability`; `:count` and `:list` | C119 |
| `WrittenActionModel`, `WrittenActionProps` | actions as they are written: `addheader`, `deleteheader`, `vacation`, `notify`, `replace`, `enclose` from the tags in the script to what is done | C120 |
| `CoreModel`, `CoreSpec`, `CoreProps`, `CoreUnique`, `CoreExamples` | scripts of the core language, from their text to what the host is told | C121 |
| `VarsModel`, `VarsSpec`, `VarsProps`, `VarsUnique`, `VarsScope`, `VarsExamples` | the core language with variables, `set` and `string` | C122 |
| `LangSpec`, `LangProps`, `FlagLangModel`, `FlagLangSpec`, `FlagLangProps`, `FlagLangUnique`, `FlagLangExamples` | scripts for any commands and tests; the language with flags, dates and server information | C123 |
| `AskLangModel`, `AskLangSpec`, `AskLangProps`, `AskLangExamples` | the language with questions to the host | C124 |
| `MailLangModel`, `MailLangSpec`, `MailLangProps`, `MailLangExamples` | the language with notifications and vacation replies | C125 |
| `EditLangModel`, `EditLangSpec`, `EditLangProps`, `EditLangExamples` | the language with header fields that change | C126 |
| `VarLimit` | no code of its own: theorems on `ScopeModel`, `MatchVarModel`, `VmModel` (number of variables) | C117 |
| `PosModel`, `PosProps` | the line numbers and columns in `compiler/lexer/tokenizer.rs` | C109 |
| `Compile*`, `TestCompile`, `BlockCompile` | `compiler/grammar/test.rs` (`parse_test`), `compiler/grammar/instruction.rs` (main loop) | C05–C08, C68 |
| `Source*` | the interpreter on compiled scripts against structured programs | C05–C07 |
| `Scope*` | variable slots: `instruction.rs:830-1204`, `action_set.rs`, `Clear` | C22, C54, C55 |
| `Vm*` | `runtime/context.rs` and the `exec` functions that touch the interpreter state | C09–C17, C43, C45–C47, C54 |
| `Expr*` | `compiler/grammar/expr/{tokenizer,parser}.rs`, `runtime/expression.rs` | C18–C20, C48–C50, C64, C67 |
| `Tests*` | `runtime/tests/comparator.rs`, `test_{string,header,address,envelope,hasflag}.rs` | C39, C40 |
| `OtherTests*`, `DateProps` | `runtime/tests/test_{exists,size,duplicate,spamtest,metadata,notify,extlists,date}.rs`, `ihave` in `tests/mod.rs`, `validate_uri` | C69–C75 |
| `Word*` | `compiler/lexer/word.rs`, names of capabilities in `compiler/grammar/mod.rs` | C76 |
| `Args*` | argument parsing of all commands and tests: `compiler/grammar/mod.rs:263-505`, `grammar/actions/*.rs`, `grammar/tests/*.rs` | C77–C81 |
| `Script*` | whole scripts: `require`, blocks, labels, unknown commands and tests: `compiler/grammar/instruction.rs:146-828`, `grammar/actions/action_require.rs`, `grammar/test.rs:133-562`, `compiler/grammar/mod.rs:263-300` | C82, C83 |
| `CompileOrder`, `TextProps` | the whole way from the text to the code: `compiler/grammar/instruction.rs:146-828` with the lexer | C84, C85 |
| `Hvar*` | variables with a namespace and header variables: `compiler/lexer/string.rs:275-471, 536-631`, `runtime/eval.rs:127-191, 207-401, 472-490` | C86–C89 |
| `Notify*` | `runtime/actions/action_notify.rs:20-365` | C90–C92 |
| `Convert*` | `runtime/actions/action_convert.rs` | C93–C95 |
| `Store*` | `runtime/eval.rs:25-90`, `runtime/actions/action_set.rs:29-91`, `runtime/variables.rs`, `runtime/actions/action_mime.rs:325-373`, `runtime/context.rs:177-195, 478-567` | C96–C99 |
| `MatchVar*` | match variables: `register_match_var`, `block_end` (`compiler/grammar/instruction.rs:889-962`), `parse_match_type`, `parse_match_variable`, with `runtime/variables.rs` | C103 |
| `Function*` | functions of the host by name: `runtime/mod.rs:610-666`, `compiler/mod.rs:425-428`, `compiler/lexer/string.rs:473-494` | C105 |
| `ValueProps` | texts, numbers and hashes of values: `runtime/mod.rs:62-89, 273-302`, `runtime/expression.rs:233-277` | C106–C108 |
| `WholeProps` | composition of the lexer, the compiler and the interpreter | C100 |
| `CompileForward`, `CompileDepth`, `AssertProps`, `ScopeClear` | assertions of `runtime/context.rs` against what `compiler/grammar/instruction.rs` generates | C101, C102 |
| `Body*` | `runtime/tests/test_body.rs`, `find_nested_parts`, `ContentTypeFilter` | C65, C66 |
| `Vacation*`, `VmVacation` | `runtime/actions/action_vacation.rs` | C41, C53 |
| `Build*` | `runtime/actions/action_mime.rs` (`build_message`, `Replace`, `Enclose`), header edits | C37, C56–C59, C63 |
| `String*` | `compiler/lexer/string.rs:35-254, 495-533`, `runtime/eval.rs:92-124` | C60–C62 |

Assumptions and simplifications by area (each is repeated at the definition or hypothesis it concerns):

* **Glob, Set**: Unicode case mapping is a parameter (`CaseMap`); where a theorem needs that lowercasing works character
  by character (`Charwise`) this is a hypothesis. Lengths in bytes are given by a function on characters. The bit masks of
  capture positions have 64 bits.
* **Flags**: white space is a parameter; `lower t ≠ lower []` for non-empty `t` where it is used.
* **Mime**: parts are given with their sub-part lists; where document order is claimed, `mail_parser` is assumed to number
  parts in document order. Equality of `HeaderName`s is decidable equality of the names.
* **Address, Mailto**: UTF-8 decoding of percent-encoded bytes and the parsing of header names are parameters.
* **Lex**: the table of words is a parameter (`WordsOk` says that words consist of word characters); positions and the lossy
  UTF-8 conversion are left out.
  For C115 numbers are printed with digits, a sign and at most one point (`Writes`).
* **Compile**: the input is a list of tokens in which an atomic test, an action or an expression is one token together
  with its arguments; argument parsing and capability checks are not modelled, so the model accepts more than the code.
* **Source**: a test with `is_not` behaves as the negation of the test (`Interp`); when the limit of instructions is reached, a structured script is stopped at that point (`SHist.cut`).
* **Scope**: scripts are given by their structure, `elsif` is `else` with an `if` inside, names are ASCII, everything that
  is not about variables is an arbitrary function on an arbitrary state.
* **MatchVar**: scripts are given by their structure; what tests capture is an arbitrary function of the state; tests are
  recorded by number instead of position in the code.
* **Function**: a function is a function of its arguments only (not of the context); `u32` arithmetic wraps.
* **Base**: what single commands and tests do with their arguments is given by the same `Interp` as for C06; tests are answered by the
  interpreter or by one question to the host (`Action.ask`; the answers are a parameter of the specification); the empty value is the only one that counts as empty (`hE`); the host answers events by `true` or `false` only.
* **Display**: `{:?}` of strings and characters is a parameter that can be read back (`Debug.Clear`); a capability is given by its
  name.
* **Value**: a hasher is told apart by the sequence of texts and 8-byte numbers written to it; `f64::to_bits` is a parameter.
* **Hvar**: names are ASCII; the parsers of mail-parser for header names, addresses, dates, identifiers and unstructured text and
  the accessors of `Received` are parameters; an overflow is a panic, as in a build with overflow checks.
* **Vm**: `W` (message, global variables, envelope, expression stack), `V` (values) and `P` (payloads) are arbitrary types;
  an instruction carries the function its evaluation denotes, so the theorems hold for every behaviour of tests and
  expressions. Hypotheses on scripts: `Guarded`, `Tested`, `Vacations` (a vacation is compiled as test, jump, action),
  `KeepsMsg`, `NoLate`, `Quiet` (see the theorems that use them).
* **Expr**: floating point numbers are a parameter with the laws that are used (`Ieee`); built-in functions are pure; the
  saturation of `arg_count` is not modelled; names of variables and functions, `f64::from_str` and `String::from_utf8` are
  parameters of the tokenizer (`Map`).
* **Tests**: regular expressions, `mail_parser`'s parsers and the address-part functions are parameters (`Ext`); values are
  collected in a list before they are searched.
* **OtherTests, Date**: header names, ids and dates are parsed by parameters (`DateExt`, `parseId`), as are the Julian day,
  the weekday, time zones and the RFC 3339 and RFC 822 texts; multiplication, rounding and the literal 1.1 of floating point
  numbers (`Flt2`). The subtraction of 2400000.5 from the Julian day is taken to be exact.
* **Body**: `html_to_text` and the conversions from bytes to text are parameters (`Lib`); parts, offsets, content types and
  boundaries are what `mail_parser` finds, with the parts of a multipart numbered after it (`Forward`).
* **Vacation**: arguments are evaluated already, date and message id are parameters, `bytes` and `names` stand for reading
  the raw header and `Address::contains`; text is a list of characters.
* **Notify**: arguments are evaluated already, date and message id are parameters; UTF-8 and the parser of `mailto` URIs are
  parameters (`Ext`); the fields of a URI have texts as names.
* **Convert**: `html_to_text`, `text_to_html` and the subtype of a part are parameters; a size below zero is a panic, as in a build
  with overflow checks; the rest as for Build.
* **Store**: names of variables and values as in Set; maps are functions; conversions between HTML and text and the lossy conversion
  of bytes are parameters (`Lib`).
* **Build**: offsets, parts and header fields are what `mail_parser` finds; `Intact` and `Original` say that the header
  fields and parts lie one after the other. Kinds of header names, `remove_crlf`, protected headers are parameters (`Names`),
  arguments are evaluated already.
* **String**: the result of looking up a name (`parse_variable`, `parse_match_variable`) and the parsing and printing of
  numbers are parameters; texts are bytes, the lossy UTF-8 conversion is left out. `string_value` assumes that printing
  a text, an integer or a float gives it back and that the default value prints as nothing (`Values.Prints`).

* **Args**: one loop stands for the loops of all commands, each of which is an entry of a table (tags with number, capability
  and argument; positional arguments; checks at the end); errors are not distinguished; `tokenize_string`, regular
  expressions, header names, URIs, senders, expressions and variable names are checked by parameters (`Ext`), and the
  declared capabilities are an arbitrary set. The documents are represented by the usage lines (`ArgsUsage`), the groups
  and the needs (`ArgsProps`), written from the RFCs.
* **Script**: the loop over tokens of `Compiler::compile` with the stack of declared capabilities; the tests of an `if` are
  read as a flat sequence here (their nesting is in `Compile*`). Jumps and instructions are in `Compile*`, to which
  `Node.tok` translates.
* **Core language** (`CoreModel`): commands and tests outside of the language, and arguments with variables, are errors in this model, so that nothing is said about them; `Fits` says that the two parameters of the interpreter for the user's address and the flags of the script are those of the host; a `require` instruction lists all extensions that are named (see C116).
* **Variables in scripts** (`VarsModel`): a variable is its place in a list of names in the whole script, which is what the compiler does if all are set for the first time outside of blocks (`scopes_agree`); match variables, namespaces and `:replace` are errors in this model; names are ASCII; the text of a variable is UTF-8 and reading it gives the text back, and numbers are printed by one function (`Prints`, only for `string_says_partial`); the limit of variables is at least 2 bytes (`Fits`), as a number is taken for 2 bytes.
* **Flags in scripts** (`FlagLangModel`): the text of `__flags` is part of the state, a variable that was never set counting as the empty text; `str::to_lowercase` is a function of the host, of which is assumed that only the empty text becomes empty (`Fits.lower`); the current time, the spam and virus status, the stored metadata and the notification methods are what the host has at the start (`other`), as scripts cannot change them; `hasflag` looks variables up by their names (`lookups` in `VarsScope`).
* **Questions in scripts** (`AskLangModel`): the external lists that are there, the items of the environment (by names in lower case, which are assumed to be ASCII) and enough steps for the search of `body` are what the host has at the start; `capability` of a text is a parameter (`caps`); comparison of texts ignoring case is assumed to be symmetric (`Sees.sym`), and content of messages in messages to lie behind the beginning of the message (`Sees.forward`).
* **Messages made in scripts** (`MailLangModel`): the message is given several times, as the tests see it and by its header fields, subject and envelope as `notify` and `vacation` read them; all messages that a script makes have the same date and message id (in the code each has its own); `char::is_whitespace` and so on are as `Vacation.Letters` assumes. `Place.message`, `Place.group` and `Place.notice` stand for the contents of `CreatedMessage`, the recipients and the fields of `Event::Notify`.
* **Changed messages** (`EditLangModel`): the message with other header fields is a function of the host (`put`), of which the theorem assumes (`Holds`) that the tests see those fields afterwards and everything else as before, and that the message still has its parts; the subject, envelope and header fields that `notify` and `vacation` read are functions of the whole message. What the message looks like as bytes (`build_message`, C36) is the parameter `render` of the interpreter here. A panic of `addheader` without a current part (C120) does not happen under `Holds`.

## Proof methods

Loop invariants with a termination measure and refinement to an inductive match relation (Glob); compiler correctness by
comparison with the code a textbook compiler emits, then simulation against a structured semantics (Compile, Source);
invariants over all sessions, i.e. all sequences of inputs by the host and all scripts (Vm); parser correctness against a
grammar with one level per precedence, evaluator correctness against the meaning of trees (Expr); scanner invariants and
round trips (Lex, Address, Mailto); refinement of slots to separate variables (Scope); induction over part trees (Build, Mime);
decision logic outright (Tests, Vacation).

## Not modelled

Regex matching, floating point values, Unicode tables, `mail_parser`'s message parser, MIME encoders, dates and clocks,
script (de)serialisation.
## Disagreements found

Each is proved as a negation with a concrete witness (theorem name, what it says); the positive theorem carries the
suffix `_partial` or has the corresponding hypothesis.

* `capture_drops_replacement`: The hypothesis on U+FFFD is necessary: a U+FFFD of the value is missing from the text captured by `*`, so the wildcard texts do not rebuild the value.
* `setflag_list_duplicates`: The restriction to single words is necessary: `setflag ["a b", "a"]` stores the flag `a` twice.
* `setflag_truncation_duplicates`: The size restriction is necessary: truncation can turn a flag into a copy of another one.
* `stored_integer_exceeds`: Without that restriction the bound fails: integers count as two bytes whatever their size.
* `replace_upper_unspecified`: The precedence claim does not determine the outcome when `:replace` is combined with `:upper`, which has the same precedence: both results are allowed by the (unstable) sort.
* `removeflag_leaves_copy`: Without that restriction only one copy is removed.
* `redirect_address_loses_quotes`: Quotes are dropped and not re-added, so a quoted `@` or blank ends up bare in the address handed to the host.
* `envelope_leading_at`: **C31** is false for texts starting with `@`: "@@a" is accepted although it has two `@` and nothing before the first one.
* `envelope_bare_route_rejected`: Without brackets a source route is rejected: position 0 of the leading `@` doubles as "no `@` seen".
* `mailto_to_field_rejected`: "?t=a@b&s=x" (recipients only in a `to=` field that is followed by another field) is rejected, although "?s=x&t=a@b" is accepted: the `&` branch does not record that an address was seen.
* `oversized_script_no_keep`: A script with more than 256 local variables is not run at all: `run` returns `None` at once and no `Keep` event is ever produced.
* `explicit_keep_lost`: The three ways in which an explicit `keep` is lost.
* `once_registered_runs_twice`: `:once` has no effect on scripts registered in the run time: `lib`, which files a copy, is run twice.
* `notify_mailto_unlimited`: A notification by mail is not counted: any number of them can be sent, whatever the limit.
* `implicit_keep_outdated`: A header is added and a copy filed: the copy has the header, but the implicit keep at the end still refers to the original message (id 0).
* `late_envelope_flips`: The hypothesis on envelope assignments is needed. After `let` has assigned an envelope field, the `SetEnvelope` event is only returned to the host after the query of the next test, and the host's answer to it is applied to the value of that test: the folder exists (`true`), but whether the message is filed depends on the answer to `SetEnvelope`.
* `continue_dropped`: `while e { while f { continue; a } }`: the compiler drops the `continue`.
* `continue_rejected`: `while e { while f { while g { continue; } } }` is rejected.
* `continue_keeps_part`: `continue` out of a `foreverypart` loop keeps its part: the script still works on part 1 after the loops. In the structured script the part is that of the message, 0.
* `array_item_rejected`: `[(a)]` is an expression, but the parser rejects it: the opening parenthesis hides the array from the counter of its items.
* `juxtaposition_accepted`: The parser accepts token sequences that are not expressions: here two operands without operator. The value is that of the last one.
* `skipped_operator`: `5 || 0` has the value 5, though the operator would give 1; so `(5 || 0) + 1` is 6.
* `negation_overflow`: The negation of the smallest integer overflows, which is reported by a panic or, without overflow checks, yields the smallest integer again.
* `string_array_order`: A string is greater than an array, and the array is greater than the string.
* `quoted_backslash_last`: C33 fails: the content `a\`, written `"a\\"`, is not a complete string.
* `quoted_backslash_pair`: C33 fails: the content `a\\b`, written `"a\\\\b"`, gets a third backslash.
* `quoted_backslash_letter`: C33 fails: the content `C:\new`, written `"C:\\new"`, gets a line feed for its `n`.
* `number_too_large`: C35 fails for digits beyond 64 bits: they are not limited but give an unknown token.
* `last_word_dropped`: C51 fails: in the script `keep` the word is dropped, without an error; with a line feed it is there.
* `string_first_key_ignored`: C39 is false for `string`: `string :is "a" ["a", "b"]` is false although the source matches the first key.
* `string_first_key_captures`: The match variables can even be set by a key that does not decide.
* `string_last_key`: What `string` and `environment` really test if there are several keys: the last key alone decides.
* `not_a_numeral_is_zero`: C40 is false for values of the message: what is not a numeral ranks as zero, so that a `Subject` of `abc` is less than `1` (and `:is` `0`).
* `nan_unordered`: C40 is false for NaN (which the header value `nan` is read as): it is neither less than nor greater than nor equal to anything.
* `reply_to_other_sender`: **C41 (2) fails** if the envelope has two senders: the conditions are checked for the last one, the reply goes to the first, here the user's own address.
* `reply_subject_injects`: **C53 fails.** A line break in the subject of the message answered becomes one in the header of the reply: whoever sends the message can add fields to it.
* `subject_loses_last`: A subject of 257 characters loses its last character without a mark.
* `odd_answer_replies`: A host that answers with the result of a function is taken to have said no.
* `break_keeps_value`: **Negation of C54.** A variable can have a value before it is set: `break` leaves the value of another variable behind in its slot.
* `replace_loses_local`: **Negation of C22 (2).** A `:local` variable is not read in `:replace`: the slot the program refers to does not exist.
* `global_case_lost`: **Negation of C55.** A global variable is not found if it is read with a capital letter.
* `bare_newline_changed`: **Negation of C37 (1).** An empty line that ends in a bare LF is changed.
* `replace_size_off`: **Negation of C56 (1).** The empty line after the header of a replaced part is not counted.
* `enclose_size_off`: **Negation of C56 (2).** The size of an enclosed message is too small by four.
* `replace_again_size`: **Negation of C56 (4).** A part that was replaced can be replaced again by the same text; the message is the same, but the size grows by the header field that was counted before.
* `enclose_wrong_boundary`: **Negation of C57 (1).** If `:headers` has a `Content-Type`, the parts are not separated by the boundary announced.
* `enclose_subject_injects`: **Negation of C57 (2).** A line break in the decoded subject of the message starts another header field; the same subject given by the script does not.
* `replace_crashes`: **Negation of C58 (1).** `foreverypart` with `replace` crashes on a message that has parts.
* `replace_shifts_parts`: **Negation of C58 (2).** After part 1, which has a part, has been replaced, part 3 has the number 2, but the message still refers to it by 3: an edit of it is lost.
* `replace_two_from`: **Negation of C59 (1).** Without `:from`, a message that has a `From` has two afterwards.
* `replace_no_subject`: **Negation of C59 (2).** With an empty `:subject` a message has no subject afterwards.
* `bad_last_number`: Disagreement (C61): `${hex:41 100}` is malformed, because the last number is no byte, and should stay as it is. The code keeps the byte of the first number and adds the text as well: `A${hex:41 100}` (`string.rs:198-216`: the closing brace has already set `State::None`, so nothing is taken back).
* `malformed_unicode_rejected`: Disagreement (C61): `${unicode:110000 z}` is no encoded character and should be plain text, but the script is rejected, as for a number that is no Unicode character in an otherwise correct one.
* `hyphen_dropped`: Disagreement (C60): `a-b` is no name of a variable in RFC 5229, so `${a-b}` should be plain text; the code drops it.
* `enclose_name_breaks`: Disagrees with C63: the name of a header field given to `enclose` is not cleaned. If `HeaderName::parse` accepts such a name, a second header field is written with `X⏎Bcc`.
* `equals_swallows`: Disagrees with C64: after a single `=` the next byte is dropped, whatever it is. `v1 =2` has lost its second operand.
* `minus_after_not`: Disagrees with C64: in `!-v1` the minus sign is read as a subtraction.
* `minus_in_brackets`: Disagrees with C64: in `v1[-1]` the minus sign is read as a subtraction.
* `backslash_kept`: Disagrees with C64: a backslash stays in the text of a string (`\n` is a backslash and a line feed), and a string with an escaped backslash at its end is rejected.
* `brace_ends`: Disagrees with C64: what follows a closing brace is ignored.
* `tab_rejected`: Disagrees with C64: a tab is not a blank.
* `improper_type`: `:content` with an item that is no content type is false whatever the others are; by RFC 5173 such an item just selects nothing.
* `empty_type`: An empty item of `:content` selects all parts by RFC 5173, but is ignored, with those after it, if it is not the first.
* `part_taken_for_prologue`: If nothing comes before the first part of a multipart, the first part is taken for the text before the parts.
* `epilogue_lost`: If a multipart has no parts, the text after it is lost.
* `array_number`: As an operand of `*` an empty array is 1 and other arrays are 0, although only the others count as true.
* `equality_not_transitive`: `==` is not transitive: two different spellings of a number equal the number.
* `stray_else`: Disagreement: `if … { } elsif … { keep; else { … } }` is accepted, although the `else` follows no `if`; its block is then always executed. `last_block_type` is not reset when a block is opened (`instruction.rs:628-642`).
* `parts_limit_evaded`: Disagreement: the limit on nested `foreverypart` loops is no limit. It compares the number of loops around the current block with the maximum by `==` (`instruction.rs:234-244`), and the current block is not counted: `maximum + 1` loops are accepted, and after an `if` in the innermost one any number. Here are six, with a maximum of three.
* `name_reused`: Disagreement: the name of a `foreverypart` may be used again in a `foreverypart` directly inside it (an error, `LabelAlreadyDefined`, otherwise); the check skips the current block (`instruction.rs:251-257`).
* `exists_invalid_name`: C69 does not hold for all given names: a name that cannot be a header name is ignored, so that `exists` with only such names is true, though no header has such a name.
* `handles_overlap`: Different handles do not keep ids apart, against RFC 7352 section 3.2: handle and id are joined without a separator.
* `status_count_one`: C71 fails for `:count "eq" "1"`: false although the message was tested.
* `scheme_case`: Schemes are told apart by the case of their letters, against RFC 3986 section 3.1: with `mailto` supported, `Mailto` is not.
* `date_regex_is_glob`: C74 fails for `:regex`, both for `date` and for `currentdate`: the result does not depend on regular expressions at all.
* `julian_repeats`: C75 fails for the Julian day: 16 and 17 November 1858 (days 2400000 and 2400001) have the same text.
* `year_10000`: C75 fails from the year 10000 on: its text is before that of the year 9999.
* `cap_print_comparator`: C76 (5) fails for the other comparators: `comparator-x` is printed as `x`, which is another capability.
* `set_modifiers_clash`: C78 fails for the modifiers: RFC 5229, 4.1, makes two modifiers of the same precedence an error, but `set :lower :upper "a" "b"` is accepted.
* `fileinto_mailboxid`: C79 fails for `fileinto :mailboxid`: RFC 9042 asks for the extension `mailboxid`, the code for `mailbox`.
* `loose_list`: C81 fails the other way: `["a" "b",,]` is no string list of RFC 5228 but is accepted as `["a", "b"]`.
* `static_list`: C81 fails for constant strings (`:comparator`, `:bymode`, …): the list `["a" "b"]` is accepted, and is its last string, while `["a", "b"]` is refused.
* `unknown_test_undeclared`: C82 fails for unknown tests: `if foo { keep; }` is accepted although RFC 5463, 3.1, allows unknown tests only in scripts that declare `ihave`; an unknown command is refused.
* `unknown_test_list`: C82 fails for unknown tests with a string list: `require "ihave"; if foo ["a", "b"] { }` is refused, since the test is taken to end at the comma, although RFC 5463 lets unknown tests have any arguments.
* `require_late`: RFC 5228, 3.2: "require MUST be used before any other commands"; `keep; require "fileinto";` is accepted.
* `global_case`: The claim without the exception of `variable_case_partial` is false: the global variable `foo` is written to as `foo`, but `FOO` reads another one.
* `via_unnamed`: There is no way to write `via`.
* `addr_twice`: The parts of an address are found only after `addr` has been written twice.
* `header_loose`: What is no header variable as written is not always rejected: third brackets are added to the second, brackets may divide a part, and the last one may be missing.
* `raw_name_panics`: The raw name of an added header: `offset_start - 1` overflows.
* `added_raw`: The raw text of an added header is empty, and it is not found as an address or a date.
* `star_index`: After a star the index of the header is not looked at.
* `uri_injects`: **C91 fails.** A line break in a text of the URI, written with percent signs, adds a field to the message.
* `from_injects`: **C91 fails.** So does one in the sender that the script gives.
* `uri_auto_submitted`: **C91 fails.** The URI can claim that the message was not sent automatically (RFC 5436 2.7 wants the field of the URI ignored).
* `uri_second_subject`: **C91 fails.** A URI that ends with `subject` gives the message a second field of that name.
* `sender_other`: **C91 fails.** An address that only begins with the user's address is taken as the sender.
* `from_loose`: **C92 fails**, if an address is to be well formed: line breaks, a quoted string without end and nothing after the dot are accepted.
* `from_strict`: **C92 fails**, if every address is to be accepted: a local part in quotes is not, nor one ending with a sign.
* `over_limit`: If too many messages have been sent, a `mailto` notification is not dropped: the host is asked to make it.
* `mail_not_counted`: Messages are not counted when they are sent: only notifications left to the host are.
* `convert_types`: **C93 fails.** Every text is converted whatever its type and whatever the type asked for: a plain text where calendars are to be converted, a calendar where plain texts are. `text`, which is to stand for all of them, stands for plain texts only.
* `convert_capitals`: **C93 fails.** In capital letters the type is not known.
* `convert_loses_header`: **C94 fails**, if the other header fields of a part are to stay: those of the whole message are lost.
* `convert_size_wrong`: **C95 fails.** There the size is 43, and the message has 45 bytes.
* `convert_drifts`: **C95 fails.** The header of a part that has been converted is counted again each time: after a second conversion the message has 44 bytes, and its size is 81.
* `convert_panics`: **C95 fails.** After a long header field has been deleted, its bytes are subtracted once more: the size falls below zero, which is a panic (with overflow checks).
* `references_no_id`: **C88 fails**, if the identifiers of all headers are to be found: `References` and `In-Reply-To`, which are neither `Message-ID` nor unknown, have none.
* `id_index_ignored`: **C88 fails**, if the index is to pick an identifier: it is ignored.
* `replaced_body_lost`: **C98 fails** after `replace`, if the text body is to be the new text: the list of text bodies still names a part that is gone.
* `enclosed_body_lost`: **C98 fails** after `enclose`: there is a text part in the message, whose root has all other parts, but no text body.
* `extract_unlimited`: **C21 fails** for `extracttext`: the text of a part is stored whatever its length, in bytes of UTF-8.
* `envelope_others_remain`: **C96 fails** for the test `envelope`, if it is to see what was set: the other recipients are still there.
* `lost_in_test`: **Negation of C103.** A match variable in the arguments of a test with `:matches` is lost: `if string :matches "ab" "*b" { if string :matches "${1}" "a" { … } }`
* `hidden_by_failure`: **Negation of C103.** A match that fails makes the variables of an earlier one unreadable if it is in an inner block: `if string :matches "ab" "*b" { if string :matches "x" "y" { } fileinto "${1}"; }`
* `stale_text`: **Negation of C103.** A text of an earlier match is read if the last one has fewer texts.
* `lost_after_block`: **Negation of C103.** The variables of a match in a block cannot be read after it.
* `lost_after_delete`: **Negation of C103.** After `deleteheader :matches` no match variables can be read in the same block.
* `captured_without_variable`: `anyof (string :matches "ab" "*b", string :matches "${1}" "x")`: the first test is told to capture the first text (bit 1), but the script has no match variables at all. `set_match_variables` asserts the opposite (`variables.rs:17`); without assertions the text is dropped.
* `keep_takes_later`: **Negation of C104.** `keep; addflag "late";`: the message is kept with a flag set after `keep`.
* `keep_no_flags`: **Negation of C104.** `addflag "Seen"; keep :flags "";`: the message is kept with the flags of the internal variable although `keep` asks for none.
* `local_flags_repeat`: **Negation of C104.** `keep :flags ["Seen", "seen"];`: flags given with `:flags` are not freed of repetitions.
* `external_collides`: **Negation of C105.** A function of the host with the highest number that is left is taken for the first function of the runtime: both have the number 0.
* `external_wraps`: **Negation of C105.** A function of the host with a number above: calling it builds an array instead.
* `second_runtime`: **Negation of C105.** A second runtime made from the same map has no functions: a call of the first one asks the host for a function it does not have.
* `leading_empty_lost`: **Negation of C106.** An empty item at the front is not there, one in the middle is.
* `nested_lost`: **Negation of C106.** What is in arrays within an array does not appear in its text, while it does if texts are joined in expressions; and lines end differently there.
* `line_break_splits`: **Negation of C106.** An item of two lines looks like two items.
* `exponent_differs`: **Negation of C107.** `1e3` is a thousand in expressions and infinite in tests.
* `equal_hash_differs`: **Negation of C108.** An integer and the equal floating point number, or a text and the number it spells, are equal but have different hashes.
* `zero_hash_differs`: **Negation of C108.** The two zeros are equal but have different hashes.
* `first_line_column`: `keep;⏎ keep;`: the second line counts its columns from 1.
* `unknown_tag_column`: `:is` is reported at its colon, `:if` after it.
* `multi_line_column`: `text:⏎.⏎` is reported at its colon.
* `empty_script_column`: The unexpected end of an empty script is reported far behind it.
* `last_without_index`: C110 (negation, RFC 5260, 6: `:last` without `:index` is an error): it is accepted and makes no difference.
* `bymode_without_time`: C110 (negation, RFC 6009, 4.1: `:bymode` and `:bytrace` need a time): they are accepted without one, and dropped.
* `notify_other_items`: C110 (negation, RFC 6009, 3.1: the value is `NEVER` or a list of the three items): other items are passed over.
* `unknown_comparator`: C110 (negation, RFC 5228, 2.7.3: the use of an unknown comparator is an error): any name is accepted.
* `added_type_not_counted`: A content type that a script has added counts as no content type though `header :mime :type` finds its type.
* `redirect_no_date`: A time limit that is not a date becomes the first second of 1970.
* `redirect_soon`: C111 (negation): `redirect :bytimeabsolute "soon" "a@b.c";`
* `invalid_instruction_swapped`: **C112, the code disagrees** The text of an invalid instruction gives its column as the line, and its line as the column.
* `too_many_includes_silent`: **C112, the code disagrees** The error of too many included scripts has no text at all.
* `kept_message_lost`: The script keeps the message, but the interpreter only files it: without `KeepsLast` the claim is false.
* `kept_message_changed`: The script keeps the message and then changes it; the interpreter keeps the message as it was changed afterwards.
* `changed_message_lost`: The script changes the message and files a copy; the interpreter keeps the message as it was received.
* `local_limit_unused`: **Negation of C117.** Whatever `max_local_variables` is: a script with one variable more is accepted.
* `match_limit_unused`: **Negation of C117.** Whatever `max_match_variables` is, as long as it is below 63: a script that reads the variable of this number is accepted and has one variable more.
* `large_script_not_run`: **Negation of C117.** A script with 257 variables is accepted by the compiler, and not run: nothing is executed and no error is reported.

Noticed while reading, outside of the modelled statements or not turned into theorems:

* Jump targets outside the script make `run` return `None`; C08 shows that compiled scripts have none.
* `anyof()` and `allof()` with no tests are accepted and leave the previous test result in place.
* A top-level parenthesised list, `if (anyof (a, b))`, is rejected; missing commas between tests of a list are accepted.
* `elsif`/`else` after an `else` block are rejected.
* Arrays are behind `Arc`, whose `==` compares pointers first for types that are `Eq`: an array with NaN may equal itself.
* Unknown tests compile to `Test::Invalid`, on which `not` has no effect; `TestVacation` ignores `is_not`.
* `ExtractText` stores its result without the truncation other assignments have.
* `removeflag`/`setflag` with a string of white space only: an empty flag can be added.
* The case-insensitive `matches` uses `str::to_lowercase` for the value but lowercases character by character in `capture`.
* `hasflag :regex` and `date :regex` use glob patterns.
* `metadataexists` with no annotations is true exactly if anything at all is stored.
* `RuntimeError`'s display swaps the line number and the position in the line, and is empty for `TooManyIncludes`.
* The part stack of `foreverypart` is not cleared by `stop` or errors.
* The number of an empty array is 1 and that of a non-empty one 0; `==` is not transitive across strings and
  numbers, and neither is `<` (`order_not_transitive`).
* `header :param` additionally examines an empty value.
* Only seven `List-*` names and only `Precedence: bulk` are looked at by `vacation`.
* `enclose :headers` does not clean the names of header fields; `convert` replaces all header fields of a top-level text
  message by a single `Content-Type`.
* In expressions, `-` after `[` or after a unary operator is taken for subtraction; `"a"[0]` builds an array.
* `${hex:...}` and `${unicode:...}` are decoded, and variables expanded, whether or not the script has the `require` for
  it: `parse_string` always calls `tokenize_string` with `parse_decoded` true. `${hex:041}` is accepted although RFC 5228
  allows at most two digits.
* `:last` without `:index` is accepted and ignored; so are `redirect :bymode` and `:bytrace` without a time.
* `deleteheader :matches` registers the position of an instruction that is no test, so that `${1}` after it is lost.
* `max_variable_name_size` is applied to `global` only; `set` and `let` accept names of any length.

## Appendix: axioms of the theorems in the manifest

As printed by `#print axioms`.

**none**: `Sieve.Value.leading_empty_lost`, `Sieve.Value.nested_lost`, `Sieve.Value.line_break_splits`, `Sieve.Value.number_itself`, `Sieve.Address.envelope_leading_at`, `Sieve.Address.envelope_bare_route_rejected`, `Sieve.Vm.include_enters_host`

**propext**: `Sieve.Source.not_any_value`, `Sieve.Source.not_all_value`, `Sieve.Source.source_deterministic`, `Sieve.Source.continue_evaluates_condition`, `Sieve.MatchVar.captured_without_variable`, `Sieve.Value.same_number_partial`, `Sieve.Value.other_number`, `Sieve.Value.integer_read_back`, `Sieve.Value.exponent_differs`, `Sieve.Value.zero_hash_differs`, `Sieve.Event.redirect_no_date`, `Sieve.Vm.once_registered_runs_twice`, `Sieve.Vm.notify_mailto_unlimited`, `Sieve.Vm.late_envelope_flips`, `Sieve.Expr.juxtaposition_accepted`, `Sieve.Expr.skipped_operator`, `Sieve.Address.mailto_to_field_rejected`, `Sieve.Lex.number_leading_zeros`, `Sieve.Mime.no_anychild`, `Sieve.Tests.numeral_rank_partial`, `Sieve.Tests.not_a_numeral_is_zero`, `Sieve.Tests.nan_unordered`, `Sieve.Vm.odd_answer_replies`, `Sieve.Vm.explicit_keep_lost`, `Sieve.Vm.implicit_keep_outdated`, `Sieve.Expr.division_by_zero`, `Sieve.Expr.string_array_order`, `Sieve.Expr.order_not_transitive`, `Sieve.Str.hyphen_dropped`, `Sieve.Str.bad_last_number`, `Sieve.Str.malformed_unicode_rejected`, `Sieve.Str.string_value`, `Sieve.Expr.text_number_order`, `Sieve.Expr.division`, `Sieve.Expr.array_access_text`, `Sieve.Expr.array_access_float`, `Sieve.Expr.array_number`, `Sieve.Tests.size_test`, `Sieve.Tests.handles_overlap`, `Sieve.Args.special_entries`, `Sieve.Hvar.sanitize_words`, `Sieve.Notify.bare_iff`, `Sieve.Store.envelope_first`, `Sieve.Store.captured`

**propext, Quot.sound**: `Sieve.Glob.capture_drops_replacement`, `Sieve.Source.continue_dropped`, `Sieve.Source.continue_rejected`, `Sieve.Source.continue_keeps_part`, `Sieve.Source.continue_should_leave_part`, `Sieve.Vm.oversized_script_no_keep`, `Sieve.MatchVar.match_count_le`, `Sieve.MatchVar.match_count_zero`, `Sieve.Func.name_read`, `Sieve.Value.array_text`, `Sieve.Value.array_text_inj_partial`, `Sieve.Value.numerals_std`, `Sieve.Value.equal_hash_partial`, `Sieve.Lex.empty_script_column`, `Sieve.Vm.counter`, `Sieve.Vm.cpu_limit`, `Sieve.Base.kept_message_lost`, `Sieve.Base.kept_message_changed`, `Sieve.Base.changed_message_lost`, `Sieve.Base.outcome_untouched`, `Sieve.Lex.multi_line_no_number`, `Sieve.Scope.local_count`, `Sieve.Scope.match_limit_unused`, `Sieve.Vm.announced_nodup`, `Sieve.Expr.array_item_rejected`, `Sieve.Expr.short_circuit_truth_partial`, `Sieve.Expr.short_circuit_value_partial`, `Sieve.Mime.select_ascending`, `Sieve.Lex.quoted_string_partial`, `Sieve.Lex.multi_line`, `Sieve.Mime.anychild_preorder`, `Sieve.Mime.foreverypart_preorder`, `Sieve.Tests.string_first_key_ignored`, `Sieve.Tests.string_first_key_captures`, `Sieve.Tests.header_count`, `Sieve.Tests.string_count`, `Sieve.Tests.envelope_count`, `Sieve.Tests.relational_partial`, `Sieve.Tests.relational_integers`, `Sieve.Expr.negation_partial`, `Sieve.Vacation.subject_cut_partial`, `Sieve.Vacation.subject_loses_last`, `Sieve.Body.nested_parts`, `Sieve.Body.below_exists`, `Sieve.Body.below_inside`, `Sieve.Expr.truthy_iff`, `Sieve.Expr.array_access`, `Sieve.Tests.spam_monotone`, `Sieve.Tests.virus_roundtrip`, `Sieve.Tests.status_count_one`, `Sieve.Tests.metadata_count`, `Sieve.Tests.valid_ext_list`, `Sieve.Tests.ihave`, `Sieve.Tests.date_regex_is_glob`, `Sieve.Tests.julian_repeats`, `Sieve.Tests.year_10000`, `Sieve.Args.slots_in_range`, `Sieve.Args.groups_iff`, `Sieve.Args.needs_iff`, `Sieve.Hvar.words_exist`, `Sieve.Hvar.sanitize_line`, `Sieve.Hvar.sanitize_twice`, `Sieve.Notify.sender_other`

**propext, Classical.choice, Quot.sound**: `Sieve.Glob.matches_octet`, `Sieve.Glob.matches_casemap`, `Sieve.Glob.capture_verdict_octet`, `Sieve.Glob.capture_verdict_casemap_partial`, `Sieve.Glob.capture_octet_partial`, `Sieve.Glob.capture_casemap_partial`, `Sieve.SetVar.quotewildcard_literal`, `Sieve.SetVar.quotewildcard_literal_casemap`, `Sieve.SetVar.set_quotewildcard_literal`, `Sieve.Source.test_runs`, `Sieve.Source.test_value`, `Sieve.Source.runs_as_written`, `Sieve.Source.continue_as_written_partial`, `Sieve.Compile.compiled_in_range`, `Sieve.Source.compiled_inRange`, `Sieve.Vm.implicit_keep`, `Sieve.Vm.error_then_disposition`, `Sieve.Whole.structure_unique`, `Sieve.Whole.structure_accepted`, `Sieve.Whole.structure_of_items`, `Sieve.Whole.text_runs_partial`, `Sieve.Compile.compiled_forward`, `Sieve.Compile.compiled_depth`, `Sieve.Assert.asserted`, `Sieve.Scope.clear_in_range`, `Sieve.Scope.close_fits`, `Sieve.MatchVar.match_variables_partial`, `Sieve.MatchVar.match_variables_flat_partial`, `Sieve.MatchVar.match_number_iff`, `Sieve.MatchVar.match_count`, `Sieve.MatchVar.lost_in_test`, `Sieve.MatchVar.hidden_by_failure`, `Sieve.MatchVar.stale_text`, `Sieve.MatchVar.lost_after_block`, `Sieve.MatchVar.lost_after_delete`, `Sieve.Flags.fileinto_flags`, `Sieve.Flags.implicit_keep_flags`, `Sieve.Flags.keep_flags_partial`, `Sieve.Flags.kept_iff`, `Sieve.Flags.keep_takes_later`, `Sieve.Flags.keep_no_flags`, `Sieve.Flags.local_flags_repeat`, `Sieve.Func.call_by_name_partial`, `Sieve.Func.wrong_number_rejected`, `Sieve.Func.external_collides`, `Sieve.Func.external_wraps`, `Sieve.Func.second_runtime`, `Sieve.Value.hash_complete`, `Sieve.Value.equal_hash_differs`, `Sieve.Lex.tokens_located_partial`, `Sieve.Lex.error_located`, `Sieve.Lex.end_located_partial`, `Sieve.Lex.first_line_column`, `Sieve.Lex.unknown_tag_column`, `Sieve.Lex.multi_line_column`, `Sieve.Vm.run_returns`, `Sieve.Vm.cpu_limit_reported`, `Sieve.Fields.fileinto_fields`, `Sieve.Fields.include_fields`, `Sieve.Fields.redirect_fields_partial`, `Sieve.Fields.vacation_fields`, `Sieve.Fields.notify_fields_partial`, `Sieve.Fields.replace_fields`, `Sieve.Fields.enclose_fields`, `Sieve.Fields.addheader_fields`, `Sieve.Fields.deleteheader_fields_partial`, `Sieve.Fields.header_fields_partial`, `Sieve.Fields.address_fields`, `Sieve.Fields.envelope_fields`, `Sieve.Fields.body_fields`, `Sieve.Fields.date_fields`, `Sieve.Fields.currentdate_fields`, `Sieve.Fields.exists_fields`, `Sieve.Fields.duplicate_fields`, `Sieve.Fields.string_fields`, `Sieve.Fields.spamtest_fields`, `Sieve.Fields.two_names_fields`, `Sieve.Fields.hasflag_fields`, `Sieve.Fields.servermetadata_fields`, `Sieve.Fields.last_without_index`, `Sieve.Fields.bymode_without_time`, `Sieve.Fields.notify_other_items`, `Sieve.Fields.unknown_comparator`, `Sieve.Event.redirect_events_partial`, `Sieve.Event.fileinto_events`, `Sieve.Event.keep_events`, `Sieve.Event.reject_events`, `Sieve.Event.include_events`, `Sieve.Event.mailboxes_events`, `Sieve.Event.specialuse_events`, `Sieve.Event.redirect_soon`, `Sieve.Display.compile_error_place`, `Sieve.Display.compile_error_text`, `Sieve.Display.runtime_error_text_partial`, `Sieve.Display.invalid_instruction_swapped`, `Sieve.Display.too_many_includes_silent`, `Sieve.Base.base_text_partial`, `Sieve.Base.base_structure_partial`, `Sieve.SetVar.set_changed`, `Sieve.SetVar.set_quoteregex`, `Sieve.Lex.quoted_number_partial`, `Sieve.Script.require_list`, `Sieve.Script.require_at`, `Sieve.Script.require_missing`, `Sieve.Scope.accepted_partial`, `Sieve.Scope.local_limit_unused`, `Sieve.Scope.large_script_not_run`, `Sieve.Written.header_written`, `Sieve.Written.address_written`, `Sieve.Written.exists_written`, `Sieve.Written.envelope_written`, `Sieve.Written.hasflag_written_partial`, `Sieve.Written.string_written_partial`, `Sieve.Written.header_contains`, `Sieve.Written.date_written_partial`, `Sieve.Written.currentdate_written_partial`, `Sieve.Written.body_written_partial`, `Sieve.Written.duplicate_written`, `Sieve.Written.spamtest_written`, `Sieve.Written.virustest_written`, `Sieve.Written.metadata_written`, `Sieve.Written.servermetadata_written`, `Sieve.Written.notifyCapability_written`, `Sieve.Written.header_listed`, `Sieve.Written.address_listed`, `Sieve.Written.envelope_listed`, `Sieve.Written.string_listed`, `Sieve.Written.header_counted`, `Sieve.Written.header_counted_all`, `Sieve.Written.address_counted`, `Sieve.Written.string_counted`, `Sieve.Written.date_counted`, `Sieve.Written.date_counted_all`, `Sieve.Written.envelope_counted`, `Sieve.Written.metadata_counted`, `Sieve.Written.servermetadata_counted`, `Sieve.Vm.include_depth`, `Sieve.Vm.too_deep_reported`, `Sieve.Vm.loaded_cached`, `Sieve.Vm.once_honoured_partial`, `Sieve.Written.addheader_written`, `Sieve.Written.deleteheader_written`, `Sieve.Written.vacation_written`, `Sieve.Written.vacation_reply_written_partial`, `Sieve.Written.notify_written`, `Sieve.Written.replace_written_partial`, `Sieve.Written.enclose_written_partial`, `Sieve.Core.core_text_partial`, `Sieve.Core.core_unique`, `Sieve.Vars.vars_text_partial`, `Sieve.Vars.vars_unique`, `Sieve.Vars.scopes_agree`, `Sieve.Vars.string_accepted_partial`, `Sieve.Vars.string_says_partial`, `Sieve.Vars.reference_says`, `Sieve.FlagLang.flags_text_partial`, `Sieve.FlagLang.flags_unique_partial`, `Sieve.AskLang.asks_text_partial`, `Sieve.AskLang.test_finds`, `Sieve.MailLang.mails_text_partial`, `Sieve.MailLang.request_does`, `Sieve.MailLang.models`, `Sieve.EditLang.edits_text_partial`, `Sieve.EditLang.adds_does`, `Sieve.EditLang.removes_does`, `Sieve.EditLang.models`, `Sieve.Vm.redirect_limit`, `Sieve.Vm.redirect_refused`, `Sieve.Vm.vacation_below`, `Sieve.Vm.notify_counted`, `Sieve.Vm.ids_announced`, `Sieve.Vm.edited_delivery`, `Sieve.Vm.edited_keep`, `Sieve.Vm.require_enforced`, `Sieve.Vm.answer_value_partial`, `Sieve.Vm.unasked_answer`, `Sieve.Vm.disposition_decided`, `Sieve.Vm.no_early_disposition`, `Sieve.Vm.stop_ends`, `Sieve.Expr.precedence_partial`, `Sieve.Expr.tree_unique`, `Sieve.Expr.and_short_circuit`, `Sieve.Expr.or_short_circuit`, `Sieve.Expr.host_calls`, `Sieve.Expr.host_calls_prefix`, `Sieve.Expr.host_as_builtin`, `Sieve.Expr.function_events`, `Sieve.SetVar.stored_string`, `Sieve.SetVar.stored_any`, `Sieve.SetVar.stored_text_bound_partial`, `Sieve.SetVar.stored_integer_exceeds`, `Sieve.Scope.variables_partial`, `Sieve.Scope.slots_exist_partial`, `Sieve.Scope.replace_loses_local`, `Sieve.SetVar.encodeurl_decodes`, `Sieve.SetVar.encodeurl_longest`, `Sieve.SetVar.set_encodeurl_decodes`, `Sieve.Flags.setflag_partial`, `Sieve.Flags.addflag_partial`, `Sieve.Flags.setflag_list_duplicates`, `Sieve.Flags.setflag_truncation_duplicates`, `Sieve.Flags.removeflag_exact`, `Sieve.Flags.removeflag_leaves_copy`, `Sieve.Mime.header_value_clean`, `Sieve.Mime.protected_headers_kept`, `Sieve.Mime.select_iff`, `Sieve.Mime.deleteheader_exact`, `Sieve.Mime.deleteheader_anychild_exact`, `Sieve.Address.redirect_address_wellformed`, `Sieve.Address.sanitize_iff`, `Sieve.Address.redirect_address_loses_quotes`, `Sieve.Address.envelope_partial`, `Sieve.Address.envelope_brackets_partial`, `Sieve.Address.envelope_source_route`, `Sieve.Address.mailto_recipients`, `Sieve.Lex.quoted_backslash_last`, `Sieve.Lex.quoted_backslash_pair`, `Sieve.Lex.quoted_backslash_letter`, `Sieve.Lex.number_partial`, `Sieve.Lex.number_too_large`, `Sieve.Lex.bracket_comment`, `Sieve.Lex.hash_comment`, `Sieve.Build.untouched_partial`, `Sieve.Build.outermost_written`, `Sieve.Build.deleteheader_written`, `Sieve.Build.insert_written`, `Sieve.Build.bare_newline_changed`, `Sieve.Tests.header_test`, `Sieve.Tests.address_test`, `Sieve.Tests.envelope_test`, `Sieve.Tests.hasflag_test`, `Sieve.Tests.string_test_partial`, `Sieve.Tests.string_last_key`, `Sieve.Tests.captures_first`, `Sieve.Tests.header_count_all`, `Sieve.Tests.address_count`, `Sieve.Tests.added_type_not_counted`, `Sieve.Tests.list_test`, `Sieve.Tests.relational_strings`, `Sieve.Vacation.test_vacation`, `Sieve.Vacation.reply_to_sender_partial`, `Sieve.Vacation.reply_to_other_sender`, `Sieve.Vm.vacation_answered_partial`, `Sieve.Vm.vacation_conditions_partial`, `Sieve.Address.from_field_quoted`, `Sieve.Vm.include_isolated`, `Sieve.Vm.include_enters`, `Sieve.SetVar.modifiers_order_independent_partial`, `Sieve.SetVar.length_is_last`, `Sieve.SetVar.replace_upper_unspecified`, `Sieve.Vm.explicit_keep_partial`, `Sieve.Vm.delivered_current_partial`, `Sieve.Vm.holds_unique`, `Sieve.Vm.outgoing_limit_partial`, `Sieve.Expr.parse_total`, `Sieve.Expr.integer_arithmetic`, `Sieve.Expr.negation_overflow`, `Sieve.Expr.comparison_all_partial`, `Sieve.Expr.comparison_partial`, `Sieve.Lex.script_end_partial`, `Sieve.Lex.last_word_dropped`, `Sieve.Address.mailto_read_partial`, `Sieve.Address.mailto_read`, `Sieve.Address.asks_recipients`, `Sieve.Address.mailto_round_trip`, `Sieve.Vacation.reply_fields_partial`, `Sieve.Vacation.subject_length`, `Sieve.Vacation.reply_subject_injects`, `Sieve.Scope.break_keeps_value`, `Sieve.Vm.clear_exact`, `Sieve.Scope.global_case_lost`, `Sieve.Build.size_partial`, `Sieve.Build.enclose_size_partial`, `Sieve.Build.replace_message_size_partial`, `Sieve.Build.replace_part_size_partial`, `Sieve.Build.replace_size_off`, `Sieve.Build.enclose_size_off`, `Sieve.Build.replace_again_size`, `Sieve.Build.enclose_partial`, `Sieve.Build.enclose_wrong_boundary`, `Sieve.Build.enclose_subject_injects`, `Sieve.Build.replace_part_partial`, `Sieve.Build.replace_message`, `Sieve.Build.replace_shifts_parts`, `Sieve.Build.replace_crashes`, `Sieve.Build.replaced_fields_partial`, `Sieve.Build.replace_two_from`, `Sieve.Build.replace_no_subject`, `Sieve.Str.variables_replaced_partial`, `Sieve.Str.string_read_partial`, `Sieve.Str.accepted_read_partial`, `Sieve.Str.decoded_exists_unique`, `Sieve.Str.plain_text`, `Sieve.Str.single_variable`, `Sieve.Build.no_injection_partial`, `Sieve.Build.enclose_name_breaks`, `Sieve.Expr.tokens_exact`, `Sieve.Expr.expression_text_partial`, `Sieve.Expr.equals_swallows`, `Sieve.Expr.minus_after_not`, `Sieve.Expr.minus_in_brackets`, `Sieve.Expr.backslash_kept`, `Sieve.Expr.brace_ends`, `Sieve.Expr.tab_rejected`, `Sieve.Body.body_test_partial`, `Sieve.Body.body_count`, `Sieve.Body.reads_iff`, `Sieve.Body.improper_type`, `Sieve.Body.empty_type`, `Sieve.Body.part_taken_for_prologue`, `Sieve.Body.epilogue_lost`, `Sieve.Expr.logical_operators`, `Sieve.Expr.comparison_operators`, `Sieve.Expr.array_equality`, `Sieve.Expr.comparison_plain`, `Sieve.Expr.text_order`, `Sieve.Expr.number_order`, `Sieve.Expr.array_order`, `Sieve.Expr.array_other_order`, `Sieve.Expr.arithmetic`, `Sieve.Expr.addition`, `Sieve.Expr.array_removal`, `Sieve.Expr.equality_not_transitive`, `Sieve.Compile.braces_match`, `Sieve.Compile.break_in_loop`, `Sieve.Compile.break_in_named`, `Sieve.Compile.continue_in_while`, `Sieve.Compile.else_after_if_partial`, `Sieve.Compile.else_after_if_outside`, `Sieve.Compile.stray_else`, `Sieve.Compile.parts_limit_evaded`, `Sieve.Compile.name_reused`, `Sieve.Tests.exists_test`, `Sieve.Tests.exists_invalid_name`, `Sieve.Tests.duplicate_test`, `Sieve.Tests.spam_range`, `Sieve.Tests.spam_roundtrip`, `Sieve.Tests.status_test`, `Sieve.Tests.status_count_partial`, `Sieve.Tests.metadata_test`, `Sieve.Tests.metadataexists_test`, `Sieve.Tests.validate_uri`, `Sieve.Tests.valid_notify_method`, `Sieve.Tests.notify_method_capability`, `Sieve.Tests.scheme_case`, `Sieve.Tests.date_test_partial`, `Sieve.Tests.date_count`, `Sieve.Tests.date_count_all`, `Sieve.Tests.currentdate_test_partial`, `Sieve.Tests.part_text_partial`, `Sieve.Tests.chronological_partial`, `Sieve.Args.word_iff`, `Sieve.Args.words_ok`, `Sieve.Args.word_read`, `Sieve.Args.tag_read`, `Sieve.Args.cap_iff`, `Sieve.Args.cap_injective`, `Sieve.Args.cap_print_partial`, `Sieve.Args.cap_print_comparator`, `Sieve.Args.arguments_iff`, `Sieve.Args.arguments_unique`, `Sieve.Args.command_usage`, `Sieve.Args.test_usage`, `Sieve.Args.exclusive_partial`, `Sieve.Args.set_modifiers_clash`, `Sieve.Args.needs_partial`, `Sieve.Args.fileinto_mailboxid`, `Sieve.Args.order_irrelevant`, `Sieve.Args.rfc_list`, `Sieve.Args.list_strings_partial`, `Sieve.Args.loose_list`, `Sieve.Args.static_list`, `Sieve.Script.script_iff`, `Sieve.Script.declared_before_partial`, `Sieve.Script.unknown_test_undeclared`, `Sieve.Script.unknown_test_list`, `Sieve.Script.require_late`, `Sieve.Script.blocks_closed`, `Sieve.Script.include_limit`, `Sieve.Compile.compile_order`, `Sieve.Script.code_written`, `Sieve.Script.script_known`, `Sieve.Script.code_declared_partial`, `Sieve.Script.text_tokens_partial`, `Sieve.Script.text_unique`, `Sieve.Hvar.variable_iff`, `Sieve.Hvar.variable_none`, `Sieve.Hvar.variable_case_partial`, `Sieve.Hvar.global_case`, `Sieve.Hvar.header_iff`, `Sieve.Hvar.header_white`, `Sieve.Hvar.header_names`, `Sieve.Hvar.part_iff`, `Sieve.Hvar.part_named_partial`, `Sieve.Hvar.part_unique`, `Sieve.Hvar.via_unnamed`, `Sieve.Hvar.addr_twice`, `Sieve.Hvar.header_loose`, `Sieve.Hvar.header_value`, `Sieve.Hvar.item_value`, `Sieve.Hvar.text_value`, `Sieve.Hvar.raw_value`, `Sieve.Hvar.raw_name_value`, `Sieve.Hvar.exists_value`, `Sieve.Hvar.single_value`, `Sieve.Hvar.id_value`, `Sieve.Hvar.any_value`, `Sieve.Hvar.any_covered`, `Sieve.Hvar.part_covered`, `Sieve.Hvar.header_total_partial`, `Sieve.Hvar.raw_name_panics`, `Sieve.Hvar.added_raw`, `Sieve.Hvar.star_index`, `Sieve.Hvar.references_no_id`, `Sieve.Hvar.id_index_ignored`, `Sieve.Hvar.sanitize_bytes`, `Sieve.Notify.notify_iff`, `Sieve.Notify.bcc_hidden`, `Sieve.Notify.importance_value`, `Sieve.Notify.notification_silent`, `Sieve.Notify.over_limit`, `Sieve.Notify.mail_not_counted`, `Sieve.Notify.notification_fields_partial`, `Sieve.Notify.notification_exists`, `Sieve.Notify.consists_unique`, `Sieve.Notify.notification_once_partial`, `Sieve.Notify.notification_marked`, `Sieve.Notify.uri_injects`, `Sieve.Notify.from_injects`, `Sieve.Notify.uri_auto_submitted`, `Sieve.Notify.uri_second_subject`, `Sieve.Notify.from_iff`, `Sieve.Notify.from_address_partial`, `Sieve.Notify.from_loose`, `Sieve.Notify.from_strict`, `Sieve.Convert.convert_result_partial`, `Sieve.Convert.convert_others`, `Sieve.Convert.convert_twice`, `Sieve.Convert.chosen_iff`, `Sieve.Convert.convert_types`, `Sieve.Convert.convert_capitals`, `Sieve.Convert.convert_written_partial`, `Sieve.Convert.newTexts_exist`, `Sieve.Convert.gives_unique`, `Sieve.Convert.convert_single`, `Sieve.Convert.convert_loses_header`, `Sieve.Convert.convert_size_partial`, `Sieve.Convert.convert_size_wrong`, `Sieve.Convert.convert_drifts`, `Sieve.Convert.convert_panics`, `Sieve.Store.step_table`, `Sieve.Store.run_table_partial`, `Sieve.Store.after_unique`, `Sieve.Store.set_get`, `Sieve.Store.set_envelope`, `Sieve.Store.envelope_others_remain`, `Sieve.Store.clear_match`, `Sieve.Store.part_value_partial`, `Sieve.Store.replaced_body_lost`, `Sieve.Store.extract_stores`, `Sieve.Store.extract_exists`, `Sieve.Store.extracts_unique`, `Sieve.Store.extract_first`, `Sieve.Store.extract_limited_partial`, `Sieve.Store.extract_unlimited`, `Sieve.Store.enclosed_body_lost`

