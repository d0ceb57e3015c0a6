# Formal model of protox in Lean 4 — design

* Properties: `properties.jsonl`. Claims and theorem names: `MANIFEST.json` (made by `mkmanifest.py` from
  `manifest_table.py`). Wrong-program log: `seeded/LOG.jsonl`.
* Lean sources: `lean/Verif/**`, root `lean/Verif.lean`. `lake build` in `lean/`.
* The table of properties, theorems and axioms at the end of this file is made by `mkdesign.py`.

## 1. Layout

| directory | contents | rule |
|---|---|---|
| `Verif/Model` | the code, function by function, with `/repo` file and line in each comment | never mentions `Spec`, `Proofs` |
| `Verif/Spec` | what the properties mean: import graphs, wire format, grammar, places, comments, rules, … | uses the data types of the model; `Tokens`/`Modes` take the token list from the lexer, whose tokens `Lexeme` characterises independently (C50) |
| `Verif/Proofs` | lemmas | nothing here needs to be read to understand a claim |
| `Verif/Props` | the property theorems and, beside each, concrete cases that meet its hypotheses | |

### Model

| module | models |
|---|---|
| `Basic.lean` | bytes, ASCII classes, the `b!"…"` literals |
| `Model/Path.lean` | `std::path` components on Unix; `protox/src/file/include.rs` (path loops), `path_to_file_name` |
| `Model/Error.lean` | `protox-parse/src/error.rs`, `protox/src/error.rs` (kinds, accessors) |
| `Model/Resolver.lean` | `protox/src/file/{mod,chain,google,include,descriptor_set}.rs`, import errors of `protox/src/error.rs` |
| `Model/Wire.lean` | byte decoding of `protox/src/file/descriptor_set.rs` and the prost primitives it calls |
| `Model/Compiler.lean` | `protox/src/compile/mod.rs`, `protox/src/lib.rs` |
| `Model/Encode.lean` | `encode_file_descriptor_set` of `protox/src/compile/mod.rs`, `protox/src/main.rs` |
| `Model/Lexer.lean` | `protox-parse/src/lex/mod.rs` |
| `Model/Ast.lean`, `AstFns.lean` | `protox-parse/src/ast/mod.rs` |
| `Model/ParserCore.lean` | `protox-parse/src/parse/comments.rs` and the token-level functions of `parse/mod.rs` |
| `Model/Parser.lean` | the productions of `parse/mod.rs` |
| `Model/Lines.lean` | `protox-parse/src/generate/lines.rs` |
| `Model/Descriptor.lean` | the `prost_types` messages that are produced |
| `Model/Generate.lean` | `protox-parse/src/generate/mod.rs`, `case.rs`, `tag.rs`, `lib.rs` (`parse`) |

### Specification

| module | says |
|---|---|
| `Spec/Compiler.lean` | import graph of a resolver, reachability, chains, topological order |
| `Spec/Path.lean`, `Lines.lean`, `Wire.lean` | canonical names; line/column by counting; wire format of a descriptor set |
| `Spec/Lexeme.lean`, `Tokens.lean`, `Modes.lean`, `Options.lean` | which texts are tokens and what they denote; the tokens of a source; where comments and suffixes are allowed |
| `Spec/Grammar.lean` | the grammar as an inductive relation between token lists and syntax trees |
| `Spec/Places.lean` | the same grammar with places: every span and comment of the tree is determined by the source |
| `Spec/Comments.lean` | how the comments of a gap are split |
| `Spec/Source.lean` | pairing of written constructs and descriptor elements |
| `Spec/Content.lean` | what the elements must contain |
| `Spec/Locations.lean`, `DescPath.lean` | the locations of each construct; following a path through a descriptor |
| `Spec/Rules.lean` | the rules beyond the grammar, and the diagnostic for each violation |
| `Spec/Erase.lean` | a tree without places |
| `Spec/Describes.lean` | the rules for every field of every descriptor |
| `Spec/Order.lean`, `Failing.lean` | the depth-first walk over the imports; the first obstacle on it |
| `Spec/Opening.lean`, `Errors.lean` | what the file system says about a name; when an error of `open_file` is true |

## 2. Modelling decisions

* `&str`/`String`/`Vec<u8>` are `List UInt8` (UTF-8 bytes); offsets are byte offsets; `i32` is `Int`, `u64` and `usize` are
  `Nat`, with the range checks of the code written out.
* `Result`/`Option` stay data. A panic (`unwrap`, index, `assert`, `debug_assert`) is an explicit outcome. Loops and recursion
  take fuel, with a separate outcome for exhausted fuel. Theorems show that both outcomes are unreachable (C07, C12, C24, C27),
  which is the proof of termination and absence of panics.
* The resolver is an arbitrary function of the history of calls made to it, so it may change its answers over time.
* The parser is a state monad over lexer state, comment state, look-ahead and error list, as in the code; the generator is one
  over path, error list and location list.
* `HashMap<String, FileMetadata>` is a function; iteration order is never used by the code.
* Floating point values are symbolic (literal text or converted integer); their printing is the class `FloatFmt`.
* The sort of the locations is the class `LocSort`: any function returning an ordered permutation (`sort_unstable_by`).

## 3. Trusted base

* Lean 4.33.0's kernel; axioms at most `propext`, `Classical.choice`, `Quot.sound` (per theorem in section 6). No axiom of our own,
  no compiled evaluation: concrete cases are checked with `decide +kernel`.
* The model is a faithful transcription of the Rust code (read by hand, function by function).
* Contracts of code outside `/repo`:
  * `prost-reflect` `DescriptorPool`: adding a file fails and leaves the pool unchanged, or skips a file whose name is already
    present, or appends the file with the same name and imports (`Linker.Lawful`). C14 also assumes that the linked file depends
    only on the file and its transitive imports.
  * `prost` and `prost-reflect` encoders: decoding undoes encoding, and clearing the source info changes nothing else, for the
    files at hand (`Codec.Faithful`, used by C55 and C58 only).
  * `logos` 0.15: longest match; an unmatched byte is an error token up to the next char boundary; a digit run that starts with `0`
    and is neither octal nor part of a float is one token.
  * `prost` varints, keys, `skip_field`, `bytes::Buf` as in their published source, on a 64-bit target.
  * `std::path` on Unix; `slice::binary_search`; `read_to_string` of a `Take`; `String::from_utf8_lossy` on text that is a slice of
    a `&str` (that the slices are text is proved: C60); `u64::from_str_radix`; `sort_unstable_by`.
* Not modelled: option parsing of `main.rs` (clap), miette rendering (labels, snippets; the texts of messages are in `Model/Message.lean`, with the line and column computed by
  miette as a parameter), the contents of the bundled google
  files (only their names), attaching source code to pool errors, the machine stack (recursion depth of parser and compiler),
  Windows paths, 32-bit targets, type resolution and option interpretation (done by `prost-reflect`).

## 4. How the properties are proved

* **Compiler (C01–C15, C21, C54–C59).** Invariant `Inv` on compiler states by induction over the import recursion and over the history
  of calls (`Reachable`); C06, C08, C09 by a trace relation between an error and the import chain that leads to it; C07 by a bound on
  the depth from the finite set of reachable names; C54, C57, C58 by composing these with the resolver and parser theorems; C59 by a
  simulation between two runs; C13, C14 by relating success to reachability in the import graph.
* **Resolvers and paths (C16–C20, C22, C25, C26).** Induction on resolver lists and on path components; equality of paths is equality of
  component lists.
* **Wire format (C23, C24).** Round trip of an inductively defined encoding relation through the decoder; safety by induction on the
  buffer.
* **Lexer (C32, C36, C37, C50).** Soundness and completeness of the token functions with respect to `Spec/Lexeme`: a text is a token
  with a value exactly if the lexer returns it, longest first; printing of strings and aggregates is inverted by the lexer.
* **Text (C60).** The invariant "the rest of the source is UTF-8" through lexer, comment tracker and every grammar method
  (`LexText`, `ParseText*`), and "every span is at such a point" through tree and generator (`AstText`, `GenText`).
* **Parser (C27–C29, C46–C49, C51).** Hoare-style triples (`Wp.lean`) for safety; soundness (`Snd*.lean`): an accepted source derives
  the returned tree in the grammar; completeness (`Cpl*.lean`): every derivation is found; unambiguity (`Uni*.lean`) with places; comments by
  relating the comment tracker to the split of each gap (`Comm.lean`, `PeekComm.lean`, `CommAt*.lean`).
* **Error recovery (C61, C62).** Invariants of the whole run, including resynchronisation: `RunInv`, `Blame4`, `Blame5`; the claim about
  all continuations is a simulation between two runs on sources that agree up to the blamed token (`Blame`, `Blame2`, `Blame3`), with
  monotonicity in the loop counters (`Fuel`); the header of a file by `Ahead`.
* **Messages (C63).** The grammar methods are re-read on lists of tokens without positions (`Same`, `Exec`, `Runs`, `FileRuns`: a run on
  the parser state reports what `allEvents` computes from the tokens); `Good*` shows for every method that the tokens named by its
  message are taken by the method instead (with what follows it, for loops and optional parts), `Events` lifts this to a file with
  recovery.
* **Complete rules (C65).** `Spec/Describes.lean` lists the rules for every field of every element; that the descriptor of
  an accepted source obeys them follows from C33–C45 and C52 (plus what those left open: `proto3_optional` and
  `oneof_index` of extensions). That two descriptors obeying them are equal is an induction over the message descriptors
  (`message_unique`); the decimal text of a number is unique (`canonical_unique`); locations are determined as a set without
  repetitions, hence up to the order of equal paths, which `sort_unstable_by` does not fix.
* **The walk (C66).** `Builds` is the walk as an inductive relation without fuel, stack or cycle check. A successful
  `open_files` is a walk by induction over the recursion depth; a walk is a successful `open_files` by induction over the walk,
  where "no cycle" follows from the result being sorted, and the depth needed is bounded by the size of the walk.
  The error (C67) is described by a second relation on top of it, with the same two inductions.
* **Independence (C68).** The descriptor and the list of diagnostics of the generator are folds over the declarations (`Proofs/Gen5.lean`); the
  violations of a part of a tree are those of the rules of C53 applied to a file with only that part.
* **Texts of errors (C69).** `Spec/Shown.lean` lists the texts that may be printed, each with the fact about the files that makes it true
  (`Told`), without the error type. `C69_compile` goes through the justification of C57, with the place of an import from C56; `C69_parse` uses
  that diagnostics have places inside the source (C29). What miette does with a span inside the source is a parameter (`Shows`).
* **Concatenation (C70).** `Spec/Joined.lean` says what the descriptor of two texts together is. The lexer part (`Concat.lean`) shows that a text
  that lexes by itself lexes to the same tokens when a new line and anything else follow, and that positions do not matter; the parser part
  (`Concat2.lean`) that every statement ends outside of aggregate values, that where a statement ends is determined by the tokens, and that what
  a statement contributes does not depend on what stands before it; the rest follows with C36/C49 (accepted = lexes, has a tree, no violations).
* **Each violation once (C71).** `Repeats*.lean`: every diagnostic of the generator begins at a token of the construct it is about; different
  constructs stand on different tokens (C50), and the diagnostics of one field are of different classes or about the values of different
  options. `Counts` carries this (with the `extensions` statements as the exception) through the positional grammar.
* **Each file read once (C72).** `Reads*.lean`: the trace of calls to the resolver that the model keeps grows in one `open_file` by the path and by
  different names of files not held; an invariant over histories ties each held file to the last call that asked for it (`Last`); `Walks`
  (Spec/Reads.lean) is the walk of C66 for resolvers that change over time; a count per name goes up by one only with a new file or a failed call.
* **Settings (C74).** `Spec/Script.lean` runs a list of calls; `Flags.lean` shows that opening files commutes with changing the settings.
* **Line endings (C75).** `Spec/Endings.lean` defines the Unix form. `Endings1-4.lean`: a simulation between the lexers of two texts related by `E` (token by token; after a block comment one side may have taken a `\r` along that the other has not, `K.newline`). `Move*.lean`: the grammar with places and the source locations commute with moving offsets. Both sources are compared with the text that has `\r\n` everywhere.
* **Shadowed files (C76).** `Spec/Advice.lean` says what shadowed means in terms of include directories and of what is at the paths. The error is exact by C67 and the characterisations of `resolve_path` (C18, C19) and `open_file` (`Opens`, C57). Two directories that one path lies below are equal or nested (`calls_two`); the position of the shadowing directory strictly decreases when the advice is followed (`shadowed_before`), so following it ends.
* **Nesting (C77).** `Spec/Nesting.lean` compares the recorded lines and columns and names the two exceptions by their paths. By induction over the grammar with places (`Spec/Places.lean`): the marks of a node lie between its first and its last token, marks below the same path nest, marks below different indices or field numbers do not interfere; statements that share a path each cover their own elements. Bytes become lines and columns by C30.
* **Lists (C78).** Stated on paths alone: an even number of components, a field number and an index. By induction over the grammar with places: the elements of a list lie in consecutive, disjoint runs of tokens (`Sq`, `many_seq`, `sepBy_seq`), so their spans follow each other; marks of one index stem from one element, whose own mark is single.
* **Spelling (C79).** `Spec/Spelled.lean` says at each path what the words in the span must be, from the descriptor alone; it rests on
  `Lexeme` (C50) for numbers and strings. The words of the extent of consecutive tokens are the texts of these tokens (`words_extent`);
  the rules of the grammar with places then give the words of every node (`Spell3`), and C52's exact content the values (`Spell4`).
* **Diagnostics mean what they say (C73).** `Spec/Explains.lean` (rules) and `Spec/Faults.lean` (tokens) state for each text the fact it
  stands for, without the error type. Rules: `Both` matches each violation of C53 with its text. Tokens: each lexer routine adds only
  errors for which `LexFault` holds of the token it returns (`Faults*.lean`, induction over the routine); `Said` is an invariant of the
  parser state; `Tells` is a program logic on the grammar methods, on the list of significant tokens still to be read.
* **Beginnings of files (C64).** `Via*` shows for every method that after each token it takes there are tokens with which it comes to an
  end (`AC`; structural, with a measure on the loop counters), `Quiet` that statements fail only by such a message, `Via5`–`Via7` lift it
  to files with a header; `Cut`, `Cut2` show that the tokens before a cut are lexed as before when the source goes on with a line break;
  `Reports`, `Homog`, `Wr` that the tokens before the first diagnostic about tokens are well-formed; `Via8` puts the completed source
  together. Not claimed: that the completed source has no diagnostic at all (a second `package`, a bad import path stay), nor that `#`
  comments and `f` suffixes of the prefix are read in the same mode.
* **Generator (C30, C31, C33–C45, C52, C53).** `Gen*.lean` computes the generator as closed functions of the tree (descriptor, errors,
  locations); the properties follow by structural induction, stated over pairs of written construct and descriptor element at any depth.

A property whose theorem would cover only a part of the statement is named `_partial` (there is none at the moment).

## 5. Findings

Behaviour found while modelling. Where a property had to be stated around it, the property says so.

* A resolver that returns a descriptor with another name than the one requested makes `files()`/`file_descriptor_set()` panic
  (`Compiler.Demo.C12_misnamed_panics`).
* A file without tokens has an inverted whole-file location (start after end).
* `extensions 100 [opts];` is rejected (a single number followed by options); `optional optional foo = 1;` is accepted;
  `rpc Foo(stream.Bar)` is read as `stream .Bar`.
* `08` lexes as 0; `078` trips a `debug_assert` (release: integer-out-of-range error); `0a` lexes as `0` `a` without error.
* `default = -0` is rejected on unsigned fields. Reserved names may not start with an underscore. `reserved 5 to 3` is not diagnosed.
* A float literal that overflows is printed as `inf` in an aggregate, which lexes back as an identifier.
* The text-format mode of the lexer stays on after an error inside an aggregate (only in parses that fail anyway).
* Blank lines inside block comments are dropped. Comments after a closing `}` on the same line are lost. A block comment on the same
  line, followed by a newline and directly by the next element, becomes leading (protoc: trailing of the previous element).
* `json_name` records two locations with the same path, whose order is unspecified. A field whose only options are `default` or
  `json_name` records a location for an options message that is absent; an explicit `syntax = "proto2"` records `[12]` though the
  descriptor has no syntax (exceptions of C44, with examples).
* `find_import_span` passes byte columns to a function that counts characters (wrong label after non-ASCII text on the line).
* `File::open`: a file that grows after its length was checked is cut at 2^31−1 bytes.
* The doc comment of `FileMetadata::is_import` says the opposite of what it returns.
* proto3 `optional` extension fields get `proto3_optional` without a `oneof_index`.
* An unterminated block comment inside a statement is reported as an unexpected end of file twice (lexer and parser).
* If the first token is invalid, or the `syntax` statement is malformed, parsing stops at that error (no resynchronisation).
* Escapes differ: aggregates use `escape_default` (`\x01`), bytes defaults octal (`\001`).
* The message of an invalid import says "invalid group name". `Debug` of an "import not found" error without a span has no space
  after the file name; `Debug` of a diagnostic without a place (end of file, second package) does not name the file at all (C69).
* Some "expected" lists are incomplete (`;` inside an enum is taken but not named), and the messages of `extensions 4 [` do not say that a
  range would have been accepted there. No list names a token that is not taken (C63).
* `0178` is reported as "integer is too large" (C73, `notOctal`).
* A bad option of an `extensions` statement is reported once for each range of the statement (C71).
* A repeated group field with a `default` is reported twice (once for the group, once for the repeated field).
* "Shadowed" is also reported for a path that does not exist, if another include directory (even a later one) has a file of that name; the
  advice to re-order the include paths cannot help then (C76, `C76_missing` and examples). With nested include directories the file that
  the help says to pass may be shadowed itself (C76, example).
* The options of an extension range are recorded below the range although they are written after the last range, and the extended type is
  recorded below each extension field although it is written once, in front: these locations lie outside their parent's (C77).
* On 32-bit targets, `decode_varint as usize` cuts lengths when a descriptor set is decoded.

## 6. Properties, theorems, axioms

Axioms: P = `propext`, C = `Classical.choice`, Q = `Quot.sound`.

<!-- table -->
| property | status | theorems (axioms) | note |
|---|---|---|---|
| C01 Output is topologically ordered | proved | `Compiler.C01_topological` (CPQ), `Compiler.C01_files_same_order` (PQ) |  |
| C02 No file is emitted twice | proved | `Compiler.C02_no_duplicates` (PQ) |  |
| C03 The compiled set is closed under imports | proved | `Compiler.C03_closed` (CPQ) |  |
| C04 include_imports selects exactly the opened files | proved | `Compiler.C04_selection` (PQ), `Compiler.C04_is_import_iff` (PQ) |  |
| C05 include_source_info only affects source_code_info | proved | `Compiler.C05_source_info` (PQ) |  |
| C06 Import cycles are always rejected | proved | `Compiler.C06_success_acyclic` (CPQ), `Compiler.C06_cycle_rejected` (CPQ), `Compiler.C06_cycle_text` (PQ) |  |
| C07 open_file terminates on every finite import graph | proved | `Compiler.C07_terminates` (CPQ), `Compiler.C07_result_independent_of_bound` (PQ), `Compiler.C07_no_panic` (CPQ) | recursion depth bounded by the number of reachable names; machine stack size not modelled |
| C08 Duplicate imports are rejected | proved | `Compiler.C08_never_held` (PQ), `Compiler.C08_open_fails` (PQ), `Compiler.C08_error` (CPQ) |  |
| C09 Not-found errors are classified and located correctly | proved | `Compiler.C09_classification` (CPQ), `Compiler.C09_is_file_not_found` (PQ) |  |
| C10 Re-opening a file is idempotent | proved | `Compiler.C10_reopen` (PQ), `Compiler.C10_idempotent` (PQ) |  |
| C11 A failed call never damages the compiler | proved | `Compiler.C11_failure_keeps` (PQ) |  |
| C12 Queries do not panic | proved | `Compiler.C12_no_panic` (PQ), `Compiler.Demo.C12_misnamed_panics` (PQ) |  |
| C13 Valid import graphs are accepted | proved | `Compiler.C13_valid_accepted` (CPQ) |  |
| C14 Result does not depend on the order files are opened in | proved | `Compiler.C14_order_independent` (CPQ) | the linker is assumed deterministic in the transitive imports (external crate) |
| C15 open_files is sequential and stops at the first error | proved | `Compiler.C15_open_files_append` (PQ), `Compiler.C15_open_files_first_error` (PQ) |  |
| C16 Chained resolvers: first hit wins | proved | `C16_first_hit` (P), `C16_resolve_first` (P), `C16_resolve_none` (PQ) | later resolvers are irrelevant to the answer; side effects of custom resolvers are not modelled |
| C17 Chained resolvers do not mask errors | proved | `C17_error_not_masked` (P), `C17_all_missing` (P), `C17_missing_only_if_all` (PQ) |  |
| C18 Include paths take precedence over the bundled google files | proved | `C18_first_include` (PQ), `C18_fallback` (PQ), `C18_twelve` (–), `C18_resolve` (PQ) |  |
| C19 File names derived from paths are canonical | proved | `Path.C19_resolve_path_iff` (PQ), `Path.C19_name_canonical` (PQ), `Path.C19_no_name_for_parent` (PQ) |  |
| C20 resolve_path and open_file agree on the location | proved | `Path.C20_resolve_open_agree` (PQ), `Path.C20_resolve_complete` (PQ) |  |
| C21 Opening a shadowed path never compiles a different file silently | proved | `Compiler.C21_not_shadowed` (PQ), `Compiler.C21_shadow_reported` (PQ), `Path.C21_path_eq_iff` (PQ) |  |
| C22 Imports cannot escape the include directory | proved | `Path.C22_import_stays_below` (PQ) |  |
| C23 DescriptorSet bytes decode exactly | proved | `Wire.C23_decode_exact` (CPQ), `Wire.C23_decode_file` (PQ), `Wire.C23_open_original_bytes` (CPQ) | prost wire primitives modelled from their published source; FileDescriptorProto::decode is a parameter |
| C24 DescriptorSet decoding is total and safe | proved | `Wire.C24_safe` (PQ), `Wire.C24_terminates` (CPQ), `Wire.C24_underflow` (CPQ), `Wire.C24_bad_key` (CPQ), `Wire.C24_wrong_end` (CPQ), `Wire.C24_unclosed` (CPQ), `Wire.C24_too_deep` (CPQ), `Wire.C24_file_wire_type` (CPQ) |  |
| C25 DescriptorSet lookup | proved | `C25_lookup` (PQ) |  |
| C26 Oversized files are rejected | proved | `C26_open_bounded` (PQ), `C26_parse_bounded` (CPQ) |  |
| C27 parse is total | proved | `C27_parse_total` (CPQ), `C27_parseFn` (CPQ) | recursion depth (machine stack) is not modelled |
| C28 Every failed parse carries at least one diagnostic | proved | `C28_at_least_one_error` (CPQ) |  |
| C29 Error spans lie inside the source | proved | `C29_error_spans` (CPQ), `C29_error_source` (CPQ) |  |
| C30 Line/column resolution is exact | proved | `C30_line_column` (CPQ), `C30_span_encoding` (CPQ), `C30_injective` (CPQ) | slice::binary_search is used through its contract |
| C31 Source locations are well-formed spans | proved | `C31_locations` (CPQ), `C31_ordered` (CPQ) |  |
| C32 Integer literals are read exactly or rejected | proved | `C32_literals` (CPQ), `C32_conversions` (CPQ) |  |
| C33 Field numbers in a parsed file are valid | proved | `C33_numbers` (CPQ), `C33_all_numbers` (CPQ) |  |
| C34 Reserved and extension ranges | proved | `C34_message_ranges` (CPQ), `C34_enum_ranges` (CPQ) |  |
| C35 Integer defaults are in range and canonical | proved | `C35_integer_defaults` (CPQ), `C35_accepted_iff` (CPQ) |  |
| C36 Bytes defaults survive escaping | proved | `C36_defaults` (CPQ), `C36_tokens` (CPQ) |  |
| C37 String literals decode as specified | proved | `C37_literals` (CPQ), `C37_options` (CPQ), `C37_imports` (CPQ), `C37_defaults` (CPQ) |  |
| C38 Real oneofs precede synthetic ones and indices are in bounds | proved | `C38_oneofs` (CPQ), `C38_indices` (CPQ) |  |
| C39 Map fields expand to entry messages | proved | `C39_maps` (CPQ) |  |
| C40 Groups expand to nested messages | proved | `C40_groups` (CPQ) |  |
| C41 Label rules by syntax and scope | proved | `C41_labels` (CPQ) |  |
| C42 Imports are reported in order with valid indices | proved | `C42_imports` (CPQ), `C42_indices` (CPQ) |  |
| C43 Source locations are sorted by path and are those of the written constructs, each once | proved | `C43_locations` (CPQ), `C43_once` (CPQ) | spans and comments are those of the unique tree of the source (PlacedTree) |
| C44 Location paths address existing descriptor elements | proved | `C44_paths` (CPQ) |  |
| C45 Options are carried over faithfully | proved | `C45_file` (CPQ), `C45_messages` (CPQ), `C45_enums` (CPQ), `C45_services` (CPQ), `C45_fields` (CPQ) | floating point values are symbolic |
| C46 Aggregate option text re-lexes to the same tokens | proved | `C46_aggregates` (CPQ) | floating point formatting is a parameter: re-lexing is proved when each float literal prints as a float literal (an overflowing literal prints as inf and does not) |
| C47 Comments attach to the right element | proved | `C47_locations` (CPQ), `C47_gaps` (PQ), `C47_conserved` (PQ), `C47_leading` (PQ), `C47_trailing` (PQ), `C47_once` (PQ) | locations have the comments of their tokens; the comments of a gap are split once, in order; with C43 every element has its comments |
| C48 Comments and layout do not change the meaning | proved | `C48_same_descriptor` (CPQ), `C48_same_acceptance` (CPQ) | well-formed comments: the other source lexes without errors |
| C49 The parser accepts exactly the grammar | proved | `C49_accepts` (CPQ), `C49_tree` (CPQ), `C49_exact` (CPQ), `C49_one_tree` (CPQ), `C49_unambiguous` (CPQ), `C49_rejects` (CPQ) |  |
| C50 Lexing consumes the source in order | proved | `C50_spans` (CPQ), `C50_longest` (CPQ), `C50_texts` (CPQ) |  |
| C51 Accepted imports and names are well-formed | proved | `C51_imports` (CPQ), `C51_groups` (CPQ), `C51_reserved` (CPQ), `C51_package` (CPQ) |  |
| C52 Names and types are carried over | proved | `C52_file` (CPQ), `C52_messages` (CPQ), `C52_fields` (CPQ), `C52_enums` (CPQ), `C52_services` (CPQ) |  |
| C53 The semantic rules are enforced exactly | proved | `C53_accepts` (CPQ), `C53_diagnostics` (CPQ), `C53_justified` (CPQ) | as a set of diagnostics: order and repetition are not stated |
| C54 compile() from the file system to the descriptor set | proved | `C54_no_panic` (CPQ), `C54_terminates` (CPQ), `C54_success` (CPQ), `C54_accepts` (CPQ) | relative to the contract of the descriptor pool (Linker.Lawful) |
| C55 encode_file_descriptor_set agrees with file_descriptor_set | proved | `C55_encodes` (CPQ) | relative to the contract of the external encoders (Codec.Faithful) |
| C56 Import errors point at the import statement | proved | `C56_import_span` (CPQ) |  |
| C57 Errors of compile() are true | proved | `C57_justified` (CPQ), `C57_opens` (PQ), `C57_wrapped` (CPQ), `C57_classes` (P), `C57_parse_io` (CPQ), `C57_not_found` (CPQ) |  |
| C58 The command line tool | proved | `C58_tool` (CPQ), `C58_self_contained` (CPQ), `C58_no_panic` (CPQ) | after argument parsing (clap), up to the outcome of the write itself |
| C59 compile() looks only below the include directories | proved | `C59_confined` (CPQ), `C59_below` (PQ), `C59_names` (CPQ) | symbolic links are resolved by the file system and are not part of the statement |
| C60 Positions are between characters | proved | `C60_text` (CPQ), `C60_tokens` (CPQ), `C60_errors` (CPQ), `C60_locations` (CPQ) | text is the encoding of a list of scalar values; C60_text relates it to from_utf8 and is_char_boundary |
| C61 Syntax errors blame the right token | proved | `C61_token` (CPQ), `C61_order` (CPQ), `C61_first` (CPQ) | what the messages say was expected: C63 |
| C62 Invalid tokens are all reported | proved | `C62_rejected` (CPQ), `C62_prefix` (CPQ), `C62_all` (CPQ) |  |
| C63 Syntax errors say what would have been taken | proved | `C63_determined` (CPQ), `C63_suggestion` (CPQ), `C63_honest` (CPQ), `C63_words` (CPQ), `C63_end_determined` (CPQ), `C63_end_suggestion` (CPQ), `C63_end_words` (CPQ) | the converse (every token that would be taken is named) is false of the code: some lists are incomplete, see DESIGN |
| C64 What comes before the first unexpected token is the beginning of a file | proved | `C64_viable` (CPQ), `C64_viable_end` (CPQ) | the continuation may leave diagnostics that no continuation can avoid (a second package statement, an invalid import path); the notion of a diagnostic about the grammar is Spec/Viable.lean: ungrammatical |
| C65 The rules for descriptors are complete | proved | `C65_correct` (CPQ), `C65_complete` (CPQ), `Spec.describes_unique` (CPQ) | fields of descriptor.proto that protox never sets are not in the model; floating point formatting is a parameter |
| C66 The output of compile is the depth-first walk over the imports | proved | `C66_exact` (CPQ), `C66_unique` (PQ), `C66_order` (CPQ), `C66_walk` (CPQ), `C66_depth` (CPQ), `C66_reload` (CPQ) | for a resolver that does not change its answers; the descriptor pool is a parameter that keeps names and imports; recompilation from the output needs that the pool leaves its own output as it is (Relinks) |
| C67 The error of compile is the first obstacle on the walk | proved | `C67_exact` (CPQ), `C67_unique` (CPQ), `C67_total` (CPQ), `C67_rest` (CPQ), `C67_api` (CPQ), `C67_walk` (CPQ), `C67_depth` (CPQ) | for a resolver that does not change its answers; the descriptor pool is a parameter; the text with which the pool decorates its errors is not modelled |
| C68 Top-level declarations are independent of each other | proved | `C68_diagnostics` (CPQ), `C68_assembled` (CPQ), `C68_subset` (CPQ), `C68_reorder` (CPQ), `C68_name` (CPQ) | sourceCodeInfo is not in C68_assembled (it is about places, C43); floating point formatting is a parameter |
| C69 What an error prints | proved | `C69_parse` (CPQ), `C69_compile` (CPQ) | line and column (miette) and the texts of errors from outside (descriptor pool, std::io) are parameters; paths that are not UTF-8 are not modelled |
| C70 A file is the sequence of its statements: texts can be put together and taken apart | proved | `C70_append` (CPQ), `C70_split` (CPQ) | source locations of the combined file are not compared; C70_split needs at least one token in the first text, since a file of comments may be followed by a syntax statement |
| C71 Each violation is reported once | proved | `C71_once` (CPQ), `C71_ranges` (CPQ) | sources without a syntax tree (lexer and parser errors) are not covered |
| C72 Every file is read at most once, and what was read is what is used | proved | `Compiler.C72_call` (PQ), `Compiler.C72_last` (CPQ), `Compiler.C72_walk` (PQ), `Compiler.C72_count` (PQ), `Compiler.C72_once` (CPQ) | resolver and linker are parameters |
| C73 Diagnostics mean what they say | proved | `C73_rules` (CPQ), `C73_faults` (CPQ) | what exactly is expected in "expected X, but found Y" is the subject of C63 and C64; for sources that are not read only the truth of what is said is claimed, not that everything is said; text snippets and labels drawn by miette are not modelled |
| C74 Settings can be made at any time, and only the last ones count | proved | `C74_opening` (PQ), `C74_output` (PQ) | resolver and linker are parameters; encode_file_descriptor_set gives the same set (C55) |
| C75 Windows line endings make no difference | proved | `C75_endings` (CPQ), `C75_windows` (CPQ) | sources of at most 2^31-1 bytes, both; the byte spans and texts of diagnostics of rejected sources are not compared |
| C76 The error about a shadowed file is true, and its advice helps | proved | `C76_true` (CPQ), `C76_exact` (CPQ), `C76_advice` (CPQ), `C76_pass` (CPQ), `C76_ends` (CPQ), `C76_reorder` (PQ), `C76_missing` (PQ) | fixed file system and default resolver; Unix paths; linker is a parameter |
| C77 Source locations nest like the elements do | proved | `C77_nested` (CPQ), `C77_one` (CPQ) | order of locations is a parameter (`LocSort`); positions are lines and columns as recorded |
| C78 The source locations of the elements of a list follow each other in the order of the list | proved | `C78_order` (CPQ) | order of locations is a parameter (`LocSort`); which locations there are is C43 |
| C79 The text at a source location spells what the descriptor says | proved | `C79_spelled` (CPQ) | order of locations is a parameter (`LocSort`); nothing is said of defaults of floating point, bytes and enum fields, of the text inside aggregate values, and of the locations of whole statements and option lists (C43, C47, C49) |
<!-- /table -->
