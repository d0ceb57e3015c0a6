{"id": "C01", "title": "Output is topologically ordered", "statement": "After any sequence of open_file/open_files calls (successful or failed), in files() and file_descriptor_set() every file is preceded by every file it imports (for file_descriptor_set with include_imports(false): by every import that is itself in the output).", "quantifier": "every resolver (including one whose answers change over time), every sequence of calls, every import graph", "why_tests_cant": "needs every import DAG and every call history; tests try a few graphs", "anchors": ["protox/src/compile/mod.rs: Compiler::open_file, add_import, files, file_descriptor_set"]}
{"id": "C02", "title": "No file is emitted twice", "statement": "In files() and file_descriptor_set() no two entries have the same file name, after any history of calls.", "quantifier": "every resolver, every history of calls", "why_tests_cant": "diamonds, re-opens and failed calls combine without bound", "anchors": ["protox/src/compile/mod.rs: open_file, add_import, check_file"]}
{"id": "C03", "title": "The compiled set is closed under imports", "statement": "Every import of every file held by the compiler is itself held by the compiler; hence with include_imports(true) the emitted FileDescriptorSet is self-contained.", "quantifier": "every resolver, every history of calls including failing ones", "why_tests_cant": "failure in the middle of an import tree leaves partial trees of any shape", "anchors": ["protox/src/compile/mod.rs: open_file, add_import"]}
{"id": "C04", "title": "include_imports selects exactly the opened files", "statement": "With include_imports(false) file_descriptor_set() contains exactly the held files whose is_import() is false, in the same relative order as files(); with include_imports(true) it contains all of them. A file has is_import()==false iff some successful open_file call resolved to its name.", "quantifier": "every history of successful and failing open_file calls", "why_tests_cant": "interleavings of opening a file explicitly before/after it was imported are unbounded", "anchors": ["protox/src/compile/mod.rs: file_descriptor_set, open_file; protox/src/file/mod.rs: FileMetadata::is_import"]}
{"id": "C05", "title": "include_source_info only affects source_code_info", "statement": "file_descriptor_set() with include_source_info(false) equals the one with include_source_info(true) except that source_code_info is absent in every file.", "quantifier": "every compiler state", "why_tests_cant": "a statement about all states and all descriptors", "anchors": ["protox/src/compile/mod.rs: file_descriptor_set"]}
{"id": "C06", "title": "Import cycles are always rejected", "statement": "If open_file succeeds, no file reachable through imports from the opened file imports itself transitively. When a circular-import error is returned, its cycle text lists a real chain of imports that starts at the opened file and ends in a name already in the chain.", "quantifier": "every stable resolver, every start state reachable from new()", "why_tests_cant": "cycles of any length at any depth", "anchors": ["protox/src/compile/mod.rs: add_import; protox/src/error.rs: ErrorKind::CircularImport"]}
{"id": "C07", "title": "open_file terminates on every finite import graph", "statement": "If the names reachable by imports from the requested name form a finite set, open_file returns (Ok or Err), including when the graph is cyclic or files are missing; the recursion depth is at most the number of reachable names.", "quantifier": "every finite import graph, every compiler state", "why_tests_cant": "termination is a statement over all graphs", "anchors": ["protox/src/compile/mod.rs: open_file, add_import"]}
{"id": "C08", "title": "Duplicate imports are rejected", "statement": "A file that lists the same import twice is never added: compiling it fails, and if all its earlier imports compile, the error is the duplicate-import error that names the importing file and the import.", "quantifier": "every file, every position of the two imports, every compiler state", "why_tests_cant": "positions and interplay with other imports are unbounded", "anchors": ["protox/src/compile/mod.rs: open_file, add_import; protox/src/error.rs: duplicated_import"]}
{"id": "C09", "title": "Not-found errors are classified and located correctly", "statement": "If the opened file itself is not found the error is file-not-included with the path the caller passed; if an import is not found the error is import-not-found naming the missing import and the file whose import statement failed (not an outer one); is_file_not_found() holds in both cases; any other resolver error comes back unchanged.", "quantifier": "every import depth, every resolver error, every compiler state", "why_tests_cant": "error wrapping is applied once per recursion level, depth is unbounded", "anchors": ["protox/src/compile/mod.rs: open_file, add_import; protox/src/error.rs: into_import_error, is_file_not_found"]}
{"id": "C10", "title": "Re-opening a file is idempotent", "statement": "Calling open_file again with a path that resolves to a name already held performs no resolver open_file call, changes neither the files held nor their order, and only sets is_import() of that file to false; a second identical call changes nothing.", "quantifier": "every compiler state and path", "why_tests_cant": "state space unbounded", "anchors": ["protox/src/compile/mod.rs: open_file"]}
{"id": "C11", "title": "A failed call never damages the compiler", "statement": "After open_file fails, every previously held file is still held in the same order with unchanged descriptor, path and is_import(); any newly held files are marked is_import(); files() and file_descriptor_set() remain usable.", "quantifier": "every failure point in every import tree", "why_tests_cant": "failure can occur at any point of any tree", "anchors": ["protox/src/compile/mod.rs: open_file, add_import, check_file"]}
{"id": "C12", "title": "Queries do not panic", "statement": "If the resolver returns, for each requested name, a file whose descriptor has that name (true of all built-in resolvers), files() and file_descriptor_set() never panic after any history. (For a custom resolver that returns a differently named descriptor they can panic.)", "quantifier": "every history, every name-preserving resolver", "why_tests_cant": "index panics depend on global consistency of two maps", "anchors": ["protox/src/compile/mod.rs: files, file_descriptor_set"]}
{"id": "C13", "title": "Valid import graphs are accepted", "statement": "If every file reachable from the requested name is found, has no duplicate imports, passes the descriptor check and the graph is acyclic, open_file succeeds and afterwards every reachable file is held.", "quantifier": "every finite acyclic import graph", "why_tests_cant": "needs all DAG shapes", "anchors": ["protox/src/compile/mod.rs: open_file, add_import"]}
{"id": "C14", "title": "Result does not depend on the order files are opened in", "statement": "If two orders of open_file calls on the same set of paths both succeed, the resulting compilers hold the same set of file names with the same paths, descriptors and is_import() flags (only the topological order may differ).", "quantifier": "every permutation of every list of paths", "why_tests_cant": "factorially many orders", "anchors": ["protox/src/compile/mod.rs: open_file, open_files"]}
{"id": "C15", "title": "open_files is sequential and stops at the first error", "statement": "open_files(ps ++ qs) behaves as open_files(ps) followed by open_files(qs) when the former succeeds, and otherwise returns the first error with the state reached there.", "quantifier": "every list of paths", "why_tests_cant": "all lists", "anchors": ["protox/src/compile/mod.rs: open_files"]}
{"id": "C16", "title": "Chained resolvers: first hit wins", "statement": "ChainFileResolver::open_file returns the file of the first added resolver that does not report not-found; resolve_path returns the first Some; later resolvers are not consulted.", "quantifier": "every list of resolvers and every name", "why_tests_cant": "chains of any length", "anchors": ["protox/src/file/chain.rs: ChainFileResolver"]}
{"id": "C17", "title": "Chained resolvers do not mask errors", "statement": "A resolver error that is not not-found aborts the chain and is returned unchanged even if a later resolver has the file; if all report not-found the result is not-found with the requested name. The empty chain finds nothing.", "quantifier": "every list of resolvers", "why_tests_cant": "chains of any length", "anchors": ["protox/src/file/chain.rs: open_file"]}
{"id": "C18", "title": "Include paths take precedence over the bundled google files", "statement": "For a Compiler made with new(includes), opening a name yields the first include directory that has it, and the bundled copy only if none has; exactly twelve google/protobuf names are bundled.", "quantifier": "every include list, every file system content, every name", "why_tests_cant": "all file systems", "anchors": ["protox/src/compile/mod.rs: Compiler::new; protox/src/file/google.rs"]}
{"id": "C19", "title": "File names derived from paths are canonical", "statement": "A name returned by resolve_path of an include resolver is non-empty, is the '/'-joined list of the normal components of the path below the include directory, and contains no '.', '..' or root component; a path with a '..' or root component below the include directory is never given a name.", "quantifier": "every path and include path", "why_tests_cant": "unbounded component lists", "anchors": ["protox/src/file/include.rs: path_to_file_name, strip_prefix"]}
{"id": "C20", "title": "resolve_path and open_file agree on the location", "statement": "If an include resolver maps path p to name n, then the path it opens for n (include joined with n) equals p up to '.' components; conversely every path formed by the include path followed by normal components gets the '/'-joined components as name.", "quantifier": "every include path, every path", "why_tests_cant": "all paths with '.' components anywhere", "anchors": ["protox/src/file/include.rs: resolve_path, open_file, iter_after, path_eq"]}
{"id": "C21", "title": "Opening a shadowed path never compiles a different file silently", "statement": "If open_file(p) succeeds and p was mapped to a name by the resolver, the held file of that name has no file-system path or has a path equal to p up to '.' components; otherwise FileShadowed is returned with both paths.", "quantifier": "every include list, every path, every history (also when the file was first loaded as an import)", "why_tests_cant": "shadowing depends on include order and history", "anchors": ["protox/src/compile/mod.rs: open_file; protox/src/file/include.rs: check_shadow, path_eq"]}
{"id": "C22", "title": "Imports cannot escape the include directory", "statement": "For every import accepted by parse, joining it to an include directory gives a path whose components are those of the include directory followed by normal components (no '..', no root).", "quantifier": "every source text, every include directory", "why_tests_cant": "adversarial strings", "anchors": ["protox-parse/src/parse/mod.rs: is_valid_import, parse_import; protox/src/file/include.rs: open_file"]}
{"id": "C23", "title": "DescriptorSet bytes decode exactly", "statement": "DescriptorSetFileResolver::decode on the encoding of any list of file-descriptor byte strings, interleaved with any unknown fields, yields exactly those byte strings in order, unmodified (so extension options survive).", "quantifier": "every list of files, every unknown field interleaving", "why_tests_cant": "all byte strings", "anchors": ["protox/src/file/descriptor_set.rs: decode, FileDescriptor::decode"]}
{"id": "C24", "title": "DescriptorSet decoding is total and safe", "statement": "decode terminates without panicking on every byte string, and every decoded file is a contiguous substring of the input. Malformed input is an error, never ignored: a length prefix larger than the remaining input; a number that is no field key (wire type 6 or 7, field number 0, more than 32 bits) where a key must stand; an end of a group that is not the innermost open one; an input that ends within a group; groups nested more than 100 deep; field 1 with a wire type other than length-delimited. These hold after any valid entries and, for keys and ends of groups, within unknown groups at any nesting.", "quantifier": "every byte string", "why_tests_cant": "2^(8n) inputs", "anchors": ["protox/src/file/descriptor_set.rs: decode"]}
{"id": "C25", "title": "DescriptorSet lookup", "statement": "open_file(name) returns the first descriptor in the set with that name together with its original bytes, and not-found iff there is none.", "quantifier": "every set, every name", "why_tests_cant": "all sets", "anchors": ["protox/src/file/descriptor_set.rs: open_file"]}
{"id": "C26", "title": "Oversized files are rejected", "statement": "File::open and parse never produce a descriptor for a source longer than 2147483647 bytes: they return a parse-class error.", "quantifier": "every file length", "why_tests_cant": "cannot run 2 GiB cases at every boundary", "anchors": ["protox/src/file/mod.rs: File::open, MAX_FILE_LEN; protox-parse/src/lib.rs: parse"]}
{"id": "C27", "title": "parse is total", "statement": "parse(name, source) terminates on every source and never panics (stack depth aside): it returns Ok(descriptor) or an error.", "quantifier": "every source text up to the size limit", "why_tests_cant": "every byte string; fuzzing only samples", "anchors": ["protox-parse/src/parse/mod.rs: Parser; protox-parse/src/lex/mod.rs; protox-parse/src/generate/mod.rs"]}
{"id": "C28", "title": "Every failed parse carries at least one diagnostic", "statement": "Whenever parse returns Err, there is at least one error kind; a token-level failure can never be reported with an empty error list.", "quantifier": "every source text", "why_tests_cant": "each of ~60 failure exits must record an error", "anchors": ["protox-parse/src/parse/mod.rs: parse_file, unexpected_token, next; protox-parse/src/error.rs: ParseError::new"]}
{"id": "C29", "title": "Error spans lie inside the source", "statement": "Every span in every error returned by parse satisfies start <= end <= source length.", "quantifier": "every source text", "why_tests_cant": "all error paths times all inputs", "anchors": ["protox-parse/src/lex/mod.rs: int, string, block_comment; protox-parse/src/parse/mod.rs; protox-parse/src/error.rs: ParseError::span"]}
{"id": "C30", "title": "Line/column resolution is exact", "statement": "For every byte offset the reported line equals the number of newline bytes before it and the column the byte distance to the start of that line; a span is encoded with 3 numbers iff it starts and ends on the same line, otherwise 4.", "quantifier": "every source text, every offset", "why_tests_cant": "all texts and offsets", "anchors": ["protox-parse/src/generate/lines.rs: LineResolver"]}
{"id": "C31", "title": "Source locations are well-formed spans", "statement": "Every span in source_code_info of a successful parse lies inside the source and its start does not come after its end, except the whole-file location of a source with no tokens.", "quantifier": "every accepted source", "why_tests_cant": "all accepted sources", "anchors": ["protox-parse/src/generate/mod.rs: add_span; protox-parse/src/parse/mod.rs: join_span uses"]}
{"id": "C32", "title": "Integer literals are read exactly or rejected", "statement": "A decimal, octal or hex literal denotes its mathematical value if below 2^64, otherwise parse fails; converting (with sign) to i32/i64 gives Some(v) iff the mathematical value fits, and to u32/u64 gives Some(v) iff there is no minus sign and it fits.", "quantifier": "every digit string, every sign", "why_tests_cant": "boundary values at every length", "anchors": ["protox-parse/src/lex/mod.rs: int; protox-parse/src/ast/mod.rs: Int::as_i32, as_i64, as_u32, as_u64"]}
{"id": "C33", "title": "Field numbers in a parsed file are valid", "statement": "In every descriptor returned by parse every field and extension has a number between 1 and 536870911, equal to the number written.", "quantifier": "every accepted source, any nesting", "why_tests_cant": "nesting unbounded", "anchors": ["protox-parse/src/generate/mod.rs: generate_message_number, generate_field_descriptor"]}
{"id": "C34", "title": "Reserved and extension ranges", "statement": "Message reserved/extension ranges are half-open: written 'a to b' becomes [a, b+1), 'a' becomes [a, a+1), 'a to max' ends at 536870912 (2147483647 for message_set_wire_format messages) with no overflow; enum reserved ranges are inclusive, 'max' is 2147483647.", "quantifier": "every accepted source", "why_tests_cant": "all numbers incl. boundaries", "anchors": ["protox-parse/src/generate/mod.rs: generate_message_reserved_range, generate_message_extension_range, generate_enum_reserved_range"]}
{"id": "C35", "title": "Integer defaults are in range and canonical", "statement": "A default value on an integer field is accepted iff it is an integer literal that fits the field type (for unsigned types: also without a minus sign), and default_value is then its canonical decimal text.", "quantifier": "every integer type, every literal", "why_tests_cant": "2^65 values per type", "anchors": ["protox-parse/src/generate/mod.rs: generate_field_default_value"]}
{"id": "C36", "title": "Bytes defaults survive escaping", "statement": "The escaped text produced for a bytes default (and for string tokens in aggregate options) lexes back to exactly the original bytes.", "quantifier": "every byte string", "why_tests_cant": "all byte strings", "anchors": ["protox-parse/src/ast/mod.rs: impl Display for String; protox-parse/src/lex/mod.rs: string, Display for Token"]}
{"id": "C37", "title": "String literals decode as specified", "statement": "An error-free quoted literal denotes the concatenation of its pieces: raw bytes stand for themselves, each escape for its byte or UTF-8 encoded scalar; the other quote kind is an ordinary character; adjacent literals concatenate.", "quantifier": "every literal", "why_tests_cant": "all strings", "anchors": ["protox-parse/src/lex/mod.rs: string; protox-parse/src/parse/mod.rs: parse_string"]}
{"id": "C38", "title": "Real oneofs precede synthetic ones and indices are in bounds", "statement": "In every generated message the declared oneofs come first in source order, then one synthetic oneof per proto3 optional field in field order; every oneof_index is in bounds; a field's oneof_index points at a declared oneof iff it was written inside it, and at a synthetic oneof iff the field is proto3_optional, each synthetic oneof having exactly one field and the name '_f' (or 'X_f' if the field name starts with '_').", "quantifier": "every accepted source, any interleaving of fields and oneofs, any nesting", "why_tests_cant": "interleavings unbounded", "anchors": ["protox-parse/src/generate/mod.rs: generate_message_body_descriptor, generate_field_descriptor, generate_oneof_descriptor"]}
{"id": "C39", "title": "Map fields expand to entry messages", "statement": "Every map field becomes a repeated message field whose type name is the PascalCase field name plus 'Entry', and the enclosing message gets a nested map_entry message of that name with key = 1 and value = 2 of the written types; key types are restricted to integers, bool and string.", "quantifier": "every accepted source", "why_tests_cant": "all names and nestings", "anchors": ["protox-parse/src/generate/mod.rs: FieldKind::Map; protox-parse/src/case.rs: to_pascal_case"]}
{"id": "C40", "title": "Groups expand to nested messages", "statement": "Every group becomes a field with lower-cased name, type group and type name equal to the written name, plus a nested message with that name built from the body; groups are rejected in proto3.", "quantifier": "every accepted source", "why_tests_cant": "nesting unbounded", "anchors": ["protox-parse/src/generate/mod.rs: FieldKind::Group"]}
{"id": "C41", "title": "Label rules by syntax and scope", "statement": "In an accepted file: proto2 message/extension fields have a written label; required never appears in proto3 or in extensions; oneof and map fields have no written label; the emitted label is the written one, repeated for maps, and optional when none is written.", "quantifier": "every accepted source", "why_tests_cant": "all combinations at any nesting", "anchors": ["protox-parse/src/generate/mod.rs: generate_field_label"]}
{"id": "C42", "title": "Imports are reported in order with valid indices", "statement": "dependency lists the import paths in source order; public_dependency and weak_dependency are strictly increasing lists of indices of exactly the imports with that modifier.", "quantifier": "every accepted source", "why_tests_cant": "all import lists", "anchors": ["protox-parse/src/generate/mod.rs: generate_file_descriptor"]}
{"id": "C43", "title": "Source locations are sorted by path and are those of the written constructs, each once", "statement": "source_code_info.location is ordered lexicographically by path, starts with the location of the whole file (the only one with an empty path), and consists of exactly the locations of the written constructs: each construct contributes its locations under the path of its own descriptor element, with the encoded span and the comments of the construct. No location is listed twice; two locations with the same path (several extend, reserved, extensions or option statements of one element) begin at different places.", "quantifier": "every accepted source", "why_tests_cant": "path push/pop and the element counters must agree on all nestings", "anchors": ["protox-parse/src/generate/mod.rs: generate_file, pop_path"]}
{"id": "C44", "title": "Location paths address existing descriptor elements", "statement": "For every location in source_code_info, following its path of field tags and indices through the FileDescriptorProto reaches an element that is set (index in bounds), except the location [12] of an explicit syntax = \"proto2\" (which is not stored in the descriptor) and the options location of a field all of whose options were taken for default_value and json_name.", "quantifier": "every accepted source", "why_tests_cant": "all nestings of constructs", "anchors": ["protox-parse/src/generate/mod.rs; protox-parse/src/tag.rs"]}
{"id": "C45", "title": "Options are carried over faithfully", "statement": "Each option appears once, in order, with its name parts and exact value, except that the first field option 'default' and 'json_name' become default_value and json_name; a negative integer option fits i64 or parse fails; an options message is present iff there is an option.", "quantifier": "every accepted source", "why_tests_cant": "all option lists", "anchors": ["protox-parse/src/generate/mod.rs: generate_option, generate_options, take_option"]}
{"id": "C46", "title": "Aggregate option text re-lexes to the same tokens", "statement": "The text kept for an aggregate option value lexes back to exactly the tokens between the braces (comments removed), and braces are matched.", "quantifier": "every token sequence", "why_tests_cant": "all token sequences", "anchors": ["protox-parse/src/parse/mod.rs: parse_text_format_message; protox-parse/src/lex/mod.rs: Display for Token"]}
{"id": "C47", "title": "Comments attach to the right element", "statement": "Between two declarations, comments are split as documented by descriptor.proto: a comment is trailing for the previous element only if it starts on the same line or the next line and is separated from the next element; blank-line separated groups are detached, the last adjacent group is the leading comment; no comment is duplicated.", "quantifier": "every sequence of comments and newlines", "why_tests_cant": "all sequences", "anchors": ["protox-parse/src/parse/comments.rs; protox-parse/src/parse/mod.rs: peek"]}
{"id": "C48", "title": "Comments and layout do not change the meaning", "statement": "If two sources have the same sequence of significant tokens and both parse, their descriptors are equal except for source_code_info; and if one is accepted the other is accepted provided its comments are well-formed.", "quantifier": "every pair of sources", "why_tests_cant": "all layouts", "anchors": ["protox-parse/src/parse/mod.rs: peek, peek_skip_comments"]}
{"id": "C49", "title": "The parser accepts exactly the grammar", "statement": "parse accepts a token sequence iff it is derivable in the documented protobuf grammar (as implemented), and the syntax tree is the one derived.", "quantifier": "every token sequence", "why_tests_cant": "infinite language", "anchors": ["protox-parse/src/parse/mod.rs: parse_*"]}
{"id": "C50", "title": "Lexing consumes the source in order", "statement": "Token spans are non-empty, inside the source, in strictly increasing order and non-overlapping; only whitespace lies between them.", "quantifier": "every source", "why_tests_cant": "all sources", "anchors": ["protox-parse/src/lex/mod.rs"]}
{"id": "C51", "title": "Accepted imports and names are well-formed", "statement": "In an accepted file every import has non-empty '/'-separated components none of which is '.', '..' or contains a backslash; every group name starts with an upper-case letter and every reserved name is an identifier; there is at most one package statement.", "quantifier": "every accepted source", "why_tests_cant": "all strings", "anchors": ["protox-parse/src/parse/mod.rs: is_valid_import, parse_ident_string, parse_group; protox-parse/src/case.rs"]}
{"id": "C52", "title": "Names and types are carried over", "statement": "In a parsed file every element has its written name: file name, package, messages, fields, enums, values, services and methods; field types, type names, extended types, method input and output types and streaming flags are the written ones; syntax is 'proto3' or absent.", "quantifier": "every accepted source, every element at any nesting depth", "why_tests_cant": "all sources and nesting depths", "anchors": ["protox-parse/src/generate/mod.rs: generate_file_descriptor, generate_message_descriptor, generate_field_descriptor, generate_enum_descriptor, generate_service_descriptor, generate_method_descriptor"]}
{"id": "C53", "title": "The semantic rules are enforced exactly", "statement": "parse accepts a source exactly if it is at most 2^31-1 bytes long, lexes, derives a file in the grammar and breaks none of the rules (field, enum and range numbers in bounds; labels required, allowed or forbidden by syntax and place; maps only in messages, unlabelled, with key types; no groups or defaults in proto3; no default on maps, groups and repeated fields; defaults and json_name of the right sort and range; no empty oneof; representable option values). When rules are broken the returned error holds a diagnostic with kind and place for each violation and none other.", "quantifier": "every source; every element at any nesting depth", "why_tests_cant": "all sources, nesting depths and combinations of violations", "anchors": ["protox-parse/src/generate/mod.rs: generate_field_descriptor, generate_message_descriptor, generate_enum_descriptor, generate_option; protox-parse/src/error.rs: ParseErrorKind; protox-parse/src/lib.rs: parse"]}
{"id": "C54", "title": "compile() from the file system to the descriptor set", "statement": "protox::compile never panics and terminates (for finitely many file contents, even if the file system changes while it runs). If it succeeds, the output lists each file once, after everything it imports, and consists of exactly the files the arguments name and those they import, directly or not; each is what the descriptor pool makes of the parsed file. If all these files are found, form no cycle, repeat no import and link, and no argument is shadowed, compile succeeds.", "quantifier": "every file system, include list, argument list and linker; every history of answers of the file system for panics and termination", "why_tests_cant": "all file systems, import graphs and interleavings of file changes", "anchors": ["protox/src/lib.rs: compile", "protox/src/compile/mod.rs: Compiler::new, open_files, file_descriptor_set", "protox/src/file/include.rs, chain.rs, google.rs"]}
{"id": "C55", "title": "encode_file_descriptor_set agrees with file_descriptor_set", "statement": "The bytes returned by encode_file_descriptor_set are a descriptor set of exactly the files that file_descriptor_set returns, in this order, with or without source info as configured: DescriptorSetFileResolver::decode reads them back. It panics only if file_descriptor_set does.", "quantifier": "every compiler state, both settings, every faithful codec", "why_tests_cant": "all pools and settings; two separate code paths must agree", "anchors": ["protox/src/compile/mod.rs: encode_file_descriptor_set, file_descriptor_set"]}
{"id": "C56", "title": "Import errors point at the import statement", "statement": "The span attached to an error about the i-th import of a parsed file is the import statement itself if it is on one line and preceded on it by ASCII only; with other text before it the length is right; a statement on several lines is not pointed at. Finding the span never panics.", "quantifier": "every accepted source, every import in it", "why_tests_cant": "all sources; depends on the position of every other construct", "anchors": ["protox/src/error.rs: find_import_span, DynSourceCode", "protox-parse/src/generate/mod.rs: import locations"]}
{"id": "C57", "title": "Errors of compile() are true", "statement": "An error returned by compile is about one of the arguments, and what it says is the case in the file system and import graph: a not-found error tells of a missing argument or import, a parse or I/O error of a file which is asked for or imported and cannot be read or parsed (and names it), a cycle error of a cycle, and so on. The bare resolver error for a missing name is never returned; the classes is_file_not_found, is_parse, is_io exclude each other.", "quantifier": "every file system, include list, argument list and linker", "why_tests_cant": "all import graphs and failures at any depth", "anchors": ["protox/src/compile/mod.rs: open_file, add_import", "protox/src/error.rs", "protox/src/file/mod.rs: File::open"]}
{"id": "C58", "title": "The command line tool", "statement": "The protox tool fails with the error compile would return, and then writes nothing. Otherwise it writes one file, if and where it was told to: a descriptor set that decodes to the files of compile's output in the same order, all of them with --include_imports, else only those named on the command line, with source info if asked for. With --include_imports the set is self-contained: its files can be compiled again from it alone. The tool never panics, even if the file system changes.", "quantifier": "every command line, file system, linker and faithful codec", "why_tests_cant": "all command lines and file systems", "anchors": ["protox/src/main.rs: main", "protox/src/compile/mod.rs: encode_file_descriptor_set"]}
{"id": "C59", "title": "compile() looks only below the include directories", "statement": "Whatever the arguments and the imports in the files say (.., absolute paths, odd characters), the outcome of compile depends only on what the file system has at paths that consist of an include directory followed by one or more normal names. Every file of the output has a canonical name that, as a path, stands for itself.", "quantifier": "every pair of file systems (changing over time) that agree below the include directories, every argument list", "why_tests_cant": "non-interference: a statement about pairs of executions on all file systems", "anchors": ["protox/src/file/include.rs: IncludeFileResolver", "protox/src/file/mod.rs: path_to_file_name", "protox-parse/src/parse/mod.rs: is_valid_import"]}
{"id": "C60", "title": "Positions are between characters", "statement": "For every source that is a valid Rust &str: every token and every reported non-token begins and ends between two characters and its slice is itself text; when parsing fails, every span in the error (first and related) begins and ends between two characters, so slicing the source for a diagnostic cannot panic; when it succeeds, every location in the source info spans positions between characters and every leading, trailing and detached comment is text.", "quantifier": "every UTF-8 source of any length, with characters of one to four bytes anywhere", "why_tests_cant": "the position of a multi-byte character relative to every lexer and comment state is unbounded; a miss by one byte shows only on sources with that character at that place", "anchors": ["protox-parse/src/lex/mod.rs: Token, comment, string", "protox-parse/src/parse/mod.rs: Parser", "protox-parse/src/parse/comments.rs: Comments", "protox-parse/src/generate/mod.rs: Context::add_location", "protox-parse/src/error.rs: ParseErrorKind"]}
{"id": "C61", "title": "Syntax errors blame the right token", "statement": "When parsing fails, every 'expected ..., but found ...' diagnostic covers exactly one token of the source (never white space, a comment or part of a token); these diagnostics are in source order and no token is reported twice. If the first diagnostic of the error is of this kind then the text up to and including the blamed token cannot be continued to an accepted file: every source with the same tokens up to and including that one is rejected, whatever follows.", "quantifier": "every source that fails to parse, and every pair of sources that agree up to the blamed token", "why_tests_cant": "the claim about the first diagnostic ranges over all continuations of a text; the claim about order ranges over all sequences of errors and resynchronisations", "anchors": ["protox-parse/src/parse/mod.rs: unexpected_token, skip_until, parse_file", "protox-parse/src/error.rs: ParseErrorKind::UnexpectedToken"]}
{"id": "C62", "title": "Invalid tokens are all reported", "statement": "A source containing a piece that matches no token is rejected. The 'invalid token' diagnostics are the first such pieces of the source, in order, without omission or repetition; if the source begins well (empty, or the first token is valid and not 'syntax', or a syntax statement with a known syntax), all of them are reported, however many other errors there are in between.", "quantifier": "every source, with any number of invalid pieces anywhere", "why_tests_cant": "the error recovery would have to be exercised with invalid pieces at every position of every statement", "anchors": ["protox-parse/src/parse/mod.rs: next, peek_comments, skip_until, parse_file", "protox-parse/src/error.rs: ParseErrorKind::InvalidToken"]}
{"id": "C63", "title": "Syntax errors say what would have been taken", "statement": "When parsing fails with 'expected X, but found Y' about a token: the message depends only on the tokens up to and including that one (any source with the same tokens up to there, at any offsets and with any continuation, is rejected with the same message about that token); every alternative named in X stands for some token; Y is the token at the place and X never names Y itself; and the advice is sound: in a source with the same tokens before the place and one of the tokens named in X at the place, whatever follows, no message is about the token at that place. The same holds of 'expected X, but reached end of file' (unless X is the end of a string or of a comment): it depends only on the tokens of the file, every alternative in X stands for some token, and in a source that goes on, after the same tokens, with a token named in X, no message is about that token. This holds for every message of an error, also after earlier errors and recovery.", "quantifier": "every source that fails to parse, every message about a token or the end of the file in the error, and every pair of sources that agree up to that place", "why_tests_cant": "each message is written by hand at the place where a branch fails and can drift from the branches the parser really has; the claim ranges over all states of the grammar, all prefixes and all continuations", "anchors": ["protox-parse/src/parse/mod.rs: unexpected_token, fmt_expected, ExpectedToken, all parse_* methods", "protox-parse/src/error.rs: ParseErrorKind::UnexpectedToken, ParseErrorKind::UnexpectedEof"]}
{"id": "C64", "title": "What comes before the first unexpected token is the beginning of a file", "statement": "When the first diagnostic about tokens (of the lexer or of the parser) says 'expected X, but found Y' about the token at offset n, the parser has not gone down a dead end and has not overlooked an error before it: there is a text with which the first n bytes of the source can be continued so that no diagnostic about the grammar is left (no invalid token, no unexpected token, no unexpected end of file, no unknown syntax). Likewise, when the first diagnostic about tokens is 'expected X, but reached end of file' (unless X is the end of a string or of a comment), the source can be continued in this way. Together with C61 (no continuation makes a file of the source up to and including Y) the token blamed first is exactly where the source stops being the beginning of a file.", "quantifier": "every source that fails to parse with such a first diagnostic, also after diagnostics of other kinds (bad import path, bad identifier in a string, duplicate package, bad UTF-8)", "why_tests_cant": "the claim is about the existence of a continuation for every prefix at which any of the grammar methods can fail, at every depth of nesting", "anchors": ["protox-parse/src/parse/mod.rs: all parse_* methods, unexpected_token", "protox-parse/src/lex/mod.rs: Token (tokens before the cut are lexed as before)", "protox-parse/src/error.rs: ParseErrorKind::UnexpectedToken, ParseErrorKind::UnexpectedEof"]}
{"id": "C65", "title": "The rules for descriptors are complete", "statement": "The descriptor that parse returns is fixed by rules that can be read without the code. There is a list of rules (Spec/Describes.lean) for every field of every element of a file descriptor - file, messages, groups, map entries, fields, extensions, oneofs real and synthetic, enums, ranges, services, methods, options, defaults, JSON names, source locations - in terms of the written file. (1) Whenever parse accepts a source, the source has exactly one syntax tree with places and comments, it violates no rule of C53, and the descriptor returned obeys all the rules. (2) Conversely, for a source that is not too long, lexes without errors and has a tree that violates no rule, parse returns a descriptor, and any descriptor that obeys the rules is equal to it, except that source locations with the same path may be in another order. Hence nothing in the descriptor is left unsaid.", "quantifier": "all sources and file names, all accepted inputs, all descriptors", "why_tests_cant": "comparing outputs on samples cannot show that no field of the descriptor, at any depth, is unconstrained, nor that the rules have exactly one solution for every tree", "anchors": ["protox-parse/src/lib.rs: parse", "protox-parse/src/generate/mod.rs: generate_file and all generate_* methods", "protox-parse/src/parse/mod.rs: parse_file"]}
{"id": "C66", "title": "The output of compile is the depth-first walk over the imports", "statement": "compile returns a given list of files if and only if: every path given has a name (by the resolver or by itself) and the file of that name is not another one that shadows it; and the list is the walk over these names in the order given, where a name that is already in the list is passed over, and any other name is a file that exists, parses and lists no import twice, whose imports are walked first in the order in which it lists them, and which then goes to the end of the list as what the descriptor pool makes of it given all files before. There is at most one such list. The order of the names depends on the imports only, not on the descriptor pool. Compiling the same names again from nothing but the list itself (DescriptorSetFileResolver) gives the same list, and so does opening the files of the list one by one, if the pool leaves what it made as it is.", "quantifier": "all file systems, include paths, lists of files, descriptor pools that keep names and imports, any depth of imports", "why_tests_cant": "it is an equivalence over all import graphs and argument lists; tests compare a few outputs and cannot show that no other order, file or failure occurs", "anchors": ["protox/src/lib.rs: compile", "protox/src/compile/mod.rs: Compiler::open_file, add_import, file_descriptor_set", "protox/src/file/descriptor_set.rs: DescriptorSetFileResolver::open_file"]}
{"id": "C67", "title": "The error of compile is the first obstacle on the walk", "statement": "compile returns a given error if and only if it is the first obstacle met on the walk of C66: the paths before some path are done, and for this path it has no name, or its file is not there, cannot be opened or is shadowed, or the walk into it meets a problem; a walk meets a problem at a file if the file is on the way already (the error shows the way), cannot be opened, or, at the first import for which this is so, the import is listed for the second time, is not there (the error shows the importing file and points at the import) or itself meets a problem, or if all imports are done and the descriptor pool rejects the file. There is at most one such error, none if compile succeeds, and if the file system has finitely many texts there is an output or an error. Files listed after the obstacle do not change the error. The same holds for every call of open_file and open_files after any history of calls: it succeeds with, or fails and leaves behind, exactly the files that the walk on top of the files already there has done.", "quantifier": "all file systems, include paths, lists of files, histories of calls, descriptor pools that keep names and imports, any depth of imports", "why_tests_cant": "which of several problems is reported depends on the whole import graph and on what was opened before; tests cover a few graphs with one problem each", "anchors": ["protox/src/lib.rs: compile", "protox/src/compile/mod.rs: Compiler::open_file, open_files, add_import, check_file", "protox/src/error.rs: into_import_error, duplicated_import"]}
{"id": "C68", "title": "Top-level declarations are independent of each other", "statement": "If a source has a syntax tree, the diagnostics are those of its first top-level declaration, of the second, and so on, and then those of the options of the file, where the diagnostics of a declaration are the violations in a file that has nothing but this declaration and the same syntax. If it is accepted, the messages, enums, services and extensions of the descriptor are what the declarations give one by one in their order, and what a declaration gives depends on its text (without positions and comments) and the syntax of the file only: not on other declarations, the package, imports, options or the name of the file. So leaving out declarations or options of an accepted file, or reordering declarations, gives an accepted file, and reordering permutes the descriptors. The name under which a source is parsed is copied into the descriptor or the error and has no other effect.", "quantifier": "all sources that have a syntax tree (for the name: all sources), all names", "why_tests_cant": "independence is a statement about all combinations of declarations; tests look at a few files and a counter or flag carried over from one declaration to the next shows only in some combinations", "anchors": ["protox-parse/src/generate/mod.rs: generate_file_descriptor", "protox-parse/src/lib.rs: parse"]}
{"id": "C69", "title": "What an error prints", "statement": "If compile fails, the texts of the error (Display and Debug) are true of the files: 'file P is not in any include path' only for a given path P without name or file; 'path P is shadowed by A' only if the name of P stands for the other file A; 'error opening file', 'is too large' and 'is not valid utf-8' with the file whose reading went that way; 'import D not found' and 'was listed twice' only if a file that is given or imported has this import and D is not there, or is among the imports before it; 'import cycle detected: a -> b -> c -> b' only if these files import each other in this order, from a given one on; what the descriptor pool says about a file that was handed to it; else the message of the first diagnostic of a file that does not parse. Debug puts 'file:line:column: ' in front of a diagnostic, with the name of the file that has it and the line and column (from one) of the place of the diagnostic, which is always inside the source, except for the end of file, a second package and oversized files, which have no place; and in front of an error about an import, with the place of the import statement if this is on one line with ASCII text before it, else without a place or (after other text) with one that may be off. `Error::file` names the file the text is about: the one that cannot be read or parsed, the one that has the import statement, the one that closes the circle, the shadowed name; none for a path that has no file.", "quantifier": "all sources, file systems, include paths, lists of files; line and column are miette's (a parameter that must be able to show every span inside the source)", "why_tests_cant": "the texts depend on the whole import graph and on positions in arbitrary sources; tests snapshot a few messages", "anchors": ["protox-parse/src/error.rs: ParseError Debug, Display", "protox/src/error.rs: Error Debug, Display, into_import_error, duplicated_import", "protox/src/compile/mod.rs: check_shadow, Compiler::open_file", "protox-parse/src/parse/mod.rs: fmt_expected"]}
{"id": "C70", "title": "A file is the sequence of its statements: texts can be put together and taken apart", "statement": "If a source a is accepted, and a source b is accepted when it is put after the syntax statement of a, and not both have a package statement, then a followed by b on a new line is accepted, and its descriptor has the imports, messages, enums, services, extensions and options of a followed by those of b (indices of public and weak imports counted on), the package of the one that has one, and the syntax of a. Conversely, if a has at least one token and is syntactically a file, and a followed by b on a new line is accepted, then a is accepted and b after the syntax statement of a, not both have a package, and the descriptor is put together in this way. So nothing of a reaches into b: no comment at its end, no aggregate option value (in which the lexer accepts other tokens), no open block.", "quantifier": "all sources a and b of together at most 2^31-1 bytes, all file names", "why_tests_cant": "a statement about every pair of texts, and about the state of lexer and parser at every place where a file can be cut", "anchors": ["protox-parse/src/lex/mod.rs: next_token, TextFormat state", "protox-parse/src/parse/mod.rs: parse_file, parse_option, set_text_format_mode", "protox-parse/src/generate/mod.rs: generate_file_descriptor"]}
{"id": "C71", "title": "Each violation is reported once", "statement": "For a source with a syntax tree that breaks rules, the error lists each diagnostic once; only a diagnostic about a bad option of an `extensions` statement is listed as often as the statement has ranges (a finding: the options are generated anew for each range).", "quantifier": "all sources of at most 2^31-1 bytes that can be lexed and have a syntax tree, all names, all diagnostics", "why_tests_cant": "tests see a few files; that two rules, or two passes over the same node, never report the same thing is a statement about all combinations of labels, options, scopes and nesting", "anchors": ["protox-parse/src/generate/mod.rs: generate_file_descriptor, generate_field_descriptor, generate_message_extension_range", "protox-parse/src/error.rs: ParseError"]}
{"id": "C72", "title": "Every file is read at most once, and what was read is what is used", "statement": "One call of `open_file` asks the resolver for no file twice and for no file the compiler already has. After any history of calls, each file the compiler has is the answer to the last time it was asked for, also with a resolver whose answers change from call to call (files that appear or change while the compiler runs): its path and descriptor come from this one answer, linked against the files before it. A compiler of which k calls failed has asked for no file more than k+1 times; without failures it has asked for each of its files exactly once and for no other.", "quantifier": "all resolvers, pure or changing over time, all lawful linkers, all histories of successful and failed calls, all file names", "why_tests_cant": "tests use resolvers that give the same answer each time and check a few import graphs; double reads show only when a file is reached along several paths, after failures, or when it changes in between", "anchors": ["protox/src/compile/mod.rs: Compiler::open_file, Compiler::add_import, Compiler::open_files", "protox/src/file/mod.rs: FileResolver"]}
{"id": "C73", "title": "Diagnostics mean what they say", "statement": "The message, the help text and the places of every diagnostic of a source file state a fact about that file. If the file lexes and has a syntax tree, what is shown is exactly what the rules say of the tree: e.g. 'enum numbers must be between A and B' is shown at a number if and only if the number is not between A and B, for the A and B in the text; values, types and kinds named in a text are those of the construct pointed to. If the file is not read, each text is about the size of the file, about one token as it is written at the place ('integer is too large': its digits are a number of 2^64 or more; 'invalid string escape': a backslash that begins no escape; 'unterminated string': the line ends inside it; ...) or about the tokens at the place ('multiple package names specified': two package declarations at the two places; 'unknown syntax X': the strings after `syntax =` give X; ...).", "quantifier": "all source texts, all diagnostics reported about them", "why_tests_cant": "snapshot tests fix the text of some errors for some inputs; that the text is true of the source for every input, with the bounds that are checked, needs the grammar of lexemes and the rules", "anchors": ["protox-parse/src/error.rs: ParseErrorKind", "protox-parse/src/lex/mod.rs", "protox-parse/src/parse/mod.rs", "protox-parse/src/generate/mod.rs"]}
{"id": "C74", "title": "Settings can be made at any time, and only the last ones count", "statement": "In any sequence of calls to a compiler, the calls of `include_imports` and `include_source_info` change nothing about the other calls: the outcomes of `open_file`/`open_files` and what `files()` lists are those of the sequence without them. The output of `file_descriptor_set()` at the end is the full output (all files, with source information), less the files that are only imported unless the last call of `include_imports` gave true, and less the source information unless the last call of `include_source_info` gave true; a compiler on which they were never called leaves out both.", "quantifier": "all resolvers (also those that change their answers), all lawful linkers, all sequences of calls, successful and failed, in any order", "why_tests_cant": "a test fixes one order of calls; that a setting made before, between or after any openings has the same effect is a statement about all sequences", "anchors": ["protox/src/compile/mod.rs: Compiler::include_imports, Compiler::include_source_info, Compiler::with_file_resolver, Compiler::file_descriptor_set, Compiler::files, Compiler::open_file"]}
{"id": "C75", "title": "Windows line endings make no difference", "statement": "Two sources that are the same text up to line endings (replacing every `\\r\\n` by `\\n` gives the same bytes, the two may mix the forms as they like) are accepted or rejected by `parse` alike, and when accepted have exactly the same file descriptor, with the same source locations (lines and columns) and the same comment texts. In particular a file without carriage returns and the same file saved with `\\r\\n` everywhere have the same descriptor.", "quantifier": "all pairs of sources of at most 2^31-1 bytes with the same Unix form, all mixtures of endings, inside comments, strings and between tokens", "why_tests_cant": "a test converts the endings of one file; carriage returns interact with the blanks a block comment takes along, with comment texts, with indentation stripping, with lookahead in numbers and with column counting, in every combination", "anchors": ["protox-parse/src/lex/mod.rs: #[logos(skip)], line_comment, block_comment, normalize_newlines", "protox-parse/src/generate/lines.rs: LineResolver", "protox-parse/src/lib.rs: parse"]}
{"id": "C76", "title": "The error about a shadowed file is true, and its advice helps", "statement": "If `compile` returns \"path P is shadowed by S\", then P is one of the paths passed, it is called n in the first include directory it lies below, and the file that the include directories have under the name n is S, which is not P; a single path in this situation always gives the error. Passing S instead, as the help says, never gives the error for S if no include directory lies below another one; in general, doing so repeatedly ends at a path that is not shadowed (on a file system that does not tell apart spellings of a path). Putting the include directory of P first, as the help also says, makes P open the file at P if there is one; if there is none, it does not help.", "quantifier": "all file systems, include lists (nested or not), lists of files, lawful linkers and recursion depths", "why_tests_cant": "a test tries two directories and one file; whether the advice helps depends on the order, on nesting of the directories and on which of the files exist, in every combination", "anchors": ["protox/src/error.rs: ErrorKind::FileShadowed", "protox/src/file/include.rs: check_shadow, path_eq, IncludeFileResolver::resolve_path", "protox/src/compile/mod.rs: Compiler::open_file", "protox/src/file/chain.rs: ChainFileResolver"]}
{"id": "C77", "title": "Source locations nest like the elements do", "statement": "In the source info of an accepted file, whenever the path of one location continues the path of another (a field of a message, a name of a field, an element of a block of `extend`, `reserved`, `extensions` or `option` statements), its text lies inside the text of a location with the shorter path. The only exceptions are the location of the extended type of an extension field, which stands in front of the fields of an `extend` block, and the locations of the options of an extension range, which follow all the ranges of their statement.", "quantifier": "all sources that `parse` accepts, all pairs of locations in the result", "why_tests_cant": "nesting depth, number of statements sharing a path and layout are unbounded; an editor that looks up the element at a cursor relies on it for every file", "anchors": ["protox-parse/src/generate/mod.rs: Context::add_span, add_span_for, add_comments_for", "protox-parse/src/ast/mod.rs: span fields", "protox-parse/src/parse/mod.rs: join_span calls"]}
{"id": "C78", "title": "The source locations of the elements of a list follow each other in the order of the list", "statement": "In the source info of an accepted file, take the fields, extensions, oneofs, messages, enums, values, services, methods, dependencies, reserved ranges, reserved names or extension ranges of one message, enum, service or file (locations whose path is the path of the container followed by the number of the field and an index). Locations with the same index are the same one, whichever statements the elements are spread over, and the text of an element ends before the text of those with a greater index begins.", "quantifier": "all sources that `parse` accepts, all containers at any depth, all pairs of elements of one list", "why_tests_cant": "indices are counted across statements, oneofs, groups and nesting levels; a counter that starts over, skips or is shared between lists misplaces elements only for particular combinations, and an outline or a formatter that sorts by index relies on it for every file", "anchors": ["protox-parse/src/generate/mod.rs: generate_message_body, Context::path", "protox-parse/src/generate/mod.rs: nested message and extension indices"]}
{"id": "C79", "title": "The text at a source location spells what the descriptor says", "statement": "In the source info of an accepted file, every location leads to a place in the source whose tokens, without comments and newlines, spell the value that the descriptor has at the path of the location: the name of a message, group, field, oneof, enum, enum value, service or method (in lower case for a group field), the number of a field or enum value, its label, the keyword of a scalar type or of `group`, the type name, the extended type, the JSON name, the default of a string, boolean or integer, a reserved or extension range and its first and last number (`max` for the largest), a reserved name, the types of a method and its `stream` keywords, an option with the parts of its name and its value, the path of an import and its `public` or `weak`, the package, and the syntax. The text of a message, group, enum, service, oneof or method begins with its keyword and its name; that of a field or enum value holds its name, an equals sign and its number.", "quantifier": "all sources that `parse` accepts, all locations in the result", "why_tests_cant": "layout, comments, escapes, literal styles, nesting and the position of every element are unbounded; a rename, a jump to a definition or an error underline built on the locations relies on it for every file", "anchors": ["protox-parse/src/generate/mod.rs: Context::add_span, add_span_for", "protox-parse/src/generate/mod.rs: generate_field_descriptor, generate_method_descriptor, generate_enum_descriptor", "protox-parse/src/parse/mod.rs: spans of ast nodes", "protox-parse/src/ast/mod.rs: span fields"]}
