{
 "claims": [
  {
   "property": "C01",
   "status": "proved",
   "theorems": [
    "Verif.Compiler.C01_topological",
    "Verif.Compiler.C01_files_same_order"
   ],
   "note": ""
  },
  {
   "property": "C02",
   "status": "proved",
   "theorems": [
    "Verif.Compiler.C02_no_duplicates"
   ],
   "note": ""
  },
  {
   "property": "C03",
   "status": "proved",
   "theorems": [
    "Verif.Compiler.C03_closed"
   ],
   "note": ""
  },
  {
   "property": "C04",
   "status": "proved",
   "theorems": [
    "Verif.Compiler.C04_selection",
    "Verif.Compiler.C04_is_import_iff"
   ],
   "note": ""
  },
  {
   "property": "C05",
   "status": "proved",
   "theorems": [
    "Verif.Compiler.C05_source_info"
   ],
   "note": ""
  },
  {
   "property": "C06",
   "status": "proved",
   "theorems": [
    "Verif.Compiler.C06_success_acyclic",
    "Verif.Compiler.C06_cycle_rejected",
    "Verif.Compiler.C06_cycle_text"
   ],
   "note": ""
  },
  {
   "property": "C07",
   "status": "proved",
   "theorems": [
    "Verif.Compiler.C07_terminates",
    "Verif.Compiler.C07_result_independent_of_bound",
    "Verif.Compiler.C07_no_panic"
   ],
   "note": "recursion depth bounded by the number of reachable names; machine stack size not modelled"
  },
  {
   "property": "C08",
   "status": "proved",
   "theorems": [
    "Verif.Compiler.C08_never_held",
    "Verif.Compiler.C08_open_fails",
    "Verif.Compiler.C08_error"
   ],
   "note": ""
  },
  {
   "property": "C09",
   "status": "proved",
   "theorems": [
    "Verif.Compiler.C09_classification",
    "Verif.Compiler.C09_is_file_not_found"
   ],
   "note": ""
  },
  {
   "property": "C10",
   "status": "proved",
   "theorems": [
    "Verif.Compiler.C10_reopen",
    "Verif.Compiler.C10_idempotent"
   ],
   "note": ""
  },
  {
   "property": "C11",
   "status": "proved",
   "theorems": [
    "Verif.Compiler.C11_failure_keeps"
   ],
   "note": ""
  },
  {
   "property": "C12",
   "status": "proved",
   "theorems": [
    "Verif.Compiler.C12_no_panic",
    "Verif.Compiler.Demo.C12_misnamed_panics"
   ],
   "note": ""
  },
  {
   "property": "C13",
   "status": "proved",
   "theorems": [
    "Verif.Compiler.C13_valid_accepted"
   ],
   "note": ""
  },
  {
   "property": "C14",
   "status": "proved",
   "theorems": [
    "Verif.Compiler.C14_order_independent"
   ],
   "note": "the linker is assumed deterministic in the transitive imports (external crate)"
  },
  {
   "property": "C15",
   "status": "proved",
   "theorems": [
    "Verif.Compiler.C15_open_files_append",
    "Verif.Compiler.C15_open_files_first_error"
   ],
   "note": ""
  },
  {
   "property": "C16",
   "status": "proved",
   "theorems": [
    "Verif.C16_first_hit",
    "Verif.C16_resolve_first",
    "Verif.C16_resolve_none"
   ],
   "note": "later resolvers are irrelevant to the answer; side effects of custom resolvers are not modelled"
  },
  {
   "property": "C17",
   "status": "proved",
   "theorems": [
    "Verif.C17_error_not_masked",
    "Verif.C17_all_missing",
    "Verif.C17_missing_only_if_all"
   ],
   "note": ""
  },
  {
   "property": "C18",
   "status": "proved",
   "theorems": [
    "Verif.C18_first_include",
    "Verif.C18_fallback",
    "Verif.C18_twelve",
    "Verif.C18_resolve"
   ],
   "note": ""
  },
  {
   "property": "C19",
   "status": "proved",
   "theorems": [
    "Verif.Path.C19_resolve_path_iff",
    "Verif.Path.C19_name_canonical",
    "Verif.Path.C19_no_name_for_parent"
   ],
   "note": ""
  },
  {
   "property": "C20",
   "status": "proved",
   "theorems": [
    "Verif.Path.C20_resolve_open_agree",
    "Verif.Path.C20_resolve_complete"
   ],
   "note": ""
  },
  {
   "property": "C21",
   "status": "proved",
   "theorems": [
    "Verif.Compiler.C21_not_shadowed",
    "Verif.Compiler.C21_shadow_reported",
    "Verif.Path.C21_path_eq_iff"
   ],
   "note": ""
  },
  {
   "property": "C22",
   "status": "proved",
   "theorems": [
    "Verif.Path.C22_import_stays_below"
   ],
   "note": ""
  },
  {
   "property": "C23",
   "status": "proved",
   "theorems": [
    "Verif.Wire.C23_decode_exact",
    "Verif.Wire.C23_decode_file",
    "Verif.Wire.C23_open_original_bytes"
   ],
   "note": "prost wire primitives modelled from their published source; FileDescriptorProto::decode is a parameter"
  },
  {
   "property": "C24",
   "status": "proved",
   "theorems": [
    "Verif.Wire.C24_safe",
    "Verif.Wire.C24_terminates",
    "Verif.Wire.C24_underflow",
    "Verif.Wire.C24_bad_key",
    "Verif.Wire.C24_wrong_end",
    "Verif.Wire.C24_unclosed",
    "Verif.Wire.C24_too_deep",
    "Verif.Wire.C24_file_wire_type"
   ],
   "note": ""
  },
  {
   "property": "C25",
   "status": "proved",
   "theorems": [
    "Verif.C25_lookup"
   ],
   "note": ""
  },
  {
   "property": "C26",
   "status": "proved",
   "theorems": [
    "Verif.C26_open_bounded",
    "Verif.C26_parse_bounded"
   ],
   "note": ""
  },
  {
   "property": "C27",
   "status": "proved",
   "theorems": [
    "Verif.C27_parse_total",
    "Verif.C27_parseFn"
   ],
   "note": "recursion depth (machine stack) is not modelled"
  },
  {
   "property": "C28",
   "status": "proved",
   "theorems": [
    "Verif.C28_at_least_one_error"
   ],
   "note": ""
  },
  {
   "property": "C29",
   "status": "proved",
   "theorems": [
    "Verif.C29_error_spans",
    "Verif.C29_error_source"
   ],
   "note": ""
  },
  {
   "property": "C30",
   "status": "proved",
   "theorems": [
    "Verif.C30_line_column",
    "Verif.C30_span_encoding",
    "Verif.C30_injective"
   ],
   "note": "slice::binary_search is used through its contract"
  },
  {
   "property": "C31",
   "status": "proved",
   "theorems": [
    "Verif.C31_locations",
    "Verif.C31_ordered"
   ],
   "note": ""
  },
  {
   "property": "C32",
   "status": "proved",
   "theorems": [
    "Verif.C32_literals",
    "Verif.C32_conversions"
   ],
   "note": ""
  },
  {
   "property": "C33",
   "status": "proved",
   "theorems": [
    "Verif.C33_numbers",
    "Verif.C33_all_numbers"
   ],
   "note": ""
  },
  {
   "property": "C34",
   "status": "proved",
   "theorems": [
    "Verif.C34_message_ranges",
    "Verif.C34_enum_ranges"
   ],
   "note": ""
  },
  {
   "property": "C35",
   "status": "proved",
   "theorems": [
    "Verif.C35_integer_defaults",
    "Verif.C35_accepted_iff"
   ],
   "note": ""
  },
  {
   "property": "C36",
   "status": "proved",
   "theorems": [
    "Verif.C36_defaults",
    "Verif.C36_tokens"
   ],
   "note": ""
  },
  {
   "property": "C37",
   "status": "proved",
   "theorems": [
    "Verif.C37_literals",
    "Verif.C37_options",
    "Verif.C37_imports",
    "Verif.C37_defaults"
   ],
   "note": ""
  },
  {
   "property": "C38",
   "status": "proved",
   "theorems": [
    "Verif.C38_oneofs",
    "Verif.C38_indices"
   ],
   "note": ""
  },
  {
   "property": "C39",
   "status": "proved",
   "theorems": [
    "Verif.C39_maps"
   ],
   "note": ""
  },
  {
   "property": "C40",
   "status": "proved",
   "theorems": [
    "Verif.C40_groups"
   ],
   "note": ""
  },
  {
   "property": "C41",
   "status": "proved",
   "theorems": [
    "Verif.C41_labels"
   ],
   "note": ""
  },
  {
   "property": "C42",
   "status": "proved",
   "theorems": [
    "Verif.C42_imports",
    "Verif.C42_indices"
   ],
   "note": ""
  },
  {
   "property": "C43",
   "status": "proved",
   "theorems": [
    "Verif.C43_locations",
    "Verif.C43_once"
   ],
   "note": "spans and comments are those of the unique tree of the source (PlacedTree)"
  },
  {
   "property": "C44",
   "status": "proved",
   "theorems": [
    "Verif.C44_paths"
   ],
   "note": ""
  },
  {
   "property": "C45",
   "status": "proved",
   "theorems": [
    "Verif.C45_file",
    "Verif.C45_messages",
    "Verif.C45_enums",
    "Verif.C45_services",
    "Verif.C45_fields"
   ],
   "note": "floating point values are symbolic"
  },
  {
   "property": "C46",
   "status": "proved",
   "theorems": [
    "Verif.C46_aggregates"
   ],
   "note": "floating point formatting is a parameter: re-lexing is proved when each float literal prints as a float literal (an overflowing literal prints as inf and does not)"
  },
  {
   "property": "C47",
   "status": "proved",
   "theorems": [
    "Verif.C47_locations",
    "Verif.C47_gaps",
    "Verif.C47_conserved",
    "Verif.C47_leading",
    "Verif.C47_trailing",
    "Verif.C47_once"
   ],
   "note": "locations have the comments of their tokens; the comments of a gap are split once, in order; with C43 every element has its comments"
  },
  {
   "property": "C48",
   "status": "proved",
   "theorems": [
    "Verif.C48_same_descriptor",
    "Verif.C48_same_acceptance"
   ],
   "note": "well-formed comments: the other source lexes without errors"
  },
  {
   "property": "C49",
   "status": "proved",
   "theorems": [
    "Verif.C49_accepts",
    "Verif.C49_tree",
    "Verif.C49_exact",
    "Verif.C49_one_tree",
    "Verif.C49_unambiguous",
    "Verif.C49_rejects"
   ],
   "note": ""
  },
  {
   "property": "C50",
   "status": "proved",
   "theorems": [
    "Verif.C50_spans",
    "Verif.C50_longest",
    "Verif.C50_texts"
   ],
   "note": ""
  },
  {
   "property": "C51",
   "status": "proved",
   "theorems": [
    "Verif.C51_imports",
    "Verif.C51_groups",
    "Verif.C51_reserved",
    "Verif.C51_package"
   ],
   "note": ""
  },
  {
   "property": "C52",
   "status": "proved",
   "theorems": [
    "Verif.C52_file",
    "Verif.C52_messages",
    "Verif.C52_fields",
    "Verif.C52_enums",
    "Verif.C52_services"
   ],
   "note": ""
  },
  {
   "property": "C53",
   "status": "proved",
   "theorems": [
    "Verif.C53_accepts",
    "Verif.C53_diagnostics",
    "Verif.C53_justified"
   ],
   "note": "as a set of diagnostics: order and repetition are not stated"
  },
  {
   "property": "C54",
   "status": "proved",
   "theorems": [
    "Verif.C54_no_panic",
    "Verif.C54_terminates",
    "Verif.C54_success",
    "Verif.C54_accepts"
   ],
   "note": "relative to the contract of the descriptor pool (Linker.Lawful)"
  },
  {
   "property": "C55",
   "status": "proved",
   "theorems": [
    "Verif.C55_encodes"
   ],
   "note": "relative to the contract of the external encoders (Codec.Faithful)"
  },
  {
   "property": "C56",
   "status": "proved",
   "theorems": [
    "Verif.C56_import_span"
   ],
   "note": ""
  },
  {
   "property": "C57",
   "status": "proved",
   "theorems": [
    "Verif.C57_justified",
    "Verif.C57_opens",
    "Verif.C57_wrapped",
    "Verif.C57_classes",
    "Verif.C57_parse_io",
    "Verif.C57_not_found"
   ],
   "note": ""
  },
  {
   "property": "C58",
   "status": "proved",
   "theorems": [
    "Verif.C58_tool",
    "Verif.C58_self_contained",
    "Verif.C58_no_panic"
   ],
   "note": "after argument parsing (clap), up to the outcome of the write itself"
  },
  {
   "property": "C59",
   "status": "proved",
   "theorems": [
    "Verif.C59_confined",
    "Verif.C59_below",
    "Verif.C59_names"
   ],
   "note": "symbolic links are resolved by the file system and are not part of the statement"
  },
  {
   "property": "C60",
   "status": "proved",
   "theorems": [
    "Verif.C60_text",
    "Verif.C60_tokens",
    "Verif.C60_errors",
    "Verif.C60_locations"
   ],
   "note": "text is the encoding of a list of scalar values; C60_text relates it to from_utf8 and is_char_boundary"
  },
  {
   "property": "C61",
   "status": "proved",
   "theorems": [
    "Verif.C61_token",
    "Verif.C61_order",
    "Verif.C61_first"
   ],
   "note": "what the messages say was expected: C63"
  },
  {
   "property": "C62",
   "status": "proved",
   "theorems": [
    "Verif.C62_rejected",
    "Verif.C62_prefix",
    "Verif.C62_all"
   ],
   "note": ""
  },
  {
   "property": "C63",
   "status": "proved",
   "theorems": [
    "Verif.C63_determined",
    "Verif.C63_suggestion",
    "Verif.C63_honest",
    "Verif.C63_words",
    "Verif.C63_end_determined",
    "Verif.C63_end_suggestion",
    "Verif.C63_end_words"
   ],
   "note": "the converse (every token that would be taken is named) is false of the code: some lists are incomplete, see DESIGN"
  },
  {
   "property": "C64",
   "status": "proved",
   "theorems": [
    "Verif.C64_viable",
    "Verif.C64_viable_end"
   ],
   "note": "the continuation may leave diagnostics that no continuation can avoid (a second package statement, an invalid import path); the notion of a diagnostic about the grammar is Spec/Viable.lean: ungrammatical"
  },
  {
   "property": "C65",
   "status": "proved",
   "theorems": [
    "Verif.C65_correct",
    "Verif.C65_complete",
    "Verif.Spec.describes_unique"
   ],
   "note": "fields of descriptor.proto that protox never sets are not in the model; floating point formatting is a parameter"
  },
  {
   "property": "C66",
   "status": "proved",
   "theorems": [
    "Verif.C66_exact",
    "Verif.C66_unique",
    "Verif.C66_order",
    "Verif.C66_walk",
    "Verif.C66_depth",
    "Verif.C66_reload"
   ],
   "note": "for a resolver that does not change its answers; the descriptor pool is a parameter that keeps names and imports; recompilation from the output needs that the pool leaves its own output as it is (Relinks)"
  },
  {
   "property": "C67",
   "status": "proved",
   "theorems": [
    "Verif.C67_exact",
    "Verif.C67_unique",
    "Verif.C67_total",
    "Verif.C67_rest",
    "Verif.C67_api",
    "Verif.C67_walk",
    "Verif.C67_depth"
   ],
   "note": "for a resolver that does not change its answers; the descriptor pool is a parameter; the text with which the pool decorates its errors is not modelled"
  },
  {
   "property": "C68",
   "status": "proved",
   "theorems": [
    "Verif.C68_diagnostics",
    "Verif.C68_assembled",
    "Verif.C68_subset",
    "Verif.C68_reorder",
    "Verif.C68_name"
   ],
   "note": "sourceCodeInfo is not in C68_assembled (it is about places, C43); floating point formatting is a parameter"
  },
  {
   "property": "C69",
   "status": "proved",
   "theorems": [
    "Verif.C69_parse",
    "Verif.C69_compile"
   ],
   "note": "line and column (miette) and the texts of errors from outside (descriptor pool, std::io) are parameters; paths that are not UTF-8 are not modelled"
  },
  {
   "property": "C70",
   "status": "proved",
   "theorems": [
    "Verif.C70_append",
    "Verif.C70_split"
   ],
   "note": "source locations of the combined file are not compared; C70_split needs at least one token in the first text, since a file of comments may be followed by a syntax statement"
  },
  {
   "property": "C71",
   "status": "proved",
   "theorems": [
    "Verif.C71_once",
    "Verif.C71_ranges"
   ],
   "note": "sources without a syntax tree (lexer and parser errors) are not covered"
  },
  {
   "property": "C72",
   "status": "proved",
   "theorems": [
    "Verif.Compiler.C72_call",
    "Verif.Compiler.C72_last",
    "Verif.Compiler.C72_walk",
    "Verif.Compiler.C72_count",
    "Verif.Compiler.C72_once"
   ],
   "note": "resolver and linker are parameters"
  },
  {
   "property": "C73",
   "status": "proved",
   "theorems": [
    "Verif.C73_rules",
    "Verif.C73_faults"
   ],
   "note": "what exactly is expected in \"expected X, but found Y\" is the subject of C63 and C64; for sources that are not read only the truth of what is said is claimed, not that everything is said; text snippets and labels drawn by miette are not modelled"
  },
  {
   "property": "C74",
   "status": "proved",
   "theorems": [
    "Verif.C74_opening",
    "Verif.C74_output"
   ],
   "note": "resolver and linker are parameters; encode_file_descriptor_set gives the same set (C55)"
  },
  {
   "property": "C75",
   "status": "proved",
   "theorems": [
    "Verif.C75_endings",
    "Verif.C75_windows"
   ],
   "note": "sources of at most 2^31-1 bytes, both; the byte spans and texts of diagnostics of rejected sources are not compared"
  },
  {
   "property": "C76",
   "status": "proved",
   "theorems": [
    "Verif.C76_true",
    "Verif.C76_exact",
    "Verif.C76_advice",
    "Verif.C76_pass",
    "Verif.C76_ends",
    "Verif.C76_reorder",
    "Verif.C76_missing"
   ],
   "note": "fixed file system and default resolver; Unix paths; linker is a parameter"
  },
  {
   "property": "C77",
   "status": "proved",
   "theorems": [
    "Verif.C77_nested",
    "Verif.C77_one"
   ],
   "note": "order of locations is a parameter (`LocSort`); positions are lines and columns as recorded"
  },
  {
   "property": "C78",
   "status": "proved",
   "theorems": [
    "Verif.C78_order"
   ],
   "note": "order of locations is a parameter (`LocSort`); which locations there are is C43"
  },
  {
   "property": "C79",
   "status": "proved",
   "theorems": [
    "Verif.C79_spelled"
   ],
   "note": "order of locations is a parameter (`LocSort`); nothing is said of defaults of floating point, bytes and enum fields, of the text inside aggregate values, and of the locations of whole statements and option lists (C43, C47, C49)"
  }
 ]
}