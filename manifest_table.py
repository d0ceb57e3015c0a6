c('C19','proved',['Verif.Path.C19_resolve_path_iff','Verif.Path.C19_name_canonical','Verif.Path.C19_no_name_for_parent'])
c('C20','proved',['Verif.Path.C20_resolve_open_agree','Verif.Path.C20_resolve_complete'])
c('C22','proved',['Verif.Path.C22_import_stays_below'])
K='Verif.Compiler.'
c('C01','proved',[K+'C01_topological',K+'C01_files_same_order'])
c('C02','proved',[K+'C02_no_duplicates'])
c('C03','proved',[K+'C03_closed'])
c('C04','proved',[K+'C04_selection',K+'C04_is_import_iff'])
c('C05','proved',[K+'C05_source_info'])
c('C06','proved',[K+'C06_success_acyclic',K+'C06_cycle_rejected',K+'C06_cycle_text'])
c('C07','proved',[K+'C07_terminates',K+'C07_result_independent_of_bound',K+'C07_no_panic'],'recursion depth bounded by the number of reachable names; machine stack size not modelled')
c('C08','proved',[K+'C08_never_held',K+'C08_open_fails',K+'C08_error'])
c('C09','proved',[K+'C09_classification',K+'C09_is_file_not_found'])
c('C10','proved',[K+'C10_reopen',K+'C10_idempotent'])
c('C11','proved',[K+'C11_failure_keeps'])
c('C12','proved',[K+'C12_no_panic',K+'Demo.C12_misnamed_panics'])
c('C13','proved',[K+'C13_valid_accepted'])
c('C14','proved',[K+'C14_order_independent'],'the linker is assumed deterministic in the transitive imports (external crate)')
c('C15','proved',[K+'C15_open_files_append',K+'C15_open_files_first_error'])
c('C16','proved',['Verif.C16_first_hit','Verif.C16_resolve_first','Verif.C16_resolve_none'],'later resolvers are irrelevant to the answer; side effects of custom resolvers are not modelled')
c('C17','proved',['Verif.C17_error_not_masked','Verif.C17_all_missing','Verif.C17_missing_only_if_all'])
c('C18','proved',['Verif.C18_first_include','Verif.C18_fallback','Verif.C18_twelve','Verif.C18_resolve'])
c('C21','proved',[K+'C21_not_shadowed',K+'C21_shadow_reported','Verif.Path.C21_path_eq_iff'])
c('C25','proved',['Verif.C25_lookup'])
c('C26','proved',['Verif.C26_open_bounded','Verif.C26_parse_bounded'])
c('C27','proved',['Verif.C27_parse_total','Verif.C27_parseFn'],'recursion depth (machine stack) is not modelled')
c('C28','proved',['Verif.C28_at_least_one_error'])
c('C29','proved',['Verif.C29_error_spans','Verif.C29_error_source'])
c('C31','proved',['Verif.C31_locations','Verif.C31_ordered'])
c('C23','proved',['Verif.Wire.C23_decode_exact','Verif.Wire.C23_decode_file','Verif.Wire.C23_open_original_bytes'],'prost wire primitives modelled from their published source; FileDescriptorProto::decode is a parameter')
c('C24','proved',['Verif.Wire.C24_safe','Verif.Wire.C24_terminates','Verif.Wire.C24_underflow','Verif.Wire.C24_bad_key','Verif.Wire.C24_wrong_end','Verif.Wire.C24_unclosed','Verif.Wire.C24_too_deep','Verif.Wire.C24_file_wire_type'])
c('C30','proved',['Verif.C30_line_column','Verif.C30_span_encoding','Verif.C30_injective'],'slice::binary_search is used through its contract')
c('C33','proved',['Verif.C33_numbers','Verif.C33_all_numbers'])
c('C34','proved',['Verif.C34_message_ranges','Verif.C34_enum_ranges'])
c('C35','proved',['Verif.C35_integer_defaults','Verif.C35_accepted_iff'])
c('C38','proved',['Verif.C38_oneofs','Verif.C38_indices'])
c('C39','proved',['Verif.C39_maps'])
c('C40','proved',['Verif.C40_groups'])
c('C41','proved',['Verif.C41_labels'])
c('C42','proved',['Verif.C42_imports','Verif.C42_indices'])
c('C45','proved',['Verif.C45_file','Verif.C45_messages','Verif.C45_enums','Verif.C45_services','Verif.C45_fields'],'floating point values are symbolic')
c('C52','proved',['Verif.C52_file','Verif.C52_messages','Verif.C52_fields','Verif.C52_enums','Verif.C52_services'])
c('C43','proved',['Verif.C43_locations','Verif.C43_once'],'spans and comments are those of the unique tree of the source (PlacedTree)')
c('C44','proved',['Verif.C44_paths'])
c('C32','proved',['Verif.C32_literals','Verif.C32_conversions'])
c('C36','proved',['Verif.C36_defaults','Verif.C36_tokens'])
c('C37','proved',['Verif.C37_literals','Verif.C37_options','Verif.C37_imports','Verif.C37_defaults'])
c('C46','proved',['Verif.C46_aggregates'],'floating point formatting is a parameter: re-lexing is proved when each float literal prints as a float literal (an overflowing literal prints as inf and does not)')
c('C50','proved',['Verif.C50_spans','Verif.C50_longest','Verif.C50_texts'])
c('C51','proved',['Verif.C51_imports','Verif.C51_groups','Verif.C51_reserved','Verif.C51_package'])
c('C48','proved',['Verif.C48_same_descriptor','Verif.C48_same_acceptance'],'well-formed comments: the other source lexes without errors')
c('C49','proved',['Verif.C49_accepts','Verif.C49_tree','Verif.C49_exact','Verif.C49_one_tree','Verif.C49_unambiguous','Verif.C49_rejects'])
c('C47','proved',['Verif.C47_locations','Verif.C47_gaps','Verif.C47_conserved','Verif.C47_leading','Verif.C47_trailing','Verif.C47_once'],'locations have the comments of their tokens; the comments of a gap are split once, in order; with C43 every element has its comments')
c('C53','proved',['Verif.C53_accepts','Verif.C53_diagnostics','Verif.C53_justified'],'as a set of diagnostics: order and repetition are not stated')
c('C54','proved',['Verif.C54_no_panic','Verif.C54_terminates','Verif.C54_success','Verif.C54_accepts'],'relative to the contract of the descriptor pool (Linker.Lawful)')
c('C55','proved',['Verif.C55_encodes'],'relative to the contract of the external encoders (Codec.Faithful)')
c('C56','proved',['Verif.C56_import_span'])
c('C57','proved',['Verif.C57_justified','Verif.C57_opens','Verif.C57_wrapped','Verif.C57_classes','Verif.C57_parse_io','Verif.C57_not_found'])
c('C58','proved',['Verif.C58_tool','Verif.C58_self_contained','Verif.C58_no_panic'],'after argument parsing (clap), up to the outcome of the write itself')
c('C59','proved',['Verif.C59_confined','Verif.C59_below','Verif.C59_names'],'symbolic links are resolved by the file system and are not part of the statement')
c('C60','proved',['Verif.C60_text','Verif.C60_tokens','Verif.C60_errors','Verif.C60_locations'],'text is the encoding of a list of scalar values; C60_text relates it to from_utf8 and is_char_boundary')
c('C61','proved',['Verif.C61_token','Verif.C61_order','Verif.C61_first'],'what the messages say was expected: C63')
c('C62','proved',['Verif.C62_rejected','Verif.C62_prefix','Verif.C62_all'])
c('C63','proved',['Verif.C63_determined','Verif.C63_suggestion','Verif.C63_honest','Verif.C63_words','Verif.C63_end_determined','Verif.C63_end_suggestion','Verif.C63_end_words'],'the converse (every token that would be taken is named) is false of the code: some lists are incomplete, see DESIGN')
c('C64','proved',['Verif.C64_viable','Verif.C64_viable_end'],'the continuation may leave diagnostics that no continuation can avoid (a second package statement, an invalid import path); the notion of a diagnostic about the grammar is Spec/Viable.lean: ungrammatical')
c('C65','proved',['Verif.C65_correct','Verif.C65_complete','Verif.Spec.describes_unique'],'fields of descriptor.proto that protox never sets are not in the model; floating point formatting is a parameter')
c('C66','proved',['Verif.C66_exact','Verif.C66_unique','Verif.C66_order','Verif.C66_walk','Verif.C66_depth','Verif.C66_reload'],'for a resolver that does not change its answers; the descriptor pool is a parameter that keeps names and imports; recompilation from the output needs that the pool leaves its own output as it is (Relinks)')
c('C67','proved',['Verif.C67_exact','Verif.C67_unique','Verif.C67_total','Verif.C67_rest','Verif.C67_api','Verif.C67_walk','Verif.C67_depth'],'for a resolver that does not change its answers; the descriptor pool is a parameter; the text with which the pool decorates its errors is not modelled')
c('C68','proved',['Verif.C68_diagnostics','Verif.C68_assembled','Verif.C68_subset','Verif.C68_reorder','Verif.C68_name'],'sourceCodeInfo is not in C68_assembled (it is about places, C43); floating point formatting is a parameter')
c('C69','proved',['Verif.C69_parse','Verif.C69_compile'],'line and column (miette) and the texts of errors from outside (descriptor pool, std::io) are parameters; paths that are not UTF-8 are not modelled')
c('C70','proved',['Verif.C70_append','Verif.C70_split'],'source locations of the combined file are not compared; C70_split needs at least one token in the first text, since a file of comments may be followed by a syntax statement')
c('C71','proved',['Verif.C71_once','Verif.C71_ranges'],'sources without a syntax tree (lexer and parser errors) are not covered')
c('C72','proved',['Verif.Compiler.C72_call','Verif.Compiler.C72_last','Verif.Compiler.C72_walk','Verif.Compiler.C72_count','Verif.Compiler.C72_once'],'resolver and linker are parameters')
c('C73','proved',['Verif.C73_rules','Verif.C73_faults'],'what exactly is expected in "expected X, but found Y" is the subject of C63 and C64; for sources that are not read only the truth of what is said is claimed, not that everything is said; text snippets and labels drawn by miette are not modelled')
c('C74','proved',['Verif.C74_opening','Verif.C74_output'],'resolver and linker are parameters; encode_file_descriptor_set gives the same set (C55)')
c('C75','proved',['Verif.C75_endings','Verif.C75_windows'],'sources of at most 2^31-1 bytes, both; the byte spans and texts of diagnostics of rejected sources are not compared')
c('C76','proved',['Verif.C76_true','Verif.C76_exact','Verif.C76_advice','Verif.C76_pass','Verif.C76_ends','Verif.C76_reorder','Verif.C76_missing'],'fixed file system and default resolver; Unix paths; linker is a parameter')
c('C77','proved',['Verif.C77_nested','Verif.C77_one'],'order of locations is a parameter (`LocSort`); positions are lines and columns as recorded')
c('C78','proved',['Verif.C78_order'],'order of locations is a parameter (`LocSort`); which locations there are is C43')
c('C79','proved',['Verif.C79_spelled'],'order of locations is a parameter (`LocSort`); nothing is said of defaults of floating point, bytes and enum fields, of the text inside aggregate values, and of the locations of whole statements and option lists (C43, C47, C49)')
