{
 "claims": [
  {
   "property": "C01",
   "status": "proved",
   "theorems": [
    "OCA.C01_condition_read_back",
    "OCA.C01_condition_set_again",
    "OCA.C01_condition_storage_injective"
   ],
   "note": "Full: every text and every environment; injectivity included."
  },
  {
   "property": "C02",
   "status": "proved",
   "theorems": [
    "OCA.C02_dependencies_exact",
    "OCA.C02_indices_in_range",
    "OCA.Decomp.exists_unique"
   ],
   "note": "Full: every text. Decomp.exists_unique: the specification determines the pieces of every text."
  },
  {
   "property": "C03",
   "status": "proved",
   "theorems": [
    "OCA.C03_check_condition",
    "OCA.Decomp.exists_unique"
   ],
   "note": "Full: every attribute whose condition was set and every assignment; the Lua interpreter is an uninterpreted function of the script text."
  },
  {
   "property": "C04",
   "status": "proved",
   "theorems": [
    "OCA.C04_overlay_type_round_trip",
    "OCA.C04_overlay_type_names",
    "OCA.C04_overlay_type_injective"
   ],
   "note": "Full: all kinds, all version strings."
  },
  {
   "property": "C05",
   "status": "proved",
   "theorems": [
    "OCA.C05_object_code_round_trip",
    "OCA.C05_object_code_injective",
    "OCA.C05_object_code_total"
   ],
   "note": "Full: the whole byte domain by kernel case analysis."
  },
  {
   "property": "C06",
   "status": "proved",
   "theorems": [
    "OCA.C06_reads_back_iff",
    "OCA.C06_command_json_round_trip",
    "OCA.C06_attribute_mapping_lost",
    "OCA.C06_version_lost",
    "OCA.C06_reference_text_lost",
    "OCA.C06_content_duplicate",
    "OCA.C06_duplicate_member"
   ],
   "note": "Exact: a command reads back as itself if and only if it is outside the three losses; each loss also has a concrete witness. The unconditional round trip a user would expect is therefore refuted. Documents with a repeated member are refused."
  },
  {
   "property": "C07",
   "status": "proved",
   "theorems": [
    "OCA.C07_reference_round_trip",
    "OCA.C07_reference_parse_spec"
   ],
   "note": "Full: all references and all texts."
  },
  {
   "property": "C08",
   "status": "proved",
   "theorems": [
    "OCA.C08_attribute_type_json_round_trip",
    "OCA.C08_attribute_type_json_spec",
    "OCA.C08_attribute_type_json_panics"
   ],
   "note": "Full: induction over the nesting."
  },
  {
   "property": "C09",
   "status": "proved",
   "theorems": [
    "OCA.C09_text_commands_consistent",
    "OCA.C09_text_no_double_add",
    "OCA.C09_parsed_commands_consistent",
    "OCA.C09_no_double_add",
    "OCA.C09_commands_of_the_lines"
   ],
   "note": "From the text through the modelled grammar to the commands."
  },
  {
   "property": "C10",
   "status": "proved",
   "theorems": [
    "OCA.C10_validate_exact",
    "OCA.C10_rejection"
   ],
   "note": "Full: exact characterisation of the outcome."
  },
  {
   "property": "C11",
   "status": "proved",
   "theorems": [
    "OCA.C11_undefined_attribute_not_accepted",
    "OCA.C11_undefined_attribute_error",
    "OCA.C11_rejected_command_no_effect",
    "OCA.C11_ignored_kinds"
   ],
   "note": "Full for the kinds whose loop looks attributes up; C11_ignored_kinds names the kinds the code accepts and ignores."
  },
  {
   "property": "C12",
   "status": "proved",
   "theorems": [
    "OCA.C12_build_outcome",
    "OCA.C12_successful_build",
    "OCA.C12_result_is_last_step",
    "OCA.C12_result_can_differ",
    "OCA.C12_empty_build_aborts"
   ],
   "note": "Outcome and chain are exact. The returned bundle is generated a second time with an independent hash order; C12_result_is_last_step gives the exact exceptions, C12_result_can_differ shows the contradictory-metadata exception is real."
  },
  {
   "property": "C13",
   "status": "proved",
   "theorems": [
    "OCA.C13_text_error_lines",
    "OCA.C13_error_lines",
    "OCA.C13_error_lines_with_base"
   ],
   "note": "From the text. The recorded line number counts grammar tokens, not lines of the file."
  },
  {
   "property": "C14",
   "status": "proved",
   "theorems": [
    "OCA.C14_capture_base_exact",
    "OCA.C14_generate_total"
   ],
   "note": "Full: every build state that generates."
  },
  {
   "property": "C15",
   "status": "proved",
   "theorems": [
    "OCA.C15_overlays_within_capture_base"
   ],
   "note": "Keys of overlays. A condition text may still name a removed attribute (dependencies are not attributes the overlay describes); see DESIGN findings."
  },
  {
   "property": "C16",
   "status": "proved",
   "theorems": [
    "OCA.C16_one_overlay_per_slot"
   ],
   "note": "Full: every reachable state and iteration order."
  },
  {
   "property": "C17",
   "status": "proved",
   "theorems": [
    "OCA.C17_overlay_content_exact",
    "OCA.C17_no_empty_overlay",
    "OCA.C17_frame_metadata"
   ],
   "note": "Full: both directions, every reachable state and iteration order."
  },
  {
   "property": "C18",
   "status": "proved",
   "theorems": [
    "OCA.C18_said_checks_exact",
    "OCA.C18_generated_saids_valid",
    "OCA.C18_generated_valid"
   ],
   "note": "Full: validator checks are exact and generated bundles pass them."
  },
  {
   "property": "C19",
   "status": "proved",
   "theorems": [
    "OCA.C19_said_order_independent",
    "OCA.C19_order_matters",
    "OCA.C19_order_matters_for_conflicting_frames"
   ],
   "note": "Both directions: for reachable states with consistent frame metadata every order gives the same SAID (or two overlays of the bundle share a SAID); for every reachable state without it two orders give different digested JSON."
  },
  {
   "property": "C20",
   "status": "proved",
   "theorems": [
    "OCA.C20_commute",
    "OCA.C20_reorder",
    "OCA.C20_attribute_order"
   ],
   "note": "Independence is spelled out in Independent."
  },
  {
   "property": "C21",
   "status": "proved",
   "theorems": [
    "OCA.C21_same_said_same_json",
    "OCA.C21_tampering_detected",
    "OCA.C21_smuggled_overlay",
    "OCA.C21_generated_singles",
    "OCA.C21_generated_shown"
   ],
   "note": "No condition on the bundles; 'shown' overlays are all overlays except earlier ones of a kind that should occur once. Collisions are named as the concrete pair."
  },
  {
   "property": "C22",
   "status": "proved",
   "theorems": [
    "OCA.C22_reload_lossless"
   ],
   "note": "holds for every hash order of both generations; the alternative is a digest collision between two named overlays. A FROM build with no commands does not return (C12_empty_build_aborts)."
  },
  {
   "property": "C23",
   "status": "proved",
   "theorems": [
    "OCA.C23_rebuild",
    "OCA.C23_history_rebuilds",
    "OCA.C23_dropped_overlay_shows",
    "OCA.C23_to_ast_aborts",
    "OCA.C23_same_bundle",
    "OCA.C23_plain_history_same_bundle",
    "OCA.C23_links_dropped",
    "OCA.C23_framings_dropped",
    "OCA.C23_language_aborts"
   ],
   "note": "Exact for all from-scratch histories and orders; the intended unconditional claim is refuted by C23_links_dropped, C23_framings_dropped, C23_language_aborts and in general by C23_dropped_overlay_shows."
  },
  {
   "property": "C24",
   "status": "proved",
   "theorems": [
    "OCA.C24_add_overlay_sets",
    "OCA.C24_unit_entry_codes",
    "OCA.C24_framing_extends",
    "OCA.C24_add_overlay_frame",
    "OCA.C24_add_attribute",
    "OCA.C24_add_meta",
    "OCA.C24_later_unit_ignored"
   ],
   "note": "Exact behaviour for every overlay kind; the intended 'later wins' is refuted for units and entry codes by C24_later_unit_ignored."
  },
  {
   "property": "C25",
   "status": "proved",
   "theorems": [
    "OCA.C25_remove",
    "OCA.C25_remove_accepted",
    "OCA.C25_bundle_has_no_trace",
    "OCA.C25_readd_is_blank",
    "OCA.C25_dependencies_survive"
   ],
   "note": "Overlays have no entry for the attribute; conditions of other attributes may still name it as dependency (proved)."
  },
  {
   "property": "C26",
   "status": "proved",
   "theorems": [
    "OCA.C26_last_writer_wins",
    "OCA.C26_bundle_classification"
   ],
   "note": "Full: induction over the history."
  },
  {
   "property": "C27",
   "status": "proved",
   "theorems": [
    "OCA.C27_reports_exact",
    "OCA.C27_no_report_iff",
    "OCA.C27_validate_iff"
   ],
   "note": "exact set of reports; no report iff fully translated; effect on validate when the condition check is clean"
  },
  {
   "property": "C28",
   "status": "proved",
   "theorems": [
    "OCA.C28_condition_check",
    "OCA.C28_abort_iff",
    "OCA.C28_self_dependency_rejected",
    "OCA.C28_removed_dependency_aborts"
   ],
   "note": "stated for bundles generated by any accepted command history; the abort side is an exact iff, with a concrete history that reaches it"
  },
  {
   "property": "C29",
   "status": "proved",
   "theorems": [
    "OCA.C29_loads_back_iff",
    "OCA.C29_json_round_trip",
    "OCA.C29_history_round_trip",
    "OCA.C29_reserved_pair_aborts",
    "OCA.C29_groups_reordered"
   ],
   "note": "If and only if, for all from-scratch histories; the two negative theorems show what happens otherwise."
  },
  {
   "property": "C30",
   "status": "proved",
   "theorems": [
    "OCA.C30_history_of_build",
    "OCA.C30_history_of_file",
    "OCA.C30_unchanged_step_malformed",
    "OCA.C30_returning_step_never_ends",
    "OCA.C30_example",
    "OCA.C30_malformed_example",
    "OCA.C30_endless_example"
   ],
   "note": "For a file without FROM on a facade with any past of validations and builds. Hypothesis: the commands can be stored (C06, C29 conditions, nesting below serde_json's limit), empty text is not a SAID. The two known failures are theorems, with concrete files."
  },
  {
   "property": "C31",
   "status": "proved",
   "theorems": [
    "OCA.C31_history_kept",
    "OCA.C31_history_kept_forever",
    "OCA.C31_from_history",
    "OCA.C31_history_of_from_file"
   ],
   "note": "C31_history_of_from_file: FROM file on a facade with any past."
  },
  {
   "property": "C32",
   "status": "proved",
   "theorems": [
    "OCA.C32_operation_round_trip",
    "OCA.C32_command_read_back",
    "OCA.C32_long_parent_aborts"
   ],
   "note": "Decode of the encoded record for every parent SAID up to 255 bytes and every command; longer parents abort the writer. The command text reads back when the JSON is nested less than 128 deep (Json.read_deep: deeper JSON is refused by the reader)."
  },
  {
   "property": "C33",
   "status": "proved",
   "theorems": [
    "OCA.C33_relations_round_trip",
    "OCA.C33_relations_injective"
   ],
   "note": "Every list of related objects whose SAIDs fit in 255 bytes and whose codes are valid."
  },
  {
   "property": "C34",
   "status": "proved",
   "theorems": [
    "OCA.C34_relations_exact",
    "OCA.C34_symmetric",
    "OCA.C34_permanent",
    "OCA.C34_explore_exact",
    "OCA.C34_facade_example"
   ],
   "note": "At the store level for any sequence of add_relations, and at the facade level (C34_explore_exact) for any history of validations and builds: explore knows exactly the objects of the bundles built and reports exactly their relations. Hypotheses: SAIDs within one bundle are pairwise different, at most 255 bytes, and not of the form <x>.metadata."
  },
  {
   "property": "C35",
   "status": "proved",
   "theorems": [
    "OCA.C35_memory_is_a_map",
    "OCA.C35_get_all",
    "OCA.C35_sled_same",
    "OCA.C35_sled_unopened",
    "OCA.C35_files_are_a_map",
    "OCA.C35_files_keys_escape"
   ],
   "note": "Memory and sled: all keys. Files: plain names; C35_files_keys_escape refutes the claim for path-like keys."
  },
  {
   "property": "C36",
   "status": "proved",
   "theorems": [
    "OCA.C36_names_resolved",
    "OCA.C36_no_name_left",
    "OCA.C36_deep_name_survives",
    "OCA.C36_bad_identifier_aborts"
   ],
   "note": "For names in at most one array (the property's known exception is witnessed by C36_deep_name_survives) and name tables holding identifiers only, as C37 shows the facade's to be; otherwise the process aborts."
  },
  {
   "property": "C37",
   "status": "proved",
   "theorems": [
    "OCA.C37_name_is_latest"
   ],
   "note": "Any history of validations, builds and refusals. Feature local-references. A mere validation records the name too."
  },
  {
   "property": "C38",
   "status": "proved",
   "theorems": [
    "OCA.C38_all_and_only",
    "OCA.C38_missing_never_ok",
    "OCA.C38_terminates",
    "OCA.C38_fetch_with_dependencies",
    "OCA.C38_nested_not_followed",
    "OCA.C38_example"
   ],
   "note": "On a facade with any past. A bundle may occur in the list several times (once per path)."
  },
  {
   "property": "C39",
   "status": "proved",
   "theorems": [
    "OCA.C39_bundle_pages",
    "OCA.C39_base_pages",
    "OCA.C39_page_zero_aborts",
    "OCA.C39_example",
    "OCA.OCA.C39_bundle_order",
    "OCA.OCA.C39_base_order"
   ],
   "note": "For a facade with any past of validated and built files whose commands can be kept (Keepable). Rows are sorted by SAID within a page; pages chunk by insertion order. Page 0 aborts (overflow checks on). That the rows of a page are sorted is SQLite's GROUP BY (part of the trusted model of SQLite): the query has no ORDER BY."
  },
  {
   "property": "C40",
   "status": "proved",
   "theorems": [
    "OCA.C40_same_file",
    "OCA.C40_same_relations",
    "OCA.C40_example"
   ],
   "note": "Building the same file again, with any hash order: accepted, same SAID and JSON, every table, stored object, operation record, name and relation unchanged. Core-model records are excluded (they list overlays in hash order). Stated exceptions: own name used in the file, history passing through its base, contradictory frame metadata, a colliding pair of overlays."
  },
  {
   "property": "C41",
   "status": "proved",
   "theorems": [
    "OCA.C41_unknown_base",
    "OCA.C41_unknown_base_accepted",
    "OCA.C41_wrong_line",
    "OCA.C41_example"
   ],
   "note": "The intended claim (an error) is refuted by C41_unknown_base_accepted; proved is the exact behaviour for every facade and file."
  },
  {
   "property": "C42",
   "status": "proved",
   "theorems": [
    "OCA.C42_core_model",
    "OCA.C42_every_build",
    "OCA.C42_stored",
    "OCA.C42_example",
    "OCA.C42_links_confused"
   ],
   "note": "Record by record, over every list of steps; every accepted build has a core model; and the bytes stored for a record decode to it (C42_stored). Overlays are told apart by kind and language only, so LINK (and framing) overlays of different targets share one chain: C42_links_confused."
  },
  {
   "property": "C43",
   "status": "proved",
   "theorems": [
    "OCA.C43_graph",
    "OCA.C43_total",
    "OCA.C43_bundle_digests",
    "OCA.C43_example",
    "OCA.Packed.unique"
   ],
   "note": "Any sequence of adds on an empty graph; aborts exactly for names over 255 bytes (next to a parent)."
  },
  {
   "property": "C44",
   "status": "proved",
   "theorems": [
    "OCA.C44_mapping",
    "OCA.C44_source_target",
    "OCA.C44_outcome",
    "OCA.C44_no_error",
    "OCA.C44_aborts",
    "OCA.C44_said",
    "OCA.C44_package",
    "OCA.C44_example"
   ],
   "note": "Every command list; also when it aborts, and that the SAID identifies the content."
  },
  {
   "property": "C45",
   "status": "proved",
   "theorems": [
    "OCA.C45_dispatch",
    "OCA.C45_no_meta",
    "OCA.C45_dashes_refused",
    "OCA.C45_outcomes",
    "OCA.C45_examples"
   ],
   "note": "All files made of text, comments and meta lines with any blanks, plus every text without --; C45_outcomes covers every text. Finding: two dashes outside a comment (also inside a quoted label) make the facade refuse a file the semantics parser reads."
  },
  {
   "property": "C46",
   "status": "proved",
   "theorems": [
    "OCA.C46_type_round_trip",
    "OCA.C46_print_aborts_iff"
   ],
   "note": "End to end through the grammar model: the printed type inside an ADD ATTRIBUTE line is parsed back to the same type at any nesting. Types with a reference by name abort the printer (exact)."
  },
  {
   "property": "C47",
   "status": "proved",
   "theorems": [
    "OCA.C47_text_build_aborts_iff",
    "OCA.C47_text_build_on_aborts_iff",
    "OCA.C47_text_aborts_iff",
    "OCA.C47_apply_aborts_iff",
    "OCA.C47_build_aborts_iff",
    "OCA.C47_no_abort",
    "OCA.C47_aborts_exist"
   ],
   "note": "Exact characterisation for files (TextAborts) and for arbitrary command lists (Aborts)."
  },
  {
   "property": "C48",
   "status": "proved",
   "theorems": [
    "OCA.C48_idempotent"
   ],
   "note": "Full: every reachable state and accepted ADD command."
  },
  {
   "property": "C49",
   "status": "proved",
   "theorems": [
    "OCA.C49_print_parse",
    "OCA.C49_print_parse_exact"
   ],
   "note": "Whole-file round trip: print, then the modelled pest grammar and instruction builders; commands equal up to Like. Printable spells out which commands the syntax can express."
  },
  {
   "property": "C50",
   "status": "proved",
   "theorems": [
    "OCA.C50_text_builds_like_ast"
   ],
   "note": "Printable/consistent ASTs; covers ok, err (messages) and panic outcomes."
  },
  {
   "property": "C51",
   "status": "proved",
   "theorems": [
    "OCA.C51_export_rebuilds",
    "OCA.C51_export_same_bundle",
    "OCA.C51_classification_glued",
    "OCA.C51_no_attributes",
    "OCA.C51_quote_not_escaped",
    "OCA.C51_quote_from_file",
    "OCA.C51_print_aborts_iff",
    "OCA.C51_file_of_bundle",
    "OCA.C51_file_same_bundle",
    "OCA.C51_frame_names"
   ],
   "note": "For every from-scratch history; each condition is shown necessary by a witness."
  },
  {
   "property": "C52",
   "status": "proved",
   "theorems": [
    "OCA.C52_commands_of_text",
    "OCA.C52_raw_texts",
    "OCA.C52_meta_of_text"
   ],
   "note": "FromText (Lemmas/FileShapes) is the specification of the forms; covers every text through the modelled grammar."
  },
  {
   "property": "C53",
   "status": "proved",
   "theorems": [
    "OCA.C53_parse_no_abort",
    "OCA.C53_comment_in_frame_aborts"
   ],
   "note": "Every text without backslash; the witness shows that the restriction is needed."
  },
  {
   "property": "C54",
   "status": "proved",
   "theorems": [
    "OCA.C54_reprint",
    "OCA.C54_not_reprintable"
   ],
   "note": "CanReprint spells out the supported commands; C54_not_reprintable shows what happens otherwise. Assumes that lower-casing twice is lower-casing once."
  },
  {
   "property": "C55",
   "status": "proved",
   "theorems": [
    "OCA.C55_read",
    "OCA.C55_build",
    "OCA.C55_every_text",
    "OCA.C55_refused"
   ],
   "note": "Every file of rendered lines (any blanks, comments, meta lines, pairs), through the modelled grammar, instruction builders and transformation build; C55_every_text is about arbitrary texts."
  },
  {
   "property": "C56",
   "status": "proved",
   "theorems": [
    "OCA.C56_transformation_refused",
    "OCA.C56_transformation_text",
    "OCA.C56_text_is_lines",
    "OCA.C56_facade_as_function",
    "OCA.C56_from_only_first",
    "OCA.C56_examples",
    "OCA.C56_external_references"
   ],
   "note": "Assumes (Env.ShortSaids) that well-formed SAIDs have at most 255 bytes and do not end in .metadata, as SAIDs do."
  },
  {
   "property": "C57",
   "status": "proved",
   "theorems": [
    "OCA.C57_file_of_history",
    "OCA.C57_exported_file",
    "OCA.C57_printed_refused",
    "OCA.C57_file_refused",
    "OCA.C57_refused_example",
    "OCA.C57_example",
    "OCA.C57_file_of_any_history",
    "OCA.C57_example_chain",
    "OCA.C57_example_refused",
    "OCA.C57_text_keepable",
    "OCA.C57_unknown_name",
    "OCA.C57_example_unknown"
   ],
   "note": "Hypotheses of C57_exported_file: no two steps share an identifier (otherwise C30 findings apply), the commands can be written down (CanReprint, C54) and kept (Keepable); hU is idempotence of to_lowercase, hw: identifiers consist of word characters."
  },
  {
   "property": "C58",
   "status": "proved",
   "theorems": [
    "OCA.C58_from_continues",
    "OCA.C58_chain",
    "OCA.C58_example",
    "OCA.C58_frames_needed"
   ],
   "note": "FROM equals one long build, for pairs and chains; frame condition shown necessary"
  },
  {
   "property": "C59",
   "status": "proved",
   "theorems": [
    "OCA.C59_loaded_bundle",
    "OCA.C59_bundle_duplicate",
    "OCA.C59_base_duplicate",
    "OCA.C59_bundle_unknown_member",
    "OCA.C59_bundle_member_order",
    "OCA.C59_bad_overlay_aborts",
    "OCA.C59_examples",
    "OCA.C59_by_position"
   ],
   "note": "For every JSON document; the abort on an unreadable overlay is a finding (deserialize_overlays unwraps)."
  },
  {
   "property": "C60",
   "status": "proved",
   "theorems": [
    "OCA.C60_validated_is_stored",
    "OCA.C60_validated_is_stored_plain",
    "OCA.C60_build_as_validate",
    "OCA.C60_example"
   ],
   "note": "Assumes Env.ShortSaids; met by Env.tight (tight_short)."
  },
  {
   "property": "C61",
   "status": "proved",
   "theorems": [
    "OCA.C61_stored_base_continues",
    "OCA.C61_history_replays",
    "OCA.C61_example"
   ],
   "note": "all frames described the same way (C58_frames_needed shows why), no two recorded bundles or two overlays of one bundle colliding under the uninterpreted digest; histories that contain a cycle are never returned (C30), so the hypothesis is that the history was returned"
  },
  {
   "property": "C62",
   "status": "proved",
   "theorems": [
    "OCA.C62_unknown_object",
    "OCA.C62_intermediate_object_aborts",
    "OCA.C62_object_found",
    "OCA.C62_built_object",
    "OCA.C62_objects_in_order",
    "OCA.C62_first_unknown",
    "OCA.C62_all_names",
    "OCA.C62_search_index",
    "OCA.C62_search_records",
    "OCA.C62_stepped",
    "OCA.C62_example"
   ],
   "note": "objects, names and search hits after any history of builds; the FTS query itself is outside the model"
  },
  {
   "property": "C63",
   "status": "proved",
   "theorems": [
    "OCA.C63_outcome",
    "OCA.C63_result",
    "OCA.C63_rejected_is_lost",
    "OCA.C63_accepted",
    "OCA.C63_from_continues",
    "OCA.C63_from",
    "OCA.C63_self_parent",
    "OCA.C63_example_from",
    "OCA.C63_example_lost",
    "OCA.C63_example_self"
   ],
   "note": "SAIDs at most 255 bytes and without dots (hypotheses on the digest). C63_accepted and C63_from_continues need each frame to be described in one way (C58) and no two overlays of a bundle with one SAID. Findings: a rejected command silently empties the state; a command of 256 bytes or more aborts; a command without effect cuts the history."
  },
  {
   "property": "C64",
   "status": "proved",
   "theorems": [
    "OCA.C64_transformation_json",
    "OCA.C64_transformations_sound",
    "OCA.C64_package_round_trip",
    "OCA.C64_no_model",
    "OCA.C64_said",
    "OCA.C64_pack_and_load",
    "OCA.C64_example",
    "OCA.C64_example_run",
    "OCA.C64_load_aborts",
    "OCA.C64_load_without_model"
   ],
   "note": "make_me_sad is modelled as documented (dependency)"
  },
  {
   "property": "C65",
   "status": "proved",
   "theorems": [
    "OCA.C65_ast_reads_back",
    "OCA.C65_ast_stable",
    "OCA.C65_ast_injective",
    "OCA.C65_ast_text",
    "OCA.C65_read_commands",
    "OCA.C65_mapping_lost",
    "OCA.C65_trans_command",
    "OCA.C65_trans_read_commands",
    "OCA.C65_trans_reads_back",
    "OCA.C65_trans_stable",
    "OCA.C65_trans_no_abort",
    "OCA.C65_text_command",
    "OCA.C65_text_reads_back",
    "OCA.C65_trans_text_reads_back",
    "OCA.C65_example",
    "OCA.C65_example_trans",
    "OCA.C65_example_run",
    "OCA.C65_trans_read_exact",
    "OCA.C65_trans_type_once",
    "OCA.C65_trans_read_example",
    "OCA.C65_command_read_exact",
    "OCA.C65_content_first_refused",
    "OCA.C65_command_aborts",
    "OCA.C65_command_aborts_if",
    "OCA.C65_ast_aborts",
    "OCA.C65_command_read_examples"
   ],
   "note": "which of an error and an abort in one document is met first is not modelled; keys of commands_meta written with escapes are accepted in the model Finding: JSON member order matters for commands."
  },
  {
   "property": "C66",
   "status": "proved",
   "theorems": [
    "OCA.C66_last_point",
    "OCA.C66_file_last_point",
    "OCA.C66_nothing_lost",
    "OCA.C66_file_nothing_lost",
    "OCA.C66_always_usable",
    "OCA.C66_explore",
    "OCA.C66_killed_history",
    "OCA.C66_retry",
    "OCA.C66_listed_unknown",
    "OCA.C66_search_aborts",
    "OCA.C66_history_aborts",
    "OCA.C66_history_lost",
    "OCA.C66_example",
    "OCA.C66_example_points"
   ],
   "note": "Writes are atomic one by one; a kill leaves a prefix of all writes, a machine crash a prefix per storage. Retry: same answers (core-model records excluded, whose overlay order follows the hash maps); conditions as C40 (no own name used, base not among the steps, consistent frames, no collisions). The last four general theorems are findings: states a crash leaves in which a later call fails or aborts."
  },
  {
   "property": "C67",
   "status": "proved",
   "theorems": [
    "OCA.C67_pages",
    "OCA.C67_aborts",
    "OCA.C67_one_aborts",
    "OCA.C67_killed",
    "OCA.C67_example",
    "OCA.C67_bracket_example",
    "OCA.C67_scope_text_whole",
    "OCA.C67_scope_text_cut"
   ],
   "note": "FTS5 (match, bm25, snippet) and the regex crate are parameters; the SQL, paging, total, scope pattern and fetching of bundles are modelled"
  },
  {
   "property": "C68",
   "status": "proved",
   "theorems": [
    "OCA.C68_text_distinct",
    "OCA.C68_built_well_made",
    "OCA.C68_loaded_well_made",
    "OCA.C68_fetched_well_made",
    "OCA.C68_types",
    "OCA.C68_flags",
    "OCA.C68_facts",
    "OCA.C68_first",
    "OCA.C68_scopes",
    "OCA.C68_meta",
    "OCA.C68_classification",
    "OCA.C68_file",
    "OCA.C68_base_kept",
    "OCA.C68_base_attribute_lost",
    "OCA.C68_example"
   ],
   "note": "Exact: each theorem is an equivalence between what the built bundle tells and the last command / base. Units and entry codes: first writer wins (Attribute merge)."
  },
  {
   "property": "C69",
   "status": "proved",
   "theorems": [
    "OCA.C69_setters",
    "OCA.C69_add_attribute",
    "OCA.C69_remove_attribute",
    "OCA.C69_meta_and_classification",
    "OCA.C69_orders",
    "OCA.C69_any_calls",
    "OCA.C69_concrete"
   ],
   "note": "Attributes built with setters and merge, and the calls on a build state. Category labels, attribute mappings and frame metadata under the key frame_id are left out here; see C83. Reachable states in all other theorems (C14-C19, C22, ...) include those reached by these calls."
  },
  {
   "property": "C70",
   "status": "proved",
   "theorems": [
    "OCA.C70_lookup",
    "OCA.C70_reported",
    "OCA.C70_always",
    "OCA.C70_example"
   ],
   "note": "Four-way classification for any facade built by validations and builds (Facade.Built). Hypotheses: commands of the built files can be stored (Keepable), the empty text is no SAID. lastStep, Lineage, Stuck, Circular are defined from the list of build steps alone. C70_example shows a file for each way."
  },
  {
   "property": "C71",
   "status": "proved",
   "theorems": [
    "OCA.C71_printed_is_stable",
    "OCA.C71_format_twice",
    "OCA.C71_rounds",
    "OCA.C71_meta_turns",
    "OCA.C71_others_settle",
    "OCA.C71_example"
   ],
   "note": "Formatting as a fixed point; the exception (META with two or more properties turns its properties round at every print, IndexMap::remove) is proved exactly."
  },
  {
   "property": "C72",
   "status": "proved",
   "theorems": [
    "OCA.C72_portable",
    "OCA.C72_example"
   ],
   "note": "Any facade with any past as target; hypotheses on the source as in C57/C61 (texts without backslashes, frames described in one way, no colliding identifiers, commands that can be written down, file accepted by the parser)."
  },
  {
   "property": "C73",
   "status": "proved",
   "theorems": [
    "OCA.C73_lines",
    "OCA.C73_refused",
    "OCA.C73_same_commands",
    "OCA.C73_modify",
    "OCA.C73_modify_word",
    "OCA.C73_file",
    "OCA.C73_example"
   ],
   "note": "Commands in the printer's layout, ASCII line breaks (LF); the rules condition is exact (C73_refused)."
  },
  {
   "property": "C74",
   "status": "proved",
   "theorems": [
    "OCA.C74_tells",
    "OCA.C74_capture_base",
    "OCA.C74_meta",
    "OCA.C74_overlays",
    "OCA.C74_last_command",
    "OCA.C74_example"
   ],
   "note": "The specification is about JSON member names only (Json.Has, Json.OverlayIn, Fact.place, Fact.WrittenAs, TypeWritten, kindName). Entry codes given as a list are written sorted, the metadata kept with a scope is not written (SameTold). Meta: pairs named language/d/type/capture_base are excluded (C29_reserved_pair_aborts)."
  },
  {
   "property": "C75",
   "status": "proved",
   "theorems": [
    "OCA.C75_free_layout",
    "OCA.C75_free_refused",
    "OCA.C75_same_meaning",
    "OCA.C75_indented",
    "OCA.C75_last_line",
    "OCA.C75_last_blanks",
    "OCA.C75_example",
    "OCA.C75_comment_is_attribute",
    "OCA.C75_same_validation",
    "OCA.C75_same_build",
    "OCA.C75_build_example",
    "OCA.C75_comment_example"
   ],
   "note": "Free layout of ADD ATTRIBUTE, CLASSIFICATION, the twelve overlays of key-value pairs, REMOVE ATTRIBUTE/CLASSIFICATION, FROM, comments, blank and meta lines. Not covered: layouts of ATTR_FRAMING and FLAGGED_ATTRIBUTES (C73 covers the printed form of framing), comment or blank lines inside a continuation (finding 25)."
  },
  {
   "property": "C76",
   "status": "proved",
   "theorems": [
    "OCA.C76_error_line",
    "OCA.C76_error_line_from",
    "OCA.C76_unknown_base",
    "OCA.C76_line_of_file",
    "OCA.C76_plain_lines",
    "OCA.C76_example",
    "OCA.C76_not_the_line",
    "OCA.C76_from_example"
   ],
   "note": "For the layouts of C75, validate_ocafile without local references. C76_not_the_line and C76_unknown_base show where the number is not the line of the file (findings 27 and C41)."
  },
  {
   "property": "C77",
   "status": "proved",
   "theorems": [
    "OCA.C77_read",
    "OCA.C77_refused",
    "OCA.C77_reload",
    "OCA.C77_capital_invalid",
    "OCA.C77_example"
   ],
   "note": "The urn and regex crates are the parameter standardOk of Env, to_lowercase the parameter lower with the law that it is idempotent."
  },
  {
   "property": "C78",
   "status": "proved",
   "theorems": [
    "OCA.C78_rows",
    "OCA.C78_search",
    "OCA.C78_example"
   ],
   "note": "FTS5 is a parameter: the theorems hold for every index that reads the query syntax the code uses (Fts.Reads, a small grammar with its meaning); Fts.reader is a concrete one (with the trigram tokenizer of the table) and the example is a run with two languages. Order within the pages (the rank, where the language counts) is C67."
  },
  {
   "property": "C79",
   "status": "proved",
   "theorems": [
    "OCA.C79_load_aborts_iff",
    "OCA.C79_capture_base",
    "OCA.C79_facts",
    "OCA.C79_conditions",
    "OCA.C79_scopes",
    "OCA.C79_meta",
    "OCA.C79_lost",
    "OCA.C79_example",
    "OCA.C79_build",
    "OCA.C79_build_example"
   ],
   "note": "Loading and generating are compared on the bundle level (Tells, HasScope, HasMeta), for every bundle value, not only generated ones. The JSON reading of such bundles is C59."
  },
  {
   "property": "C80",
   "status": "proved",
   "theorems": [
    "OCA.C80_aborts_iff",
    "OCA.C80_reports",
    "OCA.C80_accepts_iff",
    "OCA.C80_example"
   ],
   "note": "Exact characterisation of abort, reports and acceptance for arbitrary bundles. Texts of the messages are not claims; the order of reports is not stated. The Lua interpreter and the digest are abstract."
  },
  {
   "property": "C81",
   "status": "proved",
   "theorems": [
    "OCA.C81_aborts_iff",
    "OCA.C81_commands",
    "OCA.C81_outcome",
    "OCA.C81_capture_base",
    "OCA.C81_facts",
    "OCA.C81_first",
    "OCA.C81_meta",
    "OCA.C81_lost",
    "OCA.C81_example",
    "OCA.C81_file",
    "OCA.C81_file_example"
   ],
   "note": "Bundles of any origin; the names of the groups of an entry code are taken as distinct (keys of an IndexMap). For bundles this program builds, see C23, where the result is the same bundle. The OCA file: for bundles whose names and texts can be written (C51 shows why)."
  },
  {
   "property": "C82",
   "status": "proved",
   "theorems": [
    "OCA.C82_flagging_ignored",
    "OCA.C82_never_flagged",
    "OCA.C82_text_never_flags",
    "OCA.C82_one_text",
    "OCA.C82_remove_forgets",
    "OCA.C82_remove_aborts",
    "OCA.C82_remove_never_built",
    "OCA.C82_example"
   ],
   "note": "Unflagged: the list without some of the flagging commands. The last generate_bundle of both builds sees the same hash order. Built: repositories reached by files whose commands can be stored and read back."
  },
  {
   "property": "C83",
   "status": "proved",
   "theorems": [
    "OCA.C83_generates",
    "OCA.C83_facts",
    "OCA.C83_category_labels",
    "OCA.C83_conditions",
    "OCA.C83_mappings",
    "OCA.C83_last_mapping",
    "OCA.C83_one_per_slot",
    "OCA.C83_calls",
    "OCA.C83_example",
    "OCA.C83_misnamed_frame"
   ],
   "note": "For every value of the build state; the attribute's name is its key in the map. Facts, category labels, conditions and slots are under the hypothesis that no frame scope has metadata named frame_id, which C83_misnamed_frame shows to be needed."
  },
  {
   "property": "C84",
   "status": "proved",
   "theorems": [
    "OCA.C84_alone",
    "OCA.C84_no_thread_fails",
    "OCA.C84_ends",
    "OCA.C84_whole_records",
    "OCA.C84_explore",
    "OCA.C84_relations",
    "OCA.C84_as_one_after_the_other",
    "OCA.C84_validated",
    "OCA.C84_lost_relation",
    "OCA.C84_example",
    "OCA.C84_repair",
    "OCA.C84_moments",
    "OCA.C84_search_aborts",
    "OCA.C84_history_aborts"
   ],
   "note": "Proved for every interleaving; C84_example meets the hypotheses, C84_lost_relation shows why relations of shared objects are left out. SQLite busy errors are not modelled."
  },
  {
   "property": "C85",
   "status": "proved",
   "theorems": [
    "OCA.C85_fetch",
    "OCA.C85_history",
    "OCA.C85_still",
    "OCA.C85_example"
   ],
   "note": "For every schedule of validations, turns and kills; the reader sees a different state at each read."
  },
  {
   "property": "C86",
   "status": "proved",
   "theorems": [
    "OCA.C86_undisturbed",
    "OCA.C86_returned",
    "OCA.C86_how_it_ends",
    "OCA.C86_nothing_lost",
    "OCA.C86_explore",
    "OCA.C86_repair",
    "OCA.C86_rows_lost",
    "OCA.C86_relations_lost",
    "OCA.C86_overlay_metadata"
   ],
   "note": "every write may fail, in any combination; errors of reading and of creating tables are not modelled; C86_rows_lost, C86_relations_lost and C86_overlay_metadata are findings"
  },
  {
   "property": "C87",
   "status": "proved",
   "theorems": [
    "OCA.C87_restored",
    "OCA.C87_files",
    "OCA.C87_cache_lost",
    "OCA.C87_db_lost",
    "OCA.C87_tables_lost",
    "OCA.C87_example",
    "OCA.C87_files_example"
   ],
   "note": "Loss of storages (Facade.Loses) is also a step of the states Facade.Shared of C84/C86, so those theorems hold from any state after losses."
  },
  {
   "property": "C88",
   "status": "proved",
   "theorems": [
    "OCA.C88_same",
    "OCA.C88_example"
   ],
   "note": "The stored core models list the overlays of a step in hash order and so may differ (C40); everything else a repository holds is compared. feed_same is the same for two repositories that answer the same to begin with. Conditions as in C40 and C66, checked for three concrete files by clearFeed."
  },
  {
   "property": "C89",
   "status": "proved",
   "theorems": [
    "OCA.C89_read_iff",
    "OCA.C89_spelling",
    "OCA.C89_one_value",
    "OCA.C89_printed",
    "OCA.C89_load",
    "OCA.C89_refused",
    "OCA.C89_example"
   ],
   "note": "The specification Document (white space, escapes, decimal notation, nesting) is an inductive grammar separate from the reader. serde_json's text level is modelled (Model/JsonText.lean); signs, fractions and exponents of numbers are not, so C89_refused is about texts without such numbers. Members that a structure does not have are read by the same rules in the model; serde_json skips them by laxer ones (no limit on nesting, lone surrogates)."
  },
  {
   "property": "C90",
   "status": "proved",
   "theorems": [
    "OCA.C90_capture_base",
    "OCA.C90_overlay",
    "OCA.C90_meta",
    "OCA.C90_adding",
    "OCA.C90_longer_file",
    "OCA.C90_on_top",
    "OCA.C90_rebound",
    "OCA.C90_example_adds",
    "OCA.C90_example",
    "OCA.C90_example_longer",
    "OCA.C90_example_on_top",
    "OCA.C90_example_shared"
   ],
   "note": "For a layer that is a frame, the frame must be described in one way by all who mention it (C19, C58): the code stores the frame's metadata at each attribute."
  },
  {
   "property": "C91",
   "status": "proved",
   "theorems": [
    "OCA.C91_same_content",
    "OCA.C91_same_identifier",
    "OCA.C91_files",
    "OCA.C91_example",
    "OCA.C91_example_orders",
    "OCA.OCA.C91_chains",
    "OCA.OCA.C91_codes_order",
    "OCA.OCA.C91_codes_example",
    "OCA.OCA.C91_codes_files",
    "OCA.OCA.C91_codes_chains"
   ],
   "note": "Facts are compared exactly in the first direction, and up to what JSON shows (Fact.SameText) in the second; a frame must be described in one way (C19)."
  }
 ]
}