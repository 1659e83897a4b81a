{
 "claims": [
  {
   "property": "C01",
   "status": "proved",
   "theorems": [
    "Amara.C01_valid_text_delivers_its_events"
   ],
   "note": "IsDoc is the grammar in Spec/MicroXml (no comments, no empty-element tags)"
  },
  {
   "property": "C02",
   "status": "partial",
   "theorems": [
    "Amara.C02_fragmentation_irrelevant_partial",
    "Amara.C02_full_statement_is_false",
    "Amara.C02_cut_in_a_value",
    "Amara.C02_parsefrags_cut_in_a_value",
    "Amara.C02_cut_in_a_value_can_be_silent"
   ],
   "note": "false of the code when a cut falls inside a quoted attribute value; proved for all other cuts; for the text of a document cut inside a value it is proved what happens instead: the tag with that value and everything after it is lost, nothing wrong is delivered, and the calls return or one raises"
  },
  {
   "property": "C03",
   "status": "proved",
   "theorems": [
    "Amara.C03_events_well_nested",
    "Amara.C03_complete_stream_is_a_tree"
   ],
   "note": ""
  },
  {
   "property": "C04",
   "status": "proved",
   "theorems": [
    "Amara.C04_one_document_element",
    "Amara.C03_events_well_nested"
   ],
   "note": ""
  },
  {
   "property": "C05",
   "status": "proved",
   "theorems": [
    "Amara.C05_nonfinal_never_returns_iff",
    "Amara.C05_never_means_never"
   ],
   "note": ""
  },
  {
   "property": "C06",
   "status": "proved",
   "theorems": [
    "Amara.C06_final_vs_nonfinal",
    "Amara.C06_final_in_tag_never_returns",
    "Amara.C06_final_in_text_never_returns",
    "Amara.C06_final_space_never_returns",
    "Amara.C06_final_after_tag_returns",
    "Amara.C01_valid_text_delivers_its_events"
   ],
   "note": ""
  },
  {
   "property": "C07",
   "status": "proved",
   "theorems": [
    "Amara.C07_bad_reference_in_text_raises",
    "Amara.C07_bad_reference_in_attribute_raises",
    "Amara.C01_valid_text_delivers_its_events"
   ],
   "note": "good references: the constructors named and hex of Spells in C01"
  },
  {
   "property": "C08",
   "status": "proved",
   "theorems": [
    "Amara.C08_only_legal_characters"
   ],
   "note": ""
  },
  {
   "property": "C09",
   "status": "proved",
   "theorems": [
    "Amara.C09_mismatched_end_tag_raises",
    "Amara.C09_end_tag_without_element_raises"
   ],
   "note": ""
  },
  {
   "property": "C10",
   "status": "proved",
   "theorems": [
    "Amara.C10_last_attribute_wins",
    "Amara.C01_valid_text_delivers_its_events"
   ],
   "note": ""
  },
  {
   "property": "C11",
   "status": "proved",
   "theorems": [
    "Amara.C11_truncated_document_is_silent",
    "Amara.C11_truncated_tree"
   ],
   "note": ""
  },
  {
   "property": "C12",
   "status": "proved",
   "theorems": [
    "Amara.C12_illegal_text_dropped",
    "Amara.C12_illegal_attribute_characters_dropped"
   ],
   "note": ""
  },
  {
   "property": "C13",
   "status": "proved",
   "theorems": [
    "Amara.C13_iterators_yield_the_events",
    "Amara.C13_parse_raises",
    "Amara.C13_parsefrags_raises",
    "Amara.C13_parse_never",
    "Amara.C13_parse_of_a_cut_text"
   ],
   "note": "parsefrags under the same cut condition as C02"
  },
  {
   "property": "C14",
   "status": "proved",
   "theorems": [
    "Amara.C14_malformed_reference_silences_parser"
   ],
   "note": ""
  },
  {
   "property": "C15",
   "status": "proved",
   "theorems": [
    "Amara.C15_serialise_then_parse",
    "Amara.C15_serialisation_is_injective",
    "Amara.C15_same_text_iff_same_tree"
   ],
   "note": ""
  },
  {
   "property": "C16",
   "status": "proved",
   "theorems": [
    "Amara.C16_text_cannot_inject",
    "Amara.C16_attribute_cannot_inject"
   ],
   "note": ""
  },
  {
   "property": "C17",
   "status": "proved",
   "theorems": [
    "Amara.C17_control_characters_stop_the_parser",
    "Amara.C17_parse_gives_none"
   ],
   "note": ""
  },
  {
   "property": "C18",
   "status": "proved",
   "theorems": [
    "Amara.C18_string_value",
    "Amara.C18_string_value_of_events",
    "Amara.C18_string_value_ignores_splitting"
   ],
   "note": ""
  },
  {
   "property": "C19",
   "status": "proved",
   "theorems": [
    "Amara.C19_indent_is_added_text",
    "Amara.C19_indent_only_inserts_runs"
   ],
   "note": ""
  },
  {
   "property": "C20",
   "status": "proved",
   "theorems": [
    "Amara.C20_builder_builds_the_tree",
    "Amara.treeParse_exists"
   ],
   "note": ""
  },
  {
   "property": "C21",
   "status": "proved",
   "theorems": [
    "Amara.C21_builder_reuse",
    "Amara.C21_second_parse"
   ],
   "note": ""
  },
  {
   "property": "C23",
   "status": "proved",
   "theorems": [
    "Amara.C23_collector_cannot_be_noticed",
    "Amara.C20_builder_builds_the_tree"
   ],
   "note": ""
  },
  {
   "property": "C24",
   "status": "proved",
   "theorems": [
    "Amara.C24_parent_and_child_agree",
    "Amara.C24_attached_elements_excluded"
   ],
   "note": ""
  },
  {
   "property": "C25",
   "status": "proved",
   "theorems": [
    "Amara.C25_insert_position",
    "Amara.C25_append_is_last"
   ],
   "note": ""
  },
  {
   "property": "C26",
   "status": "partial",
   "theorems": [
    "Amara.C26_remove_element_partial",
    "Amara.C26_remove_succeeds_iff",
    "Amara.C26_remove_distinct_text_partial",
    "Amara.C26_full_statement_is_false"
   ],
   "note": "false of the code for text children with equal characters: removal goes by ==, so an earlier equal text is taken out instead"
  },
  {
   "property": "C27",
   "status": "proved",
   "theorems": [
    "Amara.C27_text_is_copied"
   ],
   "note": ""
  },
  {
   "property": "C22",
   "status": "proved",
   "theorems": [
    "Amara.C22_later_parses_return_first_root",
    "Amara.C22_first_tree_survives",
    "Amara.C22_parse_raises_iff_expat_does"
   ],
   "note": "A later parse that returns anything returns the first root; after a complete first document the whole returned tree is unchanged by any number of later parses. Expat itself is represented by its callbacks."
  },
  {
   "property": "C28",
   "status": "proved",
   "theorems": [
    "Amara.C28_writer_is_xml_encode",
    "Amara.C28_new_writer"
   ],
   "note": ""
  },
  {
   "property": "C29",
   "status": "proved",
   "theorems": [
    "Amara.C29_trivial_namespacer"
   ],
   "note": ""
  },
  {
   "property": "C30",
   "status": "proved",
   "theorems": [
    "Amara.C30_declarations_once",
    "Amara.C30_no_element"
   ],
   "note": ""
  },
  {
   "property": "C31",
   "status": "proved",
   "theorems": [
    "Amara.C31_balanced_calls_parse_back"
   ],
   "note": ""
  },
  {
   "property": "C32",
   "status": "proved",
   "theorems": [
    "Amara.C32_indentation_is_added_text",
    "Amara.C32_depth_restored"
   ],
   "note": ""
  },
  {
   "property": "C43",
   "status": "proved",
   "theorems": [
    "Amara.C43_local_names",
    "Amara.C43_blank_name",
    "Amara.C43_space_in_namespace",
    "Amara.C43_white_space"
   ],
   "note": "Expat is represented by the callbacks it makes."
  },
  {
   "property": "C44",
   "status": "proved",
   "theorems": [
    "Amara.C44_chunking_irrelevant"
   ],
   "note": "Expat is represented by the callbacks it makes."
  },
  {
   "property": "C37",
   "status": "proved",
   "theorems": [
    "Amara.C37_descendants"
   ],
   "note": "identity of a node is its position in the tree"
  },
  {
   "property": "C38",
   "status": "proved",
   "theorems": [
    "Amara.C38_select_elements",
    "Amara.C38_select_name",
    "Amara.C38_select_name_pattern",
    "Amara.C38_select_value",
    "Amara.C38_select_attribute"
   ],
   "note": "select_value also yields text nodes"
  },
  {
   "property": "C39",
   "status": "partial",
   "theorems": [
    "Amara.C39_following_siblings_partial",
    "Amara.C39_element",
    "Amara.C39_after_first_equal",
    "Amara.C39_full_statement_is_false"
   ],
   "note": "false of the code for a text node with an equal text before it; what is yielded then is stated exactly"
  },
  {
   "property": "C40",
   "status": "partial",
   "theorems": [
    "Amara.C40_outermost_matches_partial",
    "Amara.C40_without_double_star",
    "Amara.C40_exactly_first_fits",
    "Amara.C40_names_in_tuples_raise",
    "Amara.C40_empty_pattern",
    "Amara.C40_trailing_double_star",
    "Amara.C40_lone_double_star",
    "Amara.C40_full_statement_is_false"
   ],
   "note": "exact for patterns without '**'; with '**' only outermost matches, and only for patterns whose later stages after '**' are wildcards; false otherwise, and what is found instead (every '**' ends at the first fit) is stated exactly for every pattern"
  },
  {
   "property": "C41",
   "status": "proved",
   "theorems": [
    "Amara.C41_only_white_space_changes",
    "Amara.C41_no_break_space_is_lost",
    "Amara.C41_empty_element_gets_text"
   ],
   "note": "white space as Python's str.strip sees it"
  },
  {
   "property": "C42",
   "status": "partial",
   "theorems": [
    "Amara.C42_stable_after_two_partial",
    "Amara.C42_default_indent_partial",
    "Amara.C42_not_idempotent",
    "Amara.C42_nested_indent_ignored",
    "Amara.C42_indent_not_uniform"
   ],
   "note": "false of the code: the indent is not passed on and the second application moves end tags; stable from the second application on"
  },
  {
   "property": "C33",
   "status": "partial",
   "theorems": [
    "Amara.C33_outermost_matches_sent_partial",
    "Amara.C33_parse_partial",
    "Amara.C33_all_sent_partial",
    "Amara.C33_xml_partial",
    "Amara.C33_only_matches_sent",
    "Amara.C33_exactly_first_fits_sent",
    "Amara.C33_parse_exactly_first_fits",
    "Amara.C33_trailing_dstar_raises",
    "Amara.C33_full_statement_is_false"
   ],
   "note": "exact, event by event, for patterns without '**' or whose later stages after '**' are wildcards (Safe); for other patterns nothing but matches is sent but matches can be missed; what is sent (every '**' ends at the first fit) is stated exactly"
  },
  {
   "property": "C34",
   "status": "partial",
   "theorems": [
    "Amara.C34_pattern_meaning_partial",
    "Amara.C34_exactly_first_fits",
    "Amara.C34_trailing_double_star",
    "Amara.C34_all_patterns",
    "Amara.C34_match_found_is_a_match",
    "Amara.C34_full_statement_is_false"
   ],
   "note": "'**' takes the first element that fits what follows, so the claim is false for some patterns with '**'; the exact meaning, and when a TypeError is raised, is proved for every pattern"
  },
  {
   "property": "C35",
   "status": "partial",
   "theorems": [
    "Amara.C35_what_each_sink_gets_partial",
    "Amara.C35_what_each_sink_gets_exactly",
    "Amara.C35_first_sink_partial",
    "Amara.C35_full_statement_is_false"
   ],
   "note": "false of the code: the patterns share one event stack and each pattern continues with the ones before it; what each sink does get is stated exactly"
  },
  {
   "property": "C36",
   "status": "proved",
   "theorems": [
    "Amara.C36_idle_between_documents",
    "Amara.C36_not_idle_after_a_failure"
   ],
   "note": "complete documents; after a failed document it is shown not to hold"
  },
  {
   "property": "C65",
   "status": "partial",
   "theorems": [
    "Amara.C65_untouched_subtrees_partial",
    "Amara.C65_moved_subtree_attracts_later_ones"
   ],
   "note": "false of the code when a sink attaches what it receives to an element of its own"
  },
  {
   "property": "C45",
   "status": "partial",
   "theorems": [
    "Amara.C45_steps_compose",
    "Amara.C45_steps_compose_errors",
    "Amara.C45_empty",
    "Amara.C45_associative_partial",
    "Amara.C45_full_statement_is_false"
   ],
   "note": "left/right is exactly the concatenation in order; associativity fails when an intermediate item is falsy (an empty string, 0 or False), where the engine falls back to the outer context item"
  },
  {
   "property": "C46",
   "status": "proved",
   "theorems": [
    "Amara.C46_forward_axes",
    "Amara.C46_preceding_sibling",
    "Amara.C46_parent",
    "Amara.C46_ancestor",
    "Amara.C46_root",
    "Amara.C46_following_and_preceding_are_incomplete"
   ],
   "note": "documents without empty text nodes; the axes following and preceding, not part of the claim, are shown incomplete"
  },
  {
   "property": "C47",
   "status": "partial",
   "theorems": [
    "Amara.C47_name_tests",
    "Amara.C47_star_partial",
    "Amara.C47_text_tests",
    "Amara.C47_full_statement_is_false"
   ],
   "note": "the name test on the ancestor axis also yields the root; star on the child axis is exact"
  },
  {
   "property": "C48",
   "status": "proved",
   "theorems": [
    "Amara.C48_every_element_once",
    "Amara.C48_star",
    "Amara.C48_text",
    "Amara.worklist_below"
   ],
   "note": "documents without empty text nodes, which no parser produces"
  },
  {
   "property": "C49",
   "status": "proved",
   "theorems": [
    "Amara.C49_positional",
    "Amara.C49_computed_number",
    "Amara.C49_float_literal",
    "Amara.C49_no_integer"
   ],
   "note": "literal positions, and predicates whose number is computed for each item"
  },
  {
   "property": "C50",
   "status": "partial",
   "theorems": [
    "Amara.C50_boolean_predicate",
    "Amara.C50_full_statement_is_false"
   ],
   "note": "exact for non-numeric predicates at truthy items; falsy items are tested against the outer context item"
  },
  {
   "property": "C51",
   "status": "partial",
   "theorems": [
    "Amara.C51_union_partial",
    "Amara.C51_union_exactly",
    "Amara.C51_full_statement_is_false"
   ],
   "note": "in document order and complete, and each once when the sides are disjoint; an element in both sides is yielded twice"
  },
  {
   "property": "C52",
   "status": "partial",
   "theorems": [
    "Amara.C52_equality_partial",
    "Amara.C52_exactly",
    "Amara.C52_only_the_first_item",
    "Amara.C52_node_on_the_right_raises",
    "Amara.C52_full_statement_is_false"
   ],
   "note": "only the first item of the left side is compared"
  },
  {
   "property": "C53",
   "status": "proved",
   "theorems": [
    "Amara.C53_boolean_and_not",
    "Amara.C53_constants"
   ],
   "note": ""
  },
  {
   "property": "C54",
   "status": "proved",
   "theorems": [
    "Amara.C54_sequence",
    "Amara.C54_count"
   ],
   "note": ""
  },
  {
   "property": "C55",
   "status": "partial",
   "theorems": [
    "Amara.C55_concat",
    "Amara.C55_starts_with_contains",
    "Amara.C55_before_after_partial",
    "Amara.C55_before_after_otherwise",
    "Amara.C55_substring",
    "Amara.C55_string_length_partial",
    "Amara.C55_string",
    "Amara.C55_full_statement_is_false"
   ],
   "note": "substring-before yields the whole string if the separator is absent; an empty argument counts as the string False"
  },
  {
   "property": "C57",
   "status": "partial",
   "theorems": [
    "Amara.C57_connectives_partial",
    "Amara.C57_short_circuit",
    "Amara.C57_full_statement_is_false"
   ],
   "note": "an operand that yields nothing raises RuntimeError instead of counting as false"
  },
  {
   "property": "C56",
   "status": "partial",
   "theorems": [
    "Amara.C56_results_do_not_depend_on_history_partial",
    "Amara.C56_serialisation_partial",
    "Amara.C56_full_statement_is_false"
   ],
   "note": "results never depend on earlier evaluations; the text does: evaluating a//b rewrites the right step"
  },
  {
   "property": "C58",
   "status": "partial",
   "theorems": [
    "Amara.C58_evaluation_ends_partial",
    "Amara.C58_full_statement_is_false",
    "Amara.C58_self_application"
   ],
   "note": "false of the axis ancestor-or-self (endless) and of for-each on strings that contain for-each; every other expression ends"
  },
  {
   "property": "C59",
   "status": "partial",
   "theorems": [
    "Amara.C59_right_root_partial",
    "Amara.C59_full_statement_is_false"
   ],
   "note": "false when an element is moved after it was queried; right in every other history"
  },
  {
   "property": "C66",
   "status": "partial",
   "theorems": [
    "Amara.C66_attributes_partial",
    "Amara.C66_full_statement_is_false"
   ],
   "note": "@node() yields only an attribute called node, and attribute nodes lose their name"
  },
  {
   "property": "C67",
   "status": "partial",
   "theorems": [
    "Amara.C67_descendant_or_self_partial",
    "Amara.C67_full_statement_is_false"
   ],
   "note": "exact result stated: the element itself is included"
  },
  {
   "property": "C68",
   "status": "partial",
   "theorems": [
    "Amara.C68_successive_predicates_partial",
    "Amara.C68_full_statement_is_false"
   ],
   "note": "true unless a predicate after the first is a number"
  },
  {
   "property": "C70",
   "status": "partial",
   "theorems": [
    "Amara.C70_string_of_element_partial",
    "Amara.C55_string",
    "Amara.C70_full_statement_is_false"
   ],
   "note": "string(/) is empty"
  },
  {
   "property": "C71",
   "status": "proved",
   "theorems": [
    "Amara.C71_absolute_paths"
   ],
   "note": ""
  },
  {
   "property": "C60",
   "status": "proved",
   "theorems": [
    "Amara.C60_isxml",
    "Amara.C60_utf8_documents"
   ],
   "note": ""
  },
  {
   "property": "C61",
   "status": "proved",
   "theorems": [
    "Amara.C61_comments_are_not_text"
   ],
   "note": ""
  },
  {
   "property": "C62",
   "status": "partial",
   "theorems": [
    "Amara.C62_insert_before_partial",
    "Amara.C62_before_an_element",
    "Amara.C62_value_error",
    "Amara.C62_value_error_string",
    "Amara.C62_insert_text_last",
    "Amara.C62_insert_text_before_element",
    "Amara.C62_insert_text_before_string",
    "Amara.C62_text_before_comment_goes_last",
    "Amara.C62_full_statement_is_false"
   ],
   "note": "false if ref is a text node equal to an earlier one, or insertText before an empty text"
  },
  {
   "property": "C64",
   "status": "proved",
   "theorems": [
    "Amara.C64_empty_element_tag_raises",
    "Amara.C64_comment_raises",
    "Amara.C64_writer_empty_is_rejected"
   ],
   "note": ""
  },
  {
   "property": "C72",
   "status": "partial",
   "theorems": [
    "Amara.C72_remove_child_partial",
    "Amara.C72_value_error",
    "Amara.C72_full_statement_is_false"
   ],
   "note": "the removed child keeps its xml_parent"
  },
  {
   "property": "C73",
   "status": "proved",
   "theorems": [
    "Amara.C73_attributes_are_set",
    "Amara.C73_other_attributes_stay",
    "Amara.C73_in_order",
    "Amara.C73_colons_stay"
   ],
   "note": "the order of the attributes is stated too; a name with a colon can result, see C73_colons_stay"
  },
  {
   "property": "C74",
   "status": "proved",
   "theorems": [
    "Amara.C74_element_names",
    "Amara.C74_names_can_be_empty"
   ],
   "note": ""
  },
  {
   "property": "C75",
   "status": "partial",
   "theorems": [
    "Amara.C75_lax_top_is_detached_partial",
    "Amara.C75_full_statement_is_false"
   ],
   "note": "IndexError, not ValueError, when the body has no child"
  },
  {
   "property": "C76",
   "status": "partial",
   "theorems": [
    "Amara.C76_names_partial",
    "Amara.C76_full_statement_is_false"
   ],
   "note": "<></> is accepted, and attribute names can be a character followed by name characters"
  },
  {
   "property": "C63",
   "status": "partial",
   "theorems": [
    "Amara.C63_match_partial",
    "Amara.C63_match_exception",
    "Amara.C63_expr",
    "Amara.C63_find_text_partial",
    "Amara.C63_find_text_stops_above",
    "Amara.C63_full_statement_is_false"
   ],
   "note": "false when an item is the root node (NotImplementedError); find-text paths leave out the element that contains the text"
  },
  {
   "property": "C69",
   "status": "partial",
   "theorems": [
    "Amara.C69_read_back_partial",
    "Amara.C69_injective_partial",
    "Amara.C69_stable_partial",
    "Amara.C69_full_statement_is_false"
   ],
   "note": "false for expressions with strings (quotes are lost), a minus after a name or a slash after the root"
  },
  {
   "property": "C77",
   "status": "proved",
   "theorems": [
    "Amara.C77_parser_follows_the_grammar",
    "Amara.C77_one_meaning",
    "Amara.C77_grammar_is_unambiguous"
   ],
   "note": ""
  },
  {
   "property": "C78",
   "status": "proved",
   "theorems": [
    "Amara.C78_parsing_ends",
    "Amara.C78_syntax_error",
    "Amara.C78_rounds"
   ],
   "note": ""
  },
  {
   "property": "C79",
   "status": "partial",
   "theorems": [
    "Amara.C79_left_to_right",
    "Amara.C79_precedence_partial",
    "Amara.C79_unary_minus",
    "Amara.C79_full_statement_is_false"
   ],
   "note": "and is as strong as or: a or b and c is (a or b) and c"
  },
  {
   "property": "C80",
   "status": "partial",
   "theorems": [
    "Amara.C80_everything_before",
    "Amara.C80_operand_partial",
    "Amara.C80_full_statement_is_false",
    "Amara.C80_operators_are_inside_too"
   ],
   "note": "false as soon as the bracket follows a path or an operator: the bracket then filters everything before it"
  },
  {
   "property": "C81",
   "status": "proved",
   "theorems": [
    "Amara.C81_blanks_anywhere",
    "Amara.C81_only_the_tokens_matter",
    "Amara.C81_leading_blanks"
   ],
   "note": ""
  },
  {
   "property": "C82",
   "status": "partial",
   "theorems": [
    "Amara.C82_names_as_tests_partial",
    "Amara.C82_full_statement_is_false"
   ],
   "note": "names with a character from U+00C0 to U+00D6 are rejected by the lexer"
  },
  {
   "property": "C83",
   "status": "proved",
   "theorems": [
    "Amara.C83_query_of_a_text",
    "Amara.C83_bad_expression",
    "Amara.C83_bad_text",
    "Amara.C83_query_of_bytes",
    "Amara.C83_all_elements_of_a_name",
    "Amara.C83_path_of_names"
   ],
   "note": ""
  },
  {
   "property": "C84",
   "status": "proved",
   "theorems": [
    "Amara.C84_path_of_names",
    "Amara.C84_path_of_names_top",
    "Amara.C84_absolute_path_of_names"
   ],
   "note": ""
  },
  {
   "property": "C85",
   "status": "partial",
   "theorems": [
    "Amara.C85_ways_to_ask_partial",
    "Amara.C85_full_statement_is_false"
   ],
   "note": "qquery with a parsed expression always raises UnboundLocalError"
  },
  {
   "property": "C86",
   "status": "partial",
   "theorems": [
    "Amara.C86_integers",
    "Amara.C86_floats",
    "Amara.C86_strings",
    "Amara.C86_other_operands",
    "Amara.C86_full_statement_is_false"
   ],
   "note": "integers and strings by their first items only; elements, attributes and mixed operands raise TypeError; floats are compared by an abstract operation"
  },
  {
   "property": "C87",
   "status": "partial",
   "theorems": [
    "Amara.C87_name_partial",
    "Amara.C87_full_statement_is_false"
   ],
   "note": "the name of an attribute is lost; the context argument is the first item"
  },
  {
   "property": "C88",
   "status": "proved",
   "theorems": [
    "Amara.C88_variables",
    "Amara.C88_other_variables_do_not_matter"
   ],
   "note": ""
  },
  {
   "property": "C89",
   "status": "proved",
   "theorems": [
    "Amara.C89_for_each_is_a_path",
    "Amara.C89_bad_text"
   ],
   "note": ""
  },
  {
   "property": "C90",
   "status": "partial",
   "theorems": [
    "Amara.C90_full_statement_is_false"
   ],
   "note": "false for every operand: NotImplementedError or TypeError"
  },
  {
   "property": "C91",
   "status": "partial",
   "theorems": [
    "Amara.C91_number_partial",
    "Amara.C91_full_statement_is_false"
   ],
   "note": "what is not a number is a ValueError, an empty sequence too; booleans stay booleans"
  },
  {
   "property": "C92",
   "status": "partial",
   "theorems": [
    "Amara.C92_full_statement_is_false"
   ],
   "note": "false for every expression: last() is -1"
  },
  {
   "property": "C93",
   "status": "proved",
   "theorems": [
    "Amara.C93_unknown_function",
    "Amara.C93_wrong_number_of_arguments"
   ],
   "note": ""
  },
  {
   "property": "C94",
   "status": "partial",
   "theorems": [
    "Amara.C94_one_source_partial",
    "Amara.C94_command_expr",
    "Amara.C94_command_match",
    "Amara.C94_command_find_text",
    "Amara.C94_expression_rejected",
    "Amara.C94_first_source_again",
    "Amara.C94_error_in_a_source",
    "Amara.C94_source_without_element",
    "Amara.C94_full_statement_is_false"
   ],
   "note": "false with two or more sources: the shared builder returns the first document for every source; what is printed is stated exactly"
  },
  {
   "property": "C95",
   "status": "proved",
   "theorems": [
    "Amara.C95_partition",
    "Amara.C95_partition_star",
    "Amara.C95_partition_two_stars"
   ],
   "note": "C95_partition is for names other than * and **; with * each document is processed as a whole, with ** the run raises (the other two). Expat is represented by the callbacks it makes."
  },
  {
   "property": "C96",
   "status": "partial",
   "theorems": [
    "Amara.C96_full_statement_is_false"
   ],
   "note": "false: the option is accepted and never used"
  },
  {
   "property": "C97",
   "status": "proved",
   "theorems": [
    "Amara.C97_calls_do_not_interfere",
    "Amara.C97_same_as_alone",
    "Amara.C97_result_stays",
    "Amara.C97_trees_are_disjoint",
    "Amara.C97_call_can_end"
   ],
   "note": "an assignment of the builder is one step; what the parser, which belongs to the call, does in between is not split up"
  },
  {
   "property": "C98",
   "status": "partial",
   "theorems": [
    "Amara.C98_uninterrupted_partial",
    "Amara.C98_interrupted_call_returns_other_tree",
    "Amara.C98_full_statement_is_false"
   ],
   "note": "false: the calls share one builder; for any two documents there is a schedule in which one call returns the tree of the other's document; what holds is shown for calls that are not interrupted"
  },
  {
   "property": "C99",
   "status": "proved",
   "theorems": [
    "Amara.C99_every_character_accounted",
    "Amara.C99_always_ends"
   ],
   "note": ""
  },
  {
   "property": "C100",
   "status": "partial",
   "theorems": [
    "Amara.C100_scans_documents_partial",
    "Amara.C100_tokens_determine_the_tree_partial",
    "Amara.C100_full_statement_is_false",
    "Amara.C100_name_lost"
   ],
   "note": "false for documents with white space between '<' and '/' and for element names that begin or end with U+1680"
  },
  {
   "property": "C101",
   "status": "partial",
   "theorems": [
    "Amara.C101_same_as_fresh_partial",
    "Amara.C101_after_documents",
    "Amara.C101_full_statement_is_false",
    "Amara.C101_generators_share"
   ],
   "note": "false: the module has one lexer; a text that ends inside a tag changes how the next one is scanned"
  },
  {
   "property": "C102",
   "status": "proved",
   "theorems": [
    "Amara.C102_reads_the_whole_tree"
   ],
   "note": "the generator is modelled as a stack of list iterators that read memory when asked"
  },
  {
   "property": "C103",
   "status": "proved",
   "theorems": [
    "Amara.C103_only_removals",
    "Amara.C103_changes_ahead",
    "Amara.C103_removal_misses"
   ],
   "note": "C103_removal_misses shows that the condition on where changes are made is needed: removing the element just yielded makes the iteration miss the next one"
  },
  {
   "property": "C104",
   "status": "partial",
   "theorems": [
    "Amara.C104_no_neighbours_partial",
    "Amara.C104_what_is_left",
    "Amara.C104_loop_ends",
    "Amara.C104_over_a_copy",
    "Amara.C104_full_statement_is_false"
   ],
   "note": "false of the code: the node after a removed one is passed over; what is left is stated exactly, and the loop over a copy of the list is proved to do what is wanted"
  },
  {
   "property": "C105",
   "status": "proved",
   "theorems": [
    "Amara.C105_kept_element",
    "Amara.C105_parent_is_lost"
   ],
   "note": "the collector may take any unreachable objects at any time"
  },
  {
   "property": "C106",
   "status": "partial",
   "theorems": [
    "Amara.C106_html_names_partial",
    "Amara.C106_name_tuple_exactly",
    "Amara.C106_xml_name",
    "Amara.C106_full_statement_is_false"
   ],
   "note": "false for names with a colon and for namespaces other than XHTML (SVG, MathML); the cases in which it holds are stated exactly"
  },
  {
   "property": "C107",
   "status": "partial",
   "theorems": [
    "Amara.C107_clone_partial",
    "Amara.C107_names",
    "Amara.C107_full_statement_is_false"
   ],
   "note": "false: the copy of an HTML element has no namespace, so its nameTuple differs"
  },
  {
   "property": "C108",
   "status": "proved",
   "theorems": [
    "Amara.C108_child_nodes_are_set",
    "Amara.C108_former_children",
    "Amara.C108_has_content"
   ],
   "note": ""
  },
  {
   "property": "C109",
   "status": "proved",
   "theorems": [
    "Amara.C109_children_are_moved"
   ],
   "note": ""
  },
  {
   "property": "C110",
   "status": "proved",
   "theorems": [
    "Amara.C110_listed_once",
    "Amara.C110_one_place",
    "Amara.C110_is_a_tree"
   ],
   "note": ""
  },
  {
   "property": "C111",
   "status": "proved",
   "theorems": [
    "Amara.C111_first_element",
    "Amara.C111_none"
   ],
   "note": ""
  },
  {
   "property": "C112",
   "status": "partial",
   "theorems": [
    "Amara.C112_uninterrupted_partial",
    "Amara.C112_others",
    "Amara.C112_one_after_the_other",
    "Amara.C112_another_text_is_parsed",
    "Amara.C112_a_mixture",
    "Amara.C112_full_statement_is_false",
    "Amara.C112_any_schedule",
    "Amara.C112_can_end"
   ],
   "note": "false for threads: calls share one lexer, so a call can parse another call's text or a mixture; true for calls that are not interrupted, from any state of the lexer, and under any schedule the result is one that the grammar derives from tokens written in the texts"
  },
  {
   "property": "C113",
   "status": "proved",
   "theorems": [
    "Amara.C113_no_fault",
    "Amara.C113_never_faults"
   ],
   "note": "PyUnicode_Decode and PyArg_ParseTuple are taken as given; a wchar_t of 32 bits"
  },
  {
   "property": "C114",
   "status": "proved",
   "theorems": [
    "Amara.C114_sent_objects_are_the_trees",
    "Amara.C114_collector",
    "Amara.C114_document_partial",
    "Amara.C114_can_run"
   ],
   "note": "one pattern; the sink does not attach what it gets to other trees (C65 says what happens then); which elements match is C33, hence the suffix of the document version"
  },
  {
   "property": "C115",
   "status": "proved",
   "theorems": [
    "Amara.C115_what_is_kept",
    "Amara.C115_memory_bound",
    "Amara.C115_document_partial"
   ],
   "note": "one pattern; the document version is for the patterns of C33"
  },
  {
   "property": "C116",
   "status": "proved",
   "theorems": [
    "Amara.C116_delivered_so_far",
    "Amara.C116_in_pieces",
    "Amara.C116_tag_end_delivers",
    "Amara.C116_tag_start_delivers",
    "Amara.C116_nothing_else_delivers"
   ],
   "note": "pieces cut outside attribute values: inside one the parser loses its place (C02)"
  },
  {
   "property": "C117",
   "status": "partial",
   "theorems": [
    "Amara.C117_as_if_copied_partial",
    "Amara.C117_parsed_elements",
    "Amara.C117_parsed_attributes",
    "Amara.C117_one_pattern",
    "Amara.C117_shared_mapping",
    "Amara.C117_empty_mapping",
    "Amara.C117_full_statement_is_false"
   ],
   "note": "false of the code when one non-empty mapping is passed for two elements, and for the elements a sender with several patterns makes of one tag; proved for parsed trees, for a sender with one pattern, for copies, and for every program that passes each mapping once"
  },
  {
   "property": "C118",
   "status": "partial",
   "theorems": [
    "Amara.C118_numbered_anew",
    "Amara.C118_first_at_the_root",
    "Amara.C118_only_removals_partial",
    "Amara.C118_added_since",
    "Amara.C118_full_statement_is_false"
   ],
   "note": "false of the code: the numbers are never refreshed, so a moved element keeps its old place, an added one makes the union raise AttributeError, and numbering from an element gives the document element the number of the root; proved when the context node has no number yet, and when nodes have only been removed since"
  },
  {
   "property": "C119",
   "status": "proved",
   "theorems": [
    "Amara.C119_descendant",
    "Amara.C119_descendant_or_self",
    "Amara.C119_siblings",
    "Amara.C119_following",
    "Amara.C119_node_tests"
   ],
   "note": "one step, read by its generator; siblings of an element (those of a text node are found by ==, as in C39)"
  },
  {
   "property": "C120",
   "status": "partial",
   "theorems": [
    "Amara.C120_delete_descendants",
    "Amara.C120_delete_with_slashes",
    "Amara.C120_delete_children",
    "Amara.C120_children_no_neighbours_partial",
    "Amara.C120_full_statement_is_false"
   ],
   "note": "proved for descendant::n and .//n; false of the code for child::n: the step reads the child list itself and passes over the node after each one removed"
  },
  {
   "property": "C121",
   "status": "partial",
   "theorems": [
    "Amara.C121_delete_everywhere",
    "Amara.C121_document_element",
    "Amara.C121_no_neighbours_partial",
    "Amara.C121_full_statement_is_false"
   ],
   "note": "false of the code: //n reads every child list with the list's own iterator, so the second of two neighbours is left; what is left is stated exactly for every tree, and is what was asked for if no two neighbours have the name"
  },
  {
   "property": "C122",
   "status": "partial",
   "theorems": [
    "Amara.C122_never_out_of_order_partial",
    "Amara.C122_all_at_the_root_partial",
    "Amara.C122_numbered_before",
    "Amara.C122_own_numbering",
    "Amara.C122_ends",
    "Amara.C122_full_statement_is_false"
   ],
   "note": "The full statement is false of the code: the numbering is not atomic and is skipped as soon as the context has a number. Proved for every schedule: no wrong order among threads whose contexts share a top, no error for contexts that number the tree themselves or once the tree is numbered, and that every evaluation ends."
  },
  {
   "property": "C123",
   "status": "partial",
   "theorems": [
    "Amara.C123_asked_is_kept",
    "Amara.C123_what_asking_adds",
    "Amara.C123_not_asked_is_freed_partial",
    "Amara.C123_full_statement_is_false",
    "Amara.C123_visited_exists"
   ],
   "note": "The full statement is false of the code: the cache of root nodes holds elements strongly and is never emptied. Proved: exactly what one query adds to it, that a document asked once is kept whatever happens, and that a document not asked is freed."
  },
  {
   "property": "C124",
   "status": "partial",
   "theorems": [
    "Amara.C124_exactly",
    "Amara.C124_cached_for_ever",
    "Amara.C124_document_element_first_partial",
    "Amara.C124_full_statement_is_false"
   ],
   "note": "The full statement is false of the code. Proved: which root node is used, for every tree and cache."
  },
  {
   "property": "C125",
   "status": "proved",
   "theorems": [
    "Amara.C125_pieces",
    "Amara.C125_pieces_plain",
    "Amara.C125_raw_as_handler",
    "Amara.C125_namespacer",
    "Amara.C125_nothing_is_lost"
   ],
   "note": ""
  },
  {
   "property": "C126",
   "status": "partial",
   "theorems": [
    "Amara.C126_siblings_exactly",
    "Amara.C126_siblings_partial",
    "Amara.C126_other_axes_from_text",
    "Amara.C126_full_statement_is_false",
    "Amara.firstLike_exists"
   ],
   "note": "The full statement is false of the code: siblings are counted from the first sibling equal to the text, and the ancestor axis ends in AssertionError. Proved: exactly what each axis yields, for every node and test."
  },
  {
   "property": "C127",
   "status": "partial",
   "theorems": [
    "Amara.C127_values",
    "Amara.C127_attributes",
    "Amara.C127_root",
    "Amara.C127_full_statement_is_false"
   ],
   "note": "The full statement is false of the code. Proved: exactly what each axis yields or raises; ancestor-or-self from an attribute does not end and is covered by C58."
  },
  {
   "property": "C128",
   "status": "partial",
   "theorems": [
    "Amara.C128_slash_node",
    "Amara.C128_slash_slash_node_partial",
    "Amara.C128_only_for_node",
    "Amara.C128_full_statement_is_false"
   ],
   "note": "The full statement is false of the code: the root node is yielded first. Proved: exactly what is yielded, for every document."
  },
  {
   "property": "C129",
   "status": "partial",
   "theorems": [
    "Amara.C129_encode_partial",
    "Amara.C129_xml_value_partial",
    "Amara.C129_strval_partial",
    "Amara.C129_descendants_partial",
    "Amara.C129_write_partial",
    "Amara.C129_write_output_partial",
    "Amara.C129_select_pattern_partial",
    "Amara.C129_select_pattern_any_depth",
    "Amara.C129_select_pattern_fails",
    "Amara.C129_full_statement_is_false"
   ],
   "note": "The full statement is false of the code. Proved: for every limit what is returned, if anything, is the result without a limit, and from which depth on RecursionError is certain or excluded."
  },
  {
   "property": "C130",
   "status": "partial",
   "theorems": [
    "Amara.C130_interrupted",
    "Amara.C130_nothing_is_lost",
    "Amara.C130_full_statement_is_false"
   ],
   "note": "The claim 'all or nothing' is false of the code. Proved: exactly which state an interrupted make_pretty leaves, when it is interrupted, and that no content is ever lost."
  },
  {
   "property": "C131",
   "status": "proved",
   "theorems": [
    "Amara.C131_first_item_decides",
    "Amara.C131_errors_come_out",
    "Amara.C131_errors_later"
   ],
   "note": ""
  },
  {
   "property": "C132",
   "status": "proved",
   "theorems": [
    "Amara.C132_which_exception",
    "Amara.C132_bad_reference_in_text",
    "Amara.C132_bad_reference_in_attribute",
    "Amara.C132_not_only_runtime"
   ],
   "note": "ValueError and OverflowError are one value in the model."
  },
  {
   "property": "C133",
   "status": "proved",
   "theorems": [
    "Amara.C133_any_text",
    "Amara.C133_cut_off"
   ],
   "note": "A pattern ending in ** makes the sender raise (C33, C34) and is excluded."
  },
  {
   "property": "C134",
   "status": "proved",
   "theorems": [
    "Amara.C134_elements_with_attribute",
    "Amara.C134_elements_with_child",
    "Amara.C134_attributes_of_elements",
    "Amara.C134_children_of_elements",
    "Amara.C134_attributes_anywhere",
    "Amara.C134_microx_prints_attributes",
    "Amara.C134_documented_examples_fail",
    "Amara.C134_what_to_write_instead"
   ],
   "note": "The examples in the usage text of exec/microx that fetch a record by its id do not do what the text says; shown on a concrete document and, for the printed lines, in general."
  },
  {
   "property": "C135",
   "status": "partial",
   "theorems": [
    "Amara.C135_run_up_to_the_failure",
    "Amara.C135_any_text",
    "Amara.C135_one_sink_partial",
    "Amara.C135_sink_is_over",
    "Amara.C135_first_n",
    "Amara.C135_left_behind",
    "Amara.C135_next_document",
    "Amara.C135_full_statement_is_false",
    "Amara.C135_other_sinks"
   ],
   "note": "The last sentence is false of the code: a sender whose sink failed keeps the start events of the elements around the failed one, and takes every later document as though it stood there. What it then sends, and what it appends to the failed element, is stated exactly. With '**' before named stages the matches are those of C33."
  },
  {
   "property": "C136",
   "status": "proved",
   "theorems": [
    "Amara.C136_html",
    "Amara.C136_lax",
    "Amara.C136_lax_nothing_found",
    "Amara.C136_options",
    "Amara.C136_html_nothing_found",
    "Amara.C136_lax_text_found"
   ],
   "note": "What html5lib builds is an arbitrary tree. What a run does when --lax finds a text, or --html no element, is outside the model, apart from what it has done before."
  },
  {
   "property": "C137",
   "status": "proved",
   "theorems": [
    "Amara.C137_pieces",
    "Amara.C137_document",
    "Amara.C137_chunks"
   ],
   "note": "Expat itself is outside the model: which callbacks it makes for a piece of text is arbitrary, as long as all of them together are those of the document. That Python's binding removes the callbacks once one has raised is taken as given. '**' at the end of a pattern makes the sender raise (C33) and is excluded from C137_document."
  },
  {
   "property": "C138",
   "status": "proved",
   "theorems": [
    "Amara.C138_xml_encode",
    "Amara.C138_writer",
    "Amara.C138_encode_changes_texts",
    "Amara.C138_writer_alignment"
   ],
   "note": "Indents without carriage returns: those are not legal in MicroXML. The writer indents the first child element once less than its siblings (C138_writer_alignment)."
  },
  {
   "property": "C139",
   "status": "proved",
   "theorems": [
    "Amara.C139_one_call",
    "Amara.C139_history",
    "Amara.C139_afterwards",
    "Amara.C139_handler_ended_elsewhere",
    "Amara.C139_early_exit",
    "Amara.C139_new_parser",
    "Amara.C139_first_events"
   ],
   "note": "A handler is any function from what it has been sent to what it does. A handler that raises GeneratorExit is outside the model. Making a parser resumes the handler once with None; a handler that is over makes it raise RuntimeError (C139_new_parser)."
  },
  {
   "property": "C140",
   "status": "proved",
   "theorems": [
    "Amara.C140_memory_is_the_forest",
    "Amara.C140_trees_are_apart",
    "Amara.C140_calls_succeed",
    "Amara.C140_parsing_succeeds",
    "Amara.C140_changed_here",
    "Amara.C140_same_elsewhere",
    "Amara.C140_above",
    "Amara.C140_output",
    "Amara.C140_insert_in_output",
    "Amara.C140_remove_in_output",
    "Amara.C140_save_and_load"
   ],
   "note": "Programs insert a whole tree that has no parent, or a copy of a text: an element put into two places is C25. A text is removed if it is the first child with its characters: for others xml_remove takes out the first one (C26). Elements do not share attribute mappings (C117). Saving and loading is for trees that are MicroXML."
  },
  {
   "property": "C141",
   "status": "partial",
   "theorems": [
    "Amara.C141_one_item_per_route",
    "Amara.C141_from_an_element",
    "Amara.C141_finds_what_is_along_it",
    "Amara.C141_in_order_partial",
    "Amara.C141_each_once_partial",
    "Amara.C141_full_statement_is_false"
   ],
   "note": "Which elements are found is proved in full, and how often and in which order: one item per route. `Each once and in document order` is false in general, `descendant::b/descendant::c` yields an element below two `b` twice and `descendant::b/c` yields the children of the outer `b` before those of an inner one that comes earlier (C141_full_statement_is_false); it is proved for paths with one step of open depth."
  },
  {
   "property": "C142",
   "status": "proved",
   "theorems": [
    "Amara.C142_rewriting_is_sound",
    "Amara.C142_union_commutes",
    "Amara.C142_union_associates",
    "Amara.C142_no_laws"
   ],
   "note": "The laws are the constructors of Rewrites in Spec/Rewrite. Arguments of substring and the right side of `//` are not rewritten: the program looks at how these are written. C142_no_laws shows laws one might expect that do not hold."
  },
  {
   "property": "C143",
   "status": "proved",
   "theorems": [
    "Amara.C143_results_can_be_rewritten",
    "Amara.C143_is_the_query",
    "Amara.C143_attributes_can_be_changed",
    "Amara.C143_steps_are_the_query"
   ],
   "note": "Paths of child steps with predicates; C119 to C121 are the other axes, one step. Removing a result from its parent changes the child list being iterated over and is not covered: see C120 for what then happens."
  },
  {
   "property": "C144",
   "status": "proved",
   "theorems": [
    "Amara.C144_when_it_succeeds",
    "Amara.C144_what_is_left",
    "Amara.C144_path",
    "Amara.C144_everywhere",
    "Amara.C144_twice_fails"
   ],
   "note": "The list is made before the first removal; removing while the query is being read is C120. Elements only: xml_remove of a text takes out the first equal one (C26)."
  },
  {
   "property": "C145",
   "status": "proved",
   "theorems": [
    "Amara.C145_written",
    "Amara.C145_records",
    "Amara.C145_chunks",
    "Amara.C145_reads_back"
   ],
   "note": "Patterns are the safe ones of C33 and the names have no prefixes (mapping). Reading back is by the MicroXML parser, for a default namespace or none: prefixed declarations are no MicroXML."
  },
  {
   "property": "C146",
   "status": "partial",
   "theorems": [
    "Amara.C146_piece",
    "Amara.C146_text",
    "Amara.C146_inside",
    "Amara.C146_apart",
    "Amara.C146_cut",
    "Amara.C146_query",
    "Amara.C146_reads_back",
    "Amara.C146_full_statement_is_false"
   ],
   "note": "Exact for elements. False for text nodes: xml_encode of a text does not escape, so the piece of a text is its escaped form (C146_text) and not what xml_encode gives."
  },
  {
   "property": "C147",
   "status": "proved",
   "theorems": [
    "Amara.C147_trees",
    "Amara.C147_senders",
    "Amara.C147_queries"
   ],
   "note": "What expat reports for the document is a hypothesis (ReportsDoc in Spec/Readers): expat is not modelled. Queries that count or compare text nodes depend on how expat cuts text: C148_not_for_text_nodes."
  },
  {
   "property": "C148",
   "status": "proved",
   "theorems": [
    "Amara.C148_paths",
    "Amara.C148_elements_only",
    "Amara.C148_elements_and_texts",
    "Amara.C148_cutting_text",
    "Amara.C148_indent_and_read",
    "Amara.C148_not_for_text_nodes"
   ],
   "note": "Paths as in C141, on trees without empty text nodes. C148_paths is for any tests that agree on corresponding elements; the others for the tests of Spec/Bones."
  },
  {
   "property": "C149",
   "status": "proved",
   "theorems": [
    "Amara.C149_enough_room",
    "Amara.C149_too_deep",
    "Amara.C149_root_enough_room",
    "Amara.C149_root_too_deep",
    "Amara.C149_afterwards",
    "Amara.C149_fails_for_good",
    "Amara.C149_root_no_room"
   ],
   "note": "The room is the number of calls of descendants that fit in each other; evaluating the two sides is taken not to meet the limit."
  },
  {
   "property": "C150",
   "status": "partial",
   "theorems": [
    "Amara.C150_which_items",
    "Amara.C150_what_is_raised",
    "Amara.C150_up_to_the_first_that_cannot",
    "Amara.C150_nodes",
    "Amara.C150_paths_print",
    "Amara.C150_elements_read_back",
    "Amara.C150_text_is_what_is_written_iff",
    "Amara.C150_attributes",
    "Amara.C150_full_statement_is_false"
   ],
   "note": "Proved for elements and exact for the rest. False for the root, strings, numbers and booleans, which have no serialisation and end the loop with an exception; for attributes, of which only the value is printed and which cannot be written; and for texts with any of & < >, which are not escaped."
  },
  {
   "property": "C151",
   "status": "partial",
   "theorems": [
    "Amara.C151_none_given",
    "Amara.C151_a_call",
    "Amara.C151_nothing_else_can_be_called",
    "Amara.C151_other_functions_do_not_matter",
    "Amara.C151_added_to_the_built_in",
    "Amara.C151_as_a_test",
    "Amara.C151_full_statement_is_false"
   ],
   "note": "Full statement false: the mapping given replaces the built-in functions, so that built-in functions can no longer be called unless the caller puts them in. Functions are modelled as pure and as looking at the context item only."
  },
  {
   "property": "C152",
   "status": "partial",
   "theorems": [
    "Amara.C152_only_the_element_counts",
    "Amara.C152_moved_items",
    "Amara.C152_changes_elsewhere",
    "Amara.C152_alone_partial",
    "Amara.C152_streaming_partial",
    "Amara.C152_full_statement_is_false"
   ],
   "note": "Proved for all of the language below an element, in any two documents. False for the element alone, where the context item is the root instead of the element; the query has to begin with */ there. Unions in trees that carry no numbers from earlier queries (C118)."
  },
  {
   "property": "C153",
   "status": "proved",
   "theorems": [
    "Amara.C153_evaluation",
    "Amara.C153_xml_xpath",
    "Amara.C153_items_agree",
    "Amara.C153_one_to_one",
    "Amara.C153_bound",
    "Amara.C153_after_any_program",
    "Amara.C153_history_does_not_matter",
    "Amara.C153_save_and_load",
    "Amara.C153_attached_elements_excluded"
   ],
   "note": "The evaluator is modelled a second time, on objects with children lists and weak parent references (Model/XHeap.lean), and shown to agree with the evaluator on documents. The number of nodes visited in a walk is bounded by k in the model; any k at least the number of nodes of the tree gives the same. Unions number the tree anew (C118 is about numbers left by earlier queries). Elements listed in two places are excluded by the statement; C153_attached_elements_excluded shows what happens there."
  },
  {
   "property": "C154",
   "status": "proved",
   "theorems": [
    "Amara.C154_isolated",
    "Amara.C154_results_are_linked",
    "Amara.C154_results_are_in_the_trees",
    "Amara.C154_other_trees_do_not_matter",
    "Amara.C154_union_with_a_foreign_node",
    "Amara.C154_union_with_a_foreign_root",
    "Amara.C154_union_depends_on_history"
   ],
   "note": "On the evaluator over objects (Model/XHeap.lean), for any heap. Unions in that model number the nodes anew; what the numbers kept from earlier unions do to a union of nodes of different trees is stated on the model of the numbers (Model/DocOrder.lean)."
  },
  {
   "property": "C155",
   "status": "partial",
   "theorems": [
    "Amara.C155_same_as_on_the_suffix",
    "Amara.C155_same_outcome",
    "Amara.C155_holds_everything",
    "Amara.C155_the_read_part_is_not_needed",
    "Amara.C155_work_of_a_call",
    "Amara.C155_work_in_one_call",
    "Amara.C155_work_of_parse",
    "Amara.C155_work_of_any_call",
    "Amara.C155_work_of_all_calls",
    "Amara.C155_work_is_not_proportional"
   ],
   "note": "Everything stated is proved. Partial because what a user of a streaming parser expects is false of the code: C155_holds_everything (memory grows with the text) and C155_work_is_not_proportional (work grows with the square of a text passed in small pieces). Reads are evaluations of window[i]; slices and string concatenation are not counted."
  },
  {
   "property": "C156",
   "status": "proved",
   "theorems": [
    "Amara.C156_paths",
    "Amara.C156_tests",
    "Amara.C156_on_a_text",
    "Amara.C156_from_an_element",
    "Amara.C156_same_meaning",
    "Amara.C156_on_objects",
    "Amara.C156_after_any_program"
   ],
   "note": "by induction on the path and the test; the language leaves out the forms for which other claims show that the evaluator deviates (`*` off the child axis, parent and ancestor axes, empty operands of `and`/`or`, comparisons of several items, unions with the root node)"
  },
  {
   "property": "C157",
   "status": "partial",
   "theorems": [
    "Amara.C157_same_or_RecursionError",
    "Amara.C157_more_room",
    "Amara.C157_enough_room",
    "Amara.C157_any_depth",
    "Amara.C157_some_room_is_enough",
    "Amara.C157_too_deep",
    "Amara.C157_union_too_deep",
    "Amara.C157_full_statement_is_false",
    "Amara.C157_core",
    "Amara.C157_core_any_depth"
   ],
   "note": "Everything but the last clause is proved; that one is false of the code: C157_full_statement_is_false gives, for every limit, a document that is parsed and on which string(.) raises RecursionError. C157_enough_room and C157_any_depth, which give the number of calls, leave out for-each, which evaluates strings as expressions; C157_some_room_is_enough covers it."
  },
  {
   "property": "C158",
   "status": "partial",
   "theorems": [
    "Amara.C158_history_does_not_matter_partial",
    "Amara.C158_after_parsing_partial",
    "Amara.C158_full_statement_is_false"
   ],
   "note": "Proved for all queries in which the two sides of a union never yield the root node (a condition on the text of the query), for every history and interleaving. With the root node in a union the claim is false of the code: C158_full_statement_is_false gives the history."
  },
  {
   "property": "C159",
   "status": "proved",
   "theorems": [
    "Amara.C159_stream_and_tree",
    "Amara.C159_xml_stream_and_tree",
    "Amara.C159_same_values",
    "Amara.C159_only_down"
   ],
   "note": "The property restricts the query after the path to one that looks down; C159_only_down shows that the restriction is needed, C152_full_statement_is_false that the `*/` is."
  },
  {
   "property": "C160",
   "status": "proved",
   "theorems": [
    "Amara.C160_several_patterns",
    "Amara.C160_can_run",
    "Amara.C160_document"
   ],
   "note": "for sinks that do not attach what they get to trees of their own while the sender runs (what happens otherwise is C65). Which elements the patterns select when there are several is C35."
  },
  {
   "property": "C161",
   "status": "proved",
   "theorems": [
    "Amara.C161_what_is_kept",
    "Amara.C161_memory_bound",
    "Amara.C161_document"
   ],
   "note": "as C160; the counts are of node objects that are reachable from the sender"
  },
  {
   "property": "C162",
   "status": "proved",
   "theorems": [
    "Amara.C162_exactly",
    "Amara.C162_one_list",
    "Amara.C162_count_and_number",
    "Amara.C162_on_a_text",
    "Amara.C162_from_an_element"
   ],
   "note": "exact lists, in order and with multiplicity, for the language of C156; the specification Spec/MeaningList says each form in one line; there is exactly one such list and its members are the places of C156"
  },
  {
   "property": "C163",
   "status": "proved",
   "theorems": [
    "Amara.C163_one_source",
    "Amara.C163_lines_exist",
    "Amara.C163_partition",
    "Amara.C163_html",
    "Amara.C163_foreach_is_a_step",
    "Amara.C163_match_is_anywhere"
   ],
   "note": "composes C94, C95, C136, C63 and C162; the root is excluded from what is printed (it cannot be printed, C63); several sources without --partition or --html print the first document again and again, C94"
  },
  {
   "property": "C164",
   "status": "proved",
   "theorems": [
    "Amara.C164_exactly",
    "Amara.C164_one_list",
    "Amara.C164_count_and_string",
    "Amara.C164_name",
    "Amara.C164_on_a_text",
    "Amara.C164_from_an_element",
    "Amara.C164_microx_one_source",
    "Amara.C164_lines_exist",
    "Amara.C164_microx_partition",
    "Amara.C164_microx_html",
    "Amara.C164_texts_out_of_order"
   ],
   "note": "The lists are said by Spec/MeaningValues, one line for each form; //text() comes element by element, not in document order (C164_texts_out_of_order), as its specification says. For //node() see C67."
  },
  {
   "property": "C165",
   "status": "partial",
   "theorems": [
    "Amara.C165_alone_partial",
    "Amara.C165_written_out",
    "Amara.C165_full_statement_is_false"
   ],
   "note": "False of the code: the grammar takes text() and node() written alone for expressions, not for steps, so that they are applied to the context node itself: text() finds nothing and node() finds the element. Proved: exactly that, and that the forms written out find the children."
  },
  {
   "property": "C166",
   "status": "proved",
   "theorems": [
    "Amara.C166_exactly",
    "Amara.C166_one_list",
    "Amara.C166_tests",
    "Amara.C166_on_a_text",
    "Amara.C166_from_an_element",
    "Amara.C166_microx_one_source",
    "Amara.C166_first_is_not_some"
   ],
   "note": "The lists and tests are said by Spec/MeaningTests, one line for each form; as in the code, = looks at the first thing found (C52, C166_first_is_not_some) and nothing found counts as False for contains and starts-with (C55)."
  },
  {
   "property": "C167",
   "status": "proved",
   "theorems": [
    "Amara.C167_is_read",
    "Amara.C167_on_a_text",
    "Amara.C167_from_an_element",
    "Amara.C167_can_be_spelled",
    "Amara.C167_lookup"
   ],
   "note": "Spec/QueryText says how each form is written in tokens; blanks and spellings of tokens are those of Written (C77, C81). Names with a letter from \u00c0 to \u00d6 cannot be written (C82)."
  },
  {
   "property": "C168",
   "status": "partial",
   "theorems": [
    "Amara.C168_one_step_partial",
    "Amara.C168_more_steps",
    "Amara.C168_full_statement_is_false"
   ],
   "note": "False of the code when more than one step follows: a[@k]//b/c is evaluated as a[@k]/b/c. Proved for one step after //."
  },
  {
   "property": "C169",
   "status": "proved",
   "theorems": [
    "Amara.C169_lines_exist",
    "Amara.C169_one_source",
    "Amara.C169_partition",
    "Amara.C169_html"
   ],
   "note": "From the text on the command line to the lines printed: composes C167 (texts), C166 (lists), C63, C94, C95 and C136. The root node is excluded from what is printed, as it cannot be printed (C63)."
  },
  {
   "property": "C170",
   "status": "partial",
   "theorems": [
    "Amara.C170_stands_for_its_value_partial",
    "Amara.C170_in_the_text_partial",
    "Amara.C170_on_a_text_partial",
    "Amara.C170_full_statement_is_false",
    "Amara.C170_lookup"
   ],
   "note": "False of the code for the start and length of substring: substring('abc', $i, 1) raises RuntimeError where substring('abc', 1, 1) yields 'a'. Proved for every query in which no variable stands there."
  },
  {
   "property": "C171",
   "status": "proved",
   "theorems": [
    "Amara.C171_same_found",
    "Amara.C171_same_lines",
    "Amara.C171_same_lines_any_text",
    "Amara.C171_save_and_ask_again",
    "Amara.C171_indent_and_ask_again",
    "Amara.C171_not_with_empty_text"
   ],
   "note": "Extends C148 to the queries of C166 and C169. Trees without empty text nodes, which are those read from a text; with one, //a finds the top element twice (C171_not_with_empty_text; see C48)."
  },
  {
   "property": "C172",
   "status": "proved",
   "theorems": [
    "Amara.C172_asking_a_record",
    "Amara.C172_stream_and_tree",
    "Amara.C172_xml_stream_and_tree",
    "Amara.C172_numbers_count_across_records"
   ],
   "note": "Extends C159 to the queries of C166 in the texts of C167. The last theorem shows that the condition on numbers in brackets is needed."
  },
  {
   "property": "C173",
   "status": "proved",
   "theorems": [
    "Amara.C173_selectors",
    "Amara.C173_patterns",
    "Amara.C173_descendants",
    "Amara.C173_following_siblings",
    "Amara.C173_select_value_takes_texts"
   ],
   "note": "Patterns with '**' are C40; there the two differ."
  },
  {
   "property": "C174",
   "status": "proved",
   "theorems": [
    "Amara.C174_testing_a_record",
    "Amara.C174_filtered_stream",
    "Amara.C174_filtered_xml_stream",
    "Amara.C174_reads_back",
    "Amara.C174_only_what_is_in_the_record"
   ],
   "note": "Combines C33, C145, C166 and C167. The last theorem shows that the tests must look down."
  },
  {
   "property": "C175",
   "status": "proved",
   "theorems": [
    "Amara.C175_taking_out",
    "Amara.C175_parse_clear_save",
    "Amara.C175_may_find_more"
   ],
   "note": "Combines C144, C153, C166 and C167. The list is made before the first removal (while reading: C120, C121). The last theorem shows why the last clause is restricted to tests on the element itself."
  },
  {
   "property": "C176",
   "status": "proved",
   "theorems": [
    "Amara.C176_records_are_the_query",
    "Amara.C176_xml_records_are_the_query",
    "Amara.C176_stream_and_tree",
    "Amara.C176_filtered_stream",
    "Amara.C176_two_stars_send_less",
    "Amara.C176_two_stars_send_the_outermost"
   ],
   "note": "Extends C159, C172 and C174 from names to names and '*'. With a ** stage fewer are sent (the last two theorems; in general C33, C35)."
  },
  {
   "property": "C177",
   "status": "proved",
   "theorems": [
    "Amara.C177_touching",
    "Amara.C177_marked_are_found",
    "Amara.C177_dropped_are_not_found",
    "Amara.C177_renamed_are_found",
    "Amara.C177_parse_touch_save",
    "Amara.C177_asked_again"
   ],
   "note": "Combines C48, C140, C153, C166 and C167. The list is made before the first change; the last theorem shows a body that changes what the query asked again would find. @* is left out of the marks, as * is not an attribute name."
  },
  {
   "property": "C178",
   "status": "proved",
   "theorems": [
    "Amara.C178_moving",
    "Amara.C178_found_there",
    "Amara.C178_nothing_lost"
   ],
   "note": "Combines C140, C153, C166 and C175. That the loops end, and so the second theorem is not vacuous, is the equivalence in the first."
  },
  {
   "property": "C179",
   "status": "proved",
   "theorems": [
    "Amara.C179_adding",
    "Amara.C179_found_then",
    "Amara.C179_add_and_save"
   ],
   "note": "Combines C15, C48, C140, C153 and C166. The new element is made anew in each round, as in the program; one element appended several times is C24 and C140."
  },
  {
   "property": "C180",
   "status": "proved",
   "theorems": [
    "Amara.C180_copying",
    "Amara.C180_copy_and_save",
    "Amara.C180_found_again",
    "Amara.C180_found_there"
   ],
   "note": "Combines C15, C48, C140, C153 and C166. Only for documents that can be written as MicroXML: for other trees the parse of a copy may fail (C15)."
  }
 ]
}