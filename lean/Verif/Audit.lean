import Verif.Props.AddValue
import Verif.Props.Arrays
import Verif.Props.Basic
import Verif.Props.Canonical
import Verif.Props.Choice
import Verif.Props.ChoicePlain
import Verif.Props.Compact
import Verif.Props.CompactAgain
import Verif.Props.CompactGraphs
import Verif.Props.CompactIri
import Verif.Props.CompactMaps
import Verif.Props.CompactSafe
import Verif.Props.Compare
import Verif.Props.CtxBack
import Verif.Props.CtxBackProcess
import Verif.Props.CtxCache
import Verif.Props.CtxEqual
import Verif.Props.CtxFragment
import Verif.Props.CtxJson
import Verif.Props.CtxKeys
import Verif.Props.CtxMoved
import Verif.Props.CtxTraverse
import Verif.Props.Cyclic
import Verif.Props.DocEq
import Verif.Props.DocJson
import Verif.Props.Entries
import Verif.Props.ErrorCode
import Verif.Props.Expand
import Verif.Props.ExpandEntries
import Verif.Props.ExpandGood
import Verif.Props.ExpandKeys
import Verif.Props.ExpandMaps
import Verif.Props.ExpandPolicy
import Verif.Props.ExpandTerms
import Verif.Props.ExpandValue
import Verif.Props.Faults
import Verif.Props.Flatten
import Verif.Props.FlattenAgain
import Verif.Props.FlattenJson
import Verif.Props.FlattenRdf
import Verif.Props.FsLoader
import Verif.Props.GivenContext
import Verif.Props.Idle
import Verif.Props.ImportTerms
import Verif.Props.IntoSyntax
import Verif.Props.Inverse
import Verif.Props.Iri
import Verif.Props.KeyOrder
import Verif.Props.KeywordForm
import Verif.Props.LinkedData
import Verif.Props.MapIds
import Verif.Props.MappedEq
import Verif.Props.Mentioned
import Verif.Props.Mode
import Verif.Props.MoreTerms
import Verif.Props.NodeMap
import Verif.Props.NodeMapGraph
import Verif.Props.NodeMapMerge
import Verif.Props.Print
import Verif.Props.PrintCtx
import Verif.Props.ProcessBase
import Verif.Props.ProcessEnd
import Verif.Props.ProcessWf
import Verif.Props.Processor
import Verif.Props.ProcessorOptions
import Verif.Props.PropMap
import Verif.Props.Protected
import Verif.Props.Rdf
import Verif.Props.Reexpand
import Verif.Props.Refused
import Verif.Props.Relabel
import Verif.Props.Renamed
import Verif.Props.RoundTrip
import Verif.Props.SameStatements
import Verif.Props.Says
import Verif.Props.SaysOrder
import Verif.Props.ScopedDoc
import Verif.Props.Sequence
import Verif.Props.Ser
import Verif.Props.Settings
import Verif.Props.SimpleEq
import Verif.Props.Syntax
import Verif.Props.ToRdf
import Verif.Props.Traverse
import Verif.Props.Union
import Verif.Props.ValueBack
import Verif.Props.Warn
import Verif.Props.WarnMap
import Verif.Props.WarnNode

/-!
What each theorem named in `MANIFEST.json` depends on. Only `propext`, `Classical.choice` and
`Quot.sound` occur. (Generated from the manifest.)
-/

#print axioms JsonLd.Props.C01_roundtrip
#print axioms JsonLd.Props.C01_exact
#print axioms JsonLd.Props.C01_accepts
#print axioms JsonLd.Props.C01_form
#print axioms JsonLd.Props.C01_keyword_has_form
#print axioms JsonLd.Props.C01_direction
#print axioms JsonLd.Props.C01_container_kind
#print axioms JsonLd.Props.C02_eq_iff
#print axioms JsonLd.Props.C02_equivalence
#print axioms JsonLd.Props.C02_hash
#print axioms JsonLd.Props.C02_cmp_eq
#print axioms JsonLd.Props.C02_cmp_swap
#print axioms JsonLd.Props.C02_cmp_trans
#print axioms JsonLd.Props.C03_order_dependent
#print axioms JsonLd.Props.C03_acceptance_order_dependent
#print axioms JsonLd.Props.C03_kinds_partial
#print axioms JsonLd.Props.C03_perm_partial
#print axioms JsonLd.Props.C03_roundtrip
#print axioms JsonLd.Props.C04_no_panic
#print axioms JsonLd.Props.C04_iff
#print axioms JsonLd.Props.C04_equivalence
#print axioms JsonLd.Props.C04_duplicate_keys
#print axioms JsonLd.Props.C05_eq_iff_perm
#print axioms JsonLd.Props.C05_eq_up_to
#print axioms JsonLd.Props.C05_hash
#print axioms JsonLd.Props.C05_hash_up_to
#print axioms JsonLd.Props.C05_insert_unique
#print axioms JsonLd.Props.C06_new
#print axioms JsonLd.Props.C06_history
#print axioms JsonLd.Props.C06_step
#print axioms JsonLd.Props.C07_link
#print axioms JsonLd.Props.C07_params
#print axioms JsonLd.Props.C08_content_type
#print axioms JsonLd.Props.C08_params
#print axioms JsonLd.Props.C09_terminates
#print axioms JsonLd.Props.C09_bounded
#print axioms JsonLd.Props.C09_follows
#print axioms JsonLd.Props.C10_chain
#print axioms JsonLd.Props.C10_assoc
#print axioms JsonLd.Props.C10_map
#print axioms JsonLd.Props.C11_round_trip_partial
#print axioms JsonLd.Props.C11_read_total
#print axioms JsonLd.Props.C11_read_bound
#print axioms JsonLd.Props.C11_read_wellformed
#print axioms JsonLd.Props.C11_reread_partial
#print axioms JsonLd.Props.C11_included_lost
#print axioms JsonLd.Props.C11_round_trip_false
#print axioms JsonLd.Props.C11_empty_types_lost
#print axioms JsonLd.Props.C12_node_iff
#print axioms JsonLd.Props.C12_obj_iff
#print axioms JsonLd.Props.C12_image
#print axioms JsonLd.Props.C12_of_eq
#print axioms JsonLd.Props.C12_sound_partial
#print axioms JsonLd.Props.C12_types_ignored
#print axioms JsonLd.Props.C13_identify
#print axioms JsonLd.Props.C14_relabel_partial
#print axioms JsonLd.Props.C14_property_keys_kept
#print axioms JsonLd.Props.C15_terminates
#print axioms JsonLd.Props.C15_visits_partial
#print axioms JsonLd.Props.C15_blank_ids_partial
#print axioms JsonLd.Props.C15_lists_not_visited
#print axioms JsonLd.Props.C15_reverse_keys_not_reported
#print axioms JsonLd.Props.C16_flat
#print axioms JsonLd.Props.C17_statements
#print axioms JsonLd.Props.C17_no_repetition
#print axioms JsonLd.Props.C17_types_partial
#print axioms JsonLd.Props.C17_types_overwritten
#print axioms JsonLd.Props.C17_typed_node_dropped
#print axioms JsonLd.Props.C18_fails_iff
#print axioms JsonLd.Props.C18_index_kept
#print axioms JsonLd.Props.C19_agree
#print axioms JsonLd.Props.C19_sorted
#print axioms JsonLd.Props.C19_deterministic
#print axioms JsonLd.Props.C20_well_formed
#print axioms JsonLd.Props.C21_output
#print axioms JsonLd.Props.C21_complete
#print axioms JsonLd.Props.C21_sound
#print axioms JsonLd.Props.C21_exactly_once
#print axioms JsonLd.Props.C22_collection_partial
#print axioms JsonLd.Props.C22_read_back
#print axioms JsonLd.Props.C22_distinct_cells
#print axioms JsonLd.Props.C22_broken
#print axioms JsonLd.Props.C23_i18n_partial
#print axioms JsonLd.Props.C23_i18n_total
#print axioms JsonLd.Props.C23_compound_lost
#print axioms JsonLd.Props.C24_terminates
#print axioms JsonLd.Props.C24_succeeds
#print axioms JsonLd.Props.C24_exact_partial
#print axioms JsonLd.Props.C24_acyclic_partial
#print axioms JsonLd.Props.C24_lost_self
#print axioms JsonLd.Props.C24_lost_cycle
#print axioms JsonLd.Props.C24_lost_type
#print axioms JsonLd.Props.C24_first_as_type
#print axioms JsonLd.Props.C25_never_lists
#print axioms JsonLd.Props.C25_not_a_list
#print axioms JsonLd.Props.C26_terms_partial
#print axioms JsonLd.Props.C26_type_partial
#print axioms JsonLd.Props.C26_null_partial
#print axioms JsonLd.Props.C26_reverse_overrides
#print axioms JsonLd.Props.C26_keyword_like_removes
#print axioms JsonLd.Props.C27_acyclic
#print axioms JsonLd.Props.C27_acyclic_import
#print axioms JsonLd.Props.C27_rejected
#print axioms JsonLd.Props.C27_acyclic_list
#print axioms JsonLd.Props.C27_reported
#print axioms JsonLd.Props.C27_cycle
#print axioms JsonLd.Props.C27_cycle_type
#print axioms JsonLd.Props.C27_ignored
#print axioms JsonLd.Props.C27_ignored_acyclic
#print axioms JsonLd.Props.C27_ends
#print axioms JsonLd.Props.C28_wellFormed
#print axioms JsonLd.Props.C28_initial
#print axioms JsonLd.Props.C28_keyword_bound
#print axioms JsonLd.Props.C29_ends
#print axioms JsonLd.Props.C29_unique
#print axioms JsonLd.Props.C29_ends_no_scoped_import
#print axioms JsonLd.Props.C29_once
#print axioms JsonLd.Props.C29_self
#print axioms JsonLd.Props.C29_import_loops
#print axioms JsonLd.Props.C30_previous_partial
#print axioms JsonLd.Props.C30_null_partial
#print axioms JsonLd.Props.C30_null_remembers_result
#print axioms JsonLd.Props.C31_base_partial
#print axioms JsonLd.Props.C31_remote_partial
#print axioms JsonLd.Props.C31_null_resets
#print axioms JsonLd.Props.C31_import_sets
#print axioms JsonLd.Props.C31_inline
#print axioms JsonLd.Props.C32_total
#print axioms JsonLd.Props.C32_policy
#print axioms JsonLd.Props.C33_sound
#print axioms JsonLd.Props.C33_exact
#print axioms JsonLd.Props.C33_keywords
#print axioms JsonLd.Props.C33_absolute
#print axioms JsonLd.Props.C33_idempotent
#print axioms JsonLd.Props.C34_distinct
#print axioms JsonLd.Props.C34_selected
#print axioms JsonLd.Props.C34_none
#print axioms JsonLd.Props.C34_order
#print axioms JsonLd.Props.C35_plain_partial
#print axioms JsonLd.Props.C35_value_partial
#print axioms JsonLd.Props.C35_keyword_partial
#print axioms JsonLd.Props.C35_vocab_colon
#print axioms JsonLd.Props.C35_relative_keyword
#print axioms JsonLd.Props.C35_relative_alias
#print axioms JsonLd.Props.C35_slashes
#print axioms JsonLd.Props.C35_null_prefix
#print axioms JsonLd.Props.C36_choice_partial
#print axioms JsonLd.Props.C36_order_partial
#print axioms JsonLd.Props.C36_order_dependent
#print axioms JsonLd.Props.C37_back_partial
#print axioms JsonLd.Props.C37_json
#print axioms JsonLd.Props.C37_direction
#print axioms JsonLd.Props.C37_language
#print axioms JsonLd.Props.C37_coerced
#print axioms JsonLd.Props.C37_json_index
#print axioms JsonLd.Props.C37_none
#print axioms JsonLd.Props.C37_null
#print axioms JsonLd.Props.C38_values
#print axioms JsonLd.Props.C38_form
#print axioms JsonLd.Props.C38_single
#print axioms JsonLd.Props.C38_json_array
#print axioms JsonLd.Props.C39_collection
#print axioms JsonLd.Props.C39_error
#print axioms JsonLd.Props.C40_value_good
#print axioms JsonLd.Props.C40_scalar_good
#print axioms JsonLd.Props.C40_no_panic
#print axioms JsonLd.Props.C40_value_object
#print axioms JsonLd.Props.C40_scalar
#print axioms JsonLd.Props.C41_roundtrip
#print axioms JsonLd.Props.C41_read
#print axioms JsonLd.Props.C41_reread
#print axioms JsonLd.Props.C41_injective
#print axioms JsonLd.Props.C41_terms
#print axioms JsonLd.Props.C42_merge
#print axioms JsonLd.Props.C42_merge_one
#print axioms JsonLd.Props.C42_terms
#print axioms JsonLd.Props.C43_extract
#print axioms JsonLd.Props.C43_errors
#print axioms JsonLd.Props.C44_wellFormed
#print axioms JsonLd.Props.C44_initial
#print axioms JsonLd.Props.C44_reverse_absolute
#print axioms JsonLd.Props.C44_absolute_partial
#print axioms JsonLd.Props.C44_types_partial
#print axioms JsonLd.Props.C44_graphs_partial
#print axioms JsonLd.Props.C44_top_nodes_partial
#print axioms JsonLd.Props.C44_sets
#print axioms JsonLd.Props.C44_index_key
#print axioms JsonLd.Props.C44_type_map
#print axioms JsonLd.Props.C44_graph_value
#print axioms JsonLd.Props.C44_top_list
#print axioms JsonLd.Props.C44_strict
#print axioms JsonLd.Props.C45_fixed_partial
#print axioms JsonLd.Props.C45_idempotent_partial
#print axioms JsonLd.Props.C45_unnamed_graph
#print axioms JsonLd.Props.C45_ordered
#print axioms JsonLd.Props.C45_included
#print axioms JsonLd.Props.C45_graph_reference
#print axioms JsonLd.Props.C45_relative
#print axioms JsonLd.Props.C46_equivalence
#print axioms JsonLd.Props.C46_node_iff
#print axioms JsonLd.Props.C46_obj_iff
#print axioms JsonLd.Props.C46_hash
#print axioms JsonLd.Props.C47_literals
#print axioms JsonLd.Props.C47_unique
#print axioms JsonLd.Props.C48_settings
#print axioms JsonLd.Props.C49_enough
#print axioms JsonLd.Props.C49_limit
#print axioms JsonLd.Props.C49_unfold
#print axioms JsonLd.Props.C49_unfold_entries
#print axioms JsonLd.Props.C50_no_panic
#print axioms JsonLd.Props.C51_stricter
#print axioms JsonLd.Props.C51_same
#print axioms JsonLd.Props.C51_errors
#print axioms JsonLd.Props.C52_enough
#print axioms JsonLd.Props.C52_unfold
#print axioms JsonLd.Props.C52_no_limit
#print axioms JsonLd.Props.C53_distinct
#print axioms JsonLd.Props.C54_plain_partial
#print axioms JsonLd.Props.C54_panic
#print axioms JsonLd.Props.C54_list_in_map
#print axioms JsonLd.Props.C54_graph_in_map
#print axioms JsonLd.Props.C55_document
#print axioms JsonLd.Props.C55_injective
#print axioms JsonLd.Props.C55_unnamed_graph
#print axioms JsonLd.Props.C55_reference
#print axioms JsonLd.Props.C55_no_types
#print axioms JsonLd.Props.C55_no_reverse
#print axioms JsonLd.Props.C55_relative
#print axioms JsonLd.Props.C56_language
#print axioms JsonLd.Props.C56_index
#print axioms JsonLd.Props.C56_index_property
#print axioms JsonLd.Props.C56_id
#print axioms JsonLd.Props.C56_type
#print axioms JsonLd.Props.C56_graph_index
#print axioms JsonLd.Props.C56_graph_id
#print axioms JsonLd.Props.C57_json
#print axioms JsonLd.Props.C57_plain
#print axioms JsonLd.Props.C57_list
#print axioms JsonLd.Props.C57_graph
#print axioms JsonLd.Props.C57_array
#print axioms JsonLd.Props.C57_set_object
#print axioms JsonLd.Props.C57_list_object
#print axioms JsonLd.Props.C58_entry
#print axioms JsonLd.Props.C58_nest
#print axioms JsonLd.Props.C58_alias
#print axioms JsonLd.Props.C59_revert
#print axioms JsonLd.Props.C59_stay
#print axioms JsonLd.Props.C59_property_scoped
#print axioms JsonLd.Props.C59_property_scoped_scalar
#print axioms JsonLd.Props.C59_local
#print axioms JsonLd.Props.C59_type_scoped
#print axioms JsonLd.Props.C60_collision
#print axioms JsonLd.Props.C60_reverse
#print axioms JsonLd.Props.C60_dropped
#print axioms JsonLd.Props.C60_types
#print axioms JsonLd.Props.C61_no_panic
#print axioms JsonLd.Props.C61_back_partial
#print axioms JsonLd.Props.C61_prefix
#print axioms JsonLd.Props.C61_null
#print axioms JsonLd.Props.C61_base
#print axioms JsonLd.Props.C61_language
#print axioms JsonLd.Props.C62_settings_partial
#print axioms JsonLd.Props.C62_terms
#print axioms JsonLd.Props.C62_iris_partial
#print axioms JsonLd.Props.C63_literals_partial
#print axioms JsonLd.Props.C63_idempotent
#print axioms JsonLd.Props.C63_equal
#print axioms JsonLd.Props.C63_graph
#print axioms JsonLd.Props.C63_graph_rdf
#print axioms JsonLd.Props.C64_statements
#print axioms JsonLd.Props.C64_quads
#print axioms JsonLd.Props.C64_language_case
#print axioms JsonLd.Props.C65_to_rdf_partial
#print axioms JsonLd.Props.C65_conflation
#print axioms JsonLd.Props.C66_graph_members
#print axioms JsonLd.Props.C66_graph_empty
#print axioms JsonLd.Props.C66_graph_named
#print axioms JsonLd.Props.C66_graph_no_map
#print axioms JsonLd.Props.C66_graph_index
#print axioms JsonLd.Props.C66_graph_member_index
#print axioms JsonLd.Props.C66_graph_in_graph
#print axioms JsonLd.Props.C66_document
#print axioms JsonLd.Props.C66_injective
#print axioms JsonLd.Props.C66_two_lists
#print axioms JsonLd.Props.C66_json
#print axioms JsonLd.Props.C66_list_in_list
#print axioms JsonLd.Props.C66_reference_index
#print axioms JsonLd.Props.C66_direction_in_map
#print axioms JsonLd.Props.C66_number_in_map
#print axioms JsonLd.Props.C66_list_for_map
#print axioms JsonLd.Props.C66_reverse_map
#print axioms JsonLd.Props.C66_keyword_index
#print axioms JsonLd.Props.C66_iri_term
#print axioms JsonLd.Props.C67_compare
#print axioms JsonLd.Props.C67_compare_equivalence
#print axioms JsonLd.Props.C67_round_trip
#print axioms JsonLd.Props.C67_compare_syntax
#print axioms JsonLd.Props.C67_relative
#print axioms JsonLd.Props.C67_two_bases
#print axioms JsonLd.Props.C67_relative_base
#print axioms JsonLd.Props.C67_context_url
#print axioms JsonLd.Props.C68_order_partial
#print axioms JsonLd.Props.C68_accepted_partial
#print axioms JsonLd.Props.C68_active
#print axioms JsonLd.Props.C68_reverse
#print axioms JsonLd.Props.C68_id
#print axioms JsonLd.Props.C68_value
#print axioms JsonLd.Props.C68_json
#print axioms JsonLd.Props.C69_arrays
#print axioms JsonLd.Props.C69_apart
#print axioms JsonLd.Props.C69_single
#print axioms JsonLd.Props.C69_type
#print axioms JsonLd.Props.C69_document
#print axioms JsonLd.Props.C70_document
#print axioms JsonLd.Props.C70_injective
#print axioms JsonLd.Props.C70_type_outside
#print axioms JsonLd.Props.C70_type_redefined
#print axioms JsonLd.Props.C70_alias
#print axioms JsonLd.Props.C70_reference
#print axioms JsonLd.Props.C70_list
#print axioms JsonLd.Props.C70_protected
#print axioms JsonLd.Props.C71_chosen
#print axioms JsonLd.Props.C71_best
#print axioms JsonLd.Props.C71_typed_list
#print axioms JsonLd.Props.C71_container
#print axioms JsonLd.Props.C71_language_map
#print axioms JsonLd.Props.C71_item_order
#print axioms JsonLd.Props.C71_plain
#print axioms JsonLd.Props.C71_plain_selected
#print axioms JsonLd.Props.C72_document
#print axioms JsonLd.Props.C72_value
#print axioms JsonLd.Props.C72_never_list
#print axioms JsonLd.Props.C72_list
#print axioms JsonLd.Props.C72_list_values
#print axioms JsonLd.Props.C72_number_type
#print axioms JsonLd.Props.C72_double
#print axioms JsonLd.Props.C72_null
#print axioms JsonLd.Props.C72_direction
#print axioms JsonLd.Props.C72_graph
#print axioms JsonLd.Props.C72_node_with_graph
#print axioms JsonLd.Props.C72_failure
#print axioms JsonLd.Props.C73_error
#print axioms JsonLd.Props.C73_fault
#print axioms JsonLd.Props.C73_document
#print axioms JsonLd.Props.C74_node
#print axioms JsonLd.Props.C74_identified
#print axioms JsonLd.Props.C74_anonymous
#print axioms JsonLd.Props.C74_objects
#print axioms JsonLd.Props.C74_overwritten
#print axioms JsonLd.Props.C75_outcome
#print axioms JsonLd.Props.C75_succeeds
#print axioms JsonLd.Props.C75_round_trip
#print axioms JsonLd.Props.C75_confused
#print axioms JsonLd.Props.C75_nest
#print axioms JsonLd.Props.C75_named_graphs
#print axioms JsonLd.Props.C75_id_in_type_map
#print axioms JsonLd.Props.C75_reverse_map
#print axioms JsonLd.Props.C76_cause
#print axioms JsonLd.Props.C76_accepted
#print axioms JsonLd.Props.C76_plain
#print axioms JsonLd.Props.C77_injective
#print axioms JsonLd.Props.C77_read_partial
#print axioms JsonLd.Props.C77_duplicate
#print axioms JsonLd.Props.C77_code
#print axioms JsonLd.Props.C77_texts
#print axioms JsonLd.Props.C78_refused
#print axioms JsonLd.Props.C78_checked
#print axioms JsonLd.Props.C78_faulty
#print axioms JsonLd.C79_history
#print axioms JsonLd.C79_any
#print axioms JsonLd.C79_removed
#print axioms JsonLd.C79_listed
#print axioms JsonLd.C79_order
#print axioms JsonLd.C79_remove
#print axioms JsonLd.C79_once
#print axioms JsonLd.C79_unique
#print axioms JsonLd.C79_equivalent_node
#print axioms JsonLd.C79_equivalent
#print axioms JsonLd.C79_same
#print axioms JsonLd.C79_contains_empty
#print axioms JsonLd.C79_not_unique
#print axioms JsonLd.C80_node
#print axioms JsonLd.C80_value
#print axioms JsonLd.C80_indexed
#print axioms JsonLd.C80_length
#print axioms JsonLd.C80_fused
#print axioms JsonLd.C80_both_ends
#print axioms JsonLd.C80_traversal
#print axioms JsonLd.C80_has_key
#print axioms JsonLd.C80_json_partial
#print axioms JsonLd.C80_included
#print axioms JsonLd.C80_no_types
#print axioms JsonLd.C81_exact
#print axioms JsonLd.C81_statements
#print axioms JsonLd.C81_undo
#print axioms JsonLd.C81_id
#print axioms JsonLd.C81_wf
#print axioms JsonLd.C81_ids
#print axioms JsonLd.C81_merge
#print axioms JsonLd.Props.C82_top
#print axioms JsonLd.Props.C82_expand_context
#print axioms JsonLd.Props.C82_link
#print axioms JsonLd.Props.C82_propagate
#print axioms JsonLd.Props.C82_value
#print axioms JsonLd.Props.C82_set
#print axioms JsonLd.Props.C83_ordered_partial
#print axioms JsonLd.Props.C83_reverse
#print axioms JsonLd.Props.C83_expansion
#print axioms JsonLd.Props.C83_absolute
#print axioms JsonLd.Props.C83_relative
#print axioms JsonLd.Props.C83_context_base
#print axioms JsonLd.Props.C83_vocab
#print axioms JsonLd.Props.C83_invalid
#print axioms JsonLd.Props.C83_undefined
#print axioms JsonLd.Props.C83_flatten
#print axioms JsonLd.Props.C83_flatten_deterministic
#print axioms JsonLd.Props.C84_text
#print axioms JsonLd.Props.C84_node_text
#print axioms JsonLd.Props.C84_entries
#print axioms JsonLd.Props.C84_reread
#print axioms JsonLd.Props.C84_round_trip
#print axioms JsonLd.Props.C84_injective
#print axioms JsonLd.Props.C84_example
#print axioms JsonLd.Props.C84_example_reread
#print axioms JsonLd.Props.C85_text
#print axioms JsonLd.Props.C85_round_trip
#print axioms JsonLd.Props.C85_definition
#print axioms JsonLd.Props.C85_term
#print axioms JsonLd.Props.C85_definition_len
#print axioms JsonLd.Props.C85_term_len
#print axioms JsonLd.Props.C85_definition_entries
#print axioms JsonLd.Props.C85_term_entries
#print axioms JsonLd.Props.C85_injective
#print axioms JsonLd.Props.C85_example
#print axioms JsonLd.Props.C85_clash
#print axioms JsonLd.Props.C86_kind
#print axioms JsonLd.Props.C86_scoped_array
#print axioms JsonLd.Props.C86_items
#print axioms JsonLd.Props.C86_entries
#print axioms JsonLd.Props.C86_entry
#print axioms JsonLd.Props.C86_order
#print axioms JsonLd.Props.C86_sound
#print axioms JsonLd.Props.C86_visited_partial
#print axioms JsonLd.Props.C86_missed
#print axioms JsonLd.Props.C86_count_partial
#print axioms JsonLd.Props.C86_capacity
#print axioms JsonLd.Props.C86_example
#print axioms JsonLd.Props.C87_conservative
#print axioms JsonLd.Props.C87_refuses_partial
#print axioms JsonLd.Props.C87_refuses_propagate
#print axioms JsonLd.Props.C87_propagate_in_array
#print axioms JsonLd.Props.C88_says_partial
#print axioms JsonLd.Props.C88_exact
#print axioms JsonLd.Props.C88_first
#print axioms JsonLd.Props.C88_order
#print axioms JsonLd.Props.C89_json_partial
#print axioms JsonLd.Props.C89_import_partial
#print axioms JsonLd.Props.C89_order_partial
#print axioms JsonLd.Props.C89_accepted
#print axioms JsonLd.Props.C90_flat
#print axioms JsonLd.Props.C90_fixed
#print axioms JsonLd.Props.C90_unchanged
#print axioms JsonLd.Props.C90_twice
#print axioms JsonLd.Props.C91_iff
#print axioms JsonLd.Props.C91_equivalence
#print axioms JsonLd.Props.C91_stricter
#print axioms JsonLd.Props.C91_lists
#print axioms JsonLd.Props.C91_nested_arrays
#print axioms JsonLd.Props.C91_duplicate_keys
#print axioms JsonLd.Props.C92_file
#print axioms JsonLd.Props.C92_inside
#print axioms JsonLd.Props.C92_mount
#print axioms JsonLd.Props.C92_load
#print axioms JsonLd.Props.C92_shadowed
#print axioms JsonLd.Props.C92_dots
#print axioms JsonLd.Props.C93_statements
#print axioms JsonLd.Props.C93_types
#print axioms JsonLd.Props.C93_rdf_partial
#print axioms JsonLd.Props.C93_quads
#print axioms JsonLd.Props.C93_type_lost
#print axioms JsonLd.Props.C94_flattened_fixed
#print axioms JsonLd.Props.C94_pipeline_partial
#print axioms JsonLd.Props.C94_not_before
#print axioms JsonLd.Props.C95_sequence_partial
#print axioms JsonLd.Props.C95_skipped_partial
#print axioms JsonLd.Props.C95_skipped_example
#print axioms JsonLd.Props.C96_import_partial
#print axioms JsonLd.Props.C96_independent_partial
#print axioms JsonLd.Props.C96_repeat_partial
#print axioms JsonLd.Props.C96_settings
#print axioms JsonLd.Props.C96_vocab_grows
#print axioms JsonLd.Props.C97_idle_partial
#print axioms JsonLd.Props.C97_objects
#print axioms JsonLd.Props.C97_lone
#print axioms JsonLd.Props.C98_simulates
#print axioms JsonLd.Props.C98_mentioned
#print axioms JsonLd.Props.C98_context
#print axioms JsonLd.Props.C98_needed
#print axioms JsonLd.Props.C98_graph
#print axioms JsonLd.Props.C99_import_partial
#print axioms JsonLd.Props.C99_import_example
#print axioms JsonLd.Props.C99_terms_partial
#print axioms JsonLd.Props.C99_added_partial
#print axioms JsonLd.Props.C99_version
#print axioms JsonLd.Props.C99_needed
#print axioms JsonLd.Props.C100_error
#print axioms JsonLd.Props.C100_union_partial
#print axioms JsonLd.Props.C100_statements_partial
#print axioms JsonLd.Props.C100_single
#print axioms JsonLd.Props.C100_nested
#print axioms JsonLd.Props.C100_graph
#print axioms JsonLd.Props.C101_quads
#print axioms JsonLd.Props.C101_statements
#print axioms JsonLd.Props.C101_types
#print axioms JsonLd.Props.C101_dataset
#print axioms JsonLd.Props.C101_rdf
#print axioms JsonLd.Props.C101_well_formed
#print axioms JsonLd.Props.C101_example
#print axioms JsonLd.Props.C101_type_lost
#print axioms JsonLd.Props.C102_nodes
#print axioms JsonLd.Props.C102_types
#print axioms JsonLd.Props.C102_properties
#print axioms JsonLd.Props.C102_reverse
#print axioms JsonLd.Props.C102_index
#print axioms JsonLd.Props.C102_entries
#print axioms JsonLd.Props.C102_generated
#print axioms JsonLd.Props.C102_statements
#print axioms JsonLd.Props.C102_graph_lost
#print axioms JsonLd.Props.C103_relabel
#print axioms JsonLd.Props.C103_rdf
#print axioms JsonLd.Props.C103_node_map
#print axioms JsonLd.Props.C103_flatten
#print axioms JsonLd.Props.C103_map_ids
#print axioms JsonLd.Props.C103_example
#print axioms JsonLd.Props.C103_merged
#print axioms JsonLd.Props.C104_iri_result
#print axioms JsonLd.Props.C104_keys_result
#print axioms JsonLd.Props.C104_value_result
#print axioms JsonLd.Props.C104_iri
#print axioms JsonLd.Props.C104_iri_invalid
#print axioms JsonLd.Props.C104_silent_partial
#print axioms JsonLd.Props.C104_keys
#print axioms JsonLd.Props.C104_keys_error
#print axioms JsonLd.Props.C104_blank
#print axioms JsonLd.Props.C104_empty
#print axioms JsonLd.Props.C104_tag
#print axioms JsonLd.Props.C104_value
#print axioms JsonLd.Props.C104_unreported
#print axioms JsonLd.Props.C105_parts
#print axioms JsonLd.Props.C105_previous
#print axioms JsonLd.Props.C105_replaced
#print axioms JsonLd.Props.C105_len
#print axioms JsonLd.Props.C105_empty
#print axioms JsonLd.Props.C105_protected
#print axioms JsonLd.Props.C105_contains
#print axioms JsonLd.Props.C105_fresh
#print axioms JsonLd.Props.C105_inverse
#print axioms JsonLd.Props.C105_select
#print axioms JsonLd.Props.C105_type_key
#print axioms JsonLd.Props.C106_has_graph
#print axioms JsonLd.Props.C106_members
#print axioms JsonLd.Props.C106_refers
#print axioms JsonLd.Props.C107_result
#print axioms JsonLd.Props.C107_warnings
#print axioms JsonLd.Props.C107_prefix
#print axioms JsonLd.Props.C107_tag
#print axioms JsonLd.Props.C107_spurious
#print axioms JsonLd.Props.C107_reject
#print axioms JsonLd.Props.C108_meaningless
#print axioms JsonLd.Props.C108_no_identifier
#print axioms JsonLd.Props.C108_plain
#print axioms JsonLd.Props.C108_value
#print axioms JsonLd.Props.C108_never
#print axioms JsonLd.Props.C108_defined
#print axioms JsonLd.Props.C108_vocab
#print axioms JsonLd.Props.C109_literal_result
#print axioms JsonLd.Props.C109_literal
#print axioms JsonLd.Props.C109_base
#print axioms JsonLd.Props.C109_id_result
#print axioms JsonLd.Props.C109_id
#print axioms JsonLd.Props.C109_types_result
#print axioms JsonLd.Props.C109_types
#print axioms JsonLd.Props.C110_again
#print axioms JsonLd.Props.C110_scoped
#print axioms JsonLd.Props.C111_nothing_lost
#print axioms JsonLd.Props.C111_accepted
#print axioms JsonLd.Props.C111_order
#print axioms JsonLd.Props.C111_term_order
#print axioms JsonLd.Props.C111_twice
#print axioms JsonLd.Props.C111_moved
#print axioms JsonLd.Props.C111_same
