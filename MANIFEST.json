{
 "claims": [
  {
   "property": "C01",
   "status": "proved",
   "theorems": [
    "JsonLd.Props.C01_roundtrip",
    "JsonLd.Props.C01_exact",
    "JsonLd.Props.C01_accepts",
    "JsonLd.Props.C01_form",
    "JsonLd.Props.C01_keyword_has_form",
    "JsonLd.Props.C01_direction",
    "JsonLd.Props.C01_container_kind"
   ],
   "note": ""
  },
  {
   "property": "C02",
   "status": "proved",
   "theorems": [
    "JsonLd.Props.C02_eq_iff",
    "JsonLd.Props.C02_equivalence",
    "JsonLd.Props.C02_hash",
    "JsonLd.Props.C02_cmp_eq",
    "JsonLd.Props.C02_cmp_swap",
    "JsonLd.Props.C02_cmp_trans"
   ],
   "note": ""
  },
  {
   "property": "C03",
   "status": "partial",
   "theorems": [
    "JsonLd.Props.C03_order_dependent",
    "JsonLd.Props.C03_acceptance_order_dependent",
    "JsonLd.Props.C03_kinds_partial",
    "JsonLd.Props.C03_perm_partial",
    "JsonLd.Props.C03_roundtrip"
   ],
   "note": "The full statement (the accepted container and its kinds do not depend on the order) is false of the code: C03_order_dependent and C03_acceptance_order_dependent give witnesses (container.rs:143). Proved: kinds added in an order the code accepts, round trip with the syntax."
  },
  {
   "property": "C04",
   "status": "proved",
   "theorems": [
    "JsonLd.Props.C04_no_panic",
    "JsonLd.Props.C04_iff",
    "JsonLd.Props.C04_equivalence",
    "JsonLd.Props.C04_duplicate_keys"
   ],
   "note": "For JSON without duplicate keys; C04_duplicate_keys shows the hypothesis is needed."
  },
  {
   "property": "C05",
   "status": "proved",
   "theorems": [
    "JsonLd.Props.C05_eq_iff_perm",
    "JsonLd.Props.C05_eq_up_to",
    "JsonLd.Props.C05_hash",
    "JsonLd.Props.C05_hash_up_to",
    "JsonLd.Props.C05_insert_unique"
   ],
   "note": ""
  },
  {
   "property": "C06",
   "status": "proved",
   "theorems": [
    "JsonLd.Props.C06_new",
    "JsonLd.Props.C06_history",
    "JsonLd.Props.C06_step"
   ],
   "note": ""
  },
  {
   "property": "C07",
   "status": "proved",
   "theorems": [
    "JsonLd.Props.C07_link",
    "JsonLd.Props.C07_params"
   ],
   "note": ""
  },
  {
   "property": "C08",
   "status": "proved",
   "theorems": [
    "JsonLd.Props.C08_content_type",
    "JsonLd.Props.C08_params"
   ],
   "note": ""
  },
  {
   "property": "C09",
   "status": "proved",
   "theorems": [
    "JsonLd.Props.C09_terminates",
    "JsonLd.Props.C09_bounded",
    "JsonLd.Props.C09_follows"
   ],
   "note": ""
  },
  {
   "property": "C10",
   "status": "proved",
   "theorems": [
    "JsonLd.Props.C10_chain",
    "JsonLd.Props.C10_assoc",
    "JsonLd.Props.C10_map"
   ],
   "note": ""
  },
  {
   "property": "C11",
   "status": "partial",
   "theorems": [
    "JsonLd.Props.C11_round_trip_partial",
    "JsonLd.Props.C11_read_total",
    "JsonLd.Props.C11_read_bound",
    "JsonLd.Props.C11_read_wellformed",
    "JsonLd.Props.C11_reread_partial",
    "JsonLd.Props.C11_included_lost",
    "JsonLd.Props.C11_round_trip_false",
    "JsonLd.Props.C11_empty_types_lost"
   ],
   "note": "The full round trip is false of the code: included nodes are written under @include (C11_included_lost, C11_round_trip_false) and empty lists of types disappear (C11_empty_types_lost). Proved for every other document; reading is total without panic and only yields well-formed documents."
  },
  {
   "property": "C12",
   "status": "partial",
   "theorems": [
    "JsonLd.Props.C12_node_iff",
    "JsonLd.Props.C12_obj_iff",
    "JsonLd.Props.C12_image",
    "JsonLd.Props.C12_of_eq",
    "JsonLd.Props.C12_sound_partial",
    "JsonLd.Props.C12_types_ignored"
   ],
   "note": "The comparison is characterised in full; equality of the renamed document is proved for documents without types, since Node::mapped_eq ignores types: C12_types_ignored."
  },
  {
   "property": "C13",
   "status": "proved",
   "theorems": [
    "JsonLd.Props.C13_identify"
   ],
   "note": ""
  },
  {
   "property": "C14",
   "status": "partial",
   "theorems": [
    "JsonLd.Props.C14_relabel_partial",
    "JsonLd.Props.C14_property_keys_kept"
   ],
   "note": "Proved for @id and @type at every depth. Blank node labels used as property keys are not renamed by the code: C14_property_keys_kept."
  },
  {
   "property": "C15",
   "status": "partial",
   "theorems": [
    "JsonLd.Props.C15_terminates",
    "JsonLd.Props.C15_visits_partial",
    "JsonLd.Props.C15_blank_ids_partial",
    "JsonLd.Props.C15_lists_not_visited",
    "JsonLd.Props.C15_reverse_keys_not_reported"
   ],
   "note": "Termination and exact visited set proved. List items and reverse property keys are not visited by the code: C15_lists_not_visited, C15_reverse_keys_not_reported."
  },
  {
   "property": "C16",
   "status": "proved",
   "theorems": [
    "JsonLd.Props.C16_flat"
   ],
   "note": "For relabelable documents: container invariants hold, generator injective and fresh. Also shown: no @included, no @reverse, @graph only at top level."
  },
  {
   "property": "C17",
   "status": "partial",
   "theorems": [
    "JsonLd.Props.C17_statements",
    "JsonLd.Props.C17_no_repetition",
    "JsonLd.Props.C17_types_partial",
    "JsonLd.Props.C17_types_overwritten",
    "JsonLd.Props.C17_typed_node_dropped"
   ],
   "note": "Property values: sound and complete in every graph (C17_statements). Types: sound, complete only under the stated conditions, as the code overwrites types on redeclaration (C17_types_overwritten) and drops typed nodes without properties from named graphs (C17_typed_node_dropped)."
  },
  {
   "property": "C18",
   "status": "proved",
   "theorems": [
    "JsonLd.Props.C18_fails_iff",
    "JsonLd.Props.C18_index_kept"
   ],
   "note": "Both directions, error contents, no panic, and index kept."
  },
  {
   "property": "C19",
   "status": "proved",
   "theorems": [
    "JsonLd.Props.C19_agree",
    "JsonLd.Props.C19_sorted",
    "JsonLd.Props.C19_deterministic"
   ],
   "note": "For all iteration orders of the hash maps; with distinct texts the ordered result is the same list whatever the orders."
  },
  {
   "property": "C20",
   "status": "proved",
   "theorems": [
    "JsonLd.Props.C20_well_formed"
   ],
   "note": "Also: object identifiers are valid and language tags well-formed. Hypothesis: the generator yields valid identifiers."
  },
  {
   "property": "C21",
   "status": "proved",
   "theorems": [
    "JsonLd.Props.C21_output",
    "JsonLd.Props.C21_complete",
    "JsonLd.Props.C21_sound",
    "JsonLd.Props.C21_exactly_once"
   ],
   "note": "Termination, determinism, completeness, soundness and exactly-once. A list with an item that has no RDF value still gets its quad but a broken collection (C22_broken)."
  },
  {
   "property": "C22",
   "status": "partial",
   "theorems": [
    "JsonLd.Props.C22_collection_partial",
    "JsonLd.Props.C22_read_back",
    "JsonLd.Props.C22_distinct_cells",
    "JsonLd.Props.C22_broken"
   ],
   "note": "Proved for lists all of whose items (recursively) have an RDF value; false otherwise: C22_broken shows an unnamed node in a list breaking the chain."
  },
  {
   "property": "C23",
   "status": "partial",
   "theorems": [
    "JsonLd.Props.C23_i18n_partial",
    "JsonLd.Props.C23_i18n_total",
    "JsonLd.Props.C23_compound_lost"
   ],
   "note": "Proved for the i18n datatype encoding. False of compound literals: C23_compound_lost shows every direction-tagged string becoming a blank node about which nothing is said."
  },
  {
   "property": "C24",
   "status": "partial",
   "theorems": [
    "JsonLd.Props.C24_terminates",
    "JsonLd.Props.C24_succeeds",
    "JsonLd.Props.C24_exact_partial",
    "JsonLd.Props.C24_acyclic_partial",
    "JsonLd.Props.C24_lost_self",
    "JsonLd.Props.C24_lost_cycle",
    "JsonLd.Props.C24_lost_type",
    "JsonLd.Props.C24_first_as_type"
   ],
   "note": "Termination without panic proved for all quads. Which quads the document states is characterised exactly (C24_exact_partial), under the condition that rdf:first follows the last rdf:type; nothing is lost from acyclic data whose types are not described (C24_acyclic_partial). The full statement is false: C24_lost_self, C24_lost_cycle, C24_lost_type, C24_first_as_type."
  },
  {
   "property": "C25",
   "status": "partial",
   "theorems": [
    "JsonLd.Props.C25_never_lists",
    "JsonLd.Props.C25_not_a_list"
   ],
   "note": "False of the code: reverse_rest records the predicate instead of the subject (serialization.rs:293), so no list is ever built: C25_never_lists, C25_not_a_list. The cells are still stated as nodes (C24)."
  },
  {
   "property": "C26",
   "status": "partial",
   "theorems": [
    "JsonLd.Props.C26_terms_partial",
    "JsonLd.Props.C26_type_partial",
    "JsonLd.Props.C26_null_partial",
    "JsonLd.Props.C26_reverse_overrides",
    "JsonLd.Props.C26_keyword_like_removes"
   ],
   "note": "Proved for contexts (local and loaded) that do not bind the term as a reverse property or with an @id that only looks like a keyword; these two ways replace or remove a protected term: C26_reverse_overrides, C26_keyword_like_removes. C26_type_partial and C26_null_partial hold without proviso."
  },
  {
   "property": "C27",
   "status": "proved",
   "theorems": [
    "JsonLd.Props.C27_acyclic",
    "JsonLd.Props.C27_acyclic_import",
    "JsonLd.Props.C27_rejected",
    "JsonLd.Props.C27_acyclic_list",
    "JsonLd.Props.C27_reported",
    "JsonLd.Props.C27_cycle",
    "JsonLd.Props.C27_cycle_type",
    "JsonLd.Props.C27_ignored",
    "JsonLd.Props.C27_ignored_acyclic",
    "JsonLd.Props.C27_ends"
   ],
   "note": "C27_ends; C27_acyclic (no term of an accepted definition depends on itself, by its type, reverse property, identifier or prefix), C27_acyclic_import with @import, C27_acyclic_list within any local context; C27_rejected is the contrapositive. C27_reported: a cyclic IRI mapping is reported only for a cycle. For ignored definitions the latter is false: C27_ignored, C27_ignored_acyclic."
  },
  {
   "property": "C28",
   "status": "partial",
   "theorems": [
    "JsonLd.Props.C28_wellFormed",
    "JsonLd.Props.C28_initial",
    "JsonLd.Props.C28_keyword_bound"
   ],
   "note": "C28_wellFormed proves every listed invariant for all contexts and loaders; the last part of the statement (keywords are never redefined) is false: C28_keyword_bound exhibits a context binding @graph that is accepted."
  },
  {
   "property": "C29",
   "status": "partial",
   "theorems": [
    "JsonLd.Props.C29_ends",
    "JsonLd.Props.C29_unique",
    "JsonLd.Props.C29_ends_no_scoped_import",
    "JsonLd.Props.C29_once",
    "JsonLd.Props.C29_self",
    "JsonLd.Props.C29_import_loops"
   ],
   "note": "Termination proved for finitely many remote contexts with arbitrary references, unless scoped contexts import each other without end; that case is shown not to terminate: C29_import_loops. A second or circular reference is shown to have no effect (C29_once, C29_self)."
  },
  {
   "property": "C30",
   "status": "partial",
   "theorems": [
    "JsonLd.Props.C30_previous_partial",
    "JsonLd.Props.C30_null_partial",
    "JsonLd.Props.C30_null_remembers_result"
   ],
   "note": "What is remembered is proved for contexts without null entries and loaders whose contexts propagate; for null see C30_null_partial and C30_null_remembers_result. The revert itself happens in expansion."
  },
  {
   "property": "C31",
   "status": "partial",
   "theorems": [
    "JsonLd.Props.C31_base_partial",
    "JsonLd.Props.C31_remote_partial",
    "JsonLd.Props.C31_null_resets",
    "JsonLd.Props.C31_import_sets",
    "JsonLd.Props.C31_inline"
   ],
   "note": "Proved for contexts without null entries and imports setting @base; false otherwise: C31_null_resets, C31_import_sets. C31_inline: what an inline @base does."
  },
  {
   "property": "C32",
   "status": "proved",
   "theorems": [
    "JsonLd.Props.C32_total",
    "JsonLd.Props.C32_policy"
   ],
   "note": "C32_total: without vocabulary mapping in the context, without vocabulary-relative expansion, or with the keep policy, expansion returns a term. C32_policy: exactly when a string is rejected or dropped. Panic freedom of the unwrap in literal expansion follows from C32_total with voc = none."
  },
  {
   "property": "C33",
   "status": "proved",
   "theorems": [
    "JsonLd.Props.C33_sound",
    "JsonLd.Props.C33_exact",
    "JsonLd.Props.C33_keywords",
    "JsonLd.Props.C33_absolute",
    "JsonLd.Props.C33_idempotent"
   ],
   "note": "C33_exact: the result is exactly that of an independent set of rules (Spec.Expands). C33_keywords, C33_absolute, C33_idempotent: the named special cases. The notion of IRI, IRI reference and blank node identifier and the resolution of references are parameters; C33_idempotent lists the facts used about them (IriFacts)."
  },
  {
   "property": "C34",
   "status": "proved",
   "theorems": [
    "JsonLd.Props.C34_distinct",
    "JsonLd.Props.C34_selected",
    "JsonLd.Props.C34_none",
    "JsonLd.Props.C34_order"
   ],
   "note": "C34_selected, C34_none: the result of selection is exactly the one of an independent specification (Spec.Selected: first container wish that is met, then first type/language wish, then shortest and lexicographically least term); C34_order: it does not depend on the storage order; C34_distinct: context processing keeps keys distinct, the hypothesis used."
  },
  {
   "property": "C35",
   "status": "partial",
   "theorems": [
    "JsonLd.Props.C35_plain_partial",
    "JsonLd.Props.C35_value_partial",
    "JsonLd.Props.C35_keyword_partial",
    "JsonLd.Props.C35_vocab_colon",
    "JsonLd.Props.C35_relative_keyword",
    "JsonLd.Props.C35_relative_alias",
    "JsonLd.Props.C35_slashes",
    "JsonLd.Props.C35_null_prefix"
   ],
   "note": "C35_plain_partial, C35_value_partial: for IRIs and blank node identifiers, C35_keyword_partial: for keywords, under the conditions Spec.CleanTerms and Spec.NotMisled, each of which is needed: C35_vocab_colon, C35_relative_keyword, C35_relative_alias, C35_slashes, C35_null_prefix give a concrete IRI that does not expand back. Resolution and relativisation of IRIs are parameters with the facts used listed (Spec.CompactFacts)."
  },
  {
   "property": "C36",
   "status": "partial",
   "theorems": [
    "JsonLd.Props.C36_choice_partial",
    "JsonLd.Props.C36_order_partial",
    "JsonLd.Props.C36_order_dependent"
   ],
   "note": "False of the code: C36_order_dependent. Proved: the chosen compact IRI is a candidate that no candidate beats in both length and order (C36_choice_partial); the result is independent of the order if compact IRIs are comparable (C36_order_partial, term selection included)."
  },
  {
   "property": "C37",
   "status": "partial",
   "theorems": [
    "JsonLd.Props.C37_back_partial",
    "JsonLd.Props.C37_json",
    "JsonLd.Props.C37_direction",
    "JsonLd.Props.C37_language",
    "JsonLd.Props.C37_coerced",
    "JsonLd.Props.C37_json_index",
    "JsonLd.Props.C37_none",
    "JsonLd.Props.C37_null"
   ],
   "note": "False of the code in general: C37_direction, C37_language, C37_coerced, C37_json_index, C37_none, C37_null. Proved (C37_back_partial) for all values described by Spec.Faithful, any term, default language and direction, index or not, in contexts without scoped contexts and without redefined keywords; JSON literals under @json terms in C37_json. Missing: scoped contexts, and the values excluded by Faithful that do survive."
  },
  {
   "property": "C38",
   "status": "proved",
   "theorems": [
    "JsonLd.Props.C38_values",
    "JsonLd.Props.C38_form",
    "JsonLd.Props.C38_single",
    "JsonLd.Props.C38_json_array"
   ],
   "note": "For all sequences of additions, on the model of add_value; the panics for duplicate keys cannot occur (the keys stay distinct). Witness C38_json_array: JSON literals that are arrays lose their structure when added."
  },
  {
   "property": "C39",
   "status": "proved",
   "theorems": [
    "JsonLd.Props.C39_collection",
    "JsonLd.Props.C39_error"
   ],
   "note": "For any function compacting an item (compact_collection_with is generic in its items). Which error is reported is characterised too."
  },
  {
   "property": "C40",
   "status": "proved",
   "theorems": [
    "JsonLd.Props.C40_value_good",
    "JsonLd.Props.C40_scalar_good",
    "JsonLd.Props.C40_no_panic",
    "JsonLd.Props.C40_value_object",
    "JsonLd.Props.C40_scalar"
   ],
   "note": "C40_value_object and C40_scalar characterise expand_value (for objects with at most one entry per keyword) and expand_literal exactly; C40_value_good and C40_scalar_good give well-formedness for arbitrary entries, given that the identifiers in the context are of the kind their texts say; C40_no_panic. Duplicate entries (several keys that expand to the same keyword): the last one counts in the code; only well-formedness is shown for them."
  },
  {
   "property": "C41",
   "status": "proved",
   "theorems": [
    "JsonLd.Props.C41_roundtrip",
    "JsonLd.Props.C41_read",
    "JsonLd.Props.C41_reread",
    "JsonLd.Props.C41_injective",
    "JsonLd.Props.C41_terms"
   ],
   "note": "Equality of contexts as values. Hypothesis CtxOk: texts are what their place requires (IRI references are IRI references, terms defined once and not named like context settings, terms in place of keywords are no keywords); proved of every context the reader returns. Kinds in error messages are not modelled."
  },
  {
   "property": "C42",
   "status": "proved",
   "theorems": [
    "JsonLd.Props.C42_merge",
    "JsonLd.Props.C42_merge_one",
    "JsonLd.Props.C42_terms"
   ],
   "note": "Merging of the definition and of the term list; every term processed once."
  },
  {
   "property": "C43",
   "status": "proved",
   "theorems": [
    "JsonLd.Props.C43_extract",
    "JsonLd.Props.C43_errors"
   ],
   "note": "Full characterisation of the result and of each error."
  },
  {
   "property": "C44",
   "status": "partial",
   "theorems": [
    "JsonLd.Props.C44_wellFormed",
    "JsonLd.Props.C44_initial",
    "JsonLd.Props.C44_reverse_absolute",
    "JsonLd.Props.C44_absolute_partial",
    "JsonLd.Props.C44_types_partial",
    "JsonLd.Props.C44_graphs_partial",
    "JsonLd.Props.C44_top_nodes_partial",
    "JsonLd.Props.C44_sets",
    "JsonLd.Props.C44_index_key",
    "JsonLd.Props.C44_type_map",
    "JsonLd.Props.C44_graph_value",
    "JsonLd.Props.C44_top_list",
    "JsonLd.Props.C44_strict"
   ],
   "note": "Well-formedness of values and identifiers and absence of values at the top hold without conditions (C44_wellFormed, C44_initial), keys of reverse properties are absolute (C44_reverse_absolute), a strict policy admits no undefined key (C44_strict). As stated the property is false of the code; the remaining parts hold under conditions, each with a witness that it is needed: property keys are absolute if no term has an index mapping (C44_absolute_partial, witness C44_index_key); types follow the policy if no term is a type map (C44_types_partial, C44_type_map); graphs have no values if no term has a graph container (C44_graphs_partial, C44_graph_value); the top level has only nodes if @graph is not bound to a list container (C44_top_nodes_partial, C44_top_list)."
  },
  {
   "property": "C45",
   "status": "partial",
   "theorems": [
    "JsonLd.Props.C45_fixed_partial",
    "JsonLd.Props.C45_idempotent_partial",
    "JsonLd.Props.C45_unnamed_graph",
    "JsonLd.Props.C45_ordered",
    "JsonLd.Props.C45_included",
    "JsonLd.Props.C45_graph_reference",
    "JsonLd.Props.C45_relative"
   ],
   "note": "Proved (for all documents, contexts without terms, options and policies) for settled documents: no included nodes, members of graphs and of the document say something, not one unnamed graph at the top, identifiers absolute or no base IRI, no language written '@none', reverse properties in order if the option ordered is used (C45_ordered); for results of expansion provided no index mappings are used. False otherwise: C45_unnamed_graph, C45_included, C45_graph_reference, C45_relative are concrete counterexamples in the model."
  },
  {
   "property": "C46",
   "status": "proved",
   "theorems": [
    "JsonLd.Props.C46_equivalence",
    "JsonLd.Props.C46_node_iff",
    "JsonLd.Props.C46_obj_iff",
    "JsonLd.Props.C46_hash"
   ],
   "note": "For documents whose sets have no two equal members and whose maps no two equal keys (the container invariants)."
  },
  {
   "property": "C47",
   "status": "proved",
   "theorems": [
    "JsonLd.Props.C47_literals",
    "JsonLd.Props.C47_unique"
   ],
   "note": "Printing of numbers and JSON are parameters; null literals, which expansion never yields, get the text null."
  },
  {
   "property": "C48",
   "status": "proved",
   "theorems": [
    "JsonLd.Props.C48_settings"
   ],
   "note": "For a single context definition without @import (C42 reduces @import to this)."
  },
  {
   "property": "C49",
   "status": "proved",
   "theorems": [
    "JsonLd.Props.C49_enough",
    "JsonLd.Props.C49_limit",
    "JsonLd.Props.C49_unfold",
    "JsonLd.Props.C49_unfold_entries"
   ],
   "note": "The model bounds the nesting of calls by the depth of the document; C49_enough: this bound is never reached; C49_limit: a higher bound changes nothing; C49_unfold: the result satisfies the recursive equations without a bound. Context processing is a parameter here (its own termination is C27)."
  },
  {
   "property": "C50",
   "status": "proved",
   "theorems": [
    "JsonLd.Props.C50_no_panic"
   ],
   "note": "About expansion itself; panics of context processing are passed on (example in Props/Expand.lean)."
  },
  {
   "property": "C51",
   "status": "proved",
   "theorems": [
    "JsonLd.Props.C51_stricter",
    "JsonLd.Props.C51_same",
    "JsonLd.Props.C51_errors"
   ],
   "note": "For the options reject and allow_undefined = false; dropping does change the result (example in Props/ExpandPolicy.lean)."
  },
  {
   "property": "C52",
   "status": "proved",
   "theorems": [
    "JsonLd.Props.C52_enough",
    "JsonLd.Props.C52_unfold",
    "JsonLd.Props.C52_no_limit"
   ],
   "note": "C52_enough: more levels than the object is nested change nothing; C52_unfold: the recursive equation of the code; C52_no_limit: the limit is never reached. Context processing is a parameter (its own termination is C27)."
  },
  {
   "property": "C53",
   "status": "proved",
   "theorems": [
    "JsonLd.Props.C53_distinct"
   ],
   "note": "For whole documents with the embedded context."
  },
  {
   "property": "C54",
   "status": "partial",
   "theorems": [
    "JsonLd.Props.C54_plain_partial",
    "JsonLd.Props.C54_panic",
    "JsonLd.Props.C54_list_in_map",
    "JsonLd.Props.C54_graph_in_map"
   ],
   "note": "False in general: C54_panic (a term with an @index container also used for list objects). C54_list_in_map and C54_graph_in_map: the list or graph object is taken for the map. C54_plain_partial: no panic when no context has nested terms or map containers, for all documents. C75_outcome: no panic with nests and maps, under conditions on the context and the document. Missing: an exact condition."
  },
  {
   "property": "C55",
   "status": "proved",
   "theorems": [
    "JsonLd.Props.C55_document",
    "JsonLd.Props.C55_injective",
    "JsonLd.Props.C55_unnamed_graph",
    "JsonLd.Props.C55_reference",
    "JsonLd.Props.C55_no_types",
    "JsonLd.Props.C55_no_reverse",
    "JsonLd.Props.C55_relative"
   ],
   "note": "C55_document is the round trip, C55_injective follows. The conditions on the document are needed: C55_unnamed_graph, C55_reference, C55_no_types, C55_no_reverse, C55_relative (and the C37 counterexamples for values) show documents that do not come back. Contexts with typed terms, containers, scoped contexts, nests are out of the scope of this property."
  },
  {
   "property": "C56",
   "status": "proved",
   "theorems": [
    "JsonLd.Props.C56_language",
    "JsonLd.Props.C56_index",
    "JsonLd.Props.C56_index_property",
    "JsonLd.Props.C56_id",
    "JsonLd.Props.C56_type",
    "JsonLd.Props.C56_graph_index",
    "JsonLd.Props.C56_graph_id"
   ],
   "note": "One equivalence for each kind of container; objects with a single entry (C58 says how entries add up). Not covered: terms of type @json with such containers (C57_json covers these)."
  },
  {
   "property": "C57",
   "status": "proved",
   "theorems": [
    "JsonLd.Props.C57_json",
    "JsonLd.Props.C57_plain",
    "JsonLd.Props.C57_list",
    "JsonLd.Props.C57_graph",
    "JsonLd.Props.C57_array",
    "JsonLd.Props.C57_set_object",
    "JsonLd.Props.C57_list_object"
   ],
   "note": "Equivalences for each kind of container. C57_json excludes list and graph containers."
  },
  {
   "property": "C58",
   "status": "proved",
   "theorems": [
    "JsonLd.Props.C58_entry",
    "JsonLd.Props.C58_nest",
    "JsonLd.Props.C58_alias"
   ],
   "note": "C58_entry for objects whose keys stand for properties; C58_nest for such keys inside the nested objects; C58_alias for any object without @context and with unscoped terms."
  },
  {
   "property": "C59",
   "status": "proved",
   "theorems": [
    "JsonLd.Props.C59_revert",
    "JsonLd.Props.C59_stay",
    "JsonLd.Props.C59_property_scoped",
    "JsonLd.Props.C59_property_scoped_scalar",
    "JsonLd.Props.C59_local",
    "JsonLd.Props.C59_type_scoped"
   ],
   "note": "C59_revert, C59_stay, C59_property_scoped, C59_property_scoped_scalar, C59_local, C59_type_scoped. Context processing is a parameter (C26-C35 are about it)."
  },
  {
   "property": "C60",
   "status": "proved",
   "theorems": [
    "JsonLd.Props.C60_collision",
    "JsonLd.Props.C60_reverse",
    "JsonLd.Props.C60_dropped",
    "JsonLd.Props.C60_types"
   ],
   "note": "C60_collision, C60_reverse for any object and context; C60_types and C60_dropped for objects with nothing else (C58 says how entries add up)."
  },
  {
   "property": "C61",
   "status": "partial",
   "theorems": [
    "JsonLd.Props.C61_no_panic",
    "JsonLd.Props.C61_back_partial",
    "JsonLd.Props.C61_prefix",
    "JsonLd.Props.C61_null",
    "JsonLd.Props.C61_base",
    "JsonLd.Props.C61_language"
   ],
   "note": "C61_no_panic for every processed context. C61_back_partial for Writable contexts: the code is wrong for the exceptions (C61_prefix, C61_null, C61_base, C61_language); contexts with scoped contexts or previous contexts, names with colons or slashes, and IRIs that the context itself would change are missing."
  },
  {
   "property": "C62",
   "status": "partial",
   "theorems": [
    "JsonLd.Props.C62_settings_partial",
    "JsonLd.Props.C62_terms",
    "JsonLd.Props.C62_iris_partial"
   ],
   "note": "False of the code: C62_terms. C62_settings_partial says what equality is; C62_iris_partial needs the same terms."
  },
  {
   "property": "C63",
   "status": "partial",
   "theorems": [
    "JsonLd.Props.C63_literals_partial",
    "JsonLd.Props.C63_idempotent",
    "JsonLd.Props.C63_equal",
    "JsonLd.Props.C63_graph",
    "JsonLd.Props.C63_graph_rdf"
   ],
   "note": "False of the code inside @graph and @included (C63_graph, C63_graph_rdf); C63_literals_partial says exactly which values change. Idempotence and preservation of equality hold in full."
  },
  {
   "property": "C64",
   "status": "proved",
   "theorems": [
    "JsonLd.Props.C64_statements",
    "JsonLd.Props.C64_quads",
    "JsonLd.Props.C64_language_case"
   ],
   "note": "C64_statements for all documents. C64_quads for statements with neither lists (whose cells get other names) nor language strings (tags may differ in case: C64_language_case)."
  },
  {
   "property": "C65",
   "status": "partial",
   "theorems": [
    "JsonLd.Props.C65_to_rdf_partial",
    "JsonLd.Props.C65_conflation"
   ],
   "note": "C65_to_rdf_partial: complete and sound for the statements of the relabelled document (described as in C14). Missing because the code is wrong: blank properties are not renamed along (C65_conflation). Literals in graphs are not canonical (C63)."
  },
  {
   "property": "C66",
   "status": "proved",
   "theorems": [
    "JsonLd.Props.C66_graph_members",
    "JsonLd.Props.C66_graph_empty",
    "JsonLd.Props.C66_graph_named",
    "JsonLd.Props.C66_graph_no_map",
    "JsonLd.Props.C66_graph_index",
    "JsonLd.Props.C66_graph_member_index",
    "JsonLd.Props.C66_graph_in_graph",
    "JsonLd.Props.C66_document",
    "JsonLd.Props.C66_injective",
    "JsonLd.Props.C66_two_lists",
    "JsonLd.Props.C66_json",
    "JsonLd.Props.C66_list_in_list",
    "JsonLd.Props.C66_reference_index",
    "JsonLd.Props.C66_direction_in_map",
    "JsonLd.Props.C66_number_in_map",
    "JsonLd.Props.C66_list_for_map",
    "JsonLd.Props.C66_reverse_map",
    "JsonLd.Props.C66_keyword_index",
    "JsonLd.Props.C66_iri_term"
   ],
   "note": "C66_document is the round trip (up to the order of values, as maps regroup them), whether keys are sorted or not on either side, C66_injective follows. The conditions are needed: C66_two_lists, C66_json, C66_list_in_list, C66_reference_index, C66_direction_in_map, C66_number_in_map, C66_list_for_map, C66_reverse_map, C66_keyword_index, C66_iri_term, C66_graph_members, C66_graph_empty, C66_graph_named, C66_graph_no_map, C66_graph_index, C66_graph_member_index and C66_graph_in_graph show documents that do not come back. Scoped contexts, nests, terms with @index or @reverse are out of the scope of this property."
  },
  {
   "property": "C67",
   "status": "proved",
   "theorems": [
    "JsonLd.Props.C67_compare",
    "JsonLd.Props.C67_compare_equivalence",
    "JsonLd.Props.C67_round_trip",
    "JsonLd.Props.C67_compare_syntax",
    "JsonLd.Props.C67_relative",
    "JsonLd.Props.C67_two_bases",
    "JsonLd.Props.C67_relative_base",
    "JsonLd.Props.C67_context_url"
   ],
   "note": "C67_compare, C67_compare_equivalence, C67_round_trip (for any value of the option ordered). The condition on the contexts is needed: C67_two_bases. Other deviations: C67_compare_syntax (documents that expand alike may compare as different), C67_relative (compact_to_relative is ignored if a base is given), C67_relative_base (relative @base fails in compaction only), C67_context_url (a context given by URL is not read relative to that URL)."
  },
  {
   "property": "C68",
   "status": "partial",
   "theorems": [
    "JsonLd.Props.C68_order_partial",
    "JsonLd.Props.C68_accepted_partial",
    "JsonLd.Props.C68_active",
    "JsonLd.Props.C68_reverse",
    "JsonLd.Props.C68_id",
    "JsonLd.Props.C68_value",
    "JsonLd.Props.C68_json"
   ],
   "note": "C68_order_partial, C68_accepted_partial. The conditions are needed, since the code depends on the order otherwise: C68_reverse (a reverse property before @reverse is an error, after it not), C68_id (an ignored @id), C68_value (the last of two keys for @value counts), C68_json. Missing: moving members of objects that have a key for @nest or two keys for @type or @included (members inside the value of @nest can be moved)."
  },
  {
   "property": "C69",
   "status": "proved",
   "theorems": [
    "JsonLd.Props.C69_arrays",
    "JsonLd.Props.C69_apart",
    "JsonLd.Props.C69_single",
    "JsonLd.Props.C69_type",
    "JsonLd.Props.C69_document"
   ],
   "note": "C69_arrays for a node (C69_apart gives its condition for contexts in which properties can be expanded back), C69_document for the document, C69_single and C69_type for single values with compact_arrays on. Identifiers and indexes are single strings. The remaining types of a node in a map by type are added again after the node is compacted, as single strings if there is one (example)."
  },
  {
   "property": "C70",
   "status": "proved",
   "theorems": [
    "JsonLd.Props.C70_document",
    "JsonLd.Props.C70_injective",
    "JsonLd.Props.C70_type_outside",
    "JsonLd.Props.C70_type_redefined",
    "JsonLd.Props.C70_alias",
    "JsonLd.Props.C70_reference",
    "JsonLd.Props.C70_list",
    "JsonLd.Props.C70_protected"
   ],
   "note": "C70_document is the round trip, C70_injective follows. Carries follows the contexts that compaction uses, from node to node. The conditions are needed: C70_type_outside, C70_type_redefined, C70_alias, C70_reference, C70_list and C70_protected show documents that do not come back. Types, languages and containers of terms together with scoped contexts are out of the scope of this property."
  },
  {
   "property": "C71",
   "status": "proved",
   "theorems": [
    "JsonLd.Props.C71_chosen",
    "JsonLd.Props.C71_best",
    "JsonLd.Props.C71_typed_list",
    "JsonLd.Props.C71_container",
    "JsonLd.Props.C71_language_map",
    "JsonLd.Props.C71_item_order",
    "JsonLd.Props.C71_plain",
    "JsonLd.Props.C71_plain_selected"
   ],
   "note": "C71_chosen is the whole statement (the orders of preference are Wanted and Containers in Spec/Choice.lean); C71_best, C71_container, C71_typed_list and C71_language_map are consequences. C71_item_order shows that the term for a list of numbers and strings depends on the order of the items, unlike in JSON-LD."
  },
  {
   "property": "C72",
   "status": "proved",
   "theorems": [
    "JsonLd.Props.C72_document",
    "JsonLd.Props.C72_value",
    "JsonLd.Props.C72_never_list",
    "JsonLd.Props.C72_list",
    "JsonLd.Props.C72_list_values",
    "JsonLd.Props.C72_number_type",
    "JsonLd.Props.C72_double",
    "JsonLd.Props.C72_null",
    "JsonLd.Props.C72_direction",
    "JsonLd.Props.C72_graph",
    "JsonLd.Props.C72_node_with_graph",
    "JsonLd.Props.C72_failure"
   ],
   "note": "C72_document is an equivalence: LdTop (Spec/LinkedData.lean) lists exactly the documents that survive. C72_list to C72_failure show what is lost, and a document whose serialization fails."
  },
  {
   "property": "C73",
   "status": "proved",
   "theorems": [
    "JsonLd.Props.C73_error",
    "JsonLd.Props.C73_fault",
    "JsonLd.Props.C73_document"
   ],
   "note": "C73_error and C73_fault: the reasons are inductive relations in Spec/LdSerialize.lean. With several reasons the error is one of them (the order is not stated). C73_document adds that the result is well formed."
  },
  {
   "property": "C74",
   "status": "proved",
   "theorems": [
    "JsonLd.Props.C74_node",
    "JsonLd.Props.C74_identified",
    "JsonLd.Props.C74_anonymous",
    "JsonLd.Props.C74_objects",
    "JsonLd.Props.C74_overwritten"
   ],
   "note": "C74_node for every entry; C74_identified and C74_anonymous for objects; C74_objects for the order of objects. C74_overwritten: objects told first are lost."
  },
  {
   "property": "C75",
   "status": "proved",
   "theorems": [
    "JsonLd.Props.C75_outcome",
    "JsonLd.Props.C75_succeeds",
    "JsonLd.Props.C75_round_trip",
    "JsonLd.Props.C75_confused",
    "JsonLd.Props.C75_nest",
    "JsonLd.Props.C75_named_graphs",
    "JsonLd.Props.C75_id_in_type_map",
    "JsonLd.Props.C75_reverse_map"
   ],
   "note": "C75_outcome: the only failures, with a reason for each; C75_succeeds without scoped contexts; C75_round_trip together with C66_document. The conditions are needed: C75_confused, C75_nest, C75_named_graphs, C75_id_in_type_map, C54_panic. C75_reverse_map: a reverse term with a map by index gives an array of a map if compact_arrays is off (reverse terms with maps are excluded by SafeCtx)."
  },
  {
   "property": "C76",
   "status": "proved",
   "theorems": [
    "JsonLd.Props.C76_cause",
    "JsonLd.Props.C76_accepted",
    "JsonLd.Props.C76_plain"
   ],
   "note": "C76_cause: every error comes with a fault of its kind (Spec/Faults.lean) at a place under the top; C76_accepted is its contrapositive; C76_plain: documents without contexts, with full names. Not claimed: that a document with several faults fails with a particular one."
  },
  {
   "property": "C77",
   "status": "partial",
   "theorems": [
    "JsonLd.Props.C77_injective",
    "JsonLd.Props.C77_read_partial",
    "JsonLd.Props.C77_duplicate",
    "JsonLd.Props.C77_code",
    "JsonLd.Props.C77_texts"
   ],
   "note": "The text of DuplicateKey is not read back (C77_duplicate), so C77_read_partial excludes that code. C77_code: every error of expand has a code unless context processing panics. C77_texts: what seven of the texts say about the document; the other codes have their cause by C76_cause."
  },
  {
   "property": "C78",
   "status": "proved",
   "theorems": [
    "JsonLd.Props.C78_refused",
    "JsonLd.Props.C78_checked",
    "JsonLd.Props.C78_faulty"
   ],
   "note": "Invalid (Spec/Refused.lean): a place reached through places that are certainly visited, with what is wrong there; C78_refused: expansion fails; C78_checked: the contrapositive; C78_faulty relates it to C76. What the code does not check is not in Wrong: the @index of set objects, the language @none of value objects, all but the last of several @list, @set or @value entries."
  },
  {
   "property": "C79",
   "status": "proved",
   "theorems": [
    "JsonLd.C79_history",
    "JsonLd.C79_any",
    "JsonLd.C79_removed",
    "JsonLd.C79_listed",
    "JsonLd.C79_order",
    "JsonLd.C79_remove",
    "JsonLd.C79_once",
    "JsonLd.C79_unique",
    "JsonLd.C79_equivalent_node",
    "JsonLd.C79_equivalent",
    "JsonLd.C79_same",
    "JsonLd.C79_contains_empty",
    "JsonLd.C79_not_unique"
   ],
   "note": "History (Spec/PropMap.lean): what a sequence of calls says about one property; C79_history: get and contains agree with it for all four types of keys. C79_once, C79_unique: the unique calls. C79_equivalent: what equivalence is. C79_contains_empty and C79_not_unique: where the doc comments promise something else (a property without objects is contained; lists and unnamed nodes are equivalent to nothing, so they are added again)."
  },
  {
   "property": "C80",
   "status": "partial",
   "theorems": [
    "JsonLd.C80_node",
    "JsonLd.C80_value",
    "JsonLd.C80_indexed",
    "JsonLd.C80_length",
    "JsonLd.C80_fused",
    "JsonLd.C80_both_ends",
    "JsonLd.C80_traversal",
    "JsonLd.C80_has_key",
    "JsonLd.C80_json_partial",
    "JsonLd.C80_included",
    "JsonLd.C80_no_types"
   ],
   "note": "Yields (Spec/Entries.lean): the items given by repeated next. C80_json_partial excludes included nodes, whose member is written as @include (C80_included), and empty lists of types, which are yielded but not written (C80_no_types)."
  },
  {
   "property": "C81",
   "status": "proved",
   "theorems": [
    "JsonLd.C81_exact",
    "JsonLd.C81_statements",
    "JsonLd.C81_undo",
    "JsonLd.C81_id",
    "JsonLd.C81_wf",
    "JsonLd.C81_ids",
    "JsonLd.C81_merge"
   ],
   "note": "replaceIds (Spec/MapIds.lean) replaces identifiers structurally; C81_exact: map_ids is this for functions that are injective on the identifiers and value types that occur. C81_ids, C81_merge, C81_wf hold for any functions. The closures are pure functions, identifiers before and after have one type. Context::map_ids is not modelled."
  },
  {
   "property": "C82",
   "status": "partial",
   "theorems": [
    "JsonLd.Props.C82_top",
    "JsonLd.Props.C82_expand_context",
    "JsonLd.Props.C82_link",
    "JsonLd.Props.C82_propagate",
    "JsonLd.Props.C82_value",
    "JsonLd.Props.C82_set"
   ],
   "note": "C82_top, C82_expand_context, C82_link: equality of the results, errors included, without bounds. Excluded because the code differs: objects with @set or @value next to @context (rejected: C82_value, C82_set) and contexts with @propagate false (the option has no effect at all: C82_propagate). For the option the base of the options and the URL of the document must agree in the sense of the hypothesis."
  },
  {
   "property": "C83",
   "status": "partial",
   "theorems": [
    "JsonLd.Props.C83_ordered_partial",
    "JsonLd.Props.C83_reverse",
    "JsonLd.Props.C83_expansion",
    "JsonLd.Props.C83_absolute",
    "JsonLd.Props.C83_relative",
    "JsonLd.Props.C83_context_base",
    "JsonLd.Props.C83_vocab",
    "JsonLd.Props.C83_invalid",
    "JsonLd.Props.C83_undefined",
    "JsonLd.Props.C83_flatten",
    "JsonLd.Props.C83_flatten_deterministic"
   ],
   "note": "PropsReordered (Spec/PropOrder.lean): properties listed in another order at any depth. C83_ordered_partial: ordered compaction gives the same; not for reverse properties, which are never sorted (C83_reverse), and expansion does not sort the properties of a node at all (C83_expansion). C83_absolute, C83_relative, C83_context_base: base IRI. C83_vocab, C83_invalid, C83_undefined: policies. C83_flatten, C83_flatten_deterministic."
  },
  {
   "property": "C84",
   "status": "proved",
   "theorems": [
    "JsonLd.Props.C84_text",
    "JsonLd.Props.C84_node_text",
    "JsonLd.Props.C84_entries",
    "JsonLd.Props.C84_reread",
    "JsonLd.Props.C84_round_trip",
    "JsonLd.Props.C84_injective",
    "JsonLd.Props.C84_example",
    "JsonLd.Props.C84_example_reread"
   ],
   "note": "The functions of json_syntax::print are parameters (Printer). shownDoc (Spec/Print.lean) is the JSON value shown for a document, text its layout. C84_text, C84_node_text: no panic, all sizes used, the text of shownDoc. C84_entries: the entries yielded by the iterators of C80. C84_reread: reading shownDoc gives the document, for well-formed documents whose property names are not among the names of node entries. C84_round_trip, C84_injective."
  },
  {
   "property": "C85",
   "status": "proved",
   "theorems": [
    "JsonLd.Props.C85_text",
    "JsonLd.Props.C85_round_trip",
    "JsonLd.Props.C85_definition",
    "JsonLd.Props.C85_term",
    "JsonLd.Props.C85_definition_len",
    "JsonLd.Props.C85_term_len",
    "JsonLd.Props.C85_definition_entries",
    "JsonLd.Props.C85_term_entries",
    "JsonLd.Props.C85_injective",
    "JsonLd.Props.C85_example",
    "JsonLd.Props.C85_clash"
   ],
   "note": "C85_text, C85_round_trip, C85_injective under CtxOk (holds of every context read, C41_read); a context made by a program with a term called like an entry is printed with both (C85_clash). C85_definition, C85_term, C85_definition_len, C85_term_len, C85_definition_entries, C85_term_entries: the iterators. The functions of json_syntax::print are parameters."
  },
  {
   "property": "C86",
   "status": "partial",
   "theorems": [
    "JsonLd.Props.C86_kind",
    "JsonLd.Props.C86_scoped_array",
    "JsonLd.Props.C86_items",
    "JsonLd.Props.C86_entries",
    "JsonLd.Props.C86_entry",
    "JsonLd.Props.C86_order",
    "JsonLd.Props.C86_sound",
    "JsonLd.Props.C86_visited_partial",
    "JsonLd.Props.C86_missed",
    "JsonLd.Props.C86_count_partial",
    "JsonLd.Props.C86_capacity",
    "JsonLd.Props.C86_example"
   ],
   "note": "C86_order: the exact sequence of fragments, so that the traversal ends. C86_sound. C86_visited_partial: which fragments are visited; false for what is inside the entries of term definitions (C86_missed): keys, values, containers, scoped contexts are not visited. C86_count_partial, C86_capacity: arrays and objects counted when printing."
  },
  {
   "property": "C87",
   "status": "partial",
   "theorems": [
    "JsonLd.Props.C87_conservative",
    "JsonLd.Props.C87_refuses_partial",
    "JsonLd.Props.C87_refuses_propagate",
    "JsonLd.Props.C87_propagate_in_array"
   ],
   "note": "C87_conservative in full. C87_refuses_partial: every definition reached through references has none of the new entries; not for @propagate, which is accepted in arrays (C87_propagate_in_array; refused in single definitions, C87_refuses_propagate), nor for @protected of a whole context, which JSON-LD does not refuse either."
  },
  {
   "property": "C88",
   "status": "partial",
   "theorems": [
    "JsonLd.Props.C88_says_partial",
    "JsonLd.Props.C88_exact",
    "JsonLd.Props.C88_first",
    "JsonLd.Props.C88_order"
   ],
   "note": "C88_says_partial: every term of the definition or its import; base URL and protection by default may be lost. C88_exact: they are not, if no term before refers to the term (definitions without import); C88_first. C88_order: they are lost for terms first met while another term is defined."
  },
  {
   "property": "C89",
   "status": "partial",
   "theorems": [
    "JsonLd.Props.C89_json_partial",
    "JsonLd.Props.C89_import_partial",
    "JsonLd.Props.C89_order_partial",
    "JsonLd.Props.C89_accepted"
   ],
   "note": "C89_order_partial: if both are accepted, the results agree on everything except base URLs of scoped contexts and protection; C89_import_partial for definitions with import; C89_json_partial for contexts in JSON, where all members move. False for base URLs and protection (C88_order) and for acceptance (C89_accepted)."
  },
  {
   "property": "C90",
   "status": "proved",
   "theorems": [
    "JsonLd.Props.C90_flat",
    "JsonLd.Props.C90_fixed",
    "JsonLd.Props.C90_unchanged",
    "JsonLd.Props.C90_twice"
   ],
   "note": "C90_flat: flattened documents are flat and have no empty node; C90_fixed: flattening a flat document succeeds and renames it; C90_unchanged: without blank nodes it is the same document; C90_twice composes them."
  },
  {
   "property": "C91",
   "status": "proved",
   "theorems": [
    "JsonLd.Props.C91_iff",
    "JsonLd.Props.C91_equivalence",
    "JsonLd.Props.C91_stricter",
    "JsonLd.Props.C91_lists",
    "JsonLd.Props.C91_nested_arrays",
    "JsonLd.Props.C91_duplicate_keys"
   ],
   "note": "C91_iff, C91_equivalence, C91_stricter, C91_lists, for documents without duplicate keys; C91_duplicate_keys shows that this is needed, C91_nested_arrays that lists of lists written with nested arrays lose the order of the inner ones."
  },
  {
   "property": "C92",
   "status": "proved",
   "theorems": [
    "JsonLd.Props.C92_file",
    "JsonLd.Props.C92_inside",
    "JsonLd.Props.C92_mount",
    "JsonLd.Props.C92_load",
    "JsonLd.Props.C92_shadowed",
    "JsonLd.Props.C92_dots"
   ],
   "note": "C92_file, C92_inside, C92_mount, C92_load. The path of an URL below another (iref) is a parameter; Unix paths. C92_shadowed: the most specific mount point is not preferred; C92_dots."
  },
  {
   "property": "C93",
   "status": "partial",
   "theorems": [
    "JsonLd.Props.C93_statements",
    "JsonLd.Props.C93_types",
    "JsonLd.Props.C93_rdf_partial",
    "JsonLd.Props.C93_quads",
    "JsonLd.Props.C93_type_lost"
   ],
   "note": "C93_statements, C93_types, C93_rdf_partial, C93_quads. Types are kept only if those given to each node agree: otherwise the code loses some, C93_type_lost."
  },
  {
   "property": "C94",
   "status": "partial",
   "theorems": [
    "JsonLd.Props.C94_flattened_fixed",
    "JsonLd.Props.C94_pipeline_partial",
    "JsonLd.Props.C94_not_before"
   ],
   "note": "C94_flattened_fixed for all documents that are Readable; C94_pipeline_partial for results of expansion, where keys are known to be absolute only without index mappings (C44). C94_not_before: the document itself need not be a fixed point."
  },
  {
   "property": "C95",
   "status": "partial",
   "theorems": [
    "JsonLd.Props.C95_sequence_partial",
    "JsonLd.Props.C95_skipped_partial",
    "JsonLd.Props.C95_skipped_example"
   ],
   "note": "C95_sequence_partial for first arrays without references. With references it is false of the code: C95_skipped_partial, C95_skipped_example."
  },
  {
   "property": "C96",
   "status": "partial",
   "theorems": [
    "JsonLd.Props.C96_import_partial",
    "JsonLd.Props.C96_independent_partial",
    "JsonLd.Props.C96_repeat_partial",
    "JsonLd.Props.C96_settings",
    "JsonLd.Props.C96_vocab_grows"
   ],
   "note": "C96_independent_partial and C96_repeat_partial, with imports by C96_import_partial, provided the second run is accepted (C96_settings: when base and vocabulary mapping are the same). C96_vocab_grows: relative vocabulary mappings are appended each time."
  },
  {
   "property": "C97",
   "status": "partial",
   "theorems": [
    "JsonLd.Props.C97_idle_partial",
    "JsonLd.Props.C97_objects",
    "JsonLd.Props.C97_lone"
   ],
   "note": "C97_idle_partial for nodes. In value objects, list objects and set objects such entries are errors in the code: C97_objects. C97_lone: why a lone @id is excepted."
  },
  {
   "property": "C98",
   "status": "proved",
   "theorems": [
    "JsonLd.Props.C98_simulates",
    "JsonLd.Props.C98_mentioned",
    "JsonLd.Props.C98_context",
    "JsonLd.Props.C98_needed",
    "JsonLd.Props.C98_graph"
   ],
   "note": "C98_simulates is the general statement, for documents with contexts anywhere; C98_mentioned and C98_context are its instances for one pair of contexts. C98_needed: prefixes and index mappings matter. C98_graph: so does a definition of the term @graph."
  },
  {
   "property": "C99",
   "status": "partial",
   "theorems": [
    "JsonLd.Props.C99_import_partial",
    "JsonLd.Props.C99_import_example",
    "JsonLd.Props.C99_terms_partial",
    "JsonLd.Props.C99_added_partial",
    "JsonLd.Props.C99_version",
    "JsonLd.Props.C99_needed"
   ],
   "note": "C99_terms_partial and C99_added_partial: with @import by C99_import_partial, for accepted definitions, and aside from base URLs of scoped contexts and protection, which the code makes depend on the order (C88, C89). C99_version for documents, without scoped contexts of mentioned terms."
  },
  {
   "property": "C100",
   "status": "partial",
   "theorems": [
    "JsonLd.Props.C100_error",
    "JsonLd.Props.C100_union_partial",
    "JsonLd.Props.C100_statements_partial",
    "JsonLd.Props.C100_single",
    "JsonLd.Props.C100_nested",
    "JsonLd.Props.C100_graph"
   ],
   "note": "C100_union_partial and C100_statements_partial except for graphs without identifier, of which the claim is false: C100_graph. C100_error, C100_single and C100_nested hold in general."
  },
  {
   "property": "C101",
   "status": "proved",
   "theorems": [
    "JsonLd.Props.C101_quads",
    "JsonLd.Props.C101_statements",
    "JsonLd.Props.C101_types",
    "JsonLd.Props.C101_dataset",
    "JsonLd.Props.C101_rdf",
    "JsonLd.Props.C101_well_formed",
    "JsonLd.Props.C101_example",
    "JsonLd.Props.C101_type_lost"
   ],
   "note": "Types are kept if the document gives them in one way in the graph, as claimed; otherwise only one of the lists is kept: C101_type_lost."
  },
  {
   "property": "C102",
   "status": "proved",
   "theorems": [
    "JsonLd.Props.C102_nodes",
    "JsonLd.Props.C102_types",
    "JsonLd.Props.C102_properties",
    "JsonLd.Props.C102_reverse",
    "JsonLd.Props.C102_index",
    "JsonLd.Props.C102_entries",
    "JsonLd.Props.C102_generated",
    "JsonLd.Props.C102_statements",
    "JsonLd.Props.C102_graph_lost"
   ],
   "note": "The claim leaves out @graph and @included entries, which may be lost when another graph mentions the node: C102_graph_lost."
  },
  {
   "property": "C103",
   "status": "proved",
   "theorems": [
    "JsonLd.Props.C103_relabel",
    "JsonLd.Props.C103_rdf",
    "JsonLd.Props.C103_node_map",
    "JsonLd.Props.C103_flatten",
    "JsonLd.Props.C103_map_ids",
    "JsonLd.Props.C103_example",
    "JsonLd.Props.C103_merged"
   ],
   "note": "Property keys are the same in both documents: blank nodes used as keys are not relabelled by the code (C14). C103_map_ids: renaming with map_ids. C103_merged: names must stay different."
  },
  {
   "property": "C104",
   "status": "partial",
   "theorems": [
    "JsonLd.Props.C104_iri_result",
    "JsonLd.Props.C104_keys_result",
    "JsonLd.Props.C104_value_result",
    "JsonLd.Props.C104_iri",
    "JsonLd.Props.C104_iri_invalid",
    "JsonLd.Props.C104_silent_partial",
    "JsonLd.Props.C104_keys",
    "JsonLd.Props.C104_keys_error",
    "JsonLd.Props.C104_blank",
    "JsonLd.Props.C104_empty",
    "JsonLd.Props.C104_tag",
    "JsonLd.Props.C104_value",
    "JsonLd.Props.C104_unreported"
   ],
   "note": "The last sentence is false of the code: `_:` and strings appended to a prefix or vocabulary that do not make an identifier are not reported (C104_unreported). C104_silent_partial: these are the only cases, besides terms defined as invalid identifiers. Only IRI expansion, the loop over the keys of an object and value objects are modelled with their warnings."
  },
  {
   "property": "C105",
   "status": "proved",
   "theorems": [
    "JsonLd.Props.C105_parts",
    "JsonLd.Props.C105_previous",
    "JsonLd.Props.C105_replaced",
    "JsonLd.Props.C105_len",
    "JsonLd.Props.C105_empty",
    "JsonLd.Props.C105_protected",
    "JsonLd.Props.C105_contains",
    "JsonLd.Props.C105_fresh",
    "JsonLd.Props.C105_inverse",
    "JsonLd.Props.C105_select",
    "JsonLd.Props.C105_type_key"
   ],
   "note": "Contexts with their cell are modelled in Model/CtxCache.lean; OnceCell and HashMap are taken as an option and a map. Reading through two references at once cannot be told from reading in turn."
  },
  {
   "property": "C106",
   "status": "proved",
   "theorems": [
    "JsonLd.Props.C106_has_graph",
    "JsonLd.Props.C106_members",
    "JsonLd.Props.C106_refers"
   ],
   "note": "C106_has_graph, C106_members, C106_refers. Nodes that occur deeper in a graph are nodes of the named graph, but not in the entry."
  },
  {
   "property": "C107",
   "status": "proved",
   "theorems": [
    "JsonLd.Props.C107_result",
    "JsonLd.Props.C107_warnings",
    "JsonLd.Props.C107_prefix",
    "JsonLd.Props.C107_tag",
    "JsonLd.Props.C107_spurious",
    "JsonLd.Props.C107_reject"
   ],
   "note": "C107_result, C107_warnings, C107_prefix, C107_tag, and the disagreements C107_spurious and C107_reject. The reason given for a malformed tag is not modelled."
  },
  {
   "property": "C108",
   "status": "proved",
   "theorems": [
    "JsonLd.Props.C108_meaningless",
    "JsonLd.Props.C108_no_identifier",
    "JsonLd.Props.C108_plain",
    "JsonLd.Props.C108_value",
    "JsonLd.Props.C108_never",
    "JsonLd.Props.C108_defined",
    "JsonLd.Props.C108_vocab"
   ],
   "note": "C108_meaningless, C108_no_identifier, C108_plain, C108_value, C108_never. The three cases occur and lose or change what was said: C108_defined, C108_vocab (and C35_relative_keyword)."
  },
  {
   "property": "C109",
   "status": "proved",
   "theorems": [
    "JsonLd.Props.C109_literal_result",
    "JsonLd.Props.C109_literal",
    "JsonLd.Props.C109_base",
    "JsonLd.Props.C109_id_result",
    "JsonLd.Props.C109_id",
    "JsonLd.Props.C109_types_result",
    "JsonLd.Props.C109_types"
   ],
   "note": "C109_literal_result, C109_literal, C109_base, C109_id_result, C109_id, C109_types_result, C109_types. What is not understood is said by Spec.NotUnderstood (as in C104)."
  },
  {
   "property": "C110",
   "status": "proved",
   "theorems": [
    "JsonLd.Props.C110_again",
    "JsonLd.Props.C110_scoped"
   ],
   "note": "C110_again (names), C110_scoped (scoped contexts). Not covered: contexts with maps and typed terms, where C66 gives an equal document only."
  },
  {
   "property": "C111",
   "status": "proved",
   "theorems": [
    "JsonLd.Props.C111_nothing_lost",
    "JsonLd.Props.C111_accepted",
    "JsonLd.Props.C111_order",
    "JsonLd.Props.C111_term_order",
    "JsonLd.Props.C111_twice",
    "JsonLd.Props.C111_moved",
    "JsonLd.Props.C111_same"
   ],
   "note": "C111_nothing_lost, C111_accepted, C111_order, C111_term_order. C111_moved (Props/CtxMoved): acceptance does not depend on the order of members at any depth; C111_same: and what is read is written as the same JSON. SameJson is in Spec/SameJson.lean. C111_twice: with duplicate keys the claim is false, as the first of two entries @vocab is lost without an error."
  }
 ]
}