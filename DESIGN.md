# Formal model of the `json-ld` crate family: design

## Trusted base

* The Lean 4 kernel (4.33.0). Theorems depend at most on the standard axioms
  `propext`, `Classical.choice`, `Quot.sound`. No axiom, `sorry`, `native_decide` or
  `bv_decide` is used (`Verif/Audit.lean` prints the axioms of each claim theorem).
* The transcription of the Rust source into the model. Each definition cites the file and
  lines it transcribes and says where it simplifies.
* What is *not* modelled, in general: the byte encoding of strings (a string is a list of
  characters), memory and hashing of the containers (an `IndexMap`/`IndexSet` is its ordered
  list of entries; a `HashMap` is a list of entries whose order is universally quantified),
  asynchronous scheduling (futures are awaited in sequence by the code), most warnings (but see C104, C107 and C109), spans, and
  the crates outside the repository. External functions (IRI syntax validity, IRI reference
  resolution and relativisation, BCP47 validity, blank identifier generation, the network)
  are *parameters* of the model; whenever a theorem needs a fact about such a function, the
  fact is an explicit hypothesis of the theorem.
* Panics are explicit error values, never totalised away.

## Conventions

* `Verif/Base/*` — strings, JSON, ordered maps, list lemmas.
* `Verif/Model/*` — transcription of the code.
* `Verif/Proofs/*` — helper lemmas.
* `Verif/Spec/*` — small specifications which do not use model helpers.
* `Verif/Props/*` — the property theorems, one file per group, each followed by concrete
  instances which satisfy its hypotheses.

## Plan per property

| Id | Modelled | Proof |
|----|----------|-------|
| C01 | keyword tables, `is_keyword_like` | case split over the finite enumeration, lifted to all strings |
| C02 | ASCII lower-casing, lexicographic comparison | induction on strings |
| C03 | `Container::with` table, fold over the array | order property *false* (`(GraphSet, Index)` gives `GraphIdSet`): refuted by witness; partial: membership outside that transition, round trip |
| C04 | recursive JSON comparison with greedy matching | induction on JSON; matching lemma |
| C05 | `Multiset::eq`, commutative hash | greedy matching = permutation |
| C06 | `LangString` with its setters as a state machine | invariant over call histories |
| C07, C08 | the two header state machines | induction over input, printer/parser round trip |
| C09 | redirect loop over an arbitrary server function | induction on remaining redirections |
| C10 | loaders as partial functions | case analysis, induction over registrations |
| C11 | JSON writer and reader of expanded documents | induction on documents; *false* with `@included` (written as `@include`): refuted, partial otherwise |
| C12 | `MappedEq` | induction; *false* for types (ignored): refuted, partial |
| C13, C14 | identifier assignment and relabelling with a generator state | induction with generator invariants |
| C15 | `Traverse` | *false* for list items: refuted; partial for documents without lists |
| C16–C19 | node map generation and flattening | invariant over the traversal; type loss and sub-graph filtering make C17 partial |
| C20, C21 | quad iterators as list functions | induction |
| C22, C23 | list triples, value conversion | induction; false when an item has no RDF value, resp. for compound literals: refuted, partial |
| C24, C25 | dataset construction and rendering | termination by a uniqueness-of-referrer argument; cycles are lost: refuted, partial |
| C26–C31 | context processing: `define`, `process_context`, stack | induction over entries and dependency depth; for C27 the terms that are done are accessible in the dependency relation, and an error leads back along references to a term in progress; failures of C26 refuted by witness |
| C32, C33 | `expand_iri_simple` | case analysis over strings |
| C34–C36 | inverse context, IRI compaction | sorting argument; C36 false: refuted, partial |
| C37, C40 | value expansion and compaction | case analysis; C37 false for direction/language defaults: refuted, partial |
| C38, C39 | `add_value`, collection compaction | induction over histories |
| C41–C43 | context syntax reader and writer, merge, context extraction | induction |
| C44, C45 | the expansion algorithm | relational big-step characterisation, induction over fuel / JSON size |
| C46 | equality and hashing of documents | greedy matching is a bijection of members; induction on documents |
| C47 | RDF literals of values | case analysis; injectivity |
| C48 | settings of a context definition | unfolding of `process_context` on one definition |
| C49–C51 | expansion with a bound on nested calls | monotonicity in the bound; simulation between policies |
| C52–C54 | the compaction algorithm | monotonicity in the bound; invariants of the object being built; C54 false: refuted, partial |
| C55 | compaction followed by expansion | both algorithms reduced to steps on entries, then induction on documents |
| C56 | the values of terms with map containers | equivalences with relational specifications (`Spec/ExpandMaps`) of each kind of map |
| C57 | the values of other terms, arrays, set and list objects | likewise |
| C58 | entries, nests, aliases | the fold over the entries is split and rearranged |
| C59 | the context with which an object is expanded | the steps that determine the context, for one object at a time |
| C60 | colliding, accumulating, dropped and forbidden keywords of nodes | the keys of a node, once set, stay set: induction over nested entries |
| C61 | active contexts written down (`into_syntax_definition`) and processed again | each definition is read back in any partially built context; induction over any order of the terms; no panic: invariant of processing |
| C62 | equality of active contexts | structural; counterexample for the terms |
| C63 | canonical literals of expanded documents | mutual induction; the values of a document listed in reading order |
| C64 | statements of equal documents | simulation along `Reached`, from equality as existence of matchings |
| C65 | `ToRdf`: relabelling, canonical literals, quads | C14, C63, C64 and C21 composed; invariant of the relabelling: names so far come from the used part of the generator |
| C66 | compaction followed by expansion, with typed terms and maps | the chosen term fits each value (C36); adding a value to a JSON map adds it to the meaning of the map, up to order; sorted keys only reorder the steps (as in C94); then induction as for C55 |
| C67 | the processor: `compare_full`, `expand_full`, `compact_full` | composition of C04, C44, C46 and C66 |
| C68 | `expand_element`, `expand_node_entries`, `expand_value` | each entry is a guarded list of writes to slots of the state, writes to different slots commute; congruence of expansion under equality of objects; induction on the moves |
| C69 | `compact_property`, `add_value`, `compact_indexed_node_with` | invariant of the entries written so far: every entry has the form wanted by its key; nests and `@reverse` are groups with the same invariant inside |
| C70 | `compact_indexed_node_with`, `compact_indexed_value_with`, `expand_element` | the contexts of a node (start, property, types in order) as a relation; expansion of the entries arrives at the same contexts; induction on the nesting |
| C71 | `compact_iri_full`, `InverseContext` | the kinds of values with their containers and conditions in order as relations; repeated wishes can be left out; C34 |
| C72 | `deserialization`, `crates/serialization` | what the visitors see is a tree; closed form of the way back; induction on objects and nodes in both directions |
| C73 | `crates/serialization` | the reasons as mutually inductive relations; induction on the tree; invariant for sets and keys |
| C74 | `SerializeNode`, `SerializeObject` | the effect of each call on each entry, composed over the calls |
| C75 | the compaction algorithm | invariant of the object being built: entries of map terms and nests are objects until their property is finished |
| C76 | the expansion algorithm | faults and the places of a document as relations; for each function a description of its errors, by induction with the bound |
| C77 | `ErrorCode`, `code` of the errors of expansion, compaction, context processing | finite tables; C76 for what the codes say of the document |
| C78 | `expand`, `expand_element`, `expand_node_entries`, `expand_value` | success is inherited by every visited place (`visits_done`), and impossible where something is wrong (`wrong_done`) |
| C79 | `Properties`, `ReverseProperties`, `Multiset::insert_unique`, `equivalent` | refinement: each call changes the history of one property in a described way; induction over the calls |
| C80 | `entries` of nodes, values, objects and indexed objects, `has_key` | the items left in an iterator as an abstraction of its state |
| C81 | `map_ids` of documents | replacement preserves and reflects equality on the identifiers that occur; equal items have equal parts |
| C82 | `expand_full` with `expand_context` or a linked context, `@context` at the top of a document | the two runs are in the same context from the first object on; the extra entry is invisible to each pass over the entries |
| C83 | `Options` and the three algorithms of the processor | relation on documents preserved by each step of compaction; C16, C17, C19, C51 lifted |
| C84 | `PrecomputeSize` and `PrintWithSize` of documents; the functions of `json_syntax::print` are parameters | both passes equal those of a JSON value (induction on documents), for which sizes are consumed in the order they were computed (induction on JSON values) |
| C85 | `PrecomputeSize`, `PrintWithSize` and `Entries` of contexts, definitions and term definitions | both passes equal those of `into_json` (mutual induction on contexts), then as C84 |
| C86 | `Context::traverse`, its fragments and their sub-items | the items left in the stack as a list; counting arrays and objects |
| C87 | the tests of the processing mode in `process_context` and `define` | every successful step in mode 1.0 is one in mode 1.1 (induction on nested calls); finished terms use nothing new (invariant of `define`); induction on trails of references |
| C88 | `define`, `expand_iri_with`, `process_context` | what was found while a term was defined holds in every context that agrees on the terms met so far (`Stable`); invariant of `define` over nested calls, with the terms under way (`Busy`) |
| C89 | as C88 | what is said in a context determines the context: induction on the dependencies of terms, which end (C27) |
| C90 | `Model/Flatten.lean`, `Spec/Flat.lean` (`FlatDoc`) | each node of a flat document is rebuilt by its own updates; the others leave it alone; renaming keeps documents flat (C14) |
| C91 | `Model/SimpleEq.lean`, `Spec/LdEquiv.lean` | as C04: greedy matching is complete as the relation is an equivalence |
| C92 | `Model/FsLoader.lean`, `Spec/Path.lean` | induction on mount points and on segments |
| C93 | `Spec/Reference.lean` | C16, C17, C21 and C64: what is reached in a flat document is one of its nodes or a reference |
| C94 | `Spec/Plainly.lean` | C45, C90 and C14: every item of a flattened document comes from the relabelled document, whose names are those of the document or of the generator |
| C95 | `Processed` (`Model/Process.lean`) | `processEntries` over an appended list; definitions and `null` leave the stack of remote contexts, the original base URL and the previous context as the second run needs them |
| C96 | `Spec.forget` | the comparison of two runs of C89, for one definition and two contexts that agree outside its terms; C48 for the settings |
| C97 | `Spec.Idle`, `Spec.Pruned` (`Spec/Idle.lean`), `Spec.MayBeActive` | both documents are expanded alike in every context that may be active, by induction on `Pruned`; a step for such an entry is the identity, and removing an entry commutes with sorting |
| C98 | `Spec.Mentioned`, `Spec.AgreeOn`, `Spec.Simulates` (`Spec/Mentioned.lean`) | simulation: every function of the expansion gives the same result in related contexts, by induction on the depth of the document |
| C99 | `Spec.DependsOn`, `Spec.forget`, `Spec.Mentioned`, `Spec.mergeDefs` | what was written determines the definitions, by induction on the dependencies of a term (`defs_unique_on`, as for C89), then C98; imports by C42 (`Props/ImportTerms.lean`, also C89 and C96) |
| C100 | `Holds`, `LoneGraph` (`Props/Union.lean`), `Spec.Asserts` | the expansion of an array collects what its items give; sets up to equality of objects |
| C101 | `Spec.MapStates`, `Spec.Asserts`, `TypesOnce` | the stack that starts with the graphs of the map; the invariant of node map generation (C16) |
| C102 | `Spec.InMap`, `Spec.WellKeyed`, `Spec.Holds` | an invariant of merging, against the set of nodes merged so far |
| C103 | `Spec.DocRen`, `Spec.OneToOne` | a simulation: the states of the two runs have corresponding labels with the same new names, and the same node map |
| C104 | `Spec.NotUnderstood`, `Spec.keyWarns` | the functions with warnings (`Model/Warn.lean`) are followed case by case; their results are those of the functions without warnings |
| C105 | `Spec.CtxHistory` and what was last set in it | invariant over histories: the cell is empty or holds the inverse of the context as it is; `@type` definitions do not matter to the inverse, so `set_type` may keep the cell |
| C106 | `Spec.GraphMember` | the entry of one node as a fold over the updates of the map (as for C18), with an invariant on each update |
| C107 | `Spec.langWarns`, `Spec.NoLanguage`, `Spec.mapStrings` | the two loops, with the warnings as a prefix of a fixed list |
| C108 | `Spec.KeywordForm` | cases of `Spec.CompactedBy`, which holds of every compacted IRI; the rules of IRI expansion (C33) |
| C109 | `Spec.iriWarns`, `Spec.stringsIn` | as for C104; induction on the list of types |
| C110 | the processor (C67) | C55 and C70 give back the same expanded document, at the level of the processor |
| C111 | context syntax reader and writer | the rows written for a definition are a permutation of the rows read, by induction over the JSON value; acceptance member by member, by induction over `SameJson` |

## Where the code differs from what a user may expect

Each item is a theorem about the model (a concrete witness), named here.

* C03: `Container::with` turns `(GraphSet, Index)` into `GraphIdSet` (container.rs:143), so the result
  depends on the order of the array: `C03_order_dependent`, `C03_acceptance_order_dependent`.
* C11: included nodes are written as `@include` but read as `@included` (node/mod.rs:1322):
  `C11_included_lost`; an empty list of types is not written: `C11_empty_types_lost`.
* C12: `Node::mapped_eq` ignores types: `C12_types_ignored`.
* C14: blank node labels used as property keys are not relabelled: `C14_property_keys_kept`.
* C15: traversal does not enter lists and never reports reverse property keys:
  `C15_lists_not_visited`, `C15_reverse_keys_not_reported`.
* C17: flattening overwrites the types of a node described twice (node_map.rs:376-383):
  `C17_types_overwritten`; nodes of named graphs with types but no property and no index are dropped
  (flattening/mod.rs:96-105): `C17_typed_node_dropped`.
* C22: an item of a list that has no RDF value (unnamed node, ill-formed language tag) breaks the
  collection (rdf/mod.rs:527-602): `C22_broken`.
* C23: with compound literals nothing is said about the blank node that stands for the string
  (rdf/mod.rs:167-231, `triples: None`): `C23_compound_lost`.
* C24: the self-reference test compares the property with the object (serialization.rs:301), so
  `s p s` alone is lost: `C24_lost_self`; cycles without an entry point are lost: `C24_lost_cycle`; what
  is said of a type used once is lost: `C24_lost_type`; quads giving a type overwrite the term used for
  `rdf:first` (serialization.rs:268): `C24_first_as_type`.
* C25: `reverse_rest` records the predicate instead of the subject (serialization.rs:293), so that no
  list is ever rebuilt: `C25_never_lists`, `C25_not_a_list`.
* C26: a reverse property replaces a protected term (define.rs returns before the check):
  `C26_reverse_overrides`; an `@id` that only looks like a keyword removes the previous definition and
  leaves the term pending: `C26_keyword_like_removes`.
* C27: a term whose definition is ignored (its `@id` has the form of a keyword) stays marked as in progress, so
  that a cyclic IRI mapping is reported when another term uses it: `C27_ignored`.
* C28: keywords other than `@type` can be bound from JSON: `C28_keyword_bound`.
* C29: scoped contexts that import each other are processed without end, since `@import` is not pushed on
  the stack of remote contexts: `C29_import_loops`.
* C30: `null` with `propagate = false` remembers the *result* as previous context:
  `C30_null_remembers_result`.
* C31: `null` in a remote context resets the base IRI to the original one: `C31_null_resets`; `@base` in
  an imported context is applied: `C31_import_sets`.
* C35: compact IRIs that do not expand back: `C35_vocab_colon`, `C35_relative_keyword`,
  `C35_relative_alias`, `C35_slashes`, `C35_null_prefix`.
* C36: the choice of a prefix depends on the iteration order of a `HashMap` (iri.rs: a candidate
  replaces the current one if it is shorter *or* smaller): `C36_order_dependent`.
* C37: strings without language (direction) take the default ones when expanded again: `C37_language`,
  `C37_direction`; values are compacted by a term chosen by its IRI alone: `C37_coerced`; a JSON literal
  with an index under a `@json` term becomes the whole value object: `C37_json_index`; `"@none"` as a
  language and null literals disappear: `C37_none`, `C37_null`.
* C38: `add_value` flattens JSON literals that are arrays: `C38_json_array`.
* C44: keys of index properties are neither checked nor subject to the policy (`C44_index_key`), as are the
  keys of type maps (`C44_type_map`); a term with a graph container wraps values (`C44_graph_value`); a
  context binding `@graph` puts lists at the top (`C44_top_list`).
* C45: expanding twice strips a second unnamed graph (`C45_unnamed_graph`), loses included nodes
  (`C45_included`, same cause as C11), loses references wrapped by graph containers
  (`C45_graph_reference`), and resolves relative identifiers kept by the first run (`C45_relative`). If the output is ordered,
  the reverse properties must be sorted for a fixed point (`C45_ordered`).
* C54: a term with an `@index` container used for list or graph objects is put beside the map it
  builds (`C54_list_in_map`, `C54_graph_in_map`), and a later value panics (`C54_panic`).
* C55: a document that is one unnamed graph loses the graph (`C55_unnamed_graph`); references at the top are
  lost (`C55_reference`); so are empty lists of types and empty maps of reverse properties
  (`C55_no_types`, `C55_no_reverse`); invalid identifiers are resolved (`C55_relative`).

* C61: `into_syntax_definition` simplifies `{"@id": iri}` to `iri`, which may make the term a prefix (`C61_prefix`);
  it drops the `@id` of a term that stands for nothing, which is then found in the vocabulary (`C61_null`); a
  removed base IRI comes back (`C61_base`); the default type of a type map is written down and removes the
  language (`C61_language`). The base URL of scoped contexts is lost.
* C62: the equality of active contexts ignores the terms (`C62_terms`).
* C63: `Node::canonicalize_with` does not enter `@graph` and `@included`; the same number becomes an
  `xsd:integer` outside and an `xsd:double` inside a graph (`C63_graph`, `C63_graph_rdf`).
* C65: relabelling does not rename blank properties, so that in generalized RDF a property may turn into another
  node (`C65_conflation`).
* C66: of two lists under a `@list` term the first is lost (`C66_two_lists`); terms of type `@json` change arrays and
  join several values (`C66_json`); strings in lists of lists under terms of type `@id` become identifiers, and inner
  lists lose their index (`C66_list_in_list`); references lose their index under terms of type `@id`
  (`C66_reference_index`); language maps lose directions (`C66_direction_in_map`) and take numbers, which expansion
  rejects (`C66_number_in_map`); lists and graphs under `@index` terms and reverse properties with `@index` terms are
  misread by expansion (`C66_list_for_map`, `C66_reverse_map`); an index of keyword form is lost as a key
  (`C66_keyword_index`); a term that is itself an IRI is written although it was not chosen (`C66_iri_term`). Under
  terms with `@graph`, a graph with several members becomes a graph with one node that includes them, or several
  graphs (`C66_graph_members`); an empty one is lost (`C66_graph_empty`); a named one becomes the member of another
  graph (`C66_graph_named`) or is misread as a map (`C66_graph_no_map`); an index is lost (`C66_graph_index`,
  `C66_graph_member_index`); in maps of graphs, a graph that is the only member of a graph takes its place
  (`C66_graph_in_graph`).
* C67: documents that expand alike may compare as different (`C67_compare_syntax`); `compact_to_relative` does not
  matter if the option `base` is set (`C67_relative`), which also overrides the `@base` of the context, so that the
  output means something else (`C67_two_bases`); a relative `@base` cannot be used in compaction
  (`C67_relative_base`); contexts given by URL are read relative to the document (`C67_context_url`).
* C68: the order of keys matters for a reverse property next to `@reverse` (an error in one order only,
  `C68_reverse`), for two keys for `@id` of which one is ignored (`C68_id`), for two keys for `@value`, `@index`,
  `@list` or `@set` (the last one counts, no error, `C68_value`), and inside JSON literals (`C68_json`).
* C70: a node inside a node with a type-scoped context is compacted with a type term that expansion no longer knows
  (`C70_type_outside`); types are compacted before, but expanded after the context of the property applies
  (`C70_type_redefined`); an alias of `@type` in the context of a type hides the types (`C70_alias`); a reference with an
  index is compacted in the type-scoped context and expanded in the previous one (`C70_reference`), and so are the
  items of lists (`C70_list`); a property-scoped context that redefines a protected term is accepted for objects, but
  expansion fails for scalars (`C70_protected`).
* C71: the common language of a list is not compared with typed values and nodes before the first string (iri.rs:175-179),
  so the term depends on the order of the items (`C71_item_order`).
* C72: `SerializeObject::predicate` also keeps `rdf:first` and `rdf:rest` as properties (object.rs:133-157), so that no list
  is recognised at the end: a list becomes a node with the first item twice and a reversed list ending with null
  (`C72_list`, `C72_never_list`); values in lists are lost (`C72_list_values`); the types of numbers and booleans,
  directions and indexes are lost, null becomes a string, other numbers become typed strings (`C72_number_type`,
  `C72_direction`, `C72_null`, `C72_double`); the graph of a node with other entries is lost (`C72_graph`), or replaces the node
  (`C72_node_with_graph`); a document can fail to serialize (`C72_failure`).
* C74: objects told in two calls for the same predicate: the first are lost (`C74_overwritten`).
* C75: compaction panics on a named graph under a term with the container `@graph` and `@index` followed by an unnamed
  one (`C75_named_graphs`), and on a node without identifier in a map by type that has a property compacted to `@id`
  (`C75_id_in_type_map`). It fails if a scheme of an IRI is any term, also one that is not a prefix (`C75_confused`).
  With `compact_arrays` off, the map of a reverse term is wrapped in an array (`C75_reverse_map`).
* C77: `ErrorCode::try_from` refuses "duplicate key", the text of `DuplicateKey` (`C77_duplicate`).
* C78: not checked by the code: the value of `@index` in a set object; the language of a value object when it is
  `@none`, which is ignored; of several keys for `@list`, `@set` or `@value` in an object only the last counts.
* C79: `contains` is also true of a property without objects (`C79_contains_empty`); `insert_unique` adds lists and nodes
  without identifier again (`C79_not_unique`).
* C80: `entries` yields an empty `@type` that the JSON writer leaves out, and `@included` where the writer has `@include`
  (`C80_no_types`, `C80_included`).
* C82: an `expand_context` with `@propagate: false` is not used at all, while in the document it applies to the object at the
  top (`C82_propagate`). Value objects and set objects with a `@context` are rejected (`C82_value`, `C82_set`); the standard
  ignores `@context` there.
* C83: with `ordered`, reverse properties are still written in the order in which they are listed (`C83_reverse`), and
  expansion copies the entries of an object where it should sort them, so that properties stay in the order of the document
  (`C83_expansion`).
* C84: a document has two forms in JSON. Printing shows included nodes under `@included` and keeps an empty list of types;
  `into_json` writes `@include` and drops empty types (C11). Only what is printed is read back as the document.
* C85: a context made by a program may have a term called `@base` besides its `@base` entry; it is printed with two entries of
  that name, and `into_json` keeps the term (`C85_clash`).
* C86: `Context::traverse` stops at the entries of term definitions: their keys, their values, the items of a container and
  everything in a scoped context are not visited (`C86_missed`), although fragments exist for all of them. Fragments are visited
  from last to first, values before keys (`C86_order`). A scoped context that is an array is not said to be one
  (`C86_scoped_array`), and it has no items.
* C87: in mode 1.0 `@propagate` is refused only if the local context is a single definition; in an array it is accepted and ignored
  (`C87_propagate_in_array`), where JSON-LD asks for an error.
* C88: a term that is first met while another term is defined, as its type, identifier or prefix, gets no base URL for its
  scoped context, and `"@protected": true` of the context does not reach it; moved to the front it has both (`C88_order`).
* C89: since the base URL may be lost, a context that defines a protected term a second time in the same way may be refused, and
  accepted once its entries are reordered (`C89_accepted`).
* C91: `simple_json_ld_eq` keeps the order of the items of `@list` but not that of arrays among these items, so lists of
  lists in nested arrays are equal when their inner lists are reordered (`C91_nested_arrays`). With duplicate keys it is
  neither reflexive nor symmetric (`C91_duplicate_keys`).
* C92: `FsLoader` takes the first mount point that matches, not the most specific one, so a directory mounted later below
  an URL already mounted is never read (`C92_shadowed`).
* C93: the RDF of a flattened document lacks the types that flattening loses (`C93_type_lost`, see C17).
* C95: in an array, a second reference to a remote context is ignored even if `null` stands in between, so the terms of
  that context are missing in the end (`C95_skipped_example`): the stack of remote contexts is kept for later entries.
* C96: a relative `@vocab` is appended to the vocabulary mapping each time the context is given (`C96_vocab_grows`).
* C97: in value objects, list objects and set objects, an entry whose key is undefined or mapped to null is an error
  (`C97_objects`); the standard ignores it there as in nodes.
* C98: `@graph` entries are expanded with `@graph` as active property, whose definition, if the context has one (C28),
  applies to the members of the graph (`C98_graph`).
* C100: a graph without identifier that is the only item of an array at the top is replaced by its nodes (`C100_graph`);
  the standard does this for an object at the top only.
* C101: of several lists of types given to a node in one graph, the node map keeps the last (`C101_type_lost`).
  Unlike the flattened document, it keeps the types of nodes of which nothing else is said (`C101_example`).
* C102: `merge_node` sets the `@graph` and `@included` entries to those of the node merged last even if it has none,
  so that a graph is no longer linked to the node that names it (`C102_graph_lost`).
* C104: the invalid identifier `_:` is not reported (`iri.rs:275-277`), and neither are strings appended
  to a prefix or to the vocabulary that do not make an identifier (`C104_unreported`). The warning
  `KeywordLikeTerm` exists (`context-processing/src/lib.rs:18`) but is never given.
* C105: a definition given to the key `@type` by `set_normal` is stored and counted, but `get` and
  `contains_term` do not see it (`C105_type_key`).
* C107: the keys of a language map are given to IRI expansion to see whether they mean `@none`
  (node.rs:600-606, as the recommendation says). IRI expansion warns about what it does not
  understand, so that without a vocabulary mapping each string tagged `en` causes a warning that
  `en` is a malformed IRI (C107_spurious), and the policy that rejects uses of the vocabulary mapping
  refuses language maps with ordinary tags when there is such a mapping (C107_reject).
* C108: terms of the form of a keyword are defined by context processing, although the recommendation
  says to ignore them with a warning (the warning `KeywordLikeTerm` exists but is never given).
  Compaction uses them, and expansion drops what is said with them (C108_defined). What follows the vocabulary
  mapping is not tested for this form either, so that a property `…@foo` is lost and `…@type` becomes a
  type (C108_vocab).
* C111: a context with the same keyword twice is accepted and the first entry is lost, while a term defined
  twice is an error (context/try_from_json.rs:307-325 and 334-336): `C111_twice`.

Seen in the code and carried over to the model, without a theorem of their own:

* `define` calls itself for dependencies with `base_url = None`, `protected = false` and without
  override, so that a term defined as a dependency of another loses the context-level `@protected`.
* `define` panics with the vocabulary policy `Drop` (define.rs:420) and for `{"@id": null, "@prefix":
  true}` (define.rs:740).
* The same context named twice in an array, `[A, B, A]`, is applied once; an inline `@base` after a
  remote context in an array is ignored.
* `Error::code` maps `InvalidProtectedValue` to `InvalidPropagateValue`.
* `ordered` sorts the entries of maps inside a node, not those of the node itself.
* Property-scoped contexts are processed without override when the value is a scalar, with override
  when it is an object; compaction always overrides.
* `compact_to_relative` is never read.
* `Context::set_type` does not reset the cached inverse context (harmless: C105).

## What is modelled, by part

* Contexts (`Model/Ctx`, `CtxJson`): syntactic contexts with their JSON reader and writer, active
  contexts, their equality, and their conversion back (`Model/IntoSyntax`). The traversal of their fragments is in
  `Model/CtxTraverse`, printing in `Model/PrintCtx`. Not modelled: iterators, `context/definition/reference.rs` (borrowed copies).
* Context processing (`Model/ExpandIri`, `Process`): IRI expansion, `define`, `process_context`,
  `Merged`, the stack of remote contexts. Recursion takes a bound (`recN`); C27 and C29 are about
  this bound. Parameters: IRI syntax and resolution, the loader (a function of the URL).
* Expansion (`Model/ExpandValue`, `Expand`): all of `crates/expansion` but error contexts and some warnings.
  Modelled warnings: `Model/Warn` (IRI expansion, keys of an object, value objects), `WarnMap` (language maps) and
  `WarnNode` (literals, identifiers, types).
  Context processing is a parameter. `type_entries.sort_unstable` is modelled as a stable sort.
* Compaction (`Model/Inverse`, `CompactIri`, `AddValue`, `Compact`): inverse contexts, IRI compaction, all of
  `crates/compaction`. Context processing is a parameter.

* RDF input (`Model/Ser`): `from_interpreted_quads_in` with the collection of lists and the rendering
  of resources. Recursion takes a bound, shown not to matter (`C24_terminates`). Parameters: the
  interpretation of resources (their IRIs, blank node labels and literals), the parsers of JSON and
  numbers, the iteration order of maps and sets. Not modelled: the context of error values.

* RDF output (`Model/Iter`, `Quads`, `Rdf`): the iterator over statements, the conversion of values,
  the triples of lists, the iterator over RDF quads, for expanded and flattened documents and node maps. Parameters:
  well-formedness of language tags, printing of JSON and of numbers, the generator. Not modelled:
  borrowed versus owned terms.

* Documents (`Model/Doc`, `DocEq`, `DocHash`, `Relabel`, `MappedEq`, `Traverse`, `Flatten`, `NodeMapApi`,
  `DocJson`, `Canonical`): objects, nodes, values; JSON writer and reader; canonical literals; equality,
  hashing, equivalence; identifier assignment, relabelling, comparison up to
  renaming, traversal, flattening (node map, ordered and unordered, quads and merging of node maps). Numbers in literals are opaque
  texts. Also the maps of properties (`PropMap`), the iterators over entries (`Entries`), replacement of identifiers
  (`MapIds`). Not modelled: mutable iteration, `Display`, `Debug`.
* Linked data (`Model/LinkedData`, `LdSerialize`): documents as seen by the visitors of the crate `linked_data`, and the
  visitors of `crates/serialization`. What a visitor is told is a tree. Vocabulary and interpretation are `()`.
  Parameters: parsers and printers of XSD literals, language tags.
* Errors (`Model/ErrorCode`): the codes, their texts, the `code` functions of the errors modelled. Panics and
  exhausted bounds have no code.
* Syntax (`Keyword`, `Container`, `LangTag`, `LangString`, `Compare`, `SimpleEq`): keywords, containers, tags,
  comparisons.
* Loaders (`Header`, `Loader`, `FsLoader`): `Link` and `Content-Type` parsing, redirects, loader combinators, the file
  system loader. The network, the file system and `iref`'s path suffixes are arbitrary functions; paths are Unix paths.
