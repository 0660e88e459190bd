{"id": "C01", "title": "Keyword spelling is a bijection", "statement": "Converting a keyword to text and parsing that text yields the same keyword; a text parses as a keyword only if it is exactly the spelling of that keyword; every spelling has keyword form ('@' followed by one or more ASCII letters), so a string of keyword form that is not a keyword is never accepted as one.", "quantifier": "all keywords and all strings", "why_tests_cant": "The set of strings is infinite; a table test only shows that 23 strings are accepted, not that no other is.", "anchors": ["crates/syntax/src/keyword.rs: Keyword, TryFrom<&str>, into_str, is_keyword, is_keyword_like"]}
{"id": "C02", "title": "Language tags: equality, hash and order agree", "statement": "Comparing language tags without regard to ASCII case is an equivalence relation; equal tags feed identical data to a hasher; ordering returns Equal exactly for equal tags and is a total order (antisymmetric, transitive), so tags can be keys of hash and ordered maps.", "quantifier": "all triples of language tags (well formed or not)", "why_tests_cant": "Transitivity and hash agreement relate pairs and triples of arbitrary strings.", "anchors": ["crates/syntax/src/utils.rs: case_insensitive_eq, case_insensitive_hash, case_insensitive_cmp", "crates/syntax/src/lang.rs: LenientLangTag"]}
{"id": "C03", "title": "Container mapping depends only on the set of kinds", "statement": "A term's @container array denotes a container that has exactly the listed kinds, whatever the order in which they are listed; an array is accepted or rejected independently of its order; writing a container back to syntax and reading it again yields the same container.", "quantifier": "all finite lists of container kinds, all permutations of them", "why_tests_cant": "Lists are unbounded, may repeat kinds, and the order property relates every pair of permutations.", "anchors": ["crates/core/src/container.rs: Container::from_syntax, with, contains, as_slice, into_syntax"]}
{"id": "C04", "title": "Structural JSON comparison ignores order", "statement": "Comparing two JSON documents is reflexive and symmetric on documents without duplicate keys, does not depend on the order of object members or array items, and never panics on them.", "quantifier": "all pairs of JSON values, all reorderings of members and items", "why_tests_cant": "The comparison is a recursive greedy matching; order independence is a statement about every permutation at every depth.", "anchors": ["crates/syntax/src/compare.rs: Compare for json_syntax::Value"]}
{"id": "C05", "title": "Multisets: equality is equality up to order and agrees with the hash", "statement": "Two multisets are equal exactly when one is a reordering of the other (same items with the same multiplicities), and equal multisets have equal hashes, whatever the item hash function.", "quantifier": "all pairs of finite sequences over any item type with lawful equality, all hash functions", "why_tests_cant": "Greedy matching with marking could fail for some multiplicities or orders; only a proof covers all.", "anchors": ["crates/core/src/object/node/multiset.rs: Multiset PartialEq, Hash", "crates/core/src/utils/hash.rs: hash_set"]}
{"id": "C06", "title": "Language-tagged strings always carry a language or a direction", "statement": "Any sequence of constructor and setter calls on a language string, successful or refused, leaves a value that has a language or a base direction; a refused call changes nothing; a successful one sets exactly the requested parts.", "quantifier": "all finite histories of calls with any arguments", "why_tests_cant": "Histories are unbounded; a test exercises a few of them.", "anchors": ["crates/core/src/lang_string.rs: LangString::new, set_language, set_direction, set"]}
{"id": "C07", "title": "Link header parsing inverts printing", "statement": "A header printed as <href> followed by ; key=\"value\" parameters parses back to exactly that href and those parameters, for any href without '>' and any keys and values without the delimiters; the parser terminates on every byte string, and on success the href is exactly the bytes between the first '<' and the next '>'.", "quantifier": "all hrefs, all parameter lists, all byte strings", "why_tests_cant": "The parser is a byte state machine over unbounded network input.", "anchors": ["crates/core/src/loader/reqwest/link.rs: Link::new, href, rel, type_"]}
{"id": "C08", "title": "Content-Type parsing inverts printing", "statement": "A content type printed with quoted parameters parses back to the same media type and parameters, and the parser decides every byte string without failing abnormally.", "quantifier": "all media types, all parameter lists, all byte strings", "why_tests_cant": "The parser is a byte state machine over unbounded network input.", "anchors": ["crates/core/src/loader/reqwest/content_type.rs: ContentType::new, media_type, profile"]}
{"id": "C09", "title": "Redirections are bounded", "statement": "Loading a document sends at most max_redirections + 1 HTTP requests whatever the servers answer, ends with a document or an error, and fails with the too-many-redirections error exactly when more redirections than allowed were followed.", "quantifier": "all server behaviours (any function from URL to response), all limits, all start URLs", "why_tests_cant": "The server is adversarial; redirect loops of every shape must be cut off.", "anchors": ["crates/core/src/loader/reqwest/mod.rs: Loader for ReqwestLoader, Options::max_redirections"]}
{"id": "C10", "title": "Loader composition", "statement": "A chain of two loaders answers with the first loader's document whenever it has one, with the second's when only the second has one, and fails only when both fail; the map loader returns precisely the document last registered for a URL; chaining is associative as far as documents are concerned.", "quantifier": "all loaders, all URLs, all sequences of registrations", "why_tests_cant": "The statement ranges over arbitrary loaders and registration histories.", "anchors": ["crates/core/src/loader/chain.rs: ChainLoader", "crates/core/src/loader/map.rs", "crates/core/src/loader/none.rs: NoLoader"]}
{"id": "C11", "title": "Expanded documents survive JSON serialisation", "statement": "Writing an expanded document to JSON and reading it back yields the same document, and the reading never fails on written output.", "quantifier": "all expanded documents (nodes, values, lists, graphs, included blocks, reverse properties, indexes)", "why_tests_cant": "Documents are unbounded recursive structures.", "anchors": ["crates/core/src/object/node/mod.rs: try_from_json, into_json", "crates/core/src/object/mod.rs: try_from_json", "crates/core/src/object/value.rs", "crates/core/src/document/expanded.rs"]}
{"id": "C12", "title": "Comparison up to blank node renaming is sound", "statement": "If two documents compare equal under a blank node renaming then they are equal after applying the renaming; every document compares equal to itself under the identity renaming, and to its image under any renaming.", "quantifier": "all documents, all blank node renamings", "why_tests_cant": "Recursive unordered matching over unbounded documents and arbitrary renamings.", "anchors": ["crates/core/src/object/mapped_eq.rs: MappedEq"]}
{"id": "C13", "title": "Every node gets an identifier, existing ones are kept", "statement": "After assigning identifiers every node object at any depth (properties, reverse properties, graph, included, lists) has an identifier; nodes that had one keep it; distinct unnamed nodes receive distinct identifiers which differ from all identifiers in the document when the generator is fresh; nothing else changes.", "quantifier": "all expanded documents, all fresh-identifier generators", "why_tests_cant": "Depth and shape of documents are unbounded.", "anchors": ["crates/core/src/document/expanded.rs: identify_all_with", "crates/core/src/object/node/mod.rs: identify_all_with"]}
{"id": "C14", "title": "Relabelling blank nodes is a consistent injective renaming", "statement": "Relabelling replaces every blank node identifier in the document by a generated one, same identifier by same, different by different, leaves IRIs untouched, and the result is the image of the input under that renaming.", "quantifier": "all expanded documents, all generators without repetition", "why_tests_cant": "The renaming map is threaded through a recursive traversal of an unbounded document.", "anchors": ["crates/core/src/object/node/mod.rs: Relabel for Node", "crates/core/src/document/expanded.rs: relabel_with"]}
{"id": "C15", "title": "Traversal reaches everything", "statement": "Traversing a document visits every node, value and list it contains; in particular the set of blank node identifiers reported for a document contains every blank node identifier written in it.", "quantifier": "all expanded documents", "why_tests_cant": "Completeness at every depth and through every kind of container.", "anchors": ["crates/core/src/object/mod.rs: Traverse, FragmentRef::sub_fragments", "crates/core/src/document/expanded.rs: blank_ids, traverse"]}
{"id": "C16", "title": "Flattened documents are flat", "statement": "In the output of flattening every node has an identifier, identifiers are unique within a graph, and every node occurring as a property value or list item is a bare reference.", "quantifier": "all expanded documents, all identifier generators", "why_tests_cant": "Nested input of unbounded depth must become depth one.", "anchors": ["crates/core/src/flattening/mod.rs", "crates/core/src/flattening/node_map.rs: NodeMap, extend_node_map"]}
{"id": "C17", "title": "Flattening keeps every statement", "statement": "Every type, property value and reverse property value stated of a node anywhere in the input is stated of the node with the corresponding identifier in the same graph of the flattened output, and no other statement appears.", "quantifier": "all expanded documents that flatten without index conflict", "why_tests_cant": "Merging of several occurrences of one node at different depths; loss of one statement in one order is easily missed.", "anchors": ["crates/core/src/flattening/node_map.rs: extend_node_map_from_node, NodeMapGraph::declare_node, merge_node"]}
{"id": "C18", "title": "Index conflicts are detected, and only conflicts fail", "statement": "Flattening (node map generation) fails if and only if one node of one graph is given two different @index values; otherwise the node keeps the index it was given.", "quantifier": "all expanded documents, all traversal orders", "why_tests_cant": "Conflicts may arise between any two occurrences.", "anchors": ["crates/core/src/flattening/node_map.rs: declare_node, ConflictingIndexes"]}
{"id": "C19", "title": "Ordered and unordered flattening agree", "statement": "Flattening with the ordered option yields the same nodes as flattening without it, sorted by identifier.", "quantifier": "all expanded documents", "why_tests_cant": "Two code paths must agree on every input.", "anchors": ["crates/core/src/flattening/mod.rs: flatten, flatten_unordered"]}
{"id": "C20", "title": "RDF output is well formed", "statement": "Every quad produced from a document has valid graph, subject and property identifiers, and a blank node property only when generalized RDF is requested.", "quantifier": "all expanded documents, options and generators", "why_tests_cant": "A single ill-formed quad breaks consumers; the claim is for all documents.", "anchors": ["crates/core/src/rdf/quad.rs: Quads::next", "crates/core/src/quad.rs: Quads::next"]}
{"id": "C21", "title": "RDF output is complete", "statement": "Every statement of a document whose identifiers are valid and whose object is representable produces its quad exactly once in the right graph.", "quantifier": "all expanded documents whose nodes are identified", "why_tests_cant": "The iterator is a hand-written stack machine over an unbounded tree.", "anchors": ["crates/core/src/quad.rs: Quads::next, push_object, push_node", "crates/core/src/rdf/quad.rs"]}
{"id": "C22", "title": "Lists become well-formed RDF collections", "statement": "The triples emitted for a list form one chain: each cell has exactly one first and one rest, the chain ends in nil, the cells are distinct fresh blank nodes, and reading the chain gives the RDF values of the items in order.", "quantifier": "all lists of any length, nested lists included, all fresh generators", "why_tests_cant": "Chains of unbounded length with nested chains interleaved.", "anchors": ["crates/core/src/rdf/mod.rs: ListTriples::next, NestedListTriples, Object::rdf_value_with"]}
{"id": "C23", "title": "Direction-tagged strings keep their direction in RDF", "statement": "With a direction encoding selected, a string with a base direction is converted so that text, language and direction can be recovered from the output: two different direction-tagged strings never produce the same RDF.", "quantifier": "all direction-tagged strings, both encodings", "why_tests_cant": "Injectivity is a statement about all pairs of strings.", "anchors": ["crates/core/src/rdf/mod.rs: rdf_value_with, i18n, RdfDirection"]}
{"id": "C24", "title": "Reading RDF terminates and loses nothing", "statement": "Building a document from a finite set of quads terminates, and every quad of the set is stated in the resulting document.", "quantifier": "all finite RDF datasets, including cyclic graphs", "why_tests_cant": "Cycles of every length, self references, shared nodes.", "anchors": ["crates/core/src/serialization.rs: ExpandedDocument::from_interpreted_quads_in, SerDataset, render_resource"]}
{"id": "C25", "title": "RDF collections are read back as lists", "statement": "A well-formed anonymous RDF collection referenced once is read as a list object with the same items in order.", "quantifier": "all well-formed collections of any length", "why_tests_cant": "Needs every length and item shape.", "anchors": ["crates/core/src/serialization.rs: list reconstruction"]}
{"id": "C26", "title": "Protected terms cannot be changed", "statement": "Processing a local context without override permission either fails or leaves every protected term definition of the active context unchanged up to the protected flag; in particular a null context fails if there is a protected term.", "quantifier": "all active contexts, all local contexts (inline), all processing orders of their entries", "why_tests_cant": "Protection must hold for each of the early-exit paths of term definition and any dependency order.", "anchors": ["crates/context-processing/src/algorithm/define.rs: define", "crates/context-processing/src/algorithm/mod.rs: process_context", "crates/core/src/context/definition.rs: ModuloProtected"]}
{"id": "C27", "title": "Cyclic term definitions are rejected and processing terminates", "statement": "Without remote contexts, processing terminates for every local context (for remote ones see C29). A context in which definitions depend on each other in a cycle of any length is never accepted. The cyclic IRI mapping error is only reported if definitions refer to each other in a cycle, unless a definition is ignored because it has the form of a keyword.", "quantifier": "all local contexts, all dependency graphs between their terms", "why_tests_cant": "Cycles of every length; termination cannot be tested.", "anchors": ["crates/context-processing/src/algorithm/define.rs: DefinedTerms, define"]}
{"id": "C28", "title": "Created term definitions are well formed", "statement": "Every definition created by context processing satisfies the invariants later algorithms rely on: a reverse property has container none, @set or @index; @index mapping only with an index container; @id and @type containers as allowed; prefix terms are plain names; @type containers have type mapping @id or @vocab; keywords are never redefined.", "quantifier": "all active contexts satisfying the invariant and all local contexts", "why_tests_cant": "Invariant over all histories of context processing.", "anchors": ["crates/context-processing/src/algorithm/define.rs: define"]}
{"id": "C29", "title": "Remote context loading terminates", "statement": "Processing terminates and loads each remote context at most once along any chain of references, even if remote contexts refer to each other in cycles.", "quantifier": "all finite families of remote contexts with arbitrary references among them", "why_tests_cant": "Cycles of every length through @import and nested contexts.", "anchors": ["crates/context-processing/src/stack.rs: ProcessingStack", "crates/context-processing/src/algorithm/mod.rs: process_context"]}
{"id": "C30", "title": "Non-propagated contexts are reverted exactly", "statement": "A context that does not propagate remembers the context active before it, and reverting returns to exactly that context; a propagating context has nothing to revert unless the active context had.", "quantifier": "all sequences of contexts", "why_tests_cant": "Histories of contexts are unbounded.", "anchors": ["crates/context-processing/src/algorithm/mod.rs: process_context (propagate)", "crates/core/src/context/mod.rs: previous_context"]}
{"id": "C31", "title": "The base IRI is not changed by remote contexts", "statement": "Processing remote contexts never changes the base IRI of the active context; only an inline @base does.", "quantifier": "all contexts and remote documents", "why_tests_cant": "Claim about all remote documents, which may be hostile.", "anchors": ["crates/context-processing/src/algorithm/mod.rs: process_context (@base)"]}
{"id": "C32", "title": "IRI expansion is total without a vocabulary and never panics", "statement": "Expanding a string without vocabulary mapping always returns a term (never a rejection or a missing value), so the unwraps made by literal expansion never panic.", "quantifier": "all contexts, strings, policies", "why_tests_cant": "Panic freedom over all inputs.", "anchors": ["crates/context-processing/src/algorithm/iri.rs: expand_iri_simple", "crates/expansion/src/literal.rs: expand_literal"]}
{"id": "C33", "title": "IRI expansion classifies correctly", "statement": "Expansion returns a keyword for a keyword, null for any other keyword-like string, the term's own mapping for a defined term, mapping plus suffix for a compact IRI with a defined prefix, the string itself for an absolute IRI with no matching prefix, vocabulary mapping plus string for relative terms, and is idempotent on absolute IRIs whose scheme is not a term.", "quantifier": "all contexts and strings", "why_tests_cant": "The case analysis ranges over all strings and contexts.", "anchors": ["crates/context-processing/src/algorithm/iri.rs: expand_iri_simple, expand_iri_with"]}
{"id": "C34", "title": "The inverse context returns only matching terms", "statement": "A term selected for an IRI is a term whose definition has that IRI mapping, one of the requested containers and the requested type, language or direction; among equally matching terms it is the shortest, then lexicographically least; the result does not depend on the order in which definitions are stored.", "quantifier": "all contexts, all queries, all storage orders", "why_tests_cant": "Hash-map iteration orders cannot be enumerated by tests.", "anchors": ["crates/core/src/context/inverse.rs: InverseContext::from, InverseDefinition::select"]}
{"id": "C35", "title": "Compacted IRIs expand back", "statement": "If an IRI is compacted to a string with a context, expanding that string with the same context yields the same IRI.", "quantifier": "all contexts, IRIs, modes", "why_tests_cant": "Round trip through several fallback rules and all contexts.", "anchors": ["crates/compaction/src/iri.rs: compact_iri_full", "crates/context-processing/src/algorithm/iri.rs"]}
{"id": "C36", "title": "Compact IRI choice is deterministic", "statement": "The compact IRI chosen for an IRI depends only on the set of term definitions (shortest, then lexicographically least candidate), not on their storage order.", "quantifier": "all contexts, all permutations of their definitions", "why_tests_cant": "Hash-map iteration orders are not under test control.", "anchors": ["crates/compaction/src/iri.rs: compact_iri_full (prefix candidates)"]}
{"id": "C37", "title": "Compacted values expand back", "statement": "Compacting a value with a term and expanding the compact form with the same term and context yields the same value.", "quantifier": "all values, all term definitions (type, language, direction mappings), all default languages and directions", "why_tests_cant": "Combinations of coercions with arbitrary strings.", "anchors": ["crates/compaction/src/value.rs: compact_indexed_value_with", "crates/expansion/src/value.rs: expand_value", "crates/expansion/src/literal.rs: expand_literal"]}
{"id": "C38", "title": "Adding values to a compact object accumulates them in order", "statement": "After any sequence of additions to a key of a compact object, the values found under the key are the added values in order (arrays spliced), stored without array only if there is exactly one and no array was requested; other keys are unchanged.", "quantifier": "all finite sequences of additions", "why_tests_cant": "Unbounded histories with three representation states.", "anchors": ["crates/compaction/src/lib.rs: add_value, value_value"]}
{"id": "C39", "title": "Compacting arrays", "statement": "Compacting a collection yields the non-null compactions of its items in order, as an array unless there is exactly one item and arrays are to be compacted there; nothing is duplicated or dropped.", "quantifier": "all collections and options", "why_tests_cant": "Collections are unbounded.", "anchors": ["crates/compaction/src/lib.rs: compact_collection_with"]}
{"id": "C40", "title": "Expanded values are well formed", "statement": "Expanding any value object or scalar yields an error, nothing, or a well-formed value: language and direction only on strings, never together with a type, JSON literals only with type @json, typed values with a valid type IRI.", "quantifier": "all JSON inputs, contexts and term definitions", "why_tests_cant": "The space of malformed value objects is unbounded.", "anchors": ["crates/expansion/src/value.rs: expand_value", "crates/expansion/src/literal.rs: expand_literal"]}
{"id": "C41", "title": "Contexts survive JSON serialisation", "statement": "Writing a syntactic context to JSON and reading it back yields the same context.", "quantifier": "all syntactic contexts, including nested scoped contexts", "why_tests_cant": "Contexts are recursive and unbounded.", "anchors": ["crates/syntax/src/into_json.rs", "crates/syntax/src/context/try_from_json.rs"]}
{"id": "C42", "title": "Merging an imported context", "statement": "With @import the resulting definition has every entry of the importing context, and those entries of the imported context the importing one does not define; every term is processed exactly once.", "quantifier": "all pairs of context definitions", "why_tests_cant": "Claim for all key sets and overlaps.", "anchors": ["crates/context-processing/src/algorithm/merged.rs: Merged"]}
{"id": "C43", "title": "Context documents are extracted faithfully", "statement": "A remote context document yields its @context entry when it is an object with exactly one such entry, and an error otherwise.", "quantifier": "all JSON documents", "why_tests_cant": "All documents, with duplicate keys.", "anchors": ["crates/core/src/loader/mod.rs: ExtractContext"]}
{"id": "C44", "title": "Expansion output is well formed", "statement": "Expanding any JSON document yields an error or a document whose top-level objects are nodes, or lists or values inside nodes only, all property keys are absolute, no nulls remain, and every value is well formed; with the strict policy undefined terms are rejected rather than dropped.", "quantifier": "all JSON documents, contexts, policies", "why_tests_cant": "Recursive algorithm over arbitrary documents.", "anchors": ["crates/expansion/src/element.rs: expand_element", "crates/expansion/src/node.rs", "crates/expansion/src/document.rs"]}
{"id": "C45", "title": "Expansion is idempotent", "statement": "Expanding the JSON form of an expanded document with the empty context yields the same document.", "quantifier": "all expanded documents produced by expansion", "why_tests_cant": "Relates two runs on unbounded recursive data.", "anchors": ["crates/expansion/src/element.rs", "crates/core/src/object/node/mod.rs: into_json"]}
{"id": "C46", "title": "Document equality is an equivalence", "statement": "Comparing expanded documents with == ignores the order of sets, multi-valued properties, types and language tag case; it is reflexive, symmetric and transitive, and equal documents hash equally.", "quantifier": "all expanded documents", "why_tests_cant": "Ranges over unordered nested collections of any size, compared by greedy matching.", "anchors": ["crates/core/src/object/node/mod.rs: PartialEq for Node, Hash for Node", "crates/core/src/object/node/multiset.rs: compare_unordered", "crates/core/src/utils/hash.rs"]}
{"id": "C47", "title": "Literals keep datatype and lexical form in RDF", "statement": "When a document is converted to RDF, a value without language or direction becomes one literal whose datatype is the one written in the document if any, and otherwise that of the JSON value (xsd:boolean, xsd:integer, xsd:double, xsd:string, rdf:JSON); strings are kept as they are, booleans and numbers take their canonical form.", "quantifier": "all expanded or flattened documents, all values", "why_tests_cant": "Combinations of JSON types and explicit datatypes are unbounded.", "anchors": ["crates/core/src/rdf/mod.rs: Value::rdf_value_with"]}
{"id": "C48", "title": "The settings of a context definition take effect", "statement": "Processing a context definition sets the base IRI, the vocabulary mapping, the default language and the default base direction of the active context as its @base, @vocab, @language and @direction entries say, and leaves these settings and all terms it does not define unchanged otherwise.", "quantifier": "all active contexts, all context definitions without @import, all options", "why_tests_cant": "Ranges over all definitions, with recursive term creation in between.", "anchors": ["crates/context-processing/src/algorithm/mod.rs: process_context (@base, @vocab, @language, @direction)"]}
{"id": "C49", "title": "Expansion ends for every document", "statement": "Expanding any JSON document with any active context ends: the nesting of recursive calls is bounded by the nesting of the document, whatever contexts its terms, types and properties bring in; the result satisfies the recursive equations of the algorithm.", "quantifier": "all JSON documents, active contexts, policies, results of context processing", "why_tests_cant": "Termination for unbounded documents cannot be tested.", "anchors": ["crates/expansion/src/element.rs: expand_element", "crates/expansion/src/node.rs: expand_node_entries"]}
{"id": "C50", "title": "Expansion does not panic", "statement": "Whatever the document and the active context, none of the unwraps in expansion fails: the result is a document or an error value (as long as context processing itself does not panic).", "quantifier": "all JSON documents, active contexts, policies", "why_tests_cant": "Absence of a panic ranges over all inputs.", "anchors": ["crates/expansion/src/literal.rs: expand_literal", "crates/expansion/src/node.rs", "crates/expansion/src/value.rs"]}
{"id": "C51", "title": "A stricter policy only rejects", "statement": "Switching an expansion policy to reject (invalid terms, terms that need @vocab) or disallowing undefined terms never changes the expanded document: the result is the same or the expansion fails with an error of the policy.", "quantifier": "all JSON documents, active contexts, pairs of policies where one is stricter", "why_tests_cant": "Relates two runs over arbitrary documents.", "anchors": ["crates/expansion/src/options.rs: Policy", "crates/expansion/src/node.rs: expand_node_entries", "crates/context-processing/src/algorithm/iri.rs: expand_iri_with"]}
{"id": "C52", "title": "Compaction ends for every document", "statement": "Compacting any expanded document with any context ends: the nesting of recursive calls is bounded by the nesting of the document, whatever scoped contexts are brought in, and the result satisfies the recursive equations of the algorithm.", "quantifier": "all expanded documents, contexts, options, results of context processing", "why_tests_cant": "Termination for unbounded documents cannot be tested.", "anchors": ["crates/compaction/src/lib.rs: compact_indexed_fragment", "crates/compaction/src/node.rs", "crates/compaction/src/property.rs"]}
{"id": "C53", "title": "Compacted documents have no duplicate keys", "statement": "No object inside a compacted document has the same key twice, whatever terms, aliases, nests and maps the values are sorted into, provided the JSON literals of the document and the given context have no duplicate keys themselves.", "quantifier": "all expanded documents, contexts, options", "why_tests_cant": "Several keywords, properties and reverse properties can be compacted to the same key in unboundedly many ways.", "anchors": ["crates/compaction/src/lib.rs: add_value", "crates/compaction/src/property.rs: compact_property", "crates/compaction/src/node.rs", "crates/compaction/src/document.rs: embed_context"]}
{"id": "C54", "title": "Compaction does not panic", "statement": "Whatever the document and the context, none of the unwraps in compaction fails: the result is a compacted document or an error value.", "quantifier": "all expanded documents, contexts, options", "why_tests_cant": "Absence of a panic ranges over all inputs.", "anchors": ["crates/compaction/src/property.rs: compact_property, select_nest_result", "crates/compaction/src/lib.rs: add_value"]}
{"id": "C55", "title": "Expanding a compacted document gives the document back", "statement": "If the terms of the context are only names (terms and prefixes for IRIs, aliases of keywords, vocabulary mapping, base IRI, default language and direction), the compacted form of an expanded document, read again with the context embedded in it, expands to exactly the same document: same nodes, types, graphs, included nodes, lists, reverse properties, values, indexes, in the same order. The document must be one compaction can express: identifiers are IRIs or blank node identifiers whose compact form is not misleading, no null values, no language strings that take a default language or direction, no empty lists of types or maps of reverse properties, objects at the top and in graphs say something, and it is not just one unnamed graph.", "quantifier": "all expanded documents, contexts of names, options except ordered", "why_tests_cant": "Relates two whole algorithms on arbitrary nested documents and contexts.", "anchors": ["crates/compaction/src/document.rs: compact_full, embed_context", "crates/compaction/src/node.rs", "crates/compaction/src/property.rs", "crates/expansion/src/element.rs", "crates/expansion/src/node.rs"]}
{"id": "C56", "title": "Maps expand by their keys", "statement": "An object under a term with a map container is expanded exactly if it is a map of the kind the container says, and the keys end up where they belong: in a language map as the languages of the strings, in an index map as the indexes of the objects that have none or as additional values of the index property, in an id map as the identifiers of the nodes that have none, in a type map as the first types of the nodes, in graph maps as the index or identifier of the graph around each object. The key @none (or an alias) adds nothing. Values of id and type maps are expanded with the previous context and the scoped context of the type.", "quantifier": "all active contexts, terms, maps, options", "why_tests_cant": "Maps are unbounded, with arbitrary nested values, aliases and contexts.", "anchors": ["crates/expansion/src/node.rs: expand_node_entries (containers)"]}
{"id": "C57", "title": "Values expand as the container of the term says", "statement": "The value of a term of type @json becomes one JSON literal; that of a term with a list container one list (null the empty list, a list object is kept); each value of a term with a graph container a graph; without such a container, and for keys that are no terms, the values are what the value expands to. Arrays expand to the expansions of their items one after the other, set objects to those of their value, list objects to lists, with their index.", "quantifier": "all active contexts, terms, JSON values, options", "why_tests_cant": "JSON values are unbounded.", "anchors": ["crates/expansion/src/node.rs: expand_node_entries", "crates/expansion/src/array.rs: expand_array", "crates/expansion/src/element.rs: expand_element"]}
{"id": "C58", "title": "Objects expand entry by entry; nests and aliases are transparent", "statement": "What the last entry of an object says is added to what the others say, so a node is the sum of its entries in order. Entries of a nested object (@nest or a nest term) are as entries of the object itself. An entry whose key is an alias of a keyword is as one with the keyword.", "quantifier": "all active contexts, objects, options (keys standing for properties; unscoped terms)", "why_tests_cant": "Objects have any number of entries and nested values.", "anchors": ["crates/expansion/src/node.rs: expand_node_entries", "crates/expansion/src/element.rs: expand_element"]}
{"id": "C59", "title": "The context of an object", "statement": "An object below a node with type-scoped contexts is expanded with the previous context, unless it is a value object, a mere reference or the value of a map. The scoped context of a term applies to its values, a local context to the entries of its object, the scoped contexts of the types to the other entries of the node, in the order of the types and not to the types themselves.", "quantifier": "all active contexts, objects, results of context processing", "why_tests_cant": "Contexts come from processing arbitrary contexts and are nested without bound.", "anchors": ["crates/expansion/src/element.rs: expand_element"]}
{"id": "C60", "title": "Keywords of a node collide, accumulate or vanish as specified", "statement": "An object with two entries for @id (the first standing for an identifier) or two for @graph is never expanded, however the keywords are spelled and wherever the entries are. In JSON-LD 1.1 several @type entries add up to one list of types in the order of the entries. An object with nothing but @language or @direction is dropped. Keywords inside @reverse are rejected.", "quantifier": "all active contexts, objects, options", "why_tests_cant": "The entries between the two, with arbitrary nested objects and nests, must not undo what the first one has set.", "anchors": ["crates/expansion/src/node.rs: expand_node_entries"]}
{"id": "C61", "title": "A context converted into syntax can be processed again", "statement": "into_syntax_definition does not panic on a context obtained by processing; processing its result, in whatever order the bindings come, starting from the initial context, gives the same context: same base IRI, vocabulary mapping, language, direction, type definition, and the same definition of each term.", "quantifier": "all active contexts, local contexts, options", "why_tests_cant": "Contexts have any number of terms, and the bindings come in the order of a hash map.", "anchors": ["crates/core/src/context/mod.rs: Context::into_syntax_definition", "crates/core/src/context/definition.rs: NormalTermDefinition::into_syntax_definition", "crates/syntax/src/context/term_definition/mod.rs: Expanded::simplify", "crates/context-processing/src/algorithm/define.rs"]}
{"id": "C62", "title": "Equal active contexts are interchangeable", "statement": "Two active contexts that compare equal have the same settings and expand every IRI alike.", "quantifier": "all pairs of active contexts, all strings", "why_tests_cant": "Quantifies over all pairs of contexts.", "anchors": ["crates/core/src/context/mod.rs: PartialEq for Context"]}
{"id": "C63", "title": "Canonicalization changes literals only", "statement": "canonicalize replaces every number and JSON literal of a document by its canonical form and changes nothing else; an object can only disappear because it became equal to another one. Doing it twice is the same as doing it once, and equal documents stay equal.", "quantifier": "all expanded documents, all canonical forms of numbers and JSON values", "why_tests_cant": "Documents are nested without bound, and canonical literals may make members of a set equal.", "anchors": ["crates/core/src/document/expanded.rs: canonicalize_with", "crates/core/src/object/mod.rs: canonicalize_with", "crates/core/src/object/node/mod.rs: canonicalize_with", "crates/core/src/object/value.rs: canonicalize_with"]}
{"id": "C64", "title": "Equal documents say the same", "statement": "Two expanded documents that compare equal (whatever the order of their objects, types, properties and values) make the same statements: each statement of one is a statement of the other, in the same graph, about the same subject and property, with an equal object. Without lists and language strings, they have the same RDF quads.", "quantifier": "all pairs of equal expanded documents", "why_tests_cant": "Equality ignores order at every level of unbounded documents.", "anchors": ["crates/core/src/document/expanded.rs: PartialEq", "crates/core/src/object/node/mod.rs: PartialEq", "crates/core/src/quad.rs", "crates/core/src/rdf/quad.rs"]}
{"id": "C65", "title": "The RDF of a document says what the document says", "statement": "to_rdf names all nodes, puts literals in canonical form and yields quads: every statement of the document that RDF can express is in the output, in its graph, with its subject and property and an object that stands for the object of the statement; every quad comes from a statement or is a cell of the collection of a list; and the cells of collections are named by none of the names of nodes, whatever blank labels the document uses.", "quantifier": "all expanded documents, all injective generators, all options", "why_tests_cant": "The generator names nodes first and list cells later, in documents nested without bound; blank labels of the document may be among those generated.", "anchors": ["src/processor/mod.rs: ToRdf", "crates/core/src/document/expanded.rs: relabel_and_canonicalize_with", "crates/core/src/rdf/quad.rs"]}
{"id": "C66", "title": "Typed terms, lists and maps can be expanded back", "statement": "Compacting a document with a context whose terms have types, languages, directions and containers (@list, @set, @graph, maps by @language, @index, @id, @type, and maps of graphs by @id, @index), and expanding the result with the same context, gives an equal document, provided the context and the document can be expressed together (no @json terms, scoped contexts or nests; no two lists under a list term, no lists in lists, no lists, graphs or reverse properties under index terms, only strings under language terms, only graphs with one member under graph terms). Documents that are not equal have different compacted forms.", "quantifier": "all contexts of such terms, all such documents, all compaction options without ordering", "why_tests_cant": "The choice of the term for each value depends on all terms of the context and on the value, and the maps collect values of unbounded documents.", "anchors": ["crates/compaction/src/property.rs", "crates/compaction/src/node.rs", "crates/compaction/src/value.rs", "crates/compaction/src/iri.rs", "crates/expansion/src/node.rs: expand_node_entries", "crates/expansion/src/expanded.rs"]}
{"id": "C67", "title": "The processor: comparison is an equivalence, and compaction can be undone", "statement": "compare answers true if and only if the two documents are the same JSON up to the order of members and items and expand to equal documents; it is reflexive on documents that can be expanded, symmetric and transitive. The result of compact, expanded with the same options at the same URL, is equal to the expansion of the original document, if reading the context in the result leads to the context of the compaction (and context and document are such as in C66).", "quantifier": "all documents, URLs, contexts, options without ordering, loaders", "why_tests_cant": "Composes loading, context processing, expansion, compaction and comparison; equivalence quantifies over all triples of documents.", "anchors": ["src/processor/remote_document.rs", "src/processor/mod.rs: compact_expanded_full, Options"]}
{"id": "C68", "title": "The order of keys does not matter for expansion", "statement": "If the members of objects in a document are moved, at any depth, including @context, keywords, properties, language maps, index maps and @reverse, the document is accepted if and only if the other one is, and both expand to equal documents - provided that no two keys of an object stand for the same keyword, no key stands for @nest, no reverse property stands next to @reverse, and the members of contexts, JSON literals and values of value objects stay where they are.", "quantifier": "all documents, all ways to move members, all contexts, all options", "why_tests_cant": "There are as many orders as permutations of members at every level of unbounded documents; each keyword writes to the state that the next one reads.", "anchors": ["crates/expansion/src/element.rs", "crates/expansion/src/node.rs: expand_node_entries", "crates/expansion/src/value.rs"]}
{"id": "C69", "title": "Compacted documents have arrays where they are wanted", "statement": "With compact_arrays off, every value of every entry of a compacted node is an array (the document itself under @graph), whether the entry stands in the node, in a nest, under @reverse or (as the values) in a map; with compact_arrays on, the same holds for @graph and for terms with a @set container, and a single value of any other property, or a single type, is not wrapped. Keys are distinct in the node, its maps and its nests.", "quantifier": "all nodes, contexts (in which nests and @reverse share no key with properties), options", "why_tests_cant": "Entries are sorted into nests, maps and reverse groups by terms chosen value by value; arrays start, grow and are merged over unbounded numbers of values.", "anchors": ["crates/compaction/src/property.rs: add_value, compact_property", "crates/compaction/src/node.rs: compact_indexed_node_with", "crates/compaction/src/lib.rs: compact_collection_with"]}
{"id": "C70", "title": "Compaction with scoped contexts can be expanded back", "statement": "Compacting a document with a context whose terms are names, with or without scoped contexts (contexts for the values of a property or for nodes of a type, which end at nested nodes), and expanding the result, gives the same document, provided the scoped contexts leave the names of keywords and the meaning of the types alone, do not redefine protected terms for values, and each identifier, property and value can be expressed in the context where it stands; lists and graph objects stand where no scoped context applies. Different such documents have different compacted forms.", "quantifier": "all contexts of such terms, any context processing, all such documents, all compaction options without ordering", "why_tests_cant": "The context changes from node to node in documents nested without bound: it is reverted, then extended by the property, then by each type in the order of their names, and expansion must arrive at the same context from the compacted text alone.", "anchors": ["crates/compaction/src/node.rs: compact_indexed_node_with", "crates/compaction/src/value.rs", "crates/compaction/src/lib.rs", "crates/expansion/src/element.rs: expand_element"]}
{"id": "C71", "title": "The term chosen for a value fits it", "statement": "The key for a value is the shortest, lexicographically least term that stands for the property with the container most preferred for the kind of value (string with language, typed or plain literal, list, node, graph with or without name, each with or without index; reverse or not), and among those with the preferred type, language or direction: the type or language common to the items for a list, @vocab for references to identifiers that have a term, and so on. If the context has no suitable term, no term is used.", "quantifier": "all contexts with distinct terms, all values, all properties, both processing modes", "why_tests_cant": "The choice depends on all terms of the context, on all items of unbounded lists and on the context's terms for the identifier.", "anchors": ["crates/compaction/src/iri.rs: compact_iri_full", "crates/core/src/context/inverse.rs"]}
{"id": "C72", "title": "Documents survive as linked data", "statement": "Telling an expanded document as linked data and serializing that gives the same document exactly if it has no lists, no indexes, no invalid identifiers, no empty @type, @included or @reverse, graphs only in nodes with nothing else, no references under rdf:type, neither rdf:first nor rdf:rest values in nested nodes without identifier, and its values are booleans and strings, integers of 64 bits, typed strings (other than xsd:string), strings with a well-formed language and no direction, or JSON. Serialization never gives a list.", "quantifier": "all well-formed documents; all parsers and printers of literals", "why_tests_cant": "Documents nest without bound, and a loss in one visitor only shows after the other side has rebuilt the node; the exact boundary needs both directions.", "anchors": ["crates/core/src/deserialization", "crates/serialization/src/expanded"]}
{"id": "C73", "title": "Serialization of linked data fails only for the documented reasons", "statement": "Serializing linked data fails if and only if some graph is named by a literal, some predicate is no identifier, some literal is a subject of a reverse property or an included node, or the tail of a list (rdf:rest of a resource that is not identified, not at the top of the default graph) has reverse properties or included nodes; the error says which. Otherwise the result is a document with no element twice in a set and no key twice in a node.", "quantifier": "all linked data (all sequences of calls of the visitors)", "why_tests_cant": "The visitors are called by arbitrary implementations of the traits, nested without bound; the tail of a list is visited twice by different visitors.", "anchors": ["crates/serialization/src/lib.rs", "crates/serialization/src/expanded"]}
{"id": "C74", "title": "A serialized node has the entries told about it", "statement": "Serializing a resource gives a node with its identifier and no index, in which each property has the objects told last for it in order, each reverse property the subjects told last, @type the references told as objects of rdf:type, @graph the graph told last, and @included the nodes told, up to equality, and nothing else. An object that is not identified is the same node except for rdf:first and rdf:rest.", "quantifier": "all sequences of calls of the visitor", "why_tests_cant": "What is told first may be lost or merged by what is told later; the number of calls is not bounded.", "anchors": ["crates/serialization/src/expanded/node.rs", "crates/serialization/src/expanded/object.rs"]}
{"id": "C75", "title": "Compaction succeeds", "statement": "Compacting a document, with any mix of maps, nests, reverse terms, aliases and scoped contexts, gives a document, unless an IRI of the document has a scheme that is a term (IRI confused with prefix) or a scoped context cannot be processed: it neither panics nor rejects the nests. Required of the contexts: aliases, reverse terms and terms that are IRIs make no maps, nests are aliases of @nest; of the document: no property looks like a keyword after the vocabulary mapping, lists are not under properties with maps by index, nor are graphs, except unnamed ones under maps of graphs. Together with C66: such a document can always be compacted and expanded back to an equal document.", "quantifier": "all contexts and documents with these conditions, any context processing, all options", "why_tests_cant": "Maps and nests are built in place over unbounded numbers of values of different kinds, under keys chosen value by value; the panics are unwraps on the assumption that what was put there earlier is a map.", "anchors": ["crates/compaction/src/property.rs: compact_property", "crates/compaction/src/node.rs: compact_indexed_node_with", "crates/compaction/src/iri.rs: compact_iri_full", "crates/compaction/src/document.rs"]}
{"id": "C76", "title": "Errors of expansion name their cause", "statement": "When expansion of a document fails, the document has a fault of the kind the error tells: at a place reached from the top (through entries, arrays, nests and maps, with the contexts in force there), a context is not well formed or is refused by context processing, a key or a value is not allowed, or an entry is given twice. Documents without a fault are expanded; in particular documents with full names, without contexts, are always expanded.", "quantifier": "all contexts and documents, any context processing, all options", "why_tests_cant": "Faults may be arbitrarily deep, under contexts that change what keys mean; a test shows the error for a document, not that every error has its cause in the document.", "anchors": ["crates/expansion/src/element.rs: expand_element", "crates/expansion/src/node.rs: expand_node_entries", "crates/expansion/src/value.rs: expand_value", "crates/expansion/src/error.rs"]}
{"id": "C77", "title": "Error codes", "statement": "Different error codes have different texts, and the text of a code is read as that code. Every error of expand has a code. The text tells what is wrong: for \"invalid @id value\" there is an @id entry in the document that is not a string, for \"colliding keywords\" two keys with the same meaning in an object, and so on.", "quantifier": "all codes, texts, contexts, documents, options, loaders and context processing", "why_tests_cant": "Codes, texts and the table from texts to codes are three lists kept by hand, and each error goes to its code through several conversions.", "anchors": ["crates/syntax/src/error.rs: ErrorCode", "crates/expansion/src/error.rs: Error::code", "crates/context-processing/src/lib.rs: Error::code", "src/processor/mod.rs: ExpandError::code"]}
{"id": "C78", "title": "Invalid documents are refused", "statement": "If something is wrong at a place of the document that is visited, expansion fails: a context that is not well formed or refused by context processing, including property-scoped contexts and type-scoped contexts (which are applied in the order of the names of the types), an @id, @index, @type, @reverse, @nest or @included entry of the wrong kind, two @id or two @graph entries, an undefined or invalid key when the policy refuses it, a list, set or value object with a key that is not allowed, a language map with something else than strings. So no such mistake is ever silently accepted.", "quantifier": "all contexts and documents, any context processing, all options, mistakes at any depth", "why_tests_cant": "Whether a check is reached depends on all the contexts, containers and keywords above it; a test shows that a mistake is found in one document.", "anchors": ["crates/expansion/src/element.rs: expand_element", "crates/expansion/src/node.rs: expand_node_entries", "crates/expansion/src/value.rs: expand_value", "crates/expansion/src/literal.rs: expand_literal"]}
{"id": "C79", "title": "Property maps hold what was put in them", "statement": "After any sequence of insert, insert_unique, insert_all, insert_all_unique, set, remove, clear, extend and extend_unique on Properties or ReverseProperties, get returns under each property the items put there by the calls, in order; get_any the first of them; contains says whether the property is bound, remove returns what get would have. Whether the property is given as an IRI, a blank node identifier or an Id makes no difference. Properties are listed once, in the order they were first mentioned as long as nothing is removed. The unique calls add no item after an equivalent one.", "quantifier": "all sequences of calls, all properties, items and equivalences", "why_tests_cant": "The map is found through a hash and an equivalence between four key types, and removal moves the last entry; a test runs one sequence of calls.", "anchors": ["crates/core/src/object/node/properties.rs: Properties", "crates/core/src/object/node/reverse_properties.rs: ReverseProperties", "crates/core/src/object/node/multiset.rs: Multiset::insert_unique", "crates/core/src/object/mod.rs: Object::equivalent", "crates/core/src/object/node/mod.rs: Node::equivalent"]}
{"id": "C80", "title": "Entries of objects", "statement": "The entries iterator of a node, value or indexed object yields each entry that is present once, in a fixed order; its announced length is the number of entries still to come; it ends and stays ended; the iterator over a value gives the same entries from both ends. has_key is true for the keys yielded and no others. The entries are the members of the JSON representation of the object.", "quantifier": "all objects, all states of the iterators, all keys", "why_tests_cant": "Five iterators keep one slot per entry and count them separately, and the keys are listed again in has_key and in the JSON writer.", "anchors": ["crates/core/src/object/node/mod.rs: Entries, has_key", "crates/core/src/object/value.rs: Entries", "crates/core/src/object/mod.rs: Entries, IndexedEntries", "crates/core/src/object/list.rs: entry"]}
{"id": "C81", "title": "map_ids replaces identifiers and nothing else", "statement": "ExpandedDocument::map_ids with functions that keep different identifiers (and value types) of the document different gives the document with each identifier replaced where it stands: nothing is merged, moved or lost, the statements are the same up to the replacement, and replacing back gives the document. With any functions the identifiers of the result are exactly the replacements of those of the document, values of properties that become the same are concatenated in order, and the result is well formed.", "quantifier": "all documents and all pairs of functions, at any depth", "why_tests_cant": "Sets and maps are rebuilt by hash and equality of the replaced content, so that merging depends on all identifiers below.", "anchors": ["crates/core/src/document/expanded.rs: ExpandedDocument::map_ids", "crates/core/src/object/mod.rs: Object::map_ids_with", "crates/core/src/object/node/mod.rs: Node::map_ids_with", "crates/core/src/object/list.rs: List::map_ids_with", "crates/core/src/object/value.rs: Value::map_ids"]}
{"id": "C82", "title": "A context means the same in the document and next to it", "statement": "Giving a context with the expand_context option, through the context_url of the document, or as the value of @context in the object at the top of the document has the same effect: the three calls give the same expanded document, or the same error.", "quantifier": "all documents with an object at the top, all contexts, options and loaders; the @context entry may stand anywhere in the object", "why_tests_cant": "The three ways go through different code (processor, document loader, expansion of objects) with different base URLs and options; a test compares one document and one context.", "anchors": ["src/processor/remote_document.rs: expand_full", "crates/expansion/src/element.rs:131-213", "crates/expansion/src/element.rs:397-406", "crates/expansion/src/value.rs: expand_value", "crates/context-processing/src/algorithm/mod.rs"]}
{"id": "C83", "title": "Options of the processor do what they say", "statement": "With ordered, the results of compact and flatten do not depend on the order in which properties are listed or hash maps are traversed, and flattened nodes are sorted by identifier. With compact_to_relative off, the URL of the document has no influence on compacted IRIs; with it, the URL acts like the base option unless the context has a base. Each rejecting expansion policy leaves the result as it is or gives an error of that policy. flatten returns the JSON of a flat list of nodes with the statements of the document, or this list compacted.", "quantifier": "all documents, contexts, options, loaders and iteration orders", "why_tests_cant": "Options are translated three times (processor, algorithm, context processing) and combined freely; a test tries one combination.", "anchors": ["src/processor/mod.rs:17-128: Options", "src/processor/mod.rs: compact_expanded_full", "src/processor/remote_document.rs: expand_full, compact_full, flatten_full", "crates/compaction/src/node.rs:112-123", "crates/flattening/src/lib.rs"]}
{"id": "C84", "title": "A printed document is the document", "statement": "Printing an expanded document (or a node) never panics and gives the text of one JSON value, each array and object of which is laid out by its own size; this value has the entries which the iterators yield, in this order, and it is read back as the same document. Different documents are printed differently.", "quantifier": "all expanded documents, print options, indentations and size functions of the JSON printer", "why_tests_cant": "Printing takes two passes, one computing the sizes of all arrays and objects and one consuming them in the same order; a mismatch shows only for the right nesting, as a panic or a wrong layout.", "anchors": ["crates/core/src/print.rs: PrintWithSize, PrecomputeSize, Print of documents, nodes, objects, values"]}
{"id": "C85", "title": "A printed context is the context", "statement": "Printing a context never panics and gives the text of the JSON value made by into_json, each array and object laid out by its own size; parsed and read again it is the same context. The iterators over definitions and term definitions yield each entry that is present once, in the order printed, and their announced length is the number of entries left.", "quantifier": "all contexts that can be read, print options, indentations and size functions of the JSON printer; all states of the iterators", "why_tests_cant": "Two passes over contexts nested to any depth must agree on the order of all sizes, and into_json is a third, separate traversal.", "anchors": ["crates/syntax/src/context/print.rs", "crates/syntax/src/print_ld.rs", "crates/syntax/src/context/definition/reference.rs: Entries", "crates/syntax/src/context/term_definition/mod.rs: Entries", "crates/syntax/src/context/into_json.rs"]}
{"id": "C86", "title": "Traversing a context visits all its fragments", "statement": "Context::traverse ends, visits fragments of the context only, and visits each of them once.", "quantifier": "all contexts", "why_tests_cant": "Traversal is spread over three enumerations of fragments whose sub-items are listed by hand; a missing case shows only for the contexts that have such a fragment.", "anchors": ["crates/syntax/src/context/mod.rs: traverse, FragmentRef, Traverse", "crates/syntax/src/context/definition/mod.rs: FragmentRef, SubItems", "crates/syntax/src/context/term_definition/mod.rs: FragmentRef, sub_fragments"]}
{"id": "C87", "title": "JSON-LD 1.0 mode", "statement": "A context that is accepted in processing mode 1.0 gives the same active context in mode 1.1. What JSON-LD 1.1 added is refused in mode 1.0: @version, @import, @direction, @propagate and @type in contexts, @protected, @context, @index, @nest, @prefix, the types @json and @none and the new containers in terms, in the context and in all those it refers to.", "quantifier": "all local and active contexts, base URLs, options and servers (loaders)", "why_tests_cant": "The mode is tested in a dozen places of three mutually recursive functions; a missing test shows only for contexts with that entry, in that mode, possibly in a remote context or in a term defined out of order.", "anchors": ["crates/context-processing/src/algorithm/define.rs: define", "crates/context-processing/src/algorithm/mod.rs: process_context", "crates/core/src/mode.rs"]}
{"id": "C88", "title": "A term definition says what was written", "statement": "After a context definition is processed, each of its terms has the IRI mapping its @id stands for in the resulting context (or the implicit one), the type its @type stands for, and the container, index, nest, language, direction, prefix flag, scoped context with the base URL of the context, and protection that were written; terms whose @id or @reverse has the form of a keyword are not defined.", "quantifier": "all context definitions, imports, active contexts, options and remote contexts", "why_tests_cant": "Terms are defined while others are, in an order that depends on who mentions whom; identifiers are expanded in a context that is not finished, and it is not obvious that they mean the same in the finished one.", "anchors": ["crates/context-processing/src/algorithm/define.rs", "crates/context-processing/src/algorithm/iri.rs: expand_iri_with", "crates/context-processing/src/algorithm/mod.rs: process_context"]}
{"id": "C89", "title": "The order of terms in a context does not matter", "statement": "Two context definitions with the same entries in different order are both accepted or both refused, and if they are accepted the active contexts are the same up to the order of their terms.", "quantifier": "all context definitions and reorderings of their terms, active contexts, options and remote contexts", "why_tests_cant": "The order in which terms are defined changes the recursion completely; the number of orders of a context with n terms is n!, and only some pairs differ.", "anchors": ["crates/context-processing/src/algorithm/define.rs", "crates/context-processing/src/algorithm/iri.rs: expand_iri_with", "crates/context-processing/src/algorithm/mod.rs: process_context"]}
{"id": "C90", "title": "Flattening twice changes nothing", "statement": "Flattening the nodes of a flattened document always succeeds, and gives the same nodes up to their order, blank node labels being renamed one to one; without blank nodes it gives the same nodes.", "quantifier": "all documents, generators, options and iteration orders of both runs", "why_tests_cant": "The second run goes through the node map of an arbitrary flat document: graphs, references, lists and repeated values in any number; a fixed document shows only its own nodes and one iteration order of the hash maps.", "anchors": ["crates/core/src/flattening/mod.rs", "crates/core/src/flattening/node_map.rs", "crates/core/src/document/flattened.rs"]}
{"id": "C91", "title": "Comparison of JSON-LD documents keeps the order of lists only", "statement": "simple_json_ld_eq answers true for two documents without duplicate keys exactly if they are the same up to the order of entries and of the items of arrays, the items of the array under @list being compared in order; it is an equivalence, stricter than Compare.", "quantifier": "all pairs and triples of JSON documents", "why_tests_cant": "The comparison selects partners greedily at every depth; whether it can miss a matching depends on all pairs of items of all arrays.", "anchors": ["crates/core/src/utils/comparison.rs: simple_json_ld_eq"]}
{"id": "C92", "title": "Files are loaded from the first matching mount point, inside its directory", "statement": "The file of an URL is that of the first mount point whose URL is a prefix; its path is the path of the directory followed by the remaining segments, inside the directory if no segment is `..`; there is none exactly if no prefix matches. A mount point added later changes nothing for URLs already covered. Documents loaded have the URL asked for, errors name it.", "quantifier": "all lists of mount points, URLs, file systems and parsers", "why_tests_cant": "Where a path leads depends on slashes at the end of directories, empty segments, and on all mount points together.", "anchors": ["crates/core/src/loader/fs.rs: FsLoader::mount, filepath, load"]}
{"id": "C93", "title": "Flattening keeps the RDF", "statement": "All that a flattened document states is stated by the document, with references in place of nodes, and all that the document states about properties is stated by the flattened document with equal objects; so every expressible statement has its quad in the RDF of the flattened document, and nothing else has. Without lists and language strings the two datasets are equal, types excepted unless the types given to a node agree.", "quantifier": "all documents, generators, iteration orders, ways to flatten, and options of the conversion", "why_tests_cant": "Relates two traversals of the document, one collecting nodes of all graphs in a map, with reverse properties and nodes described in several places, for documents of any depth.", "anchors": ["crates/core/src/flattening/mod.rs: flatten", "crates/core/src/quad.rs", "crates/core/src/rdf/quad.rs"]}
{"id": "C94", "title": "A flattened document is expanded to itself", "statement": "A flattened document, written as JSON-LD and expanded in a context without terms and vocabulary mapping, is exactly the flattened document, provided the identifiers, types, keys and values of the original document can be read again and the generator gives blank node identifiers. Included nodes, nodes that say nothing and unnamed nodes, which expansion alone changes, do no harm. In particular for results of expansion: expand, flatten, write, expand gives the flattened document.", "quantifier": "all documents, generators, iteration orders, ways to flatten, contexts without terms", "why_tests_cant": "Goes through relabelling, the node map, serialisation and the whole expansion algorithm, for documents of any depth.", "anchors": ["crates/core/src/flattening/mod.rs: flatten", "crates/core/src/object/node/mod.rs: into_json", "crates/expansion/src/lib.rs: expand"]}
{"id": "C95", "title": "An array of contexts is processed one after the other", "statement": "Processing the concatenation of two arrays of contexts is processing the first, then the second in the resulting context, with the same options, and the error of the first if there is one. This holds if the first array has no references to remote contexts; after a reference, a second one to the same context is ignored, even if null has removed all terms in between.", "quantifier": "all contexts, arrays, loaders, options and base URLs", "why_tests_cant": "Relates one run over an array to two separate runs with their own initial steps (propagation, previous context, stack of remote contexts), for arrays of any length.", "anchors": ["crates/context-processing/src/algorithm/mod.rs: process_context", "crates/context-processing/src/stack.rs: push"]}
{"id": "C96", "title": "Repeating a context changes nothing", "statement": "The terms that result from a context definition do not depend on former definitions of these terms. If a context definition is accepted a second time and its base IRI and vocabulary mapping are the same as after the first time, then all settings are the same and so are all terms, base URLs of scoped contexts and protection aside. Base IRI and vocabulary mapping are the same unless given by relative references.", "quantifier": "all contexts, context definitions without import, loaders, options and base URLs", "why_tests_cant": "Term definitions are created on demand in an order that depends on the context; two runs from different contexts must be compared for any number of terms.", "anchors": ["crates/context-processing/src/algorithm/mod.rs: process_context", "crates/context-processing/src/algorithm/define.rs: define"]}
{"id": "C97", "title": "Entries whose keys mean nothing have no effect", "statement": "If entries are removed from nodes of a document, at any depth, whose keys stand for no keyword and no property in any context that may be active, expansion gives the same result or the same error, whatever the values of these entries are. This needs the policies that ignore undefined keys. An entry next to a lone @id is excepted where a context is active that is not propagated.", "quantifier": "all documents, contexts, context processors and policies that ignore undefined keys", "why_tests_cant": "Keys are expanded at several places (preliminary pass, types, sorting, nested and reverse properties); the claim is about any number of such entries at any depth in any document.", "anchors": ["crates/expansion/src/element.rs: expand_element", "crates/expansion/src/node.rs: expand_node_entries"]}
{"id": "C98", "title": "Expansion depends on the mentioned terms only", "statement": "If two active contexts have the same settings and the same definitions of the terms that a document mentions (its strings, what precedes the first colon of such a name, and index mappings), the document is expanded to the same result, or refused with the same error: other terms may be added, removed or changed in a context. In particular, a document is not affected if a context it loads gains terms that it does not mention.", "quantifier": "all documents, pairs of active contexts, context processors and policies", "why_tests_cant": "A context has infinitely many extensions; the claim is about each of them, and about lookups at every place of expansion.", "anchors": ["crates/expansion/src/element.rs: expand_element", "crates/expansion/src/node.rs: expand_node_entries", "crates/core/src/context/definitions.rs: get_normal", "crates/context-processing/src/algorithm/iri.rs: expand_iri_with"]}
{"id": "C99", "title": "Terms of a context do not affect terms that do not depend on them", "statement": "If two versions of a context definition say the same about a set of terms, which depend (by identifiers, types, reverse properties or prefixes) on terms in that set only, then these terms, and all other settings, come out the same in both. So terms may be added to a context, and a document whose mentioned terms are in that set is expanded alike with both versions of the context it refers to.", "quantifier": "all active contexts, pairs of context definitions, sets of terms, loaders and documents", "why_tests_cant": "The claim is about every possible change of a context; terms are defined recursively, in an order that depends on all of them.", "anchors": ["crates/context-processing/src/algorithm/mod.rs: process_context", "crates/context-processing/src/algorithm/define.rs: define", "crates/expansion/src/element.rs: expand_element"]}
{"id": "C100", "title": "Documents can be put together in an array", "statement": "Expanding an array of documents gives the objects in the results of its parts, and no others, so it states what the parts state; the first error counts. An item in an array of its own is the same document, and arrays in arrays have no meaning of their own. Graphs without identifier are excepted.", "quantifier": "all lists of JSON values, contexts, context processors and options", "why_tests_cant": "The claim is about all documents that may be put together, of any number and size.", "anchors": ["crates/expansion/src/document.rs: expand", "crates/expansion/src/array.rs: expand_array"]}
{"id": "C101", "title": "A node map states what the document states", "statement": "The quads of the node map of a document are the types and properties of its nodes, each in the graph of the node, in whatever order hash maps are iterated. They are stated by the document (blank nodes relabelled, nodes replaced by references), and all that the document states about properties is among them. The RDF of the node map is that of the document in the same sense. Types of a node are kept if the document types it in one way in that graph.", "quantifier": "all documents, generators that yield fresh identifiers, iteration orders and RDF options", "why_tests_cant": "The order of hash maps changes from run to run, and statements may be at any depth and in any graph.", "anchors": ["crates/core/src/quad.rs: LdQuads for NodeMap", "crates/core/src/rdf/quad.rs: RdfQuads for NodeMap", "crates/core/src/flattening/node_map.rs: NodeMap::iter"]}
{"id": "C102", "title": "Merging the graphs of a node map loses no statement", "statement": "The merged graph has one node for each identifier described in some graph. This node has exactly the types it has in some graph, only values it has in some graph, and all of these up to equivalence, without repetition; the same goes for reverse properties. The index is one of those given. This does not depend on the order in which graphs and nodes are merged.", "quantifier": "all node maps whose nodes are under their own identifier, and all iteration orders", "why_tests_cant": "Graphs are merged in the order of a hash map, which changes from run to run.", "anchors": ["crates/core/src/flattening/node_map.rs: NodeMap::merge, merge_with, merge_node"]}
{"id": "C103", "title": "The names of blank nodes do not matter", "statement": "If two expanded documents are the same except for the names of their blank nodes, and different blank nodes have different names in both, then relabelling them gives the same document, they have the same node map or fail with the same error, they are flattened to the same document, and they have the same RDF. In particular this holds for a document and the result of renaming its blank nodes with map_ids.", "quantifier": "all documents, one-to-one renamings, generators, iteration orders and options", "why_tests_cant": "Documents are unbounded and there are infinitely many renamings; tests compare a few documents up to renaming.", "anchors": ["crates/core/src/document/expanded.rs: relabel_with, relabel_and_canonicalize_with, map_ids", "crates/core/src/flattening/environment.rs: Environment::assign_node_id", "crates/core/src/flattening/node_map.rs: extend_node_map"]}
{"id": "C104", "title": "Warnings are given for what is wrong and for nothing else", "statement": "Expanding a string reports it as malformed, once, exactly if no rule of IRI expansion gives it a meaning; it is then kept as an invalid identifier. Expanding the keys of an object reports each empty key, each key that is not understood and each key that stands for a blank node, in order, and stops at the first forbidden key. Expanding a value object reports the language exactly if it is malformed and is the language of the result, and gives at most one warning. Warnings do not change the result. Every invalid identifier is reported.", "quantifier": "all contexts, strings, objects, policies and notions of IRI, blank node identifier and language tag", "why_tests_cant": "A missing or superfluous warning changes no result, so tests that compare results cannot see it.", "anchors": ["crates/context-processing/src/algorithm/iri.rs: expand_iri_simple, invalid_iri_simple", "crates/expansion/src/element.rs: expand_element", "crates/expansion/src/value.rs: expand_value", "crates/expansion/src/warning.rs: Warning"]}
{"id": "C105", "title": "The inverse of a context is up to date, and its parts are what was set", "statement": "After any sequence of calls that set parts of a context, read its inverse, clone it or give it a previous context, the inverse read is that of the context as it is, although it is cached: two contexts with the same terms, default language and default direction have the same inverse, whatever was done before. Each part is what was last set; reading the inverse and cloning change nothing. Setting a definition returns the former one. The length counts the terms in force, and protected items are reported exactly if a definition in force is protected.", "quantifier": "all sequences of calls, in any order and of any length, with any arguments", "why_tests_cant": "A stale cache shows only after particular orders of reading and setting, and set_type does not empty the cache.", "anchors": ["crates/core/src/context/mod.rs: Context::inverse, set_normal, set_type, set_base_iri, set_vocabulary, set_default_language, set_default_base_direction, set_previous_context, clone", "crates/core/src/context/definition.rs: Definitions", "crates/core/src/context/inverse.rs: From<&Context> for InverseContext"]}
{"id": "C106", "title": "The graph entries of a node map are complete", "statement": "In the node map of a document, a node has a graph entry exactly if the document gives a graph to a node of that name in the same graph. The entry consists of references to the members of all the graphs given to the node there, at any depth: nothing else is in it, every member is there up to equality, and none twice. The nodes it refers to are nodes of the named graph.", "quantifier": "all documents, and generators that yield fresh identifiers", "why_tests_cant": "A graph may be given in any number of places, at any depth, interleaved with other updates of the same node.", "anchors": ["crates/core/src/flattening/node_map.rs: extend_node_map_from_node (graph_entry)"]}
{"id": "C107", "title": "Warnings of language maps", "statement": "Collecting warnings does not change the result of expanding a language map. The warnings are, for every string of the map in the order of processing, one for the key if IRI expansion does not understand it and one if it is a malformed language tag; if the expansion fails they are the first ones of these. A tag is reported as malformed exactly if it is malformed, does not mean @none and is the language of some string. Without a vocabulary mapping well-formed tags are also reported as malformed IRIs, and under the policy that rejects uses of the vocabulary mapping, maps with ordinary tags are refused.", "quantifier": "all contexts, language maps and notions of well-formed language tags", "why_tests_cant": "Warnings of IRI expansion and of language tags are interleaved for every string, and depend on the context; tests check the result of expansion only.", "anchors": ["crates/expansion/src/node.rs: expand_node_entries (language maps)"]}
{"id": "C108", "title": "Names that look like keywords", "statement": "A string of the form of a keyword (@ followed by letters) that is no keyword means nothing in expansion, whatever the context defines, and no string of that form stands for an identifier. Hence compaction should not produce them for identifiers. It does so only in three cases: the context has it as a term for the identifier, the identifier is the vocabulary mapping followed by it, or it is a keyword and the reference relative to the base IRI. Properties and types never become such strings if no term has that form and no IRI continues the vocabulary mapping in that way.", "quantifier": "all contexts, identifiers, values and options", "why_tests_cant": "Whether a name has this form depends on the remainder of IRIs after an arbitrary vocabulary mapping or base IRI.", "anchors": ["crates/compaction/src/iri.rs: compact_iri_full, disambiguate_keyword", "crates/context-processing/src/algorithm/iri.rs: expand_iri_simple", "crates/context-processing/src/algorithm/define.rs: define"]}
{"id": "C109", "title": "Warnings of literals, identifiers and types", "statement": "Collecting warnings changes nothing in the expansion of literals and of the entries @id and @type. A literal is reported exactly if it is a string of a property of type @id or @vocab that IRI expansion does not understand, an identifier exactly if it is not understood, and types in order exactly those not understood; if the types are refused the warnings are the first ones of these. With a base IRI, IRI references of type @id and identifiers are never reported.", "quantifier": "all contexts, literals, identifiers, lists of types and policies", "why_tests_cant": "Warnings depend on the context, on the policies and on what came before; tests check the result of expansion only.", "anchors": ["crates/expansion/src/literal.rs: expand_literal", "crates/expansion/src/node.rs: expand_node_entries (@id, @type)"]}
{"id": "C110", "title": "Compacting again changes nothing", "statement": "If a document is compacted by the processor with a context whose terms are names, with or without scoped contexts, and the result is compacted with the same context and options, the second result is exactly the first: same members in the same order, same arrays. The conditions are those under which compaction loses nothing (C55, C70).", "quantifier": "all contexts of such terms, documents that can be expressed with them, base IRIs, URLs and options without ordering", "why_tests_cant": "Every choice of a term, prefix, relative reference, alias or array must be made again in the same way for what expansion makes of the compacted form.", "anchors": ["src/processor/remote_document.rs: compact_full", "src/processor/mod.rs: compact_expanded_full", "crates/compaction/src/document.rs: compact_full"]}
{"id": "C111", "title": "Reading a context loses nothing", "statement": "If a JSON value without duplicate keys is read as a context, the context written as JSON is the same value up to the order of the members of its objects, at every depth: no entry is dropped, added or changed. An object without duplicate keys is accepted as a context if and only if each of its members alone is. If its members are moved, the context read has the same entries and the same terms, in another order; if the members of a term definition are moved, the context read is the same. Moving members of objects at any depth does not change whether the value is accepted, and the two contexts are written as the same JSON up to the order of members.", "quantifier": "all JSON values, all members at any depth of scoped contexts", "why_tests_cant": "Twenty-one kinds of entries, read by separate code, nested to any depth and in any order.", "anchors": ["crates/syntax/src/context/try_from_json.rs", "crates/syntax/src/try_from_json.rs", "crates/syntax/src/into_json.rs"]}
