{"id": "C01", "title": "In-scope namespaces reported during deserialization are the XML ones", "statement": "While a document is being deserialized, `DeserializeHelper::namespaces()` returns exactly the prefix bindings in scope at the element currently being processed (innermost declaration wins, declarations of closed elements are gone), no matter how often and at which points it is called.", "quantifier": "every well-nested sequence of XML events, with any set of xmlns declarations on any element, and every interleaving of calls to `namespaces()`", "why_tests_cant": "The result is cached lazily per declaring element and invalidated by deferred pops; correctness depends on the whole history of start/empty/end events and of earlier calls.", "anchors": ["xsd-parser-types/src/quick_xml/deserialize.rs: DeserializeHelper::namespaces, DeserializeHelper::handle_event"]}
{"id": "C02", "title": "Skipping an unknown element skips exactly that element", "statement": "When a deserializer leaves an unexpected start tag unconsumed and allows any content, the driver drops precisely the events of that element (its whole subtree, up to and including its own end tag) and the next event handed to the deserializer is the first one after it.", "quantifier": "every element subtree of any depth and width, and every event stream following it", "why_tests_cant": "Nesting depth is unbounded; a depth counter that is off by one only shows for particular nestings.", "anchors": ["xsd-parser-types/src/quick_xml/deserialize.rs: DeserializeImpl::handle_event, DeserializeImpl::handle_skip"]}
{"id": "C03", "title": "Deserializing a finite document terminates", "statement": "`T::deserialize(reader)` returns a value or an error after finitely many events for every finite document, including empty and truncated ones.", "quantifier": "every finite event stream (followed by end-of-file reported forever) and every deserializer behaviour", "why_tests_cant": "Non-termination cannot be observed by a terminating test; it depends on the combination of end-of-file handling and the `allow_any` flag.", "anchors": ["xsd-parser-types/src/quick_xml/deserialize.rs: DeserializeImpl::deserialize_sync, handle_event", "xsd-parser-types/src/xml/element.rs: ElementDeserializer"]}
{"id": "C04", "title": "Simple content does not depend on how the text is chunked", "statement": "The value of a simple-content element is the type's parse of the concatenation of all decoded text, CDATA and character-reference pieces, with ASCII whitespace trimmed at the two ends only, whatever comments or processing instructions and chunk boundaries occur between the pieces.", "quantifier": "every sequence of text / CDATA / reference / comment / PI events between the start and the end tag", "why_tests_cant": "There are infinitely many ways of splitting the same text into events.", "anchors": ["xsd-parser-types/src/quick_xml/deserialize.rs: ContentDeserializer"]}
{"id": "C05", "title": "List values are tokenised as XML Schema lists", "statement": "Deserializing an `xs:list` value yields the items obtained from the whitespace-separated tokens of the text (any run of blanks, tabs, CR or LF is one separator), the empty or blank text yields the empty list, and a serialized list reads back as itself.", "quantifier": "every byte string; every list of items whose text is non-empty and whitespace-free", "why_tests_cant": "The property is about all strings, in particular all runs of separators.", "anchors": ["xsd-parser-types/src/quick_xml/deserialize.rs: DeserializeHelper::deserialize_list, deserialize_arr", "xsd-parser-types/src/quick_xml/serialize.rs: SerializeBytes for lists"]}
{"id": "C06", "title": "Occurrence bounds of repeated elements are enforced when a value is finished", "statement": "Finishing a repeated field succeeds only if the number of collected values lies between minOccurs and maxOccurs (exactly N for fixed-size arrays), never panics, and returns the collected values unchanged and in order; for defaultable contents missing values are filled up to the minimum.", "quantifier": "every pair of bounds and every collected list", "why_tests_cant": "All lengths and bounds; the boundary cases around min and max are what breaks.", "anchors": ["xsd-parser-types/src/quick_xml/deserialize.rs: finish_vec, finish_vec_default, finish_arr, finish_arr_default, finish_element, finish_content, finish_default"]}
{"id": "C07", "title": "Attributes: each declared one is read at most once, unknown ones are rejected", "statement": "Reading the attributes of a start tag assigns every declared attribute its unique value independently of attribute order, ignores xmlns declarations, tolerates only the four xsi attributes besides the declared ones, reports duplicates, unknown attributes and missing required attributes as errors and fills in defaults for absent optional ones.", "quantifier": "every list of declared attributes and every list of attributes (any order, any length) on the tag", "why_tests_cant": "Order independence and rejection quantify over all permutations and all foreign attributes.", "anchors": ["xsd-parser/src/pipeline/renderer/steps/quick_xml/deserialize.rs: render_deserializer_fn_from_bytes_start, deserializer_matcher, deserializer_struct_field_init", "xsd-parser-types/src/quick_xml/deserialize.rs: read_attrib, filter_xmlns_attributes, raise_unexpected_attrib_checked, is_globally_allowed_attrib"]}
{"id": "C08", "title": "Boolean text is decoded by a fixed table and nothing else", "statement": "A boolean is read as true exactly for TRUE/True/true/YES/Yes/yes/1, as false exactly for FALSE/False/false/NO/No/no/0, every other text is an error, and the text written for a boolean reads back as the same boolean.", "quantifier": "every byte string and both booleans", "why_tests_cant": "The error case ranges over all other byte strings.", "anchors": ["xsd-parser-types/src/quick_xml/deserialize.rs: DeserializeBytes for bool", "xsd-parser-types/src/quick_xml/serialize.rs: SerializeBytes for bool"]}
{"id": "C09", "title": "Generated sequence deserializers accept every valid document", "statement": "For a generated struct whose content is an xs:sequence, every element whose children are, in order, between minOccurs and maxOccurs valid occurrences of each particle (with comments, processing instructions and whitespace in between) is accepted by `deserialize`, and the resulting struct holds exactly the values of the children, field by field and in order.", "quantifier": "every list of particles with arbitrary bounds and child types (arbitrarily nested), and every valid document for it", "why_tests_cant": "The generated code is a state machine with a fallback state; acceptance must hold for all combinations of optional, repeated and nested particles.", "anchors": ["xsd-parser/src/pipeline/renderer/steps/quick_xml/deserialize.rs: render_deserializer_fn_next_sequence, deserializer_struct_field_fn_handle_sequence, deserializer_struct_field_fn_next_sequence_create"]}
{"id": "C10", "title": "Generated deserializers accept only valid documents", "statement": "If the generated deserializer of a sequence type returns a value for an element, then the element's children were a valid instance of the sequence: right names, right order, right nesting and counts within the bounds.", "quantifier": "every element tree, valid or not, and every sequence type", "why_tests_cant": "Rejection must hold for all invalid documents, not only for a sample of mistakes.", "anchors": ["xsd-parser/src/pipeline/renderer/steps/quick_xml/deserialize.rs: render_deserializer_fn_next_sequence, deserializer_struct_field_fn_handle_sequence", "xsd-parser-types/src/quick_xml/deserialize.rs: ElementHandlerOutput::from_event, resolve_local_name"]}
{"id": "C11", "title": "Generated xs:all deserializers are order independent", "statement": "For a generated struct with xs:all content, the children may come in any order: permuting them across names does not change the resulting value, each child is stored in its own field, and a repeated single child is an error.", "quantifier": "every list of particles and every permutation of every valid child list", "why_tests_cant": "All permutations of all documents.", "anchors": ["xsd-parser/src/pipeline/renderer/steps/quick_xml/deserialize.rs: render_deserializer_fn_next_all, render_deserializer_fn_find_suitable (struct), deserializer_struct_field_fn_handle_all"]}
{"id": "C12", "title": "Generated choice deserializers pick the alternative named by the tag", "statement": "For a generated enum (choice), an element whose content is one occurrence of an alternative yields the variant of the first alternative whose name matches the tag, two alternatives in a single-occurrence choice are rejected, missing content is an error, and a repeated choice yields the list of variants in document order.", "quantifier": "every list of alternatives and every sequence of children", "why_tests_cant": "All alternatives, all counts, all documents.", "anchors": ["xsd-parser/src/pipeline/renderer/steps/quick_xml/deserialize.rs: ComplexDataEnum::render_deserializer_fn_next, render_deserializer_fn_find_suitable, deserializer_enum_variant_fn_handle, deserializer_struct_field_fn_handle_complex"]}
{"id": "C13", "title": "Serialize then deserialize is the identity for generated types", "statement": "For every value of a generated type (sequences of simple and nested elements with optional and repeated fields), the events written by its serializer, read back by its deserializer, give an equal value.", "quantifier": "every nested type and every value whose field counts respect the bounds", "why_tests_cant": "Values and types are unboundedly nested.", "anchors": ["xsd-parser/src/pipeline/renderer/steps/quick_xml/serialize.rs: ComplexDataStruct serializer", "xsd-parser/src/pipeline/renderer/steps/quick_xml/deserialize.rs", "xsd-parser-types/src/quick_xml/serialize.rs: IterSerializer, ContentSerializer"]}
{"id": "C14", "title": "Serializers emit well-nested events and restore the namespace scope", "statement": "Serializing any value emits a well-nested event stream (every start tag is closed by an end tag of the same name, in order) and leaves the serializer's namespace scope exactly as it found it.", "quantifier": "every value of every serializable type and every initial scope", "why_tests_cant": "A leaked scope only matters for later siblings; it must be excluded for all values.", "anchors": ["xsd-parser-types/src/quick_xml/serialize.rs: SerializeHelper, ContentSerializer, IterSerializer, XsiTypeSerializer", "xsd-parser-types/src/xml/element.rs: ElementSerializer", "xsd-parser-types/src/xml/any_simple_type.rs: AnySimpleTypeSerializer", "xsd-parser-types/src/xml/nillable.rs: NillableSerializer"]}
{"id": "C15", "title": "Namespace declarations written by the serializer make every used prefix resolve correctly", "statement": "After `write_xmlns(prefix, namespace)` returned for a start tag, a reader of the produced document resolves `prefix` to `namespace` inside that tag; no start tag declares one prefix twice.", "quantifier": "every history of opened and closed scopes and every sequence of declarations", "why_tests_cant": "Whether a declaration may be omitted depends on the complete history of enclosing declarations.", "anchors": ["xsd-parser-types/src/quick_xml/serialize.rs: SerializeHelper::write_xmlns, begin_ns_scope, end_ns_scope, add_namespace_entry"]}
{"id": "C16", "title": "Text survives escaping", "statement": "Writing a string as element text and reading it back yields the same string up to ASCII whitespace at both ends; markup characters are escaped, and strings that cannot be represented are rejected with an error rather than altered.", "quantifier": "every string", "why_tests_cant": "All strings, including those made of markup characters and references.", "anchors": ["xsd-parser-types/src/quick_xml/serialize.rs: ContentSerializer", "xsd-parser-types/src/quick_xml/deserialize.rs: ContentDeserializer", "xsd-parser-types/src/xml/text.rs"]}
{"id": "C17", "title": "Binary values survive their text form", "statement": "Decoding the hexadecimal or base64 text of a byte string gives the same bytes; texts that are not valid encodings are reported as errors, never as a panic or as wrong bytes.", "quantifier": "every byte string; every text", "why_tests_cant": "All byte strings and all malformed texts.", "anchors": ["xsd-parser-types/src/xml/hex.rs", "xsd-parser-types/src/xml/base64.rs", "xsd-parser-types/src/xml/any_simple_type.rs"]}
{"id": "C18", "title": "Wildcard elements survive a round trip", "statement": "An arbitrary XML element captured by `Element` (xs:any) and serialized again reproduces the same tree of names, attributes and text.", "quantifier": "every element tree", "why_tests_cant": "Trees are unbounded in depth and width.", "anchors": ["xsd-parser-types/src/xml/element.rs: ElementSerializer, ElementDeserializer"]}
{"id": "C19", "title": "Mixed, text and nillable wrappers are transparent", "statement": "`Text`, `Mixed<T>` and `Nillable<T>` values survive serialize-then-deserialize: text before/after an element is attributed to the right element, a nil element reads back as nil and a non-nil one as its value.", "quantifier": "every inner value and every text", "why_tests_cant": "All interleavings of text and elements.", "anchors": ["xsd-parser-types/src/xml/text.rs", "xsd-parser-types/src/xml/mixed.rs", "xsd-parser-types/src/xml/nillable.rs"]}
{"id": "C20", "title": "Equality of qualified names is an equivalence compatible with hashing", "statement": "`QName` equality is reflexive, symmetric and transitive and equal names have equal hashes, so that names can be used as map keys.", "quantifier": "every pair/triple of names with or without a resolved namespace", "why_tests_cant": "Transitivity and hash compatibility quantify over all pairs and triples.", "anchors": ["xsd-parser-types/src/xml/qname.rs: PartialEq for QName, Hash for QName"]}
{"id": "C21", "title": "Attribute maps keep insertion order and unique keys", "statement": "After any sequence of `push`/`insert` operations, an `Attributes` map holds each key once, `push` of an existing key is an error and changes nothing, `insert` replaces the value in place, and iteration order is first-insertion order.", "quantifier": "every sequence of operations", "why_tests_cant": "Histories of operations are unbounded.", "anchors": ["xsd-parser-types/src/xml/attributes.rs"]}
{"id": "C22", "title": "Whitespace and digit facets follow XML Schema", "statement": "`whitespace_replace` maps every tab/CR/LF to a blank and nothing else; `whitespace_collapse` followed by trimming yields single-blank-separated tokens and is idempotent; `total_digits`/`fraction_digits` accept exactly the decimals with at most that many significant/fraction digits.", "quantifier": "every string and every bound", "why_tests_cant": "All strings.", "anchors": ["xsd-parser-types/src/quick_xml/mod.rs: whitespace_replace, whitespace_collapse, total_digits, fraction_digits"]}
{"id": "C23", "title": "Error locations name the open element path", "statement": "The path attached to a deserialization error is exactly the list of names of the elements open at the event that raised it.", "quantifier": "every event history", "why_tests_cant": "Depends on the complete history of start, empty and end events.", "anchors": ["xsd-parser-types/src/quick_xml/error.rs: ErrorInfo::update"]}
{"id": "C24", "title": "Schema loading visits every reachable document exactly once", "statement": "Loading schemas with includes, imports, redefines and overrides parses each resolved location at most once, loads every document reachable from the added ones, records every dependency as pointing to the schema of the location it names, and terminates for every finite include graph, cyclic ones included.", "quantifier": "every finite dependency graph between schema documents, including cycles, and every order of loading", "why_tests_cant": "Include graphs are arbitrary; termination on cycles is not testable in general.", "anchors": ["xsd-parser/src/pipeline/parser/mod.rs: Parser::resolve_location, resolve_pending, add_pending, add_schema, SchemasBuilder::build_id_cache"]}
{"id": "C25", "title": "Distinct namespaces get distinct prefixes", "statement": "After parsing, no two namespaces share a prefix, every namespace that offers a prefix gets one, and the prefix lookup returns the namespace that owns it.", "quantifier": "every set of namespaces with any preferred and alternative prefixes", "why_tests_cant": "Clashes depend on all combinations of preferred, alternative and generated prefixes.", "anchors": ["xsd-parser/src/pipeline/parser/mod.rs: SchemasBuilder::determine_prefixes, build_prefix_cache, get_or_create_namespace_info_mut"]}
{"id": "C26", "title": "Every added schema keeps its own identity", "statement": "Every schema document added to a `Parser` (before or after changing the resolver, directly or through includes) ends up in the result of `finish()` under its own id, with no two documents sharing one, and `finish()` does not panic.", "quantifier": "every sequence of add and with_resolver calls", "why_tests_cant": "Histories of builder calls are unbounded.", "anchors": ["xsd-parser/src/pipeline/parser/mod.rs: Parser::with_resolver, temp_schema_id, SchemasBuilder::add_schema"]}
{"id": "C27", "title": "Included schemas take the namespace of the including schema", "statement": "A document without target namespace that is included by a schema contributes its definitions to the namespace of every schema including it; a document with a different target namespace than the including one is rejected; an imported document keeps its own (possibly absent) namespace.", "quantifier": "every include/import graph and loading order", "why_tests_cant": "Depends on which including document is processed first.", "anchors": ["xsd-parser/src/pipeline/parser/mod.rs: Parser::resolve_location"]}
{"id": "C28", "title": "Name lookup without schema context is exact", "statement": "For schemas announced with `add_schema` (as its documentation requires), `IdentCache::resolve` returns an identifier iff exactly one registered identifier matches the (possibly partially unknown) requested one, reports Ambiguous iff several match and Unknown iff none does.", "quantifier": "every history of insertions and every requested identifier", "why_tests_cant": "All caches and all partially specified identifiers.", "anchors": ["xsd-parser/src/models/ident_cache.rs: IdentCache::insert, resolve"]}
{"id": "C29", "title": "Name lookup from a schema sees exactly the visible schemas", "statement": "`IdentCache::resolve_for_schema` finds a name iff it is defined in the schema itself, in a schema reachable through dependencies, in a globally visible namespace or among the identifiers without schema; the first definition in depth-first dependency order wins; the search terminates on cyclic dependencies.", "quantifier": "every dependency graph between schemas, cyclic ones included, and every name", "why_tests_cant": "All graphs; termination on cycles.", "anchors": ["xsd-parser/src/models/ident_cache.rs: resolve_for_schema, search_in_schema"]}
{"id": "C30", "title": "Enumerating the definitions visible from a schema yields each once", "statement": "Iterating the definitions of a schema set yields every (kind, name) defined in a reachable schema exactly once, from the first schema in traversal order, and terminates.", "quantifier": "every dependency graph between schemas", "why_tests_cant": "All graphs and all duplicate definitions.", "anchors": ["xsd-parser/src/models/ident_cache.rs: SchemaSetIter"]}
{"id": "C31", "title": "Types are interpreted after the types they depend on", "statement": "The processing order computed for the schema components contains every component exactly once, every component comes after all components it strongly depends on, and cyclic strong dependencies are reported as an error instead of hanging.", "quantifier": "every dependency graph between components", "why_tests_cant": "All graphs; termination cannot be tested.", "anchors": ["xsd-parser/src/pipeline/interpreter/state/create_node_list.rs"]}
{"id": "C32", "title": "Members of one type get distinct names", "statement": "Within a generated type the elements have pairwise distinct identifiers, inserting a clashing element renames it to a fresh identifier without touching the others, and the display names chosen to resolve conflicts are pairwise distinct.", "quantifier": "every list of elements and every number of clashes", "why_tests_cant": "Clashes between generated and user-chosen names depend on all name combinations.", "anchors": ["xsd-parser/src/pipeline/interpreter/state/generate_types/variant_processor.rs: insert_checked", "xsd-parser/src/pipeline/interpreter/state/fix_element_naming_conflicts.rs", "xsd-parser/src/traits/vec_helper.rs", "xsd-parser/src/models/meta/element.rs: push_any"]}
{"id": "C33", "title": "Following type references always terminates at the real type", "statement": "`MetaTypes::get_resolved` terminates on every table, finds something exactly for the defined names, and returns the type at the end of the chain of single-occurrence references (a loop is cut before the first repeated name). When no references form a loop, the result is never such a reference, stepwise following agrees with it and resolving again changes nothing.", "quantifier": "every table of types, cyclic ones included; the second sentence for every table without reference loops", "why_tests_cant": "All reference graphs; termination.", "anchors": ["xsd-parser/src/models/meta/types.rs: get_resolved, get_resolved_impl"]}
{"id": "C34", "title": "Structural type equality is an equivalence compatible with its hash", "statement": "The type equality used for duplicate detection is symmetric and transitive, reflexive on every type, and equal types have equal hashes.", "quantifier": "every pair/triple of types in every table", "why_tests_cant": "Quantifies over all types; a violation makes duplicate removal depend on hash-map internals.", "anchors": ["xsd-parser/src/models/meta/type_eq.rs", "xsd-parser/src/models/meta/type_.rs: type_hash, type_eq", "xsd-parser/src/models/meta/element.rs", "xsd-parser/src/models/meta/custom.rs"]}
{"id": "C35", "title": "Removing duplicate types preserves the meaning of every type", "statement": "The duplicate-removal pass terminates, keeps every type name defined, replaces types only by references to an equal type, leaves no two equal non-reference types, and every name still resolves to a type structurally equal to the one it denoted before.", "quantifier": "every acyclic table of types", "why_tests_cant": "The pass runs to a fixpoint over arbitrary tables.", "anchors": ["xsd-parser/src/pipeline/optimizer/remove_duplicates.rs"]}
{"id": "C36", "title": "Resolving typedefs only shortcuts references", "statement": "The typedef pass replaces each mention of a type by what that type resolves to: no mention changes its resolved type, no mention of a plain typedef remains, and applying the pass twice equals applying it once.", "quantifier": "every acyclic table of types", "why_tests_cant": "All tables, all chains of typedefs.", "anchors": ["xsd-parser/src/pipeline/optimizer/resolve_typedefs.rs", "xsd-parser/src/pipeline/optimizer/misc.rs: TypedefMap"]}
{"id": "C37", "title": "Flattening unions keeps the member types and their order", "statement": "Flattening a union of unions yields exactly the non-union member types in left-to-right depth-first order (the order in which a value is tried), so the set of accepted texts and the chosen member do not change.", "quantifier": "every acyclic table of unions of any depth", "why_tests_cant": "All nestings.", "anchors": ["xsd-parser/src/pipeline/optimizer/flatten_unions.rs", "xsd-parser/src/pipeline/renderer/steps/quick_xml/deserialize.rs: UnionData::render_deserializer"]}
{"id": "C38", "title": "Removing duplicate union members does not change the accepted texts", "statement": "After duplicate members are removed a union accepts the same texts with the same result type, no two members resolve to the same type, and the first occurrence of each member is the one that is kept.", "quantifier": "every union and every table", "why_tests_cant": "All unions.", "anchors": ["xsd-parser/src/pipeline/optimizer/remove_duplicate_union_variants.rs"]}
{"id": "C39", "title": "Removing empty enumeration variants and empty types keeps everything else", "statement": "The empty-variant/empty-enumeration/empty-union passes remove exactly the unnamed empty variants (or replace exactly the types without variants by a reference to their base) and leave all other types untouched; running them again changes nothing.", "quantifier": "every table of types", "why_tests_cant": "All tables.", "anchors": ["xsd-parser/src/pipeline/optimizer/empty_enums.rs", "xsd-parser/src/pipeline/optimizer/empty_unions.rs"]}
{"id": "C40", "title": "Flattening nested groups accepts at least the original documents", "statement": "Replacing nested sequences/choices/alls of a complex type by one flat group never rejects a document that the nested content model accepts.", "quantifier": "every nesting of groups with arbitrary occurrence bounds and every document", "why_tests_cant": "Both the nesting and the documents are unbounded.", "anchors": ["xsd-parser/src/pipeline/optimizer/flatten_complex_type.rs"]}
{"id": "C41", "title": "Merging choice cardinalities accepts at least the original documents", "statement": "Moving the cardinality of a choice's alternatives to the choice itself never rejects a document accepted before.", "quantifier": "every choice and every document", "why_tests_cant": "All documents and bounds.", "anchors": ["xsd-parser/src/pipeline/optimizer/merge_choice_cardinality.rs"]}
{"id": "C42", "title": "Merging and converting dynamic types keeps every derived type selectable", "statement": "Merging nested dynamic (abstract) types and converting them to choices keeps every concrete derived type reachable and adds none.", "quantifier": "every acyclic hierarchy of abstract types", "why_tests_cant": "All hierarchies.", "anchors": ["xsd-parser/src/pipeline/optimizer/merge_dynamic_types.rs", "xsd-parser/src/pipeline/optimizer/dynamic_to_choice.rs"]}
{"id": "C43", "title": "Occurrence arithmetic and the chosen container fit the bounds", "statement": "Adding and multiplying occurrence bounds agrees with adding and multiplying the sets of possible counts, and the container chosen for a field (none, single, option, array, vector) can hold every count within the bounds (and, except for vectors, no other).", "quantifier": "every pair of bounds, including unbounded", "why_tests_cant": "All bounds.", "anchors": ["xsd-parser/src/models/schema/occurs.rs", "xsd-parser/src/models/data/occurs.rs: Occurs::from_occurs"]}
{"id": "C44", "title": "Generated identifiers are valid Rust identifiers", "statement": "Every name formatted for the generated code is a syntactically valid Rust identifier and not a reserved word.", "quantifier": "every input name", "why_tests_cant": "All strings, all keywords.", "anchors": ["xsd-parser/src/models/naming/mod.rs: format_ident, unify_string, KEYWORDS"]}
{"id": "C45", "title": "Automatically numbered names never repeat", "statement": "Two names generated with a number from one naming instance never coincide for the same base name, whatever names are generated in between and whichever clone of the naming object is used.", "quantifier": "every history of name generations", "why_tests_cant": "Histories are unbounded.", "anchors": ["xsd-parser/src/models/naming/default.rs: NameBuilder::finish, generate_unique_id", "xsd-parser/src/traits/naming.rs"]}
{"id": "C46", "title": "Relative module paths point to the right item", "statement": "The relative path computed from one generated module to an item, when resolved from that module (`super` goes up, names go down), denotes exactly that item; parsing a printed path gives back the path.", "quantifier": "every pair of modules of any depth and every item", "why_tests_cant": "All pairs of paths.", "anchors": ["xsd-parser/src/models/code/ident_path.rs: IdentPath::relative_to, FromStr, Display"]}
{"id": "C47", "title": "The generated use-statements import exactly the requested items", "statement": "The nested `use` trees rendered for a module import exactly the requested paths, each once, anonymously (`as _`) only if every request was anonymous.", "quantifier": "every set of requested imports", "why_tests_cant": "All sets of paths sharing arbitrary prefixes.", "anchors": ["xsd-parser/src/models/code/module.rs: Module::usings, render_usings"]}
{"id": "C48", "title": "Writing modules to files emits every module once at its own path", "statement": "Splitting the generated module tree into files calls the writer exactly once per module, with pairwise distinct paths that spell the module path, parents before children.", "quantifier": "every module tree", "why_tests_cant": "Trees are unbounded.", "anchors": ["xsd-parser/src/models/code/module.rs: write_to_files_with"]}
{"id": "C49", "title": "Recursive types are boxed so that every generated type has finite size", "statement": "In the generated types no cycle of by-value fields is left: along every cycle of direct (non-list) containment at least one field is boxed.", "quantifier": "every graph of types and every processing order", "why_tests_cant": "All graphs and orders; only particular orders of four or more types fail.", "anchors": ["xsd-parser/src/pipeline/generator/state.rs: LoopDetection", "xsd-parser/src/pipeline/generator/context.rs: get_or_create_type_ref_for_element, need_box"]}
{"id": "C50", "title": "Code is generated for every referenced type exactly once", "statement": "Generation terminates, produces each requested type and every type reachable from it exactly once, and every type path mentioned in the generated code belongs to a generated (or built-in/custom) type.", "quantifier": "every table of types and every set of requested types, cyclic references included", "why_tests_cant": "All graphs.", "anchors": ["xsd-parser/src/pipeline/generator/mod.rs: generate_type, generate_all_types, generate_named_types, generate_pending, get_or_create_type_ref_mut"]}
{"id": "C51", "title": "An extended type accepts base content followed by the added content", "statement": "The content model generated for an xs:extension accepts every document made of an instance of the base content followed by an instance of the added content.", "quantifier": "every base group, every added group, with arbitrary bounds", "why_tests_cant": "All pairs of content models and all documents.", "anchors": ["xsd-parser/src/pipeline/interpreter/state/generate_types/variant_processor.rs: complex_content_builder"]}
{"id": "C52", "title": "Repeating an element inside a group keeps all its occurrences", "statement": "When a sequence mentions the same element several times, the generated type accepts every document the sequence allows.", "quantifier": "every list of particles", "why_tests_cant": "All particle lists.", "anchors": ["xsd-parser/src/pipeline/interpreter/state/generate_types/variant_processor.rs: apply_element_ref", "xsd-parser/src/traits/vec_helper.rs: find_or_insert"]}
{"id": "C53", "title": "Unions and enumerations choose the first member that accepts the text", "statement": "A generated union deserializer returns the value of the first member type that accepts the text and an error listing all failures iff none does; a generated enumeration returns the variant whose literal equals the text, else the catch-all, else an error.", "quantifier": "every list of members/variants and every text", "why_tests_cant": "All texts.", "anchors": ["xsd-parser/src/pipeline/renderer/steps/quick_xml/deserialize.rs: UnionData::render_deserializer, EnumerationData::render_deserializer"]}
{"id": "C54", "title": "Types treated as defaultable can be constructed from nothing", "statement": "Whenever the generator decides that a group can be default-constructed, finishing its deserializer without any event succeeds.", "quantifier": "every table of types, cyclic ones included", "why_tests_cant": "All tables; the analysis caches intermediate results during recursion.", "anchors": ["xsd-parser/src/pipeline/renderer/steps/quick_xml/deserialize.rs: DefaultableCache"]}
{"id": "C55", "title": "Merging the enumerations of a union keeps every alternative", "statement": "After merging unions that contain enumerations, every text and every document is accepted exactly as before: a merged type has one alternative for each literal and each member type of the union, and types that are not unions are unchanged. The pass ends and does not panic.", "quantifier": "every table of types and every document", "why_tests_cant": "All nestings of unions, enumerations and synonyms, including equal names and loops.", "anchors": ["xsd-parser/src/pipeline/optimizer/merge_enum_unions.rs: merge_enum_unions, merge_enum_union_impl", "xsd-parser/src/traits/vec_helper.rs: find_or_insert"]}
{"id": "C56", "title": "Replacing restricted types by their base accepts no less", "statement": "Replacing restricted types by the unrestricted base type changes exactly the chosen kinds of types that restrict another type, points each at the end of its chain of restrictions, ends, and rejects no document that was accepted before.", "quantifier": "every table of types, every choice of flags and every document", "why_tests_cant": "All chains of restrictions and all documents.", "anchors": ["xsd-parser/src/pipeline/optimizer/unrestricted_base.rs: use_unrestricted_base_type", "xsd-parser/src/pipeline/optimizer/misc/base_map.rs: BaseMap"]}
{"id": "C57", "title": "Simplifying mixed types keeps every document", "statement": "After replacing mixed content by explicit text fields, every document with text between its elements is still accepted by the same types; other types are unchanged, and the pass does not panic.", "quantifier": "every table of types and every document", "why_tests_cant": "All contents and all positions of text.", "anchors": ["xsd-parser/src/pipeline/optimizer/simplify_mixed_types.rs: simplify_mixed_type, simplify_mixed_types"]}
{"id": "C58", "title": "Restricted simple types accept exactly the texts that satisfy their facets", "statement": "A type derived by restriction from a simple type accepts a text exactly if its base accepts the text (white space normalised as the facet says) and the facets of every restriction in the chain hold; the values of an enumeration are those of its last restriction; the generator does not panic for any combination of facets; a text written for an accepted value is accepted again.", "quantifier": "every chain of restrictions, every combination of facets, every text", "why_tests_cant": "All texts and all combinations of facets along all chains.", "anchors": ["xsd-parser/src/pipeline/interpreter/state/generate_types/variant_processor.rs: apply_simple_type_restriction, apply_simple_type_facet, apply_enumeration, copy_base_type", "xsd-parser/src/pipeline/renderer/steps/mod.rs: ConstrainsData, SimpleData", "xsd-parser/src/pipeline/renderer/steps/quick_xml/deserialize.rs: SimpleData::render_deserializer, ConstrainsData::render_validation"]}
{"id": "C59", "title": "The content of a complex type is the content model of the schema", "statement": "For a complex type of a schema, the type information handed to the generator accepts exactly the element sequences described by its xs:sequence, xs:choice, xs:all, xs:group references, wildcards and their occurrence bounds, however they are nested.", "quantifier": "every content model and every sequence of elements", "why_tests_cant": "All nestings, bounds and documents.", "anchors": ["xsd-parser/src/pipeline/interpreter/state/generate_types/variant_processor.rs: apply_complex_type, apply_all, apply_choice, apply_sequence, apply_group_ref, apply_element, apply_any, complex_content_builder"]}
{"id": "C60", "title": "A type derived by restriction accepts its own content model", "statement": "A complex type derived by xs:restriction accepts exactly the documents described by the content model written in the restriction, not those of its base.", "quantifier": "every base type, every restriction and every document", "why_tests_cant": "All pairs of content models and all documents.", "anchors": ["xsd-parser/src/pipeline/interpreter/state/generate_types/variant_processor.rs: apply_complex_content, apply_restriction, copy_base_type, complex_content_builder"]}
{"id": "C61", "title": "The root element declares the namespaces of everything below it", "statement": "With NamespaceSerialization::Global, the element that is serialized as root declares every prefix that elements and attributes at any depth below it are written with, and it declares no namespace that nothing below it can use; this does not depend on the order in which the types are generated.", "quantifier": "every table of types (any nesting, any cycles), every order of generating them, every root type", "why_tests_cant": "All graphs of types and all orders; the collector remembers intermediate results, so what it finds depends on history.", "anchors": ["xsd-parser/src/pipeline/renderer/steps/quick_xml/serialize.rs: NamespaceCollector, get_namespaces, get_namespaces_impl, merge, add_ns, make_value, filter_dynamic_types"]}
{"id": "C62", "title": "With dynamic namespaces the root declares what the value uses", "statement": "With NamespaceSerialization::Dynamic, the root element declares exactly the namespaces of the value that is serialized: every name that is written with a prefix, at any depth, resolves to its namespace, elements without prefix are in the default namespace that was configured, and no namespace is declared that the value does not use.", "quantifier": "every table of types (any nesting, recursive types), every value, any depth, every default namespace", "why_tests_cant": "The namespaces are collected by recursion over the value; all shapes of values and types have to be covered.", "anchors": ["xsd-parser/src/pipeline/renderer/steps/quick_xml/collect_namespaces.rs: CollectNamespaces impls, render_collect_namespace", "xsd-parser/src/pipeline/renderer/steps/quick_xml/serialize.rs: render_serializer_bytes_ctor, render_xmlns, render_root_xmlns", "xsd-parser-types/src/quick_xml/collect_namespaces.rs: CollectNamespaces"]}
{"id": "C63", "title": "The attributes of a generated type are those the schema declares", "statement": "The attribute fields of the type generated for a complex type are exactly the attribute uses that XML Schema gives it: those declared in it or in the attribute groups it refers to, at any depth, and those of its base type that it does not redeclare or, in a restriction, prohibit; each with its expanded name, its type, whether it is required, and its default or fixed value. It accepts other attributes only if it has a wildcard.", "quantifier": "every schema: any nesting of attribute groups, any chain of extensions and restrictions, any number of attributes, target namespaces and forms", "why_tests_cant": "Groups and derivations nest without bound and declarations of the same attribute interact; tests fix a few schemas.", "anchors": ["xsd-parser/src/pipeline/interpreter/state/generate_types/variant_processor.rs: apply_attribute_ref, apply_attribute_group, apply_attribute_group_ref, apply_any_attribute, copy_base_type", "xsd-parser/src/pipeline/interpreter/state/generate_types/update.rs: Update<AttributeType> for AttributeMeta", "xsd-parser/src/traits/vec_helper.rs: find_or_insert", "xsd-parser/src/pipeline/generator/data/complex.rs: ComplexDataAttribute::new_field"]}
{"id": "C64", "title": "Heads of substitution groups read exactly their members, dynamic types exactly their derived types", "statement": "Where a global element is expected, the generated code reads exactly that element, if it is not abstract, and the elements that are in its substitution group, directly or through other elements, each with the type of its own declaration. A complex type that is abstract or marked as dynamic is read, depending on xsi:type, as exactly the type itself, if it is not abstract, and the types derived from it, each with its own content. This does not depend on the order in which the schemas are processed.", "quantifier": "every set of schemas: any number and depth of substitution groups, several heads per element, any chains of derivation, every order of processing", "why_tests_cant": "Groups and derivations nest without bound, and each element changes entries made for elements before it, so the result depends on the whole history.", "anchors": ["xsd-parser/src/pipeline/interpreter/state/generate_types/variant_processor.rs: apply_element, walk_substitution_groups, prepare_substitution_group, apply_complex_type", "xsd-parser/src/pipeline/interpreter/state/generate_types/type_processor.rs: process_node, create_type, add_type", "xsd-parser/src/pipeline/interpreter/state/fix_derived_types.rs: fix_derived_types"]}
{"id": "C65", "title": "A type held by a dynamic type implements its trait", "statement": "In the generated code a dynamic type B is a box of values that implement the trait of B. Every generated type that holds the values of a derived type of B has an implementation of that trait, no other type has one, every trait that is implemented is part of the generated code, and the trait of a dynamic type requires the trait of another one only if the first is a direct child of the second.", "quantifier": "every set of types, every series of calls of the generator (single types, named types, all types), any number and nesting of dynamic types", "why_tests_cant": "Which implementations are written depends on the order in which the worklist of the generator discovers types, hence on the whole graph of types and on the history of calls.", "anchors": ["xsd-parser/src/pipeline/generator/state.rs: TraitInfos::update", "xsd-parser/src/pipeline/generator/mod.rs: get_or_create_type_ref, generate_all_types, generate_named_types, generate_type", "xsd-parser/src/pipeline/generator/context.rs: make_trait_impls, make_traits_derive", "xsd-parser/src/pipeline/renderer/steps/types.rs: render_trait_impls, DynamicData::render_types"]}
{"id": "C66", "title": "Values of dynamic types are read as the type they were written with", "statement": "An element of a dynamic type is read as the derived type that is named by its xsi:type attribute or, for members of a substitution group, by its tag, and as the type itself if there is no xsi:type and the type is not abstract. A value of a derived type is written with a tag and an xsi:type that are read as the same derived type again, under whatever name the field or element prescribes, and the xsi:type does not change the attributes of the value.", "quantifier": "every dynamic type with any number of derived types and members, every tag, attribute list and scope of namespaces, every value of a derived type and every serializer for it, every name prescribed by the parent", "why_tests_cant": "The choice depends on the names and namespaces of all derived types, on the prefixes in scope and on the other attributes; a test shows a few documents in which element and type have the same name.", "anchors": ["xsd-parser/src/pipeline/renderer/steps/quick_xml/deserialize.rs: DynamicData::render_deserializer_impls, make_type_element_matcher", "xsd-parser/src/pipeline/renderer/steps/quick_xml/serialize.rs: DynamicData::render_serializer, filter_dynamic_types", "xsd-parser-types/src/quick_xml/deserialize.rs: get_dynamic_type_from_attrib, resolve_local_name", "xsd-parser-types/src/quick_xml/serialize.rs: XsiTypeSerializer"]}
{"id": "C67", "title": "Elements are read and written under the name the schema gives them", "statement": "Every xs:element in the content model of a type, at any depth and through references to groups, becomes an element of its declared type, and there are no others. A tag that stands for the name of the element in XML Schema (the name of the global element for references; for local elements the name in the target namespace or in no namespace, depending on the form) is read as this element, and the element is written with a tag that stands for this name.", "quantifier": "every content model, any nesting and any groups, every schema context, every scope of namespaces and every tag, every assignment of prefixes and default namespace", "why_tests_cant": "Names depend on form defaults, on the schema a group is declared in, on prefixes and on other elements with the same name; the combinations over nested content are unbounded.", "anchors": ["xsd-parser/src/pipeline/interpreter/state/generate_types/variant_processor.rs: apply_element_ref, apply_group_ref, apply_group", "xsd-parser/src/models/data/tag_name.rs: TagName", "xsd-parser/src/pipeline/renderer/steps/quick_xml/deserialize.rs: deserializer_init_element", "xsd-parser/src/pipeline/renderer/steps/quick_xml/serialize.rs: render_serializer_state_init"]}
{"id": "C68", "title": "The optimizer object gives what its passes give one after the other", "statement": "An optimizer keeps a map of the bases and a map of the typedefs between the calls of its passes. The result of calls to its passes does not depend on these maps: it is the result of the passes one after the other, each with maps built from the types at that moment. In particular this holds for the fixed order of passes in exec_optimizer with every set of flags.", "quantifier": "every table of types, every history of calls of passes, every set of optimizer flags", "why_tests_cant": "A stale map is only noticed for some orders of calls together with some shapes of types; histories and tables are unbounded.", "anchors": ["xsd-parser/src/pipeline/optimizer/mod.rs: Optimizer, get_bases, get_typedefs", "xsd-parser/src/pipeline/optimizer/misc/base_map.rs: BaseMap", "xsd-parser/src/pipeline/optimizer/misc/typedef_map.rs: TypedefMap", "xsd-parser/src/pipeline/optimizer/replace_xs_any_type_with_any_element.rs: replace_xs_any_type", "xsd-parser/src/lib.rs: exec_optimizer"]}
{"id": "C69", "title": "The optimizer as a whole never makes the parser stricter", "statement": "For every set of optimizer flags (without the passes that rebuild complex types, dynamic types or enumerations) the optimizer ends without an error, keeps every type name, and every document accepted with the types before is accepted with the types after all passes.", "quantifier": "every well-formed table of types, every such set of optimizer flags, every document, every meaning of built-in types and facets", "why_tests_cant": "Each pass is run on the output of the others; which shapes arise in between depends on the whole table and the flags, and tables and documents are unbounded.", "anchors": ["xsd-parser/src/lib.rs: exec_optimizer", "xsd-parser/src/config/optimizer.rs: OptimizerConfig, OptimizerFlags", "xsd-parser/src/pipeline/optimizer/mod.rs: Optimizer"]}
{"id": "C70", "title": "Built-in simple types accept their XML Schema literals and read the right value", "statement": "With the default typedefs, an element or attribute of a built-in numeric or boolean type accepts exactly the texts XML Schema allows for it (optional white space around it, sign, digits, range), reads the value the text denotes, and reads back what it writes; flags for big and non-zero integers and types of the configuration override the defaults in that order.", "quantifier": "every text, every built-in integer, boolean and floating point type, every set of flags, every pointer width", "why_tests_cant": "The texts are unbounded and the boundaries (overflow in the middle of a number, signs, zero, white space) differ for each of the types.", "anchors": ["xsd-parser/src/pipeline/interpreter/mod.rs: with_buildin_types, with_default_typedefs, with_num_big_int, with_nonzero_typedefs", "xsd-parser/src/pipeline/interpreter/state.rs: add_type", "xsd-parser/src/lib.rs: exec_interpreter_with_ident_cache", "xsd-parser-types/src/quick_xml/deserialize.rs: DeserializeBytes, ContentDeserializer::finish, read_attrib"]}
{"id": "C71", "title": "Every document the type information describes is read by the generated code", "statement": "If a document is valid for the type information that the generator is given, the generated deserializer reads it without an error, whichever prefixes it uses, in whichever order its attributes stand, whatever comments, processing instructions and blanks are between its elements and however its text is split; the value read has exactly the attributes and the children of the document, and what follows the document is left alone.", "quantifier": "every table of types, every document valid for it, every choice of prefixes, padding and splitting of text, every nesting depth and number of occurrences", "why_tests_cant": "Types refer to each other recursively and documents are unbounded; each kind of content has its own state machine, and a document that is rejected only shows with the right combination of occurrences, prefixes and padding.", "anchors": ["xsd-parser/src/pipeline/generator/data/complex.rs: ComplexData, ComplexDataElement, ComplexDataAttribute", "xsd-parser/src/pipeline/renderer/steps/quick_xml/deserialize.rs", "xsd-parser-types/src/quick_xml/deserialize.rs: DeserializeHelper"]}
{"id": "C72", "title": "Every document valid for the schema is read by the code generated from the schema", "statement": "If a schema is interpreted without an error, the type information accepts exactly the documents that the schema describes: every element, complex type with attributes and nested sequences, choices and alls, extension of a complex type, and complex type with simple content means the same before and after. The code that is generated from it, after the optimizer, reads every document valid for the schema, whichever prefixes, padding and splitting of text the document uses.", "quantifier": "every schema (any number of components, any nesting of groups, recursive types), every selection of optimizer steps, every document", "why_tests_cant": "It composes the interpreter, the optimizer, the generator and the generated code, over unboundedly many schemas and documents; a test fixes one schema and a few documents.", "anchors": ["xsd-parser/src/pipeline/interpreter/state/generate_types/type_processor.rs: TypeProcessor::create_type, process_ident", "xsd-parser/src/pipeline/interpreter/state/generate_types/variant_processor.rs: apply_element, apply_complex_type, apply_complex_content_extension, apply_simple_content_extension, copy_base_type", "xsd-parser/src/pipeline/optimizer/mod.rs", "xsd-parser/src/pipeline/generator/data/complex.rs: ComplexData", "xsd-parser-types/src/quick_xml/deserialize.rs"]}
{"id": "C73", "title": "Asynchronous reading and writing do the same as synchronous reading and writing, whatever the schedule", "statement": "If the asynchronous reader delivers the events of the synchronous one, then whenever deserialize_async returns, it returns the value, or the error with its position and path of elements, that deserialize returns, and leaves the reader in the same state; if deserialize returns, deserialize_async returns after finitely many polls on every schedule on which no read is pending for ever. Wrapping both readers with with_error_info keeps this. Whenever serialize_async returns, serialize returns the same and the output is the same.", "quantifier": "every deserializer and serializer, every reader and writer whose two variants agree, every schedule of polls and every result of each poll", "why_tests_cant": "The number and the moments of suspensions are unbounded; a test executes one schedule of a runtime.", "anchors": ["xsd-parser-types/src/quick_xml/deserialize.rs: DeserializeImpl::deserialize_sync, deserialize_async, DeserializeAsync", "xsd-parser-types/src/quick_xml/reader/error_reader.rs: ErrorReader, ReadEventFut", "xsd-parser-types/src/quick_xml/reader/slice_reader.rs: SliceReader", "xsd-parser-types/src/quick_xml/serialize.rs: SerializeImpl::serialize_sync, serialize_async"]}
{"id": "C74", "title": "An interrupted serialization has written a beginning of the document", "statement": "At every point of a serialization, synchronous or asynchronous, so also if the future is dropped, the process ends or the writer or the serializer fails there, the text that has reached the output is a beginning of the document that the serializer gives; if the serialization returns without an error, it is the whole document.", "quantifier": "every serializer, every output (also one that takes events in pieces and fails at any point), every schedule and every point of interruption", "why_tests_cant": "There are unboundedly many points at which a writer can fail or a future can be dropped.", "anchors": ["xsd-parser-types/src/quick_xml/serialize.rs: SerializeImpl::serialize_sync, serialize_async", "xsd-parser-types/src/quick_xml/serialize.rs: Serializer::next"]}
{"id": "C75", "title": "NamespaceScope keeps a value with the namespaces in scope at its element", "statement": "A type wrapped in NamespaceScope reads exactly the documents the type itself reads, with the same value and the same errors; a wrapped value read from an element, or from an attribute of an element, is kept with exactly the namespaces in scope at that element, wherever it stands, whatever is declared inside it or before it and whoever else asked the helper for namespaces.", "quantifier": "every type (every deserializer that uses the helper only to ask for namespaces), every position in every document, every element content", "why_tests_cant": "Depth, declarations and the history of questions that fill the shared caches are unbounded.", "anchors": ["xsd-parser-types/src/xml/namespace_scope.rs: NamespaceScope, NamespaceScopeDeserializer", "xsd-parser-types/src/quick_xml/deserialize.rs: DeserializeHelper::namespaces, DeserializeHelper::handle_event"]}
{"id": "C76", "title": "Combined resolvers answer like the first one that does not decline", "statement": "A ManyResolver gives the answer (document or error) of the first of its resolvers, in the order in which they were added, that does not decline the request; the ones before it are asked once, the ones after it are not asked and keep their state. The file resolver answers with the content of the file denoted by the reference relative to the referring document, under its full location, and declines exactly what is no file location.", "quantifier": "every list of resolvers with arbitrary internal state, every request and every history of requests, every file system", "why_tests_cant": "Resolvers are supplied by the user and keep state; number, order and history are unbounded.", "anchors": ["xsd-parser/src/pipeline/parser/resolver/many_resolver.rs: ManyResolver, MappedResolver", "xsd-parser/src/pipeline/parser/resolver/file_resolver.rs: FileResolver", "xsd-parser/src/pipeline/parser/resolver/noop_resolver.rs: NoOpResolver", "xsd-parser/src/pipeline/parser/resolver/mod.rs: Resolver, strip_name_ext"]}
{"id": "C77", "title": "What the generated code writes is valid", "statement": "Whatever document a generated type describes - in particular whatever its serializer writes for a value - is valid for the complex type it was generated for: the children occur in the order and number the schema asks for, the required attributes are there and no undeclared ones, and all texts are valid for their types.", "quantifier": "every table of type information of a supported kind, every generator configuration, every value of a generated type and every document the type describes", "why_tests_cant": "Schemas and values are unbounded; content models nest and repeat, and a test compares the output only with documents written by hand.", "anchors": ["xsd-parser/src/pipeline/generator/data/complex.rs: ComplexData::new", "xsd-parser/src/pipeline/renderer/steps/quick_xml/serialize.rs: QuickXmlSerializeRenderStep", "xsd-parser/src/pipeline/renderer/steps/quick_xml/deserialize.rs: QuickXmlDeserializeRenderStep"]}
{"id": "C78", "title": "The configured render steps are the ones asked for, once each", "statement": "After any sequence of calls that add render steps to the default configuration, the renderer runs exactly one step for each purpose that was asked for, and one for the types: the last one passed for that purpose, at the place where the purpose was asked for first. The step for the types comes first. After with_quick_xml_config every step the generated code needs is present with the given settings, whatever was configured before.", "quantifier": "every finite sequence of render steps (values of RenderStep, the steps of the crate used directly, and steps of the user), every configuration before, and every setting of the quick-xml helpers", "why_tests_cant": "The steps replace each other depending on the whole history of calls; the histories are unbounded and user steps are open-ended.", "anchors": ["xsd-parser/src/config/mod.rs: Config::with_render_step, with_render_steps, with_quick_xml_config, with_serde_quick_xml, with_serde_xml_rs", "xsd-parser/src/config/renderer.rs: RenderStep, RenderStepConfig::is_mutual_exclusive_to, RendererConfig::default", "xsd-parser/src/pipeline/renderer/mod.rs: RenderStepType", "xsd-parser/src/pipeline/renderer/steps/enum_const.rs: EnumConstantsRenderStep"]}
{"id": "C79", "title": "Content helpers look up and change the first item of their variant", "statement": "With the content helpers enabled, a generated type with a repeated choice as content has two methods for exactly the alternatives that hold a single value. The first returns the value of the first item of that alternative, or nothing if there is none; changing the value through the second changes that item and nothing else. All the methods have different names.", "quantifier": "every list of alternatives, every content, every change of a value", "why_tests_cant": "Contents and alternatives are unbounded, and names of methods are derived from the names in the schema.", "anchors": ["xsd-parser/src/pipeline/renderer/steps/content_helper.rs: ContentHelpersRenderStep::render_type, render_helpers_for_complex_enum"]}
{"id": "C80", "title": "Types for serde: members have different names, and only what must be there has no default", "statement": "In the struct or enum written for a complex type by one of the three serde render steps, no two members have the same serde name, if the elements and attributes have different names. A member without a serde default stands for a required attribute, an element that occurs at least once, or a content that occurs at least once; a required attribute and an element that occurs exactly once have no default, so that it is noticed if they are missing.", "quantifier": "every complex type over every table of types, each of the three serde targets, every assignment of prefixes, all flags", "why_tests_cant": "Names, numbers and namespaces of the elements and attributes of a type are unbounded, and the collisions depend on how they are combined.", "anchors": ["xsd-parser/src/pipeline/renderer/steps/serde/quick_xml.rs: render_field_serde_quick_xml, render_variant_serde_quick_xml", "xsd-parser/src/pipeline/renderer/steps/serde/serde_xml_rs_v7.rs: render_field_serde_xml_rs_v7", "xsd-parser/src/pipeline/renderer/steps/serde/serde_xml_rs_v8.rs: render_field_serde_xml_rs_v8", "xsd-parser/src/pipeline/renderer/steps/serde/mod.rs: is_empty_string_content", "xsd-parser/src/models/data/tag_name.rs: TagName::get"]}
{"id": "C81", "title": "Different types of the schema get different Rust names", "statement": "No two entries of the type information for which code is generated give items of the same name in the same module of the generated code, so the code compiles and every type can be named. (Found false: with the default naming the types Foo and FooType of one namespace, the types of the same name in two namespaces, and two anonymous lists of one type give the same name.)", "quantifier": "every table of types, every name formatting function, all postfixes, all settings of the modules, both namings of the library", "why_tests_cant": "Clashes depend on how arbitrary names of a schema combine with the postfixes, for every pair of types.", "anchors": ["xsd-parser/src/pipeline/generator/mod.rs: State::create_type_ref", "xsd-parser/src/models/naming/mod.rs: make_type_name", "xsd-parser/src/models/naming/explicit.rs: ExplicitNaming::make_type_name", "xsd-parser/src/traits/naming.rs: format_type_ident", "xsd-parser/src/models/code/ident_path.rs: ModuleIdent::new"]}
{"id": "C82", "title": "The constants of the generated code stand for the namespaces and prefixes of the schema", "statement": "Every constant NS_... and PREFIX_... that the generated code refers to for a namespace is defined exactly once, with this namespace or its prefix as the value; so the root element declares what it should, and a type tells the same prefix and namespace through WithNamespace. (Found false for prefixes that differ only in case, for prefixes like unnamed_3, and for namespaces with a module name and no prefix.)", "quantifier": "every list of namespaces with any prefixes and module names, every conversion to upper case", "why_tests_cant": "The number, prefixes and ids of the namespaces of a schema are unbounded, and clashes depend on pairs of them.", "anchors": ["xsd-parser/src/models/meta/types.rs: ModuleMeta::make_ns_const, make_prefix_const, name, prefix", "xsd-parser/src/pipeline/renderer/steps/namespace_const.rs: finish", "xsd-parser/src/pipeline/renderer/steps/prefix_const.rs: finish", "xsd-parser/src/pipeline/renderer/steps/with_namespace_trait.rs: render_trait_with_namespace", "xsd-parser/src/pipeline/interpreter/state/prepare_modules.rs: prepare_modules"]}
{"id": "C83", "title": "Printing the type information ends and shows everything inside a type", "statement": "Printing a table of types always ends, also if groups contain themselves or refer to missing types. The text of a type shows exactly the groups and contents inside it, each with all its members; LOOP DETECTED is written exactly if one of them contains itself and NOT FOUND exactly if one is missing. The text of the whole table is the texts of its types one after the other.", "quantifier": "every table of types, including recursive and incomplete ones, every type of it", "why_tests_cant": "Groups can be nested in each other to any depth and in any recursive shape.", "anchors": ["xsd-parser/src/meta_types_printer.rs: MetaTypesPrinter::print_all, print_type, print_type_impl, resolve_complex_type"]}
{"id": "C84", "title": "Redefined and overridden components replace the old ones everywhere", "statement": "When a schema document redefines (xs:redefine) or overrides (xs:override) components of another document, then every reference seen from that document, directly or through components of the other documents, leads to the new component; only a redefining component itself refers to what it redefines. Components of other documents that refer to a replaced one are copied with their declaration, other documents are not changed, resolving always ends, and the result does not depend on the order in which hash sets are enumerated.", "quantifier": "every set of schema documents, every nesting of includes, imports and redefinitions, every enumeration order of the hash sets", "why_tests_cant": "The replacement spreads through chains of references of any length and its order is decided by hash sets that are enumerated differently in every run.", "anchors": ["xsd-parser/src/pipeline/interpreter/state/crate_node_cache.rs: process_redefine, process_override, resolve_dependencies, new_entry, new_redefined_entry, resolve_type_ident", "xsd-parser/src/pipeline/interpreter/state/crate_ident_cache.rs: create_ident_cache", "xsd-parser/src/models/ident_cache.rs: schema_set, resolve_for_schema"]}
{"id": "C85", "title": "Every anonymous type keeps its own declaration", "statement": "Every anonymous type of a local element, attribute, list or union is interpreted with its own declaration: what a component uses for one of its anonymous types is the node of exactly this declaration, also in the copies that are made for redefinitions.", "quantifier": "every set of schema documents, any nesting of anonymous types and groups", "why_tests_cant": "The generated names depend on all enclosing declarations; whether two of them collide depends on the whole document.", "anchors": ["xsd-parser/src/pipeline/interpreter/state/crate_node_cache.rs: process_element_ref, process_attribute_ref, process_list, process_union, new_inline_entry, auto_extend"]}
{"id": "C86", "title": "Values of xs:anySimpleType are read and written by their type", "statement": "A value of an element of type xs:anySimpleType is read as a value of the built-in type that its xsi:type names, with the lexical rules of this type; a value of another type, or without a type, is kept as text together with the name of its type. Writing a value and reading the events again gives the same value with the same type.", "quantifier": "every built-in type, every value, every text and every type name, whatever the namespaces in scope", "why_tests_cant": "There are 44 built-in types with infinite value spaces; that the names used for reading and for writing agree and that texts lead back to values must hold for all of them.", "anchors": ["xsd-parser-types/src/xml/any_simple_type.rs: AnySimpleType, AnySimpleTypeSerializer::next, AnySimpleTypeDeserializer::init, finish_content, to_str, parse_vec, format_vec"]}
{"id": "C87", "title": "Elements that only a wildcard allows are skipped, and nothing else is", "statement": "For a type whose content contains xs:any, generated without a type for wildcards, every element of the document that has no field is skipped with its whole content, and every element that has a field is read into it as if the skipped elements were absent.", "quantifier": "every generated struct with open content, every position of the foreign element, every content of it and every continuation of the document", "why_tests_cant": "Whether a declared element survives depends on the state in which the foreign element is met, and the state on the occurrence bounds of all remaining fields and on all that was read before.", "anchors": ["xsd-parser/src/pipeline/renderer/steps/quick_xml/deserialize.rs: render_deserializer_fn_next_sequence, render_deserializer_fn_next_empty, deserializer_struct_field_fn_handle_sequence", "xsd-parser/src/pipeline/generator/data/complex.rs: ElementMetaVariant::Any without ANY_TYPE_SUPPORT"]}
{"id": "C88", "title": "Names and values in messages are shown as they are", "statement": "A byte string printed in an error message or as a namespace shows printable text exactly as it is, never contains a control character, and two different byte strings are printed differently.", "quantifier": "every byte string, valid UTF-8 or not", "why_tests_cant": "The bytes come from arbitrary documents; that no byte string breaks the line and no two are confused is a statement about all of them.", "anchors": ["xsd-parser-types/src/misc/raw_byte_str.rs: RawByteStr, format_utf8_slice", "xsd-parser-types/src/misc/namespace.rs: Display for Namespace"]}
{"id": "C89", "title": "The type of a field is the declared type", "statement": "The type that is generated for the field of an element means, in the module where it stands, the type of the element, in Mixed if the content is mixed and in Nillable if the element is nillable; text, wildcards and custom types get the configured types, whether types are imported or named by their path.", "quantifier": "every module, every type of the schema or of another crate, every configuration of the runtime types, with and without absolute paths", "why_tests_cant": "What a path means depends on the module it stands in and on the imports there; the combinations of modules, flags and names are unbounded.", "anchors": ["xsd-parser/src/models/data/path_data.rs: PathData", "xsd-parser/src/pipeline/generator/data/mod.rs: path_data_nillable, path_data_mixed, path_data_text", "xsd-parser/src/pipeline/generator/data/complex.rs: field types of elements and wildcards", "xsd-parser/src/pipeline/generator/mod.rs: custom types"]}
{"id": "C90", "title": "Sharing of namespace lists is invisible", "statement": "A change of a shared list of namespaces is never visible through another owner and never lost; two shared lists are equal exactly if their contents are, and equal lists have equal hashes whatever the order in which the maps are iterated.", "quantifier": "every history of clones, changes, drops, conversions and comparisons, every list, every iteration order of the hash map", "why_tests_cant": "Histories are unbounded and the iteration order of the hash map is random per run.", "anchors": ["xsd-parser-types/src/xml/namespaces.rs: NamespacesShared, Namespaces, Hash for Namespaces"]}
{"id": "C91", "title": "The configured names of crates are used", "statement": "Wherever generated code names an item of the crates alloc or xsd_parser_types, it names it by the configured name of this crate, and no other path is changed.", "quantifier": "every path, every pair of crate names, every module, with imports and with absolute paths", "why_tests_cant": "Paths, names of crates and flags can be combined arbitrarily; the tests render with the default names.", "anchors": ["xsd-parser/src/pipeline/renderer/context.rs: patch_using, resolve_build_in, resolve_ident_path, resolve_type_for_module, add_usings", "xsd-parser/src/pipeline/renderer/mod.rs: Renderer::alloc_crate, Renderer::xsd_parser_types", "xsd-parser/src/models/meta/type_.rs: BuildInMeta::as_absolute_path"]}
{"id": "C92", "title": "A missing attribute gets its default value", "statement": "If an attribute has a default, the generated default function compiles and returns exactly the value that reading the text of the default as a value of the attribute's type returns; a default that the type cannot read is reported as an error.", "quantifier": "every simple type (built-in types, enumerations, unions, references, lists, restrictions, nested arbitrarily), every text of the default, every typedef mode", "why_tests_cant": "Types nest arbitrarily and the text is free; the tests only have defaults of a few types.", "anchors": ["xsd-parser/src/pipeline/generator/context.rs: make_value_renderer", "xsd-parser/src/pipeline/renderer/steps/defaults.rs: DefaultsRenderStep", "xsd-parser/src/pipeline/generator/data/complex.rs: ComplexDataAttribute::new_field", "xsd-parser/src/pipeline/generator/data/reference.rs: ReferenceData::new"]}
{"id": "C93", "title": "Constants of enumerations are the values of the schema", "statement": "With ADVANCED_ENUMS the generated code has, for every value of an enumeration, a constant that is exactly this value, and the deserializer recognizes exactly the texts that mean one of the values; the code compiles and the generator does not panic.", "quantifier": "every text of every enumeration value, every built-in base type and restriction of it", "why_tests_cant": "Values are arbitrary texts that have to be escaped correctly; the test has four ASCII words.", "anchors": ["xsd-parser/src/pipeline/generator/data/enumeration.rs: make_variant, get_simple_enum_base_type", "xsd-parser/src/pipeline/renderer/steps/enum_const.rs: EnumConstantsRenderStep", "xsd-parser/src/pipeline/generator/context.rs: make_value_renderer", "xsd-parser/src/pipeline/renderer/steps/quick_xml/deserialize.rs: render_deserializer_variant_matcher"]}
{"id": "C94", "title": "Simple types generated for serde accept the texts of the schema", "statement": "The enums generated for serde can be derived, and a text is read as the value of an enumeration or of a union exactly if it is one in the schema; what is written for a value is read as the same value.", "quantifier": "every enumeration with any values and typed variants, every union, every text, all three flavours of generated serde code", "why_tests_cant": "Enumerations and texts are arbitrary; for unions the tests only compare the generated code and never read a document.", "anchors": ["xsd-parser/src/pipeline/renderer/steps/serde/quick_xml.rs: EnumerationDataVariant, UnionTypeVariant", "xsd-parser/src/pipeline/renderer/steps/serde/serde_xml_rs_v7.rs: EnumerationDataVariant, UnionTypeVariant", "xsd-parser/src/pipeline/renderer/steps/serde/serde_xml_rs_v8.rs: EnumerationDataVariant, UnionTypeVariant", "xsd-parser/src/config/optimizer.rs: OptimizerFlags::SERDE"]}
{"id": "C95", "title": "Qualified names in enumerations and defaults keep their meaning", "statement": "A value of an enumeration of `xs:QName`, or a default of this type, stands for the namespace and local name that it means in the schema: a document may write it with any prefix that is bound to the namespace, and no other name is accepted.", "quantifier": "every set of declared prefixes and default namespaces in the schema and in the document, every list of values, every text", "why_tests_cant": "The prefixes of schema and document are chosen independently; a test uses one choice, usually the same in both.", "anchors": ["xsd-parser/src/misc/qname.rs: default", "xsd-parser-types/src/xml/qname.rs: QName::from_helper, PartialEq", "xsd-parser/src/pipeline/renderer/steps/quick_xml/deserialize.rs: render_deserializer_variant_simple", "xsd-parser/src/pipeline/generator/data/enumeration.rs: namespaces"]}
{"id": "C96", "title": "Members with different names get different Rust names", "statement": "Different elements or attributes of a type get different fields, different values of an enumeration get different variants and different constants, and the names are the XML names in the style of Rust: snake case for fields, Pascal case for variants, screaming snake case for constants.", "quantifier": "every two XML names, written in any style (with separators, with capitals, in upper case), with the default naming", "why_tests_cant": "Names are arbitrary; tests use a few names, and whether two of them clash depends on the whole pair.", "anchors": ["xsd-parser/src/models/naming/mod.rs: unify_string, format_ident", "xsd-parser/src/models/naming/default.rs: format_field_name, format_variant_name, format_constant_name", "xsd-parser/src/pipeline/generator/data/enumeration.rs: make_variant"]}
{"id": "C97", "title": "The members of a generated type have different names", "statement": "The fields of each struct and the variants of each enum that are written for a complex type have pairwise different names, so that the generated code compiles: attributes, elements, the content and the texts of mixed types together.", "quantifier": "every complex type and group with any attributes, elements, display names and occurrences, all generator flags, every name of the content, the default naming and the explicit naming with any postfixes", "why_tests_cant": "Attributes and elements have separate name spaces in a schema and share one in the struct; whether they clash depends on all names, the flags and the shape of the type.", "anchors": ["xsd-parser/src/pipeline/generator/data/complex.rs: new_simple, new_enum, new_struct, new_text_before, new_content", "xsd-parser/src/pipeline/renderer/steps/types.rs: ComplexDataStruct::render_type", "xsd-parser/src/models/naming/explicit.rs: format_element_field_name, format_attribute_field_name"]}
{"id": "C98", "title": "The types written beside a type have names of their own", "statement": "For a type the generator may also write a type for its content, a trait, a serializer, a deserializer and their states. All items that are written into one module have different names, so that the generated code compiles, and so have those of the modules of the serializers and deserializers.", "quantifier": "every list of types of a module with any names, each with or without content, serializers and traits", "why_tests_cant": "Each helper name is made by appending a word to a name the schema chooses; a clash needs a second type whose name ends the same way, and there are unboundedly many names and pairs.", "anchors": ["xsd-parser/src/pipeline/generator/data/complex.rs: new_enum, new_struct, ComplexBase::new_empty", "xsd-parser/src/pipeline/generator/data/dynamic.rs: DynamicData::new", "xsd-parser/src/pipeline/renderer/context.rs: quick_xml_serialize, quick_xml_deserialize"]}
{"id": "C99", "title": "The configured parser loads what the configuration says", "statement": "Running the parser from a configuration loads every configured schema and everything reachable from it, each location once, asks the web for http and https addresses and the file system for files, and its result does not depend on the order in which the resolvers are listed. What the server refuses is reported as such.", "quantifier": "every configuration (resolvers, namespaces, schemas, flags), every web and file system, every graph of documents and every history of requests", "why_tests_cant": "Which resolver answers depends on every address that occurs in any document, and the documents reachable from a configuration are unbounded and may refer to one another in cycles.", "anchors": ["xsd-parser/src/lib.rs: exec_parser", "xsd-parser/src/config/parser.rs: ParserConfig, Resolver, Schema", "xsd-parser/src/pipeline/parser/resolver/web_resolver.rs: WebResolver::resolve", "xsd-parser/src/pipeline/parser/resolver/many_resolver.rs: ManyResolver"]}
{"id": "C100", "title": "Identifiers in the configuration denote the components they name", "statement": "An identifier in the configuration (namespace, schema, name and kind, or a text such as prefix:name) is resolved to the component of that name in that namespace: it is rejected exactly if the namespace is unknown, gets a schema that declares the element or type if there is one, and every type can be named.", "quantifier": "every set of schemas and namespaces, every identifier, every text, every identifier of the type information", "why_tests_cant": "The schema is searched in all documents of the namespace and its choice depends on how many there are, on their order and on all declared names; these are unbounded.", "anchors": ["xsd-parser/src/config/mod.rs: IdentQuadruple, IdentQuadruple::resolve, Schemas::resolve_schema, From<(IdentType, X)>, From<TypeIdent>"]}
{"id": "C101", "title": "The configuration selects the types that are generated", "statement": "What the generator is asked to generate is exactly what the configuration selects (all types, all types with a name, or a list of identifiers) without the types the user provides, each once; it fails exactly if an identifier of the configuration stands for no type.", "quantifier": "every set of schemas, every table of types, every cache of identifiers, every list of user defined types, every selection", "why_tests_cant": "Lists, tables and schemas are unbounded, and the same type may be selected and provided under different identifiers.", "anchors": ["xsd-parser/src/lib.rs: exec_generator, exec_generator_with_ident_cache", "xsd-parser/src/config/generator.rs: Generate", "xsd-parser/src/pipeline/generator/mod.rs: Generator::with_type, GeneratorFixed::generate_type, GeneratorFixed::generate_all_types, GeneratorFixed::generate_named_types"]}
{"id": "C102", "title": "Reading from a stream gives its events and needs memory for one event", "statement": "The reader for streams gives the events of the input one after the other, whatever was read before, and its buffer never holds more than the bytes of one event.", "quantifier": "every input, every number of calls, every way to decode the bytes of an event", "why_tests_cant": "The number of events is unbounded; how the buffer grows with it shows only for long inputs.", "anchors": ["xsd-parser-types/src/quick_xml/reader/io_reader.rs: IoReader, IoReader::new, XmlReaderSync::read_event"]}
{"id": "C103", "title": "Default values of custom types are the values the schema states", "statement": "If an attribute whose type is, or contains, one of the custom types the interpreter brings along (big integers, non-zero integers, binary data) is missing, the generated code uses the value that the default in the schema stands for; a default that stands for no value is rejected when the code is generated.", "quantifier": "every type made of built-in types, custom types, unions and references, every default value", "why_tests_cant": "The nesting of unions, the members and the texts are unbounded, and the failure appears only when the generated code reads a document without the attribute.", "anchors": ["xsd-parser/src/pipeline/interpreter/mod.rs: make_from_str_value_generator, Interpreter::with_num_big_int, Interpreter::with_nonzero_typedefs", "xsd-parser/src/pipeline/generator/context.rs: Context::make_value_renderer"]}
{"id": "C104", "title": "Types provided by the user are expected under their names", "statement": "The generated code refers to a type that the user provides by the name of the type in the module of its namespace, this is a valid path, and every type of the schema can be provided.", "quantifier": "every name, every namespace, every table of modules, every naming of modules", "why_tests_cant": "Names and tables are unbounded; the failure depends on the characters of the name.", "anchors": ["xsd-parser/src/pipeline/generator/mod.rs: Generator::with_type", "xsd-parser/src/traits/naming.rs: Naming::format_module"]}
