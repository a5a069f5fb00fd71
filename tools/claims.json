{
 "C01": {
  "status": "proved",
  "note": "Helper and quick-xml scope stack refined to a stack-of-scopes specification, for every event list."
 },
 "C02": {
  "status": "proved",
  "note": "For every element tree and every continuation; also that the element is rejected when any content is not allowed."
 },
 "C03": {
  "status": "partial",
  "note": "Terminates for every deserializer that ends at end of file, and every deserializer generated for a table of types without open content ends there (C03_generated_terminates), as do empty types. The full claim is false: xs:any elements, sequences and empty structs with open content do not end on truncated input (C03_element_diverges_on_truncated, C03_open_sequence_diverges_on_truncated, C03_open_struct_diverges_on_truncated)."
 },
 "C04": {
  "status": "proved",
  "note": "For every list of content events, for elements of simple types, for complex types with simple content and attributes, and for types without content."
 },
 "C05": {
  "status": "partial",
  "note": "Holds when the text has no two adjacent separators; otherwise false (witness), because the text is split at every blank."
 },
 "C06": {
  "status": "partial",
  "note": "finish_vec never rejects (finding), arrays enforce exactly N, finish_arr_default panics with more than N values (finding)."
 },
 "C07": {
  "status": "partial",
  "note": "Acceptance characterised for every attribute list and independent of order; attributes are matched by local name when their prefix is unbound or absent, so a foreign attribute can be taken for a declared one (C07_other_name_accepted)."
 },
 "C08": {
  "status": "proved",
  "note": "Over all strings."
 },
 "C09": {
  "status": "partial",
  "note": "For every struct type with xs:sequence content, every document with the children in order, the counts within bounds and no two particles competing for a child is read, each field getting its values in document order. Particles are elements and groups: choices, and sequences nested to any depth, optional or repeated (C09_nested_*: a nested sequence keeps its state until a foreign tag or the end tag comes, and its value is stored then). An element may be named again after one with a fixed count. Finding: a sequence with an absent optional dynamic element is rejected. Missing: xs:any and text particles, mixed content, a required group of optional elements without any of them."
 },
 "C10": {
  "status": "partial",
  "note": "Proved for children that never hand a tag back to the parent (all simple-content children): everything accepted is a sequence of children in order, upper bounds and single fields enforced. False in full: C10_list_minimum_not_enforced, C10_nesting_leak, C10_reference_ignored are counterexamples."
 },
 "C100": {
  "status": "partial",
  "note": "Namespaces, texts and the search for the schema are exact for every table. Not every type can be named: types with generated names cannot (C100_generated_names_lost), and of schemas with the same name only the first is found, in any namespace (C100_same_schema_name). Kinds other than elements and types are left open (schema 0) if the namespace has several schemas, as C100_undeclared says."
 },
 "C101": {
  "status": "partial",
  "note": "The queue holds exactly the selected types that are not provided by the user, each once (C101_selected), and the selection succeeds exactly if the schemas resolve the listed identifiers to types (C101_succeeds_partial); declared elements and types can be listed by their names (C101_declared_listed). Finding: the cache of identifiers is not asked for the listed types, so that a global attribute in a namespace with several documents cannot be listed by its name alone (C101_cache_not_asked). The resolution of identifiers is C100, the types reached from the selected ones are C50."
 },
 "C102": {
  "status": "partial",
  "note": "The events do not depend on what was read before (C102_events_partial). Finding: the bound on the memory is false, the buffer is never cleared and keeps all bytes read so far (C102_buffer_keeps_everything, C102_buffer_unbounded). Trusted: quick_xml's read_event_into appends to the buffer it is given and does not clear it, as its documentation says; quick_xml itself is not part of the repository. Errors of the reader and the asynchronous variant (same buffer) are not modelled here."
 },
 "C103": {
  "status": "partial",
  "note": "The generated function never returns a wrong value (C103_no_wrong_value), the generator rejects only texts that stand for no value (C103_rejected), and both agree if the custom types accept the text (C103_value_partial). Findings: the text is not checked when the code is generated (C103_not_checked), and in a union a custom type takes defaults that are valid for a later member only, so that the generated code panics on a valid document (C103_union_panics; for example xs:integer as BigInt and xs:string with the default auto). The other types are C92; custom types of the user are not modelled."
 },
 "C104": {
  "status": "partial",
  "note": "A type whose name is a Rust identifier is expected under it in the module of its namespace (C104_path_partial), and two types at the same place exactly if names and modules agree (C104_same_place). Findings: names with other characters make the generator panic (C104_panics), and keywords are kept (C104_keyword_kept). Trusted: Ident::new of proc_macro2 panics for texts that are not made of the characters of an identifier and accepts keywords."
 },
 "C11": {
  "status": "partial",
  "note": "For every list of fields (elements, and groups or substitution groups behind them) any order of the children within the bounds is read exactly, permutations give the same value; accepted documents with simple-content fields are exactly such contents, duplicates and missing required elements are rejected. False: bounds of repeated elements (C11_maximum_not_enforced) and two substitution groups in one xs:all (C11_second_dynamic_unreachable). Text, any and mixed content in xs:all not modelled."
 },
 "C12": {
  "status": "partial",
  "note": "For every generated enum whose alternatives are elements or groups (C12_nested_*: sequences and choices, nested to any depth): children of one alternative give the variant of the first alternative with that name, or of the first group that takes them; children of two alternatives, two children of a single alternative and missing content are rejected (alternatives that are elements); a repeated choice or sequence gives its values in document order; dynamic types read the first derived type that matches. Findings: bounds of repeated alternatives and repeated choices are not enforced, a skipped element makes the generated code panic, a second dynamic alternative is never read. Missing: text and xs:any alternatives, mixed content, soundness for alternatives with nested content, repeated groups as alternatives."
 },
 "C13": {
  "status": "partial",
  "note": "Proved for every table of (possibly recursive) types: structs with attributes whose content is a sequence, xs:all, a repeated choice or a simple value, and enums that represent an element; sequences and choices may contain repeated or optional sequences and choices, to any depth; if a child can only belong to one particle, the simple values survive as text, and every prefix is declared. What is written is a document that the table describes, and it is read back as the same value. For each of the modes None, Local, Global and Dynamic a theorem gives conditions on the schema under which prefixes are declared. Missing: xs:any, mixed and nillable content, dynamic types. False for NamespaceSerialization::Local with names of other namespaces and with qualified attributes of the default namespace (three negations)."
 },
 "C14": {
  "status": "partial",
  "note": "Proved for every xs:any element tree, for simple contents, lists and options, Text, Mixed, Nillable with a value, dynamic types with a start tag, for generated structs and enums, and for whole documents of every table of types. False for nil elements, dynamic types with an empty tag and AnySimpleType (negations)."
 },
 "C15": {
  "status": "partial",
  "note": "Exact characterisation for every history; holds when every prefix is used for one namespace; two findings (shadowed prefix, repeated declaration)."
 },
 "C16": {
  "status": "proved",
  "note": "Over all strings and all chunkings."
 },
 "C17": {
  "status": "partial",
  "note": "Round trips proved; AnySimpleType hex decoding panics for odd length and accepts a plus sign (findings)."
 },
 "C18": {
  "status": "partial",
  "note": "Structure and (with one namespace per prefix) namespaces survive for content without references, PIs and comments. Findings: entity references are dropped, a shadowed prefix changes namespace."
 },
 "C19": {
  "status": "partial",
  "note": "Text before and after elements is attributed to the right element; Text, Mixed and Nillable round trips for any inner type that round trips; exact condition for nil. False for empty texts, Mixed at the root, repeated nil elements and unqualified nil attributes (negations)."
 },
 "C20": {
  "status": "partial",
  "note": "Equality is not transitive and the hash is inconsistent when resolved and unresolved names are mixed (findings)."
 },
 "C21": {
  "status": "proved",
  "note": "Over all operation histories."
 },
 "C22": {
  "status": "partial",
  "note": "Replace exact; collapse gives the Unicode-white-space tokens and is idempotent; digits sound, complete for canonical literals only. Findings: no-break spaces collapsed, 0.5/007/1.0/+5/.5 rejected."
 },
 "C23": {
  "status": "partial",
  "note": "Exact path for every event except errors raised at an end tag, which report the parent path (C23_end_tag_error_names_parent)."
 },
 "C24": {
  "status": "proved",
  "note": "Every session of builder calls over every (possibly cyclic) document graph with finitely many locations; the resolver and the documents are a parameter. Reachability is stated for resolvers that look at the requested and current location only."
 },
 "C25": {
  "status": "partial",
  "note": "Proved for every session, every order of the alternatives and every flag, unless an offered prefix looks like a generated one; then it is false (C25_generated_prefix_clashes)."
 },
 "C26": {
  "status": "partial",
  "note": "Proved for every session without a change of the resolver after a schema was added; false otherwise (C26_resolver_change_panics)."
 },
 "C27": {
  "status": "partial",
  "note": "Proved for the reference through which a document is first met; the statement is false for later references and for imports (three negations)."
 },
 "C28": {
  "status": "proved",
  "note": "For every history of announcements and insertions and every partially known identifier, for schemas announced with add_schema before use. C28_unannounced_schema_missed shows that the announcement is needed."
 },
 "C29": {
  "status": "proved",
  "note": "First match in the depth-first order of the visible schemas, what is visible, and the recorded dependencies, for every cache."
 },
 "C30": {
  "status": "proved",
  "note": "Ends; yields the first definition of each (kind, name) in depth-first order; every visible definition is covered once."
 },
 "C31": {
  "status": "partial",
  "note": "The list holds every listed component exactly once and after the components it strongly requires, errors only arise from cycles, and a cycle of strong dependencies between listed components is rejected. The order is proved to be computed under the assumption that no chain of lazy dependencies comes back to itself (C31_ends_partial); C31_circular_group_hangs shows that a group containing itself reached by such a chain makes the search run for ever, C31_error_names_other that the reported name need not lie on the cycle."
 },
 "C32": {
  "status": "partial",
  "note": "However elements, nested groups and wildcards are added, members have pairwise distinct identifiers, a clashing nested group gets a fresh identifier and only display names of others change; resolving conflicts is characterised exactly (C32_conflicts_exact). The names in the generated code are proved distinct for one namespace and names without underscores (C32_shown_distinct_partial); C32_any_clash, C32_renamed_clash, C32_prefix_clash show clashes between generated and chosen names, C32_group_then_element_panics a panic, C32_many_clashes_overflow an arithmetic overflow when a group is used 32 times in one list."
 },
 "C33": {
  "status": "proved",
  "note": "Exact characterisation for every table, loops and dangling references included. C33_loop_not_idempotent shows that idempotence needs the absence of loops (A = B, B = A resolve to each other)."
 },
 "C34": {
  "status": "partial",
  "note": "Equality of types is exactly equality up to synonyms for comparable types, symmetric, transitive and compatible with the hash. Reflexivity is proved for types that contain no custom type and no text element (C34_reflexive_partial); for those it is false (C34_not_reflexive)."
 },
 "C35": {
  "status": "proved",
  "note": "For tables without typedef loops and undefined targets (Ok): termination with a quadratic bound, names kept, only references introduced, no equal definitions left, every name stands for a structurally equal type. C35_same_documents_partial adds that accepted documents are unchanged unless dynamic types with differently named derived types are merged; C35_different_substitutions_merged and C35_loop_never_ends show what happens outside the hypotheses."
 },
 "C36": {
  "status": "partial",
  "note": "No mention changes what it stands for, documents are unchanged, the pass is idempotent. That no mention of a plain typedef remains is proved for the mentions the pass rewrites (C36_no_typedef_mentioned_partial); bases of simple types, repeated references and derived-type keys keep theirs (C36_simple_base_kept)."
 },
 "C37": {
  "status": "partial",
  "note": "Flattening ends for every table without cyclic union membership, keeps the leaves in order, leaves no nested union; texts and the chosen member are kept when no union on the way has facets (NoFacets). False in general: self-containing unions never end, facets of nested unions are lost (both proved)."
 },
 "C38": {
  "status": "proved",
  "note": "For every table whose references are acyclic and closed (the pass resolves members through the typedef map, which ends only for those)."
 },
 "C39": {
  "status": "proved",
  "note": "Exact effect per entry, idempotence and effect on accepted documents for all three passes; the empty text is lost by the first pass (proved with a witness)."
 },
 "C40": {
  "status": "partial",
  "note": "Flattening one complex type and the whole pass never rejects an accepted document, for every nesting and all occurrence bounds, if the content group belongs to one type, names are distinct wherever the order is kept (Separate), nested choices are not empty and equally named wildcards agree; flattening ends unless a group contains itself. Without these conditions the property is false: C40_repeated_alternative_lost, C40_order_lost, C40_empty_content_lost, C40_cyclic_group_diverges."
 },
 "C41": {
  "status": "partial",
  "note": "Proved for whole tables in which no choice is shared and no type repeats both its choice and an alternative a limited number of times. False otherwise: counts are combined by maximum instead of product (witness), a shared choice loses its repetitions for the second type (witness), and a synonym as content panics (witness)."
 },
 "C42": {
  "status": "partial",
  "note": "Merging keeps exactly the selectable concrete types if no dynamic type is derived from itself and equal names list equal types (else negations: divergence); converting keeps selection by tag, xsi:type and default if no element and type of one dynamic type share a name (else negation: the second is lost)."
 },
 "C43": {
  "status": "partial",
  "note": "Addition exact; multiplication exact except 0 times unbounded (finding)."
 },
 "C44": {
  "status": "partial",
  "note": "Holds except for the reserved words async/await/dyn missing from the table and for names without any identifier character."
 },
 "C45": {
  "status": "partial",
  "note": "Unique for one base name; names of different base texts can collide (finding)."
 },
 "C46": {
  "status": "partial",
  "note": "Relative paths proved; display loses the absolute flag (finding)."
 },
 "C47": {
  "status": "partial",
  "note": "Exact for paths with at least two segments; single segment paths are dropped (finding)."
 },
 "C48": {
  "status": "partial",
  "note": "One write per module at distinct paths, except that a module named mod clashes with its parent (finding)."
 },
 "C49": {
  "status": "partial",
  "note": "Cycles whose way back to the last generated type breaks the order of generation at most once (this includes all cycles of up to three types with elements) and forced boxes. The full claim is false: C49_long_cycle_unboxed (four types) and C49_alias_cycle_unboxed."
 },
 "C50": {
  "status": "proved",
  "note": "Requests of every kind of type, cache, queue and traits; the rendering of values and custom generators are parameters. Several calls and types provided by the user are covered."
 },
 "C51": {
  "status": "partial",
  "note": "Proved: a once-occurring sequence extended by a once-occurring sequence without common elements, or by any choice/all, accepts exactly base then extension; an all base at least that; empty base; no particle. Refuted otherwise by C51_repeated_base, C51_optional_extension, C51_choice_merged, C51_choice_appended, C51_common_name, C51_empty_extension_widens."
 },
 "C52": {
  "status": "partial",
  "note": "Proved for choices (every alternative is still accepted). Refuted for sequences: a repeated element is lost and the last bounds win."
 },
 "C53": {
  "status": "proved",
  "note": "Unions: first member that accepts, error with all failures otherwise, round trip; enumerations: first literal, constants of the base type, last catch-all, else an error. Finding: the white space facet is not applied to the literals (C53_enum_whitespace_ignored)."
 },
 "C54": {
  "status": "partial",
  "note": "The search with its cache of running entries is proved to end on every table and to decide exactly the groups that can be constructed from nothing, in any order of queries; the default value of such a group exists and holds minOccurs values per field. With FLATTEN_ENUM_CONTENT a choice whose only alternative is an optional xs:any (or maxOccurs=0) is an exception: the generator panics (C54_any_choice_panics). Complex mixed types are not covered."
 },
 "C55": {
  "status": "partial",
  "note": "Ends, never panics, same alternatives and same documents proved when the alternatives of a union have different names and unions have no own facets. Without: C55_same_name_lost, C55_facets_lost, C55_self_union_never_ends, C55_literal_context_lost show that the property is false."
 },
 "C56": {
  "status": "partial",
  "note": "Exactly the restricted types are replaced, by the end of the chain; ends; accepts no less if restrictions narrow, no type contains itself and no simple type restricts a list. False for restricted lists (C56_restricted_list_lost) and self restrictions (C56_self_restriction_never_ends)."
 },
 "C57": {
  "status": "partial",
  "note": "simplify_mixed_types: for every visiting order, if content is named directly, sequences must occur and consist of single elements, alternatives of choices need not occur twice, and contents are not shared, no document (in which neighbouring texts are one) is lost; the pass never panics when content is not a synonym; only texts are added, the rest of the table is unchanged. False outside: synonym content panics, optional content / nested groups lose texts, shared content accepts texts in unmixed types, a text counts as an element of a choice."
 },
 "C58": {
  "status": "partial",
  "note": "Proved for every chain in which at most one step has patterns and repeated facets are at least as strict. False otherwise: patterns of several steps are alternatives, NaN passes every range, lengths of strings count bytes, lists with a pattern make the generator panic, facets on enumerations drop the values, own output with fraction digits may be rejected (all proved as counterexamples)."
 },
 "C59": {
  "status": "partial",
  "note": "Exact for every nesting of groups, group references and wildcards in which element names of a group are distinct and no nested group is empty; refuted without (C59_empty_alternative_lost, C52_*). Not covered: mixed content, simple content, substitution groups."
 },
 "C60": {
  "status": "partial",
  "note": "Exact if the restriction starts with the required members of the base in their order and with their types; refuted otherwise by C60_optional_reordered, C60_alternative_kept, C60_nested_group_doubled, C60_type_kept."
 },
 "C61": {
  "status": "partial",
  "note": "Nothing superfluous for any order; exact for the first type and for types without cycles; prefixes are declared under the condition that names of elements are covered by the types below. False in general: C61_foreign_element_undeclared, C61_cycle_incomplete."
 },
 "C62": {
  "status": "partial",
  "note": "What is collected is exactly what the types of the value use; every prefix resolves if elements are in the namespace of the type around them or of their own type. False for elements of simple type of another namespace, and the default namespace is not declared (two negations)."
 },
 "C63": {
  "status": "partial",
  "note": "Every type with finitely nested groups is processed; what the list of attributes contains is characterised exactly; it is the attribute uses of XML Schema when names, types and defaults of redeclared attributes agree, references are qualified and the attributes of a group have the same names in the schema of the type. False otherwise: redeclared types, fixed values, defaults of global attributes, references in schemas with unqualified attributes, attributes redeclared from another namespace, prohibited in extensions, wildcards of restricted types, attribute groups of other namespaces or forms (eleven negations)."
 },
 "C64": {
  "status": "partial",
  "note": "For every run: heads read exactly themselves (unless abstract) and all elements in their substitution group, each with its declared type; dynamic types have exactly the derived types; elements and types are processed without an error once what they depend on is processed; the final pass ends. Equal to XML Schema's rule if no member is abstract and the head does not block. False otherwise: abstract members and types are accepted, block is ignored, a member with two related heads is not recorded as direct. Types that are neither abstract nor marked as dynamic do not accept derived types at all."
 },
 "C65": {
  "status": "partial",
  "note": "Every series of calls: a dynamic type requested by a call (generate_all_types, generate_named_types, or generate_type before the types it holds) has its trait implemented by every type with code it holds; nothing else implements it; implemented traits exist; required traits are those of direct parents. False if the code of a held type is created before the dynamic type is discovered (generate_type of a type that uses both), and for held built-in types, which have no code."
 },
 "C66": {
  "status": "partial",
  "note": "Exactly characterised which derived type reads an element; by tag, by xsi:type and by default under distinct local names; what is chosen reads the element; any value written is read as a member of the same Rust type, if the prescribed name is that of the dynamic type. False if the element has another name than the type, if a value of the type itself has another element name, for an unprefixed attribute type, for derived types whose tag equals the prescribed name, for members with the same type, and xsi:type is stored with wildcard attributes or read as an attribute type without a namespace."
 },
 "C67": {
  "status": "partial",
  "note": "Elements correspond exactly to declarations; which tags are read is characterised; every declaration is read and written under its name if all documents are alike, references occur only where local elements are qualified, and declarations with the same local name in the same namespace agree. False in the other cases: references in schemas with unqualified elements and groups of other schemas get wrong names, unqualified elements are written below a default namespace, local and global elements of the same name are merged; and tags with other names are read."
 },
 "C68": {
  "status": "partial",
  "note": "C68_exec_optimizer is the full statement for exec_optimizer with every set of flags. For arbitrary histories of direct calls C68_maps_unnoticed_partial needs at most one use of the bases and no replacement of xs:anyType after the typedefs were used; C68_stale_bases and C68_stale_typedefs show that both are needed."
 },
 "C69": {
  "status": "partial",
  "note": "C69_accepts_no_less_partial: for all flags but seven, and every well-formed table; the result has no circular and no dangling synonym. C69_same_documents_partial: without the flags that use base types instead of restrictions, and for plain unions and enumerations, exactly the same documents are accepted. Missing: replace_xs_any_type, merge dynamic types, convert dynamic to choice, flatten complex types, merge enum unions, merge choice cardinalities, simplify mixed types (each has its own property); without the stated conditions the claim is false: C69_default_loses_empty_text, C69_default_loses_lists, C69_empty_enum_accepts_more."
 },
 "C70": {
  "status": "partial",
  "note": "Exact for xs:long, int, short, byte in elements (C70_signed_exact); unsigned types exact up to -0; xs:integer exact within 32 bits, the other unbounded types within the pointer width; every integer read is the one denoted; round trip; booleans and floats complete. False beyond: seven negations. FromStr/Display of Rust are modelled from documentation, values of floats and big integers are not modelled."
 },
 "C71": {
  "status": "partial",
  "note": "Proved from the type information on (C71_valid_document_read_partial): every document that is valid for a complex type of it is read by the generated deserializer, for every way to write it down and every finite nesting of sequences and choices in one another; and, composed with C69, every document that was valid before the optimizer (C71_optimized_document_read_partial). False for required choices with an optional alternative (C71_optional_alternative_rejected: three cases in which an element without content is valid and rejected); the theorems assume there are none (Filled). C71_option_can_be_missing: a field is an Option only if it can be missing. Missing: kinds of types that the tables of generated types do not have (mixed content, dynamic types, nillable elements, wildcards, nested xs:all, nested sequences without a required member), and documents whose elements have an xsi:type."
 },
 "C72": {
  "status": "partial",
  "note": "Exact for schemas of elements, complex types with at most one particle (any nesting), extensions of complex content (of empty content and of a sequence that occurs once, along chains of derivations), restrictions of groups of elements that start with the elements the base requires (of types without base and of other restrictions) and simple-content extensions; composed with the optimizer, the generator and the deserializer. C72_table_well_formed_partial: the table that is made has no dangling and no circular definition if the simple types have none, so the composed theorems ask nothing of the interpreted table. Missing: mixed content, other extensions (C51 shows why), other restrictions (C60 shows why), nillable/abstract/substitutable elements; simple types and attributes are taken as resolved; the restrictions of C69 and C71."
 },
 "C73": {
  "status": "proved",
  "note": "For every deserializer, serializer and schedule. Assumed of the readers and writers of quick_xml and tokio: the asynchronous variant delivers and takes the same events (SameReads, SameWrites); shown for SliceReader and kept by ErrorReader, whose asynchronous variant adds the path of elements twice. The translation of async fn to state machines by the compiler is trusted."
 },
 "C74": {
  "status": "proved",
  "note": "For every serializer that ends or fails, every schedule and every point. Assumed of the writer: it appends the text of an event, and a part of it while it is being written or if it fails (Appends)."
 },
 "C75": {
  "status": "proved",
  "note": "For every deserializer that uses the helper only for namespaces, every position in every well-nested document. C75_group_gets_next_scope shows that the statement is about elements: a group that is no element of its own is recorded with the scope of the event that ends it."
 },
 "C76": {
  "status": "proved",
  "note": "For every list of resolvers with state and every history of requests. Note: a missing file is an error of the file resolver, so fallbacks behind it are not asked (C76_missing_file_hides_fallback)."
 },
 "C77": {
  "status": "partial",
  "note": "Every document that the generated table describes, and every document that the serializers write, is valid for the type information (C77_described/written_document_valid_partial) and, through the optimizer and the interpreter, for the schema (C77_schema_document_described/written_partial). Missing: mixed and dynamic types, nillable elements, wildcards, nested xs:all, which the tables do not have. Finding: a required choice without alternatives is read from an empty element (C77_choice_without_alternatives_read)."
 },
 "C78": {
  "status": "partial",
  "note": "C78_steps_partial and C78_types_first_partial leave out EnumConstantsRenderStep used directly (it says it renders the types) and RenderStep::ContentHelpers added twice (not recognised); the property is false for both, see the findings. C78_quick_xml_complete holds without restriction."
 },
 "C79": {
  "status": "partial",
  "note": "C79_first_item, C79_none, C79_change and C79_methods hold without restriction. That the names differ (C79_names_distinct_partial) is false for a field that ends with _mut (C79_mut_clash), and is not shown for fields that differ in a final underscore only."
 },
 "C80": {
  "status": "partial",
  "note": "Not for mixed types with support for mixed types; findings: same local names in two namespaces (quick-xml, serde-xml-rs 0.7), attribute and element with the same name (0.7), name of mixed content, required lists and empty choices and lists."
 },
 "C81": {
  "status": "partial",
  "note": "False in general: C81_names_not_distinct and the three clashes before it. C81_default_same_iff and C81_explicit_same_iff say exactly which two entries of one kind clash, C81_explicit_type_element which type and element; C81_default_names_distinct_partial proves the property for tables whose formatted names differ and do not end like the postfixes do, without display names and anonymous lists; C81_namespace_modules, C81_schema_modules, C81_one_module and C81_display_name_resolves say what modules and display names separate."
 },
 "C82": {
  "status": "partial",
  "note": "C82_constants_defined holds always. C82_constants_stand_for_partial and C82_root_declarations need names that stay different in upper case and do not look like UNNAMED_n; the findings show that both can fail. C82_trait_agrees is for printable ASCII namespaces without a module name; C82_module_name_as_prefix and C82_trait_not_ascii show the other cases."
 },
 "C83": {
  "status": "proved",
  "note": "For every table; the text of the single values and errors of the formatter are left out. C83_members_shown says which facts about a type are among its lines."
 },
 "C84": {
  "status": "partial",
  "note": "Proved for every state reached by a run of the documents and every order of the hash sets, if no component of another namespace has to be replaced, for what can be seen by name from the document: complete redirection, copies, nothing else changes, termination, order irrelevant; and later components of the document refer to the new ones. Findings: references through anonymous components, of copied recursive components to themselves, of documents included later, of components hidden by the same name in an imported namespace and of other namespaces keep to the old component; recursive overrides refer to the overridden type; redefining an included component dangles."
 },
 "C85": {
  "status": "partial",
  "note": "If different anonymous components of a document get different generated names then each keeps its declaration through the whole run, also in copies. Findings: two groups with local elements of the same name, or names that coincide when put together, lose a declaration."
 },
 "C86": {
  "status": "partial",
  "note": "Round trip proved for all 44 types and unknown types; false in general: the namespace of xsi:type is ignored, booleans 1/0 are rejected, signs of unbounded integers are not checked, blanks at the ends of strings are lost, odd hexadecimal text panics. Floating point and big numbers are parameters."
 },
 "C87": {
  "status": "partial",
  "note": "Proved for choices (C87_open_choice_skips) and xs:all (C87_open_all_skips) at every position between two children, for types whose only content is xs:any, and for sequences before the first child and while the next child is required. What happens elsewhere in a sequence is characterised (C87_open_sequence_moves_on, C87_open_sequence_loses_rest): the optional fields up to the next required one are given up, so the full claim is false: declared elements after a foreign one are lost without an error (C87_open_sequence_loses_element, C87_open_sequence_loses_middle); a nested group without fields that allows any content swallows the declared element after it (C87_open_group_swallows_sibling). Not covered: children that are groups."
 },
 "C88": {
  "status": "partial",
  "note": "Exactness holds exactly for printable ASCII (C88_shown_exact_iff), so not for other text (C88_non_ascii_never_shown). No message contains an ASCII control character. Different byte strings differ only if they contain no backslash (C88_injective_partial); C88_ambiguous is the counterexample."
 },
 "C89": {
  "status": "partial",
  "note": "C89_element_type_partial leaves out elements that are both mixed and nillable: there the generated type is always wrong (C89_mixed_nillable_wrong). It also needs type names other than those of the imported runtime types (C89_name_captured) and runtime types given with a leading ::. C89_custom_type is for includes with a leading ::; C89_crate_path_broken shows crate:: includes with absolute paths. Boxes and containers around the type are not modelled."
 },
 "C90": {
  "status": "proved",
  "note": "Arc and HashMap are those of the standard library: a cell with the number of its owners, and a map that is iterated in any order. Weak references and threads are not modelled."
 },
 "C91": {
  "status": "partial",
  "note": "C91_patch_exact holds for all paths of plain identifiers. The paths written by the render steps and imported types of fields use the configured names (C91_paths_renamed, C91_imported_types_renamed; the crates must not be called like each other). False for the types of fields with absolute paths (C91_absolute_types_not_renamed) and for String with alloc (C91_string_of_std)."
 },
 "C92": {
  "status": "partial",
  "note": "Proved for types without lists, new types for references, white space facets and (in unions and enumerations) facets or typed variants before the last one; the rest is refuted by eight findings: defaults of lists are rejected, with TypedefMode::NewType or Typedef the code does not compile, white space is kept, another member or variant than the one that is read, INF and NaN panic."
 },
 "C93": {
  "status": "partial",
  "note": "Patterns are exact for all texts; constants for ASCII values of texts and integers, and for finite numbers. Findings: values outside of ASCII and INF/NaN make the generator panic, enumerations of restricted integer types do not compile, integers are compared as texts. Custom base types (QName) are not modelled."
 },
 "C94": {
  "status": "partial",
  "note": "Proved for enumerations without typed variants. Findings: typed variants (made by merge_enum_unions, which OptimizerFlags::SERDE asks for) give code that serde refuses, or that never catches anything (serde-xml-rs 0.8); no text is ever read as a union."
 },
 "C95": {
  "status": "partial",
  "note": "Proved for values with a declared prefix and texts that mean a name, with any bindings in schema and document. False for values without prefix: the default namespace of the schema is dropped, so the same name with a prefix is refused and the same text in any other namespace is accepted; an undeclared prefix is accepted if the texts are equal."
 },
 "C96": {
  "status": "partial",
  "note": "For names of words with at least two letters, in any style, with or without a number at the end: the exact names, and two members get the same name exactly if they consist of the same words and the same number. So it is false for the same words in two styles (fooBar and foo-bar), for words of one letter (a_b and ab: one field, one constant) and for several numbers (level-1.11 and level-11.1). Numbers before words and characters outside ASCII are not covered by the positive theorems; the conversions of Inflector are trusted."
 },
 "C97": {
  "status": "partial",
  "note": "Proved for names of words (C96) if all attributes, elements, content and texts differ in their words; with a postfix for attributes it is enough that attributes and elements differ among themselves. False with the default naming for an attribute and an element of the same name (legal in a schema), for an attribute called content, and for an element called textBefore in a mixed type. Display names decide alone (C97_display_names)."
 },
 "C98": {
  "status": "partial",
  "note": "Exact condition proved for all names of types (C98_items_distinct_iff_partial) and, without any further condition, for serializers and deserializers (C98_helpers_distinct); that types never meet names of contents and traits is false: C98_content_clash, C98_trait_clash. Types of serde-xml-rs 0.8 are left out."
 },
 "C99": {
  "status": "partial",
  "note": "Loading, order of the resolvers and who answers are proved for every configuration, assuming of the crate url that http and https addresses are not paths of files. That refusals of the server are reported is false: the status is not looked at (C99_status_ignored). Prefixes with the restriction of C25. Names of schemas and the debug output are left out."
 }
}
