# Formal model of Bergmann89/xsd-parser in Lean 4

## 1. What is verified

`/repo` contains two crates:

* `xsd-parser-types` – the run-time library linked into generated code (events in, values out, and back);
* `xsd-parser` – the compiler from XML Schema to Rust (parser → interpreter → optimizer → generator → renderer).

The model in `lean/Verif/` is written by hand from the Rust text, function by function. Every definition has a comment
with the file and lines it models and what was simplified. Properties are listed in `properties.jsonl`; the theorem
that states each is named in `MANIFEST.json`.

Layout: each module under `lean/Verif/` has a section with the transliterated code ("Model"), an independent
specification where one is needed ("Specification"), lemmas, and the property theorems (prefix `Cnn_`) with a non-vacuity
`example` beside each. `Runtime/` is the crate `xsd-parser-types`, `Gen/` the generated code, `Parser/`, `Models/`,
`Interp/`, `Opt/`, `Generate/`, `Code/` and `Naming/` the stages of the compiler, `Meta/` its type information with the
meaning of types (`Meta/Valid.lean`), `Util/` general lemmas.

## 2. Modelling conventions

* Rust `panic!`/`unreachable!`/index out of range → an explicit `panic` result constructor.
* `Result` → `Except`/inductive results; error payloads are reduced to what the property needs.
* `&mut self` → the new state is returned.
* Loops → structural recursion or folds. Loops whose termination is in question → fuel (`Nat`) with a theorem that
  the result does not depend on sufficient fuel, or that no fuel suffices.
* Hash/BTree maps → association lists with proved lookup/update laws; iteration order is explicit where it matters.
* Byte strings and `str` → `List Char`, `List Nat` or an abstract type when only equality matters.
* External crates (quick-xml reader/writer, `fmt`, `num`, `regex`, `url`, `inflector`, `proc_macro2`) are not modelled
  unless stated; their assumed behaviour is a parameter or a definition listed in section 5.

## 3. Plan per property

| id | modelled | proof method |
|----|----------|--------------|
| C01 | helper state (level, lazily cached namespace stack, pending pop) + quick-xml resolver bindings | invariant by induction over the event list; refinement to a stack-of-scopes spec |
| C02 | `handle_skip`, `handle_event` leftover logic | induction over element trees (mutual) with arbitrary continuation |
| C03 | driver loop over a stream with repeated Eof | termination measure when the deserializer does not set `allow_any` at Eof; negation by witness otherwise (`_partial`); for generated types, the invariant `GDe.Ends` (what a deserializer returns at the end of the file and at end tags) by induction over the nesting of the tables, so that every table terminates |
| C04 | `ContentDeserializer` | induction over event list |
| C05 | `deserialize_list`/`_arr` and list serializer | tokeniser spec, induction; the code splits at single blanks: negation + `_partial` |
| C06 | `finish_*` | direct; `finish_vec` check is ineffective: negation + `_partial` |
| C07 | attribute loop | permutation invariance, iff characterisation |
| C08 | bool table | direct, over all strings |
| C09 | generated sequence state machine as a combinator over child deserializers | contract on children, induction on fields, on occurrence lists and on type depth |
| C10 | same | iff for simple-content children; nesting leak and lenient min as negations |
| C11 | generated `all` machine | induction over children, permutation argument |
| C12 | generated choice machine | induction |
| C13 | generated struct serializer + C09 | structural induction over values |
| C14 | serializer event streams with scope state | induction over values; leaks as negations |
| C15 | `SerializeHelper` | invariant over scope histories; shadowing negation |
| C16 | escape/unescape of text | induction over strings |
| C17 | hex, base64 | induction over bytes, table lemmas |
| C18 | Element (de)serializer | mutual induction over trees |
| C19 | Text, Mixed, Nillable | as C18 |
| C20 | QName Eq/Hash | direct; negation |
| C21 | Attributes | induction over operation histories |
| C22 | facets | induction over strings |
| C23 | `ErrorInfo::update` | induction over events |
| C24 | parser work list | measure + invariant |
| C25 | `determine_prefixes` | invariant |
| C26 | schema ids | invariant; `with_resolver` negation |
| C27 | target namespace of included schemas | direct; negation |
| C28 | IdentCache.resolve | iff, over all insertion histories |
| C29 | `resolve_for_schema` | DFS soundness/completeness w.r.t. reachability |
| C30 | SchemaSetIter | as C29 |
| C31 | node list DFS | topological order, exactly-once, cycle error |
| C32 | naming of members | invariant; third-clash negation |
| C33 | `get_resolved` | pigeonhole termination; iff cycle |
| C34 | type_eq/type_hash | direct; non-reflexivity negation |
| C35 | remove_duplicates | fixpoint measure; semantics preservation |
| C36 | resolve_typedefs | refinement |
| C37 | flatten_unions | induction on nesting depth |
| C38 | duplicate union variants | induction |
| C39 | empty enum/union passes | direct |
| C40 | flatten complex types | language inclusion |
| C41 | merge choice cardinality | language inclusion; negation |
| C42 | dynamic types | reachability |
| C43 | occurs arithmetic | set semantics |
| C44 | format_ident | over all strings; missing keywords negation |
| C45 | NameBuilder ids | invariant over histories |
| C46 | IdentPath | induction over paths |
| C47 | usings | induction over tries |
| C48 | write_to_files | induction over trees |
| C49 | boxing | graph argument; negation for length ≥ 4 |
| C50 | generator work list | closure invariant |
| C51 | extension content | language inclusion |
| C52 | repeated elements | language inclusion; negation |
| C53 | union/enum deserializers | induction over members |
| C54 | defaultable analysis | soundness by fuel induction |
| C55 | merge_enum_unions | the set of alternatives of a type is invariant; simulation of derivations; termination by rank |
| C56 | base map, use_unrestricted_base_type | chain of restrictions; induction on document size and rank of the type |
| C57 | simplify_mixed_types | simulation of derivations; counterexamples for shared and nested content |
| C58 | facets in the interpreter and the generated checks | each check characterised; fold over the facets with an invariant per kind of facet; counterexamples for patterns, lengths, lists, enumerations |
| C59 | interpretation of nested particles (`Part`), with the cache of group references | languages of particles as specification; mutual induction over particles with an invariant on the table and the cache |
| C60 | copying and filtering the base, then updating it | language equality under conditions; negations |
| C61 | the collector of namespaces with its cache and its states | the namespaces that are found = those that reachable types ask for; invariant on the cache during the search; negations for cycles and foreign names |
| C62 | the namespaces a serializer declares in each mode and the collection of namespaces over values | what is collected = the namespaces of the types of the parts of the value, by induction over the value; round trip for each mode from the general one of C13; negations for foreign simple elements and the default namespace |
| C63 | the collection of attributes from declarations, attribute groups and base types | the code as a fold over the flat list of declarations (groups replaced by content, base first), invariant by induction; compared with the attribute uses of XML Schema, an inductive specification; negations for each way they differ |
| C64 | processing of global elements and complex types, and the pass over the derived types at the end | entries of the table as an invariant over every run (any order of processing); the pass changes only lists of derived types, so names resolve the same before and after; compared with XML Schema's rule for substitution; negations for abstract members, `block` and the recorded relation |
| C65 | the traits collected with the requests of types, and the implementations written for each type | invariant over the worklist: the collected traits are exactly the dynamic types requested so far that hold the type, and only grow; a type whose code is created later implements them; negations for a type that is created before the dynamic type is discovered, and for built-in types |
| C66 | the generated `init` of a dynamic type: comparison of tag, `xsi:type` and default with the names of the derived types; the chain of type tests of the serializer, and `XsiTypeSerializer` around it | the selection is characterised exactly; round trip for any inner serializer: the first tag written is selected as a member with the same type; the attribute loop commutes with the rewritten tag; negations for element names other than the type name, unprefixed `type`, equal tags, equal types |
| C67 | interpretation of element declarations in nested content with references to groups, the tag written for an element and the test of a tag | mutual induction over content models: elements correspond to declarations; the test is characterised exactly; under regularity of the schemas tags denote the names of XML Schema; negations for references in schemas with unqualified elements, default namespaces, groups of other schemas, merged elements |
| C68 | the optimizer as a state of types and two maps, all passes as steps on it, the order of exec_optimizer | invariant over histories: the map of the typedefs leads to the same ends as the types (fuel adequacy by pigeonhole); negations for repeated use of the bases and for xs:anyType replaced after the typedefs were used |
| C69 | the pipeline of C68, document validity of C34 | well-formedness invariant kept by each pass (no loops through references, members and bases; all targets defined), acceptance composed pass by pass; negations for the default flags: an empty enumeration literal and restricted lists are lost; for the passes that are not meant to widen, both directions, with unions whose members are simple types as an invariant |
| C70 | the typedef tables and their order, integer parsing of Rust with checked steps, the grammar of floats, trimming | accumulation by induction on the digits against the value of the literal; negations for -0, large integers, 0 as positive, positive as negative, white space in attributes and strings, additional float literals |
| C71 | a table of generated types, the documents it describes as an inductive relation, the generated deserializers of the table; the construction of the data of the generated types from the type information and of the table from those; the documents valid for the type information and the ways to write them down | induction on the document, composing the per-content theorems of C02, C04, C05 and C13; induction on the derivation of validity, putting the children of every group into the fields of the generated type; composition with C69 |
| C72 | the components of a schema and how each adds a type to the table; the documents a schema describes, as the least meaning closed under one rule per kind of component | the table and the schema agree by induction on the document; then C69 and C71 are composed; the table is well-formed by an invariant of the interpreter: no type but an element stands on a name that is not defined yet, and nothing stands on the copy that an extension is still changing |
| C73 | the loops of both variants, the task as a state machine with one suspension point, readers and writers as parameters with an agreement condition | simulation: invariant between the pending future and the reader it was created from; induction over the synchronous run for progress |
| C74 | the writing loops as steps, the output with the text written so far | invariant over all reachable states of the task |
| C75 | the wrapper over an arbitrary deserializer, on top of the helper of C01 | the helper's invariant carried through any sequence of calls; positions after the events of a tree by structural induction; transparency by induction over the events |
| C76 | resolvers as functions with state, the list of boxed resolvers, the file resolver over an abstract file system and URL library | induction over the list, against a relational specification (iff) |
| C77 | the table of generated types of C71, the serializers of C13, validity of C60 | induction over the description of documents (`Doc`): every child is an occurrence of its particle; rearrangement for `xs:all`; converse of C71; composed with C69 (both directions) and C72: what is written is valid for the schema |
| C78 | the list of steps, `is_mutual_exclusive_to` arm by arm, `retain` with its index and position, the quick-xml helpers; a `RenderStepConfig` written by the user with its own `is_mutual_exclusive_to` is not modelled | induction over the history from the end: `with_render_step` appends the step or puts it in the place of the first one it replaces; being taken for the same is having the same purpose |
| C79 | the rendered methods and what they do on a list of items; the names of fields are given (C44) | induction over the items and over the alternatives |
| C80 | serde names and defaults of the members that `newComplex` (C71) gives; not what serde does with them | case analysis over the shapes of the struct, induction over elements and attributes; tag names are injective |
| C81 | module and name of the generated type of an entry, for the default naming and `ExplicitNaming`; `format_type_name` is a parameter | characterisation of the pairs that clash, suffix arithmetic; the clashes as theorems |
| C82 | names and values of the constants, the values of the trait; `to_screaming_snake_case` is a parameter | membership of the list of constants, injectivity of decimal numbers; tied to the declarations of C61 |
| C83 | the text as a list of lines with the values they show; how a value is written is left out | the types being printed grow, so the depth is bounded; balance of the levels; ways through the table that avoid what is being printed |
| C84 | the syntax of a component as the list of references, groups and anonymous components that the code meets; the hash sets as a relation that allows every order | invariant: which components are done, what the entries of the document look like, nothing else changes; every state of the whole run meets the conditions; counterexamples are runs of the model |
| C85 | the run of the node cache (C84) with the names of the name builder | a table from generated names to declarations that all states of the run agree with; counterexamples are runs of the model |
| C86 | the values, the table of names used for reading and the one for writing, the reader of contents (C04), the start tag (C14); floating point and big numbers as parameters | case distinction over the types, C16, C17 and C70 for the texts, induction over the words of a list; counterexamples are evaluated |
| C87 | structs without fields (`EmptyTy`) and sequences with `allowAny` under the driver | induction over the remaining fields for the state after the foreign element, induction over the trees for what is skipped (C02); counterexamples are evaluated, and the loss is proved for all continuations |
| C88 | `printBytes` byte by byte, `shown` for texts via UTF-8 | induction over the bytes; an inverse of the printer for byte strings without backslash; counterexamples for backslash and non-ASCII text |
| C89 | `PathData`, the wrapping functions and the rendering of paths of C46; a separate meaning of paths in a module with imports | case analysis over the flags, with C46 for relative paths and for parsing; the findings are proved for all configurations |
| C90 | a heap of cells with owner counts and copy on write; the input of the hasher for an arbitrary order of the entries | refinement to a store in which every handle has its own list, by an invariant on the counts; uniqueness of sorted permutations for the hash |
| C91 | `patch_using_impl` on texts, its callers, and the types of fields of C89 | renaming of the first part of a path as specification; the text function is proved to do exactly this, idempotence for the paths that are patched twice; findings for all names |
| C92 | `make_value_renderer` as a function from types and texts to expressions, the generated types as trees, `DeserializeBytes` of these types from C53/C58/C05/C70 | an evaluation of expressions at a type (`none`: does not compile); mutual induction over types, members and variants; findings with witnesses or for all types. Trusted: `Literal::f64_suffixed` of proc_macro2 panics for infinite numbers |
| C93 | `make_variant`, the modes Literal and Constant of `make_value_renderer`, the constants and patterns as texts | decoding of Rust literals from the Rust Reference as specification, induction over the bytes; UTF-8 from C88. Trusted: the text of `Literal::byte_string` of proc_macro2 |
| C94 | the attributes of the variants for the three flavours | the rules of serde for `rename`, `other` and externally tagged enums as specification (from its manual; trusted); lists of variants; findings for all enumerations and unions |
| C95 | the constants, the reading of names and the comparisons | meaning of a text under bindings as specification (XML Schema part 2, 3.2.18); bindings as functions; uniqueness of the meaning, then the first equal constant; findings for all names and bindings |
| C96 | the naming functions with the conversions of the crate Inflector (0.11, from its published code; trusted, compared with 2311 names of the expected outputs) | names as lists of words with all ways to write them as specification; invariants of the two loops; unique reading of the result; names that end in numbers in `Naming/Numbers.lean`, with the same induction and the digits split off |
| C97 | the lists of fields and variants of the generated types, for every shape | words of names as in C96; each list is the image of a part of a list of different words under an injective function; findings for all names |
| C98 | the names written for each type of a module | last characters of the suffixes differ, equal suffixes cancel; exact condition for the module itself, no condition for the serializer modules; findings for all names |
| C99 | exec_parser on the models of C24-C27 and C76, and WebResolver | answers of the combined resolvers by induction over the list and the history, refined to a case distinction on the address; loading by C24 for the calls that the run makes; `url`, `reqwest` and the file system are parameters; assumed: http(s) addresses are not paths of files |
| C100 | the resolution and the conversions, with tables as finite maps | declarations and the meaning of namespaces as specification; first match of the search; findings for all tables |
| C101 | user defined types and the three selections as loops over the known and the queued identifiers, with the cache of identifiers as a parameter | what is asked and what is provided as specification; what a sequence of requests leads to, by induction; finding for all inputs |
| C102 | the reader with its buffer, quick_xml's read_event_into as an external function that appends to the buffer | induction on the number of calls; findings for all inputs |
| C103 | the generator of the expression, with the FromStr of each type as a parameter, and the evaluation of the expression with the panic as a value | reading a text as specification; mutual induction on types and lists of members; findings for all inputs |
| C104 | the path of the fixed reference, with the panic of format_ident as a value and the formatting of module names as a parameter | identifiers of C44 and the module of a namespace as specification; case analysis; findings for all tables |

## 4. Findings (properties that are false of the code)

Each is proved as a negation with a concrete witness (or as a characterisation that contradicts the property); the part
that does hold is a `_partial` theorem. They are theorems about the model: nothing was run, so each is a claim about the
Rust text as transliterated, to be confirmed by a test.

<!-- findings -->
* `C03_open_struct_diverges_on_truncated` – Finding**: the same types on a truncated document, that is, without the end tag: however often the end of the file is reported, the driver asks for the next event.
* `C03_open_sequence_diverges_on_truncated` – A struct with a sequence that contains `xs:any`, generated without a type for the wildcard: once its last element has been read, the end of the file does not end the reading. The driver asks for the next event again and again.
* `C03_open_sequence_truncated_document` – Finding**, from the start of the document: `<r><a></a>` and no more.
* `C03_open_all_diverges_on_truncated` – Finding**, for `xs:all`: between two children a truncated document is never ended.
* `C03_open_choice_diverges_on_truncated` – Finding**, for choices: between two values a truncated document is never ended.
* `C03_element_diverges_on_truncated` – For wildcard elements: on every document that stops inside the root element (or is empty) reading an `Element` never returns, however often the reader reports the end of the file.
* `C05_adjacent_separators_wrong` – In general: two blanks between two items are read as *three* items, the middle one empty.
* `C06_finish_vec_never_rejects` – For lists: with sensible bounds (`min ≤ max`) nothing is ever rejected, however few or many values there are (the check uses `&&` instead of `||`).
* `C06_bounds_not_enforced` – Refutation with a concrete case: zero values for bounds 1..2 and three values for bounds 1..2 are both accepted.
* `C06_array_default_panics` – Here too: more than `N` values make `finish_arr_default` panic.
* `C07_other_name_accepted` – Of attributes in a foreign namespace: `x:id` is taken for the undeclared-namespace attribute `id`, so that a tag with both is rejected as a duplicate; and the unprefixed `lang` is taken for the declared `xml:lang`-like attribute of a namespace.
* `C09_optional_dynamic_rejected` – An absent optional dynamic element: the valid document `<r><b/></r>` is rejected, since the dynamic type does not hand on the tag it does not know.
* `C10_list_minimum_not_enforced` – The lower bound of a repeated element is not enforced at the end of the content: `<r><b/></r>` and `<r></r>` are accepted for `b{2..3}`.
* `C10_reference_ignored` – Entity references between the children are silently dropped: `<r>&amp;<a/></r>` is accepted for element-only content.
* `C10_nesting_leak` – Nesting is not enforced: for `foo = seq(k, s)` with `k = seq(m)`, the document `<f><k><m/><s/></k></f>`, where `s` stands *inside* of `k`, is accepted and gives the same value as the valid document `<f><k><m/></k><s/></f>`; the deserializer stops at the end tag of `k` and does not even read the one of `f`.
* `C11_maximum_not_enforced` – The bounds of a repeated element in `xs:all` are not enforced: four, one and no elements are accepted for `b{2..3}`.
* `C11_second_dynamic_unreachable` – In an `xs:all` with two substitution groups no document is read: the second group never sees a tag, since the first one does not hand it on.
* `C12_maximum_not_enforced` – The upper bound of a repeated alternative is not enforced: `<r><b/><b/><b/></r>` is accepted for `b{1..2}`.
* `C12_repeated_bounds_not_enforced` – The bounds of a repeated choice are not enforced: four children and no children are accepted for `choice(…){1..3}`.
* `C12_skip_panics` – An element `<x/>` after the child of an alternative whose type allows arbitrary elements: the deserializer is left in the state `Unknown__`, the driver skips the element, and the next event makes the generated code panic (`unreachable!`). Without `<x/>` the document is read.
* `C12_second_dynamic_unreachable` – In a choice of two dynamic alternatives the second one is never read: the valid document `<r><b/></r>` is rejected, `<r><a/></r>` is accepted.
* `C13_local_foreign_type_unreadable` – Fails** for `NamespaceSerialization::Local` when an element of another namespace has a type of the own namespace (`<xs:element name="x" type="a:t"/>` in the schema of `urn:b`): the type declares the prefix of the element for its own namespace, and the deserializer rejects the document.
* `C13_local_attribute_unreadable` – Fails** for `NamespaceSerialization::Local` with a default namespace when a type has a qualified attribute of that namespace: the tag declares the default namespace, which does not apply to attributes, and the prefix of the attribute is not declared.
* `C13_local_mode_unreadable` – Fails** for `NamespaceSerialization::Local` when a child of simple type belongs to another namespace: the value is written without an error, its prefix is not declared anywhere, and the deserializer of the same type rejects the document.
* `C14_nil_leaks_scope` – For `Nillable<T>` without a value: the declaration of `xsi` that was written on the nil element is still believed to be in force after it. Of two nil elements in a row, the second one uses the prefix `xsi` although nothing declares it there.
* `C14_xsi_empty_leaks_scope` – For dynamic types with an empty element: whatever the wrapped serializer and the helper, if it writes an empty tag, one scope too many stays open.
* `C14_any_simple_type_leaks_scope` – For `AnySimpleType`: every value is written well-nested, but one scope too many stays open, whatever the value.
* `C15_shadowed_prefix` – In general (1): a prefix that was re-bound on an inner element is believed to be still bound to the outer namespace. `<a xmlns:p="1"><b xmlns:p="2"><c>`: asking for `p → 1` on `c` writes nothing, but a reader resolves `p` to `2`.
* `C15_declared_twice` – In general (2): with two prefixes for one namespace a start tag gets the same declaration twice, which is not well-formed XML.
* `C17_any_hex_panics_and_accepts_sign` – For `AnySimpleType`: the text `F` panics and the text `+F`, which is not hexadecimal, is read as the byte 15.
* `C17_any_hex_odd_panics` – Every text of odd length whose pairs are valid makes the decoder panic.
* `C18_namespace_changed` – In general (1): in `<r xmlns:p="1"><c xmlns:p="2"><p:g xmlns:p="1"/></c></r>` the element `p:g` is in namespace `1`; after reading and writing it is in namespace `2`.
* `C18_references_lost` – In general (2): a reference in the text is lost. `<a>x&lt;y</a>` is written as `<a>xy</a>`.
* `C19_mixed_empty_text_lost` – For `Mixed<T>` with an empty text after the value: it is written and read back as no text, whatever the value.
* `C19_mixed_root_rejected` – For `Mixed<T>` as the type of the document element: whatever is read as a value of `T`, and whatever text, comments, … follow it, at the end of the document no value is returned, however often the end is reported.
* `C19_unqualified_nil` – For attributes called `nil` that are not `xsi:nil`: whatever `T` is and whatever namespaces are in scope, an element with an attribute `nil="true"` without a prefix is read as nil, and its value is lost.
* `C19_second_nil_lost` – For lists of nil elements: of two nil elements in a row below an element that does not declare `xsi`, the second one is read back as an empty string.
* `C20_not_transitive` – In general: two names with different namespaces are both equal to the unresolved name with the same text, so equality is not transitive.
* `C20_hash_inconsistent` – In general: equal names can have different hashes.
* `C22_collapse_removes_no_break_space` – For other white space: a no-break space is not white space in XML, but it is replaced (`a&#xA0;b`) and trimmed.
* `C22_total_digits_rejects_valid` – For other literals: `0.5` has one digit, `007` has one, `1.0` has no fraction digit, `+5` and `.5` are decimals, but all are rejected.
* `C23_end_tag_error_names_parent` – Consequence: an error raised by an end tag (say a missing child) is reported with the path of the *parent*: the element it is about is no longer part of the path.
* `C25_generated_prefix_clashes` – When an offered prefix looks like a generated one: the second and the third namespace share the prefix `a_3`, and the lookup of `a_3` does not yield the third.
* `C26_resolver_change_panics` – When the resolver is changed after a schema was added: `finish` panics.
* `C27_second_include_ignored` – For a document without target namespace that is included by two schemas of different namespaces: only the first gets its definitions.
* `C27_mismatch_accepted` – For an included document of another namespace, if it was loaded before: it is not rejected.
* `C27_import_inherits` – For an imported document without target namespace: it takes the namespace of the importing schema.
* `C28_unannounced_schema_missed` – Without the announcement the exactness is lost: an identifier that was inserted is found by its name alone, but not by its name and namespace.
* `C31_circular_group_hangs` – A group that contains itself is not reported if a type that uses it comes first: the search recurses without end.
* `C31_error_names_other` – The error names the first component of the search, which need not be part of the cycle.
* `C32_any_clash` – An element called `any` and a wildcard get the same name.
* `C32_renamed_clash` – The display name given to the first use of a group can be the name of an element.
* `C32_prefix_clash` – The name with a prefix can be the name of another element, and two namespaces without prefix leave equal names as they are.
* `C32_group_then_element_panics` – An element with the name of a group that was used before it in the same list makes the interpreter panic; the other order is fine.
* `C32_many_clashes_overflow` – A group can be used 31 times in one list, and not 32 times: the number of the candidate overflows.
* `C33_loop_not_idempotent` – With a loop of synonyms, resolving is not idempotent: resolving `A` gives `B` and resolving `B` gives `A`, both of which are synonyms.
* `C34_not_reflexive` – A custom type, and a mixed sequence with one text element, are not equal to themselves.
* `C35_loop_never_ends` – Without the hypothesis that there are no typedef loops the pass need not terminate.
* `C35_different_substitutions_merged` – Two abstract elements with different substitutions are merged when the substituting elements have the same type: afterwards `b` is no longer accepted where `h2` is asked for.
* `C36_loop_never_ends` – With a loop of typedefs the recursion never ends, whatever the depth.
* `C36_simple_base_kept` – The base of a simple type stays a typedef.
* `C37_self_union_never_ends` – For a union that contains itself the recursion never ends (in Rust: a stack overflow).
* `C37_facets_lost` – The facets of a union that is a member of another union are lost: a text that violates them is accepted by the outer union afterwards.
* `C39_empty_text_lost` – The empty text is really lost.
* `C40_cyclic_group_diverges` – A group that contains itself is never flattened (the recursion does not stop).
* `C40_repeated_alternative_lost` – An element that is an alternative twice must occur twice after the flattening: `choice(a | choice(a))` becomes `choice(a{2,2})`, which rejects a single `a`.
* `C40_order_lost` – The order of elements with the same name is lost: `sequence(a, sequence(b, a))` becomes `sequence(a{2,2}, b)`, which rejects `a b a`.
* `C40_empty_content_lost` – An optional empty choice inside a choice is dropped, and with it the empty content.
* `C41_counts_lost` – A choice that may occur twice, with an alternative that may occur three times, accepts six elements before and at most three after the pass.
* `C41_shared_choice_lost` – When two types share a choice (as they do after duplicates have been removed and references resolved), only the first one gets the number of occurrences of the alternatives; the second one no longer accepts two elements.
* `C41_synonym_content_panics` – A type whose content is a synonym of a choice makes the pass panic.
* `C42_same_name_lost` – If an element and a type have the same name, converting keeps only the first of the two: the element `x` of type `y` is afterwards read as an element of type `x`, and the type `y` cannot be selected any more.
* `C42_self_derived_diverges` – With a dynamic type that is listed among its own derived types, merging recurses for ever.
* `C43_mul_zero_unbounded_not_tight` – Finding: `0 × unbounded` is computed as unbounded although only the count `0` is possible.
* `C44_missing_keywords` – Finding: `async`, `await` and `dyn` are reserved words but are passed through unchanged.
* `C44_underscore_and_empty` – Finding: a name that is a single special character is formatted as `_`, which is not an identifier, and the empty name stays empty.
* `C45_collision_across_texts` – Finding: across different texts numbered names can coincide: `A1` with number `0` and `A` with number `10`.
* `C46_display_loses_absolute` – Finding: printing (`Display`) drops the leading `::`, so an absolute path does not survive print-and-parse.
* `C47_single_segment_dropped` – Finding: a requested path with a single segment (e.g. an extern crate or a macro) is silently dropped.
* `C48_mod_name_clash` – Finding: with a module called `mod` two modules are written to the same file.
* `C49_long_cycle_unboxed` – `generate_all_types` for `A → D → C → B → A`, four types with an optional element each: all of them are stored by value, the generated code does not compile.
* `C49_alias_cycle_unboxed` – A type that refers to itself through an alias: `X { x: Option<R> }` and `type R = X`. The alias is not known when `X` is generated, so there is no box.
* `C51_repeated_base` – The repetition of the base is applied to base and extension together: a base that allows `a a` extended by `b` rejects `a a b`.
* `C51_optional_extension` – A base with `a` extended by an optional `b`: the document with `a` alone is rejected, the empty document is accepted.
* `C51_choice_merged` – A choice extended by a choice becomes one choice: `a b` is rejected, `b` alone is accepted.
* `C51_choice_appended` – A choice extended by a sequence gets one more alternative: `a b` is rejected, `b` alone is accepted.
* `C51_common_name` – An element that occurs in the base and in the extension is accepted only once.
* `C51_empty_extension_widens` – An extension by an empty sequence changes the bounds: a base that requires `a` twice accepts one.
* `C52_repeated_element_lost` – A sequence that mentions the element `a` twice accepts it only once.
* `C52_last_bounds_win` – The bounds of the last mention win: `<sequence> a, b, a? </sequence>` accepts `b` alone and rejects `a b a`.
* `C53_enum_whitespace_ignored` – The white space facet is not applied to the literals of an enumeration: for an enumeration of `xs:token` (white space collapsed) with the literal `a b`, the valid text `a b` (two blanks) is rejected.
* `C54_any_choice_panics` – A choice whose only alternative is an optional `xs:any` counts as defaultable, but without `ANY_TYPE_SUPPORT` it has no variant: with `FLATTEN_ENUM_CONTENT` the generator indexes an empty list (`self.elements[0]`) and panics.
* `C55_same_name_lost` – If a literal has the name of a member type, the member type is lost, and documents are rejected that were accepted before.
* `C55_facets_lost` – The facets of the union are lost.
* `C55_self_union_never_ends` – For a union that contains itself the recursion never ends (in Rust: a stack overflow).
* `C55_literal_context_lost` – The documentation and the namespaces in scope of a literal do not survive, even in a union of one enumeration. (The namespaces are needed to read the literals of an enumeration of qualified names.)
* `C56_restricted_list_lost` – A restriction of a list becomes a synonym of the type of the items, and rejects the list.
* `C56_self_restriction_never_ends` – For a type that restricts itself the recursion never ends.
* `C57_synonym_panics` – A mixed type whose content is named by a synonym makes the pass panic.
* `C57_optional_content_lost` – A mixed type whose whole content may be absent accepts a lone text before, but not after the pass.
* `C57_shared_content_accepts_text` – A type that is not mixed, but shares its content with a mixed type, accepts texts after the pass.
* `C57_text_counts_as_element` – A text counts as one of the required elements of a choice: a mixed type that needs at least one element accepts a lone text after the pass.
* `C57_nested_text_lost` – There is no place for a text between the elements of a group inside the content.
* `C58_patterns_of_steps_are_alternatives` – The patterns of different restrictions are alternatives: if the base type demands one pattern and the derived type another, a text that matches only one of them is accepted. XML Schema demands both (part 2, 4.3.4.3). For every type and all patterns.
* `C58_incomparable_passes_ranges` – A value that compares with nothing (the floating point `NaN`) passes every range: `cmp` is `partial_cmp`. XML Schema excludes `NaN` from every range with a bound (part 2, 3.2.4.1).
* `C58_length_counts_bytes` – The length of a string is counted in bytes, not in characters: `ä` is rejected by `maxLength` 1 and accepted by `minLength` 2.
* `C58_list_facet_panics` – The generator panics for every list type with a pattern, digits or white space facet: a restriction of `xs:list` with such a facet is a list whose facets need the text.
* `C58_facet_drops_enumeration` – Restricting an enumeration by any other facet removes its values: the generated enumeration has no values, so that it rejects every text.
* `C58_inline_base_keeps_values` – A restriction with an inline base type keeps the values of the base: the restriction of the inline enumeration `a`, `b` to `a` accepts both.
* `C58_inline_union_enumeration_panics` – A restriction of an inline union or list (whose variant is fixed) by an enumeration panics.
* `C58_own_output_rejected` – A type with `totalDigits` `t` and `fractionDigits` `f` may reject the text it writes itself: a whole number with `d ≤ t` digits is accepted, but it is written with `f` zeros, and rejected when read if `d + f > t`.
* `C59_empty_alternative_lost` – A group without particles is dropped, and with it the alternative to write nothing: the content model `<choice> a, <sequence/> </choice>` allows an empty document, the generated type does not.
* `C60_optional_reordered` – An optional element of the base that the restriction repeats is moved behind the required ones: `<sequence> a?, b </sequence>` restricted to `<sequence> a, b </sequence>` rejects `a b` and accepts `b a`.
* `C60_alternative_kept` – An alternative of the base that the restriction leaves out is still accepted.
* `C60_nested_group_doubled` – A group inside the base stays there beside the one of the restriction: `<sequence><choice> a, b </choice></sequence>` restricted to `<sequence><choice> a </choice></sequence>` rejects `a`.
* `C60_type_kept` – An element keeps the type it has in the base: if the restriction gives `a` a type without content, `a` may still have the content that the base allows.
* `C61_foreign_element_undeclared` – An element whose name is in another namespace than its type. `a:Root` contains `b:item` of type `xs:string` (inherited from a base type of namespace `b`, or a reference to a global element of `b`). The name is written with the prefix `b`, which the root element does not declare.
* `C61_cycle_incomplete` – Types that contain each other. `a:Node` is rendered first, so the set of `b:Node` is remembered while `a:Node` is in progress: a document whose root is a `b:Node` does not declare the prefix `a`, although the `a:Node` in it uses it. In the other order, `b:Node` has both.
* `C62_dynamic_foreign_simple_undeclared` – Fails** for elements of simple type of another namespace: simple types do not collect the namespace of the element, its prefix is not declared, and the deserializer rejects the document.
* `C62_dynamic_default_undeclared` – Fails** for the default namespace: with `Dynamic` and the default namespace `urn:a`, the element `o` of `urn:a` is written without prefix, and the default namespace is not declared, so that the element is in no namespace.
* `C63_restricted_type_ignored` – A restriction gives the attribute `a` another type. The generated type has the type of the base.
* `C63_fixed_ignored` – The fixed value of an attribute is not part of the generated type.
* `C63_reference_unqualified` – A referenced global attribute is in its namespace. In a schema with unqualified attributes, the default, the generated type has it without namespace.
* `C63_global_default_lost` – The default of a referenced global attribute is lost.
* `C63_dropped_default_kept` – A restriction declares the attribute without its default. The generated type keeps the default of the base.
* `C63_redeclared_twice` – An attribute without namespace is declared again by a restriction in a schema with another target namespace. The generated type has two fields of the same name, one of them optional.
* `C63_forms_merged` – A qualified and an unqualified attribute of the same local name are different attributes. The generated type has one field.
* `C63_extension_prohibits` – XML Schema ignores `prohibited` in an extension. The generated type loses the inherited attribute.
* `C63_group_of_other_namespace` – A type of namespace `1` refers to a group of namespace `2` with a qualified attribute. The attribute has the namespace of the group, the field has that of the type.
* `C63_group_of_other_form` – The schema of the group has qualified attributes, that of the type has not: the field has no namespace.
* `C63_restriction_keeps_wildcard` – A restriction without wildcard of a type with wildcard does not allow other attributes. The generated type does.
* `C64_abstract_member_read` – An abstract element is read where the head of its substitution group is expected.
* `C64_block_ignored` – `block="substitution"` is not obeyed.
* `C64_abstract_type_accepted` – An abstract type is accepted in `xsi:type` where its abstract base type is expected.
* `C64_direct_member_lost` – An element that names both a head and the head of that head is recorded as an indirect member of the latter.
* `C65_impl_missing` – `generate_type` for `R` alone: the code for `L` is written before `B` is known, so `L` does not implement the trait of `B`. The deserializer of `B` wraps an `L`, the generated code does not compile.
* `C65_built_in_missing` – A derived type with a built-in type as its content: there is no code for a built-in type, hence no implementation of the trait, even if all types are generated.
* `C66_other_name_unread` – (negation, for every dynamic type without members that are chosen by the tag). An element whose name is not the name of the dynamic type is not read, whatever its `xsi:type` is: the schema may declare elements of any name with the dynamic type.
* `C66_element_name_lost` – A schema may declare an element `pet` of the type `animal`. The field for it writes a dog as `<tns:pet xsi:type="tns:dog">`, but this element is not read.
* `C66_concrete_name_ignored` – The name of the field is ignored for values of the type itself: they are written as `animal`.
* `C66_plain_type_attribute` – An attribute `type` without a prefix, which is not `xsi:type`, is taken for it: the element is not read, although without the attribute it is.
* `C66_same_name_no_xsi_type` – If the tag of the value is already the prescribed name, `xsi:type` is left out: the value of the derived type is read as the type itself.
* `C66_same_type_wrong_tag` – Two members of a substitution group with the same type: a document with the second one is written with the tag of the first one.
* `C66_xsi_type_stored` – A derived type that stores unknown attributes stores `xsi:type` as well: the value that is read is not the value that was written.
* `C66_xsi_type_as_attribute` – If the schema has no target namespace, `xsi:type` is read as the attribute `type` of the derived type.
* `C67_reference_unqualified` – (negation, for every reference to an element of a namespace in a schema whose local elements are unqualified, as is the default of XML Schema). The element is written without a prefix, so that its tag does not stand for its name unless its namespace happens to be the default namespace.
* `C67_unqualified_in_default` – (negation, for every unqualified element). Below a declaration of a default namespace, which is what the root of a schema with unqualified elements declares (`NameSpec.rootXmlns`), the tag of an unqualified element does not stand for its name.
* `C67_group_of_other_namespace` – A type of the namespace `urn:a` refers to a group of the namespace `urn:b` with a qualified element `z`: the tag of the element is not read, and it is written in the namespace of the type.
* `C67_group_of_other_form` – The schema of the group has unqualified elements, that of the type has not: the element is written with a prefix.
* `C67_local_and_global_merged` – A local element `x` without a namespace and a reference to the global element `x` of the same schema are different elements of different types; they become one element with the type of the first one.
* `C67_lenient` – Tags are read that do not stand for the name of the element: a qualified element without its namespace, and an unqualified element in the namespace of the schema.
* `C68_stale_bases` – A second call of `use_unrestricted_base_type` sees the bases of the first call: the restriction `F`, whose base was found by `resolve_typedefs`, stays an enumeration, although a new optimizer replaces it.
* `C68_stale_typedefs` – `replace_xs_any_type` keeps the map of the typedefs: `R`, a name of `xs:anyType`, becomes a name of what `xs:anyType` was before.
* `C69_default_loses_empty_text` – The default flags lose the empty text of an enumeration.
* `C69_default_loses_lists` – The default flags lose the texts of a restricted list.
* `C69_empty_enum_accepts_more` – With the default flags an enumeration whose only value is the empty text accepts whatever its base type accepts.
* `C70_negative_zero_rejected` – `-0` is a valid `xs:unsignedInt`, and is rejected.
* `C70_integer_too_large` – The valid `xs:integer` 2147483648 is rejected (unless big integers are asked for).
* `C70_zero_is_positive` – 0 is read as an `xs:positiveInteger` (unless non-zero types are asked for).
* `C70_positive_is_negative` – 5 is read as an `xs:negativeInteger`, also with non-zero types.
* `C70_attribute_space_rejected` – White space around a number is removed in elements, but makes an attribute invalid.
* `C70_string_space_lost` – White space at the ends of an `xs:string` is lost in elements.
* `C70_float_more` – Literals that are not valid are accepted: `infinity` and `-nan` as `xs:double`, `1e5` as `xs:decimal`.
* `C71_optional_alternative_rejected` – Findings.** The hypothesis `Filled` of `C71_valid_document_read_partial` cannot be dropped. All the other hypotheses hold here, an element without content is valid for each of the three types, and its deserializer does not return a value: * `Once`: the content of a complex type is a required choice, and one of its alternatives is optional; * `Twice`: such a choice must occur twice in a sequence; * `Named`: such a choice must occur once in a sequence, and the sequence refers to it by another name. Only a choice that must occur exactly once in a sequence, and is referred to directly, becomes an `Option`.
* `C75_group_gets_next_scope` – Limit.** A group that is not an element of its own and has a repeated child gives its value only when the event after its content arrives and the parent finishes it; wrapped, it is kept with the namespaces of the *following* element: here the prefix `p` is recorded as `9`, although it is bound to `1` at the content `<a/>` of the group and at the element around it.
* `C76_missing_file_hides_fallback` – Limit.** A file that does not exist is an error of the file resolver, not "not mine": resolvers added after it as a fallback are never asked for it. Asked first, the same fallback has the document.
* `C77_choice_without_alternatives_read` – Finding: for a type whose content is a choice without alternatives that must occur, the generated type reads an empty element, although nothing is valid for it. All other hypotheses hold.
* `C78_content_helpers_twice` – Finding: `RenderStep::ContentHelpers` is not recognised when it is added a second time (config/renderer.rs:329-377 has no arm for it), so that its methods are rendered twice.
* `C78_enum_constants_replace_types` – Finding: `EnumConstantsRenderStep` says that it renders the types (enum_const.rs:15-17), and replaces the step that does.
* `C78_types_lost` – Finding: `RenderStep::EnumConstants` after it then leaves no step that even claims to render the types.
* `C79_mut_clash` – Finding: the elements `note` and `noteMut` of a choice have the fields `note` and `note_mut`, and the generated `impl` has two methods `note_mut`: it does not compile.
* `C80_same_local_name` – Finding: for `quick-xml` and `serde-xml-rs` 0.7 the elements `id` of two namespaces get members with the same name, which is rejected when the generated code is compiled. For `serde-xml-rs` 0.8 the members are different.
* `C80_attribute_and_element` – Finding: for `serde-xml-rs` 0.7 an attribute and an element with the same name get members with the same name.
* `C80_mixed_content_name` – Finding: with support for mixed types, the member for the content of a mixed type that is repeated has the empty name for `serde-xml-rs` 0.8, and the name of the field for the others. No document has an element with the empty name.
* `C80_required_list_has_default` – Finding: an element that has to occur at least twice gets a member with a default, so that documents without it are accepted.
* `C80_empty_choice_rejected` – Finding: the content of a type with a choice that can be matched with nothing gets a member without a default, so that the empty element, which is valid, is rejected.
* `C80_empty_list_rejected` – Finding: a content that is a list gets a member without a default, although the empty list is valid and written as an empty text. (For strings, where the same holds, the member has a default.)
* `C81_type_and_postfixed_type_clash` – Finding: whatever the settings of the modules and the formatting, as long as it leaves `Foo` and `FooType` alone, the default naming gives the schema types `Foo` and `FooType` of one namespace the same Rust name.
* `C81_two_namespaces_clash` – Finding: with the settings a generator starts with, types of the same name in two namespaces get the same Rust name (in the same module), from either naming.
* `C81_anonymous_lists_clash` – Finding: two anonymous types of one module that are lists of the same named type get the same Rust name from the default naming, whatever their own names.
* `C81_names_not_distinct` – So the property does not hold for every table: the findings as one statement about a table of two entries.
* `C82_prefixes_differing_in_case` – Finding: prefixes that differ only in what `to_screaming_snake_case` ignores, like `a` and `A`, give the same constant twice, with different values.
* `C82_prefix_like_unnamed` – Finding: a prefix like `unnamed_3` gives the constant that the namespace with the id 3 has if it has no prefix.
* `C82_module_name_as_prefix` – Finding: a namespace with a module name and no prefix. The constant that the serializer uses as its prefix is the module name, while `WithNamespace::prefix` of its types is `None`.
* `C82_trait_not_ascii` – **Finding.** A namespace with a character outside of ASCII: `WithNamespace::namespace` of its types returns another text than the constant stands for.
* `C84_recursive_copy_leaks` – A component that refers to itself and is copied because of what else it refers to: the copy refers to the original instead of itself.
* `C84_anonymous_leaks` – A component with an anonymous component that refers to what is replaced: it is not copied.
* `C84_later_include_leaks` – What is included after the redefinition keeps to the old components; if it is included before, then it gets the new one.
* `C84_hidden_leaks` – A component whose name is also used in an imported namespace is not redirected.
* `C84_other_namespace_leaks` – A component of another namespace is copied, but the copy is not found.
* `C84_indirect_dangles` – Redefining a component that the redefined document only includes: the new component refers to one that does not exist.
* `C84_override_refers_to_old` – A recursive type inside of `xs:override` (which is processed like `xs:redefine`) refers to the type that it overrides, not to itself.
* `C84_not_all_redirected` – Not every reference is redirected, and not every reference leads to a component.
* `C85_group_names` – In a group the generated name only depends on the name of the element: not on the group, nor on what is around it.
* `C85_groups_lose` – Two groups of a document with local elements of the same name: the anonymous type of one element is lost, and both elements get the type of the other one.
* `C85_types_lose` – The same for two types and elements whose names are the same when they are put together.
* `C85_not_all_kept` – Without the condition, anonymous components are not kept.
* `C86_boolean_digit_rejected` – The digits that XML Schema allows for booleans are rejected.
* `C86_namespace_ignored` – The namespace of the type is not looked at: a value of a type `string` of the user is taken for `xs:string`, whatever its namespace is, and it is written as one.
* `C86_not_all_types_survive` – So it is not true that the namespace of a type survives: one may read a type of the namespace `urn:my` and write a type of another namespace.
* `C86_blank_hides_type` – A blank after the name of the type, which XML Schema ignores, hides the type.
* `C86_sign_unchecked` – Without big integers, zero is read as a positive integer, and a positive number as a negative one.
* `C86_number_fits` – Without big integers, an integer that needs more than 64 bits is rejected although it is valid.
* `C86_blanks_lost` – Blanks at the ends of a string are lost when it is written and read, although they belong to the value of an `xs:string`.
* `C86_odd_hex_panics` – Hexadecimal text of odd length makes the reader panic.
* `C86_infinity_not_valid` – `inf`, which Rust prints for an infinite number, is not an `xs:double`.
* `C86_items_lost` – An item that is empty or contains a blank does not survive.
* `C87_open_group_swallows_sibling` – A group without fields that allows any content swallows the element after it, although that is declared: in `<r><a>1</a></r>` the element `a` is skipped without an error, and the field `a` of the value is empty.
* `C87_open_sequence_loses_rest` – If only optional children are left, then an element of another name, which `xs:any` allows, ends the reading of the fields: whatever follows (`more`), also elements that have a field, is skipped without an error, and the value is that of the children read so far.
* `C87_open_sequence_loses_element` – Finding**: … and with an optional `b`, although the document is valid, the value of `b` is lost.
* `C87_open_sequence_loses_middle` – Finding**: in the valid document `<r><a>1</a><x/><b>2</b><c>3</c></r>`, where `x` is written with two tags, the element `b` is skipped because it comes before the required `c`.
* `C88_ambiguous` – **Finding**: the backslash is not escaped, so that a message can stand for two byte strings, a line feed and the four characters `\x0A`.
* `C88_non_ascii_garbled` – **Finding**: text that is not ASCII is printed byte by byte: the message for `Größe` names another text, the one whose characters are the bytes.
* `C88_non_ascii_never_shown` – For every character outside of ASCII.
* `C89_mixed_nillable_wrong` – A nillable element in mixed content: whatever the element, the module and the configuration, the generated type is not the declared type `Nillable<Mixed<T>>`; it is `Nillable` with two arguments, `T` and `Mixed`.
* `C89_crate_path_broken` – A custom type of the own crate, included as `crate::…`, with `ABSOLUTE_PATHS_INSTEAD_USINGS`: in a module for a namespace the path is `super::crate::…`, which is not a path of Rust, for `crate` may only stand at the beginning.
* `C89_name_captured` – A type of the schema that is named like an imported type of the runtime: in its module the field of a nillable element of another type means the right type, but that of an element of this type does not.
* `C91_absolute_types_not_renamed` – With `ABSOLUTE_PATHS_INSTEAD_USINGS` the types of fields keep the name `xsd_parser_types`, whatever the name of the crate is: a nillable element, for every configured name.
* `C91_string_of_std` – With `BUILD_IN_ABSOLUTE_PATHS` and `alloc` as the crate for collections, vectors are those of `alloc`, but strings are still those of `std`.
* `C92_list_default_rejected` – No other default of a list is accepted, although the list may read it: the schema cannot be used.
* `C92_list_alias_wrong` – If lists are aliases (`TypedefMode::Typedef`), the code for the empty default does not compile.
* `C92_new_type_wrong` – If references are new types (`TypedefMode::NewType`), no default value of an attribute of such a type compiles: the value is not wrapped.
* `C92_white_space_kept` – White space of a default is kept although the type removes it when it reads the text.
* `C92_union_other_member` – Facets are not looked at: the default of a union may become a value of a member that cannot have it, and that is refused when it is written and read again.
* `C92_boolean_other_member` – The same for texts that only the generator takes for a boolean.
* `C92_enumeration_other_variant` – A merged union of a text type and an enumeration (`merge_enum_unions`): the default is the typed variant, what is read is the value of the enumeration.
* `C92_infinite_panics` – `INF`, `-INF` and `NaN`, which every floating point type reads, make the generator panic, for every type that comes to them first.
* `C93_not_ascii_panics` – For every value with a character outside of ASCII, the text of the constant is not a literal: `\x` with more than `7F`. `TokenStream::from_str(…).unwrap()` panics (enum_const.rs 64).
* `C93_restricted_integer_wrong` – An enumeration of a restricted integer type does not compile: the type is called with a byte string, both in the constant (of type `&str`) and in the pattern.
* `C93_infinite_constant_panics` – The values `INF`, `-INF` and `NaN` of a floating point type make the generator panic.
* `C93_integers_by_text` – Integers are still compared as texts: the enumeration with the value `5` of `xs:int` refuses `05` and `+5`, which `xs:int` reads as 5. (Numbers with a fraction are compared as values.)
* `C94_catch_all_not_derivable` – With a typed variant (which `merge_enum_unions` makes, and `OptimizerFlags::SERDE` asks for) the enum for `quick-xml` or `serde-xml-rs` up to 0.7 cannot be derived: `other` stands at a variant with a field.
* `C94_catch_all_never_read` – For `serde-xml-rs` from 0.8 the enum can be derived, but a text that is no value of the enumeration is never read: nothing marks the typed variant.
* `C94_union_never_read` – No text at all is read as a value of a union: its variants have fields and there is no `untagged`.
* `C95_default_namespace_lost` – A value without prefix means a name in the default namespace of the schema, but its constant has no namespace. A document that writes the same name with a prefix is refused.
* `C95_other_namespace_accepted` – And a name without prefix is accepted in every document, whatever the default namespaces of the schema and of the document are.
* `C95_unbound_prefix_accepted` – A text with an undeclared prefix means nothing, but is accepted if the schema writes the value with the same prefix.
* `C96_same_words_clash` – Different XML names of the same words get the same field, the same variant and the same constant, so that the generated code does not compile.
* `C96_short_words_clash` – Words of one letter are put together: the elements `a_b` and `ab` get the same field; the values `a-b` and `ab` of an enumeration get different variants but the same constant.
* `C96_signs_lost` – So do names that differ only in characters that are neither letters nor digits, at the beginning and at the end: `-1` and `1` are the same variant.
* `C96_numbers_clash` – Numbers that follow one another are put together: for all words and numbers, `level-1.2` and `level-12` get the same field, variant and constant, so `level-1.11` and `level-11.1` cannot be values of one enumeration.
* `C97_attribute_and_element_clash` – With the default naming, an attribute and an element of the same name get the same field, whatever the name is and whatever else the type has, if the elements are fields of the struct itself.
* `C97_content_clash` – So do an attribute called `content` (in any style) and the content of a type with simple content.
* `C97_text_clash` – So do an element called `textBefore` and the text before the first element of a mixed type.
* `C98_content_clash` – A type that is called like the content of another one is written twice under this name, for all names: for instance the element `FooTypeContent` beside the type `Foo`, which becomes `FooType`.
* `C98_trait_clash` – The same for traits: the element `BaseTrait` beside the head `Base` of a substitution group.
* `C99_status_ignored` – The status of the server is not looked at: for every address and every status, also 404, the body is taken as the schema, and the resolvers after it are not asked.
* `C100_generated_names_lost` – Types with generated names (anonymous types) cannot be named: no identifier of the configuration ever resolves to one, not even the one made from the type's own identifier.
* `C100_same_schema_name` – Schemas are found by name among those of all namespaces, and the first one wins: a schema that has the same name as an earlier one (files with the same name in two directories) is never found, whatever namespace is asked for.
* `C101_cache_not_asked` – Finding: the cache of identifiers is asked for the user defined types only, and not for the types to generate. If the schemas alone leave the schema of a listed identifier open, the generator fails, although the cache knows the one type that is meant.
* `C102_buffer_keeps_everything` – Finding: the buffer is never cleared. After any number of calls it holds all bytes that were read since the reader was made, not only those of the last event.
* `C102_buffer_unbounded` – Finding: no size of the buffer is enough, even if no event has more than one byte.
* `C103_not_checked` – Finding: the text is not checked when the code is generated, as it is for built-in types: the generated function panics when the attribute is missing.
* `C103_union_panics` – Finding: in a union, a custom type takes every default value, also one that is valid for a later member only: the generated function panics although the default value is valid.
* `C104_panics` – Finding: the name is taken from the schema as it is. If it has a character that no identifier of Rust has, for example `-` or `.`, the generator panics, although it gives such types a valid name when it generates them itself (C44).
* `C104_keyword_kept` – Finding: a keyword is kept, so that the generated code does not compile.
<!-- /findings -->

## 5. Trusted base

### 5.1 Logic

Lean 4.33.0's kernel. No axioms of our own, no `sorry`, no `native_decide` or `bv_decide`. `decide +kernel` occurs only in
examples and counterexamples about concrete literals (it is checked by the kernel). Axioms per property theorem:

<!-- axioms -->
**Classical.choice, Quot.sound, propext** (471): `C01_namespaces_in_scope`, `C01_answers_are_maps`, `C03_generated_terminates`, `C03_generated_calls_return`, `C03_open_sequence_truncated_document`, `C05_list_tokens_partial`, `C05_serialize_deserialize`, `C07_accepted_iff`, `C07_order_independent`, `C07_reader_errors_reported`, `C07_namespace_declaration_iff`, `C07_globally_allowed_iff`, `C07_other_name_accepted`, `C08_true_iff`, `C08_false_iff`, `C08_error_iff`, `C08_round_trip`, `C09_nested_sequence_feeds`, `C09_nested_group_reads`, `C09_nested_sequence_accepts`, `C09_sequence_feeds`, `C09_empty_tag_feeds`, `C09_sequence_accepts`, `C10_sequence_sound_partial`, `C11_all_feeds`, `C11_all_accepts`, `C11_group_returns_end`, `C11_interrupted_child_stored`, `C11_order_independent`, `C11_order_across_fields`, `C11_all_sound_partial`, `C12_choice_sound_partial`, `C13_dynamic_round_trip_partial`, `C13_global_round_trip_partial`, `C13_local_round_trip_partial`, `C13_none_round_trip_partial`, `C13_local_foreign_type_unreadable`, `C13_local_attribute_unreadable`, `C13_nested_dynamic_round_trip_partial`, `C13_nested_global_round_trip_partial`, `C13_nested_local_round_trip_partial`, `C13_nested_none_round_trip_partial`, `C13_struct_round_trip`, `C13_all_round_trip`, `C13_content_round_trip`, `C13_enum_round_trip`, `C13_document_round_trip_partial`, `C13_local_mode_unreadable`, `C13_nested_round_trip_partial`, `C14_nillable_value_balanced`, `C14_nil_restores_iff`, `C14_nil_leaks_scope`, `C14_xsi_balanced_partial`, `C14_xsi_empty_leaks_scope`, `C14_any_simple_type_leaks_scope`, `C15_resolves_iff`, `C15_resolves_partial`, `C15_qname_prefix_resolves_partial`, `C15_declared_once_partial`, `C15_scope_restored`, `C17_base64_string_len`, `C18_structure_partial`, `C18_namespaces_partial`, `C19_nillable_value`, `C19_nillable_value_round_trip`, `C19_nil_element`, `C19_nil_round_trip_iff`, `C19_unqualified_nil`, `C19_second_nil_lost`, `C20_refl`, `C20_symm`, `C20_trans_partial`, `C21_order`, `C21_unique_keys`, `C21_values`, `C22_total_digits_sound`, `C22_total_digits_complete_partial`, `C22_fraction_digits_complete_partial`, `C22_total_digits_rejects_valid`, `C24_each_once`, `C24_dependencies_point`, `C24_references_loaded`, `C24_reachable_loaded`, `C25_prefixes_distinct_partial`, `C25_generated_prefix_clashes`, `C25_alternatives_order`, `C26_own_identity_partial`, `C27_first_reference_partial`, `C27_second_include_ignored`, `C27_mismatch_accepted`, `C27_import_inherits`, `C29_first_match`, `C29_sees_visible`, `C30_each_once`, `C31_ends_partial`, `C31_cycle_reported_partial`, `C31_circular_group_hangs`, `C31_error_names_other`, `C32_nested_fresh`, `C32_nested_total_partial`, `C32_distinct`, `C32_all_distinct`, `C32_shown_distinct_partial`, `C32_any_clash`, `C32_renamed_clash`, `C32_prefix_clash`, `C32_group_then_element_panics`, `C32_many_clashes_overflow`, `C33_resolved_iff_defined`, `C33_resolved_is_end_of_chain`, `C33_acyclic_resolved_is_no_synonym`, `C33_acyclic_idempotent`, `C33_acyclic_synonym_same`, `C33_loop_not_idempotent`, `C34_not_reflexive`, `C35_terminates`, `C35_names_kept`, `C35_untouched_or_reference`, `C35_no_duplicates_left`, `C35_synonyms_kept`, `C35_structurally_equal`, `C35_same_documents_partial`, `C35_loop_never_ends`, `C35_different_substitutions_merged`, `C36_typedef_recursion_ends`, `C36_loop_never_ends`, `C36_stays_well_formed`, `C36_same_names`, `C36_same_up_to_synonyms`, `C36_same_documents`, `C36_no_typedef_mentioned_partial`, `C36_simple_base_kept`, `C36_idempotent`, `C37_never_panics`, `C37_ends`, `C37_members`, `C37_flat`, `C37_accepts_no_less`, `C37_same_documents_partial`, `C37_same_choice_partial`, `C37_self_union_never_ends`, `C37_facets_lost`, `C38_first_of_each_kept`, `C38_same_documents`, `C38_same_choice`, `C38_same_choice_back`, `C39_empty_text_lost`, `C40_one_type_partial`, `C40_accepts_no_less_partial`, `C40_cyclic_group_diverges`, `C40_repeated_alternative_lost`, `C40_order_lost`, `C40_empty_content_lost`, `C41_counts_lost`, `C41_shared_choice_lost`, `C41_synonym_content_panics`, `C42_merge_same_types_partial`, `C42_merge_ends`, `C42_merge_entries`, `C42_convert_ends`, `C42_convert_keeps_others`, `C42_convert_same_selection_partial`, `C42_convert_same_types_partial`, `C42_same_name_lost`, `C42_self_derived_diverges`, `C44_format_ident_valid_partial`, `C44_missing_keywords`, `C44_underscore_and_empty`, `C45_numbered_names_unique`, `C45_collision_across_texts`, `C47_usings_exact_partial`, `C47_single_segment_dropped`, `C48_file_names_distinct`, `C48_mod_name_clash`, `C49_long_cycle_unboxed`, `C49_alias_cycle_unboxed`, `C50_generation_ends`, `C51_extension_partial`, `C51_extension_all_partial`, `C51_empty_base`, `C51_no_particle`, `C51_repeated_base`, `C51_optional_extension`, `C51_choice_merged`, `C51_choice_appended`, `C51_common_name`, `C51_empty_extension_widens`, `C52_choice_partial`, `C52_repeated_element_lost`, `C52_last_bounds_win`, `C53_union_first`, `C53_union_rejects`, `C53_union_round_trip`, `C53_enum_literal`, `C53_enum_other`, `C53_enum_constant`, `C53_enum_round_trip`, `C53_enum_whitespace_ignored`, `C54_search_ends`, `C54_default_succeeds_partial`, `C55_never_panics`, `C55_ends`, `C55_same_name_lost`, `C55_facets_lost`, `C55_self_union_never_ends`, `C55_literal_context_lost`, `C56_exactly_restricted_replaced`, `C56_ends`, `C56_accepts_no_less_partial`, `C56_restricted_list_lost`, `C56_self_restriction_never_ends`, `C57_accepts_no_less_partial`, `C57_never_panics_partial`, `C57_only_texts_added`, `C57_synonym_panics`, `C57_optional_content_lost`, `C57_shared_content_accepts_text`, `C57_text_counts_as_element`, `C57_nested_text_lost`, `C58_accepts`, `C58_restrictions_partial`, `C58_list_lengths`, `C59_empty_alternative_lost`, `C59_content_exact_partial`, `C59_type_exact_partial`, `C60_restriction_partial`, `C60_optional_reordered`, `C60_alternative_kept`, `C60_nested_group_doubled`, `C60_type_kept`, `C61_only_wanted`, `C61_first_exact`, `C61_acyclic_exact`, `C61_prefixes_declared_partial`, `C61_first_prefixes_declared_partial`, `C61_foreign_element_undeclared`, `C61_cycle_incomplete`, `C62_collected_exact`, `C62_names_declared_partial`, `C62_dynamic_foreign_simple_undeclared`, `C62_dynamic_default_undeclared`, `C62_nested_names_declared_partial`, `C64_pass_ends`, `C64_group_members_partial`, `C64_derived_types_partial`, `C64_other_types`, `C64_element_processed`, `C64_type_processed`, `C64_schema_members_partial`, `C64_direct_members_partial`, `C64_abstract_member_read`, `C64_block_ignored`, `C64_abstract_type_accepted`, `C64_direct_member_lost`, `C65_implements_partial`, `C65_requires_partial`, `C65_all_implement_partial`, `C65_named_implement_partial`, `C65_only_held`, `C65_required_trait`, `C65_all_required_partial`, `C65_required_implemented_partial`, `C65_impl_missing`, `C65_built_in_missing`, `C66_selected_iff`, `C66_selected_reads`, `C66_not_selected`, `C66_by_tag_partial`, `C66_by_xsi_type_partial`, `C66_default_partial`, `C66_other_name_unread`, `C66_round_trip_partial`, `C66_attributes_kept_partial`, `C66_element_name_lost`, `C66_concrete_name_ignored`, `C66_plain_type_attribute`, `C66_same_name_no_xsi_type`, `C66_same_type_wrong_tag`, `C66_xsi_type_stored`, `C66_xsi_type_as_attribute`, `C67_group_of_other_namespace`, `C67_group_of_other_form`, `C67_local_and_global_merged`, `C67_lenient`, `C68_maps_unnoticed_partial`, `C68_exec_optimizer`, `C68_stale_bases`, `C68_stale_typedefs`, `C69_accepts_no_less_partial`, `C69_default_loses_empty_text`, `C69_default_loses_lists`, `C69_same_documents_partial`, `C69_empty_enum_accepts_more`, `C70_signed_exact`, `C70_unsigned_partial`, `C70_unbounded_partial`, `C70_round_trip`, `C70_boolean_complete`, `C70_float_complete`, `C70_negative_zero_rejected`, `C70_integer_too_large`, `C70_zero_is_positive`, `C70_positive_is_negative`, `C70_attribute_space_rejected`, `C70_string_space_lost`, `C70_float_more`, `C71_described_document_read_partial`, `C71_valid_document_read_partial`, `C71_optional_alternative_rejected`, `C71_optimized_document_read_partial`, `C72_schema_document_read_partial`, `C72_table_exact_partial`, `C72_second_component_ignored`, `C72_table_well_formed_partial`, `C75_scope_at_last_event`, `C75_element_scope`, `C75_attribute_scope`, `C76_schema_name`, `C77_schema_document_described_partial`, `C77_schema_document_written_partial`, `C77_described_document_valid_partial`, `C77_written_document_valid_partial`, `C77_choice_without_alternatives_read`, `C79_methods`, `C79_names_distinct_partial`, `C79_mut_clash`, `C80_names_distinct_partial`, `C80_no_default_required`, `C80_required_no_default_partial`, `C80_same_local_name`, `C80_attribute_and_element`, `C80_mixed_content_name`, `C80_required_list_has_default`, `C80_empty_choice_rejected`, `C80_empty_list_rejected`, `C81_default_same_iff`, `C81_explicit_type_element`, `C81_default_names_distinct_partial`, `C81_type_and_postfixed_type_clash`, `C81_two_namespaces_clash`, `C81_anonymous_lists_clash`, `C81_names_not_distinct`, `C82_constants_defined`, `C82_constants_stand_for_partial`, `C82_trait_agrees`, `C82_root_declarations`, `C82_prefixes_differing_in_case`, `C82_prefix_like_unnamed`, `C82_module_name_as_prefix`, `C82_trait_not_ascii`, `C83_loops_and_gaps`, `C83_members_shown`, `C84_redefined_partial`, `C84_order_irrelevant`, `C84_terminates`, `C84_recursive_copy_leaks`, `C84_anonymous_leaks`, `C84_later_include_leaks`, `C84_hidden_leaks`, `C84_other_namespace_leaks`, `C84_indirect_dangles`, `C84_override_refers_to_old`, `C84_not_all_redirected`, `C84_ready`, `C84_redefine_partial`, `C84_every_redefinition`, `C84_later_components_partial`, `C85_anonymous_kept_partial`, `C85_group_names`, `C85_groups_lose`, `C85_types_lose`, `C85_not_all_kept`, `C86_written`, `C86_names_agree`, `C86_type_read`, `C86_round_trip_partial`, `C86_unknown_round_trip`, `C86_untyped_round_trip`, `C86_signed_exact`, `C86_unsigned_partial`, `C86_boolean_words`, `C86_boolean_digit_rejected`, `C86_namespace_ignored`, `C86_not_all_types_survive`, `C86_blank_hides_type`, `C86_sign_unchecked`, `C86_number_fits`, `C86_blanks_lost`, `C86_odd_hex_panics`, `C86_infinity_not_valid`, `C87_open_group_swallows_sibling`, `C87_open_sequence_skips_first`, `C87_open_sequence_skips_before_required`, `C87_open_sequence_moves_on`, `C87_open_sequence_loses_rest`, `C87_open_sequence_loses_element`, `C87_open_sequence_loses_middle`, `C88_shown_exact_iff`, `C88_no_control`, `C88_injective_partial`, `C88_ambiguous`, `C88_non_ascii_garbled`, `C88_non_ascii_never_shown`, `C89_element_type_partial`, `C89_runtime_types`, `C89_custom_type`, `C89_crate_path_broken`, `C89_name_captured`, `C90_sharing_invisible`, `C90_hash_respects_eq`, `C90_hash_tells_apart`, `C91_patch_exact`, `C91_paths_renamed`, `C91_imported_types_renamed`, `C91_absolute_types_not_renamed`, `C91_string_of_std`, `C92_default_as_read_partial`, `C92_invalid_default_reported`, `C92_empty_list`, `C92_list_default_rejected`, `C92_list_alias_wrong`, `C92_new_type_wrong`, `C92_white_space_kept`, `C92_union_other_member`, `C92_boolean_other_member`, `C92_enumeration_other_variant`, `C92_infinite_panics`, `C93_pattern_exact`, `C93_constant_exact_partial`, `C93_not_ascii_panics`, `C93_text_and_integers_partial`, `C93_no_constant`, `C93_numbers_by_value`, `C93_restricted_integer_wrong`, `C93_infinite_constant_panics`, `C93_integers_by_text`, `C95_enumeration_partial`, `C95_other_namespace_accepted`, `C95_unbound_prefix_accepted`, `C96_names_partial`, `C96_same_name_iff_partial`, `C96_same_words_clash`, `C96_short_words_clash`, `C96_signs_lost`, `C96_numbered_partial`, `C96_numbered_same_iff_partial`, `C96_numbers_clash`, `C97_members_distinct_partial`, `C97_attribute_postfix_partial`, `C97_attribute_and_element_clash`, `C97_content_clash`, `C97_text_clash`, `C97_display_names`, `C98_items_distinct_iff_partial`, `C98_helpers_distinct`, `C98_content_clash`, `C98_trait_clash`, `C99_resolvers`, `C99_resolver_order`, `C99_loaded`, `C99_prefixes_partial`, `C99_status_ignored`, `C100_declared`, `C100_undeclared`, `C100_same_schema_name`, `C101_selected`, `C101_succeeds_partial`, `C101_declared_listed`, `C101_cache_not_asked`, `C104_path_partial`, `C104_keyword_kept`

**Quot.sound, propext** (170): `C02_skip_exactly_one_element`, `C03_empty_struct_terminates`, `C03_open_struct_diverges_on_truncated`, `C03_open_all_diverges_on_truncated`, `C03_open_choice_diverges_on_truncated`, `C03_element_diverges_on_truncated`, `C04_simple_content`, `C04_chunking_irrelevant`, `C05_adjacent_separators_wrong`, `C06_finish_vec_never_rejects`, `C06_array_default_partial`, `C06_array_default_panics`, `C10_list_minimum_not_enforced`, `C11_maximum_not_enforced`, `C12_choice_feeds`, `C12_choice_accepts`, `C12_dynamic_feeds`, `C12_group_returns_end`, `C12_maximum_not_enforced`, `C12_repeated_bounds_not_enforced`, `C12_group_feeds`, `C12_content_feeds`, `C12_repeated_choice_feeds`, `C12_repeated_choice_accepts`, `C12_nested_group_reads`, `C12_nested_choice_feeds`, `C12_nested_content_feeds`, `C12_nested_choice_accepts`, `C12_nested_content_accepts`, `C14_field_balanced`, `C14_generated_balanced`, `C14_documents_balanced`, `C14_element_balanced`, `C14_content_balanced`, `C14_iter_balanced`, `C14_mixed_balanced`, `C14_wildcard_balanced`, `C16_no_markup`, `C16_text_round_trip`, `C17_hex_round_trip`, `C17_hex_decode_accepts`, `C17_hex_string_len`, `C17_any_hex_round_trip`, `C17_any_hex_odd_panics`, `C17_base64_round_trip`, `C19_mixed_text_attribution`, `C19_text_round_trip`, `C19_mixed_round_trip_partial`, `C19_mixed_empty_text_lost`, `C19_mixed_root_rejected`, `C21_push_duplicate`, `C22_collapse_tokens`, `C22_collapse_idempotent`, `C22_collapse_xml_partial`, `C22_collapse_removes_no_break_space`, `C22_fraction_digits_sound`, `C23_error_path_is_open_elements`, `C23_every_prefix_is_a_position`, `C23_end_tag_error_names_parent`, `C24_loading_ends`, `C28_resolve_exact`, `C28_unannounced_schema_missed`, `C29_dependency_recorded`, `C30_iter_is_dfs`, `C31_complete`, `C31_after_required`, `C31_cycle_rejected`, `C31_error_justified`, `C32_element_kept`, `C32_conflicts_exact`, `C34_equal_iff_same_up_to_synonyms`, `C34_symmetric`, `C34_transitive`, `C34_reflexive_partial`, `C34_equal_hash`, `C39_exactly_empty_variants_removed`, `C39_empty_variants_idempotent`, `C39_empty_variants_accept_no_more`, `C39_only_empty_text_lost`, `C39_exactly_empty_enums_replaced`, `C39_empty_enums_idempotent`, `C39_empty_enums_accept_no_less`, `C39_exactly_small_unions_replaced`, `C39_small_unions_idempotent`, `C39_small_unions_accept_no_less`, `C39_small_unions_same_texts`, `C40_ends`, `C41_one_type_partial`, `C41_accepts_no_less_partial`, `C41_bounds`, `C43_add_exact`, `C43_mul_sound`, `C43_mul_tight`, `C43_mul_zero_unbounded_not_tight`, `C43_container_complete`, `C43_container_exact`, `C43_container_vector_needed`, `C43_cmp_is_inclusion`, `C43_max_is_union`, `C46_relative_path_correct`, `C46_absolute_path`, `C46_no_needless_super`, `C46_display_parse_partial`, `C46_parse_absolute`, `C46_parse_absolute_iff`, `C46_display_loses_absolute`, `C48_write_each_module_once`, `C49_cycle_boxed_partial`, `C49_short_cycles_boxed_partial`, `C49_forced_boxes`, `C50_generates_needed`, `C50_once`, `C50_no_dangling`, `C54_decision_right`, `C54_default_counts`, `C55_same_alternatives_partial`, `C55_becomes_enumeration_partial`, `C55_accepts_no_less_partial`, `C55_same_documents_partial`, `C56_same_names`, `C58_patterns_of_steps_are_alternatives`, `C58_length_bytes_ge`, `C58_length_counts_bytes`, `C58_enumeration_values`, `C58_facet_drops_enumeration`, `C58_inline_base_keeps_values`, `C58_own_output_rejected`, `C63_attributes_exact`, `C63_types_processed`, `C63_attribute_uses_partial`, `C63_redeclared_twice`, `C63_wildcards_kept_partial`, `C67_from_declaration`, `C67_read_iff`, `C67_names_partial`, `C70_user_type_wins`, `C71_option_can_be_missing`, `C73_async_read_returns`, `C75_group_gets_next_scope`, `C76_file_resolver`, `C78_steps_partial`, `C78_types_first_partial`, `C78_quick_xml_complete`, `C79_first_item`, `C79_none`, `C81_explicit_same_iff`, `C83_printing_ends`, `C83_all_is_each`, `C83_shows_what_is_inside`, `C86_words`, `C87_open_struct_skips_content`, `C87_open_all_skips`, `C87_open_choice_skips`, `C89_mixed_nillable_wrong`, `C94_enumeration_partial`, `C94_enumeration_round_trip`, `C94_catch_all_not_derivable`, `C94_catch_all_never_read`, `C94_union_never_read`, `C95_default_namespace_lost`, `C100_namespace`, `C100_text`, `C100_generated_names_lost`, `C102_events_partial`, `C102_buffer_keeps_everything`, `C102_buffer_unbounded`, `C103_no_wrong_value`, `C103_value_partial`, `C104_same_place`, `C104_panics`

**none** (12): `C06_bounds_not_enforced`, `C15_shadowed_prefix`, `C15_declared_twice`, `C21_insert_returns_old`, `C63_cyclic_group_overflow`, `C63_restriction_keeps_wildcard`, `C70_fixed_types`, `C70_unbounded_types`, `C73_async_write_equals_sync`, `C76_added_last`, `C76_missing_file_hides_fallback`, `C86_integer_names`

**propext** (73): `C02_skip_empty_element`, `C02_unknown_element_rejected`, `C03_open_sequence_diverges_on_truncated`, `C03_deserialize_terminates_partial`, `C03_simple_types_terminate`, `C04_empty_struct_reads`, `C04_empty_struct_rejects`, `C04_complex_simple_content`, `C04_complex_empty_tag`, `C04_nested_element_rejected`, `C05_array_size`, `C06_values_unchanged_partial`, `C06_array_exact`, `C06_default_fill`, `C07_matching_partial`, `C09_optional_dynamic_rejected`, `C10_reference_ignored`, `C10_nesting_leak`, `C11_second_dynamic_unreachable`, `C12_content_in_order`, `C12_skip_panics`, `C12_second_dynamic_unreachable`, `C12_missing_content`, `C14_text_balanced`, `C16_trimmed_text_unchanged`, `C16_attribute_round_trip`, `C17_any_hex_panics_and_accepts_sign`, `C18_namespace_changed`, `C18_references_lost`, `C20_hash_partial`, `C20_resolved_eq_iff`, `C20_not_transitive`, `C20_hash_inconsistent`, `C22_replace`, `C26_resolver_change_panics`, `C54_any_choice_panics`, `C58_incomparable_passes_ranges`, `C58_list_facet_panics`, `C58_inline_union_enumeration_panics`, `C63_restricted_type_ignored`, `C63_fixed_ignored`, `C63_reference_unqualified`, `C63_global_default_lost`, `C63_dropped_default_kept`, `C63_forms_merged`, `C63_extension_prohibits`, `C63_group_of_other_namespace`, `C63_group_of_other_form`, `C67_reference_unqualified`, `C67_unqualified_in_default`, `C73_slice_reader_agrees`, `C73_error_reader_agrees`, `C73_async_read_equals_sync`, `C74_written_is_prefix`, `C74_sync_written_is_prefix`, `C75_wrapper_only_asks`, `C75_reads_like_inner`, `C76_first_answer`, `C76_order_kept`, `C78_content_helpers_twice`, `C78_enum_constants_replace_types`, `C78_types_lost`, `C79_change`, `C81_namespace_modules`, `C81_schema_modules`, `C81_one_module`, `C81_display_name_resolves`, `C86_items_lost`, `C95_default_partial`, `C100_round_trip_partial`, `C103_rejected`, `C103_not_checked`, `C103_union_panics`
<!-- /axioms -->

### 5.2 What ties the model to the code

The model is a hand transliteration; nothing connects it to the Rust text mechanically, and the code was never built or
run here. Every definition cites the lines it models and states what was left out. Read the definitions of a module's
"Model" section against those lines to audit it. Specifications (which say what is *right*, not what the code does) are
in sections called "Specification" and in `Meta/Valid.lean`.

### 5.3 Modelled source files

<!-- modelled -->
| module | source files cited |
|---|---|
| `Verif/Code/Crates.lean` | generator/mod.rs, models/meta/type_.rs, renderer/mod.rs, xsd-parser/src/pipeline/renderer/context.rs |
| `Verif/Code/Files.lean` | mod.rs, xsd-parser/src/models/code/module.rs |
| `Verif/Code/IdentPath.lean` | xsd-parser/src/models/code/ident_path.rs |
| `Verif/Code/PathData.lean` | generator/meta.rs, ident_path.rs, pipeline/generator/data/complex.rs, pipeline/generator/data/mod.rs, pipeline/generator/mod.rs, xsd-parser/src/models/data/path_data.rs |
| `Verif/Code/Usings.lean` | xsd-parser/src/models/code/module.rs |
| `Verif/Config/Steps.lean` | config/mod.rs, config/renderer.rs, enum_const.rs, renderer/mod.rs, renderer/steps/quick_xml/serialize.rs, renderer/steps/types.rs |
| `Verif/Config/StepsProofs.lean` | config/renderer.rs, enum_const.rs |
| `Verif/Gen/All.lean` | renderer/steps/quick_xml/deserialize.rs |
| `Verif/Gen/Choice.lean` | renderer/steps/quick_xml/deserialize.rs |
| `Verif/Gen/ChoiceExamples.lean` | deserialize.rs |
| `Verif/Gen/Content.lean` | renderer/steps/quick_xml/deserialize.rs |
| `Verif/Gen/ContentHelpers.lean` | content_helper.rs, models/data/complex.rs |
| `Verif/Gen/Defaultable.lean` | generator/data/complex.rs, renderer/steps/quick_xml/deserialize.rs |
| `Verif/Gen/Dispatch.lean` | models/data/dynamic.rs, serialize.rs, xsd-parser-types/src/quick_xml/deserialize.rs, xsd-parser/src/pipeline/renderer/steps/quick_xml/deserialize.rs |
| `Verif/Gen/Empty.lean` | deserialize.rs |
| `Verif/Gen/Interface.lean` | xsd-parser-types/src/quick_xml/deserialize.rs, xsd-parser/src/pipeline/renderer/steps/quick_xml/deserialize.rs |
| `Verif/Gen/Leaf.lean` | xsd-parser-types/src/quick_xml/deserialize.rs |
| `Verif/Gen/Modes.lean` | collect_namespaces.rs, generator/data/complex.rs, models/data/tag_name.rs, renderer/steps/quick_xml/serialize.rs |
| `Verif/Gen/Open.lean` | deserialize.rs, generator/data/complex.rs |
| `Verif/Gen/OpenChoice.lean` | deserialize.rs, generator/data/complex.rs |
| `Verif/Gen/Sequence.lean` | renderer/steps/quick_xml/deserialize.rs |
| `Verif/Gen/Serialize.lean` | renderer/steps/quick_xml/serialize.rs |
| `Verif/Gen/Simple.lean` | models/data/mod.rs, models/meta/mod.rs, models/meta/simple.rs, renderer/steps/mod.rs, renderer/steps/quick_xml/deserialize.rs, serialize.rs, variant_processor.rs |
| `Verif/Gen/SimpleContent.lean` | renderer/steps/quick_xml/deserialize.rs |
| `Verif/Gen/Tables.lean` | deserialize.rs, models/data/tag_name.rs, serialize.rs |
| `Verif/Gen/TablesExamples.lean` | serialize.rs |
| `Verif/Gen/Wrapped.lean` | xml/mixed.rs, xml/nillable.rs, xsd-parser-types/src/xml/text.rs |
| `Verif/Generate/Compile.lean` | complex.rs, deserialize.rs |
| `Verif/Generate/Constants.lean` | interpreter/state/prepare_modules.rs, models/meta/types.rs, models/schema/mod.rs, prefix_const.rs, with_namespace_trait.rs, xsd-parser/src/pipeline/renderer/steps/namespace_const.rs |
| `Verif/Generate/CustomDefaults.lean` | pipeline/generator/context.rs, xsd-parser/src/pipeline/interpreter/mod.rs |
| `Verif/Generate/Data.lean` | config/generator.rs, models/data/complex.rs, xsd-parser/src/pipeline/generator/data/complex.rs |
| `Verif/Generate/Defaults.lean` | data/complex.rs, deserialize.rs, generator/data/reference.rs, models/meta/mod.rs, renderer/steps/defaults.rs, renderer/steps/types.rs, xsd-parser/src/pipeline/generator/context.rs |
| `Verif/Generate/EnumConst.lean` | generator/context.rs, models/data/enumeration.rs, renderer/steps/enum_const.rs, renderer/steps/quick_xml/deserialize.rs, xsd-parser/src/pipeline/generator/data/enumeration.rs |
| `Verif/Generate/FieldNames.lean` | models/naming/explicit.rs, pipeline/generator/data/complex.rs, pipeline/renderer/steps/types.rs, traits/naming.rs |
| `Verif/Generate/HelperNames.lean` | pipeline/generator/data/complex.rs, pipeline/generator/data/dynamic.rs, pipeline/renderer/context.rs |
| `Verif/Generate/Namespaces.lean` | models/data/tag_name.rs, models/meta/custom.rs, models/meta/types.rs, xsd-parser/src/pipeline/renderer/steps/quick_xml/serialize.rs |
| `Verif/Generate/ProvidedTypes.lean` | xsd-parser/src/pipeline/generator/mod.rs, xsd-parser/src/traits/naming.rs |
| `Verif/Generate/QNames.lean` | generator/data/complex.rs, generator/data/enumeration.rs, renderer/steps/quick_xml/deserialize.rs, xsd-parser-types/src/xml/qname.rs, xsd-parser/src/misc/qname.rs |
| `Verif/Generate/SerdeEnums.lean` | generator/data/enumeration.rs, serde_xml_rs_v7.rs, serde_xml_rs_v8.rs, xsd-parser/src/pipeline/renderer/steps/serde/quick_xml.rs |
| `Verif/Generate/SerdeNames.lean` | generator/data/complex.rs, models/data/tag_name.rs, quick_xml.rs, serde/mod.rs, serde_xml_rs_v7.rs, serde_xml_rs_v8.rs |
| `Verif/Generate/Traits.lean` | generator/context.rs, generator/state.rs, renderer/steps/quick_xml/deserialize.rs, xsd-parser/src/pipeline/renderer/steps/types.rs |
| `Verif/Generate/Worklist.lean` | context.rs, data/complex.rs, data/constrains.rs, data/enumeration.rs, data/type_.rs, mod.rs, state.rs |
| `Verif/Interp/Attributes.lean` | generate_types/update.rs, generator/data/complex.rs, models/data/tag_name.rs, models/meta/attribute.rs, models/schema/xs_generated.rs, traits/vec_helper.rs, type_processor.rs, xsd-parser/src/pipeline/interpreter/state/generate_types/variant_processor.rs |
| `Verif/Interp/ElementNames.lean` | generator/data/complex.rs, models/data/tag_name.rs, models/meta/element.rs, models/schema/xs_generated.rs, renderer/steps/quick_xml/deserialize.rs, serialize.rs, traits/vec_helper.rs, type_processor.rs, xsd-parser/src/pipeline/interpreter/state/generate_types/variant_processor.rs |
| `Verif/Interp/Groups.lean` | generate_types/type_processor.rs, xsd-parser/src/pipeline/interpreter/state/generate_types/variant_processor.rs |
| `Verif/Interp/Members.lean` | generate_types/update.rs, interpreter/state/fix_element_naming_conflicts.rs, models/meta/element.rs, models/name.rs, pipeline/interpreter/state/generate_types/variant_processor.rs, traits/naming.rs, traits/vec_helper.rs |
| `Verif/Interp/NodeCache.lean` | crate_ident_cache.rs, ident_cache.rs, models/ident.rs, state.rs, xsd-parser/src/pipeline/interpreter/state/crate_node_cache.rs |
| `Verif/Interp/NodeList.lean` | crate_node_cache.rs, interpreter/state.rs, xsd-parser/src/pipeline/interpreter/state/create_node_list.rs |
| `Verif/Interp/Redefine.lean` | crate_node_cache.rs |
| `Verif/Interp/SchemaTypes.lean` | models/meta/complex.rs, type_processor.rs, variant_processor.rs |
| `Verif/Interp/Substitution.lean` | fix_derived_types.rs, models/meta/dynamic.rs, type_processor.rs, xsd-parser/src/pipeline/interpreter/state/generate_types/variant_processor.rs |
| `Verif/Interp/SubstitutionResult.lean` | fix_derived_types.rs |
| `Verif/Meta/Printer.lean` | xsd-parser/src/meta_types_printer.rs |
| `Verif/Meta/TypeEq.lean` | attribute.rs, base.rs, complex.rs, dynamic.rs, element.rs, enumeration.rs, reference.rs, simple.rs, type_.rs, type_eq.rs, union.rs |
| `Verif/Meta/Types.lean` | ident.rs, meta/attribute.rs, meta/base.rs, meta/complex.rs, meta/dynamic.rs, meta/element.rs, meta/enumeration.rs, meta/mod.rs, meta/reference.rs, meta/simple.rs, meta/type_.rs, meta/type_eq.rs, meta/types.rs, meta/union.rs, schema/xs.rs |
| `Verif/Models/IdentCache.lean` | models/ident.rs, models/schema/mod.rs, xsd-parser/src/models/ident_cache.rs |
| `Verif/Models/SchemaSearch.lean` | xsd-parser/src/models/ident_cache.rs |
| `Verif/Naming/Builder.lean` | models/name.rs, xsd-parser/src/models/naming/default.rs |
| `Verif/Naming/Cases.lean` | models/naming/default.rs, models/naming/mod.rs, pipeline/generator/data/enumeration.rs |
| `Verif/Naming/Ident.lean` | xsd-parser/src/models/naming/mod.rs |
| `Verif/Naming/Numbers.lean` | models/naming/default.rs, models/naming/mod.rs |
| `Verif/Naming/TypeNames.lean` | config/generator.rs, models/code/ident_path.rs, models/name.rs, models/naming/explicit.rs, models/naming/mod.rs, traits/naming.rs, xsd-parser/src/pipeline/generator/mod.rs |
| `Verif/Occurs.lean` | xsd-parser/src/models/data/occurs.rs, xsd-parser/src/models/schema/occurs.rs |
| `Verif/Opt/ChoiceCard.lean` | flatten_complex_type.rs, models/meta/complex.rs, xsd-parser/src/pipeline/optimizer/merge_choice_cardinality.rs |
| `Verif/Opt/Common.lean` | flatten_unions.rs, mod.rs |
| `Verif/Opt/Duplicates.lean` | xsd-parser/src/pipeline/optimizer/remove_duplicates.rs |
| `Verif/Opt/Dynamic.lean` | deserialize.rs, dynamic_to_choice.rs, traits/vec_helper.rs, xsd-parser/src/pipeline/optimizer/merge_dynamic_types.rs |
| `Verif/Opt/Empty.lean` | empty_unions.rs, xsd-parser/src/pipeline/optimizer/empty_enums.rs |
| `Verif/Opt/EnumUnions.lean` | xsd-parser/src/pipeline/optimizer/merge_enum_unions.rs |
| `Verif/Opt/Flatten.lean` | models/meta/complex.rs, xsd-parser/src/pipeline/optimizer/flatten_complex_type.rs |
| `Verif/Opt/Mixed.lean` | meta/element.rs, models/name.rs, xsd-parser/src/pipeline/optimizer/simplify_mixed_types.rs |
| `Verif/Opt/Pipeline.lean` | xsd-parser/src/lib.rs |
| `Verif/Opt/Session.lean` | base_map.rs, config/optimizer.rs, empty_enums.rs, empty_unions.rs, remove_duplicates.rs, replace_xs_any_type_with_any_element.rs, resolve_typedefs.rs, typedef_map.rs, unrestricted_base.rs, xsd-parser/src/lib.rs, xsd-parser/src/pipeline/optimizer/mod.rs |
| `Verif/Opt/Typedefs.lean` | optimizer/misc/typedef_map.rs, xsd-parser/src/pipeline/optimizer/resolve_typedefs.rs |
| `Verif/Opt/UnionMembers.lean` | xsd-parser/src/pipeline/optimizer/empty_unions.rs |
| `Verif/Opt/Unions.lean` | xsd-parser/src/pipeline/optimizer/flatten_unions.rs |
| `Verif/Opt/Unrestricted.lean` | optimizer/misc/base_map.rs, xsd-parser/src/pipeline/optimizer/unrestricted_base.rs |
| `Verif/Parser/Config.lean` | config/parser.rs, file_resolver.rs, lib.rs, pipeline/parser/mod.rs, pipeline/parser/resolver/web_resolver.rs |
| `Verif/Parser/ConfigIdents.lean` | config/mod.rs, models/ident.rs, models/name.rs, models/schema/mod.rs |
| `Verif/Parser/Finish.lean` | models/schema/mod.rs, xsd-parser/src/pipeline/parser/mod.rs |
| `Verif/Parser/Loading.lean` | resolver/mod.rs, xsd-parser/src/pipeline/parser/mod.rs |
| `Verif/Parser/Prefixes.lean` | xsd-parser/src/pipeline/parser/mod.rs |
| `Verif/Parser/Resolvers.lean` | file_resolver.rs, many_resolver.rs, noop_resolver.rs, resolver/mod.rs |
| `Verif/Parser/Selected.lean` | config/generator.rs, lib.rs, pipeline/generator/mod.rs |
| `Verif/Runtime/AnySimple.lean` | qname.rs, xsd-parser-types/src/xml/any_simple_type.rs |
| `Verif/Runtime/Async.lean` | deserialize.rs, error_reader.rs, io_reader.rs, quick_xml/error.rs, reader/mod.rs, serialize.rs, slice_reader.rs |
| `Verif/Runtime/Attributes.lean` | xsd-parser-types/src/quick_xml/deserialize.rs, xsd-parser/src/pipeline/renderer/steps/quick_xml/deserialize.rs |
| `Verif/Runtime/Binary.lean` | xsd-parser-types/src/xml/any_simple_type.rs, xsd-parser-types/src/xml/base64.rs, xsd-parser-types/src/xml/hex.rs |
| `Verif/Runtime/BuiltIn.lean` | config/interpreter.rs, interpreter/state.rs, xsd-parser-types/src/quick_xml/deserialize.rs, xsd-parser/src/lib.rs, xsd-parser/src/pipeline/interpreter/mod.rs |
| `Verif/Runtime/Driver.lean` | xsd-parser-types/src/quick_xml/deserialize.rs |
| `Verif/Runtime/Element.lean` | xml/value.rs, xsd-parser-types/src/xml/element.rs |
| `Verif/Runtime/ErrorPath.lean` | xsd-parser-types/src/quick_xml/error.rs, xsd-parser-types/src/quick_xml/reader/error_reader.rs |
| `Verif/Runtime/Events.lean` | xsd-parser-types/src/quick_xml/reader/mod.rs |
| `Verif/Runtime/Facets.lean` | xsd-parser-types/src/quick_xml/mod.rs |
| `Verif/Runtime/Lists.lean` | xsd-parser-types/src/quick_xml/deserialize.rs, xsd-parser/src/pipeline/renderer/steps/quick_xml/serialize.rs |
| `Verif/Runtime/Maps.lean` | xsd-parser-types/src/xml/attributes.rs, xsd-parser-types/src/xml/qname.rs |
| `Verif/Runtime/Namespaces.lean` | xsd-parser-types/src/quick_xml/deserialize.rs |
| `Verif/Runtime/RawBytes.lean` | misc/namespace.rs, xsd-parser-types/src/misc/raw_byte_str.rs |
| `Verif/Runtime/Scope.lean` | xsd-parser-types/src/xml/namespace_scope.rs |
| `Verif/Runtime/ScopeExamples.lean` | deserialize.rs |
| `Verif/Runtime/SerHelper.lean` | xsd-parser-types/src/quick_xml/serialize.rs |
| `Verif/Runtime/Serializer.lean` | xsd-parser-types/src/quick_xml/serialize.rs |
| `Verif/Runtime/Shared.lean` | xsd-parser-types/src/xml/namespaces.rs |
| `Verif/Runtime/Stepwise.lean` | xsd-parser-types/src/quick_xml/serialize.rs |
| `Verif/Runtime/StreamBuffer.lean` | xsd-parser-types/src/quick_xml/deserialize.rs, xsd-parser-types/src/quick_xml/reader/io_reader.rs |
| `Verif/Runtime/Text.lean` | xsd-parser-types/src/quick_xml/deserialize.rs, xsd-parser-types/src/quick_xml/serialize.rs |
| `Verif/Runtime/Wrappers.lean` | misc/namespace_prefix.rs, xml/any_simple_type.rs, xml/mixed.rs, xml/nillable.rs, xml/qname.rs, xml/text.rs, xsd-parser-types/src/quick_xml/serialize.rs |
<!-- /modelled -->

### 5.4 Assumed about code that is not modelled

* quick-xml: the reader hands over a well-nested list of events, then `Eof` for ever; attributes are split as written; the
  writer prints events one after the other; its namespace resolver is modelled in `Runtime/Namespaces.lean`, escaping and
  unescaping in `Runtime/Text.lean`.
* Rust's standard library: `HashMap`, `BTreeMap`, `IndexMap`, `Vec` and `str` behave as association lists and lists of
  characters; integers are unbounded except where overflow is a finding; memory does not run out; recursion does not
  overflow the stack (recursion that never ends is modelled as "no fuel suffices").
* Parsing and printing of numbers (`FromStr`, `Display` for integers and floats), regular expressions, URLs, `inflector`
  (case conversion), `proc_macro2`/`quote`/`prettyplease` are parameters of the theorems that need them.
* `async fn`: the compiler's translation into a state machine with one suspension point per `.await` is trusted; the
  asynchronous readers and writers of `quick_xml`/`tokio` are parameters (`Runtime/Async.lean`).
* Generated code is modelled as combinators (`Gen/*.lean`) with the control flow of the `quote!` templates; that the
  renderer prints these templates and that rustc accepts the result is not part of the model.

### 5.5 Not modelled

* `xsd-parser/src/pipeline/parser/resolver/web_resolver.rs`, the schema reader itself (`models/schema/xs/*`, generated). Of the file resolver the operating system and the crate `url` are parameters.
* `config/*` (collection of options) beyond the render steps of C78 and the flags named above, `misc/` beyond `raw_byte_str.rs` and the printing of namespaces (C88), `traits/` beyond `vec_helper`, `macros.rs`.
* The render steps other than the quick-xml deserializer and the defaults: `defaults.rs`, `types.rs`, `enum_const.rs`, `sub_modules`. Of `with_namespace_trait.rs`,
  `namespace_const.rs` and `prefix_const.rs` the names and values are modelled (`Generate/Constants.lean`). Of `quick_xml/serialize.rs` the templates of
  structs, enums and their fields are modelled (`Gen/Serialize.lean`), and the collection of namespaces for the root
  element (`Generate/Namespaces.lean`), and the declarations of each mode with `quick_xml/collect_namespaces.rs`
  (`Gen/Modes.lean`). Of the `serde` steps the names and defaults of members are modelled (`Generate/SerdeNames.lean`).
* `benchmark`, `examples`, tests.

## 6. Status

<!-- status -->
| id | property | status | note |
|---|---|---|---|
| C01 | In-scope namespaces reported during deserialization are the XML ones | proved | Helper and quick-xml scope stack refined to a stack-of-scopes specification, for every event list. |
| C02 | Skipping an unknown element skips exactly that element | proved | For every element tree and every continuation; also that the element is rejected when any content is not allowed. |
| C03 | Deserializing a finite document terminates | partial | Terminates for every deserializer that ends at end of file, and every deserializer generated for a table of types without open content ends there (C03_generated_terminates), as do empty types. The full claim is false: xs:any elements, sequences and empty structs with open content do not end on truncated input (C03_element_diverges_on_truncated, C03_open_sequence_diverges_on_truncated, C03_open_struct_diverges_on_truncated). |
| C04 | Simple content does not depend on how the text is chunked | proved | For every list of content events, for elements of simple types, for complex types with simple content and attributes, and for types without content. |
| C05 | List values are tokenised as XML Schema lists | partial | Holds when the text has no two adjacent separators; otherwise false (witness), because the text is split at every blank. |
| C06 | Occurrence bounds of repeated elements are enforced when a value is finished | partial | finish_vec never rejects (finding), arrays enforce exactly N, finish_arr_default panics with more than N values (finding). |
| C07 | Attributes: each declared one is read at most once, unknown ones are rejected | partial | Acceptance characterised for every attribute list and independent of order; attributes are matched by local name when their prefix is unbound or absent, so a foreign attribute can be taken for a declared one (C07_other_name_accepted). |
| C08 | Boolean text is decoded by a fixed table and nothing else | proved | Over all strings. |
| C09 | Generated sequence deserializers accept every valid document | partial | For every struct type with xs:sequence content, every document with the children in order, the counts within bounds and no two particles competing for a child is read, each field getting its values in document order. Particles are elements and groups: choices, and sequences nested to any depth, optional or repeated (C09_nested_*: a nested sequence keeps its state until a foreign tag or the end tag comes, and its value is stored then). An element may be named again after one with a fixed count. Finding: a sequence with an absent optional dynamic element is rejected. Missing: xs:any and text particles, mixed content, a required group of optional elements without any of them. |
| C10 | Generated deserializers accept only valid documents | partial | Proved for children that never hand a tag back to the parent (all simple-content children): everything accepted is a sequence of children in order, upper bounds and single fields enforced. False in full: C10_list_minimum_not_enforced, C10_nesting_leak, C10_reference_ignored are counterexamples. |
| C11 | Generated xs:all deserializers are order independent | partial | For every list of fields (elements, and groups or substitution groups behind them) any order of the children within the bounds is read exactly, permutations give the same value; accepted documents with simple-content fields are exactly such contents, duplicates and missing required elements are rejected. False: bounds of repeated elements (C11_maximum_not_enforced) and two substitution groups in one xs:all (C11_second_dynamic_unreachable). Text, any and mixed content in xs:all not modelled. |
| C12 | Generated choice deserializers pick the alternative named by the tag | partial | For every generated enum whose alternatives are elements or groups (C12_nested_*: sequences and choices, nested to any depth): children of one alternative give the variant of the first alternative with that name, or of the first group that takes them; children of two alternatives, two children of a single alternative and missing content are rejected (alternatives that are elements); a repeated choice or sequence gives its values in document order; dynamic types read the first derived type that matches. Findings: bounds of repeated alternatives and repeated choices are not enforced, a skipped element makes the generated code panic, a second dynamic alternative is never read. Missing: text and xs:any alternatives, mixed content, soundness for alternatives with nested content, repeated groups as alternatives. |
| C13 | Serialize then deserialize is the identity for generated types | partial | Proved for every table of (possibly recursive) types: structs with attributes whose content is a sequence, xs:all, a repeated choice or a simple value, and enums that represent an element; sequences and choices may contain repeated or optional sequences and choices, to any depth; if a child can only belong to one particle, the simple values survive as text, and every prefix is declared. What is written is a document that the table describes, and it is read back as the same value. For each of the modes None, Local, Global and Dynamic a theorem gives conditions on the schema under which prefixes are declared. Missing: xs:any, mixed and nillable content, dynamic types. False for NamespaceSerialization::Local with names of other namespaces and with qualified attributes of the default namespace (three negations). |
| C14 | Serializers emit well-nested events and restore the namespace scope | partial | Proved for every xs:any element tree, for simple contents, lists and options, Text, Mixed, Nillable with a value, dynamic types with a start tag, for generated structs and enums, and for whole documents of every table of types. False for nil elements, dynamic types with an empty tag and AnySimpleType (negations). |
| C15 | Namespace declarations written by the serializer make every used prefix resolve correctly | partial | Exact characterisation for every history; holds when every prefix is used for one namespace; two findings (shadowed prefix, repeated declaration). |
| C16 | Text survives escaping | proved | Over all strings and all chunkings. |
| C17 | Binary values survive their text form | partial | Round trips proved; AnySimpleType hex decoding panics for odd length and accepts a plus sign (findings). |
| C18 | Wildcard elements survive a round trip | partial | Structure and (with one namespace per prefix) namespaces survive for content without references, PIs and comments. Findings: entity references are dropped, a shadowed prefix changes namespace. |
| C19 | Mixed, text and nillable wrappers are transparent | partial | Text before and after elements is attributed to the right element; Text, Mixed and Nillable round trips for any inner type that round trips; exact condition for nil. False for empty texts, Mixed at the root, repeated nil elements and unqualified nil attributes (negations). |
| C20 | Equality of qualified names is an equivalence compatible with hashing | partial | Equality is not transitive and the hash is inconsistent when resolved and unresolved names are mixed (findings). |
| C21 | Attribute maps keep insertion order and unique keys | proved | Over all operation histories. |
| C22 | Whitespace and digit facets follow XML Schema | partial | Replace exact; collapse gives the Unicode-white-space tokens and is idempotent; digits sound, complete for canonical literals only. Findings: no-break spaces collapsed, 0.5/007/1.0/+5/.5 rejected. |
| C23 | Error locations name the open element path | partial | Exact path for every event except errors raised at an end tag, which report the parent path (C23_end_tag_error_names_parent). |
| C24 | Schema loading visits every reachable document exactly once | proved | Every session of builder calls over every (possibly cyclic) document graph with finitely many locations; the resolver and the documents are a parameter. Reachability is stated for resolvers that look at the requested and current location only. |
| C25 | Distinct namespaces get distinct prefixes | partial | Proved for every session, every order of the alternatives and every flag, unless an offered prefix looks like a generated one; then it is false (C25_generated_prefix_clashes). |
| C26 | Every added schema keeps its own identity | partial | Proved for every session without a change of the resolver after a schema was added; false otherwise (C26_resolver_change_panics). |
| C27 | Included schemas take the namespace of the including schema | partial | Proved for the reference through which a document is first met; the statement is false for later references and for imports (three negations). |
| C28 | Name lookup without schema context is exact | proved | For every history of announcements and insertions and every partially known identifier, for schemas announced with add_schema before use. C28_unannounced_schema_missed shows that the announcement is needed. |
| C29 | Name lookup from a schema sees exactly the visible schemas | proved | First match in the depth-first order of the visible schemas, what is visible, and the recorded dependencies, for every cache. |
| C30 | Enumerating the definitions visible from a schema yields each once | proved | Ends; yields the first definition of each (kind, name) in depth-first order; every visible definition is covered once. |
| C31 | Types are interpreted after the types they depend on | partial | The list holds every listed component exactly once and after the components it strongly requires, errors only arise from cycles, and a cycle of strong dependencies between listed components is rejected. The order is proved to be computed under the assumption that no chain of lazy dependencies comes back to itself (C31_ends_partial); C31_circular_group_hangs shows that a group containing itself reached by such a chain makes the search run for ever, C31_error_names_other that the reported name need not lie on the cycle. |
| C32 | Members of one type get distinct names | partial | However elements, nested groups and wildcards are added, members have pairwise distinct identifiers, a clashing nested group gets a fresh identifier and only display names of others change; resolving conflicts is characterised exactly (C32_conflicts_exact). The names in the generated code are proved distinct for one namespace and names without underscores (C32_shown_distinct_partial); C32_any_clash, C32_renamed_clash, C32_prefix_clash show clashes between generated and chosen names, C32_group_then_element_panics a panic, C32_many_clashes_overflow an arithmetic overflow when a group is used 32 times in one list. |
| C33 | Following type references always terminates at the real type | proved | Exact characterisation for every table, loops and dangling references included. C33_loop_not_idempotent shows that idempotence needs the absence of loops (A = B, B = A resolve to each other). |
| C34 | Structural type equality is an equivalence compatible with its hash | partial | Equality of types is exactly equality up to synonyms for comparable types, symmetric, transitive and compatible with the hash. Reflexivity is proved for types that contain no custom type and no text element (C34_reflexive_partial); for those it is false (C34_not_reflexive). |
| C35 | Removing duplicate types preserves the meaning of every type | proved | For tables without typedef loops and undefined targets (Ok): termination with a quadratic bound, names kept, only references introduced, no equal definitions left, every name stands for a structurally equal type. C35_same_documents_partial adds that accepted documents are unchanged unless dynamic types with differently named derived types are merged; C35_different_substitutions_merged and C35_loop_never_ends show what happens outside the hypotheses. |
| C36 | Resolving typedefs only shortcuts references | partial | No mention changes what it stands for, documents are unchanged, the pass is idempotent. That no mention of a plain typedef remains is proved for the mentions the pass rewrites (C36_no_typedef_mentioned_partial); bases of simple types, repeated references and derived-type keys keep theirs (C36_simple_base_kept). |
| C37 | Flattening unions keeps the member types and their order | partial | Flattening ends for every table without cyclic union membership, keeps the leaves in order, leaves no nested union; texts and the chosen member are kept when no union on the way has facets (NoFacets). False in general: self-containing unions never end, facets of nested unions are lost (both proved). |
| C38 | Removing duplicate union members does not change the accepted texts | proved | For every table whose references are acyclic and closed (the pass resolves members through the typedef map, which ends only for those). |
| C39 | Removing empty enumeration variants and empty types keeps everything else | proved | Exact effect per entry, idempotence and effect on accepted documents for all three passes; the empty text is lost by the first pass (proved with a witness). |
| C40 | Flattening nested groups accepts at least the original documents | partial | Flattening one complex type and the whole pass never rejects an accepted document, for every nesting and all occurrence bounds, if the content group belongs to one type, names are distinct wherever the order is kept (Separate), nested choices are not empty and equally named wildcards agree; flattening ends unless a group contains itself. Without these conditions the property is false: C40_repeated_alternative_lost, C40_order_lost, C40_empty_content_lost, C40_cyclic_group_diverges. |
| C41 | Merging choice cardinalities accepts at least the original documents | partial | Proved for whole tables in which no choice is shared and no type repeats both its choice and an alternative a limited number of times. False otherwise: counts are combined by maximum instead of product (witness), a shared choice loses its repetitions for the second type (witness), and a synonym as content panics (witness). |
| C42 | Merging and converting dynamic types keeps every derived type selectable | partial | Merging keeps exactly the selectable concrete types if no dynamic type is derived from itself and equal names list equal types (else negations: divergence); converting keeps selection by tag, xsi:type and default if no element and type of one dynamic type share a name (else negation: the second is lost). |
| C43 | Occurrence arithmetic and the chosen container fit the bounds | partial | Addition exact; multiplication exact except 0 times unbounded (finding). |
| C44 | Generated identifiers are valid Rust identifiers | partial | Holds except for the reserved words async/await/dyn missing from the table and for names without any identifier character. |
| C45 | Automatically numbered names never repeat | partial | Unique for one base name; names of different base texts can collide (finding). |
| C46 | Relative module paths point to the right item | partial | Relative paths proved; display loses the absolute flag (finding). |
| C47 | The generated use-statements import exactly the requested items | partial | Exact for paths with at least two segments; single segment paths are dropped (finding). |
| C48 | Writing modules to files emits every module once at its own path | partial | One write per module at distinct paths, except that a module named mod clashes with its parent (finding). |
| C49 | Recursive types are boxed so that every generated type has finite size | partial | Cycles whose way back to the last generated type breaks the order of generation at most once (this includes all cycles of up to three types with elements) and forced boxes. The full claim is false: C49_long_cycle_unboxed (four types) and C49_alias_cycle_unboxed. |
| C50 | Code is generated for every referenced type exactly once | proved | Requests of every kind of type, cache, queue and traits; the rendering of values and custom generators are parameters. Several calls and types provided by the user are covered. |
| C51 | An extended type accepts base content followed by the added content | partial | Proved: a once-occurring sequence extended by a once-occurring sequence without common elements, or by any choice/all, accepts exactly base then extension; an all base at least that; empty base; no particle. Refuted otherwise by C51_repeated_base, C51_optional_extension, C51_choice_merged, C51_choice_appended, C51_common_name, C51_empty_extension_widens. |
| C52 | Repeating an element inside a group keeps all its occurrences | partial | Proved for choices (every alternative is still accepted). Refuted for sequences: a repeated element is lost and the last bounds win. |
| C53 | Unions and enumerations choose the first member that accepts the text | proved | Unions: first member that accepts, error with all failures otherwise, round trip; enumerations: first literal, constants of the base type, last catch-all, else an error. Finding: the white space facet is not applied to the literals (C53_enum_whitespace_ignored). |
| C54 | Types treated as defaultable can be constructed from nothing | partial | The search with its cache of running entries is proved to end on every table and to decide exactly the groups that can be constructed from nothing, in any order of queries; the default value of such a group exists and holds minOccurs values per field. With FLATTEN_ENUM_CONTENT a choice whose only alternative is an optional xs:any (or maxOccurs=0) is an exception: the generator panics (C54_any_choice_panics). Complex mixed types are not covered. |
| C55 | Merging the enumerations of a union keeps every alternative | partial | Ends, never panics, same alternatives and same documents proved when the alternatives of a union have different names and unions have no own facets. Without: C55_same_name_lost, C55_facets_lost, C55_self_union_never_ends, C55_literal_context_lost show that the property is false. |
| C56 | Replacing restricted types by their base accepts no less | partial | Exactly the restricted types are replaced, by the end of the chain; ends; accepts no less if restrictions narrow, no type contains itself and no simple type restricts a list. False for restricted lists (C56_restricted_list_lost) and self restrictions (C56_self_restriction_never_ends). |
| C57 | Simplifying mixed types keeps every document | partial | simplify_mixed_types: for every visiting order, if content is named directly, sequences must occur and consist of single elements, alternatives of choices need not occur twice, and contents are not shared, no document (in which neighbouring texts are one) is lost; the pass never panics when content is not a synonym; only texts are added, the rest of the table is unchanged. False outside: synonym content panics, optional content / nested groups lose texts, shared content accepts texts in unmixed types, a text counts as an element of a choice. |
| C58 | Restricted simple types accept exactly the texts that satisfy their facets | partial | Proved for every chain in which at most one step has patterns and repeated facets are at least as strict. False otherwise: patterns of several steps are alternatives, NaN passes every range, lengths of strings count bytes, lists with a pattern make the generator panic, facets on enumerations drop the values, own output with fraction digits may be rejected (all proved as counterexamples). |
| C59 | The content of a complex type is the content model of the schema | partial | Exact for every nesting of groups, group references and wildcards in which element names of a group are distinct and no nested group is empty; refuted without (C59_empty_alternative_lost, C52_*). Not covered: mixed content, simple content, substitution groups. |
| C60 | A type derived by restriction accepts its own content model | partial | Exact if the restriction starts with the required members of the base in their order and with their types; refuted otherwise by C60_optional_reordered, C60_alternative_kept, C60_nested_group_doubled, C60_type_kept. |
| C61 | The root element declares the namespaces of everything below it | partial | Nothing superfluous for any order; exact for the first type and for types without cycles; prefixes are declared under the condition that names of elements are covered by the types below. False in general: C61_foreign_element_undeclared, C61_cycle_incomplete. |
| C62 | With dynamic namespaces the root declares what the value uses | partial | What is collected is exactly what the types of the value use; every prefix resolves if elements are in the namespace of the type around them or of their own type. False for elements of simple type of another namespace, and the default namespace is not declared (two negations). |
| C63 | The attributes of a generated type are those the schema declares | partial | Every type with finitely nested groups is processed; what the list of attributes contains is characterised exactly; it is the attribute uses of XML Schema when names, types and defaults of redeclared attributes agree, references are qualified and the attributes of a group have the same names in the schema of the type. False otherwise: redeclared types, fixed values, defaults of global attributes, references in schemas with unqualified attributes, attributes redeclared from another namespace, prohibited in extensions, wildcards of restricted types, attribute groups of other namespaces or forms (eleven negations). |
| C64 | Heads of substitution groups read exactly their members, dynamic types exactly their derived types | partial | For every run: heads read exactly themselves (unless abstract) and all elements in their substitution group, each with its declared type; dynamic types have exactly the derived types; elements and types are processed without an error once what they depend on is processed; the final pass ends. Equal to XML Schema's rule if no member is abstract and the head does not block. False otherwise: abstract members and types are accepted, block is ignored, a member with two related heads is not recorded as direct. Types that are neither abstract nor marked as dynamic do not accept derived types at all. |
| C65 | A type held by a dynamic type implements its trait | partial | Every series of calls: a dynamic type requested by a call (generate_all_types, generate_named_types, or generate_type before the types it holds) has its trait implemented by every type with code it holds; nothing else implements it; implemented traits exist; required traits are those of direct parents. False if the code of a held type is created before the dynamic type is discovered (generate_type of a type that uses both), and for held built-in types, which have no code. |
| C66 | Values of dynamic types are read as the type they were written with | partial | Exactly characterised which derived type reads an element; by tag, by xsi:type and by default under distinct local names; what is chosen reads the element; any value written is read as a member of the same Rust type, if the prescribed name is that of the dynamic type. False if the element has another name than the type, if a value of the type itself has another element name, for an unprefixed attribute type, for derived types whose tag equals the prescribed name, for members with the same type, and xsi:type is stored with wildcard attributes or read as an attribute type without a namespace. |
| C67 | Elements are read and written under the name the schema gives them | partial | Elements correspond exactly to declarations; which tags are read is characterised; every declaration is read and written under its name if all documents are alike, references occur only where local elements are qualified, and declarations with the same local name in the same namespace agree. False in the other cases: references in schemas with unqualified elements and groups of other schemas get wrong names, unqualified elements are written below a default namespace, local and global elements of the same name are merged; and tags with other names are read. |
| C68 | The optimizer object gives what its passes give one after the other | partial | C68_exec_optimizer is the full statement for exec_optimizer with every set of flags. For arbitrary histories of direct calls C68_maps_unnoticed_partial needs at most one use of the bases and no replacement of xs:anyType after the typedefs were used; C68_stale_bases and C68_stale_typedefs show that both are needed. |
| C69 | The optimizer as a whole never makes the parser stricter | partial | C69_accepts_no_less_partial: for all flags but seven, and every well-formed table; the result has no circular and no dangling synonym. C69_same_documents_partial: without the flags that use base types instead of restrictions, and for plain unions and enumerations, exactly the same documents are accepted. Missing: replace_xs_any_type, merge dynamic types, convert dynamic to choice, flatten complex types, merge enum unions, merge choice cardinalities, simplify mixed types (each has its own property); without the stated conditions the claim is false: C69_default_loses_empty_text, C69_default_loses_lists, C69_empty_enum_accepts_more. |
| C70 | Built-in simple types accept their XML Schema literals and read the right value | partial | Exact for xs:long, int, short, byte in elements (C70_signed_exact); unsigned types exact up to -0; xs:integer exact within 32 bits, the other unbounded types within the pointer width; every integer read is the one denoted; round trip; booleans and floats complete. False beyond: seven negations. FromStr/Display of Rust are modelled from documentation, values of floats and big integers are not modelled. |
| C71 | Every document the type information describes is read by the generated code | partial | Proved from the type information on (C71_valid_document_read_partial): every document that is valid for a complex type of it is read by the generated deserializer, for every way to write it down and every finite nesting of sequences and choices in one another; and, composed with C69, every document that was valid before the optimizer (C71_optimized_document_read_partial). False for required choices with an optional alternative (C71_optional_alternative_rejected: three cases in which an element without content is valid and rejected); the theorems assume there are none (Filled). C71_option_can_be_missing: a field is an Option only if it can be missing. Missing: kinds of types that the tables of generated types do not have (mixed content, dynamic types, nillable elements, wildcards, nested xs:all, nested sequences without a required member), and documents whose elements have an xsi:type. |
| C72 | Every document valid for the schema is read by the code generated from the schema | partial | Exact for schemas of elements, complex types with at most one particle (any nesting), extensions of complex content (of empty content and of a sequence that occurs once, along chains of derivations), restrictions of groups of elements that start with the elements the base requires (of types without base and of other restrictions) and simple-content extensions; composed with the optimizer, the generator and the deserializer. C72_table_well_formed_partial: the table that is made has no dangling and no circular definition if the simple types have none, so the composed theorems ask nothing of the interpreted table. Missing: mixed content, other extensions (C51 shows why), other restrictions (C60 shows why), nillable/abstract/substitutable elements; simple types and attributes are taken as resolved; the restrictions of C69 and C71. |
| C73 | Asynchronous reading and writing do the same as synchronous reading and writing, whatever the schedule | proved | For every deserializer, serializer and schedule. Assumed of the readers and writers of quick_xml and tokio: the asynchronous variant delivers and takes the same events (SameReads, SameWrites); shown for SliceReader and kept by ErrorReader, whose asynchronous variant adds the path of elements twice. The translation of async fn to state machines by the compiler is trusted. |
| C74 | An interrupted serialization has written a beginning of the document | proved | For every serializer that ends or fails, every schedule and every point. Assumed of the writer: it appends the text of an event, and a part of it while it is being written or if it fails (Appends). |
| C75 | NamespaceScope keeps a value with the namespaces in scope at its element | proved | For every deserializer that uses the helper only for namespaces, every position in every well-nested document. C75_group_gets_next_scope shows that the statement is about elements: a group that is no element of its own is recorded with the scope of the event that ends it. |
| C76 | Combined resolvers answer like the first one that does not decline | proved | For every list of resolvers with state and every history of requests. Note: a missing file is an error of the file resolver, so fallbacks behind it are not asked (C76_missing_file_hides_fallback). |
| C77 | What the generated code writes is valid | partial | Every document that the generated table describes, and every document that the serializers write, is valid for the type information (C77_described/written_document_valid_partial) and, through the optimizer and the interpreter, for the schema (C77_schema_document_described/written_partial). Missing: mixed and dynamic types, nillable elements, wildcards, nested xs:all, which the tables do not have. Finding: a required choice without alternatives is read from an empty element (C77_choice_without_alternatives_read). |
| C78 | The configured render steps are the ones asked for, once each | partial | C78_steps_partial and C78_types_first_partial leave out EnumConstantsRenderStep used directly (it says it renders the types) and RenderStep::ContentHelpers added twice (not recognised); the property is false for both, see the findings. C78_quick_xml_complete holds without restriction. |
| C79 | Content helpers look up and change the first item of their variant | partial | C79_first_item, C79_none, C79_change and C79_methods hold without restriction. That the names differ (C79_names_distinct_partial) is false for a field that ends with _mut (C79_mut_clash), and is not shown for fields that differ in a final underscore only. |
| C80 | Types for serde: members have different names, and only what must be there has no default | partial | Not for mixed types with support for mixed types; findings: same local names in two namespaces (quick-xml, serde-xml-rs 0.7), attribute and element with the same name (0.7), name of mixed content, required lists and empty choices and lists. |
| C81 | Different types of the schema get different Rust names | partial | False in general: C81_names_not_distinct and the three clashes before it. C81_default_same_iff and C81_explicit_same_iff say exactly which two entries of one kind clash, C81_explicit_type_element which type and element; C81_default_names_distinct_partial proves the property for tables whose formatted names differ and do not end like the postfixes do, without display names and anonymous lists; C81_namespace_modules, C81_schema_modules, C81_one_module and C81_display_name_resolves say what modules and display names separate. |
| C82 | The constants of the generated code stand for the namespaces and prefixes of the schema | partial | C82_constants_defined holds always. C82_constants_stand_for_partial and C82_root_declarations need names that stay different in upper case and do not look like UNNAMED_n; the findings show that both can fail. C82_trait_agrees is for printable ASCII namespaces without a module name; C82_module_name_as_prefix and C82_trait_not_ascii show the other cases. |
| C83 | Printing the type information ends and shows everything inside a type | proved | For every table; the text of the single values and errors of the formatter are left out. C83_members_shown says which facts about a type are among its lines. |
| C84 | Redefined and overridden components replace the old ones everywhere | partial | Proved for every state reached by a run of the documents and every order of the hash sets, if no component of another namespace has to be replaced, for what can be seen by name from the document: complete redirection, copies, nothing else changes, termination, order irrelevant; and later components of the document refer to the new ones. Findings: references through anonymous components, of copied recursive components to themselves, of documents included later, of components hidden by the same name in an imported namespace and of other namespaces keep to the old component; recursive overrides refer to the overridden type; redefining an included component dangles. |
| C85 | Every anonymous type keeps its own declaration | partial | If different anonymous components of a document get different generated names then each keeps its declaration through the whole run, also in copies. Findings: two groups with local elements of the same name, or names that coincide when put together, lose a declaration. |
| C86 | Values of xs:anySimpleType are read and written by their type | partial | Round trip proved for all 44 types and unknown types; false in general: the namespace of xsi:type is ignored, booleans 1/0 are rejected, signs of unbounded integers are not checked, blanks at the ends of strings are lost, odd hexadecimal text panics. Floating point and big numbers are parameters. |
| C87 | Elements that only a wildcard allows are skipped, and nothing else is | partial | Proved for choices (C87_open_choice_skips) and xs:all (C87_open_all_skips) at every position between two children, for types whose only content is xs:any, and for sequences before the first child and while the next child is required. What happens elsewhere in a sequence is characterised (C87_open_sequence_moves_on, C87_open_sequence_loses_rest): the optional fields up to the next required one are given up, so the full claim is false: declared elements after a foreign one are lost without an error (C87_open_sequence_loses_element, C87_open_sequence_loses_middle); a nested group without fields that allows any content swallows the declared element after it (C87_open_group_swallows_sibling). Not covered: children that are groups. |
| C88 | Names and values in messages are shown as they are | partial | Exactness holds exactly for printable ASCII (C88_shown_exact_iff), so not for other text (C88_non_ascii_never_shown). No message contains an ASCII control character. Different byte strings differ only if they contain no backslash (C88_injective_partial); C88_ambiguous is the counterexample. |
| C89 | The type of a field is the declared type | partial | C89_element_type_partial leaves out elements that are both mixed and nillable: there the generated type is always wrong (C89_mixed_nillable_wrong). It also needs type names other than those of the imported runtime types (C89_name_captured) and runtime types given with a leading ::. C89_custom_type is for includes with a leading ::; C89_crate_path_broken shows crate:: includes with absolute paths. Boxes and containers around the type are not modelled. |
| C90 | Sharing of namespace lists is invisible | proved | Arc and HashMap are those of the standard library: a cell with the number of its owners, and a map that is iterated in any order. Weak references and threads are not modelled. |
| C91 | The configured names of crates are used | partial | C91_patch_exact holds for all paths of plain identifiers. The paths written by the render steps and imported types of fields use the configured names (C91_paths_renamed, C91_imported_types_renamed; the crates must not be called like each other). False for the types of fields with absolute paths (C91_absolute_types_not_renamed) and for String with alloc (C91_string_of_std). |
| C92 | A missing attribute gets its default value | partial | Proved for types without lists, new types for references, white space facets and (in unions and enumerations) facets or typed variants before the last one; the rest is refuted by eight findings: defaults of lists are rejected, with TypedefMode::NewType or Typedef the code does not compile, white space is kept, another member or variant than the one that is read, INF and NaN panic. |
| C93 | Constants of enumerations are the values of the schema | partial | Patterns are exact for all texts; constants for ASCII values of texts and integers, and for finite numbers. Findings: values outside of ASCII and INF/NaN make the generator panic, enumerations of restricted integer types do not compile, integers are compared as texts. Custom base types (QName) are not modelled. |
| C94 | Simple types generated for serde accept the texts of the schema | partial | Proved for enumerations without typed variants. Findings: typed variants (made by merge_enum_unions, which OptimizerFlags::SERDE asks for) give code that serde refuses, or that never catches anything (serde-xml-rs 0.8); no text is ever read as a union. |
| C95 | Qualified names in enumerations and defaults keep their meaning | partial | Proved for values with a declared prefix and texts that mean a name, with any bindings in schema and document. False for values without prefix: the default namespace of the schema is dropped, so the same name with a prefix is refused and the same text in any other namespace is accepted; an undeclared prefix is accepted if the texts are equal. |
| C96 | Members with different names get different Rust names | partial | For names of words with at least two letters, in any style, with or without a number at the end: the exact names, and two members get the same name exactly if they consist of the same words and the same number. So it is false for the same words in two styles (fooBar and foo-bar), for words of one letter (a_b and ab: one field, one constant) and for several numbers (level-1.11 and level-11.1). Numbers before words and characters outside ASCII are not covered by the positive theorems; the conversions of Inflector are trusted. |
| C97 | The members of a generated type have different names | partial | Proved for names of words (C96) if all attributes, elements, content and texts differ in their words; with a postfix for attributes it is enough that attributes and elements differ among themselves. False with the default naming for an attribute and an element of the same name (legal in a schema), for an attribute called content, and for an element called textBefore in a mixed type. Display names decide alone (C97_display_names). |
| C98 | The types written beside a type have names of their own | partial | Exact condition proved for all names of types (C98_items_distinct_iff_partial) and, without any further condition, for serializers and deserializers (C98_helpers_distinct); that types never meet names of contents and traits is false: C98_content_clash, C98_trait_clash. Types of serde-xml-rs 0.8 are left out. |
| C99 | The configured parser loads what the configuration says | partial | Loading, order of the resolvers and who answers are proved for every configuration, assuming of the crate url that http and https addresses are not paths of files. That refusals of the server are reported is false: the status is not looked at (C99_status_ignored). Prefixes with the restriction of C25. Names of schemas and the debug output are left out. |
| C100 | Identifiers in the configuration denote the components they name | partial | Namespaces, texts and the search for the schema are exact for every table. Not every type can be named: types with generated names cannot (C100_generated_names_lost), and of schemas with the same name only the first is found, in any namespace (C100_same_schema_name). Kinds other than elements and types are left open (schema 0) if the namespace has several schemas, as C100_undeclared says. |
| C101 | The configuration selects the types that are generated | partial | The queue holds exactly the selected types that are not provided by the user, each once (C101_selected), and the selection succeeds exactly if the schemas resolve the listed identifiers to types (C101_succeeds_partial); declared elements and types can be listed by their names (C101_declared_listed). Finding: the cache of identifiers is not asked for the listed types, so that a global attribute in a namespace with several documents cannot be listed by its name alone (C101_cache_not_asked). The resolution of identifiers is C100, the types reached from the selected ones are C50. |
| C102 | Reading from a stream gives its events and needs memory for one event | partial | The events do not depend on what was read before (C102_events_partial). Finding: the bound on the memory is false, the buffer is never cleared and keeps all bytes read so far (C102_buffer_keeps_everything, C102_buffer_unbounded). Trusted: quick_xml's read_event_into appends to the buffer it is given and does not clear it, as its documentation says; quick_xml itself is not part of the repository. Errors of the reader and the asynchronous variant (same buffer) are not modelled here. |
| C103 | Default values of custom types are the values the schema states | partial | The generated function never returns a wrong value (C103_no_wrong_value), the generator rejects only texts that stand for no value (C103_rejected), and both agree if the custom types accept the text (C103_value_partial). Findings: the text is not checked when the code is generated (C103_not_checked), and in a union a custom type takes defaults that are valid for a later member only, so that the generated code panics on a valid document (C103_union_panics; for example xs:integer as BigInt and xs:string with the default auto). The other types are C92; custom types of the user are not modelled. |
| C104 | Types provided by the user are expected under their names | partial | A type whose name is a Rust identifier is expected under it in the module of its namespace (C104_path_partial), and two types at the same place exactly if names and modules agree (C104_same_place). Findings: names with other characters make the generator panic (C104_panics), and keywords are kept (C104_keyword_kept). Trusted: Ident::new of proc_macro2 panics for texts that are not made of the characters of an identifier and accepts keywords. |

<!-- /status -->
