# Formal model of pyangbind in Lean 4: design

The subject is `/repo` (robshakir/pyangbind at the pinned commit), read as text.
Everything below is about `pyangbind/lib/*.py`, `pyangbind/helpers/*.py` and the
parts of `pyangbind/plugin/pybind.py` that decide the behaviour of the generated
bindings.

## 1. Layout of the Lean project

| directory | content |
|---|---|
| `lean/Verif/Py/` | Python primitives used by the code: strings as `List Char`, `split`, `join`, `replace`, `int()`, `str()`, dictionaries with insertion order |
| `lean/Verif/Model/` | the model, function by function; every definition cites the file and lines it models |
| `lean/Verif/Spec/` | small specifications, written without using the model's helpers |
| `lean/Verif/Lemmas/` | helper lemmas |
| `lean/Verif/Props/` | the property theorems (named `Cnn_...`), each with a non-vacuity `example` |

Conventions.  A Python exception is a value of `Err`; a function that may raise
returns `Except Err α`.  A mutating method becomes a function returning the new
state.  `OrderedDict`/`dict` (insertion ordered) is an association list.
Python `int` is `Int` (unbounded, as in Python).  A Python `str` is a list of
Unicode scalar values.  Lone surrogates are not modelled.

When the code violates the property as stated, the file holds (a) a theorem
`Cnn_..._refuted` with a concrete witness showing the violation in the model, and
(b) a `Cnn_..._partial` theorem with the strongest version that holds, the
hypothesis being exactly the excluded point.  Section 5 lists the disagreements.

## 2. What each property becomes

| id | model | theorem and method |
|---|---|---|
| C01 | `safe_name`, the reserved table | direct; finite table by `decide`, the rest by cases on suffix |
| C02 | `safe_name` | characterisation of the kernel of `safe_name`, by cases |
| C03 | key attribute computation of the generator, attribute names of entries | single key: proved; several keys with a reserved word: refuted, partial theorem |
| C04 | class-name construction | refuted by witness; partial: injective on names without separators |
| C05 | `remove_path_attributes` | list induction |
| C06 | config inheritance over schema trees | structural induction; `config` on a choice refuted |
| C07 | range text parser (regular expression modelled as a backtracking matcher), `in_range_check`, `RestrictedClassType`, `YANGDynClass` | printing a range AST and parsing it gives its bounds (induction over text), hence acceptance iff membership |
| C08 | single-value range with `float()` modelled as round-to-nearest-even to 53 bits | refuted at 2^53+1, partial below 2^53 |
| C09 | the eight integer types | corollary of C07's lemmas |
| C10 | `length` restriction | as C07 |
| C11 | layers of `RestrictedClassType` | one layer / one restriction per layer: proved; refuted for two restrictions over a restricted base |
| C12 | `YANGDynClass.__new__/__init__` TypeError fallback | refuted (None, length-only string given an int); partial for the values that convert |
| C13 | `convert_regexp` over pattern text; `Spec/Regex.lean` reads the text in both dialects (XML Schema, `regex`) and gives both a meaning; `regex.match` is a hypothesis (`IsRegexMatch`) | simulation of the two readers on the converted text, then equivalence of the meanings; refuted for alternation, trailing newline, bare `^` and `$`, empty pattern, differing sets |
| C14 | dict_key value assignment loop | invariant by induction over the dict |
| C15 | dict_key restriction | direct |
| C16 | `YANGBool` | case analysis over the table |
| C17 | quantize as integer arithmetic | division lemmas |
| C18 | base64 encoder/decoder | induction by groups of three bytes |
| C19 | `YANGBits` | set invariant over histories; canonical text round trip |
| C20 | union selection loop | list induction |
| C21, C22 | `TypedListType` | invariant / refinement to a sequence |
| C23–C28 | `YANGListType` | refinement to an insertion-ordered map, invariants over histories |
| C29–C37 | instance trees, `_set`, choice clearing, `get` | structural induction over schema and instance trees, histories |
| C38–C49 | encoders and decoders over instance trees | round trip by induction |
| C50–C56 | path helper | string lemmas; refinement of the element tree to a finite map |
| C57–C59 | identity store | worklist invariant, closure characterisation |
| C60, C61 | typedef worklist | worklist invariant |
| C62 | `enumeration` value assignment in the generator | refuted by witness; partial for enumerations without values |
| C63 | decimal64 | refuted: the size is not checked; partial |
| C64 | `TypedListType` operators inherited from `MutableSequence` | case analysis |
| C65 | the type dictionary of the generator | refuted by witness; partial |
| C66, C67 | typedef worklist, defaults | worklist invariant |
| C68 | lists in instance trees | history invariant over trees |
| C69 | XML encoder and decoder over instance trees and element trees; lxml's type inference is a parameter | simulation of the loop over the elements, structural induction over the schema |
| C70 | XML encoder | positions in schema, tree and document; induction over the position |
| C71 | XML encoding of leaf values | case analysis over types, against an inductive relation after RFC 7950 |
| C72, C73 | XML decoder | induction over documents; map lemmas |
| C74 | API operations and all three decoders, any documents | invariants of the tree, kept by each step the decoders are made of |
| C75 | the same, with the key leaves of entries | invariant of the tree with a frame condition on entries |
| C76 | `nativeNode`/`nativeKids`/`nativeEntries` (Model/Native); the document is compared with the tree position by position (`nDocAt` against `treeAt`) | induction over the position, with the invariant `NEmits` saying what is written for an object |
| C77 | the three loaders (Model/Ietf, Model/Native, Model/Xml); `Says`, `Concerns`, `Contradicts` (Spec/Loaded, Spec/NativeLoaded, Spec/XmlLoaded) describe a document against a schema | induction over the document: frame lemma (what is not concerned stays), then the value is set by its member or element and kept by the frame lemma |
| C78 | `identTy` (Model/IdentityLeaf) is the type generated from the identity dictionary of C23 (Model/Identity); serialiser and loaders as in C46 and C52; `JsonIdentity`, `XmlIdentity` (Spec/IdentityLeaf) are the encodings of the RFCs | the entry of the dictionary for a spelling is found by induction over the children of the base, then by computation |
| C79 | YANG statement trees and the classes the plugin makes of them (Model/Gen); `Node`, `Attr`, `DataIn`, `Conflict` (Spec/Gen) describe both sides by names | induction over the statement tree; the conditions of C32 and C74 are derived from conditions on the module |
| C80 | `Query` (Spec/Query) is the syntax of paths, `Selects` their meaning in the map from paths to objects (the registry of C51), independent of XPath text; the helper's rewriting and the evaluation of its result in Model/XPath | the text of a query is split, rewritten and parsed back (induction over steps, predicates and comparisons), then the evaluation is related to `Selects` by induction over the steps |
| C81 | `UTy` (Model/JsonLeaf): members and `_yang_type` of a union, its class chosen as in C20, its attributes those of the member; `MemberValue`, `IntType`, `StrType` (Spec/JsonTypes, Spec/UnionDoc) say which member a value belongs to | the member found for writing and the member found for reading are both the first that takes the value; for integers by the exact ranges of C07, for strings since the class at the bottom decides the value |
| C82 | `DumpOpt` (Model/Ietf) for all combinations of `filter` and `with_defaults`; `Incl` (Spec/JsonDoc) says what a subtree contributes, for any condition on leaves and leaf-lists | the induction of C41, for any options; then the conditions are compared |
| C83 | `runEvs` (Model/Reg) follows `run` of the tree and notes the calls of the helper in order, `helperAfter` makes them on the helper of Model/XPath; `regAt` (Spec/Reg) reads off the tree what is at a path | invariant: the registry of C51 agrees with the tree at every path. Each operation changes both in the same place (induction over the path; a container's cleared children, a new entry with its children and keys, a deleted entry); all paths are valid for C51, whose theorem then gives the lookups |
| C84 | `Model/YList`: outcomes of the list operations as values of `Except` | case analysis on the key, induction over the key leaves |
| C85 | `Model/DecRange`: the range expressions read as decimals, exact comparison, `float` of a decimal as a 53-bit binary number | parsing lemmas for literals; divisibility argument for exactness of `float`; refutations |
| C86 | `Model/DecDoc`: `Decimal(float)` exact, `float(Decimal)` to 53 bits (Model/DecRange), rounding to the fraction digits | error bound: the float is within a 2^53th of the decimal, so for fewer than 2^52 units strictly nearer to it than to any other multiple of the unit; uniqueness of the nearest. Text: `Decimal(str(x))` is `x` |
| C87 | `Model/BinLen`: both checks of the restricted class, on the value as given and on the octets | the length tests of C10; base64 of n octets has 4*ceil(n/3) characters |
| C88 | the IETF-JSON loader with annotations, as a loader that also lists what is attached where and which objects are replaced (Model/Notes) | agreement with the loader without annotations by induction over the document; soundness, completeness and frame of the list of events by the same induction |
| C89 | `Model/ExtMethods`: the names made slots, the loop over the registered methods, `hasattr`, the wrapper that adds the two keyword arguments | induction over the methods registered, with the invariant that those bound so far are none of the rest; cancellation of `/`-joined names |
| C90 | `Py/Literal`: newline translation, string literals of both kinds with all escapes, `repr` of strings; `Model/GenText`, `Model/GenValue`: the pieces of text written by `repr`, between quotes and in docstrings, nested values, numbers | round trip of `repr` by induction over the text and the nesting; a length argument for the converse of the quoted texts; counterexamples |
| C91 | `Model/Split`: the directories, imports, class names and class references of `get_children` with `--split-class-dir`, for data nodes, rpcs and notifications; loading packages with `from . import` | induction over the tree: directories of different nodes differ, imports name directories that exist; loading as a fold that binds each name once; counterexamples |
| C92 | `Collect`: pyang's statements as a tree, `find_definitions`, the growing loop over modules, merging of definitions, the calls that write classes | Rank induction over import levels for the loop; membership of the collected list is reachability; refutations by computation |
| C93 | `find_absolute_default_type`, the search for a default and its base type in `get_element`, unions in `build_typedefs` | induction on the members against first-match of assignment (C20); the breadth-first search over flat parents; refutations by evaluation |
| C94 | `Model/RefDoc`: what `ReferencePathType` holds after an assignment, `_get`, and the serialisers on it | the value found is an object with the text assigned; induction on chains of leafrefs; the encoding theorems of leaves (C46, C71); `refHold_refInit` ties it to C54; counterexamples |
| C95 | `Model/JsonText`: `json.dumps` and `json.loads` as functions on text, the steps `dump` takes on the file, `load`, `loads` | fuel induction for reading what was written; longer texts are read the same, so a cut text cannot be read; induction on trees for distinct members; counterexamples |
| C96 | `Model/TypeBuild`: `build_elemtype` with its arguments, the classes `build_typedefs` adds, `class_map`, assignment to a leaf of the class | specification: `TypeIs` expands typedefs to a built-in type with restrictions; induction on it and on the order of the typedefs; then C11, C15, C16, C20; counterexamples computed |
| C97 | `Model/XmlText`: `etree.tostring` and `objectify.fromstring` with the parser of `decode` as functions on text, including the rule by which libxml2 drops blank text and that by which lxml drops declarations | specification: the relation `XmlDoc` between documents and texts; induction on it, with a lemma for pieces of text not yet closed; induction on documents for what is written |
| C98 | `Model/Calls`: the calls each loader makes, as functions of schema, binding and document | a step of a loader is *traced* if it equals running its calls; closed under sequencing, going down to a child or an entry (using that other children are untouched), induction on the document; counterparts for sessions |
| C99 | all of the above together: statements (`Model/Gen`), API and documents (`Model/Session`), `dump` and `load_ietf` of files (`Model/JsonText`) | classes of a supported module meet the hypotheses of C38 and C75 (induction on statements and paths); whatever is assigned to leaves of safe types is a value of the type (induction on the ranges); key leaves by the invariant of C75 |
| C100 | `Model/Shared`: the calls of the helper made by several bindings, in turns or one after the other; the choice of the object for a document | the part of the registry for one module follows its tree as in C83, and calls for other modules do not touch it; what is registered in a smaller registry is in a larger one after the same calls |
| C101 | `Model/Root`: the attributes and elements of `FakeRoot`, and its `get` | fold over the calls, next to the registry: the two agree on paths of one step that are not unregistered; only entries of lists are (induction on the path of an operation) |
| C102 | `Model/BitsTree`: the methods of the value of a bits leaf, called on the object at a path (no setter, no guard), with the calls of `_set` that `pop` and `remove` make | sorting declared bits gives a value of the type; induction on the path: a call that tells nobody changes one object; a call that tells once does what an assignment, which tells twice, does |
| C103 | `Model/GetList`: `get_list` on top of `get_unique`; what methods objects have is a parameter | C51 and C83 for the parent, C55 for `get_unique`, the parts of the text as in C51 |
| C104 | `Model/ClassNs`: the body of a generated class as a list of names, private names and `__slots__`, and how an attribute is looked up in the wrapper, the class and `PybindBase` | the names fall into groups that differ in their first characters or in two underscores inside; induction on the children for the properties |
| C105 | Model/SetAttr: which generated classes have `__slots__` in all their bases, and what an assignment to a name does | case analysis over kinds of objects, for all names and lists of children |
| C106 | Model/Rpc: the calls of the helper that operations on objects made with `register_paths=False` make, on the model of registration | every event of every operation is shown to be none that an entry makes, by recursion on schemas and paths; induction on histories; the refutation goes through the registry semantics of C51 |
| C107 | Model/RpcDoc: an rpc with its input and output, and what `load_xml` does with them; JSON by the models of C38 and C39 | instances of C38 and C39; for XML induction over the elements of any document the serialiser gives |
| C108 | Model/ObjPath: the list of all results of `_path()` in a tree, and `_yang_path()` | the list has no duplicates, by recursion on schemas: each path starts with that of its holder, steps are decoded by brackets and spaces; `_yang_path()` through the splitting of C50; for histories the invariant of C83 gives the conditions |
| C109 | Model/Extensions: the loop over the substatements of a node, with keywords that are texts or pairs | induction on the statements: what the dictionary of dictionaries has for a pair of names after each |
| C110 | Model/ObjPath: the objects of a tree with the paths they report; the path helper and its histories as in C83 | each reported path is shown to be a data path of the schema with the object there, by induction on schemas over the trees that C83 follows; then C83 and C51 |
| C111 | `add()` and `delete` of lists without key with a helper: the calls the children make (`RegAnon`) | the first child that is no list registers below a path that is not there, by C51; refuted, with the part for entries of lists only |

All listed properties can be expressed in a model; none is marked not applicable.

## 3. Trusted base

* Lean's kernel, and the axioms `propext`, `Classical.choice`, `Quot.sound`.
  No axiom is added; there is no `sorry`, `admit`, `native_decide` or `bv_decide`.
* The reading of the Python code that the model is: each definition cites the
  lines it models and names its simplifications.
* The assumed behaviour of the Python standard library and third-party packages
  (json, decimal, base64, regex, lxml): stated where they are modelled.

Axioms of each theorem of the manifest (printed by `#print axioms`):

* no axioms (4): `C09_every_type_has_bounds`, `C17_range_refuted`, `C19_position_order_refuted`, `C63_decimal64_bounds_refuted`
* `Classical.choice, Quot.sound, propext` (283): `C02_collision_iff`, `C02_injective_on_alphanumeric`, `C03_key_attrs_partial`, `C07_range_exact`, `C08_single_value_partial`, `C09_builtin_int_exact`, `C100_last_partial`, `C100_modules_partial`, `C101_attributes_partial`, `C101_elements_partial`, `C101_get_partial`, `C102_in_place_partial`, `C102_removed_partial`, `C102_session_partial`, `C102_then_partial`, `C103_binding_partial`, `C103_registry_partial`, `C103_text_partial`, `C104_append_refuted`, `C104_library_partial`, `C104_present_refuted`, `C104_reached_partial`, `C105_children_partial`, `C106_list_refuted`, `C106_untouched_partial`, `C107_json_partial`, `C107_xml_refuted`, `C108_distinct_partial`, `C108_history_partial`, `C108_yang_path_partial`, `C109_last_partial`, `C109_letter_refuted`, `C109_none_partial`, `C109_once_partial`, `C109_program_partial`, `C109_repeated_refuted`, `C10_length_exact`, `C110_found_partial`, `C111_add_refuted`, `C11_pattern_and_length_partial`, `C11_range_chain_deep`, `C11_range_chain_partial`, `C11_string_chain_characterised`, `C11_string_chain_partial`, `C12_any_value_partial`, `C12_builtin_int_partial`, `C12_decimal_integer`, `C12_float_integer`, `C12_int_leaf_text`, `C12_string_partial`, `C12_text_refuted`, `C13_matcher_exists`, `C17_assign_partial`, `C17_rounding_partial`, `C19_position_order_partial`, `C19_text_deterministic`, `C22_delete`, `C26_compound_keys_partial`, `C29_history_partial`, `C29_leaf`, `C29_only`, `C29_shown`, `C30_unfiltered`, `C31_ancestors_partial`, `C31_history`, `C32_exclusive_partial`, `C32_recent_partial`, `C33_frame_partial`, `C34_set_get_partial`, `C34_typed_partial`, `C36_frame_partial`, `C36_history`, `C36_mark_partial`, `C36_set_below_partial`, `C37_copy_partial`, `C38_file_partial`, `C38_ietf_roundtrip_partial`, `C38_reachable_partial`, `C38_session_partial`, `C39_file_partial`, `C39_native_roundtrip_partial`, `C39_reachable_partial`, `C39_session_partial`, `C40_any_order_partial`, `C40_order_irrelevant`, `C41_leaf_iff_set`, `C41_no_empty_container`, `C41_same_places`, `C42_member_names`, `C43_native_all_known`, `C43_native_reported_partial`, `C43_native_skip`, `C43_skip_partial`, `C44_ietf_last_refuted`, `C44_ietf_single_partial`, `C44_native_container_partial`, `C44_native_keys_partial`, `C44_native_removal_refuted`, `C45_lost_refuted`, `C45_merge_partial`, `C45_union_partial`, `C46_decimal_partial`, `C46_encoding_partial`, `C46_identity_name_refuted`, `C46_identity_typedef_refuted`, `C47_places_partial`, `C47_skip_partial`, `C48_ietf_partial`, `C48_missing_refuted`, `C48_native_partial`, `C49_defaults`, `C51_lookup_partial`, `C51_string_partial`, `C51_succeeds_partial`, `C52_equal_unchanged`, `C52_replace_partial`, `C53_no_leak_partial`, `C54_require_partial`, `C55_entries_partial`, `C56_delete_partial`, `C56_predicate_partial`, `C57_closure`, `C57_order`, `C58_cycle`, `C58_terminates`, `C59_bare_partial`, `C59_qualified_partial`, `C59_value_partial`, `C60_build_partial`, `C60_chain_refuted`, `C60_order_partial`, `C61_nearest_partial`, `C63_decimal64_bounds_partial`, `C65_types_kept_partial`, `C66_bare_name_partial`, `C67_own_default_partial`, `C68_distinct_keys`, `C68_found`, `C69_reachable_partial`, `C69_session_partial`, `C69_text_partial`, `C69_xml_roundtrip_partial`, `C70_container_iff_shown`, `C70_leaf_iff_set`, `C70_leaflist_in_order`, `C70_list_entries`, `C70_nothing_else`, `C71_document_partial`, `C71_encoding_partial`, `C71_identity_name_refuted`, `C71_identity_typedef_refuted`, `C71_prefix_refuted`, `C73_entry`, `C73_leaflist_partial`, `C74_distinct_keys`, `C74_exclusive_partial`, `C74_leaf_values`, `C74_leaflist_values`, `C74_marked`, `C74_present`, `C74_unset_default`, `C75_keys_agree_partial`, `C75_lookup_partial`, `C76_entries`, `C76_leaf_iff_set_partial`, `C76_leaflist_partial`, `C76_member_names`, `C76_no_empty_container`, `C76_same_places`, `C77_ietf_rest_partial`, `C77_ietf_values_partial`, `C77_native_rest_partial`, `C77_native_values_partial`, `C77_rfc7951_partial`, `C77_xml_no_texts_refuted`, `C77_xml_rest`, `C77_xml_values_partial`, `C78_any_module_refuted`, `C78_name_partial`, `C78_prefix_refuted`, `C78_qualified_partial`, `C78_read`, `C78_xml_name_partial`, `C78_xml_read`, `C79_choices_partial`, `C79_complete`, `C79_presence_refuted`, `C79_session_partial`, `C79_sound`, `C80_keyref_partial`, `C80_select_partial`, `C81_encoding_partial`, `C81_identity_refuted`, `C81_ints_strings`, `C81_leaflist_encoding_partial`, `C81_leaflist_ints_strings_partial`, `C81_xml`, `C82_if_set_leaf`, `C82_if_set_leaflist`, `C82_if_set_partial`, `C82_more`, `C82_no_empty_container`, `C82_unfiltered_leaf`, `C82_unfiltered_leaflist`, `C83_calls_partial`, `C83_documents_partial`, `C83_lookup_partial`, `C85_layers_partial`, `C85_layers_text_refuted`, `C85_no_number_refuted`, `C85_range_partial`, `C85_rounded_range_partial`, `C86_assigned_text`, `C86_native_partial`, `C86_range_text`, `C86_text`, `C87_document_partial`, `C87_octets_exact`, `C87_text_partial`, `C88_attached_partial`, `C88_bad`, `C88_data`, `C88_only`, `C88_overwrite_partial`, `C88_rest_partial`, `C88_value_partial`, `C89_call`, `C89_holder_partial`, `C89_leaf_partial`, `C89_reserved_refuted`, `C90_decimal_partial`, `C90_decimal_refuted`, `C90_octal_refuted`, `C90_values`, `C91_classes_partial`, `C92_collected`, `C92_definitions_partial`, `C92_scope_refuted`, `C93_inherited_refuted`, `C93_narrow_refuted`, `C93_typedef_enum`, `C93_typedef_enum_error_refuted`, `C93_typedef_enum_refuted`, `C93_typedef_identity_refuted`, `C93_typedef_last`, `C93_typedef_leafref_refuted`, `C93_typedef_none`, `C93_typedef_partial`, `C93_typedef_refuted`, `C93_value_partial`, `C94_encoding_partial`, `C94_identity_refuted`, `C94_pointer_partial`, `C94_xml_partial`, `C95_crash_partial`, `C95_file_partial`, `C95_rfc8259_file`, `C95_rfc8259_read`, `C95_rfc8259_unique`, `C95_rfc8259_written`, `C95_text_partial`, `C96_boolean`, `C96_built_partial`, `C96_enumeration`, `C96_integer_partial`, `C96_string_partial`, `C96_transparent`, `C96_union`, `C97_ascii_partial`, `C97_layout_partial`, `C97_references`, `C97_text_partial`, `C97_unambiguous_partial`, `C98_ietf_partial`, `C98_native_partial`, `C99_file_partial`, `C99_ietf_partial`, `C99_leaves_partial`, `C99_native_file_partial`, `C99_native_leaves_partial`, `C99_native_partial`, `C99_xml_leaves_partial`, `C99_xml_partial`
* `Quot.sound` (1): `C19_missing_position_refuted`
* `Quot.sound, propext` (159): `C01_not_keyword_partial`, `C01_safe_name_idempotent`, `C01_safe_name_identifier`, `C04_class_name_partial`, `C05_remove_path_attributes`, `C06_writable_iff_partial`, `C09_decimal_text_denotes`, `C102_choice_refuted`, `C102_undeclared`, `C103_top_refuted`, `C104_elements_refuted`, `C104_ordereddict_refuted`, `C104_underscore_refuted`, `C105_empty_refuted`, `C105_keyless_refuted`, `C105_refused_partial`, `C105_rpc_refuted`, `C108_keyless_refuted`, `C108_same_text_refuted`, `C111_delete_partial`, `C111_delete_refuted`, `C12_int_text`, `C13_alternation_refuted`, `C13_anchored_partial`, `C13_anchors_refuted`, `C13_caret_refuted`, `C13_complete_partial`, `C13_dollar_refuted`, `C13_inner_caret_refuted`, `C13_last_branch_partial`, `C13_library_partial`, `C13_newline_refuted`, `C13_sets_refuted`, `C14_enum_values`, `C15_at_sign_refuted`, `C15_members_exact`, `C16_boolean_exact`, `C17_representable_unchanged_partial`, `C18_base64_roundtrip`, `C18_rfc4648`, `C18_rfc4648_read`, `C19_only_declared`, `C19_text_roundtrip`, `C20_union_first_match`, `C21_canonical_values`, `C21_unique_partial`, `C21_unique_strings`, `C22_append`, `C22_failure_unchanged`, `C22_insert`, `C22_items_typed`, `C22_remove`, `C23_add`, `C23_add_named`, `C23_delete`, `C23_frame`, `C23_get_added`, `C23_keys_distinct`, `C23_set`, `C24_key_coherence`, `C25_compound_partial`, `C25_distinct_refuted`, `C25_single_partial`, `C27_key_guard`, `C28_append_compound_partial`, `C28_append_single`, `C32_keyless_refuted`, `C32_nested_refuted`, `C34_unset`, `C35_bits_refuted`, `C35_early_partial`, `C35_failed_set_partial`, `C35_number_refuted`, `C38_empty_false_refuted`, `C38_identity_key_refuted`, `C38_repeated_value_refuted`, `C38_same_key_refuted`, `C39_keyless_list_refuted`, `C39_repeated_value_refuted`, `C39_space_in_key_refuted`, `C43_all_known`, `C43_unknown_reported`, `C47_below_leaf_refuted`, `C47_ietf_partial`, `C47_own_refuted`, `C47_unqualified_refuted`, `C47_written_ietf`, `C47_written_native`, `C48_dotted_name_refuted`, `C48_ietf_container_refuted`, `C48_ietf_dotted_refuted`, `C50_split_refuted`, `C54_leaflists_refuted`, `C54_pointer_refuted`, `C60_nested_union_refuted`, `C60_unresolved`, `C62_rfc_numbering_partial`, `C62_rfc_numbering_refuted`, `C64_reverse_refuted`, `C64_setitem_inserts`, `C69_empty_binary_refuted`, `C69_empty_false_refuted`, `C69_empty_string_refuted`, `C69_identity_key_refuted`, `C69_no_bits_refuted`, `C69_same_key_refuted`, `C69_typed_key_refuted`, `C69_typed_strings_refuted`, `C72_attribute_error`, `C72_unknown_reported`, `C74_keyless_refuted`, `C75_load_refuted`, `C75_unset_refuted`, `C79_nested_refuted`, `C80_several_refuted`, `C81_empty_refuted`, `C81_leaflist_native_partial`, `C81_native`, `C84_add`, `C84_add_named`, `C84_delete`, `C84_setitem`, `C85_decimal_text`, `C85_single_refuted`, `C85_text_refuted`, `C87_others_refused`, `C89_leaf_kept`, `C89_path`, `C89_path_unique`, `C90_continuation_refuted`, `C90_doc_partial`, `C90_doc_refuted`, `C90_injection_refuted`, `C90_lines_refuted`, `C90_message_partial`, `C90_number_partial`, `C90_quoted_partial`, `C90_repr`, `C91_complete`, `C92_errors`, `C92_nested_refuted`, `C92_prefix_refuted`, `C92_written`, `C92_written_rpcs`, `C93_member_refuted`, `C93_typedef_default_refuted`, `C93_typedef_identity`, `C94_roundtrip_partial`, `C95_ascii_partial`, `C95_floats_partial`, `C95_names_partial`, `C95_native_names_partial`, `C97_comment_refuted`, `C97_documents_partial`, `C98_session_partial`, `C98_xml_partial`, `C99_keys_refuted`, `C99_native_key_refuted`, `C99_range_refuted`
* `propext` (164): `C01_keyword_refuted`, `C01_safe_name_not_reserved`, `C02_collision_witnesses`, `C03_key_attrs_refuted`, `C04_class_name_refuted`, `C06_writable_iff_refuted`, `C08_single_value_refuted`, `C100_documents_refuted`, `C100_update_refuted`, `C101_deleted_refuted`, `C101_entries_refuted`, `C102_above_refuted`, `C102_helper_refuted`, `C102_key_refuted`, `C102_raised_refuted`, `C102_update_refuted`, `C103_prefix_refuted`, `C108_yang_path_refuted`, `C110_list_refuted`, `C111_lists_partial`, `C11_deep_range_refuted`, `C11_derived_refuted`, `C11_second_pattern_refuted`, `C12_length_refuted`, `C12_none_refuted`, `C13_anchors_lang`, `C13_empty_refuted`, `C17_none_refuted`, `C19_leaflist_refuted`, `C19_undeclared_rejected`, `C21_leafref_refuted`, `C21_unique_refuted`, `C22_extend`, `C26_collision_refuted`, `C27_unset_refuted`, `C28_append_refuted`, `C28_setitem_refuted`, `C31_absent_refuted`, `C32_root_refuted`, `C33_same_name_refuted`, `C34_same_name_refuted`, `C35_failed_set_refuted`, `C35_two_restrictions_refuted`, `C37_leaf_list_refuted`, `C37_list_refuted`, `C38_binary_leaflist_refuted`, `C39_decimal_leaflist_refuted`, `C40_no_position_refuted`, `C40_same_position_refuted`, `C41_emptied_leaflist_refuted`, `C42_unambiguous`, `C43_native_dropped_refuted`, `C43_unknown_empty_refuted`, `C43_unknown_list_refuted`, `C44_ietf_empty_refuted`, `C44_ietf_runtime_refuted`, `C44_ietf_two_refuted`, `C44_native_merged_refuted`, `C44_native_runtime_refuted`, `C45_converted_refuted`, `C45_old_value_refuted`, `C46_boolean_leaflist_refuted`, `C46_decimal_exponent_refuted`, `C46_empty_typedef_refuted`, `C46_restricted_typedef_refuted`, `C47_int_key_refuted`, `C47_list_refuted`, `C50_split_partial`, `C52_equal_refuted`, `C53_children_refuted`, `C53_failed_refuted`, `C54_no_helper_refuted`, `C55_raises`, `C55_unique`, `C56_predicate_refuted`, `C59_prefix_refuted`, `C59_same_name_refuted`, `C60_prefix_refuted`, `C61_unrestricted_refuted`, `C64_iadd_refuted`, `C64_setitem_refuted`, `C65_builtin_refuted`, `C66_same_name_refuted`, `C67_own_default_refuted`, `C69_identity_leaflist_refuted`, `C69_identity_leaflists_refuted`, `C69_keyless_refuted`, `C71_boolean_leaflist_refuted`, `C71_empty_typedef_refuted`, `C72_alias_refuted`, `C72_inside_leaf_refuted`, `C72_namespace_refuted`, `C73_number_key_refuted`, `C74_native_key_refuted`, `C76_boolean_leaflist_refuted`, `C76_same_text_refuted`, `C77_ignored_refuted`, `C77_last_key_refuted`, `C77_list_emptied_refuted`, `C77_native_int_key_refuted`, `C77_native_list_emptied_refuted`, `C77_xml_no_text_refuted`, `C78_same_name_refuted`, `C78_same_name_tree_refuted`, `C80_alone_refuted`, `C80_or_refuted`, `C80_quote_refuted`, `C80_unregistered_refuted`, `C81_boolean_refuted`, `C81_document_refuted`, `C81_leaflist_boolean_refuted`, `C81_leaflist_long_refuted`, `C81_long_refuted`, `C81_range_refuted`, `C82_default_refuted`, `C82_unset_number_refuted`, `C83_kinds`, `C83_refused_key_refuted`, `C83_refused_value_refuted`, `C83_same_text_refuted`, `C83_unset_refuted`, `C85_digits_refuted`, `C85_none_refuted`, `C85_none_unbounded_refuted`, `C86_digits_refuted`, `C86_range_refuted`, `C87_text_refuted`, `C88_leaflist_refuted`, `C88_reload_refuted`, `C88_root_refuted`, `C88_roundtrip_refuted`, `C89_accessor_refuted`, `C89_hidden_refuted`, `C89_leaf_has`, `C89_method_refuted`, `C90_backslash_refuted`, `C90_doc_backslash_refuted`, `C90_message_refuted`, `C91_header_refuted`, `C91_module_name_refuted`, `C91_modules_refuted`, `C91_reserved_refuted`, `C91_rpc_refuted`, `C91_shadow_refuted`, `C91_shared_refuted`, `C92_action_refuted`, `C92_circular_refuted`, `C93_error_refuted`, `C94_dangling_refuted`, `C94_given_refuted`, `C94_order_refuted`, `C94_plain_refuted`, `C94_reload_refuted`, `C94_stale_refuted`, `C94_xml_reload_refuted`, `C95_crash_refuted`, `C95_failure_refuted`, `C95_loads_partial`, `C95_string_refuted`, `C95_unopened`, `C96_deep_refuted`, `C96_nested_union_refuted`, `C96_prefix_refuted`, `C96_same_name_refuted`

## 4. Modelled and not modelled

Every definition in `Verif/Model` cites the lines it models.  In short:

| file | modelled | not modelled |
|---|---|---|
| `lib/yangtypes.py` | `remove_path_attributes`, `safe_name`, `RestrictedPrecisionDecimalType`, `RestrictedClassType` (`range`, also over decimals, `length`, `pattern`, `dict_key`), `TypedListType`, `YANGBitsType` (also changed in place: `Model/BitsTree`), `YANGListType` (members, keys, `add`, `delete`, `append`, item access, `get`; the path strings of entries), `YANGBool`, `YANGDynClass` (conversion fallback, `_set`, `_changed`, presence, wrapped list methods, registration with the path helper), `ReferenceType` (`require_instance`, lookups), `YANGBinary`, `YANGBitsType`, `_add_metadata`, extension methods | `repr`, weak references and garbage collection |
| `lib/base.py` | `get`, iteration order of `elements` | `__getitem__` of containers beyond `get` |
| `lib/xpathhelper.py` | `_path_parts`, `_encode_path`, `_tagname_attributes`, `register`, `unregister`, `get`, `get_unique`, `get_list` over an element tree, with an evaluator for the XPath subset the helper produces; `FakeRoot` | `current()` with function calls, `tostring`, other XPath functions |
| `lib/serialise.py` | the three serialisers for integers, strings, enumerations, booleans, `empty`, identityrefs, unions of these, decimal64, binary and bits, the IETF tree, native JSON, `load_json`, `load_ietf_json` (with metadata), the calls they make, XML writing and reading, as trees and as text; leafrefs in documents | XML text that pyangbind does not write: CDATA sections, attributes, prefixed element names, encodings |
| `lib/pybindJSON.py` | `dumps` with `skip_subtrees`, `select`, `mode`; JSON text (written and read); `dump`, `load` and `load_ietf` as steps on a file; `loads`, `loads_ietf` | the text of floats, file systems beyond the order of writes |
| `helpers/identity.py`, `helpers/misc.py` | all of it | pyang's statement objects beyond names, prefixes and bases |
| `plugin/pybind.py` | configuration inheritance, class and key names, enumeration values, identity dictionaries, typedef resolution, default values, texts and values as literals, split directories, collecting modules and definitions (with `helpers/misc.py`), the classes of the nodes with choices, `build_elemtype` for the types above | reading YANG text (pyang), the Python program around the texts and values written, command line options |

The generated classes themselves are modelled by the tree model (`Model/Tree.lean`): a
schema tree with, for each child, its class, name, namespace, module and choice; setters,
`_unset_`, clearing of other cases, presence and lists are operations on instance trees.  The calls these operations make on a path helper are
modelled in `Model/Reg.lean`, those of objects of rpcs and notifications in
`Model/Rpc.lean`, and how documents of rpcs are read in `Model/RpcDoc.lean`.  `Model/SetAttr.lean` says which objects have room for names that are no
children.  `Model/ClassNs.lean` says for which names a
child is found under its own name at all; the tree model takes that for granted.  `Model/Extensions.lean` is the
loop that collects the extension statements of a node.

About `seeded/LOG.jsonl`: edits that did not type-check, and some that were found to change nothing observable or nothing
claimed, were taken out of the log; it is not a count of all attempts.  Lines with neither failed nor tightened theorems are
edits that no theorem noticed.

## 5. Disagreements between code and property

Generated from the theorems: each line is a way in which the code does not do what the property says, with the theorem that shows it for the model.

C01, Attribute names are legal and stable:

* `C01_keyword_refuted`: The full claim "never a Python keyword" is false: five keywords are missing from the reserved table, so e.g. a leaf called `await` is emitted as `await = ...`.

C03, List key names address real attributes:

* `C03_key_attrs_refuted`: The full claim fails: with keys `list` and `foo` the list looks for an attribute `list`, but the entry has `list_`.

C04, Generated class names are unique per schema path:

* `C04_class_name_refuted`: Two different containers `/a/b/c` and `/a-b/c` get the same class name, so one class definition overwrites the other.

C06, Read-only data is exactly the config-false subtree:

* `C06_writable_iff_refuted`: The full claim fails: `config false` on a choice is ignored, so the leaf `x` inside it is generated with a setter.

C08, Single-value range parts mean that value:

* `C08_single_value_refuted`: C08 is false in general: with `range "9007199254740993"` the leaf rejects 9007199254740993 and takes 9007199254740992 instead.

C11, All restrictions of a type hold together:

* `C11_deep_range_refuted`: C11 is false for three ranges: `typedef percent { type uint8 { range "1..100"; } } leaf x { type percent { range "1..50"; } }` silently becomes 0 when assigned 300.
* `C11_derived_refuted`: C11 is false for two restrictions on a derived string type: `typedef t { type string { length "1..10"; } } leaf x { type t { length "1..5"; pattern "a"; } }` takes "bbb".
* `C11_second_pattern_refuted`: C11 is false for two patterns: only the first is enforced.

C12, A restricted leaf never holds an out-of-type value after an assignment:

* `C12_length_refuted`: C12 is false: the integer 5 assigned to a `string { length "1..5" }` leaf stores the empty string.
* `C12_none_refuted`: C12 is false: `None` assigned to a `uint8 { range "1..10" }` leaf stores 0.
* `C12_text_refuted`: C12 is false: so does any text that is not a number, for every integer type with a range of its own.

C13, Patterns are anchored to the whole value:

* `C13_alternation_refuted`: C13 is false for a pattern with several branches: whatever comes after a string that matches one of the first branches is accepted.
* `C13_anchors_refuted`: The leaf takes `a` and nothing else but `a` with a newline.
* `C13_caret_refuted`: C13 is false for a `^` at the beginning: it makes no difference.
* `C13_dollar_refuted`: C13 is false for a `$` at the end of a pattern, an ordinary character in XML Schema: it makes no difference.
* `C13_empty_refuted`: C13 is false for the empty pattern: every assignment ends with an `IndexError`.
* `C13_inner_caret_refuted`: C13 is false for a `^` elsewhere: a leaf with the pattern `a^b` accepts nothing, not even `a^b`.
* `C13_newline_refuted`: C13 is false for a newline at the end: it is accepted after every string in the language of the pattern.
* `C13_sets_refuted`: C13 is false where the sets differ: `\w` has no `_` in XML Schema (it is punctuation) and has it in `regex`.

C15, Enumerations and identityrefs accept exactly their members:

* `C15_at_sign_refuted`: A legal enum whose name starts with '@' can never be assigned.

C17, decimal64 values are correctly rounded to the declared fraction digits:

* `C17_none_refuted`: C17 is false of values that are no numbers: `None` is taken, and stored as 0, without fraction digits.
* `C17_range_refuted`: C17 is false for a `decimal64` with a range: no rounding takes place.

C19, bits leaves hold a set of declared bits and print canonically:

* `C19_leaflist_refuted`: C19 fails for leaf-lists of bits: they take no text or any other of the values considered (only objects of the very class made for the elements).
* `C19_missing_position_refuted`: A `bits` type with a bit that has no `position` statement cannot be generated.
* `C19_position_order_refuted`: C19's position order is false in general: positions are compared as texts, so position 10 comes before position 2.

C21, Leaf-lists never hold duplicates:

* `C21_leafref_refuted`: C21 is false for leaf-lists of leafrefs: the generator does not ask for uniqueness there (pyangbind/plugin/pybind.py:926-939, against 891), so appending any accepted value twice stores it twice.
* `C21_unique_refuted`: C21 is false for values in another representation: `[1, "1"]` in a `uint8` leaf-list is stored as `[1, 1]`, and so are successive appends.

C25, Entries of a list have distinct key leaf values:

* `C25_distinct_refuted`: C25 is false in general: with a `uint8` key, `add(1)` and `add("1")` make two entries whose key leaf is 1, and so do `add(1)` and `add(k=1)`.

C26, Compound keys do not collide:

* `C26_collision_refuted`: C26 is false when values contain spaces: in a list with two string keys, the entry ("a b", "c") keeps the different entry ("a", "b c") from being added, and the second tuple's key finds the first tuple's entry.

C27, Key leaves cannot be changed through an entry:

* `C27_unset_refuted`: The guard does not cover `_unset_<key>()`: it empties the key leaf of an entry that stays under its key.

C28, Moving or appending an entry keeps its key:

* `C28_append_refuted`: C28 is false for `append` when a value of a compound key has a space or the last one is empty: `KeyError`.
* `C28_setitem_refuted`: C28 is false for item assignment: the entry goes under the given key, whatever its own key leaf was, and the copy's key leaf is overwritten.

C31, Setting a leaf marks all its ancestors changed:

* `C31_absent_refuted`: `_set_present(False)` makes a container with data below it report no change.

C32, At most one case of a choice holds data:

* `C32_keyless_refuted`: `add()` on a list without key does not clear the other cases.
* `C32_nested_refuted`: A choice in a container in a case: setting a leaf in a container of the inner choice does not clear the other cases of the outer one, because what the containers above are told is the inner choice only.
* `C32_root_refuted`: Choices at the top level of a module are not enforced: the object of the module's class has no `_set`.

C33, Setting one leaf does not disturb others:

* `C33_same_name_refuted`: With a choice of the same name above it, setting a leaf deletes data in the same case of the outer choice.

C34, Set then get, and unset:

* `C34_same_name_refuted`: With a choice of the same name above it, setting a leaf succeeds and has no effect: the container it is in is replaced by a new one.

C35, A failed assignment has no effect:

* `C35_bits_refuted`: **C35** fails for `bits`: a text with a name that is no bit, and anything that is no text (even the value of another leaf of the same type), is refused only after the data of the other case are gone.
* `C35_failed_set_refuted`: A value refused in `__init__` still marks the containers changed, and deletes the data of the other case.
* `C35_number_refuted`: **C35** fails for a plain `uint8` leaf given a text that is no number: the value is refused only in `__init__`, after `_set` has marked the container changed and deleted the data of the other case.
* `C35_two_restrictions_refuted`: **C35** fails for a string with a pattern and a length, one of which the value meets.

C37, Assigning a container copies its data:

* `C37_leaf_list_refuted`: A container with values in a leaf-list cannot be assigned.
* `C37_list_refuted`: The entries of a list are not copied.

C38, IETF JSON round trip:

* `C38_binary_leaflist_refuted`: C38, C39 and C69 fail for a leaf-list of binary values: it cannot be written.
* `C38_empty_false_refuted`: C38 fails for a leaf of type `empty` set to `False`: it is written as `false`, which is refused.
* `C38_identity_key_refuted`: C38 fails for a list whose key is an identity of another module: the prefix becomes part of the key.
* `C38_repeated_value_refuted`: C38 fails for a leaf-list with the same value twice (`[5, "5"]`): the second one is lost.
* `C38_same_key_refuted`: C38 fails for a list that has two entries with the same key value (added as `5` and as `"5"`): one is left.

C39, Native JSON round trip:

* `C39_decimal_leaflist_refuted`: C39 fails for a leaf-list of decimals: `0.1` is written as the float 0.1, which does not equal the decimal, so it is removed as a value that is not in the document.
* `C39_keyless_list_refuted`: C39 fails for a list without key that has an entry: loading raises `KeyError`.
* `C39_repeated_value_refuted`: C39 fails for a leaf-list with the same value twice (`[5, "5"]`): the second one is lost.
* `C39_space_in_key_refuted`: C39 fails for a list with two keys if a key value has a space in it: loading raises `KeyError`.

C40, User-ordered lists keep their order through native JSON:

* `C40_no_position_refuted`: C40 fails for documents without positions: the entries end up in the reverse order.
* `C40_same_position_refuted`: If two entries have the same position, one is dropped without an error.

C41, IETF JSON contains exactly the set data:

* `C41_emptied_leaflist_refuted`: C41 fails for leaf-lists: one whose only value was removed is still written, as an empty array.

C43, Unknown input members are reported or skipped:

* `C43_native_dropped_refuted`: C43 fails for entries of a user-ordered list that have the position of a later one: they are dropped, and their members are not looked at.
* `C43_unknown_empty_refuted`: C43 fails for members that are empty arrays: they are never reported.
* `C43_unknown_list_refuted`: C43 fails for members that are arrays with elements: they raise `AttributeError` even with `skip_unknown`.

C44, Overwrite replaces list contents:

* `C44_ietf_empty_refuted`: An empty array removes nothing.
* `C44_ietf_last_refuted`: What happens in general, for IETF JSON: loading with `overwrite` an array with elements for a list leaves, if it succeeds, one entry: that of the last element. So C44 fails for all documents with more entries than one, and for all lists that had more.
* `C44_ietf_runtime_refuted`: A list with two entries cannot be overwritten: removing them raises `RuntimeError`, with one of them gone.
* `C44_native_merged_refuted`: The entries of native JSON are merged with those the list had: the entry `x` of the document has no `z`, but keeps the one it had.
* `C44_native_removal_refuted`: When it works, for native JSON and a document with entries: loading with `overwrite` over a list succeeds only if all entries the list had, except perhaps the last, are in the document. So C44 fails for all other documents.
* `C44_native_runtime_refuted`: It raises `RuntimeError`.

C45, Merging a leaf-list keeps the union:

* `C45_converted_refuted`: Numbers given as strings: all that is there and all that is added is lost.
* `C45_lost_refuted`: What is kept and what is lost in general: an old value is there afterwards if and only if the document has it.
* `C45_old_value_refuted`: The old value 5 is lost.

C46, Leaf value encodings follow RFC 7951:

* `C46_boolean_leaflist_refuted`: C46 fails for the values of a leaf-list of booleans: they are written as numbers.
* `C46_decimal_exponent_refuted`: C46 fails for `0.0000001`: it is written as `1E-7`.
* `C46_empty_typedef_refuted`: C46 fails for a typedef of `empty`: it is written as `true`.
* `C46_identity_name_refuted`: C46 fails for an identity whose name starts with the name of its module: it is not qualified.
* `C46_identity_typedef_refuted`: C46 fails for a typedef of an identityref: identities of other modules are not qualified.
* `C46_restricted_typedef_refuted`: C46 fails for a typedef that restricts a 64-bit integer: it is written as a number.

C47, skip_subtrees removes exactly those subtrees:

* `C47_below_leaf_refuted`: A path that goes below a leaf, a leaf-list or (IETF mode) a list makes `dumps` raise `TypeError`.
* `C47_list_refuted`: `z` of all entries is written `/l/z`, the path without keys; it is not skipped.
* `C47_own_refuted`: The object itself, or one above it, cannot be skipped: the path is ignored.
* `C47_unqualified_refuted`: In IETF mode a path that begins with a name without module skips nothing.

C48, select keeps exactly the matching list entries:

* `C48_dotted_name_refuted`: A leaf whose name has a dot cannot be selected: unless some other leaf is found, `KeyError` is raised.
* `C48_ietf_container_refuted`: C48: in IETF mode `select` on a container removes nothing.
* `C48_ietf_dotted_refuted`: In IETF mode no leaf of a container in the entries can be selected: any name with a dot makes `dumps` of a list with entries raise `KeyError`.
* `C48_missing_refuted`: An entry in which the selected leaf is not set makes `dumps` raise `KeyError`; it is not left out.

C50, XPath strings split into their steps:

* `C50_split_refuted`: C50 is refuted: a quoted bracket ends the predicate, `a[b="]" or c/d]`.

C52, Registering again replaces the object:

* `C52_equal_refuted`: C52 refuted: the lookup gives the first object, not the second.

C53, Lookup library does not leak:

* `C53_children_refuted`: C53 is refuted: an object below one that is taken out stays in the library, and is not found.
* `C53_failed_refuted`: C53 is refuted: an object whose parent is missing is refused, and stays in the library.

C54, A leafref with require-instance only holds existing values:

* `C54_leaflists_refuted`: C54 is refuted: if the path leads to several leaf-lists, a value of one of them is refused.
* `C54_no_helper_refuted`: C54 is refuted: without a path helper any value is taken.
* `C54_pointer_refuted`: C54 is refuted: if the path leads to one leaf that is not a list key, a value that is not there is taken, and written to that leaf.

C56, Key predicates encode and decode:

* `C56_predicate_refuted`: C56 is refuted: a key value with a space in it cannot be read, one with `]` gives another value, one with `||` raises.

C59, Every accepted identityref spelling names a derived identity:

* `C59_prefix_refuted`: **C59** fails for a prefixed base when two modules with the same prefix define the name.
* `C59_same_name_refuted`: **C59** fails for the bare name of a base when two modules define that name: the entry is overwritten, and `Y` is not accepted.

C60, Typedef resolution handles any definition order:

* `C60_chain_refuted`: **C60, refuted in general.** A chain of 1002 or more typedefs, given in the order last to first, comes down to `string` but is refused: the counter of retries runs out.
* `C60_nested_union_refuted`: **C60, refuted in general.** A typedef of a union with a union written inside it is refused although all its types are known: `union` itself is looked up as a type.
* `C60_prefix_refuted`: **C60, refuted in general.** An import prefix that is not the imported module's own prefix is understood when the order is found, but not when the class is built: the name is looked up as it is written, and the program ends.

C61, Default values are inherited from the nearest typedef:

* `C61_unrestricted_refuted`: **C61, refuted in general.** The default of `t2` is not found for a leaf of type `t1`: the class of `t1` takes over the parent type of `t2`.

C62, Implicit enumeration values follow RFC 6020:

* `C62_rfc_numbering_refuted`: C62 is false with explicit values: `enum a { value 5; } enum b;` gives b the value 1 where the RFC says 6.

C63, decimal64 values fit in 64 bits:

* `C63_decimal64_bounds_refuted`: C63 is false: a `decimal64` leaf takes values outside the 64-bit range.

C64, Leaf-lists support the usual list operators:

* `C64_iadd_refuted`: C64 is false: `c.x += [...]` on a leaf-list of strings always raises, after having extended the list.
* `C64_reverse_refuted`: C64 is false: `reverse()` on two or more items raises `ValueError`.
* `C64_setitem_refuted`: C64 is false: `l[0] = "c"` on `["a", "b"]` gives `["c", "a", "b"]`.

C65, Identities do not change built-in types:

* `C65_builtin_refuted`: **C65** fails for an identity with the name of a built-in type, which YANG allows: `identity string;` makes every `type string` an identityref.

C66, A type name means the typedef of its own module:

* `C66_same_name_refuted`: **C66, refuted in general.** The name without prefix is kept for one module only, the last one built: a leaf of module `a` with `type foo` is a boolean without default, not the string with default `x` that `a:foo` is.

C67, A leaf's own default wins over that of its type:

* `C67_own_default_refuted`: **C67, refuted in general.** A leaf `type t2; default y;` gets the default `x` of the typedef, not its own.

C69, XML serialisation round-trips:

* `C69_empty_binary_refuted`: C69 fails for a binary leaf with no octets: it is not set.
* `C69_empty_false_refuted`: C69 fails for a leaf of type `empty` set to `False`: it is `True`.
* `C69_empty_string_refuted`: C69 fails for a leaf set to the empty string: it is not set.
* `C69_identity_key_refuted`: C69 fails for a list whose key is an identity of another module: the prefix becomes part of the key.
* `C69_identity_leaflist_refuted`: C69 fails for leaf-lists of identityrefs: once set, they cannot be written.
* `C69_identity_leaflists_refuted`: In general: no tree with a leaf-list of identityrefs that was set can be written.
* `C69_keyless_refuted`: C69 fails for a list without keys: it is written, but reading it raises `NotImplementedError`.
* `C69_no_bits_refuted`: C69 fails for a leaf with no bits: it is not set.
* `C69_same_key_refuted`: C69 fails for a list that has two entries with the same key value (added as `5` and as `"5"`): one is left.
* `C69_typed_key_refuted`: C69 fails for a list whose key is a string that looks like a number.
* `C69_typed_strings_refuted`: C69 fails for a leaf-list of strings that look like numbers or booleans: the text is not the same.

C71, XML values have the lexical form of RFC 7950:

* `C71_boolean_leaflist_refuted`: C71 fails for the values of a leaf-list of booleans: the texts are `1` and `0`.
* `C71_empty_typedef_refuted`: C71 fails for a typedef of `empty`: its text is `true`.
* `C71_identity_name_refuted`: C71 fails for an identity whose name starts with the name of its module: it has no prefix, so it is an identity of the module of the leaf.
* `C71_identity_typedef_refuted`: C71 fails for a typedef of an identityref: identities of other modules have no prefix.
* `C71_prefix_refuted`: C71 fails in documents for a leaf that one module adds to another, if its value is an identity of that other module: the prefix of the value is not declared.

C72, XML elements that are not in the schema are reported:

* `C72_alias_refuted`: C72 fails for names that only become the name of a child when they are made into Python names.
* `C72_inside_leaf_refuted`: C72 fails for elements inside a leaf: they are ignored.
* `C72_namespace_refuted`: C72 fails for elements of another namespace: the namespace is not looked at.

C73, Loading XML over existing data merges by key:

* `C73_number_key_refuted`: C73 fails for an entry that was added with a number as the key: loading an element for the same key adds a second entry with the same keys.

C74, A binding stays consistent whatever documents are loaded into it:

* `C74_keyless_refuted`: C74 fails for lists without key: an entry without members, loaded in IETF JSON, is data of one case while the other one keeps its own.
* `C74_native_key_refuted`: C74 fails for key leaves in native JSON: a document can give an entry another value for its key than the one it is stored under.

C75, Entries keep the key they are stored under:

* `C75_load_refuted`: C75 fails for the setter of a key leaf called with `load=True`, as the library calls it itself: the entry stays under its key, and its key leaf holds another value.
* `C75_unset_refuted`: C75 fails for `_unset_` of a key leaf, which is not guarded: the entry stays under its key, and its key leaf is no longer set.

C76, Native JSON contains exactly the set data:

* `C76_boolean_leaflist_refuted`: C76 fails for leaf-lists of booleans: numbers are written.
* `C76_same_text_refuted`: C76 fails for keys that differ, but have the same text: both entries are written under the same name.

C77, A document loaded without an exception is in the tree, and nothing else changes:

* `C77_ignored_refuted`: C77 fails for `null`, `[]` and an object without members in the place of a value: they are accepted, and nothing is set.
* `C77_last_key_refuted`: C77 fails if the last of several keys is empty: the entry is made, but then not found, and a document for it raises an exception.
* `C77_list_emptied_refuted`: A number in the place of a list is accepted, and empties the list.
* `C77_native_int_key_refuted`: C77 fails for entries made by `add` with a number: a document for the entry does not change it, but makes a second one with the same key leaf.
* `C77_native_list_emptied_refuted`: C77 fails for an object without members in the place of a list: it is accepted, and empties the list.
* `C77_xml_no_text_refuted`: C77 fails for an element without text for a leaf (the empty string): it is accepted, and the leaf keeps the value it had.
* `C77_xml_no_texts_refuted`: In general, and for every type but `empty` (and identityref, which raises): such an element changes nothing.

C78, Identities in documents are those of the YANG modules:

* `C78_any_module_refuted`: C78 fails for documents with a wrong module name: it is not looked at, so an identity that does not exist is taken for one that does.
* `C78_prefix_refuted`: C78 fails for values with another prefix than the name of the module: they are accepted, but what is written is not the encoding of the identity.
* `C78_same_name_refuted`: C78 fails if two modules have identities of the same name: the document says `k:red`, it is loaded without an exception, and written as `n:red`.
* `C78_same_name_tree_refuted`: The same in a tree: what is written is not what was loaded.

C79, The generated classes are those of the YANG module:

* `C79_nested_refuted`: A choice directly in a case of another: its nodes know only the inner choice, so they and nodes in other cases of the outer one can both be set.
* `C79_presence_refuted`: A presence container without children is a data node, but has an attribute only with the option `--presence`.

C80, A leafref's path selects the nodes that YANG's path expression selects:

* `C80_alone_refuted`: C80: `current()` alone, the value of the leaf itself, raises IndexError.
* `C80_or_refuted`: C80: of two comparisons of the same key joined by `or`, only the last counts.
* `C80_quote_refuted`: C80: an apostrophe in the text that `current()` leads to makes the expression malformed.
* `C80_several_refuted`: C80: if `current()` leads to several nodes, XPath compares with each of them; the helper raises XPathError.
* `C80_unregistered_refuted`: C80: a relative path from a leaf that is not registered finds nothing, although the nodes are there.

C81, Values of unions survive documents, encoded like values of the member they belong to:

* `C81_boolean_refuted`: `union { type uint8; type boolean; }`, set to the text `true`: the value is `True`. It is written as `true`, but that is read as the number 1.
* `C81_document_refuted`: The same for whole documents: what is loaded from what was written differs.
* `C81_empty_refuted`: `union { type empty; }`: written as `true`, where RFC 7951 has `[null]`.
* `C81_identity_refuted`: `union { type identityref; }`, an identity of module `n` in a leaf of module `m`: it is written without the name of the module, which RFC 7951 does not allow.
* `C81_leaflist_boolean_refuted`: A leaf-list of `union { type uint8; type boolean; }` to which the text `true` was appended: it holds `True`, is written as the number 1, and read as that.
* `C81_leaflist_long_refuted`: A leaf-list of `union { type string; type uint64; }`, to which 5 and "5" were appended, which are different values: both are written as "5", and one is read back.
* `C81_long_refuted`: `union { type string { length "1..10"; } type uint64; }`, set to the number 5: the length of a number is not known, so the value is a number. It is written as the string "5", which the first member takes.
* `C81_range_refuted`: `union { type uint64 { range "0..max"; } }`: written as a number, where RFC 7951 has a string.

C82, filter=False and with_defaults add to IETF documents, without changing what is there:

* `C82_default_refuted`: C82 fails for defaults: with `filter=False` a leaf that is not set is not written with its default, as `get(filter=False)` shows it, but with the value of a new one.
* `C82_unset_number_refuted`: C82 fails for numbers and booleans without default: with `IF_SET` they are written although they were never set.

C83, With a path helper, looking up a data path finds exactly what is in the tree:

* `C83_refused_key_refuted`: C83 is refuted when the key of a new entry is refused: there is no such entry, but it is found.
* `C83_refused_value_refuted`: C83 is refuted when a leaf's type refuses a value only after the new leaf was registered: the tree keeps the old leaf, but the other one is found.
* `C83_same_text_refuted`: C83 is refuted when two keys have the same text: `add(1)` and `add("1")` make two entries with one path, and when the first is deleted the other is not found any more.
* `C83_unset_refuted`: C83 is refuted when a container with list entries below it is unset: the entries are gone, but are still found.

C85, decimal64 leaves with a range take exactly the decimals in it:

* `C85_digits_refuted`: C85 is false for the digits: with a range on the `decimal64` itself the leaf keeps more digits than it declares (`fraction-digits` plays no part).
* `C85_layers_text_refuted`: C85 is false for these texts where a range is put on a typedef that has a range: no exception at all, and the leaf holds 0, be that in the ranges or not.
* `C85_no_number_refuted`: C85 is false for the texts that are no numbers, whatever the range: they raise the `InvalidOperation` of `decimal`, which is no `ValueError`.
* `C85_none_refuted`: C85 is false for `None`: the leaf then holds 0, in the range or not.
* `C85_none_unbounded_refuted`: And in `min..max` too, where the test passes; only if the range is of single numbers it is refused.
* `C85_single_refuted`: C85 is false for single values that floats cannot hold: a leaf whose range is such a value takes no value equal to it.
* `C85_text_refuted`: C85 is false for texts that are no numbers: they raise the `InvalidOperation` of `decimal`, which is no `ValueError`.

C86, decimal64 values survive documents:

* `C86_digits_refuted`: C86 is false of native JSON for values of 16 digits and more, which `decimal64` has: 82181351804610.49 is a value with two digits, and comes back as 82181351804610.48; with one digit 1004550283168670.7 comes back as 1004550283168670.8.
* `C86_range_refuted`: C86 is false of native JSON for types with a range: the value that is read is not rounded to the digits of the type. 0.1 comes back as the float next to it.

C87, A length restricts the number of octets of a binary leaf:

* `C87_text_refuted`: C87 is false of text: with a length of 3, the text of three octets is refused, so a document that has the value cannot be read.

C88, Annotations in IETF JSON are attached to what they annotate, and change nothing else:

* `C88_leaflist_refuted`: C88 fails for leaf-lists: RFC 7952 annotates their entries by an array beside the leaf-list, which raises an exception.
* `C88_reload_refuted`: Loading the same data without annotations takes the annotations off leaves, but leaves those of containers and entries.
* `C88_root_refuted`: C88 fails for the top-level object, which RFC 7952 lets be annotated.
* `C88_roundtrip_refuted`: C88 fails for documents written: they have no annotations, so that a document loaded from one the library wrote attaches none.

C89, Extension methods are bound to the nodes they are registered for, and replace nothing:

* `C89_accessor_refuted`: A container has a method `_get_one` to get its child; one registered under the name `get_one` takes its place, although it does not for a leaf.
* `C89_hidden_refuted`: The container loses the method without getting one in its place if what is registered under the name cannot be called.
* `C89_method_refuted`: C89 fails for a method called `method`: those after it in the alphabet are left out.
* `C89_reserved_refuted`: A container for which a method called `set`, `path`, `present` … is registered cannot be made.

C90, Texts and values of the YANG module reach the generated program unchanged:

* `C90_backslash_refuted`: C90 fails for a default with a backslash: `\temp` becomes a tab and `emp`, and `\users` or a backslash at the end keep the program from being read.
* `C90_continuation_refuted`: C90 fails for a default with a backslash at the end of a line: the generated program is read, and has a default in which the backslash and the line end are missing.
* `C90_decimal_refuted`: C90: otherwise it is a different number.
* `C90_doc_backslash_refuted`: So it does for some backslashes: the program cannot be read.
* `C90_doc_refuted`: C90 fails for a description with three double quotes: the program goes on with what follows them.
* `C90_injection_refuted`: C90 fails for a default with a double quote: what follows the quote is read as part of the program.
* `C90_lines_refuted`: C90 fails for a default of several lines.
* `C90_message_refuted`: C90 fails for a pattern with three double quotes: it ends the literal, although the class itself has the pattern as it is.
* `C90_octal_refuted`: C90: in octal it is a `SyntaxError` of the whole program.

C91, Split bindings find the class of every node:

* `C91_header_refuted`: C91 is false for a container with a name the files import themselves, `long` or `Decimal`.
* `C91_module_name_refuted`: C91 is false for a container with the name of a module before: the class of that module is taken for the package.
* `C91_modules_refuted`: C91 is false for two modules with a container of the same name: both get the class of the last.
* `C91_reserved_refuted`: C91 is false for a container called like a Python word in one of its name: it is written into `class__` and imported from `class_`.
* `C91_rpc_refuted`: C91 is false for an rpc with the name of its module: it is imported by another name than it is written to.
* `C91_shadow_refuted`: C91 is false for `a.b` in `a-b`: the class hides the package.
* `C91_shared_refuted`: C91 is false for `a` and `a_` in a container `a`: they are written into the same file.

C92, A binding is built from all the modules it needs:

* `C92_action_refuted`: A typedef inside an `action` is not found at all.
* `C92_circular_refuted`: Modules that import each other are gone through without end; that pyang refuses them is needed.
* `C92_nested_refuted`: A submodule that only another submodule includes (as YANG 1.0 allows) is not looked at: its typedefs are not found.
* `C92_prefix_refuted`: A prefix that one module gives to an import and that is another module's own: the definitions of the second module are lost. Here the type `y:id` of the module `y` is that of the module `x`.
* `C92_scope_refuted`: Typedefs of the same name in two containers are two types (RFC 7950, 5.5), but the last one takes the place of the first.

C93, The default of a leaf of union type is the first member's value:

* `C93_error_refuted`: C93 fails with an exception, and no program is written: a decimal before the member that takes the text; a bits member before it; a restriction of a typedef (`pct`); a typedef of a union; and a default none of the built-in types takes.
* `C93_inherited_refuted`: C93 fails for members without a default whose own type has one: it becomes the default of the leaf, although a leaf does not take the defaults of the members of its type. Here `level2` is a typedef of `level` with a range, so that `level` is its parent (pyangbind/plugin/pybind.py:1262-1270, 591-592), `level` one of `uint8` with the default `d`, and the type of the leaf a typedef of the union of string and `level2`.
* `C93_member_refuted`: C93 fails for members with a default of their own: the last such default replaces the leaf's, although a leaf does not take the defaults of the members of its type.
* `C93_narrow_refuted`: C93 fails for members with restrictions: the text is tried on the built-in type. An enumeration without the name `5` before `uint8` makes the default the text, not the number; `uint8` from 1 to 10 before string makes `50` the number, not the text.
* `C93_typedef_default_refuted`: C93 fails for typedefs of unions in two more ways: an empty default is lost, and a default of a member becomes the default of the union.
* `C93_typedef_enum_error_refuted`: C93 fails with `KeyError` and no program is written when the enumeration is the last member and string is one of those before it, whatever the default: the search ends at the enumeration, which has no `base_type`.
* `C93_typedef_enum_refuted`: C93 fails for such typedefs: with an enumeration of the name `auto` and `uint8`, in any order, the default `5`, which means the number, is given the class of strings.
* `C93_typedef_identity_refuted`: C93 fails for such typedefs: with an identityref and `uint8` a default that names an identity is given the class of the number, which refuses it; and with `uint8` and an identityref the default `5`, which means the number, is given that of strings.
* `C93_typedef_leafref_refuted`: C93 fails for typedefs of unions with a leafref: the typedef is taken, but a leaf of its type stops the generator with `KeyError`, whether the typedef or the leaf has a default (`own`, `d`) or none has: the search for one looks up `leafref`, for which the table of types has no entry.
* `C93_typedef_refuted`: C93 fails for typedefs: a union of string and `uint8` with the default `auto` is given the class of `uint8`, which refuses it; one of `uint8` and string with the default `5`, which means the number, is given the class of strings.

C94, A leafref is written in documents like the leaf it refers to, and read back:

* `C94_dangling_refuted`: C94 fails for a pointer whose leaf is gone, or no longer the only one: the document cannot be written.
* `C94_given_refuted`: C94 fails with no path helper, and for leafrefs that do not require an instance: what was assigned is written by what it is. `"5"` for a `uint8` is written as a string, a `uint64` as a number, `True` as `1`; the identity has no prefix.
* `C94_identity_refuted`: C94 fails for a leafref in another module than the leaf: the prefix of an identity is chosen for the module of the leaf, here `n`; in a leaf of `m` the identity `red` without prefix is one of `m` (there is none).
* `C94_order_refuted`: C94 fails when the leaf is read before the leaf it refers to: any value is refused.
* `C94_plain_refuted`: C94 fails without `--use-xpathhelper`: the leaf is a string, whatever it refers to. Any leaf of type `uint8` with the value `n`: the text is written, not the number.
* `C94_reload_refuted`: C94 fails on reading: the prefixed identity, the base64 text of octets are looked for as they are; no leaf has this text.
* `C94_stale_refuted`: C94 fails for a leafref that does not follow the leaf: what it holds stays, whatever becomes of the leaves at the path (see C54).
* `C94_xml_reload_refuted`: C94 fails for booleans in XML: `true` is written, and the leaf has the text `True`.

C95, Documents survive files and text, and crashes while they are written:

* `C95_crash_refuted`: C95 fails: after a crash the file may hold neither the old document nor the new one, since it is emptied before anything is written.
* `C95_failure_refuted`: C95 fails: `dump` empties the file before it makes the document, so if that raises (here a leaf-list of binary values, set by `append`) the old document is lost.
* `C95_string_refuted`: They are not if the document is a string: `load` parses what is in the string.

C96, A leaf takes exactly the values of its YANG type:

* `C96_deep_refuted`: C96 is false for three ranges: `leaf x { type small; }`, assigned 300, is 0.
* `C96_nested_union_refuted`: C96 is false for unions written inside unions: `leaf x { type union { type union { type uint8; } type string; } }` ends with a `TypeError`.
* `C96_prefix_refuted`: C96 is false when a module imports another under a prefix of its own: `import b { prefix x; } leaf l { type x:level; }`, where `b` calls itself `b`, ends the program.
* `C96_same_name_refuted`: C96 is false for typedefs of one name in two modules: in module `a`, `type level` is the string of `b`, if `b` comes last.

C97, Documents survive XML text, and layout does not matter:

* `C97_comment_refuted`: C97 fails for a comment after blanks at the start of a text: they are not text then.

C99, What a program does to a binding can be saved and restored:

* `C99_keys_refuted`: C99 fails for two entries with one key, added as number and as text: one entry is restored.
* `C99_native_key_refuted`: C99 fails, in the default encoding, for keys with spaces in them: the entry is written under the texts of its keys with spaces between them, which are then taken for more keys than the list has.
* `C99_range_refuted`: C99 fails for a leaf whose range leaves out zero: `None` is stored as zero, which is written, and then refused.

C100, One path helper serves several bindings:

* `C100_documents_refuted`: C100 is refuted: after a second document was loaded with the helper, the leaf that the first one set is found with no value, and the entry that it added is found, although the new binding has none.
* `C100_update_refuted`: C100 is refuted for documents that are loaded with a helper, and no object: whatever the helper has, they go into a new binding. (It is asked for the path `[]`, and answers nothing.)

C101, The object at / has the top-level data:

* `C101_deleted_refuted`: C101 is refuted for top-level lists: an entry that was deleted still is an element of the object at `/`.
* `C101_entries_refuted`: C101 is refuted for top-level lists: of two entries `get()` of the object at `/` has one, under the name of the list.

C102, Changing a bits leaf through its value:

* `C102_above_refuted`: C102 fails above the leaf: setting a bit with `add` does not mark the container as changed, and does not mark a presence container as present; assigning does both. (So C31 and C36 do not hold for such changes.)
* `C102_choice_refuted`: C102 fails for choices: after `add` on leaves in two cases both have data; assigning leaves only the last.
* `C102_helper_refuted`: C102 fails for `remove` if there is a path helper: it always raises, after marking the leaf as changed; the bits stay.
* `C102_key_refuted`: C102 fails for keys: assigning to the key leaf of an entry in a list raises, `add` changes it; the entry stays under its old key.
* `C102_raised_refuted`: C35 fails for these methods: a `remove` or `pop` that raises has marked the leaf as changed, and its containers.
* `C102_update_refuted`: C102 fails for `update`: it puts an undeclared bit into the leaf (against C19), whose text cannot be had then, and does not mark the leaf as changed.

C103, get_list gives the list at a path:

* `C103_prefix_refuted`: C103 fails for names with a prefix: prefixes are taken off the path to the parent, not off the name of the list.
* `C103_top_refuted`: C103 fails for lists at the top level: the object at `/` is there, but has no such method, whatever entries the list has (only they are registered).

C104, Every data node is reached by its own name:

* `C104_append_refuted`: C104 is false for a node `append` or `extend` below the module: whatever else is there, the attribute is the method of the library.
* `C104_elements_refuted`: C104 is false for a node `elements`: the method by which the library lists and prints the children is then that of the child, read with another value.
* `C104_ordereddict_refuted`: C104 is false for a node `OrderedDict`: the module cannot be loaded.
* `C104_present_refuted`: C104 is false for a node `present` below the module: the method that sets it is the one that says that the container is there.
* `C104_underscore_refuted`: C104 is false for names with underscores: of `__x` there is no attribute, and of `_path` the method is lost, but not in a container, where the leaf is; with `init--` the module cannot be loaded, and neither with `n` and `x--n` if its name is `get-x`.

C105, What the module does not define cannot be assigned to:

* `C105_empty_refuted`: C105 is false for containers without children (presence containers) and for modules without data: every name can be assigned to. (Names with underscores, `__class__` for one, are left to Python.)
* `C105_keyless_refuted`: C105 is false for entries of lists without a key.
* `C105_rpc_refuted`: C105 is false for the `input` and `output` of an rpc, for rpcs and for notifications that are reached from the object above: what is not the name of a child is stored without a complaint, and sets nothing.

C106, Objects of rpcs and notifications stay out of the path helper:

* `C106_list_refuted`: C106 is false for a list with a key in the input of an rpc, the case the code forgets: with a path helper, whatever was registered with it before (nothing of it below the rpc's path), `add` tries to register the new entry, which raises `XPathError`, as there is no parent; and the list is as before.

C107, Documents of rpcs:

* `C107_xml_refuted`: C107 is false for XML: whatever the object of an rpc holds, loading the document it was written as gives an empty object, without any exception. So it is for the object with the rpcs of a module: what is needed is only that all children are rpcs, inputs or outputs.

C108, Different objects report different paths:

* `C108_keyless_refuted`: C108 is false for lists without key: all the entries report the path of the list.
* `C108_same_text_refuted`: C108 is false for entries whose keys have the same text, as those of `add(1)` and `add("1")`.
* `C108_yang_path_refuted`: C108 is false for `_yang_path()` with quotes in key values: an entry `b` in an entry `a` has the one of another entry `a`.

C109, Extension statements are found with the object:

* `C109_letter_refuted`: C109 is false with a module of interest whose name is one letter: statements of YANG itself that start with it are taken for its extensions, `leaf one` for `l:e "one"`.
* `C109_repeated_refuted`: C109 is false for an extension that a node has more than once: of all its statements only the last is kept.

C110, An object is found under the path it reports:

* `C110_list_refuted`: C110 is false for lists: under the path a list reports there are its entries.

C111, Lists without key work with a path helper:

* `C111_add_refuted`: C111 is false: with a path helper, whatever was registered with it before (nothing at the path of the list or below it), `add()` on a list without key raises `XPathError` and adds nothing, if its entries have any child that is not a list.
* `C111_delete_refuted`: C111 is false for `delete` also: of an entry that is there it raises `TypeError`, and the entry stays; without helper it is taken out.
