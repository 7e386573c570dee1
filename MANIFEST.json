{
 "claims": [
  {
   "property": "C01",
   "status": "partial",
   "theorems": [
    "Pyb.C01_safe_name_idempotent",
    "Pyb.C01_safe_name_not_reserved",
    "Pyb.C01_safe_name_identifier",
    "Pyb.C01_keyword_refuted",
    "Pyb.C01_not_keyword_partial"
   ],
   "note": "Legal and stable for every name; the keyword half fails for exactly five identifiers (False, None, True, await, nonlocal), which C01_not_keyword_partial characterises."
  },
  {
   "property": "C02",
   "status": "proved",
   "theorems": [
    "Pyb.C02_collision_iff",
    "Pyb.C02_injective_on_alphanumeric",
    "Pyb.C02_collision_witnesses"
   ],
   "note": "Exact characterisation of collisions, with witnesses."
  },
  {
   "property": "C03",
   "status": "partial",
   "theorems": [
    "Pyb.C03_key_attrs_partial",
    "Pyb.C03_key_attrs_refuted"
   ],
   "note": "Exact characterisation; false for several keys one of which is a reserved word."
  },
  {
   "property": "C04",
   "status": "partial",
   "theorems": [
    "Pyb.C04_class_name_refuted",
    "Pyb.C04_class_name_partial"
   ],
   "note": "Proved for identifiers without '-', '.', '_'; refuted in general."
  },
  {
   "property": "C05",
   "status": "proved",
   "theorems": [
    "Pyb.C05_remove_path_attributes"
   ],
   "note": ""
  },
  {
   "property": "C06",
   "status": "partial",
   "theorems": [
    "Pyb.C06_writable_iff_partial",
    "Pyb.C06_writable_iff_refuted"
   ],
   "note": "Proved for every schema without config false on a choice; refuted there."
  },
  {
   "property": "C07",
   "status": "proved",
   "theorems": [
    "Pyb.C07_range_exact"
   ],
   "note": "All built-in integer types, all arguments of low..high parts within the type, integers and integer texts."
  },
  {
   "property": "C08",
   "status": "partial",
   "theorems": [
    "Pyb.C08_single_value_partial",
    "Pyb.C08_single_value_refuted"
   ],
   "note": "Exact below 2^53; beyond that the comparison goes through a float and is refuted."
  },
  {
   "property": "C09",
   "status": "proved",
   "theorems": [
    "Pyb.C09_builtin_int_exact",
    "Pyb.C09_every_type_has_bounds",
    "Pyb.C09_decimal_text_denotes"
   ],
   "note": ""
  },
  {
   "property": "C10",
   "status": "proved",
   "theorems": [
    "Pyb.C10_length_exact"
   ],
   "note": "Strings shorter than 2^53 characters."
  },
  {
   "property": "C11",
   "status": "partial",
   "theorems": [
    "Pyb.C11_pattern_and_length_partial",
    "Pyb.C11_string_chain_partial",
    "Pyb.C11_string_chain_characterised",
    "Pyb.C11_derived_refuted",
    "Pyb.C11_second_pattern_refuted",
    "Pyb.C11_range_chain_partial",
    "Pyb.C11_range_chain_deep",
    "Pyb.C11_deep_range_refuted"
   ],
   "note": "Exact for one statement with one pattern and a length; for chains of strings with at most one restriction per outer statement; for ranges up to the two outermost. Refuted for several patterns, several restrictions on a derived string, and three ranges (silently stores 0). The string chain behaviour is characterised for all chains."
  },
  {
   "property": "C12",
   "status": "partial",
   "theorems": [
    "Pyb.C12_int_text",
    "Pyb.C12_int_leaf_text",
    "Pyb.C12_decimal_integer",
    "Pyb.C12_float_integer",
    "Pyb.C12_builtin_int_partial",
    "Pyb.C12_string_partial",
    "Pyb.C12_none_refuted",
    "Pyb.C12_text_refuted",
    "Pyb.C12_length_refuted",
    "Pyb.C12_any_value_partial"
   ],
   "note": "Integers and texts to built-in integer types, strings to string types. C12_any_value_partial: any Python value, for integer types all of whose ranges contain zero. Refuted for None, for non-numeric text on a type with its own range (stores 0), and for an int given to a length-restricted string (stores ''). C12_int_text says exactly which texts are integers (spaces, sign, groups of digits with single underscores), C12_int_leaf_text which texts leaves of the built-in integer types take. C12_decimal_integer and C12_float_integer: a decimal or float other than zero leaves its integer part (toward zero) in a leaf of a built-in integer type."
  },
  {
   "property": "C13",
   "status": "partial",
   "theorems": [
    "Pyb.C13_anchored_partial",
    "Pyb.C13_last_branch_partial",
    "Pyb.C13_complete_partial",
    "Pyb.C13_alternation_refuted",
    "Pyb.C13_newline_refuted",
    "Pyb.C13_library_partial",
    "Pyb.C13_dollar_refuted",
    "Pyb.C13_caret_refuted",
    "Pyb.C13_anchors_lang",
    "Pyb.C13_anchors_refuted",
    "Pyb.C13_inner_caret_refuted",
    "Pyb.C13_empty_refuted",
    "Pyb.C13_sets_refuted",
    "Pyb.C13_matcher_exists"
   ],
   "note": "Spec/Regex.lean gives the common syntax of XML Schema and the regex module a reading (parseRx) and a meaning (InLang for XML Schema, Match with anchors for regex); IsRegexMatch is what is assumed of regex.match, C13_matcher_exists shows it can be met. C13_anchored_partial: for every pattern with a reading, one branch, no bare ^ and no $ at the end, and every string not ending in a newline, accepted iff the whole string is in the language, where both dialects agree on the sets. C13_complete_partial: matching strings are accepted for any number of branches. C13_last_branch_partial: exact set accepted for several branches. Refuted in general form: anything after a match of an earlier branch (C13_alternation_refuted), a trailing newline (C13_newline_refuted), $ at the end and ^ at the beginning make no difference (C13_dollar_refuted, C13_caret_refuted, C13_anchors_refuted), inner ^ accepts nothing (C13_inner_caret_refuted), the empty pattern raises IndexError (C13_empty_refuted), \\w and _ (C13_sets_refuted). Missing: class subtraction, \\i, \\c."
  },
  {
   "property": "C14",
   "status": "proved",
   "theorems": [
    "Pyb.C14_enum_values"
   ],
   "note": "Names starting with '@' excluded (the code drops them, see C15_at_sign_refuted)."
  },
  {
   "property": "C15",
   "status": "partial",
   "theorems": [
    "Pyb.C15_members_exact",
    "Pyb.C15_at_sign_refuted"
   ],
   "note": "Exact for tables without names starting with '@'; such an enum is never accepted."
  },
  {
   "property": "C16",
   "status": "proved",
   "theorems": [
    "Pyb.C16_boolean_exact"
   ],
   "note": "Python values: None, bool, int, str, sequences (floats such as 1.0 are outside the universe)."
  },
  {
   "property": "C17",
   "status": "partial",
   "theorems": [
    "Pyb.C17_assign_partial",
    "Pyb.C17_none_refuted",
    "Pyb.C17_rounding_partial",
    "Pyb.C17_representable_unchanged_partial",
    "Pyb.C17_range_refuted"
   ],
   "note": "Rounding exact without a range, for every value that stands for a number (C17_rounding_partial, C17_assign_partial); with a range the generator drops fraction-digits, and None is stored as 0 (refuted). Results over 28 digits raise."
  },
  {
   "property": "C18",
   "status": "proved",
   "theorems": [
    "Pyb.C18_rfc4648",
    "Pyb.C18_rfc4648_read",
    "Pyb.C18_base64_roundtrip"
   ],
   "note": "The text is also shown to be the one RFC 4648 section 4 defines (independent specification in Spec/Base64), in both directions."
  },
  {
   "property": "C19",
   "status": "partial",
   "theorems": [
    "Pyb.C19_leaflist_refuted",
    "Pyb.C19_only_declared",
    "Pyb.C19_undeclared_rejected",
    "Pyb.C19_text_roundtrip",
    "Pyb.C19_text_deterministic",
    "Pyb.C19_position_order_partial",
    "Pyb.C19_position_order_refuted",
    "Pyb.C19_missing_position_refuted"
   ],
   "note": "Declared-only, no duplicates, text round trip and determinism proved; position order holds when positions have equal digit counts and is refuted otherwise; bits without position cannot be generated. C19_leaflist_refuted: leaf-lists of bits take nothing."
  },
  {
   "property": "C20",
   "status": "proved",
   "theorems": [
    "Pyb.C20_union_first_match"
   ],
   "note": "Members: restricted int/str types and booleans."
  },
  {
   "property": "C21",
   "status": "partial",
   "theorems": [
    "Pyb.C21_unique_partial",
    "Pyb.C21_canonical_values",
    "Pyb.C21_unique_strings",
    "Pyb.C21_unique_refuted",
    "Pyb.C21_leafref_refuted"
   ],
   "note": "Proved for values stored as equal values and in full for strings; refuted for other representations and for leafref leaf-lists (no uniqueness requested)."
  },
  {
   "property": "C22",
   "status": "proved",
   "theorems": [
    "Pyb.C22_append",
    "Pyb.C22_insert",
    "Pyb.C22_remove",
    "Pyb.C22_delete",
    "Pyb.C22_extend",
    "Pyb.C22_items_typed",
    "Pyb.C22_failure_unchanged"
   ],
   "note": ""
  },
  {
   "property": "C23",
   "status": "proved",
   "theorems": [
    "Pyb.C23_keys_distinct",
    "Pyb.C23_add",
    "Pyb.C23_add_named",
    "Pyb.C23_set",
    "Pyb.C23_delete",
    "Pyb.C23_frame",
    "Pyb.C23_get_added"
   ],
   "note": "For every contained class, number of keys and history: keys pairwise different; add/add(**kw)/setitem/append/delete exact; other keys unaffected. Path helper not modelled here."
  },
  {
   "property": "C24",
   "status": "proved",
   "theorems": [
    "Pyb.C24_key_coherence"
   ],
   "note": "For every number and type of keys and every history of add, keyword add, item assignment, append, delete and edits that keep key leaves."
  },
  {
   "property": "C25",
   "status": "partial",
   "theorems": [
    "Pyb.C25_single_partial",
    "Pyb.C25_compound_partial",
    "Pyb.C25_distinct_refuted"
   ],
   "note": "False as stated (C25_distinct_refuted: add(1) and add('1') on a uint8 key). Proved when key values are written canonically."
  },
  {
   "property": "C26",
   "status": "partial",
   "theorems": [
    "Pyb.C26_compound_keys_partial",
    "Pyb.C26_collision_refuted"
   ],
   "note": "False for values containing spaces (C26_collision_refuted). Proved for space-free texts, any number of keys."
  },
  {
   "property": "C27",
   "status": "proved",
   "theorems": [
    "Pyb.C27_key_guard",
    "Pyb.C27_unset_refuted"
   ],
   "note": "For every schema, path, list and key leaf: assignment raises AttributeError and leaves the binding as it was. C27_unset_refuted: the guard does not cover _unset_<key>()."
  },
  {
   "property": "C28",
   "status": "partial",
   "theorems": [
    "Pyb.C28_append_single",
    "Pyb.C28_append_compound_partial",
    "Pyb.C28_append_refuted",
    "Pyb.C28_setitem_refuted"
   ],
   "note": "append proved for one key and for compound keys with non-empty space-free texts; refuted for others and for item assignment."
  },
  {
   "property": "C29",
   "status": "proved",
   "theorems": [
    "Pyb.C29_leaf",
    "Pyb.C29_shown",
    "Pyb.C29_only",
    "Pyb.C29_history_partial"
   ],
   "note": "For every schema with distinct child names and every tree: an item for a leaf iff it is set, with its value; everything else iff it is or holds data, except that all entries of a shown list are shown. C29_history_partial adds: a value stays shown while no covering or competing operation happens (no two choices of the same name one above the other)."
  },
  {
   "property": "C30",
   "status": "proved",
   "theorems": [
    "Pyb.C30_unfiltered"
   ],
   "note": "For every schema with distinct child names and every tree. A falsy default counts as no default, as in the code."
  },
  {
   "property": "C31",
   "status": "partial",
   "theorems": [
    "Pyb.C31_ancestors_partial",
    "Pyb.C31_history",
    "Pyb.C31_absent_refuted"
   ],
   "note": "C31_history: every schema and history without _set_present(False): a container with a set leaf below is changed. C31_absent_refuted: _set_present(False) breaks it. C31_ancestors_partial: right after a set, schemas without a choice that has the name of a choice above it."
  },
  {
   "property": "C32",
   "status": "partial",
   "theorems": [
    "Pyb.C32_exclusive_partial",
    "Pyb.C32_recent_partial",
    "Pyb.C32_root_refuted",
    "Pyb.C32_keyless_refuted",
    "Pyb.C32_nested_refuted"
   ],
   "note": "Proved for choices in containers, not nested in cases, with different names one above the other, and without add() on keyless lists; refuted otherwise (root, nested, keyless)."
  },
  {
   "property": "C33",
   "status": "partial",
   "theorems": [
    "Pyb.C33_frame_partial",
    "Pyb.C33_same_name_refuted"
   ],
   "note": "Frame theorem for any operation, on schemas without a choice that has the name of a choice above it; refuted for same-named choices one above the other."
  },
  {
   "property": "C34",
   "status": "partial",
   "theorems": [
    "Pyb.C34_typed_partial",
    "Pyb.C34_set_get_partial",
    "Pyb.C34_unset",
    "Pyb.C34_same_name_refuted"
   ],
   "note": "C34_unset for every schema. C34_set_get_partial as C33, over an arbitrary leaf class; C34_typed_partial is the same with the restricted, boolean and union types of C07-C20. C34_same_name_refuted shows a set without effect."
  },
  {
   "property": "C35",
   "status": "partial",
   "theorems": [
    "Pyb.C35_early_partial",
    "Pyb.C35_number_refuted",
    "Pyb.C35_bits_refuted",
    "Pyb.C35_two_restrictions_refuted",
    "Pyb.C35_failed_set_partial",
    "Pyb.C35_failed_set_refuted"
   ],
   "note": "C35_failed_set_partial: every schema and value refused before _set is called; C35_early_partial says for which types that is every refused value. C35_failed_set_refuted, C35_number_refuted (a text for a plain uint8 leaf) and C35_two_restrictions_refuted: a value refused in __init__ marks ancestors and clears the other case. C35_bits_refuted: the same for a leaf of bits."
  },
  {
   "property": "C36",
   "status": "partial",
   "theorems": [
    "Pyb.C36_set_below_partial",
    "Pyb.C36_history",
    "Pyb.C36_mark_partial",
    "Pyb.C36_frame_partial"
   ],
   "note": "C36_history for every schema and history without _set_present(False); marking, setting below and frame as C33."
  },
  {
   "property": "C37",
   "status": "partial",
   "theorems": [
    "Pyb.C37_copy_partial",
    "Pyb.C37_list_refuted",
    "Pyb.C37_leaf_list_refuted"
   ],
   "note": "Containers of leaves and containers: exactly the set data is copied. Refuted for lists (entries lost) and leaf-lists (ValueError)."
  },
  {
   "property": "C38",
   "status": "partial",
   "theorems": [
    "Pyb.C38_binary_leaflist_refuted",
    "Pyb.C38_ietf_roundtrip_partial",
    "Pyb.C38_reachable_partial",
    "Pyb.C38_repeated_value_refuted",
    "Pyb.C38_empty_false_refuted",
    "Pyb.C38_same_key_refuted",
    "Pyb.C38_identity_key_refuted",
    "Pyb.C38_file_partial",
    "Pyb.C38_session_partial"
   ],
   "note": "C38_ietf_roundtrip_partial: every tree whose objects meet IetfReady (values decode, keys tell entries apart, one case per choice) loads back with the same data. C38_reachable_partial: the conditions hold after every history of plain operations on modules of the modelled types, up to conditions on keys. Refuted in general: repeated leaf-list values, an empty leaf set to False, keys that are read as the same text, identityref keys of another module. C38_session_partial: the same for what any session of API calls and loaded documents leaves. Leaves may also be decimal64, binary and bits, leaf-lists decimal64; leaf-lists of binary cannot be written (C38_binary_leaflist_refuted). C38_file_partial: the same through dump and load_ietf of a file, as text."
  },
  {
   "property": "C39",
   "status": "partial",
   "theorems": [
    "Pyb.C39_decimal_leaflist_refuted",
    "Pyb.C39_file_partial",
    "Pyb.C39_native_roundtrip_partial",
    "Pyb.C39_reachable_partial",
    "Pyb.C39_keyless_list_refuted",
    "Pyb.C39_space_in_key_refuted",
    "Pyb.C39_repeated_value_refuted",
    "Pyb.C39_session_partial"
   ],
   "note": "C39_native_roundtrip_partial: every tree whose objects meet NativeReady loads back with the same data. C39_reachable_partial: for histories of plain operations only the conditions on values, names and keys remain. Refuted in general: lists without key, spaces in one of several keys, repeated leaf-list values. C39_session_partial: the same for what any session of API calls and loaded documents leaves. Leaves may also be decimal64 (fewer than 2^52 units), binary and bits. C39_decimal_leaflist_refuted: leaf-lists of decimals lose values. C39_file_partial: the same through dump and load of a file, as text, given that Python reads floats as it writes them."
  },
  {
   "property": "C40",
   "status": "partial",
   "theorems": [
    "Pyb.C40_any_order_partial",
    "Pyb.C40_order_irrelevant",
    "Pyb.C40_no_position_refuted",
    "Pyb.C40_same_position_refuted"
   ],
   "note": "C40_any_order_partial: what is written can be loaded with the members of user-ordered lists in any order, at any depth, and gives the entries in their original order. C40_order_irrelevant: the same for any document with different positions. Refuted for documents without positions (reversed) or with equal positions (entries dropped)."
  },
  {
   "property": "C41",
   "status": "partial",
   "theorems": [
    "Pyb.C41_leaf_iff_set",
    "Pyb.C41_no_empty_container",
    "Pyb.C41_same_places",
    "Pyb.C41_emptied_leaflist_refuted"
   ],
   "note": "C41_leaf_iff_set, C41_no_empty_container and C41_same_places hold for every tree. C41_emptied_leaflist_refuted: a leaf-list whose values were removed is still written, as an empty array."
  },
  {
   "property": "C42",
   "status": "proved",
   "theorems": [
    "Pyb.C42_member_names",
    "Pyb.C42_unambiguous"
   ],
   "note": "C42_member_names: every member of every object; C42_unambiguous: names determine child and namespace when namespaces and modules correspond."
  },
  {
   "property": "C43",
   "status": "partial",
   "theorems": [
    "Pyb.C43_unknown_reported",
    "Pyb.C43_all_known",
    "Pyb.C43_skip_partial",
    "Pyb.C43_unknown_list_refuted",
    "Pyb.C43_unknown_empty_refuted",
    "Pyb.C43_native_reported_partial",
    "Pyb.C43_native_all_known",
    "Pyb.C43_native_skip",
    "Pyb.C43_native_dropped_refuted"
   ],
   "note": "For load_ietf_json: C43_unknown_reported: without skip_unknown a member outside the schema (other than an empty array), at any depth, raises, and it is AttributeError if nothing else is wrong. C43_all_known and C43_skip_partial: with skip_unknown the load does what loading the pruned document does, unless an unknown member is a non-empty array or an object stands where the schema has no container. Refuted: an unknown array raises even with skip_unknown; an unknown empty array is never reported. For load_json: C43_native_reported_partial: without skip_unknown a member outside the schema raises at any depth, unless two entries of a user-ordered list claim the same position; C43_native_all_known: if all is known skip_unknown changes nothing; C43_native_skip: with skip_unknown the load does what loading the pruned document does. Refuted: of two entries with the same __yang_order one is dropped, with its unknown members."
  },
  {
   "property": "C44",
   "status": "partial",
   "theorems": [
    "Pyb.C44_native_keys_partial",
    "Pyb.C44_native_removal_refuted",
    "Pyb.C44_native_container_partial",
    "Pyb.C44_ietf_single_partial",
    "Pyb.C44_ietf_last_refuted",
    "Pyb.C44_native_runtime_refuted",
    "Pyb.C44_native_merged_refuted",
    "Pyb.C44_ietf_two_refuted",
    "Pyb.C44_ietf_runtime_refuted",
    "Pyb.C44_ietf_empty_refuted"
   ],
   "note": "Native JSON: C44_native_keys_partial: if loading with overwrite succeeds, the list has entries under exactly the document's keys. C44_native_container_partial: a container of the module ends as if loaded into a new object, with all lists in it. IETF JSON: C44_ietf_single_partial: one element over at most one entry. Refuted: removing an entry that is not the last raises RuntimeError (C44_native_removal_refuted, for all such documents), entries of native JSON are merged, IETF JSON keeps only the last element (C44_ietf_last_refuted, for all documents), two existing entries raise RuntimeError, an empty array removes nothing."
  },
  {
   "property": "C45",
   "status": "partial",
   "theorems": [
    "Pyb.C45_merge_partial",
    "Pyb.C45_union_partial",
    "Pyb.C45_lost_refuted",
    "Pyb.C45_old_value_refuted",
    "Pyb.C45_converted_refuted"
   ],
   "note": "C45_merge_partial: the exact result for all old values and all documents whose values are stored as given: the union, without the old values the document lacks. C45_union_partial: no loss if the document has all the old values. Refuted: C45_lost_refuted (old values not in the document are removed, for all documents), C45_converted_refuted (numbers given as strings: all is lost)."
  },
  {
   "property": "C46",
   "status": "partial",
   "theorems": [
    "Pyb.C46_encoding_partial",
    "Pyb.C46_restricted_typedef_refuted",
    "Pyb.C46_identity_name_refuted",
    "Pyb.C46_identity_typedef_refuted",
    "Pyb.C46_empty_typedef_refuted",
    "Pyb.C46_boolean_leaflist_refuted",
    "Pyb.C46_decimal_partial",
    "Pyb.C46_decimal_exponent_refuted"
   ],
   "note": "C46_encoding_partial for all types but unions (C81) and leafrefs (C94), and C46_decimal_partial. Refuted: restricted 64-bit typedefs, identities whose name is in several modules, identityref and empty behind a typedef, boolean leaf-lists, decimal64 written with an exponent."
  },
  {
   "property": "C47",
   "status": "partial",
   "theorems": [
    "Pyb.C47_skip_partial",
    "Pyb.C47_places_partial",
    "Pyb.C47_ietf_partial",
    "Pyb.C47_own_refuted",
    "Pyb.C47_unqualified_refuted",
    "Pyb.C47_below_leaf_refuted",
    "Pyb.C47_list_refuted",
    "Pyb.C47_int_key_refuted",
    "Pyb.C47_written_ietf",
    "Pyb.C47_written_native"
   ],
   "note": "C47_skip_partial: for every object of every history and all paths that lead below the object and not below a leaf, native dumps gives exactly the tree without the listed subtrees (order kept); C47_places_partial says the same place by place; C47_ietf_partial for IETF JSON with qualified names. Refuted: the object's own path (C47_own_refuted) and unqualified names in IETF mode (C47_unqualified_refuted) skip nothing; a path below a leaf, leaf-list or IETF list raises TypeError (C47_below_leaf_refuted); /list/leaf without key and number keys skip nothing. C47_written_ietf, C47_written_native: without skip_subtrees the documents are the encodings of the trees, for every tree."
  },
  {
   "property": "C48",
   "status": "partial",
   "theorems": [
    "Pyb.C48_native_partial",
    "Pyb.C48_ietf_partial",
    "Pyb.C48_missing_refuted",
    "Pyb.C48_dotted_name_refuted",
    "Pyb.C48_ietf_dotted_refuted",
    "Pyb.C48_ietf_container_refuted"
   ],
   "note": "C48_native_partial: for every list of every history and every selection of leaves set in all entries, exactly the matching entries stay. C48_ietf_partial: the same for IETF JSON and leaves directly in the entries. Refuted, for all lists with entries: an unset selected leaf raises KeyError (C48_missing_refuted), leaf names with dots (C48_dotted_name_refuted), dotted names in IETF mode (C48_ietf_dotted_refuted). C48_ietf_container_refuted: in IETF mode select on a container removes nothing."
  },
  {
   "property": "C49",
   "status": "proved",
   "theorems": [
    "Pyb.C49_defaults"
   ],
   "note": "C49_defaults, for get(filter=False)."
  },
  {
   "property": "C50",
   "status": "partial",
   "theorems": [
    "Pyb.C50_split_partial",
    "Pyb.C50_split_refuted"
   ],
   "note": "C50_split_partial: for every list of steps made of characters, double-quoted texts and predicates (with '/' in the latter two), splitting the joined text gives the steps back, if quoted texts have no brackets. C50_split_refuted: a quoted ']' ends the predicate."
  },
  {
   "property": "C51",
   "status": "partial",
   "theorems": [
    "Pyb.C51_lookup_partial",
    "Pyb.C51_string_partial",
    "Pyb.C51_succeeds_partial"
   ],
   "note": "C51_lookup_partial: after any history of register/unregister, lookups refine the map from paths to objects (up to ==, see C52); C51_succeeds_partial: exactly the operations that can be done succeed; C51_string_partial: the same through a path given as text. Restricted to paths of one schema whose key values the helper can take (no space, ^, quotes, ], |, control characters, current())."
  },
  {
   "property": "C52",
   "status": "partial",
   "theorems": [
    "Pyb.C52_replace_partial",
    "Pyb.C52_equal_unchanged",
    "Pyb.C52_equal_refuted"
   ],
   "note": "C52_replace_partial: an unequal object replaces the old one, all other lookups (children too) are as before. C52_equal_unchanged and C52_equal_refuted: an object == to the one there is not taken, lookups give the old one."
  },
  {
   "property": "C53",
   "status": "partial",
   "theorems": [
    "Pyb.C53_no_leak_partial",
    "Pyb.C53_children_refuted",
    "Pyb.C53_failed_refuted"
   ],
   "note": "C53_no_leak_partial: if every operation was possible and only childless objects were unregistered, every library entry is found by a path. C53_children_refuted, C53_failed_refuted: unregistering a subtree and failed registrations leak entries."
  },
  {
   "property": "C54",
   "status": "partial",
   "theorems": [
    "Pyb.C54_require_partial",
    "Pyb.C54_pointer_refuted",
    "Pyb.C54_leaflists_refuted",
    "Pyb.C54_no_helper_refuted"
   ],
   "note": "C54_require_partial: iff, when the path does not lead to a single non-key leaf or to several leaf-lists. C54_pointer_refuted: in the first case the value is taken and written to the target; C54_leaflists_refuted: in the second a present value is refused; C54_no_helper_refuted: without path helper any value is taken."
  },
  {
   "property": "C55",
   "status": "proved",
   "theorems": [
    "Pyb.C55_unique",
    "Pyb.C55_raises",
    "Pyb.C55_entries_partial"
   ],
   "note": "C55_unique, C55_raises for every state and path; C55_entries_partial relates it to the number of list entries after any history."
  },
  {
   "property": "C56",
   "status": "partial",
   "theorems": [
    "Pyb.C56_predicate_partial",
    "Pyb.C56_delete_partial",
    "Pyb.C56_predicate_refuted"
   ],
   "note": "C56_predicate_partial, C56_delete_partial: for all key tuples with the characters the helper can take. C56_predicate_refuted: values with a space, ^, ], ||, empty or ending in '[' (delete) are not read back."
  },
  {
   "property": "C57",
   "status": "proved",
   "theorems": [
    "Pyb.C57_closure",
    "Pyb.C57_order"
   ],
   "note": "Every finite set of definitions whose bases have a meaning (pyang checks the prefixes) with one definition per module and name. C57_order: independent of order and repetition."
  },
  {
   "property": "C58",
   "status": "proved",
   "theorems": [
    "Pyb.C58_terminates",
    "Pyb.C58_cycle"
   ],
   "note": "C58_terminates is the equivalence; C58_cycle the never-ending case for every number of turns."
  },
  {
   "property": "C59",
   "status": "partial",
   "theorems": [
    "Pyb.C59_qualified_partial",
    "Pyb.C59_bare_partial",
    "Pyb.C59_value_partial",
    "Pyb.C59_same_name_refuted",
    "Pyb.C59_prefix_refuted"
   ],
   "note": "C59_qualified_partial and C59_bare_partial: the key is written by one identity only. C59_value_partial composes with the leaf type. Refuted by C59_same_name_refuted and C59_prefix_refuted: entries of same-named identities overwrite each other."
  },
  {
   "property": "C60",
   "status": "partial",
   "theorems": [
    "Pyb.C60_order_partial",
    "Pyb.C60_unresolved",
    "Pyb.C60_chain_refuted",
    "Pyb.C60_nested_union_refuted",
    "Pyb.C60_prefix_refuted",
    "Pyb.C60_build_partial"
   ],
   "note": "Proved: for up to 1001 typedefs without a union written inside a union, in any order, all are built after what they need (C60_order_partial), unresolvable or circular sets are refused and the loop ends (C60_unresolved), and the classes get built when modules are called by their own prefixes and types are plain (C60_build_partial). Refuted: chains of 1002 or more typedefs given last to first (retry limit), unions inside unions, import prefixes other than the module's own."
  },
  {
   "property": "C61",
   "status": "partial",
   "theorems": [
    "Pyb.C61_nearest_partial",
    "Pyb.C61_unrestricted_refuted"
   ],
   "note": "C61_nearest_partial: holds for every chain in which no typedef without default and without restriction names a typedef with a default, for plain types (no unions, identityrefs). C61_unrestricted_refuted: such a typedef hides the default."
  },
  {
   "property": "C62",
   "status": "partial",
   "theorems": [
    "Pyb.C62_rfc_numbering_partial",
    "Pyb.C62_rfc_numbering_refuted"
   ],
   "note": "Holds without explicit values; refuted with them."
  },
  {
   "property": "C63",
   "status": "partial",
   "theorems": [
    "Pyb.C63_decimal64_bounds_refuted",
    "Pyb.C63_decimal64_bounds_partial"
   ],
   "note": "Refuted; only a 28-digit bound holds."
  },
  {
   "property": "C64",
   "status": "partial",
   "theorems": [
    "Pyb.C64_setitem_inserts",
    "Pyb.C64_setitem_refuted",
    "Pyb.C64_reverse_refuted",
    "Pyb.C64_iadd_refuted"
   ],
   "note": "Refuted: item assignment inserts, reverse raises, += raises for strings."
  },
  {
   "property": "C65",
   "status": "partial",
   "theorems": [
    "Pyb.C65_types_kept_partial",
    "Pyb.C65_builtin_refuted"
   ],
   "note": "C65_types_kept_partial for type names that are no spelling of an identity; C65_builtin_refuted: an identity named like a built-in type replaces it in class_map."
  },
  {
   "property": "C66",
   "status": "partial",
   "theorems": [
    "Pyb.C66_same_name_refuted",
    "Pyb.C66_bare_name_partial"
   ],
   "note": "C66_same_name_refuted: the bare name is shared by all modules, the last one built wins. C66_bare_name_partial: holds when typedefs of one name are alike."
  },
  {
   "property": "C67",
   "status": "partial",
   "theorems": [
    "Pyb.C67_own_default_partial",
    "Pyb.C67_own_default_refuted"
   ],
   "note": "C67_own_default_refuted: the typedef's default wins for an unrestricted leaf type. C67_own_default_partial: holds if the leaf restricts its type or its type's entry has no default."
  },
  {
   "property": "C68",
   "status": "proved",
   "theorems": [
    "Pyb.C68_distinct_keys",
    "Pyb.C68_found"
   ],
   "note": "For every schema and history."
  },
  {
   "property": "C69",
   "status": "partial",
   "theorems": [
    "Pyb.C69_empty_binary_refuted",
    "Pyb.C69_no_bits_refuted",
    "Pyb.C69_session_partial",
    "Pyb.C69_xml_roundtrip_partial",
    "Pyb.C69_reachable_partial",
    "Pyb.C69_empty_string_refuted",
    "Pyb.C69_empty_false_refuted",
    "Pyb.C69_typed_strings_refuted",
    "Pyb.C69_typed_key_refuted",
    "Pyb.C69_same_key_refuted",
    "Pyb.C69_identity_key_refuted",
    "Pyb.C69_keyless_refuted",
    "Pyb.C69_identity_leaflist_refuted",
    "Pyb.C69_identity_leaflists_refuted",
    "Pyb.C69_text_partial"
   ],
   "note": "C69_xml_roundtrip_partial for every tree in order, C69_reachable_partial for what any history leaves. lxml's type inference is a parameter of which only Objectify is assumed. Conditions: no empty strings, leaf-list and key strings not taken for numbers or booleans, lists with keys. Refuted otherwise: C69_empty_string_refuted, C69_empty_false_refuted, C69_typed_strings_refuted, C69_typed_key_refuted, C69_same_key_refuted, C69_identity_key_refuted, C69_keyless_refuted, C69_identity_leaflists_refuted (general). C69_session_partial: the same for what any session of API calls and loaded documents leaves. Leaves may also be decimal64, binary and bits, as long as their text is not empty (C69_empty_binary_refuted, C69_no_bits_refuted). C69_text_partial: the same through the text: what serialise writes, pretty-printed or not, and every other text of the document."
  },
  {
   "property": "C70",
   "status": "proved",
   "theorems": [
    "Pyb.C70_leaf_iff_set",
    "Pyb.C70_leaflist_in_order",
    "Pyb.C70_list_entries",
    "Pyb.C70_container_iff_shown",
    "Pyb.C70_nothing_else"
   ],
   "note": "Places are numbered through the schema (treeAt, elemsAt); one theorem for each kind of node and one for the absence of others."
  },
  {
   "property": "C71",
   "status": "partial",
   "theorems": [
    "Pyb.C71_encoding_partial",
    "Pyb.C71_identity_name_refuted",
    "Pyb.C71_identity_typedef_refuted",
    "Pyb.C71_empty_typedef_refuted",
    "Pyb.C71_boolean_leaflist_refuted",
    "Pyb.C71_document_partial",
    "Pyb.C71_prefix_refuted"
   ],
   "note": "C71_encoding_partial for integers, strings, enumerations, booleans, empty, identityrefs, decimal64, binary and bits against the inductive relation Rfc7950; refuted for identities named after their module, typedefs of identityref and empty, and leaf-lists of booleans. Unions: C81; leafrefs: C94. C71_document_partial: the same for leaves inside documents, where lxml leaves out declarations; refuted for a leaf added by another module whose value is an identity of the module around it: its prefix is not declared (C71_prefix_refuted)."
  },
  {
   "property": "C72",
   "status": "partial",
   "theorems": [
    "Pyb.C72_unknown_reported",
    "Pyb.C72_attribute_error",
    "Pyb.C72_namespace_refuted",
    "Pyb.C72_alias_refuted",
    "Pyb.C72_inside_leaf_refuted"
   ],
   "note": "C72_unknown_reported at any depth below containers and lists, and inside leaf-lists, for any earlier content; C72_attribute_error. Refuted for other namespaces, for names with the same Python name, and inside leaves."
  },
  {
   "property": "C73",
   "status": "partial",
   "theorems": [
    "Pyb.C73_entry",
    "Pyb.C73_leaflist_partial",
    "Pyb.C73_number_key_refuted"
   ],
   "note": "C73_entry for any list, any earlier content and any element; C73_leaflist_partial for values read as they are stored. Refuted for entries added under a number."
  },
  {
   "property": "C74",
   "status": "partial",
   "theorems": [
    "Pyb.C74_leaf_values",
    "Pyb.C74_leaflist_values",
    "Pyb.C74_unset_default",
    "Pyb.C74_distinct_keys",
    "Pyb.C74_marked",
    "Pyb.C74_present",
    "Pyb.C74_exclusive_partial",
    "Pyb.C74_keyless_refuted",
    "Pyb.C74_native_key_refuted"
   ],
   "note": "C74_leaf_values, C74_leaflist_values, C74_unset_default, C74_distinct_keys hold for every session; C74_marked and C74_present without _set_present(False); C74_exclusive_partial for flat choices and lists with keys. Refuted: lists without key (C74_keyless_refuted), key leaves in native documents (C74_native_key_refuted)."
  },
  {
   "property": "C75",
   "status": "partial",
   "theorems": [
    "Pyb.C75_keys_agree_partial",
    "Pyb.C75_lookup_partial",
    "Pyb.C75_unset_refuted",
    "Pyb.C75_load_refuted"
   ],
   "note": "C75_keys_agree_partial and C75_lookup_partial for every session of API calls and IETF JSON and XML documents, on schemas without a choice that has the name of a choice above it. Refuted: _unset_ of a key leaf (C75_unset_refuted), native JSON (C74_native_key_refuted). C75_load_refuted: setters of key leaves called with load=True."
  },
  {
   "property": "C76",
   "status": "partial",
   "theorems": [
    "Pyb.C76_leaf_iff_set_partial",
    "Pyb.C76_leaflist_partial",
    "Pyb.C76_same_places",
    "Pyb.C76_no_empty_container",
    "Pyb.C76_member_names",
    "Pyb.C76_entries",
    "Pyb.C76_same_text_refuted",
    "Pyb.C76_boolean_leaflist_refuted"
   ],
   "note": "C76_leaf_iff_set_partial, C76_leaflist_partial, C76_same_places, C76_no_empty_container, C76_member_names, C76_entries, for trees in which siblings have different names and the keys of a list different texts. The values are covered for integers, strings, enumerations, identityrefs, booleans, empty, decimal64, binary and bits; presence and absence for all types. Refuted: keys with the same text are written under one name; leaf-lists of booleans are written as numbers."
  },
  {
   "property": "C77",
   "status": "partial",
   "theorems": [
    "Pyb.C77_ietf_values_partial",
    "Pyb.C77_ietf_rest_partial",
    "Pyb.C77_rfc7951_partial",
    "Pyb.C77_ignored_refuted",
    "Pyb.C77_list_emptied_refuted",
    "Pyb.C77_last_key_refuted",
    "Pyb.C77_native_values_partial",
    "Pyb.C77_native_rest_partial",
    "Pyb.C77_native_int_key_refuted",
    "Pyb.C77_native_list_emptied_refuted",
    "Pyb.C77_xml_values_partial",
    "Pyb.C77_xml_rest",
    "Pyb.C77_xml_no_text_refuted",
    "Pyb.C77_xml_no_texts_refuted"
   ],
   "note": "IETF JSON: C77_ietf_values_partial, C77_ietf_rest_partial, C77_rfc7951_partial. Native JSON: C77_native_values_partial, C77_native_rest_partial. XML: C77_xml_values_partial, C77_xml_rest. All without overwrite, in schemas whose lists have keys, for documents that do not contradict themselves. Refuted: null, [] and {} for a leaf are accepted and ignored in IETF JSON; a number (IETF) or {} (native) in the place of a list empties it; an IETF entry whose last of several keys is empty is not found again; a native entry added with a number as key is not found by a document; an XML element without text leaves the leaf as it was."
  },
  {
   "property": "C78",
   "status": "partial",
   "theorems": [
    "Pyb.C78_name_partial",
    "Pyb.C78_qualified_partial",
    "Pyb.C78_read",
    "Pyb.C78_prefix_refuted",
    "Pyb.C78_any_module_refuted",
    "Pyb.C78_xml_name_partial",
    "Pyb.C78_xml_read",
    "Pyb.C78_same_name_refuted",
    "Pyb.C78_same_name_tree_refuted"
   ],
   "note": "Proved for values set to the name of an identity (C78_name_partial, C78_xml_name_partial) and to module:name (C78_qualified_partial); every legal encoding is read as the name (C78_read, C78_xml_read). Refuted in general: values with an import prefix are written with a second prefix or an unknown one (C78_prefix_refuted), a wrong module name in a document is ignored (C78_any_module_refuted). Refuted by witness: with the same name in two modules the identity of one is read and that of the other is written (C78_same_name_refuted, C78_same_name_tree_refuted)."
  },
  {
   "property": "C79",
   "status": "partial",
   "theorems": [
    "Pyb.C79_complete",
    "Pyb.C79_sound",
    "Pyb.C79_presence_refuted",
    "Pyb.C79_choices_partial",
    "Pyb.C79_session_partial",
    "Pyb.C79_nested_refuted"
   ],
   "note": "C79_complete and C79_sound for every module. C79_choices_partial (histories) and C79_session_partial (API calls and documents) for modules without choices within cases of choices and without a choice that has the name of a choice in an enclosing container or list, below the top level. Refuted otherwise: C79_nested_refuted (a choice directly in a case), C32_nested_refuted (in a container in a case), C32_root_refuted. C79_presence_refuted: a presence container without children has no attribute unless --presence is given. Types of leaves, config, class and file names, rpcs and notifications are not in this model."
  },
  {
   "property": "C80",
   "status": "partial",
   "theorems": [
    "Pyb.C80_select_partial",
    "Pyb.C80_keyref_partial",
    "Pyb.C80_alone_refuted",
    "Pyb.C80_several_refuted",
    "Pyb.C80_or_refuted",
    "Pyb.C80_unregistered_refuted",
    "Pyb.C80_quote_refuted"
   ],
   "note": "C80_select_partial and C80_keyref_partial: for all paths and histories, if the leaf's parent is registered (for relative paths the leaf itself), each current() leads to exactly one node whose text has no apostrophe, and equal objects have equal texts. Refuted otherwise: C80_unregistered_refuted, C80_several_refuted, C80_quote_refuted; C80_alone_refuted (current() without a path), C80_or_refuted (or in a predicate)."
  },
  {
   "property": "C81",
   "status": "partial",
   "theorems": [
    "Pyb.C81_encoding_partial",
    "Pyb.C81_native",
    "Pyb.C81_xml",
    "Pyb.C81_ints_strings",
    "Pyb.C81_boolean_refuted",
    "Pyb.C81_document_refuted",
    "Pyb.C81_long_refuted",
    "Pyb.C81_identity_refuted",
    "Pyb.C81_empty_refuted",
    "Pyb.C81_range_refuted",
    "Pyb.C81_leaflist_encoding_partial",
    "Pyb.C81_leaflist_native_partial",
    "Pyb.C81_leaflist_ints_strings_partial",
    "Pyb.C81_leaflist_boolean_refuted",
    "Pyb.C81_leaflist_long_refuted"
   ],
   "note": "C81_encoding_partial, C81_native, C81_xml: any union and any value that is a value of a member as it is, if no member before takes it (its text, for XML and 64-bit integers). C81_ints_strings: in unions of integers followed by strings that is so for all the leaf can hold (set to a text, or to an integer in a range). The tree theorems C38, C39 and C69 cover leaves of unions under these conditions. Refuted: C81_boolean_refuted and C81_document_refuted (a boolean comes back as a number), C81_long_refuted (a number comes back as a string), C81_identity_refuted, C81_empty_refuted, C81_range_refuted (not encoded as RFC 7951 says). C81_leaflist_encoding_partial, C81_leaflist_native_partial, C81_leaflist_ints_strings_partial: the same for leaf-lists of unions whose elements differ, also covered in C38, C39 and C69; C81_leaflist_boolean_refuted, C81_leaflist_long_refuted. Missing: decimal64, binary, bits and leafrefs as members, unions as keys."
  },
  {
   "property": "C82",
   "status": "partial",
   "theorems": [
    "Pyb.C82_unfiltered_leaf",
    "Pyb.C82_unfiltered_leaflist",
    "Pyb.C82_if_set_leaf",
    "Pyb.C82_if_set_partial",
    "Pyb.C82_if_set_leaflist",
    "Pyb.C82_more",
    "Pyb.C82_no_empty_container",
    "Pyb.C82_unset_number_refuted",
    "Pyb.C82_default_refuted"
   ],
   "note": "IF_SET writes a leaf exactly if it is set only for leaves with a default or with text values: an unset number or boolean without default is written as 0 or false (C82_unset_number_refuted), since the missing default False equals the value. With filter=False unset leaves are written with the value of a new leaf and not with their default (C82_default_refuted). C82_if_set_leaf is the exact condition for all leaves."
  },
  {
   "property": "C83",
   "status": "partial",
   "theorems": [
    "Pyb.C83_documents_partial",
    "Pyb.C83_lookup_partial",
    "Pyb.C83_calls_partial",
    "Pyb.C83_unset_refuted",
    "Pyb.C83_refused_key_refuted",
    "Pyb.C83_refused_value_refuted",
    "Pyb.C83_same_text_refuted",
    "Pyb.C83_kinds"
   ],
   "note": "Proved for keyed lists whose keys differ in their texts and can be written in a path (C56), no lists in cases of choices or below what is unset, and operations that do not raise late, that is after a new object was registered (Late, HistOk); objects are told apart by kind and text, not identity (C52 for equal ones). Refuted otherwise: entries below an unset container are still found (C83_unset_refuted), so is an entry whose key was refused (C83_refused_key_refuted) and a leaf whose value was refused late (C83_refused_value_refuted); two entries whose keys have one text share a path (C83_same_text_refuted). C83_documents_partial: the same when documents, in any format, are loaded in between, without overwrite; they may be refused, if not late. Copying objects into the tree and lists without key are not followed."
  },
  {
   "property": "C84",
   "status": "proved",
   "theorems": [
    "Pyb.C84_add",
    "Pyb.C84_add_named",
    "Pyb.C84_setitem",
    "Pyb.C84_delete"
   ],
   "note": "Every outcome of add (positional and keyword), item assignment and delete, for entry classes whose key leaves refuse values with ValueError (shown for uint8 and string keys)."
  },
  {
   "property": "C85",
   "status": "partial",
   "theorems": [
    "Pyb.C85_layers_partial",
    "Pyb.C85_no_number_refuted",
    "Pyb.C85_layers_text_refuted",
    "Pyb.C85_range_partial",
    "Pyb.C85_rounded_range_partial",
    "Pyb.C85_single_refuted",
    "Pyb.C85_none_refuted",
    "Pyb.C85_none_unbounded_refuted",
    "Pyb.C85_text_refuted",
    "Pyb.C85_digits_refuted",
    "Pyb.C85_decimal_text"
   ],
   "note": "Proved for ranges of spans and of single values that a double holds exactly, with every literal, white space and number of parts; values as decimals, integers or texts; on the type itself and, with rounding, on a typedef. Refuted: single values such as 0.1 are never accepted (compared with a float), None stores 0, texts that are no numbers raise InvalidOperation, and the fraction digits are ignored when the range is on the type itself. C85_layers_partial: a range on a typedef with a range, exactly the decimals in both. A third layer is not modelled. C85_decimal_text says exactly which texts are decimals (white space around, underscores anywhere, sign, point, exponent). All others raise InvalidOperation, whatever the range (C85_no_number_refuted), and on a range over a typedef with a range they are taken silently and leave 0 in the leaf (C85_layers_text_refuted)."
  },
  {
   "property": "C86",
   "status": "partial",
   "theorems": [
    "Pyb.C86_native_partial",
    "Pyb.C86_text",
    "Pyb.C86_assigned_text",
    "Pyb.C86_range_text",
    "Pyb.C86_range_refuted",
    "Pyb.C86_digits_refuted"
   ],
   "note": "C86_text and C86_assigned_text: IETF JSON and XML, every value a leaf without range can be assigned; C86_range_text: with any range. C86_native_partial: native JSON for every value of fewer than 2^52 units, any number of fraction digits. Refuted in native JSON: 16-digit values change their last digit (C86_digits_refuted); with a range 0.1 comes back as its binary expansion (C86_range_refuted). That json reads back the float it wrote is trusted."
  },
  {
   "property": "C87",
   "status": "partial",
   "theorems": [
    "Pyb.C87_octets_exact",
    "Pyb.C87_text_partial",
    "Pyb.C87_document_partial",
    "Pyb.C87_others_refused",
    "Pyb.C87_text_refuted"
   ],
   "note": "C87_octets_exact for octets, C87_others_refused for anything that is no text or octets. C87_text_partial: texts are taken iff both the number of octets and the number of characters are allowed; C87_document_partial: exactly which stored values are read back. C87_text_refuted: with length 3 no value can be read from a document."
  },
  {
   "property": "C88",
   "status": "partial",
   "theorems": [
    "Pyb.C88_data",
    "Pyb.C88_bad",
    "Pyb.C88_attached_partial",
    "Pyb.C88_value_partial",
    "Pyb.C88_only",
    "Pyb.C88_rest_partial",
    "Pyb.C88_leaflist_refuted",
    "Pyb.C88_root_refuted",
    "Pyb.C88_roundtrip_refuted",
    "Pyb.C88_reload_refuted",
    "Pyb.C88_overwrite_partial"
   ],
   "note": "Data: for every document whose annotations are objects, same tree and outcome as for the document without them (C88_data); others raise (C88_bad, exact condition). Attached: everything annotated is, after a load without exception (C88_attached_partial, C88_value_partial); nothing else is (C88_only); the rest keeps its annotations (C88_rest_partial). Fails for leaf-list entries, the top-level object, documents written, and leaves loaded again without their annotation (refuted). C88_overwrite_partial: with overwrite no annotation of the replaced entry is left. Missing: other effects of overwrite, lists without key, contradictory documents."
  },
  {
   "property": "C89",
   "status": "partial",
   "theorems": [
    "Pyb.C89_path",
    "Pyb.C89_path_unique",
    "Pyb.C89_leaf_partial",
    "Pyb.C89_leaf_kept",
    "Pyb.C89_leaf_has",
    "Pyb.C89_holder_partial",
    "Pyb.C89_call",
    "Pyb.C89_method_refuted",
    "Pyb.C89_accessor_refuted",
    "Pyb.C89_hidden_refuted",
    "Pyb.C89_reserved_refuted"
   ],
   "note": "Lookup by schema path, whatever the keys (C89_path), and different nodes have different ones (C89_path_unique). Leaves: exactly the public methods without those the leaf has anyway (C89_leaf_partial), nothing replaced (C89_leaf_kept, C89_leaf_has). Containers, lists and entries: the same if no name registered is one they have (C89_holder_partial). Calls: C89_call. Fails for a method called `method` (later ones are not bound), for containers with a method of the name of an accessor (replaced, or hidden), and of an internal method (the container cannot be made): refuted. The objects registered are lists of attributes; `dir` and `hasattr` are modelled on them."
  },
  {
   "property": "C90",
   "status": "partial",
   "theorems": [
    "Pyb.C90_continuation_refuted",
    "Pyb.C90_repr",
    "Pyb.C90_quoted_partial",
    "Pyb.C90_injection_refuted",
    "Pyb.C90_backslash_refuted",
    "Pyb.C90_lines_refuted",
    "Pyb.C90_doc_partial",
    "Pyb.C90_doc_refuted",
    "Pyb.C90_doc_backslash_refuted",
    "Pyb.C90_message_partial",
    "Pyb.C90_message_refuted",
    "Pyb.C90_values",
    "Pyb.C90_number_partial",
    "Pyb.C90_octal_refuted",
    "Pyb.C90_decimal_partial",
    "Pyb.C90_decimal_refuted"
   ],
   "note": "Texts written by `repr` are read back, all of them (C90_repr), and so are the nested lists and dicts of restrictions, bits, choices and extensions (C90_values). Texts written between quote characters (defaults, namespaces, leafref paths, keys) are read back iff they have no such quote, line end or backslash with a meaning (C90_quoted_partial); otherwise they may be changed, break the program or put code into it: refuted (C90_continuation_refuted: a backslash at a line end silently vanishes together with the line end). The docstrings with descriptions and the messages: C90_doc_partial, C90_message_partial, with refutations. Defaults of integers are read back in decimal and hexadecimal (C90_number_partial), octal ones break the program (C90_octal_refuted). Defaults of decimal64 are given to `Decimal` as floats: exact for fractions of 53 binary digits (C90_decimal_partial), a different number for all others (C90_decimal_refuted). The reader is a model of the literals of Python, not of its whole grammar."
  },
  {
   "property": "C91",
   "status": "partial",
   "theorems": [
    "Pyb.C91_classes_partial",
    "Pyb.C91_complete",
    "Pyb.C91_reserved_refuted",
    "Pyb.C91_rpc_refuted",
    "Pyb.C91_modules_refuted",
    "Pyb.C91_module_name_refuted",
    "Pyb.C91_header_refuted",
    "Pyb.C91_shadow_refuted",
    "Pyb.C91_shared_refuted"
   ],
   "note": "Every package loads and every reference is to the class of the child (C91_classes_partial), for modules with names that do not get in each other's way (ModulesOk: no reserved words, no names of the header, none ending in an underscore, siblings that differ in Python, no two modules with a top-level node in common, none with the name of another module; nested nodes of exactly the same name are allowed). A class for every node: C91_complete. Refuted without: reserved word in one of its name, rpc with the name of the module, two modules with a container in common, container with the name of an earlier module, names of the header (long, Decimal), a.b in a-b, a and a_ in a. Submodules (which are written twice) and the text of the classes are not modelled."
  },
  {
   "property": "C92",
   "status": "partial",
   "theorems": [
    "Pyb.C92_collected",
    "Pyb.C92_definitions_partial",
    "Pyb.C92_scope_refuted",
    "Pyb.C92_action_refuted",
    "Pyb.C92_prefix_refuted",
    "Pyb.C92_nested_refuted",
    "Pyb.C92_circular_refuted",
    "Pyb.C92_written",
    "Pyb.C92_written_rpcs",
    "Pyb.C92_errors"
   ],
   "note": "Proved: the collection ends and has exactly the definitions of the needed modules, under each prefix; each is the right one if a qualified name means one definition. Which modules are written is exact. False of the code: a typedef in an action is not found; of two typedefs of one name in sibling scopes the last replaces the first; a prefix used for an import that is another module's own prefix makes that module's definitions disappear; submodules included by submodules are not looked at. Circular imports (which pyang refuses) would be gone through without end."
  },
  {
   "property": "C93",
   "status": "partial",
   "theorems": [
    "Pyb.C93_value_partial",
    "Pyb.C93_typedef_last",
    "Pyb.C93_typedef_partial",
    "Pyb.C93_typedef_refuted",
    "Pyb.C93_member_refuted",
    "Pyb.C93_narrow_refuted",
    "Pyb.C93_error_refuted",
    "Pyb.C93_typedef_default_refuted",
    "Pyb.C93_typedef_enum",
    "Pyb.C93_typedef_enum_refuted",
    "Pyb.C93_typedef_enum_error_refuted",
    "Pyb.C93_typedef_identity",
    "Pyb.C93_typedef_identity_refuted",
    "Pyb.C93_typedef_none",
    "Pyb.C93_inherited_refuted",
    "Pyb.C93_typedef_leafref_refuted"
   ],
   "note": "Proved for a union at the leaf with integer, string, boolean and enumeration members (also restricted, or typedefs of such) when the members have no default and no earlier member's built-in type takes a text the member refuses; for typedefs of unions the class is exactly that of the last member, so the claim holds when that is the one that takes the text. Refuted otherwise: a member's default replaces the leaf's own; texts are tried on the built-in type of a restricted member; decimals, bits, restrictions of typedefs and typedefs of unions as members end generation with an exception; an empty default of a typedef is lost. C93_typedef_none: typedefs of unions of built-in types without default give none; C93_inherited_refuted: a default found further down, in the type of a member, becomes that of the leaf. With an enumeration in a typedef of a union the class is that of strings wherever it stands (C93_typedef_enum), and generation fails with KeyError when it is the last member and string comes before it (C93_typedef_enum_error_refuted). An identityref in a typedef of a union counts as a string in its place (C93_typedef_identity), with the same failures (C93_typedef_identity_refuted). With a leafref in the typedef's union no program is written at all: KeyError, with or without defaults (C93_typedef_leafref_refuted)."
  },
  {
   "property": "C94",
   "status": "partial",
   "theorems": [
    "Pyb.C94_encoding_partial",
    "Pyb.C94_pointer_partial",
    "Pyb.C94_roundtrip_partial",
    "Pyb.C94_xml_partial",
    "Pyb.C94_plain_refuted",
    "Pyb.C94_given_refuted",
    "Pyb.C94_identity_refuted",
    "Pyb.C94_reload_refuted",
    "Pyb.C94_xml_reload_refuted",
    "Pyb.C94_order_refuted",
    "Pyb.C94_dangling_refuted",
    "Pyb.C94_stale_refuted"
   ],
   "note": "Proved with a path helper, for leafrefs that require an instance and for pointers: the encoding of every value that is written well for plain leaves (C46), and the way back for integers, strings, enumerations, booleans, bits and (IETF) decimals, in XML without booleans. Refuted: bindings without --use-xpathhelper (always strings), no helper or require-instance false (written by the Python class of what was assigned), identities in another module than the leaf, reading identities, octets and XML booleans, documents with the leafref before its leaf, pointers whose leaf is gone, values that stay after the leaf is gone."
  },
  {
   "property": "C95",
   "status": "partial",
   "theorems": [
    "Pyb.C95_rfc8259_read",
    "Pyb.C95_rfc8259_file",
    "Pyb.C95_rfc8259_written",
    "Pyb.C95_rfc8259_unique",
    "Pyb.C95_text_partial",
    "Pyb.C95_file_partial",
    "Pyb.C95_ascii_partial",
    "Pyb.C95_names_partial",
    "Pyb.C95_native_names_partial",
    "Pyb.C95_crash_partial",
    "Pyb.C95_crash_refuted",
    "Pyb.C95_failure_refuted",
    "Pyb.C95_unopened",
    "Pyb.C95_loads_partial",
    "Pyb.C95_string_refuted",
    "Pyb.C95_floats_partial"
   ],
   "note": "The writer and reader of JSON text are modelled, except the text of floats (given). C95_text_partial and C95_file_partial: documents without repeated members and with floats that Python reads as it writes them come back; C95_names_partial shows that IETF documents of bindings are such documents, C95_native_names_partial for the default encoding. C95_crash_partial: at every crash point the file is as before, or reads as the new document, or cannot be read; never another document. Refuted: after a crash, or if making the document raises, the old document may be lost (C95_crash_refuted, C95_failure_refuted); a file with a JSON string is parsed twice (C95_string_refuted). C95_floats_partial: the floats of a document in the default encoding are those of the decimals in the tree, so no condition on floats remains for trees without decimals. C95_rfc8259_read, C95_rfc8259_file and C95_rfc8259_written: against the grammar of RFC 8259, stated separately, every JSON text without repeated names is read as the document it stands for, and what is written is a JSON text of the document."
  },
  {
   "property": "C96",
   "status": "partial",
   "theorems": [
    "Pyb.C96_built_partial",
    "Pyb.C96_integer_partial",
    "Pyb.C96_string_partial",
    "Pyb.C96_enumeration",
    "Pyb.C96_boolean",
    "Pyb.C96_transparent",
    "Pyb.C96_union",
    "Pyb.C96_deep_refuted",
    "Pyb.C96_same_name_refuted",
    "Pyb.C96_nested_union_refuted",
    "Pyb.C96_prefix_refuted"
   ],
   "note": "The whole way from type statements to assignments: the order of typedefs (C60), the classes made of them, the restricted classes. C96_built_partial: all typedefs with a meaning are built, in any order. C96_enumeration, C96_boolean: exact. C96_integer_partial, C96_string_partial: exact up to the faults of C11. C96_transparent: statements of one meaning behave the same, C96_union: unions take what the first member takes. Refuted: three ranges (C96_deep_refuted), one name in two modules (C96_same_name_refuted), unions in unions (C96_nested_union_refuted), prefixes other than the module's own (C96_prefix_refuted). Not modelled there: restricted decimals and binaries (C85, C87), leafrefs with a path helper (C54)."
  },
  {
   "property": "C97",
   "status": "partial",
   "theorems": [
    "Pyb.C97_references",
    "Pyb.C97_layout_partial",
    "Pyb.C97_unambiguous_partial",
    "Pyb.C97_text_partial",
    "Pyb.C97_ascii_partial",
    "Pyb.C97_documents_partial",
    "Pyb.C97_comment_refuted"
   ],
   "note": "Texts are specified by the relation XmlDoc, which does not mention reading. C97_layout_partial: every text of a document is read as the document; C97_unambiguous_partial: no text is a text of two. C97_text_partial: what is written is such a text, C97_ascii_partial: in ASCII. C97_documents_partial: all documents of bindings can be written. The writer and reader model lxml and libxml2, for what occurs in such documents: no CDATA sections, attributes, prefixes of elements, declarations of encodings. Refuted: a comment after blanks at the start of a text changes the text (C97_comment_refuted). With bindings: C69_text_partial, C71_document_partial. C97_references: exactly the references to allowed characters are read, anything else after & is refused."
  },
  {
   "property": "C98",
   "status": "partial",
   "theorems": [
    "Pyb.C98_ietf_partial",
    "Pyb.C98_native_partial",
    "Pyb.C98_xml_partial",
    "Pyb.C98_session_partial"
   ],
   "note": "The calls are listed by functions of the schema, the binding and the document (Model/Calls); C98_ietf_partial, C98_native_partial and C98_xml_partial: making them with the operations of Model/Tree gives what the loader gives, all of them only fill the binding (Fills: none deletes, unsets or copies), and none raises, but for the last one if the document is refused (then what the earlier calls did stays, and nothing else); in XML, appending what looks like a number to a leaf-list of strings may raise before the text is appended. C98_session_partial: any session of calls and documents is a history of calls, which is how theorems about histories apply to documents (C83_documents_partial). Schemas as in C36 (ApartRoot); in native JSON the keys of lists are leaves. Missing: overwrite, metadata."
  },
  {
   "property": "C99",
   "status": "partial",
   "theorems": [
    "Pyb.C99_ietf_partial",
    "Pyb.C99_file_partial",
    "Pyb.C99_leaves_partial",
    "Pyb.C99_range_refuted",
    "Pyb.C99_keys_refuted",
    "Pyb.C99_native_partial",
    "Pyb.C99_native_file_partial",
    "Pyb.C99_native_leaves_partial",
    "Pyb.C99_native_key_refuted",
    "Pyb.C99_xml_partial",
    "Pyb.C99_xml_leaves_partial"
   ],
   "note": "Conditions on the module (Supported): identifiers without ':' and '@', attribute names of siblings apart, lists keyed by leaves of the list in its namespace, no choice in a case of another and none with the name of one in an enclosing node (C79 shows that choices do not work then). On the program (Proper): no taking back of presence, no _unset_ of key leaves, no documents in the default encoding. On the data (Kept): leaves of types other than integers (with zero in their ranges), plain strings, enumerations and booleans hold values of their types; leaf-list values and list keys are apart. C99_leaves_partial: none of the latter for modules of such leaves in containers and choices. Refuted without: a range without zero (C99_range_refuted), keys given as number and as text (C99_keys_refuted). C99_xml_partial: the same for XML text (XKept: no empty strings in leaves, and no strings taken for numbers in leaf-lists and keys), C99_xml_leaves_partial for modules of safe leaves. C99_native_partial and C99_native_file_partial: the same for the default encoding, for programs that may also load documents of that encoding (NKept: list keys hold the texts of the key leaves; decimals of fewer than 2^52 units); C99_native_leaves_partial for modules of safe leaves, with nothing asked of the data. C99_native_key_refuted: spaces in one of several keys. Missing: overwrite, several modules in one binding."
  },
  {
   "property": "C100",
   "status": "partial",
   "theorems": [
    "Pyb.C100_modules_partial",
    "Pyb.C100_last_partial",
    "Pyb.C100_update_refuted",
    "Pyb.C100_documents_refuted"
   ],
   "note": "C100_modules_partial: the conditions of C83 on each binding, and different top-level names. C100_last_partial: what is in the last of several bindings of a module is found, but C100_documents_refuted: so are entries of earlier ones. C100_update_refuted: a document loaded with a helper and no object always goes into a new binding, because the helper is asked for the path [] and answers nothing. Missing: two bindings of one module used in turns."
  },
  {
   "property": "C101",
   "status": "partial",
   "theorems": [
    "Pyb.C101_attributes_partial",
    "Pyb.C101_elements_partial",
    "Pyb.C101_get_partial",
    "Pyb.C101_deleted_refuted",
    "Pyb.C101_entries_refuted"
   ],
   "note": "For modules without top-level lists, with the conditions of C83 on each binding; C101_attributes_partial also beside such lists. Refuted for entries of top-level lists: deleted ones stay (C101_deleted_refuted), and get() has only one of them, under the list's name (C101_entries_refuted). Objects are as in C83: their kind and the text of a leaf's value. filter of get() is not modelled here."
  },
  {
   "property": "C102",
   "status": "partial",
   "theorems": [
    "Pyb.C102_session_partial",
    "Pyb.C102_then_partial",
    "Pyb.C102_in_place_partial",
    "Pyb.C102_undeclared",
    "Pyb.C102_removed_partial",
    "Pyb.C102_above_refuted",
    "Pyb.C102_choice_refuted",
    "Pyb.C102_key_refuted",
    "Pyb.C102_update_refuted",
    "Pyb.C102_helper_refuted",
    "Pyb.C102_raised_refuted"
   ],
   "note": "proved: add, discard and clear give the bits they should, mark the leaf and touch nothing else; undeclared bits are refused without effect; remove and pop of a bit that is set (no path helper, leaf not directly in a case) leave the binding exactly as assigning the text of the remaining bits. After any session of operations, loaded documents and such calls, with exceptions caught, every bits leaf has a value of its type, and each call has the effect it should. Refuted for the code: add does not mark the containers above or their presence and does not clear other cases of a choice; it changes key leaves; update lets undeclared bits in, after which str raises KeyError; with a path helper remove always raises AttributeError; a remove or pop that raises has marked the leaf. Not modelled: the other methods of set that are not replaced (operators such as |= and difference_update)."
  },
  {
   "property": "C103",
   "status": "partial",
   "theorems": [
    "Pyb.C103_registry_partial",
    "Pyb.C103_binding_partial",
    "Pyb.C103_text_partial",
    "Pyb.C103_top_refuted",
    "Pyb.C103_prefix_refuted"
   ],
   "note": "proved for histories of the helper (paths as in C51) and of a binding (as in C83), for parts and texts. Refuted: lists at the top level are not found, as the object at / has no such method; a prefix before the name of the list is not taken off. What an object's own _get_... method gives is a parameter."
  },
  {
   "property": "C104",
   "status": "partial",
   "theorems": [
    "Pyb.C104_reached_partial",
    "Pyb.C104_library_partial",
    "Pyb.C104_append_refuted",
    "Pyb.C104_present_refuted",
    "Pyb.C104_ordereddict_refuted",
    "Pyb.C104_elements_refuted",
    "Pyb.C104_underscore_refuted"
   ],
   "note": "C104_reached_partial, C104_library_partial: names that start with a letter and do not end in two separators, in classes whose name does not start with get_, set_ or unset_ (those of containers and lists never do), distinct as identifiers, none of them OrderedDict; for append and extend below the module the attribute, and for present the _set_ method, is excepted.  The code violates the rest: C104_append_refuted, C104_present_refuted, C104_ordereddict_refuted, C104_elements_refuted, C104_underscore_refuted.  Names of object (all with two underscores) are not considered."
  },
  {
   "property": "C105",
   "status": "partial",
   "theorems": [
    "Pyb.C105_refused_partial",
    "Pyb.C105_children_partial",
    "Pyb.C105_empty_refuted",
    "Pyb.C105_rpc_refuted",
    "Pyb.C105_keyless_refuted"
   ],
   "note": "Proved for module objects, containers and entries of lists with keys that have children, for names without leading underscore. Refuted for containers and modules without children (presence containers), for rpcs, inputs, outputs and notifications reached from above and for entries of lists without key: these have a __dict__ and take any name. The object of the list itself is not modelled."
  },
  {
   "property": "C106",
   "status": "partial",
   "theorems": [
    "Pyb.C106_untouched_partial",
    "Pyb.C106_list_refuted"
   ],
   "note": "Proved for all histories without deletion if no list has a key. Refuted for lists with keys: their entries are registered all the same, so that add raises XPathError with a helper and does not add. Deleting is not covered by the positive theorem; from lists without key it raises TypeError with a helper (C111_delete_refuted)."
  },
  {
   "property": "C107",
   "status": "partial",
   "theorems": [
    "Pyb.C107_json_partial",
    "Pyb.C107_xml_refuted"
   ],
   "note": "JSON in both formats as C38 and C39, with their conditions on values and names. Refuted for XML: for every rpc and all contents the document that was written loads as an empty object, without exception."
  },
  {
   "property": "C108",
   "status": "partial",
   "theorems": [
    "Pyb.C108_distinct_partial",
    "Pyb.C108_yang_path_partial",
    "Pyb.C108_keyless_refuted",
    "Pyb.C108_same_text_refuted",
    "Pyb.C108_yang_path_refuted",
    "Pyb.C108_history_partial"
   ],
   "note": "Proved for trees in which siblings have different names and no two entries of a list have keys with the same texts, for _yang_path() if names and keys are such as the path helper takes; C108_history_partial: both hold after every history with the conditions of C83. Refuted for entries of lists without key, which all have the path of the list, for keys with the same text (add(1) and add(\"1\")), and for _yang_path() with quotes in key values. Values with spaces given by keyword are not covered."
  },
  {
   "property": "C109",
   "status": "partial",
   "theorems": [
    "Pyb.C109_last_partial",
    "Pyb.C109_once_partial",
    "Pyb.C109_none_partial",
    "Pyb.C109_program_partial",
    "Pyb.C109_repeated_refuted",
    "Pyb.C109_letter_refuted"
   ],
   "note": "Proved for modules of interest with names of at least two characters: what is found is the argument of the last statement of the extension, None is given exactly if there is no such statement (C109_last_partial, C109_none_partial), and both are so for the value Python reads from the generated text (C109_program_partial). Refuted for extensions that a node has more than once (only the last is kept) and for modules with a name of one letter (YANG's own statements are taken for their extensions). Choices and cases have no object; that entries of lists get the dictionary of the list is not modelled."
  },
  {
   "property": "C110",
   "status": "partial",
   "theorems": [
    "Pyb.C110_found_partial",
    "Pyb.C110_list_refuted"
   ],
   "note": "Proved for leaves, leaf-lists, containers and list entries after every history with the conditions of C83, for paths as lists and as texts (up to == as in C52). Refuted for lists: under their path are their entries, or nothing."
  },
  {
   "property": "C111",
   "status": "partial",
   "theorems": [
    "Pyb.C111_add_refuted",
    "Pyb.C111_delete_refuted",
    "Pyb.C111_delete_partial",
    "Pyb.C111_lists_partial"
   ],
   "note": "The property does not hold: add() raises XPathError and adds nothing as soon as an entry has a child that is not a list (C111_add_refuted), and delete of an entry raises TypeError and leaves it (C111_delete_refuted). Proved for add() on lists whose entries hold nothing but lists (C111_lists_partial) and for delete with keys that are not there (C111_delete_partial). Not covered: what the helper keeps after the exception, item assignment, operations inside the entries."
  }
 ]
}