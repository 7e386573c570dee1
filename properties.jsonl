{"id": "C01", "title": "Attribute names are legal and stable", "statement": "For every YANG identifier, the Python attribute name pyangbind exposes is not a Python keyword nor one of pyangbind's reserved words, is itself a syntactically valid Python identifier, and converting a converted name again changes nothing.", "quantifier": "every YANG identifier (RFC 6020 identifier grammar), any length", "why_tests_cant": "The set of identifiers is infinite; tests only try a handful of names.", "anchors": ["pyangbind/lib/yangtypes.py:safe_name", "pyangbind/lib/yangtypes.py:reserved_name"]}
{"id": "C02", "title": "Attribute name collisions are exactly the '-', '.', '_' and reserved-word classes", "statement": "Two YANG identifiers get the same Python attribute name iff they are equal after mapping '-' and '.' to '_', or one is a reserved word and the other is that word with an underscore appended (modulo the same mapping). Hence siblings that differ elsewhere are never merged; siblings in one class ARE merged (one silently shadows the other).", "quantifier": "every pair of YANG identifiers", "why_tests_cant": "Collision freedom is a statement about all pairs of strings.", "anchors": ["pyangbind/lib/yangtypes.py:safe_name", "pyangbind/plugin/pybind.py:get_children"]}
{"id": "C03", "title": "List key names address real attributes", "statement": "For every list, each key named in the YANG key statement is reachable on an entry through the attribute name the list uses to set it.", "quantifier": "every key statement (any number of keys, any identifiers)", "why_tests_cant": "Depends on arbitrary identifiers in arbitrary combinations; only fails for particular mixes (multi-key with a reserved word).", "anchors": ["pyangbind/plugin/pybind.py:get_element (1541-1546)", "pyangbind/lib/yangtypes.py:YANGListType.__set"]}
{"id": "C04", "title": "Generated class names are unique per schema path", "statement": "Two distinct schema nodes (different absolute paths in the same module) are generated as two distinct Python classes.", "quantifier": "every pair of distinct schema paths", "why_tests_cant": "Collision needs a specific pair of paths; tests only have small models.", "anchors": ["pyangbind/plugin/pybind.py:get_children (803-804)", "pyangbind/plugin/pybind.py:get_element (1532-1536)"]}
{"id": "C05", "title": "Extension-method paths ignore list predicates", "statement": "The path used to look up extension methods for an instance is the schema path: every list predicate is removed and nothing else is altered, whatever the key values are.", "quantifier": "every instance path with arbitrary predicates whose element names contain no '['", "why_tests_cant": "Key values are arbitrary user strings (including '[' and '/').", "anchors": ["pyangbind/lib/yangtypes.py:remove_path_attributes", "pyangbind/lib/yangtypes.py:YANGBaseClass.__init__", "pyangbind/helpers/misc.py:module_import_prefixes"]}
{"id": "C06", "title": "Read-only data is exactly the config-false subtree", "statement": "A data node gets a public property setter iff neither it nor any of its schema ancestors says config false.", "quantifier": "every schema tree (any depth, any placement of config statements)", "why_tests_cant": "Inheritance through arbitrarily deep nesting, including choice/case nodes.", "anchors": ["pyangbind/plugin/pybind.py:get_children (754-763, 1189-1199)", "pyangbind/plugin/pybind.py:get_children_elements"]}
{"id": "C07", "title": "Integer range restriction accepts exactly the written ranges", "statement": "For every well-formed YANG range text made of 'low..high' parts, assigning an integer to the leaf succeeds iff the integer lies in the union of the written ranges (min/max being the type's bounds).", "quantifier": "every range expression (any number of parts, any bounds, any spacing) and every integer", "why_tests_cant": "Infinitely many range texts and integers; boundary bugs hide anywhere.", "anchors": ["pyangbind/lib/yangtypes.py:RestrictedClassType.build_length_range_tuples", "pyangbind/lib/yangtypes.py:RestrictedClassType.in_range_check", "pyangbind/plugin/pybind.py:build_elemtype"]}
{"id": "C08", "title": "Single-value range parts mean that value", "statement": "A range part that is a single integer accepts exactly that integer.", "quantifier": "every integer constant and every candidate value", "why_tests_cant": "Comparison goes through floating point, wrong only beyond 2^53.", "anchors": ["pyangbind/lib/yangtypes.py:RestrictedClassType.in_range_check (282-284)"]}
{"id": "C09", "title": "Built-in integer types accept exactly their range", "statement": "A leaf of type int8..int64/uint8..uint64 stores v for an integer (or its decimal text) iff v is within the bounds of the type, and then reads back v.", "quantifier": "all eight integer types and every integer", "why_tests_cant": "Infinite domain; boundaries.", "anchors": ["pyangbind/plugin/pybind.py:class_map / INT_RANGE_TYPES", "pyangbind/lib/yangtypes.py:RestrictedClassType"]}
{"id": "C10", "title": "String length restriction is exact", "statement": "Assigning a string to a length-restricted leaf succeeds iff its number of characters lies in one of the written lengths or length ranges.", "quantifier": "every length expression and every string", "why_tests_cant": "Infinite domain.", "anchors": ["pyangbind/lib/yangtypes.py:RestrictedClassType.in_range_check", "pyangbind/lib/yangtypes.py:RestrictedClassType.__new__"]}
{"id": "C11", "title": "All restrictions of a type hold together", "statement": "A value accepted by a leaf satisfies every restriction of its type: pattern and length and range, and those of every typedef it derives from.", "quantifier": "every set of restrictions, every typedef chain, every value", "why_tests_cant": "Needs all combinations of passing/failing restrictions over arbitrary nesting.", "anchors": ["pyangbind/lib/yangtypes.py:RestrictedClassType.__new__ (360-367)", "pyangbind/lib/yangtypes.py:RestrictedClassType.__init__ (375-384)"]}
{"id": "C12", "title": "A restricted leaf never holds an out-of-type value after an assignment", "statement": "After any assignment that does not raise, the value of the leaf is the conversion of the assigned value and satisfies the type's restrictions.", "quantifier": "every restricted type and every Python value assigned", "why_tests_cant": "The fallback path on TypeError only triggers for unusual Python values (None, lists, ints to string leaves).", "anchors": ["pyangbind/lib/yangtypes.py:YANGDynClass (1034-1066)", "pyangbind/lib/yangtypes.py:RestrictedClassType.__new__"]}
{"id": "C13", "title": "Patterns are anchored to the whole value", "statement": "A pattern-restricted leaf accepts a string iff the whole string matches the YANG pattern.", "quantifier": "every pattern and every string", "why_tests_cant": "Textual anchoring by adding ^ and $ is wrong only for particular shapes (top-level alternation, '$').", "anchors": ["pyangbind/lib/yangtypes.py:RestrictedClassType.convert_regexp", "pyangbind/lib/yangtypes.py:RestrictedClassType.match_pattern_check"]}
{"id": "C14", "title": "Enumeration values are unique and explicit ones preserved", "statement": "For every enumeration, every enum name gets an integer value, no two enums share one, and an explicitly given value is the value reported.", "quantifier": "every list of enums with distinct names and distinct explicit values, any mixture of explicit and implicit", "why_tests_cant": "Depends on interleaving of explicit and implicit values.", "anchors": ["pyangbind/lib/yangtypes.py:RestrictedClassType.__init__ (338-356)", "pyangbind/lib/yangtypes.py:RestrictedClassType.getValue", "pyangbind/plugin/pybind.py:build_elemtype enumeration"]}
{"id": "C15", "title": "Enumerations and identityrefs accept exactly their members", "statement": "Assigning a string to an enumeration or identityref leaf succeeds iff it is one of the listed names; the stored value equals the given name.", "quantifier": "every member table and every string", "why_tests_cant": "Infinite strings.", "anchors": ["pyangbind/lib/yangtypes.py:RestrictedClassType (dict_key)"]}
{"id": "C16", "title": "Boolean leaves accept exactly the documented spellings", "statement": "A boolean accepts exactly true/True/1/'1'/'true'/'True' and the false counterparts, stores the corresponding truth value, and rejects every other value.", "quantifier": "every Python value offered", "why_tests_cant": "All other strings and integers must be rejected.", "anchors": ["pyangbind/lib/yangtypes.py:YANGBool"]}
{"id": "C17", "title": "decimal64 values are correctly rounded to the declared fraction digits", "statement": "Assigning a decimal to a decimal64 leaf stores a value with exactly fraction-digits decimals, within half a unit of the input, ties to even; values already representable are unchanged.", "quantifier": "every fraction-digits 1..18 and every decimal input", "why_tests_cant": "Infinite domain, rounding ties.", "anchors": ["pyangbind/lib/yangtypes.py:RestrictedPrecisionDecimalType"]}
{"id": "C18", "title": "Binary leaves round-trip through base64", "statement": "Encoding a binary value for output and assigning the resulting text to a binary leaf gives back the same bytes.", "quantifier": "every byte string", "why_tests_cant": "Infinite domain; three padding cases.", "anchors": ["pyangbind/lib/yangtypes.py:YANGBinary", "pyangbind/lib/serialise.py:pybindJSONEncoder"]}
{"id": "C19", "title": "bits leaves hold a set of declared bits and print canonically", "statement": "A bits value contains only declared bits, each at most once; its text lists them in position order, and assigning the text back yields the same set; undeclared bits are rejected.", "quantifier": "every bits declaration and every sequence of adds, discards and assignments", "why_tests_cant": "Arbitrary histories and declarations.", "anchors": ["pyangbind/lib/yangtypes.py:YANGBits", "pyangbind/plugin/pybind.py:build_elemtype bits (1355-1370)"]}
{"id": "C20", "title": "Unions take the first member type that accepts", "statement": "Assigning to a union leaf stores the value converted by the first listed member type that accepts it, and raises iff no member type accepts it.", "quantifier": "every list of member types and every value", "why_tests_cant": "Any number of members in any order.", "anchors": ["pyangbind/lib/yangtypes.py:YANGDynClass (953-971)"]}
{"id": "C21", "title": "Leaf-lists never hold duplicates", "statement": "After any sequence of operations a leaf-list contains no two equal values.", "quantifier": "every operation history and every value representation", "why_tests_cant": "Duplicates arise only through mixed representations or particular histories.", "anchors": ["pyangbind/lib/yangtypes.py:TypedListType"]}
{"id": "C22", "title": "Leaf-list operations behave like an ordered set of checked values", "statement": "append adds a new checked value at the end or leaves the list unchanged if present; insert puts it at the index; remove and del delete exactly one; every stored item has the declared type; a rejected item leaves the list unchanged.", "quantifier": "every history of operations on canonical values", "why_tests_cant": "Arbitrary histories.", "anchors": ["pyangbind/lib/yangtypes.py:TypedListType"]}
{"id": "C23", "title": "A YANG list behaves as an insertion-ordered map", "statement": "add/delete/get/contains/keys/len on a keyed list behave as an insertion-ordered map from key to entry: adding an existing key raises KeyError and changes nothing, deleting removes exactly that entry, and iteration follows insertion order.", "quantifier": "every history of operations", "why_tests_cant": "Arbitrary histories.", "anchors": ["pyangbind/lib/yangtypes.py:YANGListType"]}
{"id": "C24", "title": "An entry's key leaves agree with the key it is stored under", "statement": "After any history of list operations, every entry stored under a key has key leaves whose values are those of the key.", "quantifier": "every list (any number of keys, any key types) and every history", "why_tests_cant": "Histories and key types unbounded.", "anchors": ["pyangbind/lib/yangtypes.py:YANGListType.__set", "pyangbind/lib/yangtypes.py:YANGListType._generate_key", "pyangbind/lib/yangtypes.py:YANGListType._extract_key"]}
{"id": "C25", "title": "Entries of a list have distinct key leaf values", "statement": "No two entries of a list have the same tuple of key leaf values.", "quantifier": "every history, every way of writing a key (positional, keyword, other representation of the same value)", "why_tests_cant": "Only mixtures of representations break it.", "anchors": ["pyangbind/lib/yangtypes.py:YANGListType.add", "pyangbind/lib/yangtypes.py:YANGListType.__set"]}
{"id": "C26", "title": "Compound keys do not collide", "statement": "Two different tuples of key values denote two different entries.", "quantifier": "every pair of key tuples of the same arity", "why_tests_cant": "Depends on values containing the separator.", "anchors": ["pyangbind/lib/yangtypes.py:YANGListType._generate_key"]}
{"id": "C27", "title": "Key leaves cannot be changed through an entry", "statement": "Assigning to a key leaf of an entry that is in a list raises AttributeError and changes nothing; loading is the only exception.", "quantifier": "every entry and every value", "why_tests_cant": "All values and states.", "anchors": ["pyangbind/plugin/pybind.py:get_children setter (1138-1150)"]}
{"id": "C28", "title": "Moving or appending an entry keeps its key", "statement": "append(entry) and item assignment put the entry under the key computed from the entry's own key leaves.", "quantifier": "every entry and key arity", "why_tests_cant": "Unbounded keys.", "anchors": ["pyangbind/lib/yangtypes.py:YANGListType.append", "pyangbind/lib/yangtypes.py:YANGListType._extract_key"]}
{"id": "C29", "title": "Filtered get() returns exactly the set data", "statement": "get(filter=True) contains a leaf iff the leaf was set and not unset since; containers and lists appear iff something below them appears (or they are a present presence container).", "quantifier": "every schema tree and every history of operations", "why_tests_cant": "Arbitrary trees and histories.", "anchors": ["pyangbind/lib/base.py:PybindBase.get"]}
{"id": "C30", "title": "Unfiltered get() shows every node with effective values", "statement": "get(filter=False) has one item per child element; a leaf shows its value if it was set, else its default if it has one.", "quantifier": "every schema tree, every history", "why_tests_cant": "Arbitrary trees and histories.", "anchors": ["pyangbind/lib/base.py:PybindBase.get"]}
{"id": "C31", "title": "Setting a leaf marks all its ancestors changed", "statement": "After setting any leaf, the leaf and every container between it and the root report changed.", "quantifier": "every schema tree, path and history", "why_tests_cant": "Arbitrary depth.", "anchors": ["pyangbind/lib/yangtypes.py:YANGBaseClass._set", "pyangbind/lib/yangtypes.py:YANGBaseClass._changed"]}
{"id": "C32", "title": "At most one case of a choice holds data", "statement": "After any history of operations, for every choice in a container, at most one case contains set data, and it is the case most recently set.", "quantifier": "every schema with choices, every history", "why_tests_cant": "Arbitrary nesting and histories.", "anchors": ["pyangbind/lib/yangtypes.py:YANGBaseClass._set (1111-1133)", "pyangbind/plugin/pybind.py:get_children choices"]}
{"id": "C33", "title": "Setting one leaf does not disturb others", "statement": "Setting a leaf changes no value of any leaf other than itself and those in competing cases of the enclosing choices.", "quantifier": "every tree, path and value", "why_tests_cant": "Arbitrary trees.", "anchors": ["pyangbind/lib/yangtypes.py:YANGBaseClass._set", "pyangbind/plugin/pybind.py:get_children setter"]}
{"id": "C34", "title": "Set then get, and unset", "statement": "Reading a leaf just set returns the converted value and changed = True; after unset it is back in its initial state with changed = False.", "quantifier": "every tree, path, type and value", "why_tests_cant": "Arbitrary trees and types.", "anchors": ["pyangbind/plugin/pybind.py:get_children setter/unset", "pyangbind/lib/yangtypes.py:YANGBaseClass"]}
{"id": "C35", "title": "A failed assignment has no effect", "statement": "If assigning to a leaf raises, the tree (values and changed flags) is as before.", "quantifier": "every tree, path, type and rejected value", "why_tests_cant": "Order of effects versus validation.", "anchors": ["pyangbind/lib/yangtypes.py:YANGBaseClass.__init__ (1068-1109)"]}
{"id": "C36", "title": "Presence containers", "statement": "A presence container is present iff something below it was set or it was marked present explicitly and not since marked absent.", "quantifier": "every history", "why_tests_cant": "Arbitrary histories.", "anchors": ["pyangbind/lib/yangtypes.py:YANGBaseClass._set_present/_present/_set"]}
{"id": "C37", "title": "Assigning a container copies its data", "statement": "Assigning an object of the right class to a container copies exactly the set data of that object.", "quantifier": "every tree value", "why_tests_cant": "Arbitrary nested data.", "anchors": ["pyangbind/plugin/pybind.py:get_children __init__ (1065-1084)"]}
{"id": "C38", "title": "IETF JSON round trip", "statement": "Loading, into a fresh binding, the IETF JSON produced for a tree gives a tree with the same set data.", "quantifier": "every schema and every reachable tree", "why_tests_cant": "Arbitrary trees, types and values.", "anchors": ["pyangbind/lib/serialise.py:make_generate_ietf_tree", "pyangbind/lib/serialise.py:pybindJSONDecoder.load_ietf_json", "pyangbind/lib/pybindJSON.py:dumps", "pyangbind/lib/pybindJSON.py:loads_ietf"]}
{"id": "C39", "title": "Native JSON round trip", "statement": "Loading, into a fresh binding, the native JSON produced for a tree gives a tree with the same set data.", "quantifier": "every schema and every reachable tree", "why_tests_cant": "Arbitrary trees, types and values.", "anchors": ["pyangbind/lib/serialise.py:pybindJSONEncoder", "pyangbind/lib/serialise.py:pybindJSONDecoder.load_json"]}
{"id": "C40", "title": "User-ordered lists keep their order through native JSON", "statement": "Dumping and loading an ordered-by-user list preserves the entry order.", "quantifier": "every number of entries and every order", "why_tests_cant": "Unbounded.", "anchors": ["pyangbind/lib/serialise.py:pybindJSONEncoder._preprocess_element", "pyangbind/lib/serialise.py:pybindJSONDecoder.load_json"]}
{"id": "C41", "title": "IETF JSON contains exactly the set data", "statement": "With filtering, the IETF tree contains a leaf iff it is set; and no empty containers.", "quantifier": "every tree", "why_tests_cant": "Arbitrary trees.", "anchors": ["pyangbind/lib/serialise.py:make_generate_ietf_tree"]}
{"id": "C42", "title": "IETF JSON names are qualified exactly where RFC 7951 requires", "statement": "A member name carries its module prefix iff it is top level or its namespace differs from its parent's; so names are unambiguous among siblings of different modules.", "quantifier": "every tree and namespace assignment", "why_tests_cant": "Arbitrary augmentations.", "anchors": ["pyangbind/lib/serialise.py:make_generate_ietf_tree (392-453)"]}
{"id": "C43", "title": "Unknown input members are reported or skipped", "statement": "Loading JSON with a member that is not in the schema raises AttributeError unless skip_unknown is given, in which case the result equals loading the input without those members.", "quantifier": "every JSON document", "why_tests_cant": "Arbitrary documents.", "anchors": ["pyangbind/lib/serialise.py:pybindJSONDecoder.load_ietf_json", "pyangbind/lib/serialise.py:pybindJSONDecoder.load_json"]}
{"id": "C44", "title": "Overwrite replaces list contents", "statement": "Loading with overwrite leaves a list present in the document with exactly the document's entries.", "quantifier": "every existing list content and every document", "why_tests_cant": "Any number of existing/new entries.", "anchors": ["pyangbind/lib/serialise.py:load_ietf_json (overwrite)", "pyangbind/lib/serialise.py:load_json (overwrite)"]}
{"id": "C45", "title": "Merging a leaf-list keeps the union", "statement": "Loading native JSON over an existing leaf-list without overwrite ends with the old values followed by the new ones, without loss.", "quantifier": "every existing content and document", "why_tests_cant": "Any combination of overlap.", "anchors": ["pyangbind/lib/serialise.py:load_json leaf-list branch"]}
{"id": "C46", "title": "Leaf value encodings follow RFC 7951", "statement": "In IETF mode: 64-bit integers and decimal64 are strings, smaller integers are numbers, booleans are booleans, empty is [null], and identities of other modules are prefixed; each encoding decodes to the same value.", "quantifier": "every type and value", "why_tests_cant": "Infinite values.", "anchors": ["pyangbind/lib/serialise.py:pybindIETFJSONEncoder", "pyangbind/lib/serialise.py:pybindJSONEncoder.map_pyangbind_type"]}
{"id": "C47", "title": "skip_subtrees removes exactly those subtrees", "statement": "dumps with skip_subtrees omits the listed paths and nothing else.", "quantifier": "every tree and every list of paths", "why_tests_cant": "Arbitrary trees/paths.", "anchors": ["pyangbind/lib/pybindJSON.py:dumps", "pyangbind/lib/pybindJSON.py:remove_path"]}
{"id": "C48", "title": "select keeps exactly the matching list entries", "statement": "dumps with select returns an entry iff each selected key has the given value.", "quantifier": "every list and select", "why_tests_cant": "Arbitrary contents.", "anchors": ["pyangbind/lib/pybindJSON.py:dumps (129-150)"]}
{"id": "C49", "title": "with_defaults adds unset defaults only", "statement": "In native mode, explicit get of defaults shows for each unset leaf its default and never alters set leaves.", "quantifier": "every tree", "why_tests_cant": "Arbitrary trees.", "anchors": ["pyangbind/lib/serialise.py:pybindJSONEncoder", "pyangbind/lib/pybindJSON.py:dumps", "pyangbind/lib/base.py:PybindBase.get"]}
{"id": "C50", "title": "XPath strings split into their steps", "statement": "Joining step names with '/' and splitting again gives the same steps, for steps that may contain '/' inside a predicate or a double-quoted string.", "quantifier": "every list of well-formed steps", "why_tests_cant": "Unbounded strings.", "anchors": ["pyangbind/lib/xpathhelper.py:YANGPathHelper._path_parts"]}
{"id": "C51", "title": "Register, look up, unregister", "statement": "After registering an object at a path, looking the exact path up yields that object; other paths are unaffected; after unregistering, it and everything below is no longer found.", "quantifier": "every history of register/unregister on every set of paths", "why_tests_cant": "Arbitrary histories.", "anchors": ["pyangbind/lib/xpathhelper.py:YANGPathHelper.register", "pyangbind/lib/xpathhelper.py:YANGPathHelper.unregister", "pyangbind/lib/xpathhelper.py:YANGPathHelper.get"]}
{"id": "C52", "title": "Registering again replaces the object", "statement": "Registering another object at an existing path makes lookups return the newly registered object and leaves the children registered.", "quantifier": "every history", "why_tests_cant": "Arbitrary histories.", "anchors": ["pyangbind/lib/xpathhelper.py:YANGPathHelper.register (241-254)"]}
{"id": "C53", "title": "Lookup library does not leak", "statement": "Every object held by the path helper is reachable through some path.", "quantifier": "every history of register/unregister", "why_tests_cant": "Arbitrary histories.", "anchors": ["pyangbind/lib/xpathhelper.py:YANGPathHelper.unregister"]}
{"id": "C54", "title": "A leafref with require-instance only holds existing values", "statement": "Assignment to a leafref succeeds iff require-instance is false or some object at the referenced path has an equal string form.", "quantifier": "every set of target values and every assigned value", "why_tests_cant": "Infinite values.", "anchors": ["pyangbind/lib/yangtypes.py:ReferenceType._ptr/_init"]}
{"id": "C55", "title": "get_unique returns the only match", "statement": "get_unique returns the object iff exactly one object matches, else raises.", "quantifier": "every helper state and path", "why_tests_cant": "Arbitrary states.", "anchors": ["pyangbind/lib/xpathhelper.py:YANGPathHelper.get_unique"]}
{"id": "C56", "title": "Key predicates encode and decode", "statement": "The predicate written for a list entry is parsed back to the same key/value attributes.", "quantifier": "every key tuple", "why_tests_cant": "Arbitrary key values.", "anchors": ["pyangbind/lib/xpathhelper.py:YANGPathHelper._tagname_attributes", "pyangbind/lib/yangtypes.py:YANGListType.__set"]}
{"id": "C57", "title": "An identityref accepts the whole derivation closure", "statement": "The identities stored for a base are exactly those derived from it directly or transitively, whatever the order of definition and however many modules are involved.", "quantifier": "every acyclic identity graph and every order of definitions", "why_tests_cant": "Arbitrary graphs and orders.", "anchors": ["pyangbind/helpers/identity.py:IdentityStore.build_store_from_definitions", "pyangbind/helpers/identity.py:IdentityStore._build_inheritance"]}
{"id": "C58", "title": "Identity resolution terminates exactly when all bases resolve", "statement": "Building the identity store terminates iff every identity's base chain ends in an identity with no base within the supplied definitions.", "quantifier": "every finite set of definitions", "why_tests_cant": "Termination is not testable.", "anchors": ["pyangbind/helpers/identity.py:IdentityStore.build_store_from_definitions"]}
{"id": "C59", "title": "Every accepted identityref spelling names a derived identity", "statement": "The spellings accepted are, for each derived identity, its bare name and its name with each known prefix of its module and no others.", "quantifier": "every identity store and prefix table", "why_tests_cant": "Arbitrary graphs.", "anchors": ["pyangbind/plugin/pybind.py:build_identities"]}
{"id": "C60", "title": "Typedef resolution handles any definition order", "statement": "Typedefs are built after the types they depend on, for every acyclic set of definitions in every order.", "quantifier": "every acyclic dependency graph and order", "why_tests_cant": "Arbitrary graphs and orders; the retry counter only matters for long chains.", "anchors": ["pyangbind/plugin/pybind.py:build_typedefs"]}
{"id": "C61", "title": "Default values are inherited from the nearest typedef", "statement": "A leaf without its own default gets that of the closest typedef in its derivation chain that has one.", "quantifier": "every typedef chain", "why_tests_cant": "Unbounded chains.", "anchors": ["pyangbind/plugin/pybind.py:get_element (1570-1666)", "pyangbind/plugin/pybind.py:build_typedefs"]}
{"id": "C62", "title": "Implicit enumeration values follow RFC 6020", "statement": "An enum without a value statement is reported with one more than the highest value assigned before it (0 for the first).", "quantifier": "every list of enums with any mixture of explicit and implicit values", "why_tests_cant": "Depends on every interleaving of explicit and implicit values.", "anchors": ["pyangbind/lib/yangtypes.py:RestrictedClassType.__new__ (338-356)"]}
{"id": "C63", "title": "decimal64 values fit in 64 bits", "statement": "A decimal64 leaf with n fraction digits takes only values whose multiple of 10^-n is a signed 64-bit integer.", "quantifier": "every fraction-digits and every decimal", "why_tests_cant": "Infinite domain.", "anchors": ["pyangbind/lib/yangtypes.py:RestrictedPrecisionDecimalType"]}
{"id": "C64", "title": "Leaf-lists support the usual list operators", "statement": "l[i] = v replaces item i, reverse() reverses the items, and c.x += values appends the values.", "quantifier": "every leaf-list content, index and values", "why_tests_cant": "Holds or fails for every content.", "anchors": ["pyangbind/lib/yangtypes.py:TypedListType", "pyangbind/lib/yangtypes.py:YANGDynClass"]}
{"id": "C65", "title": "Identities do not change built-in types", "statement": "Defining identities does not change what any type name that is not an identity means: in particular a leaf of a built-in type accepts the same values whatever identities the modules define.", "quantifier": "every set of identity definitions and every type name", "why_tests_cant": "A test uses a few identity names; the collision only appears for names that are also type names.", "anchors": ["pyangbind/plugin/pybind.py:build_identities", "pyangbind/plugin/pybind.py:class_map"]}
{"id": "C66", "title": "A type name means the typedef of its own module", "statement": "A leaf with `type foo`, where its module defines a typedef foo, is of that type, whatever typedefs named foo other modules have.", "quantifier": "every set of modules", "why_tests_cant": "Name clashes across modules, order of building.", "anchors": ["pyangbind/plugin/pybind.py:build_typedefs (600-645)", "pyangbind/plugin/pybind.py:build_elemtype"]}
{"id": "C67", "title": "A leaf's own default wins over that of its type", "statement": "A leaf with a default statement has that default, whatever defaults its typedefs have.", "quantifier": "every leaf and typedef chain", "why_tests_cant": "Any chain of typedefs.", "anchors": ["pyangbind/plugin/pybind.py:get_element (1570-1666)"]}
{"id": "C68", "title": "Lists anywhere in a tree keep their keys apart", "statement": "After any history of operations on a module's tree, the entries of every list at any depth have pairwise different keys, and each entry is the one found under its key.", "quantifier": "every schema, history and list in the tree", "why_tests_cant": "Unbounded histories and depths.", "anchors": ["pyangbind/lib/yangtypes.py:YANGListType", "pyangbind/lib/yangtypes.py:YANGDynClass"]}
{"id": "C69", "title": "XML serialisation round-trips", "statement": "Writing any binding as XML and loading the document into a fresh binding of the same module gives a binding with the same data: the same leaves set to the same values, the same leaf-list values in order, the same list entries, the same presence containers.", "quantifier": "every schema tree, every data tree reachable by API calls, every value of the built-in types", "why_tests_cant": "documents and trees are unbounded; a test only sees particular trees, while loss depends on the combination of type, text and place (lxml guesses the types of texts)", "anchors": ["pyangbind/lib/serialise.py:pybindIETFXMLEncoder", "pyangbind/lib/serialise.py:pybindIETFXMLDecoder.load_xml"]}
{"id": "C70", "title": "An XML document has exactly the data that is set", "statement": "In the XML written for a binding, every set leaf, every leaf-list value and every list entry has exactly one element, in the namespace of its module and in the order of the values; unset leaves and containers with nothing in them have none; and there is no other element.", "quantifier": "every schema tree, every data tree, every place in it", "why_tests_cant": "every position of an unbounded tree has to be right, present or absent", "anchors": ["pyangbind/lib/serialise.py:make_generate_ietf_tree", "pyangbind/lib/serialise.py:pybindIETFXMLEncoder.generate_xml_tree"]}
{"id": "C71", "title": "XML values have the lexical form of RFC 7950", "statement": "The text of the element of a leaf is the lexical representation RFC 7950 gives for its type: canonical integers, true and false, no text for empty, identities with a prefix declared on the element unless they belong to the module of the leaf.", "quantifier": "every type, every value of it, every module of an identity", "why_tests_cant": "the values of a type are not finite in number, and the form depends on value, type and module together", "anchors": ["pyangbind/lib/serialise.py:XmlYangDataSerialiser", "pyangbind/lib/serialise.py:pybindIETFXMLEncoder.yname_ns_func"]}
{"id": "C72", "title": "XML elements that are not in the schema are reported", "statement": "Loading an XML document that has an element which is not a child of its parent in the schema, at any depth, raises an exception.", "quantifier": "every schema, every document, every depth, every state of the binding loaded into", "why_tests_cant": "documents are unbounded and the element may be anywhere", "anchors": ["pyangbind/lib/serialise.py:pybindIETFXMLDecoder.load_xml"]}
{"id": "C73", "title": "Loading XML over existing data merges by key", "statement": "Loading an element for a list entry into a binding that already has an entry with the same key values updates this entry and leaves all others alone; with new key values an entry is added at the end; leaf-list values are added to those that are there, each once.", "quantifier": "every list and leaf-list, every earlier content, every document", "why_tests_cant": "what is found depends on the history of the list: under which objects its entries were stored", "anchors": ["pyangbind/lib/serialise.py:pybindIETFXMLDecoder.load_xml", "pyangbind/lib/yangtypes.py:YANGListType.YANGList"]}
{"id": "C74", "title": "A binding stays consistent whatever documents are loaded into it", "statement": "After any mixture of API calls and loaded documents (IETF JSON, native JSON, XML; accepted or refused, complete or cut off by an error), every set leaf and every leaf-list value is one its type accepted, every unset leaf has the value of a new one, list entries have different keys, containers with data are marked changed and present, and at most one case of each choice has data.", "quantifier": "every schema, every sequence of API calls and documents, every document whether it fits the schema or not", "why_tests_cant": "sessions and documents are unbounded, and a document refused half way leaves what was done before", "anchors": ["pyangbind/lib/serialise.py:pybindJSONDecoder.load_ietf_json", "pyangbind/lib/serialise.py:pybindJSONDecoder.load_json", "pyangbind/lib/serialise.py:pybindIETFXMLDecoder.load_xml", "pyangbind/lib/yangtypes.py:YANGDynClass"]}
{"id": "C75", "title": "Entries keep the key they are stored under", "statement": "Wherever a list is in the tree and however its entries came about (any form of add, append, item assignment, copying, IETF JSON or XML documents, edits of anything below), the key leaves of each entry are set to the values its key stands for; so an entry found under a key has that key.", "quantifier": "every schema tree, every list in it, every session of API calls and documents", "why_tests_cant": "an entry can be reached and changed by unboundedly many calls and documents; the key is kept twice, as dictionary key and in the leaves, and nothing ties the two together but the calls made", "anchors": ["pyangbind/lib/yangtypes.py:YANGListType", "pyangbind/plugin/pybind.py:get_children", "pyangbind/lib/serialise.py:pybindJSONDecoder.load_ietf_json", "pyangbind/lib/serialise.py:pybindIETFXMLDecoder.load_xml"]}
{"id": "C76", "title": "Native JSON contains exactly the set data", "statement": "The native JSON document of an object has a member for a leaf if and only if the leaf is set, and its value is the number, text or boolean the leaf holds; for a leaf-list if and only if it has values, and they are in the same order; for a list one member per entry, in order, named by the key, with its position if the list is user-ordered; a container appears only if something below it does or if it is a presence container that is present; there is nothing else in the document.", "quantifier": "every schema tree, every instance tree that can be written, every position in it, at any depth", "why_tests_cant": "trees are unboundedly deep and wide; omission and inclusion are decided bottom-up, so an error at one level hides or fabricates data at all others", "anchors": ["pyangbind/lib/serialise.py: YangDataSerialiser.preprocess_element, default", "pyangbind/lib/pybindJSON.py: dumps", "pyangbind/lib/base.py: PybindBase.get"]}
{"id": "C77", "title": "A document loaded without an exception is in the tree, and nothing else changes", "statement": "If loading a document into an object raises no exception, then every leaf and leaf-list the document gives a value for holds that value, as if it had been assigned, wherever it is in the tree: in containers, in entries that existed before, and in entries made by the load. Everything the document does not concern is exactly as it was before, also if the load stops with an exception.", "quantifier": "every schema, every object, every document, every position in the document and in the tree", "why_tests_cant": "documents and trees are unboundedly deep and wide; the order of members, entries that exist or not, and cases of choices that clear each other interact, so a sample says little about the others", "anchors": ["pyangbind/lib/serialise.py: pybindJSONDecoder.load_ietf_json", "pyangbind/lib/pybindJSON.py: loads_ietf", "pyangbind/lib/yangtypes.py: YANGListType.add"]}
{"id": "C78", "title": "Identities in documents are those of the YANG modules", "statement": "For a leaf of type identityref with base b, a value that names an identity c derived from b is written to IETF JSON and XML as RFC 7951 and RFC 7950 say (with the module in which c is defined, which may be left out in the leaf's own module), and reading any legal encoding of c gives a value that names c.", "quantifier": "every set of identity definitions in the modules, every base, every identity derived from it and every spelling of it", "why_tests_cant": "The generated dictionary of an identityref depends on the whole set of identities, their bases across modules and every import prefix; tests use a handful of modules with distinct names.", "anchors": ["pyangbind/plugin/pybind.py: build_identities", "pyangbind/lib/serialise.py: IETFYangDataSerialiser.yangt_identityref", "pyangbind/lib/serialise.py: pybindIETFXMLEncoder", "pyangbind/lib/serialise.py: pybindJSONDecoder.load_ietf_json", "pyangbind/helpers/identity.py: IdentityStore.build_store_from_definitions"]}
{"id": "C79", "title": "The generated classes are those of the YANG module", "statement": "Following the names of a data node of a YANG module (a leaf, a leaf-list, a container or list with children; choices and cases take no name) in the generated binding leads to an attribute of its kind, with its name, namespace, module and keys, and nothing else has an attribute. Data nodes in different cases of a choice never both hold data, whatever operations are made and documents loaded.", "quantifier": "all modules (any nesting of containers, lists, leaves, choices and cases), all paths of names, all histories of operations and all sessions of API calls and documents, all containers and list entries", "why_tests_cant": "modules, nestings and histories are unbounded; the data nodes of a choice in a case are in the same class as those of the outer choice, and which of them exclude one another depends on the whole chain of choices around them", "anchors": ["pyangbind/plugin/pybind.py:get_children_elements", "pyangbind/plugin/pybind.py:get_children", "pyangbind/plugin/pybind.py:get_element", "pyangbind/lib/yangtypes.py:YANGDynClass"]}
{"id": "C80", "title": "A leafref's path selects the nodes that YANG's path expression selects", "statement": "Looking up a leafref's path (absolute or relative, with or without prefixes, with predicates that compare keys with literals or with a path from current()) gives exactly the objects at the nodes that the path selects, each once. A leafref to list keys takes a value exactly if a selected node has it.", "quantifier": "all paths (any number of steps, predicates and comparisons, any use of spaces, quotes and 'and'), all histories of register and unregister, all leaves that refer", "why_tests_cant": "the path is rewritten as text, with regular expressions, into an expression for another tree; histories, trees and paths are unbounded", "anchors": ["pyangbind/lib/xpathhelper.py:YANGPathHelper._encode_path", "pyangbind/lib/xpathhelper.py:YANGPathHelper._tagname_attributes", "pyangbind/lib/xpathhelper.py:YANGPathHelper.get", "pyangbind/lib/yangtypes.py:ReferencePathType"]}
{"id": "C81", "title": "Values of unions survive documents, encoded like values of the member they belong to", "statement": "The value of a leaf whose type is a union is written to a document the way RFC 7951 (6.10) and RFC 7950 (9.12) have it: as a value of the first member type that matches. Reading the document gives the leaf the same value.", "quantifier": "all unions of integers (with any legal ranges), strings, enumerations, identityrefs, booleans and empty, in any order; all values; native JSON, IETF JSON and XML", "why_tests_cant": "the written form depends on the class chosen for the value, and reading chooses again from another Python value (a number becomes a text); members, values and orders are unbounded", "anchors": ["pyangbind/lib/yangtypes.py:YANGDynClass", "pyangbind/lib/serialise.py:YangDataSerialiser.default", "pyangbind/lib/serialise.py:YangDataSerialiser.map_pyangbind_type", "pyangbind/lib/serialise.py:pybindIETFXMLDecoder.load_xml"]}
{"id": "C82", "title": "filter=False and with_defaults add to IETF documents, without changing what is there", "statement": "dumps(mode=\"ietf\", filter=False) writes every leaf and leaf-list of the object, set or not, with the encoding of its value; dumps(mode=\"ietf\", with_defaults=WithDefaults.IF_SET) writes a leaf exactly if it was explicitly set, including those set to their default; whatever the options, everything in the plain document is also there, nothing is there that is not in the object, and no empty container is written unless it is present.", "quantifier": "every schema tree, every instance tree that can be written, every position in it, every combination of the options", "why_tests_cant": "trees and positions are unbounded, and inclusion depends on the combination of option, type, default and history of each leaf", "anchors": ["pyangbind/lib/serialise.py:make_generate_ietf_tree", "pyangbind/lib/pybindJSON.py:dumps", "pyangbind/lib/serialise.py:WithDefaults"]}
{"id": "C83", "title": "With a path helper, looking up a data path finds exactly what is in the tree", "statement": "In a binding made with a path_helper, after any sequence of setting and unsetting leaves, changing leaf-lists, adding and deleting list entries and changing what is in them, get() of the path of a leaf, leaf-list, container or list entry returns the object the tree has there, and returns nothing for the path of something the tree does not have; none of the calls the binding makes on its helper raises.", "quantifier": "every tree of generated classes, every sequence of API calls on objects of the binding, every data path", "why_tests_cant": "histories, trees and paths are unbounded; the helper is only told of the making of objects and the deletion of entries, so whether it still agrees with the tree depends on the whole history", "anchors": ["pyangbind/lib/yangtypes.py:YANGDynClass", "pyangbind/lib/yangtypes.py:YANGListType", "pyangbind/lib/xpathhelper.py:YANGPathHelper.register", "pyangbind/lib/xpathhelper.py:YANGPathHelper.unregister", "pyangbind/lib/xpathhelper.py:YANGPathHelper.get", "pyangbind/plugin/pybind.py:get_children"]}
{"id": "C84", "title": "Lists refuse keys with the errors they document", "statement": "add, item assignment and delete raise TypeError for a key that cannot be hashed, KeyError for a key that is already there (add) or absent (delete), that is None, empty or has the wrong number of words, or whose value a key leaf does not take, and AttributeError for a missing keyword or a compound key that is no text (and IndexError for item assignment under None); any other key is accepted.", "quantifier": "every list, every state of it, every key in every form", "why_tests_cant": "Every key, of every Python type, against every state; tests try a few.", "anchors": ["pyangbind/lib/yangtypes.py:YANGListType.__set", "pyangbind/lib/yangtypes.py:YANGListType.add", "pyangbind/lib/yangtypes.py:YANGListType._generate_key", "pyangbind/lib/yangtypes.py:YANGListType.delete"]}
{"id": "C85", "title": "decimal64 leaves with a range take exactly the decimals in it", "statement": "A decimal64 leaf with a range takes a value exactly if the decimal it denotes (rounded to the fraction digits when the range is on a typedef) lies in one of the parts, and then holds it; any other value raises ValueError.", "quantifier": "every range argument, every decimal, integer and text", "why_tests_cant": "Infinitely many decimals and ranges; the single-value parts go through binary floats.", "anchors": ["pyangbind/lib/yangtypes.py:RestrictedClassType", "pyangbind/lib/yangtypes.py:RestrictedPrecisionDecimalType", "pyangbind/plugin/pybind.py:build_elemtype"]}
{"id": "C86", "title": "decimal64 values survive documents", "statement": "The value of a decimal64 leaf, written with dumps or as XML and read back into a new object, is the same decimal.", "quantifier": "every number of fraction digits, every value the leaf can hold, native JSON, IETF JSON and XML", "why_tests_cant": "Native JSON writes a binary float; whether rounding back hits the same decimal depends on the size of the value, for infinitely many values.", "anchors": ["pyangbind/lib/serialise.py:YangDataSerialiser.yangt_decimal", "pyangbind/lib/serialise.py:IETFYangDataSerialiser.yangt_decimal", "pyangbind/lib/yangtypes.py:RestrictedPrecisionDecimalType"]}
{"id": "C87", "title": "A length restricts the number of octets of a binary leaf", "statement": "A binary leaf with a length takes a value (octets, or their base64 text) exactly if the number of octets is allowed, and every value it took is taken again from a document.", "quantifier": "every length argument, every octet string and every text", "why_tests_cant": "The number of characters of the text and the number of octets differ for every value; tests check one direction with one value.", "anchors": ["pyangbind/lib/yangtypes.py:RestrictedClassType", "pyangbind/lib/yangtypes.py:YANGBinary", "pyangbind/plugin/pybind.py:build_elemtype"]}
{"id": "C88", "title": "Annotations in IETF JSON are attached to what they annotate, and change nothing else", "statement": "Loading an IETF-JSON document with metadata annotations (RFC 7952: a member `@name` beside a leaf, a member `@` in a container or list entry) yields the same data as the same document without them. Each annotated object has the annotations the document gives for it in its metadata, and no object gets any the document does not give for it; objects the document does not concern keep theirs. An annotation that is not an object is rejected. A document written afterwards has the annotations, so that loading it gives them back.", "quantifier": "every schema, tree and document; every path and annotation name", "why_tests_cant": "The annotations of an object may be given in different places, apply to any node at any depth, and objects are replaced while the document is loaded (setting a leaf, another case of a choice), which drops annotations attached before; tests load a few fixed documents.", "anchors": ["pyangbind/lib/serialise.py: pybindJSONDecoder.check_metadata_add, pybindJSONDecoder.load_ietf_json", "pyangbind/lib/yangtypes.py: YANGDynClass (_add_metadata)"]}
{"id": "C89", "title": "Extension methods are bound to the nodes they are registered for, and replace nothing", "statement": "A user may give a table of extension methods: for the schema path of a node (`/item/one`, without list keys) an object with methods. Every object of the tree at that schema path, at any entry of the lists above it, gets each public method of it under its name with an underscore in front, and no object gets any other. What the object has anyway is not replaced. Calling such a method calls the registered one with the arguments given, and the path and the path helper of the object as `caller` and `path_helper`.", "quantifier": "every table, schema path, list keys, set of names registered, attributes of the object and arguments of the call", "why_tests_cant": "The names registered, the attributes of the generated class and the key values in the path interact; tests register one or two methods with harmless names.", "anchors": ["pyangbind/lib/yangtypes.py: YANGDynClass (clsslots, __init__, __generate_extmethod), remove_path_attributes"]}
{"id": "C90", "title": "Texts and values of the YANG module reach the generated program unchanged", "statement": "The generator writes patterns, ranges, names, defaults, namespaces, paths, extension arguments, descriptions and error messages into a Python program. Python reads the program, and every text and number in it is the one of the YANG module; no text of the module is read as part of the program.", "quantifier": "every text, nested value and number a module can have, every set of printable characters and character names", "why_tests_cant": "Tests generate from a few modules whose texts have no quotes, backslashes or line ends where it matters; numbers are written in the usual way.", "anchors": ["pyangbind/plugin/pybind.py: get_children, build_elemtype, get_element, build_identities, build_typedefs"]}
{"id": "C91", "title": "Split bindings find the class of every node", "statement": "With --split-class-dir the generator writes a package for every container, list, rpc, input, output and notification, in a directory for its path. Every package can be imported, and the class of a node refers to the classes generated for its children, at any depth and for any number of modules generated together.", "quantifier": "every set of modules, every tree of containers and lists, any names and nesting", "why_tests_cant": "The names of directories, imports and classes are computed in three places with different rules for nested nodes of the same name, reserved words and the module name; tests have two or three modules.", "anchors": ["pyangbind/plugin/pybind.py: get_children, get_children_elements, get_element, build_pybind"]}
{"id": "C92", "title": "A binding is built from all the modules it needs", "statement": "Building bindings for some modules collects the typedefs and identities of exactly the modules that these need: themselves, their submodules, and what they or their submodules import, however far. Each definition is found under every prefix by which a needed module can name it, the collection always ends, and classes are written for the modules that were asked for and their submodules, and for no others.", "quantifier": "every set of modules without circular imports, every nesting of scopes, every choice of modules to build", "why_tests_cant": "The import graph and the nesting of definitions are unbounded, and the list of modules grows while it is gone through; tests use a few small modules.", "anchors": ["pyangbind/plugin/pybind.py:build_pybind", "pyangbind/helpers/misc.py:find_definitions", "pyangbind/helpers/misc.py:find_child_definitions"]}
{"id": "C93", "title": "The default of a leaf of union type is the first member's value", "statement": "When a leaf whose type is a union (written at the leaf or in a typedef) has a default, the leaf, or else its typedef, decides the text, and the value is what assigning that text to the leaf gives: a value of the first member type that takes the text. Defaults of the member types are not used.", "quantifier": "all unions, members, default texts and typedefs of a module", "why_tests_cant": "Which member takes a text depends on the order of the members, on their restrictions and on the text; a suite tries a handful of orders, and the failures (a member's default that wins, an enumeration tried as a string, the last member of a typedef instead of the first that takes the text) only show for particular combinations.", "anchors": ["pyangbind/plugin/pybind.py:find_absolute_default_type", "pyangbind/plugin/pybind.py:get_element", "pyangbind/plugin/pybind.py:build_typedefs", "pyangbind/plugin/pybind.py:class_map"]}
{"id": "C94", "title": "A leafref is written in documents like the leaf it refers to, and read back", "statement": "A leaf of type leafref is written in JSON and XML as RFC 7951/7950 say for the type of the leaf it refers to, following leafrefs to leafrefs: the value written is the value of a leaf at the path with the text that was assigned; a pointer is written with the value its leaf has at that time. A reader given the document, with the same leaves at the path, refers to the same leaf again.", "quantifier": "all types and values of the leaf referred to, all sets of leaves at the path, chains of leafrefs, assigned values, JSON dialects and XML", "why_tests_cant": "The encoding depends on the object that was found when the value was assigned, on its type and module, on how it was assigned and on what is registered when the document is written or read; a suite checks one or two leafrefs to strings, where nothing can go wrong.", "anchors": ["pyangbind/lib/yangtypes.py:ReferenceType", "pyangbind/lib/serialise.py:pybindJSONEncoder", "pyangbind/lib/serialise.py:pybindIETFJSONEncoder", "pyangbind/lib/serialise.py:pybindIETFXMLEncoder", "pyangbind/plugin/pybind.py:build_elemtype"]}
{"id": "C95", "title": "Documents survive files and text, and crashes while they are written", "statement": "dump writes the document of an object as JSON text that loads and load read as exactly that document, for every indentation, every string and every nesting, in ASCII only; what was in the file before does not matter. If the program stops at any moment during dump, or dump raises, the file holds the old document or the new one.", "quantifier": "all documents and bindings, indentations, earlier contents of the file, points of a crash", "why_tests_cant": "Escapes, nesting and numbers have no bound, and a crash can come after any character; suites write a few ASCII documents and never stop in the middle.", "anchors": ["pyangbind/lib/pybindJSON.py:dumps", "pyangbind/lib/pybindJSON.py:dump", "pyangbind/lib/pybindJSON.py:loads", "pyangbind/lib/pybindJSON.py:load", "pyangbind/lib/pybindJSON.py:load_ietf", "pyangbind/lib/pybindJSON.py:loads_ietf"]}
{"id": "C96", "title": "A leaf takes exactly the values of its YANG type", "statement": "Through any chain of typedefs, in any order and any modules, a leaf takes a value iff the built-in type at the end of the chain and all restrictions on the way allow it; two type statements that mean the same behave the same.", "quantifier": "all identities, typedefs, type statements, scopes and values", "why_tests_cant": "Chains of typedefs have no bound and the order of the definitions is up to the files; suites try one or two levels.", "anchors": ["pyangbind/plugin/pybind.py:build_elemtype", "pyangbind/plugin/pybind.py:build_typedefs", "pyangbind/plugin/pybind.py:build_identities", "pyangbind/plugin/pybind.py:get_element", "pyangbind/lib/yangtypes.py:RestrictedClassType"]}
{"id": "C97", "title": "Documents survive XML text, and layout does not matter", "statement": "What serialise writes for a binding is read by decode as the same document, whatever characters its strings contain and however deep it is; and any other text of that document, with other indentation, comments, quotes or references, is read as the same.", "quantifier": "all documents, all their texts in the sense of XML, indented or not", "why_tests_cant": "Texts of one document are unbounded in layout and depth, and any character may occur in strings; suites compare a few files.", "anchors": ["pyangbind/lib/serialise.py:pybindIETFXMLEncoder.serialise", "pyangbind/lib/serialise.py:pybindIETFXMLEncoder.EMF", "pyangbind/lib/serialise.py:pybindIETFXMLDecoder.decode"]}
{"id": "C98", "title": "Loading a document does what the same calls do", "statement": "Loading a document into a binding, in any format, leaves the binding exactly as if the program had called the setters, add and append itself, node by node in the order of the document, with each value the document gives. None of these calls raises, unless the document is refused: then loading stops at the call that raises. So nothing gets into a binding that its own methods would not have accepted.", "quantifier": "all schemas, bindings and documents", "why_tests_cant": "Documents are unbounded and whatever the binding holds already takes part; suites load single files into empty bindings.", "anchors": ["pyangbind/lib/serialise.py:pybindJSONDecoder.load_json", "pyangbind/lib/serialise.py:pybindJSONDecoder.load_ietf_json", "pyangbind/lib/serialise.py:pybindIETFXMLDecoder.load_xml"]}
{"id": "C99", "title": "What a program does to a binding can be saved and restored", "statement": "For a binding generated from a YANG module of the supported kind, and any program that uses it through the API and by loading IETF JSON and XML documents: writing the binding to a file as IETF JSON succeeds, and reading the file into a new binding gives the same data. For modules of integers, strings, enumerations and booleans in containers and choices, nothing is asked of the values the program assigns.", "quantifier": "all supported modules, all sequences of API calls and documents, all Python values assigned, all previous contents of the file", "why_tests_cant": "the property is about whole programs: the data depends on all calls and documents made, in their order, with refused values among them, and on the module the classes were generated from; tests cover a handful of modules and values", "anchors": ["pyangbind/plugin/pybind.py:get_children, get_element", "pyangbind/lib/serialise.py:pybindIETFJSONEncoder.generate_element, pybindJSONDecoder.load_ietf_json", "pyangbind/lib/pybindJSON.py:dump, load_ietf", "pyangbind/lib/yangtypes.py:YANGDynClass, YANGListType, RestrictedClassType"]}
{"id": "C100", "title": "One path helper serves several bindings", "statement": "Bindings of different modules can be made with one path helper, and used in turns in any order: a data path of a module then finds exactly what is in that module's binding, as if there were no others. When a module's class is instantiated again with the helper, what is in the new binding is found; a document that is loaded with a helper and no object updates the binding the helper has.", "quantifier": "all sets of modules with different top-level names, all interleavings of operations on their bindings, all data paths; all sequences of bindings of one module with all histories; all states of the helper when a document is loaded", "why_tests_cant": "tests make two bindings with one helper and look up a few paths; what one binding's operations do to what is found of another depends on the interleaving, and entries that were taken out or bindings that were replaced only show up in later look-ups", "anchors": ["pyangbind/lib/xpathhelper.py: YANGPathHelper.register, unregister, get", "pyangbind/lib/serialise.py: load_json, load_ietf_json, load_xml (path_helper)", "pyangbind/plugin/pybind.py: get_children (_path)", "pyangbind/lib/yangtypes.py: YANGDynClass"]}
{"id": "C101", "title": "The object at / has the top-level data", "statement": "get_unique('/') of a path helper gives an object whose attributes, iteration and get() are the top-level nodes of all bindings made with the helper: each under its name, with the object that is in the binding now, in the order in which the bindings were made, and nothing else.", "quantifier": "all sets of modules with different top-level names, all interleavings of operations on their bindings", "why_tests_cant": "tests serialise it after a few assignments; that it follows replaced leaves, unset containers, added and deleted entries depends on the history", "anchors": ["pyangbind/lib/xpathhelper.py: FakeRoot, YANGPathHelper.register, unregister", "pyangbind/lib/base.py: PybindBase.get, __iter__"]}
{"id": "C102", "title": "Changing a bits leaf through its value", "statement": "The value of a leaf of type bits is a set whose methods change it in place. After add, discard, clear, remove or pop the leaf has exactly the bits it should have, they are declared ones, the leaf is marked as changed, and the rest of the binding is as if the text of the new set of bits had been assigned to the leaf; a call with an undeclared bit raises ValueError and changes nothing.", "quantifier": "all module trees, all states of a binding, all bits leaves (in containers and in entries of lists at any depth), all sets of bits and calls", "why_tests_cant": "tests call add and discard on one leaf at the top level and look at its text; what assigning does elsewhere - marking the containers above, presence, the other cases of a choice, the guard of key leaves - shows only at other places of the tree and depends on the class the method is found in", "anchors": ["pyangbind/lib/yangtypes.py: YANGBitsType (add, discard, clear, pop, remove, __str__)", "pyangbind/lib/yangtypes.py: YANGDynClass (pop, remove, _set)", "pyangbind/plugin/pybind.py: get_children (setters)"]}
{"id": "C103", "title": "get_list gives the list at a path", "statement": "get_list of a path helper, for the path of a list as parts or as one text, gives the list object that the object at the rest of the path has under the name, whatever was registered and unregistered before; if there is no object there, or it has no such list, the exception the caller chose is raised.", "quantifier": "all histories of register and unregister, all histories of operations on a binding, all data paths with all key values the helper can take, all names", "why_tests_cant": "the one test looks up one list in one container; lists themselves are not registered, so the answer depends on what is registered for their parents at that moment, and on names that are changed to Python identifiers", "anchors": ["pyangbind/lib/xpathhelper.py: YANGPathHelper.get_list, get_unique, register", "pyangbind/lib/yangtypes.py: safe_name"]}
{"id": "C104", "title": "Every data node is reached by its own name", "statement": "Whatever data nodes a module, container or list has, its class can be loaded, and each node is read and written by the attribute with its name, made a Python identifier, and by its own _get_, _set_ and _unset_ methods; the names that the library itself uses on the object keep their meaning.", "quantifier": "all class names, all lists of child names and config flags, modules as well as containers and entries of lists", "why_tests_cant": "names come from the authors of YANG modules and meet those of two library classes, of the class body, of Python's private names and of slots; which of them collide depends on all siblings and on the name of the class", "anchors": ["pyangbind/plugin/pybind.py: get_children", "pyangbind/lib/yangtypes.py: YANGDynClass, safe_name", "pyangbind/lib/base.py: PybindBase"]}
{"id": "C105", "title": "What the module does not define cannot be assigned to", "statement": "Assigning to an attribute of an object that is not a data node of the YANG module at this place (a misspelt name, say) raises AttributeError and stores nothing; assigning to a child that is config reaches the child's setter, and to one that is config false raises AttributeError.", "quantifier": "all generated classes, all names of attributes, all kinds of objects (modules, containers, list entries, rpcs, their inputs and outputs, notifications)", "why_tests_cant": "a test tries one wrong name on one object; that no object has a place to store other names depends on how each class in the chain of bases is made, for every kind of object", "anchors": ["pyangbind/plugin/pybind.py:get_children", "pyangbind/lib/yangtypes.py:YANGDynClass"]}
{"id": "C106", "title": "Objects of rpcs and notifications stay out of the path helper", "statement": "Whatever a program does to the object of an rpc or notification, whose classes are made with register_paths=False, the path helper it was given is not changed, and no operation behaves differently from the same operation on an object without path helper.", "quantifier": "all inputs, outputs and notifications, all histories of operations on their objects, all states of the path helper", "why_tests_cant": "a test looks at one path after one assignment; whether some operation on some kind of node registers after all needs all of them", "anchors": ["pyangbind/plugin/pybind.py:get_children", "pyangbind/lib/yangtypes.py:YANGDynClass", "pyangbind/lib/yangtypes.py:YANGListType", "pyangbind/lib/xpathhelper.py:YANGPathHelper.register"]}
{"id": "C107", "title": "Documents of rpcs", "statement": "The contents of an rpc's input and output, written as IETF JSON, native JSON or XML and loaded into a new object of the rpc, are the same as before, or loading raises an exception.", "quantifier": "all rpcs, all histories of operations on their objects, the three formats", "why_tests_cant": "a test with one rpc in one format says nothing about the others; loaders tell containers from leaves in different ways", "anchors": ["pyangbind/lib/serialise.py:pybindIETFXMLDecoder.load_xml", "pyangbind/lib/serialise.py:pybindJSONDecoder.load_ietf_json", "pyangbind/lib/serialise.py:pybindJSONDecoder.load_json", "pyangbind/plugin/pybind.py:get_children"]}
{"id": "C108", "title": "Different objects report different paths", "statement": "No two objects of a binding (containers, leaves, leaf-lists, lists and list entries) give the same _path(), nor the same _yang_path().", "quantifier": "all schemas, all trees of objects", "why_tests_cant": "a test compares the paths of a few objects; that no keys and names anywhere give the same text is about all of them", "anchors": ["pyangbind/plugin/pybind.py:get_children", "pyangbind/lib/yangtypes.py:YANGDynClass", "pyangbind/lib/yangtypes.py:YANGListType"]}
{"id": "C109", "title": "Extension statements are found with the object", "statement": "With --interesting-extension, _extensions() of an object has, for each statement of an extension of the modules named that the node has, its argument under the names of module and extension, and nothing else; without such statements it is None.", "quantifier": "all sets of modules of interest, all sequences of substatements", "why_tests_cant": "a test has one node with a few extensions; that nothing is lost or made up is about all sequences of statements", "anchors": ["pyangbind/plugin/pybind.py:get_element", "pyangbind/lib/yangtypes.py:YANGDynClass", "docs/usage.md"]}
{"id": "C110", "title": "An object is found under the path it reports", "statement": "With a path helper, looking up what _path() or _yang_path() of an object of the binding gives finds this object and nothing else.", "quantifier": "all schemas, all histories of operations, all objects there are then", "why_tests_cant": "a test looks up a few paths it wrote itself; that what objects say of themselves and what the helper recorded agree after every history is about all of them", "anchors": ["pyangbind/lib/yangtypes.py:YANGDynClass", "pyangbind/lib/yangtypes.py:YANGListType", "pyangbind/lib/xpathhelper.py:YANGPathHelper"]}
{"id": "C111", "title": "Lists without key work with a path helper", "statement": "With a path helper, adding an entry to a list without key and deleting one do the same to the list as without a helper.", "quantifier": "all schemas of lists without key, positions of the list, helpers with any history, and list contents", "why_tests_cant": "Whether add() raises depends on whether any child of the entry registers and on what the helper holds at the list's path; a suite tries lists without key without a helper, or a helper with keyed lists, and the combination fails for nearly every entry.", "anchors": ["pyangbind/lib/yangtypes.py:YANGListType", "pyangbind/lib/yangtypes.py:YANGDynClass", "pyangbind/lib/xpathhelper.py:YANGPathHelper.register"]}
