{
 "C01": [
  "proved",
  "strict total order; members of a namespace contiguous in any sorted sequence"
 ],
 "C03": [
  "proved",
  "exact for canonical names; up to one trailing '/' for every absolute name"
 ],
 "C04": [
  "proved",
  "for all strings; component-level characterisation for canonical names; an empty namespace passed to getRelativeName is undefined behaviour (C04_relative_empty_ub)"
 ],
 "C05": [
  "proved",
  "completeness for the whole grammar, termination, and soundness on the three classes of names of the statement; outside of them soundness is false of the code (C05_soundness_fails, C05_array_leaks, C05_template_leaks)"
 ],
 "C06": [
  "proved",
  "for absolute names and absolute namespaces; for empty or relative namespaces the code is undefined (C06_failures)"
 ],
 "C07": [
  "proved",
  "well-formed types; types without a layout are rejected with an exception (C07_rejected)"
 ],
 "C08": [
  "proved",
  "operation and initialisation bytecode; remove_trailing_skips=false is not honoured by the code (C08_trailing_skips_counterexample), which the statement allows"
 ],
 "C09": [
  "proved",
  "well-formed types; false for arrays of empty arrays (C09_empty_array_counterexample, ..2)"
 ],
 "C10": [
  "proved",
  "well-formed types that have a layout; destination initialised by init (C10_dump_init_load) or any value with empty containers (C10_dump_load); other destinations: C46"
 ],
 "C11": [
  "proved",
  "getDumpSize counts modulo 2^64; a dump of a valid value smaller than 2^64 is counted exactly"
 ],
 "C12": [
  "proved",
  "whatever the value and buffer size (below 2^32, the type of the size argument)"
 ],
 "C13": [
  "partial",
  "proved for every buffer in which no 8 bytes read as a count times an element size reach 2^64 (and for every buffer if the type has no vector); false otherwise: Vector::resize multiplies modulo 2^64 (C13_overflow_counterexample). Missing: nothing else"
 ],
 "C14": [
  "proved",
  "strict prefixes are always refused; trailing bytes are accepted iff as many as the trailing padding of the type or none"
 ],
 "C15": [
  "proved",
  "two different objects of the same type; the model makes aliasing, leaks and use after destruction undefined, and the theorem shows the outcome is a normal return"
 ],
 "C16": [
  "proved",
  "types may contain pointers (compared as bytes)"
 ],
 "C17": [
  "proved",
  "first declared value = first in the order of Enum::values(), as in the code"
 ],
 "C18": [
  "proved",
  ""
 ],
 "C46": [
  "partial",
  "proved when no container of v is empty at any depth; false of the code otherwise (C46_load_empty_counterexample, C46_load_empty_string_counterexample)"
 ],
 "C19": [
  "proved",
  "values passed to push/erase/setElement are not elements of the same vector; predicates of delete_if depend on the value only; new plain-data elements are zero-filled without init (C19_enum_zero_filled), which the statement allows"
 ],
 "C20": [
  "partial",
  "proved for types of size < 2^31 without trailing padding before a following field or element and with 4-byte enums (C20_swap_partial, C20_involution_partial); false of the code for the others (C20_*_counterexample); unsupported types are rejected; the integer swaps are proved at bit level for a little-endian host"
 ],
 "C02": [
  "proved",
  "setDefaultNamespace and importNamespace, in every registry any history of calls produces, for namespaces of any depth; example in RegistryExamples."
 ],
 "C21": [
  "partial",
  "proved for every history: add, alias, removeAlias, clearAliases, remove, namespace changes and lifetime. \"A failed add changes nothing\" is false in one case (invalid derived alias), proved as C21_failed_add_counterexample; C21_failed_add_partial lists all failures. Names that are not absolute but accepted by the validity check are excluded (C21_side_conditions_needed)."
 ],
 "C22": [
  "partial",
  "false as stated (C22_counterexample, C22_remove_counterexample). Proved: root namespace, any history; after any setDefaultNamespace; registrations only in a fixed namespace."
 ],
 "C23": [
  "proved",
  "any dependency graph, cyclic ones included."
 ],
 "C24": [
  "proved",
  "any history."
 ],
 "C25": [
  "proved",
  "any depth of derivation, any order of registrations and aliases; termination of the mutual recursion included."
 ],
 "C26": [
  "partial",
  "termination, reflexivity and an exact characterisation (C26_isSame_iff) are proved for every type graph; structural equality is proved without null types, for which it is false (C26_null_counterexample)."
 ],
 "C27": [
  "partial",
  "false as stated (C27_counterexample); proved for types without structural duplicates and null types."
 ],
 "C28": [
  "partial",
  "isSame implies canCastTo: proved. The layout part is proved for every path into the types; \"with castable types\" is false for the elements of containers (C28_container_elements_counterexample), because the recursion stack forgets whether equality was required."
 ],
 "C31": [
  "partial",
  "false: undefined behaviour on every pair of non-empty registries whose first types are the same (C31_counterexample); the answers it does give are proved right."
 ],
 "C32": [
  "partial",
  "proved when fields are ordered, no explicitly resized compound, growths never cancel to an intermediate 0 total with later growth, dependencies ranked (no recursion); each excluded case has a counterexample theorem (C32_cancel, C32_unordered, C32_explicit_compound, C32_unknown_name_ub, C32_recursive_type_diverges): the code violates the claim there"
 ],
 "C33": [
  "proved",
  "for every registry reachable by registry operations; what a concrete exporter writes for one entry is an oracle (its boolean result)"
 ],
 "C34": [
  "proved",
  "for every history of metadata operations"
 ],
 "C35": [
  "proved",
  "for every history of add calls whose automatic values do not pass INT_MAX (signed overflow: ub in the model)"
 ],
 "C36": [
  "partial",
  "no size_t overflow in offset+size (counterexample proved); getTrailingPadding exact below 2^31 (it computes with int: counterexample proved)"
 ],
 "C37": [
  "partial",
  "parsing: every base and modifier list, any spacing (dimensions up to INT_MAX; atoi is undefined above, C37_parse_unchecked). Building: for every reachable registry in which decorated names are honest; the outcome is the right type or BadName. Missing: pointers to arrays or to template types always fail in the code (C37_unbuildable), so \"every list of modifiers\" is false there"
 ],
 "C41": [
  "partial",
  "proved for every acyclic use relation, number of threads and interleaving, unless a call leaves the process without singletons by destroying one that uses another (C41_lifetime_partial, C41_reference_count); in that case the code reads the deleted server (C41_nested_use_counterexample). Missing: nothing else"
 ],
 "C43": [
  "proved",
  "histories of insert/set/erase/child insertion on a set, and deletion of a tree of sets; find() on a multimap assumed to return the first element of the key (libstdc++); a set inserted twice is deleted twice (C43_shared_child_double_delete), and reading one value converts all of them (C43_get_one_converts_all)"
 ],
 "C44": [
  "partial",
  "all histories of calls that respect a contract (Step): roots registered before their children, no wrapping of an address whose zone object was collected while the entry survives, explicit references given back at most once. Counterexamples show that each clause is needed. rb_raise is an exception; the Ruby collector and threads are not modelled"
 ],
 "C45": [
  "partial",
  "both conversions computed for every name (token sequences as printed by clang); exact round trip for names without optional spaces, reverse round trip for names without several template arguments; it is false with several arguments (C45_comma_counterexample), and one-letter global names are not made absolute (C45_one_letter)"
 ],
 "C40": [
  "proved",
  "For one export by a new exporter object, as PluginManager::save makes them: any types and aliases in any order, balanced modules, every definition inside exactly the modules of its namespace, typedefs after them grouped by namespace, no empty module; modules named by the components; references name the modules opened. Not true of an object that is used again (C40_reuse_counterexample); template components are split at their slashes, blobs and sequences can get wrong or clashing names (counterexamples)."
 ],
 "C42": [
  "proved",
  "Addresses do not wrap; dereferencing a null pointer counts as undefined behaviour whatever it points to. Counterexamples proved: the default visitor (defval=false) stops after the first number; returning false inside an array does not stop the visit; null pointers are followed; enums smaller than 4 bytes are accessed as int; cyclic data make the visit infinite."
 ],
 "C39": [
  "proved",
  "The text of a cell is a parameter. Counterexamples proved: containers; opaque types (the overload in LineVisitor does not redefine the virtual method, so the line misses the column); recursive types have no header; unsupported number sizes throw in the line only; a character cell may contain the separator."
 ],
 "C29": [
  "partial",
  "Proved for sources made of their own types, recursive ones included as long as no array or string is part of its own elements (Copyable), and destinations that agree on the definitions of the types they share by name and whose aliases do not hide names of the source (Dest): on success every type of b is in a with the same definition, every alias names a type that is the same, existing objects and names are untouched, the result is closed under dependsOn, nothing else is added, and merging again succeeds and creates nothing. With no agreement assumed between the registries (only that they are made of different type objects): a merge that succeeds implies that every type of b already known by name in a had the same definition there to any depth, container sizes apart (C29_conflict), and whatever the outcome, exceptions in the middle included, no existing type is modified (container sizes apart) and every name keeps its type (C29_no_damage). Without these conditions the claim is false: witnesses C29_counterexample (component names are not compared; the second merge throws), C29_recursive_counterexample (an array on a cycle gets size 0), C29_modified_counterexample (size of an existing vector changed), C29_alias_counterexample, C29_not_atomic_counterexample. Metadata merging is modelled separately."
 ],
 "C30": [
  "partial",
  "Proved for minimal(name) and minimal(auto_types), recursive types included (no array or string on its own cycle), and for every content of new Registry that agrees with the types to be copied (Dest); C30_minimal_alone_partial has no condition on it when it is empty. Missing: arrays and strings that are part of their own elements (array sizes are wrong there, see C29_recursive_counterexample) and standard types that disagree with the copied ones."
 ],
 "C38": [
  "partial",
  "Export followed by import, through a model of the text and of the XML reading, proved for every reachable registry the format can hold (C38_roundtrip_partial, C38_document). Partial because the claim is false without these restrictions: counterexamples for unescaped names, enum sizes, field order, container size 0, CDATA end and line ends in metadata, lost source ids, persistent arrays, aliases whose base is not persistent. libxml2 is described by a small specification (Verif.Xml), not modelled function by function."
 ],
 "C47": [
  "proved",
  "per-operation theorems and the history theorem; C47_propagated_first shows a consequence a user may not expect (an explicit alias of an already propagated name stays non-persistent)"
 ],
 "C48": [
  "proved",
  "sizes 1, 2, 4, 8; element names of sequences without colons; vectors of arrays give invalid text (C48_array_element_counterexample), which the statement allows"
 ],
 "C49": [
  "proved",
  "Model of CastingVisitor on the visitor of C42. Casting a compound, array or container gives what some number of the type in it holds, which one depends on the visit (C49_compound_counterexample)."
 ],
 "C50": [
  "proved",
  "All registries and ABIs. C50_missing_spellings_counterexample: the legal spellings that are not registered (22 of 83, such as 'int short'), proved to be all of them. C50_null_counterexample: a registry with /bool but without /int8_t makes the code dereference a null pointer."
 ],
 "C51": [
  "partial",
  "copySourceIDs for all reachable registries; merge under the conditions of C29 (Copyable, Dest). The clause on existing sources needs: b gives no source to a name that is an alias without source in the result; otherwise an existing source is overwritten (C51_alias_counterexample)."
 ],
 "C52": [
  "proved",
  "The statement lists the exceptions. Findings: C52_get_u32_counterexample (unsigned 32-bit numbers from 2^31 on are read as negative), C52_set_u64_counterexample (numbers from 2^63 on cannot be assigned), C52_set_wraps_counterexample (small types wrap silently), C52_enum_overrun_counterexample (4 bytes are written whatever the size of the enum). Floating point numbers are not modelled."
 ],
 "C53": [
  "proved",
  "Findings: from_string on an array of dimension 0 writes before the array (C53_zero_dim_counterexample); from_string on a char pointer is undefined behaviour (C53_pointer_counterexample)."
 ],
 "C54": [
  "proved",
  "Findings: the meaning of a negative index depends on which elements were read before (C54_negative_counterexample); on an array of dimension 0, any index gives the array itself (C54_empty_counterexample)."
 ],
 "C55": [
  "proved",
  "The C++ side of an operation is arbitrary, apart from the frame condition. Findings for operations that are not protected: C55_set_counterexample ([]= and raw_memcpy), C55_string_counterexample (strings have no contained_memory_id), C55_delete_if_counterexample (objects given to the block). C55_order_counterexample shows that outer containers have to be processed first."
 ],
 "C56": [
  "proved",
  "Findings: a path that ends in a colon, or is empty, makes the constructor throw (C56_trailing_colon_counterexample: find_last_of is compared with length() instead of length()-1); refused plugins are leaked (C56_leak_counterexample); a definition plugin added twice is deleted twice (C56_twice_counterexample)."
 ],
 "C57": [
  "proved",
  "Proved for the conditions in the statement. C57_recursive_counterexample shows that for a structure with a vector of itself layout_of does not end (rather than throwing); C57_stale_counterexample shows a vector whose kept element layout is stale after Registry::resize."
 ],
 "C58": [
  "proved",
  "Proved for all reachable registries (Reachable of C21: any sequence of calls, types created and modified in between) and all prefixes. The block must not erase entries during the enumeration (not modelled)."
 ],
 "C59": [
  "proved",
  "Proved for all histories in which remove is called with types of the same registry (registered or taken out before) and types that were taken out are not added again (no function does this). With a type of another registry both registries delete it: C59_foreign_counterexample."
 ],
 "C60": [
  "partial",
  "parse_template fails on classes inside templates and on empty argument lists, one-letter names differ between the two importers (counterexample theorems); everything else is proved"
 ],
 "C61": [
  "partial",
  "false for negative offsets, symbols given two values, aliases on taken names and types of other registries (counterexample theorems); proved for everything else"
 ],
 "C62": [
  "partial",
  "proved for options whose names differ as strings and whose values are scalars, arrays of scalars or arrays of hashes; false for a hash outside an array (C62_hash_counterexample) and for equal names (C62_same_name_counterexample)"
 ],
 "C63": [
  "partial",
  "proved for types that do not contain themselves and whose compounds have distinct field names; false otherwise (C63_recursive_counterexample, C63_same_name_counterexample)"
 ],
 "C64": [
  "partial",
  "termination and soundness for all histories; completeness for first calls, and for all histories if the graph has no cycles; with cycles later calls may lack types (C64_order_counterexample)"
 ],
 "C65": [
  "partial",
  "of_size: proved when the last byte of the element type is not padding; false otherwise (raises for plain elements, or silently builds other elements). Strings: the round trip keeps exactly the strings of one-byte characters, others are cut. Packed arrays and containers of numbers: proved. Base64 and String#unpack are not modelled beyond cutting in pieces of the size of the element."
 ],
 "C66": [
  "partial",
  "proved for programs with bases at offset 0, no bit-fields, enums of 32 bits, and for which names mean one type each (Supported, Names); the import is shown to end when types are not nested in themselves, normally or by an exception. False otherwise: bases at other offsets, bit-fields, other enums, recursive classes, two arrays of the same number type (counterexample theorems)"
 ],
 "C67": [
  "partial",
  "Proved for programs that go through the accessors (fields and parts), with to_byte_array, ==, copy, dup and assignment, at any nesting and for any conversions that can be undone. The full claim is false of the code when value['field'], raw accessors or from_buffer are mixed with accessors (7 counterexamples); sharing of one assigned object by two values is not modelled."
 ],
 "C68": [
  "partial",
  "Proved for all histories: which declarations apply, the content of every class, stability, which classes exist, termination. The full claim is false of the code: declared conversions of arrays/containers with converted elements and declared conversions from Array are overridden by the defaults, conversions of numbers are not counted, the condition of convert_to_ruby(key, if:) is lost, and the class of a type recursive through containers cannot be made (6 counterexamples)."
 ],
 "C69": [
  "partial",
  "The claim without a condition on the value is false: containers of enumerations cannot be filled from Ruby objects, undeclared enumeration values become the empty string, uint64_t of 2^63 or more are refused, strings with multi-byte characters are truncated (C69_*_counterexample). C69_roundtrip_partial proves that the round trip succeeds exactly for the values where none of this occurs. The other parts of the claim are proved in full (C69_representable, C69_valid, C69_hash, C69_json, C69_json_finite, C69_injective)."
 ],
 "C70": [
  "partial",
  "Full claim for lookups by methods, without aliases and without types exported as other types (C70_path_partial); for the first relaxed lookup: the direct candidates are found (C70_relaxed_partial), nothing but a type or a namespace whose name the constant stands for is found (C70_relaxed_only_partial), and an exception means that there is no such type (C70_relaxed_all_partial). The unrestricted claim is false of the code: see the eight C70_*_counterexample theorems."
 ],
 "C71": [
  "partial",
  "Proved for programs with no bit-fields inside bytes, enums of 32 bits, classes whose members all have different names and in which names mean one type each (Supported, Meaning). False otherwise: enums of other sizes, bit-fields, hidden members of bases; the import is aborted by recursive structures, empty enums and others (C71_*_counterexample theorems). Termination (C71_ends_partial) is that of the recursion on the nodes, for the same programs, whose pointers, arrays, qualifiers and template arguments are nested to a finite depth."
 ],
 "C72": [
  "partial",
  "Copy, comparison, cast and dup are proved for all pairs of compatible types of any nesting, whatever the trailing padding of the structures involved, with exact contents, frame, symmetry, transitivity and copy-then-equal; refusals are proved exactly. Missing because false of the code (counterexample theorems): containers whose elements differ in size (a vector with a fraction of an element), types with pointers (copy and dup end the process, the exception is not caught), invalidated values (compared through a null pointer), casts to a larger type (the value is larger than its memory), == raises ArgumentError instead of answering false, one way round only for enums."
 ],
 "C73": [
  "partial",
  "The full claim is false of the code, so it is proved with conditions: every history of calls whose arguments are values of the element type (or are refused) refines the same history on an array, up to the first failed allocation (C73_call_partial, C73_history_partial), for allocations that keep the number of elements below 2^31; elements of the vector itself may be appended if they are given as numbers or symbols, or if the buffer has room (C73_own_room_partial), and reading freed memory is exactly what happens otherwise (C73_own_full_partial); each may be given a block that reads, replaces and appends (C73_each_partial). Counterexamples: push of an own element that moves the buffer, a block of each that empties the vector, numbers that become objects after a slice or raw_get, slices of negative length, sizes of 2^31 or more (negative, and appends that never end), concat that is not undone when an element is refused, erase and delete_if on strings, which remove nothing."
 ],
 "C74": [
  "partial",
  "Proved for all interleavings, numbers of threads, outcomes and token pools: returning means every file parsed, converted and merged exactly once (C74_return_partial, no swallowed exception), failures are never lost and leave the registry untouched before the merges (C74_error_not_lost, C74_raise_partial), no deadlock (C74_no_deadlock, C74_ends), bounded runs (C74_bounded), parallelism and token balance. Missing because false of the code: a ThreadError/StopIteration raised by a tool is swallowed and files are skipped silently (C74_cex_swallowed); a failing load can leave the registry thread blocked for ever (C74_cex_thread_left); a failing merge leaves the earlier merges in place (C74_cex_half_merged); the merge order depends on the schedule (C74_cex_order)."
 ],
 "C75": [
  "partial",
  "Proved for every stream, value and behaviour of the system: the bytes and their order (any_stream), file descriptors in full, ostreams (received a beginning; all unless bad), reading several values back, also after an interrupted dump. The claim is false of FILE* (the result of fwrite is ignored: C75_cex_file) and of ostreams (dump returns although nothing was written: C75_cex_ostream); short writes are raised as errors instead of being continued (C75_cex_short)."
 ],
 "C76": [
  "partial",
  "Proved for every file in which some code precedes the comment: the text (all comment styles, indentations, blank lines), the line of the declaration, the metadata, no comment no documentation, independence of the rest of the file; totality for every file and line. The claim is false at the beginning of a file, where the search goes on at its end (C76_cex_wrap, C76_cex_line), and when the comment is not the only one before the declaration or has lines without a star (C76_cex_joined, _code, _nostar, _ends)."
 ],
 "C77": [
  "partial",
  "C77_filtered_partial proves everything but that typedefs of standard types are returned, which is false of the code (C77_cex_basic). The registry is one whose derived names are complete (Propagates) and whose types are Copyable, as in C29 and C30."
 ],
 "C78": [
  "partial",
  "Proved for merges whose success C29 guarantees (agreeing definitions, no shared objects), for minimal(name); the source_id key is excluded because it can end with two values while the source stays one (C78_source_counterexample); a type also named by an alias of the destination that the source uses for another type of the same structure gets the other type's metadata (C78_alias_counterexample), and a field whose name an earlier field has gets the metadata of the first one (C78_same_name_counterexample)."
 ],
 "C79": [
  "partial",
  "Proved for strings without NUL byte, set given strings, clear and delete given at most one key; otherwise false: set with a value that is not a string raises TypeError after removing the key (C79_set_counterexample), delete with two keys silently does nothing (C79_delete_counterexample), strings are cut at the first NUL byte (C79_nul_counterexample). A block of each that changes the object is not modelled."
 ],
 "C80": [
  "partial",
  "proved for names without blanks (alias and field names: without newlines) and starting with a slash: a display ends on types that do not contain themselves, is a function of the type, and two types with equal text have equal descriptions (names, categories, sizes of numerics and compounds, symbols, dimensions, offsets, fields); the same for full dumps without source ids. False in general: sizes of opaques, enums, pointers and containers are not shown (C80_size_counterexample), a dump of names repeats the target's name for an alias (C80_names_counterexample), non-persistent entries are left out (C80_hidden_counterexample)"
 ],
 "C81": [
  "partial",
  "proved for castxml (sequential loading; C74 has the threads), for gccxml with castxml: false, for the choice of importers and kinds, for preprocessing with castxml, and for files and defines with clang. False of the code: clang drops include, include_paths and rawflags (C81_clang_counterexample, for all values) and its preprocess raises NoMethodError without include or define (C81_preprocess_counterexample), choosing gccxml runs castxml (C81_gccxml_counterexample), a failure of gccxml raises NameError (C81_error_counterexample)"
 ],
 "C82": [
  "partial",
  "contents, options, refusals and faithfulness are proved for types with less than 2^63 bytes in all parts; compatible_with_memcpy? always says no, accepted pointers are described as data, and larger sizes appear negative (counterexamples)."
 ],
 "C83": [
  "partial",
  "Full claim false: recursive types do not end, equal field names, names that are not ASCII, sizes from 2^62, pointer targets (counterexamples). Proved: under Usual (sizes below 2^62, different ASCII field names) the hash tells everything documented, ends for all non-recursive types, and equal hashes are equal definitions up to pointer targets."
 ],
 "C84": [
  "partial",
  "Full claim false: paragraphs run together, other blocks drop the documentation, inline commands, chains of and relative links, paths with a colon, nodes without line, empty lines only (counterexamples). Proved: exactly what is recorded for every declaration and kind of type, all text of paragraphs, commands and verbatim lines is kept in order, lines of a paragraph are kept, the line a definition starts at, locations are read back."
 ],
 "C85": [
  "partial",
  "value_of and name_of proved for all histories (names without NUL, integers); keys and to_h for histories that leave the returned hash alone and add no symbol after the first call, and in general that what they tell is true (C85_keys_true). False otherwise: see the counterexamples."
 ],
 "C86": [
  "partial",
  "proved for types in which no field is called raw_ plus another field (C86_accessors_partial, C86_converted_partial), and for needed methods that are not raw_ plus a converted field (C86_protected_partial); C86_names without conditions. False otherwise, and methods of every object are replaced: see the counterexamples."
 ],
 "C87": [
  "partial",
  "The round trip is proved for every combination of options and every type that can be marshalled with them; the full claim is false of the code: vectors of structures without merge_skip_copy and types without layout end the process, marshalling_size ignores options and overflows, pointers and opaques are copied (counterexample theorems). Arbitrary buffers only with default options."
 ],
 "C88": [
  "partial",
  "Parts, full names and their distinctness are proved for all names; that full_name('::', true) is the C++ name is proved for names without templates and false for templates of built-in types (counterexample). Separators with a backslash, which gsub! interprets, are not modelled."
 ],
 "C89": [
  "partial",
  "Proved: termination and exact meaning on types of registries, same definition without null parts, symmetry without duplicated parts, non-types, exactly when TypeError is raised, casts. False of the code: root classes all equal each other, Type == NumericType is not symmetric, symmetry with duplicated parts, TypeError for NullType and derived classes (counterexamples)."
 ],
 "C90": [
  "partial",
  "Proved: exactly what a call executes and when it raises, never twice over every history, retry after a gem plugin raised. False of the code: retry for plugins of the path (counterexample over all later histories), forced calls with an unchanged path."
 ],
 "C91": [
  "partial",
  "Proved: the request for distinct names and sizes in range, the effect under the conditions of C32, no effect with an exception for unusable entries. Missing or false: the cases of C32, negative sizes, types given twice, unknown names (counterexamples)."
 ],
 "C92": [
  "partial",
  "Under the conditions of C29 and C30: the registry of the type is Copyable, the receiving one agrees on the types it shares by name and has no alias with the name of a copied type (Receives). Success is proved without aliases; adding a type to its own registry is proved for registries without aliases. That nothing is added on failure is false of the code (C92_not_atomic_counterexample)."
 ]
}