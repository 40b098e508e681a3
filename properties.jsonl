{"id": "C01", "title": "Registry iteration order is a strict total order that keeps namespaces contiguous", "statement": "The ordering used for every name-keyed map of a registry is a strict total order on all names, and for every namespace the names inside it (recursively) form one contiguous block of the iteration order.", "quantifier": "all pairs/triples of strings and all finite sets of names, for signed or unsigned char", "why_tests_cant": "a comparator that is not transitive or total for some triple of names corrupts std::map silently; only sampled triples can be tested", "anchors": ["typelib/registry.cc: Typelib::nameSort", "typelib/registry.hh: Registry::TypeMap"]}
{"id": "C02", "title": "Importing a namespace makes exactly its members reachable by relative name", "statement": "After setDefaultNamespace(ns) on a registry, for every registered type whose full name is ns + rel, get(rel) returns a type, absolute lookups are unchanged, and every relative lookup that succeeds returns a type registered under that name in ns, in an enclosing namespace of ns or at the root, the deepest one winning.", "quantifier": "all registries, all valid namespaces, all names", "why_tests_cant": "the scan starts at lower_bound and stops at the first name outside the namespace; correctness depends on every other name in the registry", "anchors": ["typelib/registry.cc: Registry::importNamespace, updateCurrentNameMap, setDefaultNamespace, get"]}
{"id": "C03", "title": "Splitting a type name and joining it back is the identity", "statement": "For every absolute name whose components are non-empty and template-balanced, getNamespace(n) + getTypename(n) = n, splitTypename returns the components, and template arguments are never split.", "quantifier": "all component lists of any length, including nested templates", "why_tests_cant": "unbounded nesting and length", "anchors": ["typelib/typename.cc: splitTypename, getNamespace, getTypename"]}
{"id": "C04", "title": "Namespace membership and relative names agree", "statement": "isInNamespace(name, ns, recursive) holds exactly when name is normalized(ns) followed by something; in that case normalized(ns) + getRelativeName(name, ns) = name; non-recursive membership implies recursive membership.", "quantifier": "all strings name and ns", "why_tests_cant": "all strings, including empty and separator-terminated ones", "anchors": ["typelib/typename.cc: isInNamespace, getNormalizedNamespace, getRelativeName"]}
{"id": "C05", "title": "Names accepted by isValidTypename really are well-formed", "statement": "A name made of non-empty identifier components, each absolute, with well-formed template arguments and array suffixes is accepted. Conversely an accepted absolute name without template, array or pointer characters is exactly a sequence of '/'-introduced non-empty identifiers; one without template or pointer characters and without '[[' is exactly such a sequence with '[digits]' suffixes; and one without array or pointer characters is made of such components and balanced, comma-separated template argument lists (names or integer strings), up to text following a '>' or ',' outside any argument list. The check terminates on every string.", "quantifier": "all strings", "why_tests_cant": "hand-written recursive scanner; malformed names are an infinite set", "anchors": ["typelib/typename.cc: isValidTypename, isValidTypeBasename, isValidIdentifier"]}
{"id": "C06", "title": "The minimal namespace path is sound", "statement": "getMinimalPathTo(type, ns) returns either the absolute namespace of the type, or a suffix of it: the returned path always ends the type's namespace, so appending the basename gives a suffix of the full name.", "quantifier": "all names and namespaces", "why_tests_cant": "string search over arbitrary namespaces", "anchors": ["typelib/typename.cc: getMinimalPathTo"]}
{"id": "C07", "title": "The memory layout of a type covers exactly its bytes", "statement": "For every well-formed type (fields sorted and not overlapping, no empty array, no zero-sized element), the raw layout computed for it, executed from the start of a value, visits each byte of the value exactly once, in order, as data, padding or container object, and ends exactly at getSize().", "quantifier": "all types (numerics, enums, arrays, compounds, containers, nested without bound)", "why_tests_cant": "unbounded nesting and field counts", "anchors": ["typelib/memory_layout.cc: MemLayout::Visitor", "typelib/memory_layout.hh: raw_layout_of"]}
{"id": "C08", "title": "Simplifying a layout does not change its meaning", "statement": "simplify() applied to the layout of a type describes the same bytes: containers stay at the same offsets with equivalent element layouts, data bytes stay data bytes; with merge_skip_copy padding may become data, without it padding stays padding; only trailing padding may disappear.", "quantifier": "all well-formed types (fields sorted and not overlapping, no empty array, no zero-sized element), all flag combinations", "why_tests_cant": "the peephole merging rewrites already emitted bytecode; interactions of nested arrays are unbounded", "anchors": ["typelib/memory_layout.cc: MemoryLayout::simplify, simplifyBlock, simplifyInit"]}
{"id": "C09", "title": "A generated layout is always well-formed bytecode", "statement": "Every layout returned by layout_of on a well-formed type passes validate(): blocks are balanced, every operand is present; skipBlock started at a block body returns the END of that block. validate() accepts exactly the layouts made of complete operations and closed blocks.", "quantifier": "all well-formed types (fields sorted and not overlapping, no empty array, no zero-sized element), all flags", "why_tests_cant": "unbounded nesting", "anchors": ["typelib/memory_layout.cc: MemoryLayout::validate, skipBlock, simplify"]}
{"id": "C10", "title": "dump followed by load restores the value", "statement": "For every valid value v of a type, load(dump(v)) into a freshly initialised value (or any value whose containers are empty) yields a value equal to v (same data bytes and same container contents, recursively), consumes the whole buffer and does not fail.", "quantifier": "all types, all values, all raw destination bytes", "why_tests_cant": "infinitely many types and values; container nesting unbounded; destination history matters", "anchors": ["typelib/value_ops.cc: ValueOps::dump, ValueOps::load, Typelib::dump, Typelib::load", "lang/csupport/containers.cc: Vector::dump, Vector::load, String::dump, String::load"]}
{"id": "C11", "title": "getDumpSize predicts the dump size exactly", "statement": "For every value getDumpSize(v) equals the number of bytes dump(v) appends to a vector, and equals the return value of the fixed-buffer dump when it succeeds.", "quantifier": "all types and values", "why_tests_cant": "all values", "anchors": ["typelib/value_ops.cc: getDumpSize, ByteCounterStream, VectorOutputStream, ByteArrayOutputStream"]}
{"id": "C12", "title": "Dumping into a fixed buffer never writes outside it", "statement": "dump(v, buffer, size) never writes at or beyond index size whatever the value; it returns the number of bytes written when the dump fits and 0 when it does not.", "quantifier": "all types, values, buffer sizes", "why_tests_cant": "all sizes, including the boundary for every value", "anchors": ["typelib/value_ops.cc: ByteArrayOutputStream::write, dump(Value, uint8_t*, unsigned int)"]}
{"id": "C13", "title": "load of an arbitrary byte buffer never corrupts memory", "statement": "For every byte buffer, load(v, buffer) either succeeds or throws; it never reads outside the buffer and never writes outside the value and its containers, and the value stays destructible.", "quantifier": "all byte buffers, all types, all values", "why_tests_cant": "hostile buffers are an infinite set; arithmetic wraps at 2^64", "anchors": ["typelib/value_ops.cc: ValueOps::load, VectorInputStream::read", "lang/csupport/containers.cc: Vector::load, Vector::resize, String::load"]}
{"id": "C14", "title": "load reports a buffer that is too short or too long", "statement": "load throws when the buffer ends before the value is complete, and when more than the trailing padding of the type remains unused; a strict prefix of a dump is never accepted as the same layout's dump.", "quantifier": "all types, values and truncation points", "why_tests_cant": "every truncation point of every value", "anchors": ["typelib/value_ops.cc: VectorInputStream::read, load(uint8_t*, Type const&, std::vector<uint8_t> const&, MemoryLayout const&)"]}
{"id": "C15", "title": "copy produces an equal and independent value", "statement": "copy(dst, src) leaves src unchanged and makes dst equal to src whatever dst held before; no container of dst aliases src afterwards, and neither value leaks nor is used after destruction.", "quantifier": "all types, source values and destination values (same type)", "why_tests_cant": "all values and prior destination states, container capacities", "anchors": ["typelib/value_ops.cc: Typelib::copy, ValueOps::copy", "lang/csupport/containers.cc: Vector::copy, Vector::resize, String::copy"]}
{"id": "C16", "title": "compare is true exactly on equal values", "statement": "compare(a, b) on two values of a type returns true iff all data bytes and container contents are equal; padding bytes never influence the result; hence compare is an equivalence.", "quantifier": "all types and pairs of values", "why_tests_cant": "padding contents and nesting are unbounded", "anchors": ["typelib/value_ops.cc: Typelib::compare, ValueOps::compare", "lang/csupport/containers.cc: Vector::compare, String::compare"]}
{"id": "C17", "title": "init makes raw memory a valid value and destroy releases it", "statement": "init on uninitialised memory of the size of the type yields a valid value whose containers are all empty and whose enums hold their first declared value; destroy on any valid value visits every container exactly once (no leak, no double destruction) and touches nothing else.", "quantifier": "all types, all valid values", "why_tests_cant": "all nesting and container contents", "anchors": ["typelib/value_ops.cc: ValueOps::init, ValueOps::destroy", "typelib/memory_layout.cc: simplifyInit, pushInit*", "lang/csupport/containers.cc: Vector::destroy, String::destroy"]}
{"id": "C18", "title": "zero clears every value", "statement": "zero(v) on a valid value makes every data byte 0 and every container empty, and the result is still a valid value.", "quantifier": "all types and values", "why_tests_cant": "all values", "anchors": ["typelib/value_ops.cc: ValueOps::zero"]}
{"id": "C19", "title": "std::vector elements survive resizing", "statement": "Container operations on vectors refine list operations: push appends one equal element, erase removes the first equal element, delete_if keeps exactly the elements not selected in order, clear empties, resizing keeps the common prefix and adds zero-filled elements (initialised unless they are plain data), whether or not the buffer is reallocated.", "quantifier": "all element types, contents, capacities and operation sequences", "why_tests_cant": "reallocation depends on capacity history", "anchors": ["lang/csupport/containers.cc: Vector::resize, push, erase, delete_if_impl, clear, getElementCount, copy"]}
{"id": "C20", "title": "Byte swapping is an involution that swaps exactly the scalars", "statement": "endian swap applied twice gives back the original value for every type whose swap compiles; on a scalar it reverses the byte order; on compounds and arrays it reverses the bytes of every scalar and leaves the others in place.", "quantifier": "all types and values", "why_tests_cant": "unbounded nesting", "anchors": ["typelib/endianness.cc: CompileEndianSwapVisitor", "typelib/endian_swap.hh"]}
{"id": "C21", "title": "A type is retrievable under its full name from registration to removal", "statement": "After any sequence of add, alias, removeAlias, clearAliases, remove and setDefaultNamespace calls, get(absolute name) returns exactly the type last registered under that name and not removed since; a failed add (invalid or already defined name) changes nothing.", "quantifier": "all operation histories", "why_tests_cant": "histories are unbounded; two maps have to stay in sync", "anchors": ["typelib/registry.cc: add, alias, removeAlias, clearAliases, remove, get, has, setDefaultNamespace"]}
{"id": "C22", "title": "Relative name resolution does not depend on registration order", "statement": "get(rel) depends only on the set of registered names and the default namespace, not on the order in which the types were registered or removed.", "quantifier": "all operation histories", "why_tests_cant": "order of operations is unbounded", "anchors": ["typelib/registry.cc: Registry::add(std::string const&, Type*, bool, std::string const&), updateCurrentNameMap, remove"]}
{"id": "C23", "title": "Removing a type removes everything that depends on it and nothing else", "statement": "remove(t) returns and removes t and exactly the registered types that reach t through dependsOn; afterwards no registered type and no alias refers to a removed type, and every other type stays registered.", "quantifier": "all registries (any dependency graph, cycles included) and all types", "why_tests_cant": "dependency graphs are unbounded and may be cyclic", "anchors": ["typelib/registry.cc: reverseDepends, remove"]}
{"id": "C24", "title": "Aliases always resolve to a registered type", "statement": "In every reachable registry each alias refers to a type that is itself registered under its own name; getAliasesOf(t) lists exactly the other names of t; clearAliases and removeAlias never remove a type.", "quantifier": "all operation histories", "why_tests_cant": "unbounded histories", "anchors": ["typelib/registry.cc: alias, getAliasesOf, removeAlias, clearAliases"]}
{"id": "C25", "title": "Aliases propagate to derived types", "statement": "After alias(base, newname), every registered array, pointer or vector over base is reachable under the name derived from newname.", "quantifier": "all registries and aliases, any depth of derivation", "why_tests_cant": "propagation recurses through alias itself", "anchors": ["typelib/registry.cc: alias, add", "typelib/typemodel.cc: Indirect::modifiedDependencyAliases"]}
{"id": "C26", "title": "isSame implies structural equality", "statement": "If isSame(a, b) holds then a and b have the same size, category, and pairwise isSame fields/elements at the same names and offsets, recursively, including for recursive types; isSame is reflexive and always terminates.", "quantifier": "all type graphs, cyclic ones included", "why_tests_cant": "cyclic graphs need coinductive reasoning", "anchors": ["typelib/typemodel.cc: Type::isSame, rec_compare, do_compare (all classes)"]}
{"id": "C27", "title": "isSame is symmetric", "statement": "isSame(a, b) = isSame(b, a).", "quantifier": "all pairs of types", "why_tests_cant": "needs a global argument over type graphs; specific pairs may pass", "anchors": ["typelib/typemodel.cc: Type::isSame, rec_compare"]}
{"id": "C28", "title": "canCastTo extends isSame and preserves the scalar layout", "statement": "isSame(a, b) implies canCastTo(a, b); canCastTo(a, b) implies that both types have the same fields at the same offsets with castable types, and that every enum symbol of a exists with the same value in b.", "quantifier": "all pairs of type graphs", "why_tests_cant": "unbounded graphs", "anchors": ["typelib/typemodel.cc: Type::canCastTo, Enum::do_compare, Compound::do_compare"]}
{"id": "C29", "title": "Merging a registry is idempotent and never modifies existing definitions", "statement": "After a.merge(b) succeeds every type of b is registered in a under the same name with the same definition, all types that were in a are still there unchanged, dependencies of every registered type are registered, and merging b again adds nothing.", "quantifier": "all pairs of registries (acyclic dependency graphs of any size)", "why_tests_cant": "all graphs", "anchors": ["typelib/registry.cc: Registry::merge", "typelib/typemodel.cc: Type::merge, try_merge, do_merge"]}
{"id": "C30", "title": "The minimal registry of a type is its dependency closure", "statement": "minimal(name) contains exactly the transitive dependencies of the type (besides the standard types) and is closed under dependsOn.", "quantifier": "all registries and names", "why_tests_cant": "all graphs", "anchors": ["typelib/registry.cc: Registry::minimal"]}
{"id": "C31", "title": "Two registries compare equal exactly when their contents do", "statement": "Registry::isSame returns true iff both registries hold the same names with pairwise isSame types.", "quantifier": "all pairs of registries", "why_tests_cant": "all registries", "anchors": ["typelib/registry.cc: Registry::isSame"]}
{"id": "C32", "title": "Resizing types keeps compound layouts consistent", "statement": "After resize(map), every compound has each field shifted by the total growth of the preceding fields, its own size grown by the total growth of its fields, fields that did not overlap still do not overlap, arrays have size dimension * element size, and each type is resized once.", "quantifier": "all compounds and size changes", "why_tests_cant": "unbounded nesting and repeated field types", "anchors": ["typelib/registry.cc: Registry::resize", "typelib/typemodel.cc: do_resize"]}
{"id": "C33", "title": "Exports list every persistent type once, after its dependencies", "statement": "Exporter::save hands every persistent entry of the registry to the exporter exactly once, never before a persistent entry it depends on, aliases after their target; it terminates on every registry and fails exactly when a dependency cycle (or a dependency outside the registry) exists.", "quantifier": "all registries", "why_tests_cant": "all graphs, all orders", "anchors": ["typelib/exporter.cc: Exporter::save"]}
{"id": "C34", "title": "Metadata merging is a set union per key", "statement": "MetaData behaves as a map from keys to sets: set replaces, add inserts, merge is a per-key union: it is idempotent, commutative, associative and never loses values.", "quantifier": "all metadata maps and operation sequences", "why_tests_cant": "unbounded histories", "anchors": ["typelib/typemodel.cc: MetaData"]}
{"id": "C35", "title": "Enum symbols are a function to values and lookups invert it", "statement": "After any sequence of accepted add calls get(name) returns the first value given for that name, a conflicting add fails without changing any symbol, get(value) returns a symbol holding that value, and automatic values continue from the last one added.", "quantifier": "all histories of add", "why_tests_cant": "unbounded", "anchors": ["typelib/typemodel.cc: Enum::add, Enum::get, getNextValue"]}
{"id": "C36", "title": "A compound is always large enough for its fields", "statement": "For every sequence of addField calls the size of a compound is at least offset+size of each field (and equals the largest if never set), trailing padding is size minus the largest end, and sorting fields only permutes them.", "quantifier": "all sequences of fields", "why_tests_cant": "unbounded", "anchors": ["typelib/typemodel.cc: Compound::addField, getTrailingPadding, normalizeFieldOrder, getField"]}
{"id": "C37", "title": "Array and pointer names are parsed back to what built them", "statement": "For every element name without modifiers and every list of array/pointer modifiers, building the type with TypeBuilder from its name yields the same modifiers applied in the same order, the resulting name is the requested one, and the size is the product of dimensions and element size.", "quantifier": "all modifier lists and dimensions", "why_tests_cant": "unbounded", "anchors": ["typelib/typebuilder.cc: TypeBuilder::build, parse, addArrayMajor, addPointer"]}
{"id": "C38", "title": "The TLB export can be read back", "statement": "Exporting a type definition to XML and reading it back gives the same name, size, category, fields with offsets, symbol values, dimension and element for every type; text content survives escaping.", "quantifier": "all types and strings", "why_tests_cant": "all strings/types", "anchors": ["lang/tlb/export.cc", "lang/tlb/import.cc"]}
{"id": "C39", "title": "CSV header and CSV lines have the same columns", "statement": "For every type without containers and opaque types whose header and line can be produced, the i-th title of the CSV header and the i-th cell of a CSV line are those of the same numeric or enum part of the value, and both list all of them once; cutting the text at a separator that occurs in no column gives the columns back. (Containers and opaque types give different numbers of columns: C39_container_counterexample, C39_opaque_counterexample.)", "quantifier": "all types, values and separators", "why_tests_cant": "unbounded nesting", "anchors": ["typelib/csvoutput.cc"]}
{"id": "C40", "title": "IDL modules are opened and closed in balance", "statement": "For every sequence of namespaces visited by the IDL exporter the opened and closed modules balance, and each definition is written inside exactly the modules of its namespace.", "quantifier": "all sequences of namespaces", "why_tests_cant": "unbounded sequences", "anchors": ["lang/idl/export.cc: adaptNamespace, closeNamespaces"]}
{"id": "C41", "title": "Singletons are created on first use and destroyed after the last", "statement": "For every sequence of attach/detach the shared instance exists exactly while the reference count is positive, one instance at a time.", "quantifier": "all attach/detach histories", "why_tests_cant": "unbounded histories", "anchors": ["utilmm/singleton"]}
{"id": "C42", "title": "Visiting a value touches each leaf exactly once inside the value", "statement": "A generic value visitor that never asks to stop is called on every leaf of the value (through fields, array elements, container elements and pointers) exactly once, in the order of the definitions, at the address field offset + element index * size; leaves lie within the value (or the buffer of the container) and do not share memory if the definitions fit and do not overlap; the visit completes if nothing reachable is a null pointer, null type, or unsupported number; value_get_field gives the first field of that name.", "quantifier": "all types and values", "why_tests_cant": "unbounded nesting", "anchors": ["typelib/value.cc: ValueVisitor::dispatch", "typelib/value.hh"]}
{"id": "C43", "title": "Configuration sets keep every value and child", "statement": "utilmm::config_set behaves as a multimap: set replaces all values of a key, insert adds one, children are preserved in order, lookups return what was stored.", "quantifier": "all histories", "why_tests_cant": "unbounded", "anchors": ["utilmm/configset.cc"]}
{"id": "C44", "title": "The Ruby memory table never frees a buffer that is still referenced", "statement": "For every sequence of wrap, ref, unref and invalidation calls a buffer is freed only when its reference count reaches zero, and exactly once.", "quantifier": "all histories", "why_tests_cant": "unbounded", "anchors": ["bindings/ruby/ext/memory.cc"]}
{"id": "C45", "title": "Converting type names between C++ and typelib notation is reversible", "statement": "typelibToCxxName(cxxToTypelibName(n)) = n for every C++ qualified name without spaces anomalies, and the reverse.", "quantifier": "all names", "why_tests_cant": "all strings", "anchors": ["tools/typelib-clang-tlb-importer/NamingConversions.cpp"]}
{"id": "C46", "title": "Loading replaces whatever the destination held", "statement": "For every valid value v of a type and every valid destination of the type, whatever its containers hold, load(dump(v)) into the destination succeeds and makes it equal to v.", "quantifier": "all types, all values, all destination contents", "why_tests_cant": "the destination's history (contents and capacities of its containers) is unbounded", "anchors": ["typelib/value_ops.cc: ValueOps::load", "lang/csupport/containers.cc: Vector::load, Vector::resize, String::load"]}
{"id": "C47", "title": "Persistence and source of registry entries", "statement": "A new type is stored with the persistence flag and source given, or, without a flag, as persistent exactly when it is neither an array nor a pointer; a new alias likewise (persistent by default). Aliases propagated to arrays, pointers and vectors are not persistent and have no source. No operation changes the persistence of an entry, and only setSourceID changes a source, that of the entry under the type's own name; the other operations only add or drop entries.", "quantifier": "all heaps, all reachable registries, all sequences of operations", "why_tests_cant": "the entries depend on the whole history of additions, aliases and removals", "anchors": ["typelib/registry.cc: Registry::add, Registry::alias, Registry::isPersistent, Registry::setSourceID", "typelib/registryiterator.hh: isPersistent, getSource"]}
{"id": "C48", "title": "IDL definitions describe the types", "statement": "Whatever was exported before: a compound whose fields have an IDL equivalent is written as a structure with one declaration per field, in order, with the IDL type of the field (numbers by category and size, user types by their scoped name, one-dimensional arrays with their dimension, vectors by the name of their sequence typedef); enumerations list all their symbols; vectors become a sequence typedef whose name is reserved; numbers and strings need no definition; null types, pointers, opaques (unless mapped to any), arrays of arrays and whatever contains them are refused with an exception. An alias becomes a typedef of its type in its own namespace; one that has the name reserved by another type is refused. The names of structures, enumerations and sequences are identifiers, however templates are nested.", "quantifier": "all types, options, histories of save calls", "why_tests_cant": "types nest without bound and the reserved names depend on the whole history", "anchors": ["lang/idl/export.cc: IDLTypeIdentifierVisitor, IDLExportVisitor, IDLExport::save, checkType"]}
{"id": "C49", "title": "value_cast gives the value of numbers of exactly the right type", "statement": "value_cast<T> of a number gives what is stored when the type is the one T normalises to (category and size), and throws BadValueCast for every other T. Whatever the type of the value, a result is always what is stored in a number of the type of T that is part of the value; if the value has no such number the cast is refused.", "quantifier": "all types, values, memories, C++ arithmetic types", "why_tests_cant": "types nest without bound, and the result depends on the order of the visit", "anchors": ["typelib/value_cast.hh: value_cast, CastingVisitor", "typelib/normalized_numerics.hh: normalized_numeric_type"]}
{"id": "C50", "title": "The standard C++ types", "statement": "addStandardTypes on any registry that knows none of the standard names succeeds, whatever else it holds: each registered spelling of a C++ integer type then denotes a number with the signedness and size this type has in C++, an alias of the sized integer (/int32_t, ...); char, wchar_t, bool, float, double, nil, void are there; /std/string is a string of /int8_t unless there was one; no other name and no existing type changes. A second call changes nothing. If one of the names is already taken the call throws AlreadyDefined.", "quantifier": "all reachable registries, all ABIs (sizes and signedness of the C++ types)", "why_tests_cant": "ranges over all registries and ABIs; the tests run on one ABI from an empty registry", "anchors": ["lang/csupport/standard_types.cc: addStandardTypes, CXX::addStandardTypes"]}
{"id": "C51", "title": "Sources of merged types", "statement": "After a.merge(b) succeeds, every name a had keeps its type and its persistence flag, and aliases keep their source. The entry under a type's own name has the source it had in a, or, if it had none, the one it has in b (none if b gives none). A new alias has the source it has in b, or none if it was made by propagation. copySourceIDs alone does the same and changes no name.", "quantifier": "all pairs of registries", "why_tests_cant": "the entries of both registries depend on their whole histories", "anchors": ["typelib/registry.cc: Registry::copySourceIDs, Registry::merge, Registry::setSourceID"]}
{"id": "C52", "title": "Ruby integers and symbols are converted exactly", "statement": "Reading a C integer of 1, 2, 4 or 8 bytes from Ruby gives the stored number (except unsigned 32-bit numbers from 2^31 on, which are read 2^32 too small). Assigning an Integer stores it and changes no byte out of the number; every number of the type below 2^63 can be assigned and is then what is stored; an Integer that does not fit the C type the assignment goes through (int, unsigned int, long long) is a RangeError and changes nothing; any other one keeps its low bytes. Anything but an Integer is a TypeError and changes nothing. Assigning a symbol, string or declared value to an enum stores the value declared for it (in 4 bytes); anything else raises and changes nothing; reading an enum gives a symbol declared for the stored value, or nil if there is none.", "quantifier": "all integers, all sizes and signs, all enumerations, all memories", "why_tests_cant": "the integers, the declarations of enums and the memory around the value are unbounded; the tests check a few values", "anchors": ["bindings/ruby/ext/convert.cc: RubyGetter, RubySetter, typelib_to_ruby, typelib_from_ruby", "bindings/ruby/ext/specialized_types.cc: enum_value_of, enum_name_of"]}
{"id": "C53", "title": "Ruby strings and char arrays", "statement": "to_string of a char array gives its bytes up to the first NUL, or all of them. from_string on an array of n > 0 characters accepts exactly the strings without NUL and of less than n bytes; the array then holds the string followed only by NULs, nothing else is changed and to_string gives it back; otherwise ArgumentError and nothing is changed. Assigning a string to a field that is a char array stores the part before its first NUL, if it fits with its terminator, and changes nothing after the terminator; otherwise TypeError and nothing is changed.", "quantifier": "all strings, dimensions, memories", "why_tests_cant": "ranges over all contents of the array and of the string, and the memory around it", "anchors": ["bindings/ruby/ext/strings.cc: value_to_string, value_from_string, string_buffer_get", "bindings/ruby/ext/convert.cc: RubySetter::visit_(Value const&, Array const&)"]}
{"id": "C54", "title": "Access to the elements of arrays from Ruby", "statement": "On an array with at least one element: do_get(i) gives element i if i is an index and raises otherwise; do_get(i, n) with n not negative gives the n elements from i if they are all in the array and raises otherwise; with any arguments, what is given is always made of elements of the array; do_each gives all elements in order. raw_get(i) gives element i for any index and raises beyond the last one, after any history of accesses, and always the same object for the same index.", "quantifier": "all arrays, indexes, lengths, histories of accesses", "why_tests_cant": "the history of accesses and the arguments are unbounded", "anchors": ["bindings/ruby/ext/specialized_types.cc: array_get, array_element, array_each", "bindings/ruby/lib/typelib/array_type.rb: ArrayType#raw_get, ArrayType#[]"]}
{"id": "C55", "title": "Ruby objects for parts of a value never dangle", "statement": "After any history of accesses to parts and of protected operations on containers (push, insert, erase, clear, deep changes under handle_invalidation), whatever the C++ side reallocates inside the value it works on: every Ruby object that was not invalidated points to the part of the value it was made for, no memory is read through an object that points elsewhere, an access gives an object for the part asked if there is one and an exception otherwise, and an operation invalidates exactly the objects inside the elements of a vector whose buffer moved or that lost them.", "quantifier": "all types, all histories of operations, all reallocations", "why_tests_cant": "ranges over all nestings of containers and all histories of accesses and reallocations", "anchors": ["bindings/ruby/lib/typelib/container_type.rb: handle_invalidation, handle_container_invalidation, invalidate_children", "bindings/ruby/lib/typelib/type.rb: handle_invalidation, invalidate_changes_from_converted_types", "bindings/ruby/lib/typelib/accessor.rb", "bindings/ruby/ext/specialized_types.cc: container_contained_memory_id"]}
{"id": "C56", "title": "Plugins are found by name, in the order of the search path", "statement": "importer(name) and exporter(name) give the first plugin of that kind that was added under the name, and throw PluginNotFound if there is none; add returns true exactly if the name was free for that kind. registerPluginTypes runs the type definition plugins in the order of their addition, on the same registry, up to the first exception. If TYPELIB_PLUGIN_PATH is set, the plugins of the directories between its colons are loaded in order, and the constructor throws if one of them (an empty one included) is not a directory; otherwise those of the compiled-in directory are, if it exists. If no plugin is added twice, the destructor deletes each accepted plugin exactly once.", "quantifier": "all sequences of additions, all values of the variable, all file systems", "why_tests_cant": "the sequences of additions and the search paths are unbounded", "anchors": ["typelib/pluginmanager.cc: PluginManager::PluginManager, add, importer, exporter, registerPluginTypes, loadPluginFromDirectory, loadPlugin, ~PluginManager"]}
{"id": "C57", "title": "Layouts of registered types are those of their definitions, and recursive types have none", "statement": "layout_of ends for every type that does not contain itself (pointers do not count), however the types are connected, and what it gives is determined by the definition of the type with the definitions of its parts put in their places. A type that contains itself, through fields, arrays or containers, never gets a layout. A vector type can be created on every element type that does not contain itself; it keeps the element layout, or none if the elements have none. The element layout which a vector type keeps from its creation is the current one as long as no part of the element type was changed.", "quantifier": "all graphs of types, all types in them, all options of layout_of", "why_tests_cant": "type graphs are unbounded and may be cyclic", "anchors": ["typelib/memory_layout.cc: MemLayout::Visitor", "typelib/memory_layout.hh: layout_of", "lang/csupport/containers.cc: Vector::Vector, Vector::getElementLayout"]}
{"id": "C58", "title": "Enumerating a registry gives every name once, in order", "statement": "each(prefix) gives every registered type whose own name starts with the prefix exactly once, in the order of names, and nothing else; with aliases it gives every name that starts with the prefix, with its type. Without prefix (or with an empty one) it gives everything. It never reads past the end. size is the number of names, aliases included.", "quantifier": "all reachable registries, all prefixes", "why_tests_cant": "ranges over all sets of names; relies on the order of names keeping the names with a common prefix together", "anchors": ["typelib/registry.cc: Registry::begin, Registry::end, Registry::size", "typelib/registryiterator.hh: RegistryIterator", "bindings/ruby/ext/registry.cc: registry_each_type, yield_types"]}
{"id": "C59", "title": "Type objects are deleted exactly once", "statement": "The destructor of a registry (and clear) deletes each registered type exactly once, however many names it has. In Ruby, after any history of calls, removals included, freeing a registry deletes each type that is registered and each type that was taken out by remove exactly once, and nothing else; a type that was taken out is not registered any more. A type is shown to Ruby as the same class each time, and different types as different classes.", "quantifier": "all histories of calls", "why_tests_cant": "the histories of additions, aliases, removals and accesses are unbounded", "anchors": ["typelib/registry.cc: Registry::clear, Registry::remove", "bindings/ruby/ext/registry.cc: registry_free, registry_remove", "bindings/ruby/ext/value.cc: cxx2rb::type_wrap"]}
{"id": "C60", "title": "C++ names are translated by the Ruby loader without loss", "statement": "For every C++ type name built from identifiers, namespaces, templates and classes inside templates, to any depth, however white space is placed around the brackets and commas and whether or not the names start with ::, the Ruby loader gives the one absolute typelib name; typelib_to_cxx translates it back to the C++ name, translating a typelib name changes nothing, and different names stay different. parse_template gives the path and the arguments of a template; split_first_namespace and split_last_namespace cut at the first and last separator which is not inside a template. For names as clang prints them the loader and the clang importer agree.", "quantifier": "all type names, of any depth", "why_tests_cant": "type names are unbounded and nested, with white space anywhere", "anchors": ["bindings/ruby/lib/typelib/cxx.rb: parse_template, collect_template_arguments, template_tokenizer", "bindings/ruby/lib/typelib/gccxml.rb: cxx_to_typelib, typelib_to_cxx, split_first_namespace, split_last_namespace"]}
{"id": "C61", "title": "Types defined from Ruby are the ones that were described", "statement": "create_compound registers a compound with the fields as they were added, each at the offset it was given or else at the end of the field before, and with the given size or else the end of its furthest field; fields without offsets follow each other without gaps or overlaps. create_enum gives each symbol the value it was given, or one more than the symbol before. The definition succeeds exactly if the name is valid and free, all numbers fit in an int and an enum has a symbol; nothing else in the registry changes. Otherwise, a Ruby exception is raised and the registry is unchanged. The same holds for numeric, opaque and null types; alias gives a type the new name or raises a Ruby exception.", "quantifier": "all reachable registries, all lists of fields and symbols", "why_tests_cant": "the lists of fields and symbols and the registries are unbounded", "anchors": ["bindings/ruby/lib/typelib/registry.rb: CompoundBuilder, EnumBuilder, create_compound, create_enum, create_numeric", "bindings/ruby/ext/registry.cc: registry_create_compound, registry_create_enum, registry_create_opaque, registry_create_null, registry_do_create_numeric, registry_alias"]}
{"id": "C62", "title": "Options given from Ruby reach the plugins", "statement": "The configuration which an import or export plugin gets says exactly what the Ruby options hash says: for each name the values that were given, in their order, and for an array of hashes one set of options per hash, in their order, at all levels; it has nothing else.", "quantifier": "all options hashes, nested to any depth", "why_tests_cant": "options are unbounded and nested", "anchors": ["bindings/ruby/lib/typelib/registry.rb: format_options, import, export", "bindings/ruby/ext/registry.cc: setup_configset_from_option_array", "typelib/utilmm/configset.cc: config_set::insert, config_set::set, config_set::get, config_set::children"]}
{"id": "C63", "title": "Accessors find every part of a wanted type", "statement": "An accessor built by Accessor.find_in_type gives, for every value of the type, exactly the parts (the value itself included) whose type the block accepts: through fields, arrays and containers of any depth and length, each object once, the outer ones before the inner ones. It can be built for every type. Following the sum of two paths is following the first and then the second.", "quantifier": "all types, all predicates on types, all values", "why_tests_cant": "types and values are nested without bound and containers have any length", "anchors": ["bindings/ruby/lib/typelib/accessor.rb: Accessor.find_in_type, traverse_and_find_in_type, Accessor#each", "bindings/ruby/lib/typelib/path.rb: Path#resolve, Path#+", "bindings/ruby/lib/typelib/compound_type.rb: raw_get"]}
{"id": "C64", "title": "Recursive dependencies are the types needed to define a type", "statement": "Type.recursive_dependencies gives exactly the types that are needed to define a type, directly or not, whatever calls were made before on this or other types; it ends for every type, recursive types included.", "quantifier": "all graphs of types, all orders of the dependencies, all histories of calls", "why_tests_cant": "type graphs are unbounded and may be cyclic; results are remembered, so they depend on the history of calls", "anchors": ["bindings/ruby/lib/typelib/type.rb: Type.recursive_dependencies, Type.direct_dependencies, Type.contains?", "bindings/ruby/ext/value.cc: type_dependencies"]}
{"id": "C65", "title": "Values built from bytes by the Ruby bindings", "statement": "ContainerType.of_size(n, element) is a container of n elements equal to the element; a Ruby string converted to /std/string and back is the same string; the data of a packed array or container of numbers, read with its pack code, gives the elements.", "quantifier": "all element types and values, all n, all strings, all arrays of numbers", "why_tests_cant": "element types, values and sizes are unbounded; the claims depend on padding and on multi-byte characters", "anchors": ["bindings/ruby/lib/typelib/container_type.rb: ContainerType.of_size, to_simple_value", "bindings/ruby/lib/typelib/standard_convertions.rb: convert_from_ruby String, convert_to_ruby '/std/string'", "bindings/ruby/lib/typelib/array_type.rb: to_simple_value", "bindings/ruby/lib/typelib/numeric_type.rb: NumericType.pack_code", "bindings/ruby/ext/value.cc: value_do_from_buffer, value_do_byte_array"]}
{"id": "C66", "title": "The clang importer describes the types of the program", "statement": "After any import of declarations, each type registered under the name of a C++ type describes this C++ type: numbers of the same size and sign, enums with the same values and size, arrays, vectors and strings of what their elements are, compounds with the data members of the class and of its bases, at their offsets, and with the size of the class. Typedefs are other names of the same type. Types that were there are not changed. Each declared type that can be described (numbers, accessible enums, arrays, vectors, strings, classes with no virtual methods whose members are accessible and can be described) is registered under its name when the import ends, and the import ends.", "quantifier": "all programs (declarations, inheritance, nesting, typedefs), all lists of declarations, all registries the import starts with, all points where it stops", "why_tests_cant": "programs are unbounded, the importer recurses through declarations, and the names it registers interact through automatic aliases", "anchors": ["tools/typelib-clang-tlb-importer/TypelibBuilder.cpp: TypelibBuilder::registerType, registerBuiltIn, addRecord, addMembersOfClassToCompound, addEnum, addArray, registerTypedefNameDecl, registerTypeDecl, registerOpaque, checkRegisterContainer", "tools/typelib-clang-tlb-importer/IgnoredOrRenamedTypes.cpp: isTemplateArgumentIgnored, isTypeRenamed"]}
{"id": "C67", "title": "Changes made through converted fields are never lost", "statement": "When the fields of a compound are converted to Ruby objects, what is read from a field is what was last written to it, and the bytes, comparisons and copies of the value are those of what is read, whatever the order in which the compound and its parts are read, written, assigned, copied, duplicated and dumped.", "quantifier": "all nestings of compounds, all conversions, all sequences of operations on a value and its parts", "why_tests_cant": "the converted objects are remembered at each level and written back later: the result depends on the whole history of accesses", "anchors": ["bindings/ruby/lib/typelib/compound_type.rb: CustomConvertionsHandling, custom_convertion_module, get, set, raw_get, raw_set", "bindings/ruby/lib/typelib.rb: Typelib.to_ruby, Typelib.from_ruby, Typelib.copy, Typelib.compare", "bindings/ruby/lib/typelib/type.rb: Type#dup, Type#to_byte_array, Type#from_buffer"]}
{"id": "C68", "title": "Customizations declared for a type are those its values show", "statement": "A declaration (Typelib.specialize, specialize_model, convert_from_ruby, convert_to_ruby) applies to exactly the types its key designates (a name, a regexp, `kind<>` for the containers of a kind, `element[]` for the arrays of an element) and its :if condition accepts. The Ruby class of a type shows the declarations that apply to it and were made before the first use of the type or of a type that contains it, whatever was used or declared before or after: the modules in order of precedence, the first declared conversion to Ruby, the last declared conversion from each Ruby class. A type is converted as a whole iff a conversion was declared for it or for one of its parts. Classes never change, exist exactly for the types used and their parts, and can be made for every type that does not contain itself through containers.", "quantifier": "all type graphs, all sequences of declarations (with any conditions and regexps) and uses of types", "why_tests_cant": "the class of a type depends on the order of all declarations and uses and on the whole graph below the type", "anchors": ["bindings/ruby/lib/typelib/specializations.rb: RubyMappingCustomization, Typelib.specialize, specialize_model, convert_from_ruby, convert_to_ruby", "bindings/ruby/lib/typelib/type.rb: Type.subclass_initialize, convert_to_ruby, convert_from_ruby, needs_convertion_to_ruby?", "bindings/ruby/lib/typelib/array_type.rb: ArrayType.extend_for_custom_convertions", "bindings/ruby/lib/typelib/container_type.rb: ContainerType.extend_for_custom_convertions", "bindings/ruby/lib/typelib/compound_type.rb: CompoundType.subclass_initialize", "bindings/ruby/lib/typelib/numeric_type.rb: NumericType.subclass_initialize", "bindings/ruby/ext/value.cc: cxx2rb::type_wrap"]}
{"id": "C69", "title": "Values survive the trip through plain Ruby objects", "statement": "to_simple_value turns every value of a type without pointers and opaques into plain Ruby objects (numbers, strings, arrays, hashes), and Typelib.from_ruby turns these back into an equal value. Whatever object it is given, what from_ruby returns is a valid value of the type; a compound made from a hash has the values of the hash in the fields it names, an unknown key is an error. to_json_value is the same with NaN and infinities replaced by nil, and contains none.", "quantifier": "all types (numbers, enums, strings, arrays, containers, compounds, at any depth), all values, all Ruby objects", "why_tests_cant": "types and values nest without bound; the corner cases (ranges, encodings, undeclared enum values, unset fields) are spread over five conversion routines that call each other", "anchors": ["bindings/ruby/lib/typelib.rb: Typelib.from_ruby", "bindings/ruby/lib/typelib/type.rb: Type#to_simple_value, to_json_value", "bindings/ruby/lib/typelib/numeric_type.rb: NumericType.from_ruby, to_simple_value", "bindings/ruby/lib/typelib/enum_type.rb: EnumType.from_ruby, to_simple_value", "bindings/ruby/lib/typelib/array_type.rb: ArrayType.subclass_initialize, []=, to_simple_value", "bindings/ruby/lib/typelib/container_type.rb: ContainerType.subclass_initialize, concat, to_simple_value", "bindings/ruby/lib/typelib/compound_type.rb: set_hash, set_array, set, to_simple_value", "bindings/ruby/lib/typelib/standard_convertions.rb", "bindings/ruby/ext/specialized_types.cc: container_element, container_do_push, rb2cxx::enum_value", "bindings/ruby/ext/convert.cc: RubyGetter, RubySetter"]}
{"id": "C70", "title": "Types of a registry are found by their path in Ruby", "statement": "When a registry is exported to a Ruby module Types, Types.x1.\u2026.xn (with template arguments as method arguments) is the type named /x1/\u2026/xn, as the class it is converted to, if the registry has one; a namespace if there are only types under this name; an exception otherwise. This does not depend on what was looked up before, from which objects, nor on when types were added. Types::M looks for M as it is, then in snake case, then in camel case.", "quantifier": "all registries and their growth, all sequences of exports and lookups on any objects, all paths", "why_tests_cant": "lookups change the objects they go through (prefixes, caches, a regexp built once per process): the answer may depend on the whole history", "anchors": ["bindings/ruby/lib/typelib/registry.rb: Registry#export_to_ruby", "bindings/ruby/lib/typelib/registry_export.rb: RegistryExport.find_type, find_namespace, each_candidate_name, setup_export_type, resolve_call_from_exported_registry, method_missing, const_missing, Namespace"]}
{"id": "C71", "title": "The gccxml importer describes the types of the program", "statement": "After any import through gccxml, whatever its outcome, each registered name denotes a C++ type of the program and the type registered describes it: numbers of the same size and sign, enums with the same values and size, arrays, pointers, vectors and strings of what their elements are, compounds with the data members of the class and of its bases, all public, in order, at their offsets, and with the size of the class. Typedefs, qualified names and the long names of containers are other names of the same type. Types that were there are not changed. If the import ends without an exception, each type asked for is registered under its name, unless there is a reason not to import it (it is unnamed, reserved, not accessible, not defined, has virtual methods, hidden members, no data, a base class or a member or an element that is not imported), and so are all opaque types. The import always ends: the depth of its recursion is bounded by the number of nodes and the depth of the types.", "quantifier": "all programs (any graph of XML nodes: inheritance, nesting, typedefs, templates), all lists of nodes asked for and of opaque types, all registries the import starts with, all points where it stops", "why_tests_cant": "programs are unbounded, the importer recurses through the nodes and remembers names, ignored nodes and empty classes across them; the names it registers interact through automatic aliases", "anchors": ["bindings/ruby/lib/typelib/gccxml.rb: GCCXMLLoader#load, resolve_type_definition, resolve_type_id, normalize_type_name, resolve_qualified_type, resolve_opaques, resolve_std_string, ignore", "bindings/ruby/lib/typelib/registry.rb: create_compound, create_enum, create_array, create_container, create_opaque", "bindings/ruby/lib/typelib/compound_type.rb: offset_of, each_field, empty?"]}
{"id": "C72", "title": "Copies, comparisons and casts work between types that can be cast", "statement": "In the Ruby bindings, `Typelib.copy(to, from)`, `a == b` / `Typelib.compare`, `value.cast(type)` and `value.dup` accept two values whenever the source type `casts_to?` the other one, also if they come from different registries and differ in the padding at the end of structures. A copy makes the target hold the contents of the source, in its own type, and changes no other memory; after it the values compare equal. A comparison is true exactly if both hold the same data and container elements, so it is symmetric and transitive. A cast gives a value of the target type on the same memory with the same contents. `dup` gives independent memory with equal contents. Between types that cannot be cast (or with invalidated values) the operation is refused and nothing changes.", "quantifier": "all pairs of registered types (any nesting of structures, arrays, containers, different trailing padding), all values of these types, all memory contents, both orders of the arguments", "why_tests_cant": "whether a copy through the layout of the other type stays inside the target depends on every combination of nested padding and containers; tests cast between two hand-written structures", "anchors": ["bindings/ruby/lib/typelib.rb: Typelib.copy, Typelib.compare", "bindings/ruby/lib/typelib/type.rb: Type#cast, Type#dup, Type#==", "bindings/ruby/ext/value.cc: typelib_do_copy, typelib_compare, value_do_cast, type_can_cast_to, value_memory_eql_p", "typelib/value_ops.cc: copy, compare", "typelib/typemodel.cc: Type::canCastTo"]}
{"id": "C73", "title": "Ruby containers behave like arrays", "statement": "In the Ruby bindings a container behaves like a Ruby array of its elements: size, empty?, [], [i, n], raw_get, []=, push/<</concat, erase, delete_if, clear and each give the results, and leave the contents, that the same calls give and leave on an array, whatever calls were made before, whether arguments come from elsewhere or are elements of the container itself, whether the buffer is moved, and whether exceptions are raised on the way. Indexes out of bounds are refused and change nothing. Elements that are numbers or symbols are given as such, the others as objects. each may be given a block that works on the container.", "quantifier": "all element types, all contents and capacities, all sequences of calls with any arguments (other values, own elements, values of wrong types), all blocks of each that remove nothing", "why_tests_cant": "whether a call reads freed memory depends on the capacity that the history of the container has left; objects for elements are remembered across calls", "anchors": ["bindings/ruby/lib/typelib/container_type.rb: RandomAccessContainer, ContainerType#concat, push, erase, delete_if, clear, handle_container_invalidation", "bindings/ruby/ext/specialized_types.cc: container_length, container_element, container_do_push, container_do_set, container_do_get, container_erase, container_delete_if", "lang/csupport/containers.cc: Vector::push, Vector::setElement, Vector::getElement, Vector::erase, String::push, String::erase, String::delete_if_impl"]}
{"id": "C74", "title": "Loading C++ headers with several threads", "statement": "GCCXMLLoader.load with parallel_level > 1: when it returns, every required file has been given to the tool (castxml/gccxml) exactly once, each document converted exactly once, and exactly the resulting registries have been merged into the caller's registry, each successfully. If a tool or a conversion raises, load raises one of the exceptions raised, with the caller's registry untouched. load never deadlocks and makes a bounded number of steps. Never more than parallel_level tools run at a time, nor more than the job server has tokens (plus the caller's own); all tokens are given back. The threads load has started end, and a failing load leaves the registry as it was.", "quantifier": "all interleavings of the calling thread, the parsing threads and the registry thread, all numbers of files and threads, all outcomes of tools, conversions and merges, all token pools and other users of them", "why_tests_cant": "the interleavings are unbounded and the tests run load with one thread only", "anchors": ["bindings/ruby/lib/typelib/gccxml.rb: GCCXMLLoader.load, parsing_thread, registry_thread, registry_from_gccxml_output, NullJobServer"]}
{"id": "C75", "title": "Dumping into files and streams, and reading several values back", "statement": "Dumping a value into a file descriptor, a FILE*, a std::ostream or any OutputStream hands the stream exactly the bytes that dumping into a vector gives, in order, for every value of every type; when the operating system fails or takes only a part of a write, the caller learns about it and the file holds a beginning of these bytes. Loading from an InputStream consumes exactly the bytes of one value, so that values of any types dumped one after the other are loaded back one after the other, whatever was in the file before and whatever follows, also when the last dump was interrupted at any write.", "quantifier": "every type with a layout, every value of it, every behaviour of the operating system at every write (error, short write), every stream class, every sequence of values and every crash point", "why_tests_cant": "a test writes to a working disk; which write fails or is short is up to the operating system, and the number of writes depends on the value", "anchors": ["typelib/value_ops.cc: OstreamOutputStream, FDOutputStream, FileOutputStream, dump(Value, OutputStream&), load(Value, InputStream&)", "typelib/value_ops.hh: OutputStream, InputStream"]}
{"id": "C76", "title": "The comment before a C++ declaration is its documentation", "statement": "When a header is loaded, the comment that precedes the declaration of a type or field becomes its documentation (metadata 'doc'), without the comment marks and the common indentation, whatever the comment style, the indentation, the blank lines and the rest of the file, and although the compiler may report the line of the opening brace; every '@meta key value' line of it adds the value to that metadata key and nothing else changes; a declaration without comment gets none; the search ends on every file and line number without an exception.", "quantifier": "every file, every position of the declaration, every text and comment style, every line number reported by the compiler", "why_tests_cant": "a test has a handful of headers; which lines are taken depends on everything around the declaration, up to the beginning and the end of the file", "anchors": ["bindings/ruby/lib/typelib/gccxml.rb: GCCXMLLoader#set_source_file, GCCXMLLoader.parse_cxx_documentation_before, GCCXMLLoader#extract_doc_metadata"]}
{"id": "C77", "title": "Loading C++ headers returns what the headers define, complete and with nothing else", "statement": "GCCXMLLoader.load returns a registry with every type the headers define (every type whose name is not one of the standard types the loader starts from) under its name and with its definition, together with all the types it is made of, directly or not, so that the result can be used alone; no other type is in it. Every typedef of the headers that names a returned type is in the result and designates this type, and every other name in the result comes from such a typedef, possibly through the array, pointer and vector types made of it. Computing the result never fails and changes no existing type.", "quantifier": "every registry of resolved types (any number of types, recursive ones included, any aliases), every set of initially known names, every set of typedef names", "why_tests_cant": "the result depends on the whole dependency graph and on the interaction of repeated merges of overlapping minimal registries with aliases; tests load a few headers", "anchors": ["bindings/ruby/lib/typelib/gccxml.rb: GCCXMLLoader#load (903-918), permanent_alias?, register_permanent_alias", "bindings/ruby/lib/typelib/type.rb: Type.minimal_registry", "bindings/ruby/ext/registry.cc: registry_includes_p, registry_minimal, registry_merge, registry_alias, registry_each_type", "typelib/registry.cc: Registry::minimal, Registry::merge, Registry::alias"]}
{"id": "C78", "title": "Metadata follow the types when registries are merged", "statement": "After a successful a.merge(b), the type of a that stands for a type of b, and each of its fields, hold all the metadata (keys and values) the type of b and its fields hold, besides what they held before; nothing else is added, metadata of b and of types that are not in a are left alone. The registry returned by minimal(name) has the metadata of the types it was made from in the same way. (The source_id key, written by the library itself, is apart.)", "quantifier": "all registries that can be merged, all metadata of their types and fields, all keys and values", "why_tests_cant": "metadata are merged name by name over the whole registry, after the types were copied by different constructors; a test sees a few documented types", "anchors": ["typelib/registry.cc: Registry::merge, mergeMetaData, copySourceIDs, minimal, setSourceID", "typelib/typemodel.cc: Type::mergeMetaData, Compound::mergeMetaData, Field::mergeMetaData, Compound::do_merge"]}
{"id": "C79", "title": "Metadata from Ruby", "statement": "On a Ruby MetaData object, after any history of add, set, []=, clear and delete: include?(k) tells whether k was added or set and not removed since; get(k) and [k] return the values given to k since then, sorted and without repetition; keys returns the keys sorted, each once; each yields every key once with its values. A call that is given something that is not a string raises TypeError and changes nothing.", "quantifier": "all histories of calls with any arguments, all keys", "why_tests_cant": "histories are unbounded; a test looks at a few calls", "anchors": ["bindings/ruby/ext/metadata.cc: metadata_add, metadata_clear, metadata_get, metadata_include_p, metadata_keys", "bindings/ruby/lib/typelib/metadata.rb: each, set, []="]}
{"id": "C80", "title": "What is displayed and dumped tells the types apart", "statement": "Displaying a type ends for every type that does not contain itself (pointers and containers are named, not followed), depends only on the type, and tells everything there is to tell: two types, of the same registry or of two, with the same text have the same names, numeric categories, sizes, symbols and values, dimensions, offsets and field names, in the same order and at every depth. A full dump of a registry lists, in order, each persistent entry of the chosen source either as such a type or as an alias with both names, so that two registries with the same dump hold the same types and aliases.", "quantifier": "all heaps of types (recursive through pointers or not), all types and registries, all source filters, all indentations, all names without blanks", "why_tests_cant": "injectivity of a text format ranges over pairs of arbitrarily nested types; comparing a few printed examples cannot exclude that two different types print alike", "anchors": ["typelib/typedisplay.cc: TypeDisplayVisitor", "typelib/typevisitor.cc: TypeVisitor::dispatch", "typelib/registry.cc: Registry::dump"]}
{"id": "C81", "title": "The options of an import reach the importers", "statement": "Registry#import(file, kind, **options) uses the importer of the given kind, or the one that belongs to the extension of the file, and raises if there is none. For C++ files the importer is the one given with the call, else the one that was set, else the one named in the environment, else castxml; an unknown importer is refused and no program is run. The chosen program is run on each required file, in order, with every define, include directory and raw flag of the options, each in the order given; if it fails on a file an ArgumentError is raised, no further file is processed and nothing is imported. Options that are not known have no influence. Preprocessing gets the same options.", "quantifier": "all option hashes, all files and kinds, all settings of the environment, all outcomes of the programs", "why_tests_cant": "options pass through five methods with different keyword parameters for each importer; a test tries one importer with one option", "anchors": ["bindings/ruby/lib/typelib/registry.rb: import, handler_for, guess_type", "bindings/ruby/lib/typelib/cxx.rb: CXX.load, CXX.loader, CXX.preprocess", "bindings/ruby/lib/typelib/gccxml.rb: GCCXMLLoader.load, parsing_thread, castxml, gccxml, preprocess, CastXMLLoader", "bindings/ruby/lib/typelib/clang.rb: CLangLoader.load, preprocess"]}
{"id": "C82", "title": "Memory layouts seen from Ruby describe the type", "statement": "Type.memory_layout(options) answers for every type that has a layout under the options (pointers and opaques refused unless accepted, padding merged and trailing padding dropped unless told otherwise) with two arrays of symbols, sizes and container classes. Reading the first one, each data byte and each container of the type is found at its offset, containers with the operations of their elements, and nothing outside the value; the second one gives each byte its initial value. The arrays tell everything: two types with the same arrays have the same layout. Types without a layout and unknown options give an ArgumentError. compatible_with_memcpy? is true exactly if one memcpy copies the values of the type; accepted pointers and opaques are skipped.", "quantifier": "all well-formed types (any nesting of structures, arrays, containers), all option hashes", "why_tests_cant": "a layout is produced from arbitrarily nested types; a test looks at the layout of one structure", "anchors": ["bindings/ruby/lib/typelib/type.rb: Type.memory_layout, validate_layout_options, compatible_with_memcpy?", "bindings/ruby/ext/value.cc: type_memory_layout, layout_to_ruby, init_layout_to_ruby", "typelib/memory_layout.hh: layout_of"]}
{"id": "C83", "title": "Type.to_h describes types", "statement": "Type.to_h(recursive:, layout_info:) answers for every type with a hash of simple values that holds the name and class of the type and what its class documents: integer and unsigned flags and size of numeric types, the symbols of enumerations in order, the length and element of arrays, the element of containers, the fields of compounds in order, sizes and offsets exactly if layout info was asked for; elements and fields are described fully if the description is recursive, else by name, class and size. With both options the hash tells everything: two types have equal hashes exactly if their definitions agree at every depth. The description ends for every type.", "quantifier": "all types of all registries, both options, pairs of types of two registries", "why_tests_cant": "types nest arbitrarily and refer to each other; tests look at a few definitions", "anchors": ["bindings/ruby/lib/typelib/type.rb: Type.to_h, to_h_minimal", "bindings/ruby/lib/typelib/compound_type.rb: CompoundType.to_h, offset_of", "bindings/ruby/lib/typelib/array_type.rb: ArrayType.to_h", "bindings/ruby/lib/typelib/container_type.rb: ContainerType.to_h", "bindings/ruby/lib/typelib/enum_type.rb: EnumType.to_h", "bindings/ruby/lib/typelib/numeric_type.rb: NumericType.to_h"]}
{"id": "C84", "title": "The importers record where types come from, their documentation and base classes", "statement": "The clang-based importer adds to each type exactly the file and line of its declaration (symbolic links resolved), the documentation in the comment before it with nothing lost and paragraphs kept apart, its C++ name, and for compounds and opaques the direct base classes; metadata that was there stays. The gccxml importer notes the file and the line the definition starts at, going back over empty lines from the brace it is told. The loader reads file and line back from what was noted.", "quantifier": "all declarations, comments of any structure, all files and lines, all symbolic links, all previous metadata", "why_tests_cant": "comments nest blocks and inline parts arbitrarily; files have any layout before a definition", "anchors": ["tools/typelib-clang-tlb-importer/HandleMetaData.cpp: do_readlink, setMetaDataSourceFileLine, setMetaDataBaseClasses, setMetaDataDoc, setMetaDataCxxname", "tools/typelib-clang-tlb-importer/TypelibBuilder.cpp: registerContainer, registerOpaque, addEnum, addRecord", "bindings/ruby/lib/typelib/gccxml.rb: set_source_file, load"]}
{"id": "C85", "title": "Symbols of an enumeration as Ruby sees them", "statement": "In every history of calls of keys, to_h, value_of and name_of on the class of an enumeration type, of symbols added to the type, and of changes a program makes to hashes it was given: value_of(name) is the value of the first symbol added with that name and raises ArgumentError for unknown names and TypeError for what is no string; name_of(value) is the alphabetically first name with that value and raises ArgumentError for unknown values, RangeError for what is no int and TypeError for what is no number; keys and to_h give exactly the symbols with their values, each once, in alphabetical order; keys[name] agrees with value_of(name), and value_of(name_of(value)) is value.", "quantifier": "all histories of additions, calls and changes of returned hashes; all names, values and arguments", "why_tests_cant": "The class remembers the hash at the first call, so an answer depends on the whole history of additions, calls and changes to the returned object.", "anchors": ["bindings/ruby/ext/specialized_types.cc: enum_keys, enum_value_of, enum_name_of", "bindings/ruby/lib/typelib/enum_type.rb: to_h", "typelib/typemodel.cc: Enum::add, Enum::get, Enum::names"]}
{"id": "C86", "title": "Methods for the fields of a compound in Ruby", "statement": "For every set of field names, of which any are converted, and whatever methods objects and the library have: the class of a compound gives each field f the methods f, f=, raw_f and raw_f=, which access exactly this field (through the Ruby object if it is converted), or none of them if one would replace a method the library needs; all methods the library needs keep their meaning; a method that accesses a field always has the name of that field.", "quantifier": "all lists of field names, converted or not; all sets of methods of objects, of the library and of modules declared by the program", "why_tests_cant": "Collisions depend on combinations of field names, which no list of examples covers; the names come from C++ headers.", "anchors": ["bindings/ruby/lib/typelib.rb: filter_methods_that_should_not_be_defined", "bindings/ruby/lib/typelib/type.rb: ALLOWED_OVERLOADINGS, subclass_initialize", "bindings/ruby/lib/typelib/compound_type.rb: subclass_initialize, access_method_module, extend_for_custom_convertions, custom_convertion_module"]}
{"id": "C87", "title": "Marshalling from Ruby with options", "statement": "For every type, value and combination of layout options: to_byte_array gives the bytes of the value (its padding only with merge_skip_copy, the padding at its end only without remove_trailing_skips), from_buffer with the same options on any receiver gives back an equal value and changes nothing that was not marshalled, marshalling_size is the number of bytes, and an error (unknown option, type that cannot be marshalled, truncated buffer) is a Ruby exception.", "quantifier": "all types, values, option hashes, receivers and buffers", "why_tests_cant": "The layout depends on the combination of options and type; a test uses a few of them, nearly always the defaults.", "anchors": ["bindings/ruby/lib/typelib/type.rb: validate_layout_options, to_byte_array, from_buffer, from_buffer_direct", "bindings/ruby/ext/value.cc: value_do_byte_array, value_do_from_buffer, value_marshalling_size", "typelib/value_ops.cc: dump, load"]}
{"id": "C88", "title": "Parts of a type name in Ruby", "statement": "For every type name: split_typename gives its components, namespace and basename are the components but the last one and the last one, full_name is the name with the given separator (without the first one if asked for), different names have different full names, and full_name('::', true) is the C++ name of the type.", "quantifier": "all component lists, absolute names, C++ names with nested templates, and separators", "why_tests_cant": "Names nest to any depth in templates, and the slashes in them are separators too.", "anchors": ["bindings/ruby/lib/typelib.rb: Typelib.basename, Typelib.namespace", "bindings/ruby/lib/typelib/type.rb: namespace, basename, split_typename, full_name", "bindings/ruby/ext/value.cc: typelib_do_basename, typelib_do_namespace, typelib_do_split_name"]}
{"id": "C89", "title": "Equality of types in Ruby", "statement": "type == object ends for every two types of registries, recursive ones included, is true exactly if their definitions match, is reflexive and symmetric, and is false, without exception, for objects that are no types; casts_to? is weaker: compounds may differ in size, and an enum may have more symbols.", "quantifier": "all type graphs, and all pairs of Ruby objects: types of any registry, root classes of the library, Ruby classes derived from types, other classes, other objects", "why_tests_cant": "Type graphs can be cyclic and of any size, and == is called with any Ruby object.", "anchors": ["bindings/ruby/ext/value.cc: type_equal_operator, type_can_cast_to, type_wrap", "bindings/ruby/ext/typelib.hh: rb2cxx::object<Type>", "bindings/ruby/lib/typelib/type.rb: initialize_base_class", "bindings/ruby/lib/typelib.rb: root classes", "typelib/typemodel.cc: isSame, canCastTo"]}
{"id": "C90", "title": "Loading Ruby plugins", "statement": "Over every history of registry creations and forced calls, in environments that change and with plugins that raise: a call executes the plugins found in gems and in TYPELIB_RUBY_PLUGIN_PATH that were not loaded yet, in order and each once, until one raises; a plugin loaded without exception is never executed again, and one that raised is tried again by the next call.", "quantifier": "all histories of calls, forced or not, all sets of plugins and directories at each call, all plugins that raise", "why_tests_cant": "Which plugins are loaded depends on all earlier calls and on where in the list one of them raised.", "anchors": ["bindings/ruby/lib/typelib.rb: Typelib.load_typelib_plugins", "bindings/ruby/lib/typelib/registry.rb: Registry#initialize"]}
{"id": "C91", "title": "Resizing types from Ruby", "statement": "Registry#resize, given a hash from types or names to sizes, asks for exactly these sizes, gives every type of the registry the size asked for or the one that follows from it, shifts the fields of compounds accordingly and changes nothing else; a key or size that cannot be used raises an exception and leaves the registry as it was.", "quantifier": "all registries, all hashes: types, names and other objects as keys, integers of any size, floats and other objects as sizes", "why_tests_cant": "The conversion of the hash and the resizing of all dependent types interact, for any number of types.", "anchors": ["bindings/ruby/lib/typelib/registry.rb: resize, resize_type", "bindings/ruby/ext/registry.cc: registry_resize", "typelib/registry.cc: Registry::resize"]}
{"id": "C92", "title": "Adding a type of another registry", "statement": "registry.add(type) makes the type, everything it is made of and the aliases of these in the registry of the type known to the registry, with the same names and definitions; it adds nothing else, modifies no existing type and every name keeps its type; adding a type the registry has already changes nothing; and when it fails, nothing was added.", "quantifier": "all pairs of registries (the same one included), all their types, recursive ones included", "why_tests_cant": "The set of types to be copied is a transitive closure of any size, and each copied name can meet an existing type or alias.", "anchors": ["bindings/ruby/lib/typelib/registry.rb: add, minimal", "bindings/ruby/ext/registry.cc: registry_minimal, registry_merge", "typelib/registry.cc: Registry::minimal, Registry::merge"]}
