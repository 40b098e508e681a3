#!/usr/bin/env python3
"""Writes /verif/properties.jsonl (one JSON object per line)."""
import json, os
P = []
def p(id, title, statement, quantifier, why, anchors):
    P.append(dict(id=id, title=title, statement=statement, quantifier=quantifier,
                  why_tests_cant=why, anchors=anchors))

p("C01", "Registry iteration order is a strict total order that keeps namespaces contiguous",
  "The ordering used for every name-keyed map of a registry is a strict total order on all names, and for every namespace the names inside it (recursively) form one contiguous block of the iteration order.",
  "all pairs/triples of strings and all finite sets of names, for signed or unsigned char",
  "a comparator that is not transitive or total for some triple of names corrupts std::map silently; only sampled triples can be tested",
  ["typelib/registry.cc: Typelib::nameSort", "typelib/registry.hh: Registry::TypeMap"])
p("C02", "Importing a namespace makes exactly its members reachable by relative name",
  "After setDefaultNamespace(ns) on a registry, for every registered type whose full name is ns + rel, get(rel) returns a type, absolute lookups are unchanged, and every relative lookup that succeeds returns a type registered under that name in ns, in an enclosing namespace of ns or at the root, the deepest one winning.",
  "all registries, all valid namespaces, all names",
  "the scan starts at lower_bound and stops at the first name outside the namespace; correctness depends on every other name in the registry",
  ["typelib/registry.cc: Registry::importNamespace, updateCurrentNameMap, setDefaultNamespace, get"])
p("C03", "Splitting a type name and joining it back is the identity",
  "For every absolute name whose components are non-empty and template-balanced, getNamespace(n) + getTypename(n) = n, splitTypename returns the components, and template arguments are never split.",
  "all component lists of any length, including nested templates",
  "unbounded nesting and length",
  ["typelib/typename.cc: splitTypename, getNamespace, getTypename"])
p("C04", "Namespace membership and relative names agree",
  "isInNamespace(name, ns, recursive) holds exactly when name is normalized(ns) followed by something; in that case normalized(ns) + getRelativeName(name, ns) = name; non-recursive membership implies recursive membership.",
  "all strings name and ns",
  "all strings, including empty and separator-terminated ones",
  ["typelib/typename.cc: isInNamespace, getNormalizedNamespace, getRelativeName"])
p("C05", "Names accepted by isValidTypename really are well-formed",
  "A name made of non-empty identifier components, each absolute, with well-formed template arguments and array suffixes is accepted. Conversely an accepted absolute name without template, array or pointer characters is exactly a sequence of '/'-introduced non-empty identifiers; one without template or pointer characters and without '[[' is exactly such a sequence with '[digits]' suffixes; and one without array or pointer characters is made of such components and balanced, comma-separated template argument lists (names or integer strings), up to text following a '>' or ',' outside any argument list. The check terminates on every string.",
  "all strings",
  "hand-written recursive scanner; malformed names are an infinite set",
  ["typelib/typename.cc: isValidTypename, isValidTypeBasename, isValidIdentifier"])
p("C06", "The minimal namespace path is sound",
  "getMinimalPathTo(type, ns) returns either the absolute namespace of the type, or a suffix of it: the returned path always ends the type's namespace, so appending the basename gives a suffix of the full name.",
  "all names and namespaces",
  "string search over arbitrary namespaces",
  ["typelib/typename.cc: getMinimalPathTo"])
p("C07", "The memory layout of a type covers exactly its bytes",
  "For every well-formed type (fields sorted and not overlapping, no empty array, no zero-sized element), the raw layout computed for it, executed from the start of a value, visits each byte of the value exactly once, in order, as data, padding or container object, and ends exactly at getSize().",
  "all types (numerics, enums, arrays, compounds, containers, nested without bound)",
  "unbounded nesting and field counts",
  ["typelib/memory_layout.cc: MemLayout::Visitor", "typelib/memory_layout.hh: raw_layout_of"])
p("C08", "Simplifying a layout does not change its meaning",
  "simplify() applied to the layout of a type describes the same bytes: containers stay at the same offsets with equivalent element layouts, data bytes stay data bytes; with merge_skip_copy padding may become data, without it padding stays padding; only trailing padding may disappear.",
  "all well-formed types (fields sorted and not overlapping, no empty array, no zero-sized element), all flag combinations",
  "the peephole merging rewrites already emitted bytecode; interactions of nested arrays are unbounded",
  ["typelib/memory_layout.cc: MemoryLayout::simplify, simplifyBlock, simplifyInit"])
p("C09", "A generated layout is always well-formed bytecode",
  "Every layout returned by layout_of on a well-formed type passes validate(): blocks are balanced, every operand is present; skipBlock started at a block body returns the END of that block. validate() accepts exactly the layouts made of complete operations and closed blocks.",
  "all well-formed types (fields sorted and not overlapping, no empty array, no zero-sized element), all flags",
  "unbounded nesting",
  ["typelib/memory_layout.cc: MemoryLayout::validate, skipBlock, simplify"])
p("C10", "dump followed by load restores the value",
  "For every valid value v of a type, load(dump(v)) into a freshly initialised value (or any value whose containers are empty) yields a value equal to v (same data bytes and same container contents, recursively), consumes the whole buffer and does not fail.",
  "all types, all values, all raw destination bytes",
  "infinitely many types and values; container nesting unbounded; destination history matters",
  ["typelib/value_ops.cc: ValueOps::dump, ValueOps::load, Typelib::dump, Typelib::load", "lang/csupport/containers.cc: Vector::dump, Vector::load, String::dump, String::load"])
p("C11", "getDumpSize predicts the dump size exactly",
  "For every value getDumpSize(v) equals the number of bytes dump(v) appends to a vector, and equals the return value of the fixed-buffer dump when it succeeds.",
  "all types and values", "all values",
  ["typelib/value_ops.cc: getDumpSize, ByteCounterStream, VectorOutputStream, ByteArrayOutputStream"])
p("C12", "Dumping into a fixed buffer never writes outside it",
  "dump(v, buffer, size) never writes at or beyond index size whatever the value; it returns the number of bytes written when the dump fits and 0 when it does not.",
  "all types, values, buffer sizes", "all sizes, including the boundary for every value",
  ["typelib/value_ops.cc: ByteArrayOutputStream::write, dump(Value, uint8_t*, unsigned int)"])
p("C13", "load of an arbitrary byte buffer never corrupts memory",
  "For every byte buffer, load(v, buffer) either succeeds or throws; it never reads outside the buffer and never writes outside the value and its containers, and the value stays destructible.",
  "all byte buffers, all types, all values",
  "hostile buffers are an infinite set; arithmetic wraps at 2^64",
  ["typelib/value_ops.cc: ValueOps::load, VectorInputStream::read", "lang/csupport/containers.cc: Vector::load, Vector::resize, String::load"])
p("C14", "load reports a buffer that is too short or too long",
  "load throws when the buffer ends before the value is complete, and when more than the trailing padding of the type remains unused; a strict prefix of a dump is never accepted as the same layout's dump.",
  "all types, values and truncation points", "every truncation point of every value",
  ["typelib/value_ops.cc: VectorInputStream::read, load(uint8_t*, Type const&, std::vector<uint8_t> const&, MemoryLayout const&)"])
p("C15", "copy produces an equal and independent value",
  "copy(dst, src) leaves src unchanged and makes dst equal to src whatever dst held before; no container of dst aliases src afterwards, and neither value leaks nor is used after destruction.",
  "all types, source values and destination values (same type)", "all values and prior destination states, container capacities",
  ["typelib/value_ops.cc: Typelib::copy, ValueOps::copy", "lang/csupport/containers.cc: Vector::copy, Vector::resize, String::copy"])
p("C16", "compare is true exactly on equal values",
  "compare(a, b) on two values of a type returns true iff all data bytes and container contents are equal; padding bytes never influence the result; hence compare is an equivalence.",
  "all types and pairs of values", "padding contents and nesting are unbounded",
  ["typelib/value_ops.cc: Typelib::compare, ValueOps::compare", "lang/csupport/containers.cc: Vector::compare, String::compare"])
p("C17", "init makes raw memory a valid value and destroy releases it",
  "init on uninitialised memory of the size of the type yields a valid value whose containers are all empty and whose enums hold their first declared value; destroy on any valid value visits every container exactly once (no leak, no double destruction) and touches nothing else.",
  "all types, all valid values", "all nesting and container contents",
  ["typelib/value_ops.cc: ValueOps::init, ValueOps::destroy", "typelib/memory_layout.cc: simplifyInit, pushInit*", "lang/csupport/containers.cc: Vector::destroy, String::destroy"])
p("C18", "zero clears every value",
  "zero(v) on a valid value makes every data byte 0 and every container empty, and the result is still a valid value.",
  "all types and values", "all values", ["typelib/value_ops.cc: ValueOps::zero"])
p("C19", "std::vector elements survive resizing",
  "Container operations on vectors refine list operations: push appends one equal element, erase removes the first equal element, delete_if keeps exactly the elements not selected in order, clear empties, resizing keeps the common prefix and adds zero-filled elements (initialised unless they are plain data), whether or not the buffer is reallocated.",
  "all element types, contents, capacities and operation sequences", "reallocation depends on capacity history",
  ["lang/csupport/containers.cc: Vector::resize, push, erase, delete_if_impl, clear, getElementCount, copy"])
p("C20", "Byte swapping is an involution that swaps exactly the scalars",
  "endian swap applied twice gives back the original value for every type whose swap compiles; on a scalar it reverses the byte order; on compounds and arrays it reverses the bytes of every scalar and leaves the others in place.",
  "all types and values", "unbounded nesting", ["typelib/endianness.cc: CompileEndianSwapVisitor", "typelib/endian_swap.hh"])
p("C21", "A type is retrievable under its full name from registration to removal",
  "After any sequence of add, alias, removeAlias, clearAliases, remove and setDefaultNamespace calls, get(absolute name) returns exactly the type last registered under that name and not removed since; a failed add (invalid or already defined name) changes nothing.",
  "all operation histories", "histories are unbounded; two maps have to stay in sync",
  ["typelib/registry.cc: add, alias, removeAlias, clearAliases, remove, get, has, setDefaultNamespace"])
p("C22", "Relative name resolution does not depend on registration order",
  "get(rel) depends only on the set of registered names and the default namespace, not on the order in which the types were registered or removed.",
  "all operation histories", "order of operations is unbounded",
  ["typelib/registry.cc: Registry::add(std::string const&, Type*, bool, std::string const&), updateCurrentNameMap, remove"])
p("C23", "Removing a type removes everything that depends on it and nothing else",
  "remove(t) returns and removes t and exactly the registered types that reach t through dependsOn; afterwards no registered type and no alias refers to a removed type, and every other type stays registered.",
  "all registries (any dependency graph, cycles included) and all types", "dependency graphs are unbounded and may be cyclic",
  ["typelib/registry.cc: reverseDepends, remove"])
p("C24", "Aliases always resolve to a registered type",
  "In every reachable registry each alias refers to a type that is itself registered under its own name; getAliasesOf(t) lists exactly the other names of t; clearAliases and removeAlias never remove a type.",
  "all operation histories", "unbounded histories", ["typelib/registry.cc: alias, getAliasesOf, removeAlias, clearAliases"])
p("C25", "Aliases propagate to derived types",
  "After alias(base, newname), every registered array, pointer or vector over base is reachable under the name derived from newname.",
  "all registries and aliases, any depth of derivation", "propagation recurses through alias itself",
  ["typelib/registry.cc: alias, add", "typelib/typemodel.cc: Indirect::modifiedDependencyAliases"])
p("C26", "isSame implies structural equality",
  "If isSame(a, b) holds then a and b have the same size, category, and pairwise isSame fields/elements at the same names and offsets, recursively, including for recursive types; isSame is reflexive and always terminates.",
  "all type graphs, cyclic ones included", "cyclic graphs need coinductive reasoning",
  ["typelib/typemodel.cc: Type::isSame, rec_compare, do_compare (all classes)"])
p("C27", "isSame is symmetric",
  "isSame(a, b) = isSame(b, a).", "all pairs of types",
  "needs a global argument over type graphs; specific pairs may pass", ["typelib/typemodel.cc: Type::isSame, rec_compare"])
p("C28", "canCastTo extends isSame and preserves the scalar layout",
  "isSame(a, b) implies canCastTo(a, b); canCastTo(a, b) implies that both types have the same fields at the same offsets with castable types, and that every enum symbol of a exists with the same value in b.",
  "all pairs of type graphs", "unbounded graphs", ["typelib/typemodel.cc: Type::canCastTo, Enum::do_compare, Compound::do_compare"])
p("C29", "Merging a registry is idempotent and never modifies existing definitions",
  "After a.merge(b) succeeds every type of b is registered in a under the same name with the same definition, all types that were in a are still there unchanged, dependencies of every registered type are registered, and merging b again adds nothing.",
  "all pairs of registries (acyclic dependency graphs of any size)", "all graphs", 
  ["typelib/registry.cc: Registry::merge", "typelib/typemodel.cc: Type::merge, try_merge, do_merge"])
p("C30", "The minimal registry of a type is its dependency closure",
  "minimal(name) contains exactly the transitive dependencies of the type (besides the standard types) and is closed under dependsOn.",
  "all registries and names", "all graphs", ["typelib/registry.cc: Registry::minimal"])
p("C31", "Two registries compare equal exactly when their contents do",
  "Registry::isSame returns true iff both registries hold the same names with pairwise isSame types.",
  "all pairs of registries", "all registries", ["typelib/registry.cc: Registry::isSame"])
p("C32", "Resizing types keeps compound layouts consistent",
  "After resize(map), every compound has each field shifted by the total growth of the preceding fields, its own size grown by the total growth of its fields, fields that did not overlap still do not overlap, arrays have size dimension * element size, and each type is resized once.",
  "all compounds and size changes", "unbounded nesting and repeated field types", ["typelib/registry.cc: Registry::resize", "typelib/typemodel.cc: do_resize"])
p("C33", "Exports list every persistent type once, after its dependencies",
  "Exporter::save hands every persistent entry of the registry to the exporter exactly once, never before a persistent entry it depends on, aliases after their target; it terminates on every registry and fails exactly when a dependency cycle (or a dependency outside the registry) exists.",
  "all registries", "all graphs, all orders", ["typelib/exporter.cc: Exporter::save"])
p("C34", "Metadata merging is a set union per key",
  "MetaData behaves as a map from keys to sets: set replaces, add inserts, merge is a per-key union: it is idempotent, commutative, associative and never loses values.",
  "all metadata maps and operation sequences", "unbounded histories", ["typelib/typemodel.cc: MetaData"])
p("C35", "Enum symbols are a function to values and lookups invert it",
  "After any sequence of accepted add calls get(name) returns the first value given for that name, a conflicting add fails without changing any symbol, get(value) returns a symbol holding that value, and automatic values continue from the last one added.",
  "all histories of add", "unbounded", ["typelib/typemodel.cc: Enum::add, Enum::get, getNextValue"])
p("C36", "A compound is always large enough for its fields",
  "For every sequence of addField calls the size of a compound is at least offset+size of each field (and equals the largest if never set), trailing padding is size minus the largest end, and sorting fields only permutes them.",
  "all sequences of fields", "unbounded", ["typelib/typemodel.cc: Compound::addField, getTrailingPadding, normalizeFieldOrder, getField"])
p("C37", "Array and pointer names are parsed back to what built them",
  "For every element name without modifiers and every list of array/pointer modifiers, building the type with TypeBuilder from its name yields the same modifiers applied in the same order, the resulting name is the requested one, and the size is the product of dimensions and element size.",
  "all modifier lists and dimensions", "unbounded", ["typelib/typebuilder.cc: TypeBuilder::build, parse, addArrayMajor, addPointer"])
p("C38", "The TLB export can be read back",
  "Exporting a type definition to XML and reading it back gives the same name, size, category, fields with offsets, symbol values, dimension and element for every type; text content survives escaping.",
  "all types and strings", "all strings/types", ["lang/tlb/export.cc", "lang/tlb/import.cc"])
p("C39", "CSV header and CSV lines have the same columns",
  "For every type without containers and opaque types whose header and line can be produced, the i-th title of the CSV header and the i-th cell of a CSV line are those of the same numeric or enum part of the value, and both list all of them once; cutting the text at a separator that occurs in no column gives the columns back. (Containers and opaque types give different numbers of columns: C39_container_counterexample, C39_opaque_counterexample.)",
  "all types, values and separators", "unbounded nesting", ["typelib/csvoutput.cc"])
p("C40", "IDL modules are opened and closed in balance",
  "For every sequence of namespaces visited by the IDL exporter the opened and closed modules balance, and each definition is written inside exactly the modules of its namespace.",
  "all sequences of namespaces", "unbounded sequences", ["lang/idl/export.cc: adaptNamespace, closeNamespaces"])
p("C41", "Singletons are created on first use and destroyed after the last",
  "For every sequence of attach/detach the shared instance exists exactly while the reference count is positive, one instance at a time.",
  "all attach/detach histories", "unbounded histories", ["utilmm/singleton"])
p("C42", "Visiting a value touches each leaf exactly once inside the value",
  "A generic value visitor that never asks to stop is called on every leaf of the value (through fields, array elements, container elements and pointers) exactly once, in the order of the definitions, at the address field offset + element index * size; leaves lie within the value (or the buffer of the container) and do not share memory if the definitions fit and do not overlap; the visit completes if nothing reachable is a null pointer, null type, or unsupported number; value_get_field gives the first field of that name.",
  "all types and values", "unbounded nesting", ["typelib/value.cc: ValueVisitor::dispatch", "typelib/value.hh"])
p("C43", "Configuration sets keep every value and child",
  "utilmm::config_set behaves as a multimap: set replaces all values of a key, insert adds one, children are preserved in order, lookups return what was stored.",
  "all histories", "unbounded", ["utilmm/configset.cc"])
p("C44", "The Ruby memory table never frees a buffer that is still referenced",
  "For every sequence of wrap, ref, unref and invalidation calls a buffer is freed only when its reference count reaches zero, and exactly once.",
  "all histories", "unbounded", ["bindings/ruby/ext/memory.cc"])
p("C45", "Converting type names between C++ and typelib notation is reversible",
  "typelibToCxxName(cxxToTypelibName(n)) = n for every C++ qualified name without spaces anomalies, and the reverse.",
  "all names", "all strings", ["tools/typelib-clang-tlb-importer/NamingConversions.cpp"])

out = os.path.join(os.path.dirname(__file__), "..", "properties.jsonl")
extra = os.path.join(os.path.dirname(__file__), "extra_props.py")
if os.path.exists(extra):
    exec(open(extra).read())
with open(out, "w") as f:
    for x in P:
        f.write(json.dumps(x) + "\n")
print(len(P))
