# Formal model of typelib — design

The deliverable is a Lean 4 model (`lean/Verif`) of the C++ code of typelib (`/repo`), with theorems about it.
`properties.jsonl` lists the properties, `MANIFEST.json` the theorems that settle each one (theorems are named
`Cnn_…` after the property), `seeded/LOG.jsonl` the mutation tests of the theorems.

## 1. Trusted base

* **Lean 4.33.0's kernel.** No axioms of ours. Every theorem in the manifest depends at most on `propext`,
  `Classical.choice` and `Quot.sound` (checked with `#print axioms` for all of them). No compiled evaluation:
  concrete examples are closed by `rfl`, `decide` or `decide +kernel`, all of them checked by the kernel. Mathlib is not
  used by the statements.
* **The reading of the C++ code.** The code is not compiled or run. Each definition of the model cites the
  lines of `/repo` it models and says what it simplifies. That reading is trusted.
* **The semantics given to the runtime.** `std::vector`, `std::string`, `std::map`, `std::multimap`, `std::set`,
  `std::list`, `memcpy`, `memcmp`, `atoi`, iostreams and boost::lexical_cast behave as documented. Undefined behaviour
  is an explicit outcome (`Res.ub`), an exception too (`Res.exn`, tagged with the class of exception), and exhausted
  fuel is a third one (`Res.fuel`), which no theorem counts as success.
* **The machine.** `size_t` has 64 bits and wraps; `int` has 32 bits and its overflow is undefined; bytes are octets; the
  host is little-endian; the address of a container object is never one of the five opcode values 0..4 of the layout
  bytecode (the code itself relies on it).
* **libxml2** is not modelled function by function: `Verif.Xml` is a small specification of what it reads and C38 is
  relative to it.

## 2. Modelling conventions

* `Str = List Char` is `std::string`. Where the code compares characters with `<`, the order is a parameter
  `key : Char → Int`, injective, so that results hold for signed and unsigned `char`.
* Iterators into a bytecode vector are list suffixes (`[]` is `end()`; reading it is `ub`).
* A buffer is a list of `Cell`s. A container object in memory is a `vec`/`str` cell followed by `tail` cells:
  handling it as plain bytes, leaving the buffer, using destroyed memory or overwriting a live container is `ub`. So
  "the outcome is a normal return" contains memory safety and the absence of leaks.
* Loops and recursive functions of the C++ code are recursive Lean functions, with fuel when the recursion is not
  structural; the theorems show that an explicit amount of fuel is enough (termination is proved, not assumed), or that
  none is (where the code diverges).
* Types are trees (`Layout.Ty`) for layouts, values and byte swapping: a type that contains itself by value through
  containers has no finite layout. They are nodes of a graph (`Graph.Heap`: object identity ↦ name, size, kind) for
  everything that depends on identity or where cycles matter (registries, comparison, merge, resize, export, visitors).
* Histories are lists of operations, or an inductive predicate `Reachable` closed under the operations of the API;
  properties "in every state" are theorems about all of them.
* Exceptions leave the state that was reached: the model returns the state together with the outcome whenever a partial
  effect can be observed.

## 3. Plan and state per property

| property | state | what is modelled | how it is proved |
|---|---|---|---|
| C01 Registry iteration order is a strict total order that keeps namespaces contiguous | proved | `NameModel.nameSort` | strict total order by case analysis on the first difference; contiguity of the members of a namespace in any sorted list |
| C02 Importing a namespace makes exactly its members reachable by relative name | proved | `Registry.importNamespace/setDefaultNamespace` on the two tables | invariant over histories, then computation of the table after the call |
| C03 Splitting a type name and joining it back is the identity | proved | `splitTypename` and the join | induction on components |
| C04 Namespace membership and relative names agree | proved | `isInNamespace`, `getRelativeName` | prefix reasoning; canonical names by components |
| C05 Names accepted by isValidTypename really are well-formed | proved | `isValidTypename` as the C++ loop with positions | completeness: induction on a grammar of names (`NTail`, `NArgs`); soundness: accepting runs (`NameScan`) inverted on three classes of names; outside of them the code accepts garbage (witnesses) |
| C06 The minimal namespace path is sound | proved | `getMinimalPathTo` | induction on component lists |
| C07 The memory layout of a type covers exactly its bytes | proved | `Layout.rawLayout` (visitor pushing words) | translation of bytecode to trees, one item per byte (`LayoutTree`, `LayoutFlat`), induction on types |
| C08 Simplifying a layout does not change its meaning | proved | `simplify`, `simplifyInit`, literally as loops on words | the expansion of a simplified program is that of the program |
| C09 A generated layout is always well-formed bytecode | proved | `validate`, `skipBlock` | induction on the tree behind the program |
| C10 dump followed by load restores the value | proved | `Value.dump`, `Value.load` | refinement to an abstract codec of abstract values (`AV`), induction on types |
| C11 getDumpSize predicts the dump size exactly | proved | `getDumpSize` (counting stream) | same refinement; modulo 2^64 |
| C12 Dumping into a fixed buffer never writes outside it | proved | fixed buffer stream | invariant of the stream, for any program |
| C13 load of an arbitrary byte buffer never corrupts memory | partial | `load` on arbitrary bytes | same refinement with arbitrary input; the excluded inputs are the multiplications that wrap |
| C14 load reports a buffer that is too short or too long | proved | `load` on a prefix / with extra bytes | prefix-code property of the codec |
| C15 copy produces an equal and independent value | proved | `copy` | refinement to equality of abstract values |
| C16 compare is true exactly on equal values | proved | `compare` | refinement; equality of abstract values |
| C17 init makes raw memory a valid value and destroy releases it | proved | `init`, `destroy` | induction on types |
| C18 zero clears every value | proved | `zero` | induction on types |
| C19 std::vector elements survive resizing | proved | `Vector` (containers.cc): resize, push, erase, delete_if, clear, set/getElement | refinement of each call to a list operation, histories of calls |
| C20 Byte swapping is an involution that swaps exactly the scalars | partial | `Endian`: compiled swap program and its interpreter, integer swaps as bit operations | structure of compiled programs (`EndianOps`), induction on types |
| C21 A type is retrievable under its full name from registration to removal | partial | `Registry`: `m_global`, `m_current`, type heap | invariant `Inv` of all reachable registries, exact effect of each call |
| C22 Relative name resolution does not depend on registration order | partial | same | the current table is a function of the registrations in three classes of histories; counterexamples for the rest |
| C23 Removing a type removes everything that depends on it and nothing else | proved | `remove`, `reverseDepends` | the worklist computes the closure, for cyclic graphs as well |
| C24 Aliases always resolve to a registered type | proved | same | invariant |
| C25 Aliases propagate to derived types | proved | `alias`, `modifiedDependencyAliases` | termination of the mutual recursion by a measure on derivation depth; coverage invariant `Cov` |
| C26 isSame implies structural equality | partial | `TypeCompare.doCompare` with its recursion stack | the stack is a partial bisimulation; exact characterisation of the answer; counting argument for termination |
| C27 isSame is symmetric | partial | same | from C26, for types without structural duplicates |
| C28 canCastTo extends isSame and preserves the scalar layout | partial | same, with `equality = false` | induction on paths into the types |
| C29 Merging a registry is idempotent and never modifies existing definitions | partial | `Merge.mergeF`, `typeMerge`, `tryMerge`, `doMerge` | invariant of the merge stack (`MergeInv`), specification of one merge by induction on the types not yet copied, with a list of compounds whose copy is under construction (recursive types); `MergeConflict`: invariant of the heap, registry and stack kept by every step without any agreement between the registries, for the conflict and no-damage theorems |
| C30 The minimal registry of a type is its dependency closure | partial | `minimal`, `minimal(auto_types)` | from C29, the needed names as an inductive closure |
| C31 Two registries compare equal exactly when their contents do | partial | `Registry::isSame` with iterator positions | the loop reads past the end; the answers it gives before are right |
| C32 Resizing types keeps compound layouts consistent | partial | `Resize.resize`, `do_resize` per class, map of sizes | ranking of dependencies, the sizes are those of a specification `Sizing` |
| C33 Exports list every persistent type once, after its dependencies | proved | `Exporter.save` worklist; what a concrete exporter writes is an oracle (`wrote`) | loop invariant and decreasing measure |
| C34 Metadata merging is a set union per key | proved | `MetaData` as a sorted map of sorted sets (`StdMap`) | refinement to a function key → set, histories |
| C35 Enum symbols are a function to values and lookups invert it | proved | `Enum::add`, `getNextValue`, lookups | invariant over histories of calls |
| C36 A compound is always large enough for its fields | partial | `Compound::addField`, padding, field order | invariant over histories; machine integers explicit |
| C37 Array and pointer names are parsed back to what built them | partial | `TypeBuilder`: parser of declarators, `build`, `getOrAdd` | induction on the list of modifiers; effect on every reachable registry with honest derived names |
| C38 The TLB export can be read back | partial | `Tlb`: exporter to text, importer from XML trees; `Xml`: specification of parsing | text → tree → registry in seven steps (`TlbText` … `TlbRound`), simulation between the two registries |
| C39 CSV header and CSV lines have the same columns | proved | `Csv`: header and line visitors; the text of a cell is a parameter | induction on fuel/types |
| C40 IDL modules are opened and closed in balance | proved | `Idl`: events of the exporter with its namespace stack | invariant of the open modules; scanner of events as specification |
| C41 Singletons are created on first use and destroyed after the last | partial | `Singleton`: server, use counts, interleavings of threads | invariant of reachable states; layered use relation |
| C42 Visiting a value touches each leaf exactly once inside the value | proved | `Visitor`: the generic value visitor on a memory | induction; leaves given by paths |
| C43 Configuration sets keep every value and child | proved | `ConfigSet`: multimaps of values and children | histories; ownership tree for deletion |
| C44 The Ruby memory table never frees a buffer that is still referenced | partial | `RubyMemory`: table of zones, root counts | invariant over histories that follow a contract (`Step`) |
| C45 Converting type names between C++ and typelib notation is reversible | partial | `CxxNames`: string rewriting in both directions | names as token sequences; computation of both conversions |
| C46 Loading replaces whatever the destination held | partial | `load` into a destination that already holds a value | refinement; counterexamples for empty containers |
| C47 Persistence and source of registry entries | proved | entries of the registry tables | exact effect per call, histories |
| C48 IDL definitions describe the types | proved | `Idl`: names, declarations and definitions as text | relation `Ref` between types and IDL names, induction on it; invariant of the reserved names over histories |
| C49 value_cast gives the value of numbers of exactly the right type | proved | `ValueCast`: the casting visitor on the visitor of C42 | `visit_inv`: what the methods of a visitor preserve on the leaves the visit preserves, also when stopped |
| C50 The standard C++ types | proved | `StdTypes`: the calls of addStandardTypes, in order, on the model of the registry, sizes of the C++ types as a parameter | invariant `Done` over the calls; the meaning of a spelling is specified from its keywords as in the C++ standard |
| C51 Sources of merged types | partial | `Merge.copySourceIDs`, the entries during `merge` | the source of one entry as a fold over the entries of the other registry; entries only grow during a merge |
| C52 Ruby integers and symbols are converted exactly | proved | `RubyConvert`: memory as bytes, the Ruby macros `NUM2INT`, `NUM2UINT`, `NUM2LL`, `INT2FIX`, getters and setters | arithmetic on little endian two's complement; specification by the value of each byte (`Holds`, `LowBytes`, `SameOutside`) |
| C53 Ruby strings and char arrays | proved | `RubyStrings`: `string_buffer_get`, `value_to_string`, `value_from_string`, the array setter | loop invariant for the real size; specification `HoldsStr` |
| C54 Access to the elements of arrays from Ruby | proved | `RubyArray`: `array_get`, `array_element`, `array_each`, `raw_get` with its cache | invariant of the cache over all histories |
| C55 Ruby objects for parts of a value never dangle | proved | `RubyCache`: parts as paths, buffers of vectors as a map, the caches and `handle_invalidation` | invariant over all histories: objects that are not invalidated are in the cache at their address; induction over the order of the containers |
| C56 Plugins are found by name, in the order of the search path | proved | `Plugins`: the tables of the manager, the search path loop, the destructor; libraries and directories are parameters | induction on the sequence of additions (last one first); induction on the entries of the path |
| C57 Layouts of registered types are those of their definitions, and recursive types have none | proved | `LayoutGraph`: `MemLayout::Visitor` on the graph of type objects, `Vector::getElementLayout` | the tree of a type is defined by unfolding; a type has one iff it does not contain itself (pigeonhole on the path of containing types); the visit of the graph equals the visit of the tree |
| C58 Enumerating a registry gives every name once, in order | proved | `RegistryIter`: iterators as positions in the sorted table, `lower_bound`, the loops with explicit reads past the end | the positions cut out the filter of the table (prefixes are convex for `nameSort`), then the table invariant of C21 |
| C59 Type objects are deleted exactly once | proved | `RubyRegistry`: deletions as a list with double deletion undefined, the wrapper map with owned flags and classes | invariant over all histories: owned wrappers are exactly the types taken out, and these are not registered |
| C60 C++ names are translated by the Ruby loader without loss | partial | `RubyNames`: `template_tokenizer`, `parse_template`, `collect_template_arguments`, `cxx_to_typelib`, `typelib_to_cxx`, `split_first_namespace`, `split_last_namespace` | C++ names as trees (`Name`, `Args`), every way to write one as a relation (`Written`); induction on the tree for each function |
| C61 Types defined from Ruby are the ones that were described | partial | `RubyBuilder`: `CompoundBuilder#build`, `EnumBuilder#build`, `registry_create_*`, `registry_alias`; a C++ exception that is not caught by the extension is undefined behaviour | specification of offsets and values by `Placed` and `Numbered`; the registration by `addName_spec`, the size by C36, the symbols by C35 |
| C62 Options given from Ruby reach the plugins | partial | `RubyOptions`: `format_options`, `setup_configset_from_option_array` on the sorted multimaps of `ConfigSet`; reading a string as an array is undefined | the relation `Matches` between configuration and options, by recursion on the options |
| C63 Accessors find every part of a wanted type | partial | `RubyAccessor`: `traverse_and_find_in_type`, `Path#resolve`, `Accessor#each` on type graphs and value trees whose nodes are the Ruby objects; the order of paths of equal size is arbitrary | induction on the traversal: the objects reached are a permutation of the wanted parts (the loops on paths and on elements are exchanged) |
| C64 Recursive dependencies are the types needed to define a type | partial | `RubyDeps`: the memo of each class as a map, the recursion with its partial results visible to inner calls | soundness by invariant; completeness of a first call: everything visited, and what it depends on, ends in the set of the caller; without cycles, all memos stay right |
| C65 Values built from bytes by the Ruby bindings | partial | `RubyBytes`: `of_size` (dump of the element, repeated, loaded into a new container), conversion of strings (`pack("QA#{n}")`), packed arrays | the buffer is the dump of the container that holds n copies, then C10; for plain padded elements the buffer is too short for every n > 0 |
| C66 The clang importer describes the types of the program | partial | the importer functions over an AST of clang declarations (the answers the code asks clang for), on the model of the registry with its automatic aliases; clang itself, messages and metadata are not modelled | one invariant (every registered name that denotes a C++ type is registered for a type that describes it, primary names included) kept by each function, induction on the depth of the recursion; refusals by a separate induction; termination from a rank on types |
| C67 Changes made through converted fields are never lost | partial | objects of compounds with, per field, the C++ value and the remembered Ruby object or part; accessors, get/set, raw access, apply/invalidate of changes, dump, load, copy, dup; conversions are parameters | simulation: with the invariant that all that is remembered is reached through the instance variables, each action commutes with the same action on a single copy of the value; induction on the program, structural induction on objects |
| C68 Customizations declared for a type are those its values show | partial | RubyCustom.lean: RubyMappingCustomization (four hashes, add, find_all), the class a type gets from type_wrap and subclass_initialize, histories of declarations and uses; blocks and modules are opaque numbers, regexps any predicate on names | RubyCustomProps/Thms.lean: invariant over histories (the mapping holds the declarations, classes are closed under parts and made from the declarations at the first use), accessibility of the containment relation |
| C69 Values survive the trip through plain Ruby objects | partial | RubySimple.lean: toSimple (to_simple_value of every kind of type, with special_float_values), fromRuby (Typelib.from_ruby on plain objects: conversions of numbers through the C52 model, characters, booleans, enumerations, strings, arrays, containers through do_push, compounds from hashes and arrays). Types and values are trees; floats are IEEE bits; the encoding, float/double conversions and the contents of new memory are parameters. | RubySimpleProps.lean (Ok, Sound, Faithful; both directions by induction on the type), RubySimpleThms.lean (round trip iff, injectivity, totality, validity, hashes, JSON), RubySimpleCex.lean. |
| C70 Types of a registry are found by their path in Ruby | partial | RubyExport.lean: registry_export.rb as a state machine (objects with prefix, filter block and cache; the regexp with flag `o` is a variable of the process) over the registry of C05 and the enumeration of C58. | RubyExportProps.lean: invariant over histories of exports, calls on any object and growth of the registry (prefix of a type = its name, cache entries = what the registry says now); induction on the path. Counterexamples by running the model (RubyExportCex.lean). |
| C71 The gccxml importer describes the types of the program | partial | Gccxml.lean: resolve_type_definition and load, function by function, over the nodes of the XML as data (the attributes the code reads), on the model of the registry with its automatic aliases (C05), of the Ruby builders (C61) and of the parsing of template names (C60). The XML reader, the documentation and metadata, and the final filter of the registry are not modelled. | GccxmlSpec.lean: what nodes and names mean (Meaning), when a type describes a C++ type (Faithful), the reasons for not importing (Refused, Gone). One invariant on the registry and on the memory of the loader kept by each function (GccxmlWorld, GccxmlProps, GccxmlRecord), induction on the depth of the recursion (GccxmlTheorems). GccxmlNames builds a meaning of all names, GccxmlExample a program that meets all hypotheses; counterexamples by running the model (GccxmlCex.lean). |
| C72 Copies, comparisons and casts work between types that can be cast | partial | RubyCast.lean: `rbCopy`, `rbCompare`, `rbCast`, `rbDup` on memory zones, using the model of canCastTo (TypeCompare) and of copy/compare through layouts (Value); CastTree.lean, CastOps.lean: layouts of types that differ in trailing padding | The layout of the source without its last padding describes the same bytes of the target (induction on both types at once: `tcast_core`; `layL_len`: simplification drops all trailing skips); then the walks of copy and compare are run on that common part. `Same` is the specification of equal contents across two types. |
| C73 Ruby containers behave like arrays | partial | vectors of C19 with the identity of the buffer and the table of element objects; the calls of container_type.rb and specialized_types.cc; arguments are other values, own elements (addresses in the buffer, or copies for numbers) or refused objects; strings as lists of bytes | refinement of a relational specification on lists of element values (Sem, Run): one lemma per call on top of the C19 theorems, then induction on the history; an invariant (Clean) on the table of objects; each by induction on the remaining elements with a block that is itself a history |
| C74 Loading C++ headers with several threads | partial | `ParallelLoad`: a transition system with one step per queue operation, job server operation, tool call and thread end, for the calling thread, k parsing threads and the registry thread; outcomes of tools, conversions and merges are chosen by the environment; the token pool may be shared with other processes. `ParallelLoadProps` also models the path without threads. | Inductive invariants over all executions (what each thread holds plus what the history shows equals what was required; where the end marker is; what holds at each point of `load`), a strictly decreasing weight for termination, a case analysis for the absence of deadlock. Statements talk about the history of tool calls, conversions, merges and tokens. |
| C75 Dumping into files and streams, and reading several values back | partial | Streams.lean: the write methods of the stream classes over an oracle for the operating system (each write may fail or take any number of bytes), `dump` into any stream, `load` from any position of an input. | The generic dump triple of C10–C12 (`dump_walk`) is instantiated with a stream invariant per class; loading from the middle of a stream uses `load_tri` with a non-empty past and future; histories by induction on the list of values. |
| C76 The comment before a C++ declaration is its documentation | partial | Docs.lean: lines of a file as character lists, the regular expressions as functions, `startLine`, `scan`, `format`, `metaOf`, `describe`; the specification (marks, texts, documented declarations) is independent of them. Not modelled: invalid UTF-8 (Ruby raises), the parsing of `file:line` (a colon in the path of the file, or a missing line, raises). | Inductions on the window of comment lines, a lemma about removing from both ends for `strip` and for blank lines, minimum of the margins, induction for the removal of `*/`; metadata through C34. |
| C77 Loading C++ headers returns what the headers define, complete and with nothing else | partial | `LoadFilter.lean`: the two final loops of `GCCXMLLoader#load` over the models of `Registry::minimal`, `Registry::merge` and `Registry::alias` of C29, C30 and C06; `Registry.new` is empty (no plugin of the repository defines types); the fuel of the recursive functions is computed from the heap and proved sufficient | an invariant of the first loop (the result has no alias, is closed, and consists of copies of wanted types), each step by the specifications of `minimal` and `merge`; the second loop by a simulation of the result by the source, which also shows that no alias can conflict |
| C78 Metadata follow the types when registries are merged | partial | MergeMeta: the metadata objects of all types and fields as a store; mergeMetaData, copySourceIDs with the source_id metadata, the virtual mergeMetaData of types and compounds; the metadata of created objects is described by a relation (empty, or copied from the type of the same name by the copy constructors) | loops by induction: what a type holds after the loop is what it held, plus what the source types of the same names hold in corresponding places; sources are untouched because they are disjoint from the destination (C29); combined with the results on merge and minimal |
| C79 Metadata from Ruby | partial | RubyMeta: every method of the Ruby class MetaData on top of the model of the C++ class (C34); arguments are strings or other objects, strings are cut at NUL bytes when they become C strings | induction over the history of calls, using the refinement result C34 |
| C80 What is displayed and dumped tells the types apart | partial | TypeDisplayVisitor on top of TypeVisitor (typedisplay.cc, typevisitor.cc) and Registry::dump (registry.cc:484-530) as functions to texts; specification: Shown (what is told of a type), Items (what is told of a registry) | the text is a prefix code: by induction on the description, a text followed by anything that may follow it determines both; the display ends by induction on a rank that decreases along fields and array elements |
| C81 The options of an import reach the importers | partial | Registry#import, handler_for, guess_type (registry.rb), CXX.load/loader/preprocess (cxx.rb), the load and preprocess methods of GCCXMLLoader, CastXMLLoader and CLangLoader (gccxml.rb, clang.rb) on keyword arguments as association lists; programs are an oracle from command lines to outputs. Not modelled: what is done with the outputs (C71, C74, C76, C77), Tempfile contents | lookups of keys are followed through the ** of each method; induction on the list of files |
| C82 Memory layouts seen from Ruby describe the type | partial | RubyLayout.lean: `layout_to_ruby` and `init_layout_to_ruby` on the bytecode of `layoutOf`, options with defaults, `LONG2NUM`, `compatible_with_memcpy?`; container classes stand for their types. | Bytecode trees are translated word for word (layoutToRuby_enc, initToRuby_enc); all numbers are below 2^63 if all parts of the type are (Nums, by the meaning of the operations and the dimensions of the type); then C08 on what is read; an inverse gives injectivity. |
| C83 Type.to_h describes types | partial | RubyHash.lean: `to_h` of each class of types over the graph of types, hashes with insertion order, `offset_of` with encodings of names, `INT2FIX`. | Induction over the recursion depth (toH_tells); termination by the chain of distinct types of a non-recursive type; equal hashes by inversion of the specification against itself, equal definitions by induction over `Alike`. |
| C84 The importers record where types come from, their documentation and base classes | partial | ClangMeta.lean: the four functions of HandleMetaData.cpp on what clang tells of a declaration (comment tree, place, bases, printed names), the order of calls for each kind of type; `set_source_file` with the lines of the file; `location.split(":")`. | Each function adds a set of values (Adds), composed over the calls; comments by induction over blocks and inline parts; lines by induction on the line number. |
| C85 Symbols of an enumeration as Ruby sees them | partial | the class as a type (the model of C35) with the remembered hash; a history is a list of calls, additions and arbitrary functions applied to the returned hash | induction over histories from the end: the type only depends on the additions, and the remembered hash is the table of the symbols at the first call |
| C86 Methods for the fields of a compound in Ruby | partial | the two modules a compound class includes as lists of definitions (the last one counts), the filter, and the lookup of a method through conversion module, declared modules, access module and superclass | each accessor name determines field and kind if the names are Separate; membership of definitions in the modules, no induction over the class |
| C87 Marshalling from Ruby with options | partial | the three C++ functions on the value model, with the options as given and what becomes of C++ exceptions | induction over the layout of the type (ValuePack: Packed, Frame), for any merge and trailing option; vectors via their element blocks |
| C88 Parts of a type name in Ruby | partial | the Ruby methods on the model of splitTypename, getNamespace and getTypename (C03), with nil and the replacement of slashes | C03 for the parts, structural induction over names and their arguments (trees of C60) for full_name |
| C89 Equality of types in Ruby | partial | the two operations over the Ruby objects (types, root classes with their guard types, derived classes, others) on the model of Type::isSame and canCastTo (C26) | case analysis over the objects; C26, C27, C28 for the types; matchings of null types for the root classes |
| C90 Loading Ruby plugins | partial | the state of the process (loaded features, the two class variables) and the function over worlds that say what a call finds; nested calls from plugins are not modelled | a specification of one loop (fresh files up to the first that raises), composed for the two loops; an invariant over histories |
| C91 Resizing types from Ruby | partial | the conversion of the hash into the std::map (names, NUM2INT, conversion to size_t, map::insert), on top of the model of Registry::resize (C32) | induction over the hash for the map and its order; C32 transported along equality of the entries |
| C92 Adding a type of another registry | partial | Registry#add as minimal(name) with the aliases followed by merge, on top of the models of C29 and C30 | the minimal registry is shown to meet the conditions of the merge (its types are fresh copies), then the specifications are composed |

"partial" means: the full statement of `properties.jsonl` is false of the code (or, where `MANIFEST.json` says so, not
proved), the theorems with suffix `_partial` state the conditions under which it holds, and `…_counterexample` theorems
exhibit a concrete case where the code violates it without them. The side conditions are described below.

### Conditions that appear in statements

* *Registry.* `Reachable key H R`: the registry `R` over the heap `H` results from any sequence of operations (`add`,
  `alias`, `removeAlias`, `clearAliases`, `remove`, `setDefaultNamespace`, `importNamespace`), allocations of new types
  and changes to types that keep names and dependencies. `OkOp` asks that names given to `add`/`alias` are absolute and
  namespaces are made of identifiers; `C21_side_conditions_needed` shows what happens otherwise.
* *Comparison.* `WF`: dependencies are allocated types, enum symbols are kept in order. Any graph otherwise.
* *Merge.* `Source`/`Copyable`: the copied types are made of the registry's own types and no array or string is part of its own elements.
  `Dest`: the destination agrees on the definitions of types it shares by name and no alias hides a source name.
  `FromAlias`, `DepStar`, `Needed` are the closures used to say what `minimal` must contain.
* *Resize.* `Sizing` is the specification: the sizes that the request implies. `Ranked`: no type depends on itself except
  through a type whose size is given; `Sane`: definitions are closed, arrays have the size of their elements; `NoCancel`:
  no compound has fields that grow and others that shrink by the same total.
* *TypeBuilder.* `Honest`: a registered name that ends in `[n]` or `*` denotes that array or pointer.
* *Visitor.* `NoOverlap`: fields of a compound do not overlap; `Passable`: nothing stops the visit (null types, numbers of
  an unsupported size, containers of empty elements, null pointers).
* *TLB.* `Clean`: strings that can be written with the escaping the exporter does; `Storable`/`Exportable`: types whose
  attributes the format keeps and persistence as `Registry::add` decides it; `Within`: what the destination knows before
  the import is known by the exported registry with the same definition.
* *Ruby memory.* `Step`: the contract of the callers (roots before children, …); one counterexample per clause.
* *Singleton.* `Layered`: the use relation is acyclic.

## 4. Modules

* `Basic`: Common vocabulary of the model: outcomes of C++ code, strings, 64-bit arithmetic.
* `NameModel`: Model of `typelib/typename.cc` and of `nameSort` (`typelib/registry.cc`).
* `NameLemmas`: Helper lemmas about names (order, splitting, validity).
* `NameValid`: Helper lemmas about `isValidTypename`: fuel, completeness for the grammar of names.
* `NameSound`: Helper lemmas: soundness of `isValidTypename` on plain names, `strFind`, minimal paths.
* `NameProps`: Property theorems about names (C01, C03, C04, C05, C06).
* `Layout`: Model of `typelib/memory_layout.{hh,cc}`: the bytecode that describes the memory of a type, its construction from a type, its simplification and validation.
* `LayoutTree`: Trees behind the bytecode, and the specification vocabulary of layouts: one item per byte.
* `LayoutFlat`: The flat bytecode functions compute what the tree functions say.
* `LayoutInit`: The initialisation bytecode: simplification keeps its meaning.
* `LayoutSpec`: Specification of layouts, independent of how the code computes them.
* `LayoutProps`: Properties C07, C08, C09: the memory layout of a type.
* `Value`: Model of the value operations: `typelib/value_ops.cc` (dump, load, zero, init, destroy, copy, compare), the container implementations of `lang/csupport/containers.cc` (std::vector, std::string) and the memory they work on.
* `ValueSpec`: Specification of values: what a piece of memory holds, when two values are equal, serialised form.
* `ValueWalk`: Generic reasoning about the bytecode loops and the memory primitives.
* `ValueBlock`: The element blocks of a layout.
* `ValueInit`: Initialisation of raw memory.
* `ValueResize`: `Vector::resize`.
* `ValueOps`: destroy, zero and copy.
* `ValueDump`: dump: what is written, for any kind of output stream.
* `ValueCodec`: The serialised form is a prefix code: what can be read back, and how reads behave.
* `ValueLoad`: load: what is read and what becomes of the destination, for any input.
* `ValueCompare`: compare
* `ValueProps`: Properties C10 to C18: dump, load, copy, compare, init, destroy, zero.
* `ValueExamples`: The hypotheses of C10–C18 are met by non-trivial values, and what fails without them.
* `Vector`: C19: the element operations of `Vector` (`lang/csupport/containers.cc`): push, erase, delete_if, clear, setElement, getElement.
* `Endian`: Model of `typelib/endianness.{hh,cc}` (`CompileEndianSwapVisitor`) and of the integer swaps of `typelib/endian_swap.hh`.
* `EndianOps`: Structure of the compiled byte-swap programs: a program is a sequence of operations (`Ops`, last operation outermost), `enc` is its encoding, `run` its effect.
* `EndianSem`: Specification of the byte swap and proof that the compiled program realises it.
* `EndianProps`: C20: byte swapping.
* `TypeGraph`: Type objects, as nodes of a graph: the model used for everything that depends on the identity of `Type` objects (registries, comparison, merging, resizing, exporting).
* `Registry`: Model of `typelib/registry.cc`: the name tables of a registry and the operations on them.
* `RegistryMap`: Lemmas on the tables of the registry: sorted lists, import of namespaces.
* `RegistryNames`: What remains of a valid name after a namespace made of plain identifiers.
* `RegistryInv`: The invariant of the name tables, and its preservation by every operation.
* `RegistryAlias`: `alias` and `modifiedDependencyAliases`: what they register, and that they terminate.
* `RegistryRev`: `reverseDepends` computes the reverse dependency closure.
* `RegistryHist`: Histories of operations on a registry.
* `RegistryProps`: Properties C02, C21, C23, C24, C25 of the registry.
* `RegistryMore`: Properties C22 and C25 of the registry, examples and counterexamples.
* `RegistryOrder`: Property C22: does the meaning of a relative name depend on the order of registration?
* `RegistryExamples`: A concrete heap and registry: the hypotheses of the theorems on registries are satisfiable; the counterexamples to C21 (failed `add`) and C22.
* `TypeCompare`: Model of the comparison of types: `Type::isSame`, `Type::canCastTo`, `rec_compare` and the `do_compare` of each class (typemodel.cc:54-102, 240-250, 257-259, 340-369, 456-481, 536-543, 604-612, typemodel.hh:259-260).
* `TypeCompareProps`: Properties C26, C27 and C28: what the comparison of types decides.
* `TypeCompareExamples`: Examples and counterexamples for the comparison of types (C26-C28), and `Registry::isSame` (C31).
* `StdMap`: `std::map<std::string, β>` and `std::set<std::string>` as lists kept in increasing order of `std::less<std::string>` (`strLt`, lexicographic on the bytes).
* `MetaData`: Model of `MetaData` (typemodel.hh:19-66, typemodel.cc:185-238) and of the metadata merge of types and fields (typemodel.cc:170-183, 424-439, 653-659), with property C34.
* `EnumModel`: Model of the operations of `Enum` (typemodel.hh:308-356, typemodel.cc:452-515), with property C35.
* `CompoundModel`: Model of the building operations of `Compound` (typemodel.hh:395-434, typemodel.cc:295-339, 366-379), with property C36.
* `Resize`: Model of `Registry::resize` (registry.cc:572-593), `Type::resize` and the `do_resize` of each class (typemodel.cc:140-168, 289-293, 404-422, 546-553).
* `ResizeProps`: Properties of `Registry::resize` (C32).
* `ResizeExamples`: A concrete case for the theorems on `Registry::resize` and the counterexamples to C32.
* `Exporter`: Model of `Exporter::save(stream, config, registry)` (exporter.cc:33-132), with property C33.
* `TypeBuilder`: Model of `typelib/typebuilder.cc` (and of `Registry::has`/`build` that use it, registry.cc:259-278).
* `TypeBuilderParse`: Property C37: reading array and pointer names.
* `TypeBuilderProps`: Property C37: building array and pointer types.
* `Singleton`: Model of `typelib/utilmm/singleton`: the server of reference-counted singletons.
* `SingletonProps`: C41: a singleton exists exactly while it is needed, one object at a time.
* `ConfigSet`: C43.
* `Assoc`: Association lists with unique keys (`std::map`, hash tables whose order does not matter).
* `RubyMemory`: C44.
* `RubyMemoryInv`: Invariant of the memory table of the Ruby bindings (C44).
* `RubyMemoryProps`: C44: buffers of the Ruby bindings are freed exactly when nothing refers to them.
* `RubyMemoryReach`: C44: theorems over all histories of calls.
* `CxxNames`: C45.
* `CxxNamesProps`: C45: names converted between C++ and typelib notation.
* `Idl`: C40.
* `IdlProps`: C40: modules of the IDL output.
* `IdlNames`: C40: the modules that are opened for a namespace, and the names used to refer to what is in them.
* `IdlExamples`: C40: a run that meets the hypotheses, and what is not guaranteed.
* `Visitor`: Model of the generic value visitor: `TypeVisitor` (typevisitor.cc), `ValueVisitor` (value.cc, value.hh) and the `visit` methods of the containers (lang/csupport/containers.cc:261-274, 448-459).
* `VisitorProps`: C42: visiting a value.
* `Csv`: C39: the CSV header and the CSV lines (typelib/csvoutput.cc).
* `Merge`: Model of the copy of types from a registry to another: `Type::merge`, `Type::try_merge`, `Indirect::merge`, the `do_merge` of each class (typemodel.cc:104-138, 249-250, 266-274, 379-395, 517-518, 544-550, 570-576, 616-626, typemodel.hh:252-266), `Vector::factory`, `String::factory` (lang/csupport/containers.cc:367-387, 491-512), `Registry::merge`, `copySourceIDs` and the two `Registry::minimal` (registry.cc:133-257).
* `MergeInv`: The invariant of a merge (properties C29 and C30).
* `MergeSpec`: What `Type::merge` does (properties C29 and C30).
* `MergeProps`: Property C29: what `Registry::merge` does.
* `MergeMinimal`: Property C30: what `Registry::minimal` does.
* `MergeExamples`: Concrete registries: the hypotheses of C29 and C30 are satisfiable; counterexamples to the unrestricted statements.
* `Xml`: The part of XML 1.0 the TLB files use, as libxml2 reads it (`xmlParseMemory`, called by import.cc:407): elements, attributes, the predefined entities, CDATA sections, processing instructions.
* `Tlb`: Model of the TLB exporter and importer (lang/tlb/export.cc, lang/tlb/import.cc, lang/tlb/xmltools.hh), property C38.
* `TlbText`: Property C38, first part: the text of an exported registry is a document made of the exported elements.
* `TlbDoc`: Property C38, second part: what the exported document contains.
* `TlbParts`: Property C38, third part: what the importer reads in the elements of the exporter.
* `TlbWorld`: Property C38, fourth part: the registry that is exported, and registries that agree with it.
* `TlbBuild`: Property C38, fifth part: arrays and pointers built on the way.
* `TlbImport`: Property C38, sixth part: the importer on the elements of an exported document.
* `TlbLoad`: Property C38, seventh part: the loaders, `build`, and the whole import.
* `TlbRound`: Property C38: a registry that is exported and read back.
* `TlbExamples`: Property C38: a registry that is exported and read back, and what the format loses or cannot write.
* `NameScan`: C05: what `isValidTypename` accepts, beyond plain names. `Scan` is the accepting run of the scanner (typename.cc:97-174) on the text itself, without positions or fuel; it is a proof device: the two theorems at the end do not mention it.
* `RegistryEntry`: C47: the entries of the registry.
* `IdlTypes`: C48: the definitions written by the IDL exporter (`lang/idl/export.cc`): which types are accepted, and the text written for them.
* `ValueCast`: C49: `value_cast` (typelib/value_cast.hh, typelib/normalized_numerics.hh).
* `StdTypes`: C50: `Typelib::CXX::addStandardTypes` (lang/csupport/standard_types.cc).
* `StdTypesProps`: C50: theorems about `addStandardTypes`.
* `MergeSources`: C51: the sources of the entries of a registry when another registry is merged into it (`Registry::copySourceIDs`, registry.cc:181-192, and its use in `Registry::merge`).
* `RubyConvert`: C52: conversions between Ruby integers, symbols and strings and the C values of numeric and enum types (bindings/ruby/ext/convert.cc, bindings/ruby/ext/specialized_types.cc:102-127, bindings/ruby/ext/typelib.hh:76-83, and the dispatch of typelib/value.cc:17-56).
* `RubyStrings`: C53: conversions between Ruby strings and `char` arrays (bindings/ruby/ext/strings.cc, RubySetter::visit_ of arrays in bindings/ruby/ext/convert.cc:98-112; used by lib/typelib/standard_convertions.rb:79-119).
* `RubyArray`: C54: access to the elements of arrays from Ruby (bindings/ruby/ext/specialized_types.cc:215-311, bindings/ruby/lib/typelib/array_type.rb:78-86, 141-177).
* `RubyCache`: C55: the Ruby objects that stand for parts of a value: cached, and invalidated when an operation may have moved the memory they point to (bindings/ruby/lib/typelib/container_type.rb:51-57, 67-75, 79-83, 98-107, 254-274, 297-308, 335-358; lib/typelib/type.rb:302-370; lib/typelib/array_type.rb:73-79, 141-151; lib/typelib/accessor.rb; lib/typelib/path.rb; ext/specialized_types.cc:598-612).
* `Plugins`: C56: the plugin manager (typelib/pluginmanager.cc): which plugin a name gives, the search path, who is deleted.
* `LayoutGraph`: C57: memory layouts of types as they are in a registry, that is of a graph of type objects (memory_layout.cc:546-625, lang/csupport/containers.cc:20-46).
* `LayoutValidate`: C09: `MemoryLayout::validate` accepts exactly the operation lists that are made of complete operations and closed blocks.
* `MergeConflict`: Merges without any agreement between the registries (property C29): whatever the outcome, the existing types are left as they are (but for the size of containers), and a merge only succeeds if the types that both registries know by the same name have the same definition.
* `MergeConflictExamples`: Concrete registries for `C29_conflict` and `C29_no_damage`.
* `RegistryIter`: C58: enumeration of a registry: `Registry::begin`, `end`, `begin(prefix)`, `end(prefix)` (registry.cc:533-552), `RegistryIterator` (registryiterator.hh:13-61), and the loops of the Ruby bindings over them (bindings/ruby/ext/registry.cc:385-442, `Registry#each` of lib/typelib/registry.rb:81-95).
* `RubyRegistry`: C59: who deletes the type objects: `Registry::clear` and the destructor (registry.cc:60, 467-483), and the Ruby wrapper of a registry, which keeps a Ruby class for each type it has shown and takes over the types that `remove` takes out (bindings/ruby/ext/registry.cc:30-104, bindings/ruby/ext/value.cc: type_wrap, bindings/ruby/ext/typelib.hh:40-60).
* `RubyNames`: C60: C++ type names in the Ruby bindings: `CXX.parse_template`, `collect_template_arguments`, `template_tokenizer` (bindings/ruby/lib/typelib/cxx.rb:8-77), and the conversions of `GCCXMLLoader` (bindings/ruby/lib/typelib/gccxml.rb:199-336).
* `RubyNamesProps`: C60: proofs about C++ type names in the Ruby bindings.
* `RubyNamesThms`: C60: the theorems about C++ type names in the Ruby bindings.
* `RubyNamesExamples`: C60: the two C++ importers give the same names; examples and counterexamples.
* `RubyBuilder`: C61: defining types from Ruby (bindings/ruby/lib/typelib/registry.rb, `CompoundBuilder`, `EnumBuilder`; bindings/ruby/ext/registry.cc, `registry_create_*`, `registry_alias`).
* `RubyOptions`: C62: the options of `Registry#import` and `Registry#export` on their way from Ruby to the plugins (bindings/ruby/lib/typelib/registry.rb:126-143, `format_options`; bindings/ruby/ext/registry.cc:202-237, `setup_configset_from_option_array`).
* `RubyAccessor`: C63: accessors, which collect all the parts of a value that have a wanted type (bindings/ruby/lib/typelib/accessor.rb, bindings/ruby/lib/typelib/path.rb), with the default getter `raw_get` and the default iterator `raw_each`.
* `RubyDeps`: C64: `Type.recursive_dependencies` (bindings/ruby/lib/typelib/type.rb:152-183), which remembers its results in the classes.
* `RubyBytes`: C65: values that the Ruby bindings build from bytes and give back as bytes: `ContainerType.of_size` (bindings/ruby/lib/typelib/container_type.rb:250-253), Ruby strings and `/std/string` (bindings/ruby/lib/typelib/standard_convertions.rb:28-37), packed arrays (`to_simple_value(pack_simple_arrays: true)`, container_type.rb:416-427, array_type.rb:217-228).
* `RubyBytesExamples`: Non-trivial cases of C65, and silent corruption by `of_size`.
* `ClangExample`: Property C66: a program that meets the hypotheses of the theorems.
* `RubyConverted`: C67: fields that have another class in Ruby (`Typelib.convert_to_ruby`, `convert_from_ruby`).
* `RubyConvertedProps`: C67: specification and proofs.
* `RubyConvertedCex`: C67: programs whose changes are lost, and a program that meets the hypotheses.
* `RegistryWitness`: The theorems on registries (C02, C21 – C25, C47) on the registry of `RegistryExamples`: their hypotheses are met by a registry with aliases, derived names and a default namespace.
* `RubyCustomThms`: C68: theorems.
* `RubySimpleCex`: C69: counterexamples and concrete cases.
* `RubyExportCex`: C70: examples and counterexamples.
* `Gccxml`: Model of the import of C++ headers through gccxml or castxml (bindings/ruby/lib/typelib/gccxml.rb): `resolve_type_definition` and the functions it uses, and `load`, up to the extraction of the documentation.
* `GccxmlSpec`: What the import through gccxml is expected to do (property C71): the types it registers describe the C++ types of the program.
* `GccxmlWorld`: Property C71: what the operations on the registry keep true.
* `GccxmlProps`: Property C71: what the importer keeps true, function by function.
* `GccxmlRecord`: Property C71: the classes.
* `GccxmlTheorems`: Property C71: the theorems.
* `GccxmlNames`: Property C71: there are meanings of names that follow the rules of `Meaning`, for any meaning `T` of the names that are not derived ones.
* `GccxmlExample`: Property C71: a program that meets the hypotheses of the theorems.
* `GccxmlCex`: Property C71: programs that are not imported as they should be.
* `GccxmlEnds`: Property C71: the import ends.
* `RubySimpleMore`: Property C69: compounds built from arrays, and which objects numbers are built from.
* `RubyCastCex`: Examples and counterexamples for C72.
* `RubyContainer`: C73: vectors and strings from Ruby (bindings/ruby/lib/typelib/container_type.rb, bindings/ruby/ext/specialized_types.cc:440-600), on the vectors of C19.
* `RubyContainerProps`: C73: proofs.
* `RubyContainerOwn`: C73: appending elements of a vector to the vector itself.
* `RubyContainerEach`: C73: `each` with a block that works on the vector, and strings.
* `RubyContainerObjs`: C73: the Ruby objects of elements of a vector.
* `RubyContainerCex`: C73: the theorems on concrete vectors, and what the code gets wrong.
* `ParallelLoad`: # Loading C++ headers with several threads (`GCCXMLLoader.load`)
* `ParallelLoadInv`: Invariants of the executions of `GCCXMLLoader.load` (see `ParallelLoad`).
* `ParallelLoadClean`: Executions of `GCCXMLLoader.load` in which no tool fails: where every file, document and registry is (see `ParallelLoad`).
* `ParallelLoadProps`: # C74: loading with several threads
* `ParallelLoadCex`: Concrete executions of `GCCXMLLoader.load`: one that satisfies the hypotheses of the theorems of C74, and executions which show what does not hold.
* `Streams`: # Dumping into files and streams
* `StreamsCex`: Concrete cases for C75, and what does not hold.
* `Docs`: # The documentation of C++ declarations
* `DocsProps`: Proofs about the documentation of C++ declarations (C76).
* `DocsCex`: Concrete cases for C76, and what does not hold.
* `LoadFilter`: Model of the end of `GCCXMLLoader#load` (bindings/ruby/lib/typelib/gccxml.rb:903-922): the registry in which the headers were resolved is reduced to what these headers define, `Type.minimal_registry` (type.rb:641-643), `Registry#each` (registry.rb:83-96, ext/registry.cc:371-430), `Registry#include?` (ext/registry.cc:69-74), `Registry#merge` (ext/registry.cc:297-309) and `Registry#alias` (ext/registry.cc:185-197).
* `LoadFilterProps`: C77: what loading C++ headers returns.
* `LoadFilterCex`: C77: a concrete case of the hypotheses, and counterexamples to the unrestricted statement.
* `MergeMeta`: Model of what happens to the metadata of types and fields when registries are merged: the last two steps of `Registry::merge` and `Registry::minimal(name)` (registry.cc:166-167, 214-215), `Registry::mergeMetaData` (registry.cc:170-179), `Registry::copySourceIDs` with the metadata written by `Registry::setSourceID` (registry.cc:181-192, 676-684), and the virtual `mergeMetaData` of types (typemodel.cc:180-183, 426-439).
* `MergeMetaProps`: C78: metadata follow the types when registries are merged.
* `MergeMetaCex`: C78 on concrete registries, and counterexamples to the unrestricted claims.
* `RubyMeta`: Model of the Ruby interface to metadata (bindings/ruby/ext/metadata.cc, bindings/ruby/lib/typelib/metadata.rb), on top of the model of the C++ `MetaData` class (`Verif.Meta`), with property C79.
* `Display`: Model of the textual display of types and registries: `TypeDisplayVisitor` (typelib/typedisplay.cc) on top of `TypeVisitor` (typelib/typevisitor.cc), and `Registry::dump` (typelib/registry.cc:484-530).
* `DisplayProps`: C80: what is displayed tells everything that is to be told.
* `DisplayDump`: C80: what a display and a dump tell.
* `DisplayExamples`: C80: concrete displays and dumps; what is not told.
* `CxxLoad`: How the options of `Registry#import` reach the C++ importers: `Registry#import`, `Registry.handler_for` and `Registry.guess_type` (bindings/ruby/lib/typelib/registry.rb:15-27, 119-126, 169-178, 220-231), `CXX.loader`, `CXX.load` and `CXX.preprocess` (cxx.rb:76-124), `GCCXMLLoader.load`, `.parsing_thread`, `.castxml`, `.gccxml`, `.preprocess` and `CastXMLLoader` (gccxml.rb:944-1184), `CLangLoader.load` and `.preprocess` (clang.rb), with property C81.
* `CxxLoadProps`: C81: the options of an import reach the importers.
* `CxxLoadExamples`: C81: preprocessing, unknown importers, examples, and what does not reach the importers.
* `RubyLayout`: C82: memory layouts as the Ruby bindings show them (`Type.memory_layout`, `Type.compatible_with_memcpy?`; bindings/ruby/lib/typelib/type.rb:69-76, 389-427, bindings/ruby/ext/value.cc:265-379).
* `RubyLayoutProps`: C82: theorems on memory layouts as seen from Ruby.
* `RubyHash`: C83: the description of types as Ruby hashes, `Type.to_h` (bindings/ruby/lib/typelib/type.rb:80-129, compound_type.rb:309-315, 340-382, array_type.rb:188-212, container_type.rb:385-409, enum_type.rb:22-42, numeric_type.rb:23-49).
* `RubyHashProps`: C83: theorems on the description of types as Ruby hashes.
* `ClangMeta`: C84: the metadata that the clang-based importer adds to types (tools/typelib-clang-tlb-importer/HandleMetaData.cpp:17-214 and the calls in TypelibBuilder.cpp:183-186, 220-225, 468-470, 588-591).
* `ClangMetaProps`: C84: theorems.
* `ClangMetaLines`: C84: locations noted by the gccxml importer and read back; what does not hold; concrete cases.
* `RubyEnum`: C85: the symbols of an enumeration as Ruby sees them: `keys`, `value_of`, `name_of` and `to_h` of the class of an enum type (bindings/ruby/ext/specialized_types.cc:131-190, bindings/ruby/lib/typelib/enum_type.rb:36-42), over any history of calls of these methods, of `Enum::add` on the type (typelib/typemodel.cc:482-489) and of changes made to the returned hash.
* `RubyMethods`: C86: the methods that the values of a compound type get for its fields (`Typelib.filter_methods_that_should_not_be_defined`, bindings/ruby/lib/typelib.rb:115-131; `Type::ALLOWED_OVERLOADINGS`, type.rb:22-28; `subclass_initialize`, `access_method_module`, `extend_for_custom_convertions` and `custom_convertion_module`, compound_type.rb:172-246, 252-285).
* `ValuePack`: dump and load for every kind of layout (padding merged or not): what is written for a value, and that reading it gives the value back.
* `RubyMarshal`: C87: marshalling from Ruby: `to_byte_array`, `from_buffer`, `marshalling_size` (bindings/ruby/lib/typelib/type.rb:579-581, 660-718, bindings/ruby/ext/value.cc:463-479, 576-600), with their options.
* `RubyMarshalExamples`: C87: concrete cases, and what does not hold.
* `CxxLoadMore`: C81: preprocessing with gccxml, options of a wrong kind, files without extension.
* `RubyFullName`: C88: the parts of a type name in Ruby: `Typelib.basename`, `Typelib.namespace` (bindings/ruby/lib/typelib.rb:87-108), `Typelib.split_typename` (bindings/ruby/ext/value.cc:176-202), and `basename`, `namespace`, `split_typename` and `full_name` of the classes of types (bindings/ruby/lib/typelib/type.rb:433-464).
* `RubyTypeEq`: Property C89: comparing types from Ruby, `type == object` and `type.casts_to?(other)` (bindings/ruby/ext/value.cc:211-224, 258-263).
* `RubyPlugins`: Property C90: loading the Ruby plugins of typelib, `Typelib.load_typelib_plugins(force:)` (bindings/ruby/lib/typelib.rb:146-188), called whenever a registry is created (registry.rb:157-162), over histories of calls in environments that change between the calls.
* `RubyResize`: Property C91: resizing types from Ruby, `Registry#resize` and `Registry#resize_type` (bindings/ruby/lib/typelib/registry.rb:243-269, bindings/ruby/ext/registry.cc:319-341): the conversion of the arguments, and their effect on the registry through `Registry::resize` (C32).
* `RegistryAdd`: C92: `Registry#add` of the Ruby bindings (bindings/ruby/lib/typelib/registry.rb:504-507): a type of another registry, what it is made of and the aliases of these are copied. `minimal` is called with a name, hence with the aliases (registry.rb:53-55).

## 5. What is modelled and what is not

Modelled (files of `/repo`): `typelib/typename.cc`, `typelib/registry.cc`, `typelib/typemodel.cc` (all classes: comparison,
merge, resize, metadata, enum, compound), `typelib/typebuilder.cc`, `typelib/memory_layout.{hh,cc}`,
`typelib/value_ops.cc`, `typelib/value_ops.hh` streams, `typelib/endianness.cc`, `typelib/endian_swap.hh`,
`typelib/typevisitor.cc` and `typelib/value.{hh,cc}` (visitors, field access), `typelib/csvoutput.cc`, `typelib/exporter.cc`,
`typelib/utilmm/configset.{hh,cc}`, `typelib/utilmm/singleton/*`, `lang/csupport/containers.cc`, `lang/idl/export.cc`,
`lang/tlb/export.cc`, `lang/tlb/import.cc`, `lang/tlb/xmltools.hh`, `bindings/ruby/ext/memory.cc`,
`typelib/pluginmanager.cc`, `typelib/value_cast.hh`, `typelib/normalized_numerics.hh`, `lang/csupport/standard_types.cc`,
`bindings/ruby/ext/{convert,strings}.cc`, enumeration, definition, removal and freeing of types in `bindings/ruby/ext/registry.cc` and `bindings/ruby/lib/typelib/registry.rb`, the arrays and containers of `bindings/ruby/ext/specialized_types.cc`, the caching and
invalidation of `bindings/ruby/lib/typelib/{array_type,container_type,type,accessor,path}.rb`, the names of
`bindings/ruby/lib/typelib/{cxx,gccxml}.rb`,
`tools/typelib-clang-tlb-importer/NamingConversions.cpp` and the renaming table of `IgnoredOrRenamedTypes.cpp`.

Not modelled:

* the text printed for a number or character (`csvoutput` cells are a parameter), `operator <<` debugging output;
* the clang and gccxml importers (apart from the naming conversions), which depend on the AST of another compiler;
* the rest of the Ruby library (`bindings/ruby/lib`) and of the Ruby extension, which depend on the Ruby VM;
* `lang/idl` importing (it does not exist in this code), the command line tools;
* locale, threads (apart from C41), allocation failure (apart from the bound on element counts of `Vector::resize`).

## 6. Findings: where the code departs from the property

For each, the model follows the code and the named theorem proves the departure on a concrete case (or for all cases).

1. a structure with a container of itself (`struct Node { std::vector<Node> children; }`) has no layout: `layout_of` recurses for ever: `C57_recursive`, `C57_recursive_counterexample`.
2. `Vector` keeps the layout of its elements from its creation: it is stale after `Registry::resize` (containers.cc:20-24): `C57_stale_counterexample`.
3. `copySourceIDs` overwrites the source of a type when one of its aliases has none (registry.cc:189-190): `C51_alias_counterexample`.
4. `load` of an element count of 0 leaves the previous elements of the destination in place (value_ops.cc:174): `C46_load_empty_counterexample`, `C46_load_empty_string_counterexample`.
5. `Vector::resize` computes `new_size * element_size` modulo 2^64 (containers.cc:100): a hostile count makes `load` write out of bounds: `C13_overflow_counterexample`.
6. `Registry::isSame` increments `left_end` instead of `right_it` (registry.cc:567): `C31_counterexample`.
7. `Type::isSame` is not symmetric (recursion stack keyed on the left type, typemodel.cc:76-100): `C27_counterexample`.
8. null types are the same whatever their names and sizes: `C26_null_counterexample`.
9. `canCastTo` accepts containers with merely castable elements once the pair is on the stack: `C28_container_elements_counterexample`.
10. `simplify` breaks layouts of arrays of empty arrays and ignores `remove_trailing_skips = false` in merged blocks: `C09_empty_array_counterexample`, `C09_empty_array_counterexample2`, `C08_trailing_skips_counterexample`.
11. `isValidTypename` accepts text after a top-level `>`, `,`, `*`, doubled brackets, malformed integers; and rejects pointers to arrays and arrays in template arguments that are not last: `C05_soundness_fails`, `C05_array_leaks`, `C05_template_leaks`, `C05_completeness_limits`.
12. empty namespaces are read before their first character: `C04_relative_empty_ub`, `C06_failures`.
13. new plain elements of a vector are zero-filled although `init` would give enums a declared value: `C19_enum_zero_filled`.
14. endian swap: trailing padding of nested compounds is not skipped, enums are swapped as 4 bytes, arrays of dimension 0 are undefined, swapping in place corrupts: `C20_trailing_padding_counterexample`, `C20_small_enum_counterexample`, `C20_empty_array_counterexample`, `C20_in_place_counterexample`.
15. a failed `add` can leave the type registered (invalid derived alias): `C21_failed_add_counterexample`.
16. clashes of relative names are decided by history; `remove` does not restore a shadowed name: `C22_counterexample`, `C22_remove_counterexample`.
17. `merge`: members of compounds are not compared by name, failure is not atomic, recursive types with arrays get size 0, aliases can hide types: `C29_counterexample`, `C29_not_atomic_counterexample`, `C29_modified_counterexample`, `C29_recursive_counterexample`, `C29_alias_counterexample`, `C30_alias_counterexample`.
18. `resize`: growths that cancel, unordered fields, explicitly resized compounds, unknown names (null dereference), recursive types (no termination): `C32_cancel_counterexample`, `C32_unordered_counterexample`, `C32_explicit_compound_counterexample`, `C32_unknown_name_ub`, `C32_recursive_type_diverges`.
19. `offset + size` of a field wraps; padding is computed in `int`: `C36_overflow_counterexample`, `C36_padding_counterexample`.
20. array dimensions are read with `atoi` and not checked; pointers to arrays and templates cannot be built; a size given with another spelling changes an existing array: `C37_parse_unchecked`, `C37_unbuildable`, `C37_size_counterexample`.
21. TLB: only `<` and `>` are escaped, enum sizes, field order, container size 0, metadata ending a CDATA section, line ends, source ids, persistent arrays and aliases of non-persistent types are lost: `C38_counterexample_*`.
22. CSV: containers and opaques misalign the line, recursive types loop, the separator is not escaped: `C39_*_counterexample`.
23. IDL: an exporter that is reused keeps its state; template names are split; blobs and sequences clash: `C40_reuse_counterexample`, `C40_template_counterexample`, `C40_blob_counterexample`, `C40_collision_counterexample`.
24. IDL: vectors of arrays give `sequence<long[3]>`, which is not IDL: `C48_array_element_counterexample`.
25. `value_cast` of a compound gives the last number of the type reached before a number of another type, not an error: `C49_compound_counterexample`.
26. `addStandardTypes` lacks 22 of the 83 spellings of the integer types (`int short`, `unsigned int long`, ...) and dereferences a null pointer if `/bool` is there without `/int8_t`: `C50_missing_spellings_counterexample`, `C50_null_counterexample`.
27. destroying the last singleton, which uses another one, reads the deleted server: `C41_nested_use_counterexample`.
28. visitor: default result stops the visit, arrays ignore a stop, null pointers are followed, small enums are read as `int`, cyclic data diverge: `C42_*_counterexample`.
29. config_set: reading one value converts all; a child inserted twice is deleted twice: `C43_get_one_converts_all`, `C43_shared_child_double_delete`.
30. Ruby memory: stale zones, unknown roots and rejected zones break the counts: `C44_*_counterexample`.
31. C++ names: several template arguments, renamed components, `operator<`, one-letter names: `C45_comma_counterexample`, `C45_rename_counterexample`, `C45_less_counterexample`, `C45_one_letter`.
32. Ruby: unsigned 32-bit numbers from 2^31 on are read as negative, unsigned 64-bit ones from 2^63 on are refused, small types wrap, enums are written as 4 bytes: `C52_get_u32_counterexample`, `C52_set_u64_counterexample`, `C52_set_wraps_counterexample`, `C52_enum_overrun_counterexample`.
33. Ruby strings: `from_string` on a `char[0]` writes before the array, on a `char*` it calls `strncpy` with 2^64-1 bytes: `C53_zero_dim_counterexample`, `C53_pointer_counterexample`.
34. Ruby arrays: a negative index means the last element read so far; an index in an empty array gives the array itself: `C54_negative_counterexample`, `C54_empty_counterexample`.
35. Ruby containers: `[]=`, `raw_memcpy`, strings and `delete_if` leave objects that point to freed memory: `C55_set_counterexample`, `C55_string_counterexample`, `C55_delete_if_counterexample`.
36. Ruby loader: `parse_template` drops what follows the last `>`, so a class declared inside `std::vector<int>` becomes an alias of the vector (gccxml.rb:576-602); empty argument lists swallow the next bracket; what follows a `>` gets a slash; one-letter names differ from those of the clang importer: `C60_nested_counterexample`, `C60_empty_counterexample`, `C60_suffix_counterexample`, `C60_letter_counterexample`.
37. `validate` checks the size of an INIT block against one word too many and then leaves the list; `getElementLayout` does not catch the `length_error` of `simplify`: `C09_init_bound_counterexample`, `C57_creation_counterexample`.
38. Ruby `create_compound` takes negative offsets modulo 2^64, accepts overlapping fields, sizes below the fields and types of other registries; `create_enum` with a symbol given two values and `alias` to a taken name let a C++ exception through the interpreter (registry.cc:187-200, 630-640): `C61_negative_counterexample`, `C61_overlap_counterexample`, `C61_foreign_counterexample`, `C61_enum_twice_counterexample`, `C61_alias_taken_counterexample`.
39. a Ruby hash as the value of an import or export option makes the extension read strings as arrays (registry.rb:137-138 against registry.cc:211-222); two keys that are the same as strings are put together or overwrite each other: `C62_hash_counterexample`, `C62_same_name_counterexample`.
40. `Accessor.find_in_type` never ends for types that contain themselves through a container, and gives the first of two fields of the same name twice (accessor.rb:20-55): `C63_recursive_counterexample`, `C63_same_name_counterexample`.
41. `Type.recursive_dependencies` keeps incomplete results for the types of a cycle: after a call on `struct Node { Node* next; int value; }`, `/Node*` has no `/int` any more (type.rb:169-183): `C64_order_counterexample`.
42. Ruby `ContainerType.of_size` with elements that end with padding raises, or silently gives other elements (the padding is left out of each copy, container_type.rb:250-253): `C65_of_size_padding_counterexample`, `C65_of_size_garbage_counterexample`.
43. Ruby strings with multi-byte characters are cut when converted to `/std/string`: the number of characters is used as number of bytes (standard_convertions.rb:28-30): `C65_string_counterexample`, `C65_string_round_trip`.
44. The clang importer ignores where a base class is: with two bases, the members of the second one get the offsets they have in the base (two fields at offset 0).: `C66_bases_counterexample`.
45. The clang importer takes a bit-field that starts at a byte for a plain field of the size of its type: fields overlap and the compound is larger than the class.: `C66_bitfield_counterexample`.
46. The clang importer gives all enums 4 bytes and reads enumerators as signed values of the underlying type: `enum : unsigned char {A = 200}` becomes 4 bytes and A = -56.: `C66_enum_counterexample`.
47. The clang importer aborts (uncaught AlreadyDefined) on `struct { bool a[4]; unsigned char b[4]; }`: aliasing the second element type registers the name of the array first.: `C66_array_counterexample`.
48. The clang importer recurses without end on `struct A { std::vector<A> v; }`.: `C66_recursion_counterexample`.
49. The clang importer makes compounds with two fields of the same name when a class hides a member of its base.: `C66_shadow_counterexample`.
50. The clang importer refuses a class with a private base, but accepts a class derived from it, private members of the base included.: `C66_private_counterexample`.
51. The clang importer aborts (uncaught exception) on a vector with an allocator it can describe.: `C66_allocator_counterexample`.
52. The clang importer takes unions for classes: the fields of the compound overlap (all at offset 0).: `C66_union_counterexample`.
53. `value['f'] = x` (`set`, `set_field`) is lost when the converted field has been read before by its accessor; the same for `raw_f=` and for `from_buffer`.: `C67_set_counterexample`, `C67_raw_set_counterexample`, `C67_from_buffer_counterexample`.
54. `value['f']` does not see what was assigned by `value.f = x`.: `C67_get_counterexample`.
55. Changes in a part obtained by `value['part']` or `raw_part` are not in the bytes of the value.: `C67_part_counterexample`.
56. `dup` replaces the parts remembered by the original: changes made through parts obtained before are lost.: `C67_dup_counterexample`.
57. `value.f = nil` on a converted field raises nothing and drops the pending change.: `C67_nil_counterexample`.
58. Ruby: a conversion declared by name for an array or container whose elements are converted is overridden by the default conversion, contrary to the comments in array_type.rb:128 and container_type.rb:212: `C68_array_override_counterexample`.
59. Ruby: `convert_from_ruby Array` declared for an array or container is always overridden by the default one: `C68_from_array_counterexample`.
60. Ruby: a conversion declared for a number (e.g. /bool) is not taken into account by its containers: `C68_number_counterexample`.
61. Ruby: `Typelib.convert_to_ruby(key, if: …)` loses its condition (specializations.rb:304-306): `C68_condition_counterexample`.
62. Ruby: getting the class of a type that contains itself through containers never ends: `C68_recursive_counterexample`.
63. Containers of enumerations cannot be filled from Ruby: EnumType has a `from_ruby` but no entry in `convertions_from_ruby`, so `ContainerType#concat` hands the symbol or string itself to `do_push`, which raises TypeError.: ``C69_enum_container_counterexample``.
64. `to_simple_value` of an enumeration with an undeclared value is the empty string (`nil.to_s`), for all such values.: ``C69_undeclared_enum_counterexample``.
65. `Typelib.from_ruby(value.to_simple_value, type)` raises RangeError for a `uint64_t` of 2^63 or more and truncates strings with multi-byte characters.: ``C69_uint64_counterexample``, ``C69_string_counterexample``.
66. A compound made from a hash keeps, in the fields that are not in the hash, whatever the allocated memory held.: ``C69_hash``.
67. `RegistryExport` stores namespaces under the Ruby name of the module (`[name, []]` instead of `[m, args]`): they are never reused, and `Types.Types` gives the last namespace that was looked up: ``C70_own_name_counterexample``.
68. looking a type up through an alias changes the prefix of its class: the types nested in it are not found any more by their own path: ``C70_alias_counterexample``.
69. types removed from the registry are still found by `Types.…`, and what a relaxed lookup found is given to strict ones: ``C70_removed_counterexample``, ``C70_relaxed_counterexample``.
70. the regexp of the relaxed lookups (`/…/o`) is built once per process: lookups in other namespaces give an empty namespace instead of the type, or a type of another namespace: ``C70_once_counterexample``, ``C70_wrong_namespace_counterexample``.
71. `Types.ns.T` is a new object at each evaluation if the type is converted to a Ruby class: ``C70_identity_counterexample``.
72. two modules that export the same registry share the filter blocks of the types: ``C70_filter_counterexample``.
73. gccxml import: `struct Node { Node *next; }` or `struct Tree { std::vector<Tree> c; }` aborts the whole import with `NotFound`: the structure has a name in `id_to_name` before it is in the registry: `C71_list_counterexample`, `C71_tree_counterexample`.
74. gccxml import: all enums get the size of an `int`, whatever their type; an empty enum or a value out of the range of `int` aborts the whole import: `C71_enum_size_counterexample`, `C71_enum_abort_counterexample`.
75. gccxml import: bit-fields become whole fields that overlap: `C71_bitfield_counterexample`.
76. gccxml import: an array member without a size (`int data[];`), or deriving from a container, aborts the whole import: `C71_array_counterexample`, `C71_base_counterexample`.
77. gccxml import: if a base class has two members with the same name (one of them inherited), both get the offset of the first in the classes derived from it: `C71_hidden_member_counterexample`.
78. gccxml import: `resolve_type_definition` returns the name of the alias the first time and that of the type later for typedefs; `nil` first and a name later for inaccessible types: `C71_history_counterexample`.
79. `Typelib.copy` between types that `casts_to?` each other can produce a vector that is not a whole number of elements: canCastTo accepts structures with different padding as elements of containers once they were compared as fields: `C72_vector_counterexample`.
80. Ruby `==` between two Typelib values raises ArgumentError instead of returning false when the types are unrelated, and for two enums of which one has more symbols only one way round: `C72_equality_counterexample`.
81. `dup`/`Typelib.copy` of a value that contains a pointer ends the process: NoLayout is not caught by typelib_do_copy (typelib_compare catches it): `C72_abort_counterexample`.
82. `Typelib.compare` does not check for invalidated values and reads from a null pointer (`Typelib.copy` checks): `C72_invalidated_counterexample`.
83. `Type#cast` to a structure with more trailing padding gives a value larger than its memory: memory_eql? and the unsimplified byte array read past the end: `C72_overrun_counterexample`.
84. Ruby: `v.push(v[0])` on a vector whose elements are not numbers reads the element in the buffer that the push has just freed whenever the buffer has to grow (`Vector::push` resizes before it copies, containers.cc:144-157): `C73_own_full_partial`, `C73_cex_push_own`.
85. Ruby: after `v[i, n]` or `v.raw_get(i)` on a vector of numbers, `v[i]` is no longer a number but a Typelib object on the memory of the vector, because `raw_get_no_boundary_check` leaves its object in `@elements` (container_type.rb:83-99): `C73_cex_number_object`.
86. Ruby: `each` reads elements without a check of the index: a block that shrinks the vector makes it read past the end (container_type.rb:167-172): `C73_cex_each_clear`.
87. Ruby: the size of a container is `INT2NUM` of a `size_t`: from 2^31 elements on it is negative, all indexes are refused, and an append that does not move the buffer never ends (`while @elements.size > self.size`, container_type.rb:275): `C73_cex_big_size`, `C73_cex_big_hang`.
88. Ruby: `v[i, n]` with a negative `n` gives an empty container instead of an error: `C73_cex_negative_slice`.
89. Ruby: `erase` and `delete_if` on a string container do nothing; `erase` returns false, `delete_if` gives no sign (containers.cc:429-432, 488-489): `C73_cex_string_erase`, `C73_cex_string_delete_if`.
90. `GCCXMLLoader.parsing_thread` takes a `ThreadError` raised by the tool (or a `StopIteration`) for the end of the queue: `load` returns with files missing: `C74_cex_swallowed`.
91. a failing `GCCXMLLoader.load` with several threads can leave its registry thread blocked for ever: a second failing parsing thread clears the end marker: `C74_cex_thread_left`.
92. `GCCXMLLoader.load` is not all or nothing: a conflict found by a merge leaves the registries merged before it: `C74_cex_half_merged`.
93. with several threads the order of the merges, hence the resulting registry or the error, depends on the schedule: `C74_cex_order`.
94. `dump(Value, FILE*)` ignores the result of `fwrite`: it returns normally when writes fail, and the file may have a hole in the middle; the same silence with a std::ostream.: `C75_cex_file`, `C75_cex_ostream`.
95. `dump(Value, int fd)` raises on a short write (pipe, socket, signal) instead of writing the rest, leaving a part of the value in the file.: `C75_cex_short`.
96. `parse_cxx_documentation_before` goes on at the end of the file when the comment is at its beginning (`lines[-1]` is the last line in Ruby): the comment at the end of the file becomes documentation; the same in `set_source_file`, which can give line 0 or -1.: `C76_cex_wrap`, `C76_cex_line`.
97. All comments before a declaration are joined, even separated by blank lines (licence headers); a field that starts with a comment on its line is taken for the documentation of the next one; a block comment whose lines have no stars is lost; `*/` stays in the middle of the text; `@meta` with two spaces is ignored.: `C76_cex_joined`, `C76_cex_code`, `C76_cex_nostar`, `C76_cex_ends`, `C76_cex_meta`.
98. GCCXMLLoader.load drops `typedef int Count;` (any typedef of a standard type) unless some new type of the same headers happens to contain that standard type, whether or not it uses the typedef: `C77_cex_basic`.
99. Merging registries can give a type the documentation of another type: when an alias of the destination and of the source designate different types of the same structure, merge accepts it and mergeMetaData merges by name: `C78_alias_counterexample`.
100. After a merge the `source_id` metadata can list two files while the registry reports only one source: `C78_source_counterexample`.
101. The metadata of a field whose name an earlier field also has are lost in a merge; it gets those of the first field: `C78_same_name_counterexample`.
102. Ruby `md['k'] = ['a']` raises TypeError after having removed the key `k`: `C79_set_counterexample`.
103. Ruby `MetaData#delete` with several keys silently removes none: `C79_delete_counterexample`.
104. Keys and values of metadata given from Ruby are cut at the first NUL byte, so different keys collide: `C79_nul_counterexample`.
105. `Registry::dump` with `NameOnly` prints the name of the type an alias is for instead of the alias' own name, so a name is listed once per alias and alias names are not shown: `C80_names_counterexample`.
106. displaying an opaque, enum, pointer or container does not show its size: `C80_size_counterexample`.
107. the clang importer drops `include`, `include_paths` and `rawflags`: `include_paths` is a keyword parameter of its own and `options[:include_paths]` is always nil: `C81_clang_counterexample`.
108. choosing the importer `gccxml` runs castxml, since `parsing_thread` defaults to `castxml: true` and `GCCXMLLoader.load` does not pass anything: `C81_gccxml_counterexample`.
109. when gccxml fails a NameError is raised instead of the ArgumentError, the message uses an undefined variable `file`: `C81_error_counterexample`.
110. `CLangLoader.preprocess` raises NoMethodError when `include` or `define` is missing and ignores `include_paths` and `rawflags`: `C81_preprocess_counterexample`.
111. Ruby `Type.compatible_with_memcpy?` is false for every type: it examines the pair [layout, init layout] as if it was the layout: `C82_memcpy_counterexample`.
112. `memory_layout(accept_pointers: true)` describes pointers as data to copy although the documentation says they are skipped: `C82_pointers_counterexample`.
113. sizes of 2^63 and more appear as negative numbers in Ruby's memory layouts: `C82_large_counterexample`.
114. `to_h` of a type that contains a vector of itself recurses without end (its classes cannot be made either, C68): `C83_recursive_counterexample`.
115. `to_h(layout_info: true)` tells the offset of the first field for all fields of the same name: `C83_duplicate_counterexample`.
116. `to_h(layout_info: true)` of a compound with a field name that is not ASCII raises "no such field": `C83_ascii_counterexample`.
117. `to_h` does not tell what a pointer points to: `C83_pointer_counterexample`.
118. sizes of 2^62 and more are told as negative numbers: `C83_large_counterexample`.
119. the clang importer runs the paragraphs of a comment together: `C84_paragraphs_counterexample`.
120. one block of another kind (\\code, \\param) in a comment makes the clang importer drop the whole documentation: `C84_block_counterexample`.
121. the clang importer drops the arguments of inline commands from the documentation, and notes an empty one for comments of white space: `C84_inline_counterexample`, `C84_blank_counterexample`.
122. the clang importer notes the target of relative symbolic links as it is, and resolves only one of a chain of links: `C84_link_counterexample`.
123. the location of a file with `:` in its path is not read back: `C84_colon_counterexample`.
124. a gccxml node with a file and no line makes the loading fail with a TypeError: `C84_no_line_counterexample`.
125. the gccxml importer notes line 0 or -1 if all lines up to the reported one are empty (`content[-1]` is the last line): `C84_empty_counterexample`.
126. The hash that `keys` of an enumeration returns is the one the class remembers: a program that changes it changes all later answers of `keys` and `to_h`: `C85_shared_counterexample`.
127. A symbol added (from C++) after the first call of `keys` is missing from `keys` for ever, although `value_of` knows it: `C85_stale_counterexample`.
128. Enumeration symbols are cut at a NUL byte: `name_of` gives a name that `value_of` refuses, and `keys` merges symbols: `C85_nul_counterexample`.
129. `name_of(1.9)` is accepted and means `name_of(1)`: `C85_truncated_counterexample`.
130. `keys` has binary strings: a symbol with a character that is not ASCII is not found with `keys[name]`: `C85_encoding_counterexample`.
131. A structure with fields `x` and `raw_x` (any name after `raw_` in the alphabet): `value.raw_x` and `value.raw_x = ...` silently mean the field `x`: `C86_raw_counterexample`.
132. A field called like a method of every object (`dup`, `freeze`, `hash`, `send`) replaces it, also where the library itself defines and uses it (Type#dup, Type#freeze): `C86_overload_counterexample`.
133. A converted field called `get_cached` replaces the library's `raw_get_cached`, which invalidation uses: the `raw_` methods of converted fields are not checked: `C86_protected_counterexample`.
134. `to_byte_array(merge_skip_copy: false)` on a vector of structures, even unpadded, ends the process: element layout (always merged) and layout in force disagree, the C++ exception is not caught: `C87_unmerged_counterexample`.
135. `to_byte_array` and `from_buffer` on a type with a pointer or opaque end the process (NoLayout is not caught), where `marshalling_size` gives nil: `C87_no_layout_counterexample`.
136. `marshalling_size` takes no options, so it is not the size of `to_byte_array` with options; it is negative from 2 GiB: `C87_size_options_counterexample`, `C87_size_counterexample`.
137. `accept_pointers: true` marshals addresses as data and `from_buffer` stores them (documented as ignored); `accept_opaques: true` copies the bytes of opaques between fields: `C87_pointers_copied_counterexample`, `C87_opaques_copied_counterexample`.
138. `to_byte_array` of a value without bytes evaluates `&buffer[0]` on an empty vector: `C87_empty_counterexample`.
139. `full_name('::', true)` of a template, documented as its C++ name, is no C++ for arguments that are built-in types: `/std/vector</int>` gives `std::vector<::int>`: `C88_template_counterexample`, `C88_template`.
140. the root classes of the Ruby library are all equal: `Typelib::NumericType == Typelib::CompoundType` is true (their guard types are null types of the same name), `Type == NumericType` is true and `NumericType == Type` false: `C89_root_counterexample`.
141. `type == Typelib::NullType`, and comparing a type with a Ruby class derived from a type, raise TypeError (no `@type` in these classes): `C89_raises_iff`, `C89_derived_counterexample`.
142. a plugin in TYPELIB_RUBY_PLUGIN_PATH that raises is lost, with all after it: the plugins are recorded as loaded before these files are required, and later calls succeed silently: `C90_lost_counterexample`.
143. a forced `load_typelib_plugins` ignores new plugins in the directories of TYPELIB_RUBY_PLUGIN_PATH while the variable is unchanged: `C90_forced_counterexample`.
144. `registry.resize_type(type, -1)` asks for 2^64 - 1 bytes instead of raising: `C91_negative_counterexample`.
145. a type given twice in `Registry#resize`, by class and by name, silently gets the first of the two sizes: `C91_twice_counterexample`.
146. `Registry#resize` with the name of an unknown type dereferences a null pointer: `C91_unknown_counterexample`.
147. `registry.add(type)` raises after it has added types, when an alias the type does not even mention names another type: `C92_not_atomic_counterexample`.
148. Ruby `Registry#remove` with a type of another registry takes the type over: it is deleted twice (bindings/ruby/ext/registry.cc:93-102): `C59_foreign_counterexample`.
149. plugins: a search path that is empty or ends in a colon makes the constructor throw (pluginmanager.cc:47); a refused plugin is leaked; a definition plugin added twice is deleted twice: `C56_trailing_colon_counterexample`, `C56_leak_counterexample`, `C56_twice_counterexample`.
150. an alias requested after it was propagated stays non-persistent, so it is not exported: `C47_propagated_first`.
